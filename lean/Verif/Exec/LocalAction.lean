import Verif.Util.OMap

/-!
# Local execution of actions and the action cache (C21, C68)

What an action does when it is run is a parameter (`Run`): whether it could be started, its exit code, and what is
found at each output path afterwards. The identifier of an action is a parameter as well (`dig`; its properties are
the subject of C47).
-/

namespace Verif.Exec

open Verif

/-- common/execution_action.hpp:32-37. -/
inductive CacheFlag where
  | cacheOutput
  | doNotCacheOutput
  | fromCacheOnly
  | pretendCached
  deriving DecidableEq

/-- common/execution_action.hpp:41-43 (`CacheEnabled`). -/
def cacheEnabled : CacheFlag → Bool
  | .cacheOutput => true
  | .fromCacheOnly => true
  | _ => false

/-- common/execution_action.hpp:45-49 (`ExecutionEnabled`). -/
def executionEnabled : CacheFlag → Bool
  | .fromCacheOnly => false
  | _ => true

/-- common/execution_action.hpp, `RequestMode`: legacy protocol, protocol with `output_paths`, and both at once. -/
inductive Mode where
  | v20
  | v21
  | bestEffort
  deriving DecidableEq

/-- local_action.hpp:86-95: an action. `core` is everything that is only handed over to the identifier and to the
execution: root directory, command line, working directory, environment, properties, timeout. -/
structure Action (κ : Type) where
  core : κ
  files : List Str
  dirs : List Str
  paths : List Str
  mode : Mode
  deriving DecidableEq

/-- `bazel_re::ActionResult`: exit code, and for each kind of output the path with the digest or link target.
Standard output and error are left out. -/
structure Result where
  exitCode : Int
  files : List (Str × Str)
  fileLinks : List (Str × Str)
  dirLinks : List (Str × Str)
  links : List (Str × Str)
  dirs : List (Str × Str)
  deriving DecidableEq

/-- What is found at an output path after running: local_action.cpp:407-562. A path where nothing usable is found
(no such entry, other type, a link that is not allowed, or content that could not be stored) is `none`. -/
inductive Found where
  | none
  | file (digest : Str)
  | link (target : Str)
  | dir (digest : Str)
  deriving DecidableEq

/-- utils/outputscheck.hpp:28-63, both loops over expected outputs. -/
def containsOutputs (r : Result) (files dirs : List Str) : Bool :=
  files.all (fun p => (r.files.map (·.1)).contains p || (r.fileLinks.map (·.1)).contains p ||
    (r.dirLinks.map (·.1)).contains p) &&
  dirs.all (fun p => (r.dirs.map (·.1)).contains p)

/-- utils/outputscheck.hpp:66-91 (overload for paths). -/
def containsPaths (r : Result) (paths : List Str) : Bool :=
  paths.all (fun p => (r.files.map (·.1)).contains p || (r.fileLinks.map (·.1)).contains p ||
    (r.dirLinks.map (·.1)).contains p || (r.dirs.map (·.1)).contains p)

/-- local_action.cpp:570-602 (loop over paths): the result so far, and whether all could be collected. -/
def collectPaths (look : Str → Found) : List Str → Result → Result × Bool
  | [], r => (r, true)
  | p :: t, r =>
    match look p with
    | .none => (r, false)
    | .link l => collectPaths look t { r with links := r.links ++ [(p, l)] }
    | .file d => collectPaths look t { r with files := r.files ++ [(p, d)] }
    | .dir d => collectPaths look t { r with dirs := r.dirs ++ [(p, d)] }

/-- local_action.cpp:606-632 (loop over files), with 407-453: a directory is not accepted. -/
def collectFiles (look : Str → Found) (best : Bool) : List Str → Result → Result × Bool
  | [], r => (r, true)
  | p :: t, r =>
    match look p with
    | .link l => collectFiles look best t
        { r with links := if best then r.links ++ [(p, l)] else r.links, fileLinks := r.fileLinks ++ [(p, l)] }
    | .file d => collectFiles look best t { r with files := r.files ++ [(p, d)] }
    | _ => (r, false)

/-- local_action.cpp:633-659 (loop over directories), with 455-501: a file is not accepted. -/
def collectDirs (look : Str → Found) (best : Bool) : List Str → Result → Result × Bool
  | [], r => (r, true)
  | p :: t, r =>
    match look p with
    | .link l => collectDirs look best t
        { r with links := if best then r.links ++ [(p, l)] else r.links, dirLinks := r.dirLinks ++ [(p, l)] }
    | .dir d => collectDirs look best t { r with dirs := r.dirs ++ [(p, d)] }
    | _ => (r, false)

variable {κ δ : Type} [DecidableEq δ]

/-- local_action.cpp:564-667 (`CollectAndStoreOutputs`). -/
def collect (look : Str → Found) (a : Action κ) (r : Result) : Result × Bool :=
  if a.mode = .v21 then collectPaths look a.paths r
  else
    match collectFiles look (a.mode == .bestEffort) a.files r with
    | (r, false) => (r, false)
    | (r, true) => collectDirs look (a.mode == .bestEffort) a.dirs r

/-- What happens when an action is run: `exit` is `none` if it could not be prepared or started
(local_action.cpp:185-203, 240-242), `stored` tells whether writing to the action cache works. -/
structure Run where
  exit : Option Int
  look : Str → Found
  stored : Bool

/-- The action cache: what `CachedResult` finds. -/
abbrev Cache (δ : Type) := δ → Option Result

/-- local_ac.tpp:31-36 (`StoreResult`); the last result wins. -/
def Cache.store (c : Cache δ) (d : δ) (r : Result) : Cache δ := fun d' => if d' = d then some r else c d'

/-- local_action.cpp:183-243 (`Run`): result and the cache afterwards. -/
def runAction (c : Cache δ) (flag : CacheFlag) (a : Action κ) (w : Run) (d : δ) : Option Result × Cache δ :=
  match w.exit with
  | none => (none, c)
  | some e =>
    match collect w.look a ⟨e, [], [], [], [], []⟩ with
    | (r, false) => (some r, c)
    | (r, true) => (some r, if flag = .cacheOutput ∧ w.stored = true then c.store d r else c)

/-- local_response.hpp: the response to the caller. -/
structure Response (δ : Type) where
  digest : δ
  result : Result
  cached : Bool
  deriving DecidableEq

/-- What an execution did: the response, the cache afterwards, and whether the command was (tried to be) run. -/
structure Outcome (δ : Type) where
  response : Option (Response δ)
  cache : Cache δ
  ran : Bool

/-- local_action.cpp:136-141: whether a result from the cache can be used. -/
def usable (a : Action κ) (r : Result) : Bool :=
  r.exitCode == 0 && (if a.mode = .v21 then containsPaths r a.paths else containsOutputs r a.files a.dirs)

/-- local_action.cpp:133-149: the result in the cache, if it can be used. -/
def fromCache (c : Cache δ) (a : Action κ) (d : δ) : Option Result :=
  match c d with
  | none => none
  | some r => if usable a r = true then some r else none

/-- local_action.cpp:151-180: running the action. -/
def runEnabled (dig : Action κ → Bool → Option δ) (c : Cache δ) (flag : CacheFlag) (a : Action κ) (w : Run) (d : δ) :
    Outcome δ :=
  if executionEnabled flag = true then
    match runAction c flag a w d with
    | (none, c') => ⟨none, c', true⟩
    | (some r, c') =>
      if flag = .pretendCached then
        match dig a false with
        | none => ⟨none, c', true⟩
        | some d' => ⟨some ⟨d', r, true⟩, c', true⟩
      else ⟨some ⟨d, r, false⟩, c', true⟩
  else ⟨none, c, false⟩

/-- local_action.cpp:94-181 (`Execute`). The second argument of `dig` is `do_not_cache`. -/
def execute (dig : Action κ → Bool → Option δ) (c : Cache δ) (flag : CacheFlag) (a : Action κ) (w : Run) : Outcome δ :=
  match dig a (!cacheEnabled flag) with
  | none => ⟨none, c, false⟩
  | some d =>
    if cacheEnabled flag = true then
      match fromCache c a d with
      | some r => ⟨some ⟨d, r, true⟩, c, false⟩
      | none => runEnabled dig c flag a w d
    else runEnabled dig c flag a w d

/-- One execution request. -/
structure Request (κ : Type) where
  flag : CacheFlag
  action : Action κ
  run : Run

/-- Executions one after the other, with their outcomes. -/
def executeAll (dig : Action κ → Bool → Option δ) : Cache δ → List (Request κ) → List (Outcome δ)
  | _, [] => []
  | c, q :: t => execute dig c q.flag q.action q.run :: executeAll dig (execute dig c q.flag q.action q.run).cache t

/-! ## What a result says -/

/-- A result names an output in any of its lists. -/
def Result.names (r : Result) (p : Str) : Prop :=
  ∃ l ∈ [r.files, r.fileLinks, r.dirLinks, r.links, r.dirs], ∃ c, (p, c) ∈ l

/-- All paths an action has to produce. -/
def Action.outputs (a : Action κ) : List Str := if a.mode = .v21 then a.paths else a.files ++ a.dirs

omit [DecidableEq δ] in
theorem contains_fst {p : Str} {l : List (Str × Str)} (h : (l.map (·.1)).contains p = true) : ∃ c, (p, c) ∈ l := by
  simp only [List.contains_iff_mem, List.mem_map] at h
  obtain ⟨⟨q, c⟩, hm, rfl⟩ := h
  exact ⟨c, hm⟩

theorem contains_of_mem {p c : Str} {l : List (Str × Str)} (h : (p, c) ∈ l) : (l.map (·.1)).contains p = true := by
  simp only [List.contains_iff_mem, List.mem_map]
  exact ⟨_, h, rfl⟩

omit [DecidableEq δ] in
theorem fromCache_some {c : Cache δ} {a : Action κ} {d : δ} {r : Result} (h : fromCache c a d = some r) :
    c d = some r ∧ r.exitCode = 0 ∧
      (if a.mode = .v21 then containsPaths r a.paths else containsOutputs r a.files a.dirs) = true := by
  unfold fromCache at h
  split at h
  · cases h
  · rename_i r' hr
    by_cases hc : usable a r' = true
    · rw [if_pos hc] at h
      cases h
      unfold usable at hc
      rw [Bool.and_eq_true, beq_iff_eq] at hc
      exact ⟨hr, hc⟩
    · rw [if_neg hc] at h
      cases h

theorem names_of_contains {a : Action κ} {r : Result}
    (h : (if a.mode = .v21 then containsPaths r a.paths else containsOutputs r a.files a.dirs) = true) :
    ∀ p ∈ a.outputs, r.names p := by
  intro p hp
  unfold Action.outputs at hp
  split at h
  · rename_i hm
    rw [if_pos hm] at hp
    have := (List.all_eq_true.1 h) p hp
    simp only [Bool.or_eq_true] at this
    rcases this with ((h1 | h1) | h1) | h1
    · obtain ⟨c, hc⟩ := contains_fst h1; exact ⟨_, by simp, c, hc⟩
    · obtain ⟨c, hc⟩ := contains_fst h1; exact ⟨r.fileLinks, by simp, c, hc⟩
    · obtain ⟨c, hc⟩ := contains_fst h1; exact ⟨r.dirLinks, by simp, c, hc⟩
    · obtain ⟨c, hc⟩ := contains_fst h1; exact ⟨r.dirs, by simp, c, hc⟩
  · rename_i hm
    rw [if_neg hm] at hp
    unfold containsOutputs at h
    rw [Bool.and_eq_true] at h
    rcases List.mem_append.1 hp with hp | hp
    · have := (List.all_eq_true.1 h.1) p hp
      simp only [Bool.or_eq_true] at this
      rcases this with (h1 | h1) | h1
      · obtain ⟨c, hc⟩ := contains_fst h1; exact ⟨_, by simp, c, hc⟩
      · obtain ⟨c, hc⟩ := contains_fst h1; exact ⟨r.fileLinks, by simp, c, hc⟩
      · obtain ⟨c, hc⟩ := contains_fst h1; exact ⟨r.dirLinks, by simp, c, hc⟩
    · obtain ⟨c, hc⟩ := contains_fst ((List.all_eq_true.1 h.2) p hp)
      exact ⟨r.dirs, by simp, c, hc⟩

theorem runEnabled_ran {dig : Action κ → Bool → Option δ} {c : Cache δ} {flag : CacheFlag} {a : Action κ} {w : Run}
    {d : δ} (h : (runEnabled dig c flag a w d).ran = false) :
    runEnabled dig c flag a w d = ⟨none, c, false⟩ := by
  unfold runEnabled at h ⊢
  split at h
  · revert h
    split
    · intro h; cases h
    · split
      · split <;> intro h <;> cases h
      · intro h; cases h
  · rename_i hn; rw [if_neg hn]

/-! ## C21 -/

/-- C21: a response that was given without running the action is what the cache has for the (cacheable) identifier of
the action: it has exit code 0 and names all requested outputs; and looking up was allowed. Nothing is changed. -/
theorem C21_served (dig : Action κ → Bool → Option δ) (c : Cache δ) (flag : CacheFlag) (a : Action κ) (w : Run)
    {r : Response δ} (hr : (execute dig c flag a w).response = some r) (hn : (execute dig c flag a w).ran = false) :
    (flag = .cacheOutput ∨ flag = .fromCacheOnly) ∧ dig a false = some r.digest ∧ c r.digest = some r.result ∧
      r.result.exitCode = 0 ∧ (∀ p ∈ a.outputs, r.result.names p) ∧ r.cached = true ∧
      (execute dig c flag a w).cache = c := by
  unfold execute at hr hn ⊢
  split at hr
  · cases hr
  · rename_i d hd
    rw [hd] at hn
    simp only at hn ⊢
    split at hr
    · rename_i hc
      rw [if_pos hc] at hn ⊢
      split at hr
      · rename_i r' hf
        cases hr
        obtain ⟨h1, h2, h3⟩ := fromCache_some hf
        rw [hc] at hd
        refine ⟨?_, hd, h1, h2, names_of_contains h3, rfl, rfl⟩
        cases flag <;> simp_all [cacheEnabled]
      · rename_i hf
        rw [hf] at hn
        rw [runEnabled_ran hn] at hr
        cases hr
    · rename_i hc
      rw [if_neg hc] at hn
      rw [runEnabled_ran hn] at hr
      cases hr

theorem runAction_cache (c : Cache δ) (flag : CacheFlag) (a : Action κ) (w : Run) (d : δ) :
    (runAction c flag a w d).2 = c ∨
      ∃ r e, (runAction c flag a w d) = (some r, c.store d r) ∧ flag = .cacheOutput ∧ w.exit = some e ∧
        collect w.look a ⟨e, [], [], [], [], []⟩ = (r, true) := by
  unfold runAction
  split
  · exact Or.inl rfl
  · rename_i e he
    split
    · exact Or.inl rfl
    · rename_i r hr
      by_cases hs : flag = .cacheOutput ∧ w.stored = true
      · right
        exact ⟨r, e, by rw [if_pos hs], hs.1, he, hr⟩
      · exact Or.inl (if_neg hs)

theorem execute_cases (dig : Action κ → Bool → Option δ) (c : Cache δ) (flag : CacheFlag) (a : Action κ) (w : Run) :
    execute dig c flag a w = ⟨none, c, false⟩ ∨
    (∃ d r, cacheEnabled flag = true ∧ dig a false = some d ∧ fromCache c a d = some r ∧
      execute dig c flag a w = ⟨some ⟨d, r, true⟩, c, false⟩) ∨
    ∃ d, dig a (!cacheEnabled flag) = some d ∧ (cacheEnabled flag = true → fromCache c a d = none) ∧
      execute dig c flag a w = runEnabled dig c flag a w d := by
  cases hd : dig a (!cacheEnabled flag) with
  | none =>
    left
    unfold execute
    rw [hd]
  | some d =>
    by_cases hc : cacheEnabled flag = true
    · cases hf : fromCache c a d with
      | some r =>
        right; left
        refine ⟨d, r, hc, by rw [← hd, hc]; rfl, hf, ?_⟩
        unfold execute
        rw [hd]
        simp only [if_pos hc, hf]
      | none =>
        right; right
        refine ⟨d, rfl, fun _ => hf, ?_⟩
        unfold execute
        rw [hd]
        simp only [if_pos hc, hf]
    · right; right
      refine ⟨d, rfl, fun h => absurd h hc, ?_⟩
      unfold execute
      rw [hd]
      simp only [if_neg hc]

/-! ### Collecting -/

/-- The digest of a file found at a path. -/
def asFile (look : Str → Found) (p : Str) : Option (Str × Str) :=
  match look p with
  | .file d => some (p, d)
  | _ => none

/-- The target of a link found at a path. -/
def asLink (look : Str → Found) (p : Str) : Option (Str × Str) :=
  match look p with
  | .link d => some (p, d)
  | _ => none

/-- The digest of a directory found at a path. -/
def asDir (look : Str → Found) (p : Str) : Option (Str × Str) :=
  match look p with
  | .dir d => some (p, d)
  | _ => none

theorem collectPaths_spec (look : Str → Found) (l : List Str) (r r' : Result)
    (h : collectPaths look l r = (r', true)) :
    r' = { r with files := r.files ++ l.filterMap (asFile look), links := r.links ++ l.filterMap (asLink look),
                  dirs := r.dirs ++ l.filterMap (asDir look) } ∧ ∀ p ∈ l, look p ≠ .none := by
  induction l generalizing r with
  | nil => cases h; simp
  | cons p t ih =>
    unfold collectPaths at h
    obtain ⟨x, hx⟩ : ∃ x, look p = x := ⟨_, rfl⟩
    rw [hx] at h
    cases x with
    | none => cases h
    | file d =>
      obtain ⟨h1, h2⟩ := ih _ h
      refine ⟨by rw [h1]; simp [asFile, asLink, asDir, hx], fun q hq => ?_⟩
      rcases List.mem_cons.1 hq with rfl | hq
      · rw [hx]; exact Found.noConfusion
      · exact h2 q hq
    | link d =>
      obtain ⟨h1, h2⟩ := ih _ h
      refine ⟨by rw [h1]; simp [asFile, asLink, asDir, hx], fun q hq => ?_⟩
      rcases List.mem_cons.1 hq with rfl | hq
      · rw [hx]; exact Found.noConfusion
      · exact h2 q hq
    | dir d =>
      obtain ⟨h1, h2⟩ := ih _ h
      refine ⟨by rw [h1]; simp [asFile, asLink, asDir, hx], fun q hq => ?_⟩
      rcases List.mem_cons.1 hq with rfl | hq
      · rw [hx]; exact Found.noConfusion
      · exact h2 q hq

theorem collectFiles_spec (look : Str → Found) (best : Bool) (l : List Str) (r r' : Result)
    (h : collectFiles look best l r = (r', true)) :
    r' = { r with files := r.files ++ l.filterMap (asFile look),
                  links := r.links ++ (if best then l.filterMap (asLink look) else []),
                  fileLinks := r.fileLinks ++ l.filterMap (asLink look) } ∧
      ∀ p ∈ l, (∃ d, look p = .file d) ∨ ∃ t, look p = .link t := by
  induction l generalizing r with
  | nil => cases h; simp
  | cons p t ih =>
    unfold collectFiles at h
    obtain ⟨x, hx⟩ : ∃ x, look p = x := ⟨_, rfl⟩
    rw [hx] at h
    cases x with
    | none => cases h
    | file d =>
      obtain ⟨h1, h2⟩ := ih _ h
      refine ⟨by rw [h1]; simp [asFile, asLink, hx], fun q hq => ?_⟩
      rcases List.mem_cons.1 hq with rfl | hq
      · exact Or.inl ⟨d, hx⟩
      · exact h2 q hq
    | link d =>
      obtain ⟨h1, h2⟩ := ih _ h
      refine ⟨by rw [h1]; cases best <;> simp [asFile, asLink, hx], fun q hq => ?_⟩
      rcases List.mem_cons.1 hq with rfl | hq
      · exact Or.inr ⟨d, hx⟩
      · exact h2 q hq
    | dir d => cases h

theorem collectDirs_spec (look : Str → Found) (best : Bool) (l : List Str) (r r' : Result)
    (h : collectDirs look best l r = (r', true)) :
    r' = { r with dirs := r.dirs ++ l.filterMap (asDir look),
                  links := r.links ++ (if best then l.filterMap (asLink look) else []),
                  dirLinks := r.dirLinks ++ l.filterMap (asLink look) } ∧
      ∀ p ∈ l, (∃ d, look p = .dir d) ∨ ∃ t, look p = .link t := by
  induction l generalizing r with
  | nil => cases h; simp
  | cons p t ih =>
    unfold collectDirs at h
    obtain ⟨x, hx⟩ : ∃ x, look p = x := ⟨_, rfl⟩
    rw [hx] at h
    cases x with
    | none => cases h
    | file d => cases h
    | link d =>
      obtain ⟨h1, h2⟩ := ih _ h
      refine ⟨by rw [h1]; cases best <;> simp [asDir, asLink, hx], fun q hq => ?_⟩
      rcases List.mem_cons.1 hq with rfl | hq
      · exact Or.inr ⟨d, hx⟩
      · exact h2 q hq
    | dir d =>
      obtain ⟨h1, h2⟩ := ih _ h
      refine ⟨by rw [h1]; simp [asDir, asLink, hx], fun q hq => ?_⟩
      rcases List.mem_cons.1 hq with rfl | hq
      · exact Or.inl ⟨d, hx⟩
      · exact h2 q hq

theorem collect_v21 {look : Str → Found} {a : Action κ} {e : Int} {r : Result} (hm : a.mode = .v21)
    (h : collect look a ⟨e, [], [], [], [], []⟩ = (r, true)) :
    r = ⟨e, a.paths.filterMap (asFile look), [], [], a.paths.filterMap (asLink look),
      a.paths.filterMap (asDir look)⟩ ∧ ∀ p ∈ a.paths, look p ≠ .none := by
  unfold collect at h
  rw [if_pos hm] at h
  obtain ⟨h1, h2⟩ := collectPaths_spec look _ _ _ h
  exact ⟨by rw [h1]; simp, h2⟩

theorem collect_v20 {look : Str → Found} {a : Action κ} {e : Int} {r : Result} (hm : a.mode ≠ .v21)
    (h : collect look a ⟨e, [], [], [], [], []⟩ = (r, true)) :
    r = ⟨e, a.files.filterMap (asFile look), a.files.filterMap (asLink look), a.dirs.filterMap (asLink look),
      if a.mode = .bestEffort then a.files.filterMap (asLink look) ++ a.dirs.filterMap (asLink look) else [],
      a.dirs.filterMap (asDir look)⟩ ∧
    (∀ p ∈ a.files, (∃ d, look p = .file d) ∨ ∃ t, look p = .link t) ∧
    ∀ p ∈ a.dirs, (∃ d, look p = .dir d) ∨ ∃ t, look p = .link t := by
  unfold collect at h
  rw [if_neg hm] at h
  obtain ⟨x, hx⟩ : ∃ x, collectFiles look (a.mode == .bestEffort) a.files ⟨e, [], [], [], [], []⟩ = x := ⟨_, rfl⟩
  rw [hx] at h
  obtain ⟨x1, x2⟩ := x
  cases x2 with
  | false => cases h
  | true =>
    obtain ⟨h1, h2⟩ := collectFiles_spec look _ _ _ _ hx
    obtain ⟨h3, h4⟩ := collectDirs_spec look _ _ _ _ h
    refine ⟨?_, h2, h4⟩
    rw [h3, h1]
    by_cases hb : a.mode = .bestEffort <;> simp [hb]

theorem collect_exit {look : Str → Found} {a : Action κ} {e : Int} {r : Result}
    (h : collect look a ⟨e, [], [], [], [], []⟩ = (r, true)) : r.exitCode = e := by
  by_cases hm : a.mode = .v21
  · rw [(collect_v21 hm h).1]
  · rw [(collect_v20 hm h).1]

theorem mem_filterMap_asFile {look : Str → Found} {p d : Str} {l : List Str} (hp : p ∈ l) (h : look p = .file d) :
    (p, d) ∈ l.filterMap (asFile look) := List.mem_filterMap.2 ⟨p, hp, by simp [asFile, h]⟩

theorem mem_filterMap_asLink {look : Str → Found} {p d : Str} {l : List Str} (hp : p ∈ l) (h : look p = .link d) :
    (p, d) ∈ l.filterMap (asLink look) := List.mem_filterMap.2 ⟨p, hp, by simp [asLink, h]⟩

theorem mem_filterMap_asDir {look : Str → Found} {p d : Str} {l : List Str} (hp : p ∈ l) (h : look p = .dir d) :
    (p, d) ∈ l.filterMap (asDir look) := List.mem_filterMap.2 ⟨p, hp, by simp [asDir, h]⟩

theorem names_of_collect {look : Str → Found} {a : Action κ} {e : Int} {r : Result}
    (h : collect look a ⟨e, [], [], [], [], []⟩ = (r, true)) : ∀ p ∈ a.outputs, r.names p := by
  intro p hp
  unfold Action.outputs at hp
  by_cases hm : a.mode = .v21
  · rw [if_pos hm] at hp
    obtain ⟨rfl, h2⟩ := collect_v21 hm h
    cases hx : look p with
    | none => exact absurd hx (h2 p hp)
    | file d => exact ⟨_, by simp, d, mem_filterMap_asFile hp hx⟩
    | link d => exact ⟨a.paths.filterMap (asLink look), by simp, d, mem_filterMap_asLink hp hx⟩
    | dir d => exact ⟨a.paths.filterMap (asDir look), by simp, d, mem_filterMap_asDir hp hx⟩
  · rw [if_neg hm] at hp
    obtain ⟨rfl, h2, h3⟩ := collect_v20 hm h
    rcases List.mem_append.1 hp with hp | hp
    · rcases h2 p hp with ⟨d, hx⟩ | ⟨d, hx⟩
      · exact ⟨_, by simp, d, mem_filterMap_asFile hp hx⟩
      · exact ⟨a.files.filterMap (asLink look), by simp, d, mem_filterMap_asLink hp hx⟩
    · rcases h3 p hp with ⟨d, hx⟩ | ⟨d, hx⟩
      · exact ⟨a.dirs.filterMap (asDir look), by simp, d, mem_filterMap_asDir hp hx⟩
      · exact ⟨a.dirs.filterMap (asLink look), by simp, d, mem_filterMap_asLink hp hx⟩

theorem runEnabled_stored (dig : Action κ → Bool → Option δ) (c : Cache δ) (flag : CacheFlag) (a : Action κ) (w : Run)
    (d : δ) : (runEnabled dig c flag a w d).cache = c ∨
      ∃ r e, flag = .cacheOutput ∧ runEnabled dig c flag a w d = ⟨some ⟨d, r, false⟩, c.store d r, true⟩ ∧
        w.exit = some e ∧ collect w.look a ⟨e, [], [], [], [], []⟩ = (r, true) := by
  rcases runAction_cache c flag a w d with hc | ⟨r, e, hr, rfl, he, hcol⟩
  · left
    unfold runEnabled
    split
    · obtain ⟨o, ho⟩ : ∃ o, runAction c flag a w d = o := ⟨_, rfl⟩
      rw [ho] at hc ⊢
      obtain ⟨o1, o2⟩ := o
      simp only at hc
      subst hc
      cases o1 with
      | none => rfl
      | some r =>
        by_cases hf : flag = .pretendCached
        · simp only [if_pos hf]
          cases dig a false <;> rfl
        · simp only [if_neg hf]
    · rfl
  · right
    refine ⟨r, e, rfl, ?_, he, hcol⟩
    unfold runEnabled
    rw [if_pos (show executionEnabled .cacheOutput = true from rfl), hr]
    rfl

/-- C21: the cache is changed only by running an action with caching enabled. Then all its outputs were collected, its
result is stored under the identifier of the cacheable action, and it is what the caller gets. -/
theorem C21_stored (dig : Action κ → Bool → Option δ) (c : Cache δ) (flag : CacheFlag) (a : Action κ) (w : Run)
    (h : (execute dig c flag a w).cache ≠ c) :
    flag = .cacheOutput ∧ ∃ d r, dig a false = some d ∧
      execute dig c flag a w = ⟨some ⟨d, r, false⟩, c.store d r, true⟩ ∧ w.exit = some r.exitCode ∧
      ∀ p ∈ a.outputs, r.names p := by
  rcases execute_cases dig c flag a w with he | ⟨d, r, -, -, -, he⟩ | ⟨d, hd, -, he⟩
  · rw [he] at h; exact absurd rfl h
  · rw [he] at h; exact absurd rfl h
  · rw [he] at h ⊢
    rcases runEnabled_stored dig c flag a w d with hc | ⟨r, e, rfl, hr, hx, hcol⟩
    · exact absurd hc h
    · exact ⟨rfl, d, r, hd, hr, by rw [hx, collect_exit hcol], names_of_collect hcol⟩

/-- C21: without caching (also when only pretending to cache) an action is always run, and never stored. -/
theorem C21_not_cached (dig : Action κ → Bool → Option δ) (c : Cache δ) (flag : CacheFlag) (a : Action κ) (w : Run)
    (hf : flag = .doNotCacheOutput ∨ flag = .pretendCached) :
    (execute dig c flag a w).cache = c ∧
      ((execute dig c flag a w).response ≠ none → (execute dig c flag a w).ran = true) := by
  refine ⟨?_, fun hr => ?_⟩
  · by_contra h
    have := (C21_stored dig c flag a w h).1
    rcases hf with rfl | rfl <;> cases this
  · cases hn : (execute dig c flag a w).ran with
    | true => rfl
    | false =>
      cases hx : (execute dig c flag a w).response with
      | none => exact absurd hx hr
      | some r =>
        have := (C21_served dig c flag a w hx hn).1
        rcases hf with rfl | rfl <;> rcases this with h | h <;> cases h

/-- Everything that was cached before is `K`, or comes from an earlier execution. -/
theorem history (dig : Action κ → Bool → Option δ) (K : δ → Result → Prop) (qs : List (Request κ)) (c : Cache δ)
    (hc : ∀ d r, c d = some r → K d r) (i : Nat) (o : Outcome δ) (ho : (executeAll dig c qs)[i]? = some o)
    (r : Response δ) (hr : o.response = some r) (hn : o.ran = false) :
    K r.digest r.result ∨ ∃ (j : Nat) (q : Request κ) (o' : Outcome δ), j < i ∧ qs[j]? = some q ∧
      (executeAll dig c qs)[j]? = some o' ∧ q.flag = .cacheOutput ∧ dig q.action false = some r.digest ∧
      o'.ran = true ∧ o'.response = some ⟨r.digest, r.result, false⟩ ∧ q.run.exit = some r.result.exitCode := by
  induction qs generalizing c K i with
  | nil => cases ho
  | cons q t ih =>
    unfold executeAll at ho
    cases i with
    | zero =>
      simp only [List.getElem?_cons_zero, Option.some.injEq] at ho
      subst ho
      exact Or.inl (hc _ _ (C21_served dig c q.flag q.action q.run hr hn).2.2.1)
    | succ i =>
      rw [List.getElem?_cons_succ] at ho
      by_cases hch : (execute dig c q.flag q.action q.run).cache = c
      · rw [hch] at ho
        rcases ih K c hc i ho with hk | ⟨j, q', o', hj, hq, ho', rest⟩
        · exact Or.inl hk
        · refine Or.inr ⟨j + 1, q', o', by omega, hq, ?_, rest⟩
          unfold executeAll
          rw [List.getElem?_cons_succ, hch]
          exact ho'
      · obtain ⟨hf, d, res, hd, he, hx, -⟩ := C21_stored dig c q.flag q.action q.run hch
        have hc' : ∀ d' r', (execute dig c q.flag q.action q.run).cache d' = some r' →
            K d' r' ∨ (d' = d ∧ r' = res) := by
          intro d' r' h'
          rw [he] at h'
          unfold Cache.store at h'
          by_cases hdd : d' = d
          · simp only [if_pos hdd, Option.some.injEq] at h'
            exact Or.inr ⟨hdd, h'.symm⟩
          · simp only [if_neg hdd] at h'
            exact Or.inl (hc _ _ h')
        rcases ih (fun d' r' => K d' r' ∨ (d' = d ∧ r' = res)) _ hc' i ho with hk | ⟨j, q', o', hj, hq, ho', rest⟩
        · rcases hk with hk | ⟨h1, h2⟩
          · exact Or.inl hk
          · refine Or.inr ⟨0, q, _, by omega, rfl, rfl, hf, by rw [h1]; exact hd, ?_, ?_, ?_⟩
            · rw [he]
            · rw [he, h1, h2]
            · rw [h2]; exact hx
        · refine Or.inr ⟨j + 1, q', o', by omega, hq, ?_, rest⟩
          unfold executeAll
          rw [List.getElem?_cons_succ]
          exact ho'

/-- C21, for whole histories: starting with an empty cache, whatever is answered without running is exactly the result
of an earlier execution with caching enabled, of an action with the same identifier, that exited with code 0; it names
all outputs. If identifiers of the actions do not collide, it was the same action. -/
theorem C21_history (dig : Action κ → Bool → Option δ) (qs : List (Request κ)) (i : Nat) (q : Request κ) (o : Outcome δ)
    (hq : qs[i]? = some q) (ho : (executeAll dig (fun _ => none) qs)[i]? = some o)
    (r : Response δ) (hr : o.response = some r) (hn : o.ran = false) :
    (∀ p ∈ q.action.outputs, r.result.names p) ∧
    ∃ (j : Nat) (q' : Request κ) (o' : Outcome δ), j < i ∧ qs[j]? = some q' ∧
      (executeAll dig (fun _ => none) qs)[j]? = some o' ∧ q'.flag = .cacheOutput ∧
      dig q'.action false = dig q.action false ∧ o'.ran = true ∧
      o'.response = some ⟨r.digest, r.result, false⟩ ∧ q'.run.exit = some 0 ∧
      ((∀ a b, dig a false = dig b false → dig a false ≠ none → a = b) → q'.action = q.action) := by
  have hex : ∀ (qs : List (Request κ)) (c : Cache δ) (i : Nat), qs[i]? = some q → (executeAll dig c qs)[i]? = some o →
      ∃ c', o = execute dig c' q.flag q.action q.run := by
    intro qs
    induction qs with
    | nil => intro c i h; cases h
    | cons x t ih =>
      intro c i h h'
      unfold executeAll at h'
      cases i with
      | zero =>
        simp only [List.getElem?_cons_zero, Option.some.injEq] at h h'
        subst h
        exact ⟨c, h'.symm⟩
      | succ i =>
        rw [List.getElem?_cons_succ] at h h'
        exact ih _ i h h'
  obtain ⟨c', rfl⟩ := hex qs _ i hq ho
  obtain ⟨-, hd, -, h0, hnames, -, -⟩ := C21_served dig c' _ _ _ hr hn
  refine ⟨hnames, ?_⟩
  rcases history dig (fun _ _ => False) qs _ (fun d r h => by cases h) i _ ho r hr hn with hk |
    ⟨j, q', o', hj, hq', ho', hf, hd', hran, hres, hx⟩
  · exact hk.elim
  · exact ⟨j, q', o', hj, hq', ho', hf, by rw [hd, hd'], hran, hres, by rw [hx, h0],
      fun hinj => hinj _ _ (by rw [hd, hd']) (by rw [hd']; exact Option.some_ne_none _)⟩

/-! ## C68: a successful execution is served again -/

theorem usable_of_collect {look : Str → Found} {a : Action κ} {r : Result}
    (h : collect look a ⟨0, [], [], [], [], []⟩ = (r, true))
    (hl : ∀ p ∈ (if a.mode = .v21 then a.paths else a.dirs), ∀ t, look p ≠ .link t) : usable a r = true := by
  unfold usable
  rw [Bool.and_eq_true, beq_iff_eq]
  refine ⟨collect_exit h, ?_⟩
  by_cases hm : a.mode = .v21
  · rw [if_pos hm] at hl ⊢
    obtain ⟨rfl, h2⟩ := collect_v21 hm h
    refine List.all_eq_true.2 fun p hp => ?_
    simp only [Bool.or_eq_true]
    cases hx : look p with
    | none => exact absurd hx (h2 p hp)
    | file d => exact Or.inl (Or.inl (Or.inl (contains_of_mem (mem_filterMap_asFile hp hx))))
    | link d => exact absurd hx (hl p hp d)
    | dir d => exact Or.inr (contains_of_mem (mem_filterMap_asDir hp hx))
  · rw [if_neg hm] at hl ⊢
    obtain ⟨rfl, h2, h3⟩ := collect_v20 hm h
    unfold containsOutputs
    rw [Bool.and_eq_true]
    refine ⟨List.all_eq_true.2 fun p hp => ?_, List.all_eq_true.2 fun p hp => ?_⟩
    · simp only [Bool.or_eq_true]
      rcases h2 p hp with ⟨d, hx⟩ | ⟨d, hx⟩
      · exact Or.inl (Or.inl (contains_of_mem (mem_filterMap_asFile hp hx)))
      · exact Or.inl (Or.inr (contains_of_mem (mem_filterMap_asLink hp hx)))
    · rcases h3 p hp with ⟨d, hx⟩ | ⟨d, hx⟩
      · exact contains_of_mem (mem_filterMap_asDir hp hx)
      · exact absurd hx (hl p hp d)

theorem collectPaths_true (look : Str → Found) (l : List Str) (r : Result) (h : ∀ p ∈ l, look p ≠ .none) :
    (collectPaths look l r).2 = true := by
  induction l generalizing r with
  | nil => rfl
  | cons p t ih =>
    have ht : ∀ p ∈ t, look p ≠ .none := fun q hq => h q (List.mem_cons_of_mem _ hq)
    unfold collectPaths
    cases hx : look p with
    | none => exact absurd hx (h p List.mem_cons_self)
    | file d => exact ih _ ht
    | link d => exact ih _ ht
    | dir d => exact ih _ ht

theorem collectFiles_true (look : Str → Found) (b : Bool) (l : List Str) (r : Result)
    (h : ∀ p ∈ l, (∃ d, look p = .file d) ∨ ∃ t, look p = .link t) : (collectFiles look b l r).2 = true := by
  induction l generalizing r with
  | nil => rfl
  | cons p t ih =>
    have ht := fun q hq => h q (List.mem_cons_of_mem p hq)
    unfold collectFiles
    rcases h p List.mem_cons_self with ⟨d, hx⟩ | ⟨d, hx⟩
    · rw [hx]; exact ih _ ht
    · rw [hx]; exact ih _ ht

theorem collectDirs_true (look : Str → Found) (b : Bool) (l : List Str) (r : Result)
    (h : ∀ p ∈ l, ∃ d, look p = .dir d) : (collectDirs look b l r).2 = true := by
  induction l generalizing r with
  | nil => rfl
  | cons p t ih =>
    unfold collectDirs
    obtain ⟨d, hx⟩ := h p List.mem_cons_self
    rw [hx]
    exact ih _ (fun q hq => h q (List.mem_cons_of_mem p hq))

/-- All outputs are there, and none of the links mentioned in `C68_served_again_partial`. -/
def Complete (look : Str → Found) (a : Action κ) : Prop :=
  if a.mode = .v21 then ∀ p ∈ a.paths, (∃ d, look p = .file d) ∨ ∃ d, look p = .dir d
  else (∀ p ∈ a.files, (∃ d, look p = .file d) ∨ ∃ t, look p = .link t) ∧ ∀ p ∈ a.dirs, ∃ d, look p = .dir d

theorem Complete.collect {look : Str → Found} {a : Action κ} (h : Complete look a) (r : Result) :
    (collect look a r).2 = true := by
  unfold Complete at h
  unfold Exec.collect
  split at h
  · rename_i hm
    rw [if_pos hm]
    refine collectPaths_true look _ _ fun p hp hn => ?_
    rcases h p hp with ⟨d, hx⟩ | ⟨d, hx⟩ <;> rw [hn] at hx <;> cases hx
  · rename_i hm
    rw [if_neg hm]
    obtain ⟨o, ho⟩ : ∃ o, collectFiles look (a.mode == .bestEffort) a.files r = o := ⟨_, rfl⟩
    have := collectFiles_true look (a.mode == .bestEffort) a.files r h.1
    rw [ho] at this ⊢
    obtain ⟨o1, o2⟩ := o
    simp only at this
    subst this
    exact collectDirs_true look _ _ _ h.2

theorem Complete.no_link {look : Str → Found} {a : Action κ} (h : Complete look a) :
    ∀ p ∈ (if a.mode = .v21 then a.paths else a.dirs), ∀ t, look p ≠ .link t := by
  unfold Complete at h
  intro p hp t ht
  split at h
  · rename_i hm
    rw [if_pos hm] at hp
    rcases h p hp with ⟨d, hx⟩ | ⟨d, hx⟩ <;> rw [ht] at hx <;> cases hx
  · rename_i hm
    rw [if_neg hm] at hp
    obtain ⟨d, hx⟩ := h.2 p hp
    rw [ht] at hx
    cases hx

/-- C68 (partial): an execution with caching enabled that exits with code 0, has all outputs, and stores its result, is
not run again: the next execution of the action gets the same result from the cache. Missing: outputs that are
symbolic links, if the action is given by paths, and output directories that are symbolic links otherwise; for these it
is false, see `C68_violation_paths` and `C68_violation_dirs`. -/
theorem C68_served_again_partial (dig : Action κ → Bool → Option δ) (c : Cache δ) (a : Action κ) (w w' : Run)
    (flag : CacheFlag) (hf : flag = .cacheOutput ∨ flag = .fromCacheOnly)
    {r : Response δ} (hr : (execute dig c .cacheOutput a w).response = some r) (h0 : r.result.exitCode = 0)
    (hw : w.stored = true) (hl : Complete w.look a) :
    execute dig (execute dig c .cacheOutput a w).cache flag a w' =
      ⟨some ⟨r.digest, r.result, true⟩, (execute dig c .cacheOutput a w).cache, false⟩ := by
  have hce : cacheEnabled flag = true := by rcases hf with rfl | rfl <;> rfl
  have key : ∀ (c' : Cache δ) d res, dig a false = some d → fromCache c' a d = some res →
      execute dig c' flag a w' = ⟨some ⟨d, res, true⟩, c', false⟩ := by
    intro c' d res hd hfc
    unfold execute
    rw [hce]
    simp only [Bool.not_true, hd, if_pos, hfc]
  rcases execute_cases dig c .cacheOutput a w with he | ⟨d, res, -, hd, hfc, he⟩ | ⟨d, hd, -, he⟩
  · rw [he] at hr; cases hr
  · rw [he] at hr ⊢
    cases hr
    exact key c d res hd hfc
  · rw [he] at hr ⊢
    have hd' : dig a false = some d := hd
    unfold runEnabled at hr ⊢
    rw [if_pos (show executionEnabled .cacheOutput = true from rfl)] at hr ⊢
    unfold runAction at hr ⊢
    cases hx : w.exit with
    | none => rw [hx] at hr; cases hr
    | some e =>
      rw [hx] at hr
      simp only at hr ⊢
      obtain ⟨o, ho⟩ : ∃ o, collect w.look a ⟨e, [], [], [], [], []⟩ = o := ⟨_, rfl⟩
      have hcol := hl.collect ⟨e, [], [], [], [], []⟩
      rw [ho] at hr hcol ⊢
      obtain ⟨res, b⟩ := o
      simp only at hcol
      subst hcol
      simp only [reduceCtorEq, if_false, Option.some.injEq] at hr
      subst hr
      have hex := collect_exit ho
      simp only at h0
      rw [h0] at hex
      subst hex
      simp only [hw, and_self, if_true, reduceCtorEq, if_false]
      apply key _ d res hd'
      unfold fromCache Cache.store
      rw [if_pos rfl]
      simp only [usable_of_collect ho hl.no_link, if_true]

/-! ## Examples and violations -/

namespace Example

/-- Identifiers that never collide. -/
def dig (a : Action Nat) (b : Bool) : Option (Action Nat × Bool) := some (a, b)

/-- An action with a file and a directory as output. -/
def action : Action Nat := ⟨1, [['f']], [['d']], [], .v20⟩

/-- It produces a symbolic link for the file. -/
def run : Run := ⟨some 0, fun p => if p = ['f'] then .link ['x'] else .dir ['t'], true⟩

/-- It fails. -/
def failing : Run := ⟨some 1, run.look, true⟩

def empty : Cache (Action Nat × Bool) := fun _ => none

/-- An action with one output, given by path, and a run making it a symbolic link. -/
def pathAction : Action Nat := ⟨1, [], [], [['f']], .v21⟩

/-- An action with an output directory, which is a symbolic link after the run `linkRun`. -/
def dirAction : Action Nat := ⟨1, [], [['f']], [], .bestEffort⟩

def linkRun : Run := ⟨some 0, fun _ => .link ['x'], true⟩

/-- A history: failing, not cached, cached, served, served from cache only. -/
def requests : List (Request Nat) :=
  [⟨.cacheOutput, action, failing⟩, ⟨.doNotCacheOutput, action, run⟩, ⟨.fromCacheOnly, action, run⟩,
    ⟨.cacheOutput, action, run⟩, ⟨.cacheOutput, action, failing⟩, ⟨.fromCacheOnly, action, failing⟩]

/-- What it does: response with exit code and mark, and whether it ran. -/
example : (executeAll dig empty requests).map (fun o => (o.response.map fun r => (r.result.exitCode, r.cached), o.ran)) =
    [(some (1, false), true), (some (0, false), true), (none, false), (some (0, false), true), (some (0, true), false),
      (some (0, true), false)] := by decide

/-- `C21_served`, `C21_history` apply to the fifth execution. -/
example : ∃ o r, (executeAll dig empty requests)[4]? = some o ∧ o.response = some r ∧ o.ran = false :=
  ⟨_, _, rfl, rfl, rfl⟩

/-- `C21_stored` applies. -/
example : (execute dig empty .cacheOutput action run).cache ≠ empty := by
  intro h
  have := congrFun h (action, false)
  revert this
  decide

/-- `C68_served_again_partial` applies. -/
example : Complete run.look action ∧ ∃ r, (execute dig empty .cacheOutput action run).response = some r ∧
    r.result.exitCode = 0 := by
  refine ⟨⟨?_, ?_⟩, _, rfl, rfl⟩
  · intro p hp
    cases List.mem_singleton.1 hp
    exact Or.inr ⟨['x'], rfl⟩
  · intro p hp
    cases List.mem_singleton.1 hp
    exact ⟨['t'], rfl⟩

end Example

open Example in
/-- C68 is violated for actions given by `output_paths`: if an output is a symbolic link, the result is stored under
`output_symlinks`, but these are not considered when looking for outputs, so a successful action is never found in the
cache. -/
theorem C68_violation_paths :
    (∃ r, (execute dig empty .cacheOutput pathAction linkRun).response = some r ∧ r.result.exitCode = 0 ∧
      (∀ p ∈ pathAction.outputs, r.result.names p) ∧
      (execute dig empty .cacheOutput pathAction linkRun).cache r.digest = some r.result) ∧
    ∀ w, (execute dig (execute dig empty .cacheOutput pathAction linkRun).cache .fromCacheOnly pathAction
      w).response = none := by
  refine ⟨⟨_, rfl, rfl, ?_, rfl⟩, fun w => rfl⟩
  intro p hp
  cases List.mem_singleton.1 hp
  exact ⟨[(['f'], ['x'])], by decide, ['x'], by decide⟩

open Example in
/-- C68 is violated for output directories that are symbolic links. -/
theorem C68_violation_dirs :
    (∃ r, (execute dig empty .cacheOutput dirAction linkRun).response = some r ∧ r.result.exitCode = 0 ∧
      (∀ p ∈ dirAction.outputs, r.result.names p) ∧
      (execute dig empty .cacheOutput dirAction linkRun).cache r.digest = some r.result) ∧
    ∀ w, (execute dig (execute dig empty .cacheOutput dirAction linkRun).cache .fromCacheOnly dirAction
      w).response = none := by
  refine ⟨⟨_, rfl, rfl, ?_, rfl⟩, fun w => rfl⟩
  intro p hp
  cases List.mem_singleton.1 hp
  exact ⟨[(['f'], ['x'])], by decide, ['x'], by decide⟩

end Verif.Exec
