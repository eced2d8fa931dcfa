import Verif.Root.Answers

/-!
# C85: what source roots show

A user writing targets relies on a root being the tree it was declared as: the answers to all questions the analysis asks are
determined by the content of the root, whatever was asked before and whatever kind the root has; and a root ignoring special
entries shows the tree without them.
-/

namespace Verif.Root

open Verif.Path

/-! ## Questions and answers -/

/-- What the analysis asks a root: for files with definitions, for source files, and for directories. -/
inductive Query where
  | json (s : Str)
  | source (module name : Str)
  | directory (s : Str)

/-- The answers. -/
inductive Reply where
  | json (r : Read)
  | source (r : Option Node)
  | directory (r : Option Listing)

/-- json_file_map.hpp:88-106, source_map.cpp:62-113, directory_map.cpp:50-69 for a git root. -/
def GitRoot.answer (G : GitRoot) (st : State) : Query → Option (Reply × State)
  | .json s => (gitJson G st s).map fun r => (.json r.1, r.2)
  | .source m n => (gitSource G st m n).map fun r => (.source r.1, r.2)
  | .directory s => (gitDirectory G st s).map fun r => (.directory r.1, r.2)

/-- json_file_map.hpp:88-106, source_map.cpp:62-128, directory_map.cpp:50-69 for a root in the file system. -/
def FileRoot.answer (F : FileRoot) : Query → Option Reply
  | .json s => (F.json s).map .json
  | .source m n => (F.source m n).map .source
  | .directory s => (F.directory s).map .directory

/-- Everything that can be remembered after opening a git root and asking it. Marker files of other roots are there from the start;
other processes may add some at any time. -/
inductive Reached (G : GitRoot) : State → Prop where
  | start : Reached G ⟨[], []⟩
  | mark {st : State} {h : Str} (hr : Reached G st)
      (hv : ∀ p es, Under (.dir G.content) p (.dir es) → G.H (.dir es) = h → Valid (.dir es)) :
      Reached G { st with marks := h :: st.marks }
  | ask {st st' : State} {q : Query} {r : Reply} (hr : Reached G st) (ha : G.answer st q = some (r, st')) : Reached G st'

/-- A question in terms of names. -/
inductive Ask where
  | json (l : List Str)
  | source (m l : List Str)
  | directory (l : List Str)

/-- How it is asked. -/
def Ask.query : Ask → Query
  | .json l => .json (joinWith '/' l)
  | .source m l => .source (joinWith '/' m) (joinWith '/' l)
  | .directory l => .directory (joinWith '/' l)

/-- The place asked for. -/
def Ask.place : Ask → List Str
  | .json l => l
  | .source m l => m ++ l
  | .directory l => l

/-- The names can be used in paths; files have a name. -/
def Ask.Fine : Ask → Prop
  | .json l => Names l ∧ l ≠ []
  | .source m l => Names m ∧ Names l ∧ l ≠ []
  | .directory l => Names l

/-- The definitions in a file. -/
def readIn : Option Node → Read
  | some (.file c _) => .content c
  | _ => .absent

/-- The names in a directory, with types. -/
def namesIn : Option Node → List (Str × Option Kind)
  | some (.dir es) => kinds es
  | _ => []

/-- The answer is what there is in the tree. -/
def Right (T : Node) : Ask → Reply → Prop
  | .json l, .json r => r = readIn (T.find l)
  | .source m l, .source r => r = (T.find (m ++ l)).bind Node.asSource
  | .directory l, .directory (some L) => L.entries = namesIn (T.find l)
  | _, _ => False

/-! ## Invariants -/

theorem sound_cons {G : GitRoot} {marks : List Str} {h : Str} (hs : Sound G.H G.content marks)
    (hv : ∀ p es, Under (.dir G.content) p (.dir es) → G.H (.dir es) = h → Valid (.dir es)) :
    Sound G.H G.content (h :: marks) := by
  intro p es hu hm
  rcases List.mem_cons.1 hm with e | hm
  · exact fineDir_valid (hv p es hu e)
  · exact hs p es hu hm

/-- The answer of a root that ignores nothing. -/
def pureAnswer (G : GitRoot) : Query → Option Reply
  | .json s => ((pureLook (readTree false) G s).map jsonOf).map .json
  | .source m n =>
    match outside n with
    | none => none
    | some true => some (.source none)
    | some false => ((pureLook (readTree false) G (append m (lexNormal n))).bind (artifactOf G.ign)).map .source
  | .directory s => (if (if s = [] then dot else s) = dot then plainRoot G
      else (pureLook (readTree false) G (if s = [] then dot else s)).bind plainOf).map .directory

theorem Same.map {α β : Type} {I : State → Prop} {r : Option (α × State)} {v : Option α} (h : Same I r v) (f : α → β) :
    Same I (r.map fun x => (f x.1, x.2)) (v.map f) := by
  cases v with
  | none =>
    rw [h.none_right]
    trivial
  | some a =>
    obtain ⟨st, e, h'⟩ := h.some_right
    rw [e]
    exact ⟨rfl, h'⟩

theorem answer_pure {G : GitRoot} (hi : G.ign = false) (hc : NoClash G.H G.content) {st : State}
    (hs : Fits plain (Sound G.H G.content) st) (q : Query) :
    Same (Fits plain (Sound G.H G.content)) (G.answer st q) (pureAnswer G q) := by
  have hR : Reading G.content G.ign plain (readTree false) := by
    rw [hi]
    exact reading_plain _
  cases q with
  | json s => exact (gitJson_pure hR hs s).map Reply.json
  | source m n =>
    simp only [GitRoot.answer, pureAnswer]
    cases ho : outside n with
    | none =>
      simp only [gitSource, ho]
      trivial
    | some b =>
      cases b with
      | true =>
        simp only [gitSource, ho]
        exact ⟨rfl, hs⟩
      | false => exact (gitSource_pure (m := m) hR hs ho).map Reply.source
  | directory s => exact (gitDirectory_plain hi hc hs s).map Reply.directory

theorem Reached.plain {G : GitRoot} (hi : G.ign = false) (hc : NoClash G.H G.content) {st : State} (h : Reached G st) :
    Fits plain (Sound G.H G.content) st := by
  induction h with
  | start =>
    refine ⟨?_, ?_⟩
    · intro b p f h
      cases h
    · intro p es _ h
      cases h
  | mark _ hv ih => exact ⟨ih.1, sound_cons ih.2 hv⟩
  | @ask st st' q r _ ha ih =>
    have h := answer_pure hi hc ih q
    rw [ha] at h
    cases hp : pureAnswer G q with
    | none =>
      rw [hp] at h
      exact h.elim
    | some v =>
      rw [hp] at h
      exact h.2

/-! ## Git roots ignoring nothing -/

/-- **C85.** The answers of a git root that ignores nothing do not depend on what was asked before, nor on which trees were
found valid earlier. This holds for all trees, also the ones with links leading upwards, and all paths. -/
theorem C85_history {G : GitRoot} (hi : G.ign = false) (hc : NoClash G.H G.content) {st st' : State} (h : Reached G st)
    (h' : Reached G st') (q : Query) : (G.answer st q).map Prod.fst = (G.answer st' q).map Prod.fst := by
  have h1 := answer_pure hi hc (h.plain hi hc) q
  have h2 := answer_pure hi hc (h'.plain hi hc) q
  cases hp : pureAnswer G q with
  | none =>
    rw [hp] at h1 h2
    rw [h1.none_right, h2.none_right]
  | some v =>
    rw [hp] at h1 h2
    obtain ⟨_, e1, -⟩ := h1.some_right
    obtain ⟨_, e2, -⟩ := h2.some_right
    rw [e1, e2]
    rfl

theorem plain_json {G : GitRoot} (hi : G.ign = false) (hv : Valid (.dir G.content)) {l : List Str} (hn : Names l) (hl : l ≠ []) :
    pureLook (readTree false) G (joinWith '/' l) = some (((Node.dir G.content).find l).map fun n => (l, n)) :=
  pureLook_valid hi hv (place_join hn) hl

theorem plainRoot_valid {G : GitRoot} (hi : G.ign = false) (hv : Valid (.dir G.content)) :
    plainRoot G = some (some (listing false G.content G.content)) := by
  unfold plainRoot GitRoot.tree
  rw [fineDir_valid hv, hi, readDirect_valid hv]
  rfl

theorem join_dot {l : List Str} (hn : Names l) : (if joinWith '/' l = [] then dot else joinWith '/' l) = dot ↔ l = [] := by
  rw [join_path' hn]
  unfold pathOf
  by_cases hl : l = []
  · simp [hl]
  · simp only [hl, if_false, iff_false]
    exact join_ne_dot hn

/-- **C85.** A valid git root that ignores nothing shows its tree, after everything asked before. -/
theorem C85_git {G : GitRoot} (hi : G.ign = false) (hc : NoClash G.H G.content) (hv : Valid (.dir G.content)) {st : State}
    (h : Reached G st) (a : Ask) (ha : a.Fine) :
    ∃ r st', G.answer st a.query = some (r, st') ∧ Right (.dir G.content) a r := by
  have hs := answer_pure hi hc (h.plain hi hc) a.query
  suffices hr : ∃ r, pureAnswer G a.query = some r ∧ Right (.dir G.content) a r by
    obtain ⟨r, h1, h2⟩ := hr
    rw [h1] at hs
    obtain ⟨st', e, -⟩ := hs.some_right
    exact ⟨r, st', e, h2⟩
  cases a with
  | json l =>
    obtain ⟨hn, hl⟩ := ha
    refine ⟨_, by simp only [Ask.query, pureAnswer, plain_json hi hv hn hl, Option.map_some]; rfl, ?_⟩
    show _ = readIn _
    cases (Node.dir G.content).find l with
    | none => rfl
    | some n => cases n <;> rfl
  | source m l =>
    obtain ⟨hm, hn, hl⟩ := ha
    simp only [Ask.query, pureAnswer]
    rw [outside_join hn hl, lexNormal_join hn, append_join hm hn hl]
    simp only
    rw [plain_json hi hv (hm.append hn) (by simp [hl]), hi, Option.bind_some]
    cases hf : (Node.dir G.content).find (m ++ l) with
    | none => exact ⟨_, rfl, by simp [Right, hf]⟩
    | some n =>
      cases n with
      | link c =>
        have hin : Inside c := by
          cases hv.under (under_of_find hf) with
          | link h => exact h
        refine ⟨.source (some (.link c)), ?_, by simp [Right, hf, Node.asSource]⟩
        simp [artifactOf, blob, nonUpwards_inside.2 hin]
      | _ => exact ⟨_, rfl, by simp [Right, hf, Node.asSource]⟩
  | directory l =>
    have hn : Names l := ha
    by_cases hl : l = []
    · have hd := (join_dot hn).2 hl
      simp only [Ask.query, pureAnswer, hd, if_true, plainRoot_valid hi hv]
      refine ⟨_, rfl, ?_⟩
      subst hl
      simp [Right, find_nil, listing, namesIn]
    · have hd : ¬ (if joinWith '/' l = [] then dot else joinWith '/' l) = dot := fun e => hl ((join_dot hn).1 e)
      simp only [Ask.query, pureAnswer, hd, if_false]
      rw [join_path' hn]
      unfold pathOf
      rw [if_neg hl, plain_json hi hv hn hl, Option.bind_some]
      cases hf : (Node.dir G.content).find l with
      | none => exact ⟨_, rfl, by simp [Right, hf, namesIn]⟩
      | some n =>
        cases n with
        | dir es =>
          have hfd := fineDir_valid (hv.under (under_of_find hf))
          refine ⟨.directory (some (listing false es es)), ?_, by simp [Right, hf, listing, namesIn]⟩
          simp only [Option.map_some, plainOf, hfd, if_true]
        | _ => exact ⟨_, rfl, by simp [Right, hf, namesIn]⟩

/-- The questions for source trees are answered as seen. -/
theorem git_serves {G : GitRoot} (hi : G.ign = false) (hc : NoClash G.H G.content) (hv : Valid (.dir G.content)) :
    Serves G.reader (Reached G) (.dir G.content) where
  source := by
    intro s m x es hs hm hx _
    have hl : Names [x] := by
      intro a ha
      rw [List.mem_singleton.1 ha]
      exact hx
    obtain ⟨r, st', h1, h2⟩ := C85_git hi hc hv hs (.source m [x]) ⟨hm, hl, by simp⟩
    have hr := Reached.ask hs h1
    simp only [Ask.query, GitRoot.answer, joinWith] at h1
    show ∃ s', gitSource G s (joinWith '/' m) x = _ ∧ _
    cases hg : gitSource G s (joinWith '/' m) x with
    | none =>
      rw [hg] at h1
      cases h1
    | some v =>
      rw [hg] at h1
      cases h1
      have h3 : v.1 = _ := h2
      exact ⟨v.2, by rw [← h3], hr⟩
  directory := by
    intro s m es hs hm hf
    have hs' := answer_pure hi hc (hs.plain hi hc) (Ask.directory m).query
    obtain ⟨r, st', h1, h2⟩ := C85_git hi hc hv hs (.directory m) hm
    have hr := Reached.ask hs h1
    rw [h1] at hs'
    simp only [Ask.query, GitRoot.answer] at h1
    show ∃ L s', gitDirectory G s (joinWith '/' m) = _ ∧ _
    cases hg : gitDirectory G s (joinWith '/' m) with
    | none =>
      rw [hg] at h1
      cases h1
    | some v =>
      rw [hg] at h1
      cases h1
      obtain ⟨o, st'⟩ := v
      cases o with
      | none => exact h2.elim
      | some L =>
        refine ⟨L, st', rfl, hr, ?_, ?_⟩
        · have h3 : L.entries = _ := h2
          rw [h3, hf]
          rfl
        · intro k hk
          have hpa : pureAnswer G (.directory (joinWith '/' m)) = some (.directory (some (listing false es es))) := by
            by_cases hl : m = []
            · have hd := (join_dot hm).2 hl
              subst hl
              rw [find_nil] at hf
              cases hf
              simp only [pureAnswer, hd, if_true, plainRoot_valid hi hv]
              rfl
            · have hd : ¬ (if joinWith '/' m = [] then dot else joinWith '/' m) = dot := fun e => hl ((join_dot hm).1 e)
              simp only [pureAnswer, hd, if_false]
              rw [join_path' hm]
              unfold pathOf
              have hfd := fineDir_valid (hv.under (under_of_find hf))
              rw [if_neg hl, plain_json hi hv hm hl, Option.bind_some, hf]
              simp only [Option.map_some, plainOf, hfd, if_true]
          simp only [Ask.query, hpa] at hs'
          have e := hs'.1
          simp only [Reply.directory.injEq, Option.some.injEq] at e
          rw [e] at hk
          cases hk
          rfl

/-- **C85.** A reference to a source tree of a valid git root stands for what is there. -/
theorem C85_tree_git {G : GitRoot} (hi : G.ign = false) (hc : NoClash G.H G.content) (hv : Valid (.dir G.content))
    (hN : Named (.dir G.content)) {st : State} (h : Reached G st) {l : List Str} (hn : Names l) {es : Entries}
    (hf : (Node.dir G.content).find l = some (.dir es)) {n : Nat} (hd : Deep n (.dir es)) :
    ∃ st', treeTarget G.reader n st (joinWith '/' l) = some (some (.dir es), st') ∧ Reached G st' := by
  refine treeTarget_serves (git_serves hi hc hv) hN ?_ n st l es h hn hf hd
  intro p hp
  cases hv.under (under_of_find hp)

/-! ## Git roots ignoring special entries -/

theorem ignoring_right {G : GitRoot} (hi : G.ign = true) (hsh : Shallow G.content) {M : List Str → Prop} {st : State}
    (h : Fits firstIgnored M st) (a : Ask) (ha : a.Fine) :
    ∃ r st', G.answer st a.query = some (r, st') ∧ Right (shown true G.content) a r ∧ Fits firstIgnored M st' := by
  have hR : Reading G.content G.ign firstIgnored drop := by
    rw [hi]
    exact reading_ignoring hsh
  cases a with
  | json l =>
    obtain ⟨hn, hl⟩ := ha
    obtain ⟨r, h1, h2, h3⟩ := pureLook_drop hi (place_join hn) hl
    have hs := gitJson_pure hR h (joinWith '/' l)
    rw [h1] at hs
    obtain ⟨st', hg, h'⟩ := hs.some_right
    refine ⟨.json (jsonOf r), st', by simp [Ask.query, GitRoot.answer, hg], ?_, h'⟩
    clear hg h1
    show _ = readIn _
    rw [← h2]
    cases r with
    | none => rfl
    | some e =>
      obtain ⟨p, n⟩ := e
      cases n <;> rfl
  | source m l =>
    obtain ⟨hm, hn, hl⟩ := ha
    obtain ⟨r, h1, h2, h3⟩ := pureLook_drop hi (place_join (hm.append hn)) (l := m ++ l) (by simp [hl])
    have hs := gitSource_pure hR h (m := joinWith '/' m) (n := joinWith '/' l) (outside_join hn hl)
    rw [lexNormal_join hn, append_join hm hn hl, h1, Option.bind_some] at hs
    have hr : artifactOf G.ign r = some ((r.map fun e => e.2.strip).bind Node.asSource) := by
      cases r with
      | none => rfl
      | some e =>
        obtain ⟨p, n⟩ := e
        have := (h3 _ rfl).2
        cases n with
        | link c => cases this
        | _ => rfl
    rw [hr] at hs
    obtain ⟨st', e, h'⟩ := hs.some_right
    refine ⟨.source _, st', by simp only [Ask.query, GitRoot.answer, e, Option.map_some]; rfl, ?_, h'⟩
    show _ = _
    rw [h2]
  | directory l =>
    have hn : Names l := ha
    by_cases hl : l = []
    · have hd := (join_dot hn).2 hl
      refine ⟨.directory _, st, by simp only [Ask.query, GitRoot.answer, gitDirectory_root hi hd, Option.map_some]; rfl, ?_, h⟩
      subst hl
      have : (shown true G.content) = .dir (stripped G.content) := rfl
      simp only [Right, this, find_nil, kinds_stripped, namesIn]
    · have hd : ¬ (if joinWith '/' l = [] then dot else joinWith '/' l) = dot := fun e => hl ((join_dot hn).1 e)
      obtain ⟨r, h1, h2, h3⟩ := pureLook_drop hi (place_join hn) hl
      have hp : (if joinWith '/' l = [] then dot else joinWith '/' l) = joinWith '/' l := by
        rw [join_path' hn, pathOf, if_neg hl]
      obtain ⟨L, st', h4, h5, h6⟩ := gitDirectory_ignoring hi hsh h (s := joinWith '/' l) hd (r := r) (by rw [hp, h1])
      refine ⟨.directory (some L), st', by simp only [Ask.query, GitRoot.answer, h4, Option.map_some], ?_, h5⟩
      show _ = namesIn _
      rw [← h2]
      cases r with
      | none =>
        have : L = _ := h6
        rw [this]
        rfl
      | some e =>
        obtain ⟨p, n⟩ := e
        cases n with
        | dir es =>
          rw [h6.1]
          show _ = kinds (stripped es)
          rw [kinds_stripped]
        | _ =>
          have : L = _ := h6
          rw [this]
          rfl

theorem Reached.ignoring {G : GitRoot} (hi : G.ign = true) (hsh : Shallow G.content) {st : State} (h : Reached G st) :
    Fits firstIgnored (fun _ => True) st := by
  have hR : Reading G.content G.ign firstIgnored drop := by
    rw [hi]
    exact reading_ignoring hsh
  induction h with
  | start =>
    refine ⟨?_, trivial⟩
    intro b p f h
    cases h
  | mark _ hv ih => exact ⟨ih.1, trivial⟩
  | @ask st st' q r _ ha ih =>
    have key : ∀ {α : Type} {o : Option (α × State)} {v : Option α} {f : α → Reply}, Same (Fits firstIgnored fun _ => True) o v →
        (o.map fun x => (f x.1, x.2)) = some (r, st') → Fits firstIgnored (fun _ => True) st' := by
      intro α o v f h1 h2
      have h3 := h1.map f
      rw [h2] at h3
      cases hv : v.map f with
      | none =>
        rw [hv] at h3
        exact h3.elim
      | some w =>
        rw [hv] at h3
        exact h3.2
    cases q with
    | json s => exact key (gitJson_pure hR ih s) ha
    | source m n =>
      cases ho : outside n with
      | none =>
        simp only [GitRoot.answer, gitSource, ho] at ha
        cases ha
      | some b =>
        cases b with
        | true =>
          simp only [GitRoot.answer, gitSource, ho] at ha
          cases ha
          exact ih
        | false => exact key (gitSource_pure (m := m) hR ih ho) ha
    | directory s =>
      by_cases hd : (if s = [] then dot else s) = dot
      · simp only [GitRoot.answer, gitDirectory_root hi hd, Option.map_some] at ha
        cases ha
        exact ih
      · cases hp : pureLook drop G (if s = [] then dot else s) with
        | none =>
          have h1 := isDirectory_pure hR ih (if s = [] then dot else s)
          rw [if_neg hd, hp] at h1
          simp only [GitRoot.answer, gitDirectory, h1.none_right, Option.map_none] at ha
          cases ha
        | some r' =>
          obtain ⟨L, st2, h1, h2, -⟩ := gitDirectory_ignoring hi hsh ih hd hp
          simp only [GitRoot.answer, h1, Option.map_some] at ha
          cases ha
          exact h2

/-- **C85 (part).** A git root ignoring special entries shows its tree without them, after everything asked before, if there is
nothing to ignore below the second level. Without that assumption, this is wrong (`C85_violated_deep`). -/
theorem C85_git_ignoring_partial {G : GitRoot} (hi : G.ign = true) (hsh : Shallow G.content) {st : State} (h : Reached G st)
    (a : Ask) (ha : a.Fine) :
    ∃ r st', G.answer st a.query = some (r, st') ∧ Right (shown true G.content) a r := by
  obtain ⟨r, st', h1, h2, -⟩ := ignoring_right hi hsh (h.ignoring hi hsh) a ha
  exact ⟨r, st', h1, h2⟩

theorem strip_shallow {content : Entries} (hsh : Shallow content) {n : Node} (hN : Named n) {p : List Str}
    (hu : Under (.dir content) p n) (hp : 2 ≤ p.length) : n.strip = n := by
  induction hN generalizing p with
  | file => rfl
  | link => rfl
  | other => rfl
  | @dir es h1 h2 h3 ih =>
    show Node.dir (stripped es) = .dir es
    rw [stripped_eq, List.filter_eq_self.2 (fun e he => by simp [hsh p es e.1 e.2 hu hp he])]
    congr 1
    conv => rhs; rw [← List.map_id es]
    apply List.map_congr_left
    rintro ⟨x, m⟩ he
    have := ih _ he (.step hu he) (by rw [List.length_append]; omega)
    simp only at this
    simp [this]

theorem Named.strip {n : Node} (h : Named n) : Named n.strip := by
  induction h with
  | file c x => exact .file c x
  | link c => exact .link c
  | other => exact .other
  | @dir es h1 h2 h3 ih =>
    show Named (.dir (stripped es))
    have hN : Named (.dir es) := .dir h1 h2 h3
    refine .dir ?_ (hN.seen true) ?_
    · intro e he
      rw [stripped_eq] at he
      obtain ⟨e', he', rfl⟩ := List.mem_map.1 he
      exact h1 e' (List.mem_filter.1 he').1
    · intro e he
      rw [stripped_eq] at he
      obtain ⟨e', he', rfl⟩ := List.mem_map.1 he
      exact ih e' (List.mem_filter.1 he').1

theorem Named.shown {es : Entries} (h : Named (.dir es)) (ign : Bool) : Named (shown ign es) := by
  cases ign with
  | false => exact h
  | true => exact h.strip

theorem shown_other {es : Entries} (h : Named (.dir es)) (ign : Bool) (hV : ign = false → Valid (.dir es)) (p : List Str) :
    (Root.shown ign es).find p ≠ some .other := by
  intro hp
  cases ign with
  | false => cases (hV rfl).under (under_of_find hp)
  | true =>
    rw [shown_find h] at hp
    cases hf : (Node.dir es).find p with
    | none =>
      rw [hf] at hp
      cases hp
    | some m =>
      rw [hf] at hp
      simp only [Option.bind_some, if_true] at hp
      split at hp
      · cases hp
      · rename_i hns
        cases m with
        | other =>
          cases p with
          | nil => cases hf
          | cons x t => exact hns ⟨by simp, rfl⟩
        | _ => cases hp

theorem ignoring_serves {G : GitRoot} (hi : G.ign = true) (hsh : Shallow G.content) (hN : Named (.dir G.content)) :
    Serves G.reader (Reached G) (shown true G.content) where
  source := by
    intro s m x es hs hm hx _
    have hl : Names [x] := by
      intro a ha
      rw [List.mem_singleton.1 ha]
      exact hx
    obtain ⟨r, st', h1, h2⟩ := C85_git_ignoring_partial hi hsh hs (.source m [x]) ⟨hm, hl, by simp⟩
    have hr := Reached.ask hs h1
    simp only [Ask.query, GitRoot.answer, joinWith] at h1
    show ∃ s', gitSource G s (joinWith '/' m) x = _ ∧ _
    cases hg : gitSource G s (joinWith '/' m) x with
    | none =>
      rw [hg] at h1
      cases h1
    | some v =>
      rw [hg] at h1
      cases h1
      have h3 : v.1 = _ := h2
      exact ⟨v.2, by rw [← h3], hr⟩
  directory := by
    intro s m es hs hm hf
    have hI := hs.ignoring hi hsh
    by_cases hl : m = []
    · have hd := (join_dot hm).2 hl
      have hg := gitDirectory_root (st := s) hi hd
      refine ⟨_, s, hg, hs, ?_, by simp⟩
      subst hl
      rw [find_nil] at hf
      cases hf
      rw [kinds_stripped]
    · have hd : ¬ (if joinWith '/' m = [] then dot else joinWith '/' m) = dot := fun e => hl ((join_dot hm).1 e)
      obtain ⟨r, h1, h2, h3⟩ := pureLook_drop hi (place_join hm) hl
      have hp : (if joinWith '/' m = [] then dot else joinWith '/' m) = joinWith '/' m := by
        rw [join_path' hm, pathOf, if_neg hl]
      obtain ⟨L, st', h4, h5, h6⟩ := gitDirectory_ignoring hi hsh hI (s := joinWith '/' m) hd (r := r) (by rw [hp, h1])
      have hr : Reached G st' := Reached.ask (q := .directory (joinWith '/' m)) (r := .directory (some L)) hs
        (by simp only [GitRoot.answer, h4, Option.map_some])
      refine ⟨L, st', h4, hr, ?_⟩
      rw [hf] at h2
      cases r with
      | none => cases h2
      | some e =>
        obtain ⟨p, n⟩ := e
        cases n with
        | dir es0 =>
          cases h2
          obtain ⟨h7, h8⟩ := h6
          refine ⟨by rw [h7, kinds_stripped], ?_⟩
          intro k hk
          rcases h8 with h8 | ⟨h8, h9, h10⟩
          · rw [h8] at hk
            cases hk
          · rw [h8] at hk
            cases hk
            have := strip_shallow hsh (hN.under h10) h10 h9
            have e : Node.dir (stripped es0) = .dir es0 := this
            injection e with e
            exact e.symm
        | _ => cases h2

/-- **C85 (part).** A reference to a source tree of a git root ignoring special entries stands for the tree without them, if there
is nothing to ignore below the second level. Without that assumption, this is wrong (`C85_violated_order`). -/
theorem C85_tree_ignoring_partial {G : GitRoot} (hi : G.ign = true) (hsh : Shallow G.content) (hN : Named (.dir G.content))
    {st : State} (h : Reached G st) {l : List Str} (hn : Names l) {es : Entries}
    (hf : (shown true G.content).find l = some (.dir es)) {n : Nat} (hd : Deep n (.dir es)) :
    ∃ st', treeTarget G.reader n st (joinWith '/' l) = some (some (.dir es), st') ∧ Reached G st' :=
  treeTarget_serves (ignoring_serves hi hsh hN) (hN.shown true) (shown_other hN true fun h => nomatch h) n st l es h hn hf hd

/-! ## Roots in the file system -/

/-- **C85.** A root in the file system shows its tree, without special entries if they are ignored, at all places that are not
reached through symbolic links; links must not lead upwards, unless ignored. -/
theorem C85_file {F : FileRoot} (hN : Named (.dir F.content)) (hV : F.ign = false → Valid (.dir F.content)) (a : Ask) (ha : a.Fine)
    (hc : NoLinkOn (.dir F.content) a.place) :
    ∃ r, F.answer a.query = some r ∧ Right (shown F.ign F.content) a r := by
  cases a with
  | json l =>
    obtain ⟨hn, hl⟩ := ha
    refine ⟨_, by simp only [Ask.query, FileRoot.answer, file_json hn hl hc, Option.map_some]; rfl, ?_⟩
    show _ = readIn _
    rw [shown_find hN]
    cases (Node.dir F.content).find l with
    | none => rfl
    | some n => cases hi : F.ign <;> cases n <;> simp [readIn, Node.special, Node.strip, hl]
  | source m l =>
    obtain ⟨hm, hn, hl⟩ := ha
    refine ⟨_, by simp only [Ask.query, FileRoot.answer, file_source hN hV hm hn hl hc, Option.map_some]; rfl, ?_⟩
    show _ = _
    rfl
  | directory l =>
    refine ⟨_, by simp only [Ask.query, FileRoot.answer, file_directory hN hV ha hc, Option.map_some]; rfl, ?_⟩
    show _ = namesIn _
    cases (shown F.ign F.content).find l with
    | none => rfl
    | some n => cases n <;> rfl

theorem noLink_seen {content : Entries} (hN : Named (.dir content)) {ign : Bool} {l : List Str} {n : Node}
    (h : (shown ign content).find l = some n) : NoLinkOn (.dir content) l := by
  rw [shown_find hN] at h
  cases hf : (Node.dir content).find l with
  | none =>
    rw [hf] at h
    cases h
  | some m => exact noLink_of_find hf

theorem file_serves {F : FileRoot} (hN : Named (.dir F.content)) (hV : F.ign = false → Valid (.dir F.content)) :
    Serves F.reader (fun _ => True) (shown F.ign F.content) where
  source := by
    intro s m x es _ hm hx hf
    have hl : Names [x] := by
      intro a ha
      rw [List.mem_singleton.1 ha]
      exact hx
    refine ⟨(), ?_, trivial⟩
    show (F.source _ _).map _ = _
    have hnl : NoLinkOn (.dir F.content) (m ++ [x]) := by
      obtain ⟨es', h1, -⟩ := shown_dir_conv hN F.ign hf
      intro a k c e hk hq
      by_cases hk' : k.length ≤ 1
      · have hk1 : k = [x] ∧ a = m := by
          have := congrArg List.length e
          rw [List.length_append, List.length_append] at this
          have hkl : k.length = 1 := by
            cases k with
            | nil => exact absurd rfl hk
            | cons _ t =>
              rw [List.length_cons] at hk' ⊢
              omega
          have := List.append_inj' e (by simpa using hkl.symm)
          exact ⟨this.2.symm, this.1.symm⟩
        rw [hk1.2, h1] at hq
        cases hq
      · obtain ⟨k', y, rfl⟩ : ∃ k' y, k = k' ++ [y] := ⟨_, _, (List.dropLast_append_getLast hk).symm⟩
        rw [← List.append_assoc] at e
        have := (List.append_inj' e rfl).1
        refine noLink_of_find h1 a k' c this ?_ hq
        rintro rfl
        exact hk' (by simp)
    have hs := file_source hN hV hm hl (by simp) hnl
    simp only [joinWith] at hs
    rw [hs]
    rfl
  directory := by
    intro s m es _ hm hf
    refine ⟨⟨kinds es, none⟩, (), ?_, trivial, rfl, by simp⟩
    show (F.directory _).map _ = _
    rw [file_directory hN hV hm (noLink_seen hN hf), hf]
    rfl

/-- **C85.** A reference to a source tree of a root in the file system stands for what the root shows there. -/
theorem C85_tree_file {F : FileRoot} (hN : Named (.dir F.content)) (hV : F.ign = false → Valid (.dir F.content)) {l : List Str}
    (hn : Names l) {es : Entries} (hf : (shown F.ign F.content).find l = some (.dir es)) {n : Nat} (hd : Deep n (.dir es)) :
    treeTarget F.reader n () (joinWith '/' l) = some (some (.dir es), ()) := by
  obtain ⟨_, h, -⟩ := treeTarget_serves (file_serves hN hV) (hN.shown F.ign) (shown_other hN F.ign hV) n () l es trivial hn hf hd
  exact h

/-! ## The kinds of roots -/

/-- Answers showing the same. -/
def Alike : Reply → Reply → Prop
  | .json r, .json r' => r = r'
  | .source r, .source r' => r = r'
  | .directory (some L), .directory (some L') => L.entries = L'.entries
  | _, _ => False

theorem Right.alike {T : Node} {a : Ask} {r r' : Reply} (h : Right T a r) (h' : Right T a r') : Alike r r' := by
  cases a with
  | json l =>
    cases r with
    | json x =>
      cases r' with
      | json y => exact Eq.trans h (Eq.symm h')
      | _ => exact h'.elim
    | _ => exact h.elim
  | source m l =>
    cases r with
    | source x =>
      cases r' with
      | source y => exact Eq.trans h (Eq.symm h')
      | _ => exact h'.elim
    | _ => exact h.elim
  | directory l =>
    cases r with
    | directory x =>
      cases r' with
      | directory y =>
        cases x with
        | none => exact h.elim
        | some x =>
          cases y with
          | none => exact h'.elim
          | some y => exact Eq.trans (α := List (Str × Option Kind)) h (Eq.symm h')
      | _ => exact h'.elim
    | _ => exact h.elim

/-- **C85.** It does not matter for the analysis whether the content of a valid root is in a git tree or in a directory of the
file system, at all places that are not reached through symbolic links. -/
theorem C85_agree {G : GitRoot} {F : FileRoot} (hi : G.ign = false) (hi' : F.ign = false) (he : F.content = G.content)
    (hc : NoClash G.H G.content) (hv : Valid (.dir G.content)) (hN : Named (.dir G.content)) {st : State} (h : Reached G st)
    (a : Ask) (ha : a.Fine) (hl : NoLinkOn (.dir G.content) a.place) :
    ∃ r r' st', G.answer st a.query = some (r, st') ∧ F.answer a.query = some r' ∧ Alike r r' := by
  obtain ⟨r, st', h1, h2⟩ := C85_git hi hc hv h a ha
  obtain ⟨r', h3, h4⟩ := C85_file (F := F) (by rwa [he]) (fun _ => by rwa [he]) a ha (by rwa [he])
  rw [hi', he] at h4
  exact ⟨r, r', st', h1, h3, h2.alike h4⟩

end Verif.Root
