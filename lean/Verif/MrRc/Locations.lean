import Verif.MrRc.Props

/-!
# Locations in the rc files of just-mr (C98, continued)

* `C98_locations_partial`, `C98_logfiles_partial`: the locations taken from the effective rc.
* `C98_invocation`: the settings for the invocation log.
* `C98_lookup_partial`: where the multi-repository configuration is looked for.
-/

namespace Verif.MrRc

open Verif

section
variable {N : Type}

theorem optLocation_iff {env : Env N} {j : Json N} (hk : Plain j) {r : Option Str}
    (h : optLocation env j = some r) (p : Str) : r = some p ↔ ∃ b, IsLocation env j p b := by
  unfold optLocation at h
  obtain ⟨e, he, rfl⟩ := Option.map_eq_some_iff.1 h
  have hi := readEntry_iff hk he
  constructor
  · intro hr
    obtain ⟨⟨q, b⟩, rfl, rfl⟩ := Option.map_eq_some_iff.1 hr
    exact ⟨b, (hi q b).1 rfl⟩
  · rintro ⟨b, hb⟩
    rw [(hi p b).2 hb]
    rfl

theorem firstFile_iff {env : Env N} : ∀ {l : List (Json N)} {r : Option (Str × Str)}, (∀ j ∈ l, Plain j) →
    firstFile env l = some r → ∀ p b, r = some (p, b) ↔ FirstFile env l p b
  | [], r, _, h, p, b => by
    simp only [firstFile, Option.some.injEq] at h
    subst h
    constructor
    · intro e; cases e
    · rintro ⟨pre, j, post, h, _⟩
      cases pre <;> cases h
  | j :: l, r, hp, h, p, b => by
    have hp' : ∀ j ∈ l, Plain j := fun x hx => hp x (List.mem_cons_of_mem _ hx)
    simp only [firstFile] at h
    cases he : readEntry env j with
    | none => rw [he] at h; cases h
    | some e =>
      have hi := readEntry_iff (hp j List.mem_cons_self) he
      rw [he] at h
      -- the first location does not count
      have skip : (∀ q c, IsLocation env j q c → env.isFile q = false) →
          (FirstFile env l p b ↔ FirstFile env (j :: l) p b) := by
        intro hn
        constructor
        · rintro ⟨pre, x, post, rfl, h1, h2, h3⟩
          refine ⟨j :: pre, x, post, rfl, h1, h2, ?_⟩
          intro y hy q c hl
          rcases List.mem_cons.1 hy with rfl | hy
          · exact hn q c hl
          · exact h3 y hy q c hl
        · rintro ⟨pre, x, post, heq, h1, h2, h3⟩
          cases pre with
          | nil =>
            cases heq
            rw [hn p b h1] at h2
            cases h2
          | cons y pre =>
            cases heq
            exact ⟨pre, x, post, rfl, h1, h2, fun z hz => h3 z (List.mem_cons_of_mem _ hz)⟩
      cases e with
      | none =>
        simp only at h
        rw [firstFile_iff hp' h p b]
        exact skip (fun q c hl => by have := (hi q c).2 hl; cases this)
      | some qc =>
        obtain ⟨q, c⟩ := qc
        simp only at h
        cases hf : env.isFile q with
        | false =>
          rw [hf] at h
          rw [firstFile_iff hp' h p b]
          refine skip (fun q' c' hl => ?_)
          have := (hi q' c').2 hl
          cases this
          exact hf
        | true =>
          rw [hf] at h
          simp only [if_true, Option.some.injEq] at h
          subst h
          constructor
          · intro e
            cases e
            exact ⟨[], j, l, rfl, (hi _ _).1 rfl, hf, fun _ hx => absurd hx List.not_mem_nil⟩
          · rintro ⟨pre, x, post, heq, h1, h2, h3⟩
            cases pre with
            | nil =>
              cases heq
              exact (hi p b).2 h1
            | cons y pre =>
              cases heq
              have := h3 j List.mem_cons_self q c ((hi q c).1 rfl)
              rw [hf] at this
              cases this

/-- The locations with known roots that are existing directories, in order. -/
inductive Dirs (env : Env N) : List (Json N) → List Str → Prop
  | nil : Dirs env [] []
  | ignored {j : Json N} {l : List (Json N)} {ds : List Str} (h : ∀ p b, ¬ IsLocation env j p b)
      (t : Dirs env l ds) : Dirs env (j :: l) ds
  | missing {j : Json N} {l : List (Json N)} {ds : List Str} {p b : Str} (h : IsLocation env j p b)
      (hf : env.isDir p = false) (t : Dirs env l ds) : Dirs env (j :: l) ds
  | dir {j : Json N} {l : List (Json N)} {ds : List Str} {p b : Str} (h : IsLocation env j p b)
      (hf : env.isDir p = true) (t : Dirs env l ds) : Dirs env (j :: l) (p :: ds)

theorem locations_dirs {env : Env N} : ∀ {l : List (Json N)} {ps : List Str}, (∀ j ∈ l, Plain j) →
    locations env l = some ps → Dirs env l (ps.filter fun p => env.isDir p)
  | [], ps, _, h => by
    simp only [locations, Option.some.injEq] at h
    subst h
    exact .nil
  | j :: l, ps, hp, h => by
    have hp' : ∀ j ∈ l, Plain j := fun x hx => hp x (List.mem_cons_of_mem _ hx)
    simp only [locations] at h
    cases he : readEntry env j with
    | none => rw [he] at h; cases h
    | some e =>
      have hi := readEntry_iff (hp j List.mem_cons_self) he
      rw [he] at h
      cases hl : locations env l with
      | none => rw [hl] at h; cases e <;> cases h
      | some qs =>
        have ih := locations_dirs hp' hl
        rw [hl] at h
        cases e with
        | none =>
          simp only [Option.some.injEq] at h
          subst h
          exact .ignored (fun p b x => by have := (hi p b).2 x; cases this) ih
        | some pb =>
          obtain ⟨p, b⟩ := pb
          simp only [Option.some.injEq] at h
          subst h
          have hx := (hi p b).1 rfl
          cases hf : env.isDir p with
          | false =>
            rw [List.filter_cons_of_neg (by simp [hf])]
            exact .missing hx hf ih
          | true =>
            rw [List.filter_cons_of_pos (by simp [hf])]
            exact .dir hx hf ih

/-- The paths of the locations, in order. -/
inductive Paths (env : Env N) : List (Json N) → List Str → Prop
  | nil : Paths env [] []
  | ignored {j : Json N} {l : List (Json N)} {ps : List Str} (h : ∀ p b, ¬ IsLocation env j p b)
      (t : Paths env l ps) : Paths env (j :: l) ps
  | path {j : Json N} {l : List (Json N)} {ps : List Str} {p b : Str} (h : IsLocation env j p b)
      (t : Paths env l ps) : Paths env (j :: l) (p :: ps)

theorem locations_paths {env : Env N} : ∀ {l : List (Json N)} {ps : List Str}, (∀ j ∈ l, Plain j) →
    locations env l = some ps → Paths env l ps
  | [], ps, _, h => by
    simp only [locations, Option.some.injEq] at h
    subst h
    exact .nil
  | j :: l, ps, hp, h => by
    have hp' : ∀ j ∈ l, Plain j := fun x hx => hp x (List.mem_cons_of_mem _ hx)
    simp only [locations] at h
    cases he : readEntry env j with
    | none => rw [he] at h; cases h
    | some e =>
      have hi := readEntry_iff (hp j List.mem_cons_self) he
      rw [he] at h
      cases hl : locations env l with
      | none => rw [hl] at h; cases e <;> cases h
      | some qs =>
        have ih := locations_paths hp' hl
        rw [hl] at h
        cases e with
        | none =>
          simp only [Option.some.injEq] at h
          subst h
          exact .ignored (fun p b x => by have := (hi p b).2 x; cases this) ih
        | some pb =>
          obtain ⟨p, b⟩ := pb
          simp only [Option.some.injEq] at h
          subst h
          exact .path ((hi p b).1 rfl) ih

/-- All locations in the effective rc have known roots. -/
structure PlainRc (rc : Rc N) : Prop where
  single : ∀ k ∈ ["local build root".toList, "checkout locations".toList, "just".toList, "git".toList],
    Plain (field k rc)
  lists : ∀ k ∈ ["distdirs".toList, "absent".toList, "config lookup order".toList, "log files".toList],
    ∀ j ∈ elems (field k rc), Plain j
  nested : ∀ k ∈ ["authentication".toList, "invocation log".toList], ∀ s j,
    s ∈ ["ca cert".toList, "client cert".toList, "client key".toList, "directory".toList] →
    get s (field k rc) = some j → Plain j
  files : ∀ s j, get s (field "just files".toList rc) = some j → ∀ x ∈ elems j, Plain x

/-- Locations of the effective rc that are used, where the command line does not say otherwise: paths of tools
and files, the distdirs, and the first existing file of a list. -/
theorem C98_locations_partial {env : Env N} {a a' : Args N} {rc : Rc N} (he : effective env a = some rc)
    (h : readRc env a = some a') (hp : PlainRc rc) :
    (a.root = none → ∀ p, a'.root = some p ↔ ∃ b, IsLocation env (field "local build root".toList rc) p b) ∧
    (a.just = none → ∀ p, a'.just = some p ↔ ∃ b, IsLocation env (field "just".toList rc) p b) ∧
    (a.git = none → ∀ p, a'.git = some p ↔ ∃ b, IsLocation env (field "git".toList rc) p b) ∧
    (a.checkout = none → ∀ p, a'.checkout = some p ↔
      ∃ b, IsLocation env (field "checkout locations".toList rc) p b) ∧
    (a.checkout = none → ∀ p, a'.checkout = some p → env.isFile p = true) ∧
    (a.ca = none → ∀ p, a'.ca = some p ↔
      ∃ j b, get "ca cert".toList (field "authentication".toList rc) = some j ∧ IsLocation env j p b) ∧
    (a.cert = none → ∀ p, a'.cert = some p ↔
      ∃ j b, get "client cert".toList (field "authentication".toList rc) = some j ∧ IsLocation env j p b) ∧
    (a.key = none → ∀ p, a'.key = some p ↔
      ∃ j b, get "client key".toList (field "authentication".toList rc) = some j ∧ IsLocation env j p b) ∧
    (∀ p, a'.invocation.directory = some p ↔
      ∃ j b, get "directory".toList (field "invocation log".toList rc) = some j ∧ IsLocation env j p b) ∧
    Dirs env (elems (field "distdirs".toList rc)) a'.distdirs ∧
    (a.absentFile = none → ∀ p, a'.absentFile = some p ↔
      ∃ b, FirstFile env (elems (field "absent".toList rc)) p b) ∧
    (∀ p, a'.justConfig = some p ↔ ∃ j b, get "config".toList (field "just files".toList rc) = some j ∧
      FirstFile env (elems j) p b) ∧
    (∀ p, a'.endpointConfig = some p ↔
      ∃ j b, get "endpoint-configuration".toList (field "just files".toList rc) = some j ∧
        FirstFile env (elems j) p b) := by
  unfold readRc at h
  rw [he, Option.bind_some] at h
  obtain ⟨files, jargs, justArgs, properties, launcher, logFiles, remote, serveMap, auth, log, found,
    h1, h2, h3, h4, h5, h6, h7, h8, h9, h10, hja, h11, hpr, h12, h13, h14, h15, hla, h16, h17, h18, hlf,
    h19, h20, h21, h22, h23, h24, h25, h26, h27, h28, h29, h30, h31, h32, hcf, hsr, hrc, hed, hdf, hpl, hsub,
    hex⟩ := applyRc_inv h
  have one : ∀ {k : Str} {g r : Option Str}, Plain (field k rc) →
      orElse g (optLocation env (field k rc)) = some r → g = none →
      ∀ p, r = some p ↔ ∃ b, IsLocation env (field k rc) p b := by
    intro k g r hk hr hg p
    rw [hg] at hr
    exact optLocation_iff hk hr p
  have inner : ∀ {m : OMap Str (Json N)} {s : Str} {x : Json N} {r : Option Str}, optMap x = some m →
      (∀ j, get s x = some j → Plain j) → optLocation env (field s m) = some r →
      ∀ p, r = some p ↔ ∃ j b, get s x = some j ∧ IsLocation env j p b := by
    intro m s x r hm hpl hr p
    have hf : field s m = (get s x).getD .null := by unfold field; rw [optMap_find hm]
    have hpf : Plain (field s m) := by
      rw [hf]
      cases hx : get s x with
      | none => exact .inl rfl
      | some j => exact hpl j hx
    rw [optLocation_iff hpf hr p, hf]
    cases hx : get s x with
    | none =>
      constructor
      · rintro ⟨b, hb⟩
        rcases hb with ⟨path, hp, _⟩ | ⟨path, base, hp, _⟩ <;> cases hp
      · rintro ⟨j, b, hj, _⟩; cases hj
    | some j =>
      constructor
      · rintro ⟨b, hb⟩; exact ⟨j, b, rfl, hb⟩
      · rintro ⟨j', b, e, hb⟩; cases e; exact ⟨b, hb⟩
  have list : ∀ {s : Str} {r : Option Str}, optLocationList env (field s files) = some r →
      ∀ p, r = some p ↔ ∃ j b, get s (field "just files".toList rc) = some j ∧
        FirstFile env (elems j) p b := by
    intro s r hr p
    have hf : field s files = (get s (field "just files".toList rc)).getD .null := by
      unfold field; rw [optMap_find h6]; rfl
    have none_nil : ∀ q c, ¬ FirstFile env ([] : List (Json N)) q c := by
      rintro q c ⟨pre, j, post, e, _⟩
      cases pre <;> cases e
    rw [hf] at hr
    cases hx : get s (field "just files".toList rc) with
    | none =>
      rw [hx] at hr
      simp only [Option.getD_none, optLocationList, Option.some.injEq] at hr
      subst hr
      constructor
      · intro e; cases e
      · rintro ⟨j, b, e, _⟩; cases e
    | some j =>
      rw [hx] at hr
      simp only [Option.getD_some] at hr
      cases j with
      | null =>
        simp only [optLocationList, Option.some.injEq] at hr
        subst hr
        constructor
        · intro e; cases e
        · rintro ⟨j, b, e, hb⟩; cases e; exact absurd hb (none_nil p b)
      | arr l =>
        simp only [optLocationList] at hr
        obtain ⟨f, hf1, rfl⟩ := Option.map_eq_some_iff.1 hr
        have hi := firstFile_iff (hp.files s _ hx) hf1
        constructor
        · intro e
          obtain ⟨⟨q, b⟩, rfl, rfl⟩ := Option.map_eq_some_iff.1 e
          exact ⟨_, b, rfl, (hi q b).1 rfl⟩
        · rintro ⟨j, b, e, hb⟩
          cases e
          rw [(hi p b).2 hb]; rfl
      | _ => cases hr
  refine ⟨one (hp.single _ (by simp)) h1, one (hp.single _ (by simp)) h4, one (hp.single _ (by simp)) h5, ?_,
    ?_, ?_, ?_, ?_, ?_, ?_, ?_, list h7, list h8⟩
  · intro hg p
    rw [hg] at h2
    change readCheckout env _ = _ at h2
    unfold readCheckout at h2
    cases ho : optLocation env (field "checkout locations".toList rc) with
    | none => rw [ho] at h2; cases h2
    | some r =>
      rw [← optLocation_iff (hp.single _ (by simp)) ho p]
      rw [ho] at h2
      cases r with
      | none => simp only [Option.some.injEq] at h2; rw [← h2]
      | some q =>
        simp only at h2
        split at h2
        · simp only [Option.some.injEq] at h2; rw [← h2]
        · cases h2
  · intro hg p hx
    rw [hg] at h2
    change readCheckout env _ = _ at h2
    unfold readCheckout at h2
    cases ho : optLocation env (field "checkout locations".toList rc) with
    | none => rw [ho] at h2; cases h2
    | some r =>
      rw [ho] at h2
      cases r with
      | none => simp only [Option.some.injEq] at h2; rw [← h2] at hx; cases hx
      | some q =>
        simp only at h2
        split at h2
        · rename_i hq
          simp only [Option.some.injEq] at h2
          rw [← h2] at hx
          cases hx
          exact hq
        · cases h2
  · intro hg
    rw [hg] at h26
    exact inner h25 (fun j hj => hp.nested _ (by simp) _ j (by simp) hj) h26
  · intro hg
    rw [hg] at h27
    exact inner h25 (fun j hj => hp.nested _ (by simp) _ j (by simp) hj) h27
  · intro hg
    rw [hg] at h28
    exact inner h25 (fun j hj => hp.nested _ (by simp) _ j (by simp) hj) h28
  · intro p
    unfold readInvocation at h31
    cases ho : optLocation env (field "directory".toList log) with
    | none => rw [ho] at h31; cases h31
    | some r =>
      rw [← inner h30 (fun j hj => hp.nested _ (by simp) _ j (by simp) hj) ho p]
      rw [ho] at h31
      cases r with
      | none => simp only [Option.some.injEq] at h31; rw [← h31]
      | some d => simp only [Option.some.injEq] at h31; rw [← h31]
  · cases hd : field "distdirs".toList rc with
    | null =>
      rw [hd] at h3
      simp only [readDistdirs, Option.some.injEq] at h3
      rw [← h3]
      exact .nil
    | arr l =>
      rw [hd] at h3
      simp only [readDistdirs] at h3
      obtain ⟨ps, hps, h3⟩ := Option.map_eq_some_iff.1 h3
      rw [← h3]
      refine locations_dirs ?_ hps
      intro j hj
      exact hp.lists "distdirs".toList (by simp) j (by rw [hd]; exact hj)
    | bool _ => rw [hd] at h3; cases h3
    | num _ => rw [hd] at h3; cases h3
    | str _ => rw [hd] at h3; cases h3
    | obj _ => rw [hd] at h3; cases h3
  · intro hg p
    rw [hg] at h29
    change readAbsent env _ = _ at h29
    unfold readAbsent at h29
    obtain ⟨f, hf, h29⟩ := Option.map_eq_some_iff.1 h29
    have hi := firstFile_iff (hp.lists "absent".toList (by simp)) hf
    rw [← h29]
    constructor
    · intro e
      obtain ⟨⟨q, b⟩, rfl, rfl⟩ := Option.map_eq_some_iff.1 e
      exact ⟨b, (hi q b).1 rfl⟩
    · rintro ⟨b, hb⟩
      rw [(hi p b).2 hb]; rfl

/-- The log files given on the command line are used, and those of the effective rc in addition. -/
theorem C98_logfiles_partial {env : Env N} {a a' : Args N} {rc : Rc N} (he : effective env a = some rc)
    (h : readRc env a = some a') (hp : PlainRc rc) :
    ∃ ps, a'.logFiles = a.logFiles ++ ps ∧ Paths env (elems (field "log files".toList rc)) ps := by
  unfold readRc at h
  rw [he, Option.bind_some] at h
  obtain ⟨files, jargs, justArgs, properties, launcher, logFiles, remote, serveMap, auth, log, found,
    h1, h2, h3, h4, h5, h6, h7, h8, h9, h10, hja, h11, hpr, h12, h13, h14, h15, hla, h16, h17, h18, hlf,
    h19⟩ := applyRc_inv h
  refine ⟨logFiles, hlf, ?_⟩
  cases hd : field "log files".toList rc with
  | null =>
    rw [hd] at h18
    simp only [readLogFiles, Option.some.injEq] at h18
    rw [← h18]
    exact .nil
  | arr l =>
    rw [hd] at h18
    refine locations_paths ?_ h18
    intro j hj
    exact hp.lists "log files".toList (by simp) j (by rw [hd]; exact hj)
  | bool _ => rw [hd] at h18; cases h18
  | num _ => rw [hd] at h18; cases h18
  | str _ => rw [hd] at h18; cases h18
  | obj _ => rw [hd] at h18; cases h18

/-- If invocations are logged, the names of the files, the project id, and what else is logged are the strings
given in the effective rc. -/
theorem C98_invocation {env : Env N} {a a' : Args N} {rc : Rc N} (he : effective env a = some rc)
    (h : readRc env a = some a') (hd : a'.invocation.directory ≠ none) :
    let log := fun (k : String) => get k.toList (field "invocation log".toList rc)
    (∀ s, a'.invocation.projectId = some s ↔ log "project id" = some (.str s)) ∧
    (∀ s, a'.invocation.metadata = some s ↔ log "metadata" = some (.str s)) ∧
    (∀ s, a'.invocation.message = some s ↔ log "invocation message" = some (.str s)) ∧
    (∀ s, a'.invocation.graphFile = some s ↔ log "--dump-graph" = some (.str s)) ∧
    (∀ s, a'.invocation.graphFilePlain = some s ↔ log "--dump-plain-graph" = some (.str s)) ∧
    (∀ s, a'.invocation.artifactsToBuild = some s ↔ log "--dump-artifacts-to-build" = some (.str s)) ∧
    (∀ s, a'.invocation.artifacts = some s ↔ log "--dump-artifacts" = some (.str s)) ∧
    (∀ s, a'.invocation.profile = some s ↔ log "--profile" = some (.str s)) ∧
    (∀ s, s ∈ a'.invocation.contextVars ↔ ∃ l, log "context variables" = some (.arr l) ∧ .str s ∈ l) := by
  unfold readRc at h
  rw [he, Option.bind_some] at h
  obtain ⟨files, jargs, justArgs, properties, launcher, logFiles, remote, serveMap, auth, log, found,
    h1, h2, h3, h4, h5, h6, h7, h8, h9, h10, hja, h11, hpr, h12, h13, h14, h15, hla, h16, h17, h18, hlf,
    h19, h20, h21, h22, h23, h24, h25, h26, h27, h28, h29, h30, h31, h32⟩ := applyRc_inv h
  have key : ∀ (k s : Str), asString (field k log) = some s ↔
      get k (field "invocation log".toList rc) = some (.str s) := by
    intro k s
    rw [← optMap_find h30, ← field_eq (by intro e; cases e)]
    constructor
    · intro e
      cases hf : field k log <;> rw [hf] at e <;> cases e
      rfl
    · intro e; rw [e]; rfl
  unfold readInvocation at h31
  cases ho : optLocation env (field "directory".toList log) with
  | none => rw [ho] at h31; cases h31
  | some r =>
    rw [ho] at h31
    cases r with
    | none =>
      simp only [Option.some.injEq] at h31
      rw [← h31] at hd
      exact absurd rfl hd
    | some d =>
      simp only [Option.some.injEq] at h31
      rw [← h31]
      refine ⟨key _, key _, key _, key _, key _, key _, key _, key _, ?_⟩
      intro s
      simp only [List.mem_filterMap]
      rw [← optMap_find h30]
      constructor
      · rintro ⟨j, hj, hs⟩
        have : j = .str s := by cases j <;> cases hs; rfl
        subst this
        cases hx : field "context variables".toList log with
        | arr l =>
          rw [hx] at hj
          exact ⟨l, (field_eq (by intro e; cases e)).1 hx, hj⟩
        | _ => rw [hx] at hj; exact absurd hj List.not_mem_nil
      · rintro ⟨l, hl, hs⟩
        refine ⟨.str s, ?_, rfl⟩
        rw [(field_eq (by intro e; cases e)).2 hl]
        exact hs

/-- The locations to be looked at for the multi-repository configuration; if none are given, these are `repos.json` and `etc/repos.json` in the
workspace, `.just-repos.json` in the home directory, and `etc/just-repos.json` in the root directory, in this order
(share/man/just-mr.1.md). -/
def LookupList (rc : Rc N) (l : List (Json N)) : Prop :=
  rc.find "config lookup order".toList = some (.arr l) ∨
    (field "config lookup order".toList rc = .null ∧
      l = [("workspace", "repos.json"), ("workspace", "etc/repos.json"), ("home", ".just-repos.json"), ("system", "etc/just-repos.json")].map
        fun e => .obj [("path".toList, .str e.2.toList), ("root".toList, .str e.1.toList)])

/-- The multi-repository configuration is the file given with `-C`, otherwise the first existing one of the
lookup order; relative paths in it are relative to the base of that location. -/
theorem C98_lookup_partial {env : Env N} {a a' : Args N} {rc : Rc N} (he : effective env a = some rc)
    (h : readRc env a = some a') (hp : PlainRc rc) :
    (∀ f, a.repositoryConfig = some f →
      (complete env a').configFile = some f ∧ (complete env a').setupRoot = none) ∧
    (a.repositoryConfig = none → a.setupRoot = none → ∃ l, LookupList rc l ∧ ∀ p b,
      ((complete env a').configFile = some p ∧ (complete env a').setupRoot = some b) ↔
        FirstFile env l p b) := by
  unfold readRc at h
  rw [he, Option.bind_some] at h
  obtain ⟨files, jargs, justArgs, properties, launcher, logFiles, remote, serveMap, auth, log, found,
    h1, h2, h3, h4, h5, h6, h7, h8, h9, h10, hja, h11, hpr, h12, h13, h14, h15, hla, h16, h17, h18, hlf,
    h19, h20, h21, h22, h23, h24, h25, h26, h27, h28, h29, h30, h31, h32, hcf, hsr, hrc, hed, hdf, hpl, hsub,
    hex⟩ := applyRc_inv h
  constructor
  · intro f hf
    rw [hf] at hrc
    simp only [complete, hrc, and_self]
  · intro hf hs
    rw [hf] at hrc
    simp only [complete, hrc]
    have key : ∀ l, (∀ j ∈ l, Plain j) → firstFile env l = some found → ∀ p b,
        (a'.configFile = some p ∧ a'.setupRoot = some b) ↔ FirstFile env l p b := by
      intro l hl hfnd p b
      rw [← firstFile_iff hl hfnd p b, hcf, hsr, hs, Option.or_none]
      cases found with
      | none => simp
      | some q => obtain ⟨q1, q2⟩ := q; simp
    cases hd : field "config lookup order".toList rc with
    | null =>
      rw [hd] at h32
      refine ⟨defaultLocations, .inr ⟨hd, rfl⟩, key _ ?_ h32⟩
      intro j hj
      simp only [defaultLocations, List.mem_cons, List.not_mem_nil, or_false] at hj
      rcases hj with rfl | rfl | rfl | rfl
      · exact .inr (.inl rfl)
      · exact .inr (.inl rfl)
      · exact .inr (.inr (.inl rfl))
      · exact .inr (.inr (.inr rfl))
    | arr l =>
      rw [hd] at h32
      refine ⟨l, .inl ((field_eq (by intro e; cases e)).1 hd), key _ ?_ h32⟩
      intro j hj
      exact hp.lists "config lookup order".toList (by simp) j (by rw [hd]; exact hj)
    | bool _ => rw [hd] at h32; cases h32
    | num _ => rw [hd] at h32; cases h32
    | str _ => rw [hd] at h32; cases h32
    | obj _ => rw [hd] at h32; cases h32

end

end Verif.MrRc
