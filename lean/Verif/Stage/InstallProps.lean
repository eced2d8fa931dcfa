import Verif.Stage.Install
import Verif.Stage.Props

/-!
# Properties of the rule `install`

C70: an `install` target contains precisely what its description asks for.
-/

namespace Verif.Stage

open Verif.Path Verif.LinkedMap

variable {A T : Type} [DecidableEq A]

/-! ## What is asked for -/

/-- The map has a single entry, with artifact `a`. -/
def OnlyEntry (m : OMap Str A) (a : A) : Prop := ∃ k, ∀ k' a', m.find k' = some a' ↔ k' = k ∧ a' = a

/-- The artifact taken for a target in `files`: the single artifact, or, if there are no artifacts, the single
runfile. -/
def FileOf (p : Provided A) (a : A) : Prop :=
  OnlyEntry p.artifacts a ∨ ((∀ k, p.artifacts.find k = none) ∧ OnlyEntry p.runfiles a)

/-- Artifact `a` is to be at `path` because of `deps`. -/
def FromDeps (E : T → Provided A) (d : InstallDesc T) (path : Str) (a : A) : Prop :=
  ∃ t ∈ d.deps, (E t).runfiles.find path = some a

/-- Artifact `a` is to be at `path` because of `files`. -/
def FromFiles (E : T → Provided A) (d : InstallDesc T) (path : Str) (a : A) : Prop :=
  ∃ t, (path, t) ∈ d.files ∧ FileOf (E t) a

/-- The path of an entry put below a directory. -/
def Below (dir k path : Str) : Prop := place path = place (append dir k) ∧ toNormalPath path = path

/-- Artifact `a` is to be at `path` because of target `t` put at directory `dir`: it is an artifact of the
target, or a runfile and there is no artifact at this place. -/
def FromDir (p : Provided A) (dir path : Str) (a : A) : Prop :=
  (∃ k, p.artifacts.find k = some a ∧ Below dir k path) ∨
  ((∃ k, p.runfiles.find k = some a ∧ Below dir k path) ∧
    ∀ k b, p.artifacts.find k = some b → ¬ Below dir k path)

/-- Artifact `a` is to be at `path` because of `dirs`. -/
def FromDirs (E : T → Provided A) (d : InstallDesc T) (path : Str) (a : A) : Prop :=
  ∃ t dir, (t, dir) ∈ d.dirs ∧ FromDir (E t) dir path a

/-- Artifact `a` is to be at `path`. -/
def Asked (E : T → Provided A) (d : InstallDesc T) (path : Str) (a : A) : Prop :=
  FromDeps E d path a ∨ FromFiles E d path a ∨ FromDirs E d path a

/-! ## Lemmas -/

omit [DecidableEq A] in
theorem find_over (m n : OMap Str A) (k : Str) : (over m n).find k = (n.find k).or (m.find k) :=
  assoc_mergeItems _ _ n.asc m.asc k

theorem duplicate_some {m n : OMap Str A} {k : Str} (h : duplicate m n = some k) :
    ∃ a b, m.find k = some a ∧ n.find k = some b ∧ a ≠ b := by
  obtain ⟨a, b, h1, h2, h3⟩ := conflictScan_some _ _ _ h
  exact ⟨a, b, OMap.mem_items.1 h1, OMap.mem_items.1 h2, h3⟩

theorem duplicate_none {m n : OMap Str A} (h : duplicate m n = none) {k : Str} {a b : A}
    (h1 : m.find k = some a) (h2 : n.find k = some b) : a = b :=
  conflictScan_none _ _ m.asc n.asc h k a b (OMap.mem_items.2 h1) (OMap.mem_items.2 h2)

/-- Overlaying maps that agree. -/
theorem find_over_agree {m n : OMap Str A} (h : duplicate m n = none) (k : Str) (a : A) :
    (over m n).find k = some a ↔ m.find k = some a ∨ n.find k = some a := by
  rw [find_over]
  cases hn : n.find k with
  | none => simp
  | some b =>
    constructor
    · intro e; exact Or.inr e
    · rintro (e | e)
      · rw [duplicate_none h e hn]; rfl
      · exact e

theorem stageDeps_ok (E : T → Provided A) (l : List T) (s s' : OMap Str A)
    (h : stageDeps E l s = .ok s') :
    (∀ k a, s'.find k = some a ↔ s.find k = some a ∨ ∃ t ∈ l, (E t).runfiles.find k = some a) := by
  induction l generalizing s with
  | nil =>
    simp only [stageDeps] at h
    cases h
    simp
  | cons d t ih =>
    simp only [stageDeps] at h
    cases hd : duplicate s (E d).runfiles with
    | some p => rw [hd] at h; cases h
    | none =>
      rw [hd] at h
      intro k a
      rw [ih _ h k a, find_over_agree hd]
      simp only [List.mem_cons, exists_eq_or_imp]
      tauto

theorem stageDeps_error (E : T → Provided A) (l : List T) (s : OMap Str A) (p : Str)
    (h : stageDeps E l s = .error p) :
    ∃ a b, a ≠ b ∧ (s.find p = some a ∨ ∃ t ∈ l, (E t).runfiles.find p = some a) ∧
      ∃ t ∈ l, (E t).runfiles.find p = some b := by
  induction l generalizing s with
  | nil => simp only [stageDeps] at h; cases h
  | cons d t ih =>
    simp only [stageDeps] at h
    cases hd : duplicate s (E d).runfiles with
    | some q =>
      rw [hd] at h
      simp only [Except.error.injEq] at h
      subst h
      obtain ⟨a, b, h1, h2, h3⟩ := duplicate_some hd
      exact ⟨a, b, h3, Or.inl h1, d, List.mem_cons_self, h2⟩
    | none =>
      rw [hd] at h
      obtain ⟨a, b, h1, h2, t', ht', h3⟩ := ih _ h
      refine ⟨a, b, h1, ?_, t', List.mem_cons_of_mem _ ht', h3⟩
      rcases h2 with h2 | ⟨t'', h4, h5⟩
      · rcases (find_over_agree hd _ _).1 h2 with h2 | h2
        · exact Or.inl h2
        · exact Or.inr ⟨d, List.mem_cons_self, h2⟩
      · exact Or.inr ⟨t'', List.mem_cons_of_mem _ h4, h5⟩

theorem stageDirs_ok (E : T → Provided A) (l : List (T × Str)) (s s' : OMap Str A)
    (h : stageDirs E l s = .ok s') :
    (∀ k a, s'.find k = some a ↔ s.find k = some a ∨
      ∃ e ∈ l, (subdirStage (E e.1) e.2).find k = some a) := by
  induction l generalizing s with
  | nil =>
    simp only [stageDirs] at h
    cases h
    simp
  | cons d t ih =>
    obtain ⟨d, dir⟩ := d
    simp only [stageDirs] at h
    cases hd : duplicate s (subdirStage (E d) dir) with
    | some p => rw [hd] at h; cases h
    | none =>
      rw [hd] at h
      intro k a
      rw [ih _ h k a, find_over_agree hd]
      simp only [List.mem_cons, exists_eq_or_imp]
      tauto

theorem stageDirs_error (E : T → Provided A) (l : List (T × Str)) (s : OMap Str A) (p : Str)
    (h : stageDirs E l s = .error p) :
    ∃ a b, a ≠ b ∧ (s.find p = some a ∨ ∃ e ∈ l, (subdirStage (E e.1) e.2).find p = some a) ∧
      ∃ e ∈ l, (subdirStage (E e.1) e.2).find p = some b := by
  induction l generalizing s with
  | nil => simp only [stageDirs] at h; cases h
  | cons d t ih =>
    obtain ⟨d, dir⟩ := d
    simp only [stageDirs] at h
    cases hd : duplicate s (subdirStage (E d) dir) with
    | some q =>
      rw [hd] at h
      simp only [Except.error.injEq] at h
      subst h
      obtain ⟨a, b, h1, h2, h3⟩ := duplicate_some hd
      exact ⟨a, b, h3, Or.inl h1, (d, dir), List.mem_cons_self, h2⟩
    | none =>
      rw [hd] at h
      obtain ⟨a, b, h1, h2, t', ht', h3⟩ := ih _ h
      refine ⟨a, b, h1, ?_, t', List.mem_cons_of_mem _ ht', h3⟩
      rcases h2 with h2 | ⟨t'', h4, h5⟩
      · rcases (find_over_agree hd _ _).1 h2 with h2 | h2
        · exact Or.inl h2
        · exact Or.inr ⟨(d, dir), List.mem_cons_self, h2⟩
      · exact Or.inr ⟨t'', List.mem_cons_of_mem _ h4, h5⟩

omit [DecidableEq A] in
theorem onlyEntry_iff (m : OMap Str A) (a : A) : OnlyEntry m a ↔ ∃ k, m.items = [(k, a)] := by
  constructor
  · rintro ⟨k, h⟩
    refine ⟨k, ascending_ext m.asc (List.pairwise_singleton _ _) ?_⟩
    intro k'
    show m.find k' = _
    by_cases hk : k' = k
    · rw [(h k' a).2 ⟨hk, rfl⟩]
      simp [assoc, hk]
    · cases hf : m.find k' with
      | none => simp [assoc, hk]
      | some b => exact absurd ((h k' b).1 hf).1 hk
  · rintro ⟨k, h⟩
    refine ⟨k, fun k' a' => ?_⟩
    rw [← OMap.mem_items, h]
    simp

omit [DecidableEq A] in
theorem find_all_none (m : OMap Str A) : (∀ k, m.find k = none) ↔ m.items = [] := by
  constructor
  · intro h
    cases hm : m.items with
    | nil => rfl
    | cons e t =>
      have : m.find e.1 = some e.2 := OMap.mem_items.1 (by rw [hm]; exact List.mem_cons_self)
      rw [h] at this
      cases this
  · intro h k
    unfold OMap.find
    rw [h]
    rfl

omit [DecidableEq A] in
theorem fileOf_iff (p : Provided A) (a : A) : FileOf p a ↔ ∃ k, (fileSource p).items = [(k, a)] := by
  unfold FileOf fileSource
  rw [onlyEntry_iff, onlyEntry_iff, find_all_none]
  cases h : p.artifacts.items with
  | nil => simp
  | cons e t => simp [h]

omit [DecidableEq A] in
theorem fileOf_unique {p : Provided A} {a b : A} (h1 : FileOf p a) (h2 : FileOf p b) : a = b := by
  obtain ⟨k, h1⟩ := (fileOf_iff _ _).1 h1
  obtain ⟨k', h2⟩ := (fileOf_iff _ _).1 h2
  rw [h1] at h2
  simp only [List.cons.injEq, Prod.mk.injEq, and_true] at h2
  exact h2.2

omit [DecidableEq A] in
theorem stageFiles_ok (E : T → Provided A) (s : OMap Str A) (l : List (Str × T)) (fs fs' : OMap Str A)
    (hl : (l.map Prod.fst).Nodup) (hfs : ∀ e ∈ l, fs.find e.1 = none)
    (h : stageFiles E s l fs = .ok fs') :
    (∀ e ∈ l, s.find e.1 = none ∧ ∃ a, FileOf (E e.2) a) ∧
    ∀ k a, fs'.find k = some a ↔ fs.find k = some a ∨ ∃ e ∈ l, e.1 = k ∧ FileOf (E e.2) a := by
  induction l generalizing fs with
  | nil =>
    simp only [stageFiles] at h
    cases h
    simp
  | cons e t ih =>
    obtain ⟨p, d⟩ := e
    simp only [stageFiles] at h
    split at h
    · cases h
    rename_i hs
    simp only [Bool.not_eq_true, Option.isSome_eq_false_iff, Option.isNone_iff_eq_none] at hs
    simp only [List.map_cons, List.nodup_cons] at hl
    split at h
    · cases h
    · rename_i e he
      have hd : ∀ a, FileOf (E d) a ↔ a = e.2 := by
        intro a
        rw [fileOf_iff, he]
        constructor
        · rintro ⟨k, hk⟩
          simp only [List.cons.injEq, and_true] at hk
          rw [hk]
        · rintro rfl
          exact ⟨e.1, rfl⟩
      have hp : fs.find p = none := hfs _ List.mem_cons_self
      obtain ⟨h1, h2⟩ := ih (fs.emplace p e.2) hl.2 (by
        intro x hx
        rw [OMap.find_emplace]
        have : x.1 ≠ p := fun hc => hl.1 (by rw [← hc]; exact List.mem_map_of_mem hx)
        rw [if_neg (by simp [this])]
        exact hfs _ (List.mem_cons_of_mem _ hx)) h
      constructor
      · intro x hx
        rcases List.mem_cons.1 hx with rfl | hx
        · exact ⟨hs, e.2, (hd _).2 rfl⟩
        · exact h1 x hx
      · intro k a
        rw [h2 k a, OMap.find_emplace]
        simp only [List.mem_cons, exists_eq_or_imp, hd]
        by_cases hk : k = p
        · subst hk
          simp only [hp, if_true, true_and]
          constructor
          · rintro (e | e)
            · exact Or.inr (Or.inl (Option.some.inj e).symm)
            · exact Or.inr (Or.inr e)
          · rintro (e | rfl | e)
            · cases e
            · exact Or.inl rfl
            · exact Or.inr e
        · have hk' : ¬ p = k := fun h => hk h.symm
          simp [hk, hk']
    · cases h

omit [DecidableEq A] in
/-- The files are staged iff all paths are free and all targets have a single file. -/
theorem stageFiles_iff (E : T → Provided A) (s : OMap Str A) (l : List (Str × T)) (fs : OMap Str A) :
    (∃ fs', stageFiles E s l fs = .ok fs') ↔ ∀ e ∈ l, s.find e.1 = none ∧ ∃ a, FileOf (E e.2) a := by
  induction l generalizing fs with
  | nil => simp [stageFiles]
  | cons e t ih =>
    obtain ⟨p, d⟩ := e
    simp only [stageFiles, List.mem_cons, forall_eq_or_imp]
    have hd : (∃ a, FileOf (E d) a) ↔ ∃ e, (fileSource (E d)).items = [e] := by
      simp only [fileOf_iff]
      constructor
      · rintro ⟨a, k, h⟩; exact ⟨_, h⟩
      · rintro ⟨e, h⟩; exact ⟨e.2, e.1, h⟩
    rw [hd]
    cases hs : s.find p with
    | some b => simp
    | none =>
      simp only [Option.isSome_none, Bool.false_eq_true, if_false, true_and]
      cases hf : (fileSource (E d)).items with
      | nil => simp
      | cons x y =>
        cases y with
        | nil =>
          simp only [ih]
          simp
        | cons y z => simp

omit [DecidableEq A] in
theorem stageBelow_spec (dir : Str) (l : List (Str × A)) (r : OMap Str A)
    (hl : ∀ e ∈ l, ∀ f ∈ l, toNormalPath (append dir e.1) = toNormalPath (append dir f.1) → e.2 = f.2)
    (x : Str) (a : A) :
    (stageBelow dir l r).find x = some a ↔ r.find x = some a ∨
      (r.find x = none ∧ ∃ e ∈ l, toNormalPath (append dir e.1) = x ∧ e.2 = a) := by
  induction l generalizing r with
  | nil => simp [stageBelow]
  | cons e t ih =>
    obtain ⟨k, b⟩ := e
    simp only [stageBelow]
    rw [ih _ (fun e he f hf => hl e (List.mem_cons_of_mem _ he) f (List.mem_cons_of_mem _ hf)),
      OMap.find_emplace]
    simp only [List.mem_cons, exists_eq_or_imp]
    by_cases hx : x = toNormalPath (append dir k)
    · subst hx
      cases hr : r.find (toNormalPath (append dir k)) with
      | some c => simp
      | none =>
        simp only [if_true, Option.getD_none, Option.some.injEq, reduceCtorEq, true_and, false_and,
          or_false, false_or]
        constructor
        · intro h; exact Or.inl h
        · rintro (h | ⟨f, hf, h1, h2⟩)
          · exact h
          · rw [← h2]
            exact hl (k, b) List.mem_cons_self f (List.mem_cons_of_mem _ hf) h1.symm
    · have hx' : ¬ toNormalPath (append dir k) = x := fun h => hx h.symm
      simp [hx, hx']

/-! ## Paths below a directory -/

/-- Following segments that never lead upwards from a place. -/
theorem foldl_inside (l : List Str) (P : Place) (e : List Str)
    (h : (l.foldl Place.follow ⟨false, 0, e⟩).up = 0) :
    l.foldl Place.follow { P with down := P.down ++ e } =
      { P with down := P.down ++ (l.foldl Place.follow ⟨false, 0, e⟩).down } := by
  induction l generalizing e with
  | nil => rfl
  | cons a t ih =>
    rw [List.foldl_cons] at h ⊢
    rw [List.foldl_cons]
    by_cases h1 : a = [] ∨ a = ['.']
    · have hf : ∀ Q : Place, Q.follow a = Q := by intro Q; unfold Place.follow; rw [if_pos h1]
      rw [hf] at h ⊢
      rw [hf]
      exact ih e h
    · by_cases h2 : a = ['.', '.']
      · cases e with
        | nil =>
          have hf : Place.follow ⟨false, 0, []⟩ a = ⟨false, 1, []⟩ := by
            unfold Place.follow
            rw [if_neg h1, if_pos h2]
            rfl
          rw [hf] at h
          have := ((up_foldl t ⟨false, 1, []⟩ rfl).1 h).1
          cases this
        | cons b bs =>
          have hf : Place.follow ⟨false, 0, b :: bs⟩ a = ⟨false, 0, (b :: bs).dropLast⟩ := by
            unfold Place.follow
            rw [if_neg h1, if_pos h2]
          have hg : Place.follow { P with down := P.down ++ b :: bs } a =
              { P with down := P.down ++ (b :: bs).dropLast } := by
            unfold Place.follow
            rw [if_neg h1, if_pos h2]
            have : P.down ++ (b :: bs).dropLast = (P.down ++ b :: bs).dropLast := by
              rw [List.dropLast_append_of_ne_nil (by simp)]
            rw [this]
            cases hp : P.down ++ b :: bs with
            | nil => simp at hp
            | cons c cs => rfl
          rw [hf] at h ⊢
          rw [hg]
          exact ih _ h
      · have hf : ∀ Q : Place, Q.follow a = { Q with down := Q.down ++ [a] } := by
          intro Q; unfold Place.follow; rw [if_neg h1, if_neg h2]
        rw [hf] at h ⊢
        rw [hf]
        have := ih (e ++ [a]) h
        rw [← List.append_assoc] at this
        exact this

/-- The place of a path inside the stage, put below a directory. -/
theorem place_below (dir k : Str) (h1 : (place k).abs = false) (h2 : (place k).up = 0) :
    place (append dir k) = { place dir with down := (place dir).down ++ (place k).down } := by
  have ha : isAbs k = false := by
    rw [← isAbs_canon (wf_place k), ← toNormalPath_eq] at h1
    cases hk : isAbs k with
    | false => rfl
    | true =>
      rw [toNormalPath_eq, isAbs_canon (wf_place k), place_eq, hk] at h1
      exfalso
      have : ∀ (l : List Str) (P : Place), (l.foldl Place.follow P).abs = P.abs := by
        intro l
        induction l with
        | nil => intro P; rfl
        | cons a t ih =>
          intro P
          rw [List.foldl_cons, ih]
          unfold Place.follow
          split
          · rfl
          · split
            · split
              · split <;> rfl
              · rfl
            · rfl
      rw [this] at h1
      cases h1
  have hd : isAbs (append dir k) = isAbs dir ∨ dir = [] := by
    unfold append
    rw [ha]
    cases dir with
    | nil => exact Or.inr rfl
    | cons c cs =>
      left
      simp only [Bool.false_eq_true, if_false]
      split <;> rfl
  have hk := place_rel ha
  rcases hd with hd | hd
  · rw [place_eq, hd, names_append ha, List.foldl_append, ← place_eq]
    have := foldl_inside (names k) (place dir) [] (by rw [← hk]; exact h2)
    rw [List.append_nil, ← hk] at this
    exact this
  · subst hd
    have e1 : append [] k = k := by
      unfold append
      rw [ha]
      rfl
    rw [e1]
    have : place ([] : Str) = ⟨false, 0, []⟩ := rfl
    rw [this]
    simp only [List.nil_append]
    rw [← h1, ← h2]

/-- The keys are in normal form, and all artifacts can be put at their locations. -/
structure Neat (m : OMap Str A) : Prop where
  stageable : Stageable m
  normal : ∀ k a, m.find k = some a → toNormalPath k = k

omit [DecidableEq A] in
theorem Neat.injective {m : OMap Str A} (h : Neat m) (dir : Str) {k k' : Str} {a b : A}
    (h1 : m.find k = some a) (h2 : m.find k' = some b)
    (h3 : place (append dir k) = place (append dir k')) : k = k' ∧ a = b := by
  obtain ⟨i1, i2⟩ := h.stageable.inside _ _ h1
  obtain ⟨j1, j2⟩ := h.stageable.inside _ _ h2
  rw [place_below _ _ i1 i2, place_below _ _ j1 j2] at h3
  have h4 : (place k).down = (place k').down := by
    injection h3 with _ _ h3
    exact List.append_cancel_left h3
  refine ⟨?_, (h.stageable.free k a k' b h1 h2 (h4 ▸ List.prefix_rfl)).2⟩
  rw [← h.normal _ _ h1, ← h.normal _ _ h2, C39_canonical]
  cases hk : place k with
  | mk a1 b1 c1 =>
    cases hk' : place k' with
    | mk a2 b2 c2 =>
      rw [hk] at h4 i1 i2
      rw [hk'] at h4 j1 j2
      simp only at h4 i1 i2 j1 j2
      rw [h4, i1, i2, j1, j2]

omit [DecidableEq A] in
theorem below_iff (dir k path : Str) : Below dir k path ↔ toNormalPath (append dir k) = path := by
  unfold Below
  constructor
  · rintro ⟨h1, h2⟩
    rw [← h2]
    exact (C39_canonical _ _).2 h1.symm
  · rintro rfl
    exact ⟨C39_location _, C39_idempotent _⟩

omit [DecidableEq A] in
theorem subdirStage_spec {p : Provided A} (h1 : Neat p.artifacts) (h2 : Neat p.runfiles) (dir x : Str)
    (a : A) : (subdirStage p dir).find x = some a ↔ FromDir p dir x a := by
  have hu : ∀ m : OMap Str A, Neat m → ∀ e ∈ m.items, ∀ f ∈ m.items,
      toNormalPath (append dir e.1) = toNormalPath (append dir f.1) → e.2 = f.2 := by
    intro m hm e he f hf h
    obtain ⟨k, a⟩ := e
    obtain ⟨k', b⟩ := f
    exact (hm.injective dir (OMap.mem_items.1 he) (OMap.mem_items.1 hf) ((C39_canonical _ _).1 h)).2
  have hart : ∀ b, (stageBelow dir p.artifacts.items OMap.empty).find x = some b ↔
      ∃ k, p.artifacts.find k = some b ∧ Below dir k x := by
    intro b
    rw [stageBelow_spec _ _ _ (hu _ h1)]
    simp only [OMap.find_empty, reduceCtorEq, false_or, true_and]
    constructor
    · rintro ⟨e, he, h, rfl⟩
      exact ⟨e.1, OMap.mem_items.1 he, (below_iff _ _ _).2 h⟩
    · rintro ⟨k, hk, h⟩
      exact ⟨(k, b), OMap.mem_items.2 hk, (below_iff _ _ _).1 h, rfl⟩
  unfold subdirStage FromDir
  rw [stageBelow_spec _ _ _ (hu _ h2), hart]
  refine or_congr Iff.rfl ?_
  constructor
  · rintro ⟨h, e, he, h3, rfl⟩
    refine ⟨⟨e.1, OMap.mem_items.1 he, (below_iff _ _ _).2 h3⟩, ?_⟩
    intro k b hk hb
    rw [(hart b).2 ⟨k, hk, hb⟩] at h
    cases h
  · rintro ⟨⟨k, hk, hb⟩, h⟩
    refine ⟨?_, (k, a), OMap.mem_items.2 hk, (below_iff _ _ _).1 hb, rfl⟩
    cases hf : (stageBelow dir p.artifacts.items OMap.empty).find x with
    | none => rfl
    | some b =>
      obtain ⟨k', hk', hb'⟩ := (hart b).1 hf
      exact absurd hb' (h k' b hk')

/-! ## C70 -/

/-- The artifacts fit into one stage: all are inside, none is inside another one, and artifacts at one
place are the same. -/
structure Fits (R : Str → A → Prop) : Prop where
  inside : ∀ k a, R k a → (place k).abs = false ∧ (place k).up = 0
  free : ∀ k a k' a', R k a → R k' a' →
    (place k).down <+: (place k').down → (place k).down = (place k').down ∧ a = a'

/-- The description is one of targets with stages in normal form, and its `files` have paths in normal
form. -/
structure NormalDesc (E : T → Provided A) (d : InstallDesc T) : Prop where
  artifacts : ∀ t, Neat (E t).artifacts
  runfiles : ∀ t, Neat (E t).runfiles
  files : ∀ e ∈ d.files, toNormalPath e.1 = e.1

theorem install_ok {E : T → Provided A} {d : InstallDesc T} {m : OMap Str A}
    (h : install E d = .ok m) : ∃ s fs, stageDeps E d.deps OMap.empty = .ok s ∧
      stageFiles E s d.files OMap.empty = .ok fs ∧ stageDirs E d.dirs (over s fs) = .ok m ∧
      treeConflict m = .ok := by
  unfold install at h
  cases h1 : stageDeps E d.deps OMap.empty with
  | error p => rw [h1] at h; cases h
  | ok s =>
    rw [h1] at h
    simp only at h
    cases h2 : stageFiles E s d.files OMap.empty with
    | ok fs =>
      rw [h2] at h
      simp only at h
      cases h3 : stageDirs E d.dirs (over s fs) with
      | error p => rw [h3] at h; cases h
      | ok s' =>
        rw [h3] at h
        simp only at h
        cases h4 : treeConflict s' with
        | ok =>
          rw [h4] at h
          simp only [Installed.ok.injEq] at h
          subst h
          exact ⟨s, fs, rfl, h2, h3, h4⟩
        | conflict p => rw [h4] at h; cases h
        | ub => rw [h4] at h; cases h
    | conflict p => rw [h2] at h; cases h
    | nothing p => rw [h2] at h; cases h
    | many p => rw [h2] at h; cases h
    | tree p => rw [h2] at h; cases h
    | ub => rw [h2] at h; cases h

/-- `over` of stages with different paths. -/
theorem over_files {E : T → Provided A} {d : InstallDesc T} {s fs : OMap Str A}
    (hn : (d.files.map Prod.fst).Nodup) (h1 : stageDeps E d.deps OMap.empty = .ok s)
    (h2 : stageFiles E s d.files OMap.empty = .ok fs) (x : Str) (a : A) :
    (over s fs).find x = some a ↔ FromDeps E d x a ∨ FromFiles E d x a := by
  have hs := stageDeps_ok E _ _ _ h1
  obtain ⟨hf1, hf2⟩ := stageFiles_ok E s _ _ _ hn (by simp) h2
  have hF : fs.find x = some a ↔ FromFiles E d x a := by
    rw [hf2]
    simp only [OMap.find_empty, reduceCtorEq, false_or, FromFiles]
    constructor
    · rintro ⟨e, he, rfl, h⟩; exact ⟨e.2, he, h⟩
    · rintro ⟨t, ht, h⟩; exact ⟨(x, t), ht, rfl, h⟩
  have hD : s.find x = some a ↔ FromDeps E d x a := by
    rw [hs]
    simp [FromDeps]
  rw [find_over, ← hF, ← hD]
  cases hx : fs.find x with
  | none => simp
  | some b =>
    have : s.find x = none := by
      rcases (hf2 x b).1 hx with h | ⟨e, he, rfl, -⟩
      · simp at h
      · exact (hf1 e he).1
    simp [this]

/-- Missing: stages with keys not in normal form, see `C70_violation_two`; and that `files` override the
runfiles of `deps`, as documented, see `C70_violation_overlay`.

The stage of an `install` target contains precisely what is asked for: the runfiles of the `deps`, the
`files`, and, below their directories, the artifacts and remaining runfiles of the `dirs`. -/
theorem C70_content_partial (E : T → Provided A) (d : InstallDesc T) (m : OMap Str A)
    (hf : (d.files.map Prod.fst).Nodup) (hn : NormalDesc E d) (h : install E d = .ok m) (path : Str)
    (a : A) : m.find path = some a ↔ Asked E d path a := by
  obtain ⟨s, fs, h1, h2, h3, -⟩ := install_ok h
  rw [stageDirs_ok E _ _ _ h3, over_files hf h1 h2, or_assoc]
  unfold Asked
  refine or_congr Iff.rfl (or_congr Iff.rfl ?_)
  unfold FromDirs
  constructor
  · rintro ⟨e, he, h⟩
    exact ⟨e.1, e.2, he, (subdirStage_spec (hn.artifacts _) (hn.runfiles _) _ _ _).1 h⟩
  · rintro ⟨t, dir, he, h⟩
    exact ⟨(t, dir), he, (subdirStage_spec (hn.artifacts _) (hn.runfiles _) _ _ _).2 h⟩

omit [DecidableEq A] in
theorem asked_normal {E : T → Provided A} {d : InstallDesc T} (hn : NormalDesc E d) {x : Str} {a : A}
    (h : Asked E d x a) : toNormalPath x = x := by
  rcases h with ⟨t, -, h⟩ | ⟨t, h, -⟩ | ⟨t, dir, -, ⟨k, -, h⟩ | ⟨⟨k, -, h⟩, -⟩⟩
  · exact (hn.runfiles t).normal _ _ h
  · exact hn.files _ h
  · exact h.2
  · exact h.2

/-- Missing: stages with keys not in normal form, see `C70_violation_two`; and that `files` override the
runfiles of `deps`, as documented, see `C70_violation_overlay`.

An `install` target is accepted iff all `files` are given by targets with a single file, none of them
is at the path of a runfile of the `deps`, and everything asked for fits into one stage.  There is no
undefined behaviour. -/
theorem C70_exact_partial (E : T → Provided A) (d : InstallDesc T)
    (hf : (d.files.map Prod.fst).Nodup) (hn : NormalDesc E d) :
    ((∃ m, install E d = .ok m) ↔
      (∀ e ∈ d.files, ∃ a, FileOf (E e.2) a) ∧ (∀ e ∈ d.files, ∀ a, ¬ FromDeps E d e.1 a) ∧
      Fits (Asked E d)) ∧
    install E d ≠ .ub := by
  constructor
  · constructor
    · rintro ⟨m, h⟩
      have hc := C70_content_partial E d m hf hn h
      obtain ⟨s, fs, h1, h2, h3, h4⟩ := install_ok h
      have hs := stageDeps_ok E _ _ _ h1
      obtain ⟨hf1, hf2⟩ := stageFiles_ok E s _ _ _ hf (by simp) h2
      have hnorm : ∀ k a, m.find k = some a → toNormalPath k = k :=
        fun k a hk => asked_normal hn ((hc k a).1 hk)
      refine ⟨fun e he => (hf1 e he).2, ?_, ?_⟩
      · intro e he a ⟨t, ht, h⟩
        have := (hs e.1 a).2 (Or.inr ⟨t, ht, h⟩)
        rw [(hf1 e he).1] at this
        cases this
      · obtain ⟨g1, g2⟩ := (treeConflict_ok m hnorm).1 h4
        refine ⟨fun k a hk => g1 k a ((hc k a).2 hk), ?_⟩
        intro k a k' a' hk hk' hp
        rw [← hc] at hk hk'
        have := g2 k a k' a' hk hk' hp
        subst this
        rw [hk] at hk'
        exact ⟨rfl, Option.some.inj hk'⟩
    · rintro ⟨g1, g2, g3⟩
      have huniq : ∀ k a b, Asked E d k a → Asked E d k b → a = b :=
        fun k a b h h' => (g3.free k a k b h h' List.prefix_rfl).2
      obtain ⟨s, h1⟩ : ∃ s, stageDeps E d.deps OMap.empty = .ok s := by
        cases h1 : stageDeps E d.deps OMap.empty with
        | ok s => exact ⟨s, rfl⟩
        | error p =>
          obtain ⟨a, b, hab, ha, t', ht', hb⟩ := stageDeps_error E _ _ _ h1
          rcases ha with ha | ⟨t, ht, ha⟩
          · simp at ha
          · exact absurd (huniq p a b (Or.inl ⟨t, ht, ha⟩) (Or.inl ⟨t', ht', hb⟩)) hab
      have hs := stageDeps_ok E _ _ _ h1
      obtain ⟨fs, h2⟩ := (stageFiles_iff E s d.files OMap.empty).2 (by
        intro e he
        refine ⟨?_, g1 e he⟩
        cases hx : s.find e.1 with
        | none => rfl
        | some a =>
          exfalso
          rcases (hs _ _).1 hx with h | h
          · simp at h
          · exact g2 e he a h)
      have hof := over_files hf h1 h2
      have hdir : ∀ p a, (∃ e ∈ d.dirs, (subdirStage (E e.1) e.2).find p = some a) →
          Asked E d p a := by
        rintro p a ⟨e, he, h⟩
        exact Or.inr (Or.inr ⟨e.1, e.2, he,
          (subdirStage_spec (hn.artifacts _) (hn.runfiles _) _ _ _).1 h⟩)
      obtain ⟨m, h3⟩ : ∃ m, stageDirs E d.dirs (over s fs) = .ok m := by
        cases h3 : stageDirs E d.dirs (over s fs) with
        | ok m => exact ⟨m, rfl⟩
        | error p =>
          obtain ⟨a, b, hab, ha, hb⟩ := stageDirs_error E _ _ _ h3
          refine absurd (huniq p a b ?_ (hdir _ _ hb)) hab
          rcases ha with ha | ha
          · rcases (hof _ _).1 ha with ha | ha
            · exact Or.inl ha
            · exact Or.inr (Or.inl ha)
          · exact hdir _ _ ha
      have hm : ∀ k a, m.find k = some a → Asked E d k a := by
        intro k a hk
        rcases (stageDirs_ok E _ _ _ h3 k a).1 hk with hk | hk
        · rcases (hof _ _).1 hk with ha | ha
          · exact Or.inl ha
          · exact Or.inr (Or.inl ha)
        · exact hdir _ _ hk
      have hnorm : ∀ k a, m.find k = some a → toNormalPath k = k :=
        fun k a hk => asked_normal hn (hm k a hk)
      have h4 : treeConflict m = .ok := by
        rw [treeConflict_ok m hnorm]
        refine ⟨fun k a hk => g3.inside k a (hm k a hk), ?_⟩
        intro k a k' a' hk hk' hp
        have e1 := g3.inside k a (hm k a hk)
        have e2 := g3.inside k' a' (hm k' a' hk')
        have e3 := (g3.free k a k' a' (hm k a hk) (hm k' a' hk') hp).1
        rw [← hnorm k a hk, ← hnorm k' a' hk', C39_canonical]
        cases h3 : place k with
        | mk a1 b1 c1 =>
          cases h4 : place k' with
          | mk a2 b2 c2 =>
            rw [h3] at e1 e3
            rw [h4] at e2 e3
            simp only at e1 e2 e3
            rw [e1.1, e1.2, e2.1, e2.2, e3]
      refine ⟨m, ?_⟩
      unfold install
      rw [h1]
      simp only
      rw [h2]
      simp only
      rw [h3]
      simp only
      rw [h4]
  · intro h
    unfold install at h
    cases h1 : stageDeps E d.deps OMap.empty with
    | error p => rw [h1] at h; cases h
    | ok s =>
      rw [h1] at h
      simp only at h
      cases h2 : stageFiles E s d.files OMap.empty with
      | ok fs =>
        rw [h2] at h
        simp only at h
        cases h3 : stageDirs E d.dirs (over s fs) with
        | error p => rw [h3] at h; cases h
        | ok m =>
          rw [h3] at h
          simp only at h
          have hnorm : ∀ k a, m.find k = some a → toNormalPath k = k := by
            intro k a hk
            apply asked_normal hn (a := a)
            rcases (stageDirs_ok E _ _ _ h3 k a).1 hk with hk | ⟨e, he, hk⟩
            · rcases (over_files hf h1 h2 _ _).1 hk with ha | ha
              · exact Or.inl ha
              · exact Or.inr (Or.inl ha)
            · exact Or.inr (Or.inr ⟨e.1, e.2, he,
                (subdirStage_spec (hn.artifacts _) (hn.runfiles _) _ _ _).1 hk⟩)
          cases h4 : treeConflict m with
          | ok => rw [h4] at h; cases h
          | conflict p => rw [h4] at h; cases h
          | ub => exact treeConflict_ub m hnorm h4
      | conflict p => rw [h2] at h; cases h
      | nothing p => rw [h2] at h; cases h
      | many p => rw [h2] at h; cases h
      | tree p => rw [h2] at h; cases h
      | ub =>
        have : ∀ (l : List (Str × T)) (fs : OMap Str A), stageFiles E s l fs ≠ .ub := by
          intro l
          induction l with
          | nil => intro fs h; simp [stageFiles] at h
          | cons e t ih =>
            intro fs h
            obtain ⟨p, d⟩ := e
            simp only [stageFiles] at h
            split at h
            · cases h
            · split at h
              · cases h
              · exact ih _ h
              · cases h
        exact this _ _ h2

/-- Missing: as for `C70_content_partial`.

The stage of an `install` target of stages in normal form is again in normal form, everything fits into
it, and no artifact is written outside of the output directory. -/
theorem C70_inside_partial (E : T → Provided A) (d : InstallDesc T) (m : OMap Str A)
    (hf : (d.files.map Prod.fst).Nodup) (hn : NormalDesc E d) (h : install E d = .ok m) :
    Neat m ∧ ∀ out path a, m.find path = some a →
      (place (outputPath out path)).abs = (place out).abs ∧
      (place (outputPath out path)).up = (place out).up ∧
      (place out).down <+: (place (outputPath out path)).down := by
  have hc := C70_content_partial E d m hf hn h
  obtain ⟨-, -, hfit⟩ := (C70_exact_partial E d hf hn).1.1 ⟨m, h⟩
  refine ⟨⟨⟨fun k a hk => hfit.inside k a ((hc k a).1 hk), ?_⟩, ?_⟩, ?_⟩
  · intro k a k' a' hk hk' hp
    exact hfit.free k a k' a' ((hc _ _).1 hk) ((hc _ _).1 hk') hp
  · intro k a hk
    exact asked_normal hn ((hc k a).1 hk)
  · intro out path a hp
    obtain ⟨i1, i2⟩ := hfit.inside path a ((hc _ _).1 hp)
    unfold outputPath
    rw [place_below _ _ i1 i2]
    exact ⟨rfl, rfl, List.prefix_append _ _⟩

/-- The order of the `files`, which is the one of an unordered map, does not matter: neither for whether
the target is accepted, nor for the result. -/
theorem C70_order (E : T → Provided A) (d : InstallDesc T) (files : List (Str × T))
    (hf : (d.files.map Prod.fst).Nodup) (hp : d.files.Perm files) (m : OMap Str A)
    (h : install E d = .ok m) : install E { d with files := files } = .ok m := by
  obtain ⟨s, fs, h1, h2, h3, h4⟩ := install_ok h
  obtain ⟨hf1, hf2⟩ := stageFiles_ok E s _ _ _ hf (by simp) h2
  obtain ⟨fs', h2'⟩ := (stageFiles_iff E s files OMap.empty).2 (fun e he => hf1 e (hp.mem_iff.2 he))
  obtain ⟨-, hf2'⟩ := stageFiles_ok E s _ _ _ ((hp.map _).nodup_iff.1 hf) (by simp) h2'
  have : fs' = fs := by
    apply OMap.ext
    intro k
    have : ∀ a, fs'.find k = some a ↔ fs.find k = some a := by
      intro a
      rw [hf2, hf2']
      simp only [hp.mem_iff]
    cases hk : fs.find k with
    | some a => exact (this a).2 hk
    | none =>
      cases hk' : fs'.find k with
      | none => rfl
      | some a => rw [(this a).1 hk'] at hk; cases hk
  subst this
  unfold install
  simp only
  rw [h1]
  simp only
  rw [h2']
  simp only
  rw [h3]
  simp only
  rw [h4]

/-! ## Examples and violations -/

/-- Targets of the examples: `0` a library with headers, `1` a program needing a runfile, `2` a file, `3`
a target with another file at the path of the runfile. -/
def exampleTargets : Nat → Provided Nat
  | 0 => ⟨stage [("lib/a.h", 10), ("lib/b.h", 11)], stage []⟩
  | 1 => ⟨stage [("bin", 20)], stage [("bin", 21), ("share/data", 22)]⟩
  | 2 => ⟨stage [("README", 30)], stage [("doc/x", 31), ("doc/y", 32)]⟩
  | 3 => ⟨stage [], stage [("share/data", 40)]⟩
  | _ => ⟨stage [], stage []⟩

/-- The items of a stage, if the target is accepted. -/
def Installed.items : Installed Nat → Option (List (String × Nat))
  | .ok m => some (m.items.map (fun e => (String.ofList e.1, e.2)))
  | _ => none

/-- The path in conflict. -/
def Installed.conflictAt : Installed Nat → Option String
  | .conflict p => some (String.ofList p)
  | _ => none

/-- A description using all fields. -/
def exampleDesc : InstallDesc Nat where
  deps := [3, 3]
  files := [("LICENSE".toList, 2)]
  dirs := [(0, "include/./".toList), (1, "opt".toList)]

-- A stage made of all kinds of entries; runfiles below `opt` are those not hidden by artifacts.
example : (install exampleTargets exampleDesc).items =
    some [("LICENSE", 30), ("include/lib/a.h", 10), ("include/lib/b.h", 11), ("opt/bin", 20),
      ("opt/share/data", 22), ("share/data", 40)] := by decide +kernel

-- Its hypotheses are met.
example : (exampleDesc.files.map Prod.fst).Nodup ∧ NormalDesc exampleTargets exampleDesc := by
  have hneat : ∀ m : OMap Str Nat, checkStage m = .ok m → Neat m := by
    intro m h
    have h1 := C37_content m m h
    refine ⟨(C37_exact m).1 ⟨m, h⟩, fun k a hk => ?_⟩
    obtain ⟨-, -, -, h2⟩ := (h1 k a).1 hk
    exact h2
  refine ⟨by decide, ?_, ?_, by decide⟩
  · intro t
    match t with
    | 0 => exact hneat _ rfl
    | 1 => exact hneat _ rfl
    | 2 => exact hneat _ rfl
    | 3 => exact hneat _ rfl
    | _ + 4 => exact hneat _ rfl
  · intro t
    match t with
    | 0 => exact hneat _ rfl
    | 1 => exact hneat _ rfl
    | 2 => exact hneat _ rfl
    | 3 => exact hneat _ rfl
    | _ + 4 => exact hneat _ rfl

-- Conflicts within `deps`, with `dirs`, a directory in place of a file, too many files, a path upwards.
example :
    (install exampleTargets ⟨[3, 1], [], []⟩).conflictAt = some "share/data" ∧
    (install exampleTargets ⟨[3], [], [(1, [])]⟩).conflictAt = some "share/data" ∧
    (install exampleTargets ⟨[3], [("share".toList, 2)], []⟩).items = none ∧
    (install exampleTargets ⟨[], [("x".toList, 0)], []⟩).items = none ∧
    (install exampleTargets ⟨[], [], [(2, "a/../..".toList)]⟩).items = none := by decide +kernel

/-- Contrary to the documentation (built-in-rules.md:65-66: "this stage overlays the runfiles of the `deps`
and conflicts are ignored"), a file in `files` at the path of a runfile of `deps` is an error, even if it is
the same artifact. -/
theorem C70_violation_overlay :
    ∃ (E : Nat → Provided Nat) (d d' : InstallDesc Nat), NormalDesc E d ∧ NormalDesc E d' ∧
      (∃ p a b, FromDeps E d p a ∧ FromFiles E d p b ∧ a ≠ b ∧ install E d = .conflict p) ∧
      (∃ p a, FromDeps E d' p a ∧ FromFiles E d' p a ∧ install E d' = .conflict p) := by
  have hneat : ∀ m : OMap Str Nat, checkStage m = .ok m → Neat m := by
    intro m h
    have h1 := C37_content m m h
    refine ⟨(C37_exact m).1 ⟨m, h⟩, fun k a hk => ?_⟩
    obtain ⟨-, -, -, h2⟩ := (h1 k a).1 hk
    exact h2
  let E : Nat → Provided Nat := fun n =>
    if n = 0 then ⟨stage [], stage [("a", 1)]⟩ else ⟨stage [("b", 2)], stage []⟩
  have hE : (∀ t, Neat (E t).artifacts) ∧ ∀ t, Neat (E t).runfiles := by
    constructor
    · intro t
      by_cases ht : t = 0
      · simp only [E, if_pos ht]; exact hneat _ rfl
      · simp only [E, if_neg ht]; exact hneat _ rfl
    · intro t
      by_cases ht : t = 0
      · simp only [E, if_pos ht]; exact hneat _ rfl
      · simp only [E, if_neg ht]; exact hneat _ rfl
  refine ⟨E, ⟨[0], [("a".toList, 1)], []⟩, ⟨[0], [("a".toList, 0)], []⟩, ⟨hE.1, hE.2, by decide⟩,
    ⟨hE.1, hE.2, by decide⟩, ⟨"a".toList, 1, 2, ⟨0, by simp, by decide⟩, ⟨1, by simp, ?_⟩, by decide, ?_⟩,
    "a".toList, 1, ⟨0, by simp, by decide⟩, ⟨0, by simp, ?_⟩, ?_⟩
  · exact (fileOf_iff _ _).2 ⟨"b".toList, rfl⟩
  · have : (install E ⟨[0], [("a".toList, 1)], []⟩).conflictAt = some "a" := by decide +kernel
    revert this
    cases install E ⟨[0], [("a".toList, 1)], []⟩ with
    | conflict p =>
      intro h
      simp only [Installed.conflictAt, Option.some.injEq] at h
      rw [← h]
      simp
    | _ => intro h; cases h
  · exact (fileOf_iff _ _).2 ⟨"a".toList, rfl⟩
  · have : (install E ⟨[0], [("a".toList, 0)], []⟩).conflictAt = some "a" := by decide +kernel
    revert this
    cases install E ⟨[0], [("a".toList, 0)], []⟩ with
    | conflict p =>
      intro h
      simp only [Installed.conflictAt, Option.some.injEq] at h
      rw [← h]
      simp
    | _ => intro h; cases h

/-- The paths of `files` are not normalised: an artifact can be installed outside of the output directory.
Here, the only thing asked for is at `a/../../x`; it is accepted, and written to the parent of the output
directory. -/
theorem C70_violation_outside :
    (install exampleTargets ⟨[], [("a/../../x".toList, 2)], []⟩).items = some [("a/../../x", 30)] ∧
    place (outputPath "/home/user/out".toList "a/../../x".toList) = place "/home/user/x".toList := by
  decide +kernel

/-- For the same reason, two different artifacts for one place are accepted, as is a file for which there
would have to be a directory; and of such a target put below a directory one of the artifacts is lost. -/
theorem C70_violation_two :
    (install exampleTargets ⟨[], [("./x".toList, 2), ("x".toList, 3)], []⟩).items =
      some [("./x", 30), ("x", 40)] ∧
    place "./x".toList = place "x".toList ∧
    (install exampleTargets ⟨[], [("a//b/c".toList, 2), ("a/b".toList, 3)], []⟩).items =
      some [("a//b/c", 30), ("a/b", 40)] ∧
    (install (fun _ : Nat => ⟨stage [("./x", 30), ("x", 40)], stage []⟩) ⟨[], [], [(0, "d".toList)]⟩).items =
      some [("d/x", 30)] := by
  decide +kernel

end Verif.Stage
