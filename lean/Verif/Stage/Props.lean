import Verif.Stage.DirLemmas
import Verif.Path.Props

/-!
# Properties of staging and of directory trees

`place` (from `Verif.Path.Spec`) is the location a path denotes.
-/

set_option linter.unusedSectionVars false

namespace Verif.Stage

open Verif.Path

variable {A : Type} [DecidableEq A]

/-! ## C37: conflicts in a stage -/

/-- All artifacts can be put at their locations: each location is in the stage, no location is inside
another artifact, and artifacts at one location agree. -/
structure Stageable (m : OMap Str A) : Prop where
  inside : ∀ k a, m.find k = some a → (place k).abs = false ∧ (place k).up = 0
  free : ∀ k a k' a', m.find k = some a → m.find k' = some a' →
    (place k).down <+: (place k').down → (place k).down = (place k').down ∧ a = a'

theorem artifactsTree_ok {m m' : OMap Str A} (h : artifactsTree m = .ok m') :
    (∀ x a, m'.find x = some a ↔ ∃ k, m.find k = some a ∧ toNormalPath k = x) ∧
    (∀ k a k' a', m.find k = some a → m.find k' = some a' → toNormalPath k = toNormalPath k' →
      a = a') := by
  obtain ⟨-, h2, h3⟩ := (artifactsTreeGo_spec m.items OMap.empty).1 m' h
  constructor
  · intro x a
    rw [h3]
    constructor
    · rintro (e | ⟨e, he, h4, h5⟩)
      · simp at e
      · exact ⟨e.1, by rw [← h5]; exact OMap.mem_items.1 he, h4⟩
    · rintro ⟨k, hk, e⟩
      exact Or.inr ⟨(k, a), OMap.mem_items.2 hk, e, rfl⟩
  · intro k a k' a' hk hk' e
    exact h2 (k, a) (OMap.mem_items.2 hk) (k', a') (OMap.mem_items.2 hk') e

theorem artifactsTree_error {m : OMap Str A} {p : Str} (h : artifactsTree m = .error p) :
    ∃ k a k' a', m.find k = some a ∧ m.find k' = some a' ∧ toNormalPath k = toNormalPath k' ∧
      a ≠ a' := by
  rcases (artifactsTreeGo_spec m.items OMap.empty).2 p h with ⟨e, -, b, hb, -⟩ | ⟨e, he, f, hf, h1, h2⟩
  · simp at hb
  · exact ⟨e.1, e.2, f.1, f.2, OMap.mem_items.1 he, OMap.mem_items.1 hf, h1, h2⟩

/-- A stage is accepted iff all artifacts can be put at their locations. -/
theorem C37_exact (m : OMap Str A) : (∃ m', checkStage m = .ok m') ↔ Stageable m := by
  unfold checkStage
  cases h : artifactsTree m with
  | error p =>
    obtain ⟨k, a, k', a', hk, hk', he, hne⟩ := artifactsTree_error h
    constructor
    · rintro ⟨m', h'⟩; cases h'
    · intro hs
      exact absurd (hs.free k a k' a' hk hk' (by rw [(C39_canonical k k').1 he]; exact List.prefix_rfl)).2 hne
  | ok m' =>
    obtain ⟨h1, h2⟩ := artifactsTree_ok h
    have hnorm : ∀ k a, m'.find k = some a → toNormalPath k = k := by
      intro x a hx
      obtain ⟨k, -, rfl⟩ := (h1 x a).1 hx
      exact C39_idempotent k
    have hiff : treeConflict m' = .ok ↔ Stageable m := by
      rw [treeConflict_ok m' hnorm]
      constructor
      · rintro ⟨g1, g2⟩
        constructor
        · intro k a hk
          have := g1 (toNormalPath k) a ((h1 _ _).2 ⟨k, hk, rfl⟩)
          rwa [C39_location] at this
        · intro k a k' a' hk hk' hp
          have := g2 (toNormalPath k) a (toNormalPath k') a' ((h1 _ _).2 ⟨k, hk, rfl⟩)
            ((h1 _ _).2 ⟨k', hk', rfl⟩) (by rw [C39_location, C39_location]; exact hp)
          exact ⟨by rw [(C39_canonical k k').1 this], h2 k a k' a' hk hk' this⟩
      · intro hs
        constructor
        · intro x a hx
          obtain ⟨k, hk, rfl⟩ := (h1 x a).1 hx
          rw [C39_location]
          exact hs.inside k a hk
        · intro x a x' a' hx hx' hp
          obtain ⟨k, hk, rfl⟩ := (h1 x a).1 hx
          obtain ⟨k', hk', rfl⟩ := (h1 x' a').1 hx'
          rw [C39_location, C39_location] at hp
          rw [C39_canonical]
          have e1 := hs.inside k a hk
          have e2 := hs.inside k' a' hk'
          have e3 := (hs.free k a k' a' hk hk' hp).1
          cases h3 : place k with
          | mk a1 b1 c1 =>
            cases h4 : place k' with
            | mk a2 b2 c2 =>
              rw [h3] at e1 e3
              rw [h4] at e2 e3
              simp only at e1 e2 e3
              rw [e1.1, e1.2, e2.1, e2.2, e3]
    simp only
    cases hc : treeConflict m' with
    | ok => exact ⟨fun _ => hiff.1 hc, fun _ => ⟨m', rfl⟩⟩
    | conflict p =>
      constructor
      · rintro ⟨m'', h'⟩; cases h'
      · intro hs
        have := hiff.2 hs
        rw [hc] at this
        cases this
    | ub =>
      constructor
      · rintro ⟨m'', h'⟩; cases h'
      · intro hs
        have := hiff.2 hs
        rw [hc] at this
        cases this

/-- The stage obtained contains precisely the artifacts given, at their locations. -/
theorem C37_content (m m' : OMap Str A) (h : checkStage m = .ok m') (loc : Str) (a : A) :
    m'.find loc = some a ↔ ∃ k, m.find k = some a ∧ place k = place loc ∧ toNormalPath loc = loc := by
  unfold checkStage at h
  cases h' : artifactsTree m with
  | error p => rw [h'] at h; cases h
  | ok m'' =>
    rw [h'] at h
    simp only at h
    obtain ⟨h1, -⟩ := artifactsTree_ok h'
    have : m'' = m' := by
      cases hc : treeConflict m'' with
      | ok => rw [hc] at h; cases h; rfl
      | conflict p => rw [hc] at h; cases h
      | ub => rw [hc] at h; cases h
    rw [← this, h1]
    constructor
    · rintro ⟨k, hk, rfl⟩
      exact ⟨k, hk, (C39_location k).symm, C39_idempotent k⟩
    · rintro ⟨k, hk, he, hl⟩
      exact ⟨k, hk, by rw [(C39_canonical k loc).2 he, hl]⟩

/-- The check of a stage never has undefined behaviour. -/
theorem C37_defined (m : OMap Str A) : checkStage m ≠ .ub := by
  unfold checkStage
  cases h : artifactsTree m with
  | error p => simp
  | ok m' =>
    obtain ⟨h1, -⟩ := artifactsTree_ok h
    have := treeConflict_ub m' (by
      intro x a hx
      obtain ⟨k, -, rfl⟩ := (h1 x a).1 hx
      exact C39_idempotent k)
    simp only
    cases hc : treeConflict m' with
    | ok => simp
    | conflict p => simp
    | ub => exact absurd hc this

/-- A stage from a list of entries. -/
def stage (l : List (String × Nat)) : OMap Str Nat :=
  l.foldl (fun m e => m.emplace e.1.toList e.2) OMap.empty

-- Two spellings of one artifact are fine; a file inside a file, or two artifacts at one place, are not.
example :
    (∃ m', checkStage (stage [("a/b", 1), ("a/./b", 1), ("a/c", 2), ("ab", 3)]) = .ok m') ∧
    checkStage (stage [("a/b", 1), ("a//b", 2)]) = .conflict "a/b".toList ∧
    checkStage (stage [("a/b/c", 1), ("x", 3), ("a//b", 2)]) = .conflict "a/b".toList ∧
    checkStage (stage [("a/../../x", 2)]) = .conflict "../x".toList ∧
    checkStage (stage [(".", 1), ("x", 3)]) = .conflict ".".toList := by
  refine ⟨⟨_, rfl⟩, rfl, rfl, rfl, rfl⟩

/-! ## C38: trees from maps -/

theorem treeContent_find (t : List (Str × A)) (r : OMap Str A)
    (ht : ∀ e ∈ t, toNormalPath e.1 = e.1) (x : Str) :
    (treeContent t r).find x = match r.find x with
      | some a => some a
      | none => assoc x t := by
  induction t generalizing r with
  | nil =>
    unfold treeContent
    cases r.find x <;> rfl
  | cons e t ih =>
    obtain ⟨k, a⟩ := e
    unfold treeContent
    have hk : toNormalPath k = k := ht _ List.mem_cons_self
    rw [ih _ (fun e h => ht e (List.mem_cons_of_mem _ h)), OMap.find_emplace, hk]
    by_cases hx : x = k
    · subst hx
      cases hr : r.find x with
      | none => simp [assoc]
      | some b => simp
    · cases hr : r.find x with
      | none => simp [assoc, hx]
      | some b => simp [hx]

/-- Missing: keys that are not in normal form, see `C38_violation`.  A tree is created from a map with
keys in normal form iff all artifacts can be put at their locations, and it then contains all of them. -/
theorem C38_tree_partial (m : OMap Str A) (hm : ∀ k a, m.find k = some a → toNormalPath k = k) :
    (Stageable m → exprToTree m = .ok m) ∧ (¬ Stageable m → ∃ p, exprToTree m = .conflict p) := by
  have hc : treeContent m.items OMap.empty = m := by
    apply OMap.ext
    intro k
    rw [treeContent_find _ _ (fun e he => hm _ _ (OMap.mem_items.1 he))]
    rfl
  have hiff : treeConflict m = .ok ↔ Stageable m := by
    rw [treeConflict_ok m hm]
    constructor
    · rintro ⟨g1, g2⟩
      refine ⟨g1, ?_⟩
      intro k a k' a' hk hk' hp
      have := g2 k a k' a' hk hk' hp
      subst this
      rw [hk] at hk'
      exact ⟨rfl, Option.some.inj hk'⟩
    · intro hs
      refine ⟨hs.inside, ?_⟩
      intro k a k' a' hk hk' hp
      rw [← hm k a hk, ← hm k' a' hk', C39_canonical]
      have e1 := hs.inside k a hk
      have e2 := hs.inside k' a' hk'
      have e3 := (hs.free k a k' a' hk hk' hp).1
      cases h3 : place k with
      | mk a1 b1 c1 =>
        cases h4 : place k' with
        | mk a2 b2 c2 =>
          rw [h3] at e1 e3
          rw [h4] at e2 e3
          simp only at e1 e2 e3
          rw [e1.1, e1.2, e2.1, e2.2, e3]
  unfold exprToTree
  constructor
  · intro hs
    rw [hiff.2 hs]
    simp only [hc]
  · intro hs
    cases h : treeConflict m with
    | ok => exact absurd (hiff.1 h) hs
    | conflict p => exact ⟨p, rfl⟩
    | ub => exact absurd h (treeConflict_ub m hm)

/-- For keys not in normal form, an entry is dropped silently, an artifact inside another one is not
noticed, and the empty key is undefined behaviour. -/
theorem C38_violation :
    (∃ m', exprToTree (stage [("./a", 1), ("a", 2)]) = .ok m' ∧
      ∀ k, m'.find k ≠ some 2) ∧
    (∃ m', exprToTree (stage [("a//b/c", 1), ("a/b", 2)]) = .ok m' ∧
      m'.find "a/b/c".toList = some 1 ∧ m'.find "a/b".toList = some 2) ∧
    exprToTree (stage [("", 1)]) = .ub := by
  refine ⟨⟨(OMap.empty.emplace "a".toList 1), rfl, ?_⟩, ⟨_, rfl, by decide, by decide⟩, by rfl⟩
  intro k h
  rw [OMap.find_emplace] at h
  split at h
  · simp at h
  · simp at h

-- Keys in normal form, without and with conflict.
example :
    (let m := stage [("a/b", 1), ("a/c", 2), ("ab", 3)]
     (∀ e ∈ m.items, toNormalPath e.1 = e.1) ∧ treeConflict m = .ok) ∧
    (let m := stage [("a/b", 1), ("a/b/c", 2), ("ab", 3)]
     (∀ e ∈ m.items, toNormalPath e.1 = e.1) ∧ exprToTree m = .conflict "a/b".toList) := by
  refine ⟨⟨by decide, rfl⟩, ⟨by decide, rfl⟩⟩

/-! ## C58: the directory added for the working directory of an action -/

omit [DecidableEq A] in
theorem any_upTo {k : Str} {l : List Str} (h : Norm k l) (b : List Str) :
    ((upTo (k.length + 1) k).any (fun c => decide (elems c = b))) = true ↔ b ≠ [] ∧ b <+: l := by
  have hlen := length_join h.seg
  rw [List.any_eq_true]
  conv_lhs => rw [h.join]
  constructor
  · rintro ⟨c, hc, hb⟩
    obtain ⟨q, h1, h2, rfl⟩ := (mem_upTo h.seg _ (by omega) c).1 hc
    rw [decide_eq_true_eq, elems_join (fun a ha => h.seg a (h2.subset ha))] at hb
    subst hb
    exact ⟨h1, h2⟩
  · rintro ⟨h1, h2⟩
    refine ⟨_, (mem_upTo h.seg _ (by omega) _).2 ⟨b, h1, h2, rfl⟩, ?_⟩
    rw [decide_eq_true_eq, elems_join (fun a ha => h.seg a (h2.subset ha))]

omit [DecidableEq A] in
/-- Adding a directory for a working directory in normal form keeps the stage free of conflicts, keeps
its entries, adds nothing but the empty directory, and guarantees that there is a directory (or an
artifact that might contain it) at the working directory. -/
theorem C58_cwd_partial (e : A) (cwd : Str) (m : OMap Str A)
    (hm : ∀ k a, m.find k = some a → toNormalPath k = k) (hs : Stageable m)
    (hc : toNormalPath cwd = cwd) (ha : (place cwd).abs = false) (hu : (place cwd).up = 0) :
    Stageable (addDirFor e cwd m) ∧
    (∀ k a, m.find k = some a → (addDirFor e cwd m).find k = some a) ∧
    (∀ k a, (addDirFor e cwd m).find k = some a → m.find k = some a ∨ (k = cwd ∧ a = e)) ∧
    ((place cwd).down ≠ [] → ∃ k a, (addDirFor e cwd m).find k = some a ∧
      ((place k).down <+: (place cwd).down ∨ (place cwd).down <+: (place k).down)) := by
  have hcwd : cwd ≠ [] := by
    intro h
    subst h
    revert hc
    decide
  have hcn : isAbs cwd = false ∧ Norm cwd (elems cwd) ∧ (cwd = dot ↔ (place cwd).down = []) ∧
      (cwd ≠ dot → elems cwd = (place cwd).down) := by
    rcases normal_cases cwd hc with ⟨-, h⟩ | ⟨-, -, -, -, h⟩ | ⟨-, -, -, h1, h2, h3, h4⟩
    · rw [ha] at h; cases h
    · exact absurd hu h
    · exact ⟨h1, h2, h3, h4⟩
  obtain ⟨-, hn, hdot, hel⟩ := hcn
  have hkn : ∀ k a, m.find k = some a → Norm k (elems k) ∧ (k = dot ↔ (place k).down = []) ∧
      (k ≠ dot → elems k = (place k).down) := by
    intro k a hk
    obtain ⟨g1, g2⟩ := hs.inside k a hk
    rcases normal_cases k (hm k a hk) with ⟨-, h⟩ | ⟨-, -, -, -, h⟩ | ⟨-, -, -, h1, h2, h3, h4⟩
    · rw [g1] at h; cases h
    · exact absurd g2 h
    · exact ⟨h2, h3, h4⟩
  unfold addDirFor
  by_cases hd : cwd = dot
  · rw [if_pos (Or.inr hd)]
    exact ⟨hs, fun k a h => h, fun k a h => Or.inl h, fun h => absurd (hdot.1 hd) h⟩
  rw [if_neg (by rintro (h | h); exacts [hcwd h, hd h])]
  have hel' := hel hd
  have hdn : (place cwd).down ≠ [] := fun h => hd (hdot.2 h)
  have hmay : mayAddDir cwd m = true ↔ ∀ k a, m.find k = some a →
      ¬ (place k).down <+: (place cwd).down ∧ ¬ (place cwd).down <+: (place k).down := by
    unfold mayAddDir
    rw [List.all_eq_true]
    constructor
    · intro h k a hk
      obtain ⟨n1, n2, n3⟩ := hkn k a hk
      have := h (k, a) (OMap.mem_items.2 hk)
      simp only [Bool.and_eq_true, Bool.not_eq_true'] at this
      obtain ⟨⟨t1, t2⟩, t3⟩ := this
      have hkd : k ≠ dot := by
        rintro rfl
        simp at t1
      have t2' := mt (any_upTo hn (elems k)).2 (by rw [t2]; simp)
      have t3' := mt (any_upTo n1 (elems cwd)).2 (by rw [t3]; simp)
      rw [n3 hkd, hel'] at t2' t3'
      exact ⟨fun h => t2' ⟨fun e => hkd (n2.2 e), h⟩, fun h => t3' ⟨hdn, h⟩⟩
    · rintro h ⟨k, a⟩ hmem
      have hk := OMap.mem_items.1 hmem
      obtain ⟨n1, n2, n3⟩ := hkn k a hk
      obtain ⟨t1, t2⟩ := h k a hk
      have hkd : k ≠ dot := by
        intro e
        rw [n2.1 e] at t1
        exact t1 List.nil_prefix
      have hk0 : k ≠ [] := by
        intro e
        have := hm k a hk
        rw [e] at this
        revert this
        decide
      simp only [Bool.and_eq_true, Bool.not_eq_true']
      refine ⟨⟨?_, ?_⟩, ?_⟩
      · simp [hkd, hk0]
      · rw [Bool.eq_false_iff]
        intro h'
        rw [any_upTo hn, n3 hkd, hel'] at h'
        exact t1 h'.2
      · rw [Bool.eq_false_iff]
        intro h'
        rw [any_upTo n1, n3 hkd, hel'] at h'
        exact t2 h'.2
  by_cases hb : mayAddDir cwd m = true
  · rw [if_pos hb]
    have hfree := hmay.1 hb
    have hno : m.find cwd = none := by
      cases hf : m.find cwd with
      | none => rfl
      | some a => exact absurd List.prefix_rfl (hfree cwd a hf).1
    refine ⟨⟨?_, ?_⟩, ?_, ?_, ?_⟩
    · intro k a hk
      rw [OMap.find_assign] at hk
      split at hk
      · rename_i h
        subst h
        exact ⟨ha, hu⟩
      · exact hs.inside k a hk
    · intro k a k' a' hk hk' hp
      rw [OMap.find_assign] at hk hk'
      split at hk
      · rename_i h
        subst h
        split at hk'
        · rename_i h
          subst h
          rw [← Option.some.inj hk, ← Option.some.inj hk']
          exact ⟨rfl, rfl⟩
        · exact absurd hp (hfree k' a' hk').2
      · split at hk'
        · rename_i h
          subst h
          exact absurd hp (hfree k a hk).1
        · exact hs.free k a k' a' hk hk' hp
    · intro k a hk
      rw [OMap.find_assign, if_neg, hk]
      rintro rfl
      rw [hno] at hk
      cases hk
    · intro k a hk
      rw [OMap.find_assign] at hk
      split at hk
      · rename_i h
        exact Or.inr ⟨h, (Option.some.inj hk).symm⟩
      · exact Or.inl hk
    · intro _
      exact ⟨cwd, e, by rw [OMap.find_assign, if_pos rfl], Or.inl List.prefix_rfl⟩
  · rw [if_neg hb]
    refine ⟨hs, fun k a h => h, fun k a h => Or.inl h, ?_⟩
    intro _
    by_contra hcon
    apply hb
    rw [hmay]
    intro k a hk
    constructor
    · intro h
      exact hcon ⟨k, a, hk, Or.inl h⟩
    · intro h
      exact hcon ⟨k, a, hk, Or.inr h⟩

/-- A working directory that is not in normal form leads to a stage in which the directory added is
in conflict with an artifact. -/
theorem C58_violation : ¬ Stageable (addDirFor 0 "./a".toList (stage [("a", 1)])) ∧
    ¬ Stageable (addDirFor 0 "a/../b".toList (stage [("b/c", 1)])) := by
  constructor
  · intro h
    have := (h.free "./a".toList 0 "a".toList 1 (by decide) (by decide) (by decide)).2
    cases this
  · intro h
    have := (h.free "a/../b".toList 0 "b/c".toList 1 (by decide) (by decide) (by decide)).2
    cases this

-- The directory is added where needed only.
example :
    (addDirFor 0 "a/b".toList (stage [("a/c", 1)])).find "a/b".toList = some 0 ∧
    (addDirFor 0 "a/b".toList (stage [("a/b/c", 1)])).find "a/b".toList = none ∧
    (addDirFor 0 "a/b".toList (stage [("a", 1)])).find "a/b".toList = none := by decide

/-! ## C34: directory trees -/

/-- A path, unless it keeps a trailing slash, is followed along the names of its location. -/
theorem segsOf_spec (s : Str) (hs : (lexNormal s).getLast? ≠ some '/') :
    (OkPath s ∧ segsOf s ≠ [] ↔ (place s).abs = false ∧ (place s).up = 0 ∧ (place s).down ≠ []) ∧
    (OkPath s → segsOf s = (place s).down) := by
  by_cases hn : s = []
  · subst hn
    constructor
    · constructor
      · rintro ⟨h, -⟩; exact absurd rfl h.1
      · rintro ⟨-, -, h⟩; exact absurd rfl h
    · intro h; exact absurd rfl h.1
  have hl : lexNormal s = toNormalPath s := by
    rw [toNormalPath_eq]
    rcases lexNormal_eq s hn with h | ⟨h, -⟩
    · exact h
    · rw [h] at hs
      simp at hs
  unfold OkPath segsOf
  rw [hl]
  have hw := wf_place s
  have hnorm := C39_idempotent s
  have hp := C39_location s
  have hne : toNormalPath s ≠ [] := by
    rw [toNormalPath_eq]; exact canon_ne_nil hw
  rcases normal_cases _ hnorm with ⟨h1, h2⟩ | ⟨h1, h2, h3, h4, h5⟩ | ⟨h1, h2, h3, h4, h5, h6, h7⟩
  · rw [hp] at h2
    rw [h1, h2]
    simp
  · rw [hp] at h4 h5
    have hdd : dotdot ∈ elems (toNormalPath s) := List.mem_of_head? h3
    constructor
    · constructor
      · rintro ⟨⟨-, -, h⟩, -⟩
        exact absurd rfl (h _ hdd).2
      · rintro ⟨-, h, -⟩
        exact absurd h h5
    · rintro ⟨-, -, h⟩
      exact absurd rfl (h _ hdd).2
  · rw [hp] at h1 h2 h6 h7
    by_cases hdot : toNormalPath s = dot
    · have hd := h6.1 hdot
      rw [hdot]
      have : dot ∈ elems dot := by decide
      constructor
      · constructor
        · rintro ⟨⟨-, -, h⟩, -⟩
          exact absurd rfl (h _ this).1
        · rintro ⟨-, -, h⟩
          exact absurd hd h
      · rintro ⟨-, -, h⟩
        exact absurd rfl (h _ this).1
    · have he := h7 hdot
      have hd : (place s).down ≠ [] := fun h => hdot (h6.2 h)
      rw [he]
      refine ⟨⟨fun _ => ⟨h1, h2, hd⟩, fun _ => ⟨⟨hne, h4, ?_⟩, hd⟩⟩, fun _ => rfl⟩
      intro a ha
      have := hw.names a ha
      exact ⟨this.2.2.1, this.2.2.2⟩

/-- Two locations exclude each other in a tree. -/
def Exclude (s t : Str) : Prop :=
  (place s).down <+: (place t).down ∨ (place t).down <+: (place s).down

omit [DecidableEq A] in
theorem pairwise_congr {l : List (Str × A)} {R S : Str × A → Str × A → Prop}
    (h : ∀ x ∈ l, ∀ y ∈ l, R x y ↔ S x y) : l.Pairwise R ↔ l.Pairwise S := by
  constructor
  · intro hp
    exact hp.imp_of_mem (fun hx hy hr => (h _ hx _ hy).1 hr)
  · intro hp
    exact hp.imp_of_mem (fun hx hy hr => (h _ hx _ hy).2 hr)

omit [DecidableEq A] in
theorem holds_empty : Holds [] ([] : Dir A) := by
  constructor
  · intro q a
    rw [leafAt_empty]
    simp
  · intro q
    rw [dirAt_empty]
    simp

omit [DecidableEq A] in
/-- Missing: paths that keep a trailing slash, see `C34_violation`.  A tree is obtained iff all paths
lead strictly inside and no location is at or inside another one. -/
theorem C34_accept_partial (l : List (Str × A))
    (hl : ∀ e ∈ l, (lexNormal e.1).getLast? ≠ some '/') :
    (∃ d, fromNamedArtifacts l = some d) ↔
      (∀ e ∈ l, (place e.1).abs = false ∧ (place e.1).up = 0 ∧ (place e.1).down ≠ []) ∧
      l.Pairwise (fun x y => ¬ Exclude x.1 y.1) := by
  unfold fromNamedArtifacts
  rw [(addAll_spec l [] [] holds_empty (by simp)).1]
  constructor
  · rintro ⟨h1, h2⟩
    have hok : ∀ e ∈ l, OkPath e.1 := fun e he => (h1 e he).1
    refine ⟨fun e he => (segsOf_spec e.1 (hl e he)).1.1 ⟨(h1 e he).1, (h1 e he).2.1⟩, ?_⟩
    rw [pairwise_congr (S := fun x y => ¬ segsOf x.1 <+: segsOf y.1 ∧ ¬ segsOf y.1 <+: segsOf x.1)]
    · exact h2
    · intro x hx y hy
      rw [(segsOf_spec x.1 (hl x hx)).2 (hok x hx), (segsOf_spec y.1 (hl y hy)).2 (hok y hy)]
      simp [Exclude]
  · rintro ⟨h1, h2⟩
    have hok : ∀ e ∈ l, OkPath e.1 ∧ segsOf e.1 ≠ [] :=
      fun e he => (segsOf_spec e.1 (hl e he)).1.2 (h1 e he)
    refine ⟨fun e he => ⟨(hok e he).1, (hok e he).2, by simp⟩, ?_⟩
    rw [pairwise_congr (S := fun x y => ¬ Exclude x.1 y.1)]
    · exact h2
    · intro x hx y hy
      rw [(segsOf_spec x.1 (hl x hx)).2 (hok x hx).1, (segsOf_spec y.1 (hl y hy)).2 (hok y hy).1]
      simp [Exclude]

omit [DecidableEq A] in
/-- Missing: paths that keep a trailing slash.  Following names in the tree obtained finds precisely
the artifacts given; its directories are those on the way to an artifact. -/
theorem C34_content_partial (l : List (Str × A)) (d : Dir A)
    (hl : ∀ e ∈ l, (lexNormal e.1).getLast? ≠ some '/') (h : fromNamedArtifacts l = some d) :
    (∀ names a, (Node.dir d).at names = some (.leaf a) ↔
      ∃ path, (path, a) ∈ l ∧ (place path).down = names) ∧
    (∀ names, (∃ e, (Node.dir d).at names = some (.dir e)) ↔
      names = [] ∨ ∃ path a, (path, a) ∈ l ∧ names <+: (place path).down ∧
        names ≠ (place path).down) := by
  obtain ⟨s1, s2⟩ := addAll_spec l [] [] holds_empty (by simp)
  obtain ⟨g1, -⟩ := s1.1 ⟨d, h⟩
  have hseg : ∀ e ∈ l, segsOf e.1 = (place e.1).down :=
    fun e he => (segsOf_spec e.1 (hl e he)).2 (g1 e he).1
  have hh := s2 d h
  rw [List.nil_append] at hh
  constructor
  · intro names a
    have h1 : leafAt d names = some a ↔ (Node.dir d).at names = some (.leaf a) := by
      unfold leafAt
      cases hx : (Node.dir d).at names with
      | none => simp
      | some n => cases n <;> simp
    rw [← h1, hh.leaf, List.mem_map]
    constructor
    · rintro ⟨e, he, heq⟩
      cases heq
      exact ⟨e.1, he, (hseg e he).symm⟩
    · rintro ⟨p, hp, rfl⟩
      exact ⟨(p, a), hp, by rw [hseg _ hp]⟩
  · intro names
    have := hh.dir names
    unfold DirAt at this
    rw [this]
    constructor
    · rintro (h' | ⟨e, he, h2⟩)
      · exact Or.inl h'
      · obtain ⟨f, hf, rfl⟩ := List.mem_map.1 he
        rw [hseg f hf] at h2
        exact Or.inr ⟨f.1, f.2, hf, h2⟩
    · rintro (h' | ⟨p, a, hp, h2⟩)
      · exact Or.inl h'
      · refine Or.inr ⟨_, List.mem_map.2 ⟨(p, a), hp, rfl⟩, ?_⟩
        rw [hseg _ hp]
        exact h2

omit [DecidableEq A] in
/-- Missing: paths that keep a trailing slash.  The order in which artifacts are given does not
matter. -/
theorem C34_order_partial (l l' : List (Str × A)) (hp : l.Perm l')
    (hl : ∀ e ∈ l, (lexNormal e.1).getLast? ≠ some '/') :
    ((∃ d, fromNamedArtifacts l = some d) ↔ ∃ d, fromNamedArtifacts l' = some d) ∧
    ∀ d d', fromNamedArtifacts l = some d → fromNamedArtifacts l' = some d' →
      ∀ names a, (Node.dir d).at names = some (.leaf a) ↔ (Node.dir d').at names = some (.leaf a) := by
  have hl' : ∀ e ∈ l', (lexNormal e.1).getLast? ≠ some '/' := fun e he => hl e (hp.mem_iff.2 he)
  constructor
  · rw [C34_accept_partial l hl, C34_accept_partial l' hl']
    refine and_congr ⟨fun h e he => h e (hp.mem_iff.2 he), fun h e he => h e (hp.mem_iff.1 he)⟩ ?_
    apply hp.pairwise_iff
    intro x y h h'
    exact h (Or.symm h')
  · intro d d' h h' names a
    rw [(C34_content_partial l d hl h).1, (C34_content_partial l' d' hl' h').1]
    constructor
    · rintro ⟨p, h1, h2⟩
      exact ⟨p, hp.mem_iff.1 h1, h2⟩
    · rintro ⟨p, h1, h2⟩
      exact ⟨p, hp.mem_iff.2 h1, h2⟩

/-- With a trailing slash, an artifact and an artifact inside it are both accepted: the first is put
under the empty name in a directory. -/
theorem C34_violation : ∃ d, fromNamedArtifacts [("a/".toList, 1), ("a/b".toList, 2)] = some d ∧
    (Node.dir d).at ["a".toList, []] = some (.leaf 1) ∧
    (Node.dir d).at ["a".toList, "b".toList] = some (.leaf 2) := ⟨_, rfl, by rfl, by rfl⟩

-- An accepted list, and lists with conflicts.
example :
    (∃ d, fromNamedArtifacts [("a/b/c".toList, 1), ("a//b/d".toList, 2), ("x/../e".toList, 3)] = some d) ∧
    (∀ e ∈ [("a/b/c".toList, 1), ("a//b/d".toList, 2), ("x/../e".toList, 3)],
      (lexNormal e.1).getLast? ≠ some '/') ∧
    (fromNamedArtifacts [("a/b/c".toList, 1), ("a/b".toList, 2)]).isNone = true ∧
    (fromNamedArtifacts [("a/b".toList, 1), ("a/./b".toList, 1)]).isNone = true ∧
    (fromNamedArtifacts [("../a".toList, 1)]).isNone = true := by
  refine ⟨⟨_, rfl⟩, by decide, rfl, rfl, rfl⟩

end Verif.Stage
