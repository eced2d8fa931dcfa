import Verif.Stage.Model
import Verif.Path.Lemmas

/-!
# Lemmas about staging
-/

set_option linter.unusedSectionVars false

namespace Verif.Stage

open Verif.Path

variable {A : Type} [DecidableEq A]

/-! ## Paths in normal form -/

theorem elems_join {l : List Str} (hl : ∀ a ∈ l, Seg a) : elems (joinWith '/' l) = l := by
  unfold elems
  rw [isAbs_join hl, names_join hl]
  by_cases hn : l = []
  · subst hn
    decide
  · obtain ⟨c, hc, hg⟩ := joinWith_getLast hn hl
    have : hasTrail (joinWith '/' l) = false := by
      unfold hasTrail
      rw [hg]
      simp [hc]
    rw [this]
    simp

theorem parentPath_join' {l : List Str} {x : Str} (h : ∀ a ∈ l ++ [x], Seg a) :
    parentPath (joinWith '/' (l ++ [x])) = joinWith '/' l := by
  have hn := h x (by simp)
  obtain ⟨u, y, hx⟩ : ∃ u y, x = u ++ [y] :=
    ⟨_, _, (List.dropLast_append_getLast hn.2).symm⟩
  have hxs : y ≠ '/' := fun e => hn.1 (by rw [hx, e]; simp)
  have hrest : ∀ tl : Str, (x.reverse ++ tl).dropWhile (fun c => c != '/') =
      tl.dropWhile (fun c => c != '/') := by
    intro tl
    rw [List.dropWhile_append_of_pos]
    intro c hc
    have : c ≠ '/' := fun e => hn.1 (by rw [← e]; exact List.mem_reverse.1 hc)
    simpa using this
  unfold parentPath
  rw [names_join h]
  have h1 : ¬ (l ++ [x]).isEmpty = true := by simp
  rw [if_neg h1]
  by_cases hdn : l = []
  · subst hdn
    have hj : joinWith '/' ([] ++ [x]) = x := by simp [joinWith]
    rw [hj]
    have hl : ¬ (x.getLast? == some '/') = true := by
      rw [hx, List.getLast?_concat]
      simpa using hxs
    rw [if_neg hl]
    have := hrest []
    rw [List.append_nil] at this
    simp [this, joinWith]
  · have hj : joinWith '/' (l ++ [x]) = joinWith '/' l ++ '/' :: x := by
      rw [joinWith_append _ hdn (by simp)]
      simp [joinWith]
    rw [hj]
    have hl : ¬ ((joinWith '/' l ++ '/' :: x).getLast? == some '/') = true := by
      rw [hx, ← List.cons_append, ← List.append_assoc, List.getLast?_concat]
      simpa using hxs
    rw [if_neg hl]
    have hrev : (joinWith '/' l ++ '/' :: x).reverse =
        x.reverse ++ '/' :: (joinWith '/' l).reverse := by simp
    rw [hrev, hrest, List.dropWhile_cons_of_neg (by simp)]
    have hseg' : ∀ a ∈ l, Seg a := fun a h' => h a (List.mem_append_left _ h')
    obtain ⟨c, hc, hgl⟩ := joinWith_getLast hdn hseg'
    have hjn := joinWith_ne_nil hdn hseg'
    obtain ⟨l', z, hz⟩ : ∃ u z, joinWith '/' l = u ++ [z] :=
      ⟨_, _, (List.dropLast_append_getLast hjn).symm⟩
    rw [hz, List.getLast?_concat] at hgl
    have hzc : z ≠ '/' := by
      rw [Option.some.inj hgl]; exact hc
    rw [hz]
    simp [hzc]

theorem prefix_concat {q l : List Str} {x : Str} : q <+: l ++ [x] ↔ q = l ++ [x] ∨ q <+: l := by
  constructor
  · rintro ⟨t, ht⟩
    cases t using List.reverseRecOn with
    | nil => left; simpa using ht
    | append_singleton t y =>
      right
      rw [← List.append_assoc] at ht
      have := List.append_inj_left' ht rfl
      exact ⟨t, this⟩
  · rintro (rfl | ⟨t, rfl⟩)
    · exact List.prefix_rfl
    · exact ⟨t ++ [x], by simp⟩

theorem mem_upTo {l : List Str} (hl : ∀ a ∈ l, Seg a) (n : Nat) (hn : l.length ≤ n) (p : Str) :
    p ∈ upTo n (joinWith '/' l) ↔ ∃ q, q ≠ [] ∧ q <+: l ∧ p = joinWith '/' q := by
  induction l using List.reverseRecOn generalizing n with
  | nil =>
    have : upTo n (joinWith '/' []) = [] := by
      cases n with
      | zero => rfl
      | succ n => rfl
    rw [this]
    simp
  | append_singleton l x ih =>
    rw [List.length_append, List.length_singleton] at hn
    obtain ⟨m, rfl⟩ : ∃ m, n = m + 1 := ⟨n - 1, by omega⟩
    unfold upTo
    rw [if_neg (joinWith_ne_nil (by simp) hl), parentPath_join' hl, List.mem_cons,
      ih (fun a h => hl a (List.mem_append_left _ h)) m (by omega)]
    constructor
    · rintro (h | ⟨q, h1, h2, h3⟩)
      · exact ⟨l ++ [x], by simp, List.prefix_rfl, h⟩
      · exact ⟨q, h1, prefix_concat.2 (Or.inr h2), h3⟩
    · rintro ⟨q, h1, h2, h3⟩
      rcases prefix_concat.1 h2 with rfl | h
      · exact Or.inl h3
      · exact Or.inr ⟨q, h1, h, h3⟩

theorem length_join {l : List Str} (hl : ∀ a ∈ l, Seg a) : l.length ≤ (joinWith '/' l).length := by
  induction l with
  | nil => simp
  | cons a t ih =>
    have ha : 0 < a.length := List.length_pos_iff.2 (hl a List.mem_cons_self).2
    have := ih (fun x h => hl x (List.mem_cons_of_mem _ h))
    cases t with
    | nil => simp only [joinWith, List.length_cons, List.length_nil]; omega
    | cons b t =>
      simp only [joinWith, List.length_append, List.length_cons] at this ⊢
      omega

/-- A path in normal form that is relative and not upwards, and its elements. -/
structure Norm (k : Str) (l : List Str) : Prop where
  key : k = joinWith '/' l ∨ (k = dot ∧ l = [dot])
  proper : k ≠ dot → ∀ a ∈ l, ProperName a
  ne : l ≠ []

theorem Norm.seg {k : Str} {l : List Str} (h : Norm k l) : ∀ a ∈ l, Seg a := by
  intro a ha
  by_cases hk : k = dot
  · rcases h.key with e | ⟨-, e⟩
    · -- `.` is not the join of other names
      have hs := names_dot
      rw [hk] at e
      have hsp := join_splitAt '/' dot
      by_cases hd : l = [dot]
      · rw [hd] at ha
        rw [List.mem_singleton.1 ha]
        exact ⟨by decide, by decide⟩
      · exfalso
        cases l with
        | nil => exact h.ne rfl
        | cons b t =>
          cases t with
          | nil =>
            simp only [joinWith] at e
            exact hd (by rw [← e])
          | cons c t =>
            simp only [joinWith] at e
            have hlen := congrArg List.length e
            have hmem : '/' ∈ dot := by rw [e]; simp
            exact absurd hmem (by decide)
    · rw [e] at ha
      rw [List.mem_singleton.1 ha]
      exact ⟨by decide, by decide⟩
  · exact (h.proper hk a ha).seg

theorem Norm.join {k : Str} {l : List Str} (h : Norm k l) : k = joinWith '/' l := by
  rcases h.key with e | ⟨rfl, rfl⟩
  · exact e
  · rfl

theorem Norm.elems {k : Str} {l : List Str} (h : Norm k l) : elems k = l := by
  rw [h.join, elems_join h.seg]

theorem mem_parents {k : Str} {l : List Str} (h : Norm k l) (p : Str) :
    p ∈ parents k ↔ ∃ q, q ≠ [] ∧ q <+: l ∧ q ≠ l ∧ p = joinWith '/' q := by
  have hseg := h.seg
  have hj := h.join
  have hne := h.ne
  obtain ⟨u, x, hx⟩ : ∃ u x, l = u ++ [x] :=
    ⟨_, _, (List.dropLast_append_getLast hne).symm⟩
  subst hx
  unfold parents
  rw [hj, parentPath_join' hseg,
    mem_upTo (fun a ha => hseg a (List.mem_append_left _ ha))]
  · constructor
    · rintro ⟨q, h1, h2, h3⟩
      refine ⟨q, h1, prefix_concat.2 (Or.inr h2), ?_, h3⟩
      rintro rfl
      have := h2.length_le
      simp at this
      omega
    · rintro ⟨q, h1, h2, h3, h4⟩
      rcases prefix_concat.1 h2 with h | h
      · exact absurd h h3
      · exact ⟨q, h1, h, h4⟩
  · have := length_join hseg
    simp only [List.length_append, List.length_singleton] at this
    omega

theorem parents_find {k : Str} {l : List Str} (h : Norm k l) (B : List (List Str)) :
    ((parents k).find? (fun p => decide (elems p ∈ elems k :: B))).isSome = true ↔
      ∃ b ∈ B, b ≠ [] ∧ b <+: l ∧ b ≠ l := by
  rw [List.find?_isSome]
  constructor
  · rintro ⟨p, hp, hb⟩
    obtain ⟨q, h1, h2, h3, rfl⟩ := (mem_parents h p).1 hp
    have hq : ∀ a ∈ q, Seg a := fun a ha => h.seg a (h2.subset ha)
    rw [decide_eq_true_eq, elems_join hq, h.elems, List.mem_cons] at hb
    rcases hb with hb | hb
    · exact absurd hb h3
    · exact ⟨q, hb, h1, h2, h3⟩
  · rintro ⟨b, hb, h1, h2, h3⟩
    have hq : ∀ a ∈ b, Seg a := fun a ha => h.seg a (h2.subset ha)
    refine ⟨joinWith '/' b, (mem_parents h _).2 ⟨b, h1, h2, h3, rfl⟩, ?_⟩
    rw [decide_eq_true_eq, elems_join hq]
    exact List.mem_cons_of_mem _ hb

/-! ## The conflict check on paths in normal form -/

/-- The location of a path in normal form is fine on its own. -/
def Good (size : Nat) (k : Str) : Prop :=
  isAbs k = false ∧ (elems k).head? ≠ some dotdot ∧ ¬ (k = dot ∧ 1 < size)

/-- A path in normal form is fine or obviously not. -/
theorem normal_cases (k : Str) (hk : toNormalPath k = k) :
    (isAbs k = true ∧ (place k).abs = true) ∨
    (isAbs k = false ∧ elems k ≠ [] ∧ (elems k).head? = some dotdot ∧ (place k).abs = false ∧
      (place k).up ≠ 0) ∨
    ((place k).abs = false ∧ (place k).up = 0 ∧ (elems k).head? ≠ some dotdot ∧ isAbs k = false ∧
      Norm k (elems k) ∧ (k = dot ↔ (place k).down = []) ∧
      (k ≠ dot → elems k = (place k).down)) := by
  have hw := wf_place k
  have hc : k = canon (place k) := by rw [← toNormalPath_eq, hk]
  have hab : isAbs k = (place k).abs := by
    conv_lhs => rw [hc]
    exact isAbs_canon hw
  by_cases ha : (place k).abs = true
  · exact Or.inl ⟨by rw [hab, ha], ha⟩
  right
  have ha' : (place k).abs = false := by simpa using ha
  obtain ⟨e, es, hel, hdd⟩ := elems_head hw ha' k (Or.inl hc)
  by_cases hup : (place k).up = 0
  · right
    have hne : e ≠ dotdot := fun h => (hdd.1 h) hup
    have hsegs : (place k).segs = (place k).down := by
      unfold Place.segs; rw [hup]; rfl
    unfold canon at hc
    rw [if_neg ha, hsegs] at hc
    have hseg : ∀ a ∈ (place k).down, Seg a := fun a h => (hw.names a h).seg
    refine ⟨ha', hup, by rw [hel]; simpa using hne, by rw [hab, ha'], ?_, ?_, ?_⟩
    · by_cases hd : (place k).down = []
      · rw [if_pos hd] at hc
        have : elems k = [dot] := by rw [hc]; decide
        rw [this]
        exact ⟨Or.inr ⟨hc, rfl⟩, fun h => absurd hc h, by simp⟩
      · rw [if_neg hd] at hc
        have hk' : elems k = (place k).down := by
          conv_lhs => rw [hc]
          exact elems_join hseg
        rw [hk']
        exact ⟨Or.inl hc, fun _ => hw.names, hd⟩
    · constructor
      · intro h
        by_contra hd
        rw [if_neg hd] at hc
        have hk' : elems k = (place k).down := by
          conv_lhs => rw [hc]
          exact elems_join hseg
        rw [h] at hk'
        have : dot ∈ (place dot).down := by
          rw [← h]
          rw [h, ← hk']
          decide
        have := (hw.names dot (by rw [h]; exact this)).2.2.1
        exact this rfl
      · intro hd
        rw [if_pos hd] at hc
        exact hc
    · intro h
      have hd : (place k).down ≠ [] := by
        intro hd
        rw [if_pos hd] at hc
        exact h hc
      rw [if_neg hd] at hc
      conv_lhs => rw [hc]
      exact elems_join hseg
  · left
    refine ⟨by rw [hab, ha'], by rw [hel]; simp, ?_, ha', hup⟩
    rw [hel, hdd.2 hup]
    rfl

omit [DecidableEq A] in
theorem treeConflictGo_ub (size : Nat) (t : List (Str × A)) (B : List (List Str))
    (ht : ∀ e ∈ t, toNormalPath e.1 = e.1) : treeConflictGo size t B ≠ .ub := by
  induction t generalizing B with
  | nil => simp [treeConflictGo]
  | cons e t ih =>
    obtain ⟨k, a⟩ := e
    have hk := ht _ List.mem_cons_self
    have ih' := fun B => ih B (fun e he => ht e (List.mem_cons_of_mem _ he))
    unfold treeConflictGo
    split
    · simp
    split
    · simp
    split
    · rename_i h1 h2 h3
      exfalso
      rcases normal_cases k hk with h | h | h
      · exact h2 h.1
      · exact h.2.1 h3
      · exact h.2.2.2.2.1.ne h3
    split
    · simp
    split
    · simp
    split
    · simp
    · exact ih' _

omit [DecidableEq A] in
theorem treeConflictGo_ok (size : Nat) (t : List (Str × A)) (B : List (List Str))
    (ht : ∀ e ∈ t, toNormalPath e.1 = e.1) (hB : [] ∉ B) :
    treeConflictGo size t B = .ok ↔
      (∀ e ∈ t, Good size e.1) ∧ (∀ e ∈ t, ∀ b ∈ B, ¬ b <+: elems e.1) ∧
        t.Pairwise (fun x y => ¬ elems x.1 <+: elems y.1) := by
  induction t generalizing B with
  | nil => simp [treeConflictGo]
  | cons e t ih =>
    obtain ⟨k, a⟩ := e
    have hk := ht _ List.mem_cons_self
    simp only at hk
    unfold treeConflictGo
    by_cases h1 : k = dot ∧ 1 < size
    · rw [if_pos h1]
      constructor
      · intro h; cases h
      · intro h
        exact absurd h1 (h.1 _ List.mem_cons_self).2.2
    rw [if_neg h1]
    by_cases h2 : isAbs k = true
    · rw [if_pos h2]
      constructor
      · intro h; cases h
      · intro h
        have := (h.1 _ List.mem_cons_self).1
        simp only at this
        rw [h2] at this
        cases this
    rw [if_neg h2]
    have hnu : elems k ≠ [] := by
      rcases normal_cases k hk with h | h | h
      · exact absurd h.1 h2
      · exact h.2.1
      · exact h.2.2.2.2.1.ne
    rw [if_neg hnu]
    by_cases h4 : (elems k).head? = some dotdot
    · rw [if_pos h4]
      constructor
      · intro h; cases h
      · intro h
        exact absurd h4 (h.1 _ List.mem_cons_self).2.1
    rw [if_neg h4]
    have hnorm : Norm k (elems k) := by
      rcases normal_cases k hk with h | h | h
      · exact absurd h.1 h2
      · exact absurd h.2.2.1 h4
      · exact h.2.2.2.2.1
    by_cases h5 : elems k ∈ B
    · rw [if_pos h5]
      constructor
      · intro h; cases h
      · intro h
        exact absurd List.prefix_rfl (h.2.1 _ List.mem_cons_self _ h5)
    rw [if_neg h5]
    have hf := parents_find hnorm B
    cases h6 : (parents k).find? (fun p => decide (elems p ∈ elems k :: B)) with
    | some p =>
      rw [h6] at hf
      obtain ⟨b, hb, -, hpre, -⟩ := hf.1 rfl
      constructor
      · intro h; cases h
      · intro h
        exact absurd hpre (h.2.1 _ List.mem_cons_self _ hb)
    | none =>
      rw [h6] at hf
      have hno : ¬ ∃ b ∈ B, b ≠ [] ∧ b <+: elems k ∧ b ≠ elems k := by
        intro h
        have := hf.2 h
        cases this
      simp only
      rw [ih _ (fun e he => ht e (List.mem_cons_of_mem _ he)) (by
        intro h
        rcases List.mem_cons.1 h with h | h
        · exact hnu h.symm
        · exact hB h)]
      rw [List.pairwise_cons]
      constructor
      · rintro ⟨g, p, w⟩
        refine ⟨?_, ?_, ?_, w⟩
        · intro e he
          rcases List.mem_cons.1 he with rfl | he
          · exact ⟨by simpa using h2, h4, h1⟩
          · exact g e he
        · intro e he b hb
          rcases List.mem_cons.1 he with rfl | he
          · intro hpre
            by_cases hbe : b = elems k
            · exact h5 (hbe ▸ hb)
            · exact hno ⟨b, hb, fun h0 => hB (h0 ▸ hb), hpre, hbe⟩
          · exact p e he b (List.mem_cons_of_mem _ hb)
        · intro e he
          exact p e he _ List.mem_cons_self
      · rintro ⟨g, p, w1, w⟩
        refine ⟨fun e he => g e (List.mem_cons_of_mem _ he), ?_, w⟩
        intro e he b hb
        rcases List.mem_cons.1 hb with rfl | hb
        · exact w1 e he
        · exact p e (List.mem_cons_of_mem _ he) b hb

/-- A directory comes before what is below it. -/
theorem join_lt {q l : List Str} (hq : q ≠ []) (h : q <+: l) (hne : q ≠ l) :
    joinWith '/' q < joinWith '/' l := by
  obtain ⟨t, rfl⟩ := h
  have ht : t ≠ [] := by
    rintro rfl
    exact hne (by simp)
  rw [joinWith_append _ hq ht]
  generalize joinWith '/' q = s
  induction s with
  | nil => exact List.Lex.nil
  | cons c s ih => exact List.Lex.cons ih

/-- No conflicts on a map with normal paths. -/
theorem treeConflict_ok (m : OMap Str A) (hm : ∀ k a, m.find k = some a → toNormalPath k = k) :
    treeConflict m = .ok ↔
      (∀ k a, m.find k = some a → (place k).abs = false ∧ (place k).up = 0) ∧
      (∀ k a k' a', m.find k = some a → m.find k' = some a' →
        (place k).down <+: (place k').down → k = k') := by
  have hmem : ∀ e ∈ m.items, m.find e.1 = some e.2 := fun e he => OMap.mem_items.1 he
  unfold treeConflict
  rw [treeConflictGo_ok _ _ _ (fun e he => hm _ _ (hmem e he)) (by simp)]
  constructor
  · rintro ⟨g, -, w⟩
    have hplace : ∀ k a, m.find k = some a → (place k).abs = false ∧ (place k).up = 0 ∧
        Norm k (elems k) ∧ (k = dot ↔ (place k).down = []) ∧ (k ≠ dot → elems k = (place k).down) := by
      intro k a h
      have hg := g (k, a) (OMap.mem_items.2 h)
      rcases normal_cases k (hm k a h) with h' | h' | h'
      · have := hg.1
        simp only at this
        rw [h'.1] at this
        cases this
      · exact absurd h'.2.2.1 hg.2.1
      · exact ⟨h'.1, h'.2.1, h'.2.2.2.2.1, h'.2.2.2.2.2.1, h'.2.2.2.2.2.2⟩
    refine ⟨fun k a h => ⟨(hplace k a h).1, (hplace k a h).2.1⟩, ?_⟩
    intro k a k' a' h h' hpre
    by_contra hne
    have hp := hplace k a h
    have hp' := hplace k' a' h'
    -- there are two entries, hence none is `.`
    have hsize : 1 < m.items.length := by
      rcases hit : m.items with _ | ⟨x, _ | ⟨y, t⟩⟩
      · have := OMap.mem_items.2 h
        rw [hit] at this
        cases this
      · have h1 := OMap.mem_items.2 h
        have h2 := OMap.mem_items.2 h'
        rw [hit, List.mem_singleton] at h1 h2
        rw [← h2] at h1
        exact absurd (congrArg Prod.fst h1) hne
      · simp
    have hk : k ≠ dot := fun e => (g (k, a) (OMap.mem_items.2 h)).2.2 ⟨e, hsize⟩
    have hk' : k' ≠ dot := fun e => (g (k', a') (OMap.mem_items.2 h')).2.2 ⟨e, hsize⟩
    rw [← hp.2.2.2.2 hk, ← hp'.2.2.2.2 hk'] at hpre
    have hee : elems k ≠ elems k' := by
      intro e
      apply hne
      rw [hp.2.2.1.join, hp'.2.2.1.join, e]
    have hlt : k < k' := by
      have := join_lt hp.2.2.1.ne hpre hee
      rw [← hp.2.2.1.join, ← hp'.2.2.1.join] at this
      exact this
    -- so `k` comes first
    have hpw : m.items.Pairwise (fun x y => x.1 < y.1 ∧ ¬ elems x.1 <+: elems y.1) :=
      List.Pairwise.and m.asc w
    have key : ∀ (l : List (Str × A)), l.Pairwise (fun x y => x.1 < y.1 ∧ ¬ elems x.1 <+: elems y.1) →
        (k, a) ∈ l → (k', a') ∈ l → False := by
      intro l hl
      induction l with
      | nil => intro h1; cases h1
      | cons e t ih =>
        rw [List.pairwise_cons] at hl
        intro h1 h2
        rcases List.mem_cons.1 h1 with h1 | h1
        · rcases List.mem_cons.1 h2 with h2 | h2
          · rw [← h2] at h1
            exact hne (congrArg Prod.fst h1)
          · have := (hl.1 _ h2).2
            rw [← h1] at this
            exact this hpre
        · rcases List.mem_cons.1 h2 with h2 | h2
          · have := (hl.1 _ h1).1
            rw [← h2] at this
            exact absurd this (not_lt.2 (le_of_lt hlt))
          · exact ih hl.2 h1 h2
    exact key _ hpw (OMap.mem_items.2 h) (OMap.mem_items.2 h')
  · rintro ⟨g, w⟩
    have hcase : ∀ e ∈ m.items, (elems e.1).head? ≠ some dotdot ∧ isAbs e.1 = false ∧
        Norm e.1 (elems e.1) ∧ (e.1 = dot ↔ (place e.1).down = []) ∧
        (e.1 ≠ dot → elems e.1 = (place e.1).down) := by
      intro e he
      have hf := hmem e he
      have hg := g _ _ hf
      rcases normal_cases e.1 (hm _ _ hf) with h | h | h
      · rw [h.2] at hg; cases hg.1
      · exact absurd hg.2 h.2.2.2.2
      · exact ⟨h.2.2.1, h.2.2.2.1, h.2.2.2.2.1, h.2.2.2.2.2.1, h.2.2.2.2.2.2⟩
    have hdot : ∀ e ∈ m.items, e.1 = dot → ∀ e' ∈ m.items, e'.1 = e.1 := by
      intro e he hd e' he'
      have h0 := (hcase e he).2.2.2.1.1 hd
      exact (w _ _ _ _ (hmem e he) (hmem e' he') (by rw [h0]; exact List.nil_prefix)).symm
    have hlt : ∀ e ∈ m.items, ∀ e' ∈ m.items, e.1 < e'.1 → e.1 ≠ dot ∧ e'.1 ≠ dot := by
      intro e he e' he' hl
      constructor
      · intro h
        have := hdot e he h e' he'
        rw [this] at hl
        exact lt_irrefl _ hl
      · intro h
        have := hdot e' he' h e he
        rw [this] at hl
        exact lt_irrefl _ hl
    refine ⟨?_, by simp, ?_⟩
    · intro e he
      refine ⟨(hcase e he).2.1, (hcase e he).1, ?_⟩
      rintro ⟨hd, hs⟩
      -- two entries with different keys
      rcases hit : m.items with _ | ⟨x, _ | ⟨y, t⟩⟩
      · rw [hit] at hs; simp at hs
      · rw [hit] at hs; simp at hs
      · have hx : x ∈ m.items := by rw [hit]; simp
        have hy : y ∈ m.items := by rw [hit]; simp
        have hasc := m.asc
        unfold Ascending at hasc
        rw [hit, List.pairwise_cons] at hasc
        have hxy := hasc.1 y List.mem_cons_self
        rw [hdot e he hd x hx, hdot e he hd y hy] at hxy
        exact lt_irrefl _ hxy
    · refine List.Pairwise.imp_of_mem ?_ m.asc
      intro x y hx hy hl hpre
      obtain ⟨hxd, hyd⟩ := hlt x hx y hy hl
      rw [(hcase x hx).2.2.2.2 hxd, (hcase y hy).2.2.2.2 hyd] at hpre
      have := w _ _ _ _ (hmem x hx) (hmem y hy) hpre
      rw [this] at hl
      exact lt_irrefl _ hl

theorem treeConflict_ub (m : OMap Str A) (hm : ∀ k a, m.find k = some a → toNormalPath k = k) :
    treeConflict m ≠ .ub :=
  treeConflictGo_ub _ _ _ (fun _ he => hm _ _ (OMap.mem_items.1 he))

/-! ## Normalisation of a stage -/

theorem artifactsTreeGo_spec (t : List (Str × A)) (r : OMap Str A) :
    (∀ m', artifactsTreeGo t r = .ok m' →
      (∀ e ∈ t, ∀ b, r.find (toNormalPath e.1) = some b → b = e.2) ∧
      (∀ e ∈ t, ∀ e' ∈ t, toNormalPath e.1 = toNormalPath e'.1 → e.2 = e'.2) ∧
      (∀ x a, m'.find x = some a ↔
        r.find x = some a ∨ ∃ e ∈ t, toNormalPath e.1 = x ∧ e.2 = a)) ∧
    (∀ p, artifactsTreeGo t r = .error p →
      (∃ e ∈ t, ∃ b, r.find (toNormalPath e.1) = some b ∧ b ≠ e.2) ∨
      ∃ e ∈ t, ∃ e' ∈ t, toNormalPath e.1 = toNormalPath e'.1 ∧ e.2 ≠ e'.2) := by
  induction t generalizing r with
  | nil =>
    constructor
    · intro m' h
      cases h
      simp
    · intro p h
      cases h
  | cons e t ih =>
    obtain ⟨key, a⟩ := e
    have hemp : ∀ x b, (r.emplace (toNormalPath key) a).find x = some b ↔
        (r.find x = some b ∨ (x = toNormalPath key ∧ r.find x = none ∧ b = a)) := by
      intro x b
      rw [OMap.find_emplace]
      by_cases hx : x = toNormalPath key
      · subst hx
        rw [if_pos rfl]
        cases hr : r.find (toNormalPath key) with
        | none => simp [eq_comm]
        | some c => simp
      · rw [if_neg hx]
        simp [hx]
    obtain ⟨ih1, ih2⟩ := ih (r.emplace (toNormalPath key) a)
    unfold artifactsTreeGo
    simp only
    -- both branches that go on
    have cont : (∀ b, r.find (toNormalPath key) = some b → b = a) →
        (∀ m', artifactsTreeGo t (r.emplace (toNormalPath key) a) = .ok m' →
          (∀ e ∈ (key, a) :: t, ∀ b, r.find (toNormalPath e.1) = some b → b = e.2) ∧
          (∀ e ∈ (key, a) :: t, ∀ e' ∈ (key, a) :: t, toNormalPath e.1 = toNormalPath e'.1 → e.2 = e'.2) ∧
          (∀ x c, m'.find x = some c ↔
            r.find x = some c ∨ ∃ e ∈ (key, a) :: t, toNormalPath e.1 = x ∧ e.2 = c)) ∧
        (∀ p, artifactsTreeGo t (r.emplace (toNormalPath key) a) = .error p →
          (∃ e ∈ (key, a) :: t, ∃ b, r.find (toNormalPath e.1) = some b ∧ b ≠ e.2) ∨
          ∃ e ∈ (key, a) :: t, ∃ e' ∈ (key, a) :: t, toNormalPath e.1 = toNormalPath e'.1 ∧
            e.2 ≠ e'.2) := by
      intro hold
      have hin : (r.emplace (toNormalPath key) a).find (toNormalPath key) = some a := by
        rw [hemp]
        cases hr : r.find (toNormalPath key) with
        | none => right; exact ⟨rfl, rfl, rfl⟩
        | some c => left; rw [hold c hr]
      constructor
      · intro m' hm'
        obtain ⟨j1, j2, j3⟩ := ih1 m' hm'
        have hkey : ∀ e ∈ t, toNormalPath e.1 = toNormalPath key → a = e.2 := by
          intro e he hk
          apply j1 e he
          rw [hk]
          exact hin
        refine ⟨?_, ?_, ?_⟩
        · intro e he b hb
          rcases List.mem_cons.1 he with rfl | he
          · exact hold b hb
          · exact j1 e he b ((hemp _ _).2 (Or.inl hb))
        · intro e he e' he' hk
          rcases List.mem_cons.1 he with rfl | he
          · rcases List.mem_cons.1 he' with rfl | he'
            · rfl
            · exact hkey e' he' hk.symm
          · rcases List.mem_cons.1 he' with rfl | he'
            · exact (hkey e he hk).symm
            · exact j2 e he e' he' hk
        · intro x c
          rw [j3, hemp]
          constructor
          · rintro ((h | ⟨rfl, -, rfl⟩) | ⟨e, he, h1, h2⟩)
            · exact Or.inl h
            · exact Or.inr ⟨_, List.mem_cons_self, rfl, rfl⟩
            · exact Or.inr ⟨e, List.mem_cons_of_mem _ he, h1, h2⟩
          · rintro (h | ⟨e, he, h1, h2⟩)
            · exact Or.inl (Or.inl h)
            · rcases List.mem_cons.1 he with rfl | he
              · simp only at h1 h2
                subst h1 h2
                exact Or.inl ((hemp _ _).1 hin)
              · exact Or.inr ⟨e, he, h1, h2⟩
      · intro p hp
        rcases ih2 p hp with ⟨e, he, b, hb, hne⟩ | ⟨e, he, e', he', hk, hne⟩
        · rcases (hemp _ _).1 hb with h | ⟨h, -, rfl⟩
          · exact Or.inl ⟨e, List.mem_cons_of_mem _ he, b, h, hne⟩
          · exact Or.inr ⟨_, List.mem_cons_self, e, List.mem_cons_of_mem _ he, h.symm, hne⟩
        · exact Or.inr ⟨e, List.mem_cons_of_mem _ he, e', List.mem_cons_of_mem _ he', hk, hne⟩
    cases hr : r.find (toNormalPath key) with
    | none =>
      simp only
      apply cont
      intro b hb
      rw [hr] at hb
      cases hb
    | some b =>
      simp only
      by_cases hba : b = a
      · rw [if_pos hba]
        apply cont
        intro c hc
        rw [hr] at hc
        rw [← Option.some.inj hc]
        exact hba
      · rw [if_neg hba]
        constructor
        · intro m' h; cases h
        · intro p _
          exact Or.inl ⟨_, List.mem_cons_self, b, hr, hba⟩

end Verif.Stage
