import Verif.LinkedMap.Spec

namespace Verif.LinkedMap

variable {K V : Type} [LinearOrder K]

theorem mergeItems_keys (a b : List (K × V)) :
    ∀ p ∈ mergeItems a b, p ∈ a ∨ p ∈ b := by
  induction a, b using mergeItems.induct (K := K) (V := V) with
  | case1 ns => intro p hp; rw [mergeItems] at hp; exact Or.inr hp
  | case2 c cs => intro p hp; rw [mergeItems] at hp; exact Or.inl hp
  | case3 vc cs kn vn ns ih =>
    intro p hp
    rw [mergeItems, if_pos rfl] at hp
    simp only [List.mem_cons] at hp ⊢
    rcases hp with rfl | h
    · exact Or.inl (Or.inl rfl)
    · rcases ih p h with h | h
      · exact Or.inl (Or.inr h)
      · exact Or.inr (Or.inr h)
  | case4 kc vc cs kn vn ns hne hlt ih =>
    intro p hp
    rw [mergeItems, if_neg hne, if_pos hlt] at hp
    simp only [List.mem_cons] at hp
    rcases hp with rfl | h
    · exact Or.inl List.mem_cons_self
    · rcases ih p h with h | h
      · exact Or.inl (List.mem_cons_of_mem _ h)
      · exact Or.inr h
  | case5 kc vc cs kn vn ns hne hlt ih =>
    intro p hp
    rw [mergeItems, if_neg hne, if_neg hlt] at hp
    simp only [List.mem_cons] at hp
    rcases hp with rfl | h
    · exact Or.inr List.mem_cons_self
    · rcases ih p h with h | h
      · exact Or.inl h
      · exact Or.inr (List.mem_cons_of_mem _ h)

theorem mergeItems_asc (a b : List (K × V)) (ha : Ascending a) (hb : Ascending b) :
    Ascending (mergeItems a b) := by
  induction a, b using mergeItems.induct (K := K) (V := V) with
  | case1 ns => rw [mergeItems]; exact hb
  | case2 c cs => rw [mergeItems]; exact ha
  | case3 vc cs kn vn ns ih =>
    rw [mergeItems, if_pos rfl]
    unfold Ascending at ha hb ⊢
    rw [List.pairwise_cons] at ha hb ⊢
    refine ⟨?_, ih ha.2 hb.2⟩
    intro p hp
    rcases mergeItems_keys cs ns p hp with h | h
    · exact ha.1 p h
    · exact hb.1 p h
  | case4 kc vc cs kn vn ns hne hlt ih =>
    rw [mergeItems, if_neg hne, if_pos hlt]
    have ha' := ha
    unfold Ascending at ha ⊢
    rw [List.pairwise_cons] at ha ⊢
    refine ⟨?_, ih ha.2 hb⟩
    intro p hp
    rcases mergeItems_keys cs _ p hp with h | h
    · exact ha.1 p h
    · unfold Ascending at hb
      rw [List.pairwise_cons] at hb
      simp only [List.mem_cons] at h
      rcases h with rfl | h
      · exact hlt
      · exact lt_trans hlt (hb.1 p h)
  | case5 kc vc cs kn vn ns hne hlt ih =>
    rw [mergeItems, if_neg hne, if_neg hlt]
    have hlt' : kn < kc := lt_of_le_of_ne (not_lt.mp hlt) (fun e => hne e.symm)
    have hb' := hb
    unfold Ascending at hb ⊢
    rw [List.pairwise_cons] at hb ⊢
    refine ⟨?_, ih ha hb.2⟩
    intro p hp
    rcases mergeItems_keys _ ns p hp with h | h
    · unfold Ascending at ha
      rw [List.pairwise_cons] at ha
      simp only [List.mem_cons] at h
      rcases h with rfl | h
      · exact hlt'
      · exact lt_trans hlt' (ha.1 p h)
    · exact hb.1 p h

theorem assoc_mergeItems (a b : List (K × V)) (ha : Ascending a) (hb : Ascending b) (k : K) :
    assoc k (mergeItems a b) = (assoc k a).or (assoc k b) := by
  induction a, b using mergeItems.induct (K := K) (V := V) with
  | case1 ns => rw [mergeItems]; simp [assoc]
  | case2 c cs => rw [mergeItems]; simp [assoc]
  | case3 vc cs kn vn ns ih =>
    rw [mergeItems, if_pos rfl]
    unfold Ascending at ha hb
    rw [List.pairwise_cons] at ha hb
    simp only [assoc]
    by_cases hk : k = kn
    · subst hk
      simp
    · simp only [if_neg hk]
      exact ih ha.2 hb.2
  | case4 kc vc cs kn vn ns hne hlt ih =>
    rw [mergeItems, if_neg hne, if_pos hlt]
    unfold Ascending at ha
    rw [List.pairwise_cons] at ha
    have := ih ha.2 hb
    by_cases hk : k = kc
    · simp [assoc, hk]
    · simp only [assoc, if_neg hk] at this ⊢
      exact this
  | case5 kc vc cs kn vn ns hne hlt ih =>
    rw [mergeItems, if_neg hne, if_neg hlt]
    have hlt' : kn < kc := lt_of_le_of_ne (not_lt.mp hlt) (fun e => hne e.symm)
    have ha' := ha
    unfold Ascending at hb ha
    rw [List.pairwise_cons] at hb ha
    have := ih ha' hb.2
    by_cases hk : k = kn
    · subst hk
      have h0 : assoc k ((kc, vc) :: cs) = none := by
        apply assoc_eq_none_of_lt
        intro p hp
        simp only [List.mem_cons] at hp
        rcases hp with rfl | hp
        · exact hlt'
        · exact lt_trans hlt' (ha.1 p hp)
      rw [h0]
      simp [assoc]
    · rw [assoc, if_neg hk, this]
      congr 1
      rw [assoc, if_neg hk]

theorem Ptr.items_asc (p : Ptr K V) : Ascending p.items := by
  induction p with
  | null => exact List.Pairwise.nil
  | node next content map ihn ihc =>
    cases content with
    | null => simp only [Ptr.items]; exact mergeItems_asc _ _ map.asc ihn
    | node n c m => rw [Ptr.items]; exact mergeItems_asc _ _ ihc ihn

theorem Ptr.assoc_items (p : Ptr K V) (k : K) : assoc k p.items = p.find k := by
  induction p with
  | null => rfl
  | node next content map ihn ihc =>
    cases content with
    | null =>
      simp only [Ptr.items, Ptr.find]
      rw [assoc_mergeItems _ _ map.asc next.items_asc, ihn]
      unfold OMap.find
      cases assoc k map.items <;> rfl
    | node n c m =>
      rw [Ptr.items, Ptr.find]
      rw [assoc_mergeItems _ _ (Ptr.items_asc _) next.items_asc, ihn, ihc]
      cases Ptr.find k (.node n c m) <;> rfl

theorem Ptr.mem_items (p : Ptr K V) (k : K) (v : V) :
    (k, v) ∈ p.items ↔ p.find k = some v := by
  rw [← assoc_eq_some_iff p.items_asc, p.assoc_items]

theorem Ptr.items_ext {p q : Ptr K V} : p.items = q.items ↔ ∀ k, p.find k = q.find k := by
  constructor
  · intro h k
    rw [← p.assoc_items, ← q.assoc_items, h]
  · intro h
    apply ascending_ext p.items_asc q.items_asc
    intro k
    rw [p.assoc_items, q.assoc_items, h]

theorem Ptr.isEmpty_iff (p : Ptr K V) : p.isEmpty = true ↔ ∀ k, p.find k = none := by
  induction p with
  | null => simp [Ptr.isEmpty, Ptr.find]
  | node next content map ihn ihc =>
    cases content with
    | null =>
      simp only [Ptr.isEmpty, Ptr.find, Bool.and_eq_true, ihn, List.isEmpty_iff]
      constructor
      · rintro ⟨h1, h2⟩ k
        unfold OMap.find
        rw [h1]
        simp [assoc, h2 k]
      · intro h
        constructor
        · cases hm : map.items with
          | nil => rfl
          | cons b t =>
            obtain ⟨kb, vb⟩ := b
            have := h kb
            unfold OMap.find at this
            rw [hm] at this
            simp [assoc] at this
        · intro k
          have := h k
          cases hm : map.find k with
          | none => rw [hm] at this; exact this
          | some v => rw [hm] at this; simp at this
    | node n c m =>
      rw [Ptr.isEmpty]
      simp only [Bool.and_eq_true, ihn, ihc]
      constructor
      · rintro ⟨h1, h2⟩ k
        rw [Ptr.find]
        simp only [h1 k, h2 k]
      · intro h
        constructor
        · intro k
          have := h k
          rw [Ptr.find] at this
          cases hm : Ptr.find k (.node n c m) with
          | none => rfl
          | some v => rw [hm] at this; simp at this
        · intro k
          have := h k
          rw [Ptr.find] at this
          cases hm : Ptr.find k (.node n c m) with
          | none => rw [hm] at this; exact this
          | some v => rw [hm] at this; simp at this

theorem Ptr.find_emptyMap (k : K) : (Ptr.emptyMap : Ptr K V).find k = none := rfl

theorem Ptr.find_ofMap (m : OMap K V) (k : K) : (Ptr.ofMap m).find k = m.find k := by
  simp only [Ptr.ofMap, Ptr.find]
  cases m.find k <;> rfl

/-- An overlay of two non-null maps. -/
theorem Ptr.find_overlay (l r : Ptr K V) (m : OMap K V) (hr : r ≠ .null) (k : K) :
    (Ptr.node l r m).find k = (r.find k).or (l.find k) := by
  cases r with
  | null => exact absurd rfl hr
  | node n c mm =>
    rw [Ptr.find]
    cases Ptr.find k (.node n c mm) <;> rfl

theorem conflictScan_some [DecidableEq V] (a b : List (K × V)) (k : K)
    (h : conflictScan a b = some k) :
    ∃ v v', (k, v) ∈ a ∧ (k, v') ∈ b ∧ v ≠ v' := by
  induction a, b using conflictScan.induct (K := K) (V := V) with
  | case1 b => simp [conflictScan] at h
  | case2 c cs => simp [conflictScan] at h
  | case3 ms kt ts v ih =>
    rw [conflictScan, if_pos rfl, if_pos rfl] at h
    obtain ⟨v, v', h1, h2, h3⟩ := ih h
    exact ⟨v, v', List.mem_cons_of_mem _ h1, List.mem_cons_of_mem _ h2, h3⟩
  | case4 vm ms kt vt ts hne =>
    rw [conflictScan, if_pos rfl, if_neg hne] at h
    injection h with h
    subst h
    exact ⟨vm, vt, List.mem_cons_self, List.mem_cons_self, hne⟩
  | case5 km vm ms kt vt ts hne hlt ih =>
    rw [conflictScan, if_neg hne, if_pos hlt] at h
    obtain ⟨v, v', h1, h2, h3⟩ := ih h
    exact ⟨v, v', List.mem_cons_of_mem _ h1, h2, h3⟩
  | case6 km vm ms kt vt ts hne hlt ih =>
    rw [conflictScan, if_neg hne, if_neg hlt] at h
    obtain ⟨v, v', h1, h2, h3⟩ := ih h
    exact ⟨v, v', h1, List.mem_cons_of_mem _ h2, h3⟩

theorem conflictScan_none [DecidableEq V] (a b : List (K × V)) (ha : Ascending a)
    (hb : Ascending b) (h : conflictScan a b = none) (k : K) (v v' : V)
    (h1 : (k, v) ∈ a) (h2 : (k, v') ∈ b) : v = v' := by
  induction a, b using conflictScan.induct (K := K) (V := V) with
  | case1 b => simp at h1
  | case2 c cs => simp at h2
  | case3 ms kt ts w ih =>
    rw [conflictScan, if_pos rfl, if_pos rfl] at h
    unfold Ascending at ha hb
    rw [List.pairwise_cons] at ha hb
    simp only [List.mem_cons, Prod.mk.injEq] at h1 h2
    rcases h1 with ⟨e1, e2⟩ | h1
    · rcases h2 with ⟨e3, e4⟩ | h2
      · rw [e2, e4]
      · have := hb.1 _ h2
        simp only [e1, lt_irrefl] at this
    · rcases h2 with ⟨e3, e4⟩ | h2
      · have := ha.1 _ h1
        simp only [e3, lt_irrefl] at this
      · exact ih ha.2 hb.2 h h1 h2
  | case4 vm ms kt vt ts hne =>
    rw [conflictScan, if_pos rfl, if_neg hne] at h
    simp at h
  | case5 km vm ms kt vt ts hne hlt ih =>
    rw [conflictScan, if_neg hne, if_pos hlt] at h
    have hb' := hb
    unfold Ascending at ha hb
    rw [List.pairwise_cons] at ha hb
    simp only [List.mem_cons, Prod.mk.injEq] at h1
    rcases h1 with ⟨e1, e2⟩ | h1
    · exfalso
      simp only [List.mem_cons, Prod.mk.injEq] at h2
      rcases h2 with ⟨e3, e4⟩ | h2
      · exact hne (e1.symm.trans e3)
      · have := lt_trans hlt (hb.1 _ h2)
        simp only [e1, lt_irrefl] at this
    · exact ih ha.2 hb' h h1 h2
  | case6 km vm ms kt vt ts hne hlt ih =>
    rw [conflictScan, if_neg hne, if_neg hlt] at h
    have hlt' : kt < km := lt_of_le_of_ne (not_lt.mp hlt) (fun e => hne e.symm)
    have ha' := ha
    unfold Ascending at ha hb
    rw [List.pairwise_cons] at ha hb
    simp only [List.mem_cons, Prod.mk.injEq] at h2
    rcases h2 with ⟨e3, e4⟩ | h2
    · exfalso
      simp only [List.mem_cons, Prod.mk.injEq] at h1
      rcases h1 with ⟨e1, e2⟩ | h1
      · exact hne (e1.symm.trans e3)
      · have := lt_trans hlt' (ha.1 _ h1)
        simp only [e3, lt_irrefl] at this
    · exact ih ha' hb.2 h h1 h2

theorem findConflicting_none [DecidableEq V] {p q : Ptr K V}
    (h : p.findConflictingDuplicate q = none) (k : K) (v v' : V)
    (h1 : p.find k = some v) (h2 : q.find k = some v') : v = v' :=
  conflictScan_none _ _ p.items_asc q.items_asc h k v v' ((p.mem_items k v).mpr h1)
    ((q.mem_items k v').mpr h2)

theorem findConflicting_some [DecidableEq V] {p q : Ptr K V} {k : K}
    (h : p.findConflictingDuplicate q = some k) :
    ∃ v v', p.find k = some v ∧ q.find k = some v' ∧ v ≠ v' := by
  obtain ⟨v, v', h1, h2, h3⟩ := conflictScan_some _ _ _ h
  exact ⟨v, v', (p.mem_items k v).mp h1, (q.mem_items k v').mp h2, h3⟩

/-- The maps in the index range `[i, i+n)`. -/
def seg (ms : List (Ptr K V)) (i j : Nat) : List (Ptr K V) := (ms.drop i).take (j - i)

theorem seg_split (ms : List (Ptr K V)) {i m j : Nat} (h1 : i ≤ m) (h2 : m ≤ j) :
    seg ms i j = seg ms i m ++ seg ms m j := by
  unfold seg
  have : j - i = (m - i) + (j - m) := by omega
  rw [this, List.take_add]
  congr 1
  rw [List.drop_drop]
  congr 2
  omega

theorem lastBinding_append (k : K) (a b : List (Ptr K V)) :
    lastBinding k (a ++ b) = (lastBinding k b).or (lastBinding k a) := by
  unfold lastBinding
  rw [List.reverse_append, List.findSome?_append]

theorem lastBinding_single (k : K) (a : Ptr K V) : lastBinding k [a] = a.find k := by
  unfold lastBinding
  cases h : a.find k <;> simp [h]

theorem lastBinding_some {k : K} {v : V} {ms : List (Ptr K V)}
    (h : lastBinding k ms = some v) : ∃ m ∈ ms, m.find k = some v := by
  unfold lastBinding at h
  obtain ⟨m, hm, hf⟩ := List.exists_of_findSome?_eq_some h
  exact ⟨m, List.mem_reverse.mp hm, hf⟩

theorem lastBinding_none {k : K} {ms : List (Ptr K V)} :
    lastBinding k ms = none ↔ ∀ m ∈ ms, m.find k = none := by
  unfold lastBinding
  rw [List.findSome?_eq_none_iff]
  simp

theorem lastBinding_compatible {k : K} {v : V} {ms : List (Ptr K V)} (hc : Compatible ms)
    {m : Ptr K V} (hm : m ∈ ms) (h : m.find k = some v) : lastBinding k ms = some v := by
  cases hl : lastBinding k ms with
  | none => rw [lastBinding_none.mp hl m hm] at h; simp at h
  | some w =>
    obtain ⟨m', hm', h'⟩ := lastBinding_some hl
    rw [hc m hm m' hm' k v w h h']

/-- The range recursion of `Union` computes right-biased union of the range, resp. decides
compatibility. -/
theorem unionRange_spec [DecidableEq V] (disj : Bool) (ms : List (Ptr K V))
    (hnn : ∀ m ∈ ms, m ≠ .null) (n : Nat) :
    ∀ (i j : Nat) (_hij : i ≤ j) (hj : j ≤ (ms.map some).toArray.size), j - i = n →
    (∃ r, unionRange disj (ms.map some).toArray i j hj = .ok r ∧ r ≠ .null ∧
        (∀ k, r.find k = lastBinding k (seg ms i j)) ∧
        (disj = true → Compatible (seg ms i j))) ∨
    (∃ k, unionRange disj (ms.map some).toArray i j hj = .conflict k ∧ disj = true ∧
        ∃ m ∈ seg ms i j, ∃ m' ∈ seg ms i j, ∃ v v',
          m.find k = some v ∧ m'.find k = some v' ∧ v ≠ v') := by
  induction n using Nat.strong_induction_on with
  | _ n ih =>
    intro i j _hij hj hn
    by_cases h0 : j ≤ i
    · left
      have : j = i := by omega
      subst this
      rw [unionRange, dif_pos (Nat.le_refl _)]
      refine ⟨_, rfl, by simp [Ptr.emptyMap, Ptr.ofMap], ?_, ?_⟩
      · intro k
        simp [seg, lastBinding, Ptr.find_emptyMap]
      · intro _ m hm
        simp [seg] at hm
    · by_cases h1 : j = i + 1
      · subst h1
        left
        have hlt : i < ms.length := by simpa [Nat.succ_le_iff] using hj
        have hseg : seg ms i (i + 1) = [ms[i]] := by
          unfold seg
          rw [Nat.add_sub_cancel_left, List.drop_eq_getElem_cons hlt, List.take_succ_cons,
            List.take_zero]
        rw [unionRange, dif_neg h0, dif_pos rfl]
        simp only [List.getElem_toArray, List.getElem_map]
        refine ⟨_, rfl, hnn _ (List.getElem_mem _), ?_, ?_⟩
        · intro k
          rw [hseg, lastBinding_single]
        · intro _ m hm m' hm' k v v' hv hv'
          rw [hseg, List.mem_singleton] at hm hm'
          subst hm; subst hm'
          rw [hv] at hv'
          exact Option.some.inj hv'
      · have hmid1 : i < i + (j - i) / 2 := by omega
        have hmid2 : i + (j - i) / 2 < j := by omega
        rw [unionRange, dif_neg h0, dif_neg h1]
        simp only
        have hsplit := seg_split ms (Nat.le_of_lt hmid1) (Nat.le_of_lt hmid2)
        rcases ih (i + (j - i) / 2 - i) (by omega) i (i + (j - i) / 2) (by omega) (by omega) rfl with
          ⟨l, hl, hln, hlf, hlc⟩ | ⟨k, hl, hd, m, hm, m', hm', v, v', hv, hv', hne⟩
        · rw [hl]
          simp only
          rcases ih (j - (i + (j - i) / 2)) (by omega) (i + (j - i) / 2) j (by omega) hj rfl with
            ⟨r, hr, hrn, hrf, hrc⟩ | ⟨k, hr, hd, m, hm, m', hm', v, v', hv, hv', hne⟩
          · rw [hr]
            simp only
            by_cases hle : l.isEmpty = true
            · rw [if_pos hle]
              left
              have hle' := l.isEmpty_iff.mp hle
              have hlnone : ∀ k, ∀ m ∈ seg ms i (i + (j - i) / 2), m.find k = none := by
                intro k
                have := hlf k
                rw [hle' k] at this
                exact lastBinding_none.mp this.symm
              refine ⟨r, rfl, hrn, ?_, ?_⟩
              · intro k
                rw [hsplit, lastBinding_append, ← hrf, ← hlf, hle' k, Option.or_none]
              · intro hd m hm m' hm' k v v' hv hv'
                rw [hsplit, List.mem_append] at hm hm'
                rcases hm with hm | hm
                · rw [hlnone k m hm] at hv; simp at hv
                · rcases hm' with hm' | hm'
                  · rw [hlnone k m' hm'] at hv'; simp at hv'
                  · exact hrc hd m hm m' hm' k v v' hv hv'
            · rw [if_neg hle]
              by_cases hre : r.isEmpty = true
              · rw [if_pos hre]
                left
                have hre' := r.isEmpty_iff.mp hre
                have hrnone : ∀ k, ∀ m ∈ seg ms (i + (j - i) / 2) j, m.find k = none := by
                  intro k
                  have := hrf k
                  rw [hre' k] at this
                  exact lastBinding_none.mp this.symm
                refine ⟨l, rfl, hln, ?_, ?_⟩
                · intro k
                  rw [hsplit, lastBinding_append, ← hrf, ← hlf, hre' k, Option.none_or]
                · intro hd m hm m' hm' k v v' hv hv'
                  rw [hsplit, List.mem_append] at hm hm'
                  rcases hm with hm | hm
                  · rcases hm' with hm' | hm'
                    · exact hlc hd m hm m' hm' k v v' hv hv'
                    · rw [hrnone k m' hm'] at hv'; simp at hv'
                  · rw [hrnone k m hm] at hv; simp at hv
              · rw [if_neg hre]
                have hfind : ∀ k, (Ptr.node l r OMap.empty).find k =
                    lastBinding k (seg ms i j) := by
                  intro k
                  rw [hsplit, lastBinding_append, ← hrf, ← hlf, Ptr.find_overlay _ _ _ hrn]
                cases disj with
                | false =>
                  left
                  simp only [Bool.false_eq_true, if_false]
                  exact ⟨_, rfl, by simp, hfind, by simp⟩
                | true =>
                  simp only [if_true]
                  cases hcf : l.findConflictingDuplicate r with
                  | none =>
                    left
                    refine ⟨_, rfl, by simp, hfind, ?_⟩
                    intro _
                    have hLc := hlc rfl
                    have hRc := hrc rfl
                    have cross : ∀ m ∈ seg ms i (i + (j - i) / 2),
                        ∀ m' ∈ seg ms (i + (j - i) / 2) j, ∀ k v v',
                        m.find k = some v → m'.find k = some v' → v = v' := by
                      intro m hm m' hm' k v v' hv hv'
                      have h1 := lastBinding_compatible hLc hm hv
                      have h2 := lastBinding_compatible hRc hm' hv'
                      rw [← hlf] at h1
                      rw [← hrf] at h2
                      exact findConflicting_none hcf k v v' h1 h2
                    intro m hm m' hm' k v v' hv hv'
                    rw [hsplit, List.mem_append] at hm hm'
                    rcases hm with hm | hm
                    · rcases hm' with hm' | hm'
                      · exact hLc m hm m' hm' k v v' hv hv'
                      · exact cross m hm m' hm' k v v' hv hv'
                    · rcases hm' with hm' | hm'
                      · exact (cross m' hm' m hm k v' v hv' hv).symm
                      · exact hRc m hm m' hm' k v v' hv hv'
                  | some k =>
                    right
                    obtain ⟨v, v', hv, hv', hne⟩ := findConflicting_some hcf
                    rw [hlf] at hv
                    rw [hrf] at hv'
                    obtain ⟨m, hm, hmv⟩ := lastBinding_some hv
                    obtain ⟨m', hm', hmv'⟩ := lastBinding_some hv'
                    refine ⟨k, rfl, trivial, m, ?_, m', ?_, v, v', hmv, hmv', hne⟩
                    · rw [hsplit]; exact List.mem_append_left _ hm
                    · rw [hsplit]; exact List.mem_append_right _ hm'
          · right
            rw [hr]
            refine ⟨k, rfl, hd, m, ?_, m', ?_, v, v', hv, hv', hne⟩
            · rw [hsplit]; exact List.mem_append_right _ hm
            · rw [hsplit]; exact List.mem_append_right _ hm'
        · right
          rw [hl]
          refine ⟨k, rfl, hd, m, ?_, m', ?_, v, v', hv, hv', hne⟩
          · rw [hsplit]; exact List.mem_append_left _ hm
          · rw [hsplit]; exact List.mem_append_left _ hm'

theorem seg_full (ms : List (Ptr K V)) : seg ms 0 ms.length = ms := by
  simp [seg]

theorem union_spec [DecidableEq V] (disj : Bool) (ms : List (Ptr K V))
    (hnn : ∀ m ∈ ms, m ≠ .null) :
    (∃ r, union disj (ms.map some) = .ok r ∧
        (∀ k, r.find k = lastBinding k ms) ∧ (disj = true → Compatible ms)) ∨
    (∃ k, union disj (ms.map some) = .conflict k ∧ disj = true ∧
        ∃ m ∈ ms, ∃ m' ∈ ms, ∃ v v',
          m.find k = some v ∧ m'.find k = some v' ∧ v ≠ v') := by
  unfold union
  by_cases he : (ms.map some).isEmpty = true
  · rw [if_pos he]
    left
    have : ms = [] := by simpa using he
    subst this
    refine ⟨_, rfl, ?_, ?_⟩
    · intro k; simp [lastBinding, Ptr.find_emptyMap]
    · intro _ m hm; simp at hm
  · rw [if_neg he]
    have hsz : (ms.map some).toArray.size = ms.length := by simp
    have := unionRange_spec disj ms hnn _ 0 (ms.map some).toArray.size (Nat.zero_le _)
      (Nat.le_refl _) rfl
    have hseg : seg ms 0 (ms.map some).toArray.size = ms := by rw [hsz, seg_full]
    rw [hseg] at this
    rcases this with ⟨r, h1, _, h3, h4⟩ | h
    · exact Or.inl ⟨r, h1, h3, h4⟩
    · exact Or.inr h

/-- A list containing something that is not a map is never accepted. -/
theorem unionRange_notMap [DecidableEq V] (disj : Bool) (a : Array (Option (Ptr K V))) (n : Nat) :
    ∀ (i j : Nat) (hj : j ≤ a.size), j - i = n →
      ∀ (t : Nat) (ht : t < a.size), i ≤ t → t < j → a[t] = none →
      ∀ r, unionRange disj a i j hj ≠ .ok r := by
  induction n using Nat.strong_induction_on with
  | _ n ih =>
    intro i j hj hn t ht hit htj hnone r
    rw [unionRange, dif_neg (by omega)]
    by_cases h1 : j = i + 1
    · rw [dif_pos h1]
      have : t = i := by omega
      subst this
      rw [hnone]
      simp
    · rw [dif_neg h1]
      simp only
      by_cases hm : t < i + (j - i) / 2
      · have := ih (i + (j - i) / 2 - i) (by omega) i (i + (j - i) / 2) (by omega) rfl t ht hit hm
          hnone
        cases hl : unionRange disj a i (i + (j - i) / 2) (by omega) with
        | ok l => exact absurd hl (this l)
        | conflict k => simp
        | notAMap => simp
      · have := ih (j - (i + (j - i) / 2)) (by omega) (i + (j - i) / 2) j hj rfl t ht (by omega) htj
          hnone
        cases hl : unionRange disj a i (i + (j - i) / 2) (by omega) with
        | ok l =>
          simp only
          cases hr : unionRange disj a (i + (j - i) / 2) j hj with
          | ok r => exact absurd hr (this r)
          | conflict k => simp
          | notAMap => simp
        | conflict k => simp
        | notAMap => simp

/-! ## Configurations -/

theorem prune_fold (nul : V) (c : Conf K V) (vars : List K) (s : OMap K V)
    (hs : ∀ k v, s.find k = some v → v = c.get nul k) (k : K) :
    (vars.foldl (c.pruneStep nul) s).find k =
      if k ∈ vars then some (c.get nul k) else s.find k := by
  induction vars generalizing s with
  | nil => simp
  | cons a t ih =>
    rw [List.foldl_cons]
    have hstep : ∀ x, (c.pruneStep nul s a).find x =
        if x = a then some (c.get nul a) else s.find x := by
      intro x
      have hem : c.pruneStep nul s a = s.emplace a (c.get nul a) := by
        unfold Conf.pruneStep Conf.get
        cases c.expr.find a <;> rfl
      rw [hem, OMap.find_emplace]
      split
      · cases hsa : s.find a with
        | none => rfl
        | some w => rw [hs a w hsa]; rfl
      · rfl
    rw [ih]
    · rw [hstep]
      by_cases hka : k = a
      · subst hka; simp
      · simp [hka]
    · intro x v hx
      rw [hstep] at hx
      split at hx
      · rename_i he
        subst he
        exact (Option.some.inj hx).symm
      · exact hs x v hx

theorem Conf.find_prune (nul : V) (c : Conf K V) (vars : List K) (k : K) :
    (c.prune nul vars).expr.find k = if k ∈ vars then some (c.get nul k) else none := by
  unfold Conf.prune
  rw [Ptr.find_ofMap, prune_fold nul c vars OMap.empty (by simp)]
  simp

end Verif.LinkedMap
