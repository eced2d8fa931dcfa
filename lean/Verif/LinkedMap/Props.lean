import Verif.LinkedMap.Lemmas

/-!
# Properties C01 - C04: layered maps, map union, configurations
-/

namespace Verif.LinkedMap

variable {K V : Type} [LinearOrder K]

/-! ## C01 -/

/-- C01 (lookup): looking up a key yields the value of the topmost overlay that binds it. -/
theorem C01_find_topmost (p : Ptr K V) (k : K) : p.find k = firstBinding k p.layers := by
  unfold firstBinding
  induction p with
  | null => rfl
  | node next content map ihn ihc =>
    cases content with
    | null =>
      simp only [Ptr.layers, Ptr.find, List.findSome?_cons, ihn]
      rfl
    | node n c m =>
      rw [Ptr.layers, Ptr.find, List.findSome?_append, ← ihn, ← ihc]
      cases Ptr.find k (.node n c m) <;> rfl

/-- C01 (iteration): iterating a map visits each bound key exactly once, in strictly ascending
order, with exactly the value of the topmost overlay binding it. -/
theorem C01_iteration (p : Ptr K V) :
    p.items.Pairwise (fun a b => a.1 < b.1) ∧
    ∀ k v, (k, v) ∈ p.items ↔ firstBinding k p.layers = some v :=
  ⟨p.items_asc, fun k v => by rw [← C01_find_topmost]; exact p.mem_items k v⟩

/-- C01 (consequence): the iteration order and content are determined by the lookups alone; two
towers with equal lookups are equal maps, have the same keys, values and size. -/
theorem C01_extensional (p q : Ptr K V) :
    p.items = q.items ↔ ∀ k, firstBinding k p.layers = firstBinding k q.layers := by
  rw [Ptr.items_ext]
  simp only [C01_find_topmost]

/-- C01 (emptiness and equality tests): `empty()` and `operator==` answer the question their
names suggest. -/
theorem C01_empty_eq [DecidableEq V] (p q : Ptr K V) :
    (p.isEmpty = true ↔ ∀ k, firstBinding k p.layers = none) ∧
    (p.eqv q = true ↔ ∀ k, firstBinding k p.layers = firstBinding k q.layers) := by
  constructor
  · rw [Ptr.isEmpty_iff]
    simp only [C01_find_topmost]
  · unfold Ptr.eqv
    rw [Bool.or_eq_true, Bool.and_eq_true, decide_eq_true_eq, Ptr.isEmpty_iff, Ptr.isEmpty_iff,
      Ptr.items_ext]
    simp only [← C01_find_topmost]
    constructor
    · rintro (⟨h1, h2⟩ | h) k
      · rw [h1, h2]
      · exact h k
    · exact Or.inr

/-- Keys and values are the two projections of the same iteration; in particular they have the same
length as `size` reports. -/
theorem C01_keys_values (p : Ptr K V) :
    p.keys.Pairwise (· < ·) ∧ (∀ k, k ∈ p.keys ↔ (firstBinding k p.layers).isSome = true) ∧
    p.keys.zip p.values = p.items ∧ p.keys.length = p.size := by
  refine ⟨?_, ?_, ?_, ?_⟩
  · unfold Ptr.keys
    rw [List.pairwise_map]
    exact p.items_asc
  · intro k
    unfold Ptr.keys
    rw [List.mem_map, Option.isSome_iff_exists]
    constructor
    · rintro ⟨⟨k', v⟩, h, rfl⟩
      exact ⟨v, ((C01_iteration p).2 k' v).mp h⟩
    · rintro ⟨v, h⟩
      exact ⟨(k, v), ((C01_iteration p).2 k v).mpr h, rfl⟩
  · unfold Ptr.keys Ptr.values
    induction p.items with
    | nil => rfl
    | cons a t ih => simp [ih]
  · unfold Ptr.keys Ptr.size
    rw [List.length_map]

/-- A three-layer tower over `Nat` keys, with one layer given as nested map. -/
def exampleTower : Ptr Nat Nat :=
  .node (.node (Ptr.ofMap (OMap.empty.assign 1 10 |>.assign 2 20)) .null
    (OMap.empty.assign 2 21 |>.assign 5 50)) (Ptr.ofMap (OMap.empty.assign 5 51 |>.assign 0 1))
    OMap.empty

example : exampleTower.items = [(0, 1), (1, 10), (2, 21), (5, 51)] ∧
    exampleTower.find 2 = some 21 ∧ exampleTower.find 3 = none := by decide +kernel

/-! ## C02 -/

/-- C02: `map_union` of a list of maps always succeeds and binds each key as the last map of the
list binding it does. -/
theorem C02_union_right_biased [DecidableEq V] (ms : List (Ptr K V)) (hnn : ∀ m ∈ ms, m ≠ .null) :
    ∃ r, union false (ms.map some) = .ok r ∧ ∀ k, r.find k = lastBinding k ms := by
  rcases union_spec false ms hnn with ⟨r, h1, h2, _⟩ | ⟨k, _, h, _⟩
  · exact ⟨r, h1, h2⟩
  · simp at h

/-- C02: a list with an element that is not a map is rejected, by both unions. -/
theorem C02_union_rejects_non_maps [DecidableEq V] (disj : Bool) (ds : List (Option (Ptr K V)))
    (h : none ∈ ds) (r : Ptr K V) : union disj ds ≠ .ok r := by
  unfold union
  have hne : ¬ (ds.isEmpty = true) := by
    intro he
    rw [List.isEmpty_iff] at he
    subst he
    simp at h
  rw [if_neg hne]
  obtain ⟨t, ht, hn⟩ := List.getElem_of_mem h
  exact unionRange_notMap disj ds.toArray _ 0 _ (Nat.le_refl _) rfl t (by simpa using ht)
    (Nat.zero_le _) (by simpa using ht) (by simpa using hn) r

/-- The items of a successful union, for the examples. -/
def Res.itemsOf? : Res K (Ptr K V) → Option (List (K × V))
  | .ok r => some r.items
  | _ => none

/-- The reported key of a failed union, for the examples. -/
def Res.conflict? : Res K (Ptr K V) → Option K
  | .conflict k => some k
  | _ => none

example : (union false ([Ptr.ofMap (OMap.empty.assign 1 1), exampleTower,
    Ptr.ofMap (OMap.empty.assign 1 2)].map some)).itemsOf? =
      some [(0, 1), (1, 2), (2, 21), (5, 51)] := by decide +kernel

/-! ## C03 -/

/-- C03: `disjoint_map_union` succeeds iff no key is bound to two different values. -/
theorem C03_disjoint_succeeds_iff [DecidableEq V] (ms : List (Ptr K V))
    (hnn : ∀ m ∈ ms, m ≠ .null) :
    (∃ r, union true (ms.map some) = .ok r) ↔ Compatible ms := by
  rcases union_spec true ms hnn with ⟨r, h1, _, h3⟩ | ⟨k, h1, _, m, hm, m', hm', v, v', hv, hv', hne⟩
  · exact ⟨fun _ => h3 rfl, fun _ => ⟨r, h1⟩⟩
  · constructor
    · rintro ⟨r, hr⟩
      rw [h1] at hr
      simp at hr
    · intro hc
      exact absurd (hc m hm m' hm' k v v' hv hv') hne

/-- C03: on success the result binds a key to a value iff some map of the list does. -/
theorem C03_disjoint_result [DecidableEq V] (ms : List (Ptr K V)) (hnn : ∀ m ∈ ms, m ≠ .null)
    (r : Ptr K V) (h : union true (ms.map some) = .ok r) (k : K) (v : V) :
    r.find k = some v ↔ ∃ m ∈ ms, m.find k = some v := by
  rcases union_spec true ms hnn with ⟨r', h1, h2, h3⟩ | ⟨k, h1, _⟩
  · rw [h] at h1
    injection h1 with h1
    subst h1
    rw [h2]
    constructor
    · exact lastBinding_some
    · rintro ⟨m, hm, hv⟩
      exact lastBinding_compatible (h3 rfl) hm hv
  · rw [h] at h1
    simp at h1

/-- C03: a reported key is bound to two different values by maps of the list. -/
theorem C03_disjoint_conflict_real [DecidableEq V] (ms : List (Ptr K V))
    (hnn : ∀ m ∈ ms, m ≠ .null) (k : K) (h : union true (ms.map some) = .conflict k) :
    ∃ m ∈ ms, ∃ m' ∈ ms, ∃ v v', m.find k = some v ∧ m'.find k = some v' ∧ v ≠ v' := by
  rcases union_spec true ms hnn with ⟨r, h1, _⟩ | ⟨k', h1, _, h2⟩
  · rw [h] at h1
    simp at h1
  · rw [h] at h1
    injection h1 with h1
    subst h1
    exact h2

/-- C03: permuting the list changes neither success nor the resulting map. -/
theorem C03_disjoint_order_independent [DecidableEq V] (ms ms' : List (Ptr K V))
    (hnn : ∀ m ∈ ms, m ≠ .null) (hp : ms.Perm ms') (r : Ptr K V)
    (h : union true (ms.map some) = .ok r) :
    ∃ r', union true (ms'.map some) = .ok r' ∧ r'.items = r.items := by
  have hnn' : ∀ m ∈ ms', m ≠ .null := fun m hm => hnn m (hp.mem_iff.mpr hm)
  have hc : Compatible ms' := by
    have := (C03_disjoint_succeeds_iff ms hnn).mp ⟨r, h⟩
    intro m hm m' hm' k v v' hv hv'
    exact this m (hp.mem_iff.mpr hm) m' (hp.mem_iff.mpr hm') k v v' hv hv'
  obtain ⟨r', hr'⟩ := (C03_disjoint_succeeds_iff ms' hnn').mpr hc
  refine ⟨r', hr', ?_⟩
  rw [Ptr.items_ext]
  intro k
  apply Option.ext
  intro v
  rw [C03_disjoint_result ms hnn r h, C03_disjoint_result ms' hnn' r' hr']
  simp only [hp.mem_iff]

example : (union true ([Ptr.ofMap (OMap.empty.assign 1 10), exampleTower,
    Ptr.ofMap (OMap.empty.assign 7 2)].map some)).itemsOf? =
      some [(0, 1), (1, 10), (2, 21), (5, 51), (7, 2)] := by decide +kernel

example : (union true ([Ptr.ofMap (OMap.empty.assign 1 10), exampleTower,
    Ptr.ofMap (OMap.empty.assign 5 2)].map some)).conflict? = some 5 := by decide +kernel

/-! ## C04 -/

/-- C04 (prune): requested variables are answered as before, nothing else is bound. -/
theorem C04_prune_get (nul : V) (c : Conf K V) (vars : List K) (k : K) :
    (k ∈ vars → (c.prune nul vars).get nul k = c.get nul k) ∧
    ((c.prune nul vars).variableFixed k = true ↔ k ∈ vars) := by
  constructor
  · intro h
    show ((c.prune nul vars).expr.find k).getD nul = c.get nul k
    rw [Conf.find_prune, if_pos h]
    rfl
  · unfold Conf.variableFixed
    rw [Conf.find_prune]
    split <;> simp_all

/-- C04 (prune): two configurations agreeing on the requested variables prune to the identical
configuration, for any two ways of listing the same variables. -/
theorem C04_prune_canonical (nul : V) (c c' : Conf K V) (vars vars' : List K)
    (hv : ∀ k, k ∈ vars ↔ k ∈ vars') :
    (c.prune nul vars).expr.items = (c'.prune nul vars').expr.items ↔
      ∀ k ∈ vars, c.get nul k = c'.get nul k := by
  rw [Ptr.items_ext]
  simp only [Conf.find_prune]
  constructor
  · intro h k hk
    have := h k
    rw [if_pos hk, if_pos ((hv k).mp hk)] at this
    exact Option.some.inj this
  · intro h k
    by_cases hk : k ∈ vars
    · rw [if_pos hk, if_pos ((hv k).mp hk), h k hk]
    · rw [if_neg hk, if_neg (fun h' => hk ((hv k).mpr h'))]

/-- C04 (prune): pruning twice to nested variable sets is pruning once; in particular pruning is
idempotent. -/
theorem C04_prune_prune (nul : V) (c : Conf K V) (vars vars' : List K)
    (h : ∀ k ∈ vars', k ∈ vars) :
    ((c.prune nul vars).prune nul vars').expr.items = (c.prune nul vars').expr.items := by
  rw [C04_prune_canonical nul _ _ vars' vars' (fun _ => Iff.rfl)]
  intro k hk
  exact (C04_prune_get nul c vars k).1 (h k hk)

/-- C04 (update): an update overrides exactly the variables it binds. -/
theorem C04_update_get (nul : V) (c : Conf K V) (m : OMap K V) (k : K) :
    (c.update m).get nul k = match m.find k with
      | some v => v
      | none => c.get nul k := by
  unfold Conf.update
  split
  · rename_i h
    rw [List.isEmpty_iff] at h
    have : m.find k = none := by unfold OMap.find; rw [h]; rfl
    rw [this]
  · simp only [Conf.get, Ptr.find]
    cases m.find k <;> rfl

/-- C04 (update by an expression). -/
theorem C04_updateExpr_get (nul : V) (c : Conf K V) (m : Ptr K V) (hm : m ≠ .null) (k : K) :
    (c.updateExpr m).get nul k = match m.find k with
      | some v => v
      | none => c.get nul k := by
  unfold Conf.updateExpr
  split
  · rename_i h
    rw [m.isEmpty_iff.mp h k]
  · unfold Conf.get
    rw [Ptr.find_overlay _ _ _ hm]
    cases m.find k <;> rfl

/-- C04 (update of one variable). -/
theorem C04_updateOne_get (nul : V) (c : Conf K V) (x : K) (v : V) (k : K) :
    (c.updateOne x v).get nul k = if k = x then v else c.get nul k := by
  simp only [Conf.updateOne, Conf.get, Ptr.find, OMap.find_emplace, OMap.find_empty]
  by_cases h : k = x <;> simp [h]

/-- C04: pruning after an update that only touches other variables forgets the update. -/
theorem C04_prune_forgets_update (nul : V) (c : Conf K V) (m : OMap K V) (vars : List K)
    (h : ∀ k ∈ vars, m.find k = none) :
    ((c.update m).prune nul vars).expr.items = (c.prune nul vars).expr.items := by
  rw [C04_prune_canonical nul _ _ vars vars (fun _ => Iff.rfl)]
  intro k hk
  rw [C04_update_get, h k hk]

example : ((⟨exampleTower⟩ : Conf Nat Nat).prune 99 [5, 3, 5]).expr.items = [(3, 99), (5, 51)] ∧
    (((⟨exampleTower⟩ : Conf Nat Nat).update (OMap.empty.assign 1 7)).prune 99 [5, 3]).expr.items =
      [(3, 99), (5, 51)] := by decide +kernel

end Verif.LinkedMap
