import Verif.Result.Spec

/-!
# Lemmas on the serialisation of target results
-/

namespace Verif.Result

open Verif.Art Verif.Dig Verif.Expr

variable {N : Type} (h : Hashing N)

/-- The JSON stored for a value. -/
def shape (repl : Repl) : Value N → Option (J N)
  | .map m => some (.obj (m.map fun kv => (kv.1, ref h kv.2)))
  | .list l => some (.arr (l.map (ref h)))
  | .valueNode v => some (valueNodeJson (ref h v))
  | .absNode ty a b => some (absNodeJson ty (ref h a) (ref h b))
  | .result a p r => some (resultJson (ref h a) (ref h p) (ref h r))
  | .art d => serArt repl d
  | v => some (json h true v)

/-- Values that can be serialised faithfully together. -/
structure Family (U : Value N → Prop) : Prop where
  child : ∀ {c u}, Child c u → U u → U c
  inj : ∀ {u v}, U u → U v → identifier h u = identifier h v → u = v

/-- Values are listed according to their kind. -/
structure Marks (s : Tab N) (u : Value N) : Prop where
  arts : kind u = 5 → identifier h u ∈ s.arts
  abs : kind u = 7 → identifier h u ∈ s.abs
  results : kind u = 6 → identifier h u ∈ s.results

/-- What holds for the collected data. -/
structure Inv (repl : Repl) (U : Value N → Prop) (s : Tab N) : Prop where
  asc : Ascending s.nodes
  nodes : ∀ id j, assoc id s.nodes = some j → ∃ u, U u ∧ identifier h u = id ∧ shape h repl u = some j ∧
    Marks h s u ∧ ∀ c, Child c u → s.has (identifier h c) = true
  arts : ∀ id ∈ s.arts, ∃ u, U u ∧ kind u = 5 ∧ identifier h u = id
  abs : ∀ id ∈ s.abs, ∃ u, U u ∧ kind u = 7 ∧ identifier h u = id
  results : ∀ id ∈ s.results, ∃ u, U u ∧ kind u = 6 ∧ identifier h u = id

/-- Data is only added. -/
structure Le (s s' : Tab N) : Prop where
  has : ∀ id, s.has id = true → s'.has id = true
  arts : ∀ id ∈ s.arts, id ∈ s'.arts
  abs : ∀ id ∈ s.abs, id ∈ s'.abs
  results : ∀ id ∈ s.results, id ∈ s'.results

theorem Le.refl (s : Tab N) : Le s s := ⟨fun _ h => h, fun _ h => h, fun _ h => h, fun _ h => h⟩

theorem Le.trans {s s' s'' : Tab N} (a : Le s s') (b : Le s' s'') : Le s s'' :=
  ⟨fun i hi => b.has i (a.has i hi), fun i hi => b.arts i (a.arts i hi),
    fun i hi => b.abs i (a.abs i hi), fun i hi => b.results i (a.results i hi)⟩

variable {h} {repl : Repl} {U : Value N → Prop}

theorem Marks.mono {s s' : Tab N} {u : Value N} (m : Marks h s u) (l : Le s s') : Marks h s' u :=
  ⟨fun k => l.arts _ (m.arts k), fun k => l.abs _ (m.abs k), fun k => l.results _ (m.results k)⟩

theorem assoc_put {s : Tab N} (ha : Ascending s.nodes) (id : Str) (j : J N) (x : Str) :
    assoc x (s.put id j).nodes = if x = id then some j else assoc x s.nodes := by
  unfold Tab.put
  simp only
  rw [assoc_insertList _ _ _ _ ha]
  split
  · split <;> rfl
  · rfl

theorem le_put {s : Tab N} (ha : Ascending s.nodes) (id : Str) (j : J N) : Le s (s.put id j) where
  has := by
    intro x hx
    unfold Tab.has at hx ⊢
    rw [assoc_put ha]
    split
    · rfl
    · exact hx
  arts := fun _ h => h
  abs := fun _ h => h
  results := fun _ h => h

theorem has_put {s : Tab N} (ha : Ascending s.nodes) (id : Str) (j : J N) :
    (s.put id j).has id = true := by
  unfold Tab.has
  rw [assoc_put ha, if_pos rfl]
  rfl

theorem Inv.put {s : Tab N} (i : Inv h repl U s) {u : Value N} (hu : U u) {j : J N}
    (hj : shape h repl u = some j) (hm : Marks h s u)
    (hc : ∀ c, Child c u → s.has (identifier h c) = true) : Inv h repl U (s.put (identifier h u) j) where
  asc := OMap.insertList_asc _ _ _ _ i.asc
  nodes := by
    intro id k hk
    rw [assoc_put i.asc] at hk
    have l := le_put i.asc (identifier h u) j
    split at hk
    · rename_i e
      injection hk with hk
      exact ⟨u, hu, e.symm, hk ▸ hj, hm.mono l, fun c h' => l.has _ (hc c h')⟩
    · obtain ⟨u', a, b, c, d, e⟩ := i.nodes id k hk
      exact ⟨u', a, b, c, d.mono l, fun x h' => l.has _ (e x h')⟩
  arts := i.arts
  abs := i.abs
  results := i.results

theorem Inv.addArt {s : Tab N} (i : Inv h repl U s) {u : Value N} (hu : U u) (hk : kind u = 5) :
    Inv h repl U (s.addArt (identifier h u)) ∧ Le s (s.addArt (identifier h u)) := by
  have l : Le s (s.addArt (identifier h u)) :=
    ⟨fun _ h => h, fun _ h => List.mem_cons_of_mem _ h, fun _ h => h, fun _ h => h⟩
  refine ⟨⟨i.asc, fun id j hj => ?_, ?_, i.abs, i.results⟩, l⟩
  · obtain ⟨u', a, b, c, d, e⟩ := i.nodes id j hj
    exact ⟨u', a, b, c, d.mono l, e⟩
  · intro id hid
    rcases List.mem_cons.mp hid with rfl | hid
    · exact ⟨u, hu, hk, rfl⟩
    · exact i.arts id hid

theorem Inv.addNode {s : Tab N} (i : Inv h repl U s) {u : Value N} (hu : U u) (hk : kind u = 7) :
    Inv h repl U (s.addNode (identifier h u)) ∧ Le s (s.addNode (identifier h u)) := by
  have l : Le s (s.addNode (identifier h u)) :=
    ⟨fun _ h => h, fun _ h => h, fun _ h => List.mem_cons_of_mem _ h, fun _ h => h⟩
  refine ⟨⟨i.asc, fun id j hj => ?_, i.arts, ?_, i.results⟩, l⟩
  · obtain ⟨u', a, b, c, d, e⟩ := i.nodes id j hj
    exact ⟨u', a, b, c, d.mono l, e⟩
  · intro id hid
    rcases List.mem_cons.mp hid with rfl | hid
    · exact ⟨u, hu, hk, rfl⟩
    · exact i.abs id hid

theorem Inv.addResult {s : Tab N} (i : Inv h repl U s) {u : Value N} (hu : U u) (hk : kind u = 6) :
    Inv h repl U (s.addResult (identifier h u)) ∧ Le s (s.addResult (identifier h u)) := by
  have l : Le s (s.addResult (identifier h u)) :=
    ⟨fun _ h => h, fun _ h => h, fun _ h => h, fun _ h => List.mem_cons_of_mem _ h⟩
  refine ⟨⟨i.asc, fun id j hj => ?_, i.arts, i.abs, ?_⟩, l⟩
  · obtain ⟨u', a, b, c, d, e⟩ := i.nodes id j hj
    exact ⟨u', a, b, c, d.mono l, e⟩
  · intro id hid
    rcases List.mem_cons.mp hid with rfl | hid
    · exact ⟨u, hu, hk, rfl⟩
    · exact i.results id hid

/-- The last step of serialising a value. -/
theorem finish {s s' : Tab N} (i : Inv h repl U s') (l : Le s s') {u : Value N} (hu : U u) {j : J N}
    (hj : shape h repl u = some j) (hm : Marks h s' u)
    (hc : ∀ c, Child c u → s'.has (identifier h c) = true) :
    Inv h repl U (s'.put (identifier h u) j) ∧ Le s (s'.put (identifier h u) j) ∧
      (s'.put (identifier h u) j).has (identifier h u) = true :=
  ⟨i.put hu hj hm hc, l.trans (le_put i.asc _ _), has_put i.asc _ _⟩

theorem marks_none {s : Tab N} {u : Value N} (h5 : kind u ≠ 5) (h6 : kind u ≠ 6) (h7 : kind u ≠ 7) :
    Marks h s u := ⟨fun k => absurd k h5, fun k => absurd k h7, fun k => absurd k h6⟩

theorem serList_inv (h : Hashing N) {s' : Tab N} (l : List (Value N)) : ∀ (s : Tab N),
    (∀ v ∈ l, ∀ s s', Inv h repl U s → ser h repl v s = some s' →
      Inv h repl U s' ∧ Le s s' ∧ s'.has (identifier h v) = true) →
    Inv h repl U s → serList h repl l s = some s' →
    Inv h repl U s' ∧ Le s s' ∧ ∀ v ∈ l, s'.has (identifier h v) = true := by
  induction l with
  | nil =>
    intro s _ i e
    unfold serList at e
    injection e with e
    subst e
    exact ⟨i, .refl _, by simp⟩
  | cons v t ih =>
    intro s hv i e
    unfold serList at e
    obtain ⟨s1, e1, e2⟩ := Option.bind_eq_some_iff.mp e
    obtain ⟨i1, l1, m1⟩ := hv v (by simp) s s1 i e1
    obtain ⟨i2, l2, m2⟩ := ih s1 (fun v h' => hv v (by simp [h'])) i1 e2
    refine ⟨i2, l1.trans l2, fun w hw => ?_⟩
    rcases List.mem_cons.mp hw with rfl | hw
    · exact l2.has _ m1
    · exact m2 w hw

theorem serItems_inv (h : Hashing N) {s' : Tab N} (l : List (Str × Value N)) : ∀ (s : Tab N),
    (∀ kv ∈ l, ∀ s s', Inv h repl U s → ser h repl kv.2 s = some s' →
      Inv h repl U s' ∧ Le s s' ∧ s'.has (identifier h kv.2) = true) →
    Inv h repl U s → serItems h repl l s = some s' →
    Inv h repl U s' ∧ Le s s' ∧ ∀ kv ∈ l, s'.has (identifier h kv.2) = true := by
  induction l with
  | nil =>
    intro s _ i e
    unfold serItems at e
    injection e with e
    subst e
    exact ⟨i, .refl _, by simp⟩
  | cons kv t ih =>
    obtain ⟨k, v⟩ := kv
    intro s hv i e
    unfold serItems at e
    obtain ⟨s1, e1, e2⟩ := Option.bind_eq_some_iff.mp e
    obtain ⟨i1, l1, m1⟩ := hv (k, v) (by simp) s s1 i e1
    obtain ⟨i2, l2, m2⟩ := ih s1 (fun v h' => hv v (by simp [h'])) i1 e2
    refine ⟨i2, l1.trans l2, fun w hw => ?_⟩
    rcases List.mem_cons.mp hw with rfl | hw
    · exact l2.has _ m1
    · exact m2 w hw

theorem ser_inv (h : Hashing N) (hU : Family h U) (n : Nat) : ∀ v : Value N, sizeOf v ≤ n → U v →
    ∀ s s', Inv h repl U s → ser h repl v s = some s' →
      Inv h repl U s' ∧ Le s s' ∧ s'.has (identifier h v) = true := by
  induction n with
  | zero => intro v hv; cases v <;> simp at hv
  | succ n ih =>
    intro v hv uv s s' i e
    by_cases hh : s.has (identifier h v) = true
    · unfold ser at e
      rw [if_pos hh] at e
      injection e with e
      subst e
      exact ⟨i, .refl _, hh⟩
    cases v with
    | map m =>
      unfold ser at e
      rw [if_neg hh] at e
      simp only [Val.map.sizeOf_spec] at hv
      obtain ⟨s1, e1, e2⟩ := Option.bind_eq_some_iff.mp e
      injection e2 with e2
      subst e2
      obtain ⟨i1, l1, m1⟩ := serItems_inv h m s (fun kv hkv => ih kv.2 (by
        have h1 := List.sizeOf_lt_of_mem hkv
        obtain ⟨k, v⟩ := kv
        simp only [Prod.mk.sizeOf_spec] at h1
        simp only
        omega) (hU.child (.value (k := kv.1) (by simpa using hkv)) uv)) i e1
      exact finish i1 l1 uv rfl (marks_none (by simp [kind]) (by simp [kind]) (by simp [kind]))
        (fun c hc => by cases hc with | value hm => exact m1 _ hm)
    | list l =>
      unfold ser at e
      rw [if_neg hh] at e
      simp only [Val.list.sizeOf_spec] at hv
      obtain ⟨s1, e1, e2⟩ := Option.bind_eq_some_iff.mp e
      injection e2 with e2
      subst e2
      obtain ⟨i1, l1, m1⟩ := serList_inv h l s (fun v hv' => ih v (by
        have h1 := List.sizeOf_lt_of_mem hv'
        omega) (hU.child (.entry hv') uv)) i e1
      exact finish i1 l1 uv rfl (marks_none (by simp [kind]) (by simp [kind]) (by simp [kind]))
        (fun c hc => by cases hc with | entry hm => exact m1 _ hm)
    | valueNode w =>
      unfold ser at e
      rw [if_neg hh] at e
      simp only [Val.valueNode.sizeOf_spec] at hv
      obtain ⟨s1, e1, e2⟩ := Option.bind_eq_some_iff.mp e
      injection e2 with e2
      subst e2
      obtain ⟨i0, l0⟩ := i.addNode uv rfl
      obtain ⟨i1, l1, m1⟩ := ih w (by omega) (hU.child (.node w) uv) _ _ i0 e1
      exact finish i1 (l0.trans l1) uv rfl
        ⟨fun k => by simp [kind] at k, fun _ => l1.abs _ (by simp [Tab.addNode]),
          fun k => by simp [kind] at k⟩
        (fun c hc => by cases hc with | node => exact m1)
    | absNode ty a b =>
      unfold ser at e
      rw [if_neg hh] at e
      simp only [Val.absNode.sizeOf_spec] at hv
      obtain ⟨s1, e1, e⟩ := Option.bind_eq_some_iff.mp e
      obtain ⟨s2, e2, e⟩ := Option.bind_eq_some_iff.mp e
      injection e with e
      subst e
      obtain ⟨i0, l0⟩ := i.addNode uv rfl
      obtain ⟨i1, l1, m1⟩ := ih a (by omega) (hU.child (.strings ty a b) uv) _ _ i0 e1
      obtain ⟨i2, l2, m2⟩ := ih b (by omega) (hU.child (.targets ty a b) uv) _ _ i1 e2
      exact finish i2 (l0.trans (l1.trans l2)) uv rfl
        ⟨fun k => by simp [kind] at k, fun _ => l2.abs _ (l1.abs _ (by simp [Tab.addNode])),
          fun k => by simp [kind] at k⟩
        (fun c hc => by cases hc with | strings => exact l2.has _ m1 | targets => exact m2)
    | result a p r =>
      unfold ser at e
      rw [if_neg hh] at e
      simp only [Val.result.sizeOf_spec] at hv
      obtain ⟨s1, e1, e⟩ := Option.bind_eq_some_iff.mp e
      obtain ⟨s2, e2, e⟩ := Option.bind_eq_some_iff.mp e
      obtain ⟨s3, e3, e⟩ := Option.bind_eq_some_iff.mp e
      injection e with e
      subst e
      obtain ⟨i0, l0⟩ := i.addResult uv rfl
      obtain ⟨i1, l1, m1⟩ := ih a (by omega) (hU.child (.stage a p r) uv) _ _ i0 e1
      obtain ⟨i2, l2, m2⟩ := ih r (by omega) (hU.child (.runfiles a p r) uv) _ _ i1 e2
      obtain ⟨i3, l3, m3⟩ := ih p (by omega) (hU.child (.provides a p r) uv) _ _ i2 e3
      exact finish i3 (l0.trans (l1.trans (l2.trans l3))) uv rfl
        ⟨fun k => by simp [kind] at k, fun k => by simp [kind] at k,
          fun _ => l3.results _ (l2.results _ (l1.results _ (by simp [Tab.addResult])))⟩
        (fun c hc => by
          cases hc with
          | stage => exact l3.has _ (l2.has _ m1)
          | runfiles => exact l3.has _ m2
          | provides => exact m3)
    | art d =>
      unfold ser at e
      rw [if_neg hh] at e
      obtain ⟨j, e1, e⟩ := Option.bind_eq_some_iff.mp e
      injection e with e
      subst e
      obtain ⟨i0, l0⟩ := i.addArt uv rfl
      exact finish i0 l0 uv e1
        ⟨fun _ => by simp [Tab.addArt], fun k => by simp [kind] at k, fun k => by simp [kind] at k⟩
        (fun c hc => by cases hc)
    | _ =>
      unfold ser at e
      rw [if_neg hh] at e
      injection e with e
      subst e
      exact finish i (.refl _) uv rfl (marks_none (by simp [kind]) (by simp [kind]) (by simp [kind]))
        (fun c hc => by cases hc)

/-! ## Reading -/

/-- What holds for the values read so far. -/
def Good (h : Hashing N) (repl : Repl) (U : Value N → Prop) (f : Sofar N) : Prop :=
  ∀ id v, assoc id f = some v → ∃ u, U u ∧ identifier h u = id ∧ v = mapArt (stored repl) u

theorem Good.cons {f : Sofar N} (g : Good h repl U f) {u : Value N} (hu : U u) :
    Good h repl U ((identifier h u, mapArt (stored repl) u) :: f) := by
  intro id v e
  simp only [assoc] at e
  split at e
  · rename_i he
    injection e with e
    exact ⟨u, hu, he.symm, e.symm⟩
  · exact g id v e

theorem serArt_fromJson {t : HashType} (hr : ReplOK t repl) {d : Desc} (hd : d.Valid t) {j : J N}
    (e : serArt repl d = some j) (cast : N → Nat) : Desc.fromJson t cast j = some (stored repl d) := by
  unfold serArt at e
  unfold stored
  by_cases h1 : repl.isEmpty = true
  · rw [if_pos h1] at e
    injection e with e
    rw [if_neg (by simp [h1]), ← e]
    exact C62_round_trip t cast d hd
  rw [if_neg h1] at e
  by_cases h2 : d.isKnown = true
  · rw [if_pos h2] at e
    injection e with e
    rw [if_neg (by simp [h2]), ← e]
    exact C62_round_trip t cast d hd
  rw [if_neg h2] at e
  obtain ⟨i, e1, e⟩ := Option.bind_eq_some_iff.mp e
  injection e with e
  rw [if_pos ⟨by simpa using h1, by simpa using h2⟩, e1, ← e]
  have hv : (Desc.known i.digest i.type none).Valid t := by
    clear * - e1 hr
    induction repl with
    | nil => cases e1
    | cons x r ih =>
      obtain ⟨d', i'⟩ := x
      simp only [replacement] at e1
      split at e1
      · injection e1 with e1
        subst e1
        exact hr d' i' (by simp)
      · exact ih (fun d i hm => hr d i (by simp [hm])) e1
  exact C62_round_trip t cast _ hv

theorem str?_ref (v : Value N) : str? (ref h v) = .ok (identifier h v) := rfl

theorem deList_spec {D : J N → Sofar N → Out (Value N × Sofar N)} (l : List (Value N)) : ∀ f,
    (∀ v ∈ l, ∀ f, Good h repl U f → ∃ f', D (ref h v) f = .ok (mapArt (stored repl) v, f') ∧
      Good h repl U f') → Good h repl U f →
    ∃ f', deList D (l.map (ref h)) f = .ok (mapArtList (stored repl) l, f') ∧ Good h repl U f' := by
  induction l with
  | nil => intro f _ g; exact ⟨f, rfl, g⟩
  | cons v t ih =>
    intro f hv g
    obtain ⟨f1, e1, g1⟩ := hv v (by simp) f g
    obtain ⟨f2, e2, g2⟩ := ih f1 (fun w hw => hv w (by simp [hw])) g1
    refine ⟨f2, ?_, g2⟩
    have e1' : D (.str (identifier h v)) f = .ok (mapArt (stored repl) v, f1) := e1
    simp only [List.map_cons, deList, str?_ref, Out.bind, e1', e2, mapArtList]

theorem deItems_spec {D : J N → Sofar N → Out (Value N × Sofar N)} (l : List (Str × Value N)) : ∀ f,
    (∀ kv ∈ l, ∀ f, Good h repl U f → ∃ f', D (ref h kv.2) f = .ok (mapArt (stored repl) kv.2, f') ∧
      Good h repl U f') → Good h repl U f →
    ∃ f', deItems D (l.map fun kv => (kv.1, ref h kv.2)) f = .ok (mapArtItems (stored repl) l, f') ∧
      Good h repl U f' := by
  induction l with
  | nil => intro f _ g; exact ⟨f, rfl, g⟩
  | cons kv t ih =>
    obtain ⟨k, v⟩ := kv
    intro f hv g
    obtain ⟨f1, e1, g1⟩ := hv (k, v) (by simp) f g
    obtain ⟨f2, e2, g2⟩ := ih f1 (fun w hw => hv w (by simp [hw])) g1
    refine ⟨f2, ?_, g2⟩
    have e1' : D (.str (identifier h v)) f = .ok (mapArt (stored repl) v, f1) := e1
    simp only [List.map_cons, deItems, str?_ref, Out.bind, e1', e2, mapArtItems]

/-- Parameters of reading that correspond to collected data. -/
structure Matches (S : Src N) (s : Tab N) : Prop where
  nodes : S.nodes = .obj s.nodes
  arts : ∀ id, id ∈ S.arts ↔ id ∈ s.arts
  abs : ∀ id, id ∈ S.abs ↔ id ∈ s.abs
  results : ∀ id, id ∈ S.results ↔ id ∈ s.results

theorem Inv.entry (hU : Family h U) {s : Tab N} (i : Inv h repl U s) {u : Value N} (hu : U u)
    (hs : s.has (identifier h u) = true) : ∃ j, assoc (identifier h u) s.nodes = some j ∧
      shape h repl u = some j ∧ Marks h s u ∧ ∀ c, Child c u → s.has (identifier h c) = true := by
  unfold Tab.has at hs
  obtain ⟨j, hj⟩ := Option.isSome_iff_exists.mp hs
  obtain ⟨u', a, b, c, d, e⟩ := i.nodes _ j hj
  have : u' = u := hU.inj a hu b
  subst this
  exact ⟨j, hj, c, d, e⟩

theorem mem_iff_kind {L : List Str} {k : Nat} (hU : Family h U)
    (hL : ∀ id ∈ L, ∃ u, U u ∧ kind u = k ∧ identifier h u = id) {u : Value N} (hu : U u)
    (hk : kind u ≠ k) : identifier h u ∉ L := fun hm => by
  obtain ⟨u', a, b, c⟩ := hL _ hm
  exact hk (hU.inj a hu c ▸ b)

theorem de_spec (hU : Family h U) {s : Tab N} (i : Inv h repl U s) {S : Src N} (hS : Matches S s)
    (hr : ReplOK S.type repl) (hd : ∀ d, U (.art d) → d.Valid S.type) (hname : ∀ e, ¬ U (.name e))
    (n : Nat) : ∀ u : Value N, sizeOf u ≤ n → U u → s.has (identifier h u) = true → ∀ f,
      Good h repl U f → ∃ f', de S n (ref h u) f = .ok (mapArt (stored repl) u, f') ∧
        Good h repl U f' := by
  induction n with
  | zero => intro u hu; cases u <;> simp at hu
  | succ n ih =>
    intro u hn uu hs f g
    simp only [de, str?_ref, Out.bind]
    cases hf : assoc (identifier h u) f with
    | some v =>
      obtain ⟨u', a, b, c⟩ := g _ _ hf
      have := hU.inj a uu b
      subst this
      exact ⟨f, by rw [c], g⟩
    | none =>
      obtain ⟨j, e1, e2, e3, e4⟩ := i.entry hU uu hs
      have en : node? S.nodes (identifier h u) = .ok j := by
        rw [hS.nodes]
        simp only [node?, e1]
      simp only [en]
      have step : ∀ c, Child c u → sizeOf c ≤ n → ∀ f, Good h repl U f →
          ∃ f', de S n (ref h c) f = .ok (mapArt (stored repl) c, f') ∧ Good h repl U f' :=
        fun c hc hs f g => ih c hs (hU.child hc uu) (e4 c hc) f g
      have noArt : kind u ≠ 5 → identifier h u ∉ S.arts := fun hk hm =>
        mem_iff_kind hU i.arts uu hk ((hS.arts _).mp hm)
      have noAbs : kind u ≠ 7 → identifier h u ∉ S.abs := fun hk hm =>
        mem_iff_kind hU i.abs uu hk ((hS.abs _).mp hm)
      have noRes : kind u ≠ 6 → identifier h u ∉ S.results := fun hk hm =>
        mem_iff_kind hU i.results uu hk ((hS.results _).mp hm)
      cases u with
      | name e => exact absurd uu (hname e)
      | art d =>
        have ha : identifier h (.art d) ∈ S.arts := (hS.arts _).mpr (e3.arts rfl)
        have ej := serArt_fromJson hr (hd d uu) e2 S.casts.toNat
        obtain ⟨m, rfl⟩ : ∃ m, j = .obj m := by
          have hx : ∀ x, (extractStr j "type").bind x = some (stored repl d) → ∃ m, j = .obj m := by
            intro x hx
            cases j with
            | obj m => exact ⟨m, rfl⟩
            | _ => exact nomatch hx
          exact hx _ ej
        refine ⟨_, ?_, g.cons uu⟩
        simp only [if_pos ha, deArt, ej, mapArt]
      | map m =>
        simp only [shape] at e2
        injection e2 with e2
        subst e2
        simp only [Val.map.sizeOf_spec] at hn
        simp only [if_neg (noArt (by simp [kind])), if_neg (noAbs (by simp [kind])),
          if_neg (noRes (by simp [kind]))]
        obtain ⟨f', ef, gf⟩ := deItems_spec (D := de S n) m f (fun kv hkv => step kv.2
          (.value (k := kv.1) (by simpa using hkv)) (by
            have h1 := List.sizeOf_lt_of_mem hkv
            obtain ⟨k, v⟩ := kv
            simp only [Prod.mk.sizeOf_spec] at h1
            simp only
            omega)) g
        refine ⟨_, ?_, gf.cons uu⟩
        simp only [ef, mapArt]
      | list l =>
        simp only [shape] at e2
        injection e2 with e2
        subst e2
        simp only [Val.list.sizeOf_spec] at hn
        obtain ⟨f', ef, gf⟩ := deList_spec (D := de S n) l f (fun v hv => step v (.entry hv) (by
            have h1 := List.sizeOf_lt_of_mem hv
            omega)) g
        refine ⟨_, ?_, gf.cons uu⟩
        simp only [ef, mapArt]
      | valueNode w =>
        simp only [shape] at e2
        injection e2 with e2
        subst e2
        simp only [Val.valueNode.sizeOf_spec] at hn
        obtain ⟨f', ef, gf⟩ := step w (.node w) (by omega) f g
        refine ⟨_, ?_, gf.cons uu⟩
        have hm : identifier h (.valueNode w) ∈ S.abs := (hS.abs _).mpr (e3.abs rfl)
        simp only [valueNodeJson, if_neg (noArt (by simp [kind])), if_pos hm]
        have a1 : at? (valueNodeJson (ref h w)) "type" = .ok (.str "VALUE_NODE".toList) := rfl
        have a2 : at? (valueNodeJson (ref h w)) "result" = .ok (ref h w) := rfl
        have : deNode (de S n) (identifier h (.valueNode w)) (valueNodeJson (ref h w)) f =
            .ok (mapArt (stored repl) (.valueNode w),
              (identifier h (.valueNode w), mapArt (stored repl) (.valueNode w)) :: f') := by
          unfold deNode
          rw [a1]
          simp only [Out.bind]
          rw [if_neg (by decide), if_pos trivial, a2]
          simp only [ef, Out.inNode, mapArt]
        exact this
      | absNode ty a b =>
        simp only [shape] at e2
        injection e2 with e2
        subst e2
        simp only [Val.absNode.sizeOf_spec] at hn
        obtain ⟨f1, ef1, gf1⟩ := step b (.targets ty a b) (by omega) f g
        obtain ⟨f2, ef2, gf2⟩ := step a (.strings ty a b) (by omega) f1 gf1
        refine ⟨_, ?_, gf2.cons uu⟩
        have hm : identifier h (.absNode ty a b) ∈ S.abs := (hS.abs _).mpr (e3.abs rfl)
        simp only [absNodeJson, if_neg (noArt (by simp [kind])), if_pos hm]
        have a1 : at? (absNodeJson ty (ref h a) (ref h b)) "type" = .ok (.str "ABSTRACT_NODE".toList) := rfl
        have a2 : at? (absNodeJson ty (ref h a) (ref h b)) "node_type" = .ok (.str ty) := rfl
        have a3 : at? (absNodeJson ty (ref h a) (ref h b)) "target_fields" = .ok (ref h b) := rfl
        have a4 : at? (absNodeJson ty (ref h a) (ref h b)) "string_fields" = .ok (ref h a) := rfl
        have : deNode (de S n) (identifier h (.absNode ty a b)) (absNodeJson ty (ref h a) (ref h b)) f =
            .ok (mapArt (stored repl) (.absNode ty a b),
              (identifier h (.absNode ty a b), mapArt (stored repl) (.absNode ty a b)) :: f2) := by
          unfold deNode
          rw [a1]
          simp only [Out.bind]
          rw [if_pos trivial, a2, a3, a4]
          simp only [str?, ef1, ef2, Out.inNode, mapArt]
        exact this
      | result a p r =>
        simp only [shape] at e2
        injection e2 with e2
        subst e2
        simp only [Val.result.sizeOf_spec] at hn
        obtain ⟨f1, ef1, gf1⟩ := step a (.stage a p r) (by omega) f g
        obtain ⟨f2, ef2, gf2⟩ := step r (.runfiles a p r) (by omega) f1 gf1
        obtain ⟨f3, ef3, gf3⟩ := step p (.provides a p r) (by omega) f2 gf2
        refine ⟨f3, ?_, gf3⟩
        have hm : identifier h (.result a p r) ∈ S.results := (hS.results _).mpr (e3.results rfl)
        simp only [resultJson, if_neg (noArt (by simp [kind])), if_neg (noAbs (by simp [kind])), if_pos hm]
        have a1 : at? (resultJson (ref h a) (ref h p) (ref h r)) "artifact_stage" = .ok (ref h a) := rfl
        have a2 : at? (resultJson (ref h a) (ref h p) (ref h r)) "runfiles" = .ok (ref h r) := rfl
        have a3 : at? (resultJson (ref h a) (ref h p) (ref h r)) "provides" = .ok (ref h p) := rfl
        have : deResult (de S n) (resultJson (ref h a) (ref h p) (ref h r)) f =
            .ok (mapArt (stored repl) (.result a p r), f3) := by
          unfold deResult
          rw [a1]
          simp only [Out.bind, ef1]
          rw [a2]
          simp only [ef2]
          rw [a3]
          simp only [ef3, mapArt]
        exact this
      | _ =>
        simp only [shape, json] at e2
        injection e2 with e2
        subst e2
        exact ⟨_, rfl, g.cons uu⟩

end Verif.Result
