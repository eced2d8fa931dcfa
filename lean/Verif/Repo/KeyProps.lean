import Verif.Repo.Key

/-!
# Keys of repositories: C49
-/

namespace Verif.Repo

open Verif Verif.Expr

variable {D D₁ D₂ : Str → Option (Content × List (Str × Str))} {canon canon₁ canon₂ : Str → Str}

/-! ## Encoding -/

theorem noNum : Json.NumText (N := Empty) Empty.elim :=
  ⟨(fun x => nomatch x), (fun x => nomatch x), (fun x => nomatch x)⟩

theorem rootJson_inj {r s : Root} (h : r.json = s.json) : r = s := by
  obtain ⟨a, b⟩ := r
  obtain ⟨c, d⟩ := s
  unfold Root.json at h
  injection h with h
  injection h with h1 h2
  injection h1 with h1
  injection h2 with h2
  injection h2 with h2
  have h1 : (if a then "git tree ignore-special".toList else "git tree".toList) =
    (if c then "git tree ignore-special".toList else "git tree".toList) := h1
  have h2 : b = d := h2
  rw [h2]
  cases a <;> cases c <;> first | rfl | (exact absurd h1 (by decide))

theorem fields_inj {c d : Content} (h : c.fields = d.fields) : c = d := by
  obtain ⟨a1, a2, a3, a4, a5, a6, a7⟩ := c
  obtain ⟨b1, b2, b3, b4, b5, b6, b7⟩ := d
  unfold Content.fields at h
  simp only [List.cons.injEq, Prod.mk.injEq, Json.str.injEq, true_and, and_true] at h
  obtain ⟨h7, h4, h6, h3, h5, h2, h1⟩ := h
  rw [h7, rootJson_inj h4, h6, rootJson_inj h3, h5, rootJson_inj h2, rootJson_inj h1]

theorem text_inj {c d : Content} (h : c.text = d.text) : c = d := by
  have := Json.dump_inj noNum Json.compact_ok h
  injection this with this
  exact fields_inj this

theorem bindings_inj : ∀ {a b : List (Str × Str)},
    (a.map fun p => (p.1, (Json.str p.2 : Json Empty))) = (b.map fun p => (p.1, Json.str p.2)) → a = b
  | [], [], _ => rfl
  | [], _ :: _, h => nomatch h
  | _ :: _, [], h => nomatch h
  | (k, v) :: a, (k', v') :: b, h => by
    simp only [List.map_cons, List.cons.injEq, Prod.mk.injEq, Json.str.injEq] at h
    obtain ⟨⟨rfl, rfl⟩, h⟩ := h
    rw [bindings_inj h]

theorem desc_inj {d e : Content × List (Str × Str)} (h : descJson d = descJson e) : d = e := by
  unfold descJson at h
  injection h with h
  injection h with h1 h2
  injection h1 with _ h1
  injection h1 with h1
  exact Prod.ext (fields_inj h2) (bindings_inj h1)

theorem graph_inj : ∀ {a b : List (Str × (Content × List (Str × Str)))},
    (a.map fun p => (p.1, descJson p.2)) = (b.map fun p => (p.1, descJson p.2)) → a = b
  | [], [], _ => rfl
  | [], _ :: _, h => nomatch h
  | _ :: _, [], h => nomatch h
  | (k, v) :: a, (k', v') :: b, h => by
    simp only [List.map_cons, List.cons.injEq, Prod.mk.injEq] at h
    obtain ⟨⟨rfl, h1⟩, h⟩ := h
    rw [graph_inj h, desc_inj h1]

theorem graphText_inj {a b : List (Str × (Content × List (Str × Str)))} (h : graphText a = graphText b) : a = b := by
  have := Json.dump_inj noNum (Json.pretty_ok 2) h
  injection this with this
  exact graph_inj this

/-! ## The graph is a copy of what is reachable -/

/-- `g'` extends `g` by complete descriptions. -/
structure Built (D : Str → Option (Content × List (Str × Str))) (canon : Str → Str) (g g' : Graph) : Prop where
  ids : ∀ u i, assoc u g.ids = some i → assoc u g'.ids = some i
  counter : g.counter ≤ g'.counter
  frame : ∀ m < g.counter, assoc (decimal m) g'.graph = assoc (decimal m) g.graph
  new : ∀ u i, assoc u g'.ids = some i → assoc u g.ids = none →
    ∃ m, g.counter ≤ m ∧ m < g'.counter ∧ i = decimal m ∧ ∃ c bs bs', D u = some (c, bs) ∧
      assoc i g'.graph = some (c, bs') ∧
      List.Forall₂ (fun p q => p.1 = q.1 ∧ assoc (canon p.2) g'.ids = some q.2) bs bs'
  asc : Ascending g'.graph

theorem Built.refl {g : Graph} (ha : Ascending g.graph) : Built D canon g g := by
  refine ⟨fun _ _ h => h, Nat.le_refl _, fun _ _ => rfl, fun u i h h' => ?_, ha⟩
  rw [h] at h'
  exact nomatch h'

theorem Built.trans {g g' g'' : Graph} (h : Built D canon g g') (h' : Built D canon g' g'') : Built D canon g g'' := by
  refine ⟨fun u i hu => h'.ids u i (h.ids u i hu), Nat.le_trans h.counter h'.counter, fun m hm => ?_, fun u i hu hn => ?_,
    h'.asc⟩
  · rw [h'.frame m (Nat.lt_of_lt_of_le hm h.counter), h.frame m hm]
  · cases hu' : assoc u g'.ids with
    | none =>
      obtain ⟨m, h1, h2, h3⟩ := h'.new u i hu hu'
      exact ⟨m, Nat.le_trans h.counter h1, h2, h3⟩
    | some j =>
      have := h'.ids u j hu'
      rw [hu] at this
      injection this with this
      subst this
      obtain ⟨m, h1, h2, h3, c, bs, bs', h4, h5, h6⟩ := h.new u i hu' hn
      refine ⟨m, h1, Nat.lt_of_lt_of_le h2 h'.counter, h3, c, bs, bs', h4, ?_, ?_⟩
      · rw [h3, h'.frame m h2, ← h3]
        exact h5
      · exact h6.imp fun p q hpq => ⟨hpq.1, h'.ids _ _ hpq.2⟩

theorem addBindings_built {add : Str → Graph → Out Str}
    (hadd : ∀ x g i g', Ascending g.graph → add x g = .ok i g' → Built D canon g g' ∧ assoc (canon x) g'.ids = some i) :
    ∀ (bs : List (Str × Str)) (g : Graph) (r : List (Str × Str)) (g' : Graph), Ascending g.graph →
      addBindings add bs g = .ok r g' →
      Built D canon g g' ∧ List.Forall₂ (fun p q => p.1 = q.1 ∧ assoc (canon p.2) g'.ids = some q.2) bs r
  | [], g, r, g', ha, h => by
    rw [addBindings] at h
    injection h with h1 h2
    subst h1 h2
    exact ⟨.refl ha, .nil⟩
  | (l, x) :: t, g, r, g', ha, h => by
    rw [addBindings] at h
    cases hx : add x g with
    | deep => rw [hx] at h; exact nomatch h
    | unfixed => rw [hx] at h; exact nomatch h
    | ok i g1 =>
      rw [hx] at h
      simp only at h
      cases ht : addBindings add t g1 with
      | deep => rw [ht] at h; exact nomatch h
      | unfixed => rw [ht] at h; exact nomatch h
      | ok r' g2 =>
        rw [ht] at h
        injection h with h1 h2
        subst h1 h2
        obtain ⟨b1, i1⟩ := hadd x g i g1 ha hx
        obtain ⟨b2, f2⟩ := addBindings_built hadd t g1 r' g2 b1.asc ht
        exact ⟨b1.trans b2, .cons ⟨rfl, b2.ids _ _ i1⟩ f2⟩

theorem addRepo_built : ∀ (n : Nat) (x : Str) (g : Graph) (i : Str) (g' : Graph), Ascending g.graph →
    addRepo D canon n x g = .ok i g' →
    Built D canon g g' ∧ assoc (canon x) g'.ids = some i
  | n + 1, x, g, i, g', ha, h => by
    rw [addRepo] at h
    cases hi : assoc (canon x) g.ids with
    | some j =>
      rw [hi] at h
      injection h with h1 h2
      subst h1 h2
      exact ⟨.refl ha, hi⟩
    | none =>
      rw [hi] at h
      simp only at h
      cases hd : D (canon x) with
      | none => rw [hd] at h; exact nomatch h
      | some d =>
        obtain ⟨c, bs⟩ := d
        rw [hd] at h
        simp only at h
        cases hb : addBindings (addRepo D canon n) bs
            ⟨g.graph, g.counter + 1, (canon x, decimal g.counter) :: g.ids⟩ with
        | deep => rw [hb] at h; exact nomatch h
        | unfixed => rw [hb] at h; exact nomatch h
        | ok r g2 =>
          rw [hb] at h
          injection h with h1 h2
          subst h1 h2
          obtain ⟨b, f⟩ := addBindings_built (addRepo_built n) bs
            ⟨g.graph, g.counter + 1, (canon x, decimal g.counter) :: g.ids⟩ r g2 ha hb
          have hself : assoc (canon x) g2.ids = some (decimal g.counter) := b.ids _ _ (by simp [assoc])
          refine ⟨⟨fun u j hu => b.ids u j ?_, Nat.le_trans (Nat.le_succ _) b.counter, fun m hm => ?_, fun u j hu hn => ?_,
            OMap.insertList_asc _ _ _ _ b.asc⟩, hself⟩
          · have : u ≠ canon x := fun e => by rw [e, hi] at hu; exact nomatch hu
            simp only [assoc, if_neg this]
            exact hu
          · simp only
            rw [assoc_insertList _ _ _ _ b.asc, if_neg (fun e => by have := decimal_inj e; omega), b.frame m (Nat.lt_succ_of_lt hm)]
          · by_cases hux : u = canon x
            · subst hux
              simp only at hu
              rw [hself] at hu
              injection hu with hu
              subst hu
              refine ⟨g.counter, Nat.le_refl _, b.counter, rfl, c, bs, r, hd, ?_, f⟩
              simp only
              rw [assoc_insertList _ _ _ _ b.asc, if_pos rfl]
              cases assoc (decimal g.counter) g2.graph <;> rfl
            · obtain ⟨m, h1, h2, h3, c', bs', r', h4, h5, h6⟩ := b.new u j hu (by simp only [assoc, if_neg hux]; exact hn)
              refine ⟨m, Nat.le_of_succ_le h1, h2, h3, c', bs', r', h4, ?_, h6⟩
              simp only
              rw [assoc_insertList _ _ _ _ b.asc, if_neg (fun e => ?_)]
              · exact h5
              · have e : j = decimal g.counter := e
                rw [h3] at e
                have := decimal_inj e
                have h1 : g.counter + 1 ≤ m := h1
                omega

/-- Bindings that correspond have corresponding lookups. -/
theorem forall₂_assoc {Q : Str → Str → Prop} (l : Str) : ∀ {bs bs' : List (Str × Str)},
    List.Forall₂ (fun p q => p.1 = q.1 ∧ Q p.2 q.2) bs bs' →
    (assoc l bs = none ∧ assoc l bs' = none) ∨ ∃ x y, assoc l bs = some x ∧ assoc l bs' = some y ∧ Q x y
  | _, _, .nil => .inl ⟨rfl, rfl⟩
  | (k, x) :: bs, (k', y) :: bs', .cons h t => by
    obtain ⟨h1, h2⟩ := h
    have h1 : k = k' := h1
    subst h1
    by_cases hl : l = k
    · exact .inr ⟨x, y, by simp [assoc, hl], by simp [assoc, hl], h2⟩
    · rcases forall₂_assoc (Q := Q) l t with h | h
      · exact .inl (by simpa [assoc, hl] using h)
      · exact .inr (by simpa [assoc, hl] using h)

theorem forall₂_keys {Q : Str → Str → Prop} : ∀ {bs bs' : List (Str × Str)},
    List.Forall₂ (fun p q => p.1 = q.1 ∧ Q p.2 q.2) bs bs' → bs.map Prod.fst = bs'.map Prod.fst
  | _, _, .nil => rfl
  | (k, x) :: bs, (k', y) :: bs', .cons h t => by
    rw [List.map_cons, List.map_cons, h.1, forall₂_keys t]

/-- The graph shows what is reachable. -/
theorem built_obs {g : Graph} (hb : Built D canon ⟨[], 0, []⟩ g) (hc : ∀ a w, obs D w (canon a) = obs D w a) :
    ∀ (w : List Str) (u i : Str), assoc (canon u) g.ids = some i →
      obs D w u = obs (fun i => assoc i g.graph) w i ∧ obs D w u ≠ some .unfixed
  | w, u, i, hu => by
    obtain ⟨m, _, _, _, c, bs, bs', hd, hg, hf⟩ := hb.new _ i hu rfl
    rw [← hc u w]
    cases w with
    | nil =>
      rw [obs, obs, hd]
      simp only
      rw [hg, forall₂_keys (Q := fun x y => assoc (canon x) g.ids = some y) hf]
      exact ⟨rfl, fun h => by injection h with h; exact nomatch h⟩
    | cons l w =>
      rw [obs, obs, hd]
      simp only
      rw [hg]
      simp only
      rcases forall₂_assoc (Q := fun x y => assoc (canon x) g.ids = some y) l hf with ⟨h1, h2⟩ | ⟨x, y, h1, h2, h3⟩
      · rw [h1, h2]
        exact ⟨rfl, fun h => nomatch h⟩
      · rw [h1, h2]
        exact built_obs hb hc w x y h3

/-! ## Failure -/

theorem addBindings_unfixed {add : Str → Graph → Out Str} {Q : Str → Prop}
    (hadd : ∀ x g, add x g = .unfixed → Q x) : ∀ (bs : List (Str × Str)) (g : Graph),
      addBindings add bs g = .unfixed → ∃ p ∈ bs, Q p.2
  | [], _, h => nomatch h
  | (l, x) :: t, g, h => by
    rw [addBindings] at h
    cases hx : add x g with
    | deep => rw [hx] at h; exact nomatch h
    | unfixed => exact ⟨(l, x), by simp, hadd x g hx⟩
    | ok i g1 =>
      rw [hx] at h
      simp only at h
      cases ht : addBindings add t g1 with
      | deep => rw [ht] at h; exact nomatch h
      | unfixed =>
        obtain ⟨p, hp, hq⟩ := addBindings_unfixed hadd t g1 ht
        exact ⟨p, List.mem_cons_of_mem _ hp, hq⟩
      | ok r g2 => rw [ht] at h; exact nomatch h

/-- If it fails something reachable is not content fixed. -/
theorem addRepo_unfixed (hc : ∀ a w, obs D w (canon a) = obs D w a) (ha : ∀ n c bs, D n = some (c, bs) → Ascending bs) :
    ∀ (n : Nat) (x : Str) (g : Graph), addRepo D canon n x g = .unfixed → ∃ w, obs D w x = some .unfixed
  | n + 1, x, g, h => by
    rw [addRepo] at h
    cases hi : assoc (canon x) g.ids with
    | some j => rw [hi] at h; exact nomatch h
    | none =>
      rw [hi] at h
      simp only at h
      cases hd : D (canon x) with
      | none =>
        refine ⟨[], ?_⟩
        rw [← hc, obs, hd]
      | some d =>
        obtain ⟨c, bs⟩ := d
        rw [hd] at h
        simp only at h
        cases hb : addBindings (addRepo D canon n) bs
            ⟨g.graph, g.counter + 1, (canon x, decimal g.counter) :: g.ids⟩ with
        | deep => rw [hb] at h; exact nomatch h
        | ok r g2 => rw [hb] at h; exact nomatch h
        | unfixed =>
          obtain ⟨⟨l, y⟩, hp, w, hw⟩ := addBindings_unfixed (Q := fun x => ∃ w, obs D w x = some .unfixed)
            (addRepo_unfixed hc ha n) bs _ hb
          refine ⟨l :: w, ?_⟩
          rw [← hc, obs, hd]
          simp only
          rw [assoc_of_mem (ha _ _ _ hd) hp]
          exact hw

/-! ## Depth of recursion -/

/-- Names that have no identifier yet. -/
def pending (names : List Str) (g : Graph) : Nat := (names.filter fun n => assoc n g.ids = none).length

theorem pending_le {names : List Str} {g g' : Graph} (h : ∀ u i, assoc u g.ids = some i → assoc u g'.ids = some i) :
    pending names g' ≤ pending names g := by
  unfold pending
  induction names with
  | nil => exact Nat.le_refl _
  | cons x t ih =>
    rw [List.filter_cons, List.filter_cons]
    cases hx : assoc x g.ids with
    | none =>
      rw [if_pos (c := decide (none = none) = true) (by simp)]
      split
      · exact Nat.succ_le_succ ih
      · exact Nat.le_succ_of_le ih
    | some i =>
      rw [h x i hx, if_neg (by simp), if_neg (by simp)]
      exact ih

theorem pending_lt {names : List Str} {g : Graph} {u i : Str} (hu : u ∈ names) (hn : assoc u g.ids = none) (gr c) :
    pending names ⟨gr, c, (u, i) :: g.ids⟩ < pending names g := by
  unfold pending
  induction names with
  | nil => exact nomatch hu
  | cons x t ih =>
    rw [List.filter_cons, List.filter_cons]
    by_cases hx : x = u
    · subst hx
      rw [if_neg (by simp [assoc]), if_pos (by simpa using hn), List.length_cons]
      refine Nat.lt_succ_of_le (pending_le (names := t) (g := g) (g' := ⟨gr, c, (x, i) :: g.ids⟩) fun v j hv => ?_)
      have : v ≠ x := fun e => by rw [e, hn] at hv; exact nomatch hv
      simp only [assoc, if_neg this]
      exact hv
    · have hu' : u ∈ t := by
        rcases List.mem_cons.mp hu with h | h
        · exact absurd h.symm hx
        · exact h
      have e : assoc x ((u, i) :: g.ids) = assoc x g.ids := by simp only [assoc, if_neg hx]
      simp only [e]
      split
      · exact Nat.succ_lt_succ (ih hu')
      · exact ih hu'

theorem addBindings_deep {add : Str → Graph → Out Str} {names : List Str} {n : Nat}
    (hadd : ∀ x g, pending names g < n → Ascending g.graph → add x g ≠ .deep)
    (hb : ∀ x g i g', Ascending g.graph → add x g = .ok i g' → Built D canon g g' ∧ assoc (canon x) g'.ids = some i) :
    ∀ (bs : List (Str × Str)) (g : Graph), pending names g < n → Ascending g.graph → addBindings add bs g ≠ .deep
  | [], _, _, _ => fun h => nomatch h
  | (l, x) :: t, g, hn, ha => by
    intro h
    rw [addBindings] at h
    cases hx : add x g with
    | deep => exact hadd x g hn ha hx
    | unfixed => rw [hx] at h; exact nomatch h
    | ok i g1 =>
      rw [hx] at h
      simp only at h
      have b1 := (hb x g i g1 ha hx).1
      cases ht : addBindings add t g1 with
      | deep => exact addBindings_deep hadd hb t g1 (Nat.lt_of_le_of_lt (pending_le b1.ids) hn) b1.asc ht
      | unfixed => rw [ht] at h; exact nomatch h
      | ok r g2 => rw [ht] at h; exact nomatch h

theorem addRepo_deep {names : List Str} (hD : ∀ n d, D n = some d → n ∈ names) : ∀ (n : Nat) (x : Str) (g : Graph),
    pending names g < n → Ascending g.graph → addRepo D canon n x g ≠ .deep
  | n + 1, x, g, hn, ha => by
    intro h
    rw [addRepo] at h
    cases hi : assoc (canon x) g.ids with
    | some j => rw [hi] at h; exact nomatch h
    | none =>
      rw [hi] at h
      simp only at h
      cases hd : D (canon x) with
      | none => rw [hd] at h; exact nomatch h
      | some d =>
        obtain ⟨c, bs⟩ := d
        rw [hd] at h
        simp only at h
        cases hb : addBindings (addRepo D canon n) bs
            ⟨g.graph, g.counter + 1, (canon x, decimal g.counter) :: g.ids⟩ with
        | unfixed => rw [hb] at h; exact nomatch h
        | ok r g2 => rw [hb] at h; exact nomatch h
        | deep =>
          refine addBindings_deep (D := D) (canon := canon) (names := names) (n := n) (addRepo_deep hD n) (addRepo_built n)
            bs ⟨g.graph, g.counter + 1, (canon x, decimal g.counter) :: g.ids⟩ ?_ ha hb
          exact Nat.lt_of_lt_of_le (pending_lt (hD _ _ hd) hi _ _) (Nat.le_of_lt_succ hn)

/-! ## Equal observations give equal graphs -/

/-- What is used of the representatives: they look the same, and are the same for names that look the same. -/
structure Canon (D : Str → Option (Content × List (Str × Str))) (canon : Str → Str) : Prop where
  same : ∀ a w, obs D w (canon a) = obs D w a
  uniq : ∀ a b, (∀ w, obs D w a ≠ some .unfixed) → (∀ w, obs D w a = obs D w b) → canon a = canon b

/-- Two names look the same and are content fixed. -/
def Alike (D₁ D₂ : Str → Option (Content × List (Str × Str))) (a b : Str) : Prop :=
  (∀ w, obs D₁ w a ≠ some .unfixed) ∧ ∀ w, obs D₁ w a = obs D₂ w b

/-- The states of two computations correspond. -/
structure Match (D₁ D₂ : Str → Option (Content × List (Str × Str))) (canon₁ canon₂ : Str → Str) (g₁ g₂ : Graph) : Prop where
  graph : g₁.graph = g₂.graph
  counter : g₁.counter = g₂.counter
  ids : List.Forall₂ (fun p q => p.2 = q.2 ∧ Alike D₁ D₂ p.1 q.1 ∧ canon₁ p.1 = p.1 ∧ canon₂ q.1 = q.1) g₁.ids g₂.ids

theorem ids_assoc (h1 : Canon D₁ canon₁) (h2 : Canon D₂ canon₂) {a b : Str} (h : Alike D₁ D₂ a b) :
    ∀ {l₁ l₂ : List (Str × Str)},
      List.Forall₂ (fun p q => p.2 = q.2 ∧ Alike D₁ D₂ p.1 q.1 ∧ canon₁ p.1 = p.1 ∧ canon₂ q.1 = q.1) l₁ l₂ →
      assoc (canon₁ a) l₁ = assoc (canon₂ b) l₂
  | _, _, .nil => rfl
  | (k, i) :: l₁, (k', i') :: l₂, .cons ⟨e, hk, c1, c2⟩ t => by
    have e : i = i' := e
    subst e
    have hk : Alike D₁ D₂ k k' := hk
    have c1 : canon₁ k = k := c1
    have c2 : canon₂ k' = k' := c2
    have hiff : canon₁ a = k ↔ canon₂ b = k' := by
      constructor
      · intro e
        rw [← c2]
        refine h2.uniq b k' (fun w => h.2 w ▸ h.1 w) fun w => ?_
        rw [← h.2 w, ← hk.2 w, ← e, h1.same]
      · intro e
        rw [← c1]
        refine h1.uniq a k h.1 fun w => ?_
        rw [h.2 w, hk.2 w, ← e, h2.same]
    rw [assoc, assoc, ids_assoc h1 h2 h t]
    by_cases hk' : canon₁ a = k
    · rw [if_pos hk', if_pos (hiff.mp hk')]
    · rw [if_neg hk', if_neg (fun h' => hk' (hiff.mpr h'))]

theorem Alike.rep (h1 : Canon D₁ canon₁) (h2 : Canon D₂ canon₂) {a b : Str} (h : Alike D₁ D₂ a b) :
    Alike D₁ D₂ (canon₁ a) (canon₂ b) :=
  ⟨fun w => by rw [h1.same]; exact h.1 w, fun w => by rw [h1.same, h2.same]; exact h.2 w⟩

theorem bindings_alike {Q : Str → Str → Prop} : ∀ {bs bs' : List (Str × Str)}, bs.map Prod.fst = bs'.map Prod.fst →
    (∀ l x y, (l, x) ∈ bs → (l, y) ∈ bs' → Q x y) → List.Forall₂ (fun p q => p.1 = q.1 ∧ Q p.2 q.2) bs bs'
  | [], [], _, _ => .nil
  | [], _ :: _, h, _ => nomatch h
  | _ :: _, [], h, _ => nomatch h
  | (k, x) :: bs, (k', y) :: bs', h, hq => by
    rw [List.map_cons, List.map_cons, List.cons.injEq] at h
    have h1 : k = k' := h.1
    subst h1
    exact .cons ⟨rfl, hq k x y (by simp) (by simp)⟩
      (bindings_alike h.2 fun l x y hx hy => hq l x y (List.mem_cons_of_mem _ hx) (List.mem_cons_of_mem _ hy))

theorem addBindings_match {add₁ add₂ : Str → Graph → Out Str}
    (hadd : ∀ a b g₁ g₂ i₁ i₂ g₁' g₂', Alike D₁ D₂ a b → Match D₁ D₂ canon₁ canon₂ g₁ g₂ → add₁ a g₁ = .ok i₁ g₁' →
      add₂ b g₂ = .ok i₂ g₂' → i₁ = i₂ ∧ Match D₁ D₂ canon₁ canon₂ g₁' g₂') :
    ∀ (bs bs' : List (Str × Str)) (g₁ g₂ : Graph) (r₁ r₂ : List (Str × Str)) (g₁' g₂' : Graph),
      List.Forall₂ (fun p q => p.1 = q.1 ∧ Alike D₁ D₂ p.2 q.2) bs bs' → Match D₁ D₂ canon₁ canon₂ g₁ g₂ →
      addBindings add₁ bs g₁ = .ok r₁ g₁' → addBindings add₂ bs' g₂ = .ok r₂ g₂' →
      r₁ = r₂ ∧ Match D₁ D₂ canon₁ canon₂ g₁' g₂'
  | _, _, g₁, g₂, r₁, r₂, g₁', g₂', .nil, hm, h1, h2 => by
    rw [addBindings] at h1 h2
    injection h1 with h1 h1'
    injection h2 with h2 h2'
    subst h1 h1' h2 h2'
    exact ⟨rfl, hm⟩
  | (l, x) :: t, (l', y) :: t', g₁, g₂, r₁, r₂, g₁', g₂', .cons ⟨e, hxy⟩ ht, hm, h1, h2 => by
    have e : l = l' := e
    subst e
    rw [addBindings] at h1 h2
    cases hx : add₁ x g₁ with
    | deep => rw [hx] at h1; exact nomatch h1
    | unfixed => rw [hx] at h1; exact nomatch h1
    | ok i₁ k₁ =>
      cases hy : add₂ y g₂ with
      | deep => rw [hy] at h2; exact nomatch h2
      | unfixed => rw [hy] at h2; exact nomatch h2
      | ok i₂ k₂ =>
        rw [hx] at h1
        rw [hy] at h2
        simp only at h1 h2
        obtain ⟨e, hm'⟩ := hadd x y g₁ g₂ i₁ i₂ k₁ k₂ hxy hm hx hy
        subst e
        cases hx' : addBindings add₁ t k₁ with
        | deep => rw [hx'] at h1; exact nomatch h1
        | unfixed => rw [hx'] at h1; exact nomatch h1
        | ok s₁ m₁ =>
          cases hy' : addBindings add₂ t' k₂ with
          | deep => rw [hy'] at h2; exact nomatch h2
          | unfixed => rw [hy'] at h2; exact nomatch h2
          | ok s₂ m₂ =>
            rw [hx'] at h1
            rw [hy'] at h2
            injection h1 with h1 h1'
            injection h2 with h2 h2'
            subst h1 h1' h2 h2'
            obtain ⟨e, hm''⟩ := addBindings_match hadd t t' k₁ k₂ s₁ s₂ m₁ m₂ ht hm' hx' hy'
            exact ⟨by rw [e], hm''⟩

theorem addRepo_match (h1 : Canon D₁ canon₁) (h2 : Canon D₂ canon₂)
    (ha1 : ∀ n c bs, D₁ n = some (c, bs) → Ascending bs) (ha2 : ∀ n c bs, D₂ n = some (c, bs) → Ascending bs) :
    ∀ (n₁ n₂ : Nat) (a b : Str) (g₁ g₂ : Graph) (i₁ i₂ : Str) (g₁' g₂' : Graph), Alike D₁ D₂ a b →
      Match D₁ D₂ canon₁ canon₂ g₁ g₂ → addRepo D₁ canon₁ n₁ a g₁ = .ok i₁ g₁' → addRepo D₂ canon₂ n₂ b g₂ = .ok i₂ g₂' →
      i₁ = i₂ ∧ Match D₁ D₂ canon₁ canon₂ g₁' g₂'
  | 0, _, _, _, _, _, _, _, _, _, _, _, e, _ => nomatch e
  | _ + 1, 0, _, _, _, _, _, _, _, _, _, _, _, e => nomatch e
  | n₁ + 1, n₂ + 1, a, b, g₁, g₂, i₁, i₂, g₁', g₂', hab, hm, e1, e2 => by
    rw [addRepo] at e1 e2
    have hids := ids_assoc h1 h2 hab hm.ids
    cases hi : assoc (canon₁ a) g₁.ids with
    | some j =>
      rw [hi] at hids e1
      rw [← hids] at e2
      injection e1 with e1 e1'
      injection e2 with e2 e2'
      subst e1 e1' e2 e2'
      exact ⟨rfl, hm⟩
    | none =>
      rw [hi] at hids e1
      rw [← hids] at e2
      simp only at e1 e2
      have hcc := Alike.rep h1 h2 hab
      cases hd1 : D₁ (canon₁ a) with
      | none => rw [hd1] at e1; exact nomatch e1
      | some d1 =>
        cases hd2 : D₂ (canon₂ b) with
        | none => rw [hd2] at e2; exact nomatch e2
        | some d2 =>
          obtain ⟨c1, bs1⟩ := d1
          obtain ⟨c2, bs2⟩ := d2
          rw [hd1] at e1
          rw [hd2] at e2
          simp only at e1 e2
          have hnil := hcc.2 []
          rw [obs, obs, hd1, hd2] at hnil
          injection hnil with hnil
          injection hnil with hc hk
          subst hc
          have hbs : List.Forall₂ (fun p q => p.1 = q.1 ∧ Alike D₁ D₂ p.2 q.2) bs1 bs2 := by
            refine bindings_alike hk fun l x y hx hy => ?_
            have hx := assoc_of_mem (ha1 _ _ _ hd1) hx
            have hy := assoc_of_mem (ha2 _ _ _ hd2) hy
            refine ⟨fun w => ?_, fun w => ?_⟩
            · have := hcc.1 (l :: w)
              rw [obs, hd1] at this
              simp only [hx] at this
              exact this
            · have := hcc.2 (l :: w)
              rw [obs, obs, hd1, hd2] at this
              simp only [hx, hy] at this
              exact this
          have hm1 : Match D₁ D₂ canon₁ canon₂
              ⟨g₁.graph, g₁.counter + 1, (canon₁ a, decimal g₁.counter) :: g₁.ids⟩
              ⟨g₂.graph, g₂.counter + 1, (canon₂ b, decimal g₂.counter) :: g₂.ids⟩ := by
            refine ⟨hm.graph, by simp only [hm.counter], .cons ⟨by simp only [hm.counter], hcc, ?_, ?_⟩ hm.ids⟩
            · exact h1.uniq _ _ hcc.1 (h1.same a)
            · exact h2.uniq _ _ (fun w => hcc.2 w ▸ hcc.1 w) (h2.same b)
          cases hx' : addBindings (addRepo D₁ canon₁ n₁) bs1
              ⟨g₁.graph, g₁.counter + 1, (canon₁ a, decimal g₁.counter) :: g₁.ids⟩ with
          | deep => rw [hx'] at e1; exact nomatch e1
          | unfixed => rw [hx'] at e1; exact nomatch e1
          | ok s₁ m₁ =>
            cases hy' : addBindings (addRepo D₂ canon₂ n₂) bs2
                ⟨g₂.graph, g₂.counter + 1, (canon₂ b, decimal g₂.counter) :: g₂.ids⟩ with
            | deep => rw [hy'] at e2; exact nomatch e2
            | unfixed => rw [hy'] at e2; exact nomatch e2
            | ok s₂ m₂ =>
              rw [hx'] at e1
              rw [hy'] at e2
              injection e1 with e1 e1'
              injection e2 with e2 e2'
              subst e1 e1' e2 e2'
              obtain ⟨e, hm''⟩ := addBindings_match (addRepo_match h1 h2 ha1 ha2 n₁ n₂) bs1 bs2 _ _ s₁ s₂ m₁ m₂ hbs hm1 hx' hy'
              subst e
              refine ⟨by rw [hm.counter], ⟨?_, hm''.counter, hm''.ids⟩⟩
              simp only [hm''.graph, hm.counter]

/-! ## Representatives -/

/-- As `obs`, with the names of what is not fixed. -/
inductive NamedObs
  | fixed (content : Content) (names : List Str)
  | unfixed (name : Str)

def named (D : Str → Option (Content × List (Str × Str))) : List Str → Str → Option NamedObs
  | [], n => match D n with
    | some (c, bs) => some (.fixed c (bs.map Prod.fst))
    | none => some (.unfixed n)
  | l :: w, n => match D n with
    | some (_, bs) => match assoc l bs with
      | some t => named D w t
      | none => none
    | none => none

def NamedObs.forget : NamedObs → RepoObs
  | .fixed c l => .fixed c l
  | .unfixed _ => .unfixed

def NamedObs.state (plain : Str → Str) : NamedObs → Obs
  | .fixed c l => .known (plain c.text) l
  | .unfixed n => .unknown n

theorem obs_named : ∀ (w : List Str) (n : Str), obs D w n = (named D w n).map NamedObs.forget
  | [], n => by
    rw [obs, named]
    cases D n with
    | none => rfl
    | some d => rfl
  | l :: w, n => by
    rw [obs, named]
    cases D n with
    | none => rfl
    | some d =>
      simp only
      cases assoc l d.2 with
      | none => rfl
      | some t => exact obs_named w t

theorem lookup_automaton {plain : Str → Str} : ∀ {C : Config}, (C.map Prod.fst).Nodup → ∀ n : Str,
    lookup (automaton plain C) n = (data C n).map fun d => ⟨n, plain d.1.text, d.2⟩
  | [], _, _ => rfl
  | (k, i) :: C, h, n => by
    rw [List.map_cons, List.nodup_cons] at h
    have ih := lookup_automaton (plain := plain) h.2 n
    unfold automaton data at *
    by_cases hk : n = k
    · subst hk
      have hrest : assoc n C = none := assoc_eq_none_iff.mpr fun v hv => h.1 (List.mem_map.mpr ⟨_, hv, rfl⟩)
      rw [hrest] at ih
      simp only [Option.bind_none, Option.map_none] at ih
      rw [List.filterMap_cons]
      simp only [assoc, if_true, Option.bind_some]
      cases hc : i.content with
      | none => exact ih
      | some c =>
        simp only [Option.map_some]
        unfold lookup
        rw [List.find?_cons_of_pos (by simp)]
    · rw [List.filterMap_cons]
      simp only [assoc, if_neg hk]
      cases hc : i.content with
      | none => exact ih
      | some c =>
        simp only [Option.map_some]
        unfold lookup at *
        rw [List.find?_cons_of_neg (by simpa using fun e => hk e.symm)]
        exact ih

theorem behave_named {plain : Str → Str} {C : Config} (hC : (C.map Prod.fst).Nodup) : ∀ (w : List Str) (n : Str),
    behave (automaton plain C) w n = (named (data C) w n).map (NamedObs.state plain)
  | [], n => by
    rw [behave, named, lookup_automaton hC]
    cases data C n with
    | none => rfl
    | some d => rfl
  | l :: w, n => by
    rw [behave, named, lookup_automaton hC]
    cases data C n with
    | none => rfl
    | some d =>
      simp only [Option.map_some]
      cases assoc l d.2 with
      | none => rfl
      | some t => exact behave_named hC w t

/-- All contents that are seen are those of repositories. -/
theorem named_mem {C : Config} : ∀ {w : List Str} {n : Str} {c : Content} {l : List Str},
    named (data C) w n = some (.fixed c l) → c.text ∈ C.texts
  | [], n, c, l, h => by
    rw [named] at h
    cases hd : data C n with
    | none =>
      rw [hd] at h
      injection h with h
      exact nomatch h
    | some d =>
      rw [hd] at h
      injection h with h
      injection h with h _
      subst h
      unfold data at hd
      cases hi : assoc n C with
      | none => rw [hi] at hd; exact nomatch hd
      | some i =>
        rw [hi] at hd
        simp only [Option.bind_some, Option.map_eq_some_iff] at hd
        obtain ⟨c', hc', rfl⟩ := hd
        exact List.mem_filterMap.mpr ⟨(n, i), assoc_some_mem hi, by simp [hc']⟩
  | s :: w, n, c, l, h => by
    rw [named] at h
    cases hd : data C n with
    | none => rw [hd] at h; exact nomatch h
    | some d =>
      rw [hd] at h
      simp only at h
      cases ht : assoc s d.2 with
      | none => rw [ht] at h; exact nomatch h
      | some t =>
        rw [ht] at h
        exact named_mem h

theorem state_inj {plain : Str → Str} {S : List Str} (hS : NoCollision plain S) {x y : NamedObs}
    (hx : ∀ c l, x = .fixed c l → c.text ∈ S) (hy : ∀ c l, y = .fixed c l → c.text ∈ S)
    (h : x.state plain = y.state plain) : x = y := by
  cases x with
  | fixed c l =>
    cases y with
    | fixed d m =>
      injection h with h1 h2
      rw [h2, text_inj (hS _ (hx c l rfl) _ (hy d m rfl) h1)]
    | unfixed n => exact nomatch h
  | unfixed n =>
    cases y with
    | fixed d m => exact nomatch h
    | unfixed m => injection h with h; rw [h]

theorem automaton_ok {plain : Str → Str} (hp : ∀ s, ∀ c ∈ plain s, c.toNat < 256) {C : Config} (hC : C.OK) :
    (automaton plain C).OK := by
  have hmem : ∀ s ∈ automaton plain C, ∃ p ∈ C, ∃ c, s = ⟨p.1, plain (Content.text c), p.2.nameMapping⟩ := by
    intro s hs
    obtain ⟨p, hp, h⟩ := List.mem_filterMap.mp hs
    obtain ⟨c, _, rfl⟩ := Option.map_eq_some_iff.mp h
    exact ⟨p, hp, c, rfl⟩
  refine ⟨?_, ?_, ?_⟩
  · have : ((automaton plain C).map State.name).Sublist (C.map Prod.fst) := by
      unfold automaton
      clear hmem hC
      induction C with
      | nil => exact .slnil
      | cons p C ih =>
        rw [List.filterMap_cons]
        cases p.2.content with
        | none => exact ih.cons _
        | some c => exact ih.cons_cons _
    exact hC.nodup.sublist this
  · intro s hs
    obtain ⟨p, _, c, rfl⟩ := hmem s hs
    exact hp _
  · intro s hs
    obtain ⟨p, hp', c, rfl⟩ := hmem s hs
    exact hC.asc p hp'

theorem data_asc {C : Config} (hC : C.OK) (n : Str) (c : Content) (bs : List (Str × Str)) (h : data C n = some (c, bs)) :
    Ascending bs := by
  unfold data at h
  cases hi : assoc n C with
  | none => rw [hi] at h; exact nomatch h
  | some i =>
    rw [hi] at h
    simp only [Option.bind_some, Option.map_eq_some_iff] at h
    obtain ⟨c', _, h⟩ := h
    injection h with _ h
    subst h
    exact hC.asc _ (assoc_some_mem hi)

/-- The duplicates found are what is needed. -/
theorem canon_of_bisimulation {plain : Str → Str} (hp : ∀ s, ∀ c ∈ plain s, c.toNat < 256) {C : Config} (hC : C.OK)
    (hn : NoCollision plain C.texts) {P : List (Str × Str)} (hP : P.Perm (createPairs (automaton plain C)))
    {V : List State} (hV : V.Perm (automaton plain C)) {R : List (Str × Str)}
    (hR : computeBisimulation (automaton plain C) P V = some R) : Canon (data C) (representative R) := by
  obtain ⟨R₁, hR₁, h1⟩ := C48_minimal (automaton_ok hp hC) hP hV
  obtain ⟨R₂, hR₂, h2⟩ := C48_representative (automaton_ok hp hC) hP hV
  rw [hR] at hR₁ hR₂
  injection hR₁ with hR₁
  injection hR₂ with hR₂
  subst hR₁ hR₂
  have hnamed : ∀ w a b, behave (automaton plain C) w a = behave (automaton plain C) w b →
      named (data C) w a = named (data C) w b := by
    intro w a b h
    rw [behave_named hC.nodup, behave_named hC.nodup] at h
    cases ha : named (data C) w a with
    | none =>
      rw [ha] at h
      cases hb : named (data C) w b with
      | none => rfl
      | some y => rw [hb] at h; exact nomatch h
    | some x =>
      rw [ha] at h
      cases hb : named (data C) w b with
      | none => rw [hb] at h; exact nomatch h
      | some y =>
        rw [hb] at h
        injection h with h
        rw [state_inj hn (fun c l e => named_mem (e ▸ ha)) (fun c l e => named_mem (e ▸ hb)) h]
  constructor
  · intro a w
    rw [obs_named, obs_named, hnamed w a (representative R a) ((h2 a).1 w)]
  · intro a b hf hs
    refine (h1 a b).mpr fun w => ?_
    rw [behave_named hC.nodup, behave_named hC.nodup]
    have h := hs w
    have hfa := hf w
    have hfb := hf w
    rw [h] at hfb
    rw [obs_named] at h hfa hfb
    rw [obs_named] at h
    cases ha : named (data C) w a with
    | none =>
      rw [ha] at h
      cases hb : named (data C) w b with
      | none => rfl
      | some y => rw [hb] at h; exact nomatch h
    | some x =>
      rw [ha] at h hfa
      cases hb : named (data C) w b with
      | none => rw [hb] at h; exact nomatch h
      | some y =>
        rw [hb] at h hfb
        injection h with h
        cases x with
        | unfixed n => exact absurd rfl hfa
        | fixed c l =>
          cases y with
          | unfixed n => exact absurd rfl hfb
          | fixed d m =>
            injection h with h3 h4
            rw [h3, h4]

/-! ## Properties -/

/-- What is assumed: the configuration is one, hashes are bytes and have no collision among the descriptions of the
repositories, and `R` are the duplicates found by the minimiser, for some order of its traversals. -/
structure Setup (plain : Str → Str) (C : Config) (R : List (Str × Str)) : Prop where
  ok : C.OK
  bytes : ∀ s, ∀ c ∈ plain s, c.toNat < 256
  noCollision : NoCollision plain C.texts
  duplicates : ∃ P V, P.Perm (createPairs (automaton plain C)) ∧ V.Perm (automaton plain C) ∧
    computeBisimulation (automaton plain C) P V = some R

theorem Setup.reps {plain : Str → Str} {C : Config} {R : List (Str × Str)} (h : Setup plain C R) :
    Canon (data C) (representative R) := by
  obtain ⟨P, V, hP, hV, hR⟩ := h.duplicates
  exact canon_of_bisimulation h.bytes h.ok h.noCollision hP hV hR

theorem data_mem {C : Config} {n : Str} {d : Content × List (Str × Str)} (h : data C n = some d) :
    n ∈ C.map Prod.fst ∧ ∃ i, assoc n C = some i := by
  unfold data at h
  cases hi : assoc n C with
  | none => rw [hi] at h; exact nomatch h
  | some i => exact ⟨List.mem_map.mpr ⟨_, assoc_some_mem hi, rfl⟩, i, rfl⟩

/-- **C49.** Building the graph ends: recursion is never deeper than the number of repositories. -/
theorem C49_ends {C : Config} {R : List (Str × Str)} (repo : Str) :
    match buildGraph C R repo with
    | .deep => False
    | _ => True := by
  have := addRepo_deep (D := data C) (canon := representative R) (names := C.map Prod.fst) (fun n d h => (data_mem h).1)
    (C.length + 1) repo ⟨[], 0, []⟩ (by
      unfold pending
      refine Nat.lt_succ_of_le ?_
      rw [← List.length_map (f := Prod.fst) (as := C)]
      exact List.length_filter_le _ _) List.Pairwise.nil
  unfold buildGraph
  split
  · rename_i h
    exact this h
  · trivial

/-- The key and the graph. -/
theorem key_spec {plain : Str → Str} {C : Config} {R : List (Str × Str)} (h : Setup plain C R) (repo : Str) :
    (∃ w, obs (data C) w repo = some .unfixed) ∧ storedText C R repo = none ∨
    ∃ g, addRepo (data C) (representative R) (C.length + 1) (representative R repo) ⟨[], 0, []⟩ = .ok (decimal 0) g ∧
      storedText C R repo = some (graphText g.graph) ∧
      (∀ w, obs (data C) w repo ≠ some .unfixed) ∧
      ∀ w, obs (data C) w repo = obs (fun i => assoc i g.graph) w (decimal 0) := by
  have hc := h.reps
  have hends := C49_ends (C := C) (R := R) (representative R repo)
  unfold storedText
  cases hb : buildGraph C R (representative R repo) with
  | deep => rw [hb] at hends; exact absurd hends id
  | unfixed =>
    left
    obtain ⟨w, hw⟩ := addRepo_unfixed hc.same (data_asc h.ok) _ _ _ hb
    refine ⟨⟨w, by rw [← hc.same]; exact hw⟩, ?_⟩
    cases assoc (representative R repo) C <;> rfl
  | ok i g =>
    right
    obtain ⟨b, hi⟩ := addRepo_built (C.length + 1) (representative R repo) ⟨[], 0, []⟩ i g List.Pairwise.nil hb
    have hi0 : i = decimal 0 := by
      have hb' : addRepo (data C) (representative R) (C.length + 1) (representative R repo) ⟨[], 0, []⟩ = .ok i g := hb
      rw [addRepo] at hb'
      simp only [assoc] at hb'
      cases hd : data C (representative R (representative R repo)) with
      | none => rw [hd] at hb'; exact nomatch hb'
      | some d =>
        rw [hd] at hb'
        simp only at hb'
        split at hb'
        · exact nomatch hb'
        · exact nomatch hb'
        · injection hb' with hb' _
          exact hb'.symm
    subst hi0
    have ho := fun w => built_obs b hc.same w (representative R repo) _ hi
    have hex : ∃ i, assoc (representative R repo) C = some i := by
      have := (ho []).2
      rw [obs] at this
      cases hd : data C (representative R repo) with
      | none => rw [hd] at this; exact absurd rfl this
      | some d => exact (data_mem hd).2
    obtain ⟨inf, hinf⟩ := hex
    refine ⟨g, hb, by rw [hinf], fun w => ?_, fun w => ?_⟩
    · rw [← hc.same]
      exact (ho w).2
    · rw [← hc.same]
      exact (ho w).1

/-- **C49.** A repository has a key if and only if it, and every repository reachable by following local names, is
fixed by its content. -/
theorem C49_exists {plain : Str → Str} {C : Config} {R : List (Str × Str)} (h : Setup plain C R) (blob : Str → Str)
    (repo : Str) : (∃ k, repositoryKey blob C R repo = some k) ↔ ∀ w, obs (data C) w repo ≠ some .unfixed := by
  unfold repositoryKey
  rcases key_spec h repo with ⟨⟨w, hw⟩, hk⟩ | ⟨g, _, hk, hf, _⟩
  · refine ⟨fun ⟨k, hk'⟩ => ?_, fun hf => absurd hw (hf w)⟩
    rw [hk] at hk'
    exact nomatch hk'
  · exact ⟨fun _ => hf, fun _ => ⟨_, by rw [hk]; rfl⟩⟩

/-- **C49.** Two repositories, of the same or of different configurations, that have keys have the same key if and
only if following any list of local names shows the same content and the same local names: global names, the order of
declarations and duplicates do not matter. The two blobs must not collide. -/
theorem C49_key {plain plain' : Str → Str} {C C' : Config} {R R' : List (Str × Str)} (h : Setup plain C R)
    (h' : Setup plain' C' R') {blob : Str → Str} {repo repo' : Str}
    (hb : NoCollision blob ((storedText C R repo).toList ++ (storedText C' R' repo').toList)) {k k' : Str × Nat}
    (hk : repositoryKey blob C R repo = some k) (hk' : repositoryKey blob C' R' repo' = some k') :
    k = k' ↔ ∀ w, obs (data C) w repo = obs (data C') w repo' := by
  unfold repositoryKey at hk hk'
  rcases key_spec h repo with ⟨_, e⟩ | ⟨g, hg, e, hf, ho⟩
  · rw [e] at hk; exact nomatch hk
  rcases key_spec h' repo' with ⟨_, e'⟩ | ⟨g', hg', e', hf', ho'⟩
  · rw [e'] at hk'; exact nomatch hk'
  rw [e] at hk hb
  rw [e'] at hk' hb
  injection hk with hk
  injection hk' with hk'
  subst hk hk'
  constructor
  · intro e w
    injection e with e _
    rw [ho w, ho' w, graphText_inj (hb _ (by simp) _ (by simp) e)]
  · intro hs
    have := (addRepo_match h.reps h'.reps (data_asc h.ok) (data_asc h'.ok) _ _ _ _ _ _ _ _ _ _
      ⟨fun w => by rw [h.reps.same]; exact hf w, fun w => by rw [h.reps.same, h'.reps.same]; exact hs w⟩
      ⟨rfl, rfl, .nil⟩ hg hg').2.graph
    rw [this]

end Verif.Repo
