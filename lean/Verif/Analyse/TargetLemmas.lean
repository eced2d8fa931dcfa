import Verif.Analyse.Target

/-!
# Analysis of targets: lemmas
-/

set_option linter.unusedSectionVars false

namespace Verif.Analyse

open Verif.Path

/-- Two configurations give the same values to all of the variables. -/
def Agree {V : Type} [Inhabited V] (s : Finset Str) (c c' : Cfg V) : Prop := ∀ x ∈ s, get c x = get c' x

section
variable {V : Type} [Inhabited V]

theorem Agree.mono {s t : Finset Str} {c c' : Cfg V} (h : Agree t c c') (hs : s ⊆ t) : Agree s c c' :=
  fun x hx => h x (hs hx)

theorem prune_congr {s : Finset Str} {c c' : Cfg V} (h : Agree s c c') : prune s c = prune s c' := by
  funext x
  by_cases hx : x ∈ s
  · simp [prune, hx, h x hx]
  · simp [prune, hx]

theorem agree_prune {s t : Finset Str} (c : Cfg V) (h : s ⊆ t) : Agree s (prune t c) c := by
  intro x hx
  simp [get, prune, h hx]

theorem agree_symm {s : Finset Str} {c c' : Cfg V} (h : Agree s c c') : Agree s c' c := fun x hx => (h x hx).symm

theorem get_update (c : Cfg V) (t : Trans V) (x : Str) :
    get (update c t) x = match assoc x t with | some v => v | none => get c x := by
  unfold get update
  cases assoc x t <;> rfl

end

/-! ## Errors -/

section
variable {X Y : Type}

theorem bind_ok {a : Except Fault X} {f : X → Except Fault Y} {y : Y} :
    (a >>= f) = .ok y ↔ ∃ x, a = .ok x ∧ f x = .ok y := by
  cases a with
  | error e => simp [bind, Except.bind]
  | ok v => simp [bind, Except.bind]

theorem pure_ok {x y : X} : (pure x : Except Fault X) = .ok y ↔ x = y := by simp [pure, Except.pure]

theorem opt_ok {a : Option X} {x : X} : opt a = .ok x ↔ a = some x := by
  cases a <;> simp [opt]

theorem ite_ok {p : Prop} [Decidable p] {a : Except Fault X} {e : Fault} {x : X} :
    (if p then a else .error e) = .ok x ↔ p ∧ a = .ok x := by
  by_cases h : p <;> simp [h]

theorem mem_unionAll {f : X → Finset Str} {l : List X} {v : Str} : v ∈ unionAll f l ↔ ∃ x ∈ l, v ∈ f x := by
  induction l with
  | nil => simp [unionAll]
  | cons x l ih => simp [unionAll, ih]

theorem mem_emplaceAll {K : Type} [DecidableEq K] {l acc : List (K × X)} {y : K × X}
    (h : y ∈ emplaceAll acc l) : y ∈ acc ∨ y ∈ l := by
  induction l generalizing acc with
  | nil => exact Or.inl h
  | cons x l ih =>
    simp only [emplaceAll] at h
    split at h
    · rcases ih h with h | h
      · exact Or.inl h
      · exact Or.inr (List.mem_cons_of_mem _ h)
    · rcases ih h with h | h
      · rcases List.mem_append.1 h with h | h
        · exact Or.inl h
        · exact Or.inr (by simp at h; simp [h])
      · exact Or.inr (List.mem_cons_of_mem _ h)

theorem acc_emplaceAll {K : Type} [DecidableEq K] {l acc : List (K × X)} {y : K × X}
    (h : y ∈ acc) : y ∈ emplaceAll acc l := by
  induction l generalizing acc with
  | nil => exact h
  | cons x l ih =>
    simp only [emplaceAll]
    split
    · exact ih h
    · exact ih (List.mem_append_left _ h)

/-- Each key has an entry. -/
theorem key_emplaceAll {K : Type} [DecidableEq K] {l acc : List (K × X)} {y : K × X} (h : y ∈ l) :
    ∃ z ∈ emplaceAll acc l, z.1 = y.1 := by
  induction l generalizing acc with
  | nil => cases h
  | cons x l ih =>
    simp only [emplaceAll]
    rcases List.mem_cons.1 h with rfl | h
    · split
      next hm =>
        obtain ⟨z, hz, he⟩ := List.mem_map.1 hm
        exact ⟨z, acc_emplaceAll hz, he⟩
      next =>
        exact ⟨y, acc_emplaceAll (by simp), rfl⟩
    · split
      · exact ih h
      · exact ih h

end

section
variable {E V P : Type} [DecidableEq E] [DecidableEq V] [Inhabited V]

/-! ## Analysing a list of requested targets -/

omit [DecidableEq E] [DecidableEq V] in
theorem analyseAll_cons {rec : E → Cfg V → Except Fault (Analysed E V P)} {c : Cfg V} {k : Dep E V} {ks : List (Dep E V)}
    {deps : List (Dep E V × Analysed E V P)} :
    analyseAll rec c (k :: ks) = .ok deps ↔
      ∃ v ds, rec k.target (k.config c) = .ok v ∧ analyseAll rec c ks = .ok ds ∧ deps = (k, v) :: ds := by
  unfold analyseAll
  rw [List.mapM_cons]
  simp only [bind_ok, pure_ok]
  constructor
  · rintro ⟨x, ⟨v, hv, rfl⟩, ds, hds, rfl⟩
    exact ⟨v, ds, hv, hds, rfl⟩
  · rintro ⟨v, ds, hv, hds, rfl⟩
    exact ⟨_, ⟨v, hv, rfl⟩, ds, hds, rfl⟩

omit [DecidableEq E] [DecidableEq V] in
theorem analyseAll_nil {rec : E → Cfg V → Except Fault (Analysed E V P)} {c : Cfg V}
    {deps : List (Dep E V × Analysed E V P)} : analyseAll rec c [] = .ok deps ↔ deps = [] := by
  show (pure [] : Except Fault _) = .ok deps ↔ deps = []
  rw [pure_ok, eq_comm]

omit [DecidableEq E] [DecidableEq V] in
/-- Exactly the requested targets are analysed, in this order, each in its configuration. -/
theorem analyseAll_spec {rec : E → Cfg V → Except Fault (Analysed E V P)} {c : Cfg V} {ks : List (Dep E V)}
    {deps : List (Dep E V × Analysed E V P)} :
    analyseAll rec c ks = .ok deps ↔
      deps.map Prod.fst = ks ∧ ∀ d ∈ deps, rec d.1.target (d.1.config c) = .ok d.2 := by
  induction ks generalizing deps with
  | nil =>
    rw [analyseAll_nil]
    constructor
    · rintro rfl
      simp
    · rintro ⟨h, -⟩
      exact List.map_eq_nil_iff.1 h
  | cons k ks ih =>
    rw [analyseAll_cons]
    constructor
    · rintro ⟨v, ds, hv, hds, rfl⟩
      obtain ⟨h1, h2⟩ := ih.1 hds
      refine ⟨by simp [h1], ?_⟩
      intro d hd
      rcases List.mem_cons.1 hd with rfl | hd
      · exact hv
      · exact h2 d hd
    · rintro ⟨h1, h2⟩
      cases deps with
      | nil => simp at h1
      | cons d ds =>
        simp only [List.map_cons, List.cons.injEq] at h1
        obtain ⟨rfl, h1⟩ := h1
        exact ⟨d.2, ds, h2 d (by simp), ih.2 ⟨h1, fun d hd => h2 d (List.mem_cons_of_mem _ hd)⟩, rfl⟩

theorem requests_ok {rec : E → Cfg V → Except Fault (Analysed E V P)} {d : Def E V P} {c : Cfg V}
    {deps : List (Dep E V × Analysed E V P)} :
    requests rec d c = .ok deps ↔
      ∃ k1 d1 k2 d2, keysOf d c = .ok k1 ∧ analyseAll rec c k1 = .ok d1 ∧ laterKeysOf d c d1 = .ok k2 ∧
        analyseAll rec c k2 = .ok d2 ∧ deps = d1 ++ d2 := by
  unfold requests
  simp only [bind_ok, pure_ok]
  constructor
  · rintro ⟨k1, h1, d1, h2, k2, h3, d2, h4, h5⟩
    exact ⟨k1, d1, k2, d2, h1, h2, h3, h4, h5.symm⟩
  · rintro ⟨k1, d1, k2, d2, h1, h2, h3, h4, h5⟩
    exact ⟨k1, h1, d1, h2, k2, h3, d2, h4, h5.symm⟩

/-- All results come from analysing what was requested. -/
theorem requests_rec {rec : E → Cfg V → Except Fault (Analysed E V P)} {d : Def E V P} {c : Cfg V}
    {deps : List (Dep E V × Analysed E V P)} (h : requests rec d c = .ok deps) :
    ∀ k ∈ deps, rec k.1.target (k.1.config c) = .ok k.2 := by
  obtain ⟨k1, d1, k2, d2, -, h2, -, h4, rfl⟩ := requests_ok.1 h
  intro k hk
  rcases List.mem_append.1 hk with hk | hk
  · exact (analyseAll_spec.1 h2).2 k hk
  · exact (analyseAll_spec.1 h4).2 k hk

/-! ## Looking deeper does not change results -/

theorem requests_mono {rec rec' : E → Cfg V → Except Fault (Analysed E V P)}
    (hr : ∀ e c r, rec e c = .ok r → rec' e c = .ok r) {d : Def E V P} {c : Cfg V}
    {deps : List (Dep E V × Analysed E V P)} (h : requests rec d c = .ok deps) : requests rec' d c = .ok deps := by
  obtain ⟨k1, d1, k2, d2, h1, h2, h3, h4, h5⟩ := requests_ok.1 h
  refine requests_ok.2 ⟨k1, d1, k2, d2, h1, ?_, h3, ?_, h5⟩
  · exact analyseAll_spec.2 ⟨(analyseAll_spec.1 h2).1, fun d hd => hr _ _ _ ((analyseAll_spec.1 h2).2 d hd)⟩
  · exact analyseAll_spec.2 ⟨(analyseAll_spec.1 h4).1, fun d hd => hr _ _ _ ((analyseAll_spec.1 h4).2 d hd)⟩

theorem analyse_succ {defs : E → Option (Def E V P)} {n : Nat} {e : E} {c : Cfg V} {r : Analysed E V P} :
    analyse defs (n + 1) e c = .ok r ↔
      ∃ d deps, defs e = some d ∧ requests (analyse defs n) d c = .ok deps ∧ resultOf e d c deps = .ok r := by
  rw [analyse]
  cases h : defs e with
  | none => simp
  | some d =>
    simp only [bind_ok]
    constructor
    · rintro ⟨deps, h1, h2⟩
      exact ⟨d, deps, rfl, h1, h2⟩
    · rintro ⟨d', deps, h0, h1, h2⟩
      cases h0
      exact ⟨deps, h1, h2⟩

theorem analyse_mono_succ {defs : E → Option (Def E V P)} {n : Nat} : ∀ {e : E} {c : Cfg V} {r : Analysed E V P},
    analyse defs n e c = .ok r → analyse defs (n + 1) e c = .ok r := by
  induction n with
  | zero =>
    intro e c r h
    simp [analyse] at h
  | succ n ih =>
    intro e c r h
    obtain ⟨d, deps, h0, h1, h2⟩ := analyse_succ.1 h
    exact analyse_succ.2 ⟨d, deps, h0, requests_mono (fun e c r => ih) h1, h2⟩

theorem analyse_mono {defs : E → Option (Def E V P)} {n m : Nat} (hm : n ≤ m) {e : E} {c : Cfg V} {r : Analysed E V P}
    (h : analyse defs n e c = .ok r) : analyse defs m e c = .ok r := by
  induction hm with
  | refl => exact h
  | step _ ih => exact analyse_mono_succ ih

theorem result_unique {defs : E → Option (Def E V P)} {e : E} {c : Cfg V} {r r' : Analysed E V P}
    (h : Result defs e c r) (h' : Result defs e c r') : r = r' := by
  obtain ⟨n, h⟩ := h
  obtain ⟨m, h'⟩ := h'
  have h1 := analyse_mono (Nat.le_max_left n m) h
  have h2 := analyse_mono (Nat.le_max_right n m) h'
  rw [h1] at h2
  cases h2
  rfl

theorem requests_unique {defs : E → Option (Def E V P)} {n m : Nat} {d : Def E V P} {c : Cfg V}
    {deps deps' : List (Dep E V × Analysed E V P)} (h : requests (analyse defs n) d c = .ok deps)
    (h' : requests (analyse defs m) d c = .ok deps') : deps = deps' := by
  have h1 := requests_mono (fun e c r => analyse_mono (Nat.le_max_left n m)) h
  have h2 := requests_mono (fun e c r => analyse_mono (Nat.le_max_right n m)) h'
  rw [h1] at h2
  cases h2
  rfl

/-! ## Variables -/

/-- The variables a target looks at itself. -/
def own : Def E V P → Finset Str
  | .source _ => ∅
  | .sourceTree _ _ => ∅
  | .builtin _ paramVars _ _ _ => paramVars
  | .configure paramVars _ _ _ => paramVars
  | .exported flexible _ _ _ _ _ => flexible
  | .user u => u.paramVars ∪ u.configVars

theorem keysOf_congr {d : Def E V P} {c c' : Cfg V} (h : Agree (own d) c c') : keysOf d c = keysOf d c' := by
  cases d with
  | source => rfl
  | sourceTree => rfl
  | builtin g pv ns t v => simp only [keysOf, builtinKeys, prune_congr (s := pv) h]
  | configure pv ns t v => simp only [keysOf, configureKeys, prune_congr (s := pv) h]
  | exported pv ns t v => simp only [keysOf, exportKeys, prune_congr (s := pv) h]
  | user u =>
    simp only [keysOf, userKeys, prune_congr (h.mono (Finset.subset_union_left (s₂ := u.configVars))),
      prune_congr (h.mono (Finset.subset_union_right (s₁ := u.paramVars)))]

theorem laterKeysOf_congr {d : Def E V P} {c c' : Cfg V} (h : Agree (own d) c c')
    (deps : List (Dep E V × Analysed E V P)) : laterKeysOf d c deps = laterKeysOf d c' deps := by
  cases d with
  | user u =>
    simp only [laterKeysOf, userAnonymous, prune_congr (h.mono (Finset.subset_union_left (s₂ := u.configVars))),
      prune_congr (h.mono (Finset.subset_union_right (s₁ := u.paramVars)))]
  | _ => rfl

theorem userResult_ok {e : E} {u : User E V P} {c : Cfg V} {deps : List (Dep E V × Analysed E V P)}
    {r : Analysed E V P} (h : userResult e u c deps = .ok r) :
    ∃ taint value, u.taint (prune u.paramVars c) = some taint ∧ includesAll (taint ∪ u.ruleTaint) deps = true ∧
      r = ⟨value, userVars u deps, taint ∪ u.ruleTaint, unionAll (fun d => d.2.implied) deps,
      some (e, prune (userVars u deps) c), deps.map fun d => d.2.node⟩ := by
  simp only [userResult, bind_ok, pure_ok, opt_ok, ite_ok] at h
  obtain ⟨params, -, ns, -, an, -, t, ht, hi, value, -, rfl⟩ := h
  exact ⟨t, value, ht, hi, rfl⟩

theorem builtinResult_ok {e : E} {pv : Finset Str} {t : Cfg V → Option (Finset Str)} {v : Cfg V → List (E × P) → Option P}
    {c : Cfg V} {deps : List (Dep E V × Analysed E V P)} {r : Analysed E V P}
    (h : builtinResult e pv t v c deps = .ok r) :
    ∃ taint value, t (prune pv c) = some taint ∧ includesAll taint deps = true ∧
      v (prune pv c) (deps.map fun d => (d.1.target, d.2.value)) = some value ∧
      r = ⟨value, pv ∪ unionAll (fun d => d.2.vars) deps, taint, unionAll (fun d => d.2.implied) deps,
      some (e, prune (pv ∪ unionAll (fun d => d.2.vars) deps) c), deps.map fun d => d.2.node⟩ := by
  simp only [builtinResult, bind_ok, pure_ok, opt_ok, ite_ok] at h
  obtain ⟨t, ht, hi, value, hv, rfl⟩ := h
  exact ⟨t, value, ht, hi, hv, rfl⟩

theorem configureResult_ok {e : E} {pv : Finset Str} {t : Cfg V → Option (Finset Str)}
    {c : Cfg V} {deps : List (Dep E V × Analysed E V P)} {r : Analysed E V P}
    (h : configureResult e pv t c deps = .ok r) :
    ∃ taint k v, deps = [(k, v)] ∧ t (prune pv c) = some taint ∧ includesAll taint deps = true ∧
      r = ⟨v.value, pv ∪ v.vars.filter (fun x => fixed k.trans x = false), taint, v.implied,
        some (e, prune (pv ∪ v.vars.filter fun x => fixed k.trans x = false) c), [v.node]⟩ := by
  cases deps with
  | nil => simp [configureResult] at h
  | cons d l =>
    cases l with
    | cons => simp [configureResult] at h
    | nil =>
      simp only [configureResult, bind_ok, pure_ok, opt_ok, ite_ok] at h
      obtain ⟨t, ht, hi, rfl⟩ := h
      exact ⟨t, d.1, d.2, rfl, ht, hi, rfl⟩

theorem exportResult_ok {e : E} {fl : Finset Str} {key : Cfg V → Option Str} {cached : Cfg V → Option (P × Finset Str)}
    {cacheable : P → Bool} {c : Cfg V} {deps : List (Dep E V × Analysed E V P)} {r : Analysed E V P}
    (h : exportResult e fl key cached cacheable c deps = .ok r) :
    (∃ value implied, cached (prune fl c) = some (value, implied) ∧
      r = ⟨value, fl, ∅, implied, some (e, prune fl c), []⟩) ∨
    (cached (prune fl c) = none ∧ ∃ k v, deps = [(k, v)] ∧ v.tainted = ∅ ∧ cacheable v.value = true ∧
      r = ⟨v.value, fl, ∅, (match key (prune fl c) with | some k => insert k v.implied | none => ∅),
          some (e, prune fl c), [v.node]⟩) := by
  unfold exportResult at h
  cases hc : cached (prune fl c) with
  | some x =>
    rw [hc] at h
    left
    obtain ⟨a, b⟩ := x
    cases h
    exact ⟨a, b, rfl, rfl⟩
  | none =>
    rw [hc] at h
    right
    refine ⟨rfl, ?_⟩
    cases deps with
    | nil => simp at h
    | cons d l =>
      cases l with
      | cons => simp at h
      | nil =>
        simp only [ite_ok, Except.ok.injEq] at h
        obtain ⟨⟨h1, h2⟩, rfl⟩ := h
        exact ⟨d.1, d.2, rfl, h1, h2, rfl⟩

theorem own_subset {e : E} {d : Def E V P} {c : Cfg V} {deps : List (Dep E V × Analysed E V P)} {r : Analysed E V P}
    (h : resultOf e d c deps = .ok r) : own d ⊆ r.vars := by
  cases d with
  | source => simp [own]
  | sourceTree => simp [own]
  | builtin =>
    obtain ⟨_, _, _, _, _, rfl⟩ := builtinResult_ok h
    exact Finset.subset_union_left
  | configure =>
    obtain ⟨_, _, _, _, _, _, rfl⟩ := configureResult_ok h
    exact Finset.subset_union_left
  | exported =>
    rcases exportResult_ok h with ⟨_, _, _, rfl⟩ | ⟨_, _, _, _, _, _, rfl⟩ <;> exact Finset.Subset.refl _
  | user u =>
    obtain ⟨_, _, _, _, rfl⟩ := userResult_ok h
    exact Finset.subset_union_left

theorem resultOf_congr {e : E} {d : Def E V P} {c c' : Cfg V} {deps : List (Dep E V × Analysed E V P)}
    {r : Analysed E V P} (h : resultOf e d c deps = .ok r) (ha : Agree r.vars c c') :
    resultOf e d c' deps = .ok r := by
  have ho := ha.mono (own_subset h)
  rw [← h]
  cases d with
  | source => rfl
  | sourceTree => rfl
  | builtin g pv ns t v =>
    obtain ⟨_, _, _, _, _, rfl⟩ := builtinResult_ok h
    simp only [resultOf, builtinResult, prune_congr (s := pv) ho, prune_congr ha]
  | configure pv ns t v =>
    obtain ⟨_, _, _, rfl, _, _, rfl⟩ := configureResult_ok h
    simp only [resultOf, configureResult, prune_congr (s := pv) ho, prune_congr ha]
  | exported pv ns t v =>
    simp only [resultOf, exportResult, prune_congr (s := pv) ho]
  | user u =>
    obtain ⟨_, _, _, _, rfl⟩ := userResult_ok h
    simp only [resultOf, userResult, prune_congr (ho.mono (Finset.subset_union_left (s₂ := u.configVars))),
      prune_congr (ho.mono (Finset.subset_union_right (s₁ := u.paramVars))), prune_congr ha]

omit [DecidableEq E] [DecidableEq V] in
theorem base_of_fieldDeps {l : List (Str × List (Trans V) × List E)} {k : Dep E V} (h : k ∈ fieldDeps l) :
    k.base = none := by
  induction l with
  | nil => cases h
  | cons x l ih =>
    obtain ⟨f, ts, es⟩ := x
    simp only [fieldDeps, List.mem_append, List.mem_flatMap, List.mem_map] at h
    rcases h with ⟨t, _, e, _, rfl⟩ | h
    · rfl
    · exact ih h

/-- What is requested with a pruned configuration depends only on variables the target looks at itself. -/
theorem base_subset {rec : E → Cfg V → Except Fault (Analysed E V P)} {d : Def E V P} {c : Cfg V}
    {deps : List (Dep E V × Analysed E V P)} (h : requests rec d c = .ok deps) {k : Dep E V × Analysed E V P}
    (hk : k ∈ deps) {s : Finset Str} (hs : k.1.base = some s) : s ⊆ own d := by
  obtain ⟨k1, d1, k2, d2, h1, h2, h3, h4, rfl⟩ := requests_ok.1 h
  have m1 : ∀ k ∈ d1, k.1 ∈ k1 := fun k hk => (analyseAll_spec.1 h2).1 ▸ List.mem_map_of_mem hk
  have m2 : ∀ k ∈ d2, k.1 ∈ k2 := fun k hk => (analyseAll_spec.1 h4).1 ▸ List.mem_map_of_mem hk
  cases d with
  | source =>
    cases h1
    cases h3
    rcases List.mem_append.1 hk with hk | hk
    · cases m1 k hk
    · cases m2 k hk
  | sourceTree es v =>
    cases h1
    cases h3
    rcases List.mem_append.1 hk with hk | hk
    · obtain ⟨x, _, hx⟩ := List.mem_map.1 (m1 k hk)
      rw [← hx] at hs
      cases hs
      simp
    · cases m2 k hk
  | builtin g pv ns t v =>
    cases h3
    rcases List.mem_append.1 hk with hk | hk
    · simp only [keysOf, builtinKeys] at h1
      split at h1
      · cases h1
      · cases h1
      · cases h1
        obtain ⟨x, _, hx⟩ := List.mem_map.1 (m1 k hk)
        rw [← hx] at hs
        cases hs
    · cases m2 k hk
  | configure pv ns t v =>
    cases h3
    rcases List.mem_append.1 hk with hk | hk
    · simp only [keysOf, configureKeys, bind_ok, pure_ok, opt_ok] at h1
      obtain ⟨_, _, _, _, _, _, rfl⟩ := h1
      have := m1 k hk
      simp only [List.mem_singleton] at this
      rw [this] at hs
      cases hs
    · cases m2 k hk
  | exported fl key cached tg fc ca =>
    cases h3
    rcases List.mem_append.1 hk with hk | hk
    · simp only [keysOf, exportKeys] at h1
      split at h1
      · cases h1
        cases m1 k hk
      · split at h1
        · cases h1
        · split at h1
          · cases h1
          · cases h1
            have := m1 k hk
            simp only [List.mem_singleton] at this
            rw [this] at hs
            cases hs
            exact Finset.Subset.refl _
    · cases m2 k hk
  | user u =>
    rcases List.mem_append.1 hk with hk | hk
    · simp only [keysOf, userKeys, bind_ok, pure_ok, opt_ok] at h1
      obtain ⟨_, _, _, _, _, _, _, _, _, _, rfl⟩ := h1
      rcases List.mem_append.1 (m1 k hk) with hm | hm <;>
      · rw [base_of_fieldDeps hm] at hs
        cases hs
    · simp only [laterKeysOf, userAnonymous, bind_ok, pure_ok, opt_ok] at h3
      obtain ⟨_, _, _, _, _, _, rfl⟩ := h3
      rw [base_of_fieldDeps (m2 k hk)] at hs
      cases hs

/-- Variables of a dependency are variables of the target, unless fixed for the dependency. -/
theorem vars_covered {rec : E → Cfg V → Except Fault (Analysed E V P)} {e : E} {d : Def E V P} {c : Cfg V}
    {deps : List (Dep E V × Analysed E V P)} {r : Analysed E V P} (h : requests rec d c = .ok deps)
    (hr : resultOf e d c deps = .ok r) {k : Dep E V × Analysed E V P} (hk : k ∈ deps) (hb : k.1.base = none)
    {x : Str} (hx : x ∈ k.2.vars) (hf : assoc x k.1.trans = none) : x ∈ r.vars := by
  have hf' : fixed k.1.trans x = false := by simp [fixed, hf]
  cases d with
  | source =>
    obtain ⟨k1, d1, k2, d2, h1, h2, h3, h4, rfl⟩ := requests_ok.1 h
    cases h1
    cases h3
    rw [analyseAll_nil] at h2 h4
    subst h2 h4
    cases hk
  | sourceTree es v =>
    obtain ⟨k1, d1, k2, d2, h1, h2, h3, h4, rfl⟩ := requests_ok.1 h
    cases h1
    cases h3
    rw [analyseAll_nil] at h4
    subst h4
    rw [List.append_nil] at hk
    have : k.1 ∈ _ := (analyseAll_spec.1 h2).1 ▸ List.mem_map_of_mem (f := Prod.fst) hk
    obtain ⟨y, _, hy⟩ := List.mem_map.1 this
    rw [← hy] at hb
    cases hb
  | builtin =>
    obtain ⟨_, _, _, _, _, rfl⟩ := builtinResult_ok hr
    exact Finset.mem_union_right _ (mem_unionAll.2 ⟨k, hk, hx⟩)
  | configure =>
    obtain ⟨_, _, _, rfl, _, _, rfl⟩ := configureResult_ok hr
    simp only [List.mem_singleton] at hk
    subst hk
    exact Finset.mem_union_right _ (Finset.mem_filter.2 ⟨hx, hf'⟩)
  | exported fl key cached tg fc ca =>
    obtain ⟨k1, d1, k2, d2, h1, h2, h3, h4, rfl⟩ := requests_ok.1 h
    cases h3
    rw [analyseAll_nil] at h4
    subst h4
    rw [List.append_nil] at hk
    have : k.1 ∈ _ := (analyseAll_spec.1 h2).1 ▸ List.mem_map_of_mem (f := Prod.fst) hk
    simp only [keysOf, exportKeys] at h1
    split at h1
    · cases h1
      cases this
    · split at h1
      · cases h1
      · split at h1
        · cases h1
        · cases h1
          simp only [List.mem_singleton] at this
          rw [this] at hb
          cases hb
  | user u =>
    obtain ⟨_, _, _, _, rfl⟩ := userResult_ok hr
    obtain ⟨z, hz, he⟩ := key_emplaceAll (acc := [])
      (List.mem_map_of_mem (f := fun d : Dep E V × Analysed E V P => ((d.1.target, d.1.trans), d.2)) hk)
    have hz' : z.2 = k.2 := by
      rcases mem_emplaceAll hz with h0 | h0
      · cases h0
      · obtain ⟨k', hk', rfl⟩ := List.mem_map.1 h0
        simp only [Prod.mk.injEq] at he
        have hb' : k'.1.base = none := by
          obtain ⟨k1, d1, k2, d2, h1, h2, h3, h4, rfl⟩ := requests_ok.1 h
          have m1 : ∀ k ∈ d1, k.1 ∈ k1 := fun k hk => (analyseAll_spec.1 h2).1 ▸ List.mem_map_of_mem hk
          have m2 : ∀ k ∈ d2, k.1 ∈ k2 := fun k hk => (analyseAll_spec.1 h4).1 ▸ List.mem_map_of_mem hk
          rcases List.mem_append.1 hk' with hk' | hk'
          · simp only [keysOf, userKeys, bind_ok, pure_ok, opt_ok] at h1
            obtain ⟨_, _, _, _, _, _, _, _, _, _, rfl⟩ := h1
            rcases List.mem_append.1 (m1 k' hk') with hm | hm <;> exact base_of_fieldDeps hm
          · simp only [laterKeysOf, userAnonymous, bind_ok, pure_ok, opt_ok] at h3
            obtain ⟨_, _, _, _, _, _, rfl⟩ := h3
            exact base_of_fieldDeps (m2 k' hk')
        have r1 := requests_rec h k hk
        have r2 := requests_rec h k' hk'
        simp only [Dep.config, hb, hb', he.1, he.2] at r1 r2
        rw [r1] at r2
        exact (Except.ok.inj r2).symm
    refine Finset.mem_union_right _ (mem_unionAll.2 ⟨z, hz, Finset.mem_filter.2 ⟨hz' ▸ hx, ?_⟩⟩)
    rw [he]
    exact hf'

/-- Configurations agreeing on the variables of a target agree, for each dependency, on the variables of it. -/
theorem agree_dep {rec : E → Cfg V → Except Fault (Analysed E V P)} {e : E} {d : Def E V P} {c c' : Cfg V}
    {deps : List (Dep E V × Analysed E V P)} {r : Analysed E V P} (h : requests rec d c = .ok deps)
    (hr : resultOf e d c deps = .ok r) (ha : Agree r.vars c c') {k : Dep E V × Analysed E V P} (hk : k ∈ deps) :
    Agree k.2.vars (k.1.config c) (k.1.config c') := by
  intro x hx
  simp only [Dep.config, get_update]
  cases hf : assoc x k.1.trans with
  | some v => rfl
  | none =>
    cases hb : k.1.base with
    | none => exact ha x (vars_covered h hr hk hb hx hf)
    | some s =>
      have hs := (base_subset h hk hb).trans (own_subset hr)
      show get (prune s c) x = get (prune s c') x
      rw [prune_congr (ha.mono hs)]

/-- The result does not depend on anything but the variables it reports. -/
theorem analyse_local {defs : E → Option (Def E V P)} {n : Nat} : ∀ {e : E} {c c' : Cfg V} {r : Analysed E V P},
    analyse defs n e c = .ok r → Agree r.vars c c' → analyse defs n e c' = .ok r := by
  induction n with
  | zero =>
    intro e c c' r h
    simp [analyse] at h
  | succ n ih =>
    intro e c c' r h ha
    obtain ⟨d, deps, h0, h1, h2⟩ := analyse_succ.1 h
    refine analyse_succ.2 ⟨d, deps, h0, ?_, resultOf_congr h2 ha⟩
    have ho := ha.mono (own_subset h2)
    obtain ⟨k1, d1, k2, d2, g1, g2, g3, g4, rfl⟩ := requests_ok.1 h1
    refine requests_ok.2 ⟨k1, d1, k2, d2, ?_, ?_, ?_, ?_, rfl⟩
    · rw [← keysOf_congr ho, g1]
    · refine analyseAll_spec.2 ⟨(analyseAll_spec.1 g2).1, fun k hk => ?_⟩
      exact ih ((analyseAll_spec.1 g2).2 k hk) (agree_dep h1 h2 ha (List.mem_append_left _ hk))
    · rw [← laterKeysOf_congr ho, g3]
    · refine analyseAll_spec.2 ⟨(analyseAll_spec.1 g4).1, fun k hk => ?_⟩
      exact ih ((analyseAll_spec.1 g4).2 k hk) (agree_dep h1 h2 ha (List.mem_append_right _ hk))

end

end Verif.Analyse
