import Verif.Analyse.TargetLemmas
import Mathlib.Logic.Relation

/-!
# C55, C56: effective configurations, taint, implied export targets
-/

set_option linter.unusedSectionVars false

namespace Verif.Analyse

open Verif.Path

section
variable {E V P : Type} [DecidableEq E] [DecidableEq V] [Inhabited V]

/-! ## C55 -/

/-- The analysis of a target is the same under all configurations giving the same values to the variables it
reports. -/
theorem C55_same {defs : E → Option (Def E V P)} {e : E} {c c' : Cfg V} {r : Analysed E V P}
    (h : Result defs e c r) (ha : ∀ x ∈ r.vars, (c x).getD default = (c' x).getD default) : Result defs e c' r := by
  obtain ⟨n, h⟩ := h
  exact ⟨n, analyse_local h ha⟩

/-- In particular, it is the result for the configuration with nothing but these variables. -/
theorem C55_effective {defs : E → Option (Def E V P)} {e : E} {c : Cfg V} {r : Analysed E V P}
    (h : Result defs e c r) : Result defs e (fun x => if x ∈ r.vars then some ((c x).getD default) else none) r := by
  refine C55_same h fun x hx => ?_
  simp [hx]

theorem node_eq {defs : E → Option (Def E V P)} {e : E} {c : Cfg V} {r : Analysed E V P}
    (h : Result defs e c r) : r.node = none ∨ r.node = some (e, prune r.vars c) := by
  obtain ⟨n, h⟩ := h
  cases n with
  | zero => simp [analyse] at h
  | succ n =>
    obtain ⟨d, deps, h0, h1, h2⟩ := analyse_succ.1 h
    cases d with
    | source => cases h2; exact Or.inl rfl
    | sourceTree es v =>
      simp only [resultOf, bind_ok, pure_ok] at h2
      obtain ⟨_, _, rfl⟩ := h2
      exact Or.inl rfl
    | builtin =>
      obtain ⟨_, _, _, _, _, rfl⟩ := builtinResult_ok h2
      exact Or.inr rfl
    | configure =>
      obtain ⟨_, _, _, _, _, _, rfl⟩ := configureResult_ok h2
      exact Or.inr rfl
    | exported =>
      rcases exportResult_ok h2 with ⟨_, _, _, rfl⟩ | ⟨_, _, _, _, _, _, rfl⟩ <;> exact Or.inr rfl
    | user u =>
      obtain ⟨_, _, _, _, rfl⟩ := userResult_ok h2
      exact Or.inr rfl

theorem prune_inj {s s' : Finset Str} {c c' : Cfg V} (h : prune s c = prune s' c') : s = s' ∧ Agree s c c' := by
  have hs : s = s' := by
    ext x
    have := congrFun h x
    unfold prune at this
    by_cases h1 : x ∈ s <;> by_cases h2 : x ∈ s' <;> simp_all
  subst hs
  refine ⟨rfl, fun x hx => ?_⟩
  have := congrFun h x
  simpa [prune, hx] using this

/-- The target together with its effective configuration, under which results are stored, determines the
result: whichever configurations lead to the same configured target, the results are the same. -/
theorem C55_configured {defs : E → Option (Def E V P)} {e e' : E} {c c' : Cfg V} {r r' : Analysed E V P}
    {x : E × Cfg V} (h : Result defs e c r) (h' : Result defs e' c' r') (hx : r.node = some x) (hx' : r'.node = some x) :
    r = r' := by
  rcases node_eq h with h0 | h0
  · rw [h0] at hx
    cases hx
  rcases node_eq h' with h1 | h1
  · rw [h1] at hx'
    cases hx'
  rw [h0] at hx
  rw [h1] at hx'
  have := Option.some.inj (hx.trans hx'.symm)
  simp only [Prod.mk.injEq] at this
  obtain ⟨rfl, hp⟩ := this
  obtain ⟨hv, ha⟩ := prune_inj hp
  exact result_unique (C55_same h ha) h'

/-- For a user-defined rule: the variables reported are those named by the target and the rule, and those reported by some
dependency under a transition not fixing them; a variable fixed for one dependency still counts if another dependency depends
on it. -/
theorem C55_vars_user {defs : E → Option (Def E V P)} {n : Nat} {e : E} {u : User E V P} {c : Cfg V}
    {deps : List (Dep E V × Analysed E V P)} {r : Analysed E V P} (hd : defs e = some (.user u))
    (hq : requests (analyse defs n) (.user u) c = .ok deps) (h : Result defs e c r) (x : Str) :
    x ∈ r.vars ↔ x ∈ u.paramVars ∨ x ∈ u.configVars ∨ ∃ k ∈ deps, x ∈ k.2.vars ∧ assoc x k.1.trans = none := by
  obtain ⟨m, h⟩ := h
  cases m with
  | zero => simp [analyse] at h
  | succ m =>
    obtain ⟨d, deps', h0, h1, h2⟩ := analyse_succ.1 h
    rw [hd] at h0
    cases h0
    obtain rfl := requests_unique hq h1
    have hb : ∀ k ∈ deps, k.1.base = none := by
      intro k hk
      obtain ⟨k1, d1, k2, d2, g1, g2, g3, g4, rfl⟩ := requests_ok.1 h1
      have m1 : ∀ k ∈ d1, k.1 ∈ k1 := fun k hk => (analyseAll_spec.1 g2).1 ▸ List.mem_map_of_mem hk
      have m2 : ∀ k ∈ d2, k.1 ∈ k2 := fun k hk => (analyseAll_spec.1 g4).1 ▸ List.mem_map_of_mem hk
      rcases List.mem_append.1 hk with hk | hk
      · simp only [keysOf, userKeys, bind_ok, pure_ok, opt_ok] at g1
        obtain ⟨_, _, _, _, _, _, _, _, _, _, rfl⟩ := g1
        rcases List.mem_append.1 (m1 k hk) with hm | hm <;> exact base_of_fieldDeps hm
      · simp only [laterKeysOf, userAnonymous, bind_ok, pure_ok, opt_ok] at g3
        obtain ⟨_, _, _, _, _, _, rfl⟩ := g3
        exact base_of_fieldDeps (m2 k hk)
    constructor
    · intro hx
      obtain ⟨_, _, _, _, rfl⟩ := userResult_ok h2
      simp only [userVars, Finset.mem_union, mem_unionAll, Finset.mem_filter] at hx
      rcases hx with (hx | hx) | ⟨z, hz, hx, hf⟩
      · exact Or.inl hx
      · exact Or.inr (Or.inl hx)
      · rcases mem_emplaceAll hz with h0 | h0
        · cases h0
        · obtain ⟨k, hk, rfl⟩ := List.mem_map.1 h0
          refine Or.inr (Or.inr ⟨k, hk, hx, ?_⟩)
          simpa [fixed] using hf
    · rintro (hx | hx | ⟨k, hk, hx, hf⟩)
      · exact own_subset h2 (Finset.mem_union_left _ hx)
      · exact own_subset h2 (Finset.mem_union_right _ hx)
      · exact vars_covered h1 h2 hk (hb k hk) hx hf

/-- What a dependency sees: the variables fixed by the transition have the values given there, all others the values they
have for the target requesting it; the transitions of other dependencies do not matter. -/
theorem C55_transition {defs : E → Option (Def E V P)} {n : Nat} {u : User E V P} {c : Cfg V}
    {deps : List (Dep E V × Analysed E V P)} (hq : requests (analyse defs n) (.user u) c = .ok deps)
    {k : Dep E V × Analysed E V P} (hk : k ∈ deps) :
    Result defs k.1.target
      (fun x => match assoc x k.1.trans with | some v => some v | none => c x) k.2 := by
  have hb : k.1.base = none := by
    obtain ⟨k1, d1, k2, d2, h1, h2, h3, h4, rfl⟩ := requests_ok.1 hq
    have m1 : ∀ k ∈ d1, k.1 ∈ k1 := fun k hk => (analyseAll_spec.1 h2).1 ▸ List.mem_map_of_mem hk
    have m2 : ∀ k ∈ d2, k.1 ∈ k2 := fun k hk => (analyseAll_spec.1 h4).1 ▸ List.mem_map_of_mem hk
    rcases List.mem_append.1 hk with hk | hk
    · simp only [keysOf, userKeys, bind_ok, pure_ok, opt_ok] at h1
      obtain ⟨_, _, _, _, _, _, _, _, _, _, rfl⟩ := h1
      rcases List.mem_append.1 (m1 k hk) with hm | hm <;> exact base_of_fieldDeps hm
    · simp only [laterKeysOf, userAnonymous, bind_ok, pure_ok, opt_ok] at h3
      obtain ⟨_, _, _, _, _, _, rfl⟩ := h3
      exact base_of_fieldDeps (m2 k hk)
  refine ⟨n, ?_⟩
  have := requests_rec hq k hk
  simp only [Dep.config, hb] at this
  exact this

/-- For `configure`: the target is analysed with the evaluated configuration fixed, and the variables fixed are not reported. -/
theorem C55_configure {defs : E → Option (Def E V P)} {e : E} {pv : Finset Str} {tg : Cfg V → Option E}
    {t : Cfg V → Option (Finset Str)} {cf : Cfg V → Option (Trans V)} {c : Cfg V} {r : Analysed E V P}
    (hd : defs e = some (.configure pv tg t cf)) (h : Result defs e c r) :
    ∃ e' tr v, tg (prune pv c) = some e' ∧ cf (prune pv c) = some tr ∧
      Result defs e' (fun x => match assoc x tr with | some v => some v | none => c x) v ∧ r.value = v.value ∧
      ∀ x, x ∈ r.vars ↔ x ∈ pv ∨ (x ∈ v.vars ∧ assoc x tr = none) := by
  obtain ⟨m, h⟩ := h
  cases m with
  | zero => simp [analyse] at h
  | succ m =>
    obtain ⟨d, deps, h0, h1, h2⟩ := analyse_succ.1 h
    rw [hd] at h0
    cases h0
    obtain ⟨_, k, v, rfl, _, _, rfl⟩ := configureResult_ok h2
    have hv := requests_rec h1 (k, v) (by simp)
    obtain ⟨k1, d1, k2, d2, g1, g2, g3, g4, g5⟩ := requests_ok.1 h1
    cases g3
    rw [analyseAll_nil] at g4
    subst g4
    rw [List.append_nil] at g5
    subst g5
    have gm := (analyseAll_spec.1 g2).1
    simp only [keysOf, configureKeys, bind_ok, pure_ok, opt_ok] at g1
    obtain ⟨e', he, _, _, tr, htr, rfl⟩ := g1
    simp only [List.map_cons, List.map_nil, List.cons.injEq, and_true] at gm
    subst gm
    refine ⟨e', tr, v, he, htr, ⟨m, hv⟩, rfl, fun x => ?_⟩
    simp [fixed]

/-- For `export`: the variables reported are the flexible ones, and whatever a variable that is not flexible is set to does not
matter. -/
theorem C55_export {defs : E → Option (Def E V P)} {e : E} {fl : Finset Str} {key : Cfg V → Option Str}
    {cached : Cfg V → Option (P × Finset Str)} {tg : Option E} {fc : Trans V} {ca : P → Bool} {c c' : Cfg V}
    {r : Analysed E V P} (hd : defs e = some (.exported fl key cached tg fc ca)) (h : Result defs e c r)
    (ha : ∀ x ∈ fl, c x = c' x) : r.vars = fl ∧ Result defs e c' r := by
  have hv : r.vars = fl := by
    obtain ⟨m, h⟩ := h
    cases m with
    | zero => simp [analyse] at h
    | succ m =>
      obtain ⟨d, deps, h0, h1, h2⟩ := analyse_succ.1 h
      rw [hd] at h0
      cases h0
      rcases exportResult_ok h2 with ⟨_, _, _, rfl⟩ | ⟨_, _, _, _, _, _, rfl⟩ <;> rfl
  refine ⟨hv, C55_same h fun x hx => ?_⟩
  rw [ha x (hv ▸ hx)]

/-! ## C56: taint -/

/-- Files, links and trees of sources. -/
def IsSource : Def E V P → Prop
  | .source _ => True
  | .sourceTree _ _ => True
  | _ => False

/-- Source trees are made of sources (target_map.cpp:1776-1790). -/
def SourceEntries (defs : E → Option (Def E V P)) : Prop :=
  ∀ e es v, defs e = some (.sourceTree es v) → ∀ x ∈ es, ∀ d, defs x = some d → IsSource d

theorem source_plain {defs : E → Option (Def E V P)} {n : Nat} {e : E} {c : Cfg V} {r : Analysed E V P}
    {d : Def E V P} (hd : defs e = some d) (hs : IsSource d) (h : analyse defs n e c = .ok r) :
    r.tainted = ∅ ∧ r.implied = ∅ := by
  cases n with
  | zero => simp [analyse] at h
  | succ n =>
    obtain ⟨d', deps, h0, h1, h2⟩ := analyse_succ.1 h
    rw [hd] at h0
    cases h0
    cases d with
    | source => cases h2; exact ⟨rfl, rfl⟩
    | sourceTree =>
      simp only [resultOf, bind_ok, pure_ok] at h2
      obtain ⟨_, _, rfl⟩ := h2
      exact ⟨rfl, rfl⟩
    | _ => exact hs.elim

theorem includesAll_mem {t : Finset Str} {deps : List (Dep E V × Analysed E V P)} (h : includesAll t deps = true)
    {k : Dep E V × Analysed E V P} (hk : k ∈ deps) : k.2.tainted ⊆ t := by
  unfold includesAll at h
  simpa using List.all_eq_true.1 h k hk

/-- Entries of a source tree are analysed as such. -/
theorem sourceTree_deps {defs : E → Option (Def E V P)} (hw : SourceEntries defs) {n : Nat} {e : E} {c : Cfg V}
    {es : List E} {v : List P → Option P} (hd : defs e = some (.sourceTree es v))
    {deps : List (Dep E V × Analysed E V P)} (hq : requests (analyse defs n) (.sourceTree es v) c = .ok deps)
    {k : Dep E V × Analysed E V P} (hk : k ∈ deps) : k.2.tainted = ∅ ∧ k.2.implied = ∅ := by
  have hv := requests_rec hq k hk
  obtain ⟨k1, d1, k2, d2, g1, g2, g3, g4, rfl⟩ := requests_ok.1 hq
  cases g1
  cases g3
  rw [analyseAll_nil] at g4
  subst g4
  rw [List.append_nil] at hk
  have hm : k.1 ∈ _ := (analyseAll_spec.1 g2).1 ▸ List.mem_map_of_mem (f := Prod.fst) hk
  obtain ⟨x, hx, hx'⟩ := List.mem_map.1 hm
  cases n with
  | zero => simp [analyse] at hv
  | succ n =>
    obtain ⟨d', _, h0, _, _⟩ := analyse_succ.1 hv
    have ht : k.1.target = x := by rw [← hx']
    rw [ht] at h0 hv
    exact source_plain h0 (hw e es v hd x hx d' h0) hv

theorem taint_step {defs : E → Option (Def E V P)} (hw : SourceEntries defs) {x y : E × Cfg V} {r : Analysed E V P}
    (h : Result defs x.1 x.2 r) (hq : Requests defs x y) : ∃ r', Result defs y.1 y.2 r' ∧ r'.tainted ⊆ r.tainted := by
  obtain ⟨n, h⟩ := h
  cases n with
  | zero => simp [analyse] at h
  | succ n =>
    obtain ⟨d, deps, h0, h1, h2⟩ := analyse_succ.1 h
    obtain ⟨d', m, deps', h0', h1', k, hk, rfl⟩ := hq
    rw [h0] at h0'
    cases h0'
    obtain rfl := requests_unique h1 h1'
    refine ⟨k.2, ⟨n, requests_rec h1 k hk⟩, ?_⟩
    cases d with
    | source =>
      obtain ⟨k1, d1, k2, d2, g1, g2, g3, g4, rfl⟩ := requests_ok.1 h1
      cases g1
      cases g3
      rw [analyseAll_nil] at g2 g4
      subst g2 g4
      cases hk
    | sourceTree es v =>
      rw [(sourceTree_deps hw h0 h1 hk).1]
      exact Finset.empty_subset _
    | builtin =>
      obtain ⟨_, _, _, hi, _, rfl⟩ := builtinResult_ok h2
      exact includesAll_mem hi hk
    | configure =>
      obtain ⟨_, _, _, _, _, hi, rfl⟩ := configureResult_ok h2
      exact includesAll_mem hi hk
    | exported fl key cached tg fc ca =>
      rcases exportResult_ok h2 with ⟨_, _, hc, rfl⟩ | ⟨_, _, _, rfl, ht, _, rfl⟩
      · obtain ⟨k1, d1, k2, d2, g1, g2, g3, g4, rfl⟩ := requests_ok.1 h1
        simp only [keysOf, exportKeys, hc] at g1
        cases g1
        cases g3
        rw [analyseAll_nil] at g2 g4
        subst g2 g4
        cases hk
      · simp only [List.mem_singleton] at hk
        subst hk
        simp [ht]
    | user u =>
      obtain ⟨_, _, _, hi, rfl⟩ := userResult_ok h2
      exact includesAll_mem hi hk

/-- If a target can be analysed, then so can all targets its analysis asks for, directly or not, in the configurations asked
for, and its taint includes all of theirs; anonymous targets are no exception. -/
theorem C56_taint {defs : E → Option (Def E V P)} (hw : SourceEntries defs) {x y : E × Cfg V} {r : Analysed E V P}
    (h : Result defs x.1 x.2 r) (hr : Relation.ReflTransGen (Requests defs) x y) :
    ∃ r', Result defs y.1 y.2 r' ∧ r'.tainted ⊆ r.tainted := by
  induction hr with
  | refl => exact ⟨r, h, Finset.Subset.refl _⟩
  | tail _ hq ih =>
    obtain ⟨r', h', hs⟩ := ih
    obtain ⟨r'', h'', hs'⟩ := taint_step hw h' hq
    exact ⟨r'', h'', hs'.trans hs⟩

/-- The taint of a target is its own (of the target and, for user-defined rules, of the rule); nothing is inherited: a target
with a dependency tainted otherwise is an error. -/
theorem C56_taint_own {defs : E → Option (Def E V P)} {e : E} {u : User E V P} {c : Cfg V} {r : Analysed E V P}
    (hd : defs e = some (.user u)) (h : Result defs e c r) :
    ∃ t, u.taint (prune u.paramVars c) = some t ∧ r.tainted = t ∪ u.ruleTaint := by
  obtain ⟨n, h⟩ := h
  cases n with
  | zero => simp [analyse] at h
  | succ n =>
    obtain ⟨d, deps, h0, h1, h2⟩ := analyse_succ.1 h
    rw [hd] at h0
    cases h0
    obtain ⟨t, _, ht, _, rfl⟩ := userResult_ok h2
    exact ⟨t, ht, rfl⟩

/-- An export target is untainted, and so is everything its analysis asks for. -/
theorem C56_exported {defs : E → Option (Def E V P)} (hw : SourceEntries defs) {x y : E × Cfg V} {fl : Finset Str}
    {key : Cfg V → Option Str} {cached : Cfg V → Option (P × Finset Str)} {tg : Option E} {fc : Trans V} {ca : P → Bool}
    {r : Analysed E V P} (hd : defs x.1 = some (.exported fl key cached tg fc ca)) (h : Result defs x.1 x.2 r)
    (hr : Relation.ReflTransGen (Requests defs) x y) : ∃ r', Result defs y.1 y.2 r' ∧ r'.tainted = ∅ := by
  have ht : r.tainted = ∅ := by
    obtain ⟨n, h⟩ := h
    cases n with
    | zero => simp [analyse] at h
    | succ n =>
      obtain ⟨d, deps, h0, h1, h2⟩ := analyse_succ.1 h
      rw [hd] at h0
      cases h0
      rcases exportResult_ok h2 with ⟨_, _, hc, rfl⟩ | ⟨_, _, _, rfl, ht, _, rfl⟩ <;> rfl
  obtain ⟨r', h', hs⟩ := C56_taint hw h hr
  rw [ht] at hs
  exact ⟨r', h', Finset.subset_empty.1 hs⟩

/-! ## C69: no undefined behaviour -/

theorem opt_defined {X : Type} (a : Option X) : opt a ≠ .error .undefined := by
  cases a <;> simp [opt]

theorem bind_defined {X Y : Type} {a : Except Fault X} {f : X → Except Fault Y} (h : a ≠ .error .undefined)
    (hf : ∀ x, f x ≠ .error .undefined) : (a >>= f) ≠ .error .undefined := by
  cases a with
  | error e => simpa [bind, Except.bind] using h
  | ok v => exact hf v

theorem ite_defined {X : Type} {p : Prop} [Decidable p] {a b : Except Fault X} (h : a ≠ .error .undefined)
    (h' : b ≠ .error .undefined) : (if p then a else b) ≠ .error .undefined := by
  by_cases hp : p <;> simpa [hp]

theorem pure_defined {X : Type} (x : X) : (pure x : Except Fault X) ≠ .error .undefined := by simp [pure, Except.pure]

theorem failed_defined {X : Type} : (.error .failed : Except Fault X) ≠ .error .undefined := by simp

theorem keysOf_defined {d : Def E V P} {c : Cfg V}
    (h : ∀ pv ns t v, d = .builtin true pv ns t v → ns (prune pv c) ≠ .fails) : keysOf d c ≠ .error .undefined := by
  cases d with
  | source => simp [keysOf]
  | sourceTree => simp [keysOf]
  | builtin g pv ns t v =>
    simp only [keysOf, builtinKeys]
    cases hn : ns (prune pv c) with
    | fails =>
      cases g with
      | false => simp
      | true => exact (h pv ns t v rfl hn).elim
    | invalid => simp
    | targets l => simp
  | configure =>
    exact bind_defined (opt_defined _) fun _ => bind_defined (opt_defined _) fun _ => bind_defined (opt_defined _) fun _ =>
      pure_defined _
  | exported fl key cached tg fc ca =>
    simp only [keysOf, exportKeys]
    split
    · simp
    · refine ite_defined failed_defined ?_
      split <;> simp
  | user u =>
    exact bind_defined (opt_defined _) fun _ => bind_defined (opt_defined _) fun _ => bind_defined (opt_defined _) fun _ =>
      bind_defined (opt_defined _) fun _ => bind_defined (opt_defined _) fun _ => pure_defined _

theorem laterKeysOf_defined {d : Def E V P} {c : Cfg V} {deps : List (Dep E V × Analysed E V P)} :
    laterKeysOf d c deps ≠ .error .undefined := by
  cases d with
  | user u =>
    exact bind_defined (opt_defined _) fun _ => bind_defined (opt_defined _) fun _ => bind_defined (opt_defined _) fun _ =>
      pure_defined _
  | _ => simp [laterKeysOf]

theorem resultOf_defined {e : E} {d : Def E V P} {c : Cfg V} {deps : List (Dep E V × Analysed E V P)} :
    resultOf e d c deps ≠ .error .undefined := by
  cases d with
  | source => simp [resultOf]
  | sourceTree => exact bind_defined (opt_defined _) fun _ => pure_defined _
  | builtin g pv ns t v =>
    exact bind_defined (opt_defined _) fun _ => ite_defined (bind_defined (opt_defined _) fun _ => pure_defined _)
      failed_defined
  | configure =>
    simp only [resultOf]
    unfold configureResult
    split
    · exact bind_defined (opt_defined _) fun _ => ite_defined (pure_defined _) failed_defined
    · exact failed_defined
  | exported fl key cached tg fc ca =>
    simp only [resultOf]
    unfold exportResult
    split
    · simp
    · split
      · exact ite_defined (by simp) failed_defined
      · exact failed_defined
  | user u =>
    exact bind_defined (opt_defined _) fun _ => bind_defined (opt_defined _) fun _ => bind_defined (opt_defined _) fun _ =>
      bind_defined (opt_defined _) fun _ => ite_defined (bind_defined (opt_defined _) fun _ => pure_defined _)
        failed_defined

theorem analyseAll_defined {rec : E → Cfg V → Except Fault (Analysed E V P)} {c : Cfg V} {ks : List (Dep E V)}
    (h : ∀ e c, rec e c ≠ .error .undefined) : analyseAll rec c ks ≠ .error .undefined := by
  induction ks with
  | nil => exact pure_defined _
  | cons k ks ih =>
    unfold analyseAll at ih ⊢
    rw [List.mapM_cons]
    exact bind_defined (bind_defined (h _ _) fun _ => pure_defined _) fun _ => bind_defined ih fun _ => pure_defined _

/-- If the dependencies of `generic` targets can be evaluated, then analysis ends with a result or an error (or not at all,
for cyclic dependencies), whatever the definitions of the targets are. -/
theorem C69_defined_partial {defs : E → Option (Def E V P)}
    (hg : ∀ e pv ns t v, defs e = some (.builtin true pv ns t v) → ∀ c, ns c ≠ .fails) (n : Nat) (e : E) (c : Cfg V) :
    analyse defs n e c ≠ .error .undefined := by
  induction n generalizing e c with
  | zero => simp [analyse]
  | succ n ih =>
    rw [analyse]
    cases hd : defs e with
    | none => simp
    | some d =>
      refine bind_defined ?_ fun _ => resultOf_defined
      refine bind_defined (keysOf_defined ?_) fun _ => bind_defined (analyseAll_defined ih) fun _ =>
        bind_defined laterKeysOf_defined fun _ => bind_defined (analyseAll_defined ih) fun _ => pure_defined _
      rintro pv ns t v rfl
      exact hg e pv ns t v hd _

/-! ## C56: implied export targets -/

/-- The target is an export target that contributes this key: its own, or one recorded in the entry it is taken from. -/
def Contributes (defs : E → Option (Def E V P)) (k : Str) (y : E × Cfg V) : Prop :=
  ∃ fl key cached tg fc ca, defs y.1 = some (.exported fl key cached tg fc ca) ∧
    ((cached (prune fl y.2) = none ∧ key (prune fl y.2) = some k) ∨
      ∃ v i, cached (prune fl y.2) = some (v, i) ∧ k ∈ i)

/-- Not an export target without key. -/
def Eligible (defs : E → Option (Def E V P)) (x : E × Cfg V) : Prop :=
  ∀ fl key cached tg fc ca, defs x.1 = some (.exported fl key cached tg fc ca) → key (prune fl x.2) ≠ none

theorem implied_step {defs : E → Option (Def E V P)} (hw : SourceEntries defs) {n : Nat} {e : E} {c : Cfg V}
    {d : Def E V P} {deps : List (Dep E V × Analysed E V P)} {r : Analysed E V P} (hd : defs e = some d)
    (h1 : requests (analyse defs n) d c = .ok deps) (h2 : resultOf e d c deps = .ok r) (k : Str) :
    k ∈ r.implied ↔ Contributes defs k (e, c) ∨ (Eligible defs (e, c) ∧ ∃ y ∈ deps, k ∈ y.2.implied) := by
  have noc : (∀ fl key cached tg fc ca, d ≠ .exported fl key cached tg fc ca) →
      ¬ Contributes defs k (e, c) ∧ Eligible defs (e, c) := by
    intro hne
    constructor
    · rintro ⟨_, _, _, _, _, _, h, _⟩
      rw [hd] at h
      exact hne _ _ _ _ _ _ (Option.some.inj h)
    · intro fl key cached tg fc ca h
      rw [hd] at h
      exact (hne _ _ _ _ _ _ (Option.some.inj h)).elim
  cases d with
  | source =>
    obtain ⟨k1, d1, k2, d2, g1, g2, g3, g4, rfl⟩ := requests_ok.1 h1
    cases g1
    cases g3
    rw [analyseAll_nil] at g2 g4
    subst g2 g4
    cases h2
    simp [(noc (by simp)).1]
  | sourceTree es v =>
    have hs : ∀ y ∈ deps, y.2.implied = ∅ := fun y hy => (sourceTree_deps hw hd h1 hy).2
    simp only [resultOf, bind_ok, pure_ok] at h2
    obtain ⟨_, _, rfl⟩ := h2
    simp only [(noc (by simp)).1, false_or]
    constructor
    · intro h
      simp at h
    · rintro ⟨_, y, hy, hk⟩
      rw [hs y hy] at hk
      simp at hk
  | builtin =>
    obtain ⟨_, _, _, hi, _, rfl⟩ := builtinResult_ok h2
    simp only [mem_unionAll, (noc (by simp)).1, (noc (by simp)).2, false_or, true_and]
  | configure =>
    obtain ⟨_, _, _, rfl, _, hi, rfl⟩ := configureResult_ok h2
    simp [(noc (by simp)).1, (noc (by simp)).2]
  | exported fl key cached tg fc ca =>
    have hcon : Contributes defs k (e, c) ↔ (cached (prune fl c) = none ∧ key (prune fl c) = some k) ∨
        ∃ v i, cached (prune fl c) = some (v, i) ∧ k ∈ i := by
      constructor
      · rintro ⟨_, _, _, _, _, _, h, hh⟩
        rw [hd] at h
        cases h
        exact hh
      · intro hh
        exact ⟨_, _, _, _, _, _, hd, hh⟩
    have hel : Eligible defs (e, c) ↔ key (prune fl c) ≠ none := by
      constructor
      · intro h
        exact h _ _ _ _ _ _ hd
      · intro h fl key cached tg fc ca h'
        rw [hd] at h'
        cases h'
        exact h
    rw [hcon, hel]
    rcases exportResult_ok h2 with ⟨v, i, hc, rfl⟩ | ⟨hc, _, v, rfl, ht, _, rfl⟩
    · obtain ⟨k1, d1, k2, d2, g1, g2, g3, g4, rfl⟩ := requests_ok.1 h1
      simp only [keysOf, exportKeys, hc] at g1
      cases g1
      cases g3
      rw [analyseAll_nil] at g2 g4
      subst g2 g4
      simp [hc]
    · cases hk : key (prune fl c) with
      | none => simp [hc]
      | some k0 =>
        simp only [hc, Finset.mem_insert, List.mem_singleton, true_and, Option.some.injEq]
        constructor
        · rintro (h | h)
          · exact Or.inl (Or.inl h.symm)
          · exact Or.inr ⟨by simp, _, rfl, h⟩
        · rintro ((h | ⟨_, _, h, _⟩) | ⟨_, y, rfl, h⟩)
          · exact Or.inl h.symm
          · cases h
          · exact Or.inr h
  | user u =>
    obtain ⟨_, _, _, hi, rfl⟩ := userResult_ok h2
    simp only [mem_unionAll, (noc (by simp)).1, (noc (by simp)).2, false_or, true_and]

/-- The implied export targets are exactly those contributed by export targets reached without passing through an export target that
is not eligible for caching. -/
theorem C56_implied_partial {defs : E → Option (Def E V P)} (hw : SourceEntries defs) {x : E × Cfg V} {r : Analysed E V P}
    (h : Result defs x.1 x.2 r) (k : Str) :
    k ∈ r.implied ↔ ∃ y, Relation.ReflTransGen (fun a b => Eligible defs a ∧ Requests defs a b) x y ∧ Contributes defs k y := by
  obtain ⟨n, h⟩ := h
  induction n generalizing x r with
  | zero => simp [analyse] at h
  | succ n ih =>
    obtain ⟨d, deps, h0, h1, h2⟩ := analyse_succ.1 h
    rw [implied_step hw h0 h1 h2 k]
    constructor
    · rintro (hc | ⟨he, z, hz, hk⟩)
      · exact ⟨x, .refl, hc⟩
      · obtain ⟨y, hy, hc⟩ := (ih (x := (z.1.target, z.1.config x.2)) (requests_rec h1 z hz)).1 hk
        exact ⟨y, .head ⟨he, d, n, deps, h0, h1, z, hz, rfl⟩ hy, hc⟩
    · rintro ⟨y, hy, hc⟩
      rcases Relation.ReflTransGen.cases_head hy with rfl | ⟨z, ⟨he, d', m, deps', h0', h1', z', hz', rfl⟩, hy⟩
      · exact Or.inl hc
      · rw [h0] at h0'
        cases h0'
        obtain rfl := requests_unique h1 h1'
        exact Or.inr ⟨he, z', hz', (ih (requests_rec h1 z' hz')).2 ⟨y, hy, hc⟩⟩

/-- If all export targets are eligible for caching, the implied export targets are exactly the ones contributed by the export
targets reached. -/
theorem C56_implied_eligible {defs : E → Option (Def E V P)} (hw : SourceEntries defs) (he : ∀ x, Eligible defs x)
    {x : E × Cfg V} {r : Analysed E V P} (h : Result defs x.1 x.2 r) (k : Str) :
    k ∈ r.implied ↔ ∃ y, Relation.ReflTransGen (Requests defs) x y ∧ Contributes defs k y := by
  rw [C56_implied_partial hw h k]
  have : (fun a b => Eligible defs a ∧ Requests defs a b) = Requests defs := by
    funext a b
    simp [he a]
  rw [this]

end

/-! ## Examples -/

section Examples

def vX : Str := "X".toList
def vY : Str := "Y".toList

def ruleR : User Nat Nat Nat where
  paramVars := ∅
  configVars := {vY}
  ruleTaint := ∅
  taint := fun _ => some {"test".toList}
  params := fun _ => some []
  transitions := fun f _ _ => if f = "deps".toList then some [[(vX, 7)], []] else some [[(vX, 7)]]
  fields := ["deps".toList, "other".toList]
  names := fun f _ => if f = "deps".toList then some [1] else some [2]
  implicits := []
  anonymous := []
  nodes := fun _ _ => none
  value := fun _ c _ _ ds => some ((ds.map Prod.snd).sum + (c vY).getD 0)

/-- 0: a rule with dependencies 1, twice, with and without transition, and 2, with transition; 1: reads a variable; 2: export
target of 3; 3: reads variables, one of them fixed by 2; 4: `configure` of 0; 5: source tree. -/
def exDefs : Nat → Option (Def Nat Nat Nat)
  | 0 => some (.user ruleR)
  | 1 => some (.builtin false {vX} (fun _ => .targets [5]) (fun _ => some {"test".toList}) fun c _ => some ((c vX).getD 0))
  | 2 => some (.exported {vX} (fun c => some (if c vX = some 7 then ['k', '7'] else ['k'])) (fun _ => none) (some 3)
      [(vY, 1)] fun _ => true)
  | 3 => some (.builtin false {vX, vY} (fun _ => .targets []) (fun _ => some ∅)
      fun c _ => some (100 * (c vX).getD 0 + 1000 * (c vY).getD 0))
  | 4 => some (.configure ∅ (fun _ => some 0) (fun _ => some {"test".toList, "more".toList}) fun _ => some [(vX, 5)])
  | 5 => some (.sourceTree [6] fun l => some l.sum)
  | 6 => some (.source 10)
  | _ => none

def cfgOf (l : List (Str × Nat)) : Cfg Nat := fun x => assoc x l

def summary (r : Except Fault (Analysed Nat Nat Nat)) : Option (Nat × Finset Str × Finset Str × Finset Str) :=
  match r with
  | .ok r => some (r.value, r.vars, r.tainted, r.implied)
  | .error _ => none

theorem summary_ok {r : Except Fault (Analysed Nat Nat Nat)} {x : Nat × Finset Str × Finset Str × Finset Str}
    (h : summary r = some x) : ∃ a, r = .ok a ∧ a.value = x.1 ∧ a.vars = x.2.1 ∧ a.tainted = x.2.2.1 ∧ a.implied = x.2.2.2 := by
  cases r with
  | error => cases h
  | ok a => cases h; exact ⟨a, rfl, rfl, rfl, rfl, rfl⟩

theorem ex0 : summary (analyse exDefs 5 0 (cfgOf [(vX, 2), (vY, 3)])) =
    some (7 + 2 + (700 + 1000) + 3, {vX, vY}, {"test".toList}, {['k', '7']}) := by decide +kernel

theorem ex4 : summary (analyse exDefs 6 4 (cfgOf [(vX, 2), (vY, 3)])) =
    some (7 + 5 + (700 + 1000) + 3, {vY}, {"test".toList, "more".toList}, {['k', '7']}) := by decide +kernel

theorem exSources : SourceEntries exDefs := by
  intro e es v h x hx d hd
  unfold exDefs at h
  split at h <;> simp at h
  obtain ⟨rfl, _⟩ := h
  simp at hx
  subst hx
  simp [exDefs] at hd
  subst hd
  trivial

/-- The value of `X` matters for 0 (due to the dependency without transition) but not for 4. -/
example : ∃ r, Result exDefs 4 (cfgOf [(vX, 2), (vY, 3)]) r ∧ Result exDefs 4 (cfgOf [(vX, 9), (vY, 3)]) r ∧
    r.value = 1715 := by
  obtain ⟨a, h1, h2, h3, h4, h5⟩ := summary_ok ex4
  refine ⟨a, ⟨6, h1⟩, C55_same (c := cfgOf [(vX, 2), (vY, 3)]) ⟨6, h1⟩ ?_, h2⟩
  rw [h3]
  decide +kernel

example : summary (analyse exDefs 5 0 (cfgOf [(vX, 9), (vY, 3)])) ≠ summary (analyse exDefs 5 0 (cfgOf [(vX, 2), (vY, 3)])) := by
  decide +kernel

example : ∃ r, Result exDefs 0 (cfgOf [(vX, 2), (vY, 3)]) r ∧ ∃ r', Result exDefs 1 (cfgOf [(vX, 2), (vY, 3)]) r' ∧
    r'.tainted ⊆ r.tainted := by
  obtain ⟨a, h1, h2, h3, h4, h5⟩ := summary_ok ex0
  refine ⟨a, ⟨5, h1⟩, C56_taint exSources (x := (0, cfgOf [(vX, 2), (vY, 3)])) (y := (1, cfgOf [(vX, 2), (vY, 3)]))
    ⟨5, h1⟩ (.single ?_)⟩
  obtain ⟨d, deps, g0, g1, g2⟩ := analyse_succ.1 h1
  cases g0
  refine ⟨_, 4, deps, rfl, g1, ?_⟩
  obtain ⟨k1, d1, k2, d2, h1, h2, h3, h4, rfl⟩ := requests_ok.1 g1
  have hk : (⟨"deps".toList, 1, none, []⟩ : Dep Nat Nat) ∈ k1 := by
    have : keysOf (.user ruleR) (cfgOf [(vX, 2), (vY, 3)]) = .ok [⟨"deps".toList, 1, none, [(vX, 7)]⟩,
      ⟨"deps".toList, 1, none, []⟩, ⟨"other".toList, 2, none, [(vX, 7)]⟩] := rfl
    rw [this] at h1
    cases h1
    simp
  rw [← (analyseAll_spec.1 h2).1] at hk
  obtain ⟨z, hz, hz'⟩ := List.mem_map.1 hk
  refine ⟨z, List.mem_append_left _ hz, ?_⟩
  rw [hz']
  rfl

/-- A dependency tainted otherwise is an error. -/
def taintDefs : Nat → Option (Def Nat Nat Nat)
  | 0 => some (.builtin false ∅ (fun _ => .targets [1]) (fun _ => some ∅) fun _ _ => some 0)
  | 1 => some (.builtin false ∅ (fun _ => .targets []) (fun _ => some {"test".toList}) fun _ _ => some 0)
  | _ => none

example : summary (analyse taintDefs 5 1 (cfgOf [])) ≠ none ∧ ∀ r, analyse taintDefs 5 0 (cfgOf []) ≠ .ok r := by
  constructor
  · decide +kernel
  · intro r h
    have : summary (analyse taintDefs 5 0 (cfgOf [])) = none := by decide +kernel
    rw [h] at this
    cases this

/-- Different configurations, the same configured target, the same result. -/
example : ∃ r, ∀ r', Result exDefs 4 (cfgOf [(vX, 9), (vY, 3)]) r' → r'.node = r.node → r.node ≠ none ∧ r' = r := by
  obtain ⟨a, h1, h2, h3, h4, h5⟩ := summary_ok ex4
  have hn : a.node = some (4, prune {vY} (cfgOf [(vX, 2), (vY, 3)])) := by
    rcases node_eq (⟨6, h1⟩ : Result exDefs 4 _ a) with h | h
    · obtain ⟨d, deps, g0, _, g2⟩ := analyse_succ.1 h1
      cases g0
      simp only [resultOf] at g2
      obtain ⟨_, _, _, _, _, _, rfl⟩ := configureResult_ok g2
      cases h
    · rw [h, h3]
  refine ⟨a, fun r' hr' hn' => ⟨by rw [hn]; simp, ?_⟩⟩
  exact C55_configured hr' (⟨6, h1⟩ : Result exDefs 4 _ a) (hn'.trans hn) hn

/-- Variables of 0, with what was requested for it. -/
example : ∃ deps, requests (analyse exDefs 4) (.user ruleR) (cfgOf [(vX, 2), (vY, 3)]) = .ok deps ∧
    (∃ k ∈ deps, vX ∈ k.2.vars ∧ assoc vX k.1.trans = none) := by
  obtain ⟨a, h1, h2, h3, h4, h5⟩ := summary_ok ex0
  obtain ⟨d, deps, g0, g1, g2⟩ := analyse_succ.1 h1
  cases g0
  refine ⟨deps, g1, ?_⟩
  rcases (C55_vars_user rfl g1 (⟨5, h1⟩ : Result exDefs 0 _ a) vX).1 (by rw [h3]; decide +kernel) with h | h | h
  · simp [ruleR] at h
  · have : vX ∉ ruleR.configVars := by decide +kernel
    exact (this h).elim
  · exact h

/-- `configure`, `export`. -/
example : ∃ r v, Result exDefs 4 (cfgOf [(vX, 2), (vY, 3)]) r ∧
    Result exDefs 0 (update (cfgOf [(vX, 2), (vY, 3)]) [(vX, 5)]) v ∧ vX ∈ v.vars ∧ vX ∉ r.vars := by
  obtain ⟨a, h1, h2, h3, h4, h5⟩ := summary_ok ex4
  obtain ⟨e', tr, v, he, ht, hv, _, hx⟩ := C55_configure rfl (⟨6, h1⟩ : Result exDefs 4 _ a)
  cases he
  cases ht
  replace hv : Result exDefs 0 (update (cfgOf [(vX, 2), (vY, 3)]) [(vX, 5)]) v := hv
  refine ⟨a, v, ⟨6, h1⟩, hv, ?_, ?_⟩
  · have e0 : summary (analyse exDefs 5 0 (update (cfgOf [(vX, 2), (vY, 3)]) [(vX, 5)])) = some (1715, {vX, vY}, {"test".toList}, {['k', '7']}) := by decide +kernel
    obtain ⟨b, g1, _, g3, _, _⟩ := summary_ok e0
    rw [result_unique hv (⟨5, g1⟩ : Result exDefs 0 _ b), g3]
    decide +kernel
  · rw [h3]
    decide +kernel

theorem ex2 : summary (analyse exDefs 5 2 (cfgOf [(vX, 2), (vY, 3)])) = some (1200, {vX}, ∅, {['k']}) := by decide +kernel

example : ∃ r, Result exDefs 2 (cfgOf [(vX, 2), (vY, 3)]) r ∧ Result exDefs 2 (cfgOf [(vX, 2), (vY, 4)]) r ∧
    r.value = 1200 ∧ r.tainted = ∅ := by
  obtain ⟨a, h1, h2, h3, h4, h5⟩ := summary_ok ex2
  refine ⟨a, ⟨5, h1⟩, (C55_export (c := cfgOf [(vX, 2), (vY, 3)]) rfl ⟨5, h1⟩ ?_).2, h2, ?_⟩
  · decide +kernel
  · obtain ⟨r', hr, ht⟩ := C56_exported exSources (x := (2, cfgOf [(vX, 2), (vY, 3)])) rfl ⟨5, h1⟩ .refl
    rw [result_unique (⟨5, h1⟩ : Result exDefs 2 _ a) hr]
    exact ht

/-- Implied export targets. -/
example : ∃ y, Relation.ReflTransGen (Requests exDefs) (4, cfgOf [(vX, 2), (vY, 3)]) y ∧ Contributes exDefs ['k', '7'] y := by
  obtain ⟨a, h1, h2, h3, h4, h5⟩ := summary_ok ex4
  refine (C56_implied_eligible exSources ?_ (x := (4, cfgOf [(vX, 2), (vY, 3)])) ⟨6, h1⟩ ['k', '7']).1 (by rw [h5]; decide)
  intro x fl key cached tg fc ca h
  unfold exDefs at h
  split at h <;> simp at h
  obtain ⟨rfl, rfl, _⟩ := h
  simp

/-- No `generic` targets at all, and a definition with errors everywhere. -/
example : analyse exDefs 2 7 (cfgOf []) ≠ .error .undefined ∧ analyse taintDefs 5 0 (cfgOf []) ≠ .error .undefined := by
  constructor
  · refine C69_defined_partial ?_ 2 7 _
    intro e pv ns t v h
    unfold exDefs at h
    split at h <;> simp at h
  · refine C69_defined_partial ?_ 5 0 _
    intro e pv ns t v h
    unfold taintDefs at h
    split at h <;> simp at h

/-! ## Violations -/

/-- 0 and 1 are export targets, 0 exporting 1; 0 is not eligible for caching, 1 is. -/
def ineligible : Nat → Option (Def Nat Nat Nat)
  | 0 => some (.exported ∅ (fun _ => none) (fun _ => none) (some 1) [] fun _ => true)
  | 1 => some (.exported ∅ (fun _ => some ['k']) (fun _ => none) (some 2) [] fun _ => true)
  | 2 => some (.source 1)
  | _ => none

/-- V30: an export target that is not eligible for caching hides the export targets it depends on: they are missing from the
implied export targets. -/
theorem C56_violation_ineligible : ∃ r r', Result ineligible 0 (cfgOf []) r ∧ Result ineligible 1 (cfgOf []) r' ∧
    Requests ineligible (0, cfgOf []) (1, fun x => (cfgOf []) x) ∧ ['k'] ∈ r'.implied ∧ r.implied = ∅ := by
  have e0 : summary (analyse ineligible 3 0 (cfgOf [])) = some (1, ∅, ∅, ∅) := by decide +kernel
  have e1 : summary (analyse ineligible 2 1 (cfgOf [])) = some (1, ∅, ∅, {['k']}) := by decide +kernel
  obtain ⟨a, h1, h2, h3, h4, h5⟩ := summary_ok e0
  obtain ⟨b, g1, g2, g3, g4, g5⟩ := summary_ok e1
  refine ⟨a, b, ⟨3, h1⟩, ⟨2, g1⟩, ?_, by rw [g5]; decide, h5⟩
  obtain ⟨d, deps, f0, f1, f2⟩ := analyse_succ.1 h1
  cases f0
  refine ⟨_, 2, deps, rfl, f1, ?_⟩
  obtain ⟨k1, d1, k2, d2, h1, h2, h3, h4, rfl⟩ := requests_ok.1 f1
  cases h1
  have hk := (analyseAll_spec.1 h2).1
  cases d1 with
  | nil => cases hk
  | cons z l =>
    simp only [List.map_cons, List.cons.injEq] at hk
    refine ⟨z, by simp, ?_⟩
    rw [hk.1]
    rfl

/-- V31: a `generic` target whose dependencies cannot be evaluated is undefined behaviour rather than an error. -/
theorem C69_violation_generic : analyse (fun _ : Nat => some (.builtin true ∅ (fun _ => .fails) (fun _ => some ∅)
    fun _ _ => some 0 : Def Nat Nat Nat)) 1 0 (cfgOf []) = .error .undefined := rfl

end Examples

end Verif.Analyse
