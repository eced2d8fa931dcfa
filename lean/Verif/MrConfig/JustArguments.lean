import Verif.MrConfig.JustProps

/-!
# C96: the arguments given to `just` itself

They decide the main repository and override the roots and file names of the main repository, and of no other.
-/

namespace Verif.MrConfig

open Verif

section
variable {N : Type} {git : Str → Str → Bool} {a b : JustArgs} {j : Json N} {m : Str}
  {infos infos' : List (Str × Info N)}

theorem collect_assoc {β : Type} {f : Str × Json N → Option β} {l : List (Str × Json N)}
    {es : List ((Str × Json N) × β)} (h : collect f l = some es) (n : Str) :
    assoc n (es.map fun e => (e.1.1, e.2)) = (assoc n l).bind fun v => f (n, v) := by
  induction l generalizing es with
  | nil => cases h; rfl
  | cons e l ih =>
    obtain ⟨k, v⟩ := e
    simp only [collect] at h
    split at h
    · rename_i x bs hx hbs
      cases h
      simp only [List.map_cons, assoc]
      by_cases hn : n = k
      · subst hn; simp only [if_true, Option.bind_some, hx]
      · simp only [hn, if_false]; exact ih hbs
    · cases h

theorem collect_all {β : Type} {f : Str × Json N → Option β} {l : List (Str × Json N)}
    {es : List ((Str × Json N) × β)} (h : collect f l = some es) : ∀ e ∈ l, ∃ x, f e = some x := by
  obtain ⟨h1, h2⟩ := collect_some h
  intro e he
  rw [← h1] at he
  obtain ⟨y, hy, rfl⟩ := List.mem_map.1 he
  exact ⟨_, h2 y hy⟩

/-- The repositories described in a configuration; without any there are none. -/
def Described (j : Json N) (repos : List (Str × Json N)) : Prop :=
  ∃ top, j = .obj top ∧ (assoc "repositories".toList top = some (.obj repos) ∨
    (assoc "repositories".toList top = none ∧ repos = []))

theorem justRead_some (h : justRead git a j = some (m, infos)) :
    ∃ top repos, j = .obj top ∧ Described j repos ∧ readMain a top repos = some m ∧
      ∃ es, collect (fun e : Str × Json N => readRepo git a
        ((OMap.insertList (fun old _ => old) m (.obj []) repos).map Prod.fst) (decide (e.1 = m)) (fieldsOf e.2))
        (OMap.insertList (fun old _ => old) m (.obj []) repos) = some es ∧
        infos = es.map fun e => (e.1.1, e.2) := by
  have key : ∀ top repos, j = .obj top → Described j repos → (match readMain a top repos with
      | none => none
      | some m =>
        (collect (fun e : Str × Json N => readRepo git a
          ((OMap.insertList (fun old _ => old) m (.obj []) repos).map Prod.fst) (decide (e.1 = m)) (fieldsOf e.2))
          (OMap.insertList (fun old _ => old) m (.obj []) repos)).map
            fun es => (m, es.map fun e => (e.1.1, e.2))) = some (m, infos) → ∃ top repos, j = .obj top ∧
      Described j repos ∧ readMain a top repos = some m ∧
      ∃ es, collect (fun e : Str × Json N => readRepo git a
        ((OMap.insertList (fun old _ => old) m (.obj []) repos).map Prod.fst) (decide (e.1 = m)) (fieldsOf e.2))
        (OMap.insertList (fun old _ => old) m (.obj []) repos) = some es ∧
        infos = es.map fun e => (e.1.1, e.2) := by
    intro top repos hj hd hk
    split at hk
    · cases hk
    · rename_i m' hm'
      obtain ⟨es, he, h2⟩ := Option.map_eq_some_iff.1 hk
      simp only [Prod.mk.injEq] at h2
      obtain ⟨rfl, rfl⟩ := h2
      exact ⟨top, repos, hj, hd, hm', es, he, rfl⟩
  cases j with
  | obj top =>
    simp only [justRead] at h
    split at h
    · rename_i hn
      exact key top [] rfl ⟨top, rfl, .inr ⟨hn, rfl⟩⟩ h
    · rename_i repos hn
      exact key top repos rfl ⟨top, rfl, .inl hn⟩ h
    · cases h
  | null => cases h
  | bool _ => cases h
  | num _ => cases h
  | str _ => cases h
  | arr _ => cases h

theorem described_unique {r r' : List (Str × Json N)} (h : Described j r) (h' : Described j r') : r = r' := by
  obtain ⟨top, rfl, h⟩ := h
  obtain ⟨top', e, h'⟩ := h'
  cases e
  rcases h with h | ⟨h, rfl⟩ <;> rcases h' with h' | ⟨h', rfl⟩
  · rw [h] at h'; cases h'; rfl
  · rw [h] at h'; cases h'
  · rw [h] at h'; cases h'
  · rfl

theorem readRepo_other {names : List Str} {c : List (Str × Json N)} :
    readRepo git a names false c = readRepo git b names false c := rfl

theorem readWorkspace_given {c : List (Str × Json N)} {r : FRoot N} {p : Str} (hp : a.workspaceRoot = some p)
    (h : readWorkspace git a true c = some r) : r = .dir p false := by
  unfold readWorkspace at h
  split at h
  · simp only [if_true, hp, Option.some.injEq] at h
    exact h.symm
  · split at h
    · cases h
    · simp only [if_true, hp, Option.some.injEq] at h
      exact h.symm

theorem readLayer_given {c : List (Str × Json N)} {key p : Str} {d r : FRoot N}
    (h : readLayer git true (some p) key c d = some r) : r = .dir p false := by
  unfold readLayer at h
  split at h
  · exact (Option.some.inj h).symm
  · obtain ⟨x, _, hx⟩ := Option.map_eq_some_iff.1 h
    exact hx.symm

theorem readFileName_given {c : List (Str × Json N)} {key p d r : Str}
    (h : readFileName true (some p) key d c = some r) : r = p := by
  unfold readFileName at h
  split at h
  · exact (Option.some.inj h).symm
  · exact (Option.some.inj h).symm
  · cases h

/-- The main repository given as argument is used; every root and every file name given as argument is that of
the main repository, whatever the configuration says. -/
theorem C96_arguments (h : justRead git a j = some (m, infos)) :
    (∀ x, a.main = some x → m = x) ∧
    ∀ i, assoc m infos = some i →
      (∀ p, a.workspaceRoot = some p → i.workspaceRoot = .dir p false) ∧
      (∀ p, a.targetRoot = some p → i.targetRoot = .dir p false) ∧
      (∀ p, a.ruleRoot = some p → i.ruleRoot = .dir p false) ∧
      (∀ p, a.expressionRoot = some p → i.expressionRoot = .dir p false) ∧
      (∀ p, a.targetFileName = some p → i.targetFileName = p) ∧
      (∀ p, a.ruleFileName = some p → i.ruleFileName = p) ∧
      (∀ p, a.expressionFileName = some p → i.expressionFileName = p) := by
  obtain ⟨top, repos, hj, hd, hm, es, he, rfl⟩ := justRead_some h
  constructor
  · intro x hx
    simp only [readMain, hx, Option.some.injEq] at hm
    exact hm.symm
  · intro i hi
    rw [collect_assoc he] at hi
    obtain ⟨v, _, hv⟩ := Option.bind_eq_some_iff.1 hi
    simp only [decide_true] at hv
    obtain ⟨h1, h2, h3, h4, _, h5, h6, h7⟩ := readRepo_some.1 hv
    refine ⟨fun p hp => readWorkspace_given hp h1, ?_, ?_, ?_, ?_, ?_, ?_⟩
    · intro p hp; rw [hp] at h2; exact readLayer_given h2
    · intro p hp; rw [hp] at h3; exact readLayer_given h3
    · intro p hp; rw [hp] at h4; exact readLayer_given h4
    · intro p hp; rw [hp] at h5; exact readFileName_given h5
    · intro p hp; rw [hp] at h6; exact readFileName_given h6
    · intro p hp; rw [hp] at h7; exact readFileName_given h7

/-- Repositories other than the main one do not depend on the arguments, nor do the bindings of any. -/
theorem C96_arguments_other (h : justRead git a j = some (m, infos)) (h' : justRead git b j = some (m, infos')) :
    (∀ n, n ≠ m → assoc n infos = assoc n infos') ∧
    ∀ i i', assoc m infos = some i → assoc m infos' = some i' → i.nameMapping = i'.nameMapping := by
  obtain ⟨top, repos, hj, hd, hm, es, he, rfl⟩ := justRead_some h
  obtain ⟨top', repos', hj', hd', hm', es', he', rfl⟩ := justRead_some h'
  obtain rfl := described_unique hd hd'
  constructor
  · intro n hn
    rw [collect_assoc he, collect_assoc he']
    simp only [hn, decide_false]
    rfl
  · intro i i' hi hi'
    rw [collect_assoc he] at hi
    rw [collect_assoc he'] at hi'
    obtain ⟨v, hv, hi⟩ := Option.bind_eq_some_iff.1 hi
    obtain ⟨v', hv', hi'⟩ := Option.bind_eq_some_iff.1 hi'
    rw [hv] at hv'; cases hv'
    have e1 := (readRepo_some.1 hi).2.2.2.2.1
    have e2 := (readRepo_some.1 hi').2.2.2.2.1
    rw [e1] at e2
    exact Option.some.inj e2

theorem readLayer_success {x : Bool} {p q : Option Str} {key : Str} {c : List (Str × Json N)} {d e r : FRoot N}
    (h : readLayer git x p key c d = some r) : ∃ r', readLayer git x q key c e = some r' := by
  unfold readLayer at h ⊢
  split at h
  · exact ⟨_, rfl⟩
  · obtain ⟨y, hy, _⟩ := Option.map_eq_some_iff.1 h
    rw [hy]; exact ⟨_, rfl⟩

theorem readFileName_success {x : Bool} {p q : Option Str} {key d r : Str} {c : List (Str × Json N)}
    (h : readFileName x p key d c = some r) : ∃ r', readFileName x q key d c = some r' := by
  unfold readFileName at h ⊢
  split at h
  · exact ⟨_, rfl⟩
  · exact ⟨_, rfl⟩
  · cases h

theorem readWorkspace_success {x : Bool} {c : List (Str × Json N)} {r : FRoot N}
    (hb : b.workspaceRoot = none) (hk : a.markers = b.markers)
    (h : readWorkspace git b x c = some r) : ∃ r', readWorkspace git a x c = some r' := by
  unfold readWorkspace at h ⊢
  split at h
  · cases x with
    | false => cases h
    | true =>
      simp only [if_true, hb] at h ⊢
      cases a.workspaceRoot with
      | some p => exact ⟨_, rfl⟩
      | none => simp only; rw [hk]; exact ⟨_, h⟩
  · cases hp : parseRoot git (N := N) _ with
    | none => rw [hp] at h; cases h
    | some y =>
      obtain ⟨y, q⟩ := y
      cases x with
      | false => exact ⟨_, rfl⟩
      | true =>
        simp only [if_true]
        cases a.workspaceRoot with
        | some p => exact ⟨_, rfl⟩
        | none => cases q <;> exact ⟨_, rfl⟩

/-- Arguments overriding roots and file names do not make a configuration unusable. -/
theorem C96_arguments_accepted (h : justRead git b j = some (m, infos)) (hm : a.main = some m ∨ a.main = b.main)
    (hb : b.workspaceRoot = none) (hk : a.markers = b.markers) :
    ∃ infos', justRead git a j = some (m, infos') := by
  obtain ⟨top, repos, rfl, hd, hr, es, he, rfl⟩ := justRead_some h
  have hr' : readMain a top repos = some m := by
    rcases hm with hm | hm
    · simp only [readMain, hm]
    · unfold readMain at hr ⊢; rw [hm]; exact hr
  have hall : ∃ es', collect (fun e : Str × Json N => readRepo git a
        ((OMap.insertList (fun old _ => old) m (.obj []) repos).map Prod.fst) (decide (e.1 = m)) (fieldsOf e.2))
        (OMap.insertList (fun old _ => old) m (.obj []) repos) = some es' := by
    apply collect_complete
    intro e hmem
    obtain ⟨i, hi⟩ := collect_all he e hmem
    obtain ⟨h1, h2, h3, h4, h5, h6, h7, h8⟩ := readRepo_some.1 hi
    obtain ⟨w, hw⟩ := readWorkspace_success hb hk h1
    obtain ⟨t, ht⟩ := readLayer_success (q := a.targetRoot) (e := w) h2
    obtain ⟨r, hr⟩ := readLayer_success (q := a.ruleRoot) (e := t) h3
    obtain ⟨x, hx⟩ := readLayer_success (q := a.expressionRoot) (e := r) h4
    obtain ⟨f1, hf1⟩ := readFileName_success (q := a.targetFileName) h6
    obtain ⟨f2, hf2⟩ := readFileName_success (q := a.ruleFileName) h7
    obtain ⟨f3, hf3⟩ := readFileName_success (q := a.expressionFileName) h8
    exact ⟨⟨w, t, r, x, i.nameMapping, f1, f2, f3⟩, readRepo_some.2 ⟨hw, ht, hr, hx, h5, hf1, hf2, hf3⟩⟩
  obtain ⟨es', he'⟩ := hall
  obtain ⟨top', e, hd⟩ := hd
  cases e
  rcases hd with hd | ⟨hd, rfl⟩
  · simp only [justRead, hd, hr', he']
    exact ⟨_, rfl⟩
  · simp only [justRead, hd, hr', he']
    exact ⟨_, rfl⟩

/-- A layer that is neither described nor given is the one below it: the rules are with the targets, and so on;
without a workspace root described or given, the main repository is at the root marker. -/
theorem C96_arguments_layers {repos c : List (Str × Json N)} (hd : Described j repos)
    (hc : assoc m repos = some (.obj c)) (ha : Ascending repos) (h : justRead git a j = some (m, infos)) :
    ∃ i, assoc m infos = some i ∧
      (assoc "target_root".toList c = none → a.targetRoot = none → i.targetRoot = i.workspaceRoot) ∧
      (assoc "rule_root".toList c = none → a.ruleRoot = none → i.ruleRoot = i.targetRoot) ∧
      (assoc "expression_root".toList c = none → a.expressionRoot = none → i.expressionRoot = i.ruleRoot) ∧
      (assoc "workspace_root".toList c = none → a.workspaceRoot = none →
        ∃ p, a.markers = some p ∧ i.workspaceRoot = .dir p false) := by
  obtain ⟨top, repos', hj, hd', hm, es, he, rfl⟩ := justRead_some h
  obtain rfl := described_unique hd hd'
  have hin : assoc m (OMap.insertList (fun old _ => old) m (Json.obj []) repos) = some (.obj c) := by
    rw [assoc_insertList _ _ _ _ ha, if_pos rfl, hc]
  obtain ⟨i, hi⟩ := collect_all he _ (assoc_some_mem hin)
  simp only [decide_true] at hi
  refine ⟨i, ?_, ?_⟩
  · rw [collect_assoc he, hin]
    simpa only [Option.bind_some, decide_true] using hi
  · obtain ⟨h1, h2, h3, h4, _⟩ := readRepo_some.1 hi
    simp only [fieldsOf] at h1 h2 h3 h4
    refine ⟨?_, ?_, ?_, ?_⟩
    · intro e1 e2
      rw [e2, readLayer, e1] at h2
      exact (Option.some.inj h2).symm
    · intro e1 e2
      rw [e2, readLayer, e1] at h3
      exact (Option.some.inj h3).symm
    · intro e1 e2
      rw [e2, readLayer, e1] at h4
      exact (Option.some.inj h4).symm
    · intro e1 e2
      simp only [readWorkspace, e1, e2, if_true] at h1
      obtain ⟨p, hp, hq⟩ := Option.map_eq_some_iff.1 h1
      exact ⟨p, hp, hq.symm⟩

end

namespace Example

/-- Two repositories, both with a rule root; `just --main b -w /w --rule-root /r`. -/
def twoRepos : Json Nat :=
  .obj [("repositories".toList, .obj [
    ("a".toList, .obj [("rule_root".toList, .arr [.str "file".toList, .str "/ra".toList]),
      ("workspace_root".toList, .arr [.str "file".toList, .str "/a".toList])]),
    ("b".toList, .obj [("bindings".toList, .obj [("x".toList, .str "a".toList)]),
      ("rule_root".toList, .arr [.str "file".toList, .str "/rb".toList]),
      ("workspace_root".toList, .arr [.str "file".toList, .str "/b".toList])])])]

def someArgs : JustArgs :=
  ⟨some "b".toList, some "/w".toList, none, some "/r".toList, none, none, some "R".toList, none, none⟩

example : justRead (fun _ _ => true) someArgs twoRepos = some ("b".toList,
    [("a".toList, ⟨.dir "/a".toList false, .dir "/a".toList false, .dir "/ra".toList false,
        .dir "/ra".toList false, [], "TARGETS".toList, "RULES".toList, "EXPRESSIONS".toList⟩),
     ("b".toList, ⟨.dir "/w".toList false, .dir "/w".toList false, .dir "/r".toList false,
        .dir "/r".toList false, [("x".toList, "a".toList)], "TARGETS".toList, "R".toList,
        "EXPRESSIONS".toList⟩)]) := rfl

end Example

end Verif.MrConfig
