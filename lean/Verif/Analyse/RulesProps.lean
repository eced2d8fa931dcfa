import Verif.Analyse.Rules
import Verif.Remote.ActionKeyProps
import Mathlib.Logic.Relation

/-!
# Reading of rules and expression functions: C106
-/

namespace Verif.Rules

open Verif.Names Verif.Expr Verif.RE

variable {N A : Type}

/-! ## What is written in the files -/

/-- The field is a list of strings, by default the empty one. -/
def Strings (o : List (Str × Json N)) (field : String) (l : List Str) : Prop :=
  (assoc field.toList o = none ∧ l = []) ∨ assoc field.toList o = some (.arr (l.map .str))

/-- The field is an object, by default the empty one. -/
def Object (o : List (Str × Json N)) (field : String) (m : List (Str × Json N)) : Prop :=
  (assoc field.toList o = none ∧ m = []) ∨ assoc field.toList o = some (.obj m)

/-- The entry `id` of an expression file is a definition with these variables, imports, and expression.  The names of imports are
those written in the file, in the context of the expression. -/
def Written (F : Files N) (id : Named) (vars : List Str) (imports : List (Str × Named)) (e : Json N) : Prop :=
  id.ref = .target ∧ ∃ file o m, F.exprs id.repo id.module = some file ∧ assoc id.name file = some (.obj o) ∧
    assoc "expression".toList o = some e ∧ Strings o "vars" vars ∧ Object o "imports" m ∧
    List.Forall₂ (fun p q => p.1 = q.1 ∧ parse F.bind p.2 id = some q.2) m imports

/-- `y` is imported by `x`. -/
def Imports (F : Files N) (y x : Named) : Prop :=
  ∃ vars imports e, Written F x vars imports e ∧ ∃ name, (name, y) ∈ imports

/-- The meaning of expressions: the names in calls are looked up in the imports written next to the expression, and the definition
found is evaluated, in turn, with the imports written there. -/
def evalNamed (O : Ops N A) (defs : Named → Option (FnDef N A)) :
    Nat → List (Str × Named) → Val N A → Env N A → Res (Val N A)
  | 0, _, _, _ => .timeout
  | n + 1, imports, e, ρ =>
    match e with
    | .list l => (mapRes (fun x => evalNamed O defs n imports x ρ) l).bind fun vs => .ok (.list vs)
    | .map m =>
      (Res.ofOption (assoc "type".toList m)).bind fun t =>
        (Res.ofOption t.str?).bind fun ty =>
          if ty = "CALL_EXPRESSION".toList then
            (Res.ofOption (assoc "name".toList m)).bind fun g =>
              (Res.ofOption g.str?).bind fun name =>
                match assoc name imports with
                | none => .fail
                | some id =>
                  match defs id with
                  | none => .fail
                  | some d => evalNamed O defs n d.imports d.expr (ρ.prune d.vars)
          else
            match O.provided ty with
            | some r => r.construct (evalNamed O defs n imports) m ρ
            | none =>
              match assoc ty (builtIns O) with
              | some c => c (evalNamed O defs n imports) m ρ
              | none => .fail
    | v => .ok v

/-! ## Lemmas on reading -/

section
omit N A

theorem mapM_some_iff {X Y : Type} {f : X → Option Y} : ∀ {l : List X} {l' : List Y},
    l.mapM f = some l' ↔ List.Forall₂ (fun x y => f x = some y) l l'
  | [], l' => by cases l' <;> simp
  | x :: l, l' => by
    rw [List.mapM_cons]
    constructor
    · intro h
      cases hx : f x with
      | none => rw [hx] at h; cases h
      | some y =>
        rw [hx] at h
        cases hl : l.mapM f with
        | none => rw [hl] at h; cases h
        | some ys =>
          rw [hl] at h
          cases h
          exact .cons hx (mapM_some_iff.1 hl)
    · intro h
      cases h with
      | cons hx hl => rw [hx, mapM_some_iff.2 hl]; rfl

end

theorem string?_eq {j : Json N} {s : Str} : string? j = some s ↔ j = .str s := by
  cases j <;> simp [string?]

theorem object?_eq {j : Json N} {o : List (Str × Json N)} : object? j = some o ↔ j = .obj o := by
  cases j <;> simp [object?]

theorem array?_eq {j : Json N} {o : List (Json N)} : array? j = some o ↔ j = .arr o := by
  cases j <;> simp [array?]

theorem readStrings_iff {o : List (Str × Json N)} {f : String} {l : List Str} :
    readStrings o f = some l ↔ Strings o f l := by
  have key : ∀ js : List (Json N), js.mapM string? = some l ↔ js = l.map .str := by
    intro js
    rw [mapM_some_iff]
    constructor
    · intro h
      induction h with
      | nil => rfl
      | cons hx _ ih => rw [List.map_cons, ← ih, string?_eq.1 hx]
    · rintro rfl
      induction l with
      | nil => exact .nil
      | cons x l ih => exact .cons rfl ih
  unfold readStrings Strings
  split
  · next e => simp [e, eq_comm]
  · next js e => rw [key]; simp [e]
  · next j hne e =>
    rw [e]
    constructor
    · intro h; cases h
    · rintro (⟨h, _⟩ | h)
      · cases h
      · cases h; exact absurd rfl (hne _)

theorem readObject_iff {o : List (Str × Json N)} {f : String} {m : List (Str × Json N)} :
    readObject o f = some m ↔ Object o f m := by
  unfold readObject Object
  split
  · next e => simp [e, eq_comm]
  · next js e => simp [e]
  · next j hne e =>
    rw [e]
    constructor
    · intro h; cases h
    · rintro (⟨h, _⟩ | h)
      · cases h
      · cases h; exact absurd rfl (hne _)

theorem readNames_iff {F : Files N} {id : Named} {m : List (Str × Json N)} {l : List (Str × Named)} :
    readNames F id m = some l ↔ List.Forall₂ (fun p q => p.1 = q.1 ∧ parse F.bind p.2 id = some q.2) m l := by
  unfold readNames
  rw [mapM_some_iff]
  constructor <;> refine fun h => h.imp fun p q hpq => ?_
  · obtain ⟨n, hn, rfl⟩ := Option.map_eq_some_iff.1 hpq
    exact ⟨rfl, hn⟩
  · obtain ⟨h1, h2⟩ := hpq
    rw [h2, Option.map_some, h1]

/-- C106: the definition of an expression is what is written in the file. -/
theorem fnDef_iff {F : Files N} {id : Named} {d : FnDef N A} :
    fnDef F id = some d ↔ ∃ e, Written F id d.vars d.imports e ∧ d.expr = ofJson e := by
  constructor
  · intro h
    unfold fnDef at h
    split at h
    case isFalse => cases h
    case isTrue hr =>
      simp only [Option.bind_eq_some_iff, readExpression, Option.map_eq_some_iff] at h
      obtain ⟨file, hf, j, hj, o, ho, _, ⟨e, he, rfl⟩, vars, hv, m, hm, imports, hi, h⟩ := h
      cases h
      rw [object?_eq.1 ho] at hj
      exact ⟨e, ⟨hr, file, o, m, hf, hj, he, readStrings_iff.1 hv, readObject_iff.1 hm, readNames_iff.1 hi⟩, rfl⟩
  · rintro ⟨e, ⟨hr, file, o, m, hf, hj, he, hv, hm, hi⟩, h⟩
    unfold fnDef
    rw [if_pos hr, hf, Option.bind_some, hj, Option.bind_some, object?_eq.2 rfl, Option.bind_some, readExpression, he,
      Option.map_some, Option.bind_some, readStrings_iff.2 hv, Option.bind_some, readObject_iff.2 hm, Option.bind_some,
      readNames_iff.2 hi, Option.bind_some, ← h]

theorem imports_iff {F : Files N} {x y : Named} :
    Imports F y x ↔ ∃ d : FnDef N A, fnDef F x = some d ∧ ∃ name, (name, y) ∈ d.imports := by
  constructor
  · rintro ⟨vars, imports, e, hw, name, hn⟩
    exact ⟨⟨vars, imports, ofJson e⟩, fnDef_iff.2 ⟨e, hw, rfl⟩, name, hn⟩
  · rintro ⟨d, hd, name, hn⟩
    obtain ⟨e, hw, _⟩ := fnDef_iff.1 hd
    exact ⟨_, _, e, hw, name, hn⟩

/-! ## Loading of expression functions -/

/-- The functions are those of the names. -/
def Linked (F : Files N) (n : Nat) (imports : List (Str × Named)) (fs : List (Str × Fn N A)) : Prop :=
  List.Forall₂ (fun p q => p.1 = q.1 ∧ load F n p.2 = some q.2) imports fs

theorem linked_iff {F : Files N} {n : Nat} {imports : List (Str × Named)} {fs : List (Str × Fn N A)} :
    (imports.mapM fun p => (load F n p.2).map fun f => (p.1, f)) = some fs ↔ Linked F n imports fs := by
  rw [mapM_some_iff]
  constructor <;> refine fun h => h.imp fun p q hpq => ?_
  · obtain ⟨n, hn, rfl⟩ := Option.map_eq_some_iff.1 hpq
    exact ⟨rfl, hn⟩
  · obtain ⟨h1, h2⟩ := hpq
    rw [h2, Option.map_some, h1]

theorem load_succ {F : Files N} {n : Nat} {id : Named} {f : Fn N A} :
    load F (n + 1) id = some f ↔ ∃ d fs, fnDef F id = some d ∧ Linked F n d.imports fs ∧ f = .mk d.vars fs d.expr := by
  simp only [load, Option.bind_eq_some_iff, linked_iff]
  constructor
  · rintro ⟨d, hd, fs, hl, h⟩; cases h; exact ⟨d, fs, hd, hl, rfl⟩
  · rintro ⟨d, fs, hd, hl, rfl⟩; exact ⟨d, hd, fs, hl, rfl⟩

theorem load_step {F : Files N} {n : Nat} : ∀ {id : Named} {f : Fn N A}, load F n id = some f → load F (n + 1) id = some f := by
  induction n with
  | zero => intro id f h; cases h
  | succ n ih =>
    intro id f h
    obtain ⟨d, fs, hd, hl, rfl⟩ := load_succ.1 h
    exact load_succ.2 ⟨d, fs, hd, hl.imp fun p q hpq => ⟨hpq.1, ih hpq.2⟩, rfl⟩

theorem load_mono {F : Files N} {n m : Nat} (hnm : n ≤ m) {id : Named} {f : Fn N A} (h : load F n id = some f) :
    load F m id = some f := by
  induction hnm with
  | refl => exact h
  | step _ ih => exact load_step ih

theorem linked_mono {F : Files N} {n m : Nat} (hnm : n ≤ m) {l : List (Str × Named)} {fs : List (Str × Fn N A)}
    (h : Linked F n l fs) : Linked F m l fs := h.imp fun _ _ hpq => ⟨hpq.1, load_mono hnm hpq.2⟩

/-- C106: what is loaded does not depend on the depth. -/
theorem load_unique {F : Files N} {n m : Nat} {id : Named} {f g : Fn N A} (h : load F n id = some f)
    (h' : load F m id = some g) : f = g := by
  have := load_mono (Nat.le_max_left n m) h
  rw [load_mono (Nat.le_max_right n m) h'] at this
  exact (Option.some.inj this).symm

/-- The expression function is loaded. -/
def Loads (F : Files N) (id : Named) : Prop := ∃ n, ∃ f : Fn N Unit, load F n id = some f

theorem exists_linked {F : Files N} : ∀ {l : List (Str × Named)}, (∀ p ∈ l, ∃ n, ∃ f : Fn N A, load F n p.2 = some f) →
    ∃ n, ∃ fs : List (Str × Fn N A), Linked F n l fs
  | [], _ => ⟨0, [], .nil⟩
  | p :: l, h => by
    obtain ⟨n, f, hf⟩ := h p (by simp)
    obtain ⟨m, fs, hm⟩ := exists_linked (l := l) fun q hq => h q (by simp [hq])
    exact ⟨max n m, (p.1, f) :: fs, .cons ⟨rfl, load_mono (Nat.le_max_left n m) hf⟩ (linked_mono (Nat.le_max_right n m) hm)⟩

theorem linked_mem {F : Files N} {n : Nat} {l : List (Str × Named)} {fs : List (Str × Fn N A)} (h : Linked F n l fs) :
    ∀ p ∈ l, ∃ f : Fn N A, load F n p.2 = some f := by
  induction h with
  | nil => intro p hp; cases hp
  | cons hx _ ih =>
    intro p hp
    rcases List.mem_cons.1 hp with rfl | hp
    · exact ⟨_, hx.2⟩
    · exact ih p hp

/-- C106: an expression function is loaded if and only if all definitions it refers to, directly or not, can be read, and there is
no infinite chain of imports, in particular no cycle. -/
theorem loads_iff (F : Files N) (id : Named) :
    (∃ n, ∃ f : Fn N A, load F n id = some f) ↔
      Acc (Imports F) id ∧ ∀ y, Relation.ReflTransGen (fun x y => Imports F y x) id y → ∃ vars imports e, Written F y vars imports e := by
  constructor
  · rintro ⟨n, f, h⟩
    induction n generalizing id f with
    | zero => cases h
    | succ n ih =>
      obtain ⟨d, fs, hd, hl, rfl⟩ := load_succ.1 h
      have step : ∀ y, Imports F y id → ∃ f : Fn N A, load F n y = some f := by
        intro y hy
        obtain ⟨d', hd', name, hn⟩ := imports_iff.1 hy
        rw [hd] at hd'
        cases hd'
        exact linked_mem hl _ hn
      refine ⟨⟨_, fun y hy => ?_⟩, fun y hy => ?_⟩
      · obtain ⟨g, hg⟩ := step y hy
        exact (ih y g hg).1
      · rcases Relation.ReflTransGen.cases_head hy with rfl | ⟨z, hz, hzy⟩
        · obtain ⟨e, hw, _⟩ := fnDef_iff.1 hd
          exact ⟨_, _, e, hw⟩
        · obtain ⟨g, hg⟩ := step z hz
          exact (ih z g hg).2 y hzy
  · rintro ⟨hacc, hread⟩
    induction hacc with
    | intro x _ ih =>
      obtain ⟨vars, imports, e, hw⟩ := hread x .refl
      have hd : fnDef F x = some (⟨vars, imports, ofJson e⟩ : FnDef N A) := fnDef_iff.2 ⟨e, hw, rfl⟩
      obtain ⟨n, fs, hl⟩ : ∃ n, ∃ fs : List (Str × Fn N A), Linked F n imports fs := by
        refine exists_linked fun p hp => ?_
        have hi : Imports F p.2 x := ⟨vars, imports, e, hw, p.1, hp⟩
        exact ih p.2 hi fun y hy => hread y (.head hi hy)
      exact ⟨n + 1, _, load_succ.2 ⟨_, fs, hd, hl, rfl⟩⟩

/-! ## Evaluation -/

theorem findFn_linked {F : Files N} {n : Nat} {l : List (Str × Named)} {fs : List (Str × Fn N A)} (h : Linked F n l fs)
    (name : Str) :
    (findFn name fs = none ∧ assoc name l = none) ∨
      ∃ f y, findFn name fs = some f ∧ assoc name l = some y ∧ load F n y = some f := by
  induction h with
  | nil => exact .inl ⟨rfl, rfl⟩
  | @cons p q l fs hx _ ih =>
    obtain ⟨a, y⟩ := p
    obtain ⟨b, f⟩ := q
    obtain ⟨rfl, hy⟩ := hx
    by_cases hn : name = a
    · right
      exact ⟨f, y, by rw [findFn, if_pos hn], by rw [assoc, if_pos hn], hy⟩
    · rw [findFn, if_neg hn, assoc, if_neg hn]
      exact ih

theorem eval_linked (O : Ops N A) (F : Files N) (k : Nat) : ∀ (n : Nat) (imports : List (Str × Named)) (f : Fn N A),
    Linked F n imports f.imports → eval O k f = evalNamed O (fnDef F) k imports := by
  induction k with
  | zero => intro n imports f _; funext e ρ; rfl
  | succ k ih =>
    intro n imports f h
    funext e ρ
    have hk : eval O k f = evalNamed O (fnDef F) k imports := ih n imports f h
    cases e with
    | list l => simp only [eval, evalNamed, hk]
    | map m =>
      simp only [eval, evalNamed, hk]
      congr 1; funext t; congr 1; funext ty
      split
      · congr 1; funext g; congr 1; funext name
        rcases findFn_linked h name with ⟨h1, h2⟩ | ⟨g, y, h1, h2, h3⟩
        · rw [h1, h2]
        · rw [h1, h2]
          cases n with
          | zero => cases h3
          | succ n =>
            obtain ⟨d, fs, hd, hl, rfl⟩ := load_succ.1 h3
            simp only [hd]
            rw [ih n d.imports (.mk d.vars fs d.expr) hl]
            rfl
      · rfl
    | _ => rfl

/-! ## Creation of rules -/

theorem sorted_insert {s : Str} : ∀ {l : List Str}, l.Pairwise (· ≤ ·) → (insertSorted s l).Pairwise (· ≤ ·)
  | [], _ => by simp [insertSorted]
  | x :: l, h => by
    unfold insertSorted
    obtain ⟨hx, hl⟩ := List.pairwise_cons.1 h
    split
    · next hs =>
      refine List.pairwise_cons.2 ⟨fun y hy => ?_, h⟩
      rcases List.mem_cons.1 hy with rfl | hy
      · exact hs
      · exact le_trans hs (hx y hy)
    · next hs =>
      refine List.pairwise_cons.2 ⟨fun y hy => ?_, sorted_insert hl⟩
      rcases List.mem_cons.1 ((insertSorted_perm s l).mem_iff.1 hy) with rfl | hy
      · exact (le_total _ _).resolve_left hs
      · exact hx y hy

theorem sorted_sort : ∀ l : List Str, (sortStrs l).Pairwise (· ≤ ·)
  | [] => by simp [sortStrs]
  | _ :: l => sorted_insert (sorted_sort l)

theorem mem_sort {l : List Str} {x : Str} : x ∈ sortStrs l ↔ x ∈ l := (sortStrs_perm l).mem_iff

theorem mem_inter (x : Str) (s t : List Str) (hs : s.Pairwise (· ≤ ·)) (ht : t.Pairwise (· ≤ ·)) :
    x ∈ inter s t ↔ x ∈ s ∧ x ∈ t := by
  induction s generalizing t with
  | nil => simp [inter]
  | cons a s ihs =>
    rw [inter]
    obtain ⟨ha, hs'⟩ := List.pairwise_cons.1 hs
    induction t with
    | nil => simp [interFrom]
    | cons b t iht =>
      obtain ⟨hb, ht'⟩ := List.pairwise_cons.1 ht
      rw [interFrom]
      split
      · next h =>
        rw [ihs _ hs' ht]
        refine ⟨fun ⟨h1, h2⟩ => ⟨List.mem_cons_of_mem _ h1, h2⟩, fun ⟨h1, h2⟩ => ⟨?_, h2⟩⟩
        rcases List.mem_cons.1 h1 with rfl | h1
        · exfalso
          rcases List.mem_cons.1 h2 with rfl | h2
          · exact lt_irrefl _ h
          · exact absurd (hb _ h2) (not_le_of_gt h)
        · exact h1
      · next h =>
        split
        · next h' =>
          rw [iht ht']
          refine ⟨fun ⟨h1, h2⟩ => ⟨h1, List.mem_cons_of_mem _ h2⟩, fun ⟨h1, h2⟩ => ⟨h1, ?_⟩⟩
          rcases List.mem_cons.1 h2 with rfl | h2
          · exfalso
            rcases List.mem_cons.1 h1 with rfl | h1
            · exact lt_irrefl _ h'
            · exact absurd (ha _ h1) (not_le_of_gt h')
          · exact h2
        · next h' =>
          have hab : a = b := le_antisymm (le_of_not_gt h') (le_of_not_gt h)
          subst hab
          rw [List.mem_cons, ihs _ hs' ht']
          simp only [List.mem_cons]
          tauto

theorem mem_dupLinear (x : Str) (s : List Str) (hs : s.Pairwise (· ≤ ·)) : ∀ r : List (List Str),
    (∀ t ∈ r, t.Pairwise (· ≤ ·)) → (x ∈ dupLinear s r ↔ x ∈ s ∧ ∃ t ∈ r, x ∈ t)
  | [], _ => by simp [dupLinear]
  | t :: r, h => by
    rw [dupLinear, List.mem_append, mem_inter x s t hs (h t (by simp)),
      mem_dupLinear x s hs r fun u hu => h u (by simp [hu])]
    simp only [List.mem_cons, exists_eq_or_imp]
    tauto

/-- The kinds of fields of a rule. -/
inductive Kind where
  | target
  | string
  | config
  | implicit
  | anonymous
  deriving DecidableEq

/-- The fields whose values are targets. -/
def Kind.ofTargets (k : Kind) : Prop := k = .target ∨ k = .implicit ∨ k = .anonymous

/-- The fields of a rule. -/
def Rule.Has (r : Rule N A) : Kind → Str → Prop
  | .target, x => x ∈ r.targetFields
  | .string, x => x ∈ r.stringFields
  | .config, x => x ∈ r.configFields
  | .implicit, x => x ∈ r.implicit.map Prod.fst
  | .anonymous, x => x ∈ r.anonymous.map Prod.fst

theorem reserved_sorted : reserved.Pairwise (· ≤ ·) := by decide

theorem create_iff {r r' : Rule N A} : create r = some r' ↔
    (∀ k x, r.Has k x → x ∉ reserved) ∧ (∀ k k' x, r.Has k x → r.Has k' x → k = k') ∧
    (∀ x ∈ r.transitions.map Prod.fst, ∃ k, k.ofTargets ∧ r.Has k x) ∧
    r' = { r with
      targetFields := sortStrs r.targetFields
      stringFields := sortStrs r.stringFields
      configFields := sortStrs r.configFields
      transitions := addTransitions (sortStrs (r.anonymous.map Prod.fst)) (addTransitions (sortStrs (r.implicit.map Prod.fst))
        (addTransitions (sortStrs r.targetFields) r.transitions)) } := by
  have so := sorted_sort
  have h1 : dupLinear reserved [sortStrs r.targetFields, sortStrs r.stringFields, sortStrs r.configFields,
      sortStrs (r.implicit.map Prod.fst), sortStrs (r.anonymous.map Prod.fst)] = [] ↔ ∀ k x, r.Has k x → x ∉ reserved := by
    rw [List.eq_nil_iff_forall_not_mem]
    simp only [mem_dupLinear _ _ reserved_sorted [sortStrs r.targetFields, sortStrs r.stringFields, sortStrs r.configFields,
      sortStrs (r.implicit.map Prod.fst), sortStrs (r.anonymous.map Prod.fst)] (by simp [so]), List.mem_cons,
      exists_eq_or_imp, exists_eq_left, List.not_mem_nil, or_false, mem_sort]
    constructor
    · intro h k x hk hx
      apply h x
      refine ⟨hx, ?_⟩
      cases k <;> simp only [Rule.Has] at hk <;> tauto
    · rintro h x ⟨hx, hk | hk | hk | hk | hk⟩
      · exact h .target x hk hx
      · exact h .string x hk hx
      · exact h .config x hk hx
      · exact h .implicit x hk hx
      · exact h .anonymous x hk hx
  have h2 : dupTriangular [sortStrs r.targetFields, sortStrs r.stringFields, sortStrs r.configFields,
      sortStrs (r.implicit.map Prod.fst), sortStrs (r.anonymous.map Prod.fst)] = [] ↔
        ∀ k k' x, r.Has k x → r.Has k' x → k = k' := by
    rw [List.eq_nil_iff_forall_not_mem]
    have e : ∀ x, (x ∈ dupTriangular [sortStrs r.targetFields, sortStrs r.stringFields, sortStrs r.configFields,
        sortStrs (r.implicit.map Prod.fst), sortStrs (r.anonymous.map Prod.fst)]) ↔
        (r.Has .target x ∧ (r.Has .string x ∨ r.Has .config x ∨ r.Has .implicit x ∨ r.Has .anonymous x)) ∨
        (r.Has .string x ∧ (r.Has .config x ∨ r.Has .implicit x ∨ r.Has .anonymous x)) ∨
        (r.Has .config x ∧ (r.Has .implicit x ∨ r.Has .anonymous x)) ∨ (r.Has .implicit x ∧ r.Has .anonymous x) := by
      intro x
      simp only [dupTriangular, List.mem_append, List.not_mem_nil, or_false]
      rw [mem_dupLinear _ _ (so _) _ (by simp [so]), mem_dupLinear _ _ (so _) _ (by simp [so]),
        mem_dupLinear _ _ (so _) _ (by simp [so]), mem_dupLinear _ _ (so _) _ (by simp [so]),
        mem_dupLinear _ _ (so _) _ (by simp)]
      simp only [List.mem_cons, exists_eq_or_imp, exists_eq_left, List.not_mem_nil, false_and, exists_false, or_false, mem_sort, Rule.Has,
        and_false]
    simp only [e]
    constructor
    · intro h k k' x hk hk'
      have := h x
      cases k <;> cases k' <;> first | rfl | (exfalso; tauto)
    · intro h x hx
      rcases hx with ⟨a, b | b | b | b⟩ | ⟨a, b | b | b⟩ | ⟨a, b | b⟩ | ⟨a, b⟩ <;> exact nomatch h _ _ x a b
  have h3 : ((∀ x ∈ dupLinear (sortStrs (r.transitions.map Prod.fst)) [sortStrs r.targetFields,
      sortStrs (r.implicit.map Prod.fst), sortStrs (r.anonymous.map Prod.fst)], x ∈ sortStrs (r.transitions.map Prod.fst)) ∧
      ∀ x ∈ sortStrs (r.transitions.map Prod.fst), x ∈ dupLinear (sortStrs (r.transitions.map Prod.fst)) [sortStrs r.targetFields,
        sortStrs (r.implicit.map Prod.fst), sortStrs (r.anonymous.map Prod.fst)]) ↔
      ∀ x ∈ r.transitions.map Prod.fst, ∃ k, k.ofTargets ∧ r.Has k x := by
    have e : ∀ x, x ∈ dupLinear (sortStrs (r.transitions.map Prod.fst)) [sortStrs r.targetFields,
        sortStrs (r.implicit.map Prod.fst), sortStrs (r.anonymous.map Prod.fst)] ↔
        x ∈ r.transitions.map Prod.fst ∧ (r.Has .target x ∨ r.Has .implicit x ∨ r.Has .anonymous x) := by
      intro x
      rw [mem_dupLinear _ _ (so _) _ (by simp [so])]
      simp only [List.mem_cons, exists_eq_or_imp, exists_eq_left, List.not_mem_nil, or_false, mem_sort, Rule.Has]
    constructor
    · rintro ⟨_, h⟩ x hx
      rcases ((e x).1 (h x (mem_sort.2 hx))).2 with h | h | h
      · exact ⟨.target, .inl rfl, h⟩
      · exact ⟨.implicit, .inr (.inl rfl), h⟩
      · exact ⟨.anonymous, .inr (.inr rfl), h⟩
    · intro h
      refine ⟨fun x hx => mem_sort.2 ((e x).1 hx).1, fun x hx => (e x).2 ⟨mem_sort.1 hx, ?_⟩⟩
      obtain ⟨k, rfl | rfl | rfl, hk⟩ := h x (mem_sort.1 hx)
      · exact .inl hk
      · exact .inr (.inl hk)
      · exact .inr (.inr hk)
  unfold create
  simp only [ne_eq, ite_not]
  constructor
  · intro h
    split at h
    · next a =>
      split at h
      · next b =>
        split at h
        · next c => cases h; exact ⟨h1.1 a, h2.1 b, h3.1 c, rfl⟩
        · cases h
      · cases h
    · cases h
  · rintro ⟨a, b, c, rfl⟩
    rw [if_pos (h1.2 a), if_pos (h2.2 b), if_pos (h3.2 c)]

theorem findFn_append (x : Str) (l l' : List (Str × Fn N A)) :
    findFn x (l ++ l') = (findFn x l).or (findFn x l') := by
  induction l with
  | nil => simp [findFn]
  | cons p l ih =>
    obtain ⟨a, f⟩ := p
    rw [List.cons_append, findFn, findFn]
    split <;> simp [ih]

theorem findFn_none {x : Str} {l : List (Str × Fn N A)} : findFn x l = none ↔ x ∉ l.map Prod.fst := by
  induction l with
  | nil => simp [findFn]
  | cons p l ih =>
    obtain ⟨a, f⟩ := p
    rw [findFn]
    split
    · next h => simp [h]
    · next h => simp [ih, h]

/-- The transition of a field, once the missing ones are added. -/
theorem findFn_addTransitions (x : Str) : ∀ (fields : List Str) (ts : List (Str × Fn N A)),
    findFn x (addTransitions fields ts) = (findFn x ts).or (if x ∈ fields then some emptyTransition else none)
  | [], ts => by simp [addTransitions]
  | f :: fields, ts => by
    have ih := findFn_addTransitions x fields
    unfold addTransitions at ih ⊢
    rw [List.foldl_cons, ih]
    split
    · next h =>
      by_cases hx : x = f
      · subst hx
        have : findFn x ts ≠ none := fun e => (findFn_none.1 e) h
        cases hf : findFn x ts with
        | none => exact absurd hf this
        | some _ => rfl
      · simp [List.mem_cons, hx]
    · next h =>
      rw [findFn_append]
      by_cases hx : x = f
      · subst hx
        rw [findFn_none.2 h]
        simp [findFn]
      · simp [findFn, List.mem_cons, hx]

/-! ## Reading of rules -/

/-- The definition `o` of a rule declares the field `x` of the given kind. -/
def Declared (o : List (Str × Json N)) : Kind → Str → Prop
  | .target, x => ∃ l, assoc "target_fields".toList o = some (.arr l) ∧ .str x ∈ l
  | .string, x => ∃ l, assoc "string_fields".toList o = some (.arr l) ∧ .str x ∈ l
  | .config, x => ∃ l, assoc "config_fields".toList o = some (.arr l) ∧ .str x ∈ l
  | .implicit, x => ∃ m, assoc "implicit".toList o = some (.obj m) ∧ x ∈ m.map Prod.fst
  | .anonymous, x => ∃ m, assoc "anonymous".toList o = some (.obj m) ∧ x ∈ m.map Prod.fst

/-- The expression function can be used: all definitions it refers to can be read, and imports are free of cycles. -/
def Usable (F : Files N) (id : Named) : Prop :=
  Acc (Imports F) id ∧ ∀ y, Relation.ReflTransGen (fun x y => Imports F y x) id y → ∃ vars imports e, Written F y vars imports e

/-- The parts of the definition of a rule are what they have to be, and all names resolve. -/
structure WellTyped (F : Files N) (id : Named) (o : List (Str × Json N)) : Prop where
  expression : ∃ e, assoc "expression".toList o = some e
  lists : ∀ f ∈ ["target_fields", "string_fields", "config_fields", "config_vars", "tainted"], ∀ j,
    assoc f.toList o = some j → ∃ l : List Str, j = .arr (l.map .str)
  implicit : ∀ j, assoc "implicit".toList o = some j → ∃ m, j = .obj m ∧ ∀ p ∈ m, ∃ l, p.2 = .arr l ∧
    ∀ x ∈ l, ∃ y, parse F.bind x id = some y
  anonymous : ∀ j, assoc "anonymous".toList o = some j → ∃ m, j = .obj m ∧ ∀ p ∈ m, ∃ d t v rm, p.2 = .obj d ∧
    assoc "target".toList d = some (.str t) ∧ assoc "provider".toList d = some (.str v) ∧
    assoc "rule_map".toList d = some (.obj rm) ∧ ∀ q ∈ rm, ∃ y, parse F.bind q.2 id = some y
  transitions : ∀ j, assoc "config_transitions".toList o = some j → ∃ m, j = .obj m
  imports : ∀ j, assoc "imports".toList o = some j → ∃ m, j = .obj m ∧ ∀ p ∈ m, ∃ y, parse F.bind p.2 id = some y ∧ Usable F y

/-- The fields of the definition of a rule are as required. -/
structure FieldsOk (o : List (Str × Json N)) : Prop where
  /-- no field has a reserved name -/
  free : ∀ k x, Declared o k x → x ≠ "arguments_config".toList ∧ x ≠ "tainted".toList ∧ x ≠ "type".toList
  /-- no name is used for fields of different kinds -/
  single : ∀ k k' x, Declared o k x → Declared o k' x → k = k'
  /-- transitions are given for fields whose values are targets -/
  transitions : ∀ m, assoc "config_transitions".toList o = some (.obj m) → ∀ x ∈ m.map Prod.fst, ∃ k, k.ofTargets ∧ Declared o k x

/-- The contents of a rule are what is written in its definition. -/
structure Contents (F : Files N) (id : Named) (o : List (Str × Json N)) (r : Rule N A) : Prop where
  target : ∃ l, Strings o "target_fields" l ∧ List.Perm r.targetFields l
  string : ∃ l, Strings o "string_fields" l ∧ List.Perm r.stringFields l
  config : ∃ l, Strings o "config_fields" l ∧ List.Perm r.configFields l
  implicit : ∃ m, Object o "implicit" m ∧ List.Forall₂ (fun p q => p.1 = q.1 ∧ ∃ l, p.2 = .arr l ∧
    List.Forall₂ (fun j y => parse F.bind j id = some y) l q.2) m r.implicit
  anonymous : ∃ m, Object o "anonymous" m ∧ List.Forall₂ (fun p q => p.1 = q.1 ∧ ∃ d rm, p.2 = .obj d ∧
    assoc "target".toList d = some (.str q.2.target) ∧ assoc "provider".toList d = some (.str q.2.provider) ∧
    assoc "rule_map".toList d = some (.obj rm) ∧
    List.Forall₂ (fun p q => p.1 = q.1 ∧ parse F.bind p.2 id = some q.2) rm q.2.ruleMap) m r.anonymous
  vars : Strings o "config_vars" r.configVars
  tainted : Strings o "tainted" r.tainted

theorem readTransitions_iff {o : List (Str × Json N)} {cv : List Str} {fs ts : List (Str × Fn N A)} :
    readTransitions o cv fs = some ts ↔ ∃ m, Object o "config_transitions" m ∧ ts = m.map fun p => (p.1, .mk cv fs (ofJson p.2)) := by
  simp only [readTransitions, Option.bind_eq_some_iff, readObject_iff, Option.some.injEq]
  exact exists_congr fun m => and_congr_right fun _ => eq_comm

theorem readImplicit_iff {F : Files N} {id : Named} {o : List (Str × Json N)} {l : List (Str × List Named)} :
    readImplicit F id o = some l ↔ ∃ m, Object o "implicit" m ∧ List.Forall₂ (fun p q => p.1 = q.1 ∧ ∃ l, p.2 = .arr l ∧
      List.Forall₂ (fun j y => parse F.bind j id = some y) l q.2) m l := by
  simp only [readImplicit, Option.bind_eq_some_iff, readObject_iff, mapM_some_iff, array?_eq]
  constructor <;> rintro ⟨m, hm, h⟩ <;> refine ⟨m, hm, h.imp fun p q hpq => ?_⟩
  · obtain ⟨js, hj, ns, hn, h⟩ := hpq
    cases h
    exact ⟨rfl, js, hj, hn⟩
  · obtain ⟨h1, js, hj, hn⟩ := hpq
    exact ⟨js, hj, q.2, hn, by rw [h1]⟩

theorem readAnonymous_iff {F : Files N} {id : Named} {o : List (Str × Json N)} {l : List (Str × Anon)} :
    readAnonymous F id o = some l ↔ ∃ m, Object o "anonymous" m ∧ List.Forall₂ (fun p q => p.1 = q.1 ∧ ∃ d rm, p.2 = .obj d ∧
      assoc "target".toList d = some (.str q.2.target) ∧ assoc "provider".toList d = some (.str q.2.provider) ∧
      assoc "rule_map".toList d = some (.obj rm) ∧
      List.Forall₂ (fun p q => p.1 = q.1 ∧ parse F.bind p.2 id = some q.2) rm q.2.ruleMap) m l := by
  simp only [readAnonymous, Option.bind_eq_some_iff, readObject_iff, mapM_some_iff, object?_eq, string?_eq, readNames_iff]
  constructor <;> rintro ⟨m, hm, h⟩ <;> refine ⟨m, hm, h.imp fun p q hpq => ?_⟩
  · obtain ⟨d, hd, t, ⟨_, ht, rfl⟩, v, ⟨_, hv, rfl⟩, rm, ⟨_, hr, rfl⟩, ns, hn, h⟩ := hpq
    cases h
    exact ⟨rfl, d, rm, hd, ht, hv, hr, hn⟩
  · obtain ⟨h1, d, rm, hd, ht, hv, hr, hn⟩ := hpq
    exact ⟨d, hd, q.2.target, ⟨_, ht, rfl⟩, q.2.provider, ⟨_, hv, rfl⟩, rm, ⟨_, hr, rfl⟩, q.2.ruleMap, hn, by rw [h1]⟩

theorem loadRule_iff {F : Files N} {n : Nat} {id : Named} {r : Rule N A} : loadRule F n id = some r ↔
    id.ref = .target ∧ ∃ file o e tf sf cf im an cv ta m as fs ts, F.rules id.repo id.module = some file ∧
      assoc id.name file = some (.obj o) ∧ assoc "expression".toList o = some e ∧ Strings o "target_fields" tf ∧
      Strings o "string_fields" sf ∧ Strings o "config_fields" cf ∧ readImplicit F id o = some im ∧
      readAnonymous F id o = some an ∧ Strings o "config_vars" cv ∧ Strings o "tainted" ta ∧ Object o "imports" m ∧
      List.Forall₂ (fun p q => p.1 = q.1 ∧ parse F.bind p.2 id = some q.2) m as ∧ Linked F n as fs ∧
      readTransitions o cv fs = some ts ∧ create ⟨tf, sf, cf, im, an, cv, ta, ts, .mk cv fs (ofJson e)⟩ = some r := by
  unfold loadRule
  constructor
  · intro h
    split at h
    case isFalse => cases h
    case isTrue hr =>
      simp only [Option.bind_eq_some_iff, readExpression, Option.map_eq_some_iff, object?_eq, readStrings_iff, readObject_iff,
        readNames_iff, linked_iff] at h
      obtain ⟨file, hf, j, hj, o, rfl, _, ⟨e, he, rfl⟩, tf, h1, sf, h2, cf, h3, im, h4, an, h5, cv, h6, ta, h7, m, h8, as, h9,
        fs, h10, ts, h11, h12⟩ := h
      exact ⟨hr, file, o, e, tf, sf, cf, im, an, cv, ta, m, as, fs, ts, hf, hj, he, h1, h2, h3, h4, h5, h6, h7, h8, h9, h10,
        h11, h12⟩
  · rintro ⟨hr, file, o, e, tf, sf, cf, im, an, cv, ta, m, as, fs, ts, hf, hj, he, h1, h2, h3, h4, h5, h6, h7, h8, h9, h10,
      h11, h12⟩
    rw [if_pos hr]
    simp only [Option.bind_eq_some_iff, readExpression, Option.map_eq_some_iff, object?_eq, readStrings_iff, readObject_iff,
      readNames_iff, linked_iff]
    exact ⟨file, hf, _, hj, o, rfl, _, ⟨e, he, rfl⟩, tf, h1, sf, h2, cf, h3, im, h4, an, h5, cv, h6, ta, h7, m, h8, as, h9,
        fs, h10, ts, h11, h12⟩

theorem strings_mem {o : List (Str × Json N)} {f : String} {l : List Str} (h : Strings o f l) (x : Str) :
    x ∈ l ↔ ∃ js, assoc f.toList o = some (.arr js) ∧ .str x ∈ js := by
  rcases h with ⟨h, rfl⟩ | h
  · rw [h]; simp
  · rw [h]
    constructor
    · intro hx
      exact ⟨_, rfl, List.mem_map.2 ⟨x, hx, rfl⟩⟩
    · rintro ⟨js, h, hx⟩
      cases h
      obtain ⟨y, hy, e⟩ := List.mem_map.1 hx
      cases e
      exact hy

theorem object_mem {o : List (Str × Json N)} {f : String} {m : List (Str × Json N)} (h : Object o f m) (x : Str) :
    x ∈ m.map Prod.fst ↔ ∃ m, assoc f.toList o = some (.obj m) ∧ x ∈ m.map Prod.fst := by
  rcases h with ⟨h, rfl⟩ | h
  · rw [h]; simp
  · rw [h]
    constructor
    · intro hx; exact ⟨_, rfl, hx⟩
    · rintro ⟨js, h, hx⟩
      cases h
      exact hx

theorem forall₂_keys {X Y : Type} {R : Str × X → Str × Y → Prop} {l : List (Str × X)} {l' : List (Str × Y)}
    (h : List.Forall₂ (fun p q => p.1 = q.1 ∧ R p q) l l') : l'.map Prod.fst = l.map Prod.fst := by
  induction h with
  | nil => rfl
  | cons hx _ ih => rw [List.map_cons, List.map_cons, ih, hx.1]

theorem declared_iff {F : Files N} {id : Named} {o : List (Str × Json N)} {tf sf cf cv ta : List Str}
    {im : List (Str × List Named)} {an : List (Str × Anon)} {ts : List (Str × Fn N A)} {e : Fn N A}
    (h1 : Strings o "target_fields" tf) (h2 : Strings o "string_fields" sf) (h3 : Strings o "config_fields" cf)
    (h4 : readImplicit F id o = some im) (h5 : readAnonymous F id o = some an) (k : Kind) (x : Str) :
    (⟨tf, sf, cf, im, an, cv, ta, ts, e⟩ : Rule N A).Has k x ↔ Declared o k x := by
  cases k with
  | target => exact strings_mem h1 x
  | string => exact strings_mem h2 x
  | config => exact strings_mem h3 x
  | implicit =>
    obtain ⟨m, hm, h⟩ := readImplicit_iff.1 h4
    change x ∈ im.map Prod.fst ↔ _
    rw [forall₂_keys h]
    exact object_mem hm x
  | anonymous =>
    obtain ⟨m, hm, h⟩ := readAnonymous_iff.1 h5
    change x ∈ an.map Prod.fst ↔ _
    rw [forall₂_keys h]
    exact object_mem hm x

theorem exists_strings {o : List (Str × Json N)} {f : String}
    (h : ∀ j, assoc f.toList o = some j → ∃ l : List Str, j = .arr (l.map .str)) : ∃ l, Strings o f l := by
  cases e : assoc f.toList o with
  | none => exact ⟨[], .inl ⟨e, rfl⟩⟩
  | some j =>
    obtain ⟨l, rfl⟩ := h j e
    exact ⟨l, .inr e⟩

theorem exists_forall₂ {X Y : Type} {R : X → Y → Prop} : ∀ {l : List X}, (∀ x ∈ l, ∃ y, R x y) → ∃ l', List.Forall₂ R l l'
  | [], _ => ⟨[], .nil⟩
  | x :: l, h => by
    obtain ⟨y, hy⟩ := h x (by simp)
    obtain ⟨l', hl⟩ := exists_forall₂ (l := l) fun z hz => h z (by simp [hz])
    exact ⟨y :: l', .cons hy hl⟩

theorem forall₂_mem {X Y : Type} {R : X → Y → Prop} {l : List X} {l' : List Y} (h : List.Forall₂ R l l') :
    ∀ x ∈ l, ∃ y ∈ l', R x y := by
  induction h with
  | nil => intro x hx; cases hx
  | cons hx _ ih =>
    intro x hm
    rcases List.mem_cons.1 hm with rfl | hm
    · exact ⟨_, by simp, hx⟩
    · obtain ⟨y, hy, h⟩ := ih x hm
      exact ⟨y, by simp [hy], h⟩

theorem exists_object {o : List (Str × Json N)} {f : String} {P : List (Str × Json N) → Prop} (h0 : P [])
    (h : ∀ j, assoc f.toList o = some j → ∃ m, j = .obj m ∧ P m) : ∃ m, Object o f m ∧ P m := by
  cases e : assoc f.toList o with
  | none => exact ⟨[], .inl ⟨e, rfl⟩, h0⟩
  | some j =>
    obtain ⟨m, rfl, hm⟩ := h j e
    exact ⟨m, .inr e, hm⟩

theorem object_typed {o : List (Str × Json N)} {f : String} {m : List (Str × Json N)} (h : Object o f m) {j : Json N}
    (hj : assoc f.toList o = some j) : j = .obj m := by
  rcases h with ⟨h, _⟩ | h
  · rw [h] at hj; cases hj
  · rw [h] at hj; cases hj; rfl

theorem strings_typed {o : List (Str × Json N)} {f : String} {l : List Str} (h : Strings o f l) {j : Json N}
    (hj : assoc f.toList o = some j) : ∃ l : List Str, j = .arr (l.map .str) := by
  rcases h with ⟨h, _⟩ | h
  · rw [h] at hj; cases hj
  · rw [h] at hj; cases hj; exact ⟨l, rfl⟩

theorem mem_reserved {x : Str} : x ∉ reserved ↔ x ≠ "arguments_config".toList ∧ x ≠ "tainted".toList ∧ x ≠ "type".toList := by
  simp only [reserved, List.mem_cons, List.not_mem_nil, or_false, not_or, ne_eq]

/-- C106: a rule is accepted if and only if its definition is an object of the required form, no field has a reserved name, no
field has several types, transitions are given for fields of targets only, and all imported functions can be used. -/
theorem C106_accepted (F : Files N) (id : Named) :
    (∃ n, ∃ r : Rule N A, loadRule F n id = some r) ↔
      id.ref = .target ∧ ∃ file o, F.rules id.repo id.module = some file ∧ assoc id.name file = some (.obj o) ∧
        WellTyped F id o ∧ FieldsOk o := by
  constructor
  · rintro ⟨n, r, h⟩
    obtain ⟨hr, file, o, e, tf, sf, cf, im, an, cv, ta, m, as, fs, ts, hf, hj, he, h1, h2, h3, h4, h5, h6, h7, h8, h9, h10,
      h11, h12⟩ := loadRule_iff.1 h
    obtain ⟨c1, c2, c3, -⟩ := create_iff.1 h12
    have hd := declared_iff (cv := cv) (ta := ta) (ts := ts) (e := .mk cv fs (ofJson e)) h1 h2 h3 h4 h5
    refine ⟨hr, file, o, hf, hj, ⟨⟨e, he⟩, ?_, ?_, ?_, ?_, ?_⟩, ⟨?_, ?_, ?_⟩⟩
    · intro f hf j hj
      simp only [List.mem_cons, List.not_mem_nil, or_false] at hf
      rcases hf with rfl | rfl | rfl | rfl | rfl
      · exact strings_typed h1 hj
      · exact strings_typed h2 hj
      · exact strings_typed h3 hj
      · exact strings_typed h6 hj
      · exact strings_typed h7 hj
    · intro j hj
      obtain ⟨m, hm, h⟩ := readImplicit_iff.1 h4
      refine ⟨m, object_typed hm hj, fun p hp => ?_⟩
      obtain ⟨q, _, _, l, hl, h⟩ := forall₂_mem h p hp
      exact ⟨l, hl, fun x hx => (forall₂_mem h x hx).imp fun y hy => hy.2⟩
    · intro j hj
      obtain ⟨m, hm, h⟩ := readAnonymous_iff.1 h5
      refine ⟨m, object_typed hm hj, fun p hp => ?_⟩
      obtain ⟨q, _, _, d, rm, hd, ht, hv, hr, h⟩ := forall₂_mem h p hp
      exact ⟨d, _, _, rm, hd, ht, hv, hr, fun x hx => (forall₂_mem h x hx).elim fun y hy => ⟨y.2, hy.2.2⟩⟩
    · intro j hj
      obtain ⟨m, hm, -⟩ := readTransitions_iff.1 h11
      exact ⟨m, object_typed hm hj⟩
    · intro j hj
      refine ⟨m, object_typed h8 hj, fun p hp => ?_⟩
      obtain ⟨q, hq, _, hpq⟩ := forall₂_mem h9 p hp
      obtain ⟨f, hf⟩ := linked_mem h10 q hq
      exact ⟨q.2, hpq, (loads_iff F q.2).1 ⟨n, f, hf⟩⟩
    · intro k x hx
      exact mem_reserved.1 (c1 k x ((hd k x).2 hx))
    · intro k k' x hk hk'
      exact c2 k k' x ((hd k x).2 hk) ((hd k' x).2 hk')
    · intro tm htm x hx
      obtain ⟨m', hm', hts⟩ := readTransitions_iff.1 h11
      have e := object_typed hm' htm
      cases e
      obtain ⟨k, hk, h⟩ := c3 x (by
        rw [hts, List.map_map]
        exact hx)
      exact ⟨k, hk, (hd k x).1 h⟩
  · rintro ⟨hr, file, o, hf, hj, w, g⟩
    obtain ⟨e, he⟩ := w.expression
    obtain ⟨tf, h1⟩ := exists_strings (w.lists "target_fields" (by simp))
    obtain ⟨sf, h2⟩ := exists_strings (w.lists "string_fields" (by simp))
    obtain ⟨cf, h3⟩ := exists_strings (w.lists "config_fields" (by simp))
    obtain ⟨cv, h6⟩ := exists_strings (w.lists "config_vars" (by simp))
    obtain ⟨ta, h7⟩ := exists_strings (w.lists "tainted" (by simp))
    obtain ⟨im, h4⟩ : ∃ im, readImplicit F id o = some im := by
      obtain ⟨m, hm, h⟩ := exists_object (by simp) w.implicit
      obtain ⟨im, hi⟩ := exists_forall₂ (R := fun p (q : Str × List Named) => p.1 = q.1 ∧ ∃ l, p.2 = .arr l ∧
        List.Forall₂ (fun j y => parse F.bind j id = some y) l q.2) (l := m) (by
          intro p hp
          obtain ⟨l, hl, hn⟩ := h p hp
          obtain ⟨ns, hns⟩ := exists_forall₂ hn
          exact ⟨(p.1, ns), rfl, l, hl, hns⟩)
      exact ⟨im, readImplicit_iff.2 ⟨m, hm, hi⟩⟩
    obtain ⟨an, h5⟩ : ∃ an, readAnonymous F id o = some an := by
      obtain ⟨m, hm, h⟩ := exists_object (by simp) w.anonymous
      obtain ⟨im, hi⟩ := exists_forall₂ (R := fun p (q : Str × Anon) => p.1 = q.1 ∧ ∃ d rm, p.2 = .obj d ∧
        assoc "target".toList d = some (.str q.2.target) ∧ assoc "provider".toList d = some (.str q.2.provider) ∧
        assoc "rule_map".toList d = some (.obj rm) ∧
        List.Forall₂ (fun p q => p.1 = q.1 ∧ parse F.bind p.2 id = some q.2) rm q.2.ruleMap) (l := m) (by
          intro p hp
          obtain ⟨d, t, v, rm, hd, ht, hv, hr, hn⟩ := h p hp
          obtain ⟨ns, hns⟩ := exists_forall₂ (R := fun p (q : Str × Named) => p.1 = q.1 ∧ parse F.bind p.2 id = some q.2) (l := rm)
            fun q hq => (hn q hq).elim fun y hy => ⟨(q.1, y), rfl, hy⟩
          exact ⟨(p.1, ⟨t, v, ns⟩), rfl, d, rm, hd, ht, hv, hr, hns⟩)
      exact ⟨im, readAnonymous_iff.2 ⟨m, hm, hi⟩⟩
    obtain ⟨m, h8, hm⟩ := exists_object (by simp) w.imports
    obtain ⟨as, h9⟩ := exists_forall₂ (R := fun p (q : Str × Named) => p.1 = q.1 ∧ parse F.bind p.2 id = some q.2) (l := m)
      fun q hq => (hm q hq).elim fun y hy => ⟨(q.1, y), rfl, hy.1⟩
    obtain ⟨n, fs, h10⟩ : ∃ n, ∃ fs : List (Str × Fn N A), Linked F n as fs := by
      refine exists_linked fun q hq => (loads_iff F q.2).2 ?_
      obtain ⟨p, hp, hpq⟩ : ∃ p ∈ m, p.1 = q.1 ∧ parse F.bind p.2 id = some q.2 := by
        have := forall₂_mem (h9.flip) q hq
        exact this
      obtain ⟨y, hy, hu⟩ := hm p hp
      rw [hpq.2] at hy
      cases hy
      exact hu
    obtain ⟨tm, h11, -⟩ := exists_object (P := fun _ => True) trivial fun j hj => (w.transitions j hj).imp fun m hm => ⟨hm, trivial⟩
    have hd := declared_iff (A := A) (cv := cv) (ta := ta) (ts := tm.map fun p => (p.1, .mk cv fs (ofJson p.2)))
      (e := .mk cv fs (ofJson e)) h1 h2 h3 h4 h5
    refine ⟨n, _, loadRule_iff.2 ⟨hr, file, o, e, tf, sf, cf, im, an, cv, ta, m, as, fs, _, hf, hj, he, h1, h2, h3, h4, h5, h6,
      h7, h8, h9, h10, readTransitions_iff.2 ⟨tm, h11, rfl⟩, create_iff.2 ⟨fun k x hx => ?_, fun k k' x hk hk' => ?_,
        fun x hx => ?_, rfl⟩⟩⟩
    · exact mem_reserved.2 (g.free k x ((hd k x).1 hx))
    · exact g.single k k' x ((hd k x).1 hk) ((hd k' x).1 hk')
    · rw [List.map_map] at hx
      obtain ⟨tm', htm, hx⟩ := (object_mem h11 x).1 hx
      obtain ⟨k, hk, h⟩ := g.transitions tm' htm x hx
      exact ⟨k, hk, (hd k x).2 h⟩

theorem findFn_map (x : Str) (g : Json N → Fn N A) : ∀ m : List (Str × Json N),
    findFn x (m.map fun p => (p.1, g p.2)) = (assoc x m).map g
  | [] => rfl
  | (k, v) :: m => by
    rw [List.map_cons, findFn, assoc]
    split
    · rfl
    · exact findFn_map x g m

/-- C106: a rule is what is written in its definition.  Its expression, and the transitions given, mean what they mean with the
names of called functions looked up, at each call, in the imports written next to the calling expression.  Every field whose
values are targets has a transition: the one given for it, and otherwise the one to the unchanged configuration. -/
theorem C106_meaning (F : Files N) (n : Nat) (id : Named) (r : Rule N A) (h : loadRule F n id = some r) :
    ∃ file o e m imports, F.rules id.repo id.module = some file ∧ assoc id.name file = some (.obj o) ∧ Contents F id o r ∧
      assoc "expression".toList o = some e ∧ Object o "imports" m ∧
      List.Forall₂ (fun p q => p.1 = q.1 ∧ parse F.bind p.2 id = some q.2) m imports ∧
      (∀ (O : Ops N A) k ρ, evaluate O k r.expr ρ = evalNamed O (fnDef F) k imports (ofJson e) (ρ.prune r.configVars)) ∧
      ∀ x, (∃ k, k.ofTargets ∧ Declared o k x) → ∃ f, findFn x r.transitions = some f ∧
        ((∃ tm e, assoc "config_transitions".toList o = some (.obj tm) ∧ assoc x tm = some e ∧ ∀ (O : Ops N A) k ρ,
          evaluate O k f ρ = evalNamed O (fnDef F) k imports (ofJson e) (ρ.prune r.configVars)) ∨
        ((∀ tm, assoc "config_transitions".toList o = some (.obj tm) → assoc x tm = none) ∧ ∀ (O : Ops N A) k ρ,
          O.provided "empty_map".toList = none → evaluate O (k + 2) f ρ = .ok (.list [.map []]))) := by
  obtain ⟨hr, file, o, e, tf, sf, cf, im, an, cv, ta, m, as, fs, ts, hf, hj, he, h1, h2, h3, h4, h5, h6, h7, h8, h9, h10,
    h11, h12⟩ := loadRule_iff.1 h
  obtain ⟨c1, c2, c3, rfl⟩ := create_iff.1 h12
  have hd := declared_iff (cv := cv) (ta := ta) (ts := ts) (e := .mk cv fs (ofJson e)) h1 h2 h3 h4 h5
  refine ⟨file, o, e, m, as, hf, hj, ⟨⟨tf, h1, sortStrs_perm _⟩, ⟨sf, h2, sortStrs_perm _⟩, ⟨cf, h3, sortStrs_perm _⟩,
    readImplicit_iff.1 h4, readAnonymous_iff.1 h5, h6, h7⟩, he, h8, h9, fun O k ρ => ?_, fun x hx => ?_⟩
  · exact congrFun (congrFun (eval_linked O F k n as (.mk cv fs (ofJson e)) h10) _) _
  · obtain ⟨tm, htm, rfl⟩ := readTransitions_iff.1 h11
    simp only [findFn_addTransitions, findFn_map x (fun j => Fn.mk cv fs (ofJson j)) tm, mem_sort]
    cases ha : assoc x tm with
    | some v =>
      refine ⟨.mk cv fs (ofJson v), by simp, .inl ⟨tm, v, ?_, ha, fun O k ρ => ?_⟩⟩
      · rcases htm with ⟨_, rfl⟩ | htm
        · cases ha
        · exact htm
      · exact congrFun (congrFun (eval_linked O F k n as (.mk cv fs (ofJson v)) h10) _) _
    | none =>
      refine ⟨emptyTransition, ?_, .inr ⟨fun tm' h' => ?_, fun O k ρ ho => ?_⟩⟩
      · obtain ⟨k, rfl | rfl | rfl, hk⟩ := hx
        · have hk' := (hd .target x).2 hk
          simp only [Rule.Has] at hk'
          simp [hk']
        · have hk' := (hd .implicit x).2 hk
          simp only [Rule.Has] at hk'
          by_cases ht : x ∈ tf <;> simp only [if_pos hk'] <;> simp [ht]
        · have hk' := (hd .anonymous x).2 hk
          simp only [Rule.Has] at hk'
          by_cases ht' : x ∈ im.map Prod.fst
          · by_cases ht : x ∈ tf <;> simp only [if_pos ht'] <;> simp [ht]
          · by_cases ht : x ∈ tf <;> simp only [if_pos hk', if_neg ht'] <;> simp [ht]
      · rcases htm with ⟨htm, _⟩ | htm
        · rw [htm] at h'; cases h'
        · rw [htm] at h'; cases h'; exact ha
      · have hb : assoc "empty_map".toList (builtIns O) = some emptyMapExpr := rfl
        have ht : assoc "type".toList ([("type".toList, .str "empty_map".toList)] : Items N A) = some (.str "empty_map".toList) := rfl
        have hc : ¬ "empty_map".toList = "CALL_EXPRESSION".toList := by decide
        simp only [evaluate, emptyTransition, Fn.expr, Fn.vars, eval, mapRes, ht, Res.ofOption, Res.bind, Val.str?, hc, if_false, ho, hb]
        rfl

/-- C106: an imported function is found only if imports are free of cycles: a function that can be reached by imports from itself
is not loaded, nor is any function (or rule) from which it can be reached. -/
theorem C106_cycle (F : Files N) (x y : Named) (hxy : Relation.ReflTransGen (fun x y => Imports F y x) x y)
    (hy : Relation.TransGen (fun x y => Imports F y x) y y) (n : Nat) : (load F n x : Option (Fn N A)) = none := by
  cases h : (load F n x : Option (Fn N A)) with
  | none => rfl
  | some f =>
    exfalso
    have hacc := ((loads_iff F x).1 ⟨n, f, h⟩).1
    have hya : Acc (Imports F) y := by
      clear hy h
      induction hxy with
      | refl => exact hacc
      | tail _ hz ih => exact ih.inv hz
    have hty : Acc (Relation.TransGen (Imports F)) y := hya.transGen
    have hy' : Relation.TransGen (Imports F) y y := by
      have : ∀ a b, Relation.TransGen (fun x y => Imports F y x) a b → Relation.TransGen (Imports F) b a := by
        intro a b h
        induction h with
        | single h => exact .single h
        | tail _ h ih => exact .head h ih
      exact this y y hy
    have irr : ∀ z, Acc (Relation.TransGen (Imports F)) z → ¬ Relation.TransGen (Imports F) z z := by
      intro z hz
      induction hz with
      | intro z _ ih => exact fun hc => ih z hc hc
    exact irr y hty hy'

/-- C106: an expression function is loaded if and only if all definitions it refers to, directly or not, can be read, and there is
no infinite chain of imports; what is loaded does not depend on how it is reached; and it means what it means with the names of
called functions looked up, at each call, in the imports written next to the calling expression. -/
theorem C106_functions (F : Files N) (id : Named) :
    ((∃ n, ∃ f : Fn N A, load F n id = some f) ↔ Usable F id) ∧
    (∀ n n', ∀ f g : Fn N A, load F n id = some f → load F n' id = some g → f = g) ∧
    ∀ n, ∀ f : Fn N A, load F n id = some f → ∃ vars imports e, Written F id vars imports e ∧
      ∀ (O : Ops N A) k ρ, evaluate O k f ρ = evalNamed O (fnDef F) k imports (ofJson e) (ρ.prune vars) := by
  refine ⟨loads_iff F id, fun _ _ _ _ h h' => load_unique h h', fun n f h => ?_⟩
  cases n with
  | zero => cases h
  | succ n =>
    obtain ⟨d, fs, hd, hl, rfl⟩ := load_succ.1 h
    obtain ⟨e, hw, he⟩ := fnDef_iff.1 hd
    refine ⟨d.vars, d.imports, e, hw, fun O k ρ => ?_⟩
    rw [← he]
    exact congrFun (congrFun (eval_linked O F k n d.imports (.mk d.vars fs d.expr) hl) _) _

/-- C106: what `evalNamed` takes for the definition of a name is what is written in the file. -/
theorem C106_defs (F : Files N) (id : Named) (d : FnDef N A) :
    fnDef F id = some d ↔ ∃ e, Written F id d.vars d.imports e ∧ d.expr = ofJson e := fnDef_iff

end Verif.Rules
