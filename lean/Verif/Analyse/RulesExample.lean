import Verif.Analyse.RulesProps

/-!
# Examples for C106 and a violation
-/

namespace Verif.Rules

open Verif.Names Verif.Expr Verif.RE

/-- String literal in JSON. -/
def js (s : String) : Json Unit := .str s.toList

/-- Object literal in JSON. -/
def jo (l : List (String × Json Unit)) : Json Unit := .obj (l.map fun p => (p.1.toList, p.2))

/-- Expressions of the module `m`: `f` calls `h` by the name `g`; `loop` imports itself. -/
def exampleExprs : List (Str × Json Unit) :=
  [("f".toList, jo [("expression", jo [("name", js "g"), ("type", js "CALL_EXPRESSION")]), ("imports", jo [("g", js "h")])]),
   ("h".toList, jo [("expression", jo [("name", js "x"), ("type", js "var")]), ("vars", .arr [js "x"])]),
   ("loop".toList, jo [("expression", .null), ("imports", jo [("l", js "loop")])])]

/-- Rules of the module `m`; the last two are not accepted. -/
def exampleRules : List (Str × Json Unit) :=
  [("lib".toList, jo
      [("anonymous", jo [("protos", jo [("provider", js "proto"), ("rule_map", jo [("node", js "lib")]), ("target", js "deps")])]),
       ("config_transitions", jo [("deps", .arr [jo [("name", js "f"), ("type", js "CALL_EXPRESSION")]])]),
       ("config_vars", .arr [js "x"]),
       ("expression", jo [("name", js "f"), ("type", js "CALL_EXPRESSION")]),
       ("implicit", jo [("tool", .arr [js "compiler"])]),
       ("imports", jo [("f", js "f")]),
       ("target_fields", .arr [js "srcs", js "deps"])]),
   ("odd".toList, jo
      [("anonymous", jo [("protos", jo [("provider", js "proto"), ("rule_map", jo []), ("target", js "dpes")])]),
       ("expression", .null), ("target_fields", .arr [js "deps"])]),
   ("twice".toList, jo [("config_fields", .arr [js "deps"]), ("expression", .null), ("target_fields", .arr [js "deps"])]),
   ("cyclic".toList, jo [("expression", .null), ("imports", jo [("l", js "loop")])])]

/-- Files of one repository, with one module. -/
def exampleFiles : Files Unit where
  exprs r m := if r = "r".toList ∧ m = "m".toList then some exampleExprs else none
  rules r m := if r = "r".toList ∧ m = "m".toList then some exampleRules else none
  bind _ _ := none

/-- Name in the module `m`. -/
def exampleName (s : String) : Named := ⟨"r".toList, "m".toList, s.toList, .target⟩

/-- Non-vacuity of C106_functions: functions are loaded. -/
example : ∃ f : Fn Unit Unit, load exampleFiles 2 (exampleName "f") = some f := ⟨_, rfl⟩

/-- Non-vacuity of C106_accepted and C106_meaning: a rule is loaded; the second transition is the one added. -/
example : ∃ r : Rule Unit Unit, loadRule exampleFiles 2 (exampleName "lib") = some r ∧
    r.targetFields = ["deps".toList, "srcs".toList] ∧
    r.transitions.map Prod.fst = ["deps".toList, "srcs".toList, "tool".toList, "protos".toList] := ⟨_, rfl, rfl, rfl⟩

/-- C106: a name used for fields of different kinds is not accepted. -/
example (n : Nat) : (loadRule exampleFiles n (exampleName "twice") : Option (Rule Unit Unit)) = none := by
  cases h : (loadRule exampleFiles n (exampleName "twice") : Option (Rule Unit Unit)) with
  | none => rfl
  | some r =>
    exfalso
    obtain ⟨_, file, o, hf, ho, _, hok⟩ := (C106_accepted exampleFiles (exampleName "twice")).1 ⟨n, r, h⟩
    cases hf
    cases ho
    have := hok.single .target .config "deps".toList ⟨_, rfl, .head _⟩ ⟨_, rfl, .head _⟩
    cases this

theorem example_loop : Imports exampleFiles (exampleName "loop") (exampleName "loop") :=
  ⟨[], [("l".toList, exampleName "loop")], .null,
    ⟨rfl, _, _, [("l".toList, js "loop")], rfl, rfl, rfl, .inl ⟨rfl, rfl⟩, .inr rfl, .cons ⟨rfl, rfl⟩ .nil⟩, "l".toList, .head _⟩

/-- Non-vacuity of C106_cycle: there is a cycle. -/
example (n : Nat) : (load exampleFiles n (exampleName "loop") : Option (Fn Unit Unit)) = none :=
  C106_cycle exampleFiles _ _ .refl (.single example_loop) n

instance (r : Rule Unit Unit) (k : Kind) (x : Str) : Decidable (r.Has k x) :=
  match k with
  | .target => inferInstanceAs (Decidable (x ∈ r.targetFields))
  | .string => inferInstanceAs (Decidable (x ∈ r.stringFields))
  | .config => inferInstanceAs (Decidable (x ∈ r.configFields))
  | .implicit => inferInstanceAs (Decidable (x ∈ r.implicit.map Prod.fst))
  | .anonymous => inferInstanceAs (Decidable (x ∈ r.anonymous.map Prod.fst))

/-- V96: a rule is accepted though the field, named by the definition of an anonymous field, to take the nodes from is none of
the fields of the rule.  (By the documentation it has to be a member of the `target_fields`.) -/
theorem C106_violation_anonymous : ∃ (F : Files Unit) (n : Nat) (id : Named) (r : Rule Unit Unit),
    loadRule F n id = some r ∧ ∃ a ∈ r.anonymous, ∀ k, ¬ r.Has k a.2.target := by
  refine ⟨exampleFiles, 1, exampleName "odd", _, rfl, _, .head _, fun k => ?_⟩
  cases k <;> exact of_decide_eq_false rfl

end Verif.Rules
