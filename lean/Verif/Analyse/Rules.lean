import Verif.Expr.Encode
import Verif.Names.Model
import Verif.Remote.ActionKey

/-!
# Model of how rules and expression functions are read

Source: `src/buildtool/build_engine/base_maps/expression_map.cpp`, `rule_map.cpp`, `user_rule.hpp`, `field_reader.hpp`,
`expression_function.hpp`.

Simplifications: log messages, and the order in which several errors are found, are not modelled; every error is `none`.
Unexpected fields of a rule only lead to a warning (`ExpectFields`), and so are not modelled.  The files of expressions and rules
are given as what is read from the roots (json_file_map.hpp): nothing, if there is no such file or it does not contain an object.
Objects are in the order of `nlohmann::json`, i.e., by key.  The identifiers of rules and expressions are named ones; for
anonymous ones `GetNamedTarget` throws.  The requests of expressions among each other (by `subcaller`) are recursive calls, with a
depth given; that the result does not depend on the depth is proved.
-/

namespace Verif.Rules

open Verif.Names Verif.Expr Verif.RE

/-- What is read: the expression files and the rule files by repository and module (expression_map.hpp, rule_map.hpp,
json_file_map.hpp:44-125), and the bindings of repository names (repository_config.hpp:127-138). -/
structure Files (N : Type) where
  exprs : Str → Str → Option (List (Str × Json N))
  rules : Str → Str → Option (List (Str × Json N))
  bind : Str → Str → Option Str

variable {N A : Type}

/-- field_reader.hpp:77-90 (`FieldReader::Create`): definitions have to be objects. -/
def object? : Json N → Option (List (Str × Json N))
  | .obj o => some o
  | _ => none

/-- field_reader.hpp:107-127 (`ReadExpression`). -/
def readExpression (o : List (Str × Json N)) (field : String) : Option (Val N A) :=
  (assoc field.toList o).map ofJson

/-- field_reader.hpp:147-179 (`ReadStringList`). -/
def readStrings (o : List (Str × Json N)) (field : String) : Option (List Str) :=
  match assoc field.toList o with
  | none => some []
  | some (.arr l) => l.mapM string?
  | some _ => none

/-- field_reader.hpp:41-50 (`GetOrDefault`) with an empty object as default, and the test for an object
(e.g. field_reader.hpp:185-194, rule_map.cpp:59-65). -/
def readObject (o : List (Str × Json N)) (field : String) : Option (List (Str × Json N)) :=
  match assoc field.toList o with
  | none => some []
  | some (.obj m) => some m
  | some _ => none

/-- field_reader.hpp:199-219, rule_map.cpp:133-149: the name of each entry, resolved for the definition `id`. -/
def readNames (F : Files N) (id : Named) (m : List (Str × Json N)) : Option (List (Str × Named)) :=
  m.mapM fun p => (parse F.bind p.2 id).map fun n => (p.1, n)

/-! ## Expression functions -/

/-- The definition of an expression function, as read from the file (expression_map.cpp:57-75). -/
structure FnDef (N A : Type) where
  vars : List Str
  imports : List (Str × Named)
  expr : Val N A

/-- expression_map.cpp:32-75: the definition of an expression function. -/
def fnDef (F : Files N) (id : Named) : Option (FnDef N A) :=
  if id.ref = .target then
    (F.exprs id.repo id.module).bind fun file =>
      (assoc id.name file).bind fun j =>
        (object? j).bind fun o =>
          (readExpression o "expression").bind fun e =>
            (readStrings o "vars").bind fun vars =>
              (readObject o "imports").bind fun m =>
                (readNames F id m).bind fun imports =>
                  some ⟨vars, imports, e⟩
  else none

/-- expression_map.cpp:25-113 (`CreateExpressionMap`), up to a depth of imports. -/
def load (F : Files N) : Nat → Named → Option (Fn N A)
  | 0, _ => none
  | n + 1, id =>
    (fnDef F id).bind fun d =>
      (d.imports.mapM fun p => (load F n p.2).map fun f => (p.1, f)).bind fun imports =>
        some (.mk d.vars imports d.expr)

/-! ## Rules -/

/-- user_rule.hpp:67-71 (`AnonymousDefinition`). -/
structure Anon where
  target : Str
  provider : Str
  ruleMap : List (Str × Named)

/-- user_rule.hpp:329-340: the members of a `UserRule`, except for those computed from others (`implicit_target_exp_`,
`expected_entries_`).  The set of taints is given as list. -/
structure Rule (N A : Type) where
  targetFields : List Str
  stringFields : List Str
  configFields : List Str
  implicit : List (Str × List Named)
  anonymous : List (Str × Anon)
  configVars : List Str
  tainted : List Str
  transitions : List (Str × Fn N A)
  expr : Fn N A

/-- `std::set_intersection`, as used in user_rule.hpp:367-371: the part for the first entry `a` of the first range; `next` is for
the rest of it. -/
def interFrom (a : Str) (next : List Str → List Str) : List Str → List Str
  | [] => []
  | b :: t =>
    if a < b then next (b :: t)
    else if b < a then interFrom a next t
    else a :: next t

/-- `std::set_intersection`, as used in user_rule.hpp:367-371. -/
def inter : List Str → List Str → List Str
  | [], _ => []
  | a :: s, t => interFrom a (inter s) t

/-- user_rule.hpp:361-382 (`FindDuplicates`, not triangular), user_rule.hpp:390-408 (`GetDuplicates`). -/
def dupLinear (first : List Str) : List (List Str) → List Str
  | [] => []
  | s :: rest => inter first s ++ dupLinear first rest

/-- user_rule.hpp:361-382 (`FindDuplicates`, triangular), user_rule.hpp:390-408 (`GetDuplicates`). -/
def dupTriangular : List (List Str) → List Str
  | [] => []
  | first :: rest => dupLinear first rest ++ dupTriangular rest

/-- user_rule.hpp:305-308 (`kReservedKeywords`). -/
def reserved : List Str := ["arguments_config".toList, "tainted".toList, "type".toList]

/-- expression_function.hpp:114-118 (`kEmptyTransition`). -/
def emptyTransition : Fn N A := .mk [] [] (.list [.map [("type".toList, .str "empty_map".toList)]])

/-- user_rule.hpp:156-166: transitions for fields without one (`emplace` does not overwrite). -/
def addTransitions (fields : List Str) (ts : List (Str × Fn N A)) : List (Str × Fn N A) :=
  fields.foldl (fun ts f => if f ∈ ts.map Prod.fst then ts else ts ++ [(f, emptyTransition)]) ts

/-- user_rule.hpp:75-191 (`UserRule::Create`). -/
def create (r : Rule N A) : Option (Rule N A) :=
  let implicitFields := sortStrs (r.implicit.map Prod.fst)
  let anonymousFields := sortStrs (r.anonymous.map Prod.fst)
  let targetFields := sortStrs r.targetFields
  let stringFields := sortStrs r.stringFields
  let configFields := sortStrs r.configFields
  if dupLinear reserved [targetFields, stringFields, configFields, implicitFields, anonymousFields] ≠ [] then none
  else if dupTriangular [targetFields, stringFields, configFields, implicitFields, anonymousFields] ≠ [] then none
  else
    let transitionTargets := sortStrs (r.transitions.map Prod.fst)
    let dups := dupLinear transitionTargets [targetFields, implicitFields, anonymousFields]
    if ¬ ((∀ x ∈ dups, x ∈ transitionTargets) ∧ ∀ x ∈ transitionTargets, x ∈ dups) then none
    else
      some { r with
        targetFields := targetFields
        stringFields := stringFields
        configFields := configFields
        transitions := addTransitions anonymousFields (addTransitions implicitFields (addTransitions targetFields r.transitions)) }

/-- rule_map.cpp:53-159 (`ReadAnonymousObject`). -/
def readAnonymous (F : Files N) (id : Named) (o : List (Str × Json N)) : Option (List (Str × Anon)) :=
  (readObject o "anonymous").bind fun m =>
    m.mapM fun p =>
      (object? p.2).bind fun d =>
        ((assoc "target".toList d).bind string?).bind fun target =>
          ((assoc "provider".toList d).bind string?).bind fun provider =>
            ((assoc "rule_map".toList d).bind object?).bind fun rm =>
              (readNames F id rm).bind fun ruleMap =>
                some (p.1, ⟨target, provider, ruleMap⟩)

/-- `is_array`. -/
def array? : Json N → Option (List (Json N))
  | .arr l => some l
  | _ => none

/-- rule_map.cpp:161-209 (`ReadImplicitObject`). -/
def readImplicit (F : Files N) (id : Named) (o : List (Str × Json N)) : Option (List (Str × List Named)) :=
  (readObject o "implicit").bind fun m =>
    m.mapM fun p =>
      (array? p.2).bind fun l =>
        (l.mapM fun j => parse F.bind j id).bind fun ns =>
          some (p.1, ns)

/-- rule_map.cpp:211-246 (`ReadConfigTransitionsObject`). -/
def readTransitions (o : List (Str × Json N)) (configVars : List Str) (imports : List (Str × Fn N A)) :
    Option (List (Str × Fn N A)) :=
  (readObject o "config_transitions").bind fun m =>
    some (m.map fun p => (p.1, .mk configVars imports (ofJson p.2)))

/-- rule_map.cpp:250-401 (`CreateRuleMap`); `n` is the depth to which imports are loaded. -/
def loadRule (F : Files N) (n : Nat) (id : Named) : Option (Rule N A) :=
  if id.ref = .target then
    (F.rules id.repo id.module).bind fun file =>
      (assoc id.name file).bind fun j =>
        (object? j).bind fun o =>
          (readExpression o "expression").bind fun e =>
            (readStrings o "target_fields").bind fun targetFields =>
              (readStrings o "string_fields").bind fun stringFields =>
                (readStrings o "config_fields").bind fun configFields =>
                  (readImplicit F id o).bind fun implicit =>
                    (readAnonymous F id o).bind fun anonymous =>
                      (readStrings o "config_vars").bind fun configVars =>
                        (readStrings o "tainted").bind fun tainted =>
                          (readObject o "imports").bind fun m =>
                            (readNames F id m).bind fun aliases =>
                              (aliases.mapM fun p => (load F n p.2).map fun f => (p.1, f)).bind fun imports =>
                                (readTransitions o configVars imports).bind fun transitions =>
                                  create ⟨targetFields, stringFields, configFields, implicit, anonymous, configVars,
                                    tainted, transitions, .mk configVars imports e⟩
  else none

end Verif.Rules
