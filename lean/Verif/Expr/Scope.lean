import Verif.Expr.Model

/-!
# Scoping rules of the expression language

Independent of the evaluator: for each construct, which of its fields are expressions and which
variables are bound in them (`/repo/doc/concepts/expressions.md`).
-/

namespace Verif.Expr

variable {N A : Type}

/-- The expression at a field, with the variables bound in it. -/
def field (k : String) (bs : List Str) (m : Items N A) : List (List Str × Val N A) :=
  (assoc k.toList m).toList.map (fun e => (bs, e))

/-- The name of a bound variable: the literal string at a field, if given. -/
def bound (k dflt : String) (m : Items N A) : List Str := (get m k (lit dflt)).str?.toList

/-- Fields that are expressions, no variable being bound. -/
def plain (ks : List String) (m : Items N A) : List (List Str × Val N A) :=
  ks.flatMap (fun k => field k [] m)

/-- The entries of a list at a field. -/
def entriesAt (k : String) (m : Items N A) : List (Val N A) :=
  ((assoc k.toList m).bind Val.list?).getD []

/-- Both components of all pairs in a list at a field. -/
def pairsAt (k : String) (m : Items N A) : List (List Str × Val N A) :=
  (entriesAt k m).flatMap (fun p => (pair? p).toList.flatMap (fun ab => [([], ab.1), ([], ab.2)]))

/-- The bindings of a `let*` with the variables bound so far; then its body. -/
def letScope (m : Items N A) : List (Val N A) → List Str → List (List Str × Val N A)
  | [], bs => field "body" bs m
  | b :: t, bs =>
    (pair? b).toList.flatMap (fun xe => (bs, xe.2) :: letScope m t (xe.1.str?.toList ++ bs))

mutual
/-- The unquoted expressions in a quasi-quoted one. -/
def unquoted : Val N A → List (Val N A)
  | .list l => unquotedList l
  | .map m =>
    if unquoteType m = some ",".toList ∨ unquoteType m = some ",@".toList then
      (assoc "$1".toList m).toList
    else unquotedItems m
  | _ => []
/-- The unquoted expressions in the entries of a list. -/
def unquotedList : List (Val N A) → List (Val N A)
  | [] => []
  | v :: t => unquoted v ++ unquotedList t
/-- The unquoted expressions in the entries of a map. -/
def unquotedItems : List (Str × Val N A) → List (Val N A)
  | [] => []
  | (_, v) :: t => unquoted v ++ unquotedItems t
end

/-- Arguments of a logical operator: the entries, if they are given as literal list. -/
def logicalArgs (m : Items N A) : List (List Str × Val N A) :=
  match assoc "$1".toList m with
  | none => []
  | some e =>
    match e.list? with
    | some l => l.map (fun x => ([], x))
    | none => [([], e)]

/-- The evaluated expressions of each construct, with the variables bound in them. -/
def scopes : List (Str × (Items N A → List (List Str × Val N A))) :=
  [("var".toList, plain ["default"]), ("'".toList, plain []),
   ("`".toList, fun m => (assoc "$1".toList m).toList.flatMap
      (fun e => (unquoted e).map (fun x => ([], x)))),
   (",".toList, plain []), (",@".toList, plain []), ("if".toList, plain ["cond", "then", "else"]),
   ("cond".toList, fun m => pairsAt "cond" m ++ plain ["default"] m),
   ("case".toList, fun m =>
      (((assoc "case".toList m).bind Val.map?).getD []).map (fun kv => ([], kv.2))
        ++ plain ["expr", "default"] m),
   ("case*".toList, fun m => pairsAt "case" m ++ plain ["expr", "default"] m),
   ("fail".toList, plain ["msg"]),
   ("assert".toList, fun m => plain ["$1"] m ++ field "predicate" (bound "var" "_" m) m),
   ("assert_non_empty".toList, plain ["$1"]), ("context".toList, plain ["$1"]),
   ("==".toList, plain ["$1", "$2"]), ("and".toList, logicalArgs), ("or".toList, logicalArgs),
   ("not".toList, plain ["$1"]), ("++".toList, plain ["$1"]), ("+".toList, plain ["$1"]),
   ("*".toList, plain ["$1"]), ("nub_right".toList, plain ["$1"]),
   ("nub_left".toList, plain ["$1"]), ("range".toList, plain ["$1"]),
   ("change_ending".toList, plain ["$1", "ending"]), ("basename".toList, plain ["$1"]),
   ("join".toList, plain ["$1", "separator"]), ("join_cmd".toList, plain ["$1"]),
   ("json_encode".toList, plain ["$1"]),
   ("escape_chars".toList, plain ["$1", "chars", "escape_prefix"]), ("keys".toList, plain ["$1"]),
   ("enumerate".toList, plain ["$1"]), ("set".toList, plain ["$1"]),
   ("reverse".toList, plain ["$1"]), ("length".toList, plain ["$1"]),
   ("values".toList, plain ["$1"]), ("lookup".toList, plain ["key", "map", "default"]),
   ("[]".toList, plain ["index", "list", "default"]), ("empty_map".toList, plain []),
   ("singleton_map".toList, plain ["key", "value"]), ("disjoint_map_union".toList, plain ["$1"]),
   ("map_union".toList, plain ["$1"]), ("to_subdir".toList, plain ["$1", "subdir", "flat"]),
   ("from_subdir".toList, plain ["$1", "subdir"]),
   ("foreach".toList, fun m => plain ["range"] m ++ field "body" (bound "var" "_" m) m),
   ("foreach_map".toList, fun m => ([], get m "range" emptyMapLit)
      :: field "body" (bound "var_key" "_" m ++ bound "var_val" "$_" m) m),
   ("zip_with".toList, fun m => plain ["range_1", "range_2"] m
      ++ field "body" (bound "var_1" "$1" m ++ bound "var_2" "$2" m) m),
   ("zip_map".toList, plain ["range_key", "range_val"]),
   ("foldl".toList, fun m => plain ["range", "start"] m
      ++ field "body" (bound "var" "_" m ++ bound "accum_var" "$1" m) m),
   ("let*".toList, fun m => letScope m (entriesAt "bindings" m) []), ("env".toList, plain []),
   ("concat_target_name".toList, plain ["$1", "$2"])]

/-- The evaluated expressions of a construct; constructs of the context take precedence. -/
def subterms (O : Ops N A) (ty : Str) (m : Items N A) : List (List Str × Val N A) :=
  if ty = "CALL_EXPRESSION".toList then []
  else match O.provided ty with
    | some r => r.keys.flatMap (fun k => (assoc k m).toList.map (fun e => ([], e)))
    | none => match assoc ty scopes with
      | some s => s m
      | none => []

/-- The variables a construct looks up itself. -/
def lookedUp (O : Ops N A) (f : Fn N A) (ty : Str) (m : Items N A) : List Str :=
  if ty = "CALL_EXPRESSION".toList then
    (((assoc "name".toList m).bind Val.str?).bind (fun n => findFn n f.imports)).elim [] Fn.vars
  else if (O.provided ty).isSome then []
  else if ty = "var".toList then ((assoc "name".toList m).bind Val.str?).toList
  else if ty = "env".toList then (entriesAt "vars" m).flatMap (fun e => e.str?.toList)
  else []

/-- Variable `x` occurs free in an expression of the function `f`. -/
inductive Free (O : Ops N A) (f : Fn N A) (x : Str) : Val N A → Prop where
  | entry {l : List (Val N A)} {e : Val N A} : e ∈ l → Free O f x e → Free O f x (.list l)
  | lookup {m : Items N A} {ty : Str} :
      assoc "type".toList m = some (.str ty) → x ∈ lookedUp O f ty m → Free O f x (.map m)
  | sub {m : Items N A} {ty : Str} {bs : List Str} {e : Val N A} :
      assoc "type".toList m = some (.str ty) → (bs, e) ∈ subterms O ty m → x ∉ bs →
      Free O f x e → Free O f x (.map m)

end Verif.Expr
