import Verif.Expr.Val

/-!
# Dumping nodes and anonymous targets: model

Source: `src/buildtool/main/diagnose.cpp`.

A definition in the dump is given by the expression it is the JSON of. `id` is `Expression::ToIdentifier`.
-/

namespace Verif.Dump

open Verif.Expr

section
variable {N A : Type} (id : Val N A → Str)

/-- A map from identifiers to definitions, the latest one first. -/
abbrev Table (N A : Type) := List (Str × Val N A)

/-- diagnose.cpp:225-233 (`DumpExpressionToMap`): the map if there was no entry yet. -/
def add (v : Val N A) (m : Table N A) : Option (Table N A) :=
  if id v ∈ m.map Prod.fst then none else some ((id v, v) :: m)

mutual
/-- diagnose.cpp:235-262 (`DumpNodesInExpressionToMap`). -/
def nodes : Val N A → Table N A → Table N A
  | .valueNode v, m =>
    match add id (.valueNode v) m with
    | none => m
    | some m' => nodes v m'
  | .absNode t s f, m =>
    match add id (.absNode t s f) m with
    | none => m
    | some m' => nodes f m'
  | .list l, m => nodesList l m
  | .map l, m => nodesItems l m
  | .result _ p _, m => nodes p m
  | _, m => m
/-- diagnose.cpp:249-253. -/
def nodesList : List (Val N A) → Table N A → Table N A
  | [], m => m
  | v :: l, m => nodesList l (nodes v m)
/-- diagnose.cpp:254-258. -/
def nodesItems : List (Str × Val N A) → Table N A → Table N A
  | [], m => m
  | (_, v) :: l, m => nodesItems l (nodes v m)
end

/-- diagnose.cpp:291-294 (`DumpNodes`): the nodes of what a target provides. -/
def dumpNodes (provides : Val N A) : Table N A := nodes id provides []

/-- An anonymous target (entity_name_data.hpp:37-40). -/
structure Anonymous (N A : Type) where
  ruleMap : Val N A
  node : Val N A

/-- diagnose.cpp:264-289 (`DumpAnonymous`): rule maps and nodes. `targets` are the anonymous ones of the targets analysed. -/
def dumpAnonymous (targets : List (Anonymous N A)) : Table N A × Table N A :=
  targets.foldl (fun d t => ((add id t.ruleMap d.1).getD d.1, nodes id t.node d.2)) ([], [])

end

end Verif.Dump
