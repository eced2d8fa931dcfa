import Verif.Util.Json
import Verif.Util.Decimal

/-!
# The input of an action as request: model

Source: `src/buildtool/main/analyse.cpp`, `src/buildtool/build_engine/target_map/result_map.hpp` (`GetAction`).

Arguments of the command line contain no zero character, so that `c_str` is the whole string.
-/

namespace Verif.Request

/-- action.hpp:92-103 and action_description.hpp (`ActionDescription`), for actions that are no trees, which are the only ones in
`AnalysedTarget::Actions`. Maps are ascending lists. -/
structure Act (A N : Type) where
  id : Str
  cmd : List Str
  cwd : Str
  env : List (Str × Str)
  mayFail : Option Str
  noCache : Bool
  timeout : N
  props : List (Str × Str)
  files : List Str
  dirs : List Str
  inputs : List (Str × A)
deriving DecidableEq

section
variable {A N : Type}

/-- The action chosen; `ub` for undefined behaviour. -/
inductive Choice (α : Type)
  | found (a : α)
  | error
  | ub
deriving DecidableEq

/-- result_map.hpp:170-182 (`GetAction`): the actions of all targets, in any order. -/
def getAction (graph : List (Act A N)) (i : Str) : Option (Act A N) := graph.find? fun a => a.id = i

/-- analyse.cpp:57-75 (`GetActionNumber`). -/
def actionNumber (own : List (Act A N)) (k : Int) : Option (Act A N) :=
  if 0 ≤ k then (if own.length > k.toNat then own[k.toNat]? else none)
  else if (own.length : Int) + k ≥ 0 then own[((own.length : Int) + k).toNat]? else none

/-- analyse.cpp:255-256, 289-290: the action of that number; `std::atoi` is undefined for what is out of range. -/
def byNumber (own : List (Act A N)) (s : Str) : Choice (Act A N) :=
  if -(2 ^ 31) ≤ atol s ∧ atol s < 2 ^ 31 then
    match actionNumber own (atol s) with
    | some a => .found a
    | none => .error
  else .ub

/-- analyse.cpp:232-309: the action a request is for. `graph` are the actions of all targets analysed, `own` those of the target. -/
def choose (graph own : List (Act A N)) : Str → Choice (Act A N)
  | [] =>
    match getAction graph [] with
    | some a => .found a
    | none => byNumber own []
  | c :: r =>
    if c = '%' then
      match getAction graph r with
      | some a => .found a
      | none => .error
    else if c = '#' then byNumber own r
    else match getAction graph (c :: r) with
      | some a => .found a
      | none => byNumber own (c :: r)

/-- A list of strings as JSON. -/
def strings (l : List Str) : Json N := .arr (l.map .str)

/-- A map of strings as JSON. -/
def table (l : List (Str × Str)) : Json N := .obj (l.map fun p => (p.1, .str p.2))

/-- analyse.cpp:85-107: what is provided, in the order of insertion. `one` is `1.0`. -/
def provides [DecidableEq N] (one : N) (a : Act A N) : List (Str × Json N) :=
  [("cmd".toList, strings a.cmd), ("env".toList, table a.env), ("output".toList, strings a.files), ("output_dirs".toList, strings a.dirs)] ++
  (match a.mayFail with
    | some m => [("may_fail".toList, .str m)]
    | none => []) ++
  (if a.noCache then [("no_cache".toList, .bool true)] else []) ++
  (if a.timeout ≠ one then [("timeout scaling".toList, .num a.timeout)] else []) ++
  (if a.cwd ≠ [] then [("cwd".toList, .str a.cwd)] else []) ++
  if a.props ≠ [] then [("execution properties".toList, table a.props)] else []

/-- The result of a target. -/
structure Result (A N : Type) where
  artifacts : List (Str × A)
  runfiles : List (Str × A)
  provides : List (Str × Json N)

/-- analyse.cpp:77-120 (`SwitchToActionInput`). -/
def switch [DecidableEq N] (one : N) (a : Act A N) : Result A N := ⟨a.inputs, [], provides one a⟩

end

end Verif.Request
