import Verif.Util.OMap

/-!
# Model of `LinkedMap`, `Union` and `Configuration`

Source: `src/buildtool/build_engine/expression/linked_map.hpp`,
`src/buildtool/build_engine/expression/evaluator.cpp` (lines 391-447) and
`src/buildtool/build_engine/expression/configuration.hpp`.
-/

namespace Verif.LinkedMap

variable {K V : Type} [LinearOrder K]

/-- linked_map.hpp:65-308.  `null` is an empty smart pointer, `node` points to a
`LinkedMap` object with the members `next_`, `content_` and `map_` (l.306-308).
All constructors (l.113-129) set a subset of the three members; the model
allows every combination.  The memo cell `items_` (l.310) is not modelled
(it only caches the result of `ComputeSortedItems`). -/
inductive Ptr (K V : Type) [LinearOrder K] where
  | null : Ptr K V
  | node (next content : Ptr K V) (map : OMap K V) : Ptr K V

/-- linked_map.hpp:167-188 (`Find`).  `Find` of the null pointer is never asked
by the code (guarded by `IsNotNull`); it is `none` here. -/
def Ptr.find (k : K) : Ptr K V → Option V
  | .null => none
  | .node next content map =>
    let own := match content with
      | .null => map.find k
      | .node .. => content.find k
    match own with
    | some v => some v
    | none => next.find k

/-- linked_map.hpp:161-165 (`empty`). -/
def Ptr.isEmpty : Ptr K V → Bool
  | .null => true
  | .node next content map =>
    (match content with
      | .null => map.items.isEmpty
      | .node .. => content.isEmpty) && next.isEmpty

/-- linked_map.hpp:349-368: the merge loop of `ComputeSortedItems`; first
argument are the items of the map itself, second those of the shadowed map. -/
def mergeItems : List (K × V) → List (K × V) → List (K × V)
  | [], ns => ns
  | c :: cs, [] => c :: cs
  | (kc, vc) :: cs, (kn, vn) :: ns =>
    if kc = kn then (kc, vc) :: mergeItems cs ns
    else if kc < kn then (kc, vc) :: mergeItems cs ((kn, vn) :: ns)
    else (kn, vn) :: mergeItems ((kc, vc) :: cs) ns
termination_by cs ns => cs.length + ns.length

/-- linked_map.hpp:312-371 (`ComputeSortedItems`) and 275-277 (`Items`). -/
def Ptr.items : Ptr K V → List (K × V)
  | .null => []
  | .node next content map =>
    mergeItems
      (match content with
        | .null => map.items
        | .node .. => content.items)
      next.items

/-- linked_map.hpp:282-291 (`Keys`). -/
def Ptr.keys (p : Ptr K V) : List K := p.items.map Prod.fst

/-- linked_map.hpp:294-303 (`Values`). -/
def Ptr.values (p : Ptr K V) : List V := p.items.map Prod.snd

/-- linked_map.hpp:242-244 (`size`). -/
def Ptr.size (p : Ptr K V) : Nat := p.items.length

/-- linked_map.hpp:268-272 (`operator==`); pointer equality is a shortcut only
and dropped. -/
def Ptr.eqv [DecidableEq V] (p q : Ptr K V) : Bool :=
  (p.isEmpty && q.isEmpty) || decide (p.items = q.items)

/-- linked_map.hpp:220-235: the scan loop of `FindConflictingDuplicate`. -/
def conflictScan [DecidableEq V] : List (K × V) → List (K × V) → Option K
  | [], _ => none
  | _ :: _, [] => none
  | (km, vm) :: ms, (kt, vt) :: ts =>
    if km = kt then
      if vm = vt then conflictScan ms ts else some km
    else if km < kt then conflictScan ms ((kt, vt) :: ts)
    else conflictScan ((km, vm) :: ms) ts
termination_by ms ts => ms.length + ts.length

/-- linked_map.hpp:212-236 (`FindConflictingDuplicate`). -/
def Ptr.findConflictingDuplicate [DecidableEq V] (p q : Ptr K V) : Option K :=
  conflictScan p.items q.items

/-- linked_map.hpp:113: map given eagerly, no shadowed map. -/
def Ptr.ofMap (m : OMap K V) : Ptr K V := .node .null .null m

/-- `Expression::kEmptyMap`: expression.hpp (constant for the empty map). -/
def Ptr.emptyMap : Ptr K V := Ptr.ofMap OMap.empty

/-- Result of a built-in: a value or `EvaluationError`.  For `disjoint_map_union`
the conflicting key is kept (it is part of the message, evaluator.cpp:420-430). -/
inductive Res (K A : Type) where
  | ok (a : A)
  | conflict (key : K)
  | notAMap
  deriving DecidableEq

/-- evaluator.cpp:391-434 (`Union<kDisjoint>(dicts, from, to)`).  List elements
are `some map` or `none` for an expression that is not a map (l.400-403).
The index pair `[from, to)` is kept, as is the recursion on the middle. -/
def unionRange [DecidableEq V] (disjoint : Bool) (dicts : Array (Option (Ptr K V)))
    (frm till : Nat) (hto : till ≤ dicts.size) : Res K (Ptr K V) :=
  if h0 : till ≤ frm then .ok Ptr.emptyMap
  else if h1 : till = frm + 1 then
    match dicts[frm]'(by omega) with
    | some m => .ok m
    | none => .notAMap
  else
    let mid := frm + (till - frm) / 2
    match unionRange disjoint dicts frm mid (by omega) with
    | .conflict k => .conflict k
    | .notAMap => .notAMap
    | .ok left =>
      match unionRange disjoint dicts mid till hto with
      | .conflict k => .conflict k
      | .notAMap => .notAMap
      | .ok right =>
        if left.isEmpty then .ok right
        else if right.isEmpty then .ok left
        else
          match (if disjoint then left.findConflictingDuplicate right else none) with
          | some k => .conflict k
          | none => .ok (.node left right OMap.empty)
termination_by till - frm

/-- evaluator.cpp:436-447 (`Union<kDisjoint>(expr)` on a list). -/
def union [DecidableEq V] (disjoint : Bool) (dicts : List (Option (Ptr K V))) :
    Res K (Ptr K V) :=
  if dicts.isEmpty then .ok Ptr.emptyMap
  else unionRange disjoint dicts.toArray 0 dicts.toArray.size (Nat.le_refl _)

/-! ## Configurations -/

/-- configuration.hpp:35-173: a configuration is an expression that is a map.
`none` is the value `Expression::none_t{}`. -/
structure Conf (K V : Type) [LinearOrder K] where
  expr : Ptr K V

/-- configuration.hpp:51-54 (`operator[]`). -/
def Conf.get (nul : V) (c : Conf K V) (k : K) : V := (c.expr.find k).getD nul

/-- configuration.hpp:107-116 (loop body of `Prune`). -/
def Conf.pruneStep (nul : V) (c : Conf K V) (subset : OMap K V) (k : K) : OMap K V :=
  match c.expr.find k with
  | some v => subset.emplace k v
  | none => subset.emplace k nul

/-- configuration.hpp:104-118 (`Prune`). -/
def Conf.prune (nul : V) (c : Conf K V) (vars : List K) : Conf K V :=
  ⟨Ptr.ofMap (vars.foldl (c.pruneStep nul) OMap.empty)⟩

/-- configuration.hpp:147-153 (`Update` with an underlying map). -/
def Conf.update (c : Conf K V) (m : OMap K V) : Conf K V :=
  if m.items.isEmpty then c else ⟨.node c.expr .null m⟩

/-- configuration.hpp:155-161 (`Update` with a map expression). -/
def Conf.updateExpr (c : Conf K V) (m : Ptr K V) : Conf K V :=
  if m.isEmpty then c else ⟨.node c.expr m OMap.empty⟩

/-- configuration.hpp:140-145 (`Update` of one variable). -/
def Conf.updateOne (c : Conf K V) (k : K) (v : V) : Conf K V :=
  ⟨.node c.expr .null (OMap.empty.emplace k v)⟩

/-- configuration.hpp:163-165 (`VariableFixed`). -/
def Conf.variableFixed (c : Conf K V) (k : K) : Bool := (c.expr.find k).isSome

end Verif.LinkedMap
