import Verif.Expr.Val
import Verif.Artifact.Model

/-!
# Model of value identifiers

Source: `src/buildtool/build_engine/expression/expression.{hpp,cpp}`, `target_node.cpp`,
`src/utils/cpp/hex_string.hpp`.
-/

namespace Verif.Expr

open Verif.Art

/-- Values whose artifacts are artifact descriptions. -/
abbrev Value (N : Type) := Val N Desc

/-- Hash function on byte strings, and rendering of numbers. -/
structure Hashing (N : Type) where
  H : Str → Str
  text : N ⊕ Nat → Str

variable {N : Type} (h : Hashing N)

/-- hex_string.hpp:32-41 (`ToHexString`). -/
def hexString (s : Str) : Str :=
  s.flatMap (fun c => [Json.hexDigit (c.toNat / 16), Json.hexDigit (c.toNat % 16)])

/-- Compact JSON text. -/
def Hashing.dump (j : Json (N ⊕ Nat)) : Str := Json.dump h.text Json.compact 0 j

/-- expression.cpp:93-102: JSON of a node in mode `SerializeAll` or `SerializeAllButNodes`. -/
def nodeJson (all : Bool) (j : Json (N ⊕ Nat)) : Json (N ⊕ Nat) :=
  if all then j
  else .obj [("id".toList, .str (hexString (h.H ('#' :: h.dump j)))), ("type".toList, .str "NODE".toList)]

/-- target_node.cpp:24-26. -/
def valueNodeJson (j : Json (N ⊕ Nat)) : Json (N ⊕ Nat) :=
  .obj [("result".toList, j), ("type".toList, .str "VALUE_NODE".toList)]

/-- target_node.cpp:27-33. -/
def absNodeJson (ty : Str) (s t : Json (N ⊕ Nat)) : Json (N ⊕ Nat) :=
  .obj [("node_type".toList, .str ty), ("string_fields".toList, s), ("target_fields".toList, t),
    ("type".toList, .str "ABSTRACT_NODE".toList)]

/-- expression.cpp:84-92. -/
def resultJson (a p r : Json (N ⊕ Nat)) : Json (N ⊕ Nat) :=
  .obj [("artifact_stage".toList, a), ("provides".toList, p), ("runfiles".toList, r)]

mutual
/-- expression.cpp:73-125 (`ToJson`) in the modes `SerializeAll` (the default) and
`SerializeAllButNodes`; target_node.cpp:23-34. -/
def json (all : Bool) : Value N → Json (N ⊕ Nat)
  | .none => .null
  | .bool b => .bool b
  | .num n => .num (.inl n)
  | .str s => .str s
  | .name e => e.toJson
  | .art a => a.toJson
  | .result a p r => resultJson (json false a) (json false p) (json false r)
  | .valueNode v => nodeJson h all (valueNodeJson (json true v))
  | .absNode ty s t => nodeJson h all (absNodeJson ty (json true s) (json false t))
  | .list l => .arr (jsonList all l)
  | .map m => .obj (jsonItems all m)
/-- expression.cpp:104-112. -/
def jsonList (all : Bool) : List (Value N) → List (Json (N ⊕ Nat))
  | [] => []
  | v :: t => json all v :: jsonList all t
/-- expression.cpp:113-120. -/
def jsonItems (all : Bool) : List (Str × Value N) → List (Str × Json (N ⊕ Nat))
  | [] => []
  | (k, v) :: t => (k, json all v) :: jsonItems all t
end

/-- expression.cpp:237-248: what is put in front of the JSON text. -/
def hashPrefix : Value N → Str
  | .art _ => ['@']
  | .result _ _ _ => ['=']
  | .valueNode _ => ['#']
  | .absNode _ _ _ => ['#']
  | .name _ => ['$']
  | _ => []

mutual
/-- expression.cpp:225-270 (`ComputeHash`): the string that is hashed. -/
def preimage : Value N → Str
  | .list l => '[' :: preimageList l
  | .map m => '{' :: preimageItems m
  | v => hashPrefix v ++ h.dump (json h true v)
/-- expression.cpp:256-258. -/
def preimageList : List (Value N) → Str
  | [] => []
  | v :: t => h.H (preimage v) ++ preimageList t
/-- expression.cpp:263-266. -/
def preimageItems : List (Str × Value N) → Str
  | [] => []
  | (k, v) :: t => h.H k ++ h.H (preimage v) ++ preimageItems t
end

/-- expression.cpp:163-165 (`ToHash`). -/
def hash (v : Value N) : Str := h.H (preimage h v)

/-- expression.hpp:233-235 (`ToIdentifier`). -/
def identifier (v : Value N) : Str := hexString (hash h v)

end Verif.Expr
