import Verif.Result.Model

/-!
# Model of action, tree and overlay descriptions

Source: `src/buildtool/common/action_description.hpp`, `action.hpp`, `tree.hpp`, `tree_overlay.hpp`,
`src/buildtool/build_engine/target_map/utils.cpp`.
-/

namespace Verif.Action

open Verif.Art Verif.Dig Verif.Expr
open Verif.Result (J Casts Out at?)

variable {N : Type}

/-- action_description.hpp:270-273, action.hpp: what an action consists of.  Maps are sorted lists. -/
structure Act (N : Type) where
  files : List Str
  dirs : List Str
  command : List Str
  cwd : Str
  env : List (Str × Str)
  mayFail : Option Str
  noCache : Bool
  timeout : N
  props : List (Str × Str)
  inputs : List (Str × Desc)

/-! ## Identifiers -/

variable (h : Hashing N)

/-- utils.cpp:239-246 (`hash_vector`): the string that is hashed. -/
def vector (l : List Str) : Str := l.flatMap h.H

/-- A map of strings as expression. -/
def strMap (m : List (Str × Str)) : Value N := .map (m.map fun kv => (kv.1, .str kv.2))

/-- A map of artifacts as expression. -/
def artMap (m : List (Str × Desc)) : Value N := .map (m.map fun kv => (kv.1, .art kv.2))

/-- utils.cpp:265-277: the string that is hashed to get the identifier of an action.  `hexFloat` is the
24 characters wide hexadecimal notation of a number. -/
def Act.text (hexFloat : N → Str) (a : Act N) : Str :=
  "ACTION:".toList ++ (h.H (vector h a.files) ++ (h.H (vector h a.dirs) ++ (h.H (vector h a.command) ++
    (h.H (vector h [a.cwd]) ++ (Expr.hash h (strMap a.env) ++ (h.H (vector h a.mayFail.toList) ++
    ((if a.noCache then ['N'] else ['Y']) ++ (hexFloat a.timeout ++ (Expr.hash h (strMap a.props) ++
    Expr.hash h (artMap a.inputs))))))))))

/-- utils.cpp:279. -/
def Act.id (hexFloat : N → Str) (a : Act N) : Str := hexString (h.H (a.text h hexFloat))

/-- tree.hpp:83-89 (`ComputeDescription`). -/
def treeJson (inputs : List (Str × Desc)) : J N := .obj (inputs.map fun kd => (kd.1, kd.2.toJson))

/-- tree.hpp:95-97. -/
def treeText (inputs : List (Str × Desc)) : Str := "TREE:".toList ++ h.dump (treeJson inputs)

/-- tree.hpp:91-99 (`ComputeId`). -/
def treeId (inputs : List (Str × Desc)) : Str := hexString (h.H (treeText h inputs))

/-- tree_overlay.hpp:87-98 (`ComputeDescription`). -/
def overlayJson (trees : List Desc) (disjoint : Bool) : J N :=
  .obj [("disjoint".toList, .bool disjoint), ("trees".toList, .arr (trees.map Desc.toJson))]

/-- tree_overlay.hpp:106-107. -/
def overlayText (trees : List Desc) (disjoint : Bool) : Str :=
  "TREE_OVERLAY:".toList ++ h.dump (overlayJson trees disjoint)

/-- tree_overlay.hpp:100-109 (`ComputeId`). -/
def overlayId (trees : List Desc) (disjoint : Bool) : Str :=
  hexString (h.H (overlayText h trees disjoint))

/-! ## JSON -/

/-- A list of strings as JSON. -/
def strsJson (l : List Str) : J N := .arr (l.map .str)

/-- A map of strings as JSON. -/
def strMapJson (m : List (Str × Str)) : J N := .obj (m.map fun kv => (kv.1, .str kv.2))

/-- A key that is only given under a condition. -/
def optKey (c : Bool) (key : String) (v : J N) : List (Str × J N) :=
  if c then [(key.toList, v)] else []

/-- action_description.hpp:202-236 (`ToJson`), the keys are sorted. -/
def Act.toJson [DecidableEq N] (one : N) (a : Act N) : J N :=
  .obj (optKey true "command" (strsJson a.command) ++
    optKey (!a.cwd.isEmpty) "cwd" (.str a.cwd) ++
    optKey (!a.env.isEmpty) "env" (strMapJson a.env) ++
    optKey (!a.props.isEmpty) "execution properties" (strMapJson a.props) ++
    optKey (!a.inputs.isEmpty) "input" (treeJson a.inputs) ++
    optKey a.mayFail.isSome "may_fail" (.str (a.mayFail.getD [])) ++
    optKey a.noCache "no_cache" (.bool true) ++
    optKey (!a.files.isEmpty) "output" (strsJson a.files) ++
    optKey (!a.dirs.isEmpty) "output_dirs" (strsJson a.dirs) ++
    optKey (a.timeout ≠ one) "timeout scaling" (.num (.inl a.timeout)))

/-- Conversion of JSON to a vector of strings. -/
def strList : List (J N) → Option (List Str)
  | [] => some []
  | .str s :: t => (strList t).bind fun t => some (s :: t)
  | _ :: _ => none

/-- json.hpp:35-53 (`ExtractValueAs<std::vector<std::string>>`). -/
def extractStrs (j : J N) (key : String) : Option (List Str) :=
  (extract j key).bind fun v =>
    match v with
    | .arr l => strList l
    | _ => none

/-- Conversion of JSON to a map of strings. -/
def strItems : List (Str × J N) → Option (List (Str × Str))
  | [] => some []
  | (k, .str s) :: t => (strItems t).bind fun t => some ((k, s) :: t)
  | _ :: _ => none

/-- action_description.hpp:98-107, and conversion to a map of strings. -/
def readStrMap (j : J N) (key : String) : Option (List (Str × Str)) :=
  match extract j key with
  | none => some []
  | some (.obj m) => strItems m
  | some _ => none

/-- action_description.hpp:119-128. -/
def artItems (t : HashType) (cast : N → Nat) : List (Str × J N) → Option (List (Str × Desc))
  | [] => some []
  | (k, j) :: l => (Desc.fromJson t cast j).bind fun d => (artItems t cast l).bind fun l =>
      some ((k, d) :: l)

/-- action_description.hpp:108-128. -/
def readInputs (t : HashType) (cast : N → Nat) (j : J N) : Option (List (Str × Desc)) :=
  match extract j "input" with
  | none => some []
  | some (.obj m) => artItems t cast m
  | some _ => none

/-- action_description.hpp:86-97. -/
def readCwd (j : J N) : Option Str :=
  match extract j "cwd" with
  | none => some []
  | some (.str s) => some s
  | some _ => none

/-- action_description.hpp:131-144. -/
def readMayFail (j : J N) : Option (Option Str) :=
  match extract j "may_fail" with
  | none => some none
  | some .null => some none
  | some (.str s) => some (some s)
  | some _ => none

/-- action_description.hpp:145-153. -/
def readNoCache (j : J N) : Option Bool :=
  match extract j "no_cache" with
  | none => some false
  | some (.bool b) => some b
  | some _ => none

/-- action_description.hpp:155-163.  For other values an error is reported, but then the conversion is
tried nevertheless, which succeeds for booleans. -/
def readTimeout (c : Casts N) (one : N) (j : J N) : Option N :=
  match extract j "timeout scaling" with
  | none => some one
  | some (.num (.inl n)) => some n
  | some (.num (.inr n)) => some (c.ofNat n)
  | some (.bool b) => some (c.ofNat b.toNat)
  | some _ => none

/-- action_description.hpp:52-190 (`FromJson`), without the identifier.  `none`: an error is reported. -/
def Act.fromJson (t : HashType) (c : Casts N) (one : N) (j : J N) : Option (Act N) :=
  if ((extractStrs j "output").getD []).isEmpty && ((extractStrs j "output_dirs").getD []).isEmpty then none
  else if ((extractStrs j "command").getD []).isEmpty then none
  else
    (readCwd j).bind fun cwd => (readInputs t c.toNat j).bind fun inputs =>
      (readStrMap j "env").bind fun env => (readMayFail j).bind fun mayFail =>
        (readNoCache j).bind fun noCache => (readTimeout c one j).bind fun timeout =>
          (readStrMap j "execution properties").bind fun props => some {
            files := (extractStrs j "output").getD []
            dirs := (extractStrs j "output_dirs").getD []
            command := (extractStrs j "command").getD []
            cwd := cwd
            env := env
            mayFail := mayFail
            noCache := noCache
            timeout := timeout
            props := props
            inputs := inputs }

/-- tree.hpp:60-74 (`FromJson`).  Simplification: JSON that is no object is rejected. -/
def treeFromJson (t : HashType) (cast : N → Nat) (j : J N) : Option (List (Str × Desc)) :=
  match j with
  | .obj m => artItems t cast m
  | _ => none

/-- tree_overlay.hpp:63-70. -/
def descs (t : HashType) (cast : N → Nat) : List (J N) → Option (List Desc)
  | [] => some []
  | j :: l => (Desc.fromJson t cast j).bind fun d => (descs t cast l).bind fun l => some (d :: l)

/-- tree_overlay.hpp:63-78 (`FromJson`); `null`: no overlay.  Simplification: `trees` has to be an array. -/
def overlayFromJson (t : HashType) (cast : N → Nat) (j : J N) : Out (List Desc × Bool) :=
  (at? j "disjoint").bind fun d =>
    match d with
    | .bool b => (at? j "trees").bind fun l =>
      match l with
      | .arr l => match descs t cast l with
        | some l => .ok (l, b)
        | none => .null
      | _ => .error
    | _ => .error

end Verif.Action
