import Verif.Digest.Props
import Verif.Util.Json

/-!
# Model of artifact descriptions

Source: `src/buildtool/common/artifact_description.{hpp,cpp}`.
-/

namespace Verif.Art

open Verif.Dig

/-- artifact_description.hpp:33-45: the alternatives of an artifact description.  Paths are represented by
their strings. -/
inductive Desc where
  | loc (path repo : Str)
  | known (digest : Digest) (type : ObjectType) (repo : Option Str)
  | action (id path : Str)
  | tree (id : Str)
  | overlay (id : Str)
  deriving DecidableEq

/-- artifact_description.hpp:75-77 (`IsKnown`). -/
def Desc.isKnown : Desc → Bool
  | .known _ _ _ => true
  | _ => false

variable {N : Type}

/-- JSON object of a description of some type; the keys are sorted. -/
def described (type : String) (data : List (Str × Json (N ⊕ Nat))) : Json (N ⊕ Nat) :=
  .obj [("data".toList, .obj data), ("type".toList, .str type.toList)]

/-- artifact_description.cpp:150-172, 228-257 (`ToJson`).  Sizes are unsigned numbers, to be distinguished
from the floating-point numbers of expressions. -/
def Desc.toJson : Desc → Json (N ⊕ Nat)
  | .loc p r => described "LOCAL" [("path".toList, .str p), ("repository".toList, .str r)]
  | .known d t _ => described "KNOWN" [("file_type".toList, .str [t.toChar]), ("id".toList, .str d.hash),
      ("size".toList, .num (.inr d.size))]
  | .action i p => described "ACTION" [("id".toList, .str i), ("path".toList, .str p)]
  | .tree i => described "TREE" [("id".toList, .str i)]
  | .overlay i => described "TREE_OVERLAY" [("id".toList, .str i)]

/-- json.hpp:31-51 (`ExtractValueAs<nlohmann::json>`). -/
def extract (j : Json (N ⊕ Nat)) (key : String) : Option (Json (N ⊕ Nat)) :=
  match j with
  | .obj l => assoc key.toList l
  | _ => none

/-- json.hpp:31-51 (`ExtractValueAs<std::string>`). -/
def extractStr (j : Json (N ⊕ Nat)) (key : String) : Option Str :=
  (extract j key).bind fun v =>
    match v with
    | .str s => some s
    | _ => none

/-- json.hpp:31-51 (`ExtractValueAs<std::size_t>`); `cast` converts a floating-point number. -/
def extractNat (cast : N → Nat) (j : Json (N ⊕ Nat)) (key : String) : Option Nat :=
  (extract j key).bind fun v =>
    match v with
    | .num (.inr n) => some n
    | .num (.inl x) => some (cast x)
    | .bool b => some b.toNat
    | _ => none

/-- artifact_description.cpp:283-318 (`CreateKnownArtifactDescription`). -/
def knownOfJson (t : HashType) (cast : N → Nat) (data : Json (N ⊕ Nat)) : Option Desc :=
  (extractStr data "id").bind fun id =>
    (extractNat cast data "size").bind fun size =>
      (extractStr data "file_type").bind fun ft =>
        match ft with
        | [c] =>
          (createDigest t id size (ObjectType.ofChar c).isTree).bind fun d =>
            some (.known d (ObjectType.ofChar c) none)
        | _ => none

/-- artifact_description.cpp:98-148 (`FromJson`), 259-282, 320-376. -/
def Desc.fromJson (t : HashType) (cast : N → Nat) (j : Json (N ⊕ Nat)) : Option Desc :=
  (extractStr j "type").bind fun type =>
    (extract j "data").bind fun data =>
      if type = "LOCAL".toList then
        (extractStr data "path").bind fun p => (extractStr data "repository").bind fun r =>
          some (.loc p r)
      else if type = "KNOWN".toList then knownOfJson t cast data
      else if type = "ACTION".toList then
        (extractStr data "id").bind fun i => (extractStr data "path").bind fun p => some (.action i p)
      else if type = "TREE".toList then (extractStr data "id").bind fun i => some (.tree i)
      else if type = "TREE_OVERLAY".toList then (extractStr data "id").bind fun i => some (.overlay i)
      else none

/-- artifact_description.cpp:211-225 (`ComputeId`): hash of the compact JSON text. -/
def Desc.id (H : Str → Str) (text : N ⊕ Nat → Str) (d : Desc) : Str :=
  H (Json.dump text Json.compact 0 d.toJson)

end Verif.Art
