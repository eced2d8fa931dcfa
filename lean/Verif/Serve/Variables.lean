import Verif.Serve.Request
import Verif.Serve.Target

/-!
# The serve endpoint: flexible variables of absent targets

Model of the request for the flexible variables of an export target
(src/buildtool/serve_api/serve_service/target.cpp:711-876, src/buildtool/serve_api/serve_service/target_utils.cpp:225-276,
src/buildtool/file_system/git_repo.cpp:1406-1465), and of their use by the client
(src/buildtool/build_engine/target_map/absent_target_map.cpp:49-90, 296-340), next to what the rule `export` reads
(src/buildtool/build_engine/target_map/export.cpp:137-142, src/buildtool/build_engine/base_maps/field_reader.hpp:147-179).
-/

namespace Verif.Serve

open Verif Verif.Expr Verif.Result

variable {N : Type}

/-- target_utils.cpp:225-276 (`GetBlobContent`), what is found in one git repository: no such tree (or the repository cannot be opened);
the tree, but the file is not in it or cannot be read; the tree, but not the blob; the content. -/
inductive Blob where
  | noTree
  | unreadable
  | noBlob
  | content (s : Str)
  deriving DecidableEq

/-- target.cpp:733-786: the first repository of the list that has the content, unless an earlier one has the tree without the blob;
`seen` tells whether a tree was found already. -/
def findFile (seen : Bool) : List Blob → Step Str
  | [] => .stop (if seen then .internal else .failedPrecondition)
  | .noTree :: l => findFile seen l
  | .unreadable :: l => findFile true l
  | .noBlob :: _ => .stop .failedPrecondition
  | .content s :: _ => .go s

/-- A list of strings (target.cpp:857-873; also field_reader.hpp:160-178). -/
def readStrings : List (J N) → Option (List Str)
  | [] => some []
  | .str s :: l => (readStrings l).map (s :: ·)
  | _ :: _ => none

/-- target.cpp:787-876: the variables of a target, given the JSON value of the targets file.  The exception for a description that is
no map is turned into a status by gRPC; it counts as any other refusal here. -/
def serveVariables (target : Str) (file : J N) : Step (List Str) :=
  match file with
  | .obj m =>
    match assoc target m with
    | some (.obj desc) =>
      match assoc "type".toList desc with
      | some (.str t) =>
        if t = "export".toList then
          match assoc "flexible_config".toList desc with
          | none => .go []
          | some (.arr l) => Step.orStop .failedPrecondition (readStrings l)
          | some _ => .stop .failedPrecondition
        else .stop .failedPrecondition
      | _ => .stop .failedPrecondition
    | _ => .stop .failedPrecondition
  | _ => .stop .failedPrecondition

/-- The whole request: `parseJson` reads the content of the file. -/
def askVariables (parseJson : Str → Option (J N)) (repos : List Blob) (target : Str) : Step (List Str) :=
  (findFile false repos).bind fun s => (Step.orStop .failedPrecondition (parseJson s)).bind (serveVariables target)

/-- field_reader.hpp:147-179 (`ReadStringList`) for the description of a target, as used by the rule `export` (export.cpp:137). -/
def localVariables (desc : List (Str × J N)) : Option (List Str) :=
  match (assoc "flexible_config".toList desc).getD (.arr []) with
  | .arr l => readStrings l
  | _ => none

/-- What happens for a configured target of type `export` next: the target is analysed for the pruned configuration, if it is another
one, or looked up with the configuration it has. -/
inductive Next (N : Type) where
  | again (c : List (Str × Value N))
  | lookup (c : List (Str × Value N))

/-- export.cpp:139-151 and absent_target_map.cpp:58-70, the same in both places. -/
def next [DecidableEq (List (Str × Value N))] (vars : List Str) (config : List (Str × Value N)) : Step (Next N) :=
  (prune vars (.map config)).bind fun c => .go (if config = c then .lookup c else .again c)

end Verif.Serve
