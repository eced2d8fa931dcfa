import Verif.Util.Json

/-!
# The dump of targets

Model of `DumpTargets` (src/buildtool/main/diagnose.cpp:183-223), used for `--dump-targets` and
`--dump-export-targets`.  The identifiers of rule maps and nodes of anonymous
targets, and the JSON of configurations, are given.
-/

namespace Verif.Dump

open Json

variable {N : Type}

/-- A target as it is needed here (entity_name_data.hpp:37-40, 59-100): the reference type of a named one
tells whether it is a target in a target file. -/
inductive TargetRef where
  | named (repository module name : Str) (explicit : Bool)
  | anonymous (ruleMap node : Str)

/-- diagnose.cpp:187-200: where the configurations of a target are. The markers are those of
entity_name_data.hpp:117, 123. -/
def TargetRef.place : TargetRef → List Str
  | .named r m n _ => [['@'], r, m, n]
  | .anonymous r n => [['#'], r, n]

/-- diagnose.cpp:203-205: source files and the like are not shown. -/
def TargetRef.shown : TargetRef → Bool
  | .named _ _ _ e => e
  | .anonymous _ _ => true

/-- The `operator[]` and `push_back` of nlohmann::json as used in diagnose.cpp:187-206: an entry that is
missing is `null`, which becomes an object or an array; `none`: an exception, as for a key of an array. -/
def pushAt (c : Json N) : List Str → Json N → Option (Json N)
  | [], null => some (arr [c])
  | [], arr l => some (arr (l ++ [c]))
  | [], _ => none
  | k :: p, null => (pushAt c p null).map fun v => obj [(k, v)]
  | k :: p, obj l =>
    (pushAt c p ((assoc k l).getD null)).map fun v => obj (OMap.insertList (fun _ new => new) k v l)
  | _ :: _, _ => none

/-- The loop of diagnose.cpp:201-208. -/
def pushTargets : List (TargetRef × Json N) → Json N → Option (Json N)
  | [], j => some j
  | (t, c) :: r, j => if t.shown then (pushAt c t.place j).bind (pushTargets r) else pushTargets r j

/-- diagnose.cpp:183-209 (`DumpTargets`): the JSON that is written. -/
def dumpTargets (ts : List (TargetRef × Json N)) : Option (Json N) := pushTargets ts (obj [])

end Verif.Dump
