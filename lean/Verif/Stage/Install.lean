import Verif.Stage.Model
import Verif.LinkedMap.Lemmas

/-!
# Model of the rule `install`

Source: `src/buildtool/build_engine/target_map/built_in_rules.cpp` (lines 736-899) and
`src/buildtool/graph_traverser/graph_traverser.cpp` (lines 513-523).

Targets are values of an arbitrary type `T`; what they provide is given by a function (the map
`deps_by_target` of the code).  Taint, configuration variables and implied exports of the target are
treated in `Verif.Analyse`.  Reading and evaluating the fields (lines 901-1060) is not modelled.
-/

namespace Verif.Stage

open Verif.Path Verif.LinkedMap

variable {A T : Type} [DecidableEq A]

/-- analysed_target.hpp (`AnalysedTarget::Artifacts`, `AnalysedTarget::RunFiles`): the part of an analysed
target that `install` looks at. -/
structure Provided (A : Type) where
  artifacts : OMap Str A
  runfiles : OMap Str A

/-- built_in_rules.cpp:736-744: the arguments of `InstallRuleWithDeps`.  `files` is an unordered map: a list
in an arbitrary order. -/
structure InstallDesc (T : Type) where
  deps : List T
  files : List (Str × T)
  dirs : List (T × Str)

/-- linked_map.hpp:116-119: the constructor with a map and a shadowed map, `map_t{lower, upper}`. -/
def over (lower upper : OMap Str A) : OMap Str A :=
  ⟨mergeItems upper.items lower.items, mergeItems_asc _ _ upper.asc lower.asc⟩

/-- linked_map.hpp:212-236 (`FindConflictingDuplicate`). -/
def duplicate (m n : OMap Str A) : Option Str := conflictScan m.items n.items

/-- Outcome of the rule: the stage, or the error reported, or undefined behaviour. -/
inductive Installed (A : Type) where
  | ok (m : OMap Str A)
  | conflict (p : Str)
  | nothing (p : Str)
  | many (p : Str)
  | tree (p : Str)
  | ub

/-- built_in_rules.cpp:811-822: stage the runfiles of `deps`; the error is the path in conflict. -/
def stageDeps (E : T → Provided A) : List T → OMap Str A → Except Str (OMap Str A)
  | [], s => .ok s
  | d :: t, s =>
    match duplicate s (E d).runfiles with
    | some p => .error p
    | none => stageDeps E t (over s (E d).runfiles)

/-- built_in_rules.cpp:831-835: the artifacts, or else the runfiles. -/
def fileSource (t : Provided A) : OMap Str A :=
  if t.artifacts.items.isEmpty then t.runfiles else t.artifacts

/-- built_in_rules.cpp:825-853: stage `files`.  The first argument is the stage of the `deps`, the last one
the stage of the files so far. -/
def stageFiles (E : T → Provided A) (s : OMap Str A) : List (Str × T) → OMap Str A → Installed A
  | [], fs => .ok fs
  | (path, t) :: rest, fs =>
    if (s.find path).isSome then .conflict path
    else
      match (fileSource (E t)).items with
      | [] => .nothing path
      | [e] => stageFiles E s rest (fs.emplace path e.2)
      | _ :: _ :: _ => .many path

/-- built_in_rules.cpp:863-870: put the entries below a directory. -/
def stageBelow (dir : Str) : List (Str × A) → OMap Str A → OMap Str A
  | [], r => r
  | (path, a) :: t, r => stageBelow dir t (r.emplace (toNormalPath (append dir path)) a)

/-- built_in_rules.cpp:858-870: the stage of one entry of `dirs`. -/
def subdirStage (p : Provided A) (dir : Str) : OMap Str A :=
  stageBelow dir p.runfiles.items (stageBelow dir p.artifacts.items OMap.empty)

/-- built_in_rules.cpp:857-880: stage `dirs`. -/
def stageDirs (E : T → Provided A) : List (T × Str) → OMap Str A → Except Str (OMap Str A)
  | [], s => .ok s
  | (t, dir) :: rest, s =>
    match duplicate s (subdirStage (E t) dir) with
    | some p => .error p
    | none => stageDirs E rest (over s (subdirStage (E t) dir))

/-- built_in_rules.cpp:809-889: the stage of an `install` target. -/
def install (E : T → Provided A) (d : InstallDesc T) : Installed A :=
  match stageDeps E d.deps OMap.empty with
  | .error p => .conflict p
  | .ok s =>
    match stageFiles E s d.files OMap.empty with
    | .ok fs =>
      match stageDirs E d.dirs (over s fs) with
      | .error p => .conflict p
      | .ok s' =>
        match treeConflict s' with
        | .ok => .ok s'
        | .conflict p => .tree p
        | .ub => .ub
    | e => e

/-- graph_traverser.cpp:513-523 (`PrepareOutputPaths`): where an artifact of the stage is written by the
command `just install`. -/
def outputPath (outputDir path : Str) : Str := append outputDir path

end Verif.Stage
