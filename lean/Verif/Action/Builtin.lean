import Verif.Action.Model
import Verif.Stage.Install

/-!
# Model of the definition of actions by rules

Source: `src/buildtool/build_engine/target_map/target_map.cpp` (lines 83-104 and 570-808, the function `ACTION` of
rules), `src/buildtool/build_engine/target_map/built_in_rules.cpp` (lines 1180-1510, the rule `generic`),
`src/buildtool/build_engine/target_map/utils.cpp` (lines 249-302, `createAction`).

The arguments are given by their values.  All errors are one outcome (`none`).  `PathIsNonUpwards` is taken to
accept the empty path, see V12.
-/

namespace Verif.Action

open Verif.Art Verif.Dig Verif.Expr Verif.Path Verif.Stage

variable {N : Type}

/-- The value of every entry, if all have one. -/
def allOf {α β : Type} (f : α → Option β) : List α → Option (List β)
  | [] => some []
  | a :: t => (f a).bind fun b => (allOf f t).bind fun bs => some (b :: bs)

/-- target_map.cpp:83-104 (`ReadActionOutputExpr`), 648-671, built_in_rules.cpp:1191-1210: a list of strings. -/
def strsOf (v : Value N) : Option (List Str) := v.list?.bind (allOf Val.str?)

/-- expression.hpp (`Artifact`). -/
def artOf : Value N → Option Desc
  | .art d => some d
  | _ => none

/-- target_map.cpp:685-697, 775-784: a map of strings. -/
def strItemsOf (v : Value N) : Option (List (Str × Str)) :=
  v.map?.bind (allOf fun e => e.2.str?.bind fun s => some (e.1, s))

/-- target_map.cpp:575-590: a map of artifacts. -/
def artItemsOf (v : Value N) : Option (List (Str × Desc)) :=
  v.map?.bind (allOf fun e => (artOf e.2).bind fun d => some (e.1, d))

/-- An ordered map of the items (which are sorted in a value). -/
def omapOf {A : Type} (l : List (Str × A)) : OMap Str A := l.foldl (fun m e => m.emplace e.1 e.2) OMap.empty

/-- vector.hpp:23-28 (`sort_and_deduplicate`): the elements in ascending order. -/
def sortDedup (l : List Str) : List Str := ((omapOf (l.map fun s => (s, ()))).items).map Prod.fst

/-- target_map.cpp:633-645, built_in_rules.cpp:1263-1280: nothing is in both (sorted) lists. -/
def disjointOuts (a b : List Str) : Bool := a.all fun s => !b.contains s

/-- target_map.cpp:674-679, built_in_rules.cpp:1322-1328. -/
def cwdOf (v : Value N) : Option Str :=
  v.str?.bind fun s => if s.isEmpty || nonUpwards s == .val true then some s else none

/-- target_map.cpp:698-716, 730-749: entries the rule is tainted with. -/
def taintsOf (tainted : List Str) (v : Value N) : Option (List Str) :=
  (strsOf v).bind fun l => if l.all (fun s => tainted.contains s) then some l else none

/-- target_map.cpp:751-757, 792-793, built_in_rules.cpp:1405-1411, 1485: number, or default. -/
def scaleOf (one : N) : Value N → Option N
  | .num n => some n
  | .none => some one
  | _ => Option.none

/-- target_map.cpp:758-784, built_in_rules.cpp:1426-1446: map of strings, or default. -/
def propsOf : Value N → Option (List (Str × Str))
  | .none => some []
  | v => strItemsOf v

/-- target_map.cpp:717-729: the message for an action that may fail. -/
def failOf (entries : List Str) (message : Value N) : Option (Option Str) :=
  if entries.isEmpty then some none else message.str?.bind fun s => some (some s)

/-- The values of the arguments of `ACTION`; the defaults are target_map.cpp:573, 608-611, 648, 672-673, 684, 697,
719, 730, 751, 759-761. -/
structure Call (N : Type) where
  inputs : Value N := .map []
  outs : Value N := .list []
  outDirs : Value N := .list []
  cmd : Value N := .list []
  cwd : Value N := .str []
  env : Value N := .map []
  mayFail : Value N := .list []
  failMessage : Value N := .str "action failed".toList
  noCache : Value N := .list []
  scale : Value N := .none
  props : Value N := .map []

/-- target_map.cpp:799-808: the artifacts of an action. -/
def outsMap (id : Str) : List Str → OMap Str Desc → OMap Str Desc
  | [], m => m
  | o :: t, m => outsMap id t (m.emplace o (.action id (toNormalPath o)))

/-- utils.cpp:164-200: the empty directory that is added for the working directory. -/
def emptyDir (h : Hashing N) : Desc := .tree (treeId h [])

/-- target_map.cpp:568-810 (`ACTION`): the action recorded and the value of the expression. -/
def actionCall (h : Hashing N) (hexFloat : N → Str) (one : N) (tainted : List Str) (c : Call N) :
    Option (Act N × OMap Str Desc) :=
  (artItemsOf c.inputs).bind fun inputs =>
  match checkStage (omapOf inputs) with
  | .ok stage =>
    (strsOf c.outs).bind fun outs =>
    (strsOf c.outDirs).bind fun dirs =>
    if outs.isEmpty && dirs.isEmpty then none
    else if !disjointOuts (sortDedup (outs.map toNormalPath)) (sortDedup (dirs.map toNormalPath)) then none
    else
      (strsOf c.cmd).bind fun cmd =>
      if cmd.isEmpty then none
      else
        (cwdOf c.cwd).bind fun cwd =>
        (strItemsOf c.env).bind fun env =>
        (taintsOf tainted c.mayFail).bind fun mayFail =>
        (failOf mayFail c.failMessage).bind fun fail =>
        (taintsOf tainted c.noCache).bind fun noCache =>
        (scaleOf one c.scale).bind fun scale =>
        (propsOf c.props).bind fun props =>
          let a : Act N := {
            files := sortDedup (outs.map toNormalPath)
            dirs := sortDedup (dirs.map toNormalPath)
            command := cmd
            cwd := cwd
            env := env
            mayFail := fail
            noCache := !noCache.isEmpty
            timeout := scale
            props := props
            inputs := (addDirFor (emptyDir h) cwd stage).items }
          some (a, outsMap (a.id h hexFloat) dirs (outsMap (a.id h hexFloat) outs OMap.empty))
  | _ => none

/-- The values of the fields of a `generic` target. -/
structure GenericCall (N : Type) where
  outs : Value N := .list []
  outDirs : Value N := .list []
  cmds : Value N := .list []
  cwd : Value N := .str []
  env : Value N := .map []
  sh : Value N := .list []
  scale : Value N := .none
  props : Value N := .map []

/-- built_in_rules.cpp:1372-1400: the interpreter of the commands. -/
def shellOf : Value N → Option (List Str)
  | .none => some ["sh".toList, "-c".toList]
  | v => (strsOf v).bind fun l => some (if l.isEmpty then ["sh".toList, "-c".toList] else l)

/-- built_in_rules.cpp:1451-1457: later dependencies take precedence, and artifacts over runfiles. -/
def genericInputs (deps : List (Provided Desc)) : OMap Str Desc :=
  deps.foldl (fun m d => over m d.artifacts) (deps.foldl (fun m d => over m d.runfiles) OMap.empty)

/-- built_in_rules.cpp:1184-1511 (`GenericRuleWithDeps`): the action and the artifacts of a `generic` target. -/
def genericCall (h : Hashing N) (hexFloat : N → Str) (one : N) (deps : List (Provided Desc))
    (c : GenericCall N) : Option (Act N × OMap Str Desc) :=
  (strsOf c.outs).bind fun outs =>
  (strsOf c.outDirs).bind fun dirs =>
  if outs.isEmpty && dirs.isEmpty then none
  else if !disjointOuts (sortDedup (outs.map toNormalPath)) (sortDedup (dirs.map toNormalPath)) then none
  else
    (strsOf c.cmds).bind fun cmds =>
    (cwdOf c.cwd).bind fun cwd =>
    (strItemsOf c.env).bind fun env =>
    (shellOf c.sh).bind fun sh =>
    (scaleOf one c.scale).bind fun scale =>
    (propsOf c.props).bind fun props =>
    match treeConflict (genericInputs deps) with
    | .ok =>
      let a : Act N := {
        files := sortDedup (outs.map toNormalPath)
        dirs := sortDedup (dirs.map toNormalPath)
        command := sh ++ [cmds.flatMap fun s => s ++ ['\n']]
        cwd := cwd
        env := env
        mayFail := none
        noCache := false
        timeout := scale
        props := props
        inputs := (addDirFor (emptyDir h) cwd (genericInputs deps)).items }
      let m := outsMap (a.id h hexFloat) a.dirs (outsMap (a.id h hexFloat) a.files OMap.empty)
      if treeConflict m = .ok then some (a, m) else none
    | _ => none

end Verif.Action
