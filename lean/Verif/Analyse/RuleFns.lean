import Verif.Action.Builtin
import Verif.Expr.Model

/-!
# Model of the functions available in the defining expression of a rule

Source: `src/buildtool/build_engine/target_map/target_map.cpp` (lines 521-1064 and 1084-1105),
`src/buildtool/build_engine/target_map/utils.cpp` (lines 74-97).

The functions `ACTION`, `BLOB`, `SYMLINK`, `TREE`, `TREE_OVERLAY` and `DISJOINT_TREE_OVERLAY` record what they define in
vectors that only grow.  The model is given the final contents of these vectors and lets a call succeed only if what it
records is among them.  So the evaluation by the code, ending with these vectors, is the evaluation of the model.

Simplifications: all arguments of a function are evaluated before they are checked, which only matters for the error
that is reported.  A default is given as value instead of as expression with this value.
-/

namespace Verif.Analyse.Rule

open Verif.Action Verif.Art Verif.Dig Verif.Expr Verif.Path Verif.Stage
open Verif.Names (Entity)

variable {N : Type}

deriving instance DecidableEq for Act

/-- target_map.cpp:523-526: what was recorded.  A tree is given by its entries, an overlay by its parts and whether
they have to be disjoint. -/
structure Rec (N : Type) where
  actions : List (Act N) := []
  blobs : List Str := []
  trees : List (List (Str × Desc)) := []
  overlays : List (List Desc × Bool) := []

/-- Everything of the one is part of the other. -/
def Rec.within [DecidableEq N] (r s : Rec N) : Bool :=
  r.actions.all (fun a => s.actions.contains a) && r.blobs.all (fun b => s.blobs.contains b) &&
    r.trees.all (fun t => s.trees.contains t) && r.overlays.all (fun o => s.overlays.contains o)

/-- The hash functions: for identifiers, the notation of numbers in actions, and for the contents of files and
symbolic links (artifact_digest_factory.hpp, `HashDataAs`). -/
structure Hashes (N : Type) where
  h : Hashing N
  hexFloat : N → Str
  file : Str → Digest
  link : Str → Digest

/-- What the functions are given: hashes, the taints of the rule, the values of the fields, the analysed dependencies
(artifacts, provided values, runfiles) by name and transition, and the final contents of the vectors. -/
structure Ctx (N : Type) where
  hashes : Hashes N
  one : N
  tainted : List Str
  params : List (Str × Value N)
  deps : Entity → Value N → Option (Value N × Value N × Value N)
  final : Rec N

/-- The value, if what was recorded is part of the final contents of the vectors. -/
def Ctx.keep [DecidableEq N] (c : Ctx N) (r : Rec N) (v : Value N) : Option (Value N) :=
  if r.within c.final then some v else none

/-- expression.hpp:160-175 (`Get`), and evaluation. -/
def arg (key : String) (dflt : Value N) (next : Value N → Prog N Desc) : Prog N Desc :=
  .need key.toList fun o => next (o.getD dflt)

/-- expression.hpp:140-158 (`operator[]`), and evaluation. -/
def must (key : String) (next : Value N → Prog N Desc) : Prog N Desc :=
  .need key.toList fun o => o.elim (.done none) next

/-- expression.hpp:160-175 (`Get`). -/
def rawArg (key : String) (dflt : Value N) (next : Value N → Prog N Desc) : Prog N Desc :=
  .raw key.toList fun o => next (o.getD dflt)

/-- expression.hpp (`Name`). -/
def nameOf : Value N → Option Entity
  | .name e => some e
  | _ => none

variable [DecidableEq N] (c : Ctx N)

/-- target_map.cpp:529-544 (`FIELD`). -/
def fieldFn : Regular N Desc where
  keys := ["name".toList]
  prog := must "name" fun v => .done (v.str?.bind fun s => assoc s c.params)

/-- utils.cpp:74-97 (`obtainTarget`). -/
def obtain (next : Value N × Value N × Value N → Prog N Desc) : Prog N Desc :=
  must "dep" fun ref => arg "transition" (.map []) fun tr =>
    ((nameOf ref).bind fun e => c.deps e tr).elim (.done none) next

/-- target_map.cpp:545-551 (`DEP_ARTIFACTS`). -/
def depArtifactsFn : Regular N Desc where
  keys := ["dep".toList, "transition".toList]
  prog := obtain c fun t => .done (some t.1)

/-- target_map.cpp:552-558 (`DEP_RUNFILES`). -/
def depRunfilesFn : Regular N Desc where
  keys := ["dep".toList, "transition".toList]
  prog := obtain c fun t => .done (some t.2.2)

/-- target_map.cpp:559-573 (`DEP_PROVIDES`). -/
def depProvidesFn : Regular N Desc where
  keys := ["dep".toList, "transition".toList, "provider".toList, "default".toList]
  prog := obtain c fun t => must "provider" fun p =>
    p.str?.elim (.done none) fun s =>
      t.2.1.map?.elim (.done none) fun m =>
        (assoc s m).elim (arg "default" (.list []) fun v => .done (some v)) fun v => .done (some v)

/-- utils.cpp:162-201 (`add_dir_for`): the trees it records for an action with these arguments. -/
def dirTrees (call : Call N) : List (List (Str × Desc)) :=
  match (artItemsOf call.inputs).map (fun l => checkStage (omapOf l)), cwdOf call.cwd with
  | some (.ok stage), some cwd =>
    if cwd = [] ∨ cwd = dot then [] else if mayAddDir cwd stage then [[]] else []
  | _, _ => []

/-- target_map.cpp:574-810 (`ACTION`): with the values of the arguments. -/
def actionValue (call : Call N) : Option (Value N) :=
  (actionCall c.hashes.h c.hashes.hexFloat c.one c.tainted call).bind fun r =>
    c.keep { actions := [r.1], trees := dirTrees call } (artMap r.2.items)

/-- target_map.cpp:574-810 (`ACTION`).  The fields `may_fail` and `no_cache` are not evaluated. -/
def actionFn : Regular N Desc where
  keys := ["inputs", "outs", "out_dirs", "cmd", "cwd", "env", "fail_message", "timeout scaling",
    "execution properties"].map String.toList
  prog := arg "inputs" (.map []) fun inputs => arg "outs" (.list []) fun outs =>
    arg "out_dirs" (.list []) fun dirs => arg "cmd" (.list []) fun cmd => arg "cwd" (.str []) fun cwd =>
    arg "env" (.map []) fun env => rawArg "may_fail" (.list []) fun mayFail =>
    rawArg "no_cache" (.list []) fun noCache => arg "timeout scaling" (.num c.one) fun scale =>
    arg "execution properties" (.map []) fun props =>
      let call : Call N := {
        inputs := inputs
        outs := outs
        outDirs := dirs
        cmd := cmd
        cwd := cwd
        env := env
        mayFail := mayFail
        noCache := noCache
        scale := scale
        props := props }
      if (mayFail.list?.getD []).isEmpty then .done (actionValue c call)
      else arg "fail_message" (.str "action failed".toList) fun msg =>
        .done (actionValue c { call with failMessage := msg })

/-- target_map.cpp:811-824 (`BLOB`). -/
def blobFn : Regular N Desc where
  keys := ["data".toList]
  prog := arg "data" (.str []) fun v => .done (v.str?.bind fun s =>
    c.keep { blobs := [s] } (.art (.known (c.hashes.file s) .file none)))

/-- target_map.cpp:826-846 (`SYMLINK`).  `PathIsNonUpwards` is taken to accept the empty path, see V12. -/
def symlinkFn : Regular N Desc where
  keys := ["data".toList]
  prog := arg "data" (.str []) fun v => .done (v.str?.bind fun s =>
    if s.isEmpty || nonUpwards s == .val true then
      c.keep { blobs := [s] } (.art (.known (c.hashes.link s) .symlink none))
    else none)

/-- target_map.cpp:331-360 (`ExprToTree`): the entries of the tree. -/
def treeOf (v : Value N) : Option (List (Str × Desc)) :=
  (artItemsOf v).bind fun l =>
    match exprToTree (omapOf l) with
    | .ok m => some m.items
    | _ => none

/-- target_map.cpp:848-855 (`TREE`). -/
def treeFn : Regular N Desc where
  keys := ["$1".toList]
  prog := arg "$1" (.map []) fun v => .done ((treeOf v).bind fun t =>
    c.keep { trees := [t] } (.art (.tree (treeId c.hashes.h t))))

/-- target_map.cpp:857-915 (`TREE_OVERLAY`, `DISJOINT_TREE_OVERLAY`). -/
def overlayFn (disjoint : Bool) : Regular N Desc where
  keys := ["$1".toList]
  prog := arg "$1" (.list []) fun v => .done (v.list?.bind fun l => (allOf treeOf l).bind fun ts =>
    let parts := ts.map fun t => Desc.tree (treeId c.hashes.h t)
    c.keep { trees := ts, overlays := [(parts, disjoint)] } (.art (.overlay (overlayId c.hashes.h parts disjoint))))

/-- target_map.cpp:917-925 (`VALUE_NODE`). -/
def valueNodeFn : Regular N Desc where
  keys := ["$1".toList]
  prog := arg "$1" .none fun v => .done (match v with
    | .result _ _ _ => some (.valueNode v)
    | _ => none)

/-- expression.hpp (`IsNode`). -/
def isNode : Value N → Bool
  | .valueNode _ => true
  | .absNode _ _ _ => true
  | _ => false

/-- target_map.cpp:945-977: all values are lists of the type. -/
def checkEntries (p : Value N → Bool) (m : List (Str × Value N)) : Bool :=
  m.all fun e => match e.2.list? with
    | some l => l.all p
    | none => false

/-- target_map.cpp:926-996 (`ABSTRACT_NODE`): with the values of the arguments. -/
def absNodeValue (type strings targets : Value N) : Option (Value N) :=
  type.str?.bind fun t => strings.map?.bind fun s => targets.map?.bind fun u =>
    if checkEntries (fun v => v.str?.isSome) s && checkEntries isNode u &&
        s.all (fun e => (assoc e.1 u).isNone) then some (.absNode t strings targets)
    else none

/-- target_map.cpp:926-996 (`ABSTRACT_NODE`). -/
def absNodeFn : Regular N Desc where
  keys := ["node_type".toList, "string_fields".toList, "target_fields".toList]
  prog := arg "node_type" .none fun type => arg "string_fields" (.map []) fun strings =>
    arg "target_fields" (.map []) fun targets => .done (absNodeValue type strings targets)

/-- target_map.cpp:1002-1024, 1031-1056: a map of artifacts without conflicts, with normal keys. -/
def stageOf (v : Value N) : Option (Value N) :=
  (artItemsOf v).bind fun l =>
    match checkStage (omapOf l) with
    | .ok m => some (artMap m.items)
    | _ => none

/-- target_map.cpp:997-1064 (`RESULT`). -/
def resultFn : Regular N Desc where
  keys := ["artifacts".toList, "runfiles".toList, "provides".toList]
  prog := arg "artifacts" (.map []) fun artifacts => arg "runfiles" (.map []) fun runfiles =>
    arg "provides" (.map []) fun provides => .done ((stageOf artifacts).bind fun a =>
      (stageOf runfiles).bind fun r => provides.map?.bind fun _ => some (.result a provides r))

/-- target_map.cpp:527-1064: the functions by name. -/
def ruleFns : List (Str × Regular N Desc) :=
  [("FIELD".toList, fieldFn c), ("DEP_ARTIFACTS".toList, depArtifactsFn c),
   ("DEP_RUNFILES".toList, depRunfilesFn c), ("DEP_PROVIDES".toList, depProvidesFn c),
   ("ACTION".toList, actionFn c), ("BLOB".toList, blobFn c), ("SYMLINK".toList, symlinkFn c),
   ("TREE".toList, treeFn c), ("TREE_OVERLAY".toList, overlayFn c false),
   ("DISJOINT_TREE_OVERLAY".toList, overlayFn c true), ("VALUE_NODE".toList, valueNodeFn),
   ("ABSTRACT_NODE".toList, absNodeFn), ("RESULT".toList, resultFn)]

/-- target_map.cpp:1084-1105: evaluation of the defining expression of a rule; its value has to be a result
(artifacts, provided values, runfiles). -/
def ruleResult (O : Ops N Desc) (n : Nat) (f : Fn N Desc) (ρ : Env N Desc) :
    Option (Value N × Value N × Value N) :=
  match evaluate { O with provided := fun name => assoc name (ruleFns c) } n f ρ with
  | .ok (.result a p r) => some (a, p, r)
  | _ => none

end Verif.Analyse.Rule
