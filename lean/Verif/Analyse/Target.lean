import Verif.Util.OMap
import Verif.Path.Model
import Mathlib.Data.Finset.Basic
import Mathlib.Data.Finset.Union
import Mathlib.Data.Finset.Filter
import Mathlib.Data.List.Lex
import Mathlib.Data.Char

/-!
# Analysis of targets: configurations, variables, taint, implied export targets

Source: `src/buildtool/build_engine/target_map/target_map.cpp`, `built_in_rules.cpp`, `export.cpp`, `utils.cpp`.

What a rule computes (artifacts, actions, ...) is an arbitrary function of what the code hands to the evaluation of the
expressions involved; evaluation itself is the subject of C02-C10, C59. What is modelled in full is which configuration is
used for what, which targets are requested in which configuration, and how variables, taint and implied
export targets of the result are computed.
-/

namespace Verif.Analyse

open Verif.Path

/-! ## Configurations -/

/-- A configuration (configuration.hpp:35-37), as what looking up a variable gives; that the data structure provides just this is
C01, C04. -/
abbrev Cfg (V : Type) := Str → Option V

/-- A map fixing variables: list of its entries in the order of the keys. -/
abbrev Trans (V : Type) := List (Str × V)

section
variable {V : Type} [Inhabited V]

/-- configuration.hpp:51-54 (`operator[]`); `default` is the null value. -/
def get (c : Cfg V) (x : Str) : V := (c x).getD default

/-- configuration.hpp:104-118 (`Prune`). -/
def prune (vars : Finset Str) (c : Cfg V) : Cfg V := fun x => if x ∈ vars then some (get c x) else none

omit [Inhabited V] in
/-- configuration.hpp:137-160 (`Update`). -/
def update (c : Cfg V) (t : Trans V) : Cfg V := fun x =>
  match assoc x t with
  | some v => some v
  | none => c x

omit [Inhabited V] in
/-- configuration.hpp:163-165 (`VariableFixed`). -/
def fixed (t : Trans V) (x : Str) : Bool := (assoc x t).isSome

end

/-! ## Targets and results -/

/-- The result of analysing a target (analysed_target.hpp:35-60). `value` stands for artifacts, runfiles, provided values, actions,
blobs, trees and overlays; `node` and `deps` are the information for the graph of targets (with declared, implicit and anonymous
dependencies in one list). -/
structure Analysed (E V P : Type) where
  value : P
  vars : Finset Str
  tainted : Finset Str
  implied : Finset Str
  node : Option (E × Cfg V)
  deps : List (Option (E × Cfg V))

/-- What evaluating a list of dependencies may give. -/
inductive Names (E : Type) where
  /-- the evaluation fails -/
  | fails
  /-- not a list of target names -/
  | invalid
  | targets (l : List E)

/-- A target defined by a rule of the user, or an abstract node instantiated by such a rule (target_map.cpp:106-248). The
functions stand for the evaluation of expressions; their arguments are all that is handed to the evaluation. -/
structure User (E V P : Type) where
  /-- `arguments_config` -/
  paramVars : Finset Str
  /-- `config_vars` of the rule -/
  configVars : Finset Str
  /-- taint of the rule -/
  ruleTaint : Finset Str
  /-- the field `tainted`, under the configuration of the target -/
  taint : Cfg V → Option (Finset Str)
  /-- the config fields, under the configuration of the target -/
  params : Cfg V → Option (List (Str × V))
  /-- the transitions of a field, under the configuration of the rule -/
  transitions : Str → Cfg V → List (Str × V) → Option (List (Trans V))
  fields : List Str
  /-- the targets in a field, under the configuration of the target -/
  names : Str → Cfg V → Option (List E)
  implicits : List (Str × List E)
  /-- name, and the field whose targets provide the nodes -/
  anonymous : List (Str × Str)
  /-- the nodes provided, as anonymous targets -/
  nodes : Str → P → Option (List E)
  /-- string fields, under the configuration of the target, and the main expression, under the configuration of the rule -/
  value : Cfg V → Cfg V → List (Str × V) → List (Str × List E) → List ((E × Trans V) × P) → Option P

/-- The ways a target is defined. -/
inductive Def (E V P : Type) where
  /-- source files, symbolic links, known trees, globs, value nodes (target_map.cpp:1633-1646, 1737-1757, 1856-1915, 1971-2035) -/
  | source (value : P)
  /-- other source trees (target_map.cpp:1758-1846) -/
  | sourceTree (entries : List E) (value : List P → Option P)
  /-- the rules `file_gen`, `symlink`, `tree`, `tree_overlay`, `disjoint_tree_overlay`, `install`, `generic`
  (built_in_rules.cpp:144-1606); `generic` is told apart as it differs in what happens if its dependencies cannot be evaluated -/
  | builtin (generic : Bool) (paramVars : Finset Str) (names : Cfg V → Names E) (taint : Cfg V → Option (Finset Str))
      (value : Cfg V → List (E × P) → Option P)
  /-- the rule `configure` (built_in_rules.cpp:1608-1745) -/
  | configure (paramVars : Finset Str) (target : Cfg V → Option E) (taint : Cfg V → Option (Finset Str))
      (config : Cfg V → Option (Trans V))
  /-- the rule `export` (export.cpp:126-356): the flexible variables, the key of the target cache (if eligible) and the entry
  found there (or provided by a serve end point) for the effective configuration, the exported target, the fixed variables, and
  whether provided values may be cached -/
  | exported (flexible : Finset Str) (key : Cfg V → Option Str) (cached : Cfg V → Option (P × Finset Str))
      (target : Option E) (fixedConfig : Trans V) (cacheable : P → Bool)
  | user (u : User E V P)

/-- Why there is no result. -/
inductive Fault where
  /-- an error is reported -/
  | failed
  /-- undefined behaviour -/
  | undefined
  /-- the given depth is not enough (never for targets without cyclic dependencies) -/
  | unfinished
  deriving DecidableEq

/-- A requested dependency: the field requesting it, the target, and its configuration, which is the configuration of the
requesting target, possibly pruned, updated by `trans`. -/
structure Dep (E V : Type) where
  field : Str
  target : E
  base : Option (Finset Str)
  trans : Trans V

section
variable {E V P : Type} [DecidableEq E] [DecidableEq V] [Inhabited V]

omit [DecidableEq E] [DecidableEq V] in
/-- The configuration of a requested dependency: `key.config.Update(transition)` (target_map.cpp:1336, 1360, 1446;
built_in_rules.cpp:376, 650, 956, 1583, 1687; export.cpp:333; target_map.cpp:1777). -/
def Dep.config (d : Dep E V) (c : Cfg V) : Cfg V :=
  update (match d.base with | none => c | some s => prune s c) d.trans

/-- An error, if there is no value. -/
def opt {X : Type} : Option X → Except Fault X
  | some x => .ok x
  | none => .error .failed

/-- `unordered_map::emplace`, for one entry after the other. -/
def emplaceAll {X K : Type} [DecidableEq K] : List (K × X) → List (K × X) → List (K × X)
  | acc, [] => acc
  | acc, x :: l => if x.1 ∈ acc.map Prod.fst then emplaceAll acc l else emplaceAll (acc ++ [x]) l

/-- The variables, taints, or implied export targets of all of the list. -/
def unionAll {X : Type} (f : X → Finset Str) : List X → Finset Str
  | [] => ∅
  | x :: l => f x ∪ unionAll f l

/-- `std::includes` for each dependency. -/
def includesAll (t : Finset Str) (deps : List (Dep E V × Analysed E V P)) : Bool :=
  deps.all fun d => decide (d.2.tainted ⊆ t)

/-! ## User-defined rules -/

/-- The dependencies of the fields (target_map.cpp:1335-1350, 1359-1373): for each transition, each target. -/
def fieldDeps : List (Str × List (Trans V) × List E) → List (Dep E V)
  | [] => []
  | (f, ts, es) :: l => (ts.flatMap fun t => es.map fun e => ⟨f, e, none, t⟩) ++ fieldDeps l

/-- target_map.cpp:1148-1379 (`withRuleDefinition` up to the request of dependencies). -/
def userKeys (u : User E V P) (c : Cfg V) : Except Fault (List (Dep E V)) := do
  let params ← opt (u.params (prune u.paramVars c))
  let ts ← opt (u.fields.mapM fun f => u.transitions f (prune u.configVars c) params)
  let ti ← opt (u.implicits.mapM fun i => u.transitions i.1 (prune u.configVars c) params)
  let _ ← opt (u.anonymous.mapM fun a => u.transitions a.1 (prune u.configVars c) params)
  let ns ← opt (u.fields.mapM fun f => u.names f (prune u.paramVars c))
  return fieldDeps (u.fields.zip (ts.zip ns)) ++
    fieldDeps ((u.implicits.map Prod.fst).zip (ti.zip (u.implicits.map Prod.snd)))

/-- target_map.cpp:1399-1461: the anonymous dependencies, once the others are analysed. -/
def userAnonymous (u : User E V P) (c : Cfg V) (deps : List (Dep E V × Analysed E V P)) : Except Fault (List (Dep E V)) := do
  let params ← opt (u.params (prune u.paramVars c))
  let ta ← opt (u.anonymous.mapM fun a => u.transitions a.1 (prune u.configVars c) params)
  let ns ← opt (u.anonymous.mapM fun a => (deps.filter fun d => d.1.field = a.2).mapM fun d => u.nodes a.1 d.2.value)
  return fieldDeps ((u.anonymous.map Prod.fst).zip (ta.zip (ns.map List.flatten)))

/-- target_map.cpp:376-383 (`deps_by_transition`). -/
def byTransition (deps : List (Dep E V × Analysed E V P)) : List ((E × Trans V) × Analysed E V P) :=
  emplaceAll [] (deps.map fun d => ((d.1.target, d.1.trans), d.2))

/-- target_map.cpp:386-397: the variables the result depends on. -/
def userVars (u : User E V P) (deps : List (Dep E V × Analysed E V P)) : Finset Str :=
  u.paramVars ∪ u.configVars ∪
    unionAll (fun d => d.2.vars.filter fun x => fixed d.1.2 x = false) (byTransition deps)

/-- target_map.cpp:363-1119 (`withDependencies`). -/
def userResult (e : E) (u : User E V P) (c : Cfg V) (deps : List (Dep E V × Analysed E V P)) :
    Except Fault (Analysed E V P) := do
  let params ← opt (u.params (prune u.paramVars c))
  let ns ← opt (u.fields.mapM fun f => u.names f (prune u.paramVars c))
  let an ← opt (u.anonymous.mapM fun a => (deps.filter fun d => d.1.field = a.2).mapM fun d => u.nodes a.1 d.2.value)
  let taint ← opt (u.taint (prune u.paramVars c))
  if includesAll (taint ∪ u.ruleTaint) deps = true then do
    let value ← opt (u.value (prune u.paramVars c) (prune u.configVars c) params
      (u.fields.zip ns ++ u.implicits ++ (u.anonymous.map Prod.fst).zip (an.map List.flatten))
      ((byTransition deps).map fun d => (d.1, d.2.value)))
    return ⟨value, userVars u deps, taint ∪ u.ruleTaint, unionAll (fun d => d.2.implied) deps,
      some (e, prune (userVars u deps) c), deps.map fun d => d.2.node⟩
  else .error .failed

/-! ## Built-in rules -/

/-- built_in_rules.cpp:334-379, 612-651, 916-1055, 1546-1586: the dependencies of built-in rules. For `generic` the result of the
evaluation is used without a test whether there is one (built_in_rules.cpp:1552-1556). -/
def builtinKeys (generic : Bool) (paramVars : Finset Str) (names : Cfg V → Names E) (c : Cfg V) :
    Except Fault (List (Dep E V)) :=
  match names (prune paramVars c) with
  | .fails => .error (if generic = true then .undefined else .failed)
  | .invalid => .error .failed
  | .targets l => .ok (l.map fun e => ⟨[], e, none, []⟩)

/-- built_in_rules.cpp:144-312, 439-586, 736-899, 1082-1529. -/
def builtinResult (e : E) (paramVars : Finset Str) (taint : Cfg V → Option (Finset Str))
    (value : Cfg V → List (E × P) → Option P) (c : Cfg V) (deps : List (Dep E V × Analysed E V P)) :
    Except Fault (Analysed E V P) := do
  let taint ← opt (taint (prune paramVars c))
  if includesAll taint deps = true then do
    let value ← opt (value (prune paramVars c) (deps.map fun d => (d.1.target, d.2.value)))
    return ⟨value, paramVars ∪ unionAll (fun d => d.2.vars) deps, taint, unionAll (fun d => d.2.implied) deps,
      some (e, prune (paramVars ∪ unionAll (fun d => d.2.vars) deps) c), deps.map fun d => d.2.node⟩
  else .error .failed

/-- built_in_rules.cpp:1623-1692. -/
def configureKeys (paramVars : Finset Str) (target : Cfg V → Option E) (taint : Cfg V → Option (Finset Str))
    (config : Cfg V → Option (Trans V)) (c : Cfg V) : Except Fault (List (Dep E V)) := do
  let target ← opt (target (prune paramVars c))
  let _ ← opt (taint (prune paramVars c))
  let t ← opt (config (prune paramVars c))
  return [⟨[], target, none, t⟩]

/-- built_in_rules.cpp:1700-1742. -/
def configureResult (e : E) (paramVars : Finset Str) (taint : Cfg V → Option (Finset Str)) (c : Cfg V) :
    List (Dep E V × Analysed E V P) → Except Fault (Analysed E V P)
  | [(k, v)] => do
    let taint ← opt (taint (prune paramVars c))
    if includesAll taint [(k, v)] = true then
      return ⟨v.value, paramVars ∪ v.vars.filter (fun x => fixed k.trans x = false), taint, v.implied,
        some (e, prune (paramVars ∪ v.vars.filter fun x => fixed k.trans x = false) c), [v.node]⟩
    else .error .failed
  | _ => .error .failed

/-- export.cpp:299-338, for the effective configuration. -/
def exportKeys (flexible : Finset Str) (cached : Cfg V → Option (P × Finset Str)) (target : Option E)
    (fixedConfig : Trans V) (c : Cfg V) : Except Fault (List (Dep E V)) :=
  match cached (prune flexible c) with
  | some _ => .ok []
  | none =>
    if (fixedConfig.any fun x => decide (x.1 ∈ flexible)) = true then .error .failed
    else match target with
      | none => .error .failed
      | some t => .ok [⟨[], t, some flexible, fixedConfig⟩]

/-- export.cpp:65-122 (`FinalizeExport`), 243-286 (value from the cache). An export target in another configuration than
its effective one asks for itself in the latter (export.cpp:140-151) and takes over the result; here the result is computed
right away for the effective configuration. An entry is looked for only if there is a key (export.cpp:164-167). -/
def exportResult (e : E) (flexible : Finset Str) (key : Cfg V → Option Str) (cached : Cfg V → Option (P × Finset Str))
    (cacheable : P → Bool) (c : Cfg V) (deps : List (Dep E V × Analysed E V P)) : Except Fault (Analysed E V P) :=
  match cached (prune flexible c) with
  | some (value, implied) => .ok ⟨value, flexible, ∅, implied, some (e, prune flexible c), []⟩
  | none =>
    match deps with
    | [(_, v)] =>
      if v.tainted = ∅ ∧ cacheable v.value = true then
        .ok ⟨v.value, flexible, ∅,
          match key (prune flexible c) with | some k => insert k v.implied | none => ∅,
          some (e, prune flexible c), [v.node]⟩
      else .error .failed
    | _ => .error .failed

/-! ## All targets -/

/-- What is requested first. -/
def keysOf (d : Def E V P) (c : Cfg V) : Except Fault (List (Dep E V)) :=
  match d with
  | .source _ => .ok []
  | .sourceTree entries _ => .ok (entries.map fun x => ⟨[], x, some ∅, []⟩)
  | .builtin generic paramVars names _ _ => builtinKeys generic paramVars names c
  | .configure paramVars target taint config => configureKeys paramVars target taint config c
  | .exported flexible _ cached target fixedConfig _ => exportKeys flexible cached target fixedConfig c
  | .user u => userKeys u c

/-- What is requested after that. -/
def laterKeysOf (d : Def E V P) (c : Cfg V) (deps : List (Dep E V × Analysed E V P)) : Except Fault (List (Dep E V)) :=
  match d with
  | .user u => userAnonymous u c deps
  | _ => .ok []

/-- The result, once all dependencies are analysed. -/
def resultOf (e : E) (d : Def E V P) (c : Cfg V) (deps : List (Dep E V × Analysed E V P)) : Except Fault (Analysed E V P) :=
  match d with
  | .source value => .ok ⟨value, ∅, ∅, ∅, none, []⟩
  | .sourceTree _ value => do
    let value ← opt (value (deps.map fun d => d.2.value))
    return ⟨value, ∅, ∅, ∅, none, []⟩
  | .builtin _ paramVars _ taint value => builtinResult e paramVars taint value c deps
  | .configure paramVars _ taint _ => configureResult e paramVars taint c deps
  | .exported flexible key cached _ _ cacheable => exportResult e flexible key cached cacheable c deps
  | .user u => userResult e u c deps

omit [DecidableEq E] [DecidableEq V] in
/-- Analysing the requested targets. -/
def analyseAll (rec : E → Cfg V → Except Fault (Analysed E V P)) (c : Cfg V) (ks : List (Dep E V)) :
    Except Fault (List (Dep E V × Analysed E V P)) :=
  ks.mapM fun k => do
    let v ← rec k.target (k.config c)
    return (k, v)

/-- Everything that is requested for a target, with the results. -/
def requests (rec : E → Cfg V → Except Fault (Analysed E V P)) (d : Def E V P) (c : Cfg V) :
    Except Fault (List (Dep E V × Analysed E V P)) := do
  let k1 ← keysOf d c
  let d1 ← analyseAll rec c k1
  let k2 ← laterKeysOf d c d1
  let d2 ← analyseAll rec c k2
  return d1 ++ d2

/-- target_map.cpp:1920-2107 (`CreateTargetMap`): analysing a target, looking into dependencies up to the given depth. -/
def analyse (defs : E → Option (Def E V P)) : Nat → E → Cfg V → Except Fault (Analysed E V P)
  | 0, _, _ => .error .unfinished
  | n + 1, e, c =>
    match defs e with
    | none => .error .failed
    | some d => do
      let deps ← requests (analyse defs n) d c
      resultOf e d c deps

/-- The target is analysed with this result. -/
def Result (defs : E → Option (Def E V P)) (e : E) (c : Cfg V) (r : Analysed E V P) : Prop :=
  ∃ n, analyse defs n e c = .ok r

/-- Analysing a target asks for another one. -/
def Requests (defs : E → Option (Def E V P)) (x y : E × Cfg V) : Prop :=
  ∃ d n deps, defs x.1 = some d ∧ requests (analyse defs n) d x.2 = .ok deps ∧
    ∃ k ∈ deps, y = (k.1.target, k.1.config x.2)

end

end Verif.Analyse
