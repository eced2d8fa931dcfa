import Verif.MrConfig.Model

/-!
# Model: how `just` reads the configuration of the repositories

* `FileRoot::ParseRoot` (src/buildtool/file_system/file_root.hpp:795-919),
* `PrecomputedRoot::Parse` (src/buildtool/file_system/precomputed_root.cpp:51-150, 229-247),
* `DetermineRoots` (src/buildtool/main/main.cpp:486-667).

An error, which ends the program, is `none`; so is an exception.  A root in a git repository can be used if
the repository and the tree can be opened there; this is the parameter `git`.
-/

namespace Verif.MrConfig

open Verif

/-- src/buildtool/file_system/file_root.hpp:112-122, 921-927 (`FileRoot::root_t` with `ignore_special_`), and
src/buildtool/file_system/precomputed_root.hpp:31-70. -/
inductive FRoot (N : Type)
  | dir (path : Str) (ignoreSpecial : Bool)
  | git (repo tree : Str) (ignoreSpecial : Bool)
  | absent (tree : Str) (ignoreSpecial : Bool)
  | computed (repo module target : Str) (config : Json N) (absent : Bool)
  | treeStructure (repo : Str) (absent : Bool)

section
variable {N : Type}

/-- src/buildtool/file_system/file_root.hpp:821-845, 859-890: the roots in git repositories. -/
def gitRoot (git : Str → Str → Bool) (ign : Bool) : List (Json N) → Option (FRoot N)
  | [.str tree] => some (.absent tree ign)
  | [.str tree, .str repo] => if git repo tree then some (.git repo tree ign) else none
  | _ => none

/-- src/buildtool/file_system/precomputed_root.cpp:86-104: the pragma of a computed root. -/
def computedPragma : List (Json N) → Option Bool
  | [] => some false
  | [.obj p] =>
    match assoc "absent".toList p with
    | none => some false
    | some (.bool b) => some b
    | some _ => none
  | _ => none

/-- src/buildtool/file_system/precomputed_root.cpp:131-147: the pragma of a tree structure. -/
def treePragma : List (Json N) → Option Bool
  | [] => some false
  | [.obj p] =>
    match assoc "absent".toList p with
    | none | some .null => some false
    | some (.bool b) => some b
    | some _ => none
  | _ => none

/-- src/buildtool/file_system/file_root.hpp:798-919 (`ParseRoot`), with `PrecomputedRoot::Parse`: the root, and
the path of a local one. -/
def parseRoot (git : Str → Str → Bool) : Json N → Option (FRoot N × Option Str)
  | .arr (.str t :: rest) =>
    if t = "file".toList then
      match rest with
      | [.str p] => some (.dir p false, some p)
      | _ => none
    else if t = "git tree".toList then (gitRoot git false rest).map fun r => (r, none)
    else if t = "file ignore-special".toList then
      match rest with
      | [.str p] => some (.dir p true, some p)
      | _ => none
    else if t = "git tree ignore-special".toList then (gitRoot git true rest).map fun r => (r, none)
    else if t = "computed".toList then
      match rest with
      | .str repo :: .str m :: .str name :: .obj c :: pragma =>
        (computedPragma pragma).map fun a => (.computed repo m name (.obj c) a, none)
      | _ => none
    else if t = "tree structure".toList then
      match rest with
      | .str repo :: pragma => (treePragma pragma).map fun a => (.treeStructure repo a, none)
      | _ => none
    else none
  | _ => none

/-- src/buildtool/common/repository_config.hpp:43-57 (`RepositoryInfo`). -/
structure Info (N : Type) where
  workspaceRoot : FRoot N
  targetRoot : FRoot N
  ruleRoot : FRoot N
  expressionRoot : FRoot N
  nameMapping : List (Str × Str)
  targetFileName : Str
  ruleFileName : Str
  expressionFileName : Str

/-- The arguments of `just` that are used (src/buildtool/common/cli.hpp, `CommonArguments` and
`AnalysisArguments`), and the result of looking for a root marker in the directories above the current one
(src/buildtool/main/main.cpp:462-482). -/
structure JustArgs where
  main : Option Str
  workspaceRoot : Option Str
  targetRoot : Option Str
  ruleRoot : Option Str
  expressionRoot : Option Str
  targetFileName : Option Str
  ruleFileName : Option Str
  expressionFileName : Option Str
  markers : Option Str

/-- src/buildtool/main/main.cpp:548-584: the workspace root of a repository.  For the main repository the path
of a local root is taken, if there is one, and made a root again. -/
def readWorkspace (git : Str → Str → Bool) (a : JustArgs) (isMain : Bool) (desc : List (Str × Json N)) :
    Option (FRoot N) :=
  match assoc "workspace_root".toList desc with
  | none =>
    if isMain then
      match a.workspaceRoot with
      | some p => some (.dir p false)
      | none => a.markers.map fun p => .dir p false
    else none
  | some j =>
    match parseRoot git j with
    | none => none
    | some (r, path) =>
      if isMain then
        match a.workspaceRoot, path with
        | some p, _ => some (.dir p false)
        | none, some p => some (.dir p false)
        | none, none => some r
      else some r

/-- src/buildtool/main/main.cpp:586-607 (`parse_keyword_root`). -/
def readLayer (git : Str → Str → Bool) (isMain : Bool) (arg : Option Str) (key : Str)
    (desc : List (Str × Json N)) (default : FRoot N) : Option (FRoot N) :=
  match assoc key desc with
  | none => some (if isMain then (arg.map fun p => .dir p false).getD default else default)
  | some j =>
    (parseRoot git j).map fun r =>
      if isMain then (arg.map fun p => .dir p false).getD r.1 else r.1

/-- src/buildtool/main/main.cpp:629-639: the bindings have to be names of repositories. -/
def readNames (names : List Str) : List (Str × Json N) → Option (List (Str × Str))
  | [] => some []
  | (l, .str g) :: t => if g ∈ names then (readNames names t).map fun r => (l, g) :: r else none
  | _ :: _ => none

/-- src/buildtool/main/main.cpp:619-640: the bindings. -/
def readBindings (names : List Str) (desc : List (Str × Json N)) : Option (List (Str × Str)) :=
  match assoc "bindings".toList desc with
  | none => some []
  | some (.obj bs) => readNames names bs
  | some _ => none

/-- src/buildtool/main/main.cpp:641-653 (`parse_keyword_file_name`). -/
def readFileName (isMain : Bool) (arg : Option Str) (key default : Str) (desc : List (Str × Json N)) :
    Option Str :=
  match assoc key desc with
  | none => some (if isMain then arg.getD default else default)
  | some (.str s) => some (if isMain then arg.getD s else s)
  | some _ => none

/-- src/buildtool/main/main.cpp:548-664: one repository. -/
def readRepo (git : Str → Str → Bool) (a : JustArgs) (names : List Str) (isMain : Bool)
    (desc : List (Str × Json N)) : Option (Info N) :=
  match readWorkspace git a isMain desc with
  | none => none
  | some ws =>
    match readLayer git isMain a.targetRoot "target_root".toList desc ws with
    | none => none
    | some tr =>
      match readLayer git isMain a.ruleRoot "rule_root".toList desc tr with
      | none => none
      | some rr =>
        match readLayer git isMain a.expressionRoot "expression_root".toList desc rr with
        | none => none
        | some er =>
          match readBindings names desc,
            readFileName isMain a.targetFileName "target_file_name".toList "TARGETS".toList desc,
            readFileName isMain a.ruleFileName "rule_file_name".toList "RULES".toList desc,
            readFileName isMain a.expressionFileName "expression_file_name".toList "EXPRESSIONS".toList desc with
          | some ns, some tf, some rf, some ef => some ⟨ws, tr, rr, er, ns, tf, rf, ef⟩
          | _, _, _, _ => none

/-- The fields of a description: one that is not an object has none. -/
def fieldsOf : Json N → List (Str × Json N)
  | .obj l => l
  | _ => []

/-- src/buildtool/main/main.cpp:517-533: the main repository. -/
def readMain (a : JustArgs) (top repos : List (Str × Json N)) : Option Str :=
  match a.main with
  | some m => some m
  | none =>
    match assoc "main".toList top with
    | some (.str m) => some m
    | some _ => none
    | none => some ((repos.head?.map Prod.fst).getD [])

/-- src/buildtool/main/main.cpp:486-667 (`DetermineRoots`) for the content of a configuration file: the main
repository, and the repositories. -/
def justRead (git : Str → Str → Bool) (a : JustArgs) : Json N → Option (Str × List (Str × Info N))
  | .obj top =>
    let read := fun repos =>
      match readMain a top repos with
      | none => none
      | some m =>
        let repos := OMap.insertList (fun old _ => old) m (.obj []) repos
        (collect (fun e : Str × Json N => readRepo git a (repos.map Prod.fst) (decide (e.1 = m)) (fieldsOf e.2))
          repos).map fun es => (m, es.map fun e => (e.1.1, e.2))
    match assoc "repositories".toList top with
    | none => read []
    | some (.obj repos) => read repos
    | some _ => none
  | _ => none

end

end Verif.MrConfig
