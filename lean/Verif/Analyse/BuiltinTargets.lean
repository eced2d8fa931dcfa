import Verif.Analyse.RuleFnsProps
import Verif.Stage.Install

/-!
# Model of the targets of built-in rules, of source trees and globs, and of anonymous targets

Source: `src/buildtool/build_engine/target_map/built_in_rules.cpp` (lines 144-309, 439-585, 809-899, 1184-1530),
`src/buildtool/build_engine/target_map/target_map.cpp` (lines 1621-1646, 1711-1853).

Given are the values of the fields and what the dependencies provide.  A target that can not be analysed is `none`;
so is undefined behaviour, which is possible only with empty keys (see V41).
-/

namespace Verif.Analyse.Rule

open Verif.Action Verif.Art Verif.Dig Verif.Expr Verif.Path Verif.Stage

variable {N : Type}

/-- analysed_target.hpp:63-65 (`Artifacts`, `RunFiles`): the value as map of artifacts; both are always maps of
artifacts. -/
def stageMap (v : Value N) : OMap Str Desc := omapOf ((artItemsOf v).getD [])

/-- analysed_target.hpp:59-67: what a target offers to those depending on it. -/
def provided (t : RuleTarget N) : Provided Desc := ⟨stageMap t.artifacts, stageMap t.runfiles⟩

/-- built_in_rules.cpp:294-308, 571-582, 890-898, target_map.cpp:1738-1750, 1795-1841: a target with this stage
both as artifacts and as runfiles, which provides nothing else. -/
def staged (r : Rec N) (l : List (Str × Desc)) : RuleTarget N := ⟨r, artMap l, .map [], artMap l⟩

/-- built_in_rules.cpp:144-309 (`BlobGenRuleWithDeps`) for files. -/
def fileGen (H : Hashes N) (name data : Str) : RuleTarget N :=
  staged { blobs := [data] } [(name, .known (H.file data) .file none)]

/-- built_in_rules.cpp:144-309 (`BlobGenRuleWithDeps`) for symbolic links.  `HashDataAs` is the same function for
files and symbolic links (artifact_digest_factory.hpp:74-80).  `PathIsNonUpwards` is taken to accept the empty path,
see V12. -/
def linkGen (H : Hashes N) (name data : Str) : Option (RuleTarget N) :=
  if data.isEmpty || nonUpwards data == .val true then
    some (staged { blobs := [data] } [(name, .known (H.link data) .symlink none)])
  else none

/-- built_in_rules.cpp:522-544: merge what the dependencies provide; `none` is a conflict. -/
def mergeDeps : List (Provided Desc) → OMap Str Desc → Option (OMap Str Desc)
  | [], s => some s
  | d :: t, s =>
    if (duplicate s (over d.runfiles d.artifacts)).isSome then none
    else mergeDeps t (over s (over d.runfiles d.artifacts))

/-- built_in_rules.cpp:522-568 (`TreeRuleWithDeps`) for `tree`. -/
def treeTarget (H : Hashes N) (name : Str) (deps : List (Provided Desc)) : Option (RuleTarget N) :=
  (mergeDeps deps OMap.empty).bind fun s =>
    match exprToTree s with
    | .ok m => some (staged { trees := [m.items] } [(name, .tree (treeId H.h m.items))])
    | _ => none

/-- built_in_rules.cpp:498-520: the tree for one dependency. -/
def depTree (d : Provided Desc) : List (Str × Desc) := (treeContent d.artifacts.items OMap.empty).items

/-- built_in_rules.cpp:496-520 (`TreeRuleWithDeps`) for `tree_overlay` and `disjoint_tree_overlay`. -/
def overlayTarget (H : Hashes N) (name : Str) (disjoint : Bool) (deps : List (Provided Desc)) : RuleTarget N :=
  staged { trees := deps.map depTree
           overlays := [(deps.map fun d => .tree (treeId H.h (depTree d)), disjoint)] }
    [(name, .overlay (overlayId H.h (deps.map fun d => .tree (treeId H.h (depTree d))) disjoint))]

/-- built_in_rules.cpp:809-899 (`InstallRuleWithDeps`). -/
def installTarget (d : InstallDesc (RuleTarget N)) : Option (RuleTarget N) :=
  match install provided d with
  | .ok m => some (staged {} m.items)
  | _ => none

/-- built_in_rules.cpp:1462-1477, utils.cpp:162-201 (`add_dir_for`): the trees recorded for the directory the action
of a `generic` target is run in. -/
def cwdTrees (cwd : Str) (m : OMap Str Desc) : List (List (Str × Desc)) :=
  if cwd = [] ∨ cwd = dot then [] else if mayAddDir cwd m then [[]] else []

/-- built_in_rules.cpp:1184-1530 (`GenericRuleWithDeps`). -/
def genericTarget (H : Hashes N) (one : N) (deps : List (Provided Desc)) (c : GenericCall N) :
    Option (RuleTarget N) :=
  (genericCall H.h H.hexFloat one deps c).map fun r =>
    ⟨{ actions := [r.1], trees := cwdTrees r.1.cwd (genericInputs deps) }, artMap r.2.items, .map [], .map []⟩

/-- target_map.cpp:1786-1827 (`TreeTarget`): a source tree that is not known, from the targets for its entries.  (The
entries are source targets, each with exactly one runfile.) -/
def dirTarget (H : Hashes N) (name : Str) (entries : List (Provided Desc)) : RuleTarget N :=
  let t := (treeContent (entries.filterMap fun d => d.runfiles.items.head?) OMap.empty).items
  staged { trees := [t] } [(name, .tree (treeId H.h t))]

/-- target_map.cpp:1856-1878 (`GlobResult`). -/
def globTarget (matching : List (Provided Desc)) : RuleTarget N :=
  staged {} (matching.foldl (fun m d => over m d.artifacts) OMap.empty).items

mutual
/-- What is below a directory of a workspace that is not given by a git tree: files and symbolic links, or
directories. -/
inductive Entry where
  | file
  | dir (entries : Entries)
/-- The names in a directory, in any order. -/
inductive Entries where
  | nil
  | cons (name : Str) (e : Entry) (rest : Entries)
end

mutual
/-- source_map.cpp:42-58 and file_root.hpp:757-759 for a file or symbolic link, target_map.cpp:1712-1827
(`TreeTarget`) for a directory: the target for entry `name` of directory `module`. -/
def sourceTarget (H : Hashes N) (repo module name : Str) : Entry → RuleTarget N
  | .file => staged {} [(name, .loc (append module name) repo)]
  | .dir es => dirTarget H name (sourceTargets H repo (append module name) es)
/-- target_map.cpp:1767-1797: the targets for all entries of a directory. -/
def sourceTargets (H : Hashes N) (repo module : Str) : Entries → List (Provided Desc)
  | .nil => []
  | .cons n e t => provided (sourceTarget H repo module n e) :: sourceTargets H repo module t
end

mutual
/-- target_map.cpp:1804-1824: all trees recorded by the target and those it depends on. -/
def sourceTrees (H : Hashes N) (repo module name : Str) : Entry → List (List (Str × Desc))
  | .file => []
  | .dir es => (sourceTarget H repo module name (.dir es)).recorded.trees ++
      sourceTreesIn H repo (append module name) es
/-- All trees recorded for the entries of a directory. -/
def sourceTreesIn (H : Hashes N) (repo module : Str) : Entries → List (List (Str × Desc))
  | .nil => []
  | .cons n e t => sourceTrees H repo module n e ++ sourceTreesIn H repo module t
end

/-- What a reference to a source leads to: the path that is read, an error, or undefined behaviour. -/
inductive RefPath where
  | ok (path : Str)
  | error
  | ub
  deriving DecidableEq

/-- source_map.cpp:71-79, 86-92: the path a file or symbolic link referred to by `name` in `module` is read from.  The check
is the one of `PathIsNonUpwards`. -/
def fileReference (module name : Str) : RefPath :=
  match nonUpwards name with
  | .val true => .ok (append module (lexNormal name))
  | .val false => .error
  | .ub => .ub

/-- target_map.cpp:1722-1724, directory_map.cpp:52-60: the path of the directory referred to as tree `name` in
`module`. -/
def treeReference (module name : Str) : RefPath := .ok (append module name)

end Verif.Analyse.Rule
