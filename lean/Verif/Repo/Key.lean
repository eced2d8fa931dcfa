import Verif.Repo.Minimizer
import Verif.Util.Decimal

/-!
# Keys of repositories: model

`src/buildtool/common/repository_config.{hpp,cpp}`. Names and descriptions are assumed to be valid UTF-8 (they are read
from JSON, or are hex strings), so that rendering does not throw; the counter of identifiers (an `int`) is assumed not
to overflow. A stored blob is represented by its digest: storing is assumed to succeed.
-/

namespace Verif.Repo

open Verif Verif.Expr

/-- file_root.hpp:403-428: what is known of a root, if it is fixed by its content: whether special entries are
ignored, and the identifier of the tree. -/
structure Root where
  ignoreSpecial : Bool
  tree : Str
  deriving DecidableEq

/-- repository_config.hpp:43-57 (`RepositoryInfo`): each root is a description of its content, if it has one. -/
structure Info where
  workspaceRoot : Option Root
  targetRoot : Option Root
  ruleRoot : Option Root
  expressionRoot : Option Root
  targetFile : Str
  ruleFile : Str
  expressionFile : Str
  nameMapping : List (Str × Str)
  deriving DecidableEq

/-- What `BaseContentDescription` describes. -/
structure Content where
  workspaceRoot : Root
  targetRoot : Root
  ruleRoot : Root
  expressionRoot : Root
  targetFile : Str
  ruleFile : Str
  expressionFile : Str
  deriving DecidableEq

/-- repository_config.hpp:184: the repositories, with distinct names, in any order. -/
abbrev Config := List (Str × Info)

/-- repository_config.cpp:22-38 (`BaseContentDescription`): there is one if all four roots are content fixed. -/
def Info.content (i : Info) : Option Content :=
  match i.workspaceRoot, i.targetRoot, i.ruleRoot, i.expressionRoot with
  | some w, some t, some r, some e => some ⟨w, t, r, e, i.targetFile, i.ruleFile, i.expressionFile⟩
  | _, _, _, _ => none

/-- file_root.hpp:406-420. -/
def Root.json (r : Root) : Json Empty :=
  .arr [.str (if r.ignoreSpecial then "git tree ignore-special".toList else "git tree".toList), .str r.tree]

/-- repository_config.cpp:29-35: the fields, ordered by name as in any JSON object. -/
def Content.fields (c : Content) : List (Str × Json Empty) :=
  [("expression_file_name".toList, .str c.expressionFile), ("expression_root".toList, c.expressionRoot.json),
   ("rule_file_name".toList, .str c.ruleFile), ("rule_root".toList, c.ruleRoot.json),
   ("target_file_name".toList, .str c.targetFile), ("target_root".toList, c.targetRoot.json),
   ("workspace_root".toList, c.workspaceRoot.json)]

/-- repository_config.cpp:82: the text that is hashed to get the identifier of the content. -/
def Content.text (c : Content) : Str := Json.dump Empty.elim Json.compact 0 (.obj c.fields)

/-- repository_config.hpp:203-210 (`Data`), for repositories that are content fixed: the content and the bindings. -/
def data (C : Config) (n : Str) : Option (Content × List (Str × Str)) :=
  (assoc n C).bind fun i => i.content.map fun c => (c, i.nameMapping)

/-- repository_config.cpp:70-86: the states of the automaton; `plain` is the hash function. -/
def automaton (plain : Str → Str) (C : Config) : Auto :=
  C.filterMap fun p => p.2.content.map fun c => ⟨p.1, plain c.text, p.2.nameMapping⟩

/-- repository_config.cpp:103-105, 117-122: the graph with its descriptions (content, and bindings of local names to
identifiers), the counter, and the identifiers of the repositories already reached. -/
structure Graph where
  graph : List (Str × (Content × List (Str × Str)))
  counter : Nat
  ids : List (Str × Str)
  deriving DecidableEq

/-- The outcome of adding a repository: recursion is too deep (this is shown never to happen), a repository is not
content fixed, or success. -/
inductive Out (α : Type)
  | deep
  | unfixed
  | ok (a : α) (g : Graph)

/-- repository_config.cpp:141-148: the bindings in order of the local names. -/
def addBindings (add : Str → Graph → Out Str) : List (Str × Str) → Graph → Out (List (Str × Str))
  | [], g => .ok [] g
  | (l, x) :: t, g =>
    match add x g with
    | .deep => .deep
    | .unfixed => .unfixed
    | .ok i g' =>
      match addBindings add t g' with
      | .deep => .deep
      | .unfixed => .unfixed
      | .ok r g'' => .ok ((l, i) :: r) g''

/-- repository_config.cpp:117-155 (`AddToGraphAndGetId`), with a bound on the depth of recursion. -/
def addRepo (data : Str → Option (Content × List (Str × Str))) (canon : Str → Str) : Nat → Str → Graph → Out Str
  | 0, _, _ => .deep
  | n + 1, repo, g =>
    match assoc (canon repo) g.ids with
    | some i => .ok i g
    | none =>
      match data (canon repo) with
      | none => .unfixed
      | some (c, bs) =>
        match addBindings (addRepo data canon n) bs
            ⟨g.graph, g.counter + 1, (canon repo, decimal g.counter) :: g.ids⟩ with
        | .deep => .deep
        | .unfixed => .unfixed
        | .ok r g' => .ok (decimal g.counter)
            { g' with graph := OMap.insertList (fun _ v => v) (decimal g.counter) (c, r) g'.graph }

/-- repository_config.cpp:100-111 (`BuildGraphForRepository`); `R` are the duplicates. -/
def buildGraph (C : Config) (R : List (Str × Str)) (repo : Str) : Out Str :=
  addRepo (data C) (representative R) (C.length + 1) repo ⟨[], 0, []⟩

/-- repository_config.cpp:139-151: the description of one repository in the graph. -/
def descJson (d : Content × List (Str × Str)) : Json Empty :=
  .obj (("bindings".toList, .obj (d.2.map fun p => (p.1, .str p.2))) :: d.1.fields)

/-- repository_config.cpp:51: the blob that is stored. -/
def graphText (g : List (Str × (Content × List (Str × Str)))) : Str :=
  Json.dump Empty.elim (Json.pretty 2) 0 (.obj (g.map fun p => (p.1, descJson p.2)))

/-- repository_config.cpp:43-53: the blob that is stored for a repository, if there is one. -/
def storedText (C : Config) (R : List (Str × Str)) (repo : Str) : Option Str :=
  match assoc (representative R repo) C with
  | none => none
  | some _ =>
    match buildGraph C R (representative R repo) with
    | .ok _ g => some (graphText g.graph)
    | _ => none

/-- repository_config.cpp:40-57 (`RepositoryKey`), for a key that has not been computed before: the digest (hash and
size) of the blob; `blob` is the hash function for blobs. -/
def repositoryKey (blob : Str → Str) (C : Config) (R : List (Str × Str)) (repo : Str) : Option (Str × Nat) :=
  (storedText C R repo).map fun t => (blob t, t.length)

/-! ## Specification -/

/-- What can be observed of a repository: its content and the local names it binds, or that it is not fixed by its
content (or does not exist). -/
inductive RepoObs
  | fixed (content : Content) (names : List Str)
  | unfixed
  deriving DecidableEq

/-- What is observed after following a list of local names. -/
def obs (data : Str → Option (Content × List (Str × Str))) : List Str → Str → Option RepoObs
  | [], n => match data n with
    | some (c, bs) => some (.fixed c (bs.map Prod.fst))
    | none => some .unfixed
  | l :: w, n => match data n with
    | some (_, bs) => match assoc l bs with
      | some t => obs data w t
      | none => none
    | none => none

/-- What is assumed of a configuration: distinct names, bindings are maps. -/
structure Config.OK (C : Config) : Prop where
  nodup : (C.map Prod.fst).Nodup
  asc : ∀ p ∈ C, Ascending p.2.nameMapping

/-- The texts that are hashed. -/
def Config.texts (C : Config) : List Str := C.filterMap fun p => p.2.content.map Content.text

end Verif.Repo
