import Verif.Repo.KeyProps
import Verif.MrConfig.JustModel

/-!
# The serve endpoint: the repositories of a request

Model of `GetServingRepository` and `DetermineRoots` (src/buildtool/serve_api/serve_service/target_utils.cpp:33-66,
68-219).  A request names the blob that the client stored as repository key (`RepositoryKey`, Verif.Repo.Key); its
content describes the repositories by the trees of their roots.

An error is `none`; so is an exception (a name that is not a string), which ends the request as well.  Git
repositories are given by what can be asked of them.
-/

namespace Verif.Serve

open Verif Verif.MrConfig

/-- The git repositories of the serve endpoint: its own (`StorageConfig::GitRoot`), those configured
(`RemoteServeConfig::known_repositories`), the answer of `GitRepo::IsTreeInRepo` (`none` is an error), and the result
of opening a tree as root (`FileRoot::FromGit`, src/buildtool/file_system/file_root.hpp:366-398): the identifier it
has then (`FileRootHash`). -/
structure Repos where
  gitRoot : Str
  known : List Str
  inRepo : Str → Str → Option Bool
  opens : Str → Str → Bool → Option Str

/-- A root in a git repository of the serve endpoint. -/
structure Served where
  repo : Str
  tree : Str
  ignoreSpecial : Bool
  deriving DecidableEq

/-- What is set for a repository (target_utils.cpp:206-213). -/
structure SInfo where
  workspaceRoot : Served
  targetRoot : Served
  ruleRoot : Served
  expressionRoot : Served
  targetFile : Str
  ruleFile : Str
  expressionFile : Str
  nameMapping : List (Str × Str)
  deriving DecidableEq

/-- target_utils.cpp:33-66 (`GetServingRepository`): the own repository first, then those configured, in order;
one that cannot be asked is skipped. -/
def servingRepo (env : Repos) (tree : Str) : Option Str :=
  if env.inRepo env.gitRoot tree = some true then some env.gitRoot
  else env.known.find? fun p => decide (env.inRepo p tree = some true)

section
variable {N : Type}

/-- target_utils.cpp:99-136 (`parse_keyword_root`): only roots in the format of an absent one are accepted.  Whether
a repository named by the client can be opened (`false` here) does not matter, as such a root is not absent. -/
def readRoot (env : Repos) (key : Str) (desc : List (Str × Json N)) : Option Served :=
  match assoc key desc with
  | none => none
  | some j =>
    match parseRoot (fun _ _ => false) j with
    | some (.absent tree ign, _) =>
      match servingRepo env tree with
      | none => none
      | some p => (env.opens p tree ign).map fun t => ⟨p, t, ign⟩
    | _ => none

/-- target_utils.cpp:162-184: the bindings; there have to be some, if only the empty map, and their values have to be
names of repositories. -/
def readBindings (names : List Str) (desc : List (Str × Json N)) : Option (List (Str × Str)) :=
  match assoc "bindings".toList desc with
  | some (.obj bs) => readNames names bs
  | _ => none

/-- target_utils.cpp:186-198 (`parse_keyword_file_name`). -/
def readFile (key : Str) (desc : List (Str × Json N)) : Option Str :=
  match assoc key desc with
  | some (.str s) => some s
  | _ => none

/-- target_utils.cpp:97-215: one repository. -/
def readRepo (env : Repos) (names : List Str) (desc : List (Str × Json N)) : Option SInfo := do
  let w ← readRoot env "workspace_root".toList desc
  let t ← readRoot env "target_root".toList desc
  let r ← readRoot env "rule_root".toList desc
  let e ← readRoot env "expression_root".toList desc
  let b ← readBindings names desc
  let tf ← readFile "target_file_name".toList desc
  let rf ← readFile "rule_file_name".toList desc
  let ef ← readFile "expression_file_name".toList desc
  some ⟨w, t, r, e, tf, rf, ef, b⟩

/-- target_utils.cpp:97: all repositories, in the order of their names. -/
def readAll (env : Repos) (names : List Str) : List (Str × Json N) → Option (List (Str × SInfo))
  | [] => some []
  | (n, d) :: t =>
    match readRepo env names (fieldsOf d), readAll env names t with
    | some i, some r => some ((n, i) :: r)
    | _, _ => none

/-- target_utils.cpp:68-219 (`DetermineRoots`) with the main repository `"0"`
(src/buildtool/serve_api/serve_service/target.cpp:446-447), for the content of the blob. -/
def determineRoots (env : Repos) : Json N → Option (List (Str × SInfo))
  | .obj repos =>
    match assoc "0".toList repos with
    | none => none
    | some _ => readAll env (repos.map Prod.fst) repos
  | _ => none

end

/-- src/buildtool/file_system/file_root.hpp:403-428 (`ContentDescription`) for a git root. -/
def Served.root (s : Served) : Repo.Root := ⟨s.ignoreSpecial, s.tree⟩

/-- The repository, as the computation of keys sees it. -/
def SInfo.info (i : SInfo) : Repo.Info :=
  ⟨some i.workspaceRoot.root, some i.targetRoot.root, some i.ruleRoot.root, some i.expressionRoot.root,
   i.targetFile, i.ruleFile, i.expressionFile, i.nameMapping⟩

/-- The configuration on the serve endpoint, as the computation of keys sees it. -/
def config (l : List (Str × SInfo)) : Repo.Config := l.map fun p => (p.1, p.2.info)

/-! ## Specification -/

/-- A tree can be served: the first repository that is known to have it can provide it, under the same name. -/
def Known (env : Repos) (r : Repo.Root) : Prop :=
  ∃ before p after, env.gitRoot :: env.known = before ++ p :: after ∧
    (∀ q ∈ before, env.inRepo q r.tree ≠ some true) ∧ env.inRepo p r.tree = some true ∧
    env.opens p r.tree r.ignoreSpecial = some r.tree

/-- All roots of a repository can be served. -/
def AllKnown (env : Repos) (c : Repo.Content) : Prop :=
  Known env c.workspaceRoot ∧ Known env c.targetRoot ∧ Known env c.ruleRoot ∧ Known env c.expressionRoot

/-- The repository reached by following local names. -/
def follow (D : Str → Option (Repo.Content × List (Str × Str))) : List Str → Str → Option Str
  | [], n => some n
  | l :: w, n => match D n with
    | some (_, bs) => match assoc l bs with
      | some t => follow D w t
      | none => none
    | none => none

end Verif.Serve
