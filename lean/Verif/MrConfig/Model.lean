import Verif.Util.OMap
import Verif.Util.Json

/-!
# just-mr: from the description of the repositories to the configuration for `just`

Model of

* `ResolveRepo` (src/other_tools/just_mr/utils.cpp:24-69),
* `ParsePrecomputedRoot` (src/other_tools/utils/parse_precomputed_root.cpp:23-145),
* `GetTargetRepoIfPrecomputed`, `ReachableRepositories`, `DefaultReachableRepositories`, the part of
  `ReadConfiguration` treating the file of absent repositories
  (src/other_tools/just_mr/setup_utils.cpp:61-81, 134-221, 250-300),
* `SetReposTakeOver`, `FileCheckout`, `PrecomputedRootCheckout`, `CreateReposToSetupMap`
  (src/other_tools/repo_map/repos_to_setup_map.cpp:43-58, 311-406, 652-700, 704-915),
* `MultiRepoSetup` (src/other_tools/just_mr/setup.cpp:70-135, 434-550), except for the creation of the
  storage and of the connections to remote endpoints.

The description is a JSON value; `Expression::FromJson` (which only turns numbers into `double`) is not
modelled.  Repositories whose root has to be obtained (git commits, archives, trees, …) are treated in
`Verif/Mr`; here their root, or the failure to obtain it, is given by the environment, as an arbitrary
function of the name and the description.

An exception ends just-mr with an error message (src/other_tools/just_mr/main.cpp:469-473); it is `fail`,
as is every other reported error.  A computation that does not end is `hang`.
-/

namespace Verif.MrConfig

open Verif

/-- Outcome of a computation: a result, a reported failure, or no end. -/
inductive Out (α : Type) where
  | ok (a : α)
  | fail
  | hang
deriving DecidableEq

/-- Sequential composition. -/
def Out.bind {α β : Type} : Out α → (α → Out β) → Out β
  | .ok a, f => f a
  | .fail, _ => .fail
  | .hang, _ => .hang

instance : Monad Out where
  pure := .ok
  bind := Out.bind

/-- The same computation for all elements of a list, in order. -/
def mapAll {α β : Type} (f : α → Out β) : List α → Out (List β)
  | [] => .ok []
  | a :: l => (f a).bind fun b => (mapAll f l).bind fun bs => .ok (b :: bs)

section
variable {N : Type}

/-- A field of an object: `Expression::Get(key, none)`, where a missing field is `null`. -/
def field (k : Str) (l : List (Str × Json N)) : Json N := (assoc k l).getD .null

/-! ## Names of fields and types -/

/-- src/other_tools/just_mr/setup_utils.hpp:36-38 (`kAltDirs`). -/
def altDirs : List Str :=
  ["target_root".toList, "rule_root".toList, "expression_root".toList]

/-- src/other_tools/just_mr/utils.hpp:45-48 (`kTakeOver`). -/
def takeOverKeys : List Str :=
  ["bindings".toList, "target_file_name".toList, "rule_file_name".toList,
    "expression_file_name".toList]

/-- src/other_tools/just_mr/utils.hpp:174-181 (`kCheckoutTypeMap`): the types whose root is obtained by
`Verif/Mr`; beside them there are `"file"`, `"computed"` and `"tree structure"`. -/
def fetchTypes : List Str :=
  ["git".toList, "archive".toList, "zip".toList, "foreign file".toList, "distdir".toList,
    "git tree".toList]

/-! ## Aliases -/

/-- src/other_tools/just_mr/utils.cpp:25-54 (`ResolveRepo`): follow the names of repositories until an
explicit description is found; `none` for cycles, for unknown names and for repositories without
description.  `fuel` bounds the number of steps; one more than the number of repositories is enough, as
every step adds a new name to `seen` (`resolve_fuel`). -/
def resolveFrom (repos : List (Str × Json N)) : Nat → List Str → Json N → Option (Json N)
  | fuel, seen, .str s =>
    if s ∈ seen then none
    else match fuel with
      | 0 => none
      | fuel + 1 =>
        match assoc s repos with
        | some (.obj l) =>
          match assoc "repository".toList l with
          | some d => resolveFrom repos fuel (s :: seen) d
          | none => none
        | _ => none
  | _, _, d => some d

/-- `ResolveRepo` with no name seen. -/
def resolve (repos : List (Str × Json N)) (d : Json N) : Option (Json N) :=
  resolveFrom repos (repos.length + 1) [] d

/-! ## Precomputed roots -/

/-- src/buildtool/file_system/precomputed_root.hpp:31-60: a root that is computed by `just` before the
build (`ComputedRoot`, `TreeStructureRoot`). -/
inductive Pre (N : Type) where
  | computed (repo module target : Str) (config : Json N) (absent : Bool)
  | tree (repo : Str) (absent : Bool)

/-- src/buildtool/file_system/precomputed_root.cpp:257-263 (`GetReferencedRepository`). -/
def Pre.repo : Pre N → Str
  | .computed r _ _ _ _ => r
  | .tree r _ => r

/-- Result of reading the description of a precomputed root: the root, an error value, or an exception. -/
inductive Parsed (N : Type) where
  | root (p : Pre N)
  | bad
  | throws

/-- src/other_tools/utils/parse_precomputed_root.cpp:24-49 (`ParseAbsent`). -/
def parseAbsent (r : List (Str × Json N)) : Option Bool :=
  match field "pragma".toList r with
  | .null => some false
  | .obj p =>
    match field "absent".toList p with
    | .null => some false
    | .bool b => some b
    | _ => none
  | _ => none

/-- src/other_tools/utils/parse_precomputed_root.cpp:78-87: the optional configuration. -/
def parseConfig (r : List (Str × Json N)) : Option (Json N) :=
  match field "config".toList r with
  | .null => some (.obj [])
  | .obj c => some (.obj c)
  | _ => none

/-- src/other_tools/utils/parse_precomputed_root.cpp:51-94 (`ParseComputedRoot`).  The name of the target
is set to the module (line 91). -/
def parseComputed (r : List (Str × Json N)) : Parsed N :=
  match field "repo".toList r with
  | .str repo =>
    match field "target".toList r with
    | .arr [.str module, .str _name] =>
      match parseConfig r, parseAbsent r with
      | some config, some absent => .root (.computed repo module module config absent)
      | _, _ => .bad
    | _ => .bad
  | _ => .bad

/-- src/other_tools/utils/parse_precomputed_root.cpp:96-108 (`ParseTreeStructureRoot`): that the repository
is a string is not checked, `String()` throws. -/
def parseTree (r : List (Str × Json N)) : Parsed N :=
  match field "repo".toList r with
  | .null => .bad
  | d =>
    match parseAbsent r with
    | none => .bad
    | some absent =>
      match d with
      | .str repo => .root (.tree repo absent)
      | _ => .throws

/-- src/other_tools/utils/parse_precomputed_root.cpp:113-145 (`ParsePrecomputedRoot`). -/
def parsePre : Json N → Parsed N
  | .obj r =>
    match field "type".toList r with
    | .str t =>
      if t = "computed".toList then parseComputed r
      else if t = "tree structure".toList then parseTree r
      else .bad
    | _ => .bad
  | _ => .bad

/-- src/other_tools/just_mr/setup_utils.cpp:61-81 (`GetTargetRepoIfPrecomputed`): the repository a
precomputed root refers to.  The loop has no protection against cycles: when the steps given by `fuel` are
used up, more than there are repositories, it does not end (`targetOf_hang`). -/
def targetLoop (repos : List (Str × Json N)) : Nat → Json N → Out (Option Str)
  | fuel, .str s =>
    match assoc s repos with
    | some (.obj l) =>
      match fuel with
      | 0 => .hang
      | fuel + 1 => targetLoop repos fuel (field "repository".toList l)
    | _ => .ok none
  | _, d =>
    match parsePre d with
    | .root p => .ok (some p.repo)
    | .bad => .ok none
    | .throws => .fail

/-- `GetTargetRepoIfPrecomputed` for a name. -/
def targetOf (repos : List (Str × Json N)) (name : Str) : Out (Option Str) :=
  targetLoop repos (repos.length + 1) (.str name)

/-! ## Repositories involved -/

/-- src/other_tools/just_mr/setup_utils.cpp:182-190: the strings among the values of the bindings. -/
def boundNames (l : List (Str × Json N)) : List Str :=
  match field "bindings".toList l with
  | .obj b => b.filterMap fun p => match p.2 with | .str s => some s | _ => none
  | _ => []

/-- src/other_tools/just_mr/setup_utils.cpp:192-197: the repositories named as layers. -/
def layerNames (l : List (Str × Json N)) : List Str :=
  altDirs.filterMap fun k => match field k l with | .str s => some s | _ => none

/-- src/other_tools/just_mr/setup_utils.cpp:157-207: what is found in the description of one repository:
the names to process (the repository its root refers to, the bound ones, those the roots of its layers refer
to) and the names of its layers. -/
def visit (repos : List (Str × Json N)) (name : Str) : Out (List Str × List Str) :=
  match assoc name repos with
  | none | some .null => .ok ([], [])
  | some d =>
    (targetOf repos name).bind fun own =>
      match d with
      | .obj l =>
        (mapAll (targetOf repos) (layerNames l)).bind fun ts =>
          .ok (own.toList ++ boundNames l ++ ts.reduceOption, layerNames l)
      | _ => .fail

/-- src/other_tools/just_mr/setup_utils.cpp:146-208: the queue.  `inc` are the names already processed,
`layers` those found as layers.  The number of steps is bounded by `fuel`, see `reachFuel`. -/
def reachLoop (repos : List (Str × Json N)) : Nat → List Str → List Str → List Str →
    Out (List Str × List Str)
  | _, [], inc, layers => .ok (inc, layers)
  | 0, _ :: _, _, _ => .hang
  | fuel + 1, n :: q, inc, layers =>
    if n ∈ inc then reachLoop repos fuel q inc layers
    else
      (visit repos n).bind fun (found, ls) =>
        reachLoop repos fuel (q ++ found) (inc ++ [n]) (layers ++ ls)

/-- Upper bound for the number of names put into the queue by one repository. -/
def pushes : Json N → Nat
  | .obj l => 4 + (boundNames l).length
  | _ => 0

/-- Number of steps that is always enough for the queue (`reachLoop_fuel`): every repository adds its names
only once. -/
def reachFuel (repos : List (Str × Json N)) : Nat := 1 + (repos.map fun p => pushes p.2).sum

/-- src/other_tools/just_mr/setup_utils.hpp:57-60 (`SetupRepos`). -/
structure Involved where
  toSetup : List Str
  toInclude : List Str

/-- src/other_tools/just_mr/setup_utils.cpp:138-221 (`ReachableRepositories`).  The order of the two lists
is that of the iteration of an `unordered_set` in the code; nothing depends on it. -/
def reachable (repos : List (Str × Json N)) (main : Str) : Out Involved :=
  (reachLoop repos (reachFuel repos) [main] [] []).bind fun (inc, layers) =>
    .ok ⟨(layers ++ inc).dedup, inc⟩

/-! ## Roots -/

/-- What the setup of the roots depends on: the outcome of fetching a root (as a JSON value, `none` for a
failure), the normalised absolute path for a path, and whether `--fetch-absent` is given. -/
structure Env (N : Type) where
  fetch : Str → Json N → Option (Json N)
  absPath : Str → Str
  fetchAbsent : Bool

/-- An object under construction. -/
abbrev Obj (N : Type) := OMap Str (Json N)

/-- src/other_tools/repo_map/repos_to_setup_map.cpp:43-58 (`SetReposTakeOver`) for a description that is an
object. -/
def takeOver (l : List (Str × Json N)) (cfg : Obj N) : Obj N :=
  takeOverKeys.foldl (fun c k => match field k l with | .null => c | v => c.assign k v) cfg

/-- The value of pragma `special`, if it is a string: src/other_tools/repo_map/repos_to_setup_map.cpp:343-352. -/
def special (r : List (Str × Json N)) : Option Str :=
  match field "pragma".toList r with
  | .obj p => match field "special".toList p with | .str s => some s | _ => none
  | _ => none

/-- Whether a directory is to be imported into git:
src/other_tools/repo_map/repos_to_setup_map.cpp:353-362. -/
def toGit (r : List (Str × Json N)) : Bool :=
  special r = some "resolve-partially".toList || special r = some "resolve-completely".toList ||
    match field "pragma".toList r with
    | .obj p => match field "to_git".toList p with | .bool b => b | _ => false
    | _ => false

/-- src/other_tools/repo_map/repos_to_setup_map.cpp:322-407 (`FileCheckout`): the root for a directory that
is not imported into git, otherwise that of the environment. -/
def fileRoot (env : Env N) (name : Str) (r : List (Str × Json N)) : Option (Json N) :=
  match assoc "path".toList r with
  | some (.str path) =>
    if toGit r then env.fetch name (.obj r)
    else some (.arr [.str (if special r = some "ignore".toList then "file ignore-special".toList
                            else "file".toList),
                     .str (env.absPath (if path = [] then ['.'] else path))])
  | _ => none

/-- src/other_tools/repo_map/repos_to_setup_map.cpp:676-697: the root for a precomputed root. -/
def preRoot : Pre N → Json N
  | .computed repo module target config absent =>
    .arr ([.str "computed".toList, .str repo, .str module, .str target, config] ++
      if absent then [.obj [("absent".toList, .bool true)]] else [])
  | .tree repo absent =>
    .arr ([.str "tree structure".toList, .str repo] ++
      if absent then [.obj [("absent".toList, .bool true)]] else [])

/-- What is to be done for a repository: nothing (interactive main repository), use a root, or use a root
once the repository it refers to is set up. -/
inductive Plan (N : Type) where
  | skip
  | use (root : Json N)
  | after (repo : Str) (root : Json N)

/-- src/other_tools/repo_map/repos_to_setup_map.cpp:331-338, 755-915: the kinds of roots.  A git root, an
archive, … is fetched; for a directory see `fileRoot`; a precomputed root is passed on. -/
def planFor (env : Env N) (name : Str) (r : List (Str × Json N)) : Option (Plan N) :=
  match assoc "type".toList r with
  | some (.str t) =>
    if t ∈ fetchTypes then (env.fetch name (.obj r)).map Plan.use
    else if t = "file".toList then (fileRoot env name r).map Plan.use
    else if t = "computed".toList ∨ t = "tree structure".toList then
      match parsePre (.obj r) with
      | .root p => some (.after p.repo (preRoot p))
      | _ => none
    else none
  | _ => none

/-- src/other_tools/repo_map/repos_to_setup_map.cpp:729-800: the description of a repository and what is to
be done for it. -/
def plan (env : Env N) (repos : List (Str × Json N)) (name : Str) :
    Option (List (Str × Json N) × Plan N) :=
  match assoc name repos with
  | some (.obj l) =>
    match assoc "repository".toList l with
    | some d =>
      match resolve repos d with
      | some (.obj r) => (planFor env name r).map fun p => (l, p)
      | _ => none
    | none => none
  | _ => none

/-- src/other_tools/repo_map/repos_to_setup_map.cpp:706-904: the entry for one repository.  `skip` is the
interactive main repository, if there is one.  The entry of a precomputed root waits for the repository the
root refers to; a cycle of such dependencies is reported as an error
(src/other_tools/just_mr/setup.cpp:528-540), and `fuel`, one more than the number of repositories, bounds the
length of the others. -/
def setupRepo (env : Env N) (repos : List (Str × Json N)) (skip : Option Str) :
    Nat → Str → Option (Obj N)
  | fuel, name =>
    if skip = some name then
      match assoc name repos with
      | none | some .null => some OMap.empty
      | some (.obj l) => some (takeOver l OMap.empty)
      | some _ => none
    else
      match plan env repos name with
      | some (l, .use root) => some (takeOver l (OMap.empty.assign "workspace_root".toList root))
      | some (l, .after target root) =>
        match fuel with
        | 0 => none
        | fuel + 1 =>
          (setupRepo env repos skip fuel target).map fun _ =>
            takeOver l (OMap.empty.assign "workspace_root".toList root)
      | _ => none

/-! ## The configuration -/

/-- Arguments of just-mr: the main repository, whether all repositories are to be set up, and whether the
main repository is left to the user (`setup-env`). -/
structure Args where
  main : Option Str
  all : Bool
  interactive : Bool

/-- `*std::min_element` of a non-empty list. -/
def minName : List Str → Option Str
  | [] => none
  | a :: l => some (l.foldl (fun x y => if y < x then y else x) a)

/-- src/other_tools/just_mr/setup.cpp:461-495: the layers of one included repository are the workspace roots
of the repositories named.  `ws` gives `mr_repos[…]["workspace_root"]`. -/
def addLayers (ws : Str → Json N) (skip : Option Str) (l : List (Str × Json N)) :
    List Str → Obj N → Option (Obj N)
  | [], cfg => some cfg
  | k :: ks, cfg =>
    match field k l with
    | .null => addLayers ws skip l ks cfg
    | .str v => addLayers ws skip l ks (if skip = some v then cfg else cfg.assign k (ws v))
    | _ => none

/-- src/other_tools/just_mr/setup.cpp:488-490: `mr_repos[…]["workspace_root"]`, where `operator[]` gives
`null` for what is missing. -/
def rootIn : Option (Obj N) → Json N
  | some c => (c.find "workspace_root".toList).getD .null
  | none => .null

/-- src/other_tools/just_mr/setup.cpp:458-505: the final entry of an included repository.  Included repositories
are always set up, so that there is an entry. -/
def finish (repos : List (Str × Json N)) (entries : OMap Str (Obj N)) (skip : Option Str) (name : Str) :
    Option (Json N) :=
  match entries.find name with
  | none => some .null
  | some cfg =>
    if skip = some name then some (.obj cfg.items)
    else
      match assoc name repos with
      | none | some .null => some (.obj cfg.items)
      | some (.obj l) =>
        (addLayers (fun v => rootIn (entries.find v)) skip l altDirs cfg).map fun c => .obj c.items
      | some _ => none

/-- All results, if there are all. -/
def collect {α β : Type} (f : α → Option β) : List α → Option (List (α × β))
  | [] => some []
  | a :: l => match f a, collect f l with
    | some b, some bs => some ((a, b) :: bs)
    | _, _ => none

/-- src/other_tools/just_mr/setup.cpp:441-510: the entries of the repositories to include. -/
def populate (env : Env N) (repos : List (Str × Json N)) (skip : Option Str) (inv : Involved) :
    Option (List (Str × Json N)) :=
  match collect (setupRepo env repos skip (repos.length + 1)) inv.toSetup with
  | none => none
  | some es =>
    collect (finish repos (es.foldl (fun m e => m.assign e.1 e.2) OMap.empty) skip) inv.toInclude

/-- The object with the given entries. -/
def toObj {V : Type} (l : List (Str × V)) : List (Str × V) :=
  (l.foldl (fun m e => m.assign e.1 e.2) (OMap.empty : OMap Str V)).items

/-- src/other_tools/just_mr/setup.cpp:99-135: the main repository given by the command line or the
description; the outer `none` is an unsupported value. -/
def givenMain (args : Args) (config : List (Str × Json N)) : Option (Option Str) :=
  match args.main with
  | some m => some (some m)
  | none =>
    match field "main".toList config with
    | .null => some none
    | .str m => some (some m)
    | _ => none

/-- The main repository that is taken: the one given, otherwise the first name. -/
def theMain (given : Option Str) (repos : List (Str × Json N)) : Option Str :=
  match given with
  | some m => some m
  | none => minName (repos.map Prod.fst)

/-- src/other_tools/just_mr/setup.cpp:128-135: the repositories involved. -/
def involved (args : Args) (repos : List (Str × Json N)) : Option Str → Out Involved
  | some m => if args.all then .ok ⟨repos.map Prod.fst, repos.map Prod.fst⟩ else reachable repos m
  | none => .ok ⟨repos.map Prod.fst, repos.map Prod.fst⟩

/-- src/other_tools/just_mr/setup.cpp:106-116, 441-510: the configuration from its parts; without any entry
it is `null`. -/
def output (given : Option Str) (es : List (Str × Json N)) : Json N :=
  match given, es with
  | none, [] => .null
  | none, es => .obj [("repositories".toList, .obj (toObj es))]
  | some m, [] => .obj [("main".toList, .str m)]
  | some m, es => .obj [("main".toList, .str m), ("repositories".toList, .obj (toObj es))]

/-- src/other_tools/just_mr/setup.cpp:75-554 (`MultiRepoSetup`): the configuration for `just`. -/
def generate (env : Env N) (args : Args) (config : List (Str × Json N)) : Out (Json N) :=
  match field "repositories".toList config with
  | .obj repos =>
    match givenMain args config with
    | none => .fail
    | some given =>
      let main := theMain given repos
      (involved args repos main).bind fun inv =>
        match populate env repos (if args.interactive then main else none) inv with
        | some es => .ok (output given es)
        | none => .fail
  | _ => .fail

/-! ## The file of absent repositories -/

/-- src/other_tools/just_mr/setup_utils.cpp:282-296: the pragma `absent` of a repository with an explicit
description is set according to the list. -/
def setAbsent (absent : List Str) (name : Str) (l : List (Str × Json N)) : Option (List (Str × Json N)) :=
  let mark := fun (ws p : List (Str × Json N)) =>
    OMap.insertList (fun _ v => v) "repository".toList
      (.obj (OMap.insertList (fun _ v => v) "pragma".toList
        (.obj (OMap.insertList (fun _ v => v) "absent".toList (.bool (decide (name ∈ absent))) p)) ws)) l
  match assoc "repository".toList l with
  | none => some (mark [] [])
  | some (.obj ws) =>
    match assoc "pragma".toList ws with
    | none | some .null => some (mark ws [])
    | some (.obj p) => some (mark ws p)
    | some _ => none
  | some _ => some l

/-- src/other_tools/just_mr/setup_utils.cpp:279-297: the descriptions of the repositories, when a list of
absent repositories is given. -/
def overrideAbsent (absent : List Str) : List (Str × Json N) → Option (List (Str × Json N))
  | [] => some []
  | (n, .obj l) :: t =>
    match setAbsent absent n l, overrideAbsent absent t with
    | some l', some t' => some ((n, .obj l') :: t')
    | _, _ => none
  | _ :: _ => none

end

end Verif.MrConfig
