import Verif.MrConfig.Model

/-!
# `just-mr update`: model

Source: `src/other_tools/just_mr/update.cpp`, `src/other_tools/ops_maps/git_update_map.{hpp,cpp}`,
`src/other_tools/git_operations/git_repo_remote.cpp`.

What remote repositories have is a parameter: the references libgit2 lists, in this order, and the output of `git ls-remote`.
Every error and every exception is `none`, as just-mr ends with an error then, and prints no configuration. Progress reports are
left out, and so are failures to set up temporary directories. The configuration is a JSON value; what
`Expression::FromJson` does to numbers is not considered.
-/

namespace Verif.MrUpdate

open Verif Verif.MrConfig

section
variable {N : Type}

/-- git_update_map.hpp:32-41 (`RepoDescriptionForUpdating`). -/
structure Desc where
  url : Str
  branch : Str
  env : List Str
  deriving DecidableEq

/-- What is said by remote repositories: whether libgit2 is used for a URL (git_repo_remote.cpp:45-56), the references it lists with
their object identifiers, `none` for errors; the output of `git ls-remote` for URL and branch with the variables taken over from the
environment, `none` if it fails; and the additional variables given by the user (mirrors.hpp:109-138). -/
structure Remote where
  direct : Str → Bool
  refs : Str → Option (List (Str × Str))
  lsRemote : Str → Str → List Str → Option Str
  extra : List Str

/-- update.cpp:163-184: the variables to inherit. -/
def envOf (r : List (Str × Json N)) : Option (List Str) :=
  match assoc "inherit env".toList r with
  | none => some []
  | some (.arr l) => l.mapM fun v => match v with
    | .str s => some s
    | _ => none
  | some _ => none

/-- update.cpp:104-190: what is to be updated according to an explicit description. -/
def descOf (r : List (Str × Json N)) : Option Desc :=
  match assoc "type".toList r with
  | some (.str t) =>
    if t = "git".toList then
      match assoc "repository".toList r with
      | some (.str u) =>
        match assoc "branch".toList r with
        | some (.str b) => (envOf r).map fun e => ⟨u, b, e⟩
        | _ => none
      | _ => none
    else none
  | _ => none

/-- update.cpp:78-206: what is to be updated for a repository. -/
def gather (repos : List (Str × Json N)) (name : Str) : Option Desc :=
  match assoc name repos with
  | some (.obj l) =>
    match assoc "repository".toList l with
    | some d =>
      match resolve repos d with
      | some (.obj r) => descOf r
      | _ => none
    | none => none
  | _ => none

/-- `std::filesystem::path::filename`. -/
def filename (s : Str) : Str := (s.reverse.takeWhile (· ≠ '/')).reverse

/-- git_repo_remote.cpp:400-534 (`UpdateCommitViaTmpRepo`), 144-273 (`GetCommitFromRemote`). -/
def commit (W : Remote) (d : Desc) : Option Str :=
  if W.direct d.url then
    (W.refs d.url).bind fun refs => (refs.find? fun x => filename x.1 = d.branch).map (·.2)
  else
    (W.lsRemote d.url d.branch (d.env ++ W.extra)).bind fun out =>
      if '\t' ∈ out then some (out.takeWhile (· ≠ '\t')) else none

/-- git_update_map.hpp:37-40: the first of the descriptions that are considered equal is the one that is used. -/
def keyOf (ds : List Desc) (d : Desc) : Desc := (ds.find? fun e => e.url = d.url && e.branch = d.branch).getD d

/-- `nlohmann::json::operator[]` with names, and assignment. -/
def assign : List Str → Json N → Json N → Option (Json N)
  | [], v, _ => some v
  | k :: p, v, .obj l =>
    (assign p v ((assoc k l).getD .null)).map fun w => .obj (OMap.insertList (fun _ w => w) k w l)
  | k :: p, v, .null => (assign p v .null).map fun w => .obj [(k, w)]
  | _ :: _, _, _ => none

/-- update.cpp:276-277: where the commit of a repository is. -/
def place (name : Str) : List Str := ["repositories".toList, name, "repository".toList, "commit".toList]

/-- update.cpp:269-278: the commits are set, in order. -/
def setAll : List (Str × Str) → Json N → Option (Json N)
  | [], cfg => some cfg
  | (n, c) :: l, cfg => (assign (place n) (.str c) cfg).bind (setAll l)

/-- update.cpp:48-316 (`MultiRepoUpdate`): the configuration that is printed. -/
def update (W : Remote) (names : List Str) (cfg : Json N) : Option (Json N) :=
  if names = [] then some cfg
  else
    match cfg with
    | .obj top =>
      match assoc "repositories".toList top with
      | some (.obj repos) =>
        (names.mapM (gather repos)).bind fun ds =>
          (ds.mapM fun d => commit W (keyOf ds d)).bind fun cs => setAll (names.zip cs) cfg
      | _ => none
    | _ => none

end

end Verif.MrUpdate
