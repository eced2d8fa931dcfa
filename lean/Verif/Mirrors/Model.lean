import Verif.Util.Json
import Verif.Path.Model

/-!
# Mirrors: model

Source: `src/other_tools/just_mr/mirrors.hpp`, `src/other_tools/utils/content.hpp`, `FetchFromNetwork` in
`src/other_tools/ops_maps/content_cas_map.cpp`, and `NetworkFetchAndSetPresentRoot` in
`src/other_tools/root_maps/commit_git_map.cpp`.

The host name libcurl finds in a URL is a parameter, and so is what a location answers, which may depend on the locations asked
before. Hash functions are parameters. Failing allocations and failures of the local storage are left out.
-/

namespace Verif.Mirrors

open Verif

section
variable {N : Type}

/-- The values `items()` of `nlohmann::json` goes through: nothing for `null`, the members of lists and objects, and the value itself
for everything else. -/
def values : Json N → List (Json N)
  | .null => []
  | .arr l => l
  | .obj l => l.map Prod.snd
  | j => [j]

/-- mirrors.hpp:52-66, 86-100: the strings, nothing if something else is among them. -/
def strings : List (Json N) → List Str → List Str
  | [], acc => acc
  | .str s :: t, acc => strings t (acc ++ [s])
  | _ :: _, _ => []

/-- mirrors.hpp:45-79 (`GetLocalMirrors`). -/
def localMirrors (j : Json N) (url : Str) : List Str :=
  match j with
  | .obj l =>
    match assoc url l with
    | some (.arr a) => strings a []
    | _ => []
  | _ => []

/-- mirrors.hpp:82-107 (`GetPreferredHostnames`). -/
def preferredHostnames (j : Json N) : List Str := strings (values j) []

/-- mirrors.hpp:110-137 (`GetInheritEnv`). -/
def inheritEnv (j : Json N) (base : List Str) : List Str :=
  (values j).foldl (fun res v => match v with
    | .str s => res ++ [s]
    | _ => res) base

end

/-! ## Sorting -/

/-- `std::unordered_map<std::string, std::vector<std::string>>`: only `find` and `operator[]` are used. -/
abbrev Buckets := List (Str × List Str)

/-- mirrors.hpp:147-153: `std::inserter`, which keeps what is there. -/
def start (hostnames : List Str) : Buckets :=
  hostnames.foldl (fun b h => if (assoc h b).isSome then b else b ++ [(h, [])]) []

/-- `b[h] = l` for a key that is there. -/
def put (h : Str) (l : List Str) : Buckets → Buckets
  | [] => []
  | (k, v) :: t => if h = k then (k, l) :: t else (k, v) :: put h l t

/-- mirrors.hpp:156-167: one mirror. -/
def fill (host : Str → Option Str) (b : Buckets) (mirror : Str) : Buckets :=
  let h := (host mirror).getD []
  match assoc h b with
  | some l => put h (l ++ [mirror]) b
  | none =>
    match assoc [] b with
    | some l => put [] (l ++ [mirror]) b
    | none => b ++ [([], [mirror])]

/-- mirrors.hpp:173-183: what is collected, list by list. -/
def collect : List Str → Buckets → List Str → Buckets × List Str
  | [], b, ordered => (b, ordered)
  | h :: t, b, ordered =>
    match assoc h b with
    | some l => collect t (put h [] b) (ordered ++ l)
    | none => collect t b ordered

/-- mirrors.hpp:140-195 (`SortByHostname`). -/
def sortByHostname (host : Str → Option Str) (mirrors hostnames : List Str) : List Str :=
  let r := collect hostnames (mirrors.foldl (fill host) (start hostnames)) []
  match assoc [] r.1 with
  | some l => r.2 ++ l
  | none => r.2

section
variable {N : Type}

/-- mirrors.hpp:34-38 (`Mirrors`), main.cpp:308-324. -/
structure Given (N : Type) where
  mirrors : Json N
  preferred : Json N
  env : Json N

/-- content.hpp:60-76, commit_git_map.cpp:396-414: the locations, in the order they are tried. -/
def locations (host : Str → Option Str) (M : Given N) (url : Str) (mirrors : List Str) : List Str :=
  let all := url :: mirrors
  let hs := preferredHostnames M.preferred
  localMirrors M.mirrors url ++ (if hs = [] then all else sortByHostname host all hs)

/-! ## Archives -/

/-- content.hpp:78-84: the locations asked, and the first answer. `net asked u`: what `u` answers after `asked` have been asked. -/
def tryAll (net : List Str → Str → Option Str) : List Str → List Str → List Str × Option Str
  | asked, [] => (asked, none)
  | asked, u :: us =>
    match net asked u with
    | some d => (asked ++ [u], some d)
    | none => tryAll net (asked ++ [u]) us

/-- content_cas_map.hpp:37-50 (`ArchiveContent`), without what is not used for fetching. -/
structure Archive where
  hash : Str
  url : Str
  mirrors : List Str
  sha256 : Option Str
  sha512 : Option Str

/-- Hash functions: the git blob identifier, SHA-256, and SHA-512, in hexadecimal notation. -/
structure Hashes where
  blob : Str → Str
  sha256 : Str → Str
  sha512 : Str → Str

/-- content.hpp:57-89, content_cas_map.cpp:38-108 (`FetchFromNetwork`): the locations asked, and the content with the hash asked for
in the local CAS, if the fetch succeeds. The content was not in the CAS before (content_cas_map.cpp:139-143, 266-272). -/
def fetchArchive (H : Hashes) (host : Str → Option Str) (M : Given N) (net : List Str → Str → Option Str) (a : Archive) :
    List Str × Option Str :=
  if a.url = [] then ([], none)
  else
    let r := tryAll net [] (locations host M a.url a.mirrors)
    match r.2 with
    | none => (r.1, none)
    | some d =>
      if a.sha256.any (fun x => decide (H.sha256 d ≠ x)) then (r.1, none)
      else if a.sha512.any (fun x => decide (H.sha512 d ≠ x)) then (r.1, none)
      else if H.blob d = a.hash then (r.1, some d)
      else (r.1, none)

/-! ## Commits -/

/-- commit_git_map.cpp:44-58 (`GitURLIsPath`). -/
def urlIsPath (url : Str) : Option Str :=
  if "/".toList.isPrefixOf url ∨ "./".toList.isPrefixOf url then some (Path.toNormalPath url)
  else if "file://".toList.isPrefixOf url then some (Path.toNormalPath (url.drop 7))
  else none

/-- `std::filesystem::absolute` for the working directory `cwd`: `cwd / p`. -/
def absolute (cwd p : Str) : Str :=
  if "/".toList.isPrefixOf p then p
  else if cwd.getLast? = some '/' then cwd ++ p
  else cwd ++ '/' :: p

/-- commit_git_map.cpp:419-423: where a location is fetched from. -/
def source (cwd url : Str) : Str :=
  match urlIsPath url with
  | some p => absolute cwd p
  | none => url

/-- commit_git_map.hpp:37-58 (`GitRepoInfo`), without what is not used for fetching. -/
structure Commit where
  hash : Str
  url : Str
  branch : Str
  env : List Str
  mirrors : List Str

/-- What fetching a branch with the given variables from the environment brings, `none` if it fails
(git_repo_remote.cpp, `FetchViaTmpRepo`); the first argument are the sources asked before. -/
abbrev Fetch := List Str → Str → Str → List Str → Option (List Str)

/-- commit_git_map.cpp:419-443: the sources asked, and the commits the first successful fetch brings. -/
def tryFetch (net : Fetch) (branch : Str) (env : List Str) : List Str → List Str → List Str × Option (List Str)
  | asked, [] => (asked, none)
  | asked, u :: us =>
    match net asked u branch env with
    | some cs => (asked ++ [u], some cs)
    | none => tryFetch net branch env (asked ++ [u]) us

/-- commit_git_map.cpp:1109-1113, 392-476 (`NetworkFetchAndSetPresentRoot`), up to where the commit is there: the sources asked, and whether the
commit is there afterwards. The commit was not there before (commit_git_map.cpp:557-562). -/
def fetchCommit (host : Str → Option Str) (cwd : Str) (M : Given N) (net : Fetch) (c : Commit) : List Str × Bool :=
  let repo := source cwd c.url
  let r := tryFetch net c.branch (inheritEnv M.env c.env) [] ((locations host M repo c.mirrors).map (source cwd))
  match r.2 with
  | none => (r.1, false)
  | some cs => (r.1, decide (c.hash ∈ cs))

end

end Verif.Mirrors
