import Verif.MrConfig.Model
import Verif.Path.Spec
import Verif.Path.Model
import Verif.Digest.Model

/-!
# just-mr fetch: model

Source: `src/other_tools/just_mr/fetch.cpp` (`MultiRepoFetch`), `src/other_tools/ops_maps/archive_fetch_map.cpp`,
`src/other_tools/utils/parse_archive.cpp`, `src/other_tools/utils/parse_git_tree.cpp`.

Whether an archive or tree can be obtained is given by the environment, as a function of everything in its description; a content is
represented by its hash, as the local storage contains what has the hash asked for (C113, C87). Files are where paths lead to without
symbolic links. The backup to a remote endpoint, of which failures are only reported, is not modelled.
-/

namespace Verif.MrFetch

open Verif Verif.MrConfig Verif.Path

section
variable {N : Type}

/-- content_cas_map.hpp:39-52 (`ArchiveContent`), without the checksums and the origin. -/
structure Archive where
  content : Str
  distfile : Option Str
  url : Str
  mirrors : List Str
deriving DecidableEq

/-- archive_fetch_map.cpp:85-89: the name of the file. -/
def Archive.name (a : Archive) : Str := a.distfile.getD (filename a.url)

/-- parse_archive.cpp:67-77: a list of strings. -/
def texts : List (Json N) → Option (List Str)
  | [] => some []
  | .str s :: t => (texts t).map fun l => s :: l
  | _ :: _ => none

/-- A text, if it is one. -/
def text? : Json N → Option Str
  | .str s => some s
  | _ => none

/-- parse_archive.cpp:31-102 (`ParseArchiveContent`). -/
def parseContent (r : List (Str × Json N)) : Option Archive :=
  match assoc "content".toList r, assoc "fetch".toList r, (assoc "mirrors".toList r).getD (.arr []) with
  | some (.str h), some (.str u), .arr ms =>
    if Dig.validInput .gitSHA1 h false then
      (texts ms).map fun l => ⟨h, text? (field "distfile".toList r), u, l⟩
    else none
  | _, _, _ => none

/-- parse_archive.cpp:138-142, 194-200, fetch.cpp:258-267: the pragma `absent`. -/
def markedAbsent (r : List (Str × Json N)) : Bool :=
  match field "pragma".toList r with
  | .obj p => match field "absent".toList p with
    | .bool b => b
    | _ => false
  | _ => false

/-- parse_archive.cpp:115-127: the subdirectory. For the empty path, where `PathIsNonUpwards` dereferences the end iterator
(`Answer.ub`), libstdc++ gives the empty path, which is accepted. -/
def subdirOk (r : List (Str × Json N)) : Bool :=
  nonUpwards (lexNormal ((text? (field "subdir".toList r)).getD [])) ≠ .val false

/-- parse_archive.cpp:157-192: name and permission of a foreign file. -/
def foreignOk (r : List (Str × Json N)) : Bool :=
  (match assoc "name".toList r with
    | some (.str s) => isValidFileName s
    | _ => false) &&
  match (assoc "executable".toList r).getD (.bool false) with
    | .bool _ => true
    | _ => false

/-- parse_git_tree.cpp:28-103 (`ParseGitTree`). -/
def treeOk (r : List (Str × Json N)) : Bool :=
  (match assoc "id".toList r with
    | some (.str h) => Dig.validInput .gitSHA1 h true
    | _ => false) &&
  (match assoc "cmd".toList r with
    | some (.arr l) => (texts l).isSome
    | _ => false) &&
  (match field "env".toList r with
    | .obj l => (texts (l.map Prod.snd)).isSome
    | _ => true) &&
  match field "inherit env".toList r with
    | .arr l => (texts l).isSome
    | _ => true

/-- What there is to fetch for a repository. -/
inductive Item (N : Type)
  | nothing
  | archive (a : Archive)
  | tree (r : List (Str × Json N))

/-- fetch.cpp:186-289: what there is to fetch for the description of a repository; `none` for an error. -/
def item (fetchAbsent : Bool) (r : List (Str × Json N)) : Option (Item N) :=
  match assoc "type".toList r with
  | some (.str t) =>
    if t = "archive".toList ∨ t = "zip".toList then
      (parseContent r).bind fun a =>
        if subdirOk r then some (if !markedAbsent r || fetchAbsent then .archive a else .nothing) else none
    else if t = "foreign file".toList then
      (parseContent r).bind fun a =>
        if foreignOk r then some (if !markedAbsent r || fetchAbsent then .archive a else .nothing) else none
    else if t = "git tree".toList then
      if !markedAbsent r || fetchAbsent then (if treeOk r then some (.tree r) else none) else some .nothing
    else if t = "git".toList ∨ t = "distdir".toList ∨ t = "file".toList ∨ t = "computed".toList ∨ t = "tree structure".toList then
      some .nothing
    else none
  | _ => none

/-- fetch.cpp:163-297: the same for a repository. -/
def itemOf (fetchAbsent : Bool) (repos : List (Str × Json N)) (name : Str) : Option (Item N) :=
  match assoc name repos with
  | some (.obj l) =>
    match assoc "repository".toList l with
    | some d => match resolve repos d with
      | some (.obj r) => item fetchAbsent r
      | _ => none
    | none => none
  | _ => none

/-- Arguments: the main repository given on the command line, `--all`, `--fetch-absent`, `-o`, and the distribution directories. -/
structure Args where
  main : Option Str
  all : Bool
  fetchAbsent : Bool
  out : Option Str
  distdirs : List Str

/-- What the result depends on: which directories exist, which archives and trees can be obtained, which files can be written, and
in which order archives are treated. -/
structure Env (N : Type) where
  isDir : Str → Bool
  obtain : Archive → Bool
  obtainTree : List (Str × Json N) → Bool
  canWrite : Place → Bool
  order : List Archive → List Archive

/-- fetch.cpp:85-100: the directory to fetch to. -/
def fetchDir (env : Env N) (args : Args) : Option Str := args.out.or (args.distdirs.find? env.isDir)

/-- fetch.cpp:114-127: the repositories considered. The main repository of the configuration is not looked at. -/
def considered (args : Args) (repos : List (Str × Json N)) : Out (List Str) :=
  if args.all then .ok (repos.map Prod.fst)
  else match args.main.or (minName (repos.map Prod.fst)) with
    | some m => (reachable repos m).bind fun inv => .ok inv.toInclude
    | none => .ok (repos.map Prod.fst)

/-- The archives of a list. -/
def archives (items : List (Item N)) : List Archive := items.filterMap fun i => match i with | .archive a => some a | _ => none

/-- The trees of a list. -/
def trees (items : List (Item N)) : List (List (Str × Json N)) := items.filterMap fun i => match i with | .tree r => some r | _ => none

/-- content_cas_map.hpp:49-51: archives with the same content are the same for `AsyncMapConsumer`, so that only the first one is
treated. `seen` are the contents already treated. -/
def distinct (seen : List Str) : List Archive → List Archive
  | [] => []
  | a :: l => if a.content ∈ seen then distinct seen l else a :: distinct (a.content :: seen) l

/-- Where the file of an archive is (archive_fetch_map.cpp:90). -/
def target (dir : Str) (a : Archive) : Place := place (append dir a.name)

/-- archive_fetch_map.cpp:52-66: the file is replaced. -/
def write (dir : Str) (files : Place → Option Str) (a : Archive) : Place → Option Str :=
  fun p => if p = target dir a then some a.content else files p

/-- fetch.cpp:72-605 (`MultiRepoFetch`): the files after success. -/
def fetch (env : Env N) (args : Args) (config : List (Str × Json N)) (files : Place → Option Str) : Out (Place → Option Str) :=
  match fetchDir env args with
  | none => .fail
  | some dir =>
    match field "repositories".toList config with
    | .obj repos =>
      (considered args repos).bind fun names =>
        match collect (itemOf args.fetchAbsent repos) names with
        | none => .fail
        | some es =>
          let items := es.map Prod.snd
          let keys := distinct [] (env.order (archives items))
          if keys.all (fun a => env.obtain a && env.canWrite (target dir a)) && (trees items).all env.obtainTree then
            .ok (keys.foldl (write dir) files)
          else .fail
    | _ => .fail

/-! ## The serve endpoint -/

/-- Whether a serve endpoint is used; `ub` for reading the value of an empty `std::optional`. -/
inductive Serve
  | used
  | ignored
  | ub
deriving DecidableEq

/-- fetch.cpp:455-478, and the same in setup.cpp:277-291: `answer` is what the endpoint says about its mode, `none` if it can not be
asked. -/
def serveCheck (answer : Option Bool) (compatible : Bool) : Serve :=
  match answer with
  | none => .ub
  | some c => if c ≠ compatible then .ignored else .used

end

end Verif.MrFetch
