import Verif.Mr.Prog
import Verif.Digest.Model
import Verif.Symlinks.Model

/-!
# Setting up roots from archives, single files, directories of archives, commits, git trees, and directories

Source: `src/other_tools/root_maps/content_git_map.cpp`, `foreign_file_git_map.cpp`, `distdir_git_map.cpp`,
`commit_git_map.cpp`, `tree_id_git_map.cpp`, `fpath_git_map.cpp`, `src/other_tools/ops_maps/content_cas_map.cpp`,
`import_to_git_map.cpp`, `git_tree_fetch_map.cpp`, `src/buildtool/storage/fs_utils.cpp`.

`just-mr` sets up roots as git trees in a git repository of its own, the git cache. Which tree belongs to which archive is
remembered in small files. The git cache and these files are kept in generations. Git objects are given by what they stand for
(`Symlinks.Node`, where the `id` of a file is its content).

Simplifications, besides those stated at the definitions: messages and progress reporting are left out. Operations of the operating
system work, except that a task may stop at any point (`Step.gone`). A file of the maps is read in one step, as it is put into place by
renaming (`WriteTreeIDFile`). What a map (`AsyncMapConsumer`) has computed already is not computed again in the code; here it may
be. The CAS is a set of contents; that it is kept in generations is the subject of C01 and others.
-/

namespace Verif.Mr

open Verif.Symlinks (Node Mode)
open Verif.Dig (ObjectType)

/-- What is not modelled: git hashes of blobs and of trees (given by name, type, and hash of each entry), the hash of the list of a
distdir (repos_to_setup_map.cpp:545-549), SHA-256, SHA-512, the content of archives (libarchive) for `"archive"` and `"zip"`, and the
directory a commit hash stands for. Also what a path is in the file system: if in the user's repository, the commit checked out there and
the place below the root of the repository (`heads`), and otherwise the directory (`dirs`); as this may change over time, these are all
it ever is. If `tidy`, nobody removes objects from the git cache. -/
structure Env where
  blobId : Str → Str
  treeId : List (Str × ObjectType × Str) → Str
  listId : List (Str × Str × Bool) → Str
  sha256 : Str → Str
  sha512 : Str → Str
  extract : Str → Str → Option (List (Str × Node))
  commit : Str → Option (List (Str × Node))
  heads : Str → List (Str × List Str)
  dirs : Str → List Node
  tidy : Bool

/-- The type of a node as entry of a tree. -/
def kind : Node → ObjectType
  | .file _ false => .file
  | .file _ true => .executable
  | .link _ => .symlink
  | .tree _ => .tree

mutual

/-- The git hash. -/
def gid (E : Env) : Node → Str
  | .file c _ => E.blobId c
  | .link c => E.blobId c
  | .tree es => E.treeId (gids E es)

/-- The entries of a git tree. -/
def gids (E : Env) : List (Str × Node) → List (Str × ObjectType × Str)
  | [] => []
  | (x, n) :: t => (x, kind n, gid E n) :: gids E t

end

mutual

/-- A git object and all objects it refers to. -/
def below : Node → List Node
  | .file c x => [.file c x]
  | .link c => [.link c]
  | .tree es => .tree es :: belows es

/-- The same for the entries of a tree. -/
def belows : List (Str × Node) → List Node
  | [] => []
  | (_, n) :: t => below n ++ belows t

end

/-- Whether it is a tree. -/
def isTree : Node → Bool
  | .tree _ => true
  | _ => false

/-- The content of a blob. -/
def blob? : Node → Option Str
  | .file c _ => some c
  | .link c => some c
  | .tree _ => none

/-- A git repository: its objects, the trees kept by tags (those of the commits tagged), and its commits. -/
structure Repo where
  objs : List Node
  tags : List Node
  commits : List Str

/-- One generation (config.hpp:79-95): the objects in the git repository, those kept by tags, and the commits, and the files
remembering the tree of an archive, a resolved tree, the tree of a distdir or a single file, and of a commit (fs_utils.cpp:59-110). -/
structure Gen where
  objs : List Node
  tags : List Node
  arch : List ((Str × Str) × Str)
  special : List ((Mode × Str) × Str)
  dist : List (Str × Str)
  commits : List Str
  com : List (Str × Str)

/-- What is shared: the native CAS, the youngest generation, the older ones, the files remembering hashes for the compatible
protocol (fs_utils.cpp:112-120, for the content of the native CAS), and a git repository of the user's own: a checkout, given as
location to use for some url, or a local directory given as url (fs_utils.cpp:34-57). Simplification: there is one of these. -/
structure World where
  cas : List Str
  young : Gen
  old : List Gen
  rehash : List (Str × Str)
  user : Repo

/-- Lookup of a file by name. -/
def read {K V : Type} [DecidableEq K] (k : K) (l : List (K × V)) : Option V := (l.find? fun e => e.1 = k).map (·.2)

/-- What is asked of the outside. -/
inductive Query where
  /-- the files of this name in the local directories for distribution files -/
  | distfiles (name : Str)
  /-- what the given location has -/
  | download (url : Str)
  /-- serve_api.hpp (`ContentInRemoteCAS`) -/
  | serveContent (hash : Str)
  /-- `RetrieveToCas` from the remote -/
  | remoteBlob (hash : Str)
  /-- resolve_symlinks_map.hpp -/
  | resolve (m : Mode) (n : Node)
  /-- serve_api.hpp (`CheckRootTree`) -/
  | checkRoot (tree : Str)
  /-- serve_api.hpp (`RetrieveTreeFromArchive`) -/
  | serveArchive (hash type : Str) (subdir : List Str) (special : Option Mode)
  /-- serve_api.hpp (`RetrieveTreeFromForeignFile`) -/
  | serveForeign (hash name : Str) (executable : Bool)
  /-- serve_api.hpp (`RetrieveTreeFromDistdir`) -/
  | serveDistdir (list : List (Str × Str)) (sync : Bool)
  /-- serve_api.hpp (`UploadTree`) -/
  | upload (tree : Str)
  /-- whether a tree is in the local CAS -/
  | localTree (tree : Str)
  /-- whether a tree is in the remote CAS -/
  | remoteTree (tree : Str)
  /-- `RetrieveToCas` of a tree from the local CAS to the remote -/
  | pushTree (tree : Str)
  /-- the same for a blob -/
  | pushBlob (hash : Str)
  /-- serve_api.hpp (`GetTreeFromRemote`) -/
  | serveGet (tree : Str)
  /-- the commits of the given branch at the given location (`FetchViaTmpRepo`) -/
  | fetchRepo (url branch : Str)
  /-- serve_api.hpp (`RetrieveTreeFromCommit`) -/
  | serveCommit (hash : Str) (subdir : List Str) (sync : Bool)
  /-- `RetrieveToCas` of a tree from the remote, and from there as directory -/
  | remoteDir (tree : Str)
  /-- `RetrieveToPaths` of a tree in the local CAS -/
  | localDir (tree : Str)
  /-- `RetrieveToCas` of a tree, given by its git hash, from the remote, and from there as directory -/
  | nativeDir (tree : Str)
  /-- serve_api.hpp (`TreeInRemoteCAS`), what it answers being fetched from the remote, and from there as directory -/
  | serveDir (tree : Str)
  /-- what the command leaves in the directory it is run in -/
  | runCommand (command : List Str)
  /-- git_repo.cpp (`GetRepoRootFromPath`, `GetHeadCommit`): if in the user's repository, the commit checked out there and the place below
  the root of the repository, and otherwise the directory -/
  | whereIs (path : Str)
  deriving Inhabited

/-- Answers. -/
inductive Answer where
  | error
  | no
  | yes
  | text (s : Str)
  | texts (l : List Str)
  | node (n : Node)

/-- Programs on these. -/
abbrev Task := Prog World Query Answer

/-- How `just-mr` was started: whether there is a serve endpoint, a remote, and a compatible storage, whether absent roots are
fetched, and the mirrors (content.hpp:60-76). -/
structure Conf where
  serve : Bool
  remote : Bool
  compat : Bool
  fetchAbsent : Bool
  localMirrors : Str → List Str
  preferred : List Str → List Str

/-- content_cas_map.hpp:37-50 (`ArchiveContent`). -/
structure Archive where
  hash : Str
  distfile : Option Str
  url : Str
  mirrors : List Str
  sha256 : Option Str
  sha512 : Option Str

/-- content_cas_map.cpp:260-264, repos_to_setup_map.cpp:531-535. -/
def Archive.file (a : Archive) : Str :=
  match a.distfile with
  | some d => d
  | none => Path.filename a.url

/-- content_cas_map.hpp:52-68 (`ArchiveRepoInfo`). -/
structure ArchiveRepo where
  archive : Archive
  type : Str
  subdir : List Str
  special : Option Mode
  absent : Bool

/-- content_cas_map.hpp:70-80 (`ForeignFileInfo`). -/
structure ForeignFile where
  archive : Archive
  name : Str
  executable : Bool
  absent : Bool

/-- The archives for a distdir (repos_to_setup_map.cpp:411-581), in the order they are named. -/
structure Distdir where
  archives : List Archive
  absent : Bool

/-- commit_git_map.hpp:37-58 (`GitRepoInfo`). Whether special files are to be ignored only gets a mark on the root. `checkout`: the
repository to use for the url is one of the user's own (fs_utils.cpp:34-57). -/
structure CommitRepo where
  hash : Str
  url : Str
  branch : Str
  subdir : List Str
  mirrors : List Str
  checkout : Bool
  absent : Bool

/-- tree_id_git_map.hpp:31-45 (`TreeIdInfo`), git_tree_fetch_map.hpp:33-50 (`GitTreeInfo`). -/
structure TreeRepo where
  hash : Str
  command : List Str
  absent : Bool

/-- fpath_git_map.hpp:34-49 (`FpathInfo`); `absent` as described (repos_to_setup_map.cpp:361-372). -/
structure PathRepo where
  path : Str
  special : Option Mode
  absent : Bool

/-- A root (file_root.hpp): a git tree that is in the git cache, one that is in the user's repository, or one that is not there. -/
inductive Root where
  | present (tree : Str)
  | user (tree : Str)
  | absent (tree : Str)
  deriving DecidableEq

/-- The tree of a root. -/
def Root.tree : Root → Str
  | .present t => t
  | .user t => t
  | .absent t => t

variable (E : Env) (C : Conf)

/-! ## Steps on what is shared -/

/-- The content of a blob in the CAS. -/
def World.content (w : World) (h : Str) : Option Str := w.cas.find? fun c => E.blobId c = h

/-- `StoreBlob`. -/
def World.store (c : Str) (w : World) : World := { w with cas := c :: w.cas }

/-- git_repo.cpp:1406-1465 (`TryReadBlob`). -/
def findBlob (h : Str) (l : List Node) : Option Str := (l.filterMap blob?).find? fun c => E.blobId c = h

/-- Lookup of a tree in a git repository. -/
def findTree (t : Str) (l : List Node) : Option Node := l.find? fun n => isTree n && decide (gid E n = t)

/-- Objects are written to the git repository of the youngest generation. -/
def World.addObjs (l : List Node) (w : World) : World := { w with young := { w.young with objs := l ++ w.young.objs } }

/-- git_repo.cpp:834-962 (`KeepTree`), also 586-699 (`KeepTag`) for the commit with this tree. -/
def Gen.keep (t : Str) (g : Gen) : Option Gen := (findTree E t g.objs).bind fun n => some { g with tags := n :: g.tags }

/-- The same for the youngest generation. -/
def World.keep (t : Str) (w : World) : Option World := (w.young.keep E t).bind fun g => some { w with young := g }

/-- The same for the older generation `i` (content_git_map.cpp:798-805). -/
def World.keepOld (i : Nat) (t : Str) (w : World) : Option World :=
  match w.old[i]? with
  | none => none
  | some g => (g.keep E t).bind fun g' => some { w with old := w.old.set i g' }

/-- git_repo.cpp:1613-1690 (`LocalFetchViaTmpRepo`): what the tag refers to is fetched from the older generation `i`. -/
def World.fetchOld (i : Nat) (t : Str) (w : World) : Option World :=
  match w.old[i]? with
  | none => none
  | some g => (findTree E t g.tags).bind fun n => some (w.addObjs (below n))

/-- fs_utils.cpp:130-146 (`WriteTreeIDFile`) for archives. -/
def World.writeArch (ty h t : Str) (w : World) : World :=
  { w with young := { w.young with arch := ((ty, h), t) :: w.young.arch } }

/-- fs_utils.cpp:130-146 (`WriteTreeIDFile`) for resolved trees. -/
def World.writeSpecial (m : Mode) (t t' : Str) (w : World) : World :=
  { w with young := { w.young with special := ((m, t), t') :: w.young.special } }

/-- fs_utils.cpp:130-146 (`WriteTreeIDFile`) for distdirs and single files. -/
def World.writeDist (k t : Str) (w : World) : World := { w with young := { w.young with dist := (k, t) :: w.young.dist } }

/-- rehash_utils.cpp:103-123 (`StoreRehashedDigest`). -/
def World.writeRehash (h h' : Str) (w : World) : World := { w with rehash := (h, h') :: w.rehash }

/-- fs_utils.cpp:130-146 (`WriteTreeIDFile`) for commits. -/
def World.writeCom (h t : Str) (w : World) : World := { w with young := { w.young with com := (h, t) :: w.young.com } }

/-- The git repository of a generation. -/
def Gen.repo (g : Gen) : Repo := ⟨g.objs, g.tags, g.commits⟩

/-- The generation with this git repository. -/
def Gen.setRepo (r : Repo) (g : Gen) : Gen := { g with objs := r.objs, tags := r.tags, commits := r.commits }

/-- fs_utils.cpp:34-57 (`GetGitRoot`): the git repository to use, the user's own one or the git cache. -/
def World.repo (user : Bool) (w : World) : Repo := if user = true then w.user else w.young.repo

/-- Change it. -/
def World.setRepo (user : Bool) (r : Repo) (w : World) : World :=
  if user = true then { w with user := r } else { w with young := w.young.setRepo r }

/-- A commit is written, with all it refers to. Simplification: other than that, commits are not connected. -/
def Repo.add (h : Str) (r : Repo) : Repo :=
  match E.commit h with
  | none => r
  | some es => { r with objs := below (.tree es) ++ r.objs, commits := h :: r.commits }

/-- git_repo.cpp:586-699 (`KeepTag`). -/
def Repo.keep (h : Str) (r : Repo) : Option Repo :=
  if h ∈ r.commits then (E.commit h).bind fun es => some { r with tags := .tree es :: r.tags } else none

/-- Commits are fetched. -/
def World.fetched (user : Bool) (l : List Str) (w : World) : World := w.setRepo user (l.foldl (fun r h => r.add E h) (w.repo user))

/-- commit_git_map.cpp:214-223. -/
def World.keepCommit (user : Bool) (h : Str) (w : World) : Option World :=
  ((w.repo user).keep E h).bind fun r => some (w.setRepo user r)

/-- commit_git_map.cpp:290-297. -/
def World.keepCommitOld (i : Nat) (h : Str) (w : World) : Option World :=
  match w.old[i]? with
  | none => none
  | some g => (g.repo.keep E h).bind fun r => some { w with old := w.old.set i (g.setRepo r) }

/-- git_repo.cpp:1613-1690 (`LocalFetchViaTmpRepo`), for a tagged commit. -/
def World.fetchCommitOld (user : Bool) (i : Nat) (h : Str) (w : World) : Option World :=
  match w.old[i]? with
  | none => none
  | some g => if h ∈ g.commits then some (w.fetched E user [h]) else none

/-! ## Getting the content of an archive -/

/-- content.hpp:78-84: the first location that has something. -/
def downloadFrom : List Str → Task (Option Str)
  | [] => .ret none
  | u :: us => do
    match ← question (.download u) with
    | .text c => .ret (some c)
    | _ => downloadFrom us

/-- content.hpp:60-76: the locations to try. -/
def locations (a : Archive) : List Str := C.localMirrors a.url ++ C.preferred (a.url :: a.mirrors)

/-- content_cas_map.cpp:38-108 (`FetchFromNetwork`). -/
def fetch (a : Archive) : Task Unit :=
  if a.url = [] then .fail
  else do
    match ← downloadFrom (locations C a) with
    | none => .fail
    | some c =>
      if a.sha256 ≠ none ∧ a.sha256 ≠ some (E.sha256 c) then .fail
      else if a.sha512 ≠ none ∧ a.sha512 ≠ some (E.sha512 c) then .fail
      else do
        change (World.store c)
        let _ ← need fun w => w.content E a.hash
        .ret ()

/-- content_cas_map.cpp:339-358: the remote CAS, if it is native. -/
def fromRemote (a : Archive) : Task Unit :=
  if C.compat = false ∧ C.remote = true then do
    match ← question (.remoteBlob a.hash) with
    | .text c => change (World.store c)
    | _ => fetch E C a
  else fetch E C a

/-- content_cas_map.cpp:274-338: what the serve endpoint knows. -/
def fromServe (a : Archive) : Task Unit :=
  if C.serve = true ∧ C.remote = true then do
    match ← question (.serveContent a.hash) with
    | .text d =>
      match ← question (.remoteBlob d) with
      | .text c =>
        if d = a.hash then change (World.store c)
        else if C.compat = false then .fail
        else do
          change (World.store c)
          if E.blobId c ≠ a.hash then .fail
          else change (World.writeRehash a.hash (E.blobId c))
      | _ => fromRemote E C a
    | _ => fromRemote E C a
  else fromRemote E C a

/-- fs_utils.cpp:159-170 (`AddDistfileToCAS`). -/
def fromDistfiles (x : Str) : Task Unit := do
  match ← question (.distfiles x) with
  | .texts l => change fun w => l.foldl (fun w c => w.store c) w
  | _ => .ret ()

/-- content_cas_map.cpp:112-370 (`CreateContentCASMap`). Simplification: the older generations are looked at in one step. -/
def ensure (a : Archive) : Task Unit := do
  match ← look fun w => w.content E a.hash with
  | some _ => .ret ()
  | none =>
    match ← look fun w => findBlob E a.hash w.young.objs with
    | some c => change (World.store c)
    | none =>
      match ← look fun w => w.old.findSome? fun g => findBlob E a.hash g.objs with
      | some c => change (World.store c)
      | none => do
        fromDistfiles a.file
        match ← look fun w => w.content E a.hash with
        | some _ => .ret ()
        | none => fromServe E C a

/-! ## Archives -/

/-- content_git_map.cpp:119-143: the tree is handed over to the serve endpoint. -/
def uploadAbsent (t : Str) : Task Root := do
  match ← question (.upload t) with
  | .yes => .ret (.absent t)
  | _ => .fail

/-- content_git_map.cpp:85-117: whether the serve endpoint can set up the root itself. -/
def serveCan (k : ArchiveRepo) (t : Str) : Task Bool := do
  match ← question (.serveArchive k.archive.hash k.type k.subdir k.special) with
  | .text t' => if t = t' then .ret true else .fail
  | .no => .ret false
  | _ => .fail

/-- content_git_map.cpp:65-156 (`EnsureRootAsAbsent`). -/
def asAbsent (k : ArchiveRepo) (t : Str) (hit : Bool) : Task Root :=
  if C.serve = true then do
    match ← question (.checkRoot t) with
    | .yes => .ret (.absent t)
    | .no =>
      if hit = true then do
        let there ← serveCan k t
        if there = true then .ret (.absent t) else uploadAbsent t
      else uploadAbsent t
    | _ => .fail
  else .ret (.absent t)

/-- content_git_map.cpp:187-204, 277-296, 310-328: set the root. -/
def setRoot (k : ArchiveRepo) (t : Str) (hit absent : Bool) : Task Root :=
  if absent = true then asAbsent C k t hit else .ret (.present t)

/-- content_git_map.cpp:161-329 (`ResolveContentTree`). -/
def resolveContent (k : ArchiveRepo) (t : Str) (hit absent : Bool) : Task Root :=
  match k.special with
  | none => setRoot C k t hit absent
  | some m => do
    match ← look fun w => read (m, t) w.young.special with
    | some t' => setRoot C k t' hit absent
    | none =>
      let n ← need fun w => findTree E t w.young.objs
      match ← question (.resolve m n) with
      | .node n' => do
        change (World.addObjs (below n'))
        tryTo (World.keep E (gid E n'))
        change (World.writeSpecial m t (gid E n'))
        setRoot C k (gid E n') hit absent
      | _ => .fail

/-- git_repo.cpp:1062-1141 (`GetSubtreeFromTree`). Simplification: the path is followed in what the tree stands for. -/
def subtree (t : Str) (subdir : List Str) : Task Str :=
  if subdir = [] then .ret t
  else do
    let n ← need fun w => findTree E t w.young.objs
    match n.find subdir with
    | some m => .ret (gid E m)
    | none => .fail

/-- import_to_git_map.cpp:93-251: put the directory into the git cache; the result is the tree. -/
def importDir (es : List (Str × Node)) : Task Str := do
  change (World.addObjs (below (.tree es)))
  tryTo (World.keep E (gid E (.tree es)))
  .ret (gid E (.tree es))

/-- content_git_map.cpp:334-474 (`WriteIdFileAndSetWSRoot`, `ExtractAndImportToGit`). -/
def extractImport (k : ArchiveRepo) (c : Str) (absent : Bool) : Task Root :=
  match E.extract k.type c with
  | none => .fail
  | some es => do
    let t ← importDir E es
    change (World.writeArch k.type k.archive.hash t)
    let s ← subtree E t k.subdir
    resolveContent E C k s false absent

/-- content_git_map.cpp:494-589 (`HandleLocallyKnownTree`). -/
def locallyKnown (k : ArchiveRepo) : Task Root := do
  let t ← need fun w => read (k.type, k.archive.hash) w.young.arch
  let s ← subtree E t k.subdir
  resolveContent E C k s true (k.absent && !C.fetchAbsent)

/-- content_git_map.cpp:476-492 (`IdFileExistsInOlderGeneration`), with the content of the file. -/
def oldArch (ty h : Str) : List Gen → Option (Nat × Str)
  | [] => none
  | g :: gs =>
    match read (ty, h) g.arch with
    | some t => some (0, t)
    | none => (oldArch ty h gs).map fun r => (r.1 + 1, r.2)

/-- content_git_map.cpp:591-846 (`HandleKnownInOlderGeneration` and what follows). -/
def knownOlder (k : ArchiveRepo) (i : Nat) (t : Str) : Task Root := do
  tryTo (World.keepOld E i t)
  tryTo (World.fetchOld E i t)
  tryTo (World.keep E t)
  change (World.writeArch k.type k.archive.hash t)
  locallyKnown E C k

/-- content_git_map.cpp:908-934: ask the serve endpoint for the root. -/
def askArchive (k : ArchiveRepo) : Task (Option Str) :=
  if C.serve = true then do
    match ← question (.serveArchive k.archive.hash k.type k.subdir k.special) with
    | .text t => .ret (some t)
    | .no => .ret none
    | _ => .fail
  else .ret none

/-- content_git_map.cpp:906-1106: an absent root for which nothing is remembered. -/
def absentArchive (k : ArchiveRepo) : Task Root := do
  match ← askArchive C k with
  | some t => .ret (.absent t)
  | none =>
    match ← look fun w => w.content E k.archive.hash with
    | some c => extractImport E C k c true
    | none =>
      match ← look fun w => findBlob E k.archive.hash w.young.objs with
      | some c => do
        change (World.store c)
        let c ← need fun w => w.content E k.archive.hash
        extractImport E C k c true
      | none => do
        fromDistfiles k.archive.file
        let c ← need fun w => w.content E k.archive.hash
        extractImport E C k c true

/-- content_git_map.cpp:850-1158 (`CreateContentGitMap`). -/
def archive (k : ArchiveRepo) : Task Root := do
  match ← look fun w => read (k.type, k.archive.hash) w.young.arch with
  | some _ => locallyKnown E C k
  | none =>
    match ← look fun w => oldArch k.type k.archive.hash w.old with
    | some (i, t) => knownOlder E C k i t
    | none =>
      if k.absent = true ∧ C.fetchAbsent = false then absentArchive E C k
      else do
        ensure E C k.archive
        let c ← need fun w => w.content E k.archive.hash
        extractImport E C k c false

/-! ## Single files -/

/-- fs_utils.cpp:76-92 (`GetForeignFileTreeIDFile`). -/
def foreignKey (k : ForeignFile) : Str := E.listId [(k.name, k.archive.hash, k.executable)]

/-- foreign_file_git_map.cpp:141-161: the tree, as computed from the hash (`CreateShallowTree`). -/
def foreignTree (k : ForeignFile) : Str :=
  E.treeId [(k.name, if k.executable = true then .executable else .file, k.archive.hash)]

/-- foreign_file_git_map.cpp:137-212 (`HandleAbsentForeignFile`). -/
def absentForeign (k : ForeignFile) : Task Root :=
  if C.serve = true then do
    match ← question (.checkRoot (foreignTree E k)) with
    | .yes => .ret (.absent (foreignTree E k))
    | .no =>
      match ← question (.serveForeign k.archive.hash k.name k.executable) with
      | .text t' => if foreignTree E k = t' then .ret (.absent (foreignTree E k)) else .fail
      | .no => .ret (.absent (foreignTree E k))
      | _ => .fail
    | _ => .fail
  else .ret (.absent (foreignTree E k))

/-- foreign_file_git_map.cpp:42-135, 223-282 (`CreateForeignFileGitMap`). -/
def foreign (k : ForeignFile) : Task Root :=
  if k.absent = true ∧ C.fetchAbsent = false then absentForeign E C k
  else do
    match ← look fun w => read (foreignKey E k) w.young.dist with
    | some t => .ret (.present t)
    | none => do
      ensure E C k.archive
      let c ← need fun w => w.content E k.archive.hash
      let t ← importDir E [(k.name, .file c k.executable)]
      change (World.writeDist (foreignKey E k) t)
      .ret (.present t)

/-! ## Distdirs -/

/-- repos_to_setup_map.cpp:529-540 (`insert_or_assign`): the names and hashes of the files. The order of the map is that of the names;
neither the key nor the tree depends on the order it has in the code, as both are computed from a sorted list. -/
def contentList (l : List Archive) : List (Str × Str) :=
  l.foldl (fun m a => OMap.insertList (fun _ new => new) a.file a.hash m) []

/-- repos_to_setup_map.cpp:545-549. -/
def distKey (l : List (Str × Str)) : Str := E.listId (l.map fun e => (e.1, e.2, false))

/-- distdir_git_map.cpp:320-346: the tree, as computed from the hashes (`CreateShallowTree`). -/
def distTree (l : List (Str × Str)) : Str := E.treeId (l.map fun e => (e.1, .file, e.2))

/-- Names under which a file can be put into a directory. -/
def fileName (x : Str) : Bool := decide ('/' ∉ x) && decide (x ≠ []) && decide (x ≠ ['.']) && decide (x ≠ ['.', '.'])

/-- distdir_git_map.cpp:41-69 (`LinkToCAS`). -/
def link : List (Str × Str) → Task (List (Str × Node))
  | [] => .ret []
  | (x, h) :: l => do
    let c ← need fun w => w.content E h
    if fileName x = true then do
      let es ← link l
      .ret ((x, .file c false) :: es)
    else .fail

/-- distdir_git_map.cpp:75-139 (`ImportFromCASAndSetRoot`). -/
def importDist (l : List (Str × Str)) : Task Root := do
  let es ← link E l
  let t ← importDir E es
  change (World.writeDist (distKey E l) t)
  .ret (.present t)

/-- Ensure the content of all archives. Simplification: one after the other. -/
def ensureAll : List Archive → Task Unit
  | [] => .ret ()
  | a :: l => do
    ensure E C a
    ensureAll l

/-- distdir_git_map.cpp:206-298: the absent root for a tree known. -/
def absentKnown (l : List (Str × Str)) (t : Str) : Task Root :=
  if C.serve = true then do
    match ← question (.checkRoot t) with
    | .yes => .ret (.absent t)
    | .no =>
      match ← question (.serveDistdir l false) with
      | .text t' => if t = t' then .ret (.absent t) else .fail
      | .no =>
        uploadAbsent t
      | _ => .fail
    | _ => .fail
  else .ret (.absent t)

/-- distdir_git_map.cpp:421-435, 451-461: the serve endpoint takes the tree from the remote. -/
def serveTakes (t : Str) : Task Root := do
  match ← question (.serveGet t) with
  | .yes => .ret (.absent t)
  | _ => .fail

/-- distdir_git_map.cpp:408-469: the tree is handed over to the serve endpoint by the remote, where it might be, or is put to. -/
def viaRemote (t : Str) : Task Root :=
  if C.remote = false then .fail
  else do
    match ← question (.remoteTree t) with
    | .yes => serveTakes t
    | _ =>
      match ← question (.localTree t) with
      | .yes =>
        match ← question (.pushTree t) with
        | .yes => serveTakes t
        | _ => .fail
      | _ => .fail

/-- distdir_git_map.cpp:351-480: the absent root for a tree not known. -/
def absentDist (l : List (Str × Str)) : Task Root :=
  let t := distTree E l
  if C.serve = true then do
    match ← question (.checkRoot t) with
    | .yes => .ret (.absent t)
    | .no =>
      match ← question (.serveDistdir l false) with
      | .text t' => if t = t' then .ret (.absent t) else .fail
      | .no => viaRemote C t
      | _ => .fail
    | _ => .fail
  else .ret (.absent t)

/-- distdir_git_map.cpp:496-529: the serve endpoint is asked to put the tree to the remote. -/
def askDistdir (l : List (Str × Str)) : Task Unit :=
  if C.serve = true ∧ C.remote = true then do
    match ← question (.serveDistdir l true) with
    | .text t' => if distTree E l = t' then .ret () else .fail
    | .no => .ret ()
    | _ => .fail
  else .ret ()

/-- distdir_git_map.cpp:482-562: the root, if it is wanted here. -/
def presentDist (k : Distdir) : Task Root := do
  let l := contentList k.archives
  match ← question (.localTree (distTree E l)) with
  | .yes => importDist E l
  | _ => do
    askDistdir E C l
    ensureAll E C k.archives
    importDist E l

/-- distdir_git_map.cpp:143-566 (`CreateDistdirGitMap`); `absent` is computed in repos_to_setup_map.cpp:556. -/
def distdir (k : Distdir) : Task Root := do
  let l := contentList k.archives
  let absent := k.absent && !C.fetchAbsent
  match ← look fun w => read (distKey E l) w.young.dist with
  | some t => if absent = true then absentKnown C l t else .ret (.present t)
  | none => if absent = true then absentDist E C l else presentDist E C k

/-! ## Commits -/

/-- git_repo.cpp:964-1060 (`GetSubtreeFromCommit`). Simplification: the path is followed in what the commit stands for. -/
def commitTree (user : Bool) (h : Str) (subdir : List Str) : Task Str := do
  let es ← need fun w => if h ∈ (w.repo user).commits then E.commit h else none
  match (Node.tree es).find subdir with
  | some m => .ret (gid E m)
  | none => .fail

/-- A root that is there, in the repository used. -/
def hereRoot (user : Bool) (t : Str) : Root := if user = true then .user t else .present t

/-- commit_git_map.cpp:72-153 (`EnsureRootAsAbsent`). -/
def commitAbsent (k : CommitRepo) (t : Str) : Task Root :=
  if C.serve = true then do
    match ← question (.checkRoot t) with
    | .yes => .ret (.absent t)
    | .no =>
      match ← question (.serveCommit k.hash k.subdir false) with
      | .text t' => if t = t' then .ret (.absent t) else .fail
      | .no => uploadAbsent t
      | _ => .fail
    | _ => .fail
  else .ret (.absent t)

/-- commit_git_map.cpp:158-202 (`WriteIdFileAndSetWSRoot`). -/
def writeCommit (k : CommitRepo) (t : Str) : Task Root := do
  change (World.writeCom k.hash t)
  let s ← subtree E t k.subdir
  .ret (.present s)

/-- commit_git_map.cpp:204-277 (`TagAndSetRoot`). -/
def tagAndSet (k : CommitRepo) : Task Root := do
  tryTo (World.keepCommit E k.checkout k.hash)
  let s ← commitTree E k.checkout k.hash k.subdir
  .ret (hereRoot k.checkout s)

/-- commit_git_map.cpp:283-357 (`TakeCommitFromOlderGeneration`). -/
def takeOlder (k : CommitRepo) (i : Nat) : Task Root := do
  tryTo (World.keepCommitOld E i k.hash)
  tryTo (World.fetchCommitOld E k.checkout i k.hash)
  tagAndSet E k

/-- commit_git_map.cpp:416-442: fetch from the first location that works. -/
def fetchFrom (user : Bool) (branch : Str) : List Str → Task Unit
  | [] => .fail
  | u :: us => do
    match ← question (.fetchRepo u branch) with
    | .texts l => change (World.fetched E user l)
    | _ => fetchFrom user branch us

/-- commit_git_map.cpp:390-411: the locations to try. -/
def commitLocations (k : CommitRepo) : List Str := C.localMirrors k.url ++ C.preferred (k.url :: k.mirrors)

/-- commit_git_map.cpp:482-515: only in the git cache, the commit is tagged. -/
def setFetched (k : CommitRepo) : Task Root :=
  if k.checkout = true then do
    let s ← commitTree E true k.hash k.subdir
    .ret (.user s)
  else tagAndSet E k

/-- commit_git_map.cpp:359-517 (`NetworkFetchAndSetPresentRoot`). -/
def networkFetch (k : CommitRepo) : Task Root :=
  if k.absent = true ∧ C.fetchAbsent = false then .fail
  else do
    fetchFrom E k.checkout k.branch (commitLocations C k)
    match ← look fun w => decide (k.hash ∈ (w.repo k.checkout).commits) with
    | true => setFetched E k
    | false => .fail

/-- commit_git_map.cpp:875-976: the tree is taken from the remote, if it is there. -/
def commitRemote (k : CommitRepo) (t : Str) : Task Root :=
  if C.remote = true then do
    match ← question (.remoteDir t) with
    | .node (.tree es) => do
      let t' ← importDir E es
      if t' = t then writeCommit E k t else .fail
    | .node _ => .fail
    | _ => networkFetch E C k
  else networkFetch E C k

/-- commit_git_map.cpp:806-873: unless the tree is in the user's repository. -/
def commitElsewhere (k : CommitRepo) (t : Str) : Task Root :=
  if k.checkout = true then do
    match ← look fun w => findTree E t w.user.objs with
    | some n =>
      match n.find k.subdir with
      | some m => .ret (.user (gid E m))
      | none => .fail
    | none => commitRemote E C k t
  else commitRemote E C k t

/-- commit_git_map.cpp:721-976: the serve endpoint knows the tree of the commit. -/
def commitServed (k : CommitRepo) (t : Str) : Task Root := do
  match ← look fun w => findTree E t w.young.objs with
  | some _ => writeCommit E k t
  | none => commitElsewhere E C k t

/-- commit_git_map.cpp:664-1051: the commit is not known here. -/
def commitUnknown (k : CommitRepo) : Task Root :=
  if C.serve = true then
    if k.absent = true ∧ C.fetchAbsent = false then do
      match ← question (.serveCommit k.hash k.subdir false) with
      | .text t => .ret (.absent t)
      | .no => networkFetch E C k
      | _ => .fail
    else do
      match ← question (.serveCommit k.hash [] true) with
      | .text t => commitServed E C k t
      | .no => networkFetch E C k
      | _ => .fail
  else networkFetch E C k

/-- commit_git_map.cpp:636-658: the first older generation with this commit. -/
def oldCommit (h : Str) : List Gen → Option Nat
  | [] => none
  | g :: gs => if h ∈ g.commits then some 0 else (oldCommit h gs).map (· + 1)

/-- commit_git_map.cpp:604-628, 1062-1084: set the root, for a commit known. -/
def setKnown (k : CommitRepo) (t : Str) (r : Root) : Task Root :=
  if k.absent = true ∧ C.fetchAbsent = false then commitAbsent C k t else .ret r

/-- commit_git_map.cpp:524-1195 (`EnsureCommit`, `CreateCommitGitMap`). Simplification: the older generations are looked at in one
step. -/
def commit (k : CommitRepo) : Task Root := do
  match ← look fun w => decide (k.hash ∈ (w.repo k.checkout).commits) with
  | true => do
    let t ← commitTree E k.checkout k.hash k.subdir
    setKnown C k t (hereRoot k.checkout t)
  | false =>
    match ← look fun w => read k.hash w.young.com with
    | some t => do
      let s ← subtree E t k.subdir
      setKnown C k s (.present s)
    | none =>
      match ← look fun w => oldCommit k.hash w.old with
      | some i => takeOlder E k i
      | none => commitUnknown E C k

/-! ## Git trees -/

/-- git_tree_fetch_map.cpp:70-140, tree_id_git_map.cpp:57-122 (`MoveCASTreeToGit`, `MoveCASTreeToGitAndProcess`): that the tree imported
is the one wanted is not checked. -/
def moveTree (n : Node) : Task Unit :=
  match n with
  | .tree es => do
    let _ ← importDir E es
    .ret ()
  | _ => .fail

/-- git_tree_fetch_map.cpp:145-281 (`TagAndSetRoot`, `TakeTreeFromOlderGeneration`). -/
def takeTree (t : Str) (i : Nat) : Task Unit := do
  tryTo (World.keepOld E i t)
  tryTo (World.fetchOld E i t)
  tryTo (World.keep E t)
  .ret ()

/-- git_tree_fetch_map.cpp:397-425: the first older generation with this tree. -/
def oldTree (t : Str) : List Gen → Option Nat
  | [] => none
  | g :: gs => if (findTree E t g.objs).isSome = true then some 0 else (oldTree t gs).map (· + 1)

/-- git_tree_fetch_map.cpp:497-763: run the command, and see whether the tree is part of what it leaves. -/
def commandTree (k : TreeRepo) : Task Unit := do
  match ← question (.runCommand k.command) with
  | .node (.tree es) =>
    match findTree E k.hash (below (.tree es)) with
    | some _ => do
      let _ ← importDir E es
      .ret ()
    | none => .fail
  | _ => .fail

/-- git_tree_fetch_map.cpp:474-496: the remote, if it is native. -/
def remoteTree (k : TreeRepo) : Task Unit :=
  if C.compat = false ∧ C.remote = true then do
    match ← question (.nativeDir k.hash) with
    | .node n => moveTree E n
    | _ => commandTree E k
  else commandTree E k

/-- git_tree_fetch_map.cpp:445-473: what the serve endpoint makes available. -/
def serveTree (k : TreeRepo) : Task Unit :=
  if C.serve = true ∧ C.remote = true then do
    match ← question (.serveDir k.hash) with
    | .node n => moveTree E n
    | _ => remoteTree E C k
  else remoteTree E C k

/-- git_tree_fetch_map.cpp:397-763: the tree is not in the git cache. -/
def fetchTree (k : TreeRepo) : Task Unit := do
  match ← look fun w => oldTree E k.hash w.old with
  | some i => takeTree E k.hash i
  | none =>
    match ← question (.localDir k.hash) with
    | .node n => moveTree E n
    | _ => serveTree E C k

/-- git_tree_fetch_map.cpp:285-779 (`CreateGitTreeFetchMap`). What is done to have a copy on the remote (`BackupToRemote`) is left out; it
only reads. Simplification: the older generations are looked at in one step. -/
def ensureTree (k : TreeRepo) : Task Unit := do
  match ← look fun w => findTree E k.hash w.young.objs with
  | some _ => .ret ()
  | none => fetchTree E C k

/-- tree_id_git_map.cpp:221-283: the tree is handed over to the serve endpoint, if it is here. -/
def provideTree (k : TreeRepo) : Task Root := do
  match ← look fun w => findTree E k.hash w.young.objs with
  | some _ => uploadAbsent k.hash
  | none =>
    match ← question (.localDir k.hash) with
    | .node n => do
      moveTree E n
      uploadAbsent k.hash
    | _ => .fail

/-- tree_id_git_map.cpp:151-316: an absent root. -/
def absentTree (k : TreeRepo) : Task Root :=
  if C.serve = true then do
    match ← question (.checkRoot k.hash) with
    | .yes => .ret (.absent k.hash)
    | .no =>
      if C.remote = true then do
        match ← question (.remoteTree k.hash) with
        | .yes => serveTakes k.hash
        | _ => provideTree E k
      else .fail
    | _ => .fail
  else .ret (.absent k.hash)

/-- tree_id_git_map.cpp:126-362 (`CreateTreeIdGitMap`). -/
def gitTree (k : TreeRepo) : Task Root :=
  if k.absent = true ∧ C.fetchAbsent = false then absentTree E C k
  else do
    ensureTree E C k
    .ret (.present k.hash)

/-! ## Directories -/

/-- fpath_git_map.cpp:84-91. -/
def pathRoot (k : PathRepo) (r : Root) : Root := if (k.absent && !C.fetchAbsent) = true then .absent r.tree else r

/-- fpath_git_map.cpp:39-94 (`CheckServeAndSetRoot`). The upload may also fail in a way that does not matter for a root that is there
(serve_api.cpp:93-109). -/
def offer (k : PathRepo) (r : Root) : Task Root :=
  if C.serve = true then do
    match ← question (.checkRoot r.tree) with
    | .yes => .ret (pathRoot C k r)
    | .no =>
      match ← question (.upload r.tree) with
      | .yes => .ret (pathRoot C k r)
      | .no => if (k.absent && !C.fetchAbsent) = true then .fail else .ret r
      | _ => .fail
    | _ => .fail
  else .ret (pathRoot C k r)

/-- fpath_git_map.cpp:94-226 (`ResolveFilePathTree`); `user`: the tree is in the user's repository. -/
def resolvePath (k : PathRepo) (user : Bool) (t : Str) : Task Root :=
  match k.special with
  | none => offer C k (hereRoot user t)
  | some m => do
    match ← look fun w => read (m, t) w.young.special with
    | some t' => offer C k (.present t')
    | none =>
      let n ← need fun w => findTree E t (w.repo user).objs
      match ← question (.resolve m n) with
      | .node n' => do
        change (World.addObjs (below n'))
        tryTo (World.keep E (gid E n'))
        change (World.writeSpecial m t (gid E n'))
        offer C k (.present (gid E n'))
      | _ => .fail

/-- fpath_git_map.cpp:234-477 (`CreateFilePathGitMap`). -/
def path (k : PathRepo) : Task Root := do
  match ← question (.whereIs k.path) with
  | .texts (h :: sub) => do
    let t ← commitTree E true h sub
    resolvePath E C k true t
  | .node (.tree es) => do
    let t ← importDir E es
    resolvePath E C k false t
  | _ => .fail

/-! ## Everything together -/

/-- What is to be set up. -/
inductive Key where
  | archive (k : ArchiveRepo)
  | foreign (k : ForeignFile)
  | distdir (k : Distdir)
  | commit (k : CommitRepo)
  | tree (k : TreeRepo)
  | path (k : PathRepo)

/-- Set it up. -/
def setup : Key → Task Root
  | .archive k => archive E C k
  | .foreign k => foreign E C k
  | .distdir k => distdir E C k
  | .commit k => commit E C k
  | .tree k => gitTree E C k
  | .path k => path E C k

/-- All that is referred to is there. -/
def Closed (l : List Node) : Prop := ∀ n ∈ l, ∀ m ∈ below n, m ∈ l

/-- A git repository as it should be: tagged trees and commits are there with all they refer to. -/
structure RepoOk (r : Repo) : Prop where
  tags : ∀ t ∈ r.tags, ∀ n ∈ below t, n ∈ r.objs
  commits : ∀ h ∈ r.commits, ∃ es, E.commit h = some es ∧ ∀ n ∈ below (.tree es), n ∈ r.objs
  closed : Closed r.objs

/-- What else may happen at any time: contents are stored in the CAS, and objects and commits in the git repositories (also by tasks
stopped before they were done, which may leave only some of the objects; git writes objects together with, or after, those they refer
to). -/
inductive Other : World → World → Prop where
  | store (w : World) (c : Str) : Other w (w.store c)
  | objs (w : World) (l : List Node) (h : Closed l) : Other w (w.addObjs l)
  | commits (w : World) (user : Bool) (l : List Str) : Other w (w.fetched E user l)
  | userObjs (w : World) (l : List Node) (h : Closed l) :
      Other w { w with user := { w.user with objs := l ++ w.user.objs } }

/-- A generation in which nothing is. -/
def Gen.empty : Gen := ⟨[], [], [], [], [], [], []⟩

/-- repository_garbage_collector.cpp:80-125 (`TriggerGarbageCollection`), with a fixed number of generations. -/
def World.rotate (w : World) : World := { w with young := Gen.empty, old := (w.young :: w.old).dropLast }

/-- What may happen with exclusive access: contents are removed from the CAS; the generations of the git cache are rotated, or the
older ones dropped (repository_garbage_collector.cpp:80-125; when interrupted, only some of them have been moved), so that each is
then empty or one of those there were; git removes objects that are not kept by tags (but not those referred to by what is left), and
commits; and the user changes their
repository (they might also do so while tasks are running, in which case those may fail). -/
inductive Alone : World → World → Prop where
  | cas (w : World) (l : List Str) (h : l ⊆ w.cas) : Alone w { w with cas := l }
  | move (w : World) (young : Gen) (old : List Gen) (h : ∀ g ∈ young :: old, g = Gen.empty ∨ g ∈ w.young :: w.old) :
      Alone w { w with young := young, old := old }
  | prune (w : World) (l : List Node) (cs : List Str) (ht : E.tidy = false) (h : l ⊆ w.young.objs) (hl : Closed l)
      (hk : ∀ r ∈ w.young.tags, ∀ n ∈ below r, n ∈ l)
      (hc : ∀ c ∈ cs, c ∈ w.young.commits ∧ ∀ es, E.commit c = some es → ∀ n ∈ below (.tree es), n ∈ l) :
      Alone w { w with young := { w.young with objs := l, commits := cs } }
  | user (w : World) (r : Repo) (h : RepoOk E r) : Alone w { w with user := r }

end Verif.Mr
