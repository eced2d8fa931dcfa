import Verif.Remote.Rehash

/-!
# Model of responses to executions: local, by the execution service, and as seen by the client of the service

Source: `src/buildtool/execution_api/local/local_response.hpp`, `local/local_cas_reader.cpp`,
`src/buildtool/execution_api/execution_service/execution_server.cpp`,
`src/buildtool/execution_api/remote/bazel/bazel_response.cpp`, `remote/bazel/bazel_network_reader.cpp`.

Exit codes, standard output and error are left out. Loops and recursion following digests get a bound on the number of
steps; a run that exceeds it gives `none`, so theorems are about runs that end.
-/

namespace Verif.Response

open Verif.Dig Verif.RE Verif.Wire
open Verif.Rehash (digestOf)

/-- The hash function of the storage: its type, and the hash of a content as hexadecimal string. -/
structure Hash where
  type : HashType
  sha : Str → Str

/-- Contents by hash: `BlobPath`, `TreePath` followed by `ReadFile`; in compatible mode, there is only one CAS. -/
abbrev Cas := Str → Option Str

/-- `StoreBlob`: what is there already is kept. -/
def put (sha : Str → Str) (cas : Cas) (c : Str) : Cas := fun h => if h = sha c then some ((cas h).getD c) else cas h

/-- `OutputFile`. -/
structure OutFile where
  path : Str
  digest : Dig.Wire
  exec : Bool
  deriving DecidableEq

/-- `ActionResult`: files, symbolic links (of version 2.1, and of earlier ones), and directories. -/
structure Result where
  files : List OutFile
  links : List (Str × Str)
  fileLinks : List (Str × Str)
  dirLinks : List (Str × Str)
  dirs : List (Str × Dig.Wire)
  deriving DecidableEq

/-- All symbolic links, in the order in which they are looked at. -/
def Result.allLinks (r : Result) : List (Str × Str) := r.links ++ (r.fileLinks ++ r.dirLinks)

/-- execution_response.hpp (`ArtifactInfos`). -/
abbrev Infos := List (Str × ObjectInfo)

/-- `std::unordered_map::emplace`: the first one counts. -/
def emplace (m : Infos) (x : Str × ObjectInfo) : Infos := if (assoc x.1 m).isSome then m else m ++ [x]

def emplaceAll (l : Infos) : Infos := l.foldl emplace []

/-- local_response.hpp:178-201, bazel_response.cpp:134-158: files. -/
def fileInfos (t : HashType) : List OutFile → Option Infos
  | [] => some []
  | f :: r => (fromBazel t f.digest).bind fun d => (fileInfos t r).bind fun l =>
      some ((f.path, ⟨d, if f.exec then .executable else .file, false⟩) :: l)

/-- local_response.hpp:203-276, bazel_response.cpp:164-211: symbolic links. -/
def linkInfos (h : Hash) (l : List (Str × Str)) : Infos :=
  l.map fun x => (x.1, ⟨blobDigest h.type h.sha x.2, .symlink, false⟩)

/-- Whether `PathIsNonUpwards` fails; see C40 for the empty path. -/
def upwards (t : Str) : Bool := Path.nonUpwards t != .val true

/-- Whether there is such a link in a directory. -/
def upwardsIn (m : Directory) : Bool := m.links.any fun l => upwards l.target

/-! ## Local responses -/

/-- local_cas_reader.cpp:196-213: subdirectories. -/
def allValid (f : Str → Option Bool) : List DirNode → Option Bool
  | [] => some true
  | d :: r => (fromBazel .plainSHA256 d.digest).bind fun i => (f i.hash).bind fun b =>
      if b then allValid f r else some false

/-- local_cas_reader.cpp:181-225 (`IsDirectoryValid`). A message that cannot be parsed is undefined behaviour
(lines 187-191) and `none` here. -/
def dirValid (cas : Cas) : Nat → Str → Option Bool
  | 0, _ => none
  | n + 1, h => (cas h).bind fun s => (Directory.read s).bind fun m =>
      if upwardsIn m then some false else allValid (dirValid cas n) m.dirs

/-- local_response.hpp:278-314: directories. -/
def dirInfos (h : Hash) (cas : Cas) (n : Nat) : List (Str × Dig.Wire) → Bool → Option (Infos × Bool)
  | [], up => some ([], up)
  | (p, w) :: r, up => (fromBazel h.type w).bind fun d =>
      (if up || h.type.native then some up else (dirValid cas n d.hash).bind fun v => some (!v)).bind fun up' =>
        (dirInfos h cas n r up').bind fun q => some ((p, ⟨d, .tree, false⟩) :: q.1, q.2)

/-- What a local response tells. -/
structure Seen where
  infos : Infos
  dirLinks : List Str
  up : Bool

/-- local_response.hpp:167-323 (`Populate`). -/
def localSeen (h : Hash) (cas : Cas) (n : Nat) (r : Result) : Option Seen :=
  (fileInfos h.type r.files).bind fun fs =>
    (dirInfos h cas n r.dirs (!h.type.native && r.allLinks.any fun x => upwards x.2)).bind fun ds =>
      some ⟨emplaceAll (fs ++ (linkInfos h r.allLinks ++ ds.1)), r.dirLinks.map Prod.fst, ds.2⟩

/-! ## The service -/

/-- `Tree`. -/
structure TreeMsg where
  root : Directory
  children : List Directory
  deriving DecidableEq

/-- `SerializeAsString`: root and children are fields 1 and 2. -/
def TreeMsg.text (t : TreeMsg) : Str := encode ((1, .bytes t.root.text) :: repeated 2 (t.children.map Directory.text))

/-- `MessageFromString<bazel_re::Tree>`. -/
def TreeMsg.read (s : Str) : Option TreeMsg :=
  (decode s).bind fun l => (Directory.read (strAt 1 l)).bind fun root =>
    (readAll Directory.read (bytesAt 2 l)).bind fun children => some ⟨root, children⟩

/-- local_cas_reader.cpp:82-89: the digests of subdirectories, by their hashes. -/
def hashes : List DirNode → Option (List Str)
  | [] => some []
  | d :: r => (fromBazel .plainSHA256 d.digest).bind fun i => (hashes r).bind fun l => some (i.hash :: l)

/-- local_cas_reader.cpp:69-92: the loop, with the stack and the directories read so far. -/
def walk (cas : Cas) : Nat → List Str → List (Str × Directory) → Option (List (Str × Directory))
  | _, [], seen => some seen
  | 0, _ :: _, _ => none
  | n + 1, h :: stack, seen =>
    if (assoc h seen).isSome then walk cas n stack seen
    else (cas h).bind fun s => (Directory.read s).bind fun m => (hashes m.dirs).bind fun hs =>
      walk cas n (hs.reverse ++ stack) ((h, m) :: seen)

/-- local_cas_reader.cpp:62-98 (`MakeTree`), 228-252 (`AssembleTree`). -/
def makeTree (cas : Cas) (n : Nat) (root : Str) : Option TreeMsg :=
  (walk cas n [root] []).bind fun seen => (assoc root seen).bind fun m =>
    some ⟨m, (sortBy Prod.fst (seen.filter fun x => x.1 != root)).map Prod.snd⟩

/-- execution_server.cpp:361-395 (`ToBazelOutputDirectory`). -/
def outDir (h : Hash) (n : Nat) (d : Digest) (cas : Cas) : Option (Dig.Wire × Cas) :=
  if h.type.native then (toBazel d).bind fun w => some (w, cas)
  else (makeTree cas n d.hash).bind fun t => (toBazel (blobDigest h.type h.sha t.text)).bind fun w =>
    some (w, put h.sha cas t.text)

def Result.addFile (f : OutFile) (r : Result) : Result := { r with files := f :: r.files }

def Result.addDir (d : Str × Dig.Wire) (r : Result) : Result := { r with dirs := d :: r.dirs }

/-- execution_server.cpp:487-505. -/
def Result.addLink (legacy : Bool) (dirLinks : Option (List Str)) (x : Str × Str) (r : Result) : Result :=
  { r with
    links := if legacy then r.links else x :: r.links
    dirLinks := match dirLinks with
      | some l => if x.1 ∈ l then x :: r.dirLinks else r.dirLinks
      | none => r.dirLinks
    fileLinks := match dirLinks with
      | some l => if x.1 ∈ l then r.fileLinks else x :: r.fileLinks
      | none => r.fileLinks }

/-- execution_server.cpp:431-495 (`ToBazelActionResult`): the loop over all artifacts. -/
def convert (h : Hash) (n : Nat) (legacy : Bool) (dirLinks : Option (List Str)) : Infos → Cas → Option (Result × Cas)
  | [], cas => some (⟨[], [], [], [], []⟩, cas)
  | (p, i) :: l, cas =>
    match i.type with
    | .tree => (outDir h n i.digest cas).bind fun o => (convert h n legacy dirLinks l o.2).bind fun r =>
        some (r.1.addDir (p, o.1), r.2)
    | .symlink => (cas i.digest.hash).bind fun t => (convert h n legacy dirLinks l cas).bind fun r =>
        some (r.1.addLink legacy dirLinks (p, t), r.2)
    | ty => (toBazel i.digest).bind fun w => (convert h n legacy dirLinks l cas).bind fun r =>
        some (r.1.addFile ⟨p, w, ty == .executable⟩, r.2)

/-- local_response.hpp:121-139 (`DirectorySymlinks`): whether it is known which links were to be directories. -/
def Result.knownLinks (r : Result) : Bool := r.links.isEmpty || !(r.fileLinks.isEmpty && r.dirLinks.isEmpty)

/-- execution_server.cpp:140-166 (`ToBazelExecuteResponse`). `visit` is the order in which the artifacts, kept in an
unordered map, are visited. -/
def serve (h : Hash) (visit : Infos → Infos) (n : Nat) (legacy : Bool) (cas : Cas) (r : Result) : Option (Result × Cas) :=
  (localSeen h cas n r).bind fun s =>
    if legacy && !r.knownLinks then none
    else convert h n legacy (if r.knownLinks then some s.dirLinks else none) (visit s.infos) cas

/-! ## The client -/

/-- What a client gets: artifacts, the flag for links, and what was uploaded. -/
structure Got where
  infos : Infos
  up : Bool
  uploaded : List Str

/-- bazel_response.cpp:56-85 (`ProcessDirectoryMessage`): what is to be uploaded. -/
def directoryBlobs (m : Directory) : List Str := m.text :: m.links.map LinkNode.target

/-- bazel_response.cpp:311-381 (`UploadTreeMessageDirectories`). -/
def treeBlobs (t : TreeMsg) : List Str := directoryBlobs t.root ++ t.children.flatMap directoryBlobs

/-- All digests of directories. -/
def treeDigests (t : HashType) : List (Str × Dig.Wire) → Option (List Digest)
  | [] => some []
  | (_, w) :: r => (fromBazel t w).bind fun d => (treeDigests t r).bind fun l => some (d :: l)

/-- bazel_network_reader.cpp:210-230 (`ReadOrdered`): what is not there is left out. -/
def readOrdered (cas : Cas) (l : List Digest) : List Str := l.filterMap fun d => cas d.hash

/-- bazel_response.cpp:261-305: the blobs are matched with the paths by position. -/
def clientDirs (h : Hash) : List (Str × Str) → Option Got
  | [] => some ⟨[], false, []⟩
  | (p, s) :: r => (TreeMsg.read s).bind fun t => (clientDirs h r).bind fun g =>
      some ⟨(p, ⟨blobDigest h.type h.sha t.root.text, .tree, false⟩) :: g.infos,
        upwardsIn t.root || t.children.any upwardsIn || g.up, treeBlobs t ++ g.uploaded⟩

/-- bazel_response.cpp:213-236: directories in native mode. -/
def nativeDirs (t : HashType) : List (Str × Dig.Wire) → Option Infos
  | [] => some []
  | (p, w) :: r => (fromBazel t w).bind fun d => (nativeDirs t r).bind fun l => some ((p, ⟨d, .tree, false⟩) :: l)

/-- bazel_response.cpp:123-309 (`Populate`). -/
def clientSeen (h : Hash) (cas : Cas) (r : Result) : Option Got :=
  (fileInfos h.type r.files).bind fun fs =>
    if h.type.native then (nativeDirs h.type r.dirs).bind fun ds =>
      some ⟨emplaceAll (fs ++ (linkInfos h r.allLinks ++ ds)), false, []⟩
    else (treeDigests h.type r.dirs).bind fun ts =>
      (clientDirs h ((r.dirs.map Prod.fst).zip (readOrdered cas ts))).bind fun g =>
        some ⟨emplaceAll (fs ++ (linkInfos h r.allLinks ++ g.infos)),
          (r.allLinks.any fun x => upwards x.2) || g.up, r.allLinks.map Prod.snd ++ g.uploaded⟩

/-! ## Requests -/

/-- execution_action.hpp:39 (`kDefaultTimeout`). -/
def defaultTimeout : Int := 1000

/-- `std::map` filled by `insert_or_assign`. -/
def envMap (l : List (Str × Str)) : OMap Str Str := l.foldl (fun m kv => m.assign kv.1 kv.2) OMap.empty

/-- execution_server.cpp:86-138 (`ToIExecutionAction`), 250 (`legacy_client`), with local_api.cpp:62-104 and
local_action.hpp:96-148: the action that is executed, as request of the execution API. -/
def executed (t : HashType) (a : ActionMsg) (c : Command) : Option Request :=
  (fromBazel t a.root).bind fun root =>
    some (if c.paths = [] then
      ⟨c.args, c.cwd, sortStrs c.files, sortStrs c.dirs, [], envMap c.env, OMap.empty, root, defaultTimeout, a.doNotCache⟩
    else
      ⟨c.args, c.cwd, [], [], sortStrs c.paths, envMap c.env, OMap.empty, root, defaultTimeout, a.doNotCache⟩)

/-- execution_server.cpp:497-553 (`ToBazelAction`, `ToBazelCommand`): reading action and command from the CAS. In native
mode, trees are in a CAS of their own. -/
def received (t : HashType) (cas trees : Cas) (action : Digest) : Option Request :=
  (cas action.hash).bind fun s => (ActionMsg.read s).bind fun a => (fromBazel t a.root).bind fun root =>
    ((if t.native then trees else cas) root.hash).bind fun _ => (fromBazel t a.command).bind fun cd =>
      (cas cd.hash).bind fun s => (Command.read s).bind fun c => executed t a c

/-! ## The action cache -/

/-- An execution by the service, for a key that is the same for client and service (or for a local build sharing the
storage): execution_server.cpp:216-333 with local_action.cpp:134-147. `run` is what execution gives, if needed. The
first component is the result sent to the client, and then stored. -/
def execute (h : Hash) (visit : Infos → Infos) (n : Nat) (legacy : Bool) (cas : Cas) (cached : Option Result)
    (run : Result) : Option (Result × Cas) := serve h visit n legacy cas (cached.getD run)

end Verif.Response
