import Verif.Remote.Wire
import Verif.Exec.LocalAction
import Verif.Path.Props

/-!
# Model of the keys of the action cache

Source: `src/buildtool/execution_api/bazel_msg/bazel_msg_factory.cpp`, `local/local_action.hpp`, `local/local_api.cpp`,
`remote/bazel/bazel_action.cpp`, `remote/bazel/bazel_api.cpp`,
`src/buildtool/execution_engine/executor/executor.hpp`; the numbers of the fields are those of the remote execution API
(`build/bazel/remote/execution/v2/remote_execution.proto`, `google/protobuf/duration.proto`).
-/

namespace Verif.RE

open Verif.Dig Verif.Wire Verif.Path

/-! ## Messages -/

/-- `Command.EnvironmentVariable`, `Platform.Property`: name and value. -/
def pairFields (kv : Str × Str) : List Field := strField 1 kv.1 ++ strField 2 kv.2

/-- The same as bytes, for all pairs. -/
def pairs (l : List (Str × Str)) : List Str := l.map fun kv => encode (pairFields kv)

/-- Reads one pair. -/
def readPair (s : Str) : Option (Str × Str) := (decode s).bind fun l => some (strAt 1 l, strAt 2 l)

/-- Reads all pairs. -/
def readPairs : List Str → Option (List (Str × Str))
  | [] => some []
  | s :: t => (readPair s).bind fun kv => (readPairs t).bind fun l => some (kv :: l)

/-- bazel_msg_factory.cpp:55-64 (`CreatePlatform`). -/
def platformFields (p : List (Str × Str)) : List Field := repeated 1 (pairs p)

/-- `Command`. -/
structure Command where
  args : List Str
  env : List (Str × Str)
  files : List Str
  dirs : List Str
  platform : List (Str × Str)
  cwd : Str
  paths : List Str
  deriving DecidableEq

/-- bazel_msg_factory.cpp:182-210; the message for the platform is always there. -/
def Command.fields (c : Command) : List Field :=
  repeated 1 c.args ++ (repeated 2 (pairs c.env) ++ (repeated 3 c.files ++ (repeated 4 c.dirs ++
    ((5, .bytes (encode (platformFields c.platform))) :: (strField 6 c.cwd ++ repeated 7 c.paths)))))

/-- `ParseFromString`, `ParseFromIstream`. -/
def Command.read (s : Str) : Option Command :=
  (decode s).bind fun l => (readPairs (bytesAt 2 l)).bind fun env => (messageAt 5 l).bind fun p =>
    (readPairs (bytesAt 1 p)).bind fun platform =>
      some ⟨bytesAt 1 l, env, bytesAt 3 l, bytesAt 4 l, platform, strAt 6 l, bytesAt 7 l⟩

/-- `Digest`. -/
def digestFields (w : Dig.Wire) : List Field := strField 1 w.hash ++ intField 2 w.size

/-- Reads a digest. -/
def readDigest (l : List Field) : Dig.Wire := ⟨strAt 1 l, intAt 2 l⟩

/-- `Action`, with its `Duration`. -/
structure ActionMsg where
  command : Dig.Wire
  root : Dig.Wire
  seconds : Int
  nanos : Int
  doNotCache : Bool
  platform : List (Str × Str)
  deriving DecidableEq

/-- `google.protobuf.Duration`. -/
def durationFields (seconds nanos : Int) : List Field := intField 1 seconds ++ intField 2 nanos

/-- bazel_msg_factory.cpp:238-252. -/
def ActionMsg.fields (a : ActionMsg) : List Field :=
  (1, .bytes (encode (digestFields a.command))) :: (2, .bytes (encode (digestFields a.root))) ::
    (6, .bytes (encode (durationFields a.seconds a.nanos))) ::
    (boolField 7 a.doNotCache ++ [(10, .bytes (encode (platformFields a.platform)))])

/-- `ParseFromIstream`. -/
def ActionMsg.read (s : Str) : Option ActionMsg :=
  (decode s).bind fun l => (messageAt 1 l).bind fun c => (messageAt 2 l).bind fun r => (messageAt 6 l).bind fun d =>
    (messageAt 10 l).bind fun p => (readPairs (bytesAt 1 p)).bind fun platform =>
      some ⟨readDigest c, readDigest r, intAt 1 d, intAt 2 d, boolAt 7 l, platform⟩

/-! ## Digests of actions -/

/-- bazel_msg_factory.hpp (`ActionDigestRequest`), without the hash function. The timeout is in milliseconds. -/
structure Request where
  args : List Str
  cwd : Str
  files : List Str
  dirs : List Str
  paths : List Str
  env : OMap Str Str
  props : OMap Str Str
  root : Digest
  timeout : Int
  skipCache : Bool

/-- bazel_msg_factory.cpp:178-210 (`CreateCommandBundle`); bazel_msg_factory.hpp:175-190
(`CreateMessageVectorFromMap`). -/
def Request.command (r : Request) : Command :=
  ⟨r.args, r.env.items, r.files, r.dirs, r.props.items, r.cwd, r.paths⟩

/-- The content of the blob for the command. -/
def Request.commandText (r : Request) : Str := encode r.command.fields

/-- `ArtifactBlob::FromMemory` for a file: `blob` is the hash of the content as hexadecimal string. -/
def blobDigest (t : HashType) (blob : Str → Str) (content : Str) : Digest := ⟨blob content, t, false, content.length⟩

/-- bazel_msg_factory.cpp:224-252 (`CreateActionBundle`): `duration_cast` rounds towards zero. -/
def Request.action (t : HashType) (blob : Str → Str) (r : Request) : Option ActionMsg :=
  (toBazel (blobDigest t blob r.commandText)).bind fun c => (toBazel r.root).bind fun root =>
    some ⟨c, root, Int.tdiv r.timeout 1000, (r.timeout - Int.tdiv r.timeout 1000 * 1000) * 1000000, r.skipCache,
      r.props.items⟩

/-- The content of the blob for the action. -/
def Request.actionText (t : HashType) (blob : Str → Str) (r : Request) : Option Str :=
  (r.action t blob).bind fun a => some (encode a.fields)

/-- bazel_msg_factory.cpp:916-934 (`CreateActionDigestFromCommandLine`). -/
def Request.digest (t : HashType) (blob : Str → Str) (r : Request) : Option Digest :=
  (r.actionText t blob).bind fun s => some (blobDigest t blob s)

/-! ## Actions of the execution API -/

/-- `std::sort` on strings. -/
def insertSorted (s : Str) : List Str → List Str
  | [] => [s]
  | x :: t => if s ≤ x then s :: x :: t else x :: insertSorted s t

def sortStrs : List Str → List Str
  | [] => []
  | x :: t => insertSorted x (sortStrs t)

/-- execution_api.hpp (`CreateAction`): what an action is created from. -/
structure Spec where
  root : Digest
  args : List Str
  cwd : Str
  files : List Str
  dirs : List Str
  env : OMap Str Str
  props : OMap Str Str

/-- local_api.cpp:62-85: whether files and directories are additionally given as `output_paths`. -/
def localBest (t : HashType) (forceLegacy : Bool) : Bool := !(t.native || forceLegacy)

/-- bazel_api.cpp:154-179; `low` and `high`: whether the lowest and highest version supported by the server is at least
2.1. -/
def remoteBest (t : HashType) (forceLegacy low high : Bool) : Bool :=
  (!(t.native || forceLegacy) && high) || low

/-- local_action.hpp:96-127, bazel_action.cpp:31-59 (constructors), local_action.hpp:150-169, bazel_action.cpp:150-182
(`CreateActionDigest`, `CreateBundlesForAction`). -/
def Spec.request (best : Bool) (timeout : Int) (skip : Bool) (s : Spec) : Request :=
  ⟨s.args, s.cwd, sortStrs s.files, sortStrs s.dirs,
    if best then sortStrs (sortStrs s.files ++ sortStrs s.dirs) else [], s.env, s.props, s.root, timeout, skip⟩

/-- local_action.hpp:86-95: what an action consists of besides its outputs. -/
structure Core where
  root : Digest
  args : List Str
  cwd : Str
  env : OMap Str Str
  props : OMap Str Str
  timeout : Int

/-- local_action.hpp:150-169 (`CreateActionDigest`) for the actions of C21. -/
def requestOf (a : Exec.Action Core) (skip : Bool) : Request :=
  ⟨a.core.args, a.core.cwd, a.files, a.dirs, a.paths, a.core.env, a.core.props, a.core.root, a.core.timeout, skip⟩

/-! ## Executor -/

/-- executor.hpp:890-898 (`MergeProperties`). -/
def mergeProps (base overlay : OMap Str Str) : OMap Str Str :=
  overlay.items.foldl (fun m kv => m.assign kv.1 kv.2) base

/-- executor.hpp:916-924: whether an entry of the dispatch list matches. -/
def matchesAll (pred : List (Str × Str)) (props : OMap Str Str) : Bool :=
  pred.all fun kv => props.find kv.1 == some kv.2

/-- executor.hpp:904-936 (`GetAlternativeEndpoint`): the endpoint, if any, in place of the regular one. -/
def alternative {E : Type} (props : OMap Str Str) : List (List (Str × Str) × E) → Option E
  | [] => none
  | (pred, e) :: t => if matchesAll pred props then some e else alternative props t

/-- dag.hpp (`ActionNode`), action.hpp: what the executor takes from an action. -/
structure Node where
  args : List Str
  cwd : Str
  files : List Str
  dirs : List Str
  env : OMap Str Str
  props : OMap Str Str

/-- executor.hpp:225-237, with 966-977: what is handed over to the execution API, for the given platform properties and
root directory. -/
def Node.spec (platform : OMap Str Str) (root : Digest) (n : Node) : Spec :=
  ⟨root, n.args, n.cwd, n.files.map (rebase n.cwd), n.dirs.map (rebase n.cwd), n.env, mergeProps platform n.props⟩

end Verif.RE
