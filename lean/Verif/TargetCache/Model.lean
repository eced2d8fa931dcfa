import Verif.Result.Model
import Verif.Async.Map

/-!
# Model of the target cache: keys, entries, and the order in which entries are written

Source: `src/buildtool/storage/target_cache.tpp`, `target_cache_entry.cpp`, `backend_description.cpp`,
`src/buildtool/main/build_utils.cpp`, `src/buildtool/common/remote/remote_common.hpp`.
-/

namespace Verif.TC

open Verif.Art Verif.Dig Verif.Expr Verif.Result

variable {N : Type}

/-! ## Keys -/

/-- What a key of the target cache is computed from (target_cache.tpp:48-51): the hash of the repository key, module
and name of the target, and the configuration, which is a map. -/
structure KeyArgs (N : Type) where
  repoKey : Str
  module : Str
  name : Str
  config : List (Str × Value N)

variable (h : Hashing N)

/-- target_cache.tpp:55-59: the JSON text of a key; configuration.hpp (`ToString`), expression.cpp (`ToString`):
compact JSON text of the configuration in mode `SerializeAll`.  The keys of the object are sorted. -/
def keyText (a : KeyArgs N) : Str :=
  Json.dump h.text (Json.pretty 2) 0 (.obj [
    ("effective_config".toList, .str (h.dump (json h true (.map a.config)))),
    ("repo_key".toList, .str a.repoKey),
    ("target_name".toList, .str (h.dump (.arr [.str a.module, .str a.name])))])

/-- target_cache.tpp:47-70 (`ComputeKey`): the text is stored as blob, the key is the hash of the blob. -/
def computeKey (blob : Str → Str) (a : KeyArgs N) : Str := blob (keyText h a)

/-! ## Description of the backend -/

/-- remote_common.hpp:32-34. -/
structure Address where
  host : Str
  port : Nat
  deriving DecidableEq

/-- remote_common.hpp:36-39 (`ToJson`). -/
def Address.text (a : Address) : Str := a.host ++ ':' :: decimal a.port

/-- A map of strings (remote_common.hpp:43), sorted. -/
abbrev Properties := List (Str × Str)

def propertiesJson (p : Properties) : J N := .obj (p.map fun kv => (kv.1, .str kv.2))

/-- backend_description.cpp:35-73 (`Describe`).  The keys of the object are sorted.  Simplification: all strings are
valid UTF-8. -/
def describe (address : Option Address) (properties : Properties) (dispatch : List (Properties × Address)) : Str :=
  let rest : List (Str × J N) := [("platform_properties".toList, propertiesJson properties),
    ("remote_address".toList, match address with
      | some a => .str a.text
      | none => .null)]
  let list : J N := .arr (dispatch.map fun d => .arr [propertiesJson d.1, .str d.2.text])
  Json.dump h.text (Json.pretty 2) 0 (.obj
    (if dispatch.isEmpty then rest else ("endpoint dispatch list".toList, list) :: rest))

/-! ## Entries -/

/-- The key for the implied export targets. -/
def impliedKey : Str := "implied export targets".toList

/-- target_cache_entry.cpp:33-53 (`FromTarget`), for a target with the given result and the given set (as sorted list) of
implied export targets. -/
def fromTarget (repl : Repl) (r : TargetResult N) (implied : List Str) : Option (J N) :=
  (r.toJson h repl).bind fun j =>
    match j with
    | .obj m => some (.obj (if implied.isEmpty then m
        else OMap.insertList (fun _ n => n) impliedKey (.arr (implied.map .str)) m))
    | j => some j

/-- What iterating over a JSON value gives. -/
def elements : J N → List (J N)
  | .arr l => l
  | .obj m => m.map Prod.snd
  | .null => []
  | j => [j]

/-- `desc_.contains(key)` and `desc_[key]`. -/
def member (j : J N) (key : Str) : Option (J N) :=
  match j with
  | .obj m => assoc key m
  | _ => none

/-- target_cache_entry.cpp:70-72: up to the first exception. -/
def stringsUpTo : List (J N) → List Str
  | .str s :: t => s :: stringsUpTo t
  | _ => []

/-- target_cache_entry.cpp:66-81 (`ToImplied`). -/
def toImplied (j : J N) : List Str :=
  match member j impliedKey with
  | some l => stringsUpTo (elements l)
  | none => []

/-- target_cache_entry.cpp:88-102. -/
def idsOf (t : HashType) (key : Str) : List (J N) → Option (List Str)
  | [] => some []
  | .str s :: l =>
    if s = key then idsOf t key l
    else if (createDigest t s 0 false).isSome then (idsOf t key l).bind fun l => some (s :: l)
    else none
  | _ => none

/-- target_cache_entry.cpp:83-110 (`ToImpliedIds`): the hashes of the identifiers; their size is not compared
(artifact_digest.hpp:51-53). -/
def toImpliedIds (t : HashType) (key : Str) (j : J N) : Option (List Str) :=
  match member j impliedKey with
  | some l => idsOf t key (elements l)
  | none => some []

/-- target_cache_entry.cpp:112-122 (`ToObjectInfo`): for artifacts that are not known, an empty optional value is
accessed. -/
def infoOf (t : HashType) (c : Casts N) (j : J N) : Out ObjectInfo :=
  match Desc.fromJson t c.toNat j with
  | some (.known d ty _) => .ok ⟨d, ty, false⟩
  | _ => .ub

def infosOf (t : HashType) (c : Casts N) : List (J N) → Out (List ObjectInfo)
  | [] => .ok []
  | j :: l => (infoOf t c j).bind fun i => (infosOf t c l).bind fun l => .ok (i :: l)

/-- target_cache_entry.cpp:124-138 (`ScanArtifactMap`). -/
def scanArtifacts (t : HashType) (c : Casts N) (j : J N) : Out (List ObjectInfo) :=
  match j with
  | .obj m => infosOf t c (m.map Prod.snd)
  | _ => .error

/-- target_cache_entry.cpp:153-155: accessing a missing key of a constant JSON object is undefined. -/
def nodesAt (nodes : J N) : List (J N) → Out (List (J N))
  | [] => .ok []
  | j :: l => (str? j).bind fun id =>
      match nodes with
      | .obj m =>
        match assoc id m with
        | some n => (nodesAt nodes l).bind fun l => .ok (n :: l)
        | none => .ub
      | _ => .error

/-- target_cache_entry.cpp:140-158 (`ScanProvidesMap`). -/
def scanProvides (t : HashType) (c : Casts N) (j : J N) : Out (List ObjectInfo) :=
  (at? j "nodes").bind fun nodes => (at? j "provided_artifacts").bind fun a =>
    (nodesAt nodes (elements a)).bind fun l => infosOf t c l

/-- target_cache_entry.cpp:160-176 (`ToArtifacts`); `error`: not successful. -/
def toArtifacts (t : HashType) (c : Casts N) (j : J N) : Out (List ObjectInfo) :=
  (at? j "artifacts").bind fun a => (scanArtifacts t c a).bind fun a =>
    (at? j "runfiles").bind fun r => (scanArtifacts t c r).bind fun r =>
      (at? j "provides").bind fun p => (scanProvides t c p).bind fun p => .ok (a ++ r ++ p)

/-! ## Writing entries -/

/-- What is fixed for writing the entries of a build (build_utils.cpp:79-86): the export targets that were analysed, with
their results and implied export targets, by the hash of their key, and the replacements; also which entries other
processes may write. -/
structure Job (N : Type) where
  type : HashType
  casts : Casts N
  hashing : Hashing N
  repl : Repl
  targets : Str → Option (TargetResult N × List Str)
  foreign : Str → J N → Prop

/-- The entry to be written. -/
def Job.entry (jb : Job N) (k : Str) : Option (J N) :=
  (jb.targets k).bind fun t => fromTarget jb.hashing jb.repl t.1 t.2

/-- The asynchronous map of writers, the local content-addressable storage, the local target cache, the keys for which all
artifacts were downloaded, and the keys for which the entry was stored. -/
structure World (N : Type) where
  map : Async.State Str Unit
  cas : ObjectInfo → Prop
  tc : Str → Option (J N)
  fetched : Str → Prop
  written : Str → Prop

/-- The consumer of the call made for key `k` was started, with entry `e`. -/
def Job.Continues (jb : Job N) (s : World N) (k : Str) (e : J N) : Prop :=
  ∃ (c : Nat) (r : Async.Call Str) (vs : List Unit), Async.Event.consumed c vs ∈ s.map.core.log ∧
    s.map.core.calls[c]? = some r ∧ r.owner = some k ∧ jb.entry k = some e

/-- What is in the target cache for a key is complete: its artifacts are in the content-addressable storage, its implied
export targets are in the target cache. -/
def Complete (t : HashType) (c : Casts N) (cas : ObjectInfo → Prop) (tc : Str → Option (J N)) (k : Str) (e : J N) :
    Prop :=
  ∃ infos, toArtifacts t c e = .ok infos ∧ (∀ i ∈ infos, cas i) ∧ ∀ j ∈ toImplied e, j = k ∨ (tc j).isSome = true

/-- build_utils.cpp:87-153 (`CreateTargetCacheWriterMap`), 156-213 (`WriteTargetCacheEntries`). -/
inductive Step (jb : Job N) : World N → World N → Prop where
  /-- the asynchronous map goes on -/
  | op (s : World N) (core : Async.Core Str Unit) (pre post : List (Async.Item Str Unit)) (x : Async.Item Str Unit) :
      s.map = ⟨core, pre ++ x :: post⟩ →
      Step jb s { s with map := ⟨(Async.exec x core).core, pre ++ (Async.exec x core).items ++ post⟩ }
  /-- the call from outside (build_utils.cpp:186-200) -/
  | request (s : World N) (keys : List Str) (handler : Bool) (m : Async.State Str Unit) :
      m = ⟨{ s.map.core with calls := s.map.core.calls ++ [⟨none, keys, handler⟩] },
        (if keys = [] then .consume s.map.core.calls.length else .ensure s.map.core.calls.length 0) :: s.map.pool⟩ →
      Step jb s { s with map := m }
  /-- not analysed, but in the target cache (build_utils.cpp:97-103) -/
  | found (s : World N) (k : Str) : Async.Event.created k ∈ s.map.core.log → jb.targets k = none →
      (s.tc k).isSome = true →
      Step jb s { s with map := ⟨{ s.map.core with log := .setterCalled k () :: s.map.core.log },
        .set k () :: s.map.pool⟩ }
  /-- asks for the implied export targets (build_utils.cpp:111-123) -/
  | ask (s : World N) (k : Str) (e : J N) (ids : List Str) : Async.Event.created k ∈ s.map.core.log →
      jb.entry k = some e → toImpliedIds jb.type k e = some ids →
      Step jb s { s with map := ⟨{ s.map.core with calls := s.map.core.calls ++ [⟨some k, ids, true⟩] },
        (if ids = [] then .consume s.map.core.calls.length else .ensure s.map.core.calls.length 0) :: s.map.pool⟩ }
  /-- the artifacts were downloaded (build_utils.cpp:126-133, target_cache.tpp:32-34, 181-188) -/
  | download (s : World N) (k : Str) (e : J N) (infos : List ObjectInfo) : jb.Continues s k e →
      toArtifacts jb.type jb.casts e = .ok infos →
      Step jb s { s with cas := fun i => s.cas i ∨ i ∈ infos, fetched := fun j => s.fetched j ∨ j = k }
  /-- the entry is stored (target_cache.tpp:35-43) -/
  | store (s : World N) (k : Str) (e : J N) : jb.Continues s k e → s.fetched k →
      Step jb s { s with tc := fun j => if j = k then some e else s.tc j, written := fun j => s.written j ∨ j = k }
  /-- success (build_utils.cpp:141-142) -/
  | set (s : World N) (k : Str) : Async.Event.created k ∈ s.map.core.log → s.written k →
      Step jb s { s with map := ⟨{ s.map.core with log := .setterCalled k () :: s.map.core.log },
        .set k () :: s.map.pool⟩ }
  /-- anything fails (build_utils.cpp:104-109, 113-120, 134-140, 146-151) -/
  | fatal (s : World N) (k : Str) : Async.Event.created k ∈ s.map.core.log →
      Step jb s { s with map := ⟨{ s.map.core with log := .fatalCalled k :: s.map.core.log },
        .failNode k :: s.map.pool⟩ }
  /-- another process adds to the storage; entries it writes are complete -/
  | other (s : World N) (cas : ObjectInfo → Prop) (tc : Str → Option (J N)) : (∀ i, s.cas i → cas i) →
      (∀ k, (s.tc k).isSome = true → (tc k).isSome = true) →
      (∀ k e, tc k = some e → s.tc k = some e ∨ jb.foreign k e ∧ Complete jb.type jb.casts cas tc k e) →
      Step jb s { s with cas := cas, tc := tc }

/-- The initial state, with any content of the storage. -/
def start (cas : ObjectInfo → Prop) (tc : Str → Option (J N)) : World N :=
  ⟨Async.start, cas, tc, fun _ => False, fun _ => False⟩

inductive Reachable (jb : Job N) (cas : ObjectInfo → Prop) (tc : Str → Option (J N)) : World N → Prop where
  | start : Reachable jb cas tc (start cas tc)
  | step {s s' : World N} : Reachable jb cas tc s → Step jb s s' → Reachable jb cas tc s'

end Verif.TC
