import Verif.Util.OMap

/-!
# Model of the generational local storage

Programs of the storage code are written as explicit sequences of file-system accesses
(`Prog`), so that lookups of several threads and processes can be interleaved at every access and
a process may be killed between any two of them.

Modelled: `ObjectCAS`, `FileStorage`, `LocalCAS`, `LargeObjectCAS`, `LocalAC`, `TargetCache`,
`GlobalUplinker` for the native protocol (git hashes).  Simplifications, valid for the whole file:

* A path returned by the code is represented by the location itself; the content is read when the
  code reads it.  A hard link (or copy and atomic rename) of an existing file is the creation of a
  file with the content read before: files of the CAS are written once and never changed.
* The two steps "test for existence" and "link or rename without clobbering" of
  `FileStorage` are one atomic step; it is the link/rename that decides.
* The sharding of the target cache by back-end description is left out (a single shard).
* The compatible protocol (where the tree CAS is the file CAS) is not modelled.
* Digests are the hash only; the size that is carried along is left out.
-/

namespace Verif.Storage

/-- Contents of files. -/
abbrev Bytes := List UInt8

/-- Hashes in hexadecimal, used as file names. -/
abbrev Id := Str

/-- storage/config.hpp:132-137 (`cas_f`, `cas_x`, `cas_t`). -/
inductive Cas where
  | file
  | exec
  | tree
  deriving DecidableEq

/-- Paths below the directory of one generation: storage/config.hpp:129-143.  `large false` is
`cas_large_f`, `large true` is `cas_large_t`. -/
inductive Path where
  | cas (c : Cas) (d : Id)
  | large (isTree : Bool) (d : Id)
  | ac (d : Id)
  | tc (d : Id)
  deriving DecidableEq

/-- A file in the storage: generation and path in there (0 is the youngest generation). -/
structure Loc where
  gen : Nat
  path : Path
  deriving DecidableEq

/-- Content of the storage on disk. -/
abbrev World := Nat → Path → Option Bytes

/-- Content at a location. -/
def World.at (σ : World) (l : Loc) : Option Bytes := σ l.gen l.path

/-- The storage after (over)writing the file at a location. -/
def World.set (σ : World) (l : Loc) (v : Option Bytes) : World :=
  fun g p => if g = l.gen ∧ p = l.path then v else σ g p

/-- The storage code as a tree of atomic file-system accesses.  `halt` is a computation that never
returns (used when the fuel of a recursion is exhausted). -/
inductive Prog (A : Type) : Type where
  | ret (a : A)
  | halt
  /-- Read a file (or test for its existence). -/
  | read (l : Loc) (k : Option Bytes → Prog A)
  /-- `FileStorage` in mode `FirstWins`: file_storage.hpp:103-163.  Answers whether the file
  exists afterwards. -/
  | create (l : Loc) (b : Bytes) (k : Bool → Prog A)
  /-- `FileStorage` in mode `LastWins`: file_storage.hpp:103-163. -/
  | replace (l : Loc) (b : Bytes) (k : Bool → Prog A)
  /-- `FileSystemManager::RemoveFile`. -/
  | remove (l : Loc) (k : Bool → Prog A)

namespace Prog

/-- Sequencing. -/
def bind {A B : Type} : Prog A → (A → Prog B) → Prog B
  | .ret a, f => f a
  | .halt, _ => .halt
  | .read l k, f => .read l (fun v => (k v).bind f)
  | .create l b k, f => .create l b (fun v => (k v).bind f)
  | .replace l b k, f => .replace l b (fun v => (k v).bind f)
  | .remove l k, f => .remove l (fun v => (k v).bind f)

instance : Monad Prog where
  pure := .ret
  bind := bind

/-- Read a file. -/
def readL (l : Loc) : Prog (Option Bytes) := .read l .ret

/-- Create a file unless it exists. -/
def createL (l : Loc) (b : Bytes) : Prog Bool := .create l b .ret

/-- Write a file, replacing an existing one. -/
def replaceL (l : Loc) (b : Bytes) : Prog Bool := .replace l b .ret

/-- Remove a file. -/
def removeL (l : Loc) : Prog Bool := .remove l .ret

/-- A loop that returns `false` from the enclosing function as soon as one call fails. -/
def forAll {T : Type} (f : T → Prog Bool) : List T → Prog Bool
  | [] => pure true
  | a :: as => do
    let r ← f a
    if r then forAll f as else pure false

/-- `std::any_of` with a callback accessing the file system. -/
def anyOf {T : Type} (f : T → Prog Bool) : List T → Prog Bool
  | [] => pure false
  | a :: as => do
    let r ← f a
    if r then pure true else anyOf f as

end Prog

open Prog

/-- Entries of trees and artifacts: object_type.hpp (files and symlinks are both stored as
non-executable blobs). -/
inductive Kind where
  | blob (isExec : Bool)
  | tree
  deriving DecidableEq

/-- The parts of `bazel_re::ActionResult` the storage looks at.  `links` are the targets of
`output_file_symlinks` followed by `output_directory_symlinks`; `symlinks` are the targets of
`output_symlinks`, which the storage ignores (local_ac.tpp:80-119) although actions with `output_paths` put all
their symlinks there, and only there (local_action.cpp:578-586). -/
structure Result where
  files : List (Id × Bool)
  links : List Bytes
  dirs : List Id
  symlinks : List Bytes
  deriving DecidableEq

/-- The parts of `TargetCacheEntry` the storage looks at (target_cache_entry.cpp:66-80, 160-176);
`artifacts` is `none` if `ToArtifacts` fails. -/
structure Entry where
  implied : List Id
  artifacts : Option (List (Id × Kind))
  deriving DecidableEq

/-- Hash functions, parsers and serialisers the storage code calls.  All of them are arbitrary
functions here; what is assumed about them is stated where it is used. -/
structure Env where
  /-- Number of generations: storage/config.hpp (`num_generations`). -/
  numGen : Nat
  hashBlob : Bytes → Id
  hashTree : Bytes → Id
  /-- `GitRepo::ReadTreeData`: the entries of a git tree. -/
  parseTree : Bytes → Option (List (Id × Kind))
  /-- Large-object entries: large_object_cas.tpp:72-94. -/
  parseParts : Bytes → Option (List Id)
  /-- Large-object entries: large_object_cas.tpp:113-123. -/
  dumpParts : List Id → Bytes
  /-- Action-cache key files: local_ac.tpp:160-169. -/
  parseKey : Bytes → Option Id
  /-- Action-cache key files: local_ac.tpp:139-140. -/
  dumpKey : Id → Bytes
  /-- Target-cache key files: `Artifact::ObjectInfo::FromString`. -/
  parseInfo : Bytes → Option Id
  /-- Target-cache key files: `Artifact::ObjectInfo::ToString`. -/
  dumpInfo : Id → Bytes
  parseResult : Bytes → Option Result
  dumpResult : Result → Bytes
  parseEntry : Bytes → Option Entry
  dumpEntry : Entry → Bytes
  /-- The chunks delivered by `FileChunker` for a file. -/
  chunks : Bytes → List Bytes
  /-- compactifier.cpp:163-170, 190-193: names of the right length consisting of hexadecimal
  digits. -/
  validName : Id → Bool

variable (E : Env)

/-- `ArtifactDigestFactory::HashDataAs<kType>` for the three physical CASes. -/
def Env.hash : Cas → Bytes → Id
  | .tree => E.hashTree
  | _ => E.hashBlob

/-- Hash of an object that may be large: of a tree or of a blob. -/
def Env.hashL : Bool → Bytes → Id
  | true => E.hashTree
  | false => E.hashBlob

/-- The CAS selected by the x-bit: local_cas.hpp:155-156. -/
def casOf (isExec : Bool) : Cas := if isExec then .exec else .file

/-! ## One generation -/

/-- object_cas.hpp:164-178 (`StoreBlob`) for a local generation (122-125, `kDefaultExists`). -/
def storeObj (g : Nat) (c : Cas) (b : Bytes) : Prog (Option Id) := do
  let d := E.hash c b
  let v ← readL ⟨g, .cas c d⟩
  if v.isSome then pure (some d)
  else do
    let ok ← createL ⟨g, .cas c d⟩ b
    if ok then pure (some d) else pure none

/-- local_cas.hpp:152-157 for a local generation; answers the content of the blob. -/
def blobNoSync (g : Nat) (d : Id) (isExec : Bool) : Prog (Option Bytes) :=
  readL ⟨g, .cas (casOf isExec) d⟩

/-- local_cas.hpp:320-328 (`TrySyncBlob`) for a local generation. -/
def trySync (g : Nat) (d : Id) (toExec : Bool) : Prog (Option Bytes) := do
  let src ← blobNoSync g d (!toExec)
  match src with
  | none => pure none
  | some b => do
    let r ← storeObj E g (casOf toExec) b
    if r.isSome then blobNoSync g d toExec else pure none

/-- local_cas.hpp:140-145 (`BlobPath`) for a local generation. -/
def blobPath (g : Nat) (d : Id) (isExec : Bool) : Prog (Option Bytes) := do
  let p ← blobNoSync g d isExec
  match p with
  | some b => pure (some b)
  | none => trySync E g d isExec

/-- large_object_cas.tpp:64-95 (`ReadEntry`) for a local generation. -/
def readEntry (g : Nat) (t : Bool) (d : Id) : Prog (Option (List Id)) := do
  let v ← readL ⟨g, .large t d⟩
  match v with
  | none => pure none
  | some e => pure (E.parseParts e)

/-- large_object_cas.tpp:197-246 (`Splice`): the content of the temporary file. -/
def spliceParts (g : Nat) : List Id → Prog (Option Bytes)
  | [] => pure (some [])
  | p :: ps => do
    let c ← blobPath E g p false
    match c with
    | none => pure none
    | some b => do
      let r ← spliceParts g ps
      match r with
      | none => pure none
      | some bs => pure (some (b ++ bs))

/-- large_object_cas.tpp:184-195 (`TrySplice`), local_cas.tpp:279-284. -/
def trySplice (g : Nat) (t : Bool) (d : Id) : Prog (Option Bytes) := do
  let e ← readEntry E g t d
  match e with
  | none => pure none
  | some ps => spliceParts E g ps

/-- large_object_cas.tpp:251-283 (`LocalUplink`); the youngest generation is 0, and `up` is
`LocalUplinkBlob` for one part. -/
def uplinkLargeWith (up : Id → Prog Bool) (g : Nat) (t : Bool) (d : Id) : Prog Bool := do
  let e0 ← readL ⟨0, .large t d⟩
  if e0.isSome then pure true
  else do
    let ps? ← readEntry E g t d
    match ps? with
    | none => pure true
    | some ps => do
      let ok ← forAll up ps
      if ok then do
        let e ← readL ⟨g, .large t d⟩
        match e with
        | none => pure false
        | some c => createL ⟨0, .large t d⟩ c
      else pure false

/-- local_cas.tpp:53-80: what `LocalUplinkBlob` does with the content found.  `spliced` tells
whether the content was spliced from a large entry, `large` is the call of
`LocalUplinkLargeObject`. -/
def uplinkFound (large : Prog Bool) (isExec spliceResult spliced : Bool) (b : Bytes) :
    Prog Bool := do
  if spliced then do
    let _ ← large
    if spliceResult then do
      let r ← storeObj E 0 (casOf isExec) b
      pure r.isSome
    else pure true
  else do
    let r ← storeObj E 0 (casOf isExec) b
    pure r.isSome

/-- local_cas.tpp:46-47: look for the blob in the given generation. -/
def findBlob (g : Nat) (d : Id) (isExec skipSync : Bool) : Prog (Option Bytes) :=
  if skipSync then blobNoSync g d isExec else blobPath E g d isExec

/-- local_cas.tpp:33-80 (`LocalUplinkBlob`).  The recursion through large entries is bounded by
fuel. -/
def uplinkBlob : (fuel g : Nat) → (d : Id) → (isExec skipSync spliceResult : Bool) → Prog Bool
  | 0, _, _, _, _, _ => .halt
  | fuel + 1, g, d, isExec, skipSync, spliceResult => do
    let latest ← blobNoSync 0 d isExec
    if latest.isSome then pure true
    else do
      let p ← findBlob E g d isExec skipSync
      let large := uplinkLargeWith E (fun q => uplinkBlob fuel g q false true false) g false d
      match p with
      | some b => uplinkFound E large isExec spliceResult false b
      | none => do
        let s ← trySplice E g false d
        match s with
        | none => pure false
        | some b => uplinkFound E large isExec spliceResult true b

/-- local_cas.tpp:263-274 (`LocalUplinkLargeObject`). -/
def uplinkLarge (fuel g : Nat) (t : Bool) (d : Id) : Prog Bool :=
  uplinkLargeWith E (fun q => uplinkBlob E fuel g q false true false) g t d

/-- local_cas.tpp:133-137: the entries of a tree are grouped by hash, and of each group only the
first entry is processed.  `seen` are the hashes treated before.  (The code iterates over the
groups in unspecified order; here in order of first occurrence.) -/
def firstEntries (seen : List Id) : List (Id × Kind) → List (Id × Kind)
  | [] => []
  | (i, k) :: es =>
    if i ∈ seen then firstEntries seen es else (i, k) :: firstEntries (i :: seen) es

/-- local_cas.tpp:146-156: uplink one entry of a tree. -/
def uplinkEntry (tree : Id → Prog Bool) (blob : Id → Bool → Prog Bool) : Id × Kind → Prog Bool
  | (i, .tree) => tree i
  | (i, .blob x) => blob i x

/-- local_cas.tpp:121-174: second half of `LocalUplinkGitTree`. -/
def uplinkTreeContent (entry : Id × Kind → Prog Bool) (large : Prog Bool)
    (spliceResult spliced : Bool) (b : Bytes) : Prog Bool :=
  match E.parseTree b with
  | none => pure false
  | some es => do
    let ok ← forAll entry (firstEntries [] es)
    if ok then uplinkStore large spliceResult spliced b
    else pure false
where
  /-- local_cas.tpp:159-174. -/
  uplinkStore (large : Prog Bool) (spliceResult spliced : Bool) (b : Bytes) : Prog Bool := do
    if spliced then do
      let _ ← large
      if spliceResult then do
        let r ← storeObj E 0 .tree b
        pure r.isSome
      else pure true
    else do
      let r ← storeObj E 0 .tree b
      pure r.isSome

/-- local_cas.tpp:99-175 (`LocalUplinkGitTree`).  The recursion into subtrees is bounded by fuel. -/
def uplinkTree : (fuel g : Nat) → (d : Id) → (spliceResult : Bool) → Prog Bool
  | 0, _, _, _ => .halt
  | fuel + 1, g, d, spliceResult => do
    let latest ← readL ⟨0, .cas .tree d⟩
    if latest.isSome then pure true
    else do
      let p ← readL ⟨g, .cas .tree d⟩
      let entry := uplinkEntry (fun i => uplinkTree fuel g i false)
        (fun i x => uplinkBlob E (fuel + 1) g i x false false)
      let large := uplinkLarge E (fuel + 1) g true d
      match p with
      | some b => uplinkTreeContent E entry large spliceResult false b
      | none => do
        let s ← trySplice E g true d
        match s with
        | none => pure false
        | some b => uplinkTreeContent E entry large spliceResult true b

/-- local_ac.tpp:143-170 (`ReadActionKey`) without the uplink. -/
def readActionKey (g : Nat) (k : Id) : Prog (Option Id) := do
  let v ← readL ⟨g, .ac k⟩
  match v with
  | none => pure none
  | some e => pure (E.parseKey e)

/-- local_ac.tpp:179-197 (`ReadAction`) for a local generation. -/
def readAction (g : Nat) (key : Id) : Prog (Option Result) := do
  let v ← blobPath E g key false
  match v with
  | none => pure none
  | some b => pure (E.parseResult b)

/-- local_ac.tpp:81-119: uplink all outputs of an action. -/
def uplinkOutputs (fuel g : Nat) (r : Result) : Prog Bool := do
  let ok ← forAll (fun f : Id × Bool => uplinkBlob E fuel g f.1 f.2 false false) r.files
  if ok then do
    let ok ← forAll (fun t : Bytes => uplinkBlob E fuel g (E.hashBlob t) false false false) r.links
    if ok then forAll (fun d : Id => uplinkTree E fuel g d false) r.dirs
    else pure false
  else pure false

/-- local_ac.tpp:59-133 (`LocalUplinkEntry`). -/
def uplinkAction (fuel g : Nat) (k : Id) : Prog Bool := do
  let latest ← readL ⟨0, .ac k⟩
  if latest.isSome then pure true
  else do
    let key? ← readActionKey E g k
    match key? with
    | none => pure false
    | some key => do
      let r? ← readAction E g key
      match r? with
      | none => pure false
      | some r => do
        let ok ← uplinkOutputs E fuel g r
        if ok then do
          let ok ← uplinkBlob E fuel g key false false false
          if ok then do
            let e ← readL ⟨g, .ac k⟩
            match e with
            | none => pure false
            | some c => createL ⟨0, .ac k⟩ c
          else pure false
        else pure false

/-- target_cache.tpp:186-196: uplink the artifacts of an entry. -/
def uplinkArtifacts (fuel g : Nat) (as : List (Id × Kind)) : Prog Bool :=
  forAll (uplinkEntry (fun i => uplinkTree E fuel g i false)
    (fun i x => uplinkBlob E fuel g i x false false)) as

/-- target_cache.tpp:125-208 (`LocalUplinkEntry`).  The recursion into implied export targets is
bounded by fuel `n`. -/
def uplinkTarget (fuel : Nat) : (n g : Nat) → (k : Id) → Prog Bool
  | 0, _, _ => .halt
  | n + 1, g, k => do
    let latest ← readL ⟨0, .tc k⟩
    if latest.isSome then pure true
    else do
      let raw ← readL ⟨g, .tc k⟩
      match raw with
      | none => pure false
      | some c =>
        match E.parseInfo c with
        | none => pure false
        | some i => do
          let eb ← blobPath E g i false
          match eb with
          | none => pure false
          | some b =>
            match E.parseEntry b with
            | none => pure false
            | some en => do
              let ok ← forAll (fun j => if j ≠ k then uplinkTarget fuel n g j else pure true)
                en.implied
              if ok then
                match en.artifacts with
                | none => pure false
                | some as => do
                  let ok ← uplinkArtifacts E fuel g as
                  if ok then do
                    let ok ← uplinkBlob E fuel g i false false false
                    if ok then createL ⟨0, .tc k⟩ c else pure false
                  else pure false
              else pure false

/-! ## All generations -/

/-- The generations, youngest first: uplinker.cpp:28-38. -/
def Env.gens : List Nat := List.range E.numGen

/-- uplinker.cpp:48-62 (`UplinkBlob`). -/
def globalUplinkBlob (fuel : Nat) (d : Id) (isExec : Bool) : Prog Bool :=
  anyOf (fun g => uplinkBlob E fuel g d isExec true true) E.gens

/-- uplinker.cpp:64-74 (`UplinkTree`). -/
def globalUplinkTree (fuel : Nat) (d : Id) : Prog Bool :=
  anyOf (fun g => uplinkTree E fuel g d true) E.gens

/-- uplinker.cpp:76-87 (`UplinkLargeBlob`). -/
def globalUplinkLarge (fuel : Nat) (d : Id) : Prog Bool :=
  anyOf (fun g => uplinkLarge E fuel g false d) E.gens

/-- uplinker.cpp:89-99 (`UplinkActionCacheEntry`). -/
def globalUplinkAction (fuel : Nat) (k : Id) : Prog Bool :=
  anyOf (fun g => uplinkAction E fuel g k) E.gens

/-- uplinker.cpp:101-116 (`UplinkTargetCacheEntry`). -/
def globalUplinkTarget (fuel : Nat) (k : Id) : Prog Bool :=
  anyOf (fun g => uplinkTarget E fuel fuel g k) E.gens

/-- object_cas.hpp:138-146 (`IsAvailable`) with the callback of local_cas.hpp:293-314. -/
def isAvailable (fuel : Nat) : Cas → Id → Prog Bool
  | .tree, d => globalUplinkTree E fuel d
  | .file, d => globalUplinkBlob E fuel d false
  | .exec, d => globalUplinkBlob E fuel d true

/-- object_cas.hpp:164-178 (`StoreBlob`) with the uplinking callback. -/
def store (fuel : Nat) (c : Cas) (b : Bytes) : Prog (Option Id) := do
  let d := E.hash c b
  let av ← isAvailable E fuel c d
  if av then pure (some d)
  else do
    let ok ← createL ⟨0, .cas c d⟩ b
    if ok then pure (some d) else pure none

/-- local_cas.hpp:320-328 (`TrySyncBlob`).  The answer is whether a path is returned; the path is
the location in the youngest generation. -/
def lookupSync (fuel : Nat) (d : Id) (toExec : Bool) : Prog Bool := do
  let av ← isAvailable E fuel (casOf !toExec) d
  if av then do
    let src ← readL ⟨0, .cas (casOf !toExec) d⟩
    match src with
    | none => pure false
    | some b => do
      let r ← store E fuel (casOf toExec) b
      if r.isSome then isAvailable E fuel (casOf toExec) d else pure false
  else pure false

/-- local_cas.hpp:140-145 (`BlobPath`): whether a path is returned. -/
def lookupBlob (fuel : Nat) (d : Id) (isExec : Bool) : Prog Bool := do
  let av ← isAvailable E fuel (casOf isExec) d
  if av then pure true else lookupSync E fuel d isExec

/-- local_cas.hpp:185-188 (`TreePath`): whether a path is returned. -/
def lookupTree (fuel : Nat) (d : Id) : Prog Bool := isAvailable E fuel .tree d

/-- large_object_cas.tpp:39-61 (`GetEntryPath`).  For the native protocol, trees are allowed
(protocol_traits.hpp), hence `UplinkLargeBlob` is called for both kinds of objects. -/
def entryPath (fuel : Nat) (t : Bool) (d : Id) : Prog Bool := do
  let v ← readL ⟨0, .large t d⟩
  if v.isSome then pure true
  else do
    let up ← globalUplinkLarge E fuel d
    if up then do
      let v ← readL ⟨0, .large t d⟩
      pure v.isSome
    else pure false

/-- large_object_cas.tpp:64-95 (`ReadEntry`). -/
def readEntryG (fuel : Nat) (t : Bool) (d : Id) : Prog (Option (List Id)) := do
  let ok ← entryPath E fuel t d
  if ok then do
    let v ← readL ⟨0, .large t d⟩
    match v with
    | none => pure none
    | some e => pure (E.parseParts e)
  else pure none

/-- large_object_cas.tpp:97-124 (`WriteEntry`); the mode of the store is `LastWins`. -/
def writeEntryG (fuel : Nat) (t : Bool) (d : Id) (ps : List Id) : Prog Bool := do
  let ok ← entryPath E fuel t d
  if ok then pure true
  else if ps.length < 2 then pure false
  else replaceL ⟨0, .large t d⟩ (E.dumpParts ps)

/-- large_object_cas.tpp:160-170: store all chunks. -/
def storeChunks (fuel : Nat) : List Bytes → Prog (Option (List Id))
  | [] => pure (some [])
  | c :: cs => do
    let r ← store E fuel .file c
    match r with
    | none => pure none
    | some d => do
      let rs ← storeChunks fuel cs
      match rs with
      | none => pure none
      | some ds => pure (some (d :: ds))

/-- large_object_cas.tpp:133-144: content of the file to be split. -/
def splitSource (fuel : Nat) (t : Bool) (d : Id) : Prog (Option Bytes) := do
  if t then do
    let av ← isAvailable E fuel .tree d
    if av then readL ⟨0, .cas .tree d⟩ else pure none
  else do
    let av ← isAvailable E fuel .file d
    if av then readL ⟨0, .cas .file d⟩
    else do
      let av ← isAvailable E fuel .exec d
      if av then readL ⟨0, .cas .exec d⟩ else pure none

/-- large_object_cas.tpp:126-182 (`Split`). -/
def split (fuel : Nat) (t : Bool) (d : Id) : Prog (Option (List Id)) := do
  let e ← readEntryG E fuel t d
  match e with
  | some ps => pure (some ps)
  | none => do
    let src ← splitSource E fuel t d
    match src with
    | none => pure none
    | some b => do
      let ps? ← storeChunks E fuel (E.chunks b)
      match ps? with
      | none => pure none
      | some ps => do
        let _ ← writeEntryG E fuel t d ps
        pure (some ps)

/-- large_object_cas.tpp:197-246 (`Splice`) on the whole storage. -/
def splicePartsG (fuel : Nat) : List Id → Prog (Option Bytes)
  | [] => pure (some [])
  | p :: ps => do
    let av ← lookupBlob E fuel p false
    if av then do
      let c ← readL ⟨0, .cas .file p⟩
      match c with
      | none => pure none
      | some b => do
        let r ← splicePartsG fuel ps
        match r with
        | none => pure none
        | some bs => pure (some (b ++ bs))
    else pure none

/-- local_cas.tpp:323-328: whether an entry of a spliced tree is in the storage. -/
def entryExists (fuel : Nat) : Id × Kind → Prog Bool
  | (i, .tree) => do
    let ok ← entryPath E fuel true i
    if ok then pure true else lookupTree E fuel i
  | (i, .blob x) => do
    let ok ← entryPath E fuel false i
    if ok then pure true else lookupBlob E fuel i x

/-- local_cas.tpp:286-340 (`CheckTreeInvariant`): whether no error is reported. -/
def checkTreeInvariant (fuel : Nat) (b : Bytes) : Prog Bool :=
  match E.parseTree b with
  | none => pure false
  | some es => forAll (entryExists E fuel) es

/-- local_cas.tpp:365: whether the object is in the storage already. -/
def lookupAs (fuel : Nat) (c : Cas) (d : Id) : Prog Bool :=
  if c = .tree then lookupTree E fuel d else lookupBlob E fuel d (c = .exec)

/-- local_cas.tpp:399-406. -/
def checkAs (fuel : Nat) (c : Cas) (b : Bytes) : Prog Bool :=
  if c = .tree then checkTreeInvariant E fuel b else pure true

/-- local_cas.tpp:356-417 (`Splice`). -/
def splice (fuel : Nat) (c : Cas) (d : Id) (parts : List Id) : Prog (Option Id) := do
  let have? ← lookupAs E fuel c d
  if have? then pure (some d)
  else do
    let r ← splicePartsG E fuel parts
    match r with
    | none => pure none
    | some b =>
      if E.hash c b ≠ d then pure none
      else do
        let ok ← checkAs E fuel c b
        if ok then store E fuel c b else pure none

/-- local_ac.tpp:30-36, 135-141, 172-177 (`StoreResult`, `WriteAction`, `WriteActionKey`). -/
def storeResult (fuel : Nat) (k : Id) (r : Result) : Prog Bool := do
  let key ← store E fuel .file (E.dumpResult r)
  match key with
  | none => pure false
  | some d => replaceL ⟨0, .ac k⟩ (E.dumpKey d)

/-- local_ac.tpp:38-54 (`CachedResult`), 143-197. -/
def cachedResult (fuel : Nat) (k : Id) : Prog (Option Result) := do
  let _ ← globalUplinkAction E fuel k
  let key? ← readActionKey E 0 k
  match key? with
  | none => pure none
  | some key => do
    let av ← lookupBlob E fuel key false
    if av then do
      let v ← readL ⟨0, .cas .file key⟩
      match v with
      | none => pure none
      | some b => pure (E.parseResult b)
    else pure none

/-- target_cache.tpp:27-44 (`Store`), after the download of the artifacts. -/
def storeTarget (fuel : Nat) (k : Id) (e : Entry) : Prog Bool := do
  let key ← store E fuel .file (E.dumpEntry e)
  match key with
  | none => pure false
  | some d => replaceL ⟨0, .tc k⟩ (E.dumpInfo d)

/-- target_cache.tpp:71-114 (`Read`). -/
def readTarget (fuel : Nat) (k : Id) : Prog (Option Entry) := do
  let _ ← globalUplinkTarget E fuel k
  let v ← readL ⟨0, .tc k⟩
  match v with
  | none => pure none
  | some c =>
    match E.parseInfo c with
    | none => pure none
    | some i => do
      let av ← lookupBlob E fuel i false
      if av then do
        let w ← readL ⟨0, .cas .file i⟩
        match w with
        | none => pure none
        | some b => pure (E.parseEntry b)
      else pure none

/-! ## Requests of clients of the execution service -/

/-- The CAS for blobs received from clients (cas_utils.cpp:94-103, `kIsExec = false`) or for trees. -/
def casT (isTree : Bool) : Cas := if isTree then .tree else .file

/-- cas_utils.cpp:48-76 (`Add`), 137-158 (`CheckDigestConsistency`): the announced hash `d` and
size `n` (zero if unknown) are compared only after storing.  Simplification: libgit2 may refuse to
read the data of a tree that does not have the announced hash; this is reported as an error, and
so is a mismatch found after storing. -/
def addData (fuel : Nat) (t : Bool) (d : Id) (n : Nat) (b : Bytes) : Prog Bool := do
  let ok ← checkAs E fuel (casT t) b
  if ok then do
    let r ← store E fuel (casT t) b
    match r with
    | none => pure false
    | some d' => pure (decide (d = d' ∧ (n = 0 ∨ n = b.length)))
  else pure false

/-- A blob or tree in a request of a client: its kind, the announced hash (if supported) and size,
and the data. -/
structure Upload where
  isTree : Bool
  id : Option Id
  size : Nat
  data : Bytes
  deriving DecidableEq

/-- cas_server.cpp:129-152: one request of a batch. -/
def updateOne (fuel : Nat) (x : Upload) : Prog Bool :=
  match x.id with
  | none => pure false
  | some d => addData E fuel x.isTree d x.size x.data

/-- cas_server.cpp:127-152 (`BatchUpdateBlobs`): the first failure ends the batch. -/
def updateBlobs (fuel : Nat) (xs : List Upload) : Prog Bool := forAll (updateOne E fuel) xs

/-- cas_server.cpp:72-82: whether an object is in the CAS; unsupported hashes are not. -/
def isInCas (fuel : Nat) : Bool × Option Id → Prog Bool
  | (_, none) => pure false
  | (t, some d) => lookupAs E fuel (casT t) d

/-- cas_server.cpp:72-95 (`FindMissingBlobs`). -/
def findMissing (fuel : Nat) : List (Bool × Option Id) → Prog (List (Bool × Option Id))
  | [] => pure []
  | x :: xs => do
    let r ← isInCas E fuel x
    let ms ← findMissing fuel xs
    if r then pure ms else pure (x :: ms)

/-- cas_server.cpp:186-220 (`BatchReadBlobs`): content or not found for each object; an
unsupported hash ends the batch.  A file that cannot be read is delivered as empty. -/
def readBlobs (fuel : Nat) : List (Bool × Option Id) → Prog (Option (List (Option Bytes)))
  | [] => pure (some [])
  | (_, none) :: _ => pure none
  | (t, some d) :: xs => do
    let av ← lookupAs E fuel (casT t) d
    if av then do
      let v ← readL ⟨0, .cas (casT t) d⟩
      let r ← readBlobs fuel xs
      pure (r.map (some (v.getD []) :: ·))
    else do
      let r ← readBlobs fuel xs
      pure (r.map (none :: ·))

/-! ## Operations offered by the storage -/

/-- The operations of the storage interface. -/
inductive Op where
  | storeBlob (b : Bytes) (isExec : Bool)
  | storeTree (b : Bytes)
  | blobPath (d : Id) (isExec : Bool)
  | treePath (d : Id)
  | split (isTree : Bool) (d : Id)
  | splice (c : Cas) (d : Id) (parts : List Id)
  | storeResult (k : Id) (r : Result)
  | cachedResult (k : Id)
  | storeTarget (k : Id) (e : Entry)
  | readTarget (k : Id)
  | upload (isTree : Bool) (d : Id) (size : Nat) (b : Bytes)
  | updateBlobs (xs : List Upload)
  | findMissing (xs : List (Bool × Option Id))
  | readBlobs (xs : List (Bool × Option Id))
  deriving DecidableEq

/-- The answers of the operations. -/
inductive Answer where
  | flag (b : Bool)
  | digest (d : Option Id)
  | parts (ps : Option (List Id))
  | result (r : Option Result)
  | entry (e : Option Entry)
  | missing (xs : List (Bool × Option Id))
  | contents (cs : Option (List (Option Bytes)))
  deriving DecidableEq

/-- The code run for an operation. -/
def Op.run (fuel : Nat) : Op → Prog Answer
  | .storeBlob b x => do let r ← store E fuel (casOf x) b; pure (.digest r)
  | .storeTree b => do let r ← store E fuel .tree b; pure (.digest r)
  | .blobPath d x => do let r ← lookupBlob E fuel d x; pure (.flag r)
  | .treePath d => do let r ← lookupTree E fuel d; pure (.flag r)
  | .split t d => do let r ← Storage.split E fuel t d; pure (.parts r)
  | .splice c d ps => do let r ← Storage.splice E fuel c d ps; pure (.digest r)
  | .storeResult k r => do let ok ← Storage.storeResult E fuel k r; pure (.flag ok)
  | .cachedResult k => do let r ← Storage.cachedResult E fuel k; pure (.result r)
  | .storeTarget k e => do let ok ← Storage.storeTarget E fuel k e; pure (.flag ok)
  | .readTarget k => do let r ← Storage.readTarget E fuel k; pure (.entry r)
  | .upload t d n b => do let r ← addData E fuel t d n b; pure (.flag r)
  | .updateBlobs xs => do let r ← Storage.updateBlobs E fuel xs; pure (.flag r)
  | .findMissing xs => do let r ← Storage.findMissing E fuel xs; pure (.missing r)
  | .readBlobs xs => do let r ← Storage.readBlobs E fuel xs; pure (.contents r)

end Verif.Storage
