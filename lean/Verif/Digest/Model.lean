import Verif.Util.Decimal
import Verif.Util.Split

/-!
# Model of digests and their representations

Source: `src/buildtool/crypto/hash_info.{hpp,cpp}`, `src/buildtool/common/artifact_digest.hpp`,
`artifact_digest_factory.cpp`, `bazel_digest_factory.{hpp,cpp}`, `artifact.hpp`,
`src/buildtool/file_system/object_type.hpp`, `src/utils/cpp/hex_string.hpp`,
`src/buildtool/execution_api/common/bytestream_utils.{hpp,cpp}`.
-/

namespace Verif.Dig

/-- hash_function.hpp (`HashFunction::Type`). -/
inductive HashType where
  | gitSHA1
  | plainSHA256
  deriving DecidableEq

/-- protocol_traits.hpp:22-25 (`IsNative`). -/
def HashType.native : HashType → Bool
  | .gitSHA1 => true
  | .plainSHA256 => false

/-- protocol_traits.hpp:27-30 (`IsTreeAllowed`). -/
def HashType.treeAllowed (t : HashType) : Bool := t.native

/-- `Hasher::GetHashLength`: number of hexadecimal digits. -/
def HashType.length : HashType → Nat
  | .gitSHA1 => 40
  | .plainSHA256 => 64

/-- `std::isxdigit` in the C locale. -/
def isHexDigit (c : Char) : Bool :=
  c.isDigit || (97 ≤ c.toNat && c.toNat ≤ 102) || (65 ≤ c.toNat && c.toNat ≤ 70)

/-- hex_string.hpp:26-30 (`IsHexString`). -/
def isHexString (s : Str) : Bool := s.all isHexDigit

/-- hash_info.hpp, artifact_digest.hpp:27-62 (`HashInfo` and `ArtifactDigest` in one). -/
structure Digest where
  hash : Str
  type : HashType
  tree : Bool
  size : Nat
  deriving DecidableEq

/-- hash_info.cpp:73-101 (`HashInfo::ValidateInput`). -/
def validInput (t : HashType) (hash : Str) (tree : Bool) : Bool :=
  !(tree && !t.treeAllowed) && hash.length == t.length && isHexString hash

/-- hash_info.cpp:31-40 (`HashInfo::Create`) together with the size. -/
def create (t : HashType) (hash : Str) (tree : Bool) (size : Nat) : Option Digest :=
  if validInput t hash tree then some ⟨hash, t, tree, size⟩ else none

/-- artifact_digest_factory.cpp:24-37 (`ArtifactDigestFactory::Create`). -/
def createDigest (t : HashType) (hash : Str) (size : Nat) (tree : Bool) : Option Digest :=
  create t hash (t.treeAllowed && tree) size

/-- `bazel_re::Digest`: a string and an `int64`. -/
structure Wire where
  hash : Str
  size : Int
  deriving DecidableEq

/-- bazel_digest_factory.hpp:31 (`kBlobTag`). -/
abbrev blobTag : Str := ['6', '2']

/-- bazel_digest_factory.hpp:32 (`kTreeTag`). -/
abbrev treeTag : Str := ['7', '4']

/-- bazel_digest_factory.hpp:68-71 (`Prefix`). -/
def prefixed (hash : Str) (tree : Bool) : Str := (if tree then treeTag else blobTag) ++ hash

/-- artifact_digest_factory.cpp:50-54 (`ToBazel`), bazel_digest_factory.cpp:22-33 (`Create`).  `none` if
`gsl::narrow` throws. -/
def toBazel (d : Digest) : Option Wire :=
  if d.size < 2 ^ 63 then
    some ⟨if d.type.native then prefixed d.hash d.tree else d.hash, d.size⟩
  else none

/-- bazel_digest_factory.cpp:45-50 (`IsPrefixed`). -/
def isPrefixed (t : HashType) (hash : Str) : Bool := hash.length == t.length + 2

/-- `static_cast<std::size_t>` of an `int64`. -/
def toUnsigned (i : Int) : Nat := (i % (2 ^ 64 : Int)).toNat

/-- artifact_digest_factory.cpp:39-48 (`FromBazel`), bazel_digest_factory.cpp:35-43 (`ToHashInfo`). -/
def fromBazel (t : HashType) (w : Wire) : Option Digest :=
  create t (if isPrefixed t w.hash then w.hash.drop 2 else w.hash)
    (isPrefixed t w.hash && treeTag.isPrefixOf w.hash) (toUnsigned w.size)

/-! ## Object infos -/

/-- object_type.hpp:21-26 (`ObjectType`). -/
inductive ObjectType where
  | file
  | executable
  | tree
  | symlink
  deriving DecidableEq

/-- object_type.hpp:28-40 (`FromChar`). -/
def ObjectType.ofChar (c : Char) : ObjectType :=
  if c = 'x' then .executable else if c = 't' then .tree else if c = 'l' then .symlink else .file

/-- object_type.hpp:42-54 (`ToChar`). -/
def ObjectType.toChar : ObjectType → Char
  | .file => 'f'
  | .executable => 'x'
  | .tree => 't'
  | .symlink => 'l'

/-- object_type.hpp:65-67 (`IsTreeObject`). -/
def ObjectType.isTree : ObjectType → Bool
  | .tree => true
  | _ => false

/-- artifact.hpp:43-46 (`Artifact::ObjectInfo`). -/
structure ObjectInfo where
  digest : Digest
  type : ObjectType
  failed : Bool
  deriving DecidableEq

/-- artifact.hpp:58-67 (`ToString`). -/
def ObjectInfo.toString (i : ObjectInfo) (sizeUnknown : Bool) : Str :=
  '[' :: i.digest.hash ++ ':' :: (if sizeUnknown then [] else decimal i.digest.size) ++
    ':' :: i.type.toChar :: ']' :: (if i.failed then " FAILED".toList else [])

/-- `std::getline` with a delimiter; the rest is `none` if the end was reached without delimiter. -/
def getline (delim : Char) : Option Str → Option (Str × Option Str)
  | none => none
  | some [] => none
  | some s =>
    if delim ∈ s then
      some (s.takeWhile (fun c => c != delim), some ((s.dropWhile (fun c => c != delim)).drop 1))
    else some (s, none)

/-- artifact.hpp:77-114 (`FromString`). -/
def ObjectInfo.ofString (t : HashType) (s : Str) : Option ObjectInfo :=
  match s with
  | [] => none
  | c :: s =>
    if c = '[' then
      (getline ':' (some s)).bind fun x =>
        (getline ':' x.2).bind fun y =>
          (getline ']' y.2).bind fun z =>
            (stoul y.1).bind fun size =>
              let ty := ObjectType.ofChar (z.1.head?.getD (Char.ofNat 0))
              (createDigest t x.1 size ty.isTree).bind fun d => some ⟨d, ty, false⟩
    else none

/-! ## Names of byte-stream resources -/

/-- bytestream_utils.cpp:31-52 (`SplitRequest`).  After a slash the loop continues with `length` being
one, so that the next character is not examined; `fresh` tells that this is the case. -/
def splitRequest (cur : Str) (fresh : Bool) : Str → List Str
  | [] => if cur = [] then [] else [cur]
  | c :: t =>
    if c = '/' ∧ fresh = false then cur :: splitRequest [] true t
    else splitRequest (cur ++ [c]) false t

/-- bytestream_utils.hpp (`kBlobs`). -/
abbrev blobs : Str := "blobs".toList

/-- bytestream_utils.hpp (`kUploads`). -/
abbrev uploads : Str := "uploads".toList

/-- bytestream_utils.cpp:64-69 (`kOtherReservedFragments`). -/
def otherReserved : List Str :=
  ["actions".toList, "actionResults".toList, "operations".toList, "capabilities".toList,
   "compressed-blobs".toList]

/-- bytestream_utils.cpp:71-85 (`ReadRequest::ToString`). -/
def readName (inst : Str) (d : Digest) : Option Str :=
  (toBazel d).bind fun w =>
    if inst = [] then some (joinWith '/' [blobs, w.hash, decimal d.size])
    else some (joinWith '/' [inst, blobs, w.hash, decimal d.size])

/-- bytestream_utils.cpp:142-161 (`WriteRequest::ToString`). -/
def writeName (inst uuid : Str) (d : Digest) : Option Str :=
  (toBazel d).bind fun w =>
    if inst = [] then some (joinWith '/' [uploads, uuid, blobs, w.hash, decimal d.size])
    else some (joinWith '/' [inst, uploads, uuid, blobs, w.hash, decimal d.size])

/-- bytestream_utils.cpp:94-111, 173-190: parts before the first `stop`, and the parts from there;
`none` if a reserved one comes first. -/
def findPart (stop other : Str) : List Str → Option (List Str × List Str)
  | [] => none
  | p :: t =>
    if p = stop then some ([], p :: t)
    else if p = other then none
    else if p ∈ otherReserved then none
    else (findPart stop other t).map (fun r => (p :: r.1, r.2))

/-- bytestream_utils.hpp (`ReadRequest`). -/
structure ReadRequest where
  inst : Str
  hash : Str
  size : Nat
  deriving DecidableEq

/-- bytestream_utils.hpp (`WriteRequest`). -/
structure WriteRequest where
  inst : Str
  uuid : Str
  hash : Str
  size : Nat
  deriving DecidableEq

/-- bytestream_utils.cpp:87-134 (`ReadRequest::FromString`). -/
def ReadRequest.ofString (s : Str) : Option ReadRequest :=
  (findPart blobs uploads (splitRequest [] false s)).bind fun r =>
    match r.2 with
    | [_, hash, size] => (stoul size).bind fun n => some ⟨joinWith '/' r.1, hash, n⟩
    | _ => none

/-- bytestream_utils.cpp:163-216 (`WriteRequest::FromString`). -/
def WriteRequest.ofString (s : Str) : Option WriteRequest :=
  (findPart uploads blobs (splitRequest [] false s)).bind fun r =>
    match r.2 with
    | [_, uuid, b, hash, size] =>
      if b = blobs then (stoul size).bind fun n => some ⟨joinWith '/' r.1, uuid, hash, n⟩ else none
    | _ => none

/-- `static_cast<std::int64_t>` of a `size_t`. -/
def toSigned (n : Nat) : Int := if n < 2 ^ 63 then n else (n : Int) - 2 ^ 64

/-- bytestream_utils.cpp:136-140, 218-222 (`GetDigest`). -/
def getDigest (t : HashType) (hash : Str) (size : Nat) : Option Digest :=
  fromBazel t ⟨hash, toSigned size⟩

end Verif.Dig
