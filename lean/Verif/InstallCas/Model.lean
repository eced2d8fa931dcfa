import Verif.Tree.Install
import Verif.Digest.Model
import Verif.Expr.Hash

/-!
# Model of `just install-cas`

Source: `src/buildtool/main/install_cas.cpp`, `src/buildtool/main/archive.cpp`,
`src/buildtool/execution_api/utils/subobject.cpp`.

Parsing of object identifiers is modelled for both protocols, everything else for the native one. Reading and writing of
objects is that of `Verif.Install` (C80).
-/

namespace Verif.InstallCas

open Verif.Dig (HashType ObjectType ObjectInfo getline createDigest toUnsigned)
open Verif.Expr (hexString)
open Verif.Install (FS resolve mkdirs Cas retrieveToPaths)
open Verif.Path
open Verif.Roots (Out)
open Verif.Tree (Info Env Ent retrieve parseTree group flat)

/-! ## Object identifiers -/

/-- `std::getline` on a string stream for which `eof` has not been reached: the string read, and what follows, if the end
was not reached. The string is empty if there is nothing left. -/
def line (delim : Char) (s : Str) : Str × Option Str := (getline delim (some s)).getD ([], none)

/-- install_cas.cpp:75-77: an opening bracket is skipped. -/
def skipBracket : Str → Str
  | [] => []
  | c :: s => if c = '[' then s else c :: s

/-- install_cas.cpp:71-84: the hash, the size, and the type as given; the latter two are `""` and `"f"` if the end of the
string has been reached before. -/
def fields (s : Str) : Str × Str × Str :=
  match line ':' (skipBracket s) with
  | (id, none) => (id, [], ['f'])
  | (id, some r) =>
    match line ':' r with
    | (size, none) => (id, size, ['f'])
    | (size, some r') => (id, size, (line ']' r').1)

/-- install_cas.cpp:91-92: the size; `std::atol` is undefined for numbers that are no 64-bit integers. -/
def sizeOf (s : Str) : Out Nat :=
  if s = [] then .ok 0
  else if -(2 ^ 63) ≤ atol s ∧ atol s < 2 ^ 63 then .ok (toUnsigned (atol s)) else .ub

/-- install_cas.cpp:67-101 (`ObjectInfoFromLiberalString`). Warnings are left out. -/
def liberal (t : HashType) (s : Str) : Out ObjectInfo :=
  (sizeOf (fields s).2.1).bind fun size =>
    let type := ObjectType.ofChar ((fields s).2.2.head?.getD (Char.ofNat 0))
    match createDigest t (fields s).1 size type.isTree with
    | none => .error
    | some d => .ok ⟨d, type, false⟩

/-- A hexadecimal digit as written by `ToHexString`. -/
def nibble (c : Char) : Option Nat := if c.toNat < 256 then (List.range 16).find? fun n => Json.hexDigit n = c else none

/-- The bytes denoted by a hash. -/
def unhex : Str → Option Str
  | [] => some []
  | [_] => none
  | a :: b :: s => (nibble a).bind fun x => (nibble b).bind fun y => (unhex s).bind fun r => some (Char.ofNat (16 * x + y) :: r)

/-- The object referred to. Hashes containing upper-case digits are accepted by `createDigest`, but are not found in the
local CAS, which has file names with lower-case digits; they are given an id no object has. -/
def objectOf (o : ObjectInfo) : Info := ⟨o.type, (unhex o.digest.hash).getD []⟩

/-! ## Objects inside trees -/

/-- subobject.cpp:102-126, tree_reader_utils.cpp:125-153 (`ReadObjectInfos`): the last entry the name of which is the
segment, compared as paths. -/
def lastEntry (seg : Str) (l : List Ent) : Option Ent := l.reverse.find? fun e => elems e.name = elems seg

/-- subobject.cpp:34-132 (`RetrieveSubPathId`), for the elements of the path: only failure to get a tree is an error;
if a tree cannot be parsed, has no such entry, or the object is no tree, the loop is left. -/
def subObject (E : Env) (C : Cas) : Info → List Str → Option Info
  | i, [] => some i
  | i, seg :: r =>
    if i.type = .tree then
      match retrieve E C.trees i.id with
      | none => none
      | some d =>
        match parseTree d with
        | none => some i
        | some l =>
          match lastEntry seg (C.ord (flat (group l))) with
          | none => some i
          | some e => subObject E C ⟨e.type, e.id⟩ r
    else some i

/-! ## Archives -/

/-- What is in a member of an archive. -/
inductive Kind where
  | regular (perm : Nat) (content : Str)
  | link (target : Str)
  | dir
  deriving DecidableEq

/-- A member of an archive. -/
structure Member where
  path : Str
  kind : Kind
  deriving DecidableEq

/-- A string up to its first zero byte. -/
def cString (s : Str) : Str := s.takeWhile fun c => c.toNat ≠ 0

/-- archive.cpp:66-68, 78-104: the member for something that is no tree. -/
def leafKind (ty : ObjectType) (content : Str) : Kind :=
  match ty with
  | .symlink => .link (cString content)
  | .executable => .regular 0o555 content
  | _ => .regular 0o444 content

/-- archive.cpp:130-147: the entries of a tree as a map by name; later ones replace earlier ones. -/
def byName (l : List Ent) : OMap Str Info := l.foldl (fun m e => m.assign e.name ⟨e.type, e.id⟩) OMap.empty

/-- archive.cpp:148-152: the entries of a tree are added one by one, by `f`. -/
def addAll (f : Info → Str → Bool × List Member) (loc : Str) : List (Str × Info) → Bool × List Member
  | [] => (true, [])
  | (n, i) :: r =>
    match f i (append loc n) with
    | (false, a) => (false, a)
    | (true, a) => ((addAll f loc r).1, a ++ (addAll f loc r).2)

/-- archive.cpp:62-157 (`add_to_archive`): whether it succeeded, and the members passed to the library until then, for
trees of at most the given depth. -/
def addToArchive (E : Env) (C : Cas) : Nat → Info → Str → Bool × List Member
  | 0, _, _ => (false, [])
  | n + 1, i, loc =>
    if i.type = .tree then
      match retrieve E C.trees i.id with
      | none => (false, [])
      | some d =>
        match parseTree d with
        | none => (false, if loc = [] then [] else [⟨loc, .dir⟩])
        | some l =>
          ((addAll (addToArchive E C n) loc (byName (C.ord (flat (group l)))).items).1,
            (if loc = [] then [] else [⟨loc, .dir⟩]) ++
              (addAll (addToArchive E C n) loc (byName (C.ord (flat (group l)))).items).2)
    else
      match C.blob i.id with
      | none => (false, [])
      | some c => (true, [⟨loc, leafKind i.type c⟩])

/-! ## The command -/

/-- Command-line arguments of `install-cas`. -/
structure Args where
  object : Str
  remember : Bool := false
  sub : Option Str := none
  output : Option Str := none
  archive : Bool := false

/-- What is outside of the program: whether an object can be copied to the local CAS, and what of an archive is written, the
results of writing being ignored (archive.cpp:48-53, 88-89, 103-104, 117). -/
structure Outside where
  copies : Info → Bool
  writes : List Member → List Member

/-- The file system without archives; the archives written, by place, stdout being `none`; the objects shown on stdout; the
objects copied to the local CAS. -/
structure World where
  fs : FS
  archives : List (Option (List Str) × List Member) := []
  shown : List Info := []
  kept : List Info := []

/-- install_cas.cpp:115-122: failure to copy is ignored. -/
def remember (O : Outside) (a : Args) (i : Info) (w : World) : World :=
  if a.remember then if O.copies i then { w with kept := w.kept ++ [i] } else w else w

/-- install_cas.cpp:124-133: the object inside a tree, if asked for. -/
def select (E : Env) (C : Cas) (a : Args) (i : Info) : Option Info :=
  match a.sub with
  | none => some i
  | some p => subObject E C i (elems p)

/-- install_cas.cpp:138: the output path without trailing slashes. -/
def outPath (o : Str) : Str := parentPath (append o [])

/-- install_cas.cpp:138-141: the output location. -/
def location (cwd : List Str) (i : Info) (o : Str) (fs : FS) : Str :=
  if fs.at (resolve cwd (outPath o)) = some .dir then append (outPath o) (hexString i.id) else outPath o

/-- install_cas.cpp:135-150: the output location, directories above it being created. -/
def place (cwd : List Str) (i : Info) : Option Str → FS → Bool × Option Str × FS
  | none, fs => (true, none, fs)
  | some o, fs =>
    ((mkdirs [] (resolve cwd (parentPath (location cwd i o fs))) fs).1, some (location cwd i o fs),
      (mkdirs [] (resolve cwd (parentPath (location cwd i o fs))) fs).2)

/-- archive.cpp:162-214 (`GenerateArchive`): opening a file fails if there is a directory. Otherwise, what has been passed to
the library is written, also if adding failed. Simplification: opening succeeds for all other places. -/
def generateArchive (E : Env) (C : Cas) (O : Outside) (n : Nat) (cwd : List Str) (i : Info) (out : Option Str) (w : World) :
    Bool × World :=
  if (out.bind fun p => w.fs.at (resolve cwd p)) = some .dir then (false, w)
  else
    ((addToArchive E C n i []).1,
      { w with archives := w.archives ++ [(out.map (resolve cwd), O.writes (addToArchive E C n i []).2)] })

/-- Whether an object itself can be read. -/
def readable (E : Env) (C : Cas) (i : Info) : Bool :=
  if i.type = .tree then (retrieve E C.trees i.id).isSome else (C.blob i.id).isSome

/-- install_cas.cpp:104-185 (`FetchAndInstallArtifacts`), native protocol: whether it succeeded, and what is there
afterwards. Reading of sub-objects and for archives is from `C`. -/
def run (E : Env) (C : Cas) (git : Option Cas) (O : Outside) (n : Nat) (cwd : List Str) (a : Args) (w : World) :
    Out (Bool × World) :=
  match liberal .gitSHA1 a.object with
  | .ub => .ub
  | .error => .ok (false, w)
  | .ok ob =>
    match select E C a (objectOf ob) with
    | none => .ok (false, remember O a (objectOf ob) w)
    | some i =>
      match place cwd i a.output (remember O a (objectOf ob) w).fs with
      | (false, _, fs) => .ok (false, { remember O a (objectOf ob) w with fs := fs })
      | (true, out, fs) =>
        if a.archive then
          if i.type = .tree then
            .ok (generateArchive E C O n cwd i out { remember O a (objectOf ob) w with fs := fs })
          else .ok (false, { remember O a (objectOf ob) w with fs := fs })
        else
          match out with
          | some p =>
            (retrieveToPaths E C git n cwd [(p, i)] fs).bind fun r =>
              .ok (r.1, { remember O a (objectOf ob) w with fs := r.2 })
          | none =>
            .ok (readable E C i,
              { remember O a (objectOf ob) w with
                fs := fs
                shown := (remember O a (objectOf ob) w).shown ++ if readable E C i then [i] else [] })

end Verif.InstallCas
