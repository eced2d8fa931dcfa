import Verif.Digest.Model
import Verif.Util.OMap

/-!
# Model of git trees and tree overlays

Source: `src/buildtool/file_system/git_repo.cpp`,
`src/buildtool/execution_engine/tree_operations/tree_operations_utils.cpp`,
`src/buildtool/execution_engine/executor/executor.hpp`.

Git hashes are given in binary form (20 bytes); the hexadecimal form used in digests is a renaming.
-/

namespace Verif.Tree

open Verif.Dig (ObjectType)

/-- git_repo.hpp (`TreeEntry`, `tree_entries_t`): an entry of a git tree. -/
structure Ent where
  name : Str
  type : ObjectType
  id : Str
  deriving DecidableEq

/-- git_repo.hpp (`tree_entries_t`): names and types, grouped by the object. -/
abbrev Groups := List (Str × List (Str × ObjectType))

/-- `entries[id].emplace_back(name, type)`. -/
def addTo (id : Str) (nt : Str × ObjectType) : Groups → Groups
  | [] => [(id, [nt])]
  | (i, l) :: t => if i = id then (i, l ++ [nt]) :: t else (i, l) :: addTo id nt t

/-- git_repo.cpp:180-200 (`flat_tree_walker`) for all entries, tree_operations_utils.cpp:223-240. -/
def group (l : List Ent) : Groups := l.foldl (fun g e => addTo e.id (e.name, e.type) g) []

/-! ## Writing trees -/

/-- git_repo.cpp:117-129 (`ObjectTypeToPerm`). -/
def perm : ObjectType → Str
  | .file => ['1', '0', '0', '6', '4', '4']
  | .executable => ['1', '0', '0', '7', '5', '5']
  | .tree => ['4', '0', '0', '0', '0']
  | .symlink => ['1', '2', '0', '0', '0', '0']

/-- git_repo.cpp:1986. -/
def gitKey (name : Str) (type : ObjectType) : Str := name ++ if type.isTree then ['/'] else []

/-- git_repo.cpp:1984-1988 (for one object). -/
def sortGroup (id : Str) : List (Str × ObjectType) → List (Str × (Str × ObjectType)) →
    List (Str × (Str × ObjectType))
  | [], m => m
  | (n, ty) :: t, m => sortGroup id t (OMap.insertList (fun old _ => old) (gitKey n ty) (id, ty) m)

/-- git_repo.cpp:1982-1990: a `std::map`. -/
def sorted : Groups → List (Str × (Str × ObjectType)) → List (Str × (Str × ObjectType))
  | [], m => m
  | (id, l) :: t, m => sorted t (sortGroup id l m)

/-- git_repo.cpp:1995-2005: the text of one entry. -/
def entryText (key id : Str) (ty : ObjectType) : Str :=
  perm ty ++ ' ' :: (key.take (key.length - (if ty.isTree then 1 else 0)) ++ Char.ofNat 0 :: id)

/-- git_repo.cpp:1961-2022 (`CreateTree`): the content of the tree object. -/
def createTree (g : Groups) : Str := (sorted g []).flatMap fun e => entryText e.1 e.2.1 e.2.2

/-! ## Reading trees -/

/-- Octal digits at the start, and the rest. -/
def octal (acc : Nat) : Str → Nat × Str
  | [] => (acc, [])
  | c :: t => if 48 ≤ c.toNat ∧ c.toNat < 56 then octal (8 * acc + (c.toNat - 48)) t else (acc, c :: t)

/-- Characters up to the first zero byte, and those after it. -/
def cutZero : Str → Option (Str × Str)
  | [] => none
  | c :: t => if c.toNat = 0 then some ([], t) else (cutZero t).bind fun p => some (c :: p.1, p.2)

/-- libgit2 (`git_tree_entry_filemode`) and git_repo.cpp:81-100 (`GitFileModeToObjectType`): the normalised
mode as type; there is none for submodules. -/
def modeType (m : Nat) : Option ObjectType :=
  if m / 4096 % 16 = 4 then some .tree
  else if m / 64 % 2 = 1 then some .executable
  else if m / 4096 % 16 = 14 then none
  else if m / 4096 % 16 = 10 then some .symlink
  else some .file

/-- libgit2 (`git_tree__parse_raw`): one entry and the rest.  Simplification: no sign in front of the mode. -/
def parseEntry (s : Str) : Option ((Nat × Str × Str) × Str) :=
  if (octal 0 s).2.length = s.length ∨ 65535 < (octal 0 s).1 then none
  else
    match (octal 0 s).2 with
    | ' ' :: t => (cutZero t).bind fun p =>
        if p.1.length = 0 ∨ 65535 < p.1.length ∨ p.2.length < 20 then none
        else some (((octal 0 s).1, p.1, p.2.take 20), p.2.drop 20)
    | _ => none

/-- libgit2 (`git_tree__parse_raw`) and the walk over the entries (git_repo.cpp:180-200, 1846-1898); at most
`n` entries. -/
def parseUpTo : Nat → Str → Option (List Ent)
  | _, [] => some []
  | 0, _ :: _ => none
  | n + 1, c :: s => (parseEntry (c :: s)).bind fun e => (modeType e.1.1).bind fun ty =>
      (parseUpTo n e.2).bind fun l => some (⟨e.1.2.1, ty, e.1.2.2⟩ :: l)

/-- All entries of a git tree with the type recorded for each of them. -/
def parseTree (s : Str) : Option (List Ent) := parseUpTo s.length s

/-- git_repo.cpp:2025-2059 (`ReadTreeData`), without the check of symbolic links (as used for overlays). -/
def readTreeData (s : Str) : Option Groups := (parseTree s).bind fun l => some (group l)

/-- What a tree entry refers to (`Artifact::ObjectInfo`): type and object. -/
structure Info where
  type : ObjectType
  id : Str
  deriving DecidableEq

/-- tree_operations_utils.hpp (`TreeEntries`): an unordered map. -/
abbrev Entries := List (Str × Info)

/-- Lookup in an unordered map. -/
def get (n : Str) : Entries → Option Info
  | [] => none
  | (m, i) :: t => if m = n then some i else get n t

/-- `insert`: existing entries are kept. -/
def insertNew (n : Str) (i : Info) (l : Entries) : Entries :=
  match get n l with
  | some _ => l
  | none => l ++ [(n, i)]

/-- Assignment `entries[n] = i`. -/
def assign (n : Str) (i : Info) : Entries → Entries
  | [] => [(n, i)]
  | (m, j) :: t => if m = n then (n, i) :: t else (m, j) :: assign n i t

/-- tree_operations_utils.cpp:117-138: one object. -/
def addGroup (id : Str) (ty : ObjectType) : List (Str × ObjectType) → Entries → Entries
  | [], l => l
  | (n, _) :: t, l => addGroup id ty t (insertNew n ⟨ty, id⟩ l)

/-- tree_operations_utils.cpp:117-138: all names of an object are given the type of the first one. -/
def addGroups : Groups → Entries → Entries
  | [], l => l
  | (_, []) :: t, l => addGroups t l
  | (id, (n, ty) :: g) :: t, l => addGroups t (addGroup id ty ((n, ty) :: g) l)

/-- tree_operations_utils.cpp:97-139 (`ParseGitTree`). -/
def parseGitTree (s : Str) : Option Entries := (readTreeData s).bind fun g => some (addGroups g [])

/-! ## Overlays -/

/-- Outcomes: a value, an error, a conflict, or that the bound on the depth was too small. -/
inductive Out (α : Type) where
  | ok (a : α)
  | error
  | conflict
  | more

/-- Go on after success. -/
def Out.bind {α β : Type} : Out α → (α → Out β) → Out β
  | .ok a, f => f a
  | .error, _ => .error
  | .conflict, _ => .conflict
  | .more, _ => .more

/-- The environment: the hash of trees, and the order in which an unordered map is visited. -/
structure Env where
  H : Str → Str
  visit : Entries → Entries

variable (E : Env)

/-- The trees in the CAS. -/
abbrev Store := List Str

/-- `RetrieveToMemory`. -/
def retrieve (s : Store) (id : Str) : Option Str := s.find? fun d => E.H d = id

/-- tree_operations_utils.cpp:141-163 (`ReadTree`), native protocol. -/
def readTree (s : Store) (i : Info) : Option Entries := (retrieve E s i.id).bind parseGitTree

/-- tree_operations_utils.cpp:212-242 (`SerializeGitTree`). -/
def serialize (l : Entries) : Str :=
  createTree (group ((E.visit l).map fun e => ⟨e.1, e.2.type, e.2.id⟩))

/-- tree_operations_utils.cpp:244-267 (`WriteTree`); the upload succeeds. -/
def writeTree (s : Store) (l : Entries) : Info × Store :=
  (⟨.tree, E.H (serialize E l)⟩, s ++ [serialize E l])

/-- tree_operations_utils.cpp:335-377: the overlay so far and the pairs of trees to be merged; `none`:
conflict. -/
def mergeLoop (disjoint : Bool) : Entries → Entries → List (Str × Info × Info) →
    Option (Entries × List (Str × Info × Info))
  | [], acc, keys => some (acc, keys)
  | (n, b) :: t, acc, keys =>
    match get n acc with
    | none => mergeLoop disjoint t (acc ++ [(n, b)]) keys
    | some o =>
      if o = b then mergeLoop disjoint t acc keys
      else if b.type.isTree && o.type.isTree then mergeLoop disjoint t acc (keys ++ [(n, b, o)])
      else if disjoint then none
      else mergeLoop disjoint t acc keys

/-- tree_operations_utils.cpp:379-396: compute all sub-overlays and enter them.  Simplification: each
sub-overlay is computed where it is needed and in order, while the code computes each only once. -/
def mergeSubs (f : Store → Info → Info → Out (Info × Store)) :
    List (Str × Info × Info) → Store → Entries → Out (Entries × Store)
  | [], s, acc => .ok (acc, s)
  | (n, b, o) :: t, s, acc => (f s b o).bind fun r => mergeSubs f t r.2 (assign n r.1 acc)

/-- tree_operations_utils.cpp:281-408 (`CreateTreeOverlayMap`) and 410-437 (`ComputeTreeOverlay`), for at most
`n` levels of directories. -/
def overlay (disjoint : Bool) : Nat → Store → Info → Info → Out (Info × Store)
  | 0, _, _, _ => .more
  | n + 1, s, b, o =>
    if !b.type.isTree || !o.type.isTree then .error
    else if b = o then .ok (b, s)
    else
      match readTree E s b with
      | none => .error
      | some eb =>
        match readTree E s o with
        | none => .error
        | some eo =>
          match mergeLoop disjoint (E.visit eb) eo [] with
          | none => .conflict
          | some (acc, keys) =>
            (mergeSubs (overlay disjoint n) keys s acc).bind fun r => .ok (writeTree E r.2 r.1)

/-- executor.hpp:115-131. -/
def overlayAll (disjoint : Bool) (n : Nat) : List Info → Info → Store → Out (Info × Store)
  | [], tree, s => .ok (tree, s)
  | i :: t, tree, s => (overlay E disjoint n s tree i).bind fun r => overlayAll disjoint n t r.1 r.2

/-- executor.hpp:84-141 (`ExecuteTreeOverlayAction`); the inputs are in the order of their names, which is
the order given in the description (C08). -/
def overlayAction (disjoint : Bool) (n : Nat) (l : List Info) (s : Store) : Out (Info × Store) :=
  overlayAll E disjoint n l (writeTree E s []).1 (writeTree E s []).2

end Verif.Tree
