import Verif.Path.Model
import Verif.Root.Spec

/-!
# Model of source roots

Source: `src/buildtool/file_system/file_root.hpp`, `git_tree.hpp`, `git_tree.cpp`, `git_tree_utils.cpp`, the reading of trees in
`git_repo.cpp`, the queries of `file_system_manager.hpp`, and the places of the analysis where roots are asked:
`build_engine/base_maps/{json_file_map.hpp,source_map.cpp,directory_map.cpp}` and `TreeTarget` of `target_map.cpp`.

A root is the content of a directory. The repository of a git root is complete, reading from the file system and writing marker
files do not fail, and the root is not changed while it is used. Outcomes are of type `Option`, with `none` for undefined
behaviour. Ids of trees are given by a function `H`. (Only the protocol using git ids is modelled: with the other one,
`AsKnownTree` gives nothing.)
-/

namespace Verif.Root

open Verif.Path

/-! ## Git trees -/

/-- git_tree.cpp:62-73 with git_cas.cpp:176-186: whether all symbolic links are non-upwards. (The links are visited in the order
of a hash map; here, in the order of the tree.) -/
def linksFine : Entries → Option Bool
  | [] => some true
  | (_, .link c) :: es =>
    match nonUpwards c with
    | .ub => none
    | .val false => some false
    | .val true => linksFine es
  | _ :: es => linksFine es

/-- git_repo.cpp:1846-1898 (`ReadDirectTree`) with the walkers git_repo.cpp:155-199. -/
def readDirect (ign : Bool) (es : Entries) : Option Entries :=
  if ign then some (es.filter fun e => !e.2.special)
  else if es.any fun e => e.2.kind == none then none
  else some es

/-- git_repo.cpp:1900-1952 (`ReadTree`). The inner option tells whether the tree could be read. -/
def readTree (ign : Bool) (es : Entries) : Option (Option Entries) :=
  match readDirect ign es with
  | none => some none
  | some l =>
    if ign then some (some l)
    else
      match linksFine l with
      | none => none
      | some b => some (if b then some l else none)

/-- An object for an entry of a git tree: below the tree read when opening the root (`false`) or below the entry created for the
root itself (`true`, file_root.hpp:391-392), and the path to it. -/
abbrev Key := Bool × List Str

/-- What is remembered: for entries the tree of which has been read, the flag it was read with (git_tree.hpp:166,
`tree_cached_`); and the marker files of trees known to be valid (git_tree_utils.cpp:31-37). -/
structure State where
  cache : List (Key × Bool)
  marks : List Str

/-- multithreading/atomic_value.hpp, `SetOnceAndGet`: the flag the tree of an entry is or was read with. -/
def touch (k : Key) (ign : Bool) (st : State) : Bool × State :=
  match st.cache.lookup k with
  | some f => (f, st)
  | none => (ign, { st with cache := (k, ign) :: st.cache })

/-- git_tree.cpp:154-176 (`GitTreeEntry::Tree`) for an entry that is a tree: the tree, if it can be read, and the flag it was read
with. -/
def entryTree (k : Key) (ign : Bool) (st : State) (es : Entries) : Option (Option Entries × Bool × State) :=
  (readTree (touch k ign st).1 es).map fun r => (r, touch k ign st)

/-- git_tree.cpp:28-33 (`ResolveRelativePath`), with the elements of the path. -/
def resolvePath (s : Str) : List Str := elems (parentPath (append (lexNormal s) []))

/-- git_tree.cpp:35-53 (`LookupEntryPyPath`). The recursive call has the default value `false` for the last argument. The empty
path leads to dereferencing the end iterator. -/
def lookupGo (p : List Str) (ign : Bool) (tree : Entries) (st : State) : List Str → Option (Option (List Str × Node) × State)
  | [] => none
  | [x] => some ((entryIn tree x).map fun n => (p ++ [x], n), st)
  | x :: y :: rest =>
    match entryIn tree x with
    | some (.dir es) =>
      match entryTree (false, p ++ [x]) ign st es with
      | none => none
      | some (none, _, st') => some (none, st')
      | some (some t, _, st') => lookupGo (p ++ [x]) false t st' (y :: rest)
    | _ => some (none, st)

/-- A git root: the content of its tree, whether special entries are ignored, and the function computing the ids. -/
structure GitRoot where
  content : Entries
  ign : Bool
  H : Node → Str

/-- file_root.hpp:382-386: a root can only be opened, if its tree can be read, without checking links. -/
def GitRoot.Opened (G : GitRoot) : Prop := (readDirect G.ign G.content).isSome = true

/-- file_root.hpp:382-383: the tree kept. -/
def GitRoot.tree (G : GitRoot) : Entries := (readDirect G.ign G.content).getD []

/-- git_tree.cpp:126-131 (`LookupEntryByPath`). -/
def lookup (G : GitRoot) (st : State) (s : Str) : Option (Option (List Str × Node) × State) :=
  lookupGo [] G.ign G.tree st (resolvePath s)

/-- git_tree.cpp:144-152 (`GitTreeEntry::Blob`). -/
def blob : Node → Option (Option Str)
  | .file c _ => some (some c)
  | .link c =>
    match nonUpwards c with
    | .ub => none
    | .val b => some (if b then some c else none)
  | _ => some none

/-- file_root.hpp:487-494 (`IsFile`). -/
def isFile (G : GitRoot) (st : State) (s : Str) : Option (Bool × State) :=
  match lookup G st s with
  | none => none
  | some (some (_, .file _ _), st') => some (true, st')
  | some (_, st') => some (false, st')

/-- file_root.hpp:504-516 (`IsSymlink`). -/
def isSymlink (G : GitRoot) (st : State) (s : Str) : Option (Bool × State) :=
  if G.ign then some (false, st)
  else
    match lookup G st s with
    | none => none
    | some (some (_, .link c), st') => (blob (.link c)).map fun b => (b.isSome, st')
    | some (_, st') => some (false, st')

/-- file_root.hpp:526-529 (`IsBlob`). -/
def isBlob (G : GitRoot) (st : State) (s : Str) : Option (Bool × State) :=
  match isFile G st s with
  | none => none
  | some (true, st') => some (true, st')
  | some (false, st') => isSymlink G st' s

/-- file_root.hpp:533-543 (`IsDirectory`). -/
def isDirectory (G : GitRoot) (st : State) (s : Str) : Option (Bool × State) :=
  if s = dot then some (true, st)
  else
    match lookup G st s with
    | none => none
    | some (some (_, .dir _), st') => some (true, st')
    | some (_, st') => some (false, st')

/-- file_root.hpp:553-563 (`ReadContent`). -/
def readContent (G : GitRoot) (st : State) (s : Str) : Option (Option Str × State) :=
  match lookup G st s with
  | none => none
  | some (some (_, n), st') => (blob n).map fun b => (b, st')
  | some (none, st') => some (none, st')

/-- file_root.hpp:704-756 (`ToArtifactDescription`): a known artifact. It is given here as what it stands for; the type is the one
of the entry, and the digest the one of the content. -/
def toArtifact (G : GitRoot) (st : State) (s : Str) : Option (Option Node × State) :=
  match lookup G st s with
  | none => none
  | some (some (_, .file c x), st') => some (some (.file c x), st')
  | some (some (_, .link c), st') => (blob (.link c)).map fun b => (b.map .link, st')
  | some (_, st') => some (none, st')

mutual
/-- git_tree_utils.cpp:62-79 and git_tree_utils.cpp:104-121: validating the tree of an entry, unless it is marked as valid, marking
it. Entries that are no trees need no validation here. -/
def validateDir (H : Node → Str) (k : Key) (st : State) : Node → Option (Bool × State)
  | .dir es =>
    if H (.dir es) ∈ st.marks then some (true, st)
    else
      match entryTree k false st es with
      | none => none
      | some (none, _, st') => some (false, st')
      | some (some _, f, st') =>
        match validateSubs H k f st' es with
        | none => none
        | some (false, st'') => some (false, st'')
        | some (true, st'') => some (true, { st'' with marks := H (.dir es) :: st''.marks })
  | _ => some (true, st)
/-- git_tree_utils.cpp:61-82 (`ValidateGitSubtrees`): the entries of a tree read with the given flag. (The entries are visited in
the order of a hash map; here, in the order of the tree.) -/
def validateSubs (H : Node → Str) (k : Key) (f : Bool) (st : State) : Entries → Option (Bool × State)
  | [] => some (true, st)
  | (x, n) :: es =>
    if f && n.special then validateSubs H k f st es
    else
      match validateDir H (k.1, k.2 ++ [x]) st n with
      | none => none
      | some (false, st') => some (false, st')
      | some (true, st') => validateSubs H k f st' es
end

/-- file_root.hpp:131-332 (`DirectoryEntries`): names with types, and the tree that can be taken as known artifact
(file_root.hpp:231-266, `AsKnownTree`). -/
structure Listing where
  entries : List (Str × Option Kind)
  known : Option Entries

/-- The names and types of entries. -/
def kinds (es : Entries) : List (Str × Option Kind) := es.map fun e => (e.1, e.2.kind)

/-- file_root.hpp:231-266 with git_tree.hpp:75-78: a tree read ignoring special entries has no id. The id is the one of the whole
tree. -/
def listing (f : Bool) (t whole : Entries) : Listing := ⟨kinds t, if f then none else some whole⟩

/-- git_tree_utils.cpp:104-121 (`IsGitTreeValid`). -/
def treeValid (G : GitRoot) (k : Key) (st : State) : Node → Option (Bool × State)
  | .dir es => validateDir G.H k st (.dir es)
  | _ => some (false, st)

/-- file_root.hpp:604-607: reading the tree of an entry, once it is considered as valid. -/
def readEntry (G : GitRoot) (p : List Str) (st : State) : Node → Option (Option Listing × State)
  | .dir es => (entryTree (false, p) G.ign st es).map fun r => (r.1.map fun t => listing r.2.1 t es, r.2.2)
  | _ => some (none, st)

/-- file_root.hpp:579-616 (`ReadDirectory`); 643 for paths at which there is nothing. -/
def readDirectory (G : GitRoot) (st : State) (s : Str) : Option (Option Listing × State) :=
  if s = dot then
    if G.ign then some (some (listing true G.tree G.content), st)
    else
      match treeValid G (true, []) st (.dir G.content) with
      | none => none
      | some (true, st') => some (some (listing false G.tree G.content), st')
      | some (false, st') => some (none, st')
  else
    match lookup G st s with
    | none => none
    | some (none, st') => some (some ⟨[], none⟩, st')
    | some (some (p, n), st') =>
      if G.ign then readEntry G p st' n
      else
        match treeValid G (false, p) st' n with
        | none => none
        | some (true, st'') => readEntry G p st'' n
        | some (false, st'') => some (none, st'')

/-! ## Directories of the file system -/

/-- Going along a path: at a symbolic link that is not the last element, its content takes the place of its name (`follow`
continues). Nothing is found above the root, as the file system outside the root is not modelled. -/
def walkGo (find : List Str → Option Node) (follow : List Str → List Str → Option Node) :
    List Str → List Str → Option Node
  | cur, [] => find cur
  | cur, x :: rest =>
    if x = [] ∨ x = dot then walkGo find follow cur rest
    else if x = dotdot then if cur = [] then none else walkGo find follow cur.dropLast rest
    else
      match find (cur ++ [x]) with
      | none => none
      | some (.dir _) => walkGo find follow (cur ++ [x]) rest
      | some (.link c) =>
        if rest = [] then some (.link c)
        else if isAbs c then none
        else follow cur (splitAt '/' c ++ rest)
      | some n => if rest = [] then some n else none

/-- The object at a path, not following a symbolic link at the end (`symlink_status`), following the given number of symbolic
links at most. -/
def lstat (root : Entries) : Nat → List Str → List Str → Option Node
  | 0 => walkGo (fun p => (Node.dir root).find p) fun _ _ => none
  | n + 1 => walkGo (fun p => (Node.dir root).find p) (lstat root n)

/-- A root in the file system. -/
structure FileRoot where
  content : Entries
  ign : Bool

/-- The object at a path below the root. Linux follows 40 links at most. -/
def FileRoot.at (F : FileRoot) (s : Str) : Option Node :=
  if isAbs s then none else lstat F.content 40 [] (splitAt '/' s)

/-- The same, for a directory that is going to be read; here, a symbolic link at the end is followed. -/
def FileRoot.dirAt (F : FileRoot) (s : Str) : Option Entries :=
  if isAbs s then none
  else
    match lstat F.content 40 [] (splitAt '/' s ++ [dot]) with
    | some (.dir es) => some es
    | _ => none

/-- file_system_manager.hpp:646-681 (`Type`). -/
def FileRoot.type (F : FileRoot) (allowUpwards : Bool) (s : Str) : Option (Option Kind) :=
  match F.at s with
  | none => some none
  | some (.link c) =>
    if allowUpwards then some (some .symlink)
    else
      match nonUpwards c with
      | .ub => none
      | .val b => some (if b then some .symlink else none)
  | some n => some n.kind

/-- file_root.hpp:495-498 with file_system_manager.hpp:589-605. -/
def FileRoot.isFile (F : FileRoot) (s : Str) : Bool :=
  match F.at s with
  | some (.file _ _) => true
  | _ => false

/-- file_root.hpp:544-547 with file_system_manager.hpp:607-621. -/
def FileRoot.isDirectory (F : FileRoot) (s : Str) : Bool :=
  match F.at s with
  | some (.dir _) => true
  | _ => false

/-- file_root.hpp:564-573 (`ReadContent`). -/
def FileRoot.readContent (F : FileRoot) (s : Str) : Option (Option Str) :=
  match F.type false s with
  | none => none
  | some none => some none
  | some (some .symlink) =>
    match F.at s with
    | some (.link c) => some (some c)
    | _ => some none
  | some (some _) =>
    match F.at s with
    | some (.file c _) => some (some c)
    | _ => some none

/-- file_root.hpp:659-665 (`BlobType`). -/
def FileRoot.blobType (F : FileRoot) (s : Str) : Option (Option Kind) :=
  (F.type true s).map fun k => if k = some .tree then none else k

/-- file_system_manager.hpp:742-803 (`ReadDirectory`), not allowing upwards links. (The order of the entries is the one of the
directory.) -/
def readEntries (ign : Bool) : Entries → Option (Option (List (Str × Option Kind)))
  | [] => some (some [])
  | (x, n) :: es =>
    if n.special then
      if ign then readEntries ign es
      else
        match n with
        | .link c =>
          match nonUpwards c with
          | .ub => none
          | .val false => some none
          | .val true => (readEntries ign es).map fun r => r.map fun l => (x, n.kind) :: l
        | _ => some none
    else (readEntries ign es).map fun r => r.map fun l => (x, n.kind) :: l

/-- file_root.hpp:617-635 (`ReadDirectory`). -/
def FileRoot.readDirectory (F : FileRoot) (s : Str) : Option (Option Listing) :=
  match F.dirAt s with
  | none => some none
  | some es => (readEntries F.ign es).map fun r => r.map fun l => ⟨l, none⟩

/-! ## What the analysis asks for -/

/-- Result of reading a file with definitions. -/
inductive Read where
  | absent
  | failed
  | content (c : Str)

/-- json_file_map.hpp:88-106: the path was formed from the module and the name of the file; for a missing file, the module is
empty or not there. -/
def gitJson (G : GitRoot) (st : State) (s : Str) : Option (Read × State) :=
  match isFile G st s with
  | none => none
  | some (false, st') => some (.absent, st')
  | some (true, st') =>
    (readContent G st' s).map fun r => (match r.1 with | some c => .content c | none => .failed, r.2)

/-- json_file_map.hpp:88-106. -/
def FileRoot.json (F : FileRoot) (s : Str) : Option Read :=
  if F.isFile s then
    (F.readContent s).map fun r => match r with | some c => .content c | none => .failed
  else some .absent

/-- directory_map.cpp:50-69; `none` inside, if reading fails. -/
def gitDirectory (G : GitRoot) (st : State) (s : Str) : Option (Option Listing × State) :=
  match isDirectory G st (if s = [] then dot else s) with
  | none => none
  | some (false, st') => some (some ⟨[], none⟩, st')
  | some (true, st') => readDirectory G st' (if s = [] then dot else s)

/-- directory_map.cpp:50-69. -/
def FileRoot.directory (F : FileRoot) (s : Str) : Option (Option Listing) :=
  if F.isDirectory (if s = [] then dot else s) then F.readDirectory (if s = [] then dot else s) else some (some ⟨[], none⟩)

/-- source_map.cpp:71-78: whether a source file is taken from outside its module; dereferencing the begin of an empty path is
undefined. -/
def outside (name : Str) : Option Bool :=
  if isAbs (lexNormal name) then some true
  else
    match elems (lexNormal name) with
    | [] => none
    | e :: _ => some (e == dotdot)

/-- source_map.cpp:62-113: the artifact for a source file, directly from the root. -/
def gitSource (G : GitRoot) (st : State) (module name : Str) : Option (Option Node × State) :=
  match outside name with
  | none => none
  | some true => some (none, st)
  | some false =>
    match isBlob G st (append module (lexNormal name)) with
    | none => none
    | some (false, st') => some (none, st')
    | some (true, st') => toArtifact G st' (append module (lexNormal name))

/-- file_root.hpp:217-228 (`ContainsBlob`) for entries read from the file system. -/
def containsBlob (L : Listing) (x : Str) : Bool :=
  L.entries.any fun e => e.1 == x && (e.2 == some .file || e.2 == some .executable || e.2 == some .symlink)

/-- executor.hpp:585-606: what is uploaded for a local artifact. -/
def FileRoot.upload (F : FileRoot) (s : Str) : Option (Option Node) :=
  match F.blobType s with
  | none => none
  | some none => some none
  | some (some k) =>
    (F.readContent s).map fun r => r.map fun c => if k = .symlink then .link c else .file c (k == .executable)

/-- source_map.cpp:62-128: the artifact for a source file, after reading the directory; it is given as what is uploaded for it. -/
def FileRoot.source (F : FileRoot) (module name : Str) : Option (Option Node) :=
  match outside name with
  | none => none
  | some true => some none
  | some false =>
    match F.directory (parentPath (append module (lexNormal name))) with
    | none => none
    | some none => some none
    | some (some L) => if containsBlob L (filename name) then F.upload (append module (lexNormal name)) else some none

/-- The two questions needed for source trees. -/
structure Reader (σ : Type) where
  source : σ → Str → Str → Option (Option Node × σ)
  directory : σ → Str → Option (Option Listing × σ)

/-- The questions to a git root. -/
def GitRoot.reader (G : GitRoot) : Reader State := ⟨gitSource G, gitDirectory G⟩

/-- The questions to a root in the file system. -/
def FileRoot.reader (F : FileRoot) : Reader Unit :=
  ⟨fun _ m n => (F.source m n).map fun r => (r, ()), fun _ s => (F.directory s).map fun r => (r, ())⟩

/-- target_map.cpp:1745-1777 and 1785-1800: the artifacts for the entries of a directory; `sub` for the entries that are
directories. (The targets are analysed in an unspecified order, and here in the order of the entries.) -/
def treeGo {σ : Type} (R : Reader σ) (sub : σ → Str → Option (Option Node × σ)) (dir : Str) :
    List (Str × Option Kind) → σ → Option (Option Entries × σ)
  | [], s => some (some [], s)
  | (x, k) :: l, s =>
    match (if k = some .tree then sub s (append dir x) else R.source s dir x) with
    | none => none
    | some (none, s') => some (none, s')
    | some (some n, s') => (treeGo R sub dir l s').map fun r => (r.1.map fun es => (x, n) :: es, r.2)

/-- target_map.cpp:1712-1827 (`TreeTarget`): the tree a reference to a source tree stands for. The first argument bounds the
number of directories below each other. -/
def treeTarget {σ : Type} (R : Reader σ) : Nat → σ → Str → Option (Option Node × σ)
  | 0, s, _ => some (none, s)
  | n + 1, s, dir =>
    match R.directory s dir with
    | none => none
    | some (none, s') => some (none, s')
    | some (some L, s') =>
      match L.known with
      | some es => some (some (.dir es), s')
      | none => (treeGo R (treeTarget R n) dir L.entries s').map fun r => (r.1.map .dir, r.2)

end Verif.Root
