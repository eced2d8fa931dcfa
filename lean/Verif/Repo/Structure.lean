import Verif.Tree.Install

/-!
# Model of the computation of tree structures

Source: `src/buildtool/tree_structure/tree_structure_utils.cpp`, `src/buildtool/tree_structure/tree_structure_cache.cpp`.

Git hashes are given in binary form (20 bytes). The storage is given by the contents of the trees in it; the only
blob of interest is the empty one, with hash `b`.
-/

namespace Verif.Struct

open Verif.Dig (ObjectType)
open Verif.Path
open Verif.Roots (Out)
open Verif.Tree (Info Obs Env Store Ent Groups retrieve parseTree group flat addTo createTree)
open Verif.Install (FS Cas retrieveToPaths importDir)

/-- Entries of one generation of the cache, from a tree to its structure. -/
abbrev Gen := List (Str × Str)

/-- The trees in the storage, the latest generation of the cache, and the older ones. -/
structure State where
  cas : Store
  latest : Gen
  older : List Gen
deriving DecidableEq

/-- Entry of one generation of the cache. -/
def Gen.find (g : Gen) (k : Str) : Option Str := (g.find? fun x => x.1 = k).map Prod.snd

/-- file_storage.hpp:106-140, with `StoreMode::FirstWins`: an existing file is kept. -/
def Gen.add (k v : Str) (g : Gen) : Gen :=
  match g.find k with
  | some _ => g
  | none => (k, v) :: g

/-- tree_structure_cache.cpp:135-150: the entry in the latest generation that has one. -/
def findIn (k : Str) : List Gen → Option Str
  | [] => none
  | g :: r => (g.find k).or (findIn k r)

/-- tree_structure_cache.cpp:88-100 (`Get`), 127-151 (`LocalUplinkObject`): both trees have to be in the storage, and the
entry is added to the latest generation. -/
def cacheGet (E : Env) (k : Str) (s : State) : Option Str × State :=
  if retrieve E s.cas k = none then (none, s)
  else
    match findIn k (s.latest :: s.older) with
    | none => (none, s)
    | some v => if retrieve E s.cas v = none then (none, s) else (some v, { s with latest := s.latest.add k v })

/-- tree_structure_cache.cpp:102-125 (`Set`). -/
def cacheSet (E : Env) (k v : Str) (s : State) : Bool × State :=
  match cacheGet E k s with
  | (some w, s') => (w = v, s')
  | (none, s') =>
    if retrieve E s'.cas k = none ∨ retrieve E s'.cas v = none then (false, s')
    else (true, { s' with latest := s'.latest.add k v })

/-- tree_structure_utils.cpp:74-109: the loop over the entries; `f` is what is done with trees. -/
def computeGo (b : Str) (f : Str → State → Option Str × State) : List Ent → Groups → State → Option Groups × State
  | [], g, s => (some g, s)
  | e :: l, g, s =>
    if e.type = .tree then
      match f e.id s with
      | (none, s') => (none, s')
      | (some v, s') => computeGo b f l (addTo v (e.name, e.type) g) s'
    else computeGo b f l (addTo b (e.name, e.type) g) s

/-- tree_structure_utils.cpp:42-130 (`Compute`), for trees of at most the given depth; `ord` is the order in which entries are
visited. Storing the empty blob and `CreateShallowTree` are taken to succeed. -/
def compute (E : Env) (b : Str) (ord : List Ent → List Ent) : Nat → Str → State → Option Str × State
  | 0, _, s => (none, s)
  | n + 1, id, s =>
    match cacheGet E id s with
    | (some v, s1) => (some v, s1)
    | (none, s1) =>
      match (retrieve E s1.cas id).bind parseTree with
      | none => (none, s1)
      | some l =>
        match computeGo b (compute E b ord n) (ord (flat (group l))) [] s1 with
        | (none, s2) => (none, s2)
        | (some g, s2) =>
          match cacheSet E id (E.H (createTree g)) { s2 with cas := createTree g :: s2.cas } with
          | (true, s3) => (some (E.H (createTree g)), s3)
          | (false, s3) => (none, s3)

/-! ## Import to git -/

/-- What staging needs to know on the storage: every blob of a structure is empty. -/
def casOf (b : Str) (ord : List Ent → List Ent) (s : State) : Cas := ⟨s.cas, fun i => if i = b then some [] else none, ord⟩

/-- tree_structure_utils.cpp:132-191 (`ImportToGit`): `git` are the trees in the git repository, `fs` is the file
system with the temporary directory. The tree returned, and the trees in the repository afterwards. -/
def importToGit (E : Env) (C : Cas) (n : Nat) (tmp : Str) (fs : FS) (v : Str) (git : Store) : Out (Str × Store) :=
  if retrieve E C.trees v = none then .error
  else if retrieve E git v ≠ none then .ok (v, git)
  else
    match retrieveToPaths E C none n [] [(tmp, ⟨.tree, v⟩)] fs with
    | .ub => .ub
    | .error => .error
    | .ok (false, _) => .error
    | .ok (true, fs') =>
      match importDir E.H fs' n (Install.resolve [] tmp) with
      | none => .error
      | some (root, made) => .ok (root, made ++ git)

/-- tree_structure_utils.cpp:229-300 (`ComputeStructureLocally`), for a tree that is in the storage: if the structure is in the
cache, what the import returns, otherwise the structure computed. The bounds for the depth are for computing, and for staging
and importing. -/
def computeLocally (E : Env) (b : Str) (ord : List Ent → List Ent) (n m : Nat) (tmp : Str) (fs : FS) (id : Str) (s : State)
    (git : Store) : Out (Str × State × Store) :=
  match cacheGet E id s with
  | (some v, s1) => (importToGit E (casOf b ord s1) m tmp fs v git).bind fun r => .ok (r.1, s1, r.2)
  | (none, s1) =>
    match compute E b ord n id s1 with
    | (none, _) => .error
    | (some v, s2) => (importToGit E (casOf b ord s2) m tmp fs v git).bind fun r => .ok (v, s2, r.2)

end Verif.Struct
