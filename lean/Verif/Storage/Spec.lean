import Verif.Storage.Model

/-!
# What it means for the storage to be intact

None of the programs of the model is used here, only the layout of the storage on disk.
-/

namespace Verif.Storage

variable (E : Env) (σ : World) (g : Nat)

/-- A large-object entry for `d` is present in the generation, with all its parts, and the
concatenation of the parts is `b`. -/
def LargeAt (t : Bool) (d : Id) (b : Bytes) : Prop :=
  ∃ e ps cs, σ g (.large t d) = some e ∧ E.parseParts e = some ps ∧
    List.Forall₂ (fun p c => σ g (.cas .file p) = some c) ps cs ∧ cs.flatten = b

/-- The generation can deliver the blob `d` with content `b`. -/
def BlobAt (d : Id) (b : Bytes) : Prop :=
  σ g (.cas .file d) = some b ∨ σ g (.cas .exec d) = some b ∨ LargeAt E σ g false d b

/-- The generation can deliver the tree `d` with (serialised) content `b`. -/
def TreeAt (d : Id) (b : Bytes) : Prop :=
  σ g (.cas .tree d) = some b ∨ LargeAt E σ g true d b

/-- The generation can deliver an object. -/
def Has : Kind → Id → Prop
  | .blob _, d => ∃ b, BlobAt E σ g d b
  | .tree, d => ∃ b, TreeAt E σ g d b

/-- Everything referred to by the result of an action is in the generation. -/
def Outputs (r : Result) : Prop :=
  (∀ f ∈ r.files, ∃ b, BlobAt E σ g f.1 b) ∧
  (∀ t ∈ r.links, ∃ b, BlobAt E σ g (E.hashBlob t) b) ∧
  (∀ d ∈ r.dirs, ∃ b, TreeAt E σ g d b)

/-- All entries of the tree with content `b` are in the generation. -/
def TreeClosed (b : Bytes) : Prop :=
  ∃ es, E.parseTree b = some es ∧ ∀ e ∈ es, Has E σ g e.2 e.1

/-- Everything a generation refers to is in that generation. -/
structure Closed : Prop where
  /-- All entries of trees are there. -/
  tree : ∀ d b, TreeAt E σ g d b → TreeClosed E σ g b
  /-- All parts of large objects are there. -/
  large : ∀ t d, (σ g (.large t d)).isSome → ∃ b, LargeAt E σ g t d b
  /-- The results of the action cache and their outputs are there. -/
  action : ∀ k e, σ g (.ac k) = some e → ∃ key b r, E.parseKey e = some key ∧
    BlobAt E σ g key b ∧ E.parseResult b = some r ∧ Outputs E σ g r
  /-- The entries of the target cache, their artifacts and implied export targets are there. -/
  target : ∀ k e, σ g (.tc k) = some e → ∃ i b en as, E.parseInfo e = some i ∧
    BlobAt E σ g i b ∧ E.parseEntry b = some en ∧ en.artifacts = some as ∧
    (∀ a ∈ as, Has E σ g a.2 a.1) ∧ (∀ j ∈ en.implied, (σ g (.tc j)).isSome)

/-- Everything a generation can deliver under some hash has that hash. -/
structure Intact : Prop where
  blob : ∀ d b, BlobAt E σ g d b → E.hashBlob b = d
  tree : ∀ d b, TreeAt E σ g d b → E.hashTree b = d

/-- What is assumed about hashes, parsers and serialisers.  `U` is the set of contents occurring
in the storage; hashes are assumed to be free of collisions on these only. -/
structure Env.OK (U : Bytes → Prop) : Prop where
  injBlob : ∀ b b', U b → U b' → E.hashBlob b = E.hashBlob b' → b = b'
  injTree : ∀ b b', U b → U b' → E.hashTree b = E.hashTree b' → b = b'
  /-- A blob and a tree never have the same hash; so all entries of a tree with the same hash are
  trees or none is. -/
  kinds : ∀ b es, U b → E.parseTree b = some es → ∀ i k k', (i, k) ∈ es → (i, k') ∈ es →
    (k = .tree ↔ k' = .tree)
  /-- Guaranteed by the chunker: C11. -/
  chunks_flatten : ∀ b, (E.chunks b).flatten = b
  /-- Guaranteed by the chunker: C13. -/
  chunks_chunk : ∀ b c, c ∈ E.chunks b → E.chunks c = [c]
  chunks_mem : ∀ b c, U b → c ∈ E.chunks b → U c
  parts_dump : ∀ ps, E.parseParts (E.dumpParts ps) = some ps
  key_dump : ∀ d, E.parseKey (E.dumpKey d) = some d
  info_dump : ∀ d, E.parseInfo (E.dumpInfo d) = some d
  result_dump : ∀ r, E.parseResult (E.dumpResult r) = some r
  entry_dump : ∀ e, E.parseEntry (E.dumpEntry e) = some e
  gens : 0 < E.numGen
  valid_blob : ∀ b, E.validName (E.hashBlob b) = true
  valid_tree : ∀ b, E.validName (E.hashTree b) = true

/-- References between trees and between target-cache entries are not cyclic. -/
structure Ranks (U : Bytes → Prop) where
  tree : Id → Nat
  target : Id → Nat
  tree_lt : ∀ b es i, U b → E.parseTree b = some es → (i, Kind.tree) ∈ es →
    tree i < tree (E.hashTree b)

end Verif.Storage
