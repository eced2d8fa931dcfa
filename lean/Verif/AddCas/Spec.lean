import Verif.AddCas.Model
import Verif.Repo.ArtifactsRootProps

/-!
# Adding files and directories to the CAS: what is expected
-/

namespace Verif.AddCas

open Verif Verif.Path
open Verif.Dig (ObjectType)
open Verif.Tree (Obs)
open Verif.Roots (Name)

/-- A file system as it can exist: names in a directory can be used in paths, they are different, and links are not empty. -/
inductive Proper : Node → Prop where
  | file (i : Nat) : Proper (.file i)
  | link {t : Str} (h : t ≠ []) : Proper (.link t)
  | special : Proper .special
  | dir {es : List (Str × Node)} (h1 : ∀ e ∈ es, Name e.1) (h2 : (es.map Prod.fst).Nodup) (h3 : ∀ e ∈ es, Proper e.2) :
      Proper (.dir es)

/-- realpath(3): the path without links a path leads to. -/
def Resolves (fs : Node) (p r : List Str) : Prop := ∃ b, walk fs true b [] p = some r

/-- A link that is relative and never leads above the directory it is in. -/
def NonUpwards (t : Str) : Prop := t.head? ≠ some '/' ∧ NeverAbove (splitAt '/' t)

/-- The links that are to be kept. -/
def Kept (m : Option Mode) (t : Str) : Prop := (m = none ∨ m = some .treeUpwards) ∧ NonUpwards t

/-- The links that are to be replaced by what they lead to. -/
def Followed (m : Option Mode) (t : Str) : Prop :=
  m = some .all ∨ m = some .treeAll ∨ (m = some .treeUpwards ∧ ¬ NonUpwards t)

/-- What the tree of a directory has to show at a path: what is in the directory, links being kept, replaced by what they lead to,
or left out. What is reached over links has to satisfy `P`. -/
inductive Shows (W : World) (inode : Nat → Inode) (P : List Str → Prop) : List Str → List Str → Obs → Prop where
  | here {D : List Str} {es : List (Str × Node)} (h : W.fs.find D = some (.dir es)) : Shows W inode P D [] .dir
  | file {D : List Str} {n : Str} {i : Nat} (h : W.fs.find (D ++ [n]) = some (.file i)) :
      Shows W inode P D [n] (.leaf (typeOf (inode i).exec) (W.H (inode i).content))
  | down {D : List Str} {n : Str} {es : List (Str × Node)} {q : List Str} {o : Obs} (h : W.fs.find (D ++ [n]) = some (.dir es))
      (hs : Shows W inode P (D ++ [n]) q o) : Shows W inode P D (n :: q) o
  | keep {D : List Str} {n t : Str} (h : W.fs.find (D ++ [n]) = some (.link t)) (hk : Kept W.mode t) :
      Shows W inode P D [n] (.leaf .symlink (W.H t))
  | linkFile {D r : List Str} {n t : Str} {i : Nat} (h : W.fs.find (D ++ [n]) = some (.link t)) (hf : Followed W.mode t)
      (hr : Resolves W.fs (D ++ [n]) r) (hp : P r) (hi : W.fs.find r = some (.file i)) :
      Shows W inode P D [n] (.leaf (typeOf (inode i).exec) (W.H (inode i).content))
  | linkDir {D r : List Str} {n t : Str} {es : List (Str × Node)} {q : List Str} {o : Obs}
      (h : W.fs.find (D ++ [n]) = some (.link t)) (hf : Followed W.mode t) (hr : Resolves W.fs (D ++ [n]) r) (hp : P r)
      (hi : W.fs.find r = some (.dir es)) (hs : Shows W inode P r q o) : Shows W inode P D (n :: q) o

/-- Where some segments of a link lead lexically, from the directory of the link. -/
def spotOf (D : List Str) (t : Str) (cs : List Str) : List Str :=
  (cs.foldl Place.follow ⟨true, 0, if isAbs t then [] else D⟩).down

/-- Below `scope`, the targets of links are reached through directories only, not through further links. -/
def Plain (fs : Node) (scope : List Str) : Prop :=
  ∀ D n t, scope <+: D → fs.find (D ++ [n]) = some (.link t) → ∀ cs, cs <+: comps t → cs ≠ comps t →
    ∃ es, fs.find (spotOf D t cs) = some (.dir es)

/-- The links that matter: if only links within the tree are allowed, those there, and otherwise all; and none, if links are
not followed. -/
def PlainFor (W : World) (root : List Str) : Prop :=
  W.mode = none ∨ W.mode = some .ignore ∨ Plain W.fs (if W.mode = some .all then [] else root)

end Verif.AddCas
