import Verif.Tree.Model

/-!
# What git trees and overlays of trees are
-/

namespace Verif.Tree

open Verif.Dig (ObjectType)

/-! ## Git's format -/

/-- All entries. -/
def flat (g : Groups) : List Ent := g.flatMap fun p => p.2.map fun nt => ⟨nt.1, nt.2, p.1⟩

/-- The mode of an entry in git's notation. -/
def gitMode : ObjectType → String
  | .file => "100644"
  | .executable => "100755"
  | .tree => "40000"
  | .symlink => "120000"

/-- The name by which git sorts: directories as if they had a trailing slash. -/
def gitName (e : Ent) : Str := if e.type = .tree then e.name ++ ['/'] else e.name

/-- Git's text of an entry: mode, blank, name, zero byte, object. -/
def gitText (e : Ent) : Str := (gitMode e.type).toList ++ ' ' :: (e.name ++ Char.ofNat 0 :: e.id)

/-- An entry git can represent. -/
structure Ent.OK (e : Ent) : Prop where
  nonempty : e.name ≠ []
  noZero : ∀ c ∈ e.name, c.toNat ≠ 0
  noSlash : '/' ∉ e.name
  short : e.name.length ≤ 65535
  id : e.id.length = 20

/-- A directory listing: valid entries with different names. -/
structure Listing (l : List Ent) : Prop where
  ok : ∀ e ∈ l, e.OK
  names : (l.map Ent.name).Nodup

/-- Entries that are the same object have the same type. -/
def Uniform (l : List Ent) : Prop := ∀ e ∈ l, ∀ e' ∈ l, e.id = e'.id → e.type = e'.type

/-! ## Walking through trees -/

/-- What can be found at a path: a directory, or an object with its type. -/
inductive Obs where
  | dir
  | leaf (type : ObjectType) (id : Str)
  deriving DecidableEq

/-- What is found when walking down a path, each entry having the type recorded in the tree. -/
def look (E : Env) (s : Store) : Info → List Str → Option Obs
  | i, [] => some (if i.type = .tree then .dir else .leaf i.type i.id)
  | i, n :: p =>
    if i.type = .tree then
      (retrieve E s i.id).bind fun d => (parseTree d).bind fun l =>
        (l.find? fun e => e.name = n).bind fun e => look E s ⟨e.type, e.id⟩ p
    else none

/-- A path is shadowed if it leads through something that is no directory. -/
def Shadowed (f : List Str → Option Obs) (p : List Str) : Prop :=
  ∃ q, q <+: p ∧ q ≠ p ∧ ∃ ty id, f q = some (.leaf ty id)

/-- `r` is `a` with `b` put on top of it. -/
structure Merged (a b r : List Str → Option Obs) : Prop where
  later : ∀ p o, b p = some o → r p = some o
  shadowed : ∀ p, b p = none → Shadowed b p → r p = none
  earlier : ∀ p, b p = none → ¬ Shadowed b p → r p = a p

/-- Two trees conflict at a path: both have something there, it is different, and not both are
directories (two directories are never different). -/
def Conflict (a b : List Str → Option Obs) (p : List Str) : Prop :=
  ∃ x y, a p = some x ∧ b p = some y ∧ x ≠ y

/-- The tree and all trees below it are in the store, well formed, and in each of them entries that are the
same object have the same type. -/
inductive Complete (E : Env) (s : Store) : Info → Prop where
  | leaf {i : Info} : i.type ≠ .tree → Complete E s i
  | tree {id d : Str} {l : List Ent} : retrieve E s id = some d → parseTree d = some l → Listing l →
      Uniform l → (∀ e ∈ l, Complete E s ⟨e.type, e.id⟩) → Complete E s ⟨.tree, id⟩

/-- What is assumed of the environment: hashes have 20 bytes, and visiting a map visits every entry once. -/
structure Env.OK (E : Env) : Prop where
  length : ∀ s, (E.H s).length = 20
  visit : ∀ l, (E.visit l).Perm l

/-- The hash function has no collision among some trees. -/
def NoCollision (E : Env) (s : Store) : Prop := ∀ a ∈ s, ∀ b ∈ s, E.H a = E.H b → a = b

end Verif.Tree
