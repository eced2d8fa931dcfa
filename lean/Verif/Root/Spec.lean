import Verif.Path.Spec

/-!
# Source trees

What a root shows, independent of the way it is read.
-/

namespace Verif.Root

open Verif.Path

/-- What there is at a place: a file, a symbolic link, something else (a submodule in a git tree; a socket, pipe, or device in a
file system), or a directory. -/
inductive Node where
  | file (content : Str) (executable : Bool)
  | link (content : Str)
  | other
  | dir (entries : List (Str × Node))

/-- The entries of a directory. -/
abbrev Entries := List (Str × Node)

/-- object_type.hpp:21-26. -/
inductive Kind where
  | file
  | executable
  | tree
  | symlink
  deriving DecidableEq

/-- git_repo.cpp:81-99 and file_system_manager.hpp:646-681: the type of an object, if supported. -/
def Node.kind : Node → Option Kind
  | .file _ x => some (if x then .executable else .file)
  | .link _ => some .symlink
  | .other => none
  | .dir _ => some .tree

/-- git_repo.cpp:76-79 (`GitFileModeIsNonSpecial`), negated; object_type.hpp:80-84. -/
def Node.special : Node → Bool
  | .link _ => true
  | .other => true
  | _ => false

/-- The entry with a given name. -/
def entryIn : Entries → Str → Option Node
  | [], _ => none
  | (y, n) :: l, x => if y = x then some n else entryIn l x

/-- What is found going down, following no links. -/
def Node.find : Node → List Str → Option Node
  | n, [] => some n
  | .dir es, x :: l =>
    match entryIn es x with
    | none => none
    | some m => m.find l
  | _, _ :: _ => none

mutual
/-- The tree without everything that is neither a file nor a directory. -/
def Node.strip : Node → Node
  | .dir es => .dir (stripped es)
  | n => n
/-- The entries without everything that is neither a file nor a directory. -/
def stripped : Entries → Entries
  | [] => []
  | (x, n) :: es => if n.special then stripped es else (x, n.strip) :: stripped es
end

/-- What a root shows: everything, or everything that is neither a file nor a directory being absent. -/
def shown (ign : Bool) (es : Entries) : Node := if ign then (Node.dir es).strip else .dir es

/-- The content of a symbolic link that is relative and never leads above the directory it is in. -/
def Inside (c : Str) : Prop := c ≠ [] ∧ (place c).abs = false ∧ (place c).up = 0

/-- Only files, directories, and symbolic links that do not lead upwards. -/
inductive Valid : Node → Prop where
  | file (c : Str) (x : Bool) : Valid (.file c x)
  | link {c : Str} (h : Inside c) : Valid (.link c)
  | dir {es : Entries} (h : ∀ e ∈ es, Valid e.2) : Valid (.dir es)

/-- The path consisting of the given names leads to the node without using symbolic links, or to nothing. -/
def NoLinkOn (n : Node) (l : List Str) : Prop := ∀ m k c, l = m ++ k → k ≠ [] → n.find m ≠ some (.link c)

/-- The part of a node that can be used as artifact. -/
def Node.asSource : Node → Option Node
  | .file c x => some (.file c x)
  | .link c => some (.link c)
  | _ => none

/-- The names that can be used in directories and paths. -/
def Names (l : List Str) : Prop := ∀ a ∈ l, ProperName a

/-- All names in directories can be used in paths. -/
inductive Named : Node → Prop where
  | file (c : Str) (x : Bool) : Named (.file c x)
  | link (c : Str) : Named (.link c)
  | other : Named .other
  | dir {es : Entries} (h1 : ∀ e ∈ es, ProperName e.1) (h2 : (es.map Prod.fst).Nodup) (h3 : ∀ e ∈ es, Named e.2) : Named (.dir es)

/-- How many directories there are below each other at most. -/
inductive Deep : Nat → Node → Prop where
  | leaf {n : Nat} {m : Node} (h : ∀ es, m ≠ .dir es) : Deep n m
  | dir {n : Nat} {es : Entries} (h : ∀ e ∈ es, Deep n e.2) : Deep (n + 1) (.dir es)

/-- What lies below a node. -/
inductive Under : Node → List Str → Node → Prop where
  | here (n : Node) : Under n [] n
  | step {n m : Node} {p : List Str} {es : Entries} {x : Str} (h : Under n p (.dir es)) (hm : (x, m) ∈ es) :
      Under n (p ++ [x]) m

/-- No two directories of the root have the same id. -/
def NoClash (H : Node → Str) (content : Entries) : Prop :=
  ∀ p q es es', Under (.dir content) p (.dir es) → Under (.dir content) q (.dir es') → H (.dir es) = H (.dir es') → es = es'

/-- Below the second level, there is nothing to ignore. -/
def Shallow (content : Entries) : Prop :=
  ∀ p es x n, Under (.dir content) p (.dir es) → 2 ≤ p.length → (x, n) ∈ es → n.special = false

end Verif.Root
