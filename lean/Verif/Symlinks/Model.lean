import Verif.Symlinks.Spec
import Verif.Path.Model

/-!
# Resolving symbolic links

Source: `src/buildtool/file_system/symlinks/resolve_symlinks_map.cpp`, `git_repo.cpp` (`GetObjectByPathFromTree`).

Objects are given by their contents instead of their identifiers. Reading and writing objects is taken to work, except that a tree may
be missing in the source repository. In which order `CreateTree` writes the entries is the subject of C32.
-/

namespace Verif.Symlinks

open Verif.Path

/-- pragma_special.hpp:26-30. -/
inductive Mode where
  | ignore
  | partially
  | completely
  deriving DecidableEq

/-- resolve_symlinks_map.hpp:81-85 (`ResolvedGitObject`). -/
structure Resolved where
  node : Node
  path : Str

/-- git_repo.cpp:1502-1606 (`GetObjectByPathFromTree`). -/
def getObject (root : Node) (p : Str) : Option Node :=
  if p = dot then some root else root.find (splitAt '/' p)

/-- resolve_symlinks_map.cpp:139-187: the path of an entry; resolve_symlinks_map.hpp:59 (normal form). -/
def childPath (p x : Str) : Str := toNormalPath (append p x)

/-- resolve_symlinks_map.cpp:144-145: the entries not ignored. -/
def wanted (m : Mode) (es : List (Str × Node)) : List (Str × Node) :=
  es.filter fun e => !e.2.isLink || m != .ignore

/-- resolve_symlinks_map.cpp:189-206: the entries of the new tree. -/
def rebuilt (p : Str) (f : Str → Resolved) (es : List (Str × Node)) : List (Str × Node) :=
  es.map fun e => (filename (childPath p e.1), (f e.1).node)

/-- resolve_symlinks_map.cpp:288-289: the path a link is resolved to. -/
def targetPath (p c : Str) : Str := toNormalPath (append (parentPath p) c)

/-! ## What may be the value for a path

The map has one value for each path, no matter whether what is there is handed over with the request (`known_info`) or
looked up, and no matter which of several requests came first. `Val` holds for all values possible. -/

/-- The paths asked for, at most: the root, entries, targets of links that passed the test for confinement, and parents. -/
inductive Requested : Str → Prop where
  | top : Requested dot
  | child {p x : Str} (h : Requested p) (hx : GoodName x) : Requested (childPath p x)
  | target {p c : Str} (h : Requested p) (hc : confined c p = .val true) : Requested (targetPath p c)
  | parent {p : Str} (h : Requested p) : Requested (toNormalPath (parentPath p))

mutual

/-- The values that may be set for a path. -/
inductive Val (root : Node) (m : Mode) (readable : Node → Bool) : Str → Resolved → Prop where
  /-- resolve_symlinks_map.cpp:309-326: what is there in the source; for the entries of a tree of the source this is what is handed
  over (resolve_symlinks_map.cpp:148-186) -/
  | source {p : Str} {n : Node} {r : Resolved} (h : getObject root p = some n) (hk : Known root m readable p n r) :
      Val root m readable p r
  /-- resolve_symlinks_map.cpp:327-398: via the resolved parent -/
  | missing {p : Str} {n : Node} {rp r : Resolved} {es : List (Str × Node)} (h : getObject root p = none)
      (hm : m ≠ .ignore) (hp : parentPath p ≠ p) (hv : Val root m readable (toNormalPath (parentPath p)) rp)
      (ht : rp.node = .tree es) (he : entryIn es (filename p) = some n)
      (hk : Known root m readable (toNormalPath (append rp.path (filename p))) n r) : Val root m readable p r
  /-- resolve_symlinks_map.cpp:175-186: what is handed over for the entries of a resolved tree -/
  | known {p : Str} {n : Node} {r : Resolved} (hq : Asked root m readable p n) (hk : Known root m readable p n r) :
      Val root m readable p r

/-- resolve_symlinks_map.cpp:109-294 (`ResolveKnownEntry`). -/
inductive Known (root : Node) (m : Mode) (readable : Node → Bool) : Str → Node → Resolved → Prop where
  | file {p id : Str} {x : Bool} : Known root m readable p (.file id x) ⟨.file id x, p⟩
  | tree {p : Str} {es : List (Str × Node)} {f : Str → Resolved} (hr : readable (.tree es) = true)
      (hf : ∀ e ∈ wanted m es, Val root m readable (childPath p e.1) (f e.1)) :
      Known root m readable p (.tree es) ⟨.tree (rebuilt p f (wanted m es)), p⟩
  | keep {p c : Str} (hm : m = .partially) (hc : confined c p = .val true) (hu : nonUpwards c = .val true) :
      Known root m readable p (.link c) ⟨.link c, p⟩
  | follow {p c : Str} {r : Resolved} (hm : m ≠ .ignore) (hc : confined c p = .val true)
      (hu : m = .completely ∨ nonUpwards c = .val false) (hv : Val root m readable (targetPath p c) r) :
      Known root m readable p (.link c) r

/-- What is handed over for the entries of a tree that was taken from a resolved one (resolve_symlinks_map.cpp:371-382). -/
inductive Asked (root : Node) (m : Mode) (readable : Node → Bool) : Str → Node → Prop where
  | top {p : Str} {rp : Resolved} {es es' : List (Str × Node)} {e : Str × Node} (hq : Requested p) (h : getObject root p = none)
      (hm : m ≠ .ignore) (hv : Val root m readable (toNormalPath (parentPath p)) rp)
      (ht : rp.node = .tree es) (he : entryIn es (filename p) = some (.tree es')) (hx : e ∈ es') :
      Asked root m readable (childPath (toNormalPath (append rp.path (filename p))) e.1) e.2
  | deeper {p : Str} {es : List (Str × Node)} {e : Str × Node} (h : Asked root m readable p (.tree es)) (hx : e ∈ es) :
      Asked root m readable (childPath p e.1) e.2

end

/-! ## Resolution as a function -/

/-- Why there is no value. -/
inductive Fault where
  /-- an error is reported -/
  | failed
  /-- undefined behaviour -/
  | undefined
  /-- the given depth is not enough -/
  | unfinished
  deriving DecidableEq

/-- resolve_symlinks_map.cpp:109-294 (`ResolveKnownEntry`). -/
def known (m : Mode) (readable : Node → Bool) (sub : Str → Except Fault Resolved) (p : Str) : Node → Except Fault Resolved
  | .file id x => .ok ⟨.file id x, p⟩
  | .tree es =>
    if readable (.tree es) = true then do
      let rs ← (wanted m es).mapM fun e => do
        let r ← sub (childPath p e.1)
        return (filename (childPath p e.1), r.node)
      return ⟨.tree rs, p⟩
    else .error .failed
  | .link c =>
    if m = .ignore then .error .failed
    else
      match confined c p with
      | .ub => .error .undefined
      | .val false => .error .failed
      | .val true =>
        if m = .completely then sub (targetPath p c)
        else
          match nonUpwards c with
          | .ub => .error .undefined
          | .val true => .ok ⟨.link c, p⟩
          | .val false => sub (targetPath p c)

/-- resolve_symlinks_map.cpp:305-408, looking up what is there for every request. -/
def resolve (root : Node) (m : Mode) (readable : Node → Bool) : Nat → Str → Except Fault Resolved
  | 0, _ => .error .unfinished
  | k + 1, p =>
    match getObject root p with
    | some n => known m readable (resolve root m readable k) p n
    | none =>
      if m = .ignore then .error .failed
      else if parentPath p = p then .error .failed
      else do
        let rp ← resolve root m readable k (toNormalPath (parentPath p))
        match rp.node with
        | .tree es =>
          match entryIn es (filename p) with
          | some n => known m readable (resolve root m readable k) (toNormalPath (append rp.path (filename p))) n
          | none => .error .failed
        | _ => .error .failed

end Verif.Symlinks
