import Verif.Result.Model
import Verif.Expr.HashProps

/-!
# What serialisation of target results is about
-/

namespace Verif.Result

open Verif.Art Verif.Dig Verif.Expr

variable {N : Type}

/-- A value is an immediate part of another one. -/
inductive Child : Value N → Value N → Prop where
  | stage (a p r : Value N) : Child a (.result a p r)
  | provides (a p r : Value N) : Child p (.result a p r)
  | runfiles (a p r : Value N) : Child r (.result a p r)
  | node (v : Value N) : Child v (.valueNode v)
  | strings (ty : Str) (s t : Value N) : Child s (.absNode ty s t)
  | targets (ty : Str) (s t : Value N) : Child t (.absNode ty s t)
  | entry {v : Value N} {l : List (Value N)} : v ∈ l → Child v (.list l)
  | value {k : Str} {v : Value N} {m : List (Str × Value N)} : (k, v) ∈ m → Child v (.map m)

/-- A value is part of another one. -/
inductive Sub : Value N → Value N → Prop where
  | refl (v : Value N) : Sub v v
  | step {c u v : Value N} : Child c u → Sub u v → Sub c v

mutual
/-- The value with all artifacts replaced. -/
def mapArt (f : Desc → Desc) : Value N → Value N
  | .art d => .art (f d)
  | .result a p r => .result (mapArt f a) (mapArt f p) (mapArt f r)
  | .valueNode v => .valueNode (mapArt f v)
  | .absNode ty s t => .absNode ty (mapArt f s) (mapArt f t)
  | .list l => .list (mapArtList f l)
  | .map m => .map (mapArtItems f m)
  | .none => .none
  | .bool b => .bool b
  | .num n => .num n
  | .str s => .str s
  | .name e => .name e
/-- All entries of a list. -/
def mapArtList (f : Desc → Desc) : List (Value N) → List (Value N)
  | [] => []
  | v :: t => mapArt f v :: mapArtList f t
/-- All values of a map. -/
def mapArtItems (f : Desc → Desc) : List (Str × Value N) → List (Str × Value N)
  | [] => []
  | (k, v) :: t => (k, mapArt f v) :: mapArtItems f t
end

/-- What an artifact is to be replaced by: if there are replacements at all, an artifact that is not known
becomes the known artifact given by its replacement.  A known artifact stays, but the repository it was found
in is dropped. -/
def stored (repl : Repl) (d : Desc) : Desc :=
  if repl.isEmpty = false ∧ d.isKnown = false then
    match replacement repl d with
    | some i => .known i.digest i.type none
    | none => d
  else d.forget

/-- The target result with all artifacts replaced. -/
def TargetResult.stored (repl : Repl) (r : TargetResult N) : TargetResult N where
  artifacts := r.artifacts.map fun kd => (kd.1, Verif.Result.stored repl kd.2)
  runfiles := r.runfiles.map fun kd => (kd.1, Verif.Result.stored repl kd.2)
  provides := mapArt (Verif.Result.stored repl) r.provides

/-- An artifact occurs in a target result. -/
def TargetResult.Has (r : TargetResult N) (d : Desc) : Prop :=
  (∃ k, (k, d) ∈ r.artifacts) ∨ (∃ k, (k, d) ∈ r.runfiles) ∨ Sub (.art d) r.provides

/-- What is assumed of a target result: no names of targets, proper digests. -/
structure TargetResult.OK (t : HashType) (r : TargetResult N) : Prop where
  names : ∀ e, ¬ Sub (.name e) r.provides
  valid : ∀ d, r.Has d → d.Valid t

/-- What is assumed of replacements: proper digests. -/
def ReplOK (t : HashType) (repl : Repl) : Prop :=
  ∀ d i, (d, i) ∈ repl → (Desc.known i.digest i.type none).Valid t

end Verif.Result
