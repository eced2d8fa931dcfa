import Verif.Tree.Git
import Verif.Path.Model

/-!
# Model of the computation of a root from the artifacts of a target

Source: `src/buildtool/computed_roots/artifacts_root.cpp`.

Git hashes are given in binary form (20 bytes); the hexadecimal form used in digests is a renaming (lines 52-66).
`CreateShallowTree` is taken to succeed. The contents of the trees created are recorded, as their ids do not say
what they are.
-/

namespace Verif.Roots

open Verif.Dig (ObjectType)
open Verif.Path
open Verif.Tree (Groups Info addTo createTree)

/-- Outcomes: a value, an error that is reported, or undefined behaviour. -/
inductive Out (α : Type) where
  | ok (a : α)
  | error
  | ub
  deriving DecidableEq

def Out.bind {α β : Type} : Out α → (α → Out β) → Out β
  | .ok a, f => f a
  | .error, _ => .error
  | .ub, _ => .ub

/-- artifacts_root.cpp:70-74 (`PartialTree`): the current directory, the stack of trees (top first), and the contents of
the trees created so far. -/
structure Partial where
  dir : Str
  trees : List Groups
  made : List Str
  deriving DecidableEq

def Partial.init : Partial := ⟨[], [[]], []⟩

/-- artifacts_root.cpp:76-82 (`Down`). -/
def Partial.down (p : Partial) (segment : Str) : Partial :=
  if segment = dot ∨ segment = [] then p else ⟨append p.dir segment, [] :: p.trees, p.made⟩

/-- artifacts_root.cpp:84-95 (`Up`), with lines 39-50: accessing the top of an empty stack is undefined. -/
def Partial.up (H : Str → Str) (p : Partial) : Out Partial :=
  match p.trees with
  | t :: u :: r => .ok ⟨parentPath p.dir, addTo (H (createTree t)) (filename p.dir, .tree) u :: r, createTree t :: p.made⟩
  | _ => .ub

/-- artifacts_root.cpp:98-104: the loop going up. Each step removes a tree from the stack, so the bound, the size
of the stack, is never the limit. An empty relative path is dereferenced. -/
def Partial.ascend (H : Str → Str) (dir : Str) : Nat → Partial → Out Partial
  | 0, _ => .ub
  | n + 1, p =>
    match elems (lexRelative dir p.dir) with
    | [] => .ub
    | s :: _ => if s = dotdot then (p.up H).bind (Partial.ascend H dir n) else .ok p

/-- artifacts_root.cpp:97-109 (`To`). -/
def Partial.to (H : Str → Str) (dir : Str) (p : Partial) : Out Partial :=
  (Partial.ascend H dir p.trees.length p).bind fun q => .ok ((elems (lexRelative dir q.dir)).foldl Partial.down q)

/-- artifacts_root.cpp:52-66 (`AddEntry`), 111-122 (`Add`). -/
def Partial.add (H : Str → Str) (ps : Str) (i : Info) (p : Partial) : Out Partial :=
  (p.to H (parentPath ps)).bind fun q =>
    match q.trees with
    | t :: r => .ok ⟨q.dir, addTo i.id (filename ps, i.type) t :: r, q.made⟩
    | [] => .ub

/-- artifacts_root.cpp:124-137 (`Done`): the root and the contents of all trees created. -/
def Partial.done (H : Str → Str) : Nat → Partial → Out (Str × List Str)
  | 0, _ => .ub
  | n + 1, p =>
    if p.dir = [] then
      match p.trees with
      | t :: _ => .ok (H (createTree t), createTree t :: p.made)
      | [] => .ub
    else (p.up H).bind (Partial.done H n)

/-- artifacts_root.cpp:153-191: the loop over the artifacts; `none` stands for an artifact that is not known, or
cannot be rehashed. -/
def addAll (H : Str → Str) : List (Str × Option Info) → Partial → Out Partial
  | [], p => .ok p
  | (_, none) :: _, _ => .error
  | (ps, some i) :: r, p => (p.add H ps i).bind (addAll H r)

/-- artifacts_root.cpp:141-193 (`ArtifactsRoot`). -/
def artifactsRoot (H : Str → Str) (stage : OMap Str (Option Info)) : Out (Str × List Str) :=
  (addAll H stage.items Partial.init).bind fun p => p.done H p.trees.length

end Verif.Roots
