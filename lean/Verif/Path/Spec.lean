import Verif.Util.Split

/-!
# What a path denotes

A path is followed segment by segment.  No function of the model is used here.
-/

namespace Verif.Path

/-- Where a path leads (assuming no symbolic links): relative to the root directory if `abs`, and to the
start directory otherwise; first `up` levels upwards, then along `down`. -/
structure Place where
  abs : Bool
  up : Nat
  down : List Str
  deriving DecidableEq

/-- Follow one segment.  At the root directory, `..` stays there. -/
def Place.follow (p : Place) (seg : Str) : Place :=
  if seg = [] ∨ seg = ['.'] then p
  else if seg = ['.', '.'] then
    match p.down with
    | [] => if p.abs then p else { p with up := p.up + 1 }
    | a :: t => { p with down := (a :: t).dropLast }
  else { p with down := p.down ++ [seg] }

/-- Follow a path from a place; an absolute path starts at the root directory. -/
def Place.walk (p : Place) (s : Str) : Place :=
  (splitAt '/' s).foldl Place.follow (if s.head? = some '/' then ⟨true, 0, []⟩ else p)

/-- The place a path denotes. -/
def place (s : Str) : Place := Place.walk ⟨false, 0, []⟩ s

/-- The names a segment can contribute to a place. -/
def ProperName (a : Str) : Prop := '/' ∉ a ∧ a ≠ [] ∧ a ≠ ['.'] ∧ a ≠ ['.', '.']

/-- Change of the depth caused by a segment. -/
def depthOf (seg : Str) : Int :=
  if seg = [] ∨ seg = ['.'] then 0 else if seg = ['.', '.'] then -1 else 1

/-- Depth below the start after some segments. -/
def depth : List Str → Int
  | [] => 0
  | a :: t => depthOf a + depth t

/-- Following the segments never leads above the start. -/
def NeverAbove (segs : List Str) : Prop := ∀ n, 0 ≤ depth (segs.take n)

end Verif.Path
