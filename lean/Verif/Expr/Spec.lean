import Verif.Expr.Scope

/-!
# Notions for the properties of expressions

Independent of the implementation.
-/

namespace Verif.Expr

variable {N A : Type}

/-- Outcome of the evaluation of an expression: what is obtained with enough fuel. -/
def Evals (O : Ops N A) (f : Fn N A) (e : Val N A) (ρ : Env N A) (r : Res (Val N A)) : Prop :=
  ∃ n, ∀ k, n ≤ k → eval O k f e ρ = r

/-! ## Splitting a command line into words -/

/-- State of the shell when reading a command line. -/
inductive Quoting where
  | plain
  | single
  | escaped

/-- Characters that may have a special meaning to the shell if they are not quoted. -/
def shellSpecial (c : Char) : Bool := c ∈ "|&;<>()$`\"*?[]#~=%!{}^\n".toList

/-- XCU 2.2, 2.6.5 of POSIX for command lines in which all special characters are quoted by single
quotes or backslashes: the words of the rest of the line, given the word read so far (if one has
begun); `none` if anything else would happen.  A command line cannot contain the character NUL. -/
def shellWordsGo : Quoting → Option Str → Str → Option (List Str)
  | .plain, cur, [] => some cur.toList
  | .single, _, [] => none
  | .escaped, _, [] => none
  | .single, cur, c :: t =>
    if c = '\'' then shellWordsGo .plain cur t else shellWordsGo .single (some (cur.getD [] ++ [c])) t
  | .escaped, cur, c :: t =>
    if c = '\n' then shellWordsGo .plain cur t
    else shellWordsGo .plain (some (cur.getD [] ++ [c])) t
  | .plain, cur, c :: t =>
    if c = '\'' then shellWordsGo .single (some (cur.getD [])) t
    else if c = '\\' then shellWordsGo .escaped cur t
    else if c = ' ' ∨ c = '\t' then (shellWordsGo .plain none t).map (cur.toList ++ ·)
    else if shellSpecial c then none
    else shellWordsGo .plain (some (cur.getD [] ++ [c])) t

/-- Words of a command line. -/
def shellWords (s : Str) : Option (List Str) := shellWordsGo .plain none s

/-! ## First and last occurrences -/

/-- The entries of `l` with an index satisfying `p`, in order. -/
def entriesWhere (l : List (Val N A)) (p : Nat → Val N A → Prop) [∀ i v, Decidable (p i v)] :
    List (Val N A) :=
  (l.zipIdx.filter (fun vi => decide (p vi.2 vi.1))).map Prod.fst

/-- No entry before index `i` is equal to `v`. -/
def FirstAt (O : Ops N A) (l : List (Val N A)) (i : Nat) (v : Val N A) : Prop :=
  ∀ w ∈ l.take i, O.hash w ≠ O.hash v

/-- No entry after index `i` is equal to `v`. -/
def LastAt (O : Ops N A) (l : List (Val N A)) (i : Nat) (v : Val N A) : Prop :=
  ∀ w ∈ l.drop (i + 1), O.hash w ≠ O.hash v

instance (O : Ops N A) (l : List (Val N A)) (i : Nat) (v : Val N A) : Decidable (FirstAt O l i v) := by
  unfold FirstAt
  infer_instance

instance (O : Ops N A) (l : List (Val N A)) (i : Nat) (v : Val N A) : Decidable (LastAt O l i v) := by
  unfold LastAt
  infer_instance

/-! ## Literals -/

/-- A map that is an unquoting in a quasi-quoted expression. -/
def IsUnquote (m : Items N A) : Prop :=
  assoc "type".toList m = some (lit ",") ∨ assoc "type".toList m = some (lit ",@")

/-- Literal without an unquoting map. -/
inductive Literal : Val N A → Prop where
  | atom {v : Val N A} : v.list? = none → v.map? = none → Literal v
  | list {l : List (Val N A)} : (∀ v ∈ l, Literal v) → Literal (.list l)
  | map {m : Items N A} : ¬ IsUnquote m → (∀ kv ∈ m, Literal kv.2) → Literal (.map m)

/-- Literal in which no list has a map as entry. -/
inductive NoMapInList : Val N A → Prop where
  | atom {v : Val N A} : v.list? = none → v.map? = none → NoMapInList v
  | list {l : List (Val N A)} : (∀ v ∈ l, v.map? = none) → (∀ v ∈ l, NoMapInList v) →
      NoMapInList (.list l)
  | map {m : Items N A} : (∀ kv ∈ m, NoMapInList kv.2) → NoMapInList (.map m)

/-! ## For the examples -/

/-- Natural numbers as numbers, nothing provided by the context, and the rendering as JSON as hash. -/
def demoOps : Ops Nat Unit where
  zero := 0
  one := 1
  isZero := fun n => n == 0
  positive := fun n => 0 < n
  add := (· + ·)
  mul := (· * ·)
  ofNat := id
  round := Int.ofNat
  text := decimal
  hash := fun v => Json.dump decimal Json.compact 0 (toJson v)
  provided := fun _ => none

/-- A function without declared variables and imports. -/
def demoFn (e : Val Nat Unit) : Fn Nat Unit := .mk [] [] e

/-- Quotation of a value. -/
def quoted (v : Val Nat Unit) : Val Nat Unit := .map [("$1".toList, v), ("type".toList, lit "'")]

end Verif.Expr
