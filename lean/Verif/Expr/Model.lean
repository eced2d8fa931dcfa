import Verif.Expr.Val
import Verif.Util.Decimal
import Verif.Path.Model
import Verif.LinkedMap.Model

/-!
# Model of the evaluator

Source: `src/buildtool/build_engine/expression/evaluator.cpp`,
`src/buildtool/build_engine/expression/configuration.hpp`,
`src/buildtool/build_engine/base_maps/expression_function.hpp`.

Simplifications: error messages are not modelled, all exceptions are one outcome `fail`; hence the
evaluation of messages is not modelled either.  An environment is the function giving the value of each
variable, `none` if it is not set (by C04 this is all that can be observed by expressions).  Numbers and
hashes are parameters.  Integers do not overflow in `atol`; memory is unlimited.
-/

namespace Verif.Expr

open Verif.Path

/-- Outcome of an evaluation: a value, an exception, or not enough fuel. -/
inductive Res (α : Type) where
  | ok (a : α)
  | fail
  | timeout
  deriving DecidableEq

namespace Res

/-- Continue with the value. -/
def bind {α β : Type} (r : Res α) (f : α → Res β) : Res β :=
  match r with
  | .ok a => f a
  | .fail => .fail
  | .timeout => .timeout

/-- Fail if there is no value. -/
def ofOption {α : Type} : Option α → Res α
  | some a => .ok a
  | none => .fail

instance : Monad Res where
  pure := Res.ok
  bind := Res.bind

end Res

/-- Evaluate a function on all entries of a list, in order. -/
def mapRes {α β : Type} (f : α → Res β) : List α → Res (List β)
  | [] => .ok []
  | a :: t => (f a).bind (fun b => (mapRes f t).bind (fun bs => .ok (b :: bs)))

/-- What a function provided by the context (e.g. by rules) does: it asks for the values of the expressions at
some keys (or for the expressions themselves), one after another, and finally gives a value or fails. -/
inductive Prog (N A : Type) where
  | done (r : Option (Val N A))
  | need (key : Str) (next : Option (Val N A) → Prog N A)
  | raw (key : Str) (next : Option (Val N A) → Prog N A)

/-- A function provided by the context: all the keys it may ask for, and what it does.  No other use is
made of the expression. -/
structure Regular (N A : Type) where
  keys : List Str
  prog : Prog N A

/-- What the evaluator takes from outside: arithmetic on numbers, rendering of numbers, the hash of a
value, and functions provided by the context (evaluator.cpp:1449-1462). -/
structure Ops (N A : Type) where
  zero : N
  one : N
  isZero : N → Bool
  positive : N → Bool
  add : N → N → N
  mul : N → N → N
  ofNat : Nat → N
  round : N → Int
  text : N → Str
  hash : Val N A → Str
  provided : Str → Option (Regular N A)

variable {N A : Type} (O : Ops N A)

/-- Environment: configuration.hpp:51-54 (`operator[]`). -/
abbrev Env (N A : Type) := Str → Val N A

/-- configuration.hpp:137-145 (`Update`). -/
def Env.update (ρ : Env N A) (x : Str) (v : Val N A) : Env N A :=
  fun y => if y = x then v else ρ y

/-- configuration.hpp:105-118 (`Prune`). -/
def Env.prune (ρ : Env N A) (vars : List Str) : Env N A :=
  fun y => if y ∈ vars then ρ y else .none

/-- Evaluator for sub-expressions. -/
abbrev Ev (N A : Type) := Val N A → Env N A → Res (Val N A)

/-- Items of a map. -/
abbrev Items (N A : Type) := List (Str × Val N A)

/-- Implementation of a construct: evaluator for sub-expressions, expression, environment. -/
abbrev Construct (N A : Type) := Ev N A → Items N A → Env N A → Res (Val N A)

/-- expression.hpp:160-175 (`Get`). -/
def get (m : Items N A) (key : String) (dflt : Val N A) : Val N A := (assoc key.toList m).getD dflt

/-- String literal as value. -/
def lit (s : String) : Val N A := .str s.toList

/-- `map[key] = value`. -/
def assignItem (m : Items N A) (k : Str) (v : Val N A) : Items N A :=
  OMap.insertList (fun _ new => new) k v m

/-- expression.hpp:211-222 (`operator==`): comparison by hash. -/
def same (v w : Val N A) : Bool := O.hash v == O.hash w

/-- evaluator.cpp:47-67 (`ValueIsTrue`). -/
def truth : Val N A → Bool
  | .none => false
  | .bool b => b
  | .num n => !O.isZero n
  | .str s => !s.isEmpty
  | .list l => !l.isEmpty
  | .map m => !m.isEmpty
  | _ => true

/-! ## Functions on values -/

/-- evaluator.cpp:69-94 (`Flatten`). -/
def flatten (v : Val N A) : Res (Val N A) :=
  (Res.ofOption v.list?).bind fun l =>
    (mapRes (fun e => Res.ofOption e.list?) l).bind fun ll => .ok (.list ll.flatten)

/-- evaluator.cpp:96-112 (`Addition`). -/
def addition (v : Val N A) : Res (Val N A) :=
  (Res.ofOption v.list?).bind fun l =>
    (mapRes (fun e => Res.ofOption e.num?) l).bind fun ns => .ok (.num (ns.foldl O.add O.zero))

/-- evaluator.cpp:114-130 (`Multiplication`). -/
def multiplication (v : Val N A) : Res (Val N A) :=
  (Res.ofOption v.list?).bind fun l =>
    (mapRes (fun e => Res.ofOption e.num?) l).bind fun ns => .ok (.num (ns.foldl O.mul O.one))

/-- evaluator.cpp:132-139 (`All`). -/
def allTrue (v : Val N A) : Res (Val N A) :=
  (Res.ofOption v.list?).bind fun l => .ok (.bool (l.all (truth O)))

/-- evaluator.cpp:141-148 (`Any`). -/
def anyTrue (v : Val N A) : Res (Val N A) :=
  (Res.ofOption v.list?).bind fun l => .ok (.bool (l.any (truth O)))

/-- evaluator.cpp:190-195 (`Not`). -/
def negation (v : Val N A) : Res (Val N A) := .ok (.bool (!truth O v))

/-- evaluator.cpp:197-205 (`Keys`). -/
def keys (v : Val N A) : Res (Val N A) :=
  (Res.ofOption v.map?).bind fun m => .ok (.list (m.map (fun e => .str e.1)))

/-- evaluator.cpp:207-209 (`Values`). -/
def values (v : Val N A) : Res (Val N A) :=
  (Res.ofOption v.map?).bind fun m => .ok (.list (m.map (fun e => e.2)))

/-- evaluator.cpp:217-221: the loop of `Enumerate`. -/
def enumerateFrom : Nat → List (Val N A) → Items N A → Items N A
  | _, [], r => r
  | n, v :: t, r => enumerateFrom (n + 1) t (assignItem r (padded n) v)

/-- evaluator.cpp:211-223 (`Enumerate`). -/
def enumerate (v : Val N A) : Res (Val N A) :=
  (Res.ofOption v.list?).bind fun l => .ok (.map (enumerateFrom 0 l []))

/-- evaluator.cpp:225-241 (`Set`). -/
def toSet (v : Val N A) : Res (Val N A) :=
  (Res.ofOption v.list?).bind fun l =>
    (mapRes (fun e => Res.ofOption e.str?) l).bind fun ss =>
      .ok (.map (ss.foldl (fun m s => assignItem m s (.bool true)) []))

/-- evaluator.cpp:243-251 (`Reverse`). -/
def reversed (v : Val N A) : Res (Val N A) :=
  (Res.ofOption v.list?).bind fun l => .ok (.list l.reverse)

/-- evaluator.cpp:253-260 (`Length`). -/
def lengthOf (v : Val N A) : Res (Val N A) :=
  (Res.ofOption v.list?).bind fun l => .ok (.num (O.ofNat l.length))

/-- evaluator.cpp:282-287, 312-317: keep the entries not seen before (`seen` is a set of hashes). -/
def nubGo (seen : List Str) : List (Val N A) → List (Val N A)
  | [] => []
  | v :: t => if O.hash v ∈ seen then nubGo seen t else v :: nubGo (O.hash v :: seen) t

/-- evaluator.cpp:262-290 (`NubRight`). -/
def nubRight (v : Val N A) : Res (Val N A) :=
  (Res.ofOption v.list?).bind fun l =>
    if v.cacheable then
      if l.isEmpty then .ok v else .ok (.list (nubGo O [] l.reverse).reverse)
    else .fail

/-- evaluator.cpp:292-319 (`NubLeft`). -/
def nubLeft (v : Val N A) : Res (Val N A) :=
  (Res.ofOption v.list?).bind fun l =>
    if v.cacheable then
      if l.isEmpty then .ok v else .ok (.list (nubGo O [] l))
    else .fail

/-- evaluator.cpp:321-335 (`Range`).  A negative number as string becomes a huge unsigned number, for
which `reserve` throws `std::length_error`. -/
def range (v : Val N A) : Res (Val N A) :=
  let len : Int := match v with
    | .num n => if O.positive n then O.round n else 0
    | .str s => atol s
    | _ => 0
  if len < 0 then .fail else .ok (.list ((List.range len.toNat).map (fun i => .str (decimal i))))

/-- [fs.path.decompose]: `stem`. -/
def stem (s : Str) : Str :=
  let f := filename s
  if f = dot ∨ f = dotdot then f
  else
    let r := f.reverse.dropWhile (fun c => c != '.')
    if r.length ≤ 1 then f else (r.drop 1).reverse

/-- evaluator.cpp:337-342 (`ChangeEndingTo`). -/
def changeEnding (name ending : Val N A) : Res (Val N A) :=
  (Res.ofOption name.str?).bind fun s =>
    (Res.ofOption ending.str?).bind fun e =>
      .ok (.str (append (parentPath s) (stem s) ++ e))

/-- evaluator.cpp:344-347 (`BaseName`). -/
def baseName (v : Val N A) : Res (Val N A) :=
  (Res.ofOption v.str?).bind fun s => .ok (.str (filename s))

/-- evaluator.cpp:349-358 (`ShellQuote`): replace quotes. -/
def escapeQuotes (s : Str) : Str := s.flatMap (fun c => if c = '\'' then "'\\''".toList else [c])

/-- evaluator.cpp:349-358 (`ShellQuote`). -/
def shellQuote (s : Str) : Str := '\'' :: escapeQuotes s ++ ['\'']

/-- Strings with a separator in between. -/
def intercalate (sep : Str) : List Str → Str
  | [] => []
  | [a] => a
  | a :: b :: t => a ++ sep ++ intercalate sep (b :: t)

/-- evaluator.cpp:361-389 (`Join`). -/
def join (doQuote allowString : Bool) (v : Val N A) (sep : Str) : Res (Val N A) :=
  match v with
  | .str s => if allowString then .ok (.str (if doQuote then shellQuote s else s)) else .fail
  | .list l =>
    (mapRes (fun e => Res.ofOption e.str?) l).bind fun ss =>
      .ok (.str (intercalate sep (ss.map (fun s => if doQuote then shellQuote s else s))))
  | _ => .fail

/-- evaluator.cpp:391-447 (`Union<false>`): later maps take precedence; the divide-and-conquer
implementation is shown to be equivalent in C02. -/
def mapUnion (v : Val N A) : Res (Val N A) :=
  (Res.ofOption v.list?).bind fun l =>
    (mapRes (fun e => Res.ofOption e.map?) l).bind fun ms =>
      .ok (.map (ms.foldl (fun acc m => LinkedMap.mergeItems m acc) []))

/-- evaluator.cpp:416-431: two maps agree on common keys. -/
def agree (m m' : Items N A) : Bool :=
  m.all (fun e => match assoc e.1 m' with | none => true | some w => same O e.2 w)

/-- All maps in the list agree with each other. -/
def agreeAll : List (Items N A) → Bool
  | [] => true
  | m :: t => t.all (agree O m) && agreeAll t

/-- evaluator.cpp:391-447 (`Union<true>`), by C03. -/
def disjointUnion (v : Val N A) : Res (Val N A) :=
  if v.cacheable then
    (Res.ofOption v.list?).bind fun l =>
      (mapRes (fun e => Res.ofOption e.map?) l).bind fun ms =>
        if agreeAll O ms then .ok (.map (ms.foldl (fun acc m => LinkedMap.mergeItems m acc) []))
        else .fail
  else .fail

/-- evaluator.cpp:458-465: concatenate to the last string. -/
def concatLast (app : Str) : List Str → List Str
  | [] => []
  | [a] => [a ++ app]
  | a :: b :: t => a :: concatLast app (b :: t)

/-- evaluator.cpp:449-472 (`ConcatTargetName`). -/
def concatTargetName (v app : Val N A) : Res (Val N A) :=
  (Res.ofOption app.str?).bind fun a =>
    match v with
    | .str s => .ok (.str (s ++ a))
    | .list l =>
      (mapRes (fun e => Res.ofOption e.str?) l).bind fun ss =>
        .ok (.list ((concatLast a ss).map .str))
    | _ => .fail

/-- evaluator.cpp:900-930, 934-962: staging into a sub-directory.  `rename` is the new key of an entry;
values for one key have to agree and be cacheable; flat staging assigns (line 930), other staging
keeps the old value (line 961). -/
def stageItems (flat : Bool) (rename : Str → Str) : Items N A → Items N A → Res (Items N A)
  | [], r => .ok r
  | (k, v) :: t, r =>
    match assoc (rename k) r with
    | none => stageItems flat rename t (assignItem r (rename k) v)
    | some w =>
      if same O w v && v.cacheable then
        stageItems flat rename t (if flat then assignItem r (rename k) v else r)
      else .fail

/-- evaluator.cpp:891-965 (`ToSubdirExpr`): the function on values. -/
def toSubdir (d s : Val N A) (flat : Bool) : Res (Val N A) :=
  (Res.ofOption s.str?).bind fun sub =>
    (Res.ofOption d.map?).bind fun m =>
      (stageItems O flat (fun k => toNormalPath (append sub (if flat then filename k else k))) m []).bind
        fun r => .ok (.map r)

/-- evaluator.cpp:974-988: the loop of `FromSubdirExpr`.  `PathIsNonUpwards` is applied to a path that
is not empty, so that it is defined. -/
def unstageItems (sub : Str) : Items N A → Items N A → Res (Items N A)
  | [], r => .ok r
  | (k, v) :: t, r =>
    let new := toNormalPath (lexRelative k sub)
    if nonUpwards new = .val true then
      match assoc new r with
      | none => unstageItems sub t (assignItem r new v)
      | some w => if same O w v && v.cacheable then unstageItems sub t r else .fail
    else unstageItems sub t r

/-- evaluator.cpp:967-990 (`FromSubdirExpr`): the function on values. -/
def fromSubdir (d s : Val N A) : Res (Val N A) :=
  (Res.ofOption s.str?).bind fun sub =>
    (Res.ofOption d.map?).bind fun m =>
      (unstageItems O sub m []).bind fun r => .ok (.map r)

mutual
/-- expression.cpp:73-126 (`ToJson(NullForNonJson)`). -/
def toJson : Val N A → Json N
  | .none => .null
  | .bool b => .bool b
  | .num n => .num n
  | .str s => .str s
  | .list l => .arr (toJsonList l)
  | .map m => .obj (toJsonItems m)
  | _ => .null
/-- expression.cpp:103-111. -/
def toJsonList : List (Val N A) → List (Json N)
  | [] => []
  | v :: t => toJson v :: toJsonList t
/-- expression.cpp:112-119. -/
def toJsonItems : Items N A → List (Str × Json N)
  | [] => []
  | (k, v) :: t => (k, toJson v) :: toJsonItems t
end

/-- evaluator.cpp:807-813 (`JsonEncodeExpr`): the function on values. -/
def jsonEncode (v : Val N A) : Val N A := .str (Json.dump O.text Json.compact 0 (toJson v))

/-- evaluator.cpp:815-828 (`EscapeCharsExpr`): the function on values.  The chars and the prefix have
to be strings only if the string is not empty; the prefix only if it is used. -/
def escapeChars (v chars pre : Val N A) : Res (Val N A) :=
  (Res.ofOption v.str?).bind fun s =>
    (mapRes (fun c => (Res.ofOption chars.str?).bind fun cs =>
      if c ∈ cs then (Res.ofOption pre.str?).bind fun p => .ok (p ++ [c]) else .ok [c]) s).bind
      fun parts => .ok (.str parts.flatten)

/-- evaluator.cpp:850-874 (`ArrayAccessExpr`): the index. -/
def indexOf (k : Val N A) : Int :=
  match k with
  | .num n => O.round n
  | .str s => atol s
  | _ => 0

/-- evaluator.cpp:867-872: the entry at an index, counting from the end if negative. -/
def entryAt (l : List (Val N A)) (i : Int) : Option (Val N A) :=
  if 0 ≤ i then l[i.toNat]?
  else if 0 ≤ l.length + i then l[(l.length + i).toNat]? else none

/-! ## Constructs -/

/-- evaluator.cpp:474-487 (`EvalArgument`). -/
def argument (ev : Ev N A) (m : Items N A) (key : String) (ρ : Env N A) : Res (Val N A) :=
  (Res.ofOption (assoc key.toList m)).bind fun e => ev e ρ

/-- evaluator.cpp:489-511 (`UnaryExpr`). -/
def unary (f : Val N A → Res (Val N A)) : Construct N A := fun ev m ρ =>
  (argument ev m "$1" ρ).bind f

/-- evaluator.cpp:151-168 (`LogicalAnd`): the loop. -/
def logicalAnd (ev : Ev N A) (ρ : Env N A) : List (Val N A) → Res (Val N A)
  | [] => .ok (.bool true)
  | c :: t => (ev c ρ).bind fun v => if truth O v then logicalAnd ev ρ t else .ok (.bool false)

/-- evaluator.cpp:171-187 (`LogicalOr`): the loop. -/
def logicalOr (ev : Ev N A) (ρ : Env N A) : List (Val N A) → Res (Val N A)
  | [] => .ok (.bool false)
  | c :: t => (ev c ρ).bind fun v => if truth O v then .ok (.bool true) else logicalOr ev ρ t

/-- evaluator.cpp:513-522 (`AndExpr`). -/
def andExpr : Construct N A := fun ev m ρ =>
  match assoc "$1".toList m with
  | none => .ok (.bool true)
  | some e =>
    match e.list? with
    | some l => logicalAnd O ev ρ l
    | none => (ev e ρ).bind (allTrue O)

/-- evaluator.cpp:524-533 (`OrExpr`). -/
def orExpr : Construct N A := fun ev m ρ =>
  match assoc "$1".toList m with
  | none => .ok (.bool false)
  | some e =>
    match e.list? with
    | some l => logicalOr O ev ρ l
    | none => (ev e ρ).bind (anyTrue O)

/-- evaluator.cpp:535-543 (`VarExpr`). -/
def varExpr : Construct N A := fun ev m ρ =>
  (Res.ofOption (assoc "name".toList m)).bind fun e =>
    (Res.ofOption e.str?).bind fun x =>
      if (ρ x).isNone then ev (get m "default" .none) ρ else .ok (ρ x)

/-- Type of an unquoting map: evaluator.cpp:570-572. -/
def unquoteType (m : Items N A) : Option Str := (assoc "type".toList m).bind Val.str?

mutual
/-- evaluator.cpp:556-608 (`ExpandQuasiQuoteListEntry`). -/
def expandEntry (ev : Ev N A) (ρ : Env N A) : Val N A → Res (Val N A)
  | .list l => (expandEntries ev ρ l).bind fun r => .ok (.list [.list r])
  | .map m =>
    if unquoteType m = some ",".toList then
      match assoc "$1".toList m with
      | none => .ok .none
      | some e => (ev e ρ).bind fun v => .ok (.list [v])
    else if unquoteType m = some ",@".toList then
      match assoc "$1".toList m with
      | none => .ok (.list [])
      | some e => (ev e ρ).bind fun v =>
          match v with
          | .list l => .ok (.list l)
          | _ => .fail
    else (expandItems ev ρ m).bind fun r => .ok (.map r)
  | v => .ok (.list [v])
/-- evaluator.cpp:561-566, 615-620: the loop over the entries of a list. -/
def expandEntries (ev : Ev N A) (ρ : Env N A) : List (Val N A) → Res (List (Val N A))
  | [] => .ok []
  | v :: t => (expandEntry ev ρ v).bind fun e =>
      (Res.ofOption e.list?).bind fun l =>
        (expandEntries ev ρ t).bind fun r => .ok (l ++ r)
/-- evaluator.cpp:600-604, 643-647: the loop over the entries of a map. -/
def expandItems (ev : Ev N A) (ρ : Env N A) : List (Str × Val N A) → Res (List (Str × Val N A))
  | [] => .ok []
  | (k, v) :: t => (expand ev ρ v).bind fun e =>
      (expandItems ev ρ t).bind fun r => .ok ((k, e) :: r)
/-- evaluator.cpp:610-651 (`ExpandQuasiQuote`). -/
def expand (ev : Ev N A) (ρ : Env N A) : Val N A → Res (Val N A)
  | .list l => (expandEntries ev ρ l).bind fun r => .ok (.list r)
  | .map m =>
    if unquoteType m = some ",".toList then
      match assoc "$1".toList m with
      | none => .ok .none
      | some e => ev e ρ
    else if unquoteType m = some ",@".toList then .fail
    else (expandItems ev ρ m).bind fun r => .ok (.map r)
  | v => .ok v
end

/-- evaluator.cpp:653-660 (`QuasiQuoteExpr`). -/
def quasiQuoteExpr : Construct N A := fun ev m ρ =>
  match assoc "$1".toList m with
  | none => .ok .none
  | some e => expand ev ρ e

/-- evaluator.cpp:662-669 (`QuoteExpr`). -/
def quoteExpr : Construct N A := fun _ m _ => .ok (get m "$1" .none)

/-- evaluator.cpp:545-550 (`OnlyInQuasiQuote`). -/
def onlyInQuasiQuote : Construct N A := fun _ _ _ => .fail

/-- evaluator.cpp:671-678 (`IfExpr`). -/
def ifExpr : Construct N A := fun ev m ρ =>
  (argument ev m "cond" ρ).bind fun c =>
    if truth O c then ev (get m "then" (.list [])) ρ else ev (get m "else" (.list [])) ρ

/-- A syntactical pair. -/
def pair? : Val N A → Option (Val N A × Val N A)
  | .list [a, b] => some (a, b)
  | _ => none

/-- evaluator.cpp:690-700: the loop of `CondExpr`; `none` if no condition is true. -/
def condGo (ev : Ev N A) (ρ : Env N A) : List (Val N A) → Res (Option (Val N A))
  | [] => .ok none
  | p :: t => (Res.ofOption (pair? p)).bind fun ab =>
      (ev ab.1 ρ).bind fun c =>
        if truth O c then (ev ab.2 ρ).bind (fun v => .ok (some v)) else condGo ev ρ t

/-- evaluator.cpp:680-703 (`CondExpr`). -/
def condExpr : Construct N A := fun ev m ρ =>
  match assoc "cond".toList m with
  | none => ev (get m "default" (.list [])) ρ
  | some c => (Res.ofOption c.list?).bind fun l =>
      (condGo O ev ρ l).bind fun r =>
        match r with
        | some v => .ok v
        | none => ev (get m "default" (.list [])) ρ

/-- evaluator.cpp:705-730 (`CaseExpr`). -/
def caseExpr : Construct N A := fun ev m ρ =>
  match assoc "case".toList m with
  | none => ev (get m "default" (.list [])) ρ
  | some c => (Res.ofOption c.map?).bind fun cs =>
      (argument ev m "expr" ρ).bind fun k =>
        (Res.ofOption k.str?).bind fun s =>
          match assoc s cs with
          | some e => ev e ρ
          | none => ev (get m "default" (.list [])) ρ

/-- evaluator.cpp:751-761: the loop of `SeqCaseExpr`. -/
def caseGo (ev : Ev N A) (ρ : Env N A) (cmp : Val N A) : List (Val N A) → Res (Option (Val N A))
  | [] => .ok none
  | p :: t => (Res.ofOption (pair? p)).bind fun ab =>
      (ev ab.1 ρ).bind fun c =>
        if same O cmp c then (ev ab.2 ρ).bind (fun v => .ok (some v)) else caseGo ev ρ cmp t

/-- evaluator.cpp:732-764 (`SeqCaseExpr`). -/
def seqCaseExpr : Construct N A := fun ev m ρ =>
  match assoc "case".toList m with
  | none => ev (get m "default" (.list [])) ρ
  | some c => (Res.ofOption c.list?).bind fun l =>
      (argument ev m "expr" ρ).bind fun cmp =>
        if cmp.cacheable then
          (caseGo O ev ρ cmp l).bind fun r =>
            match r with
            | some v => .ok v
            | none => ev (get m "default" (.list [])) ρ
        else .fail

/-- evaluator.cpp:766-782 (`EqualExpr`). -/
def equalExpr : Construct N A := fun ev m ρ =>
  (argument ev m "$1" ρ).bind fun a =>
    if a.cacheable then
      (argument ev m "$2" ρ).bind fun b =>
        if b.cacheable then .ok (.bool (same O a b)) else .fail
    else .fail

/-- evaluator.cpp:784-790 (`ChangeEndingExpr`). -/
def changeEndingExpr : Construct N A := fun ev m ρ =>
  (ev (get m "$1" (lit "")) ρ).bind fun n =>
    (ev (get m "ending" (lit "")) ρ).bind fun e => changeEnding n e

/-- evaluator.cpp:792-798 (`JoinExpr`). -/
def joinExpr : Construct N A := fun ev m ρ =>
  (ev (get m "$1" (.list [])) ρ).bind fun l =>
    (ev (get m "separator" (lit "")) ρ).bind fun s =>
      (Res.ofOption s.str?).bind fun sep => join false false l sep

/-- evaluator.cpp:800-805 (`JoinCmdExpr`). -/
def joinCmdExpr : Construct N A := fun ev m ρ =>
  (ev (get m "$1" (.list [])) ρ).bind fun l => join true false l " ".toList

/-- evaluator.cpp:807-813 (`JsonEncodeExpr`). -/
def jsonEncodeExpr : Construct N A := fun ev m ρ =>
  (ev (get m "$1" (.list [])) ρ).bind fun v => .ok (jsonEncode O v)

/-- evaluator.cpp:815-828 (`EscapeCharsExpr`). -/
def escapeCharsExpr : Construct N A := fun ev m ρ =>
  (ev (get m "$1" (lit "")) ρ).bind fun s =>
    (ev (get m "chars" (lit "")) ρ).bind fun c =>
      (ev (get m "escape_prefix" (lit "\\")) ρ).bind fun p => escapeChars s c p

/-- evaluator.cpp:830-848 (`LookupExpr`). -/
def lookupExpr : Construct N A := fun ev m ρ =>
  (argument ev m "key" ρ).bind fun k =>
    (argument ev m "map" ρ).bind fun d =>
      (Res.ofOption k.str?).bind fun s =>
        (Res.ofOption d.map?).bind fun items =>
          match assoc s items with
          | none => ev (get m "default" .none) ρ
          | some v => if v.isNone then ev (get m "default" .none) ρ else .ok v

/-- evaluator.cpp:850-874 (`ArrayAccessExpr`). -/
def arrayAccessExpr : Construct N A := fun ev m ρ =>
  (argument ev m "index" ρ).bind fun k =>
    (argument ev m "list" ρ).bind fun d =>
      (Res.ofOption d.list?).bind fun l =>
        match entryAt l (indexOf O k) with
        | some v => .ok v
        | none => ev (get m "default" .none) ρ

/-- evaluator.cpp:876-881 (`EmptyMapExpr`). -/
def emptyMapExpr : Construct N A := fun _ _ _ => .ok (.map [])

/-- evaluator.cpp:883-889 (`SingletonMapExpr`). -/
def singletonMapExpr : Construct N A := fun ev m ρ =>
  (argument ev m "key" ρ).bind fun k =>
    (argument ev m "value" ρ).bind fun v =>
      (Res.ofOption k.str?).bind fun s => .ok (.map [(s, v)])

/-- evaluator.cpp:891-965 (`ToSubdirExpr`). -/
def toSubdirExpr : Construct N A := fun ev m ρ =>
  (argument ev m "$1" ρ).bind fun d =>
    (ev (get m "subdir" (lit ".")) ρ).bind fun s =>
      (ev (get m "flat" (.bool false)) ρ).bind fun f => toSubdir O d s (truth O f)

/-- evaluator.cpp:967-990 (`FromSubdirExpr`). -/
def fromSubdirExpr : Construct N A := fun ev m ρ =>
  (argument ev m "$1" ρ).bind fun d =>
    (ev (get m "subdir" (lit ".")) ρ).bind fun s => fromSubdir O d s

/-- evaluator.cpp:992-1010 (`ForeachExpr`). -/
def foreachExpr : Construct N A := fun ev m ρ =>
  (ev (get m "range" (.list [])) ρ).bind fun r =>
    (Res.ofOption r.list?).bind fun l =>
      if l.isEmpty then .ok (.list [])
      else
        (mapRes (fun v => (Res.ofOption (get m "var" (lit "_")).str?).bind fun x =>
          ev (get m "body" (.list [])) (ρ.update x v)) l).bind fun vs => .ok (.list vs)

/-- expression.hpp:245-246 (`kEmptyMapExpr`). -/
def emptyMapLit : Val N A := .map [("type".toList, lit "empty_map")]

/-- evaluator.cpp:1012-1033 (`ForeachMapExpr`). -/
def foreachMapExpr : Construct N A := fun ev m ρ =>
  (ev (get m "range" emptyMapLit) ρ).bind fun r =>
    (Res.ofOption r.map?).bind fun items =>
      if items.isEmpty then .ok (.list [])
      else
        (mapRes (fun kv : Str × Val N A =>
          (Res.ofOption (get m "var_key" (lit "_")).str?).bind fun x =>
            (Res.ofOption (get m "var_val" (lit "$_")).str?).bind fun y =>
              ev (get m "body" (.list [])) ((ρ.update x (.str kv.1)).update y kv.2)) items).bind
          fun vs => .ok (.list vs)

/-- evaluator.cpp:1035-1062 (`ZipWithExpr`). -/
def zipWithExpr : Construct N A := fun ev m ρ =>
  (ev (get m "range_1" (.list [])) ρ).bind fun r1 =>
    (Res.ofOption r1.list?).bind fun l1 =>
      if l1.isEmpty then .ok (.list [])
      else (ev (get m "range_2" (.list [])) ρ).bind fun r2 =>
        (Res.ofOption r2.list?).bind fun l2 =>
          if l2.isEmpty then .ok (.list [])
          else
            (mapRes (fun vw : Val N A × Val N A =>
              (Res.ofOption (get m "var_1" (lit "$1")).str?).bind fun x =>
                (Res.ofOption (get m "var_2" (lit "$2")).str?).bind fun y =>
                  ev (get m "body" (.list [])) ((ρ.update x vw.1).update y vw.2))
              (l1.zip l2)).bind fun vs => .ok (.list vs)

/-- evaluator.cpp:1078-1083: the loop of `ZipMapExpr`. -/
def zipMapGo : List (Val N A × Val N A) → Items N A → Res (Items N A)
  | [], r => .ok r
  | (k, v) :: t, r => (Res.ofOption k.str?).bind fun s => zipMapGo t (assignItem r s v)

/-- evaluator.cpp:1064-1085 (`ZipMapExpr`). -/
def zipMapExpr : Construct N A := fun ev m ρ =>
  (ev (get m "range_key" (.list [])) ρ).bind fun r1 =>
    (Res.ofOption r1.list?).bind fun l1 =>
      if l1.isEmpty then .ok (.map [])
      else (ev (get m "range_val" (.list [])) ρ).bind fun r2 =>
        (Res.ofOption r2.list?).bind fun l2 =>
          if l2.isEmpty then .ok (.map [])
          else (zipMapGo (l1.zip l2) []).bind fun r => .ok (.map r)

/-- evaluator.cpp:1095-1098: the loop of `FoldLeftExpr`; if both variables are the same, the
initialiser list keeps the first binding (configuration.hpp:142-148). -/
def foldGo (ev : Ev N A) (ρ : Env N A) (m : Items N A) : List (Val N A) → Val N A → Res (Val N A)
  | [], acc => .ok acc
  | v :: t, acc => (Res.ofOption (get m "var" (lit "_")).str?).bind fun x =>
      (Res.ofOption (get m "accum_var" (lit "$1")).str?).bind fun y =>
        (ev (get m "body" (.list [])) ((ρ.update y acc).update x v)).bind fun r => foldGo ev ρ m t r

/-- evaluator.cpp:1087-1100 (`FoldLeftExpr`). -/
def foldLeftExpr : Construct N A := fun ev m ρ =>
  (argument ev m "range" ρ).bind fun r =>
    (ev (get m "start" (.list [])) ρ).bind fun s =>
      (Res.ofOption r.list?).bind fun l => foldGo ev ρ m l s

/-- evaluator.cpp:1114-1146: the loop of `LetExpr`. -/
def letGo (ev : Ev N A) : List (Val N A) → Env N A → Res (Env N A)
  | [], ρ => .ok ρ
  | b :: t, ρ => (Res.ofOption (pair? b)).bind fun xe =>
      (Res.ofOption xe.1.str?).bind fun x =>
        (ev xe.2 ρ).bind fun v => letGo ev t (ρ.update x v)

/-- evaluator.cpp:1102-1157 (`LetExpr`). -/
def letExpr : Construct N A := fun ev m ρ =>
  match assoc "bindings".toList m with
  | none => ev (get m "body" (.map [])) ρ
  | some b => (Res.ofOption b.list?).bind fun l =>
      (letGo ev l ρ).bind fun ρ' => ev (get m "body" (.map [])) ρ'

/-- evaluator.cpp:1159-1179 (`EnvExpr`), configuration.hpp:120-135 (`Prune`). -/
def envExpr : Construct N A := fun _ m ρ =>
  match assoc "vars".toList m with
  | none => .ok (.map [])
  | some v => (Res.ofOption v.list?).bind fun l =>
      (mapRes (fun e => Res.ofOption e.str?) l).bind fun xs =>
        .ok (.map (xs.foldl (fun r x => OMap.insertList (fun old _ => old) x (ρ x) r) []))

/-- evaluator.cpp:1181-1188 (`ConcatTargetNameExpr`). -/
def concatTargetNameExpr : Construct N A := fun ev m ρ =>
  (ev (get m "$1" (lit "")) ρ).bind fun a =>
    (ev (get m "$2" (lit "")) ρ).bind fun b =>
      (join false true b []).bind fun j => concatTargetName a j

/-- evaluator.cpp:1190-1223 (`ContextExpr`); the message matters for errors only. -/
def contextExpr : Construct N A := fun ev m ρ => ev (get m "$1" .none) ρ

/-- evaluator.cpp:1225-1282 (`DisjointUnionExpr`). -/
def disjointUnionExpr : Construct N A := fun ev m ρ =>
  (argument ev m "$1" ρ).bind (disjointUnion O)

/-- evaluator.cpp:1284-1290 (`FailExpr`). -/
def failExpr : Construct N A := fun ev m ρ => (ev (get m "msg" .none) ρ).bind fun _ => .fail

/-- evaluator.cpp:1292-1310 (`AssertExpr`). -/
def assertExpr : Construct N A := fun ev m ρ =>
  (argument ev m "$1" ρ).bind fun v =>
    (Res.ofOption (get m "var" (lit "_")).str?).bind fun x =>
      (argument ev m "predicate" (ρ.update x v)).bind fun p => if truth O p then .ok v else .fail

/-- evaluator.cpp:1316-1318: not empty. -/
def nonEmpty : Val N A → Bool
  | .str s => !s.isEmpty
  | .list l => !l.isEmpty
  | .map m => !m.isEmpty
  | _ => false

/-- evaluator.cpp:1312-1333 (`AssertNonEmptyExpr`). -/
def assertNonEmptyExpr : Construct N A := fun ev m ρ =>
  (argument ev m "$1" ρ).bind fun v => if nonEmpty v then .ok v else .fail

/-- evaluator.cpp:1335-1388 (`kBuiltInFunctions`). -/
def builtIns : List (Str × Construct N A) :=
  [("var".toList, varExpr), ("'".toList, quoteExpr), ("`".toList, quasiQuoteExpr),
   (",".toList, onlyInQuasiQuote), (",@".toList, onlyInQuasiQuote), ("if".toList, ifExpr O),
   ("cond".toList, condExpr O), ("case".toList, caseExpr), ("case*".toList, seqCaseExpr O),
   ("fail".toList, failExpr), ("assert".toList, assertExpr O),
   ("assert_non_empty".toList, assertNonEmptyExpr), ("context".toList, contextExpr),
   ("==".toList, equalExpr O), ("and".toList, andExpr O), ("or".toList, orExpr O),
   ("not".toList, unary (negation O)), ("++".toList, unary flatten),
   ("+".toList, unary (addition O)), ("*".toList, unary (multiplication O)),
   ("nub_right".toList, unary (nubRight O)), ("nub_left".toList, unary (nubLeft O)),
   ("range".toList, unary (range O)), ("change_ending".toList, changeEndingExpr),
   ("basename".toList, unary baseName), ("join".toList, joinExpr), ("join_cmd".toList, joinCmdExpr),
   ("json_encode".toList, jsonEncodeExpr O), ("escape_chars".toList, escapeCharsExpr),
   ("keys".toList, unary keys), ("enumerate".toList, unary enumerate), ("set".toList, unary toSet),
   ("reverse".toList, unary reversed), ("length".toList, unary (lengthOf O)),
   ("values".toList, unary values), ("lookup".toList, lookupExpr),
   ("[]".toList, arrayAccessExpr O), ("empty_map".toList, emptyMapExpr),
   ("singleton_map".toList, singletonMapExpr),
   ("disjoint_map_union".toList, disjointUnionExpr O), ("map_union".toList, unary mapUnion),
   ("to_subdir".toList, toSubdirExpr O), ("from_subdir".toList, fromSubdirExpr O),
   ("foreach".toList, foreachExpr), ("foreach_map".toList, foreachMapExpr),
   ("zip_with".toList, zipWithExpr), ("zip_map".toList, zipMapExpr),
   ("foldl".toList, foldLeftExpr), ("let*".toList, letExpr), ("env".toList, envExpr),
   ("concat_target_name".toList, concatTargetNameExpr)]

/-- A function provided by the context: evaluation of what it asks for.  (It does not ask for other keys than
those listed.) -/
def Prog.run (keys : List Str) (ev : Ev N A) (m : Items N A) (ρ : Env N A) : Prog N A → Res (Val N A)
  | .done r => Res.ofOption r
  | .need key next =>
    if key ∈ keys then
      match assoc key m with
      | none => (next none).run keys ev m ρ
      | some e => (ev e ρ).bind fun v => (next (some v)).run keys ev m ρ
    else .fail
  | .raw key next => (next (assoc key m)).run keys ev m ρ

/-- A function provided by the context. -/
def Regular.construct (r : Regular N A) : Construct N A := fun ev m ρ => r.prog.run r.keys ev m ρ

/-- expression_function.hpp:41-51 (`ExpressionFunction`): variables, imported functions, expression. -/
inductive Fn (N A : Type) where
  | mk (vars : List Str) (imports : List (Str × Fn N A)) (expr : Val N A)

/-- expression_function.hpp: `vars_`. -/
def Fn.vars : Fn N A → List Str
  | .mk v _ _ => v

/-- expression_function.hpp: `imports_`. -/
def Fn.imports : Fn N A → List (Str × Fn N A)
  | .mk _ i _ => i

/-- expression_function.hpp: `expr_`. -/
def Fn.expr : Fn N A → Val N A
  | .mk _ _ e => e

/-- Functions imported under a name. -/
def findFn (name : Str) : List (Str × Fn N A) → Option (Fn N A)
  | [] => none
  | (n, f) :: t => if name = n then some f else findFn name t

/-- evaluator.cpp:1482-1522 (`Evaluate`) with the construct `CALL_EXPRESSION` of
expression_function.hpp:67-99.  `f` is the function being evaluated. -/
def eval : Nat → Fn N A → Val N A → Env N A → Res (Val N A)
  | 0, _, _, _ => .timeout
  | n + 1, f, e, ρ =>
    match e with
    | .list l => (mapRes (fun x => eval n f x ρ) l).bind fun vs => .ok (.list vs)
    | .map m =>
      (Res.ofOption (assoc "type".toList m)).bind fun t =>
        (Res.ofOption t.str?).bind fun ty =>
          if ty = "CALL_EXPRESSION".toList then
            (Res.ofOption (assoc "name".toList m)).bind fun g =>
              (Res.ofOption g.str?).bind fun name =>
                match findFn name f.imports with
                | none => .fail
                | some g => eval n g g.expr (ρ.prune g.vars)
          else
            match O.provided ty with
            | some r => r.construct (eval n f) m ρ
            | none =>
              match assoc ty (builtIns O) with
              | some c => c (eval n f) m ρ
              | none => .fail
    | v => .ok v

/-- expression_function.hpp:53-120 (`ExpressionFunction::Evaluate`). -/
def evaluate (fuel : Nat) (f : Fn N A) (ρ : Env N A) : Res (Val N A) :=
  eval O fuel f f.expr (ρ.prune f.vars)

end Verif.Expr
