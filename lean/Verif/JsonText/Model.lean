import Verif.Util.Json

/-!
# Texts of JSON values shown to the user

Model of `src/utils/cpp/json.hpp`: the dumps written for the user (`--dump-targets`, `--dump-nodes`,
`--dump-anonymous`, `--dump-actions`, the result of a target, the version) with line breaks for the outer
levels only, and the abbreviated values in error messages.

Simplifications: strings are sequences of bytes, as in the code, so that lengths are those of `size()`;
`dump()` does not throw (it does for strings that are not UTF-8). `EnsuresAudit` is not part of release
builds.
-/

namespace Verif

namespace JsonText

open Json

variable {N : Type} (numText : N → Str)

/-- `json.dump()`. json.hpp:91, 197. -/
def oneLine (j : Json N) : Str := dump numText compact 0 j

/-- Indentation: `std::fill_n(iterator{oss}, depth, indent)`, where `indent` has `n` blanks.
json.hpp:67, 72. -/
def pad (n d : Nat) : Str := (List.replicate d (List.replicate n ' ')).flatten

/-- What follows an element: `(++i == json.size() ? "" : ",")`. json.hpp:70. -/
def sep {α : Type} (rest : List α) : Str := if rest.isEmpty then [] else [',']

mutual
/-- `detail::IndentListsOnlyUntilDepth` with `n` blanks for each level, at level `d`.
json.hpp:56-92. -/
def lists (n till : Nat) (d : Nat) : Json N → Str
  | obj l => '{' :: '\n' :: (listsPairs n till (d + 1) l ++ pad n d ++ ['}'])
  | arr l =>
    if d < till then '[' :: '\n' :: (listsElems n till (d + 1) l ++ pad n d ++ [']'])
    else oneLine numText (arr l)
  | null => oneLine numText null
  | .bool b => oneLine numText (.bool b)
  | num m => oneLine numText (num m)
  | str s => oneLine numText (str s)
/-- One key of an object. json.hpp:68-69. -/
def listsPair (n till : Nat) (d : Nat) : Str × Json N → Str
  | (k, v) => quote k ++ (':' :: ' ' :: lists n till d v)
/-- The loop over the keys of an object. json.hpp:66-71. -/
def listsPairs (n till : Nat) (d : Nat) : List (Str × Json N) → Str
  | [] => []
  | a :: l => pad n d ++ listsPair n till d a ++ sep l ++ ('\n' :: listsPairs n till d l)
/-- The loop over the elements of an array. json.hpp:81-85. -/
def listsElems (n till : Nat) (d : Nat) : List (Json N) → Str
  | [] => []
  | v :: l => pad n d ++ lists n till d v ++ sep l ++ ('\n' :: listsElems n till d l)
end

/-- `IndentListsOnlyUntilDepth`. json.hpp:148-154. -/
def indentLists (n till : Nat) (j : Json N) : Str := lists numText n till 0 j

/-- The depth applicable: that of the path, if there is one. json.hpp:102-104. -/
def tillAt (depths : List (Str × Nat)) (path : Option Str) (till : Nat) : Nat :=
  match path with
  | none => till
  | some p => (assoc p depths).getD till

mutual
/-- `detail::IndentOnlyUntilDepth` with `n` blanks for each level, at level `d`. json.hpp:94-143. -/
def only (depths : List (Str × Nat)) (n : Nat) (till d : Nat) (path : Option Str) : Json N → Str
  | obj l =>
    if d < tillAt depths path till then
      '{' :: '\n' ::
        (onlyPairs depths n (tillAt depths path till) (d + 1) path l ++ pad n d ++ ['}'])
    else oneLine numText (obj l)
  | arr l =>
    if d < tillAt depths path till then
      '[' :: '\n' :: (onlyElems depths n (tillAt depths path till) (d + 1) l ++ pad n d ++ [']'])
    else oneLine numText (arr l)
  | null => oneLine numText null
  | .bool b => oneLine numText (.bool b)
  | num m => oneLine numText (num m)
  | str s => oneLine numText (str s)
/-- One key of an object; the path is extended by it. json.hpp:111-119. -/
def onlyPair (depths : List (Str × Nat)) (n : Nat) (till d : Nat) (path : Option Str) :
    Str × Json N → Str
  | (k, v) => quote k ++ (':' :: ' ' :: only depths n till d (path.map fun p => p ++ '/' :: k) v)
/-- The loop over the keys of an object. json.hpp:109-121. -/
def onlyPairs (depths : List (Str × Nat)) (n : Nat) (till d : Nat) (path : Option Str) :
    List (Str × Json N) → Str
  | [] => []
  | a :: l =>
    pad n d ++ onlyPair depths n till d path a ++ sep l ++
      ('\n' :: onlyPairs depths n till d path l)
/-- The loop over the elements of an array; there is no path for them. json.hpp:131-136. -/
def onlyElems (depths : List (Str × Nat)) (n : Nat) (till d : Nat) : List (Json N) → Str
  | [] => []
  | v :: l =>
    pad n d ++ only depths n till d none v ++ sep l ++ ('\n' :: onlyElems depths n till d l)
end

/-- `IndentOnlyUntilDepth`. json.hpp:158-165. -/
def indentOnly (depths : List (Str × Nat)) (n till : Nat) (j : Json N) : Str :=
  only numText depths n till 0 (some []) j

mutual
/-- `TruncateJson`. json.hpp:168-198. -/
def truncate (d : Nat) : Json N → Str
  | obj l => if d = 0 then ['*'] else '{' :: (truncatePairs (d - 1) l ++ ['}'])
  | arr l => if d = 0 then ['*'] else '[' :: (truncateElems (d - 1) l ++ [']'])
  | null => if d = 0 then ['*'] else oneLine numText null
  | .bool b => if d = 0 then ['*'] else oneLine numText (.bool b)
  | num m => if d = 0 then ['*'] else oneLine numText (num m)
  | str s => if d = 0 then ['*'] else oneLine numText (str s)
/-- One key of an object. json.hpp:179-180. -/
def truncatePair (d : Nat) : Str × Json N → Str
  | (k, v) => quote k ++ (':' :: truncate d v)
/-- The loop over the keys of an object. json.hpp:178-182. -/
def truncatePairs (d : Nat) : List (Str × Json N) → Str
  | [] => []
  | a :: l => truncatePair d a ++ sep l ++ truncatePairs d l
/-- The loop over the elements of an array. json.hpp:190-193. -/
def truncateElems (d : Nat) : List (Json N) → Str
  | [] => []
  | v :: l => truncate d v ++ sep l ++ truncateElems d l
end

/-- The loop of `AbbreviateJson`: `new_abbrev` is the truncation at depth `i`. `none`: not finished within
the number of rounds given. json.hpp:208-214. -/
def grow (j : Json N) (len : Nat) : Nat → Nat → Str → Option Str
  | 0, _, _ => none
  | f + 1, i, old =>
    if (truncate numText i j).length ≤ len then grow j len f (i + 1) (truncate numText i j)
    else some old

/-- `AbbreviateJson`, with a bound on the number of rounds of the loop. json.hpp:200-216. -/
def abbreviate (rounds : Nat) (j : Json N) (len : Nat) : Option Str :=
  if (oneLine numText j).length ≤ len then some (oneLine numText j)
  else grow numText j len rounds 1 (truncate numText 1 j)

/-- `PruneJson`. The new object is again ordered by keys, as the old one. json.hpp:220-232. -/
def prune : Json N → Json N
  | obj l => obj (l.filter fun p => match p.2 with
    | null => false
    | _ => true)
  | j => j

end JsonText

end Verif
