import Verif.JsonText.Layout

/-!
# Texts of JSON values shown to the user: indentation

C118.
-/

namespace Verif

namespace JsonText

open Json

variable {N : Type} {numText : N → Str}

mutual
/-- The value has no empty objects or arrays, and none at level `till` or below. -/
def Open (till : Nat) : Nat → Json N → Prop
  | d, obj l => d < till ∧ l ≠ [] ∧ OpenPairs till (d + 1) l
  | d, arr l => d < till ∧ l ≠ [] ∧ OpenElems till (d + 1) l
  | _, null => True
  | _, .bool _ => True
  | _, num _ => True
  | _, str _ => True
/-- The same for a key. -/
def OpenPair (till : Nat) : Nat → Str × Json N → Prop
  | d, (_, v) => Open till d v
/-- The same for all keys. -/
def OpenPairs (till : Nat) : Nat → List (Str × Json N) → Prop
  | _, [] => True
  | d, a :: l => OpenPair till d a ∧ OpenPairs till d l
/-- The same for all elements. -/
def OpenElems (till : Nat) : Nat → List (Json N) → Prop
  | _, [] => True
  | d, v :: l => Open till d v ∧ OpenElems till d l
end

theorem pad_eq (n d : Nat) : pad n d = List.replicate (n * d) ' ' := by
  unfold pad
  induction d with
  | zero => rfl
  | succ d ih =>
    rw [List.replicate_succ, List.flatten_cons, ih, Nat.mul_succ, Nat.add_comm, List.replicate_add]

/-- Line break and blanks. -/
theorem nl_pretty (n d : Nat) : (pretty n).nl d = '\n' :: pad n d := by rw [pad_eq]; rfl

/-- Elements without brackets, each one in a line of its own. -/
def prettyElems (numText : N → Str) (n d : Nat) : List (Json N) → Str
  | [] => []
  | a :: l => pad n d ++ dump numText (pretty n) d a ++ dumpElems numText (pretty n) d l ++ ['\n']

/-- Keys and values without brackets, each one in a line of its own. -/
def prettyPairs (numText : N → Str) (n d : Nat) : List (Str × Json N) → Str
  | [] => []
  | a :: l =>
    pad n d ++ dumpPair numText (pretty n) d a ++ dumpPairs numText (pretty n) d l ++ ['\n']

theorem sep_prettyElems (n d : Nat) (l : List (Json N)) :
    sep l ++ ('\n' :: prettyElems numText n d l) = dumpElems numText (pretty n) d l ++ ['\n'] := by
  cases l with
  | nil => rw [dumpElems]; rfl
  | cons a l => rw [dumpElems, nl_pretty]; simp [sep, prettyElems]

theorem sep_prettyPairs (n d : Nat) (l : List (Str × Json N)) :
    sep l ++ ('\n' :: prettyPairs numText n d l) = dumpPairs numText (pretty n) d l ++ ['\n'] := by
  cases l with
  | nil => rw [dumpPairs]; rfl
  | cons a l => rw [dumpPairs, nl_pretty]; simp [sep, prettyPairs]

theorem pretty_arr (n d : Nat) (l : List (Json N)) (h : l ≠ []) :
    dump numText (pretty n) d (arr l) =
      '[' :: '\n' :: (prettyElems numText n (d + 1) l ++ pad n d ++ [']']) := by
  cases l with
  | nil => exact absurd rfl h
  | cons a l => rw [dump, nl_pretty, nl_pretty]; simp [prettyElems]

theorem pretty_obj (n d : Nat) (l : List (Str × Json N)) (h : l ≠ []) :
    dump numText (pretty n) d (obj l) =
      '{' :: '\n' :: (prettyPairs numText n (d + 1) l ++ pad n d ++ ['}']) := by
  cases l with
  | nil => exact absurd rfl h
  | cons a l => rw [dump, nl_pretty, nl_pretty]; simp [prettyPairs]

mutual
theorem only_pretty (n till : Nat) : ∀ (d : Nat) (path : Option Str) (j : Json N), Open till d j →
    only numText [] n till d path j = dump numText (pretty n) d j
  | d, path, null, _ => by rw [only, oneLine, dump, dump]
  | d, path, .bool b, _ => by rw [only, oneLine, dump, dump]
  | d, path, num m, _ => by rw [only, oneLine, dump, dump]
  | d, path, str s, _ => by rw [only, oneLine, dump, dump]
  | d, path, arr l, h => by
    have hp : Plain [] path := fun _ _ _ => rfl
    rw [Open] at h
    rw [only, hp.till, if_pos h.1, pretty_arr n d l h.2.1, onlyElems_pretty n till (d + 1) l h.2.2]
  | d, path, obj l, h => by
    have hp : Plain [] path := fun _ _ _ => rfl
    rw [Open] at h
    rw [only, hp.till, if_pos h.1, pretty_obj n d l h.2.1,
      onlyPairs_pretty n till (d + 1) path l h.2.2]
theorem onlyPair_pretty (n till : Nat) :
    ∀ (d : Nat) (path : Option Str) (a : Str × Json N), OpenPair till d a →
    onlyPair numText [] n till d path a = dumpPair numText (pretty n) d a
  | d, path, (k, v), h => by
    rw [OpenPair] at h
    rw [onlyPair, dumpPair, only_pretty n till d _ v h]
    simp [pretty]
theorem onlyPairs_pretty (n till : Nat) :
    ∀ (d : Nat) (path : Option Str) (l : List (Str × Json N)), OpenPairs till d l →
    onlyPairs numText [] n till d path l = prettyPairs numText n d l
  | d, path, [], _ => by rw [onlyPairs]; rfl
  | d, path, a :: l, h => by
    rw [OpenPairs] at h
    rw [onlyPairs, prettyPairs, onlyPair_pretty n till d path a h.1,
      onlyPairs_pretty n till d path l h.2]
    simp only [List.append_assoc, sep_prettyPairs]
theorem onlyElems_pretty (n till : Nat) : ∀ (d : Nat) (l : List (Json N)), OpenElems till d l →
    onlyElems numText [] n till d l = prettyElems numText n d l
  | d, [], _ => by rw [onlyElems]; rfl
  | d, a :: l, h => by
    rw [OpenElems] at h
    rw [onlyElems, prettyElems, only_pretty n till d none a h.1, onlyElems_pretty n till d l h.2]
    simp only [List.append_assoc, sep_prettyElems]
end

mutual
theorem lists_pretty (n till : Nat) : ∀ (d : Nat) (j : Json N), Open till d j →
    lists numText n till d j = dump numText (pretty n) d j
  | d, null, _ => by rw [lists, oneLine, dump, dump]
  | d, .bool b, _ => by rw [lists, oneLine, dump, dump]
  | d, num m, _ => by rw [lists, oneLine, dump, dump]
  | d, str s, _ => by rw [lists, oneLine, dump, dump]
  | d, arr l, h => by
    rw [Open] at h
    rw [lists, if_pos h.1, pretty_arr n d l h.2.1, listsElems_pretty n till (d + 1) l h.2.2]
  | d, obj l, h => by
    rw [Open] at h
    rw [lists, pretty_obj n d l h.2.1, listsPairs_pretty n till (d + 1) l h.2.2]
theorem listsPair_pretty (n till : Nat) : ∀ (d : Nat) (a : Str × Json N), OpenPair till d a →
    listsPair numText n till d a = dumpPair numText (pretty n) d a
  | d, (k, v), h => by
    rw [OpenPair] at h
    rw [listsPair, dumpPair, lists_pretty n till d v h]
    simp [pretty]
theorem listsPairs_pretty (n till : Nat) :
    ∀ (d : Nat) (l : List (Str × Json N)), OpenPairs till d l →
    listsPairs numText n till d l = prettyPairs numText n d l
  | d, [], _ => by rw [listsPairs]; rfl
  | d, a :: l, h => by
    rw [OpenPairs] at h
    rw [listsPairs, prettyPairs, listsPair_pretty n till d a h.1, listsPairs_pretty n till d l h.2]
    simp only [List.append_assoc, sep_prettyPairs]
theorem listsElems_pretty (n till : Nat) : ∀ (d : Nat) (l : List (Json N)), OpenElems till d l →
    listsElems numText n till d l = prettyElems numText n d l
  | d, [], _ => by rw [listsElems]; rfl
  | d, a :: l, h => by
    rw [OpenElems] at h
    rw [listsElems, prettyElems, lists_pretty n till d a h.1, listsElems_pretty n till d l h.2]
    simp only [List.append_assoc, sep_prettyElems]
end

/-- C118: if the depth is not reached, and no object or array is empty, the texts are those of the usual
indented output, `dump(n)`; this includes the number of blanks. (Empty ones are `{}` there, but have a line
break here.) -/
theorem C118_pretty (n till : Nat) {j : Json N} (h : Open till 0 j) :
    indentOnly numText [] n till j = dump numText (pretty n) 0 j ∧
    indentLists numText n till j = dump numText (pretty n) 0 j :=
  ⟨only_pretty n till 0 (some []) j h, lists_pretty n till 0 j h⟩

end JsonText

end Verif
