import Verif.Digest.Props

/-!
# Model of the wire format of protocol buffers

Source: the specification of the format (protobuf.dev/programming-guides/encoding), as implemented by the protobuf
library that `SerializeMessage` (`src/buildtool/execution_api/bazel_msg/bazel_msg_factory.cpp:42-53`) and
`ParseFromString` call.  Bytes are characters.  The library writes fields in the order of their numbers.

Simplifications: only the wire types `VARINT` and `LEN` (the others do not occur in the messages considered); numbers of
any size, where the library stops after ten bytes; field number 0 is not rejected; strings are not checked to be
UTF-8.
-/

namespace Verif.Wire

open Verif.Dig (toUnsigned toSigned)

/-- Base 128, least significant digits first, with a continuation bit. -/
def varint (n : Nat) : Str :=
  if n < 128 then [Char.ofNat n] else Char.ofNat (n % 128 + 128) :: varint (n / 128)

/-- Reads a number; also gives the rest. -/
def readVarint : Str → Option (Nat × Str)
  | [] => none
  | c :: t =>
    if c.toNat < 128 then some (c.toNat, t)
    else (readVarint t).bind fun r => some (c.toNat - 128 + 128 * r.1, r.2)

/-- What a field contains: a number or a sequence of bytes. -/
inductive Payload where
  | num (n : Nat)
  | bytes (s : Str)
  deriving DecidableEq

/-- A field number and what the field contains. -/
abbrev Field := Nat × Payload

/-- One field as bytes: the tag (number and wire type), then the content. -/
def encodeField : Field → Str
  | (k, .num n) => varint (8 * k) ++ varint n
  | (k, .bytes s) => varint (8 * k + 2) ++ (varint s.length ++ s)

/-- A message as bytes. -/
def encode (l : List Field) : Str := l.flatMap encodeField

/-- Reads one field; also gives the rest. -/
def decodeField (s : Str) : Option (Field × Str) :=
  (readVarint s).bind fun tag => (readVarint tag.2).bind fun v =>
    if tag.1 % 8 = 0 then some ((tag.1 / 8, .num v.1), v.2)
    else if tag.1 % 8 = 2 ∧ v.1 ≤ v.2.length then some ((tag.1 / 8, .bytes (v.2.take v.1)), v.2.drop v.1)
    else none

/-- Reads a message of at most `fuel` fields. -/
def decodeUpTo : Nat → Str → Option (List Field)
  | _, [] => some []
  | 0, _ :: _ => none
  | n + 1, c :: s => (decodeField (c :: s)).bind fun f => (decodeUpTo n f.2).bind fun l => some (f.1 :: l)

/-- Reads a message; each field needs at least one byte. -/
def decode (s : Str) : Option (List Field) := decodeUpTo s.length s

/-! ## Fields of messages -/

/-- A string (`proto3`): not written if empty. -/
def strField (k : Nat) (s : Str) : List Field := if s = [] then [] else [(k, .bytes s)]

/-- A list of strings or messages: each of them is written. -/
def repeated (k : Nat) (l : List Str) : List Field := l.map fun s => (k, .bytes s)

/-- A number of type `int32` or `int64`: not written if zero; as 64 bits. -/
def intField (k : Nat) (i : Int) : List Field := if i = 0 then [] else [(k, .num (toUnsigned i))]

/-- A truth value: not written if false. -/
def boolField (k : Nat) (b : Bool) : List Field := if b then [(k, .num 1)] else []

/-- All byte sequences in fields with number `k`. -/
def bytesAt (k : Nat) (l : List Field) : List Str :=
  l.filterMap fun f => match f with
    | (j, .bytes s) => if j = k then some s else none
    | _ => none

/-- All numbers in fields with number `k`. -/
def numsAt (k : Nat) (l : List Field) : List Nat :=
  l.filterMap fun f => match f with
    | (j, .num n) => if j = k then some n else none
    | _ => none

/-- A string: the last one counts. -/
def strAt (k : Nat) (l : List Field) : Str := ((bytesAt k l).getLast?).getD []

/-- A number of type `int64`: the last one counts. -/
def intAt (k : Nat) (l : List Field) : Int := toSigned (((numsAt k l).getLast?).getD 0)

/-- A truth value: the last one counts. -/
def boolAt (k : Nat) (l : List Field) : Bool := ((numsAt k l).getLast?).getD 0 != 0

/-- An embedded message.  Simplification: of several with the same number the last one counts, the library would merge
them; without any, it is the empty message. -/
def messageAt (k : Nat) (l : List Field) : Option (List Field) := decode (strAt k l)

/-! ## Reading gives what was written -/

theorem toNat_ofNat {n : Nat} (h : n < 256) : (Char.ofNat n).toNat = n := by
  have hv : n.isValidChar := Or.inl (by omega)
  rw [Char.toNat, Char.ofNat, dif_pos hv]
  simp only [Char.ofNatAux, UInt32.toNat]
  rfl

theorem readVarint_varint (n : Nat) (s : Str) : readVarint (varint n ++ s) = some (n, s) := by
  induction n using Nat.strongRecOn with
  | _ n ih =>
    rw [varint]
    split
    · rename_i h
      rw [List.singleton_append, readVarint, toNat_ofNat (by omega), if_pos h]
    · rename_i h
      rw [List.cons_append, readVarint, toNat_ofNat (by omega), if_neg (by omega), ih (n / 128) (by omega)]
      simp only [Option.bind_some, Option.some.injEq, Prod.mk.injEq, and_true]
      omega

theorem varint_ne_nil (n : Nat) : varint n ≠ [] := by
  rw [varint]
  split <;> exact List.cons_ne_nil _ _

theorem encodeField_ne_nil (f : Field) : encodeField f ≠ [] := by
  obtain ⟨k, n | s⟩ := f <;>
    exact fun h => varint_ne_nil _ (List.append_eq_nil_iff.1 h).1

theorem decodeField_encode (f : Field) (s : Str) : decodeField (encodeField f ++ s) = some (f, s) := by
  obtain ⟨k, n | b⟩ := f
  · unfold decodeField encodeField
    rw [List.append_assoc, readVarint_varint, Option.bind_some, readVarint_varint, Option.bind_some]
    dsimp only
    rw [if_pos (by omega)]
    congr 4
    omega
  · unfold decodeField encodeField
    rw [List.append_assoc, readVarint_varint, Option.bind_some, List.append_assoc, readVarint_varint, Option.bind_some]
    dsimp only
    rw [if_neg (by omega), if_pos ⟨by omega, by simp⟩, List.take_left, List.drop_left]
    congr 4
    omega

theorem decodeUpTo_encode : ∀ (l : List Field) (n : Nat), (encode l).length ≤ n → decodeUpTo n (encode l) = some l
  | [], n, _ => by cases n <;> rfl
  | f :: l, n, h => by
    have he : encode (f :: l) = encodeField f ++ encode l := rfl
    have hl : 0 < (encodeField f).length := List.length_pos_of_ne_nil (encodeField_ne_nil f)
    rw [he, List.length_append] at h
    have hd := decodeField_encode f (encode l)
    rw [he]
    cases hs : encodeField f ++ encode l with
    | nil => exact absurd (List.append_eq_nil_iff.1 hs).1 (encodeField_ne_nil f)
    | cons c t =>
      cases n with
      | zero => omega
      | succ n =>
        rw [decodeUpTo, ← hs, hd, Option.bind_some, decodeUpTo_encode l n (by omega), Option.bind_some]

theorem decode_encode (l : List Field) : decode (encode l) = some l := decodeUpTo_encode l _ (Nat.le_refl _)

theorem encode_injective {l l' : List Field} (h : encode l = encode l') : l = l' := by
  have h1 := decode_encode l
  rw [h, decode_encode] at h1
  exact (Option.some.inj h1).symm

/-! ## Fields of a message that was written -/

theorem bytesAt_append (k : Nat) (a b : List Field) : bytesAt k (a ++ b) = bytesAt k a ++ bytesAt k b :=
  List.filterMap_append

theorem numsAt_append (k : Nat) (a b : List Field) : numsAt k (a ++ b) = numsAt k a ++ numsAt k b :=
  List.filterMap_append

theorem bytesAt_cons (k j : Nat) (s : Str) (l : List Field) :
    bytesAt k ((j, .bytes s) :: l) = (if j = k then [s] else []) ++ bytesAt k l := by
  unfold bytesAt
  rw [List.filterMap_cons]
  dsimp only
  split <;> rename_i h <;> split at h <;> simp_all

theorem numsAt_bytes (k j : Nat) (s : Str) (l : List Field) : numsAt k ((j, .bytes s) :: l) = numsAt k l := rfl

theorem bytesAt_repeated (k j : Nat) (l : List Str) : bytesAt k (repeated j l) = if j = k then l else [] := by
  induction l with
  | nil => split <;> rfl
  | cons s l ih =>
    have : repeated j (s :: l) = (j, .bytes s) :: repeated j l := rfl
    rw [this, bytesAt_cons, ih]
    split <;> rfl

theorem numsAt_repeated (k j : Nat) (l : List Str) : numsAt k (repeated j l) = [] := by
  induction l with
  | nil => rfl
  | cons s l ih => exact ih

theorem bytesAt_str (k j : Nat) (s : Str) :
    bytesAt k (strField j s) = if j = k ∧ s ≠ [] then [s] else [] := by
  unfold strField
  by_cases hs : s = []
  · subst hs; simp [bytesAt]
  · rw [if_neg hs, bytesAt_cons]
    by_cases hk : j = k <;> simp [hk, hs, bytesAt]

theorem numsAt_str (k j : Nat) (s : Str) : numsAt k (strField j s) = [] := by
  unfold strField
  split <;> rfl

theorem bytesAt_int (k j : Nat) (i : Int) : bytesAt k (intField j i) = [] := by
  unfold intField
  split <;> rfl

theorem bytesAt_bool (k j : Nat) (b : Bool) : bytesAt k (boolField j b) = [] := by
  unfold boolField
  split <;> rfl

theorem numsAt_int (k j : Nat) (i : Int) :
    numsAt k (intField j i) = if j = k ∧ i ≠ 0 then [toUnsigned i] else [] := by
  unfold intField
  by_cases hi : i = 0
  · subst hi; simp [numsAt]
  · rw [if_neg hi]
    by_cases hk : j = k <;> simp [numsAt, hk, hi]

theorem numsAt_bool (k j : Nat) (b : Bool) : numsAt k (boolField j b) = if j = k ∧ b then [1] else [] := by
  unfold boolField
  cases b
  · simp [numsAt]
  · by_cases hk : j = k <;> simp [numsAt, hk]

/-- Numbers of type `int64` survive the conversion to 64 bits. -/
theorem toSigned_toUnsigned {i : Int} (h : -2 ^ 63 ≤ i ∧ i < 2 ^ 63) : toSigned (toUnsigned i) = i := by
  unfold toSigned toUnsigned
  obtain ⟨h1, h2⟩ := h
  split <;> omega

end Verif.Wire
