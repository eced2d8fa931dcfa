import Verif.Chunker.Model

/-!
# Specification of content-defined chunking

A cut is possible at offset `i` of a byte sequence if the rolling fingerprint of the bytes
`min .. i` vanishes under the mask for that offset.  The first chunk ends at the first
possible cut, or at the end of the data or the maximal chunk size.  Nothing here mentions buffers.
-/

namespace Verif.Chunker

/-- Rolling fingerprint of the bytes with index `min, ..., i`. -/
def fingerprint (P : Params) (data : List UInt8) (i : Nat) : UInt64 :=
  ((data.drop P.min).take (i + 1 - P.min)).foldl (fun fp b => (fp <<< 1) + P.gear b) 0

/-- The data can be cut at offset `i`. -/
def CutAt (P : Params) (data : List UInt8) (i : Nat) : Prop :=
  P.min ≤ i ∧ i < data.length ∧ i < P.max ∧
    fingerprint P data i &&& (if i < P.avg then P.maskS else P.maskL) = 0

/-- `len` is the length of the first chunk of the data. -/
def FirstChunkLen (P : Params) (data : List UInt8) (len : Nat) : Prop :=
  (CutAt P data len ∨ len = Nat.min data.length P.max) ∧ ∀ j < len, ¬ CutAt P data j

/-- The sequence of chunks of the data. -/
inductive Chunking (P : Params) : List UInt8 → List (List UInt8) → Prop where
  | nil : Chunking P [] []
  | cons {c data : List UInt8} {cs : List (List UInt8)} :
      c ≠ [] → FirstChunkLen P (c ++ data) c.length → Chunking P data cs →
      Chunking P (c ++ data) (c :: cs)

end Verif.Chunker
