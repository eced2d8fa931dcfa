import Mathlib.Data.List.Basic

/-!
# Model of `FileChunker`

Source: `src/buildtool/storage/file_chunker.hpp`, `src/buildtool/storage/file_chunker.cpp`.
-/

namespace Verif.Chunker

/-- Outcome of a C++ computation: a value, or undefined behaviour. -/
inductive Out (A : Type) where
  | ok (a : A)
  | ub
  deriving DecidableEq

/-- file_chunker.cpp:26-32 and file_chunker.hpp:35, 48-50.  The constants `kAverageChunkSize`,
`kMaskS`, `kMaskL` and the `gear_table` (filled from a random generator, l.36-41) are parameters
of the model, so every statement holds for any choice of them. -/
structure Params where
  avg : Nat
  gear : UInt8 → UInt64
  maskS : UInt64
  maskL : UInt64

/-- file_chunker.hpp:48 (`min_chunk_size_(kAverageChunkSize >> 2U)`). -/
def Params.min (P : Params) : Nat := P.avg / 4

/-- file_chunker.hpp:50 (`max_chunk_size_(kAverageChunkSize << 3U)`); no 32-bit overflow for the
constant in the code. -/
def Params.max (P : Params) : Nat := P.avg * 8

/-- file_chunker.hpp:83-89: members.  `rest` are the bytes the stream has not delivered yet, `eof`
is the `eofbit`, `bad` means "not good and not eof". `buf` is the whole buffer, including stale
bytes behind `size`. -/
structure State where
  rest : List UInt8
  eof : Bool
  bad : Bool
  buf : List UInt8
  size : Nat
  pos : Nat

/-- file_chunker.hpp:43-56: constructor for an existing file with content `file`;
`buffer_.resize(max_chunk_size_ << 1U)` zero-fills. -/
def init (P : Params) (file : List UInt8) : State :=
  { rest := file, eof := false, bad := false, buf := List.replicate (P.max * 2) 0,
    size := 0, pos := 0 }

/-- file_chunker.cpp:47-49 (`Finished`). -/
def finished (st : State) : Bool := st.eof && st.pos == st.size

/-- file_chunker.cpp:100-106 resp. 107-113: one of the two scanning loops. `k` is the number of
iterations left, `i` the loop variable.  Reading outside the buffer is undefined
behaviour.  The result is the position of the cut, if any, and the fingerprint at
the end of the loop. -/
def scan (gear : UInt8 → UInt64) (mask : UInt64) (buf : List UInt8) (pos : Nat) :
    (k i : Nat) → UInt64 → Out (Option Nat × UInt64)
  | 0, _, fp => .ok (none, fp)
  | k + 1, i, fp =>
    match buf[pos + i]? with
    | none => .ub
    | some b =>
      let fp' := (fp <<< 1) + gear b
      if fp' &&& mask = 0 then .ok (some i, fp')
      else scan gear mask buf pos k (i + 1) fp'

/-- file_chunker.cpp:86-115 (`NextChunkBoundary`). -/
def nextChunkBoundary (P : Params) (st : State) : Out Nat :=
  let n0 := st.size - st.pos
  if n0 ≤ P.min then .ok n0
  else
    let n := if P.max ≤ n0 then P.max else n0
    let normal := if P.max ≤ n0 then P.avg else if n0 ≤ P.avg then n0 else P.avg
    match scan P.gear P.maskS st.buf st.pos (normal - P.min) P.min 0 with
    | .ub => .ub
    | .ok (some i, _) => .ok i
    | .ok (none, fp) =>
      let i := Nat.max P.min normal
      match scan P.gear P.maskL st.buf st.pos (n - i) i fp with
      | .ub => .ub
      | .ok (some i, _) => .ok i
      | .ok (none, _) => .ok (Nat.max i n)

/-- file_chunker.cpp:61-70: move the remaining bytes to the front and refill.
`std::string::copy` is a `memcpy`; overlapping regions are undefined behaviour, as is a start
position behind the end of the buffer (exception in a `noexcept` function).
`ok` tells whether the read succeeds. -/
def refill (st : State) (ok : Bool) : Out State :=
  let remaining := st.size - st.pos
  if st.buf.length < st.pos ∨ (0 < remaining ∧ st.pos < remaining) then .ub
  else
    let buf1 := (st.buf.drop st.pos).take remaining ++ st.buf.drop remaining
    let ssize := st.buf.length - remaining
    if ok then
      let got := st.rest.take ssize
      .ok { rest := st.rest.drop ssize
            eof := decide (got.length < ssize)
            bad := false
            buf := buf1.take remaining ++ got ++ buf1.drop (remaining + got.length)
            size := got.length + remaining
            pos := 0 }
    else .ok { st with buf := buf1, bad := true }

/-- file_chunker.cpp:73-82: the part of `NextChunk` after the buffer was filled. -/
def deliver (P : Params) (st : State) : Out (Option (List UInt8) × State) :=
  if st.pos = st.size then .ok (none, st)
  else
    match nextChunkBoundary P st with
    | .ub => .ub
    | .ok off => .ok (some ((st.buf.drop st.pos).take off), { st with pos := st.pos + off })

/-- file_chunker.cpp:51-82 (`NextChunk`). `size_ - pos_` is unsigned, `pos_ > size_` is made
undefined in the model. -/
def nextChunk (P : Params) (st : State) (ok : Bool) : Out (Option (List UInt8) × State) :=
  if st.bad then .ok (none, st)
  else if st.size < st.pos then .ub
  else if st.size - st.pos < P.max ∧ st.eof = false then
    match refill st ok with
    | .ub => .ub
    | .ok st' => if st'.bad then .ok (none, st') else deliver P st'
  else deliver P st

/-- Result of the loop below, `timeout` if the fuel was not sufficient. -/
inductive Loop where
  | done (chunks : List (List UInt8)) (st : State)
  | ub
  | timeout

/-- large_object_cas.tpp:162-169: the loop `while (auto chunk = chunker.NextChunk())` collecting all
chunks.  `io j` tells whether reading from the stream succeeds in the `j`-th call. -/
def drain (P : Params) (io : Nat → Bool) : (fuel j : Nat) → State → Loop
  | 0, _, _ => .timeout
  | fuel + 1, j, st =>
    match nextChunk P st (io j) with
    | .ub => .ub
    | .ok (none, st') => .done [] st'
    | .ok (some c, st') =>
      match drain P io fuel (j + 1) st' with
      | .done cs st'' => .done (c :: cs) st''
      | .ub => .ub
      | .timeout => .timeout

end Verif.Chunker
