/-!
# Model of transferring blobs by byte streams

Source: `src/utils/cpp/incremental_reader.{hpp,cpp}`, `src/buildtool/execution_api/remote/bazel/bytestream_client.hpp`,
`src/buildtool/execution_api/execution_service/bytestream_server.cpp`.

Bytes are of any type. Resource names are covered by C46, so there is one resource only.
-/

namespace Verif.Remote.Stream

variable {α δ σ : Type}

/-! ## Reading a source chunk by chunk -/

/-- incremental_reader.hpp:112-119: the size of chunks, whether the source is in memory (otherwise it is a file), and
its content. -/
structure Reader (α : Type) where
  size : Nat
  mem : Bool
  data : List α

/-- incremental_reader.hpp:140-144 (`GetEndOffset`). -/
def Reader.stop (R : Reader α) : Nat := R.data.length + 1

/-- incremental_reader.hpp:96-101 (`make_iterator`). -/
def Reader.start (R : Reader α) (offset : Nat) : Nat := min offset R.stop

/-- incremental_reader.cpp:98-158 (`ReadChunk`, `ReadFromFile`, `ReadFromMemory`): from memory, it is an error to start after the
last character (`at` throws); from a file, nothing is read there. -/
def Reader.chunk (R : Reader α) (offset : Nat) : Option (List α) :=
  if R.mem = true ∧ R.data ≠ [] ∧ R.data.length ≤ offset then none
  else some ((R.data.drop offset).take R.size)

/-- incremental_reader.cpp:170-177 (`operator++`). -/
def Reader.next (R : Reader α) (offset : Nat) : Nat :=
  if R.data.length ≤ offset + R.size then R.stop else offset + R.size

/-- All chunks from an offset; the first argument bounds their number. -/
def Reader.chunks (R : Reader α) : Nat → Nat → Option (List (List α))
  | 0, _ => none
  | n + 1, offset =>
    if offset = R.stop then some []
    else (R.chunk offset).bind fun c => (R.chunks n (R.next offset)).map (c :: ·)

/-! ## Reading from a server -/

/-- What the client gets to see of a stream of responses that the server sends: all of them, and the status of the server; or
only some of the first, and failure. -/
def Arrives (sent : List (List α)) (status : Bool) (got : List (List α)) (ok : Bool) : Prop :=
  got = sent ∧ ok = status ∨ got <+: sent ∧ ok = false

/-- bytestream_server.cpp:37-109 (`Read`): the chunks from the given offset, and whether all could be read. The object is in
the CAS, thus in a file. -/
def serverRead (size : Nat) (content : List α) (offset : Nat) : List (List α) × Bool :=
  match Reader.chunks ⟨size, false, content⟩ (content.length + 2) (Reader.start ⟨size, false, content⟩ offset) with
  | some l => (l, true)
  | none => ([], false)

/-- bytestream_client.hpp:54-74 (`Next`), bazel_network_reader.cpp:156-172 (`DumpBlob`): what is passed on to the callback,
and the result. -/
def dump : List (List α) → Bool → List α × Bool
  | [], ok => ([], ok)
  | [] :: _, _ => ([], true)
  | (a :: c) :: r, ok => (a :: c ++ (dump r ok).1, (dump r ok).2)

/-- bytestream_client.hpp:109-142 (`Read`): the digest of what was read has to be the one asked for. -/
def clientRead [DecidableEq δ] (H : List α → δ) (digest : δ) (got : List (List α)) (ok : Bool) : Option (List α) :=
  match dump got ok with
  | (d, true) => if H d = digest then some d else none
  | (_, false) => none

/-! ## Writing to a server -/

/-- A conversion to a signed integer of 32 bits. -/
def toInt32 (n : Nat) : Int := ((n : Int) + 2 ^ 31) % 2 ^ 32 - 2 ^ 31

/-- bytestream.proto (`WriteRequest`). -/
structure Req (α : Type) where
  data : List α
  offset : Int
  finish : Bool
deriving DecidableEq

/-- A server as it is seen by the client: whether a request is accepted, the answer to a query for the status, and the answer
at the end, which is the committed size if there is no error. -/
structure Server (σ α : Type) where
  recv : σ → Req α → Bool → σ → Prop
  query : σ → Int → σ → Prop
  finish : σ → Option Int → σ → Prop

/-- The state of the client: the position and the iterator; or the result. -/
inductive Conf (σ : Type)
  | run (pos it : Nat) (s : σ)
  | done (ok : Bool) (s : σ)

/-- bytestream_client.hpp:191-195: the request for a chunk. -/
def request (R : Reader α) (pos : Nat) (c : List α) : Req α := ⟨c, toInt32 pos, R.data.length ≤ pos + c.length⟩

/-- bytestream_client.hpp:144-246 (`Write`): the loop over the chunks and its end. -/
inductive Step (S : Server σ α) (R : Reader α) : Conf σ → Conf σ → Prop
  | failed {pos it s} : it ≠ R.stop → R.chunk it = none → Step S R (.run pos it s) (.done false s)
  | sent {pos it s c s'} : it ≠ R.stop → R.chunk it = some c → S.recv s (request R pos c) true s' →
      Step S R (.run pos it s) (.run (pos + c.length) (R.next it) s')
  | broken {pos it s c s' n s''} : it ≠ R.stop → R.chunk it = some c → S.recv s (request R pos c) false s' → S.query s' n s'' →
      n ≤ 0 → Step S R (.run pos it s) (.done false s'')
  | resume {pos it s c s' n s''} : it ≠ R.stop → R.chunk it = some c → S.recv s (request R pos c) false s' → S.query s' n s'' →
      0 < n → Step S R (.run pos it s) (.run n.toNat (R.start n.toNat) s'')
  | finish {pos it s n s'} : it = R.stop → S.finish s n s' → Step S R (.run pos it s) (.done (n = some R.data.length) s')

/-- bytestream_client.hpp:180-181: where the loop starts. -/
def begin (R : Reader α) (s : σ) : Conf σ := .run 0 (R.start 0) s

inductive Steps (S : Server σ α) (R : Reader α) : Conf σ → Conf σ → Prop
  | refl {c} : Steps S R c c
  | step {a b c} : Steps S R a b → Step S R b c → Steps S R a c

/-! ## The server -/

/-- What has been received, whether the stream is broken, whether the last request has been received, and the contents that have
been stored. -/
structure Own (α : Type) where
  got : List α
  broken : Bool
  closed : Bool
  stored : List (List α)

/-- cas_utils.cpp:48-76 (`Add`): what was received is stored, if it may be (for trees, this is the tree invariant). -/
def Own.store (valid : List α → Bool) (s : Own α) : Own α :=
  if valid s.got then { s with stored := s.got :: s.stored } else s

/-- bytestream_server.cpp:111-182 (`Write`), 184-192 (`QueryWriteStatus`), cas_utils.cpp:48-76 (`Add`), 161-182 (`CheckDigestConsistency`): the
offset of a request is ignored; everything that was received is stored when the stream ends; then the digest and the size are
compared, where in native mode the size 0 stands for an unknown one. If the stream breaks, the server still stores
what it has, but the client gets no answer. A query is answered by the default value. -/
def own [DecidableEq δ] (H : List α → δ) (valid : List α → Bool) (native : Bool) (digest : δ) (size : Nat) :
    Server (Own α) α where
  recv s r ok s' :=
    (s.broken = false ∧ s.closed = false ∧ ok = true ∧ s' = { s with got := s.got ++ r.data, closed := r.finish }) ∨
    (s.closed = true ∧ s' = s) ∨
    s' = { s with broken := true }
  query s n s' := n = 0 ∧ (s' = s ∨ s' = s.store valid)
  finish s n s' :=
    (s.broken = false ∧ s' = s.store valid ∧
      n = if valid s.got = true ∧ H s.got = digest ∧ (native = true ∧ size = 0 ∨ s.got.length = size) then
        some (s.got.length : Int) else none) ∨
    (n = none ∧ (s' = s ∨ s' = s.store valid))

end Verif.Remote.Stream
