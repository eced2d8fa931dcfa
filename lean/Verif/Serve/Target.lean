import Verif.Serve.Request

/-!
# The serve endpoint: export targets built on request

Model of the request for a target and of what the client does with the reply
(src/buildtool/serve_api/serve_service/target.cpp:300-342, 558-709, src/buildtool/main/build_utils.cpp:74-211,
src/buildtool/serve_api/remote/target_client.cpp:68-232, src/buildtool/build_engine/target_map/export.cpp:64-270).

Simplifications.  A target-cache key determines the export target and its configuration (C101_key_partial, C75_key_partial), hence the
export targets its analysis asks for; building is a function of the execution properties, the key and the values of
those targets.  A shard of the target cache stands for the execution properties it is for (C75_backend).  Requests are handled one
after the other; the endpoint has no other serve endpoint to ask; the lists of implied export targets are compared as
sets.  Analysis is given fuel, so that it is total also for cyclic dependencies.
-/

namespace Verif.Serve

open Verif

variable {S K V O : Type} [DecidableEq S] [DecidableEq K] [DecidableEq O]

/-- The export targets and how they are built: `deps` are the export targets asked for during the analysis of an export target,
`make` computes the result for given execution properties from the results of those, `objects` are the artifacts
mentioned in an entry, together with the blob of the entry itself. -/
structure Builds (S K V O : Type) where
  deps : K → List K
  make : S → K → List V → Option V
  objects : V → List K → List O

/-- src/buildtool/storage/target_cache_entry.hpp:34-80: the result of an export target and its implied export targets. -/
structure Entry (K V : Type) where
  value : V
  implied : List K
  deriving DecidableEq

/-- Compute all values, or fail. -/
def mapAll {α β : Type} (f : α → Option β) : List α → Option (List β)
  | [] => some []
  | a :: l => (f a).bind fun b => (mapAll f l).map (b :: ·)

/-- The results kept by the endpoint: the target caches of all shards, the local content-addressable storage, and that
of the remote-execution endpoint.  `own` is the shard for the execution properties of the endpoint itself
(src/buildtool/main/main.cpp:883-893). -/
structure Endpoint (S K V O : Type) where
  own : S
  tc : S → K → Option (Entry K V)
  cas : List O
  remote : List O

/-- Surrounding of a request: whether entries are written (the strategy is not `disable`, and the artifacts can be fetched from the
remote-execution endpoint), whether objects can be sent to the remote-execution endpoint, and the outcome of reading the request and of
setting up the repositories. -/
structure Surrounding (K : Type) where
  sync : Bool
  up : Bool
  prepare : K → Step Unit

/-- Analysis and build of an export target (export.cpp:137-270, 64-123): the value of the target cache `read` of the storage is
taken if there is one; otherwise the target is analysed, and registered for caching.  The second result are the
registered targets with the entries created for them (target_cache_entry.cpp:33-53). -/
def analyse (B : Builds S K V O) (q : S) (read : K → Option (Entry K V)) :
    Nat → K → Option (Entry K V × List (K × Entry K V))
  | 0, _ => none
  | n + 1, k =>
    match read k with
    | some e => some (e, [])
    | none =>
      (mapAll (analyse B q read n) (B.deps k)).bind fun rs =>
        (B.make q k (rs.map (·.1.value))).map fun v =>
          let e : Entry K V := ⟨v, k :: rs.flatMap (·.1.implied)⟩
          (e, rs.flatMap (·.2) ++ [(k, e)])

/-- The entry registered for a key, if any. -/
def newEntry (new : List (K × Entry K V)) (k : K) : Option (Entry K V) :=
  (new.find? fun p => p.1 = k).map (·.2)

/-- build_utils.cpp:94-147: an entry is only stored if the implied export targets were analysed or are in the
target cache already. -/
def storable (read : K → Option (Entry K V)) (new : List (K × Entry K V)) (e : Entry K V) : Bool :=
  e.implied.all fun i => (newEntry new i).isSome || (read i).isSome

/-- build_utils.cpp:154-211 (`WriteTargetCacheEntries`): entries written to the shard of the client, with their artifacts
(target_cache.tpp:28-43). -/
def write (B : Builds S K V O) (q : S) (new : List (K × Entry K V)) (w : Endpoint S K V O) : Endpoint S K V O where
  own := w.own
  tc := fun s k =>
    if s = q then
      match newEntry new k with
      | some e => if storable (w.tc q) new e then some e else w.tc q k
      | none => w.tc q k
    else w.tc s k
  cas := w.cas ++ new.flatMap fun p =>
    if storable (w.tc q) new p.2 then B.objects p.2.value p.2.implied else []
  remote := w.remote

/-- Reply of the endpoint: the entry, the log of a failed analysis or build, a status, or the process is gone. -/
inductive Reply (K V : Type) where
  | value (e : Entry K V)
  | log
  | status (c : Code)
  | lost
  deriving DecidableEq

/-- target.cpp:311-341, 661-702: upload everything the entry mentions and the entry itself, and answer with it. -/
def deliver (B : Builds S K V O) (c : Surrounding K) (w : Endpoint S K V O) (e : Entry K V) :
    Reply K V × Endpoint S K V O :=
  if c.up && (B.objects e.value e.implied).all (fun o => decide (o ∈ w.remote) || decide (o ∈ w.cas)) then
    (.value e, { w with remote := w.remote ++ B.objects e.value e.implied })
  else (.status .unavailable, w)

/-- target.cpp:213-709 (`TargetService::ServeTarget`). -/
def serveTarget (B : Builds S K V O) (c : Surrounding K) (fuel : Nat) (q : S) (k : K) (w : Endpoint S K V O) :
    Reply K V × Endpoint S K V O :=
  match w.tc q k with
  | some e => deliver B c w e
  | none =>
    match c.prepare k with
    | .crash => (.lost, w)
    | .stop code => (.status code, w)
    | .go _ =>
      match analyse B q (w.tc w.own) fuel k with
      | none => (if c.up then .log else .status .unavailable, w)
      | some r =>
        let w' := if c.sync then write B q r.2 w else w
        match w'.tc q k with
        | some e => deliver B c w' e
        | none => (.status .internal, w')

/-- A request: surrounding, fuel, execution properties of the client, and key. -/
structure Request (S K : Type) where
  c : Surrounding K
  fuel : Nat
  shard : S
  key : K

/-- Requests handled one after the other: the replies and the state in the end. -/
def serveAll (B : Builds S K V O) : List (Request S K) → Endpoint S K V O → List (Reply K V) × Endpoint S K V O
  | [], w => ([], w)
  | r :: rs, w =>
    let a := serveTarget B r.c r.fuel r.shard r.key w
    let b := serveAll B rs a.2
    (a.1 :: b.1, b.2)

/-! ## The client -/

/-- What the rule `export` does after asking. -/
inductive Took (K V : Type) where
  | entry (e : Entry K V)
  | locally
  | fatal
  deriving DecidableEq

/-- target_client.cpp:147-232 and export.cpp:176-232: `down` tells whether the blob of the entry can be fetched from the
remote-execution endpoint.  A lost connection is a status other than `INTERNAL`. -/
def took (down : Bool) : Reply K V → Took K V
  | .value e => if down then .entry e else .fatal
  | .log => .fatal
  | .status .internal => .fatal
  | .status _ => .locally
  | .lost => .locally

/-- export.cpp:130-270 at a client: the local target cache, then the serve endpoint, then analysis. -/
def client (B : Builds S K V O) (q : S) (read : K → Option (Entry K V)) (ask : K → Took K V) : Nat → K → Option (Entry K V)
  | 0, _ => none
  | n + 1, k =>
    match read k with
    | some e => some e
    | none =>
      match ask k with
      | .entry e => some e
      | .fatal => none
      | .locally =>
        (mapAll (client B q read ask n) (B.deps k)).bind fun es =>
          (B.make q k (es.map (·.value))).map fun v => ⟨v, k :: es.flatMap (·.implied)⟩

/-- src/buildtool/build_engine/target_map/absent_target_map.cpp:49-204 (`WithFlexibleVariables`): for a target in an absent
repository there is nothing else to try. -/
def clientAbsent (read : K → Option (Entry K V)) (ask : K → Took K V) (k : K) : Option (Entry K V) :=
  match read k with
  | some e => some e
  | none =>
    match ask k with
    | .entry e => some e
    | .fatal => none
    | .locally => none

end Verif.Serve
