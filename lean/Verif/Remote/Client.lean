import Verif.Exec.LocalAction
import Verif.Remote.Retry

/-!
# Executing actions at a remote endpoint: model

Source: `src/buildtool/execution_api/remote/bazel/bazel_execution_client.cpp`, `bazel_network.cpp`, `bazel_ac_client.cpp`,
`bazel_action.cpp` (same directory).

The endpoint is given by what it answers to each call. The upload of blobs is a parameter (C36, C50, C67), and so are the
identifiers of actions (C47, C76). Exceptions are left out, as are standard output and error, server logs, messages, and the
duration of the execution.
-/

namespace Verif.Remote.Client

open Verif.Exec (CacheFlag cacheEnabled executionEnabled Mode Action containsOutputs containsPaths)
open Verif.Remote (Config Resp withRetry ofStatus)

/-! ## Messages -/

/-- `bazel_re::ExecuteResponse`: status, result, and whether it is from the cache of the endpoint. -/
structure Answer where
  status : Nat
  result : Exec.Result
  cached : Bool
  deriving DecidableEq

/-- The result of `google::longrunning::Operation`: an error, a response, or something that is no response to an execution
request (including nothing). -/
inductive Content where
  | error (code : Nat)
  | answer (a : Answer)
  | other
  deriving DecidableEq

/-- `google::longrunning::Operation`. -/
structure Op where
  name : Str
  done : Bool
  content : Content
  deriving DecidableEq

/-- What arrives for a call: the operations, and the status code at the end of the stream (for these codes see
`grpc::StatusCode`: 0 is OK, 4 `DEADLINE_EXCEEDED`, 9 `FAILED_PRECONDITION`, 14 `UNAVAILABLE`). -/
structure Stream where
  ops : List Op
  status : Nat
  deriving DecidableEq

/-! ## The execution client -/

/-- bazel_execution_client.cpp:181-183, 196-198: whether to leave the loop. -/
def leaves (status : Nat) : Bool := status ≠ 14 && status ≠ 4

/-- bazel_execution_client.cpp:167-206 (`ReadExecution`): an operation, or that there is none and whether it is useful to try
again. A reader that could not be created is `none`. -/
def read (wait : Bool) : Option Stream → Op ⊕ Bool
  | none => .inr true
  | some ⟨[], st⟩ => .inr (leaves st)
  | some ⟨o :: r, st⟩ =>
    if wait then if st = 0 then .inl (r.getLast?.getD o) else .inr (leaves st) else .inl o

/-- bazel_execution_client.hpp:51-57 (`State`). -/
inductive State where
  | failed
  | ongoing
  | finished
  | unknown
  | retry
  deriving DecidableEq

/-- bazel_execution_client.hpp:50-68 (`ExecutionResponse`). -/
structure Response where
  handle : Str := []
  state : State := .unknown
  output : Option (Exec.Result × Bool) := none
  deriving DecidableEq

/-- bazel_execution_client.cpp:208-284 (`ExtractContents`). -/
def extract (o : Op) : Response :=
  if !o.done then { handle := o.name, state := .ongoing }
  else
    match o.content with
    | .error code => { handle := o.name, state := if code = 14 then .retry else .failed }
    | .other => { handle := o.name, state := .failed }
    | .answer a =>
      if a.status ≠ 0 then { handle := o.name, state := if a.status = 14 then .retry else if a.status = 9 then .retry else .failed }
      else { handle := o.name, state := .finished, output := some (a.result, a.cached) }

/-- bazel_execution_client.cpp:104-124: one call of `Execute`: the response, if there is a new one, and how the call ends. -/
def executeCall (wait : Bool) (s : Option Stream) : Option Response × Resp :=
  match read wait s with
  | .inr fatal => (none, if fatal then .fatal else .error)
  | .inl o =>
    (some (extract o),
      match (extract o).state with
      | .ongoing => .ok
      | .finished => .ok
      | .retry => .error
      | _ => .fatal)

/-- bazel_execution_client.cpp:141-159: one call of `WaitExecution`. -/
def waitCall (s : Option Stream) : Option Response × Resp :=
  match read true s with
  | .inr fatal => (none, if fatal then .fatal else .error)
  | .inl o =>
    (some (extract o),
      match (extract o).state with
      | .finished => .ok
      | .retry => .error
      | _ => .fatal)

/-- bazel_execution_client.cpp:103, 114, 139, 151: the response of the last call that had one. -/
def lastResponse (g : Nat → Option Response) (calls : Nat) : Response :=
  ((List.range calls).filterMap g).getLast?.getD {}

/-- How often to try, the jitter, and a bound on the number of rounds of the loop. -/
structure Setup where
  config : Config
  jitter : Nat → Nat
  fuel : Nat

/-- bazel_execution_client.cpp:85-132 (`Execute`), 134-165 (`WaitExecution`): the response, and the number of calls; `none` if the
bound was too small. -/
def calls (p : Setup) (call : Option Stream → Option Response × Resp) (s : Nat → Option Stream) : Option (Response × Nat) :=
  (withRetry p.config (fun k => (call (s k)).2) p.jitter p.fuel).map fun r =>
    (lastResponse (fun k => (call (s k)).1) r.calls, r.calls)

/-! ## Actions -/

/-- The endpoint: what the action cache answers to the calls, with status code; what arrives for the calls of `Execute`, by
identifier of the action, and of `WaitExecution`, by name of the operation; and whether blobs can be uploaded. -/
structure Server where
  ac : Str → Nat → Nat × Exec.Result
  exec : Str → Nat → Option Stream
  wait : Str → Nat → Option Stream
  uploads : Bool

/-- What is done at the endpoint. -/
inductive Event where
  | lookup (id : Str) (calls : Nat)
  | upload
  | execute (id : Str) (calls : Nat)
  | await (handle : Str) (calls : Nat)
  deriving DecidableEq

/-- bazel_network.cpp:129-152 (`ExecuteBazelActionSync`). -/
def sync (p : Setup) (S : Server) (id : Str) : Option (Option (Exec.Result × Bool) × List Event) :=
  (calls p (executeCall true) (S.exec id)).bind fun (r, n) =>
    (if r.state = .ongoing then
      (calls p waitCall (S.wait r.handle)).map fun (r', m) => (r', [Event.execute id n, .await r.handle m])
    else some (r, [Event.execute id n])).map fun (r, ev) => (if r.state ≠ .finished then none else r.output, ev)

/-- bazel_ac_client.cpp:38-73 (`GetActionResult`). -/
def lookup (p : Setup) (S : Server) (id : Str) : Option (Option Exec.Result × List Event) :=
  (withRetry p.config (fun k => ofStatus (S.ac id k).1) p.jitter p.fuel).map fun r =>
    (if r.ok then some (S.ac id (r.calls - 1)).2 else none, [.lookup id r.calls])

/-- bazel_action.cpp:105-110: whether a result is accepted from the cache. -/
def accepted {κ : Type} (a : Action κ) (r : Exec.Result) : Bool :=
  r.exitCode = 0 && if a.mode = .v20 then containsOutputs r a.files a.dirs else containsPaths r a.paths

/-- What is reported for an action: its identifier, the result, and whether it is from a cache. -/
structure Report where
  id : Str
  result : Exec.Result
  cached : Bool
  deriving DecidableEq

/-- bazel_action.cpp:121-150: execution. The identifier of the action is given by whether results are not to be cached; it cannot
be created if it is `none`. -/
def executeAction (p : Setup) (S : Server) (ids : Bool → Option Str) (flag : CacheFlag) (id : Str) (ev : List Event) :
    Option (Option Report × List Event) :=
  if executionEnabled flag then
    if S.uploads then
      (sync p S id).map fun (o, ev') =>
        (match o with
        | none => none
        | some (r, cached) =>
          if flag = .pretendCached then (ids false).map fun id' => ⟨id', r, true⟩ else some ⟨id, r, cached⟩,
          ev ++ .upload :: ev')
    else some (none, ev ++ [.upload])
  else some (none, ev)

/-- bazel_action.cpp:62-150 (`BazelAction::Execute`). -/
def execute {κ : Type} (p : Setup) (S : Server) (a : Action κ) (ids : Bool → Option Str) (flag : CacheFlag) :
    Option (Option Report × List Event) :=
  match ids (!cacheEnabled flag) with
  | none => some (none, [])
  | some id =>
    if cacheEnabled flag then
      (lookup p S id).bind fun (o, ev) =>
        match o with
        | none => executeAction p S ids flag id ev
        | some r => if accepted a r then some (some ⟨id, r, true⟩, ev) else executeAction p S ids flag id ev
    else executeAction p S ids flag id []

end Verif.Remote.Client
