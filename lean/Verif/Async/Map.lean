import Verif.Async.Cycle
import Mathlib.Data.List.Count

/-!
# The asynchronous map

Values for keys are made on demand by value creators, and consumers wait for the values of lists of keys. Modelled as
transition system: the pool holds everything that is going on or waiting to be run, that is, queued tasks and functions
in the middle of their work; in each step any item of the pool makes its next access to shared state. This includes all
behaviours of any number of threads. What value creators and consumers do is arbitrary: at any time after a value creator
was started, its setter may be called, its logger may be called with a fatal message, and its subcaller may be called.

What happens under the lock of a node is one step. The test for readiness outside of the lock is taken as atomic, see
`C26_race`. The vectors of tasks of all nodes are each one list. Tasks are run sooner or later: there is no shutdown.
-/

namespace Verif.Async

/-- A call of `ConsumeAfterKeysReady` (async_map_consumer.hpp:94-119, 152-185): the key on whose behalf the call is made
(for calls by a subcaller), the keys waited for, and whether there is a failure function. -/
structure Call (K : Type) where
  owner : Option K
  keys : List K
  handler : Bool
  deriving DecidableEq

inductive Item (K V : Type) where
  /-- task: run the value creator (async_map_consumer.hpp:231-240) -/
  | create (k : K)
  /-- `EnsureValuesEventuallyPresent` at key `i` (async_map_consumer.hpp:187-241): about to mark the node as queued -/
  | ensure (c i : Nat)
  /-- about to queue the processing task (async_map_node.hpp:72) -/
  | ensurePush (c i : Nat)
  /-- `QueueOnFailure` (async_map_node.hpp:117-131) for key `p`: before the first test -/
  | failCheck (c p : Nat)
  /-- about to take the lock -/
  | failLock (c p : Nat)
  /-- `AddOrQueueAwaitingTask` (async_map_node.hpp:84-108) for key `p`: before the first test -/
  | waitCheck (c p : Nat)
  /-- about to take the lock -/
  | waitLock (c p : Nat)
  /-- about to call `RecordNodeRequest` (async_map_consumer.hpp:284-298) -/
  | record (c p : Nat)
  /-- task: `QueueTaskWhenAllReady` (async_map_consumer.hpp:248-282) -/
  | cont (c p : Nat)
  /-- task: run the consumer (async_map_consumer.hpp:160-163, 258-266) -/
  | consume (c : Nat)
  /-- task: run the failure function -/
  | failTask (c : Nat)
  /-- the setter (async_map_node.hpp:42-57) -/
  | set (k : K) (v : V)
  /-- `Fail` (async_map_node.hpp:135-155) -/
  | failNode (k : K)
  deriving DecidableEq

/-- What is observed. That a waiting consumer is given up is recorded for the proofs. Reading a value that is not there,
and accessing a vector outside its range, are undefined behaviour. -/
inductive Event (K V : Type) where
  | created (k : K)
  | setterCalled (k : K) (v : V)
  | fatalCalled (k : K)
  | consumed (c : Nat) (vs : List V)
  | handled (c : Nat)
  | dropped (c : Nat)
  | undefined
  deriving DecidableEq

/-- The shared state: async_map_node.hpp:173-179, async_map_consumer.hpp:146-147. -/
structure Core (K V : Type) where
  value : K → Option V
  failed : K → Bool
  /-- `is_queued_to_be_processed_` -/
  flag : K → Bool
  /-- `awaiting_tasks_`: node, call, and position at which the call goes on -/
  awaiting : List (K × Nat × Nat)
  /-- `failure_tasks_`: node and call -/
  failing : List (K × Nat)
  calls : List (Call K)
  requests : List (K × K)
  log : List (Event K V)

variable {K V : Type} [DecidableEq K]

/-- The `p`-th key of call `c`. -/
def Core.keyAt (s : Core K V) (c p : Nat) : Option K := (s.calls[c]?).bind fun r => r.keys[p]?

def Core.keys (s : Core K V) (c : Nat) : List K := ((s.calls[c]?).map Call.keys).getD []

def Core.handler (s : Core K V) (c : Nat) : Bool := ((s.calls[c]?).map Call.handler).getD false

def Core.owner (s : Core K V) (c : Nat) : Option K := (s.calls[c]?).bind Call.owner

/-- async_map_node.hpp:168-170 (`IsReady`). -/
def Core.ready (s : Core K V) (k : K) : Bool := (s.value k).isSome

/-- What a step gives. -/
structure Res (K V : Type) where
  core : Core K V
  items : List (Item K V)

/-- Undefined behaviour. -/
def Core.ub (s : Core K V) : Res K V := ⟨{ s with log := .undefined :: s.log }, []⟩

/-- Registering at the node of key `p`: async_map_consumer.hpp:168-170, 269-271: there need not be a failure function. -/
def Core.register (s : Core K V) (c p : Nat) : Item K V :=
  if s.handler c = true then .failCheck c p else .waitCheck c p

/-- The values of keys (async_map_consumer.hpp:259-265). -/
def Core.values (s : Core K V) : List K → Option (List V)
  | [] => some []
  | k :: ks =>
    match s.value k, s.values ks with
    | some v, some vs => some (v :: vs)
    | _, _ => none

def exec (x : Item K V) (s : Core K V) : Res K V :=
  match x with
  | .create k => ⟨{ s with log := .created k :: s.log }, []⟩
  | .ensure c i =>
    match s.keyAt c i with
    | some k => if s.flag k = true then ⟨s, [.ensure c (i + 1)]⟩
        else ⟨{ s with flag := fun k' => decide (k = k') || s.flag k' }, [.ensurePush c i]⟩
    | none => ⟨s, [s.register c 0]⟩
  | .ensurePush c i =>
    match s.keyAt c i with
    | some k => ⟨s, [.create k, .ensure c (i + 1)]⟩
    | none => s.ub
  | .failCheck c p =>
    match s.keyAt c p with
    | some k => ⟨s, [if s.ready k = true then .waitCheck c p else .failLock c p]⟩
    | none => s.ub
  | .failLock c p =>
    match s.keyAt c p with
    | some k => if s.failed k = true then ⟨s, [.failTask c, .waitCheck c p]⟩
        else ⟨{ s with failing := s.failing ++ [(k, c)] }, [.waitCheck c p]⟩
    | none => s.ub
  | .waitCheck c p =>
    match s.keyAt c p with
    | some k => ⟨s, [if s.ready k = true then .cont c (p + 1) else .waitLock c p]⟩
    | none => s.ub
  | .waitLock c p =>
    match s.keyAt c p with
    | some k =>
      if s.failed k = true then ⟨{ s with log := .dropped c :: s.log }, [.record c p]⟩
      else if s.ready k = true then ⟨s, [.cont c (p + 1)]⟩
      else ⟨{ s with awaiting := s.awaiting ++ [(k, c, p + 1)] }, [.record c p]⟩
    | none => s.ub
  | .record c p =>
    match s.owner c, s.keyAt c p with
    | some o, some k => ⟨{ s with requests := s.requests ++ [(o, k)] }, []⟩
    | _, _ => ⟨s, []⟩
  | .cont c p => ⟨s, [if p = (s.keys c).length then .consume c else s.register c p]⟩
  | .consume c =>
    match s.values (s.keys c) with
    | some vs => ⟨{ s with log := .consumed c vs :: s.log }, []⟩
    | none => s.ub
  | .failTask c => ⟨{ s with log := .handled c :: s.log },
      match s.owner c with
      | some o => [.failNode o]
      | none => []⟩
  | .set k v =>
    if s.failed k = true then ⟨s, []⟩
    else ⟨{ s with
        value := fun k' => if k = k' then some v else s.value k'
        awaiting := s.awaiting.filter fun w => !decide (w.1 = k)
        failing := s.failing.filter fun w => !decide (w.1 = k) },
      (s.awaiting.filter fun w => decide (w.1 = k)).map fun w => .cont w.2.1 w.2.2⟩
  | .failNode k =>
    if s.ready k = true ∨ s.failed k = true then ⟨s, []⟩
    else ⟨{ s with
        failed := fun k' => decide (k = k') || s.failed k'
        awaiting := s.awaiting.filter fun w => !decide (w.1 = k)
        failing := s.failing.filter fun w => !decide (w.1 = k)
        log := ((s.awaiting.filter fun w => decide (w.1 = k)).map fun w => .dropped w.2.1) ++ s.log },
      (s.failing.filter fun w => decide (w.1 = k)).map fun w => .failTask w.2⟩

structure State (K V : Type) where
  core : Core K V
  pool : List (Item K V)

/-- Steps: an item goes on; a setter, logger or subcaller given to a value creator is called; a call from outside. -/
inductive Step : State K V → State K V → Prop where
  | op (s : Core K V) (pre post : List (Item K V)) (x : Item K V) :
      Step ⟨s, pre ++ x :: post⟩ ⟨(exec x s).core, pre ++ (exec x s).items ++ post⟩
  | setter (s : Core K V) (pool : List (Item K V)) (k : K) (v : V) : Event.created k ∈ s.log →
      Step ⟨s, pool⟩ ⟨{ s with log := .setterCalled k v :: s.log }, .set k v :: pool⟩
  | fatal (s : Core K V) (pool : List (Item K V)) (k : K) : Event.created k ∈ s.log →
      Step ⟨s, pool⟩ ⟨{ s with log := .fatalCalled k :: s.log }, .failNode k :: pool⟩
  | call (s : Core K V) (pool : List (Item K V)) (r : Call K) :
      (∀ o, r.owner = some o → Event.created o ∈ s.log ∧ r.handler = true) →
      Step ⟨s, pool⟩ ⟨{ s with calls := s.calls ++ [r] },
        (if r.keys = [] then .consume s.calls.length else .ensure s.calls.length 0) :: pool⟩

def start : State K V :=
  ⟨⟨fun _ => none, fun _ => false, fun _ => false, [], [], [], [], []⟩, []⟩

inductive Reachable : State K V → Prop where
  | start : Reachable start
  | step {s s' : State K V} : Reachable s → Step s s' → Reachable s'

/-- Reachability from a given state. -/
inductive Steps : State K V → State K V → Prop where
  | refl (s : State K V) : Steps s s
  | tail {s s' s'' : State K V} : Steps s s' → Step s' s'' → Steps s s''

end Verif.Async
