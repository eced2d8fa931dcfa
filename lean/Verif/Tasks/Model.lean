import Mathlib.Data.List.Count
import Mathlib.Data.List.Nodup

/-!
# The task system

Threads with one queue each, a counter of the workload, and a client waiting for the counter to become zero. Modelled as
transition system: one step is one access to shared state (a lock, a queue under its lock, the counter, a flag, a
notification). What tasks do is arbitrary: they may queue tasks, ask for shutdown, and end.

Waiting on a condition variable is a state of its own with a flag telling whether a notification arrived; a waiting
thread may be woken up if it was notified, and also without reason.
-/

namespace Verif.Tasks

variable {T : Type}

/-- What a thread does while calling `QueueTask` (task_system.hpp:50-61) or `Shutdown` (task_system.cpp:43-52). -/
inductive Call (T : Type) where
  | none
  /-- notification_queue.hpp:141-153 (`try_push`): lock taken, about to increment the counter -/
  | locked (j : Nat) (u : T)
  /-- counter incremented, about to append to the queue -/
  | lockedInc (j : Nat) (u : T)
  /-- notification_queue.hpp:129-137 (`push`): about to increment the counter -/
  | plain (j : Nat) (u : T)
  /-- counter incremented, about to lock and append -/
  | plainInc (j : Nat) (u : T)
  /-- about to notify -/
  | notify (j : Nat)
  /-- about to set `shutdown_` -/
  | shutFlag
  /-- about to abort the counter -/
  | shutAbort
  /-- about to mark queue `j` as done (notification_queue.hpp:158-164) -/
  | shutQueue (j : Nat)
  /-- about to notify queue `j` of being done -/
  | shutNotify (j : Nat)
  deriving DecidableEq

/-- Where a thread is. Threads `0, ..., n - 1` are the workers (task_system.cpp:63-84), thread `n` is the client. -/
inductive PC (T : Type) where
  /-- head of the loop -/
  | top
  /-- about to try queue `idx + i` -/
  | scan (i : Nat)
  /-- about to call `pop` on its own queue -/
  | pop
  /-- notification_queue.hpp:94-112 (`pop`), lock held: about to decrement the counter before waiting -/
  | idle
  /-- about to wait, lock still held -/
  | asleep
  /-- waiting; the flag tells that it was notified -/
  | wait (b : Bool)
  /-- woken up, lock held, about to increment the counter -/
  | woken
  /-- lock held, about to look at the front of the queue -/
  | take
  /-- a task was taken from queue `j`, lock held, about to decrement the counter -/
  | popped (j : Nat) (t : T)
  /-- about to release the lock -/
  | unlock (j : Nat) (t : T)
  /-- about to check `shutdown_` -/
  | have (t : T)
  /-- running a task -/
  | run (t : T) (c : Call T)
  | exit
  /-- the client, not waiting -/
  | client (c : Call T)
  /-- notification_queue.hpp:47-52 (`WaitForZero`): about to check the loop condition -/
  | finCheck
  /-- about to lock and check the predicate -/
  | finLock
  /-- waiting; the flag tells that it was notified -/
  | finWait (b : Bool)
  /-- `Finish` has returned -/
  | returned
  deriving DecidableEq

inductive Event (T : Type) where
  | pushed (t : T)
  | started (t : T)
  | finished (t : T)
  | dropped (t : T)
  deriving DecidableEq

/-- The shared state: notification_queue.hpp:60-64, 166-171, task_system.hpp:74-80. -/
structure State (T : Type) where
  count : Int
  queue : Nat → List T
  lock : Nat → Bool
  qdone : Nat → Bool
  down : Bool
  aborted : Bool
  pc : Nat → PC T
  log : List (Event T)

/-- What a step changes besides the place of its thread. -/
structure Eff (T : Type) where
  /-- change of the counter -/
  count : Int := 0
  acquire : Option Nat := none
  release : Option Nat := none
  push : Option (Nat × T) := none
  /-- queue whose first element is removed -/
  drop : Option Nat := none
  log : List (Event T) := []
  notify : Option Nat := none
  down : Bool := false
  abort : Bool := false
  qdone : Option Nat := none

/-- Being notified. -/
def PC.notif (b : Bool) : PC T → PC T
  | .wait b' => .wait (b || b')
  | .finWait b' => .finWait (b || b')
  | p => p

/-- A step of thread `k`, which gets to `p'`. The client is notified when the counter reaches zero by being decremented
(notification_queue.hpp:38-43), and when it is aborted (lines 54-58). -/
def State.apply (s : State T) (n k : Nat) (p' : PC T) (e : Eff T) : State T where
  count := s.count + e.count
  queue := fun j =>
    let q := if e.drop = some j then (s.queue j).tail else s.queue j
    match e.push with
    | some (j', u) => if j' = j then q ++ [u] else q
    | none => q
  lock := fun j => if e.acquire = some j then true else if e.release = some j then false else s.lock j
  qdone := fun j => decide (e.qdone = some j) || s.qdone j
  down := e.down || s.down
  aborted := e.abort || s.aborted
  pc := fun i => PC.notif
    (decide (e.notify = some i) ||
      (decide (i = n) && ((decide (e.count < 0) && decide (s.count + e.count = 0)) || e.abort)))
    (if i = k then p' else s.pc i)
  log := e.log ++ s.log

/-- The call a thread is doing, and the same place with another call. -/
def PC.call : PC T → Option (Call T)
  | .run _ c => some c
  | .client c => some c
  | _ => none

def PC.withCall (c : Call T) : PC T → PC T
  | .run t _ => .run t c
  | .client _ => .client c
  | p => p

/-- Steps of calls: from, to, and what is changed. -/
inductive CallStep (n : Nat) (s : State T) : Call T → Call T → Eff T → Prop where
  | tryPush (j : Nat) (u : T) : j < n → s.lock j = false → CallStep n s .none (.locked j u) { acquire := some j }
  | tryPushInc (j : Nat) (u : T) : CallStep n s (.locked j u) (.lockedInc j u) { count := 1 }
  | tryPushAdd (j : Nat) (u : T) : CallStep n s (.lockedInc j u) (.notify j)
      { release := some j, push := some (j, u), log := [.pushed u] }
  | push (j : Nat) (u : T) : j < n → CallStep n s .none (.plain j u) {}
  | pushInc (j : Nat) (u : T) : CallStep n s (.plain j u) (.plainInc j u) { count := 1 }
  | pushAdd (j : Nat) (u : T) : s.lock j = false →
      CallStep n s (.plainInc j u) (.notify j) { push := some (j, u), log := [.pushed u] }
  | notify (j : Nat) : CallStep n s (.notify j) .none { notify := some j }
  | shutdown : CallStep n s .none .shutFlag {}
  | shutFlag : CallStep n s .shutFlag .shutAbort { down := true }
  | shutAbort : CallStep n s .shutAbort (.shutQueue 0) { abort := true }
  | shutQueue (j : Nat) : j < n → s.lock j = false →
      CallStep n s (.shutQueue j) (.shutNotify j) { qdone := some j }
  | shutNotify (j : Nat) : CallStep n s (.shutNotify j) (.shutQueue (j + 1)) { notify := some j }
  | shutEnd : CallStep n s (.shutQueue n) .none {}

/-- Steps of workers: task_system.cpp:63-84, notification_queue.hpp:94-125. `b` tells that the step is a wake-up without
notification. -/
inductive WorkStep (n : Nat) (s : State T) (k : Nat) : Bool → PC T → PC T → Eff T → Prop where
  | loop : s.down = false → WorkStep n s k false .top (.scan 0) {}
  | loopEnd : s.down = true → WorkStep n s k false .top .exit {}
  /-- `try_pop` finds nothing, or does not get the lock -/
  | scanNext (i : Nat) : i < n → WorkStep n s k false (.scan i) (.scan (i + 1)) {}
  | scanTake (i : Nat) (t : T) (q : List T) : i < n → s.lock ((k + i) % n) = false →
      s.queue ((k + i) % n) = t :: q →
      WorkStep n s k false (.scan i) (.popped ((k + i) % n) t)
        { acquire := some ((k + i) % n), drop := some ((k + i) % n) }
  | scanEnd : WorkStep n s k false (.scan n) .pop {}
  | popIdle : s.lock k = false → s.queue k = [] → s.qdone k = false →
      WorkStep n s k false .pop .idle { acquire := some k }
  | popTake : s.lock k = false → (s.queue k ≠ [] ∨ s.qdone k = true) →
      WorkStep n s k false .pop .take { acquire := some k }
  | idle : WorkStep n s k false .idle .asleep { count := -1 }
  | asleep : WorkStep n s k false .asleep (.wait false) { release := some k }
  | wake (b : Bool) : s.lock k = false → (s.queue k ≠ [] ∨ s.qdone k = true) →
      WorkStep n s k (!b) (.wait b) .woken { acquire := some k }
  | wakeAgain (b : Bool) : s.lock k = false → s.queue k = [] → s.qdone k = false →
      WorkStep n s k (!b) (.wait b) (.wait false) {}
  | woken : WorkStep n s k false .woken .take { count := 1 }
  | take (t : T) (q : List T) : s.queue k = t :: q → WorkStep n s k false .take (.popped k t) { drop := some k }
  | takeEnd : s.queue k = [] → WorkStep n s k false .take .exit { release := some k }
  | popped (j : Nat) (t : T) : WorkStep n s k false (.popped j t) (.unlock j t) { count := -1 }
  | unlock (j : Nat) (t : T) : WorkStep n s k false (.unlock j t) (.have t) { release := some j }
  | start (t : T) : s.down = false → WorkStep n s k false (.have t) (.run t .none) { log := [.started t] }
  | leave (t : T) : s.down = true → WorkStep n s k false (.have t) .exit { log := [.dropped t] }
  | finish (t : T) : WorkStep n s k false (.run t .none) .top { log := [.finished t] }

/-- Steps of the client waiting: notification_queue.hpp:47-52. -/
inductive ClientStep (s : State T) : Bool → PC T → PC T → Eff T → Prop where
  | finish : ClientStep s false (.client .none) .finCheck {}
  | checkTrue : (s.count = 0 ∨ s.aborted = true) → ClientStep s false .finCheck .returned {}
  | checkFalse : ¬ (s.count = 0 ∨ s.aborted = true) → ClientStep s false .finCheck .finLock {}
  | lockTrue : (s.count = 0 ∨ s.aborted = true) → ClientStep s false .finLock .finCheck {}
  | lockFalse : ¬ (s.count = 0 ∨ s.aborted = true) → ClientStep s false .finLock (.finWait false) {}
  | wake (b : Bool) : ClientStep s (!b) (.finWait b) .finLock {}
  | again : ClientStep s false .returned (.client .none) {}

/-- Steps of the system; `b` tells that it is a wake-up without notification. -/
inductive Step (n : Nat) (s : State T) : Bool → State T → Prop where
  | call (k : Nat) (c c' : Call T) (e : Eff T) : k ≤ n → (s.pc k).call = some c → CallStep n s c c' e →
      Step n s false (s.apply n k ((s.pc k).withCall c') e)
  | work (k : Nat) (b : Bool) (p' : PC T) (e : Eff T) : k < n → WorkStep n s k b (s.pc k) p' e →
      Step n s b (s.apply n k p' e)
  | client (b : Bool) (p' : PC T) (e : Eff T) : ClientStep s b (s.pc n) p' e → Step n s b (s.apply n n p' e)

/-- The start (task_system.cpp:24-34): all threads are about to run, the counter is their number. -/
def start (n : Nat) : State T where
  count := n
  queue := fun _ => []
  lock := fun _ => false
  qdone := fun _ => false
  down := false
  aborted := false
  pc := fun i => if i = n then .client .none else .top
  log := []

inductive Reachable (n : Nat) : State T → Prop where
  | start : Reachable n (start n)
  | step {s s' : State T} {b : Bool} : Reachable n s → Step n s b s' → Reachable n s'

end Verif.Tasks
