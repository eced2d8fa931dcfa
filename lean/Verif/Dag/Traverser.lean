import Verif.Util.OMap

/-!
# Traversal of the dependency graph

The traverser runs tasks on several threads, which share flags and counters that are atomic. It is modelled as a
transition system: a thread is a list of operations still to be done, each of which makes at most one access to the
shared state; in each step any thread may do its next operation, or any queued task may be taken by a thread. The
number of threads is not limited, so every behaviour of a fixed number of threads is included. What running an action
gives (`ok`) is chosen freely in each step.
-/

namespace Verif.Dag

/-- dag.hpp:255, 408: nodes of the graph. -/
inductive Node (Art Act : Type) where
  | art (a : Art)
  | act (c : Act)
  deriving DecidableEq

/-- dag.hpp:116-119: the graph; `builder` is the child of an artifact, `consumers` are its parents, `outs` are the
parents of an action, `deps` its children; `known` are the artifacts the graph has. -/
structure Graph (Art Act : Type) where
  deps : Act → List Art
  outs : Act → List Art
  builder : Art → Option Act
  consumers : Art → List Act
  known : Art → Bool

/-- What `LinkNodePointers` guarantees, see `Verif.Dag.Build`. -/
structure Graph.OK {Art Act : Type} [DecidableEq Art] [DecidableEq Act] (g : Graph Art Act) : Prop where
  builder : ∀ a c, g.builder a = some c ↔ a ∈ g.outs c
  outs : ∀ c, (g.outs c).Nodup
  consumers : ∀ a c, (g.consumers a).count c = (g.deps c).count a

/-- What can be observed from outside: calls of the runner, their ends (with the answer), and artifacts becoming
available. -/
inductive Event (Art Act : Type) where
  | started (n : Node Art Act)
  | finished (n : Node Art Act) (ok : Bool)
  | available (a : Art)
  deriving DecidableEq

/-- Operations of threads, see `exec`. -/
inductive Op (Art Act : Type) where
  | queueVisit (n : Node Art Act)
  | markDisc (n : Node Art Act)
  | pushVisit (n : Node Art Act)
  | visit (n : Node Art Act)
  | checkAvail (a : Art)
  | checkDep (a : Art)
  | checkReady (c : Act)
  | queueProc (n : Node Art Act)
  | qpReq (n : Node Art Act)
  | qpMark (n : Node Art Act)
  | pushProc (n : Node Art Act)
  | process (n : Node Art Act)
  | running (n : Node Art Act)
  | notify (a : Art)
  | dec (c : Act)
  | setFailed
  | shutdown
  deriving DecidableEq

variable {Art Act : Type} [DecidableEq Art] [DecidableEq Act]

/-- The shared state: dag.hpp:168-170 (discovered, queued, required), 225 (`unavailable_deps_`), 250
(`is_available_`), traverser.hpp:78 (`failed_`), `TaskSystem::shutdown_`; and what was observed, latest first. -/
structure Core (Art Act : Type) where
  disc : Node Art Act → Bool
  queued : Node Art Act → Bool
  req : Node Art Act → Bool
  avail : Art → Bool
  count : Act → Int
  failed : Bool
  down : Bool
  log : List (Event Art Act)

/-- What an operation does: the new shared state, what the thread does next, and the tasks queued. -/
structure Res (Art Act : Type) where
  core : Core Art Act
  next : List (Op Art Act)
  pushed : List (Op Art Act)

/-- Setting a flag. -/
def set {A : Type} [DecidableEq A] (f : A → Bool) (x : A) : A → Bool := fun y => decide (x = y) || f y

/-- The operations. `ok` is what the runner answers if it is called. -/
def exec (g : Graph Art Act) (ok : Bool) (o : Op Art Act) (s : Core Art Act) : Res Art Act :=
  match o with
  -- traverser.hpp:101-108 (`QueueVisit`)
  | .queueVisit n => ⟨s, if s.failed = true then [] else [.markDisc n], []⟩
  | .markDisc n => ⟨{ s with disc := set s.disc n }, if s.disc n = true then [] else [.pushVisit n], []⟩
  | .pushVisit n => ⟨s, [], [.visit n]⟩
  -- traverser.hpp:158-178 (`Visit` of artifacts)
  | .visit (.art a) => ⟨{ s with req := set s.req (.art a) }, [.checkAvail a], []⟩
  | .checkAvail a =>
    ⟨s, if s.avail a = true then [] else (match g.builder a with
      | some c => [.queueVisit (.act c)]
      | none => [.queueProc (.art a)]), []⟩
  -- traverser.hpp:180-193 (`Visit` of actions)
  | .visit (.act c) =>
    ⟨{ s with req := set s.req (.act c) }, (g.deps c).map .checkDep ++ [.checkReady c], []⟩
  | .checkDep d => ⟨s, if s.avail d = true then [] else [.queueVisit (.art d)], []⟩
  | .checkReady c => ⟨s, if s.count c = 0 then [.queueProc (.act c)] else [], []⟩
  -- traverser.hpp:115-130 (`QueueProcessing`)
  | .queueProc n => ⟨s, if s.failed = true then [] else [.qpReq n], []⟩
  | .qpReq n => ⟨s, if s.req n = true then [.qpMark n] else [], []⟩
  | .qpMark n => ⟨{ s with queued := set s.queued n }, if s.queued n = true then [] else [.pushProc n], []⟩
  | .pushProc n => ⟨s, [], [.process n]⟩
  -- traverser.hpp:121-128: the task processing a node
  | .process n => ⟨{ s with log := .started n :: s.log }, [.running n], []⟩
  | .running n =>
    ⟨{ s with log := .finished n ok :: s.log },
      if ok = true then (match n with
        | .art a => [.notify a]
        -- traverser.hpp:207-214 (`NotifyAvailable` for actions)
        | .act c => (g.outs c).map .notify)
      else [.setFailed], []⟩
  -- traverser.hpp:195-205 (`NotifyAvailable` for artifacts)
  | .notify a => ⟨{ s with avail := set s.avail a, log := .available a :: s.log }, (g.consumers a).map .dec, []⟩
  | .dec c => ⟨{ s with count := fun c' => if c = c' then s.count c - 1 else s.count c' },
      if s.count c = 1 then [.queueProc (.act c)] else [], []⟩
  -- traverser.hpp:132-135 (`Abort`)
  | .setFailed => ⟨{ s with failed := true }, [.shutdown], []⟩
  | .shutdown => ⟨{ s with down := true }, [], []⟩

/-- The whole state: shared state, queued tasks, and the threads. -/
structure State (Art Act : Type) where
  core : Core Art Act
  queue : List (Op Art Act)
  threads : List (List (Op Art Act))

/-- traverser.hpp:138-156 (`Traverse`), as the program of the calling thread. -/
def mainProg (g : Graph Art Act) : List Art → List (Op Art Act)
  | [] => []
  | t :: ts => if g.known t = true then .queueVisit (.art t) :: mainProg g ts else [.setFailed]

/-- The start of a traversal: dag.hpp:377-379 (`NotifyDoneLinking`) for the counters. -/
def start (g : Graph Art Act) (targets : List Art) : State Art Act :=
  ⟨⟨fun _ => false, fun _ => false, fun _ => false, fun _ => false, fun c => (g.deps c).length, false, false, []⟩,
    [], [mainProg g targets]⟩

/-- Steps: a thread does its next operation; a thread takes a queued task; after `Shutdown` queued tasks may get lost
(task_system.cpp:43-52, 78-80). -/
inductive Step (g : Graph Art Act) : State Art Act → State Art Act → Prop where
  | op (core : Core Art Act) (queue : List (Op Art Act)) (pre post : List (List (Op Art Act))) (o : Op Art Act)
      (rest : List (Op Art Act)) (ok : Bool) :
      Step g ⟨core, queue, pre ++ (o :: rest) :: post⟩
        ⟨(exec g ok o core).core, queue ++ (exec g ok o core).pushed,
          pre ++ ((exec g ok o core).next ++ rest) :: post⟩
  | take (core : Core Art Act) (pre post : List (Op Art Act)) (o : Op Art Act) (threads : List (List (Op Art Act))) :
      Step g ⟨core, pre ++ o :: post, threads⟩ ⟨core, pre ++ post, [o] :: threads⟩
  | lose (core : Core Art Act) (pre post : List (Op Art Act)) (o : Op Art Act) (threads : List (List (Op Art Act)))
      (h : core.down = true) : Step g ⟨core, pre ++ o :: post, threads⟩ ⟨core, pre ++ post, threads⟩

/-- States reachable in a traversal of the given targets. -/
inductive Reachable (g : Graph Art Act) (targets : List Art) : State Art Act → Prop where
  | start : Reachable g targets (start g targets)
  | step {s s' : State Art Act} : Reachable g targets s → Step g s s' → Reachable g targets s'

/-- Nothing is queued and no thread has anything to do. -/
def State.quiet (s : State Art Act) : Prop := s.queue = [] ∧ ∀ t ∈ s.threads, t = []

/-! ## What is asked for -/

/-- The nodes the targets transitively depend on. -/
inductive Cone (g : Graph Art Act) (targets : List Art) : Node Art Act → Prop where
  | target {t : Art} : t ∈ targets → Cone g targets (.art t)
  | builder {a : Art} {c : Act} : Cone g targets (.art a) → g.builder a = some c → Cone g targets (.act c)
  | dep {c : Act} {d : Art} : Cone g targets (.act c) → d ∈ g.deps c → Cone g targets (.art d)

/-- The dependency relation between actions has no cycles. -/
def Graph.Acyclic (g : Graph Art Act) : Prop :=
  WellFounded fun c c' : Act => ∃ d ∈ g.deps c', g.builder d = some c

/-- The node making an artifact available: the action building it, or the artifact itself. -/
def source (g : Graph Art Act) (a : Art) : Node Art Act :=
  match g.builder a with
  | some c => .act c
  | none => .art a

end Verif.Dag
