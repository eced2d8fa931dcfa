import Verif.Dag.ExecutorProps

/-!
# Model of rebuilding

Source: `src/buildtool/execution_engine/executor/executor.hpp` (`Rebuilder`): every action is executed again
(`CacheFlag::PretendCached`), the action cache of another endpoint is asked for the result it has
(`CacheFlag::FromCacheOnly`), and the outputs are compared.

Simplifications: those of `Verif.Dag.Executor`. The artifacts of a response are a list in the order in which the map is
traversed. The reports are lists: an action is processed once (C22), so nothing is inserted twice. If a directory
can not be created at the first endpoint, the attempt at the second one is taken to fail as well (otherwise nothing is
reported for a tree; processing fails in any case).
-/

namespace Verif.Dag.Rebuild

open Verif.Dig (ObjectType)
open Verif.Remote.Upload
open Verif.Dag.Executor

variable {Art Act δ : Type} [DecidableEq Art] [DecidableEq Act] [DecidableEq δ]

/-- An output that differs: the action, the path, the object of the new result, the object of the cached one. -/
structure Diff (Act δ : Type) where
  act : Act
  path : Str
  rebuilt : δ × ObjectType
  cached : δ × ObjectType
  deriving DecidableEq

/-- executor.hpp:1181-1189 (`cache_misses_`, `flaky_actions_`) and statistics.hpp (the counters of compared, missing,
flaky, and flaky tainted actions). -/
structure Report (Act δ : Type) where
  flaky : List (Diff Act δ)
  misses : List Act
  compared : Nat
  missing : Nat
  flakies : Nat
  tainted : Nat
  deriving DecidableEq

/-- executor.hpp:1078-1099: nothing is reported in the beginning. -/
def Report.empty : Report Act δ := ⟨[], [], 0, 0, 0, 0⟩

/-- The response of the cache endpoint: whether its digest of the action is the same, and the result. -/
abbrev Hit (δ : Type) := Bool × Reply δ

/-- executor.hpp:1208-1220: the loop over the artifacts. What is recorded, and whether the end was reached (`at` throws
if the path is not in the other map). -/
def differing (c : Act) : Named δ → Named δ → List (Diff Act δ) × Bool
  | [], _ => ([], true)
  | (p, i) :: t, m =>
    match m.lookup p with
    | none => ([], false)
    | some j =>
      if i ≠ j then (⟨c, p, i, j⟩ :: (differing c t m).1, (differing c t m).2)
      else differing c t m

/-- executor.hpp:1199-1245 (`DetectFlakyAction`), with 1242-1272 (`RecordFlakyAction`): whether there was no error, and
the report. -/
def detect (P : Plan Art Act δ) (noCache : Act → Bool) (c : Act) (q : Option (Reply δ)) (k : Option (Hit δ))
    (R : Report Act δ) : Bool × Report Act δ :=
  match q, k with
  | some q, some (true, b) =>
    match q.outs, b.outs with
    | some l, some m =>
      match differing c l m with
      | (ds, false) => (false, { R with flaky := R.flaky ++ ds, compared := R.compared + 1 })
      | (ds, true) => (true, { R with
          flaky := R.flaky ++ ds
          compared := R.compared + 1
          flakies := if ds = [] then R.flakies else R.flakies + 1
          tainted := if ds ≠ [] ∧ (P.mayFail c = true ∨ noCache c = true) then R.tainted + 1 else R.tainted })
    | _, _ => (false, { R with compared := R.compared + 1 })
  | _, _ => (true, { R with misses := R.misses ++ [c], missing := R.missing + 1 })

/-- executor.hpp:1101-1158 (`Process` for actions). `V` is how the action is executed; `k` is what the cache endpoint
answers. -/
def rebuildAct (W : World Art δ) (P : Plan Art Act δ) (noCache : Act → Bool) (V : Service δ) (k : δ → Option (Hit δ))
    (n : Nat) (c : Act) (x : Ex Art δ) (R : Report Act δ) : Outcome Art δ × Report Act δ :=
  match inputsOf x.vals (P.inputs c) with
  | none => (.ub, R)
  | some ins =>
    match P.work c with
    | .overlay disjoint =>
      match writeAll W.R (W.overlay disjoint (strip ins)).2 x.store, (W.overlay disjoint (strip ins)).1 with
      | (true, s), some d => (setTree P c ins d x.vals s, R)
      | (_, s), _ => (.fine false ⟨x.vals, s⟩, (detect P noCache c none none R).2)
    | .tree =>
      match createRoot W n ins x.store with
      | none => (.more, R)
      | some (none, s) => (.fine false ⟨x.vals, s⟩, (detect P noCache c none none R).2)
      | some (some r, s) => (setTree P c ins r x.vals s, R)
    | .command =>
      match createRoot W n ins x.store with
      | none => (.more, R)
      | some (none, s) => (.fine false ⟨x.vals, s⟩, (detect P noCache c none none R).2)
      | some (some r, s) =>
        match detect P noCache c (run V r s).1 (k r) R with
        | (false, R') => (.fine false ⟨x.vals, (run V r s).2⟩, R')
        | (true, R') =>
          match (run V r s).1 with
          | none => (.fine false ⟨x.vals, (run V r s).2⟩, R')
          | some q => (parse P c ins q ⟨x.vals, (run V r s).2⟩, R')

/-- executor.hpp:1158-1172 (`Process` for artifacts), graph_traverser.cpp:360-390 (`TraverseRebuild`): what happens while the
traverser runs with the rebuilder, as in `Executor.Ran`. `S` are the services for each action, `K` are the answers the
cache endpoint may give for an action in a directory. -/
inductive Ran (kids : δ → List δ) (W : World Art δ) (P : Plan Art Act δ) (noCache : Act → Bool)
    (S : Act → Service δ → Prop) (K : Act → δ → Option (Hit δ) → Prop) (s₀ : List δ) :
    List (Event Art Act) → Ex Art δ → Report Act δ → Prop where
  | start : Ran kids W P noCache S K s₀ [] ⟨givenInfo P, s₀⟩ .empty
  | others {l : List (Event Art Act)} {x : Ex Art δ} {R : Report Act δ} {s : List δ} :
      Ran kids W P noCache S K s₀ l x R → Grows kids x.store s → Ran kids W P noCache S K s₀ l ⟨x.vals, s⟩ R
  | started {l : List (Event Art Act)} {x : Ex Art δ} {R : Report Act δ} (n : Node Art Act) :
      Ran kids W P noCache S K s₀ l x R → Ran kids W P noCache S K s₀ (.started n :: l) x R
  | available {l : List (Event Art Act)} {x : Ex Art δ} {R : Report Act δ} (a : Art) :
      Ran kids W P noCache S K s₀ l x R → Ran kids W P noCache S K s₀ (.available a :: l) x R
  | art {l : List (Event Art Act)} {x x' : Ex Art δ} {R : Report Act δ} {a : Art} {ok : Bool} (n : Nat) :
      Ran kids W P noCache S K s₀ l x R → processArt W P n a x = .fine ok x' →
      Ran kids W P noCache S K s₀ (.finished (.art a) ok :: l) x' R
  | act {l : List (Event Art Act)} {x x' : Ex Art δ} {R R' : Report Act δ} {c : Act} {ok : Bool} (n : Nat)
      (V : Service δ) (k : δ → Option (Hit δ)) : Ran kids W P noCache S K s₀ l x R → S c V → (∀ r, K c r (k r)) →
      rebuildAct W P noCache V k n c x R = (.fine ok x', R') →
      Ran kids W P noCache S K s₀ (.finished (.act c) ok :: l) x' R'

/-! ## What is claimed -/

/-- Two responses have the same object at every path of the first one. -/
def SameOuts (q b : Reply δ) : Prop :=
  ∃ l m, q.outs = some l ∧ b.outs = some m ∧ ∀ o ∈ l, m.lookup o.1 = some o.2

/-- The report has nothing about an action. -/
def Report.Silent (R : Report Act δ) (c : Act) : Prop := c ∉ R.misses ∧ ∀ d ∈ R.flaky, d.act ≠ c

/-- An action's result is confirmed by the cache: it has a result for the same action with the same objects. -/
def Confirmed (K : Act → δ → Option (Hit δ) → Prop) (c : Act) (r : δ) (q : Reply δ) : Prop :=
  ∃ b, K c r (some (true, b)) ∧ SameOuts q b

/-- Objects that agree except for the mark. -/
def Alike : Option (Info δ) → Option (Info δ) → Prop
  | some i, some j => i.digest = j.digest ∧ i.type = j.type
  | _, _ => False

end Verif.Dag.Rebuild
