import Verif.Storage.Global
import Verif.Storage.Compact

/-!
# All processes using a storage

Any number of threads of any number of processes run storage operations, holding the shared lock
(garbage_collector.cpp:55-58).  Their file-system accesses are interleaved arbitrarily, and a
process may die at any time.  Garbage collection runs with the exclusive lock, that is, while
nobody else uses the storage; it may die at any time, too.
-/

namespace Verif.Storage

open Prog

variable (E : Env) (U : Bytes → Prop) (rk : Ranks E U)

/-- What callers guarantee when they start an operation.  Content is from the universe of contents
free of hash collisions; trees, results of actions and entries of the target cache are stored only
after what they refer to. -/
def Op.Pre (σ : World) : Op → Prop
  | .storeBlob b _ => U b
  | .storeTree b => U b ∧ TreeClosed E σ 0 b
  | .blobPath _ _ => True
  | .treePath _ => True
  | .split _ _ => True
  | .splice c d ps => ∀ cs, List.Forall₂ (fun p b => U b ∧ E.hashBlob b = p) ps cs →
      E.hash c cs.flatten = d → U cs.flatten
  | .storeResult _ r => U (E.dumpResult r) ∧ Outputs E σ 0 r
  | .cachedResult _ => True
  | .storeTarget k e => U (E.dumpEntry e) ∧
      (∃ as, e.artifacts = some as ∧ ∀ a ∈ as, Has E σ 0 a.2 a.1) ∧
      ∀ j ∈ e.implied, j = k ∨ ((σ 0 (.tc j)).isSome ∧ rk.target j < rk.target k)
  | .readTarget _ => True
  | .upload _ _ _ b => U b
  | .updateBlobs xs => ∀ x ∈ xs, U x.data
  | .findMissing _ => True
  | .readBlobs _ => True

/-- A running operation; `start` is the storage when it was started (not known to the program). -/
structure Thread where
  op : Op
  prog : Prog Answer
  start : World

/-- The storage and the operations currently running. -/
structure State where
  σ : World
  threads : List Thread

/-- Interleaved execution of compactification tasks. -/
inductive Compacts : World → World → List (Prog Bool) → Prop where
  | start (σ : World) (ts : List Task) : Compacts σ σ (ts.map (Task.run E))
  | step {σ₀ σ σ' : World} {pre post : List (Prog Bool)} {p p' : Prog Bool} :
      Compacts σ₀ σ (pre ++ p :: post) → Step σ p σ' p' → Compacts σ₀ σ' (pre ++ p' :: post)

/-- Kinds of garbage collection: garbage_collector.cpp:71-74 (`no_rotation`, `gc_all`). -/
inductive GcKind where
  | rotate
  | noRotation
  | all
  deriving DecidableEq

/-- The renames made by a collection. -/
def GcKind.steps (n : Nat) : GcKind → List GcStep
  | .rotate => rotation n
  | .noRotation => []
  | .all => removeAll n

/-- Possible effects of a (possibly interrupted) garbage collection: garbage_collector.cpp:71-245.
First the youngest generation is compactified (not if everything is to be removed); if this was
completed, some of the renames are made. -/
inductive Gc : GcKind → World → World → Prop where
  /-- Interrupted during compactification (or compactification failed). -/
  | compact {k : GcKind} {σ σ' : World} {ps : List (Prog Bool)} :
      k ≠ .all → Compacts E σ σ' ps → Gc k σ σ'
  /-- The first `m` renames are made after compactification. -/
  | rename {k : GcKind} {σ σ' : World} {ps : List (Prog Bool)} {D D' : Disk} {m : Nat} :
      k ≠ .all → Compacts E σ σ' ps → D.world = σ' →
      execSteps ((k.steps E.numGen).take m) D = some D' → Gc k σ D'.world
  /-- The first `m` renames are made without compactification. -/
  | removeAll {D D' : Disk} {m : Nat} :
      execSteps ((GcKind.all.steps E.numGen).take m) D = some D' → Gc .all D.world D'.world

/-- What happened in a step. -/
inductive Event where
  | access
  | gc (k : GcKind)
  deriving DecidableEq

/-- The steps of the system. -/
inductive Next (fuel : Nat) : State → Event → State → Prop where
  | start {s : State} {op : Op} : op.Pre E U rk s.σ →
      Next fuel s .access ⟨s.σ, ⟨op, op.run E fuel, s.σ⟩ :: s.threads⟩
  | step {σ σ' : World} {pre post : List Thread} {op : Op} {p p' : Prog Answer} {σ₀ : World} :
      Step σ p σ' p' →
      Next fuel ⟨σ, pre ++ ⟨op, p, σ₀⟩ :: post⟩ .access ⟨σ', pre ++ ⟨op, p', σ₀⟩ :: post⟩
  /-- An operation has returned, or its process was killed. -/
  | stop {σ : World} {pre post : List Thread} {t : Thread} :
      Next fuel ⟨σ, pre ++ t :: post⟩ .access ⟨σ, pre ++ post⟩
  | gc {σ σ' : World} {k : GcKind} : Gc E k σ σ' → Next fuel ⟨σ, []⟩ (.gc k) ⟨σ', []⟩

/-- Histories: the events between two states. -/
inductive Trace (fuel : Nat) : State → List Event → State → Prop where
  | nil (s : State) : Trace fuel s [] s
  | snoc {s s' s'' : State} {es : List Event} {e : Event} :
      Trace fuel s es s' → Next E U rk fuel s' e s'' → Trace fuel s (es ++ [e]) s''

/-- The empty storage, unused. -/
def emptyState : State := ⟨fun _ _ => none, []⟩

/-- States reachable from the empty storage. -/
def Reachable (fuel : Nat) (s : State) : Prop := ∃ es, Trace E U rk fuel emptyState es s

/-! ## What operations guarantee when they return -/

/-- Guarantees of an operation: `σ₀` is the storage when it was started, `σ` the storage after it
has returned (and possibly other operations have made further steps). -/
def Op.Post (σ₀ : World) : Op → Answer → World → Prop
  | .storeBlob b x, a, σ => a = .digest (some (E.hashBlob b)) ∧
      σ 0 (.cas (casOf x) (E.hashBlob b)) = some b
  | .storeTree b, a, σ => a = .digest (some (E.hashTree b)) ∧
      σ 0 (.cas .tree (E.hashTree b)) = some b
  | .blobPath d x, a, σ => ∃ r, a = .flag r ∧
      (r = true → (σ 0 (.cas (casOf x) d)).isSome) ∧
      ((∃ g < E.numGen, ∃ b, BlobAt E σ₀ g d b) → r = true)
  | .treePath d, a, σ => ∃ r, a = .flag r ∧
      (r = true → (σ 0 (.cas .tree d)).isSome) ∧
      ((∃ g < E.numGen, ∃ b, TreeAt E σ₀ g d b) → r = true)
  | .split t d, a, σ => ∃ r, a = .parts r ∧
      (∀ ps, r = some ps → ∃ b, E.hashL t b = d ∧ ps = (E.chunks b).map E.hashBlob ∧ U b ∧
        ∀ c ∈ E.chunks b, σ 0 (.cas .file (E.hashBlob c)) = some c) ∧
      ((∃ g < E.numGen, Has E σ₀ g (if t then .tree else .blob false) d) → r.isSome)
  | .splice c d ps, a, σ => ∃ r, a = .digest r ∧
      (∀ d', r = some d' → d' = d ∧ (σ 0 (.cas c d)).isSome) ∧
      ((∃ cs, List.Forall₂ (fun p b => ∃ g, g < E.numGen ∧ BlobAt E σ₀ g p b) ps cs ∧
        E.hash c cs.flatten = d ∧ (c = .tree → ∃ es, E.parseTree cs.flatten = some es ∧
          ∀ e ∈ es, ∃ g < E.numGen, Has E σ₀ g e.2 e.1)) → r = some d)
  | .storeResult k _, a, σ => a = .flag true ∧ (σ 0 (.ac k)).isSome
  | .cachedResult k, a, σ => ∃ r, a = .result r ∧
      (∀ x, r = some x → Outputs E σ 0 x) ∧
      (((σ₀ 0 (.ac k)).isSome ∨ ∃ g < E.numGen, ActionDirect E σ₀ g k) → r.isSome)
  | .storeTarget k _, a, σ => a = .flag true ∧ (σ 0 (.tc k)).isSome
  | .readTarget k, a, σ => ∃ r, a = .entry r ∧
      (∀ en, r = some en → EntryComplete E σ en) ∧
      (((σ₀ 0 (.tc k)).isSome ∨ ∃ g < E.numGen, TargetDirect E σ₀ g k) → r.isSome)
  | .upload t d n b, a, σ => ∃ r, a = .flag r ∧
      (r = true → E.hash (casT t) b = d ∧ (n = 0 ∨ n = b.length) ∧
        σ 0 (.cas (casT t) d) = some b) ∧
      (Upload.Valid E σ₀ (fun _ _ => False) ⟨t, some d, n, b⟩ → r = true)
  | .updateBlobs xs, a, σ => ∃ r, a = .flag r ∧
      (r = true → ∀ x ∈ xs, x.id = some (E.hash (casT x.isTree) x.data) ∧
        (x.size = 0 ∨ x.size = x.data.length) ∧
        σ 0 (.cas (casT x.isTree) (E.hash (casT x.isTree) x.data)) = some x.data) ∧
      (Ordered E σ₀ xs → r = true)
  | .findMissing xs, a, σ => ∃ ms, a = .missing ms ∧ ms.Sublist xs ∧
      (∀ x ∈ xs, x ∉ ms → ∃ d, x.2 = some d ∧ (σ 0 (.cas (casT x.1) d)).isSome) ∧
      (∀ x ∈ ms, ¬ ∃ d, x.2 = some d ∧ ∃ g < E.numGen, Has E σ₀ g (kindT x.1) d)
  | .readBlobs xs, a, _ => ∃ r, a = .contents r ∧ (r = none ↔ ∃ x ∈ xs, x.2 = none) ∧
      ∀ cs, r = some cs → List.Forall₂ (fun x c => ∃ d, x.2 = some d ∧
        (∀ b, c = some b → E.hash (casT x.1) b = d ∧ U b) ∧
        ((∃ g < E.numGen, Has E σ₀ g (kindT x.1) d) → c.isSome)) xs cs

variable {E U rk}

theorem EntryComplete.mono {σ σ' : World} (h : Le E σ σ') {en : Entry}
    (he : EntryComplete E σ en) : EntryComplete E σ' en := by
  obtain ⟨as, h1, h2, h3⟩ := he
  exact ⟨as, h1, fun a ha => (h2 a ha).mono h, fun j hj => h.tc _ _ (h3 j hj)⟩

theorem Op.Post.mono {σ₀ σ σ' : World} (h : Le E σ σ') {op : Op} {a : Answer}
    (hp : op.Post E U σ₀ a σ) : op.Post E U σ₀ a σ' := by
  cases op with
  | storeBlob b x => exact ⟨hp.1, h.cas _ _ _ _ hp.2⟩
  | storeTree b => exact ⟨hp.1, h.cas _ _ _ _ hp.2⟩
  | blobPath d x =>
    obtain ⟨r, h1, h2, h3⟩ := hp
    exact ⟨r, h1, fun hr => cas_isSome h (h2 hr), h3⟩
  | treePath d =>
    obtain ⟨r, h1, h2, h3⟩ := hp
    exact ⟨r, h1, fun hr => cas_isSome h (h2 hr), h3⟩
  | split t d =>
    obtain ⟨r, h1, h2, h3⟩ := hp
    refine ⟨r, h1, fun ps hps => ?_, h3⟩
    obtain ⟨b, h4, h5, h6, h7⟩ := h2 ps hps
    exact ⟨b, h4, h5, h6, fun c hc => h.cas _ _ _ _ (h7 c hc)⟩
  | splice c d ps =>
    obtain ⟨r, h1, h2, h3⟩ := hp
    exact ⟨r, h1, fun d' hd' => ⟨(h2 d' hd').1, cas_isSome h (h2 d' hd').2⟩, h3⟩
  | storeResult k r => exact ⟨hp.1, h.ac _ _ hp.2⟩
  | cachedResult k =>
    obtain ⟨r, h1, h2, h3⟩ := hp
    exact ⟨r, h1, fun x hx => (h2 x hx).mono h, h3⟩
  | storeTarget k e => exact ⟨hp.1, h.tc _ _ hp.2⟩
  | readTarget k =>
    obtain ⟨r, h1, h2, h3⟩ := hp
    exact ⟨r, h1, fun x hx => (h2 x hx).mono h, h3⟩
  | upload t d n b =>
    obtain ⟨r, h1, h2, h3⟩ := hp
    exact ⟨r, h1, fun hr => ⟨(h2 hr).1, (h2 hr).2.1, h.cas _ _ _ _ (h2 hr).2.2⟩, h3⟩
  | updateBlobs xs =>
    obtain ⟨r, h1, h2, h3⟩ := hp
    exact ⟨r, h1, fun hr x hx => ⟨(h2 hr x hx).1, (h2 hr x hx).2.1,
      h.cas _ _ _ _ (h2 hr x hx).2.2⟩, h3⟩
  | findMissing xs =>
    obtain ⟨ms, h1, h2, h3, h4⟩ := hp
    refine ⟨ms, h1, h2, fun x hx hn => ?_, h4⟩
    obtain ⟨d, hd, h5⟩ := h3 x hx hn
    exact ⟨d, hd, cas_isSome h h5⟩
  | readBlobs xs => exact hp

theorem wp_map {M : Mode} {A B : Type} {p : Prog A} {f : A → B} {Q : B → World → Prop} {σ : World}
    (h : wp M p (fun a σ' => Q (f a) σ') σ) : wp M (do let r ← p; pure (f r)) Q σ := by
  rw [wp_bind]
  exact h

/-- Every operation keeps its guarantees. -/
theorem op_spec (ok : E.OK U) {T : Prop} {σ : World} {fuel : Nat} (hi : Inv E U rk σ)
    (hT : Enough E U rk T fuel) (op : Op) (hp : op.Pre E U rk σ) :
    wp (mode E U rk T) (op.run E fuel) (op.Post E U σ) σ := by
  cases op with
  | storeBlob b x =>
    refine wp_map (wp_mono _ ?_ _ (store_spec ok hi hT hp (fun h => absurd h (casOf_ne_tree x))))
    rintro r σ' ⟨rfl, h⟩
    rw [hash_casOf] at h ⊢
    exact ⟨rfl, h⟩
  | storeTree b =>
    refine wp_map (wp_mono _ ?_ _ (store_spec ok hi hT hp.1 (fun _ => hp.2)))
    rintro r σ' ⟨rfl, h⟩
    exact ⟨rfl, h⟩
  | blobPath d x =>
    refine wp_map (wp_mono _ ?_ _ (lookupBlob_spec ok hi hT))
    rintro r σ' ⟨h1, h2⟩
    exact ⟨r, rfl, h1, h2⟩
  | treePath d =>
    refine wp_map (wp_mono _ ?_ _ (lookupTree_spec ok hi hT))
    rintro r σ' ⟨h1, h2⟩
    exact ⟨r, rfl, h1, h2⟩
  | split t d =>
    refine wp_map (wp_mono _ ?_ _ (split_spec ok hi hT))
    rintro r σ' ⟨h1, h2⟩
    refine ⟨r, rfl, fun ps hps => ?_, h2⟩
    obtain ⟨b, h3, h4, h5, h6⟩ := h1 ps hps
    exact ⟨b, h4, h5, h3, h6⟩
  | splice c d ps =>
    refine wp_map (wp_mono _ ?_ _ (splice_spec ok hi hT hp))
    rintro r σ' ⟨h1, h2⟩
    exact ⟨r, rfl, h1, h2⟩
  | storeResult k r =>
    refine wp_map (wp_mono _ ?_ _ (storeResult_spec ok hi hT hp.1 hp.2))
    rintro r σ' ⟨rfl, h⟩
    exact ⟨rfl, h⟩
  | cachedResult k =>
    refine wp_map (wp_mono _ ?_ _ (cachedResult_spec ok hi hT))
    rintro r σ' ⟨h1, h2⟩
    exact ⟨r, rfl, h1, h2⟩
  | storeTarget k e =>
    obtain ⟨h1, ⟨as, h2, h3⟩, h4⟩ := hp
    refine wp_map (wp_mono _ ?_ _ (storeTarget_spec ok hi hT h1 h2 h3 h4))
    rintro r σ' ⟨rfl, h⟩
    exact ⟨rfl, h⟩
  | readTarget k =>
    refine wp_map (wp_mono _ ?_ _ (readTarget_spec ok hi hT))
    rintro r σ' ⟨h1, h2⟩
    exact ⟨r, rfl, h1, h2⟩
  | upload t d n b =>
    refine wp_map (wp_mono _ ?_ _ (addData_spec ok hi hT hp))
    rintro r σ' ⟨h1, h2⟩
    refine ⟨r, rfl, h1, ?_⟩
    rintro ⟨h3, h4, h5⟩
    refine h2 ⟨(Option.some.inj h3).symm, h4, fun ht => ?_⟩
    obtain ⟨es, h6, h7⟩ := h5 ht
    exact ⟨es, h6, fun e he => (h7 e he).resolve_right id⟩
  | updateBlobs xs =>
    refine wp_map (wp_mono _ ?_ _ (updateBlobs_spec ok hi hT hp))
    rintro r σ' ⟨h1, h2⟩
    exact ⟨r, rfl, h1, h2⟩
  | findMissing xs =>
    refine wp_map (wp_mono _ ?_ _ (findMissing_spec ok xs hi hT))
    rintro r σ' ⟨h1, h2, h3⟩
    exact ⟨r, rfl, h1, h2, h3⟩
  | readBlobs xs =>
    refine wp_map (wp_mono _ ?_ _ (readBlobs_spec ok xs hi hT))
    rintro r σ' ⟨h1, h2⟩
    exact ⟨r, rfl, h1, h2⟩

/-! ## Compactification -/

theorem compacts_inv (ok : E.OK U) {σ₀ σ : World} {ps : List (Prog Bool)} (hi : Inv E U rk σ₀)
    (h : Compacts E σ₀ σ ps) : Inv E U rk σ ∧ CLe E σ₀ σ ∧
      ∀ p ∈ ps, wp (cmode E U rk) p (fun _ _ => True) σ := by
  induction h with
  | start ts =>
    refine ⟨hi, CLe.refl E _, fun p hp => ?_⟩
    obtain ⟨t, -, rfl⟩ := List.mem_map.1 hp
    exact task_spec ok t
  | @step σ σ' pre post p p' _ hs ih =>
    obtain ⟨i1, h1, h2⟩ := ih
    obtain ⟨i2, h3, h4⟩ := wp_step (M := cmode E U rk) i1 (h2 p (by simp)) hs
    refine ⟨i2, CLe.trans h1 h3, fun q hq => ?_⟩
    rcases List.mem_append.1 hq with hq | hq
    · exact wp_stable (M := cmode E U rk) q (fun _ _ _ _ _ h => h) h3 i2 (h2 q (by simp [hq]))
    · rcases List.mem_cons.1 hq with rfl | hq
      · exact h4
      · exact wp_stable (M := cmode E U rk) q (fun _ _ _ _ _ h => h) h3 i2 (h2 q (by simp [hq]))

/-! ## Renames -/

/-- What an interrupted or completed sequence of renames does: each generation is kept or became
empty or moved to the next older one; those younger than the oldest do not get lost. -/
structure Shifted (n : Nat) (σ σ' : World) : Prop where
  from_ : ∀ g, (∃ g', (g' = g ∨ g' + 1 = g) ∧ σ' g = σ g') ∨ σ' g = fun _ => none
  kept : ∀ g, g + 1 < n → σ' g = σ g ∨ σ' (g + 1) = σ g

theorem world_set (D : Disk) (g i : Nat) (x : Option Gen) :
    (D.set g x).world i = if i = g then (fun p => x.bind (fun y => y p)) else D.world i := by
  funext p
  simp only [Disk.world, Disk.set]
  split <;> rfl

theorem execSteps_append {ss ts : List GcStep} {D : Disk} :
    execSteps (ss ++ ts) D = (execSteps ss D).bind (execSteps ts) := by
  induction ss generalizing D with
  | nil => rfl
  | cons s ss ih =>
    simp only [List.cons_append, execSteps]
    cases s.exec D with
    | none => rfl
    | some D' => exact ih

/-- The renames of a rotation starting at generation `i`, when the directory of generation `i` does
not exist any more (or `i` is the number of generations). -/
theorem rotationFrom_exec (n i m : Nat) (hi : i ≤ n) (D : Disk)
    (hfree : i < n → D.gens i = none) :
    ∃ D', execSteps ((rotationFrom n i).take m) D = some D' ∧
      (∀ g, i < g → D'.gens g = D.gens g) ∧
      ∃ j ≤ i, (∀ g, g < j → D'.gens g = D.gens g) ∧
        (j < i → D'.gens j = none ∧ (∀ g, j < g → g ≤ i → g < n → D'.gens g = D.gens (g - 1)) ∧
          (i = n → D'.gens n = D.gens n)) ∧
        (j = i → D'.gens i = D.gens i) := by
  induction i generalizing m D with
  | zero =>
    cases m <;>
    exact ⟨D, rfl, fun _ _ => rfl, 0, Nat.le_refl 0, fun _ _ => rfl,
      fun h => absurd h (by omega), fun _ => rfl⟩
  | succ i ih =>
    cases m with
    | zero =>
      exact ⟨D, rfl, fun _ _ => rfl, i + 1, Nat.le_refl _, fun _ _ => rfl,
        fun h => absurd h (by omega), fun _ => rfl⟩
    | succ m =>
      simp only [rotationFrom, List.take_succ_cons, execSteps]
      -- the state after the first rename
      obtain ⟨D1, h1, hi1, hother, hmoved⟩ : ∃ D1,
          (if i + 1 = n then GcStep.trash i else GcStep.move i (i + 1)).exec D = some D1 ∧
          D1.gens i = none ∧ (∀ g, g ≠ i → g ≠ i + 1 → D1.gens g = D.gens g) ∧
          (D1.gens (i + 1) = if i + 1 = n then D.gens (i + 1) else D.gens i) := by
        by_cases hn : i + 1 = n
        · simp only [if_pos hn, GcStep.exec]
          cases hv : D.gens i with
          | none => exact ⟨D, rfl, hv, fun _ _ _ => rfl, rfl⟩
          | some x =>
            refine ⟨_, rfl, ?_, ?_, ?_⟩
            · simp [Disk.set]
            · intro g hg _; simp [Disk.set, hg]
            · simp [Disk.set]
        · simp only [if_neg hn, GcStep.exec]
          have hf := hfree (by omega)
          cases hv : D.gens i with
          | none => exact ⟨D, rfl, hv, fun _ _ _ => rfl, hf⟩
          | some x =>
            rw [hf]
            refine ⟨_, rfl, ?_, ?_, ?_⟩
            · simp [Disk.set]
            · intro g hg hg'; simp [Disk.set, hg, hg']
            · simp [Disk.set]
      rw [h1]
      obtain ⟨D', h2, habove, j, hj, hbelow, hlt, heq⟩ := ih m (by omega) D1 (fun _ => hi1)
      refine ⟨D', h2, ?_, j, by omega, ?_, ?_, fun h => absurd h (by omega)⟩
      · intro g hg
        rw [habove g (by omega), hother g (by omega) (by omega)]
      · intro g hg
        rw [hbelow g hg, hother g (by omega) (by omega)]
      · intro _
        have hji : D'.gens j = none := by
          by_cases hjlt : j < i
          · exact (hlt hjlt).1
          · have : j = i := by omega
            subst this
            rw [heq rfl, hi1]
        refine ⟨hji, ?_, ?_⟩
        · intro g hg1 hg2 hg3
          by_cases hgi : g = i + 1
          · subst hgi
            rw [habove _ (by omega), hmoved, if_neg (by omega)]
            rfl
          · have hjlt : j < i := by omega
            rw [(hlt hjlt).2.1 g hg1 (by omega) hg3, hother (g - 1) (by omega) (by omega)]
        · intro hin
          rw [← hin, habove (i + 1) (by omega), hmoved, if_pos hin]

theorem world_congr {D D' : Disk} {g g' : Nat} (h : D'.gens g = D.gens g') :
    D'.world g = D.world g' := by
  funext p
  simp only [Disk.world, h]

theorem world_none {D : Disk} {g : Nat} (h : D.gens g = none) : D.world g = fun _ => none := by
  funext p
  simp only [Disk.world, h]
  rfl

/-- Renames of a rotation never fail, and they lose nothing but the oldest generation. -/
theorem rotation_shifted (n m : Nat) (D : Disk) :
    ∃ D', execSteps ((rotation n).take m) D = some D' ∧ Shifted n D.world D'.world := by
  obtain ⟨D', h1, habove, j, hj, hbelow, hlt, heq⟩ :=
    rotationFrom_exec n n m (Nat.le_refl n) D (fun h => absurd h (by omega))
  refine ⟨D', h1, ⟨fun g => ?_, fun g hg => ?_⟩⟩
  · by_cases h : g < j
    · exact Or.inl ⟨g, Or.inl rfl, world_congr (hbelow g h)⟩
    · by_cases hjn : j < n
      · by_cases hgj : g = j
        · subst hgj
          exact Or.inr (world_none (hlt hjn).1)
        · by_cases hgn : g < n
          · exact Or.inl ⟨g - 1, Or.inr (by omega),
              world_congr ((hlt hjn).2.1 g (by omega) (by omega) hgn)⟩
          · by_cases hgn' : g = n
            · subst hgn'
              exact Or.inl ⟨g, Or.inl rfl, world_congr ((hlt hjn).2.2 rfl)⟩
            · exact Or.inl ⟨g, Or.inl rfl, world_congr (habove g (by omega))⟩
      · by_cases hgn' : g = n
        · subst hgn'
          exact Or.inl ⟨g, Or.inl rfl, world_congr (heq (by omega))⟩
        · exact Or.inl ⟨g, Or.inl rfl, world_congr (habove g (by omega))⟩
  · by_cases h : g < j
    · exact Or.inl (world_congr (hbelow g h))
    · exact Or.inr (world_congr ((hlt (by omega)).2.1 (g + 1) (by omega) (by omega) hg))

theorem removeAll_exec (n m : Nat) (D : Disk) :
    ∃ D', execSteps ((removeAll n).take m) D = some D' ∧
      (∀ g, D'.gens g = D.gens g ∨ D'.gens g = none) := by
  induction n generalizing m D with
  | zero => cases m <;> exact ⟨D, rfl, fun _ => Or.inl rfl⟩
  | succ n ih =>
    cases m with
    | zero => exact ⟨D, rfl, fun _ => Or.inl rfl⟩
    | succ m =>
      simp only [removeAll, List.take_succ_cons, execSteps, GcStep.exec]
      cases hv : D.gens n with
      | none =>
        simp only
        exact ih m D
      | some x =>
        simp only
        obtain ⟨D', h1, h2⟩ := ih m { (D.set n none) with trash := x :: D.trash }
        refine ⟨D', h1, fun g => ?_⟩
        rcases h2 g with h | h
        · by_cases hg : g = n
          · right; rw [h]; simp [Disk.set, hg]
          · left; rw [h]; simp [Disk.set, hg]
        · exact Or.inr h

/-! ## The invariant depends on single generations only -/

theorem inv_of_gens {σ σ' : World} (hi : Inv E U rk σ)
    (h : ∀ g, (∃ g', σ' g = σ g') ∨ σ' g = fun _ => none) : Inv E U rk σ' := by
  have hlarge : ∀ {g g'} (_ : σ' g = σ g') {t d e b},
      LargeGood E U σ g' t d e b → LargeGood E U σ' g t d e b := by
    intro g g' hg t d e b hb
    simpa only [LargeGood, hg] using hb
  have hb : ∀ {g g'} (_ : σ' g = σ g') {d b}, BlobAt E σ' g d b ↔ BlobAt E σ g' d b := by
    intro g g' hg d b
    simp only [BlobAt, LargeAt, hg]
  have ht : ∀ {g g'} (_ : σ' g = σ g') {d b}, TreeAt E σ' g d b ↔ TreeAt E σ g' d b := by
    intro g g' hg d b
    simp only [TreeAt, LargeAt, hg]
  have hh : ∀ {g g'} (_ : σ' g = σ g') {k d}, Has E σ' g k d ↔ Has E σ g' k d := by
    intro g g' hg k d
    cases k with
    | blob x => simp only [Has, hb hg]
    | tree => simp only [Has, ht hg]
  refine ⟨?_, ?_, ?_, ?_, ?_⟩
  · intro g c d b hv
    rcases h g with ⟨g', hg⟩ | hg
    · rw [hg] at hv; exact hi.cas _ _ _ _ hv
    · rw [hg] at hv; cases hv
  · intro g t d e hv
    rcases h g with ⟨g', hg⟩ | hg
    · rw [hg] at hv
      obtain ⟨b, hb'⟩ := hi.large _ _ _ _ hv
      exact ⟨b, hlarge hg hb'⟩
    · rw [hg] at hv; cases hv
  · intro g d b hv
    rcases h g with ⟨g', hg⟩ | hg
    · obtain ⟨es, h1, h2⟩ := hi.tree _ _ _ ((ht hg).1 hv)
      exact ⟨es, h1, fun e he => (hh hg).2 (h2 e he)⟩
    · rcases hv with hv | ⟨_, _, _, hv, -⟩
      · rw [hg] at hv; cases hv
      · rw [hg] at hv; cases hv
  · intro g k e hv
    rcases h g with ⟨g', hg⟩ | hg
    · rw [hg] at hv
      obtain ⟨key, b, r, h1, h2, h3, h4, h5, h6⟩ := hi.action _ _ _ hv
      refine ⟨key, b, r, h1, (hb hg).2 h2, h3, fun f hf => ?_, fun t ht' => ?_, fun d hd => ?_⟩
      · obtain ⟨b, hb'⟩ := h4 f hf; exact ⟨b, (hb hg).2 hb'⟩
      · obtain ⟨b, hb'⟩ := h5 t ht'; exact ⟨b, (hb hg).2 hb'⟩
      · obtain ⟨b, hb'⟩ := h6 d hd; exact ⟨b, (ht hg).2 hb'⟩
    · rw [hg] at hv; cases hv
  · intro g k e hv
    rcases h g with ⟨g', hg⟩ | hg
    · rw [hg] at hv
      obtain ⟨i, b, en, as, h1, h2, h3, h4, h5, h6⟩ := hi.target _ _ _ hv
      refine ⟨i, b, en, as, h1, (hb hg).2 h2, h3, h4, fun a ha => (hh hg).2 (h5 a ha), ?_⟩
      intro j hj
      rw [hg]
      exact h6 j hj
    · rw [hg] at hv; cases hv

theorem gc_inv (ok : E.OK U) {k : GcKind} {σ σ' : World} (hi : Inv E U rk σ) (h : Gc E k σ σ') :
    Inv E U rk σ' := by
  cases h with
  | compact _ hc => exact (compacts_inv ok hi hc).1
  | @rename _ _ σ1 ps D D' m hk hc hD he =>
    have i1 := (compacts_inv ok hi hc).1
    rw [← hD] at i1
    refine inv_of_gens i1 ?_
    cases k with
    | rotate =>
      obtain ⟨D'', h1, h2⟩ := rotation_shifted E.numGen m D
      rw [show GcKind.rotate.steps E.numGen = rotation E.numGen from rfl, h1] at he
      cases he
      intro g
      rcases h2.from_ g with ⟨g', -, h⟩ | h
      · exact Or.inl ⟨g', h⟩
      · exact Or.inr h
    | noRotation =>
      have : D = D' := by cases m <;> simpa [GcKind.steps, execSteps] using he
      subst this
      exact fun g => Or.inl ⟨g, rfl⟩
    | all => exact absurd rfl hk
  | @removeAll D D' m he =>
    refine inv_of_gens hi ?_
    obtain ⟨D'', h1, h2⟩ := removeAll_exec E.numGen m D
    rw [show GcKind.all.steps E.numGen = removeAll E.numGen from rfl, h1] at he
    cases he
    intro g
    rcases h2 g with h | h
    · exact Or.inl ⟨g, world_congr h⟩
    · exact Or.inr (world_none h)

/-- What is known of every reachable state. -/
structure SInv (E : Env) (U : Bytes → Prop) (rk : Ranks E U) (T : Prop) (s : State) : Prop where
  inv : Inv E U rk s.σ
  threads : ∀ t ∈ s.threads, wp (mode E U rk T) t.prog (t.op.Post E U t.start) s.σ

theorem next_inv (ok : E.OK U) {T : Prop} {fuel : Nat} (hT : Enough E U rk T fuel) {s s' : State}
    {e : Event} (hs : SInv E U rk T s) (h : Next E U rk fuel s e s') : SInv E U rk T s' := by
  cases h with
  | start hp =>
    refine ⟨hs.inv, fun t ht => ?_⟩
    rcases List.mem_cons.1 ht with rfl | ht
    · exact op_spec ok hs.inv hT _ hp
    · exact hs.threads t ht
  | @step σ σ' pre post op p p' σ₀ hstep =>
    obtain ⟨i2, h3, h4⟩ := wp_step (M := mode E U rk T) hs.inv
      (hs.threads ⟨op, p, σ₀⟩ (by simp)) hstep
    refine ⟨i2, fun t ht => ?_⟩
    have hstable : t ∈ pre ++ post →
        wp (mode E U rk T) t.prog (t.op.Post E U t.start) σ' := by
      intro hm
      refine wp_stable (M := mode E U rk T) t.prog (fun _ _ _ hle _ h => h.mono hle) h3 i2
        (hs.threads t ?_)
      rcases List.mem_append.1 hm with hm | hm
      · simp [hm]
      · simp [hm]
    rcases List.mem_append.1 ht with hm | hm
    · exact hstable (by simp [hm])
    · rcases List.mem_cons.1 hm with rfl | hm
      · exact h4
      · exact hstable (by simp [hm])
  | stop =>
    refine ⟨hs.inv, fun t ht => hs.threads t ?_⟩
    rcases List.mem_append.1 ht with hm | hm
    · simp [hm]
    · simp [hm]
  | gc hg => exact ⟨gc_inv ok hs.inv hg, fun t ht => absurd ht (by simp)⟩

theorem trace_inv (ok : E.OK U) {T : Prop} {fuel : Nat} (hT : Enough E U rk T fuel) {s s' : State}
    {es : List Event} (hs : SInv E U rk T s) (h : Trace E U rk fuel s es s') :
    SInv E U rk T s' := by
  induction h with
  | nil => exact hs
  | snoc _ hn ih => exact next_inv ok hT ih hn

theorem reachable_inv (ok : E.OK U) {fuel : Nat} {s : State}
    (h : Reachable E U rk fuel s) : SInv E U rk True s := by
  obtain ⟨es, h⟩ := h
  exact trace_inv ok (Or.inl trivial) ⟨inv_empty, fun t ht => absurd ht (by simp [emptyState])⟩ h

end Verif.Storage
