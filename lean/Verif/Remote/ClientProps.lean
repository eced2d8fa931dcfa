import Verif.Remote.Client

/-!
# Executing actions at a remote endpoint (C111)
-/

namespace Verif.Remote.Client

open Verif.Exec (CacheFlag cacheEnabled executionEnabled Mode Action containsOutputs containsPaths)
open Verif.Remote (Config Resp withRetry ofStatus)

/-! ## What is asked for, independent of the code -/

/-- A call ends normally, with a finished operation that carries a result. -/
def Gives (s : Option Stream) (r : Exec.Result) (cached : Bool) : Prop :=
  ∃ l name, s = some ⟨l ++ [⟨name, true, .answer ⟨0, r, cached⟩⟩], 0⟩

/-- A call ends normally, although the operation is still running. -/
def Runs (s : Option Stream) (handle : Str) : Prop := ∃ l c, s = some ⟨l ++ [⟨handle, false, c⟩], 0⟩

/-- An answer to the effect that the action could not be started for the time being. -/
def Op.Busy (o : Op) : Prop :=
  o.done = true ∧ (o.content = .error 14 ∨ ∃ a, o.content = .answer a ∧ (a.status = 14 ∨ a.status = 9))

/-- A call fails in a way that may be different next time: the connection is lost or times out, or the action could not be
started for the time being. -/
def Passing : Option Stream → Prop
  | none => False
  | some ⟨ops, st⟩ => st = 14 ∨ st = 4 ∨ st = 0 ∧ ∃ l o, ops = l ++ [o] ∧ o.Busy

/-- The first call that does not fail in passing is the call number `k`, and no more than `n` are allowed. -/
def First (n : Nat) (s : Nat → Option Stream) (k : Nat) : Prop := k < n ∧ ¬ Passing (s k) ∧ ∀ x < k, Passing (s x)

/-- The number of calls: up to the first one that does not fail in passing, or as many as allowed. -/
inductive Tries (n : Nat) (s : Nat → Option Stream) : Nat → Prop where
  | first {k : Nat} (h : First n s k) : Tries n s (k + 1)
  | all (h : ∀ x < n, Passing (s x)) : Tries n s n

/-- A result is obtained, with these calls: by executing, or by waiting for the operation if it is still running. -/
inductive Obtains (n : Nat) (S : Server) (id : Str) : Exec.Result → Bool → List Event → Prop where
  | now {k : Nat} {r : Exec.Result} {c : Bool} (h1 : First n (S.exec id) k) (h2 : Gives (S.exec id k) r c) :
      Obtains n S id r c [.execute id (k + 1)]
  | later {k m : Nat} {handle : Str} {r : Exec.Result} {c : Bool} (h1 : First n (S.exec id) k) (h2 : Runs (S.exec id k) handle)
      (h3 : First n (S.wait handle) m) (h4 : Gives (S.wait handle m) r c) :
      Obtains n S id r c [.execute id (k + 1), .await handle (m + 1)]

/-- A configuration for which the loops end, with enough rounds. -/
structure Setup.OK (p : Setup) : Prop where
  pos : 1 ≤ p.config.attempts
  bound : p.config.attempts + 1 < word
  fuel : p.config.attempts < p.fuel

/-! ## Calls -/

theorem First.unique {n : Nat} {s : Nat → Option Stream} {k k' : Nat} (h : First n s k) (h' : First n s k') : k = k' := by
  rcases Nat.lt_trichotomy k k' with g | g | g
  · exact absurd (h'.2.2 k g) h.2.1
  · exact g
  · exact absurd (h.2.2 k' g) h'.2.1

theorem retry_cases {p : Setup} (hp : p.OK) (f : Nat → Resp) :
    (∃ k, k < p.config.attempts ∧ f k ≠ .error ∧ (∀ x < k, f x = .error) ∧
      ∃ sl, withRetry p.config f p.jitter p.fuel = some ⟨decide (f k = .ok), k + 1, sl⟩) ∨
    (∀ x < p.config.attempts, f x = .error) ∧
      ∃ sl, withRetry p.config f p.jitter p.fuel = some ⟨false, p.config.attempts, sl⟩ := by
  by_cases h : ∃ k, k < p.config.attempts ∧ f k ≠ .error
  · refine .inl ⟨Nat.find h, (Nat.find_spec h).1, (Nat.find_spec h).2, fun x hx => ?_, ?_⟩
    · have := Nat.find_min h hx
      by_contra hne
      exact this ⟨by have := (Nat.find_spec h).1; omega, hne⟩
    · refine ⟨_, C52_stops_partial p.config hp.bound f p.jitter _ (Nat.find_spec h).1 (Nat.find_spec h).2 (fun x hx => ?_) _ ?_⟩
      · have := Nat.find_min h hx
        by_contra hne
        exact this ⟨by have := (Nat.find_spec h).1; omega, hne⟩
      · have := (Nat.find_spec h).1
        have := hp.fuel
        omega
  · have ha : ∀ x < p.config.attempts, f x = .error := by
      intro x hx
      by_contra hne
      exact h ⟨x, hx, hne⟩
    exact .inr ⟨ha, _, C52_gives_up_partial p.config hp.pos hp.bound f p.jitter ha _ hp.fuel⟩

theorem read_inl {s : Option Stream} {o : Op} (h : read true s = .inl o) : ∃ l, s = some ⟨l ++ [o], 0⟩ := by
  cases s with
  | none => cases h
  | some s =>
    obtain ⟨ops, st⟩ := s
    cases ops with
    | nil => cases h
    | cons o' r =>
      rw [read, if_pos rfl] at h
      split at h
      · rename_i hst
        injection h with h
        rw [hst]
        rcases List.eq_nil_or_concat r with rfl | ⟨r', x, rfl⟩
        · exact ⟨[], by rw [← h]; rfl⟩
        · rw [List.concat_eq_append, List.getLast?_concat] at h
          exact ⟨o' :: r', by rw [← h, List.concat_eq_append]; rfl⟩
      · cases h

theorem read_last (l : List Op) (o : Op) : read true (some ⟨l ++ [o], 0⟩) = .inl o := by
  cases l with
  | nil => rfl
  | cons a l =>
    rw [List.cons_append, read, if_pos rfl, if_pos rfl, List.getLast?_concat]
    rfl

theorem read_inr {s : Option Stream} {b : Bool} (h : read true s = .inr b) :
    (b = false ↔ Passing s) ∧ (∀ r c, ¬ Gives s r c) ∧ ∀ n, ¬ Runs s n := by
  refine ⟨?_, ?_, ?_⟩
  · cases s with
    | none =>
      cases h
      exact ⟨(nomatch ·), fun h => h.elim⟩
    | some s =>
      obtain ⟨ops, st⟩ := s
      cases ops with
      | nil =>
        injection h with h
        subst h
        unfold leaves Passing
        constructor
        · intro h
          rw [Bool.and_eq_false_iff, decide_eq_false_iff_not, decide_eq_false_iff_not, not_not, not_not] at h
          rcases h with h | h
          · exact .inl h
          · exact .inr (.inl h)
        · rintro (h | h | ⟨_, l, o, e, _⟩)
          · rw [h]; rfl
          · rw [h]; rfl
          · exact absurd e.symm (by simp)
      | cons o' r =>
        rw [read, if_pos rfl] at h
        split at h
        · cases h
        · rename_i hst
          injection h with h
          subst h
          unfold leaves Passing
          constructor
          · intro h
            rw [Bool.and_eq_false_iff, decide_eq_false_iff_not, decide_eq_false_iff_not, not_not, not_not] at h
            rcases h with h | h
            · exact .inl h
            · exact .inr (.inl h)
          · rintro (h | h | ⟨h, _⟩)
            · rw [h]; rfl
            · rw [h]; rfl
            · exact absurd h hst
  · rintro r c ⟨l, n, rfl⟩
    rw [read_last] at h
    cases h
  · rintro n ⟨l, c, rfl⟩
    rw [read_last] at h
    cases h

theorem last_inj {l l' : List Op} {o o' : Op} {st st' : Nat} (h : some (Stream.mk (l ++ [o]) st) = some ⟨l' ++ [o'], st'⟩) :
    o = o' := by
  injection h with h
  injection h with h _
  exact (List.append_inj' h rfl).2 |> List.singleton_inj.1

theorem extract_spec (l : List Op) (o : Op) :
    ((extract o).state = .retry ↔ Passing (some ⟨l ++ [o], 0⟩)) ∧
    ((extract o).state = .ongoing ↔ Runs (some ⟨l ++ [o], 0⟩) o.name) ∧ (extract o).handle = o.name ∧
    (∀ r c, (extract o).output = some (r, c) ↔ Gives (some ⟨l ++ [o], 0⟩) r c) ∧
    ((extract o).state = .finished ↔ ∃ r c, Gives (some ⟨l ++ [o], 0⟩) r c) := by
  have hpass : Passing (some ⟨l ++ [o], 0⟩) ↔ o.Busy := by
    constructor
    · rintro (h | h | ⟨_, l', o', e, h⟩)
      · cases h
      · cases h
      · rw [List.singleton_inj.1 (List.append_inj' e rfl).2]
        exact h
    · exact fun h => .inr (.inr ⟨rfl, l, o, rfl, h⟩)
  have hruns : Runs (some ⟨l ++ [o], 0⟩) o.name ↔ o.done = false := by
    constructor
    · rintro ⟨l', c, e⟩
      rw [last_inj e]
    · intro h
      refine ⟨l, o.content, ?_⟩
      rw [← h]
  have hgives : ∀ r c, Gives (some ⟨l ++ [o], 0⟩) r c ↔ o.done = true ∧ o.content = .answer ⟨0, r, c⟩ := by
    intro r c
    constructor
    · rintro ⟨l', n, e⟩
      rw [last_inj e]
      exact ⟨rfl, rfl⟩
    · rintro ⟨h1, h2⟩
      refine ⟨l, o.name, ?_⟩
      rw [← h1, ← h2]
  rw [hpass, hruns]
  simp only [hgives]
  obtain ⟨name, done, content⟩ := o
  unfold Op.Busy extract
  cases done with
  | false => simp
  | true =>
    cases content with
    | error code =>
      by_cases h : code = 14 <;> simp [h]
    | other => simp
    | answer a =>
      obtain ⟨st, r, c⟩ := a
      by_cases h0 : st = 0
      · subst h0
        simp
      · by_cases h14 : st = 14
        · simp [h14]
        · by_cases h9 : st = 9 <;> simp [h0, h14, h9]

/-- One call of `Execute`. -/
theorem executeCall_spec (s : Option Stream) :
    ((executeCall true s).2 = .error ↔ Passing s) ∧
    (∀ r c, ((executeCall true s).1.bind (·.output)) = some (r, c) ↔ Gives s r c) ∧
    (∀ x, (executeCall true s).1 = some x → (∀ h, x.state = .ongoing ∧ x.handle = h ↔ Runs s h) ∧
      (x.state = .finished ↔ ∃ r c, Gives s r c)) ∧
    ((executeCall true s).1 = none → (∀ r c, ¬ Gives s r c) ∧ ∀ n, ¬ Runs s n) ∧
    ((executeCall true s).2 = .ok ↔ (∃ r c, Gives s r c) ∨ ∃ n, Runs s n) := by
  unfold executeCall
  cases h : read true s with
  | inr b =>
    obtain ⟨h1, h2, h3⟩ := read_inr h
    refine ⟨?_, fun r c => ⟨(nomatch ·), fun h => (h2 r c h).elim⟩, fun x h => (nomatch h), fun _ => ⟨h2, h3⟩, ?_⟩
    · rw [← h1]
      cases b <;> simp
    · cases b
      · exact ⟨(nomatch ·), fun h => h.elim (fun ⟨r, c, h⟩ => (h2 r c h).elim) fun ⟨n, h⟩ => (h3 n h).elim⟩
      · exact ⟨(nomatch ·), fun h => h.elim (fun ⟨r, c, h⟩ => (h2 r c h).elim) fun ⟨n, h⟩ => (h3 n h).elim⟩
  | inl o =>
    obtain ⟨l, rfl⟩ := read_inl h
    obtain ⟨e1, e2, e3, e4, e5⟩ := extract_spec l o
    refine ⟨?_, fun r c => e4 r c, ?_, fun h => (nomatch h), ?_⟩
    · rw [← e1]
      dsimp only
      generalize (extract o).state = q
      cases q <;> simp
    · rintro x hx
      cases hx
      refine ⟨fun h => ?_, e5⟩
      rw [e2, e3]
      constructor
      · rintro ⟨h, rfl⟩
        exact h
      · rintro ⟨l', c, e⟩
        have e' := last_inj e
        exact ⟨⟨l', c, by rw [e, e']⟩, by rw [e']⟩
    · rw [← e5]
      have : (∃ n, Runs (some ⟨l ++ [o], 0⟩) n) ↔ (extract o).state = .ongoing := by
        rw [e2]
        constructor
        · rintro ⟨n, l', c, e⟩
          refine ⟨l', c, ?_⟩
          rw [e, last_inj e]
        · exact fun h => ⟨_, h⟩
      rw [this]
      dsimp only
      generalize (extract o).state = q
      cases q <;> simp

/-- One call of `WaitExecution`. -/
theorem waitCall_spec (s : Option Stream) :
    (waitCall s).1 = (executeCall true s).1 ∧ ((waitCall s).2 = .error ↔ Passing s) := by
  have h := (executeCall_spec s).1
  rw [← h]
  unfold waitCall executeCall
  cases read true s with
  | inr b => exact ⟨rfl, Iff.rfl⟩
  | inl o =>
    refine ⟨rfl, ?_⟩
    dsimp only
    generalize (extract o).state = q
    cases q <;> simp

theorem lastResponse_succ (g : Nat → Option Response) (k : Nat) :
    lastResponse g (k + 1) = (g k).getD (lastResponse g k) := by
  unfold lastResponse
  rw [List.range_succ, List.filterMap_append]
  cases h : g k with
  | none => simp [h]
  | some x => simp [h]

/-- Responses to calls that failed in passing are no results. -/
theorem lastResponse_passing {call : Option Stream → Option Response × Resp} (hc : ∀ s, (call s).1 = (executeCall true s).1)
    {s : Nat → Option Stream} : ∀ {k : Nat}, (∀ x < k, Passing (s x)) →
      (lastResponse (fun k => (call (s k)).1) k).state ≠ .ongoing ∧ (lastResponse (fun k => (call (s k)).1) k).state ≠ .finished
  | 0, _ => ⟨nofun, nofun⟩
  | k + 1, h => by
    rw [lastResponse_succ]
    have ih := lastResponse_passing hc (k := k) fun x hx => h x (by omega)
    rw [hc]
    cases hr : (executeCall true (s k)).1 with
    | none => exact ih
    | some x =>
      have hp := h k (by omega)
      unfold executeCall at hr
      cases h2 : read true (s k) with
      | inr b =>
        rw [h2] at hr
        cases hr
      | inl o =>
        rw [h2] at hr
        cases hr
        obtain ⟨l, e⟩ := read_inl h2
        rw [e] at hp
        rw [Option.getD_some, (extract_spec l o).1.2 hp]
        exact ⟨nofun, nofun⟩

/-- What comes out of the loop around the calls. -/
theorem calls_spec {p : Setup} (hp : p.OK) {call : Option Stream → Option Response × Resp}
    (hc : ∀ s, (call s).1 = (executeCall true s).1) (he : ∀ s, (call s).2 = .error ↔ Passing s) (s : Nat → Option Stream) :
    ∃ x n, calls p call s = some (x, n) ∧ Tries p.config.attempts s n ∧
      ((∀ h, x.state = .ongoing ∧ x.handle = h ↔ ∃ k, First p.config.attempts s k ∧ Runs (s k) h ∧ n = k + 1) ∧
      (∀ r c, x.state = .finished ∧ x.output = some (r, c) ↔ ∃ k, First p.config.attempts s k ∧ Gives (s k) r c ∧ n = k + 1)) := by
  unfold calls
  rcases retry_cases hp fun k => (call (s k)).2 with ⟨k, h1, h2, h3, sl, h4⟩ | ⟨h1, sl, h2⟩
  · have hf : First p.config.attempts s k := ⟨h1, fun h => h2 ((he _).2 h), fun x hx => (he _).1 (h3 x hx)⟩
    have huniq : ∀ k', First p.config.attempts s k' → k' = k := fun _ h' => h'.unique hf
    rw [h4]
    refine ⟨_, _, rfl, .first hf, ?_⟩
    dsimp only
    rw [lastResponse_succ, hc]
    obtain ⟨_, g2, g3, g4, _⟩ := executeCall_spec (s k)
    cases hr : (executeCall true (s k)).1 with
    | none =>
      have := lastResponse_passing hc hf.2.2
      rw [Option.getD_none]
      refine ⟨fun hh => ⟨fun h => (this.1 h.1).elim, ?_⟩, fun r c => ⟨fun h => (this.2 h.1).elim, ?_⟩⟩
      · rintro ⟨k', h', hr', _⟩
        cases huniq k' h'
        exact ((g4 hr).2 _ hr').elim
      · rintro ⟨k', h', hr', _⟩
        cases huniq k' h'
        exact ((g4 hr).1 _ _ hr').elim
    | some x =>
      rw [Option.getD_some]
      rw [hr] at g2
      refine ⟨fun hh => ⟨fun h => ⟨k, hf, ((g3 x hr).1 hh).1 h, rfl⟩, ?_⟩, fun r c => ⟨fun h => ⟨k, hf, (g2 r c).1 h.2, rfl⟩, ?_⟩⟩
      · rintro ⟨k', h', hr', _⟩
        cases huniq k' h'
        exact ((g3 x hr).1 hh).2 hr'
      · rintro ⟨k', h', hr', _⟩
        cases huniq k' h'
        exact ⟨(g3 x hr).2.2 ⟨r, c, hr'⟩, (g2 r c).2 hr'⟩
  · have hall : ∀ x < p.config.attempts, Passing (s x) := fun x hx => (he _).1 (h1 x hx)
    have := lastResponse_passing hc hall
    rw [h2]
    refine ⟨_, _, rfl, .all hall, fun hh => ⟨fun h => (this.1 h.1).elim, ?_⟩, fun r c => ⟨fun h => (this.2 h.1).elim, ?_⟩⟩
    · rintro ⟨k, h', _⟩
      exact absurd (hall k h'.1) h'.2.1
    · rintro ⟨k, h', _⟩
      exact absurd (hall k h'.1) h'.2.1

/-! ## C111 -/

/-- The calls that are made: repeated after passing failures only, and waiting for the operation if and only if it is running. -/
inductive Calls (n : Nat) (S : Server) (id : Str) : List Event → Prop where
  | one {k : Nat} (h : Tries n (S.exec id) k) (h2 : ∀ x handle, First n (S.exec id) x → ¬ Runs (S.exec id x) handle) :
      Calls n S id [.execute id k]
  | two {k m : Nat} {handle : Str} (h1 : First n (S.exec id) k) (h2 : Runs (S.exec id k) handle)
      (h3 : Tries n (S.wait handle) m) :
      Calls n S id [.execute id (k + 1), .await handle m]

/-- **C111.** The result taken for an action is that of a finished operation, as sent by the endpoint; it is taken as soon as there
is one, and calls are repeated only if they failed in passing. Otherwise there is no result, after a limited number of
calls. -/
theorem C111_result {p : Setup} (hp : p.OK) (S : Server) (id : Str) : ∃ o ev, sync p S id = some (o, ev) ∧
    Calls p.config.attempts S id ev ∧
    ∀ r c, o = some (r, c) ↔ Obtains p.config.attempts S id r c ev := by
  obtain ⟨x, n, h1, h2, h3, h4⟩ := calls_spec hp (call := executeCall true) (fun _ => rfl) (fun s => (executeCall_spec s).1) (S.exec id)
  unfold sync
  rw [h1, Option.bind_some]
  by_cases hs : x.state = .ongoing
  · obtain ⟨k, hk, hr, rfl⟩ := (h3 x.handle).1 ⟨hs, rfl⟩
    obtain ⟨y, m, g1, g2, g3, g4⟩ := calls_spec hp (call := waitCall) (fun s => (waitCall_spec s).1) (fun s => (waitCall_spec s).2)
      (S.wait x.handle)
    dsimp only
    rw [if_pos hs, g1]
    refine ⟨_, _, rfl, .two hk hr g2, fun r c => ?_⟩
    dsimp only
    have : (if y.state ≠ .finished then none else y.output) = some (r, c) ↔ y.state = .finished ∧ y.output = some (r, c) := by
      split
      · rename_i h
        exact ⟨(nomatch ·), fun h' => (h h'.1).elim⟩
      · rename_i h
        exact ⟨fun h' => ⟨not_not.1 h, h'⟩, fun h' => h'.2⟩
    rw [this, g4]
    constructor
    · rintro ⟨m', a1, a2, rfl⟩
      exact .later hk hr a1 a2
    · intro h
      cases h with
      | later _ _ a3 a4 => exact ⟨_, a3, a4, rfl⟩
  · dsimp only
    rw [if_neg hs]
    refine ⟨_, _, rfl, .one h2 fun k handle hk hr => ?_, fun r c => ?_⟩
    · refine hs ((h3 handle).2 ⟨k, hk, hr, ?_⟩).1
      cases h2 with
      | first h => rw [h.unique hk]
      | all h => exact absurd (h k hk.1) hk.2.1
    dsimp only
    have : (if x.state ≠ .finished then none else x.output) = some (r, c) ↔ x.state = .finished ∧ x.output = some (r, c) := by
      split
      · rename_i h
        exact ⟨(nomatch ·), fun h' => (h h'.1).elim⟩
      · rename_i h
        exact ⟨fun h' => ⟨not_not.1 h, h'⟩, fun h' => h'.2⟩
    rw [this, h4]
    constructor
    · rintro ⟨k, a1, a2, rfl⟩
      exact .now a1 a2
    · intro h
      cases h with
      | now a1 a2 => exact ⟨_, a1, a2, rfl⟩

/-! ## Actions: what is asked for -/

/-- A call of the action cache fails in a way that may be different next time. -/
def Away (q : Nat × Exec.Result) : Prop := q.1 = 14 ∨ q.1 = 4

/-- The result names every output that is asked for. -/
def Has {κ : Type} (a : Action κ) (r : Exec.Result) : Prop :=
  if a.mode = .v20 then
    (∀ f ∈ a.files, ∃ d, (f, d) ∈ r.files ++ r.fileLinks ++ r.dirLinks) ∧ ∀ f ∈ a.dirs, ∃ d, (f, d) ∈ r.dirs
  else ∀ f ∈ a.paths, ∃ d, (f, d) ∈ r.files ++ r.fileLinks ++ r.dirLinks ++ r.dirs

/-- A result that can be taken from the cache, found with the call number `k`. -/
structure Hit {κ : Type} (n : Nat) (S : Server) (a : Action κ) (id : Str) (k : Nat) (r : Exec.Result) : Prop where
  bound : k < n
  before : ∀ x < k, Away (S.ac id x)
  found : S.ac id k = (0, r)
  success : r.exitCode = 0
  outputs : Has a r

/-- No such result, after `j` calls. -/
inductive Miss {κ : Type} (n : Nat) (S : Server) (a : Action κ) (id : Str) : Nat → Prop where
  | away (h : ∀ x < n, Away (S.ac id x)) : Miss n S a id n
  | failed {k : Nat} (h1 : k < n) (h2 : ∀ x < k, Away (S.ac id x)) (h3 : ¬ Away (S.ac id k)) (h4 : (S.ac id k).1 ≠ 0) :
      Miss n S a id (k + 1)
  | unusable {k : Nat} {r : Exec.Result} (h1 : k < n) (h2 : ∀ x < k, Away (S.ac id x)) (h3 : S.ac id k = (0, r))
      (h4 : r.exitCode ≠ 0 ∨ ¬ Has a r) : Miss n S a id (k + 1)

/-- What is reported, and what is done at the endpoint for it. -/
inductive Reports {κ : Type} (n : Nat) (S : Server) (a : Action κ) (ids : Bool → Option Str) :
    CacheFlag → Report → List Event → Prop where
  | cached {flag : CacheFlag} {id : Str} {k : Nat} {r : Exec.Result} (h1 : flag = .cacheOutput ∨ flag = .fromCacheOnly)
      (h2 : ids false = some id) (h3 : Hit n S a id k r) : Reports n S a ids flag ⟨id, r, true⟩ [.lookup id (k + 1)]
  | executed {id : Str} {j : Nat} {r : Exec.Result} {c : Bool} {ev : List Event} (h1 : ids false = some id)
      (h2 : Miss n S a id j) (h3 : S.uploads = true) (h4 : Obtains n S id r c ev) :
      Reports n S a ids .cacheOutput ⟨id, r, c⟩ (.lookup id j :: .upload :: ev)
  | uncached {id : Str} {r : Exec.Result} {c : Bool} {ev : List Event} (h1 : ids true = some id)
      (h3 : S.uploads = true) (h4 : Obtains n S id r c ev) :
      Reports n S a ids .doNotCacheOutput ⟨id, r, c⟩ (.upload :: ev)
  | pretended {id id' : Str} {r : Exec.Result} {c : Bool} {ev : List Event} (h1 : ids true = some id) (h2 : ids false = some id')
      (h3 : S.uploads = true) (h4 : Obtains n S id r c ev) :
      Reports n S a ids .pretendCached ⟨id', r, true⟩ (.upload :: ev)

/-- What may be done at the endpoint for an action, whether it succeeds or not. -/
inductive Does {κ : Type} (n : Nat) (S : Server) (a : Action κ) (ids : Bool → Option Str) : CacheFlag → List Event → Prop where
  | unknown {flag : CacheFlag} (h : ids (decide (flag = .doNotCacheOutput ∨ flag = .pretendCached)) = none) :
      Does n S a ids flag []
  | hit {flag : CacheFlag} {id : Str} {k : Nat} {r : Exec.Result} (h1 : flag = .cacheOutput ∨ flag = .fromCacheOnly)
      (h2 : ids false = some id) (h3 : Hit n S a id k r) : Does n S a ids flag [.lookup id (k + 1)]
  | only {id : Str} {j : Nat} (h2 : ids false = some id) (h3 : Miss n S a id j) : Does n S a ids .fromCacheOnly [.lookup id j]
  | miss {id : Str} {j : Nat} {ev : List Event} (h2 : ids false = some id) (h3 : Miss n S a id j)
      (h4 : if S.uploads then Calls n S id ev else ev = []) : Does n S a ids .cacheOutput (.lookup id j :: .upload :: ev)
  | run {flag : CacheFlag} {id : Str} {ev : List Event} (h1 : flag = .doNotCacheOutput ∨ flag = .pretendCached)
      (h2 : ids true = some id) (h4 : if S.uploads then Calls n S id ev else ev = []) : Does n S a ids flag (.upload :: ev)

/-! ## Actions: proofs -/

theorem any_key {p : Str} (l : List (Str × Str)) : (l.map (·.1)).contains p = true ↔ ∃ d, (p, d) ∈ l :=
  ⟨Exec.contains_fst, fun ⟨_, h⟩ => Exec.contains_of_mem h⟩

theorem accepted_iff {κ : Type} (a : Action κ) (r : Exec.Result) : accepted a r = true ↔ r.exitCode = 0 ∧ Has a r := by
  unfold accepted Has containsOutputs containsPaths
  rw [Bool.and_eq_true, decide_eq_true_iff]
  refine and_congr_right fun _ => ?_
  split
  · simp only [Bool.and_eq_true, List.all_eq_true, Bool.or_eq_true, any_key, List.mem_append, exists_or]
  · simp only [List.all_eq_true, Bool.or_eq_true, any_key, List.mem_append, exists_or]

theorem ofStatus_error (st : Nat) : ofStatus st = .error ↔ st = 14 ∨ st = 4 := by
  unfold ofStatus
  split
  · rename_i h
    subst h
    simp
  · split
    · rename_i h
      simp [h.1, h.2]
    · rename_i h
      simp only [true_iff]
      by_contra h'
      exact h ⟨fun e => h' (.inl e), fun e => h' (.inr e)⟩

theorem ofStatus_ok (st : Nat) : ofStatus st = .ok ↔ st = 0 := by
  unfold ofStatus
  split
  · rename_i h
    simp [h]
  · rename_i h
    split <;> simp [h]

theorem lookup_spec {κ : Type} {p : Setup} (hp : p.OK) (S : Server) (a : Action κ) (id : Str) : ∃ o j, lookup p S id = some (o, [.lookup id j]) ∧
    ((∃ r, o = some r ∧ accepted a r = true ∧ ∃ k, j = k + 1 ∧ Hit p.config.attempts S a id k r) ∨
      (∀ r, o = some r → accepted a r = false) ∧ Miss p.config.attempts S a id j) := by
  unfold lookup
  rcases retry_cases hp fun k => ofStatus (S.ac id k).1 with ⟨k, h1, h2, h3, sl, h4⟩ | ⟨h1, sl, h2⟩
  · rw [h4]
    refine ⟨_, _, rfl, ?_⟩
    dsimp only
    have hb : ∀ x < k, Away (S.ac id x) := fun x hx => (ofStatus_error _).1 (h3 x hx)
    by_cases h0 : (S.ac id k).1 = 0
    · rw [decide_eq_true ((ofStatus_ok _).2 h0), if_pos rfl, Nat.add_sub_cancel]
      have hk : S.ac id k = (0, (S.ac id k).2) := Prod.ext h0 rfl
      by_cases ha : accepted a (S.ac id k).2 = true
      · have := (accepted_iff a _).1 ha
        exact .inl ⟨_, rfl, ha, k, rfl, h1, hb, hk, this.1, this.2⟩
      · refine .inr ⟨fun r hr => by cases hr; simpa using ha, .unusable h1 hb hk ?_⟩
        by_contra h
        rw [not_or, not_not, not_not] at h
        exact ha ((accepted_iff a _).2 h)
    · rw [decide_eq_false (mt (ofStatus_ok _).1 h0)]
      exact .inr ⟨fun r hr => (nomatch hr), .failed h1 hb (fun h => h2 ((ofStatus_error _).2 h)) h0⟩
  · rw [h2]
    exact ⟨_, _, rfl, .inr ⟨fun r hr => (nomatch hr), .away fun x hx => (ofStatus_error _).1 (h1 x hx)⟩⟩

theorem executeAction_spec {p : Setup} (hp : p.OK) (S : Server) (ids : Bool → Option Str) (flag : CacheFlag) (id : Str)
    (ev : List Event) (hx : executionEnabled flag = true) : ∃ o ev', executeAction p S ids flag id ev = some (o, ev ++ .upload :: ev') ∧
      (if S.uploads then Calls p.config.attempts S id ev' else ev' = []) ∧
      ∀ q, o = some q ↔ S.uploads = true ∧ ∃ r c, Obtains p.config.attempts S id r c ev' ∧
        if flag = .pretendCached then ∃ id', ids false = some id' ∧ q = ⟨id', r, true⟩ else q = ⟨id, r, c⟩ := by
  unfold executeAction
  rw [if_pos hx]
  by_cases hu : S.uploads = true
  · obtain ⟨o, ev', h1, h2, h3⟩ := C111_result hp S id
    rw [if_pos hu, h1]
    refine ⟨_, _, rfl, by rw [if_pos hu]; exact h2, fun q => ?_⟩
    cases o with
    | none =>
      refine ⟨(nomatch ·), ?_⟩
      rintro ⟨_, r, c, h, _⟩
      exact nomatch (h3 r c).2 h
    | some rc =>
      obtain ⟨r, c⟩ := rc
      dsimp only
      have ho := (h3 r c).1 rfl
      split
      · constructor
        · intro h
          obtain ⟨id', e1, e2⟩ := Option.map_eq_some_iff.1 h
          exact ⟨hu, r, c, ho, id', e1, e2.symm⟩
        · rintro ⟨_, r', c', h, id', e1, e2⟩
          cases (h3 r' c').2 h
          rw [e1, e2]
          rfl
      · constructor
        · intro h
          cases h
          exact ⟨hu, r, c, ho, rfl⟩
        · rintro ⟨_, r', c', h, e⟩
          cases (h3 r' c').2 h
          rw [e]
  · rw [if_neg hu]
    exact ⟨_, [], rfl, by rw [if_neg hu], fun q => ⟨(nomatch ·), fun h => (hu h.1).elim⟩⟩

/-- **C111.** What is reported for an action is found in the action cache or obtained by executing it, and
nothing else; the cache is asked if and only if results are to be cached, nothing is executed if results are to be from the
cache only, or before all blobs are uploaded, and what is executed is the action for which results are cached or not, as
asked for. -/
theorem C111_action {κ : Type} {p : Setup} (hp : p.OK) (S : Server) (a : Action κ) (ids : Bool → Option Str) (flag : CacheFlag) :
    ∃ o ev, execute p S a ids flag = some (o, ev) ∧ Does p.config.attempts S a ids flag ev ∧
      ∀ q, o = some q ↔ Reports p.config.attempts S a ids flag q ev := by
  unfold execute
  cases hid : ids (!cacheEnabled flag) with
  | none =>
    refine ⟨_, _, rfl, .unknown ?_, fun q => ⟨(nomatch ·), fun h => ?_⟩⟩
    · cases flag <;> exact hid
    · cases h
  | some id =>
    dsimp only
    by_cases hc : cacheEnabled flag = true
    · rw [hc] at hid
      have hid : ids false = some id := hid
      rw [if_pos hc]
      have hflag : flag = .cacheOutput ∨ flag = .fromCacheOnly := by
        cases flag <;> first | exact .inl rfl | exact .inr rfl | cases hc
      obtain ⟨o, j, h1, h2⟩ := lookup_spec hp S a id
      rw [h1, Option.bind_some]
      dsimp only
      rcases h2 with ⟨r, rfl, hacc, k, rfl, hhit⟩ | ⟨hno, hmiss⟩
      · dsimp only
        rw [if_pos hacc]
        refine ⟨_, _, rfl, .hit hflag hid hhit, fun q => ⟨fun h => ?_, fun h => ?_⟩⟩
        · cases h
          exact .cached hflag hid hhit
        · generalize hev : [Event.lookup id (k + 1)] = ev at h
          cases h with
          | cached a1 a2 a3 =>
            cases hev
            have e := hhit.found.symm.trans a3.found
            cases e
            rfl
          | _ => cases hev
      · have hgo : ∃ o' ev, (match o with
          | none => executeAction p S ids flag id [.lookup id j]
          | some r => if accepted a r then some (some ⟨id, r, true⟩, [.lookup id j]) else
            executeAction p S ids flag id [.lookup id j]) = some (o', ev) ∧
            executeAction p S ids flag id [.lookup id j] = some (o', ev) := by
          by_cases hx : executionEnabled flag = true
          · obtain ⟨o', ev', g1, _⟩ := executeAction_spec hp S ids flag id [.lookup id j] hx
            refine ⟨o', _, ?_, g1⟩
            cases o with
            | none => exact g1
            | some r =>
              dsimp only
              rw [hno r rfl]
              exact g1
          · refine ⟨none, [.lookup id j], ?_, by unfold executeAction; rw [if_neg hx]⟩
            cases o with
            | none =>
              dsimp only
              unfold executeAction
              rw [if_neg hx]
            | some r =>
              dsimp only
              rw [hno r rfl]
              unfold executeAction
              rw [if_neg hx]
              rfl
        obtain ⟨o', ev, g1, g2⟩ := hgo
        refine ⟨o', ev, g1, ?_⟩
        have hnohit : ∀ {k r}, Hit p.config.attempts S a id k r → j = k + 1 → False := by
          intro k r hh hj
          cases hmiss with
          | away h =>
            have := hh.bound
            have hk := h k (by omega)
            rw [hh.found] at hk
            rcases hk with h | h <;> cases h
          | failed _ _ _ h4 =>
            cases hj
            rw [hh.found] at h4
            exact h4 rfl
          | unusable _ _ h3 h4 =>
            cases hj
            cases hh.found.symm.trans h3
            rcases h4 with h | h
            · exact h hh.success
            · exact h hh.outputs
        rcases hflag with rfl | rfl
        · obtain ⟨o2, ev2, k1, k2, k3⟩ := executeAction_spec hp S ids .cacheOutput id [.lookup id j] rfl
          cases g2.symm.trans k1
          refine ⟨.miss hid hmiss k2, fun q => ?_⟩
          rw [k3 q]
          constructor
          · rintro ⟨hu, r, c, ho, h⟩
            rw [if_neg nofun] at h
            subst h
            exact .executed hid hmiss hu ho
          · intro h
            generalize hev : [Event.lookup id j] ++ Event.upload :: ev2 = ev at h
            cases h with
            | cached => cases hev
            | executed a1 a2 a3 a4 =>
              cases hev
              exact ⟨a3, _, _, a4, by rw [if_neg nofun]⟩
        · unfold executeAction at g2
          rw [if_neg nofun] at g2
          cases g2
          refine ⟨.only hid hmiss, fun q => ⟨(nomatch ·), fun h => ?_⟩⟩
          generalize hev : [Event.lookup id j] = ev at h
          cases h with
          | cached a1 a2 a3 =>
            cases hev
            exact (hnohit a3 rfl).elim
    · have hcf : cacheEnabled flag = false := by simpa using hc
      rw [hcf] at hid
      have hid : ids true = some id := hid
      rw [if_neg hc]
      have hflag : flag = .doNotCacheOutput ∨ flag = .pretendCached := by
        cases flag <;> first | exact .inl rfl | exact .inr rfl | cases hcf
      have hx : executionEnabled flag = true := by rcases hflag with rfl | rfl <;> rfl
      obtain ⟨o2, ev2, k1, k2, k3⟩ := executeAction_spec hp S ids flag id [] hx
      refine ⟨o2, _, k1, .run hflag hid k2, fun q => ?_⟩
      rw [k3 q]
      constructor
      · rintro ⟨hu, r, c, ho, h⟩
        rcases hflag with rfl | rfl
        · rw [if_neg nofun] at h
          subst h
          exact .uncached hid hu ho
        · rw [if_pos rfl] at h
          obtain ⟨id', e1, rfl⟩ := h
          exact .pretended hid e1 hu ho
      · intro h
        generalize hev : [] ++ Event.upload :: ev2 = ev at h
        cases h with
        | cached => cases hev
        | executed => cases hev
        | uncached a1 a3 a4 =>
          cases hev
          cases hid.symm.trans a1
          exact ⟨a3, _, _, a4, by rw [if_neg nofun]⟩
        | pretended a1 a2 a3 a4 =>
          cases hev
          cases hid.symm.trans a1
          exact ⟨a3, _, _, a4, by rw [if_pos rfl]; exact ⟨_, a2, rfl⟩⟩

/-! ## Violations -/

/-- A result of an action that failed. -/
def bad : Exec.Result := { exitCode := 1, files := [], fileLinks := [], dirLinks := [], links := [], dirs := [] }

/-- An endpoint that has it in its cache. -/
def keeps : Server where
  ac _ _ := (0, bad)
  exec _ _ := some ⟨[⟨['x'], true, .answer ⟨0, bad, true⟩⟩], 0⟩
  wait _ _ := none
  uploads := true

/-- An action with one output. -/
def act : Action Unit := { core := (), files := [['o']], dirs := [], paths := [['o']], mode := .bestEffort }

/-- **C111, violation.** A result in the action cache that is not acceptable, as it is that of a failed action without the output
asked for, is nevertheless what is reported, and as coming from the cache: the endpoint is asked to execute the action, but not to
leave its cache out of consideration (`skip_cache_lookup`, api_bundle.cpp:38, 60, is never set). The action is
not executed again. -/
theorem C111_violation_cached : ∃ (p : Setup) (S : Server) (a : Action Unit) (ids : Bool → Option Str) (q : Report)
    (ev : List Event), p.OK ∧ execute p S a ids .cacheOutput = some (some q, ev) ∧ q.cached = true ∧ q.result.exitCode ≠ 0 ∧
      ¬ Has a q.result := by
  refine ⟨⟨⟨1, 60, 3⟩, fun _ => 0, 4⟩, keeps, act, fun _ => some ['i'], ⟨['i'], bad, true⟩,
    [.lookup ['i'] 1, .upload, .execute ['i'] 1], ⟨by decide, by decide, by decide⟩, by decide +kernel, rfl, by decide, ?_⟩
  intro h
  rw [Has, if_neg nofun] at h
  obtain ⟨d, hd⟩ := h ['o'] (by decide)
  cases hd

/-! ## Examples -/

/-- The outputs are there. -/
def good : Exec.Result := { exitCode := 0, files := [(['o'], ['h'])], fileLinks := [], dirLinks := [], links := [], dirs := [] }

/-- An endpoint that is busy at first, is still running the action then, loses the connection once, and has the result in the
end. -/
def slow : Server where
  ac _ _ := (5, bad)
  exec _ k := if k = 0 then some ⟨[], 14⟩ else if k = 1 then some ⟨[⟨['x'], true, .answer ⟨9, bad, false⟩⟩], 0⟩ else
    some ⟨[⟨['x'], false, .other⟩], 0⟩
  wait _ k := if k = 0 then some ⟨[⟨['x'], false, .other⟩], 4⟩ else
    some ⟨[⟨['x'], false, .other⟩, ⟨['x'], true, .answer ⟨0, good, false⟩⟩], 0⟩
  uploads := true

/-- Three attempts. -/
def setup : Setup := ⟨⟨1, 60, 3⟩, fun _ => 0, 4⟩

theorem setup_ok : setup.OK := ⟨by decide, by decide, by decide⟩

example : sync setup slow ['i'] = some (some (good, false), [.execute ['i'] 3, .await ['x'] 2]) := by decide +kernel

/-- `C111_result` applies, with a result that took several calls. -/
example : Obtains 3 slow ['i'] good false [.execute ['i'] 3, .await ['x'] 2] := by
  obtain ⟨o, ev, h1, _, h3⟩ := C111_result setup_ok slow ['i']
  have h : sync setup slow ['i'] = some (some (good, false), [.execute ['i'] 3, .await ['x'] 2]) := by decide +kernel
  cases h.symm.trans h1
  exact (h3 good false).1 rfl

example : execute setup slow act (fun b => some [if b then 'u' else 'c']) .cacheOutput =
    some (some ⟨['c'], good, false⟩, [.lookup ['c'] 1, .upload, .execute ['c'] 3, .await ['x'] 2]) := by decide +kernel

example : execute setup slow act (fun b => some [if b then 'u' else 'c']) .pretendCached =
    some (some ⟨['c'], good, true⟩, [.upload, .execute ['u'] 3, .await ['x'] 2]) := by decide +kernel

example : execute setup slow act (fun b => some [if b then 'u' else 'c']) .fromCacheOnly =
    some (none, [.lookup ['c'] 1]) := by decide +kernel

/-- `C111_action` applies, with an action that is executed although results are cached. -/
example : Reports 3 slow act (fun b => some [if b then 'u' else 'c']) .cacheOutput ⟨['c'], good, false⟩
    [.lookup ['c'] 1, .upload, .execute ['c'] 3, .await ['x'] 2] := by
  obtain ⟨o, ev, h1, _, h3⟩ := C111_action setup_ok slow act (fun b => some [if b then 'u' else 'c']) .cacheOutput
  have h : execute setup slow act (fun b => some [if b then 'u' else 'c']) .cacheOutput =
    some (some ⟨['c'], good, false⟩, [.lookup ['c'] 1, .upload, .execute ['c'] 3, .await ['x'] 2]) := by decide +kernel
  cases h.symm.trans h1
  exact (h3 _).1 rfl

end Verif.Remote.Client
