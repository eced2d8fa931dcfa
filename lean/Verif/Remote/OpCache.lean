import Mathlib.Data.List.Basic
import Mathlib.Data.List.Nodup
import Mathlib.Data.List.Perm.Basic

/-!
# The cache of operations of the execution service: C53

Model of `src/buildtool/execution_api/execution_service/operation_cache.{hpp,cpp}`.
-/

namespace Verif.Remote.OpCache

/-- An operation: whether it is done, its time in seconds, and everything else of it. -/
structure Op (α : Type) where
  done : Bool
  time : Int
  rest : α
  deriving DecidableEq

variable {κ α : Type} [DecidableEq κ]

/-- operation_cache.hpp:55: an unordered map, here a list of pairs with distinct keys in any order. -/
abbrev Cache (κ α : Type) := List (κ × Op α)

/-- operation_cache.hpp:64-72 (`QueryInternal`). -/
def query (c : Cache κ α) (k : κ) : Option (Op α) := (c.find? (fun p => p.1 = k)).map Prod.snd

/-- operation_cache.hpp:74-77 (`DropInternal`). -/
def drop (k : κ) (c : Cache κ α) : Cache κ α := c.filter (fun p => p.1 ≠ k)

/-- operation_cache.cpp:38-46: the loop over the sorted operations, with `deleted` already removed. -/
def collectLoop (threshold : Nat) : Cache κ α → Nat → Cache κ α → Cache κ α
  | [], _, c => c
  | (k, op) :: t, deleted, c =>
    if op.done then
      if deleted + 1 = threshold then drop k c else collectLoop threshold t (deleted + 1) (drop k c)
    else if deleted = threshold then c
    else collectLoop threshold t deleted c

/-- operation_cache.cpp:24-48 (`GarbageCollection`); `sort` is `std::sort` by time, see `Sorter`. -/
def collect (sort : Cache κ α → Cache κ α) (threshold : Nat) (c : Cache κ α) : Cache κ α :=
  if c.length > 2 * threshold then collectLoop threshold (sort c) 0 c else c

/-- operation_cache.hpp:59-62 (`SetInternal`). -/
def set (sort : Cache κ α → Cache κ α) (threshold : Nat) (c : Cache κ α) (k : κ) (op : Op α) : Cache κ α :=
  (k, op) :: drop k (collect sort threshold c)

/-- operation_cache.cpp:29-36: a permutation, sorted by time.  Neither the order of the unordered map nor that of
operations with the same time is determined. -/
structure Sorter (sort : Cache κ α → Cache κ α) : Prop where
  perm : ∀ c, (sort c).Perm c
  sorted : ∀ c, (sort c).Pairwise (fun a b => a.2.time ≤ b.2.time)

/-- operation_cache.hpp:51 (`SetExponent`): the threshold for an exponent.  Shifting a 32-bit number by 32 or more is
undefined behaviour, here `none`. -/
def threshold (x : Nat) : Option Nat := if x < 32 then some (2 ^ x) else none

/-- cli.hpp:46,822-831: which exponents are accepted by `--log-operations-threshold`. -/
def accepted (x : Nat) : Bool := !decide (x > 63)

/-- A history of calls of `Set`, the latest one first. -/
def run (sort : Cache κ α → Cache κ α) (threshold : Nat) : List (κ × Op α) → Cache κ α
  | [] => []
  | (k, op) :: t => set sort threshold (run sort threshold t) k op

/-! ## Lemmas -/

omit [DecidableEq κ] in
theorem names_perm {c c' : Cache κ α} (h : c.Perm c') :
    (c.map Prod.fst).Nodup ↔ (c'.map Prod.fst).Nodup := (h.map Prod.fst).nodup_iff

theorem mem_drop {k : κ} {c : Cache κ α} {p : κ × Op α} : p ∈ drop k c ↔ p ∈ c ∧ p.1 ≠ k := by
  unfold drop
  rw [List.mem_filter, decide_eq_true_eq]

theorem drop_names {k : κ} {c : Cache κ α} (h : (c.map Prod.fst).Nodup) : ((drop k c).map Prod.fst).Nodup :=
  h.sublist (List.Sublist.map _ List.filter_sublist)

theorem query_iff {c : Cache κ α} (h : (c.map Prod.fst).Nodup) {k : κ} {op : Op α} :
    query c k = some op ↔ (k, op) ∈ c := by
  induction c with
  | nil => exact ⟨(fun h => nomatch h), (fun h => nomatch h)⟩
  | cons p c ih =>
    obtain ⟨k', op'⟩ := p
    rw [List.map_cons, List.nodup_cons] at h
    unfold query
    by_cases hk : k' = k
    · subst hk
      rw [List.find?_cons_of_pos (by simp)]
      simp only [Option.map_some, Option.some.injEq, List.mem_cons, Prod.mk.injEq, true_and]
      constructor
      · exact fun e => .inl e.symm
      · rintro (e | e)
        · exact e.symm
        · exact absurd (List.mem_map_of_mem (f := Prod.fst) e) h.1
    · rw [List.find?_cons_of_neg (by simpa using hk)]
      have := ih h.2
      unfold query at this
      rw [this, List.mem_cons, Prod.mk.injEq]
      constructor
      · exact .inr
      · rintro (e | e)
        · exact absurd e.1.symm hk
        · exact e

/-- What the loop removes: the first finished operations, at most as many as allowed. -/
theorem collectLoop_spec (threshold : Nat) : ∀ (l : Cache κ α) (d : Nat) (c : Cache κ α), d < threshold →
    (l.map Prod.fst).Nodup → ∃ r, r.Sublist l ∧ (∀ p ∈ r, p.2.done = true) ∧ r.length + d ≤ threshold ∧
      (∀ p, p ∈ collectLoop threshold l d c ↔ p ∈ c ∧ p.1 ∉ r.map Prod.fst) ∧
      (collectLoop threshold l d c).Sublist c ∧
      (∃ r', l.filter (fun p => p.2.done) = r ++ r' ∧ (r.length + d < threshold → r' = []))
  | [], d, c, hd, _ => ⟨[], List.Sublist.refl _, by simp, by simp; omega, by simp [collectLoop],
      List.Sublist.refl _, [], by simp, fun _ => rfl⟩
  | (k, op) :: t, d, c, hd, hn => by
    rw [List.map_cons, List.nodup_cons] at hn
    rw [collectLoop]
    by_cases hdone : op.done = true
    · rw [if_pos hdone]
      by_cases ht : d + 1 = threshold
      · rw [if_pos ht]
        refine ⟨[(k, op)], by simp, by simpa using hdone, by simp; omega, ?_, List.filter_sublist,
          t.filter (fun p => p.2.done), by rw [List.filter_cons_of_pos (by simpa using hdone)]; rfl,
          fun h => by simp at h; omega⟩
        intro p
        rw [mem_drop]
        simp
      · rw [if_neg ht]
        obtain ⟨r, h1, h2, h3, h4, h5, r', h6, h7⟩ := collectLoop_spec threshold t (d + 1) (drop k c) (by omega) hn.2
        refine ⟨(k, op) :: r, h1.cons_cons _, ?_, by simp; omega, ?_, h5.trans List.filter_sublist, r', ?_, ?_⟩
        · intro p hp
          rcases List.mem_cons.mp hp with rfl | hp
          · exact hdone
          · exact h2 p hp
        · intro p
          rw [h4, mem_drop, List.map_cons, List.mem_cons]
          constructor
          · rintro ⟨⟨a, b⟩, e⟩
            exact ⟨a, fun h => h.elim b e⟩
          · rintro ⟨a, b⟩
            exact ⟨⟨a, fun h => b (.inl h)⟩, fun h => b (.inr h)⟩
        · rw [List.filter_cons_of_pos (by simpa using hdone), h6, List.cons_append]
        · intro h
          exact h7 (by simp at h; omega)
    · rw [if_neg hdone, if_neg (by omega)]
      obtain ⟨r, h1, h2, h3, h4, h5, r', h6, h7⟩ := collectLoop_spec threshold t d c hd hn.2
      refine ⟨r, h1.cons _, h2, h3, h4, h5, r', ?_, h7⟩
      rw [List.filter_cons_of_neg (by simpa using hdone), h6]

omit [DecidableEq κ] in
theorem append_pairwise {R : κ × Op α → κ × Op α → Prop} {l r r' : Cache κ α} (h : l.Pairwise R)
    (e : l.filter (fun p => p.2.done) = r ++ r') : ∀ a ∈ r, ∀ b ∈ r', R a b := by
  have := h.sublist (List.filter_sublist (p := fun p => p.2.done))
  rw [e] at this
  exact (List.pairwise_append.mp this).2.2

/-- The collection, independently of how it works: it happens only if there are more than twice as many operations as
the threshold; then it removes some finished operations, at most the threshold, and all of them if there are
fewer, and none that is newer than a finished one that is kept. -/
theorem collect_spec {sort : Cache κ α → Cache κ α} (hs : Sorter sort) {threshold : Nat} (ht : 0 < threshold)
    {c : Cache κ α} (hn : (c.map Prod.fst).Nodup) :
    ∃ removed : Cache κ α, (∀ p, p ∈ collect sort threshold c ↔ p ∈ c ∧ p ∉ removed) ∧
      (∀ p ∈ removed, p ∈ c ∧ p.2.done = true) ∧ removed.Nodup ∧ removed.length ≤ threshold ∧
      (collect sort threshold c).Sublist c ∧
      (∀ p ∈ removed, ∀ q ∈ collect sort threshold c, q.2.done = true → p.2.time ≤ q.2.time) ∧
      (removed.length < threshold → c.length ≤ 2 * threshold ∨ ∀ q ∈ collect sort threshold c, q.2.done = false) := by
  unfold collect
  by_cases hl : c.length > 2 * threshold
  · rw [if_pos hl]
    have hp := hs.perm c
    have hsn := (names_perm hp).mpr hn
    obtain ⟨r, h1, h2, h3, h4, h5, r', h6, h7⟩ := collectLoop_spec threshold (sort c) 0 c ht hsn
    have hrc : ∀ p ∈ r, p ∈ c := fun p h => hp.mem_iff.mp (h1.subset h)
    have hmem : ∀ p, p ∈ collectLoop threshold (sort c) 0 c ↔ p ∈ c ∧ p ∉ r := by
      intro p
      rw [h4]
      refine and_congr_right (fun hpc => not_congr ⟨fun h => ?_, fun h => List.mem_map_of_mem h⟩)
      obtain ⟨q, hq, e⟩ := List.mem_map.mp h
      have := List.inj_on_of_nodup_map hn (hrc q hq) hpc e
      rwa [← this]
    have hkept : ∀ q, q ∈ collectLoop threshold (sort c) 0 c → q.2.done = true → q ∈ r' := by
      intro q hq hqd
      have hq' := (hmem q).mp hq
      have : q ∈ (sort c).filter (fun p => p.2.done) := List.mem_filter.mpr ⟨hp.mem_iff.mpr hq'.1, hqd⟩
      rw [h6] at this
      exact (List.mem_append.mp this).resolve_left hq'.2
    refine ⟨r, hmem, fun p h => ⟨hrc p h, h2 p h⟩, ?_, h3, h5, fun p h q hq hqd => ?_, fun h => .inr fun q hq => ?_⟩
    · exact (List.Nodup.of_map _ hsn).sublist h1
    · exact append_pairwise (hs.sorted c) h6 p h q (hkept q hq hqd)
    · cases hqd : q.2.done with
      | false => rfl
      | true =>
        have := hkept q hq hqd
        rw [h7 (by omega)] at this
        exact nomatch this
  · rw [if_neg hl]
    exact ⟨[], by simp, by simp, by simp, by simp, List.Sublist.refl _, by simp, fun _ => .inl (by omega)⟩

theorem run_names {sort : Cache κ α → Cache κ α} (hs : Sorter sort) {threshold : Nat} (ht : 0 < threshold) :
    ∀ h : List (κ × Op α), ((run sort threshold h).map Prod.fst).Nodup
  | [] => by simp [run]
  | (k, op) :: t => by
    have ih := run_names hs ht t
    obtain ⟨r, _, _, _, _, h5, _⟩ := collect_spec hs ht ih
    rw [run, set, List.map_cons, List.nodup_cons]
    refine ⟨?_, drop_names (ih.sublist (h5.map _))⟩
    intro hk
    obtain ⟨p, hp, e⟩ := List.mem_map.mp hk
    exact (mem_drop.mp hp).2 e

/-- The state of an operation set last in a history. -/
def latest (h : List (κ × Op α)) (k : κ) : Option (Op α) := (h.find? (fun p => p.1 = k)).map Prod.snd

/-! ## Theorems -/

/-- C53: an operation that was just set is found with this state. -/
theorem C53_set (sort : Cache κ α → Cache κ α) (hs : Sorter sort) (threshold : Nat) (ht : 0 < threshold)
    (h : List (κ × Op α)) (k : κ) (op : Op α) :
    query (run sort threshold ((k, op) :: h)) k = some op := by
  rw [query_iff (run_names hs ht _), run, set]
  exact List.mem_cons_self

/-- C53: after any history of updates, an operation that was last set to a state that is not done is found with
this state. -/
theorem C53_running (sort : Cache κ α → Cache κ α) (hs : Sorter sort) (threshold : Nat) (ht : 0 < threshold) :
    ∀ (h : List (κ × Op α)) (k : κ) (op : Op α), latest h k = some op → op.done = false →
      query (run sort threshold h) k = some op
  | [], k, op, hl, _ => nomatch hl
  | (k', op') :: t, k, op, hl, hd => by
    by_cases hk : k' = k
    · subst hk
      unfold latest at hl
      rw [List.find?_cons_of_pos (by simp)] at hl
      injection hl with hl
      have hl' : op' = op := hl
      subst hl'
      exact C53_set sort hs threshold ht t k' op'
    · unfold latest at hl
      rw [List.find?_cons_of_neg (by simpa using hk)] at hl
      have ih := C53_running sort hs threshold ht t k op hl hd
      rw [query_iff (run_names hs ht _)] at ih ⊢
      obtain ⟨r, h1, h2, _⟩ := collect_spec hs ht (run_names hs ht t)
      rw [run, set]
      refine List.mem_cons_of_mem _ (mem_drop.mpr ⟨(h1 _).mpr ⟨ih, fun hr => ?_⟩, fun e => hk e.symm⟩)
      have := (h2 _ hr).2
      rw [hd] at this
      exact nomatch this

/-- C53: whatever is found was the last state that was set. -/
theorem C53_sound (sort : Cache κ α → Cache κ α) (hs : Sorter sort) (threshold : Nat) (ht : 0 < threshold) :
    ∀ (h : List (κ × Op α)) (k : κ) (op : Op α), query (run sort threshold h) k = some op → latest h k = some op
  | [], k, op, hq => nomatch hq
  | (k', op') :: t, k, op, hq => by
    rw [query_iff (run_names hs ht _), run, set, List.mem_cons] at hq
    unfold latest
    by_cases hk : k' = k
    · subst hk
      rw [List.find?_cons_of_pos (by simp)]
      rcases hq with e | e
      · injection e with _ e
        rw [e]
        rfl
      · exact absurd rfl (mem_drop.mp e).2
    · rw [List.find?_cons_of_neg (by simpa using hk)]
      rcases hq with e | e
      · injection e with e _
        exact absurd e.symm hk
      · obtain ⟨r, h1, _⟩ := collect_spec hs ht (run_names hs ht t)
        have := ((h1 _).mp (mem_drop.mp e).1).1
        exact C53_sound sort hs threshold ht t k op ((query_iff (run_names hs ht _)).mpr this)

/-- C53: setting an operation removes at most `threshold` others; they are done and not newer than any other
that is done and kept; and this only happens if there are more than `2 * threshold` of them. -/
theorem C53_oldest (sort : Cache κ α → Cache κ α) (hs : Sorter sort) (threshold : Nat) (ht : 0 < threshold)
    (h : List (κ × Op α)) (k : κ) (op : Op α) :
    ∃ removed : List (κ × Op α), removed.length ≤ threshold ∧
      (removed ≠ [] → 2 * threshold < (run sort threshold h).length) ∧
      (∀ p ∈ removed, query (run sort threshold h) p.1 = some p.2 ∧ p.2.done = true) ∧
      (∀ k' op', k' ≠ k → (query (run sort threshold ((k, op) :: h)) k' = some op' ↔
        query (run sort threshold h) k' = some op' ∧ (k', op') ∉ removed)) ∧
      (∀ p ∈ removed, ∀ k' op', k' ≠ k → query (run sort threshold ((k, op) :: h)) k' = some op' →
        op'.done = true → p.2.time ≤ op'.time) := by
  have hn := run_names hs ht h
  obtain ⟨r, h1, h2, h3, h4, h5, h6, h7⟩ := collect_spec hs ht hn
  have hq : ∀ k' op', k' ≠ k → (query (run sort threshold ((k, op) :: h)) k' = some op' ↔
      (k', op') ∈ collect sort threshold (run sort threshold h)) := by
    intro k' op' hk
    rw [query_iff (run_names hs ht _), run, set, List.mem_cons, mem_drop]
    constructor
    · rintro (e | e)
      · injection e with e _
        exact absurd e hk
      · exact e.1
    · exact fun e => .inr ⟨e, hk⟩
  refine ⟨r, h4, fun hr => ?_, fun p hp => ⟨(query_iff hn).mpr (h2 p hp).1, (h2 p hp).2⟩, fun k' op' hk => ?_,
    fun p hp k' op' hk hq' hd => ?_⟩
  · by_contra hlen
    have hc : collect sort threshold (run sort threshold h) = run sort threshold h := by
      unfold collect
      rw [if_neg (by omega)]
    obtain ⟨p, hp⟩ := List.exists_mem_of_ne_nil _ hr
    have := (h1 p).mp (by rw [hc]; exact (h2 p hp).1)
    exact this.2 hp
  · rw [hq k' op' hk, h1, query_iff hn]
  · exact h6 p hp (k', op') ((hq k' op' hk).mp hq') hd

/-- C53 in part: exponents less than 32 give the documented threshold, which is positive.  Missing: other exponents
that are accepted. -/
theorem C53_threshold_partial (x : Nat) (h : x < 32) : ∃ t, threshold x = some t ∧ t = 2 ^ x ∧ 0 < t := by
  refine ⟨2 ^ x, ?_, rfl, Nat.pow_pos (by decide)⟩
  unfold threshold
  rw [if_pos h]

/-- C53 does not hold for all thresholds: exponents from 32 to 63 are accepted, but setting them is undefined behaviour. -/
theorem C53_violation_threshold (x : Nat) (h1 : 32 ≤ x) (h2 : x ≤ 63) : accepted x = true ∧ threshold x = none := by
  unfold accepted threshold
  rw [if_neg (by omega)]
  exact ⟨by simp; omega, rfl⟩

/-! ### Examples -/

example : ∃ t, threshold 14 = some t ∧ t = 2 ^ 14 ∧ 0 < t := C53_threshold_partial 14 (by decide)

example : accepted 40 = true ∧ threshold 40 = none := C53_violation_threshold 40 (by decide) (by decide)

/-- For examples: insertion sort. -/
def insertByTime (p : κ × Op α) : Cache κ α → Cache κ α
  | [] => [p]
  | q :: t => if p.2.time ≤ q.2.time then p :: q :: t else q :: insertByTime p t

def sortByTime : Cache κ α → Cache κ α
  | [] => []
  | p :: t => insertByTime p (sortByTime t)

omit [DecidableEq κ] in
theorem insertByTime_perm (p : κ × Op α) : ∀ l : Cache κ α, (insertByTime p l).Perm (p :: l)
  | [] => List.Perm.refl _
  | q :: t => by
    rw [insertByTime]
    by_cases h : p.2.time ≤ q.2.time
    · rw [if_pos h]
    · rw [if_neg h]
      exact ((insertByTime_perm p t).cons q).trans (List.Perm.swap p q t)

omit [DecidableEq κ] in
theorem insertByTime_sorted (p : κ × Op α) : ∀ l : Cache κ α, l.Pairwise (fun a b => a.2.time ≤ b.2.time) →
    (insertByTime p l).Pairwise (fun a b => a.2.time ≤ b.2.time)
  | [], _ => by simp [insertByTime]
  | q :: t, hl => by
    rw [List.pairwise_cons] at hl
    rw [insertByTime]
    by_cases h : p.2.time ≤ q.2.time
    · rw [if_pos h, List.pairwise_cons, List.pairwise_cons]
      refine ⟨fun a ha => ?_, hl.1, hl.2⟩
      rcases List.mem_cons.mp ha with rfl | ha
      · exact h
      · exact Int.le_trans h (hl.1 a ha)
    · rw [if_neg h, List.pairwise_cons]
      refine ⟨fun a ha => ?_, insertByTime_sorted p t hl.2⟩
      rcases List.mem_cons.mp ((insertByTime_perm p t).mem_iff.mp ha) with rfl | ha
      · omega
      · exact hl.1 a ha

omit [DecidableEq κ] in
theorem sortByTime_ok : Sorter (sortByTime (κ := κ) (α := α)) where
  perm := fun c => by
    induction c with
    | nil => exact List.Perm.refl _
    | cons p t ih => exact (insertByTime_perm p _).trans (ih.cons p)
  sorted := fun c => by
    induction c with
    | nil => exact List.Pairwise.nil
    | cons p t ih => exact insertByTime_sorted p _ ih

/-- For examples: three finished operations and one running, of which the latter is the oldest. -/
def exampleHistory : List (Nat × Op Unit) :=
  [(5, ⟨false, 9, ()⟩), (4, ⟨true, 8, ()⟩), (3, ⟨true, 7, ()⟩), (2, ⟨true, 6, ()⟩), (1, ⟨false, 1, ()⟩)]

/-- The running operation is kept; the oldest finished one is removed. -/
example : query (run sortByTime 1 exampleHistory) 1 = some ⟨false, 1, ()⟩ ∧
    query (run sortByTime 1 exampleHistory) 3 = none ∧ query (run sortByTime 1 exampleHistory) 4 = some ⟨true, 8, ()⟩ :=
  ⟨C53_running sortByTime sortByTime_ok 1 (by decide) exampleHistory 1 ⟨false, 1, ()⟩ (by decide) (by decide),
    by decide, by decide⟩

end Verif.Remote.OpCache
