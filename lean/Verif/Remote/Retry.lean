import Mathlib.Data.List.Basic
import Mathlib.Data.Nat.Find
import Mathlib.Data.List.Range

/-!
# Retrying remote calls: C52

Model of `src/buildtool/common/remote/retry_config.hpp` and `src/buildtool/common/remote/retry.cpp`.
-/

namespace Verif.Remote

/-- Number of values of `unsigned int` (32 bits on all supported platforms). -/
def word : Nat := 4294967296

/-- retry_config.hpp:71-73 (`RetryConfig`): the values are of type `unsigned int`, see `Config.OK`. -/
structure Config where
  initial : Nat
  max : Nat
  attempts : Nat
  deriving DecidableEq

/-- retry_config.hpp:109-146 (`Builder::Build`). -/
def build (initial max attempts : Option Nat) : Option Config :=
  if initial.any (fun x => x < 1) then none
  else if max.any (fun x => x < 1) then none
  else if attempts.any (fun x => x < 1) then none
  else some ⟨initial.getD 1, max.getD 60, attempts.getD 1⟩

/-- retry_config.hpp:52-58, the loop with `k` rounds left: `backoff <<= 1U` drops the highest bit. -/
def backoffLoop (max : Nat) : Nat → Nat → Nat
  | 0, b => b
  | k + 1, b =>
    if (2 * b) % word ≥ max then max
    else backoffLoop max k ((2 * b) % word)

/-- retry_config.hpp:47-58: the backoff of an attempt. -/
def backoff (c : Config) (attempt : Nat) : Nat := backoffLoop c.max (attempt - 1) c.initial

/-- retry_config.hpp:59: the sum is computed in 64 bits and returned as `unsigned int`. -/
def sleepTime (c : Config) (jitter attempt : Nat) : Nat := (backoff c attempt + jitter) % word

/-- What an attempt can end with: success, an error for which it is not useful to try again, another error,
an exception.  retry.cpp:34-43 for the first kind of functions.  For the second kind (retry.cpp:77-83), errors
other than `UNAVAILABLE` and `DEADLINE_EXCEEDED` are fatal. -/
inductive Resp
  | ok
  | fatal
  | error
  | throw
  deriving DecidableEq

/-- retry.cpp:77-83: status codes. -/
def ofStatus (code : Nat) : Resp := if code = 0 then .ok else if code ≠ 14 ∧ code ≠ 4 then .fatal else .error

/-- Outcome of `WithRetry`: the result, the number of calls, and how long was waited between them. -/
structure Result where
  ok : Bool
  calls : Nat
  sleeps : List Nat
  deriving DecidableEq

/-- retry.cpp:31-61 (and 75-111): the loop.  `f i` is what the `i`th call ends with, `j i` the jitter drawn
after it.  `calls` and `sleeps` are what happened so far, `attempt` is the loop counter, and `fuel` bounds
the number of rounds; `none` if they are not enough. -/
def loop (c : Config) (f : Nat → Resp) (j : Nat → Nat) : Nat → Nat → Nat → List Nat → Option Result
  | 0, _, _, _ => none
  | fuel + 1, attempt, calls, sleeps =>
    if attempt ≤ c.attempts then
      match f calls with
      | .ok => some ⟨true, calls + 1, sleeps⟩
      | .fatal => some ⟨false, calls + 1, sleeps⟩
      | .throw => some ⟨false, calls + 1, sleeps⟩
      | .error =>
        if attempt < c.attempts then
          loop c f j fuel ((attempt + 1) % word) (calls + 1) (sleeps ++ [sleepTime c (j calls) attempt])
        else loop c f j fuel ((attempt + 1) % word) (calls + 1) sleeps
    else some ⟨false, calls, sleeps⟩

/-- retry.cpp:25-116 (`WithRetry`). -/
def withRetry (c : Config) (f : Nat → Resp) (j : Nat → Nat) (fuel : Nat) : Option Result := loop c f j fuel 1 0 []

/-! ## Properties -/

/-- A configuration that can be built. -/
structure Config.OK (c : Config) : Prop where
  initial : 1 ≤ c.initial ∧ c.initial < word
  max : 1 ≤ c.max ∧ c.max < word
  attempts : 1 ≤ c.attempts ∧ c.attempts < word

/-- Configurations are built from positive numbers, and with default values for what is not given. -/
theorem C52_build (i m a : Option Nat) (c : Config) (hi : ∀ x ∈ i, x < word) (hm : ∀ x ∈ m, x < word)
    (ha : ∀ x ∈ a, x < word) : build i m a = some c ↔
      (∀ x ∈ i, x ≠ 0) ∧ (∀ x ∈ m, x ≠ 0) ∧ (∀ x ∈ a, x ≠ 0) ∧
      c = ⟨i.getD 1, m.getD 60, a.getD 1⟩ ∧ c.OK := by
  have key : ∀ (o : Option Nat), (o.any (fun x => decide (x < 1)) = true) ↔ ¬ ∀ x ∈ o, x ≠ 0 := by
    intro o
    cases o <;> simp
  have rng : ∀ (o : Option Nat) d, (∀ x ∈ o, x < word) → (∀ x ∈ o, x ≠ 0) → 1 ≤ d → d < word →
      1 ≤ o.getD d ∧ o.getD d < word := by
    intro o d h1 h2 h3 h4
    cases o with
    | none => exact ⟨h3, h4⟩
    | some x => exact ⟨Nat.one_le_iff_ne_zero.mpr (h2 x rfl), h1 x rfl⟩
  unfold build
  by_cases h1 : ∀ x ∈ i, x ≠ 0
  · by_cases h2 : ∀ x ∈ m, x ≠ 0
    · by_cases h3 : ∀ x ∈ a, x ≠ 0
      · rw [if_neg (by rw [key]; exact not_not.mpr h1), if_neg (by rw [key]; exact not_not.mpr h2),
          if_neg (by rw [key]; exact not_not.mpr h3)]
        constructor
        · intro h
          injection h with h
          exact ⟨h1, h2, h3, h.symm, by
            rw [← h]
            exact ⟨rng i 1 hi h1 (by decide) (by decide), rng m 60 hm h2 (by decide) (by decide),
              rng a 1 ha h3 (by decide) (by decide)⟩⟩
        · rintro ⟨_, _, _, h, _⟩
          rw [h]
      · rw [if_neg (by rw [key]; exact not_not.mpr h1), if_neg (by rw [key]; exact not_not.mpr h2),
          if_pos (by rw [key]; exact h3)]
        exact ⟨(fun h => nomatch h), fun h => absurd h.2.2.1 h3⟩
    · rw [if_neg (by rw [key]; exact not_not.mpr h1), if_pos (by rw [key]; exact h2)]
      exact ⟨(fun h => nomatch h), fun h => absurd h.2.1 h2⟩
  · rw [if_pos (by rw [key]; exact h1)]
    exact ⟨(fun h => nomatch h), fun h => absurd h.1 h1⟩

theorem backoffLoop_eq {max : Nat} (hm : max ≤ 2147483648) : ∀ (k b : Nat), b ≤ max → b < 2147483648 →
    1 ≤ b → backoffLoop max k b = min (b * 2 ^ k) max
  | 0, b, h1, _, _ => by
    rw [backoffLoop]
    simp only [Nat.pow_zero, Nat.mul_one]
    exact (Nat.min_eq_left h1).symm
  | k + 1, b, h1, h2, h3 => by
    have hlt : 2 * b % word = 2 * b := Nat.mod_eq_of_lt (by unfold word; omega)
    rw [backoffLoop, hlt]
    by_cases h : 2 * b ≥ max
    · rw [if_pos h]
      refine (Nat.min_eq_right ?_).symm
      calc max ≤ 2 * b := h
        _ = b * 2 ^ 1 := by omega
        _ ≤ b * 2 ^ (k + 1) := Nat.mul_le_mul_left _ (Nat.pow_le_pow_right (by decide) (by omega))
    · rw [if_neg h, backoffLoop_eq hm k (2 * b) (by omega) (by omega) (by omega)]
      congr 1
      rw [Nat.pow_succ, Nat.mul_comm 2 b, Nat.mul_assoc, Nat.mul_comm 2]

/-- C52 in part: the backoff starts with the initial one, doubles with each attempt, and is limited by the
maximal one.  Missing: initial values larger than the maximum, and values of more than 31 bits, see the
violations below. -/
theorem C52_backoff_partial (c : Config) (hc : c.OK) (hle : c.initial ≤ c.max) (h1 : c.initial < 2147483648)
    (h2 : c.max ≤ 2147483648) (attempt : Nat) :
    backoff c attempt = min (c.initial * 2 ^ (attempt - 1)) c.max :=
  backoffLoop_eq h2 _ _ hle h1 hc.initial.1

/-- C52 in part: if values have at most 30 bits, then the time to wait is at least the backoff and at most four
times the maximal backoff, whatever jitter is drawn.  Missing: as before. -/
theorem C52_sleep_partial (c : Config) (hc : c.OK) (hle : c.initial ≤ c.max) (hmax : c.max < 1073741824)
    (attempt jitter : Nat) (hj : jitter ≤ 3 * backoff c attempt) :
    sleepTime c jitter attempt = min (c.initial * 2 ^ (attempt - 1)) c.max + jitter ∧
      sleepTime c jitter attempt ≤ 4 * c.max := by
  have hb := C52_backoff_partial c hc hle (by omega) (by omega) attempt
  have hle2 : backoff c attempt ≤ c.max := by
    rw [hb]
    exact Nat.min_le_right _ _
  unfold sleepTime
  rw [Nat.mod_eq_of_lt (by unfold word; omega), ← hb]
  exact ⟨rfl, by omega⟩

/-- C52 does not hold for the first attempt: its backoff is not limited by the maximum. -/
theorem C52_violation_first : ∃ c : Config, c.OK ∧ build (some 3600) (some 60) (some 5) = some c ∧
    c.max < backoff c 1 ∧ backoff c 2 < backoff c 1 :=
  ⟨⟨3600, 60, 5⟩, ⟨by decide, by decide, by decide⟩, by decide, by decide, by decide⟩

/-- C52 does not hold for large limits: the backoff drops to zero by overflow. -/
theorem C52_violation_overflow : ∃ c : Config, c.OK ∧ c.initial ≤ c.max ∧ backoff c 32 = 2147483648 ∧
    backoff c 33 = 0 :=
  ⟨⟨1, 4294967295, 40⟩, ⟨by decide, by decide, by decide⟩, by decide, by decide +kernel, by decide +kernel⟩

/-- C52 does not hold for large limits: the time to wait can be less than the backoff, by overflow. -/
theorem C52_violation_jitter : ∃ (c : Config) (j : Nat), c.OK ∧ j ≤ 3 * backoff c 1 ∧ backoff c 1 = 1500000000 ∧
    sleepTime c j 1 < 2 :=
  ⟨⟨1500000000, 2000000000, 2⟩, 2794967297, ⟨by decide, by decide, by decide⟩, by decide, by decide, by decide⟩

/-- What is waited if the first `k` calls fail: after the `i`th call the time for attempt `i`. -/
def expectedSleeps (c : Config) (j : Nat → Nat) (k : Nat) : List Nat :=
  (List.range k).map (fun i => sleepTime c (j i) (i + 1))

theorem expectedSleeps_succ (c : Config) (j : Nat → Nat) (k : Nat) :
    expectedSleeps c j (k + 1) = expectedSleeps c j k ++ [sleepTime c (j k) (k + 1)] := by
  unfold expectedSleeps
  rw [List.range_succ, List.map_append]
  rfl

/-- The loop, stopped by the response `f k` at the `k`th call. -/
theorem loop_stop {c : Config} {f : Nat → Resp} {j : Nat → Nat} (ha : c.attempts + 1 < word) {k : Nat}
    (hk : k < c.attempts) (hf : f k ≠ .error) : ∀ (d i fuel : Nat), i + d = k → (∀ x, i ≤ x → x < k → f x = .error) →
      d < fuel → loop c f j fuel (i + 1) i (expectedSleeps c j i) =
        some ⟨decide (f k = .ok), k + 1, expectedSleeps c j k⟩
  | 0, i, fuel + 1, hi, he, _ => by
    have : i = k := by omega
    subst this
    rw [loop, if_pos (by omega)]
    cases h : f i with
    | ok => rfl
    | fatal => rfl
    | throw => rfl
    | error => exact absurd h hf
  | d + 1, i, fuel + 1, hi, he, hfuel => by
    rw [loop, if_pos (by omega), he i (by omega) (by omega)]
    simp only
    rw [if_pos (by omega), Nat.mod_eq_of_lt (by omega), ← expectedSleeps_succ]
    exact loop_stop ha hk hf d (i + 1) fuel (by omega) (fun x h1 h2 => he x (by omega) h2) (by omega)

theorem loop_all {c : Config} {f : Nat → Resp} {j : Nat → Nat} (ha : c.attempts + 1 < word)
    (hf : ∀ x < c.attempts, f x = .error) : ∀ (d i fuel : Nat), i + d + 1 = c.attempts → d + 2 ≤ fuel →
      loop c f j fuel (i + 1) i (expectedSleeps c j i) =
        some ⟨false, c.attempts, expectedSleeps c j (c.attempts - 1)⟩
  | 0, i, fuel + 2, hi, _ => by
    have e : c.attempts - 1 = i := by omega
    have e2 : i + 1 = c.attempts := by omega
    rw [loop, if_pos (by omega), hf i (by omega)]
    simp only
    rw [if_neg (by omega), Nat.mod_eq_of_lt (by omega), loop, if_neg (by omega), e, e2]
  | d + 1, i, fuel + 1, hi, hfuel => by
    rw [loop, if_pos (by omega), hf i (by omega)]
    simp only
    rw [if_pos (by omega), Nat.mod_eq_of_lt (by omega), ← expectedSleeps_succ]
    exact loop_all ha hf d (i + 1) fuel (by omega) (by omega)

/-- C52 in part: if the `k`th call is the first one that does not fail with an error worth retrying, then it is the last
call, its outcome is the result, and before it was waited `k` times.  Missing: the largest possible number of attempts,
see `C52_violation_attempts`. -/
theorem C52_stops_partial (c : Config) (ha : c.attempts + 1 < word) (f : Nat → Resp) (j : Nat → Nat)
    (k : Nat) (hk : k < c.attempts) (hf : f k ≠ .error) (he : ∀ x < k, f x = .error) (fuel : Nat) (hfuel : k < fuel) :
    withRetry c f j fuel = some ⟨decide (f k = .ok), k + 1, expectedSleeps c j k⟩ :=
  loop_stop ha hk hf k 0 fuel (by omega) (fun x _ h => he x h) hfuel

/-- C52 in part: if all calls fail with an error worth retrying, then there are as many as configured, with waiting only
between them.  Missing: as before. -/
theorem C52_gives_up_partial (c : Config) (h1 : 1 ≤ c.attempts) (ha : c.attempts + 1 < word) (f : Nat → Resp)
    (j : Nat → Nat) (he : ∀ x < c.attempts, f x = .error) (fuel : Nat) (hfuel : c.attempts < fuel) :
    withRetry c f j fuel = some ⟨false, c.attempts, expectedSleeps c j (c.attempts - 1)⟩ :=
  loop_all ha he (c.attempts - 1) 0 fuel (by omega) (by omega)

theorem loop_more {c : Config} {f : Nat → Resp} {j : Nat → Nat} (ha : c.attempts + 1 = word)
    (hf : ∀ x, f x = .error) : ∀ (fuel a n : Nat) (s : List Nat), a < word → loop c f j fuel a n s = none
  | 0, _, _, _, _ => rfl
  | fuel + 1, a, n, s, h => by
    rw [loop, if_pos (by omega), hf n]
    simp only
    have hlt : (a + 1) % word < word := Nat.mod_lt _ (by decide)
    by_cases hx : a < c.attempts
    · rw [if_pos hx]
      exact loop_more ha hf fuel _ _ _ hlt
    · rw [if_neg hx]
      exact loop_more ha hf fuel _ _ _ hlt

/-- C52 does not hold for the largest possible number of attempts: the loop never ends. -/
theorem C52_violation_attempts : ∃ c : Config, c.OK ∧
    ∀ (j : Nat → Nat) (fuel : Nat), withRetry c (fun _ => .error) j fuel = none :=
  ⟨⟨1, 60, 4294967295⟩, ⟨by decide, by decide, by decide⟩, fun _ fuel =>
    loop_more rfl (fun _ => rfl) fuel 1 0 [] (by decide)⟩

/-! ### Examples -/

example : backoff ⟨1, 60, 10⟩ 3 = 4 ∧ backoff ⟨1, 60, 10⟩ 9 = 60 := by
  rw [C52_backoff_partial ⟨1, 60, 10⟩ ⟨by decide, by decide, by decide⟩ (by decide) (by decide) (by decide) 3,
    C52_backoff_partial ⟨1, 60, 10⟩ ⟨by decide, by decide, by decide⟩ (by decide) (by decide) (by decide) 9]
  decide

example : withRetry ⟨1, 60, 10⟩ (fun i => if i < 2 then .error else .ok) (fun _ => 1) 100 =
    some ⟨true, 3, [2, 3]⟩ :=
  C52_stops_partial ⟨1, 60, 10⟩ (by decide) _ _ 2 (by decide) (by decide) (by decide) 100 (by decide)

example : withRetry ⟨1, 60, 3⟩ (fun _ => ofStatus 14) (fun _ => 0) 100 = some ⟨false, 3, [1, 2]⟩ :=
  C52_gives_up_partial ⟨1, 60, 3⟩ (by decide) (by decide) _ _ (fun _ _ => rfl) 100 (by decide)

end Verif.Remote
