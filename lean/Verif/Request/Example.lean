import Verif.Request.Props

/-!
# C116: examples, and violations
-/

namespace Verif.Request.Example

open Verif.Request

def act (i c : String) : Act Nat Nat :=
  ⟨i.toList, [c.toList], [], [("PATH".toList, "/bin".toList)], none, false, 1, [], ["out".toList], [], [("in".toList, 7)]⟩

def own : List (Act Nat Nat) := [act "ab01" "cc", act "cd02" "ld"]

def graph : List (Act Nat Nat) := act "12ef" "gen" :: own

theorem unique : ∀ a ∈ graph, ∀ b ∈ graph, a.id = b.id → a = b := by decide +kernel

example : choose graph own "%12ef".toList = .found (act "12ef" "gen") ∧ choose graph own "12ef".toList = .found (act "12ef" "gen") ∧
    choose graph own "#1".toList = .found (act "cd02" "ld") ∧ choose graph own "-2".toList = .found (act "ab01" "cc") ∧
    choose graph own "#-3".toList = .error ∧ choose graph own "2".toList = .error ∧ choose graph own "%1".toList = .error := by
  decide +kernel

/-- A number, an identifier, and an identifier not there meet the hypotheses. -/
example : WellFormed graph "#-1".toList ∧ WellFormed graph "12ef".toList ∧ WellFormed graph "%1".toList :=
  ⟨.inr (.inl ⟨-1, .inl (by decide), by decide, by decide⟩),
   .inr (.inr ⟨(fun r e => nomatch e), act "12ef" "gen", by decide +kernel, rfl⟩), .inl ⟨_, rfl⟩⟩

example : Means graph own "#-1".toList (act "cd02" "ld") :=
  (C116_chosen_partial unique (.inr (.inl ⟨-1, .inl (by decide), by decide, by decide⟩)) _).mp (by decide +kernel)

example : Numbered own (-1) (act "cd02" "ld") := ⟨[act "ab01" "cc"], [], rfl, .inr (by decide)⟩

/-- No action of number 2. -/
example : ∀ a, ¬ Means graph own "2".toList a :=
  (C116_refused_partial unique (.inr (.inl ⟨2, .inr (by decide), by decide, by decide⟩))).mp (by decide +kernel)

example : choose graph own "%cd02".toList = choose graph.reverse [] "%cd02".toList :=
  C116_order own [] (List.reverse_perm graph).symm unique _

/-- An action that has everything. -/
def full : Act Nat Nat :=
  ⟨"ff".toList, ["cc".toList], "work".toList, [], some "failed".toList, true, 3, [("os".toList, "x".toList)], [], ["d".toList], []⟩

example : (switch 1 full).provides.map (fun p => String.ofList p.1) =
    ["cmd", "env", "output", "output_dirs", "may_fail", "no_cache", "timeout scaling", "cwd", "execution properties"] ∧
    (switch 1 (act "ab01" "cc")).provides.map (fun p => String.ofList p.1) = ["cmd", "env", "output", "output_dirs"] := by decide +kernel

/-! ## Violations -/

theorem no_number {s : Str} {c : Char} (hc : c ∈ s) (h1 : c.isDigit = false) (h2 : c ≠ '-') (k : Int) : s ≠ number k := by
  rintro rfl
  unfold number at hc
  split at hc
  · rcases List.mem_cons.mp hc with h | h
    · exact h2 h
    · rw [decimal_isDigit _ c h] at h1
      cases h1
  · rw [decimal_isDigit _ c hc] at h1
    cases h1

/-- **C116, violation.** A request that is neither an identifier nor a number is taken for number 0, with and without a prefix. -/
theorem C116_violation_garbage : ∃ (graph own : List (Act Nat Nat)) (a : Act Nat Nat), ∀ req ∈ ["#last".toList, "ab".toList, "".toList],
    choose graph own req = .found a ∧ ∀ b, ¬ Means graph own req b := by
  refine ⟨graph, own, act "ab01" "cc", fun req hr => ⟨?_, ?_⟩⟩
  · revert req
    decide +kernel
  · have hi : ∀ req ∈ ["#last".toList, "ab".toList, "".toList], ∀ b ∈ graph, b.id ≠ req := by decide +kernel
    rintro b (⟨i, e, -⟩ | ⟨k, e, -⟩ | ⟨h, h' | ⟨-, k, e, -⟩⟩)
    · subst e
      simp at hr
    · subst e
      simp only [List.mem_cons, List.not_mem_nil, or_false] at hr
      rcases hr with hr | hr | hr
      · exact no_number (s := "last".toList) (c := 'l') (by decide) (by decide) (by decide) k (List.cons.inj hr).2.symm
      · exact absurd hr (by intro h; cases h)
      · exact absurd hr (by intro h; cases h)
    · exact hi req hr b h'.1 h'.2
    · simp only [List.mem_cons, List.not_mem_nil, or_false] at hr
      rcases hr with rfl | rfl | rfl
      · exact absurd rfl (h "last".toList).2
      · exact no_number (s := "ab".toList) (c := 'a') (by decide) (by decide) (by decide) k e
      · obtain ⟨c, r, e', -⟩ := number_first k
        rw [e'] at e
        cases e

/-- **C116, violation.** What follows a number is ignored: the identifier of an action that is not there is taken for the number it
starts with. -/
theorem C116_violation_rest : ∃ (graph own : List (Act Nat Nat)) (a : Act Nat Nat), choose graph own "1f40".toList = .found a ∧
    ∀ b, ¬ Means graph own "1f40".toList b := by
  refine ⟨graph, own, act "cd02" "ld", by decide +kernel, ?_⟩
  have hi : ∀ b ∈ graph, b.id ≠ "1f40".toList := by decide +kernel
  rintro b (⟨i, e, -⟩ | ⟨k, e, -⟩ | ⟨h, h' | ⟨-, k, e, -⟩⟩)
  · cases e
  · cases e
  · exact hi b h'.1 h'.2
  · exact no_number (c := 'f') (by decide) (by decide) (by decide) k e

/-- **C116, violation.** For numbers of more than 32 bits, the behaviour is undefined. -/
theorem C116_violation_large : ∃ (graph own : List (Act Nat Nat)), choose graph own ('#' :: number 4294967296) = .ub ∧
    ∀ b, ¬ Means graph own ('#' :: number 4294967296) b := by
  refine ⟨graph, own, ?_, ?_⟩
  · rw [choose, if_neg (by decide), if_pos rfl]
    unfold byNumber
    rw [atol_number, if_neg (by decide)]
  · rintro b (⟨i, e, -⟩ | ⟨k, e, b', t, h, hk⟩ | ⟨h, -⟩)
    · cases e
    · have hl : own.length = b'.length + (t.length + 1) := by rw [h]; simp
      have : own.length = 2 := rfl
      have := number_inj (List.cons.inj e).2
      omega
    · exact absurd rfl (h _).2

end Verif.Request.Example
