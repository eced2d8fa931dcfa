import Verif.JsonText.Pretty
import Verif.Util.Decimal

/-!
# Texts of JSON values shown to the user: examples and violation
-/

namespace Verif.JsonText.Example

open Json JsonText

/-- Natural numbers in decimal notation. -/
theorem decimal_text : NumText decimal where
  inj _ _ h := decimal_inj h
  chars n c h := by simp [isNum, decimal_isDigit n c h]
  first n := by
    obtain ⟨d, t, hd, e⟩ := decimal_head n
    refine ⟨digitChar d, t, e, ?_⟩
    have := decimal_isDigit n (digitChar d) (by rw [e]; simp)
    simp [this]

/-- The result of a target. -/
def result : Json Nat := obj [
  ("artifacts".toList, obj [("out".toList, obj [("size".toList, num 12)])]),
  ("provides".toList, obj [("deps".toList, arr [str "a, \"b\"\n".toList, arr []]),
    ("flags".toList, obj [("x".toList, arr [num 1, num 20])])]),
  ("runfiles".toList, obj [])]

/-- As shown after analysing (diagnose.cpp:337-341). -/
example : String.ofList (indentOnly decimal [("/provides".toList, 3)] 2 2 result) =
"{
  \"artifacts\": {
    \"out\": {\"size\":12}
  },
  \"provides\": {
    \"deps\": [
      \"a, \\\"b\\\"\\n\",
      []
    ],
    \"flags\": {
      \"x\": [1,20]
    }
  },
  \"runfiles\": {
  }
}" := by decide +kernel

example : String.ofList (indentLists decimal 2 1 (arr [result, arr []])) =
"[
  {
    \"artifacts\": {
      \"out\": {
        \"size\": 12
      }
    },
    \"provides\": {
      \"deps\": [\"a, \\\"b\\\"\\n\",[]],
      \"flags\": {
        \"x\": [1,20]
      }
    },
    \"runfiles\": {
    }
  },
  []
]" := by decide +kernel

/-- The hypotheses of C118_lists, C118_only, C118_distinct are met. -/
example : squeeze .out (indentOnly decimal [("/provides".toList, 3)] 2 2 result) =
    dump decimal compact 0 result :=
  C118_only decimal_text _ _ _ _

example : indentLists decimal 2 0 result ≠ indentLists decimal 4 1 (arr [result]) := fun h =>
  nomatch (C118_distinct decimal_text [] [] 2 4 0 1 _ _).1 h

/-- White space in strings is kept, the rest is removed. -/
example : squeeze .out "{ \"a b\\\" \":\n 1 }".toList = "{\"a b\\\" \":1}".toList := by decide +kernel

/-- Those of C118_own_depth as well. -/
example : (indentOnly decimal [("/provides".toList, 3)] 2 2 result).count '\n' = 15 :=
  (C118_own_depth decimal_text 2 2 3 "provides".toList (by decide) (by decide) _).trans
    (by decide +kernel)

/-- The hypotheses of C118_pretty are met. -/
example : String.ofList (indentLists decimal 2 3 (obj [("a".toList, arr [num 1, arr [num 2]]), ("b".toList, null)])) =
"{
  \"a\": [
    1,
    [
      2
    ]
  ],
  \"b\": null
}" := by
  rw [(C118_pretty (numText := decimal) 2 3
    (by simp [Open, OpenPairs, OpenPair, OpenElems])).2]
  decide +kernel

/-- An abbreviated value. -/
example : (abbreviate decimal 10 result 75).map String.ofList =
    some "{\"artifacts\":{\"out\":*},\"provides\":{\"deps\":*,\"flags\":*},\"runfiles\":{}}" := by
  decide +kernel

/-- The hypotheses of C118_limit_partial and C118_longest are met. -/
example {s : Str} (h : abbreviate decimal 10 result 75 = some s) :
    s.length ≤ 75 ∧ ∃ d, 1 ≤ d ∧ s = truncate decimal d result :=
  ⟨C118_limit_partial h (by decide +kernel), by
    obtain ⟨d, h1, h2, _⟩ := C118_longest decimal_text h (by decide +kernel)
    exact ⟨d, h1, h2⟩⟩

/-- Those of C118_short. -/
example : abbreviate decimal 0 result 1000 = some (dump decimal compact 0 result) :=
  C118_short (by decide +kernel)

/-- Replaced parts: the values of all keys at the second level. -/
example : String.ofList (truncate decimal 2 (arr [num 1, arr [num 2, obj []], obj [("k".toList, null)]])) =
    "[1,[*,*],{\"k\":*}]" := by decide +kernel

example : prune (obj [("a".toList, null), ("b".toList, (.bool false : Json Nat))]) =
    obj [("b".toList, .bool false)] := rfl

/-! ## V135: the limit is not observed -/

theorem escs_plain (n : Nat) : (List.replicate n 'a').flatMap esc = List.replicate n 'a' := by
  induction n with
  | zero => rfl
  | succ n ih => rw [List.replicate_succ, List.flatMap_cons, ih]; rfl

/-- V135: whatever the limit, there are values whose abbreviation is longer: a string is never shortened,
nor are the keys of an object, as the first level is always shown. -/
theorem C118_violation_long (len : Nat) : ∃ j : Json Nat, ∀ rounds, 1 ≤ rounds →
    ∃ s, abbreviate decimal rounds j len = some s ∧ len < s.length := by
  refine ⟨str (List.replicate len 'a'), fun rounds hr => ?_⟩
  have hl : (oneLine decimal (str (List.replicate len 'a'))).length = len + 2 := by
    unfold oneLine
    rw [dump, quote, escs_plain]
    simp
  have ht : truncate decimal 1 (str (List.replicate len 'a')) =
      oneLine decimal (str (List.replicate len 'a')) := by
    rw [truncate, if_neg (by decide)]
  obtain ⟨f, rfl⟩ : ∃ f, rounds = f + 1 := ⟨rounds - 1, by omega⟩
  refine ⟨oneLine decimal (str (List.replicate len 'a')), ?_, by omega⟩
  unfold abbreviate
  rw [if_neg (by omega), grow, ht, if_neg (by omega)]

end Verif.JsonText.Example
