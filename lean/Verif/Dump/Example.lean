import Verif.Dump.Props

/-!
# C117: examples
-/

namespace Verif.Dump.Example

open Verif.Expr Verif.Dump

/-- A node for a file. -/
def file (a : Nat) : Val Nat Nat := .valueNode (.result (.map [("f".toList, .art a)]) (.map []) (.map []))

/-- A library with files and other nodes. -/
def lib (t : String) (deps : List (Val Nat Nat)) : Val Nat Nat := .absNode t.toList (.map []) (.map [("deps".toList, .list deps)])

/-- A node used twice, below another node and directly. -/
def base : Val Nat Nat := lib "base" [file 1]

def top : Val Nat Nat := lib "top" [base, file 2]

/-- A node in what the result of a value node provides. -/
def deep : Val Nat Nat := .valueNode (.result (.map []) (.map [("inner".toList, base)]) (.map []))

def provides : Val Nat Nat := .map [("nodes".toList, .list [top, base, deep]), ("x".toList, .num 3)]

/-- An identifier: the type, and the number of artifacts. -/
def ident : Val Nat Nat → Str
  | .absNode t _ _ => t
  | .valueNode (.result (.map [(_, .art a)]) _ _) => 'f' :: List.replicate a 'x'
  | .valueNode _ => "value".toList
  | .map l => "map".toList ++ List.replicate l.length 'x'
  | _ => []

example : (dumpNodes ident provides).map (fun p => String.ofList p.1) = ["value", "fxx", "fx", "base", "top"] := by decide +kernel

/-- Everything that is needed. -/
theorem needed {n : Val Nat Nat} (h : Needs provides n) : n ∈ [top, base, deep, file 1, file 2] := by
  induction h with
  | mentioned h =>
    cases h with
    | here h => cases h
    | item h h' =>
      rcases List.mem_cons.mp h with e | h
      · cases e
        cases h' with
        | here h => cases h
        | list h h' =>
          simp only [List.mem_cons, List.not_mem_nil, or_false] at h
          rcases h with rfl | rfl | rfl <;> cases h' <;> simp [top, base, deep, lib]
      · cases List.mem_singleton.mp h
        cases h' with
        | here h => cases h
  | used _ hu ih =>
    have hf : ∀ {a n}, ¬ Uses (file a) n := by
      intro a n h
      cases h with
      | value h => cases h with
        | here h => cases h
        | provides h => cases h with
          | here h => cases h
          | item h _ => cases h
    have hl : ∀ {t deps n}, (∀ d ∈ deps, IsNode d) → Uses (lib t deps) n → n ∈ deps := by
      intro t deps n hd h
      cases h with
      | abstract h => cases h with
        | here h => cases h
        | item h h' =>
          cases List.mem_singleton.mp h
          cases h' with
          | here h => cases h
          | list h h' => rw [mentions_node (hd _ h) h']; exact h
    simp only [List.mem_cons, List.not_mem_nil, or_false] at ih
    rcases ih with rfl | rfl | rfl | rfl | rfl
    · have := hl (by
        intro d hd
        simp only [List.mem_cons, List.not_mem_nil, or_false] at hd
        rcases hd with rfl | rfl
        · exact .abstract _ _ _
        · exact .value _) hu
      simp only [List.mem_cons, List.not_mem_nil, or_false] at this ⊢
      rcases this with h | h <;> simp [h]
    · have := hl (by
        intro d hd
        rw [List.mem_singleton.mp hd]
        exact .value _) hu
      rw [List.mem_singleton.mp this]
      simp
    · cases hu with
      | value h => cases h with
        | here h => cases h
        | provides h => cases h with
          | here h => cases h
          | item h h' =>
            cases List.mem_singleton.mp h
            rw [mentions_node (.abstract _ _ _) h']
            simp [base, lib]
    · exact absurd hu hf
    · exact absurd hu hf

/-- The identifiers are different. -/
theorem different : ∀ n n', Needs provides n → Needs provides n' → ident n = ident n' → n = n' := by
  intro n n' h h'
  have h1 := needed h
  have h2 := needed h'
  simp only [List.mem_cons, List.not_mem_nil, or_false] at h1 h2
  rcases h1 with rfl | rfl | rfl | rfl | rfl <;> rcases h2 with rfl | rfl | rfl | rfl | rfl <;>
    first | exact fun _ => rfl | exact fun e => absurd e (by decide +kernel)

/-- The node that is in the result of another one, and below a node, is needed, and in the dump. -/
example : ("fx".toList, file 1) ∈ dumpNodes ident provides := by
  refine (C117_nodes different _ _).mpr ⟨by decide +kernel, ?_⟩
  have hb : Needs provides base := .mentioned (.item List.mem_cons_self (.list (List.mem_cons_of_mem _ List.mem_cons_self) (.here (.abstract _ _ _))))
  exact .used hb (.abstract (.item List.mem_cons_self (.list List.mem_cons_self (.here (.value _)))))

/-- Two anonymous targets with the same rule map. -/
def targets : List (Anonymous Nat Nat) := [⟨.map [("lib".toList, .str "rule".toList)], top⟩,
  ⟨.map [("lib".toList, .str "rule".toList)], base⟩]

example : ((dumpAnonymous ident targets).1.map fun p => String.ofList p.1) = ["mapx"] ∧
    ((dumpAnonymous ident targets).2.map fun p => String.ofList p.1) = ["fxx", "fx", "base", "top"] := by decide +kernel

/-- The hypotheses of C117_anonymous are met. -/
example (i : Str) (v : Val Nat Nat) : (i, v) ∈ (dumpAnonymous ident targets).2 ↔ i = ident v ∧ ∃ t ∈ targets, Needs t.node v := by
  have sub : ∀ t ∈ targets, ∀ n, Needs t.node n → Needs provides n := by
    intro t ht n hn
    simp only [targets, List.mem_cons, List.not_mem_nil, or_false] at ht
    rcases ht with rfl | rfl
    · exact needs_sub (fun n hn => .mentioned (.item List.mem_cons_self (.list List.mem_cons_self hn))) hn
    · exact needs_sub (fun n hn => .mentioned (.item List.mem_cons_self (.list (List.mem_cons_of_mem _ List.mem_cons_self) hn))) hn
  refine (C117_anonymous ?_ ?_ i v).2
  · intro t ht t' ht' _
    simp only [targets, List.mem_cons, List.not_mem_nil, or_false] at ht ht'
    rcases ht with rfl | rfl <;> rcases ht' with rfl | rfl <;> rfl
  · exact fun t ht t' ht' n n' h h' => different n n' (sub t ht n h) (sub t' ht' n' h')

end Verif.Dump.Example
