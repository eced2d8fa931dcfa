import Verif.Expr.HashProps

/-!
# Equality of nodes: C66

Source: `src/buildtool/build_engine/expression/target_node.hpp`, `expression.hpp`, `expression_ptr.cpp`.
-/

namespace Verif.Expr

open Verif.Dig

variable {N : Type} (h : Hashing N)

/-- expression.hpp:195-198, expression_ptr.cpp:56-58: values are compared by their hashes.  Simplification:
values at the same address also have the same hash. -/
def sameHash (v w : Value N) : Bool := hash h v == hash h w

/-- target_node.hpp:63-83 (`operator==`); for values that are no nodes there is no such comparison, here it
is `false`. -/
def nodeEq : Value N → Value N → Bool
  | .valueNode v, .valueNode w => sameHash h v w
  | .absNode ty s t, .absNode ty' s' _ => ty == ty' && sameHash h s s' && sameHash h t s'
  | _, _ => false

/-- C66 in part: equality of value nodes is equality of what they hold, and a value node never equals an
abstract node.  Missing: abstract nodes, see `C66_violation`. -/
theorem C66_value_partial (ho : h.OK) (t : HashType) (v w : Value N) (hv : Identified t v)
    (hw : Identified t w) (hn : NoCollision h.H (hashed h v ++ hashed h w)) :
    (nodeEq h (.valueNode v) (.valueNode w) = true ↔ v = w) ∧
    ∀ ty s f, nodeEq h (.valueNode v) (.absNode ty s f) = false ∧
      nodeEq h (.absNode ty s f) (.valueNode v) = false := by
  refine ⟨⟨fun e => ?_, fun e => ?_⟩, fun ty s f => ⟨rfl, rfl⟩⟩
  · exact hash_inj h ho _ v w (Nat.le_refl _) hv hw hn (eq_of_beq e)
  · subst e
    exact beq_self_eq_true _

/-- C66 in part: abstract nodes found equal have the same type and the same string fields.  Missing: the target
fields, see `C66_violation`. -/
theorem C66_abstract_partial (ho : h.OK) (t : HashType) (ty ty' : Str) (s s' f f' : Value N)
    (hs : Identified t s) (hs' : Identified t s') (hn : NoCollision h.H (hashed h s ++ hashed h s'))
    (e : nodeEq h (.absNode ty s f) (.absNode ty' s' f') = true) : ty = ty' ∧ s = s' := by
  simp only [nodeEq, Bool.and_eq_true] at e
  exact ⟨eq_of_beq e.1.1, hash_inj h ho _ s s' (Nat.le_refl _) hs hs' hn (eq_of_beq e.1.2)⟩

/-- C66 does not hold: an abstract node is not equal to a node with the same type and fields, and it is
equal to a node with other target fields.  This is so for every hash function without a collision on two
short strings. -/
theorem C66_violation :
    (∃ n : Value N, h.H (preimage h (.map [])) ≠ h.H (preimage h (.map [(['x'], .list [])])) →
      nodeEq h n n = false) ∧
    ∃ n n' : Value N, n ≠ n' ∧ nodeEq h n n' = true := by
  refine ⟨⟨.absNode ['t'] (.map []) (.map [(['x'], .list [])]), fun hne => ?_⟩,
    .absNode ['t'] (.map []) (.map []), .absNode ['t'] (.map []) (.map [(['x'], .list [])]), ?_, ?_⟩
  · have : sameHash h (.map [(['x'], .list [])]) (.map [] : Value N) = false := by
      cases hs : sameHash h (.map [(['x'], .list [])]) (.map [] : Value N) with
      | false => rfl
      | true => exact absurd (eq_of_beq hs).symm hne
    simp only [nodeEq, this, Bool.and_false]
  · intro e
    injection e with _ _ e
    injection e with e
    exact nomatch e
  · simp only [nodeEq, sameHash, beq_self_eq_true, Bool.and_self]

example : demoHashing.H (preimage demoHashing (.map [] : Value Empty)) ≠
    demoHashing.H (preimage demoHashing (.map [(['x'], .list [])])) := by decide

example : nodeEq demoHashing (.valueNode (.str ['a'])) (.valueNode (.bool true)) = false := by
  cases e : nodeEq demoHashing (.valueNode (.str ['a'])) (.valueNode (.bool true)) with
  | false => rfl
  | true =>
    have := (C66_value_partial demoHashing demoHashing_ok .gitSHA1 (.str ['a']) (.bool true)
      (.atom rfl rfl (.str _)) (.atom rfl rfl (.bool _)) (by unfold NoCollision; decide)).1.mp e
    cases this

example : nodeEq demoHashing (.absNode ['a'] (.map []) (.map [])) (.absNode ['b'] (.map []) (.map [])) = false := by
  cases e : nodeEq demoHashing (.absNode ['a'] (.map []) (.map [])) (.absNode ['b'] (.map []) (.map [])) with
  | false => rfl
  | true =>
    have := (C66_abstract_partial demoHashing demoHashing_ok .gitSHA1 ['a'] ['b'] (.map []) (.map []) (.map [])
      (.map []) (.map (by simp)) (.map (by simp)) (by unfold NoCollision; decide) e).1
    exact absurd this (by decide)

end Verif.Expr
