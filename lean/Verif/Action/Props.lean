import Verif.Action.Model
import Verif.Result.Props

/-!
# Identifiers of actions, trees and overlays: C47; their JSON: C65
-/

namespace Verif.Action

open Verif.Art Verif.Dig Verif.Expr
open Verif.Result (J Casts Out at? mapArt)

variable {N : Type} (h : Hashing N)

/-- Artifacts without the repository they were found in. -/
def forgetInputs (l : List (Str × Desc)) : List (Str × Desc) := l.map fun kd => (kd.1, kd.2.forget)

/-- The action, ignoring in which repositories known inputs were found. -/
def Act.forget (a : Act N) : Act N := { a with inputs := forgetInputs a.inputs }

/-- All strings that are hashed when computing the identifier of an action. -/
def hashedAct (hexFloat : N → Str) (a : Act N) : List Str :=
  a.text h hexFloat :: vector h a.files :: vector h a.dirs :: vector h a.command :: vector h [a.cwd] ::
    vector h a.mayFail.toList :: a.cwd :: (a.mayFail.toList ++ a.files ++ a.dirs ++ a.command ++
    hashed h (strMap a.env) ++ hashed h (strMap a.props) ++ hashed h (artMap a.inputs))

/-- Notation of numbers in actions. -/
structure HexFloat (hexFloat : N → Str) : Prop where
  inj : ∀ a b, hexFloat a = hexFloat b → a = b
  width : ∀ a, (hexFloat a).length = 24

theorem vector_inj (ho : h.OK) : ∀ {l r : List Str}, NoCollision h.H (l ++ r) →
    vector h l = vector h r → l = r
  | [], [], _, _ => rfl
  | [], b :: r, _, e => by
    obtain ⟨n, hn, hl⟩ := ho.length
    have := congrArg List.length e
    simp only [vector, List.flatMap_nil, List.flatMap_cons, List.length_nil, List.length_append, hl] at this
    omega
  | a :: l, [], _, e => by
    obtain ⟨n, hn, hl⟩ := ho.length
    have := congrArg List.length e
    simp only [vector, List.flatMap_nil, List.flatMap_cons, List.length_nil, List.length_append, hl] at this
    omega
  | a :: l, b :: r, hn, e => by
    obtain ⟨n, hp, hl⟩ := ho.length
    simp only [vector, List.flatMap_cons] at e
    obtain ⟨e1, e2⟩ := List.append_inj e (by rw [hl, hl])
    rw [hn a (by simp) b (by simp) e1, vector_inj ho
      (hn.mono (fun s hs => by
        simp only [List.mem_append, List.mem_cons] at hs ⊢
        tauto)) e2]

theorem strMap_identified (t : HashType) (m : List (Str × Str)) : Identified t (strMap m : Value N) :=
  .map (fun kv hkv => by
    obtain ⟨x, _, rfl⟩ := List.mem_map.mp hkv
    exact .atom rfl rfl (.str _))

theorem strMap_inj {m m' : List (Str × Str)} (e : (strMap m : Value N) = strMap m') : m = m' := by
  injection e with e
  exact (List.map_injective_iff.mpr (fun a b hab => by
    obtain ⟨a1, a2⟩ := a
    obtain ⟨b1, b2⟩ := b
    injection hab with h1 h2
    injection h2 with h2
    rw [show a1 = b1 from h1, show a2 = b2 from h2])) e

theorem artMap_identified (t : HashType) (m : List (Str × Desc)) (hv : ∀ kd ∈ m, kd.2.Valid t) :
    Identified t (artMap (forgetInputs m) : Value N) :=
  .map (fun kv hkv => by
    obtain ⟨x, hx, rfl⟩ := List.mem_map.mp hkv
    obtain ⟨y, hy, rfl⟩ := List.mem_map.mp hx
    exact .atom rfl rfl (.art (Result.valid_forget (hv y hy)) (by cases y.2 <;> rfl)))

theorem artMap_inj {m m' : List (Str × Desc)} (e : (artMap m : Value N) = artMap m') : m = m' := by
  injection e with e
  exact (List.map_injective_iff.mpr (fun a b hab => by
    obtain ⟨a1, a2⟩ := a
    obtain ⟨b1, b2⟩ := b
    injection hab with h1 h2
    injection h2 with h2
    rw [show a1 = b1 from h1, show a2 = b2 from h2])) e

theorem artMap_forget (m : List (Str × Desc)) :
    (artMap (forgetInputs m) : Value N) = mapArt Desc.forget (artMap m) := by
  simp only [artMap, mapArt, forgetInputs, Result.mapArtItems_eq, List.map_map]
  rfl

theorem text_forget (hexFloat : N → Str) (a : Act N) : a.forget.text h hexFloat = a.text h hexFloat := by
  have : Expr.hash h (artMap a.forget.inputs) = Expr.hash h (artMap a.inputs) := by
    unfold Act.forget
    simp only [artMap_forget, Expr.hash, Result.preimage_forget]
  unfold Act.text
  rw [this]
  rfl

/-- C47: two actions with the same identifier are the same, except for the repository in which known inputs
were found, if the hash function has no collision among the strings hashed for them. -/
theorem C47_action (ho : h.OK) {hexFloat : N → Str} (hf : HexFloat hexFloat) (t : HashType) (a b : Act N)
    (ha : ∀ kd ∈ a.inputs, kd.2.Valid t) (hb : ∀ kd ∈ b.inputs, kd.2.Valid t)
    (hn : NoCollision h.H (hashedAct h hexFloat a.forget ++ hashedAct h hexFloat b.forget))
    (e : a.id h hexFloat = b.id h hexFloat) : a.forget = b.forget := by
  obtain ⟨n, hp, hl⟩ := ho.length
  have e0 : a.text h hexFloat = b.text h hexFloat := by
    have := hexString_inj (ho.bytes _) (ho.bytes _) e
    rw [← text_forget, ← text_forget h hexFloat b] at this ⊢
    exact hn _ (by simp [hashedAct]) _ (by simp [hashedAct]) this
  rw [← text_forget, ← text_forget h hexFloat b] at e0
  have hexp : ∀ v : Value N, (Expr.hash h v).length = n := fun v => hl _
  have hid : Identified t (artMap a.forget.inputs : Value N) := artMap_identified t _ ha
  have hid' : Identified t (artMap b.forget.inputs : Value N) := artMap_identified t _ hb
  generalize a.forget = a at *
  generalize b.forget = b at *
  unfold Act.text at e0
  obtain ⟨_, e0⟩ := List.append_inj e0 rfl
  obtain ⟨e1, e0⟩ := List.append_inj e0 (by rw [hl, hl])
  obtain ⟨e2, e0⟩ := List.append_inj e0 (by rw [hl, hl])
  obtain ⟨e3, e0⟩ := List.append_inj e0 (by rw [hl, hl])
  obtain ⟨e4, e0⟩ := List.append_inj e0 (by rw [hl, hl])
  obtain ⟨e5, e0⟩ := List.append_inj e0 (by rw [hexp, hexp])
  obtain ⟨e6, e0⟩ := List.append_inj e0 (by rw [hl, hl])
  obtain ⟨e7, e0⟩ := List.append_inj e0 (by split <;> split <;> rfl)
  obtain ⟨e8, e0⟩ := List.append_inj e0 (by rw [hf.width, hf.width])
  obtain ⟨e9, e10⟩ := List.append_inj e0 (by rw [hexp, hexp])
  have sub : ∀ {s : List Str}, (∀ x ∈ s, x ∈ hashedAct h hexFloat a ∨ x ∈ hashedAct h hexFloat b) →
      NoCollision h.H s := fun hs => hn.mono (fun x hx => List.mem_append.mpr (hs x hx))
  have vec : ∀ {l r : List Str}, vector h l ∈ hashedAct h hexFloat a → vector h r ∈ hashedAct h hexFloat b →
      (∀ s ∈ l, s ∈ hashedAct h hexFloat a) → (∀ s ∈ r, s ∈ hashedAct h hexFloat b) →
      h.H (vector h l) = h.H (vector h r) → l = r := fun h1 h2 h3 h4 he =>
    vector_inj h ho (sub (fun x hx => (List.mem_append.mp hx).imp (h3 x) (h4 x)))
      (hn _ (List.mem_append.mpr (.inl h1)) _ (List.mem_append.mpr (.inr h2)) he)
  have val : ∀ {v w : Value N}, Identified t v → Identified t w →
      (∀ s ∈ hashed h v, s ∈ hashedAct h hexFloat a) → (∀ s ∈ hashed h w, s ∈ hashedAct h hexFloat b) →
      Expr.hash h v = Expr.hash h w → v = w := fun h1 h2 h3 h4 he =>
    hash_inj h ho _ _ _ (Nat.le_refl _) h1 h2
      (sub (fun x hx => (List.mem_append.mp hx).imp (h3 x) (h4 x))) he
  have f1 : a.files = b.files := vec (by simp [hashedAct]) (by simp [hashedAct])
    (fun s hs => by simp [hashedAct, hs]) (fun s hs => by simp [hashedAct, hs]) e1
  have f2 : a.dirs = b.dirs := vec (by simp [hashedAct]) (by simp [hashedAct])
    (fun s hs => by simp [hashedAct, hs]) (fun s hs => by simp [hashedAct, hs]) e2
  have f3 : a.command = b.command := vec (by simp [hashedAct]) (by simp [hashedAct])
    (fun s hs => by simp [hashedAct, hs]) (fun s hs => by simp [hashedAct, hs]) e3
  have f4 : [a.cwd] = [b.cwd] := vec (by simp [hashedAct]) (by simp [hashedAct])
    (fun s hs => by simp [hashedAct, List.mem_singleton.mp hs])
    (fun s hs => by simp [hashedAct, List.mem_singleton.mp hs]) e4
  have f5 : a.env = b.env := strMap_inj (N := N) (val (strMap_identified t _) (strMap_identified t _)
    (fun s hs => by simp [hashedAct, hs]) (fun s hs => by simp [hashedAct, hs]) e5)
  have f6 : a.mayFail.toList = b.mayFail.toList := vec (by simp [hashedAct]) (by simp [hashedAct])
    (fun s hs => by simp only [hashedAct, List.mem_cons, List.mem_append]; tauto)
    (fun s hs => by simp only [hashedAct, List.mem_cons, List.mem_append]; tauto) e6
  have f7 : a.noCache = b.noCache := by
    revert e7
    cases a.noCache <;> cases b.noCache <;> simp
  have f8 := hf.inj _ _ e8
  have f9 : a.props = b.props := strMap_inj (N := N) (val (strMap_identified t _) (strMap_identified t _)
    (fun s hs => by simp [hashedAct, hs]) (fun s hs => by simp [hashedAct, hs]) e9)
  have f10 : a.inputs = b.inputs := artMap_inj (N := N) (val hid hid'
    (fun s hs => by simp [hashedAct, hs]) (fun s hs => by simp [hashedAct, hs]) e10)
  have f6' : a.mayFail = b.mayFail := by
    revert f6
    cases a.mayFail <;> cases b.mayFail <;> simp
  injection f4 with f4 _
  cases a
  cases b
  simp only at f1 f2 f3 f4 f5 f6' f7 f8 f9 f10
  simp only [f1, f2, f3, f4, f5, f6', f7, f8, f9, f10]

theorem items_inj {t : HashType} : ∀ {l r : List (Str × Desc)}, (∀ kd ∈ l, kd.2.Valid t) →
    (∀ kd ∈ r, kd.2.Valid t) →
    (l.map fun kd => (kd.1, (kd.2.toJson : J N))) = r.map (fun kd => (kd.1, kd.2.toJson)) →
    forgetInputs l = forgetInputs r
  | [], [], _, _, _ => rfl
  | [], _ :: _, _, _, e => by simp at e
  | _ :: _, [], _, _, e => by simp at e
  | (k, d) :: l, (k', d') :: r, hl, hr, e => by
    simp only [List.map_cons, List.cons.injEq, Prod.mk.injEq] at e
    have := items_inj (fun kd hk => hl kd (by simp [hk])) (fun kd hk => hr kd (by simp [hk])) e.2
    have hd := toJson_inj (N := N) (hl (k, d) (by simp)) (hr (k', d') (by simp)) e.1.2
    simp only [forgetInputs, List.map_cons] at this ⊢
    rw [this, e.1.1, hd]

theorem descs_inj {t : HashType} : ∀ {l r : List Desc}, (∀ d ∈ l, d.Valid t) → (∀ d ∈ r, d.Valid t) →
    l.map (Desc.toJson : Desc → J N) = r.map Desc.toJson → l.map Desc.forget = r.map Desc.forget
  | [], [], _, _, _ => rfl
  | [], _ :: _, _, _, e => by simp at e
  | _ :: _, [], _, _, e => by simp at e
  | d :: l, d' :: r, hl, hr, e => by
    simp only [List.map_cons, List.cons.injEq] at e
    have := descs_inj (fun kd hk => hl kd (by simp [hk])) (fun kd hk => hr kd (by simp [hk])) e.2
    simp only [List.map_cons]
    rw [this, toJson_inj (N := N) (hl d (by simp)) (hr d' (by simp)) e.1]

/-- C47: two trees with the same identifier are the same, except for the repository in which known entries
were found. -/
theorem C47_tree (ho : h.OK) (t : HashType) (l r : List (Str × Desc)) (hl : ∀ kd ∈ l, kd.2.Valid t)
    (hr : ∀ kd ∈ r, kd.2.Valid t) (hn : NoCollision h.H [treeText h l, treeText h r])
    (e : treeId h l = treeId h r) : forgetInputs l = forgetInputs r := by
  have := hn _ (by simp) _ (by simp) (hexString_inj (ho.bytes _) (ho.bytes _) e)
  have := dump_inj h ho (List.append_cancel_left this)
  injection this with this
  exact items_inj hl hr this

/-- C47: two overlays with the same identifier are the same, except for the repository in which known trees
were found. -/
theorem C47_overlay (ho : h.OK) (t : HashType) (l r : List Desc) (b c : Bool) (hl : ∀ d ∈ l, d.Valid t)
    (hr : ∀ d ∈ r, d.Valid t) (hn : NoCollision h.H [overlayText h l b, overlayText h r c])
    (e : overlayId h l b = overlayId h r c) : l.map Desc.forget = r.map Desc.forget ∧ b = c := by
  have := hn _ (by simp) _ (by simp) (hexString_inj (ho.bytes _) (ho.bytes _) e)
  have := dump_inj h ho (List.append_cancel_left this)
  simp only [overlayJson, Json.obj.injEq, List.cons.injEq, Prod.mk.injEq, true_and, and_true,
    Json.bool.injEq, Json.arr.injEq] at this
  exact ⟨descs_inj hl hr this.2, this.1⟩

/-- C47: an action, a tree, and an overlay never have the same identifier. -/
theorem C47_kinds (ho : h.OK) (hexFloat : N → Str) (a : Act N) (l : List (Str × Desc)) (r : List Desc)
    (b : Bool) (hn : NoCollision h.H [a.text h hexFloat, treeText h l, overlayText h r b]) :
    a.id h hexFloat ≠ treeId h l ∧ a.id h hexFloat ≠ overlayId h r b ∧ treeId h l ≠ overlayId h r b := by
  refine ⟨fun e => ?_, fun e => ?_, fun e => ?_⟩
  · have := hn _ (by simp) _ (by simp) (hexString_inj (ho.bytes _) (ho.bytes _) e)
    have := congrArg (List.take 1) this
    exact absurd (show ['A'] = ['T'] from this) (by decide)
  · have := hn _ (by simp) _ (by simp) (hexString_inj (ho.bytes _) (ho.bytes _) e)
    have := congrArg (List.take 1) this
    exact absurd (show ['A'] = ['T'] from this) (by decide)
  · have := hn _ (by simp) _ (by simp) (hexString_inj (ho.bytes _) (ho.bytes _) e)
    have := congrArg (List.take 5) this
    exact absurd (show "TREE:".toList = "TREE_".toList from this) (by decide)

/-! ## JSON -/

theorem strList_map (l : List Str) : strList (l.map (Json.str : Str → J N)) = some l := by
  induction l with
  | nil => rfl
  | cons s t ih => simp only [List.map_cons, strList, ih, Option.bind_some]

theorem strItems_map (l : List (Str × Str)) :
    strItems (l.map fun kv => (kv.1, (Json.str kv.2 : J N))) = some l := by
  induction l with
  | nil => rfl
  | cons s t ih => simp only [List.map_cons, strItems, ih, Option.bind_some]

theorem artItems_map (t : HashType) (cast : N → Nat) (l : List (Str × Desc)) (hl : ∀ kd ∈ l, kd.2.Valid t) :
    artItems t cast (l.map fun kd => (kd.1, (kd.2.toJson : J N))) = some (forgetInputs l) := by
  induction l with
  | nil => rfl
  | cons kd l ih =>
    obtain ⟨k, d⟩ := kd
    have := ih (fun kd hk => hl kd (by simp [hk]))
    simp only [List.map_cons, artItems, this, C62_round_trip t cast d (hl (k, d) (by simp)),
      Option.bind_some, forgetInputs]

theorem descs_map (t : HashType) (cast : N → Nat) (l : List Desc) (hl : ∀ d ∈ l, d.Valid t) :
    descs t cast (l.map (Desc.toJson : Desc → J N)) = some (l.map Desc.forget) := by
  induction l with
  | nil => rfl
  | cons d l ih =>
    have := ih (fun kd hk => hl kd (by simp [hk]))
    simp only [List.map_cons, descs, this, C62_round_trip t cast d (hl d (by simp)), Option.bind_some]

theorem assoc_optKey {k : Str} {c : Bool} {key : String} {v : J N} {l : List (Str × J N)} :
    assoc k (optKey c key v ++ l) = if c = true ∧ k = key.toList then some v else assoc k l := by
  unfold optKey
  cases c
  · simp
  · simp only [if_true, List.cons_append, List.nil_append, assoc, true_and]
    split <;> rfl

theorem assoc_optKey_last {k : Str} {c : Bool} {key : String} {v : J N} :
    assoc k (optKey c key v) = if c = true ∧ k = key.toList then some v else none := by
  have := @assoc_optKey N k c key v []
  rwa [List.append_nil] at this

section
variable [DecidableEq N] (one : N) (a : Act N)

theorem get_key (key : String) : extract (a.toJson one) key =
    (if key.toList = "command".toList then some (strsJson a.command)
    else if (!a.cwd.isEmpty) = true ∧ key.toList = "cwd".toList then some (.str a.cwd)
    else if (!a.env.isEmpty) = true ∧ key.toList = "env".toList then some (strMapJson a.env)
    else if (!a.props.isEmpty) = true ∧ key.toList = "execution properties".toList then
      some (strMapJson a.props)
    else if (!a.inputs.isEmpty) = true ∧ key.toList = "input".toList then some (treeJson a.inputs)
    else if a.mayFail.isSome = true ∧ key.toList = "may_fail".toList then some (.str (a.mayFail.getD []))
    else if a.noCache = true ∧ key.toList = "no_cache".toList then some (.bool true)
    else if (!a.files.isEmpty) = true ∧ key.toList = "output".toList then some (strsJson a.files)
    else if (!a.dirs.isEmpty) = true ∧ key.toList = "output_dirs".toList then some (strsJson a.dirs)
    else if decide (a.timeout ≠ one) = true ∧ key.toList = "timeout scaling".toList then
      some (.num (.inl a.timeout))
    else none) := by
  unfold Act.toJson extract
  simp only [List.append_assoc]
  rw [assoc_optKey, assoc_optKey, assoc_optKey, assoc_optKey, assoc_optKey, assoc_optKey, assoc_optKey,
    assoc_optKey, assoc_optKey, assoc_optKey_last]
  simp only [true_and]

end

/-- C65: an action written to an action graph is read back as the same action, except for the repository in
which known inputs were found. -/
theorem C65_action [DecidableEq N] (t : HashType) (c : Casts N) (one : N) (a : Act N)
    (hc : a.command ≠ []) (hout : a.files ≠ [] ∨ a.dirs ≠ []) (hi : ∀ kd ∈ a.inputs, kd.2.Valid t) :
    Act.fromJson t c one (a.toJson one) = some a.forget := by
  have k1 : extractStrs (a.toJson one) "command" = some a.command := by
    unfold extractStrs
    rw [get_key]
    exact strList_map _
  have k2 : (extractStrs (a.toJson one) "output").getD [] = a.files := by
    unfold extractStrs
    rw [get_key]
    have : "output".toList ≠ "command".toList ∧ "output".toList ≠ "cwd".toList ∧
      "output".toList ≠ "env".toList ∧ "output".toList ≠ "execution properties".toList ∧
      "output".toList ≠ "input".toList ∧ "output".toList ≠ "may_fail".toList ∧
      "output".toList ≠ "no_cache".toList ∧ "output".toList ≠ "output_dirs".toList ∧
      "output".toList ≠ "timeout scaling".toList := by decide
    obtain ⟨n1, n2, n3, n4, n5, n6, n7, n8, n9⟩ := this
    simp only [n1, n2, n3, n4, n5, n6, n7, n8, n9, if_false, and_false, and_true]
    cases hf : a.files with
    | nil => rfl
    | cons s l =>
      have := strList_map (N := N) (s :: l)
      simp only [List.isEmpty_cons, Bool.not_false, if_true, Option.bind_some, strsJson, this,
        Option.getD_some]
  have k3 : (extractStrs (a.toJson one) "output_dirs").getD [] = a.dirs := by
    unfold extractStrs
    rw [get_key]
    have : "output_dirs".toList ≠ "command".toList ∧ "output_dirs".toList ≠ "cwd".toList ∧
      "output_dirs".toList ≠ "env".toList ∧ "output_dirs".toList ≠ "execution properties".toList ∧
      "output_dirs".toList ≠ "input".toList ∧ "output_dirs".toList ≠ "may_fail".toList ∧
      "output_dirs".toList ≠ "no_cache".toList ∧ "output_dirs".toList ≠ "output".toList ∧
      "output_dirs".toList ≠ "timeout scaling".toList := by decide
    obtain ⟨n1, n2, n3, n4, n5, n6, n7, n8, n9⟩ := this
    simp only [n1, n2, n3, n4, n5, n6, n7, n8, n9, if_false, and_false, and_true]
    cases hf : a.dirs with
    | nil => rfl
    | cons s l =>
      have := strList_map (N := N) (s :: l)
      simp only [List.isEmpty_cons, Bool.not_false, if_true, Option.bind_some, strsJson, this,
        Option.getD_some]
  have k4 : readCwd (a.toJson one) = some a.cwd := by
    unfold readCwd
    rw [get_key]
    have : "cwd".toList ≠ "command".toList ∧ "cwd".toList ≠ "output_dirs".toList ∧
      "cwd".toList ≠ "env".toList ∧ "cwd".toList ≠ "execution properties".toList ∧
      "cwd".toList ≠ "input".toList ∧ "cwd".toList ≠ "may_fail".toList ∧
      "cwd".toList ≠ "no_cache".toList ∧ "cwd".toList ≠ "output".toList ∧
      "cwd".toList ≠ "timeout scaling".toList := by decide
    obtain ⟨n1, n2, n3, n4, n5, n6, n7, n8, n9⟩ := this
    simp only [n1, n2, n3, n4, n5, n6, n7, n8, n9, if_false, and_false, and_true]
    cases hf : a.cwd with
    | nil => rfl
    | cons s l => rfl
  have k5 : readInputs t c.toNat (a.toJson one) = some (forgetInputs a.inputs) := by
    unfold readInputs
    rw [get_key]
    have : "input".toList ≠ "command".toList ∧ "input".toList ≠ "output_dirs".toList ∧
      "input".toList ≠ "env".toList ∧ "input".toList ≠ "execution properties".toList ∧
      "input".toList ≠ "cwd".toList ∧ "input".toList ≠ "may_fail".toList ∧
      "input".toList ≠ "no_cache".toList ∧ "input".toList ≠ "output".toList ∧
      "input".toList ≠ "timeout scaling".toList := by decide
    obtain ⟨n1, n2, n3, n4, n5, n6, n7, n8, n9⟩ := this
    simp only [n1, n2, n3, n4, n5, n6, n7, n8, n9, if_false, and_false, and_true]
    have h1 := artItems_map (N := N) t c.toNat a.inputs hi
    cases hf : a.inputs with
    | nil => rfl
    | cons s l =>
      rw [hf] at h1
      simp only [List.isEmpty_cons, Bool.not_false, if_true, treeJson]
      exact h1
  have k6 : readStrMap (a.toJson one) "env" = some a.env := by
    unfold readStrMap
    rw [get_key]
    have : "env".toList ≠ "command".toList ∧ "env".toList ≠ "output_dirs".toList ∧
      "env".toList ≠ "input".toList ∧ "env".toList ≠ "execution properties".toList ∧
      "env".toList ≠ "cwd".toList ∧ "env".toList ≠ "may_fail".toList ∧
      "env".toList ≠ "no_cache".toList ∧ "env".toList ≠ "output".toList ∧
      "env".toList ≠ "timeout scaling".toList := by decide
    obtain ⟨n1, n2, n3, n4, n5, n6, n7, n8, n9⟩ := this
    simp only [n1, n2, n3, n4, n5, n6, n7, n8, n9, if_false, and_false, and_true]
    have h1 := strItems_map (N := N) a.env
    cases hf : a.env with
    | nil => rfl
    | cons s l =>
      rw [hf] at h1
      simp only [List.isEmpty_cons, Bool.not_false, if_true, strMapJson]
      exact h1
  have k7 : readStrMap (a.toJson one) "execution properties" = some a.props := by
    unfold readStrMap
    rw [get_key]
    have : "execution properties".toList ≠ "command".toList ∧
      "execution properties".toList ≠ "output_dirs".toList ∧
      "execution properties".toList ≠ "input".toList ∧ "execution properties".toList ≠ "env".toList ∧
      "execution properties".toList ≠ "cwd".toList ∧ "execution properties".toList ≠ "may_fail".toList ∧
      "execution properties".toList ≠ "no_cache".toList ∧ "execution properties".toList ≠ "output".toList ∧
      "execution properties".toList ≠ "timeout scaling".toList := by decide
    obtain ⟨n1, n2, n3, n4, n5, n6, n7, n8, n9⟩ := this
    simp only [n1, n2, n3, n4, n5, n6, n7, n8, n9, if_false, and_false, and_true]
    have h1 := strItems_map (N := N) a.props
    cases hf : a.props with
    | nil => rfl
    | cons s l =>
      rw [hf] at h1
      simp only [List.isEmpty_cons, Bool.not_false, if_true, strMapJson]
      exact h1
  have k8 : readMayFail (a.toJson one) = some a.mayFail := by
    unfold readMayFail
    rw [get_key]
    have : "may_fail".toList ≠ "command".toList ∧ "may_fail".toList ≠ "output_dirs".toList ∧
      "may_fail".toList ≠ "env".toList ∧ "may_fail".toList ≠ "execution properties".toList ∧
      "may_fail".toList ≠ "cwd".toList ∧ "may_fail".toList ≠ "input".toList ∧
      "may_fail".toList ≠ "no_cache".toList ∧ "may_fail".toList ≠ "output".toList ∧
      "may_fail".toList ≠ "timeout scaling".toList := by decide
    obtain ⟨n1, n2, n3, n4, n5, n6, n7, n8, n9⟩ := this
    simp only [n1, n2, n3, n4, n5, n6, n7, n8, n9, if_false, and_false, and_true]
    cases a.mayFail <;> rfl
  have k9 : readNoCache (a.toJson one) = some a.noCache := by
    unfold readNoCache
    rw [get_key]
    have : "no_cache".toList ≠ "command".toList ∧ "no_cache".toList ≠ "output_dirs".toList ∧
      "no_cache".toList ≠ "env".toList ∧ "no_cache".toList ≠ "execution properties".toList ∧
      "no_cache".toList ≠ "cwd".toList ∧ "no_cache".toList ≠ "input".toList ∧
      "no_cache".toList ≠ "may_fail".toList ∧ "no_cache".toList ≠ "output".toList ∧
      "no_cache".toList ≠ "timeout scaling".toList := by decide
    obtain ⟨n1, n2, n3, n4, n5, n6, n7, n8, n9⟩ := this
    simp only [n1, n2, n3, n4, n5, n6, n7, n8, n9, if_false, and_false, and_true]
    cases a.noCache <;> rfl
  have k10 : readTimeout c one (a.toJson one) = some a.timeout := by
    unfold readTimeout
    rw [get_key]
    have : "timeout scaling".toList ≠ "command".toList ∧ "timeout scaling".toList ≠ "output_dirs".toList ∧
      "timeout scaling".toList ≠ "env".toList ∧
      "timeout scaling".toList ≠ "execution properties".toList ∧
      "timeout scaling".toList ≠ "cwd".toList ∧ "timeout scaling".toList ≠ "input".toList ∧
      "timeout scaling".toList ≠ "may_fail".toList ∧ "timeout scaling".toList ≠ "output".toList ∧
      "timeout scaling".toList ≠ "no_cache".toList := by decide
    obtain ⟨n1, n2, n3, n4, n5, n6, n7, n8, n9⟩ := this
    simp only [n1, n2, n3, n4, n5, n6, n7, n8, n9, if_false, and_false, and_true]
    by_cases ht : a.timeout = one
    · simp [ht]
    · simp [ht]
  have c1 : (a.files.isEmpty && a.dirs.isEmpty) = false := by
    rcases hout with h' | h'
    · cases hf : a.files with
      | nil => exact absurd hf h'
      | cons _ _ => rfl
    · cases hf : a.dirs with
      | nil => exact absurd hf h'
      | cons _ _ => simp
  have c2 : a.command.isEmpty = false := by
    cases hf : a.command with
    | nil => exact absurd hf hc
    | cons _ _ => rfl
  unfold Act.fromJson
  simp only [k1, k2, k3, k4, k5, k6, k7, k8, k9, k10, c1, c2, Option.getD_some, Bool.false_eq_true,
    if_false, Option.bind_some, Act.forget]

/-- C65: a tree of an action graph is read back as the same tree. -/
theorem C65_tree (t : HashType) (cast : N → Nat) (l : List (Str × Desc)) (hl : ∀ kd ∈ l, kd.2.Valid t) :
    treeFromJson t cast (treeJson l) = some (forgetInputs l) := artItems_map t cast l hl

/-- C65: an overlay of an action graph is read back as the same overlay. -/
theorem C65_overlay (t : HashType) (cast : N → Nat) (l : List Desc) (b : Bool) (hl : ∀ d ∈ l, d.Valid t) :
    overlayFromJson t cast (overlayJson l b : J N) = .ok (l.map Desc.forget, b) := by
  have h1 : at? (overlayJson l b : J N) "disjoint" = .ok (.bool b) := rfl
  have h2 : at? (overlayJson l b : J N) "trees" = .ok (.arr (l.map Desc.toJson)) := rfl
  unfold overlayFromJson
  rw [h1, h2]
  simp only [Out.bind, descs_map t cast l hl]

/-! ## Examples -/

/-- For examples: one character of a checksum. -/
def check (m : Nat) (s : Str) : Char := Char.ofNat (s.foldl (fun a c => (m * a + c.toNat) % 251) 7)

/-- For examples: a checksum of three characters, and a single non-integral number. -/
def demo : Hashing Unit where
  H := fun s => [check 31 s, check 57 s, check 101 s]
  text := Sum.elim (fun _ => "1.5".toList) decimal

/-- For examples: the number as it is written in actions. -/
def demoFloat (_ : Unit) : Str := "                +0x1.8p+0".toList.take 24

theorem check_byte (m : Nat) (s : Str) : (check m s).toNat < 256 := by
  have h0 : ∀ (l : Str) (a : Nat), a < 251 →
      l.foldl (fun a c => (m * a + c.toNat) % 251) a < 251 := by
    intro l
    induction l with
    | nil => exact fun a ha => ha
    | cons c t ih => exact fun a _ => ih _ (Nat.mod_lt _ (by decide))
  have := h0 s 7 (by decide)
  unfold check
  rw [toNat_ofNat256 _ (by omega)]
  omega

theorem demo_ok : demo.OK where
  length := ⟨3, by decide, fun s => rfl⟩
  bytes := by
    intro s c hc
    simp only [demo, List.mem_cons, List.not_mem_nil, or_false] at hc
    rcases hc with rfl | rfl | rfl <;> exact check_byte _ _
  text := {
    inj := by
      rintro (a | a) (b | b) h
      · rfl
      · have := decimal_isDigit b '.' (by rw [show decimal b = "1.5".toList from h.symm]; decide)
        exact absurd this (by decide)
      · have := decimal_isDigit a '.' (by rw [show decimal a = "1.5".toList from h]; decide)
        exact absurd this (by decide)
      · rw [decimal_inj h]
    chars := by
      rintro (a | a) c hc
      · cases a
        revert c
        decide
      · unfold Json.isNum
        rw [decimal_isDigit a c hc]
        rfl
    first := by
      rintro (a | a)
      · exact ⟨'1', ".5".toList, rfl, by decide⟩
      · obtain ⟨d, t, hd, e⟩ := decimal_head a
        exact ⟨digitChar d, t, e, by rw [(digitChar_cases d hd).1]; rfl⟩ }

theorem demoFloat_ok : HexFloat demoFloat := ⟨fun _ _ _ => rfl, fun _ => rfl⟩

/-- For examples: an action. -/
def exampleAct : Act Unit where
  files := ["a".toList, "b".toList]
  dirs := ["out".toList]
  command := ["sh".toList, "-c".toList, "true".toList]
  cwd := []
  env := [("PATH".toList, "/bin".toList)]
  mayFail := some "test".toList
  noCache := true
  timeout := ()
  props := []
  inputs := [("in".toList, .known ⟨zeros, .gitSHA1, false, 7⟩ .file (some "r".toList)),
    ("src".toList, .loc "x.c".toList "r".toList)]

theorem exampleAct_valid : ∀ kd ∈ exampleAct.inputs, kd.2.Valid .gitSHA1 := by
  intro kd hk
  simp only [exampleAct, List.mem_cons, List.not_mem_nil, or_false] at hk
  rcases hk with rfl | rfl
  · exact ⟨by decide +kernel, rfl, rfl⟩
  · trivial

/-- For examples: the action with one of the outputs moved from the files to the directories. -/
def exampleMoved : Act Unit :=
  { exampleAct with files := ["a".toList], dirs := ["b".toList, "out".toList] }

/-- For examples: decision of `NoCollision`. -/
def noCollision (H : Str → Str) (l : List Str) : Bool := l.all fun a => l.all fun b => H a != H b || a == b

theorem noCollision_spec {H : Str → Str} {l : List Str} (h : noCollision H l = true) : NoCollision H l := by
  intro a ha b hb e
  have := List.all_eq_true.mp (List.all_eq_true.mp h a ha) b hb
  simpa [e] using this

theorem example_noCollision : NoCollision demo.H (hashedAct demo demoFloat exampleAct.forget ++
    hashedAct demo demoFloat exampleMoved.forget) := noCollision_spec (by decide +kernel)

/-- Moving an output from the files to the directories gives a different identifier. -/
example : exampleAct.id demo demoFloat ≠ exampleMoved.id demo demoFloat := by
  intro e
  have := C47_action demo demo_ok demoFloat_ok .gitSHA1 exampleAct exampleMoved exampleAct_valid
    exampleAct_valid example_noCollision e
  exact absurd (congrArg (fun a : Act Unit => a.files.length) this) (by decide)

example : treeId demo [("a".toList, .tree "b".toList)] ≠ treeId demo [("a".toList, .overlay "b".toList)] := by
  intro e
  have := C47_tree demo demo_ok .gitSHA1 _ _ (by simp [Desc.Valid]) (by simp [Desc.Valid])
    (by unfold NoCollision; decide +kernel) e
  simp [forgetInputs, Desc.forget] at this

example : overlayId demo [.tree "b".toList] true ≠ overlayId demo [.tree "b".toList] false := by
  intro e
  have := C47_overlay demo demo_ok .gitSHA1 _ _ _ _ (by simp [Desc.Valid]) (by simp [Desc.Valid])
    (by unfold NoCollision; decide +kernel) e
  exact absurd this.2 (by decide)

example : treeId demo [] ≠ overlayId demo [] true :=
  (C47_kinds demo demo_ok demoFloat exampleAct [] [] true (by unfold NoCollision; decide +kernel)).2.2

/-- For examples: conversion of numbers. -/
def demoCasts : Casts Unit := ⟨fun _ => 1, fun _ => ()⟩

example : Act.fromJson .gitSHA1 demoCasts () (exampleAct.toJson ()) = some exampleAct.forget ∧
    exampleAct.forget.inputs = [("in".toList, .known ⟨zeros, .gitSHA1, false, 7⟩ .file none),
      ("src".toList, .loc "x.c".toList "r".toList)] :=
  ⟨C65_action .gitSHA1 demoCasts () exampleAct (by decide) (.inl (by decide)) exampleAct_valid, rfl⟩

example : overlayFromJson .gitSHA1 (fun _ => 0) (overlayJson [.tree "b".toList, .tree "a".toList] true : J Unit)
    = .ok ([.tree "b".toList, .tree "a".toList], true) :=
  C65_overlay .gitSHA1 _ _ _ (by simp [Desc.Valid])

end Verif.Action
