import Verif.InstallCas.Parse
import Verif.Tree.InstallProps

/-!
# Objects installed by `install-cas` (C110)
-/

namespace Verif.InstallCas

open Verif.Dig (HashType ObjectType ObjectInfo)
open Verif.Expr (hexString)
open Verif.Install
open Verif.Path
open Verif.Roots (Out)
open Verif.Tree (Info Obs Env Store Ent Listing NoCollision look retrieve parseTree group flat)

/-! ## What is claimed -/

/-- What is at a path inside an object. -/
inductive At (E : Env) (S : Store) : Info → List Str → Info → Prop
  | here (i : Info) : At E S i [] i
  | down {id d : Str} {l : List Ent} {e : Ent} {p : List Str} {j : Info} : retrieve E S id = some d → parseTree d = some l →
      e ∈ l → At E S ⟨e.type, e.id⟩ p j → At E S ⟨.tree, id⟩ (e.name :: p) j

/-- The object at the longest part of a path that exists. -/
def Longest (E : Env) (S : Store) (i : Info) (path : List Str) (j : Info) : Prop :=
  ∃ q, q <+: path ∧ At E S i q j ∧ ∀ n, q ++ [n] <+: path → ∀ k, ¬ At E S j [n] k

/-- The last name in a path string is one of a file or directory. -/
def Named (o : Str) : Prop := ∃ n, (names o).getLast? = some n ∧ ProperName n

/-- Where an object is to be installed: at the output path, or in it, named by its hash, if it is a directory. -/
def target (cwd : List Str) (o : Str) (i : Info) (fs : FS) : List Str :=
  if fs.at (resolve cwd o) = some .dir then resolve cwd o ++ [hexString i.id] else resolve cwd o

/-! ## Hexadecimal numbers -/

theorem hexDigit_mem (n : Nat) : Json.hexDigit n ∈ "0123456789abcdef".toList := by
  unfold Json.hexDigit
  cases h : ("0123456789abcdef".toList)[n]? with
  | none => decide
  | some c => exact List.mem_of_getElem? h

theorem nibble_hexDigit : ∀ n, n < 16 → nibble (Json.hexDigit n) = some n := by decide

theorem unhex_hexString : ∀ {x : Str}, (∀ c ∈ x, c.toNat < 256) → unhex (hexString x) = some x
  | [], _ => rfl
  | c :: x, h => by
    have hc := h c (by simp)
    have ih := unhex_hexString (x := x) fun d hd => h d (by simp [hd])
    show unhex (Json.hexDigit (c.toNat / 16) :: Json.hexDigit (c.toNat % 16) :: hexString x) = _
    rw [unhex, nibble_hexDigit _ (by omega), Option.bind_some, nibble_hexDigit _ (by omega), Option.bind_some, ih,
      Option.bind_some, show 16 * (c.toNat / 16) + c.toNat % 16 = c.toNat from by omega, Char.ofNat_toNat]

theorem hexString_good {x : Str} (h : x.length = 20) : GoodHash .gitSHA1 (hexString x) := by
  constructor
  · have : ∀ y : Str, (hexString y).length = 2 * y.length := by
      intro y
      induction y with
      | nil => rfl
      | cons c y ih =>
        show (Json.hexDigit _ :: Json.hexDigit _ :: hexString y).length = _
        simp only [List.length_cons, ih]
        omega
    rw [this, h]
    rfl
  · intro c hc
    obtain ⟨d, _, hd⟩ := List.mem_flatMap.1 hc
    have : ∀ c ∈ "0123456789abcdef".toList, Dig.isHexDigit c = true := by decide
    simp only [List.mem_cons, List.not_mem_nil, or_false] at hd
    rcases hd with rfl | rfl
    · exact this _ (hexDigit_mem _)
    · exact this _ (hexDigit_mem _)

theorem hexString_proper {x : Str} (h : x ≠ []) : ProperName (hexString x) := by
  have hm : ∀ c ∈ hexString x, c ≠ '/' ∧ c ≠ '.' := by
    intro c hc
    obtain ⟨d, _, hd⟩ := List.mem_flatMap.1 hc
    have : ∀ c ∈ "0123456789abcdef".toList, c ≠ '/' ∧ c ≠ '.' := by decide
    simp only [List.mem_cons, List.not_mem_nil, or_false] at hd
    rcases hd with rfl | rfl
    · exact this _ (hexDigit_mem _)
    · exact this _ (hexDigit_mem _)
  refine ⟨fun h' => (hm _ h').1 rfl, ?_, ?_, ?_⟩
  · cases x with
    | nil => exact absurd rfl h
    | cons c x =>
      intro e
      cases e
  · intro e
    exact (hm '.' (by rw [e]; simp)).2 rfl
  · intro e
    exact (hm '.' (by rw [e]; simp)).2 rfl

/-! ## Paths -/

theorem elems_proper {a : Str} (h : ProperName a) : elems a = [a] := by
  have h1 : isAbs a = false := isAbs_of_noSlash h.1
  have h2 : names a = [a] := by
    rw [names_noSlash h.1]
    simp [h.2.1]
  have h3 : hasTrail a = false := by
    unfold hasTrail
    rw [h2]
    have : a.getLast? ≠ some '/' := fun e => h.1 (List.mem_of_getLast? e)
    simpa using this
  unfold elems
  rw [h1, h2, h3]
  rfl

theorem elems_join {p : List Str} (h : ∀ a ∈ p, ProperName a) : elems (joinWith '/' p) = p := by
  have hs : ∀ a ∈ p, Seg a := fun a ha => (h a ha).seg
  have h3 : hasTrail (joinWith '/' p) = false := by
    unfold hasTrail
    rw [names_join hs]
    cases hp : p with
    | nil => rfl
    | cons a t =>
      have hne : p ≠ [] := by rw [hp]; simp
      obtain ⟨q, n, rfl⟩ : ∃ q n, p = q ++ [n] := ⟨_, _, (List.dropLast_append_getLast hne).symm⟩
      have hn := h n (by simp)
      have hl : (joinWith '/' (q ++ [n])).getLast? = n.getLast? := by
        obtain ⟨m, x, hx⟩ : ∃ l x, n = l ++ [x] := ⟨_, _, (List.dropLast_append_getLast hn.2.1).symm⟩
        cases q with
        | nil => rfl
        | cons b q =>
          have : ∀ (q : List Str) (b : Str), ∃ r, joinWith '/' (b :: q ++ [n]) = r ++ '/' :: n := by
            intro q
            induction q with
            | nil => exact fun b => ⟨b, rfl⟩
            | cons c q ih =>
              intro b
              obtain ⟨r, hr⟩ := ih c
              exact ⟨b ++ '/' :: r, by
                show b ++ '/' :: joinWith '/' (c :: q ++ [n]) = _
                rw [hr]
                simp⟩
          obtain ⟨r, hr⟩ := this q b
          rw [hr, hx]
          rw [← List.cons_append, ← List.append_assoc, List.getLast?_concat, List.getLast?_concat]
      rw [← hp, hl]
      have : n.getLast? ≠ some '/' := fun e => hn.1 (List.mem_of_getLast? e)
      simp [this]
  unfold elems
  rw [isAbs_join hs, names_join hs, h3]
  simp

/-- Elements of paths. -/
theorem mem_elems {s a : Str} (h : a ∈ elems s) : a = ['/'] ∨ a = [] ∨ '/' ∉ a ∧ a ≠ [] := by
  unfold elems at h
  rw [List.mem_append, List.mem_append] at h
  rcases h with (h | h) | h
  · split at h
    · exact .inl (by simpa using h)
    · cases h
  · unfold names at h
    rw [List.mem_filter] at h
    refine .inr (.inr ⟨?_, by simpa using h.2⟩)
    exact splitAt_mem_noSep _ _ _ h.1
  · split at h
    · exact .inr (.inl (by simpa using h))
    · cases h

theorem elems_noSlash {a : Str} (h : '/' ∉ a) (h0 : a ≠ []) : elems a = [a] := by
  have h1 : isAbs a = false := isAbs_of_noSlash h
  have h2 : names a = [a] := by
    rw [names_noSlash h]
    simp [h0]
  have h3 : hasTrail a = false := by
    unfold hasTrail
    rw [h2]
    have : a.getLast? ≠ some '/' := fun e => h (List.mem_of_getLast? e)
    simpa using this
  unfold elems
  rw [h1, h2, h3]
  rfl

/-- An entry has the name of an element of a path just if it is equal to that element as path. -/
theorem elems_eq_iff {s a n : Str} (ha : a ∈ elems s) (hn : ProperName n) : elems n = elems a ↔ n = a := by
  constructor
  · intro h
    rw [elems_proper hn] at h
    rcases mem_elems ha with rfl | rfl | ⟨h1, h2⟩
    · have : elems ['/'] = [['/']] := by decide
      rw [this] at h
      exact absurd (show '/' ∈ n by rw [List.cons.inj h |>.1]; simp) hn.1
    · have : elems [] = [] := by decide
      rw [this] at h
      cases h
    · rw [elems_noSlash h1 h2] at h
      exact (List.cons.inj h).1
  · rintro rfl
    rfl

/-! ## Objects inside trees -/

section

variable {E : Env} {S : Store} (hS : NoCollision E S) {C : Cas} (hC : C.In S)

include hC in
theorem lastEntry_some {l : List Ent} (hn : ∀ e ∈ l, ProperName e.name) {s a : Str} (ha : a ∈ elems s) {e : Ent}
    (h : lastEntry a (C.ord (flat (group l))) = some e) : e ∈ l ∧ e.name = a := by
  have hp : (C.ord (flat (group l))).Perm l := (hC.ord _).trans (Tree.flat_group l)
  have hm := hp.mem_iff.1 (List.mem_reverse.1 (List.mem_of_find?_eq_some h))
  have he := List.find?_some h
  exact ⟨hm, (elems_eq_iff ha (hn e hm)).1 (by simpa using he)⟩

include hC in
theorem lastEntry_mem {l : List Ent} (hl : Listing l) (hn : ∀ e ∈ l, ProperName e.name) {s : Str} {e : Ent}
    (he : e ∈ l) (ha : e.name ∈ elems s) : lastEntry e.name (C.ord (flat (group l))) = some e := by
  have hp : (C.ord (flat (group l))).Perm l := (hC.ord _).trans (Tree.flat_group l)
  cases h : lastEntry e.name (C.ord (flat (group l))) with
  | none =>
    have := List.find?_eq_none.1 h e (List.mem_reverse.2 (hp.mem_iff.2 he))
    simp at this
  | some e' =>
    obtain ⟨h1, h2⟩ := lastEntry_some hC hn ha h
    rw [List.inj_on_of_nodup_map hl.names h1 he h2]

theorem Clean.inv {id d : Str} {l : List Ent} (h : Clean E S ⟨.tree, id⟩) (hr : retrieve E S id = some d)
    (hp : parseTree d = some l) : Listing l ∧ (∀ e ∈ l, ProperName e.name) ∧ ∀ e ∈ l, Clean E S ⟨e.type, e.id⟩ := by
  cases h with
  | leaf h => exact absurd rfl h
  | tree h1 h2 => exact ⟨(h1 d l hr hp).1, (h1 d l hr hp).2, h2 d l hr hp⟩

theorem At.clean {i j : Info} {p : List Str} (h : At E S i p j) (hc : Clean E S i) :
    Clean E S j ∧ ∀ a ∈ p, ProperName a := by
  induction h with
  | here i => exact ⟨hc, by simp⟩
  | down hr hp he _ ih =>
    obtain ⟨_, h2, h3⟩ := Clean.inv hc hr hp
    obtain ⟨k1, k2⟩ := ih (h3 _ he)
    refine ⟨k1, fun a ha => ?_⟩
    rcases List.mem_cons.1 ha with rfl | ha
    · exact h2 _ he
    · exact k2 a ha

include hS hC in
theorem subObject_spec {s : Str} : ∀ (r : List Str) (i j : Info), Clean E S i → (∀ a ∈ r, a ∈ elems s) →
    subObject E C i r = some j → (∀ id d, i = ⟨.tree, id⟩ → retrieve E S id = some d → r ≠ [] →
      retrieve E C.trees id = some d) ∧ Longest E S i r j
  | [], i, j, _, _, h => by
    cases h
    exact ⟨fun _ _ _ _ h => absurd rfl h, [], List.prefix_refl _, .here i, fun n hn => by simp at hn⟩
  | a :: r, ⟨ty, id⟩, j, hc, ha, h => by
    by_cases ht : ty = .tree
    · subst ht
      rw [subObject, if_pos rfl] at h
      dsimp only at h
      cases hr : retrieve E C.trees id with
      | none =>
        rw [hr] at h
        cases h
      | some d =>
        rw [hr] at h
        have hrS := Tree.retrieve_super hS hC.sub hr
        refine ⟨fun id' d' e e' _ => ?_, ?_⟩
        · cases e
          rw [hr, ← hrS, e']
        dsimp only at h
        cases hp : parseTree d with
        | none =>
          rw [hp] at h
          cases h
          refine ⟨[], List.nil_prefix, .here _, fun n _ k hk => ?_⟩
          cases hk with
          | down hr' hp' _ _ =>
            rw [hrS] at hr'
            cases hr'
            rw [hp] at hp'
            cases hp'
        | some l =>
          rw [hp] at h
          dsimp only at h
          obtain ⟨h1, h2, h3⟩ := Clean.inv hc hrS hp
          cases hl : lastEntry a (C.ord (flat (group l))) with
          | none =>
            rw [hl] at h
            cases h
            refine ⟨[], List.nil_prefix, .here _, fun n hn k hk => ?_⟩
            have hn : n = a := by
              rw [List.nil_append] at hn
              exact (List.cons_prefix_cons.1 hn).1
            subst hn
            cases hk with
            | down hr' hp' he _ =>
              rw [hrS] at hr'
              cases hr'
              rw [hp] at hp'
              cases hp'
              rw [lastEntry_mem hC h1 h2 he (ha _ (by simp))] at hl
              cases hl
          | some e =>
            rw [hl] at h
            obtain ⟨he, rfl⟩ := lastEntry_some hC h2 (ha _ (by simp)) hl
            obtain ⟨_, q, hq, hat, hmax⟩ := subObject_spec r ⟨e.type, e.id⟩ j (h3 e he) (fun b hb => ha b (by simp [hb])) h
            exact ⟨e.name :: q, List.cons_prefix_cons.2 ⟨rfl, hq⟩, .down hrS hp he hat, fun n hn =>
              hmax n (List.cons_prefix_cons.1 hn).2⟩
    · rw [subObject, if_neg ht] at h
      cases h
      refine ⟨fun id' d' e => ?_, [], List.nil_prefix, .here _, fun n _ k hk => ?_⟩
      · cases e
        exact absurd rfl ht
      · cases hk with
        | down _ _ _ _ => exact ht rfl

include hS hC in
/-- **C110.** With a path to a sub-object, the object at the longest part of this path that exists is taken. What is
missing: nothing else than the object at the whole path should be taken; but if there is none, then some object above is
taken instead (V110). -/
theorem C110_sub_partial {i j : Info} (hc : Clean E S i) {s : Str} {a : Args} (ha : a.sub = some s)
    (h : select E C a i = some j) : Longest E S i (elems s) j := by
  unfold select at h
  rw [ha] at h
  exact (subObject_spec hS hC (elems s) i j hc (fun _ h => h) h).2

include hS hC in
/-- **C110.** If the trees on the way are in the CAS, then the object at a path given is found. -/
theorem C110_sub_found {i j : Info} {p : List Str} (h : At E C.trees i p j) (hc : Clean E S i) {a : Args}
    (ha : a.sub = some (joinWith '/' p)) : select E C a i = some j := by
  have up : ∀ {i j : Info} {p : List Str}, At E C.trees i p j → At E S i p j := by
    intro i j p h
    induction h with
    | here i => exact .here i
    | down hr hp he _ ih => exact .down (Tree.retrieve_super hS hC.sub hr) hp he ih
  have key : ∀ {i j : Info} {p : List Str}, At E C.trees i p j → Clean E S i → ∀ s, (∀ a ∈ p, a ∈ elems s) →
      subObject E C i p = some j := by
    intro i j p h
    induction h with
    | here i => exact fun _ _ _ => rfl
    | @down id d l e p j hr hp he _ ih =>
      intro hc s hs
      obtain ⟨h1, h2, h3⟩ := Clean.inv hc (Tree.retrieve_super hS hC.sub hr) hp
      rw [subObject, if_pos rfl]
      dsimp only
      rw [hr]
      dsimp only
      rw [hp]
      dsimp only
      rw [lastEntry_mem hC h1 h2 he (hs _ (by simp))]
      exact ih (h3 e he) s fun a ha => hs a (by simp [ha])
  have hn := ((up h).clean hc).2
  unfold select
  rw [ha]
  dsimp only
  rw [elems_join hn]
  exact key h hc (joinWith '/' p) (by rw [elems_join hn]; exact fun _ h => h)

end

end Verif.InstallCas
