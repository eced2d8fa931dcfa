import Verif.TargetCache.Model
import Verif.Result.Props
import Verif.Expr.Encode
import Verif.Async.Props

/-!
# Properties of the target cache
-/

namespace Verif.TC

open Verif.Art Verif.Dig Verif.Expr Verif.Result

variable {N : Type} (h : Hashing N)

/-! ## Keys -/

theorem jsonList_eq (all : Bool) (l : List (Value N)) : jsonList h all l = l.map (json h all) := by
  induction l with
  | nil => rfl
  | cons v t ih => rw [jsonList, ih, List.map_cons]

theorem jsonItems_eq (all : Bool) (l : List (Str × Value N)) :
    jsonItems h all l = l.map fun kv => (kv.1, json h all kv.2) := by
  induction l with
  | nil => rfl
  | cons v t ih => obtain ⟨k, v⟩ := v; rw [jsonItems, ih, List.map_cons]

theorem map_inj_on {α β : Type} {f : α → β} {l r : List α} (e : l.map f = r.map f)
    (hf : ∀ a ∈ l, ∀ b ∈ r, f a = f b → a = b) : l = r := by
  induction l generalizing r with
  | nil => cases r with
    | nil => rfl
    | cons b r => cases e
  | cons a l ih => cases r with
    | nil => cases e
    | cons b r =>
      rw [List.map_cons, List.map_cons] at e
      injection e with e1 e2
      rw [hf a (by simp) b (by simp) e1, ih e2 fun a ha b hb => hf a (by simp [ha]) b (by simp [hb])]

/-- Values made of JSON are determined by their JSON. -/
theorem json_inj_plain {v w : Value N} (hv : IsJson v) (hw : IsJson w) (e : json h true v = json h true w) : v = w := by
  induction hv generalizing w with
  | none => cases hw <;> simp only [json] at e <;> first | rfl | cases e
  | bool b => cases hw <;> simp only [json] at e <;> first | (cases e; rfl) | cases e
  | num n => cases hw <;> simp only [json] at e <;> first | (cases e; rfl) | cases e
  | str s => cases hw <;> simp only [json] at e <;> first | (cases e; rfl) | cases e
  | @list l hl ih =>
    cases hw with
    | @list r hr =>
      simp only [json, jsonList_eq, Json.arr.injEq] at e
      rw [map_inj_on e fun a ha b hb he => ih a ha (hr b hb) he]
    | _ => simp only [json] at e; cases e
  | @map l hl ih =>
    cases hw with
    | @map r hr =>
      simp only [json, jsonItems_eq, Json.obj.injEq] at e
      rw [map_inj_on e fun a ha b hb he => by
        obtain ⟨k, v⟩ := a
        obtain ⟨k', v'⟩ := b
        injection he with h1 h2
        exact Prod.ext h1 (ih (k, v) ha (hr (k', v') hb) h2)]
    | _ => simp only [json] at e; cases e

/-- C75 (configurations made of JSON values, finite numbers; otherwise see `C75_violation_key` and
`C75_violation_infinite`): the text of a key determines repository key, target, and configuration. -/
theorem C75_key_partial (hN : Json.NumText h.text) (blob : Str → Str) (a b : KeyArgs N)
    (ha : ∀ kv ∈ a.config, IsJson kv.2) (hb : ∀ kv ∈ b.config, IsJson kv.2)
    (hc : blob (keyText h a) = blob (keyText h b) → keyText h a = keyText h b) :
    computeKey h blob a = computeKey h blob b ↔ a = b := by
  refine ⟨fun e => ?_, fun e => by rw [e]⟩
  have e := Json.dump_inj hN (Json.pretty_ok 2) (hc e)
  simp only [Json.obj.injEq, List.cons.injEq, Prod.mk.injEq, Json.str.injEq, true_and, and_true] at e
  obtain ⟨e1, e2, e3⟩ := e
  have e1 := Json.dump_inj hN Json.compact_ok e1
  have e3 := Json.dump_inj hN Json.compact_ok e3
  have e1 := json_inj_plain h (.map ha) (.map hb) e1
  simp only [Json.arr.injEq, List.cons.injEq, Json.str.injEq, and_true] at e3
  obtain ⟨e3, e4⟩ := e3
  injection e1 with e1
  cases a
  cases b
  simp only [KeyArgs.mk.injEq] at *
  exact ⟨e2, e3, e4, e1⟩

/-- C75 does not hold for configurations with names of targets: a target name and the list that looks like it give the
same key. -/
theorem C75_violation_key (blob : Str → Str) (repoKey module name : Str) :
    let a : KeyArgs N := ⟨repoKey, module, name, [(['X'], .name (.anonymous ['a'] ['b']))]⟩
    let b : KeyArgs N := ⟨repoKey, module, name, [(['X'], .list [.str ['#'], .str ['a'], .str ['b']])]⟩
    a ≠ b ∧ computeKey h blob a = computeKey h blob b := by
  refine ⟨fun e => ?_, rfl⟩
  injection e with _ _ _ e
  injection e with e _
  injection e with _ e
  cases e

/-- C75 does not hold for numbers that are not finite, which are written as `null`: they give the same key as `null`, and
an entry for a target providing one reads as if `null` was provided. -/
theorem C75_violation_infinite (n : N) (hinf : h.text (.inl n) = "null".toList) (blob : Str → Str)
    (repoKey module name : Str) :
    (let a : KeyArgs N := ⟨repoKey, module, name, [(['X'], .num n)]⟩
     let b : KeyArgs N := ⟨repoKey, module, name, [(['X'], .none)]⟩
     a ≠ b ∧ computeKey h blob a = computeKey h blob b) ∧
    ∃ j j', fromTarget h [] ⟨[], [], .num n⟩ [] = some j ∧ fromTarget h [] ⟨[], [], .none⟩ [] = some j' ∧
      j ≠ j' ∧ Json.dump h.text (Json.pretty 2) 0 j = Json.dump h.text (Json.pretty 2) 0 j' := by
  have hid := (C09_violation_infinite h n hinf).2
  refine ⟨⟨fun e => ?_, ?_⟩, _, _, rfl, rfl, fun e => ?_, ?_⟩
  · injection e with _ _ _ e
    injection e with e _
    injection e with _ e
    cases e
  · simp only [computeKey, keyText, json, jsonItems, Hashing.dump, Json.dump, Json.dumpPair, Json.dumpPairs, hinf]
  · injection e with e
    simp only [List.isEmpty_nil, if_true, List.cons.injEq, Prod.mk.injEq, Json.obj.injEq, true_and, and_true,
      Tab.put, OMap.insertList, json] at e
    cases e.2.2
  · simp only [List.isEmpty_nil, if_true, Tab.put, OMap.insertList, json, ref, hid, Json.dump, Json.dumpPair,
      Json.dumpPairs, hinf]

/-! ## Description of the backend -/

theorem address_text_inj {a b : Address} (e : a.text = b.text) : a = b := by
  obtain ⟨ha, pa⟩ := a
  obtain ⟨hb, pb⟩ := b
  simp only [Address.text] at e
  have hd : ∀ n, ':' ∉ decimal n := fun n hm => by
    have := decimal_isDigit n ':' hm
    cases this
  have key : ∀ (x y : Str) (p q : Str), ':' ∉ p → ':' ∉ q → x ++ ':' :: p = y ++ ':' :: q → x = y ∧ p = q := by
    intro x
    induction x with
    | nil =>
      intro y p q hp hq e
      cases y with
      | nil => exact ⟨rfl, (List.cons.inj e).2⟩
      | cons c y =>
        exfalso
        have := (List.cons.inj e).2
        exact hp (this ▸ List.mem_append_right _ (List.mem_cons_self))
    | cons c x ih =>
      intro y p q hp hq e
      cases y with
      | nil =>
        exfalso
        have := (List.cons.inj e).2
        exact hq (this.symm ▸ List.mem_append_right _ (List.mem_cons_self))
      | cons d y =>
        have e' := List.cons.inj e
        obtain ⟨h1, h2⟩ := ih y p q hp hq e'.2
        exact ⟨by rw [e'.1, h1], h2⟩
  obtain ⟨h1, h2⟩ := key ha hb _ _ (hd pa) (hd pb) e
  rw [h1, decimal_inj h2]

theorem propertiesJson_inj {p q : Properties} (e : (propertiesJson p : J N) = propertiesJson q) : p = q := by
  simp only [propertiesJson, Json.obj.injEq] at e
  exact map_inj_on e fun a _ b _ he => by
    injection he with h1 h2
    injection h2 with h2
    exact Prod.ext h1 h2

/-- C75: the description of the backend determines the address of the remote-execution endpoint, the properties, and the
list of further endpoints. -/
theorem C75_backend (hN : Json.NumText h.text) (a a' : Option Address) (p p' : Properties)
    (d d' : List (Properties × Address)) : describe h a p d = describe h a' p' d' ↔ a = a' ∧ p = p' ∧ d = d' := by
  constructor
  · intro e
    have e := Json.dump_inj hN (Json.pretty_ok 2) e
    have ha : ∀ a a' : Option Address, (match a with
        | some a => (.str a.text : J N)
        | none => .null) = (match a' with
        | some a => .str a.text
        | none => .null) → a = a' := by
      intro a a' e
      cases a <;> cases a' <;> first | rfl | (injection e with e; rw [address_text_inj e]) | cases e
    cases d with
    | nil =>
      cases d' with
      | nil =>
        simp only [List.isEmpty_nil, if_true, Json.obj.injEq, List.cons.injEq, Prod.mk.injEq, true_and, and_true] at e
        exact ⟨ha _ _ e.2, propertiesJson_inj e.1, rfl⟩
      | cons x d' => injection e with e; cases congrArg List.length e
    | cons x d =>
      cases d' with
      | nil => injection e with e; cases congrArg List.length e
      | cons y d' =>
        simp only [List.isEmpty_cons, Bool.false_eq_true, if_false, Json.obj.injEq, List.cons.injEq, Prod.mk.injEq,
          true_and, and_true, Json.arr.injEq] at e
        refine ⟨ha _ _ e.2.2, propertiesJson_inj e.2.1, map_inj_on e.1 fun x _ y _ he => ?_⟩
        simp only [Json.arr.injEq, List.cons.injEq, and_true, Json.str.injEq] at he
        exact Prod.ext (propertiesJson_inj he.1) (address_text_inj he.2)
  · rintro ⟨rfl, rfl, rfl⟩
    rfl

/-! ## Entries -/

theorem entry_cases {repl : Repl} {r : TargetResult N} {implied : List Str} {j : J N}
    (e : fromTarget h repl r implied = some j) : ∃ a p f, serArtMap repl r.artifacts = some a ∧
      serArtMap repl r.runfiles = some f ∧ serProvides h repl r.provides = some p ∧
      r.toJson h repl = some (.obj [("artifacts".toList, .obj a), ("provides".toList, p), ("runfiles".toList, .obj f)]) ∧
      j = .obj (if implied.isEmpty then
        [("artifacts".toList, .obj a), ("provides".toList, p), ("runfiles".toList, .obj f)]
        else [("artifacts".toList, .obj a), (impliedKey, .arr (implied.map .str)), ("provides".toList, p),
          ("runfiles".toList, .obj f)]) := by
  obtain ⟨j0, e0, e⟩ := Option.bind_eq_some_iff.mp e
  have e0' := e0
  obtain ⟨a, e1, e0⟩ := Option.bind_eq_some_iff.mp e0
  obtain ⟨f, e2, e0⟩ := Option.bind_eq_some_iff.mp e0
  obtain ⟨p, e3, e0⟩ := Option.bind_eq_some_iff.mp e0
  injection e0 with e0
  subst e0
  injection e with e
  exact ⟨a, p, f, e1, e2, e3, e0', e.symm⟩

theorem entry_at {implied : List Str} {a p f : J N} :
    let j : J N := .obj (if implied.isEmpty then
        [("artifacts".toList, a), ("provides".toList, p), ("runfiles".toList, f)]
        else [("artifacts".toList, a), (impliedKey, .arr (implied.map .str)), ("provides".toList, p),
          ("runfiles".toList, f)])
    at? j "artifacts" = .ok a ∧ at? j "provides" = .ok p ∧ at? j "runfiles" = .ok f ∧
      member j impliedKey = if implied.isEmpty then none else some (.arr (implied.map .str)) := by
  cases implied with
  | nil => exact ⟨rfl, rfl, rfl, rfl⟩
  | cons x t => exact ⟨rfl, rfl, rfl, rfl⟩

theorem stringsUpTo_map (l : List Str) : stringsUpTo (l.map (Json.str : Str → J N)) = l := by
  induction l with
  | nil => rfl
  | cons s t ih => rw [List.map_cons, stringsUpTo, ih]

/-- C75 (identifiers do not always identify values, see `C64_violation`): an entry is read back as the target result with
its artifacts replaced by known ones, and with the implied export targets. -/
theorem C75_entry_partial (t : HashType) (c : Casts N) (repl : Repl) (r : TargetResult N) (implied : List Str)
    (hok : r.OK t) (hr : ReplOK t repl) (hid : IdsOK h r.provides) (j : J N)
    (e : fromTarget h repl r implied = some j) :
    (∃ n0, ∀ n, n0 ≤ n → TargetResult.fromJson t c n j = .ok (r.stored repl)) ∧ toImplied j = implied := by
  obtain ⟨a, p, f, _, _, _, e4, rfl⟩ := entry_cases h e
  obtain ⟨b1, b2, b3, b4⟩ := entry_at (implied := implied) (a := .obj a) (p := p) (f := .obj f)
  obtain ⟨n0, h0⟩ := C64_round_trip_partial h t c repl r hok hr hid _ e4
  refine ⟨⟨n0, fun n hn => ?_⟩, ?_⟩
  · have h0 := h0 n hn
    have a1 : ∀ x1 x2 x3 : J N, let o : J N := .obj [("artifacts".toList, x1), ("provides".toList, x2),
        ("runfiles".toList, x3)]
        at? o "artifacts" = .ok x1 ∧ at? o "provides" = .ok x2 ∧ at? o "runfiles" = .ok x3 :=
      fun _ _ _ => ⟨rfl, rfl, rfl⟩
    obtain ⟨c1, c2, c3⟩ := a1 (.obj a) p (.obj f)
    unfold TargetResult.fromJson at h0 ⊢
    rw [c1, c2, c3] at h0
    rw [b1, b2, b3]
    exact h0
  · unfold toImplied
    rw [b4]
    cases implied with
    | nil => rfl
    | cons x l => exact stringsUpTo_map (x :: l)

/-- All artifacts that are not known have a replacement. -/
def Covered (repl : Repl) (r : TargetResult N) : Prop :=
  ∀ d, r.Has d → d.isKnown = false → (replacement repl d).isSome = true

theorem stored_known {repl : Repl} {r : TargetResult N} (hc : Covered repl r) {d : Desc} (hd : r.Has d) :
    ∃ dg ty, stored repl d = .known dg ty none := by
  unfold stored
  by_cases hk : d.isKnown = true
  · rw [if_neg (by simp [hk])]
    cases d with
    | known dg ty r => exact ⟨dg, ty, rfl⟩
    | _ => cases hk
  · have hk : d.isKnown = false := by simpa using hk
    obtain ⟨i, hi⟩ := Option.isSome_iff_exists.mp (hc d hd hk)
    have : repl.isEmpty = false := by
      cases repl with
      | nil => cases hi
      | cons x l => rfl
    rw [if_pos ⟨this, hk⟩, hi]
    exact ⟨_, _, rfl⟩

/-- The artifact with its digest and type. -/
def IsInfo (d : Desc) (i : ObjectInfo) : Prop := d = .known i.digest i.type none ∧ i.failed = false

theorem infoOf_spec {t : HashType} (c : Casts N) {repl : Repl} (hr : ReplOK t repl) {r : TargetResult N}
    (hok : r.OK t) (hcv : Covered repl r) {d : Desc} (hd : r.Has d) {j : J N} (e : serArt repl d = some j) :
    ∃ i, infoOf t c j = .ok i ∧ IsInfo (stored repl d) i := by
  have h1 := serArt_fromJson hr (hok.valid d hd) e c.toNat
  obtain ⟨dg, ty, h2⟩ := stored_known hcv hd
  rw [h2] at h1
  refine ⟨⟨dg, ty, false⟩, ?_, h2, rfl⟩
  unfold infoOf
  rw [h1]

theorem infosOf_spec {t : HashType} (c : Casts N) {repl : Repl} (hr : ReplOK t repl) {r : TargetResult N}
    (hok : r.OK t) (hcv : Covered repl r) : ∀ (ds : List Desc) (js : List (J N)), (∀ d ∈ ds, r.Has d) →
    List.Forall₂ (fun d j => serArt repl d = some j) ds js →
    ∃ is, infosOf t c js = .ok is ∧ ∀ i, i ∈ is ↔ ∃ d ∈ ds, IsInfo (stored repl d) i := by
  intro ds js hds hf
  induction hf with
  | nil => exact ⟨[], rfl, fun i => by simp⟩
  | @cons d j ds js hj _ ih =>
    obtain ⟨i, h1, h2⟩ := infoOf_spec c hr hok hcv (hds d (by simp)) hj
    obtain ⟨is, h3, h4⟩ := ih fun d hd => hds d (by simp [hd])
    refine ⟨i :: is, ?_, fun i' => ?_⟩
    · rw [infosOf, h1, h3]
      rfl
    · rw [List.mem_cons, h4]
      constructor
      · rintro (rfl | ⟨d', h5, h6⟩)
        · exact ⟨d, by simp, h2⟩
        · exact ⟨d', by simp [h5], h6⟩
      · rintro ⟨d', h5, h6⟩
        rcases List.mem_cons.mp h5 with rfl | h5
        · left
          obtain ⟨x1, x2⟩ := h2
          obtain ⟨y1, y2⟩ := h6
          rw [x1] at y1
          injection y1 with y1 y3
          obtain ⟨di, ti, fi⟩ := i
          obtain ⟨di', ti', fi'⟩ := i'
          simp only at *
          rw [y1, y3, x2, y2]
        · exact .inr ⟨d', h5, h6⟩

theorem serArtMap_forall {repl : Repl} : ∀ {l : List (Str × Desc)} {o : List (Str × J N)},
    serArtMap repl l = some o → List.Forall₂ (fun d j => serArt repl d = some j) (l.map Prod.snd) (o.map Prod.snd)
  | [], o, e => by
    simp only [serArtMap, Option.some.injEq] at e
    subst e
    exact .nil
  | (k, d) :: l, o, e => by
    unfold serArtMap at e
    obtain ⟨j, e1, e⟩ := Option.bind_eq_some_iff.mp e
    obtain ⟨o', e2, e⟩ := Option.bind_eq_some_iff.mp e
    injection e with e
    subst e
    exact .cons e1 (serArtMap_forall e2)

theorem scan_spec {t : HashType} (c : Casts N) {repl : Repl} (hr : ReplOK t repl) {r : TargetResult N}
    (hok : r.OK t) (hcv : Covered repl r) {l : List (Str × Desc)} {o : List (Str × J N)}
    (hl : ∀ kd ∈ l, r.Has kd.2) (e : serArtMap repl l = some o) :
    ∃ is, scanArtifacts t c (.obj o) = .ok is ∧ ∀ i, i ∈ is ↔ ∃ kd ∈ l, IsInfo (stored repl kd.2) i := by
  obtain ⟨is, h1, h2⟩ := infosOf_spec c hr hok hcv (l.map Prod.snd) (o.map Prod.snd)
    (fun d hd => by
      obtain ⟨kd, h3, rfl⟩ := List.mem_map.mp hd
      exact hl kd h3) (serArtMap_forall e)
  refine ⟨is, h1, fun i => ?_⟩
  rw [h2]
  constructor
  · rintro ⟨d, hd, hi⟩
    obtain ⟨kd, h3, rfl⟩ := List.mem_map.mp hd
    exact ⟨kd, h3, hi⟩
  · rintro ⟨kd, h3, hi⟩
    exact ⟨kd.2, List.mem_map_of_mem h3, hi⟩

/-- All parts of a value that was written are there. -/
theorem has_sub {repl : Repl} {U : Value N → Prop} {s : Tab N} (hU : Family h U) (i : Result.Inv h repl U s)
    {u v : Value N} (hs : Sub u v) (hv : U v) (hh : s.has (identifier h v) = true) :
    U u ∧ s.has (identifier h u) = true := by
  induction hs with
  | refl => exact ⟨hv, hh⟩
  | step hc _ ih =>
    obtain ⟨h1, h2⟩ := ih hv hh
    refine ⟨hU.child hc h1, ?_⟩
    obtain ⟨j, hj⟩ := Option.isSome_iff_exists.mp h2
    obtain ⟨u', g1, g2, _, _, g5⟩ := i.nodes _ j hj
    have := hU.inj g1 h1 g2
    subst this
    exact g5 _ hc

theorem kind_art {u : Value N} (hk : kind u = 5) : ∃ d, u = .art d := by
  cases u with
  | art d => exact ⟨d, rfl⟩
  | _ => cases hk

theorem nodesAt_spec {nodes : List (Str × J N)} {P : Str → Desc → Prop} {repl : Repl} : ∀ (ids : List Str),
    (∀ id ∈ ids, ∃ d j, assoc id nodes = some j ∧ serArt repl d = some j ∧ P id d) →
    ∃ ds js, nodesAt (.obj nodes) (ids.map (Json.str : Str → J N)) = .ok js ∧
      List.Forall₂ (fun d j => serArt repl d = some j) ds js ∧ List.Forall₂ P ids ds
  | [], _ => ⟨[], [], rfl, .nil, .nil⟩
  | id :: ids, hids => by
    obtain ⟨d, j, h1, h2, h3⟩ := hids id (by simp)
    obtain ⟨ds, js, g1, g2, g3⟩ := nodesAt_spec ids fun id hid => hids id (by simp [hid])
    refine ⟨d :: ds, j :: js, ?_, .cons h2 g2, .cons h3 g3⟩
    simp only [List.map_cons, nodesAt, str?, Out.bind, h1, g1]

theorem forall₂_mem {α β : Type} {P : α → β → Prop} {l : List α} {r : List β} (hf : List.Forall₂ P l r) :
    (∀ a ∈ l, ∃ b ∈ r, P a b) ∧ ∀ b ∈ r, ∃ a ∈ l, P a b := by
  induction hf with
  | nil => exact ⟨fun a ha => (nomatch ha), fun b hb => (nomatch hb)⟩
  | @cons a b l r hp _ ih =>
    constructor
    · intro a' ha
      rcases List.mem_cons.mp ha with rfl | ha
      · exact ⟨b, by simp, hp⟩
      · obtain ⟨b', h1, h2⟩ := ih.1 a' ha
        exact ⟨b', by simp [h1], h2⟩
    · intro b' hb
      rcases List.mem_cons.mp hb with rfl | hb
      · exact ⟨a, by simp, hp⟩
      · obtain ⟨a', h1, h2⟩ := ih.2 b' hb
        exact ⟨a', by simp [h1], h2⟩

theorem scanProvides_spec {t : HashType} (c : Casts N) {repl : Repl} (hr : ReplOK t repl) {r : TargetResult N}
    (hok : r.OK t) (hcv : Covered repl r) (hid : IdsOK h r.provides) {p : J N}
    (e : serProvides h repl r.provides = some p) :
    ∃ is, scanProvides t c p = .ok is ∧ ∀ i, i ∈ is ↔ ∃ d, Sub (.art d) r.provides ∧ IsInfo (stored repl d) i := by
  obtain ⟨s, es, ej⟩ := Option.bind_eq_some_iff.mp e
  injection ej with ej
  subst ej
  rw [← ser_forget] at es
  have hU := family h hid
  obtain ⟨inv, _, hh⟩ := ser_inv h hU _ _ (Nat.le_refl _) (.refl _) _ _ (inv_empty h repl _) es
  have hart : ∀ d, Sub (.art d) (mapArt Desc.forget r.provides) →
      ∃ j, assoc (identifier h (.art d : Value N)) s.nodes = some j ∧ serArt repl d = some j ∧
        identifier h (.art d : Value N) ∈ s.arts := by
    intro d hd
    obtain ⟨_, h2⟩ := has_sub h hU inv hd (.refl _) hh
    obtain ⟨j, hj⟩ := Option.isSome_iff_exists.mp h2
    obtain ⟨u', g1, g2, g3, g4, _⟩ := inv.nodes _ j hj
    have := hU.inj g1 hd g2
    subst this
    exact ⟨j, hj, g3, g4.arts rfl⟩
  obtain ⟨ds, js, g1, g2, g3⟩ := nodesAt_spec (nodes := s.nodes) (repl := repl)
    (P := fun id d => Sub (.art d) (mapArt Desc.forget r.provides) ∧ identifier h (.art d : Value N) = id)
    s.arts.reverse (fun id hm => by
      obtain ⟨u, u1, u2, u3⟩ := inv.arts id (by simpa using hm)
      obtain ⟨d, rfl⟩ := kind_art u2
      obtain ⟨j, j1, j2, _⟩ := hart d u1
      exact ⟨d, j, u3 ▸ j1, j2, u1, u3⟩)
  have hback : ∀ d, Sub (.art d) (mapArt Desc.forget r.provides) → ∃ d0, Sub (.art d0) r.provides ∧ d = d0.forget := by
    intro d hd
    obtain ⟨u, u1, u2⟩ := sub_mapArt hd _ rfl
    obtain ⟨d0, rfl, rfl⟩ := forget_eq_art u2
    exact ⟨d0, u1, rfl⟩
  -- the artifacts with their repositories dropped are artifacts of the result with repositories dropped
  have hok' : (⟨r.artifacts, r.runfiles, mapArt Desc.forget r.provides⟩ : TargetResult N).OK t := by
    refine ⟨fun x hx => ?_, fun d hd => ?_⟩
    · obtain ⟨u, h1, h2⟩ := sub_mapArt hx _ rfl
      exact hok.names x (forget_eq_name h2 ▸ h1)
    · rcases hd with hd | hd | hd
      · exact hok.valid d (.inl hd)
      · exact hok.valid d (.inr (.inl hd))
      · obtain ⟨d0, h1, rfl⟩ := hback d hd
        exact valid_forget (hok.valid d0 (.inr (.inr h1)))
  have hcv' : Covered repl (⟨r.artifacts, r.runfiles, mapArt Desc.forget r.provides⟩ : TargetResult N) := by
    intro d hd hk
    rcases hd with hd | hd | hd
    · exact hcv d (.inl hd) hk
    · exact hcv d (.inr (.inl hd)) hk
    · obtain ⟨d0, h1, rfl⟩ := hback d hd
      cases d0 with
      | known dg ty rp => cases hk
      | _ => exact hcv _ (.inr (.inr h1)) hk
  obtain ⟨is, i1, i2⟩ := infosOf_spec c hr hok' hcv' ds js
    (fun d hd => by
      obtain ⟨id, _, hs, _⟩ := (forall₂_mem g3).2 d hd
      exact .inr (.inr hs)) g2
  refine ⟨is, ?_, fun i => ?_⟩
  · unfold scanProvides
    have a1 : ∀ x1 x2 x3 x4 x5 : J N, let o : J N := .obj [("entry".toList, x1), ("nodes".toList, x2),
        ("provided_artifacts".toList, x3), ("provided_nodes".toList, x4), ("provided_results".toList, x5)]
        at? o "nodes" = .ok x2 ∧ at? o "provided_artifacts" = .ok x3 :=
      fun _ _ _ _ _ => ⟨rfl, rfl⟩
    obtain ⟨b1, b2⟩ := a1 (ref h r.provides) (.obj s.nodes) (.arr (s.arts.reverse.map .str))
      (.arr (s.abs.reverse.map .str)) (.arr (s.results.reverse.map .str))
    rw [b1, b2]
    simp only [Out.bind, elements, g1, i1]
  · rw [i2]
    constructor
    · rintro ⟨d, h1, h2⟩
      obtain ⟨id, _, hs, _⟩ := (forall₂_mem g3).2 d h1
      obtain ⟨d0, h3, rfl⟩ := hback d hs
      exact ⟨d0, h3, stored_forget repl d0 ▸ h2⟩
    · rintro ⟨d, h1, h2⟩
      have hs := sub_map Desc.forget h1
      rw [show mapArt Desc.forget (.art d : Value N) = .art d.forget from rfl] at hs
      obtain ⟨j, _, _, hm⟩ := hart _ hs
      obtain ⟨d', m1, m2, m3⟩ := (forall₂_mem g3).1 _ (by simpa using hm)
      have := hU.inj m2 hs m3
      injection this with this
      exact ⟨d', m1, by rw [this, stored_forget]; exact h2⟩

/-- C75 (identifiers do not always identify values, see `C64_violation`): if all artifacts that are not known have a
replacement, the artifacts downloaded before an entry is stored, and kept when it is taken over to the youngest generation,
are exactly the artifacts mentioned in the target result read back. -/
theorem C75_artifacts_partial (t : HashType) (c : Casts N) (repl : Repl) (r : TargetResult N) (implied : List Str)
    (hok : r.OK t) (hr : ReplOK t repl) (hid : IdsOK h r.provides) (hcv : Covered repl r) (j : J N)
    (e : fromTarget h repl r implied = some j) :
    ∃ infos, toArtifacts t c j = .ok infos ∧
      ∀ i, i ∈ infos ↔ i.failed = false ∧ (r.stored repl).Has (.known i.digest i.type none) := by
  obtain ⟨a, p, f, e1, e2, e3, _, rfl⟩ := entry_cases h e
  obtain ⟨b1, b2, b3, _⟩ := entry_at (implied := implied) (a := .obj a) (p := p) (f := .obj f)
  obtain ⟨la, x1, y1⟩ := scan_spec c hr hok hcv (fun kd hkd => .inl ⟨kd.1, hkd⟩) e1
  obtain ⟨lf, x2, y2⟩ := scan_spec c hr hok hcv (fun kd hkd => .inr (.inl ⟨kd.1, hkd⟩)) e2
  obtain ⟨lp, x3, y3⟩ := scanProvides_spec h c hr hok hcv hid e3
  refine ⟨la ++ lf ++ lp, ?_, fun i => ?_⟩
  · unfold toArtifacts
    rw [b1, b2, b3]
    simp only [Out.bind, x1, x2, x3]
  · have ha : ∀ l : List (Str × Desc), (∃ kd ∈ l, IsInfo (stored repl kd.2) i) ↔
        i.failed = false ∧ ∃ k, (k, Desc.known i.digest i.type none) ∈ l.map fun kd => (kd.1, stored repl kd.2) := by
      intro l
      constructor
      · rintro ⟨kd, h1, h2, h3⟩
        exact ⟨h3, kd.1, List.mem_map.mpr ⟨kd, h1, by rw [h2]⟩⟩
      · rintro ⟨h3, k, hk⟩
        obtain ⟨kd, h1, h2⟩ := List.mem_map.mp hk
        exact ⟨kd, h1, (Prod.mk.inj h2).2, h3⟩
    have hp : (∃ d, Sub (.art d) r.provides ∧ IsInfo (stored repl d) i) ↔
        i.failed = false ∧ Sub (.art (.known i.digest i.type none)) (mapArt (stored repl) r.provides) := by
      constructor
      · rintro ⟨d, h1, h2, h3⟩
        have := sub_map (stored repl) h1
        rw [mapArt, h2] at this
        exact ⟨h3, this⟩
      · rintro ⟨h3, hs⟩
        obtain ⟨u, u1, u2⟩ := sub_mapArt hs _ rfl
        cases u with
        | art d =>
          rw [mapArt] at u2
          injection u2 with u2
          exact ⟨d, u1, u2.symm, h3⟩
        | _ => rw [mapArt] at u2; cases u2
    simp only [List.mem_append, y1, y2, y3, ha, hp, TargetResult.Has, TargetResult.stored]
    tauto

/-! ## Writing entries -/

theorem idsOf_spec {t : HashType} {key : Str} : ∀ {l : List (J N)} {ids : List Str}, idsOf t key l = some ids →
    ∀ s ∈ stringsUpTo l, s = key ∨ s ∈ ids
  | [], _, _ => fun s hs => nomatch hs
  | .str s :: l, ids, e => by
    unfold idsOf at e
    intro x hx
    rcases List.mem_cons.mp hx with rfl | hx
    · split at e
      · exact .inl ‹_›
      · split at e
        · obtain ⟨l', _, e⟩ := Option.bind_eq_some_iff.mp e
          injection e with e
          subst e
          exact .inr (by simp)
        · cases e
    · split at e
      · exact idsOf_spec e x hx
      · split at e
        · obtain ⟨l', e', e⟩ := Option.bind_eq_some_iff.mp e
          injection e with e
          subst e
          rcases idsOf_spec e' x hx with h | h
          · exact .inl h
          · exact .inr (by simp [h])
        · cases e
  | .null :: _, _, e => nomatch e
  | .bool _ :: _, _, e => nomatch e
  | .num _ :: _, _, e => nomatch e
  | .arr _ :: _, _, e => nomatch e
  | .obj _ :: _, _, e => nomatch e

theorem toImpliedIds_spec {t : HashType} {key : Str} {j : J N} {ids : List Str} (e : toImpliedIds t key j = some ids) :
    ∀ s ∈ toImplied j, s = key ∨ s ∈ ids := by
  unfold toImpliedIds at e
  unfold toImplied
  cases hm : member j impliedKey with
  | none => exact fun s hs => nomatch hs
  | some l =>
    rw [hm] at e
    exact idsOf_spec e

/-- What holds while entries are written. -/
structure WInv (jb : Job N) (s : World N) : Prop where
  async : Async.Reachable s.map
  calls : ∀ (c : Nat) (r : Async.Call Str) (k : Str), s.map.core.calls[c]? = some r → r.owner = some k →
    ∃ e, jb.entry k = some e ∧ toImpliedIds jb.type k e = some r.keys
  set : ∀ k v, Async.Event.setterCalled k v ∈ s.map.core.log → (s.tc k).isSome = true
  fetched : ∀ k, s.fetched k → ∃ e infos, jb.entry k = some e ∧ toArtifacts jb.type jb.casts e = .ok infos ∧
    ∀ i ∈ infos, s.cas i
  written : ∀ k, s.written k → (s.tc k).isSome = true
  complete : ∀ k e, s.tc k = some e → Complete jb.type jb.casts s.cas s.tc k e

theorem Complete.mono {t : HashType} {c : Casts N} {cas cas' : ObjectInfo → Prop} {tc tc' : Str → Option (J N)}
    {k : Str} {e : J N} (hc : Complete t c cas tc k e) (h1 : ∀ i, cas i → cas' i)
    (h2 : ∀ k, (tc k).isSome = true → (tc' k).isSome = true) : Complete t c cas' tc' k e := by
  obtain ⟨infos, g1, g2, g3⟩ := hc
  exact ⟨infos, g1, fun i hi => h1 i (g2 i hi), fun j hj => (g3 j hj).imp id (h2 j)⟩

/-- All calls to a setter were there before. -/
theorem exec_setter {core : Async.Core Str Unit} {x : Async.Item Str Unit} (k : Str) (v : Unit)
    (hm : Async.Event.setterCalled k v ∈ (Async.exec x core).core.log) : Async.Event.setterCalled k v ∈ core.log := by
  cases x <;> simp only [Async.exec] at hm <;> (repeat' split at hm) <;>
    first
    | exact hm
    | (simpa [Async.Core.ub] using hm)

theorem exec_calls {core : Async.Core Str Unit} {x : Async.Item Str Unit} :
    (Async.exec x core).core.calls = core.calls := by
  cases x <;> simp only [Async.exec] <;> (repeat' split) <;> rfl

theorem calls_snoc {calls : List (Async.Call Str)} {r0 r : Async.Call Str} {c : Nat}
    (hc : (calls ++ [r0])[c]? = some r) : calls[c]? = some r ∨ r = r0 := by
  rw [List.getElem?_append] at hc
  split at hc
  · exact .inl hc
  · right
    have := List.mem_of_getElem? hc
    simpa using this

theorem winv_step {jb : Job N} {s s' : World N} (i : WInv jb s) (hs : Step jb s s') : WInv jb s' := by
  cases hs with
  | op core pre post x hm =>
    have hcore : core = s.map.core := by rw [hm]
    refine ⟨.step i.async (by rw [hm]; exact .op core pre post x), ?_, ?_, i.fetched, i.written, i.complete⟩
    · intro c r k hc hr
      simp only [exec_calls] at hc
      exact i.calls c r k (hcore ▸ hc) hr
    · intro k v hk
      exact i.set k v (hcore ▸ exec_setter k v hk)
  | request keys handler m hm =>
    subst hm
    refine ⟨.step i.async (.call s.map.core s.map.pool ⟨none, keys, handler⟩ (fun o ho => nomatch ho)), ?_, i.set,
      i.fetched, i.written, i.complete⟩
    intro c r k hc hr
    rcases calls_snoc hc with hc | rfl
    · exact i.calls c r k hc hr
    · cases hr
  | found k hk ht hf =>
    refine ⟨.step i.async (.setter s.map.core s.map.pool k () hk), i.calls, ?_, i.fetched, i.written, i.complete⟩
    intro k' v hk'
    rcases List.mem_cons.mp hk' with e | hk'
    · cases e
      exact hf
    · exact i.set k' v hk'
  | ask k e ids hk he hi =>
    refine ⟨.step i.async (.call s.map.core s.map.pool ⟨some k, ids, true⟩
      (fun o ho => by cases ho; exact ⟨hk, rfl⟩)), ?_, i.set, i.fetched, i.written, i.complete⟩
    intro c r k' hc hr
    rcases calls_snoc hc with hc | rfl
    · exact i.calls c r k' hc hr
    · cases hr
      exact ⟨e, he, hi⟩
  | download k e infos hc hi =>
    refine ⟨i.async, i.calls, i.set, ?_, i.written, ?_⟩
    · rintro k' (hk' | rfl)
      · obtain ⟨e', infos', g1, g2, g3⟩ := i.fetched k' hk'
        exact ⟨e', infos', g1, g2, fun x hx => .inl (g3 x hx)⟩
      · obtain ⟨_, _, _, _, _, _, he⟩ := hc
        exact ⟨e, infos, he, hi, fun x hx => .inr hx⟩
    · intro k' e' he'
      exact (i.complete k' e' he').mono (fun x hx => .inl hx) (fun _ h => h)
  | store k e hc hf =>
    obtain ⟨c, r, vs, c1, c2, c3, he⟩ := hc
    have hmono : ∀ j, (s.tc j).isSome = true → (if j = k then some e else s.tc j).isSome = true := by
      intro j hj
      split
      · rfl
      · exact hj
    refine ⟨i.async, i.calls, fun k' v hk' => hmono _ (i.set k' v hk'), i.fetched, ?_, ?_⟩
    · rintro k' (hk' | rfl)
      · exact hmono _ (i.written k' hk')
      · show (if k' = k' then some e else s.tc k').isSome = true
        rw [if_pos rfl]
        rfl
    · intro k' e' he'
      replace he' : (if k' = k then some e else s.tc k') = some e' := he'
      split at he'
      · rename_i hk'
        subst hk'
        cases he'
        obtain ⟨e0, infos, g1, g2, g3⟩ := i.fetched k' hf
        rw [he] at g1
        cases g1
        obtain ⟨e1, g4, g5⟩ := i.calls c r k' c2 c3
        rw [he] at g4
        cases g4
        refine ⟨infos, g2, g3, fun j hj => (toImpliedIds_spec g5 j hj).imp id fun hj => hmono j ?_⟩
        obtain ⟨r', d1, d2, d3⟩ := Async.C26_ready i.async c1
        rw [c2] at d1
        cases d1
        obtain ⟨v, _, hv⟩ := (forall₂_mem d3).1 j hj
        exact i.set j v hv
      · exact (i.complete k' e' he').mono (fun _ h => h) hmono
  | set k hk hw =>
    refine ⟨.step i.async (.setter s.map.core s.map.pool k () hk), i.calls, ?_, i.fetched, i.written, i.complete⟩
    intro k' v hk'
    rcases List.mem_cons.mp hk' with e | hk'
    · cases e
      exact i.written k hw
    · exact i.set k' v hk'
  | fatal k hk =>
    refine ⟨.step i.async (.fatal s.map.core s.map.pool k hk), i.calls, ?_, i.fetched, i.written, i.complete⟩
    intro k' v hk'
    rcases List.mem_cons.mp hk' with e | hk'
    · cases e
    · exact i.set k' v hk'
  | other cas tc h1 h2 h3 =>
    refine ⟨i.async, i.calls, fun k v hk => h2 k (i.set k v hk), ?_, fun k hk => h2 k (i.written k hk), ?_⟩
    · intro k hk
      obtain ⟨e, infos, g1, g2, g3⟩ := i.fetched k hk
      exact ⟨e, infos, g1, g2, fun x hx => h1 x (g3 x hx)⟩
    · intro k e he
      rcases h3 k e he with h | h
      · exact (i.complete k e h).mono h1 h2
      · exact h.2

theorem winv {jb : Job N} {cas : ObjectInfo → Prop} {tc : Str → Option (J N)}
    (h0 : ∀ k e, tc k = some e → Complete jb.type jb.casts cas tc k e) {s : World N}
    (hs : Reachable jb cas tc s) : WInv jb s := by
  induction hs with
  | start => exact ⟨.start, fun c r k hc _ => (nomatch hc), fun k v hk => (nomatch hk), fun k hk => hk.elim,
      fun k hk => hk.elim, h0⟩
  | step _ hs ih => exact winv_step ih hs

/-- C75: whatever the order of events and whatever fails, at any time, the artifacts mentioned in an entry of the target
cache are in the content-addressable storage, and its implied export targets are in the target cache, if this was so
before. -/
theorem C75_complete (jb : Job N) (cas : ObjectInfo → Prop) (tc : Str → Option (J N))
    (h0 : ∀ k e, tc k = some e → Complete jb.type jb.casts cas tc k e) (s : World N) (hs : Reachable jb cas tc s)
    (k : Str) (e : J N) (he : s.tc k = some e) :
    ∃ infos, toArtifacts jb.type jb.casts e = .ok infos ∧ (∀ i ∈ infos, s.cas i) ∧
      ∀ j ∈ toImplied e, j = k ∨ (s.tc j).isSome = true := (winv h0 hs).complete k e he

/-- C75: when the request to write entries is answered, there is an entry for all the keys. -/
theorem C75_all_written (jb : Job N) (cas : ObjectInfo → Prop) (tc : Str → Option (J N))
    (h0 : ∀ k e, tc k = some e → Complete jb.type jb.casts cas tc k e) (s : World N) (hs : Reachable jb cas tc s)
    (c : Nat) (r : Async.Call Str) (vs : List Unit) (hr : s.map.core.calls[c]? = some r)
    (hc : Async.Event.consumed c vs ∈ s.map.core.log) (k : Str) (hk : k ∈ r.keys) : (s.tc k).isSome = true := by
  have i := winv h0 hs
  obtain ⟨r', d1, _, d3⟩ := Async.C26_ready i.async hc
  rw [hr] at d1
  cases d1
  obtain ⟨v, _, hv⟩ := (forall₂_mem d3).1 k hk
  exact i.set k v hv

/-- C75: entries are not invented: they were there before, or are the ones for the export targets analysed, or were written
by another process. -/
theorem C75_origin (jb : Job N) (cas : ObjectInfo → Prop) (tc : Str → Option (J N)) (s : World N)
    (hs : Reachable jb cas tc s) (k : Str) (e : J N) (he : s.tc k = some e) :
    tc k = some e ∨ (∃ t, jb.targets k = some t ∧ fromTarget jb.hashing jb.repl t.1 t.2 = some e) ∨ jb.foreign k e := by
  induction hs with
  | start => exact .inl he
  | step _ hs ih =>
    cases hs with
    | store k' e' hc hf =>
      replace he : (if k = k' then some e' else _) = some e := he
      split at he
      · rename_i hk
        subst hk
        cases he
        obtain ⟨_, _, _, _, _, _, h1⟩ := hc
        exact .inr (.inl (Option.bind_eq_some_iff.mp h1))
      · exact ih he
    | other cas' tc' h1 h2 h3 =>
      rcases h3 k e he with h | h
      · exact ih h
      · exact .inr (.inr h.1)
    | _ => exact ih he

/-- An entry for a key was made from what analysis gives for some of the arguments in use leading to this key. -/
def Honest (h : Hashing N) (blob : Str → Str) (t : HashType) (analysis : KeyArgs N → TargetResult N × List Str)
    (used : KeyArgs N → Prop) (k : Str) (e : J N) : Prop :=
  ∃ a repl, used a ∧ k = computeKey h blob a ∧ ReplOK t repl ∧ fromTarget h repl (analysis a).1 (analysis a).2 = some e

/-- C75 (restricted as `C75_key_partial` and `C75_entry_partial`): the target cache is transparent. If entries are only
made from what analysis gives, which depends on repository key, target, and configuration only, then what is found in the
target cache for a target is what analysis gives for this very target, with artifacts replaced by known ones. -/
theorem C75_transparent_partial (jb : Job N) (blob : Str → Str) (analysis : KeyArgs N → TargetResult N × List Str)
    (used : KeyArgs N → Prop) (hN : Json.NumText jb.hashing.text)
    (hplain : ∀ a, used a → ∀ kv ∈ a.config, IsJson kv.2)
    (hcol : ∀ a b, used a → used b → blob (keyText jb.hashing a) = blob (keyText jb.hashing b) →
      keyText jb.hashing a = keyText jb.hashing b)
    (hok : ∀ a, used a → (analysis a).1.OK jb.type ∧ IdsOK jb.hashing (analysis a).1.provides)
    (hr : ReplOK jb.type jb.repl)
    (ht : ∀ k t, jb.targets k = some t → ∃ a, used a ∧ k = computeKey jb.hashing blob a ∧ t = analysis a)
    (hf : ∀ k e, jb.foreign k e → Honest jb.hashing blob jb.type analysis used k e)
    (cas : ObjectInfo → Prop) (tc : Str → Option (J N))
    (h0 : ∀ k e, tc k = some e → Honest jb.hashing blob jb.type analysis used k e)
    (s : World N) (hs : Reachable jb cas tc s) (a : KeyArgs N) (ha : used a) (e : J N)
    (he : s.tc (computeKey jb.hashing blob a) = some e) :
    ∃ repl n0, ReplOK jb.type repl ∧
      (∀ n, n0 ≤ n → TargetResult.fromJson jb.type jb.casts n e = .ok ((analysis a).1.stored repl)) ∧
      toImplied e = (analysis a).2 := by
  have hh : Honest jb.hashing blob jb.type analysis used (computeKey jb.hashing blob a) e := by
    rcases C75_origin jb cas tc s hs _ e he with h | ⟨t, h1, h2⟩ | h
    · exact h0 _ e h
    · obtain ⟨b, b1, b2, rfl⟩ := ht _ t h1
      exact ⟨b, jb.repl, b1, b2, hr, h2⟩
    · exact hf _ e h
  obtain ⟨b, repl, b1, b2, b3, b4⟩ := hh
  have := (C75_key_partial jb.hashing hN blob a b (hplain a ha) (hplain b b1) (hcol a b ha b1)).mp b2
  subst this
  obtain ⟨⟨n0, h1⟩, h2⟩ := C75_entry_partial jb.hashing jb.type jb.casts repl (analysis a).1 (analysis a).2 (hok a ha).1
    b3 (hok a ha).2 e b4
  exact ⟨repl, n0, b3, h1, h2⟩

end Verif.TC
