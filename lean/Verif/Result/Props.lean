import Verif.Result.Lemmas

/-!
# Target results in the target cache: C64
-/

namespace Verif.Result

open Verif.Art Verif.Dig Verif.Expr

variable {N : Type} (h : Hashing N)

/-! ## Repositories of known artifacts do not matter -/

theorem toJson_forget (d : Desc) : (d.forget.toJson : J N) = d.toJson := by cases d <;> rfl

theorem mapArtList_eq (f : Desc → Desc) : ∀ l : List (Value N), mapArtList f l = l.map (mapArt f)
  | [] => rfl
  | v :: t => by rw [mapArtList, mapArtList_eq f t, List.map_cons]

theorem mapArtItems_eq (f : Desc → Desc) : ∀ l : List (Str × Value N),
    mapArtItems f l = l.map fun kv => (kv.1, mapArt f kv.2)
  | [] => rfl
  | (k, v) :: t => by rw [mapArtItems, mapArtItems_eq f t, List.map_cons]

theorem jsonList_eq (all : Bool) : ∀ l : List (Value N), jsonList h all l = l.map (json h all)
  | [] => rfl
  | v :: t => by rw [jsonList, jsonList_eq all t, List.map_cons]

theorem jsonItems_eq (all : Bool) : ∀ l : List (Str × Value N),
    jsonItems h all l = l.map fun kv => (kv.1, json h all kv.2)
  | [] => rfl
  | (k, v) :: t => by rw [jsonItems, jsonItems_eq all t, List.map_cons]

theorem preimageList_eq : ∀ l : List (Value N),
    preimageList h l = l.flatMap fun v => h.H (preimage h v)
  | [] => rfl
  | v :: t => by rw [preimageList, preimageList_eq t, List.flatMap_cons]

theorem preimageItems_eq : ∀ l : List (Str × Value N),
    preimageItems h l = l.flatMap fun kv => h.H kv.1 ++ h.H (preimage h kv.2)
  | [] => rfl
  | (k, v) :: t => by rw [preimageItems, preimageItems_eq t, List.flatMap_cons]

theorem sizeOf_child {c u : Value N} (hc : Child c u) : sizeOf c < sizeOf u := by
  cases hc with
  | entry hm =>
    have := List.sizeOf_lt_of_mem hm
    simp only [Val.list.sizeOf_spec]
    omega
  | value hm =>
    have := List.sizeOf_lt_of_mem hm
    simp only [Prod.mk.sizeOf_spec] at this
    simp only [Val.map.sizeOf_spec]
    omega
  | _ => simp <;> omega

/-- Induction over the parts of a value. -/
theorem parts_induction {P : Value N → Prop} (step : ∀ v, (∀ c, Child c v → P c) → P v) (v : Value N) :
    P v := by
  have : ∀ n, ∀ v : Value N, sizeOf v ≤ n → P v := by
    intro n
    induction n with
    | zero => intro v hv; cases v <;> simp at hv
    | succ n ih =>
      exact fun v hv => step v (fun c hc => ih c (by have := sizeOf_child hc; omega))
  exact this _ v (Nat.le_refl _)

theorem json_forget (v : Value N) : ∀ all, json h all (mapArt Desc.forget v) = json h all v := by
  induction v using parts_induction with
  | step v ih =>
    intro all
    cases v with
    | art d => exact toJson_forget d
    | result a p r =>
      simp only [mapArt, json, ih a (.stage a p r), ih p (.provides a p r), ih r (.runfiles a p r)]
    | valueNode w => simp only [mapArt, json, ih w (.node w)]
    | absNode ty a b => simp only [mapArt, json, ih a (.strings ty a b), ih b (.targets ty a b)]
    | list l =>
      simp only [mapArt, json, mapArtList_eq, jsonList_eq, List.map_map, Json.arr.injEq]
      exact List.map_congr_left (fun w hw => ih w (.entry hw) all)
    | map m =>
      simp only [mapArt, json, mapArtItems_eq, jsonItems_eq, List.map_map, Json.obj.injEq]
      refine List.map_congr_left (fun kv hkv => ?_)
      simp only [Function.comp_apply, ih kv.2 (.value (k := kv.1) hkv) all]
    | _ => rfl

theorem preimage_forget (v : Value N) : preimage h (mapArt Desc.forget v) = preimage h v := by
  induction v using parts_induction with
  | step v ih =>
    cases v with
    | list l =>
      simp only [mapArt, preimage, mapArtList_eq, preimageList_eq, List.flatMap_map, List.cons.injEq,
        true_and]
      exact List.flatMap_congr (fun w hw => by rw [ih w (.entry hw)])
    | map m =>
      simp only [mapArt, preimage, mapArtItems_eq, preimageItems_eq, List.flatMap_map, List.cons.injEq,
        true_and]
      exact List.flatMap_congr (fun kv hkv => by rw [ih kv.2 (.value (k := kv.1) hkv)])
    | art d =>
      have := json_forget h (.art d) true
      simp only [mapArt] at this
      simp only [mapArt, preimage, hashPrefix, this]
    | result a p r =>
      have := json_forget h (.result a p r) true
      simp only [mapArt] at this
      simp only [mapArt, preimage, hashPrefix, this]
    | valueNode w =>
      have := json_forget h (.valueNode w) true
      simp only [mapArt] at this
      simp only [mapArt, preimage, hashPrefix, this]
    | absNode ty a b =>
      have := json_forget h (.absNode ty a b) true
      simp only [mapArt] at this
      simp only [mapArt, preimage, hashPrefix, this]
    | _ => rfl

theorem identifier_forget (v : Value N) :
    identifier h (mapArt Desc.forget v) = identifier h v := by
  simp only [identifier, Expr.hash, preimage_forget]

theorem ref_forget (v : Value N) : ref h (mapArt Desc.forget v) = ref h v := by
  simp only [ref, identifier_forget]

theorem serArt_forget (repl : Repl) (d : Desc) : serArt (N := N) repl d.forget = serArt repl d := by
  cases d <;> rfl

theorem serList_congr (repl : Repl) (l : List (Value N)) :
    (∀ v ∈ l, ∀ s, ser h repl (mapArt Desc.forget v) s = ser h repl v s) →
    ∀ s, serList h repl (mapArtList Desc.forget l) s = serList h repl l s := by
  induction l with
  | nil => intros; rfl
  | cons v t ih =>
    intro hv s
    unfold mapArtList serList
    rw [hv v (by simp)]
    congr 1
    funext s
    exact ih (fun w hw => hv w (by simp [hw])) s

theorem serItems_congr (repl : Repl) (l : List (Str × Value N)) :
    (∀ v ∈ l, ∀ s, ser h repl (mapArt Desc.forget v.2) s = ser h repl v.2 s) →
    ∀ s, serItems h repl (mapArtItems Desc.forget l) s = serItems h repl l s := by
  induction l with
  | nil => intros; rfl
  | cons v t ih =>
    obtain ⟨k, v⟩ := v
    intro hv s
    unfold mapArtItems serItems
    rw [hv (k, v) (by simp)]
    congr 1
    funext s
    exact ih (fun w hw => hv w (by simp [hw])) s

theorem ser_forget (repl : Repl) (v : Value N) : ∀ s,
    ser h repl (mapArt Desc.forget v) s = ser h repl v s := by
  induction v using parts_induction with
  | step v ih =>
    intro s
    have hid := identifier_forget h v
    cases v with
    | art d =>
      simp only [mapArt] at hid ⊢
      unfold ser
      rw [hid]
      simp only [hid, serArt_forget]
    | result a p r =>
      simp only [mapArt] at hid ⊢
      unfold ser
      rw [hid]
      simp only [hid, ih a (.stage a p r), ih p (.provides a p r), ih r (.runfiles a p r), ref_forget]
    | valueNode w =>
      simp only [mapArt] at hid ⊢
      unfold ser
      rw [hid]
      simp only [hid, ih w (.node w), ref_forget]
    | absNode ty a b =>
      simp only [mapArt] at hid ⊢
      unfold ser
      rw [hid]
      simp only [hid, ih a (.strings ty a b), ih b (.targets ty a b), ref_forget]
    | list l =>
      simp only [mapArt] at hid ⊢
      unfold ser
      rw [hid]
      have e : (mapArtList Desc.forget l).map (ref h) = l.map (ref h) := by
        rw [mapArtList_eq, List.map_map]
        exact List.map_congr_left (fun w _ => ref_forget h w)
      simp only [hid, serList_congr h repl l (fun v hv => ih v (.entry hv)), e]
    | map m =>
      simp only [mapArt] at hid ⊢
      unfold ser
      rw [hid]
      have e : (mapArtItems Desc.forget m).map (fun kv => (kv.1, ref h kv.2))
          = m.map (fun kv => (kv.1, ref h kv.2)) := by
        rw [mapArtItems_eq, List.map_map]
        refine List.map_congr_left (fun w _ => ?_)
        simp only [Function.comp_apply, ref_forget h w.2]
      simp only [hid, serItems_congr h repl m (fun v hv => ih v.2 (.value (k := v.1) hv)), e]
    | _ => rfl

theorem child_mapArt {f : Desc → Desc} {c u : Value N} (hc : Child c (mapArt f u)) :
    ∃ c0, Child c0 u ∧ c = mapArt f c0 := by
  cases u with
  | result a p r =>
    simp only [mapArt] at hc
    cases hc with
    | stage => exact ⟨_, .stage a p r, rfl⟩
    | provides => exact ⟨_, .provides a p r, rfl⟩
    | runfiles => exact ⟨_, .runfiles a p r, rfl⟩
  | valueNode w =>
    simp only [mapArt] at hc
    cases hc with
    | node => exact ⟨_, .node w, rfl⟩
  | absNode ty a b =>
    simp only [mapArt] at hc
    cases hc with
    | strings => exact ⟨_, .strings ty a b, rfl⟩
    | targets => exact ⟨_, .targets ty a b, rfl⟩
  | list l =>
    simp only [mapArt, mapArtList_eq] at hc
    cases hc with
    | entry hm =>
      obtain ⟨w, hw, rfl⟩ := List.mem_map.mp hm
      exact ⟨w, .entry hw, rfl⟩
  | map m =>
    simp only [mapArt, mapArtItems_eq] at hc
    cases hc with
    | value hm =>
      obtain ⟨⟨k, w⟩, hw, e⟩ := List.mem_map.mp hm
      injection e with _ e
      exact ⟨w, .value hw, e.symm⟩
  | _ => simp only [mapArt] at hc; cases hc

theorem sub_mapArt {f : Desc → Desc} {u w : Value N} (hs : Sub u w) : ∀ v, w = mapArt f v →
    ∃ u0, Sub u0 v ∧ u = mapArt f u0 := by
  induction hs with
  | refl => exact fun v e => ⟨v, .refl v, e⟩
  | step hc _ ih =>
    intro v e
    obtain ⟨u0, h1, h2⟩ := ih v e
    subst h2
    obtain ⟨c0, h3, h4⟩ := child_mapArt hc
    exact ⟨c0, .step h3 h1, h4⟩

theorem sub_map (f : Desc → Desc) {u v : Value N} (hu : Sub u v) : Sub (mapArt f u) (mapArt f v) := by
  induction hu with
  | refl => exact .refl _
  | step hc _ ih =>
    refine .step ?_ ih
    cases hc with
    | stage a p r => exact .stage _ _ _
    | provides a p r => exact .provides _ _ _
    | runfiles a p r => exact .runfiles _ _ _
    | node v => exact .node _
    | strings ty s t => exact .strings _ _ _
    | targets ty s t => exact .targets _ _ _
    | entry hm =>
      simp only [mapArt, mapArtList_eq]
      exact .entry (List.mem_map_of_mem hm)
    | value hm =>
      simp only [mapArt, mapArtItems_eq]
      exact .value (List.mem_map.mpr ⟨_, hm, rfl⟩)

theorem stored_forget (repl : Repl) (d : Desc) : stored repl d.forget = stored repl d := by
  cases d <;> first | rfl | simp [stored, Desc.forget, Desc.isKnown]

theorem mapArt_stored_forget (repl : Repl) (v : Value N) :
    mapArt (stored repl) (mapArt Desc.forget v) = mapArt (stored repl) v := by
  induction v using parts_induction with
  | step v ih =>
    cases v with
    | art d => simp only [mapArt, stored_forget]
    | result a p r =>
      simp only [mapArt, ih a (.stage a p r), ih p (.provides a p r), ih r (.runfiles a p r)]
    | valueNode w => simp only [mapArt, ih w (.node w)]
    | absNode ty a b => simp only [mapArt, ih a (.strings ty a b), ih b (.targets ty a b)]
    | list l =>
      simp only [mapArt, mapArtList_eq, List.map_map, Val.list.injEq]
      exact List.map_congr_left (fun w hw => ih w (.entry hw))
    | map m =>
      simp only [mapArt, mapArtItems_eq, List.map_map, Val.map.injEq]
      refine List.map_congr_left (fun kv hkv => ?_)
      simp only [Function.comp_apply, ih kv.2 (.value (k := kv.1) hkv)]
    | _ => rfl

/-- Parts with the same identifier are the same, up to the repositories of known artifacts. -/
def IdsOK (v : Value N) : Prop := ∀ u u', Sub u v → Sub u' v → identifier h u = identifier h u' →
  mapArt Desc.forget u = mapArt Desc.forget u'

theorem family {v : Value N} (hid : IdsOK h v) :
    Family h (fun u => Sub u (mapArt Desc.forget v)) where
  child := fun hc hu => .step hc hu
  inj := by
    intro u u' hu hu' e
    obtain ⟨a, h1, rfl⟩ := sub_mapArt hu v rfl
    obtain ⟨b, h2, rfl⟩ := sub_mapArt hu' v rfl
    rw [identifier_forget, identifier_forget] at e
    exact hid a b h1 h2 e

theorem inv_empty (repl : Repl) (U : Value N → Prop) : Inv h repl U (⟨[], [], [], []⟩ : Tab N) where
  asc := List.Pairwise.nil
  nodes := fun _ _ e => nomatch e
  arts := fun _ e => nomatch e
  abs := fun _ e => nomatch e
  results := fun _ e => nomatch e

theorem strings_map (l : List Str) : strings (l.map (Json.str : Str → J N)) = .ok l := by
  induction l with
  | nil => rfl
  | cons s t ih => simp only [List.map_cons, strings, str?, Out.bind, ih]

theorem forget_eq_art {v : Value N} {d : Desc} (e : Val.art d = mapArt Desc.forget v) :
    ∃ d0, v = .art d0 ∧ d = d0.forget := by
  cases v with
  | art d0 =>
    simp only [mapArt] at e
    injection e with e
    exact ⟨d0, rfl, e⟩
  | _ => simp only [mapArt] at e; cases e

theorem forget_eq_name {v : Value N} {x : Names.Entity} (e : Val.name x = mapArt Desc.forget v) :
    v = .name x := by
  cases v with
  | name y => simpa only [mapArt] using e.symm
  | _ => simp only [mapArt] at e; cases e

theorem valid_forget {t : HashType} {d : Desc} (hd : d.Valid t) : d.forget.Valid t := by
  cases d <;> exact hd

theorem provides_round_trip {t : HashType} (c : Casts N) {repl : Repl} (hr : ReplOK t repl) {v : Value N}
    (hid : IdsOK h v) (hname : ∀ e, ¬ Sub (.name e) v) (hv : ∀ d, Sub (.art d) v → d.Valid t) {j : J N}
    (e : serProvides h repl v = some j) (n : Nat) (hn : sizeOf (mapArt Desc.forget v) ≤ n) :
    deProvides t c n j = .ok (mapArt (stored repl) v) := by
  obtain ⟨s, es, ej⟩ := Option.bind_eq_some_iff.mp e
  injection ej with ej
  subst ej
  rw [← ser_forget] at es
  obtain ⟨i, _, hh⟩ := ser_inv h (family h hid) _ _ (Nat.le_refl _) (.refl _) _ _ (inv_empty h repl _) es
  have hm : Matches ⟨t, c, .obj s.nodes, s.arts.reverse, s.abs.reverse, s.results.reverse⟩ s :=
    ⟨rfl, by simp, by simp, by simp⟩
  obtain ⟨f, ef, _⟩ := de_spec (family h hid) i hm hr
    (fun d hd => by
      obtain ⟨u, h1, h2⟩ := sub_mapArt hd v rfl
      obtain ⟨d0, rfl, rfl⟩ := forget_eq_art h2
      exact valid_forget (hv d0 h1))
    (fun x hx => by
      obtain ⟨u, h1, h2⟩ := sub_mapArt hx v rfl
      exact hname x (forget_eq_name h2 ▸ h1))
    n _ hn (.refl _) hh [] (fun _ _ e => nomatch e)
  rw [ref_forget, mapArt_stored_forget] at ef
  have a1 : ∀ x1 x2 x3 x4 x5 : J N, let o : J N := .obj [("entry".toList, x1), ("nodes".toList, x2),
      ("provided_artifacts".toList, x3), ("provided_nodes".toList, x4), ("provided_results".toList, x5)]
      at? o "entry" = .ok x1 ∧ at? o "nodes" = .ok x2 ∧ at? o "provided_artifacts" = .ok x3 ∧
      at? o "provided_nodes" = .ok x4 ∧ at? o "provided_results" = .ok x5 :=
    fun _ _ _ _ _ => ⟨rfl, rfl, rfl, rfl, rfl⟩
  obtain ⟨b1, b2, b3, b4, b5⟩ := a1 (ref h v) (.obj s.nodes) (.arr (s.arts.reverse.map .str))
    (.arr (s.abs.reverse.map .str)) (.arr (s.results.reverse.map .str))
  unfold deProvides
  simp only [b1, b2, b3, b4, b5, Out.bind, jsonSet, strings_map, ef]

theorem artMap_round_trip {t : HashType} (c : Casts N) {repl : Repl} (hr : ReplOK t repl) :
    ∀ (l : List (Str × Desc)) (o : List (Str × J N)), (∀ kd ∈ l, kd.2.Valid t) →
    serArtMap repl l = some o → deArtMap t c o = .ok (l.map fun kd => (kd.1, stored repl kd.2))
  | [], o, _, e => by
    simp only [serArtMap, Option.some.injEq] at e
    subst e
    rfl
  | (k, d) :: l, o, hv, e => by
    unfold serArtMap at e
    obtain ⟨j, e1, e⟩ := Option.bind_eq_some_iff.mp e
    obtain ⟨o', e2, e⟩ := Option.bind_eq_some_iff.mp e
    injection e with e
    subst e
    have := artMap_round_trip c hr l o' (fun kd hkd => hv kd (by simp [hkd])) e2
    simp only [deArtMap, serArt_fromJson hr (hv (k, d) (by simp)) e1, this, Out.bind, List.map_cons]

/-- C64 (identifiers do not always identify values, see `C64_violation`): what is written for a target
result is read back as the target result with its artifacts replaced by known ones. -/
theorem C64_round_trip_partial (t : HashType) (c : Casts N) (repl : Repl) (r : TargetResult N)
    (hok : r.OK t) (hr : ReplOK t repl) (hid : IdsOK h r.provides) (j : J N)
    (e : r.toJson h repl = some j) :
    ∃ n0, ∀ n, n0 ≤ n → TargetResult.fromJson t c n j = .ok (r.stored repl) := by
  refine ⟨sizeOf (mapArt Desc.forget r.provides), fun n hn => ?_⟩
  obtain ⟨a, e1, e⟩ := Option.bind_eq_some_iff.mp e
  obtain ⟨f, e2, e⟩ := Option.bind_eq_some_iff.mp e
  obtain ⟨p, e3, e⟩ := Option.bind_eq_some_iff.mp e
  injection e with e
  subst e
  have h1 := artMap_round_trip c hr _ _ (fun kd hkd => hok.valid kd.2 (.inl ⟨kd.1, hkd⟩)) e1
  have h2 := artMap_round_trip c hr _ _ (fun kd hkd => hok.valid kd.2 (.inr (.inl ⟨kd.1, hkd⟩))) e2
  have h3 := provides_round_trip h c hr hid hok.names (fun d hd => hok.valid d (.inr (.inr hd))) e3 n hn
  have a1 : ∀ x1 x2 x3 : J N, let o : J N := .obj [("artifacts".toList, x1), ("provides".toList, x2),
      ("runfiles".toList, x3)]
      at? o "artifacts" = .ok x1 ∧ at? o "provides" = .ok x2 ∧ at? o "runfiles" = .ok x3 :=
    fun _ _ _ => ⟨rfl, rfl, rfl⟩
  obtain ⟨b1, b2, b3⟩ := a1 (.obj a) p (.obj f)
  unfold TargetResult.fromJson
  simp only [b1, b2, b3, Out.bind, deArtifacts, h1, h2, h3, TargetResult.stored]

/-! ## Identifiers -/

theorem clear_child {t : HashType} {c u : Value N} (hc : Child c u) (hu : Clear t u) : Clear t c := by
  cases hu with
  | result h1 h2 h3 => cases hc <;> assumption
  | valueNode h1 => cases hc; assumption
  | absNode h1 h2 => cases hc <;> assumption
  | list h1 _ => cases hc with | entry hm => exact h1 _ hm
  | map h1 _ => cases hc with | value hm => exact h1 _ hm
  | _ => cases hc

theorem clear_identified {t : HashType} (v : Value N) (hv : Clear t v) : Identified t v := by
  induction v using parts_induction with
  | step v ih =>
    cases v with
    | list l => exact .list (fun w hw => ih w (.entry hw) (clear_child (.entry hw) hv))
    | map m => exact .map (fun kv hkv => ih kv.2 (.value (k := kv.1) hkv)
        (clear_child (.value (k := kv.1) hkv) hv))
    | _ => exact .atom rfl rfl hv

theorem identified_sub {t : HashType} {u v : Value N} (hs : Sub u v) (hv : Identified t v) :
    Identified t u := by
  induction hs with
  | refl => exact hv
  | step hc _ ih =>
    cases ih hv with
    | list h1 => cases hc with | entry hm => exact h1 _ hm
    | map h1 => cases hc with | value hm => exact h1 _ hm
    | atom h1 h2 h3 => exact clear_identified _ (clear_child hc h3)

/-- If values do not look like other ones, identifiers identify the parts of a value unless there is a
collision of the hash function. -/
theorem idsOK_of_identified (ho : h.OK) {t : HashType} {v : Value N}
    (hv : Identified t (mapArt Desc.forget v))
    (hn : ∀ u u', Sub u v → Sub u' v → NoCollision h.H
      (hashed h (mapArt Desc.forget u) ++ hashed h (mapArt Desc.forget u'))) : IdsOK h v := by
  intro u u' hu hu' e
  rw [← identifier_forget h u, ← identifier_forget h u'] at e
  exact C09_identifier_partial h ho t _ _ (identified_sub (sub_map _ hu) hv)
    (identified_sub (sub_map _ hu') hv) (hn u u' hu hu') e

/-! ## Missing replacements -/

theorem serArt_none (repl : Repl) (d : Desc) : serArt (N := N) repl d = none ↔
    repl ≠ [] ∧ d.isKnown = false ∧ replacement repl d = none := by
  unfold serArt
  cases repl with
  | nil => simp
  | cons x t =>
    simp only [List.isEmpty_cons, Bool.false_eq_true, if_false, ne_eq, reduceCtorEq, not_false_eq_true,
      true_and]
    by_cases hk : d.isKnown = true
    · simp [hk]
    · rw [if_neg hk]
      cases replacement (x :: t) d <;> simp [hk]

theorem Sub.child {u c v : Value N} (hs : Sub u c) (hc : Child c v) : Sub u v := by
  induction hs with
  | refl => exact .step hc (.refl _)
  | step h1 _ ih => exact .step h1 (ih hc)

theorem ser_none (repl : Repl) (v : Value N) : ∀ s, ser h repl v s = none →
    ∃ d, Sub (.art d) v ∧ serArt (N := N) repl d = none := by
  induction v using parts_induction with
  | step v ih =>
    intro s e
    unfold ser at e
    split at e
    · cases e
    have lift : ∀ c, Child c v → ∀ s, ser h repl c s = none →
        ∃ d, Sub (.art d) v ∧ serArt (N := N) repl d = none := fun c hc s hs => by
      obtain ⟨d, h1, h2⟩ := ih c hc s hs
      exact ⟨d, h1.child hc, h2⟩
    cases v with
    | art d =>
      simp only [Option.bind_eq_none_iff] at e
      cases hx : serArt (N := N) repl d with
      | none => exact ⟨d, .refl _, hx⟩
      | some j => exact nomatch e j hx
    | valueNode w =>
      simp only at e
      obtain ⟨o, ho⟩ : ∃ o, ser h repl w (s.addNode (identifier h w.valueNode)) = o := ⟨_, rfl⟩
      cases o with
      | none => exact lift w (.node w) _ ho
      | some s1 => rw [ho] at e; cases e
    | absNode ty a b =>
      simp only at e
      obtain ⟨o, ho⟩ : ∃ o, ser h repl a (s.addNode (identifier h (.absNode ty a b))) = o := ⟨_, rfl⟩
      cases o with
      | none => exact lift a (.strings ty a b) _ ho
      | some s1 =>
        rw [ho] at e
        simp only [Option.bind_some] at e
        obtain ⟨o, ho⟩ : ∃ o, ser h repl b s1 = o := ⟨_, rfl⟩
        cases o with
        | none => exact lift b (.targets ty a b) _ ho
        | some s1 => rw [ho] at e; cases e
    | result a p r =>
      simp only at e
      obtain ⟨o, ho⟩ : ∃ o, ser h repl a (s.addResult (identifier h (.result a p r))) = o := ⟨_, rfl⟩
      cases o with
      | none => exact lift a (.stage a p r) _ ho
      | some s1 =>
        rw [ho] at e
        simp only [Option.bind_some] at e
        obtain ⟨o, ho⟩ : ∃ o, ser h repl r s1 = o := ⟨_, rfl⟩
        cases o with
        | none => exact lift r (.runfiles a p r) _ ho
        | some s2 =>
          rw [ho] at e
          simp only [Option.bind_some] at e
          obtain ⟨o, ho⟩ : ∃ o, ser h repl p s2 = o := ⟨_, rfl⟩
          cases o with
          | none => exact lift p (.provides a p r) _ ho
          | some s2 => rw [ho] at e; cases e
    | list l =>
      simp only at e
      have hl : ∀ l : List (Value N), ∀ s, serList h repl l s = none →
          ∃ w ∈ l, ∃ s, ser h repl w s = none := by
        intro l
        induction l with
        | nil => intro s e; cases e
        | cons w t iht =>
          intro s e
          unfold serList at e
          obtain ⟨o, ho⟩ : ∃ o, ser h repl w s = o := ⟨_, rfl⟩
          cases o with
          | none => exact ⟨w, by simp, s, ho⟩
          | some s1 =>
            rw [ho] at e
            obtain ⟨w', h1, h2⟩ := iht s1 e
            exact ⟨w', by simp [h1], h2⟩
      obtain ⟨o, ho⟩ : ∃ o, serList h repl l s = o := ⟨_, rfl⟩
      cases o with
      | none =>
        obtain ⟨w, h1, s1, h2⟩ := hl l s ho
        exact lift w (.entry h1) s1 h2
      | some s1 => rw [ho] at e; cases e
    | map m =>
      simp only at e
      have hl : ∀ l : List (Str × Value N), ∀ s, serItems h repl l s = none →
          ∃ kw ∈ l, ∃ s, ser h repl kw.2 s = none := by
        intro l
        induction l with
        | nil => intro s e; cases e
        | cons w t iht =>
          obtain ⟨k, w⟩ := w
          intro s e
          unfold serItems at e
          obtain ⟨o, ho⟩ : ∃ o, ser h repl w s = o := ⟨_, rfl⟩
          cases o with
          | none => exact ⟨(k, w), by simp, s, ho⟩
          | some s1 =>
            rw [ho] at e
            obtain ⟨w', h1, h2⟩ := iht s1 e
            exact ⟨w', by simp [h1], h2⟩
      obtain ⟨o, ho⟩ : ∃ o, serItems h repl m s = o := ⟨_, rfl⟩
      cases o with
      | none =>
        obtain ⟨w, h1, s1, h2⟩ := hl m s ho
        exact lift w.2 (.value (k := w.1) h1) s1 h2
      | some s1 => rw [ho] at e; cases e
    | _ => cases e

theorem serArtMap_none (repl : Repl) : ∀ l : List (Str × Desc), serArtMap (N := N) repl l = none ↔
    ∃ kd ∈ l, serArt (N := N) repl kd.2 = none
  | [] => by simp [serArtMap]
  | (k, d) :: l => by
    unfold serArtMap
    have ih := serArtMap_none repl l
    obtain ⟨o, ho⟩ : ∃ o, serArt (N := N) repl d = o := ⟨_, rfl⟩
    obtain ⟨p, hp⟩ : ∃ p, serArtMap (N := N) repl l = p := ⟨_, rfl⟩
    rw [hp] at ih
    rw [ho, hp]
    cases o with
    | none => simp [ho]
    | some j =>
      cases p with
      | none =>
        obtain ⟨kd, h1, h2⟩ := ih.mp rfl
        simp only [Option.bind_some, Option.bind_none, true_iff]
        exact ⟨kd, by simp [h1], h2⟩
      | some o =>
        simp only [Option.bind_some, reduceCtorEq, false_iff, not_exists, not_and, List.mem_cons]
        rintro kd (rfl | hm)
        · rw [ho]; simp
        · exact fun hx => nomatch ih.mpr ⟨kd, hm, hx⟩

theorem Inv.closed {repl : Repl} {U : Value N → Prop} {h : Hashing N} (hU : Family h U) {s : Tab N}
    (i : Inv h repl U s) {u v : Value N} (hs : Sub u v) (hv : U v)
    (hh : s.has (identifier h v) = true) : U u ∧ s.has (identifier h u) = true := by
  induction hs with
  | refl => exact ⟨hv, hh⟩
  | step hc _ ih =>
    obtain ⟨h1, h2⟩ := ih hv hh
    obtain ⟨_, _, _, _, h3⟩ := i.entry hU h1 h2
    exact ⟨hU.child hc h1, h3 _ hc⟩

/-- C64: nothing is written exactly if there are replacements, but not for some artifact of the target
result that is not known. -/
theorem C64_missing (repl : Repl) (r : TargetResult N) (hid : IdsOK h r.provides) :
    r.toJson h repl = none ↔
      repl ≠ [] ∧ ∃ d, r.Has d ∧ d.isKnown = false ∧ replacement repl d = none := by
  have key : (repl ≠ [] ∧ ∃ d, r.Has d ∧ d.isKnown = false ∧ replacement repl d = none) ↔
      ∃ d, r.Has d ∧ serArt (N := N) repl d = none := by
    constructor
    · rintro ⟨h1, d, h2, h3⟩
      exact ⟨d, h2, (serArt_none repl d).mpr ⟨h1, h3⟩⟩
    · rintro ⟨d, h1, h2⟩
      obtain ⟨h3, h4⟩ := (serArt_none repl d).mp h2
      exact ⟨h3, d, h1, h4⟩
  rw [key]
  constructor
  · intro e
    unfold TargetResult.toJson at e
    obtain ⟨o1, e1⟩ : ∃ o, serArtMap (N := N) repl r.artifacts = o := ⟨_, rfl⟩
    obtain ⟨o2, e2⟩ : ∃ o, serArtMap (N := N) repl r.runfiles = o := ⟨_, rfl⟩
    obtain ⟨o3, e3⟩ : ∃ o, ser h repl r.provides ⟨[], [], [], []⟩ = o := ⟨_, rfl⟩
    cases o1 with
    | none =>
      obtain ⟨kd, h1, h2⟩ := (serArtMap_none repl _).mp e1
      exact ⟨kd.2, .inl ⟨kd.1, h1⟩, h2⟩
    | some a =>
      cases o2 with
      | none =>
        obtain ⟨kd, h1, h2⟩ := (serArtMap_none repl _).mp e2
        exact ⟨kd.2, .inr (.inl ⟨kd.1, h1⟩), h2⟩
      | some b =>
        cases o3 with
        | none =>
          obtain ⟨d, h1, h2⟩ := ser_none h repl _ _ e3
          exact ⟨d, .inr (.inr h1), h2⟩
        | some s =>
          rw [e1, e2] at e
          unfold serProvides at e
          rw [e3] at e
          cases e
  · rintro ⟨d, hd, hs⟩
    unfold TargetResult.toJson
    rcases hd with ⟨k, hk⟩ | ⟨k, hk⟩ | hsub
    · rw [(serArtMap_none repl _).mpr ⟨(k, d), hk, hs⟩]
      rfl
    · rw [(serArtMap_none repl r.runfiles).mpr ⟨(k, d), hk, hs⟩]
      cases serArtMap (N := N) repl r.artifacts <;> rfl
    · have : ser h repl r.provides ⟨[], [], [], []⟩ = none := by
        obtain ⟨o, e⟩ : ∃ o, ser h repl r.provides ⟨[], [], [], []⟩ = o := ⟨_, rfl⟩
        cases o with
        | none => exact e
        | some s =>
          rw [← ser_forget] at e
          obtain ⟨i, _, hh⟩ := ser_inv h (family h hid) _ _ (Nat.le_refl _) (.refl _) _ _
            (inv_empty h repl _) e
          have hsub' := sub_map Desc.forget hsub
          obtain ⟨hu, hd⟩ := i.closed (family h hid) hsub' (.refl _) hh
          obtain ⟨j, _, h1, _⟩ := i.entry (family h hid) hu hd
          simp only [mapArt, shape, serArt_forget, hs] at h1
          cases h1
      unfold serProvides
      rw [this]
      cases serArtMap (N := N) repl r.artifacts <;> cases serArtMap (N := N) repl r.runfiles <;> rfl

/-! ## Examples -/

/-- For examples: a checksum as hash. -/
def checksum : Hashing Nat where
  H := fun s => [Char.ofNat (s.foldl (fun a c => (31 * a + c.toNat) % 251) 7)]
  text := Sum.elim decimal decimal

/-- For examples: natural numbers. -/
def idCasts : Casts Nat := ⟨id, id⟩

/-- For the violation: a target result providing an artifact. -/
def withArt : Value Nat := .result (.map []) (.map [(['x'], .art (.tree ['i']))]) (.map [])

/-- For the violation: a target result providing the map that looks like it. -/
def lookAlike : Value Nat := .result (.map []) (.map [(['x'], .map [("data".toList,
      .map [("id".toList, .str ['i'])]), ("type".toList, .str "TREE".toList)])]) (.map [])

theorem sub_cases {u v : Value N} (hs : Sub u v) : u = v ∨ ∃ c, Child c v ∧ Sub u c := by
  induction hs with
  | refl => exact .inl rfl
  | step hc hs ih =>
    rename_i c u v
    rcases ih with rfl | ⟨d, h1, h2⟩
    · exact .inr ⟨c, hc, .refl _⟩
    · exact .inr ⟨d, h1, .step hc h2⟩

/-- For the violation: the second entry of a list is a target result providing an artifact. -/
def secondHasArt : Value Nat → Bool
  | .list [_, .result _ (.map [(_, .art _)]) _] => true
  | _ => false

/-- For the violation: something was read, and its second provided value has an artifact. -/
def readArt : Out (TargetResult Nat) → Bool
  | .ok r => secondHasArt r.provides
  | _ => false

/-- C64 does not hold: if a target provides a target result providing an artifact, and a target result
providing the map that looks like it, what is read back instead of the latter is the former. -/
theorem C64_violation :
    let r : TargetResult Nat := ⟨[], [], .list [withArt, lookAlike]⟩
    ∃ j r', r.toJson checksum [] = some j ∧ TargetResult.fromJson .gitSHA1 idCasts 10 j = .ok r' ∧
      r' ≠ r.stored [] := by
  intro r
  have h1 : (r.toJson checksum []).isSome = true := by decide +kernel
  have h2 : readArt (TargetResult.fromJson .gitSHA1 idCasts 10 ((r.toJson checksum []).getD .null))
      = true := by decide +kernel
  obtain ⟨j, hj⟩ := Option.isSome_iff_exists.mp h1
  rw [hj, Option.getD_some] at h2
  obtain ⟨o, ho⟩ : ∃ o, TargetResult.fromJson .gitSHA1 idCasts 10 j = o := ⟨_, rfl⟩
  rw [ho] at h2
  cases o with
  | ok r' =>
    refine ⟨j, r', hj, ho, fun e => ?_⟩
    rw [e] at h2
    exact absurd h2 (by decide)
  | _ => exact nomatch h2

/-- For the example: a digest. -/
def someDigest : Digest := ⟨zeros, .gitSHA1, false, 3⟩

/-- For the example: an artifact of an action. -/
abbrev someArt : Desc := .action ['i'] ['o']

/-- For the example: a target result with an artifact of an action, occurring several times. -/
def exampleResult : TargetResult Nat where
  artifacts := [(['a'], someArt)]
  runfiles := []
  provides := .map [(['k'], .list [.art someArt, .str ['s']]), (['l'], .art someArt)]

/-- For the example: its replacement. -/
def exampleRepl : Repl := [(someArt, ⟨someDigest, .file, false⟩)]

theorem example_subs (u : Value Nat) (hu : Sub u exampleResult.provides) :
    u = exampleResult.provides ∨ u = .list [.art someArt, .str ['s']] ∨ u = .art someArt ∨
      u = .str ['s'] := by
  have hart : ∀ u, Sub u (.art someArt : Value Nat) → u = .art someArt := fun u hu => by
    rcases sub_cases hu with rfl | ⟨c, hc, _⟩
    · rfl
    · cases hc
  have hstr : ∀ u, Sub u (.str ['s'] : Value Nat) → u = .str ['s'] := fun u hu => by
    rcases sub_cases hu with rfl | ⟨c, hc, _⟩
    · rfl
    · cases hc
  have hlist : ∀ u, Sub u (.list [.art someArt, .str ['s']] : Value Nat) →
      u = .list [.art someArt, .str ['s']] ∨ u = .art someArt ∨ u = .str ['s'] := fun u hu => by
    rcases sub_cases hu with rfl | ⟨c, hc, hs⟩
    · exact .inl rfl
    · cases hc with
      | entry hm =>
        simp only [List.mem_cons, List.not_mem_nil, or_false] at hm
        rcases hm with rfl | rfl
        · exact .inr (.inl (hart u hs))
        · exact .inr (.inr (hstr u hs))
  rcases sub_cases hu with rfl | ⟨c, hc, hs⟩
  · exact .inl rfl
  · cases hc with
    | value hm =>
      simp only [List.mem_cons, List.not_mem_nil, or_false, Prod.mk.injEq] at hm
      rcases hm with ⟨_, rfl⟩ | ⟨_, rfl⟩
      · exact .inr (hlist u hs)
      · exact .inr (.inr (.inl (hart u hs)))

theorem example_ids : IdsOK checksum exampleResult.provides := by
  intro u u' hu hu' e
  rcases example_subs u hu with rfl | rfl | rfl | rfl <;>
    rcases example_subs u' hu' with rfl | rfl | rfl | rfl <;>
    first
    | rfl
    | exact absurd e (by decide +kernel)

theorem example_ok : exampleResult.OK .gitSHA1 where
  names := fun e he => by
    rcases example_subs _ he with h | h | h | h <;> cases h
  valid := fun d hd => by
    have : d = someArt := by
      rcases hd with ⟨k, hk⟩ | ⟨k, hk⟩ | hs
      · simp only [exampleResult, List.mem_cons, List.not_mem_nil, or_false, Prod.mk.injEq] at hk
        exact hk.2
      · simp [exampleResult] at hk
      · rcases example_subs _ hs with h | h | h | h <;> cases h
        rfl
    subst this
    trivial

/-- For the example: what is to be read back. -/
def exampleStored : TargetResult Nat where
  artifacts := [(['a'], .known someDigest .file none)]
  runfiles := []
  provides := .map [(['k'], .list [.art (.known someDigest .file none), .str ['s']]),
    (['l'], .art (.known someDigest .file none))]

example : ∃ j n0, exampleResult.toJson checksum exampleRepl = some j ∧
    ∀ n, n0 ≤ n → TargetResult.fromJson .gitSHA1 idCasts n j = .ok exampleStored := by
  have h1 : (exampleResult.toJson checksum exampleRepl).isSome = true := by decide +kernel
  obtain ⟨j, hj⟩ := Option.isSome_iff_exists.mp h1
  obtain ⟨n0, hn⟩ := C64_round_trip_partial checksum .gitSHA1 idCasts exampleRepl exampleResult example_ok
    (fun d i hm => by
      simp only [exampleRepl, List.mem_cons, List.not_mem_nil, or_false, Prod.mk.injEq] at hm
      rw [hm.2]
      exact ⟨by decide +kernel, rfl, rfl⟩) example_ids j hj
  exact ⟨j, n0, hj, hn⟩

example : exampleResult.toJson checksum [(.tree ['t'], ⟨someDigest, .file, false⟩)] = none :=
  (C64_missing checksum _ exampleResult example_ids).mpr
    ⟨by simp, someArt, .inl ⟨['a'], by simp [exampleResult]⟩, rfl, rfl⟩

end Verif.Result
