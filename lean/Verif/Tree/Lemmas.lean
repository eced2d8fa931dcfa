import Verif.Tree.Git

/-!
# Overlays of trees: lemmas
-/

namespace Verif.Tree

open Verif.Dig (ObjectType)

variable {E : Env}

/-! ## The store -/

theorem retrieve_append {s x : Store} {id d : Str} (h : retrieve E s id = some d) :
    retrieve E (s ++ x) id = some d := by
  unfold retrieve at *
  rw [List.find?_append, h]
  rfl

theorem retrieve_mem {s : Store} {id d : Str} (h : retrieve E s id = some d) : d ∈ s ∧ E.H d = id :=
  ⟨List.mem_of_find?_eq_some h, by simpa using List.find?_some h⟩

theorem retrieve_hash {S : Store} (hS : NoCollision E S) {d : Str} (hd : d ∈ S) :
    retrieve E S (E.H d) = some d := by
  cases h : retrieve E S (E.H d) with
  | none =>
    have := List.find?_eq_none.mp h d hd
    simp at this
  | some d' =>
    obtain ⟨h1, h2⟩ := retrieve_mem h
    rw [hS d' h1 d hd h2]

theorem retrieve_super {s S : Store} (hS : NoCollision E S) (hs : ∀ d ∈ s, d ∈ S) {id d : Str}
    (h : retrieve E s id = some d) : retrieve E S id = some d := by
  obtain ⟨h1, h2⟩ := retrieve_mem h
  rw [← h2]
  exact retrieve_hash hS (hs d h1)

theorem Complete.retrieves {s S : Store} (hr : ∀ id d, retrieve E s id = some d → retrieve E S id = some d)
    {i : Info} (h : Complete E s i) : Complete E S i := by
  induction h with
  | leaf h => exact .leaf h
  | tree h1 h2 h3 h4 _ ih => exact .tree (hr _ _ h1) h2 h3 h4 ih

theorem Complete.append {s : Store} (x : Store) {i : Info} (h : Complete E s i) : Complete E (s ++ x) i :=
  h.retrieves (fun _ _ => retrieve_append)

theorem Complete.super {s S : Store} (hS : NoCollision E S) (hs : ∀ d ∈ s, d ∈ S) {i : Info}
    (h : Complete E s i) : Complete E S i := h.retrieves (fun _ _ => retrieve_super hS hs)

/-! ## Directories -/

/-- What is below a directory is given by its entries. -/
def Dir (E : Env) (S : Store) (i : Info) (es : Entries) : Prop :=
  i.type = .tree ∧ ∀ n p, look E S i (n :: p) = (get n es).bind fun j => look E S j p

theorem find_name {l : List Ent} (hn : (l.map Ent.name).Nodup) (n : Str) :
    ((l.find? fun e => e.name = n).map fun e => (⟨e.type, e.id⟩ : Info)) = get n (l.map Ent.pair) := by
  induction l with
  | nil => rfl
  | cons e l ih =>
    simp only [List.map_cons, List.nodup_cons] at hn
    rw [List.find?_cons, List.map_cons, Ent.pair, get]
    by_cases h : e.name = n
    · simp [h]
    · rw [if_neg h]
      simp only [h, decide_false]
      exact ih hn.2

theorem dir_of_parse {S : Store} {id d : Str} {l : List Ent} {es : Entries} (hr : retrieve E S id = some d)
    (hp : parseTree d = some l) (hn : (l.map Ent.name).Nodup) (hes : ∀ n, get n (l.map Ent.pair) = get n es) :
    Dir E S ⟨.tree, id⟩ es := by
  refine ⟨rfl, fun n p => ?_⟩
  rw [look, if_pos rfl, hr, Option.bind_some, hp, Option.bind_some, ← hes, ← find_name hn, Option.bind_map]
  rfl

/-- Names and objects git can represent. -/
def EntriesOK (es : Entries) : Prop := Listing (es.map fun e => (⟨e.1, e.2.type, e.2.id⟩ : Ent))

theorem EntriesOK.nodup {es : Entries} (h : EntriesOK es) : (es.map Prod.fst).Nodup := by
  have := h.names
  rwa [List.map_map] at this

theorem pair_ent (e : Ent) : (⟨e.pair.1, e.pair.2.type, e.pair.2.id⟩ : Ent) = e := rfl

theorem pairs_ent (l : List Ent) :
    ((l.map Ent.pair).map fun e => (⟨e.1, e.2.type, e.2.id⟩ : Ent)) = l := by
  rw [List.map_map]
  conv => rhs; rw [← List.map_id l]
  rfl

/-- Reading a complete tree. -/
theorem Complete.read {s : Store} {i : Info} (h : Complete E s i) (ht : i.type = .tree) :
    ∃ es, (∀ x, readTree E (s ++ x) i = some es) ∧ EntriesOK es ∧ (∀ n j, get n es = some j → Complete E s j) ∧
      (∀ x, Dir E (s ++ x) i es) ∧
      ∀ S, NoCollision E S → (∀ d ∈ s, d ∈ S) → Dir E S i es := by
  cases h with
  | leaf h => exact absurd ht h
  | @tree id d l h1 h2 h3 h4 h5 =>
    have hpm := (flat_group l).map Ent.pair
    have hok : Listing (flat (group l)) := h3.perm (flat_group l).symm
    have hnd : ((l.map Ent.pair).map Prod.fst).Nodup := by
      rw [List.map_map]
      exact h3.names
    refine ⟨(flat (group l)).map Ent.pair, fun x => ?_, ?_, fun n j hj => ?_, fun x => ?_, fun S hS hs => ?_⟩
    · unfold readTree
      rw [retrieve_append h1, Option.bind_some]
      exact parseGitTree_eq h2 h3.names h4
    · unfold EntriesOK
      rw [pairs_ent]
      exact hok
    · have := hpm.mem_iff.mp (get_mem hj)
      obtain ⟨e, he, heq⟩ := List.mem_map.mp this
      injection heq with h6 h7
      subst h7
      exact h5 e he
    · exact dir_of_parse (retrieve_append h1) h2 h3.names (get_perm hnd hpm.symm)
    · exact dir_of_parse (retrieve_super hS hs h1) h2 h3.names (get_perm hnd hpm.symm)

theorem serialize_perm (hE : E.OK) (l : Entries) (h : EntriesOK l) :
    Listing (flat (group ((E.visit l).map fun e => (⟨e.1, e.2.type, e.2.id⟩ : Ent)))) ∧
    (flat (group ((E.visit l).map fun e => (⟨e.1, e.2.type, e.2.id⟩ : Ent)))).Perm
      (l.map fun e => (⟨e.1, e.2.type, e.2.id⟩ : Ent)) := by
  have hp := (flat_group ((E.visit l).map fun e => (⟨e.1, e.2.type, e.2.id⟩ : Ent))).trans
    ((hE.visit l).map _)
  exact ⟨Listing.perm h hp.symm, hp⟩

/-- Reading what was written. -/
theorem dir_of_write (hE : E.OK) {l : Entries} (h : EntriesOK l) {S : Store} (hS : NoCollision E S)
    (hd : serialize E l ∈ S) : Dir E S ⟨.tree, E.H (serialize E l)⟩ l := by
  obtain ⟨h1, h2⟩ := serialize_perm hE l h
  obtain ⟨l', h3, _, _, h4, _⟩ := C32_round_trip _ h1
  have hl' : Listing l' := h1.perm h3.symm
  refine dir_of_parse (retrieve_hash hS hd) h4 hl'.names (get_perm ?_ ?_)
  · rw [List.map_map]
    exact hl'.names
  · have := ((h3.trans h2).map Ent.pair)
    rw [List.map_map] at this
    conv at this => rhs; rw [show ((Ent.pair ∘ fun e : Str × Info => (⟨e.1, e.2.type, e.2.id⟩ : Ent)) = id) from rfl,
      List.map_id]
    exact this

theorem serialize_congr (hE : E.OK) {l l' : Entries} (h : EntriesOK l) (hp : l.Perm l') :
    serialize E l = serialize E l' := by
  obtain ⟨h1, h2⟩ := serialize_perm hE l h
  have h' : EntriesOK l' := Listing.perm h (hp.map _)
  obtain ⟨h1', h2'⟩ := serialize_perm hE l' h'
  exact C32_order _ _ h1 (h2.trans ((hp.map _).trans h2'.symm))

/-! ## The loop over the entries -/

/-- The pair of trees to be merged, if any. -/
def keyOf (acc : Entries) (p : Str × Info) : Option (Str × Info × Info) :=
  match get p.1 acc with
  | none => none
  | some o => if o = p.2 then none else if p.2.type.isTree && o.type.isTree then some (p.1, p.2, o) else none

/-- There is a conflict for an entry. -/
def Clash (acc : Entries) (p : Str × Info) : Prop :=
  ∃ o, get p.1 acc = some o ∧ o ≠ p.2 ∧ (p.2.type.isTree && o.type.isTree) = false

theorem mergeLoop_spec (d : Bool) : ∀ (l acc : Entries) (keys : List (Str × Info × Info)),
    (l.map Prod.fst).Nodup → (d = true → ∀ p ∈ l, ¬ Clash acc p) →
    mergeLoop d l acc keys =
      some (acc ++ l.filter (fun p => (get p.1 acc).isNone), keys ++ l.filterMap (keyOf acc))
  | [], acc, keys, _, _ => by simp [mergeLoop]
  | (n, b) :: t, acc, keys, hn, hc => by
    simp only [List.map_cons, List.nodup_cons] at hn
    unfold mergeLoop
    cases ha : get n acc with
    | none =>
      have hsame : ∀ p ∈ t, get p.1 (acc ++ [(n, b)]) = get p.1 acc := by
        intro p hp
        rw [get_append]
        have : get p.1 [(n, b)] = none := get_none.mpr (fun q hq => by
          simp only [List.mem_cons, List.not_mem_nil, or_false] at hq
          subst hq
          exact fun h => hn.1 (by
            have := List.mem_map_of_mem (f := Prod.fst) hp
            rwa [← h] at this))
        rw [this, Option.or_none]
      simp only
      rw [mergeLoop_spec d t _ keys hn.2 (fun hd p hp ⟨o, h1, h2⟩ =>
        hc hd p (by simp [hp]) ⟨o, by rw [← hsame p hp]; exact h1, h2⟩)]
      have h1 : t.filter (fun p => (get p.1 (acc ++ [(n, b)])).isNone) =
          t.filter (fun p => (get p.1 acc).isNone) :=
        List.filter_congr (fun p hp => by rw [hsame p hp])
      have h2 : t.filterMap (keyOf (acc ++ [(n, b)])) = t.filterMap (keyOf acc) :=
        List.filterMap_congr (fun p hp => by unfold keyOf; rw [hsame p hp])
      have h3 : keyOf acc (n, b) = none := by
        unfold keyOf
        rw [ha]
      have h4 : ((n, b) :: t).filter (fun p => (get p.1 acc).isNone) =
          (n, b) :: t.filter (fun p => (get p.1 acc).isNone) :=
        List.filter_cons_of_pos (by simp [ha])
      rw [h1, h2, List.filterMap_cons_none h3, h4]
      simp
    | some o =>
      have hc' : d = true → ∀ p ∈ t, ¬ Clash acc p := fun hd p hp => hc hd p (by simp [hp])
      have hf : ((n, b) :: t).filter (fun p => (get p.1 acc).isNone) =
          t.filter (fun p => (get p.1 acc).isNone) := List.filter_cons_of_neg (by simp [ha])
      simp only
      split
      · rename_i hob
        have h3 : keyOf acc (n, b) = none := by
          unfold keyOf
          rw [ha]
          simp [hob]
        rw [mergeLoop_spec d t _ _ hn.2 hc', hf, List.filterMap_cons_none h3]
      · rename_i hob
        split
        · rename_i htt
          have h3 : keyOf acc (n, b) = some (n, b, o) := by
            unfold keyOf
            rw [ha]
            simp only [if_neg hob, if_pos htt]
          rw [mergeLoop_spec d t _ _ hn.2 hc', hf, List.filterMap_cons_some h3]
          simp
        · rename_i htt
          have h3 : keyOf acc (n, b) = none := by
            unfold keyOf
            rw [ha]
            simp only [if_neg hob, if_neg htt]
          have hd : d = false := by
            cases d with
            | false => rfl
            | true => exact absurd ⟨o, ha, hob, by simpa using htt⟩ (hc rfl (n, b) (by simp))
          rw [if_neg (by simp [hd]), mergeLoop_spec d t _ _ hn.2 hc', hf, List.filterMap_cons_none h3]

theorem mergeLoop_clash : ∀ (l acc : Entries) (keys : List (Str × Info × Info)),
    (l.map Prod.fst).Nodup → (∃ p ∈ l, Clash acc p) → mergeLoop true l acc keys = none
  | [], acc, keys, _, h => by
    obtain ⟨p, hp, _⟩ := h
    cases hp
  | (n, b) :: t, acc, keys, hn, h => by
    simp only [List.map_cons, List.nodup_cons] at hn
    unfold mergeLoop
    have hne : ∀ p ∈ t, p.1 ≠ n := fun p hp h => hn.1 (by
      rw [← h]
      exact List.mem_map_of_mem hp)
    obtain ⟨p, hp, o', h1, h2, h3⟩ := h
    cases ha : get n acc with
    | none =>
      rcases List.mem_cons.mp hp with rfl | hp
      · rw [ha] at h1
        exact nomatch h1
      · refine mergeLoop_clash t _ keys hn.2 ⟨p, hp, o', ?_, h2, h3⟩
        rw [get_append, h1]
        rfl
    | some o =>
      simp only
      rcases List.mem_cons.mp hp with rfl | hp
      · rw [ha] at h1
        injection h1 with h1
        subst h1
        simp only [if_neg h2, h3, Bool.false_eq_true, if_false, if_true]
      · have ih := fun keys => mergeLoop_clash t acc keys hn.2 ⟨p, hp, o', h1, h2, h3⟩
        split
        · exact ih _
        · split
          · exact ih _
          · simp

/-! ## Sub-overlays -/

/-- Assign several entries. -/
def assignAll (rs : Entries) (l : Entries) : Entries := rs.foldl (fun l r => assign r.1 r.2 l) l

theorem get_assign (n : Str) (i : Info) : ∀ (l : Entries) (m : Str),
    get m (assign n i l) = if n = m then some i else get m l
  | [], m => rfl
  | (k, j) :: t, m => by
    unfold assign
    split
    · rename_i hk
      subst hk
      rw [get, get]
      split <;> rfl
    · rename_i hk
      rw [get, get, get_assign n i t m]
      by_cases h1 : k = m
      · subst h1
        rw [if_pos rfl, if_pos rfl, if_neg (fun h => hk h.symm)]
      · rw [if_neg h1, if_neg h1]

theorem assign_names (n : Str) (i : Info) : ∀ l : Entries, (l.map Prod.fst).Nodup →
    ((assign n i l).map Prod.fst).Nodup ∧ ∀ m, m ∈ (assign n i l).map Prod.fst → m = n ∨ m ∈ l.map Prod.fst
  | [], _ => by simp [assign]
  | (k, j) :: t, h => by
    simp only [List.map_cons, List.nodup_cons] at h
    unfold assign
    split
    · rename_i hk
      subst hk
      simp only [List.map_cons, List.nodup_cons]
      exact ⟨h, fun m hm => .inr hm⟩
    · rename_i hk
      obtain ⟨h1, h2⟩ := assign_names n i t h.2
      simp only [List.map_cons, List.nodup_cons, List.mem_cons]
      refine ⟨⟨fun hm => ?_, h1⟩, fun m hm => ?_⟩
      · rcases h2 k hm with h3 | h3
        · exact hk h3
        · exact h.1 h3
      · rcases hm with hm | hm
        · exact .inr (.inl hm)
        · exact (h2 m hm).imp id .inr

theorem assignAll_spec : ∀ (rs l : Entries), (rs.map Prod.fst).Nodup → (l.map Prod.fst).Nodup →
    ((assignAll rs l).map Prod.fst).Nodup ∧ ∀ m, get m (assignAll rs l) = (get m rs).or (get m l)
  | [], l, _, hl => ⟨hl, fun m => by simp [assignAll, get]⟩
  | (n, i) :: rs, l, hr, hl => by
    simp only [List.map_cons, List.nodup_cons] at hr
    obtain ⟨h1, h2⟩ := assignAll_spec rs (assign n i l) hr.2 (assign_names n i l hl).1
    refine ⟨h1, fun m => ?_⟩
    have : assignAll ((n, i) :: rs) l = assignAll rs (assign n i l) := rfl
    rw [this, h2, get_assign, get]
    by_cases hm : n = m
    · subst hm
      rw [if_pos rfl, if_pos rfl]
      have : get n rs = none := get_none.mpr (fun p hp h => hr.1 (by
        rw [← h]
        exact List.mem_map_of_mem hp))
      rw [this]
      rfl
    · rw [if_neg hm, if_neg hm]

/-- The result of an overlay, by induction over the levels. -/
inductive Res (E : Env) (d : Bool) (s : Store) (A : List Str) : Info → Info → Info → Prop where
  | same {b : Info} : b.type = .tree → Res E d s A b b b
  | merge {b o : Info} {eb eo l : Entries} {f : Str → Info} : b.type = .tree → o.type = .tree → b ≠ o →
      (∀ x, readTree E (s ++ x) b = some eb) → (∀ x, readTree E (s ++ x) o = some eo) →
      (l.map Prod.fst).Nodup →
      (∀ n, get n eb = none → get n l = get n eo) →
      (∀ n x, get n eb = some x → get n eo = none → get n l = some x) →
      (∀ n x, get n eb = some x → get n eo = some x → get n l = some x) →
      (∀ n x y, get n eb = some x → get n eo = some y → x ≠ y → x.type = .tree → y.type = .tree →
        get n l = some (f n)) →
      (∀ n x y, get n eb = some x → get n eo = some y → x ≠ y → x.type = .tree → y.type = .tree →
        Res E d s A x y (f n)) →
      (∀ n x y, get n eb = some x → get n eo = some y → x ≠ y → ¬ (x.type = .tree ∧ y.type = .tree) →
        d = false ∧ get n l = some y) →
      serialize E l ∈ A → Res E d s A b o ⟨.tree, E.H (serialize E l)⟩

theorem Res.mono {d : Bool} {s : Store} {A A' : List Str} (hA : ∀ x ∈ A, x ∈ A') {b o r : Info}
    (h : Res E d s A b o r) : Res E d s A' b o r := by
  induction h with
  | same h => exact .same h
  | merge h1 h2 h3 h4 h5 h6 h7 h8 h9 h10 _ h12 h13 ih =>
    exact .merge h1 h2 h3 h4 h5 h6 h7 h8 h9 h10 ih h12 (hA _ h13)

theorem Res.type {d : Bool} {s : Store} {A : List Str} {b o r : Info} (h : Res E d s A b o r) :
    r.type = .tree := by
  cases h with
  | same h => exact h
  | merge => rfl

theorem Res.id (hE : E.OK) {d : Bool} {s : Store} {A : List Str} {b o r : Info} (h : Res E d s A b o r)
    (hne : b ≠ o) : r.id.length = 20 := by
  cases h with
  | same h => exact absurd rfl hne
  | merge => exact hE.length _

/-- What comes out of an overlay. -/
def Outcome (E : Env) (d : Bool) (s : Store) (b o : Info) : Prop :=
  (∃ r A, (∃ n0, ∀ n, n0 ≤ n → ∀ x, overlay E d n (s ++ x) b o = .ok (r, s ++ x ++ A)) ∧ Res E d s A b o r) ∨
  (d = true ∧ (∃ n0, ∀ n, n0 ≤ n → ∀ x, overlay E d n (s ++ x) b o = .conflict) ∧
    ∃ p, Conflict (look E s b) (look E s o) p)

theorem mergeSubs_spec (d : Bool) (s : Store) : ∀ (keys : List (Str × Info × Info)),
    (∀ k ∈ keys, Outcome E d s k.2.1 k.2.2) →
    (∃ rs A, (∃ n0, ∀ n, n0 ≤ n → ∀ x acc,
        mergeSubs (overlay E d n) keys (s ++ x) acc = .ok (assignAll rs acc, s ++ x ++ A)) ∧
      List.Forall₂ (fun k r => r.1 = k.1 ∧ Res E d s A k.2.1 k.2.2 r.2) keys rs) ∨
    (d = true ∧ (∃ n0, ∀ n, n0 ≤ n → ∀ x acc,
        mergeSubs (overlay E d n) keys (s ++ x) acc = .conflict) ∧
      ∃ k ∈ keys, ∃ p, Conflict (look E s k.2.1) (look E s k.2.2) p)
  | [], _ => .inl ⟨[], [], ⟨0, fun n _ x acc => by simp [mergeSubs, assignAll]⟩, .nil⟩
  | (n, b, o) :: t, h => by
    rcases h (n, b, o) (by simp) with ⟨r, A, ⟨n0, h1⟩, h2⟩ | ⟨hd, ⟨n0, h1⟩, h2⟩
    · rcases mergeSubs_spec d s t (fun k hk => h k (by simp [hk])) with
        ⟨rs, A', ⟨n1, h3⟩, h4⟩ | ⟨hd, ⟨n1, h3⟩, k, hk, hc⟩
      · refine .inl ⟨(n, r) :: rs, A ++ A', ⟨max n0 n1, fun m hm x acc => ?_⟩, .cons ⟨rfl, ?_⟩ ?_⟩
        · have e1 := h1 m (le_trans (le_max_left _ _) hm) x
          have e2 := h3 m (le_trans (le_max_right _ _) hm) (x ++ A) (assign n r acc)
          rw [mergeSubs, e1]
          simp only [Out.bind]
          rw [List.append_assoc, e2]
          simp only [assignAll, List.foldl_cons, List.append_assoc]
        · exact h2.mono (fun x hx => List.mem_append_left _ hx)
        · exact h4.imp (fun k r ⟨e, hr⟩ => ⟨e, hr.mono (fun x hx => List.mem_append_right _ hx)⟩)
      · refine .inr ⟨hd, ⟨max n0 n1, fun m hm x acc => ?_⟩, k, by simp [hk], hc⟩
        have e1 := h1 m (le_trans (le_max_left _ _) hm) x
        have e2 := h3 m (le_trans (le_max_right _ _) hm) (x ++ A) (assign n r acc)
        rw [mergeSubs, e1]
        simp only [Out.bind]
        rw [List.append_assoc, e2]
    · refine .inr ⟨hd, ⟨n0, fun m hm x acc => ?_⟩, (n, b, o), by simp, h2⟩
      rw [mergeSubs, h1 m hm x]
      rfl

theorem keyOf_some {acc : Entries} {p : Str × Info} {k : Str × Info × Info} (h : keyOf acc p = some k) :
    k.1 = p.1 ∧ k.2.1 = p.2 ∧ get p.1 acc = some k.2.2 ∧ p.2 ≠ k.2.2 ∧ p.2.type = .tree ∧
      k.2.2.type = .tree := by
  unfold keyOf at h
  cases hg : get p.1 acc with
  | none =>
    rw [hg] at h
    exact nomatch h
  | some o =>
    rw [hg] at h
    simp only at h
    split at h
    · exact nomatch h
    · rename_i hne
      split at h
      · rename_i htt
        injection h with h
        subst h
        simp only [Bool.and_eq_true] at htt
        refine ⟨rfl, rfl, rfl, fun e => hne e.symm, ?_, ?_⟩
        · cases ht : p.2.type <;> simp_all [ObjectType.isTree]
        · cases ht : o.type <;> simp_all [ObjectType.isTree]
      · exact nomatch h

theorem isTree_iff (t : ObjectType) : t.isTree = true ↔ t = .tree := by
  cases t <;> simp [ObjectType.isTree]

theorem keys_names (acc : Entries) : ∀ l : Entries, (l.map Prod.fst).Nodup →
    ((l.filterMap (keyOf acc)).map Prod.fst).Nodup := by
  intro l hl
  have : ((l.filterMap (keyOf acc)).map Prod.fst).Sublist (l.map Prod.fst) := by
    clear hl
    induction l with
    | nil => simp
    | cons a l ih =>
      cases hk : keyOf acc a with
      | none =>
        rw [List.filterMap_cons_none hk, List.map_cons]
        exact ih.cons a.1
      | some k =>
        rw [List.filterMap_cons_some hk, List.map_cons, List.map_cons, (keyOf_some hk).1]
        exact ih.cons_cons a.1
  exact hl.sublist this

theorem forall2_names {R : (Str × Info × Info) → (Str × Info) → Prop}
    {keys : List (Str × Info × Info)} {rs : Entries}
    (h : List.Forall₂ (fun k r => r.1 = k.1 ∧ R k r) keys rs) : rs.map Prod.fst = keys.map Prod.fst := by
  induction h with
  | nil => rfl
  | cons h1 _ ih => rw [List.map_cons, List.map_cons, ih, h1.1]

theorem forall2_get {R : (Str × Info × Info) → (Str × Info) → Prop}
    {keys : List (Str × Info × Info)} {rs : Entries}
    (h : List.Forall₂ (fun k r => r.1 = k.1 ∧ R k r) keys rs) {k : Str × Info × Info} (hk : k ∈ keys) :
    ∃ r ∈ rs, r.1 = k.1 ∧ R k r := by
  induction h with
  | nil => cases hk
  | cons h1 _ ih =>
    rcases List.mem_cons.mp hk with rfl | hk
    · exact ⟨_, List.mem_cons_self, h1⟩
    · obtain ⟨r, hr, h2⟩ := ih hk
      exact ⟨r, List.mem_cons_of_mem _ hr, h2⟩

/-- Overlays of complete trees have a result, or there is a conflict. -/
theorem outcome (hE : E.OK) (d : Bool) {s : Store} {b : Info} (hb : Complete E s b) :
    ∀ o, Complete E s o → b.type = .tree → o.type = .tree → Outcome E d s b o := by
  induction hb with
  | leaf h => exact fun o _ ht _ => absurd ht h
  | @tree id dat l h1 h2 h3 h4 h5 ih =>
    intro o ho _ hot
    have hb : Complete E s ⟨.tree, id⟩ := .tree h1 h2 h3 h4 h5
    have hbt : (⟨.tree, id⟩ : Info).type = .tree := rfl
    generalize hbi : (⟨.tree, id⟩ : Info) = b at hb hbt
    have ihb : ∀ x, (∃ e ∈ l, x = (⟨e.type, e.id⟩ : Info)) → ∀ y, Complete E s y → x.type = .tree →
        y.type = .tree → Outcome E d s x y := by
      rintro x ⟨e, he, rfl⟩
      exact ih e he
    have hbl : ∀ es, (∀ x, readTree E (s ++ x) b = some es) → ∀ n x, get n es = some x →
        ∃ e ∈ l, x = (⟨e.type, e.id⟩ : Info) := by
      intro es hes n x hx
      have e1 := hes []
      unfold readTree at e1
      rw [← hbi, List.append_nil, h1, Option.bind_some, parseGitTree_eq h2 h3.names h4] at e1
      injection e1 with e1
      rw [← e1] at hx
      obtain ⟨e, he, heq⟩ := List.mem_map.mp (((flat_group l).map Ent.pair).mem_iff.mp (get_mem hx))
      exact ⟨e, he, (congrArg Prod.snd heq).symm⟩
    clear h1 h2 h3 h4 h5 ih hbi
    by_cases hbo : b = o
    · subst hbo
      refine .inl ⟨b, [], ⟨1, fun n hn x => ?_⟩, .same hbt⟩
      cases n with
      | zero => omega
      | succ n => simp [overlay, hbt, ObjectType.isTree]
    obtain ⟨eb, r1, k1, c1, d1, _⟩ := hb.read hbt
    obtain ⟨eo, r2, k2, c2, d2, _⟩ := ho.read hot
    have hv := hE.visit eb
    have hvn : ((E.visit eb).map Prod.fst).Nodup := (hv.map _).nodup_iff.mpr k1.nodup
    have hgv : ∀ n, get n (E.visit eb) = get n eb := get_perm hvn hv
    have hstep : ∀ n x, overlay E d (n + 1) (s ++ x) b o =
        match mergeLoop d (E.visit eb) eo [] with
          | none => .conflict
          | some (acc, keys) =>
            (mergeSubs (overlay E d n) keys (s ++ x) acc).bind fun r => .ok (writeTree E r.2 r.1) := by
      intro n x
      rw [overlay, hbt, hot, r1 x, r2 x]
      simp only [ObjectType.isTree, Bool.not_true, Bool.or_self, Bool.false_eq_true, if_false, if_neg hbo]
      rfl
    by_cases hcl : d = true ∧ ∃ p ∈ E.visit eb, Clash eo p
    · obtain ⟨hd, p, hp, y, hy, hne, hnt⟩ := hcl
      subst hd
      refine .inr ⟨rfl, ⟨1, fun n hn x => ?_⟩, ?_⟩
      · cases n with
        | zero => omega
        | succ n => rw [hstep, mergeLoop_clash _ _ _ hvn ⟨p, hp, y, hy, hne, hnt⟩]
      · obtain ⟨n, x⟩ := p
        have hx : get n eb = some x := by
          rw [← hgv]
          exact get_of_mem hvn hp
        have l1 := (d1 []).2 n []
        have l2 := (d2 []).2 n []
        rw [List.append_nil] at l1 l2
        rw [hx, Option.bind_some, look] at l1
        rw [hy, Option.bind_some, look] at l2
        refine ⟨[n], _, _, l1, l2, ?_⟩
        simp only at hne hnt
        intro e
        have hnt' : ¬ (x.type = .tree ∧ y.type = .tree) := by
          rw [← isTree_iff, ← isTree_iff]
          intro h
          rw [h.1, h.2] at hnt
          exact nomatch hnt
        by_cases h1 : x.type = .tree
        · by_cases h2 : y.type = .tree
          · exact hnt' ⟨h1, h2⟩
          · rw [if_pos h1, if_neg h2] at e
            exact nomatch e
        · by_cases h2 : y.type = .tree
          · rw [if_pos h2, if_neg h1] at e
            exact nomatch e
          · rw [if_neg h2, if_neg h1] at e
            injection e with e1 e2
            apply hne
            cases x
            cases y
            simp only at e1 e2
            rw [e1, e2]
    · have hnc : d = true → ∀ p ∈ E.visit eb, ¬ Clash eo p := fun hd p hp hc => hcl ⟨hd, p, hp, hc⟩
      have hloop := mergeLoop_spec d (E.visit eb) eo [] hvn hnc
      rw [List.nil_append] at hloop
      generalize hkeys : (E.visit eb).filterMap (keyOf eo) = keys at hloop
      generalize hacc : eo ++ (E.visit eb).filter (fun p => (get p.1 eo).isNone) = acc at hloop
      have hkn : (keys.map Prod.fst).Nodup := by
        rw [← hkeys]
        exact keys_names eo _ hvn
      have hkin : ∀ k ∈ keys, get k.1 eb = some k.2.1 ∧ get k.1 eo = some k.2.2 ∧ k.2.1 ≠ k.2.2 ∧
          k.2.1.type = .tree ∧ k.2.2.type = .tree := by
        intro k hk
        rw [← hkeys] at hk
        obtain ⟨p, hp, hpk⟩ := List.mem_filterMap.mp hk
        obtain ⟨e1, e2, e3, e4, e5, e6⟩ := keyOf_some hpk
        rw [e1, e2]
        exact ⟨by rw [← hgv]; exact get_of_mem hvn hp, e3, e4, e5, e6⟩
      have hkout : ∀ n x y, get n eb = some x → get n eo = some y → x ≠ y → x.type = .tree →
          y.type = .tree → (n, x, y) ∈ keys := by
        intro n x y hx hy hne tx ty
        rw [← hkeys]
        refine List.mem_filterMap.mpr ⟨(n, x), get_mem (by rw [hgv]; exact hx), ?_⟩
        unfold keyOf
        rw [hy]
        simp only [tx, ty, ObjectType.isTree, Bool.and_self, if_true]
        rw [if_neg (fun e => hne e.symm)]
      have haccn : (acc.map Prod.fst).Nodup := by
        rw [← hacc, List.map_append, List.nodup_append]
        refine ⟨k2.nodup, hvn.sublist (List.Sublist.map _ List.filter_sublist), ?_⟩
        intro a ha b' hb' hab
        subst hab
        obtain ⟨q, hq, rfl⟩ := List.mem_map.mp hb'
        have hq2 := (List.mem_filter.mp hq).2
        rw [Option.isNone_iff_eq_none, get_none] at hq2
        obtain ⟨q', hq', e⟩ := List.mem_map.mp ha
        exact hq2 q' hq' e
      have hfil : ∀ n, get n eo = none → get n ((E.visit eb).filter (fun p => (get p.1 eo).isNone)) =
          get n eb := by
        intro n hn
        have hnd : (((E.visit eb).filter (fun p => (get p.1 eo).isNone)).map Prod.fst).Nodup :=
          hvn.sublist (List.Sublist.map _ List.filter_sublist)
        cases hg : get n eb with
        | none =>
          rw [get_none]
          intro p hp
          rw [← hgv, get_none] at hg
          exact hg p (List.mem_filter.mp hp).1
        | some x =>
          refine get_of_mem hnd (List.mem_filter.mpr ⟨get_mem (by rw [hgv]; exact hg), ?_⟩)
          simp [hn]
      have haccg : ∀ n, get n acc = (get n eo).or (get n eb) := by
        intro n
        rw [← hacc, get_append]
        cases hn : get n eo with
        | some y => rfl
        | none => rw [hfil n hn]
      rcases mergeSubs_spec d s keys (fun k hk => by
          obtain ⟨e1, e2, _, e4, e5⟩ := hkin k hk
          exact ihb _ (hbl eb r1 _ _ e1) _ (c2 _ _ e2) e4 e5) with
        ⟨rs, A, ⟨n0, hrun⟩, hrs⟩ | ⟨hd, ⟨n0, hrun⟩, k, hk, p, x, y, hx, hy, hxy⟩
      · have hrsn : (rs.map Prod.fst).Nodup := by
          rw [forall2_names hrs]
          exact hkn
        obtain ⟨hln, hlg⟩ := assignAll_spec rs acc hrsn haccn
        have hnone : ∀ n, (∀ x y, get n eb = some x → get n eo = some y → ¬ (x ≠ y ∧ x.type = .tree ∧
            y.type = .tree)) → get n rs = none := by
          intro n hn
          rw [get_none]
          intro p hp hpn
          have : n ∈ keys.map Prod.fst := by
            rw [← forall2_names hrs, ← hpn]
            exact List.mem_map_of_mem hp
          obtain ⟨k, hk, rfl⟩ := List.mem_map.mp this
          obtain ⟨e1, e2, e3⟩ := hkin k hk
          exact hn _ _ e1 e2 e3
        refine .inl ⟨⟨.tree, E.H (serialize E (assignAll rs acc))⟩, A ++ [serialize E (assignAll rs acc)],
          ⟨n0 + 1, fun n hn x => ?_⟩, ?_⟩
        · cases n with
          | zero => omega
          | succ n =>
            rw [hstep, hloop]
            simp only
            rw [hrun n (by omega)]
            simp only [Out.bind, writeTree, List.append_assoc]
        · refine .merge (eb := eb) (eo := eo) (l := assignAll rs acc) (f := fun n => (get n rs).getD b) hbt hot hbo
            r1 r2 hln ?_ ?_ ?_ ?_ ?_ ?_ (by simp)
          · intro n hn
            rw [hlg, hnone n (fun x y hx => by rw [hn] at hx; exact nomatch hx), Option.none_or, haccg, hn,
              Option.or_none]
          · intro n x hx hn
            rw [hlg, hnone n (fun x y _ hy => by rw [hn] at hy; exact nomatch hy), Option.none_or, haccg, hn, hx]
            rfl
          · intro n x hx hy
            rw [hlg, hnone n (fun x' y' hx' hy' h => by
              rw [hx] at hx'
              rw [hy] at hy'
              injection hx' with hx'
              injection hy' with hy'
              exact h.1 (hx'.symm.trans hy')), Option.none_or, haccg, hy]
            rfl
          · intro n x y hx hy hne tx ty
            obtain ⟨r, hr, e1, _⟩ := forall2_get hrs (hkout n x y hx hy hne tx ty)
            obtain ⟨rn, ri⟩ := r
            have e1' : rn = n := e1
            subst e1'
            have := get_of_mem hrsn hr
            rw [hlg, this]
            rfl
          · intro n x y hx hy hne tx ty
            obtain ⟨r, hr, e1, e2⟩ := forall2_get hrs (hkout n x y hx hy hne tx ty)
            obtain ⟨rn, ri⟩ := r
            have e1' : rn = n := e1
            subst e1'
            have := get_of_mem hrsn hr
            simp only [this, Option.getD_some]
            exact e2.mono (fun _ h => List.mem_append_left _ h)
          · intro n x y hx hy hne hnt
            refine ⟨?_, ?_⟩
            · cases hd : d with
              | false => rfl
              | true =>
                refine absurd ⟨y, hy, fun e => hne e.symm, ?_⟩ (hnc hd (n, x) (get_mem (by rw [hgv]; exact hx)))
                cases hb : (x.type.isTree && y.type.isTree) with
                | false => rfl
                | true =>
                  rw [Bool.and_eq_true, isTree_iff, isTree_iff] at hb
                  exact absurd hb hnt
            · rw [hlg, hnone n (fun x' y' hx' hy' h => by
                rw [hx] at hx'
                rw [hy] at hy'
                injection hx' with hx'
                injection hy' with hy'
                subst hx' hy'
                exact hnt h.2), Option.none_or, haccg, hy]
              rfl
      · refine .inr ⟨hd, ⟨n0 + 1, fun n hn z => ?_⟩, ?_⟩
        · cases n with
          | zero => omega
          | succ n =>
            rw [hstep, hloop]
            simp only
            rw [hrun n (by omega)]
            rfl
        · obtain ⟨e1, e2, _⟩ := hkin k hk
          have l1 := (d1 []).2 k.1 p
          have l2 := (d2 []).2 k.1 p
          rw [List.append_nil] at l1 l2
          rw [e1, Option.bind_some, hx] at l1
          rw [e2, Option.bind_some, hy] at l2
          exact ⟨k.1 :: p, x, y, l1, l2, hxy⟩

end Verif.Tree
