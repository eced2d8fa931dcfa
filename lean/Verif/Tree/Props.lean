import Verif.Tree.Lemmas

/-!
# Overlays of trees: C30, C31
-/

namespace Verif.Tree

open Verif.Dig (ObjectType)

variable {E : Env}

theorem look_nil (S : Store) (i : Info) :
    look E S i [] = some (if i.type = .tree then .dir else .leaf i.type i.id) := rfl

theorem look_leaf {S : Store} {i : Info} (h : i.type ≠ .tree) {p : List Str} (hp : p ≠ []) :
    look E S i p = none := by
  cases p with
  | nil => exact absurd rfl hp
  | cons n p => rw [look, if_neg h]

theorem shadowed_cons {f g : List Str → Option Obs} {n : Str} {p : List Str} (hf : f [] = some .dir)
    (hg : ∀ q, f (n :: q) = g q) : Shadowed f (n :: p) ↔ Shadowed g p := by
  constructor
  · rintro ⟨q, hq, hne, ty, id, h⟩
    cases q with
    | nil =>
      rw [hf] at h
      exact nomatch h
    | cons m q =>
      obtain ⟨rfl, hq'⟩ := List.cons_prefix_cons.mp hq
      exact ⟨q, hq', fun e => hne (by rw [e]), ty, id, by rw [← hg]; exact h⟩
  · rintro ⟨q, hq, hne, ty, id, h⟩
    exact ⟨n :: q, List.cons_prefix_cons.mpr ⟨rfl, hq⟩, fun e => hne (List.cons.inj e).2, ty, id,
      by rw [hg]; exact h⟩

theorem not_shadowed_dir {f : List Str → Option Obs} {n : Str} {p : List Str} (hf : f [] = some .dir)
    (hg : ∀ q, f (n :: q) = none) : ¬ Shadowed f (n :: p) := by
  rintro ⟨q, hq, hne, ty, id, h⟩
  cases q with
  | nil =>
    rw [hf] at h
    exact nomatch h
  | cons m q =>
    obtain ⟨rfl, _⟩ := List.cons_prefix_cons.mp hq
    rw [hg] at h
    exact nomatch h

theorem merged_self (f : List Str → Option Obs) : Merged f f f where
  later := fun _ _ h => h
  shadowed := fun _ h _ => h
  earlier := fun _ _ _ => rfl

/-- If one side is no directory, the later one wins. -/
theorem merged_leaf {S : Store} {x y : Info} (h : ¬ (x.type = .tree ∧ y.type = .tree)) :
    Merged (look E S x) (look E S y) (look E S y) where
  later := fun _ _ h => h
  shadowed := fun _ h _ => h
  earlier := fun p hp hs => by
    by_cases hy : y.type = .tree
    · have hx : x.type ≠ .tree := fun hx => h ⟨hx, hy⟩
      cases p with
      | nil => rw [look_nil] at hp; exact nomatch hp
      | cons n p => rw [hp, look_leaf hx (by simp)]
    · cases p with
      | nil => rw [look_nil] at hp; exact nomatch hp
      | cons n p =>
        exact absurd ⟨[], List.nil_prefix, by simp, y.type, y.id, by rw [look_nil, if_neg hy]⟩ hs

/-- Merging directories entry by entry. -/
theorem merged_dir {S : Store} {b o r : Info} {eb eo l : Entries} (hb : Dir E S b eb) (ho : Dir E S o eo)
    (hr : Dir E S r l) (h1 : ∀ n, get n eb = none → get n l = get n eo)
    (h2 : ∀ n x, get n eb = some x → get n eo = none → get n l = some x)
    (h3 : ∀ n x y, get n eb = some x → get n eo = some y → ∃ z, get n l = some z ∧
      Merged (look E S x) (look E S y) (look E S z)) :
    Merged (look E S b) (look E S o) (look E S r) := by
  have hod : look E S o [] = some .dir := by rw [look_nil, if_pos ho.1]
  have hrd : look E S r [] = some .dir := by rw [look_nil, if_pos hr.1]
  refine ⟨fun p ob h => ?_, fun p h hs => ?_, fun p h hs => ?_⟩
  · cases p with
    | nil => rw [hrd, ← hod, h]
    | cons n p =>
      rw [hr.2]
      rw [ho.2] at h
      cases hy : get n eo with
      | none =>
        rw [hy] at h
        exact nomatch h
      | some y =>
        rw [hy, Option.bind_some] at h
        cases hx : get n eb with
        | none =>
          rw [h1 n hx, hy]
          exact h
        | some x =>
          obtain ⟨z, hz, hm⟩ := h3 n x y hx hy
          rw [hz]
          exact hm.later p ob h
  · cases p with
    | nil =>
      rw [hod] at h
      exact nomatch h
    | cons n p =>
      rw [hr.2]
      rw [ho.2] at h
      cases hy : get n eo with
      | none =>
        exact absurd hs (not_shadowed_dir hod (fun q => by rw [ho.2, hy]; rfl))
      | some y =>
        rw [hy, Option.bind_some] at h
        have hs' := (shadowed_cons (g := look E S y) hod (fun q => by rw [ho.2, hy]; rfl)).mp hs
        cases hx : get n eb with
        | none =>
          rw [h1 n hx, hy]
          exact h
        | some x =>
          obtain ⟨z, hz, hm⟩ := h3 n x y hx hy
          rw [hz]
          exact hm.shadowed p h hs'
  · cases p with
    | nil =>
      rw [hod] at h
      exact nomatch h
    | cons n p =>
      rw [hr.2, hb.2]
      rw [ho.2] at h
      cases hy : get n eo with
      | none =>
        cases hx : get n eb with
        | none => rw [h1 n hx, hy]
        | some x => rw [h2 n x hx hy]
      | some y =>
        rw [hy, Option.bind_some] at h
        have hs' : ¬ Shadowed (look E S y) p := fun hs' =>
          hs ((shadowed_cons hod (fun q => by rw [ho.2, hy]; rfl)).mpr hs')
        cases hx : get n eb with
        | none =>
          rw [h1 n hx, hy]
          exact h
        | some x =>
          obtain ⟨z, hz, hm⟩ := h3 n x y hx hy
          rw [hz]
          exact hm.earlier p h hs'

/-- The entries of a result are valid. -/
theorem res_ok (hE : E.OK) {d : Bool} {s : Store} {A : List Str} {eb eo l : Entries} {f : Str → Info}
    (kb : EntriesOK eb) (ko : EntriesOK eo) (hl : (l.map Prod.fst).Nodup)
    (h7 : ∀ n, get n eb = none → get n l = get n eo)
    (h8 : ∀ n x, get n eb = some x → get n eo = none → get n l = some x)
    (h9 : ∀ n x, get n eb = some x → get n eo = some x → get n l = some x)
    (h10 : ∀ n x y, get n eb = some x → get n eo = some y → x ≠ y → x.type = .tree → y.type = .tree →
        get n l = some (f n))
    (h11 : ∀ n x y, get n eb = some x → get n eo = some y → x ≠ y → x.type = .tree → y.type = .tree →
        Res E d s A x y (f n))
    (h12 : ∀ n x y, get n eb = some x → get n eo = some y → x ≠ y → ¬ (x.type = .tree ∧ y.type = .tree) →
        d = false ∧ get n l = some y) : EntriesOK l := by
  refine ⟨fun e he => ?_, by rw [List.map_map]; exact hl⟩
  obtain ⟨⟨n, i⟩, hi, rfl⟩ := List.mem_map.mp he
  have hg := get_of_mem hl hi
  have ofb : ∀ x, get n eb = some x → (⟨n, x.type, x.id⟩ : Ent).OK := fun x hx =>
    kb.ok _ (List.mem_map.mpr ⟨(n, x), get_mem hx, rfl⟩)
  have ofo : ∀ x, get n eo = some x → (⟨n, x.type, x.id⟩ : Ent).OK := fun x hx =>
    ko.ok _ (List.mem_map.mpr ⟨(n, x), get_mem hx, rfl⟩)
  cases hx : get n eb with
  | none =>
    rw [h7 n hx] at hg
    exact ofo i hg
  | some x =>
    cases hy : get n eo with
    | none =>
      rw [h8 n x hx hy] at hg
      injection hg with hg
      rw [← hg]
      exact ofb x hx
    | some y =>
      by_cases hxy : x = y
      · subst hxy
        rw [h9 n x hx hy] at hg
        injection hg with hg
        rw [← hg]
        exact ofb x hx
      · by_cases ht : x.type = .tree ∧ y.type = .tree
        · have hres := h11 n x y hx hy hxy ht.1 ht.2
          rw [h10 n x y hx hy hxy ht.1 ht.2] at hg
          injection hg with hg
          have := ofb x hx
          refine ⟨this.nonempty, this.noZero, this.noSlash, this.short, ?_⟩
          rw [← hg]
          exact hres.id hE hxy
        · rw [(h12 n x y hx hy hxy ht).2] at hg
          injection hg with hg
          rw [← hg]
          exact ofo y hy

theorem readTree_unique {s : Store} {i : Info} {es es' : Entries} (h : ∀ x, readTree E (s ++ x) i = some es)
    (h' : ∀ x, readTree E (s ++ x) i = some es') : es = es' := by
  have := h []
  rw [h' []] at this
  exact (Option.some.inj this).symm

theorem res_merged (hE : E.OK) {d : Bool} {s : Store} {A : List Str} {S : Store} (hS : NoCollision E S)
    (hs : ∀ x ∈ s, x ∈ S) (hA : ∀ x ∈ A, x ∈ S) {b o r : Info} (h : Res E d s A b o r) :
    Complete E s b → Complete E s o → Merged (look E S b) (look E S o) (look E S r) := by
  induction h with
  | same _ => exact fun _ _ => merged_self _
  | @merge b o eb eo l f h1 h2 h3 h4 h5 h6 h7 h8 h9 h10 h11 h12 h13 ih =>
    intro hb ho
    obtain ⟨eb', r1, k1, c1, _, d1⟩ := hb.read h1
    obtain ⟨eo', r2, k2, c2, _, d2⟩ := ho.read h2
    cases readTree_unique h4 r1
    cases readTree_unique h5 r2
    have hok := res_ok hE k1 k2 h6 h7 h8 h9 h10 h11 h12
    refine merged_dir (d1 S hS hs) (d2 S hS hs) (dir_of_write hE hok hS (hA _ h13)) h7 h8 ?_
    intro n x y hx hy
    by_cases hxy : x = y
    · subst hxy
      exact ⟨x, h9 n x hx hy, merged_self _⟩
    · by_cases ht : x.type = .tree ∧ y.type = .tree
      · exact ⟨f n, h10 n x y hx hy hxy ht.1 ht.2, ih n x y hx hy hxy ht.1 ht.2 (c1 n x hx) (c2 n y hy)⟩
      · exact ⟨y, (h12 n x y hx hy hxy ht).2, merged_leaf ht⟩

theorem look_same {s S : Store} (hS : NoCollision E S) (hs : ∀ x ∈ s, x ∈ S) {i : Info} (h : Complete E s i) :
    look E S i = look E s i := by
  induction h with
  | leaf h =>
    funext p
    cases p with
    | nil => rfl
    | cons n p => rw [look, look, if_neg h, if_neg h]
  | @tree id d l h1 h2 h3 h4 h5 ih =>
    funext p
    cases p with
    | nil => rfl
    | cons n p =>
      rw [look, look, if_pos rfl, if_pos rfl, retrieve_super hS hs h1, h1]
      simp only [Option.bind_some, h2]
      cases hf : l.find? (fun e => e.name = n) with
      | none => rfl
      | some e =>
        simp only [Option.bind_some]
        rw [ih e (List.mem_of_find?_eq_some hf)]

/-- C30 in part: if in the trees involved, entries of a directory that are the same object have the same type,
then overlaying two trees succeeds, and the result is the first tree with the second one put on top of it.
Missing: other trees, for which this is not the case, see `C30_violation`. -/
theorem C30_overlay_partial (hE : E.OK) (s : Store) (b o : Info) (hb : Complete E s b) (ho : Complete E s o)
    (htb : b.type = .tree) (hto : o.type = .tree) :
    ∃ r A n0, (∀ n, n0 ≤ n → overlay E false n s b o = .ok (r, s ++ A)) ∧
      (NoCollision E (s ++ A) → Merged (look E s b) (look E s o) (look E (s ++ A) r)) := by
  rcases outcome hE false hb o ho htb hto with ⟨r, A, ⟨n0, h1⟩, h2⟩ | ⟨h, _⟩
  · refine ⟨r, A, n0, fun n hn => by simpa using h1 n hn [], fun hS => ?_⟩
    have := res_merged hE hS (fun x hx => List.mem_append_left _ hx) (fun x hx => List.mem_append_right _ hx)
      h2 hb ho
    rwa [look_same hS (fun x hx => List.mem_append_left _ hx) hb,
      look_same hS (fun x hx => List.mem_append_left _ hx) ho] at this
  · exact nomatch h

theorem res_no_conflict {s : Store} {A : List Str} {b o r : Info} (h : Res E true s A b o r) :
    Complete E s b → Complete E s o → ∀ p, ¬ Conflict (look E s b) (look E s o) p := by
  induction h with
  | same _ =>
    rintro _ _ p ⟨x, y, h1, h2, h3⟩
    rw [h1] at h2
    exact h3 (Option.some.inj h2)
  | @merge b o eb eo l f h1 h2 h3 h4 h5 h6 h7 h8 h9 h10 h11 h12 h13 ih =>
    rintro hb ho p ⟨u, v, hu, hv, huv⟩
    obtain ⟨eb', r1, k1, c1, d1, _⟩ := hb.read h1
    obtain ⟨eo', r2, k2, c2, d2, _⟩ := ho.read h2
    cases readTree_unique h4 r1
    cases readTree_unique h5 r2
    have d1 := d1 []
    have d2 := d2 []
    rw [List.append_nil] at d1 d2
    cases p with
    | nil =>
      rw [look_nil, if_pos h1] at hu
      rw [look_nil, if_pos h2] at hv
      exact huv ((Option.some.inj hu).symm.trans (Option.some.inj hv))
    | cons n p =>
      rw [d1.2] at hu
      rw [d2.2] at hv
      cases hx : get n eb with
      | none =>
        rw [hx] at hu
        exact nomatch hu
      | some x =>
        cases hy : get n eo with
        | none =>
          rw [hy] at hv
          exact nomatch hv
        | some y =>
          rw [hx, Option.bind_some] at hu
          rw [hy, Option.bind_some] at hv
          by_cases hxy : x = y
          · subst hxy
            rw [hu] at hv
            exact huv (Option.some.inj hv)
          · by_cases ht : x.type = .tree ∧ y.type = .tree
            · exact ih n x y hx hy hxy ht.1 ht.2 (c1 n x hx) (c2 n y hy) p ⟨u, v, hu, hv, huv⟩
            · exact nomatch (h12 n x y hx hy hxy ht).1

theorem Res.symm {s : Store} {A : List Str} {b o r : Info} (h : Res E true s A b o r) :
    Res E true s A o b r := by
  induction h with
  | same h => exact .same h
  | @merge b o eb eo l f h1 h2 h3 h4 h5 h6 h7 h8 h9 h10 h11 h12 h13 ih =>
    refine .merge (f := f) h2 h1 (fun e => h3 e.symm) h5 h4 h6 ?_ ?_ (fun n x hx hy => h9 n x hy hx) ?_ ?_ ?_ h13
    · intro n hn
      cases hx : get n eb with
      | none => rw [h7 n hx, hn]
      | some x => exact h8 n x hx hn
    · intro n x hx hn
      rw [h7 n hn]
      exact hx
    · exact fun n x y hx hy hne tx ty => h10 n y x hy hx (fun e => hne e.symm) ty tx
    · exact fun n x y hx hy hne tx ty => ih n y x hy hx (fun e => hne e.symm) ty tx
    · exact fun n x y hx hy hne ht => nomatch (h12 n y x hy hx (fun e => hne e.symm) (fun h => ht ⟨h.2, h.1⟩)).1

theorem perm_of_get {l l' : Entries} (hn : (l.map Prod.fst).Nodup) (hn' : (l'.map Prod.fst).Nodup)
    (h : ∀ n, get n l = get n l') : l.Perm l' := by
  have nd : ∀ {l : Entries}, (l.map Prod.fst).Nodup → l.Nodup := fun h => h.of_map
  refine (List.perm_ext_iff_of_nodup (nd hn) (nd hn')).mpr ?_
  rintro ⟨n, i⟩
  rw [← get_iff hn, ← get_iff hn', h]

theorem Res.unique (hE : E.OK) {d : Bool} {s : Store} {A A' : List Str} {b o r r' : Info}
    (h : Res E d s A b o r) : Complete E s b → Complete E s o → Res E d s A' b o r' → r = r' := by
  induction h generalizing r' with
  | same h =>
    intro _ _ h'
    cases h' with
    | same => rfl
    | merge _ _ hne => exact absurd rfl hne
  | @merge b o eb eo l f h1 h2 h3 h4 h5 h6 h7 h8 h9 h10 h11 h12 h13 ih =>
    intro hb ho h'
    cases h' with
    | same => exact absurd rfl h3
    | @merge _ _ eb' eo' l' f' _ _ _ h4' h5' h6' h7' h8' h9' h10' h11' h12' h13' =>
      cases readTree_unique h4 h4'
      cases readTree_unique h5 h5'
      obtain ⟨eb', r1, k1, c1, _⟩ := hb.read h1
      obtain ⟨eo', r2, k2, c2, _⟩ := ho.read h2
      cases readTree_unique h4 r1
      cases readTree_unique h5 r2
      have hok := res_ok hE k1 k2 h6 h7 h8 h9 h10 h11 h12
      have hg : ∀ n, get n l = get n l' := by
        intro n
        cases hx : get n eb with
        | none => rw [h7 n hx, h7' n hx]
        | some x =>
          cases hy : get n eo with
          | none => rw [h8 n x hx hy, h8' n x hx hy]
          | some y =>
            by_cases hxy : x = y
            · subst hxy
              rw [h9 n x hx hy, h9' n x hx hy]
            · by_cases ht : x.type = .tree ∧ y.type = .tree
              · rw [h10 n x y hx hy hxy ht.1 ht.2, h10' n x y hx hy hxy ht.1 ht.2]
                rw [ih n x y hx hy hxy ht.1 ht.2 (c1 n x hx) (c2 n y hy) (h11' n x y hx hy hxy ht.1 ht.2)]
              · rw [(h12 n x y hx hy hxy ht).2, (h12' n x y hx hy hxy ht).2]
      rw [serialize_congr hE hok (perm_of_get h6 h6' hg)]

/-- C31 in part: a disjoint overlay fails exactly if the trees conflict somewhere.  Missing: trees in which
the same object occurs with different types, see `C31_violation`. -/
theorem C31_conflict_partial (hE : E.OK) (s : Store) (b o : Info) (hb : Complete E s b) (ho : Complete E s o)
    (htb : b.type = .tree) (hto : o.type = .tree) :
    ∃ n0, ∀ n, n0 ≤ n →
      (overlay E true n s b o = .conflict ↔ ∃ p, Conflict (look E s b) (look E s o) p) ∧
      ((¬ ∃ p, Conflict (look E s b) (look E s o) p) → ∃ r, overlay E true n s b o = .ok r) := by
  rcases outcome hE true hb o ho htb hto with ⟨r, A, ⟨n0, h1⟩, h2⟩ | ⟨_, ⟨n0, h1⟩, h2⟩
  · refine ⟨n0, fun n hn => ?_⟩
    have := h1 n hn []
    rw [List.append_nil] at this
    rw [this]
    refine ⟨⟨(fun h => nomatch h), ?_⟩, fun _ => ⟨_, rfl⟩⟩
    rintro ⟨p, hp⟩
    exact absurd hp (res_no_conflict h2 hb ho p)
  · refine ⟨n0, fun n hn => ?_⟩
    have := h1 n hn []
    rw [List.append_nil] at this
    exact ⟨⟨fun _ => h2, fun _ => this⟩, fun h => absurd h2 h⟩

theorem look_prefix (S : Store) : ∀ (q : List Str) (i : Info) (p : List Str) (x : Obs),
    look E S i p = some x → q <+: p → q ≠ p → look E S i q = some .dir
  | [], i, p, x, h, _, hne => by
    cases p with
    | nil => exact absurd rfl hne
    | cons n p =>
      rw [look] at h
      rw [look_nil]
      by_cases ht : i.type = .tree
      · rw [if_pos ht]
      · rw [if_neg ht] at h
        exact nomatch h
  | n :: q, i, p, x, h, hq, hne => by
    cases p with
    | nil => exact absurd hq (by simp)
    | cons m p =>
      obtain ⟨rfl, hq'⟩ := List.cons_prefix_cons.mp hq
      rw [look] at h ⊢
      by_cases ht : i.type = .tree
      · rw [if_pos ht] at h ⊢
        cases hr : retrieve E S i.id with
        | none =>
          rw [hr] at h
          exact nomatch h
        | some d =>
          rw [hr, Option.bind_some] at h
          rw [Option.bind_some]
          cases hp : parseTree d with
          | none =>
            rw [hp] at h
            exact nomatch h
          | some l =>
            rw [hp, Option.bind_some] at h
            rw [Option.bind_some]
            cases hf : l.find? (fun e => e.name = n) with
            | none =>
              rw [hf] at h
              exact nomatch h
            | some e =>
              rw [hf, Option.bind_some] at h
              rw [Option.bind_some]
              exact look_prefix S q _ p x h hq' (fun e => hne (by rw [e]))
      · rw [if_neg ht] at h
        exact nomatch h

/-- C31 in part: if trees do not conflict, both orders of overlaying them give the same tree, and this tree has
at each path what the first one has there, otherwise what the second one has there.  Missing: as for
`C31_conflict_partial`. -/
theorem C31_union_partial (hE : E.OK) (s : Store) (b o : Info) (hb : Complete E s b) (ho : Complete E s o)
    (htb : b.type = .tree) (hto : o.type = .tree)
    (hnc : ¬ ∃ p, Conflict (look E s b) (look E s o) p) :
    ∃ r A A' n0, (∀ n, n0 ≤ n → overlay E true n s b o = .ok (r, s ++ A) ∧
        overlay E true n s o b = .ok (r, s ++ A')) ∧
      (NoCollision E (s ++ A) → ∀ p, look E (s ++ A) r p = (look E s b p).or (look E s o p)) := by
  rcases outcome hE true hb o ho htb hto with ⟨r, A, ⟨n0, h1⟩, h2⟩ | ⟨_, _, h2⟩
  · rcases outcome hE true ho b hb hto htb with ⟨r', A', ⟨n0', h1'⟩, h2'⟩ | ⟨_, _, p, x, y, h3, h4, h5⟩
    · have hr : r = r' := h2.unique hE hb ho h2'.symm
      subst hr
      refine ⟨r, A, A', max n0 n0', fun n hn => ⟨?_, ?_⟩, fun hS p => ?_⟩
      · simpa using h1 n (le_trans (le_max_left _ _) hn) []
      · simpa using h1' n (le_trans (le_max_right _ _) hn) []
      · have hm := res_merged hE hS (fun x hx => List.mem_append_left _ hx)
          (fun x hx => List.mem_append_right _ hx) h2 hb ho
        rw [look_same hS (fun x hx => List.mem_append_left _ hx) hb,
          look_same hS (fun x hx => List.mem_append_left _ hx) ho] at hm
        cases hp : look E s b p with
        | none =>
          rw [Option.none_or]
          cases hq : look E s o p with
          | some y => exact hm.later p y hq
          | none =>
            by_cases hs : Shadowed (look E s o) p
            · exact hm.shadowed p hq hs
            · rw [hm.earlier p hq hs, hp]
        | some x =>
          rw [Option.some_or]
          cases hq : look E s o p with
          | some y =>
            rw [hm.later p y hq]
            by_cases hxy : x = y
            · rw [hxy]
            · exact absurd ⟨p, x, y, hp, hq, hxy⟩ hnc
          | none =>
            by_cases hs : Shadowed (look E s o) p
            · obtain ⟨q, hqp, hne, ty, id, hl⟩ := hs
              exact absurd ⟨q, .dir, .leaf ty id, look_prefix s q b p x hp hqp hne, hl,
                fun h => nomatch h⟩ hnc
            · rw [hm.earlier p hq hs, hp]
    · exact absurd ⟨p, y, x, h4, h3, fun e => h5 e.symm⟩ hnc
  · exact absurd h2 hnc

/-! ### Examples and violations -/

/-- For examples: a number for a text. -/
def number (s : Str) : Nat := s.foldl (fun n c => (n * 257 + c.toNat + 1) % 1000000007) 1

/-- For examples: the last `n` digits of a number. -/
def digits : Nat → Nat → Str
  | 0, _ => []
  | n + 1, m => digits n (m / 10) ++ [Char.ofNat (48 + m % 10)]

theorem digits_length : ∀ n m, (digits n m).length = n
  | 0, _ => rfl
  | n + 1, m => by rw [digits, List.length_append, digits_length n]; rfl

/-- For examples: an environment. -/
def demoEnv : Env where
  H := fun s => digits 20 (number s)
  visit := fun l => l.reverse

theorem demoEnv_ok : demoEnv.OK where
  length := fun _ => digits_length _ _
  visit := fun l => List.reverse_perm l

/-- For examples: other contents. -/
def otherId : Str := List.replicate 20 'o'

/-- For examples: the bytes of a tree. -/
def treeText (l : List Ent) : Str := l.flatMap gitText

/-- For examples: the identifier of a tree. -/
def treeOf (l : List Ent) : Info := ⟨.tree, demoEnv.H (treeText l)⟩

def subA : List Ent := [⟨['p'], .file, someId⟩, ⟨['q'], .file, someId⟩]
def subB : List Ent := [⟨['q'], .executable, otherId⟩, ⟨['r'], .symlink, someId⟩]
def dirA : List Ent := [⟨['d'], .tree, (treeOf subA).id⟩, ⟨['x'], .file, someId⟩]
def dirB : List Ent := [⟨['d'], .tree, (treeOf subB).id⟩, ⟨['y'], .file, otherId⟩]
def demoStore : Store := [treeText subA, treeText subB, treeText dirA, treeText dirB]

/-- For examples: decides `Listing` and `Uniform`. -/
def listingOK (l : List Ent) : Bool :=
  l.all (fun e => decide (e.name ≠ []) && e.name.all (fun c => c.toNat != 0 && c != '/') &&
    decide (e.name.length ≤ 65535) && decide (e.id.length = 20)) && decide (l.map Ent.name).Nodup &&
  l.all (fun e => l.all (fun e' => !decide (e.id = e'.id) || decide (e.type = e'.type)))

theorem listingOK_spec {l : List Ent} (h : listingOK l = true) : Listing l ∧ Uniform l := by
  simp only [listingOK, Bool.and_eq_true, List.all_eq_true, decide_eq_true_eq, bne_iff_ne, Bool.or_eq_true,
    Bool.not_eq_true', decide_eq_false_iff_not] at h
  obtain ⟨⟨h1, h2⟩, h3⟩ := h
  refine ⟨⟨fun e he => ?_, h2⟩, fun e he e' he' hid => ?_⟩
  · obtain ⟨⟨⟨a, b⟩, c⟩, d⟩ := h1 e he
    exact ⟨a, fun x hx => (b x hx).1, fun hx => (b _ hx).2 rfl, c, d⟩
  · rcases h3 e he e' he' with h | h
    · exact absurd hid h
    · exact h

theorem complete_demo {s : Store} {l : List Ent}
    (h : (decide (retrieve demoEnv s (treeOf l).id = some (treeText l)) &&
      decide (parseTree (treeText l) = some l) && listingOK l) = true)
    (h5 : ∀ e ∈ l, e.type = .tree → Complete demoEnv s ⟨e.type, e.id⟩) : Complete demoEnv s (treeOf l) := by
  simp only [Bool.and_eq_true, decide_eq_true_eq] at h
  refine .tree h.1.1 h.1.2 (listingOK_spec h.2).1 (listingOK_spec h.2).2 (fun e he => ?_)
  by_cases ht : e.type = .tree
  · exact h5 e he ht
  · exact .leaf ht

theorem subA_complete : Complete demoEnv demoStore (treeOf subA) :=
  complete_demo (by decide +kernel) (by simp [subA])

theorem subB_complete : Complete demoEnv demoStore (treeOf subB) :=
  complete_demo (by decide +kernel) (by simp [subB])

theorem dirA_complete : Complete demoEnv demoStore (treeOf dirA) :=
  complete_demo (by decide +kernel) (by
    simp only [dirA, List.mem_cons, List.not_mem_nil, or_false, forall_eq_or_imp, forall_eq]
    exact ⟨fun _ => subA_complete, fun h => nomatch h⟩)

theorem dirB_complete : Complete demoEnv demoStore (treeOf dirB) :=
  complete_demo (by decide +kernel) (by
    simp only [dirB, List.mem_cons, List.not_mem_nil, or_false, forall_eq_or_imp, forall_eq]
    exact ⟨fun _ => subB_complete, fun h => nomatch h⟩)

theorem agree_of_eq {S : Store} {lb lo : List Ent} {b o : Info} {db do' : Str} (t1 : b.type = .tree)
    (t2 : o.type = .tree) (h1 : retrieve E S b.id = some db ∧ parseTree db = some lb)
    (h2 : retrieve E S o.id = some do' ∧ parseTree do' = some lo)
    (h : ∀ e ∈ lb, ∀ e' ∈ lo, e.name = e'.name → ∀ p x y, look E S ⟨e.type, e.id⟩ p = some x →
      look E S ⟨e'.type, e'.id⟩ p = some y → x = y) :
    ∀ p x y, look E S b p = some x → look E S o p = some y → x = y := by
  intro p x y hx hy
  cases p with
  | nil =>
    rw [look_nil, if_pos t1] at hx
    rw [look_nil, if_pos t2] at hy
    exact (Option.some.inj hx).symm.trans (Option.some.inj hy)
  | cons n p =>
    rw [look, if_pos t1, h1.1, Option.bind_some, h1.2, Option.bind_some] at hx
    rw [look, if_pos t2, h2.1, Option.bind_some, h2.2, Option.bind_some] at hy
    cases hf : lb.find? (fun e => e.name = n) with
    | none =>
      rw [hf] at hx
      exact nomatch hx
    | some e =>
      cases hf' : lo.find? (fun e => e.name = n) with
      | none =>
        rw [hf'] at hy
        exact nomatch hy
      | some e' =>
        rw [hf, Option.bind_some] at hx
        rw [hf', Option.bind_some] at hy
        have e1 := List.find?_some hf
        have e2 := List.find?_some hf'
        simp only [decide_eq_true_eq] at e1 e2
        exact h e (List.mem_of_find?_eq_some hf) e' (List.mem_of_find?_eq_some hf') (e1.trans e2.symm) p x y hx hy

theorem agree_of {S : Store} {lb lo : List Ent}
    (h1 : (decide (retrieve demoEnv S (treeOf lb).id = some (treeText lb)) &&
      decide (parseTree (treeText lb) = some lb)) = true)
    (h2 : (decide (retrieve demoEnv S (treeOf lo).id = some (treeText lo)) &&
      decide (parseTree (treeText lo) = some lo)) = true)
    (h : ∀ e ∈ lb, ∀ e' ∈ lo, e.name = e'.name → ∀ p x y, look demoEnv S ⟨e.type, e.id⟩ p = some x →
      look demoEnv S ⟨e'.type, e'.id⟩ p = some y → x = y) :
    ∀ p x y, look demoEnv S (treeOf lb) p = some x → look demoEnv S (treeOf lo) p = some y → x = y := by
  simp only [Bool.and_eq_true, decide_eq_true_eq] at h1 h2
  exact agree_of_eq rfl rfl h1 h2 h

theorem agree_self (S : Store) (i : Info) :
    ∀ p x y, look demoEnv S i p = some x → look demoEnv S i p = some y → x = y :=
  fun _ _ _ hx hy => Option.some.inj (hx.symm.trans hy)

/-- For examples: whether an overlay is a conflict. -/
def isConflict : Out (Info × Store) → Bool
  | .conflict => true
  | _ => false

theorem isConflict_iff {r : Out (Info × Store)} (h : isConflict r = true) : r = .conflict := by
  cases r <;> first | rfl | exact nomatch h

/-- For examples: the result of an overlay has, at some paths, given contents. -/
def shows (r : Out (Info × Store)) (l : List (List Str × Option Obs)) : Bool :=
  match r with
  | .ok (i, s) => l.all (fun p => decide (look demoEnv s i p.1 = p.2)) &&
      s.all (fun a => s.all (fun b => !decide (demoEnv.H a = demoEnv.H b) || decide (a = b)))
  | _ => false

/-- The theorem applies to trees with sub-directories, and without collision. -/
example : (∃ r A n0, (∀ n, n0 ≤ n → overlay demoEnv false n demoStore (treeOf dirA) (treeOf dirB) =
      .ok (r, demoStore ++ A)) ∧ (NoCollision demoEnv (demoStore ++ A) →
      Merged (look demoEnv demoStore (treeOf dirA)) (look demoEnv demoStore (treeOf dirB))
        (look demoEnv (demoStore ++ A) r))) ∧
    shows (overlay demoEnv false 5 demoStore (treeOf dirA) (treeOf dirB))
      [([], some .dir), ([['d']], some .dir), ([['d'], ['p']], some (.leaf .file someId)),
        ([['d'], ['q']], some (.leaf .executable otherId)), ([['d'], ['r']], some (.leaf .symlink someId)),
        ([['x']], some (.leaf .file someId)), ([['y']], some (.leaf .file otherId)), ([['z']], none)] = true :=
  ⟨C30_overlay_partial demoEnv_ok demoStore (treeOf dirA) (treeOf dirB) dirA_complete dirB_complete rfl rfl,
    by decide +kernel⟩

/-- These trees conflict at `d/q`. -/
example : ∃ n0, ∀ n, n0 ≤ n → overlay demoEnv true n demoStore (treeOf dirA) (treeOf dirB) = .conflict := by
  obtain ⟨n0, h⟩ := C31_conflict_partial demoEnv_ok demoStore (treeOf dirA) (treeOf dirB) dirA_complete
    dirB_complete rfl rfl
  exact ⟨n0, fun n hn => (h n hn).1.mpr ⟨[['d'], ['q']], .leaf .file someId, .leaf .executable otherId,
    by decide +kernel, by decide +kernel, by decide⟩⟩

def subC : List Ent := [⟨['p'], .file, someId⟩, ⟨['s'], .file, otherId⟩]
def dirC : List Ent := [⟨['d'], .tree, (treeOf subC).id⟩, ⟨['y'], .file, otherId⟩]
def demoStore2 : Store := [treeText subA, treeText subC, treeText dirA, treeText dirC]

theorem dirA_complete2 : Complete demoEnv demoStore2 (treeOf dirA) :=
  complete_demo (by decide +kernel) (by
    simp only [dirA, List.mem_cons, List.not_mem_nil, or_false, forall_eq_or_imp, forall_eq]
    exact ⟨fun _ => complete_demo (l := subA) (by decide +kernel) (by simp [subA]), fun h => nomatch h⟩)

theorem dirC_complete2 : Complete demoEnv demoStore2 (treeOf dirC) :=
  complete_demo (by decide +kernel) (by
    simp only [dirC, List.mem_cons, List.not_mem_nil, or_false, forall_eq_or_imp, forall_eq]
    exact ⟨fun _ => complete_demo (l := subC) (by decide +kernel) (by simp [subC]), fun h => nomatch h⟩)

/-- No conflict, although both have a directory `d`. -/
example : (∃ r A A' n0, (∀ n, n0 ≤ n →
      overlay demoEnv true n demoStore2 (treeOf dirA) (treeOf dirC) = .ok (r, demoStore2 ++ A) ∧
      overlay demoEnv true n demoStore2 (treeOf dirC) (treeOf dirA) = .ok (r, demoStore2 ++ A')) ∧
    (NoCollision demoEnv (demoStore2 ++ A) → ∀ p, look demoEnv (demoStore2 ++ A) r p =
      (look demoEnv demoStore2 (treeOf dirA) p).or (look demoEnv demoStore2 (treeOf dirC) p))) ∧
    shows (overlay demoEnv true 5 demoStore2 (treeOf dirA) (treeOf dirC))
      [([['d'], ['p']], some (.leaf .file someId)), ([['d'], ['q']], some (.leaf .file someId)),
        ([['d'], ['s']], some (.leaf .file otherId))] = true := by
  refine ⟨C31_union_partial demoEnv_ok demoStore2 (treeOf dirA) (treeOf dirC) dirA_complete2 dirC_complete2 rfl rfl
    ?_, by decide +kernel⟩
  rintro ⟨p, x, y, hx, hy, hne⟩
  refine hne (agree_of (by decide +kernel) (by decide +kernel) ?_ p x y hx hy)
  simp only [dirA, dirC, List.mem_cons, List.not_mem_nil, or_false, forall_eq_or_imp, forall_eq]
  refine ⟨⟨fun _ => ?_, fun h => nomatch h⟩, (fun h => nomatch h), (fun h => nomatch h)⟩
  refine agree_of (lb := subA) (lo := subC) (by decide +kernel) (by decide +kernel) ?_
  simp only [subA, subC, List.mem_cons, List.not_mem_nil, or_false, forall_eq_or_imp, forall_eq]
  exact ⟨⟨fun _ => agree_self _ _, fun h => nomatch h⟩, (fun h => nomatch h), (fun h => nomatch h)⟩

/-- C30 does not hold: overlaying makes an executable a file if another entry is a file with the same
content. -/
theorem C30_violation : ∃ (s : Store) (b o : Info), look demoEnv s b [['b']] = some (.leaf .executable someId) ∧
    look demoEnv s o [] = some .dir ∧ look demoEnv s o [['b']] = none ∧
    ∃ r s', overlay demoEnv false 5 s b o = .ok (r, s') ∧ look demoEnv s' r [['b']] = some (.leaf .file someId) := by
  refine ⟨[treeText [⟨['a'], .file, someId⟩, ⟨['b'], .executable, someId⟩], treeText subA],
    treeOf [⟨['a'], .file, someId⟩, ⟨['b'], .executable, someId⟩], treeOf subA,
    by decide +kernel, by decide +kernel, by decide +kernel, ?_⟩
  have h : shows (overlay demoEnv false 5
      [treeText [⟨['a'], .file, someId⟩, ⟨['b'], .executable, someId⟩], treeText subA]
      (treeOf [⟨['a'], .file, someId⟩, ⟨['b'], .executable, someId⟩]) (treeOf subA))
      [([['b']], some (.leaf .file someId))] = true := by decide +kernel
  unfold shows at h
  split at h
  · rename_i i s' he
    rw [Bool.and_eq_true, List.all_eq_true] at h
    exact ⟨i, s', he, by simpa using h.1 ([['b']], some (.leaf .file someId)) (by simp)⟩
  · exact nomatch h

/-- C31 does not hold: trees that agree wherever both have something are reported to conflict. -/
theorem C31_violation : ∃ (s : Store) (b o : Info),
    look demoEnv s b [['a']] = some (.leaf .file someId) ∧ look demoEnv s o [['a']] = none ∧
    look demoEnv s b [['b']] = some (.leaf .executable someId) ∧
    look demoEnv s o [['b']] = some (.leaf .executable someId) ∧
    (∀ p x y, look demoEnv s b p = some x → look demoEnv s o p = some y → x = y) ∧
    overlay demoEnv true 5 s b o = .conflict := by
  refine ⟨[treeText [⟨['a'], .file, someId⟩, ⟨['b'], .executable, someId⟩], treeText [⟨['b'], .executable, someId⟩]],
    treeOf [⟨['a'], .file, someId⟩, ⟨['b'], .executable, someId⟩], treeOf [⟨['b'], .executable, someId⟩],
    by decide +kernel, by decide +kernel, by decide +kernel, by decide +kernel, ?_,
    isConflict_iff (by decide +kernel)⟩
  refine agree_of (by decide +kernel) (by decide +kernel) ?_
  simp only [List.mem_cons, List.not_mem_nil, or_false, forall_eq_or_imp, forall_eq]
  exact ⟨(fun h => nomatch h), fun _ => agree_self _ _⟩

end Verif.Tree
