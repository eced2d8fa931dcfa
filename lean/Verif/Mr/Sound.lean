import Verif.Mr.Lemmas

/-!
# Roots are as described
-/

namespace Verif.Mr

open Verif.Symlinks (Node Mode Val)

variable {E : Env} {C : Conf} {served : Str → Prop}

theorem valid_bind {α β : Type} {R : Rules World Query Answer} {p : Task α} {g : α → Task β} {w : World} {post : β → World → Prop}
    (h : Valid R p w fun a w' => Valid R (g a) w' post) : Valid R (p >>= g) w post := Valid.bind h

theorem valid_and {α : Type} {R : Rules World Query Answer} {p : Task α} {w : World} {P : Prop} {post : α → World → Prop}
    (hP : P) (h : Valid R p w post) : Valid R p w fun a v => P ∧ post a v := h.weaken fun _ _ _ _ h => ⟨hP, h⟩

/-- After a program that keeps to the rules. -/
theorem valid_then {α β : Type} {p : Task α} {g : α → Task β} {w : World} {post : β → World → Prop} (h : Safe E served p w)
    (hg : ∀ a v, Grows w v → Inv E v → Valid (rules E served) (g a) v post) : Valid (rules E served) (p >>= g) w post :=
  valid_bind (h.weaken fun a v h1 h2 _ => hg a v h1 h2)

theorem valid_ask {β : Type} {q : Query} {g : Answer → Task β} {w : World} {post : β → World → Prop}
    (hg : ∀ a, Honest E served q a → ∀ v, Grows w v → Inv E v → Valid (rules E served) (g a) v post) :
    Valid (rules E served) (question q >>= g) w post :=
  valid_bind (valid_question fun a ha v h1 h2 => hg a ha v h1 h2)

/-! ## Setting the root -/

theorem uploadAbsent_valid (t : Str) (w : World) :
    Valid (rules E served) (uploadAbsent t) w fun r _ => r = .absent t ∧ (C.serve = true → served t) := by
  refine valid_ask fun a ha v _ _ => ?_
  cases a with
  | yes => exact fun _ _ _ => ⟨rfl, fun _ => ha⟩
  | text c => trivial
  | error => trivial
  | no => trivial
  | texts l => trivial
  | node n => trivial

theorem asAbsent_valid (k : ArchiveRepo) (t : Str) (hit : Bool) (w : World) :
    Valid (rules E served) (asAbsent C k t hit) w fun r _ => r = .absent t ∧ (C.serve = true → served t) := by
  unfold asAbsent
  split
  · refine valid_ask fun a ha v _ _ => ?_
    cases a with
    | yes => exact fun _ _ _ => ⟨rfl, fun _ => ha⟩
    | no =>
      simp only
      split
      · refine valid_bind (valid_ask fun b hb v _ _ => ?_)
        cases b with
        | text t' =>
          simp only
          split
          · rename_i ht
            refine fun _ _ _ => ?_
            simp only [if_true]
            exact fun _ _ _ => ⟨rfl, fun _ => by rw [ht]; exact hb.2⟩
          · trivial
        | no => exact fun v _ _ => uploadAbsent_valid t v
        | yes => trivial
        | error => trivial
        | texts l => trivial
        | node n => trivial
      · exact uploadAbsent_valid t v
    | text c => trivial
    | error => trivial
    | texts l => trivial
    | node n => trivial
  · rename_i h
    exact fun _ _ _ => ⟨rfl, fun h' => absurd h' h⟩

/-- It is remembered what to do for an archive. -/
def Hit (E : Env) (k : ArchiveRepo) (w : World) : Prop :=
  (read (k.type, k.archive.hash) w.young.arch).isSome ∧ ∀ m, k.special = some m → ∃ c es n, E.blobId c = k.archive.hash ∧
    E.extract k.type c = some es ∧ (Node.tree es).find k.subdir = some n ∧ (read (m, gid E n) w.young.special).isSome

theorem Hit.later {k : ArchiveRepo} {w w' : World} (h : Hit E k w) (hg : Grows w w') : Hit E k w' :=
  ⟨hg.arch _ h.1, fun m hm => by
    obtain ⟨c, es, n, h1, h2, h3, h4⟩ := h.2 m hm
    exact ⟨c, es, n, h1, h2, h3, hg.special _ h4⟩⟩

/-- What is wanted of the root for an archive. -/
def ArchiveRight (E : Env) (C : Conf) (served : Str → Prop) (k : ArchiveRepo) (r : Root) (w : World) : Prop :=
  ∃ n, Contents E k n ∧
    if k.absent = true ∧ C.fetchAbsent = false then r = .absent (gid E n) ∧ (C.serve = true → served (gid E n))
    else r = .present (gid E n) ∧ Kept w.young n ∧ Hit E k w

/-- Whether the root is to be absent. -/
def wantAbsent (C : Conf) (k : ArchiveRepo) : Bool := k.absent && !C.fetchAbsent

theorem wantAbsent_iff (k : ArchiveRepo) : wantAbsent C k = true ↔ k.absent = true ∧ C.fetchAbsent = false := by
  unfold wantAbsent; cases k.absent <;> cases C.fetchAbsent <;> simp

theorem setRoot_valid (k : ArchiveRepo) (n : Node) (hit : Bool) (w : World) (hn : Contents E k n) (hk : Kept w.young n)
    (hh : Hit E k w) :
    Valid (rules E served) (setRoot C k (gid E n) hit (wantAbsent C k)) w (ArchiveRight E C served k) := by
  unfold setRoot
  split
  · rename_i h
    rw [wantAbsent_iff] at h
    exact (asAbsent_valid k _ hit w).weaken fun r v _ _ hr => ⟨n, hn, by rw [if_pos h]; exact hr⟩
  · rename_i h
    rw [wantAbsent_iff] at h
    exact fun v hv _ => ⟨n, hn, by rw [if_neg h]; exact ⟨rfl, hk.later hv, hh.later hv⟩⟩

theorem resolveContent_valid (H : E.Good) (k : ArchiveRepo) (hit : Bool) (w : World) {c : Str} {es : List (Str × Node)} {n : Node}
    (h1 : E.blobId c = k.archive.hash) (h2 : E.extract k.type c = some es) (h3 : (Node.tree es).find k.subdir = some n)
    (hk : Kept w.young n) (hh : (read (k.type, k.archive.hash) w.young.arch).isSome) :
    Valid (rules E served) (resolveContent E C k (gid E n) hit (wantAbsent C k)) w (ArchiveRight E C served k) := by
  unfold resolveContent
  cases hs : k.special with
  | none => exact setRoot_valid k n hit w ⟨c, es, n, h1, h2, h3, by simp only [hs]⟩ hk ⟨hh, by simp [hs]⟩
  | some m =>
    simp only
    refine valid_bind (valid_look fun v hv hi v' hv' hi' => ?_)
    cases hr : read (m, gid E n) v.young.special with
    | some t' =>
      obtain ⟨fs, n', a1, a2, a3, a4, a5⟩ := hi.young.special _ _ _ (read_mem hr)
      have := gid_tree H a1
      subst this
      subst a4
      exact setRoot_valid k n' hit v' ⟨c, es, _, h1, h2, h3, by simp only [hs]; exact ⟨rfl, a2, a3⟩⟩ (a5.later hv')
        (Hit.later ⟨hv.arch _ hh, fun m' hm' => ⟨c, es, _, h1, h2, h3, by cases hs.symm.trans hm'; rw [hr]; rfl⟩⟩ hv')
    | none =>
      refine valid_bind (valid_need fun u x hu hi hf u' hu' hi' => ?_)
      obtain ⟨b1, b2, b3⟩ := findTree_some hf
      obtain ⟨fs, rfl⟩ := (isTree_iff x).1 b2
      have hx := gid_tree H b3.symm
      subst hx
      refine valid_ask fun a ha z hz hiz => ?_
      cases a with
      | node n' =>
        refine valid_bind (valid_change fun z1 hz1 hiz1 => ⟨(addObjs_ok _ (below_closed _) _ hiz1).1, (addObjs_ok _ (below_closed _) _ hiz1).2, fun z2 hz2 hiz2 => ?_⟩)
        have hob : ∀ m ∈ below n', m ∈ z2.young.objs := fun m hm => hz2.objs m (List.mem_append_left _ hm)
        refine valid_bind (valid_tryTo fun z3 z4 hz3 hiz3 hkeep => ?_)
        have htree : isTree n' = true := by
          unfold World.keep Gen.keep at hkeep
          cases hf : findTree E (gid E n') z3.young.objs with
          | none => simp [hf] at hkeep
          | some q =>
            obtain ⟨_, q2, q3⟩ := findTree_some hf
            obtain ⟨gs, rfl⟩ := (isTree_iff q).1 q2
            rw [gid_tree H q3.symm]; rfl
        obtain ⟨gs, rfl⟩ := (isTree_iff n').1 htree
        obtain ⟨k1, k2, k3⟩ := keep_ok H hiz3 (fun m hm => hz3.objs m (hob m hm)) hkeep
        refine ⟨k1, k2, fun z5 hz5 hiz5 => ?_⟩
        refine valid_bind (valid_change fun z6 hz6 hiz6 => ?_)
        have ok := writeSpecial_ok hiz6 rfl htree ha rfl (k3.later (hz5.trans hz6))
        refine ⟨ok.1, ok.2, fun z7 hz7 hiz7 => ?_⟩
        exact setRoot_valid k _ hit z7 ⟨c, es, _, h1, h2, h3, by simp only [hs]; exact ⟨rfl, htree, ha⟩⟩
          (((k3.later hz5).later (hz6.trans ok.2)).later hz7)
          (Hit.later ⟨ok.2.arch _ (hz6.arch _ (hz5.arch _ (k2.arch _ (hz3.arch _ (hz2.arch _ ((addObjs_ok (below (.tree gs)) (below_closed _) _ hiz1).2.arch _
            (hz1.arch _ (hz.arch _ (hu'.arch _ (hu.arch _ (hv'.arch _ (hv.arch _ hh)))))))))))),
            fun m' hm' => ⟨c, es, _, h1, h2, h3, by
              cases hs.symm.trans hm'
              simp only [World.writeSpecial, read_head, Option.isSome_some]⟩⟩ hz7)
      | text t => trivial
      | error => trivial
      | yes => trivial
      | no => trivial
      | texts l => trivial

theorem subtree_valid (H : E.Good) (sub : List Str) (w : World) {es : List (Str × Node)} :
    Valid (rules E served) (subtree E (gid E (.tree es)) sub) w fun s _ =>
      ∃ n, (Node.tree es).find sub = some n ∧ s = gid E n := by
  unfold subtree
  split
  · rename_i h
    subst h
    exact fun v _ _ => ⟨_, rfl, rfl⟩
  · refine valid_bind (valid_need fun u x hu hi hf u' hu' hi' => ?_)
    obtain ⟨b1, b2, b3⟩ := findTree_some hf
    have hx := gid_tree H b3
    subst hx
    cases hm : (Node.tree es).find sub with
    | none => trivial
    | some m => exact fun v _ _ => ⟨m, rfl, rfl⟩

/-- With a tree that is there. -/
theorem placed_valid (H : E.Good) (k : ArchiveRepo) (hit : Bool) (w : World) {c : Str} {es : List (Str × Node)}
    (h1 : E.blobId c = k.archive.hash) (h2 : E.extract k.type c = some es) (hk : Kept w.young (.tree es))
    (hh : (read (k.type, k.archive.hash) w.young.arch).isSome) :
    Valid (rules E served) (subtree E (gid E (.tree es)) k.subdir >>= fun s => resolveContent E C k s hit (wantAbsent C k)) w
      (ArchiveRight E C served k) := by
  refine valid_bind ((subtree_valid H k.subdir w).weaken fun s v hv _ hs => ?_)
  obtain ⟨n, hn, rfl⟩ := hs
  exact resolveContent_valid H k hit v h1 h2 hn ((hk.down (find_below hn)).later hv) (hv.arch _ hh)

theorem importDir_valid (H : E.Good) (es : List (Str × Node)) (w : World) :
    Valid (rules E served) (importDir E es) w fun t v => t = gid E (.tree es) ∧ Kept v.young (.tree es) := by
  unfold importDir
  refine valid_bind (valid_change fun z1 hz1 hiz1 => ⟨(addObjs_ok _ (below_closed _) _ hiz1).1, (addObjs_ok _ (below_closed _) _ hiz1).2, fun z2 hz2 hiz2 => ?_⟩)
  have hob : ∀ m ∈ below (.tree es), m ∈ z2.young.objs := fun m hm => hz2.objs m (List.mem_append_left _ hm)
  refine valid_bind (valid_tryTo fun z3 z4 hz3 hiz3 hkeep => ?_)
  obtain ⟨k1, k2, k3⟩ := keep_ok H hiz3 (fun m hm => hz3.objs m (hob m hm)) hkeep
  exact ⟨k1, k2, fun z5 hz5 _ v hv _ => ⟨rfl, k3.later (hz5.trans hv)⟩⟩

theorem extractImport_valid (H : E.Good) (k : ArchiveRepo) (c : Str) (w : World) (h1 : E.blobId c = k.archive.hash) :
    Valid (rules E served) (extractImport E C k c (wantAbsent C k)) w (ArchiveRight E C served k) := by
  unfold extractImport
  cases h2 : E.extract k.type c with
  | none => trivial
  | some es =>
    refine valid_bind ((importDir_valid H es w).weaken fun t v hv hi ht => ?_)
    obtain ⟨rfl, hk⟩ := ht
    refine valid_bind (valid_change fun z hz hiz => ?_)
    have ok := writeArch_ok hiz h1 h2 rfl (hk.later hz)
    exact ⟨ok.1, ok.2, fun z' hz' _ => placed_valid H k false z' h1 h2 (hk.later ((hz.trans ok.2).trans hz'))
      (hz'.arch _ (by simp only [World.writeArch, read_head, Option.isSome_some]))⟩

theorem locallyKnown_valid (H : E.Good) (k : ArchiveRepo) (w : World) :
    Valid (rules E served) (locallyKnown E C k) w (ArchiveRight E C served k) := by
  unfold locallyKnown
  refine valid_bind (valid_need fun u t hu hi hf u' hu' hi' => ?_)
  obtain ⟨c, es, h1, h2, rfl, hk⟩ := hi.young.arch _ _ _ (read_mem hf)
  exact placed_valid H k true u' h1 h2 (hk.later hu') (hu'.arch _ (by rw [hf]; rfl))

theorem oldArch_some {ty h : Str} {l : List Gen} {i : Nat} {t : Str} (ho : oldArch ty h l = some (i, t)) :
    ∃ g, l[i]? = some g ∧ ((ty, h), t) ∈ g.arch := by
  induction l generalizing i with
  | nil => simp [oldArch] at ho
  | cons g gs ih =>
    simp only [oldArch] at ho
    cases hr : read (ty, h) g.arch with
    | some t' =>
      simp only [hr, Option.some.injEq, Prod.mk.injEq] at ho
      obtain ⟨rfl, rfl⟩ := ho
      exact ⟨g, rfl, read_mem hr⟩
    | none =>
      simp only [hr] at ho
      cases hr' : oldArch ty h gs with
      | none => simp [hr'] at ho
      | some p =>
        obtain ⟨j, t'⟩ := p
        simp only [hr', Option.map_some, Option.some.injEq, Prod.mk.injEq] at ho
        obtain ⟨rfl, rfl⟩ := ho
        obtain ⟨g', hg', hm⟩ := ih hr'
        exact ⟨g', hg', hm⟩

theorem knownOlder_valid (H : E.Good) (k : ArchiveRepo) (i : Nat) (w : World) {c : Str} {es : List (Str × Node)} {g : Gen}
    (h1 : E.blobId c = k.archive.hash) (h2 : E.extract k.type c = some es) (hg : w.old[i]? = some g) (hk : Kept g (.tree es)) :
    Valid (rules E served) (knownOlder E C k i (gid E (.tree es))) w (ArchiveRight E C served k) := by
  unfold knownOlder
  refine valid_bind (valid_tryTo fun z1 z2 hz1 hiz1 hkeep => ?_)
  have ok := keepOld_ok hiz1 (fun g' n hg' hf m hm => by
    obtain ⟨g1, a1, a2, a3, _⟩ := hz1.old i g hg
    rw [a1] at hg'
    cases hg'
    have := gid_tree H (findTree_some hf).2.2
    subst this
    exact (hk.mono a2 a3).there m hm) hkeep
  refine ⟨ok.1, ok.2, fun z3 _ _ => ?_⟩
  refine valid_bind (valid_tryTo fun z4 z5 hz4 hiz4 hf => ?_)
  obtain ⟨f1, f2, f3⟩ := fetchOld_ok H hiz4 hf
  refine ⟨f1, f2, fun z6 hz6 _ => ?_⟩
  refine valid_bind (valid_tryTo fun z7 z8 hz7 hiz7 hkeep => ?_)
  obtain ⟨k1, k2, k3⟩ := keep_ok H hiz7 (fun m hm => hz7.objs m (hz6.objs m (f3 m hm))) hkeep
  refine ⟨k1, k2, fun z9 hz9 _ => ?_⟩
  refine valid_bind (valid_change fun z10 hz10 hiz10 => ?_)
  have ok := writeArch_ok hiz10 h1 h2 rfl (k3.later (hz9.trans hz10))
  exact ⟨ok.1, ok.2, fun z11 _ _ => locallyKnown_valid H k z11⟩

theorem needContent_valid {β : Type} {h : Str} {g : Str → Task β} {w : World} {post : β → World → Prop}
    (hg : ∀ c v, E.blobId c = h → Valid (rules E served) (g c) v post) :
    Valid (rules E served) (need (fun w => World.content E w h) >>= g) w post :=
  valid_bind (valid_need fun _ c _ _ hc v _ _ => hg c v (content_some hc).2)

theorem absentArchive_valid (H : E.Good) (k : ArchiveRepo) (w : World) (ha : k.absent = true ∧ C.fetchAbsent = false) :
    Valid (rules E served) (absentArchive E C k) w (ArchiveRight E C served k) := by
  have hw : wantAbsent C k = true := (wantAbsent_iff k).2 ha
  have ext : ∀ c v, E.blobId c = k.archive.hash →
      Valid (rules E served) (extractImport E C k c true) v (ArchiveRight E C served k) := fun c v hc =>
    hw ▸ extractImport_valid H k c v hc
  unfold absentArchive
  have ask : Valid (rules E served) (askArchive C k) w fun o _ => ∀ t, o = some t →
      ∃ n, Contents E k n ∧ gid E n = t ∧ served t := by
    unfold askArchive
    split
    · refine valid_ask fun a hq v _ _ => ?_
      cases a with
      | text t =>
        refine fun _ _ _ t' ht => ?_
        cases ht
        obtain ⟨⟨n, h1, h2⟩, h3⟩ := hq
        exact ⟨n, h1, h2, h3⟩
      | no => exact fun _ _ _ t' ht => nomatch ht
      | yes => trivial
      | error => trivial
      | texts l => trivial
      | node n => trivial
    · exact fun _ _ _ t' ht => nomatch ht
  refine valid_bind (ask.weaken fun o v _ _ ho => ?_)
  cases o with
  | some t =>
    obtain ⟨n, h1, h2, h3⟩ := ho t rfl
    exact fun _ _ _ => ⟨n, h1, by rw [if_pos ha, h2]; exact ⟨rfl, fun _ => h3⟩⟩
  | none =>
    refine valid_bind (valid_look fun v1 _ _ v2 _ _ => ?_)
    cases hc : World.content E v1 k.archive.hash with
    | some c => exact ext c v2 (content_some hc).2
    | none =>
      refine valid_bind (valid_look fun v3 _ _ v4 _ _ => ?_)
      cases hb : findBlob E k.archive.hash v3.young.objs with
      | some c => exact valid_then (safe_change (store_ok c) _) fun _ v _ _ => needContent_valid ext
      | none => exact valid_then (distfiles_safe _ _) fun _ v _ _ => needContent_valid ext

theorem archive_valid (H : E.Good) (k : ArchiveRepo) (w : World) :
    Valid (rules E served) (archive E C k) w (ArchiveRight E C served k) := by
  unfold archive
  refine valid_bind (valid_look fun v1 _ _ v2 _ _ => ?_)
  cases read (k.type, k.archive.hash) v1.young.arch with
  | some t => exact locallyKnown_valid H k v2
  | none =>
    refine valid_bind (valid_look fun v3 _ hi3 v4 hv4 _ => ?_)
    cases ho : oldArch k.type k.archive.hash v3.old with
    | some p =>
      obtain ⟨i, t⟩ := p
      obtain ⟨g, hg, hm⟩ := oldArch_some ho
      obtain ⟨c, es, h1, h2, rfl, h4⟩ := (hi3.old g (List.mem_of_getElem? hg)).arch _ _ _ hm
      obtain ⟨g', a1, a2, a3, _⟩ := hv4.old i g hg
      exact knownOlder_valid H k i v4 h1 h2 a1 (h4.mono a2 a3)
    | none =>
      simp only
      split
      · rename_i ha
        exact absentArchive_valid H k v4 ha
      · rename_i ha
        have hw : wantAbsent C k = false := by
          rw [← wantAbsent_iff] at ha
          simpa using ha
        exact valid_then (ensure_safe _ _) fun _ v _ _ => needContent_valid fun c v hc => hw ▸ extractImport_valid H k c v hc

/-! ## Single files -/

/-- What is wanted of the root for a single file. -/
def ForeignRight (E : Env) (C : Conf) (k : ForeignFile) (r : Root) (w : World) : Prop :=
  if k.absent = true ∧ C.fetchAbsent = false
    then r = .absent (foreignTree E k)
  else (∃ n, Files E [(k.name, k.archive.hash, k.executable)] n ∧ r = .present (gid E n) ∧ Kept w.young n) ∧
    (read (foreignKey E k) w.young.dist).isSome

theorem absentForeign_valid (k : ForeignFile) (w : World) (ha : k.absent = true ∧ C.fetchAbsent = false) :
    Valid (rules E served) (absentForeign E C k) w (ForeignRight E C k) := by
  have ok : ∀ v, Valid (rules E served) (.ret (.absent (foreignTree E k))) v (ForeignRight E C k) := fun v _ _ _ => by unfold ForeignRight; rw [if_pos ha]
  unfold absentForeign
  split
  · refine valid_ask fun a hq v _ _ => ?_
    cases a with
    | yes => exact ok v
    | no =>
      refine valid_ask fun a hq v _ _ => ?_
      cases a with
      | text t' =>
        simp only
        split
        · exact ok v
        · trivial
      | no => exact ok v
      | yes => trivial
      | error => trivial
      | texts l => trivial
      | node n => trivial
    | text t => trivial
    | error => trivial
    | texts l => trivial
    | node n => trivial
  · exact ok w

theorem foreign_valid (H : E.Good) (k : ForeignFile) (w : World) :
    Valid (rules E served) (foreign E C k) w (ForeignRight E C k) := by
  unfold foreign
  split
  · rename_i ha
    exact absentForeign_valid k w ha
  · rename_i ha
    refine valid_bind (valid_look fun v1 _ hi1 v2 hv2 _ => ?_)
    cases hr : read (foreignKey E k) v1.young.dist with
    | some t =>
      obtain ⟨l, n, h1, h2, rfl, h4⟩ := hi1.young.dist _ _ (read_mem hr)
      have := H.list _ _ h1
      subst this
      exact fun v hv _ => by
        unfold ForeignRight
        rw [if_neg ha]
        exact ⟨⟨n, h2, rfl, h4.later (hv2.trans hv)⟩, (hv2.trans hv).dist _ (by rw [hr]; rfl)⟩
    | none =>
      refine valid_then (ensure_safe _ _) fun _ v _ _ => needContent_valid fun c v hc => ?_
      have hf : Files E [(k.name, k.archive.hash, k.executable)] (.tree [(k.name, .file c k.executable)]) :=
        ⟨[(k.name, c, k.executable)], by simp [hc], rfl⟩
      refine valid_bind ((importDir_valid H _ v).weaken fun t v hv hi ht => ?_)
      obtain ⟨rfl, hk⟩ := ht
      refine valid_bind (valid_change fun z hz hiz => ?_)
      have ok := writeDist_ok (k := foreignKey E k) hiz rfl hf rfl (hk.later hz)
      exact ⟨ok.1, ok.2, fun z' hz' _ v hv _ => by
        unfold ForeignRight
        rw [if_neg ha]
        exact ⟨⟨_, hf, rfl, hk.later ((hz.trans ok.2).trans (hz'.trans hv))⟩,
          (hz'.trans hv).dist _ (by simp only [World.writeDist, read_head, Option.isSome_some])⟩⟩

/-! ## Distdirs -/

/-- The files wanted. -/
def listed (k : Distdir) : List (Str × Str × Bool) := (contentList k.archives).map fun e => (e.1, e.2, false)

/-- What is wanted of the root for a distdir. -/
def DistdirRight (E : Env) (C : Conf) (served : Str → Prop) (k : Distdir) (r : Root) (w : World) : Prop :=
  if k.absent = true ∧ C.fetchAbsent = false
    then r = .absent (distTree E (contentList k.archives)) ∧ (C.serve = true → served (distTree E (contentList k.archives)))
  else (∃ n, Files E (listed k) n ∧ r = .present (gid E n) ∧ Kept w.young n) ∧
    (read (distKey E (contentList k.archives)) w.young.dist).isSome

/-- The tree computed from the hashes is the one of the directory. -/
theorem files_gid {l : List (Str × Str)} {n : Node} (h : Files E (l.map fun e => (e.1, e.2, false)) n) : gid E n = distTree E l := by
  obtain ⟨fs, h1, rfl⟩ := h
  unfold distTree dirOf
  simp only [gid]
  congr 1
  induction fs generalizing l with
  | nil =>
    cases l with
    | nil => rfl
    | cons a t => simp at h1
  | cons a t ih =>
    cases l with
    | nil => simp at h1
    | cons b u =>
      obtain ⟨x, c, e⟩ := a
      simp only [List.map_cons, List.cons.injEq, Prod.mk.injEq] at h1
      obtain ⟨⟨h1, h2, h3⟩, h4⟩ := h1
      subst h1; subst h3
      simp only [List.map_cons, gids, kind, gid, ih h4, h2]

theorem link_valid (l : List (Str × Str)) (w : World) :
    Valid (rules E served) (link E l) w fun es _ => Files E (l.map fun e => (e.1, e.2, false)) (.tree es) := by
  induction l generalizing w with
  | nil => exact fun _ _ _ => ⟨[], rfl, rfl⟩
  | cons e t ih =>
    obtain ⟨x, h⟩ := e
    simp only [link]
    refine needContent_valid fun c v hc => ?_
    split
    · refine valid_bind ((ih v).weaken fun es v _ _ hes => fun _ _ _ => ?_)
      obtain ⟨fs, h1, h2⟩ := hes
      refine ⟨(x, c, false) :: fs, by simp [h1, hc], ?_⟩
      simp only [dirOf, Node.tree.injEq] at h2
      simp [dirOf, h2]
    · trivial

theorem importDist_valid (H : E.Good) (k : Distdir) (w : World) (ha : ¬ (k.absent = true ∧ C.fetchAbsent = false)) :
    Valid (rules E served) (importDist E (contentList k.archives)) w (DistdirRight E C served k) := by
  unfold importDist
  refine valid_bind ((link_valid _ w).weaken fun es v _ _ hes => ?_)
  refine valid_bind ((importDir_valid H _ v).weaken fun t v hv hi ht => ?_)
  obtain ⟨rfl, hk⟩ := ht
  refine valid_bind (valid_change fun z hz hiz => ?_)
  have ok := writeDist_ok (k := distKey E (contentList k.archives)) hiz rfl hes rfl (hk.later hz)
  exact ⟨ok.1, ok.2, fun z' hz' _ v hv _ => by
    unfold DistdirRight
    rw [if_neg ha]
    exact ⟨⟨_, hes, rfl, hk.later ((hz.trans ok.2).trans (hz'.trans hv))⟩,
      (hz'.trans hv).dist _ (by simp only [World.writeDist, read_head, Option.isSome_some])⟩⟩

theorem ensureAll_safe (l : List Archive) (w : World) : Safe E served (ensureAll E C l) w := by
  induction l generalizing w with
  | nil => exact safe_ret _ w
  | cons a t ih => exact safe_bind (ensure_safe a w) fun _ v => ih v

theorem absentKnown_valid (l : List (Str × Str)) (t : Str) (w : World) :
    Valid (rules E served) (absentKnown C l t) w fun r _ => r = .absent t ∧ (C.serve = true → served t) := by
  unfold absentKnown
  split
  · refine valid_ask fun a ha v _ _ => ?_
    cases a with
    | yes => exact fun _ _ _ => ⟨rfl, fun _ => ha⟩
    | no =>
      refine valid_ask fun b hb v _ _ => ?_
      cases b with
      | text t' =>
        simp only
        split
        · rename_i ht
          exact fun _ _ _ => ⟨rfl, fun _ => by rw [ht]; exact hb⟩
        · trivial
      | no => exact uploadAbsent_valid t v
      | yes => trivial
      | error => trivial
      | texts l => trivial
      | node n => trivial
    | text c => trivial
    | error => trivial
    | texts l => trivial
    | node n => trivial
  · rename_i h
    exact fun _ _ _ => ⟨rfl, fun h' => absurd h' h⟩

theorem serveTakes_valid (t : Str) (w : World) :
    Valid (rules E served) (serveTakes t) w fun r _ => r = .absent t ∧ (C.serve = true → served t) := by
  refine valid_ask fun a ha v _ _ => ?_
  cases a with
  | yes => exact fun _ _ _ => ⟨rfl, fun _ => ha⟩
  | text c => trivial
  | error => trivial
  | no => trivial
  | texts l => trivial
  | node n => trivial

theorem viaRemote_valid (t : Str) (w : World) :
    Valid (rules E served) (viaRemote C t) w fun r _ => r = .absent t ∧ (C.serve = true → served t) := by
  unfold viaRemote
  split
  · trivial
  · have rest : ∀ v, Valid (rules E served) (question (.localTree t) >>= fun a => match a with
        | .yes => question (.pushTree t) >>= fun a => match a with
          | .yes => serveTakes t
          | _ => .fail
        | _ => .fail) v fun r _ => r = Root.absent t ∧ (C.serve = true → served t) := fun v => by
      refine valid_ask fun a _ v _ _ => ?_
      cases a with
      | yes =>
        refine valid_ask fun a _ v _ _ => ?_
        cases a with
        | yes => exact serveTakes_valid t v
        | text c => trivial
        | error => trivial
        | no => trivial
        | texts l => trivial
        | node n => trivial
      | text c => trivial
      | error => trivial
      | no => trivial
      | texts l => trivial
      | node n => trivial
    refine valid_ask fun a _ v _ _ => ?_
    cases a with
    | yes => exact serveTakes_valid t v
    | text c => exact rest v
    | error => exact rest v
    | no => exact rest v
    | texts l => exact rest v
    | node n => exact rest v

theorem absentDist_valid (l : List (Str × Str)) (w : World) :
    Valid (rules E served) (absentDist E C l) w fun r _ => r = .absent (distTree E l) ∧ (C.serve = true → served (distTree E l)) := by
  unfold absentDist
  simp only
  split
  · refine valid_ask fun a ha v _ _ => ?_
    cases a with
    | yes => exact fun _ _ _ => ⟨rfl, fun _ => ha⟩
    | no =>
      refine valid_ask fun b hb v _ _ => ?_
      cases b with
      | text t' =>
        simp only
        split
        · rename_i ht
          exact fun _ _ _ => ⟨rfl, fun _ => by rw [ht]; exact hb⟩
        · trivial
      | no => exact viaRemote_valid _ v
      | yes => trivial
      | error => trivial
      | texts l => trivial
      | node n => trivial
    | text c => trivial
    | error => trivial
    | texts l => trivial
    | node n => trivial
  · rename_i h
    exact fun _ _ _ => ⟨rfl, fun h' => absurd h' h⟩

theorem askDistdir_safe (l : List (Str × Str)) (w : World) : Safe E served (askDistdir E C l) w := by
  unfold askDistdir
  split
  · refine safe_bind (safe_question _ _) fun r v => ?_
    cases r with
    | text t =>
      simp only
      split
      · exact safe_ret _ v
      · trivial
    | no => exact safe_ret _ v
    | yes => trivial
    | error => trivial
    | texts l => trivial
    | node n => trivial
  · exact safe_ret _ w

theorem presentDist_valid (H : E.Good) (k : Distdir) (w : World) (ha : ¬ (k.absent = true ∧ C.fetchAbsent = false)) :
    Valid (rules E served) (presentDist E C k) w (DistdirRight E C served k) := by
  unfold presentDist
  simp only
  have rest : ∀ v, Valid (rules E served) (askDistdir E C (contentList k.archives) >>= fun _ => ensureAll E C k.archives >>= fun _ =>
      importDist E (contentList k.archives)) v (DistdirRight E C served k) := fun v =>
    valid_then (askDistdir_safe _ _) fun _ v _ _ => valid_then (ensureAll_safe _ _) fun _ v _ _ => importDist_valid H k v ha
  refine valid_ask fun a _ v _ _ => ?_
  cases a with
  | yes => exact importDist_valid H k v ha
  | text c => exact rest v
  | error => exact rest v
  | no => exact rest v
  | texts l => exact rest v
  | node n => exact rest v

theorem distdir_valid (H : E.Good) (k : Distdir) (w : World) :
    Valid (rules E served) (distdir E C k) w (DistdirRight E C served k) := by
  have hw : (k.absent && !C.fetchAbsent) = true ↔ k.absent = true ∧ C.fetchAbsent = false := by
    cases k.absent <;> cases C.fetchAbsent <;> simp
  unfold distdir
  simp only
  refine valid_bind (valid_look fun v1 _ hi1 v2 hv2 _ => ?_)
  cases hr : read (distKey E (contentList k.archives)) v1.young.dist with
  | some t =>
    obtain ⟨l, n, h1, h2, rfl, h4⟩ := hi1.young.dist _ _ (read_mem hr)
    have := H.list _ _ h1
    subst this
    simp only
    split
    · rename_i ha
      refine (absentKnown_valid _ _ v2).weaken fun r v _ _ hrr => ?_
      unfold DistdirRight
      rw [if_pos (hw.1 ha), ← files_gid h2]
      exact hrr
    · rename_i ha
      refine fun v hv _ => ?_
      unfold DistdirRight
      rw [if_neg fun h => ha (hw.2 h)]
      exact ⟨⟨n, h2, rfl, h4.later (hv2.trans hv)⟩, (hv2.trans hv).dist _ (by rw [hr]; rfl)⟩
  | none =>
    simp only
    split
    · rename_i ha
      refine (absentDist_valid _ v2).weaken fun r v _ _ hrr => ?_
      unfold DistdirRight
      rw [if_pos (hw.1 ha)]
      exact hrr
    · rename_i ha
      exact presentDist_valid H k v2 fun h => ha (hw.2 h)

end Verif.Mr
