import Verif.Mr.Commit

/-!
# Roots from git trees and from directories are as described
-/

namespace Verif.Mr

open Verif.Symlinks (Node Mode Val)

variable {E : Env} {C : Conf} {served : Str → Prop}

/-! ## Git trees -/

/-- What is wanted of the root for a git tree. -/
def TreeRight (E : Env) (C : Conf) (served : Str → Prop) (k : TreeRepo) (r : Root) (w : World) : Prop :=
  match r with
  | .absent t => t = k.hash ∧ (k.absent = true ∧ C.fetchAbsent = false) ∧ (C.serve = true → served t)
  | .present t => t = k.hash ∧ ¬ (k.absent = true ∧ C.fetchAbsent = false) ∧
    ∃ es, gid E (.tree es) = t ∧ ∀ m ∈ below (.tree es), m ∈ w.young.objs
  | .user _ => False

/-- The tree is there, and kept. -/
def HasTree (E : Env) (t : Str) (w : World) : Prop := ∃ es, gid E (.tree es) = t ∧ Kept w.young (.tree es)

theorem HasTree.later {t : Str} {v w : World} (h : HasTree E t v) (hg : Grows v w) : HasTree E t w := by
  obtain ⟨es, a, b⟩ := h
  exact ⟨es, a, b.later hg⟩

theorem moveTree_valid (H : E.Good) {t : Str} {n : Node} (w : World) (hn : gid E n = t) :
    Valid (rules E served) (moveTree E n) w fun _ v => HasTree E t v := by
  cases n with
  | tree es =>
    simp only [moveTree]
    refine valid_bind ((importDir_valid H es w).weaken fun s v _ _ hs => ?_)
    exact fun u hu _ => ⟨es, hn, hs.2.later hu⟩
  | file c x => trivial
  | link c => trivial

theorem takeTree_valid (H : E.Good) (t : Str) (i : Nat) (w : World) :
    Valid (rules E served) (takeTree E t i) w fun _ v => HasTree E t v := by
  unfold takeTree
  refine valid_bind (valid_tryTo fun z1 z2 _ hi hk => ?_)
  have hold := keepOld_ok hi (fun g n hg hf m hm => (hi.old g (List.mem_of_getElem? hg)).closed n (findTree_some hf).1 m hm) hk
  refine ⟨hold.1, hold.2, fun z3 _ _ => ?_⟩
  have hes : ∃ es, gid E (.tree es) = t := by
    unfold World.keepOld Gen.keep at hk
    cases hg : z1.old[i]? with
    | none => simp [hg] at hk
    | some g =>
      cases hf : findTree E t g.objs with
      | none => simp [hg, hf] at hk
      | some n =>
        obtain ⟨_, h2, h3⟩ := findTree_some hf
        obtain ⟨es, rfl⟩ := (isTree_iff n).1 h2
        exact ⟨es, h3⟩
  obtain ⟨es, rfl⟩ := hes
  refine valid_bind (valid_tryTo fun z4 z5 _ hi hk => ?_)
  obtain ⟨h1, h2, h3⟩ := fetchOld_ok H hi hk
  refine ⟨h1, h2, fun z6 hz6 _ => ?_⟩
  refine valid_bind (valid_tryTo fun z7 z8 hz7 hi hk => ?_)
  obtain ⟨k1, k2, k3⟩ := keep_ok H hi (fun m hm => hz7.objs m (hz6.objs m (h3 m hm))) hk
  exact ⟨k1, k2, fun z9 hz9 _ v hv _ => ⟨es, rfl, k3.later (hz9.trans hv)⟩⟩

theorem commandTree_valid (H : E.Good) (k : TreeRepo) (w : World) :
    Valid (rules E served) (commandTree E k) w fun _ v => HasTree E k.hash v := by
  unfold commandTree
  refine valid_ask fun a _ v _ _ => ?_
  cases a with
  | node n =>
    cases n with
    | tree es =>
      simp only
      cases hf : findTree E k.hash (below (.tree es)) with
      | none => trivial
      | some n =>
        obtain ⟨h1, h2, h3⟩ := findTree_some hf
        obtain ⟨fs, rfl⟩ := (isTree_iff n).1 h2
        refine valid_bind ((importDir_valid H es v).weaken fun s u _ _ hs => ?_)
        exact fun z hz _ => ⟨fs, h3, (hs.2.down h1).later hz⟩
    | file c x => trivial
    | link c => trivial
  | text t => trivial
  | error => trivial
  | yes => trivial
  | no => trivial
  | texts l => trivial

theorem remoteTree_valid (H : E.Good) (k : TreeRepo) (w : World) :
    Valid (rules E served) (remoteTree E C k) w fun _ v => HasTree E k.hash v := by
  unfold remoteTree
  split
  · refine valid_ask fun a ha v _ _ => ?_
    cases a with
    | node n => exact moveTree_valid H v ha
    | text t => exact commandTree_valid H k v
    | error => exact commandTree_valid H k v
    | yes => exact commandTree_valid H k v
    | no => exact commandTree_valid H k v
    | texts l => exact commandTree_valid H k v
  · exact commandTree_valid H k w

theorem serveTree_valid (H : E.Good) (k : TreeRepo) (w : World) :
    Valid (rules E served) (serveTree E C k) w fun _ v => HasTree E k.hash v := by
  unfold serveTree
  split
  · refine valid_ask fun a ha v _ _ => ?_
    cases a with
    | node n => exact moveTree_valid H v ha
    | text t => exact remoteTree_valid H k v
    | error => exact remoteTree_valid H k v
    | yes => exact remoteTree_valid H k v
    | no => exact remoteTree_valid H k v
    | texts l => exact remoteTree_valid H k v
  · exact remoteTree_valid H k w

theorem fetchTree_valid (H : E.Good) (k : TreeRepo) (w : World) :
    Valid (rules E served) (fetchTree E C k) w fun _ v => HasTree E k.hash v := by
  unfold fetchTree
  refine valid_bind (valid_look fun v1 _ _ v2 _ _ => ?_)
  cases oldTree E k.hash v1.old with
  | some i => exact takeTree_valid H k.hash i v2
  | none =>
    refine valid_ask fun a ha v _ _ => ?_
    cases a with
    | node n => exact moveTree_valid H v ha
    | text t => exact serveTree_valid H k v
    | error => exact serveTree_valid H k v
    | yes => exact serveTree_valid H k v
    | no => exact serveTree_valid H k v
    | texts l => exact serveTree_valid H k v

theorem ensureTree_valid (H : E.Good) (k : TreeRepo) (w : World) :
    Valid (rules E served) (ensureTree E C k) w fun _ v =>
      ∃ es, gid E (.tree es) = k.hash ∧ ∀ m ∈ below (.tree es), m ∈ v.young.objs := by
  unfold ensureTree
  refine valid_bind (valid_look fun v1 _ hi v2 hv2 _ => ?_)
  cases hf : findTree E k.hash v1.young.objs with
  | none =>
    refine (fetchTree_valid H k v2).weaken fun _ v _ _ hs => ?_
    obtain ⟨es, a, b⟩ := hs
    exact ⟨es, a, b.there⟩
  | some n =>
    obtain ⟨h1, h2, h3⟩ := findTree_some hf
    obtain ⟨es, rfl⟩ := (isTree_iff n).1 h2
    exact fun z hz hiz => ⟨es, h3, fun m hm => hiz.young.closed _ (hz.objs _ (hv2.objs _ h1)) m hm⟩

theorem provideTree_valid (H : E.Good) (k : TreeRepo) (w : World) :
    Valid (rules E served) (provideTree E k) w fun r _ => r = .absent k.hash ∧ (C.serve = true → served k.hash) := by
  unfold provideTree
  refine valid_bind (valid_look fun v1 _ hi v2 hv2 _ => ?_)
  cases findTree E k.hash v1.young.objs with
  | some n => exact uploadAbsent_valid k.hash v2
  | none =>
    refine valid_ask fun a ha v _ _ => ?_
    cases a with
    | node n => exact valid_bind ((moveTree_valid H v ha).weaken fun _ u _ _ _ => uploadAbsent_valid k.hash u)
    | text t => trivial
    | error => trivial
    | yes => trivial
    | no => trivial
    | texts l => trivial

theorem absentTree_valid (H : E.Good) (k : TreeRepo) (w : World) :
    Valid (rules E served) (absentTree E C k) w fun r _ => r = .absent k.hash ∧ (C.serve = true → served k.hash) := by
  unfold absentTree
  split
  · refine valid_ask fun a ha v _ _ => ?_
    cases a with
    | yes => exact fun _ _ _ => ⟨rfl, fun _ => ha⟩
    | no =>
      simp only
      split
      · refine valid_ask fun b hb v _ _ => ?_
        cases b with
        | yes => exact serveTakes_valid k.hash v
        | no => exact provideTree_valid H k v
        | text t => exact provideTree_valid H k v
        | error => exact provideTree_valid H k v
        | texts l => exact provideTree_valid H k v
        | node n => exact provideTree_valid H k v
      · trivial
    | text t => trivial
    | error => trivial
    | texts l => trivial
    | node n => trivial
  · rename_i h
    exact fun _ _ _ => ⟨rfl, fun h' => absurd h' h⟩

theorem gitTree_valid (H : E.Good) (k : TreeRepo) (w : World) :
    Valid (rules E served) (gitTree E C k) w (TreeRight E C served k) := by
  unfold gitTree
  split
  · rename_i ha
    refine (absentTree_valid H k w).weaken fun r v _ _ hr => ?_
    obtain ⟨rfl, hs⟩ := hr
    exact ⟨rfl, ha, hs⟩
  · rename_i ha
    refine valid_bind ((ensureTree_valid H k w).weaken fun _ v _ _ hs => ?_)
    obtain ⟨es, a, b⟩ := hs
    exact fun z hz _ => ⟨rfl, ha, es, a, fun m hm => hz.objs m (b m hm)⟩

/-! ## Directories -/

/-- What the root for a directory is meant to be. -/
def Shown (E : Env) (k : PathRepo) (user : Bool) (n : Node) : Prop :=
  ∃ n₀, Placed E k.path user n₀ ∧
    match k.special with
    | none => n = n₀
    | some m => isTree n₀ = true ∧ isTree n = true ∧ Resolves m n₀ n

/-- What is wanted of the root for a directory. -/
def PathRight (E : Env) (C : Conf) (served : Str → Prop) (k : PathRepo) (r : Root) (w : World) : Prop :=
  ∃ user n, Shown E k user n ∧ r.tree = gid E n ∧
    match r with
    | .absent t => (k.absent = true ∧ C.fetchAbsent = false) ∧ (C.serve = true → served t)
    | .present _ => ¬ (k.absent = true ∧ C.fetchAbsent = false) ∧ Kept w.young n
    | .user _ => ¬ (k.absent = true ∧ C.fetchAbsent = false) ∧ user = true ∧ k.special = none ∧ ∀ m ∈ below n, m ∈ w.user.objs

theorem pathAbsent_iff (C : Conf) (k : PathRepo) : (k.absent && !C.fetchAbsent) = true ↔ k.absent = true ∧ C.fetchAbsent = false := by
  simp

/-- As `PathRight`, for a root that is there. -/
def Here (E : Env) (k : PathRepo) (user : Bool) (n : Node) (r : Root) (w : World) : Prop :=
  (r = .present (gid E n) ∧ Kept w.young n) ∨ (r = .user (gid E n) ∧ user = true ∧ k.special = none ∧ ∀ m ∈ below n, m ∈ w.user.objs)

theorem Here.later {k : PathRepo} {user : Bool} {n : Node} {r : Root} {v w : World} (h : Here E k user n r v) (hg : Grows v w) :
    Here E k user n r w := by
  rcases h with ⟨h1, h2⟩ | ⟨h1, h2, h3, h4⟩
  · exact .inl ⟨h1, h2.later hg⟩
  · exact .inr ⟨h1, h2, h3, fun m hm => hg.userObjs m (h4 m hm)⟩

theorem here_path {k : PathRepo} {user : Bool} {n : Node} {r : Root} {w : World} (hn : Shown E k user n) (h : Here E k user n r w)
    (ha : ¬ (k.absent = true ∧ C.fetchAbsent = false)) : PathRight E C served k r w := by
  rcases h with ⟨rfl, h2⟩ | ⟨rfl, h2, h3, h4⟩
  · exact ⟨user, n, hn, rfl, ha, h2⟩
  · exact ⟨user, n, hn, rfl, ha, h2, h3, h4⟩

theorem Here.tree {k : PathRepo} {user : Bool} {n : Node} {r : Root} {w : World} (h : Here E k user n r w) : r.tree = gid E n := by
  rcases h with ⟨rfl, _⟩ | ⟨rfl, _⟩ <;> rfl

theorem pathRoot_right {k : PathRepo} {user : Bool} {n : Node} {r : Root} {w : World} (hn : Shown E k user n) (h : Here E k user n r w)
    (hs : C.serve = true → served r.tree) : PathRight E C served k (pathRoot C k r) w := by
  unfold pathRoot
  split
  · rename_i ha
    exact ⟨user, n, hn, h.tree, (pathAbsent_iff C k).1 ha, hs⟩
  · rename_i ha
    exact here_path hn h fun h' => ha ((pathAbsent_iff C k).2 h')

theorem offer_valid (k : PathRepo) {user : Bool} {n : Node} {r : Root} (w : World) (hn : Shown E k user n) (h : Here E k user n r w) :
    Valid (rules E served) (offer C k r) w (PathRight E C served k) := by
  unfold offer
  split
  · refine valid_ask fun a ha v hv _ => ?_
    cases a with
    | yes => exact fun z hz _ => pathRoot_right hn (h.later (hv.trans hz)) fun _ => ha
    | no =>
      refine valid_ask fun b hb u hu _ => ?_
      cases b with
      | yes => exact fun z hz _ => pathRoot_right hn (h.later (hv.trans (hu.trans hz))) fun _ => hb
      | no =>
        simp only
        split
        · trivial
        · rename_i ha
          exact fun z hz _ => here_path hn (h.later (hv.trans (hu.trans hz))) fun h' => ha ((pathAbsent_iff C k).2 h')
      | text t => trivial
      | error => trivial
      | texts l => trivial
      | node n => trivial
    | text t => trivial
    | error => trivial
    | texts l => trivial
    | node n => trivial
  · rename_i hs
    exact fun z hz _ => pathRoot_right hn (h.later hz) fun h' => absurd h' hs

/-- The tree is in the repository used. -/
def InRepo (user : Bool) (n : Node) (w : World) : Prop :=
  if user = true then ∀ m ∈ below n, m ∈ w.user.objs else Kept w.young n

theorem InRepo.later {user : Bool} {n : Node} {v w : World} (h : InRepo user n v) (hg : Grows v w) : InRepo user n w := by
  unfold InRepo at h ⊢
  split
  · rename_i hu
    rw [if_pos hu] at h
    exact fun m hm => hg.userObjs m (h m hm)
  · rename_i hu
    rw [if_neg hu] at h
    exact h.later hg

theorem hereRoot_here {k : PathRepo} {user : Bool} {n : Node} {w : World} (h : InRepo user n w) (hs : k.special = none) :
    Here E k user n (hereRoot user (gid E n)) w := by
  cases user with
  | true => exact .inr ⟨rfl, rfl, hs, h⟩
  | false => exact .inl ⟨rfl, h⟩

theorem resolvePath_valid (H : E.Good) (k : PathRepo) (user : Bool) {n : Node} (w : World) (hp : Placed E k.path user n)
    (hn : InRepo user n w) : Valid (rules E served) (resolvePath E C k user (gid E n)) w (PathRight E C served k) := by
  unfold resolvePath
  cases hs : k.special with
  | none => exact offer_valid k w ⟨n, hp, by simp only [hs]⟩ (hereRoot_here hn hs)
  | some m =>
    simp only
    refine valid_bind (valid_look fun v hv hi v' hv' hi' => ?_)
    cases hr : read (m, gid E n) v.young.special with
    | some t' =>
      obtain ⟨fs, n', a1, a2, a3, a4, a5⟩ := hi.young.special _ _ _ (read_mem hr)
      have := gid_tree H a1
      subst this
      subst a4
      exact offer_valid (n := n') k v' ⟨_, hp, by simp only [hs]; exact ⟨rfl, a2, a3⟩⟩ (.inl ⟨rfl, a5.later hv'⟩)
    | none =>
      refine valid_bind (valid_need fun u x hu hi hf u' hu' hi' => ?_)
      obtain ⟨b1, b2, b3⟩ := findTree_some hf
      obtain ⟨fs, rfl⟩ := (isTree_iff x).1 b2
      have hx := gid_tree H b3.symm
      subst hx
      refine valid_ask fun a ha z hz hiz => ?_
      cases a with
      | node n' =>
        refine valid_bind (valid_change fun z1 hz1 hiz1 => ⟨(addObjs_ok _ (below_closed _) _ hiz1).1, (addObjs_ok _ (below_closed _) _ hiz1).2, fun z2 hz2 hiz2 => ?_⟩)
        have hob : ∀ m ∈ below n', m ∈ z2.young.objs := fun m hm => hz2.objs m (List.mem_append_left _ hm)
        refine valid_bind (valid_tryTo fun z3 z4 hz3 hiz3 hkeep => ?_)
        have htree : isTree n' = true := by
          unfold World.keep Gen.keep at hkeep
          cases hf : findTree E (gid E n') z3.young.objs with
          | none => simp [hf] at hkeep
          | some q =>
            obtain ⟨_, q2, q3⟩ := findTree_some hf
            obtain ⟨gs, rfl⟩ := (isTree_iff q).1 q2
            rw [gid_tree H q3.symm]; rfl
        obtain ⟨gs, rfl⟩ := (isTree_iff n').1 htree
        obtain ⟨k1, k2, k3⟩ := keep_ok H hiz3 (fun m hm => hz3.objs m (hob m hm)) hkeep
        refine ⟨k1, k2, fun z5 hz5 hiz5 => ?_⟩
        refine valid_bind (valid_change fun z6 hz6 hiz6 => ?_)
        have ok := writeSpecial_ok hiz6 rfl htree ha rfl (k3.later (hz5.trans hz6))
        refine ⟨ok.1, ok.2, fun z7 hz7 hiz7 => ?_⟩
        exact offer_valid k z7 ⟨_, hp, by simp only [hs]; exact ⟨rfl, htree, ha⟩⟩
          (.inl ⟨rfl, ((k3.later hz5).later (hz6.trans ok.2)).later hz7⟩)
      | text t => trivial
      | error => trivial
      | yes => trivial
      | no => trivial
      | texts l => trivial

theorem path_valid (H : E.Good) (k : PathRepo) (w : World) : Valid (rules E served) (path E C k) w (PathRight E C served k) := by
  unfold path
  refine valid_ask fun a ha v _ _ => ?_
  cases a with
  | texts l =>
    cases l with
    | nil => trivial
    | cons h sub =>
      refine valid_bind ((commitTree_valid ⟨h, [], [], sub, [], true, false⟩ true v).weaken fun s u _ _ hs => ?_)
      obtain ⟨n, a1, rfl, _, a3⟩ := hs
      exact resolvePath_valid H k true u ⟨h, sub, ha, a1⟩ a3
  | node n =>
    cases n with
    | tree es =>
      refine valid_bind ((importDir_valid H es v).weaken fun s u _ _ hs => ?_)
      obtain ⟨rfl, hk⟩ := hs
      exact resolvePath_valid H k false u ⟨ha, rfl⟩ hk
    | file c x => trivial
    | link c => trivial
  | text t => trivial
  | error => trivial
  | yes => trivial
  | no => trivial

end Verif.Mr
