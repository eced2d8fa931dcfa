import Verif.Mr.Sound

/-!
# Roots from commits are as described
-/

namespace Verif.Mr

open Verif.Symlinks (Node Mode Val)

variable {E : Env} {C : Conf} {served : Str → Prop}

/-! ## Git repositories -/

theorem repo_ok {w : World} (hi : Inv E w) (b : Bool) : RepoOk E (w.repo b) := by
  cases b with
  | true => exact hi.user
  | false => exact ⟨hi.young.tags, hi.young.commits, hi.young.closed⟩

/-- A git repository has grown. -/
structure More (r r' : Repo) : Prop where
  objs : ∀ n ∈ r.objs, n ∈ r'.objs
  tags : ∀ n ∈ r.tags, n ∈ r'.tags
  commits : ∀ h ∈ r.commits, h ∈ r'.commits

theorem setRepo_ok {g : Gen} {r : Repo} (hg : GenOk E g) (hr : RepoOk E r) (hm : More g.repo r) : GenOk E (g.setRepo r) where
  tags := hr.tags
  arch := fun ty h t hmem => by
    obtain ⟨c, es, a, b, d, e⟩ := hg.arch ty h t hmem
    exact ⟨c, es, a, b, d, e.mono hm.objs hm.tags⟩
  special := fun m t t' hmem => by
    obtain ⟨es, n, a, b, c, d, e⟩ := hg.special m t t' hmem
    exact ⟨es, n, a, b, c, d, e.mono hm.objs hm.tags⟩
  dist := fun k t hmem => by
    obtain ⟨l, n, a, b, c, d⟩ := hg.dist k t hmem
    exact ⟨l, n, a, b, c, d.mono hm.objs hm.tags⟩
  commits := hr.commits
  closed := hr.closed
  com := fun h t hmem => by
    obtain ⟨es, a, b, c⟩ := hg.com h t hmem
    exact ⟨es, a, b, fun ht => hm.objs _ (c ht)⟩

theorem setWorld_ok {w : World} {r : Repo} (b : Bool) (hi : Inv E w) (hr : RepoOk E r) (hm : More (w.repo b) r) :
    Inv E (w.setRepo b r) ∧ Grows w (w.setRepo b r) := by
  cases b with
  | true =>
    exact ⟨⟨hi.young, hi.old, hr⟩, .of (fun _ h => h) (fun _ h => h) (fun _ h => h) rfl rfl rfl rfl (fun _ h => h) rfl hm.objs hm.commits⟩
  | false =>
    exact ⟨⟨setRepo_ok hi.young hr hm, hi.old, hi.user⟩,
      .of (fun _ h => h) hm.objs hm.tags rfl rfl rfl rfl hm.commits rfl (fun _ h => h) fun _ h => h⟩

theorem More.refl (r : Repo) : More r r := ⟨fun _ h => h, fun _ h => h, fun _ h => h⟩

theorem More.trans {a b c : Repo} (h : More a b) (h' : More b c) : More a c :=
  ⟨fun n hn => h'.objs n (h.objs n hn), fun n hn => h'.tags n (h.tags n hn), fun n hn => h'.commits n (h.commits n hn)⟩

theorem add_ok {r : Repo} (h : Str) (hr : RepoOk E r) : RepoOk E (r.add E h) ∧ More r (r.add E h) := by
  unfold Repo.add
  cases he : E.commit h with
  | none => exact ⟨hr, .refl r⟩
  | some es =>
    refine ⟨⟨fun t ht n hn => List.mem_append_right _ (hr.tags t ht n hn), fun c hc => ?_,
      (below_closed _).append hr.closed⟩, ⟨fun n hn => List.mem_append_right _ hn, fun _ h => h,
      fun _ h => List.mem_cons_of_mem _ h⟩⟩
    rcases List.mem_cons.1 hc with rfl | hc
    · exact ⟨es, he, fun n hn => List.mem_append_left _ hn⟩
    · obtain ⟨fs, a, b⟩ := hr.commits c hc
      exact ⟨fs, a, fun n hn => List.mem_append_right _ (b n hn)⟩

theorem adds_ok (l : List Str) {r : Repo} (hr : RepoOk E r) :
    RepoOk E (l.foldl (fun r h => r.add E h) r) ∧ More r (l.foldl (fun r h => r.add E h) r) := by
  induction l generalizing r with
  | nil => exact ⟨hr, .refl r⟩
  | cons h t ih =>
    obtain ⟨a, b⟩ := add_ok h hr
    obtain ⟨c, d⟩ := ih a
    exact ⟨c, b.trans d⟩

theorem fetched_ok (b : Bool) (l : List Str) (w : World) (hi : Inv E w) : Inv E (w.fetched E b l) ∧ Grows w (w.fetched E b l) := by
  obtain ⟨h1, h2⟩ := adds_ok l (repo_ok hi b)
  exact setWorld_ok b hi h1 h2

theorem keepRepo_ok {r r' : Repo} {h : Str} (hr : RepoOk E r) (hk : r.keep E h = some r') : RepoOk E r' ∧ More r r' := by
  unfold Repo.keep at hk
  split at hk
  · rename_i hm
    obtain ⟨es, a, b⟩ := hr.commits h hm
    simp only [a, Option.bind_some, Option.some.injEq] at hk
    subst hk
    refine ⟨⟨fun t ht n hn => ?_, hr.commits, hr.closed⟩, ⟨fun _ h => h, fun _ h => List.mem_cons_of_mem _ h, fun _ h => h⟩⟩
    rcases List.mem_cons.1 ht with rfl | ht
    · exact b n hn
    · exact hr.tags t ht n hn
  · cases hk

theorem keepCommit_ok {b : Bool} {h : Str} {w v : World} (hi : Inv E w) (hk : w.keepCommit E b h = some v) : Inv E v ∧ Grows w v := by
  unfold World.keepCommit at hk
  cases hr : (w.repo b).keep E h with
  | none => simp [hr] at hk
  | some r =>
    simp only [hr, Option.bind_some, Option.some.injEq] at hk
    subst hk
    obtain ⟨h1, h2⟩ := keepRepo_ok (repo_ok hi b) hr
    exact setWorld_ok b hi h1 h2

theorem keepCommitOld_ok {i : Nat} {h : Str} {w v : World} (hi : Inv E w) (hk : w.keepCommitOld E i h = some v) :
    Inv E v ∧ Grows w v := by
  unfold World.keepCommitOld at hk
  cases hg : w.old[i]? with
  | none => simp [hg] at hk
  | some g =>
    simp only [hg] at hk
    cases hr : g.repo.keep E h with
    | none => simp [hr] at hk
    | some r =>
      simp only [hr, Option.bind_some, Option.some.injEq] at hk
      subst hk
      have hgo := hi.old g (List.mem_of_getElem? hg)
      obtain ⟨h1, h2⟩ := keepRepo_ok (r := g.repo) ⟨hgo.tags, hgo.commits, hgo.closed⟩ hr
      refine ⟨⟨hi.young, fun g' hg' => ?_, hi.user⟩, ⟨fun _ h => h, fun _ h => h, fun _ h => h, fun _ h => h, fun _ h => h, fun _ h => h,
        fun j g' hj => ?_, fun _ h => h, fun _ h => h, fun _ h => h, fun _ h => h⟩⟩
      · rcases List.mem_or_eq_of_mem_set hg' with hg' | rfl
        · exact hi.old g' hg'
        · exact setRepo_ok hgo h1 h2
      · have hlen : j < w.old.length := by
          rcases Nat.lt_or_ge j w.old.length with h | h
          · exact h
          · rw [List.getElem?_eq_none h] at hj; cases hj
        rcases Nat.decEq i j with h | h
        · exact ⟨g', by simp only [List.getElem?_set_ne h]; exact hj, fun _ h => h, fun _ h => h, fun _ h => h⟩
        · subst h
          rw [hg] at hj
          cases hj
          exact ⟨_, List.getElem?_set_self hlen, h2.objs, h2.tags, h2.commits⟩

theorem fetchCommitOld_ok {b : Bool} {i : Nat} {h : Str} {w v : World} (hi : Inv E w) (hk : w.fetchCommitOld E b i h = some v) :
    Inv E v ∧ Grows w v := by
  unfold World.fetchCommitOld at hk
  cases hg : w.old[i]? with
  | none => simp [hg] at hk
  | some g =>
    simp only [hg] at hk
    split at hk
    · simp only [Option.some.injEq] at hk
      subst hk
      exact fetched_ok b [h] w hi
    · cases hk

theorem writeCom_ok {h t : Str} {w : World} (hi : Inv E w) {es : List (Str × Node)} (h1 : E.commit h = some es)
    (h2 : t = gid E (.tree es)) (h3 : E.tidy = true → Node.tree es ∈ w.young.objs) :
    Inv E (w.writeCom h t) ∧ Grows w (w.writeCom h t) := by
  refine ⟨⟨⟨hi.young.tags, hi.young.arch, hi.young.special, hi.young.dist, hi.young.commits, hi.young.closed, fun a b hm => ?_⟩,
    hi.old, hi.user⟩, ⟨fun _ h => h, fun _ h => h, fun _ h => h, fun _ h => h, fun _ h => h, fun _ h => h,
      fun _ g h => ⟨g, h, fun _ h => h, fun _ h => h, fun _ h => h⟩, fun _ h => h, fun _ h => read_cons _ _ _ h, fun _ h => h, fun _ h => h⟩⟩
  rcases List.mem_cons.1 hm with hm | hm
  · simp only [Prod.mk.injEq] at hm
    obtain ⟨rfl, rfl⟩ := hm
    exact ⟨es, h1, h2, h3⟩
  · exact hi.young.com a b hm

/-! ## The root -/

/-- What is wanted of the root for a commit. -/
def CommitRight (E : Env) (C : Conf) (served : Str → Prop) (k : CommitRepo) (r : Root) (w : World) : Prop :=
  ∃ n, Committed E k.hash k.subdir n ∧
    match r with
    | .absent t => t = gid E n ∧ (k.absent = true ∧ C.fetchAbsent = false) ∧ (C.serve = true → served t)
    | .present t => t = gid E n ∧ ((k.checkout = false ∧ k.hash ∈ w.young.commits) ∨ (read k.hash w.young.com).isSome) ∧
      (E.tidy = true ∨ k.hash ∈ w.young.commits → ∀ m ∈ below n, m ∈ w.young.objs)
    | .user t => t = gid E n ∧ k.checkout = true ∧ ∀ m ∈ below n, m ∈ w.user.objs

theorem commitTree_valid (k : CommitRepo) (b : Bool) (w : World) :
    Valid (rules E served) (commitTree E b k.hash k.subdir) w fun s v => ∃ n, Committed E k.hash k.subdir n ∧ s = gid E n ∧
      k.hash ∈ (v.repo b).commits ∧ ∀ m ∈ below n, m ∈ (v.repo b).objs := by
  unfold commitTree
  refine valid_bind (valid_need fun u es hu hi hf u' hu' hi' => ?_)
  split at hf
  · rename_i hm
    cases hs : (Node.tree es).find k.subdir with
    | none => trivial
    | some n =>
      refine fun v hv hiv => ⟨n, ⟨es, hf, hs⟩, rfl, ?_⟩
      have hc : k.hash ∈ (v.repo b).commits := by
        cases b with
        | true => exact hv.userCommits _ (hu'.userCommits _ hm)
        | false => exact hv.commits _ (hu'.commits _ hm)
      obtain ⟨fs, a, c⟩ := (repo_ok hiv b).commits _ hc
      rw [hf] at a
      cases a
      exact ⟨hc, fun m hm => c m (below_trans _ _ _ (find_below hs) hm)⟩
  · cases hf

/-- A root that is there. -/
theorem here_right {k : CommitRepo} {n : Node} {v : World} (h1 : Committed E k.hash k.subdir n)
    (h2 : k.hash ∈ (v.repo k.checkout).commits) (h3 : ∀ m ∈ below n, m ∈ (v.repo k.checkout).objs) :
    CommitRight E C served k (hereRoot k.checkout (gid E n)) v := by
  unfold hereRoot
  cases hc : k.checkout with
  | true =>
    rw [hc] at h2 h3
    exact ⟨n, h1, rfl, hc, h3⟩
  | false =>
    rw [hc] at h2 h3
    exact ⟨n, h1, rfl, .inl ⟨hc, h2⟩, fun _ => h3⟩

theorem here_later {k : CommitRepo} {n : Node} {v z : World} (hv : Grows v z) (h2 : k.hash ∈ (v.repo k.checkout).commits)
    (h3 : ∀ m ∈ below n, m ∈ (v.repo k.checkout).objs) :
    k.hash ∈ (z.repo k.checkout).commits ∧ ∀ m ∈ below n, m ∈ (z.repo k.checkout).objs := by
  cases hc : k.checkout with
  | true => rw [hc] at h2 h3; exact ⟨hv.userCommits _ h2, fun m hm => hv.userObjs m (h3 m hm)⟩
  | false => rw [hc] at h2 h3; exact ⟨hv.commits _ h2, fun m hm => hv.objs m (h3 m hm)⟩

theorem tagAndSet_valid (k : CommitRepo) (w : World) : Valid (rules E served) (tagAndSet E k) w (CommitRight E C served k) := by
  unfold tagAndSet
  refine valid_bind (valid_tryTo fun z1 z2 _ hi hk => ?_)
  obtain ⟨h1, h2⟩ := keepCommit_ok hi hk
  refine ⟨h1, h2, fun z3 _ _ => ?_⟩
  refine valid_bind ((commitTree_valid k _ z3).weaken fun s v _ _ hs => ?_)
  obtain ⟨n, a, rfl, b, c⟩ := hs
  exact fun z hz _ => here_right a (here_later hz b c).1 (here_later hz b c).2

theorem takeOlder_valid (k : CommitRepo) (i : Nat) (w : World) :
    Valid (rules E served) (takeOlder E k i) w (CommitRight E C served k) := by
  unfold takeOlder
  refine valid_bind (valid_tryTo fun z1 z2 _ hi hk => ?_)
  obtain ⟨h1, h2⟩ := keepCommitOld_ok hi hk
  refine ⟨h1, h2, fun z3 _ _ => ?_⟩
  refine valid_bind (valid_tryTo fun z4 z5 _ hi hk => ?_)
  obtain ⟨h1, h2⟩ := fetchCommitOld_ok hi hk
  exact ⟨h1, h2, fun z6 _ _ => tagAndSet_valid k z6⟩

theorem fetchFrom_safe (b : Bool) (branch : Str) (l : List Str) : ∀ w, Safe E served (fetchFrom E b branch l) w := by
  induction l with
  | nil => exact fun w => trivial
  | cons u us ih =>
    intro w
    refine safe_bind (safe_question _ _) fun a v => ?_
    cases a with
    | texts l => exact safe_change (fetched_ok b l) v
    | text c => exact ih v
    | error => exact ih v
    | no => exact ih v
    | yes => exact ih v
    | node n => exact ih v

theorem networkFetch_valid (k : CommitRepo) (w : World) :
    Valid (rules E served) (networkFetch E C k) w (CommitRight E C served k) := by
  unfold networkFetch
  split
  · trivial
  · refine valid_then (fetchFrom_safe _ _ _ _) fun _ v _ _ => valid_bind (valid_look fun v1 _ _ v2 _ _ => ?_)
    cases decide (k.hash ∈ (v1.repo k.checkout).commits) with
    | false => trivial
    | true =>
      simp only [setFetched]
      split
      · rename_i hc
        refine valid_bind ((commitTree_valid k _ v2).weaken fun s v _ _ hs => ?_)
        obtain ⟨n, a, rfl, b, c⟩ := hs
        refine fun z hz _ => ?_
        have := here_right (C := C) (served := served) a (here_later hz (by rw [hc]; exact b) (by rw [hc]; exact c)).1
          (here_later hz (by rw [hc]; exact b) (by rw [hc]; exact c)).2
        rw [hc] at this
        exact this
      · exact tagAndSet_valid k v2

/-- The tree remembered for a commit, once it is so. -/
theorem known_right (H : E.Good) {k : CommitRepo} {es : List (Str × Node)} (w : World) (h1 : E.commit k.hash = some es)
    (h2 : E.tidy = true → Node.tree es ∈ w.young.objs) (h3 : (read k.hash w.young.com).isSome) :
    Valid (rules E served) (subtree E (gid E (.tree es)) k.subdir) w fun s v =>
      (∃ n, Committed E k.hash k.subdir n ∧ s = gid E n) ∧ CommitRight E C served k (.present s) v := by
  refine (subtree_valid H k.subdir w).weaken fun s v hv hiv hs => ?_
  obtain ⟨n, hn, rfl⟩ := hs
  refine ⟨⟨n, ⟨es, h1, hn⟩, rfl⟩, n, ⟨es, h1, hn⟩, rfl, .inr (hv.com _ h3), fun hd m hm => ?_⟩
  rcases hd with hd | hd
  · exact hiv.young.closed _ (hv.objs _ (h2 hd)) m (below_trans _ _ _ (find_below hn) hm)
  · obtain ⟨fs, a, c⟩ := hiv.young.commits _ hd
    rw [h1] at a
    cases a
    exact c m (below_trans _ _ _ (find_below hn) hm)

theorem CommitRight.later {k : CommitRepo} {r : Root} {v w : World} (h : CommitRight E C served k r v) (hg : Grows v w) (hi : Inv E w) :
    CommitRight E C served k r w := by
  obtain ⟨n, ⟨es, h1, h2⟩, h3⟩ := h
  refine ⟨n, ⟨es, h1, h2⟩, ?_⟩
  cases r with
  | absent t => exact h3
  | present t =>
    refine ⟨h3.1, h3.2.1.imp (fun h => ⟨h.1, hg.commits _ h.2⟩) (hg.com _), fun hd m hm => ?_⟩
    rcases hd with hd | hd
    · exact hg.objs m (h3.2.2 (.inl hd) m hm)
    · obtain ⟨fs, a, c⟩ := hi.young.commits _ hd
      rw [h1] at a
      cases a
      exact c m (below_trans _ _ _ (find_below h2) hm)
  | user t =>
    exact ⟨h3.1, h3.2.1, fun m hm => hg.userObjs m (h3.2.2 m hm)⟩

theorem writeCommit_valid (H : E.Good) (k : CommitRepo) {es : List (Str × Node)} (w : World) (h1 : E.commit k.hash = some es)
    (h2 : Node.tree es ∈ w.young.objs) :
    Valid (rules E served) (writeCommit E k (gid E (.tree es))) w (CommitRight E C served k) := by
  unfold writeCommit
  refine valid_bind (valid_change fun z hz hiz => ?_)
  have ok := writeCom_ok hiz h1 rfl fun _ => hz.objs _ h2
  refine ⟨ok.1, ok.2, fun z' hz' _ => ?_⟩
  refine valid_bind ((known_right (C := C) H z' h1 (fun _ => hz'.objs _ (ok.2.objs _ (hz.objs _ h2)))
    (hz'.com _ (by simp only [World.writeCom, read_head, Option.isSome_some]))).weaken fun s v _ _ hs => ?_)
  exact fun u hu hiu => hs.2.later hu hiu

theorem commitRemote_valid (H : E.Good) (k : CommitRepo) {es : List (Str × Node)} (w : World) (h1 : E.commit k.hash = some es) :
    Valid (rules E served) (commitRemote E C k (gid E (.tree es))) w (CommitRight E C served k) := by
  unfold commitRemote
  split
  · refine valid_ask fun a _ v _ _ => ?_
    cases a with
    | node n =>
      cases n with
      | tree fs =>
        refine valid_bind ((importDir_valid H fs v).weaken fun t v hv hi ht => ?_)
        obtain ⟨rfl, hk⟩ := ht
        split
        · rename_i he
          have := gid_tree H he
          cases this
          exact writeCommit_valid H k v h1 (hk.there _ (self_below _))
        · trivial
      | file c x => trivial
      | link c => trivial
    | texts l => exact networkFetch_valid k v
    | text c => exact networkFetch_valid k v
    | error => exact networkFetch_valid k v
    | no => exact networkFetch_valid k v
    | yes => exact networkFetch_valid k v
  · exact networkFetch_valid k w

theorem commitServed_valid (H : E.Good) (k : CommitRepo) {es : List (Str × Node)} (w : World) (h1 : E.commit k.hash = some es) :
    Valid (rules E served) (commitServed E C k (gid E (.tree es))) w (CommitRight E C served k) := by
  unfold commitServed
  refine valid_bind (valid_look fun v _ hi v' hv' _ => ?_)
  cases hf : findTree E (gid E (.tree es)) v.young.objs with
  | some n =>
    obtain ⟨b1, _, b3⟩ := findTree_some hf
    have := gid_tree H b3
    subst this
    exact writeCommit_valid H k v' h1 (hv'.objs _ b1)
  | none =>
    simp only [commitElsewhere]
    split
    · rename_i hc
      refine valid_bind (valid_look fun u _ _ u' hu' _ => ?_)
      cases hf : findTree E (gid E (.tree es)) u.user.objs with
      | some n =>
        obtain ⟨b1, _, b3⟩ := findTree_some hf
        have := gid_tree H b3
        subst this
        cases hs : (Node.tree es).find k.subdir with
        | none => simp only [hs]; trivial
        | some m =>
          simp only [hs]
          exact fun z hz hiz => ⟨m, ⟨es, h1, hs⟩, rfl, hc, fun x hx =>
            hiz.user.closed _ (hz.userObjs _ (hu'.userObjs _ b1)) x (below_trans _ _ _ (find_below hs) hx)⟩
      | none => exact commitRemote_valid H k u' h1
    · exact commitRemote_valid H k v' h1

theorem commitUnknown_valid (H : E.Good) (k : CommitRepo) (w : World) :
    Valid (rules E served) (commitUnknown E C k) w (CommitRight E C served k) := by
  unfold commitUnknown
  split
  · split
    · rename_i hs ha
      refine valid_ask fun a hh v _ _ => ?_
      cases a with
      | text t =>
        obtain ⟨⟨n, hn, rfl⟩, hs⟩ := hh
        exact fun _ _ _ => ⟨n, hn, rfl, ha, fun _ => hs⟩
      | no => exact networkFetch_valid k v
      | texts l => trivial
      | error => trivial
      | yes => trivial
      | node n => trivial
    · refine valid_ask fun a hh v _ _ => ?_
      cases a with
      | text t =>
        obtain ⟨⟨n, ⟨es, h1, h2⟩, rfl⟩, _⟩ := hh
        simp only [Symlinks.Node.find, Option.some.injEq] at h2
        subst h2
        exact commitServed_valid H k v h1
      | no => exact networkFetch_valid k v
      | texts l => trivial
      | error => trivial
      | yes => trivial
      | node n => trivial
  · exact networkFetch_valid k w

theorem commitAbsent_valid (k : CommitRepo) (t : Str) (w : World) :
    Valid (rules E served) (commitAbsent C k t) w fun r _ => r = .absent t ∧ (C.serve = true → served t) := by
  unfold commitAbsent
  split
  · refine valid_ask fun a ha v _ _ => ?_
    cases a with
    | yes => exact fun _ _ _ => ⟨rfl, fun _ => ha⟩
    | no =>
      refine valid_ask fun b hb v _ _ => ?_
      cases b with
      | text t' =>
        simp only
        split
        · rename_i ht
          exact fun _ _ _ => ⟨rfl, fun _ => by rw [ht]; exact hb.2⟩
        · trivial
      | no => exact uploadAbsent_valid t v
      | yes => trivial
      | error => trivial
      | texts l => trivial
      | node n => trivial
    | text c => trivial
    | error => trivial
    | texts l => trivial
    | node n => trivial
  · rename_i h
    exact fun _ _ _ => ⟨rfl, fun h' => absurd h' h⟩

theorem setKnown_valid (k : CommitRepo) {n : Node} {r : Root} (w : World) (hn : Committed E k.hash k.subdir n)
    (hr : CommitRight E C served k r w) : Valid (rules E served) (setKnown C k (gid E n) r) w (CommitRight E C served k) := by
  unfold setKnown
  split
  · rename_i ha
    refine (commitAbsent_valid k _ w).weaken fun r v _ _ hr => ?_
    obtain ⟨rfl, hs⟩ := hr
    exact ⟨n, hn, rfl, ha, hs⟩
  · exact fun v hv hi => hr.later hv hi

theorem commit_valid (H : E.Good) (k : CommitRepo) (w : World) :
    Valid (rules E served) (commit E C k) w (CommitRight E C served k) := by
  unfold commit
  refine valid_bind (valid_look fun v1 _ _ v2 hv2 hi2 => ?_)
  cases decide (k.hash ∈ (v1.repo k.checkout).commits) with
  | true =>
    refine valid_bind ((commitTree_valid k _ v2).weaken fun s v hv hiv hs => ?_)
    obtain ⟨n, a, rfl, b, c⟩ := hs
    exact setKnown_valid k v a (here_right a b c)
  | false =>
    refine valid_bind (valid_look fun v3 _ hi3 v4 hv4 _ => ?_)
    cases hr : read k.hash v3.young.com with
    | some t =>
      obtain ⟨es, a, rfl, c⟩ := hi3.young.com _ _ (read_mem hr)
      refine valid_bind ((known_right (C := C) H v4 a (fun ht => hv4.objs _ (c ht)) (hv4.com _ (by rw [hr]; rfl))).weaken fun s v _ _ hs => ?_)
      obtain ⟨⟨n, hn, rfl⟩, hrr⟩ := hs
      exact setKnown_valid k v hn hrr
    | none =>
      refine valid_bind (valid_look fun v5 _ _ v6 _ _ => ?_)
      cases oldCommit k.hash v5.old with
      | some i => exact takeOlder_valid k i v6
      | none => exact commitUnknown_valid H k v6

end Verif.Mr
