import Verif.Mr.Spec

/-!
# The programs keep to the rules
-/

namespace Verif.Mr

open Verif.Symlinks (Node Mode Val)

variable {E : Env} {C : Conf} {served : Str → Prop}

/-! ## Hashes -/

mutual

theorem gid_inj (H : E.Good) : ∀ n m : Node, kind n = kind m → gid E n = gid E m → n = m
  | .file c x, .file d y, hk, hg => by
    have := H.blob _ _ (by simpa only [gid] using hg)
    cases x <;> cases y <;> simp_all [kind]
  | .link c, .link d, _, hg => congrArg Node.link (H.blob c d (by simpa only [gid] using hg))
  | .tree es, .tree fs, _, hg => congrArg Node.tree (gids_inj H es fs (H.tree _ _ (by simpa only [gid] using hg)))
  | .file c x, .link d, hk, _ => by cases x <;> simp [kind] at hk
  | .link d, .file c x, hk, _ => by cases x <;> simp [kind] at hk
  | .file c x, .tree d, hk, _ => by cases x <;> simp [kind] at hk
  | .tree d, .file c x, hk, _ => by cases x <;> simp [kind] at hk
  | .link c, .tree d, hk, _ => by simp [kind] at hk
  | .tree d, .link c, hk, _ => by simp [kind] at hk

theorem gids_inj (H : E.Good) : ∀ es fs : List (Str × Node), gids E es = gids E fs → es = fs
  | [], [], _ => rfl
  | [], (y, m) :: t', h => by simp [gids] at h
  | (x, n) :: t, [], h => by simp [gids] at h
  | (x, n) :: t, (y, m) :: t', h => by
    simp only [gids, List.cons.injEq, Prod.mk.injEq] at h
    obtain ⟨⟨h1, h2, h3⟩, h4⟩ := h
    rw [h1, gid_inj H n m h2 h3, gids_inj H t t' h4]

end

theorem isTree_iff (n : Node) : isTree n = true ↔ ∃ es, n = .tree es := by
  cases n <;> simp [isTree]

/-- Only trees have hashes of trees. -/
theorem gid_tree (H : E.Good) {n : Node} {es : List (Str × Node)} (h : gid E n = gid E (.tree es)) : n = .tree es := by
  cases n with
  | file c x => exact absurd (by simpa only [gid] using h) (H.apart _ _)
  | link c => exact absurd (by simpa only [gid] using h) (H.apart _ _)
  | tree fs => exact gid_inj H _ _ rfl h

theorem findTree_some {t : Str} {l : List Node} {n : Node} (h : findTree E t l = some n) : n ∈ l ∧ isTree n = true ∧ gid E n = t := by
  refine ⟨List.mem_of_find?_eq_some h, ?_⟩
  simpa using List.find?_some h

/-! ## Objects -/

theorem self_below (n : Node) : n ∈ below n := by cases n <;> simp [below]

mutual

theorem below_trans : ∀ r n m : Node, n ∈ below r → m ∈ below n → m ∈ below r
  | .file c x, n, m, h, h' => by simp only [below, List.mem_singleton] at h; subst h; exact h'
  | .link c, n, m, h, h' => by simp only [below, List.mem_singleton] at h; subst h; exact h'
  | .tree es, n, m, h, h' => by
    simp only [below, List.mem_cons] at h ⊢
    rcases h with rfl | h
    · simpa only [below, List.mem_cons] using h'
    · exact .inr (belows_trans es n m h h')

theorem belows_trans : ∀ (es : List (Str × Node)) (n m : Node), n ∈ belows es → m ∈ below n → m ∈ belows es
  | [], n, m, h, _ => absurd (by simpa only [belows] using h) List.not_mem_nil
  | (x, k) :: t, n, m, h, h' => by
    simp only [belows, List.mem_append] at h ⊢
    rcases h with h | h
    · exact .inl (below_trans k n m h h')
    · exact .inr (belows_trans t n m h h')

end

theorem belows_mem {es : List (Str × Node)} {e : Str × Node} (h : e ∈ es) : e.2 ∈ belows es := by
  induction es with
  | nil => exact absurd h List.not_mem_nil
  | cons a t ih =>
    obtain ⟨x, n⟩ := a
    simp only [belows, List.mem_append]
    rcases List.mem_cons.1 h with rfl | h
    · exact .inl (self_below _)
    · exact .inr (ih h)

theorem find_below {n m : Node} {l : List Str} (h : n.find l = some m) : m ∈ below n := by
  induction l generalizing n with
  | nil => cases n <;> simp only [Symlinks.Node.find, Option.some.injEq] at h <;> subst h <;> exact self_below _
  | cons x l ih =>
    cases n with
    | file c b => simp [Symlinks.Node.find, Symlinks.Node.entry] at h
    | link c => simp [Symlinks.Node.find, Symlinks.Node.entry] at h
    | tree es =>
      simp only [Symlinks.Node.find, Symlinks.Node.entry] at h
      cases he : Symlinks.entryIn es x with
      | none => simp [he] at h
      | some k =>
        simp only [he] at h
        have hk : k ∈ belows es := by
          clear h ih
          induction es with
          | nil => simp [Symlinks.entryIn] at he
          | cons a t ih =>
            obtain ⟨y, n'⟩ := a
            simp only [Symlinks.entryIn] at he
            simp only [belows, List.mem_append]
            split at he
            · cases he; exact .inl (self_below _)
            · exact .inr (ih he)
        exact below_trans _ k m (by simp only [below, List.mem_cons]; exact .inr hk) (ih h)

theorem Kept.down {g : Gen} {n m : Node} (h : Kept g n) (hm : m ∈ below n) : Kept g m := by
  obtain ⟨r, h1, h2, h3⟩ := h
  exact ⟨r, h1, below_trans _ _ _ h2 hm, h3⟩

theorem Kept.there {g : Gen} {n : Node} (h : Kept g n) : ∀ m ∈ below n, m ∈ g.objs := fun m hm => by
  obtain ⟨r, _, h2, h3⟩ := h
  exact h3 m (below_trans _ _ _ h2 hm)

theorem Kept.mono {g g' : Gen} {n : Node} (h : Kept g n) (ho : ∀ n ∈ g.objs, n ∈ g'.objs) (ht : ∀ n ∈ g.tags, n ∈ g'.tags) :
    Kept g' n := by
  obtain ⟨r, h1, h2, h3⟩ := h
  exact ⟨r, ht r h1, h2, fun m hm => ho m (h3 m hm)⟩

theorem Kept.later {w w' : World} {n : Node} (h : Kept w.young n) (hg : Grows w w') : Kept w'.young n := h.mono hg.objs hg.tags

theorem read_mem {K V : Type} [DecidableEq K] {k : K} {l : List (K × V)} {v : V} (h : read k l = some v) : (k, v) ∈ l := by
  unfold read at h
  cases hf : l.find? fun e => decide (e.1 = k) with
  | none => simp [hf] at h
  | some e =>
    simp only [hf, Option.map_some, Option.some.injEq] at h
    have h1 := List.find?_some hf
    have h2 := List.mem_of_find?_eq_some hf
    obtain ⟨a, b⟩ := e
    have : a = k := of_decide_eq_true h1
    subst this; subst h
    exact h2

/-! ## What steps do -/

theorem read_cons {K V : Type} [DecidableEq K] (k : K) (e : K × V) (l : List (K × V)) (h : (read k l).isSome) :
    (read k (e :: l)).isSome := by
  unfold read at h ⊢
  simp only [List.find?_cons]
  split
  · rfl
  · exact h

theorem read_head {K V : Type} [DecidableEq K] (k : K) (v : V) (l : List (K × V)) : read k ((k, v) :: l) = some v := by
  simp [read]

theorem Grows.of {w w' : World} (hc : ∀ c ∈ w.cas, c ∈ w'.cas) (ho : ∀ n ∈ w.young.objs, n ∈ w'.young.objs)
    (ht : ∀ n ∈ w.young.tags, n ∈ w'.young.tags) (h1 : w'.young.arch = w.young.arch) (h2 : w'.young.special = w.young.special)
    (h3 : w'.young.dist = w.young.dist) (h : w'.old = w.old) (h4 : ∀ c ∈ w.young.commits, c ∈ w'.young.commits)
    (h5 : w'.young.com = w.young.com) (h6 : ∀ n ∈ w.user.objs, n ∈ w'.user.objs) (h7 : ∀ n ∈ w.user.commits, n ∈ w'.user.commits) :
    Grows w w' :=
  ⟨hc, ho, ht, fun k => by rw [h1]; exact id, fun k => by rw [h2]; exact id, fun k => by rw [h3]; exact id,
    fun i g hg => ⟨g, by rw [h]; exact hg, fun _ h => h, fun _ h => h, fun _ h => h⟩, h4, fun k => by rw [h5]; exact id, h6, h7⟩

theorem Grows.rfl' (w : World) : Grows w w :=
  .of (fun _ h => h) (fun _ h => h) (fun _ h => h) rfl rfl rfl rfl (fun _ h => h) rfl (fun _ h => h) fun _ h => h

theorem Grows.trans {a b c : World} (h : Grows a b) (h' : Grows b c) : Grows a c :=
  (rules ⟨fun c => c, fun _ => [], fun _ => [], fun c => c, fun c => c, fun _ _ => none, fun _ => none, fun _ => [], fun _ => [], false⟩ fun _ => True).trans h h'

/-- Objects and tags added: what was promised stays so. -/
theorem GenOk.mono {g g' : Gen} (h : GenOk E g) (ho : ∀ n ∈ g.objs, n ∈ g'.objs) (ht : ∀ n ∈ g.tags, n ∈ g'.tags)
    (hn : ∀ r ∈ g'.tags, ∀ n ∈ below r, n ∈ g'.objs) (h1 : g'.arch = g.arch) (h2 : g'.special = g.special) (h3 : g'.dist = g.dist)
    (h4 : g'.commits = g.commits) (h5 : g'.com = g.com) (hc : Closed g'.objs) :
    GenOk E g' where
  tags := hn
  arch := fun ty k t hm => by
    rw [h1] at hm
    obtain ⟨c, es, a, b, d, e⟩ := h.arch ty k t hm
    exact ⟨c, es, a, b, d, e.mono ho ht⟩
  special := fun m t t' hm => by
    rw [h2] at hm
    obtain ⟨es, n, a, b, c, d, e⟩ := h.special m t t' hm
    exact ⟨es, n, a, b, c, d, e.mono ho ht⟩
  dist := fun k t hm => by
    rw [h3] at hm
    obtain ⟨l, n, a, b, c, d⟩ := h.dist k t hm
    exact ⟨l, n, a, b, c, d.mono ho ht⟩
  commits := fun k hk => by
    rw [h4] at hk
    obtain ⟨es, a, b⟩ := h.commits k hk
    exact ⟨es, a, fun n hn => ho n (b n hn)⟩
  closed := hc
  com := fun k t hm => by
    rw [h5] at hm
    obtain ⟨es, a, b, c⟩ := h.com k t hm
    exact ⟨es, a, b, fun ht => ho _ (c ht)⟩

theorem below_closed (n : Node) : Closed (below n) := fun m hm k hk => below_trans n m k hm hk

theorem Closed.append {l l' : List Node} (h : Closed l) (h' : Closed l') : Closed (l ++ l') := fun n hn m hm => by
  rcases List.mem_append.1 hn with hn | hn
  · exact List.mem_append_left _ (h n hn m hm)
  · exact List.mem_append_right _ (h' n hn m hm)

theorem store_ok (c : Str) (w : World) (h : Inv E w) : Inv E (w.store c) ∧ Grows w (w.store c) :=
  ⟨⟨h.young, h.old, h.user⟩, .of (fun _ hd => List.mem_cons_of_mem _ hd) (fun _ h => h) (fun _ h => h) rfl rfl rfl rfl (fun _ h => h) rfl (fun _ h => h) fun _ h => h⟩

theorem stores_ok (l : List Str) (w : World) (h : Inv E w) :
    Inv E (l.foldl (fun w c => w.store c) w) ∧ Grows w (l.foldl (fun w c => w.store c) w) := by
  induction l generalizing w with
  | nil => exact ⟨h, .rfl' w⟩
  | cons c t ih =>
    have h1 := store_ok c w h
    have h2 := ih (w.store c) h1.1
    exact ⟨h2.1, h1.2.trans h2.2⟩

theorem addObjs_ok (l : List Node) (hl : Closed l) (w : World) (h : Inv E w) : Inv E (w.addObjs l) ∧ Grows w (w.addObjs l) := by
  have ho : ∀ n ∈ w.young.objs, n ∈ (w.addObjs l).young.objs := fun n hn => List.mem_append_right _ hn
  refine ⟨⟨h.young.mono ho (fun _ h => h) (fun r hr n hn => ho n (h.young.tags r hr n hn)) rfl rfl rfl rfl rfl
    (hl.append h.young.closed), h.old, h.user⟩,
    .of (fun _ h => h) ho (fun _ h => h) rfl rfl rfl rfl (fun _ h => h) rfl (fun _ h => h) fun _ h => h⟩

/-- Tagging what is there completely. -/
theorem keep_ok (H : E.Good) {es : List (Str × Node)} {w v : World} (hi : Inv E w) (ho : ∀ m ∈ below (.tree es), m ∈ w.young.objs)
    (h : w.keep E (gid E (.tree es)) = some v) : Inv E v ∧ Grows w v ∧ Kept v.young (.tree es) := by
  unfold World.keep Gen.keep at h
  cases hf : findTree E (gid E (.tree es)) w.young.objs with
  | none => simp [hf] at h
  | some n =>
    simp only [hf, Option.bind_some, Option.some.injEq] at h
    obtain ⟨_, _, h3⟩ := findTree_some hf
    have := gid_tree H h3
    subst this
    subst h
    have ht : ∀ r ∈ Node.tree es :: w.young.tags, ∀ n ∈ below r, n ∈ w.young.objs := fun r hr n hn => by
      rcases List.mem_cons.1 hr with rfl | hr
      · exact ho n hn
      · exact hi.young.tags r hr n hn
    exact ⟨⟨hi.young.mono (fun _ h => h) (fun _ h => List.mem_cons_of_mem _ h) ht rfl rfl rfl rfl rfl hi.young.closed, hi.old, hi.user⟩,
      .of (fun _ h => h) (fun _ h => h) (fun _ h => List.mem_cons_of_mem _ h) rfl rfl rfl rfl (fun _ h => h) rfl (fun _ h => h) fun _ h => h,
      ⟨_, List.mem_cons_self, self_below _, ho⟩⟩

theorem keepOld_ok {i : Nat} {t : Str} {w v : World} (hi : Inv E w) (hc : ∀ g n, w.old[i]? = some g → findTree E t g.objs = some n →
    ∀ m ∈ below n, m ∈ g.objs) (h : w.keepOld E i t = some v) : Inv E v ∧ Grows w v := by
  unfold World.keepOld at h
  cases hg : w.old[i]? with
  | none => simp [hg] at h
  | some g =>
    simp only [hg, Gen.keep] at h
    cases hf : findTree E t g.objs with
    | none => simp [hf] at h
    | some n =>
      simp only [hf, Option.bind_some, Option.some.injEq] at h
      subst h
      refine ⟨⟨hi.young, fun g' hg' => ?_, hi.user⟩, ⟨fun _ h => h, fun _ h => h, fun _ h => h, fun _ h => h, fun _ h => h, fun _ h => h, fun j g' hj => ?_,
        fun _ h => h, fun _ h => h, fun _ h => h, fun _ h => h⟩⟩
      rotate_left
      · have hlen : j < w.old.length := by
          rcases Nat.lt_or_ge j w.old.length with h | h
          · exact h
          · rw [List.getElem?_eq_none h] at hj; cases hj
        rcases Nat.decEq i j with h | h
        · exact ⟨g', by simp only [List.getElem?_set_ne h]; exact hj, fun _ h => h, fun _ h => h, fun _ h => h⟩
        · subst h
          rw [hg] at hj
          cases hj
          exact ⟨_, List.getElem?_set_self hlen, fun _ h => h, fun _ h => List.mem_cons_of_mem _ h, fun _ h => h⟩
      have hgo := hi.old g (List.mem_of_getElem? hg)
      rcases List.mem_or_eq_of_mem_set hg' with hg' | rfl
      · exact hi.old g' hg'
      · refine hgo.mono (fun _ h => h) (fun _ h => List.mem_cons_of_mem _ h) (fun r hr m hm => ?_) rfl rfl rfl rfl rfl hgo.closed
        rcases List.mem_cons.1 hr with rfl | hr
        · exact hc g _ hg hf m hm
        · exact hgo.tags r hr m hm

theorem fetchOld_ok (H : E.Good) {i : Nat} {es : List (Str × Node)} {w v : World} (hi : Inv E w)
    (h : w.fetchOld E i (gid E (.tree es)) = some v) :
    Inv E v ∧ Grows w v ∧ ∀ m ∈ below (.tree es), m ∈ v.young.objs := by
  unfold World.fetchOld at h
  cases hg : w.old[i]? with
  | none => simp [hg] at h
  | some g =>
    simp only [hg] at h
    cases hf : findTree E (gid E (.tree es)) g.tags with
    | none => simp [hf] at h
    | some n =>
      simp only [hf, Option.bind_some, Option.some.injEq] at h
      have := gid_tree H (findTree_some hf).2.2
      subst this
      subst h
      have := addObjs_ok (below (.tree es)) (below_closed _) w hi
      exact ⟨this.1, this.2, fun m hm => List.mem_append_left _ hm⟩

theorem writeArch_ok {ty h t : Str} {w : World} (hi : Inv E w) {c : Str} {es : List (Str × Node)} (h1 : E.blobId c = h)
    (h2 : E.extract ty c = some es) (h3 : t = gid E (.tree es)) (h4 : Kept w.young (.tree es)) :
    Inv E (w.writeArch ty h t) ∧ Grows w (w.writeArch ty h t) := by
  refine ⟨⟨⟨hi.young.tags, fun ty' h' t' hm => ?_, hi.young.special, hi.young.dist, hi.young.commits, hi.young.closed, hi.young.com⟩, hi.old, hi.user⟩,
    ⟨fun _ h => h, fun _ h => h, fun _ h => h, fun _ h => read_cons _ _ _ h, fun _ h => h, fun _ h => h, fun _ g h => ⟨g, h, fun _ h => h, fun _ h => h, fun _ h => h⟩,
      fun _ h => h, fun _ h => h, fun _ h => h, fun _ h => h⟩⟩
  rcases List.mem_cons.1 hm with hm | hm
  · simp only [Prod.mk.injEq] at hm
    obtain ⟨⟨rfl, rfl⟩, rfl⟩ := hm
    exact ⟨c, es, h1, h2, h3, h4⟩
  · exact hi.young.arch ty' h' t' hm

theorem writeSpecial_ok {m : Mode} {t t' : Str} {w : World} (hi : Inv E w) {es : List (Str × Node)} {n : Node} (h1 : t = gid E (.tree es))
    (h2 : isTree n = true) (h3 : Resolves m (.tree es) n) (h4 : t' = gid E n) (h5 : Kept w.young n) :
    Inv E (w.writeSpecial m t t') ∧ Grows w (w.writeSpecial m t t') := by
  refine ⟨⟨⟨hi.young.tags, hi.young.arch, fun m' a b hm => ?_, hi.young.dist, hi.young.commits, hi.young.closed, hi.young.com⟩, hi.old, hi.user⟩,
    ⟨fun _ h => h, fun _ h => h, fun _ h => h, fun _ h => h, fun _ h => read_cons _ _ _ h, fun _ h => h, fun _ g h => ⟨g, h, fun _ h => h, fun _ h => h, fun _ h => h⟩,
      fun _ h => h, fun _ h => h, fun _ h => h, fun _ h => h⟩⟩
  rcases List.mem_cons.1 hm with hm | hm
  · simp only [Prod.mk.injEq] at hm
    obtain ⟨⟨rfl, rfl⟩, rfl⟩ := hm
    exact ⟨es, n, h1, h2, h3, h4, h5⟩
  · exact hi.young.special m' a b hm

theorem writeDist_ok {k t : Str} {w : World} (hi : Inv E w) {l : List (Str × Str × Bool)} {n : Node} (h1 : k = E.listId l)
    (h2 : Files E l n) (h3 : t = gid E n) (h4 : Kept w.young n) :
    Inv E (w.writeDist k t) ∧ Grows w (w.writeDist k t) := by
  refine ⟨⟨⟨hi.young.tags, hi.young.arch, hi.young.special, fun a b hm => ?_, hi.young.commits, hi.young.closed, hi.young.com⟩, hi.old, hi.user⟩,
    ⟨fun _ h => h, fun _ h => h, fun _ h => h, fun _ h => h, fun _ h => h, fun _ h => read_cons _ _ _ h, fun _ g h => ⟨g, h, fun _ h => h, fun _ h => h, fun _ h => h⟩,
      fun _ h => h, fun _ h => h, fun _ h => h, fun _ h => h⟩⟩
  rcases List.mem_cons.1 hm with hm | hm
  · simp only [Prod.mk.injEq] at hm
    obtain ⟨rfl, rfl⟩ := hm
    exact ⟨l, n, h1, h2, h3, h4⟩
  · exact hi.young.dist a b hm

theorem writeRehash_ok (h h' : Str) (w : World) (hi : Inv E w) : Inv E (w.writeRehash h h') ∧ Grows w (w.writeRehash h h') :=
  ⟨⟨hi.young, hi.old, hi.user⟩, .of (fun _ h => h) (fun _ h => h) (fun _ h => h) rfl rfl rfl rfl (fun _ h => h) rfl (fun _ h => h) fun _ h => h⟩

/-! ## Content -/

theorem content_some {h c : Str} {w : World} (hc : w.content E h = some c) : c ∈ w.cas ∧ E.blobId c = h :=
  ⟨List.mem_of_find?_eq_some hc, by simpa using List.find?_some hc⟩

/-- Programs that keep to the rules, no matter what they give. -/
abbrev Safe {α : Type} (E : Env) (served : Str → Prop) (p : Task α) (w : World) : Prop := Valid (rules E served) p w fun _ _ => True

theorem safe_change {f : World → World} (hf : ∀ w, Inv E w → Inv E (f w) ∧ Grows w (f w)) (w : World) : Safe E served (change f) w :=
  valid_change fun w' _ hi => ⟨(hf w' hi).1, (hf w' hi).2, fun _ _ _ => trivial⟩

theorem safe_ret {α : Type} (a : α) (w : World) : Safe E served (.ret a) w := fun _ _ _ => trivial

theorem safe_bind {α β : Type} {p : Task α} {g : α → Task β} {w : World} (h : Safe E served p w)
    (hg : ∀ a v, Safe E served (g a) v) : Safe E served (p >>= g) w := Valid.bind (h.weaken fun a v _ _ _ => hg a v)

theorem safe_look {α : Type} (f : World → α) (w : World) : Safe E served (look f) w := valid_look fun _ _ _ _ _ _ => trivial

theorem safe_need {α : Type} (f : World → Option α) (w : World) : Safe E served (need f) w := valid_need fun _ _ _ _ _ _ _ _ => trivial

theorem safe_question (q : Query) (w : World) : Safe E served (question q) w := valid_question fun _ _ _ _ _ => trivial

theorem downloadFrom_safe (l : List Str) : ∀ w, Safe E served (downloadFrom l) w := by
  induction l with
  | nil => exact fun w => safe_ret _ w
  | cons u us ih =>
    intro w
    refine safe_bind (safe_question _ _) fun a v => ?_
    cases a with
    | text c => exact safe_ret _ v
    | error => exact ih v
    | no => exact ih v
    | yes => exact ih v
    | texts l => exact ih v
    | node n => exact ih v

theorem fetch_safe (a : Archive) (w : World) : Safe E served (fetch E C a) w := by
  unfold fetch
  split
  · trivial
  · refine safe_bind (downloadFrom_safe _ _) fun o v => ?_
    cases o with
    | none => trivial
    | some c =>
      simp only
      split
      · trivial
      · split
        · trivial
        · exact safe_bind (safe_change (store_ok c) _) fun _ v => safe_bind (safe_need _ _) fun _ v => safe_ret _ v

theorem fromRemote_safe (a : Archive) (w : World) : Safe E served (fromRemote E C a) w := by
  unfold fromRemote
  split
  · refine safe_bind (safe_question _ _) fun r v => ?_
    cases r with
    | text c => exact safe_change (store_ok c) _
    | error => exact fetch_safe a v
    | no => exact fetch_safe a v
    | yes => exact fetch_safe a v
    | texts l => exact fetch_safe a v
    | node n => exact fetch_safe a v
  · exact fetch_safe a w

theorem fromServe_safe (a : Archive) (w : World) : Safe E served (fromServe E C a) w := by
  unfold fromServe
  split
  · refine safe_bind (safe_question _ _) fun r v => ?_
    cases r with
    | text d =>
      refine safe_bind (safe_question _ _) fun r v => ?_
      cases r with
      | text c =>
        simp only
        split
        · exact safe_change (store_ok c) _
        · split
          · trivial
          · refine safe_bind (safe_change (store_ok c) _) fun _ v => ?_
            split
            · trivial
            · exact safe_change (writeRehash_ok _ _) _
      | error => exact fromRemote_safe a v
      | no => exact fromRemote_safe a v
      | yes => exact fromRemote_safe a v
      | texts l => exact fromRemote_safe a v
      | node n => exact fromRemote_safe a v
    | error => exact fromRemote_safe a v
    | no => exact fromRemote_safe a v
    | yes => exact fromRemote_safe a v
    | texts l => exact fromRemote_safe a v
    | node n => exact fromRemote_safe a v
  · exact fromRemote_safe a w

theorem distfiles_safe (x : Str) (w : World) : Safe E served (fromDistfiles x) w := by
  refine safe_bind (safe_question _ _) fun r v => ?_
  cases r with
  | texts l => exact safe_change (stores_ok l) _
  | text c => exact safe_ret _ v
  | error => exact safe_ret _ v
  | no => exact safe_ret _ v
  | yes => exact safe_ret _ v
  | node n => exact safe_ret _ v

theorem ensure_safe (a : Archive) (w : World) : Safe E served (ensure E C a) w := by
  unfold ensure
  refine safe_bind (safe_look _ _) fun r v => ?_
  cases r with
  | some c => exact safe_ret _ v
  | none =>
    refine safe_bind (safe_look _ _) fun r v => ?_
    cases r with
    | some c => exact safe_change (store_ok c) _
    | none =>
      refine safe_bind (safe_look _ _) fun r v => ?_
      cases r with
      | some c => exact safe_change (store_ok c) _
      | none =>
        refine safe_bind (distfiles_safe _ _) fun _ v => safe_bind (safe_look _ _) fun r v => ?_
        cases r with
        | some c => exact safe_ret _ v
        | none => exact fromServe_safe a v

end Verif.Mr
