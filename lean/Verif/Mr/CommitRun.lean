import Verif.Mr.Run

/-!
# Running the tasks for commits
-/

namespace Verif.Mr

open Verif.Symlinks (Node Mode Val)

variable {E : Env} {C : Conf} {served : Str → Prop} {O : Query → Answer}

theorem oldCommit_some {h : Str} {l : List Gen} {i : Nat} (ho : oldCommit h l = some i) : ∃ g, l[i]? = some g ∧ h ∈ g.commits := by
  induction l generalizing i with
  | nil => simp [oldCommit] at ho
  | cons g gs ih =>
    simp only [oldCommit] at ho
    split at ho
    · rename_i hm
      simp only [Option.some.injEq] at ho
      subst ho
      exact ⟨g, rfl, hm⟩
    · cases hr : oldCommit h gs with
      | none => simp [hr] at ho
      | some j =>
        simp only [hr, Option.map_some, Option.some.injEq] at ho
        subst ho
        obtain ⟨g', h1, h2⟩ := ih hr
        exact ⟨g', h1, h2⟩

theorem oldCommit_there {h : Str} {l : List Gen} {g : Gen} (hg : g ∈ l) (hm : h ∈ g.commits) : ∃ i, oldCommit h l = some i := by
  induction l with
  | nil => exact absurd hg List.not_mem_nil
  | cons a t ih =>
    simp only [oldCommit]
    split
    · exact ⟨0, rfl⟩
    · rename_i hn
      rcases List.mem_cons.1 hg with rfl | hg
      · exact absurd hm hn
      · obtain ⟨i, hi⟩ := ih hg
        exact ⟨i + 1, by rw [hi]; rfl⟩

theorem run_commitTree {β : Type} {b : Bool} {h : Str} {sub : List Str} {es : List (Str × Node)} {n : Node} {w : World} (g : Str → Task β)
    (h1 : h ∈ (w.repo b).commits) (h2 : E.commit h = some es) (h3 : (Node.tree es).find sub = some n) :
    run O (commitTree E b h sub >>= g) w = run O (g (gid E n)) w := by
  unfold commitTree
  show run O ((need _ >>= _).bind g) w = _
  rw [run_bind, run_need (a := es) (by simp only [if_pos h1, h2])]
  simp only [h3, run, List.nil_append]

theorem repo_setRepo (b : Bool) (r : Repo) (w : World) : (w.setRepo b r).repo b = r := by
  cases b <;> rfl

theorem keepRepo_there {r : Repo} {h : Str} {es : List (Str × Node)} (h1 : h ∈ r.commits) (h2 : E.commit h = some es) :
    r.keep E h = some { r with tags := .tree es :: r.tags } := by
  unfold Repo.keep
  rw [if_pos h1, h2]
  rfl

theorem run_tagAndSet (k : CommitRepo) {es : List (Str × Node)} {n : Node} {w : World} (h1 : k.hash ∈ (w.repo k.checkout).commits)
    (h2 : E.commit k.hash = some es) (h3 : (Node.tree es).find k.subdir = some n) :
    ∃ w', run O (tagAndSet E k) w = ([], w', some (hereRoot k.checkout (gid E n))) := by
  unfold tagAndSet
  rw [run_tryTo (v := w.setRepo k.checkout { (w.repo k.checkout) with tags := .tree es :: (w.repo k.checkout).tags }) (by
    unfold World.keepCommit
    rw [keepRepo_there h1 h2]
    rfl), run_commitTree _ (by rw [repo_setRepo]; exact h1) h2 h3]
  exact ⟨_, rfl⟩

theorem run_takeOlder (k : CommitRepo) (i : Nat) {es : List (Str × Node)} {n : Node} {w : World} {g : Gen} (hg : w.old[i]? = some g)
    (h1 : k.hash ∈ g.commits) (h2 : E.commit k.hash = some es) (h3 : (Node.tree es).find k.subdir = some n) :
    ∃ w', run O (takeOlder E k i) w = ([], w', some (hereRoot k.checkout (gid E n))) := by
  unfold takeOlder
  have hlen : i < w.old.length := by
    rcases Nat.lt_or_ge i w.old.length with h | h
    · exact h
    · rw [List.getElem?_eq_none h] at hg; cases hg
  have hf := keepRepo_there (E := E) (r := g.repo) h1 h2
  rw [run_tryTo (v := { w with old := w.old.set i (g.setRepo { g.repo with tags := .tree es :: g.repo.tags }) }) (by
    unfold World.keepCommitOld
    simp only [hg, hf, Option.bind_some])]
  rw [run_tryTo (v := World.fetched E k.checkout [k.hash]
      { w with old := w.old.set i (g.setRepo { g.repo with tags := .tree es :: g.repo.tags }) }) (by
    unfold World.fetchCommitOld
    simp only [List.getElem?_set_self hlen]
    exact if_pos h1)]
  refine run_tagAndSet k ?_ h2 h3
  unfold World.fetched
  rw [repo_setRepo]
  simp only [List.foldl, Repo.add, h2]
  exact List.mem_cons_self

/-- No questions if the commit is known. -/
theorem commit_works (H : E.Good) (k : CommitRepo) {n : Node} {w : World} (hi : Inv E w) (ha : ¬ (k.absent = true ∧ C.fetchAbsent = false))
    (hn : Committed E k.hash k.subdir n) (hk : k.hash ∈ (w.repo k.checkout).commits ∨
      (E.tidy = true ∨ read k.hash w.young.com = none) ∧ ((read k.hash w.young.com).isSome ∨ ∃ g ∈ w.old, k.hash ∈ g.commits)) :
    ∃ w' r, run O (commit E C k) w = ([], w', some r) ∧ (r = .present (gid E n) ∨ k.checkout = true ∧ r = .user (gid E n)) ∧
      (k.hash ∈ (w.repo k.checkout).commits ∨ (read k.hash w.young.com).isSome → w' = w) := by
  obtain ⟨es, h2, h3⟩ := hn
  have here : hereRoot k.checkout (gid E n) = .present (gid E n) ∨ k.checkout = true ∧ hereRoot k.checkout (gid E n) = .user (gid E n) := by
    unfold hereRoot
    cases k.checkout
    · exact .inl rfl
    · exact .inr ⟨rfl, rfl⟩
  unfold commit
  rw [run_look]
  by_cases hc : k.hash ∈ (w.repo k.checkout).commits
  · rw [decide_eq_true hc]
    refine ⟨w, _, ?_, here, fun _ => rfl⟩
    show run O (commitTree E k.checkout k.hash k.subdir >>= _) w = _
    rw [run_commitTree _ hc h2 h3]
    simp only [setKnown, if_neg ha]
    rfl
  · obtain ⟨htidy, hk⟩ := hk.resolve_left hc
    rw [decide_eq_false hc]
    show ∃ w' r, run O (look _ >>= _) w = _ ∧ _
    rw [run_look]
    cases hr : read k.hash w.young.com with
    | some t =>
      obtain ⟨fs, a, rfl, c⟩ := hi.young.com _ _ (read_mem hr)
      rw [h2] at a
      cases a
      refine ⟨w, .present (gid E n), ?_, .inl rfl, fun _ => rfl⟩
      show run O (subtree E _ k.subdir >>= _) w = _
      rw [run_subtree H _ (c (htidy.resolve_right fun h => by rw [hr] at h; cases h)) h3]
      simp only [setKnown, if_neg ha]
      rfl
    | none =>
      rw [hr] at hk
      obtain ⟨g, hg, hm⟩ := hk.resolve_left (fun h => nomatch h)
      obtain ⟨i, hi⟩ := oldCommit_there hg hm
      show ∃ w' r, run O (look _ >>= _) w = _ ∧ _
      rw [run_look, hi]
      obtain ⟨g', hg', hm'⟩ := oldCommit_some hi
      obtain ⟨w', hw⟩ := run_takeOlder (O := O) k i hg' hm' h2 h3
      exact ⟨w', _, hw, here, fun h => absurd h (by rw [not_or]; exact ⟨hc, fun h => nomatch h⟩)⟩

/-! ## Without the commit in an older generation -/

/-- Rules of a different kind: no older generation has the commit, and the tags of the user's repository stay, as does all of it if it
is not to be used. -/
def calm (k : CommitRepo) : Rules World Query Answer where
  inv := fun w => ∀ g ∈ w.old, k.hash ∉ g.commits
  grows := fun w w' => w'.user.tags = w.user.tags ∧ (k.checkout = false → w'.user = w.user)
  refl := fun _ => ⟨rfl, fun _ => rfl⟩
  trans := fun h1 h2 => ⟨h2.1.trans h1.1, fun h => (h2.2 h).trans (h1.2 h)⟩
  honest := fun _ _ => True

theorem add_tags (h : Str) (r : Repo) : (r.add E h).tags = r.tags := by
  unfold Repo.add
  cases E.commit h <;> rfl

theorem adds_tags (l : List Str) (r : Repo) : (l.foldl (fun r h => r.add E h) r).tags = r.tags := by
  induction l generalizing r with
  | nil => rfl
  | cons h t ih => rw [List.foldl_cons, ih, add_tags]

theorem fetched_calm (b : Bool) (l : List Str) (w : World) :
    (w.fetched E b l).old = w.old ∧ (w.fetched E b l).user.tags = w.user.tags := by
  unfold World.fetched
  cases b
  · exact ⟨rfl, rfl⟩
  · exact ⟨rfl, adds_tags l w.user⟩

/-- What is wanted: a root that is absent, if asked for. -/
def Meant (C : Conf) (k : CommitRepo) (r : Root) : Prop :=
  if k.absent = true ∧ C.fetchAbsent = false then ∃ t, r = .absent t else ∀ t, r ≠ .absent t

theorem subtree_calm {β : Type} {k : CommitRepo} {t : Str} {sub : List Str} {g : Str → Task β} {w : World} {post : β → World → Prop}
    (hg : ∀ s v, Valid (calm k) (g s) v post) : Valid (calm k) (subtree E t sub >>= g) w post := by
  refine valid_bind ?_
  unfold subtree
  split
  · exact fun v _ _ => hg _ v
  · refine valid_bind (valid_need fun u x _ _ _ v _ _ => ?_)
    cases x.find sub with
    | none => trivial
    | some m => exact fun v _ _ => hg _ v

theorem commitTree_calm {β : Type} {k : CommitRepo} {h' : Str} {b : Bool} {sub : List Str} {g : Str → Task β} {w : World} {post : β → World → Prop}
    (hg : ∀ s v, Valid (calm k) (g s) v post) : Valid (calm k) (commitTree E b h' sub >>= g) w post := by
  refine valid_bind ?_
  unfold commitTree
  refine valid_bind (valid_need fun u x _ _ _ v _ _ => ?_)
  cases (Node.tree x).find sub with
  | none => trivial
  | some m => exact fun v _ _ => hg _ v

theorem meant_here {k : CommitRepo} {r : Root} (ha : ¬ (k.absent = true ∧ C.fetchAbsent = false)) (hr : ∀ t, r ≠ .absent t) :
    Meant C k r := by
  unfold Meant
  rw [if_neg ha]
  exact hr

theorem meant_absent {k : CommitRepo} {t : Str} (ha : k.absent = true ∧ C.fetchAbsent = false) : Meant C k (.absent t) := by
  unfold Meant
  rw [if_pos ha]
  exact ⟨t, rfl⟩

theorem fetchFrom_calm {k : CommitRepo} (branch : Str) (l : List Str) :
    ∀ w, Valid (calm k) (fetchFrom E k.checkout branch l) w fun _ _ => True := by
  induction l with
  | nil => exact fun w => trivial
  | cons u us ih =>
    intro w
    refine valid_bind (valid_question fun a _ v _ _ => ?_)
    cases a with
    | texts l =>
      refine valid_change fun z _ hi => ⟨fun g hg => ?_, ⟨(fetched_calm _ l z).2, fun hc => ?_⟩, fun _ _ _ => trivial⟩
      rotate_left
      · rw [hc]; rfl
      rw [(fetched_calm _ l z).1] at hg
      exact hi g hg
    | text c => exact ih v
    | error => exact ih v
    | no => exact ih v
    | yes => exact ih v
    | node n => exact ih v

theorem networkFetch_calm (k : CommitRepo) (w : World) :
    Valid (calm k) (networkFetch E C k) w fun r _ => Meant C k r := by
  unfold networkFetch
  split
  · trivial
  · rename_i ha
    refine valid_bind ((fetchFrom_calm _ _ w).weaken fun _ v _ _ _ => valid_bind (valid_look fun v1 _ _ v2 _ _ => ?_))
    cases decide (k.hash ∈ (v1.repo k.checkout).commits) with
    | false => trivial
    | true =>
      simp only [setFetched]
      split
      · exact commitTree_calm fun s v => fun _ _ _ => meant_here ha fun t h => nomatch h
      · rename_i hc
        have hc' : k.checkout = false := by simpa using hc
        unfold tagAndSet
        refine valid_bind (valid_tryTo fun z1 z2 _ hi hk => ?_)
        have hz : z2.old = z1.old ∧ z2.user = z1.user := by
          unfold World.keepCommit at hk
          rw [hc'] at hk
          cases hr : (z1.repo false).keep E k.hash with
          | none => simp [hr] at hk
          | some r =>
            simp only [hr, Option.bind_some, Option.some.injEq] at hk
            subst hk
            exact ⟨rfl, rfl⟩
        refine ⟨fun g hg => hi g (by rw [← hz.1]; exact hg), ⟨by rw [hz.2], fun _ => hz.2⟩, fun z3 _ _ => commitTree_calm fun s v _ _ _ =>
          meant_here ha fun t h => ?_⟩
        unfold hereRoot at h
        rw [hc'] at h
        exact nomatch h

theorem importDir_calm {k : CommitRepo} {es : List (Str × Node)} {β : Type} {g : Str → Task β} {w : World} {post : β → World → Prop}
    (hg : ∀ s v, Valid (calm k) (g s) v post) : Valid (calm k) (importDir E es >>= g) w post := by
  refine valid_bind ?_
  unfold importDir
  refine valid_bind (valid_change fun z1 _ hi => ⟨hi, ⟨rfl, fun _ => rfl⟩, fun z2 _ _ => ?_⟩)
  refine valid_bind (valid_tryTo fun z3 z4 _ hi hk => ?_)
  have hz : z4.old = z3.old ∧ z4.user = z3.user := by
    unfold World.keep at hk
    cases hr : z3.young.keep E (gid E (.tree es)) with
    | none => simp [hr] at hk
    | some r =>
      simp only [hr, Option.bind_some, Option.some.injEq] at hk
      subst hk
      exact ⟨rfl, rfl⟩
  exact ⟨fun g hg => hi g (by rw [← hz.1]; exact hg), ⟨by rw [hz.2], fun _ => hz.2⟩, fun z5 _ _ v _ _ => hg _ v⟩

theorem writeCommit_calm (k : CommitRepo) (t : Str) (w : World) (ha : ¬ (k.absent = true ∧ C.fetchAbsent = false)) :
    Valid (calm k) (writeCommit E k t) w fun r _ => Meant C k r := by
  unfold writeCommit
  refine valid_bind (valid_change fun z1 _ hi => ⟨hi, ⟨rfl, fun _ => rfl⟩, fun z2 _ _ => ?_⟩)
  exact subtree_calm fun s v _ _ _ => meant_here ha fun t h => nomatch h

theorem commitRemote_calm (k : CommitRepo) (t : Str) (w : World) (ha : ¬ (k.absent = true ∧ C.fetchAbsent = false)) :
    Valid (calm k) (commitRemote E C k t) w fun r _ => Meant C k r := by
  unfold commitRemote
  split
  · refine valid_bind (valid_question fun a _ v _ _ => ?_)
    cases a with
    | node n =>
      cases n with
      | tree fs =>
        refine importDir_calm fun s v => ?_
        split
        · exact writeCommit_calm k t v ha
        · trivial
      | file c x => trivial
      | link c => trivial
    | texts l => exact networkFetch_calm k v
    | text c => exact networkFetch_calm k v
    | error => exact networkFetch_calm k v
    | no => exact networkFetch_calm k v
    | yes => exact networkFetch_calm k v
  · exact networkFetch_calm k w

theorem commitServed_calm (k : CommitRepo) (t : Str) (w : World) (ha : ¬ (k.absent = true ∧ C.fetchAbsent = false)) :
    Valid (calm k) (commitServed E C k t) w fun r _ => Meant C k r := by
  unfold commitServed
  refine valid_bind (valid_look fun v _ _ v' _ _ => ?_)
  cases findTree E t v.young.objs with
  | some n => exact writeCommit_calm k t v' ha
  | none =>
    simp only [commitElsewhere]
    split
    · refine valid_bind (valid_look fun u _ _ u' _ _ => ?_)
      cases findTree E t u.user.objs with
      | some n =>
        simp only
        cases n.find k.subdir with
        | none => trivial
        | some m => exact fun z _ _ => meant_here ha fun t h => nomatch h
      | none => exact commitRemote_calm k t u' ha
    · exact commitRemote_calm k t v' ha

theorem commitAbsent_calm (k : CommitRepo) (t : Str) (w : World) (ha : k.absent = true ∧ C.fetchAbsent = false) :
    Valid (calm k) (commitAbsent C k t) w fun r _ => Meant C k r := by
  have up : ∀ v, Valid (calm k) (uploadAbsent t) v fun r _ => Meant C k r := fun v => by
    refine valid_bind (valid_question fun a _ v _ _ => ?_)
    cases a with
    | yes => exact fun _ _ _ => meant_absent ha
    | _ => trivial
  unfold commitAbsent
  split
  · refine valid_bind (valid_question fun a _ v _ _ => ?_)
    cases a with
    | yes => exact fun _ _ _ => meant_absent ha
    | no =>
      refine valid_bind (valid_question fun b _ v _ _ => ?_)
      cases b with
      | text t' =>
        simp only
        split
        · exact fun _ _ _ => meant_absent ha
        · trivial
      | no => exact up v
      | _ => trivial
    | _ => trivial
  · exact fun _ _ _ => meant_absent ha

theorem setKnown_calm (k : CommitRepo) (t : Str) (r : Root) (w : World) (hr : ∀ t, r ≠ .absent t) :
    Valid (calm k) (setKnown C k t r) w fun r _ => Meant C k r := by
  unfold setKnown
  split
  · rename_i ha
    exact commitAbsent_calm k t w ha
  · rename_i ha
    exact fun _ _ _ => meant_here ha hr

theorem commit_calm (k : CommitRepo) (w : World) : Valid (calm k) (commit E C k) w fun r _ => Meant C k r := by
  unfold commit
  refine valid_bind (valid_look fun v1 _ _ v2 hv2 hi2 => ?_)
  cases decide (k.hash ∈ (v1.repo k.checkout).commits) with
  | true =>
    refine commitTree_calm fun s v => setKnown_calm k s _ v fun t h => ?_
    unfold hereRoot at h
    split at h <;> exact nomatch h
  | false =>
    refine valid_bind (valid_look fun v3 _ hi3 v4 hv4 _ => ?_)
    cases read k.hash v3.young.com with
    | some t => exact subtree_calm fun s v => setKnown_calm k s _ v fun t h => nomatch h
    | none =>
      refine valid_bind (valid_look fun v5 _ hi5 v6 _ _ => ?_)
      cases ho : oldCommit k.hash v5.old with
      | some i =>
        obtain ⟨g, hg, hm⟩ := oldCommit_some ho
        exact absurd hm (hi5 g (List.mem_of_getElem? hg))
      | none =>
        simp only [commitUnknown]
        split
        · split
          · rename_i ha
            refine valid_bind (valid_question fun a _ v _ _ => ?_)
            cases a with
            | text t => exact fun _ _ _ => meant_absent ha
            | no => exact networkFetch_calm k v
            | _ => trivial
          · rename_i ha
            refine valid_bind (valid_question fun a _ v _ _ => ?_)
            cases a with
            | text t => exact commitServed_calm k t v ha
            | no => exact networkFetch_calm k v
            | _ => trivial
        · exact networkFetch_calm k v6

end Verif.Mr
