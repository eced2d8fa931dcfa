import Verif.Mr.Props
import Verif.Mr.CommitRun

/-!
# C90, C91: roots from commits
-/

namespace Verif.Mr

open Verif.Symlinks (Node Mode Val)

/-! ## C90: what a root for a commit is -/

/-- Whatever tasks run at the same time, whichever were stopped: a root for a commit has the tree of what is committed at the given
place. If absent, this was asked for, and the serve endpoint has the tree. If it is in the git cache, or in the user's repository (only
if this is to be used), all of the tree is there, provided that the commit is there as well or nobody removes objects from git
repositories.

Missing: a root asked for as absent may be present (`C90_violation_present`), the tree may be missing if objects get removed
(`C90_violation_gone`), and what is at the given place need not be a directory. -/
theorem C90_described_partial (E : Env) (C : Conf) (served : Str → Prop) (i : Nat) (c : Pool World Query Answer Key Root) (H : E.Good)
    (h : Possible E C served i c) (k : CommitRepo) (r : Root) (hr : (Key.commit k, Prog.ret r) ∈ c.tasks) :
    ∃ n, Committed E k.hash k.subdir n ∧ r.tree = gid E n ∧
      (∀ t, r = .absent t → (k.absent = true ∧ C.fetchAbsent = false) ∧ (C.serve = true → served t)) ∧
      (∀ t, r = .present t → E.tidy = true ∨ k.hash ∈ c.world.young.commits → ∀ m ∈ below n, m ∈ c.world.young.objs) ∧
      ∀ t, r = .user t → k.checkout = true ∧ ∀ m ∈ below n, m ∈ c.world.user.objs := by
  obtain ⟨hi, hv⟩ := possible_ok H h
  obtain ⟨n, h1, h2⟩ : CommitRight E C served k r c.world := hv _ hr c.world (Grows.rfl' _) hi
  refine ⟨n, h1, ?_⟩
  cases r with
  | absent t => exact ⟨h2.1, fun _ h => by cases h; exact h2.2, (fun _ h => nomatch h), (fun _ h => nomatch h)⟩
  | present t => exact ⟨h2.1, (fun _ h => nomatch h), fun _ _ => h2.2.2, (fun _ h => nomatch h)⟩
  | user t => exact ⟨h2.1, (fun _ h => nomatch h), (fun _ h => nomatch h), fun _ _ => h2.2⟩

example : Possible Ex.env Ex.conf (fun _ => False) 1 ⟨Ex.after (.commit Ex.com) (fresh 1), [(.commit Ex.com, .ret (.present
      (gid Ex.env (.tree [(['f'], .file ['u'] false)]))))]⟩ ∧
    Committed Ex.env Ex.com.hash Ex.com.subdir (.tree [(['f'], .file ['u'] false)]) ∧
    ['h'] ∈ (Ex.after (.commit Ex.com) (fresh 1)).young.commits :=
  ⟨Ex.possible _ _ _ (by decide +kernel), ⟨_, rfl, rfl⟩, by decide +kernel⟩

/-- Roots for the same place of the same commit have the same tree, on all machines and however they are configured, no matter where the
commit is taken from. -/
theorem C90_same (E : Env) (C C' : Conf) (served served' : Str → Prop) (i i' : Nat) (c c' : Pool World Query Answer Key Root) (H : E.Good)
    (h : Possible E C served i c) (h' : Possible E C' served' i' c') (k k' : CommitRepo) (r r' : Root)
    (hr : (Key.commit k, Prog.ret r) ∈ c.tasks) (hr' : (Key.commit k', Prog.ret r') ∈ c'.tasks)
    (h1 : k.hash = k'.hash) (h2 : k.subdir = k'.subdir) : r.tree = r'.tree := by
  obtain ⟨n, ⟨es, a1, a2⟩, a3, _⟩ := C90_described_partial E C served i c H h k r hr
  obtain ⟨n', ⟨es', b1, b2⟩, b3, _⟩ := C90_described_partial E C' served' i' c' H h' k' r' hr'
  rw [← h1, a1] at b1
  cases b1
  rw [← h2, a2] at b2
  cases b2
  rw [a3, b3]

/-- The same commit from the serve endpoint. -/
theorem Ex.possible_serving (key : Key) (r : Root) (h : (run (serving env) (setup env confServe key) (fresh 1)).2.2 = some r) :
    Possible env confServe (fun _ => True) 1 ⟨(run (serving env) (setup env confServe key) (fresh 1)).2.1, [(key, .ret r)]⟩ :=
  reach_run (serving env) (serving_honest env) key _ [] (.step .start (.spawn _ _ key)) h

example : ∃ w w', Possible Ex.env Ex.conf (fun _ => False) 1 ⟨w, [(.commit Ex.com, .ret (.present
      (gid Ex.env (.tree [(['f'], .file ['u'] false)]))))]⟩ ∧
    Possible Ex.env Ex.confServe (fun _ => True) 1 ⟨w', [(.commit { Ex.com with url := ['x'], absent := true }, .ret (.absent
      (gid Ex.env (.tree [(['f'], .file ['u'] false)]))))]⟩ :=
  ⟨_, _, Ex.possible _ _ _ (by decide +kernel), Ex.possible_serving _ _ (by decide +kernel)⟩

/-- If the commit is in none of the older generations: the root is absent if and only if this was asked for. (Here for a task that runs
alone. Missing: with the commit in an older generation, see `C90_violation_present`.) -/
theorem C90_absent_partial (E : Env) (C : Conf) (O : Query → Answer) (k : CommitRepo) (w : World) (ho : ∀ g ∈ w.old, k.hash ∉ g.commits)
    (r : Root) (hr : (run O (setup E C (.commit k)) w).2.2 = some r) :
    (∃ t, r = .absent t) ↔ k.absent = true ∧ C.fetchAbsent = false := by
  obtain ⟨_, _, h⟩ := valid_run (commit_calm (E := E) (C := C) k w) ho O fun _ => trivial
  have hm : Meant C k r := h r hr
  unfold Meant at hm
  split at hm
  · rename_i ha
    exact ⟨fun _ => ha, fun _ => hm⟩
  · rename_i ha
    exact ⟨fun ⟨t, ht⟩ => absurd ht (hm t), fun h => absurd h ha⟩

example : (run (Ex.serving Ex.env) (setup Ex.env Ex.confServe (.commit { Ex.com with absent := true })) (fresh 1)).2.2 =
    some (.absent (gid Ex.env (.tree [(['f'], .file ['u'] false)]))) := by decide +kernel

/-- If the commit is in none of the older generations: the user's repository gets no tags. (Missing: see `C90_violation_tagged`.)
If it is not to be used, it is not changed at all. -/
theorem C90_user_partial (E : Env) (C : Conf) (O : Query → Answer) (k : CommitRepo) (w : World) (ho : ∀ g ∈ w.old, k.hash ∉ g.commits) :
    (run O (setup E C (.commit k)) w).2.1.user.tags = w.user.tags ∧
      (k.checkout = false → (run O (setup E C (.commit k)) w).2.1.user = w.user) :=
  (valid_run (commit_calm (E := E) (C := C) k w) ho O fun _ => trivial).2.1

/-- Nothing is lost: whatever was in the user's repository stays there. -/
theorem C90_user_kept (E : Env) (C : Conf) (served : Str → Prop) (H : E.Good) (O : Query → Answer) (hO : ∀ q, Honest E served q (O q))
    (key : Key) (w : World) (hi : Inv E w) :
    (∀ n ∈ w.user.objs, n ∈ (run O (setup E C key) w).2.1.user.objs) ∧
      ∀ h ∈ w.user.commits, h ∈ (run O (setup E C key) w).2.1.user.commits := by
  obtain ⟨_, hg, _⟩ := valid_run (setup_valid (C := C) (served := served) H key w) hi O hO
  exact ⟨hg.userObjs, hg.userCommits⟩

example : (run Ex.answers (setup Ex.env Ex.conf (.commit { Ex.com with checkout := true })) (fresh 1)).2.1.user.commits.length = 2 ∧
    (run Ex.answers (setup Ex.env Ex.conf (.commit { Ex.com with checkout := true })) (fresh 1)).2.1.user.tags.length = 0 ∧
    (run Ex.answers (setup Ex.env Ex.conf (.commit { Ex.com with checkout := true })) (fresh 1)).2.2 =
      some (.user (gid Ex.env (.tree [(['f'], .file ['u'] false)]))) := by decide +kernel

/-- What there is after the commit was set up, and the generations rotated. -/
def Ex.rotated : World := (Ex.after (.commit Ex.com) (fresh 1)).rotate

theorem Ex.rotate_possible (E : Env) (C : Conf) (served : Str → Prop) (i : Nat) (w : World) (t : Key × Task Root)
    (h : Possible E C served i ⟨w, [t]⟩) : Possible E C served i ⟨w.rotate, []⟩ :=
  .step (.step h (.gone w [] [] t)) (.alone _ _ (.move _ Gen.empty _ fun g hg => by
    rcases List.mem_cons.1 hg with rfl | hg
    · exact .inl rfl
    · exact .inr (List.dropLast_subset _ hg)))

theorem Ex.rotated_possible (served : Str → Prop) : Possible env conf served 1 ⟨rotated, []⟩ :=
  rotate_possible _ _ _ _ _ _ (possible served (.commit com) (.present (gid env (.tree [(['f'], .file ['u'] false)]))) (by decide +kernel))

/-- A root asked for as absent is made present, if its commit is in an older generation. -/
theorem C90_violation_present : ∃ (k : CommitRepo) (t : Str) (c : Pool World Query Answer Key Root),
    Possible Ex.env Ex.conf (fun _ => False) 1 c ∧ (Key.commit k, Prog.ret (.present t)) ∈ c.tasks ∧ k.absent = true ∧
      Ex.conf.fetchAbsent = false :=
  ⟨{ Ex.com with absent := true }, gid Ex.env (.tree [(['f'], .file ['u'] false)]), _,
    reach_run Ex.answers (Ex.answers_honest _) (.commit { Ex.com with absent := true }) _ []
      (.step (Ex.rotated_possible _) (.spawn _ _ _)) (by decide +kernel), List.mem_cons_self, rfl, rfl⟩

/-- The user's repository gets a tag, if the commit is in an older generation. -/
theorem C90_violation_tagged : ∃ (k : CommitRepo) (w : World), Possible Ex.env Ex.conf (fun _ => False) 1 ⟨w, []⟩ ∧
    (run Ex.answers (setup Ex.env Ex.conf (.commit k)) w).2.1.user.tags ≠ w.user.tags :=
  ⟨{ Ex.com with checkout := true }, Ex.rotated, Ex.rotated_possible _,
    fun h => absurd (congrArg List.length h) (by decide +kernel)⟩

/-! ### If objects get removed -/

/-- As before, but objects that are not kept get removed at times. -/
def Ex.envGc : Env := { env with tidy := false }

theorem Ex.envGc_good : envGc.Good := ⟨env_good.blob, env_good.tree, env_good.list, env_good.apart⟩

/-- The tree of the commit. -/
def Ex.dir : Node := .tree [(['d'], .tree [(['f'], .file ['u'] false)]), (['g'], .file ['v'] true)]

/-- All of the commit. -/
def Ex.comAll : CommitRepo := { com with subdir := [] }

/-- The tree of a commit came to the git cache, with nothing keeping it; and it was then remembered that it is there. -/
def Ex.remembered : World := (run (serving envGc) (setup envGc confServe (.commit comAll)) (World.addObjs (below dir) (fresh 1))).2.1

/-- The objects that are not kept are removed. -/
def Ex.pruned : World := { remembered with young := { remembered.young with objs := [], commits := [] } }

theorem Ex.pruned_possible : Possible envGc confServe (fun _ => True) 1 ⟨pruned, []⟩ := by
  have h0 : Possible envGc confServe (fun _ => True) 1 ⟨World.addObjs (below dir) (fresh 1), [(.commit comAll, setup envGc confServe
      (.commit comAll))]⟩ := .step (.step .start (.other _ _ _ (.objs _ (below dir) (below_closed _)))) (.spawn _ _ _)
  have h1 : Possible envGc confServe (fun _ => True) 1 ⟨remembered, [(.commit comAll, .ret (.present (gid envGc dir)))]⟩ :=
    reach_run (serving envGc) (serving_honest envGc) _ _ _ h0 (by decide +kernel)
  have ht : remembered.young.tags = [] := rfl
  refine .step (.step h1 (.gone _ [] [] _)) (.alone _ _ (.prune _ [] [] rfl (List.nil_subset _) (fun n h => absurd h List.not_mem_nil) (fun r hr => ?_)
    fun c hc => absurd hc List.not_mem_nil))
  rw [ht] at hr
  exact absurd hr List.not_mem_nil

/-- A root is made present though nothing of it is there: that the tree of the commit is there was remembered without keeping it. -/
theorem C90_violation_gone : ∃ (E : Env) (k : CommitRepo) (t : Str) (c : Pool World Query Answer Key Root), E.Good ∧
    Possible E Ex.confServe (fun _ => True) 1 c ∧ (Key.commit k, Prog.ret (.present t)) ∈ c.tasks ∧ c.world.young.objs = [] :=
  ⟨Ex.envGc, Ex.comAll, gid Ex.envGc Ex.dir, _, Ex.envGc_good,
    reach_run (Ex.serving Ex.envGc) (Ex.serving_honest Ex.envGc) (.commit Ex.comAll) _ []
      (.step Ex.pruned_possible (.spawn _ _ _)) (by decide +kernel), List.mem_cons_self, rfl⟩

/-! ## C91: when a commit is not asked for elsewhere -/

/-- If the commit is in the repository to be used, or if its tree is remembered (and nobody removes objects from git repositories) or the
commit is in one of the older generations, then a root that is not absent is set up without asking anybody. -/
theorem C91_offline (E : Env) (C : Conf) (served : Str → Prop) (i : Nat) (c : Pool World Query Answer Key Root) (H : E.Good)
    (h : Possible E C served i c) (O : Query → Answer) (k : CommitRepo) (n : Node) (hn : Committed E k.hash k.subdir n)
    (ha : ¬ (k.absent = true ∧ C.fetchAbsent = false))
    (hk : k.hash ∈ (c.world.repo k.checkout).commits ∨
      (E.tidy = true ∨ read k.hash c.world.young.com = none) ∧
        ((read k.hash c.world.young.com).isSome ∨ ∃ g ∈ c.world.old, k.hash ∈ g.commits)) :
    (run O (setup E C (.commit k)) c.world).1 = [] ∧
      ∃ r, (run O (setup E C (.commit k)) c.world).2.2 = some r ∧ (r = .present (gid E n) ∨ k.checkout = true ∧ r = .user (gid E n)) := by
  obtain ⟨w', r, h1, h2, _⟩ := commit_works (O := O) (C := C) H k (possible_ok H h).1 ha hn hk
  have h1' : run O (setup E C (.commit k)) c.world = ([], w', some r) := h1
  rw [h1']
  exact ⟨rfl, r, rfl, h2⟩

example : (run (fun _ => .error) (setup Ex.env Ex.conf (.commit Ex.com)) Ex.rotated).2.2 =
    some (.present (gid Ex.env (.tree [(['f'], .file ['u'] false)]))) ∧
    (run (fun _ => .error) (setup Ex.env Ex.conf (.commit Ex.com)) Ex.rotated).1.length = 0 := by decide +kernel

/-- Once a root was set up in the git cache, and as long as nobody takes the storage for themselves, a root with the same tree is set up
again without asking anything and without changing anything, whatever else happened in between. -/
theorem C91_again (E : Env) (C : Conf) (served : Str → Prop) (i : Nat) (c : Pool World Query Answer Key Root) (H : E.Good)
    (h : Possible E C served i c) (O : Query → Answer) (k : CommitRepo) (t : Str) (ht : E.tidy = true)
    (hr : (Key.commit k, Prog.ret (.present t)) ∈ c.tasks) (ha : ¬ (k.absent = true ∧ C.fetchAbsent = false)) :
    ∃ r, run O (setup E C (.commit k)) c.world = ([], c.world, some r) ∧ r.tree = t := by
  obtain ⟨hi, hv⟩ := possible_ok H h
  obtain ⟨n, h1, h2, h3, _⟩ : CommitRight E C served k (.present t) c.world := hv _ hr c.world (Grows.rfl' _) hi
  have hk : k.hash ∈ (c.world.repo k.checkout).commits ∨ (read k.hash c.world.young.com).isSome := by
    rcases h3 with ⟨a, b⟩ | h3
    · rw [a]; exact .inl b
    · exact .inr h3
  obtain ⟨w', r, a1, a2, a3⟩ := commit_works (O := O) (C := C) H k hi ha h1 (hk.imp id fun h => ⟨.inl ht, .inl h⟩)
  rw [a3 hk] at a1
  refine ⟨r, a1, ?_⟩
  rcases a2 with rfl | ⟨_, rfl⟩ <;> exact h2.symm

example : 0 < (run Ex.answers (setup Ex.env Ex.conf (.commit Ex.com)) (fresh 1)).1.length ∧
    (run (fun _ => .error) (setup Ex.env Ex.conf (.commit Ex.com)) (Ex.after (.commit Ex.com) (fresh 1))).1.length = 0 := by decide +kernel

/-- After the generations are rotated, a root whose commit was in the git cache is still set up without asking anybody.

Missing: for a tree obtained by way of the serve endpoint, see `C91_violation_forgotten`. -/
theorem C91_rotation_partial (E : Env) (C : Conf) (served : Str → Prop) (i : Nat) (c : Pool World Query Answer Key Root) (H : E.Good)
    (h : Possible E C served i c) (O : Query → Answer) (k : CommitRepo) (n : Node) (hn : Committed E k.hash k.subdir n)
    (ha : ¬ (k.absent = true ∧ C.fetchAbsent = false)) (hl : c.world.old ≠ [])
    (hk : k.hash ∈ c.world.young.commits) :
    (run O (setup E C (.commit k)) c.world.rotate).1 = [] ∧
      ∃ r, (run O (setup E C (.commit k)) c.world.rotate).2.2 = some r ∧
        (r = .present (gid E n) ∨ k.checkout = true ∧ r = .user (gid E n)) := by
  obtain ⟨hi, _⟩ := possible_ok H h
  have hi' : Inv E c.world.rotate := alone_ok c.world _ (.move _ Gen.empty _ fun g hg => by
    rcases List.mem_cons.1 hg with rfl | hg
    · exact .inl rfl
    · exact .inr (List.dropLast_subset _ hg)) hi
  have hold : c.world.young ∈ c.world.rotate.old := by
    cases ho : c.world.old with
    | nil => exact absurd ho hl
    | cons g gs =>
      simp only [World.rotate, ho, List.dropLast]
      exact List.mem_cons_self
  obtain ⟨w', r, h1, h2, _⟩ := commit_works (O := O) (C := C) H k hi' ha hn (.inr ⟨.inr rfl, .inr ⟨_, hold, hk⟩⟩)
  have h1' : run O (setup E C (.commit k)) c.world.rotate = ([], w', some r) := h1
  rw [h1']
  exact ⟨rfl, r, rfl, h2⟩

example : (Ex.after (.commit Ex.com) (fresh 1)).old.length = 1 ∧ ['h'] ∈ (Ex.after (.commit Ex.com) (fresh 1)).young.commits := by decide +kernel

/-- After the commit was set up by way of the serve endpoint. -/
def Ex.viaServe : World := (run (serving env) (setup env confServe (.commit com)) (fresh 1)).2.1

/-- What was set up by way of the serve endpoint is forgotten once the generations are rotated: though the tree is in an older
generation, and kept there, the root is not set up without help from elsewhere. -/
theorem C91_violation_forgotten : ∃ (k : CommitRepo) (t : Str) (c : Pool World Query Answer Key Root),
    Possible Ex.env Ex.confServe (fun _ => True) 1 c ∧ (Key.commit k, Prog.ret (.present t)) ∈ c.tasks ∧ k.absent = false ∧
      (∃ g ∈ c.world.rotate.old, (read k.hash g.com).isSome ∧ g.tags ≠ []) ∧
      (run (fun _ => .no) (setup Ex.env Ex.confServe (.commit k)) c.world.rotate).2.2 = none :=
  ⟨Ex.com, gid Ex.env (.tree [(['f'], .file ['u'] false)]), _, Ex.possible_serving (.commit Ex.com) _ (by decide +kernel),
    List.mem_cons_self, rfl, ⟨Ex.viaServe.young, List.mem_cons_self, by decide +kernel, fun h =>
      absurd (congrArg List.length h) (by decide +kernel)⟩, by decide +kernel⟩

end Verif.Mr
