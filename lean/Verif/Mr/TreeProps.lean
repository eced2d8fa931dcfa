import Verif.Mr.CommitProps
import Verif.Mr.User

/-!
# C92, C93, C94: roots from git trees and from directories
-/

namespace Verif.Mr

open Verif.Symlinks (Node Mode Val)

/-! ## C92: what a root for a git tree is -/

/-- Whatever tasks run at the same time, whichever were stopped: a root for a git tree has the hash asked for. It is absent if and only if
this was asked for, and then the serve endpoint has the tree. Otherwise, the tree with this hash is in the git cache, with all it refers
to. (Answers are `Honest`; without, see `C92_violation_serve`.) -/
theorem C92_described (E : Env) (C : Conf) (served : Str → Prop) (i : Nat) (c : Pool World Query Answer Key Root) (H : E.Good)
    (h : Possible E C served i c) (k : TreeRepo) (r : Root) (hr : (Key.tree k, Prog.ret r) ∈ c.tasks) :
    r.tree = k.hash ∧ ((∃ t, r = .absent t) ↔ k.absent = true ∧ C.fetchAbsent = false) ∧
      (k.absent = true ∧ C.fetchAbsent = false → C.serve = true → served k.hash) ∧
      (¬ (k.absent = true ∧ C.fetchAbsent = false) →
        ∃ es, gid E (.tree es) = k.hash ∧ ∀ m ∈ below (.tree es), m ∈ c.world.young.objs) := by
  obtain ⟨hi, hv⟩ := possible_ok H h
  have hR : TreeRight E C served k r c.world := hv _ hr c.world (Grows.rfl' _) hi
  cases r with
  | absent t =>
    obtain ⟨rfl, h1, h2⟩ := hR
    exact ⟨rfl, ⟨fun _ => h1, fun _ => ⟨_, rfl⟩⟩, fun _ => h2, fun h => absurd h1 h⟩
  | present t =>
    obtain ⟨rfl, h1, h2⟩ := hR
    exact ⟨rfl, ⟨(fun ⟨_, h⟩ => nomatch h), fun h => absurd h h1⟩, fun h => absurd h h1, fun _ => h2⟩
  | user t => exact absurd hR id

/-- The tree with the file `f`. -/
def Ex.tree : TreeRepo := ⟨gid env (.tree [(['f'], .file ['u'] false)]), [['c']], false⟩

example : Possible Ex.env Ex.conf (fun _ => False) 1 ⟨Ex.after (.tree Ex.tree) (fresh 1), [(.tree Ex.tree, .ret (.present Ex.tree.hash))]⟩ ∧
    (Ex.after (.tree Ex.tree) (fresh 1)).young.objs.length = 3 :=
  ⟨Ex.possible _ _ _ (by decide +kernel), by decide +kernel⟩

example : Possible Ex.env Ex.conf (fun _ => False) 1 ⟨Ex.after (.tree { Ex.tree with absent := true }) (fresh 1),
    [(.tree { Ex.tree with absent := true }, .ret (.absent Ex.tree.hash))]⟩ :=
  Ex.possible _ _ _ (by decide +kernel)

/-- If the tree was not in the git cache before: afterwards it is kept there by a tag.

Missing: a tree that is in the git cache already is not tagged (`C92_violation_gone`). -/
theorem C92_kept_partial (E : Env) (C : Conf) (served : Str → Prop) (H : E.Good) (O : Query → Answer) (hO : ∀ q, Honest E served q (O q))
    (k : TreeRepo) (w : World) (hi : Inv E w) (hn : ∀ es, Node.tree es ∈ w.young.objs → gid E (.tree es) ≠ k.hash) (t : Str)
    (hr : (run O (setup E C (.tree k)) w).2.2 = some (.present t)) :
    ∃ es, gid E (.tree es) = k.hash ∧ Kept (run O (setup E C (.tree k)) w).2.1.young (.tree es) := by
  have hf : findTree E k.hash w.young.objs = none := by
    cases h : findTree E k.hash w.young.objs with
    | none => rfl
    | some n =>
      obtain ⟨h1, h2, h3⟩ := findTree_some h
      obtain ⟨es, rfl⟩ := (isTree_iff n).1 h2
      exact absurd h3 (hn es h1)
  by_cases ha : k.absent = true ∧ C.fetchAbsent = false
  · obtain ⟨_, _, h⟩ := valid_run (gitTree_valid (C := C) (served := served) H k w) hi O hO
    have hR : TreeRight E C served k (.present t) _ := h _ hr
    exact absurd ha hR.2.1
  · have he : run O (setup E C (.tree k)) w = run O (fetchTree E C k >>= fun _ => .ret (.present k.hash)) w := by
      show run O (gitTree E C k) w = _
      unfold gitTree
      rw [if_neg ha]
      show run O ((look _ >>= _).bind _) w = _
      rw [run_bind, run_look, hf]
      exact (run_bind ..).symm
    have hv : Valid (rules E served) (fetchTree E C k >>= fun _ => Prog.ret (Root.present k.hash)) w fun _ v => HasTree E k.hash v :=
      valid_bind ((fetchTree_valid (C := C) H k w).weaken fun _ v _ _ hs => fun z hz _ => hs.later hz)
    rw [he] at hr ⊢
    exact (valid_run hv hi O hO).2.2 _ hr

example : (fresh 1).young.objs.length = 0 ∧
    (run Ex.answers (setup Ex.env Ex.conf (.tree Ex.tree)) (fresh 1)).2.2 = some (.present Ex.tree.hash) ∧
    (run Ex.answers (setup Ex.env Ex.conf (.tree Ex.tree)) (fresh 1)).2.1.young.tags.length = 1 := by decide +kernel

/-- A tree in the git cache that nothing keeps. -/
def Ex.loose : World := World.addObjs (below (.tree [(['f'], .file ['u'] false)])) (fresh 1)

theorem Ex.answers_honestGc (q : Query) : Honest envGc (fun _ => False) q (answers q) := by
  cases q with
  | whereIs p =>
    simp only [answers]
    split
    · rename_i hp; simp [Honest, envGc, env, hp]
    · split
      · rename_i hp; simp [Honest, envGc, env, hp]
      · trivial
  | resolve m n =>
    simp only [answers]
    split
    · rename_i r hr
      exact ⟨fun _ => true, r.path, Symlinks.C35_function n m _ 8 _ r hr⟩
    · trivial
  | distfiles x => simp only [answers]; split <;> trivial
  | _ => trivial

theorem Ex.loose_possible : Possible envGc conf (fun _ => False) 1 ⟨loose, [(.tree tree, setup envGc conf (.tree tree))]⟩ :=
  .step (.step .start (.other _ _ _ (.objs _ (below (.tree [(['f'], .file ['u'] false)])) (below_closed _)))) (.spawn _ _ _)

/-- A tree that was in the git cache already is not kept: after its root was set up, git may remove it. -/
theorem C92_violation_gone : ∃ (E : Env) (k : TreeRepo) (t : Str) (w w' : World), E.Good ∧
    Possible E Ex.conf (fun _ => False) 1 ⟨w, [(.tree k, .ret (.present t))]⟩ ∧ w.young.objs ≠ [] ∧ Alone E w w' ∧ w'.young.objs = [] := by
  refine ⟨Ex.envGc, Ex.tree, Ex.tree.hash, (run Ex.answers (setup Ex.envGc Ex.conf (.tree Ex.tree)) Ex.loose).2.1,
    { Ex.loose with young := { Ex.loose.young with objs := [], commits := [] } }, Ex.envGc_good,
    reach_run Ex.answers Ex.answers_honestGc (Key.tree Ex.tree) _ [] Ex.loose_possible (by decide +kernel), fun h => absurd (congrArg List.length h) (by decide +kernel), ?_, rfl⟩
  refine .prune Ex.loose [] [] rfl (List.nil_subset _) (fun n h => absurd h List.not_mem_nil) (fun r hr => ?_)
    fun c hc => absurd hc List.not_mem_nil
  have ht : Ex.loose.young.tags = [] := rfl
  rw [ht] at hr
  exact absurd hr List.not_mem_nil

/-- A serve endpoint that gives another directory than the one asked for. -/
def Ex.wrong : Query → Answer
  | .serveDir _ => .node (.tree [])
  | _ => .no

/-- What the serve endpoint says to be the tree is not checked: a root is made present, though the tree is not there. All other answers
are as they should be. -/
theorem C92_violation_serve : ∃ (E : Env) (O : Query → Answer) (k : TreeRepo), E.Good ∧
    (∀ q, (∀ t, q ≠ .serveDir t) → Honest E (fun _ => True) q (O q)) ∧
    (run O (setup E Ex.confServe (.tree k)) (fresh 1)).2.2 = some (.present k.hash) ∧
    ∀ n ∈ (run O (setup E Ex.confServe (.tree k)) (fresh 1)).2.1.young.objs, gid E n ≠ k.hash :=
  ⟨Ex.env, Ex.wrong, Ex.tree, Ex.env_good, fun q hq => by
    cases q with
    | serveDir t => exact absurd rfl (hq t)
    | _ => trivial, by decide +kernel, by decide +kernel⟩

/-! ## C93: when a git tree is not asked for elsewhere -/

variable {E : Env} {C : Conf} {served : Str → Prop} {O : Query → Answer}

theorem oldTree_some {t : Str} {l : List Gen} {i : Nat} (ho : oldTree E t l = some i) : ∃ g, l[i]? = some g ∧ (findTree E t g.objs).isSome := by
  induction l generalizing i with
  | nil => simp [oldTree] at ho
  | cons g gs ih =>
    simp only [oldTree] at ho
    split at ho
    · rename_i hm
      simp only [Option.some.injEq] at ho
      subst ho
      exact ⟨g, rfl, hm⟩
    · cases hr : oldTree E t gs with
      | none => simp [hr] at ho
      | some j =>
        simp only [hr, Option.map_some, Option.some.injEq] at ho
        subst ho
        obtain ⟨g', h1, h2⟩ := ih hr
        exact ⟨g', h1, h2⟩

theorem oldTree_there (H : E.Good) {es : List (Str × Node)} {l : List Gen} {g : Gen} (hg : g ∈ l) (hm : Node.tree es ∈ g.objs) :
    ∃ i, oldTree E (gid E (.tree es)) l = some i := by
  induction l with
  | nil => exact absurd hg List.not_mem_nil
  | cons a t ih =>
    simp only [oldTree]
    split
    · exact ⟨0, rfl⟩
    · rename_i hn
      rcases List.mem_cons.1 hg with rfl | hg
      · rw [findTree_there H hm] at hn
        exact absurd rfl hn
      · obtain ⟨i, hi⟩ := ih hg
        exact ⟨i + 1, by rw [hi]; rfl⟩

theorem run_takeTree (H : E.Good) {es : List (Str × Node)} {i : Nat} {w : World} {g : Gen} (hg : w.old[i]? = some g)
    (hm : Node.tree es ∈ g.objs) : ∃ w', run O (takeTree E (gid E (.tree es)) i) w = ([], w', some ()) := by
  have hlen : i < w.old.length := by
    rcases Nat.lt_or_ge i w.old.length with h | h
    · exact h
    · rw [List.getElem?_eq_none h] at hg; cases hg
  unfold takeTree
  rw [run_tryTo (v := { w with old := w.old.set i { g with tags := .tree es :: g.tags } }) (by
    unfold World.keepOld Gen.keep
    simp only [hg]
    rw [findTree_there H hm]
    rfl)]
  rw [run_tryTo (v := World.addObjs (below (.tree es)) { w with old := w.old.set i { g with tags := .tree es :: g.tags } }) (by
    unfold World.fetchOld
    simp only [List.getElem?_set_self hlen]
    rw [findTree_there H List.mem_cons_self]
    rfl)]
  rw [run_tryTo (keep_there H (List.mem_append_left _ (self_below _)))]
  exact ⟨_, rfl⟩

theorem run_moveTree (H : E.Good) (es : List (Str × Node)) (w : World) : ∃ w', run O (moveTree E (.tree es)) w = ([], w', some ()) := by
  simp only [moveTree]
  obtain ⟨v, _, hv⟩ := run_importDir (O := O) H es (fun _ => Prog.ret ()) w
  exact ⟨v, hv⟩

/-- Without questions if the tree is in some generation. -/
theorem tree_works (H : E.Good) (k : TreeRepo) {es : List (Str × Node)} (he : gid E (.tree es) = k.hash) {w : World}
    (ha : ¬ (k.absent = true ∧ C.fetchAbsent = false)) (hk : ∃ g ∈ w.young :: w.old, Node.tree es ∈ g.objs) :
    ∃ w', run O (gitTree E C k) w = ([], w', some (.present k.hash)) ∧ (Node.tree es ∈ w.young.objs → w' = w) := by
  unfold gitTree ensureTree
  rw [if_neg ha, ← he]
  show ∃ w', run O ((look _ >>= _).bind _) w = _ ∧ _
  rw [run_bind, run_look]
  by_cases hy : Node.tree es ∈ w.young.objs
  · rw [findTree_there H hy]
    exact ⟨w, rfl, fun _ => rfl⟩
  · have ho : ∃ g ∈ w.old, Node.tree es ∈ g.objs := by
      obtain ⟨g, hg, hm⟩ := hk
      rcases List.mem_cons.1 hg with rfl | hg
      · exact absurd hm hy
      · exact ⟨g, hg, hm⟩
    obtain ⟨g, hg, hm⟩ := ho
    have hf : findTree E (gid E (.tree es)) w.young.objs = none := by
      cases h : findTree E (gid E (.tree es)) w.young.objs with
      | none => rfl
      | some n =>
        obtain ⟨h1, h2, h3⟩ := findTree_some h
        rw [gid_tree H h3] at h1
        exact absurd h1 hy
    obtain ⟨i, hi⟩ := oldTree_there H hg hm
    obtain ⟨g', g1, g2⟩ := oldTree_some hi
    have hm' : Node.tree es ∈ g'.objs := by
      obtain ⟨n, hn⟩ := Option.isSome_iff_exists.1 g2
      obtain ⟨h1, h2, h3⟩ := findTree_some hn
      rwa [gid_tree H h3] at h1
    obtain ⟨w', hw⟩ := run_takeTree (O := O) H g1 hm'
    have hrun : run O (fetchTree E C k) w = ([], w', some ()) := by
      unfold fetchTree
      rw [run_look, ← he, hi]
      exact hw
    rw [hf]
    simp only [hrun]
    exact ⟨w', rfl, fun h => absurd h hy⟩

/-- If the tree is in the git cache, in any of the generations, then a root that is not absent is set up without asking anybody. -/
theorem C93_offline (E : Env) (C : Conf) (H : E.Good) (O : Query → Answer) (k : TreeRepo) (es : List (Str × Node)) (w : World)
    (he : gid E (.tree es) = k.hash) (ha : ¬ (k.absent = true ∧ C.fetchAbsent = false))
    (hk : ∃ g ∈ w.young :: w.old, Node.tree es ∈ g.objs) :
    (run O (setup E C (.tree k)) w).1 = [] ∧ (run O (setup E C (.tree k)) w).2.2 = some (.present k.hash) := by
  obtain ⟨w', h1, _⟩ := tree_works (O := O) (C := C) H k he ha hk
  have h1' : run O (setup E C (.tree k)) w = ([], w', some (.present k.hash)) := h1
  rw [h1']
  exact ⟨rfl, rfl⟩

/-- Otherwise, if it is in the local CAS, nobody else is asked. -/
theorem C93_cas (E : Env) (C : Conf) (H : E.Good) (O : Query → Answer) (k : TreeRepo) (es : List (Str × Node)) (w : World)
    (he : gid E (.tree es) = k.hash) (ha : ¬ (k.absent = true ∧ C.fetchAbsent = false)) (hk : O (.localDir k.hash) = .node (.tree es)) :
    (∀ q ∈ (run O (setup E C (.tree k)) w).1, q = .localDir k.hash) ∧
      (run O (setup E C (.tree k)) w).2.2 = some (.present k.hash) := by
  by_cases hg : ∃ g ∈ w.young :: w.old, Node.tree es ∈ g.objs
  · obtain ⟨h1, h2⟩ := C93_offline E C H O k es w he ha hg
    rw [h1]
    exact ⟨fun q hq => absurd hq List.not_mem_nil, h2⟩
  · have none : ∀ g ∈ w.young :: w.old, findTree E k.hash g.objs = none := fun g hm => by
      cases h : findTree E k.hash g.objs with
      | none => rfl
      | some n =>
        obtain ⟨h1, h2, h3⟩ := findTree_some h
        rw [gid_tree H (h3.trans he.symm)] at h1
        exact absurd ⟨g, hm, h1⟩ hg
    have hold : oldTree E k.hash w.old = Option.none := by
      cases h : oldTree E k.hash w.old with
      | none => rfl
      | some i =>
        obtain ⟨g, g1, g2⟩ := oldTree_some h
        rw [none g (List.mem_cons_of_mem _ (List.mem_of_getElem? g1))] at g2
        exact absurd g2 (by simp)
    obtain ⟨w', hw⟩ := run_moveTree (O := O) H es w
    have hrun : run O (ensureTree E C k) w = ([.localDir k.hash], w', some ()) := by
      unfold ensureTree
      rw [run_look, none _ List.mem_cons_self]
      show run O (fetchTree E C k) w = _
      unfold fetchTree
      rw [run_look, hold]
      show run O (question (.localDir k.hash) >>= _) w = _
      rw [run_question, hk]
      simp only [hw]
    have hall : run O (setup E C (.tree k)) w = ([.localDir k.hash], w', some (.present k.hash)) := by
      show run O (gitTree E C k) w = _
      unfold gitTree
      rw [if_neg ha]
      show run O ((ensureTree E C k).bind _) w = _
      rw [run_bind, hrun]
      rfl
    rw [hall]
    exact ⟨fun q hq => by simpa using hq, rfl⟩

/-- Once a root was set up, and as long as nobody takes the storage for themselves, it is set up again without asking anything and without
changing anything, whatever else happened in between. -/
theorem C93_again (E : Env) (C : Conf) (served : Str → Prop) (i : Nat) (c : Pool World Query Answer Key Root) (H : E.Good)
    (h : Possible E C served i c) (O : Query → Answer) (k : TreeRepo) (t : Str) (hr : (Key.tree k, Prog.ret (.present t)) ∈ c.tasks) :
    run O (setup E C (.tree k)) c.world = ([], c.world, some (.present t)) := by
  obtain ⟨hi, hv⟩ := possible_ok H h
  obtain ⟨rfl, ha, es, h1, h2⟩ : TreeRight E C served k (.present t) c.world := hv _ hr c.world (Grows.rfl' _) hi
  obtain ⟨w', a1, a2⟩ := tree_works (O := O) (C := C) H k h1 ha ⟨_, List.mem_cons_self, h2 _ (self_below _)⟩
  rw [a2 (h2 _ (self_below _))] at a1
  exact a1

/-- Also after the generations are rotated, nobody is asked. -/
theorem C93_rotation (E : Env) (C : Conf) (served : Str → Prop) (i : Nat) (c : Pool World Query Answer Key Root) (H : E.Good)
    (h : Possible E C served i c) (O : Query → Answer) (k : TreeRepo) (t : Str) (hr : (Key.tree k, Prog.ret (.present t)) ∈ c.tasks)
    (hl : c.world.old ≠ []) :
    (run O (setup E C (.tree k)) c.world.rotate).1 = [] ∧ (run O (setup E C (.tree k)) c.world.rotate).2.2 = some (.present t) := by
  obtain ⟨hi, hv⟩ := possible_ok H h
  obtain ⟨rfl, ha, es, h1, h2⟩ : TreeRight E C served k (.present t) c.world := hv _ hr c.world (Grows.rfl' _) hi
  refine C93_offline E C H O k es _ h1 ha ⟨c.world.young, List.mem_cons_of_mem _ ?_, h2 _ (self_below _)⟩
  cases ho : c.world.old with
  | nil => exact absurd ho hl
  | cons g gs =>
    simp only [World.rotate, ho, List.dropLast]
    exact List.mem_cons_self

example : (Ex.after (.tree Ex.tree) (fresh 1)).old.length = 1 ∧
    0 < (run Ex.answers (setup Ex.env Ex.conf (.tree Ex.tree)) (fresh 1)).1.length ∧
    (run (fun _ => .error) (setup Ex.env Ex.conf (.tree Ex.tree)) (Ex.after (.tree Ex.tree) (fresh 1)).rotate).1.length = 0 := by
  decide +kernel

/-- One that has the tree in the local CAS. -/
def Ex.inCas : Query → Answer
  | .localDir _ => .node (.tree [(['f'], .file ['u'] false)])
  | _ => .error

example : Ex.inCas (.localDir Ex.tree.hash) = .node (.tree [(['f'], .file ['u'] false)]) ∧
    (run Ex.inCas (setup Ex.env Ex.conf (.tree Ex.tree)) (fresh 1)).1.length = 1 := ⟨rfl, by decide +kernel⟩

/-- A serve endpoint that does not have the root, but takes what it is given. -/
def Ex.taking : Query → Answer
  | .upload _ => .yes
  | _ => .no

theorem Ex.tree_possible : Possible env confServe (fun _ => True) 1 ⟨(run answers (setup env confServe (.tree tree)) (fresh 1)).2.1,
    [(.tree tree, .ret (.present tree.hash))]⟩ :=
  reach_run answers (answers_honest _) (Key.tree tree) _ [] (.step .start (.spawn _ _ _)) (by decide +kernel)

/-- An absent root is not set up, though the tree is here, and the serve endpoint would take it: older generations are not looked at.
Before the generations are rotated, and for a root that is present, it is. -/
theorem C93_violation_absent : ∃ (k : TreeRepo) (w : World), Possible Ex.env Ex.confServe (fun _ => True) 1 ⟨w.rotate, []⟩ ∧
    (∀ q, Honest Ex.env (fun _ => True) q (Ex.taking q)) ∧
    (run Ex.taking (setup Ex.env Ex.confServe (.tree { k with absent := true })) w).2.2 = some (.absent k.hash) ∧
    (run Ex.taking (setup Ex.env Ex.confServe (.tree { k with absent := false })) w.rotate).2.2 = some (.present k.hash) ∧
    (run Ex.taking (setup Ex.env Ex.confServe (.tree { k with absent := true })) w.rotate).2.2 = none :=
  ⟨Ex.tree, (run Ex.answers (setup Ex.env Ex.confServe (.tree Ex.tree)) (fresh 1)).2.1,
    Ex.rotate_possible _ _ _ _ _ (Key.tree Ex.tree, .ret (.present Ex.tree.hash)) Ex.tree_possible,
    fun q => by cases q <;> trivial, by decide +kernel, by decide +kernel, by decide +kernel⟩

/-! ## C94: what a root for a directory is -/

/-- Whatever tasks run at the same time, whichever were stopped: a root for a directory has the tree of what is committed there, if it is in
a repository, and otherwise of what is there, in both cases with the symbolic links resolved if asked for. It is absent if and only if
this was asked for, and then the serve endpoint has the tree. Otherwise, it is in the user's repository, if it was committed there and
need not be changed, or in the git cache, kept by a tag, and all of the tree is there. -/
theorem C94_described (E : Env) (C : Conf) (served : Str → Prop) (i : Nat) (c : Pool World Query Answer Key Root) (H : E.Good)
    (h : Possible E C served i c) (k : PathRepo) (r : Root) (hr : (Key.path k, Prog.ret r) ∈ c.tasks) :
    ∃ user n₀ n, Placed E k.path user n₀ ∧
      (match k.special with
        | none => n = n₀
        | some m => isTree n₀ = true ∧ isTree n = true ∧ Resolves m n₀ n) ∧
      r.tree = gid E n ∧ ((∃ t, r = .absent t) ↔ k.absent = true ∧ C.fetchAbsent = false) ∧
      (k.absent = true ∧ C.fetchAbsent = false → C.serve = true → served r.tree) ∧
      (¬ (k.absent = true ∧ C.fetchAbsent = false) →
        (r = .present (gid E n) ∧ Kept c.world.young n ∧ ∀ m ∈ below n, m ∈ c.world.young.objs) ∨
          r = .user (gid E n) ∧ user = true ∧ k.special = none ∧ ∀ m ∈ below n, m ∈ c.world.user.objs) := by
  obtain ⟨hi, hv⟩ := possible_ok H h
  obtain ⟨user, n, ⟨n₀, h1, h2⟩, h3, h4⟩ : PathRight E C served k r c.world := hv _ hr c.world (Grows.rfl' _) hi
  refine ⟨user, n₀, n, h1, h2, h3, ?_⟩
  cases r with
  | absent t => exact ⟨⟨fun _ => h4.1, fun _ => ⟨_, rfl⟩⟩, fun _ => h4.2, fun h => absurd h4.1 h⟩
  | present t =>
    refine ⟨⟨(fun ⟨_, h⟩ => nomatch h), fun h => absurd h h4.1⟩, fun h => absurd h h4.1, fun _ => .inl ⟨?_, h4.2, h4.2.there⟩⟩
    have : t = gid E n := h3
    rw [this]
  | user t =>
    refine ⟨⟨(fun ⟨_, h⟩ => nomatch h), fun h => absurd h h4.1⟩, fun h => absurd h h4.1, fun _ => .inr ⟨?_, h4.2⟩⟩
    have : t = gid E n := h3
    rw [this]

/-- In the repository. -/
def Ex.committed : PathRepo := ⟨['p'], none, false⟩

/-- Somewhere else, with symbolic links resolved. -/
def Ex.plain : PathRepo := ⟨['q'], some .completely, false⟩

/-- What there is after the user cloned their repository. -/
def Ex.cloned : World := World.fetched env true [['h']] (fresh 1)

example : Possible Ex.env Ex.conf (fun _ => False) 1 ⟨(run Ex.answers (setup Ex.env Ex.conf (.path Ex.committed)) Ex.cloned).2.1,
    [(.path Ex.committed, .ret (.user (gid Ex.env (.tree [(['f'], .file ['u'] false)]))))]⟩ ∧
    Placed Ex.env ['p'] true (.tree [(['f'], .file ['u'] false)]) :=
  ⟨reach_run Ex.answers (Ex.answers_honest _) _ _ _ (.step (.step .start (.other _ _ _ (.commits _ true [['h']]))) (.spawn _ _ _))
      (by decide +kernel), ['h'], [['d']], by decide, _, rfl, rfl⟩

example : Possible Ex.env Ex.conf (fun _ => False) 1 ⟨Ex.after (.path Ex.plain) (fresh 1), [(.path Ex.plain, .ret (.present
    (gid Ex.env (.tree [(['f'], .file ['u'] false), (['l'], .file ['u'] false)]))))]⟩ :=
  Ex.possible _ _ _ (by decide +kernel)

/-- Whether a directory is in the user's repository or not, whether the root is absent, and how `just-mr` was started does not matter for
the tree: roots for places with the same content have the same tree, as long as links are not resolved. -/
theorem C94_same (E : Env) (C C' : Conf) (served served' : Str → Prop) (i i' : Nat) (c c' : Pool World Query Answer Key Root) (H : E.Good)
    (h : Possible E C served i c) (h' : Possible E C' served' i' c') (k k' : PathRepo) (r r' : Root)
    (hr : (Key.path k, Prog.ret r) ∈ c.tasks) (hr' : (Key.path k', Prog.ret r') ∈ c'.tasks)
    (hk : k.special = none) (hk' : k'.special = none)
    (hs : ∀ user user' n n', Placed E k.path user n → Placed E k'.path user' n' → n = n') : r.tree = r'.tree := by
  obtain ⟨u, n₀, n, a1, a2, a3, _⟩ := C94_described E C served i c H h k r hr
  obtain ⟨u', n₀', n', b1, b2, b3, _⟩ := C94_described E C' served' i' c' H h' k' r' hr'
  rw [hk] at a2
  rw [hk'] at b2
  rw [a3, b3, a2, b2, hs u u' _ _ a1 b1]

/-- Setting up roots does not change the user's repository, whatever the answers are, except for commits that are to be taken from it. -/
theorem C94_user (E : Env) (C : Conf) (O : Query → Answer) (key : Key) (h : ∀ k, key = .commit k → k.checkout = false) (w : World) :
    (run O (setup E C key) w).2.1.user = w.user :=
  quiet_run (setup_quiet key h) O w

example : Ex.cloned.user.objs.length = 4 ∧
    (run Ex.answers (setup Ex.env Ex.conf (.path { Ex.committed with special := some .completely })) Ex.cloned).2.2 =
      some (.present (gid Ex.env (.tree [(['f'], .file ['u'] false)]))) := by decide +kernel

end Verif.Mr
