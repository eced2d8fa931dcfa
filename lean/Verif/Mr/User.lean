import Verif.Mr.Model

/-!
# Who changes the user's repository
-/

namespace Verif.Mr

open Verif.Symlinks (Node Mode)

variable {E : Env} {C : Conf}

/-- No step changes the user's repository. -/
def Quiet {α : Type} : Task α → Prop
  | .ret _ => True
  | .fail => True
  | .act f k => (∀ w, (f w).user = w.user) ∧ ∀ w, Quiet (k w)
  | .ask _ k => ∀ a, Quiet (k a)

theorem quiet_run {α : Type} {p : Task α} (h : Quiet p) (O : Query → Answer) (w : World) : (run O p w).2.1.user = w.user := by
  induction p generalizing w with
  | ret a => rfl
  | fail => rfl
  | act f k ih => exact (ih w (h.2 w) (f w)).trans (h.1 w)
  | ask q k ih => exact ih (O q) (h (O q)) w

theorem quiet_ret {α : Type} (a : α) : Quiet (.ret a) := trivial

theorem quiet_fail {α : Type} : Quiet (.fail : Task α) := trivial

theorem quiet_bind {α β : Type} {p : Task α} {g : α → Task β} (h : Quiet p) (hg : ∀ a, Quiet (g a)) : Quiet (p >>= g) := by
  show Quiet (p.bind g)
  induction p with
  | ret a => exact hg a
  | fail => trivial
  | act f k ih => exact ⟨h.1, fun w => ih w (h.2 w)⟩
  | ask q k ih => exact fun a => ih a (h a)

theorem quiet_look {α : Type} (f : World → α) : Quiet (look f) := ⟨fun _ => rfl, fun _ => trivial⟩

theorem quiet_need {α : Type} (f : World → Option α) : Quiet (need f) := ⟨fun _ => rfl, fun w => by
  simp only
  cases f w <;> trivial⟩

theorem quiet_change {f : World → World} (h : ∀ w, (f w).user = w.user) : Quiet (change f) := ⟨h, fun _ => trivial⟩

theorem quiet_tryTo {f : World → Option World} (h : ∀ w v, f w = some v → v.user = w.user) : Quiet (tryTo f) := ⟨fun w => by
  simp only
  cases hf : f w with
  | none => rfl
  | some v => exact h w v hf, fun w => by
  simp only
  cases f w <;> trivial⟩

theorem quiet_question (q : Query) : Quiet (question q) := fun _ => trivial

theorem keep_user {t : Str} (w v : World) (h : w.keep E t = some v) : v.user = w.user := by
  unfold World.keep at h
  cases hr : w.young.keep E t with
  | none => simp [hr] at h
  | some r =>
    simp only [hr, Option.bind_some, Option.some.injEq] at h
    subst h
    rfl

theorem keepOld_user {i : Nat} {t : Str} (w v : World) (h : w.keepOld E i t = some v) : v.user = w.user := by
  unfold World.keepOld at h
  split at h
  · cases h
  · rename_i g _
    cases hr : g.keep E t with
    | none => simp [hr] at h
    | some r =>
      simp only [hr, Option.bind_some, Option.some.injEq] at h
      subst h
      rfl

theorem fetchOld_user {i : Nat} {t : Str} (w v : World) (h : w.fetchOld E i t = some v) : v.user = w.user := by
  unfold World.fetchOld at h
  split at h
  · cases h
  · rename_i g _
    cases hr : findTree E t g.tags with
    | none => simp [hr] at h
    | some r =>
      simp only [hr, Option.bind_some, Option.some.injEq] at h
      subst h
      rfl

theorem keepCommit_user {h' : Str} (w v : World) (h : w.keepCommit E false h' = some v) : v.user = w.user := by
  unfold World.keepCommit at h
  cases hr : (w.repo false).keep E h' with
  | none => simp [hr] at h
  | some r =>
    simp only [hr, Option.bind_some, Option.some.injEq] at h
    subst h
    rfl

theorem keepCommitOld_user {i : Nat} {t : Str} (w v : World) (h : w.keepCommitOld E i t = some v) : v.user = w.user := by
  unfold World.keepCommitOld at h
  split at h
  · cases h
  · rename_i g _
    cases hr : g.repo.keep E t with
    | none => simp [hr] at h
    | some r =>
      simp only [hr, Option.bind_some, Option.some.injEq] at h
      subst h
      rfl

theorem fetchCommitOld_user {i : Nat} {t : Str} (w v : World) (h : w.fetchCommitOld E false i t = some v) : v.user = w.user := by
  unfold World.fetchCommitOld at h
  split at h
  · cases h
  · split at h
    · simp only [Option.some.injEq] at h
      subst h
      rfl
    · cases h

theorem stores_user (l : List Str) (w : World) : (l.foldl (fun w c => w.store c) w).user = w.user := by
  induction l generalizing w with
  | nil => rfl
  | cons c l ih => exact ih (w.store c)

/-- Go through a program. -/
syntax "quiet" "[" term,* "]" : tactic

macro_rules
  | `(tactic| quiet [$ts,*]) => do
    let mut alts : Array (Lean.TSyntax `tactic) := #[]
    for t in ts.getElems do
      alts := alts.push (← `(tactic| exact $t))
    let rest ← `(tactic| first
      | exact quiet_ret _
      | exact quiet_fail
      | exact quiet_look _
      | exact quiet_need _
      | exact quiet_question _
      | exact quiet_tryTo keep_user
      | exact quiet_tryTo keepOld_user
      | exact quiet_tryTo fetchOld_user
      | exact quiet_change fun w => stores_user _ w
      | exact quiet_change fun _ => rfl
      | refine quiet_bind ?_ fun _ => ?_
      | split
      | simp only)
    let mut all := rest
    for a in alts.reverse do
      all ← `(tactic| first | $a:tactic | $all:tactic)
    `(tactic| repeat' $all:tactic)

theorem downloadFrom_quiet : ∀ l : List Str, Quiet (downloadFrom l)
  | [] => trivial
  | u :: us => by
    unfold downloadFrom
    quiet [downloadFrom_quiet us]

theorem fetch_quiet (a : Archive) : Quiet (fetch E C a) := by
  unfold fetch
  quiet [downloadFrom_quiet _]

theorem fromRemote_quiet (a : Archive) : Quiet (fromRemote E C a) := by
  unfold fromRemote
  quiet [fetch_quiet a]

theorem fromServe_quiet (a : Archive) : Quiet (fromServe E C a) := by
  unfold fromServe
  quiet [fromRemote_quiet a]

theorem fromDistfiles_quiet (x : Str) : Quiet (fromDistfiles x) := by
  unfold fromDistfiles
  quiet []

theorem ensure_quiet (a : Archive) : Quiet (ensure E C a) := by
  unfold ensure
  quiet [fromServe_quiet a, fromDistfiles_quiet _]

theorem uploadAbsent_quiet (t : Str) : Quiet (uploadAbsent t) := by
  unfold uploadAbsent
  quiet []

theorem serveCan_quiet (k : ArchiveRepo) (t : Str) : Quiet (serveCan k t) := by
  unfold serveCan
  quiet []

theorem asAbsent_quiet (k : ArchiveRepo) (t : Str) (hit : Bool) : Quiet (asAbsent C k t hit) := by
  unfold asAbsent
  quiet [uploadAbsent_quiet t, serveCan_quiet k t]

theorem setRoot_quiet (k : ArchiveRepo) (t : Str) (hit absent : Bool) : Quiet (setRoot C k t hit absent) := by
  unfold setRoot
  quiet [asAbsent_quiet k t hit]

theorem resolveContent_quiet (k : ArchiveRepo) (t : Str) (hit absent : Bool) : Quiet (resolveContent E C k t hit absent) := by
  unfold resolveContent
  quiet [setRoot_quiet k _ hit absent]

theorem subtree_quiet (t : Str) (sub : List Str) : Quiet (subtree E t sub) := by
  unfold subtree
  quiet []

theorem importDir_quiet (es : List (Str × Node)) : Quiet (importDir E es) := by
  unfold importDir
  quiet []

theorem extractImport_quiet (k : ArchiveRepo) (c : Str) (absent : Bool) : Quiet (extractImport E C k c absent) := by
  unfold extractImport
  quiet [importDir_quiet _, subtree_quiet _ _, resolveContent_quiet k _ _ _]

theorem locallyKnown_quiet (k : ArchiveRepo) : Quiet (locallyKnown E C k) := by
  unfold locallyKnown
  quiet [subtree_quiet _ _, resolveContent_quiet k _ _ _]

theorem knownOlder_quiet (k : ArchiveRepo) (i : Nat) (t : Str) : Quiet (knownOlder E C k i t) := by
  unfold knownOlder
  quiet [locallyKnown_quiet k]

theorem askArchive_quiet (k : ArchiveRepo) : Quiet (askArchive C k) := by
  unfold askArchive
  quiet []

theorem absentArchive_quiet (k : ArchiveRepo) : Quiet (absentArchive E C k) := by
  unfold absentArchive
  quiet [askArchive_quiet k, extractImport_quiet k _ _, fromDistfiles_quiet _]

theorem archive_quiet (k : ArchiveRepo) : Quiet (archive E C k) := by
  unfold archive
  quiet [locallyKnown_quiet k, knownOlder_quiet k _ _, absentArchive_quiet k, ensure_quiet _, extractImport_quiet k _ _]

theorem absentForeign_quiet (k : ForeignFile) : Quiet (absentForeign E C k) := by
  unfold absentForeign
  quiet []

theorem foreign_quiet (k : ForeignFile) : Quiet (foreign E C k) := by
  unfold foreign
  quiet [absentForeign_quiet k, ensure_quiet _, importDir_quiet _]

theorem link_quiet : ∀ l : List (Str × Str), Quiet (link E l)
  | [] => trivial
  | (x, h) :: l => by
    unfold link
    quiet [link_quiet l]

theorem importDist_quiet (l : List (Str × Str)) : Quiet (importDist E l) := by
  unfold importDist
  quiet [link_quiet l, importDir_quiet _]

theorem ensureAll_quiet : ∀ l : List Archive, Quiet (ensureAll E C l)
  | [] => trivial
  | a :: l => by
    unfold ensureAll
    quiet [ensure_quiet a, ensureAll_quiet l]

theorem absentKnown_quiet (l : List (Str × Str)) (t : Str) : Quiet (absentKnown C l t) := by
  unfold absentKnown
  quiet [uploadAbsent_quiet t]

theorem serveTakes_quiet (t : Str) : Quiet (serveTakes t) := by
  unfold serveTakes
  quiet []

theorem viaRemote_quiet (t : Str) : Quiet (viaRemote C t) := by
  unfold viaRemote
  quiet [serveTakes_quiet t]

theorem absentDist_quiet (l : List (Str × Str)) : Quiet (absentDist E C l) := by
  unfold absentDist
  quiet [viaRemote_quiet _]

theorem askDistdir_quiet (l : List (Str × Str)) : Quiet (askDistdir E C l) := by
  unfold askDistdir
  quiet []

theorem presentDist_quiet (k : Distdir) : Quiet (presentDist E C k) := by
  unfold presentDist
  quiet [askDistdir_quiet _, ensureAll_quiet _, importDist_quiet _]

theorem distdir_quiet (k : Distdir) : Quiet (distdir E C k) := by
  unfold distdir
  quiet [absentKnown_quiet _ _, absentDist_quiet _, presentDist_quiet k]

theorem moveTree_quiet (n : Node) : Quiet (moveTree E n) := by
  unfold moveTree
  quiet [importDir_quiet _]

theorem takeTree_quiet (t : Str) (i : Nat) : Quiet (takeTree E t i) := by
  unfold takeTree
  quiet []

theorem commandTree_quiet (k : TreeRepo) : Quiet (commandTree E k) := by
  unfold commandTree
  quiet [importDir_quiet _]

theorem remoteTree_quiet (k : TreeRepo) : Quiet (remoteTree E C k) := by
  unfold remoteTree
  quiet [moveTree_quiet _, commandTree_quiet k]

theorem serveTree_quiet (k : TreeRepo) : Quiet (serveTree E C k) := by
  unfold serveTree
  quiet [moveTree_quiet _, remoteTree_quiet k]

theorem fetchTree_quiet (k : TreeRepo) : Quiet (fetchTree E C k) := by
  unfold fetchTree
  quiet [moveTree_quiet _, takeTree_quiet _ _, serveTree_quiet k]

theorem ensureTree_quiet (k : TreeRepo) : Quiet (ensureTree E C k) := by
  unfold ensureTree
  quiet [fetchTree_quiet k]

theorem provideTree_quiet (k : TreeRepo) : Quiet (provideTree E k) := by
  unfold provideTree
  quiet [moveTree_quiet _, uploadAbsent_quiet _]

theorem absentTree_quiet (k : TreeRepo) : Quiet (absentTree E C k) := by
  unfold absentTree
  quiet [serveTakes_quiet _, provideTree_quiet k]

theorem gitTree_quiet (k : TreeRepo) : Quiet (gitTree E C k) := by
  unfold gitTree
  quiet [absentTree_quiet k, ensureTree_quiet k]

theorem offer_quiet (k : PathRepo) (r : Root) : Quiet (offer C k r) := by
  unfold offer
  quiet []

theorem resolvePath_quiet (k : PathRepo) (user : Bool) (t : Str) : Quiet (resolvePath E C k user t) := by
  unfold resolvePath
  quiet [offer_quiet k _]

theorem commitTree_quiet (user : Bool) (h : Str) (sub : List Str) : Quiet (commitTree E user h sub) := by
  unfold commitTree
  quiet []

theorem path_quiet (k : PathRepo) : Quiet (path E C k) := by
  unfold path
  quiet [commitTree_quiet _ _ _, importDir_quiet _, resolvePath_quiet k _ _]

/-! ## Commits, if the user's repository is not to be used -/

theorem tagAndSet_quiet (k : CommitRepo) (h : k.checkout = false) : Quiet (tagAndSet E k) := by
  unfold tagAndSet
  rw [h]
  quiet [quiet_tryTo keepCommit_user, commitTree_quiet _ _ _]

theorem takeOlder_quiet (k : CommitRepo) (h : k.checkout = false) (i : Nat) : Quiet (takeOlder E k i) := by
  unfold takeOlder
  rw [h]
  quiet [quiet_tryTo keepCommitOld_user, quiet_tryTo fetchCommitOld_user, tagAndSet_quiet k h]

theorem fetchFrom_quiet (branch : Str) : ∀ l : List Str, Quiet (fetchFrom E false branch l)
  | [] => trivial
  | u :: us => by
    unfold fetchFrom
    quiet [fetchFrom_quiet branch us]

theorem setFetched_quiet (k : CommitRepo) (h : k.checkout = false) : Quiet (setFetched E k) := by
  unfold setFetched
  quiet [commitTree_quiet _ _ _, tagAndSet_quiet k h]

theorem networkFetch_quiet (k : CommitRepo) (h : k.checkout = false) : Quiet (networkFetch E C k) := by
  unfold networkFetch
  rw [h]
  quiet [fetchFrom_quiet _ _, setFetched_quiet k h]

theorem writeCommit_quiet (k : CommitRepo) (t : Str) : Quiet (writeCommit E k t) := by
  unfold writeCommit
  quiet [subtree_quiet _ _]

theorem commitRemote_quiet (k : CommitRepo) (h : k.checkout = false) (t : Str) : Quiet (commitRemote E C k t) := by
  unfold commitRemote
  quiet [importDir_quiet _, writeCommit_quiet k t, networkFetch_quiet k h]

theorem commitElsewhere_quiet (k : CommitRepo) (h : k.checkout = false) (t : Str) : Quiet (commitElsewhere E C k t) := by
  unfold commitElsewhere
  quiet [commitRemote_quiet k h t]

theorem commitServed_quiet (k : CommitRepo) (h : k.checkout = false) (t : Str) : Quiet (commitServed E C k t) := by
  unfold commitServed
  quiet [commitElsewhere_quiet k h t, writeCommit_quiet k t]

theorem commitUnknown_quiet (k : CommitRepo) (h : k.checkout = false) : Quiet (commitUnknown E C k) := by
  unfold commitUnknown
  quiet [commitServed_quiet k h _, networkFetch_quiet k h]

theorem commitAbsent_quiet (k : CommitRepo) (t : Str) : Quiet (commitAbsent C k t) := by
  unfold commitAbsent
  quiet [uploadAbsent_quiet t]

theorem setKnown_quiet (k : CommitRepo) (t : Str) (r : Root) : Quiet (setKnown C k t r) := by
  unfold setKnown
  quiet [commitAbsent_quiet k t]

theorem commit_quiet (k : CommitRepo) (h : k.checkout = false) : Quiet (commit E C k) := by
  unfold commit
  quiet [commitTree_quiet _ _ _, setKnown_quiet k _ _, subtree_quiet _ _, takeOlder_quiet k h _, commitUnknown_quiet k h]

theorem setup_quiet (key : Key) (h : ∀ k, key = .commit k → k.checkout = false) : Quiet (setup E C key) := by
  cases key with
  | archive k => exact archive_quiet k
  | foreign k => exact foreign_quiet k
  | distdir k => exact distdir_quiet k
  | commit k => exact commit_quiet k (h k rfl)
  | tree k => exact gitTree_quiet k
  | path k => exact path_quiet k

end Verif.Mr
