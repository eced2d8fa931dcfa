import Verif.Mr.Run
import Verif.Symlinks.Props

/-!
# An example: hashes, archives, and answers
-/

namespace Verif.Mr.Ex

open Verif.Symlinks (Node Mode Val)
open Verif.Dig (ObjectType)

/-- A way to write strings one after the other. -/
def code : Str → Str
  | [] => ['z']
  | c :: t => 'a' :: c :: code t

theorem code_inj : ∀ s s' u u' : Str, code s ++ u = code s' ++ u' → s = s' ∧ u = u'
  | [], [], u, u', h => ⟨rfl, by simpa [code] using h⟩
  | [], c :: t, u, u', h => by simp [code] at h
  | c :: t, [], u, u', h => by simp [code] at h
  | c :: t, d :: t', u, u', h => by
    simp only [code, List.cons_append, List.cons.injEq, true_and] at h
    obtain ⟨h1, h2⟩ := h
    obtain ⟨h3, h4⟩ := code_inj t t' u u' h2
    exact ⟨by rw [h1, h3], h4⟩

/-- A letter for each type. -/
def letter : ObjectType → Char
  | .file => 'f'
  | .executable => 'x'
  | .tree => 't'
  | .symlink => 'l'

theorem letter_inj (a b : ObjectType) (h : letter a = letter b) : a = b := by cases a <;> cases b <;> first | rfl | simp [letter] at h

/-- The entries of a tree. -/
def codes : List (Str × ObjectType × Str) → Str
  | [] => []
  | (x, y, h) :: l => letter y :: (code x ++ (code h ++ codes l))

theorem codes_inj : ∀ l l' : List (Str × ObjectType × Str), codes l = codes l' → l = l'
  | [], [], _ => rfl
  | [], (x, y, h) :: t, e => by simp [codes] at e
  | (x, y, h) :: t, [], e => by simp [codes] at e
  | (x, y, h) :: t, (x', y', h') :: t', e => by
    simp only [codes, List.cons.injEq] at e
    obtain ⟨e1, e2⟩ := e
    obtain ⟨e3, e4⟩ := code_inj _ _ _ _ e2
    obtain ⟨e5, e6⟩ := code_inj _ _ _ _ e4
    rw [letter_inj _ _ e1, e3, e5, codes_inj t t' e6]

/-- Lists of files. -/
def lists : List (Str × Str × Bool) → Str
  | [] => []
  | (x, h, b) :: l => (if b = true then 'x' else 'f') :: (code x ++ (code h ++ lists l))

theorem lists_inj : ∀ l l' : List (Str × Str × Bool), lists l = lists l' → l = l'
  | [], [], _ => rfl
  | [], (x, y, h) :: t, e => by simp [lists] at e
  | (x, y, h) :: t, [], e => by simp [lists] at e
  | (x, h, b) :: t, (x', h', b') :: t', e => by
    simp only [lists, List.cons.injEq] at e
    obtain ⟨e1, e2⟩ := e
    obtain ⟨e3, e4⟩ := code_inj _ _ _ _ e2
    obtain ⟨e5, e6⟩ := code_inj _ _ _ _ e4
    have : b = b' := by cases b <;> cases b' <;> simp at e1 <;> rfl
    rw [this, e3, e5, lists_inj t t' e6]

/-- Hashes; every archive has a directory with a file, and a link to the directory; there are two commits; there is a path
in a repository, and another one. -/
def env : Env where
  blobId := fun c => 'b' :: c
  treeId := fun l => 't' :: codes l
  listId := lists
  sha256 := fun c => 's' :: c
  sha512 := fun c => 'S' :: c
  extract := fun ty c =>
    if ty = ['t'] then some [(['d'], .tree [(['f'], .file c false)]), (['l'], .link ['d'])] else none
  commit := fun h => if h = ['h'] then some [(['d'], .tree [(['f'], .file ['u'] false)]), (['g'], .file ['v'] true)]
    else if h = ['i'] then some [(['d'], .tree [])] else none
  heads := fun p => if p = ['p'] then [(['h'], [['d']])] else []
  dirs := fun p => if p = ['q'] then [.tree [(['f'], .file ['u'] false), (['l'], .link ['f'])]] else []
  tidy := true

theorem env_good : env.Good where
  blob := fun a b h => by simpa [env] using h
  tree := fun a b h => codes_inj a b (by simpa [env] using h)
  list := fun a b h => lists_inj a b h
  apart := fun a b h => by simp [env] at h

/-- One that has all downloads, the file `c` for distribution, and two commits in all branches; commands leave a directory. -/
def answers : Query → Answer
  | .download u => .text u
  | .distfiles x => if x = ['c'] then .texts [['c']] else .no
  | .fetchRepo _ _ => .texts [['h'], ['i']]
  | .whereIs p => if p = ['p'] then .texts [['h'], ['d']] else if p = ['q'] then .node (.tree [(['f'], .file ['u'] false), (['l'], .link ['f'])]) else .no
  | .runCommand _ => .node (.tree [(['d'], .tree [(['f'], .file ['u'] false)])])
  | .resolve m n =>
    match Symlinks.resolve n m (fun _ => true) 8 Path.dot with
    | .ok r => .node r.node
    | .error _ => .error
  | _ => .no

theorem answers_honest (served : Str → Prop) (q : Query) : Honest env served q (answers q) := by
  cases q with
  | resolve m n =>
    simp only [answers]
    split
    · rename_i r hr
      exact ⟨fun _ => true, r.path, Symlinks.C35_function n m _ 8 _ r hr⟩
    · trivial
  | distfiles x => simp only [answers]; split <;> trivial
  | whereIs p =>
    simp only [answers]
    split
    · rename_i h; simp [Honest, env, h]
    · split
      · rename_i h; simp [Honest, env, h]
      · trivial
  | _ => trivial

/-- No serve endpoint, no remote. -/
def conf : Conf := ⟨false, false, false, false, fun _ => [], fun l => l⟩

/-- The archive with content `u`, found at `u`. -/
def arch : Archive := ⟨['b', 'u'], none, ['u'], [], none, none⟩

/-- The directory `d` of it, with links resolved. -/
def repo : ArchiveRepo := ⟨arch, ['t'], [['d']], some .completely, false⟩

/-- All of it. -/
def whole : ArchiveRepo := ⟨arch, ['t'], [], some .completely, false⟩

/-- The archive as a file. -/
def file : ForeignFile := ⟨arch, ['n'], true, false⟩

/-- A distdir with it and another archive. -/
def dist : Distdir := ⟨[arch, ⟨['b', 'v'], none, ['v'], [], none, none⟩], false⟩

/-- The directory `d` of a commit. -/
def com : CommitRepo := ⟨['h'], ['u'], ['m'], [['d']], [], false, false⟩

/-- A serve endpoint that knows the commit `h`, and a remote that has its directory. -/
def serving (E : Env) : Query → Answer
  | .serveCommit h sub _ =>
    match E.commit h with
    | none => .no
    | some es =>
      match (Node.tree es).find sub with
      | none => .error
      | some n => .text (gid E n)
  | .remoteDir _ => .node (.tree [(['d'], .tree [(['f'], .file ['u'] false)]), (['g'], .file ['v'] true)])
  | _ => .no

theorem serving_honest (E : Env) (q : Query) : Honest E (fun _ => True) q (serving E q) := by
  cases q with
  | serveCommit h sub b =>
    simp only [serving]
    cases hc : E.commit h with
    | none => trivial
    | some es =>
      simp only
      cases hf : (Node.tree es).find sub with
      | none => trivial
      | some n => exact ⟨⟨n, ⟨es, hc, hf⟩, rfl⟩, trivial⟩
  | _ => trivial

/-- With a serve endpoint and a remote. -/
def confServe : Conf := ⟨true, true, false, false, fun _ => [], fun l => l⟩

/-- After setting up `key`. -/
def after (key : Key) (w : World) : World := (run answers (setup env conf key) w).2.1

/-- A pool after setting up `key` from a fresh start, with another task for it started. -/
theorem possible (served : Str → Prop) (key : Key) (r : Root) (h : (run answers (setup env conf key) (fresh 1)).2.2 = some r) :
    Possible env conf served 1 ⟨after key (fresh 1), [(key, .ret r)]⟩ :=
  reach_run answers (answers_honest served) key _ [] (.step .start (.spawn _ _ key)) h

end Verif.Mr.Ex
