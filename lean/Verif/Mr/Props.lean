import Verif.Mr.Example

/-!
# C87: roots from archives are determined by their description

A pool consists of the storage and of the tasks working on it, in any number of processes; tasks may be stopped at any point, generations
may be rotated or dropped when no task is running, and the content of the CAS may be lost then. Finished tasks, with their result, stay in
the pool until they are removed; so what is said about them holds as long as nobody takes the storage for themselves.
-/

namespace Verif.Mr

open Verif.Symlinks (Node Mode Val)

/-- The root set up is the git tree of what the description stands for: of the archive with the given hash, extracted, the part at the
given place, with symbolic links resolved if asked for. It does not matter where the archive came from, what was set up before, what is
set up at the same time, and which tasks were stopped. A root that is not absent is in the git cache completely, and kept by a tag. A root
is absent only if this was asked for; if there is a serve endpoint, this has the tree. -/
theorem C87_described_partial (E : Env) (C : Conf) (served : Str → Prop) (i : Nat) (c : Pool World Query Answer Key Root) (H : E.Good)
    (h : Possible E C served i c) (k : ArchiveRepo) (r : Root) (hr : (Key.archive k, Prog.ret r) ∈ c.tasks) :
    ∃ n, Contents E k n ∧
      (k.absent = true ∧ C.fetchAbsent = false → r = .absent (gid E n) ∧ (C.serve = true → served (gid E n))) ∧
      (¬ (k.absent = true ∧ C.fetchAbsent = false) → r = .present (gid E n) ∧
        ∃ top ∈ c.world.young.tags, n ∈ below top ∧ ∀ m ∈ below top, m ∈ c.world.young.objs) := by
  obtain ⟨hi, hv⟩ := possible_ok H h
  obtain ⟨n, h1, h2⟩ : ArchiveRight E C served k r c.world := hv _ hr c.world (Grows.rfl' _) hi
  refine ⟨n, h1, fun ha => ?_, fun ha => ?_⟩
  · rw [if_pos ha] at h2
    exact h2
  · rw [if_neg ha] at h2
    exact ⟨h2.1, h2.2.1⟩

example : ∃ r n, Possible Ex.env Ex.conf (fun _ => False) 1 ⟨Ex.after (.archive Ex.whole) (fresh 1), [(.archive Ex.whole, .ret r)]⟩ ∧
    r = .present (gid Ex.env n) ∧ isTree n = true ∧ n.find [['l'], ['f']] = some (.file ['u'] false) := by
  refine ⟨_, .tree [(['d'], .tree [(['f'], .file ['u'] false)]), (['l'], .tree [(['f'], .file ['u'] false)])],
    Ex.possible _ _ (.present (gid Ex.env (.tree [(['d'], .tree [(['f'], .file ['u'] false)]), (['l'], .tree [(['f'], .file ['u'] false)])])))
      (by decide +kernel), rfl, rfl, rfl⟩

/-- If symbolic links are to be resolved, or what is at the given place is a directory, the root is a directory. -/
theorem C87_directory_partial (E : Env) (C : Conf) (served : Str → Prop) (i : Nat) (c : Pool World Query Answer Key Root) (H : E.Good)
    (h : Possible E C served i c) (k : ArchiveRepo) (t : Str) (hr : (Key.archive k, Prog.ret (.present t)) ∈ c.tasks)
    (hd : k.special ≠ none ∨ ∀ x es, E.blobId x = k.archive.hash → E.extract k.type x = some es →
      ∃ fs, (Node.tree es).find k.subdir = some (.tree fs)) :
    ∃ fs, t = gid E (.tree fs) ∧ Node.tree fs ∈ c.world.young.objs := by
  obtain ⟨n, hc, ha, hp⟩ := C87_described_partial E C served i c H h k _ hr
  have hno : ¬ (k.absent = true ∧ C.fetchAbsent = false) := fun h => by cases (ha h).1
  obtain ⟨h1, top, h2, h3, h4⟩ := hp hno
  cases h1
  have ht : isTree n = true := by
    obtain ⟨x, es, n₀, a1, a2, a3, a4⟩ := hc
    cases hs : k.special with
    | none =>
      simp only [hs] at a4
      subst a4
      rcases hd with hd | hd
      · exact absurd hs hd
      · obtain ⟨fs, hfs⟩ := hd x es a1 a2
        rw [hfs] at a3
        cases a3
        rfl
    | some m =>
      simp only [hs] at a4
      exact a4.2.1
  obtain ⟨fs, rfl⟩ := (isTree_iff n).1 ht
  exact ⟨fs, rfl, h4 _ h3⟩

example : ∃ t, (Key.archive Ex.repo, Prog.ret (.present t)) ∈
    (⟨Ex.after (.archive Ex.repo) (fresh 1), [(.archive Ex.repo, .ret (.present t))]⟩ : Pool World Query Answer Key Root).tasks ∧
    Possible Ex.env Ex.conf (fun _ => False) 1 ⟨Ex.after (.archive Ex.repo) (fresh 1), [(.archive Ex.repo, .ret (.present t))]⟩ ∧
    t = gid Ex.env (.tree [(['f'], .file ['u'] false)]) :=
  ⟨_, List.mem_cons_self, Ex.possible _ _ _ (by decide +kernel), rfl⟩

/-- Roots for the same description have the same tree, on all machines and however they are configured, no matter where the archive is
taken from: locations, mirrors, checksums, and names of distribution files play no role. (If links are to be resolved, there must be only
one way to do this, see C35.) -/
theorem C87_same (E : Env) (C C' : Conf) (served served' : Str → Prop) (i i' : Nat) (c c' : Pool World Query Answer Key Root) (H : E.Good)
    (h : Possible E C served i c) (h' : Possible E C' served' i' c') (k k' : ArchiveRepo) (r r' : Root)
    (hr : (Key.archive k, Prog.ret r) ∈ c.tasks) (hr' : (Key.archive k', Prog.ret r') ∈ c'.tasks)
    (h1 : k.archive.hash = k'.archive.hash) (h2 : k.type = k'.type) (h3 : k.subdir = k'.subdir) (h4 : k.special = k'.special)
    (hu : ∀ m n n₁ n₂, k.special = some m → Resolves m n n₁ → Resolves m n n₂ → n₁ = n₂) : r.tree = r'.tree := by
  obtain ⟨n, hc, ha, hp⟩ := C87_described_partial E C served i c H h k r hr
  obtain ⟨n', hc', ha', hp'⟩ := C87_described_partial E C' served' i' c' H h' k' r' hr'
  have e : r.tree = gid E n := by
    by_cases ht : k.absent = true ∧ C.fetchAbsent = false
    · rw [(ha ht).1]; rfl
    · rw [(hp ht).1]; rfl
  have e' : r'.tree = gid E n' := by
    by_cases ht : k'.absent = true ∧ C'.fetchAbsent = false
    · rw [(ha' ht).1]; rfl
    · rw [(hp' ht).1]; rfl
  rw [e, e']
  obtain ⟨x, es, n₀, a1, a2, a3, a4⟩ := hc
  obtain ⟨x', es', n₀', b1, b2, b3, b4⟩ := hc'
  have := H.blob _ _ (a1.trans (h1.trans b1.symm))
  subst this
  rw [← h2, a2] at b2
  cases b2
  rw [← h3, a3] at b3
  cases b3
  rw [← h4] at b4
  cases hs : k.special with
  | none =>
    simp only [hs] at a4 b4
    rw [a4, b4]
  | some m =>
    simp only [hs] at a4 b4
    rw [hu m n₀ n n' hs a4.2.2 b4.2.2]

example : ∃ r r', Possible Ex.env Ex.conf (fun _ => False) 1 ⟨Ex.after (.archive { Ex.repo with special := none }) (fresh 1),
      [(.archive { Ex.repo with special := none }, .ret r)]⟩ ∧
    Possible Ex.env Ex.conf (fun _ => False) 1 ⟨Ex.after (.archive { Ex.repo with special := none, absent := true, archive :=
      { Ex.arch with url := ['c'], mirrors := [['u']], distfile := some ['u'] } }) (Ex.after (.archive Ex.whole) (fresh 1)),
      [(.archive { Ex.repo with special := none, absent := true, archive :=
        { Ex.arch with url := ['c'], mirrors := [['u']], distfile := some ['u'] } }, .ret r'),
        (.archive Ex.whole, .ret (.present (gid Ex.env (.tree [(['d'], .tree [(['f'], .file ['u'] false)]),
          (['l'], .tree [(['f'], .file ['u'] false)])]))))]⟩ ∧ r ≠ r' ∧ r.tree = r'.tree := by
  refine ⟨.present (gid Ex.env (.tree [(['f'], .file ['u'] false)])), .absent (gid Ex.env (.tree [(['f'], .file ['u'] false)])),
    Ex.possible _ _ _ (by decide +kernel), ?_, by decide +kernel, rfl⟩
  exact reach_run Ex.answers (Ex.answers_honest _) _ _ _
    (.step (Ex.possible _ (.archive Ex.whole) _ (by decide +kernel)) (.spawn _ _ _)) (by decide +kernel)

/-- For links to be resolved completely, the condition of `C87_same` holds under the conditions of C35, if the tree has proper names and
links that are harmless. -/
theorem C87_same_resolved_partial (n n₁ n₂ : Node) (hp : Symlinks.Proper n) (ht : isTree n = true)
    (hl : ∀ x, Symlinks.HasLink n x → Symlinks.Tame x) (h1 : Resolves .completely n n₁) (h2 : Resolves .completely n n₂) : n₁ = n₂ := by
  obtain ⟨f1, p1, v1⟩ := h1
  obtain ⟨f2, p2, v2⟩ := h2
  have hn : n.isLink = false := by
    obtain ⟨es, rfl⟩ := (isTree_iff n).1 ht
    rfl
  exact Symlinks.C35_unique_partial n f1 f2 _ _ hp hn hl v1 v2

example : Resolves .completely Symlinks.ex Symlinks.exr ∧ isTree Symlinks.ex = true ∧ Symlinks.Proper Symlinks.ex :=
  ⟨⟨_, _, Symlinks.resolve_val Symlinks.ex_resolved⟩, rfl, Symlinks.ex_proper⟩

/-- What is remembered is right in all generations at all times, also after tasks have been stopped half way, and its tree is there. -/
theorem C87_remembered (E : Env) (C : Conf) (served : Str → Prop) (i : Nat) (c : Pool World Query Answer Key Root) (H : E.Good)
    (h : Possible E C served i c) (g : Gen) (hg : g ∈ c.world.young :: c.world.old) (ty hash t : Str) (hm : ((ty, hash), t) ∈ g.arch) :
    ∃ x es, E.blobId x = hash ∧ E.extract ty x = some es ∧ t = gid E (.tree es) ∧ ∀ n ∈ below (.tree es), n ∈ g.objs := by
  obtain ⟨hi, _⟩ := possible_ok H h
  have ok : GenOk E g := by
    rcases List.mem_cons.1 hg with rfl | hg
    · exact hi.young
    · exact hi.old g hg
  obtain ⟨x, es, h1, h2, h3, h4⟩ := ok.arch ty hash t hm
  exact ⟨x, es, h1, h2, h3, h4.there⟩

example : ∃ c t, Possible Ex.env Ex.conf (fun _ => False) 1 c ∧ ∃ g ∈ c.world.old, ((['t'], ['b', 'u']), t) ∈ g.arch := by
  refine ⟨⟨(Ex.after (.archive Ex.repo) (fresh 1)).rotate, []⟩, _, .step (.step (Ex.possible _ (.archive Ex.repo)
    (.present (gid Ex.env (.tree [(['f'], .file ['u'] false)]))) (by decide +kernel)) (.gone _ [] [] _)) (.alone _ _ ?_), _,
    List.mem_cons_self, List.mem_cons_self⟩
  exact .move _ Gen.empty _ fun g hg => by
    rcases List.mem_cons.1 hg with rfl | hg
    · exact .inl rfl
    · exact .inr (List.dropLast_subset _ hg)

/-- It may be that the place given is that of a file. Then a root is reported that is none: no tree has the identifier reported. -/
theorem C87_violation_file : ∃ (k : ArchiveRepo) (t : Str) (c : Pool World Query Answer Key Root),
    Possible Ex.env Ex.conf (fun _ => False) 1 c ∧ (Key.archive k, Prog.ret (.present t)) ∈ c.tasks ∧
    ∀ es, gid Ex.env (.tree es) ≠ t := by
  refine ⟨{ Ex.repo with special := none, subdir := [['d'], ['f']] }, ['b', 'u'], _,
    Ex.possible _ (.archive { Ex.repo with special := none, subdir := [['d'], ['f']] }) _ (by decide +kernel), List.mem_cons_self,
    fun es h => ?_⟩
  simp [gid, Ex.env] at h

/-- What is downloaded goes into the storage only if it has the checksums given; and the archive is taken to be there only if it is. -/
theorem C87_checked (E : Env) (C : Conf) (O : Query → Answer) (a : Archive) (w : World) :
    ((run O (fetch E C a) w).2.1 ≠ w → ∃ x, (∃ u ∈ locations C a, O (.download u) = .text x) ∧ (∀ s, a.sha256 = some s → E.sha256 x = s) ∧
      (∀ s, a.sha512 = some s → E.sha512 x = s) ∧ (run O (fetch E C a) w).2.1 = w.store x) ∧
    ((run O (fetch E C a) w).2.2 = some () → ∃ x ∈ (run O (fetch E C a) w).2.1.cas, E.blobId x = a.hash) := by
  rcases run_fetch (E := E) (C := C) (O := O) a w with h | ⟨x, h1, h2, h3, h4, h5⟩
  · rw [h]
    exact ⟨fun h => absurd rfl h, fun h => by cases h⟩
  · refine ⟨fun _ => ⟨x, h1, h2, h3, h4⟩, fun h => ?_⟩
    obtain ⟨y, hy⟩ := Option.isSome_iff_exists.1 (h5.1 h)
    rw [h4]
    unfold World.content at hy
    exact ⟨y, List.mem_of_find?_eq_some hy, by simpa using List.find?_some hy⟩

example : (run Ex.answers (fetch Ex.env Ex.conf { Ex.arch with sha256 := some ['s', 'u'] }) (fresh 1)).2.2 = some () ∧
    (run Ex.answers (fetch Ex.env Ex.conf { Ex.arch with sha256 := some ['s', 'v'] }) (fresh 1)).2.2 = none := by decide +kernel

/-- An archive that is taken from a remote with the compatible protocol is remembered to have there the hash it has here, instead of the one
it was fetched by. -/
theorem C77_violation_recorded : ∃ (C : Conf) (O : Query → Answer) (a : Archive) (d x : Str), C.compat = true ∧
    O (.serveContent a.hash) = .text d ∧ O (.remoteBlob d) = .text x ∧ Ex.env.blobId x = a.hash ∧ Ex.env.sha256 x = d ∧
    (run O (ensure Ex.env C a) (fresh 1)).2.2 = some () ∧ (a.hash, a.hash) ∈ (run O (ensure Ex.env C a) (fresh 1)).2.1.rehash ∧
    (a.hash, d) ∉ (run O (ensure Ex.env C a) (fresh 1)).2.1.rehash :=
  ⟨{ Ex.conf with compat := true, serve := true, remote := true },
    fun q => match q with
      | .serveContent _ => .text ['s', 'u']
      | .remoteBlob _ => .text ['u']
      | _ => .no, Ex.arch, ['s', 'u'], ['u'], rfl, rfl, rfl, rfl, rfl, by decide +kernel, by decide +kernel, by decide +kernel⟩

/-! # C88: roots from single files, and directories of archives -/

/-- The root for a single file is the directory with this file, of the given name, with the content of the given hash, executable as
asked for; its identifier is the same if it is absent. -/
theorem C88_file_partial (E : Env) (C : Conf) (served : Str → Prop) (i : Nat) (c : Pool World Query Answer Key Root) (H : E.Good)
    (h : Possible E C served i c) (k : ForeignFile) (r : Root) (hr : (Key.foreign k, Prog.ret r) ∈ c.tasks) :
    r.tree = E.treeId [(k.name, if k.executable = true then .executable else .file, k.archive.hash)] ∧
      (k.absent = true ∧ C.fetchAbsent = false ↔ r = .absent r.tree) ∧
      (¬ (k.absent = true ∧ C.fetchAbsent = false) → ∃ x, E.blobId x = k.archive.hash ∧
        r = .present (gid E (.tree [(k.name, .file x k.executable)])) ∧
        ∃ top ∈ c.world.young.tags, Node.tree [(k.name, .file x k.executable)] ∈ below top ∧ ∀ m ∈ below top, m ∈ c.world.young.objs) := by
  obtain ⟨hi, hv⟩ := possible_ok H h
  have hf : ForeignRight E C k r c.world := hv _ hr c.world (Grows.rfl' _) hi
  unfold ForeignRight at hf
  by_cases ha : k.absent = true ∧ C.fetchAbsent = false
  · rw [if_pos ha] at hf
    subst hf
    exact ⟨rfl, ⟨fun _ => rfl, fun _ => ha⟩, fun h => absurd ha h⟩
  · rw [if_neg ha] at hf
    obtain ⟨⟨n, ⟨fs, h1, rfl⟩, h2, h3⟩, _⟩ := hf
    subst h2
    match fs, h1, h3 with
    | [], h1, _ => simp at h1
    | _ :: _ :: _, h1, _ => simp at h1
    | [(x, d, b)], h1, h3 =>
      simp only [List.map_cons, List.map_nil, List.cons.injEq, Prod.mk.injEq, and_true] at h1
      obtain ⟨rfl, h4, rfl⟩ := h1
      refine ⟨?_, ⟨fun h => absurd h ha, fun h => nomatch h⟩, fun _ => ⟨d, h4, rfl, h3⟩⟩
      simp only [Root.tree, dirOf, List.map_cons, List.map_nil, gid, gids, h4]
      cases k.executable <;> rfl

example : ∃ r, Possible Ex.env Ex.conf (fun _ => False) 1 ⟨Ex.after (.foreign Ex.file) (fresh 1), [(.foreign Ex.file, .ret r)]⟩ ∧
    r = .present (gid Ex.env (.tree [(['n'], .file ['u'] true)])) := ⟨_, Ex.possible _ _ _ (by decide +kernel), rfl⟩

/-- The root for a distdir is the directory with the files listed, each with the content of the given hash; its identifier is the same if
it is absent; in this case the serve endpoint, if there is one, has the tree. -/
theorem C88_distdir_partial (E : Env) (C : Conf) (served : Str → Prop) (i : Nat) (c : Pool World Query Answer Key Root) (H : E.Good)
    (h : Possible E C served i c) (k : Distdir) (r : Root) (hr : (Key.distdir k, Prog.ret r) ∈ c.tasks) :
    r.tree = E.treeId ((contentList k.archives).map fun e => (e.1, .file, e.2)) ∧
      (k.absent = true ∧ C.fetchAbsent = false ↔ r = .absent r.tree) ∧
      (k.absent = true ∧ C.fetchAbsent = false → C.serve = true → served r.tree) ∧
      (¬ (k.absent = true ∧ C.fetchAbsent = false) → ∃ es : List (Str × Str),
        es.map (fun e => (e.1, E.blobId e.2)) = contentList k.archives ∧
        r = .present (gid E (.tree (es.map fun e => (e.1, .file e.2 false)))) ∧
        ∃ top ∈ c.world.young.tags, Node.tree (es.map fun e => (e.1, .file e.2 false)) ∈ below top ∧
          ∀ m ∈ below top, m ∈ c.world.young.objs) := by
  obtain ⟨hi, hv⟩ := possible_ok H h
  have hf : DistdirRight E C served k r c.world := hv _ hr c.world (Grows.rfl' _) hi
  unfold DistdirRight at hf
  by_cases ha : k.absent = true ∧ C.fetchAbsent = false
  · rw [if_pos ha] at hf
    obtain ⟨rfl, hs⟩ := hf
    exact ⟨rfl, ⟨fun _ => rfl, fun _ => ha⟩, fun _ => hs, fun h => absurd ha h⟩
  · rw [if_neg ha] at hf
    obtain ⟨⟨n, hn, h2, h3⟩, _⟩ := hf
    subst h2
    refine ⟨files_gid hn, ⟨fun h => absurd h ha, fun h => nomatch h⟩, fun h => absurd h ha, fun _ => ?_⟩
    obtain ⟨fs, h1, rfl⟩ := hn
    have hb : ∀ f ∈ fs, f.2.2 = false := fun f hf => by
      have : (f.1, E.blobId f.2.1, f.2.2) ∈ listed k := by rw [← h1]; exact List.mem_map.2 ⟨f, hf, rfl⟩
      unfold listed at this
      obtain ⟨e, _, he⟩ := List.mem_map.1 this
      simp only [Prod.mk.injEq] at he
      exact he.2.2.symm
    have hd : dirOf fs = .tree ((fs.map fun f => (f.1, f.2.1)).map fun e => (e.1, .file e.2 false)) := by
      unfold dirOf
      simp only [List.map_map, Node.tree.injEq]
      refine List.map_congr_left fun f hf => ?_
      simp [hb f hf]
    refine ⟨fs.map fun f => (f.1, f.2.1), ?_, by rw [hd], by rw [← hd]; exact h3⟩
    have := congrArg (List.map fun e : Str × Str × Bool => (e.1, e.2.1)) h1
    simp only [listed, List.map_map] at this ⊢
    exact this.trans (by simp [Function.comp_def])

example : ∃ r, Possible Ex.env Ex.conf (fun _ => False) 1 ⟨Ex.after (.distdir Ex.dist) (fresh 1), [(.distdir Ex.dist, .ret r)]⟩ ∧
    r = .present (gid Ex.env (.tree [(['u'], .file ['u'] false), (['v'], .file ['v'] false)])) :=
  ⟨_, Ex.possible _ _ _ (by decide +kernel), rfl⟩

/-- What is listed is exactly what the archives are, and each of them is listed, if there are no two of the same name. -/
theorem C88_listed_partial (l : List Archive) (hd : ∀ a ∈ l, ∀ b ∈ l, a.file = b.file → a.hash = b.hash) (x h : Str) :
    (x, h) ∈ contentList l ↔ ∃ a ∈ l, a.file = x ∧ a.hash = h := by
  obtain ⟨ha, he⟩ := contentList_last l
  rw [← assoc_eq_some_iff ha, he]
  constructor
  · intro hf
    cases hl : l.reverse.find? (fun a => a.file = x) with
    | none => simp [hl] at hf
    | some a =>
      simp only [hl, Option.map_some, Option.some.injEq] at hf
      exact ⟨a, List.mem_reverse.1 (List.mem_of_find?_eq_some hl), by simpa using List.find?_some hl, hf⟩
  · rintro ⟨a, hm, h1, h2⟩
    cases hl : l.reverse.find? (fun a => a.file = x) with
    | none =>
      have := List.find?_eq_none.1 hl a (List.mem_reverse.2 hm)
      simp [h1] at this
    | some b =>
      have h3 := hd b (List.mem_reverse.1 (List.mem_of_find?_eq_some hl)) a hm (by
        have : b.file = x := by simpa using List.find?_some hl
        rw [this, h1])
      simp only [Option.map_some, h3, h2]

example : contentList Ex.dist.archives = [(['u'], ['b', 'u']), (['v'], ['b', 'v'])] := by decide +kernel

/-- The root of a distdir depends only on the names and hashes of the archives, not on the order in which they are named, nor on where they
are from. -/
theorem C88_order (E : Env) (C C' : Conf) (served served' : Str → Prop) (i i' : Nat) (c c' : Pool World Query Answer Key Root) (H : E.Good)
    (h : Possible E C served i c) (h' : Possible E C' served' i' c') (k k' : Distdir) (r r' : Root)
    (hr : (Key.distdir k, Prog.ret r) ∈ c.tasks) (hr' : (Key.distdir k', Prog.ret r') ∈ c'.tasks)
    (hd : ∀ a ∈ k.archives ++ k'.archives, ∀ b ∈ k.archives ++ k'.archives, a.file = b.file → a.hash = b.hash)
    (hs : ∀ x y, (∃ a ∈ k.archives, a.file = x ∧ a.hash = y) ↔ ∃ a ∈ k'.archives, a.file = x ∧ a.hash = y) : r.tree = r'.tree := by
  have e : contentList k.archives = contentList k'.archives := by
    refine ascending_ext (contentList_last _).1 (contentList_last _).1 fun x => ?_
    have iff : ∀ y, assoc x (contentList k.archives) = some y ↔ assoc x (contentList k'.archives) = some y := fun y => by
      rw [assoc_eq_some_iff (contentList_last _).1, assoc_eq_some_iff (contentList_last _).1,
        C88_listed_partial _ (fun a ha b hb => hd a (List.mem_append_left _ ha) b (List.mem_append_left _ hb)),
        C88_listed_partial _ (fun a ha b hb => hd a (List.mem_append_right _ ha) b (List.mem_append_right _ hb))]
      exact hs x y
    cases h1 : assoc x (contentList k.archives) with
    | some y => exact ((iff y).1 h1).symm
    | none =>
      cases h2 : assoc x (contentList k'.archives) with
      | none => rfl
      | some y => rw [(iff y).2 h2] at h1; cases h1
  rw [(C88_distdir_partial E C served i c H h k r hr).1, (C88_distdir_partial E C' served' i' c' H h' k' r' hr').1, e]

example : ∃ r r', Possible Ex.env Ex.conf (fun _ => False) 1 ⟨Ex.after (.distdir Ex.dist) (fresh 1), [(.distdir Ex.dist, .ret r)]⟩ ∧
    Possible Ex.env Ex.conf (fun _ => False) 1 ⟨Ex.after (.distdir ⟨Ex.dist.archives.reverse, true⟩) (fresh 1),
      [(.distdir ⟨Ex.dist.archives.reverse, true⟩, .ret r')]⟩ ∧ r.tree = r'.tree ∧ r ≠ r' := by
  refine ⟨.present (gid Ex.env (.tree [(['u'], .file ['u'] false), (['v'], .file ['v'] false)])),
    .absent (gid Ex.env (.tree [(['u'], .file ['u'] false), (['v'], .file ['v'] false)])),
    Ex.possible _ _ _ (by decide +kernel), Ex.possible _ _ _ (by decide +kernel), rfl, by decide +kernel⟩

/-- Two archives with the same name, as taken from the location: the root of the distdir is set up without the first of them. -/
theorem C88_violation_lost : ∃ (k : Distdir) (t : Str) (c : Pool World Query Answer Key Root),
    Possible Ex.env Ex.conf (fun _ => False) 1 c ∧ (Key.distdir k, Prog.ret (.present t)) ∈ c.tasks ∧
    ∃ es, t = gid Ex.env (.tree es) ∧ ∃ a ∈ k.archives, ∀ e ∈ es, gid Ex.env e.2 ≠ a.hash := by
  refine ⟨⟨[⟨['b', 'u', '/', 'x'], none, ['u', '/', 'x'], [], none, none⟩, ⟨['b', 'v', '/', 'x'], none, ['v', '/', 'x'], [], none, none⟩], false⟩,
    gid Ex.env (.tree [(['x'], .file ['v', '/', 'x'] false)]), _,
    Ex.possible _ (.distdir ⟨[⟨['b', 'u', '/', 'x'], none, ['u', '/', 'x'], [], none, none⟩,
      ⟨['b', 'v', '/', 'x'], none, ['v', '/', 'x'], [], none, none⟩], false⟩) _ (by decide +kernel),
    List.mem_cons_self, _, rfl, _, List.mem_cons_self, fun e he => ?_⟩
  simp only [List.mem_singleton] at he
  subst he
  decide +kernel

/-- An absent root for a single file is reported even if the serve endpoint says that it neither has the tree nor the file. -/
theorem C88_violation_unknown : ∃ (k : ForeignFile) (C : Conf) (t : Str) (c : Pool World Query Answer Key Root), C.serve = true ∧
    Possible Ex.env C (fun _ => False) 1 c ∧ (Key.foreign k, Prog.ret (.absent t)) ∈ c.tasks := by
  refine ⟨{ Ex.file with absent := true }, { Ex.conf with serve := true }, foreignTree Ex.env Ex.file, _, rfl,
    reach_run Ex.answers (Ex.answers_honest _) (.foreign { Ex.file with absent := true }) _ [] (.step .start (.spawn _ _ _)) ?_,
    List.mem_cons_self⟩
  decide +kernel

/-! # C89: roots are set up without network where possible -/

/-- If the archive is in the CAS, in the git cache, or in a directory for distribution files, or if it is remembered in any generation which
tree it gives, then the root is set up without asking anybody else: neither the network, nor a remote, nor a serve endpoint. This holds in
all states of the storage that may come about. -/
theorem C89_offline (E : Env) (C : Conf) (served : Str → Prop) (i : Nat) (c : Pool World Query Answer Key Root) (H : E.Good)
    (h : Possible E C served i c) (O : Query → Answer) (ho : ∀ q, Honest E served q (O q)) (k : ArchiveRepo)
    (ha : ¬ (k.absent = true ∧ C.fetchAbsent = false)) (x : Str) (es : List (Str × Node)) (n : Node) (h1 : E.blobId x = k.archive.hash)
    (h2 : E.extract k.type x = some es) (h3 : (Node.tree es).find k.subdir = some n)
    (hr : ∀ m, k.special = some m → isTree n = true ∧ ∃ n', O (.resolve m n) = .node n' ∧ isTree n' = true)
    (hh : (∃ g ∈ c.world.young :: c.world.old, ∃ t, ((k.type, k.archive.hash), t) ∈ g.arch) ∨ x ∈ c.world.cas ∨
      (∃ g ∈ c.world.young :: c.world.old, ∃ b, Node.file x b ∈ g.objs) ∨ ∃ l, O (.distfiles k.archive.file) = .texts l ∧ x ∈ l) :
    ∃ n', Contents E k n' ∧ (run O (setup E C (.archive k)) c.world).2.2 = some (.present (gid E n')) ∧
      ∀ q ∈ (run O (setup E C (.archive k)) c.world).1, q = .distfiles k.archive.file ∨ ∃ m n, q = .resolve m n := by
  obtain ⟨hi, _⟩ := possible_ok H h
  obtain ⟨hq, t, ht⟩ : Works O k (archive E C k) c.world := by
    refine archive_works H k hi ha h1 h2 h3 hr ?_
    rcases hh with ⟨g, hg, t, hm⟩ | hh | ⟨g, hg, b, hb⟩ | hh
    · exact .inl ⟨g, hg, read_isSome hm⟩
    · exact .inr (.inl hh)
    · exact .inr (.inr (.inl ⟨g, hg, _, hb, rfl⟩))
    · exact .inr (.inr (.inr hh))
  obtain ⟨_, _, hv⟩ := valid_run (archive_valid (C := C) (served := served) H k c.world) hi O ho
  obtain ⟨n', hn, hp⟩ := hv _ ht
  rw [if_neg ha] at hp
  exact ⟨n', hn, by rw [← hp.1]; exact ht, hq⟩

example : (run Ex.answers (setup Ex.env Ex.conf (.archive ⟨⟨['b', 'c'], some ['c'], ['u'], [], none, none⟩, ['t'], [['d']], none, false⟩))
    (fresh 1)).1.length = 1 ∧
    (Ex.answers (.distfiles ['c']) = .texts [['c']]) := by
  refine ⟨?_, rfl⟩
  decide +kernel

/-- Once a root that is not absent was set up, and as long as nobody takes the storage for themselves, it is set up again without asking
anything and without changing anything, whatever else happened in between. -/
theorem C89_again (E : Env) (C : Conf) (served : Str → Prop) (i : Nat) (c : Pool World Query Answer Key Root) (H : E.Good)
    (h : Possible E C served i c) (O : Query → Answer) (k : ArchiveRepo) (t : Str)
    (hr : (Key.archive k, Prog.ret (.present t)) ∈ c.tasks) :
    ∃ n, Contents E k n ∧ run O (setup E C (.archive k)) c.world = ([], c.world, some (.present (gid E n))) := by
  obtain ⟨hi, hv⟩ := possible_ok H h
  obtain ⟨n, h1, h2⟩ : ArchiveRight E C served k (.present t) c.world := hv _ hr c.world (Grows.rfl' _) hi
  by_cases ha : k.absent = true ∧ C.fetchAbsent = false
  · rw [if_pos ha] at h2
    cases h2.1
  · rw [if_neg ha] at h2
    exact archive_again H k hi ha h1 h2.2.2

example : (run (fun _ => .error) (setup Ex.env Ex.conf (.archive Ex.whole)) (Ex.after (.archive Ex.whole) (fresh 1))).1.length = 0 ∧
    0 < (run Ex.answers (setup Ex.env Ex.conf (.archive Ex.whole)) (fresh 1)).1.length := by decide +kernel

/-- The same for single files and distdirs; the root is the same. -/
theorem C89_again_files (E : Env) (C : Conf) (served : Str → Prop) (i : Nat) (c : Pool World Query Answer Key Root) (H : E.Good)
    (h : Possible E C served i c) (O : Query → Answer) (key : Key)
    (hk : (∃ k, key = .foreign k) ∨ ∃ k, key = .distdir k) (t : Str)
    (hr : (key, Prog.ret (.present t)) ∈ c.tasks) : run O (setup E C key) c.world = ([], c.world, some (.present t)) := by
  obtain ⟨hi, hv⟩ := possible_ok H h
  have hR : Right E C served key (.present t) c.world := hv _ hr c.world (Grows.rfl' _) hi
  rcases hk with ⟨k, rfl⟩ | ⟨k, rfl⟩
  · have hF : ForeignRight E C k (.present t) c.world := hR
    unfold ForeignRight at hF
    by_cases ha : k.absent = true ∧ C.fetchAbsent = false
    · rw [if_pos ha] at hF
      cases hF
    · rw [if_neg ha] at hF
      obtain ⟨⟨n, h1, h2, _⟩, h3⟩ := hF
      cases h2
      obtain ⟨t', ht⟩ := Option.isSome_iff_exists.1 h3
      obtain ⟨l, n', a1, a2, rfl, _⟩ := hi.young.dist _ _ (read_mem ht)
      have := H.list _ _ a1
      subst this
      have hn := files_unique H h1 a2
      subst hn
      show run O (foreign E C k) c.world = _
      unfold foreign
      rw [if_neg ha, run_look, ht]
      rfl
  · have hF : DistdirRight E C served k (.present t) c.world := hR
    unfold DistdirRight at hF
    by_cases ha : k.absent = true ∧ C.fetchAbsent = false
    · rw [if_pos ha] at hF
      cases hF.1
    · rw [if_neg ha] at hF
      obtain ⟨⟨n, h1, h2, _⟩, h3⟩ := hF
      cases h2
      obtain ⟨t', ht⟩ := Option.isSome_iff_exists.1 h3
      obtain ⟨l, n', a1, a2, rfl, _⟩ := hi.young.dist _ _ (read_mem ht)
      have := H.list _ _ a1
      subst this
      have hn := files_unique H h1 a2
      subst hn
      have hw : (k.absent && !C.fetchAbsent) = false := by
        revert ha
        cases k.absent <;> cases C.fetchAbsent <;> simp
      show run O (distdir E C k) c.world = _
      unfold distdir
      simp only
      rw [run_look, ht, hw]
      rfl

example : (run (fun _ => .error) (setup Ex.env Ex.conf (.foreign Ex.file)) (Ex.after (.foreign Ex.file) (fresh 1))).1.length = 0 ∧
    (run (fun _ => .error) (setup Ex.env Ex.conf (.distdir Ex.dist)) (Ex.after (.distdir Ex.dist) (fresh 1))).1.length = 0 := by
  decide +kernel

/-- What was set up survives the rotation of generations: afterwards it is set up again without asking anybody but for the resolution of
symbolic links, which is done on this machine. -/
theorem C89_rotation (E : Env) (C : Conf) (served : Str → Prop) (i : Nat) (c : Pool World Query Answer Key Root) (H : E.Good)
    (h : Possible E C served i c) (O : Query → Answer) (ho : ∀ q, Honest E served q (O q)) (k : ArchiveRepo) (t : Str)
    (hr : (Key.archive k, Prog.ret (.present t)) ∈ c.tasks) (hl : c.world.old ≠ [])
    (hs : ∀ m n, k.special = some m → isTree n = true → ∃ n', O (.resolve m n) = .node n' ∧ isTree n' = true) :
    ∃ n, Contents E k n ∧ (run O (setup E C (.archive k)) c.world.rotate).2.2 = some (.present (gid E n)) ∧
      ∀ q ∈ (run O (setup E C (.archive k)) c.world.rotate).1, q = .distfiles k.archive.file ∨ ∃ m n, q = .resolve m n := by
  obtain ⟨hi, hv⟩ := possible_ok H h
  obtain ⟨n, hc, h2⟩ : ArchiveRight E C served k (.present t) c.world := hv _ hr c.world (Grows.rfl' _) hi
  by_cases ha : k.absent = true ∧ C.fetchAbsent = false
  · rw [if_pos ha] at h2
    cases h2.1
  rw [if_neg ha] at h2
  have hi' : Inv E c.world.rotate := alone_ok c.world _ (.move _ Gen.empty _ fun g hg => by
    rcases List.mem_cons.1 hg with rfl | hg
    · exact .inl rfl
    · exact .inr (List.dropLast_subset _ hg)) hi
  obtain ⟨x, es, n₀, a1, a2, a3, a4⟩ := hc
  have hold : c.world.young ∈ c.world.rotate.old := by
    cases ho : c.world.old with
    | nil => exact absurd ho hl
    | cons g gs =>
      simp only [World.rotate, ho, List.dropLast]
      exact List.mem_cons_self
  obtain ⟨hq, t', ht⟩ : Works O k (archive E C k) c.world.rotate := by
    refine archive_works H k hi' ha a1 a2 a3 (fun m hm => ?_) (.inl ⟨c.world.young, List.mem_cons_of_mem _ hold, h2.2.2.1⟩)
    simp only [hm] at a4
    exact ⟨a4.1, hs m n₀ hm a4.1⟩
  obtain ⟨_, _, hv'⟩ := valid_run (archive_valid (C := C) (served := served) H k c.world.rotate) hi' O ho
  obtain ⟨n', hn, hp⟩ := hv' _ ht
  rw [if_neg ha] at hp
  exact ⟨n', hn, by rw [← hp.1]; exact ht, hq⟩

example : (run (fun _ => .error) (setup Ex.env Ex.conf (.archive { Ex.repo with special := none }))
    (Ex.after (.archive { Ex.repo with special := none }) (fresh 1)).rotate).2.2 =
      some (.present (gid Ex.env (.tree [(['f'], .file ['u'] false)]))) := by decide +kernel

end Verif.Mr
