import Verif.Mr.All

/-!
# Setting up roots with nobody else around
-/

namespace Verif.Mr

open Verif.Symlinks (Node Mode Val)

variable {E : Env} {C : Conf} {O : Query → Answer}

theorem run_look {α β : Type} (f : World → α) (g : α → Task β) (w : World) : run O (look f >>= g) w = run O (g (f w)) w := rfl

theorem run_change {β : Type} (f : World → World) (g : Unit → Task β) (w : World) :
    run O (change f >>= g) w = run O (g ()) (f w) := rfl

theorem run_need {α β : Type} {f : World → Option α} {w : World} {a : α} (h : f w = some a) (g : α → Task β) :
    run O (need f >>= g) w = run O (g a) w := by
  show run O (Prog.bind (match f w with
    | some a => .ret a
    | none => .fail) g) w = _
  rw [h]
  rfl

theorem run_tryTo {β : Type} {f : World → Option World} {w v : World} (h : f w = some v) (g : Unit → Task β) :
    run O (tryTo f >>= g) w = run O (g ()) v := by
  have e : run O (tryTo f : Task Unit) w = ([], v, some ()) := by simp only [tryTo, run, h, Option.getD_some]
  show run O (Prog.bind (tryTo f) g) w = _
  rw [run_bind, e]
  rfl

theorem run_question {β : Type} (q : Query) (g : Answer → Task β) (w : World) :
    run O (question q >>= g) w = (q :: (run O (g (O q)) w).1, (run O (g (O q)) w).2) := rfl

theorem findTree_there (H : E.Good) {es : List (Str × Node)} {l : List Node} (h : Node.tree es ∈ l) :
    findTree E (gid E (.tree es)) l = some (.tree es) := by
  cases hf : findTree E (gid E (.tree es)) l with
  | none =>
    have := List.find?_eq_none.1 hf _ h
    simp [isTree] at this
  | some n => rw [gid_tree H (findTree_some hf).2.2]

theorem keep_there (H : E.Good) {es : List (Str × Node)} {w : World} (h : Node.tree es ∈ w.young.objs) :
    w.keep E (gid E (.tree es)) = some { w with young := { w.young with tags := .tree es :: w.young.tags } } := by
  unfold World.keep Gen.keep
  rw [findTree_there H h]
  rfl

theorem run_subtree (H : E.Good) {β : Type} {es : List (Str × Node)} {sub : List Str} {n : Node} {w : World} (g : Str → Task β)
    (h : Node.tree es ∈ w.young.objs) (hn : (Node.tree es).find sub = some n) :
    run O (subtree E (gid E (.tree es)) sub >>= g) w = run O (g (gid E n)) w := by
  unfold subtree
  split
  · rename_i hs
    subst hs
    cases hn
    rfl
  · show run O ((need _ >>= _).bind g) w = _
    rw [run_bind, run_need (findTree_there H h)]
    simp only [hn, run, List.nil_append]

/-- The symbolic links of `n` can be resolved, if asked for. -/
def Resolvable (O : Query → Answer) (k : ArchiveRepo) (n : Node) : Prop :=
  ∀ m, k.special = some m → isTree n = true ∧ ∃ n', O (.resolve m n) = .node n' ∧ isTree n' = true

/-- What may be asked without leaving the machine. -/
def Local (k : ArchiveRepo) (q : Query) : Prop := q = .distfiles k.archive.file ∨ ∃ m n, q = .resolve m n

/-- The program gives a root, asking only what is local. -/
def Works (O : Query → Answer) (k : ArchiveRepo) (p : Task Root) (w : World) : Prop :=
  (∀ q ∈ (run O p w).1, Local k q) ∧ ∃ t, (run O p w).2.2 = some (.present t)

theorem Works.of_eq {k : ArchiveRepo} {p p' : Task Root} {w w' : World} (h : run O p w = run O p' w') (hp : Works O k p' w') : Works O k p w := by
  unfold Works
  rw [h]
  exact hp

theorem Works.ret (k : ArchiveRepo) (t : Str) (w : World) : Works O k (.ret (.present t)) w :=
  ⟨fun _ hq => absurd hq List.not_mem_nil, t, rfl⟩

theorem Works.ask {k : ArchiveRepo} {q : Query} {g : Answer → Task Root} {w : World} (hq : Local k q) (h : Works O k (g (O q)) w) :
    Works O k (question q >>= g) w := by
  refine ⟨fun q' hq' => ?_, h.2⟩
  rw [run_question] at hq'
  rcases List.mem_cons.1 hq' with rfl | hq'
  · exact hq
  · exact h.1 q' hq'

theorem resolve_works (H : E.Good) (k : ArchiveRepo) (hit : Bool) {n : Node} {w : World} (hr : Resolvable O k n)
    (hn : n ∈ w.young.objs) : Works O k (resolveContent E C k (gid E n) hit false) w := by
  unfold resolveContent setRoot
  cases hs : k.special with
  | none => exact .ret k _ w
  | some m =>
    obtain ⟨h1, n', h2, h3⟩ := hr m hs
    obtain ⟨es, rfl⟩ := (isTree_iff n).1 h1
    obtain ⟨fs, rfl⟩ := (isTree_iff n').1 h3
    refine .of_eq (run_look _ _ _) ?_
    cases read (m, gid E (.tree es)) w.young.special with
    | some t' => exact .ret k _ w
    | none =>
      refine .of_eq (run_need (findTree_there H hn) _) (.ask (.inr ⟨_, _, rfl⟩) ?_)
      simp only [h2]
      refine .of_eq (run_change _ _ _) (.of_eq (run_tryTo (keep_there H (List.mem_append_left _ (self_below _))) _) ?_)
      exact .of_eq (run_change _ _ _) (.ret k _ _)

theorem placed_works (H : E.Good) (k : ArchiveRepo) (hit : Bool) {es : List (Str × Node)} {n : Node} {w : World}
    (hn : (Node.tree es).find k.subdir = some n) (hr : Resolvable O k n) (ho : ∀ m ∈ below (.tree es), m ∈ w.young.objs) :
    Works O k (subtree E (gid E (.tree es)) k.subdir >>= fun s => resolveContent E C k s hit false) w :=
  .of_eq (run_subtree H _ (ho _ (self_below _)) hn) (resolve_works H k hit hr (ho n (find_below hn)))

theorem run_importDir (H : E.Good) {β : Type} (es : List (Str × Node)) (g : Str → Task β) (w : World) :
    ∃ v : World, (∀ m ∈ below (.tree es), m ∈ v.young.objs) ∧ run O (importDir E es >>= g) w = run O (g (gid E (.tree es))) v := by
  refine ⟨{ w.addObjs (below (.tree es)) with
      young := { (w.addObjs (below (.tree es))).young with tags := .tree es :: w.young.tags } },
    fun m hm => List.mem_append_left _ hm, ?_⟩
  unfold importDir
  show run O (Prog.bind (change _ >>= _) g) w = _
  rw [run_bind, run_change, run_tryTo (keep_there H (List.mem_append_left _ (self_below _)))]
  rfl

theorem extract_works (H : E.Good) (k : ArchiveRepo) {c : Str} {es : List (Str × Node)} {n : Node} (w : World)
    (h2 : E.extract k.type c = some es) (hn : (Node.tree es).find k.subdir = some n) (hr : Resolvable O k n) :
    Works O k (extractImport E C k c false) w := by
  unfold extractImport
  rw [h2]
  obtain ⟨v, hv, he⟩ := run_importDir (O := O) (E := E) H es (fun t => (do
    change (World.writeArch k.type k.archive.hash t)
    let s ← subtree E t k.subdir
    resolveContent E C k s false false : Task Root)) w
  exact .of_eq he (.of_eq (run_change _ _ _) (placed_works H k false hn hr hv))

theorem known_works (H : E.Good) (k : ArchiveRepo) {c : Str} {es : List (Str × Node)} {n : Node} {w : World} (hi : Inv E w)
    (ha : wantAbsent C k = false) (h1 : E.blobId c = k.archive.hash) (h2 : E.extract k.type c = some es)
    (hn : (Node.tree es).find k.subdir = some n) (hr : Resolvable O k n) (hk : (read (k.type, k.archive.hash) w.young.arch).isSome) :
    Works O k (locallyKnown E C k) w := by
  unfold locallyKnown
  obtain ⟨t, ht⟩ := Option.isSome_iff_exists.1 hk
  obtain ⟨c', es', a1, a2, rfl, a4⟩ := hi.young.arch _ _ _ (read_mem ht)
  have := H.blob _ _ (h1.trans a1.symm)
  subst this
  rw [h2] at a2
  cases a2
  refine .of_eq (run_need ht _) ?_
  have ha' : (k.absent && !C.fetchAbsent) = false := ha
  rw [ha']
  exact placed_works H k true hn hr a4.there

theorem older_works (H : E.Good) (k : ArchiveRepo) {c : Str} {es : List (Str × Node)} {n : Node} {w : World} {g : Gen} {i : Nat} (hi : Inv E w)
    (ha : wantAbsent C k = false) (h1 : E.blobId c = k.archive.hash) (h2 : E.extract k.type c = some es)
    (hn : (Node.tree es).find k.subdir = some n) (hr : Resolvable O k n) (hg : w.old[i]? = some g) (hk : Kept g (.tree es)) :
    Works O k (knownOlder E C k i (gid E (.tree es))) w := by
  have hlen : i < w.old.length := by
    rcases Nat.lt_or_ge i w.old.length with h | h
    · exact h
    · rw [List.getElem?_eq_none h] at hg; cases hg
  unfold knownOlder
  have e1 : w.keepOld E i (gid E (.tree es)) = some { w with old := w.old.set i { g with tags := .tree es :: g.tags } } := by
    unfold World.keepOld Gen.keep
    simp only [hg]
    rw [findTree_there H (hk.there _ (self_below _))]
    rfl
  have k1 := keepOld_ok hi (fun g' n hg' hf m hm => by
    rw [hg] at hg'
    cases hg'
    have := gid_tree H (findTree_some hf).2.2
    subst this
    exact hk.there m hm) e1
  refine .of_eq (run_tryTo e1 _) ?_
  generalize hw1 : ({ w with old := w.old.set i { g with tags := .tree es :: g.tags } } : World) = w1 at *
  have hg1 : w1.old[i]? = some { g with tags := .tree es :: g.tags } := by
    rw [← hw1]
    exact List.getElem?_set_self hlen
  have e2 : w1.fetchOld E i (gid E (.tree es)) = some (w1.addObjs (below (.tree es))) := by
    unfold World.fetchOld
    simp only [hg1]
    rw [findTree_there H List.mem_cons_self]
    rfl
  obtain ⟨f1, f2, f3⟩ := fetchOld_ok H k1.1 e2
  refine .of_eq (run_tryTo e2 _) ?_
  generalize w1.addObjs (below (.tree es)) = w2 at *
  have e3 : w2.keep E (gid E (.tree es)) = some { w2 with young := { w2.young with tags := .tree es :: w2.young.tags } } :=
    keep_there H (f3 _ (self_below _))
  obtain ⟨g1, g2, g3⟩ := keep_ok H f1 f3 e3
  refine .of_eq (run_tryTo e3 _) ?_
  generalize ({ w2 with young := { w2.young with tags := .tree es :: w2.young.tags } } : World) = w3 at *
  refine .of_eq (run_change _ _ _) ?_
  have ok := writeArch_ok g1 h1 h2 rfl g3
  exact known_works H k ok.1 ha h1 h2 hn hr (by simp only [World.writeArch, read_head, Option.isSome_some])

theorem content_there (H : E.Good) {c h : Str} {w : World} (hc : c ∈ w.cas) (hb : E.blobId c = h) : w.content E h = some c := by
  cases hf : w.content E h with
  | none =>
    have := List.find?_eq_none.1 hf c hc
    simp [hb] at this
  | some c' => rw [H.blob _ _ ((content_some hf).2.trans hb.symm)]

theorem findBlob_some {h c : Str} {l : List Node} (hf : findBlob E h l = some c) : E.blobId c = h := by
  simpa using List.find?_some hf

/-- The content is at hand: in the CAS, as a blob in the git cache of some generation, or in a directory for distribution files. -/
def AtHand (O : Query → Answer) (a : Archive) (c : Str) (w : World) : Prop :=
  c ∈ w.cas ∨ (∃ g ∈ w.young :: w.old, ∃ n ∈ g.objs, blob? n = some c) ∨ ∃ l, O (.distfiles a.file) = .texts l ∧ c ∈ l

theorem findBlob_there {h c : Str} {l : List Node} {n : Node} (hb : E.blobId c = h) (hn : n ∈ l) (hc : blob? n = some c) :
    (findBlob E h l).isSome := by
  unfold findBlob
  rw [List.find?_isSome]
  exact ⟨c, List.mem_filterMap.2 ⟨n, hn, hc⟩, by simp [hb]⟩

theorem stores_mem (l : List Str) (w : World) : ∀ c, c ∈ l ∨ c ∈ w.cas → c ∈ (l.foldl (fun w c => w.store c) w).cas := by
  induction l generalizing w with
  | nil => exact fun c h => h.elim (fun h => absurd h List.not_mem_nil) id
  | cons d t ih =>
    refine fun c h => ih (w.store d) c ?_
    rcases h with h | h
    · rcases List.mem_cons.1 h with rfl | h
      · exact .inr List.mem_cons_self
      · exact .inl h
    · exact .inr (List.mem_cons_of_mem _ h)

/-- If the content is at hand, nothing else is asked for. -/
theorem ensure_works (H : E.Good) (a : Archive) {β : Type} {c : Str} {w : World} (g : Unit → Task β) (hb : E.blobId c = a.hash)
    (h : AtHand O a c w) : ∃ (l : List Query) (v : World), (∀ q ∈ l, q = .distfiles a.file) ∧ c ∈ v.cas ∧
      run O (ensure E C a >>= g) w = (l ++ (run O (g ()) v).1, (run O (g ()) v).2) := by
  unfold ensure
  have same : ∀ (p : Task Unit) (l : List Query) (v : World), run O p w = (l, v, some ()) →
      run O (p >>= g) w = (l ++ (run O (g ()) v).1, (run O (g ()) v).2) := fun p l v hp => by
    show run O (p.bind g) w = _
    rw [run_bind, hp]
  cases h1 : w.content E a.hash with
  | some c' =>
    have := H.blob _ _ ((content_some h1).2.trans hb.symm)
    subst this
    refine ⟨[], w, fun q hq => absurd hq List.not_mem_nil, (content_some h1).1, same _ _ _ ?_⟩
    rw [run_look, h1]
    rfl
  | none =>
    cases h2 : findBlob E a.hash w.young.objs with
    | some c' =>
      have := H.blob _ _ ((findBlob_some h2).trans hb.symm)
      subst this
      refine ⟨[], w.store c', fun q hq => absurd hq List.not_mem_nil, List.mem_cons_self, same _ _ _ ?_⟩
      rw [run_look, h1]
      show run O (look _ >>= _) w = _
      rw [run_look, h2]
      rfl
    | none =>
      cases h3 : w.old.findSome? fun g => findBlob E a.hash g.objs with
      | some c' =>
        obtain ⟨g', _, hg'⟩ := List.exists_of_findSome?_eq_some h3
        have := H.blob _ _ ((findBlob_some hg').trans hb.symm)
        subst this
        refine ⟨[], w.store c', fun q hq => absurd hq List.not_mem_nil, List.mem_cons_self, same _ _ _ ?_⟩
        rw [run_look, h1]
        show run O (look _ >>= _) w = _
        rw [run_look, h2]
        show run O (look _ >>= _) w = _
        rw [run_look, h3]
        rfl
      | none =>
        have hl : ∃ l, O (.distfiles a.file) = .texts l ∧ c ∈ l := by
          rcases h with h | ⟨g', hg', n, hn, hc⟩ | h
          · rw [content_there H h hb] at h1; cases h1
          · exfalso
            have hs := findBlob_there hb hn hc
            rcases List.mem_cons.1 hg' with rfl | hg'
            · rw [h2] at hs; cases hs
            · rw [List.findSome?_eq_none_iff.1 h3 g' hg'] at hs; cases hs
          · exact h
        obtain ⟨l, hl, hcl⟩ := hl
        have hcv : c ∈ (l.foldl (fun w c => w.store c) w).cas := stores_mem l w c (.inl hcl)
        refine ⟨[.distfiles a.file], l.foldl (fun w c => w.store c) w, fun q hq => by simpa using hq, hcv, ?_⟩
        have hd : run O (fromDistfiles a.file) w = ([.distfiles a.file], l.foldl (fun w c => w.store c) w, some ()) := by
          unfold fromDistfiles
          rw [run_question, hl]
          rfl
        refine same _ _ _ ?_
        rw [run_look, h1]
        show run O (look _ >>= _) w = _
        rw [run_look, h2]
        show run O (look _ >>= _) w = _
        rw [run_look, h3]
        show run O (Prog.bind (fromDistfiles a.file) _) w = _
        rw [run_bind, hd]
        simp only
        rw [run_look, content_there H hcv hb]
        rfl

theorem archive_works (H : E.Good) (k : ArchiveRepo) {c : Str} {es : List (Str × Node)} {n : Node} {w : World} (hi : Inv E w)
    (ha : ¬ (k.absent = true ∧ C.fetchAbsent = false)) (h1 : E.blobId c = k.archive.hash) (h2 : E.extract k.type c = some es)
    (hn : (Node.tree es).find k.subdir = some n) (hr : Resolvable O k n)
    (h : (∃ g ∈ w.young :: w.old, (read (k.type, k.archive.hash) g.arch).isSome) ∨ AtHand O k.archive c w) :
    Works O k (archive E C k) w := by
  have hw : wantAbsent C k = false := by
    rw [← wantAbsent_iff] at ha
    simpa using ha
  unfold archive
  refine .of_eq (run_look _ _ _) ?_
  cases hk : read (k.type, k.archive.hash) w.young.arch with
  | some t => exact known_works H k hi hw h1 h2 hn hr (by rw [hk]; rfl)
  | none =>
    refine .of_eq (run_look _ _ _) ?_
    cases ho : oldArch k.type k.archive.hash w.old with
    | some p =>
      obtain ⟨i, t⟩ := p
      obtain ⟨g, hg, hm⟩ := oldArch_some ho
      obtain ⟨c', es', a1, a2, rfl, a4⟩ := (hi.old g (List.mem_of_getElem? hg)).arch _ _ _ hm
      have := H.blob _ _ (h1.trans a1.symm)
      subst this
      rw [h2] at a2
      cases a2
      exact older_works H k hi hw h1 h2 hn hr hg a4
    | none =>
      have hh : AtHand O k.archive c w := by
        rcases h with ⟨g, hg, hs⟩ | h
        · exfalso
          rcases List.mem_cons.1 hg with rfl | hg
          · rw [hk] at hs; cases hs
          · clear hi hk
            revert ho hg
            generalize w.old = l
            induction l with
            | nil => exact fun _ hg => absurd hg List.not_mem_nil
            | cons g' gs ih =>
              intro ho hg
              simp only [oldArch] at ho
              cases hr' : read (k.type, k.archive.hash) g'.arch with
              | some t => simp [hr'] at ho
              | none =>
                simp only [hr', Option.map_eq_none_iff] at ho
                rcases List.mem_cons.1 hg with rfl | hg
                · rw [hr'] at hs; cases hs
                · exact ih ho hg
        · exact h
      simp only
      rw [if_neg ha]
      obtain ⟨l, v, hl, hc, he⟩ := ensure_works (C := C) H k.archive (fun _ => (do
        let c ← need fun w => w.content E k.archive.hash
        extractImport E C k c false : Task Root)) h1 hh
      have hx : Works O k (do
          let c ← need fun w => w.content E k.archive.hash
          extractImport E C k c false : Task Root) v :=
        .of_eq (run_need (content_there H hc h1) _) (extract_works H k v h2 hn hr)
      refine ⟨fun q hq => ?_, ?_⟩
      · rw [he] at hq
        rcases List.mem_append.1 hq with hq | hq
        · exact .inl (hl q hq)
        · exact hx.1 q hq
      · rw [he]
        exact hx.2

/-- Set up once more. -/
theorem archive_again (H : E.Good) (k : ArchiveRepo) {w : World} (hi : Inv E w) (ha : ¬ (k.absent = true ∧ C.fetchAbsent = false))
    {n : Node} (hc : Contents E k n) (hh : Hit E k w) :
    ∃ n', Contents E k n' ∧ run O (archive E C k) w = ([], w, some (.present (gid E n'))) := by
  have hw : wantAbsent C k = false := by
    rw [← wantAbsent_iff] at ha
    simpa using ha
  obtain ⟨t, ht⟩ := Option.isSome_iff_exists.1 hh.1
  obtain ⟨c, es, a1, a2, rfl, a4⟩ := hi.young.arch _ _ _ (read_mem ht)
  obtain ⟨c', es', n0, b1, b2, b3, b4⟩ := hc
  have := H.blob _ _ (b1.trans a1.symm)
  subst this
  rw [b2] at a2
  cases a2
  have e : run O (archive E C k) w = run O (resolveContent E C k (gid E n0) true false) w := by
    unfold archive
    rw [run_look, ht]
    show run O (locallyKnown E C k) w = _
    unfold locallyKnown
    rw [run_need ht]
    have ha' : (k.absent && !C.fetchAbsent) = false := hw
    rw [ha']
    exact run_subtree H _ (a4.there _ (self_below _)) b3
  rw [e]
  unfold resolveContent setRoot
  cases hs : k.special with
  | none => exact ⟨n0, ⟨_, _, n0, b1, b2, b3, by simp only [hs]⟩, rfl⟩
  | some m =>
    simp only [hs] at b4
    obtain ⟨c2, es2, n2, d1, d2, d3, d4⟩ := hh.2 m hs
    have := H.blob _ _ (d1.trans b1.symm)
    subst this
    rw [b2] at d2
    cases d2
    rw [b3] at d3
    cases d3
    obtain ⟨t', ht'⟩ := Option.isSome_iff_exists.1 d4
    obtain ⟨fs, n', f1, f2, f3, rfl, f5⟩ := hi.young.special _ _ _ (read_mem ht')
    have := gid_tree H f1
    subst this
    refine ⟨n', ⟨_, _, _, b1, b2, b3, by simp only [hs]; exact ⟨rfl, f2, f3⟩⟩, ?_⟩
    simp only
    rw [run_look, ht']
    rfl

theorem read_isSome {K V : Type} [DecidableEq K] {k : K} {v : V} {l : List (K × V)} (h : (k, v) ∈ l) : (read k l).isSome := by
  unfold read
  rw [Option.isSome_map, List.find?_isSome]
  exact ⟨_, h, by simp⟩

theorem files_unique (H : E.Good) {l : List (Str × Str × Bool)} {n n' : Node} (h : Files E l n) (h' : Files E l n') : n = n' := by
  obtain ⟨fs, h1, rfl⟩ := h
  obtain ⟨fs', h1', rfl⟩ := h'
  suffices fs = fs' by rw [this]
  rw [← h1'] at h1
  clear h1'
  induction fs generalizing fs' with
  | nil =>
    cases fs' with
    | nil => rfl
    | cons a t => simp at h1
  | cons a t ih =>
    cases fs' with
    | nil => simp at h1
    | cons b t' =>
      obtain ⟨x, c, e⟩ := a
      obtain ⟨x', c', e'⟩ := b
      simp only [List.map_cons, List.cons.injEq, Prod.mk.injEq] at h1
      obtain ⟨⟨h1, h2, h3⟩, h4⟩ := h1
      rw [h1, H.blob _ _ h2, h3, ih t' h4]

theorem contentList_last (l : List Archive) : Ascending (contentList l) ∧
    ∀ x, assoc x (contentList l) = (l.reverse.find? fun a => a.file = x).map (·.hash) := by
  unfold contentList
  suffices h : ∀ (m : List (Str × Str)), Ascending m →
      Ascending (l.foldl (fun m a => OMap.insertList (fun _ new => new) a.file a.hash m) m) ∧
      ∀ x, assoc x (l.foldl (fun m a => OMap.insertList (fun _ new => new) a.file a.hash m) m) =
        ((l.reverse.find? fun a => a.file = x).map (·.hash)).or (assoc x m) by
    have := h [] List.Pairwise.nil
    refine ⟨this.1, fun x => ?_⟩
    rw [this.2 x]
    simp [assoc]
  induction l with
  | nil => exact fun m hm => ⟨hm, fun x => by simp⟩
  | cons a t ih =>
    intro m hm
    have h1 := OMap.insertList_asc (fun _ new => new) a.file a.hash m hm
    obtain ⟨h2, h3⟩ := ih _ h1
    refine ⟨h2, fun x => ?_⟩
    rw [List.foldl_cons, h3 x, assoc_insertList _ _ _ _ hm, List.reverse_cons, List.find?_append]
    cases hf : t.reverse.find? fun a => a.file = x with
    | some b => simp
    | none =>
      by_cases hx : x = a.file
      · subst hx
        simp only [Option.map_none, Option.none_or, if_true, List.find?_cons, decide_true, Option.map_some, Option.some_or]
        split <;> rfl
      · have hx' : ¬ a.file = x := fun h => hx h.symm
        simp [hx, hx']

theorem run_downloadFrom (l : List Str) (w : World) : (run O (downloadFrom l) w).2.1 = w ∧
    ∀ r, (run O (downloadFrom l) w).2.2 = some r → ∀ c, r = some c → ∃ u ∈ l, O (.download u) = .text c := by
  induction l with
  | nil => exact ⟨rfl, fun r h c hc => by cases h; cases hc⟩
  | cons u us ih =>
    simp only [downloadFrom]
    rw [run_question]
    cases hO : O (.download u) with
    | text c =>
      refine ⟨rfl, fun r h d hd => ?_⟩
      cases h
      cases hd
      exact ⟨u, List.mem_cons_self, hO⟩
    | _ =>
      refine ⟨ih.1, fun r h d hd => ?_⟩
      obtain ⟨v, h1, h2⟩ := ih.2 r h d hd
      exact ⟨v, List.mem_cons_of_mem _ h1, h2⟩

theorem run_fetch (a : Archive) (w : World) : ((run O (fetch E C a) w).2 = (w, none)) ∨
    ∃ c, (∃ u ∈ locations C a, O (.download u) = .text c) ∧ (∀ s, a.sha256 = some s → E.sha256 c = s) ∧
      (∀ s, a.sha512 = some s → E.sha512 c = s) ∧ (run O (fetch E C a) w).2.1 = w.store c ∧
      ((run O (fetch E C a) w).2.2 = some () ↔ ((w.store c).content E a.hash).isSome) := by
  unfold fetch
  split
  · exact .inl rfl
  · have hb := run_bind O (downloadFrom (locations C a)) (fun r => match r with
      | none => .fail
      | some c =>
        if a.sha256 ≠ none ∧ a.sha256 ≠ some (E.sha256 c) then .fail
        else if a.sha512 ≠ none ∧ a.sha512 ≠ some (E.sha512 c) then .fail
        else do
          change (World.store c)
          let _ ← need fun w => w.content E a.hash
          .ret ()) w
    obtain ⟨h1, h2⟩ := run_downloadFrom (O := O) (locations C a) w
    rcases hd : run O (downloadFrom (locations C a)) w with ⟨qs, w', r⟩
    rw [hd] at h1 h2 hb
    simp only at h1 h2 hb
    subst h1
    cases r with
    | none => exact .inl (congrArg Prod.snd hb)
    | some r =>
      cases r with
      | none => exact .inl (congrArg Prod.snd hb)
      | some c =>
        simp only at hb
        by_cases h256 : a.sha256 ≠ none ∧ a.sha256 ≠ some (E.sha256 c)
        · rw [if_pos h256] at hb
          exact .inl (congrArg Prod.snd hb)
        · rw [if_neg h256] at hb
          by_cases h512 : a.sha512 ≠ none ∧ a.sha512 ≠ some (E.sha512 c)
          · rw [if_pos h512] at hb
            exact .inl (congrArg Prod.snd hb)
          · rw [if_neg h512] at hb
            refine .inr ⟨c, h2 _ rfl c rfl, fun s hs => ?_, fun s hs => ?_, ?_⟩
            · by_contra hne
              exact h256 ⟨by rw [hs]; simp, by rw [hs]; simpa using fun h => hne h.symm⟩
            · by_contra hne
              exact h512 ⟨by rw [hs]; simp, by rw [hs]; simpa using fun h => hne h.symm⟩
            · have h3 := congrArg Prod.snd hb
              simp only [run_change] at h3
              cases hc : (w'.store c).content E a.hash with
              | none =>
                have : run O (need (fun w => World.content E w a.hash) >>= fun _ => Prog.ret () : Task Unit) (w'.store c) =
                    ([], w'.store c, none) := by
                  have e : run O (need (fun w => World.content E w a.hash) : Task Str) (w'.store c) = ([], w'.store c, none) := by
                    simp only [need, run, hc, id]
                  show run O (Prog.bind (need fun w => World.content E w a.hash) _) _ = _
                  rw [run_bind, e]
                rw [this] at h3
                refine ⟨(congrArg Prod.fst h3), ?_⟩
                have h4 := congrArg Prod.snd h3
                simp only at h4
                constructor
                · intro h; exact absurd (h4.symm.trans h) (by simp)
                · intro h; cases h
              | some d =>
                rw [run_need (f := fun w => World.content E w a.hash) hc] at h3
                refine ⟨congrArg Prod.fst h3, ?_⟩
                have h4 := congrArg Prod.snd h3
                exact ⟨fun _ => rfl, fun _ => h4⟩

end Verif.Mr
