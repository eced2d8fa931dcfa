import Verif.Serve.SourceLemmas
import Verif.Mr.Example

/-!
# The serve endpoint: what is served for commits, archives, and files
-/

namespace Verif.Mr.Source

open Verif.Symlinks (Node Mode)

/-- Requests for an archive give its hash, and nothing else. -/
def Request.Plain (S : Site) : Request → Prop
  | .archive h _ _ _ _ => S.hashy h = true
  | _ => True

/-- What is wanted of the reply to a request. For commits, archives, and files, a tree is given if and only if the status is `OK` or
`SYNC_ERROR`; it is the tree asked for, and the endpoint has it with everything it refers to. If `OK`, and asked for, it is at the remote. A
blob or tree asked to be put to the remote is there if the status is `OK`. If a tree is said to be known, or taken from the remote,
the endpoint has it. -/
def Answered (E : Env) (S : Site) (put putBlob : Str → Prop) : Request → Reply → World → Prop
  | .commit h sub s, r, w =>
    Told (fun t v => ∃ n, Committed E (S.cut h) sub n ∧ gid E n = t ∧ Has S n v) put s r w
  | .archive h ty sub sp s, r, w =>
    Told (fun t v => ∃ n, Contents E ⟨⟨h, none, [], [], none, none⟩, ty, sub, sp, false⟩ n ∧ gid E n = t ∧ Kept v.young n) put s r w
  | .distdir l s, r, w =>
    Told (fun t v => ∃ n, Files E ((sorted l).map fun e => (e.1, S.cut e.2.1, e.2.2)) n ∧ gid E n = t ∧ Has S n v) put s r w
  | .content h, r, _ => r = .answer .ok none → (∃ c, E.blobId c = S.cut h ∨ E.blobId c = h) ∧ putBlob h
  | .tree t, r, _ => r = .answer .ok none → put t
  | .check t, r, w => r = .answer .notFound none ∨ r = .answer .ok none ∧ ∃ n, isTree n = true ∧ gid E n = S.cut t ∧ Has S n w
  | .get t, r, w => r = .answer .ok none ∧ ∃ n, isTree n = true ∧ gid E n = S.cut t ∧ Has S n w

/-- What may run on one storage: `just-mr` setting up roots, and the endpoint handling requests. -/
def both (E : Env) (S : Site) (C : Conf) : Key ⊕ { r : Request // r.Plain S } → Task (Root ⊕ Reply)
  | .inl k => setup E C k >>= fun a => .ret (.inl a)
  | .inr r => serve E S r.1 >>= fun a => .ret (.inr a)

variable {E : Env} {S : Site} {served put putBlob : Str → Prop}

theorem valid_map {R : Rules World Query Answer} {α β : Type} (f : α → β) {p : Task α} {w : World} {post : β → World → Prop}
    (h : Valid R p w fun a => post (f a)) : Valid R (p >>= fun a => .ret (f a)) w post := by
  show Valid R (p.bind _) w post
  induction p generalizing w with
  | ret a => exact h
  | fail => trivial
  | act g k ih => exact fun v hv hi => ⟨(h v hv hi).1, (h v hv hi).2.1, ih v (h v hv hi).2.2⟩
  | ask q k ih => exact fun v hv hi a ha => ih a (h v hv hi a ha)

theorem serve_valid (H : E.Good) (G : S.Good) (F : S.Fine E) (r : Request) (hp : r.Plain S) (w : World) :
    Valid (rulesPut E served put putBlob) (serve E S r) w (Answered E S put putBlob r) := by
  cases r with
  | commit h sub s => exact commit_valid' F h sub s w
  | archive h ty sub sp s => exact archive_valid' H G hp ty sub sp s w
  | distdir l s => exact distdir_valid' H F l s w
  | content h => exact content_valid h w
  | tree t => exact tree_valid t w
  | check t => exact check_valid H G F t w
  | get t => exact get_valid H G t w

/-- The replies of the endpoint are as wanted, whatever other requests and whatever runs of `just-mr` are handled at the same time or before on
the same storage, with any number of generations, and with garbage collection in between, also if processes are killed.
Missing: requests for archives where what is given as hash is something else (V92, V93). -/
theorem C104_right_partial (C : Conf) (H : E.Good) (G : S.Good) (F : S.Fine E) (n : Nat)
    (c : Pool World Query Answer (Key ⊕ { r : Request // r.Plain S }) (Root ⊕ Reply))
    (h : Reach (both E S C) (HonestPut E served put putBlob) (Other E) (Alone E) (fresh n) c)
    (r : { r : Request // r.Plain S }) (a : Reply) (ha : (.inr r, .ret (.inr a)) ∈ c.tasks) : Answered E S put putBlob r.1 a c.world := by
  have := reach_valid (R := rulesPut E served put putBlob) (w := fresh n)
    (post := fun k a w => match k, a with
      | .inl k, .inl a => Right E C served k a w
      | .inr r, .inr a => Answered E S put putBlob r.1 a w
      | _, _ => False)
    (fresh_ok n) (fun key v _ => ?_) other_ok alone_ok h
  · exact this.2 _ ha c.world ((rulesPut E served put putBlob).refl _) this.1
  · cases key with
    | inl k => exact valid_map Sum.inl (valid_put (setup_valid H k v))
    | inr r => exact valid_map Sum.inr (serve_valid H G F r.1 r.2 v)

/-! ## What clients rely on -/

/-- Clients give identifiers. -/
def Request.Proper (S : Site) : Request → Prop
  | .commit h _ _ => S.hashy h = true
  | .archive h _ _ _ _ => S.hashy h = true
  | .distdir _ _ => True
  | .content h => S.hashy h = true
  | .tree t => S.hashy t = true
  | .check t => S.hashy t = true
  | .get t => S.hashy t = true

/-- What `just-mr` relies on in C87 to C92 is true: for its questions, the answers it reads from the replies of the endpoint are honest, where
what is served are the trees the endpoint has with everything they refer to. -/
theorem C104_honest (G : S.Good) (q : Query) (r : Request) (hq : requestOf q = some r) (hp : r.Proper S) (a : Reply) (w : World)
    (h : Answered E S put putBlob r a w) : Honest E (fun t => ∃ n, gid E n = t ∧ Has S n w) q (answerOf a) := by
  have kept : ∀ n, Kept w.young n → Has S n w := fun n hn => .inl hn.there
  cases q with
  | serveCommit hash sub s =>
    cases hq
    rcases a with _ | ⟨st, _ | t⟩ <;> try (cases st <;> first | trivial | exact h.elim)
    · trivial
    cases st with
    | ok =>
      obtain ⟨⟨n, h1, h2, h3⟩, -⟩ := h
      rw [G.cut _ hp] at h1
      exact ⟨⟨n, h1, h2⟩, n, h2, h3⟩
    | _ => trivial
  | serveArchive hash ty sub sp =>
    cases hq
    rcases a with _ | ⟨st, _ | t⟩ <;> try (cases st <;> first | trivial | exact h.elim)
    · trivial
    cases st with
    | ok =>
      obtain ⟨⟨n, h1, h2, h3⟩, -⟩ := h
      exact ⟨⟨n, h1, h2⟩, n, h2, kept n h3⟩
    | _ => trivial
  | serveForeign hash x e =>
    cases hq
    rcases a with _ | ⟨st, _ | t⟩ <;> try (cases st <;> first | trivial | exact h.elim)
    · trivial
    cases st with
    | ok =>
      obtain ⟨⟨n, h1, h2, h3⟩, -⟩ := h
      exact ⟨n, h2, h3⟩
    | _ => trivial
  | serveDistdir l s =>
    cases hq
    rcases a with _ | ⟨st, _ | t⟩ <;> try (cases st <;> first | trivial | exact h.elim)
    · trivial
    cases st with
    | ok =>
      obtain ⟨⟨n, h1, h2, h3⟩, -⟩ := h
      exact ⟨n, h2, h3⟩
    | _ => trivial
  | checkRoot t =>
    cases hq
    rcases h with rfl | ⟨rfl, n, _, h2, h3⟩
    · trivial
    · rw [G.cut _ hp] at h2
      exact ⟨n, h2, h3⟩
  | serveGet t =>
    cases hq
    obtain ⟨rfl, n, _, h2, h3⟩ := h
    rw [G.cut _ hp] at h2
    exact ⟨n, h2, h3⟩
  | upload t =>
    cases hq
    obtain ⟨rfl, n, _, h2, h3⟩ := h
    rw [G.cut _ hp] at h2
    exact ⟨n, h2, h3⟩
  | _ => cases hq

/-! ## What is at hand is served -/

variable {O : Query → Answer}

theorem search_there {α : Type} {f : Repo → Lookup α} {l : List (Option Repo)} (hn : none ∉ l) (hf : ∀ r, f r ≠ .fatal) {r : Repo} {a : α}
    (hr : some r ∈ l) (ha : f r = .found a) : ∃ a' r', searchKnown f l = .found (a', r') := by
  induction l with
  | nil => cases hr
  | cons o l ih =>
    cases o with
    | none => exact absurd List.mem_cons_self hn
    | some r' =>
      simp only [searchKnown]
      cases hx : f r' with
      | found b => exact ⟨b, r', rfl⟩
      | fatal => exact absurd hx (hf r')
      | notFound =>
        rcases List.mem_cons.1 hr with hr | hr
        · cases hr; rw [ha] at hx; cases hx
        · exact ih (fun h => hn (List.mem_cons_of_mem _ h)) hr

theorem search_none {α : Type} {f : Repo → Lookup α} {l : List (Option Repo)} (h : searchKnown f l = .notFound) {r : Repo}
    (hr : some r ∈ l) : f r = .notFound := by
  induction l with
  | nil => cases hr
  | cons o l ih =>
    cases o with
    | none => cases h
    | some r' =>
      simp only [searchKnown] at h
      split at h
      · cases h
      · cases h
      · rename_i hx
        rcases List.mem_cons.1 hr with hr | hr
        · cases hr; exact hx
        · exact ih h hr

theorem commitIn_eq {h : Str} {sub : List Str} {n : Node} (G : S.Good) (hh : S.hashy h = true) (hc : Committed E h sub n) (r : Repo) :
    commitIn E S h sub r = if h ∈ r.commits then .found (gid E n) else .notFound := by
  obtain ⟨es, h1, h2⟩ := hc
  unfold commitIn Site.oid
  rw [G.cut h hh, if_pos hh]
  simp only [h1, h2]

/-- The tree of a commit is served, without asking anybody and without changing anything, if the commit is in the git cache or in one of the
configured repositories, provided these can be opened. -/
theorem C104_commit (G : S.Good) (ho : none ∉ S.known) (h : Str) (sub : List Str) (n : Node) (hh : S.hashy h = true)
    (hc : Committed E h sub n) (w : World) (hm : h ∈ w.young.commits ∨ ∃ r, some r ∈ S.known ∧ h ∈ r.commits) :
    run O (serve E S (.commit h sub false)) w = ([], w, some (.answer .ok (some (gid E n)))) := by
  show run O (serveCommit E S h sub false) w = _
  unfold serveCommit
  rw [run_look, commitIn_eq G hh hc]
  by_cases hy : h ∈ w.young.commits
  · rw [if_pos (show h ∈ w.young.repo.commits from hy)]; rfl
  · rw [if_neg (show h ∉ w.young.repo.commits from hy)]
    rcases hm with hm | ⟨r, hr, hm⟩
    · exact absurd hm hy
    · obtain ⟨t, r', hs⟩ := search_there (f := commitIn E S h sub) ho (fun r => by
        rw [commitIn_eq G hh hc]; split <;> exact fun h => nomatch h) hr (by rw [commitIn_eq G hh hc, if_pos hm])
      have := (search_found hs).2
      rw [commitIn_eq G hh hc] at this
      split at this
      · cases this
        simp only [hs]
        rfl
      · cases this

/-- A commit is said to be unknown only if neither the git cache nor a configured repository has it. -/
theorem C104_commit_unknown (G : S.Good) (F : S.Fine E) (h : Str) (sub : List Str) (s : Bool) (hh : S.hashy h = true) (w : World)
    (hi : Inv E w) (t : Option Str) (hr : (run O (serve E S (.commit h sub s)) w).2.2 = some (.answer .notFound t)) :
    h ∉ w.young.commits ∧ ∀ r, some r ∈ S.known → h ∉ r.commits := by
  have key : ∀ r : Repo, RepoOk E r → h ∈ r.commits → commitIn E S h sub r ≠ .notFound := fun r hr hm => by
    obtain ⟨es, h1, -⟩ := hr.commits h hm
    unfold commitIn Site.oid
    rw [G.cut h hh, if_pos hh]
    simp only [h1, if_pos hm]
    split <;> exact fun h => nomatch h
  have nosync : ∀ (objs : World → List Node) (u : Str), (run O (sync E objs u s) w).2.2 ≠ some (.answer .notFound t) := fun objs u => by
    unfold sync
    split
    · rw [run_look]
      split
      · exact fun h => nomatch h
      · rw [run_question]
        split <;> exact fun h => nomatch h
    · exact fun h => nomatch h
  change (run O (serveCommit E S h sub s) w).2.2 = _ at hr
  unfold serveCommit at hr
  rw [run_look] at hr
  split at hr
  · exact absurd hr (nosync _ _)
  · cases hr
  · rename_i hx
    refine ⟨fun hm => key w.young.repo ⟨hi.young.tags, hi.young.commits, hi.young.closed⟩ hm hx, fun r hk hm => ?_⟩
    split at hr
    · exact absurd hr (nosync _ _)
    · cases hr
    · rename_i hs
      exact key r (F r hk) hm (search_none hs hk)

/-- The program gives a tree, asking only to resolve symbolic links. -/
def Serves (O : Query → Answer) (p : Task Reply) (w : World) : Prop :=
  (∀ q ∈ (run O p w).1, ∃ m n, q = .resolve m n) ∧ ∃ t, (run O p w).2.2 = some (.answer .ok (some t))

theorem Serves.of_eq {p p' : Task Reply} {w w' : World} (h : run O p w = run O p' w') (hp : Serves O p' w') : Serves O p w := by
  unfold Serves
  rw [h]
  exact hp

theorem Serves.ret (t : Str) (w : World) : Serves O (.ret (.answer .ok (some t))) w := ⟨fun _ hq => absurd hq List.not_mem_nil, t, rfl⟩

theorem resolveTree_serves (H : E.Good) (sp : Option Mode) {n : Node} {w : World} (objs : World → List Node)
    (hr : ∀ m, sp = some m → isTree n = true ∧ ∃ n', O (.resolve m n) = .node n' ∧ isTree n' = true) (hn : n ∈ objs w) :
    Serves O (resolveTree E objs (gid E n) sp false) w := by
  unfold resolveTree
  cases sp with
  | none => exact .ret _ w
  | some m =>
    obtain ⟨h1, n', h2, h3⟩ := hr m rfl
    obtain ⟨es, rfl⟩ := (isTree_iff n).1 h1
    obtain ⟨fs, rfl⟩ := (isTree_iff n').1 h3
    refine .of_eq (run_look _ _ _) ?_
    cases read (m, gid E (.tree es)) w.young.special with
    | some t' => exact .ret _ w
    | none =>
      refine .of_eq (run_look _ _ _) ?_
      rw [findTree_there H hn]
      have : Serves O (question (.resolve m (.tree es)) >>= fun a => match a with
          | .node n' => do
            change (World.addObjs (below n'))
            tryTo (World.keep E (gid E n'))
            change (World.writeSpecial m (gid E (.tree es)) (gid E n'))
            sync E objs (gid E n') false
          | _ => .ret (.answer .resolveError none)) w := by
        refine ⟨fun q hq => ?_, ?_⟩
        · rw [run_question] at hq
          rcases List.mem_cons.1 hq with rfl | hq
          · exact ⟨_, _, rfl⟩
          · rw [h2] at hq
            simp only at hq
            rw [run_change, run_tryTo (keep_there H (List.mem_append_left _ (self_below _)))] at hq
            cases hq
        · rw [run_question, h2]
          simp only
          rw [run_change, run_tryTo (keep_there H (List.mem_append_left _ (self_below _)))]
          exact ⟨_, rfl⟩
      exact this

theorem blobIn_eq (G : S.Good) {h : Str} (hh : S.hashy h = true) (l : List Node) :
    blobIn E S h l = match findBlob E h l with
      | some c => .found c
      | none => .notFound := by
  unfold blobIn Site.oid
  rw [G.cut h hh, if_pos hh]
  rfl

theorem findBlob_mem {h c : Str} {l : List Node} (hf : findBlob E h l = some c) : ∃ m ∈ l, blob? m = some c :=
  List.mem_filterMap.1 (List.mem_of_find?_eq_some hf)

/-- The tree of an archive is served, asking nobody but for symbolic links to be resolved, if it was served before, or the content is in CAS or in
one of the configured repositories, provided these can be opened. Missing: the content being in the git cache (V91). -/
theorem C104_archive_partial (H : E.Good) (G : S.Good) (ho : none ∉ S.known) (h ty : Str) (sub : List Str) (sp : Option Mode)
    (hh : S.hashy h = true) (c : Str) (es : List (Str × Node)) (n : Node) (hc : E.blobId c = h) (he : E.extract ty c = some es)
    (hn : (Node.tree es).find sub = some n) (w : World) (hi : Inv E w)
    (hr : ∀ m, sp = some m → isTree n = true ∧ ∃ n', O (.resolve m n) = .node n' ∧ isTree n' = true)
    (hm : (read (ty, h) w.young.arch).isSome ∨ c ∈ w.cas ∨
      (∀ m ∈ w.young.objs, blob? m ≠ some c) ∧ ∃ r, some r ∈ S.known ∧ ∃ m ∈ r.objs, blob? m = some c) :
    Serves O (serve E S (.archive h ty sub sp false)) w := by
  show Serves O (serveArchive E S h ty sub sp false) w
  unfold serveArchive
  refine .of_eq (run_look _ _ _) ?_
  rw [G.place h hh]
  have imp : ∀ v : World, Serves O (importArchive E S h ty sub sp false c) v := fun v => by
    unfold importArchive
    rw [he]
    obtain ⟨u, hu, e⟩ := run_importDir (O := O) (E := E) H es (fun t => (do
      change (World.writeArch ty (S.place h) t)
      match ← look fun w => subtreeIn E t sub w.young.objs with
      | .found u => resolveTree E cache u sp false
      | _ => .fail)) v
    refine .of_eq e (.of_eq (run_change _ _ _) (.of_eq (run_look _ _ _) ?_))
    rw [subtreeIn_kept H (l := ((World.writeArch ty (S.place h) (gid E (.tree es)) u)).young.objs) (hu _ (self_below _)), hn]
    exact resolveTree_serves H sp cache hr (hu n (find_below hn))
  cases hx : read (ty, h) w.young.arch with
  | some t =>
    obtain ⟨c', es', h1, h2, rfl, hk⟩ := hi.young.arch _ _ _ (read_mem hx)
    have : c' = c := H.blob _ _ (h1.trans hc.symm)
    subst this
    rw [h2] at he
    cases he
    refine .of_eq (run_look _ _ _) ?_
    rw [subtreeIn_kept H (hk.there _ (self_below _)), hn]
    exact resolveTree_serves H sp cache hr (hk.there n (find_below hn))
  | none =>
    have get : ∃ v, run O (getContent E S h) w = ([], v, some (.inr c)) := by
      unfold getContent
      rw [run_look, if_pos hh]
      by_cases hw : c ∈ w.cas
      · rw [content_there H hw hc]
        exact ⟨w, rfl⟩
      · have hnone : w.content E h = none := by
          cases hcc : w.content E h with
          | none => rfl
          | some d =>
            obtain ⟨d1, d2⟩ := content_some hcc
            exact absurd (H.blob _ _ (d2.trans hc.symm) ▸ d1) hw
        rw [hnone]
        rcases hm with hm | hm | ⟨hm, r, hk, m, hmr, hmb⟩
        · rw [hx] at hm; cases hm
        · exact absurd hm hw
        · have hy : blobIn E S h w.young.objs = .notFound := by
            rw [blobIn_eq G hh]
            cases hf : findBlob E h w.young.objs with
            | none => rfl
            | some d =>
              obtain ⟨m', q1, q2⟩ := findBlob_mem hf
              have : d = c := H.blob _ _ ((findBlob_some hf).trans hc.symm)
              exact absurd (this ▸ q2) (hm m' q1)
          obtain ⟨c', r', hs⟩ := search_there (f := fun r => blobIn E S h r.objs) ho (fun r => by
            rw [blobIn_eq G hh]; split <;> exact fun h => nomatch h) hk (a := c) (by
              obtain ⟨d, hd⟩ := Option.isSome_iff_exists.1 (findBlob_there hc hmr hmb)
              rw [blobIn_eq G hh, hd, H.blob _ _ ((findBlob_some hd).trans hc.symm)])
          have hc' := blobIn_found (search_found hs).2
          rw [G.cut h hh] at hc'
          have : c' = c := H.blob _ _ (hc'.trans hc.symm)
          subst this
          refine ⟨w.store c', ?_⟩
          simp only
          rw [run_look, hy]
          simp only [hs]
          rfl
    obtain ⟨v, hv⟩ := get
    refine .of_eq (w' := v) (p' := importArchive E S h ty sub sp false c) ?_ (imp v)
    show run O ((getContent E S h).bind _) w = _
    rw [run_bind, hv]
    rfl

/-- The content is at hand: in the CAS if the endpoint is used natively, in the git cache, or in a configured repository. -/
def Near (S : Site) (c : Str) (w : World) : Prop :=
  (S.native = true ∧ c ∈ w.cas) ∨ (∃ m ∈ w.young.objs, blob? m = some c) ∨ ∃ r, some r ∈ S.known ∧ ∃ m ∈ r.objs, blob? m = some c

theorem getFile_run (H : E.Good) (G : S.Good) (ho : none ∉ S.known) {h c : Str} (hh : S.hashy h = true) (hc : E.blobId c = h) {w : World}
    (hn : Near S c w) : ∃ v : World, run O (getFile E S h) w = ([], v, some none) ∧ v.young = w.young ∧ (∀ d ∈ w.cas, d ∈ v.cas) ∧ c ∈ v.cas := by
  unfold getFile
  rw [run_look]
  split
  · rename_i d hd
    split at hd
    · obtain ⟨d1, d2⟩ := content_some hd
      exact ⟨w, rfl, rfl, fun _ h => h, H.blob _ _ (d2.trans hc.symm) ▸ d1⟩
    · cases hd
  · rename_i hd
    rw [run_look]
    rw [blobIn_eq G hh]
    cases hf : findBlob E h w.young.objs with
    | some d =>
      have : d = c := H.blob _ _ ((findBlob_some hf).trans hc.symm)
      subst this
      exact ⟨w.store d, rfl, rfl, fun _ h => List.mem_cons_of_mem _ h, List.mem_cons_self⟩
    | none =>
      rcases hn with ⟨h1, h2⟩ | ⟨m, h1, h2⟩ | ⟨r, hk, m, h1, h2⟩
      · rw [if_pos ⟨h1, hh⟩, content_there H h2 hc] at hd
        cases hd
      · have := findBlob_there hc h1 h2
        rw [hf] at this
        cases this
      · obtain ⟨c', r', hs⟩ := search_there (f := fun r => blobIn E S h r.objs) ho (fun r => by
            rw [blobIn_eq G hh]; split <;> exact fun h => nomatch h) hk (a := c) (by
              obtain ⟨d, hd⟩ := Option.isSome_iff_exists.1 (findBlob_there hc h1 h2)
              rw [blobIn_eq G hh, hd, H.blob _ _ ((findBlob_some hd).trans hc.symm)])
        have hc' := blobIn_found (search_found hs).2
        rw [G.cut h hh] at hc'
        have : c' = c := H.blob _ _ (hc'.trans hc.symm)
        subst this
        refine ⟨w.store c', ?_, rfl, fun _ h => List.mem_cons_of_mem _ h, List.mem_cons_self⟩
        simp only [hs]
        rfl

theorem getFiles_run (H : E.Good) (G : S.Good) (ho : none ∉ S.known) (l : List (Str × Str × Bool)) {w : World}
    (hl : ∀ e ∈ l, S.hashy e.2.1 = true ∧ S.hex e.2.1 = true ∧ fileName e.1 = true ∧ ∃ c, E.blobId c = e.2.1 ∧ Near S c w) :
    ∃ v : World, run O (getFiles E S l) w = ([], v, some none) ∧ v.young = w.young ∧ (∀ d ∈ w.cas, d ∈ v.cas) ∧
      ∀ e ∈ l, ∃ c ∈ v.cas, E.blobId c = e.2.1 := by
  induction l generalizing w with
  | nil => exact ⟨w, rfl, rfl, fun _ h => h, fun _ h => absurd h List.not_mem_nil⟩
  | cons e l ih =>
    obtain ⟨x, h, b⟩ := e
    obtain ⟨h1, h2, h3, c, h4, h5⟩ := hl (x, h, b) List.mem_cons_self
    obtain ⟨v, e1, e2, e3, e4⟩ := getFile_run (O := O) H G ho h1 h4 h5
    obtain ⟨u, f1, f2, f3, f4⟩ := ih (w := v) fun e he => by
      obtain ⟨a1, a2, a3, d, a4, a5⟩ := hl e (List.mem_cons_of_mem _ he)
      refine ⟨a1, a2, a3, d, a4, ?_⟩
      rcases a5 with ⟨q1, q2⟩ | q | q
      · exact .inl ⟨q1, e3 d q2⟩
      · exact .inr (.inl (e2 ▸ q))
      · exact .inr (.inr q)
    refine ⟨u, ?_, f2.trans e2, fun d hd => f3 d (e3 d hd), fun e he => ?_⟩
    · show run O ((getFile E S h).bind _) w = _
      rw [run_bind, e1]
      simp only
      rw [if_pos ⟨h2, h3⟩, f1]
      rfl
    · rcases List.mem_cons.1 he with rfl | he
      · exact ⟨c, f3 c e4, h4⟩
      · exact f4 e he

theorem mem_insertList {V : Type} (k : Str) (v : V) (l : List (Str × V)) {e : Str × V}
    (h : e ∈ OMap.insertList (fun _ new => new) k v l) : e = (k, v) ∨ e ∈ l := by
  induction l with
  | nil => simpa [OMap.insertList] using h
  | cons a t ih =>
    simp only [OMap.insertList] at h
    split at h
    · rcases List.mem_cons.1 h with h | h
      · exact .inl h
      · exact .inr h
    · split at h
      · rcases List.mem_cons.1 h with h | h
        · rename_i hk _; exact .inl (h.trans (by rw [hk]))
        · exact .inr (List.mem_cons_of_mem _ h)
      · rcases List.mem_cons.1 h with h | h
        · exact .inr (h ▸ List.mem_cons_self)
        · exact (ih h).imp id (List.mem_cons_of_mem _)

theorem mem_sorted (l : List (Str × Str × Bool)) {e : Str × Str × Bool} (h : e ∈ sorted l) : e ∈ l := by
  have key : ∀ (l m : List (Str × Str × Bool)), e ∈ l.foldl (fun m e => OMap.insertList (fun _ new => new) e.1 e.2 m) m → e ∈ l ∨ e ∈ m := by
    intro l
    induction l with
    | nil => exact fun m h => .inr h
    | cons a t ih =>
      intro m h
      rcases ih _ h with h | h
      · exact .inl (List.mem_cons_of_mem _ h)
      · rcases mem_insertList _ _ _ h with h | h
        · exact .inl (h ▸ List.mem_cons_self)
        · exact .inr h
  exact (key l [] h).resolve_right List.not_mem_nil

theorem linkFiles_run (H : E.Good) (G : S.Good) (l : List (Str × Str × Bool)) {w : World}
    (hl : ∀ e ∈ l, S.hashy e.2.1 = true ∧ ∃ c ∈ w.cas, E.blobId c = e.2.1) :
    ∃ es, run O (linkFiles E S l) w = ([], w, some es) ∧ Files E (cutFiles S l) (.tree es) := by
  induction l with
  | nil => exact ⟨[], rfl, [], rfl, rfl⟩
  | cons e l ih =>
    obtain ⟨x, h, b⟩ := e
    obtain ⟨es, e1, fs, e2, e3⟩ := ih fun e he => hl e (List.mem_cons_of_mem _ he)
    obtain ⟨h1, c, h2, h3⟩ := hl (x, h, b) List.mem_cons_self
    refine ⟨(x, .file c b) :: es, ?_, (x, c, b) :: fs, ?_, ?_⟩
    · simp only [linkFiles]
      rw [run_need (content_there H h2 (h3.trans (G.cut h h1).symm))]
      show run O ((linkFiles E S l).bind _) w = _
      rw [run_bind, e1]
      rfl
    · simp only at h3
      simp only [List.map_cons, e2, h3]
      rw [G.cut h h1]
    · simp only [dirOf, Node.tree.injEq] at e3
      simp [dirOf, e3]

theorem known_some {t : Str} {l : List (Option Repo)} (h : none ∉ l) : ∃ x, knownTree E t l = some x := by
  induction l with
  | nil => exact ⟨_, rfl⟩
  | cons o l ih =>
    cases o with
    | none => exact absurd List.mem_cons_self h
    | some r =>
      simp only [knownTree]
      split
      · exact ⟨_, rfl⟩
      · exact ih fun hm => h (List.mem_cons_of_mem _ hm)

/-- The tree of a list of files is served without asking anybody, if all the files are at hand, and the configured repositories can be opened.
Which tree this is, is given by the list alone. -/
theorem C104_files (H : E.Good) (G : S.Good) (ho : none ∉ S.known) (l : List (Str × Str × Bool)) (w : World)
    (hl : ∀ e ∈ l, S.hashy e.2.1 = true ∧ S.hex e.2.1 = true ∧ fileName e.1 = true ∧ ∃ c, E.blobId c = e.2.1 ∧ Near S c w) :
    (run O (serve E S (.distdir l false)) w).1 = [] ∧ ∃ n, Files E (sorted l) n ∧
      (run O (serve E S (.distdir l false)) w).2.2 = some (.answer .ok (some (gid E n))) := by
  obtain ⟨v, e1, e2, e3, e4⟩ := getFiles_run (O := O) H G ho l hl
  obtain ⟨es, f1, f2⟩ := linkFiles_run (O := O) (w := v) H G (sorted l) fun e he => ⟨(hl e (mem_sorted l he)).1, e4 e (mem_sorted l he)⟩
  have hcut : cutFiles S (sorted l) = sorted l := by
    refine (List.map_congr_left fun e he => ?_).trans (List.map_id _)
    rw [G.cut _ (hl e (mem_sorted l he)).1]
    rfl
  have hid := files_tree f2
  rw [hcut] at f2
  have : ∃ u, run O (serveDistdir E S l false) w = ([], u, some (.answer .ok (some (gid E (.tree es))))) := by
    unfold serveDistdir
    show ∃ u, run O ((getFiles E S l).bind _) w = _
    rw [run_bind, e1]
    simp only [List.nil_append]
    rw [run_look, ← hid]
    cases findTree E (gid E (.tree es)) v.young.objs with
    | some n => exact ⟨v, rfl⟩
    | none =>
      obtain ⟨x, hx⟩ := known_some (E := E) (t := gid E (.tree es)) ho
      rw [hx]
      cases x with
      | some r => exact ⟨v, rfl⟩
      | none =>
        simp only [importFiles]
        show ∃ u, ((run O ((linkFiles E S (sorted l)).bind _) v).1, (run O ((linkFiles E S (sorted l)).bind _) v).2) = _
        rw [run_bind, f1]
        simp only [List.nil_append]
        obtain ⟨u, -, h⟩ := run_importDir (O := O) H es (fun t => if t = filesTree E S (sorted l) then sync E cache t false else .fail) v
        rw [h, if_pos hid]
        exact ⟨u, rfl⟩
  obtain ⟨u, hu⟩ := this
  exact ⟨by show (run O (serveDistdir E S l false) w).1 = []; rw [hu],
    _, f2, by show (run O (serveDistdir E S l false) w).2.2 = _; rw [hu]⟩

/-- Whether a tree is known is answered without asking the remote. -/
theorem C104_check_local (H : E.Good) (t : Str) (w : World) (q : Query) (hq : q ∈ (run O (serve E S (.check t)) w).1) : q = .localDir t := by
  change q ∈ (run O (checkRoot E S t) w).1 at hq
  unfold checkRoot at hq
  rw [run_look] at hq
  split at hq
  · cases hq
  · cases hq
  · split at hq
    · cases hq
    · cases hq
    · split at hq
      · rw [run_question] at hq
        rcases List.mem_cons.1 hq with hq | hq
        · exact hq
        · split at hq
          · rename_i es _
            obtain ⟨v, -, h⟩ := run_importDir (O := O) (E := E) H es (fun t' => if t' = t then .ret (Reply.answer .ok none) else .fail) w
            rw [h] at hq
            split at hq <;> cases hq
          · cases hq
          · cases hq
      · cases hq

/-! ## When the endpoint is terminated -/

theorem sync_quiet (objs : World → List Node) (t : Str) (s : Bool) (w : World) : (run O (sync E objs t s) w).2.2 ≠ some .crash := by
  unfold sync
  split
  · rw [run_look]
    split
    · exact fun h => nomatch h
    · rw [run_question]
      split <;> exact fun h => nomatch h
  · exact fun h => nomatch h

theorem run_tryTo' {β : Type} (f : World → Option World) (g : Unit → Task β) (w : World) :
    run O (tryTo f >>= g) w = match f w with
      | some v => run O (g ()) v
      | none => ([], w, none) := by
  cases h : f w with
  | some v => rw [run_tryTo h]
  | none =>
    have e : run O (tryTo f : Task Unit) w = ([], w, none) := by simp only [tryTo, run, h, Option.getD_none]
    show run O (Prog.bind (tryTo f) g) w = _
    rw [run_bind, e]

theorem run_need' {α β : Type} (f : World → Option α) (g : α → Task β) (w : World) :
    run O (need f >>= g) w = match f w with
      | some v => run O (g v) w
      | none => ([], w, none) := by
  cases h : f w with
  | some v => rw [run_need h]
  | none =>
    show run O (Prog.bind (match f w with
      | some a => .ret a
      | none => .fail) g) w = _
    rw [h]
    rfl

theorem resolveTree_quiet (objs : World → List Node) (t : Str) (sp : Option Mode) (s : Bool) (w : World) :
    (run O (resolveTree E objs t sp s) w).2.2 ≠ some .crash := by
  unfold resolveTree
  split
  · exact sync_quiet _ _ _ _
  · rw [run_look]
    split
    · exact sync_quiet _ _ _ _
    · rw [run_look]
      split
      · exact fun h => nomatch h
      · rw [run_question]
        split
        · rw [run_change, run_tryTo']
          split
          · rw [run_change]
            exact sync_quiet _ _ _ _
          · exact fun h => nomatch h
        · exact fun h => nomatch h

theorem importArchive_quiet (H : E.Good) (h ty : Str) (sub : List Str) (sp : Option Mode) (s : Bool) (c : Str) (w : World) :
    (run O (importArchive E S h ty sub sp s c) w).2.2 ≠ some .crash := by
  unfold importArchive
  split
  · exact fun h => nomatch h
  · rename_i es _
    obtain ⟨v, -, e⟩ := run_importDir (O := O) (E := E) H es (fun t => (do
      change (World.writeArch ty (S.place h) t)
      match ← look fun w => subtreeIn E t sub w.young.objs with
      | .found u => resolveTree E cache u sp s
      | _ => .fail)) w
    intro hc
    have hc' := (congrArg (fun z => z.2.2) e).symm.trans hc
    simp only [run_change, run_look] at hc'
    split at hc'
    · exact resolveTree_quiet _ _ _ _ _ hc'
    · cases hc'

theorem getFile_quiet (h : Str) (w : World) : (run O (getFile E S h) w).2.2 ≠ some (some .crash) := by
  unfold getFile
  rw [run_look]
  split
  · exact fun h => nomatch h
  · rw [run_look]
    split
    · exact fun h => nomatch h
    · exact fun h => nomatch h
    · split
      · exact fun h => nomatch h
      · exact fun h => nomatch h
      · split
        · rw [run_question]
          split <;> exact fun h => nomatch h
        · exact fun h => nomatch h

theorem getFiles_quiet (l : List (Str × Str × Bool)) (w : World) : (run O (getFiles E S l) w).2.2 ≠ some (some .crash) := by
  induction l generalizing w with
  | nil => exact fun h => nomatch h
  | cons e l ih =>
    obtain ⟨x, h, b⟩ := e
    simp only [getFiles]
    show (run O ((getFile E S h).bind _) w).2.2 ≠ _
    rw [run_bind]
    have hq := getFile_quiet (O := O) (E := E) (S := S) h w
    generalize run O (getFile E S h) w = z at hq ⊢
    rcases z with ⟨q, v, _ | _ | r⟩
    · exact fun h => nomatch h
    · simp only
      split
      · exact ih v
      · exact fun h => nomatch h
    · exact fun h => hq h

/-- When the request is given by identifiers, all configured repositories can be opened, and the content of an archive asked for is not only
in the git cache, the endpoint is not terminated. Missing: these conditions (V91, V93, V94). -/
theorem C104_alive_partial (H : E.Good) (G : S.Good) (ho : none ∉ S.known) (r : Request) (hp : r.Proper S) (w : World)
    (hb : ∀ h ty sub sp s, r = .archive h ty sub sp s → ∀ c, E.blobId c = h → (∃ m ∈ w.young.objs, blob? m = some c) → c ∈ w.cas) :
    (run O (serve E S r) w).2.2 ≠ some .crash := by
  cases r with
  | commit h sub s =>
    show (run O (serveCommit E S h sub s) w).2.2 ≠ _
    unfold serveCommit
    rw [run_look]
    split
    · exact sync_quiet _ _ _ _
    · exact fun h => nomatch h
    · split
      · exact sync_quiet _ _ _ _
      · exact fun h => nomatch h
      · exact fun h => nomatch h
  | archive h ty sub sp s =>
    show (run O (serveArchive E S h ty sub sp s) w).2.2 ≠ _
    have hh : S.hashy h = true := hp
    unfold serveArchive
    rw [run_look]
    split
    · rw [run_look]
      split
      · exact resolveTree_quiet _ _ _ _ _
      · exact fun h => nomatch h
      · split
        · exact resolveTree_quiet _ _ _ _ _
        · exact fun h => nomatch h
    · show (run O ((getContent E S h).bind _) w).2.2 ≠ _
      rw [run_bind]
      have hq : (run O (getContent E S h) w).2.2 ≠ some (.inl .crash) := by
        unfold getContent
        rw [run_look, if_pos hh]
        split
        · exact fun h => nomatch h
        · rename_i hn
          rw [run_look, blobIn_eq G hh]
          cases hf : findBlob E h w.young.objs with
          | some c =>
            have hc := hb _ _ _ _ _ rfl c (findBlob_some hf) (findBlob_mem hf)
            rw [content_there H hc (findBlob_some hf)] at hn
            cases hn
          | none =>
            simp only
            split
            · exact fun h => nomatch h
            · exact fun h => nomatch h
            · rw [if_pos hh, run_question]
              split
              · rw [run_change, run_need']
                split <;> exact fun h => nomatch h
              · exact fun h => nomatch h
      generalize run O (getContent E S h) w = z at hq ⊢
      rcases z with ⟨q, v, _ | r | c⟩
      · exact fun h => nomatch h
      · exact fun h => hq (by cases h; rfl)
      · exact importArchive_quiet H h ty sub sp s c v
  | distdir l s =>
    show (run O (serveDistdir E S l s) w).2.2 ≠ _
    unfold serveDistdir
    show (run O ((getFiles E S l).bind _) w).2.2 ≠ _
    rw [run_bind]
    have hq := getFiles_quiet (O := O) (E := E) (S := S) l w
    generalize run O (getFiles E S l) w = z at hq ⊢
    rcases z with ⟨q, v, _ | _ | r⟩
    · exact fun h => nomatch h
    · simp only
      rw [run_look]
      split
      · exact sync_quiet _ _ _ _
      · obtain ⟨x, hx⟩ := known_some (E := E) (t := filesTree E S (sorted l)) ho
        rw [hx]
        cases x with
        | some r => exact sync_quiet _ _ _ _
        | none =>
          simp only [importFiles]
          show (run O ((linkFiles E S (sorted l)).bind _) v).2.2 ≠ _
          rw [run_bind]
          rcases run O (linkFiles E S (sorted l)) v with ⟨q', u, _ | es⟩
          · exact fun h => nomatch h
          · obtain ⟨u', -, h⟩ := run_importDir (O := O) H es (fun t => if t = filesTree E S (sorted l) then sync E cache t s else .fail) u
            simp only
            rw [h]
            split
            · exact sync_quiet _ _ _ _
            · exact fun h => nomatch h
    · exact fun h => hq (by cases h; rfl)
  | content h =>
    have hs : ∀ v, (run O (syncBlob S h) v).2.2 ≠ some .crash := fun v => by
      unfold syncBlob
      split
      · rw [run_question]
        split <;> exact fun h => nomatch h
      · exact fun h => nomatch h
    show (run O (serveContent E S h) w).2.2 ≠ _
    unfold serveContent
    rw [run_look]
    split
    · exact hs w
    · exact fun h => nomatch h
    · split
      · exact hs w
      · exact fun h => nomatch h
      · split
        · rw [run_look]
          split
          · exact hs w
          · exact fun h => nomatch h
        · exact fun h => nomatch h
  | tree t =>
    have hs : ∀ v, (run O (syncTree S t) v).2.2 ≠ some .crash := fun v => by
      unfold syncTree
      split
      · rw [run_question]
        split <;> exact fun h => nomatch h
      · exact fun h => nomatch h
    show (run O (serveTree E S t) w).2.2 ≠ _
    unfold serveTree
    rw [run_look]
    split
    · exact hs w
    · exact fun h => nomatch h
    · split
      · exact hs w
      · exact fun h => nomatch h
      · split
        · rw [run_question]
          split
          · exact hs w
          · exact fun h => nomatch h
        · exact fun h => nomatch h
  | check t =>
    show (run O (checkRoot E S t) w).2.2 ≠ _
    unfold checkRoot
    rw [run_look]
    split
    · exact fun h => nomatch h
    · exact fun h => nomatch h
    · split
      · exact fun h => nomatch h
      · exact fun h => nomatch h
      · split
        · rw [run_question]
          split
          · rename_i es _
            obtain ⟨v, -, h⟩ := run_importDir (O := O) (E := E) H es (fun t' => if t' = t then .ret (Reply.answer .ok none) else .fail) w
            show (run O (importDir E es >>= fun t' => if t' = t then .ret (Reply.answer .ok none) else .fail) w).2.2 ≠ _
            rw [h]
            split <;> exact fun h => nomatch h
          · exact fun h => nomatch h
          · exact fun h => nomatch h
        · exact fun h => nomatch h
  | get t =>
    show (run O (getRemote E S t) w).2.2 ≠ _
    unfold getRemote
    split
    · rw [run_question]
      split
      · rename_i es _
        obtain ⟨v, -, h⟩ := run_importDir (O := O) (E := E) H es (fun _ => .ret (Reply.answer .ok none)) w
        show (run O (importDir E es >>= fun _ => .ret (Reply.answer .ok none)) w).2.2 ≠ _
        rw [h]
        exact fun h => nomatch h
      · exact fun h => nomatch h
    · exact fun h => nomatch h

/-! ## Violations -/

/-- The configured repositories: one with a commit and a blob. Texts with `~` are no identifiers: `x~y` stands for something starting with the
identifier `x` that, as a path, stands for `y`. -/
def site (known : List (Option Repo)) : Site where
  known := known
  native := true
  cut := fun h => h.takeWhile (· ≠ '~')
  hashy := fun h => '~' ∉ h
  place := fun h => if '~' ∈ h then (h.dropWhile (· ≠ '~')).drop 1 else h
  hex := fun h => '~' ∉ h

/-- One with the blob `x`, and the commit `h`. -/
def repo : Repo := ⟨.file ['x'] false :: below (.tree [(['d'], .tree [(['f'], .file ['u'] false)]), (['g'], .file ['v'] true)]), [], [['h']]⟩

theorem site_good (known : List (Option Repo)) : (site known).Good where
  cut := fun h hh => by
    simp only [site, decide_eq_true_eq] at hh
    induction h with
    | nil => rfl
    | cons c t ih =>
      have hc : c ≠ '~' := fun e => hh (e ▸ List.mem_cons_self)
      simp only [site, List.takeWhile_cons, List.cons.injEq, true_and, hc, ne_eq, not_false_eq_true, decide_true, if_true]
      exact ih fun h => hh (List.mem_cons_of_mem _ h)
  place := fun h hh => by
    simp only [site, decide_eq_true_eq] at hh
    simp only [site]
    rw [if_neg hh]

theorem repo_ok : RepoOk Ex.env repo where
  tags := fun _ h => absurd h List.not_mem_nil
  commits := fun h hh => by
    cases List.mem_singleton.1 hh
    exact ⟨_, rfl, fun n hn => List.mem_cons_of_mem _ hn⟩
  closed := fun n hn m hm => by
    rcases List.mem_cons.1 hn with rfl | hn
    · rw [List.mem_singleton.1 hm]; exact List.mem_cons_self
    · exact List.mem_cons_of_mem _ (below_closed _ n hn m hm)

theorem site_fine : (site [some repo]).Fine Ex.env := fun r hr => by
  cases List.mem_singleton.1 hr
  exact repo_ok

/-- (V91) A request for an archive in the git cache terminates the endpoint. -/
theorem C104_violation_cached : ∃ w : World, Inv Ex.env w ∧
    (run Ex.answers (serve Ex.env (site [some repo]) (.archive ['b', 'u'] ['t'] [] none false)) w).2.2 = some .crash :=
  ⟨(fresh 0).addObjs (below (.file ['u'] false)), (addObjs_ok _ (below_closed _) _ (fresh_ok 0)).1, by decide +kernel⟩

/-- (V92) After a request that names something else than a hash, another request for an archive gets the tree of an archive it did not ask
for. -/
theorem C104_violation_confused : ∃ w t, w = (run Ex.answers (serve Ex.env (site [some repo])
      (.archive ['b', 'x', '~', 'b', 'y'] ['t'] [] none false)) (fresh 0)).2.1 ∧
    (run Ex.answers (serve Ex.env (site [some repo]) (.archive ['b', 'y'] ['t'] [] none false)) w).2.2 = some (.answer .ok (some t)) ∧
    ¬ ∃ n, Contents Ex.env ⟨⟨['b', 'y'], none, [], [], none, none⟩, ['t'], [], none, false⟩ n ∧ gid Ex.env n = t := by
  refine ⟨_, gid Ex.env (.tree [(['d'], .tree [(['f'], .file ['x'] false)]), (['l'], .link ['d'])]), rfl, by decide +kernel, ?_⟩
  rintro ⟨n, ⟨c, es, n₀, h1, h2, h3, rfl⟩, h4⟩
  have hc : c = ['y'] := Ex.env_good.blob _ _ h1
  subst hc
  cases h3
  cases h2
  revert h4
  decide +kernel

/-- (V93) A request naming something that is no hash, and not known, terminates the endpoint. -/
theorem C104_violation_name : (run Ex.answers (serve Ex.env (site [some repo]) (.archive ['b', 'z', '~'] ['t'] [] none false)) (fresh 0)).2.2 =
    some .crash := by decide +kernel

/-- (V94) If one of the configured repositories cannot be opened, a request for a list of files, all of which are there, terminates the
endpoint. -/
theorem C104_violation_unreadable : ∃ w : World, Inv Ex.env w ∧ ['u'] ∈ w.cas ∧
    (run Ex.answers (serve Ex.env (site [none]) (.distdir [(['f'], ['b', 'u'], false)] false)) w).2.2 = some .crash :=
  ⟨(fresh 0).store ['u'], (store_ok _ _ (fresh_ok 0)).1, List.mem_cons_self, by decide +kernel⟩

/-! ## Examples -/

/-- A commit in a configured repository, a directory of it. -/
example : run Ex.answers (serve Ex.env (site [some repo]) (.commit ['h'] [['d']] false)) (fresh 1) =
    ([], fresh 1, some (.answer .ok (some (gid Ex.env (.tree [(['f'], .file ['u'] false)]))))) :=
  C104_commit (site_good _) (by simp [site]) ['h'] [['d']] (.tree [(['f'], .file ['u'] false)]) (by decide) ⟨_, rfl, rfl⟩ _
    (.inr ⟨repo, List.mem_cons_self, List.mem_cons_self⟩)

/-- An archive in a configured repository, with links resolved. -/
example : Serves Ex.answers (serve Ex.env (site [some repo]) (.archive ['b', 'x'] ['t'] [['d']] (some .completely) false)) (fresh 1) :=
  C104_archive_partial Ex.env_good (site_good _) (by simp [site]) ['b', 'x'] ['t'] [['d']] (some .completely) (by decide) ['x'] _
    (.tree [(['f'], .file ['x'] false)]) rfl rfl rfl _ (fresh_ok 1)
    (fun m hm => by cases hm; exact ⟨rfl, .tree [(['f'], .file ['x'] false)], rfl, rfl⟩)
    (.inr (.inr ⟨fun _ h => absurd h List.not_mem_nil, repo, List.mem_cons_self, .file ['x'] false, List.mem_cons_self, rfl⟩))

/-- Two files, one in CAS, the other in a configured repository. -/
example : (run Ex.answers (serve Ex.env (site [some repo]) (.distdir [(['g'], ['b', 'x'], true), (['f'], ['b', 'u'], false)] false))
    ((fresh 0).store ['u'])).1 = [] :=
  (C104_files Ex.env_good (site_good _) (by simp [site]) _ _ (fun e he => by
    rcases List.mem_cons.1 he with rfl | he
    · exact ⟨by decide, by decide, by decide, ['x'], rfl, .inr (.inr ⟨repo, List.mem_cons_self, _, List.mem_cons_self, rfl⟩)⟩
    · cases List.mem_singleton.1 he
      exact ⟨by decide, by decide, by decide, ['u'], rfl, .inl ⟨rfl, List.mem_cons_self⟩⟩)).1

/-- A commit that is not known. -/
example : ['i'] ∉ (fresh 0).young.commits ∧ ∀ r, some r ∈ (site [some repo]).known → ['i'] ∉ r.commits :=
  C104_commit_unknown (O := Ex.answers) (site_good _) site_fine ['i'] [] false (by decide) _ (fresh_ok 0) none (by decide +kernel)

/-- The endpoint serving an archive after the user set up a root. -/
example : ∃ (c : Pool World Query Answer (Key ⊕ { r : Request // r.Plain (site [some repo]) }) (Root ⊕ Reply)) (t : Str),
    Reach (both Ex.env (site [some repo]) Ex.conf) (HonestPut Ex.env (fun _ => True) (fun _ => True) (fun _ => True)) (Other Ex.env) (Alone Ex.env)
      (fresh 1) c ∧ (.inr ⟨.archive ['b', 'x'] ['t'] [] none true, rfl⟩, .ret (.inr (.answer .syncError (some t)))) ∈ c.tasks := by
  refine ⟨_, _, reach_run Ex.answers (fun q => ⟨Ex.answers_honest _ q, ?_⟩) _ _ [] (.step .start (.spawn _ _ (.inr ⟨.archive ['b', 'x'] ['t'] [] none true, rfl⟩)))
    (a := .inr (.answer .syncError (some (gid Ex.env (.tree [(['d'], .tree [(['f'], .file ['x'] false)]), (['l'], .link ['d'])]))))) (by decide +kernel), List.mem_cons_self⟩
  split <;> trivial

/-- What the client makes of a commit served. -/
example : Honest Ex.env (fun t => ∃ n, gid Ex.env n = t ∧ Has (site [some repo]) n (fresh 0)) (.serveCommit ['h'] [] false)
    (.text (gid Ex.env (.tree [(['d'], .tree [(['f'], .file ['u'] false)]), (['g'], .file ['v'] true)]))) :=
  C104_honest (put := fun _ => True) (putBlob := fun _ => True) (site_good _) (.serveCommit ['h'] [] false) _ rfl (rfl : (site [some repo]).hashy ['h'] = true)
    (.answer .ok (some _)) _ ⟨⟨_, ⟨_, rfl, rfl⟩, rfl, .inr ⟨repo, List.mem_cons_self, fun _ hm => List.mem_cons_of_mem _ hm⟩⟩, fun h => nomatch h⟩

/-- A request that does not terminate the endpoint. -/
example : (run Ex.answers (serve Ex.env (site [some repo]) (.archive ['b', 'w'] ['t'] [] none false)) (fresh 0)).2.2 ≠ some .crash :=
  C104_alive_partial Ex.env_good (site_good _) (by simp [site]) (.archive ['b', 'w'] ['t'] [] none false) (rfl : (site [some repo]).hashy ['b', 'w'] = true) _ fun _ _ _ _ _ _ _ _ h => by
    obtain ⟨m, hm, -⟩ := h
    exact absurd hm List.not_mem_nil

/-- A tree that is not known is looked for in the local CAS. -/
example : (.localDir ['t'] : Query) ∈ (run Ex.answers (serve Ex.env (site [some repo]) (.check ['t'])) (fresh 0)).1 := List.mem_cons_self

end Verif.Mr.Source
