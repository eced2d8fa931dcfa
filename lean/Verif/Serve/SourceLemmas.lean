import Verif.Serve.Source

/-!
# The serve endpoint: trees of commits, archives, and files — lemmas
-/

namespace Verif.Mr.Source

open Verif.Symlinks (Node Mode)

variable {E : Env} {S : Site} {served put putBlob : Str → Prop}

/-- Answers as they should be, where also something that was put to the remote is there (`put` for trees, `putBlob` for blobs). -/
def HonestPut (E : Env) (served put putBlob : Str → Prop) (q : Query) (a : Answer) : Prop :=
  Honest E served q a ∧
    match q, a with
    | .pushTree t, .yes => put t
    | .pushBlob h, .yes => putBlob h
    | _, _ => True

/-- The rules with these. -/
def rulesPut (E : Env) (served put putBlob : Str → Prop) : Rules World Query Answer :=
  { rules E served with honest := HonestPut E served put putBlob }

theorem valid_put {α : Type} {p : Task α} {w : World} {post : α → World → Prop} (h : Valid (rules E served) p w post) :
    Valid (rulesPut E served put putBlob) p w post := by
  induction p generalizing w with
  | ret a => exact h
  | fail => trivial
  | act f k ih => exact fun v hv hi => ⟨(h v hv hi).1, (h v hv hi).2.1, ih v (h v hv hi).2.2⟩
  | ask q k ih => exact fun v hv hi a ha => ih a (h v hv hi a ha.1)

theorem put_ask {β : Type} {q : Query} {g : Answer → Task β} {w : World} {post : β → World → Prop}
    (hg : ∀ a, HonestPut E served put putBlob q a → ∀ v, Grows w v → Inv E v → Valid (rulesPut E served put putBlob) (g a) v post) :
    Valid (rulesPut E served put putBlob) (question q >>= g) w post :=
  valid_bind (valid_question fun a ha v h1 h2 => hg a ha v h1 h2)

theorem put_look {α β : Type} {f : World → α} {g : α → Task β} {w : World} {post : β → World → Prop}
    (h : ∀ v, Grows w v → Inv E v → ∀ v', Grows v v' → Inv E v' → Valid (rulesPut E served put putBlob) (g (f v)) v' post) :
    Valid (rulesPut E served put putBlob) (look f >>= g) w post := valid_bind (valid_look h)

/-- What is wanted of a reply with a tree: it is only set if the status is `OK` or `SYNC_ERROR`, and then right; and if it was asked for
and the status is `OK`, it is at the remote. -/
def Told (Q : Str → World → Prop) (put : Str → Prop) (s : Bool) : Reply → World → Prop
  | .answer .ok (some t), w => Q t w ∧ (s = true → put t)
  | .answer .syncError (some t), w => Q t w
  | .answer .ok none, _ => False
  | .answer .syncError none, _ => False
  | .answer _ (some _), _ => False
  | _, _ => True

theorem sync_valid {Q : Str → World → Prop} {objs : World → List Node} {t : Str} {s : Bool} {w : World}
    (hQ : ∀ v, Grows w v → Inv E v → Q t v) :
    Valid (rulesPut E served put putBlob) (sync E objs t s) w (Told Q put s) := by
  unfold sync
  split
  · refine put_look fun v hv hi v' hv' hi' => ?_
    split
    · exact fun u hu hiu => hQ u ((hv.trans hv').trans hu) hiu
    · refine put_ask fun a ha u hu hiu => ?_
      have hq : ∀ z, Grows u z → Inv E z → Q t z := fun z hz hiz => hQ z ((hv.trans hv').trans (hu.trans hz)) hiz
      cases a with
      | yes => exact fun z hz hiz => ⟨hq z hz hiz, fun _ => ha.2⟩
      | error => exact fun z hz hiz => hq z hz hiz
      | no => exact fun z hz hiz => hq z hz hiz
      | text c => exact fun z hz hiz => hq z hz hiz
      | texts l => exact fun z hz hiz => hq z hz hiz
      | node n => exact fun z hz hiz => hq z hz hiz
  · rename_i hs
    exact fun u hu hiu => ⟨hQ u hu hiu, fun h => absurd h hs⟩

theorem search_found {α : Type} {f : Repo → Lookup α} {l : List (Option Repo)} {a : α} {r : Repo}
    (h : searchKnown f l = .found (a, r)) : some r ∈ l ∧ f r = .found a := by
  induction l with
  | nil => cases h
  | cons o l ih =>
    cases o with
    | none => cases h
    | some r' =>
      simp only [searchKnown] at h
      split at h
      · rename_i b hb; cases h; exact ⟨List.mem_cons_self, hb⟩
      · cases h
      · exact ⟨List.mem_cons_of_mem _ (ih h).1, (ih h).2⟩

/-- The endpoint has the object with all it refers to, in the git cache or in a configured repository. -/
def Has (S : Site) (n : Node) (w : World) : Prop :=
  (∀ m ∈ below n, m ∈ w.young.objs) ∨ ∃ r, some r ∈ S.known ∧ ∀ m ∈ below n, m ∈ r.objs

theorem Has.later {n : Node} {w v : World} (h : Has S n w) (hg : Grows w v) : Has S n v :=
  h.imp (fun h m hm => hg.objs m (h m hm)) id

/-- The configured repositories are as they should be. -/
def Site.Fine (E : Env) (S : Site) : Prop := ∀ r, some r ∈ S.known → RepoOk E r

/-! ## Commits -/

theorem commitIn_found {h : Str} {sub : List Str} {r : Repo} {t : Str} (hr : RepoOk E r) (hf : commitIn E S h sub r = .found t) :
    ∃ n, Committed E (S.cut h) sub n ∧ gid E n = t ∧ ∀ m ∈ below n, m ∈ r.objs := by
  unfold commitIn Site.oid at hf
  split at hf
  · cases hf
  · rename_i o ho
    split at ho
    · cases ho
      split at hf
      · rename_i hm
        obtain ⟨es, h1, h2⟩ := hr.commits _ hm
        rw [h1] at hf
        simp only at hf
        split at hf
        · rename_i m hm'
          cases hf
          exact ⟨m, ⟨es, h1, hm'⟩, rfl, fun k hk => h2 k (below_trans _ _ _ (find_below hm') hk)⟩
        · cases hf
      · cases hf
    · cases ho

theorem commit_valid' (F : S.Fine E) (h : Str) (sub : List Str) (s : Bool) (w : World) :
    Valid (rulesPut E served put putBlob) (serveCommit E S h sub s) w
      (Told (fun t v => ∃ n, Committed E (S.cut h) sub n ∧ gid E n = t ∧ Has S n v) put s) := by
  unfold serveCommit
  refine put_look fun v hv hi v' hv' hi' => ?_
  split
  · rename_i t ht
    obtain ⟨n, h1, h2, h3⟩ := commitIn_found (r := v.young.repo) ⟨hi.young.tags, hi.young.commits, hi.young.closed⟩ ht
    exact sync_valid fun u hu _ => ⟨n, h1, h2, .inl fun m hm => (hv'.trans hu).objs m (h3 m hm)⟩
  · trivial
  · split
    · rename_i t r hs
      obtain ⟨a, b⟩ := search_found hs
      obtain ⟨n, h1, h2, h3⟩ := commitIn_found (F r a) b
      exact sync_valid fun u _ _ => ⟨n, h1, h2, .inr ⟨r, a, h3⟩⟩
    · trivial
    · exact fun _ _ _ => trivial

/-! ## Archives -/

/-- What an archive request asks for. -/
abbrev wanted (h ty : Str) (sub : List Str) (sp : Option Mode) : ArchiveRepo := ⟨⟨h, none, [], [], none, none⟩, ty, sub, sp, false⟩

theorem resolveTree_valid (H : E.Good) {h ty : Str} {sub : List Str} (sp : Option Mode) (s : Bool) {w : World} {c : Str}
    {es : List (Str × Node)} {n : Node} (h1 : E.blobId c = h) (h2 : E.extract ty c = some es)
    (h3 : (Node.tree es).find sub = some n) (hk : Kept w.young n) :
    Valid (rulesPut E served put putBlob) (resolveTree E cache (gid E n) sp s) w
      (Told (fun t v => ∃ n, Contents E (wanted h ty sub sp) n ∧ gid E n = t ∧ Kept v.young n) put s) := by
  unfold resolveTree
  cases sp with
  | none => exact sync_valid fun v hv _ => ⟨n, ⟨c, es, n, h1, h2, h3, rfl⟩, rfl, hk.later hv⟩
  | some m =>
    simp only
    refine put_look fun v hv hi v' hv' hi' => ?_
    cases hr : read (m, gid E n) v.young.special with
    | some t' =>
      obtain ⟨fs, n', a1, a2, a3, a4, a5⟩ := hi.young.special _ _ _ (read_mem hr)
      have := gid_tree H a1
      subst this
      subst a4
      exact sync_valid fun u hu _ => ⟨n', ⟨c, es, _, h1, h2, h3, rfl, a2, a3⟩, rfl, a5.later (hv'.trans hu)⟩
    | none =>
      refine put_look fun u hu hi u' hu' hi' => ?_
      cases hf : findTree E (gid E n) (cache u) with
      | none => exact fun _ _ _ => trivial
      | some x =>
        obtain ⟨b1, b2, b3⟩ := findTree_some hf
        obtain ⟨fs, rfl⟩ := (isTree_iff x).1 b2
        have hx := gid_tree H b3.symm
        subst hx
        refine put_ask fun a ha z hz hiz => ?_
        cases a with
        | node n' =>
          refine valid_bind (valid_change fun z1 hz1 hiz1 => ⟨(addObjs_ok _ (below_closed _) _ hiz1).1, (addObjs_ok _ (below_closed _) _ hiz1).2, fun z2 hz2 hiz2 => ?_⟩)
          have hob : ∀ m ∈ below n', m ∈ z2.young.objs := fun m hm => hz2.objs m (List.mem_append_left _ hm)
          refine valid_bind (valid_tryTo fun z3 z4 hz3 hiz3 hkeep => ?_)
          have htree : isTree n' = true := by
            unfold World.keep Gen.keep at hkeep
            cases hf : findTree E (gid E n') z3.young.objs with
            | none => simp [hf] at hkeep
            | some q =>
              obtain ⟨_, q2, q3⟩ := findTree_some hf
              obtain ⟨gs, rfl⟩ := (isTree_iff q).1 q2
              rw [gid_tree H q3.symm]; rfl
          obtain ⟨gs, rfl⟩ := (isTree_iff n').1 htree
          obtain ⟨k1, k2, k3⟩ := keep_ok H hiz3 (fun m hm => hz3.objs m (hob m hm)) hkeep
          refine ⟨k1, k2, fun z5 hz5 hiz5 => ?_⟩
          refine valid_bind (valid_change fun z6 hz6 hiz6 => ?_)
          have ok := writeSpecial_ok hiz6 rfl htree ha.1 rfl (k3.later (hz5.trans hz6))
          refine ⟨ok.1, ok.2, fun z7 hz7 hiz7 => ?_⟩
          exact sync_valid fun z8 hz8 _ => ⟨_, ⟨c, es, _, h1, h2, h3, rfl, htree, ha.1⟩, rfl,
            (((k3.later hz5).later (hz6.trans ok.2)).later hz7).later hz8⟩
        | text t => exact fun _ _ _ => trivial
        | error => exact fun _ _ _ => trivial
        | yes => exact fun _ _ _ => trivial
        | no => exact fun _ _ _ => trivial
        | texts l => exact fun _ _ _ => trivial

theorem subtreeIn_kept (H : E.Good) {es : List (Str × Node)} {sub : List Str} {l : List Node} (hm : Node.tree es ∈ l) :
    subtreeIn E (gid E (.tree es)) sub l = match (Node.tree es).find sub with
      | some n => .found (gid E n)
      | none => .notFound := by
  unfold subtreeIn
  split
  · rename_i h; subst h; rfl
  · have : findTree E (gid E (.tree es)) l = some (.tree es) := by
      cases hf : findTree E (gid E (.tree es)) l with
      | none =>
        have := List.find?_eq_none.1 hf _ hm
        simp [isTree] at this
      | some x =>
        obtain ⟨_, _, b3⟩ := findTree_some hf
        rw [gid_tree H b3]
    rw [this]
    rfl

theorem subtreeIn_found (H : E.Good) {es : List (Str × Node)} {sub : List Str} {l : List Node} {u : Str}
    (h : subtreeIn E (gid E (.tree es)) sub l = .found u) : ∃ n, (Node.tree es).find sub = some n ∧ u = gid E n := by
  unfold subtreeIn at h
  split at h
  · rename_i hs; subst hs; cases h; exact ⟨_, rfl, rfl⟩
  · split at h
    · cases h
    · rename_i x hf
      obtain ⟨_, _, b3⟩ := findTree_some hf
      cases gid_tree H b3
      split at h
      · rename_i m hm; cases h; exact ⟨m, hm, rfl⟩
      · cases h

theorem blobIn_found {h c : Str} {l : List Node} (hf : blobIn E S h l = .found c) : E.blobId c = S.cut h := by
  unfold blobIn Site.oid at hf
  split at hf
  · cases hf
  · rename_i o ho
    split at ho
    · cases ho
      split at hf
      · rename_i c' hc
        cases hf
        simpa using List.find?_some hc
      · cases hf
    · cases ho

theorem getContent_valid (G : S.Good) {h : Str} (hh : S.hashy h = true) (w : World) :
    Valid (rulesPut E served put putBlob) (getContent E S h) w fun r _ =>
      match r with
      | .inl (.answer s t) => s = .notFound ∧ t = none
      | .inl .crash => True
      | .inr c => E.blobId c = h := by
  unfold getContent
  refine put_look fun v hv hi v' hv' hi' => ?_
  rw [if_pos hh]
  split
  · rename_i c hc
    exact fun _ _ _ => (content_some hc).2
  · refine put_look fun v hv hi v' hv' hi' => ?_
    split
    · exact valid_bind (valid_put (safe_change (store_ok _) _) |>.weaken fun _ _ _ _ _ => fun _ _ _ => trivial)
    · trivial
    · split
      · rename_i c r hs
        have := blobIn_found (search_found hs).2
        rw [G.cut h hh] at this
        exact valid_bind (valid_put (safe_change (store_ok _) _) |>.weaken fun _ _ _ _ _ => fun _ _ _ => this)
      · trivial
      · rw [if_pos hh]
        refine put_ask fun a ha u hu hiu => ?_
        cases a with
        | text c =>
          refine valid_bind (valid_put (safe_change (store_ok _) _) |>.weaken fun _ z _ _ _ => ?_)
          exact valid_bind (valid_need fun _ c _ _ hc v _ _ => fun _ _ _ => (content_some hc).2)
        | error => exact fun _ _ _ => ⟨rfl, rfl⟩
        | yes => exact fun _ _ _ => ⟨rfl, rfl⟩
        | no => exact fun _ _ _ => ⟨rfl, rfl⟩
        | texts l => exact fun _ _ _ => ⟨rfl, rfl⟩
        | node n => exact fun _ _ _ => ⟨rfl, rfl⟩

theorem importArchive_valid (H : E.Good) (G : S.Good) {h : Str} (hh : S.hashy h = true) (ty : Str) (sub : List Str) (sp : Option Mode)
    (s : Bool) {c : Str} (h1 : E.blobId c = h) (w : World) :
    Valid (rulesPut E served put putBlob) (importArchive E S h ty sub sp s c) w
      (Told (fun t v => ∃ n, Contents E (wanted h ty sub sp) n ∧ gid E n = t ∧ Kept v.young n) put s) := by
  unfold importArchive
  rw [G.place h hh]
  cases h2 : E.extract ty c with
  | none => exact fun _ _ _ => trivial
  | some es =>
    refine valid_bind ((valid_put (importDir_valid H es w)).weaken fun t v hv hi ht => ?_)
    obtain ⟨rfl, hk⟩ := ht
    refine valid_bind (valid_change fun z hz hiz => ?_)
    have ok := writeArch_ok hiz h1 h2 rfl (hk.later hz)
    refine ⟨ok.1, ok.2, fun z' hz' _ => ?_⟩
    refine put_look fun u hu hi u' hu' hi' => ?_
    split
    · rename_i x hx
      obtain ⟨n, hn, rfl⟩ := subtreeIn_found H hx
      exact resolveTree_valid H sp s h1 h2 hn
        ((hk.down (find_below hn)).later ((hz.trans ok.2).trans (hz'.trans (Grows.trans hu hu'))))
    · trivial

theorem archive_valid' (H : E.Good) (G : S.Good) {h : Str} (hh : S.hashy h = true) (ty : Str) (sub : List Str) (sp : Option Mode)
    (s : Bool) (w : World) :
    Valid (rulesPut E served put putBlob) (serveArchive E S h ty sub sp s) w
      (Told (fun t v => ∃ n, Contents E (wanted h ty sub sp) n ∧ gid E n = t ∧ Kept v.young n) put s) := by
  unfold serveArchive
  refine put_look fun v hv hi v' hv' hi' => ?_
  rw [G.place h hh]
  cases hr : read (ty, h) v.young.arch with
  | some t =>
    obtain ⟨c, es, h1, h2, rfl, hk⟩ := hi.young.arch _ _ _ (read_mem hr)
    refine put_look fun u hu hi u' hu' hi' => ?_
    have hk' := (hk.later hv').later hu
    have hm := hk'.there _ (self_below _)
    cases hx : subtreeIn E (gid E (.tree es)) sub u.young.objs with
    | found x =>
      obtain ⟨n, hn, rfl⟩ := subtreeIn_found H hx
      exact resolveTree_valid H sp s h1 h2 hn ((hk'.down (find_below hn)).later hu')
    | fatal => trivial
    | notFound =>
      simp only
      split
      · rename_i y r hs
        obtain ⟨n, hn, -⟩ := subtreeIn_found H (search_found hs).2
        rw [subtreeIn_kept H hm, hn] at hx
        cases hx
      · trivial
  | none =>
    refine valid_bind ((getContent_valid G hh v').weaken fun r z hz hiz hr => ?_)
    cases r with
    | inl r =>
      cases r with
      | crash => exact fun _ _ _ => trivial
      | answer st t =>
        obtain ⟨rfl, rfl⟩ := hr
        exact fun _ _ _ => trivial
    | inr c => exact importArchive_valid H G hh ty sub sp s hr z

/-! ## Files -/

theorem getFile_safe (h : Str) (w : World) : Valid (rulesPut E served put putBlob) (getFile E S h) w fun r _ =>
    r = none ∨ r = some (.answer .notFound none) := by
  unfold getFile
  refine put_look fun v hv hi v' hv' hi' => ?_
  split
  · exact fun _ _ _ => .inl rfl
  · refine put_look fun v hv hi v' hv' hi' => ?_
    split
    · exact valid_bind (valid_put (safe_change (store_ok _) _) |>.weaken fun _ _ _ _ _ => fun _ _ _ => .inl rfl)
    · trivial
    · split
      · exact valid_bind (valid_put (safe_change (store_ok _) _) |>.weaken fun _ _ _ _ _ => fun _ _ _ => .inl rfl)
      · trivial
      · split
        · refine put_ask fun a ha u hu hiu => ?_
          cases a with
          | text c => exact valid_bind (valid_put (safe_change (store_ok _) _) |>.weaken fun _ _ _ _ _ => fun _ _ _ => .inl rfl)
          | error => trivial
          | yes => trivial
          | no => exact fun _ _ _ => .inr rfl
          | texts l => trivial
          | node n => trivial
        · exact fun _ _ _ => .inr rfl

theorem getFiles_safe (l : List (Str × Str × Bool)) (w : World) : Valid (rulesPut E served put putBlob) (getFiles E S l) w fun r _ =>
    r = none ∨ r = some (.answer .notFound none) := by
  induction l generalizing w with
  | nil => exact fun _ _ _ => .inl rfl
  | cons e l ih =>
    obtain ⟨x, h, b⟩ := e
    simp only [getFiles]
    refine valid_bind ((getFile_safe h w).weaken fun r v hv hi hr => ?_)
    cases r with
    | some r => exact fun _ _ _ => hr
    | none =>
      simp only
      split
      · exact ih v
      · trivial

/-- The files, with the part of their hash used by git. -/
abbrev cutFiles (S : Site) (l : List (Str × Str × Bool)) : List (Str × Str × Bool) := l.map fun e => (e.1, S.cut e.2.1, e.2.2)

theorem dir_gid (fs : List (Str × Str × Bool)) : gid E (dirOf fs) =
    E.treeId (fs.map fun e => (e.1, if e.2.2 = true then Dig.ObjectType.executable else .file, E.blobId e.2.1)) := by
  unfold dirOf
  simp only [gid]
  congr 1
  induction fs with
  | nil => rfl
  | cons a t ih =>
    obtain ⟨x, c, e⟩ := a
    simp only [List.map_cons, gids, gid, ih, List.cons.injEq, Prod.mk.injEq, true_and, and_true]
    cases e <;> rfl

/-- The tree computed from the hashes is the one of the directory with the files. -/
theorem files_tree {l : List (Str × Str × Bool)} {n : Node} (h : Files E (cutFiles S l) n) : gid E n = filesTree E S l := by
  obtain ⟨fs, h1, rfl⟩ := h
  rw [dir_gid]
  unfold filesTree
  congr 1
  have h2 := congrArg (List.map fun e : Str × Str × Bool =>
    (e.1, if e.2.2 = true then Dig.ObjectType.executable else Dig.ObjectType.file, e.2.1)) h1
  simpa [List.map_map, Function.comp_def] using h2

theorem linkFiles_valid (l : List (Str × Str × Bool)) (w : World) :
    Valid (rulesPut E served put putBlob) (linkFiles E S l) w fun es _ => Files E (cutFiles S l) (.tree es) := by
  induction l generalizing w with
  | nil => exact fun _ _ _ => ⟨[], rfl, rfl⟩
  | cons e t ih =>
    obtain ⟨x, h, b⟩ := e
    simp only [linkFiles]
    refine valid_bind (valid_need fun _ c _ _ hc v _ _ => ?_)
    refine valid_bind ((ih v).weaken fun es v _ _ hes => fun _ _ _ => ?_)
    obtain ⟨fs, h1, h2⟩ := hes
    refine ⟨(x, c, b) :: fs, by simp [h1, (content_some hc).2], ?_⟩
    simp only [dirOf, Node.tree.injEq] at h2
    simp [dirOf, h2]

theorem knownTree_found {t : Str} {l : List (Option Repo)} {r : Repo} (h : knownTree E t l = some (some r)) :
    some r ∈ l ∧ ∃ n, findTree E t r.objs = some n := by
  induction l with
  | nil => cases h
  | cons o l ih =>
    cases o with
    | none => cases h
    | some r' =>
      simp only [knownTree] at h
      split at h
      · rename_i n hn; cases h; exact ⟨List.mem_cons_self, n, hn⟩
      · exact ⟨List.mem_cons_of_mem _ (ih h).1, (ih h).2⟩

/-- A tree with the hash of a directory of files is one: all its entries are files. -/
theorem tree_files (H : E.Good) {l : List (Str × Str × Bool)} {es : List (Str × Node)} (h : gid E (.tree es) = filesTree E S l) :
    Files E (cutFiles S l) (.tree es) ∨ ∃ x c, (x, c) ∈ es ∧ ¬ ∃ b e, c = .file b e := by
  by_cases hall : ∀ e ∈ es, ∃ b x, e.2 = Node.file b x
  · left
    have h' := H.tree _ _ h
    clear h
    induction es generalizing l with
    | nil =>
      cases l with
      | nil => exact ⟨[], rfl, rfl⟩
      | cons a t => simp [gids] at h'
    | cons a t ih =>
      obtain ⟨x, n⟩ := a
      cases l with
      | nil => simp [gids] at h'
      | cons b u =>
        simp only [gids, List.map_cons, List.cons.injEq, Prod.mk.injEq] at h'
        obtain ⟨⟨h1, h2, h3⟩, h4⟩ := h'
        obtain ⟨fs, f1, f2⟩ := ih (l := u) (fun e he => hall e (List.mem_cons_of_mem _ he)) h4
        obtain ⟨c, e, he⟩ := hall (x, n) List.mem_cons_self
        simp only at he
        subst he
        refine ⟨(x, c, e) :: fs, ?_, ?_⟩
        · simp only [List.map_cons, f1, List.cons.injEq, Prod.mk.injEq, and_true]
          refine ⟨h1, h3, ?_⟩
          cases e <;> cases hb : b.2.2 <;> simp [hb, kind] at h2 ⊢
        · simp only [dirOf, Node.tree.injEq] at f2
          simp [dirOf, f2]
  · right
    simp only [not_forall] at hall
    obtain ⟨e, he, hne⟩ := hall
    exact ⟨e.1, e.2, he, hne⟩

theorem tree_files' (H : E.Good) {l : List (Str × Str × Bool)} {es : List (Str × Node)} (h : gid E (.tree es) = filesTree E S l) :
    Files E (cutFiles S l) (.tree es) := by
  rcases tree_files H h with h' | ⟨x, c, hm, hne⟩
  · exact h'
  · exfalso
    have h' := H.tree _ _ h
    clear h
    induction es generalizing l with
    | nil => cases hm
    | cons a t ih =>
      obtain ⟨y, n⟩ := a
      cases l with
      | nil => simp [gids] at h'
      | cons b u =>
        simp only [gids, List.map_cons, List.cons.injEq, Prod.mk.injEq] at h'
        obtain ⟨⟨h1, h2, h3⟩, h4⟩ := h'
        rcases List.mem_cons.1 hm with hm | hm
        · cases hm
          cases c with
          | file b e => exact hne ⟨b, e, rfl⟩
          | link c => cases hb : b.2.2 <;> simp [hb, kind] at h2
          | tree es => cases hb : b.2.2 <;> simp [hb, kind] at h2
        · exact ih (l := u) hm h4

theorem distdir_valid' (H : E.Good) (F : S.Fine E) (l : List (Str × Str × Bool)) (s : Bool) (w : World) :
    Valid (rulesPut E served put putBlob) (serveDistdir E S l s) w
      (Told (fun t v => ∃ n, Files E (cutFiles S (sorted l)) n ∧ gid E n = t ∧ Has S n v) put s) := by
  unfold serveDistdir
  refine valid_bind ((getFiles_safe l w).weaken fun r v hv hi hr => ?_)
  cases r with
  | some r =>
    rcases hr with hr | hr <;> cases hr
    exact fun _ _ _ => trivial
  | none =>
    simp only
    refine put_look fun u hu hi u' hu' hi' => ?_
    split
    · rename_i x hx
      obtain ⟨b1, b2, b3⟩ := findTree_some hx
      obtain ⟨fs, rfl⟩ := (isTree_iff x).1 b2
      exact sync_valid fun z hz _ => ⟨_, tree_files' H b3, b3, .inl fun m hm => (Grows.trans hu' hz).objs m (hi.young.closed _ b1 m hm)⟩
    · split
      · exact fun _ _ _ => trivial
      · rename_i r hk
        obtain ⟨a, x, hx⟩ := knownTree_found hk
        obtain ⟨b1, b2, b3⟩ := findTree_some hx
        obtain ⟨fs, rfl⟩ := (isTree_iff x).1 b2
        exact sync_valid fun z hz _ => ⟨_, tree_files' H b3, b3, .inr ⟨r, a, (F r a).closed _ b1⟩⟩
      · unfold importFiles
        refine valid_bind ((linkFiles_valid _ u').weaken fun es z hz hiz hes => ?_)
        refine valid_bind ((valid_put (importDir_valid H es z)).weaken fun t y hy hiy ht => ?_)
        obtain ⟨rfl, hk⟩ := ht
        split
        · exact sync_valid fun x hx _ => ⟨_, hes, rfl, .inl (hk.later hx).there⟩
        · trivial

/-! ## Blobs and trees -/

theorem syncBlob_valid {h : Str} {P : Prop} (hP : P) (w : World) : Valid (rulesPut E served put putBlob) (syncBlob S h) w fun r _ =>
    r = .answer .ok none → P ∧ putBlob h := by
  unfold syncBlob
  split
  · refine put_ask fun a ha u hu hiu => ?_
    cases a with
    | yes => exact fun _ _ _ _ => ⟨hP, ha.2⟩
    | error => exact fun _ _ _ h => nomatch h
    | no => exact fun _ _ _ h => nomatch h
    | text c => exact fun _ _ _ h => nomatch h
    | texts l => exact fun _ _ _ h => nomatch h
    | node n => exact fun _ _ _ h => nomatch h
  · trivial

theorem syncTree_valid {t : Str} (w : World) : Valid (rulesPut E served put putBlob) (syncTree S t) w fun r _ =>
    r = .answer .ok none → put t := by
  unfold syncTree
  split
  · refine put_ask fun a ha u hu hiu => ?_
    cases a with
    | yes => exact fun _ _ _ _ => ha.2
    | error => exact fun _ _ _ h => nomatch h
    | no => exact fun _ _ _ h => nomatch h
    | text c => exact fun _ _ _ h => nomatch h
    | texts l => exact fun _ _ _ h => nomatch h
    | node n => exact fun _ _ _ h => nomatch h
  · trivial

theorem content_valid (h : Str) (w : World) : Valid (rulesPut E served put putBlob) (serveContent E S h) w fun r _ =>
    r = .answer .ok none → (∃ c, E.blobId c = S.cut h ∨ E.blobId c = h) ∧ putBlob h := by
  unfold serveContent
  refine put_look fun v hv hi v' hv' hi' => ?_
  split
  · rename_i c hc
    exact syncBlob_valid ⟨c, .inl (blobIn_found hc)⟩ _
  · trivial
  · split
    · rename_i c hc
      obtain ⟨c, r⟩ := c
      exact syncBlob_valid ⟨c, .inl (blobIn_found (search_found hc).2)⟩ _
    · trivial
    · split
      · refine put_look fun v hv hi v' hv' hi' => ?_
        split
        · rename_i c hc
          exact syncBlob_valid ⟨c, .inr (content_some hc).2⟩ _
        · exact fun _ _ _ h => nomatch h
      · trivial

theorem tree_valid (t : Str) (w : World) : Valid (rulesPut E served put putBlob) (serveTree E S t) w fun r _ =>
    r = .answer .ok none → put t := by
  unfold serveTree
  refine put_look fun v hv hi v' hv' hi' => ?_
  split
  · exact syncTree_valid _
  · trivial
  · split
    · exact syncTree_valid _
    · trivial
    · split
      · refine put_ask fun a ha u hu hiu => ?_
        cases a with
        | yes => exact syncTree_valid _
        | error => exact fun _ _ _ h => nomatch h
        | no => exact fun _ _ _ h => nomatch h
        | text c => exact fun _ _ _ h => nomatch h
        | texts l => exact fun _ _ _ h => nomatch h
        | node n => exact fun _ _ _ h => nomatch h
      · trivial

theorem treeIn_found {t : Str} {l : List Node} (h : treeIn E S t l = .found ()) :
    ∃ n ∈ l, isTree n = true ∧ gid E n = S.cut t := by
  unfold treeIn Site.oid at h
  split at h
  · cases h
  · rename_i o ho
    split at ho
    · cases ho
      split at h
      · rename_i n hn
        obtain ⟨a, b, c⟩ := findTree_some hn
        exact ⟨n, a, b, c⟩
      · cases h
    · cases ho

theorem check_valid (H : E.Good) (G : S.Good) (F : S.Fine E) (t : Str) (w : World) :
    Valid (rulesPut E served put putBlob) (checkRoot E S t) w fun r v =>
      r = .answer .notFound none ∨ r = .answer .ok none ∧ ∃ n, isTree n = true ∧ gid E n = S.cut t ∧ Has S n v := by
  unfold checkRoot
  refine put_look fun v hv hi v' hv' hi' => ?_
  split
  · rename_i hx
    obtain ⟨n, a, b, c⟩ := treeIn_found hx
    exact fun u hu _ => .inr ⟨rfl, n, b, c, .inl fun m hm => (Grows.trans hv' hu).objs m (hi.young.closed _ a m hm)⟩
  · trivial
  · split
    · rename_i a hs
      obtain ⟨a, r⟩ := a
      obtain ⟨h1, h2⟩ := search_found hs
      obtain ⟨n, a, b, c⟩ := treeIn_found h2
      exact fun u hu _ => .inr ⟨rfl, n, b, c, .inr ⟨r, h1, (F r h1).closed _ a⟩⟩
    · trivial
    · split
      · rename_i hh
        refine put_ask fun a ha u hu hiu => ?_
        split
        · rename_i es
          refine valid_bind ((valid_put (importDir_valid H es u)).weaken fun t' y hy hiy ht => ?_)
          obtain ⟨rfl, hk⟩ := ht
          split
          · rename_i he
            exact fun z hz _ => .inr ⟨rfl, _, rfl, by rw [he, G.cut t hh], .inl (hk.later hz).there⟩
          · trivial
        · exact fun _ _ _ => .inl rfl
        · trivial
      · trivial

theorem get_valid (H : E.Good) (G : S.Good) (t : Str) (w : World) :
    Valid (rulesPut E served put putBlob) (getRemote E S t) w fun r v =>
      r = .answer .ok none ∧ ∃ n, isTree n = true ∧ gid E n = S.cut t ∧ Has S n v := by
  unfold getRemote
  split
  · rename_i hh
    refine put_ask fun a ha u hu hiu => ?_
    split
    · rename_i es
      refine valid_bind ((valid_put (importDir_valid H es u)).weaken fun t' y hy hiy ht => ?_)
      obtain ⟨rfl, hk⟩ := ht
      have h1 : gid E (.tree es) = t := ha.1
      exact fun z hz _ => ⟨rfl, _, rfl, by rw [h1, G.cut t hh], .inl (hk.later hz).there⟩
    · trivial
  · trivial

end Verif.Mr.Source
