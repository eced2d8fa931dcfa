import Verif.Repo.StructureProps
import Verif.Tree.InstallImport

/-!
# C81: tree structures in git
-/

namespace Verif.Struct

open Verif.Dig (ObjectType)
open Verif.Path
open Verif.Roots (Out Canonical Name)
open Verif.Install
open Verif.Tree (Info Obs Env Store Ent Groups Listing NoCollision look retrieve parseTree group flat addTo createTree)

/-! ## Statements -/

/-- There are no symbolic links in the tree, names are proper, and every subdirectory has a file somewhere below. -/
structure Plain (E : Env) (S : Store) (id : Str) : Prop where
  names : ∀ q o, Tree.look E S ⟨.tree, id⟩ q = some o → ∀ a ∈ q, ProperName a
  links : ∀ q x, Tree.look E S ⟨.tree, id⟩ q ≠ some (.leaf .symlink x)
  full : ∀ q, q ≠ [] → Tree.look E S ⟨.tree, id⟩ q = some .dir → ∃ r ty x, Tree.look E S ⟨.tree, id⟩ (q ++ r) = some (.leaf ty x)

/-- The temporary directory: it is there, and empty. -/
structure Tmp (fs : FS) (tmp : Str) (P : List Str) : Prop where
  path : Output [] tmp P
  wf : fs.WF
  dir : fs.at P = some .dir
  empty : ∀ q, q ≠ [] → fs.at (P ++ q) = none

/-- The git repository: trees are there with everything below. -/
structure Repo (E : Env) (U git : Store) : Prop where
  sub : ∀ d ∈ git, d ∈ U
  closed : ∀ d ∈ git, Whole E git ⟨.tree, E.H d⟩

/-! ## Trees given by what is in them -/

theorem look_entry {E : Env} {S : Store} {id d : Str} {l : List Ent} (hr : retrieve E S id = some d) (hp : parseTree d = some l)
    (hl : Listing l) {e : Ent} (he : e ∈ l) (q : List Str) :
    Tree.look E S ⟨.tree, id⟩ (e.name :: q) = Tree.look E S ⟨e.type, e.id⟩ q := by
  rw [look_tree hr hp, find_of_mem hl.names he, Option.bind_some]

theorem Whole.clean {E : Env} {S : Store} {i : Info} (h : Whole E S i) :
    (∀ q o, Tree.look E S i q = some o → ∀ a ∈ q, ProperName a) → Clean E S i := by
  induction h with
  | leaf h => exact fun _ => .leaf h
  | @tree id d l hr hp hl hw ih =>
    intro hn
    have he : ∀ e ∈ l, ProperName e.name ∧ Clean E S ⟨e.type, e.id⟩ := by
      intro e he
      refine ⟨?_, ih e he fun q o ho a ha => ?_⟩
      · obtain ⟨o, ho⟩ := Roots.look_some E S ⟨e.type, e.id⟩
        exact hn [e.name] o (by rw [look_entry hr hp hl he]; exact ho) e.name (by simp)
      · exact hn (e.name :: q) o (by rw [look_entry hr hp hl he]; exact ho) a (by simp [ha])
    refine .tree (fun d' l' hr' hp' => ?_) fun d' l' hr' hp' e hm => ?_
    · cases hr.symm.trans hr'
      cases hp.symm.trans hp'
      exact ⟨hl, fun e hm => (he e hm).1⟩
    · cases hr.symm.trans hr'
      cases hp.symm.trans hp'
      exact (he e hm).2

theorem Whole.present {E : Env} {C : Cas} {b : Str} (hb : C.blob b = some []) {i : Info} (h : Whole E C.trees i) :
    (∀ q ty x, Tree.look E C.trees i q = some (.leaf ty x) → ty ≠ .symlink ∧ x = b) → Present E C i := by
  induction h with
  | @leaf i h =>
    intro hn
    obtain ⟨h1, h2⟩ := hn [] i.type i.id (by rw [Tree.look, if_neg h])
    exact .blob h (h2 ▸ hb) fun h => absurd h h1
  | @tree id d l hr hp hl hw ih =>
    intro hn
    have he : ∀ e ∈ l, ∀ q ty x, Tree.look E C.trees ⟨e.type, e.id⟩ q = some (.leaf ty x) → ty ≠ .symlink ∧ x = b := by
      intro e he q ty x h
      exact hn (e.name :: q) ty x (by rw [look_entry hr hp hl he]; exact h)
    refine .tree hr hp (fun e hm ht => ?_) fun e hm => ih e hm (he e hm)
    have := (he e hm [] e.type e.id (by rw [Tree.look, if_neg (by rw [ht]; exact (nomatch ·))])).1
    exact absurd ht this

theorem Whole.depth {E : Env} {S : Store} {i : Info} (h : Whole E S i) : ∃ D, ∀ q, Tree.look E S i q ≠ none → q.length < D := by
  induction h with
  | @leaf i h =>
    refine ⟨1, fun q hq => ?_⟩
    cases q with
    | nil => simp
    | cons n q =>
      rw [Tree.look, if_neg h] at hq
      exact absurd rfl hq
  | @tree id d l hr hp hl hw ih =>
    obtain ⟨D, hD⟩ := bound_all (Q := fun (e : Ent) n => ∀ q, Tree.look E S ⟨e.type, e.id⟩ q ≠ none → q.length < n) l fun e he => by
      obtain ⟨D, h⟩ := ih e he
      exact ⟨D, fun n hn q hq => Nat.lt_of_lt_of_le (h q hq) hn⟩
    refine ⟨D + 1, fun q hq => ?_⟩
    cases q with
    | nil => simp
    | cons n q =>
      rw [look_tree hr hp] at hq
      cases hf : l.find? fun e => e.name = n with
      | none =>
        rw [hf] at hq
        exact absurd rfl hq
      | some e =>
        rw [hf] at hq
        have := hD D (Nat.le_refl _) e (List.mem_of_find?_eq_some hf) q hq
        simp only [List.length_cons]
        omega

theorem look_append_none {E : Env} {S : Store} : ∀ (q r : List Str) (i : Info), Tree.look E S i q = none → Tree.look E S i (q ++ r) = none
  | [], r, i, h => by
    rw [Tree.look] at h
    cases h
  | n :: q, r, i, h => by
    rw [Tree.look] at h
    rw [List.cons_append, Tree.look]
    by_cases ht : i.type = .tree
    · rw [if_pos ht] at h ⊢
      cases hr : retrieve E S i.id with
      | none => rfl
      | some d =>
        rw [hr, Option.bind_some] at h
        rw [Option.bind_some]
        cases hp : parseTree d with
        | none => rfl
        | some l =>
          rw [hp, Option.bind_some] at h
          rw [Option.bind_some]
          cases hf : l.find? fun e => e.name = n with
          | none => rfl
          | some e =>
            rw [hf, Option.bind_some] at h
            rw [Option.bind_some]
            exact look_append_none q r _ h
    · rw [if_neg ht]

/-! ## Staging to the temporary directory -/

theorem staged_look {E : Env} {S : Store} {id : Str} (hf : ∀ q, q ≠ [] → Tree.look E S ⟨.tree, id⟩ q = some .dir →
    ∃ r ty x, Tree.look E S ⟨.tree, id⟩ (q ++ r) = some (.leaf ty x)) {fs fs' : FS} {tmp : Str} {P : List Str} (ht : Tmp fs tmp P)
    (he : Exact (Files E S P ⟨.tree, id⟩) fs fs') (q : List Str) : fs'.at (P ++ q) = Tree.look E S ⟨.tree, id⟩ q := by
  have hW : ∀ q ty x, Tree.look E S ⟨.tree, id⟩ q = some (.leaf ty x) → Files E S P ⟨.tree, id⟩ (P ++ q) ⟨ty, x⟩ :=
    fun q ty x h => ⟨q, rfl, h⟩
  by_cases h0 : q = []
  · subst h0
    rw [List.append_nil]
    show _ = some Obs.dir
    by_cases hex : ∃ r i, Files E S P ⟨.tree, id⟩ (P ++ r) i
    · obtain ⟨r, i, r', e, hr⟩ := hex
      cases List.append_cancel_left e
      refine he.above P r i (fun e => ?_) ⟨r, rfl, hr⟩
      subst e
      cases hr
    · rw [he.same P fun r i h => hex ⟨r, i, h⟩, ht.dir]
  · cases hl : Tree.look E S ⟨.tree, id⟩ q with
    | none =>
      rw [he.same (P ++ q) ?_, ht.empty q h0]
      rintro r i ⟨r', e, hr⟩
      rw [List.append_assoc] at e
      cases List.append_cancel_left e
      rw [look_append_none q r _ hl] at hr
      cases hr
    | some o =>
      cases o with
      | leaf ty x =>
        obtain ⟨i', ⟨q', e, h1⟩, h2⟩ := he.leaf (P ++ q) ⟨ty, x⟩ (hW q ty x hl)
        cases List.append_cancel_left e
        rw [h2]
        exact h1.symm.trans hl
      | dir =>
        obtain ⟨r, ty, x, hr⟩ := hf q h0 hl
        refine he.above (P ++ q) r ⟨ty, x⟩ (fun e => ?_) ?_
        · subst e
          rw [List.append_nil, hl] at hr
          cases hr
        · rw [List.append_assoc]
          exact hW _ ty x hr

theorem tmp_space {E : Env} {S : Store} {id : Str} {fs : FS} {tmp : Str} {P : List Str} (ht : Tmp fs tmp P) :
    Flat (Files E S P ⟨.tree, id⟩) ∧ Space (Files E S P ⟨.tree, id⟩) fs := by
  refine ⟨?_, ?_, ?_⟩
  · rintro p q i j hq ⟨a, rfl, ha⟩ ⟨c, e, hc⟩
    rw [List.append_assoc] at e
    cases List.append_cancel_left e
    rw [Install.look_prefix a q _ _ _ hq ha] at hc
    cases hc
  · rintro p q i hq ⟨a, e, ha⟩ ty x hp
    rcases List.prefix_or_prefix_of_prefix (l₁ := p) (l₂ := P) ⟨q, rfl⟩ ⟨a, e.symm⟩ with ⟨r, hr⟩ | ⟨r, hr⟩
    · by_cases h0 : r = []
      · subst h0
        rw [List.append_nil] at hr
        rw [hr, ht.dir] at hp
        cases hp
      · have := ht.wf.above p r h0 (o := .dir) (by rw [hr]; exact ht.dir)
        rw [this] at hp
        cases hp
    · by_cases h0 : r = []
      · subst h0
        rw [List.append_nil] at hr
        rw [← hr, ht.dir] at hp
        cases hp
      · rw [← hr, ht.empty r h0] at hp
        cases hp
  · rintro p i ⟨a, rfl, ha⟩ hp
    by_cases h0 : a = []
    · subst h0
      cases ha
    · rw [ht.empty a h0] at hp
      cases hp

/-- Importing a structure to git gives this structure. -/
theorem import_spec' {E : Env} (hE : E.OK) {U : Store} (hU : NoCollision E U) {b : Str} (hb : b.length = 20)
    {ord : List Ent → List Ent} (ho : ∀ l, (ord l).Perm l) {s : State} (hsub : ∀ d ∈ s.cas, d ∈ U) {v : Str}
    (hv : In E s.cas v) (hw : Whole E s.cas ⟨.tree, v⟩) (hc : Canonical E U ⟨.tree, v⟩) (hp : Plain E U v)
    (hbl : ∀ q ty x, Tree.look E U ⟨.tree, v⟩ q = some (.leaf ty x) → x = b) {git : Store} (hg : Repo E U git) {fs : FS} {tmp : Str}
    {P : List Str} (ht : Tmp fs tmp P) : ∃ M, ∀ m, M ≤ m → ∃ root git',
      importToGit E (casOf b ord s) m tmp fs v git = .ok (root, git') ∧ (∀ d ∈ git, d ∈ git') ∧
      ((∀ d ∈ git', d ∈ U) → root = v ∧ In E git' v ∧ (∀ q, Tree.look E git' ⟨.tree, v⟩ q = Tree.look E U ⟨.tree, v⟩ q) ∧
        Canonical E git' ⟨.tree, v⟩) := by
  have hC : (casOf b ord s).In U := ⟨hsub, ho⟩
  have hwU := hw.super hU hsub
  have hclean : Clean E U ⟨.tree, v⟩ := hwU.clean hp.names
  have hpres : Present E (casOf b ord s) ⟨.tree, v⟩ := by
    refine Whole.present (b := b) (by simp [casOf]) hw fun q ty x h => ?_
    rw [show Tree.look E (casOf b ord s).trees ⟨.tree, v⟩ q = Tree.look E U ⟨.tree, v⟩ q from hw.look hU hsub q] at h
    exact ⟨fun e => hp.links q x (e ▸ h), hbl q ty x h⟩
  obtain ⟨hflat, hspace⟩ := tmp_space (E := E) (S := U) (id := v) ht
  have houts : Outs [] [(tmp, (⟨.tree, v⟩ : Info))] := by
    intro x hx
    rw [List.mem_singleton.1 hx]
    dsimp only
    rw [ht.path.path]
    exact ht.path
  obtain ⟨N, hN⟩ := retrieve_ok hU hC none hflat [(tmp, ⟨.tree, v⟩)] houts (by
      intro x hx
      rw [List.mem_singleton.1 hx]
      exact hclean) (by
      intro x hx
      rw [List.mem_singleton.1 hx]
      exact hpres) (by
      intro x hx
      rw [List.mem_singleton.1 hx]
      dsimp only
      rw [ht.path.path]
      exact fun p j h => h)
  obtain ⟨D, hD⟩ := hwU.depth
  refine ⟨N + D, fun m hm => ?_⟩
  unfold importToGit
  rw [if_neg (show retrieve E (casOf b ord s).trees v ≠ none from (in_retrieve v).1 hv)]
  by_cases hin : retrieve E git v ≠ none
  · rw [if_pos hin]
    refine ⟨v, git, rfl, fun _ h => h, fun _ => ⟨rfl, (in_retrieve v).2 hin, ?_⟩⟩
    obtain ⟨d, hd, rfl⟩ := (in_retrieve v).2 hin
    have hwg := hg.closed d hd
    exact ⟨hwg.look hU hg.sub, hwg.canonical hU hg.sub hc⟩
  · rw [if_neg hin]
    obtain ⟨fs', hr⟩ := hN m (by omega) fs hspace
    rw [hr]
    obtain ⟨k1, k2⟩ := retrieve_spec hU hC (git := none) (by simp) [(tmp, ⟨.tree, v⟩)] fs fs' true houts (by
      intro x hx
      rw [List.mem_singleton.1 hx]
      exact hclean) hr
    have hW : (fun p j => ∃ x ∈ [(tmp, (⟨.tree, v⟩ : Info))], Files E U (Install.resolve [] x.1) x.2 p j) =
        Files E U P ⟨.tree, v⟩ := by
      funext p j
      simp [ht.path.path]
    rw [hW] at k1 k2
    have hlook := staged_look hp.full ht (k2 rfl)
    have hwf := k1.wf ht.wf
    have himp : Importable fs' P := by
      refine ⟨fun q o h => ?_, fun q ty x h => ?_⟩
      · rw [hlook] at h
        exact (look_names hclean q o h).1
      · rw [hlook] at h
        refine ⟨?_, ((look_names hclean q _ h).2 ty x rfl).1⟩
        rw [hbl q ty x h]
        exact hb
    obtain ⟨root, made, h1, h2⟩ := import_spec hE.length hwf m P (by
        have := hlook []
        rw [List.append_nil] at this
        exact this) himp fun q hq => by
      rw [hlook] at hq
      have := hD q hq
      omega
    dsimp only
    rw [ht.path.path, h1]
    refine ⟨root, made ++ git, rfl, fun d hd => List.mem_append_right _ hd, fun hu => ?_⟩
    obtain ⟨j1, j2⟩ := h2.2 U hU fun c hc => hu c (List.mem_append_left _ hc)
    have hroot : root = v := by
      have := Canonical.eq hU j2 hc fun q => (j1 q).trans (hlook q)
      injection this
    subst hroot
    have hN' : NoCollision E (made ++ git) := fun a ha c hc => hU a (hu a ha) c (hu c hc)
    obtain ⟨g1, g2⟩ := h2.2 (made ++ git) hN' fun c hc => List.mem_append_left _ hc
    refine ⟨rfl, ?_, fun q => (g1 q).trans (hlook q), g2⟩
    generalize hi : (⟨.tree, root⟩ : Info) = i at g2
    cases g2 with
    | leaf hn => exact absurd (by rw [← hi]) hn
    | tree _ _ h3 _ =>
      injection hi with _ hi
      exact ⟨_, h3, hi.symm⟩

theorem Plain.structure {E : Env} {U : Store} {b k v : Str} (h : Plain E U k) (hs : Structure E U b k v) : Plain E U v where
  names := fun q o ho => by
    rw [hs q, Option.map_eq_some_iff] at ho
    obtain ⟨o', h1, _⟩ := ho
    exact h.names q o' h1
  links := fun q x ho => by
    rw [hs q, Option.map_eq_some_iff] at ho
    obtain ⟨o', h1, h2⟩ := ho
    cases o' with
    | dir => cases h2
    | leaf ty id =>
      injection h2 with h2 _
      subst h2
      exact h.links q id h1
  full := fun q hq ho => by
    rw [hs q, Option.map_eq_some_iff] at ho
    obtain ⟨o', h1, h2⟩ := ho
    cases o' with
    | leaf ty id => cases h2
    | dir =>
      obtain ⟨r, ty, x, hr⟩ := h.full q hq h1
      exact ⟨r, ty, b, by rw [hs, hr]; rfl⟩

theorem Structure.empty {E : Env} {U : Store} {b k v : Str} (hs : Structure E U b k v) :
    ∀ q ty x, Tree.look E U ⟨.tree, v⟩ q = some (.leaf ty x) → x = b := by
  intro q ty x ho
  rw [hs q, Option.map_eq_some_iff] at ho
  obtain ⟨o', _, h2⟩ := ho
  cases o' with
  | dir => cases h2
  | leaf ty id =>
    injection h2 with _ h2
    exact h2.symm

/-- What a computation of the structure in git gives. -/
structure Result (E : Env) (b id v : Str) (s s' : State) (git git' : Store) : Prop where
  same : ∀ q, Tree.look E git' ⟨.tree, v⟩ q = (Tree.look E s.cas ⟨.tree, id⟩ q).map (blank b)
  there : In E git' v
  canonical : Canonical E git' ⟨.tree, v⟩
  git : ∀ d ∈ git, d ∈ git'
  cas : ∀ d ∈ s.cas, d ∈ s'.cas

/-- **C81.** For a tree in the storage, the structure is computed and is in the git repository with everything below; whether it was
in the cache, or in the repository already, or not. What is missing: the tree must have no symbolic links (V52) and every
subdirectory must have a file below it (V53). -/
theorem C81_local_partial {E : Env} (hE : E.OK) {U : Store} (hU : NoCollision E U) {b : Str} (hb : b.length = 20)
    {ord : List Ent → List Ent} (ho : ∀ l, (ord l).Perm l) {s : State} (hs : Reach E U b ord s) {id : Str} (hin : In E s.cas id)
    (hp : Plain E s.cas id) {git : Store} (hg : Repo E U git) {fs : FS} {tmp : Str} {P : List Str} (ht : Tmp fs tmp P) :
    ∃ N, ∀ n, N ≤ n → (∀ d ∈ (compute E b ord n id (cacheGet E id s).2).2.cas, d ∈ U) → ∃ M, ∀ m, M ≤ m → ∃ v s' git',
      computeLocally E b ord n m tmp fs id s git = .ok (v, s', git') ∧ ((∀ d ∈ git', d ∈ U) → Result E b id v s s' git git') := by
  have hi := hs.inv hE hU hb ho
  have hwk := hi.at hin
  have hpU : Plain E U id := by
    have e := hwk.look hU hi.sub
    exact ⟨fun q o h => hp.names q o (by rw [e]; exact h), fun q x h => hp.links q x (by rw [e]; exact h), fun q hq h => by
      obtain ⟨r, ty, x, hr⟩ := hp.full q hq (by rw [e]; exact h)
      exact ⟨r, ty, x, by rw [← e]; exact hr⟩⟩
  cases hc1 : cacheGet E id s with
  | mk r1 s1 =>
    obtain ⟨i1, e1, g1⟩ := cacheGet_spec hi hc1
    have hres : ∀ v s', Good E U b id v → (∀ d ∈ s.cas, d ∈ s'.cas) → ∀ git', (∀ d ∈ git, d ∈ git') →
        (In E git' v ∧ (∀ q, Tree.look E git' ⟨.tree, v⟩ q = Tree.look E U ⟨.tree, v⟩ q) ∧ Canonical E git' ⟨.tree, v⟩) →
        Result E b id v s s' git git' := by
      rintro v s' hgd hm git' hgm ⟨j2, j3, j4⟩
      exact ⟨fun q => by rw [j3 q, hgd.same q, hwk.look hU hi.sub], j2, j4, hgm, hm⟩
    cases r1 with
    | some v =>
      refine ⟨0, fun n _ _ => ?_⟩
      obtain ⟨k1, _, k3⟩ := g1 v rfl
      rw [← e1] at k3
      obtain ⟨M, hM⟩ := import_spec' hE hU hb ho i1.sub k3 (i1.at k3) k1.canonical (hpU.structure k1.same) k1.same.empty hg ht
      refine ⟨M, fun m hm => ?_⟩
      obtain ⟨root, git', j1, j2, j3⟩ := hM m hm
      refine ⟨root, s1, git', ?_, fun hu => ?_⟩
      · unfold computeLocally
        rw [hc1]
        dsimp only
        rw [j1]
        rfl
      · obtain ⟨rfl, l1⟩ := j3 hu
        exact hres root s1 k1 (fun d hd => e1 ▸ hd) git' j2 l1
    | none =>
      have hs1 : s1 = s := by
        unfold cacheGet at hc1
        split at hc1
        · cases hc1
          rfl
        · split at hc1
          · cases hc1
            rfl
          · split at hc1
            · cases hc1
              rfl
            · cases hc1
      subst hs1
      obtain ⟨N, hN⟩ := C81_success hE hU hb ho hs hin
      refine ⟨N, fun n hn hu => ?_⟩
      dsimp only at hu
      obtain ⟨v, hv⟩ := hN n hn hu
      have hm := compute_mono E b ord n id s1
      cases hc2 : compute E b ord n id s1 with
      | mk r2 s2 =>
        rw [hc2] at hu hv hm
        dsimp only at hu hv hm
        subst hv
        obtain ⟨i2, g2⟩ := compute_works hE hU hb ho n id s1 s2 _ i1 hc2 hu
        obtain ⟨k1, _, k3⟩ := g2 v rfl
        obtain ⟨M, hM⟩ := import_spec' hE hU hb ho i2.sub k3 (i2.at k3) k1.canonical (hpU.structure k1.same) k1.same.empty hg ht
        refine ⟨M, fun m hm' => ?_⟩
        obtain ⟨root, git', j1, j2, j3⟩ := hM m hm'
        refine ⟨v, s2, git', ?_, fun hu => hres v s2 k1 hm git' j2 (j3 hu).2⟩
        unfold computeLocally
        rw [hc1]
        dsimp only
        rw [hc2]
        dsimp only
        rw [j1]
        rfl

/-- **C81.** The tree that is reported does not depend on what is in the cache, the storage, or the repository: for trees with the
same structure, it is the same. -/
theorem C81_local_same_partial {E : Env} {U : Store} (hU : NoCollision E U) {b id1 id2 v1 v2 : Str} {s1 s1' s2 s2' : State}
    {git1 git1' git2 git2' : Store} (h1 : Result E b id1 v1 s1 s1' git1 git1') (h2 : Result E b id2 v2 s2 s2' git2 git2')
    (hu1 : ∀ d ∈ git1', d ∈ U) (hu2 : ∀ d ∈ git2', d ∈ U)
    (he : ∀ q, (Tree.look E s1.cas ⟨.tree, id1⟩ q).map (blank b) = (Tree.look E s2.cas ⟨.tree, id2⟩ q).map (blank b)) : v1 = v2 := by
  have up : ∀ {S : Store} {i : Info}, (∀ d ∈ S, d ∈ U) → Canonical E S i → Canonical E U i ∧ Whole E S i := by
    intro S i hs hc
    have hN : NoCollision E S := fun a ha c hc => hU a (hs a ha) c (hs c hc)
    induction hc with
    | leaf h => exact ⟨.leaf h, .leaf h⟩
    | tree h1 h2 h3 _ ih =>
      exact ⟨.tree h1 h2 (hs _ h3) fun e he => (ih e he).1,
        .tree (Tree.retrieve_hash hN h3) (Tree.parseTree_texts h1.ok) h1 fun e he => (ih e he).2⟩
  obtain ⟨c1, w1⟩ := up hu1 h1.canonical
  obtain ⟨c2, w2⟩ := up hu2 h2.canonical
  have := Canonical.eq hU c1 c2 fun q => by
    rw [← w1.look hU hu1, ← w2.look hU hu2, h1.same, h2.same, he]
  injection this

end Verif.Struct
