import Verif.InstallCas.Install
import Verif.Repo.ArtifactsRootProps

/-!
# Archives written by `install-cas`, and when it succeeds (C110)
-/

namespace Verif.InstallCas

open Verif.Dig (HashType ObjectType ObjectInfo)
open Verif.Expr (hexString)
open Verif.Install
open Verif.Path
open Verif.Roots (Out)
open Verif.Tree (Info Obs Env Store Ent Listing NoCollision look retrieve parseTree group flat)

/-! ## What is claimed -/

/-- What an archive has to contain for what is found in a tree: directories; readable files with their content, being
executable or not; links with their target. -/
def Fits (C : Cas) : Obs → Kind → Prop
  | .dir, k => k = .dir
  | .leaf ty id, k => ∃ c, C.blob id = some c ∧
    match ty with
    | .executable => k = .regular 0o555 c
    | .symlink => k = .link (c.takeWhile fun x => x.toNat ≠ 0)
    | _ => k = .regular 0o444 c

/-- What is to be in an archive at a path. -/
def Shown (E : Env) (S : Store) (C : Cas) (i : Info) (q : List Str) (k : Kind) : Prop :=
  ∃ x, look E S i q = some x ∧ Fits C x k

/-- Members by path, in the order of the paths. -/
def toMembers (ks : List (List Str × Kind)) : List Member := ks.map fun x => ⟨joinWith '/' x.1, x.2⟩

/-- Paths are strictly ascending; in particular, they are different, and directories are before what is in them. -/
def Sorted (ks : List (List Str × Kind)) : Prop := ks.Pairwise fun x y => x.1 < y.1

/-! ## Entries by name -/

theorem byName_find (l : List Ent) (hl : (l.map Ent.name).Nodup) (n : Str) (i : Info) :
    (byName l).find n = some i ↔ ∃ e ∈ l, e.name = n ∧ i = ⟨e.type, e.id⟩ := by
  have key : ∀ (l : List Ent) (m : OMap Str Info), (l.map Ent.name).Nodup → (∀ e ∈ l, m.find e.name = none) →
      ((l.foldl (fun m e => m.assign e.name ⟨e.type, e.id⟩) m).find n = some i ↔
        m.find n = some i ∨ ∃ e ∈ l, e.name = n ∧ i = ⟨e.type, e.id⟩) := by
    intro l
    induction l with
    | nil => intro m _ _; simp
    | cons e l ih =>
      intro m hnd hm
      rw [List.map_cons, List.nodup_cons] at hnd
      rw [List.foldl_cons, ih _ hnd.2 ?_]
      · rw [OMap.find_assign]
        constructor
        · rintro (h | ⟨e', h1, h2⟩)
          · split at h
            · rename_i he
              cases h
              exact .inr ⟨e, by simp, he.symm, rfl⟩
            · exact .inl h
          · exact .inr ⟨e', by simp [h1], h2⟩
        · rintro (h | ⟨e', h1, h2, h3⟩)
          · left
            rw [if_neg]
            · exact h
            · rintro rfl
              rw [hm e (by simp)] at h
              cases h
          · rcases List.mem_cons.1 h1 with rfl | h1
            · left
              rw [if_pos h2.symm, h3]
            · exact .inr ⟨e', h1, h2, h3⟩
      · intro e' he'
        rw [OMap.find_assign, if_neg]
        · exact hm e' (by simp [he'])
        · intro h
          exact hnd.1 (by rw [← h]; exact List.mem_map_of_mem he')
  unfold byName
  rw [key l OMap.empty hl (fun _ _ => rfl)]
  simp

/-! ## Members -/

section

variable {E : Env} {S : Store} (hS : NoCollision E S) {C : Cas} (hC : C.In S)

theorem leafKind_fits {ty : ObjectType} (ht : ty ≠ .tree) {id c : Str} (h : C.blob id = some c) (k : Kind) :
    Fits C (.leaf ty id) k ↔ k = leafKind ty c := by
  cases ty with
  | tree => exact absurd rfl ht
  | file => simp [Fits, h, leafKind]
  | executable => simp [Fits, h, leafKind]
  | symlink => simp [Fits, h, leafKind, cString]

/-- The members for an object at a path. -/
structure Members (E : Env) (S : Store) (C : Cas) (P : List Str) (Q : List Str → Kind → Prop) (ms : List Member)
    (ks : List (List Str × Kind)) : Prop where
  members : ms = ks.map fun x => ⟨joinWith '/' (P ++ x.1), x.2⟩
  mem : ∀ q k, (q, k) ∈ ks ↔ Q q k
  sorted : Sorted ks

theorem addAll_spec {f : Info → Str → Bool × List Member} {P : List Str} (hP : ∀ a ∈ P, ProperName a) :
    ∀ (items : List (Str × Info)) (ms : List Member), Ascending items → (∀ x ∈ items, ProperName x.1) →
      (∀ x ∈ items, ∀ ms, f x.2 (joinWith '/' (P ++ [x.1])) = (true, ms) →
        ∃ ks, Members E S C (P ++ [x.1]) (Shown E S C x.2) ms ks) →
      addAll f (joinWith '/' P) items = (true, ms) →
      ∃ ks, Members E S C P (fun q k => ∃ x ∈ items, ∃ r, q = x.1 :: r ∧ Shown E S C x.2 r k) ms ks
  | [], ms, _, _, _, h => by
    cases h
    exact ⟨[], rfl, by simp, List.Pairwise.nil⟩
  | (n, i) :: r, ms, ha, hn, hf, h => by
    have hnn := hn (n, i) (by simp)
    unfold Ascending at ha
    rw [List.pairwise_cons] at ha
    rw [addAll, Roots.append_join (fun a h => (hP a h).seg) hnn] at h
    generalize hq : f i (joinWith '/' (P ++ [n])) = q at h
    obtain ⟨b, m1⟩ := q
    cases b with
    | false => cases h
    | true =>
      obtain ⟨k1, h1⟩ := hf (n, i) (by simp) m1 hq
      dsimp only at h
      generalize hq' : addAll f (joinWith '/' P) r = q' at h
      obtain ⟨b', m2⟩ := q'
      cases h
      obtain ⟨k2, h2⟩ := addAll_spec hP r m2 ha.2 (fun x hx => hn x (by simp [hx])) (fun x hx => hf x (by simp [hx])) hq'
      refine ⟨k1.map (fun x => (n :: x.1, x.2)) ++ k2, ?_, fun q k => ?_, ?_⟩
      · rw [List.map_append, List.map_map, h1.members, h2.members]
        congr 1
        apply List.map_congr_left
        intro x _
        show _ = (⟨joinWith '/' (P ++ (n :: x.1)), x.2⟩ : Member)
        rw [List.append_assoc, List.singleton_append]
      · rw [List.mem_append, h2.mem, List.mem_map]
        constructor
        · rintro (⟨⟨q', k'⟩, hx, e⟩ | ⟨x, hx, hr⟩)
          · cases e
            exact ⟨(n, i), by simp, q', rfl, (h1.mem q' k').1 hx⟩
          · exact ⟨x, by simp [hx], hr⟩
        · rintro ⟨x, hx, r', rfl, hr⟩
          rcases List.mem_cons.1 hx with rfl | hx
          · exact .inl ⟨(r', k), (h1.mem r' k).2 hr, rfl⟩
          · exact .inr ⟨x, hx, r', rfl, hr⟩
      · unfold Sorted
        rw [List.pairwise_append]
        refine ⟨?_, h2.sorted, ?_⟩
        · rw [List.pairwise_map]
          exact h1.sorted.imp fun h => List.cons_lt_cons_iff.2 (.inr ⟨rfl, h⟩)
        · intro x hx y hy
          obtain ⟨x', _, rfl⟩ := List.mem_map.1 hx
          obtain ⟨z, hz, r', e, _⟩ := (h2.mem y.1 y.2).1 hy
          rw [e]
          exact List.cons_lt_cons_iff.2 (.inl (ha.1 z hz))

include hS hC in
/-- The entries of a tree. -/
theorem tree_items {id d : Str} {l : List Ent} (hc : Clean E S ⟨.tree, id⟩) (hr : retrieve E C.trees id = some d)
    (hp : parseTree d = some l) : Listing l ∧ retrieve E S id = some d ∧
      (∀ x, x ∈ (byName (C.ord (flat (group l)))).items ↔ ∃ e ∈ l, x = (e.name, ⟨e.type, e.id⟩)) ∧
      (∀ e ∈ l, ProperName e.name) ∧ ∀ e ∈ l, Clean E S ⟨e.type, e.id⟩ := by
  have hrS := Tree.retrieve_super hS hC.sub hr
  obtain ⟨h1, h2, h3⟩ := Clean.inv hc hrS hp
  have hperm : (C.ord (flat (group l))).Perm l := (hC.ord _).trans (Tree.flat_group l)
  refine ⟨h1, hrS, fun ⟨n, i⟩ => ?_, h2, h3⟩
  rw [OMap.mem_items, byName_find _ ((hperm.map Ent.name).nodup_iff.2 h1.names)]
  constructor
  · rintro ⟨e, he, rfl, rfl⟩
    exact ⟨e, hperm.mem_iff.1 he, rfl⟩
  · rintro ⟨e, he, e'⟩
    cases e'
    exact ⟨e, hperm.mem_iff.2 he, rfl, rfl⟩

theorem look_entry {id d : Str} {l : List Ent} (hr : retrieve E S id = some d) (hp : parseTree d = some l) (hl : Listing l)
    (n : Str) (q : List Str) (x : Obs) : look E S ⟨.tree, id⟩ (n :: q) = some x ↔
      ∃ e ∈ l, e.name = n ∧ look E S ⟨e.type, e.id⟩ q = some x := by
  rw [look, if_pos rfl, hr, Option.bind_some, hp, Option.bind_some, Option.bind_eq_some_iff]
  constructor
  · rintro ⟨e, he, h⟩
    exact ⟨e, List.mem_of_find?_eq_some he, by simpa using List.find?_some he, h⟩
  · rintro ⟨e, he, rfl, h⟩
    refine ⟨e, ?_, h⟩
    cases hf : l.find? fun e' => e'.name = e.name with
    | none =>
      have := List.find?_eq_none.1 hf e he
      simp at this
    | some e' =>
      rw [List.inj_on_of_nodup_map hl.names (List.mem_of_find?_eq_some hf) he (by simpa using List.find?_some hf)]

/-- Members of a tree are those of its entries. -/
theorem shown_tree {id d : Str} {l : List Ent} (hr : retrieve E S id = some d) (hp : parseTree d = some l) (hl : Listing l)
    {items : List (Str × Info)} (hi : ∀ x, x ∈ items ↔ ∃ e ∈ l, x = (e.name, ⟨e.type, e.id⟩)) (q : List Str) (k : Kind) :
    (∃ x ∈ items, ∃ r, q = x.1 :: r ∧ Shown E S C x.2 r k) ↔ q ≠ [] ∧ Shown E S C ⟨.tree, id⟩ q k := by
  constructor
  · rintro ⟨x, hx, r, rfl, y, hy, hk⟩
    obtain ⟨e, he, rfl⟩ := (hi x).1 hx
    exact ⟨by simp, y, (look_entry hr hp hl _ _ _).2 ⟨e, he, rfl, hy⟩, hk⟩
  · rintro ⟨hq, y, hy, hk⟩
    cases q with
    | nil => exact absurd rfl hq
    | cons n q =>
      obtain ⟨e, he, rfl, h⟩ := (look_entry hr hp hl _ _ _).1 hy
      exact ⟨_, (hi _).2 ⟨e, he, rfl⟩, q, rfl, y, h, hk⟩

include hS hC in
theorem addToArchive_spec : ∀ (n : Nat) (i : Info) (P : List Str) (ms : List Member), Clean E S i → P ≠ [] →
    (∀ a ∈ P, ProperName a) → addToArchive E C n i (joinWith '/' P) = (true, ms) →
    ∃ ks, Members E S C P (Shown E S C i) ms ks
  | 0, _, _, _, _, _, _, h => by cases h
  | n + 1, ⟨ty, id⟩, P, ms, hc, h0, hP, h => by
    have hne : joinWith '/' P ≠ [] := joinWith_ne_nil h0 fun a ha => (hP a ha).seg
    by_cases ht : ty = .tree
    · subst ht
      rw [addToArchive, if_pos rfl] at h
      dsimp only at h
      cases hr : retrieve E C.trees id with
      | none =>
        rw [hr] at h
        cases h
      | some d =>
        rw [hr] at h
        dsimp only at h
        cases hp : parseTree d with
        | none =>
          rw [hp] at h
          cases h
        | some l =>
          rw [hp, if_neg hne] at h
          dsimp only at h
          obtain ⟨h1, h2, h3, h4, h5⟩ := tree_items hS hC hc hr hp
          generalize hq : addAll (addToArchive E C n) (joinWith '/' P) (byName (C.ord (flat (group l)))).items = q at h
          obtain ⟨b, m1⟩ := q
          cases h
          obtain ⟨ks, hk⟩ := addAll_spec hP _ _ (byName (C.ord (flat (group l)))).asc (fun x hx => by
            obtain ⟨e, he, rfl⟩ := (h3 x).1 hx
            exact h4 e he) (fun x hx ms hm => by
            obtain ⟨e, he, rfl⟩ := (h3 x).1 hx
            exact addToArchive_spec n _ (P ++ [e.name]) ms (h5 e he) (by simp) (fun a ha => by
              rcases List.mem_append.1 ha with ha | ha
              · exact hP a ha
              · rw [List.mem_singleton.1 ha]
                exact h4 e he) hm) hq
          refine ⟨([], .dir) :: ks, ?_, fun q k => ?_, ?_⟩
          · rw [List.map_cons, hk.members, List.append_nil]
            rfl
          · rw [List.mem_cons, hk.mem, shown_tree h2 hp h1 h3]
            constructor
            · rintro (e | h)
              · cases e
                exact ⟨.dir, by rw [look, if_pos rfl], rfl⟩
              · exact h.2
            · intro h
              by_cases hq : q = []
              · subst hq
                obtain ⟨x, hx, hk⟩ := h
                rw [look, if_pos rfl] at hx
                cases hx
                exact .inl (by rw [show k = .dir from hk])
              · exact .inr ⟨hq, h⟩
          · unfold Sorted
            rw [List.pairwise_cons]
            refine ⟨fun x hx => ?_, hk.sorted⟩
            obtain ⟨y, _, r, e, _⟩ := (hk.mem x.1 x.2).1 hx
            rw [e]
            exact List.nil_lt_cons _ _
    · rw [addToArchive, if_neg ht] at h
      dsimp only at h
      cases hb : C.blob id with
      | none =>
        rw [hb] at h
        cases h
      | some c =>
        rw [hb] at h
        cases h
        refine ⟨[([], leafKind ty c)], by simp, fun q k => ?_, List.pairwise_singleton _ _⟩
        rw [List.mem_singleton]
        constructor
        · intro e
          cases e
          exact ⟨.leaf ty id, by rw [look, if_neg ht], (leafKind_fits ht hb _).2 rfl⟩
        · rintro ⟨x, hx, hk⟩
          cases q with
          | nil =>
            rw [look, if_neg ht] at hx
            cases hx
            rw [(leafKind_fits ht hb k).1 hk]
          | cons n q =>
            rw [look, if_neg ht] at hx
            cases hx

include hS hC in
/-- The archive of a tree. -/
theorem archive_spec {n : Nat} {id : Str} {ms : List Member} (hc : Clean E S ⟨.tree, id⟩)
    (h : addToArchive E C n ⟨.tree, id⟩ [] = (true, ms)) :
    ∃ ks, Members E S C [] (fun q k => q ≠ [] ∧ Shown E S C ⟨.tree, id⟩ q k) ms ks := by
  cases n with
  | zero => cases h
  | succ n =>
    rw [addToArchive, if_pos rfl] at h
    dsimp only at h
    cases hr : retrieve E C.trees id with
    | none =>
      rw [hr] at h
      cases h
    | some d =>
      rw [hr] at h
      dsimp only at h
      cases hp : parseTree d with
      | none =>
        rw [hp] at h
        cases h
      | some l =>
        rw [hp, if_pos rfl] at h
        dsimp only at h
        obtain ⟨h1, h2, h3, h4, h5⟩ := tree_items hS hC hc hr hp
        generalize hq : addAll (addToArchive E C n) [] (byName (C.ord (flat (group l)))).items = q at h
        obtain ⟨b, m1⟩ := q
        cases h
        obtain ⟨ks, hk⟩ := addAll_spec (E := E) (S := S) (C := C) (P := []) (by simp) _ _
          (byName (C.ord (flat (group l)))).asc (fun x hx => by
            obtain ⟨e, he, rfl⟩ := (h3 x).1 hx
            exact h4 e he) (fun x hx ms hm => by
            obtain ⟨e, he, rfl⟩ := (h3 x).1 hx
            exact addToArchive_spec hS hC n _ [e.name] ms (h5 e he) (by simp) (fun a ha => by
              rw [List.mem_singleton.1 ha]
              exact h4 e he) hm) hq
        exact ⟨ks, hk.members, fun q k => (hk.mem q k).trans (shown_tree h2 hp h1 h3 q k), hk.sorted⟩

theorem addAll_ok {f : Info → Str → Bool × List Member} {loc : Str} : ∀ items : List (Str × Info),
    (∀ x ∈ items, (f x.2 (append loc x.1)).1 = true) → (addAll f loc items).1 = true
  | [], _ => rfl
  | (n, i) :: r, h => by
    have h1 := h (n, i) (by simp)
    dsimp only at h1
    rw [addAll]
    generalize f i (append loc n) = q at h1
    obtain ⟨b, a⟩ := q
    cases h1
    exact addAll_ok r fun x hx => h x (by simp [hx])

include hS hC in
theorem addToArchive_ok {i : Info} (h : Present E C i) : Clean E S i →
    ∃ N, ∀ n, N ≤ n → ∀ loc, (addToArchive E C n i loc).1 = true := by
  induction h with
  | @blob i c ht hb _ =>
    intro _
    refine ⟨1, fun n hn loc => ?_⟩
    obtain ⟨n, rfl⟩ : ∃ m, n = m + 1 := ⟨n - 1, by omega⟩
    rw [addToArchive, if_neg ht, hb]
  | @tree id d l hr hp _ _ ih =>
    intro hc
    obtain ⟨_, _, h3, _, h5⟩ := tree_items hS hC hc hr hp
    obtain ⟨N, hN⟩ := bound_all (Q := fun (e : Ent) n => ∀ loc, (addToArchive E C n ⟨e.type, e.id⟩ loc).1 = true) l
      fun e he => ih e he (h5 e he)
    refine ⟨N + 1, fun n hn loc => ?_⟩
    obtain ⟨n, rfl⟩ : ∃ m, n = m + 1 := ⟨n - 1, by omega⟩
    rw [addToArchive, if_pos rfl]
    dsimp only
    rw [hr]
    dsimp only
    rw [hp]
    refine addAll_ok _ fun x hx => ?_
    obtain ⟨e, he, rfl⟩ := (h3 x).1 hx
    exact hN n (by omega) e he _

theorem generate_true {O : Outside} {n : Nat} {cwd : List Str} {i : Info} {out : Option Str} {w : World}
    (hd : (out.bind fun p => w.fs.at (resolve cwd p)) ≠ some .dir) (ha : (addToArchive E C n i []).1 = true) :
    ∃ w', generateArchive E C O n cwd i out w = (true, w') := by
  unfold generateArchive
  rw [if_neg hd, ha]
  exact ⟨_, rfl⟩

/-! ## C110 -/

/-- The object asked for: the one given, or the one at the path given. -/
def Asked (E : Env) (C : Cas) (a : Args) (i j : Info) : Prop :=
  a.sub = none ∧ j = i ∨ ∃ p, a.sub = some (joinWith '/' p) ∧ At E C.trees i p j

/-- The place of an archive. -/
def archivePlace (cwd : List Str) (o : Option Str) (j : Info) (fs : FS) : Option (List Str) :=
  o.map fun o => target cwd o j fs

include hS hC in
theorem select_asked {a : Args} {i j : Info} (hc : Clean E S i) (h : Asked E C a i j) : select E C a i = some j := by
  rcases h with ⟨h1, rfl⟩ | ⟨p, h1, h2⟩
  · unfold select
    rw [h1]
  · exact C110_sub_found hS hC h2 hc h1

include hS hC in
/-- **C110.** If an archive is asked for, then on success one is written to the output path (in it, named by the hash, if that
is a directory) or to stdout; the object is a tree, and the members of the archive are exactly what is in the tree, with
types, content, and permissions, in the order of the paths. What is missing: the object is that asked for only if the path
given exists (V110), and writing has to be without errors, as these are ignored (V113). -/
theorem C110_archive_partial {git : Option Cas} {O : Outside} (hO : ∀ l, O.writes l = l) {n : Nat} {cwd : List Str} {a : Args}
    {i : Info} (hr : Refers a.object i) (hc : Clean E S i) (har : a.archive = true) (hn : ∀ o, a.output = some o → Named o)
    {w w' : World} (h : run E C git O n cwd a w = .ok (true, w')) : ∃ j ks, Selected E S a i j ∧ j.type = .tree ∧
      w'.archives = w.archives ++ [(archivePlace cwd a.output j w.fs, toMembers ks)] ∧
      (∀ q k, (q, k) ∈ ks ↔ q ≠ [] ∧ ∃ x, look E S j q = some x ∧ Fits C x k) ∧ Sorted ks ∧ w'.shown = w.shown := by
  obtain ⟨ob, h1, h2⟩ := hr.object
  obtain ⟨r1, r2, r3⟩ := remember_fs O a i w
  unfold run at h
  rw [h1] at h
  dsimp only at h
  rw [h2] at h
  cases hs : select E C a i with
  | none =>
    rw [hs] at h
    cases h
  | some j =>
    have hsel := select_spec hS hC hc hs
    obtain ⟨hcj, hlj⟩ := hsel.ok hc hr.length
    rw [hs, r1] at h
    dsimp only at h
    obtain ⟨b1, out, fs1, hp, ho⟩ : ∃ b1 out fs1, place cwd j a.output w.fs = (b1, out, fs1) ∧
        out.map (resolve cwd) = archivePlace cwd a.output j w.fs := by
      cases ho : a.output with
      | none => exact ⟨_, _, _, rfl, rfl⟩
      | some o =>
        have hout := location_output (hn o ho) cwd (i := j) (by intro e; rw [e] at hlj; cases hlj) w.fs
        exact ⟨_, _, _, rfl, congrArg some hout.path⟩
    rw [hp] at h
    cases b1 with
    | false => cases h
    | true =>
      dsimp only at h
      rw [har, if_pos rfl] at h
      split at h
      · rename_i ht
        obtain ⟨ty, id⟩ := j
        cases show ty = .tree from ht
        unfold generateArchive at h
        split at h
        · cases h
        · generalize hq : addToArchive E C n ⟨.tree, id⟩ [] = q at h
          obtain ⟨b, ms⟩ := q
          cases h
          obtain ⟨ks, hk⟩ := archive_spec hS hC hcj hq
          refine ⟨_, ks, hsel, rfl, ?_, hk.mem, hk.sorted, r3⟩
          dsimp only
          rw [hO, r2, ho, hk.members]
          rfl
      · cases h

include hS hC in
/-- **C110.** Asking for an archive of something that is no tree is an error, and no archive is written. -/
theorem C110_archive_needs_tree {git : Option Cas} {O : Outside} {n : Nat} {cwd : List Str} {a : Args} {i j : Info}
    (hr : Refers a.object i) (hc : Clean E S i) (har : a.archive = true) (hj : Asked E C a i j) (ht : j.type ≠ .tree)
    (w : World) : ∃ w', run E C git O n cwd a w = .ok (false, w') ∧ w'.archives = w.archives ∧ w'.shown = w.shown := by
  obtain ⟨ob, h1, h2⟩ := hr.object
  obtain ⟨r1, r2, r3⟩ := remember_fs O a i w
  unfold run
  rw [h1]
  dsimp only
  rw [h2, select_asked hS hC hc hj]
  dsimp only
  generalize place cwd j a.output (remember O a i w).fs = q
  obtain ⟨b1, out, fs1⟩ := q
  cases b1 with
  | false => exact ⟨_, rfl, r2, r3⟩
  | true =>
    dsimp only
    rw [har, if_pos rfl, if_neg ht]
    exact ⟨_, rfl, r2, r3⟩

include hS hC in
/-- **C110.** If everything is in the CAS and nothing is in the way, then installing succeeds, with or without archive. -/
theorem C110_success {git : Option Cas} {O : Outside} {cwd : List Str} {a : Args} {i j : Info} (hr : Refers a.object i)
    (hc : Clean E S i) (hj : Asked E C a i j) (hp : Present E C j) {o : Str} (ho : a.output = some o) (hn : Named o)
    {w : World} (habove : ∀ p, p <+: target cwd o j w.fs → p ≠ target cwd o j w.fs → ∀ ty id, w.fs.at p ≠ some (.leaf ty id))
    (hroom : if a.archive then j.type = .tree ∧ w.fs.at (target cwd o j w.fs) ≠ some .dir else
      (∀ q r ty id, r ≠ [] → look E S j (q ++ r) = some (.leaf ty id) →
        ∀ ty' id', w.fs.at (target cwd o j w.fs ++ q) ≠ some (.leaf ty' id')) ∧
      ∀ q ty id, look E S j q = some (.leaf ty id) → w.fs.at (target cwd o j w.fs ++ q) ≠ some .dir) :
    ∃ N, ∀ n, N ≤ n → ∃ w', run E C git O n cwd a w = .ok (true, w') := by
  obtain ⟨ob, h1, h2⟩ := hr.object
  obtain ⟨r1, r2, r3⟩ := remember_fs O a i w
  have hsel := select_asked hS hC hc hj
  obtain ⟨hcj, hlj⟩ := (select_spec hS hC hc hsel).ok hc hr.length
  have hout := location_output hn cwd (i := j) (by intro e; rw [e] at hlj; cases hlj) w.fs
  have hT := hout.parent.1
  have hlen : ∀ p, p <+: (target cwd o j w.fs).dropLast → p <+: target cwd o j w.fs ∧ p ≠ target cwd o j w.fs := by
    intro p hp
    refine ⟨hp.trans (List.dropLast_prefix _), fun e => ?_⟩
    have h6 := hp.length_le
    rw [e, List.length_dropLast] at h6
    have := List.length_pos_of_ne_nil hT
    omega
  have hm := mkdirs_ok (target cwd o j w.fs).dropLast [] w.fs fun k hk _ => habove k (hlen k hk).1 (hlen k hk).2
  have hms := mkdirs_soft (target cwd o j w.fs).dropLast [] w.fs
  cases hmk : mkdirs [] (target cwd o j w.fs).dropLast w.fs with
  | mk b1 fs1 =>
    rw [hmk] at hm hms
    cases hm
    dsimp only at hms
    have hat : fs1.at (target cwd o j w.fs) = w.fs.at (target cwd o j w.fs) := by
      rcases hms (target cwd o j w.fs) with e | ⟨k, _, hk, e, _⟩
      · exact e
      · rw [List.nil_append] at e
        exact absurd e.symm (hlen k hk).2
    have hrun : ∀ n, run E C git O n cwd a w =
        if a.archive then
          if j.type = .tree then
            .ok (generateArchive E C O n cwd j (some (location cwd j o w.fs)) { remember O a i w with fs := fs1 })
          else .ok (false, { remember O a i w with fs := fs1 })
        else (retrieveToPaths E C git n cwd [(location cwd j o w.fs, j)] fs1).bind fun r =>
          .ok (r.1, { remember O a i w with fs := r.2 }) := by
      intro n
      unfold run
      rw [h1]
      dsimp only
      rw [h2, hsel]
      dsimp only
      rw [r1, ho]
      dsimp only [place]
      rw [hout.parent.2, hmk]
    cases har : a.archive with
    | true =>
      rw [har, if_pos rfl] at hroom
      obtain ⟨N, hN⟩ := addToArchive_ok hS hC hp hcj
      refine ⟨N, fun n hn' => ?_⟩
      obtain ⟨w', hw'⟩ := generate_true (O := O) (cwd := cwd) (out := some (location cwd j o w.fs))
        (w := { remember O a i w with fs := fs1 }) (by
          show fs1.at (resolve cwd (location cwd j o w.fs)) ≠ some .dir
          rw [hout.path, hat]
          exact hroom.2) (hN n hn' [])
      exact ⟨w', by rw [hrun, har, if_pos rfl, if_pos hroom.1, hw']⟩
    | false =>
      rw [har, if_neg (by simp)] at hroom
      have hflat : Flat (Files E S (target cwd o j w.fs) j) := by
        rintro p q k k' hq ⟨x, rfl, hx⟩ ⟨y, e, hy⟩
        rw [List.append_assoc] at e
        rw [← List.append_cancel_left e, look_prefix x q j _ _ hq hx] at hy
        cases hy
      obtain ⟨N, hN⟩ := retrieve_ok hS hC git (cwd := cwd) hflat [(location cwd j o w.fs, j)] (fun x hx => by
        rw [List.mem_singleton.1 hx, hout.path]
        exact hout) (fun x hx => by rw [List.mem_singleton.1 hx]; exact hcj)
        (fun x hx => by rw [List.mem_singleton.1 hx]; exact hp) (fun x hx p k hk => by
          rw [List.mem_singleton.1 hx, hout.path] at hk
          exact hk)
      have hsp : Space (Files E S (target cwd o j w.fs) j) fs1 := by
        refine ⟨fun p q k hq hk ty id e => ?_, fun p k hk e => ?_⟩
        · obtain ⟨x, e', hx⟩ := hk
          have e1 : w.fs.at p = some (.leaf ty id) := by
            rcases hms p with h | ⟨_, _, _, _, _, h⟩
            · exact h.symm.trans e
            · rw [h] at e
              cases e
          rcases List.prefix_or_prefix_of_prefix (l₁ := p) (l₂ := target cwd o j w.fs) ⟨q, rfl⟩ ⟨x, e'.symm⟩ with hp' | ⟨r, rfl⟩
          · by_cases hpe : p = target cwd o j w.fs
            · subst hpe
              have e' := List.append_cancel_left e'
              subst e'
              exact hroom.1 [] q _ _ hq hx ty id (by rw [List.append_nil]; exact e1)
            · exact habove p hp' hpe ty id e1
          · rw [List.append_assoc] at e'
            have e' := List.append_cancel_left e'
            subst e'
            exact hroom.1 r q _ _ hq hx ty id e1
        · obtain ⟨x, rfl, hx⟩ := hk
          rcases hms (target cwd o j w.fs ++ x) with h | ⟨k', _, hk', e', _⟩
          · exact hroom.2 x _ _ hx (h.symm.trans e)
          · rw [List.nil_append] at e'
            have h7 := hk'.length_le
            rw [← e', List.length_append, List.length_dropLast] at h7
            have := List.length_pos_of_ne_nil hT
            omega
      refine ⟨N, fun n hn' => ?_⟩
      obtain ⟨fs2, h2⟩ := hN n hn' fs1 hsp
      exact ⟨{ remember O a i w with fs := fs2 }, by rw [hrun, har, h2]; rfl⟩

include hS hC in
/-- **C110.** Without output path, the object is shown on stdout, and nothing is installed. -/
theorem C110_shown {git : Option Cas} {O : Outside} {n : Nat} {cwd : List Str} {a : Args} {i j : Info} (hr : Refers a.object i)
    (hc : Clean E S i) (har : a.archive = false) (hj : Asked E C a i j) (ho : a.output = none) (w : World) :
    ∃ b w', run E C git O n cwd a w = .ok (b, w') ∧ w'.fs = w.fs ∧ w'.archives = w.archives ∧
      (b = true ↔ if j.type = .tree then ∃ d, retrieve E C.trees j.id = some d else ∃ c, C.blob j.id = some c) ∧
      w'.shown = w.shown ++ if b then [j] else [] := by
  obtain ⟨ob, h1, h2⟩ := hr.object
  obtain ⟨r1, r2, r3⟩ := remember_fs O a i w
  refine ⟨readable E C j, { remember O a i w with
    fs := w.fs
    shown := (remember O a i w).shown ++ if readable E C j then [j] else [] }, ?_, rfl, r2, ?_, by rw [← r3]⟩
  · unfold run
    rw [h1]
    dsimp only
    rw [h2, select_asked hS hC hc hj]
    dsimp only
    rw [ho]
    dsimp only [place]
    rw [har, if_neg (by simp), r1]
  · unfold readable
    split
    · exact Option.isSome_iff_exists
    · exact Option.isSome_iff_exists

/-- **C110.** With `--remember`, the object given is copied to the local CAS. What is missing: failure to do so is no error
(V112). -/
theorem C110_remember_partial {git : Option Cas} {O : Outside} {n : Nat} {cwd : List Str} {a : Args} {i : Info}
    (hr : Refers a.object i) (ha : a.remember = true) (hO : O.copies i = true) {w w' : World} {b : Bool}
    (h : run E C git O n cwd a w = .ok (b, w')) : w'.kept = w.kept ++ [i] := by
  obtain ⟨ob, h1, h2⟩ := hr.object
  have hk : (remember O a i w).kept = w.kept ++ [i] := by
    unfold remember
    rw [if_pos ha, if_pos hO]
  unfold run at h
  rw [h1] at h
  dsimp only at h
  rw [h2] at h
  split at h
  · cases h
    exact hk
  · split at h
    · cases h
      exact hk
    · split at h
      · split at h
        · unfold generateArchive at h
          split at h
          · cases h
            exact hk
          · cases h
            exact hk
        · cases h
          exact hk
      · split at h
        · rename_i fs p
          generalize retrieveToPaths E C git n cwd _ _ = q at h
          cases q with
          | error => cases h
          | ub => cases h
          | ok r =>
            cases h
            exact hk
        · cases h
          exact hk

end

end Verif.InstallCas
