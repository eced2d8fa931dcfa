import Verif.Tree.InstallProps

/-!
# C80: importing what has been installed
-/

namespace Verif.Install

open Verif.Dig (ObjectType)
open Verif.Path
open Verif.Roots (Out Name Content Canonical Staged artifactsRoot entries lookIn)
open Verif.Tree (Info Obs Env Store Ent Groups Listing NoCollision look retrieve parseTree group flat addTo createTree)

/-! ## Directories -/

theorem mem_of_at {fs : FS} {p : List Str} (hp : p ≠ []) {o : Obs} (h : fs.at p = some o) : (p, o) ∈ fs := by
  unfold FS.at at h
  rw [if_neg hp] at h
  cases hf : fs.find? fun x => x.1 = p with
  | none =>
    rw [hf] at h
    cases h
  | some x =>
    rw [hf] at h
    have h1 := List.mem_of_find?_eq_some hf
    have h2 : x.1 = p := by simpa using List.find?_some hf
    have h3 : x.2 = o := by simpa using h
    rw [← h2, ← h3]
    exact h1

theorem FS.WF.at_of_mem {fs : FS} (h : fs.WF) {p : List Str} {o : Obs} (hm : (p, o) ∈ fs) : fs.at p = some o := by
  unfold FS.at
  rw [if_neg (h.nonempty _ hm)]
  have hn := h.nodup
  clear h
  induction fs with
  | nil => cases hm
  | cons x t ih =>
    rw [List.map_cons, List.nodup_cons] at hn
    rw [List.find?_cons]
    rcases List.mem_cons.1 hm with e | hm
    · rw [← e]
      simp
    · have : x.1 ≠ p := fun e => hn.1 (e ▸ List.mem_map_of_mem hm)
      simp only [this, decide_false]
      exact ih hm hn.2

theorem FS.WF.above {fs : FS} (h : fs.WF) (p q : List Str) (hq : q ≠ []) {o : Obs} (ho : fs.at (p ++ q) = some o) :
    fs.at p = some .dir := by
  induction hl : q.length generalizing q o with
  | zero => exact absurd (List.length_eq_zero_iff.1 hl) hq
  | succ n ih =>
    have h1 := h.parent _ (mem_of_at (by simp [hq]) ho)
    rw [List.dropLast_append_of_ne_nil hq] at h1
    by_cases hd : q.dropLast = []
    · rw [hd, List.append_nil] at h1
      exact h1
    · exact ih q.dropLast hd h1 (by rw [List.length_dropLast]; omega)

theorem mem_entries {fs : FS} (h : fs.WF) {dir : List Str} {n : Str} {o : Obs} :
    (n, o) ∈ fs.entries dir ↔ fs.at (dir ++ [n]) = some o := by
  unfold FS.entries
  rw [List.mem_filterMap]
  constructor
  · rintro ⟨x, hx, hf⟩
    split at hf
    · rename_i hd
      cases hl : x.1.getLast? with
      | none =>
        rw [hl] at hf
        cases hf
      | some m =>
        rw [hl, Option.map_some] at hf
        injection hf with hf
        injection hf with e1 e2
        have : x.1 = dir ++ [n] := by
          rw [← hd, ← e1]
          obtain ⟨b, hb⟩ := List.getLast?_eq_some_iff.1 hl
          rw [hb, List.dropLast_concat]
        rw [← this, ← e2]
        exact h.at_of_mem hx
    · cases hf
  · intro ha
    exact ⟨(dir ++ [n], o), mem_of_at (by simp) ha, by simp⟩

theorem entries_nodup {fs : FS} (h : fs.WF) (dir : List Str) : ((fs.entries dir).map Prod.fst).Nodup := by
  have : (fs.entries dir).map Prod.fst =
      (fs.map Prod.fst).filterMap fun p => if p.dropLast = dir then p.getLast? else none := by
    unfold FS.entries
    clear h
    induction fs with
    | nil => rfl
    | cons x t ih =>
      rw [List.map_cons, List.filterMap_cons, List.filterMap_cons]
      by_cases hx : x.1.dropLast = dir
      · rw [if_pos hx, if_pos hx]
        cases x.1.getLast? with
        | none => exact ih
        | some n =>
          dsimp only [Option.map_some]
          rw [List.map_cons, ih]
      · rw [if_neg hx, if_neg hx]
        exact ih
  rw [this]
  refine h.nodup.filterMap ?_
  intro p q n hp hq
  rw [Option.mem_def] at hp hq
  split at hp
  · split at hq
    · rename_i h1 h2
      obtain ⟨a, ha⟩ := List.getLast?_eq_some_iff.1 hp
      obtain ⟨b, hb⟩ := List.getLast?_eq_some_iff.1 hq
      rw [ha, List.dropLast_concat] at h1
      rw [hb, List.dropLast_concat] at h2
      rw [ha, hb, h1, h2]
    · cases hq
  · cases hp

/-- What is in a directory can be represented in git. -/
structure Importable (fs : FS) (dir : List Str) : Prop where
  names : ∀ q o, fs.at (dir ++ q) = some o → ∀ a ∈ q, Name a
  ids : ∀ q ty id, fs.at (dir ++ q) = some (.leaf ty id) → id.length = 20 ∧ ty ≠ .tree

theorem Importable.sub {fs : FS} {dir : List Str} (h : Importable fs dir) (n : Str) : Importable fs (dir ++ [n]) where
  names := fun q o ho a ha => by
    rw [List.append_assoc] at ho
    exact h.names _ o ho a (by simp [ha])
  ids := fun q ty id ho => by
    rw [List.append_assoc] at ho
    exact h.ids _ ty id ho

/-- An object is what is at a place in the file system. -/
def Same (E : Env) (fs : FS) (dir : List Str) (made : List Str) (i : Info) : Prop :=
  i.id.length = 20 ∧ ∀ S, NoCollision E S → (∀ c ∈ made, c ∈ S) →
    (∀ q, look E S i q = fs.at (dir ++ q)) ∧ Canonical E S i

theorem import_spec {E : Env} (hE : ∀ s, (E.H s).length = 20) {fs : FS} (hw : fs.WF) : ∀ (n : Nat) (dir : List Str),
    fs.at dir = some .dir → Importable fs dir → (∀ q, fs.at (dir ++ q) ≠ none → q.length < n) →
    ∃ root made, importDir E.H fs n dir = some (root, made) ∧ Same E fs dir made ⟨.tree, root⟩
  | 0, dir, hd, _, hn => absurd (hn [] (by rw [List.append_nil, hd]; exact (nomatch ·))) (Nat.not_lt_zero _)
  | n + 1, dir, hd, hi, hn => by
    have key : ∀ (l : List (Str × Obs)) (g : Groups) (made : List Str), (∀ x ∈ l, fs.at (dir ++ [x.1]) = some x.2) →
        (l.map Prod.fst).Nodup → Listing (flat g) → (∀ x ∈ l, Tree.get x.1 (entries g) = none) →
        ∃ g' made', importGo (importDir E.H fs n) dir l g made = some (g', made') ∧ (∀ c ∈ made, c ∈ made') ∧
          Listing (flat g') ∧ (∀ m, m ∉ l.map Prod.fst → Tree.get m (entries g') = Tree.get m (entries g)) ∧
          ∀ x ∈ l, ∃ i, Tree.get x.1 (entries g') = some i ∧ Same E fs (dir ++ [x.1]) made' i := by
      intro l
      induction l with
      | nil =>
        intro g made _ _ hg _
        exact ⟨g, made, by rw [importGo], fun _ h => h, hg, fun _ _ => rfl, fun x hx => (nomatch hx)⟩
      | cons x l ih =>
        obtain ⟨name, o⟩ := x
        intro g made hl hnd hg hab
        rw [List.map_cons, List.nodup_cons] at hnd
        have hat := hl (name, o) (by simp)
        have hname : Name name := hi.names [name] o hat name (by simp)
        have habs := hab (name, o) (by simp)
        -- entering an object
        have enter : ∀ (ty : ObjectType) (id : Str) (made1 : List Str), (∀ c ∈ made, c ∈ made1) →
            Same E fs (dir ++ [name]) made1 ⟨ty, id⟩ →
            ∃ g' made', importGo (importDir E.H fs n) dir l (addTo id (name, ty) g) made1 = some (g', made') ∧
              (∀ c ∈ made, c ∈ made') ∧ Listing (flat g') ∧
              (∀ m, m ∉ ((name, o) :: l).map Prod.fst → Tree.get m (entries g') = Tree.get m (entries g)) ∧
              ∀ x ∈ (name, o) :: l, ∃ i, Tree.get x.1 (entries g') = some i ∧ Same E fs (dir ++ [x.1]) made' i := by
          intro ty id made1 hm1 hs
          have hid : id.length = 20 := hs.1
          obtain ⟨g', made', h1, h2, h3, h4, h5⟩ := ih (addTo id (name, ty) g) made1 (fun x hx => hl x (by simp [hx])) hnd.2
            (Roots.listing_addTo hg hname hid habs) (fun x hx => by
              have hne : x.1 ≠ name := by
                intro e
                have := List.mem_map_of_mem (f := Prod.fst) hx
                rw [e] at this
                exact hnd.1 this
              rw [Roots.get_addTo hg hname hid habs, if_neg hne]
              exact hab x (by simp [hx]))
          refine ⟨g', made', h1, fun c hc => h2 c (hm1 c hc), h3, fun m hm => ?_, fun x hx => ?_⟩
          · rw [List.map_cons, List.mem_cons, not_or] at hm
            rw [h4 m hm.2, Roots.get_addTo hg hname hid habs, if_neg hm.1]
          · rcases List.mem_cons.1 hx with rfl | hx
            · refine ⟨⟨ty, id⟩, ?_, hs.1, fun S hS hc => hs.2 S hS fun c h => hc c (h2 c h)⟩
              rw [h4 name hnd.1, Roots.get_addTo hg hname hid habs, if_pos rfl]
            · exact h5 x hx
        cases o with
        | leaf ty id =>
          obtain ⟨h1, h2⟩ := hi.ids [name] ty id hat
          rw [importGo]
          refine enter ty id made (fun _ h => h) ⟨h1, fun S _ _ => ⟨fun q => ?_, .leaf h2⟩⟩
          cases q with
          | nil => rw [look, if_neg h2, List.append_nil, hat]
          | cons a q =>
            rw [look, if_neg h2]
            cases hc : fs.at (dir ++ [name] ++ a :: q) with
            | none => rfl
            | some o =>
              have := hw.above (dir ++ [name]) (a :: q) (by simp) hc
              rw [hat] at this
              cases this
        | dir =>
          obtain ⟨root, made0, h1, h2⟩ := import_spec hE hw n (dir ++ [name]) hat (hi.sub name) (by
            intro q hq
            rw [List.append_assoc] at hq
            have := hn _ hq
            simp only [List.length_append, List.length_singleton] at this
            omega)
          rw [importGo, h1, Option.bind_some]
          exact enter .tree root (made0 ++ made) (fun c h => List.mem_append_right _ h)
            ⟨h2.1, fun S hS hc => h2.2 S hS fun c h => hc c (List.mem_append_left _ h)⟩
    obtain ⟨g, made, h1, _, h3, h4, h5⟩ := key (fs.entries dir) [] [] (fun x hx => (mem_entries hw).1 hx)
      (entries_nodup hw dir) ⟨fun e he => (nomatch he), List.nodup_nil⟩ (fun _ _ => rfl)
    refine ⟨E.H (createTree g), createTree g :: made, by rw [importDir, h1]; rfl, hE _, fun S hS hm => ?_⟩
    have hg : createTree g ∈ S := hm _ (by simp)
    have hm' : ∀ c ∈ made, c ∈ S := fun c hc => hm c (by simp [hc])
    refine ⟨fun q => ?_, Roots.canonical_created h3 hg fun e he => ?_⟩
    · rw [Roots.look_created hS h3 hg]
      cases q with
      | nil => rw [List.append_nil, hd]; rfl
      | cons a q =>
        rw [Roots.lookIn_cons]
        cases ha : fs.at (dir ++ [a]) with
        | none =>
          rw [h4 a]
          · show none = _
            cases hc : fs.at (dir ++ a :: q) with
            | none => rfl
            | some o =>
              by_cases hq : q = []
              · rw [hq, ha] at hc
                cases hc
              · have := hw.above (dir ++ [a]) q hq (o := o) (by rw [List.append_assoc]; exact hc)
                rw [ha] at this
                cases this
          · intro hmem
            obtain ⟨x, hx, rfl⟩ := List.mem_map.1 hmem
            rw [(mem_entries (n := x.1) (o := x.2) hw).1 hx] at ha
            cases ha
        | some o =>
          obtain ⟨i, h6, h7⟩ := h5 (a, o) ((mem_entries hw).2 ha)
          rw [h6, Option.bind_some, (h7.2 S hS hm').1 q, List.append_assoc]
          rfl
    · have hget : Tree.get e.name (entries g) = some ⟨e.type, e.id⟩ :=
        Tree.get_of_mem (Roots.entries_nodup h3) (List.mem_map_of_mem (f := Ent.pair) he)
      have hmem : e.name ∈ (fs.entries dir).map Prod.fst := by
        refine Classical.byContradiction fun hn => ?_
        rw [h4 e.name hn] at hget
        cases hget
      obtain ⟨x, hx, hxe⟩ := List.mem_map.1 hmem
      obtain ⟨i, h6, h7⟩ := h5 x hx
      rw [hxe, hget] at h6
      injection h6 with h6
      rw [h6]
      exact (h7.2 S hS hm').2

theorem depth_bound (fs : FS) : ∃ N, ∀ p, fs.at p ≠ none → p.length < N := by
  obtain ⟨N, hN⟩ := bound_all (Q := fun x n => x.1.length < n) fs fun x _ => ⟨x.1.length + 1, fun n hn => by omega⟩
  refine ⟨N + 1, fun p hp => ?_⟩
  by_cases h0 : p = []
  · subst h0
    exact Nat.succ_pos _
  · cases hc : fs.at p with
    | none => exact absurd hc hp
    | some o => exact Nat.lt_succ_of_lt (hN N (Nat.le_refl _) _ (mem_of_at h0 hc))

/-- **C80.** Importing a directory to git gives the tree with exactly the content of the directory, as git writes it. -/
theorem C80_import {E : Env} (hE : E.OK) {fs : FS} (hw : fs.WF) {dir : List Str} (hd : fs.at dir = some .dir)
    (hi : Importable fs dir) : ∃ N, ∀ n, N ≤ n → ∃ root made, importDir E.H fs n dir = some (root, made) ∧
      ∀ S, NoCollision E S → (∀ c ∈ made, c ∈ S) →
        (∀ q, look E S ⟨.tree, root⟩ q = fs.at (dir ++ q)) ∧ Canonical E S ⟨.tree, root⟩ := by
  obtain ⟨N, hN⟩ := depth_bound fs
  refine ⟨N, fun n hn => ?_⟩
  obtain ⟨root, made, h1, h2⟩ := import_spec hE.length hw n dir hd hi fun q hq => by
    have := hN _ hq
    rw [List.length_append] at this
    omega
  exact ⟨root, made, h1, h2.2⟩

theorem look_names {E : Env} {S : Store} {i : Info} (h : Clean E S i) : ∀ (q : List Str) (o : Obs), look E S i q = some o →
    (∀ a ∈ q, Name a) ∧ ∀ ty id, o = .leaf ty id → ty ≠ .tree ∧ (q ≠ [] → id.length = 20) := by
  have nil : ∀ (i : Info) (o : Obs), look E S i [] = some o → (∀ a ∈ ([] : List Str), Name a) ∧
      ∀ ty id, o = .leaf ty id → ty ≠ .tree ∧ (([] : List Str) ≠ [] → id.length = 20) := by
    intro i o h
    refine ⟨fun a ha => (nomatch ha), fun ty id e => ?_⟩
    rw [look] at h
    split at h
    · rw [e] at h
      cases h
    · rename_i ht
      rw [e] at h
      injection h with h
      injection h with h1 h2
      exact ⟨h1 ▸ ht, fun h => absurd rfl h⟩
  induction h with
  | @leaf i ht =>
    intro q o ho
    cases q with
    | nil => exact nil i o ho
    | cons a q =>
      rw [look, if_neg ht] at ho
      cases ho
  | @tree id h1 h2 ih =>
    intro q o ho
    cases q with
    | nil => exact nil _ o ho
    | cons a q =>
      rw [look, if_pos rfl] at ho
      cases hr : retrieve E S id with
      | none => rw [hr] at ho; cases ho
      | some d =>
        rw [hr, Option.bind_some] at ho
        cases hp : parseTree d with
        | none => rw [hp] at ho; cases ho
        | some l =>
          rw [hp, Option.bind_some] at ho
          cases hf : l.find? fun e => e.name = a with
          | none => rw [hf] at ho; cases ho
          | some e =>
            rw [hf, Option.bind_some] at ho
            have hm := List.mem_of_find?_eq_some hf
            have hn : e.name = a := by simpa using List.find?_some hf
            obtain ⟨hl, hpr⟩ := h1 d l hr hp
            have hok := hl.ok e hm
            obtain ⟨k1, k2⟩ := ih d l hr hp e hm q o ho
            refine ⟨fun b hb => ?_, fun ty id' eo => ⟨(k2 ty id' eo).1, fun _ => ?_⟩⟩
            · rcases List.mem_cons.1 hb with rfl | hb
              · rw [← hn]
                exact ⟨hpr e hm, hok.noZero, hok.short⟩
              · exact k1 b hb
            · by_cases hq : q = []
              · subst hq
                rw [look] at ho
                split at ho
                · rw [eo] at ho
                  cases ho
                · rw [eo] at ho
                  injection ho with ho
                  injection ho with _ e2
                  rw [← e2]
                  exact hok.id
              · exact (k2 ty id' eo).2 hq

/-- **C80.** A computed root obtained by building the target, installing the artifacts, and importing the directory is the one
computed from the artifacts in the target cache (C79). What is missing: as directories without any file are not created on
installing (V50), there must be none. -/
theorem C80_root_partial {E : Env} (hE : E.OK) {S : Store} (hS : NoCollision E S) {C : Cas} (hC : C.In S) {git : Option Cas}
    (hG : ∀ G ∈ git, G.In S) {m : Nat} {cwd : List Str} {dir : Str} {X : List (List Str × Info)} (h : Plan E S X)
    (hd : NoEmptyDirs E S X) {fs fs' : FS} (hw : fs.WF) (hf : ∀ q, q ≠ [] → fs.at (resolve cwd dir ++ q) = none)
    (hi : install E C git m cwd dir (request X) fs = .ok (true, fs'))
    {stage : OMap Str (Option Info)} (hst : Staged stage X) (hcan : ∀ x ∈ X, Canonical E S x.2)
    {root : Str} {made : List Str} (hr : artifactsRoot E.H stage = .ok (root, made)) (hm : ∀ c ∈ made, c ∈ S) :
    ∃ N, ∀ n, N ≤ n → ∃ root' made', importDir E.H fs' n (resolve cwd dir) = some (root', made') ∧
      ((∀ c ∈ made', c ∈ S) → root' = root) := by
  have hcont := C80_content_partial hS hC hG h hd hf hi
  have hbase := (C80_files hS hC hG h hi).2.2.1 _ (List.prefix_refl _)
  obtain ⟨fs1, b1, hmk, _, hsoft, _⟩ := install_spec hS hC hG h hi
  have hw1 : fs1.WF := by
    have := mkdirs_wf (resolve cwd dir) [] fs rfl hw
    rwa [hmk] at this
  have hw' := hsoft.wf hw1
  have himp : Importable fs' (resolve cwd dir) := by
    have key : ∀ q o, fs'.at (resolve cwd dir ++ q) = some o → (∀ a ∈ q, Name a) ∧
        ∀ ty id, o = .leaf ty id → id.length = 20 ∧ ty ≠ .tree := by
      intro q o ho
      by_cases hex : ∃ x ∈ X, x.1 <+: q
      · obtain ⟨x, hx, r, rfl⟩ := hex
        rw [show fs'.at (resolve cwd dir ++ (x.1 ++ r)) = look E S x.2 r from hcont.artifact x hx r] at ho
        obtain ⟨k1, k2⟩ := look_names (h.clean x hx) r o ho
        refine ⟨fun a ha => (List.mem_append.1 ha).elim (hst.names x hx a) (k1 a), fun ty id e => ?_⟩
        refine ⟨?_, (k2 ty id e).1⟩
        by_cases h0 : r = []
        · subst h0
          rw [look] at ho
          split at ho
          · rw [e] at ho
            cases ho
          · rw [e] at ho
            injection ho with ho
            injection ho with _ e2
            rw [← e2]
            exact hst.ids x hx
        · exact (k2 ty id e).2 h0
      · by_cases hab : q = [] ∨ ∃ x ∈ X, q <+: x.1 ∧ q ≠ x.1
        · have hdir : fs'.at (resolve cwd dir ++ q) = some .dir := hcont.above q hab
          rw [hdir] at ho
          injection ho with ho
          refine ⟨fun a ha => ?_, fun ty id e => by rw [← ho] at e; cases e⟩
          rcases hab with rfl | ⟨x, hx, hq, _⟩
          · cases ha
          · exact hst.names x hx a (hq.subset ha)
        · rw [not_or] at hab
          have hnone : fs'.at (resolve cwd dir ++ q) = none := hcont.nothing q hab.1 fun x hx =>
            ⟨fun hp => hab.2 ⟨x, hx, hp, fun e => hex ⟨x, hx, e ▸ List.prefix_refl _⟩⟩, fun hp => hex ⟨x, hx, hp⟩⟩
          rw [hnone] at ho
          cases ho
    exact ⟨fun q o ho => (key q o ho).1, fun q ty id ho => (key q _ ho).2 ty id rfl⟩
  obtain ⟨N, hN⟩ := C80_import hE hw' hbase himp
  refine ⟨N, fun n hn => ?_⟩
  obtain ⟨root', made', h1, h2⟩ := hN n hn
  refine ⟨root', made', h1, fun hm' => ?_⟩
  obtain ⟨g1, g2⟩ := h2 S hS hm'
  obtain ⟨g3, g4⟩ := Roots.root_canonical hE hst hr hS hm hcan
  have heq : ∀ q, look E S ⟨.tree, root'⟩ q = look E S ⟨.tree, root⟩ q := by
    intro q
    rw [g1]
    exact congrFun (Roots.Content.unique hcont g3) q
  have := Canonical.eq hS g2 g4 heq
  injection this

end Verif.Install
