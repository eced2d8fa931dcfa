import Verif.Tree.Install
import Verif.Repo.ArtifactsRootProps

/-!
# Retrieving objects to the file system: lemmas
-/

namespace Verif.Install

open Verif.Dig (ObjectType)
open Verif.Path
open Verif.Roots (Out Name)
open Verif.Tree (Info Obs Env Store Ent Groups Listing NoCollision look retrieve parseTree group flat addTo createTree)

/-! ## Paths -/

theorem names_strip : ∀ t : Str, names (t.dropWhile (fun c => c == '/')).reverse = names t.reverse
  | [] => rfl
  | c :: t => by
    rw [List.dropWhile_cons]
    split
    · rename_i h
      rw [names_strip t, List.reverse_cons, show c = '/' from by simpa using h, names_append_slash]
    · rfl

theorem isAbs_prefix {a b : Str} (h : a <+: b) (hn : a ≠ []) : isAbs a = isAbs b := by
  obtain ⟨r, rfl⟩ := h
  cases a with
  | nil => exact absurd rfl hn
  | cons c a => rfl

/-- The parent of an entry of a directory. -/
theorem parent_sep (a : Str) {n : Str} (hn : ProperName n) :
    names (parentPath (a ++ '/' :: n)) = names a ∧ isAbs (parentPath (a ++ '/' :: n)) = isAbs (a ++ ['/']) := by
  obtain ⟨l, x, hx⟩ : ∃ l x, n = l ++ [x] := ⟨_, _, (List.dropLast_append_getLast hn.2.1).symm⟩
  have hxs : x ≠ '/' := fun e => hn.1 (by rw [hx, e]; simp)
  unfold parentPath
  have h1 : ¬ (names (a ++ '/' :: n)).isEmpty = true := by
    rw [names_sep, names_noSlash hn.1]
    simp [hn.2.1]
  have h2 : ¬ ((a ++ '/' :: n).getLast? == some '/') = true := by
    rw [hx, ← List.cons_append, ← List.append_assoc, List.getLast?_concat]
    simpa using hxs
  have hrev : (a ++ '/' :: n).reverse = n.reverse ++ '/' :: a.reverse := by simp
  have hd : (n.reverse ++ '/' :: a.reverse).dropWhile (fun c => c != '/') = '/' :: a.reverse := by
    rw [List.dropWhile_append_of_pos, List.dropWhile_cons_of_neg (by simp)]
    intro c hc
    have : c ≠ '/' := fun e => hn.1 (by rw [← e]; exact List.mem_reverse.1 hc)
    simpa using this
  rw [if_neg h1, if_neg h2, hrev]
  simp only [hd, List.isEmpty_cons, Bool.false_eq_true, if_false]
  rw [List.dropWhile_cons_of_pos (by simp)]
  have hs := names_strip a.reverse
  rw [List.reverse_reverse] at hs
  split
  · rename_i h
    rw [List.isEmpty_iff] at h
    rw [h] at hs
    refine ⟨hs.symm ▸ rfl, ?_⟩
    cases a with
    | nil => rfl
    | cons c a =>
      show true = (c == '/')
      cases hc : c == '/' with
      | true => rfl
      | false =>
        rw [List.reverse_cons, List.dropWhile_append, List.dropWhile_cons_of_neg (by simp [hc])] at h
        split at h <;> simp_all
  · rename_i h
    rw [List.isEmpty_iff] at h
    refine ⟨hs, ?_⟩
    have hp : (a.reverse.dropWhile (fun c => c == '/')).reverse <+: a := by
      have := List.reverse_prefix.2 (List.dropWhile_suffix (l := a.reverse) (fun c => c == '/'))
      rwa [List.reverse_reverse] at this
    exact isAbs_prefix (hp.trans (List.prefix_append _ _)) (by simpa using h)

theorem parent_append (out : Str) {n : Str} (hn : ProperName n) :
    names (parentPath (append out n)) = names out ∧ isAbs (parentPath (append out n)) = isAbs out := by
  have hna : isAbs n = false := isAbs_of_noSlash hn.1
  unfold append
  rw [if_neg (by simp [hna])]
  by_cases h0 : out = []
  · subst h0
    have := parentPath_join (dir := []) (name := n) (by simpa using hn)
    simp only [List.nil_append, joinWith] at this
    simp [this, isAbs]
  · by_cases hl : out.getLast? = some '/'
    · rw [if_pos (by simp [hl])]
      obtain ⟨b, hb⟩ := List.getLast?_eq_some_iff.1 hl
      subst hb
      have := parent_sep b hn
      rw [List.append_assoc, List.singleton_append, names_append_slash]
      exact this
    · rw [if_neg (by simp [h0, hl])]
      have := parent_sep out hn
      rw [isAbs_prefix (List.prefix_append out ['/']) h0]
      exact this

theorem isAbs_append_eq (out : Str) {n : Str} (hn : isAbs n = false) :
    isAbs (append out n) = isAbs out := by
  unfold append
  rw [if_neg (by simp [hn])]
  cases out with
  | nil =>
    rw [if_pos (by rfl), List.nil_append, hn]
    rfl
  | cons c t => split <;> rfl

theorem walk_proper {n : Str} (hn : ProperName n) (a : List Str) :
    (if n = dotdot then a.dropLast else if n = dot then a else a ++ [n]) = a ++ [n] := by
  rw [if_neg hn.2.2.2, if_neg hn.2.2.1]

theorem resolve_eq {cwd : List Str} {s t : Str} (h1 : names s = names t) (h2 : isAbs s = isAbs t) :
    resolve cwd s = resolve cwd t := by
  unfold resolve
  rw [h1, h2]

theorem resolve_append (cwd : List Str) (out : Str) {n : Str} (hn : ProperName n) :
    resolve cwd (append out n) = resolve cwd out ++ [n] := by
  have hna : isAbs n = false := isAbs_of_noSlash hn.1
  unfold resolve
  rw [isAbs_append_eq out hna, names_append hna, names_noSlash hn.1, List.foldl_append]
  simp [hn.2.1, hn.2.2.1, hn.2.2.2]

theorem resolve_parent (cwd : List Str) (out : Str) {n : Str} (hn : ProperName n) :
    resolve cwd (parentPath (append out n)) = resolve cwd out :=
  resolve_eq (parent_append out hn).1 (parent_append out hn).2

/-- A path string refers to a path, and its parent to the parent of the path. -/
structure Output (cwd : List Str) (out : Str) (P : List Str) : Prop where
  path : resolve cwd out = P
  parent : P ≠ [] ∧ resolve cwd (parentPath out) = P.dropLast

theorem Output.entry {cwd : List Str} {out : Str} {P : List Str} (h : resolve cwd out = P) {n : Str}
    (hn : ProperName n) : Output cwd (append out n) (P ++ [n]) where
  path := by rw [resolve_append cwd out hn, h]
  parent := ⟨by simp, by rw [resolve_parent cwd out hn, h]; simp⟩

theorem resolve_join (cwd : List Str) (d : Str) {P : List Str} (hP : ∀ a ∈ P, ProperName a) :
    resolve cwd (append d (joinWith '/' P)) = resolve cwd d ++ P := by
  have hs : ∀ a ∈ P, Seg a := fun a ha => (hP a ha).seg
  unfold resolve
  rw [isAbs_append_eq d (isAbs_join hs), names_append (isAbs_join hs), names_join hs,
    List.foldl_append]
  generalize List.foldl _ _ (names d) = x
  clear hs
  induction P generalizing x with
  | nil => simp
  | cons a P ih =>
    rw [List.foldl_cons, walk_proper (hP a (by simp)), ih (fun b hb => hP b (by simp [hb]))]
    simp

/-- Where an artifact is installed to. -/
theorem Output.install (cwd : List Str) (d : Str) {P : List Str} (hP : ∀ a ∈ P, ProperName a) (h0 : P ≠ []) :
    Output cwd (append d (joinWith '/' P)) (resolve cwd d ++ P) := by
  refine ⟨resolve_join cwd d hP, by simp [h0], ?_⟩
  obtain ⟨l, x, rfl⟩ : ∃ l x, P = l ++ [x] := ⟨_, _, (List.dropLast_append_getLast h0).symm⟩
  have hx := hP x (by simp)
  have hl : ∀ a ∈ l, ProperName a := fun a ha => hP a (by simp [ha])
  have hls : ∀ a ∈ l, Seg a := fun a ha => (hl a ha).seg
  rw [← List.append_assoc, List.dropLast_concat]
  by_cases hn : l = []
  · subst hn
    simp only [List.nil_append, List.append_nil, joinWith]
    exact resolve_parent cwd d hx
  · have hj := joinWith_ne_nil hn hls
    have hB : append d (joinWith '/' (l ++ [x])) = append d (joinWith '/' l) ++ '/' :: x := by
      rw [joinWith_append _ hn (by simp)]
      have h1 := isAbs_join hls
      have h2 : isAbs (joinWith '/' l ++ '/' :: x) = false := by
        rw [← h1]
        exact (isAbs_prefix (List.prefix_append _ _) hj).symm
      simp only [joinWith] at h2 ⊢
      unfold append
      rw [h1, h2]
      simp only [Bool.false_eq_true, if_false]
      split <;> simp
    have hB0 : append d (joinWith '/' l) ≠ [] := by
      unfold append
      rw [if_neg (by simp [isAbs_join hls])]
      split <;> simp [hj]
    have hp := parent_sep (append d (joinWith '/' l)) hx
    rw [hB, ← resolve_join cwd d hl]
    refine resolve_eq hp.1 (hp.2.trans ?_)
    exact (isAbs_prefix (List.prefix_append _ _) hB0).symm

/-! ## The file system -/

theorem at_nil (fs : FS) : fs.at [] = some .dir := rfl

theorem find_put (p : List Str) (o : Obs) : ∀ (fs : FS) (q : List Str),
    ((fs.put p o).find? fun x => x.1 = q).map Prod.snd =
      if q = p then some o else (fs.find? fun x => x.1 = q).map Prod.snd
  | [], q => by
    rw [FS.put]
    by_cases h : q = p
    · simp [h]
    · simp [h, Ne.symm h]
  | x :: t, q => by
    rw [FS.put]
    by_cases hx : x.1 = p
    · rw [if_pos hx]
      by_cases h : q = p
      · simp [h]
      · simp [h, hx, Ne.symm h]
    · rw [if_neg hx, List.find?_cons, List.find?_cons]
      by_cases h : x.1 = q
      · have : ¬ q = p := fun e => hx (h.trans e)
        simp [h, this]
      · simp only [h, decide_false]
        exact find_put p o t q

theorem at_put {p : List Str} (hp : p ≠ []) (o : Obs) (fs : FS) (q : List Str) :
    (fs.put p o).at q = if q = p then some o else fs.at q := by
  unfold FS.at
  by_cases h : q = []
  · rw [if_pos h, if_pos h, if_neg (fun e => hp (e.symm.trans h))]
  · rw [if_neg h, if_neg h, find_put]

/-- A file system: a path is there at most once, and if so, what is above is a directory. -/
structure FS.WF (fs : FS) : Prop where
  nodup : (fs.map Prod.fst).Nodup
  nonempty : ∀ x ∈ fs, x.1 ≠ []
  parent : ∀ x ∈ fs, fs.at x.1.dropLast = some .dir

theorem put_fst (p : List Str) (o : Obs) : ∀ fs : FS, (fs.put p o).map Prod.fst = fs.map Prod.fst ∧ p ∈ fs.map Prod.fst ∨
    (fs.put p o).map Prod.fst = fs.map Prod.fst ++ [p] ∧ p ∉ fs.map Prod.fst
  | [] => .inr ⟨rfl, by simp⟩
  | x :: t => by
    rw [FS.put]
    by_cases h : x.1 = p
    · rw [if_pos h]
      exact .inl ⟨by simp [h], by simp [h]⟩
    · rw [if_neg h]
      rcases put_fst p o t with ⟨h1, h2⟩ | ⟨h1, h2⟩
      · exact .inl ⟨by simp [h1], by simp [h2]⟩
      · refine .inr ⟨by simp [h1], fun hm => ?_⟩
        rcases List.mem_cons.1 hm with e | hm
        · exact h e.symm
        · exact h2 hm

theorem FS.WF.put {fs : FS} (h : fs.WF) {p : List Str} (hp : p ≠ []) {o : Obs} (hd : fs.at p.dropLast = some .dir)
    (ho : o = .dir ∨ fs.at p ≠ some .dir) : (fs.put p o).WF := by
  have hmem : ∀ q ∈ (fs.put p o).map Prod.fst, q ∈ fs.map Prod.fst ∨ q = p := by
    intro q hq
    rcases put_fst p o fs with ⟨h1, _⟩ | ⟨h1, _⟩
    · exact .inl (h1 ▸ hq)
    · rw [h1] at hq
      simpa using hq
  refine ⟨?_, fun x hx e => ?_, fun x hx => ?_⟩
  · rcases put_fst p o fs with ⟨h1, _⟩ | ⟨h1, h2⟩
    · rw [h1]
      exact h.nodup
    · rw [h1]
      exact List.nodup_append.2 ⟨h.nodup, by simp, fun a ha b hb e => h2 (by
        rw [List.mem_singleton.1 hb] at e
        exact e ▸ ha)⟩
  · rcases hmem x.1 (List.mem_map_of_mem hx) with hm | hm
    · obtain ⟨y, hy, e'⟩ := List.mem_map.1 hm
      exact h.nonempty y hy (e'.trans e)
    · exact hp (hm.symm.trans e)
  · have hx' : fs.at x.1.dropLast = some .dir := by
      rcases hmem x.1 (List.mem_map_of_mem hx) with hm | hm
      · obtain ⟨y, hy, e'⟩ := List.mem_map.1 hm
        rw [← e']
        exact h.parent y hy
      · rw [hm]
        exact hd
    rw [at_put hp]
    split
    · rename_i e
      rcases ho with rfl | ho
      · rfl
      · exact absurd (e ▸ hx') ho
    · exact hx'

/-- Files have been written, and directories above them created; maybe not all of them. -/
structure Soft (W : List Str → Info → Prop) (fs fs' : FS) : Prop where
  change : ∀ p, fs'.at p = fs.at p ∨ (∃ i, W p i ∧ fs.at p ≠ some .dir ∧ fs'.at p = some (.leaf i.type i.id)) ∨
    (∃ q i, q ≠ [] ∧ W (p ++ q) i ∧ fs.at p = none ∧ fs'.at p = some .dir)
  wf : fs.WF → fs'.WF

/-- All files have been written. -/
structure Exact (W : List Str → Info → Prop) (fs fs' : FS) : Prop where
  leaf : ∀ p i, W p i → ∃ i', W p i' ∧ fs'.at p = some (.leaf i'.type i'.id)
  above : ∀ p q i, q ≠ [] → W (p ++ q) i → fs'.at p = some .dir
  same : ∀ p, (∀ q i, ¬ W (p ++ q) i) → fs'.at p = fs.at p
  before : ∀ p q i, q ≠ [] → W (p ++ q) i → ∀ ty id, fs.at p ≠ some (.leaf ty id)
  notDir : ∀ p i, W p i → fs.at p ≠ some .dir

theorem Soft.refl (W : List Str → Info → Prop) (fs : FS) : Soft W fs fs := ⟨fun _ => .inl rfl, id⟩

theorem Soft.mono {W W' : List Str → Info → Prop} {fs fs' : FS} (h : Soft W fs fs') (hw : ∀ p i, W p i → W' p i) :
    Soft W' fs fs' := by
  refine ⟨fun p => ?_, h.wf⟩
  rcases h.change p with h | ⟨i, h1, h2⟩ | ⟨q, i, h1, h2, h3⟩
  · exact .inl h
  · exact .inr (.inl ⟨i, hw _ _ h1, h2⟩)
  · exact .inr (.inr ⟨q, i, h1, hw _ _ h2, h3⟩)

theorem Soft.trans {W : List Str → Info → Prop} {fs fs1 fs2 : FS} (h : Soft W fs fs1) (h' : Soft W fs1 fs2) :
    Soft W fs fs2 := by
  refine ⟨fun p => ?_, fun hw => h'.wf (h.wf hw)⟩
  rcases h'.change p with e | ⟨i, h1, h2⟩ | ⟨q, i, h1, h2, h3, h4⟩
  · rw [e]
    exact h.change p
  · refine .inr (.inl ⟨i, h1, ?_, h2.2⟩)
    rcases h.change p with e | ⟨i', _, g2, _⟩ | ⟨_, _, _, _, g3, _⟩
    · exact e ▸ h2.1
    · exact g2
    · rw [g3]
      exact (nomatch ·)
  · rcases h.change p with e | ⟨i', _, _, g2⟩ | ⟨q', i', g1, g2, g3, g4⟩
    · exact .inr (.inr ⟨q, i, h1, h2, e ▸ h3, h4⟩)
    · rw [h3] at g2
      cases g2
    · rw [h3] at g4
      cases g4

theorem Exact.empty (fs : FS) : Exact (fun _ _ => False) fs fs :=
  ⟨fun _ _ h => h.elim, fun _ _ _ _ h => h.elim, fun _ _ => rfl, fun _ _ _ _ h => h.elim, fun _ _ h => h.elim⟩

theorem Exact.congr {W W' : List Str → Info → Prop} {fs fs' : FS} (h : Exact W fs fs') (hw : ∀ p i, W p i ↔ W' p i) :
    Exact W' fs fs' := by
  have : W = W' := by
    funext p i
    exact propext (hw p i)
  rwa [← this]

theorem Exact.comp {W W' : List Str → Info → Prop} {fs fs1 fs2 : FS} (h : Exact W fs fs1) (h' : Exact W' fs1 fs2) :
    Exact (fun p i => W p i ∨ W' p i) fs fs2 where
  leaf := fun p i hi => by
    by_cases hp : ∃ i, W' p i
    · obtain ⟨i, hi⟩ := hp
      obtain ⟨i', h1, h2⟩ := h'.leaf p i hi
      exact ⟨i', .inr h1, h2⟩
    · have hi : W p i := hi.resolve_right fun h => hp ⟨i, h⟩
      obtain ⟨i', h1, h2⟩ := h.leaf p i hi
      refine ⟨i', .inl h1, ?_⟩
      rw [h'.same p fun q j hj => ?_, h2]
      by_cases hq : q = []
      · subst hq
        rw [List.append_nil] at hj
        exact hp ⟨j, hj⟩
      · exact h'.before p q j hq hj _ _ h2
  above := fun p q i hq hi => by
    by_cases hp : ∃ r j, W' (p ++ r) j
    · obtain ⟨r, j, hj⟩ := hp
      by_cases hr : r = []
      · subst hr
        rw [List.append_nil] at hj
        rcases hi with hi | hi
        · exact absurd (h.above p q i hq hi) (h'.notDir p j hj)
        · exact h'.above p q i hq hi
      · exact h'.above p r j hr hj
    · rw [h'.same p fun r j hj => hp ⟨r, j, hj⟩]
      exact h.above p q i hq (hi.resolve_right fun h => hp ⟨q, i, h⟩)
  same := fun p hp => by
    rw [h'.same p fun q i hi => hp q i (.inr hi), h.same p fun q i hi => hp q i (.inl hi)]
  before := fun p q i hq hi ty id e => by
    rcases hi with hi | hi
    · exact h.before p q i hq hi ty id e
    · have hb := h'.before p q i hq hi
      by_cases hp : ∃ r j, W (p ++ r) j
      · obtain ⟨r, j, hj⟩ := hp
        by_cases hr : r = []
        · subst hr
          rw [List.append_nil] at hj
          obtain ⟨i', _, h2⟩ := h.leaf p j hj
          exact hb _ _ h2
        · exact h.before p r j hr hj ty id e
      · exact hb ty id ((h.same p fun r j hj => hp ⟨r, j, hj⟩).trans e)
  notDir := fun p i hi e => by
    rcases hi with hi | hi
    · exact h.notDir p i hi e
    · have hb := h'.notDir p i hi
      by_cases hp : ∃ r j, W (p ++ r) j
      · obtain ⟨r, j, hj⟩ := hp
        by_cases hr : r = []
        · subst hr
          rw [List.append_nil] at hj
          exact h.notDir p j hj e
        · exact hb (h.above p r j hr hj)
      · exact hb ((h.same p fun r j hj => hp ⟨r, j, hj⟩).trans e)

/-- After something has been written in part, writing all of it. -/
theorem Exact.after {W : List Str → Info → Prop} {fs fs1 fs2 : FS} (h : Soft W fs fs1) (h' : Exact W fs1 fs2) :
    Exact W fs fs2 where
  leaf := h'.leaf
  above := h'.above
  same := fun p hp => by
    rw [h'.same p hp]
    rcases h.change p with e | ⟨i, h1, _⟩ | ⟨q, i, _, h2, _⟩
    · exact e
    · exact absurd (by simpa using h1) (hp [] i)
    · exact absurd h2 (hp q i)
  before := fun p q i hq hi ty id e => by
    have hb := h'.before p q i hq hi
    rcases h.change p with e' | ⟨i, _, _, h2⟩ | ⟨_, _, _, _, h3, _⟩
    · exact hb ty id (e'.trans e)
    · exact hb _ _ h2
    · rw [h3] at e
      cases e
  notDir := fun p i hi e => by
    have hb := h'.notDir p i hi
    rcases h.change p with e' | ⟨i', h1, h2, _⟩ | ⟨_, _, _, _, h3, _⟩
    · exact hb (e'.trans e)
    · exact h2 e
    · rw [h3] at e
      cases e

/-! ## Writing a file -/

theorem mkdirs_soft : ∀ (r done : List Str) (fs : FS) (p : List Str), (mkdirs done r fs).2.at p = fs.at p ∨
    (∃ k, k ≠ [] ∧ k <+: r ∧ p = done ++ k ∧ fs.at p = none ∧ (mkdirs done r fs).2.at p = some .dir)
  | [], _, _, _ => .inl rfl
  | n :: r, done, fs, p => by
    have key : ∀ fs1 : FS, (∀ q, fs1.at q = fs.at q ∨ q = done ++ [n] ∧ fs.at q = none ∧ fs1.at q = some .dir) →
        (mkdirs (done ++ [n]) r fs1).2.at p = fs.at p ∨ (∃ k, k ≠ [] ∧ k <+: n :: r ∧ p = done ++ k ∧ fs.at p = none ∧
          (mkdirs (done ++ [n]) r fs1).2.at p = some .dir) := by
      intro fs1 h1
      rcases mkdirs_soft r (done ++ [n]) fs1 p with e | ⟨k, _, hk, hp, hn, hd⟩
      · rcases h1 p with e' | ⟨hp, hn, hd⟩
        · exact .inl (e.trans e')
        · exact .inr ⟨[n], by simp, by simp, hp, hn, e.trans hd⟩
      · rcases h1 p with e' | ⟨_, _, hd'⟩
        · exact .inr ⟨n :: k, by simp, by simpa using hk, by simp [hp], e' ▸ hn, hd⟩
        · rw [hn] at hd'
          cases hd'
    rw [mkdirs]
    split
    · exact key fs fun _ => .inl rfl
    · exact .inl rfl
    · rename_i hn
      refine key _ fun q => ?_
      rw [at_put (by simp)]
      split
      · rename_i e
        exact .inr ⟨e, e ▸ hn, rfl⟩
      · exact .inl rfl

theorem mkdirs_true : ∀ (r done : List Str) (fs : FS), (mkdirs done r fs).1 = true → ∀ k, k <+: r → k ≠ [] →
    (mkdirs done r fs).2.at (done ++ k) = some .dir ∧ ∀ ty id, fs.at (done ++ k) ≠ some (.leaf ty id)
  | [], _, _, _, k, hk, h0 => absurd (List.prefix_nil.1 hk) h0
  | n :: r, done, fs, h, k, hk, h0 => by
    obtain ⟨k', rfl⟩ : ∃ k', k = n :: k' := by
      cases k with
      | nil => exact absurd rfl h0
      | cons a k' => exact ⟨k', by rw [(List.cons_prefix_cons.1 hk).1]⟩
    have hk' := (List.cons_prefix_cons.1 hk).2
    have key : ∀ fs1 : FS, fs1.at (done ++ [n]) = some .dir → (∀ ty id, fs.at (done ++ [n]) ≠ some (.leaf ty id)) →
        (∀ q, q ≠ done ++ [n] → fs1.at q = fs.at q) → (mkdirs (done ++ [n]) r fs1).1 = true →
        (mkdirs (done ++ [n]) r fs1).2.at (done ++ n :: k') = some .dir ∧
          ∀ ty id, fs.at (done ++ n :: k') ≠ some (.leaf ty id) := by
      intro fs1 h1 h2 h3 h4
      by_cases hn : k' = []
      · subst hn
        refine ⟨?_, h2⟩
        rcases mkdirs_soft r (done ++ [n]) fs1 (done ++ [n]) with e | ⟨k, _, _, hp, hn, hd⟩
        · rw [e, h1]
        · exact hd
      · have := mkdirs_true r (done ++ [n]) fs1 h4 k' hk' hn
        rw [List.append_assoc, List.singleton_append] at this
        refine ⟨this.1, fun ty id => ?_⟩
        rw [← h3 _ (by simpa using hn)]
        exact this.2 ty id
    rw [mkdirs] at h ⊢
    split at h
    · rename_i hd
      exact key fs hd (by rw [hd]; exact fun _ _ => (nomatch ·)) (fun _ _ => rfl) h
    · cases h
    · rename_i hd
      exact key _ (by rw [at_put (by simp), if_pos rfl]) (by rw [hd]; exact fun _ _ => (nomatch ·))
        (fun q hq => by rw [at_put (by simp), if_neg hq]) h

theorem mkdirs_wf : ∀ (r done : List Str) (fs : FS), fs.at done = some .dir → fs.WF → (mkdirs done r fs).2.WF
  | [], _, _, _, h => h
  | n :: r, done, fs, hd, h => by
    rw [mkdirs]
    split
    · rename_i hn
      exact mkdirs_wf r _ fs hn h
    · exact h
    · refine mkdirs_wf r _ _ ?_ (h.put (by simp) (by simpa using hd) (.inl rfl))
      rw [at_put (by simp), if_pos rfl]

theorem copyAs_soft {P : List Str} (hP : P ≠ []) (i : Info) (c : Str) (fs : FS) (hd : fs.at P.dropLast = some .dir) :
    Soft (fun p j => p = P ∧ j = i) fs (copyAs P i c fs).2 := by
  unfold copyAs
  split
  · exact Soft.refl _ _
  · split
    · exact Soft.refl _ _
    · rename_i hn
      refine ⟨fun p => ?_, fun hw => hw.put hP hd (.inr hn)⟩
      rw [at_put hP]
      split
      · rename_i e
        subst e
        exact .inr (.inl ⟨i, ⟨rfl, rfl⟩, hn, rfl⟩)
      · exact .inl rfl

theorem stageBlob_soft {C : Cas} {cwd : List Str} {out : Str} {P : List Str} (hO : Output cwd out P) (i : Info) (fs : FS) :
    Soft (fun p j => p = P ∧ j = i) fs (stageBlob C cwd out i fs).2 := by
  unfold stageBlob
  rw [hO.path, hO.parent.2]
  have hP : ∀ k, k <+: P.dropLast → ∃ r, r ≠ [] ∧ P = k ++ r := by
    rintro k ⟨r, hr⟩
    refine ⟨r ++ [P.getLast hO.parent.1], by simp, ?_⟩
    rw [← List.append_assoc, hr, List.dropLast_append_getLast]
  have hm : Soft (fun p j => p = P ∧ j = i) fs (mkdirs [] P.dropLast fs).2 := by
    refine ⟨fun p => ?_, mkdirs_wf _ _ _ rfl⟩
    rcases mkdirs_soft P.dropLast [] fs p with e | ⟨k, _, hk, hp, hn, hd⟩
    · exact .inl e
    · rw [List.nil_append] at hp
      subst hp
      obtain ⟨r, h0, hr⟩ := hP p hk
      exact .inr (.inr ⟨r, i, h0, ⟨hr.symm, rfl⟩, hn, hd⟩)
  cases C.blob i.id with
  | none => exact Soft.refl _ _
  | some c =>
    dsimp only
    cases hmk : mkdirs [] P.dropLast fs with
    | mk b fs1 =>
      rw [hmk] at hm
      cases b with
      | false => exact hm
      | true =>
        refine hm.trans (copyAs_soft hO.parent.1 i c fs1 ?_)
        by_cases h0 : P.dropLast = []
        · rw [h0]
          rfl
        · have := (mkdirs_true P.dropLast [] fs (by rw [hmk]) _ (List.prefix_refl _) h0).1
          rwa [hmk] at this

theorem stageBlob_exact {C : Cas} {cwd : List Str} {out : Str} {P : List Str} (hO : Output cwd out P) (i : Info) {fs fs' : FS}
    (h : stageBlob C cwd out i fs = (true, fs')) : Exact (fun p j => p = P ∧ j = i) fs fs' := by
  have hs := stageBlob_soft (C := C) hO i fs
  rw [h] at hs
  unfold stageBlob at h
  rw [hO.path, hO.parent.2] at h
  have hP : ∀ k r, P = k ++ r → r ≠ [] → k <+: P.dropLast := by
    intro k r e hr
    rw [e, List.dropLast_append_of_ne_nil hr]
    exact List.prefix_append _ _
  cases hb : C.blob i.id with
  | none =>
    rw [hb] at h
    cases h
  | some c =>
    rw [hb] at h
    dsimp only at h
    cases hmk : mkdirs [] P.dropLast fs with
    | mk b fs1 =>
      have ht := mkdirs_true P.dropLast [] fs
      have hsf := mkdirs_soft P.dropLast [] fs
      rw [hmk] at h ht hsf
      cases b with
      | false => cases h
      | true =>
        dsimp only at h ht hsf
        unfold copyAs at h
        split at h
        · cases h
        · split at h
          · cases h
          · rename_i hd
            rw [Prod.mk.injEq] at h
            have hat : ∀ q, fs'.at q = if q = P then some (.leaf i.type i.id) else fs1.at q := by
              intro q
              rw [← h.2, at_put hO.parent.1]
            refine ⟨fun p j hj => ⟨i, ⟨hj.1, rfl⟩, by rw [hat, if_pos hj.1]⟩, fun p q j hq hj => ?_, fun p hp => ?_,
              fun p q j hq hj ty id => ?_, fun p j hj e => ?_⟩
            · rw [hat, if_neg (fun e => hq (by rw [e] at hj; simpa using hj.1))]
              by_cases h0 : p = []
              · subst h0
                rfl
              · exact (ht rfl p (hP p q hj.1.symm hq) h0).1
            · rcases hs.change p with e | ⟨j, h1, _⟩ | ⟨q, j, _, h2, _⟩
              · exact e
              · exact absurd (by simpa using h1) (hp [] j)
              · exact absurd h2 (hp q j)
            · by_cases h0 : p = []
              · subst h0
                exact (nomatch ·)
              · exact (ht rfl p (hP p q hj.1.symm hq) h0).2 ty id
            · rw [hj.1] at e
              rcases hsf P with e' | ⟨k, _, _, hp, hn, _⟩
              · exact hd (e'.trans e)
              · rw [hn] at e
                cases e

/-- What the objects to be written are. -/
def Targets (cwd : List Str) (L : List (Str × Info)) (p : List Str) (i : Info) : Prop :=
  ∃ x ∈ L, resolve cwd x.1 = p ∧ x.2 = i

/-- All paths are those of entries of directories. -/
def Outs (cwd : List Str) (L : List (Str × Info)) : Prop := ∀ x ∈ L, Output cwd x.1 (resolve cwd x.1)

theorem stageBlobs_spec {C : Cas} {cwd : List Str} : ∀ (L : List (Str × Info)) (fs : FS), Outs cwd L →
    Soft (Targets cwd L) fs (stageBlobs C cwd L fs).2 ∧
    ((stageBlobs C cwd L fs).1 = true → Exact (Targets cwd L) fs (stageBlobs C cwd L fs).2)
  | [], fs, _ => by
    refine ⟨Soft.refl _ _, fun _ => (Exact.empty fs).congr fun p i => ⟨False.elim, ?_⟩⟩
    rintro ⟨x, hx, _⟩
    cases hx
  | (out, i) :: L, fs, h => by
    have ho := h (out, i) (by simp)
    have hs := stageBlob_soft (C := C) ho i fs
    have h1 : ∀ p j, (p = resolve cwd out ∧ j = i) → Targets cwd ((out, i) :: L) p j :=
      fun p j hj => ⟨(out, i), by simp, hj.1.symm, hj.2.symm⟩
    have h2 : ∀ p j, Targets cwd L p j → Targets cwd ((out, i) :: L) p j := by
      rintro p j ⟨x, hx, e⟩
      exact ⟨x, by simp [hx], e⟩
    rw [stageBlobs]
    cases hb : stageBlob C cwd out i fs with
    | mk b fs1 =>
      rw [hb] at hs
      cases b with
      | false => exact ⟨hs.mono h1, (nomatch ·)⟩
      | true =>
        obtain ⟨g1, g2⟩ := stageBlobs_spec L fs1 fun x hx => h x (by simp [hx])
        refine ⟨(hs.mono h1).trans (g1.mono h2), fun ht => ?_⟩
        refine ((stageBlob_exact ho i hb).comp (g2 ht)).congr fun p j => ⟨fun h => h.elim (h1 p j) (h2 p j), ?_⟩
        rintro ⟨x, hx, e1, e2⟩
        rcases List.mem_cons.1 hx with rfl | hx
        · exact .inl ⟨e1.symm, e2.symm⟩
        · exact .inr ⟨x, hx, e1, e2⟩

/-! ## Trees -/

/-- The files of an object at a place. -/
def Files (E : Env) (S : Store) (P : List Str) (i : Info) (p : List Str) (j : Info) : Prop :=
  ∃ q, p = P ++ q ∧ look E S i q = some (.leaf j.type j.id)

/-- In the tree, and in all trees below, there are entries with different names that are proper names. Nothing is said on
trees that are not there. -/
inductive Clean (E : Env) (S : Store) : Info → Prop
  | leaf {i : Info} : i.type ≠ .tree → Clean E S i
  | tree {id : Str} : (∀ d l, retrieve E S id = some d → parseTree d = some l →
      Listing l ∧ ∀ e ∈ l, ProperName e.name) → (∀ d l, retrieve E S id = some d → parseTree d = some l →
      ∀ e ∈ l, Clean E S ⟨e.type, e.id⟩) → Clean E S ⟨.tree, id⟩

/-- A CAS is part of all that is known, and visiting a map visits every entry once. -/
structure Cas.In (C : Cas) (S : Store) : Prop where
  sub : ∀ d ∈ C.trees, d ∈ S
  ord : ∀ l, (C.ord l).Perm l

theorem readTree_ok {E : Env} {S : Store} (hS : NoCollision E S) {C : Cas} (hC : C.In S) {id : Str} {es : List Ent}
    (h : readTree E C id = .ok es) :
    ∃ d l, retrieve E S id = some d ∧ parseTree d = some l ∧ es.Perm l := by
  unfold readTree at h
  cases hr : retrieve E C.trees id with
  | none =>
    rw [hr] at h
    cases h
  | some d =>
    rw [hr, Option.bind_some] at h
    cases hp : parseTree d with
    | none =>
      rw [hp] at h
      cases h
    | some l =>
      rw [hp] at h
      dsimp only at h
      refine ⟨d, l, Tree.retrieve_super hS hC.sub hr, hp, ?_⟩
      cases hk : linksOk C (C.ord (flat (group l))) with
      | error => rw [hk] at h; cases h
      | ub => rw [hk] at h; cases h
      | ok b =>
        rw [hk] at h
        cases b with
        | false => cases h
        | true =>
          cases h
          exact (hC.ord _).trans (Tree.flat_group l)

/-- The files of a tree are those of its entries. -/
theorem files_tree {E : Env} {S : Store} {id d : Str} {l es : List Ent} (hr : retrieve E S id = some d)
    (hp : parseTree d = some l) (hl : Listing l) (he : es.Perm l) (P p : List Str) (j : Info) :
    Files E S P ⟨.tree, id⟩ p j ↔ ∃ e ∈ es, Files E S (P ++ [e.name]) ⟨e.type, e.id⟩ p j := by
  constructor
  · rintro ⟨q, rfl, hq⟩
    cases q with
    | nil =>
      rw [look, if_pos rfl] at hq
      cases hq
    | cons n q =>
      rw [look, if_pos rfl, hr, Option.bind_some, hp, Option.bind_some] at hq
      cases hf : l.find? fun e => e.name = n with
      | none =>
        rw [hf] at hq
        cases hq
      | some e =>
        rw [hf, Option.bind_some] at hq
        have hn : e.name = n := by simpa using List.find?_some hf
        exact ⟨e, he.mem_iff.2 (List.mem_of_find?_eq_some hf), q, by simp [hn], hq⟩
  · rintro ⟨e, hm, q, rfl, hq⟩
    refine ⟨e.name :: q, by simp, ?_⟩
    rw [look, if_pos rfl, hr, Option.bind_some, hp, Option.bind_some]
    have hm := he.mem_iff.1 hm
    have : (l.find? fun e' => e'.name = e.name) = some e := by
      have hnd := hl.names
      clear hl he hp
      induction l with
      | nil => cases hm
      | cons a l ih =>
        rw [List.map_cons, List.nodup_cons] at hnd
        rw [List.find?_cons]
        rcases List.mem_cons.1 hm with rfl | hm
        · simp
        · have : a.name ≠ e.name := fun h => hnd.1 (h ▸ List.mem_map_of_mem hm)
          simp only [this, decide_false]
          exact ih hm hnd.2
    rw [this, Option.bind_some, hq]

theorem files_leaf {E : Env} {S : Store} {i : Info} (hi : i.type ≠ .tree) (P p : List Str) (j : Info) :
    Files E S P i p j ↔ p = P ∧ j = i := by
  constructor
  · rintro ⟨q, rfl, hq⟩
    cases q with
    | nil =>
      rw [look, if_neg hi] at hq
      injection hq with hq
      injection hq with h1 h2
      refine ⟨by simp, ?_⟩
      cases i
      cases j
      cases h1
      cases h2
      rfl
    | cons n q =>
      rw [look, if_neg hi] at hq
      cases hq
  · rintro ⟨rfl, rfl⟩
    exact ⟨[], by simp, by rw [look, if_neg hi]⟩

theorem bind_ok {α β : Type} {x : Out α} {f : α → Out β} {b : β} (h : x.bind f = .ok b) : ∃ a, x = .ok a ∧ f a = .ok b := by
  cases x with
  | ok a => exact ⟨a, rfl, h⟩
  | error => cases h
  | ub => cases h

theorem Clean.entries {E : Env} {S : Store} {id d : Str} {l : List Ent} (h : Clean E S ⟨.tree, id⟩)
    (hr : retrieve E S id = some d) (hp : parseTree d = some l) :
    Listing l ∧ ∀ e ∈ l, ProperName e.name ∧ Clean E S ⟨e.type, e.id⟩ := by
  cases h with
  | leaf h => exact absurd rfl h
  | tree h1 h2 => exact ⟨(h1 d l hr hp).1, fun e he => ⟨(h1 d l hr hp).2 e he, h2 d l hr hp e he⟩⟩

theorem leafs_spec {E : Env} {S : Store} (hS : NoCollision E S) {C : Cas} (hC : C.In S) (cwd : List Str) :
    ∀ (n : Nat) (out id : Str) (L : List (Str × Info)), Clean E S ⟨.tree, id⟩ → leafs E C n out id = .ok L →
      Outs cwd L ∧ ∀ p j, Targets cwd L p j ↔ Files E S (resolve cwd out) ⟨.tree, id⟩ p j
  | 0, _, _, _, _, h => by
    rw [leafs] at h
    cases h
  | n + 1, out, id, L, hc, h => by
    rw [leafs] at h
    obtain ⟨es, he, h⟩ := bind_ok h
    obtain ⟨d, l, hr, hp, hperm⟩ := readTree_ok hS hC he
    obtain ⟨hl, hent⟩ := hc.entries hr hp
    have key : ∀ (es : List Ent) (L : List (Str × Info)), (∀ e ∈ es, ProperName e.name ∧ Clean E S ⟨e.type, e.id⟩) →
        leafsGo (leafs E C n) out es = .ok L → Outs cwd L ∧ ∀ p j, Targets cwd L p j ↔
          ∃ e ∈ es, Files E S (resolve cwd out ++ [e.name]) ⟨e.type, e.id⟩ p j := by
      intro es
      induction es with
      | nil =>
        intro L _ h
        rw [leafsGo] at h
        cases h
        refine ⟨fun x hx => (nomatch hx), fun p j => ⟨?_, ?_⟩⟩
        · rintro ⟨x, hx, _⟩
          cases hx
        · rintro ⟨x, hx, _⟩
          cases hx
      | cons e es ih =>
        intro L hes h
        rw [leafsGo] at h
        obtain ⟨a, ha, h⟩ := bind_ok h
        obtain ⟨b, hb, h⟩ := bind_ok h
        cases h
        obtain ⟨hn, hce⟩ := hes e (by simp)
        obtain ⟨g1, g2⟩ := ih b (fun e he => hes e (by simp [he])) hb
        have ho := Output.entry (cwd := cwd) (out := out) rfl hn
        have hk : Outs cwd a ∧ ∀ p j, Targets cwd a p j ↔ Files E S (resolve cwd out ++ [e.name]) ⟨e.type, e.id⟩ p j := by
          by_cases ht : e.type = .tree
          · rw [if_pos ht] at ha
            rw [ht] at hce ⊢
            have := leafs_spec hS hC cwd n _ _ a hce ha
            rw [ho.path] at this
            exact this
          · rw [if_neg ht] at ha
            cases ha
            refine ⟨fun x hx => ?_, fun p j => ?_⟩
            · rw [List.mem_singleton.1 hx, ho.path]
              exact ho
            · rw [files_leaf ht]
              constructor
              · rintro ⟨x, hx, e1, e2⟩
                rw [List.mem_singleton.1 hx] at e1 e2
                rw [ho.path] at e1
                exact ⟨e1.symm, e2.symm⟩
              · rintro ⟨e1, e2⟩
                exact ⟨_, List.mem_singleton.2 rfl, by rw [ho.path, e1], e2.symm⟩
        refine ⟨fun x hx => (List.mem_append.1 hx).elim (hk.1 x) (g1 x), fun p j => ⟨?_, ?_⟩⟩
        · rintro ⟨x, hx, e1⟩
          rcases List.mem_append.1 hx with hx | hx
          · exact ⟨e, by simp, (hk.2 p j).1 ⟨x, hx, e1⟩⟩
          · obtain ⟨e', he', h⟩ := (g2 p j).1 ⟨x, hx, e1⟩
            exact ⟨e', by simp [he'], h⟩
        · rintro ⟨e', he', hf⟩
          rcases List.mem_cons.1 he' with rfl | he'
          · obtain ⟨x, hx, e1⟩ := (hk.2 p j).2 hf
            exact ⟨x, List.mem_append_left _ hx, e1⟩
          · obtain ⟨x, hx, e1⟩ := (g2 p j).2 ⟨e', he', hf⟩
            exact ⟨x, List.mem_append_right _ hx, e1⟩
    obtain ⟨h1, h2⟩ := key es L (fun e he => hent e (hperm.mem_iff.1 he)) h
    exact ⟨h1, fun p j => (h2 p j).trans (files_tree hr hp hl hperm _ p j).symm⟩

theorem stageTo_spec {E : Env} {S : Store} (hS : NoCollision E S) {C : Cas} (hC : C.In S) {n : Nat} {cwd : List Str}
    {out : Str} {P : List Str} (hO : Output cwd out P) {i : Info} (hi : Clean E S i) {fs fs' : FS} {b : Bool}
    (h : stageTo E C n cwd out i fs = .ok (b, fs')) :
    Soft (Files E S P i) fs fs' ∧ (b = true → Exact (Files E S P i) fs fs') := by
  unfold stageTo at h
  split at h
  · rename_i ht
    have hI : i = ⟨.tree, i.id⟩ := by
      cases i
      cases ht
      rfl
    rw [hI] at hi
    split at h
    · cases h
    · cases h
      exact ⟨Soft.refl _ _, (nomatch ·)⟩
    · rename_i L hL
      obtain ⟨h1, h2⟩ := leafs_spec hS hC cwd n out i.id L hi hL
      rw [hO.path, ← hI] at h2
      have := stageBlobs_spec (C := C) L fs h1
      injection h with h
      rw [h] at this
      exact ⟨this.1.mono fun p j => (h2 p j).1, fun hb => (this.2 hb).congr h2⟩
  · rename_i ht
    injection h with h
    have hs := stageBlob_soft (C := C) hO i fs
    rw [h] at hs
    refine ⟨hs.mono fun p j => (files_leaf ht P p j).2, ?_⟩
    rintro rfl
    exact (stageBlob_exact hO i h).congr fun p j => (files_leaf ht P p j).symm

theorem gitBlob_spec {C : Cas} {cwd : List Str} {out : Str} {P : List Str} (hO : Output cwd out P) (i : Info) {fs fs' : FS}
    {b : Bool} (h : gitBlob C cwd out i fs = .ok (b, fs')) :
    Soft (fun p j => p = P ∧ j = i) fs fs' ∧ (b = true → Exact (fun p j => p = P ∧ j = i) fs fs') := by
  have hs := stageBlob_soft (C := C) hO i fs
  have hx := fun fs' => stageBlob_exact (C := C) hO i (fs := fs) (fs' := fs')
  have key : ∀ r, (Out.ok r : Out (Bool × FS)) = .ok (b, fs') → r = stageBlob C cwd out i fs →
      Soft (fun p j => p = P ∧ j = i) fs fs' ∧ (b = true → Exact (fun p j => p = P ∧ j = i) fs fs') := by
    intro r h e
    injection h with h
    rw [← e, h] at hs
    refine ⟨hs, ?_⟩
    rintro rfl
    exact hx fs' (by rw [← e, h])
  unfold gitBlob at h
  split at h
  · split at h
    · cases h
      exact ⟨Soft.refl _ _, (nomatch ·)⟩
    · split at h
      · cases h
      · cases h
        exact ⟨Soft.refl _ _, (nomatch ·)⟩
      · exact key _ h rfl
  · exact key _ h rfl

theorem gitStage_spec {E : Env} {S : Store} (hS : NoCollision E S) {C : Cas} (hC : C.In S) {cwd : List Str} :
    ∀ (n : Nat) (out : Str) (P : List Str) (i : Info) (fs fs' : FS) (b : Bool), Output cwd out P → Clean E S i →
      gitStage E C n cwd out i fs = .ok (b, fs') →
      Soft (Files E S P i) fs fs' ∧ (b = true → Exact (Files E S P i) fs fs')
  | 0, _, _, _, _, _, _, _, _, h => by
    rw [gitStage] at h
    cases h
    exact ⟨Soft.refl _ _, (nomatch ·)⟩
  | n + 1, out, P, i, fs, fs', b, hO, hi, h => by
    rw [gitStage] at h
    split at h
    · rename_i ht
      have hI : i = ⟨.tree, i.id⟩ := by
        cases i
        cases ht
        rfl
      rw [hI] at hi ⊢
      split at h
      · cases h
      · cases h
        exact ⟨Soft.refl _ _, (nomatch ·)⟩
      · rename_i es he
        obtain ⟨d, l, hr, hp, hperm⟩ := readTree_ok hS hC he
        obtain ⟨hl, hent⟩ := hi.entries hr hp
        have key : ∀ (es : List Ent) (fs : FS), (∀ e ∈ es, ProperName e.name ∧ Clean E S ⟨e.type, e.id⟩) →
            gitStageGo (gitStage E C n cwd) out es fs = .ok (b, fs') →
            Soft (fun p j => ∃ e ∈ es, Files E S (P ++ [e.name]) ⟨e.type, e.id⟩ p j) fs fs' ∧
            (b = true → Exact (fun p j => ∃ e ∈ es, Files E S (P ++ [e.name]) ⟨e.type, e.id⟩ p j) fs fs') := by
          intro es
          induction es with
          | nil =>
            intro fs _ h
            rw [gitStageGo] at h
            cases h
            refine ⟨Soft.refl _ _, fun _ => (Exact.empty fs').congr fun p j => ⟨False.elim, ?_⟩⟩
            rintro ⟨e, he, _⟩
            cases he
          | cons e es ih =>
            intro fs hes h
            rw [gitStageGo] at h
            obtain ⟨hn, hce⟩ := hes e (by simp)
            have ho := Output.entry hO.path hn
            have w1 : ∀ p j, Files E S (P ++ [e.name]) ⟨e.type, e.id⟩ p j →
                ∃ e' ∈ e :: es, Files E S (P ++ [e'.name]) ⟨e'.type, e'.id⟩ p j := fun p j hj => ⟨e, by simp, hj⟩
            have w2 : ∀ p j, (∃ e' ∈ es, Files E S (P ++ [e'.name]) ⟨e'.type, e'.id⟩ p j) →
                ∃ e' ∈ e :: es, Files E S (P ++ [e'.name]) ⟨e'.type, e'.id⟩ p j := by
              rintro p j ⟨e', he', hj⟩
              exact ⟨e', by simp [he'], hj⟩
            split at h
            · rename_i fs1 hg
              obtain ⟨g1, g2⟩ := gitStage_spec hS hC n _ _ _ _ _ _ ho hce hg
              obtain ⟨k1, k2⟩ := ih fs1 (fun e he => hes e (by simp [he])) h
              refine ⟨(g1.mono w1).trans (k1.mono w2), fun hb => ((g2 rfl).comp (k2 hb)).congr fun p j =>
                ⟨fun h => h.elim (w1 p j) (w2 p j), ?_⟩⟩
              rintro ⟨e', he', hj⟩
              rcases List.mem_cons.1 he' with rfl | he'
              · exact .inl hj
              · exact .inr ⟨e', he', hj⟩
            · rename_i hne
              obtain ⟨g1, _⟩ := gitStage_spec hS hC n _ _ _ _ _ _ ho hce h
              refine ⟨g1.mono w1, ?_⟩
              rintro rfl
              exact absurd h (hne fs')
        obtain ⟨k1, k2⟩ := key es fs (fun e he => hent e (hperm.mem_iff.1 he)) h
        exact ⟨k1.mono fun p j => (files_tree hr hp hl hperm P p j).2,
          fun hb => (k2 hb).congr fun p j => (files_tree hr hp hl hperm P p j).symm⟩
    · rename_i ht
      obtain ⟨g1, g2⟩ := gitBlob_spec hO i h
      exact ⟨g1.mono fun p j => (files_leaf ht P p j).2, fun hb => (g2 hb).congr fun p j => (files_leaf ht P p j).symm⟩

theorem retrieve_spec {E : Env} {S : Store} (hS : NoCollision E S) {C : Cas} (hC : C.In S) {git : Option Cas}
    (hG : ∀ G ∈ git, G.In S) {n : Nat} {cwd : List Str} : ∀ (L : List (Str × Info)) (fs fs' : FS) (b : Bool), Outs cwd L →
      (∀ x ∈ L, Clean E S x.2) → retrieveToPaths E C git n cwd L fs = .ok (b, fs') →
      Soft (fun p j => ∃ x ∈ L, Files E S (resolve cwd x.1) x.2 p j) fs fs' ∧
      (b = true → Exact (fun p j => ∃ x ∈ L, Files E S (resolve cwd x.1) x.2 p j) fs fs')
  | [], fs, fs', b, _, _, h => by
    cases h
    refine ⟨Soft.refl _ _, fun _ => (Exact.empty fs).congr fun p j => ⟨False.elim, ?_⟩⟩
    rintro ⟨e, he, _⟩
    cases he
  | (out, i) :: L, fs, fs', b, ho, hc, h => by
    have w1 : ∀ p j, Files E S (resolve cwd out) i p j →
        ∃ x ∈ (out, i) :: L, Files E S (resolve cwd x.1) x.2 p j := fun p j hj => ⟨(out, i), by simp, hj⟩
    have w2 : ∀ p j, (∃ x ∈ L, Files E S (resolve cwd x.1) x.2 p j) →
        ∃ x ∈ (out, i) :: L, Files E S (resolve cwd x.1) x.2 p j := by
      rintro p j ⟨e', he', hj⟩
      exact ⟨e', by simp [he'], hj⟩
    have hO := ho (out, i) (by simp)
    have hi := hc (out, i) (by simp)
    have key : ∀ fs1, Exact (Files E S (resolve cwd out) i) fs fs1 → Soft (Files E S (resolve cwd out) i) fs fs1 →
        retrieveToPaths E C git n cwd L fs1 = .ok (b, fs') →
        Soft (fun p j => ∃ x ∈ (out, i) :: L, Files E S (resolve cwd x.1) x.2 p j) fs fs' ∧
        (b = true → Exact (fun p j => ∃ x ∈ (out, i) :: L, Files E S (resolve cwd x.1) x.2 p j) fs fs') := by
      intro fs1 e1 s1 h
      obtain ⟨k1, k2⟩ := retrieve_spec hS hC hG L fs1 fs' b (fun x hx => ho x (by simp [hx]))
        (fun x hx => hc x (by simp [hx])) h
      refine ⟨(s1.mono w1).trans (k1.mono w2), fun hb => (e1.comp (k2 hb)).congr fun p j =>
        ⟨fun h => h.elim (w1 p j) (w2 p j), ?_⟩⟩
      rintro ⟨e', he', hj⟩
      rcases List.mem_cons.1 he' with rfl | he'
      · exact .inl hj
      · exact .inr ⟨e', he', hj⟩
    rw [retrieveToPaths] at h
    split at h
    · rename_i fs1 hst
      obtain ⟨s1, e1⟩ := stageTo_spec hS hC hO hi hst
      exact key fs1 (e1 rfl) s1 h
    · rename_i fs1 hst
      obtain ⟨s1, _⟩ := stageTo_spec hS hC hO hi hst
      split at h
      · cases h
        exact ⟨s1.mono w1, (nomatch ·)⟩
      · rename_i G
        split at h
        · rename_i fs2 hgs
          obtain ⟨s2, e2⟩ := gitStage_spec hS (hG G rfl) n _ _ _ _ _ _ hO hi hgs
          exact key fs2 (Exact.after s1 (e2 rfl)) (s1.trans s2) h
        · rename_i hne
          obtain ⟨s2, _⟩ := gitStage_spec hS (hG G rfl) n _ _ _ _ _ _ hO hi h
          refine ⟨(s1.trans s2).mono w1, ?_⟩
          rintro rfl
          exact absurd h (hne fs')
    · rename_i h1 h2
      cases b with
      | true => exact absurd h (h1 fs')
      | false => exact absurd h (h2 fs')

end Verif.Install
