import Verif.Remote.Response
import Verif.Remote.RehashProps

/-!
# Responses to executions (C78): properties
-/

namespace Verif.Response

open Verif.Dig Verif.RE Verif.Wire

/-! ## Specification -/

/-- `k` is the directory `h`, or one of the directories in it, at any depth. -/
inductive Reach (cas : Cas) : Str → Str → Prop where
  | refl (h : Str) : Reach cas h h
  | step {h s k : Str} {m : Directory} {d : DirNode} {i : Digest} : cas h = some s → Directory.read s = some m →
      d ∈ m.dirs → fromBazel .plainSHA256 d.digest = some i → Reach cas i.hash k → Reach cas h k

/-- The directory, and all those in it, are stored under their hashes, as written by `SerializeMessage`. -/
inductive Whole (sha : Str → Str) (cas : Cas) : Str → Prop where
  | mk {h s : Str} {m : Directory} : cas h = some s → sha s = h → s.length < 2 ^ 63 → m.Sized → s = m.text →
      (∀ d ∈ m.dirs, ∃ i, fromBazel .plainSHA256 d.digest = some i) →
      (∀ d ∈ m.dirs, ∀ i, fromBazel .plainSHA256 d.digest = some i → Whole sha cas i.hash) → Whole sha cas h

/-- There is a link leaving the directory tree, judged by the link alone. -/
def Upwards (t : Str) : Prop := Path.nonUpwards t ≠ .val true

/-- The same for a link anywhere in a directory. -/
def UpwardsIn (cas : Cas) (h : Str) : Prop :=
  ∃ x s m, Reach cas h x ∧ cas x = some s ∧ Directory.read s = some m ∧ ∃ l ∈ m.links, Upwards l.target

/-- What is to be told about the outputs of an action. -/
inductive Reported (h : Hash) (r : Result) : Str → ObjectInfo → Prop where
  | file {f : OutFile} {d : Digest} : f ∈ r.files → fromBazel h.type f.digest = some d →
      Reported h r f.path ⟨d, if f.exec then .executable else .file, false⟩
  | link {x : Str × Str} : x ∈ r.allLinks → Reported h r x.1 ⟨⟨h.sha x.2, h.type, false, x.2.length⟩, .symlink, false⟩
  | dir {x : Str × Dig.Wire} {d : Digest} : x ∈ r.dirs → fromBazel h.type x.2 = some d → Reported h r x.1 ⟨d, .tree, false⟩

/-- Whether links are to be reported: links themselves, and those in directories. -/
def LinksUp (h : Hash) (cas : Cas) (r : Result) : Prop :=
  h.type.native = false ∧ ((∃ x ∈ r.allLinks, Upwards x.2) ∨
    ∃ x ∈ r.dirs, ∃ d, fromBazel h.type x.2 = some d ∧ UpwardsIn cas d.hash)

/-- A result as obtained from executing an action: all outputs have their own path (links may be given in both forms),
and are in the CAS. -/
structure Proper (h : Hash) (cas : Cas) (r : Result) : Prop where
  files : ∀ f ∈ r.files, ∃ d, fromBazel h.type f.digest = some d ∧ d.size < 2 ^ 63
  dirs : ∀ x ∈ r.dirs, ∃ d, fromBazel h.type x.2 = some d ∧ d.size < 2 ^ 63 ∧
    (h.type.native = false → Whole h.sha cas d.hash ∧ ∃ s, cas d.hash = some s ∧ d.size = s.length)
  stored : ∀ x ∈ r.allLinks, cas (h.sha x.2) = some x.2
  paths : (r.files.map OutFile.path ++ r.dirs.map Prod.fst).Nodup
  same : ∀ x ∈ r.allLinks, ∀ y ∈ r.allLinks, x.1 = y.1 → x.2 = y.2
  apart : ∀ x ∈ r.allLinks, x.1 ∉ r.files.map OutFile.path ++ r.dirs.map Prod.fst

/-- Hashes have the right form. -/
def Hash.Proper (h : Hash) : Prop := ∀ c, (h.sha c).length = h.type.length ∧ ∀ x ∈ h.sha c, isHexDigit x = true

/-- The messages created for output directories. -/
def TreeText (h : Hash) (cas : Cas) (r : Result) (c : Str) : Prop :=
  ∃ x ∈ r.dirs, ∃ d n t, fromBazel h.type x.2 = some d ∧ makeTree cas n d.hash = some t ∧ c = t.text

/-- The messages created for output directories do not collide with each other, nor with what is in the CAS. -/
structure Apart (h : Hash) (cas : Cas) (r : Result) : Prop where
  short : ∀ c, TreeText h cas r c → c.length < 2 ^ 63
  old : ∀ c, TreeText h cas r c → cas (h.sha c) = none ∨ cas (h.sha c) = some c
  inj : ∀ c c', TreeText h cas r c → TreeText h cas r c' → h.sha c = h.sha c' → c = c'

/-! ## Maps -/

/-- A map in which paths determine what is there. -/
def Func {α : Type} (l : List (Str × α)) : Prop := ∀ x ∈ l, ∀ y ∈ l, x.1 = y.1 → x = y

theorem assoc_func {α : Type} {p : Str} {a : α} : ∀ {l : List (Str × α)}, Func l → (assoc p l = some a ↔ (p, a) ∈ l)
  | [], _ => by simp [assoc]
  | (q, b) :: t, hf => by
    have ht : Func t := fun x hx y hy => hf x (List.mem_cons_of_mem _ hx) y (List.mem_cons_of_mem _ hy)
    unfold assoc
    split
    · rename_i hpq
      subst hpq
      constructor
      · intro h
        cases h
        exact List.mem_cons_self ..
      · intro h
        have := hf _ h _ (List.mem_cons_self ..) rfl
        rw [(Prod.mk.inj this).2]
    · rename_i hpq
      rw [assoc_func ht]
      constructor
      · exact List.mem_cons_of_mem _
      · intro h
        rcases List.mem_cons.1 h with h | h
        · exact absurd (Prod.mk.inj h).1 hpq
        · exact h

theorem assoc_append {α : Type} (p : Str) : ∀ l l' : List (Str × α),
    assoc p (l ++ l') = (assoc p l).or (assoc p l')
  | [], l' => by rw [List.nil_append]; rfl
  | (q, b) :: t, l' => by
    rw [List.cons_append, assoc, assoc]
    split
    · rfl
    · exact assoc_append p t l'

theorem assoc_isSome {α : Type} {p : Str} : ∀ {l : List (Str × α)}, (assoc p l).isSome = true ↔ p ∈ l.map Prod.fst
  | [] => by simp [assoc]
  | (q, b) :: t => by
    unfold assoc
    split
    · rename_i h
      subst h
      simp
    · rename_i h
      rw [assoc_isSome, List.map_cons, List.mem_cons]
      constructor
      · exact .inr
      · intro h'
        rcases h' with h' | h'
        · exact absurd h' h
        · exact h'

theorem assoc_emplace (m : Infos) (x : Str × ObjectInfo) (p : Str) :
    assoc p (emplace m x) = (assoc p m).or (assoc p [x]) := by
  unfold emplace
  split
  · rename_i h
    by_cases hp : p = x.1
    · subst hp
      obtain ⟨a, ha⟩ := Option.isSome_iff_exists.1 h
      rw [ha]
      rfl
    · have : assoc p [x] = none := by
        obtain ⟨q, b⟩ := x
        unfold assoc
        rw [if_neg hp]
        rfl
      rw [this, Option.or_none]
  · exact assoc_append p m [x]

theorem assoc_foldl_emplace (p : Str) : ∀ (l m : Infos), assoc p (l.foldl emplace m) = (assoc p m).or (assoc p l)
  | [], m => (Option.or_none).symm
  | x :: t, m => by
    rw [List.foldl_cons, assoc_foldl_emplace p t, assoc_emplace, Option.or_assoc,
      show x :: t = [x] ++ t from rfl, assoc_append]

theorem assoc_emplaceAll (p : Str) (l : Infos) : assoc p (emplaceAll l) = assoc p l := by
  unfold emplaceAll
  rw [assoc_foldl_emplace]
  rfl

theorem nodup_foldl_emplace : ∀ (l m : Infos), (m.map Prod.fst).Nodup → ((l.foldl emplace m).map Prod.fst).Nodup
  | [], _, h => h
  | x :: t, m, h => by
    rw [List.foldl_cons]
    refine nodup_foldl_emplace t _ ?_
    unfold emplace
    split
    · exact h
    · rename_i hx
      rw [List.map_append, List.nodup_append]
      refine ⟨h, List.nodup_singleton _, fun a ha b hb => ?_⟩
      rw [List.map_cons, List.map_nil, List.mem_singleton] at hb
      subst hb
      rintro rfl
      exact hx (assoc_isSome.2 ha)

theorem nodup_emplaceAll (l : Infos) : ((emplaceAll l).map Prod.fst).Nodup := nodup_foldl_emplace l [] List.nodup_nil

theorem func_of_nodup {α : Type} {l : List (Str × α)} (h : (l.map Prod.fst).Nodup) : Func l :=
  fun _ hx _ hy e => List.inj_on_of_nodup_map h hx hy e

theorem mem_emplaceAll {l : Infos} (hl : Func l) (x : Str × ObjectInfo) : x ∈ emplaceAll l ↔ x ∈ l := by
  obtain ⟨p, i⟩ := x
  rw [← assoc_func (func_of_nodup (nodup_emplaceAll l)), assoc_emplaceAll, assoc_func hl]

/-! ## Reading directories -/

/-- Nothing is lost. -/
def Le (cas cas' : Cas) : Prop := ∀ h s, cas h = some s → cas' h = some s

theorem Le.refl (cas : Cas) : Le cas cas := fun _ _ h => h

theorem Le.trans {a b c : Cas} (h : Le a b) (h' : Le b c) : Le a c := fun x s hs => h' x s (h x s hs)

theorem put_le (sha : Str → Str) (cas : Cas) (c : Str) : Le cas (put sha cas c) := by
  intro h s hs
  unfold put
  split
  · rw [hs]; rfl
  · exact hs

theorem Whole.content {sha : Str → Str} {cas : Cas} {h : Str} (hw : Whole sha cas h) : ∃ m : Directory, m.Sized ∧
    cas h = some m.text ∧ sha m.text = h ∧ m.text.length < 2 ^ 63 ∧
    (∀ d ∈ m.dirs, ∃ i, fromBazel .plainSHA256 d.digest = some i) ∧
    ∀ d ∈ m.dirs, ∀ i, fromBazel .plainSHA256 d.digest = some i → Whole sha cas i.hash := by
  cases hw with
  | mk hc hs hl hm ht he hw =>
    subst ht
    exact ⟨_, hm, hc, hs, hl, he, hw⟩

theorem Whole.reach {sha : Str → Str} {cas : Cas} {h x : Str} (hr : Reach cas h x) : Whole sha cas h → Whole sha cas x := by
  induction hr with
  | refl h => exact id
  | step hc hm hd hi _ ih =>
    intro hw
    obtain ⟨m', hz, hc', _, _, _, hsub⟩ := hw.content
    rw [hc'] at hc
    cases hc
    rw [directory_read _ hz] at hm
    cases hm
    exact ih (hsub _ hd _ hi)

theorem Reach.snoc {cas : Cas} {h x s : Str} {m : Directory} {d : DirNode} {i : Digest} (hr : Reach cas h x)
    (hc : cas x = some s) (hm : Directory.read s = some m) (hd : d ∈ m.dirs)
    (hi : fromBazel .plainSHA256 d.digest = some i) : Reach cas h i.hash := by
  induction hr with
  | refl _ => exact .step hc hm hd hi (.refl _)
  | step a b c e _ ih => exact .step a b c e (ih hc)

theorem hashes_some : ∀ {l : List DirNode}, (∀ d ∈ l, ∃ i, fromBazel .plainSHA256 d.digest = some i) →
    ∃ hs, hashes l = some hs ∧ ∀ x, x ∈ hs ↔ ∃ d ∈ l, ∃ i, fromBazel .plainSHA256 d.digest = some i ∧ i.hash = x
  | [], _ => ⟨[], rfl, fun x => by simp⟩
  | d :: t, h => by
    obtain ⟨i, hi⟩ := h d (List.mem_cons_self ..)
    obtain ⟨hs, e, hm⟩ := hashes_some fun d hd => h d (List.mem_cons_of_mem _ hd)
    refine ⟨i.hash :: hs, by unfold hashes; rw [hi, Option.bind_some, e, Option.bind_some], fun x => ?_⟩
    rw [List.mem_cons, hm]
    constructor
    · rintro (rfl | ⟨d', hd', r⟩)
      · exact ⟨d, List.mem_cons_self .., i, hi, rfl⟩
      · exact ⟨d', List.mem_cons_of_mem _ hd', r⟩
    · rintro ⟨d', hd', i', hi', rfl⟩
      rcases List.mem_cons.1 hd' with rfl | hd'
      · rw [hi] at hi'
        cases hi'
        exact .inl rfl
      · exact .inr ⟨d', hd', i', hi', rfl⟩

/-- What happens to the directories read so far while those on top of the stack are dealt with. -/
structure Step (cas : Cas) (l : List Str) (V V' : List (Str × Directory)) : Prop where
  right : ∀ e ∈ V', e ∈ V ∨ ∃ s, cas e.1 = some s ∧ Directory.read s = some e.2
  nodup : (V.map Prod.fst).Nodup → (V'.map Prod.fst).Nodup
  grow : V ⊆ V'
  all : ∀ x ∈ l, x ∈ V'.map Prod.fst
  only : ∀ x ∈ V'.map Prod.fst, x ∈ V.map Prod.fst ∨ ∃ y ∈ l, Reach cas y x
  closed : ∀ e ∈ V', e ∈ V ∨ ∀ d ∈ e.2.dirs, ∀ i, fromBazel .plainSHA256 d.digest = some i → i.hash ∈ V'.map Prod.fst

theorem Step.append {cas : Cas} {l l' : List Str} {V V' V'' : List (Str × Directory)} (h : Step cas l V V')
    (h' : Step cas l' V' V'') : Step cas (l ++ l') V V'' where
  right e he := (h'.right e he).elim (fun he => h.right e he) .inr
  nodup hn := h'.nodup (h.nodup hn)
  grow := List.Subset.trans h.grow h'.grow
  all x hx := (List.mem_append.1 hx).elim (fun hx => List.map_subset _ h'.grow (h.all x hx)) (h'.all x)
  only x hx := by
    rcases h'.only x hx with hx | ⟨y, hy, hr⟩
    · rcases h.only x hx with hx | ⟨y, hy, hr⟩
      · exact .inl hx
      · exact .inr ⟨y, List.mem_append_left _ hy, hr⟩
    · exact .inr ⟨y, List.mem_append_right _ hy, hr⟩
  closed e he := by
    rcases h'.closed e he with he | hc
    · rcases h.closed e he with he | hc
      · exact .inl he
      · exact .inr fun d hd i hi => List.map_subset _ h'.grow (hc d hd i hi)
    · exact .inr hc

/-- Dealing with some entries of the stack ends. -/
def Ends (cas : Cas) (l : List Str) : Prop := ∀ rest V, ∃ k V', (∀ n, walk cas (n + k) (l ++ rest) V = walk cas n rest V') ∧
  Step cas l V V'

theorem ends_list {cas : Cas} : ∀ {l : List Str}, (∀ x ∈ l, Ends cas [x]) → Ends cas l
  | [], _ => fun rest V => ⟨0, V, fun _ => rfl, ⟨fun _ h => .inl h, id, List.Subset.refl _, fun _ h => (nomatch h),
      fun _ h => .inl h, fun _ h => .inl h⟩⟩
  | x :: t, h => by
    intro rest V
    obtain ⟨k, V', e, hs⟩ := h x (List.mem_cons_self ..) (t ++ rest) V
    obtain ⟨k', V'', e', hs'⟩ := ends_list (fun y hy => h y (List.mem_cons_of_mem _ hy)) rest V'
    refine ⟨k' + k, V'', fun n => ?_, hs.append hs'⟩
    rw [← Nat.add_assoc, ← e' n, ← e (n + k')]
    rfl

theorem whole_ends {sha : Str → Str} {cas : Cas} {h : Str} (hw : Whole sha cas h) : Ends cas [h] := by
  induction hw with
  | @mk h s m hc hs hl hm ht he _ ih =>
    intro rest V
    have hread : Directory.read s = some m := by rw [ht]; exact directory_read m hm
    obtain ⟨hs, ehs, hmem⟩ := hashes_some he
    by_cases hv : (assoc h V).isSome = true
    · refine ⟨1, V, fun n => ?_, ⟨fun _ h => .inl h, id, List.Subset.refl _, fun x hx => ?_, fun _ h => .inl h,
        fun _ h => .inl h⟩⟩
      · show walk cas (n + 1) (h :: rest) V = _
        rw [walk, if_pos hv]
      · rw [List.mem_singleton.1 hx]
        exact assoc_isSome.1 hv
    · obtain ⟨k, V', e, hst⟩ := ends_list (l := hs.reverse) (fun x hx => by
        obtain ⟨d, hd, i, hi, rfl⟩ := (hmem x).1 (List.mem_reverse.1 hx)
        exact ih d hd i hi) rest ((h, m) :: V)
      refine ⟨k + 1, V', fun n => ?_, ?_⟩
      · show walk cas (n + k + 1) (h :: rest) V = _
        rw [walk, if_neg hv, hc, Option.bind_some, hread, Option.bind_some, ehs, Option.bind_some, e]
      · refine ⟨fun e he => ?_, fun hn => ?_, ?_, ?_, ?_, ?_⟩
        · rcases hst.right e he with he | he
          · rcases List.mem_cons.1 he with rfl | he
            · exact .inr ⟨s, hc, hread⟩
            · exact .inl he
          · exact .inr he
        · refine hst.nodup ?_
          rw [List.map_cons, List.nodup_cons]
          exact ⟨fun h' => hv (assoc_isSome.2 h'), hn⟩
        · exact fun x hx => hst.grow (List.mem_cons_of_mem _ hx)
        · intro x hx
          rw [List.mem_singleton.1 hx]
          exact List.map_subset _ hst.grow (List.mem_cons_self ..)
        · intro x hx
          rcases hst.only x hx with hx | ⟨y, hy, hr⟩
          · rcases List.mem_cons.1 hx with rfl | hx
            · exact .inr ⟨_, List.mem_singleton.2 rfl, .refl _⟩
            · exact .inl hx
          · obtain ⟨d, hd, i, hi, rfl⟩ := (hmem y).1 (List.mem_reverse.1 hy)
            exact .inr ⟨h, List.mem_singleton.2 rfl, .step hc hread hd hi hr⟩
        · intro e he
          rcases hst.closed e he with he | hcl
          · rcases List.mem_cons.1 he with rfl | he
            · refine .inr fun d hd i hi => hst.all _ ?_
              exact List.mem_reverse.2 ((hmem _).2 ⟨d, hd, i, hi, rfl⟩)
            · exact .inl he
          · exact .inr hcl

/-- The message for a directory: it contains that directory, and all others in it. -/
structure TreeOf (cas : Cas) (h : Str) (t : TreeMsg) : Prop where
  root : cas h = some t.root.text
  sound : ∀ m ∈ t.root :: t.children, m.Sized ∧ ∃ x, Reach cas h x ∧ cas x = some m.text
  complete : ∀ x, Reach cas h x → ∃ m ∈ t.root :: t.children, cas x = some m.text

theorem makeTree_ends {sha : Str → Str} {cas : Cas} {h : Str} (hw : Whole sha cas h) :
    ∃ k t, (∀ n, makeTree cas (n + k) h = some t) ∧ TreeOf cas h t := by
  obtain ⟨k, V, e, hst⟩ := whole_ends hw [] []
  have hwalk : ∀ n, walk cas (n + k) [h] [] = some V := fun n => by
    have := e n
    rw [show ([h] ++ [] : List Str) = [h] from rfl] at this
    rw [this]
    cases n <;> rfl
  have hn : (V.map Prod.fst).Nodup := hst.nodup List.nodup_nil
  have hf : Func V := func_of_nodup hn
  have hreach : ∀ x ∈ V.map Prod.fst, Reach cas h x := fun x hx => by
    rcases hst.only x hx with hx | ⟨y, hy, hr⟩
    · cases hx
    · rw [List.mem_singleton.1 hy] at hr
      exact hr
  have hright : ∀ e ∈ V, e.2.Sized ∧ cas e.1 = some e.2.text := fun e he => by
    obtain ⟨m, hz, hc, _⟩ := (hw.reach (hreach e.1 (List.mem_map_of_mem he))).content
    rcases hst.right e he with he | ⟨s, hs, hr⟩
    · cases he
    · rw [hc] at hs
      cases hs
      rw [directory_read m hz] at hr
      cases hr
      exact ⟨hz, hc⟩
  obtain ⟨⟨h', m⟩, hm, hh⟩ := List.mem_map.1 (hst.all h (List.mem_singleton.2 rfl))
  dsimp only at hh
  subst hh
  have hassoc : assoc h' V = some m := (assoc_func hf).2 hm
  have hmem : ∀ m', m' ∈ m :: (sortBy Prod.fst (V.filter fun x => x.1 != h')).map Prod.snd ↔ ∃ e ∈ V, e.2 = m' := by
    intro m'
    rw [List.mem_cons, List.mem_map]
    constructor
    · rintro (rfl | ⟨e, he, rfl⟩)
      · exact ⟨_, hm, rfl⟩
      · exact ⟨e, (List.mem_filter.1 ((sortBy_perm _ _).mem_iff.1 he)).1, rfl⟩
    · rintro ⟨e, he, rfl⟩
      by_cases hx : e.1 = h'
      · exact .inl (by rw [hf e he _ hm hx])
      · exact .inr ⟨e, (sortBy_perm _ _).mem_iff.2 (List.mem_filter.2 ⟨he, by simpa using hx⟩), rfl⟩
  refine ⟨k, ⟨m, (sortBy Prod.fst (V.filter fun x => x.1 != h')).map Prod.snd⟩, fun n => ?_, (hright _ hm).2, fun m' hm' => ?_, fun x hx => ?_⟩
  · unfold makeTree
    rw [hwalk, Option.bind_some, hassoc, Option.bind_some]
  · obtain ⟨e, he, rfl⟩ := (hmem m').1 hm'
    exact ⟨(hright e he).1, e.1, hreach _ (List.mem_map_of_mem he), (hright e he).2⟩
  · have : ∀ y x, Reach cas y x → y ∈ V.map Prod.fst → x ∈ V.map Prod.fst := by
      intro y x hr
      induction hr with
      | refl _ => exact id
      | @step y s k m d i hc hm hd hi _ ih =>
        intro hy
        refine ih ?_
        obtain ⟨e, he, rfl⟩ := List.mem_map.1 hy
        have h1 := (hright e he).2
        rw [hc] at h1
        cases h1
        rw [directory_read _ (hright e he).1] at hm
        cases hm
        rcases hst.closed e he with he | hcl
        · cases he
        · exact hcl d hd i hi
    obtain ⟨e, he, rfl⟩ := List.mem_map.1 (this h' x hx (List.mem_map_of_mem hm))
    exact ⟨e.2, (hmem e.2).2 ⟨e, he, rfl⟩, (hright e he).2⟩

theorem walk_mono {cas cas' : Cas} (h : Le cas cas') : ∀ {n : Nat} {l : List Str} {V W : List (Str × Directory)},
    walk cas n l V = some W → walk cas' n l V = some W
  | n, [], V, W, e => by cases n <;> exact e
  | 0, _ :: _, _, _, e => (nomatch e)
  | n + 1, x :: l, V, W, e => by
    unfold walk at e ⊢
    split
    · rename_i hv
      rw [if_pos hv] at e
      exact walk_mono h e
    · rename_i hv
      rw [if_neg hv] at e
      obtain ⟨s, hs, e⟩ := Option.bind_eq_some_iff.1 e
      obtain ⟨m, hm, e⟩ := Option.bind_eq_some_iff.1 e
      obtain ⟨hs', hh, e⟩ := Option.bind_eq_some_iff.1 e
      rw [h _ _ hs, Option.bind_some, hm, Option.bind_some, hh, Option.bind_some]
      exact walk_mono h e

theorem makeTree_mono {cas cas' : Cas} (h : Le cas cas') {n : Nat} {x : Str} {t : TreeMsg}
    (e : makeTree cas n x = some t) : makeTree cas' n x = some t := by
  unfold makeTree at e ⊢
  obtain ⟨V, hV, e⟩ := Option.bind_eq_some_iff.1 e
  rw [walk_mono h hV, Option.bind_some, e]

theorem tree_read {t : TreeMsg} (hr : t.root.Sized) (hc : ∀ m ∈ t.children, m.Sized) : TreeMsg.read t.text = some t := by
  unfold TreeMsg.read TreeMsg.text strAt
  rw [decode_encode, Option.bind_some]
  simp only [bytesAt_cons, bytesAt_repeated]
  simp only [show ¬ (2 = 1) by decide, show ¬ (1 = 2) by decide, if_true, if_false]
  rw [show (([t.root.text] ++ [] : List Str).getLast?).getD [] = t.root.text from rfl, directory_read _ hr,
    Option.bind_some, List.nil_append, readAll_map (fun m hm => directory_read m (hc m hm)), Option.bind_some]

/-! ## Links -/

theorem upwards_iff (t : Str) : upwards t = true ↔ Upwards t := by
  unfold upwards Upwards
  rw [bne_iff_ne]

theorem upwardsIn_iff (m : Directory) : upwardsIn m = true ↔ ∃ l ∈ m.links, Upwards l.target := by
  unfold upwardsIn
  rw [List.any_eq_true]
  simp only [upwards_iff]

theorem TreeOf.up {cas : Cas} {h : Str} {t : TreeMsg} (ht : TreeOf cas h t) :
    (upwardsIn t.root || t.children.any upwardsIn) = true ↔ UpwardsIn cas h := by
  have h1 : (upwardsIn t.root || t.children.any upwardsIn) = true ↔ ∃ m ∈ t.root :: t.children, upwardsIn m = true := by
    rw [Bool.or_eq_true, List.any_eq_true]
    simp [List.mem_cons]
  rw [h1]
  constructor
  · rintro ⟨m, hm, hu⟩
    obtain ⟨hz, x, hr, hc⟩ := ht.sound m hm
    exact ⟨x, m.text, m, hr, hc, directory_read m hz, (upwardsIn_iff m).1 hu⟩
  · rintro ⟨x, s, m, hr, hc, hm, hu⟩
    obtain ⟨m', hm', hc'⟩ := ht.complete x hr
    rw [hc'] at hc
    cases hc
    rw [directory_read _ (ht.sound _ hm').1] at hm
    cases hm
    exact ⟨_, hm', (upwardsIn_iff _).2 hu⟩

theorem allValid_ends {cas : Cas} : ∀ {l : List DirNode}, (∀ d ∈ l, ∃ i, fromBazel .plainSHA256 d.digest = some i) →
    (∀ d ∈ l, ∀ i, fromBazel .plainSHA256 d.digest = some i →
      ∃ k b, (∀ n, dirValid cas (n + k) i.hash = some b) ∧ (b = false ↔ UpwardsIn cas i.hash)) →
    ∃ k b, (∀ n, allValid (dirValid cas (n + k)) l = some b) ∧
      (b = false ↔ ∃ d ∈ l, ∃ i, fromBazel .plainSHA256 d.digest = some i ∧ UpwardsIn cas i.hash)
  | [], _, _ => ⟨0, true, fun _ => rfl, by simp⟩
  | d :: t, he, h => by
    obtain ⟨i, hi⟩ := he d (List.mem_cons_self ..)
    obtain ⟨k, b, e, hb⟩ := h d (List.mem_cons_self ..) i hi
    obtain ⟨k', b', e', hb'⟩ := allValid_ends (fun d hd => he d (List.mem_cons_of_mem _ hd))
      fun d hd => h d (List.mem_cons_of_mem _ hd)
    refine ⟨k + k', b && b', fun n => ?_, ?_⟩
    · unfold allValid
      rw [hi, Option.bind_some, show n + (k + k') = n + k' + k by omega, e, Option.bind_some]
      cases b
      · rfl
      · rw [if_pos rfl, show n + k' + k = n + k + k' by omega, e']
        rfl
    · rw [Bool.and_eq_false_iff, hb, hb']
      constructor
      · rintro (hu | ⟨d', hd', r⟩)
        · exact ⟨d, List.mem_cons_self .., i, hi, hu⟩
        · exact ⟨d', List.mem_cons_of_mem _ hd', r⟩
      · rintro ⟨d', hd', i', hi', hu⟩
        rcases List.mem_cons.1 hd' with rfl | hd'
        · rw [hi] at hi'
          cases hi'
          exact .inl hu
        · exact .inr ⟨d', hd', i', hi', hu⟩

theorem dirValid_ends {sha : Str → Str} {cas : Cas} {h : Str} (hw : Whole sha cas h) :
    ∃ k b, (∀ n, dirValid cas (n + k) h = some b) ∧ (b = false ↔ UpwardsIn cas h) := by
  induction hw with
  | @mk h s m hc hs hl hm ht he _ ih =>
    have hread : Directory.read s = some m := by rw [ht]; exact directory_read m hm
    obtain ⟨k, b, e, hb⟩ := allValid_ends he ih
    refine ⟨k + 1, !upwardsIn m && b, fun n => ?_, ?_⟩
    · show dirValid cas (n + k + 1) h = _
      unfold dirValid
      rw [hc, Option.bind_some, hread, Option.bind_some]
      cases upwardsIn m
      · rw [if_neg (by decide), e]
        rfl
      · rfl
    · rw [Bool.and_eq_false_iff, hb, Bool.not_eq_false', upwardsIn_iff]
      constructor
      · rintro (hu | ⟨d, hd, i, hi, x, s', m', hr, r⟩)
        · exact ⟨h, s, m, .refl h, hc, hread, hu⟩
        · exact ⟨x, s', m', .step hc hread hd hi hr, r⟩
      · rintro ⟨x, s', m', hr, hc', hm', hu⟩
        cases hr with
        | refl =>
          rw [hc] at hc'
          cases hc'
          rw [hread] at hm'
          cases hm'
          exact .inl hu
        | step a b c d r =>
          rw [hc] at a
          cases a
          rw [hread] at b
          cases b
          exact .inr ⟨_, c, _, d, x, s', m', r, hc', hm', hu⟩

/-! ## Local responses -/

theorem fileInfos_some {t : HashType} : ∀ {l : List OutFile}, (∀ f ∈ l, ∃ d, fromBazel t f.digest = some d ∧ d.size < 2 ^ 63) →
    ∃ fs, fileInfos t l = some fs ∧ ∀ x, x ∈ fs ↔ ∃ f ∈ l, ∃ d, fromBazel t f.digest = some d ∧
      x = (f.path, ⟨d, if f.exec then .executable else .file, false⟩)
  | [], _ => ⟨[], rfl, fun x => by simp⟩
  | f :: r, h => by
    obtain ⟨d, hd, _⟩ := h f (List.mem_cons_self ..)
    obtain ⟨fs, e, hm⟩ := fileInfos_some fun g hg => h g (List.mem_cons_of_mem _ hg)
    refine ⟨_, by unfold fileInfos; rw [hd, Option.bind_some, e, Option.bind_some], fun x => ?_⟩
    rw [List.mem_cons, hm]
    constructor
    · rintro (rfl | ⟨g, hg, r⟩)
      · exact ⟨f, List.mem_cons_self .., d, hd, rfl⟩
      · exact ⟨g, List.mem_cons_of_mem _ hg, r⟩
    · rintro ⟨g, hg, d', hd', rfl⟩
      rcases List.mem_cons.1 hg with rfl | hg
      · rw [hd] at hd'
        cases hd'
        exact .inl rfl
      · exact .inr ⟨g, hg, d', hd', rfl⟩

theorem mem_linkInfos (h : Hash) (l : List (Str × Str)) (x : Str × ObjectInfo) : x ∈ linkInfos h l ↔
    ∃ y ∈ l, x = (y.1, ⟨⟨h.sha y.2, h.type, false, y.2.length⟩, .symlink, false⟩) := by
  unfold linkInfos
  rw [List.mem_map]
  constructor
  · rintro ⟨y, hy, rfl⟩
    exact ⟨y, hy, rfl⟩
  · rintro ⟨y, hy, rfl⟩
    exact ⟨y, hy, rfl⟩

/-- Directories, for all sufficiently large bounds. -/
theorem dirInfos_ends {h : Hash} {cas : Cas} : ∀ {l : List (Str × Dig.Wire)},
    (∀ x ∈ l, ∃ d, fromBazel h.type x.2 = some d ∧ (h.type.native = false → Whole h.sha cas d.hash)) →
    ∃ k ds, (∀ x, x ∈ ds ↔ ∃ y ∈ l, ∃ d, fromBazel h.type y.2 = some d ∧ x = (y.1, ⟨d, .tree, false⟩)) ∧
      ∃ b, (h.type.native = true → b = false) ∧ (h.type.native = false →
          (b = true ↔ ∃ x ∈ l, ∃ d, fromBazel h.type x.2 = some d ∧ UpwardsIn cas d.hash)) ∧
        ∀ up n, dirInfos h cas (n + k) l up = some (ds, up || b)
  | [], _ => ⟨0, [], fun x => by simp, false, fun _ => rfl, fun _ => by simp, fun up n => by cases up <;> rfl⟩
  | (p, w) :: r, hl => by
    obtain ⟨d, hd, hw⟩ := hl (p, w) (List.mem_cons_self ..)
    dsimp only at hd
    obtain ⟨k, ds, hm, b, hb1, hb2, e⟩ := dirInfos_ends fun x hx => hl x (List.mem_cons_of_mem _ hx)
    have hmem : ∀ x, x ∈ (p, ⟨d, .tree, false⟩) :: ds ↔
        ∃ y ∈ (p, w) :: r, ∃ d, fromBazel h.type y.2 = some d ∧ x = (y.1, ⟨d, .tree, false⟩) := fun x => by
      rw [List.mem_cons, hm]
      constructor
      · rintro (rfl | ⟨g, hg, q⟩)
        · exact ⟨(p, w), List.mem_cons_self .., d, hd, rfl⟩
        · exact ⟨g, List.mem_cons_of_mem _ hg, q⟩
      · rintro ⟨g, hg, d', hd', rfl⟩
        rcases List.mem_cons.1 hg with rfl | hg
        · rw [hd] at hd'
          cases hd'
          exact .inl rfl
        · exact .inr ⟨g, hg, d', hd', rfl⟩
    cases hn : h.type.native with
    | true =>
      refine ⟨k, _, hmem, false, fun _ => rfl, fun h => (nomatch h), fun up n => ?_⟩
      unfold dirInfos
      rw [hd, Option.bind_some, hn, Bool.or_true, if_pos rfl, Option.bind_some, e, Option.bind_some, hb1 hn]
    | false =>
      obtain ⟨k', v, ev, hv⟩ := dirValid_ends (hw hn)
      refine ⟨k + k', _, hmem, !v || b, fun h => (nomatch h), fun _ => ?_, fun up n => ?_⟩
      · rw [Bool.or_eq_true, Bool.not_eq_true', hv, hb2 hn]
        constructor
        · rintro (hu | ⟨g, hg, q⟩)
          · exact ⟨(p, w), List.mem_cons_self .., d, hd, hu⟩
          · exact ⟨g, List.mem_cons_of_mem _ hg, q⟩
        · rintro ⟨g, hg, d', hd', hu⟩
          rcases List.mem_cons.1 hg with rfl | hg
          · rw [hd] at hd'
            cases hd'
            exact .inl hu
          · exact .inr ⟨g, hg, d', hd', hu⟩
      · unfold dirInfos
        rw [hd, Option.bind_some, hn, Bool.or_false]
        cases up
        · rw [if_neg (by decide), show n + (k + k') = n + k + k' by omega, ev, Option.bind_some, Option.bind_some,
            show n + k + k' = n + k' + k by omega, e, Option.bind_some]
          cases v <;> rfl
        · rw [if_pos rfl, Option.bind_some, show n + (k + k') = n + k' + k by omega, e, Option.bind_some]
          rfl

theorem reported_iff {h : Hash} {r : Result} {fs ds : Infos}
    (hf : ∀ x, x ∈ fs ↔ ∃ f ∈ r.files, ∃ d, fromBazel h.type f.digest = some d ∧
      x = (f.path, ⟨d, if f.exec then .executable else .file, false⟩))
    (hd : ∀ x, x ∈ ds ↔ ∃ y ∈ r.dirs, ∃ d, fromBazel h.type y.2 = some d ∧ x = (y.1, ⟨d, .tree, false⟩))
    (x : Str × ObjectInfo) : x ∈ fs ++ (linkInfos h r.allLinks ++ ds) ↔ Reported h r x.1 x.2 := by
  rw [List.mem_append, List.mem_append, hf, hd, mem_linkInfos]
  constructor
  · rintro (⟨f, hf, d, e, rfl⟩ | ⟨y, hy, rfl⟩ | ⟨y, hy, d, e, rfl⟩)
    · exact .file hf e
    · exact .link hy
    · exact .dir hy e
  · obtain ⟨p, i⟩ := x
    intro hr
    cases hr with
    | file hf e => exact .inl ⟨_, hf, _, e, rfl⟩
    | link hy => exact .inr (.inl ⟨_, hy, rfl⟩)
    | dir hy e => exact .inr (.inr ⟨_, hy, _, e, rfl⟩)

/-- For proper results, paths determine what is reported. -/
theorem reported_unique {h : Hash} {cas : Cas} {r : Result} (hr : Proper h cas r) {p : Str} {i j : ObjectInfo}
    (hi : Reported h r p i) (hj : Reported h r p j) : i = j := by
  have hn := List.nodup_append.1 hr.paths
  generalize hq : p = q at hj
  have hfd : ∀ {f : OutFile} {x : Str × Dig.Wire}, f ∈ r.files → x ∈ r.dirs → f.path = x.1 → False :=
    fun hf hx e => hn.2.2 _ (List.mem_map_of_mem hf) _ (List.mem_map_of_mem hx) e
  have hlf : ∀ {f : OutFile} {x : Str × Str}, f ∈ r.files → x ∈ r.allLinks → f.path = x.1 → False :=
    fun hf hx e => hr.apart _ hx (by rw [← e]; exact List.mem_append_left _ (List.mem_map_of_mem hf))
  have hld : ∀ {y : Str × Dig.Wire} {x : Str × Str}, y ∈ r.dirs → x ∈ r.allLinks → y.1 = x.1 → False :=
    fun hf hx e => hr.apart _ hx (by rw [← e]; exact List.mem_append_right _ (List.mem_map_of_mem hf))
  cases hi with
  | file hf e =>
    cases hj with
    | file hf' e' =>
      have := List.inj_on_of_nodup_map hn.1 hf hf' hq
      subst this
      rw [e] at e'
      cases e'
      rfl
    | link hy => exact (hlf hf hy hq).elim
    | dir hy _ => exact (hfd hf hy hq).elim
  | link hy =>
    cases hj with
    | file hf _ => exact (hlf hf hy hq.symm).elim
    | link hy' => rw [hr.same _ hy _ hy' hq]
    | dir hx _ => exact (hld hx hy hq.symm).elim
  | dir hx e =>
    cases hj with
    | file hf _ => exact (hfd hf hx hq.symm).elim
    | link hy => exact (hld hx hy hq).elim
    | dir hx' e' =>
      have := List.inj_on_of_nodup_map hn.2.1 hx hx' hq
      subst this
      rw [e] at e'
      cases e'
      rfl

/-- C78: a local response reports all outputs of a result, nothing else, and whether links leave directories. -/
theorem C78_local (h : Hash) (cas : Cas) (r : Result) (hr : Proper h cas r) :
    ∃ k, ∀ n ≥ k, ∃ s, localSeen h cas n r = some s ∧ (∀ p i, assoc p s.infos = some i ↔ Reported h r p i) ∧
      (s.infos.map Prod.fst).Nodup ∧ s.dirLinks = r.dirLinks.map Prod.fst ∧ (s.up = true ↔ LinksUp h cas r) := by
  obtain ⟨fs, ef, hf⟩ := fileInfos_some hr.files
  obtain ⟨k, ds, hd, b, hb1, hb2, e⟩ := dirInfos_ends (h := h) (cas := cas) (l := r.dirs) fun x hx => by
    obtain ⟨d, hd, _, hw⟩ := hr.dirs x hx
    exact ⟨d, hd, fun hn => (hw hn).1⟩
  refine ⟨k, fun n hn => ⟨⟨emplaceAll (fs ++ (linkInfos h r.allLinks ++ ds)), r.dirLinks.map Prod.fst,
    (!h.type.native && r.allLinks.any fun x => upwards x.2) || b⟩, ?_, ?_, nodup_emplaceAll _, rfl, ?_⟩⟩
  · unfold localSeen
    rw [ef, Option.bind_some, show n = n - k + k by omega, e, Option.bind_some]
  · intro p i
    dsimp only
    rw [assoc_emplaceAll, assoc_func]
    · exact reported_iff hf hd (p, i)
    · intro x hx y hy hxy
      have h1 := (reported_iff hf hd x).1 hx
      have h2 := (reported_iff hf hd y).1 hy
      rw [← hxy] at h2
      exact Prod.ext hxy (reported_unique hr h1 h2)
  · dsimp only
    unfold LinksUp
    cases hn : h.type.native with
    | true => rw [hb1 hn]; simp
    | false =>
      rw [Bool.not_false, Bool.true_and, Bool.or_eq_true, hb2 hn, List.any_eq_true]
      simp only [upwards_iff, true_and]

/-! ## The service -/

/-- What is to be known about an artifact, to convert it. -/
def Ready (h : Hash) (cas : Cas) (n : Nat) (C : Str → Prop) (i : ObjectInfo) : Prop :=
  i.failed = false ∧
  match i.type with
  | .symlink => ∃ t, cas (h.sha t) = some t ∧ i.digest = ⟨h.sha t, h.type, false, t.length⟩
  | .tree => if h.type.native then ∃ w, toBazel i.digest = some w ∧ fromBazel h.type w = some i.digest
      else ∃ t, makeTree cas n i.digest.hash = some t ∧ TreeOf cas i.digest.hash t ∧ C t.text ∧
        i.digest = ⟨h.sha t.root.text, h.type, false, t.root.text.length⟩
  | _ => ∃ w, toBazel i.digest = some w ∧ fromBazel h.type w = some i.digest

/-- The CAS while messages with property `C` are added. -/
structure Adding (h : Hash) (base : Cas) (C : Str → Prop) (cas : Cas) : Prop where
  le : Le base cas
  old : ∀ c, C c → cas (h.sha c) = none ∨ cas (h.sha c) = some c

theorem Adding.put {h : Hash} {base cas : Cas} {C : Str → Prop} (ha : Adding h base C cas)
    (hinj : ∀ c c', C c → C c' → h.sha c = h.sha c' → c = c') {c : Str} (hc : C c) :
    Adding h base C (put h.sha cas c) ∧ put h.sha cas c (h.sha c) = some c := by
  have h1 : Response.put h.sha cas c (h.sha c) = some c := by
    unfold Response.put
    rw [if_pos rfl]
    rcases ha.old c hc with e | e <;> rw [e] <;> rfl
  refine ⟨⟨ha.le.trans (put_le _ _ _), fun c' hc' => ?_⟩, h1⟩
  by_cases e : h.sha c' = h.sha c
  · have := hinj _ _ hc' hc e
    subst this
    exact .inr h1
  · unfold Response.put
    rw [if_neg e]
    exact ha.old c' hc'

def isFile (x : Str × ObjectInfo) : Bool := x.2.type == .file || x.2.type == .executable
def isLink (x : Str × ObjectInfo) : Bool := x.2.type == .symlink
def isTree (x : Str × ObjectInfo) : Bool := x.2.type == .tree

/-- A link, with its target. -/
def linkOf (cas : Cas) (x : Str × ObjectInfo) : Str × Str := (x.1, (cas x.2.digest.hash).getD [])

/-- What is uploaded for a directory. -/
def Uploads (cas : Cas) (h : Str) (u : List Str) : Prop :=
  ∀ x, Reach cas h x → ∃ s, cas x = some s ∧ s ∈ u ∧ ∀ m, Directory.read s = some m → ∀ l ∈ m.links, l.target ∈ u

/-- A client gets from the result what is in the list of artifacts. -/
structure Out (h : Hash) (base : Cas) (legacy : Bool) (dl : Option (List Str)) (l : Infos) (r : Result) (cas : Cas) :
    Prop where
  files : fileInfos h.type r.files = some (l.filter isFile)
  links : r.links = if legacy then [] else (l.filter isLink).map (linkOf base)
  dirLinks : r.dirLinks = dl.elim [] fun q => (l.filter fun x => isLink x && decide (x.1 ∈ q)).map (linkOf base)
  fileLinks : r.fileLinks = dl.elim [] fun q => (l.filter fun x => isLink x && !decide (x.1 ∈ q)).map (linkOf base)
  native : h.type.native = true → nativeDirs h.type r.dirs = some (l.filter isTree)
  dirs : h.type.native = false → ∃ ts, treeDigests h.type r.dirs = some ts ∧ ∀ cas', Le cas cas' →
    ∃ g, clientDirs h ((r.dirs.map Prod.fst).zip (readOrdered cas' ts)) = some g ∧ g.infos = l.filter isTree ∧
      (g.up = true ↔ ∃ x ∈ l, isTree x = true ∧ UpwardsIn base x.2.digest.hash) ∧
      ∀ x ∈ l, isTree x = true → Uploads base x.2.digest.hash g.uploaded

theorem TreeOf.uploads {cas : Cas} {h : Str} {t : TreeMsg} (ht : TreeOf cas h t) : Uploads cas h (treeBlobs t) := by
  intro x hx
  obtain ⟨m, hm, hc⟩ := ht.complete x hx
  have hsub : ∀ s ∈ directoryBlobs m, s ∈ treeBlobs t := fun s hs => by
    unfold treeBlobs
    rcases List.mem_cons.1 hm with rfl | hm
    · exact List.mem_append_left _ hs
    · exact List.mem_append_right _ (List.mem_flatMap.2 ⟨m, hm, hs⟩)
  refine ⟨m.text, hc, hsub _ (List.mem_cons_self ..), fun m' hm' l hl => ?_⟩
  rw [directory_read m (ht.sound m hm).1] at hm'
  cases hm'
  exact hsub _ (List.mem_cons_of_mem _ (List.mem_map_of_mem hl))

theorem Uploads.mono {cas : Cas} {h : Str} {u u' : List Str} (hu : Uploads cas h u) (hs : u ⊆ u') : Uploads cas h u' := by
  intro x hx
  obtain ⟨s, hc, hm, hl⟩ := hu x hx
  exact ⟨s, hc, hs hm, fun m hm' l hl' => hs (hl m hm' l hl')⟩

theorem sha_digest {h : Hash} (hh : h.Proper) {c : Str} (hc : c.length < 2 ^ 63) :
    ∃ w, toBazel ⟨h.sha c, h.type, false, c.length⟩ = some w ∧
      fromBazel h.type w = some ⟨h.sha c, h.type, false, c.length⟩ :=
  C44_round_trip ⟨h.sha c, h.type, false, c.length⟩ ⟨(hh c).1, (hh c).2, fun h => (nomatch h)⟩ hc

theorem convert_out {h : Hash} (hh : h.Proper) {base : Cas} {n : Nat} {C : Str → Prop} (legacy : Bool)
    (dl : Option (List Str)) (hinj : ∀ c c', C c → C c' → h.sha c = h.sha c' → c = c')
    (hshort : ∀ c, C c → c.length < 2 ^ 63) : ∀ (l : Infos) (cas : Cas), (∀ x ∈ l, Ready h base n C x.2) →
    Adding h base C cas → ∃ r cas', convert h n legacy dl l cas = some (r, cas') ∧ Adding h base C cas' ∧ Le cas cas' ∧
      Out h base legacy dl l r cas'
  | [], cas, _, ha => by
    refine ⟨_, _, rfl, ha, Le.refl _, ⟨rfl, ?_, ?_, ?_, fun _ => rfl, fun _ => ⟨[], rfl, fun cas' _ =>
      ⟨_, rfl, rfl, by simp, fun x hx => (nomatch hx)⟩⟩⟩⟩
    · cases legacy <;> rfl
    · cases dl <;> rfl
    · cases dl <;> rfl
  | (p, ⟨d, ty, f⟩) :: l, cas, hl, ha => by
    obtain ⟨hff, hi⟩ := hl _ (List.mem_cons_self ..)
    dsimp only at hff hi
    subst hff
    have hl' : ∀ x ∈ l, Ready h base n C x.2 := fun x hx => hl x (List.mem_cons_of_mem _ hx)
    have hfile : ∀ b : Bool, ty = (if b then .executable else .file) →
        (∃ w, toBazel d = some w ∧ fromBazel h.type w = some d) →
        ∃ r cas', convert h n legacy dl ((p, ⟨d, ty, false⟩) :: l) cas = some (r, cas') ∧ Adding h base C cas' ∧
          Le cas cas' ∧ Out h base legacy dl ((p, ⟨d, ty, false⟩) :: l) r cas' := by
      rintro b hty ⟨w, hw, hw'⟩
      obtain ⟨r, cas', e, ha', hle, o⟩ := convert_out hh legacy dl hinj hshort l cas hl' ha
      have h1 : isFile (p, ⟨d, ty, false⟩) = true := by subst hty; cases b <;> rfl
      have h2 : isLink (p, ⟨d, ty, false⟩) = false := by subst hty; cases b <;> rfl
      have h3 : isTree (p, ⟨d, ty, false⟩) = false := by subst hty; cases b <;> rfl
      refine ⟨r.addFile ⟨p, w, b⟩, cas', ?_, ha', hle, ⟨?_, ?_, ?_, ?_, fun hn => ?_, fun hn => ?_⟩⟩
      · subst hty
        cases b <;> (show Option.bind (toBazel d) _ = _; rw [hw, Option.bind_some, e, Option.bind_some]; rfl)
      · unfold Result.addFile fileInfos
        dsimp only
        rw [hw', Option.bind_some, o.files, Option.bind_some, List.filter_cons_of_pos h1, hty]
      · rw [List.filter_cons_of_neg (by rw [h2]; decide)]
        exact o.links
      · have := o.dirLinks
        cases dl
        · exact this
        · rw [Option.elim_some] at this ⊢
          rw [List.filter_cons_of_neg (by rw [h2]; simp)]
          exact this
      · have := o.fileLinks
        cases dl
        · exact this
        · rw [Option.elim_some] at this ⊢
          rw [List.filter_cons_of_neg (by rw [h2]; simp)]
          exact this
      · rw [List.filter_cons_of_neg (by rw [h3]; decide)]
        exact o.native hn
      · obtain ⟨ts, ets, hts⟩ := o.dirs hn
        refine ⟨ts, ets, fun c hc => ?_⟩
        obtain ⟨g, eg, g1, g2, g3⟩ := hts c hc
        refine ⟨g, eg, ?_, ?_, fun x hx ht => ?_⟩
        · rw [List.filter_cons_of_neg (by rw [h3]; decide)]
          exact g1
        · rw [g2]
          constructor
          · rintro ⟨x, hx, q⟩
            exact ⟨x, List.mem_cons_of_mem _ hx, q⟩
          · rintro ⟨x, hx, ht, q⟩
            rcases List.mem_cons.1 hx with rfl | hx
            · rw [h3] at ht; cases ht
            · exact ⟨x, hx, ht, q⟩
        · rcases List.mem_cons.1 hx with rfl | hx
          · rw [h3] at ht; cases ht
          · exact g3 x hx ht
    cases ty with
    | file => exact hfile false rfl hi
    | executable => exact hfile true rfl hi
    | symlink =>
      obtain ⟨t, ht, rfl⟩ := hi
      have hto : linkOf base (p, ⟨⟨h.sha t, h.type, false, t.length⟩, .symlink, false⟩) = (p, t) := by
        unfold linkOf
        dsimp only
        rw [ht]
        rfl
      obtain ⟨r, cas', e, ha', hle, o⟩ := convert_out hh legacy dl hinj hshort l cas hl' ha
      refine ⟨r.addLink legacy dl (p, t), cas', ?_, ha', hle, ⟨o.files, ?_, ?_, ?_, o.native, fun hn => ?_⟩⟩
      · unfold convert
        dsimp only
        rw [ha.le _ _ ht, Option.bind_some, e, Option.bind_some]
      · have := o.links
        cases legacy
        · show (p, t) :: r.links = _
          rw [if_neg (by decide)] at this ⊢
          rw [List.filter_cons_of_pos rfl, List.map_cons, hto, ← this]
        · exact this
      · have := o.dirLinks
        cases dl with
        | none => exact this
        | some q =>
          show (if p ∈ q then (p, t) :: r.dirLinks else r.dirLinks) =
            (List.filter (fun x => isLink x && decide (x.1 ∈ q)) _).map (linkOf base)
          rw [Option.elim_some] at this
          by_cases hp : p ∈ q
          · rw [if_pos hp, List.filter_cons_of_pos (by simpa [isLink] using hp), List.map_cons, hto, ← this]
          · rw [if_neg hp, List.filter_cons_of_neg (by simpa [isLink] using hp), ← this]
      · have := o.fileLinks
        cases dl with
        | none => exact this
        | some q =>
          show (if p ∈ q then r.fileLinks else (p, t) :: r.fileLinks) =
            (List.filter (fun x => isLink x && !decide (x.1 ∈ q)) _).map (linkOf base)
          rw [Option.elim_some] at this
          by_cases hp : p ∈ q
          · rw [if_pos hp, List.filter_cons_of_neg (by simpa [isLink] using hp), ← this]
          · rw [if_neg hp, List.filter_cons_of_pos (by simpa [isLink] using hp), List.map_cons, hto, ← this]
      · obtain ⟨ts, ets, hts⟩ := o.dirs hn
        refine ⟨ts, ets, fun c hc => ?_⟩
        obtain ⟨g, eg, g1, g2, g3⟩ := hts c hc
        refine ⟨g, eg, g1, ?_, fun x hx ht => ?_⟩
        · rw [g2]
          constructor
          · rintro ⟨x, hx, q⟩
            exact ⟨x, List.mem_cons_of_mem _ hx, q⟩
          · rintro ⟨x, hx, ht, q⟩
            rcases List.mem_cons.1 hx with rfl | hx
            · cases ht
            · exact ⟨x, hx, ht, q⟩
        · rcases List.mem_cons.1 hx with rfl | hx
          · cases ht
          · exact g3 x hx ht
    | tree =>
      cases hn : h.type.native with
      | true =>
        rw [hn, if_pos rfl] at hi
        obtain ⟨w, hw, hw'⟩ := hi
        obtain ⟨r, cas', e, ha', hle, o⟩ := convert_out hh legacy dl hinj hshort l cas hl' ha
        refine ⟨r.addDir (p, w), cas', ?_, ha', hle, ⟨o.files, o.links, o.dirLinks, o.fileLinks, fun hn => ?_,
          fun hn' => ?_⟩⟩
        · unfold convert outDir
          dsimp only
          rw [hn, if_pos rfl, hw, Option.bind_some, Option.bind_some, e, Option.bind_some]
        · unfold Result.addDir nativeDirs
          rw [hw', Option.bind_some, o.native hn, Option.bind_some]
          rfl
        · rw [hn] at hn'; cases hn'
      | false =>
        rw [hn, if_neg (by decide)] at hi
        obtain ⟨t, hm, ht, hC, rfl⟩ := hi
        obtain ⟨w, hw, hw'⟩ := sha_digest hh (hshort _ hC)
        obtain ⟨ha1, hput⟩ := ha.put hinj hC
        obtain ⟨r, cas', e, ha', hle, o⟩ := convert_out hh legacy dl hinj hshort l _ hl' ha1
        refine ⟨r.addDir (p, w), cas', ?_, ha', (put_le _ _ _).trans hle, ⟨o.files, o.links, o.dirLinks, o.fileLinks,
          fun hn' => ?_, fun _ => ?_⟩⟩
        · unfold convert outDir
          dsimp only
          rw [hn, if_neg (by decide), makeTree_mono ha.le hm, Option.bind_some,
            show toBazel (blobDigest h.type h.sha t.text) = some w from hw, Option.bind_some, Option.bind_some, e,
            Option.bind_some]
        · rw [hn] at hn'; cases hn'
        · obtain ⟨ts, ets, hts⟩ := o.dirs hn
          refine ⟨⟨h.sha t.text, h.type, false, t.text.length⟩ :: ts, ?_, fun c hc => ?_⟩
          · unfold Result.addDir treeDigests
            rw [hw', Option.bind_some, ets, Option.bind_some]
          obtain ⟨g, eg, g1, g2, g3⟩ := hts c hc
          have hread : readOrdered c (⟨h.sha t.text, h.type, false, t.text.length⟩ :: ts) = t.text :: readOrdered c ts := by
            unfold readOrdered
            rw [List.filterMap_cons_some (b := t.text)]
            exact hc _ _ (hle _ _ hput)
          have hz := ht.sound t.root (List.mem_cons_self ..)
          refine ⟨⟨(p, ⟨blobDigest h.type h.sha t.root.text, .tree, false⟩) :: g.infos,
            upwardsIn t.root || t.children.any upwardsIn || g.up, treeBlobs t ++ g.uploaded⟩, ?_, ?_, ?_, ?_⟩
          · rw [hread]
            unfold Result.addDir
            dsimp only
            rw [List.map_cons, List.zip_cons_cons, clientDirs,
              tree_read hz.1 (fun m hm => (ht.sound m (List.mem_cons_of_mem _ hm)).1), Option.bind_some, eg,
              Option.bind_some]
          · rw [List.filter_cons_of_pos rfl, ← g1]
            rfl
          · dsimp only
            rw [Bool.or_eq_true, ht.up, g2]
            constructor
            · rintro (hu | ⟨x, hx, q⟩)
              · exact ⟨_, List.mem_cons_self .., rfl, hu⟩
              · exact ⟨x, List.mem_cons_of_mem _ hx, q⟩
            · rintro ⟨x, hx, htr, q⟩
              rcases List.mem_cons.1 hx with rfl | hx
              · exact .inl q
              · exact .inr ⟨x, hx, htr, q⟩
          · intro x hx htr
            rcases List.mem_cons.1 hx with rfl | hx
            · exact ht.uploads.mono (List.subset_append_left _ _)
            · exact (g3 x hx htr).mono (List.subset_append_right _ _)

end Verif.Response
