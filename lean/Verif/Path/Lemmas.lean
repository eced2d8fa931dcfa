import Verif.Path.Model
import Verif.Path.Spec
import Mathlib.Data.List.Induction

/-!
# Lemmas about lexical path handling
-/

namespace Verif.Path

/-- A segment without slash that is not empty. -/
def Seg (a : Str) : Prop := '/' ∉ a ∧ a ≠ []

theorem seg_dotdot : Seg dotdot := by constructor <;> decide

theorem ProperName.seg {a : Str} (h : ProperName a) : Seg a := ⟨h.1, h.2.1⟩

theorem mem_names {s a : Str} (h : a ∈ names s) : Seg a := by
  unfold names at h
  rw [List.mem_filter] at h
  refine ⟨splitAt_mem_noSep '/' s a h.1, ?_⟩
  intro e
  subst e
  simp at h

/-- Empty segments do not matter. -/
theorem foldl_follow_filter (l : List Str) (p : Place) :
    (l.filter (fun a => !a.isEmpty)).foldl Place.follow p = l.foldl Place.follow p := by
  induction l generalizing p with
  | nil => rfl
  | cons a t ih =>
    cases a with
    | nil =>
      have : Place.follow p [] = p := by simp [Place.follow]
      simp [this, ih]
    | cons c cs => simp [ih]

theorem isAbs_iff (s : Str) : isAbs s = true ↔ s.head? = some '/' := by
  cases s with
  | nil => simp [isAbs]
  | cons c t => simp [isAbs]

theorem walk_names (p : Place) (s : Str) :
    p.walk s = (names s).foldl Place.follow (if isAbs s then ⟨true, 0, []⟩ else p) := by
  unfold Place.walk names
  rw [foldl_follow_filter]
  by_cases h : s.head? = some '/'
  · rw [if_pos h, if_pos ((isAbs_iff s).2 h)]
  · rw [if_neg h, if_neg (fun h' => h ((isAbs_iff s).1 h'))]

/-- Places that can be denoted by a path. -/
structure Place.WF (p : Place) : Prop where
  names : ∀ a ∈ p.down, ProperName a
  root : p.abs = true → p.up = 0

theorem wf_follow {p : Place} (h : p.WF) {a : Str} (ha : '/' ∉ a) : (p.follow a).WF := by
  unfold Place.follow
  split
  · exact h
  · rename_i h1
    split
    · split
      · split
        · exact h
        · rename_i h2 h3
          exact ⟨h.names, fun h4 => absurd h4 h3⟩
      · rename_i b t hb
        refine ⟨?_, h.root⟩
        intro x hx
        apply h.names
        rw [hb]
        exact List.dropLast_subset _ hx
    · rename_i h2
      refine ⟨?_, h.root⟩
      intro x hx
      rcases List.mem_append.1 hx with h3 | h3
      · exact h.names x h3
      · rw [List.mem_singleton] at h3
        subst h3
        exact ⟨ha, fun e => h1 (Or.inl e), fun e => h1 (Or.inr e), h2⟩

theorem wf_foldl {p : Place} (h : p.WF) {l : List Str} (hl : ∀ a ∈ l, '/' ∉ a) :
    (l.foldl Place.follow p).WF := by
  induction l generalizing p with
  | nil => exact h
  | cons a t ih =>
    exact ih (wf_follow h (hl a List.mem_cons_self)) (fun x hx => hl x (List.mem_cons_of_mem _ hx))

theorem wf_walk {p : Place} (h : p.WF) (s : Str) : (p.walk s).WF := by
  rw [walk_names]
  apply wf_foldl
  · split
    · exact ⟨by simp, fun _ => rfl⟩
    · exact h
  · intro a ha
    exact (mem_names ha).1

theorem wf_place (s : Str) : (place s).WF := wf_walk ⟨by simp, by simp⟩ s

/-- Segments of the normal form. -/
def Place.segs (p : Place) : List Str := List.replicate p.up dotdot ++ p.down

theorem segs_seg {p : Place} (h : p.WF) : ∀ a ∈ p.segs, Seg a := by
  intro a ha
  rcases List.mem_append.1 ha with h1 | h1
  · rw [List.eq_of_mem_replicate h1]
    exact seg_dotdot
  · exact (h.names a h1).seg

/-- The normal form of paths denoting a place. -/
def canon (p : Place) : Str :=
  if p.abs then '/' :: joinWith '/' p.segs
  else if p.segs = [] then dot else joinWith '/' p.segs

/-- Relation between the state of `lexically_normal` and the place reached. -/
structure Rel (r : Norm) (p : Place) : Prop where
  wf : p.WF
  abs : r.abs = p.abs
  rev : r.rev = p.segs.reverse
  trail : r.trail = true → r.rev ≠ []

theorem segs_push (p : Place) (a : Str) : ({ p with down := p.down ++ [a] } : Place).segs =
    p.segs ++ [a] := by simp [Place.segs]

theorem rel_step {r : Norm} {p : Place} (h : Rel r p) {a : Str} (ha : '/' ∉ a) :
    Rel (r.step a) (p.follow a) := by
  have hw := wf_follow h.wf ha
  unfold Norm.step
  by_cases h1 : a = dotdot
  · subst h1
    rw [if_pos rfl]
    have hf : p.follow dotdot = match p.down with
        | [] => if p.abs then p else { p with up := p.up + 1 }
        | a :: t => { p with down := (a :: t).dropLast } := by
      unfold Place.follow
      rw [if_neg (by decide), if_pos rfl]
      cases p.down <;> rfl
    rw [hf] at hw ⊢
    cases hd : p.down with
    | nil =>
      simp only [hd] at hw ⊢
      have hr : r.rev = List.replicate p.up dotdot := by
        rw [h.rev, Place.segs, hd, List.append_nil, List.reverse_replicate]
      cases hu : p.up with
      | zero =>
        rw [hu, List.replicate_zero] at hr
        rw [hr]
        simp only
        rw [h.abs]
        by_cases hp : p.abs = true
        · rw [if_pos hp, if_pos hp]
          exact h
        · rw [if_neg hp, if_neg hp] at *
          rw [hu] at hw
          refine ⟨hw, rfl, ?_, by simp⟩
          simp [Place.segs]
      | succ u =>
        have hp : ¬ p.abs = true := fun e => by have := h.wf.root e; omega
        rw [hu, List.replicate_succ] at hr
        rw [if_neg hp] at hw ⊢
        rw [hr]
        simp only [if_true]
        rw [hu] at hw
        refine ⟨hw, h.abs, ?_, by simp⟩
        simp only [Place.segs, List.append_nil, List.reverse_replicate]
        rfl
    | cons b t =>
      simp only [hd] at hw ⊢
      obtain ⟨l, x, hx⟩ : ∃ l x, b :: t = l ++ [x] :=
        ⟨_, _, (List.dropLast_append_getLast (l := b :: t) (by simp)).symm⟩
      have hdl : (b :: t).dropLast = l := by rw [hx, List.dropLast_concat]
      have hrev : r.rev = x :: (List.replicate p.up dotdot ++ l).reverse := by
        rw [h.rev, Place.segs, hd, hx, ← List.append_assoc, List.reverse_append]
        rfl
      rw [hdl] at hw ⊢
      rw [hrev]
      simp only
      have hxp : ProperName x := h.wf.names x (by rw [hd, hx]; simp)
      rw [if_neg hxp.2.2.2]
      refine ⟨hw, h.abs, rfl, ?_⟩
      simp only
      intro e e'
      rw [e'] at e
      simp at e
  · rw [if_neg h1]
    by_cases h2 : a = dot ∨ a = []
    · rw [if_pos h2]
      have : p.follow a = p := by
        unfold Place.follow
        rw [if_pos (h2.elim Or.inr Or.inl)]
      rw [this] at hw ⊢
      refine ⟨hw, h.abs, h.rev, ?_⟩
      simp only
      intro e e'
      rw [e'] at e
      simp at e
    · rw [if_neg h2]
      have : p.follow a = { p with down := p.down ++ [a] } := by
        unfold Place.follow
        rw [if_neg (fun h => h2 h.symm), if_neg h1]
      rw [this] at hw ⊢
      refine ⟨hw, h.abs, ?_, by simp⟩
      rw [segs_push]
      simp only [List.reverse_append, List.reverse_cons, List.reverse_nil, List.nil_append,
        List.singleton_append]
      rw [h.rev]

theorem rel_foldl {r : Norm} {p : Place} (h : Rel r p) {l : List Str} (hl : ∀ a ∈ l, '/' ∉ a) :
    Rel (l.foldl Norm.step r) (l.foldl Place.follow p) := by
  induction l generalizing r p with
  | nil => exact h
  | cons a t ih =>
    exact ih (rel_step h (hl a List.mem_cons_self)) (fun x hx => hl x (List.mem_cons_of_mem _ hx))

/-! ## Strings -/

theorem joinWith_ne_nil {l : List Str} (hl : l ≠ []) (h : ∀ a ∈ l, Seg a) : joinWith '/' l ≠ [] := by
  cases l with
  | nil => exact absurd rfl hl
  | cons a t =>
    have ha := (h a List.mem_cons_self).2
    cases t with
    | nil => exact ha
    | cons b t =>
      rw [joinWith]
      cases a <;> simp

theorem joinWith_getLast {l : List Str} (hl : l ≠ []) (h : ∀ a ∈ l, Seg a) :
    ∃ c, c ≠ '/' ∧ (joinWith '/' l).getLast? = some c := by
  induction l with
  | nil => exact absurd rfl hl
  | cons a t ih =>
    have ha := h a List.mem_cons_self
    cases t with
    | nil =>
      simp only [joinWith]
      refine ⟨a.getLast ha.2, ?_, List.getLast?_eq_some_getLast ha.2⟩
      intro e
      exact ha.1 (e ▸ List.getLast_mem ha.2)
    | cons b t =>
      obtain ⟨c, hc, hj⟩ := ih (by simp) (fun x hx => h x (List.mem_cons_of_mem _ hx))
      refine ⟨c, hc, ?_⟩
      rw [joinWith, List.getLast?_append]
      rw [List.getLast?_cons]
      simp [hj]

theorem filename_of_last {s : Str} {c : Char} (hc : c ≠ '/') (h : s.getLast? = some c) :
    filename s ≠ [] := by
  unfold filename
  rw [List.getLast?_eq_head?_reverse] at h
  cases hr : s.reverse with
  | nil => rw [hr] at h; cases h
  | cons d t =>
    rw [hr] at h
    have hd : d = c := Option.some.inj h
    subst hd
    simp [hc]

theorem filename_slash (s : Str) : filename (s ++ ['/']) = [] := by
  simp [filename]

/-- No trailing slash, or just a slash. -/
theorem canon_last {p : Place} (h : p.WF) :
    canon p = ['/'] ∧ p.abs = true ∧ p.segs = [] ∨
      ∃ c, c ≠ '/' ∧ (canon p).getLast? = some c := by
  unfold canon
  by_cases hs : p.segs = []
  · by_cases ha : p.abs = true
    · left
      rw [if_pos ha, hs]
      exact ⟨rfl, ha, rfl⟩
    · right
      rw [if_neg ha, if_pos hs]
      exact ⟨'.', by decide, rfl⟩
  · right
    obtain ⟨c, hc, hl⟩ := joinWith_getLast hs (segs_seg h)
    refine ⟨c, hc, ?_⟩
    by_cases ha : p.abs = true
    · rw [if_pos ha, List.getLast?_cons]
      simp [hl]
    · rw [if_neg ha, if_neg hs, hl]

theorem canon_ne_nil {p : Place} (h : p.WF) : canon p ≠ [] := by
  rcases canon_last h with ⟨h1, -⟩ | ⟨c, -, h2⟩
  · rw [h1]; simp
  · intro e
    rw [e] at h2
    cases h2

theorem names_join {l : List Str} (h : ∀ a ∈ l, Seg a) : names (joinWith '/' l) = l := by
  cases l with
  | nil => rfl
  | cons a t =>
    unfold names
    rw [splitAt_join (by simp) (fun x hx => (h x hx).1)]
    apply List.filter_eq_self.2
    intro x hx
    have := (h x hx).2
    cases x <;> simp_all

theorem names_cons_slash (s : Str) : names ('/' :: s) = names s := by
  unfold names
  rw [splitAt_cons_sep]
  rfl

theorem names_append_slash (s : Str) : names (s ++ ['/']) = names s := by
  unfold names
  rw [splitAt_append_sep]
  simp [splitAt]

theorem isAbs_join {l : List Str} (h : ∀ a ∈ l, Seg a) : isAbs (joinWith '/' l) = false := by
  cases l with
  | nil => rfl
  | cons a t =>
    obtain ⟨h1, h2⟩ := h a List.mem_cons_self
    cases a with
    | nil => exact absurd rfl h2
    | cons c cs =>
      have hc : c ≠ '/' := fun e => h1 (e ▸ List.mem_cons_self)
      cases t with
      | nil => simp [joinWith, isAbs, hc]
      | cons b t => simp [joinWith, isAbs, hc]

theorem names_dot : names dot = [dot] := by decide

theorem isAbs_canon {p : Place} (h : p.WF) : isAbs (canon p) = p.abs := by
  unfold canon
  by_cases ha : p.abs = true
  · rw [if_pos ha, ha]; rfl
  · rw [if_neg ha]
    rw [Bool.not_eq_true] at ha
    rw [ha]
    split
    · rfl
    · exact isAbs_join (segs_seg h)

theorem foldl_dotdot (n u : Nat) : (List.replicate n dotdot).foldl Place.follow ⟨false, u, []⟩ =
    ⟨false, u + n, []⟩ := by
  induction n generalizing u with
  | zero => rfl
  | succ n ih =>
    rw [List.replicate_succ, List.foldl_cons]
    have : Place.follow ⟨false, u, []⟩ dotdot = ⟨false, u + 1, []⟩ := by
      simp [Place.follow, dotdot]
    rw [this, ih]
    congr 1
    omega

theorem foldl_proper {l : List Str} (h : ∀ a ∈ l, ProperName a) (p : Place) :
    l.foldl Place.follow p = { p with down := p.down ++ l } := by
  induction l generalizing p with
  | nil => simp
  | cons a t ih =>
    rw [List.foldl_cons, ih (fun x hx => h x (List.mem_cons_of_mem _ hx))]
    obtain ⟨-, h1, h2, h3⟩ := h a List.mem_cons_self
    have : p.follow a = { p with down := p.down ++ [a] } := by
      unfold Place.follow
      rw [if_neg (by rintro (e | e); exacts [h1 e, h2 e]), if_neg h3]
    rw [this]
    simp

/-- The normal form denotes the place. -/
theorem place_canon {p : Place} (h : p.WF) : place (canon p) = p := by
  obtain ⟨abs, up, down⟩ := p
  unfold place
  rw [walk_names, isAbs_canon h]
  unfold canon
  cases abs with
  | true =>
    have hu : up = 0 := h.root rfl
    subst hu
    simp only [if_true]
    rw [names_cons_slash, names_join (segs_seg h)]
    simp only [Place.segs, List.replicate_zero, List.nil_append]
    rw [foldl_proper h.names]
    simp
  | false =>
    simp only [Bool.false_eq_true, if_false]
    split
    · rename_i hs
      simp only [Place.segs, List.append_eq_nil_iff, List.replicate_eq_nil_iff] at hs
      obtain ⟨rfl, rfl⟩ := hs
      rw [names_dot]
      rfl
    · rw [names_join (segs_seg h)]
      simp only [Place.segs]
      rw [List.foldl_append, foldl_dotdot, foldl_proper h.names]
      simp

theorem place_eq (s : Str) : place s = (names s).foldl Place.follow ⟨isAbs s, 0, []⟩ := by
  unfold place
  rw [walk_names]
  by_cases h : isAbs s = true
  · rw [if_pos h, h]
  · rw [if_neg h, Bool.eq_false_iff.2 h]

/-- State at the end of `lexically_normal`. -/
theorem rel_lexNormal (s : Str) :
    Rel ((names s ++ if hasTrail s then [[]] else []).foldl Norm.step ⟨isAbs s, [], false⟩)
      (place s) := by
  have h0 : Rel ⟨isAbs s, [], false⟩ ⟨isAbs s, 0, []⟩ :=
    ⟨⟨by simp, fun _ => rfl⟩, rfl, rfl, by simp⟩
  have h1 : place s = (names s ++ if hasTrail s then [[]] else []).foldl Place.follow
      ⟨isAbs s, 0, []⟩ := by
    rw [place_eq, List.foldl_append]
    split
    · simp [Place.follow]
    · rfl
  rw [h1]
  apply rel_foldl h0
  intro a ha
  rcases List.mem_append.1 ha with h | h
  · exact (mem_names h).1
  · split at h
    · rw [List.mem_singleton.1 h]; simp
    · cases h

/-- `lexically_normal` gives the normal form, or the normal form with a slash appended. -/
theorem lexNormal_eq (s : Str) (hs : s ≠ []) :
    lexNormal s = canon (place s) ∨
      lexNormal s = canon (place s) ++ ['/'] ∧ (place s).segs ≠ [] ∧
        (place s).segs.getLast? ≠ some dotdot := by
  unfold lexNormal
  rw [if_neg hs]
  have h := rel_lexNormal s
  generalize (names s ++ if hasTrail s then [[]] else []).foldl Norm.step ⟨isAbs s, [], false⟩ = r
    at h
  obtain ⟨abs, rev, trail⟩ := r
  obtain ⟨hw, h1, h2, h3⟩ := h
  simp only at h1 h2 h3
  subst h1 h2
  unfold Norm.finish
  have key : ∀ t, (⟨(place s).abs, (place s).segs.reverse, t⟩ : Norm).str =
      (if (place s).abs then ['/'] else []) ++ joinWith '/' (place s).segs ++
        (if t then ['/'] else []) := by
    intro t
    simp [Norm.str]
  have nt : (if (⟨(place s).abs, (place s).segs.reverse, false⟩ : Norm).str = [] then dot
      else (⟨(place s).abs, (place s).segs.reverse, false⟩ : Norm).str) = canon (place s) := by
    rw [key]
    unfold canon
    by_cases ha : (place s).abs = true
    · simp [ha]
    · simp only [ha, Bool.false_eq_true, if_false, List.nil_append, List.append_nil]
      by_cases hsegs : (place s).segs = []
      · rw [hsegs]; rfl
      · rw [if_neg hsegs, if_neg (joinWith_ne_nil hsegs (segs_seg hw))]
  simp only
  split
  · left
    exact nt
  · rename_i hh
    cases trail with
    | false =>
      left
      exact nt
    | true =>
      right
      have hn : (place s).segs ≠ [] := by
        have := h3 rfl
        simpa using this
      refine ⟨?_, hn, ?_⟩
      · rw [key]
        simp only [if_true]
        rw [if_neg (by simp)]
        unfold canon
        by_cases ha : (place s).abs = true
        · simp [ha]
        · simp [ha, hn]
      · rw [List.getLast?_eq_head?_reverse]
        exact hh

theorem lexNormal_nil : lexNormal [] = [] := rfl

theorem toNormalPath_eq (s : Str) : toNormalPath s = canon (place s) := by
  by_cases hs : s = []
  · subst hs
    decide
  · have hw := wf_place s
    unfold toNormalPath
    simp only
    rcases lexNormal_eq s hs with h | ⟨h, hn, hd⟩
    · rw [h]
      rcases canon_last hw with ⟨h1, -⟩ | ⟨c, hc, hl⟩
      · rw [h1]
        decide
      · rw [if_neg (filename_of_last hc hl), if_neg (canon_ne_nil hw)]
    · rw [h, filename_slash, if_pos rfl]
      rcases canon_last hw with ⟨-, -, h1⟩ | ⟨c, hc, hl⟩
      · exact absurd h1 hn
      · have hpp : parentPath (canon (place s) ++ ['/']) = canon (place s) := by
          unfold parentPath
          have hnm : ¬ (names (canon (place s) ++ ['/'])).isEmpty := by
            rw [names_append_slash]
            unfold canon
            split
            · rw [names_cons_slash, names_join (segs_seg hw)]
              simpa using hn
            · rw [names_join (segs_seg hw)]
              simpa using hn
          rw [if_neg hnm, if_pos (by simp)]
          rw [List.reverse_append, List.reverse_singleton, List.singleton_append,
            List.dropWhile_cons, if_pos (by decide)]
          rw [List.getLast?_eq_head?_reverse] at hl
          cases hr : (canon (place s)).reverse with
          | nil => rw [hr] at hl; cases hl
          | cons d t =>
            rw [hr] at hl
            have hd' : d = c := Option.some.inj hl
            subst hd'
            rw [List.dropWhile_cons, if_neg (by simpa using hc), ← hr, List.reverse_reverse]
        rw [hpp, if_neg (canon_ne_nil hw)]

/-! ## Staying below the start -/

theorem up_foldl (l : List Str) (p : Place) (ha : p.abs = false) :
    (l.foldl Place.follow p).up = 0 ↔
      p.up = 0 ∧ ∀ n, 0 ≤ (p.down.length : Int) + depth (l.take n) := by
  induction l generalizing p with
  | nil => simp [depth]
  | cons a t ih =>
    have hsplit : (∀ n, 0 ≤ (p.down.length : Int) + depth ((a :: t).take n)) ↔
        ∀ n, 0 ≤ (p.down.length : Int) + depthOf a + depth (t.take n) := by
      constructor
      · intro h n
        have := h (n + 1)
        simp only [List.take_succ_cons, depth] at this
        omega
      · intro h n
        cases n with
        | zero => simp [depth]
        | succ n =>
          have := h n
          simp only [List.take_succ_cons, depth]
          omega
    rw [List.foldl_cons, hsplit]
    by_cases h1 : a = [] ∨ a = ['.']
    · have hf : p.follow a = p := by unfold Place.follow; rw [if_pos h1]
      have hd : depthOf a = 0 := by unfold depthOf; rw [if_pos h1]
      rw [hf, ih p ha, hd]
      simp
    · by_cases h2 : a = ['.', '.']
      · have hd : depthOf a = -1 := by unfold depthOf; rw [if_neg h1, if_pos h2]
        rw [hd]
        cases hdn : p.down with
        | nil =>
          have hf : p.follow a = { p with up := p.up + 1 } := by
            unfold Place.follow
            rw [if_neg h1, if_pos h2, hdn]
            simp [ha]
          rw [hf, ih { p with up := p.up + 1 } ha]
          constructor
          · rintro ⟨h, -⟩
            simp at h
          · rintro ⟨-, h⟩
            have := h 0
            simp [depth] at this
        | cons b bs =>
          have hf : p.follow a = { p with down := (b :: bs).dropLast } := by
            unfold Place.follow
            rw [if_neg h1, if_pos h2, hdn]
          rw [hf, ih { p with down := (b :: bs).dropLast } ha]
          simp only [List.length_dropLast, List.length_cons, Nat.add_sub_cancel]
          refine and_congr Iff.rfl (forall_congr' fun n => ?_)
          push_cast
          omega
      · have hd : depthOf a = 1 := by unfold depthOf; rw [if_neg h1, if_neg h2]
        have hf : p.follow a = { p with down := p.down ++ [a] } := by
          unfold Place.follow
          rw [if_neg h1, if_neg h2]
        rw [hf, ih { p with down := p.down ++ [a] } ha, hd]
        simp

theorem up_eq_zero (l : List Str) :
    (l.foldl Place.follow ⟨false, 0, []⟩).up = 0 ↔ NeverAbove l := by
  rw [up_foldl l _ rfl]
  simp [NeverAbove]

/-- First element of the normal form. -/
theorem elems_head {p : Place} (h : p.WF) (ha : p.abs = false) (t : Str)
    (ht : t = canon p ∨ t = canon p ++ ['/'] ∧ p.segs ≠ []) :
    ∃ e es, elems t = e :: es ∧ (e = dotdot ↔ p.up ≠ 0) := by
  have hn : names t = names (canon p) ∧ isAbs t = false := by
    rcases ht with rfl | ⟨rfl, -⟩
    · exact ⟨rfl, by rw [isAbs_canon h, ha]⟩
    · refine ⟨names_append_slash _, ?_⟩
      have := isAbs_canon h
      rw [ha] at this
      cases hc : canon p with
      | nil => exact absurd hc (canon_ne_nil h)
      | cons c cs => rw [hc] at this; exact this
  unfold elems
  rw [hn.1, hn.2]
  simp only [Bool.false_eq_true, if_false, List.nil_append]
  unfold canon
  rw [ha]
  simp only [Bool.false_eq_true, if_false]
  by_cases hs : p.segs = []
  · rw [if_pos hs, names_dot]
    refine ⟨dot, _, rfl, ?_⟩
    simp only [Place.segs, List.append_eq_nil_iff, List.replicate_eq_nil_iff] at hs
    simp [hs.1]
  · rw [if_neg hs, names_join (segs_seg h)]
    cases hu : p.up with
    | zero =>
      cases hd : p.down with
      | nil => exact absurd (by simp [Place.segs, hu, hd]) hs
      | cons b bs =>
        refine ⟨b, bs ++ _, by simp only [Place.segs, hu, hd]; rfl, ?_⟩
        have := (h.names b (by rw [hd]; simp)).2.2.2
        simp [this]
    | succ u =>
      refine ⟨dotdot, List.replicate u dotdot ++ p.down ++ if hasTrail t then [[]] else [], ?_, ?_⟩
      · simp only [Place.segs, hu, List.replicate_succ]
        rfl
      · simp

theorem nonUpwards_eq (s : Str) (hs : s ≠ []) :
    ∃ b, nonUpwards s = .val b ∧ (b = true ↔ isAbs s = false ∧ (place s).up = 0) := by
  unfold nonUpwards
  by_cases ha : isAbs s = true
  · rw [if_pos ha]
    exact ⟨false, rfl, by simp [ha]⟩
  · rw [if_neg ha]
    rw [Bool.not_eq_true] at ha
    have hw := wf_place s
    have hpa : (place s).abs = false := by
      have : ∀ (l : List Str) (p : Place), (l.foldl Place.follow p).abs = p.abs := by
        intro l
        induction l with
        | nil => intro p; rfl
        | cons a t ih =>
          intro p
          rw [List.foldl_cons, ih]
          unfold Place.follow
          split
          · rfl
          · split
            · split
              · split <;> rfl
              · rfl
            · rfl
      rw [place_eq, this]
      exact ha
    obtain ⟨e, es, h1, h2⟩ := elems_head hw hpa (lexNormal s) (by
      rcases lexNormal_eq s hs with h | ⟨h, h', -⟩
      · exact Or.inl h
      · exact Or.inr ⟨h, h'⟩)
    rw [h1]
    refine ⟨_, rfl, ?_⟩
    simp only [bne_iff_ne, ne_eq, h2, ha, true_and]
    omega

/-! ## Appending -/

theorem names_sep (a b : Str) : names (a ++ '/' :: b) = names a ++ names b := by
  unfold names
  rw [splitAt_append_sep, List.filter_append]

theorem names_append {p q : Str} (hq : isAbs q = false) :
    names (append p q) = names p ++ names q := by
  unfold append
  rw [hq]
  simp only [Bool.false_eq_true, if_false]
  by_cases hp : p = []
  · subst hp
    rfl
  · by_cases hl : p.getLast? = some '/'
    · have hc : (p.isEmpty || p.getLast? == some '/') = true := by simp [hl]
      rw [if_pos hc]
      obtain ⟨l, x, hx⟩ : ∃ l x, p = l ++ [x] :=
        ⟨_, _, (List.dropLast_append_getLast hp).symm⟩
      subst hx
      rw [List.getLast?_concat] at hl
      have hx : x = '/' := Option.some.inj hl
      subst hx
      rw [List.append_assoc, List.singleton_append, names_sep, names_append_slash]
    · have hc : ¬ (p.isEmpty || p.getLast? == some '/') = true := by
        simp [hp, hl]
      rw [if_neg hc, names_sep]

theorem isAbs_append {p q : Str} (hp : isAbs p = false) (hq : isAbs q = false) :
    isAbs (append p q) = false := by
  unfold append
  rw [hq]
  simp only [Bool.false_eq_true, if_false]
  cases p with
  | nil => exact hq
  | cons c cs =>
    split <;> exact hp

theorem isAbs_of_noSlash {a : Str} (h : '/' ∉ a) : isAbs a = false := by
  cases a with
  | nil => rfl
  | cons c cs =>
    simp only [isAbs, beq_eq_false_iff_ne]
    exact fun e => h (e ▸ List.mem_cons_self)

theorem names_noSlash {a : Str} (h : '/' ∉ a) :
    names a = [a].filter (fun x => !x.isEmpty) := by
  unfold names
  rw [splitAt_noSep h]

theorem foldl_append_names (l : List Str) (acc : Str) (ha : isAbs acc = false)
    (hl : ∀ a ∈ l, '/' ∉ a) :
    names (l.foldl append acc) = names acc ++ l.filter (fun x => !x.isEmpty) ∧
      isAbs (l.foldl append acc) = false := by
  induction l generalizing acc with
  | nil => simp [ha]
  | cons a t ih =>
    have h1 := hl a List.mem_cons_self
    have h2 := isAbs_of_noSlash h1
    obtain ⟨h3, h4⟩ := ih (append acc a) (isAbs_append ha h2)
      (fun x hx => hl x (List.mem_cons_of_mem _ hx))
    refine ⟨?_, h4⟩
    rw [List.foldl_cons, h3, names_append h2, names_noSlash h1, List.append_assoc,
      ← List.filter_append]
    rfl

theorem place_rel {s : Str} (h : isAbs s = false) :
    place s = (names s).foldl Place.follow ⟨false, 0, []⟩ := by
  rw [place_eq, h]

/-! ## Relative paths -/

theorem mismatch_spec (l m : List Str) :
    ∃ c, l = c ++ (mismatch l m).1 ∧ m = c ++ (mismatch l m).2 := by
  induction l generalizing m with
  | nil => exact ⟨[], by simp [mismatch], by simp [mismatch]⟩
  | cons a t ih =>
    cases m with
    | nil => exact ⟨[], by simp [mismatch], by simp [mismatch]⟩
    | cons b bs =>
      unfold mismatch
      split
      · rename_i h
        subst h
        obtain ⟨c, h1, h2⟩ := ih bs
        exact ⟨a :: c, by rw [List.cons_append, ← h1], by rw [List.cons_append, ← h2]⟩
      · exact ⟨[], rfl, rfl⟩

/-- Segments without `..` only lead downwards. -/
theorem foldl_down {l : List Str} (h : dotdot ∉ l) (p : Place) :
    ∃ d, d.length = countNames l ∧
      l.foldl Place.follow p = { p with down := p.down ++ d } := by
  induction l generalizing p with
  | nil => exact ⟨[], rfl, by simp⟩
  | cons a t ih =>
    have ha : a ≠ dotdot := fun e => h (e ▸ List.mem_cons_self)
    have ht : dotdot ∉ t := fun e => h (List.mem_cons_of_mem _ e)
    by_cases h1 : a = [] ∨ a = ['.']
    · have hf : p.follow a = p := by unfold Place.follow; rw [if_pos h1]
      obtain ⟨d, hd, e⟩ := ih ht p
      refine ⟨d, ?_, ?_⟩
      · rw [hd]
        unfold countNames
        rw [List.countP_cons_of_neg]
        rcases h1 with rfl | rfl <;> decide
      · rw [List.foldl_cons, hf, e]
    · have hf : p.follow a = { p with down := p.down ++ [a] } := by
        unfold Place.follow
        rw [if_neg h1, if_neg ha]
      obtain ⟨d, hd, e⟩ := ih ht { p with down := p.down ++ [a] }
      refine ⟨a :: d, ?_, ?_⟩
      · rw [List.length_cons, hd]
        unfold countNames
        rw [List.countP_cons_of_pos]
        simp only [not_or] at h1
        simp [h1.1, h1.2, ha]
      · rw [List.foldl_cons, hf, e]
        simp

/-- Going up again. -/
theorem foldl_up (p : Place) (d : List Str) :
    (List.replicate d.length dotdot).foldl Place.follow { p with down := p.down ++ d } = p := by
  induction d using List.reverseRecOn with
  | nil => simp
  | append_singleton d x ih =>
    rw [List.length_append, List.length_singleton, List.replicate_succ, List.foldl_cons]
    have : Place.follow { p with down := p.down ++ (d ++ [x]) } dotdot =
        { p with down := p.down ++ d } := by
      unfold Place.follow
      rw [if_neg (by decide), if_pos rfl]
      simp only
      cases h : p.down ++ (d ++ [x]) with
      | nil => simp at h
      | cons b bs =>
        simp only
        rw [← h, ← List.append_assoc, List.dropLast_concat]
    rw [this, ih]

theorem elems_rel {s : Str} (h : isAbs s = false) :
    elems s = names s ++ if hasTrail s then [[]] else [] := by
  unfold elems
  rw [h]
  rfl

theorem mem_elems_rel {s a : Str} (h : isAbs s = false) (ha : a ∈ elems s) : '/' ∉ a := by
  rw [elems_rel h] at ha
  rcases List.mem_append.1 ha with h1 | h1
  · exact (mem_names h1).1
  · split at h1
    · rw [List.mem_singleton.1 h1]; simp
    · cases h1

theorem foldl_elems {s : Str} (h : isAbs s = false) (p : Place) :
    (elems s).foldl Place.follow p = (names s).foldl Place.follow p := by
  rw [elems_rel h, List.foldl_append]
  split
  · simp [Place.follow]
  · rfl

theorem place_lexRelative {s base : Str} (hs : isAbs s = false) (hb : isAbs base = false)
    (hd : dotdot ∉ splitAt '/' base) :
    isAbs (lexRelative s base) = false ∧ place (append base (lexRelative s base)) = place s := by
  have hd' : dotdot ∉ elems base := by
    rw [elems_rel hb]
    intro h
    rcases List.mem_append.1 h with h1 | h1
    · exact hd (List.mem_of_mem_filter h1)
    · split at h1
      · exact absurd (List.mem_singleton.1 h1) (by decide)
      · cases h1
  have key : ∀ r, isAbs r = false →
      (names r).foldl Place.follow ((elems base).foldl Place.follow ⟨false, 0, []⟩) =
        (elems s).foldl Place.follow ⟨false, 0, []⟩ →
      place (append base r) = place s := by
    intro r hr h
    rw [place_rel (isAbs_append hb hr), names_append hr, List.foldl_append, place_rel hs,
      ← foldl_elems hb, h, foldl_elems hs]
  obtain ⟨c, h1, h2⟩ := mismatch_spec (elems s) (elems base)
  unfold lexRelative
  rw [hs, hb]
  simp only [ne_eq, not_true_eq_false, if_false]
  generalize (mismatch (elems s) (elems base)).1 = a at h1
  generalize (mismatch (elems s) (elems base)).2 = b at h2
  have hdb : dotdot ∉ b := fun h => hd' (by rw [h2]; exact List.mem_append_right _ h)
  have hneg : b.countP (fun x => x == dotdot) = 0 := by
    rw [List.countP_eq_zero]
    intro x hx
    have : x ≠ dotdot := fun e => hdb (e ▸ hx)
    simpa using this
  obtain ⟨d, hdl, he⟩ := foldl_down hdb (c.foldl Place.follow ⟨false, 0, []⟩)
  have hda : isAbs dot = false := by decide
  have hdot : ∀ p : Place, (names dot).foldl Place.follow p = p := by
    intro p
    rw [names_dot]
    simp [Place.follow]
  split
  · rename_i hab
    obtain ⟨rfl, rfl⟩ := hab
    refine ⟨hda, key dot hda ?_⟩
    rw [hdot, h1, h2]
  · rw [hneg, if_neg (by omega)]
    split
    · rename_i hab
      refine ⟨hda, key dot hda ?_⟩
      rw [hdot, h2, h1, List.foldl_append, List.foldl_append, he]
      have hd0 : d = [] := List.length_eq_zero_iff.1 (hdl.trans hab.1)
      subst hd0
      rcases hab.2 with rfl | h0
      · simp
      · -- the remaining element is the one behind the trailing slash
        have ha1 : a = [[]] := by
          cases a with
          | nil => cases h0
          | cons x t =>
            have hx : x = [] := Option.some.inj h0
            subst hx
            have hel := elems_rel hs
            rw [h1] at hel
            cases t with
            | nil => rfl
            | cons y t =>
              exfalso
              -- an empty element can only be the last one
              have hlast : (c ++ [] :: y :: t).dropLast = c ++ [] :: (y :: t).dropLast := by
                rw [List.dropLast_append_of_ne_nil (by simp)]
                rfl
              have hmem : ([] : Str) ∈ (c ++ [] :: y :: t).dropLast := by
                rw [hlast]; simp
              rw [hel] at hmem
              split at hmem
              · rw [List.dropLast_concat] at hmem
                exact (mem_names hmem).2 rfl
              · rw [List.append_nil] at hmem
                exact (mem_names (List.dropLast_subset _ hmem)).2 rfl
        subst ha1
        simp [Place.follow]
    · have hsl : ∀ x ∈ List.replicate (countNames b - 0) dotdot ++ a, '/' ∉ x := by
        intro x hx
        rcases List.mem_append.1 hx with h | h
        · rw [List.eq_of_mem_replicate h]; decide
        · exact mem_elems_rel hs (by rw [h1]; exact List.mem_append_right _ h)
      obtain ⟨h3, h4⟩ := foldl_append_names _ [] rfl hsl
      refine ⟨h4, key _ h4 ?_⟩
      rw [h3, List.foldl_append, show names [] = [] from rfl, List.foldl_nil, foldl_follow_filter,
        List.foldl_append, Nat.sub_zero, ← hdl]
      rw [h2, List.foldl_append, he, foldl_up, h1, List.foldl_append]

/-- The directory of a path consisting of names. -/
theorem parentPath_join {dir : List Str} {name : Str} (hd : ∀ a ∈ dir ++ [name], ProperName a) :
    parentPath (joinWith '/' (dir ++ [name])) = joinWith '/' dir := by
  have hseg : ∀ a ∈ dir ++ [name], Seg a := fun a h => (hd a h).seg
  have hn := hd name (by simp)
  obtain ⟨l, x, hx⟩ : ∃ l x, name = l ++ [x] :=
    ⟨_, _, (List.dropLast_append_getLast hn.2.1).symm⟩
  have hxs : x ≠ '/' := fun e => hn.1 (by rw [hx, e]; simp)
  have hrest : ∀ tl : Str, (name.reverse ++ tl).dropWhile (fun c => c != '/') =
      tl.dropWhile (fun c => c != '/') := by
    intro tl
    rw [List.dropWhile_append_of_pos]
    intro c hc
    have : c ≠ '/' := fun e => hn.1 (by rw [← e]; exact List.mem_reverse.1 hc)
    simpa using this
  unfold parentPath
  rw [names_join hseg]
  have h1 : ¬ (dir ++ [name]).isEmpty = true := by simp
  rw [if_neg h1]
  by_cases hdn : dir = []
  · subst hdn
    have hj : joinWith '/' ([] ++ [name]) = name := by simp [joinWith]
    rw [hj]
    have hl : ¬ (name.getLast? == some '/') = true := by
      rw [hx, List.getLast?_concat]
      simpa using hxs
    rw [if_neg hl]
    have := hrest []
    rw [List.append_nil] at this
    simp [this, joinWith]
  · have hj : joinWith '/' (dir ++ [name]) = joinWith '/' dir ++ '/' :: name := by
      rw [joinWith_append _ hdn (by simp)]
      simp [joinWith]
    rw [hj]
    have hl : ¬ ((joinWith '/' dir ++ '/' :: name).getLast? == some '/') = true := by
      rw [hx, ← List.cons_append, ← List.append_assoc, List.getLast?_concat]
      simpa using hxs
    rw [if_neg hl]
    have hrev : (joinWith '/' dir ++ '/' :: name).reverse =
        name.reverse ++ '/' :: (joinWith '/' dir).reverse := by simp
    rw [hrev, hrest, List.dropWhile_cons_of_neg (by simp)]
    have hseg' : ∀ a ∈ dir, Seg a := fun a h => hseg a (List.mem_append_left _ h)
    obtain ⟨c, hc, hgl⟩ := joinWith_getLast hdn hseg'
    have hjn := joinWith_ne_nil hdn hseg'
    obtain ⟨l', y, hy⟩ : ∃ l y, joinWith '/' dir = l ++ [y] :=
      ⟨_, _, (List.dropLast_append_getLast hjn).symm⟩
    rw [hy, List.getLast?_concat] at hgl
    have hyc : y ≠ '/' := by
      rw [Option.some.inj hgl]; exact hc
    rw [hy]
    simp [hyc]

/-- With a trailing separator in the input there is one in the result, if possible. -/
theorem lexNormal_trail {s : Str} (ht : hasTrail s = true) (hn : (place s).segs ≠ [])
    (hl : (place s).segs.getLast? ≠ some dotdot) : lexNormal s = canon (place s) ++ ['/'] := by
  have hs : s ≠ [] := by
    rintro rfl
    cases ht
  unfold lexNormal
  rw [if_neg hs]
  have h := rel_lexNormal s
  rw [if_pos ht, List.foldl_append, List.foldl_cons, List.foldl_nil] at h ⊢
  generalize (names s).foldl Norm.step ⟨isAbs s, [], false⟩ = r at h ⊢
  have hstep : r.step [] = { r with trail := !r.rev.isEmpty } := by
    unfold Norm.step
    rw [if_neg (by decide), if_pos (Or.inr rfl)]
  rw [hstep] at h ⊢
  obtain ⟨hw, h1, h2, h3⟩ := h
  simp only at h1 h2
  unfold Norm.finish
  simp only
  rw [h2, ← List.getLast?_eq_head?_reverse, if_neg hl]
  have e : (!(place s).segs.reverse.isEmpty) = true := by simpa using hn
  rw [e]
  unfold Norm.str
  simp only [h1, List.reverse_reverse, if_true]
  rw [if_neg (by simp)]
  unfold canon
  by_cases ha : (place s).abs = true
  · simp [ha]
  · simp [ha, hn]

theorem elems_root : elems ['/'] = [['/']] := by decide

theorem foldl_append_join (l : List Str) (hl : ∀ a ∈ l, Seg a) (hn : l ≠ []) :
    l.foldl append [] = joinWith '/' l := by
  induction l using List.reverseRecOn with
  | nil => exact absurd rfl hn
  | append_singleton l x ih =>
    have hx := hl x (by simp)
    have hxa : isAbs x = false := isAbs_of_noSlash hx.1
    rw [List.foldl_append, List.foldl_cons, List.foldl_nil]
    by_cases h0 : l = []
    · subst h0
      simp [append, hxa, joinWith]
    · have hl' : ∀ a ∈ l, Seg a := fun a h => hl a (List.mem_append_left _ h)
      rw [ih hl' h0, joinWith_append _ h0 (by simp)]
      obtain ⟨c, hc, hg⟩ := joinWith_getLast h0 hl'
      have hne := joinWith_ne_nil h0 hl'
      unfold append
      rw [hxa]
      simp [hne, hg, hc, joinWith]

/-- Names relative to the root directory. -/
theorem lexRelative_root (l : List Str) (hl : ∀ a ∈ l, ProperName a) (hn : l ≠ []) :
    lexRelative ('/' :: joinWith '/' l ++ ['/']) ['/'] = joinWith '/' l ++ ['/'] := by
  have hseg : ∀ a ∈ l, Seg a := fun a h => (hl a h).seg
  have hnames : names ('/' :: joinWith '/' l ++ ['/']) = l := by
    rw [names_append_slash, names_cons_slash, names_join hseg]
  have htr : hasTrail ('/' :: joinWith '/' l ++ ['/']) = true := by
    unfold hasTrail
    rw [hnames, List.getLast?_concat]
    simp [hn]
  have hel : elems ('/' :: joinWith '/' l ++ ['/']) = ['/'] :: (l ++ [[]]) := by
    unfold elems
    rw [hnames, htr]
    simp [isAbs]
  unfold lexRelative
  rw [hel, elems_root]
  have hm : mismatch (['/'] :: (l ++ [[]])) [['/']] = (l ++ [[]], []) := by
    unfold mismatch
    rw [if_pos rfl]
    unfold mismatch
    cases l <;> rfl
  rw [hm]
  have ha : isAbs ('/' :: joinWith '/' l ++ ['/']) = isAbs ['/'] := rfl
  rw [if_neg (by rw [ha]; simp)]
  simp only
  rw [if_neg (by simp), if_neg (by simp [countNames])]
  have hh : ¬ (countNames [] = List.countP (fun x => x == dotdot) [] ∧
      (l ++ [[]] = [] ∨ (l ++ [[]]).head? = some [])) := by
    rintro ⟨-, h | h⟩
    · simp at h
    · cases l with
      | nil => exact hn rfl
      | cons a t =>
        simp at h
        exact (hl a List.mem_cons_self).2.1 h
  rw [if_neg hh]
  have hz : List.replicate (countNames [] - List.countP (fun x => x == dotdot) []) dotdot = [] := rfl
  rw [hz, List.nil_append, List.foldl_append, foldl_append_join l hseg hn]
  obtain ⟨c, hc, hg⟩ := joinWith_getLast hn hseg
  have hne := joinWith_ne_nil hn hseg
  simp [append, isAbs, hne, hg, hc]

theorem parentPath_trail (l : List Str) (hl : ∀ a ∈ l, Seg a) (hn : l ≠ []) :
    parentPath (joinWith '/' l ++ ['/']) = joinWith '/' l := by
  unfold parentPath
  rw [names_append_slash, names_join hl]
  obtain ⟨c, hc, hg⟩ := joinWith_getLast hn hl
  have hne := joinWith_ne_nil hn hl
  obtain ⟨l', y, hy⟩ : ∃ u y, joinWith '/' l = u ++ [y] :=
    ⟨_, _, (List.dropLast_append_getLast hne).symm⟩
  rw [hy, List.getLast?_concat] at hg
  have hyc : y ≠ '/' := by
    rw [Option.some.inj hg]; exact hc
  rw [hy]
  simp [hn, hyc]

end Verif.Path
