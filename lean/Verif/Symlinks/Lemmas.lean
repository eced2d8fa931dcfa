import Verif.Symlinks.Model
import Verif.Path.Lemmas

/-!
# Resolving symbolic links: lemmas
-/

namespace Verif.Symlinks

open Verif.Path

/-! ## Paths -/

/-- Only good names. -/
def Good (l : List Str) : Prop := ∀ a ∈ l, GoodName a

theorem Good.snoc {l : List Str} {x : Str} (h : Good l) (hx : GoodName x) : Good (l ++ [x]) := by
  intro a ha
  rcases List.mem_append.1 ha with ha | ha
  · exact h a ha
  · simp only [List.mem_singleton] at ha
    exact ha ▸ hx

theorem Good.left {l m : List Str} (h : Good (l ++ m)) : Good l := fun a ha => h a (List.mem_append_left _ ha)

theorem Good.right {l m : List Str} (h : Good (l ++ m)) : Good m := fun a ha => h a (List.mem_append_right _ ha)

theorem Good.append {l m : List Str} (h : Good l) (h' : Good m) : Good (l ++ m) := by
  intro a ha
  rcases List.mem_append.1 ha with ha | ha
  · exact h a ha
  · exact h' a ha

theorem Good.seg {l : List Str} (h : Good l) : ∀ a ∈ l, Seg a := fun a ha => ProperName.seg (h a ha)

/-- The path as a string. -/
def render (l : List Str) : Str := canon ⟨false, 0, l⟩

theorem wf_good {l : List Str} (h : Good l) : (⟨false, 0, l⟩ : Place).WF := ⟨h, by simp⟩

theorem render_nil : render [] = dot := rfl

theorem render_ne {l : List Str} (h : l ≠ []) : render l = joinWith '/' l := by
  simp [render, canon, Place.segs, h]

theorem render_inj {l l' : List Str} (h : Good l) (h' : Good l') (e : render l = render l') : l = l' := by
  have := congrArg place e
  unfold render at this
  rw [place_canon (wf_good h), place_canon (wf_good h')] at this
  exact (Place.mk.inj this).2.2

theorem isAbs_render {l : List Str} (h : Good l) : isAbs (render l) = false := isAbs_canon (wf_good h)

theorem place_render {l : List Str} (h : Good l) : (names (render l)).foldl Place.follow ⟨false, 0, []⟩ = ⟨false, 0, l⟩ := by
  have : place (render l) = _ := place_canon (wf_good h)
  rwa [place_rel (isAbs_render h)] at this

theorem follow_good {p : Place} {x : Str} (hx : GoodName x) : p.follow x = { p with down := p.down ++ [x] } := by
  unfold Place.follow
  rw [if_neg (by rintro (h | h); exacts [hx.2.1 h, hx.2.2.1 h]), if_neg hx.2.2.2]

theorem childPath_render {l : List Str} {x : Str} (h : Good l) (hx : GoodName x) :
    childPath (render l) x = render (l ++ [x]) := by
  unfold childPath
  rw [toNormalPath_eq]
  have ha : isAbs x = false := isAbs_of_noSlash hx.1
  rw [place_rel (isAbs_append (isAbs_render h) ha), names_append ha, List.foldl_append, place_render h,
    names_noSlash hx.1]
  have : [x].filter (fun a => !a.isEmpty) = [x] := by
    cases x with
    | nil => exact absurd rfl hx.2.1
    | cons => rfl
  rw [this, List.foldl_cons, List.foldl_nil, follow_good hx]
  rfl

theorem filename_noSlash {x : Str} (hx : '/' ∉ x) : filename x = x := by
  unfold filename
  have h := List.takeWhile_append_of_pos (p := fun c => c != '/') (l₁ := x.reverse) (l₂ := []) (by
    intro c hc
    simp only [bne_iff_ne]
    rintro rfl
    exact hx (List.mem_reverse.1 hc))
  simp only [List.append_nil, List.takeWhile_nil] at h
  rw [h, List.reverse_reverse]

theorem filename_sep {x : Str} (a : Str) (hx : '/' ∉ x) : filename (a ++ '/' :: x) = x := by
  unfold filename
  rw [List.reverse_append, List.reverse_cons, List.append_assoc, List.takeWhile_append_of_pos]
  · simp
  · intro c hc
    simp only [bne_iff_ne]
    rintro rfl
    exact hx (List.mem_reverse.1 hc)

theorem join_snoc {l : List Str} {x : Str} (h : l ≠ []) : joinWith '/' (l ++ [x]) = joinWith '/' l ++ '/' :: x := by
  induction l with
  | nil => exact absurd rfl h
  | cons a t ih =>
    cases t with
    | nil => simp [joinWith]
    | cons b t =>
      have := ih (by simp)
      simp only [List.cons_append] at this ⊢
      simp only [joinWith, this, List.append_assoc, List.cons_append]

theorem filename_render {l : List Str} {x : Str} (hx : GoodName x) : filename (render (l ++ [x])) = x := by
  rw [render_ne (by simp)]
  by_cases hl : l = []
  · subst hl
    exact filename_noSlash hx.1
  · rw [join_snoc hl]
    exact filename_sep _ hx.1

theorem parentPath_render {l : List Str} {x : Str} (h : Good (l ++ [x])) : parentPath (render (l ++ [x])) = joinWith '/' l := by
  rw [render_ne (by simp)]
  exact parentPath_join h

theorem normal_join {l : List Str} (h : Good l) : toNormalPath (joinWith '/' l) = render l := by
  by_cases hl : l = []
  · subst hl
    decide
  · rw [← render_ne hl, toNormalPath_eq]
    unfold render
    rw [place_canon (wf_good h)]

theorem splitAt_join {l : List Str} (hl : l ≠ []) (h : Good l) : splitAt '/' (joinWith '/' l) = l := by
  induction l with
  | nil => exact absurd rfl hl
  | cons a t ih =>
    cases t with
    | nil => exact splitAt_noSep (h a (by simp)).1
    | cons b t =>
      simp only [joinWith]
      rw [splitAt_append_noSep (h a (by simp)).1]
      rw [ih (by simp) (fun x hx => h x (List.mem_cons_of_mem _ hx))]

theorem getObject_render {root : Node} {l : List Str} (h : Good l) : getObject root (render l) = root.find l := by
  unfold getObject
  by_cases hl : l = []
  · subst hl
    simp [render_nil, Node.find]
  · rw [if_neg, render_ne hl, splitAt_join hl h]
    intro e
    rw [← render_nil] at e
    exact hl (render_inj h (by simp [Good]) e)

/-- Where the content of a link leads, as a path. -/
def spot (dir : List Str) (c : Str) : Place := (names c).foldl Place.follow ⟨false, 0, dir⟩

theorem place_target {dir : List Str} {c : Str} (hd : Good dir) (hc : isAbs c = false) :
    place (append (joinWith '/' dir) c) = spot dir c := by
  have hj : isAbs (joinWith '/' dir) = false := isAbs_join hd.seg
  rw [place_rel (isAbs_append hj hc), names_append hc, List.foldl_append, names_join hd.seg, foldl_proper hd]
  rfl

theorem confined_render {dir : List Str} {x c : Str} (h : Good (dir ++ [x])) (hc : confined c (render (dir ++ [x])) = .val true) :
    isAbs c = false ∧ (spot dir c).up = 0 := by
  unfold confined at hc
  rw [parentPath_render h] at hc
  by_cases ha : isAbs c = true
  · rw [if_pos ha] at hc
    simp at hc
  · simp only [Bool.not_eq_true] at ha
    rw [if_neg (by simp [ha])] at hc
    refine ⟨ha, ?_⟩
    by_cases hn : append (joinWith '/' dir) c = []
    · rw [hn] at hc
      exact absurd hc (by decide)
    · obtain ⟨b, h1, h2⟩ := nonUpwards_eq _ hn
      rw [hc] at h1
      cases h1
      rw [← place_target h.left ha]
      exact (h2.1 rfl).2

theorem confined_dot {c : Str} (hc : confined c dot = .val true) : isAbs c = false ∧ (spot [] c).up = 0 := by
  unfold confined at hc
  have : parentPath dot = [] := by decide
  rw [this] at hc
  by_cases ha : isAbs c = true
  · rw [if_pos ha] at hc
    simp at hc
  · simp only [Bool.not_eq_true] at ha
    rw [if_neg (by simp [ha])] at hc
    refine ⟨ha, ?_⟩
    by_cases hn : append [] c = []
    · rw [hn] at hc
      exact absurd hc (by decide)
    · obtain ⟨b, h1, h2⟩ := nonUpwards_eq _ hn
      rw [hc] at h1
      cases h1
      rw [← place_target (dir := []) (by simp [Good]) ha]
      exact (h2.1 rfl).2

theorem spot_wf {dir : List Str} {c : Str} (hd : Good dir) : (spot dir c).WF := by
  unfold spot
  exact wf_foldl (wf_good hd) fun a ha => (mem_names ha).1

theorem spot_abs {dir : List Str} {c : Str} : (spot dir c).abs = false := by
  unfold spot
  generalize names c = l
  suffices h : ∀ p : Place, p.abs = false → (l.foldl Place.follow p).abs = false from h _ rfl
  induction l with
  | nil => intro p h; exact h
  | cons a t ih =>
    intro p h
    rw [List.foldl_cons]
    refine ih _ ?_
    unfold Place.follow
    split
    · exact h
    · split
      · split
        · rw [if_neg (by simp [h])]
          exact h
        · exact h
      · exact h

theorem spot_eq {dir : List Str} {c : Str} (h : (spot dir c).up = 0) : spot dir c = ⟨false, 0, (spot dir c).down⟩ := by
  have := spot_abs (dir := dir) (c := c)
  generalize spot dir c = p at *
  obtain ⟨a, b, d⟩ := p
  simp_all

theorem spot_good {dir : List Str} {c : Str} (hd : Good dir) : Good (spot dir c).down := (spot_wf hd).names

theorem targetPath_render {dir : List Str} {x c : Str} (h : Good (dir ++ [x]))
    (hc : confined c (render (dir ++ [x])) = .val true) : targetPath (render (dir ++ [x])) c = render (spot dir c).down := by
  obtain ⟨ha, hu⟩ := confined_render h hc
  unfold targetPath
  rw [parentPath_render h, toNormalPath_eq, place_target h.left ha, spot_eq hu]
  rfl

theorem eq_nil_or_snoc {X : Type} (l : List X) : l = [] ∨ ∃ d x, l = d ++ [x] := by
  cases l using List.reverseRecOn with
  | nil => exact Or.inl rfl
  | append_singleton d x => exact Or.inr ⟨d, x, rfl⟩

/-- All paths asked for lie within the tree. -/
theorem requested_render {p : Str} (h : Requested p) : ∃ l, Good l ∧ p = render l := by
  induction h with
  | top => exact ⟨[], by simp [Good], rfl⟩
  | child h hx ih =>
    obtain ⟨l, hl, rfl⟩ := ih
    exact ⟨_, hl.snoc hx, childPath_render hl hx⟩
  | @target p c h hc ih =>
    obtain ⟨l, hl, rfl⟩ := ih
    rcases eq_nil_or_snoc l with rfl | ⟨d, x, rfl⟩
    · obtain ⟨ha, hu⟩ := confined_dot hc
      refine ⟨(spot [] c).down, spot_good (by simp [Good]), ?_⟩
      unfold targetPath
      have : parentPath (render []) = joinWith '/' [] := by decide
      rw [this, toNormalPath_eq, place_target (by simp [Good]) ha, spot_eq hu]
      rfl
    · exact ⟨_, spot_good hl.left, targetPath_render hl hc⟩
  | parent h ih =>
    obtain ⟨l, hl, rfl⟩ := ih
    rcases eq_nil_or_snoc l with rfl | ⟨d, x, rfl⟩
    · exact ⟨[], by simp [Good], by decide⟩
    · exact ⟨d, hl.left, by rw [parentPath_render hl, normal_join hl.left]⟩

/-! ## Nodes -/

theorem find_append {n : Node} {l l' : List Str} : n.find (l ++ l') = (n.find l).bind fun m => m.find l' := by
  induction l generalizing n with
  | nil => rfl
  | cons x l ih =>
    simp only [List.cons_append, Node.find]
    cases n.entry x with
    | none => rfl
    | some m => exact ih

theorem find_snoc {n : Node} {l : List Str} {x : Str} : n.find (l ++ [x]) = (n.find l).bind fun m => m.entry x := by
  rw [find_append]
  cases n.find l with
  | none => rfl
  | some m =>
    simp only [Option.bind_some, Node.find]
    cases m.entry x <;> rfl

theorem entry_some {n m : Node} {x : Str} (h : n.entry x = some m) : ∃ es, n = .tree es ∧ entryIn es x = some m := by
  cases n with
  | tree es => exact ⟨es, rfl, h⟩
  | file => simp [Node.entry] at h
  | link => simp [Node.entry] at h

theorem entryIn_mem {es : List (Str × Node)} {x : Str} {n : Node} (h : entryIn es x = some n) : (x, n) ∈ es := by
  induction es with
  | nil => simp [entryIn] at h
  | cons e es ih =>
    obtain ⟨y, m⟩ := e
    simp only [entryIn] at h
    split at h
    · rename_i hy
      subst hy
      cases h
      simp
    · exact List.mem_cons_of_mem _ (ih h)

theorem mem_entryIn {es : List (Str × Node)} (hd : (es.map Prod.fst).Nodup) {e : Str × Node} (h : e ∈ es) :
    entryIn es e.1 = some e.2 := by
  induction es with
  | nil => cases h
  | cons a es ih =>
    simp only [List.map_cons, List.nodup_cons] at hd
    obtain ⟨y, m⟩ := a
    rcases List.mem_cons.1 h with rfl | h
    · simp [entryIn]
    · simp only [entryIn]
      rw [if_neg, ih hd.2 h]
      intro hy
      exact hd.1 (List.mem_map.2 ⟨e, h, hy.symm⟩)

theorem entryIn_isSome {es : List (Str × Node)} {x : Str} : (entryIn es x).isSome ↔ x ∈ es.map Prod.fst := by
  induction es with
  | nil => simp [entryIn]
  | cons e es ih =>
    obtain ⟨y, m⟩ := e
    simp only [entryIn, List.map_cons, List.mem_cons]
    split
    · rename_i hy
      simp [hy]
    · rename_i hy
      rw [ih]
      simp [Ne.symm hy]

theorem proper_find {n m : Node} {l : List Str} (h : Proper n) (hf : n.find l = some m) : Proper m := by
  induction l generalizing n with
  | nil => cases hf; exact h
  | cons x l ih =>
    simp only [Node.find] at hf
    cases hx : n.entry x with
    | none => rw [hx] at hf; cases hf
    | some k =>
      rw [hx] at hf
      obtain ⟨es, rfl, he⟩ := entry_some hx
      cases h with
      | tree _ _ h3 => exact ih (h3 _ (entryIn_mem he)) hf

theorem find_good {n m : Node} {l : List Str} (h : Proper n) (hf : n.find l = some m) : Good l := by
  induction l generalizing n with
  | nil => simp [Good]
  | cons x l ih =>
    simp only [Node.find] at hf
    cases hx : n.entry x with
    | none => rw [hx] at hf; cases hf
    | some k =>
      rw [hx] at hf
      obtain ⟨es, rfl, he⟩ := entry_some hx
      cases h with
      | tree h1 _ h3 =>
        intro a ha
        rcases List.mem_cons.1 ha with rfl | ha
        · exact h1 _ (entryIn_mem he)
        · exact ih (h3 _ (entryIn_mem he)) hf a ha

theorem find_link {n : Node} {l : List Str} {c : Str} (hf : n.find l = some (.link c)) : HasLink n c := by
  induction l generalizing n with
  | nil => cases hf; exact .here c
  | cons x l ih =>
    simp only [Node.find] at hf
    cases hx : n.entry x with
    | none => rw [hx] at hf; cases hf
    | some k =>
      rw [hx] at hf
      obtain ⟨es, rfl, he⟩ := entry_some hx
      exact .there (entryIn_mem he) (ih hf)

theorem find_init {root n : Node} {l : List Str} {x : Str} (h : root.find (l ++ [x]) = some n) :
    ∃ es, root.find l = some (.tree es) ∧ entryIn es x = some n := by
  rw [find_snoc] at h
  cases hl : root.find l with
  | none => rw [hl] at h; cases h
  | some m =>
    rw [hl] at h
    obtain ⟨es, rfl, he⟩ := entry_some h
    exact ⟨es, rfl, he⟩

/-! ## Where paths lead -/

variable {root : Node}

theorem Leads.comp {cur l mid rest out : List Str} (h : Leads root cur l mid) (h' : Leads root mid rest out) :
    Leads root cur (l ++ rest) out := by
  induction h with
  | done => exact h'
  | skip hx _ ih => exact .skip hx (ih h')
  | up hd _ ih => exact .up hd (ih h')
  | down hx hn hl _ ih => exact .down hx hn hl (ih h')
  | follow hx hn hr _ ih =>
    refine .follow hx hn hr ?_
    have := ih h'
    rwa [List.append_assoc] at this

theorem Leads.split {cur l rest out : List Str} (h : Leads root cur (l ++ rest) out) :
    ∃ mid, Leads root cur l mid ∧ Leads root mid rest out := by
  generalize hq : l ++ rest = q at h
  induction h generalizing l with
  | done =>
    obtain ⟨rfl, rfl⟩ := List.append_eq_nil_iff.1 hq
    exact ⟨_, .done _, .done _⟩
  | skip hx h ih =>
    cases l with
    | nil =>
      rw [List.nil_append] at hq
      subst hq
      exact ⟨_, .done _, .skip hx h⟩
    | cons a t =>
      simp only [List.cons_append, List.cons.injEq] at hq
      obtain ⟨rfl, hq⟩ := hq
      obtain ⟨mid, h1, h2⟩ := ih hq
      exact ⟨mid, .skip hx h1, h2⟩
  | up hd h ih =>
    cases l with
    | nil =>
      rw [List.nil_append] at hq
      subst hq
      exact ⟨_, .done _, .up hd h⟩
    | cons a t =>
      simp only [List.cons_append, List.cons.injEq] at hq
      obtain ⟨rfl, hq⟩ := hq
      obtain ⟨mid, h1, h2⟩ := ih hq
      exact ⟨mid, .up hd h1, h2⟩
  | down hx hn hl h ih =>
    cases l with
    | nil =>
      rw [List.nil_append] at hq
      subst hq
      exact ⟨_, .done _, .down hx hn hl h⟩
    | cons a t =>
      simp only [List.cons_append, List.cons.injEq] at hq
      obtain ⟨rfl, hq⟩ := hq
      obtain ⟨mid, h1, h2⟩ := ih hq
      exact ⟨mid, .down hx hn hl h1, h2⟩
  | @follow cur rest' out x c hx hn hr h ih =>
    cases l with
    | nil =>
      rw [List.nil_append] at hq
      subst hq
      exact ⟨_, .done _, .follow hx hn hr h⟩
    | cons a t =>
      simp only [List.cons_append, List.cons.injEq] at hq
      obtain ⟨rfl, hq⟩ := hq
      obtain ⟨mid, h1, h2⟩ := ih (l := splitAt '/' c ++ t) (by rw [List.append_assoc, hq])
      exact ⟨mid, .follow hx hn hr h1, h2⟩

theorem good_ne {x : Str} (hx : GoodName x) : ¬ (x = [] ∨ x = ['.']) := by
  rintro (h | h)
  · exact hx.2.1 h
  · exact hx.2.2.1 h

/-- A path leads to one place only. -/
theorem Leads.det {cur l out out' : List Str} (h : Leads root cur l out) (h' : Leads root cur l out') : out = out' := by
  induction h with
  | done => cases h'; rfl
  | @skip cur rest out x hx h ih =>
    generalize hc : cur = cur' at h'
    cases h' with
    | skip _ h' => exact ih (hc ▸ h')
    | up => simp at hx
    | down hx' => exact absurd hx (good_ne hx')
    | follow hx' => exact absurd hx (good_ne hx')
  | @up cur rest out y es hd h ih =>
    generalize hc : cur ++ [y] = cur' at h'
    generalize hq : (['.', '.'] : Str) :: rest = q at h'
    cases h' with
    | done => cases hq
    | skip hx h' =>
      simp only [List.cons.injEq] at hq
      rw [← hq.1] at hx
      simp at hx
    | up _ h' =>
      simp only [List.cons.injEq, true_and] at hq
      obtain ⟨rfl, _⟩ := List.append_inj' hc rfl
      exact ih (hq ▸ h')
    | down hx' =>
      simp only [List.cons.injEq] at hq
      exact absurd hq.1.symm hx'.2.2.2
    | follow hx' =>
      simp only [List.cons.injEq] at hq
      exact absurd hq.1.symm hx'.2.2.2
  | @down cur rest out x n hx hn hl h ih =>
    generalize hc : cur = cur' at h'
    generalize hq : x :: rest = q at h'
    cases h' with
    | done => cases hq
    | skip hx' h' =>
      simp only [List.cons.injEq] at hq
      exact absurd (hq.1 ▸ hx') (good_ne hx)
    | up _ h' =>
      simp only [List.cons.injEq] at hq
      exact absurd hq.1 hx.2.2.2
    | down _ _ _ h' =>
      simp only [List.cons.injEq] at hq
      obtain ⟨rfl, rfl⟩ := hq
      exact ih (hc ▸ h')
    | follow _ hn' =>
      simp only [List.cons.injEq] at hq
      obtain ⟨rfl, rfl⟩ := hq
      subst hc
      rw [hn] at hn'
      cases hn'
      cases hl
  | @follow cur rest out x c hx hn hr h ih =>
    generalize hc : cur = cur' at h'
    generalize hq : x :: rest = q at h'
    cases h' with
    | done => cases hq
    | skip hx' h' =>
      simp only [List.cons.injEq] at hq
      exact absurd (hq.1 ▸ hx') (good_ne hx)
    | up _ h' =>
      simp only [List.cons.injEq] at hq
      exact absurd hq.1 hx.2.2.2
    | down _ hn' hl' =>
      simp only [List.cons.injEq] at hq
      obtain ⟨rfl, rfl⟩ := hq
      subst hc
      rw [hn] at hn'
      cases hn'
      cases hl'
    | follow _ hn' _ h' =>
      simp only [List.cons.injEq] at hq
      obtain ⟨rfl, rfl⟩ := hq
      subst hc
      rw [hn] at hn'
      cases hn'
      exact ih h'

/-- A path without links leads to itself. -/
theorem leads_self (hp : Proper root) {l : List Str} {n : Node} (h : root.find l = some n) (hl : n.isLink = false) :
    Leads root [] l l := by
  induction l using List.reverseRecOn generalizing n with
  | nil => exact .done _
  | append_singleton l x ih =>
    obtain ⟨es, h1, _⟩ := find_init h
    refine (ih h1 rfl).comp (.down ?_ h hl (.done _))
    exact find_good hp h x (by simp)

/-- What is reached is no link. -/
theorem leads_find {cur l out : List Str} (h : Leads root cur l out)
    (hc : ∃ n, root.find cur = some n ∧ n.isLink = false) : ∃ n, root.find out = some n ∧ n.isLink = false := by
  induction h with
  | done => exact hc
  | skip _ _ ih => exact ih hc
  | up hd _ ih =>
    obtain ⟨es, h1, _⟩ := find_init hd
    exact ih ⟨_, h1, rfl⟩
  | down _ hn hl _ ih => exact ih ⟨_, hn, hl⟩
  | follow _ _ _ _ ih => exact ih hc

/-! ## Tame links -/

theorem leads_steps {cur l rest out : List Str}
    (h : Leads root cur (l.filter (fun a => !(a.isEmpty || a == ['.'])) ++ rest) out) : Leads root cur (l ++ rest) out := by
  induction l generalizing cur with
  | nil => exact h
  | cons a t ih =>
    by_cases ha : (!(a.isEmpty || a == ['.'])) = true
    · rw [List.filter_cons_of_pos (p := fun a : Str => !(a.isEmpty || a == ['.'])) ha] at h
      obtain ⟨mid, h1, h2⟩ := Leads.split (l := [a]) h
      exact Leads.comp (l := [a]) h1 (ih h2)
    · rw [List.filter_cons_of_neg (p := fun a : Str => !(a.isEmpty || a == ['.'])) ha] at h
      refine .skip ?_ (ih h)
      simp only [Bool.not_eq_true', Bool.not_eq_false, Bool.or_eq_true, List.isEmpty_iff, beq_iff_eq] at ha
      exact ha

theorem foldl_steps (l : List Str) (p : Place) :
    (l.filter fun a => !(a.isEmpty || a == ['.'])).foldl Place.follow p = l.foldl Place.follow p := by
  induction l generalizing p with
  | nil => rfl
  | cons a t ih =>
    by_cases ha : (!(a.isEmpty || a == ['.'])) = true
    · rw [List.filter_cons_of_pos (p := fun a : Str => !(a.isEmpty || a == ['.'])) ha]
      exact ih _
    · rw [List.filter_cons_of_neg (p := fun a : Str => !(a.isEmpty || a == ['.'])) ha, ih, List.foldl_cons]
      congr 1
      simp only [Bool.not_eq_true', Bool.not_eq_false, Bool.or_eq_true, List.isEmpty_iff, beq_iff_eq] at ha
      unfold Place.follow
      rw [if_pos ha]

theorem spot_steps (dir : List Str) (c : Str) : spot dir c = (steps c).foldl Place.follow ⟨false, 0, dir⟩ := by
  unfold spot steps names
  rw [foldl_steps, foldl_follow_filter]

theorem up_mono (l : List Str) (p : Place) (ha : p.abs = false) (h : 0 < p.up) : 0 < (l.foldl Place.follow p).up := by
  have := up_foldl l p ha
  omega

theorem mem_steps_good {c a : Str} (h : a ∈ steps c) (hd : a ≠ ['.', '.']) : GoodName a := by
  unfold steps at h
  rw [List.mem_filter] at h
  refine ⟨splitAt_mem_noSep '/' c a h.1, ?_, ?_, hd⟩
  · rintro rfl
    simp at h
  · rintro rfl
    simp at h

/-- Going up and then down. -/
theorem spot_tame {k : Nat} {q dir : List Str} (hq : Good q)
    (h : ((List.replicate k dotdot ++ q).foldl Place.follow ⟨false, 0, dir⟩).up = 0) :
    ∃ d e, dir = d ++ e ∧ e.length = k ∧
      (List.replicate k dotdot ++ q).foldl Place.follow ⟨false, 0, dir⟩ = ⟨false, 0, d ++ q⟩ := by
  induction k generalizing dir with
  | zero =>
    refine ⟨dir, [], by simp, rfl, ?_⟩
    rw [List.replicate_zero, List.nil_append, foldl_proper hq]
  | succ k ih =>
    rw [List.replicate_succ, List.cons_append, List.foldl_cons] at h ⊢
    rcases eq_nil_or_snoc dir with rfl | ⟨d, x, rfl⟩
    · exfalso
      have hf : (⟨false, 0, []⟩ : Place).follow dotdot = ⟨false, 1, []⟩ := by decide
      rw [hf] at h
      have := up_mono (List.replicate k dotdot ++ q) ⟨false, 1, []⟩ rfl (by decide)
      omega
    · have hf : (⟨false, 0, d ++ [x]⟩ : Place).follow dotdot = ⟨false, 0, d⟩ := by
        unfold Place.follow
        rw [if_neg (by decide), if_pos rfl]
        cases hd : d ++ [x] with
        | nil => simp at hd
        | cons a t =>
          simp only [← hd, List.dropLast_concat]
      rw [hf] at h ⊢
      obtain ⟨d', e, rfl, he, h1⟩ := ih h
      exact ⟨d', e ++ [x], by simp, by simp [he], h1⟩

theorem leads_up {d e rest out : List Str} {es : List (Str × Node)} (h : root.find (d ++ e) = some (.tree es))
    (h' : Leads root d rest out) : Leads root (d ++ e) (List.replicate e.length dotdot ++ rest) out := by
  induction e using List.reverseRecOn generalizing es with
  | nil => simpa using h'
  | append_singleton e x ih =>
    rw [← List.append_assoc] at h ⊢
    obtain ⟨es', h1, _⟩ := find_init h
    simp only [List.length_append, List.length_singleton, List.replicate_succ, List.cons_append]
    exact .up h (ih h1)

/-- Resolving the content of a tame link as a path is following it. -/
theorem leads_target (hp : Proper root) {dir : List Str} {x c : Str} {cur : List Str}
    (hl : root.find (dir ++ [x]) = some (.link c)) (hc : confined c (render (dir ++ [x])) = .val true) (ht : Tame c)
    (h : Leads root [] (spot dir c).down cur) : Leads root [] (dir ++ [x]) cur := by
  have hg := find_good hp hl
  obtain ⟨ha, hu⟩ := confined_render hg hc
  obtain ⟨es, hd, _⟩ := find_init hl
  have hs := leads_self hp hd rfl
  refine hs.comp (.follow (hg x (by simp)) hl ?_ ?_)
  · intro h0
    rw [← isAbs_iff, ha] at h0
    cases h0
  · refine leads_steps ?_
    rw [List.append_nil]
    obtain ⟨k, q, hk, hq⟩ := ht
    have hqg : Good q := by
      intro a haq
      have hm : a ∈ steps c := by rw [hk]; exact List.mem_append_right _ haq
      exact mem_steps_good hm fun e => hq (e ▸ haq)
    rw [spot_steps, hk] at hu h
    obtain ⟨d, e, rfl, he, h1⟩ := spot_tame hqg hu
    have h1' := congrArg Place.down h1
    rw [h1'] at h
    change Leads root (d ++ e) (steps c) cur
    rw [hk, ← he]
    refine leads_up hd ?_
    obtain ⟨mid, h2, h3⟩ := Leads.split h
    have hd' : ∃ es', root.find d = some (.tree es') := by
      cases e with
      | nil => exact ⟨es, by simpa using hd⟩
      | cons y t =>
        have : d ++ y :: t = (d ++ [y]) ++ t := by simp
        rw [this, find_append] at hd
        cases hy : root.find (d ++ [y]) with
        | none => rw [hy] at hd; cases hd
        | some n =>
          obtain ⟨es', h4, _⟩ := find_init hy
          exact ⟨es', h4⟩
    obtain ⟨es', hd'⟩ := hd'
    rw [h2.det (leads_self hp hd' rfl)] at h3
    exact h3

end Verif.Symlinks
