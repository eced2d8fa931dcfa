import Verif.AddCas.Walk

/-!
# Adding files and directories to the CAS: links
-/

namespace Verif.AddCas

open Verif Verif.Path
open Verif.Roots (Name)
open Verif.Symlinks (render spot Good eq_nil_or_snoc)

/-! ## Relative paths -/

theorem full_nil (root : List Str) : full root [] = root := rfl

theorem full_down (root : List Str) (rel : Key) : rel.foldl Place.follow ⟨true, 0, root⟩ = ⟨true, 0, full root rel⟩ := by
  unfold full
  induction rel generalizing root with
  | nil => rfl
  | cons a l ih =>
    rw [List.foldl_cons, follow_down]
    exact ih _

theorem full_snoc (root : List Str) (rel : Key) {a : Str} (ha : Name a) : full root (rel ++ [a]) = full root rel ++ [a] := by
  conv_lhs => unfold full
  rw [List.foldl_append, full_down, List.foldl_cons, List.foldl_nil, Symlinks.follow_good ha.proper]

theorem full_good (root : List Str) {rel : Key} (h : Good rel) : full root rel = root ++ rel := by
  unfold full
  rw [foldl_proper h]

theorem full_up (root p : List Str) (n : Nat) (hp : Good p) (hn : n ≤ root.length) :
    full root (List.replicate n dotdot ++ p) = root.take (root.length - n) ++ p := by
  induction n generalizing root with
  | zero =>
    rw [List.replicate_zero, List.nil_append, full_good _ hp, Nat.sub_zero, List.take_length]
  | succ n ih =>
    unfold full
    rw [List.replicate_succ, List.cons_append, List.foldl_cons, follow_down, if_neg (by decide), if_pos rfl]
    have := ih root.dropLast (by rw [List.length_dropLast]; omega)
    unfold full at this
    rw [this, List.length_dropLast, List.dropLast_eq_take, List.take_take]
    congr 2
    omega

/-- The relative path leads to where it should. -/
theorem full_relative (pre : List Str) : ∀ (p root : List Str), Good p → full (pre ++ root) (relative p root) = pre ++ p
  | a :: p, b :: root, h => by
    rw [relative]
    split
    · rename_i e
      have := full_relative (pre ++ [b]) p root fun x hx => h x (List.mem_cons_of_mem _ hx)
      rw [List.append_assoc, List.append_assoc] at this
      rw [e]
      exact this
    · have : (b :: root).map (fun _ => dotdot) = List.replicate (b :: root).length dotdot := List.map_const' ..
      rw [this, full_up _ _ _ h (by rw [List.length_append]; omega)]
      simp
  | [], root, h => by
    have : relative [] root = root.map (fun _ => dotdot) ++ [] := by cases root <;> rfl
    rw [this, List.map_const', full_up _ _ _ h (by rw [List.length_append]; omega)]
    simp
  | a :: p, [], h => by
    have : relative (a :: p) [] = a :: p := rfl
    rw [this, full_good _ h, List.append_nil]

theorem relative_below (root l : List Str) : relative (root ++ l) root = l := by
  induction root with
  | nil => cases l <;> rfl
  | cons a root ih =>
    rw [List.cons_append, relative, if_pos rfl, ih]

theorem up_mono (l : List Str) (p : Place) : p.up ≤ (l.foldl Place.follow p).up := by
  induction l generalizing p with
  | nil => exact Nat.le_refl _
  | cons a l ih =>
    rw [List.foldl_cons]
    refine Nat.le_trans ?_ (ih _)
    unfold Place.follow
    split
    · exact Nat.le_refl _
    · split
      · split
        · split
          · exact Nat.le_refl _
          · exact Nat.le_succ _
        · exact Nat.le_refl _
      · exact Nat.le_refl _

theorem shift (root : List Str) : ∀ (l dir : List Str), (l.foldl Place.follow ⟨false, 0, dir⟩).up = 0 →
    (l.foldl Place.follow ⟨true, 0, root ++ dir⟩).down = root ++ (l.foldl Place.follow ⟨false, 0, dir⟩).down
  | [], dir, _ => rfl
  | a :: l, dir, h => by
    rw [List.foldl_cons] at h ⊢
    rw [List.foldl_cons, follow_down]
    unfold Place.follow at h ⊢
    dsimp only at h ⊢
    by_cases h1 : a = [] ∨ a = dot
    · rw [if_pos h1] at h ⊢
      rw [if_pos h1]
      exact shift root l dir h
    · rw [if_neg h1] at h ⊢
      rw [if_neg h1]
      by_cases h2 : a = dotdot
      · rw [if_pos h2] at h ⊢
        rw [if_pos h2]
        cases dir with
        | nil =>
          have := up_mono l ⟨false, 1, []⟩
          exact absurd (Nat.le_trans this (Nat.le_of_eq h)) (Nat.not_succ_le_zero 0)
        | cons x xs =>
          rw [List.dropLast_append_of_ne_nil (by simp)]
          exact shift root l _ h
      · rw [if_neg h2] at h ⊢
        rw [if_neg h2, List.append_assoc]
        exact shift root l _ h

/-- A link that is confined leads to below the root. -/
theorem target_confined (root : List Str) {dir : List Str} {x t : Str} (h : Good (dir ++ [x]))
    (hc : confined t (render (dir ++ [x])) = .val true) : target (root ++ dir) t = root ++ (spot dir t).down ∧ Good (spot dir t).down := by
  obtain ⟨h1, h2⟩ := Symlinks.confined_render h hc
  refine ⟨?_, Symlinks.spot_good h.left⟩
  unfold target
  rw [h1]
  exact shift root (names t) dir h2

/-! ## Following links -/

variable {W : World}

/-- The condition on relative paths. -/
def KeyOK (W : World) (root : List Str) (rel : Key) : Prop :=
  (W.mode ≠ some .all → Good rel) ∧ (W.mode = some .all ∨ root <+: full root rel)

theorem KeyOK.good {root : List Str} {rel : Key} (hg : Good rel) : KeyOK W root rel :=
  ⟨fun _ => hg, Or.inr (by rw [full_good _ hg]; exact List.prefix_append _ _)⟩

theorem KeyOK.snoc {root : List Str} {rel : Key} (h : KeyOK W root rel) {a : Str} (ha : Name a) : KeyOK W root (rel ++ [a]) := by
  refine ⟨fun hm => (h.1 hm).snoc ha.proper, h.2.imp id fun hp => ?_⟩
  rw [full_snoc _ _ ha]
  exact hp.trans (List.prefix_append _ _)

/-- What is at the target of a link that passes no other link. -/
theorem target_real (hp : Proper W.fs) {scope D : List Str} {n t : Str} (hl : Plain W.fs scope) (hs : scope <+: D)
    (h : W.fs.find (D ++ [n]) = some (.link t)) {m : Node} (hm : lstat W (target D t) = some m) :
    W.fs.find (target D t) = some m := by
  obtain ⟨es, hD⟩ := find_dir (p := D) (q := [n]) (by simp) h
  have real : ∀ es', W.fs.find (target D t) = some (.dir es') → W.fs.find (target D t) = some m := by
    intro es' h'
    rw [lstat_find hp h'] at hm
    rw [h', hm]
  by_cases hc : comps t = []
  · have hT : target D t = (if isAbs t then [] else D) := by rw [target_eq, hc]; rfl
    have hr : ∃ es', W.fs.find (target D t) = some (.dir es') := by
      rw [hT]
      split
      · exact find_dir (n := W.fs) (p := []) (q := D ++ [n]) (by simp) h
      · exact ⟨es, hD⟩
    exact hr.elim real
  · rcases eq_nil_or_snoc (comps t) with e | ⟨init, c, h1⟩
    · exact absurd e hc
    · obtain ⟨es1, h3⟩ := hl D n t hs h init (by rw [h1]; exact List.prefix_append _ _) (by
        intro e
        rw [h1] at e
        simp at e)
      have hce : c ≠ [] := comps_ne c (by rw [h1]; simp)
      have hT : target D t = _ := (target_eq D t).trans ((congrArg _ h1).trans (spotOf_snoc D t init c))
      by_cases hd : c = dot
      · rw [if_pos (Or.inr hd)] at hT
        exact real es1 (by rw [hT]; exact h3)
      · rw [if_neg (by rintro (h | h); exacts [hce h, hd h])] at hT
        by_cases hdd : c = dotdot
        · rw [if_pos hdd] at hT
          have : ∃ es2, W.fs.find (target D t) = some (.dir es2) := by
            rw [hT]
            generalize spotOf D t init = z at h3
            rcases eq_nil_or_snoc z with rfl | ⟨z', y, rfl⟩
            · exact ⟨_, h3⟩
            · rw [List.dropLast_concat]
              exact find_dir (p := z') (q := [y]) (by simp) h3
          exact this.elim real
        · rw [if_neg hdd] at hT
          rw [hT, find_snoc h3]
          rw [hT, lstat] at hm
          obtain ⟨jump, hj⟩ := walk_eq (fs := W.fs) false W.limit
          rw [hj, walkIn_dirs hp _ [] [c] es1 (by rw [List.nil_append]; exact h3), List.nil_append, walkIn_name h3 ⟨hd, hdd⟩] at hm
          cases ha : assoc c es1 with
          | none =>
            rw [ha] at hm
            cases hm
          | some k =>
            rw [ha] at hm
            have hf := find_snoc h3 c
            rw [ha] at hf
            cases k with
            | link t' =>
              dsimp only at hm
              rw [if_pos ⟨rfl, rfl⟩, Option.bind_some, hf] at hm
              exact hm
            | file i =>
              change (some _).bind _ = _ at hm
              rw [Option.bind_some, hf] at hm
              exact hm
            | dir i =>
              change (some _).bind _ = _ at hm
              rw [Option.bind_some, hf] at hm
              exact hm
            | special =>
              change (some _).bind _ = _ at hm
              rw [Option.bind_some, hf] at hm
              exact hm

/-- Something that can be stored. -/
def Node.Solid : Node → Prop
  | .file _ => True
  | .dir _ => True
  | _ => False

theorem Node.Solid.real {m : Node} (h : m.Solid) : m.Real := by
  cases m <;> trivial

/-- Following a link leads to where the operating system is led. -/
theorem chase_spec (hp : Proper W.fs) {root : List Str} {es0 : List (Str × Node)} (hroot : W.fs.find root = some (.dir es0))
    (h0 : W.mode ≠ none) (h1 : W.mode ≠ some .ignore) (hl : Plain W.fs (if W.mode = some .all then [] else root)) :
    ∀ (n : Nat) (rel : Key) (visited : List Key) (t : Str) (rel' : Key) (m : Node),
      W.fs.find (full root rel) = some (.link t) → KeyOK W root rel →
      chase W root n rel (full root rel) visited = .to rel' m →
      W.fs.find (full root rel') = some m ∧ m.Solid ∧ KeyOK W root rel' ∧
        ∀ r, Resolves W.fs (full root rel) r ↔ r = full root rel'
  | 0, _, _, _, _, _, _, _, h => by cases h
  | n + 1, rel, visited, t, rel', m, hf, hk, h => by
    -- the link is in a directory
    have hsnoc : ∃ D x, full root rel = D ++ [x] := by
      rcases eq_nil_or_snoc (full root rel) with e | h
      · rw [e] at hf
        obtain ⟨es1, h2⟩ : ∃ es1, W.fs.find [] = some (.dir es1) := by
          by_cases hr : root = []
          · exact ⟨_, hr ▸ hroot⟩
          · exact find_dir (p := []) (q := root) hr hroot
        rw [h2] at hf
        cases hf
      · exact h
    obtain ⟨D, x, hD⟩ := hsnoc
    rw [hD] at hf
    rw [chase, hD, lstat_find hp hf] at h
    dsimp only at h
    rw [List.dropLast_concat] at h
    by_cases ha : allowed W.mode t rel = true
    · rw [ha, Bool.not_true, if_neg (by decide)] at h
      -- where the link is, and what it leads to
      have hscope : (if W.mode = some .all then [] else root) <+: D := by
        split
        · exact List.nil_prefix
        · rename_i hm
          rcases hk.2 with e | h2
          · exact absurd e hm
          · rw [hD] at h2
            rcases List.prefix_concat_iff.1 h2 with e | h3
            · rw [e, hf] at hroot
              cases hroot
            · exact h3
      have goal : ∀ m', lstat W (target D t) = some m' → W.fs.find (target D t) = some m' ∧
          KeyOK W root (relative (target D t) root) ∧ full root (relative (target D t) root) = target D t := by
        intro m' hm'
        have hfind := target_real hp hl hscope hf hm'
        have hgood : Good (target D t) := fun a ha => ((hp.find hfind).2 a ha).proper
        have hfull : full root (relative (target D t) root) = target D t := by
          have := full_relative [] (target D t) root hgood
          rwa [List.nil_append, List.nil_append] at this
        refine ⟨hfind, ?_, hfull⟩
        by_cases hm : W.mode = some .all
        · exact ⟨fun h => absurd hm h, Or.inl hm⟩
        · have hg := hk.1 hm
          rw [full_good _ hg] at hD
          obtain ⟨dir, hrel⟩ : ∃ dir, rel = dir ++ [x] := by
            rcases eq_nil_or_snoc rel with e | ⟨dir, y, e⟩
            · rw [e, List.append_nil] at hD
              rw [hD, hf] at hroot
              cases hroot
            · rw [e, ← List.append_assoc] at hD
              have := List.append_inj_right' hD rfl
              injection this with this
              exact ⟨dir, by rw [e, this]⟩
          rw [hrel, ← List.append_assoc] at hD
          have hDd : D = root ++ dir := (List.append_inj_left' hD rfl).symm
          have hconf : confined t (render rel) = .val true := by
            unfold allowed at ha
            have : (W.mode == some Mode.treeUpwards || W.mode == some Mode.treeAll) = true := by
              cases hmm : W.mode with
              | none => exact absurd hmm h0
              | some md =>
                cases md with
                | ignore => exact absurd hmm h1
                | all => exact absurd hmm hm
                | treeUpwards => rfl
                | treeAll => rfl
            rw [this, Bool.not_true, Bool.false_or] at ha
            exact eq_of_beq ha
          rw [hrel] at hg hconf
          obtain ⟨h5, h6⟩ := target_confined root hg hconf
          rw [hDd, h5, relative_below]
          exact .good h6
      have hres := resolves_link hp hl hscope hf
      cases hT : lstat W (target D t) with
      | none =>
        rw [hT] at h
        cases h
      | some m' =>
        obtain ⟨g1, g2, g3⟩ := goal m' hT
        rw [hT] at h
        cases m' with
        | special => cases h
        | link t' =>
          dsimp only at h
          split at h
          · cases h
          · rw [← g3] at g1
            have := chase_spec hp hroot h0 h1 hl n (relative (target D t) root)
              (relative (target D t) root :: visited) t' rel' m g1 g2 (by rw [g3]; exact h)
            obtain ⟨k1, k2, k3, k4⟩ := this
            refine ⟨k1, k2, k3, fun r => ?_⟩
            rw [hD, hres, ← k4, g3]
        | file i =>
          dsimp only at h
          split at h
          · cases h
          · injection h with e1 e2
            subst e1 e2
            refine ⟨by rw [g3]; exact g1, trivial, g2, fun r => ?_⟩
            rw [hD, hres, resolves_real hp g1 trivial, g3]
        | dir es =>
          dsimp only at h
          split at h
          · cases h
          · injection h with e1 e2
            subst e1 e2
            refine ⟨by rw [g3]; exact g1, trivial, g2, fun r => ?_⟩
            rw [hD, hres, resolves_real hp g1 trivial, g3]
    · rw [Bool.not_eq_true] at ha
      rw [ha] at h
      cases h

end Verif.AddCas
