import Verif.Path.Lemmas

/-!
# Properties of lexical path handling

`place` (from `Verif.Path.Spec`) is the location a path denotes, determined by following its segments.
-/

namespace Verif.Path

/-! ## C39: path normalisation -/

/-- Normalising does not change the location. -/
theorem C39_location (s : Str) : place (toNormalPath s) = place s := by
  rw [toNormalPath_eq, place_canon (wf_place s)]

/-- Two paths are normalised to the same string iff they denote the same location. -/
theorem C39_canonical (s t : Str) : toNormalPath s = toNormalPath t ↔ place s = place t := by
  constructor
  · intro h
    rw [← C39_location s, h, C39_location]
  · intro h
    rw [toNormalPath_eq, toNormalPath_eq, h]

/-- Normalising again changes nothing. -/
theorem C39_idempotent (s : Str) : toNormalPath (toNormalPath s) = toNormalPath s :=
  (C39_canonical _ _).2 (C39_location s)

/-- Shape of the result: `.`, `/`, or names joined by single slashes, with `..` in front only. -/
theorem C39_form (s : Str) :
    toNormalPath s = ['.'] ∨ toNormalPath s = ['/'] ∨
    ∃ root n l, (root = [] ∨ (root = ['/'] ∧ n = 0)) ∧ (∀ a ∈ l, ProperName a) ∧
      List.replicate n ['.', '.'] ++ l ≠ [] ∧
      toNormalPath s = root ++ joinWith '/' (List.replicate n ['.', '.'] ++ l) := by
  have h := wf_place s
  rw [toNormalPath_eq]
  generalize place s = p at h
  unfold canon
  by_cases ha : p.abs = true
  · by_cases hs : p.segs = []
    · right; left
      simp [ha, hs, joinWith]
    · right; right
      have h0 : p.up = 0 := h.root ha
      refine ⟨['/'], 0, p.down, Or.inr ⟨rfl, rfl⟩, h.names, ?_, ?_⟩
      · simpa [Place.segs, h0] using hs
      · simp [ha, Place.segs, h0]
  · by_cases hs : p.segs = []
    · left
      simp [ha, hs]
    · right; right
      refine ⟨[], p.up, p.down, Or.inl rfl, h.names, hs, ?_⟩
      rw [if_neg ha, if_neg hs]
      rfl

-- Spellings of one location, and a location different from it.
example : toNormalPath "a//b/./c/../d/".toList = "a/b/d".toList ∧
    place "a//b/./c/../d/".toList = place "x/../a/b/d".toList ∧
    place "a/b/d".toList ≠ place "../a/b/d".toList ∧
    toNormalPath "../x/../..//".toList = "../..".toList ∧
    toNormalPath "/../a/".toList = "/a".toList := by decide

/-! ## C40: confinement -/

/-- A non-empty path is accepted as non-upwards iff it is relative and following its segments never
leads above the start.  The empty path is missing: `C40_violation`. -/
theorem C40_non_upwards_partial (s : Str) (hs : s ≠ []) :
    ∃ b, nonUpwards s = .val b ∧
      (b = true ↔ s.head? ≠ some '/' ∧ NeverAbove (splitAt '/' s)) := by
  obtain ⟨b, h1, h2⟩ := nonUpwards_eq s hs
  refine ⟨b, h1, ?_⟩
  rw [h2]
  have hi := isAbs_iff s
  by_cases ha : isAbs s = true
  · simp [ha, hi.1 ha]
  · have ha' : isAbs s = false := by simpa using ha
    rw [ha', place_rel ha', names, foldl_follow_filter, up_eq_zero]
    simp [hi] at ha
    simp [ha]

/-- A path, seen from the location `dir/name`, is accepted as confined iff it is relative and following
`dir` and the path never leads above the root.  The combination of an empty path and a location in the
root directory is missing: `C40_violation`. -/
theorem C40_confined_partial (path : Str) (dir : List Str) (name : Str)
    (hd : ∀ a ∈ dir ++ [name], ProperName a) (hne : dir ≠ [] ∨ path ≠ []) :
    ∃ b, confined path (joinWith '/' (dir ++ [name])) = .val b ∧
      (b = true ↔ path.head? ≠ some '/' ∧ NeverAbove (dir ++ splitAt '/' path)) := by
  have hi := isAbs_iff path
  unfold confined
  by_cases ha : isAbs path = true
  · rw [if_pos ha]
    exact ⟨false, rfl, by simp [hi.1 ha]⟩
  have ha' : isAbs path = false := by simpa using ha
  rw [if_neg ha, parentPath_join hd]
  have hda : isAbs (joinWith '/' dir) = false :=
    isAbs_join (fun a h => (hd a (List.mem_append_left _ h)).seg)
  have hab := isAbs_append hda ha'
  have hnn : append (joinWith '/' dir) path ≠ [] := by
    unfold append
    rw [if_neg ha]
    rcases hne with h | h
    · have := joinWith_ne_nil h (fun a h => (hd a (List.mem_append_left _ h)).seg)
      split <;> simp [this]
    · split <;> simp [h]
  obtain ⟨b, h1, h2⟩ := nonUpwards_eq _ hnn
  refine ⟨b, h1, ?_⟩
  rw [h2, hab, place_rel hab, names_append ha',
    names_join (fun a h => (hd a (List.mem_append_left _ h)).seg), List.foldl_append, names,
    foldl_follow_filter, ← List.foldl_append, up_eq_zero]
  simp [hi] at ha
  simp [ha]

/-- For the empty path (the default working directory of an action, or the target of an empty
symbolic link) the check dereferences the end iterator. -/
theorem C40_violation : nonUpwards [] = .ub ∧ confined [] "link".toList = .ub := by decide

-- Accepted and rejected paths.
example : nonUpwards "a/../b".toList = .val true ∧ nonUpwards "a/../../b".toList = .val false ∧
    nonUpwards "../a/b".toList = .val false ∧ nonUpwards "/a".toList = .val false ∧
    confined "../b".toList "d/e/f".toList = .val true ∧
    confined "../../../b".toList "d/e/f".toList = .val false := by decide

-- The hypotheses on the location are met by `d/e/f`.
example : (∀ a ∈ ["d".toList, "e".toList] ++ ["f".toList], ProperName a) ∧
    joinWith '/' (["d".toList, "e".toList] ++ ["f".toList]) = "d/e/f".toList := by
  unfold ProperName
  decide

/-! ## C43: rebasing -/

/-- Rebasing a relative path to a relative working directory without `..` and appending the result to the
working directory leads to the original location.  Working directories containing `..` are missing:
`C43_violation`. -/
theorem C43_rebase_partial (base path : Str) (hb : base.head? ≠ some '/')
    (hp : path.head? ≠ some '/') (hd : ['.', '.'] ∉ splitAt '/' base) :
    place (append base (rebase base path)) = place path ∧
      Place.walk (place base) (rebase base path) = place path := by
  rw [ne_eq, ← isAbs_iff, Bool.not_eq_true] at hb hp
  obtain ⟨h1, h2⟩ := place_lexRelative hp hb hd
  refine ⟨h2, ?_⟩
  rw [← h2, place_rel (isAbs_append hb h1), names_append h1, List.foldl_append, ← place_rel hb]
  have h3 : ¬ (lexRelative path base).head? = some '/' := by
    rw [← isAbs_iff, h1]; decide
  unfold Place.walk rebase
  rw [if_neg h3, names, foldl_follow_filter]

/-- With working directory `x/../y` (which is accepted: it is non-upwards) the output `x/out` is looked
for at `y/out`. -/
theorem C43_violation :
    nonUpwards "x/../y".toList = .val true ∧
    rebase "x/../y".toList "x/out".toList = "out".toList ∧
    place (append "x/../y".toList (rebase "x/../y".toList "x/out".toList)) = place "y/out".toList ∧
    place "y/out".toList ≠ place "x/out".toList := by decide

-- A working directory with a dot and a trailing slash meets the hypotheses.
example : ['.', '.'] ∉ splitAt '/' "a/./b/".toList ∧ "a/./b/".toList.head? ≠ some '/' ∧
    rebase "a/./b/".toList "a/c/d".toList = "../c/d".toList ∧
    append "a/./b/".toList "../c/d".toList = "a/./b/../c/d".toList := by
  decide

end Verif.Path
