import Verif.MrFetch.Props

/-!
# C115: descriptions that are not well-formed, and what is asked of the mirrors
-/

namespace Verif.MrFetch

open Verif Verif.MrConfig Verif.Path

section
variable {N : Type}

/-! ## Specification -/

/-- An identifier of git. -/
def GitId (s : Str) : Prop := s.length = 40 ∧ ∀ c ∈ s, Dig.isHexDigit c = true

/-- The types of repositories. -/
def types : List Str := ["archive", "zip", "foreign file", "git tree", "git", "distdir", "file", "computed", "tree structure"].map String.toList

/-- The mirrors of a description: a list of strings, empty if there is no such field. -/
def MirrorsOf (r : List (Str × Json N)) (l : List Str) : Prop :=
  (assoc "mirrors".toList r).getD (.arr []) = .arr (l.map .str)

/-- A description that can be used. -/
structure Usable (fetchAbsent : Bool) (r : List (Str × Json N)) : Prop where
  type : ∃ t ∈ types, field "type".toList r = .str t
  archive : IsArchive r → ∃ h u l, field "content".toList r = .str h ∧ GitId h ∧ field "fetch".toList r = .str u ∧ MirrorsOf r l
  name : field "type".toList r = .str "foreign file".toList → ∃ s, field "name".toList r = .str s ∧ '/' ∉ s ∧
    s ∉ ["".toList, ".".toList, "..".toList]
  tree : field "type".toList r = .str "git tree".toList → fetchAbsent = true ∨ ¬ MarkedAbsent r →
    (∃ h, field "id".toList r = .str h ∧ GitId h) ∧ ∃ l : List Str, field "cmd".toList r = .arr (l.map .str)

/-! ## Lemmas -/

theorem valid_iff (h : Str) (b : Bool) : Dig.validInput .gitSHA1 h b = true ↔ GitId h := by
  unfold GitId
  cases b <;> simp [Dig.validInput, Dig.HashType.length, Dig.HashType.treeAllowed, Dig.HashType.native, Dig.isHexString]

theorem texts_iff : ∀ (l : List (Json N)) (s : List Str), texts l = some s ↔ l = s.map .str
  | [], s => by cases s <;> simp [texts]
  | .str x :: t, s => by
    rw [texts, Option.map_eq_some_iff]
    constructor
    · rintro ⟨l, hl, rfl⟩
      rw [(texts_iff t l).mp hl]; rfl
    · intro h
      cases s with
      | nil => cases h
      | cons y s =>
        rw [List.map_cons] at h
        obtain ⟨h1, h2⟩ := List.cons.inj h
        cases h1
        exact ⟨s, (texts_iff t s).mpr h2, rfl⟩
  | .null :: _, s | .bool _ :: _, s | .num _ :: _, s | .arr _ :: _, s | .obj _ :: _, s => by
    cases s <;> simp [texts]

theorem parseContent_all {r : List (Str × Json N)} {a : Archive} (h : parseContent r = some a) :
    GitId a.content ∧ MirrorsOf r a.mirrors := by
  unfold parseContent at h
  split at h
  · next h3 =>
    split at h
    · next hv =>
      obtain ⟨l, hl, rfl⟩ := Option.map_eq_some_iff.mp h
      refine ⟨(valid_iff _ _).mp hv, ?_⟩
      unfold MirrorsOf
      rw [h3, (texts_iff _ _).mp hl]
    · cases h
  · cases h

theorem foreignOk_name {r : List (Str × Json N)} (h : foreignOk r = true) : ∃ s, field "name".toList r = .str s ∧ '/' ∉ s ∧
    s ∉ ["".toList, ".".toList, "..".toList] := by
  unfold foreignOk at h
  rw [Bool.and_eq_true] at h
  obtain ⟨h, -⟩ := h
  split at h
  · next s hs =>
    refine ⟨s, field_str.mpr hs, ?_⟩
    unfold isValidFileName at h
    split at h
    · cases h
    · next hn =>
      refine ⟨hn, ?_⟩
      intro hm
      simp only [List.mem_cons, List.not_mem_nil, or_false] at hm
      rcases hm with rfl | rfl | rfl <;> exact absurd h (by decide)
  · cases h

theorem treeOk_spec {r : List (Str × Json N)} (h : treeOk r = true) : (∃ h, field "id".toList r = .str h ∧ GitId h) ∧
    ∃ l : List Str, field "cmd".toList r = .arr (l.map .str) := by
  unfold treeOk at h
  rw [Bool.and_eq_true, Bool.and_eq_true, Bool.and_eq_true] at h
  obtain ⟨⟨⟨h1, h2⟩, -⟩, -⟩ := h
  constructor
  · split at h1
    · next s hs => exact ⟨s, field_str.mpr hs, (valid_iff _ _).mp h1⟩
    · cases h1
  · split at h2
    · next l hl =>
      obtain ⟨s, hs⟩ := Option.isSome_iff_exists.mp h2
      refine ⟨s, ?_⟩
      rw [← (texts_iff l s).mp hs]
      unfold field
      rw [hl]; rfl
    · cases h2

theorem item_usable {b : Bool} {r : List (Str × Json N)} {i : Item N} (h : item b r = some i) : Usable b r := by
  unfold item at h
  split at h
  · next t ht =>
    have hf := field_type.mp ht
    have hty : ∀ s, field "type".toList r = .str s → t = s := fun s e => by rw [hf] at e; exact Json.str.inj e
    have ar : ∀ {a}, parseContent r = some a →
        ∃ h u l, field "content".toList r = .str h ∧ GitId h ∧ field "fetch".toList r = .str u ∧ MirrorsOf r l := fun {a} ha =>
      ⟨_, _, _, (parseContent_ok ha).1, (parseContent_all ha).1, (parseContent_ok ha).2.1, (parseContent_all ha).2⟩
    split at h
    · next hk =>
      obtain ⟨a, ha, -⟩ := Option.bind_eq_some_iff.mp h
      refine ⟨⟨t, ?_, hf⟩, fun _ => ar ha, fun e => ?_, fun e => ?_⟩
      · rcases hk with rfl | rfl <;> decide
      · rw [hty _ e] at hk; exact absurd hk (by decide)
      · rw [hty _ e] at hk; exact absurd hk (by decide)
    · next hk =>
      split at h
      · next hk' =>
        obtain ⟨a, ha, h'⟩ := Option.bind_eq_some_iff.mp h
        refine ⟨⟨t, ?_, hf⟩, fun _ => ar ha, fun _ => ?_, fun e => ?_⟩
        · rw [hk']; decide
        · split at h'
          · next hok => exact foreignOk_name hok
          · cases h'
        · rw [hty _ e] at hk'; exact absurd hk' (by decide)
      · next hk' =>
        have na : ¬ IsArchive r := by
          rintro (e | e | e)
          · exact hk (.inl (hty _ e))
          · exact hk (.inr (hty _ e))
          · exact hk' (hty _ e)
        split at h
        · next hk'' =>
          refine ⟨⟨t, ?_, hf⟩, fun e => absurd e na, fun e => absurd (hty _ e) hk', fun _ hb => ?_⟩
          · rw [hk'']; decide
          · rw [if_pos (not_absent.mpr hb)] at h
            split at h
            · next hok => exact treeOk_spec hok
            · cases h
        · next hk'' =>
          split at h
          · next hk3 =>
            refine ⟨⟨t, ?_, hf⟩, fun e => absurd e na, fun e => absurd (hty _ e) hk', fun e => absurd (hty _ e) hk''⟩
            rcases hk3 with rfl | rfl | rfl | rfl | rfl <;> decide
          · cases h
  · cases h

/-! ## Properties -/

/-- **C115**, part. Fetching does not succeed if the description of a repository considered is not well-formed. Missing: the main
repository given in the configuration (C115_violation_main). -/
theorem C115_usable_partial {env : Env N} {args : Args} {config : List (Str × Json N)} {files out : Place → Option Str} {dir : Str}
    (hd : Dir env args dir) (hm : args.all = true ∨ args.main ≠ none ∨ field "main".toList config = .null)
    (h : fetch env args config files = .ok out) {n : Str} {r : List (Str × Json N)} (hc : Considered args config n)
    (hdesc : Described config n r) : Usable args.fetchAbsent r := by
  obtain ⟨repos, names, es, hr, hn, he, -, -, -⟩ := fetch_ok hd h
  obtain ⟨e1, e2⟩ := collect_some he
  obtain ⟨repos', hr', hdesc⟩ := hdesc
  rw [hr] at hr'; cases hr'
  have hmem := (considered_ok hr hm hn n).mpr hc
  rw [← e1] at hmem
  obtain ⟨e, hemem, rfl⟩ := List.mem_map.mp hmem
  obtain ⟨r', hd', hi⟩ := itemOf_iff.mp (e2 e hemem)
  rw [Json.obj.inj (hdesc.det hd')]
  exact item_usable hi

/-- **C115**, part. The content of an archive asked for was obtained from the location and the mirrors of a description with that content.
Missing: as before. -/
theorem C115_source_partial {env : Env N} {args : Args} {config : List (Str × Json N)} {files out : Place → Option Str} {dir : Str}
    (ho : ∀ l, (env.order l).Perm l) (hd : Dir env args dir)
    (hm : args.all = true ∨ args.main ≠ none ∨ field "main".toList config = .null)
    (h : fetch env args config files = .ok out) {hash : Str} {p : Place} (hw : Wants args config dir hash p) :
    ∃ a n r, env.obtain a = true ∧ Considered args config n ∧ Described config n r ∧ field "content".toList r = .str hash ∧
      a.content = hash ∧ field "fetch".toList r = .str a.url ∧ MirrorsOf r a.mirrors := by
  obtain ⟨repos, names, es, hr, hn, he, hob, -, rfl⟩ := fetch_ok hd h
  obtain ⟨a, ha, rfl, rfl⟩ := (wants_archives hm hr hn he dir hash p).mp hw
  rcases distinct_has (seen := []) ((ho _).mem_iff.mpr ha) with h0 | ⟨b, hb, eb⟩
  · exact absurd h0 List.not_mem_nil
  · obtain ⟨e, hemem, hi⟩ := List.mem_map.mp (mem_archives.mp ((ho _).mem_iff.mp (distinct_sub hb)))
    obtain ⟨e1, e2⟩ := collect_some he
    have h2 := e2 e hemem
    rw [hi] at h2
    obtain ⟨r, hdesc, hit⟩ := itemOf_iff.mp h2
    have hp := (item_archive hit).2.2
    obtain ⟨p1, p2, -⟩ := parseContent_ok hp
    refine ⟨b, e.1, r, (hob b hb).1, (considered_ok hr hm hn _).mp (by rw [← e1]; exact List.mem_map.mpr ⟨e, hemem, rfl⟩),
      ⟨repos, hr, hdesc⟩, by rw [← eb]; exact p1, eb, p2, (parseContent_all hp).2⟩

end

end Verif.MrFetch
