import Verif.AddCas.Spec

/-!
# Adding files and directories to the CAS: paths
-/

namespace Verif.AddCas

open Verif Verif.Path
open Verif.Roots (Name)
open Verif.Symlinks (render spot Good)

theorem assoc_mem {V : Type} {k : Str} {v : V} : ∀ {l : List (Str × V)}, assoc k l = some v → (k, v) ∈ l
  | (k', v') :: t, h => by
    rw [assoc] at h
    split at h
    · rename_i e
      cases h
      rw [e]
      exact List.mem_cons_self
    · exact List.mem_cons_of_mem _ (assoc_mem h)

theorem mem_assoc {V : Type} : ∀ {l : List (Str × V)}, (l.map Prod.fst).Nodup → ∀ {e : Str × V}, e ∈ l → assoc e.1 l = some e.2
  | (k', v') :: t, hn, e, h => by
    rw [List.map_cons, List.nodup_cons] at hn
    rw [assoc]
    rcases List.mem_cons.1 h with rfl | h
    · rw [if_pos rfl]
    · rw [if_neg, mem_assoc hn.2 h]
      intro he
      apply hn.1
      have := List.mem_map_of_mem (f := Prod.fst) h
      exact he ▸ this

/-! ## Nodes -/

theorem find_cons {es : List (Str × Node)} {a : Str} {p : List Str} :
    (Node.dir es).find (a :: p) = (assoc a es).bind fun n => n.find p := rfl

theorem find_append : ∀ {p q : List Str} {n : Node}, n.find (p ++ q) = (n.find p).bind fun m => m.find q
  | [], q, n => by cases n <;> rfl
  | a :: p, q, n => by
    cases n with
    | dir es =>
      rw [List.cons_append, find_cons, find_cons]
      cases assoc a es with
      | none => rfl
      | some m => exact find_append
    | file => rfl
    | link => rfl
    | special => rfl

theorem find_dir {n : Node} {p q : List Str} (hq : q ≠ []) {m : Node} (h : n.find (p ++ q) = some m) :
    ∃ es, n.find p = some (.dir es) := by
  rw [find_append] at h
  cases hp : n.find p with
  | none =>
    rw [hp] at h
    cases h
  | some k =>
    rw [hp] at h
    cases q with
    | nil => exact absurd rfl hq
    | cons a q =>
      cases k with
      | dir es => exact ⟨es, rfl⟩
      | file => cases h
      | link => cases h
      | special => cases h

theorem find_snoc {n : Node} {p : List Str} {es : List (Str × Node)} (h : n.find p = some (.dir es)) (a : Str) :
    n.find (p ++ [a]) = assoc a es := by
  rw [find_append, h, Option.bind_some, find_cons]
  cases assoc a es with
  | none => rfl
  | some m => cases m <;> rfl

theorem Proper.find {n m : Node} (h : Proper n) : ∀ {p : List Str}, n.find p = some m → Proper m ∧ ∀ a ∈ p, Name a := by
  induction h with
  | file i =>
    intro p hf
    cases p with
    | nil => cases hf; exact ⟨.file i, fun a ha => (nomatch ha)⟩
    | cons => cases hf
  | link ht =>
    intro p hf
    cases p with
    | nil => cases hf; exact ⟨.link ht, fun a ha => (nomatch ha)⟩
    | cons => cases hf
  | special =>
    intro p hf
    cases p with
    | nil => cases hf; exact ⟨.special, fun a ha => (nomatch ha)⟩
    | cons => cases hf
  | @dir es h1 h2 h3 ih =>
    intro p hf
    cases p with
    | nil => cases hf; exact ⟨.dir h1 h2 h3, fun a ha => (nomatch ha)⟩
    | cons a p =>
      rw [find_cons] at hf
      cases ha : assoc a es with
      | none => rw [ha] at hf; cases hf
      | some k =>
        rw [ha, Option.bind_some] at hf
        have hm := assoc_mem ha
        obtain ⟨h4, h5⟩ := ih _ hm hf
        exact ⟨h4, fun b hb => (List.mem_cons.1 hb).elim (fun e => e ▸ h1 _ hm) (h5 b)⟩

/-! ## Walking -/

variable {fs : Node}

theorem name_ne {a : Str} (h : Name a) : a ≠ dot ∧ a ≠ dotdot := ⟨h.proper.2.2.1, h.proper.2.2.2⟩

theorem walkIn_name {jump : List Str → List Str → Option (List Str)} {follow : Bool} {pos rest : List Str} {c : Str}
    {es : List (Str × Node)} (h : fs.find pos = some (.dir es)) (hc : c ≠ dot ∧ c ≠ dotdot) :
    walkIn fs jump follow pos (c :: rest) =
      match assoc c es with
      | none => none
      | some (.link t) =>
        if rest = [] ∧ follow = false then some (pos ++ [c])
        else jump (if isAbs t then [] else pos) (comps t ++ rest)
      | some _ => walkIn fs jump follow (pos ++ [c]) rest := by
  rw [walkIn, h]
  dsimp only
  rw [if_neg hc.1, if_neg hc.2]
  rfl

/-- Walking through directories. -/
theorem walkIn_dirs {jump : List Str → List Str → Option (List Str)} {follow : Bool} (hp : Proper fs) :
    ∀ (l pos rest : List Str) (es : List (Str × Node)), fs.find (pos ++ l) = some (.dir es) →
      walkIn fs jump follow pos (l ++ rest) = walkIn fs jump follow (pos ++ l) rest
  | [], pos, rest, es, _ => by rw [List.nil_append, List.append_nil]
  | a :: l, pos, rest, es, h => by
    obtain ⟨es1, h1⟩ := find_dir (p := pos) (q := a :: l) (by simp) h
    have hn : Name a := (hp.find h).2 a (by simp)
    have h2 : ∃ es2, fs.find (pos ++ [a]) = some (.dir es2) := by
      by_cases hl : l = []
      · subst hl
        exact ⟨es, h⟩
      · exact find_dir (p := pos ++ [a]) (q := l) hl (by rw [List.append_assoc]; exact h)
    obtain ⟨es2, h2⟩ := h2
    rw [List.cons_append, walkIn_name h1 (name_ne hn)]
    rw [find_snoc h1] at h2
    rw [h2]
    dsimp only
    rw [walkIn_dirs hp l (pos ++ [a]) rest es (by rw [List.append_assoc]; exact h), List.append_assoc]
    rfl

theorem walk_eq (follow : Bool) (b : Nat) : ∃ jump, walk fs follow b = walkIn fs jump follow := by
  cases b with
  | zero => exact ⟨_, rfl⟩
  | succ b => exact ⟨_, rfl⟩

/-- What is there without following links is found, whatever it is, if links at the end are not followed. -/
theorem walk_find (hp : Proper fs) {p : List Str} {m : Node} (h : fs.find p = some m) (b : Nat) :
    walk fs false b [] p = some p := by
  obtain ⟨jump, hj⟩ := walk_eq (fs := fs) false b
  rw [hj]
  rcases List.eq_nil_or_concat p with rfl | ⟨D, a, rfl⟩
  · rfl
  · rw [List.concat_eq_append] at *
    obtain ⟨es, hD⟩ := find_dir (p := D) (q := [a]) (by simp) h
    have hn : Name a := (hp.find h).2 a (by simp)
    rw [walkIn_dirs hp D [] [a] es (by rw [List.nil_append]; exact hD), List.nil_append, walkIn_name hD (name_ne hn)]
    rw [find_snoc hD] at h
    rw [h]
    cases m <;> simp [walkIn]

theorem lstat_find {W : World} (hp : Proper W.fs) {p : List Str} {m : Node} (h : W.fs.find p = some m) : lstat W p = some m := by
  rw [lstat, walk_find hp h, Option.bind_some, h]

/-- Not a link. -/
def Node.Real : Node → Prop
  | .link _ => False
  | _ => True

theorem walk_real (hp : Proper fs) {p : List Str} {m : Node} (h : fs.find p = some m) (hm : m.Real) (b : Nat) :
    walk fs true b [] p = some p := by
  obtain ⟨jump, hj⟩ := walk_eq (fs := fs) true b
  rw [hj]
  rcases List.eq_nil_or_concat p with rfl | ⟨D, a, rfl⟩
  · rfl
  · rw [List.concat_eq_append] at *
    obtain ⟨es, hD⟩ := find_dir (p := D) (q := [a]) (by simp) h
    have hn : Name a := (hp.find h).2 a (by simp)
    rw [walkIn_dirs hp D [] [a] es (by rw [List.nil_append]; exact hD), List.nil_append, walkIn_name hD (name_ne hn)]
    rw [find_snoc hD] at h
    rw [h]
    cases m with
    | link => exact absurd hm id
    | file => simp [walkIn]
    | dir => simp [walkIn]
    | special => simp [walkIn]

theorem resolves_real (hp : Proper fs) {p : List Str} {m : Node} (h : fs.find p = some m) (hm : m.Real) (r : List Str) :
    Resolves fs p r ↔ r = p := by
  constructor
  · rintro ⟨b, hb⟩
    rw [walk_real hp h hm] at hb
    injection hb with hb
    exact hb.symm
  · rintro rfl
    exact ⟨0, walk_real hp h hm 0⟩

/-- One step of `follow` at a directory is one step of the operating system. -/
theorem follow_down (p : List Str) (c : Str) : (Place.follow ⟨true, 0, p⟩ c) =
    ⟨true, 0, if c = [] ∨ c = dot then p else if c = dotdot then p.dropLast else p ++ [c]⟩ := by
  unfold Place.follow
  by_cases h1 : c = [] ∨ c = dot
  · rw [if_pos h1, if_pos h1]
  · rw [if_neg h1, if_neg h1]
    by_cases h2 : c = dotdot
    · rw [if_pos h2, if_pos h2]
      cases p with
      | nil => rfl
      | cons => rfl
    · rw [if_neg h2, if_neg h2]

theorem spotOf_snoc (D : List Str) (t : Str) (cs : List Str) (c : Str) : spotOf D t (cs ++ [c]) =
    if c = [] ∨ c = dot then spotOf D t cs else if c = dotdot then (spotOf D t cs).dropLast else spotOf D t cs ++ [c] := by
  have key : ∀ (l : List Str) (p : List Str), ∃ q, l.foldl Place.follow ⟨true, 0, p⟩ = ⟨true, 0, q⟩ := by
    intro l
    induction l with
    | nil => intro p; exact ⟨p, rfl⟩
    | cons a l ih =>
      intro p
      rw [List.foldl_cons, follow_down]
      exact ih _
  unfold spotOf
  rw [List.foldl_append, List.foldl_cons, List.foldl_nil]
  obtain ⟨q, hq⟩ := key cs (if isAbs t then [] else D)
  rw [hq, follow_down]

/-- Walking along a link that passes no other link is the same as walking along the lexical path. -/
theorem walkIn_plain {jump : List Str → List Str → Option (List Str)} {follow : Bool} {D : List Str} {t : Str}
    (hne : ∀ c ∈ comps t, c ≠ []) : ∀ (done rest more : List Str), done ++ rest = comps t → rest ≠ [] →
      (∀ cs, cs <+: comps t → cs ≠ comps t → ∃ es, fs.find (spotOf D t cs) = some (.dir es)) →
      ∃ init c, comps t = init ++ [c] ∧
        walkIn fs jump follow (spotOf D t done) (rest ++ more) = walkIn fs jump follow (spotOf D t init) (c :: more)
  | done, [], more, _, h, _ => absurd rfl h
  | done, [c], more, e, _, _ => ⟨done, c, e.symm, rfl⟩
  | done, c :: c' :: rest, more, e, _, hp => by
    have hc : c ≠ [] := hne c (by rw [← e]; simp)
    obtain ⟨es, h1⟩ := hp done (by rw [← e]; exact List.prefix_append _ _) (by
      intro h
      rw [h] at e
      simp at e)
    obtain ⟨es2, h2⟩ := hp (done ++ [c]) (by rw [← e]; exact ⟨c' :: rest, by simp⟩) (by
      intro h
      rw [← h] at e
      simp at e)
    obtain ⟨init, x, h3, h4⟩ := walkIn_plain hne (jump := jump) (follow := follow) (done ++ [c]) (c' :: rest) more
      (by rw [← e]; simp) (by simp) hp
    refine ⟨init, x, h3, ?_⟩
    rw [← h4, List.cons_append, walkIn, h1]
    dsimp only
    rw [spotOf_snoc] at h2 ⊢
    by_cases hd : c = dot
    · rw [if_pos hd, if_pos (Or.inr hd)]
    · have hcd : ¬(c = [] ∨ c = dot) := fun h => h.elim hc hd
      simp only [if_neg hcd] at h2 ⊢
      rw [if_neg hd]
      by_cases hdd : c = dotdot
      · rw [if_pos hdd, if_pos hdd]
      · rw [if_neg hdd, find_snoc h1] at h2
        rw [if_neg hdd, if_neg hdd, h2]

theorem comps_ne {t : Str} : ∀ c ∈ comps t, c ≠ [] := by
  intro c hc
  unfold comps at hc
  rcases List.mem_append.1 hc with h | h
  · unfold names at h
    have := (List.mem_filter.1 h).2
    intro e
    rw [e] at this
    cases this
  · split at h
    · rw [List.mem_singleton.1 h]
      exact (nomatch ·)
    · cases h

theorem target_eq (D : List Str) (t : Str) : target D t = spotOf D t (comps t) := by
  unfold target spotOf comps
  rw [List.foldl_append]
  generalize List.foldl Place.follow _ (names t) = q
  by_cases h : hasTrail t = true
  · rw [if_pos h, List.foldl_cons, List.foldl_nil]
    unfold Place.follow
    rw [if_pos (Or.inr rfl)]
  · rw [if_neg h]
    rfl

theorem comps_nonempty {t : Str} (h : comps t = []) : names t = [] := by
  unfold comps at h
  exact (List.append_eq_nil_iff.1 h).1

/-- Following a link that passes no other link leads to where its lexical target leads. -/
theorem resolves_link (hp : Proper fs) {scope D : List Str} {n t : Str} (hl : Plain fs scope) (hs : scope <+: D)
    (h : fs.find (D ++ [n]) = some (.link t)) (r : List Str) :
    Resolves fs (D ++ [n]) r ↔ Resolves fs (target D t) r := by
  obtain ⟨es, hD⟩ := find_dir (p := D) (q := [n]) (by simp) h
  have hn : Name n := (hp.find h).2 n (by simp)
  have step : ∀ jump, walkIn fs jump true [] (D ++ [n]) = jump (if isAbs t then [] else D) (comps t) := by
    intro jump
    rw [walkIn_dirs hp D [] [n] es (by rw [List.nil_append]; exact hD), List.nil_append, walkIn_name hD (name_ne hn)]
    rw [find_snoc hD] at h
    rw [h]
    simp
  have same : ∀ b, walk fs true b (if isAbs t then [] else D) (comps t) = walk fs true b [] (target D t) := by
    intro b
    obtain ⟨jump, hj⟩ := walk_eq (fs := fs) true b
    have hstart : (if isAbs t then [] else D) = spotOf D t [] := rfl
    by_cases hc : comps t = []
    · have hT : target D t = (if isAbs t then [] else D) := by rw [target_eq, hc]; rfl
      have hr : ∃ es', fs.find (target D t) = some (.dir es') := by
        rw [hT]
        split
        · have := find_dir (n := fs) (p := []) (q := D ++ [n]) (by simp) h
          exact this
        · exact ⟨es, hD⟩
      obtain ⟨es', hr⟩ := hr
      rw [walk_real hp hr trivial, hc, hT, hj]
      rfl
    · obtain ⟨init, c, h1, h2⟩ := walkIn_plain (fs := fs) (jump := jump) (follow := true) (D := D) comps_ne [] (comps t) []
        rfl hc (hl D n t hs h)
      rw [List.append_nil] at h2
      obtain ⟨es1, h3⟩ := hl D n t hs h init (by rw [h1]; exact List.prefix_append _ _) (by
        intro e
        rw [h1] at e
        simp at e)
      have hce : c ≠ [] := comps_ne c (by rw [h1]; simp)
      rw [hj, hstart, h2, ← hj]
      have hT : target D t = _ := (target_eq D t).trans ((congrArg _ h1).trans (spotOf_snoc D t init c))
      by_cases hd : c = dot
      · rw [if_pos (Or.inr hd)] at hT
        rw [hT, walk_real hp h3 trivial, hj, walkIn, h3]
        dsimp only
        rw [if_pos hd]
        rfl
      · rw [if_neg (by rintro (h | h); exacts [hce h, hd h])] at hT
        by_cases hdd : c = dotdot
        · rw [if_pos hdd] at hT
          have : ∃ es2, fs.find (target D t) = some (.dir es2) := by
            rw [hT]
            generalize spotOf D t init = z at h3
            rcases List.eq_nil_or_concat z with rfl | ⟨z', y, rfl⟩
            · exact ⟨_, h3⟩
            · rw [List.concat_eq_append, List.dropLast_concat] at *
              exact find_dir (p := z') (q := [y]) (by simp) h3
          obtain ⟨es2, h4⟩ := this
          rw [walk_real hp h4 trivial, hT, hj, walkIn, h3]
          dsimp only
          rw [if_neg hd, if_pos hdd]
          rfl
        · rw [if_neg hdd] at hT
          rw [hT, hj, walkIn_dirs hp (spotOf D t init) [] [c] es1 (by rw [List.nil_append]; exact h3), List.nil_append]
  constructor
  · rintro ⟨b, hb⟩
    cases b with
    | zero =>
      rw [walk, step] at hb
      cases hb
    | succ b =>
      rw [walk, step, same] at hb
      exact ⟨b, hb⟩
  · rintro ⟨b, hb⟩
    exact ⟨b + 1, by rw [walk, step, same]; exact hb⟩

end Verif.AddCas
