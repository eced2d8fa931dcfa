import Verif.Root.Lemmas

/-!
# Source roots: what git roots answer
-/

namespace Verif.Root

open Verif.Path

/-! ## Validating trees -/

mutual
/-- Whether a tree can be read with all trees below it. -/
def fineDir : Node → Option Bool
  | .dir es =>
    match readTree false es with
    | none => none
    | some none => some false
    | some (some _) => fineSubs es
  | _ => some true
/-- The same for entries. -/
def fineSubs : Entries → Option Bool
  | [] => some true
  | (_, n) :: es =>
    match fineDir n with
    | none => none
    | some false => some false
    | some true => fineSubs es
end

theorem fineSubs_iff {es : Entries} : fineSubs es = some true ↔ ∀ e ∈ es, fineDir e.2 = some true := by
  induction es with
  | nil => simp [fineSubs]
  | cons e t ih =>
    obtain ⟨x, n⟩ := e
    unfold fineSubs
    cases h : fineDir n with
    | none => simp [h]
    | some b =>
      cases b with
      | false => simp [h]
      | true => simp [h, ih]

theorem fineDir_valid {n : Node} (h : Valid n) : fineDir n = some true := by
  induction h with
  | file => rfl
  | link => rfl
  | dir h ih =>
    unfold fineDir
    rw [readTree_valid (.dir h)]
    exact fineSubs_iff.2 ih

theorem linksFine_true {es : Entries} (h : linksFine es = some true) {x c : Str} (hm : (x, Node.link c) ∈ es) : Inside c := by
  induction es with
  | nil => cases hm
  | cons e t ih =>
    obtain ⟨y, n⟩ := e
    rcases List.mem_cons.1 hm with e | hm
    · cases e
      unfold linksFine at h
      cases hn : nonUpwards c with
      | ub =>
        rw [hn] at h
        cases h
      | val b =>
        cases b with
        | true => exact nonUpwards_inside.1 hn
        | false =>
          rw [hn] at h
          cases h
    · refine ih ?_ hm
      cases n with
      | link c' =>
        unfold linksFine at h
        cases hn : nonUpwards c' with
        | ub =>
          rw [hn] at h
          cases h
        | val b =>
          rw [hn] at h
          cases b with
          | true => exact h
          | false => cases h
      | _ => exact h

theorem readTree_false_some {es t : Entries} (h : readTree false es = some (some t)) :
    t = es ∧ (∀ e ∈ es, e.2.kind ≠ none) ∧ linksFine es = some true := by
  unfold readTree readDirect at h
  simp only [Bool.false_eq_true, if_false] at h
  by_cases ha : (es.any fun e => e.2.kind == none) = true
  · rw [if_pos ha] at h
    cases h
  · rw [if_neg ha] at h
    simp only at h
    cases hl : linksFine es with
    | none =>
      rw [hl] at h
      cases h
    | some b =>
      rw [hl] at h
      cases b with
      | false => cases h
      | true =>
        cases h
        refine ⟨rfl, ?_, rfl⟩
        intro e he hk
        apply ha
        rw [List.any_eq_true]
        exact ⟨e, he, by simp [hk]⟩

mutual
theorem valid_of_fine (n : Node) (h : fineDir n = some true) (hd : ∃ es, n = .dir es) : Valid n := by
  match n, hd with
  | .dir es, _ =>
    unfold fineDir at h
    cases hr : readTree false es with
    | none =>
      rw [hr] at h
      cases h
    | some o =>
      cases o with
      | none =>
        rw [hr] at h
        cases h
      | some t =>
        rw [hr] at h
        obtain ⟨-, h2, h3⟩ := readTree_false_some hr
        exact .dir (valid_of_fineSubs es h (fun e he => h2 e he) fun x c hm => linksFine_true h3 hm)
theorem valid_of_fineSubs (es : Entries) (h : fineSubs es = some true) (hk : ∀ e ∈ es, e.2.kind ≠ none)
    (hl : ∀ x c, (x, Node.link c) ∈ es → Inside c) : ∀ e ∈ es, Valid e.2 := by
  match es with
  | [] => simp
  | (x, n) :: t =>
    have hn : fineDir n = some true := (fineSubs_iff.1 h) (x, n) (by simp)
    have ht : fineSubs t = some true := fineSubs_iff.2 fun e he => (fineSubs_iff.1 h) e (List.mem_cons_of_mem _ he)
    intro e he
    rcases List.mem_cons.1 he with e' | he
    · subst e'
      match n with
      | .file c b => exact .file c b
      | .link c => exact .link (hl x c (by simp))
      | .other => exact absurd rfl (hk (x, .other) (by simp))
      | .dir es' => exact valid_of_fine (.dir es') hn ⟨_, rfl⟩
    · exact valid_of_fineSubs t ht (fun e he => hk e (List.mem_cons_of_mem _ he))
        (fun x c hm => hl x c (List.mem_cons_of_mem _ hm)) e he
end

/-- Directories of the root that are marked can be read with everything below. -/
def Sound (H : Node → Str) (content : Entries) (marks : List Str) : Prop :=
  ∀ p es, Under (.dir content) p (.dir es) → H (.dir es) ∈ marks → fineDir (.dir es) = some true

/-- Only one flag is used. -/
def plain (_ : List Str) (f : Bool) : Prop := f = false

mutual
theorem validateDir_pure {H : Node → Str} {content : Entries} (hc : NoClash H content) (n : Node) (b : Bool) (p : List Str) (st : State) (hu : Under (.dir content) p n)
    (hs : Fits plain (Sound H content) st) :
    Same (Fits plain (Sound H content)) (validateDir H (b, p) st n) (fineDir n) := by
  match n with
  | .file .. => exact ⟨rfl, hs⟩
  | .link .. => exact ⟨rfl, hs⟩
  | .other => exact ⟨rfl, hs⟩
  | .dir es =>
    unfold validateDir
    by_cases hm : H (.dir es) ∈ st.marks
    · rw [if_pos hm, hs.2 p es hu hm]
      exact ⟨rfl, hs⟩
    · rw [if_neg hm]
      unfold fineDir entryTree
      obtain ⟨h1, h2⟩ := touch_fits (b := b) (p := p) (ign := false) hs rfl
      have h1' : (touch (b, p) false st).1 = false := h1
      generalize touch (b, p) false st = ts at h1' h2 ⊢
      obtain ⟨f, st1⟩ := ts
      subst h1'
      cases hr : readTree false es with
      | none => trivial
      | some o =>
        cases o with
        | none => exact ⟨rfl, h2⟩
        | some t =>
          simp only [Option.map_some]
          have h3 := validateSubs_pure hc es b p st1 (fun e he => .step hu he) h2
          have hfd : fineDir (.dir es) = fineSubs es := by
            unfold fineDir
            rw [hr]
          cases hf : fineSubs es with
          | none =>
            rw [hf] at h3
            rw [h3.none_right]
            trivial
          | some v =>
            rw [hf] at h3
            obtain ⟨st2, e2, h4⟩ := h3.some_right
            rw [e2]
            cases v with
            | false => exact ⟨rfl, h4⟩
            | true =>
              refine ⟨rfl, h4.1, ?_⟩
              intro q es' hq hmem
              rcases List.mem_cons.1 hmem with e | hmem
              · rw [hc q p es' es hq hu e, hfd, hf]
              · exact h4.2 q es' hq hmem
theorem validateSubs_pure {H : Node → Str} {content : Entries} (hc : NoClash H content) (es : Entries) (b : Bool) (p : List Str) (st : State)
    (hu : ∀ e ∈ es, Under (.dir content) (p ++ [e.1]) e.2) (hs : Fits plain (Sound H content) st) :
    Same (Fits plain (Sound H content)) (validateSubs H (b, p) false st es) (fineSubs es) := by
  match es with
  | [] => exact ⟨rfl, hs⟩
  | (x, n) :: t =>
    unfold validateSubs fineSubs
    simp only [Bool.false_and, Bool.false_eq_true, if_false]
    have h := validateDir_pure hc n b (p ++ [x]) st (hu (x, n) (by simp)) hs
    cases hf : fineDir n with
    | none =>
      rw [hf] at h
      rw [h.none_right]
      trivial
    | some v =>
      rw [hf] at h
      obtain ⟨st', e, h'⟩ := h.some_right
      rw [e]
      cases v with
      | false => exact ⟨rfl, h'⟩
      | true => exact validateSubs_pure hc t b p st' (fun e he => hu e (List.mem_cons_of_mem _ he)) h'
end

/-! ## Directories, if nothing is ignored -/

theorem reading_plain (content : Entries) : Reading content false plain (readTree false) where
  first _ _ := rfl
  later _ _ := rfl
  reads := by
    rintro p es f - - rfl
    rfl

/-- The answer for an entry. -/
def plainOf : Option (List Str × Node) → Option (Option Listing)
  | some (_, .dir es) => (fineDir (.dir es)).map fun b => if b then some (listing false es es) else none
  | _ => some (some ⟨[], none⟩)

/-- The answer for the root. -/
def plainRoot (G : GitRoot) : Option (Option Listing) :=
  (fineDir (.dir G.content)).map fun b => if b then some (listing false G.tree G.content) else none

theorem pureGo_under {content : Entries} {ρ : Entries → Option (Option Entries)} (hρ : ∀ es t, ρ es = some (some t) → t ⊆ es)
    (l : List Str) {p q : List Str} {tree : Entries} {n : Node} (hp : ∃ es, Under (.dir content) p (.dir es) ∧ tree ⊆ es)
    (h : pureGo ρ p tree l = some (some (q, n))) : Under (.dir content) q n ∧ q = p ++ l := by
  induction l generalizing p tree with
  | nil => cases h
  | cons x rest ih =>
    obtain ⟨es, hu, hsub⟩ := hp
    cases rest with
    | nil =>
      unfold pureGo at h
      cases hx : entryIn tree x with
      | none =>
        rw [hx] at h
        cases h
      | some m =>
        rw [hx] at h
        cases h
        exact ⟨.step hu (hsub (mem_of_entryIn hx)), rfl⟩
    | cons y rest =>
      unfold pureGo at h
      cases hx : entryIn tree x with
      | none =>
        rw [hx] at h
        cases h
      | some m =>
        rw [hx] at h
        cases m with
        | dir es' =>
          simp only at h
          cases hr : ρ es' with
          | none =>
            rw [hr] at h
            cases h
          | some o =>
            rw [hr] at h
            cases o with
            | none => cases h
            | some t =>
              obtain ⟨h1, h2⟩ := ih ⟨es', .step hu (hsub (mem_of_entryIn hx)), hρ _ _ hr⟩ h
              exact ⟨h1, by rw [h2]; simp⟩
        | _ => cases h

theorem gitDirectory_plain {G : GitRoot} (hi : G.ign = false) (hc : NoClash G.H G.content) {st : State}
    (hs : Fits plain (Sound G.H G.content) st) (s : Str) :
    Same (Fits plain (Sound G.H G.content)) (gitDirectory G st s)
      (if (if s = [] then dot else s) = dot then plainRoot G
      else (pureLook (readTree false) G (if s = [] then dot else s)).bind plainOf) := by
  unfold gitDirectory
  generalize (if s = [] then dot else s) = u
  have hR : Reading G.content G.ign plain (readTree false) := by
    rw [hi]
    exact reading_plain _
  have h := isDirectory_pure hR hs u
  by_cases hd : u = dot
  · rw [if_pos hd] at h ⊢
    obtain ⟨st', e, h'⟩ := h.some_right
    rw [e]
    unfold readDirectory plainRoot
    simp only [hd, if_true, hi, Bool.false_eq_true, if_false]
    have h2 := validateDir_pure hc (.dir G.content) true [] st' (.here _) h'
    simp only [treeValid]
    cases hf : fineDir (.dir G.content) with
    | none =>
      rw [hf] at h2
      rw [h2.none_right]
      trivial
    | some v =>
      rw [hf] at h2
      obtain ⟨st2, e2, h3⟩ := h2.some_right
      rw [e2]
      cases v <;> exact ⟨rfl, h3⟩
  · rw [if_neg hd] at h ⊢
    cases hv : pureLook (readTree false) G u with
    | none =>
      rw [hv] at h
      rw [h.none_right]
      trivial
    | some r =>
      rw [hv] at h
      obtain ⟨st', e, h'⟩ := h.some_right
      rw [e]
      rcases r with _ | ⟨p, n⟩
      · exact ⟨rfl, h'⟩
      · cases n with
        | dir es =>
          simp only [dirOf, readDirectory, if_neg hd, Option.bind_some, plainOf]
          have h2 := lookup_pure hR h' u
          rw [hv] at h2
          obtain ⟨st2, e2, h3⟩ := h2.some_right
          rw [e2]
          simp only [hi, Bool.false_eq_true, if_false, treeValid]
          have hu := (pureGo_under (fun es t => readTree_sub (f := false)) _ ⟨_, .here _, tree_sub G⟩ hv).1
          have h4 := validateDir_pure hc (.dir es) false p st2 hu h3
          cases hf : fineDir (.dir es) with
          | none =>
            rw [hf] at h4
            rw [h4.none_right]
            trivial
          | some v =>
            rw [hf] at h4
            obtain ⟨st3, e3, h5⟩ := h4.some_right
            rw [e3]
            cases v with
            | false => exact ⟨rfl, h5⟩
            | true =>
              simp only [readEntry, hi, entryTree]
              obtain ⟨h6, h7⟩ := touch_fits (b := false) (p := p) (ign := false) h5 rfl
              have h6' : (touch (false, p) false st3).1 = false := h6
              have hr : readTree false es = some (some es) := readTree_valid (valid_of_fine _ hf ⟨_, rfl⟩)
              rw [h6', hr]
              simp only [Option.map_some, h6']
              exact ⟨rfl, h7⟩
        | _ => exact ⟨rfl, h'⟩

/-! ## Directories, if special entries are ignored -/

/-- Read ignoring special entries. -/
def drop (es : Entries) : Option (Option Entries) := some (some (es.filter fun e => !e.2.special))

/-- The flags that are used: directories at the first level are always read ignoring special entries. -/
def firstIgnored (p : List Str) (f : Bool) : Prop := p.length ≤ 1 → f = true

theorem linksFine_none {es : Entries} (h : ∀ e ∈ es, e.2.special = false) : linksFine es = some true := by
  induction es with
  | nil => rfl
  | cons e t ih =>
    obtain ⟨x, n⟩ := e
    have ht := ih fun e he => h e (List.mem_cons_of_mem _ he)
    have hn := h (x, n) (by simp)
    cases n with
    | link c => cases hn
    | _ => exact ht

theorem readTree_none {es : Entries} (h : ∀ e ∈ es, e.2.special = false) (f : Bool) : readTree f es = some (some es) := by
  have hf : (es.filter fun e => !e.2.special) = es := by
    rw [List.filter_eq_self]
    intro e he
    simp [h e he]
  cases f with
  | true => rw [readTree_true, hf]
  | false =>
    unfold readTree readDirect
    simp only [Bool.false_eq_true, if_false]
    rw [if_neg]
    · simp [linksFine_none h]
    · rw [List.any_eq_true]
      rintro ⟨⟨x, n⟩, he, hk⟩
      have := h _ he
      revert hk this
      cases n <;> simp [Node.kind, Node.special]

theorem reading_ignoring {content : Entries} (h : Shallow content) : Reading content true firstIgnored drop where
  first _ _ _ := rfl
  later p hp hl := by omega
  reads := by
    intro p es f hu hp ho
    by_cases hl : p.length ≤ 1
    · rw [ho hl, readTree_true]
      rfl
    · have hn : ∀ e ∈ es, e.2.special = false := fun e he => h p es e.1 e.2 hu (by omega) he
      rw [readTree_none hn]
      unfold drop
      rw [List.filter_eq_self.2]
      intro e he
      simp [hn e he]

/-- The answer for an entry: the names are determined; the tree may be known, if nothing is missing. -/
def Ignoring (content : Entries) (r : Option (List Str × Node)) (L : Listing) : Prop :=
  match r with
  | some (p, .dir es) => L.entries = kinds (es.filter fun e => !e.2.special) ∧
      (L.known = none ∨ L.known = some es ∧ 2 ≤ p.length ∧ Under (.dir content) p (.dir es))
  | _ => L = ⟨[], none⟩

theorem gitDirectory_ignoring {G : GitRoot} (hi : G.ign = true) (hsh : Shallow G.content) {M : List Str → Prop} {st : State}
    (hs : Fits firstIgnored M st) {s : Str} (hd : (if s = [] then dot else s) ≠ dot) {r : Option (List Str × Node)}
    (hv : pureLook drop G (if s = [] then dot else s) = some r) :
    ∃ L st', gitDirectory G st s = some (some L, st') ∧ Fits firstIgnored M st' ∧ Ignoring G.content r L := by
  unfold gitDirectory
  revert hd hv
  generalize (if s = [] then dot else s) = u
  intro hd hv
  have hR : Reading G.content G.ign firstIgnored drop := by
    rw [hi]
    exact reading_ignoring hsh
  have h := isDirectory_pure hR hs u
  rw [if_neg hd, hv] at h
  obtain ⟨st', e, h'⟩ := h.some_right
  rw [e]
  rcases r with _ | ⟨p, n⟩
  · exact ⟨_, _, rfl, h', rfl⟩
  · cases n with
    | dir es =>
      simp only [dirOf, readDirectory, if_neg hd]
      have h2 := lookup_pure hR h' u
      rw [hv] at h2
      obtain ⟨st2, e2, h3⟩ := h2.some_right
      rw [e2]
      obtain ⟨hu, hp⟩ := pureGo_under (ρ := drop) (by
        intro es t h
        cases h
        exact List.filter_subset_self _) _ ⟨_, .here _, tree_sub G⟩ hv
      have hpne : p ≠ [] := by
        intro e0
        rw [e0] at hp
        have hz : resolvePath u = [] := by simpa using hp.symm
        unfold pureLook at hv
        rw [hz] at hv
        cases hv
      simp only [hi, if_true, readEntry, entryTree]
      obtain ⟨h6, h7⟩ := touch_fits (b := false) (p := p) (ign := true) h3 (fun _ => rfl)
      have hr := hR.reads p es _ hu hpne h6
      rw [hr]
      refine ⟨_, _, rfl, h7, rfl, ?_⟩
      unfold listing
      cases hf : (touch (false, p) true st2).1 with
      | true => exact Or.inl rfl
      | false =>
        refine Or.inr ⟨rfl, ?_, hu⟩
        by_contra hcon
        have := h6 (by omega)
        rw [hf] at this
        cases this
    | _ => exact ⟨_, _, rfl, h', rfl⟩

theorem gitDirectory_root {G : GitRoot} (hi : G.ign = true) {st : State} {s : Str} (hd : (if s = [] then dot else s) = dot) :
    gitDirectory G st s = some (some ⟨kinds (G.content.filter fun e => !e.2.special), none⟩, st) := by
  unfold gitDirectory
  simp only [hd, isDirectory, if_true, readDirectory, hi, listing, GitRoot.tree, readDirect, Option.getD_some]

end Verif.Root
