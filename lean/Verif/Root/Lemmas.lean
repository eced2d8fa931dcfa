import Verif.Root.Model
import Verif.Path.Lemmas
import Verif.Symlinks.Lemmas

/-!
# Source roots: lemmas
-/

namespace Verif.Root

open Verif.Path
open Verif.Symlinks (join_snoc splitAt_join filename_noSlash filename_sep)

/-! ## Paths -/

theorem Names.nil : Names [] := by simp [Names]

theorem Names.snoc {l : List Str} {x : Str} (h : Names l) (hx : ProperName x) : Names (l ++ [x]) := by
  intro a ha
  rcases List.mem_append.1 ha with ha | ha
  · exact h a ha
  · rw [List.mem_singleton.1 ha]
    exact hx

theorem Names.left {l m : List Str} (h : Names (l ++ m)) : Names l := fun a ha => h a (List.mem_append_left _ ha)

theorem Names.right {l m : List Str} (h : Names (l ++ m)) : Names m := fun a ha => h a (List.mem_append_right _ ha)

theorem Names.append {l m : List Str} (h : Names l) (h' : Names m) : Names (l ++ m) := by
  intro a ha
  rcases List.mem_append.1 ha with ha | ha
  · exact h a ha
  · exact h' a ha

theorem Names.seg {l : List Str} (h : Names l) : ∀ a ∈ l, Seg a := fun a ha => (h a ha).seg

theorem elems_join {l : List Str} (h : Names l) : elems (joinWith '/' l) = l := by
  unfold elems
  rw [isAbs_join h.seg, names_join h.seg]
  have : hasTrail (joinWith '/' l) = false := by
    unfold hasTrail
    by_cases hl : l = []
    · subst hl
      rfl
    · obtain ⟨c, hc, hg⟩ := joinWith_getLast hl h.seg
      rw [hg]
      simp [hc]
  rw [this]
  simp

theorem resolvePath_place {s : Str} {l : List Str} (h : place s = ⟨false, 0, l⟩) (hl : l ≠ []) : resolvePath s = l := by
  have hs : s ≠ [] := by
    rintro rfl
    have : (⟨false, 0, []⟩ : Place) = ⟨false, 0, l⟩ := h
    exact hl (Place.mk.inj this).2.2.symm
  have hn : Names l := by
    have := (wf_place s).1
    rw [h] at this
    exact this
  have hsegs : (place s).segs = l := by
    rw [h]
    simp [Place.segs]
  have hc : canon (place s) = joinWith '/' l := by
    rw [h]
    unfold canon
    simp [Place.segs, hl]
  obtain ⟨c, hc', hg⟩ := joinWith_getLast hl hn.seg
  have hne := joinWith_ne_nil hl hn.seg
  unfold resolvePath
  have hap : append (lexNormal s) [] = joinWith '/' l ++ ['/'] := by
    rcases lexNormal_eq s hs with h1 | ⟨h1, -, -⟩
    · rw [h1, hc]
      unfold append
      rw [if_neg (by simp [isAbs]), if_neg]
      simp [hne, hg, hc']
    · rw [h1, hc]
      unfold append
      rw [if_neg (by simp [isAbs]), if_pos (by simp)]
      simp
  rw [hap, parentPath_trail l hn.seg hl, elems_join hn]

theorem place_join {l : List Str} (h : Names l) : place (joinWith '/' l) = ⟨false, 0, l⟩ := by
  by_cases hl : l = []
  · subst hl
    rfl
  · have := place_canon (p := ⟨false, 0, l⟩) ⟨h, by simp⟩
    unfold canon at this
    simpa [Place.segs, hl] using this

theorem resolvePath_join {l : List Str} (h : Names l) (hl : l ≠ []) : resolvePath (joinWith '/' l) = l :=
  resolvePath_place (place_join h) hl

theorem foldl_step {l : List Str} (h : Names l) (acc : List Str) :
    l.foldl Norm.step ⟨false, acc, false⟩ = ⟨false, l.reverse ++ acc, false⟩ := by
  induction l generalizing acc with
  | nil => rfl
  | cons a t ih =>
    have ha := h a (by simp)
    rw [List.foldl_cons]
    have : Norm.step ⟨false, acc, false⟩ a = ⟨false, a :: acc, false⟩ := by
      unfold Norm.step
      rw [if_neg ha.2.2.2, if_neg (by rintro (e | e); exacts [ha.2.2.1 e, ha.2.1 e])]
    rw [this, ih (fun b hb => h b (List.mem_cons_of_mem _ hb))]
    simp

theorem lexNormal_join {l : List Str} (h : Names l) : lexNormal (joinWith '/' l) = joinWith '/' l := by
  by_cases hl : l = []
  · subst hl
    rfl
  · have hne := joinWith_ne_nil hl h.seg
    have ht : hasTrail (joinWith '/' l) = false := by
      unfold hasTrail
      obtain ⟨c, hc, hg⟩ := joinWith_getLast hl h.seg
      rw [hg]
      simp [hc]
    unfold lexNormal
    rw [if_neg hne, names_join h.seg, isAbs_join h.seg, ht]
    simp only [Bool.false_eq_true, if_false, List.append_nil]
    rw [foldl_step h]
    unfold Norm.finish
    have : (⟨false, l.reverse ++ [], false⟩ : Norm).str = joinWith '/' l := by simp [Norm.str]
    simp only
    split
    · rw [this, if_neg hne]
    · rw [this, if_neg hne]

theorem append_join {m l : List Str} (hm : Names m) (hl : Names l) (hn : l ≠ []) :
    append (joinWith '/' m) (joinWith '/' l) = joinWith '/' (m ++ l) := by
  unfold append
  rw [isAbs_join hl.seg]
  simp only [Bool.false_eq_true, if_false]
  by_cases hm' : m = []
  · subst hm'
    simp [joinWith]
  · obtain ⟨c, hc, hg⟩ := joinWith_getLast hm' hm.seg
    rw [if_neg, joinWith_append _ hm' hn]
    simp [joinWith_ne_nil hm' hm.seg, hg, hc]

theorem append_one {m : List Str} {x : Str} (hm : Names m) (hx : ProperName x) :
    append (joinWith '/' m) x = joinWith '/' (m ++ [x]) := by
  have := append_join hm (l := [x]) (by simpa [Names] using hx) (by simp)
  simpa [joinWith] using this

theorem join_ne_dot {l : List Str} (h : Names l) : joinWith '/' l ≠ dot := by
  intro e
  have := place_join h
  rw [e] at this
  have h0 : place dot = ⟨false, 0, []⟩ := by decide
  rw [h0] at this
  have hl := (Place.mk.inj this).2.2
  subst hl
  exact absurd e (by decide)

theorem filename_join {m : List Str} {x : Str} (hx : ProperName x) : filename (joinWith '/' (m ++ [x])) = x := by
  by_cases hm : m = []
  · subst hm
    exact filename_noSlash hx.1
  · rw [join_snoc hm]
    exact filename_sep _ hx.1

theorem outside_join {l : List Str} (h : Names l) (hl : l ≠ []) : outside (joinWith '/' l) = some false := by
  unfold outside
  rw [lexNormal_join h, isAbs_join h.seg, elems_join h]
  cases l with
  | nil => exact absurd rfl hl
  | cons a t =>
    have := (h a (by simp)).2.2.2
    simp [this]

theorem nonUpwards_inside {c : Str} : nonUpwards c = .val true ↔ Inside c := by
  by_cases hc : c = []
  · subst hc
    constructor
    · intro h
      exact absurd h (by decide)
    · intro h
      exact absurd rfl h.1
  · obtain ⟨b, h1, h2⟩ := nonUpwards_eq c hc
    have ha : (place c).abs = isAbs c := by
      rw [place_eq]
      have : ∀ (l : List Str) (p : Place), (l.foldl Place.follow p).abs = p.abs := by
        intro l
        induction l with
        | nil => intro p; rfl
        | cons a t ih =>
          intro p
          rw [List.foldl_cons, ih]
          unfold Place.follow
          split
          · rfl
          · split
            · split
              · split <;> rfl
              · rfl
            · rfl
      rw [this]
    rw [h1]
    unfold Inside
    rw [ha]
    constructor
    · intro h
      have hb : b = true := by simpa using h
      exact ⟨hc, h2.1 hb⟩
    · intro h
      rw [h2.2 h.2]

/-! ## Trees -/

theorem find_nil (n : Node) : n.find [] = some n := by cases n <;> rfl

theorem find_cons (es : Entries) (x : Str) (l : List Str) :
    (Node.dir es).find (x :: l) = (entryIn es x).bind fun m => m.find l := by
  rw [Node.find]
  cases entryIn es x <;> rfl

theorem find_leaf {n : Node} (h : ∀ es, n ≠ .dir es) (x : Str) (l : List Str) : n.find (x :: l) = none := by
  cases n with
  | dir es => exact absurd rfl (h es)
  | _ => rfl

theorem find_append (n : Node) (a b : List Str) : n.find (a ++ b) = (n.find a).bind fun m => m.find b := by
  induction a generalizing n with
  | nil => simp [find_nil]
  | cons x t ih =>
    cases n with
    | dir es =>
      rw [List.cons_append, find_cons, find_cons]
      cases entryIn es x with
      | none => rfl
      | some m => exact ih m
    | _ => rfl

theorem mem_of_entryIn {es : Entries} {x : Str} {n : Node} (h : entryIn es x = some n) : (x, n) ∈ es := by
  induction es with
  | nil => cases h
  | cons e t ih =>
    obtain ⟨y, m⟩ := e
    unfold entryIn at h
    split at h
    · rename_i e
      subst e
      cases h
      simp
    · exact List.mem_cons_of_mem _ (ih h)

theorem entryIn_of_mem {es : Entries} {x : Str} {n : Node} (hd : (es.map Prod.fst).Nodup) (h : (x, n) ∈ es) :
    entryIn es x = some n := by
  induction es with
  | nil => cases h
  | cons e t ih =>
    obtain ⟨y, m⟩ := e
    unfold entryIn
    rw [List.map_cons, List.nodup_cons] at hd
    rcases List.mem_cons.1 h with h | h
    · cases h
      simp
    · rw [if_neg]
      · exact ih hd.2 h
      · rintro rfl
        exact hd.1 (List.mem_map.2 ⟨_, h, rfl⟩)

theorem stripped_eq (es : Entries) : stripped es = (es.filter fun e => !e.2.special).map fun e => (e.1, e.2.strip) := by
  induction es with
  | nil => rfl
  | cons e t ih =>
    obtain ⟨x, n⟩ := e
    unfold stripped
    by_cases h : n.special = true
    · simp [h, ih]
    · simp [h, ih]

theorem entryIn_map (f : Node → Node) (es : Entries) (x : Str) :
    entryIn (es.map fun e => (e.1, f e.2)) x = (entryIn es x).map f := by
  induction es with
  | nil => rfl
  | cons e t ih =>
    obtain ⟨y, m⟩ := e
    rw [List.map_cons]
    unfold entryIn
    by_cases h : y = x
    · simp [h]
    · simp [h, ih]

theorem strip_kind (n : Node) : n.strip.kind = n.kind := by cases n <;> rfl

theorem kinds_stripped (es : Entries) : kinds (stripped es) = kinds (es.filter fun e => !e.2.special) := by
  rw [stripped_eq]
  unfold kinds
  rw [List.map_map]
  apply List.map_congr_left
  intro e _
  simp [strip_kind]

theorem under_of_find {n m : Node} {l : List Str} (h : n.find l = some m) : Under n l m := by
  induction l using List.reverseRecOn generalizing m with
  | nil =>
    rw [find_nil] at h
    cases h
    exact .here n
  | append_singleton l x ih =>
    rw [find_append] at h
    cases hl : n.find l with
    | none =>
      rw [hl] at h
      cases h
    | some k =>
      rw [hl] at h
      cases k with
      | dir es =>
        have h' : (Node.dir es).find [x] = some m := h
        rw [find_cons] at h'
        cases hx : entryIn es x with
        | none =>
          rw [hx] at h'
          cases h'
        | some m' =>
          rw [hx] at h'
          have : m' = m := by simpa [find_nil] using h'
          subst this
          exact .step (ih hl) (mem_of_entryIn hx)
      | _ => cases h

theorem Under.trans {a b c : Node} {p q : List Str} (h : Under a p b) (h' : Under b q c) : Under a (p ++ q) c := by
  induction h' with
  | here => rwa [List.append_nil]
  | step _ hm ih =>
    rw [← List.append_assoc]
    exact .step ih hm

theorem Valid.under {n m : Node} {p : List Str} (h : Under n p m) (hv : Valid n) : Valid m := by
  induction h with
  | here => exact hv
  | step _ hm ih =>
    cases ih with
    | dir h => exact h _ hm

theorem Named.under {n m : Node} {p : List Str} (h : Under n p m) (hv : Named n) : Named m := by
  induction h with
  | here => exact hv
  | step _ hm ih =>
    cases ih with
    | dir _ _ h => exact h _ hm

theorem linksFine_valid {es : Entries} (h : ∀ e ∈ es, Valid e.2) : linksFine es = some true := by
  induction es with
  | nil => rfl
  | cons e t ih =>
    obtain ⟨x, n⟩ := e
    have ht := ih fun e he => h e (List.mem_cons_of_mem _ he)
    have hn := h (x, n) (by simp)
    cases n with
    | link c =>
      cases hn with
      | link hc =>
        unfold linksFine
        rw [nonUpwards_inside.2 hc]
        exact ht
    | _ => exact ht

theorem readDirect_valid {es : Entries} (h : Valid (.dir es)) : readDirect false es = some es := by
  cases h with
  | dir h =>
    unfold readDirect
    simp only [Bool.false_eq_true, if_false]
    rw [if_neg]
    rw [List.any_eq_true]
    rintro ⟨⟨x, n⟩, he, hk⟩
    have := h _ he
    revert hk
    cases n with
    | other => cases this
    | _ => simp [Node.kind]

theorem readTree_valid {es : Entries} (h : Valid (.dir es)) : readTree false es = some (some es) := by
  unfold readTree
  rw [readDirect_valid h]
  cases h with
  | dir h => simp [linksFine_valid h]

theorem readTree_true (es : Entries) : readTree true es = some (some (es.filter fun e => !e.2.special)) := by
  simp [readTree, readDirect]

theorem readTree_sub {f : Bool} {es t : Entries} (h : readTree f es = some (some t)) : t ⊆ es := by
  unfold readTree at h
  cases hd : readDirect f es with
  | none =>
    rw [hd] at h
    cases h
  | some l =>
    rw [hd] at h
    have hl : l ⊆ es := by
      unfold readDirect at hd
      split at hd
      · cases hd
        exact List.filter_subset_self _
      · split at hd
        · cases hd
        · cases hd
          exact List.Subset.refl _
    simp only at h
    split at h
    · cases h
      exact hl
    · split at h
      · cases h
      · split at h
        · cases h
          exact hl
        · cases h

theorem tree_sub (G : GitRoot) : G.tree ⊆ G.content := by
  unfold GitRoot.tree readDirect
  split
  · exact List.filter_subset_self _
  · split
    · exact List.nil_subset _
    · exact List.Subset.refl _

/-! ## Reading git trees -/

/-- What the trees of entries are read as, whatever is remembered. -/
structure Reading (content : Entries) (ign : Bool) (ok : List Str → Bool → Prop) (ρ : Entries → Option (Option Entries)) :
    Prop where
  first : ∀ p, p ≠ [] → ok p ign
  later : ∀ p, 2 ≤ p.length → ok p false
  reads : ∀ p es f, Under (.dir content) p (.dir es) → p ≠ [] → ok p f → readTree f es = ρ es

/-- What is remembered of the entries fits, and so do the marks. -/
def Fits (ok : List Str → Bool → Prop) (M : List Str → Prop) (st : State) : Prop :=
  (∀ b p f, st.cache.lookup (b, p) = some f → ok p f) ∧ M st.marks

theorem touch_fits {ok : List Str → Bool → Prop} {M : List Str → Prop} {st : State} {b : Bool} {p : List Str} {ign : Bool}
    (h : Fits ok M st) (hp : ok p ign) :
    ok p (touch (b, p) ign st).1 ∧ Fits ok M (touch (b, p) ign st).2 := by
  unfold touch
  cases hl : st.cache.lookup (b, p) with
  | some f => exact ⟨h.1 b p f hl, h⟩
  | none =>
    refine ⟨hp, ?_, h.2⟩
    intro c q f hq
    simp only [List.lookup_cons] at hq
    by_cases e : ((c, q) : Key) = (b, p)
    · rw [e] at hq
      cases e
      simp at hq
      subst hq
      exact hp
    · rw [beq_eq_false_iff_ne.2 e] at hq
      exact h.1 c q f hq

/-- Looking up without remembering. -/
def pureGo (ρ : Entries → Option (Option Entries)) (p : List Str) (tree : Entries) :
    List Str → Option (Option (List Str × Node))
  | [] => none
  | [x] => some ((entryIn tree x).map fun n => (p ++ [x], n))
  | x :: y :: rest =>
    match entryIn tree x with
    | some (.dir es) =>
      match ρ es with
      | none => none
      | some none => some none
      | some (some t) => pureGo ρ (p ++ [x]) t (y :: rest)
    | _ => some none

/-- The answer is the given one, and what is remembered afterwards has the property. -/
def Same {α : Type} (I : State → Prop) (r : Option (α × State)) (v : Option α) : Prop :=
  match r, v with
  | none, none => True
  | some (a, st'), some b => a = b ∧ I st'
  | _, _ => False

theorem Same.ret {α : Type} {I : State → Prop} {st : State} (h : I st) (a : α) : Same I (some (a, st)) (some a) := ⟨rfl, h⟩

theorem Same.none_right {α : Type} {I : State → Prop} {r : Option (α × State)} (h : Same I r none) : r = none := by
  cases r with
  | none => rfl
  | some _ => exact h.elim

theorem Same.some_right {α : Type} {I : State → Prop} {r : Option (α × State)} {a : α} (h : Same I r (some a)) :
    ∃ st, r = some (a, st) ∧ I st := by
  cases r with
  | none => exact h.elim
  | some r => exact ⟨r.2, by rw [← h.1], h.2⟩

theorem lookupGo_pure {content : Entries} {ign : Bool} {ok : List Str → Bool → Prop} {ρ : Entries → Option (Option Entries)}
    {M : List Str → Prop} (hR : Reading content ign ok ρ) (l : List Str) {p : List Str} {b : Bool} {tree : Entries} {st : State}
    (hp : ∃ es, Under (.dir content) p (.dir es) ∧ tree ⊆ es) (hb : p = [] ∧ b = ign ∨ p ≠ [] ∧ b = false)
    (hs : Fits ok M st) : Same (Fits ok M) (lookupGo p b tree st l) (pureGo ρ p tree l) := by
  induction l generalizing p b tree st with
  | nil => trivial
  | cons x rest ih =>
    cases rest with
    | nil => exact ⟨rfl, hs⟩
    | cons y rest =>
      unfold lookupGo pureGo
      cases hx : entryIn tree x with
      | none => exact ⟨rfl, hs⟩
      | some n =>
        cases n with
        | dir es =>
          obtain ⟨es0, hu, hsub⟩ := hp
          have hu' : Under (.dir content) (p ++ [x]) (.dir es) := .step hu (hsub (mem_of_entryIn hx))
          have hpne : p ++ [x] ≠ [] := by simp
          have hok : ok (p ++ [x]) b := by
            rcases hb with ⟨-, e⟩ | ⟨h, e⟩
            · rw [e]
              exact hR.first _ hpne
            · rw [e]
              refine hR.later _ ?_
              rw [List.length_append]
              have := List.length_pos_of_ne_nil h
              simp
              omega
          obtain ⟨h1, h2⟩ := touch_fits (b := false) (ign := b) hs hok
          have hr := hR.reads _ _ _ hu' hpne h1
          unfold entryTree
          simp only
          rw [hr]
          cases hρ : ρ es with
          | none => trivial
          | some o =>
            cases o with
            | none => exact ⟨rfl, h2⟩
            | some t =>
              rw [hρ] at hr
              exact ih (p := p ++ [x]) (b := false) (tree := t) (st := (touch (false, p ++ [x]) b st).2)
                ⟨es, hu', readTree_sub hr⟩ (Or.inr ⟨hpne, rfl⟩) h2
        | _ => exact ⟨rfl, hs⟩

/-- Looking up a path without remembering. -/
def pureLook (ρ : Entries → Option (Option Entries)) (G : GitRoot) (s : Str) : Option (Option (List Str × Node)) :=
  pureGo ρ [] G.tree (resolvePath s)

section
variable {G : GitRoot} {ok : List Str → Bool → Prop} {ρ : Entries → Option (Option Entries)} {M : List Str → Prop}
  (hR : Reading G.content G.ign ok ρ) {st : State} (hs : Fits ok M st) (s : Str)
include hR hs

theorem lookup_pure : Same (Fits ok M) (lookup G st s) (pureLook ρ G s) :=
  lookupGo_pure hR _ ⟨_, .here _, tree_sub G⟩ (Or.inl ⟨rfl, rfl⟩) hs

/-- Whether there is a file. -/
def fileOf : Option (List Str × Node) → Bool
  | some (_, .file _ _) => true
  | _ => false

theorem isFile_pure : Same (Fits ok M) (isFile G st s) ((pureLook ρ G s).map fileOf) := by
  have h := lookup_pure hR hs s
  unfold isFile
  cases hv : pureLook ρ G s with
  | none =>
    rw [hv] at h
    rw [h.none_right]
    trivial
  | some r =>
    rw [hv] at h
    obtain ⟨st', e, h'⟩ := h.some_right
    rw [e]
    rcases r with _ | ⟨p, n⟩
    · exact ⟨rfl, h'⟩
    · cases n <;> exact ⟨rfl, h'⟩

/-- Whether there is a symbolic link that is not ignored. -/
def linkOf (ign : Bool) : Option (List Str × Node) → Option Bool
  | some (_, .link c) => if ign then some false else (blob (.link c)).map fun b => b.isSome
  | _ => some false

theorem isSymlink_pure : Same (Fits ok M) (isSymlink G st s) (if G.ign then some false else (pureLook ρ G s).bind (linkOf G.ign)) := by
  have h := lookup_pure hR hs s
  unfold isSymlink
  cases hi : G.ign with
  | true => exact ⟨rfl, hs⟩
  | false =>
    simp only [Bool.false_eq_true, if_false]
    cases hv : pureLook ρ G s with
    | none =>
      rw [hv] at h
      rw [h.none_right]
      trivial
    | some r =>
      rw [hv] at h
      obtain ⟨st', e, h'⟩ := h.some_right
      rw [e]
      rcases r with _ | ⟨p, n⟩
      · exact ⟨rfl, h'⟩
      · cases n with
        | link c =>
          simp only [Option.bind_some, linkOf, Bool.false_eq_true, if_false]
          cases blob (.link c) with
          | none => trivial
          | some b => exact ⟨rfl, h'⟩
        | _ => exact ⟨rfl, h'⟩

/-- The content of a file. -/
def jsonOf : Option (List Str × Node) → Read
  | some (_, .file c _) => .content c
  | _ => .absent

theorem gitJson_pure : Same (Fits ok M) (gitJson G st s) ((pureLook ρ G s).map jsonOf) := by
  have h := isFile_pure hR hs s
  unfold gitJson
  cases hv : pureLook ρ G s with
  | none =>
    rw [hv] at h
    rw [h.none_right]
    trivial
  | some r =>
    rw [hv] at h
    obtain ⟨st', e, h'⟩ := h.some_right
    rw [e]
    rcases r with _ | ⟨p, n⟩
    · exact ⟨rfl, h'⟩
    · cases n with
      | file c x =>
        have h2 := lookup_pure hR h' s
        rw [hv] at h2
        obtain ⟨st2, e2, h2⟩ := h2.some_right
        simp only [fileOf, readContent, e2, blob, Option.map_some]
        exact ⟨rfl, h2⟩
      | _ => exact ⟨rfl, h'⟩

/-- The artifact for an entry. -/
def artifactOf (ign : Bool) : Option (List Str × Node) → Option (Option Node)
  | some (_, .file c x) => some (some (.file c x))
  | some (_, .link c) => if ign then some none else (blob (.link c)).map fun b => b.map .link
  | _ => some none

theorem gitBlob_pure : Same (Fits ok M)
    (match isBlob G st s with
    | none => none
    | some (false, st') => some (none, st')
    | some (true, st') => toArtifact G st' s) ((pureLook ρ G s).bind (artifactOf G.ign)) := by
  have h := isFile_pure hR hs s
  unfold isBlob
  cases hv : pureLook ρ G s with
  | none =>
    rw [hv] at h
    rw [h.none_right]
    trivial
  | some r =>
    rw [hv] at h
    obtain ⟨st', e, h'⟩ := h.some_right
    rw [e]
    have hl := isSymlink_pure hR h' s
    rw [hv] at hl
    have hno : (if G.ign then some false else (some r).bind (linkOf G.ign)) = some false → fileOf r = false →
        artifactOf G.ign r = some none → Same (Fits ok M)
        (match (match (some (fileOf r, st') : Option (Bool × State)) with
          | none => none
          | some (true, st') => some (true, st')
          | some (false, st') => isSymlink G st' s) with
        | none => none
        | some (false, st') => some (none, st')
        | some (true, st') => toArtifact G st' s) ((some r).bind (artifactOf G.ign)) := by
      intro h1 h2 h3
      rw [h1] at hl
      obtain ⟨st2, e2, hl⟩ := hl.some_right
      rw [h2]
      simp only [e2, Option.bind_some, h3]
      exact ⟨rfl, hl⟩
    rcases r with _ | ⟨p, n⟩
    · exact hno (by simp [linkOf]) rfl rfl
    · cases n with
      | file c x =>
        have h2 := lookup_pure hR h' s
        rw [hv] at h2
        obtain ⟨st2, e2, h2⟩ := h2.some_right
        simp only [fileOf, toArtifact, e2]
        exact ⟨rfl, h2⟩
      | link c =>
        cases hi : G.ign with
        | true =>
          rw [← hi]
          exact hno (by simp [hi]) rfl (by simp [artifactOf, hi])
        | false =>
          simp only [hi, Bool.false_eq_true, if_false, Option.bind_some, linkOf] at hl
          simp only [fileOf, Option.bind_some, artifactOf, Bool.false_eq_true, if_false]
          cases hb : blob (.link c) with
          | none =>
            rw [hb] at hl
            rw [hl.none_right]
            trivial
          | some b =>
            rw [hb] at hl
            obtain ⟨st2, e2, hl'⟩ := hl.some_right
            rw [e2]
            cases b with
            | none => exact ⟨rfl, hl'⟩
            | some c' =>
              have h2 := lookup_pure hR hl' s
              rw [hv] at h2
              obtain ⟨st3, e3, h2⟩ := h2.some_right
              simp only [Option.isSome_some, toArtifact, e3, hb]
              exact ⟨rfl, h2⟩
      | dir es => exact hno (by simp [linkOf]) rfl rfl
      | other => exact hno (by simp [linkOf]) rfl rfl

/-- Whether there is a directory. -/
def dirOf : Option (List Str × Node) → Bool
  | some (_, .dir _) => true
  | _ => false

theorem isDirectory_pure : Same (Fits ok M) (isDirectory G st s)
    (if s = dot then some true else (pureLook ρ G s).map dirOf) := by
  have h := lookup_pure hR hs s
  unfold isDirectory
  by_cases hd : s = dot
  · simp only [hd, if_true]
    exact ⟨rfl, hs⟩
  · rw [if_neg hd, if_neg hd]
    cases hv : pureLook ρ G s with
    | none =>
      rw [hv] at h
      rw [h.none_right]
      trivial
    | some r =>
      rw [hv] at h
      obtain ⟨st', e, h'⟩ := h.some_right
      rw [e]
      rcases r with _ | ⟨p, n⟩
      · exact ⟨rfl, h'⟩
      · cases n <;> exact ⟨rfl, h'⟩

end

theorem gitSource_pure {G : GitRoot} {ok : List Str → Bool → Prop} {ρ : Entries → Option (Option Entries)} {M : List Str → Prop}
    (hR : Reading G.content G.ign ok ρ) {st : State} (hs : Fits ok M st) {m n : Str} (ho : outside n = some false) :
    Same (Fits ok M) (gitSource G st m n) ((pureLook ρ G (append m (lexNormal n))).bind (artifactOf G.ign)) := by
  unfold gitSource
  rw [ho]
  exact gitBlob_pure hR hs _

end Verif.Root
