import Verif.Mirrors.Model
import Mathlib.Data.List.Perm.Basic

/-!
# Sorting by host name: lemmas
-/

namespace Verif.Mirrors

open Verif

/-- What is in a list, nothing if there is none. -/
def at' (b : Buckets) (h : Str) : List Str := (assoc h b).getD []

/-- The list a mirror is put into. -/
def key (host : Str → Option Str) (hs : List Str) (u : Str) : Str :=
  if (host u).getD [] ∈ hs then (host u).getD [] else []

theorem assoc_append_nil {b : Buckets} {h k : Str} {l : List Str} :
    assoc k (b ++ [(h, l)]) = match assoc k b with
      | some v => some v
      | none => if k = h then some l else none := by
  induction b with
  | nil => simp [assoc]
  | cons p t ih =>
    obtain ⟨k', v'⟩ := p
    rw [List.cons_append, assoc, assoc]
    by_cases e : k = k'
    · rw [if_pos e, if_pos e]
    · rw [if_neg e, if_neg e, ih]

theorem assoc_put {b : Buckets} {h k : Str} {l : List Str} :
    assoc k (put h l b) = if k = h then (assoc k b).map fun _ => l else assoc k b := by
  induction b with
  | nil => simp [put, assoc]
  | cons p t ih =>
    obtain ⟨k', v'⟩ := p
    rw [put]
    by_cases e : h = k'
    · subst e
      rw [if_pos rfl, assoc, assoc]
      by_cases e' : k = h
      · rw [if_pos e', if_pos e', if_pos e']; rfl
      · rw [if_neg e', if_neg e', if_neg e']
    · rw [if_neg e, assoc, assoc]
      by_cases e' : k = k'
      · rw [if_pos e', if_pos e', if_neg (fun e2 => e (e2.symm.trans e'))]
      · rw [if_neg e', if_neg e', ih]

theorem start_spec (hs : List Str) (h : Str) : assoc h (start hs) = if h ∈ hs then some [] else none := by
  have gen : ∀ (hs : List Str) (b : Buckets) (done : List Str), (∀ k, assoc k b = if k ∈ done then some [] else none) →
      ∀ k, assoc k (hs.foldl (fun b h => if (assoc h b).isSome then b else b ++ [(h, [])]) b) =
        if k ∈ done ∨ k ∈ hs then some [] else none := by
    intro hs
    induction hs with
    | nil => intro b done hb k; simpa using hb k
    | cons a t ih =>
      intro b done hb k
      rw [List.foldl_cons]
      rw [ih _ (done ++ [a]) _ k]
      · simp [or_assoc]
      · intro k'
        have ha := hb a
        by_cases hd : a ∈ done
        · rw [if_pos hd] at ha
          rw [if_pos (by simp [ha]), hb k']
          by_cases hk : k' = a
          · subst hk; simp [hd]
          · simp [hk]
        · rw [if_neg hd] at ha
          rw [if_neg (by simp [ha]), assoc_append_nil, hb k']
          by_cases hk : k' = a
          · subst hk; simp [hd]
          · by_cases hk' : k' ∈ done <;> simp [hk, hk']
  have := gen hs [] [] (fun k => by simp [assoc]) h
  simpa [start] using this

/-- What is true about the lists after some mirrors. -/
structure Filled (host : Str → Option Str) (hs ms : List Str) (b : Buckets) : Prop where
  known : ∀ h ∈ hs, assoc h b = some (ms.filter fun u => key host hs u = h)
  rest : [] ∉ hs → at' b [] = ms.filter fun u => key host hs u = []
  other : ∀ h, h ∉ hs → h ≠ [] → assoc h b = none

theorem key_mem {host : Str → Option Str} {hs : List Str} {u : Str} : key host hs u ∈ hs ∨ key host hs u = [] := by
  unfold key; split
  · exact .inl ‹_›
  · exact .inr rfl

theorem fill_filled {host : Str → Option Str} {hs ms : List Str} {b : Buckets} (H : Filled host hs ms b) (u : Str) :
    Filled host hs (ms ++ [u]) (fill host b u) := by
  have hf : ∀ h, (ms ++ [u]).filter (fun u => key host hs u = h) =
      ms.filter (fun u => key host hs u = h) ++ if key host hs u = h then [u] else [] := by
    intro h; rw [List.filter_append]; by_cases e : key host hs u = h <;> simp [e]
  by_cases hm : (host u).getD [] ∈ hs
  · have hk : key host hs u = (host u).getD [] := if_pos hm
    have e := H.known _ hm
    have ef : fill host b u = put ((host u).getD []) (ms.filter (fun v => key host hs v = (host u).getD []) ++ [u]) b := by
      simp only [fill, e]
    rw [ef]
    refine ⟨fun h hh => ?_, fun hn => ?_, fun h h1 h2 => ?_⟩
    · rw [assoc_put, hf]
      by_cases e' : h = (host u).getD []
      · rw [if_pos e', if_pos (by rw [hk, e']), H.known h hh, e']; rfl
      · rw [if_neg e', if_neg (by rw [hk]; exact fun x => e' x.symm), H.known h hh, List.append_nil]
    · have e' : ([] : Str) ≠ (host u).getD [] := fun x => hn (x ▸ hm)
      rw [at', assoc_put, if_neg e', hf, if_neg (by rw [hk]; exact fun x => e' x.symm), List.append_nil]
      exact H.rest hn
    · have e' : h ≠ (host u).getD [] := fun x => h1 (x ▸ hm)
      rw [assoc_put, if_neg e']; exact H.other h h1 h2
  · have hk : key host hs u = [] := if_neg hm
    -- the list is the one for everything else in any case
    have hfill : at' (fill host b u) [] = at' b [] ++ [u] ∧ (assoc [] (fill host b u)).isSome ∧
        ∀ h, h ≠ [] → assoc h (fill host b u) = assoc h b := by
      have two : ∀ c : Buckets, c = (match assoc [] b with
          | some l => put [] (l ++ [u]) b
          | none => b ++ [([], [u])]) → at' c [] = at' b [] ++ [u] ∧ (assoc [] c).isSome ∧ ∀ h, h ≠ [] → assoc h c = assoc h b := by
        intro c hc
        cases e : assoc [] b with
        | some l =>
          rw [e] at hc; subst hc
          refine ⟨?_, ?_, fun h hh => ?_⟩
          · rw [at', at', assoc_put, if_pos rfl, e]; rfl
          · rw [assoc_put, if_pos rfl, e]; rfl
          · rw [assoc_put, if_neg hh]
        | none =>
          rw [e] at hc; subst hc
          refine ⟨?_, ?_, fun h hh => ?_⟩
          · rw [at', at', assoc_append_nil, e]; rfl
          · rw [assoc_append_nil, e]; rfl
          · rw [assoc_append_nil]
            cases assoc h b with
            | none => exact if_neg hh
            | some v => rfl
      cases e : assoc ((host u).getD []) b with
      | none => exact two _ (by simp only [fill, e]; cases assoc [] b <;> rfl)
      | some l =>
        have e0 : (host u).getD [] = [] := by
          by_contra hne
          rw [H.other _ hm hne] at e; exact nomatch e
        refine two _ ?_
        have e1 := e
        rw [e0] at e1
        simp only [fill, e0, e1]
    refine ⟨fun h hh => ?_, fun hn => ?_, fun h h1 h2 => ?_⟩
    · rw [hf]
      by_cases e' : h = []
      · subst e'
        rw [if_pos hk]
        have h1 := hfill.1
        obtain ⟨l, hl⟩ := Option.isSome_iff_exists.mp hfill.2.1
        rw [hl]
        rw [at', at', hl, H.known _ hh] at h1
        exact congrArg some h1
      · rw [if_neg (by rw [hk]; exact fun x => e' x.symm), List.append_nil, hfill.2.2 h e', H.known h hh]
    · rw [hf, if_pos hk, hfill.1, H.rest hn]
    · rw [hfill.2.2 h h2]; exact H.other h h1 h2

theorem filled (host : Str → Option Str) (hs ms : List Str) : Filled host hs ms (ms.foldl (fill host) (start hs)) := by
  have gen : ∀ (ms done : List Str) (b : Buckets), Filled host hs done b → Filled host hs (done ++ ms) (ms.foldl (fill host) b) := by
    intro ms
    induction ms with
    | nil => intro done b h; simpa using h
    | cons a t ih =>
      intro done b h
      have := ih _ _ (fill_filled h a)
      simpa using this
  have h0 : Filled host hs [] (start hs) := by
    refine ⟨fun h hh => by rw [start_spec, if_pos hh]; rfl, fun hn => by rw [at', start_spec, if_neg hn]; rfl, fun h h1 _ => by
      rw [start_spec, if_neg h1]⟩
  simpa using gen ms [] _ h0

/-- List by list, each one only once. -/
def concat (g : Str → List Str) : List Str → List Str
  | [] => g []
  | h :: t => g h ++ concat (fun k => if k = h then [] else g k) t

theorem concat_congr {g g' : Str → List Str} : ∀ {hs : List Str}, (∀ h, h ∈ hs ∨ h = [] → g h = g' h) → concat g hs = concat g' hs
  | [], H => H [] (.inr rfl)
  | h :: t, H => by
    rw [concat, concat, H h (.inl List.mem_cons_self)]
    congr 1
    refine concat_congr fun k hk => ?_
    by_cases e : k = h
    · rw [if_pos e, if_pos e]
    · rw [if_neg e, if_neg e]
      exact H k (hk.imp (List.mem_cons_of_mem _) id)

theorem collect_spec : ∀ (hs : List Str) (b : Buckets) (o : List Str),
    (let r := collect hs b o
     match assoc [] r.1 with
     | some l => r.2 ++ l
     | none => r.2) = o ++ concat (at' b) hs
  | [], b, o => by
    rw [collect, concat, at']
    dsimp only
    cases assoc [] b <;> simp
  | h :: t, b, o => by
    rw [collect, concat]
    cases e : assoc h b with
    | some l =>
      dsimp only
      have := collect_spec t (put h [] b) (o ++ l)
      dsimp only at this
      rw [this, List.append_assoc]
      have e1 : at' b h = l := by rw [at', e]; rfl
      rw [e1]
      congr 2
      refine concat_congr fun k _ => ?_
      rw [at', assoc_put]
      by_cases ek : k = h
      · rw [if_pos ek, if_pos ek]; cases assoc k b <;> rfl
      · rw [if_neg ek, if_neg ek, at']
    | none =>
      dsimp only
      have := collect_spec t b o
      dsimp only at this
      rw [this]
      have e1 : at' b h = [] := by rw [at', e]; rfl
      rw [e1, List.nil_append]
      congr 1
      refine concat_congr fun k _ => ?_
      by_cases ek : k = h
      · rw [if_pos ek, ek, e1]
      · rw [if_neg ek]

theorem sort_eq (host : Str → Option Str) (ms hs : List Str) :
    sortByHostname host ms hs = concat (fun h => ms.filter fun u => key host hs u = h) hs := by
  have h := collect_spec hs (ms.foldl (fill host) (start hs)) []
  rw [List.nil_append] at h
  rw [sortByHostname]
  refine h.trans (concat_congr fun k hk => ?_)
  have F := filled host hs ms
  by_cases hm : k ∈ hs
  · rw [at', F.known k hm]; rfl
  · have e : k = [] := hk.resolve_left hm
    subst e
    exact F.rest hm

theorem concat_filter_nil {g : Str → List Str} {p : Str → Bool} : ∀ {hs : List Str}, (∀ h, (g h).filter p = []) →
    (concat g hs).filter p = []
  | [], H => H []
  | h :: t, H => by
    rw [concat, List.filter_append, H h, List.nil_append]
    refine concat_filter_nil fun k => ?_
    by_cases e : k = h
    · rw [if_pos e]; rfl
    · rw [if_neg e]; exact H k

theorem concat_filter {g : Str → List Str} {p : Str → Bool} {h0 : Str} : ∀ {hs : List Str}, (h0 ∈ hs ∨ h0 = []) →
    (∀ h, h ≠ h0 → (g h).filter p = []) → (concat g hs).filter p = (g h0).filter p
  | [], hm, _ => by
    have e : h0 = [] := hm.resolve_left (by simp)
    rw [concat, e]
  | h :: t, hm, H => by
    rw [concat, List.filter_append]
    by_cases e : h = h0
    · rw [e]
      have := concat_filter_nil (g := fun k => if k = h0 then [] else g k) (p := p) (hs := t) fun k => by
        by_cases ek : k = h0
        · rw [if_pos ek]; rfl
        · rw [if_neg ek]; exact H k ek
      rw [this, List.append_nil]
    · rw [H h e, List.nil_append]
      have := concat_filter (g := fun k => if k = h then [] else g k) (p := p) (h0 := h0) (hs := t)
        (hm.imp (fun hm => (List.mem_cons.mp hm).resolve_left (Ne.symm e)) id) fun k hk => by
          by_cases ek : k = h
          · rw [if_pos ek]; rfl
          · rw [if_neg ek]; exact H k hk
      rw [this, if_neg (Ne.symm e)]

/-- Mirrors that go to the same list keep their order. -/
theorem sort_filter {host : Str → Option Str} {ms hs : List Str} {p : Str → Bool} {h0 : Str} (hm : h0 ∈ hs ∨ h0 = [])
    (H : ∀ u, p u = true → key host hs u = h0) : (sortByHostname host ms hs).filter p = ms.filter p := by
  rw [sort_eq, concat_filter hm]
  · rw [List.filter_filter]
    refine List.filter_congr fun u _ => ?_
    by_cases e : p u = true
    · simp [e, H u e]
    · simp [e]
  · intro h hne
    rw [List.filter_filter, List.filter_eq_nil_iff]
    intro u _ hu
    simp only [Bool.and_eq_true, decide_eq_true_eq] at hu
    exact hne (hu.2.symm.trans (H u hu.1))

theorem concat_mem {g : Str → List Str} {u : Str} : ∀ {hs : List Str}, u ∈ concat g hs → ∃ h, u ∈ g h
  | [], hu => ⟨_, hu⟩
  | h :: t, hu => by
    rw [concat, List.mem_append] at hu
    rcases hu with hu | hu
    · exact ⟨_, hu⟩
    · obtain ⟨k, hk⟩ := concat_mem hu
      by_cases e : k = h
      · rw [if_pos e] at hk; exact nomatch hk
      · rw [if_neg e] at hk; exact ⟨k, hk⟩

theorem concat_sorted {f : Str → Str} : ∀ {done hs : List Str} {g : Str → List Str}, (∀ h, ∀ u ∈ g h, f u = h) →
    (∀ h ∈ done, g h = []) →
    (concat g hs).Pairwise (fun u v => (done ++ hs).idxOf (f u) ≤ (done ++ hs).idxOf (f v))
  | done, [], g, hg, _ => by
    rw [concat]
    refine List.pairwise_of_forall_mem_list fun u hu v hv => ?_
    rw [hg _ u hu, hg _ v hv]
  | done, h :: t, g, hg, hd => by
    have hg' : ∀ k, ∀ u ∈ (if k = h then [] else g k), f u = k := by
      intro k u hu
      by_cases e : k = h
      · rw [if_pos e] at hu; exact nomatch hu
      · rw [if_neg e] at hu; exact hg k u hu
    have hd' : ∀ k ∈ done ++ [h], (if k = h then [] else g k) = [] := by
      intro k hk
      by_cases e : k = h
      · rw [if_pos e]
      · rw [if_neg e]; exact hd k (by simpa [e] using hk)
    have e : done ++ h :: t = (done ++ [h]) ++ t := by simp
    rw [concat, List.pairwise_append]
    refine ⟨List.pairwise_of_forall_mem_list fun u hu v hv => by rw [hg _ u hu, hg _ v hv], ?_, fun u hu v hv => ?_⟩
    · have := concat_sorted (done := done ++ [h]) (hs := t) (f := f) hg' hd'
      rw [e]; exact this
    · obtain ⟨k, hk⟩ := concat_mem hv
      have ek : k ≠ h := fun e => by rw [if_pos e] at hk; exact nomatch hk
      rw [if_neg ek] at hk
      have hkd : k ∉ done := fun hx => by rw [hd k hx] at hk; exact nomatch hk
      have hhd : h ∉ done := fun hx => by rw [hd h hx] at hu; exact nomatch hu
      rw [hg _ u hu, hg _ v hk, List.idxOf_append_of_notMem hhd, List.idxOf_append_of_notMem hkd, List.idxOf_cons_self]
      omega

theorem sort_sorted (host : Str → Option Str) (ms hs : List Str) :
    (sortByHostname host ms hs).Pairwise (fun u v => hs.idxOf (key host hs u) ≤ hs.idxOf (key host hs v)) := by
  rw [sort_eq]
  have := concat_sorted (f := key host hs) (done := []) (hs := hs) (g := fun h => ms.filter fun u => key host hs u = h)
    (fun h u hu => by simpa using (List.mem_filter.mp hu).2) (fun h hh => nomatch hh)
  simpa using this

end Verif.Mirrors
