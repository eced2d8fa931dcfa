import Mathlib.Data.List.Basic
import Mathlib.Data.List.Lex
import Mathlib.Data.List.Dedup
import Mathlib.Data.Char
import Verif.Util.OMap
import Verif.Util.Json
import Verif.Expr.HashProps

/-!
# The minimiser of automata: C48

Model of `src/utils/automata/dfa_minimizer.hpp`.
-/

namespace Verif.Repo

open Verif Verif.Expr

/-- dfa_minimizer.hpp:104-106: a state that is added; the transitions are a `std::map`. -/
structure State where
  name : Str
  content : Str
  next : List (Str × Str)
  deriving DecidableEq

/-- The states that were added, in any order. -/
abbrev Auto := List State

/-- dfa_minimizer.hpp:107 (`GetKeys`, 179-188). -/
def State.symbols (s : State) : List Str := s.next.map Prod.fst

/-- dfa_minimizer.hpp:109-111: the identifier of the bucket of a state. -/
def State.bucket (s : State) : Str :=
  Json.dump Empty.elim Json.compact 0 (.arr [.str (hexString s.content), .arr (s.symbols.map .str)])

/-- dfa_minimizer.hpp:130-134, repository_config.hpp:203-210: lookup of a state by name. -/
def lookup (A : Auto) (n : Str) : Option State := A.find? (fun s => s.name = n)

/-- dfa_minimizer.hpp:67-74 (`StatePairKey`). -/
def key (a b : Str) : Str × Str := if a < b then (a, b) else (b, a)

/-- dfa_minimizer.hpp:212-228 (`CreatePairs`): the keys of an unordered map; they are visited in some order. -/
def createPairs (A : Auto) : List (Str × Str) :=
  A.flatMap fun x => (A.filter fun y => decide (x.name < y.name ∧ x.bucket = y.bucket)).map fun y => (x.name, y.name)

/-- dfa_minimizer.hpp:88-94: which pairs are marked, and for which pairs there are parents. -/
structure Marks where
  marked : List (Str × Str)
  parents : List ((Str × Str) × (Str × Str))

/-- dfa_minimizer.hpp:202-209 (`MarkPairValue`), with a bound on the depth. -/
def mark (parents : List ((Str × Str) × (Str × Str))) : Nat → Str × Str → List (Str × Str) → List (Str × Str)
  | 0, _, m => m
  | n + 1, p, m =>
    (parents.filter fun e => e.1 = p).foldl (fun m e => if e.2 ∈ m then m else mark parents n e.2 m)
      (if p ∈ m then m else p :: m)

/-- dfa_minimizer.hpp:133-134: `bucket.states.at(n).at(sym)`; `C48_at` shows that neither lookup throws, so the
default is never used. -/
def target (A : Auto) (n sym : Str) : Str := ((lookup A n).bind fun s => assoc sym s.next).getD []

/-- dfa_minimizer.hpp:133-148: the pair `p` and one symbol. -/
def visitSymbol (A : Auto) (P : List (Str × Str)) (p : Str × Str) (sym : Str) (st : Marks) : Marks :=
  if target A p.1 sym = target A p.2 sym then st
  else if key (target A p.1 sym) (target A p.2 sym) ∉ P ∨ key (target A p.1 sym) (target A p.2 sym) ∈ st.marked then
    { st with marked := mark st.parents (P.length + 1) p st.marked }
  else { st with parents := st.parents ++ [(key (target A p.1 sym) (target A p.2 sym), p)] }

/-- dfa_minimizer.hpp:129-149: one pair. -/
def visitPair (A : Auto) (P : List (Str × Str)) (p : Str × Str) (st : Marks) : Marks :=
  (((lookup A p.1).map State.symbols).getD []).foldl (fun st sym => visitSymbol A P p sym st) st

/-- dfa_minimizer.hpp:125-150: mark the distinguishable pairs; `P` are the pairs in the order they are visited. -/
def markAll (A : Auto) (P : List (Str × Str)) : List (Str × Str) :=
  (P.foldl (fun st p => visitPair A P p st) ⟨[], []⟩).marked

/-- dfa_minimizer.hpp:156-170: the states of a bucket, the last one first; with the number of states as fuel.
`none` is the use of a null pointer, for a pair that does not exist. -/
def represent (P M : List (Str × Str)) : Nat → List Str → Option (List (Str × Str))
  | _, [] => some []
  | 0, _ :: _ => none
  | n + 1, last :: t =>
    if ∀ s ∈ t, key last s ∈ P then
      (represent P M n (t.filter fun s => key last s ∈ M)).map fun r =>
        (t.filter fun s => key last s ∉ M).map (fun s => (s, last)) ++ r
    else none

/-- dfa_minimizer.hpp:154-171: all buckets. -/
def representBuckets (P M : List (Str × Str)) (V : List State) : List Str → Option (List (Str × Str))
  | [] => some []
  | b :: bs =>
    (represent P M (V.filter fun s => s.bucket = b).length ((V.filter fun s => s.bucket = b).map State.name)).bind
      fun r => (representBuckets P M V bs).map fun r' => r ++ r'

/-- dfa_minimizer.hpp:124-173 (`ComputeBisimulation`): the pairs are visited in the order `P`, and the states of each
bucket in the order in which they appear in `V`. -/
def computeBisimulation (A : Auto) (P : List (Str × Str)) (V : List State) : Option (List (Str × Str)) :=
  representBuckets P (markAll A P) V (V.map State.bucket).dedup

/-- repository_config.cpp:90-95: the representative of a state. -/
def representative (bisim : List (Str × Str)) (n : Str) : Str := (assoc n bisim).getD n

/-! ## Specification -/

/-- What can be observed of a state: its content and the symbols it accepts; a state that does not exist only
has its name. -/
inductive Obs
  | known (content : Str) (symbols : List Str)
  | unknown (name : Str)
  deriving DecidableEq

/-- What is observed after reading a word. -/
def behave (A : Auto) : List Str → Str → Option Obs
  | [], n => match lookup A n with
    | some s => some (.known s.content s.symbols)
    | none => some (.unknown n)
  | sym :: w, n => match lookup A n with
    | some s => match assoc sym s.next with
      | some t => behave A w t
      | none => none
    | none => none

/-- Some word distinguishes two states. -/
def Distinct (A : Auto) (p : Str × Str) : Prop := ∃ w, behave A w p.1 ≠ behave A w p.2

/-- What is assumed of the states: different names (AddState ensures this), contents are bytes, transitions are
maps. -/
structure Auto.OK (A : Auto) : Prop where
  nodup : (A.map State.name).Nodup
  bytes : ∀ s ∈ A, ∀ c ∈ s.content, c.toNat < 256
  asc : ∀ s ∈ A, Ascending s.next

/-! ## Lemmas -/

theorem key_comm {a b : Str} : key a b = key b a := by
  unfold key
  rcases lt_trichotomy a b with h | h | h
  · rw [if_pos h, if_neg (lt_asymm h)]
  · rw [h]
  · rw [if_neg (lt_asymm h), if_pos h]

theorem lookup_mem {A : Auto} {n : Str} {s : State} (h : lookup A n = some s) : s ∈ A ∧ s.name = n :=
  ⟨List.mem_of_find?_eq_some h, by simpa using List.find?_some h⟩

theorem lookup_of_mem {A : Auto} (hA : (A.map State.name).Nodup) {s : State} (h : s ∈ A) : lookup A s.name = some s := by
  induction A with
  | nil => exact nomatch h
  | cons x A ih =>
    rw [List.map_cons, List.nodup_cons] at hA
    unfold lookup
    rw [List.find?_cons]
    rcases List.mem_cons.mp h with rfl | h'
    · simp
    · have : x.name ≠ s.name := fun e => hA.1 (e ▸ List.mem_map_of_mem h')
      rw [show decide (x.name = s.name) = false from by simpa using this]
      exact ih hA.2 h'

theorem bucket_inj {s t : State} (hs : ∀ c ∈ s.content, c.toNat < 256) (ht : ∀ c ∈ t.content, c.toNat < 256)
    (h : s.bucket = t.bucket) : s.content = t.content ∧ s.symbols = t.symbols := by
  have := Json.dump_inj (N := Empty) ⟨(fun x => nomatch x), (fun x => nomatch x), (fun x => nomatch x)⟩ Json.compact_ok h
  injection this with this
  injection this with h1 h2
  injection h2 with h2 _
  injection h1 with h1
  injection h2 with h2
  refine ⟨hexString_inj hs ht h1, ?_⟩
  exact List.map_injective_iff.mpr (fun a b e => by injection e) h2

theorem mem_createPairs {A : Auto} {p : Str × Str} : p ∈ createPairs A ↔
    ∃ x ∈ A, ∃ y ∈ A, x.name < y.name ∧ x.bucket = y.bucket ∧ p = (x.name, y.name) := by
  unfold createPairs
  rw [List.mem_flatMap]
  constructor
  · rintro ⟨x, hx, h⟩
    obtain ⟨y, hy, rfl⟩ := List.mem_map.mp h
    obtain ⟨hy, hc⟩ := List.mem_filter.mp hy
    have hc := of_decide_eq_true hc
    exact ⟨x, hx, y, hy, hc.1, hc.2, rfl⟩
  · rintro ⟨x, hx, y, hy, h1, h2, rfl⟩
    exact ⟨x, hx, List.mem_map.mpr ⟨y, List.mem_filter.mpr ⟨hy, decide_eq_true ⟨h1, h2⟩⟩, rfl⟩⟩

/-- Number of pairs that are not marked. -/
def unmarked (P m : List (Str × Str)) : Nat := (P.filter fun p => p ∉ m).length

theorem unmarked_le {P m m' : List (Str × Str)} (h : ∀ p ∈ m, p ∈ m') : unmarked P m' ≤ unmarked P m := by
  unfold unmarked
  induction P with
  | nil => exact Nat.le_refl _
  | cons x P ih =>
    rw [List.filter_cons, List.filter_cons]
    by_cases h1 : x ∈ m
    · rw [if_neg (by simpa using h x h1), if_neg (by simpa using h1)]
      exact ih
    · rw [if_pos (c := decide (x ∉ m) = true) (by simpa using h1)]
      split
      · exact Nat.succ_le_succ ih
      · exact Nat.le_succ_of_le ih

theorem unmarked_lt {P m : List (Str × Str)} {q : Str × Str} (hq : q ∈ P) (hm : q ∉ m) :
    unmarked P (q :: m) < unmarked P m := by
  unfold unmarked
  induction P with
  | nil => exact nomatch hq
  | cons x P ih =>
    rw [List.filter_cons, List.filter_cons]
    by_cases hx : x = q
    · subst hx
      rw [if_neg (by simp), if_pos (by simpa using hm), List.length_cons]
      exact Nat.lt_succ_of_le (unmarked_le (P := P) (m := m) (m' := x :: m) fun p hp => List.mem_cons_of_mem _ hp)
    · have hq' : q ∈ P := by
        rcases List.mem_cons.mp hq with h | h
        · exact absurd h.symm hx
        · exact h
      by_cases h1 : x ∈ m
      · rw [if_neg (by simp [h1]), if_neg (by simp [h1])]
        exact ih hq'
      · rw [if_pos (by simp [h1, hx]), if_pos (by simp [h1]), List.length_cons, List.length_cons]
        exact Nat.succ_lt_succ (ih hq')

/-- Marking a pair marks it and all parents of newly marked pairs, and only pairs for which `D` follows. -/
theorem mark_spec (P : List (Str × Str)) (E : List ((Str × Str) × (Str × Str))) (hE : ∀ e ∈ E, e.2 ∈ P)
    (D : Str × Str → Prop) (hD : ∀ e ∈ E, D e.1 → D e.2) :
    ∀ (n : Nat) (p : Str × Str) (m : List (Str × Str)), p ∈ P → unmarked P (p :: m) < n → D p →
      (∀ x ∈ m, x ∈ mark E n p m) ∧ p ∈ mark E n p m ∧
      (∀ x ∈ mark E n p m, x ∈ m ∨ (x ∈ P ∧ D x)) ∧
      (∀ e ∈ E, e.1 ∈ mark E n p m → (e.1 ∉ m ∨ e.1 = p) → e.2 ∈ mark E n p m)
  | n + 1, p, m, hp, hn, hd => by
    rw [mark]
    have hm0 : ∀ x, x ∈ (if p ∈ m then m else p :: m) ↔ x ∈ p :: m := by
      intro x
      split
      · rename_i h
        constructor
        · exact List.mem_cons_of_mem _
        · intro hx
          rcases List.mem_cons.mp hx with rfl | hx
          · exact h
          · exact hx
      · rfl
    have key : ∀ (l : List ((Str × Str) × (Str × Str))) (m' : List (Str × Str)), (∀ e ∈ l, e ∈ E ∧ e.1 = p) →
        (∀ x ∈ p :: m, x ∈ m') → (∀ x ∈ m', x ∈ m ∨ (x ∈ P ∧ D x)) →
        (∀ e ∈ E, e.1 ∈ m' → e.1 ∉ p :: m → e.2 ∈ m') →
        (∀ x ∈ m', x ∈ l.foldl (fun m e => if e.2 ∈ m then m else mark E n e.2 m) m') ∧
        (∀ x ∈ l.foldl (fun m e => if e.2 ∈ m then m else mark E n e.2 m) m', x ∈ m ∨ (x ∈ P ∧ D x)) ∧
        (∀ e ∈ E, e.1 ∈ l.foldl (fun m e => if e.2 ∈ m then m else mark E n e.2 m) m' → e.1 ∉ p :: m →
          e.2 ∈ l.foldl (fun m e => if e.2 ∈ m then m else mark E n e.2 m) m') ∧
        (∀ e ∈ l, e.2 ∈ l.foldl (fun m e => if e.2 ∈ m then m else mark E n e.2 m) m') := by
      intro l
      induction l with
      | nil => exact fun m' _ _ h2 h3 => ⟨fun _ h => h, h2, h3, fun e he => nomatch he⟩
      | cons e l ih =>
        intro m' hl h1 h2 h3
        rw [List.foldl_cons]
        obtain ⟨heE, hep⟩ := hl e (by simp)
        have next : ∃ m'', m'' = (if e.2 ∈ m' then m' else mark E n e.2 m') ∧ (∀ x ∈ m', x ∈ m'') ∧
            (∀ x ∈ m'', x ∈ m ∨ (x ∈ P ∧ D x)) ∧ (∀ e ∈ E, e.1 ∈ m'' → e.1 ∉ p :: m → e.2 ∈ m'') ∧ e.2 ∈ m'' := by
          by_cases hmem : e.2 ∈ m'
          · exact ⟨m', by rw [if_pos hmem], fun _ h => h, h2, h3, hmem⟩
          · have hlt : unmarked P (e.2 :: m') < n := by
              have := unmarked_lt (P := P) (m := m') (hE e heE) hmem
              have h' := unmarked_le (P := P) h1
              omega
            obtain ⟨g1, g2, g3, g4⟩ := mark_spec P E hE D hD n e.2 m' (hE e heE) hlt (hD e heE (hep ▸ hd))
            refine ⟨mark E n e.2 m', by rw [if_neg hmem], g1, fun x hx => ?_, fun e' he' hm' hn' => ?_, g2⟩
            · rcases g3 x hx with h | h
              · exact h2 x h
              · exact .inr h
            · by_cases hold : e'.1 ∈ m'
              · exact g1 _ (h3 e' he' hold hn')
              · exact g4 e' he' hm' (.inl hold)
        obtain ⟨m'', hm'', k1, k2, k3, k4⟩ := next
        rw [← hm'']
        obtain ⟨i1, i2, i3, i4⟩ := ih m'' (fun e' he' => hl e' (List.mem_cons_of_mem _ he')) (fun x hx => k1 x (h1 x hx)) k2 k3
        refine ⟨fun x hx => i1 x (k1 x hx), i2, i3, fun e' he' => ?_⟩
        rcases List.mem_cons.mp he' with rfl | he'
        · exact i1 _ k4
        · exact i4 e' he'
    obtain ⟨i1, i2, i3, i4⟩ := key (E.filter fun e => e.1 = p) (if p ∈ m then m else p :: m)
      (fun e he => ⟨(List.mem_filter.mp he).1, by simpa using (List.mem_filter.mp he).2⟩)
      (fun x hx => (hm0 x).mpr hx)
      (fun x hx => by
        rcases List.mem_cons.mp ((hm0 x).mp hx) with rfl | h
        · exact .inr ⟨hp, hd⟩
        · exact .inl h)
      (fun e he h1 h2 => absurd ((hm0 _).mp h1) h2)
    refine ⟨fun x hx => i1 x ((hm0 x).mpr (List.mem_cons_of_mem _ hx)), i1 p ((hm0 p).mpr (by simp)), i2, fun e he h1 h2 => ?_⟩
    by_cases hep : e.1 = p
    · exact i4 e (List.mem_filter.mpr ⟨he, by simpa using hep⟩)
    · refine i3 e he h1 ?_
      rcases h2 with h2 | h2
      · simp [hep, h2]
      · exact absurd h2 hep

/-! ## The invariant -/

/-- Invariant of marking, where `done` are the pairs and symbols already visited. -/
structure Inv (A : Auto) (P : List (Str × Str)) (done : Str × Str → Str → Prop) (st : Marks) : Prop where
  sub : ∀ p ∈ st.marked, p ∈ P
  sound : ∀ p ∈ st.marked, Distinct A p
  psub : ∀ e ∈ st.parents, e.2 ∈ P
  psound : ∀ e ∈ st.parents, Distinct A e.1 → Distinct A e.2
  closed : ∀ e ∈ st.parents, e.1 ∈ st.marked → e.2 ∈ st.marked
  cov : ∀ p sym, done p sym → target A p.1 sym = target A p.2 sym ∨ p ∈ st.marked ∨
    (key (target A p.1 sym) (target A p.2 sym) ∈ P ∧ (key (target A p.1 sym) (target A p.2 sym), p) ∈ st.parents)

/-- Both states of a pair have the transition. -/
theorem pair_targets {A : Auto} (hA : A.OK) {p : Str × Str} (hp : p ∈ createPairs A) {sym : Str}
    (hs : sym ∈ ((lookup A p.1).map State.symbols).getD []) :
    ∃ x y r s, lookup A p.1 = some x ∧ lookup A p.2 = some y ∧ assoc sym x.next = some r ∧ assoc sym y.next = some s ∧
      target A p.1 sym = r ∧ target A p.2 sym = s := by
  obtain ⟨x, hx, y, hy, _, hb, rfl⟩ := mem_createPairs.mp hp
  have lx := lookup_of_mem hA.nodup hx
  have ly := lookup_of_mem hA.nodup hy
  rw [lx] at hs
  have hs : sym ∈ x.symbols := hs
  have hs' : sym ∈ y.symbols := (bucket_inj (hA.bytes x hx) (hA.bytes y hy) hb).2 ▸ hs
  obtain ⟨⟨_, r⟩, hr, rfl⟩ := List.mem_map.mp hs
  obtain ⟨⟨_, s⟩, hs2, e⟩ := List.mem_map.mp hs'
  simp only at e
  subst e
  have hr := assoc_of_mem (hA.asc x hx) hr
  have hs2 := assoc_of_mem (hA.asc y hy) hs2
  refine ⟨x, y, r, s, lx, ly, hr, hs2, ?_, ?_⟩
  · unfold target
    rw [lx, Option.bind_some, hr]
    rfl
  · unfold target
    rw [ly, Option.bind_some, hs2]
    rfl

/-- A pair with distinct targets is distinct. -/
theorem distinct_step {A : Auto} (hA : A.OK) {p : Str × Str} (hp : p ∈ createPairs A) {sym : Str}
    (hs : sym ∈ ((lookup A p.1).map State.symbols).getD []) {w : List Str}
    (h : behave A w (target A p.1 sym) ≠ behave A w (target A p.2 sym)) : Distinct A p := by
  obtain ⟨x, y, r, s, lx, ly, hr, hs, tr, ts⟩ := pair_targets hA hp hs
  refine ⟨sym :: w, ?_⟩
  rw [behave, behave, lx, ly]
  simp only [hr, hs]
  rwa [tr, ts] at h

theorem distinct_comm {A : Auto} {a b : Str} (h : Distinct A (a, b)) : Distinct A (b, a) := by
  obtain ⟨w, h⟩ := h
  exact ⟨w, fun e => h e.symm⟩

theorem distinct_key {A : Auto} {a b : Str} : Distinct A (key a b) ↔ Distinct A (a, b) := by
  unfold key
  split
  · rfl
  · exact ⟨distinct_comm, distinct_comm⟩

/-- Two different names that are no pair are distinct at once. -/
theorem distinct_of_not_pair {A : Auto} {a b : Str} (hne : a ≠ b) (h : key a b ∉ createPairs A) :
    Distinct A (a, b) := by
  refine ⟨[], fun e => ?_⟩
  rw [behave, behave] at e
  cases ha : lookup A a with
  | none =>
    rw [ha] at e
    cases hb : lookup A b with
    | none =>
      rw [hb] at e
      injection e with e
      injection e with e
      exact hne e
    | some y =>
      rw [hb] at e
      injection e with e
      exact nomatch e
  | some x =>
    rw [ha] at e
    cases hb : lookup A b with
    | none =>
      rw [hb] at e
      injection e with e
      exact nomatch e
    | some y =>
      rw [hb] at e
      injection e with e
      injection e with e1 e2
      obtain ⟨hx, rfl⟩ := lookup_mem ha
      obtain ⟨hy, rfl⟩ := lookup_mem hb
      have hbk : x.bucket = y.bucket := by
        unfold State.bucket
        rw [e1, e2]
      refine h (mem_createPairs.mpr ?_)
      unfold key
      split
      · rename_i hlt
        exact ⟨x, hx, y, hy, hlt, hbk, rfl⟩
      · rename_i hlt
        rcases lt_trichotomy x.name y.name with h | h | h
        · exact absurd h hlt
        · exact absurd h hne
        · exact ⟨y, hy, x, hx, h, hbk.symm, rfl⟩

theorem visitSymbol_inv {A : Auto} (hA : A.OK) {P : List (Str × Str)} (hP : P.Perm (createPairs A))
    {done : Str × Str → Str → Prop} {st : Marks} (h : Inv A P done st) {p : Str × Str} (hp : p ∈ P) {sym : Str}
    (hs : sym ∈ ((lookup A p.1).map State.symbols).getD []) :
    Inv A P (fun q s => done q s ∨ (q = p ∧ s = sym)) (visitSymbol A P p sym st) := by
  have hp' := hP.mem_iff.mp hp
  unfold visitSymbol
  by_cases heq : target A p.1 sym = target A p.2 sym
  · rw [if_pos heq]
    refine ⟨h.sub, h.sound, h.psub, h.psound, h.closed, ?_⟩
    rintro q s (hd | ⟨rfl, rfl⟩)
    · exact h.cov q s hd
    · exact .inl heq
  · rw [if_neg heq]
    by_cases hm : key (target A p.1 sym) (target A p.2 sym) ∉ P ∨ key (target A p.1 sym) (target A p.2 sym) ∈ st.marked
    · rw [if_pos hm]
      have hdist : Distinct A p := by
        have : Distinct A (target A p.1 sym, target A p.2 sym) := by
          rcases hm with hm | hm
          · exact distinct_of_not_pair heq (fun hh => hm (hP.mem_iff.mpr hh))
          · exact distinct_key.mp (h.sound _ hm)
        obtain ⟨w, hw⟩ := this
        exact distinct_step hA hp' hs hw
      obtain ⟨g1, g2, g3, g4⟩ := mark_spec P st.parents h.psub (Distinct A) h.psound (P.length + 1) p st.marked hp
        (Nat.lt_succ_of_le (List.length_filter_le _ _)) hdist
      refine ⟨fun q hq => ?_, fun q hq => ?_, h.psub, h.psound, fun e he hm' => ?_, ?_⟩
      · rcases g3 q hq with hq | hq
        · exact h.sub q hq
        · exact hq.1
      · rcases g3 q hq with hq | hq
        · exact h.sound q hq
        · exact hq.2
      · by_cases ho : e.1 ∈ st.marked
        · exact g1 _ (h.closed e he ho)
        · exact g4 e he hm' (.inl ho)
      · rintro q s (hd | ⟨rfl, rfl⟩)
        · rcases h.cov q s hd with hh | hh | hh
          · exact .inl hh
          · exact .inr (.inl (g1 _ hh))
          · exact .inr (.inr hh)
        · exact .inr (.inl g2)
    · rw [if_neg hm]
      push Not at hm
      refine ⟨h.sub, h.sound, fun e he => ?_, fun e he => ?_, fun e he hc => ?_, ?_⟩
      · rcases List.mem_append.mp he with he | he
        · exact h.psub e he
        · rw [List.mem_singleton] at he
          subst he
          exact hp
      · rcases List.mem_append.mp he with he | he
        · exact h.psound e he
        · rw [List.mem_singleton] at he
          subst he
          intro hd
          obtain ⟨w, hw⟩ := distinct_key.mp hd
          exact distinct_step hA hp' hs hw
      · rcases List.mem_append.mp he with he | he
        · exact h.closed e he hc
        · rw [List.mem_singleton] at he
          subst he
          exact absurd hc hm.2
      · rintro q s (hd | ⟨rfl, rfl⟩)
        · rcases h.cov q s hd with hh | hh | hh
          · exact .inl hh
          · exact .inr (.inl hh)
          · exact .inr (.inr ⟨hh.1, List.mem_append_left _ hh.2⟩)
        · exact .inr (.inr ⟨hm.1, List.mem_append_right _ (by simp)⟩)

theorem visitPair_inv {A : Auto} (hA : A.OK) {P : List (Str × Str)} (hP : P.Perm (createPairs A))
    {done : Str × Str → Str → Prop} {st : Marks} (h : Inv A P done st) {p : Str × Str} (hp : p ∈ P) :
    Inv A P (fun q s => done q s ∨ (q = p ∧ s ∈ ((lookup A p.1).map State.symbols).getD [])) (visitPair A P p st) := by
  unfold visitPair
  generalize hl : ((lookup A p.1).map State.symbols).getD [] = l
  have : ∀ (l' : List Str) (done : Str × Str → Str → Prop) (st : Marks), (∀ s ∈ l', s ∈ l) → Inv A P done st →
      Inv A P (fun q s => done q s ∨ (q = p ∧ s ∈ l')) (l'.foldl (fun st sym => visitSymbol A P p sym st) st) := by
    intro l'
    induction l' with
    | nil =>
      intro done st _ h
      exact ⟨h.sub, h.sound, h.psub, h.psound, h.closed, fun q s hd => h.cov q s (by simpa using hd)⟩
    | cons x l' ih =>
      intro done st hs h
      rw [List.foldl_cons]
      have h1 := visitSymbol_inv hA hP h hp (sym := x) (by rw [hl]; exact hs x (by simp))
      have h2 := ih _ _ (fun s hs' => hs s (List.mem_cons_of_mem _ hs')) h1
      refine ⟨h2.sub, h2.sound, h2.psub, h2.psound, h2.closed, fun q s hd => h2.cov q s ?_⟩
      rcases hd with hd | ⟨rfl, hd⟩
      · exact .inl (.inl hd)
      · rcases List.mem_cons.mp hd with rfl | hd
        · exact .inl (.inr ⟨rfl, rfl⟩)
        · exact .inr ⟨rfl, hd⟩
  exact this l done st (fun _ h => h) h

theorem markAll_inv {A : Auto} (hA : A.OK) {P : List (Str × Str)} (hP : P.Perm (createPairs A)) :
    Inv A P (fun q s => q ∈ P ∧ s ∈ ((lookup A q.1).map State.symbols).getD [])
      (P.foldl (fun st p => visitPair A P p st) ⟨[], []⟩) := by
  have : ∀ (l : List (Str × Str)) (done : Str × Str → Str → Prop) (st : Marks), (∀ p ∈ l, p ∈ P) → Inv A P done st →
      Inv A P (fun q s => done q s ∨ (q ∈ l ∧ s ∈ ((lookup A q.1).map State.symbols).getD []))
        (l.foldl (fun st p => visitPair A P p st) st) := by
    intro l
    induction l with
    | nil =>
      intro done st _ h
      exact ⟨h.sub, h.sound, h.psub, h.psound, h.closed, fun q s hd => h.cov q s (by simpa using hd)⟩
    | cons p l ih =>
      intro done st hl h
      rw [List.foldl_cons]
      have h2 := ih _ _ (fun q hq => hl q (List.mem_cons_of_mem _ hq)) (visitPair_inv hA hP h (hl p (by simp)))
      refine ⟨h2.sub, h2.sound, h2.psub, h2.psound, h2.closed, fun q s hd => h2.cov q s ?_⟩
      rcases hd with hd | ⟨hd, hs⟩
      · exact .inl (.inl hd)
      · rcases List.mem_cons.mp hd with rfl | hd
        · exact .inl (.inr ⟨rfl, hs⟩)
        · exact .inr ⟨hd, hs⟩
  have h0 : Inv A P (fun _ _ => False) ⟨[], []⟩ :=
    ⟨(fun p hp => nomatch hp), (fun p hp => nomatch hp), (fun p hp => nomatch hp), (fun p hp => nomatch hp),
      (fun p hp => nomatch hp), (fun _ _ h => nomatch h)⟩
  have h1 := this P _ _ (fun _ h => h) h0
  exact ⟨h1.sub, h1.sound, h1.psub, h1.psound, h1.closed, fun q s hd => h1.cov q s (.inr hd)⟩

/-- The marked pairs are exactly the distinct ones. -/
theorem mem_markAll {A : Auto} (hA : A.OK) {P : List (Str × Str)} (hP : P.Perm (createPairs A)) {p : Str × Str}
    (hp : p ∈ P) : p ∈ markAll A P ↔ Distinct A p := by
  have h := markAll_inv hA hP
  refine ⟨h.sound p, fun hd => ?_⟩
  by_contra hn
  have same : ∀ (w : List Str) (a b : Str), (a = b ∨ (key a b ∈ P ∧ key a b ∉ markAll A P)) → behave A w a = behave A w b := by
    have half : ∀ (w : List Str), (∀ a b, (a = b ∨ (key a b ∈ P ∧ key a b ∉ markAll A P)) → behave A w a = behave A w b) →
        ∀ sym q, q ∈ P → q ∉ markAll A P → behave A (sym :: w) q.1 = behave A (sym :: w) q.2 := by
      intro w ih sym q hq hqm
      obtain ⟨x, hx, y, hy, _, hb, e⟩ := mem_createPairs.mp (hP.mem_iff.mp hq)
      have lx : lookup A q.1 = some x := by rw [e]; exact lookup_of_mem hA.nodup hx
      have ly : lookup A q.2 = some y := by rw [e]; exact lookup_of_mem hA.nodup hy
      have hsym := (bucket_inj (hA.bytes x hx) (hA.bytes y hy) hb).2
      rw [behave, behave, lx, ly]
      by_cases hs : sym ∈ x.symbols
      · have hs' : sym ∈ ((lookup A q.1).map State.symbols).getD [] := by rw [lx]; exact hs
        obtain ⟨x', y', r, s, lx', ly', hr, hs2, tr, ts⟩ := pair_targets hA (hP.mem_iff.mp hq) hs'
        rw [lx] at lx'
        rw [ly] at ly'
        injection lx' with lx'
        injection ly' with ly'
        subst lx' ly'
        simp only [hr, hs2]
        refine ih r s ?_
        rcases h.cov q sym ⟨hq, hs'⟩ with hc | hc | hc
        · exact .inl (by rw [← tr, ← ts]; exact hc)
        · exact absurd hc hqm
        · rw [tr, ts] at hc
          exact .inr ⟨hc.1, fun hm => hqm (h.closed _ hc.2 hm)⟩
      · have hs' : sym ∉ y.symbols := hsym ▸ hs
        have e1 : assoc sym x.next = none := assoc_eq_none_iff.mpr fun v hv => hs (List.mem_map.mpr ⟨_, hv, rfl⟩)
        have e2 : assoc sym y.next = none := assoc_eq_none_iff.mpr fun v hv => hs' (List.mem_map.mpr ⟨_, hv, rfl⟩)
        simp only [e1, e2]
    intro w
    induction w with
    | nil =>
      rintro a b (rfl | ⟨h1, _⟩)
      · rfl
      · obtain ⟨x, hx, y, hy, _, hb, e⟩ := mem_createPairs.mp (hP.mem_iff.mp h1)
        obtain ⟨c1, c2⟩ := bucket_inj (hA.bytes x hx) (hA.bytes y hy) hb
        have lx := lookup_of_mem hA.nodup hx
        have ly := lookup_of_mem hA.nodup hy
        have hxy : behave A [] x.name = behave A [] y.name := by
          rw [behave, behave, lx, ly]
          simp only [c1, c2]
        unfold key at e
        split at e
        · injection e with e1 e2
          rw [e1, e2]
          exact hxy
        · injection e with e1 e2
          rw [e1, e2]
          exact hxy.symm
    | cons sym w ih =>
      rintro a b (rfl | ⟨h1, h2⟩)
      · rfl
      · have := half w ih sym (key a b) h1 h2
        unfold key at this
        split at this
        · exact this
        · exact this.symm
  obtain ⟨w, hw⟩ := hd
  refine hw (same w p.1 p.2 (.inr ?_))
  obtain ⟨x, _, y, _, hlt, _, e⟩ := mem_createPairs.mp (hP.mem_iff.mp hp)
  have hk : key p.1 p.2 = p := by
    unfold key
    rw [e]
    exact if_pos hlt
  rw [hk]
  exact ⟨hp, hn⟩

/-! ## Representatives -/

/-- No word distinguishes two names. -/
def Same (A : Auto) (a b : Str) : Prop := ∀ w, behave A w a = behave A w b

theorem not_distinct {A : Auto} {a b : Str} : ¬ Distinct A (a, b) ↔ Same A a b := by
  unfold Distinct Same
  push Not
  rfl

theorem Same.symm {A : Auto} {a b : Str} (h : Same A a b) : Same A b a := fun w => (h w).symm

theorem Same.trans {A : Auto} {a b c : Str} (h : Same A a b) (h' : Same A b c) : Same A a c :=
  fun w => (h w).trans (h' w)

/-- `R` maps some of the names `l` to representatives. -/
structure Reps (A : Auto) (l : List Str) (R : List (Str × Str)) : Prop where
  mem : ∀ e ∈ R, e.1 ∈ l ∧ e.2 ∈ l ∧ Same A e.1 e.2 ∧ e.2 ∉ R.map Prod.fst
  uniq : ∀ x ∈ l, ∀ y ∈ l, x ∉ R.map Prod.fst → y ∉ R.map Prod.fst → Same A x y → x = y

theorem represent_spec {A : Auto} {P M : List (Str × Str)} : ∀ (n : Nat) (l : List Str), l.length ≤ n → l.Nodup →
    (∀ x ∈ l, ∀ y ∈ l, x ≠ y → key x y ∈ P) → (∀ x ∈ l, ∀ y ∈ l, x ≠ y → (key x y ∈ M ↔ ¬ Same A x y)) →
    ∃ R, represent P M n l = some R ∧ Reps A l R
  | _, [], _, _, _, _ => by
    refine ⟨[], by rw [represent], ⟨(fun e he => nomatch he), (fun x hx => nomatch hx)⟩⟩
  | n + 1, last :: t, hl, hnd, hP, hM => by
    rw [List.nodup_cons] at hnd
    have hin : ∀ s ∈ t, last ≠ s := fun s hs e => hnd.1 (e ▸ hs)
    have sub : ∀ x ∈ t.filter (fun s => key last s ∈ M), x ∈ last :: t :=
      fun x hx => List.mem_cons_of_mem _ (List.mem_filter.mp hx).1
    obtain ⟨R, hR, hr⟩ := represent_spec (A := A) (P := P) (M := M) n (t.filter fun s => key last s ∈ M)
      (Nat.le_trans (List.length_filter_le _ _) (Nat.le_of_succ_le_succ hl)) (hnd.2.filter _)
      (fun x hx y hy => hP x (sub x hx) y (sub y hy)) (fun x hx y hy => hM x (sub x hx) y (sub y hy))
    refine ⟨_, by
      rw [represent, if_pos (fun s hs => hP last (by simp) s (by simp [hs]) (hin s hs)), hR]
      rfl, ?_⟩
    have hkeys : ∀ x, x ∈ ((t.filter fun s => key last s ∉ M).map (fun s => (s, last)) ++ R).map Prod.fst ↔
        (x ∈ t ∧ key last x ∉ M) ∨ x ∈ R.map Prod.fst := by
      intro x
      simp only [List.map_append, List.map_map, List.mem_append, List.mem_map, Function.comp, List.mem_filter,
        decide_eq_true_eq]
      constructor
      · rintro (⟨y, hy, rfl⟩ | h)
        · exact .inl hy
        · exact .inr h
      · rintro (h | h)
        · exact .inl ⟨x, h, rfl⟩
        · exact .inr h
    have hRk : ∀ x ∈ R.map Prod.fst, x ∈ t ∧ key last x ∈ M := by
      intro x hx
      obtain ⟨e, he, rfl⟩ := List.mem_map.mp hx
      have := List.mem_filter.mp (hr.mem e he).1
      exact ⟨this.1, by simpa using this.2⟩
    constructor
    · intro e he
      rcases List.mem_append.mp he with he | he
      · obtain ⟨x, hx, rfl⟩ := List.mem_map.mp he
        obtain ⟨hx, hxm⟩ := List.mem_filter.mp hx
        have hxm : key last x ∉ M := by simpa using hxm
        refine ⟨List.mem_cons_of_mem _ hx, by simp, ?_, fun hk => ?_⟩
        · have := (hM last (by simp) x (by simp [hx]) (hin x hx)).not.mp hxm
          exact (not_not.mp this).symm
        · rcases (hkeys _).mp hk with hk | hk
          · exact hnd.1 hk.1
          · exact hnd.1 (hRk _ hk).1
      · obtain ⟨h1, h2, h3, h4⟩ := hr.mem e he
        refine ⟨sub _ h1, sub _ h2, h3, fun hk => ?_⟩
        rcases (hkeys _).mp hk with hk | hk
        · exact hk.2 (by simpa using (List.mem_filter.mp h2).2)
        · exact h4 hk
    · have hlast : ∀ y ∈ t, y ∉ ((t.filter fun s => key last s ∉ M).map (fun s => (s, last)) ++ R).map Prod.fst →
          ¬ Same A last y := by
        intro y hy hk
        refine (hM last (by simp) y (by simp [hy]) (hin y hy)).mp ?_
        by_contra hn
        exact hk ((hkeys y).mpr (.inl ⟨hy, hn⟩))
      have hmarked : ∀ y ∈ t, y ∉ ((t.filter fun s => key last s ∉ M).map (fun s => (s, last)) ++ R).map Prod.fst →
          y ∈ t.filter (fun s => key last s ∈ M) ∧ y ∉ R.map Prod.fst := by
        intro y hy hk
        refine ⟨List.mem_filter.mpr ⟨hy, ?_⟩, fun h => hk ((hkeys y).mpr (.inr h))⟩
        rw [decide_eq_true_eq]
        by_contra hn
        exact hk ((hkeys y).mpr (.inl ⟨hy, hn⟩))
      intro x hx y hy hkx hky hs
      rcases List.mem_cons.mp hx with rfl | hx'
      · rcases List.mem_cons.mp hy with rfl | hy'
        · rfl
        · exact absurd hs (hlast y hy' hky)
      · rcases List.mem_cons.mp hy with rfl | hy'
        · exact absurd hs.symm (hlast x hx' hkx)
        · obtain ⟨a1, a2⟩ := hmarked x hx' hkx
          obtain ⟨b1, b2⟩ := hmarked y hy' hky
          exact hr.uniq x a1 y b1 a2 b2 hs

theorem same_bucket {A : Auto} (hA : A.OK) {x y : State} (hx : x ∈ A) (hy : y ∈ A) (h : Same A x.name y.name) :
    x.bucket = y.bucket := by
  have := h []
  rw [behave, behave, lookup_of_mem hA.nodup hx, lookup_of_mem hA.nodup hy] at this
  injection this with this
  injection this with h1 h2
  unfold State.bucket
  rw [h1, h2]

theorem name_inj {A : Auto} (hA : A.OK) {x y : State} (hx : x ∈ A) (hy : y ∈ A) (h : x.name = y.name) : x = y := by
  have h1 := lookup_of_mem hA.nodup hx
  rw [h, lookup_of_mem hA.nodup hy] at h1
  injection h1 with h1
  exact h1.symm

/-- The buckets together. -/
theorem representBuckets_spec {A : Auto} (hA : A.OK) {P : List (Str × Str)} (hP : P.Perm (createPairs A)) {V : List State}
    (hV : V.Perm A) : ∀ bs : List Str, bs.Nodup →
      ∃ R, representBuckets P (markAll A P) V bs = some R ∧
        Reps A ((V.filter fun s => s.bucket ∈ bs).map State.name) R
  | [], _ => ⟨[], rfl, ⟨(fun e he => nomatch he), (fun x hx => by simp at hx)⟩⟩
  | b :: bs, hnd => by
    rw [List.nodup_cons] at hnd
    obtain ⟨R', hR', hr'⟩ := representBuckets_spec hA hP hV bs hnd.2
    have hVn : (V.map State.name).Nodup := (hV.map State.name).nodup_iff.mpr hA.nodup
    have memb : ∀ x, x ∈ (V.filter fun s => s.bucket = b).map State.name ↔ ∃ s ∈ A, s.bucket = b ∧ s.name = x := by
      intro x
      rw [List.mem_map]
      constructor
      · rintro ⟨s, hs, rfl⟩
        have := List.mem_filter.mp hs
        exact ⟨s, hV.mem_iff.mp this.1, by simpa using this.2, rfl⟩
      · rintro ⟨s, hs, h1, rfl⟩
        exact ⟨s, List.mem_filter.mpr ⟨hV.mem_iff.mpr hs, by simpa using h1⟩, rfl⟩
    have membs : ∀ (bs : List Str) x, x ∈ (V.filter fun s => s.bucket ∈ bs).map State.name ↔
        ∃ s ∈ A, s.bucket ∈ bs ∧ s.name = x := by
      intro bs x
      rw [List.mem_map]
      constructor
      · rintro ⟨s, hs, rfl⟩
        have := List.mem_filter.mp hs
        exact ⟨s, hV.mem_iff.mp this.1, by simpa using this.2, rfl⟩
      · rintro ⟨s, hs, h1, rfl⟩
        exact ⟨s, List.mem_filter.mpr ⟨hV.mem_iff.mpr hs, by simpa using h1⟩, rfl⟩
    have hpair : ∀ x ∈ (V.filter fun s => s.bucket = b).map State.name,
        ∀ y ∈ (V.filter fun s => s.bucket = b).map State.name, x ≠ y → key x y ∈ P := by
      intro x hx y hy hne
      obtain ⟨s, hs, hsb, rfl⟩ := (memb x).mp hx
      obtain ⟨t, ht, htb, rfl⟩ := (memb y).mp hy
      refine hP.mem_iff.mpr (mem_createPairs.mpr ?_)
      unfold key
      split
      · rename_i hlt
        exact ⟨s, hs, t, ht, hlt, hsb.trans htb.symm, rfl⟩
      · rename_i hlt
        exact ⟨t, ht, s, hs, lt_of_le_of_ne (not_lt.mp hlt) (Ne.symm hne), htb.trans hsb.symm, rfl⟩
    obtain ⟨R, hR, hr⟩ := represent_spec (A := A) (P := P) (M := markAll A P) _
      ((V.filter fun s => s.bucket = b).map State.name) (by rw [List.length_map])
      (hVn.sublist ((List.filter_sublist).map _)) hpair
      (fun x hx y hy hne => by
        rw [mem_markAll hA hP (hpair x hx y hy hne), distinct_key, ← not_distinct, not_not])
    refine ⟨R ++ R', by rw [representBuckets, hR, hR']; rfl, ?_⟩
    have hkR : ∀ x ∈ R.map Prod.fst, ∃ s ∈ A, s.bucket = b ∧ s.name = x := by
      intro x hx
      obtain ⟨e, he, rfl⟩ := List.mem_map.mp hx
      exact (memb _).mp (hr.mem e he).1
    have hkR' : ∀ x ∈ R'.map Prod.fst, ∃ s ∈ A, s.bucket ∈ bs ∧ s.name = x := by
      intro x hx
      obtain ⟨e, he, rfl⟩ := List.mem_map.mp hx
      exact (membs bs _).mp (hr'.mem e he).1
    have dis : ∀ s ∈ A, ∀ t ∈ A, s.bucket = b → t.bucket ∈ bs → s.name = t.name → False := by
      intro s hs t ht h1 h2 h3
      rw [name_inj hA hs ht h3] at h1
      exact hnd.1 (h1 ▸ h2)
    constructor
    · intro e he
      rw [List.map_append]
      rcases List.mem_append.mp he with he | he
      · obtain ⟨h1, h2, h3, h4⟩ := hr.mem e he
        obtain ⟨s, hs, hsb, hsn⟩ := (memb _).mp h1
        obtain ⟨t, ht, htb, htn⟩ := (memb _).mp h2
        refine ⟨(membs _ _).mpr ⟨s, hs, by simp [hsb], hsn⟩, (membs _ _).mpr ⟨t, ht, by simp [htb], htn⟩, h3, fun hk => ?_⟩
        rcases List.mem_append.mp hk with hk | hk
        · exact h4 hk
        · obtain ⟨u, hu, hub, hun⟩ := hkR' _ hk
          exact dis t ht u hu htb hub (htn.trans hun.symm)
      · obtain ⟨h1, h2, h3, h4⟩ := hr'.mem e he
        obtain ⟨s, hs, hsb, hsn⟩ := (membs _ _).mp h1
        obtain ⟨t, ht, htb, htn⟩ := (membs _ _).mp h2
        refine ⟨(membs _ _).mpr ⟨s, hs, by simp [hsb], hsn⟩, (membs _ _).mpr ⟨t, ht, by simp [htb], htn⟩, h3, fun hk => ?_⟩
        rcases List.mem_append.mp hk with hk | hk
        · obtain ⟨u, hu, hub, hun⟩ := hkR _ hk
          exact dis u hu t ht hub htb (hun.trans htn.symm)
        · exact h4 hk
    · intro x hx y hy hkx hky hs
      rw [List.map_append, List.mem_append] at hkx hky
      push Not at hkx hky
      obtain ⟨s, hs', hsb, rfl⟩ := (membs _ _).mp hx
      obtain ⟨t, ht, htb, rfl⟩ := (membs _ _).mp hy
      have hb := same_bucket hA hs' ht hs
      rcases List.mem_cons.mp hsb with hsb | hsb
      · exact hr.uniq _ ((memb _).mpr ⟨s, hs', hsb, rfl⟩) _ ((memb _).mpr ⟨t, ht, hb ▸ hsb, rfl⟩) hkx.1 hky.1 hs
      · exact hr'.uniq _ ((membs _ _).mpr ⟨s, hs', hsb, rfl⟩) _ ((membs _ _).mpr ⟨t, ht, hb ▸ hsb, rfl⟩) hkx.2 hky.2 hs

theorem computeBisimulation_spec {A : Auto} (hA : A.OK) {P : List (Str × Str)} (hP : P.Perm (createPairs A))
    {V : List State} (hV : V.Perm A) :
    ∃ R, computeBisimulation A P V = some R ∧ Reps A (A.map State.name) R := by
  obtain ⟨R, hR, hr⟩ := representBuckets_spec hA hP hV (V.map State.bucket).dedup (List.nodup_dedup _)
  refine ⟨R, hR, ?_⟩
  have : ∀ x, x ∈ (V.filter fun s => s.bucket ∈ (V.map State.bucket).dedup).map State.name ↔ x ∈ A.map State.name := by
    intro x
    rw [List.mem_map, List.mem_map]
    constructor
    · rintro ⟨s, hs, rfl⟩
      exact ⟨s, hV.mem_iff.mp (List.mem_filter.mp hs).1, rfl⟩
    · rintro ⟨s, hs, rfl⟩
      refine ⟨s, List.mem_filter.mpr ⟨hV.mem_iff.mpr hs, ?_⟩, rfl⟩
      rw [decide_eq_true_eq, List.mem_dedup]
      exact List.mem_map_of_mem (hV.mem_iff.mpr hs)
  refine ⟨fun e he => ?_, fun x hx y hy => hr.uniq x ((this x).mpr hx) y ((this y).mpr hy)⟩
  obtain ⟨h1, h2, h3, h4⟩ := hr.mem e he
  exact ⟨(this _).mp h1, (this _).mp h2, h3, h4⟩

theorem representative_spec {A : Auto} {R : List (Str × Str)} (h : Reps A (A.map State.name) R) (a : Str) :
    Same A a (representative R a) ∧ representative R a ∉ R.map Prod.fst ∧
      (representative R a ∈ A.map State.name ↔ a ∈ A.map State.name) := by
  unfold representative
  cases ha : assoc a R with
  | none =>
    refine ⟨fun _ => rfl, fun hk => ?_, Iff.rfl⟩
    obtain ⟨e, he, hea⟩ := List.mem_map.mp hk
    have hea : e.1 = a := hea
    exact assoc_eq_none_iff.mp ha e.2 (hea ▸ he)
  | some t =>
    obtain ⟨h1, h2, h3, h4⟩ := h.mem (a, t) (assoc_some_mem ha)
    exact ⟨h3, h4, iff_of_true h2 h1⟩

theorem same_unknown {A : Auto} {a b : Str} (ha : a ∉ A.map State.name) (h : Same A a b) : a = b := by
  have hl : lookup A a = none := by
    cases hl : lookup A a with
    | none => rfl
    | some s =>
      obtain ⟨h1, h2⟩ := lookup_mem hl
      exact absurd (List.mem_map.mpr ⟨s, h1, h2⟩) ha
  have := h []
  rw [behave, behave, hl] at this
  cases hb : lookup A b with
  | none =>
    rw [hb] at this
    injection this with this
    injection this
  | some s =>
    rw [hb] at this
    injection this with this
    exact nomatch this

/-! ## Properties -/

/-- **C48.** Whatever the order in which pairs and states are visited, the computation ends without using a pair that
does not exist, and two names get the same representative if and only if no word distinguishes them. -/
theorem C48_minimal {A : Auto} (hA : A.OK) {P : List (Str × Str)} (hP : P.Perm (createPairs A)) {V : List State}
    (hV : V.Perm A) : ∃ R, computeBisimulation A P V = some R ∧
      ∀ a b : Str, representative R a = representative R b ↔ ∀ w, behave A w a = behave A w b := by
  obtain ⟨R, hR, hr⟩ := computeBisimulation_spec hA hP hV
  refine ⟨R, hR, fun a b => ?_⟩
  obtain ⟨a1, a2, a3⟩ := representative_spec hr a
  obtain ⟨b1, b2, b3⟩ := representative_spec hr b
  constructor
  · intro h
    exact a1.trans (h ▸ b1.symm)
  · intro h
    have h : Same A a b := h
    have hs : Same A (representative R a) (representative R b) := a1.symm.trans (h.trans b1)
    by_cases ha : a ∈ A.map State.name
    · by_cases hb : b ∈ A.map State.name
      · exact hr.uniq _ (a3.mpr ha) _ (b3.mpr hb) a2 b2 hs
      · exact (same_unknown (fun h' => hb (b3.mp h')) hs.symm).symm
    · exact same_unknown (fun h' => ha (a3.mp h')) hs

/-- **C48.** The representative of a state is a state no word distinguishes from it, and its own representative. -/
theorem C48_representative {A : Auto} (hA : A.OK) {P : List (Str × Str)} (hP : P.Perm (createPairs A)) {V : List State}
    (hV : V.Perm A) : ∃ R, computeBisimulation A P V = some R ∧ ∀ a : Str,
      (∀ w, behave A w a = behave A w (representative R a)) ∧
      representative R (representative R a) = representative R a ∧
      ((∃ s ∈ A, s.name = representative R a) ↔ ∃ s ∈ A, s.name = a) := by
  obtain ⟨R, hR, hr⟩ := computeBisimulation_spec hA hP hV
  refine ⟨R, hR, fun a => ?_⟩
  obtain ⟨a1, a2, a3⟩ := representative_spec hr a
  refine ⟨a1, ?_, by simpa [List.mem_map] using a3⟩
  have : assoc (representative R a) R = none :=
    assoc_eq_none_iff.mpr fun v hv => a2 (List.mem_map.mpr ⟨_, hv, rfl⟩)
  generalize representative R a = r at this
  unfold representative
  rw [this]
  rfl

/-- **C48.** For a pair that is visited both states exist and have a transition for every symbol that is tried: neither
`at` throws. -/
theorem C48_at {A : Auto} (hA : A.OK) {P : List (Str × Str)} (hP : P.Perm (createPairs A)) {p : Str × Str} (hp : p ∈ P) :
    ∃ x ∈ A, ∃ y ∈ A, x.name = p.1 ∧ y.name = p.2 ∧ ∀ sym ∈ x.symbols,
      assoc sym x.next = some (target A p.1 sym) ∧ assoc sym y.next = some (target A p.2 sym) := by
  obtain ⟨x, hx, y, hy, _, hb, e⟩ := mem_createPairs.mp (hP.mem_iff.mp hp)
  refine ⟨x, hx, y, hy, by rw [e], by rw [e], fun sym hs => ?_⟩
  have lx : lookup A p.1 = some x := by rw [e]; exact lookup_of_mem hA.nodup hx
  have ly : lookup A p.2 = some y := by rw [e]; exact lookup_of_mem hA.nodup hy
  obtain ⟨x', y', r, s, lx', ly', hr, hs2, tr, ts⟩ := pair_targets hA (hP.mem_iff.mp hp) (sym := sym)
    (by rw [lx]; exact hs)
  rw [lx] at lx'
  rw [ly] at ly'
  injection lx' with lx'
  injection ly' with ly'
  subst lx' ly'
  rw [tr, ts]
  exact ⟨hr, hs2⟩

/-! ## Examples -/

/-- Two copies of a cycle of two states, and a state that leads to a missing one. -/
def demoAuto : Auto :=
  [⟨"a".toList, "x".toList, [("s".toList, "b".toList)]⟩, ⟨"b".toList, "y".toList, [("s".toList, "a".toList)]⟩,
   ⟨"c".toList, "x".toList, [("s".toList, "d".toList)]⟩, ⟨"d".toList, "y".toList, [("s".toList, "c".toList)]⟩,
   ⟨"e".toList, "x".toList, [("s".toList, "missing".toList)]⟩]

theorem demoAuto_ok : demoAuto.OK := by
  refine ⟨by decide +kernel, by decide +kernel, ?_⟩
  intro s hs
  have : s.next.length ≤ 1 := by revert s; decide +kernel
  unfold Ascending
  match s.next, this with
  | [], _ => simp
  | [_], _ => simp

example : ∃ R, computeBisimulation demoAuto (createPairs demoAuto) demoAuto = some R ∧
    ∀ a b : Str, representative R a = representative R b ↔ ∀ w, behave demoAuto w a = behave demoAuto w b :=
  C48_minimal demoAuto_ok (List.Perm.refl _) (List.Perm.refl _)

example : ∃ R, computeBisimulation demoAuto (createPairs demoAuto) demoAuto = some R ∧
    representative R "c".toList = "a".toList ∧ representative R "d".toList = "b".toList ∧
    representative R "e".toList = "e".toList := by
  refine ⟨[("d".toList, "b".toList), ("c".toList, "a".toList)], by decide +kernel, by decide +kernel, by decide +kernel,
    by decide +kernel⟩

end Verif.Repo
