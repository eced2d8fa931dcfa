import Mathlib.Data.List.Nodup
import Mathlib.Data.List.Perm.Subperm
import Mathlib.Logic.Relation

/-!
# Detecting cycles among the requests of an asynchronous map
-/

namespace Verif.Async

variable {K : Type} [DecidableEq K]

/-- What the search gives. Writing outside of the vector of calls would be undefined behaviour, it is an outcome of its own;
so is running out of fuel. -/
inductive Found (K : Type) where
  | cycle (calls : List K)
  | clean (calls known : List K)
  | oob
  | fuel
  deriving DecidableEq

/-- Writing to a vector by index. -/
def write (calls : List K) (pos : Nat) (k : K) : Option (List K) :=
  if pos < calls.length then some (calls.set pos k) else none

/-- Looking up a key in the requests. -/
def find (k : K) : List (K × List K) → Option (List K)
  | [] => none
  | (k', d) :: req => if k' = k then some d else find k req

/-- async_map_consumer.hpp:327-339: the loop over the dependencies of a caller; `rec` is the recursive call. -/
def detectDeps (rec : List K → List K → K → Nat → Found K) (caller : K) (pos : Nat) :
    List K → List K → List K → Found K
  | [], calls, known => .clean calls (caller :: known)
  | d :: ds, calls, known =>
    if d ∈ calls.take pos then
      match write calls pos d with
      | some calls' => .cycle (calls'.take (pos + 1))
      | none => .oob
    else
      match rec calls known d pos with
      | .clean calls' known' => detectDeps rec caller pos ds calls' known'
      | r => r

/-- async_map_consumer.hpp:317-346 (`DetectCycleForCaller`). The requests are the pairs of a key and the keys of the nodes it
waits for, in the order in which the hash map happens to enumerate them. -/
def detectCaller (req : List (K × List K)) : Nat → List K → List K → K → Nat → Found K
  | 0, _, _, _, _ => .fuel
  | f + 1, calls, known, caller, pos =>
    if caller ∈ known then .clean calls known
    else
      match find caller req with
      | none => .clean calls (caller :: known)
      | some deps =>
        match write calls pos caller with
        | none => .oob
        | some calls' => detectDeps (detectCaller req f) caller (pos + 1) deps calls' known

/-- async_map_consumer.hpp:132-136: the loop over all callers. -/
def detectAll (req : List (K × List K)) : List K → List K → List K → Found K
  | [], calls, known => .clean calls known
  | c :: cs, calls, known =>
    match detectCaller req (req.length + 1) calls known c 0 with
    | .clean calls' known' => detectAll req cs calls' known'
    | r => r

/-- async_map_consumer.hpp:126-138 (`DetectCycle`); `dflt` is the key made by default. -/
def detectCycle (dflt : K) (req : List (K × List K)) : Found K :=
  detectAll req (req.map Prod.fst) (List.replicate (req.length + 1) dflt) []

/-! ## What is asked for -/

/-- `a` waits for `b`. -/
def Waits (req : List (K × List K)) (a b : K) : Prop := ∃ deps, (a, deps) ∈ req ∧ b ∈ deps

/-- Each waits for the next. -/
def Path (req : List (K × List K)) : List K → Prop
  | [] => True
  | [_] => True
  | a :: b :: l => Waits req a b ∧ Path req (b :: l)

/-! ## Proofs -/

/-- Known keys: each one waits only for keys known before. -/
inductive Topo (req : List (K × List K)) : List K → Prop where
  | nil : Topo req []
  | cons {a : K} {known : List K} : (∀ b, Waits req a b → b ∈ known) → Topo req known → Topo req (a :: known)

omit [DecidableEq K] in
theorem Topo.closed {req : List (K × List K)} {known : List K} (h : Topo req known) {a b : K} (ha : a ∈ known)
    (hw : Waits req a b) : b ∈ known := by
  induction h with
  | nil => cases ha
  | cons hb _ ih =>
    rcases List.mem_cons.mp ha with rfl | ha
    · exact List.mem_cons_of_mem _ (hb b hw)
    · exact List.mem_cons_of_mem _ (ih ha)

omit [DecidableEq K] in
theorem Topo.trans_closed {req : List (K × List K)} {known : List K} (h : Topo req known) {a b : K} (ha : a ∈ known)
    (hw : Relation.TransGen (Waits req) a b) : b ∈ known := by
  induction hw with
  | single h' => exact h.closed ha h'
  | tail _ h' ih => exact h.closed ih h'

omit [DecidableEq K] in
theorem Topo.acyclic {req : List (K × List K)} {known : List K} (h : Topo req known) {a : K} (ha : a ∈ known) :
    ¬ Relation.TransGen (Waits req) a a := by
  induction h with
  | nil => cases ha
  | @cons x known hb ht ih =>
    intro hc
    have hmem : ∀ y, Relation.TransGen (Waits req) x y → y ∈ known := by
      intro y hy
      obtain ⟨z, hz, hzy⟩ := Relation.TransGen.head'_iff.mp hy
      rcases Relation.reflTransGen_iff_eq_or_transGen.mp hzy with h1 | h1
      · rw [h1]; exact hb z hz
      · exact ht.trans_closed (hb z hz) h1
    rcases List.mem_cons.mp ha with rfl | ha
    · exact ih (hmem _ hc) hc
    · exact ih ha hc

omit [DecidableEq K] in
theorem write_some {calls : List K} {pos : Nat} {k : K} (h : pos < calls.length) :
    write calls pos k = some (calls.set pos k) := if_pos h

omit [DecidableEq K] in
theorem take_set_succ {calls : List K} {pos : Nat} {k : K} (h : pos < calls.length) :
    (calls.set pos k).take (pos + 1) = calls.take pos ++ [k] := by
  rw [List.take_add_one, List.take_set_of_le (Nat.le_refl pos)]
  simp [h]

omit [DecidableEq K] in
theorem path_snoc {req : List (K × List K)} {l : List K} {a b : K} (h : Path req (l ++ [a])) (hw : Waits req a b) :
    Path req (l ++ [a] ++ [b]) := by
  induction l with
  | nil => exact ⟨hw, trivial⟩
  | cons x l ih =>
    cases l with
    | nil => exact ⟨h.1, hw, trivial⟩
    | cons y l => exact ⟨h.1, ih h.2⟩

/-- What holds of the result of a search: `p` is the path to the caller. -/
def Sound (req : List (K × List K)) (p : List K) (len : Nat) (known : List K) (caller : K) : Found K → Prop
  | .cycle c => Path req c ∧ ∃ pre k mid, c = pre ++ k :: mid ++ [k]
  | .clean calls' known' => calls'.take p.length = p ∧ calls'.length = len ∧ Topo req known' ∧
      (∀ x ∈ known, x ∈ known') ∧ caller ∈ known'
  | .oob => False
  | .fuel => False

theorem deps_good {req : List (K × List K)} {p : List K} {caller : K} {deps : List K} {len : Nat}
    (hmem : (caller, deps) ∈ req) (hu : ∀ deps', (caller, deps') ∈ req → deps' = deps)
    (rec : List K → List K → K → Nat → Found K)
    (hlen : p.length + 1 < len) (hpath : Path req (p ++ [caller]))
    (hrec : ∀ calls known d, d ∉ p ++ [caller] → Waits req caller d → calls.take (p.length + 1) = p ++ [caller] →
      calls.length = len → Topo req known →
      Sound req (p ++ [caller]) len known d (rec calls known d (p.length + 1))) :
    ∀ ds calls known, (∀ d ∈ ds, d ∈ deps) → calls.take (p.length + 1) = p ++ [caller] → calls.length = len →
      Topo req known → (∀ d ∈ deps, d ∈ ds ∨ d ∈ known) →
      Sound req p len known caller (detectDeps rec caller (p.length + 1) ds calls known) := by
  intro ds
  induction ds with
  | nil =>
    intro calls known _ hc hl ht hd
    have hp : calls.take p.length = p := by
      have : (calls.take (p.length + 1)).take p.length = p := by
        rw [hc, List.take_append_of_le_length (Nat.le_refl _), List.take_length]
      rwa [List.take_take, Nat.min_eq_left (Nat.le_succ _)] at this
    refine ⟨hp, hl, .cons ?_ ht, fun x hx => List.mem_cons_of_mem _ hx, List.mem_cons_self⟩
    rintro b ⟨deps', h1, h2⟩
    rw [hu deps' h1] at h2
    rcases hd b h2 with h3 | h3
    · cases h3
    · exact h3
  | cons d ds ih =>
    intro calls known hds hc hl ht hd
    have hw : Waits req caller d := ⟨deps, hmem, hds d List.mem_cons_self⟩
    unfold detectDeps
    by_cases hm : d ∈ calls.take (p.length + 1)
    · rw [if_pos hm, write_some (by omega)]
      show Path req _ ∧ _
      rw [take_set_succ (by omega), hc]
      refine ⟨path_snoc hpath hw, ?_⟩
      rw [hc] at hm
      obtain ⟨s, t, hst⟩ := List.append_of_mem hm
      exact ⟨s, d, t, by rw [hst]⟩
    · rw [if_neg hm]
      have h1 := hrec calls known d (by rwa [hc] at hm) hw hc hl ht
      cases hr : rec calls known d (p.length + 1) with
      | cycle c => rw [hr] at h1; exact h1
      | oob => rw [hr] at h1; exact h1
      | fuel => rw [hr] at h1; exact h1
      | clean calls' known' =>
        rw [hr] at h1
        obtain ⟨h2, h3, h4, h5, h6⟩ := h1
        have h7 := ih calls' known' (fun x hx => hds x (List.mem_cons_of_mem _ hx))
          (by simpa using h2) h3 h4 (by
            intro x hx
            rcases hd x hx with h8 | h8
            · rcases List.mem_cons.mp h8 with rfl | h8
              · exact .inr h6
              · exact .inl h8
            · exact .inr (h5 x h8))
        show Sound req p len known caller (detectDeps rec caller (p.length + 1) ds calls' known')
        cases hq : detectDeps rec caller (p.length + 1) ds calls' known' with
        | cycle c => rw [hq] at h7; exact h7
        | oob => rw [hq] at h7; exact h7
        | fuel => rw [hq] at h7; exact h7
        | clean calls'' known'' =>
          rw [hq] at h7
          obtain ⟨g1, g2, g3, g4, g5⟩ := h7
          exact ⟨g1, g2, g3, fun x hx => g4 x (h5 x hx), g5⟩

omit [DecidableEq K] in
theorem unique_deps {req : List (K × List K)} (hn : (req.map Prod.fst).Nodup) {a : K} {d d' : List K}
    (h : (a, d) ∈ req) (h' : (a, d') ∈ req) : d' = d := by
  induction req with
  | nil => cases h
  | cons x req ih =>
    rw [List.map_cons, List.nodup_cons] at hn
    rcases List.mem_cons.mp h with h1 | h1
    · rcases List.mem_cons.mp h' with h2 | h2
      · rw [← h1] at h2; cases h2; rfl
      · exact absurd (List.mem_map_of_mem (f := Prod.fst) h2) (by rw [← h1] at hn; exact hn.1)
    · rcases List.mem_cons.mp h' with h2 | h2
      · exact absurd (List.mem_map_of_mem (f := Prod.fst) h1) (by rw [← h2] at hn; exact hn.1)
      · exact ih hn.2 h1 h2

theorem find_mem {req : List (K × List K)} {a : K} {d : List K} (h : find a req = some d) : (a, d) ∈ req := by
  induction req with
  | nil => cases h
  | cons x req ih =>
    obtain ⟨k', d'⟩ := x
    unfold find at h
    split at h
    · rename_i hk; cases h; rw [hk]; exact List.mem_cons_self
    · exact List.mem_cons_of_mem _ (ih h)

theorem find_none {req : List (K × List K)} {a : K} (h : find a req = none) : a ∉ req.map Prod.fst := by
  induction req with
  | nil => exact List.not_mem_nil
  | cons x req ih =>
    obtain ⟨k', d'⟩ := x
    unfold find at h
    split at h
    · cases h
    · rename_i hk
      rw [List.map_cons, List.mem_cons]
      rintro (rfl | h')
      · exact hk rfl
      · exact ih h h'

theorem caller_good {req : List (K × List K)} (hn : (req.map Prod.fst).Nodup) :
    ∀ (f : Nat) (p : List K) (calls known : List K) (caller : K), req.length < f + p.length →
      (p ++ [caller]).Nodup → (∀ x ∈ p, x ∈ req.map Prod.fst) → Path req (p ++ [caller]) →
      calls.take p.length = p → calls.length = req.length + 1 → Topo req known →
      Sound req p (req.length + 1) known caller (detectCaller req f calls known caller p.length) := by
  intro f
  induction f with
  | zero =>
    intro p calls known caller hf hnd hp _ _ _ _
    have h1 : p.Nodup := (List.nodup_append.mp hnd).1
    have h2 : p.length ≤ (req.map Prod.fst).length := (List.subperm_of_subset h1 hp).length_le
    rw [List.length_map] at h2
    omega
  | succ f ih =>
    intro p calls known caller hf hnd hp hpath hc hl ht
    unfold detectCaller
    by_cases hk : caller ∈ known
    · rw [if_pos hk]
      exact ⟨hc, hl, ht, fun _ hx => hx, hk⟩
    · rw [if_neg hk]
      cases ha : find caller req with
      | none =>
        refine ⟨hc, hl, .cons ?_ ht, fun x hx => List.mem_cons_of_mem _ hx, List.mem_cons_self⟩
        rintro b ⟨deps, h1, -⟩
        exfalso
        exact find_none ha (List.mem_map_of_mem (f := Prod.fst) h1)
      | some deps =>
        have hm := find_mem ha
        have hin : ∀ x ∈ p ++ [caller], x ∈ req.map Prod.fst := by
          intro x hx
          rcases List.mem_append.mp hx with h1 | h1
          · exact hp x h1
          · rw [List.mem_singleton.mp h1]
            exact List.mem_map_of_mem (f := Prod.fst) hm
        have hle : (p ++ [caller]).length ≤ (req.map Prod.fst).length :=
          (List.subperm_of_subset hnd hin).length_le
        simp only [List.length_append, List.length_singleton, List.length_map] at hle
        show Sound req p (req.length + 1) known caller (match write calls p.length caller with
          | none => .oob
          | some calls' => detectDeps (detectCaller req f) caller (p.length + 1) deps calls' known)
        rw [write_some (by omega)]
        have hc' : (calls.set p.length caller).take (p.length + 1) = p ++ [caller] := by
          rw [take_set_succ (by omega), hc]
        apply deps_good hm (fun d' h' => unique_deps hn hm h') _ (by omega) hpath _ deps _ _ (fun _ h => h) hc'
          (by rw [List.length_set]; exact hl) ht (fun d hd => .inl hd)
        intro calls1 known1 d hd hw hc1 hl1 ht1
        have := ih (p ++ [caller]) calls1 known1 d
          (by rw [List.length_append, List.length_singleton]; omega)
          (by
            rw [List.nodup_append]
            refine ⟨hnd, List.nodup_singleton d, ?_⟩
            intro a ha' b hb
            rw [List.mem_singleton.mp hb]
            rintro rfl
            exact hd ha')
          hin (path_snoc hpath hw) (by rw [List.length_append, List.length_singleton]; exact hc1) hl1 ht1
        rw [List.length_append, List.length_singleton] at this
        exact this

theorem all_good {req : List (K × List K)} (hn : (req.map Prod.fst).Nodup) :
    ∀ (cs : List K) (calls known : List K), calls.length = req.length + 1 → Topo req known →
      match detectAll req cs calls known with
      | .cycle c => Path req c ∧ ∃ pre k mid, c = pre ++ k :: mid ++ [k]
      | .clean _ known' => Topo req known' ∧ (∀ x ∈ known, x ∈ known') ∧ ∀ c ∈ cs, c ∈ known'
      | .oob => False
      | .fuel => False := by
  intro cs
  induction cs with
  | nil => intro calls known _ ht; exact ⟨ht, fun _ h => h, fun c hc => by cases hc⟩
  | cons c cs ih =>
    intro calls known hl ht
    have h1 := caller_good hn (req.length + 1) [] calls known c (by simp) (by simp) (fun x hx => by cases hx) trivial
      (by simp) hl ht
    rw [List.length_nil] at h1
    unfold detectAll
    cases hr : detectCaller req (req.length + 1) calls known c 0 with
    | cycle c => rw [hr] at h1; exact h1
    | oob => rw [hr] at h1; exact h1
    | fuel => rw [hr] at h1; exact h1
    | clean calls' known' =>
      rw [hr] at h1
      obtain ⟨-, h3, h4, h5, h6⟩ := h1
      have h7 := ih calls' known' h3 h4
      show match detectAll req cs calls' known' with
        | .cycle c => Path req c ∧ ∃ pre k mid, c = pre ++ k :: mid ++ [k]
        | .clean _ known' => Topo req known' ∧ (∀ x ∈ known, x ∈ known') ∧ ∀ y ∈ c :: cs, y ∈ known'
        | .oob => False
        | .fuel => False
      cases hq : detectAll req cs calls' known' with
      | cycle c => rw [hq] at h7; exact h7
      | oob => rw [hq] at h7; exact h7
      | fuel => rw [hq] at h7; exact h7
      | clean calls'' known'' =>
        rw [hq] at h7
        obtain ⟨g1, g2, g3⟩ := h7
        refine ⟨g1, fun x hx => g2 x (h5 x hx), ?_⟩
        intro y hy
        rcases List.mem_cons.mp hy with rfl | hy
        · exact g2 _ h6
        · exact g3 y hy

theorem detect_good (dflt : K) {req : List (K × List K)} (hn : (req.map Prod.fst).Nodup) :
    match detectCycle dflt req with
    | .cycle c => Path req c ∧ ∃ pre k mid, c = pre ++ k :: mid ++ [k]
    | .clean _ known' => Topo req known' ∧ (∀ x ∈ ([] : List K), x ∈ known') ∧ ∀ c ∈ req.map Prod.fst, c ∈ known'
    | .oob => False
    | .fuel => False :=
  all_good hn _ _ _ (by rw [List.length_replicate]) .nil

/-! ## Properties -/

/-- **C27**: The search for cycles ends and stays within the vector of calls. -/
theorem C27_safe (dflt : K) {req : List (K × List K)} (hn : (req.map Prod.fst).Nodup) :
    detectCycle dflt req ≠ .oob ∧ detectCycle dflt req ≠ .fuel := by
  have h := detect_good dflt hn
  constructor <;> intro he <;> rw [he] at h <;> exact h

/-- **C27**: What is reported as cycle is one: a list of keys, each waiting for the next, whose last one occurs before. -/
theorem C27_sound (dflt : K) {req : List (K × List K)} (hn : (req.map Prod.fst).Nodup) {c : List K}
    (h : detectCycle dflt req = .cycle c) : Path req c ∧ ∃ pre k mid, c = pre ++ k :: mid ++ [k] := by
  have h1 := detect_good dflt hn
  rw [h] at h1
  exact h1

omit [DecidableEq K] in
theorem path_trans {req : List (K × List K)} : ∀ (l : List K) (a b : K), Path req (a :: l ++ [b]) →
    Relation.TransGen (Waits req) a b := by
  intro l
  induction l with
  | nil => intro a b h; exact .single h.1
  | cons x l ih => intro a b h; exact .head h.1 (ih x b h.2)

omit [DecidableEq K] in
theorem path_suffix {req : List (K × List K)} : ∀ (pre l : List K), Path req (pre ++ l) → Path req l := by
  intro pre
  induction pre with
  | nil => intro l h; exact h
  | cons a pre ih =>
    intro l h
    apply ih
    cases hp : pre ++ l with
    | nil => trivial
    | cons b r =>
      rw [List.cons_append, hp] at h
      exact h.2

/-- **C27**: A cycle is reported if and only if there is one. -/
theorem C27_reported_iff (dflt : K) {req : List (K × List K)} (hn : (req.map Prod.fst).Nodup) :
    (∃ c, detectCycle dflt req = .cycle c) ↔ ∃ k, Relation.TransGen (Waits req) k k := by
  constructor
  · rintro ⟨c, hc⟩
    obtain ⟨hp, pre, k, mid, rfl⟩ := C27_sound dflt hn hc
    rw [List.append_assoc] at hp
    exact ⟨k, path_trans mid k k (path_suffix pre _ hp)⟩
  · rintro ⟨k, hk⟩
    have h := detect_good dflt hn
    cases hd : detectCycle dflt req with
    | cycle c => exact ⟨c, rfl⟩
    | oob => rw [hd] at h; exact h.elim
    | fuel => rw [hd] at h; exact h.elim
    | clean calls known =>
      exfalso
      rw [hd] at h
      obtain ⟨h1, -, h2⟩ := h
      obtain ⟨z, ⟨deps, hm, -⟩, -⟩ := Relation.TransGen.head'_iff.mp hk
      exact h1.acyclic (h2 k (List.mem_map_of_mem (f := Prod.fst) hm)) hk

/-! ## Examples -/

/-- A cycle with a tail leading to it, and branches not on it; the search begins elsewhere. -/
example : detectCycle 0 [(9, [8, 7]), (1, [5, 2]), (2, [3]), (3, [4, 2]), (4, []), (7, [])] = .cycle [1, 2, 3, 2] := by
  decide

example : (∃ c, detectCycle 0 [(1, [2]), (2, [1])] = .cycle c) ∧ ∃ k, Relation.TransGen (Waits [(1, [2]), (2, [1])]) k k :=
  ⟨⟨[1, 2, 1], by decide⟩, (C27_reported_iff 0 (by decide)).mp ⟨[1, 2, 1], by decide⟩⟩

/-- All requests on one path: the vector is filled to its end. -/
example : detectCycle 0 [(1, [2]), (2, [3]), (3, [3])] = .cycle [1, 2, 3, 3] := by decide

example : ¬ ∃ k, Relation.TransGen (Waits [(1, [2, 3]), (2, [3]), (3, [4])]) k k := by
  rw [← C27_reported_iff 0 (by decide)]
  rintro ⟨c, h⟩
  have : detectCycle 0 [(1, [2, 3]), (2, [3]), (3, [4])] = .clean [1, 2, 3, 0] [1, 2, 3, 4] := by decide
  rw [this] at h
  cases h

end Verif.Async
