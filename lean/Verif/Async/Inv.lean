import Verif.Async.Map

/-!
# The asynchronous map: invariants
-/

namespace Verif.Async

variable {K V : Type} [DecidableEq K]

/-! ## Sums over lists -/

def tot {A : Type} (F : A → Nat) (l : List A) : Nat := (l.map F).sum

theorem tot_nil {A : Type} (F : A → Nat) : tot F [] = 0 := rfl

theorem tot_cons {A : Type} (F : A → Nat) (a : A) (l : List A) : tot F (a :: l) = F a + tot F l := by
  simp [tot]

theorem tot_append {A : Type} (F : A → Nat) (l l' : List A) : tot F (l ++ l') = tot F l + tot F l' := by
  simp [tot]

theorem tot_map {A B : Type} (F : B → Nat) (g : A → B) (l : List A) : tot F (l.map g) = tot (fun a => F (g a)) l := by
  simp [tot, Function.comp_def]

theorem tot_congr {A : Type} {F G : A → Nat} {l : List A} (h : ∀ a ∈ l, F a = G a) : tot F l = tot G l := by
  unfold tot
  rw [List.map_congr_left h]

theorem tot_add {A : Type} (F G : A → Nat) (l : List A) : tot (fun a => F a + G a) l = tot F l + tot G l := by
  induction l with
  | nil => rfl
  | cons a l ih => simp only [tot_cons, ih]; omega

theorem tot_filter {A : Type} (F : A → Nat) (p : A → Bool) (l : List A) :
    tot F (l.filter p) + tot F (l.filter fun a => !p a) = tot F l := by
  induction l with
  | nil => rfl
  | cons a l ih =>
    rw [tot_cons]
    cases hp : p a with
    | true => simp only [List.filter_cons, hp, if_true, Bool.not_true, Bool.false_eq_true, if_false, tot_cons]; omega
    | false => simp only [List.filter_cons, hp, if_true, Bool.not_false, Bool.false_eq_true, if_false, tot_cons]; omega

theorem tot_filter_eq {A : Type} (F : A → Nat) (p : A → Bool) (l : List A) :
    tot F (l.filter p) = tot (fun a => if p a = true then F a else 0) l := by
  induction l with
  | nil => rfl
  | cons a l ih =>
    rw [tot_cons, ← ih]
    cases hp : p a with
    | true => simp only [List.filter_cons, hp, if_true, tot_cons]
    | false => simp only [List.filter_cons, hp, if_false, Bool.false_eq_true]; omega

theorem tot_eq_zero {A : Type} {F : A → Nat} {l : List A} (h : ∀ a ∈ l, F a = 0) : tot F l = 0 := by
  induction l with
  | nil => rfl
  | cons a l ih =>
    rw [tot_cons, h a List.mem_cons_self, ih (fun x hx => h x (List.mem_cons_of_mem _ hx))]

theorem le_tot {A : Type} (F : A → Nat) {l : List A} {a : A} (h : a ∈ l) : F a ≤ tot F l := by
  induction l with
  | nil => cases h
  | cons b l ih =>
    rw [tot_cons]
    rcases List.mem_cons.mp h with rfl | h
    · omega
    · have := ih h; omega

theorem tot_pos {A : Type} {F : A → Nat} {l : List A} (h : 0 < tot F l) : ∃ a ∈ l, 0 < F a := by
  induction l with
  | nil => cases h
  | cons b l ih =>
    rw [tot_cons] at h
    by_cases hb : 0 < F b
    · exact ⟨b, List.mem_cons_self, hb⟩
    · obtain ⟨a, ha, hp⟩ := ih (by omega)
      exact ⟨a, List.mem_cons_of_mem _ ha, hp⟩

/-! ## What only grows -/

structure Le (s s' : Core K V) : Prop where
  ready : ∀ k, s.ready k = true → s'.ready k = true
  failed : ∀ k, s.failed k = true → s'.failed k = true
  flag : ∀ k, s.flag k = true → s'.flag k = true
  calls : ∀ (c : Nat) (r : Call K), s.calls[c]? = some r → s'.calls[c]? = some r
  log : ∀ e ∈ s.log, e ∈ s'.log
  requests : ∀ e ∈ s.requests, e ∈ s'.requests

omit [DecidableEq K] in
theorem Le.refl (s : Core K V) : Le s s := ⟨fun _ h => h, fun _ h => h, fun _ h => h, fun _ _ h => h, fun _ h => h,
  fun _ h => h⟩

omit [DecidableEq K] in
theorem Le.trans {s s' s'' : Core K V} (h : Le s s') (h' : Le s' s'') : Le s s'' :=
  ⟨fun k hk => h'.ready k (h.ready k hk), fun k hk => h'.failed k (h.failed k hk), fun k hk => h'.flag k (h.flag k hk),
    fun c r hr => h'.calls c r (h.calls c r hr), fun e he => h'.log e (h.log e he),
    fun e he => h'.requests e (h.requests e he)⟩

theorem exec_le (x : Item K V) (s : Core K V) : Le s (exec x s).core := by
  have ub : Le s s.ub.core := ⟨fun _ h => h, fun _ h => h, fun _ h => h, fun _ _ h => h,
    fun _ h => List.mem_cons_of_mem _ h, fun _ h => h⟩
  cases x with
  | create k => exact ⟨fun _ h => h, fun _ h => h, fun _ h => h, fun _ _ h => h,
      fun _ h => List.mem_cons_of_mem _ h, fun _ h => h⟩
  | ensure c i =>
    simp only [exec]
    split
    · split
      · exact .refl s
      · exact ⟨fun _ h => h, fun _ h => h, fun k h => by show (_ || _) = true; rw [h, Bool.or_true],
          fun _ _ h => h, fun _ h => h, fun _ h => h⟩
    · exact .refl s
  | ensurePush c i =>
    simp only [exec]
    split
    · exact .refl s
    · exact ub
  | failCheck c p =>
    simp only [exec]
    split
    · exact .refl s
    · exact ub
  | failLock c p =>
    simp only [exec]
    split
    · split
      · exact .refl s
      · exact ⟨fun _ h => h, fun _ h => h, fun _ h => h, fun _ _ h => h, fun _ h => h, fun _ h => h⟩
    · exact ub
  | waitCheck c p =>
    simp only [exec]
    split
    · exact .refl s
    · exact ub
  | waitLock c p =>
    simp only [exec]
    split
    · split
      · exact ⟨fun _ h => h, fun _ h => h, fun _ h => h, fun _ _ h => h, fun _ h => List.mem_cons_of_mem _ h,
          fun _ h => h⟩
      · split
        · exact .refl s
        · exact ⟨fun _ h => h, fun _ h => h, fun _ h => h, fun _ _ h => h, fun _ h => h, fun _ h => h⟩
    · exact ub
  | record c p =>
    simp only [exec]
    split
    · exact ⟨fun _ h => h, fun _ h => h, fun _ h => h, fun _ _ h => h, fun _ h => h,
        fun _ h => List.mem_append_left _ h⟩
    · exact .refl s
  | cont c p => exact .refl s
  | consume c =>
    simp only [exec]
    split
    · exact ⟨fun _ h => h, fun _ h => h, fun _ h => h, fun _ _ h => h, fun _ h => List.mem_cons_of_mem _ h,
        fun _ h => h⟩
    · exact ub
  | failTask c => exact ⟨fun _ h => h, fun _ h => h, fun _ h => h, fun _ _ h => h,
      fun _ h => List.mem_cons_of_mem _ h, fun _ h => h⟩
  | set k v =>
    simp only [exec]
    split
    · exact .refl s
    · refine ⟨?_, fun _ h => h, fun _ h => h, fun _ _ h => h, fun _ h => h, fun _ h => h⟩
      intro k' h
      show (if k = k' then some v else s.value k').isSome = true
      split
      · rfl
      · exact h
  | failNode k =>
    simp only [exec]
    split
    · exact .refl s
    · exact ⟨fun _ h => h, fun k' h => by show (_ || _) = true; rw [h, Bool.or_true], fun _ h => h, fun _ _ h => h,
        fun _ h => List.mem_append_right _ h, fun _ h => h⟩

/-! ## What holds for each item -/

/-- Call `c` has got to its `p`-th key. -/
def At (s : Core K V) (c p : Nat) : Prop :=
  ∃ r, s.calls[c]? = some r ∧ p < r.keys.length ∧ (∀ k ∈ r.keys, s.flag k = true) ∧
    ∀ i k, i < p → r.keys[i]? = some k → s.ready k = true

/-- All keys of call `c` are ready. -/
def AllReady (s : Core K V) (c : Nat) : Prop :=
  ∃ r, s.calls[c]? = some r ∧ ∀ k ∈ r.keys, s.flag k = true ∧ s.ready k = true

/-- Call `c` has got past its first `p` keys. -/
def Past (s : Core K V) (c p : Nat) : Prop :=
  ∃ r, s.calls[c]? = some r ∧ p ≤ r.keys.length ∧ (∀ k ∈ r.keys, s.flag k = true) ∧
    ∀ i k, i < p → r.keys[i]? = some k → s.ready k = true

def Good (s : Core K V) : Item K V → Prop
  | .create k => s.flag k = true
  | .ensure c i => ∃ r, s.calls[c]? = some r ∧ r.keys ≠ [] ∧ i ≤ r.keys.length ∧
      ∀ j k, j < i → r.keys[j]? = some k → s.flag k = true
  | .ensurePush c i => ∃ r, s.calls[c]? = some r ∧ i < r.keys.length ∧
      ∀ j k, j ≤ i → r.keys[j]? = some k → s.flag k = true
  | .failCheck c p => At s c p ∧ s.handler c = true
  | .failLock c p => At s c p ∧ s.handler c = true
  | .waitCheck c p => At s c p
  | .waitLock c p => At s c p
  | .record c p => At s c p
  | .cont c p => Past s c p
  | .consume c => AllReady s c
  | .failTask c => s.handler c = true
  | .set _ _ => True
  | .failNode _ => True

omit [DecidableEq K] in
theorem Le.at {s s' : Core K V} (h : Le s s') {c p : Nat} (ha : At s c p) : At s' c p := by
  obtain ⟨r, h1, h2, h3, h4⟩ := ha
  exact ⟨r, h.calls c r h1, h2, fun k hk => h.flag k (h3 k hk), fun i k hi hk => h.ready k (h4 i k hi hk)⟩

omit [DecidableEq K] in
theorem Le.allReady {s s' : Core K V} (h : Le s s') {c : Nat} (ha : AllReady s c) : AllReady s' c := by
  obtain ⟨r, h1, h2⟩ := ha
  exact ⟨r, h.calls c r h1, fun k hk => ⟨h.flag k (h2 k hk).1, h.ready k (h2 k hk).2⟩⟩

omit [DecidableEq K] in
theorem handler_lt {s : Core K V} {c : Nat} (h : s.handler c = true) : ∃ r, s.calls[c]? = some r ∧ r.handler = true := by
  unfold Core.handler at h
  cases hc : s.calls[c]? with
  | none => rw [hc] at h; cases h
  | some r => rw [hc] at h; exact ⟨r, rfl, h⟩

omit [DecidableEq K] in
theorem Le.handler {s s' : Core K V} (h : Le s s') {c : Nat} (ha : s.handler c = true) : s'.handler c = true := by
  obtain ⟨r, h1, h2⟩ := handler_lt ha
  unfold Core.handler
  rw [h.calls c r h1]
  exact h2

omit [DecidableEq K] in
theorem Le.good {s s' : Core K V} (h : Le s s') {x : Item K V} (hx : Good s x) : Good s' x := by
  cases x with
  | create k => exact h.flag k hx
  | ensure c i =>
    obtain ⟨r, h1, h2, h3, h4⟩ := hx
    exact ⟨r, h.calls c r h1, h2, h3, fun j k hj hk => h.flag k (h4 j k hj hk)⟩
  | ensurePush c i =>
    obtain ⟨r, h1, h3, h4⟩ := hx
    exact ⟨r, h.calls c r h1, h3, fun j k hj hk => h.flag k (h4 j k hj hk)⟩
  | failCheck c p => exact ⟨h.at hx.1, h.handler hx.2⟩
  | failLock c p => exact ⟨h.at hx.1, h.handler hx.2⟩
  | waitCheck c p => exact h.at hx
  | waitLock c p => exact h.at hx
  | record c p => exact h.at hx
  | cont c p =>
    obtain ⟨r, h1, h2, h3, h4⟩ := hx
    exact ⟨r, h.calls c r h1, h2, fun k hk => h.flag k (h3 k hk), fun i k hi hk => h.ready k (h4 i k hi hk)⟩
  | consume c => exact h.allReady hx
  | failTask c => exact h.handler hx
  | set k v => trivial
  | failNode k => trivial

omit [DecidableEq K] in
theorem At.key {s : Core K V} {c p : Nat} (h : At s c p) : ∃ k, s.keyAt c p = some k := by
  obtain ⟨r, h1, h2, -⟩ := h
  exact ⟨r.keys[p], by unfold Core.keyAt; rw [h1]; simp [h2]⟩

omit [DecidableEq K] in
/-- Getting to the next key. -/
theorem At.next {s : Core K V} {c p : Nat} (h : At s c p) {k : K} (hk : s.keyAt c p = some k)
    (hr : s.ready k = true) : Past s c (p + 1) := by
  obtain ⟨r, h1, h2, h3, h4⟩ := h
  have hk' : r.keys[p]? = some k := by
    unfold Core.keyAt at hk
    rw [h1] at hk
    exact hk
  refine ⟨r, h1, h2, h3, ?_⟩
  intro i k' hi hk''
  by_cases hip : i < p
  · exact h4 i k' hip hk''
  · have : i = p := by omega
    subst this
    rw [hk'] at hk''
    cases hk''
    exact hr

omit [DecidableEq K] in
theorem At.ne_none {s : Core K V} {c p : Nat} (h : At s c p) : s.keyAt c p ≠ none := by
  obtain ⟨k, hk⟩ := h.key
  rw [hk]
  exact Option.some_ne_none k

/-! ## Tokens -/

/-- Whether an item is call `c` on its way. -/
def tokI (c : Nat) : Item K V → Nat
  | .ensure c' _ | .ensurePush c' _ | .failCheck c' _ | .failLock c' _ | .waitCheck c' _ | .waitLock c' _
  | .cont c' _ | .consume c' => if c' = c then 1 else 0
  | _ => 0

def tokW (c : Nat) (w : K × Nat × Nat) : Nat := if w.2.1 = c then 1 else 0

/-- Whether an event is the end of call `c`. -/
def tokE (c : Nat) : Event K V → Nat
  | .consumed c' _ | .dropped c' => if c' = c then 1 else 0
  | _ => 0

/-- Whether an item will start, or an event is the start of, the value creator of `k`. -/
def creI (s : Core K V) (k : K) : Item K V → Nat
  | .create k' => if k' = k then 1 else 0
  | .ensurePush c i => if s.keyAt c i = some k then 1 else 0
  | _ => 0

def creE (k : K) : Event K V → Nat
  | .created k' => if k' = k then 1 else 0
  | _ => 0

/-- Whether an item is call `c`, registered for failure at node `k`, about to wait for it. -/
def regI (s : Core K V) (k : K) (c : Nat) : Item K V → Nat
  | .waitCheck c' p | .waitLock c' p => if c' = c ∧ s.keyAt c' p = some k then 1 else 0
  | _ => 0

def regW (k : K) (c : Nat) (w : K × Nat × Nat) : Nat := if w.1 = k ∧ w.2.1 = c then 1 else 0

def regF (k : K) (c : Nat) (w : K × Nat) : Nat := if w.1 = k ∧ w.2 = c then 1 else 0

/-- Whether an item is call `c` about to wait for a node that has failed. -/
def losI (s : Core K V) (c : Nat) : Item K V → Nat
  | .waitCheck c' p | .waitLock c' p => if c' = c ∧ (s.keyAt c' p).any s.failed = true then 1 else 0
  | _ => 0

def losE (c : Nat) : Event K V → Nat
  | .dropped c' => if c' = c then 1 else 0
  | _ => 0

/-- Whether an item or event is the failure function of call `c`. -/
def hanI (c : Nat) : Item K V → Nat
  | .failTask c' => if c' = c then 1 else 0
  | _ => 0

def hanE (c : Nat) : Event K V → Nat
  | .handled c' => if c' = c then 1 else 0
  | _ => 0

structure Inv (s : State K V) : Prop where
  good : ∀ x ∈ s.pool, Good s.core x
  awaiting : ∀ k c q, (k, c, q) ∈ s.core.awaiting → ∃ p, q = p + 1 ∧ At s.core c p ∧ s.core.keyAt c p = some k ∧
    s.core.ready k = false ∧ s.core.failed k = false
  failing : ∀ k c, (k, c) ∈ s.core.failing → s.core.handler c = true
  excl : ∀ k, s.core.ready k = true → s.core.failed k = false
  defined : Event.undefined ∉ s.core.log
  dropped : ∀ c, Event.dropped c ∈ s.core.log →
    ∃ p k, At s.core c p ∧ s.core.keyAt c p = some k ∧ s.core.failed k = true
  consumed : ∀ c vs, Event.consumed c vs ∈ s.core.log → AllReady s.core c
  handled : ∀ c, Event.handled c ∈ s.core.log → s.core.handler c = true
  tok : ∀ c, tot (tokI c) s.pool + tot (tokW c) s.core.awaiting + tot (tokE c) s.core.log =
    if c < s.core.calls.length then 1 else 0
  cre : ∀ k, tot (creI s.core k) s.pool + tot (creE k) s.core.log = if s.core.flag k = true then 1 else 0
  reg : ∀ k c, s.core.handler c = true → s.core.ready k = false → s.core.failed k = false →
    tot (regF k c) s.core.failing = tot (regI s.core k c) s.pool + tot (regW k c) s.core.awaiting
  han : ∀ c, s.core.handler c = true →
    tot (hanI c) s.pool + tot (hanE c) s.core.log = tot (losI s.core c) s.pool + tot (losE c) s.core.log

end Verif.Async
