import Verif.Async.More
import Mathlib.Data.List.Dedup

/-!
# The asynchronous map: each key once, each consumer once, nothing forgotten
-/

namespace Verif.Async

variable {K V : Type} [DecidableEq K]

/-! ## What is counted -/

def isCreated (k : K) : Event K V → Bool
  | .created k' => decide (k' = k)
  | _ => false

def isSetter (k : K) : Event K V → Bool
  | .setterCalled k' _ => decide (k' = k)
  | _ => false

def isConsumed (c : Nat) : Event K V → Bool
  | .consumed c' _ => decide (c' = c)
  | _ => false

def isHandled (c : Nat) : Event K V → Bool
  | .handled c' => decide (c' = c)
  | _ => false

theorem tot_countP {A : Type} {F : A → Nat} {p : A → Bool} (h : ∀ a, F a = if p a = true then 1 else 0) (l : List A) :
    tot F l = l.countP p := by
  induction l with
  | nil => rfl
  | cons a l ih =>
    rw [tot_cons, ih, List.countP_cons, h]
    omega

theorem tot_le {A : Type} {F G : A → Nat} (h : ∀ a, F a ≤ G a) (l : List A) : tot F l ≤ tot G l := by
  induction l with
  | nil => exact Nat.le_refl _
  | cons a l ih => rw [tot_cons, tot_cons]; have := h a; omega

theorem cre_count (k : K) (l : List (Event K V)) : tot (creE k) l = l.countP (isCreated k) := by
  refine tot_countP (fun e => ?_) l
  cases e <;> simp [creE, isCreated]

theorem set_count (k : K) (l : List (Event K V)) : tot (setE k) l = l.countP (isSetter k) := by
  refine tot_countP (fun e => ?_) l
  cases e <;> simp [setE, isSetter]

omit [DecidableEq K] in
theorem han_count (c : Nat) (l : List (Event K V)) : tot (hanE c) l = l.countP (isHandled c) := by
  refine tot_countP (fun e => ?_) l
  cases e <;> simp [hanE, isHandled]

omit [DecidableEq K] in
theorem con_count (c : Nat) (l : List (Event K V)) : l.countP (isConsumed c) + tot (losE c) l = tot (tokE c) l := by
  induction l with
  | nil => rfl
  | cons e l ih =>
    rw [List.countP_cons, tot_cons, tot_cons]
    cases e <;> simp [isConsumed, losE, tokE] <;> omega

omit [DecidableEq K] in
theorem los_le_tok (s : Core K V) (c : Nat) (l : List (Item K V)) : tot (losI s c) l ≤ tot (tokI c) l := by
  refine tot_le (fun x => ?_) l
  cases x with
  | waitCheck c' p =>
    simp only [losI, tokI]
    by_cases h : c' = c
    · simp only [h, true_and, if_true]; split <;> omega
    · simp [h]
  | waitLock c' p =>
    simp only [losI, tokI]
    by_cases h : c' = c
    · simp only [h, true_and, if_true]; split <;> omega
    · simp [h]
  | _ => simp [losI]

/-! ## Some more facts on reachable states -/

theorem steps_reachable {s s' : State K V} (h : Reachable s) (hs : Steps s s') : Reachable s' := by
  induction hs with
  | refl => exact h
  | tail _ hs ih => exact .step ih hs

theorem step_le {s s' : State K V} (h : Step s s') : Le s.core s'.core := by
  cases h with
  | op s pre post x => exact exec_le x s
  | setter s pool k v _ => exact ⟨fun _ h => h, fun _ h => h, fun _ h => h, fun _ _ h => h,
      fun _ h => List.mem_cons_of_mem _ h, fun _ h => h⟩
  | fatal s pool k _ => exact ⟨fun _ h => h, fun _ h => h, fun _ h => h, fun _ _ h => h,
      fun _ h => List.mem_cons_of_mem _ h, fun _ h => h⟩
  | call s pool r _ => exact call_le

theorem steps_le {s s' : State K V} (h : Steps s s') : Le s.core s'.core := by
  induction h with
  | refl => exact .refl _
  | tail _ hs ih => exact ih.trans (step_le hs)

/-- Only what is requested is marked; who was told of a failure passes it on. -/
structure Inv3 (s : State K V) : Prop where
  wanted : ∀ k, s.core.flag k = true → ∃ (c : Nat) (r : Call K), s.core.calls[c]? = some r ∧ k ∈ r.keys
  passed : ∀ c o, Event.handled c ∈ s.core.log → s.core.owner c = some o →
    s.core.ready o = true ∨ s.core.failed o = true ∨ Item.failNode o ∈ s.pool

theorem Out.newFlag {s s' : Core K V} {x : Item K V} {is : List (Item K V)} (h : Out s x s' is) {k : K}
    (hs : s'.flag k = true) : s.flag k = true ∨ ∃ c i, s.keyAt c i = some k := by
  cases h with
  | ensureMark c i k' hk hf =>
    by_cases he : k' = k
    · subst he; exact .inr ⟨c, i, hk⟩
    · left; simpa [he] using hs
  | _ => exact .inl hs

theorem Out.newHandled {s s' : Core K V} {x : Item K V} {is : List (Item K V)} (h : Out s x s' is) {c : Nat} {o : K}
    (hd : Event.handled c ∈ s'.log) (ho : s.owner c = some o) : Event.handled c ∈ s.log ∨ Item.failNode o ∈ is := by
  cases h with
  | fail k hr hf =>
    rcases List.mem_append.mp hd with h | h
    · obtain ⟨w, -, hw⟩ := List.mem_map.mp h; cases hw
    · exact .inl h
  | failOwner c' o' hh ho' =>
    rcases List.mem_cons.mp hd with h | h
    · cases h
      rw [ho] at ho'; cases ho'
      exact .inr (List.mem_singleton.mpr rfl)
    · exact .inl h
  | failNone c' hh ho' =>
    rcases List.mem_cons.mp hd with h | h
    · cases h
      rw [ho] at ho'; cases ho'
    · exact .inl h
  | create k hf => exact .inl (by simpa using hd)
  | waitFailed c p k => exact .inl (by simpa using hd)
  | consume c vs => exact .inl (by simpa using hd)
  | _ => exact .inl hd

theorem Out.failNode {s s' : Core K V} {k : K} {is : List (Item K V)} (h : Out s (.failNode k) s' is) :
    s'.ready k = true ∨ s'.failed k = true := by
  cases h with
  | failDone _ h => exact h
  | fail _ hr hf => right; simp

theorem inv3 {s : State K V} (h : Reachable s) : Inv3 s := by
  induction h with
  | start =>
    constructor
    · intro k h; cases h
    · intro c o h; cases h
  | step hre hs ih =>
    have hi := inv hre
    cases hs with
    | op s pre post x =>
      have hxm : x ∈ pre ++ x :: post := List.mem_append_right _ List.mem_cons_self
      have ho := exec_out (hi.good x hxm)
      have hle := exec_le x s
      have how := exec_owner x s
      constructor
      · intro k hk
        rcases ho.newFlag hk with h | ⟨c, i, h⟩
        · obtain ⟨c, r, h1, h2⟩ := ih.wanted k h
          exact ⟨c, r, hle.calls c r h1, h2⟩
        · unfold Core.keyAt at h
          cases hc : s.calls[c]? with
          | none => rw [hc] at h; cases h
          | some r => rw [hc] at h; exact ⟨c, r, hle.calls c r hc, List.mem_of_getElem? h⟩
      · intro c o hd hown
        have hown' : s.owner c = some o := by rw [← how]; exact hown
        rcases ho.newHandled hd hown' with h | h
        · rcases ih.passed c o h hown' with h | h | h
          · exact .inl (hle.ready o h)
          · exact .inr (.inl (hle.failed o h))
          · have h' : Item.failNode o ∈ pre ++ x :: post := h
            rcases List.mem_append.mp h' with h | h
            · exact .inr (.inr (List.mem_append_left _ (List.mem_append_left _ h)))
            · rcases List.mem_cons.mp h with h | h
              · subst h
                rcases ho.failNode with h | h
                · exact .inl h
                · exact .inr (.inl h)
              · exact .inr (.inr (List.mem_append_right _ h))
        · exact .inr (.inr (List.mem_append_left _ (List.mem_append_right _ h)))
    | setter s pool k v hc =>
      refine ⟨ih.wanted, fun c o hd hown => ?_⟩
      rcases ih.passed c o (by simpa using hd) hown with h | h | h
      · exact .inl h
      · exact .inr (.inl h)
      · exact .inr (.inr (List.mem_cons_of_mem _ h))
    | fatal s pool k hc =>
      refine ⟨ih.wanted, fun c o hd hown => ?_⟩
      rcases ih.passed c o (by simpa using hd) hown with h | h | h
      · exact .inl h
      · exact .inr (.inl h)
      · exact .inr (.inr (List.mem_cons_of_mem _ h))
    | call s pool r hr =>
      have hle : Le s { s with calls := s.calls ++ [r] } := call_le
      constructor
      · intro k hk
        obtain ⟨c, r, h1, h2⟩ := ih.wanted k hk
        exact ⟨c, r, hle.calls c r h1, h2⟩
      · intro c o hd hown
        have hlt := handler_lt' (hi.handled c hd)
        have hown' : s.owner c = some o := by rw [← call_owner (r := r) (Nat.ne_of_lt hlt)]; exact hown
        rcases ih.passed c o hd hown' with h | h | h
        · exact .inl h
        · exact .inr (.inl h)
        · exact .inr (.inr (List.mem_cons_of_mem _ h))

/-- Where a call is when nothing is going on. -/
theorem settled {s : State K V} (h : Reachable s) (hq : s.pool = []) {c : Nat} {r : Call K}
    (hc : s.core.calls[c]? = some r) :
    (∃ vs, Event.consumed c vs ∈ s.core.log) ∨ Event.dropped c ∈ s.core.log ∨ ∃ k q, (k, c, q) ∈ s.core.awaiting := by
  have hi := inv h
  have hlt : c < s.core.calls.length := by
    rcases Nat.lt_or_ge c s.core.calls.length with h' | h'
    · exact h'
    · rw [List.getElem?_eq_none_iff.mpr h'] at hc; cases hc
  have ht := hi.tok c
  rw [hq, tot_nil, if_pos hlt] at ht
  by_cases hw : 0 < tot (tokW c) s.core.awaiting
  · obtain ⟨⟨k, c', q⟩, hm, hp⟩ := tot_pos hw
    have : c' = c := by
      by_contra hne
      simp [tokW, hne] at hp
    subst this
    exact .inr (.inr ⟨k, q, hm⟩)
  · have he : 0 < tot (tokE c) s.core.log := by omega
    obtain ⟨e, hm, hp⟩ := tot_pos he
    cases e with
    | consumed c' vs =>
      have : c' = c := by
        by_contra hne
        simp [tokE, hne] at hp
      subst this
      exact .inl ⟨vs, hm⟩
    | dropped c' =>
      have : c' = c := by
        by_contra hne
        simp [tokE, hne] at hp
      subst this
      exact .inr (.inl hm)
    | _ => simp [tokE] at hp

theorem settled_flags {s : State K V} (h : Reachable s) (hq : s.pool = []) {c : Nat} {r : Call K}
    (hc : s.core.calls[c]? = some r) : ∀ k ∈ r.keys, s.core.flag k = true := by
  have hi := inv h
  intro k hk
  rcases settled h hq hc with ⟨vs, hm⟩ | hm | ⟨k', q, hm⟩
  · obtain ⟨r', h1, h2⟩ := hi.consumed c vs hm
    rw [hc] at h1; cases h1
    exact (h2 k hk).1
  · obtain ⟨p, k', ⟨r', h1, -, h3, -⟩, -⟩ := hi.dropped c hm
    rw [hc] at h1; cases h1
    exact h3 k hk
  · obtain ⟨p, -, ⟨r', h1, -, h3, -⟩, -⟩ := hi.awaiting k' c q hm
    rw [hc] at h1; cases h1
    exact h3 k hk

/-! ## C25 -/

/-- **C25**: the value creator of a key is started at most once. -/
theorem C25_once {s : State K V} (h : Reachable s) (k : K) : s.core.log.countP (isCreated k) ≤ 1 := by
  have := (inv h).cre k
  rw [cre_count] at this
  split at this <;> omega

/-- **C25**: it is started exactly once for each key that occurs in a call, and never for another one. -/
theorem C25_requested {s : State K V} (h : Reachable s) (hq : s.pool = []) (k : K) :
    s.core.log.countP (isCreated k) = 1 ↔ ∃ (c : Nat) (r : Call K), s.core.calls[c]? = some r ∧ k ∈ r.keys := by
  have hc := (inv h).cre k
  rw [cre_count, hq, tot_nil, Nat.zero_add] at hc
  constructor
  · intro h1
    refine (inv3 h).wanted k ?_
    by_contra hf
    rw [if_neg hf] at hc
    omega
  · rintro ⟨c, r, h1, h2⟩
    rw [hc, if_pos (settled_flags h hq h1 k h2)]

/-- **C25**: a key is never both ready and failed. -/
theorem C25_exclusive {s : State K V} (h : Reachable s) (k : K) : ¬ (s.core.ready k = true ∧ s.core.failed k = true) := by
  rintro ⟨h1, h2⟩
  rw [(inv h).excl k h1] at h2
  cases h2

/-- **C25**: a key that is ready stays so, a key that failed stays so. -/
theorem C25_final {s s' : State K V} (hs : Steps s s') (k : K) :
    (s.core.ready k = true → s'.core.ready k = true) ∧ (s.core.failed k = true → s'.core.failed k = true) :=
  ⟨(steps_le hs).ready k, (steps_le hs).failed k⟩

theorem setter_mono {s s' : State K V} (h : Reachable s) (hs : Step s s') (k : K) :
    s.core.log.countP (isSetter k) ≤ s'.core.log.countP (isSetter k) := by
  cases hs with
  | op s pre post x =>
    have ho := exec_out ((inv h).good x (List.mem_append_right _ List.mem_cons_self))
    have h4 := ho.events k
    rw [set_count, set_count] at h4
    exact Nat.le_of_eq h4.symm
  | setter s pool k' v _ => rw [List.countP_cons]; exact Nat.le_add_right _ _
  | fatal s pool k' _ => rw [List.countP_cons]; exact Nat.le_add_right _ _
  | call s pool r _ => exact Nat.le_refl _

/-- **C25**, if the setter of the key is called at most once: its value never changes once set. Without that condition
see `C25_overwritten`. -/
theorem C25_value_partial {s s' : State K V} (h : Reachable s) (hs : Steps s s') {k : K} {v : V}
    (hv : s.core.value k = some v) (h1 : s'.core.log.countP (isSetter k) ≤ 1) : s'.core.value k = some v := by
  induction hs with
  | refl => exact hv
  | @tail t t' hst hs ih =>
    have hr := steps_reachable h hst
    have hm := setter_mono hr hs k
    have hvt := ih (by omega)
    cases hs with
    | op s0 pre post x =>
      have hxm : x ∈ pre ++ x :: post := List.mem_append_right _ List.mem_cons_self
      have ho := exec_out ((inv hr).good x hxm)
      rcases ho.newValue k with h | ⟨v', hx, -⟩
      · exact h.trans hvt
      · exfalso
        have hc : tot (setI k) (pre ++ x :: post) + (s0.ready k).toNat ≤ tot (setE k) s0.log := (inv2 hr).count k
        rw [set_count] at hc
        have h2 : setI k x ≤ tot (setI k) (pre ++ x :: post) := le_tot (setI k) hxm
        have h3 : setI k x = 1 := by rw [hx]; simp [setI]
        have h4 : s0.ready k = true := by
          have hvt' : s0.value k = some v := hvt
          unfold Core.ready
          rw [hvt']; rfl
        rw [h4] at hc
        have h5 : s0.log.countP (isSetter k) ≤ 1 := Nat.le_trans hm h1
        have h6 : true.toNat = 1 := rfl
        omega
    | setter s0 pool k' v' _ => exact hvt
    | fatal s0 pool k' _ => exact hvt
    | call s0 pool r _ => exact hvt

/-- **C25**: a value that is there was given to the setter. -/
theorem C25_value_given {s : State K V} (h : Reachable s) {k : K} {v : V} (hv : s.core.value k = some v) :
    Event.setterCalled k v ∈ s.core.log ∧ Event.created k ∈ s.core.log := by
  have h1 := (inv2 h).valLog k v hv
  refine ⟨h1, ?_⟩
  clear hv
  induction h with
  | start => cases h1
  | step hre hs ih =>
    cases hs with
    | op s pre post x =>
      have hle := exec_le x s
      refine hle.log _ (ih ?_)
      have ho := exec_out ((inv hre).good x (List.mem_append_right _ List.mem_cons_self))
      revert h1
      generalize (exec x s).core = s' at *
      generalize (exec x s).items = is at *
      intro h1
      cases ho with
      | fail k hr hf =>
        rcases List.mem_append.mp h1 with h | h
        · obtain ⟨w, -, hw⟩ := List.mem_map.mp h; cases hw
        · exact h
      | create k hf => simpa using h1
      | waitFailed c p k => simpa using h1
      | consume c vs => simpa using h1
      | failOwner c o => simpa using h1
      | failNone c => simpa using h1
      | _ => exact h1
    | setter s pool k' v' hc =>
      rcases List.mem_cons.mp h1 with h | h
      · cases h; exact List.mem_cons_of_mem _ hc
      · exact List.mem_cons_of_mem _ (ih h)
    | fatal s pool k' _ => exact List.mem_cons_of_mem _ (ih (by simpa using h1))
    | call s pool r _ => exact ih h1

/-! ## C26 -/

/-- **C26**: nothing undefined happens: no value is read that is not there, no key is accessed outside of its list. -/
theorem C26_defined {s : State K V} (h : Reachable s) : Event.undefined ∉ s.core.log := (inv h).defined

/-- **C26**: a consumer is run at most once, its failure function is called at most once, and never both. -/
theorem C26_once {s : State K V} (h : Reachable s) (c : Nat) :
    s.core.log.countP (isConsumed c) + s.core.log.countP (isHandled c) ≤ 1 := by
  have hi := inv h
  have ht := hi.tok c
  rw [← con_count] at ht
  by_cases hh : s.core.handler c = true
  · have hn := hi.han c hh
    rw [han_count] at hn
    have hl := los_le_tok s.core c s.pool
    split at ht <;> omega
  · have : s.core.log.countP (isHandled c) = 0 := by
      rw [List.countP_eq_zero]
      intro e he hp
      cases e with
      | handled c' =>
        have : c' = c := by simpa [isHandled] using hp
        subst this
        exact hh (hi.handled c' he)
      | _ => simp [isHandled] at hp
    split at ht <;> omega

/-- **C26**: a consumer is run only when all its keys, with repetitions, are ready, and gets values that were set for
them. -/
theorem C26_ready {s : State K V} (h : Reachable s) {c : Nat} {vs : List V} (hc : Event.consumed c vs ∈ s.core.log) :
    ∃ r, s.core.calls[c]? = some r ∧ (∀ k ∈ r.keys, s.core.ready k = true) ∧
      List.Forall₂ (fun k v => Event.setterCalled k v ∈ s.core.log) r.keys vs := by
  obtain ⟨r, h1, h2⟩ := (inv h).consumed c vs hc
  have h3 := (inv2 h).read c vs hc
  rw [keys_eq h1] at h3
  exact ⟨r, h1, fun k hk => (h2 k hk).2, h3⟩

/-- **C26**: a failure function is called only if a key of its call has failed. -/
theorem C26_handled {s : State K V} (h : Reachable s) {c : Nat} (hc : Event.handled c ∈ s.core.log) :
    ∃ r, s.core.calls[c]? = some r ∧ r.handler = true ∧ ∃ k ∈ r.keys, s.core.failed k = true := by
  have hi := inv h
  have hh := hi.handled c hc
  obtain ⟨r, h1, h2⟩ := handler_lt hh
  refine ⟨r, h1, h2, ?_⟩
  have hn := hi.han c hh
  have hpos : 0 < tot (hanE c) s.core.log := Nat.lt_of_lt_of_le (by simp [hanE]) (le_tot (hanE c) hc)
  by_cases hd : 0 < tot (losE c) s.core.log
  · obtain ⟨e, hm, hp⟩ := tot_pos hd
    cases e with
    | dropped c' =>
      have : c' = c := by
        by_contra hne
        simp [losE, hne] at hp
      subst this
      obtain ⟨p, k, ⟨r', h3, -⟩, h4, h5⟩ := hi.dropped c' hm
      rw [keyAt_eq h1] at h4
      exact ⟨k, List.mem_of_getElem? h4, h5⟩
    | _ => simp [losE] at hp
  · have hl : 0 < tot (losI s.core c) s.pool := by omega
    obtain ⟨x, hm, hp⟩ := tot_pos hl
    have key : ∀ c' p, 0 < (if c' = c ∧ (s.core.keyAt c' p).any s.core.failed = true then 1 else 0) →
        ∃ k ∈ r.keys, s.core.failed k = true := by
      intro c' p hp
      by_cases hcond : c' = c ∧ (s.core.keyAt c' p).any s.core.failed = true
      · obtain ⟨rfl, hk⟩ := hcond
        rw [keyAt_eq h1] at hk
        cases hrk : r.keys[p]? with
        | none => rw [hrk] at hk; cases hk
        | some k => rw [hrk] at hk; exact ⟨k, List.mem_of_getElem? hrk, hk⟩
      · rw [if_neg hcond] at hp; cases hp
    cases x with
    | waitCheck c' p => exact key c' p hp
    | waitLock c' p => exact key c' p hp
    | _ => simp [losI] at hp

/-- **C26**: a key fails only if its value creator reported so, or it waited, by a call of its own, for a key that failed. -/
theorem C26_failed {s : State K V} (h : Reachable s) {k : K} (hf : s.core.failed k = true) :
    Event.fatalCalled k ∈ s.core.log ∨ ∃ (c : Nat) (r : Call K), s.core.calls[c]? = some r ∧ r.owner = some k ∧
      ∃ k' ∈ r.keys, s.core.failed k' = true := by
  rcases (inv2 h).failedLog k hf with h1 | ⟨c, h1, h2⟩
  · exact .inl h1
  · obtain ⟨r, h3, h4⟩ := owner_some h1
    obtain ⟨r', h5, -, h6⟩ := C26_handled h h2
    rw [h3] at h5; cases h5
    exact .inr ⟨c, r, h3, h4, h6⟩

/-- **C26**: when nothing is going on, each call has run its consumer, all keys being ready; or its first key that is not
ready has failed, and its failure function, if any, was called once; or it waits for its first key that is not ready. -/
theorem C26_quiescent {s : State K V} (h : Reachable s) (hq : s.pool = []) {c : Nat} {r : Call K}
    (hc : s.core.calls[c]? = some r) :
    (s.core.log.countP (isConsumed c) = 1 ∧ ∀ k ∈ r.keys, s.core.ready k = true) ∨
    ∃ (p : Nat) (k : K), r.keys[p]? = some k ∧
      (∀ (i : Nat) (k' : K), i < p → r.keys[i]? = some k' → s.core.ready k' = true) ∧ s.core.ready k = false ∧ s.core.log.countP (isConsumed c) = 0 ∧
      ((s.core.failed k = true ∧ (r.handler = true → s.core.log.countP (isHandled c) = 1)) ∨
        (s.core.failed k = false ∧ s.core.log.countP (isHandled c) = 0)) := by
  have hi := inv h
  have hlt : c < s.core.calls.length := by
    rcases Nat.lt_or_ge c s.core.calls.length with h' | h'
    · exact h'
    · rw [List.getElem?_eq_none_iff.mpr h'] at hc; cases hc
  have ht := hi.tok c
  rw [← con_count, hq, tot_nil, if_pos hlt] at ht
  have hh : s.core.handler c = r.handler := by
    unfold Core.handler
    rw [hc]; rfl
  have hn : r.handler = true → s.core.log.countP (isHandled c) = tot (losE c) s.core.log := by
    intro hr
    have := hi.han c (hh.trans hr)
    rw [han_count, hq, tot_nil, tot_nil] at this
    omega
  have hz : r.handler = false → s.core.log.countP (isHandled c) = 0 := by
    intro hr
    rw [List.countP_eq_zero]
    intro e he hp
    cases e with
    | handled c' =>
      have : c' = c := by simpa [isHandled] using hp
      subst this
      have := hi.handled c' he
      rw [hh, hr] at this
      cases this
    | _ => simp [isHandled] at hp
  rcases settled h hq hc with ⟨vs, hm⟩ | hm | ⟨k, q, hm⟩
  · left
    obtain ⟨r', h1, h2⟩ := hi.consumed c vs hm
    rw [hc] at h1; cases h1
    refine ⟨?_, fun k hk => (h2 k hk).2⟩
    have : 0 < s.core.log.countP (isConsumed c) := List.countP_pos_iff.mpr ⟨_, hm, by simp [isConsumed]⟩
    omega
  · right
    obtain ⟨p, k, ⟨r', h1, h2, h3, h4⟩, h5, h6⟩ := hi.dropped c hm
    rw [hc] at h1; cases h1
    have hl : 0 < tot (losE c) s.core.log := Nat.lt_of_lt_of_le (by simp [losE]) (le_tot (losE c) hm)
    rw [keyAt_eq hc] at h5
    refine ⟨p, k, h5, h4, ?_, by omega, .inl ⟨h6, fun hr => ?_⟩⟩
    · cases hr : s.core.ready k with
      | false => rfl
      | true => rw [hi.excl k hr] at h6; cases h6
    · have := hn hr
      omega
  · right
    obtain ⟨p, -, ⟨r', h1, h2, h3, h4⟩, h5, h6, h7⟩ := hi.awaiting k c q hm
    rw [hc] at h1; cases h1
    have hl : 0 < tot (tokW c) s.core.awaiting := Nat.lt_of_lt_of_le (by simp [tokW]) (le_tot (tokW c) hm)
    rw [keyAt_eq hc] at h5
    refine ⟨p, k, h5, h4, h6, by omega, .inr ⟨h7, ?_⟩⟩
    cases hr : r.handler with
    | true => have := hn hr; omega
    | false => exact hz hr

/-- **C26**: when nothing is going on, every consumer whose keys are ready has been run, once. -/
theorem C26_all_ready {s : State K V} (h : Reachable s) (hq : s.pool = []) {c : Nat} {r : Call K}
    (hc : s.core.calls[c]? = some r) (hk : ∀ k ∈ r.keys, s.core.ready k = true) :
    s.core.log.countP (isConsumed c) = 1 := by
  rcases C26_quiescent h hq hc with ⟨h1, -⟩ | ⟨p, k, h1, -, h2, -⟩
  · exact h1
  · rw [hk k (List.mem_of_getElem? h1)] at h2; cases h2

/-- **C26**, for calls all of whose keys are ready or failed: when nothing is going on, the failure function of every call
with a failed key has been called, once. For calls with a key that is neither see `C26_failure_unnoticed`. -/
theorem C26_some_failed_partial {s : State K V} (h : Reachable s) (hq : s.pool = []) {c : Nat} {r : Call K}
    (hc : s.core.calls[c]? = some r) (hr : r.handler = true)
    (hk : ∀ k ∈ r.keys, s.core.ready k = true ∨ s.core.failed k = true) (hf : ∃ k ∈ r.keys, s.core.failed k = true) :
    s.core.log.countP (isHandled c) = 1 := by
  rcases C26_quiescent h hq hc with ⟨-, h1⟩ | ⟨p, k, h1, -, h2, -, ⟨-, h4⟩ | ⟨h3, -⟩⟩
  · obtain ⟨k, hkm, hkf⟩ := hf
    exact absurd ⟨h1 k hkm, hkf⟩ (C25_exclusive h k)
  · exact h4 hr
  · rcases hk k (List.mem_of_getElem? h1) with h | h
    · rw [h] at h2; cases h2
    · rw [h] at h3; cases h3

/-- **C26**: failures are passed on: when nothing is going on, a key that, by a call of its own, waited for a key that
failed, has failed, unless its value was set nevertheless. -/
theorem C26_passed_on {s : State K V} (h : Reachable s) (hq : s.pool = []) {c : Nat} {r : Call K} {o : K}
    (hc : s.core.calls[c]? = some r) (ho : r.owner = some o)
    (hk : ∀ k ∈ r.keys, s.core.ready k = true ∨ s.core.failed k = true) (hf : ∃ k ∈ r.keys, s.core.failed k = true) :
    s.core.ready o = true ∨ s.core.failed o = true := by
  have how : s.core.owner c = some o := by
    unfold Core.owner
    rw [hc]; exact ho
  have hh := ((inv2 h).own c o how).1
  have hr : r.handler = true := by
    unfold Core.handler at hh
    rw [hc] at hh; exact hh
  have h1 := C26_some_failed_partial h hq hc hr hk hf
  have hpos : 0 < s.core.log.countP (isHandled c) := by omega
  obtain ⟨e, he, hp⟩ := List.countP_pos_iff.mp hpos
  cases e with
  | handled c' =>
    have : c' = c := by simpa [isHandled] using hp
    subst this
    rcases (inv3 h).passed c' o he how with h | h | h
    · exact .inl h
    · exact .inr h
    · rw [hq] at h; cases h
  | _ => simp [isHandled] at hp

/-! ## C26: the work ends -/

/-- Steps of items only: nothing is called from outside. -/
inductive Runs : Nat → State K V → State K V → Prop where
  | refl (s : State K V) : Runs 0 s s
  | step {n : Nat} {s : Core K V} {pre post : List (Item K V)} {x : Item K V} {t : State K V} :
      Runs n ⟨(exec x s).core, pre ++ (exec x s).items ++ post⟩ t → Runs (n + 1) ⟨s, pre ++ x :: post⟩ t

def costI (s : Core K V) : Item K V → Nat
  | .create _ => 1
  | .ensure c i => 8 * (s.keys c).length + 3 * ((s.keys c).length - i) + 2
  | .ensurePush c i => 8 * (s.keys c).length + 3 * ((s.keys c).length - i) + 1
  | .failCheck c p => 8 * ((s.keys c).length - p) + 1
  | .failLock c p => 8 * ((s.keys c).length - p)
  | .waitCheck c p => 8 * ((s.keys c).length - p) - 3
  | .waitLock c p => 8 * ((s.keys c).length - p) - 4
  | .record _ _ => 1
  | .cont c p => 8 * ((s.keys c).length - p) + 2
  | .consume _ => 1
  | .failTask _ => 2
  | .set _ _ => 1
  | .failNode _ => 1

def costW (s : Core K V) (w : K × Nat × Nat) : Nat := 8 * ((s.keys w.2.1).length - w.2.2) + 2

def cost (s : State K V) : Nat :=
  tot (costI s.core) s.pool + tot (costW s.core) s.core.awaiting + tot (fun _ => 2) s.core.failing

omit [DecidableEq K] in
theorem At.len {s : Core K V} {c p : Nat} (h : At s c p) : p < (s.keys c).length := by
  obtain ⟨r, h1, h2, -⟩ := h
  rw [keys_eq h1]
  exact h2

omit [DecidableEq K] in
theorem key_len {s : Core K V} {c p : Nat} {k : K} (h : s.keyAt c p = some k) : p < (s.keys c).length := by
  unfold Core.keyAt at h
  unfold Core.keys
  cases hc : s.calls[c]? with
  | none => rw [hc] at h; cases h
  | some r =>
    rw [hc] at h
    have h' : r.keys[p]? = some k := h
    show p < r.keys.length
    rcases Nat.lt_or_ge p r.keys.length with h1 | h1
    · exact h1
    · rw [List.getElem?_eq_none_iff.mpr h1] at h'; cases h'

theorem Out.cost {s s' : Core K V} {x : Item K V} {is : List (Item K V)} (h : Out s x s' is) :
    tot (costI s) is + tot (costW s) s'.awaiting + tot (fun _ => 2) s'.failing <
      costI s x + tot (costW s) s.awaiting + tot (fun _ => 2) s.failing := by
  cases h with
  | set k v hf =>
    have h1 := tot_filter (costW s) (fun w => decide (w.1 = k)) s.awaiting
    have h2 := tot_filter (fun _ => 2) (fun w => decide (w.1 = k)) s.failing
    simp only [tot_map]
    show tot (costW s) _ + tot (costW s) _ + _ < 1 + _ + _
    omega
  | fail k hr hf =>
    have h1 := tot_filter (costW s) (fun w => decide (w.1 = k)) s.awaiting
    have h2 := tot_filter (fun _ => 2) (fun w => decide (w.1 = k)) s.failing
    simp only [tot_map]
    show tot (fun _ => 2) _ + tot (costW s) _ + _ < 1 + _ + _
    omega
  | ensured c i k hk hf =>
    have := key_len hk
    simp only [tot_cons, tot_nil, costI]; omega
  | ensureMark c i k hk hf => simp only [tot_cons, tot_nil, costI]; omega
  | ensureFail c i hh ha => have := ha.len; simp only [tot_cons, tot_nil, costI]; omega
  | ensureWait c i hh ha => have := ha.len; simp only [tot_cons, tot_nil, costI]; omega
  | push c i k hk hf => have := key_len hk; simp only [tot_cons, tot_nil, costI]; omega
  | failReady c p k ha => have := ha.len; simp only [tot_cons, tot_nil, costI]; omega
  | failCheck c p k ha => have := ha.len; simp only [tot_cons, tot_nil, costI]; omega
  | failFailed c p k ha => have := ha.len; simp only [tot_cons, tot_nil, costI]; omega
  | failRegister c p k ha => have := ha.len; simp only [tot_cons, tot_nil, tot_append, costI]; omega
  | waitReady c p k ha => have := ha.len; simp only [tot_cons, tot_nil, costI]; omega
  | waitCheck c p k ha => have := ha.len; simp only [tot_cons, tot_nil, costI]; omega
  | waitFailed c p k ha => have := ha.len; simp only [tot_cons, tot_nil, costI]; omega
  | waitNow c p k ha => have := ha.len; simp only [tot_cons, tot_nil, costI]; omega
  | waitRegister c p k ha =>
    have := ha.len
    simp only [tot_cons, tot_nil, tot_append, costI, costW]; omega
  | contFail c p ha => have := ha.len; simp only [tot_cons, tot_nil, costI]; omega
  | contWait c p ha => have := ha.len; simp only [tot_cons, tot_nil, costI]; omega
  | _ => simp only [tot_cons, tot_nil, costI]; omega

theorem cost_step {s : Core K V} {pre post : List (Item K V)} {x : Item K V} (h : Reachable ⟨s, pre ++ x :: post⟩) :
    cost ⟨(exec x s).core, pre ++ (exec x s).items ++ post⟩ < cost ⟨s, pre ++ x :: post⟩ := by
  have ho := exec_out ((inv h).good x (List.mem_append_right _ List.mem_cons_self))
  have hke := exec_keys x s
  have e1 : costI (exec x s).core = costI s := by
    funext y
    cases y <;> simp only [costI, hke]
  have e2 : costW (exec x s).core = costW s := by
    funext y
    simp only [costW, hke]
  have h3 := ho.cost
  unfold cost
  simp only [e1, e2, tot_append, tot_cons]
  have h4 : tot (costI s) (exec x s).items + tot (costW s) (exec x s).core.awaiting +
      tot (fun _ => 2) (exec x s).core.failing < costI s x + tot (costW s) s.awaiting + tot (fun _ => 2) s.failing := h3
  omega

/-- **C26**: without calls from outside (of setters, loggers, subcallers, or of the map) the work comes to an end,
whatever the order of the steps. -/
theorem C26_ends {s : State K V} (h : Reachable s) : ∃ N, ∀ n t, Runs n s t → n ≤ N := by
  refine ⟨cost s, ?_⟩
  intro n t hr
  induction hr with
  | refl s => exact Nat.zero_le _
  | @step n s pre post x t _ ih =>
    have h1 := ih (.step h (.op s pre post x))
    have h2 := cost_step h
    omega

/-- **C26**: and a state in which nothing is going on can be reached. -/
theorem C26_settles {s : State K V} (h : Reachable s) : ∃ n t, Runs n s t ∧ t.pool = [] := by
  obtain ⟨m, hm⟩ : ∃ m, m = cost s := ⟨_, rfl⟩
  induction m using Nat.strongRecOn generalizing s with
  | _ m ih =>
    obtain ⟨s, pool⟩ := s
    cases pool with
    | nil => exact ⟨0, _, .refl _, rfl⟩
    | cons x post =>
      have h' : Reachable ⟨s, [] ++ x :: post⟩ := h
      have hlt := cost_step h'
      obtain ⟨n, t, hr, ht⟩ := ih _ (by rw [hm]; exact hlt) (.step h' (.op s [] post x)) rfl
      exact ⟨n + 1, t, .step (pre := []) hr, ht⟩

/-! ## C27: cycles and stalled keys -/

/-- async_map_consumer.hpp:300-315 (`GetPendingRequests`). -/
def pendingRequests (s : Core K V) : List (K × List K) :=
  (s.requests.map Prod.fst).dedup.map fun o =>
    (o, ((s.requests.filter fun w => decide (w.1 = o) && !s.ready w.2).map Prod.snd).dedup)

theorem pending_nodup (s : Core K V) : ((pendingRequests s).map Prod.fst).Nodup := by
  unfold pendingRequests
  rw [List.map_map]
  have : (Prod.fst ∘ fun o => (o, ((s.requests.filter fun w => decide (w.1 = o) && !s.ready w.2).map Prod.snd).dedup)) =
      id := rfl
  rw [this, List.map_id]
  exact List.nodup_dedup _

theorem pending_waits (s : Core K V) (o k : K) :
    Waits (pendingRequests s) o k ↔ (o, k) ∈ s.requests ∧ s.ready k = false := by
  unfold Waits pendingRequests
  constructor
  · rintro ⟨deps, h1, h2⟩
    obtain ⟨o', h3, h4⟩ := List.mem_map.mp h1
    cases h4
    obtain ⟨⟨o', k'⟩, h5, rfl⟩ := List.mem_map.mp (List.mem_dedup.mp h2)
    obtain ⟨h6, h7⟩ := List.mem_filter.mp h5
    simp only [Bool.and_eq_true, decide_eq_true_eq, Bool.not_eq_true'] at h7
    obtain ⟨rfl, h8⟩ := h7
    exact ⟨h6, h8⟩
  · rintro ⟨h1, h2⟩
    refine ⟨_, List.mem_map.mpr ⟨o, List.mem_dedup.mpr (List.mem_map.mpr ⟨(o, k), h1, rfl⟩), rfl⟩, ?_⟩
    exact List.mem_dedup.mpr (List.mem_map.mpr ⟨(o, k), List.mem_filter.mpr ⟨h1, by simp [h2]⟩, rfl⟩)

/-- A key whose value creator was started, and which is neither ready nor failed. -/
def Stalled (s : Core K V) (k : K) : Prop :=
  Event.created k ∈ s.log ∧ s.ready k = false ∧ s.failed k = false

omit [DecidableEq K] in
theorem cycle_exists {R : K → K → Prop} : ∀ (n : Nat) (P : K → Prop) (l : List K), l.length ≤ n → (∀ a, P a → a ∈ l) →
    (∃ a, P a) → (∀ a, P a → ∃ b, P b ∧ R a b) → ∃ a, Relation.TransGen R a a := by
  classical
  intro n
  induction n with
  | zero =>
    intro P l hl hP ⟨a, ha⟩ _
    have := hP a ha
    cases l with
    | nil => cases this
    | cons x l => simp at hl
  | succ n ih =>
    intro P l hl hP ⟨a, ha⟩ hstep
    by_cases hc : Relation.TransGen R a a
    · exact ⟨a, hc⟩
    · obtain ⟨b, hb, hab⟩ := hstep a ha
      refine ih (fun x => P x ∧ Relation.TransGen R a x) (l.erase a) ?_ ?_ ⟨b, hb, .single hab⟩ ?_
      · rw [List.length_erase_of_mem (hP a ha)]
        omega
      · rintro x ⟨hx, hax⟩
        have hne : x ≠ a := by rintro rfl; exact hc hax
        exact (List.mem_erase_of_ne hne).mpr (hP x hx)
      · rintro x ⟨hx, hax⟩
        obtain ⟨y, hy, hxy⟩ := hstep x hx
        exact ⟨y, ⟨hy, hax.tail hxy⟩, hxy⟩

/-- **C27**: if nothing is going on, some key is stalled, and each stalled key has called for other keys and is still
waiting for them, then a cycle is reported. -/
theorem C27_deadlock {s : State K V} (h : Reachable s) (hq : s.pool = []) (dflt : K) (hst : ∃ k, Stalled s.core k)
    (hw : ∀ k, Stalled s.core k → ∃ (c : Nat) (r : Call K), s.core.calls[c]? = some r ∧ r.owner = some k ∧
      s.core.log.countP (isConsumed c) = 0) :
    ∃ cycle, detectCycle dflt (pendingRequests s.core) = .cycle cycle := by
  rw [C27_reported_iff dflt (pending_nodup s.core)]
  refine cycle_exists (s.core.log.length) (Stalled s.core)
    (s.core.log.filterMap fun e => match e with | .created k => some k | _ => none)
    (List.length_filterMap_le _ _) ?_ hst ?_
  · intro k hk
    exact List.mem_filterMap.mpr ⟨_, hk.1, rfl⟩
  · intro o ho
    obtain ⟨c, r, hc, hown, hnc⟩ := hw o ho
    have hi := inv h
    have how : s.core.owner c = some o := by
      unfold Core.owner
      rw [hc]; exact hown
    rcases settled h hq hc with ⟨vs, hm⟩ | hm | ⟨k, q, hm⟩
    · exfalso
      rw [List.countP_eq_zero] at hnc
      exact hnc _ hm (by simp [isConsumed])
    · exfalso
      have hh := ((inv2 h).own c o how).1
      have hn := hi.han c hh
      rw [hq, tot_nil, tot_nil, Nat.zero_add, Nat.zero_add] at hn
      have hl : 0 < tot (losE c) s.core.log := Nat.lt_of_lt_of_le (by simp [losE]) (le_tot (losE c) hm)
      have hpos : 0 < tot (hanE c) s.core.log := by omega
      obtain ⟨e, he, hp⟩ := tot_pos hpos
      cases e with
      | handled c' =>
        have : c' = c := by
          by_contra hne
          simp [hanE, hne] at hp
        subst this
        rcases (inv3 h).passed c' o he how with h1 | h1 | h1
        · rw [ho.2.1] at h1; cases h1
        · rw [ho.2.2] at h1; cases h1
        · rw [hq] at h1; cases h1
      | _ => simp [hanE] at hp
    · obtain ⟨p, -, hat, hk, hr, hf⟩ := hi.awaiting k c q hm
      refine ⟨k, ⟨?_, hr, hf⟩, ?_⟩
      · obtain ⟨r', h1, h2, h3, h4⟩ := hat
        rw [hc] at h1; cases h1
        rw [keyAt_eq hc] at hk
        have hcr := (C25_requested h hq k).mpr ⟨c, r, hc, List.mem_of_getElem? hk⟩
        obtain ⟨e, he, hp⟩ := List.countP_pos_iff.mp (show 0 < s.core.log.countP (isCreated k) by omega)
        cases e with
        | created k' =>
          have : k' = k := by simpa [isCreated] using hp
          subst this; exact he
        | _ => simp [isCreated] at hp
      · rw [pending_waits]
        refine ⟨?_, hr⟩
        rcases (inv2 h).asked k c q o hm how with h1 | ⟨p', h1, -⟩
        · exact h1
        · rw [hq] at h1; cases h1

/-- **C27**: what is taken for a wait is one: if `o` is taken to wait for `k`, then `k` is not ready, and it has failed, or `o` has a call that waits for `k`. -/
theorem C27_real {s : State K V} (h : Reachable s) {o k : K}
    (hw : Waits (pendingRequests s.core) o k) :
    s.core.ready k = false ∧ (s.core.failed k = true ∨ ∃ (c : Nat) (r : Call K) (p : Nat), s.core.calls[c]? = some r ∧
      r.owner = some o ∧ r.keys[p]? = some k ∧ (∀ i k', i < p → r.keys[i]? = some k' → s.core.ready k' = true) ∧
      s.core.log.countP (isConsumed c) = 0) := by
  obtain ⟨h1, h2⟩ := (pending_waits s.core o k).mp hw
  refine ⟨h2, ?_⟩
  rcases (inv2 h).real o k h1 with h3 | h3 | ⟨c, q, h3, h4⟩
  · rw [h2] at h3; cases h3
  · exact .inl h3
  · right
    have hi := inv h
    obtain ⟨r, h5, h6⟩ := owner_some h3
    obtain ⟨p, -, ⟨r', h7, h8, h9, h10⟩, h11, -, -⟩ := hi.awaiting k c q h4
    rw [h5] at h7; cases h7
    rw [keyAt_eq h5] at h11
    refine ⟨c, r, p, h5, h6, h11, h10, ?_⟩
    have hlt : c < s.core.calls.length := by
      rcases Nat.lt_or_ge c s.core.calls.length with h' | h'
      · exact h'
      · rw [List.getElem?_eq_none_iff.mpr h'] at h5; cases h5
    have ht := hi.tok c
    rw [← con_count, if_pos hlt] at ht
    have hl : 0 < tot (tokW c) s.core.awaiting := Nat.lt_of_lt_of_le (by simp [tokW]) (le_tot (tokW c) h4)
    omega

end Verif.Async
