import Verif.Dag.Traverser
import Mathlib.Data.List.Count
import Mathlib.Data.List.Nodup

/-!
# Invariants of the traversal
-/

namespace Verif.Dag

set_option linter.unusedSimpArgs false

variable {Art Act : Type} [DecidableEq Art] [DecidableEq Act]

/-- Everything that is queued or still to be done by a thread. -/
def State.pend (s : State Art Act) (x : Op Art Act) : Nat := s.queue.count x + s.threads.flatten.count x

/-- The operations an operation leads to. -/
def news (g : Graph Art Act) (ok : Bool) (o : Op Art Act) (s : Core Art Act) : List (Op Art Act) :=
  (exec g ok o s).next ++ (exec g ok o s).pushed

/-- How the pending operations change. -/
def Moves (g : Graph Art Act) (ok : Bool) (o : Op Art Act) (s : Core Art Act) (P P' : Op Art Act → Nat) : Prop :=
  0 < P o ∧ ∀ x, P' x + (if x = o then 1 else 0) = P x + (news g ok o s).count x

section
variable {g : Graph Art Act} {ok : Bool} {o : Op Art Act} {s : Core Art Act} {P P' : Op Art Act → Nat}

theorem Moves.keep (h : Moves g ok o s P P') {x : Op Art Act} (hx : 0 < P x) (hne : x ≠ o) : 0 < P' x := by
  have := h.2 x
  rw [if_neg hne] at this
  omega

theorem Moves.got (h : Moves g ok o s P P') {x : Op Art Act} (hx : x ∈ news g ok o s) : 0 < P' x := by
  have h1 := h.2 x
  have h2 : 0 < (news g ok o s).count x := List.count_pos_iff.2 hx
  have h3 := h.1
  split at h1
  · rename_i he; subst he; omega
  · omega

theorem Moves.back (h : Moves g ok o s P P') {x : Op Art Act} (hx : 0 < P' x) : 0 < P x ∨ x ∈ news g ok o s := by
  have h1 := h.2 x
  by_cases hm : x ∈ news g ok o s
  · exact Or.inr hm
  · left
    rw [List.count_eq_zero.2 hm] at h1
    omega

theorem Moves.keep' (h : Moves g ok o s P P') {x : Op Art Act} (hx : 0 < P x) : 0 < P' x ∨ x = o := by
  by_cases he : x = o
  · exact Or.inr he
  · exact Or.inl (h.keep hx he)

end

theorem step_moves {g : Graph Art Act} {s s' : State Art Act} (h : Step g s s') :
    (∃ ok o, s'.core = (exec g ok o s.core).core ∧ Moves g ok o s.core s.pend s'.pend) ∨
    (s'.core = s.core ∧ s'.pend = s.pend) ∨
    (s'.core = s.core ∧ s.core.down = true ∧ ∃ o ∈ s.queue, ∀ x, s'.pend x + (if x = o then 1 else 0) = s.pend x) := by
  cases h with
  | op core queue pre post o rest ok =>
    left
    refine ⟨ok, o, rfl, ?_, fun x => ?_⟩
    · simp [State.pend]; omega
    · simp only [State.pend, news, List.flatten_append, List.flatten_cons, List.count_append, List.count_cons,
        List.cons_append, beq_iff_eq]
      have : (if o = x then 1 else 0) = (if x = o then 1 else 0) := by simp only [eq_comm]
      omega
  | take core pre post o threads =>
    right; left
    refine ⟨rfl, ?_⟩
    funext x
    simp only [State.pend, List.flatten_cons, List.count_append, List.count_cons, List.cons_append, List.nil_append]
    omega
  | lose core pre post o threads hd =>
    right; right
    refine ⟨rfl, hd, o, by simp, fun x => ?_⟩
    simp only [State.pend, List.count_append, List.count_cons, beq_iff_eq]
    have : (if o = x then 1 else 0) = (if x = o then 1 else 0) := by simp only [eq_comm]
    omega

/-! ## What operations lead to -/

section
variable {g : Graph Art Act} {ok : Bool} {o : Op Art Act} {s : Core Art Act}

theorem count_map_ne {A : Type} {f : A → Op Art Act} {x : Op Art Act} {l : List A} (h : ∀ y, f y ≠ x) :
    (l.map f).count x = 0 := by
  rw [List.count_eq_zero, List.mem_map]
  rintro ⟨y, -, hy⟩
  exact h y hy

theorem new_pushProc (n : Node Art Act) : (news g ok o s).count (.pushProc n) =
    if o = .qpMark n ∧ s.queued n = false then 1 else 0 := by
  unfold news
  cases o with
  | visit m => cases m <;> simp [exec, count_map_ne, List.count_cons]
  | running m => cases m <;> cases ok <;> simp [exec, count_map_ne, List.count_cons]
  | checkAvail a =>
    unfold exec
    by_cases h : s.avail a = true
    · simp [h]
    · cases hb : g.builder a <;> simp [h, hb, List.count_cons]
  | qpMark m =>
    by_cases h : m = n
    · subst h; cases hq : s.queued m <;> simp [exec, hq]
    · cases hq : s.queued m <;> simp [exec, hq, h, List.count_cons]
  | notify a => simp [exec, count_map_ne]
  | _ =>
    simp only [exec, reduceCtorEq, false_and, exists_false, or_self, and_false, if_false]
    (try split) <;> simp [List.count_cons]

theorem new_process (n : Node Art Act) : (news g ok o s).count (.process n) =
    if o = .pushProc n then 1 else 0 := by
  unfold news
  cases o with
  | visit m => cases m <;> simp [exec, count_map_ne, List.count_cons]
  | running m => cases m <;> cases ok <;> simp [exec, count_map_ne, List.count_cons]
  | checkAvail a =>
    unfold exec
    by_cases h : s.avail a = true
    · simp [h]
    · cases hb : g.builder a <;> simp [h, hb, List.count_cons]
  | pushProc m => by_cases h : m = n <;> simp [exec, h, List.count_cons]
  | notify a => simp [exec, count_map_ne]
  | _ =>
    simp only [exec, reduceCtorEq, false_and, exists_false, or_self, and_false, if_false]
    (try split) <;> simp [List.count_cons]

theorem new_running (n : Node Art Act) : (news g ok o s).count (.running n) =
    if o = .process n then 1 else 0 := by
  unfold news
  cases o with
  | visit m => cases m <;> simp [exec, count_map_ne, List.count_cons]
  | running m => cases m <;> cases ok <;> simp [exec, count_map_ne, List.count_cons]
  | checkAvail a =>
    unfold exec
    by_cases h : s.avail a = true
    · simp [h]
    · cases hb : g.builder a <;> simp [h, hb, List.count_cons]
  | process m => by_cases h : m = n <;> simp [exec, h, List.count_cons]
  | notify a => simp [exec, count_map_ne]
  | _ =>
    simp only [exec, reduceCtorEq, false_and, exists_false, or_self, and_false, if_false]
    (try split) <;> simp [List.count_cons]

theorem count_map_inj {A B : Type} [DecidableEq A] [DecidableEq B] {f : A → B} (hf : ∀ x y, f x = f y → x = y)
    (x : A) (l : List A) : (l.map f).count (f x) = l.count x := by
  induction l with
  | nil => rfl
  | cons y t ih =>
    rw [List.map_cons, List.count_cons, List.count_cons, ih]
    by_cases h : y = x
    · simp [h]
    · have : f y ≠ f x := fun h' => h (hf _ _ h')
      simp [h, this]

omit [DecidableEq Art] [DecidableEq Act] in
theorem source_act {a : Art} {c : Act} : source g a = .act c ↔ g.builder a = some c := by
  unfold source
  cases g.builder a <;> simp

omit [DecidableEq Art] [DecidableEq Act] in
theorem source_art {a b : Art} : source g a = .art b ↔ g.builder a = none ∧ a = b := by
  unfold source
  cases g.builder a <;> simp

theorem new_notify (hg : g.OK) (a : Art) : (news g ok o s).count (.notify a) =
    if ok = true ∧ (o = .running (.art a) ∨ o = .running (source g a)) then 1 else 0 := by
  unfold news
  cases o with
  | visit m => cases m <;> simp [exec, count_map_ne, List.count_cons]
  | running m =>
    cases ok with
    | false => simp [exec, List.count_cons]
    | true =>
      cases m with
      | art b =>
        by_cases h : b = a
        · simp [exec, h]
        · have : ¬ Node.art b = source g a := fun h' => h (source_art.1 h'.symm).2.symm
          simp [exec, h, this, List.count_cons]
      | act c =>
        simp only [exec, if_true, List.append_nil]
        rw [count_map_inj (fun x y h => by cases h; rfl)]
        by_cases h : g.builder a = some c
        · rw [List.count_eq_one_of_mem (hg.outs c) ((hg.builder a c).1 h)]
          simp [source_act.2 h]
        · rw [List.count_eq_zero.2 (fun hm => h ((hg.builder a c).2 hm))]
          have : ¬ Node.act c = source g a := fun h' => h (source_act.1 h'.symm)
          simp [this]
  | checkAvail a =>
    unfold exec
    by_cases h : s.avail a = true
    · simp [h]
    · cases hb : g.builder a <;> simp [h, hb, List.count_cons]
  | notify a => simp [exec, count_map_ne]
  | _ =>
    simp only [exec, reduceCtorEq, false_and, exists_false, or_self, and_false, if_false]
    (try split) <;> simp [List.count_cons]

theorem new_dec_notify (a : Art) (c : Act) :
    (news g ok (.notify a) s).count (.dec c) = (g.consumers a).count c := by
  simp only [news, exec, List.append_nil]
  exact count_map_inj (fun x y h => by cases h; rfl) _ _

theorem new_dec_other (c : Act) (h : ∀ a, o ≠ .notify a) : (news g ok o s).count (.dec c) = 0 := by
  unfold news
  cases o with
  | visit m => cases m <;> simp [exec, count_map_ne, List.count_cons]
  | running m => cases m <;> cases ok <;> simp [exec, count_map_ne, List.count_cons]
  | checkAvail a =>
    unfold exec
    by_cases h : s.avail a = true
    · simp [h]
    · cases hb : g.builder a <;> simp [h, hb, List.count_cons]
  | notify a => exact absurd rfl (h a)
  | _ =>
    simp only [exec, reduceCtorEq, false_and, exists_false, or_self, and_false, if_false]
    (try split) <;> simp [List.count_cons]

/-- All ways an operation can lead to another one. -/
theorem mem_news {x : Op Art Act} (h : x ∈ news g ok o s) :
    (∃ n, o = .queueVisit n ∧ x = .markDisc n ∧ s.failed = false) ∨
    (∃ n, o = .markDisc n ∧ x = .pushVisit n ∧ s.disc n = false) ∨
    (∃ n, o = .pushVisit n ∧ x = .visit n) ∨
    (∃ a, o = .visit (.art a) ∧ x = .checkAvail a) ∨
    (∃ a c, o = .checkAvail a ∧ x = .queueVisit (.act c) ∧ g.builder a = some c ∧ s.avail a = false) ∨
    (∃ a, o = .checkAvail a ∧ x = .queueProc (.art a) ∧ g.builder a = none ∧ s.avail a = false) ∨
    (∃ c, o = .visit (.act c) ∧ ((∃ d ∈ g.deps c, x = .checkDep d) ∨ x = .checkReady c)) ∨
    (∃ d, o = .checkDep d ∧ x = .queueVisit (.art d) ∧ s.avail d = false) ∨
    (∃ c, o = .checkReady c ∧ x = .queueProc (.act c) ∧ s.count c = 0) ∨
    (∃ n, o = .queueProc n ∧ x = .qpReq n ∧ s.failed = false) ∨
    (∃ n, o = .qpReq n ∧ x = .qpMark n ∧ s.req n = true) ∨
    (∃ n, o = .qpMark n ∧ x = .pushProc n ∧ s.queued n = false) ∨
    (∃ n, o = .pushProc n ∧ x = .process n) ∨
    (∃ n, o = .process n ∧ x = .running n) ∨
    (∃ a, o = .running (.art a) ∧ x = .notify a ∧ ok = true) ∨
    (∃ c a, o = .running (.act c) ∧ x = .notify a ∧ a ∈ g.outs c ∧ ok = true) ∨
    (∃ n, o = .running n ∧ x = .setFailed ∧ ok = false) ∨
    (∃ a c, o = .notify a ∧ x = .dec c ∧ c ∈ g.consumers a) ∨
    (∃ c, o = .dec c ∧ x = .queueProc (.act c) ∧ s.count c = 1) ∨
    (o = .setFailed ∧ x = .shutdown) := by
  unfold news at h
  cases o with
  | visit m =>
    cases m with
    | art a => simp [exec] at h; simp [h]
    | act c =>
      simp only [exec, List.append_nil, List.mem_append, List.mem_map, List.mem_singleton] at h
      simp only [Op.visit.injEq, Node.act.injEq, reduceCtorEq, false_and, exists_false, false_or, or_false]
      refine ⟨c, rfl, ?_⟩
      rcases h with ⟨d, hd, rfl⟩ | rfl
      · exact Or.inl ⟨d, hd, rfl⟩
      · exact Or.inr rfl
  | running m =>
    cases ok with
    | false => simp [exec] at h; simp [h]
    | true =>
      cases m with
      | art a => simp [exec] at h; simp [h]
      | act c =>
        simp only [exec, if_true, List.append_nil, List.mem_map] at h
        obtain ⟨a, ha, rfl⟩ := h
        simp [ha]
  | checkAvail a =>
    unfold exec at h
    cases ha : s.avail a with
    | true => simp [ha] at h
    | false => cases hb : g.builder a <;> simp [ha, hb] at h <;> simp [h, hb, ha]
  | notify a =>
    simp only [exec, List.append_nil, List.mem_map] at h
    obtain ⟨c, hc, rfl⟩ := h
    simp [hc]
  | queueVisit n => cases hf : s.failed <;> simp [exec, hf] at h; simp [h]
  | markDisc n => cases hf : s.disc n <;> simp [exec, hf] at h; simp [h, hf]
  | pushVisit n => simp [exec] at h; simp [h]
  | checkDep n => cases hf : s.avail n <;> simp [exec, hf] at h; simp [h, hf]
  | checkReady c => by_cases hf : s.count c = 0 <;> simp [exec, hf] at h; simp [h, hf]
  | queueProc n => cases hf : s.failed <;> simp [exec, hf] at h; simp [h]
  | qpReq n => cases hf : s.req n <;> simp [exec, hf] at h; simp [h, hf]
  | qpMark n => cases hf : s.queued n <;> simp [exec, hf] at h; simp [h, hf]
  | pushProc n => simp [exec] at h; simp [h]
  | process n => simp [exec] at h; simp [h]
  | dec c => by_cases hf : s.count c = 1 <;> simp [exec, hf] at h; simp [h, hf]
  | setFailed => simp [exec] at h; simp [h]
  | shutdown => simp [exec] at h

/-! ## How the shared state changes -/

theorem exec_queued (n : Node Art Act) : (exec g ok o s).core.queued n =
    (decide (o = .qpMark n) || s.queued n) := by
  cases o with
  | visit m => cases m <;> simp [exec]
  | qpMark m => simp [exec, set]
  | _ => simp [exec]

theorem exec_disc (n : Node Art Act) : (exec g ok o s).core.disc n =
    (decide (o = .markDisc n) || s.disc n) := by
  cases o with
  | visit m => cases m <;> simp [exec]
  | markDisc m => simp [exec, set]
  | _ => simp [exec]

theorem exec_req (n : Node Art Act) : (exec g ok o s).core.req n =
    (decide (o = .visit n) || s.req n) := by
  cases o with
  | visit m => cases m <;> simp [exec, set]
  | _ => simp [exec]

theorem exec_avail (a : Art) : (exec g ok o s).core.avail a = (decide (o = .notify a) || s.avail a) := by
  cases o with
  | visit m => cases m <;> simp [exec]
  | notify m => simp [exec, set]
  | _ => simp [exec]

theorem exec_count (c : Act) : (exec g ok o s).core.count c = s.count c - (if o = .dec c then 1 else 0) := by
  cases o with
  | visit m => cases m <;> simp [exec]
  | dec c' => by_cases h : c' = c <;> simp [exec, h]
  | _ => simp [exec]

theorem exec_failed : (exec g ok o s).core.failed = (decide (o = .setFailed) || s.failed) := by
  cases o with
  | visit m => cases m <;> simp [exec]
  | _ => simp [exec]

theorem exec_down : (exec g ok o s).core.down = (decide (o = .shutdown) || s.down) := by
  cases o with
  | visit m => cases m <;> simp [exec]
  | _ => simp [exec]

theorem exec_log : (exec g ok o s).core.log = s.log ∨
    (∃ n, o = .process n ∧ (exec g ok o s).core.log = .started n :: s.log) ∨
    (∃ n, o = .running n ∧ (exec g ok o s).core.log = .finished n ok :: s.log) ∨
    (∃ a, o = .notify a ∧ (exec g ok o s).core.log = .available a :: s.log) := by
  cases o with
  | visit m => cases m <;> simp [exec]
  | _ => simp [exec]

theorem exec_started (n : Node Art Act) : (exec g ok o s).core.log.count (.started n) =
    s.log.count (.started n) + (if o = .process n then 1 else 0) := by
  rcases exec_log (g := g) (ok := ok) (o := o) (s := s) with h | ⟨m, rfl, h⟩ | ⟨m, rfl, h⟩ | ⟨a, rfl, h⟩
  · rw [h]
    by_cases ho : o = .process n
    · subst ho; simp [exec] at h
    · simp [ho]
  · rw [h, List.count_cons]; simp
  · rw [h, List.count_cons]; simp
  · rw [h, List.count_cons]; simp

theorem exec_finished (n : Node Art Act) (b : Bool) : (exec g ok o s).core.log.count (.finished n b) =
    s.log.count (.finished n b) + (if o = .running n ∧ ok = b then 1 else 0) := by
  rcases exec_log (g := g) (ok := ok) (o := o) (s := s) with h | ⟨m, rfl, h⟩ | ⟨m, rfl, h⟩ | ⟨a, rfl, h⟩
  · rw [h]
    by_cases ho : o = .running n
    · subst ho; simp [exec] at h
    · simp [ho]
  · rw [h, List.count_cons]; simp
  · rw [h, List.count_cons]; simp
  · rw [h, List.count_cons]; simp

theorem exec_available (a : Art) : (exec g ok o s).core.log.count (.available a) =
    s.log.count (.available a) + (if o = .notify a then 1 else 0) := by
  rcases exec_log (g := g) (ok := ok) (o := o) (s := s) with h | ⟨m, rfl, h⟩ | ⟨m, rfl, h⟩ | ⟨b, rfl, h⟩
  · rw [h]
    by_cases ho : o = .notify a
    · subst ho; simp [exec] at h
    · simp [ho]
  · rw [h, List.count_cons]; simp
  · rw [h, List.count_cons]; simp
  · rw [h, List.count_cons]; simp

end

end Verif.Dag
