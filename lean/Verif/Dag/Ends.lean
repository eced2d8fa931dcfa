import Verif.Dag.Props
import Mathlib.Data.List.Dedup

/-!
# Traversal: it ends
-/

namespace Verif.Dag

variable {Art Act : Type} [DecidableEq Art] [DecidableEq Act]

section
variable (g : Graph Art Act)

/-- How many steps may follow from what an action or artifact makes available. -/
def notifyCost (a : Art) : Nat := 1 + 4 * (g.consumers a).length

def runCost : Node Art Act → Nat
  | .art a => 3 + notifyCost g a
  | .act c => 3 + ((g.outs c).map (notifyCost g)).sum

def visitCost : Node Art Act → Nat
  | .art _ => 5
  | .act c => 5 + 3 * (g.deps c).length

/-- How many steps an operation may lead to, except those paid for by nodes. -/
def cost : Op Art Act → Nat
  | .queueVisit _ => 2
  | .markDisc _ => 1
  | .pushVisit n => visitCost g n + 2
  | .visit n => visitCost g n
  | .checkAvail _ => 4
  | .checkDep _ => 3
  | .checkReady _ => 4
  | .queueProc _ => 3
  | .qpReq _ => 2
  | .qpMark _ => 1
  | .pushProc n => runCost g n + 3
  | .process n => runCost g n + 1
  | .running n => runCost g n
  | .notify a => notifyCost g a
  | .dec _ => 4
  | .setFailed => 2
  | .shutdown => 1

/-- What a node may still cost. -/
def nodeCost (s : Core Art Act) (n : Node Art Act) : Nat :=
  (if s.disc n = true then 0 else visitCost g n + 2) + (if s.queued n = true then 0 else runCost g n + 3)

def costs (l : List (Op Art Act)) : Nat := (l.map (cost g)).sum

def potential (nodes : List (Node Art Act)) (s : State Art Act) : Nat :=
  costs g s.queue + s.queue.length + costs g s.threads.flatten + (nodes.map (nodeCost g s.core)).sum

end

variable {g : Graph Art Act} {ok : Bool} {o : Op Art Act} {s : Core Art Act}

omit [DecidableEq Art] [DecidableEq Act] in
theorem costs_append (l l' : List (Op Art Act)) : costs g (l ++ l') = costs g l + costs g l' := by
  simp [costs]

omit [DecidableEq Art] [DecidableEq Act] in
theorem costs_cons (x : Op Art Act) (l : List (Op Art Act)) : costs g (x :: l) = cost g x + costs g l := by
  simp [costs]

omit [DecidableEq Art] [DecidableEq Act] in
theorem costs_map {A : Type} (f : A → Op Art Act) (k : Nat) (h : ∀ x, cost g (f x) = k) (l : List A) :
    costs g (l.map f) = k * l.length := by
  induction l with
  | nil => rfl
  | cons x t ih => rw [List.map_cons, costs_cons, ih, h, List.length_cons, Nat.mul_add]; omega

omit [DecidableEq Art] [DecidableEq Act] in
theorem costs_notify (l : List Art) : costs g (l.map .notify) = (l.map (notifyCost g)).sum := by
  induction l with
  | nil => rfl
  | cons x t ih => rw [List.map_cons, costs_cons, ih]; rfl

omit [DecidableEq Art] [DecidableEq Act] in
theorem sum_congr {A : Type} {l : List A} {f f' : A → Nat} (h : ∀ x ∈ l, f x = f' x) : (l.map f).sum = (l.map f').sum := by
  rw [List.map_congr_left h]

omit [DecidableEq Art] [DecidableEq Act] in
/-- Changing a sum in one place. -/
theorem sum_change {A : Type} {l : List A} (hl : l.Nodup) {f f' : A → Nat} {x : A} {k : Nat} (hx : x ∈ l)
    (h : ∀ y, y ≠ x → f y = f' y) (hk : f x = f' x + k) : (l.map f).sum = (l.map f').sum + k := by
  induction l with
  | nil => simp at hx
  | cons y t ih =>
    rw [List.nodup_cons] at hl
    rw [List.map_cons, List.map_cons, List.sum_cons, List.sum_cons]
    rcases List.mem_cons.1 hx with rfl | h1
    · have : (t.map f).sum = (t.map f').sum := sum_congr fun z hz => h z (fun he => hl.1 (he ▸ hz))
      omega
    · have := ih hl.2 h1
      have := h y (fun he => hl.1 (he ▸ h1))
      omega

/-- Every operation pays for what follows. -/
theorem exec_cost {nodes : List (Node Art Act)} (hn : nodes.Nodup)
    (hd : ∀ n, o = .markDisc n ∨ o = .qpMark n → n ∈ nodes) :
    costs g (exec g ok o s).next + costs g (exec g ok o s).pushed + (exec g ok o s).pushed.length +
      (nodes.map (nodeCost g (exec g ok o s).core)).sum + 1 ≤ cost g o + (nodes.map (nodeCost g s)).sum := by
  have same : ∀ s' : Core Art Act, s'.disc = s.disc → s'.queued = s.queued →
      (nodes.map (nodeCost g s')).sum = (nodes.map (nodeCost g s)).sum := by
    intro s' h1 h2
    exact sum_congr fun x _ => by simp [nodeCost, h1, h2]
  cases o with
  | markDisc n =>
    cases h : s.disc n with
    | true =>
      have : (nodes.map (nodeCost g { s with disc := set s.disc n })).sum = (nodes.map (nodeCost g s)).sum :=
        sum_congr fun x _ => by
          by_cases hx : n = x
          · subst hx; simp [nodeCost, set, h]
          · simp [nodeCost, set, hx]
      simp only [exec, h, if_true, this]
      simp [costs, cost]; omega
    | false =>
      have := sum_change hn (f := nodeCost g s) (f' := nodeCost g { s with disc := set s.disc n })
        (x := n) (k := visitCost g n + 2) (hd n (Or.inl rfl))
        (fun y hy => by have : ¬ n = y := fun he => hy he.symm
                        simp [nodeCost, set, this])
        (by simp [nodeCost, set, h]; omega)
      simp only [exec, h]
      simp [costs, cost]; omega
  | qpMark n =>
    cases h : s.queued n with
    | true =>
      have : (nodes.map (nodeCost g { s with queued := set s.queued n })).sum = (nodes.map (nodeCost g s)).sum :=
        sum_congr fun x _ => by
          by_cases hx : n = x
          · subst hx; simp [nodeCost, set, h]
          · simp [nodeCost, set, hx]
      simp only [exec, h, if_true, this]
      simp [costs, cost]; omega
    | false =>
      have := sum_change hn (f := nodeCost g s) (f' := nodeCost g { s with queued := set s.queued n })
        (x := n) (k := runCost g n + 3) (hd n (Or.inr rfl))
        (fun y hy => by have : ¬ n = y := fun he => hy he.symm
                        simp [nodeCost, set, this])
        (by simp [nodeCost, set, h])
      simp only [exec, h]
      simp [costs, cost]; omega
  | visit n =>
    cases n with
    | art a =>
      rw [same (exec g ok (.visit (.art a)) s).core rfl rfl]
      simp only [exec]
      simp [costs, cost, visitCost]; omega
    | act c =>
      rw [same (exec g ok (.visit (.act c)) s).core rfl rfl]
      simp only [exec]
      rw [costs_append, costs_map _ 3 (fun _ => rfl)]
      simp [costs, cost, visitCost]; omega
  | running n =>
    cases ok with
    | false =>
      rw [same (exec g false (.running n) s).core rfl rfl]
      simp only [exec]
      cases n <;> simp [costs, cost, runCost] <;> omega
    | true =>
      cases n with
      | art a =>
        rw [same (exec g true (.running (.art a)) s).core rfl rfl]
        simp only [exec]
        simp [costs, cost, runCost]; omega
      | act c =>
        rw [same (exec g true (.running (.act c)) s).core rfl rfl]
        simp only [exec, if_true]
        rw [costs_notify]
        simp [costs, cost, runCost]; omega
  | notify a =>
    rw [same (exec g ok (.notify a) s).core rfl rfl]
    simp only [exec]
    rw [costs_map _ 4 (fun _ => rfl)]
    simp [costs, cost, notifyCost]; omega
  | checkAvail a =>
    simp only [exec]
    cases h : s.avail a with
    | true => simp [costs, cost]; omega
    | false => cases hb : g.builder a <;> simp [costs, cost] <;> omega
  | pushVisit n => simp [exec, costs, cost]; omega
  | pushProc n => simp [exec, costs, cost]; omega
  | process n =>
    rw [same (exec g ok (.process n) s).core rfl rfl]
    simp only [exec]
    simp [costs, cost]; omega
  | dec c =>
    rw [same (exec g ok (.dec c) s).core rfl rfl]
    simp only [exec]
    split <;> simp [costs, cost] <;> omega
  | setFailed =>
    rw [same (exec g ok (.setFailed) s).core rfl rfl]
    simp only [exec]
    simp [costs, cost]; omega
  | shutdown =>
    rw [same (exec g ok (.shutdown) s).core rfl rfl]
    simp only [exec]
    simp [costs, cost]; omega
  | queueVisit n => simp only [exec]; split <;> simp [costs, cost] <;> omega
  | checkDep n => simp only [exec]; split <;> simp [costs, cost] <;> omega
  | checkReady n => simp only [exec]; split <;> simp [costs, cost] <;> omega
  | queueProc n => simp only [exec]; split <;> simp [costs, cost] <;> omega
  | qpReq n => simp only [exec]; split <;> simp [costs, cost] <;> omega

omit ok o s in
theorem potential_step {ts : List Art} {nodes : List (Node Art Act)} (hn : nodes.Nodup)
    (hc : ∀ n, Cone g ts n → n ∈ nodes) {s s' : State Art Act} (hr : Reachable g ts s) (h : Step g s s') :
    potential g nodes s' + 1 ≤ potential g nodes s := by
  have N := needed hr
  cases h with
  | op core queue pre post o rest ok =>
    have hp : 0 < (State.mk core queue (pre ++ (o :: rest) :: post)).pend o := by simp [State.pend]; omega
    have := exec_cost (g := g) (ok := ok) (o := o) (s := core) hn (by
      rintro n (rfl | rfl)
      · exact hc n (N.ops _ n hp rfl)
      · exact hc n (N.ops _ n hp rfl))
    simp only [potential, List.flatten_append, List.flatten_cons, costs_append, costs_cons, List.length_append]
    omega
  | take core pre post o threads =>
    simp only [potential, List.flatten_cons, costs_append, costs_cons, List.length_append, List.length_cons]
    simp [costs]; omega
  | lose core pre post o threads hd =>
    simp only [potential, costs_append, costs_cons, List.length_append, List.length_cons]
    omega

/-- A run of `k` steps. -/
inductive Steps (g : Graph Art Act) : Nat → State Art Act → State Art Act → Prop where
  | refl (s : State Art Act) : Steps g 0 s s
  | step {k : Nat} {s s' s'' : State Art Act} : Steps g k s s' → Step g s' s'' → Steps g (k + 1) s s''

omit ok o s in
theorem Steps.reachable {ts : List Art} {k : Nat} {s : State Art Act} (h : Steps g k (start g ts) s) :
    Reachable g ts s := by
  generalize h0 : start g ts = s0 at h
  induction h with
  | refl s => subst h0; exact .start
  | step _ hs ih => exact .step (ih h0) hs

omit ok o s in
/-- If the targets depend on finitely many nodes only, then there is a bound on the number of steps of a traversal,
whatever the threads do and whatever the runner answers. -/
theorem C23_ends {ts : List Art} {nodes : List (Node Art Act)} (hc : ∀ n, Cone g ts n → n ∈ nodes) :
    ∃ bound, ∀ k s, Steps g k (start g ts) s → k ≤ bound := by
  refine ⟨potential g nodes.dedup (start g ts), fun k s h => ?_⟩
  have key : ∀ k s, Steps g k (start g ts) s → k + potential g nodes.dedup s ≤ potential g nodes.dedup (start g ts) := by
    intro k s h
    generalize h0 : start g ts = s0 at h ⊢
    induction h with
    | refl => omega
    | step hs hst ih =>
      subst h0
      have h1 := ih rfl
      have h2 := potential_step (nodes := nodes.dedup) (List.nodup_dedup _)
        (fun n hn => List.mem_dedup.2 (hc n hn)) hs.reachable hst
      omega
  have := key k s h
  omega

end Verif.Dag
