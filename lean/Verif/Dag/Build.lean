import Verif.Dag.Ends

/-!
# Building the dependency graph
-/

namespace Verif.Dag

variable {Art Act : Type} [DecidableEq Art] [DecidableEq Act]

/-- action_description.hpp: what `DependencyGraph::AddAction` (dag.cpp:145-162) looks at. Artifacts are given by their
identifiers: `outs` are those of the output files followed by those of the output directories (dag.cpp:21-68), `ins`
those of the inputs, in the order of their paths (dag.cpp:70-81); `runs` tells that the action is a tree action, a tree
overlay action, or has a command (dag.cpp:83-91). -/
structure Desc (Art Act : Type) where
  id : Act
  outs : List Art
  ins : List Art
  runs : Bool

/-- A function changed in one place. -/
def upd {A B : Type} [DecidableEq A] (f : A → B) (x : A) (y : B) : A → B := fun z => if z = x then y else f z

/-- dag.hpp:473-486: the empty graph. -/
def Graph.empty : Graph Art Act := ⟨fun _ => [], fun _ => [], fun _ => none, fun _ => [], fun _ => false⟩

/-- dag.cpp:200-211: adding an artifact (nothing changes if it is there already). -/
def Graph.addArtifact (g : Graph Art Act) (a : Art) : Graph Art Act := { g with known := upd g.known a true }

/-- dag.cpp:99-110, dag.hpp:427-436: linking an output; fails if the artifact has a builder already. -/
def Graph.linkOut (g : Graph Art Act) (c : Act) (a : Art) : Option (Graph Art Act) :=
  match g.builder a with
  | none => some { g with builder := upd g.builder a (some c), outs := upd g.outs c (g.outs c ++ [a]) }
  | some _ => none

/-- dag.cpp:112-117: linking an input. -/
def Graph.linkIn (g : Graph Art Act) (c : Act) (a : Art) : Graph Art Act :=
  { g with consumers := upd g.consumers a (g.consumers a ++ [c]), deps := upd g.deps c (g.deps c ++ [a]) }

def Graph.linkOuts (g : Graph Art Act) (c : Act) : List Art → Option (Graph Art Act)
  | [] => some g
  | a :: l => match g.linkOut c a with
    | none => none
    | some g' => g'.linkOuts c l

/-- dag.cpp:145-162 (`AddAction`). The counter of missing inputs is set when starting the traversal, see `start`. -/
def Graph.addAction (g : Graph Art Act) (d : Desc Art Act) : Option (Graph Art Act) :=
  let g₁ := d.ins.foldl Graph.addArtifact (d.outs.foldl Graph.addArtifact g)
  if d.runs = false ∨ d.outs = [] then none
  else match g₁.linkOuts d.id d.outs with
    | none => none
    | some g₂ => some (d.ins.foldl (fun h a => h.linkIn d.id a) g₂)

/-- dag.cpp:122-136 (`Add`). -/
def Graph.add (g : Graph Art Act) : List (Desc Art Act) → Option (Graph Art Act)
  | [] => some g
  | d :: ds => match g.addAction d with
    | none => none
    | some g' => g'.add ds

/-! ## What linking gives -/

/-- What the graph has to be after adding the descriptions. -/
structure Spec (ds : List (Desc Art Act)) (g : Graph Art Act) : Prop where
  deps : ∀ c, g.deps c = (ds.filter (fun d => d.id = c)).flatMap Desc.ins
  outs : ∀ c, g.outs c = (ds.filter (fun d => d.id = c)).flatMap Desc.outs
  builder : ∀ a c, g.builder a = some c ↔ ∃ d ∈ ds, d.id = c ∧ a ∈ d.outs
  consumers : ∀ a c, (g.consumers a).count c = (g.deps c).count a
  known : ∀ a, g.known a = true ↔ ∃ d ∈ ds, a ∈ d.outs ∨ a ∈ d.ins
  nodup : (ds.flatMap Desc.outs).Nodup

omit [DecidableEq Act] in
theorem foldl_addArtifact (l : List Art) (g : Graph Art Act) :
    (l.foldl Graph.addArtifact g).deps = g.deps ∧ (l.foldl Graph.addArtifact g).outs = g.outs ∧
    (l.foldl Graph.addArtifact g).builder = g.builder ∧ (l.foldl Graph.addArtifact g).consumers = g.consumers ∧
    ∀ a, (l.foldl Graph.addArtifact g).known a = true ↔ g.known a = true ∨ a ∈ l := by
  induction l generalizing g with
  | nil => simp
  | cons x t ih =>
    obtain ⟨h1, h2, h3, h4, h5⟩ := ih (g.addArtifact x)
    refine ⟨h1, h2, h3, h4, fun a => ?_⟩
    rw [List.foldl_cons, h5]
    by_cases hx : a = x <;> simp [Graph.addArtifact, upd, hx]

theorem linkOuts_some {c : Act} {l : List Art} {g g' : Graph Art Act} (h : g.linkOuts c l = some g') :
    g'.deps = g.deps ∧ g'.consumers = g.consumers ∧ g'.known = g.known ∧
    (∀ c', g'.outs c' = g.outs c' ++ (if c' = c then l else [])) ∧
    (∀ a, g'.builder a = if a ∈ l then some c else g.builder a) ∧ l.Nodup ∧ ∀ a ∈ l, g.builder a = none := by
  induction l generalizing g with
  | nil =>
    have : g = g' := by simpa [Graph.linkOuts] using h
    subst this
    simp
  | cons x t ih =>
    unfold Graph.linkOuts Graph.linkOut at h
    cases hb : g.builder x with
    | some y => simp [hb] at h
    | none =>
      simp only [hb] at h
      obtain ⟨h1, h2, h3, h4, h5, h6, h7⟩ := ih h
      have hx : x ∉ t := by
        intro hx
        have := h7 x hx
        simp [upd] at this
      refine ⟨h1, h2, h3, fun c' => ?_, fun a => ?_, List.nodup_cons.2 ⟨hx, h6⟩, fun a ha => ?_⟩
      · rw [h4]
        by_cases hc : c' = c <;> simp [upd, hc]
      · rw [h5]
        by_cases ha : a = x
        · subst ha; simp [hx, upd]
        · simp [ha, upd]
      · rcases List.mem_cons.1 ha with rfl | ha'
        · exact hb
        · have := h7 a ha'
          by_cases hax : a = x
          · subst hax; exact hb
          · simpa [upd, hax] using this

theorem linkOuts_none {c : Act} {l : List Art} {g : Graph Art Act} (h : g.linkOuts c l = none) :
    ¬ (l.Nodup ∧ ∀ a ∈ l, g.builder a = none) := by
  induction l generalizing g with
  | nil => simp [Graph.linkOuts] at h
  | cons x t ih =>
    unfold Graph.linkOuts Graph.linkOut at h
    rintro ⟨h1, h2⟩
    have hb := h2 x (by simp)
    simp only [hb] at h
    rw [List.nodup_cons] at h1
    refine ih h ⟨h1.2, fun a ha => ?_⟩
    have : a ≠ x := fun he => h1.1 (he ▸ ha)
    simp [upd, this, h2 a (List.mem_cons_of_mem _ ha)]

theorem foldl_linkIn (c : Act) (l : List Art) (g : Graph Art Act) :
    (l.foldl (fun h a => h.linkIn c a) g).outs = g.outs ∧ (l.foldl (fun h a => h.linkIn c a) g).builder = g.builder ∧
    (l.foldl (fun h a => h.linkIn c a) g).known = g.known ∧
    (∀ c', (l.foldl (fun h a => h.linkIn c a) g).deps c' = g.deps c' ++ (if c' = c then l else [])) ∧
    ((∀ a c', (g.consumers a).count c' = (g.deps c').count a) →
      ∀ a c', ((l.foldl (fun h a => h.linkIn c a) g).consumers a).count c' =
        ((l.foldl (fun h a => h.linkIn c a) g).deps c').count a) := by
  induction l generalizing g with
  | nil => simp
  | cons x t ih =>
    obtain ⟨h1, h2, h3, h4, h5⟩ := ih (g.linkIn c x)
    refine ⟨h1, h2, h3, fun c' => ?_, fun h => h5 fun a c' => ?_⟩
    · rw [List.foldl_cons, h4]
      by_cases hc : c' = c <;> simp [Graph.linkIn, upd, hc]
    · have e1 : ((g.linkIn c x).consumers a).count c' = (g.consumers a).count c' + (if a = x ∧ c' = c then 1 else 0) := by
        by_cases ha : a = x
        · subst ha
          by_cases hc : c' = c
          · simp [Graph.linkIn, upd, List.count_append, hc]
          · have : ¬ c = c' := fun h => hc h.symm
            simp [Graph.linkIn, upd, List.count_append, hc, this]
        · simp [Graph.linkIn, upd, ha]
      have e2 : ((g.linkIn c x).deps c').count a = (g.deps c').count a + (if a = x ∧ c' = c then 1 else 0) := by
        by_cases hc : c' = c
        · subst hc
          by_cases ha : a = x
          · simp [Graph.linkIn, upd, List.count_append, ha]
          · have : ¬ x = a := fun h => ha h.symm
            simp [Graph.linkIn, upd, List.count_append, ha, this]
        · simp [Graph.linkIn, upd, hc]
      rw [e1, e2, h]

/-- What an action needs to be accepted. -/
def Desc.good (d : Desc Art Act) : Prop := d.runs = true ∧ d.outs ≠ []

theorem addAction_some {ds : List (Desc Art Act)} {g g' : Graph Art Act} {d : Desc Art Act} (hS : Spec ds g)
    (h : g.addAction d = some g') : Spec (ds ++ [d]) g' ∧ d.good := by
  obtain ⟨f1, f2, f3, f4, f5⟩ := foldl_addArtifact d.outs g
  obtain ⟨e1, e2, e3, e4, e5⟩ := foldl_addArtifact d.ins (d.outs.foldl Graph.addArtifact g)
  unfold Graph.addAction at h
  by_cases hb : d.runs = false ∨ d.outs = []
  · simp [hb] at h
  simp only [hb, if_false] at h
  obtain ⟨o, ho⟩ : ∃ o, (d.ins.foldl Graph.addArtifact (d.outs.foldl Graph.addArtifact g)).linkOuts d.id d.outs = o :=
    ⟨_, rfl⟩
  rw [ho] at h
  cases o with
  | none => simp at h
  | some g₂ =>
    simp only [Option.some.injEq] at h
    obtain ⟨l1, l2, l3, l4, l5, l6, l7⟩ := linkOuts_some ho
    obtain ⟨k1, k2, k3, k4, k5⟩ := foldl_linkIn d.id d.ins g₂
    rw [h] at k1 k2 k3 k4 k5
    have hbn : ∀ a ∈ d.outs, g.builder a = none := fun a ha => by
      have := l7 a ha
      rwa [e3, f3] at this
    refine ⟨⟨fun c => ?_, fun c => ?_, fun a c => ?_, k5 ?_, fun a => ?_, ?_⟩, ?_⟩
    · rw [k4, l1, e1, f1, hS.deps, List.filter_append, List.flatMap_append]
      by_cases hc : c = d.id
      · simp [hc]
      · have : ¬ d.id = c := fun h => hc h.symm
        simp [hc, this]
    · rw [k1, l4, e2, f2, hS.outs, List.filter_append, List.flatMap_append]
      by_cases hc : c = d.id
      · simp [hc]
      · have : ¬ d.id = c := fun h => hc h.symm
        simp [hc, this]
    · rw [k2, l5, e3, f3]
      by_cases ha : a ∈ d.outs
      · rw [if_pos ha]
        have : ∀ c, ¬ ∃ d ∈ ds, d.id = c ∧ a ∈ d.outs := fun c hx => by
          have := (hS.builder a c).2 hx
          rw [hbn a ha] at this
          cases this
        constructor
        · intro h1
          exact ⟨d, by simp, by simpa using h1, ha⟩
        · rintro ⟨d', hd', hc, ha'⟩
          rcases List.mem_append.1 hd' with h1 | h1
          · exact absurd ⟨d', h1, hc, ha'⟩ (this c)
          · have : d' = d := by simpa using h1
            subst this; rw [hc]
      · rw [if_neg ha, hS.builder]
        constructor
        · rintro ⟨d', hd', h1⟩
          exact ⟨d', by simp [hd'], h1⟩
        · rintro ⟨d', hd', h1⟩
          rcases List.mem_append.1 hd' with h2 | h2
          · exact ⟨d', h2, h1⟩
          · have : d' = d := by simpa using h2
            subst this; exact absurd h1.2 ha
    · intro a c'
      rw [l2, l1, e4, e1, f4, f1]
      exact hS.consumers a c'
    · rw [k3, l3, e5, f5, hS.known]
      simp only [List.mem_append, List.mem_singleton]
      constructor
      · rintro ((⟨d', h1, h2⟩ | h1) | h1)
        · exact ⟨d', Or.inl h1, h2⟩
        · exact ⟨d, Or.inr rfl, Or.inl h1⟩
        · exact ⟨d, Or.inr rfl, Or.inr h1⟩
      · rintro ⟨d', h1 | rfl, h2⟩
        · exact Or.inl (Or.inl ⟨d', h1, h2⟩)
        · exact h2.elim (fun h => Or.inl (Or.inr h)) Or.inr
    · rw [List.flatMap_append, List.nodup_append]
      refine ⟨hS.nodup, by simpa using l6, ?_⟩
      intro a ha b hb' he
      subst he
      obtain ⟨d', hd', ha'⟩ := List.mem_flatMap.1 ha
      have h1 := (hS.builder a d'.id).2 ⟨d', hd', rfl, ha'⟩
      rw [hbn a (by simpa using hb')] at h1
      cases h1
    · push Not at hb
      exact ⟨by simpa using hb.1, hb.2⟩

theorem addAction_none {ds : List (Desc Art Act)} {g : Graph Art Act} {d : Desc Art Act} (hS : Spec ds g)
    (h : g.addAction d = none) : ¬ (d.good ∧ ((ds ++ [d]).flatMap Desc.outs).Nodup) := by
  obtain ⟨f1, f2, f3, f4, f5⟩ := foldl_addArtifact d.outs g
  obtain ⟨e1, e2, e3, e4, e5⟩ := foldl_addArtifact d.ins (d.outs.foldl Graph.addArtifact g)
  rintro ⟨⟨h1, h2⟩, h3⟩
  have hb : ¬ (d.runs = false ∨ d.outs = []) := by simp [h1, h2]
  unfold Graph.addAction at h
  simp only [hb, if_false] at h
  obtain ⟨o, ho⟩ : ∃ o, (d.ins.foldl Graph.addArtifact (d.outs.foldl Graph.addArtifact g)).linkOuts d.id d.outs = o :=
    ⟨_, rfl⟩
  rw [ho] at h
  cases o with
  | some g₂ => simp at h
  | none =>
    rw [List.flatMap_append, List.nodup_append] at h3
    obtain ⟨-, h4, h5⟩ := h3
    refine linkOuts_none ho ⟨by simpa using h4, fun a ha => ?_⟩
    rw [e3, f3]
    cases hx : g.builder a with
    | none => rfl
    | some c =>
      obtain ⟨d', hd', hc, ha'⟩ := (hS.builder a c).1 hx
      exact absurd rfl (h5 a (List.mem_flatMap.2 ⟨d', hd', ha'⟩) a (by simpa using ha))

theorem add_spec {ds ds' : List (Desc Art Act)} {g : Graph Art Act} (hS : Spec ds g) (hd : ∀ d ∈ ds, d.good) :
    match g.add ds' with
    | some g' => Spec (ds ++ ds') g' ∧ ∀ d ∈ ds ++ ds', d.good
    | none => ¬ ((∀ d ∈ ds ++ ds', d.good) ∧ ((ds ++ ds').flatMap Desc.outs).Nodup) := by
  induction ds' generalizing ds g with
  | nil => simpa [Graph.add] using ⟨hS, hd⟩
  | cons d t ih =>
    unfold Graph.add
    cases h : g.addAction d with
    | none =>
      simp only
      rintro ⟨h1, h2⟩
      refine addAction_none hS h ⟨h1 d (by simp), ?_⟩
      have : ds ++ d :: t = (ds ++ [d]) ++ t := by simp
      rw [this, List.flatMap_append, List.nodup_append] at h2
      exact h2.1
    | some g' =>
      simp only
      obtain ⟨h1, h2⟩ := addAction_some hS h
      have := ih h1 (by
        intro x hx
        rcases List.mem_append.1 hx with h3 | h3
        · exact hd x h3
        · have : x = d := by simpa using h3
          subst this; exact h2)
      have e : ds ++ d :: t = (ds ++ [d]) ++ t := by simp
      rw [e]
      exact this

theorem spec_empty : Spec ([] : List (Desc Art Act)) Graph.empty := by
  refine ⟨?_, ?_, ?_, ?_, ?_, ?_⟩ <;> simp [Graph.empty]

/-- A graph is accepted exactly if every action has something to run and an output, and no artifact is an output
twice. -/
theorem C22_graph_accepted (ds : List (Desc Art Act)) :
    (∃ g, Graph.empty.add ds = some g) ↔
      (∀ d ∈ ds, d.runs = true ∧ d.outs ≠ []) ∧ (ds.flatMap Desc.outs).Nodup := by
  have := add_spec (ds' := ds) (spec_empty (Art := Art) (Act := Act)) (by simp)
  cases h : Graph.empty.add ds with
  | none =>
    rw [h] at this
    simp only [List.nil_append] at this
    constructor
    · rintro ⟨g, hg⟩; cases hg
    · intro h1; exact absurd h1 this
  | some g =>
    rw [h] at this
    simp only [List.nil_append] at this
    exact ⟨fun _ => ⟨this.2, this.1.nodup⟩, fun _ => ⟨g, rfl⟩⟩

/-- The graph built is what was described. -/
theorem C22_graph_described {ds : List (Desc Art Act)} {g : Graph Art Act} (h : Graph.empty.add ds = some g) :
    Spec ds g := by
  have := add_spec (ds' := ds) (spec_empty (Art := Art) (Act := Act)) (by simp)
  rw [h] at this
  exact this.1

/-- The graph built meets what the traversal relies on. -/
theorem C22_graph_ok {ds : List (Desc Art Act)} {g : Graph Art Act} (h : Graph.empty.add ds = some g) : g.OK := by
  have hS := C22_graph_described h
  refine ⟨fun a c => ?_, fun c => ?_, hS.consumers⟩
  · rw [hS.builder, hS.outs]
    simp only [List.mem_flatMap, List.mem_filter, decide_eq_true_eq, and_assoc]
  · rw [hS.outs]
    have h1 : ((ds.filter (fun d => d.id = c)).flatMap Desc.outs).Sublist (ds.flatMap Desc.outs) := by
      clear hS h
      induction ds with
      | nil => simp
      | cons d t ih =>
        by_cases hd : d.id = c
        · simpa [hd] using ih.append_left d.outs
        · simpa [hd] using ih.trans (List.sublist_append_right _ _)
    exact h1.nodup hS.nodup

/-! ## Example -/

namespace Example

/-- Two actions: one makes `2` and `3` from `1`, the other makes `4` from `2`, `3` and again `2`; a third one makes
`5` from `1`. -/
def descs : List (Desc Nat Nat) :=
  [⟨10, [2, 3], [1], true⟩, ⟨20, [4], [2, 3, 2], true⟩, ⟨30, [5], [1], true⟩]

def graph : Graph Nat Nat := (Graph.empty.add descs).getD Graph.empty

theorem graph_built : Graph.empty.add descs = some graph := by
  have h : (Graph.empty.add descs).isSome = true := by decide
  obtain ⟨g, hg⟩ := Option.isSome_iff_exists.1 h
  unfold graph
  rw [hg]; rfl

theorem graph_ok : graph.OK := C22_graph_ok graph_built

theorem graph_acyclic : graph.Acyclic := by
  have hS := C22_graph_described graph_built
  refine ⟨fun c => ?_⟩
  have leaf : ∀ c, c = 10 ∨ c = 30 → Acc (fun c c' : Nat => ∃ d ∈ graph.deps c', graph.builder d = some c) c := by
    intro c hc
    refine ⟨_, fun c' => ?_⟩
    rintro ⟨d, hd, hb⟩
    exfalso
    have : d = 1 := by
      rcases hc with rfl | rfl
      · have : graph.deps 10 = [1] := by decide
        rw [this] at hd; simpa using hd
      · have : graph.deps 30 = [1] := by decide
        rw [this] at hd; simpa using hd
    subst this
    have : graph.builder 1 = none := by decide
    rw [this] at hb; cases hb
  refine ⟨_, fun c' => ?_⟩
  rintro ⟨d, hd, hb⟩
  rw [hS.builder] at hb
  obtain ⟨x, hx, rfl, ha⟩ := hb
  rw [hS.deps] at hd
  simp only [descs, List.mem_cons, List.not_mem_nil, or_false] at hx
  rcases hx with rfl | rfl | rfl
  · exact leaf _ (Or.inl rfl)
  · exfalso
    have : d = 4 := by simpa using ha
    subst this
    obtain ⟨y, hy, h4⟩ := List.mem_flatMap.1 hd
    have hy' := (List.mem_filter.1 hy).1
    simp only [descs, List.mem_cons, List.not_mem_nil, or_false] at hy'
    rcases hy' with rfl | rfl | rfl <;> simp at h4
  · exact leaf _ (Or.inr rfl)

/-- A scheduler: the first thread with something to do, else the first queued task. -/
def split : List (List (Op Art Act)) → Option (List (List (Op Art Act)) × Op Art Act × List (Op Art Act) × List (List (Op Art Act)))
  | [] => none
  | [] :: ts => (split ts).map fun r => ([] :: r.1, r.2)
  | (o :: rest) :: ts => some ([], o, rest, ts)

def answer (fails : Node Art Act → Bool) : Op Art Act → Bool
  | .running n => !fails n
  | _ => true

def next (g : Graph Art Act) (fails : Node Art Act → Bool) (s : State Art Act) : State Art Act :=
  match split s.threads with
  | some (pre, o, rest, post) =>
    ⟨(exec g (answer fails o) o s.core).core, s.queue ++ (exec g (answer fails o) o s.core).pushed,
      pre ++ ((exec g (answer fails o) o s.core).next ++ rest) :: post⟩
  | none => match s.queue with
    | o :: q => ⟨s.core, q, [o] :: s.threads⟩
    | [] => s

omit [DecidableEq Art] [DecidableEq Act] in
theorem split_eq {l pre post : List (List (Op Art Act))} {o : Op Art Act} {rest : List (Op Art Act)}
    (h : split l = some (pre, o, rest, post)) : l = pre ++ (o :: rest) :: post := by
  induction l generalizing pre with
  | nil => simp [split] at h
  | cons t ts ih =>
    cases t with
    | nil =>
      simp only [split, Option.map_eq_some_iff] at h
      obtain ⟨⟨p', o', r', q'⟩, h1, h2⟩ := h
      simp only [Prod.mk.injEq] at h2
      obtain ⟨rfl, rfl, rfl, rfl⟩ := h2
      rw [ih h1]; rfl
    | cons x r =>
      simp only [split, Option.some.injEq, Prod.mk.injEq] at h
      obtain ⟨rfl, rfl, rfl, rfl⟩ := h
      rfl

theorem next_reach {g : Graph Art Act} {fails : Node Art Act → Bool} {ts : List Art} {s : State Art Act}
    (h : Reachable g ts s) : Reachable g ts (next g fails s) := by
  obtain ⟨core, queue, threads⟩ := s
  unfold next
  obtain ⟨o, ho⟩ : ∃ o, split threads = o := ⟨_, rfl⟩
  cases o with
  | some x =>
    obtain ⟨pre, o, rest, post⟩ := x
    simp only [ho]
    rw [split_eq ho] at h
    exact .step h (.op core queue pre post o rest _)
  | none =>
    simp only [ho]
    cases queue with
    | nil => exact h
    | cons o q => exact .step h (.take core [] q o threads)

def run (g : Graph Art Act) (fails : Node Art Act → Bool) (ts : List Art) : Nat → State Art Act
  | 0 => start g ts
  | k + 1 => next g fails (run g fails ts k)

theorem run_reach (g : Graph Art Act) (fails : Node Art Act → Bool) (ts : List Art) (k : Nat) :
    Reachable g ts (run g fails ts k) := by
  induction k with
  | zero => exact .start
  | succ k ih => exact next_reach ih

/-- The traversal for `4` comes to its end without failure, having run the two actions needed, each once. -/
@[irreducible] def final : State Nat Nat := run graph (fun _ => false) [4] 80

theorem final_reach : Reachable graph [4] final := by
  unfold final
  exact run_reach graph (fun _ => false) [4] 80

theorem final_quiet : final.quiet := by
  have : final.queue = [] ∧ (final.threads.all (fun t => t.isEmpty)) = true := by decide +kernel
  refine ⟨this.1, fun t ht => ?_⟩
  simpa using List.all_eq_true.1 this.2 t ht

theorem final_ok : final.core.failed = false := by decide +kernel

example : final.core.log.reverse =
    [.started (.art 1), .finished (.art 1) true, .available 1,
      .started (.act 10), .finished (.act 10) true, .available 2, .available 3,
      .started (.act 20), .finished (.act 20) true, .available 4] := by decide +kernel

/-- C22, C23 and C24 apply to it. -/
example : final.core.log.count (.started (.act 20)) ≤ 1 :=
  C22_at_most_once graph_ok final_reach _

example : Event.finished (.act 10) true ∈ final.core.log := by
  have h := (C23_complete graph_ok graph_acyclic final_reach final_quiet final_ok).2
  have c1 : Cone graph [4] (.act 20) := .builder (.target (t := 4) (by simp)) (by decide)
  have c2 : Cone graph [4] (.art 2) := .dep c1 (by decide)
  exact h (.act 10) (.builder c2 (by decide))

example : Cone graph [4] (.act 20) :=
  C24_only_needed final_reach (by decide +kernel)

/-- A traversal with a failing action: it ends marked as failed, and the second action is never started. -/
@[irreducible] def broken : State Nat Nat := run graph (fun n => n = .act 10) [4] 80

theorem broken_reach : Reachable graph [4] broken := by
  unfold broken
  exact run_reach graph (fun n => n = .act 10) [4] 80

theorem broken_quiet : broken.quiet := by
  have : broken.queue = [] ∧ (broken.threads.all (fun t => t.isEmpty)) = true := by decide +kernel
  refine ⟨this.1, fun t ht => ?_⟩
  simpa using List.all_eq_true.1 this.2 t ht

example : broken.core.failed = true :=
  (C23_failed_iff broken_reach broken_quiet).2 (Or.inl ⟨.act 10, by decide +kernel⟩)

example : Event.started (.act 20) ∉ broken.core.log := by decide +kernel

/-- Two actions with a common output are not accepted. -/
example : Graph.empty.add ([⟨10, [2], [1], true⟩, ⟨20, [3, 2], [1], true⟩] : List (Desc Nat Nat)) = none := by
  have := (C22_graph_accepted ([⟨10, [2], [1], true⟩, ⟨20, [3, 2], [1], true⟩] : List (Desc Nat Nat))).not.2
    (by decide)
  simpa [Option.eq_none_iff_forall_ne_some] using this

/-- The bound of C23 exists here, since only seven nodes are needed. -/
example : ∃ bound, ∀ k s, Steps graph k (start graph [4]) s → k ≤ bound := by
  refine C23_ends (nodes := [.art 1, .art 2, .art 3, .art 4, .act 10, .act 20]) fun n hn => ?_
  have b1 : graph.builder 1 = none := by decide
  have b2 : graph.builder 2 = some 10 := by decide
  have b3 : graph.builder 3 = some 10 := by decide
  have b4 : graph.builder 4 = some 20 := by decide
  have d1 : graph.deps 10 = [1] := by decide
  have d2 : graph.deps 20 = [2, 3, 2] := by decide
  induction hn with
  | target ht => simp at ht; simp [ht]
  | @builder a c _ hb ih =>
    simp only [List.mem_cons, Node.art.injEq, reduceCtorEq, List.not_mem_nil, or_false] at ih
    rcases ih with rfl | rfl | rfl | rfl
    · rw [b1] at hb; cases hb
    · rw [b2] at hb; cases hb; simp
    · rw [b3] at hb; cases hb; simp
    · rw [b4] at hb; cases hb; simp
  | @dep c d _ hd ih =>
    simp only [List.mem_cons, Node.act.injEq, reduceCtorEq, List.not_mem_nil, or_false, false_or] at ih
    rcases ih with rfl | rfl
    · rw [d1] at hd; simp at hd; simp [hd]
    · rw [d2] at hd; simp at hd; rcases hd with rfl | rfl | rfl <;> simp

end Example

end Verif.Dag
