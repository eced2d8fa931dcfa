import Verif.Storage.ServerProps

/-!
# Concrete sessions of clients of the execution service
-/

namespace Verif.Storage.Example

section
variable {E : Env} {U : Bytes → Prop} {rk : Ranks E U} {fuel : Nat}

theorem serve_of_trace {s s' : State} {es : List Event} (h : Trace E U rk fuel s es s') :
    Serve E U rk fuel s es s' := by
  induction h with
  | nil => exact Serve.nil _
  | snoc _ hn ih => exact Serve.snoc ih (ServeNext.other hn)

theorem serve_trans {s s' s'' : State} {es es' : List Event} (h : Serve E U rk fuel s es s')
    (h' : Serve E U rk fuel s' es' s'') : Serve E U rk fuel s (es ++ es') s'' := by
  induction h' with
  | nil => simpa using h
  | snoc _ hn ih => rw [← List.append_assoc]; exact Serve.snoc ih hn

theorem serve_request {σ : World} {op : Op} {a : Answer} (hc : op.Client E U)
    (ha : answer (op.run E fuel) σ = some a) :
    ∃ es, gcs es = 0 ∧ .gc .all ∉ es ∧
      Serve E U rk fuel ⟨σ, []⟩ es ⟨after (op.run E fuel) σ, [⟨op, .ret a, σ⟩]⟩ := by
  obtain ⟨es, h1, h2, h3⟩ := steps_trace (E := E) (U := U) (rk := rk) (fuel := fuel) (op := op)
    (σ₀ := σ) (post := []) (run_steps (run_eq ha))
  refine ⟨[.access] ++ es, ?_, ?_,
    serve_trans (Serve.snoc (Serve.nil _) (ServeNext.request hc)) (serve_of_trace h3)⟩
  · simpa [gcs, Event.isGc] using h1
  · simpa using h2

end

/-! ### A blob is uploaded, split by a collection, and afterwards a tree with that blob is uploaded -/

def upBig : Op := .upload false (hashB big) 2 big
def upTree : Op := .upload true (hashT treeBig) 0 treeBig
def z1 : World := after (upBig.run E3 300) emptyWorld
def z2 : World := rotated 3 (after (splitBig.run E3) z1)
def z3 : World := after (upTree.run E3 300) z2

theorem z1_answer : answer (upBig.run E3 300) emptyWorld = some (.flag true) := by decide +kernel
theorem z2_answer : answer (splitBig.run E3) z1 = some true := by decide +kernel
theorem z3_answer : answer (upTree.run E3 300) z2 = some (.flag true) := by decide +kernel

/-- The tree is refused before its entry is there; a wrong hash or size is refused. -/
theorem refused : answer (upTree.run E3 300) emptyWorld = some (.flag false) ∧
    answer ((Op.upload false (hashB [7]) 0 big).run E3 300) emptyWorld = some (.flag false) ∧
    answer ((Op.upload false (hashB big) 3 big).run E3 300) emptyWorld = some (.flag false) := by
  decide +kernel

theorem upBig_client : upBig.Client E3 U8 := show short 20000 big by decide
theorem upTree_client : upTree.Client E3 U8 := show short 20000 treeBig by decide +kernel

theorem z1_serve : ∃ es, Serve E3 U8 rk8 300 emptyState es
    ⟨z1, [⟨upBig, .ret (.flag true), emptyWorld⟩]⟩ := by
  obtain ⟨es, -, -, h⟩ := serve_request (rk := rk8) upBig_client z1_answer
  exact ⟨es, h⟩

theorem z2_serve : Serve E3 U8 rk8 300 ⟨z1, [⟨upBig, .ret (.flag true), emptyWorld⟩]⟩
    [.access, .gc .rotate] ⟨z2, []⟩ :=
  Serve.snoc (es := [.access]) (Serve.snoc (es := []) (Serve.nil _)
    (ServeNext.other (Next.stop (pre := []) (post := [])))) (ServeNext.other (Next.gc (gc_one z2_answer)))

theorem z3_serve : ∃ es, Serve E3 U8 rk8 300 ⟨z2, []⟩ es
    ⟨z3, [⟨upTree, .ret (.flag true), z2⟩]⟩ := by
  obtain ⟨es, -, -, h⟩ := serve_request (rk := rk8) upTree_client z3_answer
  exact ⟨es, h⟩

theorem z2_all : ∃ es, Serve E3 U8 rk8 300 emptyState es ⟨z2, []⟩ := by
  obtain ⟨es, h⟩ := z1_serve
  exact ⟨_, serve_trans h z2_serve⟩

theorem z3_all : ∃ es, Serve E3 U8 rk8 300 emptyState es
    ⟨z3, [⟨upTree, .ret (.flag true), z2⟩]⟩ := by
  obtain ⟨es, h⟩ := z2_all
  obtain ⟨es', h'⟩ := z3_serve
  exact ⟨_, serve_trans h h'⟩

theorem parse_treeBig : E3.parseTree treeBig = some [(hashB big, .blob false)] := by decide +kernel

/-- The hypotheses of `C84_closed` and `C84_upload` are met, and the tree is stored. -/
example : Closed E3 z3 0 ∧ z3 0 (.cas .tree (hashT treeBig)) = some treeBig ∧
    Has E3 z3 0 (.blob false) (hashB big) := by
  obtain ⟨es, h⟩ := z3_all
  obtain ⟨-, -, h1, h2⟩ := C84_upload ok8 h (t := true) (d := hashT treeBig) (n := 0)
    (b := treeBig) (σ₀ := z2) (List.mem_singleton.2 rfl)
  simp only [if_true] at h1
  have h0 := (C84_closed ok8 h 0).1
  have h3 : TreeAt E3 z3 0 (hashT treeBig) treeBig := Or.inl h1
  dsimp only at h0 h2
  have h4 : Below E3 z3 0 .tree (hashT treeBig) (.blob false) (hashB big) :=
    Below.entry (e := (hashB big, .blob false)) h3 parse_treeBig (List.mem_singleton.2 rfl)
      (Below.self _ _)
  refine ⟨h0, h1, ?_⟩
  exact h2 rfl (.blob false) (hashB big) h4

/-- The hypotheses of `C84_session` are met: the blob was uploaded before the collection. -/
example : Answer.flag true = .flag true := by
  obtain ⟨es, h⟩ := z2_all
  obtain ⟨es', h'⟩ := z3_serve
  obtain ⟨es₁, h1⟩ := z1_serve
  refine C84_session ok8 h parse_treeBig (d := hashT treeBig) (n := 0) rfl (Or.inl rfl) ?_ h'
    (List.mem_singleton.2 rfl)
  intro e he
  rw [List.mem_singleton] at he
  subst he
  exact ⟨_, es₁, _, h1, Told.uploaded (t := false) (List.mem_singleton.2 rfl) (by simp), z2_serve,
    by simp, by decide⟩

/-- The hypotheses of `C84_accepted` are met. -/
example : Answer.flag true = .flag true := by
  obtain ⟨es, h⟩ := z1_serve
  exact C84_accepted ok8 h (t := false) (d := hashB big) (n := 2) (b := big)
    (List.mem_singleton.2 rfl) rfl (Or.inr rfl) (fun h => nomatch h)

/-! ### Batches -/

def batch : List Upload :=
  [⟨false, some (hashB big), 2, big⟩, ⟨true, some (hashT treeBig), 0, treeBig⟩]

theorem batch_answer :
    answer ((Op.updateBlobs batch).run E3 300) emptyWorld = some (.flag true) ∧
    answer ((Op.updateBlobs batch.reverse).run E3 300) emptyWorld = some (.flag false) := by
  decide +kernel

def b1 : World := after ((Op.updateBlobs batch).run E3 300) emptyWorld

theorem b1_serve : ∃ es, Serve E3 U8 rk8 300 emptyState es
    ⟨b1, [⟨.updateBlobs batch, .ret (.flag true), emptyWorld⟩]⟩ := by
  obtain ⟨es, -, -, h⟩ := serve_request (E := E3) (U := U8) (rk := rk8) (fuel := 300)
    (op := .updateBlobs batch) (σ := emptyWorld) (by
      intro x hx
      rcases List.mem_cons.1 hx with rfl | hx
      · exact upBig_client
      · rw [List.mem_singleton.1 hx]
        exact upTree_client) batch_answer.1
  exact ⟨es, h⟩

example : b1 0 (.cas .tree (hashT treeBig)) = some treeBig := by
  obtain ⟨es, h⟩ := b1_serve
  obtain ⟨d, h1, -, -, h2⟩ := C84_batch ok8 h (List.mem_singleton.2 rfl)
    (x := ⟨true, some (hashT treeBig), 0, treeBig⟩) (by simp [batch])
  cases h1
  simp only [if_true] at h2
  exact h2

example : Answer.flag true = .flag true := by
  obtain ⟨es, h⟩ := b1_serve
  refine C84_batch_accepted ok8 h (List.mem_singleton.2 rfl) ?_ ?_
  · intro x hx
    rcases List.mem_cons.1 hx with rfl | hx
    · exact ⟨rfl, Or.inr rfl⟩
    · rw [List.mem_singleton.1 hx]
      exact ⟨rfl, Or.inl rfl⟩
  · intro pre x post he ht
    match pre, he with
    | [], he =>
      simp only [batch, List.nil_append, List.cons.injEq] at he
      rw [← he.1] at ht
      cases ht
    | [y], he =>
      simp only [batch, List.cons_append, List.nil_append, List.cons.injEq] at he
      obtain ⟨rfl, rfl, -⟩ := he
      refine ⟨_, parse_treeBig, fun e he => Or.inr ?_⟩
      rw [List.mem_singleton] at he
      subst he
      exact ⟨_, List.mem_singleton.2 rfl, rfl, by simp⟩
    | _ :: _ :: _, he =>
      have := congrArg List.length he
      simp [batch] at this

/-! ### Asking for missing objects and reading -/

def asked : List (Bool × Option Id) := [(true, some (hashT treeBig)), (false, some (hashB big)),
  (false, none)]

theorem missing_answer : answer ((Op.findMissing asked).run E3 300) z2 =
    some (.missing [(true, some (hashT treeBig)), (false, none)]) := by decide +kernel

theorem read_answer : answer ((Op.readBlobs (asked.take 2)).run E3 300) z2 =
    some (.contents (some [none, some big])) := by decide +kernel

example : ∃ es, Serve E3 U8 rk8 300 emptyState es ⟨after ((Op.findMissing asked).run E3 300) z2,
    [⟨.findMissing asked, .ret (.missing [(true, some (hashT treeBig)), (false, none)]), z2⟩]⟩ ∧
    Has E3 (after ((Op.findMissing asked).run E3 300) z2) 0 (.blob false) (hashB big) := by
  obtain ⟨es, h⟩ := z2_all
  obtain ⟨es', -, -, h'⟩ := serve_request (E := E3) (U := U8) (rk := rk8) (fuel := 300)
    (op := .findMissing asked) trivial missing_answer
  refine ⟨_, serve_trans h h', ?_⟩
  obtain ⟨ms, h1, -, h2, -⟩ := C84_missing ok8 (serve_trans h h') (List.mem_singleton.2 rfl)
  cases h1
  obtain ⟨d, h3, h4⟩ := h2 (false, some (hashB big)) (by simp [asked]) (by decide +kernel)
  cases h3
  exact h4 _ _ (Below.self _ _)

example : ∃ es, Serve E3 U8 rk8 300 emptyState es
    ⟨after ((Op.readBlobs (asked.take 2)).run E3 300) z2,
      [⟨.readBlobs (asked.take 2), .ret (.contents (some [none, some big])), z2⟩]⟩ ∧
    hashB big = hashB big := by
  obtain ⟨es, h⟩ := z2_all
  obtain ⟨es', -, -, h'⟩ := serve_request (E := E3) (U := U8) (rk := rk8) (fuel := 300)
    (op := .readBlobs (asked.take 2)) trivial read_answer
  refine ⟨_, serve_trans h h', ?_⟩
  obtain ⟨r, h1, -, h2⟩ := C84_read ok8 (serve_trans h h') (List.mem_singleton.2 rfl)
  cases h1
  cases h2 _ rfl with
  | cons _ h3 =>
    cases h3 with
    | cons h4 _ =>
      obtain ⟨d, h5, h6, -⟩ := h4
      cases h5
      exact h6 big rfl

end Verif.Storage.Example
