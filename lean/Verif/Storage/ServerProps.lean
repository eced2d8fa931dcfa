import Verif.Storage.Props

/-!
# C84: the storage of the execution service, whatever clients send
-/

namespace Verif.Storage

variable (E : Env) (U : Bytes → Prop) (rk : Ranks E U)

/-- The requests clients can send: cas_server.cpp:40-364, bytestream_server.cpp:52-192.  (Requests to
read a byte stream look up the object first.)  Clients never send executables
(cas_utils.cpp:94-103, 136-141).  Nothing is assumed about the state of the storage, in particular
clients may send trees with unknown entries, data not having the announced hash, and chunks not
belonging together. -/
def Op.Client : Op → Prop
  | .upload _ _ _ b => U b
  | .updateBlobs xs => ∀ x ∈ xs, U x.data
  | .findMissing _ => True
  | .readBlobs _ => True
  | .blobPath _ x => x = false
  | .treePath _ => True
  | .split _ _ => True
  | .splice c d ps => c ≠ .exec ∧ ∀ cs, List.Forall₂ (fun p b => U b ∧ E.hashBlob b = p) ps cs →
      E.hash c cs.flatten = d → U cs.flatten
  | _ => False

/-- One step of the service: a client sends a request; or the storage is used by other processes, which
store trees and results only after what they refer to; or an operation proceeds or is stopped; or
garbage is collected. -/
inductive ServeNext (fuel : Nat) : State → Event → State → Prop where
  | request {s : State} {op : Op} : op.Client E U →
      ServeNext fuel s .access ⟨s.σ, ⟨op, op.run E fuel, s.σ⟩ :: s.threads⟩
  | other {s s' : State} {e : Event} : Next E U rk fuel s e s' → ServeNext fuel s e s'

/-- Histories of the service. -/
inductive Serve (fuel : Nat) : State → List Event → State → Prop where
  | nil (s : State) : Serve fuel s [] s
  | snoc {s s' s'' : State} {es : List Event} {e : Event} :
      Serve fuel s es s' → ServeNext E U rk fuel s' e s'' → Serve fuel s (es ++ [e]) s''

variable {E U rk} {fuel : Nat}

/-- Clients owe nothing to the storage. -/
theorem Op.Client.pre {op : Op} (h : op.Client E U) (σ : World) : op.Pre E U rk σ := by
  cases op with
  | upload t d n b => exact h
  | updateBlobs xs => exact h
  | findMissing xs => trivial
  | readBlobs xs => trivial
  | blobPath d x => trivial
  | treePath d => trivial
  | split t d => trivial
  | splice c d ps => exact h.2
  | storeBlob b x => exact absurd h id
  | storeTree b => exact absurd h id
  | storeResult k r => exact absurd h id
  | cachedResult k => exact absurd h id
  | storeTarget k e => exact absurd h id
  | readTarget k => exact absurd h id

theorem Serve.trace {s s' : State} {es : List Event} (h : Serve E U rk fuel s es s') :
    Trace E U rk fuel s es s' := by
  induction h with
  | nil => exact Trace.nil _
  | snoc _ hn ih =>
    refine Trace.snoc ih ?_
    cases hn with
    | request hc => exact Next.start (hc.pre _)
    | other hn => exact hn

/-- C84: whatever clients send, in whatever order and however their requests are interleaved with
each other and with the work of other processes, interrupted or followed by garbage collections,
every generation contains everything it refers to, and every object is stored under its own
hash. -/
theorem C84_closed (ok : E.OK U) {s : State} {es : List Event}
    (h : Serve E U rk fuel emptyState es s) (g : Nat) : Closed E s.σ g ∧ Intact E s.σ g :=
  ⟨C16_generations_closed ok ⟨es, h.trace⟩ g, C19_intact ok ⟨es, h.trace⟩ g⟩

/-- C84 (uploads are sound): an accepted upload has the announced hash and size, the data are
stored, and with a tree everything below it is. -/
theorem C84_upload (ok : E.OK U) {s : State} {es : List Event}
    (h : Serve E U rk fuel emptyState es s) {t : Bool} {d : Id} {n : Nat} {b : Bytes} {σ₀ : World}
    (ht : ⟨.upload t d n b, .ret (.flag true), σ₀⟩ ∈ s.threads) :
    (if t then E.hashTree b else E.hashBlob b) = d ∧ (n = 0 ∨ n = b.length) ∧
      s.σ 0 (.cas (if t then .tree else .file) d) = some b ∧
      (t = true → ∀ k i, Below E s.σ 0 .tree d k i → Has E s.σ 0 k i) := by
  obtain ⟨r, hr, h1, -⟩ := (reachable_inv ok ⟨es, h.trace⟩).threads _ ht
  cases hr
  obtain ⟨h2, h3, h4⟩ := h1 rfl
  refine ⟨?_, h3, h4, fun htr k i hb => ?_⟩
  · cases t <;> exact h2
  · subst htr
    exact C16_trees_complete ok ⟨es, h.trace⟩ 0 (Or.inl h4) hb

/-- C84 (uploads are complete): an upload with the right hash and size is accepted if it is a blob, or
if all entries of the tree were in the storage when the upload started. -/
theorem C84_accepted (ok : E.OK U) {s : State} {es : List Event}
    (h : Serve E U rk fuel emptyState es s) {t : Bool} {d : Id} {n : Nat} {b : Bytes} {a : Answer}
    {σ₀ : World} (ht : ⟨.upload t d n b, .ret a, σ₀⟩ ∈ s.threads)
    (hd : (if t then E.hashTree b else E.hashBlob b) = d) (hn : n = 0 ∨ n = b.length)
    (hes : t = true → ∃ es, E.parseTree b = some es ∧
      ∀ e ∈ es, ∃ g < E.numGen, Has E σ₀ g e.2 e.1) : a = .flag true := by
  obtain ⟨r, hr, -, h2⟩ := (reachable_inv ok ⟨es, h.trace⟩).threads _ ht
  rw [hr, h2 ⟨?_, hn, fun hx => ?_⟩]
  · rw [← hd]
    cases t <;> rfl
  · obtain ⟨es, h3, h4⟩ := hes hx
    exact ⟨es, h3, fun e he => Or.inl (h4 e he)⟩

/-- C84 (batches): if a batch is accepted, all its objects are stored under the announced hashes. -/
theorem C84_batch (ok : E.OK U) {s : State} {es : List Event}
    (h : Serve E U rk fuel emptyState es s) {xs : List Upload} {σ₀ : World}
    (ht : ⟨.updateBlobs xs, .ret (.flag true), σ₀⟩ ∈ s.threads) {x : Upload} (hx : x ∈ xs) :
    ∃ d, x.id = some d ∧ (if x.isTree then E.hashTree x.data else E.hashBlob x.data) = d ∧
      (x.size = 0 ∨ x.size = x.data.length) ∧
      s.σ 0 (.cas (if x.isTree then .tree else .file) d) = some x.data := by
  obtain ⟨r, hr, h1, -⟩ := (reachable_inv ok ⟨es, h.trace⟩).threads _ ht
  cases hr
  obtain ⟨h2, h3, h4⟩ := h1 rfl x hx
  refine ⟨_, h2, ?_, h3, h4⟩
  cases x.isTree <;> rfl

/-- C84 (batches are complete): a batch is accepted if each of its objects has the announced hash and
size and each tree comes after its entries, or these were in the storage before. -/
theorem C84_batch_accepted (ok : E.OK U) {s : State} {es : List Event}
    (h : Serve E U rk fuel emptyState es s) {xs : List Upload} {a : Answer} {σ₀ : World}
    (ht : ⟨.updateBlobs xs, .ret a, σ₀⟩ ∈ s.threads)
    (hd : ∀ x ∈ xs, x.id = some (if x.isTree then E.hashTree x.data else E.hashBlob x.data) ∧
      (x.size = 0 ∨ x.size = x.data.length))
    (ho : ∀ pre x post, xs = pre ++ x :: post → x.isTree = true →
      ∃ es, E.parseTree x.data = some es ∧ ∀ e ∈ es, (∃ g < E.numGen, Has E σ₀ g e.2 e.1) ∨
        ∃ y ∈ pre, y.id = some e.1 ∧ (e.2 = .tree ↔ y.isTree = true)) : a = .flag true := by
  obtain ⟨r, hr, -, h2⟩ := (reachable_inv ok ⟨es, h.trace⟩).threads _ ht
  have hid : ∀ x ∈ xs, x.id = some (E.hash (casT x.isTree) x.data) := by
    intro x hx
    rw [(hd x hx).1]
    cases x.isTree <;> rfl
  rw [hr, h2 fun pre x post he => ⟨hid x (by rw [he]; simp), (hd x (by rw [he]; simp)).2,
    fun hx => ?_⟩]
  obtain ⟨es, h3, h4⟩ := ho pre x post he hx
  refine ⟨es, h3, fun e hes => ?_⟩
  rcases h4 e hes with h5 | ⟨y, hy, h5, h6⟩
  · exact Or.inl h5
  · refine Or.inr ⟨y, hy, ?_, h6⟩
    rw [hid y (by rw [he]; exact List.mem_append_left _ hy)] at h5
    exact (Option.some.inj h5).symm

/-- C84 (missing objects): what is not reported as missing is in the youngest generation, with
everything below it; what is reported was in no generation when the request was received.  Objects
are reported in the order asked for. -/
theorem C84_missing (ok : E.OK U) {s : State} {es : List Event}
    (h : Serve E U rk fuel emptyState es s) {xs : List (Bool × Option Id)} {a : Answer}
    {σ₀ : World} (ht : ⟨.findMissing xs, .ret a, σ₀⟩ ∈ s.threads) :
    ∃ ms, a = .missing ms ∧ ms.Sublist xs ∧
      (∀ x ∈ xs, x ∉ ms → ∃ d, x.2 = some d ∧
        ∀ k i, Below E s.σ 0 (if x.1 then .tree else .blob false) d k i → Has E s.σ 0 k i) ∧
      (∀ t d, (t, some d) ∈ ms →
        ¬ ∃ g < E.numGen, Has E σ₀ g (if t then .tree else .blob false) d) := by
  obtain ⟨ms, hr, h1, h2, h3⟩ := (reachable_inv ok ⟨es, h.trace⟩).threads _ ht
  refine ⟨ms, hr, h1, fun x hx hn => ?_, fun t d hm hg => h3 _ hm ⟨d, rfl, hg⟩⟩
  obtain ⟨d, hd, h4⟩ := h2 x hx hn
  obtain ⟨b, hb⟩ := Option.isSome_iff_exists.1 h4
  refine ⟨d, hd, fun k i hbel => hbel.has (C16_generations_closed ok ⟨es, h.trace⟩ 0) ?_⟩
  cases hx1 : x.1 with
  | true =>
    rw [hx1] at hb
    exact ⟨b, Or.inl hb⟩
  | false =>
    rw [hx1] at hb
    exact ⟨b, Or.inl hb⟩

/-- C84 (reading): each content delivered has the hash asked for, and what was in the storage when
the request was received is delivered.  The batch is refused only for unsupported hashes. -/
theorem C84_read (ok : E.OK U) {s : State} {es : List Event}
    (h : Serve E U rk fuel emptyState es s) {xs : List (Bool × Option Id)} {a : Answer}
    {σ₀ : World} (ht : ⟨.readBlobs xs, .ret a, σ₀⟩ ∈ s.threads) :
    ∃ r, a = .contents r ∧ (r = none ↔ ∃ x ∈ xs, x.2 = none) ∧
      ∀ cs, r = some cs → List.Forall₂ (fun x c => ∃ d, x.2 = some d ∧
        (∀ b, c = some b → (if x.1 then E.hashTree b else E.hashBlob b) = d) ∧
        ((∃ g < E.numGen, Has E σ₀ g (if x.1 then .tree else .blob false) d) → c.isSome)) xs cs := by
  obtain ⟨r, hr, h1, h2⟩ := (reachable_inv ok ⟨es, h.trace⟩).threads _ ht
  refine ⟨r, hr, h1, fun cs hcs => (h2 cs hcs).imp ?_⟩
  rintro ⟨t, o⟩ c ⟨d, hd, h3, h4⟩
  refine ⟨d, hd, fun b hb => ?_, h4⟩
  have := (h3 b hb).1
  cases t <;> exact this

/-- A client was told, by an answer given in this state, that an object is in the storage: it was not
reported as missing, or its upload was accepted. -/
inductive Told (s : State) : Kind → Id → Prop where
  | present {xs ms : List (Bool × Option Id)} {σ₀ : World} {t : Bool} {i : Id} {k : Kind} :
      ⟨.findMissing xs, .ret (.missing ms), σ₀⟩ ∈ s.threads → (t, some i) ∈ xs →
      (t, some i) ∉ ms → (k = .tree ↔ t = true) → Told s k i
  | uploaded {t : Bool} {i : Id} {n : Nat} {b : Bytes} {σ₀ : World} {k : Kind} :
      ⟨.upload t i n b, .ret (.flag true), σ₀⟩ ∈ s.threads → (k = .tree ↔ t = true) → Told s k i
  | batch {xs : List Upload} {x : Upload} {σ₀ : World} {i : Id} {k : Kind} :
      ⟨.updateBlobs xs, .ret (.flag true), σ₀⟩ ∈ s.threads → x ∈ xs → x.id = some i →
      (k = .tree ↔ x.isTree = true) → Told s k i
  | spliced {c : Cas} {i : Id} {ps : List Id} {σ₀ : World} {k : Kind} {d : Id} :
      ⟨.splice c i ps, .ret (.digest (some d)), σ₀⟩ ∈ s.threads → (k = .tree ↔ c = .tree) →
      Told s k i

theorem Told.has (ok : E.OK U) {s : State} (h : Reachable E U rk fuel s) {k : Kind} {i : Id}
    (ht : Told s k i) : Has E s.σ 0 k i := by
  have key : ∀ (c : Cas), (k = .tree ↔ c = .tree) → (s.σ 0 (.cas c i)).isSome →
      Has E s.σ 0 k i := by
    intro c hk hs
    obtain ⟨b, hb⟩ := Option.isSome_iff_exists.1 hs
    cases c with
    | tree => rw [hk.2 rfl]; exact ⟨b, Or.inl hb⟩
    | file =>
      cases k with
      | tree => exact absurd (hk.1 rfl) (by simp)
      | blob x => exact ⟨b, Or.inl hb⟩
    | exec =>
      cases k with
      | tree => exact absurd (hk.1 rfl) (by simp)
      | blob x => exact ⟨b, Or.inr (Or.inl hb)⟩
  cases ht with
  | present h1 h2 h3 h4 =>
    obtain ⟨ms, hr, -, h6, -⟩ := (reachable_inv ok h).threads _ h1
    cases hr
    obtain ⟨d, hd, h7⟩ := h6 _ h2 h3
    cases hd
    exact key _ (h4.trans casT_tree.symm) h7
  | uploaded h1 h2 =>
    obtain ⟨r, hr, h3, -⟩ := (reachable_inv ok h).threads _ h1
    cases hr
    exact key _ (h2.trans casT_tree.symm) (by rw [(h3 rfl).2.2]; rfl)
  | @batch _ x _ _ _ h1 h2 h3 h4 =>
    obtain ⟨r, hr, h5, -⟩ := (reachable_inv ok h).threads _ h1
    cases hr
    obtain ⟨h6, -, h7⟩ := h5 rfl x h2
    rw [h3] at h6
    cases h6
    exact key _ (h4.trans casT_tree.symm) (by rw [h7]; rfl)
  | spliced h1 h2 =>
    obtain ⟨r, hr, h3, -⟩ := (reachable_inv ok h).threads _ h1
    cases hr
    exact key _ h2 (h3 _ rfl).2

/-- C84 (sessions): a client that uploads a tree only after it was told of each entry of the tree, by
whatever answer and at whatever time, that the entry is in the storage, succeeds, if there were
fewer collections since that time than there are generations. -/
theorem C84_session (ok : E.OK U) {s s' : State} {es es' : List Event} {d : Id} {n : Nat}
    {b : Bytes} {a : Answer} {ents : List (Id × Kind)}
    (h : Serve E U rk fuel emptyState es s)
    (hp : E.parseTree b = some ents) (hd : E.hashTree b = d) (hn : n = 0 ∨ n = b.length)
    (hent : ∀ e ∈ ents, ∃ (s₀ : State) (es₁ es₂ : List Event),
      Serve E U rk fuel emptyState es₁ s₀ ∧ Told s₀ e.2 e.1 ∧ Serve E U rk fuel s₀ es₂ s ∧
      .gc .all ∉ es₂ ∧ gcs es₂ < E.numGen)
    (h' : Serve E U rk fuel s es' s')
    (ht : ⟨.upload true d n b, .ret a, s.σ⟩ ∈ s'.threads) : a = .flag true := by
  have hr : Reachable E U rk fuel s' := ⟨_, h.trace.trans h'.trace⟩
  obtain ⟨r, hr', -, h2⟩ := (reachable_inv ok hr).threads _ ht
  rw [hr', h2 ⟨by rw [← hd]; rfl, hn, fun _ => ⟨ents, hp, fun e he => Or.inl ?_⟩⟩]
  obtain ⟨s₀, es₁, es₂, h3, h4, h5, h6, h7⟩ := hent e he
  obtain ⟨g, hg, -, hb, htr⟩ := C14_survives ok ⟨es₁, h3.trace⟩ h5.trace h6 (g := 0) (by omega)
  have hh := h4.has (rk := rk) (fuel := fuel) ok ⟨es₁, h3.trace⟩
  refine ⟨g, hg, ?_⟩
  obtain ⟨i, k⟩ := e
  cases k with
  | tree =>
    obtain ⟨b, hb'⟩ := hh
    exact ⟨b, htr _ _ hb'⟩
  | blob x =>
    obtain ⟨b, hb'⟩ := hh
    exact ⟨b, hb _ _ hb'⟩

end Verif.Storage
