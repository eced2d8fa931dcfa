import Verif.Storage.Tasks
import Verif.Storage.Witness

/-!
# Properties of the storage: C12, C14 - C20

`Reachable E U rk fuel s`: the state `s` can be reached from the empty storage by any interleaving of
storage operations of any number of threads and processes, garbage collections, and crashes.
A thread `⟨op, .ret a, σ₀⟩` of such a state is an operation that was started in storage `σ₀` and has
just returned the answer `a`; others may have made further steps since.
-/

namespace Verif.Storage

open Prog

variable {E : Env} {U : Bytes → Prop} {rk : Ranks E U} {fuel : Nat}

/-! ## C16: closedness -/

/-- C16: in every reachable state, that is, at every crash point of every interleaving of operations
and collections, every generation contains everything it refers to. -/
theorem C16_generations_closed (ok : E.OK U) {s : State} (h : Reachable E U rk fuel s) (g : Nat) :
    Closed E s.σ g :=
  (reachable_inv ok h).inv.closed ok g

/-- An object is reached from another by descending into trees stored in the generation. -/
inductive Below (E : Env) (σ : World) (g : Nat) : Kind → Id → Kind → Id → Prop where
  | self (k : Kind) (d : Id) : Below E σ g k d k d
  | entry {d : Id} {b : Bytes} {es : List (Id × Kind)} {e : Id × Kind} {k : Kind} {i : Id} :
      TreeAt E σ g d b → E.parseTree b = some es → e ∈ es → Below E σ g e.2 e.1 k i →
      Below E σ g .tree d k i

theorem Below.has {σ : World} {g : Nat} (hc : Closed E σ g) {k k' : Kind} {d d' : Id}
    (h : Below E σ g k d k' d') (hd : Has E σ g k d) : Has E σ g k' d' := by
  induction h with
  | self => exact hd
  | entry ht hp he _ ih =>
    obtain ⟨es', hp', hall⟩ := hc.tree _ _ ht
    rw [hp] at hp'
    cases hp'
    exact ih (hall _ he)

/-- C16 (transitively): with a tree, a generation contains everything below that tree. -/
theorem C16_trees_complete (ok : E.OK U) {s : State} (h : Reachable E U rk fuel s) (g : Nat)
    {d : Id} {b : Bytes} (ht : TreeAt E s.σ g d b) {k : Kind} {i : Id}
    (hb : Below E s.σ g .tree d k i) : Has E s.σ g k i :=
  hb.has (C16_generations_closed ok h g) ⟨b, ht⟩

/-! ## C19: integrity -/

/-- C19: in every reachable state, what any generation delivers under a hash has that hash. -/
theorem C19_intact (ok : E.OK U) {s : State} (h : Reachable E U rk fuel s) (g : Nat) :
    Intact E s.σ g :=
  (reachable_inv ok h).inv.intact ok g

/-- C19 (never changes): the contents delivered under one hash by any two reachable states, and any
generations of them, are the same (as long as the contents stored are free of collisions). -/
theorem C19_content_unique (ok : E.OK U) {s s' : State} (h : Reachable E U rk fuel s)
    (h' : Reachable E U rk fuel s') {g g' : Nat} {d : Id} {b b' : Bytes}
    (hb : (BlobAt E s.σ g d b ∧ BlobAt E s'.σ g' d b') ∨
      (TreeAt E s.σ g d b ∧ TreeAt E s'.σ g' d b')) : b = b' := by
  have i := (reachable_inv ok h).inv
  have i' := (reachable_inv ok h').inv
  rcases hb with ⟨h1, h2⟩ | ⟨h1, h2⟩
  · obtain ⟨u1, e1⟩ := i.blobAt ok h1
    obtain ⟨u2, e2⟩ := i'.blobAt ok h2
    exact ok.injBlob _ _ u1 u2 (e1.trans e2.symm)
  · obtain ⟨u1, e1⟩ := i.treeAt ok h1
    obtain ⟨u2, e2⟩ := i'.treeAt ok h2
    exact ok.injTree _ _ u1 u2 (e1.trans e2.symm)

/-- C19 (stores): once a blob was stored, exactly the stored content is found under its hash. -/
theorem C19_store_blob (ok : E.OK U) {s : State} (h : Reachable E U rk fuel s) {b : Bytes} {x : Bool}
    {a : Answer} {σ₀ : World} (ht : ⟨.storeBlob b x, .ret a, σ₀⟩ ∈ s.threads) :
    a = .digest (some (E.hashBlob b)) ∧ s.σ 0 (.cas (casOf x) (E.hashBlob b)) = some b :=
  (reachable_inv ok h).threads _ ht

/-- C19 (lookups): when a lookup has reported success, the file it reports is there, and its content
has the hash asked for. -/
theorem C19_lookup_blob (ok : E.OK U) {s : State} (h : Reachable E U rk fuel s) {d : Id} {x : Bool}
    {σ₀ : World} (ht : ⟨.blobPath d x, .ret (.flag true), σ₀⟩ ∈ s.threads) :
    ∃ b, s.σ 0 (.cas (casOf x) d) = some b ∧ E.hashBlob b = d := by
  obtain ⟨r, hr, h1, -⟩ := (reachable_inv ok h).threads _ ht
  cases hr
  obtain ⟨b, hb⟩ := Option.isSome_iff_exists.1 (h1 rfl)
  refine ⟨b, hb, ?_⟩
  have := ((reachable_inv ok h).inv.cas _ _ _ _ hb).2
  rwa [hash_casOf] at this

/-- C19 (lookups of trees). -/
theorem C19_lookup_tree (ok : E.OK U) {s : State} (h : Reachable E U rk fuel s) {d : Id}
    {σ₀ : World} (ht : ⟨.treePath d, .ret (.flag true), σ₀⟩ ∈ s.threads) :
    ∃ b, s.σ 0 (.cas .tree d) = some b ∧ E.hashTree b = d ∧
      ∀ k i, Below E s.σ 0 .tree d k i → Has E s.σ 0 k i := by
  obtain ⟨r, hr, h1, -⟩ := (reachable_inv ok h).threads _ ht
  cases hr
  obtain ⟨b, hb⟩ := Option.isSome_iff_exists.1 (h1 rfl)
  exact ⟨b, hb, ((reachable_inv ok h).inv.cas _ _ _ _ hb).2,
    fun k i hbel => C16_trees_complete ok h 0 (Or.inl hb) hbel⟩

/-- C19 (lookups are complete): what is in some generation when a lookup starts is found. -/
theorem C19_lookup_finds (ok : E.OK U) {s : State} (h : Reachable E U rk fuel s) {d : Id} {x : Bool}
    {a : Answer} {σ₀ : World} (ht : ⟨.blobPath d x, .ret a, σ₀⟩ ∈ s.threads) {g : Nat}
    (hg : g < E.numGen) {b : Bytes} (hb : BlobAt E σ₀ g d b) : a = .flag true := by
  obtain ⟨r, hr, -, h2⟩ := (reachable_inv ok h).threads _ ht
  rw [hr, h2 ⟨g, hg, b, hb⟩]

/-! ## C20: action-cache hits are complete -/

/-- C20: when an action-cache lookup has returned a result, all outputs are in the youngest
generation, including everything below output directories. Missing: the targets of `output_symlinks`, for which it
is false, see `C20_violation_symlinks`. -/
theorem C20_hit_complete_partial (ok : E.OK U) {s : State} (h : Reachable E U rk fuel s) {k : Id}
    {r : Result} {σ₀ : World}
    (ht : ⟨.cachedResult k, .ret (.result (some r)), σ₀⟩ ∈ s.threads) :
    (∀ f ∈ r.files, ∃ b, BlobAt E s.σ 0 f.1 b ∧ E.hashBlob b = f.1) ∧
    (∀ t ∈ r.links, ∃ b, BlobAt E s.σ 0 (E.hashBlob t) b ∧ E.hashBlob b = E.hashBlob t) ∧
    (∀ d ∈ r.dirs, ∀ k' i, Below E s.σ 0 .tree d k' i → Has E s.σ 0 k' i) := by
  have hi := (reachable_inv ok h).inv
  obtain ⟨r', hr, h1, -⟩ := (reachable_inv ok h).threads _ ht
  cases hr
  obtain ⟨h2, h3, h4⟩ := h1 r rfl
  refine ⟨fun f hf => ?_, fun t ht' => ?_, fun d hd k' i hb => ?_⟩
  · obtain ⟨b, hb⟩ := h2 f hf
    exact ⟨b, hb, (hi.blobAt ok hb).2⟩
  · obtain ⟨b, hb⟩ := h3 t ht'
    exact ⟨b, hb, (hi.blobAt ok hb).2⟩
  · exact hb.has (C16_generations_closed ok h 0) (h4 d hd)

/-- C20 (for the target cache): when a target-cache lookup has returned an entry, all artifacts with
everything below them, and all implied export targets, are in the youngest generation. -/
theorem C20_target_hit_complete (ok : E.OK U) {s : State} (h : Reachable E U rk fuel s) {k : Id}
    {en : Entry} {σ₀ : World}
    (ht : ⟨.readTarget k, .ret (.entry (some en)), σ₀⟩ ∈ s.threads) :
    ∃ as, en.artifacts = some as ∧
      (∀ a ∈ as, ∀ k' i, Below E s.σ 0 a.2 a.1 k' i → Has E s.σ 0 k' i) ∧
      ∀ j ∈ en.implied, (s.σ 0 (.tc j)).isSome := by
  obtain ⟨r', hr, h1, -⟩ := (reachable_inv ok h).threads _ ht
  cases hr
  obtain ⟨as, h2, h3, h4⟩ := h1 en rfl
  exact ⟨as, h2, fun a ha k' i hb => hb.has (C16_generations_closed ok h 0) (h3 a ha), h4⟩

/-! ## C14, C15: garbage collection -/

/-- C14: what is in generation `g` is still in the storage, with everything below it, after fewer than
`numGen - g` garbage collections (other than removals of everything), each of them completed or
interrupted anywhere, whatever else happens. -/
theorem C14_survives (ok : E.OK U) {s s' : State} {es : List Event} {g : Nat}
    (h : Reachable E U rk fuel s) (ht : Trace E U rk fuel s es s') (hall : .gc .all ∉ es)
    (hg : g + gcs es < E.numGen) :
    ∃ g' < E.numGen, Closed E s'.σ g' ∧
      (∀ d b, BlobAt E s.σ g d b → BlobAt E s'.σ g' d b) ∧
      (∀ d b, TreeAt E s.σ g d b → TreeAt E s'.σ g' d b) := by
  obtain ⟨g', h1, h2⟩ := trace_kept ok (Or.inl trivial) (reachable_inv ok h) ht hall hg
  exact ⟨g', by omega, C16_generations_closed ok (h.trace ht) g', h2.blob, h2.tree⟩

/-- C14 (blobs): a blob looked up or stored (state `s`) is found by a lookup started (in state `s'`)
after fewer than `numGen` collections. -/
theorem C14_blob_found (ok : E.OK U) {s s' s'' : State} {es es' : List Event} {d : Id}
    {b : Bytes} {x : Bool} {a : Answer} (h : Reachable E U rk fuel s) (hb : BlobAt E s.σ 0 d b)
    (ht : Trace E U rk fuel s es s') (hall : .gc .all ∉ es) (hg : gcs es < E.numGen)
    (ht' : Trace E U rk fuel s' es' s'')
    (hr : ⟨.blobPath d x, .ret a, s'.σ⟩ ∈ s''.threads) :
    a = .flag true ∧ s''.σ 0 (.cas (casOf x) d) = some b := by
  obtain ⟨g', h1, -, h2, -⟩ := C14_survives ok h ht hall (g := 0) (by omega)
  have hs'' := (h.trace ht).trace ht'
  have ha := C19_lookup_finds ok hs'' hr h1 (h2 d b hb)
  subst ha
  obtain ⟨b', h3, h4⟩ := C19_lookup_blob ok hs'' hr
  refine ⟨rfl, ?_⟩
  have : b = b' := C19_content_unique ok h hs'' (g := 0) (g' := 0) (d := d) (Or.inl ⟨hb, by
    cases x
    · exact Or.inl h3
    · exact Or.inr (Or.inl h3)⟩)
  rw [this]
  exact h3

/-- C14 (trees). -/
theorem C14_tree_found (ok : E.OK U) {s s' s'' : State} {es es' : List Event} {d : Id}
    {b : Bytes} {a : Answer} (h : Reachable E U rk fuel s) (hb : TreeAt E s.σ 0 d b)
    (ht : Trace E U rk fuel s es s') (hall : .gc .all ∉ es) (hg : gcs es < E.numGen)
    (ht' : Trace E U rk fuel s' es' s'')
    (hr : ⟨.treePath d, .ret a, s'.σ⟩ ∈ s''.threads) :
    a = .flag true ∧ s''.σ 0 (.cas .tree d) = some b ∧
      ∀ k i, Below E s''.σ 0 .tree d k i → Has E s''.σ 0 k i := by
  obtain ⟨g', h1, -, -, h2⟩ := C14_survives ok h ht hall (g := 0) (by omega)
  have hs'' := (h.trace ht).trace ht'
  obtain ⟨r, hr', -, h3⟩ := (reachable_inv ok hs'').threads _ hr
  subst hr'
  have hrt := h3 ⟨g', h1, b, h2 d b hb⟩
  subst hrt
  obtain ⟨b', h4, -, h5⟩ := C19_lookup_tree ok hs'' hr
  have : b = b' := C19_content_unique ok h hs'' (g := 0) (g' := 0) (d := d)
    (Or.inr ⟨hb, Or.inl h4⟩)
  rw [this]
  exact ⟨rfl, h4, h5⟩

/-- Blobs that parse as results of actions or as target-cache entries are too small to be split.
(The code does not ensure this: see `C14_action_violation`.) -/
def MetadataSmall (E : Env) (U : Bytes → Prop) : Prop :=
  ∀ b, U b → ((E.parseResult b).isSome ∨ (E.parseEntry b).isSome) → (E.chunks b).length < 2

theorem blobAt_direct (ok : E.OK U) (hs : MetadataSmall E U) {σ : World} (hi : Inv E U rk σ)
    {g : Nat} {d : Id} {b : Bytes} (hb : BlobAt E σ g d b)
    (hp : (E.parseResult b).isSome ∨ (E.parseEntry b).isSome) :
    σ g (.cas .file d) = some b ∨ σ g (.cas .exec d) = some b := by
  rcases hb with hb | hb | hb
  · exact Or.inl hb
  · exact Or.inr hb
  · exfalso
    have hb' := hb
    obtain ⟨e, ps, cs, h1, -⟩ := hb'
    obtain ⟨b', hb'⟩ := hi.large _ _ _ _ h1
    have := hb'.unique ok h1 hb
    subst this
    have := hs b hb'.1 hp
    have := hb'.2.2.2.1
    omega

theorem action_direct (ok : E.OK U) (hs : MetadataSmall E U) {σ : World} (hi : Inv E U rk σ)
    {g : Nat} {k : Id} (hk : (σ g (.ac k)).isSome) :
    (σ 0 (.ac k)).isSome ∨ ActionDirect E σ g k := by
  by_cases hg : g = 0
  · subst hg; exact Or.inl hk
  · obtain ⟨e, he⟩ := Option.isSome_iff_exists.1 hk
    obtain ⟨key, b, r, h1, h2, h3, -⟩ := hi.action _ _ _ he
    exact Or.inr ⟨e, key, b, by omega, he, h1,
      blobAt_direct ok hs hi h2 (Or.inl (by rw [h3]; rfl))⟩

theorem target_direct (ok : E.OK U) (hs : MetadataSmall E U) {σ : World} (hi : Inv E U rk σ)
    {g : Nat} {k : Id} (hk : (σ g (.tc k)).isSome) :
    (σ 0 (.tc k)).isSome ∨ TargetDirect E σ g k := by
  by_cases hg : g = 0
  · subst hg; exact Or.inl hk
  · right
    have key : ∀ n k, rk.target k < n → (σ g (.tc k)).isSome → TargetDirect E σ g k := by
      intro n
      induction n with
      | zero => intro k hn; omega
      | succ n ih =>
        intro k hn hk
        obtain ⟨e, he⟩ := Option.isSome_iff_exists.1 hk
        obtain ⟨i, b, en, as, h1, h2, h3, -, -, h6⟩ := hi.target _ _ _ he
        refine TargetDirect.mk (by omega) he h1
          (blobAt_direct ok hs hi h2 (Or.inr (by rw [h3]; rfl))) h3 ?_
        intro j hj hjk
        rcases h6 j hj with h | h
        · exact absurd h hjk
        · exact ih j (by omega) h.1
    exact key (rk.target k + 1) k (by omega) hk

/-- C14 for the action cache, under the assumption that results of actions are never split.
Full statement: without `MetadataSmall`; this is false, see `C14_action_violation`. -/
theorem C14_action_found_partial (ok : E.OK U) (hsm : MetadataSmall E U) {s s' s'' : State}
    {es es' : List Event} {k : Id} {a : Answer} (h : Reachable E U rk fuel s)
    (hk : (s.σ 0 (.ac k)).isSome)
    (ht : Trace E U rk fuel s es s') (hall : .gc .all ∉ es) (hg : gcs es < E.numGen)
    (ht' : Trace E U rk fuel s' es' s'')
    (hr : ⟨.cachedResult k, .ret a, s'.σ⟩ ∈ s''.threads) : ∃ r, a = .result (some r) := by
  obtain ⟨g', h1, h2⟩ := trace_kept ok (Or.inl trivial) (reachable_inv ok h) ht hall (g := 0)
    (by omega)
  have hi' := (reachable_inv ok (h.trace ht)).inv
  obtain ⟨r, hr', -, h3⟩ := (reachable_inv ok ((h.trace ht).trace ht')).threads _ hr
  have : r.isSome := h3 (by
    rcases action_direct ok hsm hi' (h2.ac k hk) with h4 | h4
    · exact Or.inl h4
    · exact Or.inr ⟨g', by omega, h4⟩)
  obtain ⟨x, hx⟩ := Option.isSome_iff_exists.1 this
  exact ⟨x, by rw [hr', hx]⟩

/-- C14 for the target cache, under the assumption that target-cache entries are never split.
Full statement: without `MetadataSmall`. -/
theorem C14_target_found_partial (ok : E.OK U) (hsm : MetadataSmall E U) {s s' s'' : State}
    {es es' : List Event} {k : Id} {a : Answer} (h : Reachable E U rk fuel s)
    (hk : (s.σ 0 (.tc k)).isSome)
    (ht : Trace E U rk fuel s es s') (hall : .gc .all ∉ es) (hg : gcs es < E.numGen)
    (ht' : Trace E U rk fuel s' es' s'')
    (hr : ⟨.readTarget k, .ret a, s'.σ⟩ ∈ s''.threads) : ∃ en, a = .entry (some en) := by
  obtain ⟨g', h1, h2⟩ := trace_kept ok (Or.inl trivial) (reachable_inv ok h) ht hall (g := 0)
    (by omega)
  have hi' := (reachable_inv ok (h.trace ht)).inv
  obtain ⟨r, hr', -, h3⟩ := (reachable_inv ok ((h.trace ht).trace ht')).threads _ hr
  have : r.isSome := h3 (by
    rcases target_direct ok hsm hi' (h2.tc k hk) with h4 | h4
    · exact Or.inl h4
    · exact Or.inr ⟨g', by omega, h4⟩)
  obtain ⟨x, hx⟩ := Option.isSome_iff_exists.1 this
  exact ⟨x, by rw [hr', hx]⟩

/-- C15: a garbage collection (not one removing everything), completed or interrupted at any access
of compactification or after any rename, keeps every object outside the oldest generation, in the
same or the next generation; and whatever is found afterwards has the content it had before. -/
theorem C15_crash_safe (ok : E.OK U) {σ σ' : World} {k : GcKind}
    (h : Reachable E U rk fuel ⟨σ, []⟩) (hk : k ≠ .all) (hgc : Gc E k σ σ') :
    (∀ g, g + 1 < E.numGen → ∃ g', (g' = g ∨ g' = g + 1) ∧ Closed E σ' g' ∧
      (∀ d b, BlobAt E σ g d b → BlobAt E σ' g' d b) ∧
      (∀ d b, TreeAt E σ g d b → TreeAt E σ' g' d b) ∧
      (∀ a, (σ g (.ac a)).isSome → (σ' g' (.ac a)).isSome) ∧
      (∀ a, (σ g (.tc a)).isSome → (σ' g' (.tc a)).isSome)) ∧
    (∀ g g' d b b', BlobAt E σ g d b → BlobAt E σ' g' d b' → b = b') ∧
    (∀ g g' d b b', TreeAt E σ g d b → TreeAt E σ' g' d b' → b = b') ∧
    Reachable E U rk fuel ⟨σ', []⟩ := by
  have hr' : Reachable E U rk fuel ⟨σ', []⟩ :=
    h.trace (Trace.snoc (Trace.nil _) (Next.gc hgc))
  refine ⟨fun g hg => ?_, fun g g' d b b' h1 h2 => ?_, fun g g' d b b' h1 h2 => ?_, hr'⟩
  · obtain ⟨g', h1, h2⟩ := gc_kept (rk := rk) ok (reachable_inv ok h).inv hgc hk hg
    exact ⟨g', h1, C16_generations_closed ok hr' g', h2.blob, h2.tree, h2.ac, h2.tc⟩
  · exact C19_content_unique ok h hr' (Or.inl ⟨h1, h2⟩)
  · exact C19_content_unique ok h hr' (Or.inr ⟨h1, h2⟩)

/-- C15 (renames): from any directory layout, in particular one left behind by interrupted
collections, the first `m` renames of a rotation succeed; each generation but the oldest is kept
unchanged, in place or as the next older one, and nothing is invented. -/
theorem C15_renames (n m : Nat) (D : Disk) :
    ∃ D', execSteps ((rotation n).take m) D = some D' ∧
      (∀ g, g + 1 < n → D'.world g = D.world g ∨ D'.world (g + 1) = D.world g) ∧
      (∀ g p b, D'.world g p = some b → D.world g p = some b ∨
        ∃ g', g' + 1 = g ∧ D.world g' p = some b) := by
  obtain ⟨D', h1, h2⟩ := rotation_shifted n m D
  refine ⟨D', h1, h2.kept, fun g p b hb => ?_⟩
  rcases h2.from_ g with ⟨g', rfl | hg, h⟩ | h
  · rw [h] at hb; exact Or.inl hb
  · rw [h] at hb; exact Or.inr ⟨g', hg, hb⟩
  · rw [h] at hb; cases hb

/-- C15 (completed rotation): afterwards the youngest generation is empty, and all others have moved
by exactly one. -/
theorem C15_rotation_complete (n : Nat) (hn : 0 < n) (D : Disk) :
    ∃ D', execSteps (rotation n) D = some D' ∧ D'.world 0 = (fun _ => none) ∧
      ∀ g, g + 1 < n → D'.world (g + 1) = D.world g := by
  have key : ∀ i, i ≤ n → ∀ D : Disk, (i < n → D.gens i = none) →
      ∃ D', execSteps (rotationFrom n i) D = some D' ∧ (0 < i → D'.gens 0 = none) ∧
        (i = 0 → D' = D) ∧
        (∀ g, g < i → g + 1 < n → D'.gens (g + 1) = D.gens g) ∧
        (∀ g, i < g → D'.gens g = D.gens g) := by
    intro i
    induction i with
    | zero => intro _ D _; exact ⟨D, rfl, fun h => absurd h (by omega), fun _ => rfl,
        fun g h => absurd h (by omega), fun _ _ => rfl⟩
    | succ i ih =>
      intro hi D hfree
      simp only [rotationFrom, execSteps]
      obtain ⟨D1, h1, hi1, hother, hmoved⟩ : ∃ D1,
          (if i + 1 = n then GcStep.trash i else GcStep.move i (i + 1)).exec D = some D1 ∧
          D1.gens i = none ∧ (∀ g, g ≠ i → g ≠ i + 1 → D1.gens g = D.gens g) ∧
          (i + 1 < n → D1.gens (i + 1) = D.gens i) := by
        by_cases hn : i + 1 = n
        · simp only [if_pos hn, GcStep.exec]
          cases hv : D.gens i with
          | none => exact ⟨D, rfl, hv, fun _ _ _ => rfl, fun h => absurd h (by omega)⟩
          | some x =>
            refine ⟨_, rfl, ?_, ?_, fun h => absurd h (by omega)⟩
            · simp [Disk.set]
            · intro g hg _; simp [Disk.set, hg]
        · simp only [if_neg hn, GcStep.exec]
          have hf := hfree (by omega)
          cases hv : D.gens i with
          | none => exact ⟨D, rfl, hv, fun _ _ _ => rfl, fun _ => by rw [hf]⟩
          | some x =>
            rw [hf]
            refine ⟨_, rfl, ?_, ?_, ?_⟩
            · simp [Disk.set]
            · intro g hg hg'; simp [Disk.set, hg, hg']
            · simp [Disk.set]
      rw [h1]
      obtain ⟨D', h2, h3, h3', h4, h5⟩ := ih (by omega) D1 (fun _ => hi1)
      refine ⟨D', h2, fun _ => ?_, fun h => absurd h (by omega), fun g hg hgn => ?_,
        fun g hg => ?_⟩
      · cases i with
        | zero => rw [h3' rfl]; exact hi1
        | succ i => exact h3 (by omega)
      · by_cases hgi : g = i
        · subst hgi
          rw [h5 (g + 1) (by omega)]
          exact hmoved hgn
        · rw [h4 g (by omega) hgn, hother g (by omega) (by omega)]
      · rw [h5 g (by omega), hother g (by omega) (by omega)]
  obtain ⟨D', h1, h2, -, h3, -⟩ := key n (Nat.le_refl n) D (fun h => absurd h (by omega))
  exact ⟨D', h1, world_none (h2 hn), fun g hg => world_congr (h3 g (by omega) hg)⟩

/-- C15 (removing everything): an interrupted removal of all generations removes generations as a
whole, oldest first. -/
theorem C15_remove_all (n m : Nat) (D : Disk) :
    ∃ D', execSteps ((removeAll n).take m) D = some D' ∧
      (∀ g, g + m < n → D'.world g = D.world g) ∧
      (∀ g, g < n → n ≤ g + m → D'.world g = fun _ => none) := by
  induction n generalizing m D with
  | zero =>
    exact ⟨D, by cases m <;> rfl, fun g h => absurd h (by omega), fun g h => absurd h (by omega)⟩
  | succ n ih =>
    cases m with
    | zero => exact ⟨D, rfl, fun _ _ => rfl, fun g h h' => absurd h' (by omega)⟩
    | succ m =>
      simp only [removeAll, List.take_succ_cons, execSteps]
      have htrash : ∃ D1, (GcStep.trash n).exec D = some D1 ∧
          D1.gens n = none ∧ ∀ g, g ≠ n → D1.gens g = D.gens g := by
        simp only [GcStep.exec]
        cases hv : D.gens n with
        | none => exact ⟨D, rfl, hv, fun _ _ => rfl⟩
        | some x => exact ⟨_, rfl, by simp [Disk.set], fun g hg => by simp [Disk.set, hg]⟩
      obtain ⟨D1, h1, h2, h3⟩ := htrash
      rw [h1]
      simp only
      obtain ⟨D', h4, h5, h6⟩ := ih m D1
      have habove : D'.gens n = none := by
        have : ∀ (n' : Nat) (m : Nat) (D D' : Disk),
            execSteps ((removeAll n').take m) D = some D' → ∀ g, n' ≤ g → D'.gens g = D.gens g := by
          intro n'
          induction n' with
          | zero => intro m D D' h g _; cases m <;> (cases h; rfl)
          | succ n' ih =>
            intro m D D' h g hg
            cases m with
            | zero => cases h; rfl
            | succ m =>
              simp only [removeAll, List.take_succ_cons, execSteps, GcStep.exec] at h
              cases hv : D.gens n' with
              | none => rw [hv] at h; exact ih m D D' h g (by omega)
              | some x =>
                rw [hv] at h
                rw [ih m _ D' h g (by omega)]
                simp [Disk.set, show g ≠ n' by omega]
        rw [this n m D1 D' h4 n (Nat.le_refl n), h2]
      refine ⟨D', h4, fun g hg => ?_, fun g hg hg' => ?_⟩
      · rw [h5 g (by omega), world_congr (h3 g (by omega))]
      · by_cases hgn : g = n
        · subst hgn; exact world_none habove
        · exact h6 g (by omega) (by omega)

/-! ## C18: compactification -/

/-- C18: interleaved compactification tasks, stopped at any access, keep all objects readable with the
same bytes; older generations, action cache and target cache are not touched. -/
theorem C18_compactification (ok : E.OK U) {σ σ' : World} {ps : List (Prog Bool)}
    (h : Reachable E U rk fuel ⟨σ, []⟩) (hc : Compacts E σ σ' ps) :
    (∀ g d b, BlobAt E σ g d b → BlobAt E σ' g d b) ∧
    (∀ g d b, TreeAt E σ g d b → TreeAt E σ' g d b) ∧
    (∀ g p, 0 < g → σ' g p = σ g p) ∧
    (∀ k, σ' 0 (.ac k) = σ 0 (.ac k)) ∧ (∀ k, σ' 0 (.tc k) = σ 0 (.tc k)) ∧
    (∀ g, Intact E σ' g) ∧ (∀ g, Closed E σ' g) := by
  obtain ⟨h1, h2, -⟩ := compacts_inv ok (reachable_inv ok h).inv hc
  exact ⟨fun g d b => h2.blobAt, fun g d b => h2.treeAt, h2.old, h2.ac, h2.tc,
    fun g => h1.intact ok g, fun g => h1.closed ok g⟩

/-- C18 (invalid files): in any storage, even one with foreign files, removing invalid files touches
only files whose names are not valid. -/
theorem C18_only_invalid_removed (c : Cas) (d : Id) (σ : World) :
    ∃ r σ', run (removeInvalid E c d) σ = some (r, σ') ∧
      (∀ g p, (∀ c' d', g = 0 → p = .cas c' d' → E.validName d' = true) → σ' g p = σ g p) ∧
      (E.validName d = false → σ' 0 (.cas c d) = none) := by
  unfold removeInvalid
  by_cases hv : E.validName d = true
  · rw [if_pos hv]
    exact ⟨true, σ, rfl, fun _ _ _ => rfl, fun h => by rw [hv] at h; cases h⟩
  · rw [if_neg hv, run_bind]
    show ∃ r σ', run (if (σ.at ⟨0, .cas c d⟩).isSome then _ else _) σ = some (r, σ') ∧ _
    by_cases hs : (σ.at ⟨0, .cas c d⟩).isSome
    · rw [if_pos hs]
      refine ⟨true, σ.set ⟨0, .cas c d⟩ none, rfl, fun g p h => set_other ?_, fun _ => set_same _ _ _ _⟩
      rintro ⟨rfl, rfl⟩
      exact hv (h c d rfl rfl)
    · rw [if_neg hs]
      refine ⟨true, σ, rfl, fun _ _ _ => rfl, fun _ => ?_⟩
      simpa [World.at] using hs

/-! ## C57: compactification succeeds -/

/-- C57 for a task running alone: it succeeds; and splitting an object with at least two chunks leaves
the large-object entry instead of the object.
Full statement: the same for tasks running concurrently; this is false, see `C57_violation_race`. -/
theorem C57_task_succeeds_partial (ok : E.OK U) {σ : World} (h : Reachable E U rk fuel ⟨σ, []⟩) :
    (∀ t : Task, ∃ σ', run (t.run E) σ = some (true, σ')) ∧
    (∀ c d b, σ 0 (.cas c d) = some b → 2 ≤ (E.chunks b).length →
      ∃ σ', run ((Task.splitLarge c d).run E) σ = some (true, σ') ∧ σ' 0 (.cas c d) = none ∧
        LargeAt E σ' 0 c.isTree d b) := by
  have hi := (reachable_inv ok h).inv
  refine ⟨fun t => task_run ok t hi, fun c d b hb hl => ?_⟩
  obtain ⟨σ', h1, h2⟩ := splitLarge_run (rk := rk) (c := c) (d := d) ok hi
  refine ⟨σ', h1, (h2 b hb hl).1, ?_⟩
  have hc : Compacts E σ σ' [.ret true] :=
    compacts_steps (pre := []) (post := []) (Compacts.start σ [.splitLarge c d]) (run_steps h1)
  obtain ⟨i2, -, -⟩ := compacts_inv ok hi hc
  obtain ⟨b', hb'⟩ := (i2.closed ok 0).large _ _ (h2 b hb hl).2
  obtain ⟨hU', hd'⟩ := i2.largeAt ok hb'
  obtain ⟨hU, hd⟩ := hi.cas _ _ _ _ hb
  have : b' = b := hashL_inj ok hU' hU (hd'.trans (((hash_isTree c b).symm.trans hd).symm))
  rw [← this]
  exact hb'

/-! ## C12: split and splice -/

/-- C12 (chunks): the chunker fulfils what is assumed about chunks in `Env.OK`. -/
theorem C12_chunker_laws (P : Chunker.Params) (h4 : 4 ≤ P.avg) :
    (∀ b, (chunkerChunks P b).flatten = b) ∧
    (∀ b c, c ∈ chunkerChunks P b → chunkerChunks P c = [c]) := by
  refine ⟨fun b => Chunker.C11_concat P b _ (chunkerChunks_chunking P h4 b), fun b c hc => ?_⟩
  exact Chunker.C11_deterministic P c _ _ (chunkerChunks_chunking P h4 c)
    (Chunker.C13_chunk_not_split P b _ (chunkerChunks_chunking P h4 b) c hc)


/-- C12 (split): when a split has returned, the parts are in the youngest generation, and their
concatenation has the hash that was asked to be split. -/
theorem C12_split_parts (ok : E.OK U) {s : State} (h : Reachable E U rk fuel s) {t : Bool}
    {d : Id} {ps : List Id} {σ₀ : World}
    (ht : ⟨.split t d, .ret (.parts (some ps)), σ₀⟩ ∈ s.threads) :
    ∃ cs, List.Forall₂ (fun p c => s.σ 0 (.cas .file p) = some c) ps cs ∧
      E.hashL t cs.flatten = d := by
  obtain ⟨r, hr, h1, -⟩ := (reachable_inv ok h).threads _ ht
  cases hr
  obtain ⟨b, h2, h3, -, h4⟩ := h1 ps rfl
  subst h3
  exact ⟨E.chunks b, forall₂_map_self h4, by rw [ok.chunks_flatten]; exact h2⟩

/-- C12 (split is possible): a split of an object that is in some generation succeeds. -/
theorem C12_split_succeeds (ok : E.OK U) {s : State} (h : Reachable E U rk fuel s) {t : Bool}
    {d : Id} {a : Answer} {σ₀ : World} (ht : ⟨.split t d, .ret a, σ₀⟩ ∈ s.threads) {g : Nat}
    (hg : g < E.numGen) (hb : Has E σ₀ g (if t then .tree else .blob false) d) :
    ∃ ps, a = .parts (some ps) := by
  obtain ⟨r, hr, -, h1⟩ := (reachable_inv ok h).threads _ ht
  obtain ⟨ps, hps⟩ := Option.isSome_iff_exists.1 (h1 ⟨g, hg, hb⟩)
  exact ⟨ps, by rw [hr, hps]⟩

/-- C12 (round trip): splicing with the parts a split has returned restores exactly the object.
(For a tree, its entries have to be there.) -/
theorem C12_round_trip (ok : E.OK U) {s s' : State} {es : List Event}
    (h : Reachable E U rk fuel s) {c : Cas} {d : Id} {ps : List Id} {a : Answer} {σ₀ : World}
    (ht : ⟨.split c.isTree d, .ret (.parts (some ps)), σ₀⟩ ∈ s.threads)
    (hents : c = .tree → ∀ b, U b → E.hashTree b = d → ∃ es, E.parseTree b = some es ∧
      ∀ e ∈ es, ∃ g < E.numGen, Has E s.σ g e.2 e.1)
    (htr : Trace E U rk fuel s es s') (ht' : ⟨.splice c d ps, .ret a, s.σ⟩ ∈ s'.threads) :
    a = .digest (some d) ∧ ∃ cs, List.Forall₂ (fun p c => s.σ 0 (.cas .file p) = some c) ps cs ∧
      E.hash c cs.flatten = d ∧ s'.σ 0 (.cas c d) = some cs.flatten := by
  have hi := (reachable_inv ok h).inv
  have hi' := (reachable_inv ok (h.trace htr)).inv
  obtain ⟨r, hr, h1, -⟩ := (reachable_inv ok h).threads _ ht
  cases hr
  obtain ⟨b, h2, h3, hU, h4⟩ := h1 ps rfl
  have hcs := forall₂_map_self h4
  have hhash : E.hash c b = d := by cases c <;> exact h2
  obtain ⟨r, hr, h5, h6⟩ := (reachable_inv ok (h.trace htr)).threads _ ht'
  have h7 := h6 ⟨E.chunks b, by
      rw [h3]
      exact hcs.imp (fun p c hp => ⟨0, ok.gens, Or.inl hp⟩),
    by rw [ok.chunks_flatten]; exact hhash,
    fun hc => by
      rw [ok.chunks_flatten]
      refine hents hc b hU ?_
      subst hc
      exact h2⟩
  subst h7
  refine ⟨hr, E.chunks b, by rw [h3]; exact hcs, by rw [ok.chunks_flatten]; exact hhash, ?_⟩
  rw [ok.chunks_flatten]
  obtain ⟨b', hb'⟩ := Option.isSome_iff_exists.1 (h5 d rfl).2
  rw [hb', hi'.cas_eq ok hb' hU hhash]

/-- C12 (never wrong content): when a splice reports success, it reports the digest asked for, and the
content stored under it has that hash. -/
theorem C12_splice_sound (ok : E.OK U) {s : State} (h : Reachable E U rk fuel s) {c : Cas}
    {d d' : Id} {ps : List Id} {σ₀ : World}
    (ht : ⟨.splice c d ps, .ret (.digest (some d')), σ₀⟩ ∈ s.threads) :
    d' = d ∧ ∃ b, s.σ 0 (.cas c d) = some b ∧ E.hash c b = d := by
  obtain ⟨r, hr, h1, -⟩ := (reachable_inv ok h).threads _ ht
  cases hr
  obtain ⟨rfl, h2⟩ := h1 d' rfl
  obtain ⟨b, hb⟩ := Option.isSome_iff_exists.1 h2
  exact ⟨rfl, b, hb, ((reachable_inv ok h).inv.cas _ _ _ _ hb).2⟩

/-- Contents that can be read from the storage, or are chunks of such contents. -/
def Occurs (E : Env) (σ : World) (b : Bytes) : Prop :=
  ∃ g d b₀, (BlobAt E σ g d b₀ ∨ TreeAt E σ g d b₀) ∧ (b = b₀ ∨ b ∈ E.chunks b₀)

theorem Env.OK.restrict (ok : E.OK U) (σ : World) : E.OK (fun b => U b ∧ Occurs E σ b) where
  injBlob b b' h h' := ok.injBlob b b' h.1 h'.1
  injTree b b' h h' := ok.injTree b b' h.1 h'.1
  kinds b es h := ok.kinds b es h.1
  chunks_flatten := ok.chunks_flatten
  chunks_chunk := ok.chunks_chunk
  chunks_mem b c h hc := by
    refine ⟨ok.chunks_mem b c h.1 hc, ?_⟩
    obtain ⟨g, d, b₀, h1, h2⟩ := h.2
    refine ⟨g, d, b₀, h1, Or.inr ?_⟩
    rcases h2 with rfl | h2
    · exact hc
    · rw [ok.chunks_chunk b₀ b h2, List.mem_singleton] at hc
      rw [hc]
      exact h2
  parts_dump := ok.parts_dump
  key_dump := ok.key_dump
  info_dump := ok.info_dump
  result_dump := ok.result_dump
  entry_dump := ok.entry_dump
  gens := ok.gens
  valid_blob := ok.valid_blob
  valid_tree := ok.valid_tree

/-- The ranks for fewer contents. -/
def Ranks.restrict (rk : Ranks E U) (P : Bytes → Prop) : Ranks E (fun b => U b ∧ P b) where
  tree := rk.tree
  target := rk.target
  tree_lt b es i h := rk.tree_lt b es i h.1

theorem Inv.restrict (ok : E.OK U) {σ : World} (hi : Inv E U rk σ) :
    Inv E (fun b => U b ∧ Occurs E σ b) (rk.restrict (Occurs E σ)) σ where
  cas g c d b hb := by
    obtain ⟨h1, h2⟩ := hi.cas g c d b hb
    refine ⟨⟨h1, g, d, b, ?_, Or.inl rfl⟩, h2⟩
    cases c with
    | file => exact Or.inl (Or.inl hb)
    | exec => exact Or.inl (Or.inr (Or.inl hb))
    | tree => exact Or.inr (Or.inl hb)
  large g t d e he := by
    obtain ⟨b, hb⟩ := hi.large g t d e he
    refine ⟨b, ⟨hb.1, g, d, b, ?_, Or.inl rfl⟩, hb.2⟩
    cases t with
    | false => exact Or.inl (Or.inr (Or.inr (hb.largeAt ok he)))
    | true => exact Or.inr (Or.inr (hb.largeAt ok he))
  tree := hi.tree
  action := hi.action
  target := hi.target

/-- C12 (missing or wrong parts): if nothing in the storage has the hash `d`, and no way to pick for
each of the parts a content from the storage with that hash gives, concatenated, the hash `d` - in
particular, if a part is missing - then splicing is reported as an error, and still nothing can be
found under `d`. -/
theorem C12_splice_error (ok : E.OK U) {σ : World} {c : Cas} {d : Id} {ps : List Id}
    (h : Reachable E U rk fuel ⟨σ, []⟩)
    (hfuel : ∀ i, rk.tree i + 2 ≤ fuel ∧ rk.target i + 1 ≤ fuel)
    (hd : ∀ b, Occurs E σ b → E.hash c b ≠ d)
    (hps : ∀ cs, List.Forall₂ (fun p b => Occurs E σ b ∧ E.hashBlob b = p) ps cs →
      E.hash c cs.flatten ≠ d) :
    ∃ σ', run (splice E fuel c d ps) σ = some (none, σ') ∧
      ∀ g, σ' g (.cas c d) = none := by
  have ok' := ok.restrict σ
  have hi' := Inv.restrict (σ := σ) ok (reachable_inv ok h).inv
  have hsp := splice_spec (T := False) (c := c) (d := d) (ps := ps) ok' hi' (Or.inr hfuel) (by
    intro cs hcs hh
    exact absurd hh (hps cs (hcs.imp (fun p b hb => ⟨hb.1.2, hb.2⟩))))
  obtain ⟨r, σ', h1, (h2 : Inv E _ _ σ'), -, h3, -⟩ := wp_run
    (M := mode E (fun b => U b ∧ Occurs E σ b) (rk.restrict (Occurs E σ)) False)
    (fun h => h) hi' hsp
  have hnone : ∀ g, σ' g (.cas c d) = none := by
    intro g
    cases hv : σ' g (.cas c d) with
    | none => rfl
    | some b =>
      obtain ⟨h4, h5⟩ := h2.cas _ _ _ _ hv
      exact absurd h5 (hd b h4.2)
  cases r with
  | none => exact ⟨σ', h1, hnone⟩
  | some d' =>
    obtain ⟨-, h5⟩ := h3 d' rfl
    rw [hnone] at h5
    cases h5

/-! ## C17: promotion of large-object entries -/

/-- C17 for lookups of blobs: a blob that is nowhere stored as a single file of the kind asked for, but
as a large-object entry in any generation, has its entry and all parts in the youngest generation
after the lookup.
Full statement: the same for all lookups; for the lookup of the entry itself (`GetEntryPath`, used by
`Split` and `CheckTreeInvariant`) it is false, see `C17_violation`. -/
theorem C17_lookup_promotes_partial (ok : E.OK U) {σ : World} {d : Id} {x : Bool}
    (h : Reachable E U rk fuel ⟨σ, []⟩) (hf : 2 ≤ fuel)
    (hplain : ∀ g, σ g (.cas (casOf x) d) = none)
    (hl : ∃ g < E.numGen, (σ g (.large false d)).isSome) :
    ∃ σ', run (lookupBlob E fuel d x) σ = some (true, σ') ∧
      ∃ b, LargeAt E σ' 0 false d b ∧ E.hashBlob b = d := by
  have hi := (reachable_inv ok h).inv
  obtain ⟨σ', h1, h2, -, h4, -⟩ := anyOf_promotes (rk := rk) (x := x) ok hi hf (hplain 0) E.gens
    (fun g _ => hplain g) (by
      obtain ⟨g, hg, hs⟩ := hl
      exact ⟨g, List.mem_range.2 hg, hs⟩)
  refine ⟨σ', ?_, ?_⟩
  · unfold lookupBlob
    rw [run_bind]
    have : isAvailable E fuel (casOf x) d = globalUplinkBlob E fuel d x := by cases x <;> rfl
    rw [this, globalUplinkBlob, h1]
    rfl
  · obtain ⟨b, hb⟩ := (h2.closed ok 0).large _ _ h4
    exact ⟨b, hb, (h2.largeAt ok hb).2⟩

section Examples

open Example

attribute [local irreducible] hashB hashT encIds after rotated

/-! ## Violations -/

/-- C17 is violated for the lookup of large-object entries themselves: in a reachable state with
three generations, generation 1 has the entry, but looking it up fails, and afterwards the youngest
generation still does not have it. -/
theorem C17_violation : ∃ (E : Env) (U : Bytes → Prop) (rk : Ranks E U) (fuel : Nat) (σ : World)
    (d : Id), E.OK U ∧ Reachable E U rk fuel ⟨σ, []⟩ ∧
      (∃ b, 1 < E.numGen ∧ LargeAt E σ 1 false d b) ∧
      ∃ σ', run (entryPath E fuel false d) σ = some (false, σ') ∧ σ' 0 (.large false d) = none := by
  refine ⟨E3, U3, rk3, 50, w3, hashB big, ok3, w3_reachable, ?_, ?_⟩
  · obtain ⟨b, hb⟩ := (C16_generations_closed ok3 w3_reachable 1).large false (hashB big)
      w3_content.2.1
    exact ⟨b, by decide, hb⟩
  · have h : answer (entryPath E3 50 false (hashB big)) w3 = some false := by decide +kernel
    refine ⟨_, run_eq h, ?_⟩
    decide +kernel

/-- C14 is violated for action-cache entries whose serialised result was split by compactification:
in a reachable state just after the result was stored, one collection (of three generations) is
enough to lose the entry. -/
theorem C14_action_violation : ∃ (E : Env) (U : Bytes → Prop) (rk : Ranks E U) (fuel : Nat)
    (σ σ' : World) (k : Id), E.OK U ∧ 1 < E.numGen ∧ Reachable E U rk fuel ⟨σ, []⟩ ∧
      (σ 0 (.ac k)).isSome ∧ Trace E U rk fuel ⟨σ, []⟩ [.gc .rotate] ⟨σ', []⟩ ∧
      ∃ σ'', run ((Op.cachedResult k).run E fuel) σ' = some (.result none, σ'') :=
  ⟨E7, U7, rk7, 300, v4, v5, ['k'], ok7, by decide, v4_reachable.2, v4_content.1,
    Trace.snoc (es := []) (Trace.nil _) (Next.gc v5_gc), _, run_eq v5_lookups.1⟩

/-- C20 is violated for `output_symlinks`: a result with such a symlink is found and returned although the blob
with its target is not in the youngest generation, even though it was there when the result was stored. -/
theorem C20_violation_symlinks : ∃ (E : Env) (U : Bytes → Prop) (rk : Ranks E U) (fuel : Nat) (s : State)
    (k : Id) (r : Result) (σ₀ : World), E.OK U ∧ Reachable E U rk fuel s ∧
      ⟨.cachedResult k, .ret (.result (some r)), σ₀⟩ ∈ s.threads ∧
      ∃ t ∈ r.symlinks, ∀ b, ¬ BlobAt E s.σ 0 (E.hashBlob t) b := by
  refine ⟨E3, U8, rk8, 300, _, ['k'], res9, l3, ok8, l4_reachable, List.mem_singleton.2 rfl, [7],
    List.mem_singleton.2 rfl, ?_⟩
  rintro b' (h | h | ⟨_, _, _, h, -⟩)
  · have := h.symm.trans l4_content.1; cases this
  · have := h.symm.trans l4_content.2.1; cases this
  · have := h.symm.trans l4_content.2.2.1; cases this

/-- C18 is violated if writes can fail: `SplitLarge` removes an object although writing the
large-object entry has failed. -/
theorem C18_violation_write_fault : ∃ (E : Env) (U : Bytes → Prop) (rk : Ranks E U) (fuel : Nat)
    (σ σ' : World) (d : Id) (b : Bytes) (i n : Nat), E.OK U ∧ Reachable E U rk fuel ⟨σ, []⟩ ∧
      BlobAt E σ 0 d b ∧
      runWith (fun j => j == i) 0 (splitLarge E .file d) σ = some (true, σ', n) ∧
      ∀ b', ¬ BlobAt E σ' 0 d b' := by
  have hr : ∀ r, runWith (fun j => j == 9) 0 (splitLarge E3 .file (hashB big)) w1 = some r →
      r.1 = true ∧ r.2.1 0 (.cas .file (hashB big)) = none ∧
      r.2.1 0 (.cas .exec (hashB big)) = none ∧ r.2.1 0 (.large false (hashB big)) = none := by
    have : ((runWith (fun j => j == 9) 0 (splitLarge E3 .file (hashB big)) w1).all (fun r =>
        r.1 && r.2.1 0 (.cas .file (hashB big)) == none &&
        r.2.1 0 (.cas .exec (hashB big)) == none &&
        r.2.1 0 (.large false (hashB big)) == none)) = true := by decide +kernel
    intro r hr
    rw [hr] at this
    simpa [and_assoc] using this
  have hsome : (runWith (fun j => j == 9) 0 (splitLarge E3 .file (hashB big)) w1).isSome := by
    decide +kernel
  obtain ⟨⟨a, σ', n⟩, hrun⟩ := Option.isSome_iff_exists.1 hsome
  obtain ⟨h1, h2, h3, h4⟩ := hr _ hrun
  simp only at h1 h2 h3 h4
  subst h1
  refine ⟨E3, U3, rk3, 50, w1, σ', hashB big, big, 9, n, ok3, w1_reachable.2,
    Or.inl (by decide +kernel), hrun, ?_⟩
  rintro b' (h | h | ⟨_, _, _, h, -⟩)
  · rw [h2] at h; cases h
  · rw [h3] at h; cases h
  · rw [h4] at h; cases h

/-- C16 is violated if writes can fail: a lookup of a tree whose entry is stored as a large-object
entry in an older generation puts the tree into the youngest generation, and reports success, although
copying a part of the entry has failed. -/
theorem C16_violation_write_fault : ∃ (E : Env) (U : Bytes → Prop) (rk : Ranks E U) (fuel : Nat)
    (σ σ' : World) (d : Id) (b : Bytes) (i n : Nat), E.OK U ∧ Reachable E U rk fuel ⟨σ, []⟩ ∧
      runWith (fun j => j == i) 0 ((Op.treePath d).run E fuel) σ = some (.flag true, σ', n) ∧
      TreeAt E σ' 0 d b ∧ ¬ TreeClosed E σ' 0 b := by
  have hall : ((runWith (fun j => j == 16) 0 (findT.run E3 300) x3).all (fun r =>
        r.1 == .flag true && r.2.1 0 (.cas .tree (hashT treeBig)) == some treeBig &&
        r.2.1 0 (.cas .file (hashB big)) == none &&
        r.2.1 0 (.cas .exec (hashB big)) == none &&
        r.2.1 0 (.large false (hashB big)) == none)) = true := by decide +kernel
  have hsome : (runWith (fun j => j == 16) 0 (findT.run E3 300) x3).isSome := by decide +kernel
  obtain ⟨⟨a, σ', n⟩, hrun⟩ := Option.isSome_iff_exists.1 hsome
  rw [hrun] at hall
  simp only [Option.all_some, Bool.and_eq_true, beq_iff_eq] at hall
  obtain ⟨⟨⟨⟨rfl, h1⟩, h2⟩, h3⟩, h4⟩ := hall
  refine ⟨E3, U8, rk8, 300, x3, σ', hashT treeBig, treeBig, 16, n, ok8, x3_reachable, hrun,
    Or.inl h1, ?_⟩
  rintro ⟨es, h5, h6⟩
  have h7 : E3.parseTree treeBig = some [(hashB big, .blob false)] := by decide +kernel
  rw [h7] at h5
  cases h5
  obtain ⟨b', h | h | ⟨_, _, _, h, -⟩⟩ := h6 _ (List.mem_singleton.2 rfl)
  · rw [h2] at h; cases h
  · rw [h3] at h; cases h
  · rw [h4] at h; cases h

/-- C57 is violated: with an object stored both as executable and as non-executable file, one of two
concurrent compactification tasks may fail, although no access to the file system fails. -/
theorem C57_violation_race : ∃ (E : Env) (U : Bytes → Prop) (rk : Ranks E U) (fuel : Nat)
    (σ σ' : World) (ps : List (Prog Bool)), E.OK U ∧ Reachable E U rk fuel ⟨σ, []⟩ ∧
      Compacts E σ σ' ps ∧ .ret false ∈ ps :=
  ⟨E3, U8, rk8, 300, y2, _, _, ok8, y2_reachable, y4_compacts, by simp⟩

/-! ## The hypotheses can be met -/

example : Closed E3 w3 1 := C16_generations_closed ok3 w3_reachable 1

example : Has E3 x2 0 (.blob false) (hashB big) :=
  C16_trees_complete ok8 x2_reachable 0 (d := hashT treeBig) (b := treeBig) (Or.inl x2_content)
    (Below.entry (es := [(hashB big, .blob false)]) (e := (hashB big, .blob false))
      (Or.inl x2_content) (by decide +kernel) (by simp) (Below.self _ _))

example : Intact E3 w3 1 := C19_intact ok3 w3_reachable 1

example : ∃ b, BlobAt E3 w3 1 (hashB big) b ∧ BlobAt E3 w1 0 (hashB big) big ∧ b = big := by
  obtain ⟨b, hb⟩ := (C16_generations_closed ok3 w3_reachable 1).large false (hashB big)
    w3_content.2.1
  have h1 : BlobAt E3 w1 0 (hashB big) big := Or.inl (by decide +kernel)
  exact ⟨b, Or.inr (Or.inr hb), h1, C19_content_unique ok3 w3_reachable w1_reachable.2
    (Or.inl ⟨Or.inr (Or.inr hb), h1⟩)⟩

example : w1 0 (.cas .file (hashB big)) = some big :=
  (C19_store_blob ok3 w1_reachable.1 (b := big) (x := false) (List.mem_singleton.2 rfl)).2

example : ∃ b, w4 0 (.cas .exec (hashB big)) = some b ∧ hashB b = hashB big :=
  C19_lookup_blob ok3 w4_reachable.1 (x := true) (List.mem_singleton.2 rfl)

example : ∃ b, x4 0 (.cas .tree (hashT treeBig)) = some b ∧ hashT b = hashT treeBig := by
  obtain ⟨es, h⟩ := x4_trace
  obtain ⟨b, h1, h2, -⟩ := C19_lookup_tree ok8 (x3_reachable.trace h) (List.mem_singleton.2 rfl)
  exact ⟨b, h1, h2⟩

example : ∃ a : Answer, a = .flag true ∧ ⟨findBig, .ret a, w3⟩ ∈ [(⟨findBig, .ret (.flag true), w3⟩ : Thread)] := by
  obtain ⟨b, hb⟩ := (C16_generations_closed ok3 w3_reachable 1).large false (hashB big)
    w3_content.2.1
  exact ⟨.flag true, C19_lookup_finds ok3 w4_reachable.1 (List.mem_singleton.2 rfl) (g := 1)
    (by decide) (Or.inr (Or.inr hb)), List.mem_singleton.2 rfl⟩

example : ∃ b, BlobAt E3 u5 0 (hashB [7]) b := by
  obtain ⟨es, h⟩ := u5_trace
  obtain ⟨b, hb, -⟩ := (C20_hit_complete_partial ok8 ((u3_reachable.trace u4_trace).trace h)
    (List.mem_singleton.2 rfl)).1 (hashB [7], false) (by simp [res8])
  exact ⟨b, hb⟩

example : ∃ as, entry8.artifacts = some as ∧
    ∀ a ∈ as, ∀ k' i, Below E3 u6 0 a.2 a.1 k' i → Has E3 u6 0 k' i := by
  obtain ⟨es, h⟩ := u6_trace
  obtain ⟨as, h1, h2, -⟩ := C20_target_hit_complete ok8 ((u3_reachable.trace u4_trace).trace h)
    (List.mem_singleton.2 rfl)
  exact ⟨as, h1, h2⟩

example : ∃ g' < 3, ∀ b, BlobAt E3 u3 0 (hashB [7]) b → BlobAt E3 u4 g' (hashB [7]) b := by
  obtain ⟨g', h1, -, h2, -⟩ := C14_survives ok8 u3_reachable u4_trace (by decide) (g := 0)
    (by decide)
  exact ⟨g', h1, fun b => h2 _ b⟩

example : w4 0 (.cas .exec (hashB big)) = some big := by
  have ht : Trace E3 U3 rk3 50 ⟨w1, []⟩ [.gc .rotate] ⟨w3, []⟩ :=
    Trace.snoc (es := []) (Trace.nil _) (Next.gc w3_gc)
  obtain ⟨es, -, -, h⟩ := run_trace (rk := rk3) (op := findBig) (σ := w3) trivial (run_eq w4_answer)
  exact (C14_blob_found ok3 w1_reachable.2 (d := hashB big) (b := big) (x := true)
    (Or.inl (by decide +kernel)) ht (by decide) (by decide) h (List.mem_singleton.2 rfl)).2

example : x4 0 (.cas .tree (hashT treeBig)) = some treeBig := by
  have ht : Trace E3 U8 rk8 300 ⟨x2, []⟩ [.gc .rotate] ⟨x3, []⟩ :=
    Trace.snoc (es := []) (Trace.nil _) (Next.gc x3_gc)
  obtain ⟨es, h⟩ := x4_trace
  exact (C14_tree_found ok8 x2_reachable (d := hashT treeBig) (b := treeBig)
    (Or.inl x2_content) ht (by decide) (by decide) h (List.mem_singleton.2 rfl)).2.1

theorem small3 : MetadataSmall E3 U8 := by
  intro b _ hp
  show (chunksOf big b).length < 2
  unfold chunksOf
  split
  · next h =>
    subst h
    rcases hp with hp | hp
    · exact absurd hp (by decide +kernel)
    · exact absurd hp (by decide +kernel)
  · simp

example : ∃ r, Answer.result (some res8) = .result (some r) := by
  obtain ⟨es, h⟩ := u5_trace
  exact C14_action_found_partial ok8 small3 u3_reachable u3_content.1 u4_trace (by decide) (by decide)
    h (List.mem_singleton.2 rfl)

example : ∃ r, Answer.entry (some entry8) = .entry (some r) := by
  obtain ⟨es, h⟩ := u6_trace
  exact C14_target_found_partial ok8 small3 u3_reachable u3_content.2 u4_trace (by decide) (by decide)
    h (List.mem_singleton.2 rfl)

example : Reachable E3 U3 rk3 50 ⟨w3, []⟩ :=
  (C15_crash_safe ok3 w1_reachable.2 (by decide) w3_gc).2.2.2

example : ∃ D', execSteps ((rotation 3).take 2) (diskOf w2) = some D' ∧
    (D'.world 0 = w2 0 ∨ D'.world 1 = w2 0) := by
  obtain ⟨D', h1, h2, -⟩ := C15_renames 3 2 (diskOf w2)
  have := h2 0 (by decide)
  rw [world_diskOf] at this
  exact ⟨D', h1, this⟩

example : ∃ D', execSteps (rotation 3) (diskOf w2) = some D' ∧ D'.world 1 = w2 0 := by
  obtain ⟨D', h1, -, h2⟩ := C15_rotation_complete 3 (by decide) (diskOf w2)
  have := h2 0 (by decide)
  rw [world_diskOf] at this
  exact ⟨D', h1, this⟩

example : ∃ D', execSteps ((removeAll 3).take 2) (diskOf w2) = some D' ∧ D'.world 0 = w2 0 := by
  obtain ⟨D', h1, h2, -⟩ := C15_remove_all 3 2 (diskOf w2)
  have := h2 0 (by decide)
  rw [world_diskOf] at this
  exact ⟨D', h1, this⟩

example : BlobAt E3 (after px.2 y3) 0 (hashB big) big :=
  (C18_compactification ok8 y2_reachable y4_compacts).1 0 _ _ (Or.inl (by decide +kernel))

example : ∃ r σ', run (removeInvalid E3 .file ['x']) w3 = some (r, σ') ∧
    σ' 0 (.cas .file ['x']) = none := by
  obtain ⟨r, σ', h1, -, h2⟩ := C18_only_invalid_removed (E := E3) .file ['x'] w3
  exact ⟨r, σ', h1, h2 (by decide)⟩

example : ∃ σ', run (splitBig.run E3) w1 = some (true, σ') ∧ LargeAt E3 σ' 0 false (hashB big) big := by
  obtain ⟨σ', h1, -, h2⟩ := (C57_task_succeeds_partial ok3 w1_reachable.2).2 .file (hashB big) big
    (by decide +kernel) (by decide)
  exact ⟨σ', h1, h2⟩

example : (chunkerChunks Chunker.exampleParams [1, 2, 3, 4, 5, 6, 7, 8]).flatten =
    [1, 2, 3, 4, 5, 6, 7, 8] := (C12_chunker_laws Chunker.exampleParams (by decide)).1 _

example : ∃ cs, List.Forall₂ (fun p c => w5 0 (.cas .file p) = some c) partsBig cs ∧
    hashB cs.flatten = hashB big :=
  C12_split_parts ok3 w5_reachable.1 (t := false) (List.mem_singleton.2 rfl)

example : ∃ ps, Answer.parts (some partsBig) = .parts (some ps) := by
  obtain ⟨b, hb⟩ := (C16_generations_closed ok3 w3_reachable 1).large false (hashB big)
    w3_content.2.1
  exact C12_split_succeeds ok3 w5_reachable.1 (t := false) (d := hashB big)
    (List.mem_singleton.2 rfl) (g := 1) (by decide) ⟨b, Or.inr (Or.inr hb)⟩

theorem spliceOp_pre (σ : World) : spliceOp.Pre E3 U3 rk3 σ := by
  intro cs _ hd
  have : cs.flatten = big := hashB_inj hd
  show short 40 cs.flatten
  rw [this]
  decide

theorem splice_answer : answer (spliceOp.run E3 50) w5 = some (.digest (some (hashB big))) := by
  decide +kernel

example : ∃ σ' : World, σ' 0 (.cas .file (hashB big)) = some big := by
  have h0 : Trace E3 U3 rk3 50 ⟨w5, [⟨splitOp, .ret (.parts (some partsBig)), w3⟩]⟩ [.access]
      ⟨w5, [⟨spliceOp, spliceOp.run E3 50, w5⟩, ⟨splitOp, .ret (.parts (some partsBig)), w3⟩]⟩ :=
    Trace.snoc (es := []) (Trace.nil _) (Next.start (spliceOp_pre w5))
  obtain ⟨es, -, -, h1⟩ := steps_trace (E := E3) (U := U3) (rk := rk3) (fuel := 50) (op := spliceOp)
    (σ₀ := w5) (post := [⟨splitOp, .ret (.parts (some partsBig)), w3⟩])
    (run_steps (run_eq splice_answer))
  obtain ⟨-, cs, h2, h3, h4⟩ := C12_round_trip ok3 w5_reachable.1 (c := .file)
    (List.mem_singleton.2 rfl) (fun h => by cases h) (h0.trans h1)
    (List.mem_cons.2 (Or.inl rfl))
  have : cs.flatten = big := hashB_inj h3
  rw [this] at h4
  exact ⟨_, h4⟩

example : ∃ σ', run (splice E3 50 .file (hashB [9, 9]) [hashB [9], hashB [9]]) w1 =
    some (none, σ') := by
  have hocc : ∀ b, Occurs E3 w1 b → 9 ∉ b := by
    rintro b ⟨g, d, b₀, h, h'⟩
    have hi := (reachable_inv ok3 w1_reachable.2).inv
    have hb0 : b₀ = big := by
      have hfile : ∀ g c d b, w1 g (.cas c d) = some b → b = big := by
        intro g c d b hb
        rw [w1_eq] at hb
        simp only at hb
        split at hb
        · cases hb; rfl
        · cases hb
      have hlarge : ∀ g t d, w1 g (.large t d) = none := by
        intro g t d
        rw [w1_eq]
        simp only
        rw [if_neg (by rintro ⟨_, h⟩; cases h)]
      rcases h with (h | h | ⟨_, _, _, h, -⟩) | (h | ⟨_, _, _, h, -⟩)
      · exact hfile _ _ _ _ h
      · exact hfile _ _ _ _ h
      · rw [hlarge] at h; cases h
      · exact hfile _ _ _ _ h
      · rw [hlarge] at h; cases h
    subst hb0
    rcases h' with rfl | h'
    · decide
    · have : b = [1] ∨ b = [2] := by simpa [E3, env, chunksOf, big] using h'
      rcases this with rfl | rfl <;> decide
  obtain ⟨σ', h, -⟩ := C12_splice_error ok3 (c := .file) (d := hashB [9, 9])
    (ps := [hashB [9], hashB [9]]) w1_reachable.2 fuel3
    (fun b hb hd => hocc b hb (by
      have : b = [9, 9] := hashB_inj hd
      rw [this]; decide))
    (fun cs hcs _ => by
      cases hcs with
      | cons hp _ =>
        refine hocc _ hp.1 ?_
        rw [hashB_inj hp.2]; decide)
  exact ⟨σ', h⟩

example : ∃ d', d' = hashB big ∧ ∃ b, after (spliceOp.run E3 50) w5 0 (.cas .file (hashB big)) = some b
    ∧ hashB b = hashB big := by
  have h := (reach_op w5_reachable.2 (spliceOp_pre w5) splice_answer).1
  obtain ⟨h1, h2⟩ := C12_splice_sound ok3 h (c := .file) (List.mem_singleton.2 rfl)
  exact ⟨_, h1, h2⟩

example : ∃ σ', run (lookupBlob E3 50 (hashB big) true) w3 = some (true, σ') ∧
    ∃ b, LargeAt E3 σ' 0 false (hashB big) b ∧ hashB b = hashB big := by
  exact C17_lookup_promotes_partial ok3 w3_reachable (x := true) (by decide) w3_plain
    ⟨1, by decide, w3_content.2.1⟩

end Examples

end Verif.Storage
