import Verif.Storage.Trace
import Verif.Storage.Example

/-!
# Concrete histories, computed by running the model
-/

namespace Verif.Storage.Example

open Prog

/-- Storage after running a program alone. -/
def after {A : Type} (p : Prog A) (σ : World) : World :=
  match run p σ with
  | some (_, σ') => σ'
  | none => σ

/-- Answer of a program running alone. -/
def answer {A : Type} (p : Prog A) (σ : World) : Option A := (run p σ).map Prod.fst

theorem run_eq {A : Type} {p : Prog A} {σ : World} {a : A} (h : answer p σ = some a) :
    run p σ = some (a, after p σ) := by
  unfold answer at h
  unfold after
  cases hr : run p σ with
  | none => rw [hr] at h; cases h
  | some r =>
    rw [hr] at h
    simp only [Option.map_some, Option.some.injEq] at h
    simp only [Option.some.injEq]
    rw [← h]

/-- Layout of the directories with all generations present. -/
def diskOf (σ : World) : Disk := ⟨fun g => some (σ g), []⟩

/-- Storage after a complete rotation. -/
def rotated (n : Nat) (σ : World) : World :=
  match execSteps (rotation n) (diskOf σ) with
  | some D => D.world
  | none => σ

def emptyWorld : World := fun _ _ => none

theorem world_diskOf (σ : World) : (diskOf σ).world = σ := by
  funext g p
  simp [Disk.world, diskOf]

/-- Compactifying with one task and rotating. -/
theorem gc_one {E : Env} {σ : World} {t : Task} {r : Bool}
    (h : answer (t.run E) σ = some r) :
    Gc E .rotate σ (rotated E.numGen (after (t.run E) σ)) := by
  have hc : Compacts E σ (after (t.run E) σ) [.ret r] :=
    compacts_steps (pre := []) (post := []) (Compacts.start σ [t]) (run_steps (run_eq h))
  obtain ⟨D', h1, -⟩ := rotation_shifted E.numGen E.numGen (diskOf (after (t.run E) σ))
  have hlen : ∀ i n, (rotationFrom n i).length = i := by
    intro i n
    induction i with
    | zero => rfl
    | succ i ih => simp [rotationFrom, ih]
  have h2 : execSteps (rotation E.numGen) (diskOf (after (t.run E) σ)) = some D' := by
    rw [← h1, List.take_of_length_le (by rw [rotation, hlen])]
  have : rotated E.numGen (after (t.run E) σ) = D'.world := by
    simp only [rotated, h2]
  rw [this]
  exact Gc.rename (k := .rotate) (by simp) hc (world_diskOf _) h1

section
variable {E : Env} {U : Bytes → Prop} {rk : Ranks E U} {fuel : Nat}

theorem reach_op {σ : World} {op : Op} {a : Answer} (h : Reachable E U rk fuel ⟨σ, []⟩)
    (hp : op.Pre E U rk σ) (ha : answer (op.run E fuel) σ = some a) :
    Reachable E U rk fuel ⟨after (op.run E fuel) σ, [⟨op, .ret a, σ⟩]⟩ ∧
      Reachable E U rk fuel ⟨after (op.run E fuel) σ, []⟩ := by
  obtain ⟨es, -, -, h1⟩ := run_trace (rk := rk) hp (run_eq ha)
  exact ⟨h.trace h1, (h.trace h1).trace stop_trace⟩

end

/-! ### A blob that is split by compactification -/

def big : Bytes := [1, 2]

/-- The environment with three generations. -/
def E3 : Env := env 3 big
abbrev U3 := short 40
def rk3 : Ranks E3 U3 := ranksShort 3 big 40
theorem ok3 : E3.OK U3 := env_ok_short 3 (by decide) big (by decide) 40

theorem fuel3 : ∀ i, rk3.tree i + 2 ≤ 50 ∧ rk3.target i + 1 ≤ 50 := by
  intro i
  show min i.length 41 + 2 ≤ 50 ∧ min i.length 41 + 1 ≤ 50
  omega

def storeBig : Op := .storeBlob big false
def w1 : World := after (storeBig.run E3 50) emptyWorld
def splitBig : Task := .splitLarge .file (hashB big)
def w2 : World := after (splitBig.run E3) w1
def w3 : World := rotated 3 w2

theorem w1_answer : answer (storeBig.run E3 50) emptyWorld = some (.digest (some (hashB big))) := by
  decide +kernel

theorem w1_reachable : Reachable E3 U3 rk3 50 ⟨w1, [⟨storeBig, .ret (.digest (some (hashB big))),
    emptyWorld⟩]⟩ ∧ Reachable E3 U3 rk3 50 ⟨w1, []⟩ :=
  reach_op ⟨[], Trace.nil _⟩ (show short 40 big by decide) w1_answer

theorem w2_answer : answer (splitBig.run E3) w1 = some true := by decide +kernel

theorem w3_gc : Gc E3 .rotate w1 w3 := gc_one w2_answer

theorem w3_reachable : Reachable E3 U3 rk3 50 ⟨w3, []⟩ :=
  w1_reachable.2.trace (Trace.snoc (Trace.nil _) (Next.gc w3_gc))

/-- The blob now consists of a large-object entry in generation 1. -/
theorem w3_content : w3 1 (.cas .file (hashB big)) = none ∧ (w3 1 (.large false (hashB big))).isSome
    ∧ w3 1 (.cas .file (hashB [1])) = some [1] ∧ w3 1 (.cas .file (hashB [2])) = some [2]
    ∧ w3 0 (.large false (hashB big)) = none := by
  decide +kernel

theorem w1_eq : w1 = fun g p => if g = 0 ∧ p = .cas .file (hashB big) then some big else none := rfl

theorem w3_plain : ∀ g, w3 g (.cas .exec (hashB big)) = none := by
  intro g
  match g with
  | 0 => decide +kernel
  | 1 => decide +kernel
  | 2 => decide +kernel
  | n + 3 => rfl

def findBig : Op := .blobPath (hashB big) true
def w4 : World := after (findBig.run E3 50) w3

theorem w4_answer : answer (findBig.run E3 50) w3 = some (.flag true) := by decide +kernel

theorem w4_reachable : Reachable E3 U3 rk3 50 ⟨w4, [⟨findBig, .ret (.flag true), w3⟩]⟩ ∧
    Reachable E3 U3 rk3 50 ⟨w4, []⟩ :=
  reach_op w3_reachable trivial w4_answer

def splitOp : Op := .split false (hashB big)
def partsBig : List Id := [hashB [1], hashB [2]]
def w5 : World := after (splitOp.run E3 50) w3
def spliceOp : Op := .splice .file (hashB big) partsBig

theorem w5_answer : answer (splitOp.run E3 50) w3 = some (.parts (some partsBig)) := by
  decide +kernel

theorem w5_reachable : Reachable E3 U3 rk3 50 ⟨w5, [⟨splitOp, .ret (.parts (some partsBig)), w3⟩]⟩ ∧
    Reachable E3 U3 rk3 50 ⟨w5, []⟩ :=
  reach_op w3_reachable trivial w5_answer

/-! ### A tree, an action and a target -/

/-- A tree with one file `[7]`. -/
def treeBytes : Bytes := encIds (idsOfEntries [(hashB [7], .blob false)])

def res7 : Result := ⟨[(hashB [7], false)], [[7]], [hashT treeBytes], []⟩
def entry7 : Entry := ⟨[], some [(hashT treeBytes, .tree)]⟩

def store7 : Op := .storeBlob [7] false
def storeT7 : Op := .storeTree treeBytes
def storeR7 : Op := .storeResult ['k'] res7
def storeE7 : Op := .storeTarget ['t'] entry7

/-- The environment where the serialised result `res7` is split. -/
def E7 : Env := env 3 (encIds (idsOfResult res7))
abbrev U7 := short 20000
def rk7 : Ranks E7 U7 := ranksShort 3 _ 20000
theorem ok7 : E7.OK U7 := env_ok_short 3 (by decide) _ (by decide +kernel) 20000

def v1 : World := after (store7.run E7 300) emptyWorld
def v2 : World := after (storeT7.run E7 300) v1
def v3 : World := after (storeR7.run E7 300) v2
def v4 : World := after (storeE7.run E7 300) v3
def splitR : Task := .splitLarge .file (hashB (encIds (idsOfResult res7)))
def v5 : World := rotated 3 (after (splitR.run E7) v4)

theorem v1_answer : answer (store7.run E7 300) emptyWorld = some (.digest (some (hashB [7]))) := by
  decide +kernel
theorem v2_answer : answer (storeT7.run E7 300) v1 = some (.digest (some (hashT treeBytes))) := by
  decide +kernel
theorem v3_answer : answer (storeR7.run E7 300) v2 = some (.flag true) := by decide +kernel
theorem v4_answer : answer (storeE7.run E7 300) v3 = some (.flag true) := by decide +kernel
theorem v5_answer : answer (splitR.run E7) v4 = some true := by decide +kernel

theorem v1_reachable : Reachable E7 U7 rk7 300 ⟨v1, []⟩ :=
  (reach_op (E := E7) (U := U7) (rk := rk7) (op := store7) ⟨[], Trace.nil _⟩ (show short 20000 [7] by decide) v1_answer).2

theorem v1_content : v1 0 (.cas .file (hashB [7])) = some [7] := by decide +kernel

theorem v2_reachable : Reachable E7 U7 rk7 300 ⟨v2, []⟩ := by
  refine (reach_op (op := storeT7) v1_reachable ⟨show short 20000 treeBytes by decide +kernel, ?_⟩ v2_answer).2
  refine ⟨[(hashB [7], .blob false)], by decide +kernel, ?_⟩
  intro e he
  rw [List.mem_singleton] at he
  subst he
  exact ⟨[7], Or.inl v1_content⟩

theorem v2_content : v2 0 (.cas .file (hashB [7])) = some [7] ∧
    v2 0 (.cas .tree (hashT treeBytes)) = some treeBytes := by decide +kernel

theorem v3_reachable : Reachable E7 U7 rk7 300 ⟨v3, [⟨storeR7, .ret (.flag true), v2⟩]⟩ ∧
    Reachable E7 U7 rk7 300 ⟨v3, []⟩ := by
  refine reach_op (op := storeR7) v2_reachable ⟨show short 20000 (encIds (idsOfResult res7)) by decide +kernel, ?_, ?_,
    ?_⟩ v3_answer
  · intro f hf
    simp only [res7, List.mem_singleton] at hf
    subst hf
    exact ⟨[7], Or.inl v2_content.1⟩
  · intro t ht
    simp only [res7, List.mem_singleton] at ht
    subst ht
    exact ⟨[7], Or.inl v2_content.1⟩
  · intro d hd
    simp only [res7, List.mem_singleton] at hd
    subst hd
    exact ⟨treeBytes, Or.inl v2_content.2⟩

theorem v3_content : v3 0 (.cas .tree (hashT treeBytes)) = some treeBytes ∧
    (v3 0 (.ac ['k'])).isSome := by decide +kernel

theorem v4_reachable : Reachable E7 U7 rk7 300 ⟨v4, [⟨storeE7, .ret (.flag true), v3⟩]⟩ ∧
    Reachable E7 U7 rk7 300 ⟨v4, []⟩ := by
  refine reach_op (op := storeE7) v3_reachable.2 ⟨show short 20000 (encIds (idsOfEntry entry7)) by decide +kernel,
    ⟨_, rfl, ?_⟩, ?_⟩ v4_answer
  · intro a ha
    rw [List.mem_singleton] at ha
    subst ha
    exact ⟨treeBytes, Or.inl v3_content.1⟩
  · intro j hj
    cases hj

theorem v4_content : (v4 0 (.ac ['k'])).isSome ∧ (v4 0 (.tc ['t'])).isSome := by decide +kernel

theorem v5_gc : Gc E7 .rotate v4 v5 := gc_one v5_answer

theorem v5_reachable : Reachable E7 U7 rk7 300 ⟨v5, []⟩ :=
  v4_reachable.2.trace (Trace.snoc (Trace.nil _) (Next.gc v5_gc))

/-- The action-cache entry is not found any more, the target-cache entry still is. -/
theorem v5_lookups : answer ((Op.cachedResult ['k']).run E7 300) v5 = some (.result none) ∧
    answer ((Op.readTarget ['t']).run E7 300) v5 = some (.entry (some entry7)) := by
  decide +kernel

/-! ### Metadata that is not split -/

def res8 : Result := ⟨[(hashB [7], false)], [], [], []⟩
def entry8 : Entry := ⟨[], some [(hashB [7], .blob true)]⟩
def storeR8 : Op := .storeResult ['k'] res8
def storeE8 : Op := .storeTarget ['t'] entry8
abbrev U8 := short 20000
def rk8 : Ranks E3 U8 := ranksShort 3 _ 20000
theorem ok8 : E3.OK U8 := env_ok_short 3 (by decide) _ (by decide +kernel) 20000

def u1 : World := after (store7.run E3 300) emptyWorld
def u2 : World := after (storeR8.run E3 300) u1
def u3 : World := after (storeE8.run E3 300) u2
def u4 : World := rotated 3 (after (splitBig.run E3) u3)
def u5 : World := after ((Op.cachedResult ['k']).run E3 300) u4
def u6 : World := after ((Op.readTarget ['t']).run E3 300) u4

theorem u1_answer : answer (store7.run E3 300) emptyWorld = some (.digest (some (hashB [7]))) := by
  decide +kernel
theorem u2_answer : answer (storeR8.run E3 300) u1 = some (.flag true) := by decide +kernel
theorem u3_answer : answer (storeE8.run E3 300) u2 = some (.flag true) := by decide +kernel
theorem u4_answer : answer (splitBig.run E3) u3 = some true := by decide +kernel
theorem u5_answer :
    answer ((Op.cachedResult ['k']).run E3 300) u4 = some (.result (some res8)) := by
  decide +kernel
theorem u6_answer : answer ((Op.readTarget ['t']).run E3 300) u4 = some (.entry (some entry8)) := by
  decide +kernel

theorem u1_content : u1 0 (.cas .file (hashB [7])) = some [7] := by decide +kernel
theorem u2_content : u2 0 (.cas .file (hashB [7])) = some [7] := by decide +kernel
theorem u3_content : (u3 0 (.ac ['k'])).isSome ∧ (u3 0 (.tc ['t'])).isSome := by decide +kernel

theorem u1_reachable : Reachable E3 U8 rk8 300 ⟨u1, []⟩ :=
  (reach_op (E := E3) (U := U8) (rk := rk8) (op := store7) ⟨[], Trace.nil _⟩
    (show short 20000 [7] by decide) u1_answer).2

theorem u2_reachable : Reachable E3 U8 rk8 300 ⟨u2, []⟩ := by
  refine (reach_op (op := storeR8) u1_reachable
    ⟨show short 20000 (encIds (idsOfResult res8)) by decide +kernel, ?_, ?_, ?_⟩ u2_answer).2
  · intro f hf
    simp only [res8, List.mem_singleton] at hf
    subst hf
    exact ⟨[7], Or.inl u1_content⟩
  · intro t ht; cases ht
  · intro t ht; cases ht

theorem u3_reachable : Reachable E3 U8 rk8 300 ⟨u3, []⟩ := by
  refine (reach_op (op := storeE8) u2_reachable
    ⟨show short 20000 (encIds (idsOfEntry entry8)) by decide +kernel, ⟨_, rfl, ?_⟩, ?_⟩ u3_answer).2
  · intro a ha
    rw [List.mem_singleton] at ha
    subst ha
    exact ⟨[7], Or.inl u2_content⟩
  · intro j hj
    cases hj

theorem u4_gc : Gc E3 .rotate u3 u4 := gc_one u4_answer

theorem u4_trace : Trace E3 U8 rk8 300 ⟨u3, []⟩ [.gc .rotate] ⟨u4, []⟩ :=
  Trace.snoc (es := []) (Trace.nil _) (Next.gc u4_gc)

theorem u5_trace : ∃ es, Trace E3 U8 rk8 300 ⟨u4, []⟩ es
    ⟨u5, [⟨.cachedResult ['k'], .ret (.result (some res8)), u4⟩]⟩ := by
  obtain ⟨es, -, -, h⟩ := run_trace (rk := rk8) (op := .cachedResult ['k']) trivial (run_eq u5_answer)
  exact ⟨es, h⟩

theorem u6_trace : ∃ es, Trace E3 U8 rk8 300 ⟨u4, []⟩ es
    ⟨u6, [⟨.readTarget ['t'], .ret (.entry (some entry8)), u4⟩]⟩ := by
  obtain ⟨es, -, -, h⟩ := run_trace (rk := rk8) (op := .readTarget ['t']) trivial (run_eq u6_answer)
  exact ⟨es, h⟩

/-! ### A result with a symlink in `output_symlinks` -/

def res9 : Result := ⟨[], [], [], [[7]]⟩
def storeR9 : Op := .storeResult ['k'] res9
def l2 : World := after (storeR9.run E3 300) u1
def l3 : World := rotated 3 (after (splitBig.run E3) l2)
def l4 : World := after ((Op.cachedResult ['k']).run E3 300) l3

theorem l2_answer : answer (storeR9.run E3 300) u1 = some (.flag true) := by decide +kernel
theorem l3_answer : answer (splitBig.run E3) l2 = some true := by decide +kernel
theorem l4_answer :
    answer ((Op.cachedResult ['k']).run E3 300) l3 = some (.result (some res9)) := by
  decide +kernel

theorem l2_reachable : Reachable E3 U8 rk8 300 ⟨l2, []⟩ := by
  refine (reach_op (op := storeR9) u1_reachable
    ⟨show short 20000 (encIds (idsOfResult res9)) by decide +kernel, ?_, ?_, ?_⟩ l2_answer).2
  · intro t ht; cases ht
  · intro t ht; cases ht
  · intro t ht; cases ht

theorem l3_reachable : Reachable E3 U8 rk8 300 ⟨l3, []⟩ :=
  l2_reachable.trace (Trace.snoc (es := []) (Trace.nil _) (Next.gc (gc_one l3_answer)))

theorem l4_reachable :
    Reachable E3 U8 rk8 300 ⟨l4, [⟨.cachedResult ['k'], .ret (.result (some res9)), l3⟩]⟩ :=
  (reach_op (op := .cachedResult ['k']) l3_reachable trivial l4_answer).1

theorem l4_content : l4 0 (.cas .file (hashB [7])) = none ∧ l4 0 (.cas .exec (hashB [7])) = none ∧
    l4 0 (.large false (hashB [7])) = none ∧ l2 0 (.cas .file (hashB [7])) = some [7] := by decide +kernel

theorem big_no_metadata : decIds big = none := by decide +kernel

/-! ### A tree with an entry that is split -/

def treeBig : Bytes := encIds (idsOfEntries [(hashB big, .blob false)])
def storeTBig : Op := .storeTree treeBig
def x1 : World := after (storeBig.run E3 300) emptyWorld
def x2 : World := after (storeTBig.run E3 300) x1
def x3 : World := rotated 3 (after (splitBig.run E3) x2)

theorem x1_answer : answer (storeBig.run E3 300) emptyWorld = some (.digest (some (hashB big))) := by
  decide +kernel
theorem x2_answer : answer (storeTBig.run E3 300) x1 = some (.digest (some (hashT treeBig))) := by
  decide +kernel
theorem x3_answer : answer (splitBig.run E3) x2 = some true := by decide +kernel
theorem x1_content : x1 0 (.cas .file (hashB big)) = some big := by decide +kernel

theorem x1_reachable : Reachable E3 U8 rk8 300 ⟨x1, []⟩ :=
  (reach_op (E := E3) (U := U8) (rk := rk8) (op := storeBig) ⟨[], Trace.nil _⟩
    (show short 20000 big by decide) x1_answer).2

theorem x2_reachable : Reachable E3 U8 rk8 300 ⟨x2, []⟩ := by
  refine (reach_op (op := storeTBig) x1_reachable ⟨show short 20000 treeBig by decide +kernel, ?_⟩
    x2_answer).2
  refine ⟨[(hashB big, .blob false)], by decide +kernel, ?_⟩
  intro e he
  rw [List.mem_singleton] at he
  subst he
  exact ⟨big, Or.inl x1_content⟩

theorem x2_content : x2 0 (.cas .tree (hashT treeBig)) = some treeBig := by decide +kernel

theorem x3_gc : Gc E3 .rotate x2 x3 := gc_one x3_answer

theorem x3_reachable : Reachable E3 U8 rk8 300 ⟨x3, []⟩ :=
  x2_reachable.trace (Trace.snoc (Trace.nil _) (Next.gc x3_gc))

def findT : Op := .treePath (hashT treeBig)
def x4 : World := after (findT.run E3 300) x3
theorem x4_answer : answer (findT.run E3 300) x3 = some (.flag true) := by decide +kernel

theorem x4_trace : ∃ es, Trace E3 U8 rk8 300 ⟨x3, []⟩ es ⟨x4, [⟨findT, .ret (.flag true), x3⟩]⟩ := by
  obtain ⟨es, -, -, h⟩ := run_trace (rk := rk8) (op := findT) trivial (run_eq x4_answer)
  exact ⟨es, h⟩

/-! ### Two compactification tasks getting into each other's way -/

/-- The next `n` accesses of a program running alone. -/
def stepK {A : Type} : Nat → World → Prog A → World × Prog A
  | 0, σ, p => (σ, p)
  | n + 1, σ, .read l k => stepK n σ (k (σ.at l))
  | n + 1, σ, .create l b k => stepK n (if (σ.at l).isSome then σ else σ.set l (some b)) (k true)
  | n + 1, σ, .replace l b k => stepK n (σ.set l (some b)) (k true)
  | n + 1, σ, .remove l k => stepK n (σ.set l none) (k true)
  | _ + 1, σ, p => (σ, p)

theorem stepK_steps {A : Type} (n : Nat) (σ : World) (p : Prog A) :
    Steps σ p (stepK n σ p).1 (stepK n σ p).2 := by
  induction n generalizing σ p with
  | zero => exact Steps.refl _ _
  | succ n ih =>
    cases p with
    | ret a => exact Steps.refl _ _
    | halt => exact Steps.refl _ _
    | read l k => exact Steps.head (Step.read _ _ _) (ih _ _)
    | create l b k => exact Steps.head (Step.create _ _ _ _) (ih _ _)
    | replace l b k => exact Steps.head (Step.replace _ _ _ _) (ih _ _)
    | remove l k => exact Steps.head (Step.remove _ _ _) (ih _ _)

def storeBigX : Op := .storeBlob big true
def y2 : World := after (storeBigX.run E3 300) x1
theorem y2_answer : answer (storeBigX.run E3 300) x1 = some (.digest (some (hashB big))) := by
  decide +kernel
theorem y2_reachable : Reachable E3 U8 rk8 300 ⟨y2, []⟩ :=
  (reach_op (op := storeBigX) x1_reachable (show short 20000 big by decide) y2_answer).2

def splitBigX : Task := .splitLarge .exec (hashB big)
def px : World × Prog Bool := stepK 3 y2 (splitBigX.run E3)
def y3 : World := after (splitBig.run E3) px.1
theorem y3_answer : answer (splitBig.run E3) px.1 = some true := by decide +kernel
theorem y4_answer : answer px.2 y3 = some false := by decide +kernel

theorem y4_compacts : Compacts E3 y2 (after px.2 y3) [.ret false, .ret true] := by
  have h0 : Compacts E3 y2 y2 [splitBigX.run E3, splitBig.run E3] :=
    Compacts.start y2 [splitBigX, splitBig]
  have h1 : Compacts E3 y2 px.1 [px.2, splitBig.run E3] :=
    compacts_steps (pre := []) (post := [splitBig.run E3]) h0 (stepK_steps 3 _ _)
  have h2 : Compacts E3 y2 y3 [px.2, .ret true] :=
    compacts_steps (pre := [px.2]) (post := []) h1 (run_steps (run_eq y3_answer))
  exact compacts_steps (pre := []) (post := [.ret true]) h2 (run_steps (run_eq y4_answer))

end Verif.Storage.Example
