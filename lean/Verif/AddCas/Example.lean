import Verif.AddCas.Follow

/-!
# C109: examples, and what does not hold
-/

namespace Verif.AddCas

open Verif Verif.Path
open Verif.Roots (Name)
open Verif.Tree (Info Obs Env look)

namespace Example

/-- A hash of 20 characters; different for short contents. -/
def digest (s : Str) : Str := (s ++ List.replicate 20 '=').take 20

theorem digest_length (s : Str) : (digest s).length = 20 := by
  unfold digest
  rw [List.length_take, List.length_append, List.length_replicate]
  omega

def world (fs : Node) (m : Option Mode) : World := ⟨fs, digest, digest, 40, fun _ => true, fun _ => true, true, m⟩

def s (x : String) : Str := x.toList

/-- The result is printed, and satisfies a condition. -/
def Outcome.check (f : Info → Disk → Bool) : Outcome → Bool
  | .printed i d => f i d
  | _ => false

theorem of_check {f : Info → Disk → Bool} {o : Outcome} (h : Outcome.check f o = true) : ∃ i d, o = .printed i d ∧ f i d = true := by
  cases o with
  | printed i d => exact ⟨i, d, rfl, h⟩
  | error => cases h
  | more => cases h

/-- Decides `Name`. -/
def nameB (a : Str) : Bool := !a.contains '/' && a != [] && a != dot && a != dotdot && a.all (fun c => c.toNat != 0) && a.length ≤ 65535

theorem name_of {a : Str} (h : nameB a = true) : Name a := by
  unfold nameB at h
  simp only [Bool.and_eq_true, decide_eq_true_eq, List.all_eq_true, bne_iff_ne, ne_eq, Bool.not_eq_true', List.contains_eq_mem,
    decide_eq_false_iff_not] at h
  obtain ⟨⟨⟨⟨⟨h1, h2⟩, h3⟩, h4⟩, h5⟩, h6⟩ := h
  exact ⟨⟨h1, h2, h3, h4⟩, h5, h6⟩

/-- Decides `Proper`. -/
def properB : Nat → Node → Bool
  | _, .file _ => true
  | _, .link t => t != []
  | _, .special => true
  | 0, .dir _ => false
  | n + 1, .dir es => es.all (fun e => nameB e.1) && decide (es.map Prod.fst).Nodup && es.all (fun e => properB n e.2)

theorem proper_of : ∀ (n : Nat) (nd : Node), properB n nd = true → Proper nd
  | _, .file i, _ => .file i
  | _, .special, _ => .special
  | 0, .link t, h => .link (bne_iff_ne.1 h)
  | n + 1, .link t, h => .link (bne_iff_ne.1 h)
  | 0, .dir es, h => by cases h
  | n + 1, .dir es, h => by
    rw [properB, Bool.and_eq_true, Bool.and_eq_true, List.all_eq_true, List.all_eq_true, decide_eq_true_eq] at h
    exact .dir (fun e he => name_of (h.1.1 e he)) h.1.2 fun e he => proper_of n e.2 (h.2 e he)

/-- Two files and an empty CAS. -/
def disk : Disk := ⟨fun j => ⟨if j = 7 then s "secret" else if j = 1 then s "right" else s "wrong", j == 2, true, 5⟩, fun _ => [], []⟩

/-- A directory with files, a directory, and links, one of them leading upwards within the directory. -/
def plain : Node := .dir [(s "w", .dir [(s "f", .file 1), (s "x", .file 2), (s "l", .link (s "d/g")),
  (s "d", .dir [(s "g", .file 1), (s "u", .link (s "../f")), (s "v", .link (s "g"))])]), (s "secret", .file 7)]

theorem plain_proper : Proper plain := proper_of 3 _ (by decide +kernel)

-- By default, the link leading upwards is an error.
example : (match add (world plain none) 9 false [s "w"] disk with | .error _ => true | _ => false) = true := by decide +kernel

-- The hypotheses of the theorems can be met.
example : ∃ i d', add (world plain (some .ignore)) 9 false [s "w"] disk = .printed i d' ∧ Proper (world plain none).fs ∧
    (look ⟨digest, id⟩ d'.trees i [s "d", s "g"] = some (.leaf .file (digest (s "right")))) ∧
    look ⟨digest, id⟩ d'.trees i [s "l"] = none := by
  obtain ⟨i, d', h1, h2⟩ := of_check (o := add (world plain (some .ignore)) 9 false [s "w"] disk)
    (f := fun i d' => decide (look ⟨digest, id⟩ d'.trees i [s "d", s "g"] = some (.leaf .file (digest (s "right"))) ∧
      look ⟨digest, id⟩ d'.trees i [s "l"] = none)) (by decide +kernel)
  exact ⟨i, d', h1, plain_proper, of_decide_eq_true h2⟩

-- Only the link leading upwards is replaced, or all are.
example : Outcome.check (fun i d' =>
    look ⟨digest, id⟩ d'.trees i [s "d", s "u"] = some (.leaf .file (digest (s "right"))) ∧
    look ⟨digest, id⟩ d'.trees i [s "d", s "v"] = some (.leaf .symlink (digest (s "g"))) ∧
    look ⟨digest, id⟩ d'.trees i [s "x"] = some (.leaf .executable (digest (s "wrong"))))
    (add (world plain (some .treeUpwards)) 9 false [s "w"] disk) = true := by decide +kernel

example : Outcome.check (fun i d' =>
    look ⟨digest, id⟩ d'.trees i [s "d", s "v"] = some (.leaf .file (digest (s "right"))))
    (add (world plain (some .treeAll)) 9 false [s "w"] disk) = true := by decide +kernel

theorem append_inj_snoc {D : List Str} {n a : Str} {l : List Str} (h : D ++ [n] = l ++ [a]) : D = l ∧ n = a := by
  obtain ⟨h1, h2⟩ := List.append_inj' h rfl
  exact ⟨h1, by injection h2⟩

/-- All links below a node, with the directory they are in. -/
def links : Nat → List Str → Node → List (List Str × Str × Str)
  | n + 1, D, .dir es => es.flatMap fun e =>
      match e.2 with
      | .link t => [(D, e.1, t)]
      | nd => links n (D ++ [e.1]) nd
  | _, _, _ => []

def deep : Nat → Node → Bool
  | _, .file _ => true
  | _, .link _ => true
  | _, .special => true
  | 0, .dir _ => false
  | n + 1, .dir es => es.all fun e => deep n e.2

theorem mem_links : ∀ (k : Nat) (nd : Node) (D q : List Str) (n t : Str), deep k nd = true → nd.find (q ++ [n]) = some (.link t) →
    (D ++ q, n, t) ∈ links k D nd
  | k, .file _, D, q, n, t, _, h => by cases q <;> cases h
  | k, .link _, D, q, n, t, _, h => by cases q <;> cases h
  | k, .special, D, q, n, t, _, h => by cases q <;> cases h
  | 0, .dir es, D, q, n, t, hd, h => by cases hd
  | k + 1, .dir es, D, q, n, t, hd, h => by
    rw [links, List.mem_flatMap]
    rw [deep, List.all_eq_true] at hd
    cases q with
    | nil =>
      rw [List.nil_append, find_cons] at h
      cases ha : assoc n es with
      | none => rw [ha] at h; cases h
      | some m =>
        rw [ha, Option.bind_some] at h
        cases m <;> cases h
        refine ⟨(n, .link t), assoc_mem ha, ?_⟩
        rw [List.append_nil]
        exact List.mem_singleton_self _
    | cons a q =>
      rw [List.cons_append, find_cons] at h
      cases ha : assoc a es with
      | none => rw [ha] at h; cases h
      | some m =>
        rw [ha, Option.bind_some] at h
        refine ⟨(a, m), assoc_mem ha, ?_⟩
        have hm := mem_links k m (D ++ [a]) q n t (hd _ (assoc_mem ha)) h
        rw [List.append_assoc] at hm
        cases m with
        | link => cases q <;> cases h
        | file => exact hm
        | special => exact hm
        | dir => exact hm

/-- Decides `Plain`, for all links. -/
def plainB (fs : Node) (k : Nat) : Bool := (links k [] fs).all fun x =>
  (List.range ((comps x.2.2).dropLast.length + 1)).all fun j =>
    match fs.find (spotOf x.1 x.2.2 ((comps x.2.2).dropLast.take j)) with
    | some (.dir _) => true
    | _ => false

theorem prefix_dropLast {cs l : List Str} (h : cs <+: l) (hne : cs ≠ l) : cs <+: l.dropLast := by
  rcases Symlinks.eq_nil_or_snoc l with rfl | ⟨l', x, rfl⟩
  · exact h
  · rw [List.dropLast_concat]
    rcases List.prefix_concat_iff.1 h with e | e
    · exact absurd e hne
    · exact e

theorem plain_of {fs : Node} {k : Nat} (hd : deep k fs = true) (h : plainB fs k = true) (scope : List Str) : Plain fs scope := by
  intro D n t _ hf cs hcs hne
  have hm := mem_links k fs [] D n t hd hf
  rw [plainB, List.all_eq_true] at h
  have h1 := h _ hm
  rw [List.all_eq_true] at h1
  have hpre := prefix_dropLast hcs hne
  have h2 := h1 cs.length (List.mem_range.2 (Nat.lt_succ_of_le hpre.length_le))
  rw [List.nil_append] at h2
  dsimp only at h2
  rw [← List.prefix_iff_eq_take.1 hpre] at h2
  split at h2
  · rename_i es h3
    exact ⟨es, h3⟩
  · cases h2

-- Links within the directory lead to their targets without passing other links.
example : PlainFor (world plain (some .treeAll)) [s "w"] :=
  Or.inr (Or.inr (plain_of (fs := plain) (k := 3) (by decide +kernel) (by decide +kernel) _))

example : PlainFor (world plain (some .all)) [s "w"] :=
  Or.inr (Or.inr (plain_of (fs := plain) (k := 3) (by decide +kernel) (by decide +kernel) _))

-- Following links given on the command line.
def chain : Node := .dir [(s "a", .link (s "w/b")), (s "w", .dir [(s "b", .link (s "../d/g"))]), (s "d", .dir [(s "g", .file 2)])]

theorem chain_proper : Proper chain := proper_of 3 _ (by decide +kernel)

theorem chain_leads : Resolves chain [s "a"] [s "d", s "g"] := ⟨9, by decide +kernel⟩

example : ∃ i d', add (world chain none) 9 true [s "a"] disk = .printed i d' ∧
    add (world chain none) 9 false [s "d", s "g"] disk = .printed i d' := by
  obtain ⟨i, d', h, _⟩ := of_check (o := add (world chain none) 9 true [s "a"] disk) (f := fun _ _ => true) (by decide +kernel)
  exact ⟨i, d', h, C109_follow_partial chain_proper ⟨_, rfl⟩ chain_leads (m := .file 2) rfl nofun h⟩

example : ∃ N, ∀ n, N ≤ n → add (world chain none) n true [s "a"] disk ≠ .more :=
  C109_follow_ends_partial chain_proper ⟨_, rfl⟩ chain_leads (m := .file 2) rfl nofun

end Example

open Example

/-! ## Violations -/

/-- Adding a directory changes its files: they are read-only then, with time 0. -/
theorem C109_files_changed_violation : ∃ (W : World) (root : List Str) (d : Disk) (n : Nat) (i : Info) (d' : Disk) (j : Nat),
    Proper W.fs ∧ W.mode = none ∧ add W n false root d = .printed i d' ∧ (d.inode j).writable = true ∧ (d'.inode j).writable = false ∧
      (d'.inode j).time ≠ (d.inode j).time := by
  obtain ⟨i, d', h1, h2⟩ := of_check (o := add (world (.dir [(s "w", .dir [(s "f", .file 1)])]) none) 9 false [s "w"] disk)
    (f := fun i d' => decide ((d'.inode 1).writable = false ∧ (d'.inode 1).time ≠ (disk.inode 1).time)) (by decide +kernel)
  exact ⟨_, _, disk, 9, i, d', 1, proper_of 3 _ (by decide +kernel), rfl, h1, rfl, of_decide_eq_true h2⟩

/-- Changing a file after it was added with its directory changes what is in the CAS. -/
theorem C109_shared_violation : ∃ (W : World) (root : List Str) (d : Disk) (n : Nat) (i : Info) (d' : Disk) (j : Nat) (c : Str),
    Proper W.fs ∧ W.mode = none ∧ add W n false root d = .printed i d' ∧
      ∃ x id c', ({ d' with inode := fun k => if k = j then { d'.inode k with content := c } else d'.inode k } : Disk).blob x id = some c' ∧
        d'.blob x id = some (d.inode j).content ∧ W.H c' ≠ id := by
  obtain ⟨i, d', h1, h2⟩ := of_check (o := add (world (.dir [(s "w", .dir [(s "f", .file 1)])]) none) 9 false [s "w"] disk)
    (f := fun i d' => decide (assoc (digest (s "right")) (d'.blobs false) = some (.linked 1) ∧
      (d'.inode 1).content = (disk.inode 1).content)) (by decide +kernel)
  have h3 := of_decide_eq_true h2
  refine ⟨_, _, disk, 9, i, d', 1, s "new", proper_of 3 _ (by decide +kernel), rfl, h1, false, digest (s "right"), s "new", ?_, ?_, ?_⟩
  · unfold Disk.blob
    dsimp only
    rw [h3.1]
    rfl
  · unfold Disk.blob
    rw [h3.1, ← h3.2]
    rfl
  · decide +kernel

/-- Adding a directory fails, if its files are on another file system; they are changed nevertheless. -/
theorem C109_other_device_violation : ∃ (W : World) (root : List Str) (d : Disk) (j : Nat), Proper W.fs ∧ W.mode = none ∧ W.native = true ∧
    (∃ es, W.fs.find root = some (.dir es)) ∧ (∀ k, W.mine k = true) ∧
    ∀ n, 1 < n → ∃ d', add W n false root d = .error d' ∧ (d'.inode j).writable ≠ (d.inode j).writable := by
  refine ⟨{ world (.dir [(s "w", .dir [(s "f", .file 1)])]) none with sameDevice := fun _ => false }, [s "w"], disk, 1,
    proper_of 3 _ (by decide +kernel), rfl, rfl, ⟨_, rfl⟩, fun _ => rfl, fun n hn => ?_⟩
  obtain ⟨n, rfl⟩ : ∃ m, n = m + 2 := ⟨n - 2, by omega⟩
  exact ⟨disk.touch 1 false, rfl, by decide⟩

/-- Adding a directory fails, if its files belong to somebody else. -/
theorem C109_not_owned_violation : ∃ (W : World) (root : List Str) (d : Disk), Proper W.fs ∧ W.mode = none ∧ W.native = true ∧
    (∃ es, W.fs.find root = some (.dir es)) ∧ (∀ k, W.sameDevice k = true) ∧ ∀ n, 1 < n → ∃ d', add W n false root d = .error d' := by
  refine ⟨{ world (.dir [(s "w", .dir [(s "f", .file 1)])]) none with mine := fun _ => false }, [s "w"], disk,
    proper_of 3 _ (by decide +kernel), rfl, rfl, ⟨_, rfl⟩, fun _ => rfl, fun n hn => ?_⟩
  obtain ⟨n, rfl⟩ : ∃ m, n = m + 2 := ⟨n - 2, by omega⟩
  exact ⟨disk, rfl⟩

/-- A directory with `a -> m/f`, where `m -> u/v/../../y` and `u/v -> ../p`: lexically this is below the directory. -/
def escape : Node := .dir [(s "w", .dir [
  (s "r", .dir [(s "p", .dir []), (s "u", .dir [(s "v", .link (s "../p"))]), (s "y", .dir []), (s "m", .link (s "u/v/../../y")),
    (s "a", .link (s "m/f"))]),
  (s "y", .dir [(s "f", .file 7)])])]

/-- Files from outside the directory get in, though only links within the tree are to be followed. -/
theorem C109_escape_violation : ∃ (W : World) (root : List Str) (d : Disk) (n : Nat) (i : Info) (d' : Disk) (q : List Str),
    Proper W.fs ∧ W.mode = some .treeAll ∧ add W n false root d = .printed i d' ∧
      look ⟨W.T, id⟩ d'.trees i q = some (.leaf .file (W.H (s "secret"))) ∧
      d'.blob false (W.H (s "secret")) = some (s "secret") ∧
      ∃ j, (∀ k, (d.inode k).content = s "secret" → k = j) ∧ Resolves W.fs (root ++ q) [s "w", s "y", s "f"] ∧
        W.fs.find [s "w", s "y", s "f"] = some (.file j) ∧ ¬ root <+: [s "w", s "y", s "f"] := by
  obtain ⟨i, d', h1, h2⟩ := of_check (o := add (world escape (some .treeAll)) 9 false [s "w", s "r"] disk)
    (f := fun i d' => decide (look ⟨digest, id⟩ d'.trees i [s "a"] = some (.leaf .file (digest (s "secret"))) ∧
      d'.blob false (digest (s "secret")) = some (s "secret"))) (by decide +kernel)
  have h3 := of_decide_eq_true h2
  refine ⟨_, _, disk, 9, i, d', [s "a"], proper_of 5 _ (by decide +kernel), rfl, h1, h3.1, h3.2, 7, ?_, ⟨40, by decide +kernel⟩, rfl, ?_⟩
  · intro k hk
    change (if k = 7 then s "secret" else if k = 1 then s "right" else s "wrong") = s "secret" at hk
    by_cases h7 : k = 7
    · exact h7
    · rw [if_neg h7] at hk
      split at hk
      · exact absurd hk (by decide)
      · exact absurd hk (by decide)
  · decide

/-- A directory with `a -> l/f`, where `l -> d/e` and `d/e/f -> ../g`. -/
def wrong : Node := .dir [(s "r", .dir [(s "l", .link (s "d/e")),
  (s "d", .dir [(s "e", .dir [(s "f", .link (s "../g"))]), (s "g", .file 1)]), (s "g", .file 2), (s "a", .link (s "l/f"))])]

/-- A link is replaced by a file it does not lead to. -/
theorem C109_wrong_file_violation : ∃ (W : World) (root : List Str) (d : Disk) (n : Nat) (i : Info) (d' : Disk) (q r : List Str) (j : Nat)
    (ty : Dig.ObjectType) (id' : Str), Proper W.fs ∧ W.mode = some .treeAll ∧ add W n false root d = .printed i d' ∧
      look ⟨W.T, id⟩ d'.trees i q = some (.leaf ty id') ∧ Resolves W.fs (root ++ q) r ∧ root <+: r ∧ W.fs.find r = some (.file j) ∧
      id' ≠ W.H (d.inode j).content := by
  obtain ⟨i, d', h1, h2⟩ := of_check (o := add (world wrong (some .treeAll)) 9 false [s "r"] disk)
    (f := fun i d' => decide (look ⟨digest, id⟩ d'.trees i [s "a"] = some (.leaf .executable (digest (s "wrong"))))) (by decide +kernel)
  exact ⟨_, _, disk, 9, i, d', [s "a"], [s "r", s "d", s "g"], 1, .executable, digest (s "wrong"), proper_of 5 _ (by decide +kernel), rfl, h1,
    of_decide_eq_true h2, ⟨40, by decide +kernel⟩, by decide, rfl, by decide +kernel⟩

/-- Following a link that leads to itself never ends. -/
theorem C109_cycle_violation : ∃ (W : World) (p : List Str) (d : Disk), Proper W.fs ∧ ∀ n, add W n true p d = .more := by
  refine ⟨world (.dir [(s "a", .link (s "a"))]) none, [s "a"], disk, proper_of 3 _ (by decide +kernel), fun n => ?_⟩
  have : resolveSymlinks (world (.dir [(s "a", .link (s "a"))]) none) n [s "a"] = none := by
    induction n with
    | zero => rfl
    | succ n ih =>
      rw [resolveSymlinks]
      have h1 : lstat (world (.dir [(s "a", .link (s "a"))]) none) [s "a"] = some (.link (s "a")) := rfl
      rw [h1]
      exact ih
  unfold add
  rw [if_pos rfl, this]

end Verif.AddCas
