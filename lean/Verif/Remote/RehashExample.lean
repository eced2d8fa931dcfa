import Verif.Remote.RehashGitProps

/-!
# Rehashing (C77): examples and violations
-/

namespace Verif.Rehash.Example

open Verif.Dig Verif.RE
open Verif.Tree (Ent Groups parseTree createTree group)

/-! ## From git -/

def hashB : Str := List.replicate 20 'b'
def hashL : Str := List.replicate 20 'l'
def hashS : Str := List.replicate 20 's'
def hashT : Str := List.replicate 20 't'

/-- A tree with a file, an executable with the same content, a link, and a subdirectory. -/
def root : List Ent :=
  [⟨"a".toList, .executable, hashB⟩, ⟨"f".toList, .file, hashB⟩, ⟨"l".toList, .symlink, hashL⟩, ⟨"s".toList, .tree, hashS⟩]

def sub : List Ent := [⟨"f".toList, .file, hashB⟩]

def git : Git where
  blob h := if h = hashB then some "hello".toList else if h = hashL then some "s/f".toList else none
  tree h := if h = hashT then some (root.flatMap Tree.gitText) else if h = hashS then some (sub.flatMap Tree.gitText)
    else none

theorem ents_ok : ∀ e ∈ root ++ sub, e.OK := by
  intro e he
  simp only [root, sub, List.cons_append, List.nil_append, List.mem_cons, List.not_mem_nil, or_false] at he
  rcases he with rfl | rfl | rfl | rfl | rfl <;> exact ⟨by decide, by decide, by decide, by decide, by decide⟩

theorem root_parse : parseTree (root.flatMap Tree.gitText) = some root :=
  Tree.parseTree_texts fun e he => ents_ok e (List.mem_append_left _ he)

theorem sub_parse : parseTree (sub.flatMap Tree.gitText) = some sub :=
  Tree.parseTree_texts fun e he => ents_ok e (List.mem_append_right _ he)

theorem separate : Separate git := by
  intro h ht
  have h1 : h = hashT ∨ h = hashS := by
    unfold git at ht
    dsimp only at ht
    by_cases h1 : h = hashT
    · exact .inl h1
    · by_cases h2 : h = hashS
      · exact .inr h2
      · rw [if_neg h1, if_neg h2] at ht
        exact absurd rfl ht
  rcases h1 with rfl | rfl <;> decide

theorem complete : Complete git .tree hashT := by
  have hB : git.blob hashB = some "hello".toList := by decide
  refine .tree (s := root.flatMap Tree.gitText) (l := root) (by decide) root_parse (by decide) fun e he => ?_
  simp only [root, List.mem_cons, List.not_mem_nil, or_false] at he
  rcases he with rfl | rfl | rfl | rfl
  · exact .blob (by decide) hB
  · exact .blob (by decide) hB
  · exact .blob (c := "s/f".toList) (by decide) (by decide)
  · refine .tree (s := sub.flatMap Tree.gitText) (l := sub) (by decide) sub_parse (by decide) fun e he => ?_
    simp only [sub, List.mem_cons, List.not_mem_nil, or_false] at he
    subst he
    exact .blob (by decide) hB

-- The conditions of `C77_to_compat` and `C77_same` are met; contents are found.
example : (∀ i ∈ [(⟨hashB, .file⟩ : Obj Str), ⟨hashT, .tree⟩], Complete git i.type i.digest) ∧
    gitLook git .tree hashT ["a".toList] = some (.file true "hello".toList) ∧
    gitLook git .tree hashT ["s".toList, "f".toList] = some (.file false "hello".toList) ∧
    gitLook git .tree hashT ["l".toList] = some (.link "s/f".toList) ∧
    gitLook git .tree hashT ["l".toList, "f".toList] = none := by
  refine ⟨?_, ?_, ?_, ?_, ?_⟩
  · intro i hi
    simp only [List.mem_cons, List.not_mem_nil, or_false] at hi
    rcases hi with rfl | rfl
    · exact .blob (c := "hello".toList) (by decide) (by decide)
    · exact complete
  all_goals
    rw [gitLook, show git.tree hashT = some (root.flatMap Tree.gitText) by decide, Option.bind_some, root_parse,
      Option.bind_some]
  · decide
  · rw [show assoc "s".toList (root.map fun e => (e.name, e)) = some ⟨"s".toList, .tree, hashS⟩ by decide, Option.bind_some,
      gitLook, show git.tree hashS = some (sub.flatMap Tree.gitText) by decide, Option.bind_some, sub_parse,
      Option.bind_some]
    decide
  · decide
  · decide

/-! ## To git -/

def hexF : Str := List.replicate 64 'f'
def hexD : Str := List.replicate 64 'd'
def hexE : Str := List.replicate 64 'e'

/-- A directory with a file. -/
def inner : Directory := ⟨[⟨"f".toList, ⟨hexF, 5⟩, true⟩], [], []⟩

/-- A directory with that, and the same file. -/
def outer : Directory := ⟨[⟨"g".toList, ⟨hexF, 5⟩, false⟩], [⟨"d".toList, ⟨hexD, 100⟩⟩], []⟩

def cas (h : Str) : Option Str :=
  if h = hexF then some "hello".toList else if h = hexD then some inner.text else if h = hexE then some outer.text else none

/-- The hashes of the three contents. -/
def sha (c : Str) : Str :=
  if c = "hello".toList then hexF else if c = inner.text then hexD else if c = outer.text then hexE else []

theorem honest : Honest sha (fun c => c = "hello".toList ∨ c = inner.text ∨ c = outer.text) cas := by
  have h1 : sha "hello".toList = hexF := by decide +kernel
  have h2 : sha inner.text = hexD := by decide +kernel
  have h3 : sha outer.text = hexE := by decide +kernel
  constructor
  · intro h c hc
    unfold cas at hc
    split at hc
    · cases hc; rw [h1]; rename_i h; exact h.symm
    · split at hc
      · cases hc; rw [h2]; rename_i h; exact h.symm
      · split at hc
        · cases hc; rw [h3]; rename_i h; exact h.symm
        · cases hc
  · intro h c hc
    unfold cas at hc
    split at hc
    · exact .inl (Option.some.inj hc).symm
    · split at hc
      · exact .inr (.inl (Option.some.inj hc).symm)
      · split at hc
        · exact .inr (.inr (Option.some.inj hc).symm)
        · cases hc
  · intro a b ha hb e
    rcases ha with rfl | rfl | rfl <;> rcases hb with rfl | rfl | rfl <;> first | rfl | (revert e; decide +kernel)

theorem sound : Sound sha (fun h => h = hexD ∨ h = hexE) (fun c => c = "hello".toList ∨ c = inner.text ∨ c = outer.text) cas
    (.dir ⟨hexE, 0⟩) := by
  have hname : ∀ c : Char, c = 'f' ∨ c = 'g' ∨ c = 'd' → ProperName [c] := by
    rintro c (rfl | rfl | rfl) <;> exact ⟨by decide, by decide, by decide, by decide⟩
  have hf : ∀ x, Sound sha (fun h => h = hexD ∨ h = hexE)
      (fun c => c = "hello".toList ∨ c = inner.text ∨ c = outer.text) cas (.file x ⟨hexF, 5⟩) := fun x =>
    .file (c := "hello".toList) (by decide) (by decide)
  refine .dir (s := outer.text) (m := outer) (.inr rfl) (by decide +kernel)
    (directory_read _ ⟨by unfold RE.Int64; decide, by unfold RE.Int64; decide⟩) (by decide) ?_ ?_ ?_
  · intro k hk
    simp only [outer, entries, List.map_cons, List.map_nil, List.nil_append, List.cons_append, List.mem_cons,
      List.not_mem_nil, or_false] at hk
    rcases hk with rfl | rfl
    · exact hname 'd' (.inr (.inr rfl))
    · exact hname 'g' (.inr (.inl rfl))
  · intro k hk w hw
    simp only [outer, entries, List.map_cons, List.map_nil, List.nil_append, List.cons_append, List.mem_cons,
      List.not_mem_nil, or_false] at hk
    rcases hk with rfl | rfl <;> cases hw <;> exact ⟨by decide, by decide⟩
  · intro k hk
    simp only [outer, entries, List.map_cons, List.map_nil, List.nil_append, List.cons_append, List.mem_cons,
      List.not_mem_nil, or_false] at hk
    rcases hk with rfl | rfl
    · refine .dir (s := inner.text) (m := inner) (.inl rfl) (by decide +kernel)
        (directory_read _ ⟨by unfold RE.Int64; decide, by unfold RE.Int64; decide⟩) (by decide) ?_ ?_ ?_
      · intro k hk
        simp only [inner, entries, List.map_cons, List.map_nil, List.nil_append, List.mem_cons, List.not_mem_nil,
          or_false] at hk
        subst hk
        exact hname 'f' (.inl rfl)
      · intro k hk w hw
        simp only [inner, entries, List.map_cons, List.map_nil, List.nil_append, List.mem_cons, List.not_mem_nil,
          or_false] at hk
        subst hk
        cases hw
        exact ⟨by decide, by decide⟩
      · intro k hk
        simp only [inner, entries, List.map_cons, List.map_nil, List.nil_append, List.mem_cons, List.not_mem_nil,
          or_false] at hk
        subst hk
        exact hf _
    · exact hf _

-- The conditions of `C77_to_git_partial` and `C77_same_git_partial` are met.
example : ∀ i ∈ [(⟨hexF, .file⟩ : Obj Str), ⟨hexE, .tree⟩], Sound sha (fun h => h = hexD ∨ h = hexE)
    (fun c => c = "hello".toList ∨ c = inner.text ∨ c = outer.text) cas (asKind i) := by
  intro i hi
  simp only [List.mem_cons, List.not_mem_nil, or_false] at hi
  rcases hi with rfl | rfl
  · exact .file (c := "hello".toList) (by decide) (by decide)
  · exact sound

end Verif.Rehash.Example

namespace Verif.Rehash

open Verif.Dig Verif.RE
open Verif.Tree (Ent Groups parseTree createTree addTo)

/-! ## Violations -/

/-- The directory with an empty directory `d` and an empty file `e`. -/
def emptyBoth (sha : Str → Str) : Directory := ⟨[⟨['e'], ⟨sha [], 0⟩, false⟩], [⟨['d'], ⟨sha [], 0⟩⟩], []⟩

/-- The message for an empty directory is empty, so an empty directory and an empty file have the same hash. If a
directory with both is rehashed for git, the file is given the id of the empty tree: it can not be found any more. -/
theorem C77_violation_empty (sha : Str → Str) (ids : Ids) (src : Str → Option Str) (h : Str)
    (hhex : isHexString (sha []) = true) (hlen : (sha []).length = 64) (hempty : src (sha []) = some [])
    (hroot : src h = some (emptyBoth sha).text) :
    (toGit sha ids src 2 ⟨[], []⟩ h).map Prod.fst =
        some (ids.tree (createTree [(ids.tree [], [(['d'], .tree), (['e'], .file)])])) ∧
      dirLook (byHash src) (.dir ⟨h, 0⟩) [['e']] = some (.file false []) ∧
      ((∀ c, ids.blob c ≠ ids.tree []) → ∀ S, gitLook (gitOf ids S) .file (ids.tree []) [] = none) := by
  have hread : Directory.read (emptyBoth sha).text = some (emptyBoth sha) := by
    apply directory_read
    constructor
    · intro f hf
      simp only [emptyBoth, List.mem_singleton] at hf
      subst hf
      exact (by unfold RE.Int64; decide : RE.Int64 0)
    · intro f hf
      simp only [emptyBoth, List.mem_singleton] at hf
      subst hf
      exact (by unfold RE.Int64; decide : RE.Int64 0)
  have hread0 : Directory.read [] = some ⟨[], [], []⟩ := by decide
  obtain ⟨i, hi, hh⟩ := proper_hash (w := ⟨sha [], 0⟩) ⟨hhex, hlen⟩
  dsimp only at hh
  refine ⟨?_, ?_, ?_⟩
  · rw [toGit, hroot, Option.bind_some, hread, Option.bind_some]
    simp only [emptyBoth, loop, subdirToGit, hi, Option.bind_some, hh, State.find, assoc, toGit, hempty, hread0, fileToGit,
      State.put, State.note, addTo, if_true, createTree, Tree.sorted, List.flatMap_nil]
    rfl
  · rw [dirLook, byHash, hroot, Option.bind_some, hread, Option.bind_some]
    simp [entries, emptyBoth, assoc, dirLook, byHash, hempty]
  · intro hne S
    rw [gitLook]
    cases hb : (gitOf ids S).blob (ids.tree []) with
    | none => rfl
    | some c =>
      obtain ⟨x, _, e⟩ := List.exists_of_findSome?_eq_some hb
      cases x with
      | tree s => cases e
      | blob s =>
        dsimp only at e
        rw [if_neg (hne s)] at e
        cases e

/-- The type recorded with an association is the one with which the content was first seen. It is returned for
the same content with another type: so an executable becomes a file, or a file becomes executable; this holds
in both directions. -/
theorem C77_violation_type (sha : Str → Str) (visit : Groups → Groups) (src : Git) (ids : Ids) (cas : Str → Option Str)
    (n : Nat) (h c : Str) (hg : src.blob h = some c) (hc : cas h = some c) (a b : ObjectType) (ha : a ≠ .tree) :
    (rehashAll (rehashToDir sha visit src n) ⟨[], []⟩ [⟨h, a⟩, ⟨h, b⟩]).map Prod.fst =
      some [⟨digestOf sha c, a⟩, ⟨digestOf sha c, a⟩] ∧
    (rehashAll (rehashToGit sha ids cas n) ⟨[], []⟩ [⟨h, a⟩, ⟨h, b⟩]).map Prod.fst =
      some [⟨ids.blob c, a⟩, ⟨ids.blob c, a⟩] := by
  constructor
  · simp [rehashAll, rehashToDir, State.find, assoc, ha, hg, State.note, State.put]
  · simp [rehashAll, rehashToGit, State.find, assoc, ha, hc, State.note, State.put]

/-- A known association is kept alive by garbage collection when it is used, but not the content it refers to.
After it is used between two runs of garbage collection, the digest is given for an object, though the content is
not in the CAS; it is not written again, though it could be read from the source. -/
theorem C77_violation_collected (sha : Str → Str) (src : Git) (h c : Str) (ty : ObjectType) (hc : src.blob h = some c) :
    ∃ st st' st'', rehashBlob sha src ⟨[[], []], [[], []]⟩ ⟨h, ty⟩ = some (⟨digestOf sha c, ty⟩, st) ∧
      rehashBlob sha src st.collect ⟨h, ty⟩ = some (⟨digestOf sha c, ty⟩, st') ∧
      rehashBlob sha src st'.collect ⟨h, ty⟩ = some (⟨digestOf sha c, ty⟩, st'') ∧
      st.store.flatten = [c] ∧ st''.store.flatten = [] := by
  refine ⟨⟨[[(h, ⟨digestOf sha c, ty⟩)], []], [[c], []]⟩,
    ⟨[[(h, ⟨digestOf sha c, ty⟩)], [(h, ⟨digestOf sha c, ty⟩)]], [[], [c]]⟩,
    ⟨[[(h, ⟨digestOf sha c, ty⟩)], [(h, ⟨digestOf sha c, ty⟩)]], [[], []]⟩, ?_, ?_, ?_, rfl, rfl⟩
  · simp [rehashBlob, Gens.find, assoc, hc, young]
  · simp [rehashBlob, Gens.find, assoc, Gens.collect, young]
  · simp [rehashBlob, Gens.find, assoc, Gens.collect, young]

end Verif.Rehash
