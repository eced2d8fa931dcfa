import Verif.Cli.TargetProps

/-!
# C114: examples, and a violation
-/

namespace Verif.Cli.Example

open Verif Verif.Cli

/-- The directory `/w` is a workspace with target files in `/w` and `/w/a`; there is a directory `/w/a/b`. -/
def look : List Str → Entry Nat := fun p =>
  if p = ["TARGETS".toList] then .file (some (.obj [("x".toList, .null)]))
  else if p = ["a".toList, "TARGETS".toList] then .file (some (.obj [([], .null), ("y".toList, .null)]))
  else .missing

def call (args : List Str) (cwd : List Str) : Call Nat where
  repo := "main".toList
  bind _ r := if r = "lib".toList then some "libs".toList else none
  cwd := some cwd
  workspace := some ["w".toList]
  root := some look
  fileName := "TARGETS".toList
  args := args
  config := some (some (.obj [("A".toList, .num 1), ("B".toList, .num 2)]))
  defines := [some (.obj [("A".toList, .num 3)]), some (.obj [("C".toList, .num 4), ("A".toList, .num 5)])]

def wab : List Str := ["w".toList, "a".toList, "b".toList]

theorem proper_wab : Proper wab := by
  simp only [Proper, wab, List.forall_mem_cons, List.not_mem_nil, false_imp_iff, implies_true, and_true]
  refine ⟨?_, ?_, ?_⟩ <;> exact ⟨by decide, by decide, by decide, by decide⟩

theorem call_normal (args : List Str) : (call args wab).Normal := fun d h => by
  cases h; exact proper_wab

/-- In `/w/a/b` the current module is `a`. -/
theorem call_current (args : List Str) : Current (call args wab) ["a".toList] := by
  refine .inl ⟨["w".toList], ["a".toList, "b".toList], rfl, rfl, ⟨["b".toList], rfl⟩, ⟨look, rfl, ?_⟩, ?_⟩
  · have : (look (["a".toList] ++ ["TARGETS".toList])).there = true := by decide +kernel
    exact (there_iff _).mp this
  · rintro m' hm ⟨l, hl, h⟩
    cases hl
    have hcases : m' = [] ∨ m' = ["a".toList] ∨ m' = ["a".toList, "b".toList] := by
      cases m' with
      | nil => exact .inl rfl
      | cons a t =>
        obtain ⟨rfl, h2⟩ := List.cons_prefix_cons.mp hm
        cases t with
        | nil => exact .inr (.inl rfl)
        | cons b t =>
          obtain ⟨rfl, h3⟩ := List.cons_prefix_cons.mp h2
          rw [List.prefix_nil.mp h3]; exact .inr (.inr rfl)
    rcases hcases with rfl | rfl | rfl
    · exact List.nil_prefix
    · exact List.prefix_rfl
    · have : (look (["a".toList, "b".toList] ++ ["TARGETS".toList])).there = false := by decide +kernel
      have h2 := (there_iff _).mpr h
      rw [show (call args wab).fileName = "TARGETS".toList from rfl, this] at h2
      exact nomatch h2

/-- `just build y` in `/w/a/b` is the target `y` of the module `a`. -/
example : ∃ cfg, readTarget (call ["y".toList] wab) = some (⟨"main".toList, "a".toList, "y".toList, .target⟩, cfg) := by
  rw [C114_name (call_normal _) (call_current _) rfl]; exact ⟨_, rfl⟩

/-- `just build` is its first one, here with the empty name. -/
example : ∃ k cfg, readTarget (call [] wab) = some (⟨"main".toList, "a".toList, k, .target⟩, cfg) ∧ k ≤ [] ∧ k ≤ "y".toList := by
  have h := (C114_default (call_normal []) (call_current []) rfl (look := look) rfl (cfg := _) rfl).1
    [([], .null), ("y".toList, .null)] rfl (by
      refine List.pairwise_cons.mpr ⟨fun p hp => ?_, List.pairwise_cons.mpr ⟨(fun _ h => nomatch h), List.Pairwise.nil⟩⟩
      rw [List.mem_singleton.mp hp]
      decide) (by simp)
  obtain ⟨k, h1, -, h3⟩ := h
  exact ⟨k, _, h1, h3 ([], .null) (by simp), h3 ("y".toList, .null) (by simp)⟩

/-- Without targets in the current module there is an error: here the target file is no JSON. -/
example : readTarget { call [] wab with root := some fun p => if p = ["a".toList, "TARGETS".toList] then .file none else look p } = none := by
  rfl

/-- `just build c/../a y` from elsewhere. -/
example : ∃ cfg, readTarget (call ["c/../a".toList, "y".toList] ["u".toList]) =
    some (⟨"main".toList, "a".toList, "y".toList, .target⟩, cfg) := by
  have e : joinWith '/' (Path.place ('/' :: "c/../a".toList)).down = "a".toList := by decide +kernel
  rw [C114_explicit.1 rfl, e]; exact ⟨_, rfl⟩

/-- `just build @ lib a y`. -/
example : ∃ cfg, readTarget (call [['@'], "lib".toList, "a".toList, "y".toList] ["u".toList]) =
    some (⟨"libs".toList, "a".toList, "y".toList, .target⟩, cfg) := by
  have e : joinWith '/' (Path.place ('/' :: "a".toList)).down = "a".toList := by decide +kernel
  rw [C114_explicit.2 "lib".toList rfl, e]; exact ⟨_, rfl⟩

/-- Of the three values for `A`, the last one is taken; that for `B` is of the configuration file. -/
example : ∃ cfg, readConfiguration (call [] wab) = some cfg ∧ assoc "A".toList cfg = some (.num 5) ∧
    assoc "B".toList cfg = some (.num 2) ∧ assoc "D".toList cfg = none := ⟨_, rfl, rfl, rfl, rfl⟩

example : Layers (call [] wab) [[("A".toList, .num 1), ("B".toList, .num 2)], [("A".toList, .num 3)], [("C".toList, .num 4), ("A".toList, .num 5)]] :=
  ⟨_, _, rfl, .inr rfl, rfl⟩

/-- A definition that is no map. -/
example : readConfiguration { call [] wab with defines := [some (.num 1)] } = none :=
  (C114_config _).2 fun layers => by
    rintro ⟨first, rest, -, -, h⟩
    cases rest with
    | nil => exact nomatch h
    | cons a t => exact nomatch (List.cons.inj h).1

example : ∃ cfg, readTarget { call [] wab with root := none } = some (⟨"main".toList, [], [], .target⟩, cfg) := by
  rw [C114_absent rfl rfl]; exact ⟨_, rfl⟩

/-- In `/w/a` it is the same as in `/w/a/b`. -/
example : Current (call [] ["w".toList, "a".toList]) ["a".toList] := by
  refine .inl ⟨["w".toList], ["a".toList], rfl, rfl, List.prefix_rfl, ⟨look, rfl, ?_⟩, fun m' h _ => h⟩
  have : (look (["a".toList] ++ ["TARGETS".toList])).there = true := by decide +kernel
  exact (there_iff _).mp this

/-- The workspace of `/w/a/b`, if there is `/w/ROOT` and `/.git`. -/
example : workspace (fun d m => d = ["w".toList] ∧ m = "ROOT".toList ∨ d = [] ∧ m = ".git".toList) (some wab) = some ["w".toList] := by
  decide +kernel

/-- There is none without markers. -/
example : workspace (fun _ _ => false) (some wab) = none :=
  (C114_workspace _ proper_wab).2.mpr fun _ _ _ _ => rfl

/-- **C114, violation.** A directory with the name of target files makes a directory the current module, though that has no target
file: in `/w/a/b`, where `/w/a` has a target file and `/w/a/b/TARGETS` is a directory, `just build y` asks for a target of `a/b`, and
`just build` is an error. -/
theorem C114_violation_directory : ∃ c : Call Nat, c.Normal ∧ c.cwd = some wab ∧ TargetFile c ["a".toList] ∧
    ¬ TargetFile c ["a".toList, "b".toList] ∧
    (∀ t, ∃ cfg, readTarget { c with args := [t] } = some (⟨"main".toList, "a/b".toList, t, .target⟩, cfg)) ∧
    readTarget { c with args := [] } = none := by
  let look' : List Str → Entry Nat := fun p => if p = ["a".toList, "b".toList, "TARGETS".toList] then .other else look p
  let c : Call Nat := { call [] wab with root := some look' }
  have hb : look' (["a".toList, "b".toList] ++ ["TARGETS".toList]) = .other := rfl
  have hcur : ∀ args, Current { c with args := args } ["a".toList, "b".toList] := fun args =>
    .inl ⟨["w".toList], ["a".toList, "b".toList], rfl, rfl, List.prefix_rfl,
      ⟨look', rfl, fun h => nomatch hb.symm.trans h⟩, fun m' h _ => h⟩
  have hn : ∀ args, ({ c with args := args } : Call Nat).Normal := fun args d h => by cases h; exact proper_wab
  refine ⟨c, hn [], rfl, ⟨look', _, rfl, rfl⟩, ?_, fun t => ?_, rfl⟩
  · rintro ⟨l, j, hl, h⟩
    cases hl
    exact nomatch hb.symm.trans h
  · have := C114_name (hn [t]) (hcur [t]) rfl
    rw [this]
    exact ⟨_, rfl⟩

/-- The hypothesis of C114_module_partial is met by the example above. -/
example : ∀ l, (call [] wab).root = some l → ∀ d, l (d ++ [(call [] wab).fileName]) ≠ .other := by
  intro l hl d
  cases hl
  show look (d ++ _) ≠ .other
  unfold look
  split
  · exact nofun
  · split <;> exact nofun

end Verif.Cli.Example
