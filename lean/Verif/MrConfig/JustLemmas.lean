import Verif.MrConfig.JustSpec
import Verif.MrConfig.Props

/-!
# Lemmas about reading the configuration
-/

namespace Verif.MrConfig

open Verif

section
variable {N : Type} {env : Env N} {git : Str → Str → Bool}

theorem parse_git {root : Json N} {fr fr' : FRoot N} {p : Option Str} (hg : GitRootIs root fr)
    (h : parseRoot git root = some (fr', p)) : fr' = fr ∧ p = none := by
  cases hg with
  | absent t => cases h; exact ⟨rfl, rfl⟩
  | absentIgnore t => cases h; exact ⟨rfl, rfl⟩
  | present t r =>
    change (if git r t then some (FRoot.git r t false) else none).map _ = _ at h
    split at h
    · cases h; exact ⟨rfl, rfl⟩
    · cases h
  | presentIgnore t r =>
    change (if git r t then some (FRoot.git r t true) else none).map _ = _ at h
    split at h
    · cases h; exact ⟨rfl, rfl⟩
    · cases h

theorem parse_git_some {root : Json N} {fr : FRoot N} (hg : GitRootIs root fr)
    (ho : ∀ r t i, fr = .git r t i → git r t = true) : parseRoot git root = some (fr, none) := by
  cases hg with
  | absent t => rfl
  | absentIgnore t => rfl
  | present t r =>
    change (if git r t then some (FRoot.git r t false) else none).map _ = _
    rw [ho r t _ rfl]; rfl
  | presentIgnore t r =>
    change (if git r t then some (FRoot.git r t true) else none).map _ = _
    rw [ho r t _ rfl]; rfl

theorem parse_dir (p : Str) : parseRoot git (.arr [.str "file".toList, .str p] : Json N) =
    some (.dir p false, some p) := rfl

theorem parse_dirIgnore (p : Str) : parseRoot git (.arr [.str "file ignore-special".toList, .str p] : Json N) =
    some (.dir p true, some p) := rfl

theorem config_obj {r : List (Str × Json N)} {c : Json N} (h : ConfigIs r c) : ∃ l, c = .obj l := by
  rcases h with ⟨_, rfl⟩ | ⟨l, _, rfl⟩
  · exact ⟨_, rfl⟩
  · exact ⟨_, rfl⟩

theorem parse_computed (repo m t : Str) (l : List (Str × Json N)) (a : Bool) :
    parseRoot git (.arr ([.str "computed".toList, .str repo, .str m, .str t, .obj l] ++ pragmaFor a) : Json N) =
    some (.computed repo m t (.obj l) a, none) := by
  cases a <;> rfl

theorem parse_tree (repo : Str) (a : Bool) :
    parseRoot git (.arr ([.str "tree structure".toList, .str repo] ++ pragmaFor a) : Json N) =
    some (.treeStructure repo a, none) := by
  cases a <;> rfl

/-- What is read from a root written for a description. -/
theorem root_means {n : Str} {d root : Json N} {fr : FRoot N} {p : Option Str} (hf : FetchesGit env)
    (hr : RootIs env n d root) (h : parseRoot git root = some (fr, p)) :
    Means env n d fr ∧ ∀ q, p = some q → ∃ i, fr = .dir q i := by
  cases hr with
  | fetched ht hft hfe =>
    obtain ⟨fr', hg⟩ := hf _ _ _ hfe
    obtain ⟨rfl, rfl⟩ := parse_git hg h
    exact ⟨.fetched ht hft hfe hg, by intro q e; cases e⟩
  | imported ht htg hfe =>
    obtain ⟨fr', hg⟩ := hf _ _ _ hfe
    obtain ⟨rfl, rfl⟩ := parse_git hg h
    exact ⟨.imported ht htg hfe hg, by intro q e; cases e⟩
  | dir ht hp htg hs =>
    rw [parse_dir] at h; cases h
    exact ⟨.dir ht hp htg hs, by rintro q e; cases e; exact ⟨_, rfl⟩⟩
  | dirIgnore ht hp htg hs =>
    rw [parse_dirIgnore] at h; cases h
    exact ⟨.dirIgnore ht hp htg hs, by rintro q e; cases e; exact ⟨_, rfl⟩⟩
  | computed hc =>
    obtain ⟨_, _, _, _, _, hcfg, _⟩ := id hc
    obtain ⟨l, rfl⟩ := config_obj hcfg
    rw [parse_computed] at h; cases h
    exact ⟨.computed hc, by intro q e; cases e⟩
  | tree hc =>
    rw [parse_tree] at h; cases h
    exact ⟨.tree hc, by intro q e; cases e⟩

/-- A root written for a description can be read. -/
theorem root_parses {n : Str} {d root : Json N} (hf : FetchesGit env) (ho : FetchesPresent env git)
    (hr : RootGiven env n d root) : ∃ fr p, parseRoot git root = some (fr, p) := by
  rcases hr with hr | ⟨repo, m, t, c, a, hc, _, rfl⟩
  · cases hr with
    | fetched ht hft hfe =>
      obtain ⟨fr', hg⟩ := hf _ _ _ hfe
      exact ⟨_, _, parse_git_some hg (fun r t i e => ho _ _ _ r t i hfe (e ▸ hg))⟩
    | imported ht htg hfe =>
      obtain ⟨fr', hg⟩ := hf _ _ _ hfe
      exact ⟨_, _, parse_git_some hg (fun r t i e => ho _ _ _ r t i hfe (e ▸ hg))⟩
    | dir ht hp htg hs => exact ⟨_, _, parse_dir _⟩
    | dirIgnore ht hp htg hs => exact ⟨_, _, parse_dirIgnore _⟩
    | computed hc =>
      obtain ⟨_, _, _, _, _, hcfg, _⟩ := id hc
      obtain ⟨l, rfl⟩ := config_obj hcfg
      exact ⟨_, _, parse_computed _ _ _ _ _⟩
    | tree hc => exact ⟨_, _, parse_tree _ _⟩
  · obtain ⟨_, _, _, _, _, hcfg, _⟩ := id hc
    obtain ⟨l, rfl⟩ := config_obj hcfg
    exact ⟨_, _, parse_computed _ _ _ _ _⟩

theorem fetchesGit_plain (hf : FetchesGit env) : FetchesPlain env := by
  intro n d root h rest
  obtain ⟨fr, hg⟩ := hf _ _ _ h
  cases hg <;> constructor <;> intro e <;>
    · simp only [Json.arr.injEq, List.cons.injEq, Json.str.injEq] at e
      exact absurd e.1 (by decide)

theorem rootGiven_is {n : Str} {d root : Json N} (h : RootGiven env n d root) (ht : TargetNamedAsModule d) :
    RootIs env n d root := by
  rcases h with h | ⟨repo, m, t, c, a, hc, hne, _⟩
  · exact h
  · exact absurd (ht _ _ _ _ _ hc) hne

theorem insertList_present {V : Type} {k : Str} {v w : V} {l : List (Str × V)} (ha : Ascending l)
    (h : assoc k l = some w) : OMap.insertList (fun old _ => old) k v l = l := by
  refine ascending_ext (OMap.insertList_asc _ _ _ _ ha) ha (fun x => ?_)
  rw [assoc_insertList _ _ _ _ ha]
  by_cases hx : x = k
  · subst hx; rw [if_pos rfl, h]
  · rw [if_neg hx]

/-- The configuration, given that it has an entry. -/
theorem output_shape {given : Option Str} {es : List (Str × Json N)} (h : es ≠ []) :
    ∃ top, output given es = .obj top ∧ assoc "repositories".toList top = some (.obj (toObj es)) ∧
      assoc "main".toList top = given.map .str := by
  cases es with
  | nil => exact absurd rfl h
  | cons e es =>
    cases given with
    | none => exact ⟨_, rfl, rfl, rfl⟩
    | some m => exact ⟨_, rfl, rfl, rfl⟩

theorem collect_complete {α β : Type} {f : α → Option β} {l : List α} (h : ∀ a ∈ l, ∃ b, f a = some b) :
    ∃ es, collect f l = some es := by
  induction l with
  | nil => exact ⟨_, rfl⟩
  | cons a l ih =>
    obtain ⟨b, hb⟩ := h a (List.mem_cons_self ..)
    obtain ⟨es, hes⟩ := ih (fun x hx => h x (List.mem_cons_of_mem _ hx))
    exact ⟨_, by simp only [collect, hb, hes]; rfl⟩

/-- Reading a configuration with the given repositories, one of which is the main one. -/
theorem justRead_shape {a : JustArgs} {top rs : List (Str × Json N)} {m : Str} {w : Json N}
    (hrs : assoc "repositories".toList top = some (.obj rs)) (ha : Ascending rs)
    (hm : readMain a top rs = some m) (hin : assoc m rs = some w) :
    justRead git a (.obj top) =
      (collect (fun e : Str × Json N => readRepo git a (rs.map Prod.fst) (decide (e.1 = m)) (fieldsOf e.2))
          rs).map fun es => (m, es.map fun e => (e.1.1, e.2)) := by
  simp only [justRead, hrs, hm, insertList_present ha hin]

theorem assoc_map_key {V W : Type} (k : Str) (es : List ((Str × V) × W)) (v : W)
    (hnd : (es.map fun e => e.1.1).Nodup) (h : ∃ x, ((k, x), v) ∈ es) :
    assoc k (es.map fun e => (e.1.1, e.2)) = some v := by
  induction es with
  | nil => obtain ⟨x, h⟩ := h; exact absurd h List.not_mem_nil
  | cons e es ih =>
    obtain ⟨⟨k', x'⟩, w⟩ := e
    obtain ⟨x, hx⟩ := h
    simp only [List.map_cons, List.nodup_cons] at hnd
    rcases List.mem_cons.mp hx with h | h
    · cases h
      simp only [List.map_cons, assoc, if_true]
    · have hne : k ≠ k' := by
        rintro rfl
        exact hnd.1 (List.mem_map.mpr ⟨((k, x), v), h, rfl⟩)
      simp only [List.map_cons, assoc, if_neg hne]
      exact ih hnd.2 ⟨x, h⟩

theorem ascending_nodup {V : Type} {l : List (Str × V)} (h : Ascending l) : (l.map Prod.fst).Nodup := by
  induction l with
  | nil => exact List.nodup_nil
  | cons e l ih =>
    obtain ⟨h1, h2⟩ := List.pairwise_cons.mp h
    refine List.nodup_cons.mpr ⟨?_, ih h2⟩
    intro hm
    obtain ⟨e', he', heq⟩ := List.mem_map.mp hm
    exact absurd (h1 e' he') (by rw [heq]; exact lt_irrefl _)

end

end Verif.MrConfig
