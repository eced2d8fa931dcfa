import Verif.Mirrors.Sort
import Verif.Path.Props

/-!
# C113: mirrors
-/

namespace Verif.Mirrors

open Verif

/-! ## The order -/

/-- The host name of a URL is in the list. -/
def Listed (host : Str → Option Str) (hs : List Str) (u : Str) : Prop := ∃ h ∈ hs, host u = some h

/-- The host name of `u` is in the list, and that of `v` is not, or only further behind. -/
def Preferred (host : Str → Option Str) (hs : List Str) (u v : Str) : Prop :=
  ∃ front h back, hs = front ++ h :: back ∧ h ∉ front ∧ host u = some h ∧ ∀ k ∈ h :: front, host v ≠ some k

/-- **C113.** Nothing is lost by sorting, and nothing becomes more. -/
theorem C113_same (host : Str → Option Str) (ms hs : List Str) : (sortByHostname host ms hs).Perm ms := by
  rw [List.perm_iff_count]
  intro u
  have h := sort_filter (host := host) (ms := ms) (hs := hs) (p := fun v => v == u) (h0 := key host hs u) key_mem
    (fun v hv => by rw [eq_of_beq hv])
  rw [List.count_eq_length_filter, List.count_eq_length_filter, h]

/-- **C113.** URLs with the same host name keep their order, and so do those with host names that are not in the list. -/
theorem C113_stable (host : Str → Option Str) (ms hs : List Str) :
    (∀ h ∈ hs, (sortByHostname host ms hs).filter (fun u => host u = some h) = ms.filter fun u => host u = some h) ∧
    ∀ p : Str → Bool, (∀ u, p u = true → ¬ Listed host hs u) → (sortByHostname host ms hs).filter p = ms.filter p := by
  refine ⟨fun h hh => sort_filter (h0 := h) (.inl hh) fun u hu => ?_, fun p hp => sort_filter (h0 := []) (.inr rfl) fun u hu => ?_⟩
  · have e : host u = some h := of_decide_eq_true hu
    rw [key, e]; exact if_pos hh
  · have hn := hp u hu
    rw [key]
    split
    · next hm =>
      cases e : host u with
      | none => rfl
      | some h => rw [e] at hm; exact absurd ⟨h, hm, e⟩ hn
    · rfl

/-- **C113, partial.** URLs with a host name in the list come first, in the order of the list. (What is missing: the empty text as a
host name in the list; see `C113_violation_empty`.) -/
theorem C113_order_partial (host : Str → Option Str) (ms hs : List Str) (hn : [] ∉ hs) :
    (sortByHostname host ms hs).Pairwise (fun u v => ¬ Preferred host hs v u) := by
  refine (sort_sorted host ms hs).imp ?_
  rintro u v hle ⟨front, h, back, rfl, hf, hv, hu⟩
  have kv : key host (front ++ h :: back) v = h := by rw [key, hv]; exact if_pos (by simp)
  rw [kv, List.idxOf_append_of_notMem hf, List.idxOf_cons_self] at hle
  have ku : key host (front ++ h :: back) u ∉ front ++ [h] := by
    intro hm
    rw [key] at hm
    cases e : host u with
    | none =>
      rw [e] at hm
      have : ([] : Str) ∈ front ++ [h] := by split at hm <;> exact hm
      exact hn (by simp only [List.mem_append, List.mem_cons, List.not_mem_nil, or_false] at this ⊢; exact this.imp id .inl)
    | some k =>
      rw [e] at hm
      split at hm
      · refine hu k ?_ e
        simp only [Option.getD_some, List.mem_append, List.mem_cons, List.not_mem_nil, or_false] at hm ⊢
        exact hm.symm
      · exact hn (by simp only [List.mem_append, List.mem_cons, List.not_mem_nil, or_false] at hm ⊢; exact hm.imp id .inl)
  have e : front ++ h :: back = (front ++ [h]) ++ back := by simp
  have h2 : (front ++ h :: back).idxOf (key host (front ++ h :: back) u) = (front ++ [h]).length +
      back.idxOf (key host (front ++ h :: back) u) := by
    have h3 := List.idxOf_append_of_notMem (l₂ := back) ku
    rwa [← e] at h3
  rw [h2, List.length_append, List.length_singleton] at hle
  omega

/-! ## What is given by the user -/

section
variable {N : Type}

theorem strings_all (l : List Str) : ∀ acc, strings (l.map (Json.str (N := N))) acc = acc ++ l := by
  induction l with
  | nil => intro acc; simp [strings]
  | cons a t ih => intro acc; rw [List.map_cons, strings, ih]; simp

theorem strings_not {l : List (Json N)} {v : Json N} (hv : v ∈ l) (hs : ∀ s, v ≠ .str s) : ∀ acc, strings l acc = [] := by
  induction l with
  | nil => exact nomatch hv
  | cons a t ih =>
    intro acc
    rcases List.mem_cons.mp hv with rfl | hv'
    · cases v with
      | str s => exact absurd rfl (hs s)
      | _ => rfl
    · cases a with
      | str s => rw [strings]; exact ih hv' _
      | _ => rfl

/-- `l` are the local mirrors given for a URL. -/
def LocalFor (M : Given N) (url : Str) (l : List Str) : Prop :=
  (∃ o, M.mirrors = .obj o ∧ assoc url o = some (.arr (l.map .str))) ∨ l = [] ∧ ∀ o, M.mirrors = .obj o → assoc url o = none

/-- `hs` are the preferred host names. -/
def PreferredHosts (M : Given N) (hs : List Str) : Prop := M.preferred = .arr (hs.map .str) ∨ M.preferred = .null ∧ hs = []

theorem localMirrors_given {M : Given N} {url : Str} {l : List Str} (h : LocalFor M url l) : localMirrors M.mirrors url = l := by
  rcases h with ⟨o, e, ha⟩ | ⟨rfl, h⟩
  · rw [e, localMirrors, ha]; exact strings_all l []
  · cases e : M.mirrors with
    | obj o => rw [localMirrors, h o e]
    | _ => rfl

theorem preferred_given {M : Given N} {hs : List Str} (h : PreferredHosts M hs) : preferredHostnames M.preferred = hs := by
  rcases h with e | ⟨e, rfl⟩
  · rw [e, preferredHostnames, values, strings_all]; rfl
  · rw [e]; rfl

/-- **C113.** The local mirrors come first, in the order given. What follows are the URL and the mirrors from the configuration: as
given without preferred host names, and sorted otherwise. -/
theorem C113_locations {host : Str → Option Str} {M : Given N} {url : Str} {ms l hs : List Str} (hl : LocalFor M url l)
    (hh : PreferredHosts M hs) :
    ∃ rest, locations host M url ms = l ++ rest ∧ rest.Perm (url :: ms) ∧ (hs = [] → rest = url :: ms) ∧
      (∀ h ∈ hs, rest.filter (fun u => host u = some h) = (url :: ms).filter fun u => host u = some h) ∧
      (∀ p : Str → Bool, (∀ u, p u = true → ¬ Listed host hs u) → rest.filter p = (url :: ms).filter p) ∧
      ([] ∉ hs → rest.Pairwise fun u v => ¬ Preferred host hs v u) := by
  rw [locations, localMirrors_given hl, preferred_given hh]
  refine ⟨_, rfl, ?_⟩
  by_cases e : hs = []
  · subst e
    rw [if_pos rfl]
    refine ⟨List.Perm.refl _, fun _ => rfl, fun h hh => (nomatch hh), fun _ _ => rfl, fun _ => ?_⟩
    refine List.pairwise_of_forall_mem_list fun u _ v _ => ?_
    rintro ⟨front, h, back, e, -⟩
    cases front <;> exact nomatch e
  · rw [if_neg e]
    exact ⟨C113_same _ _ _, fun e' => absurd e' e, (C113_stable host _ hs).1, (C113_stable host _ hs).2, C113_order_partial host _ hs⟩

/-- **C113.** If one of the local mirrors given for a URL is not a text, then no local mirrors are used for it; if one of the host
names is not a text, then no host name is preferred. -/
theorem C113_all_or_none {host : Str → Option Str} {M : Given N} {url : Str} {ms : List Str} :
    (∀ o a v, M.mirrors = .obj o → assoc url o = some (.arr a) → v ∈ a → (∀ s, v ≠ .str s) →
      (locations host M url ms).Perm (url :: ms)) ∧
    ∀ a v, M.preferred = .arr a → v ∈ a → (∀ s, v ≠ .str s) → ∃ l, locations host M url ms = l ++ url :: ms := by
  refine ⟨fun o a v e ha hv hs => ?_, fun a v e hv hs => ?_⟩
  · have e' : localMirrors M.mirrors url = [] := by
      rw [e, localMirrors, ha]; exact strings_not hv hs _
    rw [locations, e', List.nil_append]
    split
    · exact List.Perm.refl _
    · exact C113_same _ _ _
  · have e' : preferredHostnames M.preferred = [] := by
      rw [e, preferredHostnames, values]; exact strings_not hv hs _
    exact ⟨localMirrors M.mirrors url, by rw [locations, e', if_pos rfl]⟩

/-- **C113.** The variables taken over from the environment are those for the repository, and then those given in addition; what is
not a text among the latter is left out. -/
theorem C113_env (base l : List Str) (vs : List (Json N)) :
    inheritEnv (.arr (l.map (Json.str (N := N)))) base = base ++ l ∧ inheritEnv (.null : Json N) base = base ∧
    ∀ s, s ∈ inheritEnv (.arr vs) base ↔ s ∈ base ∨ Json.str s ∈ vs := by
  refine ⟨?_, rfl, fun s => ?_⟩
  · rw [inheritEnv, values]
    induction l generalizing base with
    | nil => simp
    | cons a t ih => rw [List.map_cons, List.foldl_cons, ih]; simp
  · rw [inheritEnv, values]
    induction vs generalizing base with
    | nil => simp
    | cons a t ih =>
      rw [List.foldl_cons, ih]
      cases a <;> simp [or_assoc]

/-! ## Asking one location after the other -/

theorem tryAll_spec (net : List Str → Str → Option Str) : ∀ (us asked : List Str),
    (∀ x, tryAll net asked us = (x, none) ↔ x = asked ++ us ∧ ∀ front u back, us = front ++ u :: back → net (asked ++ front) u = none) ∧
    ∀ x d, tryAll net asked us = (x, some d) ↔ ∃ front u back, us = front ++ u :: back ∧ x = asked ++ front ++ [u] ∧
      net (asked ++ front) u = some d ∧ ∀ f v b, front = f ++ v :: b → net (asked ++ f) v = none
  | [], asked => by
    refine ⟨fun x => ?_, fun x d => ?_⟩
    · rw [tryAll, List.append_nil]
      constructor
      · rintro h
        exact ⟨(Prod.mk.inj h).1.symm, fun f u b e => by cases f <;> exact nomatch e⟩
      · rintro ⟨rfl, -⟩; rfl
    · rw [tryAll]
      constructor
      · intro h; exact nomatch (Prod.mk.inj h).2
      · rintro ⟨f, u, b, e, -⟩; cases f <;> exact nomatch e
  | u :: us, asked => by
    obtain ⟨ih1, ih2⟩ := tryAll_spec net us (asked ++ [u])
    rw [tryAll]
    cases hu : net asked u with
    | some d0 =>
      dsimp only
      refine ⟨fun x => ?_, fun x d => ?_⟩
      · constructor
        · intro h; exact nomatch (Prod.mk.inj h).2
        · rintro ⟨-, h⟩
          have := h [] u us rfl
          rw [List.append_nil, hu] at this
          exact nomatch this
      · constructor
        · intro h
          obtain ⟨h1, h2⟩ := Prod.mk.inj h
          refine ⟨[], u, us, rfl, by rw [← h1]; simp, by rw [List.append_nil, hu, h2], fun f v b e => ?_⟩
          cases f <;> exact nomatch e
        · rintro ⟨front, v, back, e, hx, hv, hb⟩
          cases front with
          | nil =>
            obtain ⟨rfl, rfl⟩ := List.cons.inj e
            rw [List.append_nil, hu] at hv
            rw [hx, List.append_nil, hv]
          | cons a t =>
            obtain ⟨rfl, -⟩ := List.cons.inj e
            have := hb [] u t rfl
            rw [List.append_nil, hu] at this
            exact nomatch this
    | none =>
      dsimp only
      refine ⟨fun x => ?_, fun x d => ?_⟩
      · rw [ih1, List.append_assoc, List.singleton_append]
        refine and_congr_right fun _ => ⟨fun h f v b e => ?_, fun h f v b e => ?_⟩
        · cases f with
          | nil => obtain ⟨rfl, -⟩ := List.cons.inj e; rw [List.append_nil]; exact hu
          | cons a t =>
            obtain ⟨rfl, e2⟩ := List.cons.inj e
            have := h t v b e2
            simpa using this
        · have := h (u :: f) v b (by rw [e]; rfl)
          simpa using this
      · rw [ih2]
        constructor
        · rintro ⟨f, v, b, rfl, rfl, hv, hb⟩
          refine ⟨u :: f, v, b, rfl, by simp, by simpa using hv, fun f' w b' e => ?_⟩
          cases f' with
          | nil => obtain ⟨rfl, -⟩ := List.cons.inj e; rw [List.append_nil]; exact hu
          | cons a t =>
            obtain ⟨rfl, e2⟩ := List.cons.inj e
            have := hb t w b' e2
            simpa using this
        · rintro ⟨front, v, back, e, hx, hv, hb⟩
          cases front with
          | nil =>
            obtain ⟨rfl, rfl⟩ := List.cons.inj e
            rw [List.append_nil, hu] at hv
            exact nomatch hv
          | cons a t =>
            obtain ⟨rfl, rfl⟩ := List.cons.inj e
            refine ⟨t, v, back, rfl, by rw [hx]; simp, by simpa using hv, fun f w b e => ?_⟩
            have := hb (u :: f) w b (by rw [e]; rfl)
            simpa using this

/-- What was fetched is what was asked for. -/
structure Checked (H : Hashes) (a : Archive) (d : Str) : Prop where
  blob : H.blob d = a.hash
  sha256 : ∀ x, a.sha256 = some x → H.sha256 d = x
  sha512 : ∀ x, a.sha512 = some x → H.sha512 d = x

/-- Fetching from the locations `us`, one after the other: those asked, and the first answer. -/
def Asks (net : List Str → Str → Option Str) (us asked : List Str) : Option Str → Prop
  | none => asked = us ∧ ∀ front u back, us = front ++ u :: back → net front u = none
  | some d => ∃ front u back, us = front ++ u :: back ∧ asked = front ++ [u] ∧ net front u = some d ∧
      ∀ f v b, front = f ++ v :: b → net f v = none

theorem asks (net : List Str → Str → Option Str) (us : List Str) : Asks net us (tryAll net [] us).1 (tryAll net [] us).2 := by
  generalize h : tryAll net [] us = r
  obtain ⟨x, o⟩ := r
  obtain ⟨h1, h2⟩ := tryAll_spec net us []
  cases o with
  | none => exact (h1 x).mp h
  | some d => exact (h2 x d).mp h

/-- **C113.** Locations are asked in their order until one answers. What is answered is taken if it has the right hashes. -/
theorem C113_archive (H : Hashes) (host : Str → Option Str) (M : Given N) (net : List Str → Str → Option Str) (a : Archive)
    (hu : a.url ≠ []) :
    ∃ o, Asks net (locations host M a.url a.mirrors) (fetchArchive H host M net a).1 o ∧
      ∀ d, (fetchArchive H host M net a).2 = some d ↔ o = some d ∧ Checked H a d := by
  have ha := asks net (locations host M a.url a.mirrors)
  rw [fetchArchive, if_neg hu]
  dsimp only
  generalize tryAll net [] (locations host M a.url a.mirrors) = r at ha
  obtain ⟨x, o⟩ := r
  dsimp only at ha ⊢
  refine ⟨o, ?_, fun d => ?_⟩
  · cases o with
    | none => exact ha
    | some d =>
      dsimp only
      split
      · exact ha
      · split
        · exact ha
        · split <;> exact ha
  · cases o with
    | none => simp
    | some d' =>
      dsimp only
      have key : ∀ (f : Str → Str) (c : Option Str), ¬ c.any (fun x => decide (f d' ≠ x)) = true ↔ ∀ x, c = some x → f d' = x := by
        intro f c
        cases c with
        | none => simp
        | some y => simp
      split
      · next h =>
        refine ⟨fun h => (nomatch h), fun ⟨e, hc⟩ => ?_⟩
        cases e
        exact absurd h ((key _ _).mpr hc.sha256)
      · next h1 =>
        split
        · next h =>
          refine ⟨fun h => (nomatch h), fun ⟨e, hc⟩ => ?_⟩
          cases e
          exact absurd h ((key _ _).mpr hc.sha512)
        · next h2 =>
          split
          · next h3 =>
            refine ⟨fun e => ?_, fun ⟨e, _⟩ => e⟩
            cases e
            exact ⟨rfl, h3, (key _ _).mp h1, (key _ _).mp h2⟩
          · next h3 =>
            refine ⟨fun h => (nomatch h), fun ⟨e, hc⟩ => ?_⟩
            cases e
            exact absurd hc.blob h3

/-- **C113, partial.** If everything that is answered is right, then an archive is fetched if any of the local mirrors, the URL, or the
mirrors from the configuration answers, wherever in the order. (What is missing: locations that answer with something else; see
`C113_violation_wrong`.) -/
theorem C113_fetched_partial (H : Hashes) (host : Str → Option Str) (M : Given N) (web : Str → Option Str) (a : Archive)
    (hu : a.url ≠ []) {l hs : List Str} (hl : LocalFor M a.url l) (hh : PreferredHosts M hs)
    (hw : ∀ u ∈ l ++ a.url :: a.mirrors, ∀ d, web u = some d → Checked H a d) :
    (∃ d, (fetchArchive H host M (fun _ => web) a).2 = some d) ↔ ∃ u ∈ l ++ a.url :: a.mirrors, web u ≠ none := by
  obtain ⟨o, ho, hf⟩ := C113_archive H host M (fun _ => web) a hu
  obtain ⟨rest, e, hp, -⟩ := C113_locations (host := host) (ms := a.mirrors) hl hh
  have hmem : ∀ u, u ∈ locations host M a.url a.mirrors ↔ u ∈ l ++ a.url :: a.mirrors := by
    intro u; rw [e, List.mem_append, List.mem_append, hp.mem_iff]
  constructor
  · rintro ⟨d, hd⟩
    obtain ⟨rfl, -⟩ := (hf d).mp hd
    obtain ⟨f, u, b, e', -, hn, -⟩ := ho
    exact ⟨u, (hmem u).mp (by rw [e']; simp), fun h0 => nomatch h0.symm.trans hn⟩
  · rintro ⟨u, hu', hne⟩
    cases o with
    | none =>
      obtain ⟨f, b, e'⟩ := List.append_of_mem ((hmem u).mpr hu')
      exact absurd (ho.2 f u b e') hne
    | some d =>
      obtain ⟨f, v, b, e', -, hn, -⟩ := ho
      exact ⟨d, (hf d).mpr ⟨rfl, hw v ((hmem v).mp (by rw [e']; simp)) d hn⟩⟩

/-! ## Commits -/

/-- Fetching from the sources `us`, one after the other: those asked, and what the first one that can be fetched from has. -/
def Fetches (net : Fetch) (branch : Str) (env us asked : List Str) : Option (List Str) → Prop
  | none => asked = us ∧ ∀ front u back, us = front ++ u :: back → net front u branch env = none
  | some cs => ∃ front u back, us = front ++ u :: back ∧ asked = front ++ [u] ∧ net front u branch env = some cs ∧
      ∀ f v b, front = f ++ v :: b → net f v branch env = none

theorem fetches (net : Fetch) (branch : Str) (env : List Str) (us : List Str) :
    Fetches net branch env us (tryFetch net branch env [] us).1 (tryFetch net branch env [] us).2 := by
  have gen : ∀ us asked, (tryFetch net branch env asked us).2 = none ∧ (tryFetch net branch env asked us).1 = asked ++ us ∧
        (∀ front u back, us = front ++ u :: back → net (asked ++ front) u branch env = none) ∨
      ∃ cs front u back, (tryFetch net branch env asked us).2 = some cs ∧ us = front ++ u :: back ∧
        (tryFetch net branch env asked us).1 = asked ++ front ++ [u] ∧ net (asked ++ front) u branch env = some cs ∧
        ∀ f v b, front = f ++ v :: b → net (asked ++ f) v branch env = none := by
    intro us
    induction us with
    | nil => intro asked; exact .inl ⟨rfl, by rw [tryFetch]; simp, fun f u b e => by cases f <;> exact nomatch e⟩
    | cons u us ih =>
      intro asked
      rw [tryFetch]
      cases hu : net asked u branch env with
      | some cs =>
        exact .inr ⟨cs, [], u, us, rfl, rfl, by simp, by rw [List.append_nil]; exact hu, fun f v b e => by cases f <;> exact nomatch e⟩
      | none =>
        dsimp only
        rcases ih (asked ++ [u]) with ⟨h1, h2, h3⟩ | ⟨cs, f, v, b, h1, rfl, h2, h3, h4⟩
        · refine .inl ⟨h1, by rw [h2]; simp, fun f v b e => ?_⟩
          cases f with
          | nil => obtain ⟨rfl, -⟩ := List.cons.inj e; rw [List.append_nil]; exact hu
          | cons a t => obtain ⟨rfl, e2⟩ := List.cons.inj e; simpa using h3 t v b e2
        · refine .inr ⟨cs, u :: f, v, b, h1, rfl, by rw [h2]; simp, by simpa using h3, fun f' w b' e => ?_⟩
          cases f' with
          | nil => obtain ⟨rfl, -⟩ := List.cons.inj e; rw [List.append_nil]; exact hu
          | cons a t => obtain ⟨rfl, e2⟩ := List.cons.inj e; simpa using h4 t w b' e2
  rcases gen us [] with ⟨h1, h2, h3⟩ | ⟨cs, f, v, b, h1, h2, h3, h4, h5⟩
  · rw [h1]; exact ⟨h2, h3⟩
  · rw [h1]; exact ⟨f, v, b, h2, h3, h4, h5⟩

/-- A URL that stands for a path. -/
def IsPath (url : Str) : Prop := ['/'] <+: url ∨ ['.', '/'] <+: url ∨ "file://".toList <+: url

theorem source_url {cwd url : Str} (h : ¬ IsPath url) : source cwd url = url := by
  have h1 : ¬ ['/'].isPrefixOf url = true := fun x => h (.inl (List.isPrefixOf_iff_prefix.mp x))
  have h2 : ¬ ['.', '/'].isPrefixOf url = true := fun x => h (.inr (.inl (List.isPrefixOf_iff_prefix.mp x)))
  have h3 : ¬ "file://".toList.isPrefixOf url = true := fun x => h (.inr (.inr (List.isPrefixOf_iff_prefix.mp x)))
  have e : urlIsPath url = none := by
    rw [urlIsPath, if_neg (fun x => x.elim h1 h2), if_neg h3]
  rw [source, e]

/-- **C113.** Locations that are not paths are taken as they are. An absolute path leads to the same place, whether it is given with or
without `file://`. A path that begins with `./` is taken relative to the working directory. -/
theorem C113_source (cwd : Str) :
    (∀ url, ¬ IsPath url → source cwd url = url) ∧
    (∀ p, ['/'] <+: p → ['/'] <+: source cwd p ∧ Path.place (source cwd p) = Path.place p ∧
      source cwd ("file://".toList ++ p) = source cwd p) ∧
    ∀ p, ['.', '/'] <+: p → ∃ q, Path.place q = Path.place p ∧ ¬ ['/'] <+: q ∧
      (cwd.getLast? ≠ some '/' → source cwd p = cwd ++ '/' :: q) ∧ ∀ r, cwd = r ++ ['/'] → source cwd p = r ++ '/' :: q := by
  have abs_iff : ∀ p : Str, ['/'] <+: p ↔ p.head? = some '/' := by
    intro p
    cases p with
    | nil => simp
    | cons a t => simp [List.cons_prefix_cons, eq_comm]
  have keep : ∀ p : Str, ['/'] <+: Path.toNormalPath p ↔ ['/'] <+: p := by
    intro p
    have h := Path.C39_location p
    have ab : ∀ s : Str, (Path.place s).abs = decide (s.head? = some '/') := by
      intro s
      have fol : ∀ (l : List Str) (q : Path.Place), (l.foldl Path.Place.follow q).abs = q.abs := by
        intro l
        induction l with
        | nil => intro q; rfl
        | cons a t ih =>
          intro q
          rw [List.foldl_cons, ih]
          unfold Path.Place.follow
          split
          · rfl
          · split
            · split
              · split <;> rfl
              · rfl
            · rfl
      rw [Path.place, Path.Place.walk, fol]
      by_cases e : s.head? = some '/' <;> simp [e]
    have h2 := congrArg Path.Place.abs h
    rw [ab, ab, decide_eq_decide] at h2
    rw [abs_iff, abs_iff, h2]
  refine ⟨fun url h => source_url h, fun p hp => ?_, fun p hp => ?_⟩
  · have e : ∀ q, ['/'] <+: q → source cwd q = Path.toNormalPath q := by
      intro q hq
      have e1 : urlIsPath q = some (Path.toNormalPath q) := if_pos (.inl (List.isPrefixOf_iff_prefix.mpr hq))
      have e2 : absolute cwd (Path.toNormalPath q) = Path.toNormalPath q :=
        if_pos (List.isPrefixOf_iff_prefix.mpr ((keep q).mpr hq))
      rw [source, e1]; exact e2
    rw [e p hp]
    refine ⟨(keep p).mpr hp, Path.C39_location p, ?_⟩
    have e1 : urlIsPath ("file://".toList ++ p) = some (Path.toNormalPath p) := by
      rw [urlIsPath, if_neg (by simp [List.isPrefixOf]), if_pos (List.isPrefixOf_iff_prefix.mpr (List.prefix_append _ _))]
      rfl
    have e2 : absolute cwd (Path.toNormalPath p) = Path.toNormalPath p :=
      if_pos (List.isPrefixOf_iff_prefix.mpr ((keep p).mpr hp))
    rw [source, e1]; exact e2
  · have hn : ¬ ['/'] <+: p := by
      obtain ⟨t, rfl⟩ := hp
      simp [List.cons_prefix_cons]
    have hq : ¬ ['/'] <+: Path.toNormalPath p := fun h => hn ((keep p).mp h)
    have e1 : urlIsPath p = some (Path.toNormalPath p) := if_pos (.inr (List.isPrefixOf_iff_prefix.mpr hp))
    have hq' : ¬ "/".toList.isPrefixOf (Path.toNormalPath p) = true := fun h => hq (List.isPrefixOf_iff_prefix.mp h)
    refine ⟨Path.toNormalPath p, Path.C39_location p, hq, fun hc => ?_, fun r hr => ?_⟩
    · rw [source, e1]
      show absolute cwd (Path.toNormalPath p) = _
      rw [absolute, if_neg hq', if_neg hc]
    · rw [source, e1]
      show absolute cwd (Path.toNormalPath p) = _
      rw [absolute, if_neg hq', if_pos (by rw [hr]; simp), hr, List.append_assoc]
      rfl

/-- **C113.** For a commit, locations are asked in their order until one can be fetched from, with the variables from the environment
given for the repository and in addition. The commit is there afterwards if that one has it. Locations that are paths are asked for by
an absolute path; everything else as it is. -/
theorem C113_commit (host : Str → Option Str) (cwd : Str) (M : Given N) (net : Fetch) (c : Commit) (hu : ¬ IsPath c.url) :
    ∃ o us, Fetches net c.branch (inheritEnv M.env c.env) us (fetchCommit host cwd M net c).1 o ∧
      ((fetchCommit host cwd M net c).2 = true ↔ ∃ cs, o = some cs ∧ c.hash ∈ cs) ∧
      List.Forall₂ (fun u s => s = source cwd u ∧ (¬ IsPath u → s = u)) (locations host M c.url c.mirrors) us := by
  have ha := fetches net c.branch (inheritEnv M.env c.env) ((locations host M c.url c.mirrors).map (source cwd))
  rw [fetchCommit, source_url hu]
  generalize tryFetch net c.branch (inheritEnv M.env c.env) [] ((locations host M c.url c.mirrors).map (source cwd)) = r at ha
  obtain ⟨x, o⟩ := r
  dsimp only at ha ⊢
  refine ⟨o, (locations host M c.url c.mirrors).map (source cwd), ?_, ?_, ?_⟩
  · cases o <;> exact ha
  · cases o <;> simp
  · rw [List.forall₂_map_right_iff]
    exact List.forall₂_same.mpr fun u _ => ⟨rfl, source_url⟩

/-- **C113, partial.** If the commit is in everything that can be fetched, then it is fetched if any of the local mirrors, the URL, or
the mirrors from the configuration can be fetched from. (What is missing: mirrors that do not have the commit, see
`C113_violation_stale`, and URLs that are paths, see `C113_violation_path`.) -/
theorem C113_commit_fetched_partial (host : Str → Option Str) (cwd : Str) (M : Given N) (web : Str → Str → List Str → Option (List Str))
    (c : Commit) (hu : ¬ IsPath c.url) {l hs : List Str} (hl : LocalFor M c.url l) (hh : PreferredHosts M hs)
    (hw : ∀ u ∈ l ++ c.url :: c.mirrors, ∀ cs, web (source cwd u) c.branch (inheritEnv M.env c.env) = some cs → c.hash ∈ cs) :
    (fetchCommit host cwd M (fun _ => web) c).2 = true ↔
      ∃ u ∈ l ++ c.url :: c.mirrors, web (source cwd u) c.branch (inheritEnv M.env c.env) ≠ none := by
  obtain ⟨o, us, ho, hf, h2⟩ := C113_commit host cwd M (fun _ => web) c hu
  obtain ⟨rest, e, hp, -⟩ := C113_locations (host := host) (ms := c.mirrors) hl hh
  have hus : us = (locations host M c.url c.mirrors).map (source cwd) := by
    clear ho e hf
    generalize locations host M c.url c.mirrors = ls at h2
    induction h2 with
    | nil => rfl
    | cons h _ ih => rw [List.map_cons, ← h.1, ← ih]
  have hmem : ∀ s, s ∈ us ↔ ∃ u ∈ l ++ c.url :: c.mirrors, source cwd u = s := by
    intro s
    rw [hus, List.mem_map]
    refine exists_congr fun u => and_congr_left fun _ => ?_
    rw [e, List.mem_append, List.mem_append, hp.mem_iff]
  rw [hf]
  constructor
  · rintro ⟨cs, rfl, -⟩
    obtain ⟨f, s, b, e', -, hn, -⟩ := ho
    obtain ⟨u, hu', rfl⟩ := (hmem s).mp (by rw [e']; simp)
    exact ⟨u, hu', fun h0 => nomatch h0.symm.trans hn⟩
  · rintro ⟨u, hu', hne⟩
    cases o with
    | none =>
      obtain ⟨f, b, e'⟩ := List.append_of_mem ((hmem _).mpr ⟨u, hu', rfl⟩)
      exact absurd (ho.2 f _ b e') hne
    | some cs =>
      obtain ⟨f, s, b, e', -, hn, -⟩ := ho
      obtain ⟨v, hv, rfl⟩ := (hmem s).mp (by rw [e']; simp)
      exact ⟨cs, rfl, hw v hv cs hn⟩

end

end Verif.Mirrors
