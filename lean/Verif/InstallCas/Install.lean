import Verif.InstallCas.Props

/-!
# Where `install-cas` installs objects (C110)
-/

namespace Verif.InstallCas

open Verif.Dig (HashType ObjectType ObjectInfo)
open Verif.Expr (hexString)
open Verif.Install
open Verif.Path
open Verif.Roots (Out)
open Verif.Tree (Info Obs Env Store Ent Listing NoCollision look retrieve parseTree group flat)

/-! ## Output paths -/

/-- A string without trailing slashes. -/
def strip (s : Str) : Str := (s.reverse.dropWhile fun c => c == '/').reverse

theorem outPath_strip {o : Str} (h : names o ≠ []) : outPath o = strip o := by
  have h0 : o ≠ [] := by
    rintro rfl
    exact h rfl
  have key : ∀ t : Str, names t ≠ [] → t.getLast? = some '/' → parentPath t = strip t := by
    intro t ht hl
    unfold parentPath strip
    rw [if_neg (by simpa using ht), if_pos (by simp [hl])]
  by_cases hl : o.getLast? = some '/'
  · have e : append o [] = o := by
      unfold append
      simp [isAbs, hl]
    unfold outPath
    rw [e, key o h hl]
  · have e : append o [] = o ++ ['/'] := by
      unfold append
      simp [isAbs, hl, h0]
    unfold outPath
    rw [e, key _ (by rwa [names_append_slash]) (by simp)]
    unfold strip
    rw [List.reverse_append]
    rfl

theorem strip_names (o : Str) : names (strip o) = names o := by
  have := names_strip o.reverse
  rwa [List.reverse_reverse] at this

theorem strip_abs {o : Str} (h : names o ≠ []) : isAbs (strip o) = isAbs o := by
  have hp : strip o <+: o := by
    have := List.reverse_prefix.2 (List.dropWhile_suffix (l := o.reverse) (fun c => c == '/'))
    rwa [List.reverse_reverse] at this
  refine isAbs_prefix hp ?_
  intro e
  apply h
  rw [← strip_names, e]
  rfl

theorem resolve_outPath (cwd : List Str) {o : Str} (h : names o ≠ []) : resolve cwd (outPath o) = resolve cwd o := by
  rw [outPath_strip h]
  exact resolve_eq (strip_names o) (strip_abs h)

theorem strip_last (s : Str) : (strip s).getLast? ≠ some '/' := by
  unfold strip
  rw [List.getLast?_reverse]
  intro h
  have := List.head?_dropWhile_not (fun c => c == '/') s.reverse
  rw [h] at this
  simp at this

/-- An output path is that of an entry of a directory. -/
theorem outPath_entry {o : Str} (h : Named o) : ∃ d n, ProperName n ∧ outPath o = append d n := by
  obtain ⟨n, hn, hp⟩ := h
  have h0 : names o ≠ [] := by
    intro e
    rw [e] at hn
    cases hn
  obtain ⟨f, d, hs, hf⟩ : ∃ f d : Str, (strip o).reverse = f ++ d ∧ (∀ c ∈ f, c ≠ '/') ∧ (d = [] ∨ ∃ r, d = '/' :: r) := by
    refine ⟨(strip o).reverse.takeWhile (fun c => c != '/'), (strip o).reverse.dropWhile (fun c => c != '/'),
      (List.takeWhile_append_dropWhile).symm, fun c hc e => ?_, ?_⟩
    · subst e
      exact notMem_takeWhile _ _ hc
    · have := List.head?_dropWhile_not (fun c => c != '/') (strip o).reverse
      cases hd : (strip o).reverse.dropWhile (fun c => c != '/') with
      | nil => exact .inl rfl
      | cons c r =>
        rw [hd] at this
        exact .inr ⟨r, by simpa using this⟩
  have hs' : strip o = d.reverse ++ f.reverse := by
    rw [← List.reverse_append, ← hs, List.reverse_reverse]
  have hfs : '/' ∉ f.reverse := fun hm => hf.1 _ (List.mem_reverse.1 hm) rfl
  have hap : append d.reverse f.reverse = strip o := by
    unfold append
    rw [if_neg (by simp [isAbs_of_noSlash hfs]), if_pos, hs']
    rcases hf.2 with rfl | ⟨r, rfl⟩
    · simp
    · simp
  have hne : f.reverse ≠ [] := by
    intro e
    have hl := strip_last o
    rw [hs', e, List.append_nil] at hl
    rcases hf.2 with rfl | ⟨r, rfl⟩
    · rw [e] at hs'
      apply h0
      rw [← strip_names, hs']
      rfl
    · simp at hl
  have hnm : names o = names d.reverse ++ [f.reverse] := by
    rw [← strip_names, ← hap, names_append (isAbs_of_noSlash hfs), names_noSlash hfs]
    simp [hne]
  rw [hnm, List.getLast?_concat] at hn
  cases hn
  exact ⟨d.reverse, _, hp, by rw [hap, outPath_strip h0]⟩

theorem Named.ne {o : Str} (h : Named o) : names o ≠ [] := by
  obtain ⟨n, hn, _⟩ := h
  intro e
  rw [e] at hn
  cases hn

/-- The place at which an object is installed. -/
theorem location_output {o : Str} (h : Named o) (cwd : List Str) {i : Info} (hi : i.id ≠ []) (fs : FS) :
    Output cwd (location cwd i o fs) (target cwd o i fs) := by
  unfold location target
  rw [resolve_outPath cwd h.ne]
  split
  · rw [← resolve_outPath cwd h.ne]
    exact Output.entry rfl (hexString_proper hi)
  · obtain ⟨d, n, hn, e⟩ := outPath_entry h
    rw [← resolve_outPath cwd h.ne, e, resolve_append cwd d hn]
    exact Output.entry rfl hn

/-! ## The object -/

section

variable {E : Env} {S : Store} (hS : NoCollision E S) {C : Cas} (hC : C.In S) {git : Option Cas} (hG : ∀ G ∈ git, G.In S)

/-- The object selected: the one given or, with a path, the one at the longest part of the path that exists. -/
def Selected (E : Env) (S : Store) (a : Args) (i j : Info) : Prop :=
  match a.sub with
  | none => j = i
  | some p => Longest E S i (elems p) j

include hS hC in
theorem select_spec {a : Args} {i j : Info} (hc : Clean E S i) (h : select E C a i = some j) : Selected E S a i j := by
  unfold Selected
  cases ha : a.sub with
  | none =>
    unfold select at h
    rw [ha] at h
    exact (Option.some.inj h).symm
  | some p => exact C110_sub_partial hS hC hc ha h

theorem At.ids {i j : Info} {p : List Str} (h : At E S i p j) (hc : Clean E S i) (hi : i.id.length = 20) :
    j.id.length = 20 := by
  induction h with
  | here i => exact hi
  | down hr hp he _ ih =>
    obtain ⟨h1, _, h3⟩ := Clean.inv hc hr hp
    exact ih (h3 _ he) (h1.ok _ he).id

theorem Selected.ok {a : Args} {i j : Info} (h : Selected E S a i j) (hc : Clean E S i) (hi : i.id.length = 20) :
    Clean E S j ∧ j.id.length = 20 := by
  unfold Selected at h
  split at h
  · subst h
    exact ⟨hc, hi⟩
  · obtain ⟨q, _, hq, _⟩ := h
    exact ⟨(hq.clean hc).1, hq.ids hc hi⟩

theorem objectOf_given {x : Str} (hb : ∀ c ∈ x, c.toNat < 256) (size : Nat) (ty : ObjectType) :
    objectOf (given .gitSHA1 (hexString x) size ty) = ⟨ty, x⟩ := by
  unfold objectOf given
  dsimp only
  rw [unhex_hexString hb]
  rfl

theorem remember_fs (O : Outside) (a : Args) (i : Info) (w : World) :
    (remember O a i w).fs = w.fs ∧ (remember O a i w).archives = w.archives ∧ (remember O a i w).shown = w.shown := by
  unfold remember
  split
  · split <;> exact ⟨rfl, rfl, rfl⟩
  · exact ⟨rfl, rfl, rfl⟩

/-- A user's object identifier refers to an object. -/
structure Refers (s : Str) (i : Info) : Prop where
  parsed : ∃ size, liberal .gitSHA1 s = .ok (given .gitSHA1 (hexString i.id) size i.type)
  bytes : ∀ c ∈ i.id, c.toNat < 256
  length : i.id.length = 20

theorem Refers.object {s : Str} {i : Info} (h : Refers s i) :
    ∃ ob, liberal .gitSHA1 s = .ok ob ∧ objectOf ob = i := by
  obtain ⟨size, e⟩ := h.parsed
  exact ⟨_, e, objectOf_given h.bytes size i.type⟩

include hS hC hG in
/-- What happens when an object is installed. -/
theorem run_spec {O : Outside} {n : Nat} {cwd : List Str} {a : Args} {i : Info} (hr : Refers a.object i)
    (hc : Clean E S i) (har : a.archive = false) {o : Str} (ho : a.output = some o) (hn : Named o) {w w' : World} {b : Bool}
    (h : run E C git O n cwd a w = .ok (b, w')) : w'.archives = w.archives ∧ w'.shown = w.shown ∧
      ((b = false ∧ w'.fs = w.fs) ∨ ∃ j fs1 b1, Selected E S a i j ∧ Clean E S j ∧
        mkdirs [] (target cwd o j w.fs).dropLast w.fs = (b1, fs1) ∧ target cwd o j w.fs ≠ [] ∧ (b = true → b1 = true) ∧
        Soft (Files E S (target cwd o j w.fs) j) fs1 w'.fs ∧
        (b = true → Exact (Files E S (target cwd o j w.fs) j) fs1 w'.fs)) := by
  obtain ⟨ob, h1, h2⟩ := hr.object
  obtain ⟨r1, r2, r3⟩ := remember_fs O a i w
  unfold run at h
  rw [h1] at h
  dsimp only at h
  rw [h2] at h
  cases hs : select E C a i with
  | none =>
    rw [hs] at h
    cases h
    exact ⟨r2, r3, .inl ⟨rfl, r1⟩⟩
  | some j =>
    have hsel := select_spec hS hC hc hs
    obtain ⟨hcj, hlj⟩ := hsel.ok hc hr.length
    have hout := location_output hn cwd (i := j) (by intro e; rw [e] at hlj; cases hlj) w.fs
    rw [hs, ho, r1] at h
    dsimp only [place] at h
    rw [hout.parent.2] at h
    cases hm : mkdirs [] (target cwd o j w.fs).dropLast w.fs with
    | mk b1 fs1 =>
      rw [hm] at h
      cases b1 with
      | false =>
        cases h
        refine ⟨r2, r3, .inr ⟨j, fs1, false, hsel, hcj, hm, hout.parent.1, (nomatch ·), Soft.refl _ _, (nomatch ·)⟩⟩
      | true =>
        dsimp only at h
        rw [har] at h
        simp only [Bool.false_eq_true, if_false] at h
        generalize hq : retrieveToPaths E C git n cwd [(location cwd j o w.fs, j)] fs1 = q at h
        cases q with
        | error => cases h
        | ub => cases h
        | ok r =>
          obtain ⟨b2, fs2⟩ := r
          cases h
          obtain ⟨k1, k2⟩ := retrieve_spec hS hC hG _ _ _ _ (fun x hx => by
            rw [List.mem_singleton.1 hx, hout.path]
            exact hout) (fun x hx => by rw [List.mem_singleton.1 hx]; exact hcj) hq
          have hw : ∀ p k, (∃ x ∈ [(location cwd j o w.fs, j)], Files E S (resolve cwd x.1) x.2 p k) ↔
              Files E S (target cwd o j w.fs) j p k := by
            intro p k
            rw [← hout.path]
            simp
          exact ⟨r2, r3, .inr ⟨j, fs1, true, hsel, hcj, hm, hout.parent.1, fun _ => rfl, k1.mono fun p k => (hw p k).1,
            fun hb => (k2 hb).congr hw⟩⟩

/-! ## C110 -/

include hS hC hG in
/-- **C110.** After an object has been installed, each of its files is at its place below the output path or, if that was a
directory, below the entry in it named by the hash; there are directories above; everything else is as it was before.
What is missing: the object is that asked for only if the path given exists (V110), and directories without files are not
created (V114). -/
theorem C110_installed_partial {O : Outside} {n : Nat} {cwd : List Str} {a : Args} {i : Info} (hr : Refers a.object i)
    (hc : Clean E S i) (har : a.archive = false) {o : Str} (ho : a.output = some o) (hn : Named o) {w w' : World}
    (h : run E C git O n cwd a w = .ok (true, w')) : w'.archives = w.archives ∧ w'.shown = w.shown ∧ ∃ j,
      Selected E S a i j ∧
      (∀ q ty id, look E S j q = some (.leaf ty id) → w'.fs.at (target cwd o j w.fs ++ q) = some (.leaf ty id)) ∧
      (∀ q r ty id, r ≠ [] → look E S j (q ++ r) = some (.leaf ty id) →
        w'.fs.at (target cwd o j w.fs ++ q) = some .dir) ∧
      (∀ p, p <+: target cwd o j w.fs → p ≠ target cwd o j w.fs → w'.fs.at p = some .dir) ∧
      ∀ p, ¬ (p <+: target cwd o j w.fs ∧ p ≠ target cwd o j w.fs) →
        (∀ q r ty id, p ++ q = target cwd o j w.fs ++ r → look E S j r ≠ some (.leaf ty id)) → w'.fs.at p = w.fs.at p := by
  obtain ⟨h1, h2, h3⟩ := run_spec hS hC hG hr hc har ho hn h
  refine ⟨h1, h2, ?_⟩
  rcases h3 with ⟨h3, _⟩ | ⟨j, fs1, b1, hsel, hcj, hm, hT, hb, _, hx⟩
  · cases h3
  have hx := hx rfl
  cases hb rfl
  have hpre : ∀ p, p <+: target cwd o j w.fs → p ≠ target cwd o j w.fs → p <+: (target cwd o j w.fs).dropLast := by
    rintro p ⟨q, hq⟩ hne
    rw [← hq]
    rcases Symlinks.eq_nil_or_snoc q with rfl | ⟨q', x, rfl⟩
    · exact absurd (by rw [← hq, List.append_nil]) hne
    · rw [← List.append_assoc, List.dropLast_concat]
      exact List.prefix_append _ _
  refine ⟨j, hsel, fun q ty id hq => ?_, fun q r ty id hr hq => ?_, fun p hp hne => ?_, fun p hp hne => ?_⟩
  · obtain ⟨i', ⟨q', e, h4⟩, h5⟩ := hx.leaf (target cwd o j w.fs ++ q) ⟨ty, id⟩ ⟨q, rfl, hq⟩
    have e := List.append_cancel_left e
    subst e
    rw [hq] at h4
    cases h4
    exact h5
  · exact hx.above _ r ⟨ty, id⟩ hr ⟨q ++ r, by rw [List.append_assoc], hq⟩
  · have h1 : fs1.at p = some .dir := by
      by_cases h0 : p = []
      · rw [h0]
        rfl
      · have := (mkdirs_true (target cwd o j w.fs).dropLast [] w.fs (by rw [hm]) p (hpre p hp hne) h0).1
        rwa [hm] at this
    by_cases hw : ∃ q k, Files E S (target cwd o j w.fs) j (p ++ q) k
    · obtain ⟨q, k, hk⟩ := hw
      by_cases hq : q = []
      · subst hq
        rw [List.append_nil] at hk
        exact absurd h1 (hx.notDir p k hk)
      · exact hx.above p q k hq hk
    · rw [hx.same p fun q k hk => hw ⟨q, k, hk⟩, h1]
  · rw [hx.same p fun q k ⟨r, e, hk⟩ => hne q r _ _ e hk]
    have := mkdirs_soft (target cwd o j w.fs).dropLast [] w.fs p
    rw [hm] at this
    rcases this with e | ⟨k, hk0, hk, e, _⟩
    · exact e
    · rw [List.nil_append] at e
      subst e
      exfalso
      refine hp ⟨hk.trans (List.dropLast_prefix _), fun e => ?_⟩
      have h6 := hk.length_le
      rw [e, List.length_dropLast] at h6
      have := List.length_pos_of_ne_nil hT
      omega

include hS hC hG in
/-- **C110.** Whether or not installing succeeds, nothing is changed but at or below the place the object is to be installed
at; above, only missing directories are created. -/
theorem C110_confined {O : Outside} {n : Nat} {cwd : List Str} {a : Args} {i : Info} (hr : Refers a.object i)
    (hc : Clean E S i) (har : a.archive = false) {o : Str} (ho : a.output = some o) (hn : Named o) {w w' : World} {b : Bool}
    (h : run E C git O n cwd a w = .ok (b, w')) : (b = false ∧ w'.fs = w.fs) ∨ ∃ j, Selected E S a i j ∧ ∀ p,
      w'.fs.at p = w.fs.at p ∨ target cwd o j w.fs <+: p ∨
        p <+: target cwd o j w.fs ∧ w.fs.at p = none ∧ w'.fs.at p = some .dir := by
  obtain ⟨_, _, h3⟩ := run_spec hS hC hG hr hc har ho hn h
  rcases h3 with h3 | ⟨j, fs1, b1, hsel, hcj, hm, hT, _, hs, _⟩
  · exact .inl h3
  refine .inr ⟨j, hsel, fun p => ?_⟩
  have h1 := mkdirs_soft (target cwd o j w.fs).dropLast [] w.fs p
  rw [hm] at h1
  dsimp only at h1
  have h1 : fs1.at p = w.fs.at p ∨ p <+: target cwd o j w.fs ∧ w.fs.at p = none ∧ fs1.at p = some .dir := by
    rcases h1 with e | ⟨k, _, hk, e, h2⟩
    · exact .inl e
    · rw [List.nil_append] at e
      exact .inr ⟨e ▸ hk.trans (List.dropLast_prefix _), h2⟩
  rcases hs.change p with e | ⟨i, ⟨q, e, _⟩, _⟩ | ⟨q, i, _, ⟨r, e, _⟩, h2, h3⟩
  · rw [e]
    rcases h1 with h1 | h1
    · exact .inl h1
    · exact .inr (.inr h1)
  · exact .inr (.inl ⟨q, e.symm⟩)
  · rcases List.prefix_or_prefix_of_prefix (l₁ := p) (l₂ := target cwd o j w.fs) ⟨q, rfl⟩ ⟨r, e.symm⟩ with hp | hp
    · rcases h1 with h1 | h1
      · exact .inr (.inr ⟨hp, h1 ▸ h2, h3⟩)
      · rw [h2] at h1
        cases h1.2.2
    · exact .inr (.inl hp)

include hS hC hG in
/-- **C110.** A tree in which there is a file is not installed over an existing file. -/
theorem C110_tree_over_file {O : Outside} {n : Nat} {cwd : List Str} {a : Args} {i : Info} (hr : Refers a.object i)
    (hc : Clean E S i) (har : a.archive = false) (hsub : a.sub = none) {o : Str} (ho : a.output = some o) (hn : Named o)
    {w w' : World} {b : Bool} {ty ty' : ObjectType} {id id' : Str} (hf : w.fs.at (resolve cwd o) = some (.leaf ty id))
    {q : List Str} (hq : q ≠ []) (hi : look E S i q = some (.leaf ty' id'))
    (h : run E C git O n cwd a w = .ok (b, w')) : b = false ∧ w'.fs.at (resolve cwd o) = some (.leaf ty id) := by
  obtain ⟨_, _, h3⟩ := run_spec hS hC hG hr hc har ho hn h
  rcases h3 with ⟨h3, h4⟩ | ⟨j, fs1, b1, hsel, hcj, hm, hT, hb, hs, hx⟩
  · exact ⟨h3, by rw [h4, hf]⟩
  unfold Selected at hsel
  rw [hsub] at hsel
  subst hsel
  have ht : target cwd o j w.fs = resolve cwd o := by
    unfold target
    rw [hf, if_neg (by simp)]
  rw [ht] at hm hT hs hx
  have h1 : fs1.at (resolve cwd o) = some (.leaf ty id) := by
    have h1 := mkdirs_soft (resolve cwd o).dropLast [] w.fs (resolve cwd o)
    rw [hm] at h1
    rcases h1 with h1 | ⟨_, _, _, _, h1, _⟩
    · exact h1.trans hf
    · rw [hf] at h1
      cases h1
  refine ⟨?_, ?_⟩
  · cases b with
    | false => rfl
    | true => exact absurd h1 ((hx rfl).before _ q ⟨ty', id'⟩ hq ⟨q, rfl, hi⟩ ty id)
  · rcases hs.change (resolve cwd o) with e | ⟨k, ⟨r, e, hk⟩, _, _⟩ | ⟨r, k, _, _, h2, _⟩
    · rw [e, h1]
    · have : r = [] := by
        have := congrArg List.length e
        rw [List.length_append] at this
        exact List.length_eq_zero_iff.1 (by omega)
      subst this
      have := look_prefix [] q j _ _ hq hk
      rw [List.nil_append, hi] at this
      cases this
    · rw [h1] at h2
      cases h2

end

/-! ## What is no identifier -/

/-- **C110.** If what is given does not begin with a valid hash, possibly behind an opening bracket, then that is an error, and nothing
is changed, unless the size given is too big (V111). -/
theorem C110_invalid {E : Env} {C : Cas} {git : Option Cas} {O : Outside} {n : Nat} {cwd : List Str} {a : Args} {w : World}
    (h : ∀ open' hash rest, (open' = [] ∨ open' = ['[']) → (rest = [] ∨ ∃ r, rest = ':' :: r) → GoodHash .gitSHA1 hash →
      a.object ≠ open' ++ hash ++ rest) : run E C git O n cwd a w = .ok (false, w) ∨ run E C git O n cwd a w = .ub := by
  unfold run
  cases hl : liberal .gitSHA1 a.object with
  | ub => exact .inr rfl
  | error => exact .inl rfl
  | ok ob =>
    obtain ⟨h1, _, _, o, r, h2, h3, h4⟩ := C110_only hl
    exact (h o _ r h3 h4 h1 h2).elim

/-- **C110, violation.** A size that is too big leads to undefined behavior, whatever else is given. -/
theorem C110_run_size_violation {E : Env} {C : Cas} {git : Option Cas} {O : Outside} {n : Nat} {cwd : List Str} {a : Args} {w : World}
    {h : Str} (g : GoodHash .gitSHA1 h) {size : Nat} (hs : 2 ^ 63 ≤ size) (b : Bool) (y : Str)
    (ha : a.object = wrap b (h ++ ':' :: decimal size ++ ':' :: y)) : run E C git O n cwd a w = .ub := by
  unfold run
  rw [ha, C110_size_violation g hs b y]

end Verif.InstallCas
