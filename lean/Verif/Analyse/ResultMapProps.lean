import Verif.Analyse.ResultMap

/-!
# What is handed over from analysis does not depend on the order of things (C29)

The histories below are the calls of `Add` in the order the locks let them through. The two sides of a comparison may
use different numbers of threads (hence widths), different hash functions of the standard library, different orders
of going through hash tables, and different sorting algorithms.
-/

namespace Verif.Analyse

open Verif.Path Verif.Names

variable {R X : Type}

/-- What analysis finds for a target is determined by the target. -/
def Determined (items : R → List X) (F : Target → List X) (h : List (Target × R)) : Prop := ∀ x ∈ h, items x.2 = F x.1

theorem flatMap_parts (f : Target × R → List X) (es : Parts R) :
    (es.flatMap fun e => e.flatMap f) = es.flatten.flatMap f := by
  induction es with
  | nil => rfl
  | cons e es ih => simp [ih]

/-- **C29**: each identifier occurs once and in ascending order, and the identifiers are exactly those found in the targets
that were analysed. -/
theorem C29_exact {hash : Entity → Nat} {width : Nat} (hw : 0 < width) {items : R → List X} {ident : X → Str}
    {F : Target → List X} {h : List (Target × R)} {out : List X} (hd : Determined items F h)
    (ho : ToResult items ident (addAll hash width h) out) :
    (out.map ident).Pairwise (· < ·) ∧ (out.map ident).Nodup ∧
      (∀ i, i ∈ out.map ident ↔ ∃ x ∈ h, ∃ a ∈ F x.1, ident a = i) ∧ (∀ a ∈ out, ∃ x ∈ h, a ∈ F x.1) := by
  obtain ⟨es, sorted, he, ⟨hp, hs⟩, rfl⟩ := ho
  have hm := holds_addAll hash hw h
  have hstrict := unique_strict ident hs
  have hmem : ∀ a, a ∈ sorted ↔ ∃ x ∈ h, a ∈ F x.1 := by
    intro a
    rw [hp.mem_iff, flatMap_parts, List.mem_flatMap]
    constructor
    · rintro ⟨x, hx, ha⟩
      have hx' := flatten_mem hm ((enumerate_perm he).mem_iff.mp hx)
      exact ⟨x, hx', by rw [← hd x hx']; exact ha⟩
    · rintro ⟨x, hx, ha⟩
      obtain ⟨y, hy, hyx⟩ := flatten_key hm hx
      refine ⟨y, (enumerate_perm he).mem_iff.mpr hy, ?_⟩
      rw [hd y (flatten_mem hm hy), hyx]
      exact ha
  refine ⟨hstrict, hstrict.imp (fun h => ne_of_lt h), ?_, ?_⟩
  · intro i
    rw [mem_unique, List.mem_map]
    constructor
    · rintro ⟨a, ha, hi⟩
      obtain ⟨x, hx, hxa⟩ := (hmem a).mp ha
      exact ⟨x, hx, a, hxa, hi⟩
    · rintro ⟨x, hx, a, hxa, hi⟩
      exact ⟨a, (hmem a).mpr ⟨x, hx, hxa⟩, hi⟩
  · intro a ha
    exact (hmem a).mp (unique_sub ident ha)

/-- **C29**: the same targets, whatever the threads and orders, give the same list of identifiers. -/
theorem C29_same_ids {hash hash' : Entity → Nat} {width width' : Nat} (hw : 0 < width) (hw' : 0 < width')
    {items : R → List X} {ident : X → Str} {F : Target → List X} {h h' : List (Target × R)} {out out' : List X}
    (hd : Determined items F h) (hd' : Determined items F h')
    (hk : ∀ q, q ∈ h.map Prod.fst ↔ q ∈ h'.map Prod.fst)
    (ho : ToResult items ident (addAll hash width h) out) (ho' : ToResult items ident (addAll hash' width' h') out') :
    out.map ident = out'.map ident := by
  obtain ⟨h1, _, h2, _⟩ := C29_exact hw hd ho
  obtain ⟨h3, _, h4, _⟩ := C29_exact hw' hd' ho'
  refine strict_ext h1 h3 fun i => ?_
  rw [h2, h4]
  constructor
  · rintro ⟨x, hx, r⟩
    obtain ⟨y, hy, hyx⟩ := List.mem_map.mp ((hk x.1).mp (List.mem_map.mpr ⟨x, hx, rfl⟩))
    exact ⟨y, hy, by rw [hyx]; exact r⟩
  · rintro ⟨x, hx, r⟩
    obtain ⟨y, hy, hyx⟩ := List.mem_map.mp ((hk x.1).mpr (List.mem_map.mpr ⟨x, hx, rfl⟩))
    exact ⟨y, hy, by rw [hyx]; exact r⟩

/-- **C29**: if identifiers determine actions (as C47 says of action identifiers), the very same list is handed over. -/
theorem C29_same {hash hash' : Entity → Nat} {width width' : Nat} (hw : 0 < width) (hw' : 0 < width')
    {items : R → List X} {ident : X → Str} {F : Target → List X} {h h' : List (Target × R)} {out out' : List X}
    (hd : Determined items F h) (hd' : Determined items F h')
    (hk : ∀ q, q ∈ h.map Prod.fst ↔ q ∈ h'.map Prod.fst)
    (hi : ∀ x ∈ h, ∀ y ∈ h', ∀ a ∈ F x.1, ∀ b ∈ F y.1, ident a = ident b → a = b)
    (ho : ToResult items ident (addAll hash width h) out) (ho' : ToResult items ident (addAll hash' width' h') out') :
    out = out' := by
  refine map_ident_inj (C29_same_ids hw hw' hd hd' hk ho ho') fun a ha b hb => ?_
  obtain ⟨x, hx, hxa⟩ := (C29_exact hw hd ho).2.2.2 a ha
  obtain ⟨y, hy, hyb⟩ := (C29_exact hw' hd' ho').2.2.2 b hb
  exact hi x hx y hy a hxa b hyb

/-! ## Each target is kept once, and the first result stays -/

/-- **C29**: after any additions, each configured target is held exactly once, with the result that was first added. -/
theorem C29_first {hash : Entity → Nat} {width : Nat} (hw : 0 < width) (h : List (Target × R)) :
    ((addAll hash width h).flatten.map Prod.fst).Nodup ∧
    ∀ (pre post : List (Target × R)) (q : Target) (r : R), h = pre ++ (q, r) :: post → q ∉ pre.map Prod.fst →
      (q, r) ∈ (addAll hash width h).flatten := by
  refine ⟨flatten_nodup (holds_addAll hash hw h), ?_⟩
  intro pre post q r hh hq
  have hpre := holds_addAll hash hw pre
  have step : (q, r) ∈ (add hash width (addAll hash width pre) q r).flatten := by
    unfold add
    have hlt : hash q.target % width < (addAll hash width pre).length := by rw [hpre.length]; exact Nat.mod_lt _ hw
    refine List.mem_flatten.mpr ⟨emplace q r (addAll hash width pre)[hash q.target % width], ?_, ?_⟩
    · refine List.mem_iff_getElem?.mpr ⟨hash q.target % width, ?_⟩
      rw [List.getElem?_modify, List.getElem?_eq_getElem hlt]
      simp
    · unfold emplace
      rw [if_neg]
      · exact List.mem_append_right _ (List.mem_singleton.mpr rfl)
      · intro hm
        obtain ⟨y, hy, hyq⟩ := List.mem_map.mp hm
        have := (hpre.mem _ _ (List.getElem?_eq_getElem hlt) y hy).1
        exact hq (List.mem_map.mpr ⟨y, this, hyq⟩)
  have mono : ∀ (post : List (Target × R)) (m : Parts R), (q, r) ∈ m.flatten →
      (q, r) ∈ (post.foldl (fun m x => add hash width m x.1 x.2) m).flatten := by
    intro post
    induction post with
    | nil => intro m h; exact h
    | cons x post ih =>
      intro m hm
      refine ih _ ?_
      obtain ⟨part, hp, hx⟩ := List.mem_flatten.mp hm
      obtain ⟨i, hi⟩ := List.mem_iff_getElem?.mp hp
      unfold add
      by_cases hh : hash x.1.target % width = i
      · refine List.mem_flatten.mpr ⟨emplace x.1 x.2 part, List.mem_iff_getElem?.mpr ⟨i, ?_⟩, emplace_mono hx⟩
        rw [List.getElem?_modify, hi]; simp [hh]
      · refine List.mem_flatten.mpr ⟨part, List.mem_iff_getElem?.mpr ⟨i, ?_⟩, hx⟩
        rw [List.getElem?_modify, hi]; simp [hh]
  have : addAll hash width h =
      post.foldl (fun m x => add hash width m x.1 x.2) (add hash width (addAll hash width pre) q r) := by
    rw [hh, addAll, List.foldl_append, List.foldl_cons]; rfl
  rw [this]
  exact mono post _ step

/-! ## Origins -/

theorem mem_originsFrom (i : Str) (q : Target) : ∀ (l : List Str) (pos : Nat) (o : Target × Nat),
    o ∈ originsFrom i q pos l ↔ o.1 = q ∧ pos ≤ o.2 ∧ l[o.2 - pos]? = some i := by
  intro l
  induction l with
  | nil => intro pos o; simp [originsFrom]
  | cons j l ih =>
    intro pos o
    obtain ⟨p, n⟩ := o
    have key : (p, n) ∈ originsFrom i q (pos + 1) l ↔ p = q ∧ pos < n ∧ (j :: l)[n - pos]? = some i := by
      rw [ih]
      simp only
      constructor
      · rintro ⟨h1, h2, h3⟩
        refine ⟨h1, by omega, ?_⟩
        rw [show n - pos = (n - (pos + 1)) + 1 by omega, List.getElem?_cons_succ]
        exact h3
      · rintro ⟨h1, h2, h3⟩
        refine ⟨h1, by omega, ?_⟩
        rw [show n - pos = (n - (pos + 1)) + 1 by omega, List.getElem?_cons_succ] at h3
        exact h3
    have zero : n = pos → ((j :: l)[n - pos]? = some i ↔ j = i) := by
      intro h; subst h; simp
    unfold originsFrom
    split
    · rename_i hj
      rw [List.mem_cons, key, Prod.mk.injEq]
      constructor
      · rintro (⟨h1, h2⟩ | ⟨h1, h2, h3⟩)
        · exact ⟨h1, by simp only; omega, (zero h2).mpr hj⟩
        · exact ⟨h1, by simp only; omega, h3⟩
      · rintro ⟨h1, h2, h3⟩
        simp only at h2
        by_cases hn : n = pos
        · exact .inl ⟨h1, hn⟩
        · exact .inr ⟨h1, by omega, h3⟩
    · rename_i hj
      rw [key]
      constructor
      · rintro ⟨h1, h2, h3⟩
        exact ⟨h1, by simp only; omega, h3⟩
      · rintro ⟨h1, h2, h3⟩
        simp only at h2
        by_cases hn : n = pos
        · exact absurd ((zero hn).mp h3) hj
        · exact ⟨h1, by omega, h3⟩

theorem originsFrom_nodup (i : Str) (q : Target) : ∀ (l : List Str) (pos : Nat), (originsFrom i q pos l).Nodup := by
  intro l
  induction l with
  | nil => intro pos; exact List.nodup_nil
  | cons j l ih =>
    intro pos
    unfold originsFrom
    split
    · refine List.nodup_cons.mpr ⟨?_, ih _⟩
      intro hm
      have := ((mem_originsFrom i q l (pos + 1) (q, pos)).mp hm).2.1
      simp only at this
      omega
    · exact ih _

theorem origins_perm {subtasks : R → List Str} {i : Str} {m : Parts R} {acc out : List (Target × Nat)}
    (h : Origins subtasks i m acc out) (hs : acc.Pairwise fun a b => originLt b a = false) :
    out.Perm (acc ++ m.flatten.flatMap fun x => originsFrom i x.1 0 (subtasks x.2)) ∧
      out.Pairwise fun a b => originLt b a = false := by
  induction h with
  | nil acc => exact ⟨by simp, hs⟩
  | @cons part e parts acc sorted out h1 h2 h3 _ ih =>
    obtain ⟨ih1, ih2⟩ := ih h3
    refine ⟨?_, ih2⟩
    refine ih1.trans ?_
    rw [List.flatten_cons, List.flatMap_append, ← List.append_assoc]
    refine List.Perm.append_right _ (h2.trans (List.Perm.append_left _ ?_))
    exact List.Perm.flatMap_right _ h1

/-- **C29**: the origins recorded for an action or overlay are exactly the pairs of a target and a position where it occurs,
each once. -/
theorem C29_origins {hash : Entity → Nat} {width : Nat} (hw : 0 < width) {subtasks : R → List Str}
    {F : Target → List Str} {h : List (Target × R)} {i : Str} {out : List (Target × Nat)} (hd : Determined subtasks F h)
    (ho : Origins subtasks i (addAll hash width h) [] out) :
    out.Nodup ∧ ∀ q pos, (q, pos) ∈ out ↔ q ∈ h.map Prod.fst ∧ (F q)[pos]? = some i := by
  have hm := holds_addAll hash hw h
  obtain ⟨hp, _⟩ := origins_perm ho .nil
  rw [List.nil_append] at hp
  constructor
  · rw [hp.nodup_iff, List.nodup_flatMap]
    refine ⟨fun x _ => originsFrom_nodup _ _ _ _, ?_⟩
    have hn := flatten_nodup hm
    rw [List.Nodup, List.pairwise_map] at hn
    refine hn.imp ?_
    intro a b hab
    show List.Disjoint _ _
    rw [List.disjoint_left]
    intro o h1 h2
    exact hab (((mem_originsFrom _ _ _ _ _).mp h1).1.symm.trans ((mem_originsFrom _ _ _ _ _).mp h2).1)
  · intro q pos
    rw [hp.mem_iff, List.mem_flatMap]
    constructor
    · rintro ⟨x, hx, ho⟩
      obtain ⟨h1, _, h3⟩ := (mem_originsFrom _ _ _ _ _).mp ho
      have hxh := flatten_mem hm hx
      have h1' : q = x.1 := h1
      rw [hd x hxh, ← h1'] at h3
      exact ⟨List.mem_map.mpr ⟨x, hxh, h1'.symm⟩, h3⟩
    · rintro ⟨hq, h3⟩
      obtain ⟨x, hx, hxq⟩ := List.mem_map.mp hq
      obtain ⟨y, hy, hyx⟩ := flatten_key hm hx
      refine ⟨y, hy, (mem_originsFrom _ _ _ _ _).mpr ⟨(hyx.trans hxq).symm, Nat.zero_le _, ?_⟩⟩
      rw [hd y (flatten_mem hm hy), hyx, hxq]
      exact h3

/-- **C29**: the origins are listed in the same order, whatever the threads and orders. -/
theorem C29_origins_same {hash hash' : Entity → Nat} {width width' : Nat} (hw : 0 < width) (hw' : 0 < width')
    {subtasks : R → List Str} {F : Target → List Str} {h h' : List (Target × R)} {i : Str} {out out' : List (Target × Nat)}
    (hd : Determined subtasks F h) (hd' : Determined subtasks F h')
    (hk : ∀ q, q ∈ h.map Prod.fst ↔ q ∈ h'.map Prod.fst)
    (ho : Origins subtasks i (addAll hash width h) [] out) (ho' : Origins subtasks i (addAll hash' width' h') [] out') :
    out = out' := by
  obtain ⟨n1, m1⟩ := C29_origins hw hd ho
  obtain ⟨n2, m2⟩ := C29_origins hw' hd' ho'
  refine sorted_unique (lt := originLt) (fun x y a b => origin_antisymm a b) ?_ (origins_perm ho .nil).2
    (origins_perm ho' .nil).2
  refine (List.perm_ext_iff_of_nodup n1 n2).mpr ?_
  rintro ⟨q, pos⟩
  rw [m1, m2, hk]

/-- **C29**: the list of all targets is the same too, if the text of a target determines it among those analysed. -/
theorem C29_targets_same {hash hash' : Entity → Nat} {width width' : Nat} (hw : 0 < width) (hw' : 0 < width')
    {text : Target → Str} {h h' : List (Target × R)} {out out' : List Target}
    (ht : ∀ x ∈ h, ∀ y ∈ h', text x.1 = text y.1 → x.1 = y.1)
    (hk : ∀ q, q ∈ h.map Prod.fst ↔ q ∈ h'.map Prod.fst)
    (ho : SortedTargets text ((addAll hash width h).map fun p => p.map Prod.fst) out)
    (ho' : SortedTargets text ((addAll hash' width' h').map fun p => p.map Prod.fst) out') :
    out = out' ∧ out.Nodup ∧ ∀ q, q ∈ out ↔ q ∈ h.map Prod.fst := by
  have facts : ∀ {hash : Entity → Nat} {width : Nat} {h : List (Target × R)} {out : List Target}, 0 < width →
      SortedTargets text ((addAll hash width h).map fun p => p.map Prod.fst) out →
      out.Nodup ∧ (∀ q, q ∈ out ↔ q ∈ h.map Prod.fst) ∧ out.Pairwise fun a b => text a ≤ text b := by
    intro hash width h out hw ho
    have hm := holds_addAll hash hw h
    obtain ⟨es, he, hp, hs⟩ := ho
    have hp' : out.Perm ((addAll hash width h).flatten.map Prod.fst) := by
      rw [List.map_flatten]
      exact hp.trans (enumerate_perm he)
    refine ⟨hp'.nodup_iff.mpr (flatten_nodup hm), ?_, hs⟩
    intro q
    rw [hp'.mem_iff]
    constructor
    · intro hq
      obtain ⟨x, hx, hxq⟩ := List.mem_map.mp hq
      exact List.mem_map.mpr ⟨x, flatten_mem hm hx, hxq⟩
    · intro hq
      obtain ⟨x, hx, hxq⟩ := List.mem_map.mp hq
      obtain ⟨y, hy, hyx⟩ := flatten_key hm hx
      exact List.mem_map.mpr ⟨y, hy, hyx.trans hxq⟩
  obtain ⟨n1, m1, s1⟩ := facts hw ho
  obtain ⟨n2, m2, s2⟩ := facts hw' ho'
  refine ⟨?_, n1, m1⟩
  have hinj : ∀ a ∈ out, ∀ b ∈ out', text a = text b → a = b := by
    intro a ha b hb hab
    obtain ⟨x, hx, rfl⟩ := List.mem_map.mp ((m1 a).mp ha)
    obtain ⟨y, hy, rfl⟩ := List.mem_map.mp ((m2 b).mp hb)
    exact ht x hx y hy hab
  have hinj1 : ∀ a ∈ out, ∀ b ∈ out, text a = text b → a = b := by
    intro a ha b hb hab
    exact hinj a ha b ((m2 b).mpr ((hk b).mp ((m1 b).mp hb))) hab
  have hinj2 : ∀ a ∈ out', ∀ b ∈ out', text a = text b → a = b := by
    intro a ha b hb hab
    exact hinj a ((m1 a).mpr ((hk a).mpr ((m2 a).mp ha))) b hb hab
  have strict : ∀ {l : List Target}, l.Nodup → l.Pairwise (fun a b => text a ≤ text b) →
      (∀ a ∈ l, ∀ b ∈ l, text a = text b → a = b) → (l.map text).Pairwise (· < ·) := by
    intro l hn hs hi
    rw [List.pairwise_map]
    exact (List.pairwise_and_iff.mpr ⟨hs, hn⟩).imp_of_mem fun {a b} ha hb hab =>
      lt_of_le_of_ne hab.1 fun he => hab.2 (hi a ha b hb he)
  refine map_ident_inj (strict_ext (strict n1 s1 hinj1) (strict n2 s2 hinj2) ?_) hinj
  intro i
  simp only [List.mem_map, m1, m2, hk]

/-! ## Examples -/

namespace Example

def e1 : Entity := .named ⟨"".toList, "m".toList, "a".toList, .target⟩
def e2 : Entity := .anonymous "r".toList "n".toList
def q1 : Target := ⟨e1, "c".toList⟩
def q2 : Target := ⟨e2, "c".toList⟩
def q3 : Target := ⟨e1, "d".toList⟩

/-- Two orders in which four additions can happen. -/
def h1 : List (Target × List Str) :=
  [(q1, ["x".toList, "y".toList]), (q2, ["y".toList]), (q1, ["x".toList, "y".toList]), (q3, ["w".toList, "y".toList])]
def h2 : List (Target × List Str) :=
  [(q3, ["w".toList, "y".toList]), (q2, ["y".toList]), (q1, ["x".toList, "y".toList])]

def hashA : Entity → Nat := fun e => match e with | .named _ => 4 | .anonymous _ _ => 2
def hashB : Entity → Nat := fun _ => 1

example : addAll hashA 3 h1 =
    [[], [(q1, ["x".toList, "y".toList]), (q3, ["w".toList, "y".toList])], [(q2, ["y".toList])]] := by decide +kernel

def F (q : Target) : List Str :=
  if q = q1 then ["x".toList, "y".toList] else if q = q2 then ["y".toList] else ["w".toList, "y".toList]

theorem det1 : Determined (fun r : List Str => r) F h1 := by
  unfold Determined; decide +kernel
theorem det2 : Determined (fun r : List Str => r) F h2 := by
  unfold Determined; decide +kernel

theorem out1 : ToResult (fun r : List Str => r) (fun i => i) (addAll hashA 3 h1)
    ["w".toList, "x".toList, "y".toList] := by
  refine ⟨[[], [(q3, ["w".toList, "y".toList]), (q1, ["x".toList, "y".toList])], [(q2, ["y".toList])]],
    ["w".toList, "x".toList, "y".toList, "y".toList, "y".toList], ?_, ⟨?_, ?_⟩, ?_⟩
  · rw [show addAll hashA 3 h1 =
      [[], [(q1, ["x".toList, "y".toList]), (q3, ["w".toList, "y".toList])], [(q2, ["y".toList])]] by decide +kernel]
    exact .cons (.refl _) (.cons (.swap _ _ _) (.cons (.refl _) .nil))
  · decide +kernel
  · decide +kernel
  · decide +kernel

theorem out2 : ToResult (fun r : List Str => r) (fun i => i) (addAll hashB 5 h2)
    ["w".toList, "x".toList, "y".toList] := by
  refine ⟨addAll hashB 5 h2,
    ["w".toList, "x".toList, "y".toList, "y".toList, "y".toList], ?_, ⟨?_, ?_⟩, ?_⟩
  · exact List.forall₂_same.mpr fun _ _ => .refl _
  · decide +kernel
  · decide +kernel
  · decide +kernel

example := C29_exact (by decide) det1 out1
example := C29_same_ids (by decide) (by decide) det1 det2
  (fun q => by rw [show q ∈ h1.map Prod.fst ↔ q = q1 ∨ q = q2 ∨ q = q1 ∨ q = q3 by simp [h1],
      show q ∈ h2.map Prod.fst ↔ q = q3 ∨ q = q2 ∨ q = q1 by simp [h2]]; tauto) out1 out2
example := C29_same (by decide) (by decide) det1 det2
  (fun q => by rw [show q ∈ h1.map Prod.fst ↔ q = q1 ∨ q = q2 ∨ q = q1 ∨ q = q3 by simp [h1],
      show q ∈ h2.map Prod.fst ↔ q = q3 ∨ q = q2 ∨ q = q1 by simp [h2]]; tauto)
  (fun _ _ _ _ _ _ _ _ h => h) out1 out2

example := (C29_first (hash := hashA) (width := 3) (by decide) h1).2 [(q1, ["x".toList, "y".toList])] _ q2 ["y".toList] rfl
  (by decide +kernel)

theorem origins1 : Origins (fun r : List Str => r) "y".toList (addAll hashA 3 h1) [] [(q1, 1), (q3, 1), (q2, 0)] := by
  rw [show addAll hashA 3 h1 =
      [[], [(q1, ["x".toList, "y".toList]), (q3, ["w".toList, "y".toList])], [(q2, ["y".toList])]] by decide +kernel]
  refine .cons (.refl _) (sorted := []) (by decide +kernel) (by decide) ?_
  refine .cons (.swap _ _ _) (sorted := [(q1, 1), (q3, 1)]) (by decide +kernel) (by decide +kernel) ?_
  exact .cons (.refl _) (by decide +kernel) (by decide +kernel) (.nil _)

example := C29_origins (by decide) det1 origins1
example := C29_origins_same (by decide) (by decide) det1 det1 (fun _ => Iff.rfl) origins1 origins1

/-- If a target had different results, what is handed over would depend on which came first: this is why analysis has to
give the same result for the same configured target. -/
example : (addAll hashA 3 [(q1, ["x".toList]), (q1, ["y".toList])]).flatten ≠
    (addAll hashA 3 [(q1, ["y".toList]), (q1, ["x".toList])]).flatten := by decide +kernel

def text (q : Target) : Str := if q = q1 then "1".toList else if q = q2 then "2".toList else "3".toList

theorem sorted1 : SortedTargets text ((addAll hashA 3 h1).map fun p => p.map Prod.fst) [q1, q2, q3] := by
  refine ⟨(addAll hashA 3 h1).map fun p => p.map Prod.fst, List.forall₂_same.mpr fun _ _ => .refl _, ?_, ?_⟩
  · decide +kernel
  · decide +kernel

example := C29_targets_same (by decide) (by decide) (h := h1) (h' := h1) (by decide +kernel) (fun _ => Iff.rfl) sorted1 sorted1

end Example

end Verif.Analyse
