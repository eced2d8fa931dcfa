import Verif.Symlinks.Cycle

/-!
# Resolving symbolic links: properties

C35: resolving a tree completely gives a tree with no symlinks, where each path holds what following the links inside the original
tree would give; partial resolution leaves only non-upwards links; links leaving the root are an error.
-/

namespace Verif.Symlinks

open Verif.Path

/-- The same kind of object: the same file, or directories with the same names. -/
inductive Alike : Node → Node → Prop where
  | file (id : Str) (x : Bool) : Alike (.file id x) (.file id x)
  | tree {es es' : List (Str × Node)} (h : es.map Prod.fst = es'.map Prod.fst) : Alike (.tree es) (.tree es')

/-- An example: a link upwards, a link to a directory, and a link through that link. -/
def ex : Node := .tree [(['a'], .file ['A'] false), (['b'], .link ['e', '/', 'l']),
  (['d'], .tree [(['f'], .file ['F'] true), (['l'], .link ['.', '.', '/', 'a'])]), (['e'], .link ['d'])]

def exd : Node := .tree [(['f'], .file ['F'] true), (['l'], .file ['A'] false)]

def exr : Node := .tree [(['a'], .file ['A'] false), (['b'], .file ['A'] false), (['d'], exd), (['e'], exd)]

theorem ex_proper : Proper ex := by
  refine .tree (by simp [GoodName]) (by decide) ?_
  simp only [List.mem_cons, List.not_mem_nil, or_false, forall_eq_or_imp, forall_eq]
  refine ⟨.file _ _, .link _, .tree (by simp [GoodName]) (by decide) ?_, .link _⟩
  simp only [List.mem_cons, List.not_mem_nil, or_false, forall_eq_or_imp, forall_eq]
  exact ⟨.file _ _, .link _⟩

theorem ex_links {c : Str} (h : HasLink ex c) : c = ['e', '/', 'l'] ∨ c = ['.', '.', '/', 'a'] ∨ c = ['d'] := by
  cases h with
  | there he h =>
    simp only [List.mem_cons, List.not_mem_nil, or_false] at he
    rcases he with rfl | rfl | rfl | rfl
    · cases h
    · cases h; simp
    · cases h with
      | there he h =>
        simp only [List.mem_cons, List.not_mem_nil, or_false] at he
        rcases he with rfl | rfl
        · cases h
        · cases h; simp
    · cases h; simp

theorem ex_tame : ∀ c, HasLink ex c → Tame c := by
  intro c h
  rcases ex_links h with rfl | rfl | rfl
  · exact ⟨0, [['e'], ['l']], by decide, by decide⟩
  · exact ⟨1, [['a']], by decide, by decide⟩
  · exact ⟨0, [['d']], by decide, by decide⟩

theorem ex_resolved : resolve ex .completely (fun _ => true) 8 dot = .ok ⟨exr, dot⟩ := by rfl

theorem find_cases {n k : Node} {l : List Str} (h : n.find l = some k) :
    (l = [] ∧ k = n) ∨ ∃ es e l', l = e.1 :: l' ∧ n = .tree es ∧ e ∈ es ∧ e.2.find l' = some k := by
  cases l with
  | nil => cases h; exact Or.inl ⟨rfl, rfl⟩
  | cons x l =>
    simp only [Node.find] at h
    cases he : n.entry x with
    | none => rw [he] at h; cases h
    | some c =>
      rw [he] at h
      obtain ⟨es, rfl, h1⟩ := entry_some he
      exact Or.inr ⟨es, (x, c), l, rfl, rfl, entryIn_mem h1, h⟩

/-! ## The function and the values possible -/

/-- Every answer of the function is a value that is possible. -/
theorem C35_function (root : Node) (m : Mode) (readable : Node → Bool) (k : Nat) (p : Str) (r : Resolved)
    (h : resolve root m readable k p = .ok r) : Val root m readable p r := resolve_val h

example : Val ex .completely (fun _ => true) dot ⟨exr, dot⟩ := C35_function _ _ _ 8 _ _ ex_resolved

/-! ## No links, or only those that do not go up -/

/-- Resolving completely leaves no links. -/
theorem C35_complete_links (root : Node) (readable : Node → Bool) (p : Str) (r : Resolved)
    (h : Val root .completely readable p r) (c : Str) : ¬ HasLink r.node c := fun hc => by
  have := (val_links h c hc).1
  cases this

example : ∀ c, ¬ HasLink exr c := C35_complete_links ex _ dot ⟨exr, dot⟩ (resolve_val ex_resolved)

theorem rel_head {c : Str} (h : isAbs c = false) : c.head? ≠ some '/' := by
  cases c with
  | nil => simp
  | cons a c => simpa [isAbs] using h

/-- Resolving partially leaves only relative links that do not go up. -/
theorem C35_partial_links (root : Node) (readable : Node → Bool) (p : Str) (r : Resolved)
    (h : Val root .partially readable p r) (c : Str) (hc : HasLink r.node c) :
    c.head? ≠ some '/' ∧ (place c).up = 0 := by
  have h1 := (val_links h c hc).2
  have hne : c ≠ [] := by
    rintro rfl
    exact absurd h1 (by decide)
  obtain ⟨b, h2, h3⟩ := nonUpwards_eq c hne
  rw [h1] at h2
  cases h2
  exact ⟨rel_head (h3.1 rfl).1, (h3.1 rfl).2⟩

def exp : Node := .tree [(['a'], .file ['A'] false), (['b'], .link ['e', '/', 'l']),
  (['d'], .tree [(['f'], .file ['F'] true), (['l'], .file ['A'] false)]), (['e'], .link ['d'])]

theorem ex_partially : resolve ex .partially (fun _ => true) 8 dot = .ok ⟨exp, dot⟩ := by rfl

example : ∀ c, HasLink exp c → c.head? ≠ some '/' ∧ (place c).up = 0 :=
  C35_partial_links ex _ dot ⟨exp, dot⟩ (resolve_val ex_partially)

/-! ## What is there -/

theorem den_alike {root : Node} {out : List Str} {n : Node} (h : Den root out n) : ∃ k, root.find out = some k ∧ Alike k n := by
  cases h with
  | file h => exact ⟨_, h, .file _ _⟩
  | tree h hn => exact ⟨_, h, .tree hn.symm⟩

theorem asked_snoc {root : Node} {m : Mode} {readable : Node → Bool} (hp : Proper root) (hm : m ≠ .ignore) {p : Str} {n : Node}
    (h : Asked root m readable p n) : ∃ l x, Good (l ++ [x]) ∧ p = render (l ++ [x]) := by
  cases h with
  | @top q rp es es' e hq hg _ hv htr he hx =>
    obtain ⟨l, hl, hpl⟩ := requested_render hq
    rw [hpl] at hg
    obtain ⟨d, x, hd⟩ := missing_snoc hl hg
    rw [hd] at hl hpl
    obtain ⟨_, h1, lp, h2, h3, h4⟩ := val_fine hp hm hv d hl.left (by rw [hpl, parentPath_render hl, normal_join hl.left])
    have hxg : GoodName x := hl x (by simp)
    rw [htr] at h1
    have hn := proper_entry (proper_entry h1 (entryIn_mem he)).2 hx
    refine ⟨lp ++ [x], e.1, (h2.snoc hxg).snoc hn.1, ?_⟩
    rw [hpl, filename_render hxg, h3]
    have : toNormalPath (append (render lp) x) = render (lp ++ [x]) := childPath_render h2 hxg
    rw [this]
    exact childPath_render (h2.snoc hxg) hn.1
  | @deeper q es e h hx =>
    obtain ⟨l, hl, hpl, _, hn⟩ := asked_fine hp hm h
    have hn := proper_entry hn hx
    exact ⟨l, e.1, hl.snoc hn.1, by rw [hpl]; exact childPath_render hl hn.1⟩

theorem top_den {root : Node} {m : Mode} {readable : Node → Bool} {r : Resolved} (hp : Proper root)
    (ht : ∀ c, HasLink root c → Tame c) (hm : m ≠ .ignore) (hroot : root.isLink = false) (h : Val root m readable dot r) :
    Den root [] r.node := by
  rcases val_sem hp ht hm h [] (by simp [Good]) rfl with hs | ⟨cur, lp, h1, h2, _⟩
  · exfalso
    cases h with
    | source hg hk =>
      have : getObject root dot = some root := by simp [getObject]
      rw [this] at hg
      cases hg
      cases hk with
      | file => cases hs
      | tree => cases hs
      | keep => cases hroot
      | follow => cases hroot
    | missing hg => simp [getObject] at hg
    | known hq hk =>
      obtain ⟨l, x, hl, h1⟩ := asked_snoc hp hm hq
      have := render_inj (l := []) (by simp [Good]) hl h1
      simp at this
  · rw [h1.det (.done [])] at h2
    exact h2

/-- Every path of the result leads somewhere in the source, to the
same file or to a directory with the same names; and every path that leads somewhere is there. This needs that no link goes up after it
went down (`Tame`); see `C35_violation_lexical`. -/
theorem C35_complete_partial (root : Node) (readable : Node → Bool) (r : Resolved) (hp : Proper root) (hroot : root.isLink = false)
    (ht : ∀ c, HasLink root c → Tame c) (h : Val root .completely readable dot r) :
    (∀ p n, r.node.find p = some n → ∃ out k, Leads root [] p out ∧ root.find out = some k ∧ Alike k n) ∧
      ∀ p out, (∀ a ∈ p, GoodName a) → Leads root [] p out → ∃ n, r.node.find p = some n := by
  have hd := top_den hp ht (by simp) hroot h
  have hl := C35_complete_links root readable dot r h
  constructor
  · intro p n hf
    obtain ⟨out, h1, h2⟩ := den_find hd hf (find_noLink hl hf)
    obtain ⟨k, h3, h4⟩ := den_alike h2
    exact ⟨out, k, h1, h3, h4⟩
  · intro p out hg h1
    rcases den_reach hg hd h1 with ⟨k, h2, _⟩ | ⟨q, s, c, _, h2⟩
    · exact ⟨k, h2⟩
    · exact absurd (find_link h2) (hl c)

example : ∃ out k, Leads ex [] [['b']] out ∧ ex.find out = some k ∧ Alike k (.file ['A'] false) :=
  (C35_complete_partial ex _ _ ex_proper rfl ex_tame (resolve_val ex_resolved)).1 [['b']] _ rfl

/-- Resolving partially: every file and directory of the result is what following the links of the source leads to; and every path that
leads somewhere is there, or passes a link that was left. -/
theorem C35_partially_partial (root : Node) (readable : Node → Bool) (r : Resolved) (hp : Proper root) (hroot : root.isLink = false)
    (ht : ∀ c, HasLink root c → Tame c) (h : Val root .partially readable dot r) :
    (∀ p n, r.node.find p = some n → n.isLink = false → ∃ out k, Leads root [] p out ∧ root.find out = some k ∧ Alike k n) ∧
      ∀ p out, (∀ a ∈ p, GoodName a) → Leads root [] p out →
        (∃ n, r.node.find p = some n) ∨ ∃ q s c, p = q ++ s ∧ r.node.find q = some (.link c) := by
  have hd := top_den hp ht (by simp) hroot h
  constructor
  · intro p n hf hl
    obtain ⟨out, h1, h2⟩ := den_find hd hf hl
    obtain ⟨k, h3, h4⟩ := den_alike h2
    exact ⟨out, k, h1, h3, h4⟩
  · intro p out hg h1
    rcases den_reach hg hd h1 with ⟨k, h2, _⟩ | h2
    · exact Or.inl ⟨k, h2⟩
    · exact Or.inr h2

example : ∃ out k, Leads ex [] [['d'], ['l']] out ∧ ex.find out = some k ∧ Alike k (.file ['A'] false) :=
  (C35_partially_partial ex _ _ ex_proper rfl ex_tame (resolve_val ex_partially)).1 [['d'], ['l']] _ rfl rfl

/-- When resolving completely, there is only one result, no matter in which order requests were served. -/
theorem C35_unique_partial (root : Node) (readable readable' : Node → Bool) (r r' : Resolved) (hp : Proper root)
    (hroot : root.isLink = false) (ht : ∀ c, HasLink root c → Tame c) (h : Val root .completely readable dot r)
    (h' : Val root .completely readable' dot r') : r.node = r'.node :=
  den_unique hp (top_den hp ht (by simp) hroot h) (top_den hp ht (by simp) hroot h')
    (C35_complete_links root readable dot r h) (C35_complete_links root readable' dot r' h')

example (r : Resolved) (h : Val ex .completely (fun _ => true) dot r) : r.node = exr :=
  C35_unique_partial ex _ _ _ ⟨exr, dot⟩ ex_proper rfl ex_tame h (resolve_val ex_resolved)

/-! ## Errors -/

/-- Links that leave the tree are an error: when there is a result, all links of the source are relative, and walking their
content from the directory of the link never needs to go above the root. -/
theorem C35_confined (root : Node) (m : Mode) (readable : Node → Bool) (r : Resolved) (hp : Proper root) (hm : m ≠ .ignore)
    (h : Val root m readable dot r) (d : List Str) (x c : Str) (hf : root.find (d ++ [x]) = some (.link c)) :
    c.head? ≠ some '/' ∧ ((names c).foldl Place.follow ⟨false, 0, d⟩).up = 0 := by
  have hc := (val_fine hp hm h [] (by simp [Good]) rfl).1 (d ++ [x]) c hf
  obtain ⟨h1, h2⟩ := confined_render (find_good hp hf) hc
  exact ⟨rel_head h1, h2⟩

example : ((names ['.', '.', '/', 'a']).foldl Place.follow ⟨false, 0, [['d']]⟩).up = 0 :=
  (C35_confined ex .completely _ _ ex_proper (by decide) (resolve_val ex_resolved) [['d']] ['l'] _ rfl).2

/-- A tree with a link that leaves it. -/
def exOut : Node := .tree [(['d'], .tree [(['l'], .link ['.', '.', '/', '.', '.', '/', 'a'])])]

theorem exOut_proper : Proper exOut := by
  refine .tree (by simp [GoodName]) (by decide) ?_
  simp only [List.mem_cons, List.not_mem_nil, or_false, forall_eq]
  refine .tree (by simp [GoodName]) (by decide) ?_
  simp only [List.mem_cons, List.not_mem_nil, or_false, forall_eq]
  exact .link _

example (m : Mode) (hm : m ≠ .ignore) : ¬ ∃ r, Val exOut m (fun _ => true) dot r := by
  rintro ⟨r, h⟩
  have := (C35_confined exOut m _ r exOut_proper hm h [['d']] ['l'] _ rfl).2
  revert this
  decide

/-- Broken links and cycles of links are an error: when there is a result of resolving completely, each link of the source leads to a
file or directory in the tree. -/
theorem C35_broken_partial (root : Node) (readable : Node → Bool) (r : Resolved) (hp : Proper root) (hroot : root.isLink = false)
    (ht : ∀ c, HasLink root c → Tame c) (h : Val root .completely readable dot r) (p : List Str) (c : Str)
    (hf : root.find p = some (.link c)) : ∃ out n, Leads root [] p out ∧ root.find out = some n ∧ n.isLink = false := by
  have hd := top_den hp ht (by simp) hroot h
  have hl := C35_complete_links root readable dot r h
  rcases eq_nil_or_snoc p with rfl | ⟨d, x, rfl⟩
  · cases hf
    cases hroot
  · obtain ⟨es, h1, h2⟩ := find_init hf
    have hg := find_good hp h1
    rcases den_reach hg hd (leads_self hp h1 rfl) with ⟨k, h3, h4⟩ | ⟨q, s, c', _, h3⟩
    · have h5 := h4 (find_noLink hl h3)
      cases h5 with
      | file h6 => rw [h1] at h6; cases h6
      | @tree _ es0 es' o h6 h7 h8 h9 =>
        rw [h1] at h6
        cases h6
        have hx : x ∈ es'.map Prod.fst := by
          rw [h7]
          exact entryIn_isSome.1 (by rw [h2]; rfl)
        obtain ⟨v, hv⟩ := Option.isSome_iff_exists.1 (entryIn_isSome.2 hx)
        have hfv : r.node.find (d ++ [x]) = some v := by
          rw [find_snoc, h3]
          exact hv
        have hvl := find_noLink hl hfv
        obtain ⟨n, h10, h11⟩ := den_alike (h9 _ (entryIn_mem hv) hvl)
        refine ⟨_, n, (leads_self hp h1 rfl).comp (h8 _ (entryIn_mem hv) hvl), h10, ?_⟩
        cases h11 <;> rfl
    · exact absurd (find_link h3) (hl c')

example : ∃ out n, Leads ex [] [['b']] out ∧ ex.find out = some n ∧ n.isLink = false :=
  C35_broken_partial ex _ _ ex_proper rfl ex_tame (resolve_val ex_resolved) [['b']] _ rfl

/-- Requests that wait for each other, among them the one for the whole tree, are never served: there is no result. -/
theorem C35_cycle (root : Node) (m : Mode) (readable : Node → Bool) (S : List Str → Prop) (hp : Proper root) (hm : m ≠ .ignore)
    (hS : Stuck root m S) (h0 : S []) : ¬ ∃ r, Val root m readable dot r := by
  rintro ⟨r, h⟩
  exact (val_stuck hS hp hm h [] (by simp [Good]) rfl).1 h0

/-- If every link of the source is confined, and has a target that is there in the source, and the links and directories do not depend
on each other in a cycle, then there is a result. -/
theorem C35_result (root : Node) (m : Mode) (readable : Node → Bool) (hp : Proper root) (hm : m ≠ .ignore)
    (hr : ∀ n, readable n = true)
    (hl : ∀ d x c, root.find (d ++ [x]) = some (.link c) → c ≠ [] ∧ confined c (render (d ++ [x])) = .val true ∧
      (root.find ((names c).foldl Place.follow ⟨false, 0, d⟩).down).isSome)
    (hroot : root.isLink = false) (ha : Acc (Needs root m) []) : ∃ r, Val root m readable dot r := by
  refine val_total hp hm hr ?_ ha root rfl
  intro l c hf
  rcases eq_nil_or_snoc l with rfl | ⟨d, x, rfl⟩
  · cases hf
    cases hroot
  · obtain ⟨h1, h2, h3⟩ := hl d x c hf
    refine ⟨h1, h2, fun l' hl' he => ?_⟩
    have hg := find_good hp hf
    rw [targetPath_render hg h2] at he
    rw [← render_inj (spot_good hg.left) hl' he]
    exact h3

/-- A tree where no link goes through a link. -/
def exSimple : Node := .tree [(['a'], .file ['A'] false), (['d'], .tree [(['l'], .link ['.', '.', '/', 'a'])]), (['e'], .link ['d'])]

theorem exSimple_proper : Proper exSimple := by
  refine .tree (by simp [GoodName]) (by decide) ?_
  simp only [List.mem_cons, List.not_mem_nil, or_false, forall_eq_or_imp, forall_eq]
  refine ⟨.file _ _, .tree (by simp [GoodName]) (by decide) ?_, .link _⟩
  simp only [List.mem_cons, List.not_mem_nil, or_false, forall_eq]
  exact .link _

theorem exSimple_find {l : List Str} {n : Node} (h : exSimple.find l = some n) :
    (l = [] ∧ n = exSimple) ∨ (l = [['a']] ∧ n = .file ['A'] false) ∨
      (l = [['d']] ∧ n = .tree [(['l'], .link ['.', '.', '/', 'a'])]) ∨
      (l = [['d'], ['l']] ∧ n = .link ['.', '.', '/', 'a']) ∨ (l = [['e']] ∧ n = .link ['d']) := by
  rcases find_cases h with ⟨rfl, rfl⟩ | ⟨es, e, l', rfl, he, hm, h⟩
  · exact Or.inl ⟨rfl, rfl⟩
  cases he
  simp only [List.mem_cons, List.not_mem_nil, or_false] at hm
  rcases hm with rfl | rfl | rfl
  · rcases find_cases h with ⟨rfl, rfl⟩ | ⟨es, e, l', rfl, he, hm, h⟩
    · exact Or.inr (Or.inl ⟨rfl, rfl⟩)
    · cases he
  · rcases find_cases h with ⟨rfl, rfl⟩ | ⟨es, e, l', rfl, he, hm, h⟩
    · exact Or.inr (Or.inr (Or.inl ⟨rfl, rfl⟩))
    cases he
    simp only [List.mem_cons, List.not_mem_nil, or_false] at hm
    subst hm
    rcases find_cases h with ⟨rfl, rfl⟩ | ⟨es, e, l', rfl, he, hm, h⟩
    · exact Or.inr (Or.inr (Or.inr (Or.inl ⟨rfl, rfl⟩)))
    · cases he
  · rcases find_cases h with ⟨rfl, rfl⟩ | ⟨es, e, l', rfl, he, hm, h⟩
    · exact Or.inr (Or.inr (Or.inr (Or.inr ⟨rfl, rfl⟩)))
    · cases he

theorem exSimple_acc : Acc (Needs exSimple .completely) [] := by
  have ha : Acc (Needs exSimple .completely) [['a']] := by
    refine .intro _ fun l hn => ?_
    generalize hq : [['a']] = q at hn
    cases hn with
    | entry h => rw [← hq] at h; cases h
    | target h => rw [← hq] at h; cases h
  have hl : Acc (Needs exSimple .completely) [['d'], ['l']] := by
    refine .intro _ fun l hn => ?_
    generalize hq : [['d'], ['l']] = q at hn
    cases hn with
    | entry h => rw [← hq] at h; cases h
    | target h _ hl ht =>
      rw [← hq] at h ht
      cases h
      have h1 : targetPath (render [['d'], ['l']]) ['.', '.', '/', 'a'] = render [['a']] := by decide
      rwa [← render_inj (l := [['a']]) (by simp [Good, GoodName]) hl (h1.symm.trans ht)]
  have hd : Acc (Needs exSimple .completely) [['d']] := by
    refine .intro _ fun l hn => ?_
    generalize hq : [['d']] = q at hn
    cases hn with
    | entry h he =>
      rw [← hq] at h ⊢
      cases h
      simp only [List.mem_cons, List.not_mem_nil, or_false] at he
      subst he
      exact hl
    | target h => rw [← hq] at h; cases h
  have he : Acc (Needs exSimple .completely) [['e']] := by
    refine .intro _ fun l hn => ?_
    generalize hq : [['e']] = q at hn
    cases hn with
    | entry h => rw [← hq] at h; cases h
    | target h _ hl ht =>
      rw [← hq] at h ht
      cases h
      have h1 : targetPath (render [['e']]) ['d'] = render [['d']] := by decide
      rwa [← render_inj (l := [['d']]) (by simp [Good, GoodName]) hl (h1.symm.trans ht)]
  refine .intro _ fun l hn => ?_
  generalize hq : ([] : List Str) = q at hn
  cases hn with
  | entry h hm =>
    rw [← hq] at h ⊢
    cases h
    simp only [List.mem_cons, List.not_mem_nil, or_false] at hm
    rcases hm with rfl | rfl | rfl
    · exact ha
    · exact hd
    · exact he
  | target h => rw [← hq] at h; cases h

example : ∃ r, Val exSimple .completely (fun _ => true) dot r := by
  refine C35_result exSimple .completely _ exSimple_proper (by decide) (fun _ => rfl) ?_ rfl exSimple_acc
  intro d x c h
  rcases exSimple_find h with ⟨h1, h2⟩ | ⟨h1, h2⟩ | ⟨h1, h2⟩ | ⟨h1, h2⟩ | ⟨h1, h2⟩
  · cases h2
  · cases h2
  · cases h2
  · cases h2
    obtain ⟨rfl, rfl⟩ : d = [['d']] ∧ x = ['l'] := by
      have := List.append_inj' (t₂ := [['l']]) (s₂ := [['d']]) h1 rfl
      exact ⟨this.1, by simpa using this.2⟩
    exact ⟨by decide, by decide, rfl⟩
  · cases h2
    obtain ⟨rfl, rfl⟩ : d = [] ∧ x = ['e'] := by
      have := List.append_inj' (t₂ := [['e']]) (s₂ := []) h1 rfl
      exact ⟨this.1, by simpa using this.2⟩
    exact ⟨by decide, by decide, rfl⟩

/-- Ignoring links: the result is the tree without the links, whatever they point to. -/
theorem C35_ignore (root : Node) (readable : Node → Bool) (r : Resolved) (hp : Proper root)
    (h : Val root .ignore readable dot r) (p : List Str) :
    (∀ id x, r.node.find p = some (.file id x) ↔ root.find p = some (.file id x)) ∧
      ((∃ es, r.node.find p = some (.tree es)) ↔ ∃ es, root.find p = some (.tree es)) ∧
      ∀ c, r.node.find p ≠ some (.link c) := by
  have hs := val_stripped hp h [] root (by simp [Good]) rfl rfl
  obtain ⟨h1, h2⟩ := stripped_find hp hs p
  refine ⟨fun id x => ⟨fun hf => ?_, fun hf => ?_⟩, ⟨?_, ?_⟩, fun c hf => ?_⟩
  · obtain ⟨w, h3, h4⟩ := h1 _ hf
    cases h4
    exact h3
  · obtain ⟨w, h3, h4⟩ := h2 _ hf rfl
    cases h4
    exact h3
  · rintro ⟨es, hf⟩
    obtain ⟨w, h3, h4⟩ := h1 _ hf
    generalize hk : Node.tree es = k at h4
    cases h4 with
    | file => cases hk
    | tree => exact ⟨_, h3⟩
  · rintro ⟨es, hf⟩
    obtain ⟨w, h3, h4⟩ := h2 _ hf rfl
    cases h4
    exact ⟨_, h3⟩
  · obtain ⟨w, h3, h4⟩ := h1 _ hf
    cases h4

def exi : Node := .tree [(['a'], .file ['A'] false), (['d'], .tree [(['f'], .file ['F'] true)])]

theorem ex_ignored : resolve ex .ignore (fun _ => true) 8 dot = .ok ⟨exi, dot⟩ := by rfl

example : exi.find [['d'], ['f']] = some (.file ['F'] true) ↔ ex.find [['d'], ['f']] = some (.file ['F'] true) :=
  (C35_ignore ex _ _ ex_proper (resolve_val ex_ignored) [['d'], ['f']]).1 _ _

/-! ## Where the code does not do that -/

/-- V32. Resolving partially can leave a link that points to something else: `sub/l` goes up to `x`, which is a link to `y`; it is
replaced by the link to `y`, which in `sub` is another file. -/
def exMoved : Node := .tree [(['s'], .tree [(['l'], .link ['.', '.', '/', 'x']), (['y'], .file ['B'] false)]),
  (['x'], .link ['y']), (['y'], .file ['A'] false)]

def exMovedTo : Node := .tree [(['s'], .tree [(['l'], .link ['y']), (['y'], .file ['B'] false)]),
  (['x'], .link ['y']), (['y'], .file ['A'] false)]

theorem C35_violation_moved : Val exMoved .partially (fun _ => true) dot ⟨exMovedTo, dot⟩ ∧
    (Leads exMoved [] [['s'], ['l']] [['y']] ∧ exMoved.find [['y']] = some (.file ['A'] false)) ∧
    Leads exMovedTo [] [['s'], ['l']] [['s'], ['y']] ∧ exMovedTo.find [['s'], ['y']] = some (.file ['B'] false) := by
  refine ⟨resolve_val (k := 8) rfl, ⟨?_, rfl⟩, ?_, rfl⟩
  · refine .down (by simp [GoodName]) rfl rfl (.follow (c := ['.', '.', '/', 'x']) (by simp [GoodName]) rfl (by decide) ?_)
    exact .up (cur := []) (y := ['s']) rfl (.follow (c := ['y']) (by simp [GoodName]) rfl (by decide)
      (.down (by simp [GoodName]) rfl rfl (.done _)))
  · refine .down (by simp [GoodName]) rfl rfl (.follow (c := ['y']) (by simp [GoodName]) rfl (by decide) ?_)
    exact .down (by simp [GoodName]) rfl rfl (.done _)

/-- V33. A link that goes through a link to its own directory: there is no cycle of links, but the requests wait for each other. -/
def exOwn : Node := .tree [(['d'], .tree [(['f'], .file ['F'] false), (['l'], .link ['.', '.', '/', 's', '/', 'f'])]),
  (['s'], .link ['d'])]

theorem exOwn_proper : Proper exOwn := by
  refine .tree (by simp [GoodName]) (by decide) ?_
  simp only [List.mem_cons, List.not_mem_nil, or_false, forall_eq_or_imp, forall_eq]
  refine ⟨.tree (by simp [GoodName]) (by decide) ?_, .link _⟩
  simp only [List.mem_cons, List.not_mem_nil, or_false, forall_eq_or_imp, forall_eq]
  exact ⟨.file _ _, .link _⟩

theorem exOwn_stuck : Stuck exOwn .completely fun l =>
    l ∈ ([[], [['d']], [['s']], [['d'], ['l']], [['s'], ['f']]] : List (List Str)) := by
  constructor
  · intro l x h
    simp only [List.mem_cons, List.not_mem_nil, or_false] at h ⊢
    rcases h with h | h | h | h | h
    · simp at h
    · left
      exact (List.append_inj' (t₂ := [['d']]) (s₂ := []) h rfl).1
    · left
      exact (List.append_inj' (t₂ := [['s']]) (s₂ := []) h rfl).1
    · right; left
      exact (List.append_inj' (t₂ := [['l']]) (s₂ := [['d']]) h rfl).1
    · right; right; left
      exact (List.append_inj' (t₂ := [['f']]) (s₂ := [['s']]) h rfl).1
  · intro l id x h hf
    simp only [List.mem_cons, List.not_mem_nil, or_false] at h
    rcases h with rfl | rfl | rfl | rfl | rfl <;> cases hf
  · intro l es h hf
    simp only [List.mem_cons, List.not_mem_nil, or_false] at h
    rcases h with rfl | rfl | rfl | rfl | rfl
    · cases hf
      exact ⟨_, List.mem_cons_self, by decide⟩
    · cases hf
      exact ⟨_, List.mem_cons_of_mem _ List.mem_cons_self, by decide⟩
    · cases hf
    · cases hf
    · cases hf
  · intro l c h hf
    refine ⟨Or.inl rfl, fun l' hl' he => ?_⟩
    simp only [List.mem_cons, List.not_mem_nil, or_false] at h
    rcases h with rfl | rfl | rfl | rfl | rfl
    · cases hf
    · cases hf
    · cases hf
      have h1 : targetPath (render [['s']]) ['d'] = render [['d']] := by decide
      rw [← render_inj (l := [['d']]) (by simp [Good, GoodName]) hl' (h1.symm.trans he)]
      decide
    · cases hf
      have h1 : targetPath (render [['d'], ['l']]) ['.', '.', '/', 's', '/', 'f'] = render [['s'], ['f']] := by decide
      rw [← render_inj (l := [['s'], ['f']]) (by simp [Good, GoodName]) hl' (h1.symm.trans he)]
      decide
    · cases hf

theorem C35_violation_own (readable : Node → Bool) : (Leads exOwn [] [['d'], ['l']] [['d'], ['f']] ∧
    exOwn.find [['d'], ['f']] = some (.file ['F'] false)) ∧ ¬ ∃ r, Val exOwn .completely readable dot r := by
  refine ⟨⟨?_, rfl⟩, C35_cycle _ _ _ _ exOwn_proper (by decide) exOwn_stuck (by decide)⟩
  refine .down (by simp [GoodName]) rfl rfl (.follow (c := ['.', '.', '/', 's', '/', 'f']) (by simp [GoodName]) rfl (by decide) ?_)
  refine .up (cur := []) (y := ['d']) rfl (.follow (c := ['d']) (by simp [GoodName]) rfl (by decide) ?_)
  exact .down (by simp [GoodName]) rfl rfl (.down (by simp [GoodName]) rfl rfl (.done _))

example : ¬ ∃ r, Val exOwn .completely (fun _ => true) dot r := (C35_violation_own _).2

/-- V34. The content of links is normalised before links are followed: `l` goes to the directory `e/d`, via the link `d`, and up; this
is `e/x`, but `x` is taken. -/
def exLexical : Node := .tree [(['d'], .link ['e', '/', 'd']),
  (['e'], .tree [(['d'], .tree []), (['x'], .file ['A'] false)]), (['l'], .link ['d', '/', '.', '.', '/', 'x']),
  (['x'], .file ['B'] false)]

theorem C35_violation_lexical : (∃ r, Val exLexical .completely (fun _ => true) dot r ∧
      r.node.find [['l']] = some (.file ['B'] false)) ∧
    Leads exLexical [] [['l']] [['e'], ['x']] ∧ exLexical.find [['e'], ['x']] = some (.file ['A'] false) := by
  refine ⟨⟨_, resolve_val (k := 8) rfl, rfl⟩, ?_, rfl⟩
  refine .follow (c := ['d', '/', '.', '.', '/', 'x']) (by simp [GoodName]) rfl (by decide) ?_
  refine .follow (c := ['e', '/', 'd']) (by simp [GoodName]) rfl (by decide) ?_
  refine .down (by simp [GoodName]) rfl rfl (.down (by simp [GoodName]) rfl rfl ?_)
  exact .up (cur := [['e']]) (y := ['d']) rfl (.down (by simp [GoodName]) rfl rfl (.done _))

/-- V35. If new trees are stored elsewhere than the source, a directory that was changed by resolving and is reached through a link to
the directory above cannot be read: `a` goes to `e/s`, where `e` is a link to `d`. -/
def exElsewhere : Node := .tree [(['a'], .link ['e', '/', 's']),
  (['d'], .tree [(['f'], .file ['F'] false), (['s'], .tree [(['l'], .link ['.', '.', '/', 'f'])])]), (['e'], .link ['d'])]

/-- Only the trees of the source are there. -/
def inSource : Node → Bool
  | .tree [(_, .file _ _)] => false
  | _ => true

theorem C35_violation_elsewhere :
    (∀ l n, exElsewhere.find l = some n → inSource n = true) ∧
    (∃ k, ∀ j, resolve exElsewhere .completely inSource (k + j) dot = .error .failed) ∧
    ∃ r, Val exElsewhere .completely (fun _ => true) dot r ∧
      r.node.find [['a']] = some (.tree [(['l'], .file ['F'] false)]) := by
  refine ⟨?_, ⟨8, fun j => ?_⟩, _, resolve_val (k := 8) rfl, rfl⟩
  · intro l n h
    rcases find_cases h with ⟨rfl, rfl⟩ | ⟨es, e, l', rfl, he, hm, h⟩
    · rfl
    cases he
    simp only [List.mem_cons, List.not_mem_nil, or_false] at hm
    rcases hm with rfl | rfl | rfl
    · rcases find_cases h with ⟨rfl, rfl⟩ | ⟨es, e, l', rfl, he, hm, h⟩
      · rfl
      · cases he
    · rcases find_cases h with ⟨rfl, rfl⟩ | ⟨es, e, l', rfl, he, hm, h⟩
      · rfl
      cases he
      simp only [List.mem_cons, List.not_mem_nil, or_false] at hm
      rcases hm with rfl | rfl
      · rcases find_cases h with ⟨rfl, rfl⟩ | ⟨es, e, l', rfl, he, hm, h⟩
        · rfl
        · cases he
      · rcases find_cases h with ⟨rfl, rfl⟩ | ⟨es, e, l', rfl, he, hm, h⟩
        · rfl
        cases he
        simp only [List.mem_cons, List.not_mem_nil, or_false] at hm
        subst hm
        rcases find_cases h with ⟨rfl, rfl⟩ | ⟨es, e, l', rfl, he, hm, h⟩
        · rfl
        · cases he
    · rcases find_cases h with ⟨rfl, rfl⟩ | ⟨es, e, l', rfl, he, hm, h⟩
      · rfl
      · cases he
  · have h : resolve exElsewhere .completely inSource 8 dot = .error .failed := by rfl
    rw [resolve_add (by rw [h]; simp), h]

end Verif.Symlinks
