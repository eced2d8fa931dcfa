import Verif.Symlinks.Sound

/-!
# Resolving symbolic links: further lemmas
-/

namespace Verif.Symlinks

open Verif.Path

variable {root : Node} {m : Mode} {readable : Node → Bool}

/-! ## Paths in the result -/

theorem den_find {cur : List Str} {n k : Node} {p : List Str} (h : Den root cur n) (hf : n.find p = some k) (hk : k.isLink = false) :
    ∃ out, Leads root cur p out ∧ Den root out k := by
  induction p generalizing cur n with
  | nil => cases hf; exact ⟨cur, .done _, h⟩
  | cons x p ih =>
    simp only [Node.find] at hf
    cases he : n.entry x with
    | none => rw [he] at hf; cases hf
    | some c =>
      rw [he] at hf
      obtain ⟨es, rfl, h1⟩ := entry_some he
      have hl : c.isLink = false := by
        cases c with
        | link c =>
          cases p with
          | nil => cases hf; cases hk
          | cons y p => simp [Node.find, Node.entry] at hf
        | file => rfl
        | tree => rfl
      obtain ⟨mid, h2, h3⟩ := den_entry h (entryIn_mem h1) hl
      obtain ⟨out, h4, h5⟩ := ih h3 hf
      exact ⟨out, h2.comp h4, h5⟩

theorem leads_entry {cur out : List Str} {x : Str} (hx : GoodName x) (h : Leads root cur [x] out) :
    ∃ n, root.find (cur ++ [x]) = some n := by
  generalize hq : [x] = q at h
  cases h with
  | done => cases hq
  | skip h' _ => cases hq; exact absurd h' (good_ne hx)
  | up => cases hq; exact absurd rfl hx.2.2.2
  | down _ hn _ _ => cases hq; exact ⟨_, hn⟩
  | follow _ hn _ _ => cases hq; exact ⟨_, hn⟩

/-- Either the path is there in the result, or the way there passes a link that was left. -/
theorem den_reach {cur out : List Str} {n : Node} {p : List Str} (hg : Good p) (h : Den root cur n) (hl : Leads root cur p out) :
    (∃ k, n.find p = some k ∧ (k.isLink = false → Den root out k)) ∨ ∃ q s c, p = q ++ s ∧ n.find q = some (.link c) := by
  induction p generalizing cur n with
  | nil =>
    cases hl
    exact Or.inl ⟨n, rfl, fun _ => h⟩
  | cons x p ih =>
    have hx : GoodName x := hg x (by simp)
    obtain ⟨mid, h1, h2⟩ := Leads.split (l := [x]) (rest := p) hl
    obtain ⟨n0, h3⟩ := leads_entry hx h1
    obtain ⟨es0, h4, h5⟩ := find_init h3
    cases h with
    | file h => rw [h4] at h; cases h
    | @tree _ es es' o h hn hl' hd =>
      rw [h4] at h
      cases h
      have hs : x ∈ es'.map Prod.fst := by rw [hn]; exact entryIn_isSome.1 (by rw [h5]; rfl)
      obtain ⟨k, hk⟩ := Option.isSome_iff_exists.1 (entryIn_isSome.2 hs)
      have hm := entryIn_mem hk
      cases hb : k.isLink with
      | true =>
        right
        cases k with
        | link c => exact ⟨[x], p, c, rfl, by simp [Node.find, Node.entry, hk]⟩
        | file => cases hb
        | tree => cases hb
      | false =>
        have h6 := hl' _ hm hb
        have h7 := hd _ hm hb
        rw [h6.det h1] at h7
        rcases ih (fun a ha => hg a (List.mem_cons_of_mem _ ha)) h7 h2 with ⟨k', h8, h9⟩ | ⟨q, s, c, rfl, h8⟩
        · exact Or.inl ⟨k', by simp [Node.find, Node.entry, hk, h8], h9⟩
        · exact Or.inr ⟨x :: q, s, c, rfl, by simp [Node.find, Node.entry, hk, h8]⟩

theorem find_noLink {n k : Node} {p : List Str} (h : ∀ c, ¬ HasLink n c) (hf : n.find p = some k) : k.isLink = false := by
  cases k with
  | link c => exact absurd (find_link hf) (h c)
  | file => rfl
  | tree => rfl

theorem list_eq {X : Type} {a b : List (Str × X)} (h : a.map Prod.fst = b.map Prod.fst)
    (hd : (b.map Prod.fst).Nodup) (hv : ∀ e ∈ a, ∀ e' ∈ b, e.1 = e'.1 → e.2 = e'.2) : a = b := by
  induction a generalizing b with
  | nil => cases b with
    | nil => rfl
    | cons => cases h
  | cons x a ih =>
    cases b with
    | nil => cases h
    | cons y b =>
      simp only [List.map_cons, List.cons.injEq] at h
      simp only [List.map_cons, List.nodup_cons] at hd
      have h1 : x = y := Prod.ext h.1 (hv x (by simp) y (by simp) h.1)
      rw [h1, ih h.2 hd.2 fun e he e' he' => hv e (List.mem_cons_of_mem _ he) e' (List.mem_cons_of_mem _ he')]

theorem den_unique (hp : Proper root) {cur : List Str} {n n' : Node} (h : Den root cur n) (h' : Den root cur n')
    (hl : ∀ c, ¬ HasLink n c) (hl' : ∀ c, ¬ HasLink n' c) : n = n' := by
  induction h generalizing n' with
  | file h =>
    cases h' with
    | file h1 => rw [h] at h1; cases h1; rfl
    | tree h1 => rw [h] at h1; cases h1
  | @tree cur es es' o h hn h1 h2 ih =>
    cases h' with
    | file h3 => rw [h] at h3; cases h3
    | @tree _ es0 es'' o' h3 hn' h4 h5 =>
      rw [h] at h3
      cases h3
      have hnl : ∀ {l : List (Str × Node)}, (∀ c, ¬ HasLink (.tree l) c) → ∀ e ∈ l, e.2.isLink = false := by
        intro l hl e he
        cases hb : e.2 with
        | link c => exact absurd (.there he (hb ▸ .here c)) (hl c)
        | file => rfl
        | tree => rfl
      have hdn := (den_good hp (.tree h hn' h4 h5)).2
      refine congrArg Node.tree (list_eq (hn.trans hn'.symm) hdn fun e he e' he' hx => ?_)
      have g1 := hnl hl e he
      have g2 := hnl hl' e' he'
      have g3 := h4 e' he' g2
      have g4 := h5 e' he' g2
      rw [← hx] at g3 g4
      rw [g3.det (h1 e he g1)] at g4
      exact ih e he g1 g4 (fun c hc => hl c (.there he hc)) (fun c hc => hl' c (.there he' hc))

/-! ## Links that leave the tree -/

/-- All links of the source from a path on are confined. -/
def Fine (root : Node) (l : List Str) : Prop :=
  ∀ q c, root.find (l ++ q) = some (.link c) → confined c (render (l ++ q)) = .val true

theorem Fine.child {l : List Str} (h : Fine root l) (x : Str) : Fine root (l ++ [x]) := by
  intro q c hf
  rw [List.append_assoc] at hf ⊢
  exact h _ c hf

theorem fine_none {l : List Str} (h : root.find l = none) : Fine root l := by
  intro q c hf
  rw [find_append, h] at hf
  cases hf

theorem fine_file {l : List Str} {id : Str} {x : Bool} (h : root.find l = some (.file id x)) : Fine root l := by
  intro q c hf
  rw [find_append, h] at hf
  cases q with
  | nil => cases hf
  | cons y q => simp [Node.find, Node.entry] at hf

theorem fine_link {l : List Str} {c : Str} (h : root.find l = some (.link c)) (hc : confined c (render l) = .val true) :
    Fine root l := by
  intro q c' hf
  rw [find_append, h] at hf
  cases q with
  | nil =>
    cases hf
    simpa using hc
  | cons y q => simp [Node.find, Node.entry] at hf

theorem fine_tree {l : List Str} {es : List (Str × Node)} (h : root.find l = some (.tree es))
    (hc : ∀ e ∈ es, Fine root (l ++ [e.1])) : Fine root l := by
  intro q c hf
  cases q with
  | nil =>
    rw [List.append_nil, h] at hf
    cases hf
  | cons y q =>
    have : l ++ y :: q = l ++ [y] ++ q := by simp
    rw [this] at hf ⊢
    have hy : (root.find (l ++ [y])).isSome := by
      cases hh : root.find (l ++ [y]) with
      | none => rw [find_append, hh] at hf; cases hf
      | some => rfl
    obtain ⟨n, hn⟩ := Option.isSome_iff_exists.1 hy
    obtain ⟨es', h1, h2⟩ := find_init hn
    rw [h] at h1
    cases h1
    exact hc _ (entryIn_mem h2) q c hf

theorem proper_rebuilt {l : List Str} {es : List (Str × Node)} {f : Str → Resolved} (hl : Good l) (hp : Proper (.tree es))
    (hf : ∀ e ∈ es, Proper (f e.1).node) : Proper (.tree (rebuilt (render l) f es)) := by
  cases hp with
  | tree h1 h2 h3 =>
    rw [rebuilt_good hl h1]
    refine .tree ?_ ?_ ?_
    · intro e he
      obtain ⟨e', he', rfl⟩ := List.mem_map.1 he
      exact h1 e' he'
    · rw [List.map_map]
      exact h2
    · intro e he
      obtain ⟨e', he', rfl⟩ := List.mem_map.1 he
      exact hf e' he'

theorem proper_entry {es : List (Str × Node)} (hp : Proper (.tree es)) {e : Str × Node} (he : e ∈ es) : GoodName e.1 ∧ Proper e.2 := by
  cases hp with
  | tree h1 _ h3 => exact ⟨h1 e he, h3 e he⟩

mutual

theorem val_fine (hp : Proper root) (hm : m ≠ .ignore) {p : Str} {r : Resolved} :
    Val root m readable p r → ∀ l, Good l → p = render l →
      Fine root l ∧ Proper r.node ∧ ∃ lp, Good lp ∧ r.path = render lp ∧ Fine root lp
  | .source h hk => by
    intro l hl hpl
    have h' := h
    rw [hpl, getObject_render hl] at h'
    exact known_fine hp hm hk l hl hpl (proper_find hp h') (Or.inl h')
  | .missing h _ _ hv htr he hk => by
    intro l hl hpl
    have h' := h
    rw [hpl] at h'
    obtain ⟨d, x, hd⟩ := missing_snoc hl h'
    rw [hd] at hl hpl ⊢
    rw [hd, getObject_render hl] at h'
    obtain ⟨_, h1, lp, h2, h3, h4⟩ := val_fine hp hm hv d hl.left (by rw [hpl, parentPath_render hl, normal_join hl.left])
    have hx : GoodName x := hl x (by simp)
    rw [htr] at h1
    have hn := (proper_entry h1 (entryIn_mem he)).2
    have := known_fine hp hm hk (lp ++ [x]) (h2.snoc hx)
      (by rw [hpl, filename_render hx, h3]; exact childPath_render h2 hx) hn (Or.inr (h4.child x))
    exact ⟨fine_none h', this.2⟩
  | .known hq hk => by
    intro l hl hpl
    obtain ⟨l', hl', h1, h2, h3⟩ := asked_fine hp hm hq
    have h2' : Fine root l := (render_inj hl hl' (hpl.symm.trans h1)) ▸ h2
    exact known_fine hp hm hk l hl hpl h3 (Or.inr h2')

theorem known_fine (hp : Proper root) (hm : m ≠ .ignore) {p : Str} {n : Node} {r : Resolved} :
    Known root m readable p n r → ∀ l, Good l → p = render l → Proper n → root.find l = some n ∨ Fine root l →
      Fine root l ∧ Proper r.node ∧ ∃ lp, Good lp ∧ r.path = render lp ∧ Fine root lp
  | .file => by
    intro l hl hpl hn hs
    have hf : Fine root l := hs.elim fine_file id
    exact ⟨hf, hn, l, hl, hpl, hf⟩
  | .tree (es := es) (f := f) _ hf => by
    intro l hl hpl hn hs
    have hw := wanted_all hm es
    have hh : ∀ e ∈ es, _ := fun e he =>
      val_fine hp hm (hf e (hw.symm ▸ he)) (l ++ [e.1]) (hl.snoc (proper_entry hn he).1)
        (by rw [hpl]; exact childPath_render hl (proper_entry hn he).1)
    have hfi : Fine root l := hs.elim (fun h => fine_tree h fun e he => (hh e he).1) id
    refine ⟨hfi, ?_, l, hl, hpl, hfi⟩
    rw [hw, hpl]
    exact proper_rebuilt hl hn fun e he => (hh e he).2.1
  | .keep _ hc _ => by
    intro l hl hpl hn hs
    have hc' := hc
    rw [hpl] at hc'
    have hf : Fine root l := hs.elim (fun h => fine_link h hc') id
    exact ⟨hf, hn, l, hl, hpl, hf⟩
  | .follow (c := c) _ hc hu hv => by
    intro l hl hpl hn hs
    have hc' := hc
    rw [hpl] at hc'
    have hf : Fine root l := hs.elim (fun h => fine_link h hc') id
    obtain ⟨l', hg, ht⟩ : ∃ l', Good l' ∧ targetPath (render l) c = render l' := by
      rcases eq_nil_or_snoc l with h | ⟨d, x, h⟩
      · rw [h] at hc' ⊢
        obtain ⟨ha, hu'⟩ := confined_dot hc'
        refine ⟨_, spot_good (dir := []) (c := c) (by simp [Good]), ?_⟩
        unfold targetPath
        have : parentPath (render []) = joinWith '/' [] := by decide
        rw [this, toNormalPath_eq, place_target (by simp [Good]) ha, spot_eq hu']
        rfl
      · rw [h] at hc' hl ⊢
        exact ⟨_, spot_good hl.left, targetPath_render hl hc'⟩
    exact ⟨hf, (val_fine hp hm hv l' hg (by rw [hpl]; exact ht)).2⟩

theorem asked_fine (hp : Proper root) (hm : m ≠ .ignore) {p : Str} {n : Node} :
    Asked root m readable p n → ∃ l, Good l ∧ p = render l ∧ Fine root l ∧ Proper n
  | .top (p := p) (rp := rp) (es := es) (es' := es') (e := e) hq h _ hv htr he hx => by
    obtain ⟨l, hl, hpl⟩ := requested_render hq
    have h' := h
    rw [hpl] at h'
    obtain ⟨d, x, hd⟩ := missing_snoc hl h'
    rw [hd] at hl hpl
    obtain ⟨_, h1, lp, h2, h3, h4⟩ := val_fine hp hm hv d hl.left (by rw [hpl, parentPath_render hl, normal_join hl.left])
    have hxg : GoodName x := hl x (by simp)
    rw [htr] at h1
    have hn := proper_entry (proper_entry h1 (entryIn_mem he)).2 hx
    refine ⟨lp ++ [x] ++ [e.1], (h2.snoc hxg).snoc hn.1, ?_, (h4.child x).child e.1, hn.2⟩
    rw [hpl, filename_render hxg, h3]
    have : toNormalPath (append (render lp) x) = render (lp ++ [x]) := childPath_render h2 hxg
    rw [this]
    exact childPath_render (h2.snoc hxg) hn.1
  | .deeper (es := es) (e := e) h hx => by
    obtain ⟨l, hl, hpl, hs, hn⟩ := asked_fine hp hm h
    have hn := proper_entry hn hx
    exact ⟨l ++ [e.1], hl.snoc hn.1, by rw [hpl]; exact childPath_render hl hn.1, hs.child e.1, hn.2⟩

end

end Verif.Symlinks
