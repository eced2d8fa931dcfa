import Verif.Symlinks.Lemmas

/-!
# Resolving symbolic links: what values mean
-/

namespace Verif.Symlinks

open Verif.Path

variable {root : Node} {m : Mode} {readable : Node → Bool}

mutual

/-- Links are left only by partial resolution, and only those not going upwards. -/
theorem val_links {p : Str} {r : Resolved} : Val root m readable p r → ∀ c, HasLink r.node c →
    m = .partially ∧ nonUpwards c = .val true
  | .source _ hk => known_links hk
  | .missing _ _ _ _ _ _ hk => known_links hk
  | .known _ hk => known_links hk

theorem known_links {p : Str} {n : Node} {r : Resolved} : Known root m readable p n r → ∀ c, HasLink r.node c →
    m = .partially ∧ nonUpwards c = .val true
  | .file => by
    intro c h
    cases h
  | .tree _ hf => by
    intro c h
    cases h with
    | there he h =>
      unfold rebuilt at he
      obtain ⟨e, he', rfl⟩ := List.mem_map.1 he
      exact val_links (hf e he') c h
  | .keep hm _ hu => by
    intro c h
    cases h
    exact ⟨hm, hu⟩
  | .follow _ _ _ hv => val_links hv

end

/-- What the value for a directory or file reached holds: the same files, the same names, and below each name what following
it leads to. Nothing is said about links that are left. -/
inductive Den (root : Node) : List Str → Node → Prop where
  | file {cur : List Str} {id : Str} {x : Bool} (h : root.find cur = some (.file id x)) : Den root cur (.file id x)
  | tree {cur : List Str} {es es' : List (Str × Node)} {o : Str → List Str} (h : root.find cur = some (.tree es))
      (hn : es'.map Prod.fst = es.map Prod.fst)
      (hl : ∀ e ∈ es', e.2.isLink = false → Leads root cur [e.1] (o e.1))
      (hd : ∀ e ∈ es', e.2.isLink = false → Den root (o e.1) e.2) : Den root cur (.tree es')

/-- What a value means for a path. -/
def Sem (root : Node) (l : List Str) (r : Resolved) : Prop :=
  r.node.isLink = true ∨ ∃ cur lp, Leads root [] l cur ∧ Den root cur r.node ∧ Good lp ∧ r.path = render lp ∧ Leads root [] lp cur

/-- What a node taken for a path is: the one in the source, or one from a resolved tree. -/
def Src (root : Node) (m : Mode) (l : List Str) (n : Node) : Prop :=
  root.find l = some n ∨ (∃ c, n = .link c ∧ m = .partially ∧ nonUpwards c = .val true) ∨
    ∃ cur, Leads root [] l cur ∧ Den root cur n

theorem wanted_all (hm : m ≠ .ignore) (es : List (Str × Node)) : wanted m es = es := by
  unfold wanted
  rw [List.filter_eq_self]
  intro e _
  simp [hm]

theorem rebuilt_good {l : List Str} (hl : Good l) {es : List (Str × Node)} (hg : ∀ e ∈ es, GoodName e.1) (f : Str → Resolved) :
    rebuilt (render l) f es = es.map fun e => (e.1, (f e.1).node) := by
  unfold rebuilt
  refine List.map_congr_left fun e he => ?_
  rw [childPath_render hl (hg e he), filename_render (hg e he)]

theorem den_tree {cur : List Str} {es : List (Str × Node)} (h : Den root cur (.tree es)) :
    ∃ es0, root.find cur = some (.tree es0) ∧ es.map Prod.fst = es0.map Prod.fst := by
  cases h with
  | tree h hn _ _ => exact ⟨_, h, hn⟩

theorem den_entry {cur : List Str} {es : List (Str × Node)} (h : Den root cur (.tree es)) {e : Str × Node} (he : e ∈ es)
    (hl : e.2.isLink = false) : ∃ out, Leads root cur [e.1] out ∧ Den root out e.2 := by
  cases h with
  | tree _ _ h1 h2 => exact ⟨_, h1 e he hl, h2 e he hl⟩

theorem den_good (hp : Proper root) {cur : List Str} {es : List (Str × Node)} (h : Den root cur (.tree es)) :
    (∀ e ∈ es, GoodName e.1) ∧ (es.map Prod.fst).Nodup := by
  obtain ⟨es0, h0, hn⟩ := den_tree h
  have := proper_find hp h0
  cases this with
  | tree h1 h2 _ =>
    refine ⟨fun e he => ?_, hn ▸ h2⟩
    have hm : e.1 ∈ es0.map Prod.fst := hn ▸ List.mem_map_of_mem he
    obtain ⟨e', he', hx⟩ := List.mem_map.1 hm
    exact hx ▸ h1 e' he'

/-- The entry of a resolved tree. -/
theorem src_entry {l cur : List Str} {es : List (Str × Node)} {e : Str × Node} (hl : Leads root [] l cur)
    (h : Den root cur (.tree es)) (he : e ∈ es) (hk : ∀ c, e.2 = .link c → m = .partially ∧ nonUpwards c = .val true) :
    Src root m (l ++ [e.1]) e.2 := by
  cases hb : e.2.isLink with
  | true =>
    obtain ⟨x, n⟩ := e
    cases n with
    | link c => exact Or.inr (Or.inl ⟨c, rfl, hk c rfl⟩)
    | file => cases hb
    | tree => cases hb
  | false =>
    obtain ⟨out, h1, h2⟩ := den_entry h he hb
    exact Or.inr (Or.inr ⟨out, hl.comp h1, h2⟩)

/-- A rebuilt tree. -/
theorem sem_tree (hp : Proper root) {l : List Str} {es : List (Str × Node)} {f : Str → Resolved} (hl : Good l)
    (hs : Src root m l (.tree es)) (hf : ∀ e ∈ es, GoodName e.1 → Sem root (l ++ [e.1]) (f e.1)) :
    Sem root l ⟨.tree (rebuilt (render l) f es), render l⟩ := by
  obtain ⟨cur, es0, hlc, h0, hn⟩ : ∃ cur es0, Leads root [] l cur ∧ root.find cur = some (.tree es0) ∧
      es.map Prod.fst = es0.map Prod.fst := by
    rcases hs with h | ⟨_, h, _⟩ | ⟨cur, h1, h2⟩
    · exact ⟨l, es, leads_self hp h rfl, h, rfl⟩
    · cases h
    · obtain ⟨es0, h3, h4⟩ := den_tree h2
      exact ⟨cur, es0, h1, h3, h4⟩
  have hg : ∀ e ∈ es, GoodName e.1 := by
    intro e he
    have := proper_find hp h0
    cases this with
    | tree h1 _ _ =>
      have hm : e.1 ∈ es0.map Prod.fst := hn ▸ List.mem_map_of_mem he
      obtain ⟨e', he', hx⟩ := List.mem_map.1 hm
      exact hx ▸ h1 e' he'
  have ho : ∀ x, ∃ o, (∃ e ∈ es, e.1 = x) → (f x).node.isLink = false → Leads root cur [x] o ∧ Den root o (f x).node := by
    intro x
    by_cases hx : ∃ e ∈ es, e.1 = x
    · obtain ⟨e, he, rfl⟩ := hx
      rcases hf e he (hg e he) with h | ⟨o, _, h1, h2, _⟩
      · exact ⟨[], fun _ h' => by rw [h] at h'; cases h'⟩
      · refine ⟨o, fun _ _ => ⟨?_, h2⟩⟩
        obtain ⟨mid, h3, h4⟩ := Leads.split h1
        rwa [h3.det hlc] at h4
    · exact ⟨[], fun h => absurd h hx⟩
  obtain ⟨o, ho⟩ := Classical.skolem.1 ho
  refine Or.inr ⟨cur, l, hlc, ?_, hl, rfl, hlc⟩
  rw [rebuilt_good hl hg]
  refine .tree (o := o) h0 (by rw [List.map_map]; exact hn) ?_ ?_
  · intro e he hb
    obtain ⟨e', he', rfl⟩ := List.mem_map.1 he
    exact (ho e'.1 ⟨e', he', rfl⟩ hb).1
  · intro e he hb
    obtain ⟨e', he', rfl⟩ := List.mem_map.1 he
    exact (ho e'.1 ⟨e', he', rfl⟩ hb).2

/-- Going on from a resolved directory. -/
theorem sem_parent {l : List Str} {x : Str} {rp : Resolved} {es : List (Str × Node)} {n : Node}
    (hg : Good (l ++ [x])) (hs : Sem root l rp) (ht : rp.node = .tree es)
    (hk : ∀ c, HasLink rp.node c → m = .partially ∧ nonUpwards c = .val true) (he : entryIn es x = some n) :
    ∃ lp, Good (lp ++ [x]) ∧ toNormalPath (append rp.path x) = render (lp ++ [x]) ∧ Src root m (lp ++ [x]) n ∧
      ∀ cur, Leads root [] (l ++ [x]) cur ↔ Leads root [] (lp ++ [x]) cur := by
  rcases hs with h | ⟨cur, lp, h1, h2, h3, h4, h5⟩
  · rw [ht] at h
    cases h
  · have hx : GoodName x := hg x (by simp)
    refine ⟨lp, h3.snoc hx, ?_, ?_, ?_⟩
    · rw [h4]
      exact childPath_render h3 hx
    · rw [ht] at h2
      have hm := entryIn_mem he
      refine src_entry (m := m) h5 h2 hm fun c hc => hk c ?_
      rw [ht]
      have hc' : n = .link c := hc
      subst hc'
      exact .there hm (.here c)
    · intro out
      constructor
      · intro h
        obtain ⟨mid, h6, h7⟩ := Leads.split h
        rw [h6.det h1] at h7
        exact h5.comp h7
      · intro h
        obtain ⟨mid, h6, h7⟩ := Leads.split h
        rw [h6.det h5] at h7
        exact h1.comp h7

theorem Sem.congr {l l' : List Str} {r : Resolved} (h : Sem root l r) (hc : ∀ cur, Leads root [] l' cur ↔ Leads root [] l cur) :
    Sem root l' r := by
  rcases h with h | ⟨cur, lp, h1, h2⟩
  · exact Or.inl h
  · exact Or.inr ⟨cur, lp, (hc cur).2 h1, h2⟩

theorem missing_snoc {l : List Str} (hg : Good l) (h : getObject root (render l) = none) : ∃ d x, l = d ++ [x] := by
  rcases eq_nil_or_snoc l with rfl | h'
  · rw [getObject_render hg] at h
    cases h
  · exact h'

theorem sem_follow (hp : Proper root) (ht : ∀ c, HasLink root c → Tame c) {l : List Str} {c : Str} {r : Resolved}
    (hl : Good l) (hc : confined c (render l) = .val true) (hu : m = .completely ∨ nonUpwards c = .val false)
    (hs : Src root m l (.link c))
    (hv : ∀ l', Good l' → targetPath (render l) c = render l' → Sem root l' r) : Sem root l r := by
  rcases hs with h | ⟨_, h, hm', hn⟩ | ⟨cur, _, h2⟩
  · rcases eq_nil_or_snoc l with rfl | ⟨d, x, rfl⟩
    · cases h
      obtain ⟨ha, hu'⟩ := confined_dot hc
      have he : targetPath (render []) c = render (spot [] c).down := by
        unfold targetPath
        have : parentPath (render []) = joinWith '/' [] := by decide
        rw [this, toNormalPath_eq, place_target (by simp [Good]) ha, spot_eq hu']
        rfl
      refine Or.inl ?_
      rcases hv _ (spot_good (by simp [Good])) he with h | ⟨cur, lp, _, hd, _⟩
      · exact h
      · exfalso
        generalize r.node = rn at hd
        cases hd with
        | file h =>
          cases cur with
          | nil => cases h
          | cons => simp [Node.find, Node.entry] at h
        | tree h =>
          cases cur with
          | nil => cases h
          | cons => simp [Node.find, Node.entry] at h
    · rcases hv _ (spot_good hl.left) (targetPath_render hl hc) with h' | ⟨cur, lp, h1, h2⟩
      · exact Or.inl h'
      · exact Or.inr ⟨cur, lp, leads_target hp h hc (ht c (find_link h)) h1, h2⟩
  · cases h
    rcases hu with hu | hu
    · rw [hm'] at hu
      cases hu
    · rw [hn] at hu
      cases hu
  · cases h2

theorem sem_asked (hp : Proper root) {d : List Str} {x : Str} {rp : Resolved} {es es' : List (Str × Node)} {e : Str × Node}
    (hl : Good (d ++ [x])) (hs : Sem root d rp) (htr : rp.node = .tree es)
    (hk : ∀ c, HasLink rp.node c → m = .partially ∧ nonUpwards c = .val true)
    (he : entryIn es x = some (.tree es')) (hx : e ∈ es') :
    ∃ l, Good l ∧ childPath (toNormalPath (append rp.path x)) e.1 = render l ∧ Src root m l e.2 ∧
      ∀ c, HasLink e.2 c → m = .partially ∧ nonUpwards c = .val true := by
  obtain ⟨lp, h1, h2, h3, h4⟩ := sem_parent (m := m) hl hs htr hk he
  rw [h2]
  rw [htr] at hk
  have hk' : ∀ c, HasLink (.tree es') c → m = .partially ∧ nonUpwards c = .val true :=
    fun c hc => hk c (.there (entryIn_mem he) hc)
  obtain ⟨cur, hlc, hd⟩ : ∃ cur, Leads root [] (lp ++ [x]) cur ∧ Den root cur (.tree es') := by
    rcases hs with h | ⟨cur, lp', g1, g2, g3, g4, g5⟩
    · rw [htr] at h
      cases h
    · rw [htr] at g2
      obtain ⟨out, g6, g7⟩ := den_entry g2 (entryIn_mem he) rfl
      exact ⟨out, (h4 out).1 (g1.comp g6), g7⟩
  have hge := (den_good hp hd).1 e hx
  refine ⟨lp ++ [x] ++ [e.1], h1.snoc hge, childPath_render h1 hge, ?_, fun c hc => hk' c (.there hx hc)⟩
  exact src_entry hlc hd hx fun c hc => hk' c (.there hx (hc ▸ .here c))

mutual

theorem val_sem (hp : Proper root) (ht : ∀ c, HasLink root c → Tame c) (hm : m ≠ .ignore) {p : Str} {r : Resolved} :
    Val root m readable p r → ∀ l, Good l → p = render l → Sem root l r
  | .source h hk => by
    intro l hl hpl
    have h' := h
    rw [hpl, getObject_render hl] at h'
    exact known_sem hp ht hm hk l hl hpl (Or.inl h')
  | .missing h _ _ hv htr he hk => by
    intro l hl hpl
    have h' := h
    rw [hpl] at h'
    obtain ⟨d, x, hd⟩ := missing_snoc hl h'
    rw [hd] at hl hpl ⊢
    have hs := val_sem hp ht hm hv d hl.left (by rw [hpl, parentPath_render hl, normal_join hl.left])
    have hx : GoodName x := hl x (by simp)
    have he' := he
    rw [hpl, filename_render hx] at he'
    obtain ⟨lp, h1, h2, h3, h4⟩ := sem_parent (m := m) hl hs htr (val_links hv) he'
    exact (known_sem hp ht hm hk _ h1 (by rw [hpl, filename_render hx]; exact h2) h3).congr h4
  | .known hq hk => by
    intro l hl hpl
    obtain ⟨l', hl', h1, h2, _⟩ := asked_sem hp ht hm hq
    have h2' : Src root m l _ := (render_inj hl hl' (hpl.symm.trans h1)) ▸ h2
    exact known_sem hp ht hm hk l hl hpl h2'

theorem known_sem (hp : Proper root) (ht : ∀ c, HasLink root c → Tame c) (hm : m ≠ .ignore) {p : Str} {n : Node}
    {r : Resolved} : Known root m readable p n r → ∀ l, Good l → p = render l → Src root m l n → Sem root l r
  | .file => by
    intro l hl hpl hs
    rcases hs with h | ⟨_, h, _⟩ | ⟨cur, h1, h2⟩
    · exact Or.inr ⟨l, l, leads_self hp h rfl, .file h, hl, hpl, leads_self hp h rfl⟩
    · cases h
    · exact Or.inr ⟨cur, l, h1, h2, hl, hpl, h1⟩
  | .tree (es := es) (f := f) _ hf => by
    intro l hl hpl hs
    have hw := wanted_all hm es
    have hh : ∀ e ∈ es, GoodName e.1 → Sem root (l ++ [e.1]) (f e.1) := fun e he hg =>
      val_sem hp ht hm (hf e (hw.symm ▸ he)) _ (hl.snoc hg) (by rw [hpl]; exact childPath_render hl hg)
    rw [hw, hpl]
    exact sem_tree hp hl hs hh
  | .keep _ _ _ => by
    intro l hl hpl hs
    exact Or.inl rfl
  | .follow (c := c) _ hc hu hv => by
    intro l hl hpl hs
    have hc' := hc
    rw [hpl] at hc'
    have hh : ∀ l', Good l' → targetPath (render l) c = render l' → Sem root l' r := fun l' hg he =>
      val_sem hp ht hm hv l' hg (by rw [hpl]; exact he)
    exact sem_follow hp ht hl hc' hu hs hh

theorem asked_sem (hp : Proper root) (ht : ∀ c, HasLink root c → Tame c) (hm : m ≠ .ignore) {p : Str} {n : Node} :
    Asked root m readable p n → ∃ l, Good l ∧ p = render l ∧ Src root m l n ∧
      ∀ c, HasLink n c → m = .partially ∧ nonUpwards c = .val true
  | .top (p := p) (rp := rp) (es := es) (es' := es') (e := e) hq h _ hv htr he hx => by
    obtain ⟨l, hl, hpl⟩ := requested_render hq
    have h' := h
    rw [hpl] at h'
    obtain ⟨d, x, hd⟩ := missing_snoc hl h'
    rw [hd] at hl hpl
    have hs := val_sem hp ht hm hv d hl.left (by rw [hpl, parentPath_render hl, normal_join hl.left])
    have hxg : GoodName x := hl x (by simp)
    have he' := he
    rw [hpl, filename_render hxg] at he'
    rw [hpl, filename_render hxg]
    exact sem_asked hp hl hs htr (val_links hv) he' hx
  | .deeper (es := es) (e := e) h hx => by
    obtain ⟨l, hl, hpl, hs, hk⟩ := asked_sem hp ht hm h
    have hh : GoodName e.1 ∧ Src root m (l ++ [e.1]) e.2 := by
      rcases hs with h | ⟨_, h, _⟩ | ⟨cur, h1, h2⟩
      · have hpr := proper_find hp h
        cases hpr with
        | tree g1 g2 _ =>
          refine ⟨g1 e hx, Or.inl ?_⟩
          rw [find_snoc, h]
          exact mem_entryIn g2 hx
      · cases h
      · exact ⟨(den_good hp h2).1 e hx, src_entry h1 h2 hx fun c hc => hk c (.there hx (hc ▸ .here c))⟩
    exact ⟨l ++ [e.1], hl.snoc hh.1, by rw [hpl]; exact childPath_render hl hh.1, hh.2, fun c hc => hk c (.there hx hc)⟩

end

end Verif.Symlinks
