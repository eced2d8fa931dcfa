import Verif.Remote.ResponseProps
import Verif.Remote.ActionKeyProps

/-!
# Responses to executions (C78): what a client of the execution service gets
-/

namespace Verif.Response

open Verif.Dig Verif.RE Verif.Wire

/-- It is known which links were to be directories, or there are none. -/
def KnownLinks (r : Result) : Prop := r.links = [] ∨ r.fileLinks ≠ [] ∨ r.dirLinks ≠ []

theorem knownLinks_iff (r : Result) : r.knownLinks = true ↔ KnownLinks r := by
  unfold Result.knownLinks KnownLinks
  cases r.links <;> cases r.fileLinks <;> cases r.dirLinks <;> simp

theorem trees_end {h : Hash} {cas : Cas} : ∀ {l : List (Str × Dig.Wire)},
    (∀ x ∈ l, ∃ d, fromBazel h.type x.2 = some d ∧ Whole h.sha cas d.hash) →
    ∃ k, ∀ n ≥ k, ∀ x ∈ l, ∀ d, fromBazel h.type x.2 = some d → ∃ t, makeTree cas n d.hash = some t ∧ TreeOf cas d.hash t
  | [], _ => ⟨0, fun _ _ _ h => (nomatch h)⟩
  | x :: r, hl => by
    obtain ⟨d, hd, hw⟩ := hl x (List.mem_cons_self ..)
    obtain ⟨k, t, e, ht⟩ := makeTree_ends hw
    obtain ⟨k', h'⟩ := trees_end fun y hy => hl y (List.mem_cons_of_mem _ hy)
    refine ⟨k + k', fun n hn y hy d' hd' => ?_⟩
    rcases List.mem_cons.1 hy with rfl | hy
    · rw [hd] at hd'
      cases hd'
      exact ⟨t, by rw [show n = n - k + k by omega]; exact e _, ht⟩
    · exact h' n (by omega) y hy d' hd'

theorem wire_of {t : HashType} {w : Dig.Wire} {d : Digest} (e : fromBazel t w = some d) (hs : d.size < 2 ^ 63) :
    ∃ w', toBazel d = some w' ∧ fromBazel t w' = some d := by
  obtain ⟨hv, ht, _⟩ := C44_accepts_partial t w d e
  rw [← ht]
  exact C44_round_trip d hv hs

theorem ready_of {h : Hash} {cas : Cas} {r : Result} (hr : Proper h cas r) {n : Nat} {C : Str → Prop}
    (ht : h.type.native = false → ∀ x ∈ r.dirs, ∀ d, fromBazel h.type x.2 = some d →
      ∃ t, makeTree cas n d.hash = some t ∧ TreeOf cas d.hash t ∧ C t.text) {p : Str} {i : ObjectInfo}
    (hi : Reported h r p i) : Ready h cas n C i := by
  cases hi with
  | @file f d hf e =>
    obtain ⟨d', e', hs⟩ := hr.files _ hf
    rw [e] at e'
    cases e'
    refine ⟨rfl, ?_⟩
    dsimp only
    cases f.exec <;> exact wire_of e hs
  | link hx => exact ⟨rfl, _, hr.stored _ hx, rfl⟩
  | @dir x d hx e =>
    obtain ⟨d', e', hs, hw⟩ := hr.dirs _ hx
    rw [e] at e'
    cases e'
    refine ⟨rfl, ?_⟩
    show if _ then _ else _
    split
    · exact wire_of e hs
    · rename_i hn
      have hn : h.type.native = false := by simpa using hn
      obtain ⟨t, hm, htr, hC⟩ := ht hn x hx d e
      refine ⟨t, hm, htr, hC, ?_⟩
      obtain ⟨hwh, s, hc, hsz⟩ := hw hn
      obtain ⟨m, _, hc', hsha, _⟩ := hwh.content
      have h1 : s = t.root.text := by
        have := htr.root
        rw [hc] at this
        exact Option.some.inj this
      have h2 : m.text = t.root.text := by
        have := htr.root
        rw [hc'] at this
        exact Option.some.inj this
      obtain ⟨hv, hty, _⟩ := C44_accepts_partial h.type x.2 d e
      have hfalse : d.tree = false := by
        cases hd : d.tree with
        | false => rfl
        | true =>
          have := hv.tree hd
          rw [hty] at this
          rw [this] at hn
          cases hn
      obtain ⟨dh, dt, dtr, dsz⟩ := d
      dsimp only at hsha hsz hty hfalse
      subst hty hfalse
      rw [hsz, ← hsha, h1, h2]

/-- The service answers, and from its answer the artifacts can be read off. -/
theorem serve_out {h : Hash} (hh : h.Proper) {visit : Infos → Infos} (hv : ∀ m, List.Perm (visit m) m) {cas : Cas}
    {r : Result} (hr : Proper h cas r) (ha : h.type.native = false → Apart h cas r) {legacy : Bool}
    (hl : legacy = true → KnownLinks r) : ∃ k, ∀ n ≥ k, ∃ l r' cas', serve h visit n legacy cas r = some (r', cas') ∧
      Le cas cas' ∧ (l.map Prod.fst).Nodup ∧ (∀ x, x ∈ l ↔ Reported h r x.1 x.2) ∧
      Out h cas legacy (if r.knownLinks then some (r.dirLinks.map Prod.fst) else none) l r' cas' := by
  obtain ⟨k, hk⟩ := C78_local h cas r hr
  have htree : ∃ k, ∀ n ≥ k, h.type.native = false → ∀ x ∈ r.dirs, ∀ d, fromBazel h.type x.2 = some d →
      ∃ t, makeTree cas n d.hash = some t ∧ TreeOf cas d.hash t ∧ TreeText h cas r t.text := by
    cases hn : h.type.native with
    | true => exact ⟨0, fun _ _ h => (nomatch h)⟩
    | false =>
      obtain ⟨k, hk⟩ := trees_end (h := h) (cas := cas) (l := r.dirs) fun x hx => by
        obtain ⟨d, hd, _, hw⟩ := hr.dirs x hx
        exact ⟨d, hd, (hw hn).1⟩
      refine ⟨k, fun n hn' _ x hx d hd => ?_⟩
      obtain ⟨t, hm, ht⟩ := hk n hn' x hx d hd
      exact ⟨t, hm, ht, x, hx, d, n, t, hd, hm, rfl⟩
  obtain ⟨k', hk'⟩ := htree
  refine ⟨k + k', fun n hn => ?_⟩
  obtain ⟨s, es, hs, hnd, hdl, _⟩ := hk n (by omega)
  have hmem : ∀ x, x ∈ s.infos ↔ Reported h r x.1 x.2 := fun x => by
    rw [← hs, assoc_func (func_of_nodup hnd)]
  have hmem' : ∀ x, x ∈ visit s.infos ↔ Reported h r x.1 x.2 := fun x => by rw [(hv _).mem_iff, hmem]
  have hnd' : ((visit s.infos).map Prod.fst).Nodup := ((hv s.infos).map _).nodup_iff.2 hnd
  have hC : (∀ c c', (h.type.native = false ∧ TreeText h cas r c) → (h.type.native = false ∧ TreeText h cas r c') →
      h.sha c = h.sha c' → c = c') := fun c c' hc hc' e => (ha hc.1).inj c c' hc.2 hc'.2 e
  obtain ⟨r', cas', e, _, hle, o⟩ := convert_out hh (base := cas) (n := n)
    (C := fun c => h.type.native = false ∧ TreeText h cas r c) legacy
    (if r.knownLinks then some (r.dirLinks.map Prod.fst) else none) hC (fun c hc => (ha hc.1).short c hc.2)
    (visit s.infos) cas (fun x hx => ready_of hr (fun hn' y hy d hd => by
      obtain ⟨t, hm, ht, hT⟩ := hk' n (by omega) hn' y hy d hd
      exact ⟨t, hm, ht, hn', hT⟩) ((hmem' x).1 hx)) ⟨Le.refl _, fun c hc => (ha hc.1).old c hc.2⟩
  refine ⟨visit s.infos, r', cas', ?_, hle, hnd', hmem', o⟩
  unfold serve
  rw [es, Option.bind_some, hdl]
  have : (legacy && !r.knownLinks) = false := by
    cases hlg : legacy with
    | false => rfl
    | true => rw [(knownLinks_iff r).2 (hl hlg)]; rfl
  rw [this, if_neg (by decide)]
  exact e

theorem linkInfos_append (h : Hash) (a b : List (Str × Str)) : linkInfos h (a ++ b) = linkInfos h a ++ linkInfos h b :=
  List.map_append

/-- The links in the answer. -/
theorem mem_allLinks {h : Hash} {cas cas' : Cas} {r r' : Result} {l : Infos} {legacy : Bool}
    (hr : Proper h cas r) (hl : legacy = true → KnownLinks r) (hmem : ∀ x, x ∈ l ↔ Reported h r x.1 x.2)
    (o : Out h cas legacy (if r.knownLinks then some (r.dirLinks.map Prod.fst) else none) l r' cas') (y : Str × Str) :
    y ∈ r'.allLinks ↔ y ∈ r.allLinks := by
  have hlink : ∀ x ∈ l, isLink x = true → linkOf cas x ∈ r.allLinks := by
    intro x hx hl
    obtain ⟨p, i⟩ := x
    have := (hmem _).1 hx
    cases this with
    | @file f _ _ _ =>
      unfold isLink at hl
      dsimp only at hl
      cases hf : f.exec <;> rw [hf] at hl <;> cases hl
    | @link x hy =>
      unfold linkOf
      dsimp only
      rw [hr.stored _ hy]
      exact hy
    | dir _ _ => cases hl
  have hback : ∀ z ∈ r.allLinks, ∃ x ∈ l, isLink x = true ∧ linkOf cas x = z ∧ x.1 = z.1 := fun z hz =>
    ⟨(z.1, ⟨⟨h.sha z.2, h.type, false, z.2.length⟩, .symlink, false⟩), (hmem _).2 (.link hz), rfl, by
      unfold linkOf
      dsimp only
      rw [hr.stored _ hz]
      rfl, rfl⟩
  unfold Result.allLinks
  rw [o.links, o.dirLinks, o.fileLinks]
  constructor
  · intro hy
    rcases List.mem_append.1 hy with hy | hy
    · split at hy
      · cases hy
      · obtain ⟨x, hx, rfl⟩ := List.mem_map.1 hy
        exact hlink x (List.mem_filter.1 hx).1 (List.mem_filter.1 hx).2
    · split at hy
      · rw [Option.elim_some, Option.elim_some] at hy
        rcases List.mem_append.1 hy with hy | hy
        all_goals
          obtain ⟨x, hx, rfl⟩ := List.mem_map.1 hy
          exact hlink x (List.mem_filter.1 hx).1 (Bool.and_eq_true_iff.1 (List.mem_filter.1 hx).2).1
      · cases hy
  · intro hy
    obtain ⟨x, hx, hxl, rfl, _⟩ := hback y hy
    cases hlg : legacy with
    | false =>
      refine List.mem_append_left _ ?_
      rw [if_neg (by decide)]
      exact List.mem_map_of_mem (List.mem_filter.2 ⟨hx, hxl⟩)
    | true =>
      refine List.mem_append_right _ ?_
      rw [(knownLinks_iff r).2 (hl hlg), if_pos rfl, Option.elim_some, Option.elim_some]
      by_cases hq : x.1 ∈ r.dirLinks.map Prod.fst
      · exact List.mem_append_right _ (List.mem_map_of_mem (List.mem_filter.2 ⟨hx, by rw [hxl, decide_eq_true hq]; rfl⟩))
      · exact List.mem_append_left _ (List.mem_map_of_mem (List.mem_filter.2 ⟨hx, by rw [hxl, decide_eq_false hq]; rfl⟩))

/-- C78: a client of the execution service gets, for the outputs of an action, the very artifacts local execution
reports: files, links and directories, with the same digests (in compatible mode, directories are sent in a different
form), and the same answer about links leaving directories. In compatible mode, afterwards all directories within the
outputs, as well as the targets of links, were uploaded. This holds for all orders in which artifacts are visited, and
also if the CAS grows in between. -/
theorem C78_same (h : Hash) (hh : h.Proper) (visit : Infos → Infos) (hv : ∀ m, List.Perm (visit m) m) (cas : Cas)
    (r : Result) (hr : Proper h cas r) (ha : h.type.native = false → Apart h cas r) (legacy : Bool)
    (hl : legacy = true → KnownLinks r) : ∃ k, ∀ n ≥ k, ∃ r' cas', serve h visit n legacy cas r = some (r', cas') ∧
      Le cas cas' ∧ ∀ cas'', Le cas' cas'' → ∃ g, clientSeen h cas'' r' = some g ∧
        (∀ p i, assoc p g.infos = some i ↔ Reported h r p i) ∧ (g.up = true ↔ LinksUp h cas r) ∧
        (h.type.native = false → (∀ x ∈ r.allLinks, x.2 ∈ g.uploaded) ∧
          ∀ x ∈ r.dirs, ∀ d, fromBazel h.type x.2 = some d → Uploads cas d.hash g.uploaded) := by
  obtain ⟨k, hk⟩ := serve_out hh hv hr ha hl
  refine ⟨k, fun n hn => ?_⟩
  obtain ⟨l, r', cas', e, hle, hnd, hmem, o⟩ := hk n hn
  refine ⟨r', cas', e, hle, fun cas'' hle' => ?_⟩
  have hlinks := mem_allLinks hr hl hmem o
  have hinfos : ∀ x, x ∈ l.filter isFile ++ (linkInfos h r'.allLinks ++ l.filter isTree) ↔ x ∈ l := by
    intro x
    rw [List.mem_append, List.mem_append, List.mem_filter, List.mem_filter, mem_linkInfos]
    constructor
    · rintro (hx | ⟨y, hy, rfl⟩ | hx)
      · exact hx.1
      · exact (hmem _).2 (.link ((hlinks y).1 hy))
      · exact hx.1
    · intro hx
      obtain ⟨p, i⟩ := x
      have := (hmem _).1 hx
      cases this with
      | @file f d _ _ =>
        refine .inl ⟨hx, ?_⟩
        unfold isFile
        dsimp only
        cases f.exec <;> rfl
      | @link y hy => exact .inr (.inl ⟨y, (hlinks y).2 hy, rfl⟩)
      | dir _ _ => exact .inr (.inr ⟨hx, rfl⟩)
  have hfunc : Func (l.filter isFile ++ (linkInfos h r'.allLinks ++ l.filter isTree)) := fun x hx y hy hxy =>
    func_of_nodup hnd x ((hinfos x).1 hx) y ((hinfos y).1 hy) hxy
  have hassoc : ∀ p i, assoc p (emplaceAll (l.filter isFile ++ (linkInfos h r'.allLinks ++ l.filter isTree))) = some i ↔
      Reported h r p i := fun p i => by
    rw [assoc_emplaceAll, assoc_func hfunc, hinfos, hmem]
  unfold clientSeen
  rw [o.files, Option.bind_some]
  cases hn : h.type.native with
  | true =>
    rw [if_pos rfl, o.native hn, Option.bind_some]
    refine ⟨_, rfl, hassoc, ?_, fun h => (nomatch h)⟩
    unfold LinksUp
    rw [hn]
    simp
  | false =>
    rw [if_neg (by decide)]
    obtain ⟨ts, ets, hts⟩ := o.dirs hn
    obtain ⟨g, eg, g1, g2, g3⟩ := hts cas'' hle'
    rw [ets, Option.bind_some, eg, Option.bind_some, g1]
    refine ⟨_, rfl, hassoc, ?_, fun _ => ⟨fun x hx => ?_, fun x hx d hd => ?_⟩⟩
    · dsimp only
      unfold LinksUp
      rw [Bool.or_eq_true, List.any_eq_true, g2]
      simp only [hn, true_and, upwards_iff]
      constructor
      · rintro (⟨x, hx, hu⟩ | ⟨x, hx, ht, hu⟩)
        · exact .inl ⟨x, (hlinks x).1 hx, hu⟩
        · obtain ⟨p, i⟩ := x
          have := (hmem _).1 hx
          cases this with
          | @file f _ _ _ =>
            unfold isTree at ht
            dsimp only at ht
            cases hf : f.exec <;> rw [hf] at ht <;> cases ht
          | link _ => cases ht
          | dir hy e => exact .inr ⟨_, hy, _, e, hu⟩
      · rintro (⟨x, hx, hu⟩ | ⟨x, hx, d, hd, hu⟩)
        · exact .inl ⟨x, (hlinks x).2 hx, hu⟩
        · exact .inr ⟨(x.1, ⟨d, .tree, false⟩), (hmem _).2 (.dir hx hd), rfl, hu⟩
    · exact List.mem_append_left _ (List.mem_map_of_mem ((hlinks x).2 hx))
    · exact (g3 (x.1, ⟨d, .tree, false⟩) ((hmem _).2 (.dir hx hd)) rfl).mono (List.subset_append_right _ _)

/-- C78: a client not using `output_paths` is told separately which links are there for files, and which for
directories; no other links are given. Other clients get all links, whatever the version of the API. -/
theorem C78_links (h : Hash) (hh : h.Proper) (visit : Infos → Infos) (hv : ∀ m, List.Perm (visit m) m) (cas : Cas)
    (r : Result) (hr : Proper h cas r) (ha : h.type.native = false → Apart h cas r) (legacy : Bool)
    (hl : legacy = true → KnownLinks r) : ∃ k, ∀ n ≥ k, ∃ r' cas', serve h visit n legacy cas r = some (r', cas') ∧
      (legacy = true → r'.links = [] ∧ (∀ x, x ∈ r'.dirLinks ↔ x ∈ r.dirLinks) ∧
        ∀ x, x ∈ r'.fileLinks ↔ x ∈ r.allLinks ∧ x ∉ r.dirLinks) ∧
      (legacy = false → ∀ x, x ∈ r'.links ↔ x ∈ r.allLinks) := by
  obtain ⟨k, hk⟩ := serve_out hh hv hr ha hl
  refine ⟨k, fun n hn => ?_⟩
  obtain ⟨l, r', cas', e, hle, hnd, hmem, o⟩ := hk n hn
  have hlink : ∀ x ∈ l, isLink x = true → linkOf cas x ∈ r.allLinks ∧ x = ((linkOf cas x).1,
      ⟨⟨h.sha (linkOf cas x).2, h.type, false, (linkOf cas x).2.length⟩, .symlink, false⟩) := by
    intro x hx hl
    obtain ⟨p, i⟩ := x
    have := (hmem _).1 hx
    cases this with
    | @file f _ _ _ =>
      unfold isLink at hl
      dsimp only at hl
      cases hf : f.exec <;> rw [hf] at hl <;> cases hl
    | @link x hy =>
      unfold linkOf
      dsimp only
      rw [hr.stored _ hy]
      exact ⟨hy, rfl⟩
    | dir _ _ => cases hl
  have hback : ∀ z ∈ r.allLinks, ∃ x ∈ l, isLink x = true ∧ linkOf cas x = z := fun z hz =>
    ⟨(z.1, ⟨⟨h.sha z.2, h.type, false, z.2.length⟩, .symlink, false⟩), (hmem _).2 (.link hz), rfl, by
      unfold linkOf
      dsimp only
      rw [hr.stored _ hz]
      rfl⟩
  have hdir : ∀ z ∈ r.allLinks, (z.1 ∈ r.dirLinks.map Prod.fst ↔ z ∈ r.dirLinks) := by
    intro z hz
    constructor
    · intro hm
      obtain ⟨y, hy, e⟩ := List.mem_map.1 hm
      have := hr.same y (List.mem_append_right _ (List.mem_append_right _ hy)) z hz e
      rw [← Prod.ext e this]
      exact hy
    · exact fun hm => List.mem_map_of_mem hm
  refine ⟨r', cas', e, fun hlg => ?_, fun hlg x => ?_⟩
  · rw [o.links, o.dirLinks, o.fileLinks, hlg, if_pos rfl, (knownLinks_iff r).2 (hl hlg), if_pos rfl, Option.elim_some,
      Option.elim_some]
    refine ⟨rfl, fun x => ?_, fun x => ?_⟩
    · rw [List.mem_map]
      constructor
      · rintro ⟨y, hy, rfl⟩
        obtain ⟨hy1, hy2⟩ := List.mem_filter.1 hy
        obtain ⟨h1, h2⟩ := Bool.and_eq_true_iff.1 hy2
        exact (hdir _ (hlink y hy1 h1).1).1 (of_decide_eq_true h2)
      · intro hx
        obtain ⟨y, hy, h1, rfl⟩ := hback x (List.mem_append_right _ (List.mem_append_right _ hx))
        exact ⟨y, List.mem_filter.2 ⟨hy, Bool.and_eq_true_iff.2 ⟨h1, decide_eq_true (List.mem_map_of_mem hx)⟩⟩, rfl⟩
    · rw [List.mem_map]
      constructor
      · rintro ⟨y, hy, rfl⟩
        obtain ⟨hy1, hy2⟩ := List.mem_filter.1 hy
        obtain ⟨h1, h2⟩ := Bool.and_eq_true_iff.1 hy2
        refine ⟨(hlink y hy1 h1).1, fun hd => ?_⟩
        have h3 : y.1 ∈ r.dirLinks.map Prod.fst := List.mem_map_of_mem (f := Prod.fst) hd
        rw [decide_eq_true h3] at h2
        cases h2
      · rintro ⟨hx, hnd⟩
        obtain ⟨y, hy, h1, rfl⟩ := hback x hx
        refine ⟨y, List.mem_filter.2 ⟨hy, Bool.and_eq_true_iff.2 ⟨h1, ?_⟩⟩, rfl⟩
        rw [decide_eq_false]
        · rfl
        · exact fun hm => hnd ((hdir _ hx).1 hm)
  · rw [o.links, hlg, if_neg (by decide), List.mem_map]
    constructor
    · rintro ⟨y, hy, rfl⟩
      exact (hlink y (List.mem_filter.1 hy).1 (List.mem_filter.1 hy).2).1
    · intro hx
      obtain ⟨y, hy, h1, rfl⟩ := hback x hx
      exact ⟨y, List.mem_filter.2 ⟨hy, h1⟩, rfl⟩

/-! ## Requests -/

theorem envMap_items (m : OMap Str Str) : envMap m.items = m := by
  apply OMap.ext
  intro k
  unfold envMap
  rw [find_foldl_assign _ _ _ m.asc]
  show (m.find k).or none = m.find k
  cases m.find k <;> rfl

theorem sortStrs_idem (l : List Str) : sortStrs (sortStrs l) = sortStrs l := sortStrs_congr (sortStrs_perm l)

/-- C78: if command, action and the root directory are stored where the service looks for them, then it executes what
the client asked for: the same command in the same directory with the same environment on the same inputs; the same
outputs are collected, and are told apart as files and directories precisely if the client does so. What the service
ignores are properties and timeout. -/
theorem C78_request (h : Hash) (hh : h.Proper) (s : Spec) (best : Bool) (timeout : Int) (skip : Bool)
    (hq : (s.request best timeout skip).Proper h.type) (a : Str)
    (ea : (s.request best timeout skip).actionText h.type h.sha = some a) (cas trees : Cas)
    (hc : cas (h.sha (s.request best timeout skip).commandText) = some (s.request best timeout skip).commandText)
    (ha : cas (h.sha a) = some a) (hroot : ((if h.type.native then trees else cas) s.root.hash).isSome = true) :
    ∃ q, received h.type cas trees (blobDigest h.type h.sha a) = some q ∧ q.args = s.args ∧ q.cwd = s.cwd ∧
      q.env = s.env ∧ q.root = s.root ∧ q.skipCache = skip ∧
      (best = true → q.files = [] ∧ q.dirs = [] ∧ List.Perm q.paths (s.files ++ s.dirs)) ∧
      (best = false → q.paths = [] ∧ List.Perm q.files s.files ∧ List.Perm q.dirs s.dirs) ∧
      q.props = OMap.empty ∧ q.timeout = 1000 := by
  unfold Request.actionText at ea
  cases em : (s.request best timeout skip).action h.type h.sha with
  | none => rw [em] at ea; cases ea
  | some m =>
    rw [em, Option.bind_some] at ea
    cases ea
    obtain ⟨h1, h2, h3, _, h5, _⟩ := action_proper hq em
    have hb : ∀ {d : Digest} {w : Dig.Wire}, toBazel d = some w → d.Valid → fromBazel d.type w = some d := by
      intro d w e hv
      have hs : d.size < 2 ^ 63 := by
        unfold toBazel at e
        split at e
        · assumption
        · cases e
      obtain ⟨w', e', hw⟩ := C44_round_trip d hv hs
      rw [e] at e'
      cases e'
      exact hw
    have hr := hb h3 hq.valid
    rw [hq.type] at hr
    have hcmd := hb h2 ⟨(hh _).1, (hh _).2, fun h => (nomatch h)⟩
    obtain ⟨x, hx⟩ := Option.isSome_iff_exists.1 hroot
    have hrun : received h.type cas trees (blobDigest h.type h.sha (encode m.fields)) =
        executed h.type m (s.request best timeout skip).command := by
      unfold received
      show (cas (h.sha (encode m.fields))).bind _ = _
      rw [ha, Option.bind_some, h1, Option.bind_some, hr, Option.bind_some]
      show Option.bind ((if h.type.native = true then trees else cas) s.root.hash) _ = _
      rw [hx, Option.bind_some]
      have hcmd' : fromBazel h.type m.command = some (blobDigest h.type h.sha (s.request best timeout skip).commandText) :=
        hcmd
      rw [hcmd', Option.bind_some]
      show (cas (h.sha (s.request best timeout skip).commandText)).bind _ = _
      rw [hc, Option.bind_some, Request.commandText, command_read, Option.bind_some]
    rw [hrun]
    unfold executed
    rw [hr, Option.bind_some]
    refine ⟨_, rfl, ?_⟩
    cases best with
    | false =>
      have : ((s.request false timeout skip).command).paths = [] := rfl
      rw [if_pos this]
      refine ⟨rfl, rfl, envMap_items s.env, rfl, h5, fun h => (nomatch h), fun _ => ⟨rfl, ?_, ?_⟩, rfl, rfl⟩
      · exact (sortStrs_perm _).trans (sortStrs_perm _)
      · exact (sortStrs_perm _).trans (sortStrs_perm _)
    | true =>
      have hp : List.Perm ((s.request true timeout skip).command).paths (s.files ++ s.dirs) :=
        (sortStrs_perm _).trans ((sortStrs_perm _).append (sortStrs_perm _))
      by_cases hn : ((s.request true timeout skip).command).paths = []
      · rw [if_pos hn]
        rw [hn] at hp
        obtain ⟨hf, hd⟩ := List.append_eq_nil_iff.1 hp.symm.eq_nil
        refine ⟨rfl, rfl, envMap_items s.env, rfl, h5, fun _ => ⟨?_, ?_, ?_⟩, fun h => (nomatch h), rfl, rfl⟩
        · show sortStrs (sortStrs s.files) = []
          rw [hf]; rfl
        · show sortStrs (sortStrs s.dirs) = []
          rw [hd]; rfl
        · exact hp
      · rw [if_neg hn]
        exact ⟨rfl, rfl, envMap_items s.env, rfl, h5, fun _ => ⟨rfl, rfl, (sortStrs_perm _).trans hp⟩,
          fun h => (nomatch h), rfl, rfl⟩

/-! ## Again -/

theorem fileInfos_paths {t : HashType} : ∀ {l : List OutFile} {m : Infos}, fileInfos t l = some m →
    l.map OutFile.path = m.map Prod.fst ∧ ∀ f ∈ l, ∃ d, fromBazel t f.digest = some d ∧
      (f.path, (⟨d, if f.exec then .executable else .file, false⟩ : ObjectInfo)) ∈ m
  | [], m, e => by cases e; exact ⟨rfl, fun _ h => (nomatch h)⟩
  | f :: r, m, e => by
    unfold fileInfos at e
    cases ed : fromBazel t f.digest with
    | none => rw [ed] at e; cases e
    | some d =>
      rw [ed, Option.bind_some] at e
      cases er : fileInfos t r with
      | none => rw [er] at e; cases e
      | some m' =>
        rw [er, Option.bind_some] at e
        cases e
        obtain ⟨h1, h2⟩ := fileInfos_paths er
        refine ⟨by rw [List.map_cons, List.map_cons, h1], fun g hg => ?_⟩
        rcases List.mem_cons.1 hg with rfl | hg
        · exact ⟨d, ed, List.mem_cons_self ..⟩
        · obtain ⟨d', hd', hm⟩ := h2 g hg
          exact ⟨d', hd', List.mem_cons_of_mem _ hm⟩

theorem nativeDirs_paths {t : HashType} : ∀ {l : List (Str × Dig.Wire)} {m : Infos}, nativeDirs t l = some m →
    l.map Prod.fst = m.map Prod.fst ∧ ∀ x ∈ l, ∃ d, fromBazel t x.2 = some d ∧
      (x.1, (⟨d, .tree, false⟩ : ObjectInfo)) ∈ m
  | [], m, e => by cases e; exact ⟨rfl, fun _ h => (nomatch h)⟩
  | (p, w) :: r, m, e => by
    unfold nativeDirs at e
    cases ed : fromBazel t w with
    | none => rw [ed] at e; cases e
    | some d =>
      rw [ed, Option.bind_some] at e
      cases er : nativeDirs t r with
      | none => rw [er] at e; cases e
      | some m' =>
        rw [er, Option.bind_some] at e
        cases e
        obtain ⟨h1, h2⟩ := nativeDirs_paths er
        refine ⟨by rw [List.map_cons, List.map_cons, h1], fun g hg => ?_⟩
        rcases List.mem_cons.1 hg with rfl | hg
        · exact ⟨d, ed, List.mem_cons_self ..⟩
        · obtain ⟨d', hd', hm⟩ := h2 g hg
          exact ⟨d', hd', List.mem_cons_of_mem _ hm⟩

/-- In native mode, the answer is a result like those of local executions. -/
theorem proper_again {h : Hash} (hn : h.type.native = true) {cas cas' : Cas} (hle : Le cas cas') {r r' : Result}
    {l : Infos} {legacy : Bool} (hr : Proper h cas r) (hl : legacy = true → KnownLinks r) (hnd : (l.map Prod.fst).Nodup)
    (hmem : ∀ x, x ∈ l ↔ Reported h r x.1 x.2)
    (o : Out h cas legacy (if r.knownLinks then some (r.dirLinks.map Prod.fst) else none) l r' cas') :
    Proper h cas' r' := by
  obtain ⟨f1, f2⟩ := fileInfos_paths o.files
  obtain ⟨d1, d2⟩ := nativeDirs_paths (o.native hn)
  have hlinks := mem_allLinks hr hl hmem o
  have hsize : ∀ x ∈ l, isLink x = false → x.2.digest.size < 2 ^ 63 := by
    intro x hx hxl
    obtain ⟨p, i⟩ := x
    have := (hmem _).1 hx
    cases this with
    | file hf e =>
      obtain ⟨d', e', hs⟩ := hr.files _ hf
      rw [e] at e'
      cases e'
      exact hs
    | link _ => cases hxl
    | dir hy e =>
      obtain ⟨d', e', hs, _⟩ := hr.dirs _ hy
      rw [e] at e'
      cases e'
      exact hs
  have hsub : ∀ f : Str × ObjectInfo → Bool, ((l.filter f).map Prod.fst).Nodup := fun f =>
    hnd.sublist (List.filter_sublist.map _)
  constructor
  · intro f hf
    obtain ⟨d, hd, hm⟩ := f2 f hf
    refine ⟨d, hd, hsize _ (List.mem_filter.1 hm).1 ?_⟩
    unfold isLink
    dsimp only
    cases f.exec <;> rfl
  · intro x hx
    obtain ⟨d, hd, hm⟩ := d2 x hx
    exact ⟨d, hd, hsize _ (List.mem_filter.1 hm).1 rfl, fun h => by rw [hn] at h; cases h⟩
  · exact fun x hx => hle _ _ (hr.stored x ((hlinks x).1 hx))
  · rw [f1, d1, List.nodup_append]
    refine ⟨hsub _, hsub _, fun p hp q hq e => ?_⟩
    subst e
    obtain ⟨x, hx, rfl⟩ := List.mem_map.1 hp
    obtain ⟨y, hy, e⟩ := List.mem_map.1 hq
    have := func_of_nodup hnd x (List.mem_filter.1 hx).1 y (List.mem_filter.1 hy).1 e.symm
    subst this
    have h1 := (List.mem_filter.1 hx).2
    have h2 := (List.mem_filter.1 hy).2
    unfold isFile at h1
    unfold isTree at h2
    revert h1 h2
    cases x.2.type <;> decide
  · exact fun x hx y hy => hr.same x ((hlinks x).1 hx) y ((hlinks y).1 hy)
  · intro x hx hm
    rw [f1, d1] at hm
    have hxl : ((x.1, (⟨⟨h.sha x.2, h.type, false, x.2.length⟩, .symlink, false⟩ : ObjectInfo))) ∈ l :=
      (hmem _).2 (.link ((hlinks x).1 hx))
    rcases List.mem_append.1 hm with hm | hm
    all_goals
      obtain ⟨y, hy, e⟩ := List.mem_map.1 hm
      have := func_of_nodup hnd _ hxl y (List.mem_filter.1 hy).1 e.symm
      subst this
      cases (List.mem_filter.1 hy).2

theorem known_again {h : Hash} {cas cas' : Cas} {r r' : Result} {l : Infos}
    (o : Out h cas true (if r.knownLinks then some (r.dirLinks.map Prod.fst) else none) l r' cas') : KnownLinks r' :=
  .inl (by rw [o.links]; rfl)

/-- C78: in native mode, answering from the result that was stored after an earlier execution gives the same artifacts
as the execution: for the client, and locally. In compatible mode, this fails (`C78_violation_cached`). -/
theorem C78_again_partial (h : Hash) (hh : h.Proper) (hn : h.type.native = true) (visit : Infos → Infos)
    (hv : ∀ m, List.Perm (visit m) m) (cas : Cas) (r : Result) (hr : Proper h cas r) (legacy : Bool)
    (hl : legacy = true → KnownLinks r) : ∃ k, ∀ n ≥ k, ∃ r' cas', serve h visit n legacy cas r = some (r', cas') ∧
      Le cas cas' ∧ ∃ k', ∀ n' ≥ k',
        (∃ s, localSeen h cas' n' r' = some s ∧ ∀ p i, assoc p s.infos = some i ↔ Reported h r p i) ∧
        ∃ r'' cas'', execute h visit n' legacy cas' (some r') r = some (r'', cas'') ∧
          ∃ g, clientSeen h cas'' r'' = some g ∧ ∀ p i, assoc p g.infos = some i ↔ Reported h r p i := by
  obtain ⟨k, hk⟩ := serve_out hh hv hr (fun h => by rw [hn] at h; cases h) hl
  refine ⟨k, fun n hn' => ?_⟩
  obtain ⟨l, r', cas', e, hle, hnd, hmem, o⟩ := hk n hn'
  refine ⟨r', cas', e, hle, ?_⟩
  have hp := proper_again hn hle hr hl hnd hmem o
  have hl' : legacy = true → KnownLinks r' := fun hlg => by
    subst hlg
    exact known_again o
  have hrep : ∀ p i, Reported h r' p i ↔ Reported h r p i := by
    obtain ⟨f1, f2⟩ := fileInfos_paths o.files
    obtain ⟨d1, d2⟩ := nativeDirs_paths (o.native hn)
    have hlinks := mem_allLinks hr hl hmem o
    intro p i
    constructor
    · intro hri
      cases hri with
      | @file f d hf e =>
        obtain ⟨d', e', hm⟩ := f2 f hf
        rw [e] at e'
        cases e'
        exact (hmem _).1 (List.mem_filter.1 hm).1
      | link hx => exact .link ((hlinks _).1 hx)
      | @dir x d hx e =>
        obtain ⟨d', e', hm⟩ := d2 x hx
        rw [e] at e'
        cases e'
        exact (hmem _).1 (List.mem_filter.1 hm).1
    · intro hri
      have hil := (hmem (p, i)).2 hri
      cases hri with
      | @file f d hf e =>
        have : f.path ∈ r'.files.map OutFile.path := by
          rw [f1]
          exact List.mem_map_of_mem (f := Prod.fst) (List.mem_filter.2 ⟨hil, by
            unfold isFile
            dsimp only
            cases f.exec <;> rfl⟩)
        obtain ⟨g, hg, eg⟩ := List.mem_map.1 this
        obtain ⟨d', e', hm⟩ := f2 g hg
        have he := func_of_nodup hnd _ hil _ (List.mem_filter.1 hm).1 eg.symm
        have hm2 : Reported h r' g.path _ := .file hg e'
        rw [Prod.mk.injEq] at he
        rw [he.1, he.2]
        exact hm2
      | @link x hx => exact .link ((hlinks _).2 hx)
      | @dir x d hx e =>
        have : x.1 ∈ r'.dirs.map Prod.fst := by
          rw [d1]
          exact List.mem_map_of_mem (f := Prod.fst) (List.mem_filter.2 ⟨hil, rfl⟩)
        obtain ⟨g, hg, eg⟩ := List.mem_map.1 this
        obtain ⟨d', e', hm⟩ := d2 g hg
        have he := func_of_nodup hnd _ hil _ (List.mem_filter.1 hm).1 eg.symm
        have hm2 : Reported h r' g.1 _ := .dir hg e'
        rw [Prod.mk.injEq] at he
        rw [he.1, he.2]
        exact hm2
  obtain ⟨k1, h1⟩ := C78_local h cas' r' hp
  obtain ⟨k2, h2⟩ := C78_same h hh visit hv cas' r' hp (fun h => by rw [hn] at h; cases h) legacy hl'
  refine ⟨k1 + k2, fun n' hn' => ⟨?_, ?_⟩⟩
  · obtain ⟨s, es, hs, _⟩ := h1 n' (by omega)
    exact ⟨s, es, fun p i => (hs p i).trans (hrep p i)⟩
  · obtain ⟨r'', cas'', e2, _, hg⟩ := h2 n' (by omega)
    obtain ⟨g, eg, hgi, _⟩ := hg cas'' (Le.refl _)
    exact ⟨r'', cas'', e2, g, eg, fun p i => (hgi p i).trans (hrep p i)⟩

end Verif.Response
