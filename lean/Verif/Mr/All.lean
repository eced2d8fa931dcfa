import Verif.Mr.Commit
import Verif.Mr.Tree

/-!
# All tasks together
-/

namespace Verif.Mr

open Verif.Symlinks (Node Mode Val)

variable {E : Env} {C : Conf} {served : Str → Prop}

/-! ## Everything together -/

/-- What is wanted of roots. -/
def Right (E : Env) (C : Conf) (served : Str → Prop) : Key → Root → World → Prop
  | .archive k => ArchiveRight E C served k
  | .foreign k => ForeignRight E C k
  | .distdir k => DistdirRight E C served k
  | .commit k => CommitRight E C served k
  | .tree k => TreeRight E C served k
  | .path k => PathRight E C served k

theorem setup_valid (H : E.Good) (key : Key) (w : World) : Valid (rules E served) (setup E C key) w (Right E C served key) := by
  cases key with
  | archive k => exact archive_valid H k w
  | foreign k => exact foreign_valid H k w
  | distdir k => exact distdir_valid H k w
  | commit k => exact commit_valid H k w
  | tree k => exact gitTree_valid H k w
  | path k => exact path_valid H k w

theorem other_ok (w w' : World) (h : Other E w w') (hi : Inv E w) : Inv E w' ∧ Grows w w' := by
  cases h with
  | store c => exact store_ok c w hi
  | objs l hl => exact addObjs_ok l hl w hi
  | commits b l => exact fetched_ok b l w hi
  | userObjs l hl =>
    exact ⟨⟨hi.young, hi.old, ⟨fun t ht n hn => List.mem_append_right _ (hi.user.tags t ht n hn), fun c hc => by
      obtain ⟨es, a, b⟩ := hi.user.commits c hc
      exact ⟨es, a, fun n hn => List.mem_append_right _ (b n hn)⟩, hl.append hi.user.closed⟩⟩,
      .of (fun _ h => h) (fun _ h => h) (fun _ h => h) rfl rfl rfl rfl (fun _ h => h) rfl (fun _ h => List.mem_append_right _ h) fun _ h => h⟩

theorem empty_ok : GenOk E Gen.empty :=
  ⟨fun _ h => absurd h List.not_mem_nil, fun _ _ _ h => absurd h List.not_mem_nil, fun _ _ _ h => absurd h List.not_mem_nil,
    fun _ _ h => absurd h List.not_mem_nil, fun _ h => absurd h List.not_mem_nil, fun _ h => absurd h List.not_mem_nil,
    fun _ _ h => absurd h List.not_mem_nil⟩

theorem alone_ok (w w' : World) (h : Alone E w w') (hi : Inv E w) : Inv E w' := by
  cases h with
  | cas l h => exact ⟨hi.young, hi.old, hi.user⟩
  | move young old h =>
    have ok : ∀ g ∈ young :: old, GenOk E g := fun g hg => by
      rcases h g hg with rfl | hg
      · exact empty_ok
      · rcases List.mem_cons.1 hg with rfl | hg
        · exact hi.young
        · exact hi.old g hg
    exact ⟨ok _ List.mem_cons_self, fun g hg => ok g (List.mem_cons_of_mem _ hg), hi.user⟩
  | user r h => exact ⟨hi.young, hi.old, h⟩
  | prune l cs ht hl hcl hk hc =>
    have kept : ∀ n, Kept w.young n → Kept { w.young with objs := l, commits := cs } n := fun n hn => by
      obtain ⟨r, h1, h2, h3⟩ := hn
      exact ⟨r, h1, h2, fun m hm => hk r h1 m hm⟩
    refine ⟨⟨hk, fun ty h t hm => ?_, fun m t t' hm => ?_, fun k t hm => ?_, fun c hcs => ?_, hcl, fun c t hm => ?_⟩, hi.old, hi.user⟩
    · obtain ⟨c, es, a, b, d, e⟩ := hi.young.arch ty h t hm
      exact ⟨c, es, a, b, d, kept _ e⟩
    · obtain ⟨es, n, a, b, c, d, e⟩ := hi.young.special m t t' hm
      exact ⟨es, n, a, b, c, d, kept _ e⟩
    · obtain ⟨l', n, a, b, c, d⟩ := hi.young.dist k t hm
      exact ⟨l', n, a, b, c, kept _ d⟩
    · obtain ⟨h1, h2⟩ := hc c hcs
      obtain ⟨es, a, _⟩ := hi.young.commits c h1
      exact ⟨es, a, h2 es a⟩
    · obtain ⟨es, a, b, _⟩ := hi.young.com c t hm
      exact ⟨es, a, b, fun h => by rw [ht] at h; cases h⟩

/-- A storage in which nothing is yet, with the given number of older generations. -/
def fresh (n : Nat) : World := ⟨[], Gen.empty, List.replicate n Gen.empty, [], ⟨[], [], []⟩⟩

theorem fresh_ok (n : Nat) : Inv E (fresh n) :=
  ⟨empty_ok, fun g hg => by rw [List.eq_of_mem_replicate hg]; exact empty_ok,
    ⟨fun _ h => absurd h List.not_mem_nil, fun _ h => absurd h List.not_mem_nil, fun _ h => absurd h List.not_mem_nil⟩⟩

/-- What may come about. -/
abbrev Possible (E : Env) (C : Conf) (served : Str → Prop) (n : Nat) : Pool World Query Answer Key Root → Prop :=
  Reach (setup E C) (Honest E served) (Other E) (Alone E) (fresh n)

theorem possible_ok (H : E.Good) {n : Nat} {c : Pool World Query Answer Key Root} (h : Possible E C served n c) :
    Inv E c.world ∧ ∀ t ∈ c.tasks, Valid (rules E served) t.2 c.world (Right E C served t.1) :=
  reach_valid (R := rules E served) (fresh_ok n) (fun key v _ => setup_valid H key v) other_ok alone_ok h

end Verif.Mr
