import Verif.Remote.Upload

/-!
# Model of retrieving objects from a remote storage

Source: `src/buildtool/execution_api/remote/bazel/bazel_api.cpp`.

As for uploads, a storage is the list of the objects it has, in the order in which they were stored. Everything that the
other sides may answer is admitted: definitions are relations, and an execution is what they relate. Objects are given by their
digests, so the map from digests to object infos (`BackMap`) is the identity.
-/

namespace Verif.Remote.Download

open Verif.Remote.Upload (Closed Grows Below Safe)

variable {δ : Type}

/-- The storage from which objects are retrieved: which are trees, the entries of a tree, and the chunks into which an object
is split. What may happen: `flaky` are the trees the reading of which may fail, `given` the objects which it may deliver; if it is
not `honest`, it may send data that is not what was asked for. -/
structure Net (δ : Type) where
  tree : δ → Prop
  sub : δ → List δ
  chunks : δ → List δ
  flaky : δ → Prop
  given : δ → Prop
  honest : Prop

/-- `GetMissingDigests` of the target: of what is asked, everything that is not there is reported (see C51). -/
structure Missing (s req m : List δ) : Prop where
  nodup : m.Nodup
  sub : ∀ d ∈ m, d ∈ req
  all : ∀ d ∈ req, d ∉ m → d ∈ s

/-- tree_reader.hpp:48-77 (`ReadDirectTreeEntries`): if the tree cannot be read, the result is empty; it is an error only if
the entries of a tree that was read are not valid. -/
inductive Entries (N : Net δ) (d : δ) : Option (List δ) → Prop
  | read : Entries N d (some (N.sub d))
  | failed : N.flaky d → Entries N d (some [])
  | invalid : Entries N d none

/-- bazel_network_reader.cpp (`Read`), bazel_cas_client.cpp:99-218 (`BatchReadBlobs`): a set of blobs, with the digests of
the data that has been received. -/
structure Fetched (N : Net δ) (infos r : List δ) : Prop where
  nodup : r.Nodup
  given : ∀ d ∈ r, d ∈ infos → N.given d
  honest : N.honest → ∀ d ∈ r, d ∈ infos

/-- What is still to be done to retrieve an object. After objects have been fetched and stored, either there is nothing more
to do, or an object is spliced from its chunks. -/
inductive Task (δ : Type)
  | start (d : δ)
  | missing (d : δ)
  | fetch (infos : List δ) (next : Option δ)
  | store (ok : Bool) (todo : List δ) (next : Option δ)
  | splice (d : δ)
  | finished (ok : Bool)

/-- bazel_api.cpp:57-90 (`RetrieveToCas`), 92-126 (`RetrieveToCasSplitted`), 459-467 (the task): one step, that reads from the
source or stores one object. `split` says whether blob splitting is used. An upload may omit any of the objects,
but then reports failure. -/
inductive Step (N : Net δ) (split : Bool) : Task δ → List δ → Task δ → List δ → Prop
  | plain {d s} : Step N split (.start d) s (.fetch [d] none) s
  | chunks {d s} : split = true → Step N split (.start d) s (.missing d) s
  | missing {d s m} : (∀ c ∈ N.chunks d, ¬ N.tree c) → Missing s (N.chunks d) m →
      Step N split (.missing d) s (.fetch m (some d)) s
  | fetch {infos next s r} : Fetched N infos r →
      Step N split (.fetch infos next) s (.store (r.length = infos.length) r next) s
  | stored {ok d todo next s} : Step N split (.store ok (d :: todo) next) s (.store ok todo next) (s ++ [d])
  | failed {ok d todo next s} : Step N split (.store ok (d :: todo) next) s (.store false todo next) s
  | wrong {next s} : Step N split (.store false [] next) s (.finished false) s
  | right {s} : Step N split (.store true [] none) s (.finished true) s
  | next {d s} : Step N split (.store true [] (some d)) s (.splice d) s
  | spliced {d s} : N.given d → (∀ c ∈ N.chunks d, c ∈ s) → Step N split (.splice d) s (.finished true) (s ++ [d])
  | again {d s} : Step N split (.splice d) s (.fetch [d] none) s

/-- Tasks that run in parallel: each time, one of them does a step. -/
inductive Run (N : Net δ) (split : Bool) : List (Task δ) → List δ → List (Task δ) → List δ → Prop
  | refl {l s} : Run N split l s l s
  | step {a t b t' s s' l s''} : Step N split t s t' s' → Run N split (a ++ t' :: b) s' l s'' →
      Run N split (a ++ t :: b) s l s''

/-- bazel_api.cpp:415-448: the entries of the trees among the missing objects are read, in any order. -/
def Prerequisites (N : Net δ) (m pre : List δ) : Prop :=
  (∀ d ∈ m, N.tree d → ∃ l, Entries N d (some l) ∧ ∀ k ∈ l, k ∈ pre) ∧
  ∀ k ∈ pre, ∃ d ∈ m, N.tree d ∧ k ∈ N.sub d

/-- bazel_api.cpp:372-492 (`ParallelRetrieveToCasWithCache`), with a bound for the depth of recursion: from the request, the
target, and the objects already done, to the result, the target, and the objects done. -/
def Parallel (N : Net δ) (split : Bool) : Nat → List δ → List δ → List δ → Bool → List δ → List δ → Prop
  | 0, _, _, _, _, _, _ => False
  | n + 1, req, s, done, ok, s', done' =>
    -- nothing to do
    ((∀ d ∈ req, d ∈ done) ∧ ok = true ∧ s' = s ∧ done' = done) ∨
    ∃ todo m, (∀ d, d ∈ todo ↔ d ∈ req ∧ d ∉ done) ∧ Missing s todo m ∧
      -- some tree has invalid entries
      ((∃ d ∈ m, N.tree d ∧ Entries N d none) ∧ ok = false ∧ s' = s ∧ done' = done ∨
      ∃ pre, Prerequisites N m pre ∧
        (Parallel N split n pre s done false s' done' ∧ ok = false ∨
        ∃ (s1 done1 : List δ) (oks : List Bool), Parallel N split n pre s done true s1 done1 ∧
          Run N split (m.map .start) s1 (oks.map .finished) s' ∧
          (false ∈ oks ∧ ok = false ∧ done' = done1 ∨ false ∉ oks ∧ ok = true ∧ done' = todo ++ done1)))

/-- bazel_api.cpp:345-354: the trees among the missing objects, one after the other. -/
inductive Trees (N : Net δ) (rec : List δ → List δ → Bool → List δ → Prop) : List δ → List δ → Bool → List δ → Prop
  | nil {s} : Trees N rec [] s true s
  | blob {d t s ok s'} : ¬ N.tree d → Trees N rec t s ok s' → Trees N rec (d :: t) s ok s'
  | invalid {d t s} : N.tree d → Entries N d none → Trees N rec (d :: t) s false s
  | fail {d t s l s'} : N.tree d → Entries N d (some l) → rec l s false s' → Trees N rec (d :: t) s false s'
  | tree {d t s l s1 ok s'} : N.tree d → Entries N d (some l) → rec l s true s1 → Trees N rec t s1 ok s' →
      Trees N rec (d :: t) s ok s'

/-- bazel_api.cpp:319-356 (`RetrieveToCas`), with a bound for the depth of recursion. -/
def Sequential (N : Net δ) : Nat → List δ → List δ → Bool → List δ → Prop
  | 0, _, _, _, _ => False
  | n + 1, req, s, ok, s' =>
    ∃ m, Missing s req m ∧
      (Trees N (Sequential N n) m s false s' ∧ ok = false ∨
      ∃ s1, Trees N (Sequential N n) m s true s1 ∧ Run N false [.fetch m none] s1 [.finished ok] s')

end Verif.Remote.Download
