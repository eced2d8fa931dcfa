import Verif.MrRc.Model

/-!
# just-mr: what the rc files mean

After share/man/just-mrrc.5.md and share/man/just-mr.1.md.
-/

namespace Verif.MrRc

open Verif

section
variable {N : Type}

/-- `v` is the value the last of the maps having key `k` has for it. -/
def Last {V : Type} (k : Str) (ms : List (OMap Str V)) (v : V) : Prop :=
  ∃ pre m post, ms = pre ++ m :: post ∧ m.find k = some v ∧ ∀ e ∈ post, e.find k = none

/-- The path below the root of a location object; the roots are `"workspace"`, `"home"` and `"system"`. -/
def LocatedAt (env : Env N) (j : Json N) (sub p : Str) : Prop :=
  ∃ root, get "root".toList j = some (.str root) ∧
    ((root = "workspace".toList ∧ ∃ w, env.ws = some w ∧ p = env.canonical w sub) ∨
     (root = "home".toList ∧ p = env.canonical env.home sub) ∨
     (root = "system".toList ∧ p = env.canonical "/".toList sub))

/-- The root of a location is one of the three known ones. -/
def KnownRoot (j : Json N) : Prop :=
  get "root".toList j = some (.str "workspace".toList) ∨ get "root".toList j = some (.str "home".toList) ∨
    get "root".toList j = some (.str "system".toList)

/-- A location object: a path below a root, and a base below the same root. -/
inductive IsLocation (env : Env N) (j : Json N) (p b : Str) : Prop
  | noBase (path : Str) (hp : get "path".toList j = some (.str path)) (hb : get "base".toList j = none)
      (h : LocatedAt env j path p) (h' : LocatedAt env j ".".toList b)
  | base (path base : Str) (hp : get "path".toList j = some (.str path))
      (hb : get "base".toList j = some (.str base)) (h : LocatedAt env j path p) (h' : LocatedAt env j base b)

/-- The rc files among the locations: those whose location can be determined, and that exist, in order. -/
inductive Files (env : Env N) : List (Json N) → List (Rc N) → Prop
  | nil : Files env [] []
  | ignored {j : Json N} {l : List (Json N)} {ds : List (Rc N)} (h : ∀ p b, ¬ IsLocation env j p b)
      (t : Files env l ds) : Files env (j :: l) ds
  | missing {j : Json N} {l : List (Json N)} {ds : List (Rc N)} {p b : Str} (h : IsLocation env j p b)
      (hf : env.isFile p = false) (t : Files env l ds) : Files env (j :: l) ds
  | file {j : Json N} {l : List (Json N)} {ds : List (Rc N)} {p b : Str} {o : List (Str × Json N)}
      (h : IsLocation env j p b) (hf : env.isFile p = true) (hc : env.content p = some (.obj o))
      (t : Files env l ds) : Files env (j :: l) (mk o :: ds)

/-- The first location of the list that is an existing file. -/
def FirstFile (env : Env N) (l : List (Json N)) (p b : Str) : Prop :=
  ∃ pre j post, l = pre ++ j :: post ∧ IsLocation env j p b ∧ env.isFile p = true ∧
    ∀ e ∈ pre, ∀ q c, IsLocation env e q c → env.isFile q = false

end

end Verif.MrRc
