import Verif.MrConfig.Model

/-!
# What a description of repositories says

The vocabulary in which the properties of just-mr's configuration are stated; it is taken from the
documentation of the format (share/man/just-mr-repository-config.5.md) and does not use the functions of the
model.
-/

namespace Verif.MrConfig

open Verif

section
variable {N : Type} (repos : List (Str × Json N))

/-- The field of the description of a repository has a value other than `null`. -/
def Has (name key : Str) (v : Json N) : Prop :=
  v ≠ .null ∧ ∃ l, assoc name repos = some (.obj l) ∧ assoc key l = some v

/-- A repository is given as an alias of another one ("an implicit one, given as the global name of another
repository"). -/
def Alias (a b : Str) : Prop := Has repos a "repository".toList (.str b)

/-- The chain of aliases starting at a name ends. -/
inductive Grounded : Str → Prop
  | intro (a : Str) (h : ∀ b, Alias repos a b → Grounded b) : Grounded a

/-- The explicit description of the workspace root of a repository, following aliases. -/
inductive Describes : Str → Json N → Prop
  | here {a : Str} {d : Json N} {l : List (Str × Json N)} (h : assoc a repos = some (.obj l))
      (hd : assoc "repository".toList l = some d) (hs : ∀ s, d ≠ .str s) : Describes a d
  | via {a b : Str} {d : Json N} (h : Alias repos a b) (hb : Describes b d) : Describes a d

/-- A repository is bound to a local name. -/
def Binds (a b : Str) : Prop :=
  ∃ bs localName, Has repos a "bindings".toList (.obj bs) ∧ (localName, Json.str b) ∈ bs

/-- A repository is named as target, rule or expression layer. -/
def Layer (a key b : Str) : Prop :=
  (key = "target_root".toList ∨ key = "rule_root".toList ∨ key = "expression_root".toList) ∧
    Has repos a key (.str b)

end

section
variable {N : Type}

/-- The pragma "absent" of a description has the given value, `false` when there is none. -/
def AbsentIs (r : List (Str × Json N)) (b : Bool) : Prop :=
  (field "pragma".toList r = .null ∧ b = false) ∨
  ∃ p, field "pragma".toList r = .obj p ∧
    ((field "absent".toList p = .null ∧ b = false) ∨ field "absent".toList p = .bool b)

/-- The configuration of a computed root: "optional and defaults to the empty map". -/
def ConfigIs (r : List (Str × Json N)) (c : Json N) : Prop :=
  (field "config".toList r = .null ∧ c = .obj []) ∨
  ∃ l, field "config".toList r = .obj l ∧ c = .obj l

/-- The description of a computed root. -/
def IsComputed (d : Json N) (repo module target : Str) (config : Json N) (absent : Bool) : Prop :=
  ∃ r, d = .obj r ∧ field "type".toList r = .str "computed".toList ∧
    field "repo".toList r = .str repo ∧
    field "target".toList r = .arr [.str module, .str target] ∧
    ConfigIs r config ∧ AbsentIs r absent

/-- The description of a tree structure. -/
def IsTree (d : Json N) (repo : Str) (absent : Bool) : Prop :=
  ∃ r, d = .obj r ∧ field "type".toList r = .str "tree structure".toList ∧
    field "repo".toList r = .str repo ∧ AbsentIs r absent

/-- A description refers to a repository from which `just` has to compute the root. -/
def RefersTo (d : Json N) (b : Str) : Prop :=
  (∃ m t c a, IsComputed d b m t c a) ∨ ∃ a, IsTree d b a

/-- The workspace root of a repository has to be computed from another repository. -/
def Refers (repos : List (Str × Json N)) (a b : Str) : Prop := ∃ d, Describes repos a d ∧ RefersTo d b

/-- The repositories needed for building in the main repository: the bound ones, and those from which the
roots of the repositories, or of their layers, have to be computed. -/
inductive Needed (repos : List (Str × Json N)) (main : Str) : Str → Prop
  | main : Needed repos main main
  | binds {a b : Str} (h : Needed repos main a) (hb : Binds repos a b) : Needed repos main b
  | root {a b : Str} (h : Needed repos main a) (hb : Refers repos a b) : Needed repos main b
  | layer {a k c b : Str} (h : Needed repos main a) (hl : Layer repos a k c) (hb : Refers repos c b) :
      Needed repos main b

end

/-! ## Roots -/

section
variable {N : Type}

/-- The pragma "special" of a description. -/
def Special (r : List (Str × Json N)) (s : Str) : Prop :=
  ∃ p, field "pragma".toList r = .obj p ∧ field "special".toList p = .str s

/-- A directory is to be provided as a git tree: by the pragma "to_git", or as symbolic links are to be
resolved. -/
def ToGit (r : List (Str × Json N)) : Prop :=
  Special r "resolve-partially".toList ∨ Special r "resolve-completely".toList ∨
    ∃ p, field "pragma".toList r = .obj p ∧ field "to_git".toList p = .bool true

/-- The optional last entry of a root that is to be computed. -/
def pragmaFor (absent : Bool) : List (Json N) :=
  if absent then [.obj [("absent".toList, .bool true)]] else []

/-- The types of roots that have to be obtained. -/
def IsFetched (t : Str) : Prop :=
  t = "git".toList ∨ t = "archive".toList ∨ t = "zip".toList ∨ t = "foreign file".toList ∨
    t = "distdir".toList ∨ t = "git tree".toList

/-- The root, in the format of `just` (share/man/just-repository-config.5.md), for the description of a
workspace root. -/
inductive RootIs (env : Env N) (n : Str) : Json N → Json N → Prop
  | fetched {r : List (Str × Json N)} {t : Str} {root : Json N}
      (ht : field "type".toList r = .str t) (hf : IsFetched t) (h : env.fetch n (.obj r) = some root) :
      RootIs env n (.obj r) root
  | imported {r : List (Str × Json N)} {root : Json N} (ht : field "type".toList r = .str "file".toList)
      (hg : ToGit r) (h : env.fetch n (.obj r) = some root) : RootIs env n (.obj r) root
  | dir {r : List (Str × Json N)} {path : Str} (ht : field "type".toList r = .str "file".toList)
      (hp : field "path".toList r = .str path) (hg : ¬ ToGit r) (hs : ¬ Special r "ignore".toList) :
      RootIs env n (.obj r)
        (.arr [.str "file".toList, .str (env.absPath (if path = [] then ['.'] else path))])
  | dirIgnore {r : List (Str × Json N)} {path : Str} (ht : field "type".toList r = .str "file".toList)
      (hp : field "path".toList r = .str path) (hg : ¬ ToGit r) (hs : Special r "ignore".toList) :
      RootIs env n (.obj r)
        (.arr [.str "file ignore-special".toList, .str (env.absPath (if path = [] then ['.'] else path))])
  | computed {d : Json N} {repo m t : Str} {c : Json N} {a : Bool} (h : IsComputed d repo m t c a) :
      RootIs env n d (.arr ([.str "computed".toList, .str repo, .str m, .str t, c] ++ pragmaFor a))
  | tree {d : Json N} {repo : Str} {a : Bool} (h : IsTree d repo a) :
      RootIs env n d (.arr ([.str "tree structure".toList, .str repo] ++ pragmaFor a))

/-- The main repository: the one given on the command line, otherwise the one given in the description,
otherwise the first one. -/
def MainIs (args : Args) (config repos : List (Str × Json N)) (m : Str) : Prop :=
  args.main = some m ∨
  (args.main = none ∧ field "main".toList config = .str m) ∨
  (args.main = none ∧ field "main".toList config = .null ∧ m ∈ repos.map Prod.fst ∧
    ∀ k ∈ repos.map Prod.fst, m ≤ k)

/-- The entry of a repository in the configuration for `just`. -/
def Entry (out : Json N) (n : Str) (c : List (Str × Json N)) : Prop :=
  ∃ top rs, out = .obj top ∧ field "repositories".toList top = .obj rs ∧ assoc n rs = some (.obj c)

end

end Verif.MrConfig
