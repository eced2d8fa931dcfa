import Verif.MrConfig.Spec
import Verif.MrConfig.JustModel

/-!
# What the description of a repository means for `just`
-/

namespace Verif.MrConfig

open Verif

section
variable {N : Type}

/-- The roots in git repositories (share/man/just-repository-config.5.md). -/
inductive GitRootIs : Json N → FRoot N → Prop
  | absent (t : Str) : GitRootIs (.arr [.str "git tree".toList, .str t]) (.absent t false)
  | absentIgnore (t : Str) :
      GitRootIs (.arr [.str "git tree ignore-special".toList, .str t]) (.absent t true)
  | present (t r : Str) : GitRootIs (.arr [.str "git tree".toList, .str t, .str r]) (.git r t false)
  | presentIgnore (t r : Str) :
      GitRootIs (.arr [.str "git tree ignore-special".toList, .str t, .str r]) (.git r t true)

/-- What is obtained is a root in a git repository. -/
def FetchesGit (env : Env N) : Prop :=
  ∀ n d root, env.fetch n d = some root → ∃ fr, GitRootIs root fr

/-- The trees obtained can be opened. -/
def FetchesPresent (env : Env N) (git : Str → Str → Bool) : Prop :=
  ∀ n d root r t i, env.fetch n d = some root → GitRootIs root (.git r t i) → git r t = true

/-- The root a description stands for. -/
inductive Means (env : Env N) (n : Str) : Json N → FRoot N → Prop
  | fetched {r : List (Str × Json N)} {t : Str} {root : Json N} {fr : FRoot N}
      (ht : field "type".toList r = .str t) (hf : IsFetched t) (h : env.fetch n (.obj r) = some root)
      (hg : GitRootIs root fr) : Means env n (.obj r) fr
  | imported {r : List (Str × Json N)} {root : Json N} {fr : FRoot N}
      (ht : field "type".toList r = .str "file".toList) (hg : ToGit r)
      (h : env.fetch n (.obj r) = some root) (hg : GitRootIs root fr) : Means env n (.obj r) fr
  | dir {r : List (Str × Json N)} {path : Str} (ht : field "type".toList r = .str "file".toList)
      (hp : field "path".toList r = .str path) (hg : ¬ ToGit r) (hs : ¬ Special r "ignore".toList) :
      Means env n (.obj r) (.dir (env.absPath (if path = [] then ['.'] else path)) false)
  | dirIgnore {r : List (Str × Json N)} {path : Str} (ht : field "type".toList r = .str "file".toList)
      (hp : field "path".toList r = .str path) (hg : ¬ ToGit r) (hs : Special r "ignore".toList) :
      Means env n (.obj r) (.dir (env.absPath (if path = [] then ['.'] else path)) true)
  | computed {d : Json N} {repo m t : Str} {c : Json N} {a : Bool} (h : IsComputed d repo m t c a) :
      Means env n d (.computed repo m t c a)
  | tree {d : Json N} {repo : Str} {a : Bool} (h : IsTree d repo a) :
      Means env n d (.treeStructure repo a)

/-- The workspace root of a repository is the given one. -/
def Workspace (env : Env N) (repos : List (Str × Json N)) (n : Str) (fr : FRoot N) : Prop :=
  ∃ d, Describes repos n d ∧ Means env n d fr

/-- A layer of a repository: the workspace root of the repository named, or the default if none is named. -/
def LayerRoot (env : Env N) (repos : List (Str × Json N)) (n key : Str) (default fr : FRoot N) : Prop :=
  (∃ b, Layer repos n key b ∧ Workspace env repos b fr) ∨ ((∀ b, ¬ Layer repos n key b) ∧ fr = default)

/-- A name of a file: the one declared, or the default. -/
def FileName (repos : List (Str × Json N)) (n key default s : Str) : Prop :=
  Has repos n key (.str s) ∨ ((∀ v, ¬ Has repos n key v) ∧ s = default)

/-- No arguments that change what the configuration says. -/
def PlainArgs (a : JustArgs) : Prop :=
  a.main = none ∧ a.workspaceRoot = none ∧ a.targetRoot = none ∧ a.ruleRoot = none ∧
    a.expressionRoot = none ∧ a.targetFileName = none ∧ a.ruleFileName = none ∧ a.expressionFileName = none

/-- The target of a computed root has the same name as its module.  (Others are misread, see the violation of
C96.) -/
def TargetNamedAsModule (d : Json N) : Prop :=
  ∀ repo m t c a, IsComputed d repo m t c a → m = t

end

end Verif.MrConfig
