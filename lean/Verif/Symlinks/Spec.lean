import Verif.Util.Split

/-!
# Trees with symbolic links, and where paths lead

No function of the model of the resolution is used here.
-/

namespace Verif.Symlinks

/-- A file, a symbolic link, or a directory. -/
inductive Node where
  | file (id : Str) (executable : Bool)
  | link (content : Str)
  | tree (entries : List (Str × Node))

/-- Whether the node is a link. -/
def Node.isLink : Node → Bool
  | .link _ => true
  | _ => false

/-- The entry of a directory. -/
def entryIn : List (Str × Node) → Str → Option Node
  | [], _ => none
  | (y, n) :: l, x => if y = x then some n else entryIn l x

/-- The entry of a node. -/
def Node.entry : Node → Str → Option Node
  | .tree es, x => entryIn es x
  | _, _ => none

/-- What is found going down, following no links. -/
def Node.find : Node → List Str → Option Node
  | n, [] => some n
  | n, x :: l =>
    match n.entry x with
    | none => none
    | some m => m.find l

/-- Whether there is a link. -/
inductive HasLink : Node → Str → Prop where
  | here (c : Str) : HasLink (.link c) c
  | there {es : List (Str × Node)} {e : Str × Node} {c : Str} : e ∈ es → HasLink e.2 c → HasLink (.tree es) c

/-- Names that may be used in directories. -/
def GoodName (a : Str) : Prop := '/' ∉ a ∧ a ≠ [] ∧ a ≠ ['.'] ∧ a ≠ ['.', '.']

/-- All names in directories are good ones, and used once. -/
inductive Proper : Node → Prop where
  | file (id : Str) (x : Bool) : Proper (.file id x)
  | link (c : Str) : Proper (.link c)
  | tree {es : List (Str × Node)} (h1 : ∀ e ∈ es, GoodName e.1) (h2 : (es.map Prod.fst).Nodup) (h3 : ∀ e ∈ es, Proper e.2) :
      Proper (.tree es)

/-- Where following a path leads, starting in a directory; the way the operating system follows links: the content of a link takes
the place of its name, and `..` is the directory above the one reached. Directories are given by the path from the root that
does not use links. (That a path ending with a slash has to be a directory is not required.) -/
inductive Leads (root : Node) : List Str → List Str → List Str → Prop where
  | done (cur : List Str) : Leads root cur [] cur
  | skip {cur rest out : List Str} {x : Str} (hx : x = [] ∨ x = ['.']) (h : Leads root cur rest out) :
      Leads root cur (x :: rest) out
  | up {cur rest out : List Str} {y : Str} {es : List (Str × Node)} (hd : root.find (cur ++ [y]) = some (.tree es))
      (h : Leads root cur rest out) : Leads root (cur ++ [y]) (['.', '.'] :: rest) out
  | down {cur rest out : List Str} {x : Str} {n : Node} (hx : GoodName x) (hn : root.find (cur ++ [x]) = some n)
      (hl : n.isLink = false) (h : Leads root (cur ++ [x]) rest out) : Leads root cur (x :: rest) out
  | follow {cur rest out : List Str} {x c : Str} (hx : GoodName x) (hn : root.find (cur ++ [x]) = some (.link c))
      (hr : c.head? ≠ some '/') (h : Leads root cur (splitAt '/' c ++ rest) out) : Leads root cur (x :: rest) out

/-- The segments of a path that say where to go. -/
def steps (c : Str) : List Str := (splitAt '/' c).filter fun a => !(a.isEmpty || a == ['.'])

/-- `..` only in front. -/
def Tame (c : Str) : Prop := ∃ k l, steps c = List.replicate k ['.', '.'] ++ l ∧ ['.', '.'] ∉ l

end Verif.Symlinks
