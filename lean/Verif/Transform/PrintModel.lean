import Verif.Transform.Model

/-!
# Model of the printing of definitions

`MatchDef.String` and what it calls: fastMatcherDef.go:24-30, 40-42, 50-66, 80-101, 109-115, 124-151, 173-247, fastval.go:100-146,
bintree.go:22-38 and 78-97, utils.go:9-11.  Texts are lists of bytes.

The formatting of floats, times and regular expressions by Go's library, and the name of a function (the model keeps only what a name
selects), are parameters.
-/

namespace Verif.Transform
open Verif.FastVal Verif.Match Verif.Expr
open Verif.BinTree (Tree NodeType)

variable {E : Ext}

/-- Go's `%f`, `time.Time.String`, `regexp.Regexp.String` and `FuncRef.FuncName`. -/
structure Show (E : Ext) where
  float : E.F → List Nat
  time : E.T → List Nat
  regex : E.R → List Nat
  name : FName → List Nat

/-- `%d` -/
def natText (n : Nat) : List Nat := (Nat.toDigits 10 n).map Char.toNat
def intText (z : Int) : List Nat := if z < 0 then 45 :: natText z.natAbs else natText z.natAbs

/-- `reindentString`, utils.go:9-11. -/
def reindent (ind s : List Nat) : List Nat := ind ++ s.flatMap fun c => if c = 10 then 10 :: ind else [c]

/-- `strings.TrimRight(s, "\n")` -/
def trimRight (s : List Nat) : List Nat := (s.reverse.dropWhile (· == 10)).reverse

/-- `"%s"` in quotes. -/
def quoted (s : List Nat) : List Nat := 34 :: (s ++ [34])

/-- `FastVal.String`, fastval.go:100-146: there is no case for `PcreValue`. -/
def fvText (S : Show E) (v : FV E) : Res (List Nat) :=
  match v.d with
  | .invalid => .ok (ascii "invalid")
  | .missing => .ok (ascii "missing")
  | .int v => .ok (ascii "(int)" ++ fmtInt v)
  | .uint v => .ok (ascii "(uint)" ++ fmtUint v)
  | .float f => .ok (ascii "(float)" ++ S.float f)
  | .jsonInt s => .ok (ascii "(jsonInt)" ++ s)
  | .jsonUint s => .ok (ascii "(jsonUint)" ++ s)
  | .jsonFloat s => .ok (ascii "(jsonFloat)" ++ s)
  | .str s => .ok (ascii "(string)" ++ s)
  | .binStr s => .ok (ascii "(binString)" ++ quoted s)
  | .jsonStr s => .ok (ascii "(jsonString)" ++ quoted s)
  | .bin s => .ok (ascii "(bin)" ++ quoted s)
  | .null => .ok (ascii "null")
  | .tru => .ok (ascii "true")
  | .fals => .ok (ascii "false")
  | .arr s => .ok (ascii "(array)" ++ s)
  | .obj s => .ok (ascii "(object)" ++ s)
  | .time t => .ok (S.time t)
  | .regex r => .ok (ascii "(regexp)" ++ S.regex r)
  | .pcre _ => .panic

mutual
  /-- `String` of a `DataRef`, fastMatcherDef.go:32-66. -/
  def refText (S : Show E) : Ref E → Res (List Nat)
    | .val v => fvText S v
    | .lit => .ok (ascii "@")
    | .slot s => .ok (ascii "$" ++ natText s)
    | .fn f ps => refsText S ps >>= fun p => .ok (ascii "func:" ++ S.name f ++ ascii "(" ++ p ++ ascii ")")

  /-- The parameters, separated by commas. -/
  def refsText (S : Show E) : Refs E → Res (List Nat)
    | .nil => .ok []
    | .cons p .nil => refText S p
    | .cons p ps => refText S p >>= fun x => refsText S ps >>= fun y => .ok (x ++ ascii ", " ++ y)
end

/-- `dataRefToString`, fastMatcherDef.go:24-29. -/
def sideText (S : Show E) : Option (Ref E) → Res (List Nat)
  | none => .ok (ascii "@")
  | some r => refText S r

/-- `OpType.String`, fastMatcherDef.go:80-101. -/
def opTyText : OpTy → List Nat
  | .equals => ascii "eq"
  | .lessThan => ascii "lt"
  | .lessEquals => ascii "le"
  | .greaterThan => ascii "gt"
  | .greaterEquals => ascii "gte"
  | .in_ => ascii "in"
  | .exists_ => ascii "exists"
  | .matches_ => ascii "matches"

/-- `OpNode.String`, fastMatcherDef.go:109-115. -/
def opText (S : Show E) (op : Op E) : Res (List Nat) :=
  sideText S op.lhs >>= fun l => sideText S op.rhs >>= fun r =>
  .ok (ascii "[" ++ natText op.bucket ++ ascii "] " ++ l ++ ascii " " ++ opTyText op.op ++ ascii " " ++ r)

def opsText (S : Show E) : List (Op E) → Res (List (List Nat))
  | [] => .ok []
  | op :: ops => opText S op >>= fun x => opsText S ops >>= fun r => .ok (x :: r)

/-- `LoopType.String`, fastMatcherDef.go:125-136. -/
def modeText : Mode → List Nat
  | .any => ascii "any"
  | .every => ascii "every"
  | .anyEvery => ascii "anyevery"

/-- Inserting an entry by its key (`sort.Strings`). -/
def insertKey {α : Type} (k : List Nat) (x : α) : List (List Nat × α) → List (List Nat × α)
  | [] => [(k, x)]
  | (k', x') :: r => if k' < k then (k', x') :: insertKey k x r else (k, x) :: (k', x') :: r

/-- A list of items below a title; nothing if there are none. -/
def block (title : List Nat) (items : List (List Nat)) : List Nat :=
  if items.isEmpty then [] else title ++ items.flatMap fun x => reindent (ascii "  ") x ++ [10]

/-- The block of the elements, fastMatcherDef.go:204-213. -/
def elemsBlock (ks : List (List Nat × List Nat)) : List Nat :=
  if ks.isEmpty then []
  else ascii ":elems\n" ++ ks.flatMap fun kx => ascii "  `" ++ kx.1 ++ ascii "`:\n" ++ reindent (ascii "    ") kx.2 ++ [10]

mutual
  /-- `ExecNode.String`, fastMatcherDef.go:192-247. -/
  def execText (S : Show E) : Exec E → Res (List Nat)
    | .mk st es ops ls a =>
      opsText S ops >>= fun o =>
      elemsText S es >>= fun ks =>
      loopsText S ls >>= fun l =>
      afterText S a >>= fun x =>
      .ok (trimRight ((if st > 0 then ascii ":store $" ++ natText st ++ [10] else []) ++ block (ascii ":ops\n") o ++ elemsBlock ks ++
        block (ascii ":loops\n") l ++ x))

  /-- The keys in order, with the texts of their nodes. -/
  def elemsText (S : Show E) : Elems E → Res (List (List Nat × List Nat))
    | .nil => .ok []
    | .cons k e r => execText S e >>= fun x => elemsText S r >>= fun ks => .ok (insertKey k x ks)

  /-- `LoopNode.String`, fastMatcherDef.go:145-150, of each loop. -/
  def loopsText (S : Show E) : Loops E → Res (List (List Nat))
    | .nil => .ok []
    | .cons b m t e r =>
      sideText S t >>= fun x => execText S e >>= fun y => loopsText S r >>= fun r =>
      .ok ((ascii "[" ++ natText b ++ ascii "] :" ++ modeText m ++ ascii " in " ++ x ++ ascii ":\n" ++ reindent (ascii "  ") y) :: r)

  /-- fastMatcherDef.go:225-243 -/
  def afterText (S : Show E) : After E → Res (List Nat)
    | .none => .ok []
    | .some ops ls => opsText S ops >>= fun o => loopsText S ls >>= fun l =>
      .ok (block (ascii ":after-ops:\n") o ++ block (ascii ":after-loops:\n") l)
end

/-- `binTreeNodeTypeToString`, bintree.go:22-38. -/
def nodeTyText : NodeType → List Nat
  | .leaf => ascii "leaf"
  | .or => ascii "or"
  | .and => ascii "and"
  | .not => ascii "not"
  | .neor => ascii "neor"
  | .loop => ascii "loop"

/-- `itemToString`, bintree.go:82-93; the first argument bounds the recursion. -/
def itemText (t : Tree) : Nat → Nat → Res (List Nat)
  | 0, _ => .stuck
  | fuel + 1, i =>
    Res.idx t i >>= fun n =>
    (if n.left ≠ 0 then itemText t fuel n.left >>= fun x => .ok (reindent (ascii "  ") x ++ [10]) else .ok []) >>= fun l =>
    (if n.right ≠ 0 then itemText t fuel n.right >>= fun x => .ok (reindent (ascii "  ") x ++ [10]) else .ok []) >>= fun r =>
    .ok (trimRight (ascii "[" ++ natText i ++ ascii ":" ++ natText n.parent ++ ascii "] " ++ nodeTyText n.ty ++ [10] ++ l ++ r))

/-- fastMatcherDef.go:183-185 -/
def bucketLines : Nat → List Int → List Nat
  | _, [] => []
  | i, b :: r => ascii "  " ++ natText i ++ ascii ": " ++ intText b ++ [10] ++ bucketLines (i + 1) r

/-- `MatchDef.String`, fastMatcherDef.go:173-190.  A nil `ParseNode` is dereferenced.  `NumBuckets` is the size of the tree
(transform.go:642-644). -/
def defText (S : Show E) (df : Def E) : Res (List Nat) :=
  match df.parse with
  | none => .panic
  | some e =>
    execText S e >>= fun x =>
    itemText df.tree (df.tree.length + 1) 0 >>= fun y =>
    .ok (trimRight (ascii "match tree:\n  $doc:\n" ++ reindent (ascii "    ") x ++ ascii "\nbin tree:\n" ++ reindent (ascii "  ") y ++
      ascii "\nmatch buckets:\n" ++ bucketLines 0 df.buckets ++ ascii "num buckets: " ++ natText df.tree.length ++
      ascii "\nnum slots: " ++ natText df.numSlots ++ [10]))

end Verif.Transform
