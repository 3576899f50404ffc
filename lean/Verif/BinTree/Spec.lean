/-!
# Specification side for the decision tree

Boolean trees and their meaning, independent of the array model.  Positions are preorder positions:
the root of a tree placed at `b` sits at `b`, its first child at `b + 1`, a second child right after the
whole first child.
-/

namespace Verif.BinTree

/-- One-child nodes: negation, and the wrapper around a loop's body. -/
inductive UnOp where
  | not | loop
  deriving DecidableEq, Repr

/-- Two-child nodes: `neor` is the disjunction used to merge separate expressions. -/
inductive BinOp where
  | or | and | neor
  deriving DecidableEq, Repr

/-- Boolean trees; leaves are the atomic conditions. -/
inductive Sh where
  | leaf
  | un (o : UnOp) (a : Sh)
  | bin (o : BinOp) (a c : Sh)
  deriving DecidableEq, Repr

/-- Number of nodes. -/
def Sh.size : Sh → Nat
  | .leaf => 1
  | .un _ a => a.size + 1
  | .bin _ a c => a.size + c.size + 1

/-- Meaning of a one-child node. -/
def UnOp.eval : UnOp → Bool → Bool
  | .not, x => !x
  | .loop, x => x

/-- Meaning of a two-child node. -/
def BinOp.eval : BinOp → Bool → Bool → Bool
  | .or, x, y => x || y
  | .and, x, y => x && y
  | .neor, x, y => x || y

/-- Boolean value of the tree at position `b`, where `f i` is the truth of the condition at position `i`. -/
def Sh.eval : Sh → Nat → (Nat → Bool) → Bool
  | .leaf, b, f => f b
  | .un o a, b, f => o.eval (a.eval (b + 1) f)
  | .bin o a c, b, f => o.eval (a.eval (b + 1) f) (c.eval (b + 1 + a.size) f)

/-- `i` is the position of an atomic condition of the tree at `b`. -/
def Sh.IsLeaf : Sh → Nat → Nat → Prop
  | .leaf, b, i => i = b
  | .un _ a, b, i => a.IsLeaf (b + 1) i
  | .bin _ a c, b, i => a.IsLeaf (b + 1) i ∨ c.IsLeaf (b + 1 + a.size) i

/-- The subtree `s'` sits at position `b'` inside the tree `s` at `b`. -/
def Sh.SubAt : Sh → Nat → Sh → Nat → Prop
  | .leaf, b, s', b' => s' = .leaf ∧ b' = b
  | .un o a, b, s', b' => (s' = .un o a ∧ b' = b) ∨ a.SubAt (b + 1) s' b'
  | .bin o a c, b, s', b' =>
      (s' = .bin o a c ∧ b' = b) ∨ a.SubAt (b + 1) s' b' ∨ c.SubAt (b + 1 + a.size) s' b'

/-- Value of the tree at `b` when `m` gives a verdict for some positions: a verdict at a position stands for
the whole subtree there, a condition without verdict counts as false. -/
def Sh.evalM : Sh → Nat → (Nat → Option Bool) → Bool
  | .leaf, b, m => (m b).getD false
  | .un o a, b, m => (m b).getD (o.eval (a.evalM (b + 1) m))
  | .bin o a c, b, m => (m b).getD (o.eval (a.evalM (b + 1) m) (c.evalM (b + 1 + a.size) m))

/-- No merge nodes (a single expression). -/
def Sh.NeorFree : Sh → Prop
  | .leaf => True
  | .un _ a => a.NeorFree
  | .bin o a c => o ≠ .neor ∧ a.NeorFree ∧ c.NeorFree

/-- Tree of several expressions merged into one. -/
def mergeSh : Sh → List Sh → Sh
  | s, [] => s
  | s, s' :: rest => .bin .neor s (mergeSh s' rest)

/-- The merged expressions with the positions of their roots. -/
def mergeParts : Sh → List Sh → Nat → List (Sh × Nat)
  | s, [], b => [(s, b)]
  | s, s' :: rest, b => (s, b + 1) :: mergeParts s' rest (b + 1 + s.size)

end Verif.BinTree
