import Verif.Basic

/-!
# Model of `bintree.go`

The decision tree of a compiled matcher (`binTree`) and its evaluation state (`binTreeState`).

Simplifications: indices are `Nat` (the Go code stores `int`; no negative index is ever produced), and a tree
node's `binTreePointers` are inlined into the node.  `binTreeState.tree` is passed as an argument.
The printing functions (lines 81-97, 114-141) are not modelled.
-/

namespace Verif.BinTree

/-- `BinTreeNodeType`, bintree.go:11-20. -/
inductive NodeType where
  | leaf | or | and | not | neor | loop
  deriving DecidableEq, Repr

/-- `binTreeNodeTypeHasLeft`, bintree.go:40-42. -/
def NodeType.hasLeft : NodeType → Bool
  | .leaf => false
  | _ => true

/-- `binTreeNodeTypeHasRight`, bintree.go:44-46. -/
def NodeType.hasRight : NodeType → Bool
  | .leaf => false
  | .not => false
  | .loop => false
  | _ => true

/-- `binTreeNode` with its `binTreePointers`, bintree.go:48-57. -/
structure Node where
  ty : NodeType
  parent : Nat
  left : Nat
  right : Nat
  deriving DecidableEq, Repr

/-- `binTree`, bintree.go:78-80. -/
abbrev Tree := List Node

/-- `binTreeStateValue`, bintree.go:99-106. -/
inductive SV where
  | unknown | resolved | tt | ff
  deriving DecidableEq, Repr

/-- The state value written by `MarkNode` for a Boolean, bintree.go:372-376. -/
def SV.ofBool : Bool → SV
  | true => .tt
  | false => .ff

/-- The mutable part of `binTreeState`, bintree.go:108-112. -/
structure State where
  data : List SV
  stall : Nat
  deriving DecidableEq, Repr

/-- `binTree.NewState`, bintree.go:143-148. -/
def newState (t : Tree) : State :=
  { data := List.replicate t.length .unknown, stall := 0 }

/-- `binTree.validateItem`, bintree.go:150-214.  `none` is the error return.  The recursion visits the
array *by position* (`pos`), not through `left`/`right`; those two are only range-checked.  Indexing beyond
the array panics.  Fuel bounds the recursion depth; every call has a larger `item`. -/
def validateItem (t : Tree) : Nat → Nat → Nat → Res (Option Nat)
  | 0, _, _ => .stuck
  | fuel + 1, item, parent =>
    (Res.idx t item) >>= fun n =>
    if n.parent ≠ parent then .ok none
    else if n.ty = .leaf then .ok (some (item + 1))
    -- here `hasLeft` holds for every remaining node type
    else if n.left = 0 ∨ n.left ≥ t.length then .ok none
    else if n.ty.hasRight = true ∧ (n.right = 0 ∨ n.right ≥ t.length) then .ok none
    else if n.ty.hasRight = false ∧ n.right ≠ 0 then .ok none
    else
      (validateItem t fuel (item + 1) item) >>= fun r =>
      match r with
      | none => .ok none
      | some pos => if n.ty.hasRight then validateItem t fuel pos item else .ok (some pos)

/-- `binTree.Validate`, bintree.go:220-231: `true` is the nil error. -/
def validate (t : Tree) : Res Bool := do
  match ← validateItem t (t.length + 1) 0 0 with
  | none => return false
  | some pos => return decide (pos = t.length)

/-- `binTreeState.SetStallIndex`, bintree.go:247-251: returns the previous value too. -/
def setStallIndex (s : State) (i : Nat) : State × Nat :=
  ({ s with stall := i }, s.stall)

/-- `binTreeState.CopyFrom`, bintree.go:237-245, for two states of the same tree.  The stall index of the
target is kept. -/
def copyFrom (s o : State) : State := { s with data := o.data ++ s.data.drop o.data.length }

/-- `binTreeState.Reset`, bintree.go:276-281. -/
def reset (s : State) : State :=
  { data := s.data.map (fun _ => SV.unknown), stall := 0 }

/-- `binTreeState.resetNodeRecursive`, bintree.go:283-297. -/
def resetNodeRecursive (t : Tree) : Nat → List SV → Nat → Res (List SV)
  | 0, _, _ => .stuck
  | fuel + 1, d, i =>
    (Res.idx d i) >>= fun _ =>
    (Res.idx t i) >>= fun n =>
    (if n.ty.hasLeft then resetNodeRecursive t fuel (d.set i .unknown) n.left
      else .ok (d.set i .unknown)) >>= fun d =>
    if n.ty.hasRight then resetNodeRecursive t fuel d n.right else .ok d

/-- `binTreeState.ResetNode`, bintree.go:299-301. -/
def resetNode (t : Tree) (s : State) (i : Nat) : Res State := do
  let d ← resetNodeRecursive t t.length s.data i
  return { s with data := d }

/-- The step `resolveRecursive` takes for one child (bintree.go:305-309 and 311-315): an undecided child
becomes `resolved` and is visited with `rec`. -/
def resolveVisit (rec : List SV → Nat → Res (List SV)) (d : List SV) (c : Nat) : Res (List SV) :=
  (Res.idx d c) >>= fun x =>
    if x = .unknown then rec (d.set c .resolved) c else .ok d

/-- `binTreeState.resolveRecursive`, bintree.go:303-317. -/
def resolveRecursive (t : Tree) : Nat → List SV → Nat → Res (List SV)
  | 0, _, _ => .stuck
  | fuel + 1, d, i =>
    (Res.idx t i) >>= fun n =>
    (if n.ty.hasLeft then resolveVisit (resolveRecursive t fuel) d n.left else .ok d) >>= fun d =>
    if n.ty.hasRight then resolveVisit (resolveRecursive t fuel) d n.right else .ok d

/-- The decision part of `binTreeState.checkNode`, bintree.go:319-365: the value (if any) with which the
code calls `MarkNode(index, _)` in tail position.  Reads happen in Go's short-circuit order. -/
def checkNode (t : Tree) (d : List SV) (i : Nat) : Res (Option Bool) := do
  let n ← Res.idx t i
  match n.ty with
  | .leaf => .panic
  | .or =>
    if (← Res.idx d n.left) = .tt then return some true
    if (← Res.idx d n.right) = .tt then return some true
    if (← Res.idx d n.left) = .ff ∧ (← Res.idx d n.right) = .ff then return some false
    return none
  | .neor =>
    if (← Res.idx d n.left) = .unknown then return none
    if (← Res.idx d n.right) = .unknown then return none
    if (← Res.idx d n.left) = .tt ∨ (← Res.idx d n.right) = .tt then return some true
    return some false
  | .and =>
    if (← Res.idx d n.left) = .tt ∧ (← Res.idx d n.right) = .tt then return some true
    if (← Res.idx d n.left) = .ff then return some false
    if (← Res.idx d n.right) = .ff then return some false
    return none
  | .not =>
    if (← Res.idx d n.left) = .tt then return some false
    if (← Res.idx d n.left) = .ff then return some true
    return none
  | .loop =>
    if (← Res.idx d n.left) = .tt then return some true
    if (← Res.idx d n.left) = .ff then return some false
    return none

/-- `binTreeState.MarkNode` together with the tail call through `checkNode`, bintree.go:367-393 (and the
`MarkNode` calls of 319-365).  Fuel bounds the upward recursion. -/
def markNodeAux (t : Tree) (stall : Nat) : Nat → List SV → Nat → Bool → Res (List SV)
  | 0, _, _, _ => .stuck
  | fuel + 1, d, i, v => do
    if (← Res.idx d i) ≠ .unknown then .panic
    else
      let d := d.set i (SV.ofBool v)
      let d ← resolveRecursive t t.length d i
      if i = 0 then return d
      if i = stall then return d
      let n ← Res.idx t i
      match ← checkNode t d n.parent with
      | none => return d
      | some w => markNodeAux t stall fuel d n.parent w

/-- `binTreeState.MarkNode`, bintree.go:367-393. -/
def markNode (t : Tree) (s : State) (i : Nat) (v : Bool) : Res State := do
  let d ← markNodeAux t s.stall t.length s.data i v
  return { s with data := d }

/-- `binTreeState.IsResolved`, bintree.go:395-397. -/
def isResolved (s : State) (i : Nat) : Res Bool := do
  return decide ((← Res.idx s.data i) ≠ .unknown)

/-- `binTreeState.IsTrue`, bintree.go:399-401. -/
def isTrue (s : State) (i : Nat) : Res Bool := do
  return decide ((← Res.idx s.data i) = .tt)

/-- The loop of `binTreeState.Resolve`, bintree.go:262-273; the first argument counts down `i + 1`. -/
def resolveLoop (t : Tree) : Nat → State → Res State
  | 0, s => .ok s
  | i + 1, s =>
    (Res.idx s.data i) >>= fun x =>
    (if x = .unknown then markNode t s i false else .ok s) >>= fun s =>
    (Res.idx s.data 0) >>= fun r =>
    if r ≠ .unknown then .ok s else resolveLoop t i s

/-- `binTreeState.Resolve`, bintree.go:255-274. -/
def resolve (t : Tree) (s : State) : Res State := do
  if (← isResolved s 0) then return s
  resolveLoop t s.data.length s

/-- The way `matchOp` uses the tree (fastMatcher.go:230-234, 260, 296): do nothing if the bucket is already
settled, otherwise mark it. -/
def guardedMark (t : Tree) (s : State) (i : Nat) (v : Bool) : Res State := do
  if (← isResolved s i) then return s
  markNode t s i v

end Verif.BinTree
