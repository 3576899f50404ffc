import Verif.Match.Value

/-!
# What a definition says about a document

A description of matching without the decision tree's state: walking over the document yields a list of decisions
(condition, truth value), and the verdict is the value of the Boolean tree under these decisions, where the first decision
for a condition counts and conditions without decision are false.  A loop decides its body by evaluating it (three-valued)
on the elements.

`Verif.Match.Sound` shows that the matcher, which skips what is already settled and leaves as soon as the root is settled,
computes exactly this.
-/

namespace Verif.Match
open Verif.Token Verif.FastVal
open Verif.BinTree (Sh K)

variable {E : Ext}

/-- Decisions in the order they are taken. -/
abbrev Marks := List (Nat × Bool)

/-- The decision for a position: the first one. -/
def Marks.get (l : Marks) : Nat → Option Bool := fun i => l.lookup i

abbrev Slots := List (Option D)

abbrev DRec (E : Ext) := Exec E → D → Slots → Res (Marks × Slots)

def dOps (X : Fns E) (r : D) (σ : Slots) (lit : Option (FV E)) : List (Op E) → Res Marks
  | [] => .ok []
  | op :: ops => opResult X (slotVal r σ) lit op >>= fun o => dOps X r σ lit ops >>= fun l => .ok ((op.bucket, o.1) :: l)

/-- Decisions of `f` after those of `a`. -/
def andThen (a : Marks × Slots) (f : Slots → Res (Marks × Slots)) : Res (Marks × Slots) :=
  f a.2 >>= fun b => .ok (a.1 ++ b.1, b.2)

def dMembers (rec : DRec E) (elems : Elems E) : Ms → Slots → Res (Marks × Slots)
  | .nil, σ => .ok ([], σ)
  | .cons kty key _ _ d _ _ rest, σ =>
    keyBytes false kty key >>= fun k =>
    match elems.find k with
    | some e => rec e d σ >>= fun a => andThen a (dMembers rec elems rest)
    | none => dMembers rec elems rest σ

def dElems (rec : DRec E) (elems : Elems E) : Nat → Es → Slots → Res (Marks × Slots)
  | _, .nil, σ => .ok ([], σ)
  | i, .cons d _ _ rest, σ =>
    keyBytes true (D.headTok d).1 (D.headTok d).2 >>= fun _ =>
    match elems.find (indexKey i) with
    | some e => rec e d σ >>= fun a => andThen a (dElems rec elems (i + 1) rest)
    | none => dElems rec elems (i + 1) rest σ

/-- Outcome of a loop over the elements: `sh` gives the body's Boolean tree. -/
def dItems (rec : DRec E) (sh : Nat → Sh) (bucket : Nat) (mode : Mode) (node : Exec E) (σ : Slots) : Es → Bool → Res Bool
  | .nil, st => .ok st
  | .cons d _ _ rest, st =>
    rec node d σ >>= fun a =>
    let it := decide (K (sh bucket) bucket a.1.get = some true)
    match mode.leaves it with
    | some b => .ok b
    | none => dItems rec sh bucket mode node σ rest (mode.next it st)

def dLoop (rec : DRec E) (sh : Nat → Sh) (bucket : Nat) (mode : Mode) (node : Exec E) (d : D) (σ : Slots) : Res Marks :=
  match d with
  | .arr _ es => dItems rec sh bucket mode node σ es mode.init >>= fun b => .ok [(bucket, b)]
  | _ => .ok []

def dAfterLoops (rec : DRec E) (sh : Nat → Sh) (r : D) (σ : Slots) : Loops E → Res Marks
  | .nil => .ok []
  | .cons bucket mode target node rest =>
    match target with
    | some (.slot s) =>
      if s = 0 then .panic
      else
        Res.idx σ (s - 1) >>= fun p =>
        dLoop rec sh bucket mode node (p.getD r) σ >>= fun l =>
        dAfterLoops rec sh r σ rest >>= fun l' => .ok (l ++ l')
    | _ => .panic

def dAfter (X : Fns E) (rec : DRec E) (sh : Nat → Sh) (r : D) (σ : Slots) : After E → Res Marks
  | .none => .ok []
  | .some ops loops => dAfterLoops rec sh r σ loops >>= fun l => dOps X r σ none ops >>= fun l' => .ok (l ++ l')

def dArrayLoops (rec : DRec E) (sh : Nat → Sh) (d : D) (σ : Slots) : Loops E → Res Marks
  | .nil => .ok []
  | .cons bucket mode target node rest =>
    match target with
    | some _ => .panic
    | none => dLoop rec sh bucket mode node d σ >>= fun l => dArrayLoops rec sh d σ rest >>= fun l' => .ok (l ++ l')

/-- Storing a value. -/
def dStore (store : Nat) (d : D) (σ : Slots) : Res Slots :=
  if store = 0 then .ok σ
  else if store - 1 < σ.length then .ok (σ.set (store - 1) (some d))
  else .panic

def dFinish (X : Fns E) (rec : DRec E) (sh : Nat → Sh) (r : D) (store : Nat) (after : After E) (d : D) (σ : Slots) :
    Res (Marks × Slots) :=
  dAfter X rec sh r σ after >>= fun l => dStore store d σ >>= fun σ => .ok (l, σ)

def dOpsThen (X : Fns E) (rec : DRec E) (sh : Nat → Sh) (r : D) (ops : List (Op E)) (store : Nat) (after : After E) (d : D)
    (σ : Slots) : Res (Marks × Slots) :=
  valOf d >>= fun val => dOps X r σ (some val) ops >>= fun l => andThen (l, σ) (dFinish X rec sh r store after d)

def dObj (X : Fns E) (rec : DRec E) (sh : Nat → Sh) (r : D) (store : Nat) (elems : Elems E) (ops : List (Op E)) (after : After E)
    (ws : List Nat) (ms : Ms) (σ : Slots) : Res (Marks × Slots) :=
  let k := dOpsThen X rec sh r ops store after (.obj ws ms)
  if elems.isEmpty then k σ
  else
    dMembers rec elems ms σ >>= fun a =>
    dAfter X rec sh r a.2 after >>= fun l =>
    match ms with
    | .nil => .ok (a.1 ++ l, a.2)
    | _ => andThen (a.1 ++ l, a.2) k

def dArr (X : Fns E) (rec : DRec E) (sh : Nat → Sh) (r : D) (store : Nat) (elems : Elems E) (ops : List (Op E)) (loops : Loops E)
    (after : After E) (ws : List Nat) (es : Es) (σ : Slots) : Res (Marks × Slots) :=
  let k := dOpsThen X rec sh r ops store after (.arr ws es)
  if loops.isEmpty then
    match es with
    | .nil => .ok ([], σ)
    | _ => dElems rec elems 0 es σ >>= fun a => andThen a k
  else dArrayLoops rec sh (.arr ws es) σ loops >>= fun l => andThen (l, σ) k

/-- Decisions a node takes on a document part. -/
def dExec (X : Fns E) (sh : Nat → Sh) (r : D) : Nat → DRec E
  | 0 => fun _ _ _ => .stuck
  | h + 1 => fun node d σ =>
    match node with
    | .mk store elems ops loops after =>
      match d with
      | .lit _ _ => dOpsThen X (dExec X sh r h) sh r ops store after d σ
      | .obj ws ms => dObj X (dExec X sh r h) sh r store elems ops after ws ms σ
      | .arr ws es => dArr X (dExec X sh r h) sh r store elems ops loops after ws es σ

/-- The subtree at position `i` (of the tree `s` at `b`). -/
def subtree : Sh → Nat → Nat → Sh
  | .leaf, _, _ => .leaf
  | .un o a, b, i => if i = b then .un o a else subtree a (b + 1) i
  | .bin o a c, b, i =>
    if i = b then .bin o a c else if i < b + 1 + a.size then subtree a (b + 1) i else subtree c (b + 1 + a.size) i

/-- All decisions a node takes on a document, for a definition with the Boolean tree `s`. -/
def decisions (X : Fns E) (s : Sh) (node : Exec E) (nslots : Nat) (r : D) : Res Marks :=
  dExec X (subtree s 0) r node.height node r (List.replicate nslots none) >>= fun a => .ok a.1

/-- The verdict. -/
def verdict (X : Fns E) (s : Sh) (node : Exec E) (nslots : Nat) (r : D) : Res Bool :=
  decisions X s node nslots r >>= fun l => .ok (s.evalM 0 l.get)

/-! ### Definitions whose nodes fit the tree -/

/-- Positions a walk decides: conditions outside loops, and the bodies of outermost loops. -/
def IsAtom : Sh → Nat → Nat → Prop
  | .leaf, b, i => i = b
  | .un .loop _, b, i => i = b + 1
  | .un .not a, b, i => IsAtom a (b + 1) i
  | .bin _ a c, b, i => IsAtom a (b + 1) i ∨ IsAtom c (b + 1 + a.size) i

/-- `a` is the body of an outermost loop, at position `i`. -/
def LoopAt : Sh → Nat → Nat → Sh → Prop
  | .leaf, _, _, _ => False
  | .un .loop x, b, i, a => i = b + 1 ∧ a = x
  | .un .not x, b, i, a => LoopAt x (b + 1) i a
  | .bin _ x y, b, i, a => LoopAt x (b + 1) i a ∨ LoopAt y (b + 1 + x.size) i a

mutual
  /-- No node stores into a slot. -/
  def Exec.NoStore : Exec E → Prop
    | .mk store es _ ls a => store = 0 ∧ es.NoStore ∧ ls.NoStore ∧ a.NoStore
  def Elems.NoStore : Elems E → Prop
    | .nil => True
    | .cons _ e r => e.NoStore ∧ r.NoStore
  def Loops.NoStore : Loops E → Prop
    | .nil => True
    | .cons _ _ _ e r => e.NoStore ∧ r.NoStore
  def After.NoStore : After E → Prop
    | .none => True
    | .some _ ls => ls.NoStore
end

mutual
  /-- The node's operations and loops decide positions of the tree `s` at `b`; loop bodies store nothing. -/
  def Exec.Fits : Exec E → Sh → Nat → Prop
    | .mk _ es ops ls a, s, b => es.Fits s b ∧ (∀ op ∈ ops, IsAtom s b op.bucket) ∧ ls.Fits s b ∧ a.Fits s b
  def Elems.Fits : Elems E → Sh → Nat → Prop
    | .nil, _, _ => True
    | .cons _ e r, s, b => e.Fits s b ∧ r.Fits s b
  def Loops.Fits : Loops E → Sh → Nat → Prop
    | .nil, _, _ => True
    | .cons bucket _ _ e r, s, b => (∃ a, LoopAt s b bucket a ∧ e.Fits a bucket ∧ e.NoStore) ∧ r.Fits s b
  def After.Fits : After E → Sh → Nat → Prop
    | .none, _, _ => True
    | .some ops ls, s, b => (∀ op ∈ ops, IsAtom s b op.bucket) ∧ ls.Fits s b
end

theorem Elems.Fits.find {es : Elems E} {s b} (h : es.Fits s b) {k e} (he : es.find k = some e) : e.Fits s b := by
  match es, h with
  | .cons k' e' r, h =>
    rw [Elems.find] at he
    split at he
    · simp at he; subst he; exact h.1
    · exact Elems.Fits.find (es := r) h.2 he

end Verif.Match
