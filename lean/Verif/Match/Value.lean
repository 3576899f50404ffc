import Verif.Match.Model

/-!
# The matcher on documents instead of bytes

The same control flow as `Verif.Match.Model`, but walking over a document (`Token.D`) instead of reading tokens.  It is an
intermediate between the byte-level model and the meaning of expressions: `Verif.Match.Refine` shows that the byte-level
matcher does exactly this on every text of the document.

Slots hold the document part they point to (`none` for the initial `(0, 0)`, which points to the beginning of the text).

The Boolean a function returns tells that it left early, so that the byte-level tokenizer is not at the end of the value.
That only happens when the root is decided and every caller leaves too; a caller that would go on is `stuck` here.
-/

namespace Verif.Match
open Verif.Token Verif.FastVal
open Verif.BinTree (Tree State)

variable {E : Ext}

/-- The value of a document part as the matcher sees it. -/
def valOf : D → Res (FV E)
  | .lit ty w => parseLit ty w
  | .arr ws es => .ok ⟨.arr (D.arr ws es).text, false⟩
  | .obj ws ms => .ok ⟨.obj (D.obj ws ms).text, false⟩

/-- State of the document-level matcher. -/
structure V where
  slots : List (Option D)
  bt : State
  coll : Bool

/-- Reading a slot; an unset slot reads the first token of the document `r`. -/
def slotVal (r : D) (slots : List (Option D)) (s : Nat) : Res (FV E) :=
  if s = 0 then .panic
  else
    Res.idx slots (s - 1) >>= fun p =>
    match p with
    | some d => valOf d
    | none =>
      match r with
      | .lit ty w => parseLit ty w
      | _ => .ok missingV

/-- Recursive call. -/
abbrev VRec (E : Ext) := Exec E → D → V → Res (Bool × V)

def opsV (X : Fns E) (t : Tree) (r : D) (lit : Option (FV E)) (ops : List (Op E)) (v : V) : Res (Bool × V) :=
  runOps X t (slotVal r v.slots) lit ops v.bt v.coll >>= fun o => .ok (o.1, { v with bt := o.2.1, coll := o.2.2 })

/-- After a child: leave if the root is decided; going on from an early exit is `stuck`. -/
def check (k : V → Res (Bool × V)) (r : Bool × V) : Res (Bool × V) :=
  BinTree.isResolved r.2.bt 0 >>= fun d => if d then .ok (true, r.2) else if r.1 then .stuck else k r.2

/-- Members of an object. -/
def vMembers (rec : VRec E) (elems : Elems E) : Ms → V → Res (Bool × V)
  | .nil, v => .ok (false, v)
  | .cons kty key _ _ d _ _ rest, v =>
    keyBytes false kty key >>= fun k =>
    match elems.find k with
    | some e => rec e d v >>= fun r => check (vMembers rec elems rest) r
    | none => vMembers rec elems rest v

/-- First token of a document. -/
def D.headTok : D → Tok × List Nat
  | .lit ty w => (ty, w)
  | .arr _ _ => (.arrayStart, [0x5B])
  | .obj _ _ => (.objectStart, [0x7B])

/-- Elements of an array, addressed by index. -/
def vElems (rec : VRec E) (elems : Elems E) : Nat → Es → V → Res (Bool × V)
  | _, .nil, v => .ok (false, v)
  | i, .cons d _ _ rest, v =>
    keyBytes true (D.headTok d).1 (D.headTok d).2 >>= fun _ =>
    match elems.find (indexKey i) with
    | some e => rec e d v >>= fun r => check (vElems rec elems (i + 1) rest) r
    | none => vElems rec elems (i + 1) rest v

/-- Iterations of a loop. -/
def vItems (rec : VRec E) (t : Tree) (bucket : Nat) (mode : Mode) (node : Exec E) : Es → Bool → V → Res (Bool × V)
  | .nil, st, v => .ok (st, v)
  | .cons d _ _ rest, st, v =>
    BinTree.resetNode t v.bt bucket >>= fun bt =>
    rec node d { v with bt := bt } >>= fun r =>
    if r.1 then .stuck
    else
      BinTree.isTrue r.2.bt bucket >>= fun it =>
      match mode.leaves it with
      | some b => .ok (b, r.2)
      | none => vItems rec t bucket mode node rest (mode.next it st) r.2

def vLoop (rec : VRec E) (t : Tree) (bucket : Nat) (mode : Mode) (node : Exec E) (d : D) (v : V) : Res V :=
  match d with
  | .arr _ es =>
    BinTree.isResolved v.bt bucket >>= fun r =>
    if r then .ok v
    else
      vItems rec t bucket mode node es mode.init { v with bt := (BinTree.setStallIndex v.bt bucket).1 } >>= fun r =>
      BinTree.resetNode t r.2.bt bucket >>= fun bt =>
      BinTree.markNode t (BinTree.setStallIndex bt v.bt.stall).1 bucket r.1 >>= fun bt =>
      .ok { r.2 with bt := bt }
  | _ => .ok v

def vAfterLoops (rec : VRec E) (t : Tree) (r : D) : Loops E → V → Res (Bool × V)
  | .nil, v => .ok (false, v)
  | .cons bucket mode target node rest, v =>
    match target with
    | some (.slot s) =>
      if s = 0 then .panic
      else
        Res.idx v.slots (s - 1) >>= fun p =>
        vLoop rec t bucket mode node (p.getD r) v >>= fun v =>
        BinTree.isResolved v.bt 0 >>= fun d =>
        if d then .ok (true, v) else vAfterLoops rec t r rest v
    | _ => .panic

def vAfter (X : Fns E) (rec : VRec E) (t : Tree) (r : D) (ops : List (Op E)) (loops : Loops E) (v : V) : Res (Bool × V) :=
  vAfterLoops rec t r loops v >>= fun a => if a.1 then .ok a else opsV X t r none ops a.2

def vArrayLoops (rec : VRec E) (t : Tree) (d : D) : Loops E → V → Res (Bool × V)
  | .nil, v => .ok (false, v)
  | .cons bucket mode target node rest, v =>
    match target with
    | some _ => .panic
    | none =>
      vLoop rec t bucket mode node d v >>= fun v =>
      BinTree.isResolved v.bt 0 >>= fun b => if b then .ok (true, v) else vArrayLoops rec t d rest v

def vFinish (X : Fns E) (rec : VRec E) (t : Tree) (r : D) (store : Nat) (after : After E) (d : D) (v : V) : Res (Bool × V) :=
  let k := fun v : V =>
    if store = 0 then Res.ok (false, v)
    else if store - 1 < v.slots.length then Res.ok (false, { v with slots := v.slots.set (store - 1) (some d) })
    else .panic
  match after with
  | .none => k v
  | .some ops loops => vAfter X rec t r ops loops v >>= fun a => check k a

def vOpsThen (X : Fns E) (rec : VRec E) (t : Tree) (r : D) (ops : List (Op E)) (store : Nat) (after : After E) (d : D) (v : V) :
    Res (Bool × V) :=
  valOf d >>= fun val =>
  opsV X t r (some val) ops v >>= fun o => if o.1 then .ok o else vFinish X rec t r store after d o.2

/-- An object node.  With an empty object the operations are not reached (`shouldReturn`). -/
def vObj (X : Fns E) (rec : VRec E) (t : Tree) (r : D) (store : Nat) (elems : Elems E) (ops : List (Op E)) (after : After E)
    (ws : List Nat) (ms : Ms) (v : V) : Res (Bool × V) :=
  let k := vOpsThen X rec t r ops store after (.obj ws ms)
  if elems.isEmpty then k v
  else
    vMembers rec elems ms v >>= fun a =>
    (match after with
      | .some aops aloops => vAfter X rec t r aops aloops a.2
      | .none => .ok (false, a.2)) >>= fun b =>
    match ms with
    | .nil => .ok b
    | _ => if a.1 then .ok (true, b.2) else check k b

/-- An array node. -/
def vArr (X : Fns E) (rec : VRec E) (t : Tree) (r : D) (store : Nat) (elems : Elems E) (ops : List (Op E)) (loops : Loops E)
    (after : After E) (ws : List Nat) (es : Es) (v : V) : Res (Bool × V) :=
  let k := vOpsThen X rec t r ops store after (.arr ws es)
  if loops.isEmpty then
    match es with
    | .nil => .ok (false, v)
    | _ => vElems rec elems 0 es v >>= fun a => if a.1 then .ok a else k a.2
  else vArrayLoops rec t (.arr ws es) loops v >>= fun a => if a.1 then .ok a else k a.2

/-- `matchExec` on a document. -/
def vExec (X : Fns E) (t : Tree) (r : D) : Nat → VRec E
  | 0 => fun _ _ _ => .stuck
  | h + 1 => fun node d v =>
    match node with
    | .mk store elems ops loops after =>
      match d with
      | .lit _ _ => vOpsThen X (vExec X t r h) t r ops store after d v
      | .obj ws ms => vObj X (vExec X t r h) t r store elems ops after ws ms v
      | .arr ws es => vArr X (vExec X t r h) t r store elems ops loops after ws es v

/-- `Match` on a document. -/
def vRun (X : Fns E) (df : Def E) (v : V) (r : D) : Res (Bool × V) :=
  match df.parse with
  | none => .panic
  | some node =>
    vExec X df.tree r node.height node r v >>= fun a =>
    BinTree.resolve df.tree a.2.bt >>= fun bt =>
    BinTree.isTrue bt 0 >>= fun b => .ok (b, { a.2 with bt := bt })

/-- A matcher after creation or `Reset`. -/
def newV (df : Def E) : V := { slots := List.replicate df.numSlots none, bt := BinTree.newState df.tree, coll := false }

end Verif.Match
