import Verif.FastVal.Func
import Verif.Lit.Theorems
import Verif.BinTree.Theorems

/-!
# Model of fastMatcher.go (and the data types of fastMatcherDef.go)

The nodes a definition is made of form a tree while matching (no node is written to), so `ExecNode`s are values of an
inductive type.  `matchExec` recurses into child nodes; the model counts the height of the node down and hands the
recursive call to the functions that run the loops over the tokens (`objLoop`, `loopItems`), whose fuel is the length of
the input.  `Verif.Match.Total` shows that neither runs out.
-/

namespace Verif.Match
open Verif.Token Verif.FastVal
open Verif.BinTree (Tree State)

variable {E : Ext}

/-! ### Definitions, fastMatcherDef.go -/

mutual
  /-- `DataRef` (fastMatcherDef.go:20-65): constant, active literal, slot, function.  `makeDataRefRecurse` never yields a nil
  reference below a function (transform.go:281-330). -/
  inductive Ref (E : Ext) where
    | val (v : FV E)
    | lit
    | slot (s : Nat)
    | fn (f : FName) (ps : Refs E)

  inductive Refs (E : Ext) where
    | nil
    | cons (p : Ref E) (ps : Refs E)
end

/-- `OpType`, fastMatcherDef.go:67-78 (`in` has no implementation: `matchOp` panics). -/
inductive OpTy where
  | equals | lessThan | lessEquals | greaterThan | greaterEquals | exists_ | in_ | matches_
  deriving DecidableEq, Repr

/-- `OpNode`, fastMatcherDef.go:102-107; `none` is a nil reference. -/
structure Op (E : Ext) where
  bucket : Nat
  op : OpTy
  lhs : Option (Ref E)
  rhs : Option (Ref E)

/-- `LoopType`, fastMatcherDef.go:117-123. -/
inductive Mode where
  | any | every | anyEvery
  deriving DecidableEq, Repr

mutual
  /-- `ExecNode`, fastMatcherDef.go:157-163.  `store = 0` means no slot. -/
  inductive Exec (E : Ext) where
    | mk (store : Nat) (elems : Elems E) (ops : List (Op E)) (loops : Loops E) (after : After E)

  /-- The map `Elems`, as a list of bindings (the first one for a key counts). -/
  inductive Elems (E : Ext) where
    | nil
    | cons (key : List Nat) (node : Exec E) (rest : Elems E)

  /-- `[]LoopNode`, fastMatcherDef.go:138-143. -/
  inductive Loops (E : Ext) where
    | nil
    | cons (bucket : Nat) (mode : Mode) (target : Option (Ref E)) (node : Exec E) (rest : Loops E)

  /-- `*AfterNode`, fastMatcherDef.go:152-155, nil or not. -/
  inductive After (E : Ext) where
    | none
    | some (ops : List (Op E)) (loops : Loops E)
end

/-- Lookup in `Elems`. -/
def Elems.find : Elems E → List Nat → Option (Exec E)
  | .nil, _ => none
  | .cons k e r, key => if k = key then some e else r.find key

/-- `len(node.Elems) == 0` -/
def Elems.isEmpty : Elems E → Bool
  | .nil => true
  | _ => false

/-- `len(node.Loops) == 0` -/
def Loops.isEmpty : Loops E → Bool
  | .nil => true
  | _ => false

mutual
  /-- Height of a node; bounds the recursion depth of `matchExec`. -/
  def Exec.height : Exec E → Nat
    | .mk _ es _ ls a => 1 + max es.height (max ls.height a.height)
  def Elems.height : Elems E → Nat
    | .nil => 0
    | .cons _ e r => max e.height r.height
  def Loops.height : Loops E → Nat
    | .nil => 0
    | .cons _ _ _ e r => max e.height r.height
  def After.height : After E → Nat
    | .none => 0
    | .some _ ls => ls.height
end

/-- `MatchDef`, fastMatcherDef.go:165-171 (`NumBuckets` is not used by the matcher); `none` is a nil `ParseNode`. -/
structure Def (E : Ext) where
  parse : Option (Exec E)
  tree : Tree
  buckets : List Int
  numSlots : Nat

/-- `FastMatcher`, fastMatcher.go:16-22, without the definition.  A slot is `(start, size)`. -/
structure M where
  tk : Tkn
  slots : List (Nat × Nat)
  bt : State
  coll : Bool
  deriving DecidableEq, Repr

/-- `NewFastMatcher`, fastMatcher.go:24-30. -/
def newMatcher (df : Def E) : M :=
  { tk := ⟨[], 0⟩, slots := List.replicate df.numSlots (0, 0), bt := BinTree.newState df.tree, coll := false }

/-- `FastMatcher.Reset`, fastMatcher.go:32-37. -/
def resetMatcher (m : M) : M :=
  { m with slots := m.slots.map (fun _ => (0, 0)), bt := BinTree.reset m.bt }

/-! ### Literals and operations -/

/-- `fastLitParser.Parse`, fastlitparse.go:68-86. -/
def parseLit (ty : Tok) (w : List Nat) : Res (FV E) :=
  match ty with
  | .string => Lit.parseString w >>= fun s => .ok ⟨.binStr s, false⟩
  | .escString => Lit.parseEscString w >>= fun s => .ok ⟨.binStr s, false⟩
  | .integer => .ok ⟨.int (Lit.parseInt w), false⟩
  | .number => .ok ⟨.float (E.parseFloat w).1, false⟩
  | .null => .ok ⟨.null, false⟩
  | .tru => .ok ⟨.tru, false⟩
  | .fals => .ok ⟨.fals, false⟩
  | _ => .panic

def missingV : FV E := ⟨.missing, false⟩

/-- The slice expression `data[a:b]`.  Go allows `b` up to the capacity; a buffer longer than the document is not
modelled. -/
def sliceOf (data : List Nat) (a b : Nat) : Res (List Nat) :=
  if a ≤ b ∧ b ≤ data.length then .ok (slice data a b) else .panic

/-- `literalFromSlot`, fastMatcher.go:94-117.  The tokenizer position is saved and restored, so only the value is
returned.  On a tokenizer error the token is `tknUnknown`. -/
def literalFromSlot (m : M) (s : Nat) : Res (FV E) :=
  if s = 0 then .panic
  else
    Res.idx m.slots (s - 1) >>= fun p =>
    match (step (seek m.tk p.1)).1 with
    | none => .ok missingV
    | some (ty, w) =>
      if ty.isLiteral then parseLit ty w
      else if p.2 > 0 then
        match ty with
        | .objectStart => sliceOf m.tk.data p.1 (p.1 + p.2) >>= fun b => .ok ⟨.obj b, false⟩
        | .arrayStart => sliceOf m.tk.data p.1 (p.1 + p.2) >>= fun b => .ok ⟨.arr b, false⟩
        | _ => .ok missingV
      else .ok missingV

mutual
  /-- `resolveParam`, fastMatcher.go:208-225, where `rd` reads a slot. -/
  def resolveParam (X : Fns E) (rd : Nat → Res (FV E)) (lit : Option (FV E)) : Ref E → Res (FV E)
    | .val v => .ok v
    | .lit => match lit with
      | none => .panic
      | some v => .ok v
    | .slot s => rd s
    | .fn f ps => resolveParams X rd lit f.arity ps >>= fun vs => applyFn X f vs

  /-- The parameters a function reads, in order (fastMatcher.go:121-202). -/
  def resolveParams (X : Fns E) (rd : Nat → Res (FV E)) (lit : Option (FV E)) : Nat → Refs E → Res (List (FV E))
    | 0, _ => .ok []
    | _ + 1, .nil => .ok []
    | n + 1, .cons p ps =>
      resolveParam X rd lit p >>= fun v => resolveParams X rd lit n ps >>= fun vs => .ok (v :: vs)
end

/-- One side of an operation, fastMatcher.go:237-255: the value, and whether it is a slot reference that was not
found. -/
def opSide (X : Fns E) (rd : Nat → Res (FV E)) (lit : Option (FV E)) : Option (Ref E) → Res (FV E × Bool)
  | none => .ok (lit.getD missingV, false)
  | some r => resolveParam X rd lit r >>= fun v =>
    .ok (v, match r with | .slot _ => decide (v.d.ty = .missing) | _ => false)

/-- The `switch op.Op`, fastMatcher.go:271-292: result and validity. -/
def evalOp : OpTy → FV E → FV E → Res (Bool × Bool)
  | .equals, l, r => .ok (equals l r)
  | .lessThan, l, r => .ok (decide ((compare l r).1 < 0), (compare l r).2)
  | .lessEquals, l, r => .ok (decide ((compare l r).1 ≤ 0), (compare l r).2)
  | .greaterThan, l, r => .ok (decide ((compare l r).1 > 0), (compare l r).2)
  | .greaterEquals, l, r => .ok (decide ((compare l r).1 ≥ 0), (compare l r).2)
  | .matches_, l, r => .ok (matchesRe l r)
  | .exists_, _, _ => .ok (true, true)
  | .in_, _, _ => .panic

/-- What `matchOp` computes, fastMatcher.go:236-303, before it marks: the mark and whether the values were collated. -/
def opResult (X : Fns E) (rd : Nat → Res (FV E)) (lit : Option (FV E)) (op : Op E) : Res (Bool × Bool) :=
  opSide X rd lit op.lhs >>= fun l =>
  opSide X rd lit op.rhs >>= fun r =>
  if l.2 || r.2 then .ok (false, false)
  else evalOp op.op l.1 r.1 >>= fun o => .ok (o.1, !o.2)

/-- `matchOp`, fastMatcher.go:227-309; it never returns an error. -/
def matchOp (X : Fns E) (t : Tree) (rd : Nat → Res (FV E)) (lit : Option (FV E)) (op : Op E) (bt : State) (coll : Bool) :
    Res (State × Bool) :=
  BinTree.isResolved bt op.bucket >>= fun r =>
  if r then .ok (bt, coll)
  else
    opResult X rd lit op >>= fun o =>
    BinTree.markNode t bt op.bucket o.1 >>= fun bt => .ok (bt, coll || o.2)

/-- The loops `for _, op := range node.Ops`, fastMatcher.go:583-592, 613-622, 663-672 and (with no literal) 547-556.  The first
component tells that the root got decided and the caller returns. -/
def runOps (X : Fns E) (t : Tree) (rd : Nat → Res (FV E)) (lit : Option (FV E)) :
    List (Op E) → State → Bool → Res (Bool × State × Bool)
  | [], bt, coll => .ok (false, bt, coll)
  | op :: ops, bt, coll =>
    matchOp X t rd lit op bt coll >>= fun r =>
    BinTree.isResolved r.1 0 >>= fun d =>
    if d then .ok (true, r.1, r.2) else runOps X t rd lit ops r.1 r.2

/-- `runOps` on a matcher. -/
def opsM (X : Fns E) (t : Tree) (lit : Option (FV E)) (ops : List (Op E)) (m : M) : Res (Bool × M) :=
  runOps X t (literalFromSlot m) lit ops m.bt m.coll >>= fun r => .ok (r.1, { m with bt := r.2.1, coll := r.2.2 })

/-! ### Objects and arrays -/

/-- The recursive call: `matchExec` for a child node, with the current token; the Boolean is `err != nil`. -/
abbrev Rec (E : Ext) := Exec E → Tok → List Nat → M → Res (Bool × M)

/-- `fmt.Sprintf("[%d]", arrayIndex)`, fastMatcher.go:771. -/
def indexKey (i : Nat) : List Nat := 91 :: ((Nat.toDigits 10 i).map Char.toNat ++ [93])

/-- The `switch token` that reads a key, fastMatcher.go:753-767 (in an array the key is computed and dropped). -/
def keyBytes (arr : Bool) (ty : Tok) (w : List Nat) : Res (List Nat) :=
  match ty with
  | .string => Lit.parseString w
  | .escString => Lit.parseEscString w
  | .arrayStart | .objectStart => .ok []
  | _ => if arr then .ok [] else .panic

/-- What follows once the value token of a member or element has been read, fastMatcher.go:792-806: run the node for the
key or skip.  `done = true` is `return nil, true`. -/
def objValue (rec : Rec E) (elems : Elems E) (key : List Nat) (ty : Tok) (w : List Nat) (m : M) : Res (Bool × M) :=
  match elems.find key with
  | some e =>
    rec e ty w m >>= fun r =>
    BinTree.isResolved r.2.bt 0 >>= fun d => .ok (d, r.2)
  | none => skipValue ty m.tk >>= fun r => .ok (false, { m with tk := r.2 })

/-- From the token after a delimiter to the end of the iteration, fastMatcher.go:742-806; `k` is the next iteration.  The
result is `(err != nil, shouldReturn)`. -/
def objItem (rec : Rec E) (elems : Elems E) (arr : Bool) (idx : Nat) (k : M → Res (Bool × Bool × M)) (m : M) :
    Res (Bool × Bool × M) :=
  match step m.tk with
  | (none, tk) => .ok (true, true, { m with tk := tk })
  | (some (ty, w), tk) =>
    if ty = (if arr then Tok.arrayEnd else .objectEnd) then .ok (false, true, { m with tk := tk })
    else
      keyBytes arr ty w >>= fun key =>
      if arr then
        objValue rec elems (indexKey idx) ty w { m with tk := tk } >>= fun r =>
        if r.1 then .ok (false, true, r.2) else k r.2
      else
        match step tk with
        | (none, tk) => .ok (true, true, { m with tk := tk })
        | (some (ty, _), tk) =>
          if ty ≠ .objectKeyDelim then .panic
          else
            match step tk with
            | (none, tk) => .ok (true, true, { m with tk := tk })
            | (some (ty, w), tk) =>
              objValue rec elems key ty w { m with tk := tk } >>= fun r =>
              if r.1 then .ok (false, true, r.2) else k r.2

/-- The iterations `i > 0` of `matchObjectOrArray`, fastMatcher.go:720-807, starting with the delimiter. -/
def objLoop (rec : Rec E) (elems : Elems E) (arr : Bool) : Nat → Nat → M → Res (Bool × Bool × M)
  | 0, _, _ => .stuck
  | fuel + 1, idx, m =>
    match step m.tk with
    | (none, tk) => .ok (true, true, { m with tk := tk })
    | (some (ty, _), tk) =>
      match ty with
      | .objectEnd | .arrayEnd => .ok (false, false, { m with tk := tk })
      | .end_ => .ok (false, true, { m with tk := tk })
      | .listDelim => objItem rec elems arr (idx + 1) (objLoop rec elems arr fuel (idx + 1)) { m with tk := tk }
      | _ => .panic

/-- `matchObjectOrArray`, fastMatcher.go:703-809; `arr` tells the kind of the token. -/
def matchObjArr (rec : Rec E) (elems : Elems E) (arr : Bool) (m : M) : Res (Bool × Bool × M) :=
  objItem rec elems arr 0 (objLoop rec elems arr (m.tk.data.length + 1) 0) m

/-! ### Loops -/

/-- `loopState` before the first element, fastMatcher.go:412-421. -/
def Mode.init : Mode → Bool
  | .any => false
  | .every => true
  | .anyEvery => false

/-- What the outcome of one iteration does, fastMatcher.go:462-498: `some b` leaves the loop with `b`, `none` continues
with the new `loopState`. -/
def Mode.leaves : Mode → Bool → Option Bool
  | .any, true => some true
  | .every, false => some false
  | .anyEvery, false => some false
  | _, _ => none

def Mode.next : Mode → Bool → Bool → Bool
  | .anyEvery, true, _ => true
  | _, _, st => st

/-- From the element token to the end of an iteration, fastMatcher.go:442-499; `none` is an error return, `some b` the
loop's outcome. -/
def loopItem (rec : Rec E) (t : Tree) (bucket : Nat) (mode : Mode) (node : Exec E) (k : Bool → M → Res (Option Bool × M))
    (st : Bool) (m : M) : Res (Option Bool × M) :=
  match step m.tk with
  | (none, tk) => .ok (none, { m with tk := tk })
  | (some (ty, w), tk) =>
    if ty = .arrayEnd then .ok (some st, { m with tk := tk })
    else
      BinTree.resetNode t m.bt bucket >>= fun bt =>
      rec node ty w { m with tk := tk, bt := bt } >>= fun r =>
      if r.1 then .ok (none, r.2)
      else
        BinTree.isTrue r.2.bt bucket >>= fun it =>
        match mode.leaves it with
        | some b => leaveValue r.2.tk >>= fun l => .ok (some b, { r.2 with tk := l.2 })
        | none => k (mode.next it st) r.2

/-- The iterations `i > 0`, fastMatcher.go:429-440, starting with the delimiter. -/
def loopLoop (rec : Rec E) (t : Tree) (bucket : Nat) (mode : Mode) (node : Exec E) :
    Nat → Bool → M → Res (Option Bool × M)
  | 0, _, _ => .stuck
  | fuel + 1, st, m =>
    match step m.tk with
    | (none, tk) => .ok (none, { m with tk := tk })
    | (some (ty, _), tk) =>
      match ty with
      | .arrayEnd => .ok (some st, { m with tk := tk })
      | .listDelim => loopItem rec t bucket mode node (loopLoop rec t bucket mode node fuel) st { m with tk := tk }
      | _ => .panic

/-- `matchLoop`, fastMatcher.go:388-520; the Boolean is `err != nil` (the stall index then stays set). -/
def matchLoop (rec : Rec E) (t : Tree) (bucket : Nat) (mode : Mode) (node : Exec E) (ty : Tok) (m : M) : Res (Bool × M) :=
  if ty ≠ .arrayStart then .ok (false, m)
  else
    BinTree.isResolved m.bt bucket >>= fun r =>
    if r then skipValue ty m.tk >>= fun l => .ok (false, { m with tk := l.2 })
    else
      loopItem rec t bucket mode node (loopLoop rec t bucket mode node (m.tk.data.length + 1)) mode.init
        { m with bt := (BinTree.setStallIndex m.bt bucket).1 } >>= fun r =>
      match r.1 with
      | none => .ok (true, r.2)
      | some b =>
        BinTree.resetNode t r.2.bt bucket >>= fun bt =>
        BinTree.markNode t (BinTree.setStallIndex bt m.bt.stall).1 bucket b >>= fun bt =>
        .ok (false, { r.2 with bt := bt })

/-- How a sequence of loops ends: all done, the root got decided, or an error. -/
inductive Flow where
  | go | done | err
  deriving DecidableEq, Repr

/-- The loops of `matchAfter`, fastMatcher.go:526-544 (the error of `Step` is overwritten; the token is then
`tknUnknown`). -/
def afterLoops (rec : Rec E) (t : Tree) : Loops E → M → Res (Flow × M)
  | .nil, m => .ok (.go, m)
  | .cons bucket mode target node rest, m =>
    match target with
    | some (.slot s) =>
      if s = 0 then .panic
      else
        Res.idx m.slots (s - 1) >>= fun p =>
        let r := step (seek m.tk p.1)
        matchLoop rec t bucket mode node (match r.1 with | some (ty, _) => ty | none => .unknown) { m with tk := r.2 } >>= fun r =>
        if r.1 then .ok (.err, r.2)
        else
          BinTree.isResolved r.2.bt 0 >>= fun d =>
          if d then .ok (.done, r.2) else afterLoops rec t rest r.2
    | _ => .panic

/-- `matchAfter`, fastMatcher.go:522-562.  Both callers drop the error. -/
def matchAfter (X : Fns E) (rec : Rec E) (t : Tree) (ops : List (Op E)) (loops : Loops E) (m : M) : Res M :=
  afterLoops rec t loops m >>= fun r =>
  match r.1 with
  | .go =>
    opsM X t none ops r.2 >>= fun o =>
    if o.1 then .ok o.2 else .ok { o.2 with tk := seek o.2.tk m.tk.pos }
  | _ => .ok r.2

/-- The loops of an array node, fastMatcher.go:637-658. -/
def arrayLoops (rec : Rec E) (t : Tree) (start : Nat) : Loops E → Bool → M → Res (Flow × M)
  | .nil, _, m => .ok (.go, m)
  | .cons bucket mode target node rest, first, m =>
    match target with
    | some _ => .panic
    | none =>
      matchLoop rec t bucket mode node .arrayStart (if first then m else { m with tk := seek m.tk start }) >>= fun r =>
      if r.1 then .ok (.err, r.2)
      else
        BinTree.isResolved r.2.bt 0 >>= fun d =>
        if d then .ok (.done, r.2) else arrayLoops rec t start rest false r.2

/-! ### matchExec -/

/-- The end of `matchExec`, fastMatcher.go:683-699. -/
def finish (X : Fns E) (rec : Rec E) (t : Tree) (store : Nat) (after : After E) (startPos : Nat) (m : M) : Res (Bool × M) :=
  let k := fun m : M =>
    if store = 0 then Res.ok (false, m)
    else if store - 1 < m.slots.length then
      Res.ok (false, { m with slots := m.slots.set (store - 1) (startPos, m.tk.pos - startPos) })
    else .panic
  match after with
  | .none => k m
  | .some ops loops =>
    matchAfter X rec t ops loops m >>= fun m =>
    BinTree.isResolved m.bt 0 >>= fun d => if d then .ok (false, m) else k m

/-- Running the operations on a value, then the end of `matchExec`. -/
def opsThen (X : Fns E) (rec : Rec E) (t : Tree) (ops : List (Op E)) (v : FV E) (store : Nat) (after : After E)
    (startPos : Nat) (m : M) : Res (Bool × M) :=
  opsM X t (some v) ops m >>= fun r => if r.1 then .ok (false, r.2) else finish X rec t store after startPos r.2

/-- The object case, fastMatcher.go:593-622. -/
def execObj (X : Fns E) (rec : Rec E) (t : Tree) (store : Nat) (elems : Elems E) (ops : List (Op E)) (after : After E)
    (startPos : Nat) (m : M) : Res (Bool × M) :=
  let k := fun m' : M =>
    sliceOf m.tk.data (m.tk.pos - 1) m'.tk.pos >>= fun b => opsThen X rec t ops ⟨.obj b, false⟩ store after startPos m'
  if elems.isEmpty then skipValue .objectStart m.tk >>= fun l => k { m with tk := l.2 }
  else
    matchObjArr rec elems false m >>= fun r =>
    (match r.1, after with
      | false, .some aops aloops => matchAfter X rec t aops aloops r.2.2
      | _, _ => .ok r.2.2) >>= fun m' =>
    if r.2.1 then .ok (r.1, m')
    else BinTree.isResolved m'.bt 0 >>= fun d => if d then .ok (false, m') else k m'

/-- The array case, fastMatcher.go:623-672. -/
def execArr (X : Fns E) (rec : Rec E) (t : Tree) (store : Nat) (elems : Elems E) (ops : List (Op E)) (loops : Loops E)
    (after : After E) (startPos : Nat) (m : M) : Res (Bool × M) :=
  let k := fun m' : M =>
    sliceOf m.tk.data (m.tk.pos - 1) m'.tk.pos >>= fun b => opsThen X rec t ops ⟨.arr b, false⟩ store after startPos m'
  if loops.isEmpty then
    matchObjArr rec elems true m >>= fun r => if r.2.1 then .ok (r.1, r.2.2) else k r.2.2
  else
    arrayLoops rec t m.tk.pos loops true m >>= fun r =>
    match r.1 with
    | .go => k r.2
    | .done => .ok (false, r.2)
    | .err => .ok (true, r.2)

/-- `matchExec`, fastMatcher.go:564-700; the Boolean is `err != nil`.  The first argument bounds the depth of nodes.  The
slot size `endPos - startPos` is negative in Go if an error inside an after-loop left the tokenizer before `startPos`; the
only test on it is `> 0`, for which the truncated difference gives the same answer. -/
def matchExec (X : Fns E) (t : Tree) : Nat → Rec E
  | 0 => fun _ _ _ _ => .stuck
  | h + 1 => fun node ty w m =>
    match node with
    | .mk store elems ops loops after =>
      if ty.isLiteral then
        parseLit ty w >>= fun v => opsThen X (matchExec X t h) t ops v store after (m.tk.pos - w.length) m
      else
        match ty with
        | .objectStart => execObj X (matchExec X t h) t store elems ops after (m.tk.pos - w.length) m
        | .arrayStart => execArr X (matchExec X t h) t store elems ops loops after (m.tk.pos - w.length) m
        | _ => .panic

/-- `Match`, fastMatcher.go:811-833: `none` is an error (with verdict false). -/
def run (X : Fns E) (df : Def E) (m : M) (data : List Nat) : Res (Option Bool × M) :=
  let m := { m with tk := ⟨data, 0⟩ }
  if data = [] then .ok (some false, m)
  else
    match step m.tk with
    | (none, tk) => .ok (none, { m with tk := tk })
    | (some (ty, w), tk) =>
      match df.parse with
      | none => .panic
      | some node =>
        matchExec X df.tree node.height node ty w { m with tk := tk } >>= fun r =>
        if r.1 then .ok (none, r.2)
        else
          BinTree.resolve df.tree r.2.bt >>= fun bt =>
          BinTree.isTrue bt 0 >>= fun b => .ok (some b, { r.2 with bt := bt })

/-- `MatchWithStatus`, fastMatcher.go:835-842: verdict and the collation flag. -/
def runWithStatus (X : Fns E) (df : Def E) (m : M) (data : List Nat) : Res (Option Bool × Bool × M) :=
  run X df m data >>= fun r => .ok (r.1, r.2.coll, r.2)

/-- `ExpressionMatched`, fastMatcher.go:844-848; a negative bucket index (constant expression) panics. -/
def expressionMatched (df : Def E) (m : M) (i : Nat) : Res Bool :=
  Res.idx df.buckets i >>= fun b =>
  if b < 0 then .panic
  else
    BinTree.isResolved m.bt b.toNat >>= fun r =>
    if r then BinTree.isTrue m.bt b.toNat else .ok false

end Verif.Match
