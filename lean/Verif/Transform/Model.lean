import Verif.Expr.Model

/-!
# Model of transform.go

The `ExecNode`s under construction form a tree that the code updates through pointers.  The model keeps the tree as a value
and names a node by its address from the root: the keys of `Elems` and, for the node of a loop, the loop's bucket.  Every
node is reachable by exactly one address and every loop has its own bucket, so equality of pointers is equality of
addresses.  Likewise a `compileContext` is named by the address of its node.

An error of `makeDataRef` makes every caller panic; the model panics at once.
-/

namespace Verif.Transform
open Verif.FastVal Verif.Match Verif.Expr
open Verif.BinTree (Tree Node NodeType)

variable {E : Ext}

inductive Step where
  | key (k : List Nat)
  | loop (bucket : Nat)
  deriving DecidableEq, Repr

abbrev Addr := List Step

/-! ### Updating nodes -/

/-- `&ExecNode{}` -/
def emptyExec : Exec E := .mk 0 .nil [] .nil .none

/-- Updating the entry of a map, created if absent. -/
def alterElems (k : List Nat) (f : Exec E → Exec E) : Elems E → Elems E
  | .nil => .cons k (f emptyExec) .nil
  | .cons k' e r => if k' = k then .cons k' (f e) r else .cons k' e (alterElems k f r)

/-- Updating the node of the loop with bucket `b`. -/
def alterLoops (b : Nat) (f : Exec E → Exec E) : Loops E → Loops E
  | .nil => .nil
  | .cons b' m t e r => if b' = b then .cons b' m t (f e) r else .cons b' m t e (alterLoops b f r)

def alterAfter (b : Nat) (f : Exec E → Exec E) : After E → After E
  | .none => .none
  | .some ops ls => .some ops (alterLoops b f ls)

/-- Updating the node at an address; missing entries of `Elems` are created. -/
def update : Addr → (Exec E → Exec E) → Exec E → Exec E
  | [], f, e => f e
  | .key k :: p, f, .mk st es ops ls a => .mk st (alterElems k (update p f) es) ops ls a
  | .loop b :: p, f, .mk st es ops ls a => .mk st es ops (alterLoops b (update p f) ls) (alterAfter b (update p f) a)

def findLoop (b : Nat) : Loops E → Option (Exec E)
  | .nil => none
  | .cons b' _ _ e r => if b' = b then some e else findLoop b r

def findAfter (b : Nat) : After E → Option (Exec E)
  | .none => none
  | .some _ ls => findLoop b ls

/-- The node at an address. -/
def nodeAt : Addr → Exec E → Option (Exec E)
  | [], e => some e
  | .key k :: p, .mk _ es _ _ _ => (es.find k).bind (nodeAt p)
  | .loop b :: p, .mk _ _ _ ls a => ((findLoop b ls).or (findAfter b a)).bind (nodeAt p)

def storeOf : Exec E → Nat
  | .mk st _ _ _ _ => st

def setStore (s : Nat) : Exec E → Exec E
  | .mk _ es ops ls a => .mk s es ops ls a

def addOp (op : Op E) : Exec E → Exec E
  | .mk st es ops ls a => .mk st es (ops ++ [op]) ls a

def Loops.snoc : Loops E → Nat → Mode → Option (Ref E) → Exec E → Loops E
  | .nil, b, m, t, e => .cons b m t e .nil
  | .cons b' m' t' e' r, b, m, t, e => .cons b' m' t' e' (Loops.snoc r b m t e)

def addLoop (b : Nat) (m : Mode) (t : Option (Ref E)) (e : Exec E) : Exec E → Exec E
  | .mk st es ops ls a => .mk st es ops (Loops.snoc ls b m t e) a

/-- `getAfterNode`, transform.go:98-104. -/
def ensureAfter : Exec E → Exec E
  | .mk st es ops ls .none => .mk st es ops ls (.some [] .nil)
  | e => e

def addAfterOp (op : Op E) : Exec E → Exec E
  | .mk st es ops ls (.some aops als) => .mk st es ops ls (.some (aops ++ [op]) als)
  | e => e

def addAfterLoop (b : Nat) (m : Mode) (t : Option (Ref E)) (e : Exec E) : Exec E → Exec E
  | .mk st es ops ls (.some aops als) => .mk st es ops ls (.some aops (Loops.snoc als b m t e))
  | e => e

/-! ### The transformer -/

/-- `Transformer`, transform.go:60-68; `ctx` has the innermost context first: variable and address of its node. -/
structure T (E : Ext) where
  slotIdx : Nat
  bucketIdx : Nat
  root : Exec E
  tree : Tree
  ctx : List (Int × Addr)
  active : Nat

/-- `regexp.Compile` and `MakePcreWrapper`; `none` is an error. -/
structure Comp (E : Ext) where
  regexp : List Nat → Option E.R
  pcre : List Nat → Option E.R

/-- `resolvedFieldRef`, transform.go:12-15. -/
structure RRef where
  ctx : Option Addr
  path : List (List Nat)

/-- Address of the node of a field. -/
def RRef.addr (r : RRef) : Addr := r.ctx.getD [] ++ r.path.map Step.key

/-- `getExecNode`, transform.go:70-89. -/
def getExecNode (t : T E) (r : RRef) : T E × Addr :=
  ({ t with root := update r.addr id t.root }, r.addr)

/-- `newSlot`, transform.go:120-124. -/
def newSlot (t : T E) : T E × Nat := ({ t with slotIdx := t.slotIdx + 1 }, t.slotIdx + 1)

/-- `storeExecNode`, transform.go:91-96. -/
def storeExecNode (t : T E) (a : Addr) : T E × Nat :=
  let s := ((nodeAt a t.root).map storeOf).getD 0
  if s = 0 then
    ({ (newSlot t).1 with root := update a (setStore (newSlot t).2) t.root }, (newSlot t).2)
  else (t, s)

/-- `newBucket`, transform.go:106-118. -/
def newBucket (t : T E) : T E :=
  { t with bucketIdx := t.bucketIdx + 1, tree := t.tree ++ [⟨.leaf, t.active, 0, 0⟩], active := t.bucketIdx }

/-- Assigning to fields of `t.RootTree.data[i]`. -/
def modNode (t : T E) (i : Nat) (f : Node → Node) : Res (T E) :=
  Res.idx t.tree i >>= fun n => .ok { t with tree := t.tree.set i (f n) }

def setTy (t : T E) (i : Nat) (ty : NodeType) : Res (T E) := modNode t i (fun n => { n with ty := ty })
def setLeft (t : T E) (i : Nat) (l : Nat) : Res (T E) := modNode t i (fun n => { n with left := l })
def setRight (t : T E) (i : Nat) (r : Nat) : Res (T E) := modNode t i (fun n => { n with right := r })

/-- `getContext`, transform.go:153-165.  The loop counts upwards (`i++`) from the last index, so anything but the innermost
variable is an index out of range. -/
def getContext (t : T E) (v : Int) : Res (Option Addr) :=
  if v = 0 then .ok none
  else
    match t.ctx with
    | [] => .panic
    | (v', a) :: _ => if v' = v then .ok (some a) else .panic

/-- `resolveRef`, transform.go:167-172. -/
def resolveRef (t : T E) (f : Field) : Res RRef := getContext t f.root >>= fun c => .ok ⟨c, f.path⟩

def resolveRefs (t : T E) : List Field → Res (List RRef)
  | [] => .ok []
  | f :: fs => resolveRef t f >>= fun r => resolveRefs t fs >>= fun rs => .ok (r :: rs)

/-- `currentContext`, transform.go:175-178. -/
def currentContext (t : T E) : Option Addr :=
  match t.ctx with
  | [] => none
  | (_, a) :: _ => some a

/-- The longest path, the first among equals, transform.go:194-199. -/
def longest (p : List (List Nat)) : List (List (List Nat)) → List (List Nat)
  | [] => p
  | q :: qs => longest (if q.length > p.length then q else p) qs

/-- The inner loop, transform.go:206-211: whether all paths have `k` at `j`. -/
def allAt (j : Nat) (k : List Nat) : List (List (List Nat)) → Res Bool
  | [] => .ok true
  | p :: ps =>
    if p.length < j then .ok false
    else Res.idx p j >>= fun x => if x ≠ k then .ok false else allAt j k ps

/-- `PathLoop`, transform.go:203-214, from position `j` on. -/
def commonPath (ps : List (List (List Nat))) : Nat → List (List Nat) → Res (List (List Nat))
  | _, [] => .ok []
  | j, k :: rest => allAt j k ps >>= fun same =>
    if same then commonPath ps (j + 1) rest >>= fun r => .ok (k :: r) else .ok []

/-- `findFieldRefsBestRoot`, transform.go:174-221. -/
def findBestRoot (t : T E) (refs : List RRef) : Res (RRef × Bool) :=
  let cur := currentContext t
  match (refs.filter (fun r => decide (r.ctx = cur))).map RRef.path with
  | [] => .ok (⟨cur, []⟩, false)
  | p :: ps =>
    let base := longest p ps
    commonPath (p :: ps) 0 base >>= fun common => .ok (⟨cur, common⟩, decide (common.length < base.length))

/-- `nodeRef`, transform.go:223-226: a node or the `AfterNode` of a node. -/
inductive NRef where
  | node (a : Addr)
  | after (a : Addr)
  deriving DecidableEq, Repr

/-- `pickBaseNode`, transform.go:263-280. -/
def pickBase (t : T E) (e : Expr E) : Res (T E × NRef) :=
  fieldRefs e >>= fun fs =>
  resolveRefs t fs >>= fun refs =>
  findBestRoot t refs >>= fun b =>
  let t := (getExecNode t b.1).1
  let a := b.1.addr
  if b.2 then .ok ({ t with root := update a ensureAfter t.root }, .after a)
  else .ok (t, .node a)

/-- `AddOp`, transform.go:228-236. -/
def NRef.addOp (t : T E) (n : NRef) (op : Op E) : T E :=
  match n with
  | .node a => { t with root := update a (Transform.addOp op) t.root }
  | .after a => { t with root := update a (addAfterOp op) t.root }

/-- `AddLoop`, transform.go:238-261. -/
def NRef.addLoop (t : T E) (n : NRef) (b : Nat) (m : Mode) (target : Option (Ref E)) (e : Exec E) : Res (T E) :=
  match n, target with
  | .node a, none => .ok { t with root := update a (Transform.addLoop b m none e) t.root }
  | .node _, some _ => .panic
  | .after a, some (.slot s) => .ok { t with root := update a (addAfterLoop b m (some (.slot s)) e) t.root }
  | .after _, _ => .panic

def NRef.addr : NRef → Addr
  | .node a => a
  | .after a => a

/-- The string in an `interface{}`; a failed type assertion panics. -/
def asStr : GoVal E → Res (List Nat)
  | .json (.str s) => .ok s
  | _ => .panic

/-- The value of `ValueExpr` as a reference, transform.go:298-304. -/
def constOf (v : GoVal E) : FV E :=
  let d := newFastVal v
  ⟨if d.ty.isString then d.toJsonString.1 else d, true⟩

/-- The reference to a field, transform.go:284-297. -/
def fieldRef (t : T E) (ctx : NRef) (r : RRef) : T E × Ref E :=
  let t := (getExecNode t r).1
  if ctx = .node r.addr then (t, .lit) else ((storeExecNode t r.addr).1, .slot (storeExecNode t r.addr).2)

mutual
  /-- `makeDataRefRecurse` with `isRoot` false, transform.go:282-339. -/
  def makeParam (C : Comp E) (t : T E) (ctx : NRef) : Expr E → Res (T E × Ref E)
    | .field f => resolveRef t f >>= fun r => .ok (fieldRef t ctx r)
    | .value v => .ok (t, .val (constOf v))
    | .regex v => asStr v >>= fun s => match C.regexp s with
      | some r => .ok (t, .val ⟨.regex r, true⟩)
      | none => .panic
    | .pcre v => asStr v >>= fun s => match C.pcre s with
      | some r => .ok (t, .val ⟨.pcre r, true⟩)
      | none => .panic
    | .func n ps => makeParams C t ctx ps >>= fun r => .ok (r.1, .fn (fnameOf n) r.2)
    | .time v => asStr v >>= fun s => match E.parseTime s with
      | some x => .ok (t, .val ⟨.time x, true⟩)
      | none => .panic
    | _ => .panic

  def makeParams (C : Comp E) (t : T E) (ctx : NRef) : Exprs E → Res (T E × Refs E)
    | .nil => .ok (t, .nil)
    | .cons p ps => makeParam C t ctx p >>= fun r => makeParams C r.1 ctx ps >>= fun rs => .ok (rs.1, .cons r.2 rs.2)
end

/-- `makeDataRef`, transform.go:341-343: the field of the base node itself is a nil reference. -/
def makeDataRef (C : Comp E) (t : T E) (ctx : NRef) (e : Expr E) : Res (T E × Option (Ref E)) :=
  makeParam C t ctx e >>= fun r =>
  match e, r.2 with
  | .field _, .lit => .ok (r.1, none)
  | _, ref => .ok (r.1, some ref)

/-- `transformExists`, transform.go:468-484. -/
def tExists (C : Comp E) (e : Expr E) (t : T E) : Res (T E) :=
  pickBase t (.exist e) >>= fun b =>
  makeDataRef C b.1 b.2 e >>= fun l =>
  .ok (b.2.addOp l.1 ⟨l.1.active, .exists_, l.2, none⟩)

/-- `transformComparison`, transform.go:494-515; `whole` is the comparison itself. -/
def tCompare (C : Comp E) (whole : Expr E) (op : OpTy) (l r : Expr E) (t : T E) : Res (T E) :=
  pickBase t whole >>= fun b =>
  makeDataRef C b.1 b.2 l >>= fun lr =>
  makeDataRef C lr.1 b.2 r >>= fun rr =>
  .ok (b.2.addOp rr.1 ⟨rr.1.active, op, lr.2, rr.2⟩)

/-- `transformNot`, transform.go:371-380, where `f` transforms the negated expression. -/
def tNot (f : T E → Res (T E)) (t : T E) : Res (T E) :=
  let base := t.active
  setTy t base .not >>= fun t =>
  let t := newBucket t
  setLeft t base t.active >>= fun t => f t

/-- The common part of `transformOr`, `transformAnd` and `transformMergePiece` (transform.go:345-365, 382-420): a node with two
children. -/
def tBin (ty : NodeType) (f g : T E → Res (T E)) (t : T E) : Res (T E) :=
  let base := t.active
  setTy t base ty >>= fun t =>
  let t := newBucket t
  setLeft t base t.active >>= fun t =>
  f t >>= fun t =>
  let t := newBucket { t with active := base }
  setRight t base t.active >>= fun t => g t

/-- `transformLoop`, transform.go:422-454, where `f` transforms the body. -/
def tLoop (C : Comp E) (whole : Expr E) (m : Mode) (v : Int) (inE : Expr E) (f : T E → Res (T E)) (t : T E) : Res (T E) :=
  pickBase t whole >>= fun b =>
  makeDataRef C b.1 b.2 inE >>= fun r =>
  let base := r.1.active
  setTy r.1 base .loop >>= fun t =>
  let t := newBucket t
  setLeft t base t.active >>= fun t =>
  b.2.addLoop t t.active m r.2 emptyExec >>= fun t =>
  let a := b.2.addr ++ [.loop t.active]
  f { t with ctx := (v, a) :: t.ctx } >>= fun t =>
  match t.ctx with
  | [] => .panic
  | (_, a') :: rest => if a' ≠ a then .panic else .ok { t with ctx := rest }

/-- The operation of a comparison; `ne` is transformed as a negated `eq` (transform.go:521-523). -/
def opOf : Cmp → OpTy
  | .eq => .equals
  | .ne => .equals
  | .lt => .lessThan
  | .le => .lessEquals
  | .gt => .greaterThan
  | .ge => .greaterEquals
  | .like => .matches_

mutual
  /-- `transformOne`, transform.go:545-581. -/
  def tOne (C : Comp E) : Expr E → T E → Res (T E)
    | .loop m v i s, t => tLoop C (.loop m v i s) m v i (tOne C s) t
    | .not e, t => tNot (tOne C e) t
    | .or es, t => tOr C es t
    | .and es, t => tAnd C es t
    | .exist e, t => tExists C e t
    | .notExist e, t => tNot (tExists C e) t
    | .cmp c l r, t =>
      if c = .ne then tNot (tCompare C (.cmp .eq l r) .equals l r) t else tCompare C (.cmp c l r) (opOf c) l r t
    | _, t => .ok t

  /-- `transformOr`, transform.go:382-400; an empty list is an index out of range (after a change to the tree, which is
  lost with the panic). -/
  def tOr (C : Comp E) : Exprs E → T E → Res (T E)
    | .nil, _ => .panic
    | .cons e rest, t => match rest with
      | .nil => tOne C e t
      | _ => tBin .or (tOne C e) (tOr C rest) t

  /-- `transformAnd`, transform.go:402-420. -/
  def tAnd (C : Comp E) : Exprs E → T E → Res (T E)
    | .nil, _ => .panic
    | .cons e rest, t => match rest with
      | .nil => tOne C e t
      | _ => tBin .and (tOne C e) (tAnd C rest) t
end

/-- `transformMergePiece`, transform.go:345-365: the new state and `bucketIDs[i:]`. -/
def tMerge (C : Comp E) : List (Expr E) → T E → Res (T E × List Nat)
  | [], _ => .panic
  | [e], t => tOne C e t >>= fun t' => .ok (t', [t.active])
  | e :: e' :: rest, t =>
    let base := t.active
    setTy t base .neor >>= fun t =>
    let t := newBucket t
    let id := t.active
    setLeft t base id >>= fun t =>
    tOne C e t >>= fun t =>
    let t := newBucket { t with active := base }
    setRight t base t.active >>= fun t =>
    tMerge C (e' :: rest) t >>= fun r => .ok (r.1, id :: r.2)

/-- The expressions that are not constants, transform.go:601-614. -/
def genExprs : List (Expr E) → List (Expr E)
  | [] => []
  | .tru :: es => genExprs es
  | .fals :: es => genExprs es
  | e :: es => e :: genExprs es

/-- `exprBucketIDs`, transform.go:599-631. -/
def bucketIds : List (Expr E) → List Nat → List Int
  | [], _ => []
  | .tru :: es, ids => (-1) :: bucketIds es ids
  | .fals :: es, ids => (-2) :: bucketIds es ids
  | _ :: es, [] => 0 :: bucketIds es []
  | _ :: es, id :: ids => (id : Int) :: bucketIds es ids

/-- `Transform`, transform.go:586-654, on a `Transformer` whose `SlotIdx` is `slot0` (zero for a new one; it is not reset, so
the slots of a transformer used again are counted on).  The new `SlotIdx` is `NumSlots`. -/
def transform (C : Comp E) (slot0 : Nat) (es : List (Expr E)) : Res (Def E) :=
  match genExprs es with
  | [] => .ok { parse := none, tree := [], buckets := bucketIds es [], numSlots := 0 }
  | gs =>
    tMerge C gs { slotIdx := slot0, bucketIdx := 1, root := emptyExec, tree := [⟨.leaf, 0, 0, 0⟩], ctx := [], active := 0 } >>= fun r =>
    BinTree.validate r.1.tree >>= fun ok =>
    if ok then
      if r.1.tree.length ≠ r.1.bucketIdx then .panic
      else .ok { parse := some r.1.root, tree := r.1.tree, buckets := bucketIds es r.2, numSlots := r.1.slotIdx }
    else .panic

end Verif.Transform
