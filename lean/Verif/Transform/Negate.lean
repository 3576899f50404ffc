import Verif.Transform.Tree

/-!
# Compiling a negation

Apart from the root of the tree, the definition of `NOT e` is that of `e` with all bucket numbers one higher.  This file follows the transformer
on both; `Verif.Transform.NegateRun` follows the matcher.
-/

namespace Verif.Transform
open Verif.FastVal Verif.Match Verif.Expr
open Verif.BinTree (Tree Node NodeType)

variable {E : Ext}

/-! ### Bucket numbers one higher -/

def upOp (o : Op E) : Op E := { o with bucket := o.bucket + 1 }

mutual
  def upExec : Exec E → Exec E
    | .mk st es ops ls a => .mk st (upElems es) (ops.map upOp) (upLoops ls) (upAfter a)
  def upElems : Elems E → Elems E
    | .nil => .nil
    | .cons k e r => .cons k (upExec e) (upElems r)
  def upLoops : Loops E → Loops E
    | .nil => .nil
    | .cons b m t e r => .cons (b + 1) m t (upExec e) (upLoops r)
  def upAfter : After E → After E
    | .none => .none
    | .some ops ls => .some (ops.map upOp) (upLoops ls)
end

def upStep : Step → Step
  | .key k => .key k
  | .loop b => .loop (b + 1)

def upAddr (a : Addr) : Addr := a.map upStep

def upNRef : NRef → NRef
  | .node a => .node (upAddr a)
  | .after a => .after (upAddr a)

def upRRef (r : RRef) : RRef := ⟨r.ctx.map upAddr, r.path⟩

/-- Two computations with the same kind of outcome, and related results. -/
def Abreast {α β : Type} (P : α → β → Prop) : Res α → Res β → Prop
  | .ok a, .ok b => P a b
  | .panic, .panic => True
  | .stuck, .stuck => True
  | _, _ => False

theorem Abreast.bind {α β α' β' : Type} {P : α → β → Prop} {Q : α' → β' → Prop} {x : Res α} {y : Res β} {f : α → Res α'} {g : β → Res β'}
    (h : Abreast P x y) (hf : ∀ a b, x = .ok a → y = .ok b → P a b → Abreast Q (f a) (g b)) : Abreast Q (x >>= f) (y >>= g) := by
  cases x with
  | ok a => cases y with
    | ok b => exact hf a b rfl rfl h
    | panic => exact h.elim
    | stuck => exact h.elim
  | panic => cases y with
    | ok b => exact h.elim
    | panic => trivial
    | stuck => exact h.elim
  | stuck => cases y with
    | ok b => exact h.elim
    | panic => exact h.elim
    | stuck => trivial

theorem Abreast.same {α : Type} (x : Res α) : Abreast (fun a b => b = a) x x := by
  cases x <;> first | rfl | trivial

theorem upStep_inj {x y : Step} (h : upStep x = upStep y) : x = y := by
  cases x <;> cases y <;> simp [upStep] at h <;> simp [h]

theorem upAddr_inj {x y : Addr} (h : upAddr x = upAddr y) : x = y :=
  List.map_inj_right (fun _ _ h => upStep_inj h) |>.1 h

theorem upNRef_inj {x y : NRef} (h : upNRef x = upNRef y) : x = y := by
  cases x <;> cases y <;> simp [upNRef] at h <;> rw [upAddr_inj h]

theorem upAddr_append (a b : Addr) : upAddr (a ++ b) = upAddr a ++ upAddr b := List.map_append

theorem upRRef_addr (r : RRef) : (upRRef r).addr = upAddr r.addr := by
  obtain ⟨c, p⟩ := r
  rw [RRef.addr, RRef.addr, upAddr_append]
  have : upAddr (p.map Step.key) = p.map Step.key := by simp [upAddr, upStep, Function.comp_def]
  rw [this]
  cases c <;> rfl

theorem upNRef_addr (n : NRef) : (upNRef n).addr = upAddr n.addr := by cases n <;> rfl

theorem emptyExec_up : upExec (emptyExec : Exec E) = emptyExec := rfl

theorem alterElems_up {f f' : Exec E → Exec E} (hf : ∀ e, upExec (f e) = f' (upExec e)) (k : List Nat) : ∀ es : Elems E,
    upElems (alterElems k f es) = alterElems k f' (upElems es)
  | .nil => by rw [alterElems, upElems, upElems, alterElems, hf, emptyExec_up]; rfl
  | .cons k' e r => by
    rw [upElems, alterElems, alterElems]
    split
    · rw [upElems, hf]
    · rw [upElems, alterElems_up hf k r]

theorem alterLoops_up {f f' : Exec E → Exec E} (hf : ∀ e, upExec (f e) = f' (upExec e)) (b : Nat) : ∀ ls : Loops E,
    upLoops (alterLoops b f ls) = alterLoops (b + 1) f' (upLoops ls)
  | .nil => rfl
  | .cons b' m t e r => by
    rw [upLoops, alterLoops, alterLoops]
    by_cases h : b' = b
    · rw [if_pos h, if_pos (by omega), upLoops, hf]
    · rw [if_neg h, if_neg (by omega), upLoops, alterLoops_up hf b r]

theorem update_up {f f' : Exec E → Exec E} (hf : ∀ e, upExec (f e) = f' (upExec e)) : ∀ (a : Addr) (e : Exec E),
    upExec (update a f e) = update (upAddr a) f' (upExec e)
  | [], e => hf e
  | .key k :: p, .mk st es ops ls a => by
    show upExec (.mk st (alterElems k (update p f) es) ops ls a) = .mk st (alterElems k (update (upAddr p) f') (upElems es)) _ _ _
    rw [upExec, alterElems_up (update_up hf p)]
  | .loop b :: p, .mk st es ops ls a => by
    show upExec (.mk st es ops (alterLoops b (update p f) ls) (alterAfter b (update p f) a)) =
      .mk st (upElems es) _ (alterLoops (b + 1) (update (upAddr p) f') (upLoops ls)) (alterAfter (b + 1) (update (upAddr p) f') (upAfter a))
    rw [upExec, alterLoops_up (update_up hf p)]
    cases a with
    | none => rfl
    | some aops als => rw [alterAfter, upAfter, upAfter, alterAfter, alterLoops_up (update_up hf p)]

theorem find_up (k : List Nat) : ∀ es : Elems E, (upElems es).find k = (es.find k).map upExec
  | .nil => rfl
  | .cons k' e r => by
    rw [upElems, Elems.find, Elems.find]
    split
    · rfl
    · exact find_up k r

theorem findLoop_up (b : Nat) : ∀ ls : Loops E, findLoop (b + 1) (upLoops ls) = (findLoop b ls).map upExec
  | .nil => rfl
  | .cons b' m t e r => by
    rw [upLoops, findLoop, findLoop]
    by_cases h : b' = b
    · rw [if_pos h, if_pos (by omega)]; rfl
    · rw [if_neg h, if_neg (by omega), findLoop_up b r]

theorem nodeAt_up : ∀ (a : Addr) (e : Exec E), nodeAt (upAddr a) (upExec e) = (nodeAt a e).map upExec
  | [], e => rfl
  | .key k :: p, .mk st es ops ls a => by
    show ((upElems es).find k).bind (nodeAt (upAddr p)) = ((es.find k).bind (nodeAt p)).map upExec
    rw [find_up]
    cases es.find k with
    | none => rfl
    | some e => exact nodeAt_up p e
  | .loop b :: p, .mk st es ops ls a => by
    show ((findLoop (b + 1) (upLoops ls)).or (findAfter (b + 1) (upAfter a))).bind (nodeAt (upAddr p)) =
      (((findLoop b ls).or (findAfter b a)).bind (nodeAt p)).map upExec
    have : findAfter (b + 1) (upAfter a) = (findAfter b a).map upExec := by
      cases a with
      | none => rfl
      | some aops als => exact findLoop_up b als
    rw [this, findLoop_up]
    cases findLoop b ls with
    | some e => exact nodeAt_up p e
    | none => cases findAfter b a with
      | none => rfl
      | some e => exact nodeAt_up p e

theorem storeOf_up (e : Exec E) : storeOf (upExec e) = storeOf e := by cases e; rfl

theorem snoc_up (b : Nat) (m : Mode) (t : Option (Ref E)) (e : Exec E) : ∀ ls : Loops E,
    upLoops (Loops.snoc ls b m t e) = Loops.snoc (upLoops ls) (b + 1) m t (upExec e)
  | .nil => rfl
  | .cons b' m' t' e' r => by rw [Loops.snoc, upLoops, upLoops, Loops.snoc, snoc_up b m t e r]

/-! ### The transformer -/

/-- The second transformer has one bucket more. -/
structure Above (t t' : T E) : Prop where
  slot : t'.slotIdx = t.slotIdx
  bucket : t'.bucketIdx = t.bucketIdx + 1
  root : t'.root = upExec t.root
  len : t'.tree.length = t.tree.length + 1
  ctx : t'.ctx = t.ctx.map (fun x => (x.1, upAddr x.2))
  active : t'.active = t.active + 1

theorem Above.update {t t' : T E} (h : Above t t') {f f' : Exec E → Exec E} (hf : ∀ e, upExec (f e) = f' (upExec e)) (a : Addr) :
    Above { t with root := Transform.update a f t.root } { t' with root := Transform.update (upAddr a) f' t'.root } :=
  ⟨h.slot, h.bucket, by simp only [h.root, update_up hf], h.len, h.ctx, h.active⟩

theorem getExecNode_above {t t' : T E} (h : Above t t') (r : RRef) : Above (getExecNode t r).1 (getExecNode t' (upRRef r)).1 := by
  rw [getExecNode, getExecNode, upRRef_addr]
  exact h.update (f := id) (f' := id) (fun _ => rfl) _

theorem storeExecNode_above {t t' : T E} (h : Above t t') (a : Addr) :
    Above (storeExecNode t a).1 (storeExecNode t' (upAddr a)).1 ∧ (storeExecNode t' (upAddr a)).2 = (storeExecNode t a).2 := by
  have e : ((nodeAt (upAddr a) t'.root).map storeOf).getD 0 = ((nodeAt a t.root).map storeOf).getD 0 := by
    rw [h.root, nodeAt_up]
    cases nodeAt a t.root with
    | none => rfl
    | some e => exact storeOf_up e
  simp only [storeExecNode, e]
  split
  · simp only [newSlot, h.slot]
    refine ⟨⟨rfl, h.bucket, ?_, h.len, h.ctx, h.active⟩, trivial⟩
    simp only [h.root]
    rw [update_up (f' := setStore (t.slotIdx + 1)) (fun e => by cases e; rfl)]
  · exact ⟨h, rfl⟩

theorem newBucket_above {t t' : T E} (h : Above t t') : Above (newBucket t) (newBucket t') :=
  ⟨h.slot, by simp [newBucket, h.bucket], h.root, by simp [newBucket, h.len], h.ctx, by simp [newBucket, h.bucket]⟩

theorem modNode_above {t t' : T E} (h : Above t t') (i : Nat) (f g : Node → Node) : Abreast Above (modNode t i f) (modNode t' (i + 1) g) := by
  rw [modNode, modNode]
  by_cases hi : i < t.tree.length
  · rw [Res.idx_of_some (List.getElem?_eq_getElem hi), Res.idx_of_some (List.getElem?_eq_getElem (show i + 1 < t'.tree.length by rw [h.len]; omega))]
    exact ⟨h.slot, h.bucket, h.root, by simp [h.len], h.ctx, h.active⟩
  · have h1 : t.tree[i]? = none := List.getElem?_eq_none (by omega)
    have h2 : t'.tree[i + 1]? = none := List.getElem?_eq_none (by rw [h.len]; omega)
    simp only [Res.idx, h1, h2]
    trivial

theorem getContext_above {t t' : T E} (h : Above t t') (v : Int) : Abreast (fun c c' => c' = c.map upAddr) (getContext t v) (getContext t' v) := by
  rw [getContext, getContext]
  split
  · rfl
  · rw [h.ctx]
    cases t.ctx with
    | nil => trivial
    | cons x rest =>
      obtain ⟨v', a⟩ := x
      simp only [List.map_cons]
      split
      · rfl
      · trivial

theorem resolveRef_above {t t' : T E} (h : Above t t') (f : Field) : Abreast (fun r r' => r' = upRRef r) (resolveRef t f) (resolveRef t' f) := by
  rw [resolveRef, resolveRef]
  refine (getContext_above h f.root).bind (fun c c' _ _ e => ?_)
  subst e; rfl

theorem resolveRefs_above {t t' : T E} (h : Above t t') : ∀ fs : List Field,
    Abreast (fun r r' => r' = r.map upRRef) (resolveRefs t fs) (resolveRefs t' fs)
  | [] => rfl
  | f :: fs => by
    rw [resolveRefs, resolveRefs]
    refine (resolveRef_above h f).bind (fun r r' _ _ e => ?_)
    refine (resolveRefs_above h fs).bind (fun rs rs' _ _ e' => ?_)
    subst e e'; rfl

theorem currentContext_above {t t' : T E} (h : Above t t') : currentContext t' = (currentContext t).map upAddr := by
  rw [currentContext, currentContext, h.ctx]
  cases t.ctx <;> rfl

theorem optAddr_inj {x y : Option Addr} : x.map upAddr = y.map upAddr ↔ x = y := by
  constructor
  · intro h
    cases x <;> cases y <;> simp at h <;> first | rfl | rw [upAddr_inj h]
  · rintro rfl; rfl

theorem paths_above (c : Option Addr) : ∀ refs : List RRef,
    ((refs.map upRRef).filter (fun r => decide (r.ctx = c.map upAddr))).map RRef.path = (refs.filter (fun r => decide (r.ctx = c))).map RRef.path
  | [] => rfl
  | r :: refs => by
    have hd : decide ((upRRef r).ctx = c.map upAddr) = decide (r.ctx = c) := by
      apply decide_eq_decide.2
      exact optAddr_inj
    rw [List.map_cons, List.filter_cons, List.filter_cons, hd]
    split
    · rw [List.map_cons, List.map_cons, paths_above c refs]; rfl
    · exact paths_above c refs

theorem findBestRoot_above {t t' : T E} (h : Above t t') (refs : List RRef) :
    Abreast (fun b b' => b' = (upRRef b.1, b.2)) (findBestRoot t refs) (findBestRoot t' (refs.map upRRef)) := by
  simp only [findBestRoot, currentContext_above h, paths_above]
  split
  · rfl
  · refine (Abreast.same _).bind (fun c c' _ _ e => ?_)
    subst e; rfl

theorem pickBase_above {t t' : T E} (h : Above t t') (e : Expr E) :
    Abreast (fun b b' => Above b.1 b'.1 ∧ b'.2 = upNRef b.2) (pickBase t e) (pickBase t' e) := by
  rw [pickBase, pickBase]
  refine (Abreast.same _).bind (fun fs fs' _ _ e1 => ?_)
  subst e1
  refine (resolveRefs_above h _).bind (fun rs rs' _ _ e2 => ?_)
  subst e2
  refine (findBestRoot_above h rs).bind (fun b b' _ _ e3 => ?_)
  subst e3
  have hg := getExecNode_above h b.1
  simp only [upRRef_addr]
  split
  · exact ⟨hg.update (fun e => by obtain ⟨st, es, ops, ls, a⟩ := e; cases a <;> rfl) _, rfl⟩
  · exact ⟨hg, rfl⟩

theorem addOp_above {t t' : T E} (h : Above t t') (n : NRef) (op : Op E) : Above (n.addOp t op) ((upNRef n).addOp t' (upOp op)) := by
  cases n with
  | node a => exact h.update (fun e => by cases e; simp [Transform.addOp, upExec]) a
  | after a =>
    refine h.update (fun e => ?_) a
    obtain ⟨st, es, ops, ls, a⟩ := e
    cases a <;> simp [addAfterOp, upExec, upAfter]

theorem addLoop_above {t t' : T E} (h : Above t t') (n : NRef) (b : Nat) (m : Mode) (g : Option (Ref E)) :
    Abreast Above (n.addLoop t b m g emptyExec) ((upNRef n).addLoop t' (b + 1) m g emptyExec) := by
  have h1 : ∀ a, Above { t with root := Transform.update a (Transform.addLoop b m g emptyExec) t.root }
      { t' with root := Transform.update (upAddr a) (Transform.addLoop (b + 1) m g emptyExec) t'.root } := by
    intro a
    refine h.update (fun e => ?_) a
    cases e; simp only [Transform.addLoop, upExec, snoc_up, emptyExec_up]
  have h2 : ∀ a, Above { t with root := Transform.update a (addAfterLoop b m g emptyExec) t.root }
      { t' with root := Transform.update (upAddr a) (addAfterLoop (b + 1) m g emptyExec) t'.root } := by
    intro a
    refine h.update (fun e => ?_) a
    obtain ⟨st, es, ops, ls, a⟩ := e
    cases a <;> simp only [addAfterLoop, upExec, upAfter, snoc_up, emptyExec_up]
  cases n with
  | node a => cases g with
    | none => exact h1 a
    | some g => trivial
  | after a => cases g with
    | none => trivial
    | some g => cases g with
      | slot s => exact h2 a
      | val _ => trivial
      | lit => trivial
      | fn _ _ => trivial

theorem fieldRef_above {t t' : T E} (h : Above t t') (ctx : NRef) (r : RRef) :
    Above (fieldRef t ctx r).1 (fieldRef t' (upNRef ctx) (upRRef r)).1 ∧ (fieldRef t' (upNRef ctx) (upRRef r)).2 = (fieldRef t ctx r).2 := by
  have hg := getExecNode_above h r
  simp only [fieldRef, upRRef_addr]
  by_cases hc : ctx = .node r.addr
  · rw [if_pos hc, if_pos (by rw [hc]; rfl)]
    exact ⟨hg, rfl⟩
  · rw [if_neg hc, if_neg (show ¬ upNRef ctx = .node (upAddr r.addr) from fun e => hc (upNRef_inj (y := .node r.addr) e))]
    have := storeExecNode_above hg r.addr
    exact ⟨this.1, by rw [this.2]⟩

mutual
  theorem makeParam_above (C : Comp E) {t t' : T E} (h : Above t t') (ctx : NRef) : ∀ e : Expr E,
      Abreast (fun x x' => Above x.1 x'.1 ∧ x'.2 = x.2) (makeParam C t ctx e) (makeParam C t' (upNRef ctx) e)
    | .field f => by
      rw [makeParam, makeParam]
      refine (resolveRef_above h f).bind (fun r r' _ _ e => ?_)
      subst e
      exact fieldRef_above h ctx r
    | .value v => by rw [makeParam, makeParam]; exact ⟨h, rfl⟩
    | .regex v => by
      rw [makeParam, makeParam]
      refine (Abreast.same _).bind (fun s s' _ _ e => ?_)
      subst e
      cases C.regexp s' with
      | none => trivial
      | some r => exact ⟨h, rfl⟩
    | .pcre v => by
      rw [makeParam, makeParam]
      refine (Abreast.same _).bind (fun s s' _ _ e => ?_)
      subst e
      cases C.pcre s' with
      | none => trivial
      | some r => exact ⟨h, rfl⟩
    | .func n ps => by
      rw [makeParam, makeParam]
      refine (makeParams_above C h ctx ps).bind (fun r r' _ _ e => ?_)
      exact ⟨e.1, by rw [e.2]⟩
    | .time v => by
      rw [makeParam, makeParam]
      refine (Abreast.same _).bind (fun s s' _ _ e => ?_)
      subst e
      cases E.parseTime s' with
      | none => trivial
      | some r => exact ⟨h, rfl⟩
    | .tru => trivial
    | .fals => trivial
    | .not _ => trivial
    | .and _ => trivial
    | .or _ => trivial
    | .exist _ => trivial
    | .notExist _ => trivial
    | .cmp _ _ _ => trivial
    | .loop _ _ _ _ => trivial

  theorem makeParams_above (C : Comp E) {t t' : T E} (h : Above t t') (ctx : NRef) : ∀ ps : Exprs E,
      Abreast (fun x x' => Above x.1 x'.1 ∧ x'.2 = x.2) (makeParams C t ctx ps) (makeParams C t' (upNRef ctx) ps)
    | .nil => by rw [makeParams, makeParams]; exact ⟨h, rfl⟩
    | .cons p ps => by
      rw [makeParams, makeParams]
      refine (makeParam_above C h ctx p).bind (fun r r' _ _ e => ?_)
      refine (makeParams_above C e.1 ctx ps).bind (fun rs rs' _ _ e' => ?_)
      exact ⟨e'.1, by rw [e.2, e'.2]⟩
end

theorem makeDataRef_above (C : Comp E) {t t' : T E} (h : Above t t') (ctx : NRef) (e : Expr E) :
    Abreast (fun x x' => Above x.1 x'.1 ∧ x'.2 = x.2) (makeDataRef C t ctx e) (makeDataRef C t' (upNRef ctx) e) := by
  rw [makeDataRef, makeDataRef]
  refine (makeParam_above C h ctx e).bind (fun r r' _ _ hr => ?_)
  obtain ⟨h1, h2⟩ := hr
  rw [h2]
  split
  · exact ⟨h1, rfl⟩
  · exact ⟨h1, rfl⟩

theorem tExists_above (C : Comp E) (e : Expr E) {t t' : T E} (h : Above t t') : Abreast Above (tExists C e t) (tExists C e t') := by
  rw [tExists, tExists]
  refine (pickBase_above h _).bind (fun b b' _ _ hb => ?_)
  rw [hb.2]
  refine (makeDataRef_above C hb.1 b.2 e).bind (fun l l' _ _ hl => ?_)
  rw [hl.2, hl.1.active]
  exact addOp_above hl.1 _ _

theorem tCompare_above (C : Comp E) (whole : Expr E) (op : OpTy) (l r : Expr E) {t t' : T E} (h : Above t t') :
    Abreast Above (tCompare C whole op l r t) (tCompare C whole op l r t') := by
  rw [tCompare, tCompare]
  refine (pickBase_above h _).bind (fun b b' _ _ hb => ?_)
  rw [hb.2]
  refine (makeDataRef_above C hb.1 b.2 l).bind (fun x x' _ _ hx => ?_)
  refine (makeDataRef_above C hx.1 b.2 r).bind (fun y y' _ _ hy => ?_)
  rw [hx.2, hy.2, hy.1.active]
  exact addOp_above hy.1 _ _

theorem tNot_above {f : T E → Res (T E)} (hf : ∀ t t', Above t t' → Abreast Above (f t) (f t')) {t t' : T E} (h : Above t t') :
    Abreast Above (tNot f t) (tNot f t') := by
  simp only [tNot]
  rw [h.active]
  refine (modNode_above h _ _ _).bind (fun a a' _ _ ha => ?_)
  have hb := newBucket_above ha
  refine (modNode_above hb _ _ _).bind (fun c c' _ _ hc => hf _ _ hc)

theorem tBin_above {ty : NodeType} {f g : T E → Res (T E)} (hf : ∀ t t', Above t t' → Abreast Above (f t) (f t'))
    (hg : ∀ t t', Above t t' → Abreast Above (g t) (g t')) {t t' : T E} (h : Above t t') : Abreast Above (tBin ty f g t) (tBin ty f g t') := by
  simp only [tBin]
  rw [h.active]
  refine (modNode_above h _ _ _).bind (fun a a' _ _ ha => ?_)
  have hb := newBucket_above ha
  refine (modNode_above hb _ _ _).bind (fun c c' _ _ hc => ?_)
  refine (hf _ _ hc).bind (fun d d' _ _ hd => ?_)
  have hd' : Above { d with active := t.active } { d' with active := t.active + 1 } := ⟨hd.slot, hd.bucket, hd.root, hd.len, hd.ctx, rfl⟩
  exact (modNode_above (newBucket_above hd') _ _ _).bind (fun x x' _ _ hx => hg _ _ hx)

theorem tLoop_above (C : Comp E) (whole : Expr E) (m : Mode) (v : Int) (inE : Expr E) {f : T E → Res (T E)}
    (hf : ∀ t t', Above t t' → Abreast Above (f t) (f t')) {t t' : T E} (h : Above t t') :
    Abreast Above (tLoop C whole m v inE f t) (tLoop C whole m v inE f t') := by
  simp only [tLoop]
  refine (pickBase_above h _).bind (fun b b' _ _ hb => ?_)
  rw [hb.2]
  refine (makeDataRef_above C hb.1 b.2 inE).bind (fun r r' _ _ hr => ?_)
  rw [hr.1.active, hr.2]
  refine (modNode_above hr.1 _ _ _).bind (fun a a' _ _ ha => ?_)
  refine (modNode_above (newBucket_above ha) _ _ _).bind (fun c c' _ _ hc => ?_)
  rw [hc.active]
  refine (addLoop_above hc _ _ _ _).bind (fun d d' _ _ hd => ?_)
  have ea : (upNRef b.2).addr ++ [Step.loop d'.active] = upAddr (b.2.addr ++ [Step.loop d.active]) := by
    rw [upNRef_addr, upAddr_append, hd.active]; rfl
  rw [ea]
  refine (hf { d with ctx := (v, b.2.addr ++ [Step.loop d.active]) :: d.ctx } { d' with ctx := (v, upAddr (b.2.addr ++ [Step.loop d.active])) :: d'.ctx }
    ⟨hd.slot, hd.bucket, hd.root, hd.len, by simp [hd.ctx], hd.active⟩).bind (fun x x' _ _ hx => ?_)
  rw [hx.ctx]
  cases hc : x.ctx with
  | nil => trivial
  | cons y rest =>
    obtain ⟨w, a''⟩ := y
    simp only [List.map_cons]
    by_cases he : a'' = b.2.addr ++ [Step.loop d.active]
    · rw [if_neg (by simpa using he), if_neg (by simp [he])]
      exact ⟨hx.slot, hx.bucket, hx.root, hx.len, rfl, hx.active⟩
    · rw [if_pos he, if_pos (fun e => he (upAddr_inj e))]
      trivial

mutual
  theorem tOne_above (C : Comp E) : ∀ (e : Expr E) (t t' : T E), Above t t' → Abreast Above (tOne C e t) (tOne C e t')
    | .loop m v i s, t, t', h => by rw [tOne, tOne]; exact tLoop_above C _ m v i (tOne_above C s) h
    | .not e, t, t', h => by rw [tOne, tOne]; exact tNot_above (tOne_above C e) h
    | .or es, t, t', h => by rw [tOne, tOne]; exact tOr_above C es t t' h
    | .and es, t, t', h => by rw [tOne, tOne]; exact tAnd_above C es t t' h
    | .exist e, t, t', h => by rw [tOne, tOne]; exact tExists_above C e h
    | .notExist e, t, t', h => by rw [tOne, tOne]; exact tNot_above (fun _ _ h => tExists_above C e h) h
    | .cmp c l r, t, t', h => by
      rw [tOne, tOne]
      split
      · exact tNot_above (fun _ _ h => tCompare_above C _ _ l r h) h
      · exact tCompare_above C _ _ l r h
    | .field _, _, _, h => h
    | .value _, _, _, h => h
    | .regex _, _, _, h => h
    | .pcre _, _, _, h => h
    | .func _ _, _, _, h => h
    | .time _, _, _, h => h
    | .tru, _, _, h => h
    | .fals, _, _, h => h

  theorem tOr_above (C : Comp E) : ∀ (es : Exprs E) (t t' : T E), Above t t' → Abreast Above (tOr C es t) (tOr C es t')
    | .nil, _, _, _ => trivial
    | .cons e .nil, t, t', h => by rw [tOr, tOr]; exact tOne_above C e t t' h
    | .cons e (.cons e' r), t, t', h => by
      rw [tOr.eq_def, tOr.eq_def C (.cons e (.cons e' r)) t']
      exact tBin_above (tOne_above C e) (tOr_above C (.cons e' r)) h

  theorem tAnd_above (C : Comp E) : ∀ (es : Exprs E) (t t' : T E), Above t t' → Abreast Above (tAnd C es t) (tAnd C es t')
    | .nil, _, _, _ => trivial
    | .cons e .nil, t, t', h => by rw [tAnd, tAnd]; exact tOne_above C e t t' h
    | .cons e (.cons e' r), t, t', h => by
      rw [tAnd.eq_def, tAnd.eq_def C (.cons e (.cons e' r)) t']
      exact tBin_above (tOne_above C e) (tAnd_above C (.cons e' r)) h
end

/-! ### Whole expressions -/

/-- The transformer after the node of the negation. -/
def negT (slot0 : Nat) : T E :=
  { slotIdx := slot0, bucketIdx := 2, root := emptyExec, tree := [⟨.not, 0, 1, 0⟩, ⟨.leaf, 0, 0, 0⟩], ctx := [], active := 1 }

theorem negT_above (slot0 : Nat) : Above (initT slot0 : T E) (negT slot0) := ⟨rfl, rfl, rfl, rfl, rfl, rfl⟩

theorem tNot_init (slot0 : Nat) (f : T E → Res (T E)) : tNot f (initT slot0) = f (negT slot0) := rfl

/-- Compiling a negation does what compiling the expression does, with buckets one higher. -/
theorem transform_not (C : Comp E) (slot0 : Nat) (e : Expr E) (hn : genExprs [e] = [e]) :
    Abreast (fun df df' => df'.parse = df.parse.map upExec ∧ df'.numSlots = df.numSlots) (transform C slot0 [e]) (transform C slot0 [.not e]) := by
  rw [transform_cons C slot0 [e] hn, transform_cons C slot0 [.not e] (g := .not e) (gs := []) rfl]
  simp only [tMerge]
  rw [show tOne C (.not e) (initT slot0) = tOne C e (negT slot0) from by rw [tOne, tNot_init]]
  refine Abreast.bind (P := fun r r' => Above r.1 r'.1) ((tOne_above C e _ _ (negT_above slot0)).bind (fun a a' _ _ h => ?_)) (fun r r' _ _ h => ?_)
  · exact h
  exact ⟨by simp [h.root], h.slot⟩

end Verif.Transform
