import Verif.Transform.Negate

/-!
# Compiling with other bucket numbers

`Verif.Transform.Negate` for any renaming of buckets: two transformers that number the buckets of an expression differently produce the same nodes
otherwise.
-/

namespace Verif.Transform
open Verif.FastVal Verif.Match Verif.Expr
open Verif.BinTree (Tree Node NodeType Sh)

variable {E : Ext}

/-! ### Other bucket numbers -/

section
variable (σ : Nat → Nat)

def renOp (o : Op E) : Op E := { o with bucket := σ o.bucket }

mutual
  def renExec : Exec E → Exec E
    | .mk st es ops ls a => .mk st (renElems es) (ops.map (renOp σ)) (renLoops ls) (renAfter a)
  def renElems : Elems E → Elems E
    | .nil => .nil
    | .cons k e r => .cons k (renExec e) (renElems r)
  def renLoops : Loops E → Loops E
    | .nil => .nil
    | .cons b m t e r => .cons (σ b) m t (renExec e) (renLoops r)
  def renAfter : After E → After E
    | .none => .none
    | .some ops ls => .some (ops.map (renOp σ)) (renLoops ls)
end

def renStep : Step → Step
  | .key k => .key k
  | .loop b => .loop (σ b)

def renAddr (a : Addr) : Addr := a.map (renStep σ)

def renNRef : NRef → NRef
  | .node a => .node (renAddr σ a)
  | .after a => .after (renAddr σ a)

def renRRef (r : RRef) : RRef := ⟨r.ctx.map (renAddr σ), r.path⟩

end

variable {σ : Nat → Nat}

theorem renAddr_append (a b : Addr) : renAddr σ (a ++ b) = renAddr σ a ++ renAddr σ b := List.map_append

theorem renRRef_addr (r : RRef) : (renRRef σ r).addr = renAddr σ r.addr := by
  obtain ⟨c, p⟩ := r
  rw [RRef.addr, RRef.addr, renAddr_append]
  have : renAddr σ (p.map Step.key) = p.map Step.key := by simp [renAddr, renStep, Function.comp_def]
  rw [this]
  cases c <;> rfl

theorem renNRef_addr (n : NRef) : (renNRef σ n).addr = renAddr σ n.addr := by cases n <;> rfl

theorem emptyExec_ren : renExec σ (emptyExec : Exec E) = emptyExec := by
  rw [emptyExec, renExec, renElems, renLoops, renAfter]; rfl

theorem find_ren (k : List Nat) : ∀ es : Elems E, (renElems σ es).find k = (es.find k).map (renExec σ)
  | .nil => by rw [renElems]; rfl
  | .cons k' e r => by
    rw [renElems, Elems.find, Elems.find]
    split
    · rfl
    · exact find_ren k r

theorem storeOf_ren (e : Exec E) : storeOf (renExec σ e) = storeOf e := by cases e; rw [renExec]; rfl

theorem snoc_ren (b : Nat) (m : Mode) (t : Option (Ref E)) (e : Exec E) : ∀ ls : Loops E,
    renLoops σ (Loops.snoc ls b m t e) = Loops.snoc (renLoops σ ls) (σ b) m t (renExec σ e)
  | .nil => by simp only [Loops.snoc, renLoops]
  | .cons b' m' t' e' r => by rw [Loops.snoc, renLoops, renLoops, Loops.snoc, snoc_ren b m t e r]

theorem alterElems_ren {f f' : Exec E → Exec E} (hf : ∀ e, renExec σ (f e) = f' (renExec σ e)) (k : List Nat) : ∀ es : Elems E,
    renElems σ (alterElems k f es) = alterElems k f' (renElems σ es)
  | .nil => by simp only [alterElems, renElems, hf, emptyExec_ren]
  | .cons k' e r => by
    rw [renElems, alterElems, alterElems]
    split
    · rw [renElems, hf]
    · rw [renElems, alterElems_ren hf k r]

section
variable (hσ : ∀ x y, σ x = σ y → x = y)
include hσ

theorem renStep_inj {x y : Step} (h : renStep σ x = renStep σ y) : x = y := by
  cases x <;> cases y <;> simp only [renStep, Step.key.injEq, Step.loop.injEq, reduceCtorEq] at h <;> first | rw [h] | rw [hσ _ _ h]

theorem renAddr_inj {x y : Addr} (h : renAddr σ x = renAddr σ y) : x = y :=
  List.map_inj_right (fun _ _ h => renStep_inj hσ h) |>.1 h

theorem renNRef_inj {x y : NRef} (h : renNRef σ x = renNRef σ y) : x = y := by
  cases x <;> cases y <;> simp [renNRef] at h <;> rw [renAddr_inj hσ h]

theorem alterLoops_ren {f f' : Exec E → Exec E} (hf : ∀ e, renExec σ (f e) = f' (renExec σ e)) (b : Nat) : ∀ ls : Loops E,
    renLoops σ (alterLoops b f ls) = alterLoops (σ b) f' (renLoops σ ls)
  | .nil => by rw [alterLoops, renLoops, alterLoops]
  | .cons b' m t e r => by
    rw [renLoops, alterLoops, alterLoops]
    by_cases h : b' = b
    · rw [if_pos h, if_pos (by rw [h]), renLoops, hf]
    · rw [if_neg h, if_neg (fun e => h (hσ _ _ e)), renLoops, alterLoops_ren hf b r]

theorem update_ren {f f' : Exec E → Exec E} (hf : ∀ e, renExec σ (f e) = f' (renExec σ e)) : ∀ (a : Addr) (e : Exec E),
    renExec σ (update a f e) = update (renAddr σ a) f' (renExec σ e)
  | [], e => hf e
  | .key k :: p, .mk st es ops ls a => by
    show renExec σ (.mk st (alterElems k (update p f) es) ops ls a) = update (.key k :: renAddr σ p) f' (renExec σ (.mk st es ops ls a))
    rw [renExec, renExec, update, alterElems_ren (update_ren hf p)]
  | .loop b :: p, .mk st es ops ls a => by
    show renExec σ (.mk st es ops (alterLoops b (update p f) ls) (alterAfter b (update p f) a)) =
      update (.loop (σ b) :: renAddr σ p) f' (renExec σ (.mk st es ops ls a))
    rw [renExec, renExec, update, alterLoops_ren hσ (update_ren hf p)]
    cases a with
    | none => rw [alterAfter, renAfter, alterAfter]
    | some aops als => rw [alterAfter, renAfter, renAfter, alterAfter, alterLoops_ren hσ (update_ren hf p)]

theorem findLoop_ren (b : Nat) : ∀ ls : Loops E, findLoop (σ b) (renLoops σ ls) = (findLoop b ls).map (renExec σ)
  | .nil => by rw [renLoops]; rfl
  | .cons b' m t e r => by
    rw [renLoops, findLoop, findLoop]
    by_cases h : b' = b
    · rw [if_pos h, if_pos (by rw [h])]; rfl
    · rw [if_neg h, if_neg (fun e => h (hσ _ _ e)), findLoop_ren b r]

theorem nodeAt_ren : ∀ (a : Addr) (e : Exec E), nodeAt (renAddr σ a) (renExec σ e) = (nodeAt a e).map (renExec σ)
  | [], e => rfl
  | .key k :: p, .mk st es ops ls a => by
    show nodeAt (.key k :: renAddr σ p) _ = _
    rw [renExec, nodeAt, nodeAt, find_ren]
    cases es.find k with
    | none => rfl
    | some e => exact nodeAt_ren p e
  | .loop b :: p, .mk st es ops ls a => by
    show nodeAt (.loop (σ b) :: renAddr σ p) _ = _
    have : findAfter (σ b) (renAfter σ a) = (findAfter b a).map (renExec σ) := by
      cases a with
      | none => rw [renAfter]; rfl
      | some aops als => rw [renAfter]; exact findLoop_ren hσ b als
    rw [renExec, nodeAt, nodeAt, this, findLoop_ren hσ]
    cases findLoop b ls with
    | some e => exact nodeAt_ren p e
    | none => cases findAfter b a with
      | none => rfl
      | some e => exact nodeAt_ren p e

end

/-! ### The transformer -/

/-- Two transformers that have done the same with different buckets: `P`, `P'` are the active ones, `B`, `B'` the next ones. -/
structure Renamed (σ : Nat → Nat) (P P' B B' : Nat) (t t' : T E) : Prop where
  slot : t'.slotIdx = t.slotIdx
  root : t'.root = renExec σ t.root
  ctx : t'.ctx = t.ctx.map (fun x => (x.1, renAddr σ x.2))
  active : t.active = P
  active' : t'.active = P'
  bucket : t.bucketIdx = B
  bucket' : t'.bucketIdx = B'
  len : t.tree.length = B
  len' : t'.tree.length = B'
  lt : P < B
  lt' : P' < B'

section
variable (hσ : ∀ x y, σ x = σ y → x = y) {P P' B B' : Nat}
include hσ

theorem Renamed.update {t t' : T E} (h : Renamed σ P P' B B' t t') {f f' : Exec E → Exec E} (hf : ∀ e, renExec σ (f e) = f' (renExec σ e)) (a : Addr) :
    Renamed σ P P' B B' { t with root := Transform.update a f t.root } { t' with root := Transform.update (renAddr σ a) f' t'.root } :=
  { h with root := by simp only [h.root, update_ren hσ hf] }

theorem getExecNode_renamed {t t' : T E} (h : Renamed σ P P' B B' t t') (r : RRef) :
    Renamed σ P P' B B' (getExecNode t r).1 (getExecNode t' (renRRef σ r)).1 := by
  rw [getExecNode, getExecNode, renRRef_addr]
  exact h.update hσ (f := id) (f' := id) (fun _ => rfl) _

theorem storeExecNode_renamed {t t' : T E} (h : Renamed σ P P' B B' t t') (a : Addr) :
    Renamed σ P P' B B' (storeExecNode t a).1 (storeExecNode t' (renAddr σ a)).1 ∧ (storeExecNode t' (renAddr σ a)).2 = (storeExecNode t a).2 := by
  have e : ((nodeAt (renAddr σ a) t'.root).map storeOf).getD 0 = ((nodeAt a t.root).map storeOf).getD 0 := by
    rw [h.root, nodeAt_ren hσ]
    cases nodeAt a t.root with
    | none => rfl
    | some e => exact storeOf_ren e
  simp only [storeExecNode, e]
  split
  · simp only [newSlot, h.slot]
    refine ⟨{ h with slot := rfl, root := ?_ }, trivial⟩
    simp only [h.root]
    rw [update_ren hσ (f' := setStore (t.slotIdx + 1)) (fun e => by cases e; rw [setStore, renExec, renExec, setStore])]
  · exact ⟨h, rfl⟩

omit hσ

theorem newBucket_renamed {t t' : T E} (h : Renamed σ P P' B B' t t') : Renamed σ B B' (B + 1) (B' + 1) (newBucket t) (newBucket t') :=
  ⟨h.slot, h.root, h.ctx, by simp [newBucket, h.bucket], by simp [newBucket, h.bucket'], by simp [newBucket, h.bucket], by simp [newBucket, h.bucket'],
    by simp [newBucket, h.len], by simp [newBucket, h.len'], by omega, by omega⟩

theorem modNode_renamed {t t' : T E} (h : Renamed σ P P' B B' t t') {i i' : Nat} (hi : i < B) (hi' : i' < B') (f g : Node → Node) :
    Abreast (Renamed σ P P' B B') (modNode t i f) (modNode t' i' g) := by
  rw [modNode, modNode, Res.idx_of_some (List.getElem?_eq_getElem (show i < t.tree.length by rw [h.len]; exact hi)),
    Res.idx_of_some (List.getElem?_eq_getElem (show i' < t'.tree.length by rw [h.len']; exact hi'))]
  exact { h with len := by simp [h.len], len' := by simp [h.len'] }

/-- Changes of one tree only. -/
theorem modNode_left {t t' : T E} (h : Renamed σ P P' B B' t t') {i : Nat} (hi : i < B) (f : Node → Node) :
    ∃ u, modNode t i f = .ok u ∧ Renamed σ P P' B B' u t' := by
  rw [modNode, Res.idx_of_some (List.getElem?_eq_getElem (show i < t.tree.length by rw [h.len]; exact hi))]
  exact ⟨_, rfl, { h with len := by simp [h.len] }⟩

theorem modNode_right {t t' : T E} (h : Renamed σ P P' B B' t t') {i : Nat} (hi : i < B') (f : Node → Node) :
    ∃ u, modNode t' i f = .ok u ∧ Renamed σ P P' B B' t u := by
  rw [modNode, Res.idx_of_some (List.getElem?_eq_getElem (show i < t'.tree.length by rw [h.len']; exact hi))]
  exact ⟨_, rfl, { h with len' := by simp [h.len'] }⟩

theorem newBucket_left {t t' : T E} (h : Renamed σ P P' B B' t t') : Renamed σ B P' (B + 1) B' (newBucket t) t' :=
  ⟨h.slot, h.root, h.ctx, by simp [newBucket, h.bucket], h.active', by simp [newBucket, h.bucket], h.bucket', by simp [newBucket, h.len], h.len',
    by omega, h.lt'⟩

theorem newBucket_right {t t' : T E} (h : Renamed σ P P' B B' t t') : Renamed σ P B' B (B' + 1) t (newBucket t') :=
  ⟨h.slot, h.root, h.ctx, h.active, by simp [newBucket, h.bucket'], h.bucket, by simp [newBucket, h.bucket'], h.len, by simp [newBucket, h.len'],
    h.lt, by omega⟩

theorem getContext_renamed {t t' : T E} (h : Renamed σ P P' B B' t t') (v : Int) :
    Abreast (fun c c' => c' = c.map (renAddr σ)) (getContext t v) (getContext t' v) := by
  rw [getContext, getContext]
  split
  · rfl
  · rw [h.ctx]
    cases t.ctx with
    | nil => trivial
    | cons x rest =>
      obtain ⟨v', a⟩ := x
      simp only [List.map_cons]
      split
      · rfl
      · trivial

theorem resolveRef_renamed {t t' : T E} (h : Renamed σ P P' B B' t t') (f : Field) :
    Abreast (fun r r' => r' = renRRef σ r) (resolveRef t f) (resolveRef t' f) := by
  rw [resolveRef, resolveRef]
  refine (getContext_renamed h f.root).bind (fun c c' _ _ e => ?_)
  subst e; rfl

theorem resolveRefs_renamed {t t' : T E} (h : Renamed σ P P' B B' t t') : ∀ fs : List Field,
    Abreast (fun r r' => r' = r.map (renRRef σ)) (resolveRefs t fs) (resolveRefs t' fs)
  | [] => rfl
  | f :: fs => by
    rw [resolveRefs, resolveRefs]
    refine (resolveRef_renamed h f).bind (fun r r' _ _ e => ?_)
    refine (resolveRefs_renamed h fs).bind (fun rs rs' _ _ e' => ?_)
    subst e e'; rfl

theorem currentContext_renamed {t t' : T E} (h : Renamed σ P P' B B' t t') : currentContext t' = (currentContext t).map (renAddr σ) := by
  rw [currentContext, currentContext, h.ctx]
  cases t.ctx <;> rfl

include hσ

theorem optAddr_ren_inj {x y : Option Addr} : x.map (renAddr σ) = y.map (renAddr σ) ↔ x = y := by
  constructor
  · intro h
    cases x <;> cases y <;> simp at h <;> first | rfl | rw [renAddr_inj hσ h]
  · rintro rfl; rfl

theorem paths_renamed (c : Option Addr) : ∀ refs : List RRef,
    ((refs.map (renRRef σ)).filter (fun r => decide (r.ctx = c.map (renAddr σ)))).map RRef.path =
      (refs.filter (fun r => decide (r.ctx = c))).map RRef.path
  | [] => rfl
  | r :: refs => by
    have hd : decide ((renRRef σ r).ctx = c.map (renAddr σ)) = decide (r.ctx = c) := by
      apply decide_eq_decide.2
      exact optAddr_ren_inj hσ
    rw [List.map_cons, List.filter_cons, List.filter_cons, hd]
    split
    · rw [List.map_cons, List.map_cons, paths_renamed c refs]; rfl
    · exact paths_renamed c refs

theorem findBestRoot_renamed {t t' : T E} (h : Renamed σ P P' B B' t t') (refs : List RRef) :
    Abreast (fun b b' => b' = (renRRef σ b.1, b.2)) (findBestRoot t refs) (findBestRoot t' (refs.map (renRRef σ))) := by
  simp only [findBestRoot, currentContext_renamed h, paths_renamed hσ]
  split
  · rfl
  · refine (Abreast.same _).bind (fun c c' _ _ e => ?_)
    subst e; rfl

theorem pickBase_renamed {t t' : T E} (h : Renamed σ P P' B B' t t') (e : Expr E) :
    Abreast (fun b b' => Renamed σ P P' B B' b.1 b'.1 ∧ b'.2 = renNRef σ b.2) (pickBase t e) (pickBase t' e) := by
  rw [pickBase, pickBase]
  refine (Abreast.same _).bind (fun fs fs' _ _ e1 => ?_)
  subst e1
  refine (resolveRefs_renamed h _).bind (fun rs rs' _ _ e2 => ?_)
  subst e2
  refine (findBestRoot_renamed hσ h rs).bind (fun b b' _ _ e3 => ?_)
  subst e3
  have hg := getExecNode_renamed hσ h b.1
  simp only [renRRef_addr]
  split
  · exact ⟨hg.update hσ (fun e => by
      obtain ⟨st, es, ops, ls, a⟩ := e
      cases a <;> simp [ensureAfter, renExec, renAfter, renLoops]) _, rfl⟩
  · exact ⟨hg, rfl⟩

theorem addOp_renamed {t t' : T E} (h : Renamed σ P P' B B' t t') (n : NRef) (op : Op E) :
    Renamed σ P P' B B' (n.addOp t op) ((renNRef σ n).addOp t' (renOp σ op)) := by
  cases n with
  | node a => exact h.update hσ (fun e => by cases e; simp [Transform.addOp, renExec]) a
  | after a =>
    refine h.update hσ (fun e => ?_) a
    obtain ⟨st, es, ops, ls, a⟩ := e
    cases a <;> simp [addAfterOp, renExec, renAfter]

theorem addLoop_renamed {t t' : T E} (h : Renamed σ P P' B B' t t') (n : NRef) (b : Nat) (m : Mode) (g : Option (Ref E)) :
    Abreast (Renamed σ P P' B B') (n.addLoop t b m g emptyExec) ((renNRef σ n).addLoop t' (σ b) m g emptyExec) := by
  have h1 : ∀ a, Renamed σ P P' B B' { t with root := Transform.update a (Transform.addLoop b m g emptyExec) t.root }
      { t' with root := Transform.update (renAddr σ a) (Transform.addLoop (σ b) m g emptyExec) t'.root } := by
    intro a
    refine h.update hσ (fun e => ?_) a
    cases e; simp only [Transform.addLoop, renExec, snoc_ren, emptyExec_ren]
  have h2 : ∀ a, Renamed σ P P' B B' { t with root := Transform.update a (addAfterLoop b m g emptyExec) t.root }
      { t' with root := Transform.update (renAddr σ a) (addAfterLoop (σ b) m g emptyExec) t'.root } := by
    intro a
    refine h.update hσ (fun e => ?_) a
    obtain ⟨st, es, ops, ls, a⟩ := e
    cases a <;> simp only [addAfterLoop, renExec, renAfter, snoc_ren, emptyExec_ren]
  cases n with
  | node a => cases g with
    | none => exact h1 a
    | some g => trivial
  | after a => cases g with
    | none => trivial
    | some g => cases g with
      | slot s => exact h2 a
      | val _ => trivial
      | lit => trivial
      | fn _ _ => trivial

theorem fieldRef_renamed {t t' : T E} (h : Renamed σ P P' B B' t t') (ctx : NRef) (r : RRef) :
    Renamed σ P P' B B' (fieldRef t ctx r).1 (fieldRef t' (renNRef σ ctx) (renRRef σ r)).1 ∧
      (fieldRef t' (renNRef σ ctx) (renRRef σ r)).2 = (fieldRef t ctx r).2 := by
  have hg := getExecNode_renamed hσ h r
  simp only [fieldRef, renRRef_addr]
  by_cases hc : ctx = .node r.addr
  · rw [if_pos hc, if_pos (by rw [hc]; rfl)]
    exact ⟨hg, rfl⟩
  · rw [if_neg hc, if_neg (show ¬ renNRef σ ctx = .node (renAddr σ r.addr) from fun e => hc (renNRef_inj hσ (y := .node r.addr) e))]
    have := storeExecNode_renamed hσ hg r.addr
    exact ⟨this.1, by rw [this.2]⟩

mutual
  theorem makeParam_renamed (C : Comp E) {t t' : T E} (h : Renamed σ P P' B B' t t') (ctx : NRef) : ∀ e : Expr E,
      Abreast (fun x x' => Renamed σ P P' B B' x.1 x'.1 ∧ x'.2 = x.2) (makeParam C t ctx e) (makeParam C t' (renNRef σ ctx) e)
    | .field f => by
      rw [makeParam, makeParam]
      refine (resolveRef_renamed h f).bind (fun r r' _ _ e => ?_)
      subst e
      exact fieldRef_renamed hσ h ctx r
    | .value v => by rw [makeParam, makeParam]; exact ⟨h, rfl⟩
    | .regex v => by
      rw [makeParam, makeParam]
      refine (Abreast.same _).bind (fun s s' _ _ e => ?_)
      subst e
      cases C.regexp s' with
      | none => trivial
      | some r => exact ⟨h, rfl⟩
    | .pcre v => by
      rw [makeParam, makeParam]
      refine (Abreast.same _).bind (fun s s' _ _ e => ?_)
      subst e
      cases C.pcre s' with
      | none => trivial
      | some r => exact ⟨h, rfl⟩
    | .func n ps => by
      rw [makeParam, makeParam]
      refine (makeParams_renamed C h ctx ps).bind (fun r r' _ _ e => ?_)
      exact ⟨e.1, by rw [e.2]⟩
    | .time v => by
      rw [makeParam, makeParam]
      refine (Abreast.same _).bind (fun s s' _ _ e => ?_)
      subst e
      cases E.parseTime s' with
      | none => trivial
      | some r => exact ⟨h, rfl⟩
    | .tru => trivial
    | .fals => trivial
    | .not _ => trivial
    | .and _ => trivial
    | .or _ => trivial
    | .exist _ => trivial
    | .notExist _ => trivial
    | .cmp _ _ _ => trivial
    | .loop _ _ _ _ => trivial

  theorem makeParams_renamed (C : Comp E) {t t' : T E} (h : Renamed σ P P' B B' t t') (ctx : NRef) : ∀ ps : Exprs E,
      Abreast (fun x x' => Renamed σ P P' B B' x.1 x'.1 ∧ x'.2 = x.2) (makeParams C t ctx ps) (makeParams C t' (renNRef σ ctx) ps)
    | .nil => by rw [makeParams, makeParams]; exact ⟨h, rfl⟩
    | .cons p ps => by
      rw [makeParams, makeParams]
      refine (makeParam_renamed C h ctx p).bind (fun r r' _ _ e => ?_)
      refine (makeParams_renamed C e.1 ctx ps).bind (fun rs rs' _ _ e' => ?_)
      exact ⟨e'.1, by rw [e.2, e'.2]⟩
end

theorem makeDataRef_renamed (C : Comp E) {t t' : T E} (h : Renamed σ P P' B B' t t') (ctx : NRef) (e : Expr E) :
    Abreast (fun x x' => Renamed σ P P' B B' x.1 x'.1 ∧ x'.2 = x.2) (makeDataRef C t ctx e) (makeDataRef C t' (renNRef σ ctx) e) := by
  rw [makeDataRef, makeDataRef]
  refine (makeParam_renamed hσ C h ctx e).bind (fun r r' _ _ hr => ?_)
  obtain ⟨h1, h2⟩ := hr
  rw [h2]
  split
  · exact ⟨h1, rfl⟩
  · exact ⟨h1, rfl⟩

theorem tExists_renamed (C : Comp E) (e : Expr E) {t t' : T E} (h : Renamed σ P P' B B' t t') (hP : P' = σ P) :
    Abreast (Renamed σ P P' B B') (tExists C e t) (tExists C e t') := by
  rw [tExists, tExists]
  refine (pickBase_renamed hσ h _).bind (fun b b' _ _ hb => ?_)
  rw [hb.2]
  refine (makeDataRef_renamed hσ C hb.1 b.2 e).bind (fun l l' _ _ hl => ?_)
  subst hP
  rw [hl.2, hl.1.active, hl.1.active']
  exact addOp_renamed hσ hl.1 b.2 ⟨P, _, _, _⟩

theorem tCompare_renamed (C : Comp E) (whole : Expr E) (op : OpTy) (l r : Expr E) {t t' : T E} (h : Renamed σ P P' B B' t t') (hP : P' = σ P) :
    Abreast (Renamed σ P P' B B') (tCompare C whole op l r t) (tCompare C whole op l r t') := by
  rw [tCompare, tCompare]
  refine (pickBase_renamed hσ h _).bind (fun b b' _ _ hb => ?_)
  rw [hb.2]
  refine (makeDataRef_renamed hσ C hb.1 b.2 l).bind (fun x x' _ _ hx => ?_)
  refine (makeDataRef_renamed hσ C hx.1 b.2 r).bind (fun y y' _ _ hy => ?_)
  subst hP
  rw [hx.2, hy.2, hy.1.active, hy.1.active']
  exact addOp_renamed hσ hy.1 b.2 ⟨P, _, _, _⟩

end

/-- Ready for an expression: the active bucket is the newest. -/
abbrev Enter (σ : Nat → Nat) (P P' : Nat) (t t' : T E) : Prop := Renamed σ P P' (P + 1) (P' + 1) t t'

/-- Done with it. -/
def Handled (σ : Nat → Nat) (B B' : Nat) (t t' : T E) : Prop := ∃ Q Q', Renamed σ Q Q' B B' t t'

theorem Renamed.left {P P' B B' : Nat} {t t' : T E} (h : Renamed σ P P' B B' t t') : Handled σ B B' t t' := ⟨P, P', h⟩

/-- `σ` moves `n` positions from `b` on to `b'`. -/
def SegTo (σ : Nat → Nat) (b b' n : Nat) : Prop := ∀ j, j < n → σ (b + j) = b' + j

theorem SegTo.sub {b b' n : Nat} (h : SegTo σ b b' n) (k m : Nat) (hk : k + m ≤ n) : SegTo σ (b + k) (b' + k) m := by
  intro j hj
  rw [Nat.add_assoc, h (k + j) (by omega), Nat.add_assoc]

theorem SegTo.zero {b b' n : Nat} (h : SegTo σ b b' n) (hn : 0 < n) : b' = σ b := by
  have := h 0 hn
  simpa using this.symm

/-- What a part of the transformer does for a subtree of size `n`. -/
def Moves (σ : Nat → Nat) (n : Nat) (f : T E → Res (T E)) : Prop :=
  ∀ P P' t t', Enter σ P P' t t' → SegTo σ P P' n → Abreast (Handled σ (P + n) (P' + n)) (f t) (f t')

section
variable (hσ : ∀ x y, σ x = σ y → x = y)

theorem tNot_moves {n : Nat} {f : T E → Res (T E)} (hf : Moves σ n f) : Moves σ (n + 1) (tNot f) := by
  intro P P' t t' h hs
  simp only [tNot]
  rw [h.active, h.active']
  refine (modNode_renamed h (by omega) (by omega) _ _).bind (fun a a' _ _ ha => ?_)
  have hb := newBucket_renamed ha
  refine (modNode_renamed hb (by omega) (by omega) _ _).bind (fun c c' _ _ hc => ?_)
  have := hf _ _ _ _ hc (hs.sub 1 n (by omega))
  rw [show P + (n + 1) = P + 1 + n by omega, show P' + (n + 1) = P' + 1 + n by omega]
  exact this

theorem tBin_moves {ty : NodeType} {n m : Nat} {f g : T E → Res (T E)} (hf : Moves σ n f) (hg : Moves σ m g) :
    Moves σ (n + m + 1) (tBin ty f g) := by
  intro P P' t t' h hs
  simp only [tBin]
  rw [h.active, h.active']
  refine (modNode_renamed h (by omega) (by omega) _ _).bind (fun a a' _ _ ha => ?_)
  have hb := newBucket_renamed ha
  refine (modNode_renamed hb (by omega) (by omega) _ _).bind (fun c c' _ _ hc => ?_)
  refine (hf _ _ _ _ hc (hs.sub 1 n (by omega))).bind (fun d d' _ _ hd => ?_)
  obtain ⟨Q, Q', hd⟩ := hd
  have hd' : Renamed σ P P' (P + 1 + n) (P' + 1 + n) { d with active := P } { d' with active := P' } :=
    { hd with active := rfl, active' := rfl, lt := by omega, lt' := by omega }
  refine (modNode_renamed (newBucket_renamed hd') (by omega) (by omega) _ _).bind (fun x x' _ _ hx => ?_)
  have := hg _ _ _ _ hx (by have := hs.sub (1 + n) m (by omega); rwa [← Nat.add_assoc, ← Nat.add_assoc] at this)
  rw [show P + (n + m + 1) = P + 1 + n + m by omega, show P' + (n + m + 1) = P' + 1 + n + m by omega]
  exact this

include hσ

theorem tLoop_moves (C : Comp E) (whole : Expr E) (m : Mode) (v : Int) (inE : Expr E) {n : Nat} (hn : 0 < n) {f : T E → Res (T E)} (hf : Moves σ n f) :
    Moves σ (n + 1) (tLoop C whole m v inE f) := by
  intro P P' t t' h hs
  simp only [tLoop]
  refine (pickBase_renamed hσ h _).bind (fun b b' _ _ hb => ?_)
  rw [hb.2]
  refine (makeDataRef_renamed hσ C hb.1 b.2 inE).bind (fun r r' _ _ hr => ?_)
  rw [hr.1.active, hr.1.active', hr.2]
  refine (modNode_renamed hr.1 (by omega) (by omega) _ _).bind (fun a a' _ _ ha => ?_)
  refine (modNode_renamed (newBucket_renamed ha) (by omega) (by omega) _ _).bind (fun c c' _ _ hc => ?_)
  have hP : P' + 1 = σ (P + 1) := (hs.sub 1 n (by omega)).zero hn
  rw [hc.active, hc.active', hP]
  rw [hP] at hc
  refine (addLoop_renamed hσ hc _ _ _ _).bind (fun d d' _ _ hd => ?_)
  have ea : (renNRef σ b.2).addr ++ [Step.loop d'.active] = renAddr σ (b.2.addr ++ [Step.loop d.active]) := by
    rw [renNRef_addr, renAddr_append, hd.active, hd.active']; rfl
  rw [ea]
  rw [← hP] at hd
  have hd2 : Enter σ (P + 1) (P' + 1) { d with ctx := (v, b.2.addr ++ [Step.loop d.active]) :: d.ctx }
      { d' with ctx := (v, renAddr σ (b.2.addr ++ [Step.loop d.active])) :: d'.ctx } := { hd with ctx := by simp [hd.ctx] }
  refine (hf _ _ _ _ hd2 (hs.sub 1 n (by omega))).bind (fun x x' _ _ hx => ?_)
  obtain ⟨Q, Q', hx⟩ := hx
  rw [hx.ctx]
  cases hc : x.ctx with
  | nil => trivial
  | cons y rest =>
    obtain ⟨w, a''⟩ := y
    simp only [List.map_cons]
    by_cases he : a'' = b.2.addr ++ [Step.loop d.active]
    · rw [if_neg (by simpa using he), if_neg (by simp [he])]
      rw [show P + (n + 1) = P + 1 + n by omega, show P' + (n + 1) = P' + 1 + n by omega]
      exact ⟨Q, Q', { hx with ctx := rfl }⟩
    · rw [if_pos he, if_pos (fun e => he (renAddr_inj hσ e))]
      trivial

theorem atom_moves {f : T E → Res (T E)} (hf : ∀ P B B' t t', Renamed σ P (σ P) B B' t t' → Abreast (Renamed σ P (σ P) B B') (f t) (f t')) :
    Moves σ 1 f := by
  intro P P' t t' h hs
  have hP := hs.zero (by omega)
  subst hP
  have := hf _ _ _ _ _ h
  revert this
  cases f t <;> cases f t' <;> first | exact fun h => h | exact fun h => Renamed.left h

theorem tExists_moves (C : Comp E) (e : Expr E) : Moves σ 1 (tExists C e) := atom_moves hσ (fun _ _ _ _ _ h => tExists_renamed hσ C e h rfl)

theorem tCompare_moves (C : Comp E) (whole : Expr E) (op : OpTy) (l r : Expr E) : Moves σ 1 (tCompare C whole op l r) :=
  atom_moves hσ (fun _ _ _ _ _ h => tCompare_renamed hσ C whole op l r h rfl)

theorem nothing_moves : Moves σ 1 (fun t : T E => .ok t) := atom_moves hσ (fun _ _ _ _ _ h => h)

theorem panic_moves (n : Nat) : Moves σ n (fun _ : T E => .panic) := fun _ _ _ _ _ _ => trivial

mutual
  theorem tOne_moves (C : Comp E) : ∀ (e : Expr E), Moves σ (shape e).size (tOne C e)
    | .loop m v i s => by
      have : tOne C (.loop m v i s) = tLoop C (.loop m v i s) m v i (tOne C s) := by funext t; rw [tOne]
      rw [this]; exact tLoop_moves hσ C _ m v i (shape s).size_pos (tOne_moves C s)
    | .not e => by
      have : tOne C (.not e) = tNot (tOne C e) := by funext t; rw [tOne]
      rw [this]; exact tNot_moves (tOne_moves C e)
    | .or es => by
      have : tOne C (.or es) = tOr C es := by funext t; rw [tOne]
      rw [this]; exact tOr_moves C es
    | .and es => by
      have : tOne C (.and es) = tAnd C es := by funext t; rw [tOne]
      rw [this]; exact tAnd_moves C es
    | .exist e => by
      have : tOne C (.exist e) = tExists C e := by funext t; rw [tOne]
      rw [this]; exact tExists_moves hσ C e
    | .notExist e => by
      have : tOne C (.notExist e) = tNot (tExists C e) := by funext t; rw [tOne]
      rw [this]; exact tNot_moves (tExists_moves hσ C e)
    | .cmp c l r => by
      by_cases hc : c = .ne
      · subst hc
        have : tOne C (.cmp .ne l r) = tNot (tCompare C (.cmp .eq l r) .equals l r) := by funext t; rw [tOne, if_pos rfl]
        rw [this]; exact tNot_moves (tCompare_moves hσ C _ _ l r)
      · have : tOne C (.cmp c l r) = tCompare C (.cmp c l r) (opOf c) l r := by funext t; rw [tOne, if_neg hc]
        rw [this, show (shape (.cmp c l r)).size = 1 by cases c <;> first | rfl | exact absurd rfl hc]
        exact tCompare_moves hσ C _ _ l r
    | .field _ => nothing_moves hσ
    | .value _ => nothing_moves hσ
    | .regex _ => nothing_moves hσ
    | .pcre _ => nothing_moves hσ
    | .func _ _ => nothing_moves hσ
    | .time _ => nothing_moves hσ
    | .tru => nothing_moves hσ
    | .fals => nothing_moves hσ

  theorem tOr_moves (C : Comp E) : ∀ (es : Exprs E), Moves σ (shapes .or es).size (tOr C es)
    | .nil => panic_moves hσ _
    | .cons e .nil => by
      have : tOr C (.cons e .nil) = tOne C e := by funext t; rw [tOr]
      rw [this]; exact tOne_moves C e
    | .cons e (.cons e' r) => by
      have : tOr C (.cons e (.cons e' r)) = tBin .or (tOne C e) (tOr C (.cons e' r)) := by funext t; rw [tOr.eq_def]
      rw [this]; exact tBin_moves (tOne_moves C e) (tOr_moves C (.cons e' r))

  theorem tAnd_moves (C : Comp E) : ∀ (es : Exprs E), Moves σ (shapes .and es).size (tAnd C es)
    | .nil => panic_moves hσ _
    | .cons e .nil => by
      have : tAnd C (.cons e .nil) = tOne C e := by funext t; rw [tAnd]
      rw [this]; exact tOne_moves C e
    | .cons e (.cons e' r) => by
      have : tAnd C (.cons e (.cons e' r)) = tBin .and (tOne C e) (tAnd C (.cons e' r)) := by funext t; rw [tAnd.eq_def]
      rw [this]; exact tBin_moves (tOne_moves C e) (tAnd_moves C (.cons e' r))
end

end

end Verif.Transform
