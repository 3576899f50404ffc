import Verif.Transform.Model

/-!
# The decision tree built by Transform
-/

namespace Verif.Transform
open Verif.FastVal Verif.Match Verif.Expr
open Verif.BinTree (Tree Node NodeType Sh Shaped UnOp BinOp mergeSh mergeParts)

variable {E : Ext}

/-! ### Specification: the Boolean structure of an expression -/

mutual
  /-- Boolean structure: a comparison or test is an atomic condition, `!=` and `NOT EXISTS` are negations. -/
  def shape : Expr E → Sh
    | .loop _ _ _ s => .un .loop (shape s)
    | .not e => .un .not (shape e)
    | .or es => shapes .or es
    | .and es => shapes .and es
    | .notExist _ => .un .not .leaf
    | .cmp .ne _ _ => .un .not .leaf
    | _ => .leaf

  /-- A chain of conjunctions or disjunctions, nested to the right. -/
  def shapes (o : BinOp) : Exprs E → Sh
    | .nil => .leaf
    | .cons e .nil => shape e
    | .cons e (.cons e' es) => .bin o (shape e) (shapes o (.cons e' es))
end

/-! ### Everything but the tree operations leaves the tree alone -/

structure SameTree (t t' : T E) : Prop where
  tree : t'.tree = t.tree
  bk : t'.bucketIdx = t.bucketIdx
  ctx : t'.ctx = t.ctx
  active : t'.active = t.active

theorem SameTree.refl (t : T E) : SameTree t t := ⟨rfl, rfl, rfl, rfl⟩

theorem SameTree.trans {a b c : T E} (h : SameTree a b) (g : SameTree b c) : SameTree a c :=
  ⟨g.tree.trans h.tree, g.bk.trans h.bk, g.ctx.trans h.ctx, g.active.trans h.active⟩

theorem sameTree_root (t : T E) (r : Exec E) : SameTree t { t with root := r } := ⟨rfl, rfl, rfl, rfl⟩

theorem storeExecNode_same (t : T E) (a : Addr) : SameTree t (storeExecNode t a).1 := by
  simp only [storeExecNode, newSlot]
  split
  · exact ⟨rfl, rfl, rfl, rfl⟩
  · exact SameTree.refl t

theorem pickBase_same {t : T E} {e : Expr E} {b : T E × NRef} (h : pickBase t e = .ok b) : SameTree t b.1 := by
  simp only [pickBase] at h
  obtain ⟨fs, _, h⟩ := Res.bind_eq_ok.1 h
  obtain ⟨rs, _, h⟩ := Res.bind_eq_ok.1 h
  obtain ⟨x, _, h⟩ := Res.bind_eq_ok.1 h
  simp only [getExecNode] at h
  split at h <;> cases h <;> exact ⟨rfl, rfl, rfl, rfl⟩

theorem fieldRef_same (t : T E) (ctx : NRef) (r : RRef) : SameTree t (fieldRef t ctx r).1 := by
  simp only [fieldRef, getExecNode]
  split
  · exact ⟨rfl, rfl, rfl, rfl⟩
  · exact (sameTree_root t _).trans (storeExecNode_same _ _)

mutual
  theorem makeParam_same (C : Comp E) (t : T E) (ctx : NRef) : ∀ (e : Expr E) (r : T E × Ref E),
      makeParam C t ctx e = .ok r → SameTree t r.1
    | .field f, r, h => by
      rw [makeParam] at h
      obtain ⟨x, _, h⟩ := Res.bind_eq_ok.1 h
      cases h; exact fieldRef_same t ctx x
    | .value v, r, h => by rw [makeParam] at h; cases h; exact .refl t
    | .regex v, r, h => by
      rw [makeParam] at h
      obtain ⟨x, _, h⟩ := Res.bind_eq_ok.1 h
      split at h <;> cases h; exact .refl t
    | .pcre v, r, h => by
      rw [makeParam] at h
      obtain ⟨x, _, h⟩ := Res.bind_eq_ok.1 h
      split at h <;> cases h; exact .refl t
    | .time v, r, h => by
      rw [makeParam] at h
      obtain ⟨x, _, h⟩ := Res.bind_eq_ok.1 h
      split at h <;> cases h; exact .refl t
    | .func n ps, r, h => by
      rw [makeParam] at h
      obtain ⟨x, hx, h⟩ := Res.bind_eq_ok.1 h
      cases h; exact makeParams_same C t ctx ps x hx
    | .tru, r, h | .fals, r, h | .not _, r, h | .and _, r, h | .or _, r, h | .loop _ _ _ _, r, h
    | .exist _, r, h | .notExist _, r, h | .cmp _ _ _, r, h => by simp [makeParam] at h

  theorem makeParams_same (C : Comp E) (t : T E) (ctx : NRef) : ∀ (ps : Exprs E) (r : T E × Refs E),
      makeParams C t ctx ps = .ok r → SameTree t r.1
    | .nil, r, h => by rw [makeParams] at h; cases h; exact .refl t
    | .cons p ps, r, h => by
      rw [makeParams] at h
      obtain ⟨x, hx, h⟩ := Res.bind_eq_ok.1 h
      obtain ⟨y, hy, h⟩ := Res.bind_eq_ok.1 h
      cases h; exact (makeParam_same C t ctx p x hx).trans (makeParams_same C x.1 ctx ps y hy)
end

theorem makeDataRef_same {C : Comp E} {t : T E} {ctx : NRef} {e : Expr E} {r : T E × Option (Ref E)}
    (h : makeDataRef C t ctx e = .ok r) : SameTree t r.1 := by
  rw [makeDataRef] at h
  obtain ⟨x, hx, h⟩ := Res.bind_eq_ok.1 h
  have := makeParam_same C t ctx e x hx
  split at h <;> cases h <;> exact this

theorem addOp_same (t : T E) (n : NRef) (op : Op E) : SameTree t (n.addOp t op) := by
  cases n <;> exact ⟨rfl, rfl, rfl, rfl⟩

theorem addLoop_same {t t' : T E} {n : NRef} {b : Nat} {m : Mode} {g : Option (Ref E)} {e : Exec E}
    (h : n.addLoop t b m g e = .ok t') : SameTree t t' := by
  cases n with
  | node a => cases g <;> simp only [NRef.addLoop] at h <;> cases h; exact ⟨rfl, rfl, rfl, rfl⟩
  | after a =>
    cases g with
    | none => simp [NRef.addLoop] at h
    | some r => cases r <;> simp only [NRef.addLoop] at h <;> cases h; exact ⟨rfl, rfl, rfl, rfl⟩

theorem tExists_same {C : Comp E} {e : Expr E} {t t' : T E} (h : tExists C e t = .ok t') : SameTree t t' := by
  rw [tExists] at h
  obtain ⟨b, hb, h⟩ := Res.bind_eq_ok.1 h
  obtain ⟨l, hl, h⟩ := Res.bind_eq_ok.1 h
  cases h
  exact ((pickBase_same hb).trans (makeDataRef_same hl)).trans (addOp_same _ _ _)

theorem tCompare_same {C : Comp E} {w : Expr E} {op : OpTy} {l r : Expr E} {t t' : T E}
    (h : tCompare C w op l r t = .ok t') : SameTree t t' := by
  rw [tCompare] at h
  obtain ⟨b, hb, h⟩ := Res.bind_eq_ok.1 h
  obtain ⟨x, hx, h⟩ := Res.bind_eq_ok.1 h
  obtain ⟨y, hy, h⟩ := Res.bind_eq_ok.1 h
  cases h
  exact (((pickBase_same hb).trans (makeDataRef_same hx)).trans (makeDataRef_same hy)).trans (addOp_same _ _ _)

/-! ### Growing the tree -/

/-- Before an expression is transformed: its bucket is the last node of the tree, a leaf. -/
structure Start (t : T E) (par : Nat) : Prop where
  len : t.tree.length = t.active + 1
  bk : t.bucketIdx = t.tree.length
  node : t.tree[t.active]? = some ⟨.leaf, par, 0, 0⟩

/-- After it: the shape has been laid out from its bucket on; what comes before is as it was. -/
structure Grown (t t' : T E) (s : Sh) (par : Nat) : Prop where
  len : t'.tree.length = t.active + s.size
  bk : t'.bucketIdx = t'.tree.length
  shaped : Shaped t'.tree s t.active par
  before : ∀ j, j < t.active → t'.tree[j]? = t.tree[j]?
  ctx : t'.ctx = t.ctx

theorem shaped_mono {t t' : Tree} : ∀ (s : Sh) (b par : Nat), (∀ j, b ≤ j → j < b + s.size → t'[j]? = t[j]?) →
    Shaped t s b par → Shaped t' s b par
  | .leaf, b, par, h, hs => by
    have := h b (Nat.le_refl b) (by simp [Sh.size])
    simp only [Shaped] at *; rw [this]; exact hs
  | .un o a, b, par, h, hs => by
    simp only [Shaped, Sh.size] at *
    refine ⟨by rw [h b (Nat.le_refl b) (by omega)]; exact hs.1, ?_⟩
    exact shaped_mono a (b + 1) b (fun j h1 h2 => h j (by omega) (by omega)) hs.2
  | .bin o a c, b, par, h, hs => by
    simp only [Shaped, Sh.size] at *
    refine ⟨by rw [h b (Nat.le_refl b) (by omega)]; exact hs.1, ?_, ?_⟩
    · exact shaped_mono a (b + 1) b (fun j h1 h2 => h j (by omega) (by omega)) hs.2.1
    · exact shaped_mono c (b + 1 + a.size) b (fun j h1 h2 => h j (by omega) (by omega)) hs.2.2

theorem grown_leaf {t t' : T E} {par : Nat} (hs : Start t par) (h : SameTree t t') : Grown t t' .leaf par where
  len := by rw [h.tree, hs.len]; rfl
  bk := by rw [h.bk, h.tree, hs.bk]
  shaped := by rw [h.tree]; exact hs.node
  before := fun j _ => by rw [h.tree]
  ctx := h.ctx

theorem modNode_eq {t : T E} {i : Nat} {n : Node} {f : Node → Node} (h : t.tree[i]? = some n) :
    modNode t i f = .ok { t with tree := t.tree.set i (f n) } := by
  simp [modNode, Res.idx_of_some h]

/-- The state in which the child of a node is transformed. -/
theorem first_child {t : T E} {par : Nat} {ty : NodeType} (hs : Start t par) :
    ∃ t1, (setTy t t.active ty >>= fun t' => setLeft (newBucket t') t.active (newBucket t').active) = .ok t1 ∧
      t1.active = t.active + 1 ∧ Start t1 t.active ∧ t1.ctx = t.ctx ∧ t1.root = t.root ∧ t1.slotIdx = t.slotIdx ∧
      t1.tree[t.active]? = some ⟨ty, par, t.active + 1, 0⟩ ∧ ∀ j, j < t.active → t1.tree[j]? = t.tree[j]? := by
  have hl := hs.len
  have h1 : t.active < t.tree.length := by omega
  rw [setTy, modNode_eq hs.node, Res.bind_ok, setLeft]
  rw [modNode_eq (n := ⟨ty, par, 0, 0⟩) (by simp [newBucket, List.getElem?_append, h1])]
  refine ⟨_, rfl, ?_, ⟨?_, ?_, ?_⟩, rfl, rfl, rfl, ?_, ?_⟩
  · simp [newBucket, hs.bk, hl]
  · simp [newBucket, hs.bk, hl]
  · simp [newBucket, hs.bk]
  · simp only [newBucket, hs.bk, hl]
    rw [List.getElem?_set_ne (by omega)]
    simp [List.getElem?_append, hl]
  · simp only [newBucket]
    rw [List.getElem?_set_self (by simp; omega), hs.bk, hl]
  · intro j hj
    simp only [newBucket]
    rw [List.getElem?_set_ne (by omega), List.getElem?_append_left (by simp; omega), List.getElem?_set_ne (by omega)]

theorem ty_un : ∀ o : UnOp, o.ty = (match o with | .not => NodeType.not | .loop => NodeType.loop) := by
  intro o; cases o <;> rfl

/-- Wrapping the growth of a child. -/
theorem grown_un {t t1 t2 : T E} {par : Nat} {o : UnOp} {a : Sh}
    (ha : t1.active = t.active + 1)
    (hn : t1.tree[t.active]? = some ⟨o.ty, par, t.active + 1, 0⟩) (hc : t2.ctx = t.ctx)
    (hb : ∀ j, j < t.active → t1.tree[j]? = t.tree[j]?) (hg : Grown t1 t2 a t.active) : Grown t t2 (.un o a) par where
  len := by rw [hg.len, ha]; simp [Sh.size]; omega
  bk := hg.bk
  shaped := by
    refine ⟨?_, ?_⟩
    · rw [hg.before _ (by omega), hn]
    · have := hg.shaped; rwa [ha] at this
  before := fun j hj => by rw [hg.before j (by omega), hb j hj]
  ctx := hc

theorem tNot_grown {f : T E → Res (T E)} {a : Sh} {t t' : T E} {par : Nat} (hs : Start t par)
    (hf : ∀ t1 t2, Start t1 t.active → f t1 = .ok t2 → Grown t1 t2 a t.active)
    (h : tNot f t = .ok t') : Grown t t' (.un .not a) par := by
  obtain ⟨t1, e1, ha, hs1, hc, _, _, hn, hb⟩ := first_child (ty := .not) hs
  have h' : (setTy t t.active .not >>= fun t' => setLeft (newBucket t') t.active (newBucket t').active) >>= f = .ok t' := by
    rw [tNot] at h
    obtain ⟨x, hx, h⟩ := Res.bind_eq_ok.1 h
    rw [hx]; exact h
  rw [e1, Res.bind_ok] at h'
  have hg := hf t1 t' hs1 h'
  exact grown_un ha hn (hg.ctx.trans hc) hb hg

/-- Completing a node with two children once the first has been transformed. -/
theorem second_child {t t1 t2 : T E} {par : Nat} {o : BinOp} {a : Sh}
    (ha : t1.active = t.active + 1) (hn : t1.tree[t.active]? = some ⟨o.ty, par, t.active + 1, 0⟩)
    (hb : ∀ j, j < t.active → t1.tree[j]? = t.tree[j]?) (hg : Grown t1 t2 a t.active) :
    ∃ t3, setRight (newBucket { t2 with active := t.active }) t.active (newBucket { t2 with active := t.active }).active = .ok t3 ∧
      t3.active = t.active + 1 + a.size ∧ Start t3 t.active ∧ t3.ctx = t2.ctx ∧ t3.root = t2.root ∧ t3.slotIdx = t2.slotIdx ∧
      t3.tree[t.active]? = some ⟨o.ty, par, t.active + 1, t.active + 1 + a.size⟩ ∧ Shaped t3.tree a (t.active + 1) t.active ∧
      ∀ j, j < t.active → t3.tree[j]? = t.tree[j]? := by
  have hl := hg.len
  have hpos := BinTree.Sh.size_pos a
  have hlt : t.active < t2.tree.length := by omega
  have hbk := hg.bk
  have h2 : t2.tree[t.active]? = some ⟨o.ty, par, t.active + 1, 0⟩ := by rw [hg.before _ (by omega), hn]
  rw [setRight, modNode_eq (n := ⟨o.ty, par, t.active + 1, 0⟩) (by
    simp only [newBucket]; rw [List.getElem?_append_left hlt, h2])]
  refine ⟨_, rfl, ?_, ⟨?_, ?_, ?_⟩, rfl, rfl, rfl, ?_, ?_, ?_⟩
  · simp [newBucket, hbk, hl, ha]
  · simp [newBucket, hbk]
  · simp [newBucket, hbk]
  · simp only [newBucket, hbk]
    rw [List.getElem?_set_ne (by omega), List.getElem?_append_right (by omega)]
    simp
  · simp only [newBucket]
    rw [List.getElem?_set_self (by simp; omega), hbk, hl, ha]
  · refine shaped_mono (t := t2.tree) a _ _ (fun j h1 h2 => ?_) (by have := hg.shaped; rwa [ha] at this)
    simp only [newBucket]
    rw [List.getElem?_set_ne (by omega), List.getElem?_append_left (by omega)]
  · intro j hj
    simp only [newBucket]
    rw [List.getElem?_set_ne (by omega), List.getElem?_append_left (by omega), hg.before j (by omega), hb j hj]

theorem grown_bin {t t3 t4 : T E} {par : Nat} {o : BinOp} {a c : Sh}
    (ha : t3.active = t.active + 1 + a.size)
    (hn : t3.tree[t.active]? = some ⟨o.ty, par, t.active + 1, t.active + 1 + a.size⟩)
    (hsh : Shaped t3.tree a (t.active + 1) t.active) (hc : t4.ctx = t.ctx)
    (hb : ∀ j, j < t.active → t3.tree[j]? = t.tree[j]?) (hg : Grown t3 t4 c t.active) : Grown t t4 (.bin o a c) par where
  len := by rw [hg.len, ha]; simp [Sh.size]; omega
  bk := hg.bk
  shaped := by
    refine ⟨?_, ?_, ?_⟩
    · rw [hg.before _ (by omega), hn]
    · exact shaped_mono (t := t3.tree) a _ _ (fun j _ h2 => hg.before j (by omega)) hsh
    · have := hg.shaped; rwa [ha] at this
  before := fun j hj => by rw [hg.before j (by omega), hb j hj]
  ctx := hc

theorem tBin_grown {o : BinOp} {f g : T E → Res (T E)} {a c : Sh} {t t' : T E} {par : Nat} (hs : Start t par)
    (hf : ∀ t1 t2, Start t1 t.active → f t1 = .ok t2 → Grown t1 t2 a t.active)
    (hg : ∀ t1 t2, Start t1 t.active → g t1 = .ok t2 → Grown t1 t2 c t.active)
    (h : tBin o.ty f g t = .ok t') : Grown t t' (.bin o a c) par := by
  obtain ⟨t1, e1, ha, hs1, hc, _, _, hn, hb⟩ := first_child (ty := o.ty) hs
  have h' : ((setTy t t.active o.ty >>= fun t' => setLeft (newBucket t') t.active (newBucket t').active) >>= f) >>=
      (fun t2 => setRight (newBucket { t2 with active := t.active }) t.active (newBucket { t2 with active := t.active }).active >>= g) =
      .ok t' := by
    rw [tBin] at h
    obtain ⟨x, hx, h⟩ := Res.bind_eq_ok.1 h
    obtain ⟨y, hy, h⟩ := Res.bind_eq_ok.1 h
    rw [hx, Res.bind_ok, hy]; exact h
  rw [e1, Res.bind_ok] at h'
  obtain ⟨t2, e2, h'⟩ := Res.bind_eq_ok.1 h'
  have hg1 := hf t1 t2 hs1 e2
  obtain ⟨t3, e3, ha3, hs3, hc3, _, _, hn3, hsh3, hb3⟩ := second_child (o := o) ha hn hb hg1
  rw [e3, Res.bind_ok] at h'
  have hg2 := hg t3 t' hs3 h'
  exact grown_bin ha3 hn3 hsh3 (hg2.ctx.trans (hc3.trans (hg1.ctx.trans hc))) hb3 hg2

theorem tLoop_grown {C : Comp E} {w : Expr E} {m : Mode} {v : Int} {i : Expr E} {f : T E → Res (T E)} {a : Sh} {t t' : T E}
    {par : Nat} (hs : Start t par)
    (hf : ∀ t1 t2, Start t1 t.active → f t1 = .ok t2 → Grown t1 t2 a t.active)
    (h : tLoop C w m v i f t = .ok t') : Grown t t' (.un .loop a) par := by
  rw [tLoop] at h
  obtain ⟨b, hb, h⟩ := Res.bind_eq_ok.1 h
  obtain ⟨r, hr, h⟩ := Res.bind_eq_ok.1 h
  have hsame := (pickBase_same hb).trans (makeDataRef_same hr)
  have hs0 : Start r.1 par := ⟨by rw [hsame.tree, hsame.active, hs.len], by rw [hsame.bk, hsame.tree, hs.bk],
    by rw [hsame.tree, hsame.active, hs.node]⟩
  obtain ⟨t1, e1, ha, hs1, hc, _, _, hn, hb1⟩ := first_child (ty := .loop) hs0
  obtain ⟨x, hx, h⟩ := Res.bind_eq_ok.1 h
  rw [hx, Res.bind_ok] at e1
  obtain ⟨y, hy, h⟩ := Res.bind_eq_ok.1 h
  rw [hy] at e1; cases e1
  obtain ⟨z, hz, h⟩ := Res.bind_eq_ok.1 h
  have hz' := addLoop_same hz
  obtain ⟨u, hu, h⟩ := Res.bind_eq_ok.1 h
  have hact := hsame.active
  rw [hact] at ha hs1 hn hb1
  have hg := hf _ u ⟨by simp only; rw [hz'.tree, hz'.active, hs1.len], by simp only; rw [hz'.bk, hz'.tree, hs1.bk],
    by simp only; rw [hz'.tree, hz'.active, hs1.node]⟩ hu
  have hctx := hg.ctx
  simp only at hctx
  rw [hctx] at h
  simp only [ne_eq, not_true_eq_false, if_false] at h
  cases h
  refine grown_un (t1 := z) (o := .loop) (by rw [hz'.active, ha]) (by rw [hz'.tree, hn]; rfl) ?_ ?_ ?_
  · simp only; rw [hz'.ctx, hc, hsame.ctx]
  · intro j hj; rw [hz'.tree, hb1 j hj, hsame.tree]
  · exact ⟨hg.len, hg.bk, hg.shaped, hg.before, rfl⟩

mutual
  theorem tOne_grown (C : Comp E) : ∀ (e : Expr E) (t t' : T E) (par : Nat), Start t par → tOne C e t = .ok t' →
      Grown t t' (shape e) par
    | .loop m v i s, t, t', par, hs, h => by
      rw [tOne] at h; rw [shape]
      exact tLoop_grown hs (fun t1 t2 h1 h2 => tOne_grown C s t1 t2 _ h1 h2) h
    | .not e, t, t', par, hs, h => by
      rw [tOne] at h; rw [shape]
      exact tNot_grown hs (fun t1 t2 h1 h2 => tOne_grown C e t1 t2 _ h1 h2) h
    | .or es, t, t', par, hs, h => by rw [tOne] at h; rw [shape]; exact tOr_grown C es t t' par hs h
    | .and es, t, t', par, hs, h => by rw [tOne] at h; rw [shape]; exact tAnd_grown C es t t' par hs h
    | .exist e, t, t', par, hs, h => by
      rw [tOne] at h; simp only [shape]
      exact grown_leaf hs (tExists_same h)
    | .notExist e, t, t', par, hs, h => by
      rw [tOne] at h; rw [shape]
      exact tNot_grown hs (fun t1 t2 h1 h2 => grown_leaf h1 (tExists_same h2)) h
    | .cmp c l r, t, t', par, hs, h => by
      rw [tOne] at h
      by_cases hc : c = .ne
      · subst hc
        rw [if_pos rfl] at h; rw [shape]
        exact tNot_grown hs (fun t1 t2 h1 h2 => grown_leaf h1 (tCompare_same h2)) h
      · rw [if_neg hc] at h
        have : shape (.cmp c l r : Expr E) = .leaf := by cases c <;> first | exact absurd rfl hc | simp [shape]
        rw [this]
        exact grown_leaf hs (tCompare_same h)
    | .tru, t, t', par, hs, h | .fals, t, t', par, hs, h | .value _, t, t', par, hs, h | .time _, t, t', par, hs, h
    | .regex _, t, t', par, hs, h | .pcre _, t, t', par, hs, h | .field _, t, t', par, hs, h | .func _ _, t, t', par, hs, h => by
      simp only [tOne, Res.ok.injEq] at h
      subst h
      simp only [shape]
      exact grown_leaf hs (.refl t)

  theorem tOr_grown (C : Comp E) : ∀ (es : Exprs E) (t t' : T E) (par : Nat), Start t par → tOr C es t = .ok t' →
      Grown t t' (shapes .or es) par
    | .nil, t, t', par, hs, h => by rw [tOr] at h; simp at h
    | .cons e .nil, t, t', par, hs, h => by
      rw [tOr] at h; rw [shapes]; exact tOne_grown C e t t' par hs h
    | .cons e (.cons e' es), t, t', par, hs, h => by
      rw [tOr.eq_def] at h; simp only at h; rw [shapes]
      exact tBin_grown (o := .or) hs (fun t1 t2 h1 h2 => tOne_grown C e t1 t2 _ h1 h2)
        (fun t1 t2 h1 h2 => tOr_grown C (.cons e' es) t1 t2 _ h1 h2) h

  theorem tAnd_grown (C : Comp E) : ∀ (es : Exprs E) (t t' : T E) (par : Nat), Start t par → tAnd C es t = .ok t' →
      Grown t t' (shapes .and es) par
    | .nil, t, t', par, hs, h => by rw [tAnd] at h; simp at h
    | .cons e .nil, t, t', par, hs, h => by
      rw [tAnd] at h; rw [shapes]; exact tOne_grown C e t t' par hs h
    | .cons e (.cons e' es), t, t', par, hs, h => by
      rw [tAnd.eq_def] at h; simp only at h; rw [shapes]
      exact tBin_grown (o := .and) hs (fun t1 t2 h1 h2 => tOne_grown C e t1 t2 _ h1 h2)
        (fun t1 t2 h1 h2 => tAnd_grown C (.cons e' es) t1 t2 _ h1 h2) h
end

/-! ### Merging -/

theorem tMerge_grown (C : Comp E) : ∀ (e : Expr E) (es : List (Expr E)) (t : T E) (r : T E × List Nat) (par : Nat), Start t par →
    tMerge C (e :: es) t = .ok r → Grown t r.1 (mergeSh (shape e) (es.map shape)) par ∧
      r.2 = (mergeParts (shape e) (es.map shape) t.active).map Prod.snd
  | e, [], t, r, par, hs, h => by
    rw [tMerge] at h
    obtain ⟨t', ht', h⟩ := Res.bind_eq_ok.1 h
    cases h
    exact ⟨tOne_grown C e t t' par hs ht', rfl⟩
  | e, e' :: es, t, r, par, hs, h => by
    rw [tMerge] at h
    obtain ⟨t1, e1, ha, hs1, hc, _, _, hn, hb⟩ := first_child (ty := .neor) hs
    obtain ⟨x, hx, h⟩ := Res.bind_eq_ok.1 h
    rw [hx, Res.bind_ok] at e1
    obtain ⟨y, hy, h⟩ := Res.bind_eq_ok.1 h
    have hy1 := Res.ok.inj (hy.symm.trans e1); subst hy1
    obtain ⟨t2, e2, h⟩ := Res.bind_eq_ok.1 h
    have hid : (newBucket x).active = t.active + 1 := by
      rw [setLeft, modNode] at hy
      obtain ⟨_, _, hy⟩ := Res.bind_eq_ok.1 hy
      cases hy; exact ha
    have hg1 := tOne_grown C e y t2 _ hs1 e2
    obtain ⟨t3, e3, ha3, hs3, hc3, _, _, hn3, hsh3, hb3⟩ := second_child (o := .neor) ha hn hb hg1
    obtain ⟨z, hz, h⟩ := Res.bind_eq_ok.1 h
    have hz1 := Res.ok.inj (hz.symm.trans e3); subst hz1
    obtain ⟨q, hq, h⟩ := Res.bind_eq_ok.1 h
    cases h
    obtain ⟨g1, g2⟩ := tMerge_grown C e' es z q _ hs3 hq
    refine ⟨?_, ?_⟩
    · exact grown_bin ha3 hn3 hsh3 (g1.ctx.trans (hc3.trans (hg1.ctx.trans hc))) hb3 g1
    · simp only [List.map_cons, mergeParts]
      rw [g2, hid, ha3]

/-- The state `Transform` starts from. -/
def initT (slot0 : Nat) : T E :=
  { slotIdx := slot0, bucketIdx := 1, root := emptyExec, tree := [⟨.leaf, 0, 0, 0⟩], ctx := [], active := 0 }

theorem initT_start (slot0 : Nat) : Start (initT slot0 : T E) 0 := ⟨rfl, rfl, rfl⟩

theorem validate_shaped {t : Tree} {s : Sh} (hs : Shaped t s 0 0) (hlen : t.length = s.size) : BinTree.validate t = .ok true := by
  simp only [BinTree.validate, BinTree.validateItem_complete hs (t.length + 1) (by omega), Res.bind_ok]
  simp [hlen]

/-- What `Transform` returns when it has something to transform: the checks at its end always succeed. -/
theorem transform_cons (C : Comp E) (slot0 : Nat) (es : List (Expr E)) {g : Expr E} {gs : List (Expr E)} (hg : genExprs es = g :: gs) :
    transform C slot0 es = (tMerge C (g :: gs) (initT slot0) >>= fun r =>
      .ok { parse := some r.1.root, tree := r.1.tree, buckets := bucketIds es r.2, numSlots := r.1.slotIdx }) := by
  rw [transform, hg]
  simp only
  change (tMerge C (g :: gs) (initT slot0) >>= _) = _
  cases hm : tMerge C (g :: gs) (initT slot0) with
  | panic => rfl
  | stuck => rfl
  | ok r =>
    have h := (tMerge_grown C g gs (initT slot0) r 0 (initT_start slot0) hm).1
    have hv := validate_shaped h.shaped (by have := h.len; simpa [initT] using this)
    have hbk := h.bk
    simp [hv, hbk]

end Verif.Transform
