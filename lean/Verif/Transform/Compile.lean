import Verif.Transform.Items
import Verif.Expr.Theorems

/-!
# Compiling conditions on one field

Expressions whose conditions each read one field of the document or of the innermost loop variable.  `ins` says what
transforming such an expression adds to the node of its context; `tOne_ins` shows that the transformer does that.
-/

namespace Verif.Transform
open Verif.FastVal Verif.Match Verif.Expr
open Verif.BinTree (Sh)

variable {E : Ext}

/-! ### Specification: the expressions -/

mutual
  /-- The path of a field mentioned in a parameter expression. -/
  def fieldPath : Expr E → Option Path
    | .field f => some f.path
    | .func _ ps => fieldPaths ps
    | _ => none
  def fieldPaths : Exprs E → Option Path
    | .nil => none
    | .cons e r => (fieldPath e).or (fieldPaths r)
end

/-- The path a condition is about; without any field, the context itself. -/
def condPath (l r : Expr E) : Path := ((fieldPath l).or (fieldPath r)).getD []

mutual
  /-- Constants (whose patterns and times are valid), functions of parameters, and the field `p` of the variable `v`. -/
  def Param (C : Comp E) (v : Int) (p : Path) : Expr E → Prop
    | .field f => f = ⟨v, p⟩
    | .value _ => True
    | .regex g => ∃ s r, g = .json (.str s) ∧ C.regexp s = some r
    | .pcre g => ∃ s r, g = .json (.str s) ∧ C.pcre s = some r
    | .time g => ∃ s x, g = .json (.str s) ∧ E.parseTime s = some x
    | .func _ ps => Params C v p ps
    | _ => False
  def Params (C : Comp E) (v : Int) (p : Path) : Exprs E → Prop
    | .nil => True
    | .cons e r => Param C v p e ∧ Params C v p r
end

/-- The path of an expression that is a field. -/
def inPath : Expr E → Path
  | .field f => f.path
  | _ => []

mutual
  /-- Boolean combinations of conditions on one field of the variable `v` each, and of loops over a field of `v` whose bodies are
  of this form for the loop's variable.  Inside loops there is no `NOT EXISTS` and no constant (`fetchExprFieldRefs` does not know
  them). -/
  def Frag (C : Comp E) (v : Int) : Expr E → Prop
    | .cmp _ l r => Param C v (condPath l r) l ∧ Param C v (condPath l r) r
    | .exist e => Param C v (condPath e e) e
    | .notExist e => Param C v (condPath e e) e
    | .not e => Frag C v e
    | .and es => Frags C v es
    | .or es => Frags C v es
    | .loop _ w i s => i = .field ⟨v, inPath i⟩ ∧ w ≠ 0 ∧ s.Plain ∧ Frag C w s
    | .tru => v = 0
    | .fals => v = 0
    | _ => False

  /-- At least one expression, all of this form. -/
  def Frags (C : Comp E) (v : Int) : Exprs E → Prop
    | .nil => False
    | .cons e .nil => Frag C v e
    | .cons e (.cons e' r) => Frag C v e ∧ Frags C v (.cons e' r)
end

/-! ### What compilation adds -/

mutual
  /-- The reference for a parameter. -/
  def refOf (C : Comp E) : Expr E → Ref E
    | .field _ => .lit
    | .value v => .val (constOf v)
    | .regex (.json (.str s)) => match C.regexp s with
      | some r => .val ⟨.regex r, true⟩
      | none => .lit
    | .pcre (.json (.str s)) => match C.pcre s with
      | some r => .val ⟨.pcre r, true⟩
      | none => .lit
    | .time (.json (.str s)) => match E.parseTime s with
      | some x => .val ⟨.time x, true⟩
      | none => .lit
    | .func n ps => .fn (fnameOf n) (refsOf C ps)
    | _ => .lit
  def refsOf (C : Comp E) : Exprs E → Refs E
    | .nil => .nil
    | .cons e r => .cons (refOf C e) (refsOf C r)
end

/-- One side of a comparison. -/
def sideOf (C : Comp E) : Expr E → Option (Ref E)
  | .field _ => none
  | e => some (refOf C e)

def keys (p : Path) : Addr := p.map Step.key

mutual
  /-- What the expression with bucket `b` adds to the node of its context. -/
  def ins (C : Comp E) : Expr E → Nat → Exec E → Exec E
    | .cmp c l r, b => update (keys (condPath l r))
        (addOp ⟨if c = .ne then b + 1 else b, opOf c, sideOf C l, sideOf C r⟩)
    | .exist e, b => update (keys (condPath e e)) (addOp ⟨b, .exists_, sideOf C e, none⟩)
    | .notExist e, b => update (keys (condPath e e)) (addOp ⟨b + 1, .exists_, sideOf C e, none⟩)
    | .not e, b => ins C e (b + 1)
    | .and es, b => insAll C es b
    | .or es, b => insAll C es b
    | .loop m _ i s, b => update (keys (inPath i)) (addBody (b + 1) m (ins C s (b + 1)))
    | _, _ => id
  def insAll (C : Comp E) : Exprs E → Nat → Exec E → Exec E
    | .nil, _ => id
    | .cons e .nil, b => ins C e b
    | .cons e (.cons e' r), b => fun n => insAll C (.cons e' r) (b + 1 + (shape e).size) (ins C e (b + 1) n)
end

/-! ### Field references -/

mutual
  theorem param_plain {C : Comp E} {v : Int} {p : Path} : ∀ (e : Expr E), Param C v p e → e.Plain
    | .func _ ps, h => by rw [Expr.Plain]; exact params_plain ps h
    | .field _, _ | .value _, _ | .regex _, _ | .pcre _, _ | .time _, _ => by simp [Expr.Plain]
    | .tru, h | .fals, h | .not _, h | .and _, h | .or _, h | .loop .., h | .exist _, h | .notExist _, h | .cmp .., h => by
      simp [Param] at h
  theorem params_plain {C : Comp E} {v : Int} {p : Path} : ∀ (es : Exprs E), Params C v p es → es.Plain
    | .nil, _ => trivial
    | .cons e r, h => ⟨param_plain e h.1, params_plain r h.2⟩
end

mutual
  theorem param_free {C : Comp E} {v : Int} {p : Path} : ∀ (e : Expr E), Param C v p e → ∀ f, Free e f → f = ⟨v, p⟩
    | .func _ ps, h, f, hf => by cases hf with | func hf => exact params_free ps h f hf
    | .field g, h, f, hf => by cases hf; exact h
    | .value _, _, _, hf | .regex _, _, _, hf | .pcre _, _, _, hf | .time _, _, _, hf => nomatch hf
    | .tru, h, _, _ | .fals, h, _, _ | .not _, h, _, _ | .and _, h, _, _ | .or _, h, _, _ | .loop .., h, _, _
    | .exist _, h, _, _ | .notExist _, h, _, _ | .cmp .., h, _, _ => by simp [Param] at h
  theorem params_free {C : Comp E} {v : Int} {p : Path} : ∀ (es : Exprs E), Params C v p es → ∀ f, FreeAny es f → f = ⟨v, p⟩
    | .nil, _, _, hf => nomatch hf
    | .cons e r, h, f, hf => by
      cases hf with
      | head hf => exact param_free e h.1 f hf
      | tail hf => exact params_free r h.2 f hf
end

mutual
  theorem fieldPath_free {C : Comp E} {v : Int} {p : Path} : ∀ (e : Expr E), Param C v p e → fieldPath e ≠ none → Free e ⟨v, p⟩
    | .func _ ps, h, hp => by rw [fieldPath] at hp; exact .func (fieldPaths_free ps h hp)
    | .field g, h, _ => by rw [show g = ⟨v, p⟩ from h]; exact .field _
    | .value _, _, hp | .regex _, _, hp | .pcre _, _, hp | .time _, _, hp => by simp [fieldPath] at hp
    | .tru, h, _ | .fals, h, _ | .not _, h, _ | .and _, h, _ | .or _, h, _ | .loop .., h, _
    | .exist _, h, _ | .notExist _, h, _ | .cmp .., h, _ => by simp [Param] at h
  theorem fieldPaths_free {C : Comp E} {v : Int} {p : Path} : ∀ (es : Exprs E), Params C v p es → fieldPaths es ≠ none →
      FreeAny es ⟨v, p⟩
    | .nil, _, hp => by simp [fieldPaths] at hp
    | .cons e r, h, hp => by
      rw [fieldPaths] at hp
      by_cases h1 : fieldPath e = none
      · rw [h1, Option.none_or] at hp; exact .tail (fieldPaths_free r h.2 hp)
      · exact .head (fieldPath_free e h.1 h1)
end

mutual
  theorem frag_free {C : Comp E} : ∀ (v : Int) (e : Expr E), Frag C v e → ∀ f, Free e f → f.root = v
    | v, .cmp c l r, h, f, hf => by
      cases hf with
      | cmpL hf => rw [param_free l h.1 f hf]
      | cmpR hf => rw [param_free r h.2 f hf]
    | v, .exist e, h, f, hf => by cases hf with | exist hf => rw [param_free e h f hf]
    | v, .notExist e, h, f, hf => by cases hf with | notExist hf => rw [param_free e h f hf]
    | v, .not e, h, f, hf => by cases hf with | not hf => exact frag_free v e h f hf
    | v, .and es, h, f, hf => by cases hf with | and hf => exact frags_free v es h f hf
    | v, .or es, h, f, hf => by cases hf with | or hf => exact frags_free v es h f hf
    | v, .loop m w i s, h, f, hf => by
      cases hf with
      | loopIn hf => rw [h.1] at hf; cases hf; rfl
      | loopBody hf hv => exact absurd (frag_free w s h.2.2.2 f hf) hv
    | v, .tru, h, _, hf | v, .fals, h, _, hf => by cases hf
    | v, .value _, h, _, _ | v, .regex _, h, _, _ | v, .pcre _, h, _, _
    | v, .time _, h, _, _ | v, .field _, h, _, _ | v, .func .., h, _, _ => by simp [Frag] at h
  theorem frags_free {C : Comp E} : ∀ (v : Int) (es : Exprs E), Frags C v es → ∀ f, FreeAny es f → f.root = v
    | v, .cons e .nil, h, f, hf => by
      cases hf with
      | head hf => rw [Frags] at h; exact frag_free v e h f hf
      | tail hf => cases hf
    | v, .cons e (.cons e' r), h, f, hf => by
      rw [Frags] at h
      cases hf with
      | head hf => exact frag_free v e h.1 f hf
      | tail hf => exact frags_free v (.cons e' r) h.2 f hf
end

/-- The field references when there is at most one. -/
theorem fieldRefs_one {e : Expr E} {f0 : Field} (hp : e.Plain) (hall : ∀ f, Free e f → f = f0) :
    fieldRefs e = .ok [] ∧ (∀ f, ¬ Free e f) ∨ fieldRefs e = .ok [f0] := by
  obtain ⟨fs, h1, h2, h3⟩ := fetch_adds [] e hp []
  have hn := h3 List.nodup_nil
  rw [fieldRefs, h1]
  match fs, h2, hn with
  | [], h2, _ => exact Or.inl ⟨rfl, fun f hf => by have := (h2 f).2 (Or.inr ⟨hf, by simp⟩); cases this⟩
  | [f], h2, _ =>
    refine Or.inr ?_
    have := (h2 f).1 (by simp)
    rw [hall f (by simpa using this)]
  | f :: g :: r, h2, hn =>
    exfalso
    have a := (h2 f).1 (by simp)
    have b := (h2 g).1 (by simp)
    have e1 := hall f (by simpa using a)
    have e2 := hall g (by simpa using b)
    rw [e1, e2] at hn
    simp at hn

/-! ### The base node -/

/-- The innermost context belongs to the variable `v` and its node is at `A`. -/
def InCtx (t : T E) (v : Int) (A : Addr) : Prop :=
  (v = 0 ∧ t.ctx = [] ∧ A = []) ∨ (v ≠ 0 ∧ ∃ rest, t.ctx = (v, A) :: rest)

theorem InCtx.get {t : T E} {v : Int} {A : Addr} (h : InCtx t v A) : getContext t v = .ok (currentContext t) ∧
    (currentContext t).getD [] = A := by
  rcases h with ⟨rfl, h, rfl⟩ | ⟨hv, rest, h⟩
  · simp [getContext, currentContext, h]
  · simp [getContext, currentContext, h, hv]

theorem InCtx.of_ctx {t t' : T E} {v : Int} {A : Addr} (h : InCtx t v A) (hc : t'.ctx = t.ctx) : InCtx t' v A := by
  unfold InCtx; rw [hc]; exact h

theorem commonPath_one (p : Path) : ∀ (q pre : Path), p = pre ++ q → commonPath [p] pre.length q = .ok q
  | [], pre, h => rfl
  | k :: q, pre, h => by
    rw [commonPath]
    have h1 : allAt pre.length k [p] = .ok true := by
      rw [allAt, if_neg (by rw [h]; simp), Res.idx_of_some (a := k) (by rw [h]; simp)]
      simp [allAt]
    have := commonPath_one p q (pre ++ [k]) (by rw [h]; simp)
    rw [List.length_append, List.length_singleton] at this
    simp [h1, this]

theorem pickBase_one {t : T E} {v : Int} {A : Addr} (hc : InCtx t v A) {e : Expr E} {p : Path} (hp : e.Plain)
    (hall : ∀ f, Free e f → f = ⟨v, p⟩) (hsome : p ≠ [] → Free e ⟨v, p⟩) :
    pickBase t e = .ok ({ t with root := update (A ++ keys p) id t.root }, .node (A ++ keys p)) := by
  obtain ⟨g1, g2⟩ := hc.get
  rcases fieldRefs_one hp hall with ⟨h, hno⟩ | h
  · have hp0 : p = [] := by
      apply Classical.byContradiction
      intro hp'; exact hno _ (hsome hp')
    subst hp0
    simp only [pickBase, h, Res.bind_ok, resolveRefs, findBestRoot, List.filter_nil, List.map_nil]
    simp [getExecNode, RRef.addr, g2, keys]
  · have hcp : commonPath [p] 0 p = .ok p := commonPath_one p p [] rfl
    simp only [pickBase, h, Res.bind_ok, resolveRefs, resolveRef, g1, findBestRoot]
    simp [getExecNode, RRef.addr, g2, keys, longest, hcp]

/-! ### References -/

theorem fieldRef_same' {t : T E} {a : Addr} {r : RRef} (hr : r.addr = a) (hroot : update a id t.root = t.root) :
    fieldRef t (.node a) r = (t, .lit) := by
  subst hr
  simp [fieldRef, getExecNode, hroot]

mutual
  theorem makeParam_one {C : Comp E} {t : T E} {v : Int} {A : Addr} (hc : InCtx t v A) {p : Path}
      (hroot : update (A ++ keys p) id t.root = t.root) : ∀ (e : Expr E), Param C v p e →
      makeParam C t (.node (A ++ keys p)) e = .ok (t, refOf C e)
    | .field f, h => by
      obtain ⟨g1, g2⟩ := hc.get
      have hf : f = ⟨v, p⟩ := h
      subst hf
      rw [makeParam, resolveRef, g1, Res.bind_ok, Res.bind_ok, fieldRef_same' (by simp [RRef.addr, g2, keys]) hroot, refOf]
    | .value g, _ => by rw [makeParam, refOf]
    | .regex g, h => by obtain ⟨s, r, rfl, hr⟩ := h; simp [makeParam, asStr, hr, refOf]
    | .pcre g, h => by obtain ⟨s, r, rfl, hr⟩ := h; simp [makeParam, asStr, hr, refOf]
    | .time g, h => by obtain ⟨s, r, rfl, hr⟩ := h; simp [makeParam, asStr, hr, refOf]
    | .func n ps, h => by rw [makeParam, makeParams_one hc hroot ps h, Res.bind_ok, refOf]
    | .tru, h | .fals, h | .not _, h | .and _, h | .or _, h | .loop .., h | .exist _, h | .notExist _, h | .cmp .., h => by
      simp [Param] at h
  theorem makeParams_one {C : Comp E} {t : T E} {v : Int} {A : Addr} (hc : InCtx t v A) {p : Path}
      (hroot : update (A ++ keys p) id t.root = t.root) : ∀ (es : Exprs E), Params C v p es →
      makeParams C t (.node (A ++ keys p)) es = .ok (t, refsOf C es)
    | .nil, _ => by rw [makeParams, refsOf]
    | .cons e r, h => by
      rw [makeParams, makeParam_one hc hroot e h.1, Res.bind_ok, makeParams_one hc hroot r h.2, Res.bind_ok, refsOf]
end

theorem makeDataRef_one {C : Comp E} {t : T E} {v : Int} {A : Addr} (hc : InCtx t v A) {p : Path}
    (hroot : update (A ++ keys p) id t.root = t.root) (e : Expr E) (h : Param C v p e) :
    makeDataRef C t (.node (A ++ keys p)) e = .ok (t, sideOf C e) := by
  rw [makeDataRef, makeParam_one hc hroot e h, Res.bind_ok]
  cases e <;> first | rfl | simp [Param] at h | skip

theorem update_id_idem (a : Addr) (n : Exec E) : update a id (update a id n) = update a id n := update_comp a id id n

/-! ### Conditions -/

theorem condPath_some {C : Comp E} {v : Int} {l r : Expr E} (hl : Param C v (condPath l r) l) (hr : Param C v (condPath l r) r)
    (h : condPath l r ≠ []) : Free l ⟨v, condPath l r⟩ ∨ Free r ⟨v, condPath l r⟩ := by
  by_cases h1 : fieldPath l = none
  · by_cases h2 : fieldPath r = none
    · simp [condPath, h1, h2] at h
    · exact Or.inr (fieldPath_free r hr h2)
  · exact Or.inl (fieldPath_free l hl h1)

theorem tCompare_one {C : Comp E} {t : T E} {v : Int} {A : Addr} (hc : InCtx t v A) (c : Cmp) (op : OpTy) {l r : Expr E}
    (hl : Param C v (condPath l r) l) (hr : Param C v (condPath l r) r) :
    tCompare C (.cmp c l r) op l r t = .ok { t with root := update A (update (keys (condPath l r))
      (addOp ⟨t.active, op, sideOf C l, sideOf C r⟩)) t.root } := by
  have hb := pickBase_one (e := .cmp c l r) hc (p := condPath l r) ⟨param_plain l hl, param_plain r hr⟩
    (fun f hf => by
      cases hf with
      | cmpL hf => exact param_free l hl f hf
      | cmpR hf => exact param_free r hr f hf)
    (fun hne => (condPath_some hl hr hne).elim .cmpL .cmpR)
  rw [tCompare, hb, Res.bind_ok]
  have hc' : InCtx { t with root := update (A ++ keys (condPath l r)) id t.root } v A := hc
  rw [makeDataRef_one hc' (update_id_idem _ _) l hl, Res.bind_ok, makeDataRef_one hc' (update_id_idem _ _) r hr, Res.bind_ok]
  simp only [NRef.addOp]
  rw [update_comp, ← update_append]
  rfl

theorem tExists_one {C : Comp E} {t : T E} {v : Int} {A : Addr} (hc : InCtx t v A) {e : Expr E}
    (h : Param C v (condPath e e) e) :
    tExists C e t = .ok { t with root := update A (update (keys (condPath e e))
      (addOp ⟨t.active, .exists_, sideOf C e, none⟩)) t.root } := by
  have hb := pickBase_one (e := .exist e) hc (p := condPath e e) (by rw [Expr.Plain]; exact param_plain e h)
    (fun f hf => by cases hf with | exist hf => exact param_free e h f hf)
    (fun hne => (condPath_some h h hne).elim .exist .exist)
  rw [tExists, hb, Res.bind_ok]
  have hc' : InCtx { t with root := update (A ++ keys (condPath e e)) id t.root } v A := hc
  rw [makeDataRef_one hc' (update_id_idem _ _) e h, Res.bind_ok]
  simp only [NRef.addOp]
  rw [update_comp, ← update_append]
  rfl

/-! ### Expressions -/

/-- The outcome of transforming: `f` is applied to the node of the context. -/
def Does (t : T E) (A : Addr) (f : Exec E → Exec E) (r : Res (T E)) : Prop :=
  ∃ t', r = .ok t' ∧ t'.root = update A f t.root ∧ t'.slotIdx = t.slotIdx

theorem tNot_does {g : T E → Res (T E)} {t : T E} {v : Int} {A : Addr} {par : Nat} {f : Exec E → Exec E} (hs : Start t par)
    (hc : InCtx t v A)
    (hg : ∀ t1 : T E, Start t1 t.active → t1.active = t.active + 1 → InCtx t1 v A → Does t1 A f (g t1)) :
    Does t A f (tNot g t) := by
  obtain ⟨t1, e1, ha, hs1, hctx, hr, hsl, _, _⟩ := first_child (ty := .not) hs
  obtain ⟨t2, h1, h2, h3⟩ := hg t1 hs1 ha (hc.of_ctx hctx)
  refine ⟨t2, ?_, by rw [h2, hr], by rw [h3, hsl]⟩
  rw [tNot]
  obtain ⟨x, hx, e1⟩ := Res.bind_eq_ok.1 e1
  rw [hx, Res.bind_ok]
  simp only
  rw [e1, Res.bind_ok, h1]

theorem tBin_does {C : Comp E} {o : BinTree.BinOp} {g g' : T E → Res (T E)} {t : T E} {v : Int} {A : Addr} {par : Nat} {f f' : Exec E → Exec E}
    {a : Sh} (hs : Start t par) (hc : InCtx t v A)
    (hg : ∀ t1 : T E, Start t1 t.active → t1.active = t.active + 1 → InCtx t1 v A → Does t1 A f (g t1))
    (hgr : ∀ t1 t2 : T E, Start t1 t.active → g t1 = .ok t2 → Grown t1 t2 a t.active)
    (hg' : ∀ t1 : T E, Start t1 t.active → t1.active = t.active + 1 + a.size → InCtx t1 v A → Does t1 A f' (g' t1)) :
    Does t A (fun n => f' (f n)) (tBin o.ty g g' t) := by
  obtain ⟨t1, e1, ha, hs1, hctx, hr, hsl, hn, hb⟩ := first_child (ty := o.ty) hs
  obtain ⟨t2, h1, h2, h3⟩ := hg t1 hs1 ha (hc.of_ctx hctx)
  have hG := hgr t1 t2 hs1 h1
  obtain ⟨t3, e3, ha3, hs3, hc3, hr3, hsl3, _⟩ := second_child (o := o) ha hn hb hG
  obtain ⟨t4, k1, k2, k3⟩ := hg' t3 hs3 ha3 (hc.of_ctx (hc3.trans (hG.ctx.trans hctx)))
  refine ⟨t4, ?_, ?_, ?_⟩
  · rw [tBin]
    obtain ⟨x, hx, e1⟩ := Res.bind_eq_ok.1 e1
    rw [hx, Res.bind_ok]
    simp only
    rw [e1, Res.bind_ok, h1, Res.bind_ok, e3, Res.bind_ok, k1]
  · rw [k2, hr3, h2, hr, update_comp]
  · rw [k3, hsl3, h3, hsl]

theorem tLoop_does {C : Comp E} {m : Mode} {v w : Int} {i s : Expr E} {t : T E} {A : Addr} {par : Nat} {f : Exec E → Exec E}
    (hs : Start t par) (hc : InCtx t v A) (hi : i = .field ⟨v, inPath i⟩) (hw : w ≠ 0) (hpl : s.Plain) (hfr : Frag C w s)
    {g : T E → Res (T E)} {a : Sh} (hgr : ∀ t1 t2 : T E, Start t1 t.active → g t1 = .ok t2 → Grown t1 t2 a t.active)
    (hg : ∀ t1 : T E, ∀ A' : Addr, Start t1 t.active → t1.active = t.active + 1 → InCtx t1 w A' → Does t1 A' f (g t1)) :
    Does t A (update (keys (inPath i)) (addBody (t.active + 1) m f)) (tLoop C (.loop m w i s) m w i g t) := by
  have hfree : ∀ f, Free (.loop m w i s) f ↔ f = ⟨v, inPath i⟩ := by
    intro f
    constructor
    · intro hf
      cases hf with
      | loopIn hf => rw [hi] at hf; cases hf; rfl
      | loopBody hf hv => exact absurd (frag_free w s hfr f hf) hv
    · intro hf
      subst hf
      refine .loopIn ?_
      have : Free (.field ⟨v, inPath i⟩ : Expr E) ⟨v, inPath i⟩ := .field _
      exact hi ▸ this
  have hpi : i.Plain := by rw [hi]; trivial
  have hb := pickBase_one (e := .loop m w i s) hc (p := inPath i) ⟨hpi, hpl⟩ (fun f hf => (hfree f).1 hf)
    (fun _ => (hfree _).2 rfl)
  have hdr := makeDataRef_one (C := C) (t := { t with root := update (A ++ keys (inPath i)) id t.root }) (v := v) (A := A)
    (p := inPath i) hc (update_id_idem _ _) i (by rw [hi]; rfl)
  have hside : sideOf C i = none := by rw [hi]; rfl
  rw [tLoop, hb, Res.bind_ok]
  simp only
  rw [hdr, Res.bind_ok, hside]
  simp only
  have hs0 : Start { t with root := update (A ++ keys (inPath i)) id t.root } par := ⟨hs.len, hs.bk, hs.node⟩
  obtain ⟨t1, e1, ha, hs1, hctx, hr, hsl, hn, hb1⟩ := first_child (ty := .loop) hs0
  obtain ⟨x, hx, e1⟩ := Res.bind_eq_ok.1 e1
  rw [hx, Res.bind_ok, e1, Res.bind_ok]
  simp only at ha hs1
  simp only [NRef.addLoop, Res.bind_ok, NRef.addr]
  have hid : (newBucket x).active = t.active + 1 := by
    rw [setLeft, modNode] at e1
    obtain ⟨_, _, e1⟩ := Res.bind_eq_ok.1 e1
    cases e1; exact ha
  obtain ⟨t2, h1, h2, h3⟩ := hg { t1 with
      root := update (A ++ keys (inPath i)) (addLoop t1.active m none emptyExec) t1.root,
      ctx := (w, A ++ keys (inPath i) ++ [.loop t1.active]) :: t1.ctx } (A ++ keys (inPath i) ++ [.loop t1.active])
    ⟨hs1.len, hs1.bk, hs1.node⟩ ha (Or.inr ⟨hw, t1.ctx, rfl⟩)
  rw [h1, Res.bind_ok]
  have hG := hgr { t1 with
      root := update (A ++ keys (inPath i)) (addLoop t1.active m none emptyExec) t1.root,
      ctx := (w, A ++ keys (inPath i) ++ [.loop t1.active]) :: t1.ctx } t2 ⟨hs1.len, hs1.bk, hs1.node⟩ h1
  rw [hG.ctx]
  simp only [ne_eq, not_true_eq_false, if_false]
  refine ⟨_, rfl, ?_, ?_⟩
  · simp only
    rw [h2]
    simp only
    rw [hr, update_comp, update_append, update_comp, ← update_append, ha]
    rfl
  · simp only
    rw [h3, hsl]

mutual
  /-- The transformer applies `ins` to the node of the context. -/
  theorem tOne_ins (C : Comp E) : ∀ (e : Expr E) (v : Int) (t : T E) (A : Addr) (par : Nat), Frag C v e → Start t par → InCtx t v A →
      Does t A (ins C e t.active) (tOne C e t)
    | .cmp c l r, v, t, A, par, h, hs, hc => by
      rw [tOne]
      by_cases hne : c = .ne
      · subst hne
        rw [if_pos rfl]
        refine tNot_does hs hc (fun t1 _ ha hc1 => ?_)
        refine ⟨_, tCompare_one hc1 .eq .equals h.1 h.2, ?_, rfl⟩
        simp only [ins, ha, opOf, if_pos]
      · rw [if_neg hne]
        refine ⟨_, tCompare_one hc c (opOf c) h.1 h.2, ?_, rfl⟩
        simp only [ins, if_neg hne]
    | .exist e, v, t, A, par, h, hs, hc => by
      rw [tOne]
      exact ⟨_, tExists_one hc h, by simp only [ins], rfl⟩
    | .notExist e, v, t, A, par, h, hs, hc => by
      rw [tOne]
      refine tNot_does hs hc (fun t1 _ ha hc1 => ?_)
      exact ⟨_, tExists_one hc1 h, by simp only [ins, ha], rfl⟩
    | .not e, v, t, A, par, h, hs, hc => by
      rw [tOne, ins]
      refine tNot_does hs hc (fun t1 h1 ha hc1 => ?_)
      have := tOne_ins C e v t1 A t.active h h1 hc1
      rwa [ha] at this
    | .and es, v, t, A, par, h, hs, hc => by rw [tOne, ins]; exact tAnd_ins C es v t A par h hs hc
    | .or es, v, t, A, par, h, hs, hc => by rw [tOne, ins]; exact tOr_ins C es v t A par h hs hc
    | .loop m w i s, v, t, A, par, h, hs, hc => by
      rw [tOne, ins]
      refine tLoop_does hs hc h.1 h.2.1 h.2.2.1 h.2.2.2 (a := shape s) (fun t1 t2 h1 h2 => tOne_grown C s t1 t2 _ h1 h2)
        (fun t1 A' h1 ha hc1 => ?_)
      have := tOne_ins C s w t1 A' t.active h.2.2.2 h1 hc1
      rwa [ha] at this
    | .tru, v, t, A, par, h, _, hc | .fals, v, t, A, par, h, _, hc => by
      simp only [tOne, ins]
      rw [Frag] at h
      rcases hc with ⟨_, _, rfl⟩ | ⟨hv, _⟩
      · exact ⟨t, rfl, rfl, rfl⟩
      · exact absurd h hv
    | .value _, v, t, A, par, h, _, _ | .regex _, v, t, A, par, h, _, _
    | .pcre _, v, t, A, par, h, _, _ | .time _, v, t, A, par, h, _, _ | .field _, v, t, A, par, h, _, _
    | .func .., v, t, A, par, h, _, _ => by simp [Frag] at h

  theorem tOr_ins (C : Comp E) : ∀ (es : Exprs E) (v : Int) (t : T E) (A : Addr) (par : Nat), Frags C v es → Start t par → InCtx t v A →
      Does t A (insAll C es t.active) (tOr C es t)
    | .nil, v, t, A, par, h, _, _ => by simp [Frags] at h
    | .cons e .nil, v, t, A, par, h, hs, hc => by
      rw [tOr, insAll]; rw [Frags] at h
      exact tOne_ins C e v t A par h hs hc
    | .cons e (.cons e' r), v, t, A, par, h, hs, hc => by
      rw [tOr.eq_def, insAll]; rw [Frags] at h
      simp only
      refine tBin_does (C := C) (o := .or) (a := shape e) hs hc (fun t1 h1 ha hc1 => ?_)
        (fun t1 t2 h1 h2 => tOne_grown C e t1 t2 _ h1 h2) (fun t1 h1 ha hc1 => ?_)
      · have := tOne_ins C e v t1 A t.active h.1 h1 hc1
        rwa [ha] at this
      · have := tOr_ins C (.cons e' r) v t1 A t.active h.2 h1 hc1
        rwa [ha] at this

  theorem tAnd_ins (C : Comp E) : ∀ (es : Exprs E) (v : Int) (t : T E) (A : Addr) (par : Nat), Frags C v es → Start t par → InCtx t v A →
      Does t A (insAll C es t.active) (tAnd C es t)
    | .nil, v, t, A, par, h, _, _ => by simp [Frags] at h
    | .cons e .nil, v, t, A, par, h, hs, hc => by
      rw [tAnd, insAll]; rw [Frags] at h
      exact tOne_ins C e v t A par h hs hc
    | .cons e (.cons e' r), v, t, A, par, h, hs, hc => by
      rw [tAnd.eq_def, insAll]; rw [Frags] at h
      simp only
      refine tBin_does (C := C) (o := .and) (a := shape e) hs hc (fun t1 h1 ha hc1 => ?_)
        (fun t1 t2 h1 h2 => tOne_grown C e t1 t2 _ h1 h2) (fun t1 h1 ha hc1 => ?_)
      · have := tOne_ins C e v t1 A t.active h.1 h1 hc1
        rwa [ha] at this
      · have := tAnd_ins C (.cons e' r) v t1 A t.active h.2 h1 hc1
        rwa [ha] at this
end

end Verif.Transform
