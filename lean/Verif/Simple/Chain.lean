import Verif.Simple.Steps

/-!
# Conditions and chains of conditions
-/

namespace Verif.Simple
open Verif.FastVal Verif.Expr

variable {E : Ext}

/-- The token `t` is read as the left side `e` of a condition. -/
def Lhs (N : Env E) (t : Str) (e : Expr E) : Prop :=
  ∀ c : Ctx, c.tokens[c.idx]? = some t → c.sub.mode = .field → ∃ p h tok ty,
    Gets N c ({ c with fieldTokens := p, sub := { c.sub with helper := h } }, .ok (tok, ty)) ∧ ty.isField = true ∧
    ∀ (tree : List Node) (i : Nat) (par l r : Int), tree[i]? = some ⟨ty, tok, par, l, r, some p, h⟩ → outNode N tree 1 i = .ok (some e)

/-- The tokens `ts` are read as the right side `e` of the operator `o`. -/
def Rhs (N : Env E) (o : Bin) (ts : List Str) (e : Expr E) : Prop :=
  ts ≠ [] ∧ ∀ (c : Ctx) (rest : List Str), c.tokens.drop c.idx = ts ++ rest → c.sub.mode = .value → c.sub.opCtx = o.ctx .no →
    c.sub.helper = none → ∃ b h tok ty,
    Gets N c ({ c with idx := c.idx + (ts.length - 1), sub := { c.sub with helper := h, isBool := b } }, .ok (tok, ty)) ∧
    (if ty.isBool then o = .eq ∨ o = .ne else ty.isValue = true) ∧
    ∀ (tree : List Node) (i : Nat) (par l r : Int), tree[i]? = some ⟨ty, tok, par, l, r, none, h⟩ → outNode N tree 1 i = .ok (some e)

/-- A condition: the tokens and what they mean. -/
inductive Cond (E : Ext) where
  | bin (l : Str) (a : Expr E) (w : List Str) (o : Bin) (r : List Str) (b : Expr E)
  | un (l : Str) (a : Expr E) (w : List Str) (o : Un)

def Cond.toks : Cond E → List Str
  | .bin l _ w _ r _ => l :: (w ++ r)
  | .un l _ w _ => l :: w

def Cond.expr : Cond E → Expr E
  | .bin _ a _ o _ b => o.expr a b
  | .un _ a _ o => o.expr a

def Cond.unary : Cond E → Bool
  | .bin .. => false
  | .un .. => true

def Cond.Ok (N : Env E) : Cond E → Prop
  | .bin l a w o r b => Lhs N l a ∧ (w, o) ∈ binWords ∧ Rhs N o r b
  | .un l a w o => Lhs N l a ∧ (w, o) ∈ unWords

/-- The sub-context, whose nodes start at `b`, has the complete expression `e` at node `i`. -/
structure Comp (N : Env E) (b : Nat) (c : Ctx) (i : Nat) (e : Expr E) : Prop where
  base : b ≤ i
  lastOp : c.sub.lastOp = i
  node : ∃ n, c.tree[i]? = some n ∧ n.parent = -1
  reads : outNode N c.tree (c.tree.length - b) i = .ok (some e)

/-- and the parser waits for a connective. -/
structure Full (N : Env E) (b : Nat) (c : Ctx) (i : Nat) (e : Expr E) : Prop extends Comp N b c i e where
  lastSub : c.sub.lastSub = i
  mode : c.sub.mode = .op ∧ c.sub.opCtx = .chain ∨ c.sub.mode = .chain

/-- What does not change: the tokens, the depth, the flags, and the nodes before `b`. -/
structure Keeps (c c' : Ctx) (b : Nat) : Prop where
  tokens : c'.tokens = c.tokens
  depth : c'.depth = c.depth
  short : c'.short = c.short
  posOnly : c'.posOnly = c.posOnly
  below : ∀ i, i < b → c'.tree[i]? = c.tree[i]?
  grows : Grows c.tree c'.tree

theorem Keeps.refl (c : Ctx) (b : Nat) : Keeps c c b := ⟨rfl, rfl, rfl, rfl, fun _ _ => rfl, .refl _⟩

theorem Keeps.trans {c c1 c2 : Ctx} {b b' : Nat} (h : Keeps c c1 b) (k : Keeps c1 c2 b') (hb : b ≤ b') : Keeps c c2 b :=
  ⟨k.tokens.trans h.tokens, k.depth.trans h.depth, k.short.trans h.short, k.posOnly.trans h.posOnly,
    fun i hi => (k.below i (by omega)).trans (h.below i hi), h.grows.trans k.grows⟩

/-- The state after the left side. -/
def ctx1 (c : Ctx) (p : List Str) (h : Option Helper) (tok : Str) (ty : TT) : Ctx :=
  { c with idx := c.idx + 1, fieldTokens := p, tree := c.tree ++ [⟨ty, tok, -1, -1, -1, some p, h⟩],
           sub := { c.sub with mode := .op, lastField := c.tree.length, lastSub := c.tree.length, helper := none } }

theorem lhs_step (N : Env E) (c : Ctx) (b : Bool) (t : Str) (a : Expr E) (hs : c.sub = newSub b) (hp : c.posOnly = false) (ht : c.tokens[c.idx]? = some t)
    (hl : Lhs N t a) : ∃ p h tok ty, (∀ r, Runs N (ctx1 c p h tok ty) r → Runs N c r) ∧
      ∀ (tree : List Node) (i : Nat) (par l r : Int), tree[i]? = some ⟨ty, tok, par, l, r, some p, h⟩ → outNode N tree 1 i = .ok (some a) := by
  obtain ⟨p, h, tok, ty, hg, hf, ho⟩ := hl c ht (by rw [hs]; rfl)
  refine ⟨p, h, tok, ty, ?_, ho⟩
  intro r hr
  have hchk : check { c with fieldTokens := p, sub := { c.sub with helper := h } } ty =
      ({ c with fieldTokens := p, sub := { c.sub with helper := h } }, none) := by
    rw [hs]
    cases ty <;> simp_all [check, newSub, checkValue, TT.isField, TT.isBool, TT.isValue]
  have hins : insert { c with fieldTokens := p, sub := { c.sub with helper := h } } tok ty = .ok { c with fieldTokens := p, tree := c.tree ++ [⟨ty, tok, -1, -1, -1, some p, h⟩], sub := { c.sub with helper := h, lastField := c.tree.length, lastSub := c.tree.length } } := by
    rw [hs]
    rfl
  refine runs_insert N hg hchk hins ?_ hr
  unfold advance
  rw [if_neg (by simp [hp])]
  rw [hs]
  simp [newSub, ctx1, hs]

/-- The state after the operator; `x` is the new `opTokenContext`, `m` the new mode. -/
def ctx2 (c : Ctx) (p : List Str) (h : Option Helper) (tok : Str) (ty : TT) (k : Str) (w : Nat) (x : OpCtx) (m : Mode) : Ctx :=
  { c with idx := c.idx + 1 + w, fieldTokens := p,
           tree := c.tree ++ [⟨ty, tok, c.tree.length + 1, -1, -1, some p, h⟩, ⟨.op, k, -1, c.tree.length, -1, none, none⟩],
           head := if c.head = -1 then c.tree.length + 1 else c.head,
           sub := { c.sub with mode := m, opCtx := x, lastField := c.tree.length, lastOp := c.tree.length + 1, lastSub := c.tree.length + 1, helper := none } }

theorem op_step (N : Env E) (c : Ctx) (b : Bool) (p : List Str) (h : Option Helper) (tok : Str) (ty : TT) (k : Str) (w : Nat) (x : OpCtx) (hs : c.sub = newSub b)
    (hp : c.posOnly = false) (hw : 1 ≤ w) (hx : x ≠ .chain)
    (hg : Gets N (ctx1 c p h tok ty) ({ ctx1 c p h tok ty with idx := c.idx + 1 + (w - 1), sub := { (ctx1 c p h tok ty).sub with opCtx := x } }, .ok (k, .op))) :
    ∀ r, Runs N (ctx2 c p h tok ty k w x (if x = .noField then .chain else .value)) r → Runs N (ctx1 c p h tok ty) r := by
  intro r hr
  have hchk : check { ctx1 c p h tok ty with idx := c.idx + 1 + (w - 1), sub := { (ctx1 c p h tok ty).sub with opCtx := x } } .op =
      ({ ctx1 c p h tok ty with idx := c.idx + 1 + (w - 1), sub := { (ctx1 c p h tok ty).sub with opCtx := x } }, none) := by
    simp [check, ctx1]
  have hins : insert { ctx1 c p h tok ty with idx := c.idx + 1 + (w - 1), sub := { (ctx1 c p h tok ty).sub with opCtx := x } } k .op =
      .ok { ctx2 c p h tok ty k w x .op with idx := c.idx + 1 + (w - 1) } := by
    simp only [insert, ctx1]
    rw [modifyAt_some (i := c.tree.length) (a := ⟨ty, tok, -1, -1, -1, some p, h⟩) (by simp)]
    simp [ctx2]
  refine runs_insert N hg hchk hins ?_ hr
  unfold advance
  rw [if_neg (by simp [ctx2, hp])]
  have hidx : c.idx + 1 + (w - 1) + 1 = c.idx + 1 + w := by omega
  cases x <;> simp_all [ctx2]

/-- The state after the right side, before the tokens advance. -/
def ctx3 (c : Ctx) (p : List Str) (h : Option Helper) (tok : Str) (ty : TT) (k : Str) (i : Nat) (x : OpCtx) (b : Bool) (h' : Option Helper) (tok' : Str) (ty' : TT) : Ctx :=
  { c with idx := i, fieldTokens := p,
           tree := c.tree ++ [⟨ty, tok, c.tree.length + 1, -1, -1, some p, h⟩, ⟨.op, k, -1, c.tree.length, c.tree.length + 2, none, none⟩,
             ⟨ty', tok', c.tree.length + 1, -1, -1, none, h'⟩],
           head := if c.head = -1 then c.tree.length + 1 else c.head,
           sub := { c.sub with mode := .value, opCtx := x, isBool := b, lastField := c.tree.length, lastOp := c.tree.length + 1, lastSub := c.tree.length + 1,
                               lastValue := c.tree.length + 2, helper := h' } }

theorem rhs_insert (c : Ctx) (p : List Str) (h : Option Helper) (tok : Str) (ty : TT) (k : Str) (w i : Nat) (x : OpCtx) (b : Bool) (h' : Option Helper)
    (tok' : Str) (ty' : TT) :
    insert { ctx2 c p h tok ty k w x .value with idx := i, sub := { (ctx2 c p h tok ty k w x .value).sub with helper := h', isBool := b } } tok' ty' =
      .ok (ctx3 c p h tok ty k i x b h' tok' ty') := by
  simp only [insert, ctx2]
  have : ((c.tree.length : Int) + 1) = ((c.tree.length + 1 : Nat) : Int) := by simp
  rw [this, modifyAt_some (i := c.tree.length + 1) (a := ⟨.op, k, -1, c.tree.length, -1, none, none⟩) (by simp)]
  simp only [Res.bind_ok, ctx3, this]
  simp

theorem ctx3_comp (N : Env E) (c : Ctx) (p : List Str) (h : Option Helper) (tok : Str) (ty : TT) (o : Bin) (i : Nat) (x : OpCtx) (bb : Bool) (h' : Option Helper)
    (tok' : Str) (ty' : TT) (a b : Expr E)
    (ho : ∀ (tree : List Node) (i : Nat) (par l r : Int), tree[i]? = some ⟨ty, tok, par, l, r, some p, h⟩ → outNode N tree 1 i = .ok (some a))
    (ho' : ∀ (tree : List Node) (i : Nat) (par l r : Int), tree[i]? = some ⟨ty', tok', par, l, r, none, h'⟩ → outNode N tree 1 i = .ok (some b)) :
    Comp N c.tree.length (ctx3 c p h tok ty o.tok i x bb h' tok' ty') (c.tree.length + 1) (o.expr a b) ∧
    Keeps c (ctx3 c p h tok ty o.tok i x bb h' tok' ty') c.tree.length := by
  refine ⟨⟨by omega, by simp [ctx3], ⟨_, by simp [ctx3]; rfl, rfl⟩, ?_⟩, rfl, rfl, rfl, rfl, ?_, grows_append _ _⟩
  · have h2 : outNode N (ctx3 c p h tok ty o.tok i x bb h' tok' ty').tree 2 (c.tree.length + 1) = .ok (some (o.expr a b)) := by
      refine out_bin N o _ 1 (c.tree.length + 1) c.tree.length (c.tree.length + 2) ⟨.op, o.tok, -1, c.tree.length, c.tree.length + 2, none, none⟩ a b
        (by simp [ctx3]) rfl rfl rfl rfl (by simp [ctx3]) (by simp [ctx3])
        (ho _ _ (c.tree.length + 1) (-1) (-1) (by simp [ctx3])) (ho' _ _ (c.tree.length + 1) (-1) (-1) (by simp [ctx3]))
    exact outNode_grows N (.refl _) 2 _ _ _ (by simp [ctx3]) h2
  · intro j hj
    simp [ctx3, List.getElem?_append_left hj]

theorem drop_add {ts r : List Str} {i : Nat} {a : List Str} (h : ts.drop i = a ++ r) : ts.drop (i + a.length) = r := by
  rw [← List.drop_drop, h]; simp

/-- A condition in a fresh sub-context: a binary one in a one-layer context returns, all others go on. -/
theorem cond_step (N : Env E) (q : Cond E) (hq : q.Ok N) (c : Ctx) (b : Bool) (rest : List Str) (hs : c.sub = newSub b) (hp : c.posOnly = false)
    (ht : c.tokens.drop c.idx = q.toks ++ rest) :
    ∃ c', Comp N c.tree.length c' (c.tree.length + 1) q.expr ∧ Keeps c c' c.tree.length ∧ c'.head = (if c.head = -1 then ((c.tree.length + 1 : Nat) : Int) else c.head) ∧
      (if b && !q.unary then c'.tokens.drop (c'.idx + 1) = rest ∧ Runs N c (.ok (c', some .layerDone)) ∧ c'.sub.oneLayer = true
       else c'.tokens.drop c'.idx = rest ∧ Full N c.tree.length c' (c.tree.length + 1) q.expr ∧ c'.sub.oneLayer = b ∧ ∀ r, Runs N c' r → Runs N c r) := by
  cases q with
  | bin l a w o r e =>
    obtain ⟨hl, hw, hne, hr⟩ := hq
    rw [Cond.toks, List.cons_append, List.append_assoc] at ht
    obtain ⟨ht1, ht2⟩ := tokens_head ht
    obtain ⟨p, h, tok, ty, hrun, hout⟩ := lhs_step N c b l a hs hp ht1 hl
    have hwl : 1 ≤ w.length := by
      simp only [binWords, List.mem_cons, List.not_mem_nil, or_false, Prod.mk.injEq] at hw
      rcases hw with h | h | h | h | h | h | h | h | h | h <;> simp [h.1]
    have hopctx : (ctx1 c p h tok ty).sub.opCtx = .no := by simp [ctx1, hs, newSub]
    have hg := gets_bin N (ctx1 c p h tok ty) w o hw (r ++ rest) ht2
    rw [hopctx] at hg
    have hnf : o.ctx .no ≠ .noField := by cases o <;> decide
    have hnc : o.ctx .no ≠ .chain := by cases o <;> decide
    have hop := op_step N c b p h tok ty o.tok w.length (o.ctx .no) hs hp hwl hnc hg
    rw [if_neg hnf] at hop
    have htr : (ctx2 c p h tok ty o.tok w.length (o.ctx .no) .value).tokens.drop (ctx2 c p h tok ty o.tok w.length (o.ctx .no) .value).idx = r ++ rest := by
      exact drop_add ht2
    obtain ⟨bb, h', tok', ty', hg', hty', hout'⟩ := hr (ctx2 c p h tok ty o.tok w.length (o.ctx .no) .value) rest htr rfl rfl rfl
    have hchk : ∀ c1 : Ctx, c1.sub.mode = .value → c1.sub.opCtx = o.ctx .no → check c1 ty' = (c1, none) := by
      intro c1 h1 h2
      simp only [check, h1, checkValue, h2]
      cases hb : ty'.isBool with
      | true =>
        rw [hb] at hty'
        have : ty'.isField = false := by cases ty' <;> simp_all [TT.isBool, TT.isField]
        rcases hty' with rfl | rfl <;> simp [this, Bin.ctx]
      | false =>
        rw [hb] at hty'
        simp at hty'
        simp [hty', hnc]
    obtain ⟨hcomp, hkeep⟩ := ctx3_comp N c p h tok ty o (c.idx + 1 + w.length + (r.length - 1)) (o.ctx .no) bb h' tok' ty' a e hout hout'
    have hrl : 1 ≤ r.length := by cases r with | nil => exact absurd rfl hne | cons _ _ => simp
    have hend : c.tokens.drop (c.idx + 1 + w.length + (r.length - 1) + 1) = rest := by
      have : c.idx + 1 + w.length + (r.length - 1) + 1 = (c.idx + 1 + w.length) + r.length := by omega
      rw [this]
      exact drop_add htr
    have hins := rhs_insert c p h tok ty o.tok w.length (c.idx + 1 + w.length + (r.length - 1)) (o.ctx .no) bb h' tok' ty'
    cases b with
    | true =>
      refine ⟨{ ctx3 c p h tok ty o.tok (c.idx + 1 + w.length + (r.length - 1)) (o.ctx .no) bb h' tok' ty' with
        sub := { (ctx3 c p h tok ty o.tok (c.idx + 1 + w.length + (r.length - 1)) (o.ctx .no) bb h' tok' ty').sub with helper := none } },
        ⟨hcomp.base, hcomp.lastOp, hcomp.node, hcomp.reads⟩, ⟨hkeep.tokens, hkeep.depth, hkeep.short, hkeep.posOnly, hkeep.below, hkeep.grows⟩, ?_, ?_⟩
      · simp [ctx3]
      · rw [if_pos (by simp [Cond.unary])]
        refine ⟨hend, hrun _ (hop _ ?_), by simp [ctx3, hs, newSub]⟩
        refine runs_last N (e := .layerDone) hg' (hchk _ rfl rfl) hins ?_
        unfold advance
        rw [if_neg (by simp [ctx3, hp])]
        simp [ctx3, hs, newSub]
    | false =>
      refine ⟨{ ctx3 c p h tok ty o.tok (c.idx + 1 + w.length + (r.length - 1)) (o.ctx .no) bb h' tok' ty' with
        idx := c.idx + 1 + w.length + (r.length - 1) + 1
        sub := { (ctx3 c p h tok ty o.tok (c.idx + 1 + w.length + (r.length - 1)) (o.ctx .no) bb h' tok' ty').sub with helper := none, mode := .chain, opCtx := .no } },
        ⟨hcomp.base, hcomp.lastOp, hcomp.node, hcomp.reads⟩, ⟨hkeep.tokens, hkeep.depth, hkeep.short, hkeep.posOnly, hkeep.below, hkeep.grows⟩, ?_, ?_⟩
      · simp [ctx3]
      · rw [if_neg (by simp)]
        refine ⟨hend, ⟨⟨hcomp.base, hcomp.lastOp, hcomp.node, hcomp.reads⟩, by simp [ctx3], .inr rfl⟩, by simp [ctx3, hs, newSub], ?_⟩
        intro res hres
        refine hrun _ (hop _ ?_)
        refine runs_insert N hg' (hchk _ rfl rfl) hins ?_ hres
        unfold advance
        rw [if_neg (by simp [ctx3, hp])]
        simp [ctx3, hs, newSub]
  | un l a w o =>
    obtain ⟨hl, hw⟩ := hq
    rw [Cond.toks, List.cons_append] at ht
    obtain ⟨ht1, ht2⟩ := tokens_head ht
    obtain ⟨p, h, tok, ty, hrun, hout⟩ := lhs_step N c b l a hs hp ht1 hl
    have hwl : 1 ≤ w.length := by
      simp only [unWords, List.mem_cons, List.not_mem_nil, or_false, Prod.mk.injEq] at hw
      rcases hw with h | h | h | h <;> simp [h.1]
    have hg := gets_un N (ctx1 c p h tok ty) w o hw rest ht2
    have hop := op_step N c b p h tok ty o.tok w.length .noField hs hp hwl (by decide) hg
    rw [if_pos rfl] at hop
    have hcomp : Comp N c.tree.length (ctx2 c p h tok ty o.tok w.length .noField .chain) (c.tree.length + 1) (o.expr a) := by
      refine ⟨by omega, by simp [ctx2], ⟨_, by simp [ctx2]; rfl, rfl⟩, ?_⟩
      have h2 : outNode N (ctx2 c p h tok ty o.tok w.length .noField .chain).tree 2 (c.tree.length + 1) = .ok (some (o.expr a)) := by
        refine out_un N o _ 1 (c.tree.length + 1) c.tree.length ⟨.op, o.tok, -1, c.tree.length, -1, none, none⟩ a
          (by simp [ctx2]) rfl rfl rfl (by simp [ctx2]) (hout _ _ (c.tree.length + 1) (-1) (-1) (by simp [ctx2]))
      exact outNode_grows N (.refl _) 2 _ _ _ (by simp [ctx2]) h2
    refine ⟨ctx2 c p h tok ty o.tok w.length .noField .chain, hcomp, ⟨rfl, rfl, rfl, rfl, ?_, grows_append _ _⟩, by simp [ctx2], ?_⟩
    · intro j hj
      simp [ctx2, List.getElem?_append_left hj]
    · rw [if_neg (by simp [Cond.unary])]
      exact ⟨drop_add ht2, ⟨hcomp, by simp [ctx2], .inr rfl⟩, by simp [ctx2, hs, newSub], fun r hr => hrun _ (hop _ hr)⟩

/-! ### Chains -/

/-- The state after a connective. -/
def connCtx (c : Ctx) (i : Nat) (n : Node) (o : Conn) : Ctx :=
  { c with idx := c.idx + 1, tree := (c.tree ++ [(⟨.op, o.tok, -1, i, -1, none, none⟩ : Node)]).set i { n with parent := c.tree.length },
           head := if c.head = -1 then c.tree.length else c.head,
           sub := { c.sub with mode := .field, opCtx := .chain, isBool := false, lastOp := c.tree.length, lastSub := c.tree.length, helper := none } }

theorem lt_of_some {t : List Node} {i : Nat} {n : Node} (h : t[i]? = some n) : i < t.length := by
  rcases Nat.lt_or_ge i t.length with hl | hl
  · exact hl
  · rw [List.getElem?_eq_none hl] at h; exact absurd h (by simp)

theorem conn_step (N : Env E) (c : Ctx) (i b : Nat) (n : Node) (acc : Expr E) (w : Str) (o : Conn) (rest : List Str) (hf : Full N b c i acc)
    (hn : c.tree[i]? = some n) (hp : c.posOnly = false) (hw : (w, o) ∈ connWords) (ht : c.tokens.drop c.idx = w :: rest) :
    ∀ r, Runs N (connCtx c i n o) r → Runs N c r := by
  intro r hr
  have hlt := lt_of_some hn
  have hg := gets_conn N c w o hw rest ht i hf.lastSub
  have hchk : check { c with sub := { c.sub with opCtx := .chain } } .op = ({ c with sub := { c.sub with opCtx := .chain } }, none) := by
    rcases hf.mode with ⟨h, _⟩ | h <;> simp [check, h]
  have hmod : modifyAt (c.tree ++ [(⟨.op, o.tok, -1, c.sub.lastSub, -1, none, none⟩ : Node)]) c.sub.lastSub (fun m => { m with parent := c.tree.length }) =
      .ok ((c.tree ++ [(⟨.op, o.tok, -1, i, -1, none, none⟩ : Node)]).set i { n with parent := c.tree.length }) := by
    rw [hf.lastSub]
    exact modifyAt_some (by rw [List.getElem?_append_left hlt, hn]) _
  have hins : insert { c with sub := { c.sub with opCtx := .chain } } o.tok .op =
      .ok { connCtx c i n o with idx := c.idx, sub := { c.sub with opCtx := .chain, lastOp := c.tree.length, lastSub := c.tree.length } } := by
    rcases hf.mode with ⟨h, _⟩ | h
    · simp only [insert, h]
      rw [hmod]
      rfl
    · simp only [insert, h]
      rw [hmod]
      rfl
  refine runs_insert N hg hchk hins ?_ hr
  unfold advance
  rw [if_neg (by simp [connCtx, hp])]
  rcases hf.mode with ⟨h, _⟩ | h <;> simp [connCtx, h]

theorem connCtx_keeps (c : Ctx) (i : Nat) (n : Node) (o : Conn) (hn : c.tree[i]? = some n) : Keeps c (connCtx c i n o) i := by
  have hlt := lt_of_some hn
  refine ⟨rfl, rfl, rfl, rfl, ?_, ?_⟩
  · intro j hj
    simp only [connCtx]
    rw [List.getElem?_set_ne (by omega), List.getElem?_append_left (by omega)]
  · exact (grows_append _ _).trans (grows_set _ i n _ (by rw [List.getElem?_append_left hlt, hn]) (⟨rfl, rfl, rfl, rfl, rfl, fun _ => rfl⟩ : Node.Le n { n with parent := c.tree.length }))

/-- A completed inner sub-context becomes the right side of the connective. -/
theorem merge_step (N : Env E) (c : Ctx) (i b : Nat) (n : Node) (acc : Expr E) (o : Conn) (hf : Full N b c i acc) (hn : c.tree[i]? = some n)
    (c3 c5 : Ctx) (s3 : c3.tree = (connCtx c i n o).tree) (sub3 : ∃ h, c3.sub = { (connCtx c i n o).sub with helper := h })
    (j : Nat) (ek : Expr E) (hj : Comp N c3.tree.length c5 j ek)
    (hk : ∀ x, x < c3.tree.length → c5.tree[x]? = c3.tree[x]?) (hgr : Grows c3.tree c5.tree) :
    ∃ T, merge c5 c3.sub = .ok ({ c5 with tree := T, head := c.tree.length, sub := c3.sub }, none) ∧
      Comp N b { c5 with tree := T, head := c.tree.length, sub := c3.sub } c.tree.length (o.expr acc ek) ∧
      (∀ x, x < i → T[x]? = c.tree[x]?) ∧ Grows c.tree T := by
  have hlt := lt_of_some hn
  have hjl := hj.base
  have hbi := hf.base
  obtain ⟨hh, sub3⟩ := sub3
  have hlen3 : c3.tree.length = c.tree.length + 1 := by rw [s3]; simp [connCtx]
  have hk3 : c3.tree[c.tree.length]? = some ⟨.op, o.tok, -1, i, -1, none, none⟩ := by
    rw [s3]
    simp only [connCtx]
    rw [List.getElem?_set_ne (by omega)]
    simp
  have hk5 := hk c.tree.length (by omega)
  rw [hk3] at hk5
  obtain ⟨m, hm, hmp⟩ := hj.node
  have hjlt := lt_of_some hm
  have hne : j ≠ c.tree.length := by omega
  have hm' : (c5.tree.set c.tree.length ⟨.op, o.tok, -1, i, j, none, none⟩)[j]? = some m := by
    rw [List.getElem?_set_ne (Ne.symm hne), hm]
  have hk' : ((c5.tree.set c.tree.length ⟨.op, o.tok, -1, i, j, none, none⟩).set j { m with parent := c.tree.length })[c.tree.length]? =
      some ⟨.op, o.tok, -1, i, j, none, none⟩ := by
    rw [List.getElem?_set_ne hne, List.getElem?_set_self (by omega)]
  have g1 : Grows c5.tree (c5.tree.set c.tree.length ⟨.op, o.tok, -1, i, j, none, none⟩) :=
    grows_set _ _ _ _ hk5 ⟨rfl, rfl, rfl, rfl, rfl, fun h => absurd rfl h⟩
  have g2 : Grows (c5.tree.set c.tree.length ⟨.op, o.tok, -1, i, j, none, none⟩)
      ((c5.tree.set c.tree.length ⟨.op, o.tok, -1, i, j, none, none⟩).set j { m with parent := c.tree.length }) :=
    grows_set _ _ _ _ hm' ⟨rfl, rfl, rfl, rfl, rfl, fun _ => rfl⟩
  have g5 := g1.trans g2
  have g0 : Grows c.tree c5.tree := ((connCtx_keeps c i n o hn).grows.trans (by rw [← s3]; exact Grows.refl _)).trans hgr
  refine ⟨(c5.tree.set c.tree.length ⟨.op, o.tok, -1, i, j, none, none⟩).set j { m with parent := c.tree.length }, ?_, ⟨by omega, ?_, ⟨_, hk', rfl⟩, ?_⟩, ?_, g0.trans g5⟩
  · have hlo : c3.sub.lastOp = c.tree.length := by rw [sub3]; rfl
    unfold merge
    rw [if_neg (by simp only [Sub.unused, hlo, Bool.and_eq_true, decide_eq_true_eq]; omega)]
    rw [if_neg (by simp [sub3, connCtx])]
    rw [if_neg (by rw [hlo]; omega), if_neg (by rw [hj.lastOp]; omega)]
    rw [hlo, hj.lastOp]
    rw [nodeAt_some hk5, Res.bind_ok, nodeAt_some hm, Res.bind_ok]
    rw [if_neg (by simp), modifyAt_some hk5, Res.bind_ok]
    rw [nodeAt_some hm', Res.bind_ok, if_neg (by simp [hmp]), modifyAt_some hm', Res.bind_ok, nodeAt_some hk', Res.bind_ok]
    simp
  · show c3.sub.lastOp = _
    rw [sub3]; rfl
  · have hlen5 := hgr.1
    have hl := outNode_grows N (g0.trans g5) _ i acc (c5.tree.length - b - 1) (by omega) hf.reads
    have hr := outNode_grows N g5 _ j ek (c5.tree.length - b - 1) (by omega) hj.reads
    have := out_conn N o _ _ c.tree.length i j _ acc ek hk' rfl rfl rfl rfl (by simp; omega) (by simp; omega) hl hr
    have he : c5.tree.length - b - 1 + 1 = c5.tree.length - b := by omega
    rw [he] at this
    simpa using this
  · intro x hx
    rw [List.getElem?_set_ne (by omega), List.getElem?_set_ne (by omega), hk x (by omega), s3]
    exact (connCtx_keeps c i n o hn).below x hx

/-- After a connective a condition starts a new sub-context. -/
theorem link_start (N : Env E) (c : Ctx) (i b : Nat) (n : Node) (acc : Expr E) (w : Str) (o : Conn) (q : Cond E) (tail : List Str) (hf : Full N b c i acc)
    (hn : c.tree[i]? = some n) (hp : c.posOnly = false) (hw : (w, o) ∈ connWords) (hq : q.Ok N) (ht : c.tokens.drop c.idx = w :: (q.toks ++ tail)) :
    ∃ (c3 : Ctx) (h : Option Helper) (e : Err), c3.tree = (connCtx c i n o).tree ∧ c3.sub = { (connCtx c i n o).sub with helper := h } ∧
      c3.tokens = c.tokens ∧ c3.depth = c.depth ∧ c3.short = c.short ∧ c3.posOnly = false ∧ c3.idx = c.idx + 1 ∧
      c3.tokens.drop c3.idx = q.toks ++ tail ∧ (e = .new ∨ e = .oneNew) ∧ decide (e = .oneNew) = !c.short ∧
      ∀ c5 oe c6 c7 r, Runs N { c3 with sub := newSub (!c.short) } (.ok (c5, oe)) → (oe = none ∨ oe = some .layerDone) →
        merge c5 c3.sub = .ok (c6, none) → advance c6 = (c7, none) → Runs N c7 r → Runs N c r := by
  have hlhs : ∃ l a rest, Lhs N l a ∧ q.toks ++ tail = l :: rest := by
    cases q with
    | bin l a w o r b => exact ⟨l, a, _, hq.1, rfl⟩
    | un l a w o => exact ⟨l, a, _, hq.1, rfl⟩
  obtain ⟨l, a, rest, hl, htl⟩ := hlhs
  have htok : (connCtx c i n o).tokens.drop (connCtx c i n o).idx = q.toks ++ tail := (tokens_head ht).2
  have htok' := htok
  rw [htl] at htok'
  obtain ⟨p, h, tok, ty, hg, hfld, _⟩ := hl (connCtx c i n o) (tokens_head htok').1 rfl
  refine ⟨{ connCtx c i n o with fieldTokens := p, sub := { (connCtx c i n o).sub with helper := h } }, h, if c.short then .new else .oneNew,
    rfl, rfl, rfl, rfl, rfl, hp, rfl, htok, ?_, ?_, ?_⟩
  · cases c.short <;> simp
  · cases c.short <;> simp
  · intro c5 oe c6 c7 r hr5 hoe hm ha hr
    refine conn_step N c i b n acc w o (q.toks ++ tail) hf hn hp hw ht r ?_
    refine runs_new N (e := if c.short then .new else .oneNew) hg ?_ (by cases c.short <;> simp) ?_ hoe hm ha hr
    · have hnp : ty ≠ .paren := by intro h; subst h; simp [TT.isField] at hfld
      show check _ ty = ({ connCtx c i n o with fieldTokens := p, sub := { (connCtx c i n o).sub with helper := h } }, _)
      simp [check, connCtx, checkValue, hfld, hnp]
      by_cases hsh : c.short = true
      · rw [if_pos hsh]; exact if_pos hsh
      · rw [if_neg hsh]; exact if_neg hsh
    · have : decide ((if c.short then Err.new else .oneNew) = .oneNew) = !c.short := by cases c.short <;> simp
      rw [this]
      exact hr5

/-- How a chain is nested: with short circuiting, or after a condition without a right side, what follows belongs to the right side. -/
def build (short : Bool) (acc : Expr E) : List (Str × Conn × Cond E) → Expr E
  | [] => acc
  | (_, o, q) :: r => if short || q.unary then o.expr acc (build short q.expr r) else build short (o.expr acc q.expr) r

def linkToks : List (Str × Conn × Cond E) → List Str
  | [] => []
  | (w, _, q) :: r => w :: (q.toks ++ linkToks r)

def LinksOk (N : Env E) (r : List (Str × Conn × Cond E)) : Prop := ∀ x ∈ r, (x.1, x.2.1) ∈ connWords ∧ x.2.2.Ok N

theorem advance_field (c : Ctx) (hp : c.posOnly = false) (hm : c.sub.mode = .field) :
    advance c = ({ c with idx := c.idx + 1, sub := { c.sub with helper := none, mode := .op } }, none) := by
  unfold advance
  rw [if_neg (by simp [hp])]
  simp [hm]

/-- One more binary condition, without short circuiting. -/
theorem link_flat (N : Env E) (c : Ctx) (i b : Nat) (acc : Expr E) (w : Str) (o : Conn) (q : Cond E) (tail : List Str) (hf : Full N b c i acc)
    (hp : c.posOnly = false) (hs : c.short = false) (hu : q.unary = false) (hw : (w, o) ∈ connWords) (hq : q.Ok N)
    (ht : c.tokens.drop c.idx = w :: (q.toks ++ tail)) :
    ∃ c' j, i < j ∧ Full N b c' j (o.expr acc q.expr) ∧ Keeps c c' i ∧ c'.head = j ∧ c'.tokens.drop c'.idx = tail ∧ c'.sub.oneLayer = c.sub.oneLayer ∧
      ∀ r, Runs N c' r → Runs N c r := by
  obtain ⟨n, hn, _⟩ := hf.node
  obtain ⟨c3, h, e, t3, s3, k1, k2, k3, k4, k5, k6, _, _, hrun⟩ := link_start N c i b n acc w o q tail hf hn hp hw hq ht
  obtain ⟨c5, hcomp, hkeep, _, hif⟩ := cond_step N q hq { c3 with sub := newSub (!c.short) } (!c.short) tail rfl k4 k6
  rw [hs, hu, if_pos (by rfl)] at hif
  obtain ⟨hd5, hr5, _⟩ := hif
  obtain ⟨T, hm, hc, hb, hg⟩ := merge_step N c i b n acc o hf hn c3 c5 t3 ⟨h, s3⟩ _ q.expr hcomp hkeep.below hkeep.grows
  refine ⟨{ c5 with tree := T, head := c.tree.length, idx := c5.idx + 1, sub := { c3.sub with helper := none, mode := .op } }, c.tree.length,
    lt_of_some hn, ⟨⟨hc.base, hc.lastOp, hc.node, hc.reads⟩, ?_, .inl ⟨rfl, by simp [s3, connCtx]⟩⟩, ?_, rfl, hd5, ?_, ?_⟩
  · simp [s3, connCtx]
  · exact ⟨by rw [hkeep.tokens]; exact k1, by rw [hkeep.depth]; exact k2, by rw [hkeep.short]; exact k3,
      by rw [hkeep.posOnly, hp]; exact k4, hb, hg⟩
  · simp [s3, connCtx]
  · intro r hr
    rw [← hs] at hr5
    refine hrun c5 _ _ _ r hr5 (.inr rfl) hm ?_ hr
    exact advance_field _ (by rw [hkeep.posOnly]; exact k4) (by simp [s3, connCtx])

/-- Chains without short circuiting whose further conditions are binary, whatever follows. -/
theorem chain_flat (N : Env E) : ∀ (ls : List (Str × Conn × Cond E)), LinksOk N ls → (∀ x ∈ ls, x.2.2.unary = false) →
    ∀ (c : Ctx) (i b : Nat) (acc : Expr E) (tail : List Str), Full N b c i acc → c.posOnly = false → c.short = false →
    c.tokens.drop c.idx = linkToks ls ++ tail →
    ∃ c' j, i ≤ j ∧ Full N b c' j (build false acc ls) ∧ Keeps c c' i ∧ (ls ≠ [] → c'.head = j) ∧ (ls = [] → c' = c ∧ j = i) ∧
      c'.tokens.drop c'.idx = tail ∧ c'.sub.oneLayer = c.sub.oneLayer ∧ ∀ r, Runs N c' r → Runs N c r := by
  intro ls
  induction ls with
  | nil =>
    intro _ _ c i b acc tail hf _ _ ht
    exact ⟨c, i, Nat.le_refl _, hf, .refl c i, fun h => absurd rfl h, fun _ => ⟨rfl, rfl⟩, ht, rfl, fun _ h => h⟩
  | cons x ls ih =>
    obtain ⟨w, o, q⟩ := x
    intro hok hun c i b acc tail hf hp hs ht
    have hu := hun _ (List.mem_cons_self ..)
    have hx := hok _ (List.mem_cons_self ..)
    rw [linkToks, List.cons_append, List.append_assoc] at ht
    obtain ⟨c1, j1, a1, a2, a3, a4, a5, a6, a7⟩ := link_flat N c i b acc w o q (linkToks ls ++ tail) hf hp hs hu hx.1 hx.2 ht
    obtain ⟨c2, j2, b1, b2, b3, b4, b5, b6, b7, b8⟩ := ih (fun y hy => hok y (List.mem_cons_of_mem _ hy)) (fun y hy => hun y (List.mem_cons_of_mem _ hy))
      c1 j1 b (o.expr acc q.expr) tail a2 (by rw [a3.posOnly, hp]) (by rw [a3.short, hs]) a5
    refine ⟨c2, j2, by omega, ?_, a3.trans b3 (by omega), fun _ => ?_, (fun h => nomatch h), b6, by rw [b7, a6], fun r hr => a7 r (b8 r hr)⟩
    · have : build false acc ((w, o, q) :: ls) = build false (o.expr acc q.expr) ls := by
        rw [build]
        dsimp only at hu
        simp [hu]
      rw [this]
      exact b2
    · by_cases hl : ls = []
      · obtain ⟨h1, h2⟩ := b5 hl
        rw [h1, h2, a4]
      · exact b4 hl

/-- Chains to the end of the text. -/
theorem chain_end (N : Env E) : ∀ (ls : List (Str × Conn × Cond E)), LinksOk N ls →
    ∀ (c : Ctx) (i b : Nat) (acc : Expr E), Full N b c i acc → c.posOnly = false → c.depth = 0 → c.tokens.drop c.idx = linkToks ls →
    ∃ c' j, i ≤ j ∧ Comp N b c' j (build c.short acc ls) ∧ Keeps c c' i ∧ (ls ≠ [] → c'.head = j) ∧ (ls = [] → c' = c ∧ j = i) ∧
      c'.tokens.drop c'.idx = [] ∧ Runs N c (.ok (c', none)) := by
  intro ls
  induction ls with
  | nil =>
    intro _ c i b acc hf _ hd ht
    exact ⟨c, i, Nat.le_refl _, hf.toComp, .refl c i, fun h => absurd rfl h, fun _ => ⟨rfl, rfl⟩, ht, runs_end N c (tokens_nil ht) hd⟩
  | cons x ls ih =>
    obtain ⟨w, o, q⟩ := x
    intro hok c i b acc hf hp hd ht
    have hx := hok _ (List.mem_cons_self ..)
    have hok' : LinksOk N ls := fun y hy => hok y (List.mem_cons_of_mem _ hy)
    rw [linkToks] at ht
    by_cases hnest : (c.short || q.unary) = true
    · obtain ⟨n, hn, _⟩ := hf.node
      obtain ⟨c3, h, e, t3, s3, k1, k2, k3, k4, k5, k6, _, _, hrun⟩ := link_start N c i b n acc w o q (linkToks ls) hf hn hp hx.1 hx.2 ht
      obtain ⟨c5, hcomp, hkeep, hhead, hif⟩ := cond_step N q hx.2 { c3 with sub := newSub (!c.short) } (!c.short) (linkToks ls) rfl k4 k6
      rw [if_neg (by cases hs : c.short <;> cases hu : q.unary <;> simp_all)] at hif
      obtain ⟨hd5, hf5, _, hr5⟩ := hif
      obtain ⟨c6, j6, a1, a2, a3, a4, a5, a6, a7⟩ := ih hok' c5 _ _ q.expr hf5 (by rw [hkeep.posOnly]; exact k4)
        (by rw [hkeep.depth]; exact k2.trans hd) hd5
      have hk36 : Keeps { c3 with sub := newSub (!c.short) } c6 c3.tree.length := hkeep.trans a3 (by simp)
      have hsh : c5.short = c.short := hkeep.short.trans k3
      rw [hsh] at a2
      obtain ⟨T, hm, hc, hb, hg⟩ := merge_step N c i b n acc o hf hn c3 c6 t3 ⟨h, s3⟩ j6 _ a2 hk36.below hk36.grows
      have htok6 : c6.tokens = c.tokens := hk36.tokens.trans k1
      have hd6 : c6.depth = c.depth := hk36.depth.trans k2
      have hp6 : c6.posOnly = false := hk36.posOnly.trans k4
      have hadv := advance_field { c6 with tree := T, head := (c.tree.length : Int), sub := c3.sub } hp6 (by simp [s3, connCtx])
      have hend : c6.tokens.drop (c6.idx + 1) = [] := by rw [← List.drop_drop, a6]; rfl
      refine ⟨{ c6 with tree := T, head := c.tree.length, idx := c6.idx + 1, sub := { c3.sub with helper := none, mode := .op } }, c.tree.length,
        Nat.le_of_lt (lt_of_some hn), ⟨hc.base, hc.lastOp, hc.node, ?_⟩,
        ⟨htok6, hd6, hk36.short.trans k3, hp6.trans hp.symm, hb, hg⟩, fun _ => rfl, (fun h => nomatch h), hend, ?_⟩
      · rw [build, if_pos hnest]
        exact hc.reads
      · refine hrun c6 none _ _ _ (hr5 _ a7) (.inl rfl) hm hadv ?_
        exact runs_end N _ (tokens_nil hend) (hd6.trans hd)
    · have hs : c.short = false := by cases h : c.short <;> simp_all
      have hu : q.unary = false := by cases h : q.unary <;> simp_all
      obtain ⟨c1, j1, a1, a2, a3, a4, a5, a6, a7⟩ := link_flat N c i b acc w o q (linkToks ls) hf hp hs hu hx.1 hx.2 ht
      obtain ⟨c2, j2, b1, b2, b3, b4, b5, b6, b8⟩ := ih hok' c1 j1 b (o.expr acc q.expr) a2 (by rw [a3.posOnly, hp]) (by rw [a3.depth, hd]) a5
      refine ⟨c2, j2, by omega, ?_, a3.trans b3 (by omega), fun _ => ?_, (fun h => nomatch h), b6, a7 _ b8⟩
      · have : build c.short acc ((w, o, q) :: ls) = build c1.short (o.expr acc q.expr) ls := by
          rw [build, if_neg hnest, a3.short]
        rw [this]
        exact b2
      · by_cases hl : ls = []
        · obtain ⟨h1, h2⟩ := b5 hl
          rw [h1, h2, a4]
        · exact b4 hl

end Verif.Simple
