import Verif.Simple.Read
import Verif.Simple.Field

/-!
# Steps of the parser

`Runs N c r`: with enough rounds `parse` from `c` gives `r`.
-/

namespace Verif.Simple
open Verif.FastVal Verif.Expr

variable {E : Ext}

def Runs (N : Env E) (c : Ctx) (r : Res (Ctx × Option Err)) : Prop := ∃ n0, ∀ n, n0 ≤ n → parse N n c = r

def Gets (N : Env E) (c : Ctx) (r : Ctx × Except Err (Str × TT)) : Prop := ∃ n0, ∀ n, n0 ≤ n → getTok N n c = .ok r

theorem gets_done (N : Env E) (c : Ctx) (t : Str) (r : Ctx × Except Err (Str × TT)) (ht : c.tokens[c.idx]? = some t)
    (hl : look N c t = .done (.ok r)) : Gets N c r := by
  refine ⟨1, fun n hn => ?_⟩
  obtain ⟨m, rfl⟩ : ∃ m, n = m + 1 := ⟨n - 1, by omega⟩
  rw [getTok, ht]
  dsimp only
  rw [hl]

theorem gets_end (N : Env E) (c : Ctx) (ht : c.tokens[c.idx]? = none) : Gets N c (c, .error .noMore) := by
  refine ⟨1, fun n hn => ?_⟩
  obtain ⟨m, rfl⟩ : ∃ m, n = m + 1 := ⟨n - 1, by omega⟩
  rw [getTok, ht]

theorem runs_insert (N : Env E) {c c1 c2 c3 c4 : Ctx} {tok : Str} {ty : TT} {r : Res (Ctx × Option Err)}
    (hg : Gets N c (c1, .ok (tok, ty))) (hc : check c1 ty = (c2, none)) (hi : insert c2 tok ty = .ok c3) (ha : advance c3 = (c4, none))
    (hr : Runs N c4 r) : Runs N c r := by
  obtain ⟨a, ha'⟩ := hg
  obtain ⟨b, hb⟩ := hr
  refine ⟨a + b + 1, fun n hn => ?_⟩
  obtain ⟨m, rfl⟩ : ∃ m, n = m + 1 := ⟨n - 1, by omega⟩
  rw [parse, ha' m (by omega), Res.bind_ok]
  dsimp only
  rw [hc]
  dsimp only
  rw [hi, Res.bind_ok, ha, resume, hb m (by omega)]

theorem runs_last (N : Env E) {c c1 c2 c3 c4 : Ctx} {tok : Str} {ty : TT} {e : Err}
    (hg : Gets N c (c1, .ok (tok, ty))) (hc : check c1 ty = (c2, none)) (hi : insert c2 tok ty = .ok c3) (ha : advance c3 = (c4, some e)) :
    Runs N c (.ok (finish c4 e)) := by
  obtain ⟨a, ha'⟩ := hg
  refine ⟨a + 1, fun n hn => ?_⟩
  obtain ⟨m, rfl⟩ : ∃ m, n = m + 1 := ⟨n - 1, by omega⟩
  rw [parse, ha' m (by omega), Res.bind_ok]
  dsimp only
  rw [hc]
  dsimp only
  rw [hi, Res.bind_ok, ha, resume]

theorem runs_error (N : Env E) {c c1 : Ctx} {e : Err} (hg : Gets N c (c1, .error e)) : Runs N c (.ok (finish c1 e)) := by
  obtain ⟨a, ha'⟩ := hg
  refine ⟨a + 1, fun n hn => ?_⟩
  obtain ⟨m, rfl⟩ : ∃ m, n = m + 1 := ⟨n - 1, by omega⟩
  rw [parse, ha' m (by omega), Res.bind_ok]

theorem runs_end (N : Env E) (c : Ctx) (ht : c.tokens[c.idx]? = none) (hd : c.depth = 0) : Runs N c (.ok (c, none)) := by
  have := runs_error N (gets_end N c ht)
  simpa [finish, hd] using this

theorem runs_check (N : Env E) {c c1 c2 : Ctx} {tok : Str} {ty : TT} {e : Err}
    (hg : Gets N c (c1, .ok (tok, ty))) (hc : check c1 ty = (c2, some e)) (h1 : e ≠ .new) (h2 : e ≠ .oneNew) :
    Runs N c (.ok (finish c2 e)) := by
  obtain ⟨a, ha'⟩ := hg
  refine ⟨a + 1, fun n hn => ?_⟩
  obtain ⟨m, rfl⟩ : ∃ m, n = m + 1 := ⟨n - 1, by omega⟩
  rw [parse, ha' m (by omega), Res.bind_ok]
  dsimp only
  rw [hc]
  dsimp only
  rw [if_neg (by simp [h1, h2])]

theorem runs_new (N : Env E) {c c1 c2 c5 c6 c7 : Ctx} {tok : Str} {ty : TT} {e : Err} {o : Option Err} {r : Res (Ctx × Option Err)}
    (hg : Gets N c (c1, .ok (tok, ty))) (hc : check c1 ty = (c2, some e)) (he : e = .new ∨ e = .oneNew)
    (hn : Runs N { c2 with sub := newSub (e = .oneNew) } (.ok (c5, o))) (ho : o = none ∨ o = some .layerDone)
    (hm : merge c5 c2.sub = .ok (c6, none)) (ha : advance c6 = (c7, none)) (hr : Runs N c7 r) : Runs N c r := by
  obtain ⟨a, ha'⟩ := hg
  obtain ⟨b, hb⟩ := hn
  obtain ⟨d, hd⟩ := hr
  refine ⟨a + b + d + 1, fun n hn => ?_⟩
  obtain ⟨m, rfl⟩ : ∃ m, n = m + 1 := ⟨n - 1, by omega⟩
  rw [parse, ha' m (by omega), Res.bind_ok]
  dsimp only
  rw [hc]
  dsimp only
  rw [if_pos (by rcases he with h | h <;> simp [h]), hb m (by omega), Res.bind_ok]
  have hback : back (parse N m) c5 c2.sub = r := by
    rw [back, hm, Res.bind_ok]
    dsimp only
    rw [ha, resume]
    exact hd m (by omega)
  rcases ho with h | h <;> subst h
  · exact hback
  · dsimp only
    rw [if_pos rfl]
    exact hback

theorem runs_unique (N : Env E) {c : Ctx} {r r' : Res (Ctx × Option Err)} (h : Runs N c r) (h' : Runs N c r') : r = r' := by
  obtain ⟨a, ha⟩ := h
  obtain ⟨b, hb⟩ := h'
  rw [← ha (a + b) (by omega), ← hb (a + b) (by omega)]

/-! ### Operators -/

inductive Bin where
  | eq | ne | lt | le | gt | ge | like | notLike
  deriving DecidableEq

inductive Un where
  | exists | missing | null | notNull
  deriving DecidableEq

inductive Conn where
  | and | or
  deriving DecidableEq

/-- How operators are written. -/
def binWords : List (List Str × Bin) :=
  [([kEq], .eq), ([ascii "="], .eq), ([kNe], .ne), ([kLt], .lt), ([kLe], .le), ([kGt], .gt), ([kGe], .ge), ([kLike], .like), ([ascii "LIKE"], .like),
   ([ascii "NOT", ascii "LIKE"], .notLike)]

def unWords : List (List Str × Un) :=
  [([kExists], .exists), ([ascii "IS", ascii "MISSING"], .missing), ([ascii "IS", ascii "NULL"], .null),
   ([ascii "IS", ascii "NOT", ascii "NULL"], .notNull)]

def connWords : List (Str × Conn) := [(kAnd, .and), (ascii "AND", .and), (kOr, .or), (ascii "OR", .or)]

/-- What is meant. -/
def Bin.expr (o : Bin) (l r : Expr E) : Expr E :=
  match o with
  | .eq => .cmp .eq l r
  | .ne => .cmp .ne l r
  | .lt => .cmp .lt l r
  | .le => .cmp .le l r
  | .gt => .cmp .gt l r
  | .ge => .cmp .ge l r
  | .like => .cmp .like l r
  | .notLike => .not (.cmp .like l r)

def Un.expr (o : Un) (l : Expr E) : Expr E :=
  match o with
  | .exists => .exist l
  | .missing => .notExist l
  | .null => .cmp .eq l (.value (.json .null))
  | .notNull => .cmp .ne l (.value (.json .null))

def Conn.expr (o : Conn) (l r : Expr E) : Expr E :=
  match o with
  | .and => .and (.cons l (.cons r .nil))
  | .or => .or (.cons l (.cons r .nil))

/-- The text of the node. -/
def Bin.tok : Bin → Str
  | .eq => kEq | .ne => kNe | .lt => kLt | .le => kLe | .gt => kGt | .ge => kGe | .like => kLike | .notLike => kNotLike

def Un.tok : Un → Str
  | .exists => kExists | .missing => kIsMissing | .null => kIsNull | .notNull => kIsNotNull

def Conn.tok : Conn → Str
  | .and => kAnd | .or => kOr

/-- The state of `opTokenContext` after the operator. -/
def Bin.ctx (o : Bin) (old : OpCtx) : OpCtx :=
  match o with
  | .eq | .ne => old
  | .lt | .le | .gt | .ge => .compare
  | .like | .notLike => .like

theorem tokens_head {c : Ctx} {t : Str} {r : List Str} (h : c.tokens.drop c.idx = t :: r) :
    c.tokens[c.idx]? = some t ∧ c.tokens.drop (c.idx + 1) = r := by
  constructor
  · rw [← List.head?_drop, h]; rfl
  · rw [← List.drop_drop, h]; rfl

theorem tokens_nil {c : Ctx} (h : c.tokens.drop c.idx = []) : c.tokens[c.idx]? = none := by
  rw [← List.head?_drop, h]; rfl

theorem gets_bin (N : Env E) (c : Ctx) (w : List Str) (o : Bin) (hw : (w, o) ∈ binWords) (rest : List Str)
    (ht : c.tokens.drop c.idx = w ++ rest) :
    Gets N c ({ c with idx := c.idx + (w.length - 1), sub := { c.sub with opCtx := o.ctx c.sub.opCtx } }, .ok (o.tok, .op)) := by
  simp only [binWords, List.mem_cons, List.not_mem_nil, or_false, Prod.mk.injEq] at hw
  rcases hw with ⟨rfl, rfl⟩ | ⟨rfl, rfl⟩ | ⟨rfl, rfl⟩ | ⟨rfl, rfl⟩ | ⟨rfl, rfl⟩ | ⟨rfl, rfl⟩ | ⟨rfl, rfl⟩ | ⟨rfl, rfl⟩ | ⟨rfl, rfl⟩ | ⟨rfl, rfl⟩
  all_goals
    refine gets_done N c _ _ (tokens_head ht).1 ?_
  all_goals first
    | rfl
    | (show Next.done (.ok (multi c)) = _
       rw [multi, ht]
       rfl)

theorem gets_un (N : Env E) (c : Ctx) (w : List Str) (o : Un) (hw : (w, o) ∈ unWords) (rest : List Str)
    (ht : c.tokens.drop c.idx = w ++ rest) :
    Gets N c ({ c with idx := c.idx + (w.length - 1), sub := { c.sub with opCtx := .noField } }, .ok (o.tok, .op)) := by
  simp only [unWords, List.mem_cons, List.not_mem_nil, or_false, Prod.mk.injEq] at hw
  rcases hw with ⟨rfl, rfl⟩ | ⟨rfl, rfl⟩ | ⟨rfl, rfl⟩ | ⟨rfl, rfl⟩
  all_goals
    refine gets_done N c _ _ (tokens_head ht).1 ?_
  all_goals first
    | rfl
    | (show Next.done (.ok (multi c)) = _
       rw [multi, ht]
       rfl)

theorem gets_conn (N : Env E) (c : Ctx) (w : Str) (o : Conn) (hw : (w, o) ∈ connWords) (rest : List Str)
    (ht : c.tokens.drop c.idx = w :: rest) (i : Nat) (hs : c.sub.lastSub = i) :
    Gets N c ({ c with sub := { c.sub with opCtx := .chain } }, .ok (o.tok, .op)) := by
  have hmark : ∀ t, isChainTok t = true → mark c t = { c with sub := { c.sub with opCtx := .chain } } := by
    intro t h
    unfold mark
    rw [if_pos]
    simp only [h, hs, Bool.true_and, decide_eq_true_eq, ne_eq]
    intro h'
    exact absurd h' (by omega)
  simp only [connWords, List.mem_cons, List.not_mem_nil, or_false, Prod.mk.injEq] at hw
  rcases hw with ⟨rfl, rfl⟩ | ⟨rfl, rfl⟩ | ⟨rfl, rfl⟩ | ⟨rfl, rfl⟩
  all_goals
    refine gets_done N c _ _ (tokens_head ht).1 ?_
  · show Next.done (.ok (mark c kAnd, .ok (kAnd, .op))) = _
    rw [hmark _ (by decide)]; rfl
  · show Next.done (.ok (mark c kAnd, .ok (kAnd, .op))) = _
    rw [hmark _ (by decide)]; rfl
  · show Next.done (.ok (mark c kOr, .ok (kOr, .op))) = _
    rw [hmark _ (by decide)]; rfl
  · show Next.done (.ok (mark c kOr, .ok (kOr, .op))) = _
    rw [hmark _ (by decide)]; rfl

/-! ### Trees -/

theorem modifyAt_some {t : List Node} {i : Nat} {a : Node} (h : t[i]? = some a) (f : Node → Node) :
    modifyAt t (i : Int) f = .ok (t.set i (f a)) := by
  show (match t[i]? with | some a => Res.ok (t.set i (f a)) | none => .panic) = _
  rw [h]

theorem nodeAt_some {t : List Node} {i : Nat} {a : Node} (h : t[i]? = some a) : nodeAt t (i : Int) = .ok a := by
  show Res.idx t i = _
  exact Res.idx_of_some h

/-- The binary operators in the tree. -/
theorem out_bin (N : Env E) (o : Bin) (t : List Node) (d p l r : Nat) (node : Node) (a b : Expr E) (hp : t[p]? = some node) (hty : node.ty = .op)
    (htok : node.tok = o.tok) (hl : node.left = l) (hr : node.right = r) (hll : l < t.length) (hrl : r < t.length)
    (ha : outNode N t d l = .ok (some a)) (hb : outNode N t d r = .ok (some b)) : outNode N t (d + 1) p = .ok (some (o.expr a b)) := by
  have h1 : leftOf t p = .ok (some l) := by
    unfold leftOf; rw [hp]; dsimp only; rw [hl]
    show (if l < t.length then Res.ok (some l) else _) = _
    rw [if_pos hll]
  have h2 : rightOf t p = some r := by
    unfold rightOf; rw [hp]; dsimp only; rw [hl, hr]
    show (if (l < t.length && r < t.length) = true then some r else none) = _
    rw [if_pos (by simp [hll, hrl])]
  rw [outNode, hp]
  dsimp only
  rw [hty, htok]
  cases o <;>
  · dsimp only [Bin.tok]
    simp only [show opOf kEq = some (.cmp .eq) from rfl, show opOf kNe = some (.cmp .ne) from rfl, show opOf kLt = some (.cmp .lt) from rfl,
      show opOf kLe = some (.cmp .le) from rfl, show opOf kGt = some (.cmp .gt) from rfl, show opOf kGe = some (.cmp .ge) from rfl,
      show opOf kLike = some (.cmp .like) from rfl, show opOf kNotLike = some .notLike from rfl]
    simp only [outOp, h1, h2, Res.bind_ok, ha, hb, Verif.Filter.andThen, Bin.expr]

theorem out_un (N : Env E) (o : Un) (t : List Node) (d p l : Nat) (node : Node) (a : Expr E) (hp : t[p]? = some node) (hty : node.ty = .op)
    (htok : node.tok = o.tok) (hl : node.left = l) (hll : l < t.length)
    (ha : outNode N t d l = .ok (some a)) : outNode N t (d + 1) p = .ok (some (o.expr a)) := by
  have h1 : leftOf t p = .ok (some l) := by
    unfold leftOf; rw [hp]; dsimp only; rw [hl]
    show (if l < t.length then Res.ok (some l) else _) = _
    rw [if_pos hll]
  rw [outNode, hp]
  dsimp only
  rw [hty, htok]
  cases o <;>
  · dsimp only [Un.tok]
    simp only [show opOf kExists = some .exists from rfl, show opOf kIsMissing = some .missing from rfl, show opOf kIsNull = some .null from rfl,
      show opOf kIsNotNull = some .notNull from rfl]
    simp only [outOp, h1, Res.bind_ok, ha, Verif.Filter.andThen, Un.expr]

theorem out_conn (N : Env E) (o : Conn) (t : List Node) (d p l r : Nat) (node : Node) (a b : Expr E) (hp : t[p]? = some node) (hty : node.ty = .op)
    (htok : node.tok = o.tok) (hl : node.left = l) (hr : node.right = r) (hll : l < t.length) (hrl : r < t.length)
    (ha : outNode N t d l = .ok (some a)) (hb : outNode N t d r = .ok (some b)) : outNode N t (d + 1) p = .ok (some (o.expr a b)) := by
  have h1 : leftOf t p = .ok (some l) := by
    unfold leftOf; rw [hp]; dsimp only; rw [hl]
    show (if l < t.length then Res.ok (some l) else _) = _
    rw [if_pos hll]
  have h2 : rightOf t p = some r := by
    unfold rightOf; rw [hp]; dsimp only; rw [hl, hr]
    show (if (l < t.length && r < t.length) = true then some r else none) = _
    rw [if_pos (by simp [hll, hrl])]
  rw [outNode, hp]
  dsimp only
  rw [hty, htok]
  cases o <;>
  · dsimp only [Conn.tok]
    simp only [show opOf kAnd = some .and from rfl, show opOf kOr = some .or from rfl]
    simp only [outOp, h1, h2, Res.bind_ok, ha, hb, Verif.Filter.andThen, Conn.expr]

end Verif.Simple
