import Verif.Simple.Theorems

/-!
# Groups in parentheses
-/

namespace Verif.Simple
open Verif.FastVal Verif.Expr

variable {E : Ext}

abbrev Link (E : Ext) := Str × Conn × Cond E

/-! ### Specification -/

/-- What a text may start with: a condition, or a chain in parentheses that starts so. -/
inductive Grp (E : Ext) where
  | cond (q : Cond E)
  | group (g : Grp E) (ls : List (Link E))

def Grp.toks : Grp E → List Str
  | .cond q => q.toks
  | .group g ls => ascii "(" :: (g.toks ++ linkToks ls ++ [ascii ")"])

/-- Each connective joins everything before it with the next condition. -/
def joinLeft (acc : Expr E) : List (Link E) → Expr E
  | [] => acc
  | (_, o, q) :: r => joinLeft (o.expr acc q.expr) r

def Grp.expr : Grp E → Expr E
  | .cond q => q.expr
  | .group g ls => joinLeft g.expr ls

/-- The conditions have a meaning, and inside the parentheses there is only one condition or group, or the text is without short
circuiting and the conditions after the first have a right side. -/
def Grp.Spec (N : Env E) (short : Bool) : Grp E → Prop
  | .cond q => q.Spec N
  | .group g ls => g.Spec N short ∧ LinksSpec N ls ∧ (ls = [] ∨ short = false ∧ ∀ x ∈ ls, x.2.2.unary = false)

/-- How a chain is nested that ends with `f`: as for `build`. -/
def buildTo (short : Bool) (f : Expr E → Expr E) (acc : Expr E) : List (Link E) → Expr E
  | [] => f acc
  | (_, o, q) :: r => if short || q.unary then o.expr acc (buildTo short f q.expr r) else buildTo short f (o.expr acc q.expr) r

/-! ### Proofs -/

theorem buildTo_id (s : Bool) : ∀ (ls : List (Link E)) (acc : Expr E), buildTo s id acc ls = build s acc ls := by
  intro ls
  induction ls with
  | nil => intro acc; rfl
  | cons x ls ih =>
    obtain ⟨w, o, q⟩ := x
    intro acc
    rw [buildTo, build, ih, ih]

theorem build_flat : ∀ (ls : List (Link E)) (acc : Expr E), (∀ x ∈ ls, x.2.2.unary = false) → build false acc ls = joinLeft acc ls := by
  intro ls
  induction ls with
  | nil => intro acc _; rfl
  | cons x ls ih =>
    obtain ⟨w, o, q⟩ := x
    intro acc h
    have hu := h _ (List.mem_cons_self ..)
    dsimp only at hu
    rw [build, joinLeft, ← ih _ (fun y hy => h y (List.mem_cons_of_mem _ hy))]
    simp [hu]

theorem gets_open (N : Env E) (c : Ctx) (rest : List Str) (hp : c.posOnly = false) (ht : c.tokens.drop c.idx = [40] :: rest) :
    Gets N c ({ c with idx := c.idx + 1, depth := c.depth + 1 }, .ok ([40], .paren)) := by
  refine gets_done N c [40] _ (tokens_head ht).1 ?_
  have hl : look N c [40] = .done (.ok (openParen c, .ok ([40], .paren))) := by
    cases hm : c.sub.mode <;> simp only [look, hm] <;> rfl
  rw [hl]
  simp [openParen, advance, hp]

theorem gets_close (N : Env E) (c : Ctx) (rest : List Str) (d i : Nat) (hd : c.depth = d + 1) (hs : c.sub.lastOp = i)
    (ht : c.tokens.drop c.idx = [41] :: rest) :
    Gets N c ({ c with depth := d }, .ok ([41], .endParen)) := by
  refine gets_done N c [41] _ (tokens_head ht).1 ?_
  have hl : look N c [41] = endParen (closeParen c) := by
    cases hm : c.sub.mode <;> simp only [look, hm] <;> rfl
  rw [hl]
  have hne : ¬ c.sub.lastOp = -1 := by rw [hs]; omega
  have hc : closeParen c = ({ c with depth := d }, none) := by
    simp [closeParen, hd, hne]
  rw [hc]
  rfl

/-- A closing parenthesis ends a sub-context. -/
theorem close_step (N : Env E) (c : Ctx) (rest : List Str) (d i : Nat) (hd : c.depth = d + 1) (hs : c.sub.lastOp = i)
    (hm : c.sub.mode = .op ∧ c.sub.opCtx = .chain ∨ c.sub.mode = .chain) (ht : c.tokens.drop c.idx = [41] :: rest) :
    Runs N c (.ok ({ c with depth := d, posOnly := true }, some .layerDone)) := by
  have hg := gets_close N c rest d i hd hs ht
  have := runs_check N (e := .layerDone) (c2 := { c with depth := d, posOnly := true }) hg
    (by rcases hm with ⟨h, _⟩ | h <;> simp [check, h]) (by simp) (by simp)
  simpa [finish] using this

/-- An opening parenthesis where a condition may stand. -/
theorem open_step (N : Env E) (c c5 c6 c7 : Ctx) (rest : List Str) (o : Option Err) (r : Res (Ctx × Option Err)) (hp : c.posOnly = false)
    (hm : c.sub.mode = .field) (ht : c.tokens.drop c.idx = [40] :: rest)
    (hn : Runs N { c with idx := c.idx + 1, depth := c.depth + 1, sub := newSub false } (.ok (c5, o))) (ho : o = none ∨ o = some .layerDone)
    (hmg : merge c5 c.sub = .ok (c6, none)) (ha : advance c6 = (c7, none)) (hr : Runs N c7 r) : Runs N c r := by
  refine runs_new N (e := .new) (c2 := { c with idx := c.idx + 1, depth := c.depth + 1 }) (gets_open N c rest hp ht) ?_ (.inl rfl) ?_ ho hmg ha hr
  · simp [check, hm]
  · simpa using hn

theorem merge_unused (c : Ctx) : merge c (newSub false) = .ok (c, none) := by
  unfold merge
  rw [if_pos (by decide)]

/-- Groups at the start of a chain. -/
theorem group_step (N : Env E) (s : Bool) : ∀ (g : Grp E), g.Spec N s → ∀ (c : Ctx) (rest : List Str), c.sub = newSub false → c.posOnly = false →
    c.short = s → c.tokens.drop c.idx = g.toks ++ rest →
    ∃ c' j, Full N c.tree.length c' j g.expr ∧ Keeps c c' c.tree.length ∧ (c.head = -1 → c'.head = (j : Int)) ∧ c'.tokens.drop c'.idx = rest ∧
      ∀ r, Runs N c' r → Runs N c r := by
  intro g
  induction g with
  | cond q =>
    intro hg c rest hs hp _ ht
    obtain ⟨c', h1, h2, h3, h4⟩ := cond_step N q (Cond.Spec.ok hg) c false rest hs hp ht
    simp only [Bool.false_and, Bool.false_eq_true, if_false] at h4
    obtain ⟨h5, h6, _, h7⟩ := h4
    exact ⟨c', _, h6, h2, fun h => by rw [h3, if_pos h], h5, h7⟩
  | group g ls ih =>
    intro hg c rest hs hp hsh ht
    obtain ⟨hg1, hls, hfl⟩ := hg
    have hlo : LinksOk N ls := fun x hx => ⟨(hls x hx).1, (hls x hx).2.ok⟩
    have ht' : c.tokens.drop c.idx = [40] :: (g.toks ++ (linkToks ls ++ ([41] :: rest))) := by
      rw [ht, Grp.toks]
      simp [ascii]
    have ht1 := (tokens_head ht').2
    obtain ⟨c1, j1, f1, k1, e1, t1, r1⟩ := ih hg1 { c with idx := c.idx + 1, depth := c.depth + 1, sub := newSub false }
      (linkToks ls ++ ([41] :: rest)) rfl hp hsh ht1
    have hch : ∃ c2 j2, j1 ≤ j2 ∧ Full N c.tree.length c2 j2 (joinLeft g.expr ls) ∧ Keeps c1 c2 j1 ∧ (c.head = -1 → c2.head = (j2 : Int)) ∧
        c2.tokens.drop c2.idx = [41] :: rest ∧ ∀ r, Runs N c2 r → Runs N c1 r := by
      rcases hfl with rfl | ⟨h1, h2⟩
      · exact ⟨c1, j1, Nat.le_refl _, f1, .refl _ _, e1, t1, fun _ h => h⟩
      · obtain ⟨c2, j2, a1, a2, a3, a4, a5, a6, _, a8⟩ := chain_flat N ls hlo h2 c1 j1 _ g.expr ([41] :: rest) f1 (by rw [k1.posOnly]; exact hp)
          (by rw [k1.short]; exact hsh.trans h1) t1
        refine ⟨c2, j2, a1, by rw [← build_flat ls _ h2]; exact a2, a3, ?_, a6, a8⟩
        intro hh
        by_cases hl : ls = []
        · obtain ⟨x, y⟩ := a5 hl
          rw [x, y]; exact e1 hh
        · exact a4 hl
    obtain ⟨c2, j2, a1, f2, k2, e2, t2, r2⟩ := hch
    have k12 := k1.trans k2 f1.base
    have hcl := close_step N c2 rest c.depth j2 k12.depth f2.lastOp f2.mode t2
    refine ⟨{ c2 with depth := c.depth, posOnly := false, idx := c2.idx + 1 }, j2, ⟨⟨f2.base, f2.lastOp, f2.node, f2.reads⟩, f2.lastSub, f2.mode⟩,
      ⟨k12.tokens, rfl, k12.short, hp.symm, k12.below, k12.grows⟩, e2, (tokens_head t2).2, ?_⟩
    intro r hr
    refine open_step N c { c2 with depth := c.depth, posOnly := true } { c2 with depth := c.depth, posOnly := true } _ _ (some .layerDone) r hp
      (by rw [hs]; rfl) ht' (r1 _ (r2 _ hcl)) (.inr rfl) (by rw [hs]; exact merge_unused _) ?_ hr
    simp [advance]

/-- What does not change to the end of the text. -/
structure Holds (c c' : Ctx) (b : Nat) : Prop where
  tokens : c'.tokens = c.tokens
  short : c'.short = c.short
  below : ∀ i, i < b → c'.tree[i]? = c.tree[i]?
  grows : Grows c.tree c'.tree

/-- The sub-context expects no value, and no value next. -/
def Calm (s : Sub) : Prop := s.mode ≠ .value ∧ (s.mode = .field ∨ s.mode = .op → s.opCtx = .chain)

/-- The end of the text: all parentheses are closed, and there are no more tokens. -/
structure Ended (c : Ctx) (o : Option Err) : Prop where
  depth : c.depth = 0
  ends : (o = none ∧ c.posOnly = false ∧ Calm c.sub ∧ c.tokens.drop c.idx = []) ∨
    (o = some .layerDone ∧ c.posOnly = true ∧ c.tokens.drop (c.idx + 1) = [])

/-- After a complete expression, in parentheses of depth `d`, the tokens `ts` to the end of the text make `f` of it. -/
def Tail (N : Env E) (s : Bool) (d : Nat) (ts : List Str) (f : Expr E → Expr E) : Prop :=
  ∀ (c : Ctx) (i b : Nat) (acc : Expr E), Full N b c i acc → c.posOnly = false → c.depth = d → c.short = s → c.tokens.drop c.idx = ts →
    ∃ c' j o, i ≤ j ∧ Comp N b c' j (f acc) ∧ Holds c c' i ∧ (c'.head = (j : Int) ∨ c'.head = c.head ∧ j = i) ∧ Ended c' o ∧
      (d = 0 → o = none) ∧ Runs N c (.ok (c', o))

theorem tail_end (N : Env E) (s : Bool) : Tail N s 0 [] id := by
  intro c i b acc hf hp hd _ ht
  refine ⟨c, i, none, Nat.le_refl _, hf.toComp, ⟨rfl, rfl, fun _ _ => rfl, .refl _⟩, .inr ⟨rfl, rfl⟩, ⟨hd, .inl ⟨rfl, hp, ?_, ht⟩⟩, fun _ => rfl,
    runs_end N c (tokens_nil ht) hd⟩
  rcases hf.mode with ⟨h, h'⟩ | h <;> simp [Calm, *]

theorem tail_close (N : Env E) (s : Bool) : Tail N s 1 [[41]] id := by
  intro c i b acc hf hp hd _ ht
  refine ⟨{ c with depth := 0, posOnly := true }, i, some .layerDone, Nat.le_refl _, ⟨hf.base, hf.lastOp, hf.node, hf.reads⟩,
    ⟨rfl, rfl, fun _ _ => rfl, .refl _⟩, .inr ⟨rfl, rfl⟩, ⟨rfl, .inr ⟨rfl, rfl, (tokens_head ht).2⟩⟩, fun h => (by simp at h),
    close_step N c [] 0 i hd hf.lastOp hf.mode ht⟩

/-- Moving on at the end of the text. -/
theorem Ended.advance (N : Env E) {c : Ctx} {o : Option Err} (h : Ended c o) (T : List Node) (hd : Int) (sub : Sub) (hcalm : Calm sub) :
    ∃ c', advance { c with tree := T, head := hd, sub := sub } = (c', none) ∧ c'.tree = T ∧ c'.head = hd ∧ c'.tokens = c.tokens ∧ c'.short = c.short ∧
      c'.sub.lastOp = sub.lastOp ∧ Runs N c' (.ok (c', none)) ∧ (sub.mode ≠ .chain → Ended c' none) := by
  obtain ⟨hm, hop⟩ := hcalm
  obtain ⟨h0, h | h⟩ := h
  · obtain ⟨rfl, h1, h2, h3⟩ := h
    have h4 : c.tokens.drop (c.idx + 1) = [] := by rw [← List.drop_drop, h3]; rfl
    unfold Simple.advance
    rw [if_neg (by simp [h1])]
    dsimp only
    cases hmm : sub.mode with
    | field =>
      refine ⟨_, rfl, rfl, rfl, rfl, rfl, rfl, ?_, fun _ => ⟨h0, .inl ⟨rfl, h1, ⟨by simp, fun _ => hop (.inl hmm)⟩, h4⟩⟩⟩
      exact runs_end N _ (tokens_nil h4) h0
    | chain =>
      refine ⟨_, rfl, rfl, rfl, rfl, rfl, rfl, ?_, fun h => absurd rfl h⟩
      exact runs_end N _ (tokens_nil h4) h0
    | value => exact absurd hmm hm
    | op =>
      dsimp only
      have hoc := hop (.inr hmm)
      rw [hoc]
      refine ⟨_, rfl, rfl, rfl, rfl, rfl, rfl, ?_, fun _ => ⟨h0, .inl ⟨rfl, h1, ⟨by simp, fun _ => rfl⟩, h4⟩⟩⟩
      exact runs_end N _ (tokens_nil h4) h0
  · obtain ⟨rfl, h1, h3⟩ := h
    refine ⟨{ c with tree := T, head := hd, sub := sub, idx := c.idx + 1, posOnly := false }, ?_, rfl, rfl, rfl, rfl, rfl, ?_, fun _ => ⟨h0,
      .inl ⟨rfl, rfl, ⟨hm, hop⟩, h3⟩⟩⟩
    · simp [Simple.advance, h1]
    · exact runs_end N _ (tokens_nil h3) h0

/-- Chains to the end of the text. -/
theorem tail_chain (N : Env E) (s : Bool) (d : Nat) (ts : List Str) (f : Expr E → Expr E) (htail : Tail N s d ts f) :
    ∀ (ls : List (Link E)), LinksOk N ls → Tail N s d (linkToks ls ++ ts) (fun acc => buildTo s f acc ls) := by
  intro ls
  induction ls with
  | nil => intro _; exact htail
  | cons x ls ih =>
    obtain ⟨w, o, q⟩ := x
    intro hok c i b acc hf hp hd hsh ht
    have hx := hok _ (List.mem_cons_self ..)
    have hok' : LinksOk N ls := fun y hy => hok y (List.mem_cons_of_mem _ hy)
    rw [linkToks, List.cons_append, List.append_assoc] at ht
    by_cases hnest : (s || q.unary) = true
    · obtain ⟨n, hn, _⟩ := hf.node
      obtain ⟨c3, h, e, t3, s3, k1, k2, k3, k4, k5, k6, _, _, hrun⟩ := link_start N c i b n acc w o q (linkToks ls ++ ts) hf hn hp hx.1 hx.2 ht
      obtain ⟨c5, hcomp, hkeep, hhead, hif⟩ := cond_step N q hx.2 { c3 with sub := newSub (!c.short) } (!c.short) (linkToks ls ++ ts) rfl k4 k6
      rw [if_neg (by rw [hsh]; revert hnest; cases s <;> cases q.unary <;> decide)] at hif
      obtain ⟨hd5, hf5, _, hr5⟩ := hif
      obtain ⟨c6, j6, oe, a1, a2, a3, a4, a5, _, a6⟩ := ih hok' c5 _ _ q.expr hf5 (by rw [hkeep.posOnly]; exact k4)
        (by rw [hkeep.depth]; exact k2.trans hd) ((hkeep.short.trans k3).trans hsh) hd5
      have hbel : ∀ x, x < c3.tree.length → c6.tree[x]? = c3.tree[x]? := by
        intro x hx
        rw [a3.below x (by simp; omega)]
        exact hkeep.below x hx
      obtain ⟨T, hm, hc, hb, hg⟩ := merge_step N c i b n acc o hf hn c3 c6 t3 ⟨h, s3⟩ j6 _ a2 hbel (hkeep.grows.trans a3.grows)
      have hmode : c3.sub.mode = .field := by simp [s3, connCtx]
      have hctx : c3.sub.opCtx = .chain := by simp [s3, connCtx]
      obtain ⟨c7, hadv, b1, b2, b3, b4, b5, b8, b6⟩ := a5.advance N T c.tree.length c3.sub ⟨by simp [hmode], fun _ => hctx⟩
      refine ⟨c7, c.tree.length, none, Nat.le_of_lt (lt_of_some hn), ⟨hc.base, b5.trans hc.lastOp, ?_, ?_⟩,
        ⟨b3.trans ((a3.tokens.trans hkeep.tokens).trans k1), b4.trans ((a3.short.trans hkeep.short).trans k3), ?_, ?_⟩, .inl b2, b6 (by simp [hmode]), fun _ => rfl, ?_⟩
      · rw [b1]; exact hc.node
      · dsimp only
        rw [b1, buildTo, if_pos hnest]
        exact hc.reads
      · rw [b1]; exact hb
      · rw [b1]; exact hg
      · refine hrun c6 oe _ c7 _ (hr5 _ a6) ?_ hm hadv b8
        rcases a5.ends with h | h
        · exact .inl h.1
        · exact .inr h.1
    · have hs : s = false := by revert hnest; cases s <;> simp
      have hu : q.unary = false := by revert hnest; cases q.unary <;> simp
      obtain ⟨c1, j1, a1, a2, a3, a4, a5, a6, a7⟩ := link_flat N c i b acc w o q (linkToks ls ++ ts) hf hp (hsh.trans hs) hu hx.1 hx.2 ht
      obtain ⟨c2, j2, oe, b1, b2, b3, b4, b5, b7, b6⟩ := ih hok' c1 j1 b (o.expr acc q.expr) a2 (by rw [a3.posOnly, hp]) (by rw [a3.depth, hd])
        (by rw [a3.short, hsh]) a5
      refine ⟨c2, j2, oe, by omega, ?_, ⟨b3.tokens.trans a3.tokens, b3.short.trans a3.short, ?_, a3.grows.trans b3.grows⟩, ?_, b5, b7, a7 _ b6⟩
      · dsimp only
        rw [buildTo, if_neg hnest]
        exact b2
      · intro x hx
        rw [b3.below x (by omega), a3.below x hx]
      · rcases b4 with h | ⟨h1, h2⟩
        · exact .inl h
        · exact .inl (by rw [h1, a4, h2])

/-- A group as the last link. -/
theorem tail_group (N : Env E) (s : Bool) (w : Str) (o : Conn) (g : Grp E) (ls : List (Link E)) (hw : (w, o) ∈ connWords) (hg : g.Spec N s)
    (hls : LinksOk N ls) :
    Tail N s 0 (w :: [40] :: (g.toks ++ (linkToks ls ++ [[41]]))) (fun acc => o.expr acc (build s g.expr ls)) := by
  intro c i b acc hf hp hd hsh ht
  obtain ⟨n, hn, _⟩ := hf.node
  have ht1 : (connCtx c i n o).tokens.drop (connCtx c i n o).idx = [40] :: (g.toks ++ (linkToks ls ++ [[41]])) := (tokens_head ht).2
  have ht2 := (tokens_head ht1).2
  obtain ⟨c1, j1, f1, k1, e1, t1, r1⟩ := group_step N s g hg
    { connCtx c i n o with idx := (connCtx c i n o).idx + 1, depth := (connCtx c i n o).depth + 1, sub := newSub false } (linkToks ls ++ [[41]]) rfl hp hsh ht2
  obtain ⟨c2, j2, oe, b1, b2, b3, b4, b5, b7, b6⟩ := tail_chain N s 1 [[41]] id (tail_close N s) ls hls c1 j1 _ g.expr f1 (by rw [k1.posOnly]; exact hp)
    (by rw [k1.depth]; show c.depth + 1 = 1; rw [hd]) (by rw [k1.short]; exact hsh) t1
  dsimp only at b2
  rw [buildTo_id] at b2
  have hbel : ∀ x, x < (connCtx c i n o).tree.length → c2.tree[x]? = (connCtx c i n o).tree[x]? := by
    intro x hx
    have := f1.base
    rw [b3.below x (Nat.lt_of_lt_of_le hx this)]
    exact k1.below x hx
  obtain ⟨T, hm, hc, hb, hgr⟩ := merge_step N c i b n acc o hf hn
    (connCtx c i n o) c2 rfl ⟨none, rfl⟩ j2 _ b2 hbel (k1.grows.trans b3.grows)
  obtain ⟨c7, hadv, d1, d2, d3, d4, d5, d8, d6⟩ := b5.advance N T c.tree.length (connCtx c i n o).sub ⟨by simp [connCtx], fun _ => rfl⟩
  refine ⟨c7, c.tree.length, none, Nat.le_of_lt (lt_of_some hn), ⟨hc.base, d5.trans hc.lastOp, ?_, ?_⟩,
    ⟨d3.trans (b3.tokens.trans k1.tokens), d4.trans (b3.short.trans k1.short), ?_, ?_⟩, .inl d2, d6 (by simp [connCtx]), fun _ => rfl, ?_⟩
  · rw [d1]; exact hc.node
  · rw [d1]; exact hc.reads
  · rw [d1]; exact hb
  · rw [d1]; exact hgr
  · refine conn_step N c i b n acc w o _ hf hn hp hw ht _ ?_
    refine open_step N (connCtx c i n o) c2 _ c7 _ oe _ hp rfl ht1 (r1 _ b6) ?_ hm hadv d8
    rcases b5.ends with h | h
    · exact .inl h.1
    · exact .inr h.1

theorem joinLeft_isCond : ∀ (ls : List (Link E)) (acc : Expr E), IsCond acc → IsCond (joinLeft acc ls) := by
  intro ls
  induction ls with
  | nil => intro acc h; exact h
  | cons x ls ih => intro acc h; exact ih _ (Conn.isCond _ _ _)

theorem Grp.isCond : ∀ g : Grp E, IsCond g.expr
  | .cond q => q.isCond
  | .group g ls => joinLeft_isCond ls _ g.isCond

theorem buildTo_isCond (short : Bool) (f : Expr E → Expr E) (hf : ∀ e, IsCond e → IsCond (f e)) :
    ∀ (ls : List (Link E)) (acc : Expr E), IsCond acc → IsCond (buildTo short f acc ls) := by
  intro ls
  induction ls with
  | nil => intro acc h; exact hf _ h
  | cons x ls ih =>
    obtain ⟨w, o, q⟩ := x
    intro acc h
    rw [buildTo]
    split
    · exact Conn.isCond o _ _
    · exact ih _ (Conn.isCond o _ _)

/-- A text: a group or condition, links, and the rest. -/
theorem text_tail (N : Env E) (g : Grp E) (ls : List (Link E)) (ts : List Str) (f : Expr E → Expr E) (text : Str) (s : Bool)
    (hs : s = decide (OneSymbol (g.toks ++ (linkToks ls ++ ts)))) (hg : g.Spec N s) (hls : LinksSpec N ls)
    (htail : Tail N s 0 ts f) (hf : ∀ e, IsCond e → IsCond (f e)) (ht : Words (g.toks ++ (linkToks ls ++ ts)) text) :
    ParsesTo N text (.ok (some (buildTo s f g.expr ls))) := by
  have htok := fields_words _ _ ht
  have hlo : LinksOk N ls := fun x hx => ⟨(hls x hx).1, (hls x hx).2.ok⟩
  have hsh : (newCtx (g.toks ++ (linkToks ls ++ ts))).short = s := (shortOk_eq _).trans hs.symm
  obtain ⟨c1, j1, f1, k1, e1, t1, r1⟩ := group_step N s g hg (newCtx (g.toks ++ (linkToks ls ++ ts))) (linkToks ls ++ ts) rfl rfl hsh rfl
  obtain ⟨c2, j2, oe, b1, b2, b3, b4, b5, b7, b6⟩ := tail_chain N s 0 ts f htail ls hlo c1 j1 _ g.expr f1 (by rw [k1.posOnly]; rfl)
    (by rw [k1.depth]; rfl) (by rw [k1.short]; exact hsh) t1
  have ho := b7 rfl
  subst ho
  refine parses_of_runs N text _ c2 j2 _ htok (r1 _ b6) ?_ b2 (buildTo_isCond s f hf ls _ g.isCond)
  rcases b4 with h | ⟨h, rfl⟩
  · exact h
  · rw [h]; exact e1 rfl

/-- A text in parentheses as a whole. -/
theorem text_whole (N : Env E) (g : Grp E) (ls : List (Link E)) (text : Str) (s : Bool)
    (hs : s = decide (OneSymbol ([40] :: (g.toks ++ (linkToks ls ++ [[41]]))))) (hg : g.Spec N s) (hls : LinksSpec N ls)
    (ht : Words ([40] :: (g.toks ++ (linkToks ls ++ [[41]]))) text) : ParsesTo N text (.ok (some (build s g.expr ls))) := by
  have htok := fields_words _ _ ht
  have hlo : LinksOk N ls := fun x hx => ⟨(hls x hx).1, (hls x hx).2.ok⟩
  generalize hc : newCtx ([40] :: (g.toks ++ (linkToks ls ++ [[41]]))) = c
  have hsh : c.short = s := by rw [← hc]; exact (shortOk_eq _).trans hs.symm
  have ht1 : c.tokens.drop c.idx = [40] :: (g.toks ++ (linkToks ls ++ [[41]])) := by rw [← hc]; rfl
  have hp : c.posOnly = false := by rw [← hc]; rfl
  have hsub : c.sub = newSub false := by rw [← hc]; rfl
  have htree : c.tree = [] := by rw [← hc]; rfl
  have hdep : c.depth = 0 := by rw [← hc]; rfl
  have hhead : c.head = -1 := by rw [← hc]; rfl
  obtain ⟨c1, j1, f1, k1, e1, t1, r1⟩ := group_step N s g hg
    { c with idx := c.idx + 1, depth := c.depth + 1, sub := newSub false } (linkToks ls ++ [[41]]) rfl hp hsh (tokens_head ht1).2
  obtain ⟨c2, j2, oe, b1, b2, b3, b4, b5, b7, b6⟩ := tail_chain N s 1 [[41]] id (tail_close N s) ls hlo c1 j1 _ g.expr f1 (by rw [k1.posOnly]; exact hp)
    (by rw [k1.depth]; show c.depth + 1 = 1; rw [hdep]) (by rw [k1.short]; exact hsh) t1
  dsimp only at b2
  rw [buildTo_id, htree] at b2
  have hh : c2.head = (j2 : Int) := by
    rcases b4 with h | ⟨h, rfl⟩
    · exact h
    · rw [h]; exact e1 hhead
  have hadv : ∃ c7, advance c2 = (c7, none) ∧ c7.tree = c2.tree ∧ c7.head = c2.head ∧ c7.sub.lastOp = c2.sub.lastOp ∧ Runs N c7 (.ok (c7, none)) := by
    rcases b5.ends with h | h
    · obtain ⟨c7, d1, d2, d3, _, _, d5, d8, _⟩ := b5.advance N c2.tree c2.head c2.sub h.2.2.1
      exact ⟨c7, d1, d2, d3, d5, d8⟩
    · refine ⟨{ c2 with idx := c2.idx + 1, posOnly := false }, by simp [advance, h.2.1], rfl, rfl, rfl, ?_⟩
      exact runs_end N _ (tokens_nil h.2.2) b5.depth
  obtain ⟨c7, d1, d2, d3, d5, d8⟩ := hadv
  have hrun : Runs N c (.ok (c7, none)) := by
    refine open_step N c c2 c2 c7 _ oe _ hp (by rw [hsub]; rfl) ht1 (r1 _ b6) ?_ (by rw [hsub]; exact merge_unused _) d1 d8
    rcases b5.ends with h | h
    · exact .inl h.1
    · exact .inr h.1
  rw [← hc] at hrun
  refine parses_of_runs N text _ c7 j2 _ htok hrun (d3.trans hh) ⟨Nat.zero_le _, d5.trans b2.lastOp, ?_, ?_⟩ (build_isCond _ _ _ g.isCond)
  · rw [d2]; exact b2.node
  · rw [d2]; exact b2.reads

end Verif.Simple
