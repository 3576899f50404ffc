import Verif.Simple.Groups
import Verif.Simple.Findings

/-!
# What texts with parentheses are parsed to
-/

namespace Verif.Simple
open Verif.FastVal Verif.Expr

variable {E : Ext}

set_option maxRecDepth 20000

/-! ### Specification -/

/-- Texts with parentheses: groups at the start, then links, then perhaps a group as the last link; or all in parentheses. -/
inductive Txt (E : Ext) where
  | chain (g : Grp E) (ls : List (Link E))
  | last (g : Grp E) (ls : List (Link E)) (w : Str) (o : Conn) (g' : Grp E) (ls' : List (Link E))
  | whole (g : Grp E) (ls : List (Link E))

def Txt.toks : Txt E → List Str
  | .chain g ls => g.toks ++ linkToks ls
  | .last g ls w _ g' ls' => g.toks ++ linkToks ls ++ w :: ascii "(" :: (g'.toks ++ linkToks ls' ++ [ascii ")"])
  | .whole g ls => ascii "(" :: (g.toks ++ linkToks ls ++ [ascii ")"])

/-- What is meant. -/
def Txt.expr (short : Bool) : Txt E → Expr E
  | .chain g ls => build short g.expr ls
  | .last g ls _ o g' ls' => buildTo short (fun e => o.expr e (build short g'.expr ls')) g.expr ls
  | .whole g ls => build short g.expr ls

def Txt.Spec (N : Env E) (short : Bool) : Txt E → Prop
  | .chain g ls => g.Spec N short ∧ LinksSpec N ls
  | .last g ls w o g' ls' => g.Spec N short ∧ LinksSpec N ls ∧ (w, o) ∈ connWords ∧ g'.Spec N short ∧ LinksSpec N ls'
  | .whole g ls => g.Spec N short ∧ LinksSpec N ls

mutual
  /-- A condition or a chain in parentheses, at any place. -/
  inductive Item (E : Ext) where
    | cond (q : Cond E)
    | group (i : Item E) (r : Items E)
  inductive Items (E : Ext) where
    | nil
    | cons (w : Str) (o : Conn) (i : Item E) (r : Items E)
end

mutual
  def Item.toks : Item E → List Str
    | .cond q => q.toks
    | .group i r => ascii "(" :: (i.toks ++ r.toks ++ [ascii ")"])
  def Items.toks : Items E → List Str
    | .nil => []
    | .cons w _ i r => w :: (i.toks ++ r.toks)
end

mutual
  def Item.Spec (N : Env E) : Item E → Prop
    | .cond q => q.Spec N
    | .group i r => i.Spec N ∧ r.Spec N
  def Items.Spec (N : Env E) : Items E → Prop
    | .nil => True
    | .cons w o i r => (w, o) ∈ connWords ∧ i.Spec N ∧ r.Spec N
end

/-- C61 as it should be: parentheses may stand around a chain wherever a condition may stand. -/
def C61_groups (N : Env E) : Prop :=
  ∀ (i : Item E) (r : Items E) (text : Str), i.Spec N → r.Spec N → Words (i.toks ++ r.toks) text → ∃ e, ParsesTo N text (.ok (some e))

/-- The truth of a group from the truth of its conditions, from left to right. -/
def linksTruth (T : Expr E → Bool) : Bool → List (Link E) → Bool
  | b, [] => b
  | b, (_, .and, q) :: r => linksTruth T (b && T q.expr) r
  | b, (_, .or, q) :: r => linksTruth T (b || T q.expr) r

def Grp.truth (T : Expr E → Bool) : Grp E → Bool
  | .cond q => T q.expr
  | .group g ls => linksTruth T (g.truth T) ls

def Conn.truth : Conn → Bool → Bool → Bool
  | .and, a, b => a && b
  | .or, a, b => a || b

/-! ### Theorems -/

/-- C61.  Texts with parentheses in these places are parsed to the expression they group.
(Missing: the other places of parentheses, where the parser reports an error, see `C61_negation` and `C61_rejected`.) -/
theorem C61_partial (N : Env E) (t : Txt E) (text : Str) (ht : t.Spec N (decide (OneSymbol t.toks))) (hw : Words t.toks text) :
    ParsesTo N text (.ok (some (t.expr (decide (OneSymbol t.toks))))) := by
  have hlo : ∀ {ls : List (Link E)}, LinksSpec N ls → LinksOk N ls := fun h x hx => ⟨(h x hx).1, (h x hx).2.ok⟩
  cases t with
  | chain g ls =>
    have htk : (Txt.chain g ls).toks = g.toks ++ (linkToks ls ++ []) := by simp [Txt.toks]
    have h1 := ht
    have h2 := hw
    rw [htk] at h1 h2
    have := text_tail N g ls [] id text _ rfl h1.1 h1.2 (tail_end N _) (fun _ h => h) h2
    rw [buildTo_id, ← htk] at this
    exact this
  | last g ls w o g' ls' =>
    have htk : (Txt.last g ls w o g' ls').toks = g.toks ++ (linkToks ls ++ (w :: [40] :: (g'.toks ++ (linkToks ls' ++ [[41]])))) := by
      simp [Txt.toks, ascii]
    have h1 := ht
    have h2 := hw
    rw [htk] at h1 h2
    obtain ⟨a1, a2, a3, a4, a5⟩ := h1
    have := text_tail N g ls _ _ text _ rfl a1 a2 (tail_group N _ w o g' ls' a3 a4 (hlo a5)) (fun _ _ => Conn.isCond _ _ _) h2
    rw [← htk] at this
    exact this
  | whole g ls =>
    have htk : (Txt.whole g ls).toks = [40] :: (g.toks ++ (linkToks ls ++ [[41]])) := by simp [Txt.toks, ascii]
    have h1 := ht
    have h2 := hw
    rw [htk] at h1 h2
    have := text_whole N g ls text _ rfl h1.1 h1.2 h2
    rw [← htk] at this
    exact this

theorem Conn.expr_truth (T : Expr E → Bool) (hT : Truth T) (o : Conn) (a b : Expr E) : T (o.expr a b) = o.truth (T a) (T b) := by
  cases o
  · exact hT.and a b
  · exact hT.or a b

theorem joinLeft_truth (T : Expr E → Bool) (hT : Truth T) : ∀ (ls : List (Link E)) (acc : Expr E), T (joinLeft acc ls) = linksTruth T (T acc) ls := by
  intro ls
  induction ls with
  | nil => intro acc; rfl
  | cons x ls ih =>
    obtain ⟨w, o, q⟩ := x
    intro acc
    rw [joinLeft, ih, Conn.expr_truth T hT]
    cases o <;> rfl

theorem Grp.expr_truth (T : Expr E → Bool) (hT : Truth T) : ∀ g : Grp E, T g.expr = g.truth T
  | .cond _ => rfl
  | .group g ls => by rw [Grp.expr, joinLeft_truth T hT, Grp.expr_truth T hT g, Grp.truth]

/-- C61.  Two groups joined by a connective: the text is true as the two groups and the connective say. -/
theorem C61_meaning_partial (N : Env E) (g g' : Grp E) (ls' : List (Link E)) (w : Str) (o : Conn) (text : Str) (T : Expr E → Bool) (hT : Truth T)
    (ht : (Txt.last g [] w o g' ls').Spec N (decide (OneSymbol (Txt.last g [] w o g' ls').toks)))
    (hl : (Grp.group g' ls').Spec N (decide (OneSymbol (Txt.last g [] w o g' ls').toks)))
    (hw : Words (Txt.last g [] w o g' ls').toks text) :
    ∃ e, ParsesTo N text (.ok (some e)) ∧ T e = o.truth (g.truth T) ((Grp.group g' ls').truth T) := by
  refine ⟨_, C61_partial N _ text ht hw, ?_⟩
  rw [Txt.expr, buildTo, Conn.expr_truth T hT, Grp.expr_truth T hT, Grp.truth, ← Grp.expr_truth T hT g', ← joinLeft_truth T hT]
  rcases hl.2.2 with rfl | ⟨h1, h2⟩
  · rfl
  · rw [h1, build_flat _ _ h2]

/-- C61.  Groups at the start, followed by conditions with a right side, without short circuiting: the text is true as the group and the
links from left to right say. -/
theorem C61_first_partial (N : Env E) (g : Grp E) (ls : List (Link E)) (text : Str) (T : Expr E → Bool) (hT : Truth T)
    (hg : g.Spec N false) (hls : LinksSpec N ls) (hb : ∀ x ∈ ls, x.2.2.unary = false) (hs : ¬ OneSymbol (g.toks ++ linkToks ls))
    (hw : Words (g.toks ++ linkToks ls) text) :
    ∃ e, ParsesTo N text (.ok (some e)) ∧ T e = linksTruth T (g.truth T) ls := by
  have hd : decide (OneSymbol (Txt.chain g ls).toks) = false := decide_eq_false hs
  have := C61_partial N (.chain g ls) text (by rw [hd]; exact ⟨hg, hls⟩) hw
  rw [hd] at this
  refine ⟨_, this, ?_⟩
  rw [Txt.expr, build_flat _ _ hb, joinLeft_truth T hT, Grp.expr_truth T hT]

/-! ### Texts that are rejected -/

def aItem (E : Ext) (s : String) (d : Nat) : Item E := .cond (aCond E s d)

/-- C61 is false: `a == 1 && ( b == 2 ) && c == 3` is an error. -/
theorem C61_negation (N : Env E) : ¬ C61_groups N := by
  intro h
  obtain ⟨e, he⟩ := h (aItem E "a" 1) (.cons kAnd .and (.group (aItem E "b" 2) .nil) (.cons kAnd .and (aItem E "c" 3) .nil))
    (ascii "a == 1 && ( b == 2 ) && c == 3") (aCond_spec N "a" 1 free_a (by decide) (by decide))
    ⟨by simp [connWords], ⟨aCond_spec N "b" 2 free_b (by decide) (by decide), trivial⟩, by simp [connWords],
      aCond_spec N "c" 3 free_c (by decide) (by decide), trivial⟩
    (words_join [ascii "a", kEq, ascii "1", kAnd, ascii "(", ascii "b", kEq, ascii "2", ascii ")", kAnd, ascii "c", kEq, ascii "3"] (by decide))
  have := parsesTo_unique N he (parses_rfl N (ascii "a == 1 && ( b == 2 ) && c == 3") (.ok none) (by simp) 20 rfl)
  simp at this

/-- Each of these texts is an error: a group with a link after it, a group within a group at its end, groups joined by one symbol,
a condition without a right side at the end of a group that is followed by a link, one that is written next to the parenthesis, and two
closing parentheses without a space. -/
theorem C61_rejected (N : Env E) :
    ∀ t ∈ ["a == 1 AND ( b == 2 ) AND c == 3", "( a == 1 && ( b == 2 ) )", "( a == 1 && b == 2 ) && c == 3",
        "( a == 1 AND b EXISTS ) AND c == 3", "(a IS NULL)", "( ( a == 1 ))", "( ( a == 1 && b == 2 ) )"],
      ParsesTo N (ascii t) (.ok none) := by
  intro t ht
  simp only [List.mem_cons, List.not_mem_nil, or_false] at ht
  rcases ht with rfl | rfl | rfl | rfl | rfl | rfl | rfl <;> exact parses_rfl N _ _ (by simp) 20 rfl

/-- The hypotheses of the theorems hold for `( ( a == 1 OR b == 2 ) AND c == 3 ) OR ( a == 2 AND b == 1 )`. -/
def demoGrp (E : Ext) : Grp E :=
  .group (.group (.cond (aCond E "a" 1)) [(ascii "OR", .or, aCond E "b" 2)]) [(ascii "AND", .and, aCond E "c" 3)]

theorem demoGrp_spec (N : Env E) : (demoGrp E).Spec N false := by
  refine ⟨⟨aCond_spec N "a" 1 free_a (by decide) (by decide), ?_, .inr ⟨rfl, ?_⟩⟩, ?_, .inr ⟨rfl, ?_⟩⟩
  · intro x hx
    simp only [List.mem_singleton] at hx
    subst hx
    exact ⟨by simp [connWords], aCond_spec N "b" 2 free_b (by decide) (by decide)⟩
  · intro x hx
    simp only [List.mem_singleton] at hx
    subst hx
    rfl
  · intro x hx
    simp only [List.mem_singleton] at hx
    subst hx
    exact ⟨by simp [connWords], aCond_spec N "c" 3 free_c (by decide) (by decide)⟩
  · intro x hx
    simp only [List.mem_singleton] at hx
    subst hx
    rfl

example (N : Env E) : (Txt.last (demoGrp E) [] (ascii "OR") .or (.cond (aCond E "a" 2)) [(ascii "AND", .and, aCond E "b" 1)]).Spec N false ∧
    ¬ OneSymbol (Txt.last (demoGrp E) [] (ascii "OR") .or (.cond (aCond E "a" 2)) [(ascii "AND", .and, aCond E "b" 1)]).toks ∧
    joinSp (Txt.last (demoGrp E) [] (ascii "OR") .or (.cond (aCond E "a" 2)) [(ascii "AND", .and, aCond E "b" 1)]).toks =
      ascii "( ( a == 1 OR b == 2 ) AND c == 3 ) OR ( a == 2 AND b == 1 )" := by
  refine ⟨⟨demoGrp_spec N, fun x hx => absurd hx (by simp), by simp [connWords], aCond_spec N "a" 2 free_a (by decide) (by decide), ?_⟩, ?_, rfl⟩
  · intro x hx
    simp only [List.mem_singleton] at hx
    subst hx
    exact ⟨by simp [connWords], aCond_spec N "b" 1 free_b (by decide) (by decide)⟩
  · have : (Txt.last (demoGrp E) [] (ascii "OR") .or (.cond (aCond E "a" 2)) [(ascii "AND", .and, aCond E "b" 1)]).toks =
      [ascii "(", ascii "(", ascii "a", kEq, ascii "1", ascii "OR", ascii "b", kEq, ascii "2", ascii ")", ascii "AND", ascii "c", kEq, ascii "3", ascii ")",
       ascii "OR", ascii "(", ascii "a", kEq, ascii "2", ascii "AND", ascii "b", kEq, ascii "1", ascii ")"] := rfl
    rw [this]
    decide

/-! ### A side alone in parentheses -/

/-- An error in a layer ends the parser. -/
theorem runs_new_error (N : Env E) {c c1 c2 c5 : Ctx} {tok : Str} {ty : TT} {e e' : Err} (hg : Gets N c (c1, .ok (tok, ty)))
    (hc : check c1 ty = (c2, some e)) (he : e = .new ∨ e = .oneNew) (hn : Runs N { c2 with sub := newSub (e = .oneNew) } (.ok (c5, some e')))
    (h1 : e' ≠ .layerDone) : Runs N c (.ok (finish c5 e')) := by
  obtain ⟨a, ha⟩ := hg
  obtain ⟨b, hb⟩ := hn
  refine ⟨a + b + 1, fun n hn => ?_⟩
  obtain ⟨m, rfl⟩ : ∃ m, n = m + 1 := ⟨n - 1, by omega⟩
  rw [parse, ha m (by omega), Res.bind_ok]
  dsimp only
  rw [hc]
  dsimp only
  rw [if_pos (by rcases he with h | h <;> simp [h]), hb m (by omega), Res.bind_ok]
  dsimp only
  rw [if_neg h1]

theorem bare_runs (N : Env E) (t : Str) (a : Expr E) (hl : LeftMeans N t a) (rest : List Str) : ∀ (k : Nat) (c : Ctx) (b : Bool), c.sub = newSub b →
    c.posOnly = false → 0 < c.depth + k → c.tokens.drop c.idx = List.replicate k [40] ++ t :: [41] :: rest → ∃ c', Runs N c (.ok (c', some .other))
  | 0, c, b, hs, hp, hd, ht => by
    obtain ⟨p, h, tok, ty, hr, _⟩ := lhs_step N c b t a hs hp (tokens_head ht).1 (left_reads N t a hl)
    have ht1 : (ctx1 c p h tok ty).tokens.drop (ctx1 c p h tok ty).idx = [41] :: rest := (tokens_head ht).2
    have hlook : look N (ctx1 c p h tok ty) [41] = endParen (closeParen (ctx1 c p h tok ty)) := by
      simp only [look, ctx1]
      rfl
    have hd0 : c.depth ≠ 0 := by omega
    have hcl : ∃ c', closeParen (ctx1 c p h tok ty) = (c', some .other) := by
      simp [closeParen, ctx1, hd0, hs, newSub]
    obtain ⟨c', hcl⟩ := hcl
    refine ⟨c', hr _ ?_⟩
    have hg : Gets N (ctx1 c p h tok ty) (c', .error .other) := by
      refine gets_done N _ [41] _ (tokens_head ht1).1 ?_
      rw [hlook, hcl]
      rfl
    exact runs_error N hg
  | k + 1, c, b, hs, hp, hd, ht => by
    rw [List.replicate_succ, List.cons_append] at ht
    have hg := gets_open N c (List.replicate k [40] ++ t :: [41] :: rest) hp ht
    obtain ⟨c', hr⟩ := bare_runs N t a hl rest k { c with idx := c.idx + 1, depth := c.depth + 1, sub := newSub false } false rfl hp
      (by simp only; omega) (tokens_head ht).2
    refine ⟨c', ?_⟩
    have := runs_new_error N (e := .new) (c2 := { c with idx := c.idx + 1, depth := c.depth + 1 }) hg (by simp [check, hs, newSub]) (.inl rfl)
      (by simpa using hr) (by simp)
    simpa [finish] using this

/-- One side of a condition alone in parentheses is an error, whatever follows: `( a ) …`, `( ( ABS(a) ) …`. -/
theorem C61_bare_group (N : Env E) (t : Str) (a : Expr E) (hl : LeftMeans N t a) (k : Nat) (rest : List Str) (text : Str)
    (ht : Words (List.replicate (k + 1) [40] ++ t :: [41] :: rest) text) : ParsesTo N text (.ok none) := by
  have htok := fields_words _ _ ht
  obtain ⟨c', n0, hr⟩ := bare_runs N t a hl rest (k + 1) (newCtx (List.replicate (k + 1) [40] ++ t :: [41] :: rest)) false rfl rfl
    (by simp [newCtx]) rfl
  refine ⟨by simp, n0, ?_⟩
  rw [parseSimple, htok, parseTokens, hr n0 (Nat.le_refl _), Res.bind_ok]

example (N : Env E) : ParsesTo N (ascii "( ( a ) == 1 )") (.ok none) :=
  C61_bare_group N (ascii "a") (.field ⟨0, [ascii "a"]⟩) (aCond_spec N "a" 1 free_a (by decide) (by decide)).1 1 [kEq, ascii "1", ascii ")"] _
    (words_join [ascii "(", ascii "(", ascii "a", ascii ")", kEq, ascii "1", ascii ")"] (by decide))

end Verif.Simple
