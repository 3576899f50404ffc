import Verif.Simple.GlueSim

/-!
# C71: where white space matters
-/

namespace Verif.Simple
open Verif.FastVal Verif.Expr

variable {E : Ext}

/-- C71 as it should be: texts made of the same tokens have the same result, however the tokens are put into words. -/
def C71 (N : Env E) : Prop :=
  ∀ (ps qs : List (List Tok)) (text text' : Str), Lined ps → Lined qs → ps.flatten = qs.flatten → Words (ps.map flat) text →
    Words (qs.map flat) text' → ∀ r, ParsesTo N text r ↔ ParsesTo N text' r

theorem parses_agree (N : Env E) {ps qs : List (List Tok)} {text text' : Str} (hp : Lined ps) (hq : Lined qs) (hf : ps.flatten = qs.flatten)
    (hw : Words (ps.map flat) text) (hw' : Words (qs.map flat) text') (ho : OneSymbol (ps.map flat) ↔ OneSymbol (qs.map flat))
    {r : Res (Option (Expr E))} (h : ParsesTo N text r) : ParsesTo N text' r := by
  obtain ⟨hr, n, hn⟩ := h
  rw [parseSimple, fields_words _ _ hw] at hn
  have hs : parse N n (newCtx (ps.map flat)) ≠ .stuck := by
    intro hh
    rw [parseTokens, hh] at hn
    exact hr hn.symm
  have hT : (newCtx (ps.map flat)).withT (qs.map flat) = newCtx (qs.map flat) := by
    have hsh : shortOk (ps.map flat) = shortOk (qs.map flat) := by rw [shortOk_eq, shortOk_eq]; simp only [ho]
    unfold newCtx Ctx.withT
    rw [hsh]
  obtain ⟨m, hm⟩ := parse_agree N n (newCtx (ps.map flat)) (qs.map flat) ⟨ps, qs, hp, hq, hf, rfl, rfl⟩ hs
  refine ⟨hr, m, ?_⟩
  rw [parseSimple, fields_words _ _ hw', parseTokens, ← hT, ← hn, parseTokens]
  rcases hm m (Nat.le_refl _) with ⟨h1, h2⟩ | ⟨d, T, e, h1, h2, _, _⟩
  · rw [h1, h2]
  · rw [h1, h2]; rfl

/-- C71.  Texts made of the same tokens have the same result (or none), however the tokens are put into words, as long as both or neither
contain one of `&&` and `||`, and not the other, as words.  (Missing: what happens when that differs, see `C71_negation`; calls, see
`C71_call`; values with white space in them.) -/
theorem C71_partial (N : Env E) (ps qs : List (List Tok)) (text text' : Str) (hp : Lined ps) (hq : Lined qs) (hf : ps.flatten = qs.flatten)
    (hw : Words (ps.map flat) text) (hw' : Words (qs.map flat) text') (ho : OneSymbol (ps.map flat) ↔ OneSymbol (qs.map flat)) :
    (∀ r, ParsesTo N text r ↔ ParsesTo N text' r) ∧ (Hangs N text ↔ Hangs N text') := by
  have h1 := fun r => Iff.intro (parses_agree N hp hq hf hw hw' ho (r := r)) (parses_agree N hq hp hf.symm hw' hw ho.symm)
  have h2 : ∀ t, Hangs N t ↔ ∀ r, ¬ ParsesTo N t r := by
    intro t
    constructor
    · rintro h r ⟨hr, n, hn⟩
      rw [h n] at hn
      exact hr hn.symm
    · intro h n
      cases hn : parseSimple N n t with
      | stuck => rfl
      | panic => exact absurd ⟨by simp, n, hn⟩ (h .panic)
      | ok a => exact absurd ⟨by simp, n, hn⟩ (h (.ok a))
  refine ⟨h1, ?_⟩
  rw [h2, h2]
  exact forall_congr' fun r => by rw [h1 r]

/-! ### Examples -/

instance : DecidablePred NoOp := fun t => inferInstanceAs (Decidable (∀ k ∈ opWords, ¬ k <:+: t))

instance (t : Str) : Decidable (Plain t) :=
  decidable_of_iff (t ≠ [] ∧ NoOp t ∧ ∀ b ∈ t, symChar b = false ∧ b ≠ 40 ∧ b ≠ 41 ∧ b ≠ 96)
    ⟨fun h => ⟨h.1, h.2.1, h.2.2⟩, fun h => ⟨h.ne, h.noOp, h.chars⟩⟩

instance (k : Kind) (t : Str) : Decidable (IsTok k t) := by cases k <;> unfold IsTok <;> infer_instance

instance decGood : (p : List Tok) → Decidable (Good p)
  | [] => .isFalse fun h => h.elim
  | [x] => decidable_of_iff (IsTok x.1 x.2) ⟨fun h => ⟨h, trivial⟩, fun h => h.1⟩
  | x :: y :: r =>
    have := decGood (y :: r)
    decidable_of_iff (IsTok x.1 x.2 ∧ follows x.1 y.1 = true ∧ (x.1 = .quoted → ∀ z ∈ y :: r, z.1 = .cls) ∧ Good (y :: r)) Iff.rfl

instance (p : List Tok) : Decidable (PartOk p) :=
  match p with
  | [] => .isFalse fun h => h.1.elim
  | [x] => decidable_of_iff (Good [x]) ⟨fun h => ⟨h, fun a b c he => by cases he⟩, fun h => h.1⟩
  | x :: y :: r => decidable_of_iff (Good (x :: y :: r) ∧ x.1 ≠ .cls)
      ⟨fun h => partOk_of h.1 h.2, fun h => ⟨h.1, h.2 x y r rfl⟩⟩

instance decLined : (ps : List (List Tok)) → Decidable (Lined ps)
  | [] => .isTrue trivial
  | [p] => decidable_of_iff (PartOk p) ⟨fun h => ⟨h, (fun _ _ _ q hq => by cases hq), trivial⟩, fun h => h.1⟩
  | p :: q :: ps =>
    have := decLined (q :: ps)
    decidable_of_iff (PartOk p ∧ (∀ x ∈ p, x.1 = .neg → q.length = 1) ∧ Lined (q :: ps))
      ⟨fun h => ⟨h.1, fun x hx hn q' hq' => by injection hq' with hq'; rw [← hq']; exact h.2.1 x hx hn, h.2.2⟩,
        fun h => ⟨h.1, fun x hx hn => h.2.1 x hx hn q rfl, h.2.2⟩⟩

/-- `((a.b=="x")&&(c>=-1))||d IS NOT NULL` and the same with spaces everywhere. -/
def spaced : List (List Tok) :=
  [[(.opn, ascii "(")], [(.opn, ascii "(")], [(.atom, ascii "a.b")], [(.sym, kEq)], [(.quoted, ascii "\"x\"")], [(.cls, ascii ")")],
   [(.key, ascii "AND")], [(.opn, ascii "(")], [(.atom, ascii "c")], [(.sym, kGe)], [(.atom, ascii "-1")], [(.cls, ascii ")")], [(.cls, ascii ")")],
   [(.key, ascii "OR")], [(.atom, ascii "d")], [(.neg, ascii "IS")], [(.neg, ascii "NOT")], [(.atom, ascii "NULL")]]

def glued : List (List Tok) :=
  [[(.opn, ascii "("), (.opn, ascii "("), (.atom, ascii "a.b"), (.sym, kEq), (.quoted, ascii "\"x\""), (.cls, ascii ")")], [(.key, ascii "AND")],
   [(.opn, ascii "("), (.atom, ascii "c"), (.sym, kGe), (.atom, ascii "-1"), (.cls, ascii ")"), (.cls, ascii ")")], [(.key, ascii "OR")],
   [(.atom, ascii "d")], [(.neg, ascii "IS")], [(.neg, ascii "NOT")], [(.atom, ascii "NULL")]]

example : glued.map flat = [ascii "((a.b==\"x\")", ascii "AND", ascii "(c>=-1))", ascii "OR", ascii "d", ascii "IS", ascii "NOT", ascii "NULL"] := by decide

set_option maxRecDepth 20000 in
example (N : Env E) : ∀ r, ParsesTo N (joinSp (spaced.map flat)) r ↔ ParsesTo N (joinSp (glued.map flat)) r :=
  (C71_partial N spaced glued _ _ (by decide +kernel) (by decide +kernel) (by decide) (words_join _ (by decide)) (words_join _ (by decide)) (by decide)).1

def tk (k : Kind) (s : String) : Tok := (k, ascii s)

/-- A chain with `||` as a word and with `||` at the end of a word. -/
def orWord : List (List Tok) :=
  [[tk .atom "a"], [tk .sym "=="], [tk .atom "1"], [tk .sym "||"], [tk .atom "b"], [tk .sym "=="], [tk .atom "2"], [tk .key "AND"], [tk .atom "c"], [tk .sym "=="],
   [tk .atom "3"]]

def orGlued : List (List Tok) :=
  [[tk .atom "a"], [tk .sym "=="], [tk .atom "1", tk .sym "||"], [tk .atom "b"], [tk .sym "=="], [tk .atom "2"], [tk .key "AND"], [tk .atom "c"], [tk .sym "=="],
   [tk .atom "3"]]

/-- The field `s` compared with the number `d`. -/
def fieldIs (E : Ext) (s : String) (d : Nat) : Expr E := .cmp .eq (.field ⟨0, [ascii s]⟩) (.value (.int (BitVec.ofNat 64 d)))

set_option maxRecDepth 20000 in
/-- `a==1&&b==2` is read like `a == 1 && b == 2` even though `&&` is no word of it: there are only two conditions. -/
theorem C71_word (N : Env E) : ParsesTo N (ascii "a==1&&b==2") (.ok (some (.and (.cons (fieldIs E "a" 1) (.cons (fieldIs E "b" 2) .nil))))) ∧
    ParsesTo N (ascii "a == 1 && b == 2") (.ok (some (.and (.cons (fieldIs E "a" 1) (.cons (fieldIs E "b" 2) .nil))))) :=
  ⟨parses_rfl N _ _ (by simp) 20 rfl, parses_rfl N _ _ (by simp) 20 rfl⟩

set_option maxRecDepth 20000 in
/-- White space before `||` changes how conditions are grouped. -/
theorem C71_groups (N : Env E) :
    ParsesTo N (joinSp (orWord.map flat))
      (.ok (some (.or (.cons (fieldIs E "a" 1) (.cons (.and (.cons (fieldIs E "b" 2) (.cons (fieldIs E "c" 3) .nil))) .nil))))) ∧
    ParsesTo N (joinSp (orGlued.map flat))
      (.ok (some (.and (.cons (.or (.cons (fieldIs E "a" 1) (.cons (fieldIs E "b" 2) .nil))) (.cons (fieldIs E "c" 3) .nil))))) :=
  ⟨parses_rfl N _ _ (by simp) 20 rfl, parses_rfl N _ _ (by simp) 20 rfl⟩

example : joinSp (orWord.map flat) = ascii "a == 1 || b == 2 AND c == 3" ∧ joinSp (orGlued.map flat) = ascii "a == 1|| b == 2 AND c == 3" := by decide

theorem C71_negation (N : Env E) : ¬ C71 N := by
  intro h
  obtain ⟨h1, h2⟩ := C71_groups N
  have h3 := (h orWord orGlued _ _ (by decide +kernel) (by decide +kernel) (by decide) (words_join _ (by decide)) (words_join _ (by decide)) _).1 h1
  have := parsesTo_unique N h2 h3
  simp at this

set_option maxRecDepth 20000 in
/-- With a call on the right, the white space around `==` is needed. -/
theorem C71_call (N : Env E) :
    ParsesTo N (ascii "a == ABS(b)") (.ok (some (.cmp .eq (.field ⟨0, [ascii "a"]⟩) (.func (ascii "mathAbs") (.cons (.field ⟨0, [ascii "b"]⟩) .nil))))) ∧
    ParsesTo N (ascii "a==ABS(b)") (.ok none) :=
  ⟨parses_rfl N _ _ (by simp) 20 rfl, parses_rfl N _ _ (by simp) 20 rfl⟩

end Verif.Simple
