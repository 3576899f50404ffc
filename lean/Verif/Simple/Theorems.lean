import Verif.Simple.Values

/-!
# What chains of conditions are parsed to
-/

namespace Verif.Simple
open Verif.FastVal Verif.Expr

variable {E : Ext}

/-! ### Specification -/

/-- White space: blank, tab, line feed, vertical tab, form feed, carriage return. -/
def white (b : Nat) : Bool := b = 0x20 || b = 0x09 || b = 0x0A || b = 0x0B || b = 0x0C || b = 0x0D

/-- The words of a text: without white space, between white space. -/
inductive Words : List Str → Str → Prop where
  | nil (ws : Str) : (∀ b ∈ ws, white b = true) → Words [] ws
  | last (ws t ws' : Str) : (∀ b ∈ ws, white b = true) → t ≠ [] → (∀ b ∈ t, white b = false) → (∀ b ∈ ws', white b = true) →
      Words [t] (ws ++ t ++ ws')
  | cons (ws t : Str) (b : Nat) (r : Str) (ts : List Str) : (∀ b ∈ ws, white b = true) → t ≠ [] → (∀ b ∈ t, white b = false) →
      white b = true → Words ts r → Words (t :: ts) (ws ++ t ++ b :: r)

/-- A condition made of tokens with a meaning. -/
def Cond.Spec (N : Env E) : Cond E → Prop
  | .bin l a w o r b => LeftMeans N l a ∧ (w, o) ∈ binWords ∧ RightMeans N o r b
  | .un l a w o => LeftMeans N l a ∧ (w, o) ∈ unWords

/-- Connectives and conditions. -/
def LinksSpec (N : Env E) (ls : List (Str × Conn × Cond E)) : Prop := ∀ x ∈ ls, (x.1, x.2.1) ∈ connWords ∧ x.2.2.Spec N

/-- One of the symbols `&&` and `||` is among the tokens, the other is not. -/
def OneSymbol (ts : List Str) : Prop := (kAnd ∈ ts ∧ kOr ∉ ts) ∨ (kOr ∈ ts ∧ kAnd ∉ ts)

instance (ts : List Str) : Decidable (OneSymbol ts) := inferInstanceAs (Decidable (_ ∨ _))

/-! ### Proofs -/

theorem isSpace_white (b : Nat) : isSpace b = white b := by
  rw [Bool.eq_iff_iff]
  simp [isSpace, white]
  omega

theorem fields_skip : ∀ (ws r : Str), (∀ b ∈ ws, white b = true) → fieldsFrom [] (ws ++ r) = fieldsFrom [] r := by
  intro ws
  induction ws with
  | nil => intro r _; rfl
  | cons b ws ih =>
    intro r h
    rw [List.cons_append, fieldsFrom, isSpace_white, if_pos (h b (by simp)), if_pos rfl]
    exact ih r (fun x hx => h x (List.mem_cons_of_mem _ hx))

theorem fields_word : ∀ (t cur r : Str), (∀ b ∈ t, white b = false) → fieldsFrom cur (t ++ r) = fieldsFrom (cur ++ t) r := by
  intro t
  induction t with
  | nil => intro cur r _; simp
  | cons b t ih =>
    intro cur r h
    rw [List.cons_append, fieldsFrom, isSpace_white, if_neg (by rw [h b (by simp)]; simp), ih _ _ (fun x hx => h x (List.mem_cons_of_mem _ hx))]
    simp

/-- `strings.Fields` gives the words. -/
theorem fields_words (ts : List Str) (text : Str) (h : Words ts text) : fieldsFrom [] text = ts := by
  induction h with
  | nil ws h =>
    have := fields_skip ws [] h
    rw [List.append_nil] at this
    rw [this]; rfl
  | last ws t ws' h1 h2 h3 h4 =>
    rw [List.append_assoc, fields_skip _ _ h1, fields_word t [] ws' h3, List.nil_append]
    cases ws' with
    | nil => rw [fieldsFrom, if_neg h2]
    | cons b ws' =>
      rw [fieldsFrom, isSpace_white, if_pos (h4 b (by simp)), if_neg h2]
      have := fields_skip ws' [] (fun x hx => h4 x (List.mem_cons_of_mem _ hx))
      rw [List.append_nil] at this
      rw [this]; rfl
  | cons ws t b r ts h1 h2 h3 h4 _ ih =>
    rw [List.append_assoc, fields_skip _ _ h1, fields_word t [] _ h3, List.nil_append, fieldsFrom, isSpace_white, if_pos h4, if_neg h2, ih]

theorem shortOk_eq (ts : List Str) : shortOk ts = decide (OneSymbol ts) := by
  have hne : kOr ≠ kAnd := by decide
  rw [Bool.eq_iff_iff, decide_eq_true_eq]
  unfold shortOk
  have hmem : ∀ t, t ∈ ts.filter (fun t => t = kOr || t = kAnd) ↔ t ∈ ts ∧ (t = kOr ∨ t = kAnd) := by
    intro t; simp
  cases hf : ts.filter (fun t => t = kOr || t = kAnd) with
  | nil =>
    rw [hf] at hmem
    simp only [Bool.false_eq_true, false_iff]
    rintro (h | h)
    · exact absurd ((hmem kAnd).2 ⟨h.1, .inr rfl⟩) (by simp)
    · exact absurd ((hmem kOr).2 ⟨h.1, .inl rfl⟩) (by simp)
  | cons t r =>
    rw [hf] at hmem
    dsimp only
    rw [List.all_eq_true]
    obtain ⟨h1, h2⟩ := (hmem t).1 (by simp)
    constructor
    · intro hall
      have hone : ∀ x ∈ ts, x = kOr ∨ x = kAnd → x = t := by
        intro x hx hx'
        have := (hmem x).2 ⟨hx, hx'⟩
        rw [List.mem_cons] at this
        rcases this with h | h
        · exact h
        · simpa using hall x h
      rcases h2 with rfl | rfl
      · exact .inr ⟨h1, fun h => hne (hone _ h (.inr rfl)).symm⟩
      · exact .inl ⟨h1, fun h => hne (hone _ h (.inl rfl))⟩
    · intro hs x hx
      obtain ⟨h3, h4⟩ := (hmem x).1 (List.mem_cons_of_mem _ hx)
      simp only [decide_eq_true_eq]
      rcases hs with ⟨h5, h6⟩ | ⟨h5, h6⟩
      · have hx : x = kAnd := by rcases h4 with rfl | h; exact absurd h3 h6; exact h
        have ht : t = kAnd := by rcases h2 with rfl | h; exact absurd h1 h6; exact h
        rw [hx, ht]
      · have hx : x = kOr := by rcases h4 with h | rfl; exact h; exact absurd h3 h6
        have ht : t = kOr := by rcases h2 with h | rfl; exact h; exact absurd h1 h6
        rw [hx, ht]

theorem Cond.Spec.ok {N : Env E} {q : Cond E} (h : q.Spec N) : q.Ok N := by
  cases q with
  | bin l a w o r b => exact ⟨left_reads N l a h.1, h.2.1, right_reads N o r b h.2.2⟩
  | un l a w o => exact ⟨left_reads N l a h.1, h.2⟩

/-- Expressions that are conditions. -/
def IsCond : Expr E → Prop
  | .cmp .. | .not _ | .exist _ | .notExist _ | .and _ | .or _ => True
  | _ => False

theorem Cond.isCond (q : Cond E) : IsCond q.expr := by
  cases q with
  | bin l a w o r b => cases o <;> trivial
  | un l a w o => cases o <;> trivial

theorem Conn.isCond (o : Conn) (a b : Expr E) : IsCond (o.expr a b) := by cases o <;> trivial

theorem build_isCond (short : Bool) : ∀ (ls : List (Str × Conn × Cond E)) (acc : Expr E), IsCond acc → IsCond (build short acc ls) := by
  intro ls
  induction ls with
  | nil => intro acc h; exact h
  | cons x ls ih =>
    obtain ⟨w, o, q⟩ := x
    intro acc h
    rw [build]
    split
    · exact Conn.isCond o _ _
    · exact ih _ (Conn.isCond o _ _)

theorem outFunc_isCond (N : Env E) (h : Helper) (n l : Nat) (e : Expr E) (ho : outFunc N h n l = .ok (some e)) : ¬ IsCond e := by
  cases n with
  | zero => simp [outFunc] at ho
  | succ n =>
    rw [outFunc] at ho
    split at ho
    · split at ho
      · injection ho with ho; injection ho with ho; subst ho; exact id
      · obtain ⟨x, _, ho⟩ := Res.bind_eq_ok.1 ho
        cases x with
        | none => simp at ho
        | some ps => injection ho with ho; injection ho with ho; subst ho; exact id
    · simp at ho

/-- A node that reads as a condition is an operator. -/
theorem node_op (N : Env E) (t : List Node) (d p : Nat) (node : Node) (e : Expr E) (hn : t[p]? = some node) (ho : outNode N t d p = .ok (some e))
    (he : IsCond e) : node.ty = .op := by
  cases d with
  | zero => simp [outNode] at ho
  | succ d =>
    rw [outNode, hn] at ho
    dsimp only at ho
    split at ho
    · assumption
    · split at ho
      · injection ho with ho; injection ho with ho; subst ho; exact absurd he id
      · simp at ho
    · injection ho with ho; injection ho with ho; subst ho; exact absurd he id
    · injection ho with ho; injection ho with ho; subst ho; exact absurd he id
    · unfold outValue at ho
      injection ho with ho
      split at ho
      · split at ho
        · simp only [Option.map_eq_some_iff] at ho
          obtain ⟨v, _, rfl⟩ := ho
          exact absurd he id
        · simp only [Option.map_eq_some_iff] at ho
          obtain ⟨v, _, rfl⟩ := ho
          exact absurd he id
      · injection ho with ho; subst ho; exact absurd he id
    · injection ho with ho; injection ho with ho; subst ho; exact absurd he id
    · injection ho with ho; injection ho with ho; subst ho; exact absurd he id
    · split at ho
      · exact absurd he (outFunc_isCond N _ _ _ _ ho)
      · simp at ho
    · simp at ho
    · simp at ho

/-- From the state after the tokens to the result. -/
theorem parses_of_runs (N : Env E) (text : Str) (ts : List Str) (c' : Ctx) (j : Nat) (e : Expr E) (ht : fieldsFrom [] text = ts)
    (hr : Runs N (newCtx ts) (.ok (c', none))) (hh : c'.head = j) (hc : Comp N 0 c' j e) (he : IsCond e) : ParsesTo N text (.ok (some e)) := by
  refine ⟨by simp, ?_⟩
  obtain ⟨n0, hn0⟩ := hr
  refine ⟨n0, ?_⟩
  rw [parseSimple, ht, parseTokens, hn0 n0 (Nat.le_refl _), Res.bind_ok]
  dsimp only
  obtain ⟨node, hnode, _⟩ := hc.node
  unfold outExpr
  rw [hh]
  dsimp only [Int.ofNat_eq_natCast]
  rw [hnode]
  dsimp only
  have hop := node_op N _ _ _ node e hnode hc.reads he
  rw [if_pos hop]
  exact outNode_grows N (Grows.refl _) _ j e _ (by omega) hc.reads

/-- C53.  A chain of conditions is parsed to the conditions joined as `build` says: each connective joins everything before it with the
next condition, except that with short circuiting (one of the symbols occurs and the other does not), and after a condition without a
right side, everything that follows belongs to the right side. -/
theorem C53_chain (N : Env E) (q : Cond E) (ls : List (Str × Conn × Cond E)) (text : Str) (hq : q.Spec N) (hls : LinksSpec N ls)
    (ht : Words (q.toks ++ linkToks ls) text) :
    ParsesTo N text (.ok (some (build (decide (OneSymbol (q.toks ++ linkToks ls))) q.expr ls))) := by
  have htok := fields_words _ _ ht
  have hlo : LinksOk N ls := fun x hx => ⟨(hls x hx).1, (hls x hx).2.ok⟩
  obtain ⟨c1, hc1, hk1, hh1, hif⟩ := cond_step N q hq.ok (newCtx (q.toks ++ linkToks ls)) false (linkToks ls) rfl rfl rfl
  simp only [Bool.false_and, Bool.false_eq_true, if_false] at hif
  obtain ⟨hd1, hf1, _, hr1⟩ := hif
  obtain ⟨c2, j, a1, a2, a3, a4, a5, a6, a7⟩ := chain_end N ls hlo c1 _ _ q.expr hf1 (by rw [hk1.posOnly]; rfl) (by rw [hk1.depth]; rfl) hd1
  have hshort : c1.short = decide (OneSymbol (q.toks ++ linkToks ls)) := by rw [hk1.short]; exact shortOk_eq _
  rw [hshort] at a2
  refine parses_of_runs N text _ c2 j _ htok (hr1 _ a7) ?_ a2 (build_isCond _ _ _ q.isCond)
  by_cases hl : ls = []
  · obtain ⟨h1, h2⟩ := a5 hl
    rw [h1, h2, hh1]
    rfl
  · exact a4 hl

end Verif.Simple
