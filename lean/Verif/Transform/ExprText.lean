import Verif.Transform.PrintModel
import Verif.FastVal.Kinds

/-!
# C94: what the printed text of an expression says

Model of `String` of the expressions, expression.go:12-18, 27-29, 34-36, 42-44, 50-52, 58-60, 66-68, 74-76, 80-93, 97-110, 117-128, 135-145,
153-156, 164-167, 175-178, 184-186, 192-194, 201-257, and of `mergeExpr`, transform.go:37-48.  Go's `%v` of the values in an expression is
a parameter.
-/

namespace Verif.ExprText
open Verif.FastVal Verif.Match Verif.Expr
open Verif.Transform (natText intText reindent)

variable {E : Ext}

/-! ### Model -/

/-- `strings.Join` -/
def joinWith (sep : List Nat) : List (List Nat) → List Nat
  | [] => []
  | [x] => x
  | x :: y :: r => x ++ sep ++ joinWith sep (y :: r)

/-- The root of a field, expression.go:118-121. -/
def rootText (v : Int) : List Nat := if v = 0 then ascii "$doc" else ascii "$" ++ intText v

/-- `FieldExpr.String`, expression.go:117-128. -/
def fieldText (f : Field) : List Nat :=
  if f.path.length > 0 then rootText f.root ++ ascii "." ++ joinWith (ascii ".") f.path else rootText f.root

/-- The operators of expression.go:201-257, with their blanks. -/
def cmpText : Cmp → List Nat
  | .eq => ascii " = "
  | .ne => ascii " != "
  | .lt => ascii " < "
  | .le => ascii " <= "
  | .gt => ascii " > "
  | .ge => ascii " >= "
  | .like => ascii " =~ "

/-- expression.go:155, 166, 177 -/
def loopText : Mode → List Nat
  | .any => ascii "any $"
  | .every => ascii "every $"
  | .anyEvery => ascii "any and every $"

mutual
  /-- `Expression.String`; `F` is Go's `%v`. -/
  def exprText (F : GoVal E → List Nat) : Expr E → List Nat
    | .tru => ascii "True"
    | .fals => ascii "False"
    | .value v => F v
    | .time v => F v
    | .regex v => ascii "/" ++ F v ++ ascii "/"
    | .pcre v => ascii "/" ++ F v ++ ascii "/"
    | .not e => ascii "NOT " ++ exprText F e
    | .and es => chainText F (ascii "AND") es
    | .or es => chainText F (ascii "OR") es
    | .field f => fieldText f
    | .func n ps => ascii "func:" ++ n ++ ascii "(" ++ paramsText F ps ++ ascii ")"
    | .loop m v i s => loopText m ++ intText v ++ ascii " in " ++ exprText F i ++ ascii "\n" ++ reindent (ascii "  ") (exprText F s) ++ ascii "\nend"
    | .exist e => exprText F e ++ ascii " EXISTS"
    | .notExist e => exprText F e ++ ascii " IS MISSING"
    | .cmp c l r => exprText F l ++ cmpText c ++ exprText F r
  /-- The parameters of a function, expression.go:137-142. -/
  def paramsText (F : GoVal E → List Nat) : Exprs E → List Nat
    | .nil => []
    | .cons e r => exprText F e ++ moreText F r
  /-- Those after the first. -/
  def moreText (F : GoVal E → List Nat) : Exprs E → List Nat
    | .nil => []
    | .cons e r => ascii "," ++ exprText F e ++ moreText F r
  /-- `AndExpr.String` and `OrExpr.String`, expression.go:80-93 and 97-110. -/
  def chainText (F : GoVal E → List Nat) (op : List Nat) : Exprs E → List Nat
    | .nil => ascii "%%ERROR%%"
    | .cons e .nil => exprText F e
    | .cons e (.cons e' r) => reindent (ascii "  ") (exprText F e) ++ restText F op (.cons e' r)
  /-- The loop of expression.go:87-90 and 104-107. -/
  def restText (F : GoVal E → List Nat) (op : List Nat) : Exprs E → List Nat
    | .nil => []
    | .cons e r => ascii "\n" ++ op ++ ascii "\n" ++ reindent (ascii "  ") (exprText F e) ++ restText F op r
end

/-- `mergeExpr.String`, transform.go:37-48. -/
def mergeText (F : GoVal E → List Nat) (es : Exprs E) : List Nat := chainText F (ascii "OR") es

/-! ### Specification -/

/-- Line feed, blank, parentheses and comma. -/
def Mark (c : Nat) : Prop := c = 10 ∨ c = 32 ∨ c = 40 ∨ c = 41 ∨ c = 44

instance (c : Nat) : Decidable (Mark c) := by unfold Mark; infer_instance

/-- The words that have a meaning at the beginning of a line. -/
def reserved : List (List Nat) := [[], ascii "True", ascii "False", ascii "NOT", ascii "any", ascii "every"]

/-- One word that is not taken for a field, a pattern or a keyword. -/
def Word (w : List Nat) : Prop := (∀ c ∈ w, ¬ Mark c) ∧ w ∉ reserved ∧ w.head? ≠ some 36 ∧ w.head? ≠ some 47

/-- Different constants in use have different texts, words for values, without a slash or line feed for patterns. -/
structure Told (F : GoVal E → List Nat) (V W : GoVal E → Prop) : Prop where
  val : ∀ {v v'}, V v → V v' → F v = F v' → v = v'
  pat : ∀ {v v'}, W v → W v' → F v = F v' → v = v'
  word : ∀ {v}, V v → Word (F v)
  pattern : ∀ {v}, W v → ∀ c ∈ F v, c ≠ 47 ∧ c ≠ 10

mutual
  /-- Fields and functions without marks in the names and without a dot in a field's names, values from `V` and patterns from `W`. -/
  def Operand (V W : GoVal E → Prop) : Expr E → Prop
    | .field f => ∀ k ∈ f.path, ∀ c ∈ k, ¬ Mark c ∧ c ≠ 46
    | .value v => V v
    | .regex v => W v
    | .func n ps => (∀ c ∈ n, ¬ Mark c) ∧ Operands V W ps
    | _ => False
  def Operands (V W : GoVal E → Prop) : Exprs E → Prop
    | .nil => True
    | .cons e r => Operand V W e ∧ Operands V W r
end

mutual
  /-- Conditions about such operands and their combinations, where conjunctions and disjunctions have at least two parts. -/
  def Plainly (V W : GoVal E → Prop) : Expr E → Prop
    | .tru => True
    | .fals => True
    | .not e => Plainly V W e
    | .and es => es.length > 1 ∧ Plainlys V W es
    | .or es => es.length > 1 ∧ Plainlys V W es
    | .loop _ _ i s => Operand V W i ∧ Plainly V W s
    | .exist e => Operand V W e
    | .notExist e => Operand V W e
    | .cmp _ l r => Operand V W l ∧ Operand V W r
    | _ => False
  def Plainlys (V W : GoVal E → Prop) : Exprs E → Prop
    | .nil => True
    | .cons e r => Plainly V W e ∧ Plainlys V W r
end

/-! ### Words -/

/-- The text up to the first mark. -/
def tok (s : List Nat) : List Nat := s.takeWhile fun c => !decide (Mark c)

theorem tok_append {a u : List Nat} (ha : ∀ c ∈ a, ¬ Mark c) (hu : ∀ c, u.head? = some c → Mark c) : tok (a ++ u) = a := by
  induction a with
  | nil =>
    cases u with
    | nil => rfl
    | cons c r => simp [tok, hu c rfl]
  | cons c r ih =>
    have := ih fun x hx => ha x (.tail _ hx)
    unfold tok at this ⊢
    simp [ha c (.head _), this]

theorem split_word {a a' u u' : List Nat} (ha : ∀ c ∈ a, ¬ Mark c) (ha' : ∀ c ∈ a', ¬ Mark c) (hu : ∀ c, u.head? = some c → Mark c)
    (hu' : ∀ c, u'.head? = some c → Mark c) (h : a ++ u = a' ++ u') : a = a' ∧ u = u' := by
  have h1 : a = a' := by rw [← tok_append ha hu, h, tok_append ha' hu']
  subst h1
  exact ⟨rfl, List.append_cancel_left h⟩

/-- Splitting at the first of two separators. -/
theorem split_at {P : Nat → Prop} {a a' u u' : List Nat} {c : Nat} (hc : ¬ P c) : (∀ x ∈ a, P x) → (∀ x ∈ a', P x) → a ++ c :: u = a' ++ c :: u' →
    a = a' ∧ u = u' := by
  induction a generalizing a' with
  | nil =>
    intro _ ha' h
    cases a' with
    | nil => cases h; exact ⟨rfl, rfl⟩
    | cons x r => injection h with h1 h2; exact absurd (h1 ▸ ha' x (.head _)) hc
  | cons y r ih =>
    intro ha ha' h
    cases a' with
    | nil => injection h with h1 h2; exact absurd (h1 ▸ ha y (.head _)) hc
    | cons x r' =>
      injection h with h1 h2
      obtain ⟨e1, e2⟩ := ih (fun x hx => ha x (.tail _ hx)) (fun x hx => ha' x (.tail _ hx)) h2
      exact ⟨by rw [h1, e1], e2⟩

/-! ### Fields -/

theorem natText_inj {n n' : Nat} (h : natText n = natText n') : n = n' := by
  rw [← decVal_toDigits n, ← decVal_toDigits n']; exact congrArg Lit.decVal h

theorem natText_digit {n c : Nat} (h : c ∈ natText n) : 48 ≤ c ∧ c ≤ 57 := (dec_toDigits n).2 c h

theorem natText_ne (n : Nat) : natText n ≠ [] := (dec_toDigits n).1

theorem intText_char {z : Int} {c : Nat} (h : c ∈ intText z) : c = 45 ∨ 48 ≤ c ∧ c ≤ 57 := by
  unfold intText at h
  split at h
  · rcases List.mem_cons.1 h with h | h
    · exact Or.inl h
    · exact Or.inr (natText_digit h)
  · exact Or.inr (natText_digit h)

theorem intText_inj {z z' : Int} (h : intText z = intText z') : z = z' := by
  have hd : ∀ n m, natText n ≠ 45 :: natText m := by
    intro n m e
    have := natText_digit (n := n) (c := 45) (by rw [e]; exact .head _)
    omega
  unfold intText at h
  split at h <;> split at h
  · injection h with _ h; have := natText_inj h; omega
  · exact absurd h.symm (hd _ _)
  · exact absurd h (hd _ _)
  · have := natText_inj h; omega

theorem intText_mark {z : Int} : ∀ c ∈ intText z, ¬ Mark c ∧ c ≠ 46 := by
  intro c hc
  have := intText_char hc
  unfold Mark
  omega

theorem rootText_mark (v : Int) : ∀ c ∈ rootText v, ¬ Mark c ∧ c ≠ 46 := by
  intro c hc
  unfold rootText at hc
  split at hc
  · have : c = 36 ∨ c = 100 ∨ c = 111 ∨ c = 99 := by simpa [ascii] using hc
    unfold Mark; omega
  · rcases List.mem_append.1 hc with h | h
    · have : c = 36 := by simpa [ascii] using h
      unfold Mark; omega
    · exact intText_mark c h

theorem rootText_inj {v v' : Int} (h : rootText v = rootText v') : v = v' := by
  have hd : ∀ z : Int, ascii "$doc" ≠ ascii "$" ++ intText z := by
    intro z e
    have e : [100, 111, 99] = intText z := by injection e
    have := intText_char (z := z) (c := 100) (by rw [← e]; exact .head _)
    omega
  unfold rootText at h
  split at h <;> split at h
  · omega
  · exact absurd h (hd _)
  · exact absurd h.symm (hd _)
  · exact intText_inj (List.append_cancel_left h)

theorem rootText_head (v : Int) : ∃ r, rootText v = 36 :: r := by
  unfold rootText
  split
  · exact ⟨_, rfl⟩
  · exact ⟨_, rfl⟩

theorem join_inj : ∀ {p p' : List (List Nat)}, p ≠ [] → p' ≠ [] → (∀ k ∈ p, ∀ c ∈ k, c ≠ 46) → (∀ k ∈ p', ∀ c ∈ k, c ≠ 46) →
    joinWith (ascii ".") p = joinWith (ascii ".") p' → p = p'
  | [], _, h, _, _, _, _ => absurd rfl h
  | _, [], _, h, _, _, _ => absurd rfl h
  | [x], [x'], _, _, _, _, h => by rw [joinWith, joinWith] at h; rw [h]
  | [x], x' :: y' :: r', _, _, hp, _, h => by
    rw [joinWith, joinWith] at h
    exact absurd rfl (hp x (.head _) 46 (by rw [h]; simp [ascii]))
  | x :: y :: r, [x'], _, _, _, hp, h => by
    rw [joinWith, joinWith] at h
    exact absurd rfl (hp x' (.head _) 46 (by rw [← h]; simp [ascii]))
  | x :: y :: r, x' :: y' :: r', _, _, hp, hp', h => by
    rw [joinWith, joinWith, List.append_assoc, List.append_assoc] at h
    obtain ⟨h1, h2⟩ := split_at (P := fun c => c ≠ 46) (c := 46) (by simp) (hp x (.head _)) (hp' x' (.head _)) h
    rw [h1, join_inj (by simp) (by simp) (fun k hk => hp k (.tail _ hk)) (fun k hk => hp' k (.tail _ hk)) h2]

theorem mem_join {c : Nat} : ∀ {p : List (List Nat)}, c ∈ joinWith (ascii ".") p → c = 46 ∨ ∃ k ∈ p, c ∈ k
  | [], h => by cases h
  | [x], h => Or.inr ⟨x, .head _, h⟩
  | x :: y :: r, h => by
    rw [joinWith, List.mem_append, List.mem_append] at h
    rcases h with (h | h) | h
    · exact Or.inr ⟨x, .head _, h⟩
    · exact Or.inl (by simpa [ascii] using h)
    · rcases mem_join h with h | ⟨k, hk, h⟩
      · exact Or.inl h
      · exact Or.inr ⟨k, .tail _ hk, h⟩

theorem fieldText_head (f : Field) : ∃ r, fieldText f = 36 :: r := by
  obtain ⟨r, hr⟩ := rootText_head f.root
  unfold fieldText
  split
  · exact ⟨_, by rw [hr]; rfl⟩
  · exact ⟨r, hr⟩

theorem fieldText_mark {f : Field} (h : ∀ k ∈ f.path, ∀ c ∈ k, ¬ Mark c ∧ c ≠ 46) : ∀ c ∈ fieldText f, ¬ Mark c := by
  intro c hc
  unfold fieldText at hc
  split at hc
  · rcases List.mem_append.1 hc with hc | hc
    · rcases List.mem_append.1 hc with hc | hc
      · exact (rootText_mark _ c hc).1
      · have : c = 46 := by simpa [ascii] using hc
        unfold Mark; omega
    · rcases mem_join hc with rfl | ⟨k, hk, hc⟩
      · decide
      · exact (h k hk c hc).1
  · exact (rootText_mark _ c hc).1

theorem fieldText_inj {f f' : Field} (h : ∀ k ∈ f.path, ∀ c ∈ k, ¬ Mark c ∧ c ≠ 46) (h' : ∀ k ∈ f'.path, ∀ c ∈ k, ¬ Mark c ∧ c ≠ 46)
    (he : fieldText f = fieldText f') : f = f' := by
  obtain ⟨v, p⟩ := f
  obtain ⟨v', p'⟩ := f'
  have hd : ∀ (a b : Int) (s : List Nat), rootText a ++ ascii "." ++ s ≠ rootText b := by
    intro a b s e
    exact (rootText_mark b 46 (by rw [← e]; simp [ascii])).2 rfl
  unfold fieldText at he
  simp only at he h h'
  cases p with
  | nil =>
    cases p' with
    | nil => rw [if_neg (by simp), if_neg (by simp)] at he; rw [rootText_inj he]
    | cons => rw [if_neg (by simp), if_pos (by simp)] at he; exact absurd he.symm (hd _ _ _)
  | cons x r =>
    cases p' with
    | nil => rw [if_pos (by simp), if_neg (by simp)] at he; exact absurd he (hd _ _ _)
    | cons x' r' =>
      rw [if_pos (by simp), if_pos (by simp), List.append_assoc, List.append_assoc] at he
      obtain ⟨h1, h2⟩ := split_at (P := fun c => c ≠ 46) (c := 46) (by simp) (fun c hc => (rootText_mark v c hc).2)
        (fun c hc => (rootText_mark v' c hc).2) he
      rw [rootText_inj h1, join_inj (by simp) (by simp) (fun k hk c hc => (h k hk c hc).2) (fun k hk c hc => (h' k hk c hc).2) h2]

/-! ### Operands -/

/-- What may come after an operand. -/
def After (u : List Nat) : Prop := ∀ c, u.head? = some c → Mark c ∧ c ≠ 40

set_option linter.unusedSectionVars false

section
variable {F : GoVal E → List Nat} {V W : GoVal E → Prop} (hT : Told F V W)
include hT

theorem word_head {v : GoVal E} (h : V v) : ∃ c r, F v = c :: r ∧ c ≠ 36 ∧ c ≠ 47 ∧ ¬ Mark c := by
  obtain ⟨h1, h2, h3, h4⟩ := hT.word h
  cases e : F v with
  | nil => exact absurd (by rw [e]; exact .head _) h2
  | cons c r =>
    rw [e] at h1 h3 h4
    exact ⟨c, r, rfl, fun h => h3 (by rw [h]; rfl), fun h => h4 (by rw [h]; rfl), h1 c (.head _)⟩

theorem operand_head {e : Expr E} (h : Operand V W e) : ∃ c r, exprText F e = c :: r ∧ ¬ Mark c := by
  cases e with
  | field f => obtain ⟨r, hr⟩ := fieldText_head f; exact ⟨36, r, by rw [exprText, hr], by decide⟩
  | value v => obtain ⟨c, r, hc, _, _, hm⟩ := word_head hT h; exact ⟨c, r, by rw [exprText, hc], hm⟩
  | regex v => exact ⟨47, _, by rw [exprText]; rfl, by decide⟩
  | func n ps => exact ⟨102, _, by rw [exprText]; rfl, by decide⟩
  | _ => exact h.elim

mutual
  theorem operand_line : ∀ {e : Expr E}, Operand V W e → ∀ c ∈ exprText F e, c ≠ 10
    | .field f, h, c, hc => by
      rw [exprText] at hc; rw [Operand] at h
      exact fun e => fieldText_mark h c hc (Or.inl e)
    | .value v, h, c, hc => by
      rw [exprText] at hc
      exact fun e => (hT.word h).1 c hc (Or.inl e)
    | .regex v, h, c, hc => by
      rw [exprText] at hc
      rcases List.mem_append.1 hc with hc | hc
      · rcases List.mem_append.1 hc with hc | hc
        · have : c = 47 := by simpa [ascii] using hc
          omega
        · exact (hT.pattern h c hc).2
      · have : c = 47 := by simpa [ascii] using hc
        omega
    | .func n ps, h, c, hc => by
      rw [Operand] at h
      rw [exprText, List.append_assoc, List.append_assoc, List.append_assoc] at hc
      rcases List.mem_append.1 hc with hc | hc
      · have : c = 102 ∨ c = 117 ∨ c = 110 ∨ c = 99 ∨ c = 58 := by simpa [ascii] using hc
        omega
      · rcases List.mem_append.1 hc with hc | hc
        · exact fun e => h.1 c hc (Or.inl e)
        · rcases List.mem_append.1 hc with hc | hc
          · have : c = 40 := by simpa [ascii] using hc
            omega
          · rcases List.mem_append.1 hc with hc | hc
            · exact (operands_line h.2).1 c hc
            · have : c = 41 := by simpa [ascii] using hc
              omega
    | .tru, h, _, _ | .fals, h, _, _ | .time _, h, _, _ | .pcre _, h, _, _ | .not _, h, _, _ | .and _, h, _, _ | .or _, h, _, _
    | .loop .., h, _, _ | .exist _, h, _, _ | .notExist _, h, _, _ | .cmp .., h, _, _ => by simp [Operand] at h
  theorem operands_line : ∀ {es : Exprs E}, Operands V W es → (∀ c ∈ paramsText F es, c ≠ 10) ∧ ∀ c ∈ moreText F es, c ≠ 10
    | .nil, _ => by
      refine ⟨fun c h => ?_, fun c h => ?_⟩
      · rw [paramsText] at h; cases h
      · rw [moreText] at h; cases h
    | .cons e r, h => by
      rw [Operands] at h
      have h1 := operand_line h.1
      have h2 := (operands_line h.2).2
      constructor
      · intro c hc
        rw [paramsText] at hc
        exact (List.mem_append.1 hc).elim (h1 c) (h2 c)
      · intro c hc
        rw [moreText, List.append_assoc] at hc
        rcases List.mem_append.1 hc with hc | hc
        · have : c = 44 := by simpa [ascii] using hc
          omega
        · exact (List.mem_append.1 hc).elim (h1 c) (h2 c)
end

theorem after_more (es : Exprs E) (u : List Nat) : After (moreText F es ++ 41 :: u) := by
  intro c hc
  cases es with
  | nil => rw [moreText] at hc; cases hc; decide
  | cons e r => rw [moreText] at hc; cases hc; decide

mutual
  /-- An operand can be read off a text that begins with it. -/
  theorem operand_inj : ∀ (e e' : Expr E) (u u' : List Nat), Operand V W e → Operand V W e' → After u → After u' →
      exprText F e ++ u = exprText F e' ++ u' → e = e' ∧ u = u'
    | .field f, e', u, u', h, h', hu, hu', he => by
      rw [Operand] at h
      obtain ⟨r, hr⟩ := fieldText_head f
      cases e' with
      | field f' =>
        rw [Operand] at h'
        rw [exprText, exprText] at he
        obtain ⟨h1, h2⟩ := split_word (fieldText_mark h) (fieldText_mark h') (fun c hc => (hu c hc).1) (fun c hc => (hu' c hc).1) he
        exact ⟨by rw [fieldText_inj h h' h1], h2⟩
      | value v =>
        obtain ⟨c, s, hc, h1, _⟩ := word_head hT h'
        rw [exprText, exprText, hr, hc] at he; injection he with he _; exact absurd he.symm h1
      | regex v => rw [exprText, exprText, hr] at he; injection he with he _; cases he
      | func n ps => rw [exprText, exprText, hr] at he; injection he with he _; cases he
      | _ => exact h'.elim
    | .value v, e', u, u', h, h', hu, hu', he => by
      obtain ⟨c, s, hc, n1, n2, _⟩ := word_head hT h
      cases e' with
      | field f' =>
        obtain ⟨r, hr⟩ := fieldText_head f'
        rw [exprText, exprText, hr, hc] at he; injection he with he _; exact absurd he n1
      | value v' =>
        rw [exprText, exprText] at he
        obtain ⟨h1, h2⟩ := split_word (hT.word h).1 (hT.word h').1 (fun c hc => (hu c hc).1) (fun c hc => (hu' c hc).1) he
        exact ⟨by rw [hT.val h h' h1], h2⟩
      | regex v' => rw [exprText, exprText, hc] at he; injection he with he _; exact absurd he n2
      | func n ps =>
        rw [Operand] at h'
        rw [exprText, exprText, List.append_assoc, List.append_assoc, List.append_assoc] at he
        obtain ⟨h1, h2⟩ := split_word (hT.word h).1 (a' := ascii "func:" ++ n) (fun c hc => (List.mem_append.1 hc).elim (fun hc => by
          have : c = 102 ∨ c = 117 ∨ c = 110 ∨ c = 99 ∨ c = 58 := by simpa [ascii] using hc
          unfold Mark; omega) (h'.1 c)) (fun c hc => (hu c hc).1) (fun c hc => by cases hc; decide) he
        exact absurd rfl (hu 40 (by rw [h2]; rfl)).2
      | _ => exact h'.elim
    | .regex v, e', u, u', h, h', hu, hu', he => by
      cases e' with
      | field f' =>
        obtain ⟨r, hr⟩ := fieldText_head f'
        rw [exprText, exprText, hr] at he; injection he with he _; cases he
      | value v' =>
        obtain ⟨c, s, hc, _, n2, _⟩ := word_head hT h'
        rw [exprText, exprText, hc] at he; injection he with he _; exact absurd he.symm n2
      | regex v' =>
        rw [exprText, exprText, List.append_assoc, List.append_assoc, List.append_assoc, List.append_assoc] at he
        obtain ⟨h1, h2⟩ := split_at (P := fun c => c ≠ 47) (c := 47) (by simp) (fun c hc => (hT.pattern h c hc).1)
          (fun c hc => (hT.pattern h' c hc).1) (List.append_cancel_left he)
        exact ⟨by rw [hT.pat h h' h1], h2⟩
      | func n ps => rw [exprText, exprText] at he; injection he with he _; cases he
      | _ => exact h'.elim
    | .func n ps, e', u, u', h, h', hu, hu', he => by
      rw [Operand] at h
      cases e' with
      | field f' =>
        obtain ⟨r, hr⟩ := fieldText_head f'
        rw [exprText, exprText, hr] at he; injection he with he _; cases he
      | value v =>
        rw [exprText, exprText, List.append_assoc, List.append_assoc, List.append_assoc] at he
        obtain ⟨h1, h2⟩ := split_word (hT.word h').1 (a' := ascii "func:" ++ n) (fun c hc => (List.mem_append.1 hc).elim (fun hc => by
          have : c = 102 ∨ c = 117 ∨ c = 110 ∨ c = 99 ∨ c = 58 := by simpa [ascii] using hc
          unfold Mark; omega) (h.1 c)) (fun c hc => (hu' c hc).1) (fun c hc => by cases hc; decide) he.symm
        exact absurd rfl (hu' 40 (by rw [h2]; rfl)).2
      | regex v' => rw [exprText, exprText] at he; injection he with he _; cases he
      | func n' ps' =>
        rw [Operand] at h'
        simp only [exprText, List.append_assoc] at he
        obtain ⟨h1, h2⟩ := split_word h.1 h'.1 (fun c hc => by cases hc; decide) (fun c hc => by cases hc; decide) (List.append_cancel_left he)
        obtain ⟨h3, h4⟩ := (operands_inj ps ps' u u' h.2 h'.2).1 (List.append_cancel_left h2)
        exact ⟨by rw [h1, h3], h4⟩
      | _ => exact h'.elim
    | .tru, _, _, _, h, _, _, _, _ | .fals, _, _, _, h, _, _, _, _ | .time _, _, _, _, h, _, _, _, _ | .pcre _, _, _, _, h, _, _, _, _
    | .not _, _, _, _, h, _, _, _, _ | .and _, _, _, _, h, _, _, _, _ | .or _, _, _, _, h, _, _, _, _ | .loop .., _, _, _, h, _, _, _, _
    | .exist _, _, _, _, h, _, _, _, _ | .notExist _, _, _, _, h, _, _, _, _ | .cmp .., _, _, _, h, _, _, _, _ => by simp [Operand] at h
  theorem operands_inj : ∀ (es es' : Exprs E) (u u' : List Nat), Operands V W es → Operands V W es' →
      (paramsText F es ++ 41 :: u = paramsText F es' ++ 41 :: u' → es = es' ∧ u = u') ∧
      (moreText F es ++ 41 :: u = moreText F es' ++ 41 :: u' → es = es' ∧ u = u')
    | .nil, .nil, u, u', _, _ => by
      refine ⟨fun h => ⟨rfl, ?_⟩, fun h => ⟨rfl, ?_⟩⟩
      · rw [paramsText] at h; injection h
      · rw [moreText] at h; injection h
    | .nil, .cons e' r', u, u', _, h' => by
      rw [Operands] at h'
      refine ⟨fun h => ?_, fun h => ?_⟩
      · obtain ⟨c, s, hc, hm⟩ := operand_head hT h'.1
        rw [paramsText, paramsText, hc] at h
        injection h with h _
        exact absurd (h ▸ (by decide : Mark 41)) hm
      · rw [moreText, moreText] at h; injection h with h _; cases h
    | .cons e r, .nil, u, u', h0, _ => by
      rw [Operands] at h0
      refine ⟨fun h => ?_, fun h => ?_⟩
      · obtain ⟨c, s, hc, hm⟩ := operand_head hT h0.1
        rw [paramsText, paramsText, hc] at h
        injection h with h _
        exact absurd (h ▸ (by decide : Mark 41)) hm
      · rw [moreText, moreText] at h; injection h with h _; cases h
    | .cons e r, .cons e' r', u, u', h0, h0' => by
      rw [Operands] at h0 h0'
      have key : exprText F e ++ (moreText F r ++ 41 :: u) = exprText F e' ++ (moreText F r' ++ 41 :: u') → Exprs.cons e r = .cons e' r' ∧ u = u' := by
        intro h
        obtain ⟨h1, h2⟩ := operand_inj e e' _ _ h0.1 h0'.1 (after_more hT r u) (after_more hT r' u') h
        obtain ⟨h3, h4⟩ := (operands_inj r r' u u' h0.2 h0'.2).2 h2
        exact ⟨by rw [h1, h3], h4⟩
      refine ⟨fun h => ?_, fun h => ?_⟩
      · rw [paramsText, paramsText, List.append_assoc, List.append_assoc] at h; exact key h
      · rw [moreText, moreText] at h; simp only [List.append_assoc] at h; exact key (List.append_cancel_left h)
end

end

/-! ### Lines -/

def linesOf : List Nat → List (List Nat)
  | [] => [[]]
  | c :: r => if c = 10 then [] :: linesOf r else match linesOf r with
    | [] => [[c]]
    | l :: ls => (c :: l) :: ls

theorem linesOf_ne : ∀ s, linesOf s ≠ []
  | [] => by simp [linesOf]
  | c :: r => by
    rw [linesOf]
    split
    · simp
    · split <;> simp

theorem join_lines : ∀ s, joinWith [10] (linesOf s) = s
  | [] => rfl
  | c :: r => by
    have ih := join_lines r
    have hne := linesOf_ne r
    rw [linesOf]
    split
    · rename_i hc
      subst hc
      cases h : linesOf r with
      | nil => exact absurd h hne
      | cons l ls => rw [joinWith, ← h, ih]; rfl
    · split
      · rename_i h; exact absurd h hne
      · rename_i l ls h
        rw [h] at ih
        cases ls with
        | nil => rw [joinWith] at ih ⊢; rw [ih]
        | cons x xs => rw [joinWith] at ih ⊢; rw [← ih]; rfl

theorem linesOf_inj {s s' : List Nat} (h : linesOf s = linesOf s') : s = s' := by rw [← join_lines s, h, join_lines]

theorem linesOf_pre {s l : List Nat} {ls : List (List Nat)} (h : linesOf s = l :: ls) : ∀ {a : List Nat}, (∀ c ∈ a, c ≠ 10) →
    linesOf (a ++ s) = (a ++ l) :: ls
  | [], _ => h
  | c :: r, ha => by
    rw [List.cons_append, linesOf, if_neg (ha c (.head _)), linesOf_pre h fun x hx => ha x (.tail _ hx)]
    rfl

theorem linesOf_one {a : List Nat} (ha : ∀ c ∈ a, c ≠ 10) : linesOf a = [a] := by
  have := linesOf_pre (s := []) rfl ha
  rwa [List.append_nil, ] at this

theorem linesOf_feed (b : List Nat) : ∀ a : List Nat, linesOf (a ++ 10 :: b) = linesOf a ++ linesOf b
  | [] => rfl
  | c :: r => by
    rw [List.cons_append, linesOf, linesOf, linesOf_feed b r]
    split
    · rfl
    · cases h : linesOf r with
      | nil => exact absurd h (linesOf_ne r)
      | cons => rfl

theorem linesOf_reindent (s : List Nat) : linesOf (reindent (ascii "  ") s) = (linesOf s).map (ascii "  " ++ ·) := by
  have hi : ∀ c ∈ ascii "  ", c ≠ 10 := by
    intro c hc
    have : c = 32 := by simpa [ascii] using hc
    omega
  have key : ∀ s, ∃ l ls, linesOf s = l :: ls ∧ linesOf (s.flatMap fun c => if c = 10 then 10 :: ascii "  " else [c]) = l :: ls.map (ascii "  " ++ ·) := by
    intro s
    induction s with
    | nil => exact ⟨[], [], rfl, rfl⟩
    | cons c r ih =>
      obtain ⟨l, ls, h1, h2⟩ := ih
      rw [List.flatMap_cons, linesOf, h1]
      by_cases hc : c = 10
      · rw [if_pos hc, if_pos hc]
        refine ⟨[], l :: ls, rfl, ?_⟩
        rw [List.cons_append, linesOf, if_pos rfl, linesOf_pre h2 hi]
        rfl
      · rw [if_neg hc, if_neg hc]
        refine ⟨c :: l, ls, rfl, ?_⟩
        rw [List.singleton_append, linesOf, if_neg hc, h2]
  obtain ⟨l, ls, h1, h2⟩ := key s
  rw [reindent, linesOf_pre h2 hi, h1]
  rfl

/-- A line that is not at the margin. -/
def Inside (l : List Nat) : Prop := l.head? = some 32

instance (l : List Nat) : Decidable (Inside l) := by unfold Inside; infer_instance

theorem split_margin {A A' B B' : List (List Nat)} (hA : ∀ l ∈ A, Inside l) (hA' : ∀ l ∈ A', Inside l) (hB : ∀ l, B.head? = some l → ¬ Inside l)
    (hB' : ∀ l, B'.head? = some l → ¬ Inside l) (h : A ++ B = A' ++ B') : A = A' ∧ B = B' := by
  induction A generalizing A' with
  | nil =>
    cases A' with
    | nil => exact ⟨rfl, h⟩
    | cons x r => exact absurd (hA' x (.head _)) (hB x (by rw [show B = _ from h]; rfl))
  | cons y r ih =>
    cases A' with
    | nil => exact absurd (hA y (.head _)) (hB' y (by rw [← show _ = B' from h]; rfl))
    | cons x r' =>
      injection h with h1 h2
      obtain ⟨e1, e2⟩ := ih (fun x hx => hA x (.tail _ hx)) (fun x hx => hA' x (.tail _ hx)) h2
      exact ⟨by rw [h1, e1], e2⟩

theorem reindent_inside (s : List Nat) : ∀ l ∈ linesOf (reindent (ascii "  ") s), Inside l := by
  intro l hl
  rw [linesOf_reindent] at hl
  obtain ⟨x, _, rfl⟩ := List.mem_map.1 hl
  rfl

theorem reindent_inj {s s' : List Nat} (h : linesOf (reindent (ascii "  ") s) = linesOf (reindent (ascii "  ") s')) : s = s' := by
  rw [linesOf_reindent, linesOf_reindent] at h
  exact linesOf_inj ((List.map_inj_right fun _ _ h => List.append_cancel_left h).1 h)

/-! ### Chains -/

section
variable (F : GoVal E → List Nat)

def restLines (op : List Nat) : Exprs E → List (List Nat)
  | .nil => []
  | .cons e r => op :: (linesOf (reindent (ascii "  ") (exprText F e)) ++ restLines op r)

theorem linesOf_rest {op : List Nat} (ho : ∀ c ∈ op, c ≠ 10) : ∀ (es : Exprs E) (x : List Nat), linesOf (x ++ restText F op es) = linesOf x ++ restLines F op es
  | .nil, x => by rw [restText, restLines, List.append_nil, List.append_nil]
  | .cons e r, x => by
    rw [restText, restLines]
    have : x ++ (ascii "\n" ++ op ++ ascii "\n" ++ reindent (ascii "  ") (exprText F e) ++ restText F op r) =
        x ++ 10 :: (op ++ 10 :: (reindent (ascii "  ") (exprText F e) ++ restText F op r)) := by
      simp [ascii]
    rw [this, linesOf_feed, linesOf_feed, linesOf_one ho, linesOf_rest ho r]
    rfl

/-- The word of a conjunction or disjunction. -/
def Joint (op : List Nat) : Prop := op = ascii "AND" ∨ op = ascii "OR"

theorem Joint.line {op : List Nat} (h : Joint op) : ∀ c ∈ op, c ≠ 10 := by
  intro c hc
  rcases h with rfl | rfl
  · have : c = 65 ∨ c = 78 ∨ c = 68 := by simpa [ascii] using hc
    omega
  · have : c = 79 ∨ c = 82 := by simpa [ascii] using hc
    omega

theorem Joint.margin {op : List Nat} (h : Joint op) (es : Exprs E) : ∀ l, (restLines F op es).head? = some l → ¬ Inside l := by
  intro l hl
  cases es with
  | nil => cases hl
  | cons e r =>
    cases hl
    rcases h with rfl | rfl <;> decide

end

/-! ### Kinds of expressions -/

/-- The number of the word with which a text begins. -/
def kind : Expr E → Nat
  | .tru => 1
  | .fals => 2
  | .not _ => 3
  | .and _ => 0
  | .or _ => 0
  | .loop .every .. => 5
  | .loop .. => 4
  | _ => 6

theorem not_reserved {c : Nat} {w : List Nat} (hc : c ≠ 84 ∧ c ≠ 70 ∧ c ≠ 78 ∧ c ≠ 97 ∧ c ≠ 101) : reserved.idxOf (c :: w) = 6 := by
  have : (c :: w) ∉ reserved := by
    intro h
    simp [reserved, ascii] at h
    omega
  rw [List.idxOf_eq_length this]; rfl

section
variable {F : GoVal E → List Nat} {V W : GoVal E → Prop} (hT : Told F V W)
include hT

theorem operand_kind {e : Expr E} (h : Operand V W e) {u : List Nat} (hu : After u) : reserved.idxOf (tok (exprText F e ++ u)) = 6 := by
  have hu1 : ∀ c, u.head? = some c → Mark c := fun c hc => (hu c hc).1
  cases e with
  | field f =>
    rw [Operand] at h
    obtain ⟨r, hr⟩ := fieldText_head f
    rw [exprText, tok_append (fieldText_mark h) hu1, hr]
    exact not_reserved (by omega)
  | value v =>
    rw [exprText, tok_append (hT.word h).1 hu1, List.idxOf_eq_length (hT.word h).2.1]; rfl
  | regex v =>
    have : exprText F (.regex v) ++ u = 47 :: (F v ++ ascii "/" ++ u) := by rw [exprText]; rfl
    rw [this, tok, List.takeWhile_cons_of_pos (by decide)]
    exact not_reserved (by omega)
  | func n ps =>
    have : exprText F (.func n ps) ++ u = 102 :: (ascii "unc:" ++ n ++ ascii "(" ++ paramsText F ps ++ ascii ")" ++ u) := by rw [exprText]; rfl
    rw [this, tok, List.takeWhile_cons_of_pos (by decide)]
    exact not_reserved (by omega)
  | _ => exact h.elim

theorem kind_text {e : Expr E} (h : Plainly V W e) : reserved.idxOf (tok (exprText F e)) = kind e := by
  have word : ∀ (w x : List Nat), (∀ c ∈ w, ¬ Mark c) → tok (w ++ 32 :: x) = w := fun w x hw => tok_append hw (fun c hc => by cases hc; decide)
  have chain : ∀ op (es : Exprs E), es.length > 1 → tok (chainText F op es) = [] := by
    intro op es hl
    cases es with
    | nil => cases hl
    | cons e r =>
      cases r with
      | nil => simp [Exprs.length] at hl
      | cons e' r => rw [chainText]; rfl
  cases e with
  | tru => rw [exprText]; rfl
  | fals => rw [exprText]; rfl
  | not e => rw [exprText, show tok (ascii "NOT " ++ exprText F e) = ascii "NOT" from word (ascii "NOT") _ (by decide)]; rfl
  | and es => rw [Plainly] at h; rw [exprText, chain _ _ h.1]; rfl
  | or es => rw [Plainly] at h; rw [exprText, chain _ _ h.1]; rfl
  | loop m v i s =>
    rw [exprText]
    simp only [List.append_assoc]
    cases m with
    | any => rw [show tok (loopText .any ++ _) = ascii "any" from word (ascii "any") _ (by decide)]; rfl
    | every => rw [show tok (loopText .every ++ _) = ascii "every" from word (ascii "every") _ (by decide)]; rfl
    | anyEvery => rw [show tok (loopText .anyEvery ++ _) = ascii "any" from word (ascii "any") _ (by decide)]; rfl
  | exist e => rw [exprText, operand_kind hT h (fun c hc => by cases hc; decide)]; rfl
  | notExist e => rw [exprText, operand_kind hT h (fun c hc => by cases hc; decide)]; rfl
  | cmp c l r =>
    rw [Plainly] at h
    rw [exprText, List.append_assoc, operand_kind hT h.1 (fun x hc => by cases c <;> cases hc <;> decide)]; rfl
  | _ => exact h.elim

omit hT in
theorem loopText_inj {m m' : Mode} {v v' : Int} {x x' : List Nat} (h : loopText m ++ (intText v ++ x) = loopText m' ++ (intText v' ++ x')) :
    m = m' ∧ intText v ++ x = intText v' ++ x' := by
  cases m <;> cases m' <;> simp [loopText, ascii] at h ⊢ <;> exact h

omit hT in
theorem cmpText_inj {c c' : Cmp} {x x' : List Nat} (h : cmpText c ++ x = cmpText c' ++ x') : c = c' ∧ x = x' := by
  cases c <;> cases c' <;> simp [cmpText, ascii] at h ⊢ <;> exact h

omit hT in
theorem cmpText_after (c : Cmp) (x : List Nat) : After (cmpText c ++ x) := by
  intro y hy; cases c <;> cases hy <;> decide

omit hT in
theorem cmpText_other (c : Cmp) (x : List Nat) : cmpText c ++ x ≠ ascii " EXISTS" ∧ cmpText c ++ x ≠ ascii " IS MISSING" := by
  cases c <;> simp [cmpText, ascii]

omit hT in
theorem kind_not {e : Expr E} (h : kind e = 3) : ∃ x, e = .not x := by
  cases e with
  | not x => exact ⟨x, rfl⟩
  | loop m => cases m <;> simp [kind] at h
  | _ => simp [kind] at h

omit hT in
theorem kind_const {e : Expr E} : (kind e = 1 → e = .tru) ∧ (kind e = 2 → e = .fals) := by
  cases e with
  | loop m => cases m <;> simp [kind]
  | _ => simp [kind]

omit hT in
theorem kind_chain {e : Expr E} (h : kind e = 0) : ∃ es, e = .and es ∨ e = .or es := by
  cases e with
  | and es => exact ⟨es, Or.inl rfl⟩
  | or es => exact ⟨es, Or.inr rfl⟩
  | loop m => cases m <;> simp [kind] at h
  | _ => simp [kind] at h

omit hT in
theorem kind_loop {e : Expr E} {m : Mode} {v : Int} {i s : Expr E} (h : kind e = kind (.loop m v i s)) : ∃ m' v' i' s', e = .loop m' v' i' s' := by
  cases e with
  | loop m' v' i' s' => exact ⟨m', v', i', s', rfl⟩
  | _ => cases m <;> simp [kind] at h

omit hT in
theorem kind_cond {e : Expr E} (h : kind e = 6) (hp : Plainly V W e) : (∃ a, e = .exist a) ∨ (∃ a, e = .notExist a) ∨ ∃ c l r, e = .cmp c l r := by
  cases e with
  | exist a => exact Or.inl ⟨a, rfl⟩
  | notExist a => exact Or.inr (Or.inl ⟨a, rfl⟩)
  | cmp c l r => exact Or.inr (Or.inr ⟨c, l, r, rfl⟩)
  | loop m => cases m <;> simp [kind] at h
  | _ => first | exact hp.elim | (simp [kind] at h; done)

theorem cond_inj {e e' : Expr E} (hk : kind e = 6) (h : Plainly V W e) (h' : Plainly V W e') (he : exprText F e = exprText F e') : e = e' := by
  have hk' : kind e' = 6 := by rw [← kind_text hT h', ← he, kind_text hT h, hk]
  have a1 : After (ascii " EXISTS") := fun c hc => by cases hc; decide
  have a2 : After (ascii " IS MISSING") := fun c hc => by cases hc; decide
  have ne : ascii " EXISTS" ≠ ascii " IS MISSING" := by decide
  rcases kind_cond hk h with ⟨a, rfl⟩ | ⟨a, rfl⟩ | ⟨c, l, r, rfl⟩ <;> rcases kind_cond hk' h' with ⟨a', rfl⟩ | ⟨a', rfl⟩ | ⟨c', l', r', rfl⟩ <;>
    simp only [Plainly, exprText, List.append_assoc] at h h' he
  · rw [(operand_inj hT _ _ _ _ h h' a1 a1 he).1]
  · exact absurd (operand_inj hT _ _ _ _ h h' a1 a2 he).2 ne
  · exact absurd (operand_inj hT _ _ _ _ h h'.1 a1 (cmpText_after _ _) he).2.symm (cmpText_other _ _).1
  · exact absurd (operand_inj hT _ _ _ _ h h' a2 a1 he).2.symm ne
  · rw [(operand_inj hT _ _ _ _ h h' a2 a2 he).1]
  · exact absurd (operand_inj hT _ _ _ _ h h'.1 a2 (cmpText_after _ _) he).2.symm (cmpText_other _ _).2
  · exact absurd (operand_inj hT _ _ _ _ h.1 h' (cmpText_after _ _) a1 he).2 (cmpText_other _ _).1
  · exact absurd (operand_inj hT _ _ _ _ h.1 h' (cmpText_after _ _) a2 he).2 (cmpText_other _ _).2
  · obtain ⟨h1, h2⟩ := operand_inj hT _ _ _ _ h.1 h'.1 (cmpText_after _ _) (cmpText_after _ _) he
    obtain ⟨h3, h4⟩ := cmpText_inj h2
    have nil : After [] := fun c hc => by cases hc
    rw [h1, h3, (operand_inj hT r r' [] [] h.2 h'.2 nil nil (by rw [h4])).1]

/-- The two parts of a loop. -/
theorem loop_inj {m m' : Mode} {v v' : Int} {i i' s s' : Expr E} (h : Operand V W i) (h' : Operand V W i')
    (he : exprText F (.loop m v i s) = exprText F (.loop m' v' i' s')) : m = m' ∧ v = v' ∧ i = i' ∧ exprText F s = exprText F s' := by
  have hh : ∀ (m : Mode) (v : Int) (i : Expr E), Operand V W i → ∀ c ∈ loopText m ++ (intText v ++ (32 :: (ascii "in " ++ exprText F i))), c ≠ 10 := by
    intro m v i hi c hc
    rcases List.mem_append.1 hc with hc | hc
    · intro e; subst e; revert hc; cases m <;> simp [loopText, ascii]
    · rcases List.mem_append.1 hc with hc | hc
      · exact fun e => (intText_mark c hc).1 (Or.inl e)
      · rcases List.mem_cons.1 hc with hc | hc
        · omega
        · rcases List.mem_append.1 hc with hc | hc
          · intro e; subst e; revert hc; simp [ascii]
          · exact operand_line hT hi c hc
  have ht : ∀ (m : Mode) (v : Int) (i s : Expr E), exprText F (.loop m v i s) = loopText m ++ (intText v ++ (32 :: (ascii "in " ++ exprText F i))) ++
      10 :: (reindent (ascii "  ") (exprText F s) ++ 10 :: ascii "end") := by
    intro m v i s
    rw [exprText]
    simp [ascii]
  rw [ht, ht] at he
  have hl := congrArg linesOf he
  rw [linesOf_feed, linesOf_feed, linesOf_feed, linesOf_feed, linesOf_one (hh m v i h), linesOf_one (hh m' v' i' h')] at hl
  injection hl with hl1 hl2
  obtain ⟨h1, h2⟩ := loopText_inj hl1
  have mk : ∀ z : Int, ∀ c ∈ intText z, ¬ Mark c := fun z c hc => (intText_mark c hc).1
  obtain ⟨h3, h4⟩ := split_word (mk v) (mk v') (fun c hc => by cases hc; decide) (fun c hc => by cases hc; decide) h2
  injection h4 with _ h4
  have nil : After [] := fun c hc => by cases hc
  refine ⟨h1, intText_inj h3, (operand_inj hT i i' [] [] h h' nil nil (by rw [List.append_cancel_left h4])).1, reindent_inj ?_⟩
  exact List.append_cancel_right hl2

mutual
  /-- Expressions with the same text are the same. -/
  theorem exprText_inj : ∀ e e' : Expr E, Plainly V W e → Plainly V W e' → exprText F e = exprText F e' → e = e'
    | .not x, e', h, h', he => by
      have hk : kind e' = kind (.not x) := by rw [← kind_text hT h', ← he, kind_text hT h]
      obtain ⟨x', rfl⟩ := kind_not hk
      rw [Plainly] at h h'
      rw [exprText, exprText] at he
      rw [exprText_inj x x' h h' (List.append_cancel_left he)]
    | .and es, e', h, h', he => by
      have hk : kind e' = kind (.and es) := by rw [← kind_text hT h', ← he, kind_text hT h]
      obtain ⟨es', rfl | rfl⟩ := kind_chain hk <;> simp only [Plainly, exprText] at h h' he
      · rw [(chain_inj es es' (Or.inl rfl) (Or.inl rfl) h.1 h'.1 h.2 h'.2 he).1]
      · exact absurd (chain_inj es es' (Or.inl rfl) (Or.inr rfl) h.1 h'.1 h.2 h'.2 he).2 (by decide)
    | .or es, e', h, h', he => by
      have hk : kind e' = kind (.or es) := by rw [← kind_text hT h', ← he, kind_text hT h]
      obtain ⟨es', rfl | rfl⟩ := kind_chain hk <;> simp only [Plainly, exprText] at h h' he
      · exact absurd (chain_inj es es' (Or.inr rfl) (Or.inl rfl) h.1 h'.1 h.2 h'.2 he).2 (by decide)
      · rw [(chain_inj es es' (Or.inr rfl) (Or.inr rfl) h.1 h'.1 h.2 h'.2 he).1]
    | .loop m v i s, e', h, h', he => by
      have hk : kind e' = kind (.loop m v i s) := by rw [← kind_text hT h', ← he, kind_text hT h]
      obtain ⟨m', v', i', s', rfl⟩ := kind_loop hk
      rw [Plainly] at h h'
      obtain ⟨h1, h2, h3, h4⟩ := loop_inj hT h.1 h'.1 he
      rw [h1, h2, h3, exprText_inj s s' h.2 h'.2 h4]
    | .tru, e', h, h', he => (kind_const.1 (by rw [← kind_text hT h', ← he, kind_text hT h]; rfl)).symm
    | .fals, e', h, h', he => (kind_const.2 (by rw [← kind_text hT h', ← he, kind_text hT h]; rfl)).symm
    | .exist a, e', h, h', he => cond_inj hT rfl h h' he
    | .notExist a, e', h, h', he => cond_inj hT rfl h h' he
    | .cmp c l r, e', h, h', he => cond_inj hT rfl h h' he
    | .value _, _, h, _, _ | .time _, _, h, _, _ | .regex _, _, h, _, _ | .pcre _, _, h, _, _ | .field _, _, h, _, _ | .func .., _, h, _, _ => by
      simp [Plainly] at h
  theorem chain_inj : ∀ (es es' : Exprs E) {op op' : List Nat}, Joint op → Joint op' → es.length > 1 → es'.length > 1 → Plainlys V W es →
      Plainlys V W es' → chainText F op es = chainText F op' es' → es = es' ∧ op = op'
    | .nil, _, _, _, _, _, hl, _, _, _, _ => by simp [Exprs.length] at hl
    | .cons e .nil, _, _, _, _, _, hl, _, _, _, _ => by simp [Exprs.length] at hl
    | .cons e (.cons e2 r), .nil, _, _, _, _, _, hl, _, _, _ => by simp [Exprs.length] at hl
    | .cons e (.cons e2 r), .cons _ .nil, _, _, _, _, _, hl, _, _, _ => by simp [Exprs.length] at hl
    | .cons e (.cons e2 r), .cons e' (.cons e2' r'), op, op', ho, ho', _, _, h, h', he => by
      rw [Plainlys] at h h'
      rw [chainText, chainText] at he
      have hl := congrArg linesOf he
      rw [linesOf_rest F ho.line, linesOf_rest F ho'.line] at hl
      obtain ⟨h1, h2⟩ := split_margin (reindent_inside _) (reindent_inside _) (ho.margin F _) (ho'.margin F _) hl
      obtain ⟨h3, h4⟩ := rest_inj (.cons e2 r) (.cons e2' r') ho ho' h.2 h'.2 h2
      exact ⟨by rw [exprText_inj e e' h.1 h'.1 (reindent_inj h1), h3], h4 (by simp)⟩
  theorem rest_inj : ∀ (es es' : Exprs E) {op op' : List Nat}, Joint op → Joint op' → Plainlys V W es → Plainlys V W es' →
      restLines F op es = restLines F op' es' → es = es' ∧ (es ≠ .nil → op = op')
    | .nil, .nil, _, _, _, _, _, _, _ => ⟨rfl, fun h => absurd rfl h⟩
    | .nil, .cons .., _, _, _, _, _, _, he => by rw [restLines, restLines] at he; cases he
    | .cons .., .nil, _, _, _, _, _, _, he => by rw [restLines, restLines] at he; cases he
    | .cons e r, .cons e' r', op, op', ho, ho', h, h', he => by
      rw [Plainlys] at h h'
      rw [restLines, restLines] at he
      injection he with h1 h2
      obtain ⟨h3, h4⟩ := split_margin (reindent_inside _) (reindent_inside _) (ho.margin F _) (ho'.margin F _) h2
      exact ⟨by rw [exprText_inj e e' h.1 h'.1 (reindent_inj h3), (rest_inj r r' ho ho' h.2 h'.2 h4).1], fun _ => h1⟩
end

end

/-! ### Theorems -/

/-- C94: expressions with the same text are the same. -/
def C94_full (F : GoVal E → List Nat) : Prop := ∀ e e' : Expr E, exprText F e = exprText F e' → e = e'

/-- C94 for conditions about fields, functions, values and patterns and their combinations, where names contain no dots and marks, the texts of
constants are words that tell them apart, and conjunctions and disjunctions have at least two parts.  (Missing: the others, for which it is
false, see `C94_negation` and the theorems after it.) -/
theorem C94_text_partial {F : GoVal E → List Nat} {V W : GoVal E → Prop} (hT : Told F V W) {e e' : Expr E} (h : Plainly V W e) (h' : Plainly V W e')
    (he : exprText F e = exprText F e') : e = e' := exprText_inj hT e e' h h' he

/-- The field `a.b` of the document and the field `b` of its field `a`. -/
theorem C94_negation (F : GoVal E → List Nat) : ¬ C94_full F := by
  intro h
  have := h (.field ⟨0, [[97, 46, 98]]⟩) (.field ⟨0, [[97], [98]]⟩) (by rw [exprText, exprText]; rfl)
  injection this with this
  exact absurd this (by decide)

/-- A time and a value, and the two kinds of patterns, whatever their texts are. -/
theorem C94_kinds (F : GoVal E → List Nat) (v : GoVal E) : exprText F (.time v) = exprText F (.value v) ∧
    exprText F (.pcre v) = exprText F (.regex v) := by
  simp only [exprText, and_self]

/-- A conjunction or disjunction of one part reads like the part, an empty conjunction like an empty disjunction. -/
theorem C94_single (F : GoVal E → List Nat) (e : Expr E) : exprText F (.and (.cons e .nil)) = exprText F e ∧
    exprText F (.or (.cons e .nil)) = exprText F e ∧ exprText F (.and .nil) = exprText F (.or .nil) := by
  simp only [exprText, chainText, and_self]

/-- Where a value contains a blank the operands cannot be told apart: `x = y = z` is the equality of `x` and the string `y = z`, and that of the
string `x = y` and `z`. -/
theorem C94_blank {F : GoVal E → List Nat} (hF : ∀ s, F (.json (.str s)) = s) :
    exprText F (.cmp .eq (.value (.json (.str (ascii "x")))) (.value (.json (.str (ascii "y = z"))))) =
      exprText F (.cmp .eq (.value (.json (.str (ascii "x = y")))) (.value (.json (.str (ascii "z"))))) := by
  simp only [exprText, hF]; rfl

/-- The merged expressions of a transformer read like their disjunction. -/
theorem C94_merge (F : GoVal E → List Nat) (es : Exprs E) : mergeText F es = exprText F (.or es) := by
  rw [mergeText, exprText]

/-! ### Examples -/

/-- Strings as they are, other values as nothing. -/
def demoFmt : GoVal demoExt → List Nat
  | .json (.str s) => s
  | _ => []

/-- The strings `x` and `y`; the patterns are all strings without slash and line feed. -/
theorem demoTold : Told demoFmt (fun v => v = .json (.str [120]) ∨ v = .json (.str [121]))
    (fun v => ∃ s, v = .json (.str s) ∧ ∀ c ∈ s, c ≠ 47 ∧ c ≠ 10) where
  val := by rintro v v' (rfl | rfl) (rfl | rfl) h <;> first | rfl | (simp [demoFmt] at h)
  pat := by rintro v v' ⟨s, rfl, _⟩ ⟨s', rfl, _⟩ h; rw [show s = s' from h]
  word := by
    rintro v (rfl | rfl)
    · exact ⟨by simp [demoFmt, Mark], by decide, by decide, by decide⟩
    · exact ⟨by simp [demoFmt, Mark], by decide, by decide, by decide⟩
  pattern := by rintro v ⟨s, rfl, h⟩; exact h

/-- `NOT a = x` and `ANY AND EVERY v IN a SATISFIES v =~ /( |,)/` -/
def demoSaid : Expr demoExt :=
  .and (.cons (.not (.cmp .eq (.field ⟨0, [[97]]⟩) (.value (.json (.str [120])))))
    (.cons (.loop .anyEvery 1 (.field ⟨0, [[97]]⟩) (.cmp .like (.field ⟨1, []⟩) (.regex (.json (.str (ascii "( |,)")))))) .nil))

example : exprText demoFmt demoSaid = ascii "  NOT $doc.a = x\nAND\n  any and every $1 in $doc.a\n    $1 =~ /( |,)/\n  end" := by decide +kernel

/-- `C94_text_partial` -/
example (e : Expr demoExt) (h : Plainly (fun v => v = .json (.str [120]) ∨ v = .json (.str [121]))
    (fun v => ∃ s, v = .json (.str s) ∧ ∀ c ∈ s, c ≠ 47 ∧ c ≠ 10) e)
    (he : exprText demoFmt e = ascii "  NOT $doc.a = x\nAND\n  any and every $1 in $doc.a\n    $1 =~ /( |,)/\n  end") : e = demoSaid := by
  refine C94_text_partial demoTold h ⟨by decide, ⟨?_, Or.inl rfl⟩, ⟨?_, ?_, ⟨_, rfl, by decide⟩⟩, trivial⟩ (he.trans (by decide +kernel))
  · show ∀ k ∈ [[97]], ∀ c ∈ k, ¬ Mark c ∧ c ≠ 46
    decide
  · show ∀ k ∈ [[97]], ∀ c ∈ k, ¬ Mark c ∧ c ≠ 46
    decide
  · show ∀ k ∈ ([] : List (List Nat)), ∀ c ∈ k, ¬ Mark c ∧ c ≠ 46
    decide

/-- `C94_blank` -/
example : exprText demoFmt (.cmp .eq (.value (.json (.str (ascii "x")))) (.value (.json (.str (ascii "y = z"))))) = ascii "x = y = z" := by decide +kernel

end Verif.ExprText
