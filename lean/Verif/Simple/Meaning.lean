import Verif.Simple.Theorems
import Verif.Filter.Theorems

/-!
# What parsed chains mean, and where parsing goes wrong
-/

namespace Verif.Simple
open Verif.FastVal Verif.Expr

variable {E : Ext}

/-! ### Meaning of chains -/

/-- A way to tell which expressions are true, in which `and` and `or` of two expressions mean what they say. -/
structure Truth (T : Expr E → Bool) : Prop where
  and : ∀ a b, T (.and (.cons a (.cons b .nil))) = (T a && T b)
  or : ∀ a b, T (.or (.cons a (.cons b .nil))) = (T a || T b)

/-- The truth of expressions on a document (Transform/Theorems.lean) is one. -/
theorem truth_doc (X : Fns E) (C : Verif.Transform.Comp E) (d : Verif.Token.D) : Truth fun e => Verif.Transform.truth X C e d :=
  ⟨fun a b => by simp [Verif.Transform.truth, Verif.Transform.truthAll], fun a b => by simp [Verif.Transform.truth, Verif.Transform.truthAny]⟩

theorem build_and (T : Expr E → Bool) (hT : Truth T) (short : Bool) : ∀ (ls : List (Str × Conn × Cond E)) (acc : Expr E),
    (∀ x ∈ ls, x.2.1 = .and) → T (build short acc ls) = (T acc && ls.all fun x => T x.2.2.expr) := by
  intro ls
  induction ls with
  | nil => intro acc _; simp [build]
  | cons x ls ih =>
    obtain ⟨w, o, q⟩ := x
    intro acc h
    have ho : o = .and := h (w, o, q) (by simp)
    subst ho
    have h' := fun x hx => h x (List.mem_cons_of_mem _ hx)
    rw [build]
    split
    · rw [Conn.expr, hT.and, ih _ h']; simp
    · rw [ih _ h', Conn.expr, hT.and]; simp [Bool.and_assoc]

theorem build_or (T : Expr E → Bool) (hT : Truth T) (short : Bool) : ∀ (ls : List (Str × Conn × Cond E)) (acc : Expr E),
    (∀ x ∈ ls, x.2.1 = .or) → T (build short acc ls) = (T acc || ls.any fun x => T x.2.2.expr) := by
  intro ls
  induction ls with
  | nil => intro acc _; simp [build]
  | cons x ls ih =>
    obtain ⟨w, o, q⟩ := x
    intro acc h
    have ho : o = .or := h (w, o, q) (by simp)
    subst ho
    have h' := fun x hx => h x (List.mem_cons_of_mem _ hx)
    rw [build]
    split
    · rw [Conn.expr, hT.or, ih _ h']; simp
    · rw [ih _ h', Conn.expr, hT.or]; simp [Bool.or_assoc]

/-- Conditions joined only by "and": the expression is true when all are; joined only by "or": when one is. -/
theorem C54_partial (N : Env E) (q : Cond E) (ls : List (Str × Conn × Cond E)) (text : Str) (hq : q.Spec N) (hls : LinksSpec N ls)
    (ht : Words (q.toks ++ linkToks ls) text) (T : Expr E → Bool) (hT : Truth T) :
    ∃ e, ParsesTo N text (.ok (some e)) ∧
      ((∀ x ∈ ls, x.2.1 = .and) → (T e = true ↔ T q.expr = true ∧ ∀ x ∈ ls, T x.2.2.expr = true)) ∧
      ((∀ x ∈ ls, x.2.1 = .or) → (T e = true ↔ T q.expr = true ∨ ∃ x ∈ ls, T x.2.2.expr = true)) := by
  refine ⟨_, C53_chain N q ls text hq hls ht, ?_, ?_⟩
  · intro h
    rw [build_and T hT _ ls _ h]
    simp
  · intro h
    rw [build_or T hT _ ls _ h]
    simp

/-- Rows of "and" joined by "or": "and" binds tighter. -/
def precedence (T : Expr E → Bool) : Bool → List (Str × Conn × Cond E) → Bool
  | acc, [] => acc
  | acc, (_, .and, q) :: r => precedence T (acc && T q.expr) r
  | acc, (_, .or, q) :: r => acc || precedence T (T q.expr) r

/-- C54 as it should be: "and" binds tighter than "or". -/
def C54_precedence (N : Env E) : Prop :=
  ∀ (q : Cond E) (ls : List (Str × Conn × Cond E)) (text : Str), q.Spec N → LinksSpec N ls → Words (q.toks ++ linkToks ls) text →
    ∀ T : Expr E → Bool, Truth T → ∃ e, ParsesTo N text (.ok (some e)) ∧ T e = precedence T (T q.expr) ls

def aName (s : String) : Name := ⟨[.plain (ascii s)], []⟩

def aNum (d : Nat) : Num := ⟨false, [d], none⟩

/-- The condition `s == d`. -/
def aCond (E : Ext) (s : String) (d : Nat) : Cond E :=
  .bin (ascii s) (.field ⟨0, [ascii s]⟩) [kEq] .eq [(aNum d).text] (.value (.int (BitVec.ofInt 64 d)))

theorem free_a : Free (ascii "a") := ⟨by decide, by unfold NoOp; decide, by unfold NumLike; simp [ascii], by decide, by decide, by decide⟩
theorem free_b : Free (ascii "b") := ⟨by decide, by unfold NoOp; decide, by unfold NumLike; simp [ascii], by decide, by decide, by decide⟩
theorem free_c : Free (ascii "c") := ⟨by decide, by unfold NoOp; decide, by unfold NumLike; simp [ascii], by decide, by decide, by decide⟩

theorem aName_ok (s : String) (h : ascii s ≠ []) (h' : ∀ b ∈ ascii s, b ≠ 46 ∧ b ≠ 96 ∧ b ≠ 91) : (aName s).Ok := by
  refine ⟨by simp [aName], ?_, by simp [aName]⟩
  intro p hp
  simp only [aName, List.mem_singleton] at hp
  subst hp
  exact ⟨h, h'⟩

theorem aNum_ok (d : Nat) (h : d < 10) : (aNum d).Ok :=
  ⟨by simp [aNum], by simp [aNum]; omega, by simp [aNum]; omega, by simp [aNum]⟩

theorem aCond_spec (N : Env E) (s : String) (d : Nat) (hf : Free (ascii s)) (h : ∀ b ∈ ascii s, b ≠ 46 ∧ b ≠ 96 ∧ b ≠ 91) (hd : d < 10) :
    (aCond E s d).Spec N := by
  refine ⟨?_, by simp [binWords], ?_⟩
  · have := LeftMeans.name (N := N) (aName s) (aName_ok s hf.ne h) (by simpa [aName, Name.text, partsText, Part.text] using hf)
    simpa [aName, Name.text, partsText, Part.text, Name.path, Part.name] using this
  · have hv : (aNum d).value = d := by simp [aNum, Num.value, ofDigits]
    have := RightMeans.num (N := N) (o := .eq) (aNum d) _ (by simp [Bin.likes])
      (Atom.Means.int (aNum d) (aNum_ok d hd) rfl (by rw [hv]; omega) (by rw [hv]; omega))
    rw [hv] at this
    exact this

/-- The text `a == 1 || b == 2 && c == 3`. -/
def mixedLinks (E : Ext) : List (Str × Conn × Cond E) := [(kOr, .or, aCond E "b" 2), (kAnd, .and, aCond E "c" 3)]

theorem words_join : ∀ (ts : List Str), (∀ t ∈ ts, t ≠ [] ∧ ∀ b ∈ t, white b = false) → Words ts (joinSp ts) := by
  intro ts
  induction ts with
  | nil => intro _; exact .nil [] (by simp)
  | cons t ts ih =>
    intro h
    obtain ⟨h1, h2⟩ := h t (by simp)
    have h3 := ih (fun x hx => h x (List.mem_cons_of_mem _ hx))
    cases ts with
    | nil => simpa [joinSp] using Words.last [] t [] (by simp) h1 h2 (by simp)
    | cons u ts =>
      have := Words.cons [] t 32 (joinSp (u :: ts)) (u :: ts) (by simp) h1 h2 rfl h3
      simpa [joinSp] using this

theorem mixed_words : Words ((aCond E "a" 1).toks ++ linkToks (mixedLinks E)) (ascii "a == 1 || b == 2 && c == 3") := by
  have : ascii "a == 1 || b == 2 && c == 3" = joinSp ((aCond E "a" 1).toks ++ linkToks (mixedLinks E)) := by rfl
  rw [this]
  apply words_join
  have : (aCond E "a" 1).toks ++ linkToks (mixedLinks E) =
    [ascii "a", kEq, ascii "1", kOr, ascii "b", kEq, ascii "2", kAnd, ascii "c", kEq, ascii "3"] := rfl
  rw [this]
  decide

theorem mixed_links (N : Env E) : LinksSpec N (mixedLinks E) := by
  intro x hx
  simp only [mixedLinks, List.mem_cons, List.not_mem_nil, or_false] at hx
  rcases hx with rfl | rfl
  · exact ⟨by simp [connWords], aCond_spec N "b" 2 free_b (by decide) (by decide)⟩
  · exact ⟨by simp [connWords], aCond_spec N "c" 3 free_c (by decide) (by decide)⟩

/-- An expression is decided by the value of the fields. -/
def evalEq (v : Str → Nat) : Expr E → Bool
  | .cmp .eq (.field ⟨_, [s]⟩) (.value (.int n)) => n.toNat = v s
  | _ => false

mutual
  def evalT (v : Str → Nat) : Expr E → Bool
    | .and es => evalAll v es
    | .or es => evalAny v es
    | e => evalEq v e
  def evalAll (v : Str → Nat) : Exprs E → Bool
    | .nil => true
    | .cons e r => evalT v e && evalAll v r
  def evalAny (v : Str → Nat) : Exprs E → Bool
    | .nil => false
    | .cons e r => evalT v e || evalAny v r
end

theorem evalT_truth (v : Str → Nat) : Truth (E := E) (evalT v) := ⟨fun a b => by simp [evalT, evalAll], fun a b => by simp [evalT, evalAny]⟩

/-- C54 is false: `a == 1 || b == 2 && c == 3` is read as `(a == 1 || b == 2) && c == 3`. -/
theorem C54_negation (N : Env E) : ¬ C54_precedence N := by
  intro h
  have hq := aCond_spec N "a" 1 free_a (by decide) (by decide)
  obtain ⟨e, he, ht⟩ := h (aCond E "a" 1) (mixedLinks E) _ hq (mixed_links N) mixed_words _ (evalT_truth fun s => if s = ascii "a" then 1 else 0)
  have he' := C53_chain N (aCond E "a" 1) (mixedLinks E) _ hq (mixed_links N) mixed_words
  have := parsesTo_unique N he he'
  injection this with this
  injection this with this
  subst this
  revert ht
  have hs : decide (OneSymbol ((aCond E "a" 1).toks ++ linkToks (mixedLinks E))) = false := by
    have : (aCond E "a" 1).toks ++ linkToks (mixedLinks E) =
      [ascii "a", kEq, ascii "1", kOr, ascii "b", kEq, ascii "2", kAnd, ascii "c", kEq, ascii "3"] := rfl
    rw [this]; decide
  rw [hs]
  have h1 : evalT (E := E) (fun s => if s = ascii "a" then 1 else 0) (build false (aCond E "a" 1).expr (mixedLinks E)) = false := rfl
  have h2 : precedence (E := E) (evalT fun s => if s = ascii "a" then 1 else 0) (evalT (fun s => if s = ascii "a" then 1 else 0) (aCond E "a" 1).expr)
    (mixedLinks E) = true := rfl
  rw [h1, h2]
  simp

/-- The hypotheses of `C53_chain` and `C54_partial` hold for `a == 1 || b == 2 && c == 3`. -/
example (N : Env E) : (aCond E "a" 1).Spec N ∧ LinksSpec N (mixedLinks E) ∧
    Words ((aCond E "a" 1).toks ++ linkToks (mixedLinks E)) (ascii "a == 1 || b == 2 && c == 3") :=
  ⟨aCond_spec N "a" 1 free_a (by decide) (by decide), mixed_links N, mixed_words⟩

end Verif.Simple
