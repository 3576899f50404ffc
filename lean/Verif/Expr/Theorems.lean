import Verif.Expr.Model

/-!
# Compaction, field references and statistics of expressions
-/

namespace Verif.Expr
open Verif.FastVal
open Verif.Match (Mode)

variable {E : Ext}

/-! ### C29: field references -/

mutual
  /-- The field `f` is mentioned in the expression, not below a loop binding its root (specification). -/
  inductive Free : Expr E → Field → Prop
    | field (f) : Free (.field f) f
    | func {n ps f} (h : FreeAny ps f) : Free (.func n ps) f
    | not {e f} (h : Free e f) : Free (.not e) f
    | and {es f} (h : FreeAny es f) : Free (.and es) f
    | or {es f} (h : FreeAny es f) : Free (.or es) f
    | loopIn {m v i s f} (h : Free i f) : Free (.loop m v i s) f
    | loopBody {m v i s f} (h : Free s f) (hv : f.root ≠ v) : Free (.loop m v i s) f
    | exist {e f} (h : Free e f) : Free (.exist e) f
    | notExist {e f} (h : Free e f) : Free (.notExist e) f
    | cmpL {c l r f} (h : Free l f) : Free (.cmp c l r) f
    | cmpR {c l r f} (h : Free r f) : Free (.cmp c l r) f

  inductive FreeAny : Exprs E → Field → Prop
    | head {e r f} (h : Free e f) : FreeAny (.cons e r) f
    | tail {e r f} (h : FreeAny r f) : FreeAny (.cons e r) f
end

mutual
  /-- No `NotExistsExpr`, `TrueExpr`, `FalseExpr` anywhere. -/
  def Expr.Plain : Expr E → Prop
    | .tru => False
    | .fals => False
    | .notExist _ => False
    | .not e => e.Plain
    | .and es => es.Plain
    | .or es => es.Plain
    | .func _ ps => ps.Plain
    | .loop _ _ i s => i.Plain ∧ s.Plain
    | .exist e => e.Plain
    | .cmp _ l r => l.Plain ∧ r.Plain
    | .field _ => True
    | .value _ => True
    | .time _ => True
    | .regex _ => True
    | .pcre _ => True

  def Exprs.Plain : Exprs E → Prop
    | .nil => True
    | .cons e r => e.Plain ∧ r.Plain
end

theorem mem_addField {f : Field} {vs : List Int} {fs : List Field} {g : Field} :
    g ∈ addField f vs fs ↔ g ∈ fs ∨ (g = f ∧ f.root ∉ vs) := by
  unfold addField
  split
  · rename_i h; constructor
    · exact Or.inl
    · rintro (h' | ⟨_, h'⟩)
      · exact h'
      · exact absurd h h'
  · rename_i hv
    split
    · rename_i h; constructor
      · exact Or.inl
      · rintro (h' | ⟨rfl, _⟩)
        · exact h'
        · exact h
    · simp [hv]

theorem nodup_addField {f : Field} {vs : List Int} {fs : List Field} (h : fs.Nodup) : (addField f vs fs).Nodup := by
  unfold addField
  split
  · exact h
  · split
    · exact h
    · rename_i hf
      rw [List.nodup_append]
      refine ⟨h, by simp, ?_⟩
      intro a ha b hb
      simp at hb; subst hb
      intro e; subst e; exact hf ha

/-- What `fetch` adds. -/
def Adds (P : Field → Prop) (vs : List Int) (fs : List Field) (r : Res (List Field)) : Prop :=
  ∃ fs', r = .ok fs' ∧ (∀ f, f ∈ fs' ↔ f ∈ fs ∨ (P f ∧ f.root ∉ vs)) ∧ (fs.Nodup → fs'.Nodup)

theorem Adds.seq {P Q R : Field → Prop} {vs : List Int} {fs : List Field} {x : Res (List Field)} {g : List Field → Res (List Field)}
    (hx : Adds P vs fs x) (hg : ∀ fs', Adds Q vs fs' (g fs')) (hR : ∀ f, R f ↔ P f ∨ Q f) : Adds R vs fs (x >>= g) := by
  obtain ⟨fs1, rfl, m1, n1⟩ := hx
  obtain ⟨fs2, e2, m2, n2⟩ := hg fs1
  refine ⟨fs2, by rw [Res.bind_ok, e2], ?_, fun h => n2 (n1 h)⟩
  intro f
  rw [m2, m1, hR]
  constructor
  · rintro ((h | h) | h)
    · exact Or.inl h
    · exact Or.inr ⟨Or.inl h.1, h.2⟩
    · exact Or.inr ⟨Or.inr h.1, h.2⟩
  · rintro (h | ⟨h | h, hv⟩)
    · exact Or.inl (Or.inl h)
    · exact Or.inl (Or.inr ⟨h, hv⟩)
    · exact Or.inr ⟨h, hv⟩

theorem Adds.none {P : Field → Prop} {vs : List Int} {fs : List Field} (h : ∀ f, ¬ P f) : Adds P vs fs (.ok fs) :=
  ⟨fs, rfl, fun f => by simp [h f], id⟩

theorem Adds.congr {P Q : Field → Prop} {vs : List Int} {fs : List Field} {r : Res (List Field)} (h : Adds P vs fs r)
    (hPQ : ∀ f, Q f ↔ P f) : Adds Q vs fs r := by
  have : P = Q := funext fun f => propext (hPQ f).symm
  exact this ▸ h

mutual
  theorem fetch_adds (vs : List Int) : ∀ (e : Expr E) (_ : e.Plain) (fs : List Field), Adds (Free e) vs fs (fetch vs e fs)
    | .field f, _, fs => by
      rw [fetch]
      refine ⟨_, rfl, fun g => ?_, nodup_addField⟩
      rw [mem_addField]
      constructor
      · rintro (h | ⟨rfl, h⟩)
        · exact Or.inl h
        · exact Or.inr ⟨.field _, h⟩
      · rintro (h | ⟨h, hv⟩)
        · exact Or.inl h
        · cases h; exact Or.inr ⟨rfl, hv⟩
    | .value _, _, fs => by rw [fetch]; exact .none (by rintro f ⟨⟩)
    | .regex _, _, fs => by rw [fetch]; exact .none (by rintro f ⟨⟩)
    | .pcre _, _, fs => by rw [fetch]; exact .none (by rintro f ⟨⟩)
    | .time _, _, fs => by rw [fetch]; exact .none (by rintro f ⟨⟩)
    | .func _ ps, h, fs => by
      rw [fetch]; exact (fetchAll_adds vs ps h fs).congr (fun f => ⟨by rintro ⟨⟩; assumption, .func⟩)
    | .not e, h, fs => by
      rw [fetch]; exact (fetch_adds vs e h fs).congr (fun f => ⟨by rintro ⟨⟩; assumption, .not⟩)
    | .and es, h, fs => by
      rw [fetch]; exact (fetchAll_adds vs es h fs).congr (fun f => ⟨by rintro ⟨⟩; assumption, .and⟩)
    | .or es, h, fs => by
      rw [fetch]; exact (fetchAll_adds vs es h fs).congr (fun f => ⟨by rintro ⟨⟩; assumption, .or⟩)
    | .exist e, h, fs => by
      rw [fetch]; exact (fetch_adds vs e h fs).congr (fun f => ⟨by rintro ⟨⟩; assumption, .exist⟩)
    | .cmp _ l r, h, fs => by
      rw [fetch]
      refine Adds.seq (fetch_adds vs l h.1 fs) (fun fs' => fetch_adds vs r h.2 fs') (fun f => ⟨?_, ?_⟩)
      · rintro (_ | _)
        · exact Or.inl ‹_›
        · exact Or.inr ‹_›
      · rintro (h | h)
        · exact .cmpL h
        · exact .cmpR h
    | .loop _ v i s, h, fs => by
      rw [fetch]
      refine Adds.seq (Q := fun f => Free s f ∧ f.root ≠ v) (fetch_adds vs i h.1 fs) (fun fs' => ?_) (fun f => ⟨?_, ?_⟩)
      · obtain ⟨fs2, e2, m2, n2⟩ := fetch_adds (vs ++ [v]) s h.2 fs'
        refine ⟨fs2, e2, fun f => ?_, n2⟩
        rw [m2]
        simp only [List.mem_append, List.mem_singleton, not_or]
        constructor
        · rintro (h | ⟨h1, h2, h3⟩)
          · exact Or.inl h
          · exact Or.inr ⟨⟨h1, h3⟩, h2⟩
        · rintro (h | ⟨⟨h1, h3⟩, h2⟩)
          · exact Or.inl h
          · exact Or.inr ⟨h1, h2, h3⟩
      · rintro (_ | _)
        · exact Or.inl ‹_›
        · exact Or.inr ⟨‹_›, ‹_›⟩
      · rintro (h | ⟨h1, h2⟩)
        · exact .loopIn h
        · exact .loopBody h1 h2

  theorem fetchAll_adds (vs : List Int) : ∀ (es : Exprs E) (_ : es.Plain) (fs : List Field),
      Adds (FreeAny es) vs fs (fetchAll vs es fs)
    | .nil, _, fs => by rw [fetchAll]; exact .none (by rintro f ⟨⟩)
    | .cons e r, h, fs => by
      rw [fetchAll]
      refine Adds.seq (fetch_adds vs e h.1 fs) (fun fs' => fetchAll_adds vs r h.2 fs') (fun f => ⟨?_, ?_⟩)
      · rintro (_ | _)
        · exact Or.inl ‹_›
        · exact Or.inr ‹_›
      · rintro (h | h)
        · exact .head h
        · exact .tail h
end

/-- C29 for expressions without `NotExistsExpr`, `TrueExpr` and `FalseExpr`: the collected references are exactly the free
fields, each once.  (Missing: the other expressions, on which the code panics, see `C29_negation`.) -/
theorem C29_exact_partial (e : Expr E) (h : e.Plain) : ∃ fs, fieldRefs e = .ok fs ∧ fs.Nodup ∧ ∀ f, f ∈ fs ↔ Free e f := by
  obtain ⟨fs, e1, m, n⟩ := fetch_adds [] e h []
  exact ⟨fs, e1, n (by simp), fun f => by rw [m]; simp⟩

mutual
  theorem fetch_panic (vs : List Int) : ∀ (e : Expr E) (_ : ¬ e.Plain) (fs : List Field), fetch vs e fs = .panic
    | .field f, h, fs => absurd trivial h
    | .value _, h, fs => absurd trivial h
    | .regex _, h, fs => absurd trivial h
    | .pcre _, h, fs => absurd trivial h
    | .time _, h, fs => absurd trivial h
    | .tru, _, _ => by rw [fetch]
    | .fals, _, _ => by rw [fetch]
    | .notExist _, _, _ => by rw [fetch]
    | .func _ ps, h, fs => by rw [fetch]; exact fetchAll_panic vs ps h fs
    | .not e, h, fs => by rw [fetch]; exact fetch_panic vs e h fs
    | .and es, h, fs => by rw [fetch]; exact fetchAll_panic vs es h fs
    | .or es, h, fs => by rw [fetch]; exact fetchAll_panic vs es h fs
    | .exist e, h, fs => by rw [fetch]; exact fetch_panic vs e h fs
    | .cmp _ l r, h, fs => by
      rw [fetch]
      by_cases hl : l.Plain
      · obtain ⟨fs1, e1, _⟩ := fetch_adds vs l hl fs
        rw [e1, Res.bind_ok]
        exact fetch_panic vs r (fun hr => h ⟨hl, hr⟩) fs1
      · rw [fetch_panic vs l hl fs]; rfl
    | .loop _ v i s, h, fs => by
      rw [fetch]
      by_cases hl : i.Plain
      · obtain ⟨fs1, e1, _⟩ := fetch_adds vs i hl fs
        rw [e1, Res.bind_ok]
        exact fetch_panic _ s (fun hr => h ⟨hl, hr⟩) fs1
      · rw [fetch_panic vs i hl fs]; rfl

  theorem fetchAll_panic (vs : List Int) : ∀ (es : Exprs E) (_ : ¬ es.Plain) (fs : List Field), fetchAll vs es fs = .panic
    | .nil, h, _ => absurd trivial h
    | .cons e r, h, fs => by
      rw [fetchAll]
      by_cases hl : e.Plain
      · obtain ⟨fs1, e1, _⟩ := fetch_adds vs e hl fs
        rw [e1, Res.bind_ok]
        exact fetchAll_panic vs r (fun hr => h ⟨hl, hr⟩) fs1
      · rw [fetch_panic vs e hl fs]; rfl
end

/-- The code crashes exactly on the expressions excluded from `C29_exact_partial`. -/
theorem C29_panics_iff (e : Expr E) : fieldRefs e = .panic ↔ ¬ e.Plain := by
  constructor
  · intro h hp
    obtain ⟨fs, e1, _⟩ := C29_exact_partial e hp
    rw [h] at e1; cases e1
  · exact fun h => fetch_panic [] e h []

/-- C29 as stated is false: collecting the references of `a IS MISSING` crashes. -/
theorem C29_negation : ¬ ∀ (E : Ext) (e : Expr E), ∃ fs, fieldRefs e = .ok fs := by
  intro h
  obtain ⟨fs, hf⟩ := h demoExt (.notExist (.field ⟨0, [[97]]⟩))
  cases hf

/-- `any x in $doc.a satisfies x.b = $doc.c and $doc.a exists` has the references `$doc.a` and `$doc.c`. -/
example : (Expr.loop (E := demoExt) .any 1 (.field ⟨0, [[97]]⟩)
    (.and (.cons (.cmp .eq (.field ⟨1, [[98]]⟩) (.field ⟨0, [[99]]⟩)) (.cons (.exist (.field ⟨0, [[97]]⟩)) .nil)))).Plain ∧
    fieldRefs (Expr.loop (E := demoExt) .any 1 (.field ⟨0, [[97]]⟩)
    (.and (.cons (.cmp .eq (.field ⟨1, [[98]]⟩) (.field ⟨0, [[99]]⟩)) (.cons (.exist (.field ⟨0, [[97]]⟩)) .nil)))) =
      .ok [⟨0, [[97]]⟩, ⟨0, [[99]]⟩] := by
  simp [Expr.Plain, Exprs.Plain, fieldRefs, fetch, fetchAll, addField]

/-! ### C28: compaction -/

/-- What the meaning of an expression depends on: states of the variables, the elements a loop runs over, and the truth of
conditions. -/
structure World (E : Ext) where
  Env : Type
  /-- states of the variables for the elements of the array `i`, bound to `v` -/
  elems : Env → Int → Expr E → List Env
  cond : Env → Expr E → Bool

def Mode.holds (m : Mode) {α : Type} (p : α → Bool) (l : List α) : Bool :=
  match m with
  | .any => l.any p
  | .every => l.all p
  | .anyEvery => !l.isEmpty && l.all p

mutual
  /-- Truth of an expression (specification). -/
  def eval (W : World E) (s : W.Env) : Expr E → Bool
    | .tru => true
    | .fals => false
    | .not e => !eval W s e
    | .and es => evalAll W s es
    | .or es => evalAny W s es
    | .loop m v i b => Mode.holds m (fun s' => eval W s' b) (W.elems s v i)
    | e => W.cond s e

  def evalAll (W : World E) (s : W.Env) : Exprs E → Bool
    | .nil => true
    | .cons e r => eval W s e && evalAll W s r

  def evalAny (W : World E) (s : W.Env) : Exprs E → Bool
    | .nil => false
    | .cons e r => eval W s e || evalAny W s r
end

mutual
  /-- Loops `any … satisfies true` and `every … satisfies false` reached by compaction run over a non-empty array. -/
  def NonEmpty (W : World E) (s : W.Env) : Expr E → Prop
    | .and es => NonEmptys W s es
    | .or es => NonEmptys W s es
    | .loop .any v i .tru => W.elems s v i ≠ []
    | .loop .every v i .fals => W.elems s v i ≠ []
    | _ => True

  def NonEmptys (W : World E) (s : W.Env) : Exprs E → Prop
    | .nil => True
    | .cons e r => NonEmpty W s e ∧ NonEmptys W s r
end

theorem toList_ofList (l : List (Expr E)) : (Exprs.ofList l).toList = l := by
  induction l with
  | nil => rfl
  | cons e l ih => simp [Exprs.ofList, Exprs.toList, ih]

theorem ofList_toList : ∀ es : Exprs E, Exprs.ofList es.toList = es
  | .nil => rfl
  | .cons e r => by simp [Exprs.toList, Exprs.ofList, ofList_toList r]

theorem evalAll_toList (W : World E) (s : W.Env) : ∀ es : Exprs E, evalAll W s es = es.toList.all (eval W s)
  | .nil => by simp [evalAll, Exprs.toList]
  | .cons e r => by simp [evalAll, Exprs.toList, evalAll_toList W s r]

theorem evalAny_toList (W : World E) (s : W.Env) : ∀ es : Exprs E, evalAny W s es = es.toList.any (eval W s)
  | .nil => by simp [evalAny, Exprs.toList]
  | .cons e r => by simp [evalAny, Exprs.toList, evalAny_toList W s r]

/-- `e` is not a constant. -/
def NotConst (e : Expr E) : Prop := e ≠ .tru ∧ e ≠ .fals

theorem compactOr_cons (e : Expr E) (r acc : Exprs E) :
    (compact e = .tru ∧ compactOr (.cons e r) acc = .tru) ∨
    (compact e = .fals ∧ compactOr (.cons e r) acc = compactOr r acc) ∨
    (NotConst (compact e) ∧ compactOr (.cons e r) acc = compactOr r (Exprs.ofList (acc.toList ++ [compact e]))) := by
  rw [compactOr]
  cases h : compact e <;> simp [NotConst]

theorem compactAnd_cons (e : Expr E) (r acc : Exprs E) :
    (compact e = .fals ∧ compactAnd (.cons e r) acc = .fals) ∨
    (compact e = .tru ∧ compactAnd (.cons e r) acc = compactAnd r acc) ∨
    (NotConst (compact e) ∧ compactAnd (.cons e r) acc = compactAnd r (Exprs.ofList (acc.toList ++ [compact e]))) := by
  rw [compactAnd]
  cases h : compact e <;> simp [NotConst]

theorem compactOr_nil_eval (W : World E) (s : W.Env) (acc : Exprs E) : eval W s (compactOr .nil acc) = evalAny W s acc := by
  rw [compactOr.eq_def]
  cases acc <;> simp [eval, evalAny]

theorem compactAnd_nil_eval (W : World E) (s : W.Env) (acc : Exprs E) : eval W s (compactAnd .nil acc) = evalAll W s acc := by
  rw [compactAnd.eq_def]
  cases acc <;> simp [eval, evalAll]

theorem any_const {α : Type} (l : List α) (h : l ≠ []) : l.any (fun _ => true) = true := by
  cases l <;> simp_all

theorem all_const {α : Type} (l : List α) (h : l ≠ []) : l.all (fun _ => false) = false := by
  cases l <;> simp_all

mutual
  theorem compact_eval (W : World E) (s : W.Env) : ∀ e : Expr E, NonEmpty W s e → eval W s (compact e) = eval W s e
    | .or es, h => by
      rw [compact, compactOr_eval W s es .nil h, eval]; simp [evalAny]
    | .and es, h => by
      rw [compact, compactAnd_eval W s es .nil h, eval]; simp [evalAll]
    | .loop m v i b, h => by
      cases m with
      | anyEvery => rw [compact] <;> simp
      | any =>
        cases b with
        | tru => simp only [compact, eval, Mode.holds]; exact (any_const _ h).symm
        | fals => simp [compact, eval, Mode.holds]
        | _ => simp only [compact]
      | every =>
        cases b with
        | tru => simp [compact, eval, Mode.holds]
        | fals => simp only [compact, eval, Mode.holds]; exact (all_const _ h).symm
        | _ => simp only [compact]
    | .tru, _ => by rw [compact] <;> simp
    | .fals, _ => by rw [compact] <;> simp
    | .value _, _ => by rw [compact] <;> simp
    | .time _, _ => by rw [compact] <;> simp
    | .regex _, _ => by rw [compact] <;> simp
    | .pcre _, _ => by rw [compact] <;> simp
    | .not _, _ => by rw [compact] <;> simp
    | .field _, _ => by rw [compact] <;> simp
    | .func _ _, _ => by rw [compact] <;> simp
    | .exist _, _ => by rw [compact] <;> simp
    | .notExist _, _ => by rw [compact] <;> simp
    | .cmp _ _ _, _ => by rw [compact] <;> simp

  theorem compactOr_eval (W : World E) (s : W.Env) : ∀ (es acc : Exprs E), NonEmptys W s es →
      eval W s (compactOr es acc) = (evalAny W s acc || evalAny W s es)
    | .nil, acc, _ => by rw [compactOr_nil_eval]; simp [evalAny]
    | .cons e r, acc, h => by
      have he := compact_eval W s e h.1
      rw [evalAny, ← he]
      rcases compactOr_cons e r acc with ⟨h1, h2⟩ | ⟨h1, h2⟩ | ⟨_, h2⟩
      · rw [h2, h1]; simp [eval]
      · rw [h2, h1, compactOr_eval W s r acc h.2]; simp [eval]
      · rw [h2, compactOr_eval W s r _ h.2, evalAny_toList W s (Exprs.ofList _), toList_ofList, evalAny_toList W s acc]
        simp [Bool.or_assoc]

  theorem compactAnd_eval (W : World E) (s : W.Env) : ∀ (es acc : Exprs E), NonEmptys W s es →
      eval W s (compactAnd es acc) = (evalAll W s acc && evalAll W s es)
    | .nil, acc, _ => by rw [compactAnd_nil_eval]; simp [evalAll]
    | .cons e r, acc, h => by
      have he := compact_eval W s e h.1
      rw [evalAll, ← he]
      rcases compactAnd_cons e r acc with ⟨h1, h2⟩ | ⟨h1, h2⟩ | ⟨_, h2⟩
      · rw [h2, h1]; simp [eval]
      · rw [h2, h1, compactAnd_eval W s r acc h.2]; simp [eval]
      · rw [h2, compactAnd_eval W s r _ h.2, evalAll_toList W s (Exprs.ofList _), toList_ofList, evalAll_toList W s acc]
        simp [Bool.and_assoc]
end

/-- C28 where the loops that compaction replaces by a constant run over non-empty arrays.  (Missing: empty arrays, for which
compaction changes the meaning, see `C28_negation`.) -/
theorem C28_compact_partial (W : World E) (s : W.Env) (e : Expr E) (h : NonEmpty W s e) : eval W s (compact e) = eval W s e :=
  compact_eval W s e h

/-- A world with a single empty array. -/
def emptyWorld (E : Ext) : World E := ⟨Unit, fun _ _ _ => [], fun _ _ => false⟩

/-- C28 as stated is false: `any x in a satisfies true` compacts to true, `every x in a satisfies false` to false. -/
theorem C28_negation : ¬ ∀ (E : Ext) (W : World E) (s : W.Env) (e : Expr E), eval W s (compact e) = eval W s e := by
  intro h
  have := h demoExt (emptyWorld demoExt) () (.loop .any 1 (.field ⟨0, [[97]]⟩) .tru)
  simp [compact, eval, Mode.holds, emptyWorld] at this

theorem C28_negation_every : eval (emptyWorld demoExt) () (compact (.loop .every 1 (.field ⟨0, [[97]]⟩) .fals)) = false ∧
    eval (emptyWorld demoExt) () (.loop .every 1 (.field ⟨0, [[97]]⟩) .fals) = true := by
  simp [compact, eval, Mode.holds, emptyWorld]

/-- `(false or a exists) and true` in any world. -/
example (W : World demoExt) (s : W.Env) :
    eval W s (compact (.and (.cons (.or (.cons .fals (.cons (.exist (.field ⟨0, [[97]]⟩)) .nil))) (.cons .tru .nil)))) =
      W.cond s (.exist (.field ⟨0, [[97]]⟩)) := by
  rw [C28_compact_partial W s _ (by simp [NonEmpty, NonEmptys])]
  simp [eval, evalAll, evalAny]

/-! ### C42: compaction removes constants -/

mutual
  /-- No constant below the ANDs and ORs at the top of the expression. -/
  def Clean : Expr E → Prop
    | .tru => False
    | .fals => False
    | .and es => es ≠ .nil ∧ Cleans es
    | .or es => es ≠ .nil ∧ Cleans es
    | .loop .any _ _ .tru => False
    | .loop .any _ _ .fals => False
    | .loop .every _ _ .tru => False
    | .loop .every _ _ .fals => False
    | _ => True

  def Cleans : Exprs E → Prop
    | .nil => True
    | .cons e r => Clean e ∧ Cleans r
end

theorem Cleans_toList : ∀ es : Exprs E, Cleans es ↔ ∀ e ∈ es.toList, Clean e
  | .nil => by simp [Cleans, Exprs.toList]
  | .cons e r => by simp [Cleans, Exprs.toList, Cleans_toList r]

theorem compactOr_nil_clean (acc : Exprs E) (h : Cleans acc) :
    compactOr .nil acc = .tru ∨ compactOr .nil acc = .fals ∨ Clean (compactOr .nil acc) := by
  rw [compactOr.eq_def]
  cases acc with
  | nil => simp
  | cons e r => exact Or.inr (Or.inr ⟨by simp, h⟩)

theorem compactAnd_nil_clean (acc : Exprs E) (h : Cleans acc) :
    compactAnd .nil acc = .tru ∨ compactAnd .nil acc = .fals ∨ Clean (compactAnd .nil acc) := by
  rw [compactAnd.eq_def]
  cases acc with
  | nil => simp
  | cons e r => exact Or.inr (Or.inr ⟨by simp, h⟩)

theorem Cleans_snoc {acc : Exprs E} {e : Expr E} (h : Cleans acc) (he : Clean e) : Cleans (Exprs.ofList (acc.toList ++ [e])) := by
  rw [Cleans_toList, toList_ofList]
  intro x hx
  rw [List.mem_append] at hx
  rcases hx with hx | hx
  · exact (Cleans_toList acc).1 h x hx
  · simp at hx; subst hx; exact he

mutual
  theorem compact_clean : ∀ e : Expr E, compact e = .tru ∨ compact e = .fals ∨ Clean (compact e)
    | .or es => by rw [compact]; exact compactOr_clean es .nil trivial
    | .and es => by rw [compact]; exact compactAnd_clean es .nil trivial
    | .loop m v i b => by
      cases m with
      | anyEvery => rw [compact] <;> simp [Clean]
      | any => cases b <;> simp [compact, Clean]
      | every => cases b <;> simp [compact, Clean]
    | .tru => by rw [compact] <;> simp
    | .fals => by rw [compact] <;> simp
    | .value _ => by rw [compact] <;> simp [Clean]
    | .time _ => by rw [compact] <;> simp [Clean]
    | .regex _ => by rw [compact] <;> simp [Clean]
    | .pcre _ => by rw [compact] <;> simp [Clean]
    | .not _ => by rw [compact] <;> simp [Clean]
    | .field _ => by rw [compact] <;> simp [Clean]
    | .func _ _ => by rw [compact] <;> simp [Clean]
    | .exist _ => by rw [compact] <;> simp [Clean]
    | .notExist _ => by rw [compact] <;> simp [Clean]
    | .cmp _ _ _ => by rw [compact] <;> simp [Clean]

  theorem compactOr_clean : ∀ (es acc : Exprs E), Cleans acc →
      compactOr es acc = .tru ∨ compactOr es acc = .fals ∨ Clean (compactOr es acc)
    | .nil, acc, h => compactOr_nil_clean acc h
    | .cons e r, acc, h => by
      rcases compactOr_cons e r acc with ⟨_, h2⟩ | ⟨_, h2⟩ | ⟨h1, h2⟩
      · exact Or.inl h2
      · rw [h2]; exact compactOr_clean r acc h
      · rw [h2]
        refine compactOr_clean r _ (Cleans_snoc h ?_)
        rcases compact_clean e with h' | h' | h'
        · exact absurd h' h1.1
        · exact absurd h' h1.2
        · exact h'

  theorem compactAnd_clean : ∀ (es acc : Exprs E), Cleans acc →
      compactAnd es acc = .tru ∨ compactAnd es acc = .fals ∨ Clean (compactAnd es acc)
    | .nil, acc, h => compactAnd_nil_clean acc h
    | .cons e r, acc, h => by
      rcases compactAnd_cons e r acc with ⟨_, h2⟩ | ⟨_, h2⟩ | ⟨h1, h2⟩
      · exact Or.inr (Or.inl h2)
      · rw [h2]; exact compactAnd_clean r acc h
      · rw [h2]
        refine compactAnd_clean r _ (Cleans_snoc h ?_)
        rcases compact_clean e with h' | h' | h'
        · exact absurd h' h1.1
        · exact absurd h' h1.2
        · exact h'
end

/-- A compacted expression is a constant or has no constant below its ANDs and ORs. -/
theorem C42_compact_clean (e : Expr E) : compact e = .tru ∨ compact e = .fals ∨ Clean (compact e) := compact_clean e

mutual
  theorem compact_of_clean : ∀ e : Expr E, Clean e → compact e = e
    | .or es, h => by
      rw [compact, compactOr_of_clean es .nil h.2]
      have := h.1
      cases es with
      | nil => exact absurd rfl this
      | cons a r => simp [Exprs.toList, Exprs.ofList, ofList_toList, compactOr]
    | .and es, h => by
      rw [compact, compactAnd_of_clean es .nil h.2]
      have := h.1
      cases es with
      | nil => exact absurd rfl this
      | cons a r => simp [Exprs.toList, Exprs.ofList, ofList_toList, compactAnd]
    | .loop m v i b, h => by
      cases m with
      | anyEvery => rw [compact] <;> simp
      | any => cases b <;> simp_all [compact, Clean]
      | every => cases b <;> simp_all [compact, Clean]
    | .tru, h => h.elim
    | .fals, h => h.elim
    | .value _, _ => by rw [compact] <;> simp
    | .time _, _ => by rw [compact] <;> simp
    | .regex _, _ => by rw [compact] <;> simp
    | .pcre _, _ => by rw [compact] <;> simp
    | .not _, _ => by rw [compact] <;> simp
    | .field _, _ => by rw [compact] <;> simp
    | .func _ _, _ => by rw [compact] <;> simp
    | .exist _, _ => by rw [compact] <;> simp
    | .notExist _, _ => by rw [compact] <;> simp
    | .cmp _ _ _, _ => by rw [compact] <;> simp

  theorem compactOr_of_clean : ∀ (es acc : Exprs E), Cleans es →
      compactOr es acc = compactOr .nil (Exprs.ofList (acc.toList ++ es.toList))
    | .nil, acc, _ => by simp [Exprs.toList, ofList_toList]
    | .cons e r, acc, h => by
      have he := compact_of_clean e h.1
      rcases compactOr_cons e r acc with ⟨h1, _⟩ | ⟨h1, _⟩ | ⟨_, h2⟩
      · rw [he] at h1; subst h1; exact h.1.elim
      · rw [he] at h1; subst h1; exact h.1.elim
      · rw [h2, compactOr_of_clean r _ h.2, he, toList_ofList]
        simp [Exprs.toList]

  theorem compactAnd_of_clean : ∀ (es acc : Exprs E), Cleans es →
      compactAnd es acc = compactAnd .nil (Exprs.ofList (acc.toList ++ es.toList))
    | .nil, acc, _ => by simp [Exprs.toList, ofList_toList]
    | .cons e r, acc, h => by
      have he := compact_of_clean e h.1
      rcases compactAnd_cons e r acc with ⟨h1, _⟩ | ⟨h1, _⟩ | ⟨_, h2⟩
      · rw [he] at h1; subst h1; exact h.1.elim
      · rw [he] at h1; subst h1; exact h.1.elim
      · rw [h2, compactAnd_of_clean r _ h.2, he, toList_ofList]
        simp [Exprs.toList]
end

/-- Compacting twice changes nothing. -/
theorem C42_compact_idem (e : Expr E) : compact (compact e) = compact e := by
  rcases compact_clean e with h | h | h
  · rw [h, compact] <;> simp
  · rw [h, compact] <;> simp
  · exact compact_of_clean _ h

example : compact (E := demoExt) (.and (.cons (.or (.cons .fals (.cons (.exist (.field ⟨0, [[97]]⟩)) .nil))) (.cons .tru .nil))) =
    .and (.cons (.or (.cons (.exist (.field ⟨0, [[97]]⟩)) .nil)) .nil) := by
  simp [compact, compactAnd, compactOr, Exprs.toList, Exprs.ofList]

/-! ### C31: statistics -/

mutual
  /-- All subexpressions (specification). -/
  def subs : Expr E → List (Expr E)
    | .func n ps => .func n ps :: subsAll ps
    | .not e => .not e :: subs e
    | .and es => .and es :: subsAll es
    | .or es => .or es :: subsAll es
    | .loop m v i b => .loop m v i b :: (subs i ++ subs b)
    | .exist e => .exist e :: subs e
    | .notExist e => .notExist e :: subs e
    | .cmp c l r => .cmp c l r :: (subs l ++ subs r)
    | e => [e]

  def subsAll : Exprs E → List (Expr E)
    | .nil => []
    | .cons e r => subs e ++ subsAll r
end

mutual
  /-- Nesting depth of loop bodies (specification). -/
  def loopDepth : Expr E → Nat
    | .func _ ps => loopDepths ps
    | .not e => loopDepth e
    | .and es => loopDepths es
    | .or es => loopDepths es
    | .loop _ _ i b => max (loopDepth i) (1 + loopDepth b)
    | .exist e => loopDepth e
    | .notExist e => loopDepth e
    | .cmp _ l r => max (loopDepth l) (loopDepth r)
    | _ => 0

  def loopDepths : Exprs E → Nat
    | .nil => 0
    | .cons e r => max (loopDepth e) (loopDepths r)
end

def Expr.isLoop : Expr E → Bool | .loop _ _ _ _ => true | _ => false
def Expr.isAnd : Expr E → Bool | .and _ => true | _ => false
def Expr.isOr : Expr E → Bool | .or _ => true | _ => false
def Expr.isField : Expr E → Bool | .field _ => true | _ => false
def Expr.isValue : Expr E → Bool | .value _ => true | _ => false

/-- A form `scanOne` knows. -/
def Expr.counted : Expr E → Bool
  | .field _ => true
  | .value _ => true
  | .func _ _ => true
  | .and _ => true
  | .or _ => true
  | .loop _ _ _ _ => true
  | .exist _ => true
  | .notExist _ => true
  | .cmp .like _ _ => false
  | .cmp _ _ _ => true
  | _ => false

/-- The counts of `l` added to `s`, at depth `dep`; nothing is said about `nested`. -/
def Adds' (l : List (Expr E)) (d dep : Nat) (s : Stats) (r : Res Stats) : Prop :=
  ∃ s', r = .ok s' ∧ s'.loops = s.loops + l.countP Expr.isLoop ∧ s'.ands = s.ands + l.countP Expr.isAnd ∧
    s'.ors = s.ors + l.countP Expr.isOr ∧ s'.fields = s.fields + l.countP Expr.isField ∧
    s'.values = s.values + l.countP Expr.isValue ∧ s'.depth = max s.depth (d + dep)

theorem bump (s : Stats) (d : Nat) : (if d > s.depth then { s with depth := d } else s) = { s with depth := max s.depth d } := by
  split
  · congr 1; omega
  · cases s; simp only [Stats.mk.injEq, true_and, and_true]; simp only at *; omega

mutual
  theorem scanOne_adds : ∀ (e : Expr E) (_ : ∀ x ∈ subs e, x.counted = true) (d : Nat) (s : Stats),
      Adds' (subs e) d (loopDepth e) s (scanOne d e s)
    | .field _, h, d, s => by
      rw [scanOne, bump]; simp [Adds', subs, loopDepth, Expr.isLoop, Expr.isAnd, Expr.isOr, Expr.isField, Expr.isValue]
    | .value _, h, d, s => by
      rw [scanOne, bump]; simp [Adds', subs, loopDepth, Expr.isLoop, Expr.isAnd, Expr.isOr, Expr.isField, Expr.isValue]
    | .func n ps, h, d, s => by
      rw [scanOne, bump]
      obtain ⟨s', e1, a1, a2, a3, a4, a5, a6⟩ := scanAll_adds ps (fun x hx => h x (by simp [subs, hx])) d { s with depth := max s.depth d } (by simp only; omega)
      refine ⟨s', e1, ?_, ?_, ?_, ?_, ?_, ?_⟩ <;>
        simp_all [subs, loopDepth, List.countP_cons, Expr.isLoop, Expr.isAnd, Expr.isOr, Expr.isField, Expr.isValue] <;> omega
    | .and es, h, d, s => by
      rw [scanOne, bump]
      obtain ⟨s', e1, a1, a2, a3, a4, a5, a6⟩ := scanAll_adds es (fun x hx => h x (by simp [subs, hx])) d
        { s with depth := max s.depth d, ands := s.ands + 1 } (by simp only; omega)
      refine ⟨s', e1, ?_, ?_, ?_, ?_, ?_, ?_⟩ <;>
        simp_all [subs, loopDepth, List.countP_cons, Expr.isLoop, Expr.isAnd, Expr.isOr, Expr.isField, Expr.isValue] <;> omega
    | .or es, h, d, s => by
      rw [scanOne, bump]
      obtain ⟨s', e1, a1, a2, a3, a4, a5, a6⟩ := scanAll_adds es (fun x hx => h x (by simp [subs, hx])) d
        { s with depth := max s.depth d, ors := s.ors + 1 } (by simp only; omega)
      refine ⟨s', e1, ?_, ?_, ?_, ?_, ?_, ?_⟩ <;>
        simp_all [subs, loopDepth, List.countP_cons, Expr.isLoop, Expr.isAnd, Expr.isOr, Expr.isField, Expr.isValue] <;> omega
    | .loop m v i b, h, d, s => by
      rw [scanOne, bump]
      simp only
      have hsplit : ∃ s0 : Stats, (if d = 1 then { s with depth := max s.depth d, loops := s.loops + 1, nested := s.nested + 1 }
          else { s with depth := max s.depth d, loops := s.loops + 1 }) = s0 ∧ s0.loops = s.loops + 1 ∧ s0.ands = s.ands ∧
          s0.ors = s.ors ∧ s0.fields = s.fields ∧ s0.values = s.values ∧ s0.depth = max s.depth d := by
        split <;> exact ⟨_, rfl, rfl, rfl, rfl, rfl, rfl, rfl⟩
      obtain ⟨s0, e0, z1, z2, z3, z4, z5, z6⟩ := hsplit
      rw [e0]
      obtain ⟨s', e1, a1, a2, a3, a4, a5, a6⟩ := scanOne_adds i (fun x hx => h x (by simp [subs, hx])) d s0
      obtain ⟨s2, e2, b1, b2, b3, b4, b5, b6⟩ := scanOne_adds b (fun x hx => h x (by simp [subs, hx])) (d + 1) s'
      refine ⟨s2, by rw [e1, Res.bind_ok, e2], ?_, ?_, ?_, ?_, ?_, ?_⟩ <;>
        simp_all [subs, loopDepth, List.countP_cons, Expr.isLoop, Expr.isAnd, Expr.isOr, Expr.isField, Expr.isValue] <;> omega
    | .exist e, h, d, s => by
      rw [scanOne, bump]
      obtain ⟨s', e1, a1, a2, a3, a4, a5, a6⟩ := scanOne_adds e (fun x hx => h x (by simp [subs, hx])) d { s with depth := max s.depth d }
      refine ⟨s', e1, ?_, ?_, ?_, ?_, ?_, ?_⟩ <;>
        simp_all [subs, loopDepth, List.countP_cons, Expr.isLoop, Expr.isAnd, Expr.isOr, Expr.isField, Expr.isValue] <;> omega
    | .notExist e, h, d, s => by
      rw [scanOne, bump]
      obtain ⟨s', e1, a1, a2, a3, a4, a5, a6⟩ := scanOne_adds e (fun x hx => h x (by simp [subs, hx])) d { s with depth := max s.depth d }
      refine ⟨s', e1, ?_, ?_, ?_, ?_, ?_, ?_⟩ <;>
        simp_all [subs, loopDepth, List.countP_cons, Expr.isLoop, Expr.isAnd, Expr.isOr, Expr.isField, Expr.isValue] <;> omega
    | .cmp c l r, h, d, s => by
      have hc : c ≠ .like := by
        intro hc; subst hc
        have := h _ (List.mem_cons_self)
        simp [Expr.counted] at this
      obtain ⟨s', e1, a1, a2, a3, a4, a5, a6⟩ := scanOne_adds l (fun x hx => h x (by simp [subs, hx])) d { s with depth := max s.depth d }
      obtain ⟨s2, e2, b1, b2, b3, b4, b5, b6⟩ := scanOne_adds r (fun x hx => h x (by simp [subs, hx])) d s'
      have he : scanOne d (.cmp c l r) s = .ok s2 := by
        cases c <;> first | exact absurd rfl hc | (rw [scanOne, bump, e1, Res.bind_ok, e2]; simp)
      refine ⟨s2, he, ?_, ?_, ?_, ?_, ?_, ?_⟩ <;>
        simp_all [subs, loopDepth, List.countP_cons, Expr.isLoop, Expr.isAnd, Expr.isOr, Expr.isField, Expr.isValue] <;> omega
    | .tru, h, d, s => by have := h _ (List.mem_cons_self); simp [Expr.counted] at this
    | .fals, h, d, s => by have := h _ (List.mem_cons_self); simp [Expr.counted] at this
    | .time _, h, d, s => by have := h _ (List.mem_cons_self); simp [Expr.counted] at this
    | .regex _, h, d, s => by have := h _ (List.mem_cons_self); simp [Expr.counted] at this
    | .pcre _, h, d, s => by have := h _ (List.mem_cons_self); simp [Expr.counted] at this
    | .not _, h, d, s => by have := h _ (List.mem_cons_self); simp [Expr.counted] at this

  theorem scanAll_adds : ∀ (es : Exprs E) (_ : ∀ x ∈ subsAll es, x.counted = true) (d : Nat) (s : Stats), d ≤ s.depth →
      Adds' (subsAll es) d (loopDepths es) s (scanAll d es s)
    | .nil, h, d, s, hd => by
      rw [scanAll]; refine ⟨s, rfl, ?_, ?_, ?_, ?_, ?_, ?_⟩ <;> simp [subsAll, loopDepths]; omega
    | .cons e r, h, d, s, hd => by
      rw [scanAll]
      obtain ⟨s', e1, a1, a2, a3, a4, a5, a6⟩ := scanOne_adds e (fun x hx => h x (by simp [subsAll, hx])) d s
      obtain ⟨s2, e2, b1, b2, b3, b4, b5, b6⟩ := scanAll_adds r (fun x hx => h x (by simp [subsAll, hx])) d s' (by omega)
      refine ⟨s2, by rw [e1, Res.bind_ok, e2], ?_, ?_, ?_, ?_, ?_, ?_⟩ <;>
        simp_all [subsAll, loopDepths] <;> omega
end

/-- C31 for expressions of the forms the code knows.  (Missing: NOT, LIKE, regular expressions, times and constants, on
which the code panics, see `C31_negation`.) -/
theorem C31_counts_partial (e : Expr E) (h : ∀ x ∈ subs e, x.counted = true) :
    ∃ s, scan e = .ok s ∧ s.loops = (subs e).countP Expr.isLoop ∧ s.ands = (subs e).countP Expr.isAnd ∧
      s.ors = (subs e).countP Expr.isOr ∧ s.fields = (subs e).countP Expr.isField ∧ s.values = (subs e).countP Expr.isValue ∧
      s.depth = loopDepth e := by
  obtain ⟨s, e1, h1, h2, h3, h4, h5, h6⟩ := scanOne_adds e h 0 {}
  exact ⟨s, e1, by simpa using h1, by simpa using h2, by simpa using h3, by simpa using h4, by simpa using h5, by simpa using h6⟩

/-- C31 as stated is false: NOT crashes the scan. -/
theorem C31_negation : ¬ ∀ (E : Ext) (e : Expr E), ∃ s, scan e = .ok s := by
  intro h
  obtain ⟨s, hs⟩ := h demoExt (.not (.exist (.field ⟨0, [[97]]⟩)))
  simp [scan, scanOne] at hs

/-- `NumNestedLoops` counts the loops at depth 1 only: a loop in a loop in a loop counts once. -/
theorem C31_nested_depth_one : scan (E := demoExt) (.loop .any 1 (.field ⟨0, []⟩) (.loop .any 2 (.field ⟨1, []⟩)
    (.loop .any 3 (.field ⟨2, []⟩) (.exist (.field ⟨3, []⟩))))) =
    .ok { loops := 3, nested := 1, depth := 3, fields := 4 } := by
  simp [scan, scanOne]

example : ∃ s, scan (E := demoExt) (.and (.cons (.loop .every 1 (.field ⟨0, []⟩) (.cmp .lt (.field ⟨1, []⟩) (.value (.int 3#64)))) .nil)) = .ok s ∧
    s.loops = 1 ∧ s.depth = 1 ∧ s.fields = 2 ∧ s.values = 1 ∧ s.ands = 1 := by
  obtain ⟨s, h, h1, h2, _, h4, h5, h6⟩ := C31_counts_partial (E := demoExt)
    (.and (.cons (.loop .every 1 (.field ⟨0, []⟩) (.cmp .lt (.field ⟨1, []⟩) (.value (.int 3#64)))) .nil))
    (by simp [subs, subsAll, Expr.counted])
  refine ⟨s, h, ?_, ?_, ?_, ?_, ?_⟩
  · rw [h1]; simp [subs, subsAll, List.countP_cons, Expr.isLoop]
  · rw [h6]; simp [loopDepth, loopDepths]
  · rw [h4]; simp [subs, subsAll, List.countP_cons, Expr.isField]
  · rw [h5]; simp [subs, subsAll, List.countP_cons, Expr.isValue]
  · rw [h2]; simp [subs, subsAll, List.countP_cons, Expr.isAnd]

end Verif.Expr
