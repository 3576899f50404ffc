import Verif.Simple.Anywhere
import Verif.Filter.Compiles
import Verif.Transform.Halts

/-!
# Which simple expressions crash the compiler, and that their matchers end (C89)

`ParseSimpleExpression` checks a pattern only if it is one word in quotes.  Which texts with a meaning compile is exact; that matching ends
holds for every text that is accepted.
-/

namespace Verif.Simple
open Verif.FastVal Verif.Expr Verif.Transform
open Verif.Match (run M demoFns)
open Verif.Filter (Fine docFields fine_one fine_two compiles_cmp own_docFields)

variable {E : Ext}

/-! ### Specification -/

/-- Specification: a pattern is one that its compiler accepts. -/
def PatternOk (C : Transform.Comp E) : Expr E → Prop
  | .regex (.json (.str s)) => (C.regexp s).isSome
  | .pcre (.json (.str s)) => (C.pcre s).isSome
  | _ => True

/-- Specification: the fields of the condition do not collide and its pattern is valid. -/
def Cond.Builds (C : Transform.Comp E) : Cond E → Prop
  | .bin _ a _ _ _ b => ¬ Collide (paths a ++ paths b) ∧ PatternOk C b
  | .un _ a _ _ => ¬ Collide (paths a)

/-! ### Sides -/

theorem atom_fine (C : Transform.Comp E) {N : Simple.Env E} {a : Atom} {e : Expr E} (h : a.Means N e) : Fine C e (paths e) := by
  cases h with
  | name n _ => exact ⟨Or.inl rfl, rfl⟩
  | int => exact ⟨trivial, rfl⟩
  | float => exact ⟨trivial, rfl⟩
  | str => exact ⟨trivial, rfl⟩

theorem term_fine (C : Transform.Comp E) {N : Simple.Env E} {t : Term} {e : Expr E} (h : t.Means N e) : Fine C e (paths e) := by
  induction h with
  | atom a e h => exact atom_fine C h
  | one k f a e hk _ ih => simpa [paths, pathsAll] using fine_one (n := f) ih
  | date q s e h _ => simpa [paths, pathsAll] using fine_one (n := ascii "date") (atom_fine C h)
  | two k f a b e e' hk _ hb _ ih => simpa [paths, pathsAll] using fine_two (n := f) ih (atom_fine C hb)

theorem const_fine (C : Transform.Comp E) {N : Simple.Env E} {t : Str} {e : Expr E} (h : ConstTok N t e) : Fine C e (paths e) := by
  cases h <;> exact ⟨trivial, rfl⟩

theorem left_fine (C : Transform.Comp E) {N : Simple.Env E} {t : Str} {e : Expr E} (h : LeftMeans N t e) : Fine C e (paths e) := by
  cases h with
  | name n _ _ => exact ⟨Or.inl rfl, rfl⟩
  | call t k e _ h => exact term_fine C h
  | const t e h => exact const_fine C h

/-- A right side is an operand that compiles, or a pattern. -/
theorem right_fine (C : Transform.Comp E) {N : Simple.Env E} {o : Bin} {ts : List Str} {e : Expr E} (h : RightMeans N o ts e) :
    occs e = docFields (paths e) ∧ (OkParam C none e ↔ PatternOk C e) := by
  have fin : Fine C e (paths e) → (∀ s, e ≠ .regex (.json (.str s))) → (∀ s, e ≠ .pcre (.json (.str s))) →
      occs e = docFields (paths e) ∧ (OkParam C none e ↔ PatternOk C e) := by
    intro h h1 h2
    refine ⟨h.occs, fun _ => ?_, fun _ => h.ok⟩
    rw [PatternOk.eq_def]
    split
    · exact absurd rfl (h1 _)
    · exact absurd rfl (h2 _)
    · trivial
  have hre : ∀ s, occs (.regex (.json (.str s)) : Expr E) = docFields (paths (.regex (.json (.str s)) : Expr E)) ∧
      (OkParam C none (.regex (.json (.str s)) : Expr E) ↔ PatternOk C (.regex (.json (.str s)) : Expr E)) := by
    intro s
    refine ⟨rfl, ?_⟩
    rw [OkParam, PatternOk, Option.isSome_iff_exists]
    exact ⟨fun ⟨_, x, h1, h2⟩ => ⟨x, by cases h1; exact h2⟩, fun ⟨r, hr⟩ => ⟨_, r, rfl, hr⟩⟩
  have hpc : ∀ s, occs (.pcre (.json (.str s)) : Expr E) = docFields (paths (.pcre (.json (.str s)) : Expr E)) ∧
      (OkParam C none (.pcre (.json (.str s)) : Expr E) ↔ PatternOk C (.pcre (.json (.str s)) : Expr E)) := by
    intro s
    refine ⟨rfl, ?_⟩
    rw [OkParam, PatternOk, Option.isSome_iff_exists]
    exact ⟨fun ⟨_, x, h1, h2⟩ => ⟨x, by cases h1; exact h2⟩, fun ⟨r, hr⟩ => ⟨_, r, rfl, hr⟩⟩
  have hat : ∀ {a : Atom} {e : Expr E}, a.Means N e → (∀ s, e ≠ .regex (.json (.str s))) ∧ ∀ s, e ≠ .pcre (.json (.str s)) := by
    intro a e h; cases h <;> exact ⟨by simp, by simp⟩
  have htm : ∀ {a : Term} {e : Expr E}, a.Means N e → (∀ s, e ≠ .regex (.json (.str s))) ∧ ∀ s, e ≠ .pcre (.json (.str s)) := by
    intro a e h
    cases h with
    | atom a e h => exact hat h
    | _ => exact ⟨by simp, by simp⟩
  cases h with
  | num n e _ h => exact fin (atom_fine C h) (hat h).1 (hat h).2
  | word q s e _ h => exact fin (atom_fine C h) (hat h).1 (hat h).2
  | phrase => exact fin ⟨trivial, rfl⟩ (by simp) (by simp)
  | bool => exact fin ⟨trivial, rfl⟩ (by simp) (by simp)
  | call t k e _ h => exact fin (term_fine C h) (htm h).1 (htm h).2
  | const t e h => exact fin (const_fine C h) (by cases h <;> simp) (by cases h <;> simp)
  | regex q s => exact hre _
  | pcre q s => exact hpc _
  | numRegex n => exact hre _
  | phraseRegex q f m l => exact hre _

/-! ### Conditions and texts -/

theorem cmp_builds (C : Transform.Comp E) {N : Simple.Env E} {o : Bin} {t : Str} {ts : List Str} {a b : Expr E} (c : Cmp) (ha : LeftMeans N t a)
    (hb : RightMeans N o ts b) : Compiles C none (.cmp c a b) ↔ ¬ Collide (paths a ++ paths b) ∧ PatternOk C b := by
  obtain ⟨h1, h2⟩ := right_fine C hb
  constructor
  · intro h
    have hok : OkParam C none b := by rw [Compiles] at h; exact h.2.1
    exact ⟨(compiles_cmp c (left_fine C ha) ⟨hok, h1⟩).1 h, h2.1 hok⟩
  · exact fun h => (compiles_cmp c (left_fine C ha) ⟨h2.2 h.2, h1⟩).2 h.1

theorem Cond.compiles_iff (C : Transform.Comp E) {N : Simple.Env E} (q : Cond E) (h : q.Spec N) : Compiles C none q.expr ↔ q.Builds C := by
  cases q with
  | bin l a w o r b =>
    have hc := fun c => cmp_builds C c h.1 h.2.2
    cases o
    case notLike =>
      show Compiles C none (.not (.cmp .like a b)) ↔ _
      rw [Compiles]
      exact hc .like
    all_goals exact hc _
  | un l a w o =>
    have ha := left_fine C h.1
    have hc := fun c => compiles_cmp c ha (⟨trivial, rfl⟩ : Fine C (.value (.json .null)) [])
    rw [Cond.Builds]
    cases o with
    | null => simpa [Cond.expr, Un.expr] using hc .eq
    | notNull => simpa [Cond.expr, Un.expr] using hc .ne
    | «exists» =>
      show Compiles C none (.exist a) ↔ _
      rw [Compiles, ha.occs, own_docFields]
      exact ⟨fun h => h.2, fun h => ⟨ha.ok, h⟩⟩
    | missing =>
      show Compiles C none (.notExist a) ↔ _
      rw [Compiles, ha.occs, own_docFields]
      exact ⟨fun h => h.2, fun h => ⟨ha.ok, h⟩⟩

theorem conn_compiles {C : Transform.Comp E} (o : Conn) (a b : Expr E) : Compiles C none (o.expr a b) ↔ Compiles C none a ∧ Compiles C none b := by
  cases o <;> simp [Conn.expr, Compiles, CompilesAll]

theorem buildTo_compiles {C : Transform.Comp E} (s : Bool) (f : Expr E → Expr E) (P : Prop)
    (hf : ∀ e, Compiles C none (f e) ↔ Compiles C none e ∧ P) : ∀ (ls : List (Link E)) (acc : Expr E),
      Compiles C none (buildTo s f acc ls) ↔ (Compiles C none acc ∧ ∀ x ∈ ls, Compiles C none x.2.2.expr) ∧ P
  | [], acc => by simp [buildTo, hf]
  | (_, o, q) :: r, acc => by
    rw [buildTo]
    split
    · rw [conn_compiles, buildTo_compiles s f P hf r]
      simp only [List.mem_cons, forall_eq_or_imp]
      simp only [and_assoc]
    · rw [buildTo_compiles s f P hf r, conn_compiles]
      simp only [List.mem_cons, forall_eq_or_imp]
      simp only [and_assoc]

theorem build_compiles {C : Transform.Comp E} (s : Bool) (ls : List (Link E)) (acc : Expr E) :
    Compiles C none (build s acc ls) ↔ Compiles C none acc ∧ ∀ x ∈ ls, Compiles C none x.2.2.expr := by
  rw [← buildTo_id, buildTo_compiles s id True (fun _ => by simp)]
  simp

theorem joinLeft_compiles {C : Transform.Comp E} : ∀ (ls : List (Link E)) (acc : Expr E),
    Compiles C none (joinLeft acc ls) ↔ Compiles C none acc ∧ ∀ x ∈ ls, Compiles C none x.2.2.expr
  | [], acc => by simp [joinLeft]
  | (_, o, q) :: r, acc => by
    rw [joinLeft, joinLeft_compiles r, conn_compiles]
    simp only [List.mem_cons, forall_eq_or_imp]
    simp only [and_assoc]

theorem Grp.compiles {C : Transform.Comp E} : ∀ g : Grp E, Compiles C none g.expr ↔ ∀ q ∈ g.conds, Compiles C none q.expr
  | .cond q => by simp [Grp.expr, Grp.conds]
  | .group g ls => by
    rw [Grp.expr, Grp.conds, joinLeft_compiles, Grp.compiles g, List.forall_mem_append, List.forall_mem_map]

theorem Txt.compiles {C : Transform.Comp E} (s : Bool) (t : Txt E) : Compiles C none (t.expr s) ↔ ∀ q ∈ t.conds, Compiles C none q.expr := by
  cases t with
  | chain g ls => rw [Txt.expr, Txt.conds, build_compiles, Grp.compiles, List.forall_mem_append, List.forall_mem_map]
  | whole g ls => rw [Txt.expr, Txt.conds, build_compiles, Grp.compiles, List.forall_mem_append, List.forall_mem_map]
  | last g ls w o g' ls' =>
    rw [Txt.expr, Txt.conds, buildTo_compiles s _ (Compiles C none (build s g'.expr ls')) (fun e => conn_compiles o e _), Grp.compiles,
      build_compiles, Grp.compiles]
    simp only [List.forall_mem_append, List.forall_mem_map, and_assoc]

/-- **C89.**  A text with a meaning is parsed, and the expression compiles exactly if the fields of no condition collide and all patterns
are valid; otherwise the compiler panics. -/
theorem C89_compiles (N : Simple.Env E) (C : Transform.Comp E) (slot0 : Nat) (t : Txt E) (text : Str)
    (ht : t.Spec N (decide (OneSymbol t.toks))) (hw : Words t.toks text) :
    ∃ e, ParsesTo N text (.ok (some e)) ∧ ((∃ df, transform C slot0 [e] = .ok df) ↔ ∀ q ∈ t.conds, q.Builds C) ∧
      (transform C slot0 [e] = .panic ↔ ∃ q ∈ t.conds, ¬ q.Builds C) := by
  refine ⟨_, C61_partial N t text ht hw, ?_⟩
  have hiff : (∀ e ∈ [t.expr (decide (OneSymbol t.toks))], Compiles C none e) ↔ ∀ q ∈ t.conds, q.Builds C := by
    simp only [List.mem_singleton, forall_eq]
    rw [Txt.compiles]
    exact ⟨fun h q hq => (Cond.compiles_iff C q (t.conds_spec ht q hq)).1 (h q hq),
      fun h q hq => (Cond.compiles_iff C q (t.conds_spec ht q hq)).2 (h q hq)⟩
  obtain ⟨h1, h2⟩ := C86_compiles C slot0 [t.expr (decide (OneSymbol t.toks))]
  rw [hiff] at h1 h2
  refine ⟨h1, ?_⟩
  by_cases hall : ∀ q ∈ t.conds, q.Builds C
  · obtain ⟨df, hdf⟩ := h1.2 hall
    rw [hdf]
    exact ⟨fun h => (by cases h), fun ⟨q, hq, hn⟩ => absurd (hall q hq) hn⟩
  · rw [h2 hall]
    refine ⟨fun _ => ?_, fun _ => rfl⟩
    apply Classical.byContradiction
    intro hn
    exact hall (fun c hc => Classical.byContradiction (fun h => hn ⟨c, hc, h⟩))

/-- `a == 1 || b == 2` compiles. -/
example (N : Simple.Env demoExt) : ∃ e df, ParsesTo N (ascii "a == 1 || b == 2") (.ok (some e)) ∧ transform demoComp 0 [e] = .ok df := by
  have htk : (Txt.chain (.cond (aCond demoExt "a" 1)) [(kOr, .or, aCond demoExt "b" 2)]).toks =
      [ascii "a", kEq, ascii "1", kOr, ascii "b", kEq, ascii "2"] := rfl
  obtain ⟨e, h1, h2, _⟩ := C89_compiles N demoComp 0 (.chain (.cond (aCond demoExt "a" 1)) [(kOr, .or, aCond demoExt "b" 2)])
    (ascii "a == 1 || b == 2") ⟨aCond_spec N "a" 1 free_a (by decide) (by decide), orB_links N⟩
    (by rw [htk]; exact words_join [ascii "a", kEq, ascii "1", kOr, ascii "b", kEq, ascii "2"] (by decide))
  obtain ⟨df, h⟩ := h2.2 (by
    intro x hx
    simp only [Txt.conds, Grp.conds, List.map_cons, List.map_nil, List.cons_append, List.nil_append, List.mem_cons, List.not_mem_nil, or_false] at hx
    rcases hx with rfl | rfl <;> exact ⟨Filter.not_collide_one _, trivial⟩)
  exact ⟨e, df, h1, h⟩

/-- A condition `l LIKE "w1 ... wn"` of several words is accepted whatever the pattern; the parser does not compile it.  If it is not a valid
regular expression, the compiler panics. -/
theorem C89_phrase (N : Simple.Env E) (C : Transform.Comp E) (slot0 : Nat) (l : Str) (a : Expr E) (q : Nat) (first : Str) (mid : List Str) (last text w : Str)
    (hl : LeftMeans N l a) (hk : ([w], Bin.like) ∈ binWords) (hp : PhraseOk q first mid) (hw : Words (l :: w :: (q :: first) :: (mid ++ [last ++ [q]])) text)
    (hr : C.regexp (phrase first mid last) = none) :
    ∃ e, ParsesTo N text (.ok (some e)) ∧ transform C slot0 [e] = .panic := by
  obtain ⟨e, h1, _, h3⟩ := C89_compiles N C slot0
    (.chain (.cond (.bin l a [w] .like ((q :: first) :: (mid ++ [last ++ [q]])) (.regex (.json (.str (phrase first mid last)))))) []) text
    ⟨⟨hl, hk, .phraseRegex q first mid last (Or.inl rfl) hp⟩, fun x hx => by cases hx⟩
    (by simpa [Txt.toks, Grp.toks, Cond.toks, linkToks] using hw)
  refine ⟨e, h1, h3.2 ⟨_, by simp only [Txt.conds, Grp.conds]; exact List.mem_cons_self .., ?_⟩⟩
  rintro ⟨_, h⟩
  rw [PatternOk, hr] at h
  cases h

/-- `a LIKE "[x y"` is accepted and crashes the compiler; `a LIKE "[x"` is an error of the parser if `[x` is not a valid pattern. -/
example (N : Simple.Env demoExt) : ∃ e, ParsesTo N (ascii "a LIKE \"[x y\"") (.ok (some e)) ∧ transform (⟨fun _ => none, fun _ => none⟩ : Transform.Comp demoExt) 0 [e] = .panic :=
  C89_phrase N _ 0 (ascii "a") _ 34 (ascii "[x") [] (ascii "y") _ (ascii "LIKE") (aCond_spec N "a" 1 free_a (by decide) (by decide)).1 (by simp [binWords])
    ⟨Or.inl rfl, by decide, by decide, by decide, by simp⟩
    (words_join [ascii "a", ascii "LIKE", ascii "\"[x", ascii "y\""] (by decide)) rfl

theorem num_not_quoted (n : Num) (q : Nat) (s : Str) (hq : q = 34 ∨ q = 39) : n.text ≠ q :: s ++ [q] := by
  intro h
  have := congrArg List.head? h
  obtain ⟨neg, i, f⟩ := n
  cases neg with
  | true => simp [Num.text] at this; omega
  | false =>
    cases i with
    | cons d i => simp [Num.text, digits] at this; omega
    | nil =>
      cases f with
      | none => simp [Num.text, digits] at this
      | some f => simp [Num.text, digits] at this; omega

/-- Patterns of one word are checked by the parser: they do not crash, if the parser and the compiler use the same `regexp.Compile`. -/
theorem C89_word (N : Simple.Env E) (C : Transform.Comp E) (o : Bin) (q : Nat) (s : Str) (b : Expr E) (hn : ∀ s, N.compiles s = (C.regexp s).isSome)
    (hp : ∀ s, Verif.Filter.isPcre s = true → (C.pcre s).isSome) (h : RightMeans N o [q :: s ++ [q]] b) (hq : q = 34 ∨ q = 39) :
    PatternOk C b := by
  generalize hts : [q :: s ++ [q]] = ts at h
  cases h with
  | num n e _ h => exact absurd (by simpa using hts.symm) (num_not_quoted n q s hq)
  | regex q' s' _ _ h => rw [PatternOk, ← hn]; exact h
  | pcre q' s' _ _ _ h => exact hp _ h
  | numRegex n => exact absurd (by simpa using hts.symm) (num_not_quoted n q s hq)
  | phraseRegex q' f m l => have := congrArg List.length hts; simp at this
  | word q' s' e _ h => cases h <;> trivial
  | phrase => trivial
  | bool => trivial
  | call t k e _ h =>
    cases h with
    | atom a e h => cases h <;> trivial
    | _ => trivial
  | const t e h => cases h <;> trivial

/-- The pattern `x` in quotes. -/
example (N : Simple.Env demoExt) (hN : ∀ s, N.compiles s = true) :
    PatternOk (⟨fun _ => some (), fun _ => some ()⟩ : Transform.Comp demoExt) (.regex (.json (.str [120]))) :=
  C89_word N ⟨fun _ => some (), fun _ => some ()⟩ .like 34 [120] _ (fun s => (hN s).trans rfl) (fun _ _ => rfl)
    (.regex 34 [120] (Or.inl rfl) (Or.inl rfl) (hN _))
    (Or.inl rfl)

/-- `a == ABS(a.b)` is accepted and crashes the compiler. -/
theorem C89_crash (N : Simple.Env E) (C : Transform.Comp E) (slot0 : Nat) : ∃ e, ParsesTo N (ascii "a == ABS(a.b)") (.ok (some e)) ∧ transform C slot0 [e] = .panic := by
  refine ⟨.cmp .eq (.field ⟨0, [ascii "a"]⟩) (.func (ascii "mathAbs") (.cons (.field ⟨0, [ascii "a", ascii "b"]⟩) .nil)), parses_rfl N _ _ (by simp) 30 rfl, ?_⟩
  refine (C86_compiles C slot0 [_]).2 (fun h => ?_)
  have := h _ (List.mem_singleton.2 rfl)
  rw [Compiles] at this
  exact this.2.2 (show Collide [[ascii "a"], [ascii "a", ascii "b"]] by decide)

/-! ### Matching ends -/

theorem outOp_loopFree (tree : List Node) (rec : Nat → Res (Option (Expr E))) (k : OpK) (pos : Nat)
    (hrec : ∀ i e, rec i = .ok (some e) → LoopFree e) (e : Expr E) (h : outOp tree rec k pos = .ok (some e)) : LoopFree e := by
  unfold outOp at h
  cases k <;> dsimp only at h
  case cmp c =>
    obtain ⟨l, _, h⟩ := Res.bind_eq_ok.1 h
    split at h
    · obtain ⟨a, ha, h⟩ := andThen_some.1 h
      obtain ⟨b, hb, h⟩ := andThen_some.1 h
      cases h; trivial
    · cases h
  case notLike =>
    obtain ⟨l, _, h⟩ := Res.bind_eq_ok.1 h
    split at h
    · obtain ⟨a, ha, h⟩ := andThen_some.1 h
      obtain ⟨b, hb, h⟩ := andThen_some.1 h
      cases h; trivial
    · cases h
  case and | or =>
    obtain ⟨l, _, h⟩ := Res.bind_eq_ok.1 h
    split at h
    · obtain ⟨a, ha, h⟩ := andThen_some.1 h
      split at h
      · obtain ⟨b, hb, h⟩ := andThen_some.1 h
        cases h
        exact ⟨hrec _ _ ha, hrec _ _ hb, trivial⟩
      · cases h
    · cases h
  case «exists» | missing | null | notNull =>
    obtain ⟨l, _, h⟩ := Res.bind_eq_ok.1 h
    split at h
    · obtain ⟨a, ha, h⟩ := andThen_some.1 h
      cases h; trivial
    · cases h

theorem outFunc_loopFree (N : Simple.Env E) (hp : Helper) (n l : Nat) (e : Expr E) (h : outFunc N hp n l = .ok (some e)) : LoopFree e := by
  cases n with
  | zero => cases h
  | succ n =>
    rw [outFunc] at h
    split at h
    · split at h
      · cases h; trivial
      · obtain ⟨a, _, h⟩ := andThen_some.1 h
        cases h; trivial
    · cases h

theorem outValue_loopFree (N : Simple.Env E) (t : Str) (e : Expr E) (h : outValue N t = some e) : LoopFree e := by
  unfold outValue at h
  split at h
  · split at h
    · obtain ⟨v, _, rfl⟩ := Option.map_eq_some_iff.1 h
      trivial
    · obtain ⟨v, _, rfl⟩ := Option.map_eq_some_iff.1 h
      trivial
  · cases h; trivial

theorem outNode_loopFree (N : Simple.Env E) (tree : List Node) : ∀ n pos e, outNode N tree n pos = .ok (some e) → LoopFree e := by
  intro n
  induction n with
  | zero => intro pos e h; cases h
  | succ n ih =>
    intro pos e h
    rw [outNode] at h
    split at h
    · cases h
    · split at h
      · split at h
        · exact outOp_loopFree tree _ _ pos ih e h
        · cases h
      · split at h
        · cases h; trivial
        · cases h
      · cases h; trivial
      · cases h; trivial
      · injection h with h; exact outValue_loopFree N _ e h
      · cases h; trivial
      · cases h; trivial
      · split at h
        · exact outFunc_loopFree N _ _ _ e h
        · cases h
      · cases h
      · cases h

/-- The simple language has no loops. -/
theorem parsed_loopFree (N : Simple.Env E) (text : Str) (e : Expr E) (h : ParsesTo N text (.ok (some e))) : LoopFree e := by
  obtain ⟨_, n, h⟩ := h
  unfold parseSimple parseTokens at h
  obtain ⟨r, hr, h⟩ := Res.bind_eq_ok.1 h
  split at h
  · cases h
  · unfold outExpr at h
    split at h
    · cases h
    · split at h
      · cases h
      · split at h
        · exact outNode_loopFree N _ _ _ e h
        · cases h

/-- **C88 for simple expressions.**  Whatever text `ParseSimpleExpression` accepts: if the result compiles, matching ends on every sequence
of bytes from every state. -/
theorem C88_simple (N : Simple.Env E) (X : Fns E) (C : Transform.Comp E) (slot0 : Nat) (text : Str) (e : Expr E)
    (hp : ParsesTo N text (.ok (some e))) {df : Verif.Match.Def E} (h : transform C slot0 [e] = .ok df) (m : M) (data : List Nat) : run X df m data ≠ .stuck :=
  C88_terminates X C slot0 (fun x hx => by rw [List.mem_singleton.1 hx]; exact LoopFree.bodied false e (parsed_loopFree N text e hp)) h m data

/-- A text whose parts have no meaning in the sense of `C89_compiles` but are accepted: `MAJORITY == 1` is `MAJ || ITY == 1`. -/
example (N : Simple.Env demoExt) (data : List Nat) : ∃ e df, ParsesTo N (ascii "MAJORITY == 1") (.ok (some e)) ∧ transform demoComp 0 [e] = .ok df ∧
    run demoFns df ⟨⟨[], 7⟩, [(1, 2)], ⟨[.ff], 5⟩, true⟩ data ≠ .stuck := by
  have hp : ParsesTo N (ascii "MAJORITY == 1") (.ok (some (.or (.cons (.field ⟨0, [ascii "MAJ"]⟩)
    (.cons (.cmp .eq (.field ⟨0, [ascii "ITY"]⟩) (.value (.int 1))) .nil))))) := parses_rfl N _ _ (by simp) 30 rfl
  obtain ⟨df, h⟩ := (C86_compiles demoComp 0 [_]).1.2 (fun e he => by
    rw [List.mem_singleton.1 he]
    show Compiles demoComp none (.or (.cons (.field ⟨0, [ascii "MAJ"]⟩) (.cons (.cmp .eq (.field ⟨0, [ascii "ITY"]⟩) (.value (.int 1))) .nil)))
    simp only [Compiles, CompilesAll, OkParam, occs, Visible, List.append_nil, true_and]
    exact ⟨Or.inl trivial, Filter.not_collide_one _⟩)
  exact ⟨_, df, hp, h, C88_simple N demoFns demoComp 0 _ _ hp h _ data⟩

end Verif.Simple
