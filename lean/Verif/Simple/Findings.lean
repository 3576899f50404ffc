import Verif.Simple.Meaning

/-!
# Fields, calls, numbers, splitting: what holds and what does not
-/

namespace Verif.Simple
open Verif.FastVal Verif.Expr

variable {E : Ext}

set_option maxRecDepth 20000

theorem parses_rfl (N : Env E) (text : Str) (r : Res (Option (Expr E))) (hr : r ≠ .stuck) (n : Nat) (h : parseSimple N n text = r) : ParsesTo N text r :=
  ⟨hr, n, h⟩

/-! ### Field names -/

/-- A step of a path: a part or an index. -/
inductive Step where
  | part (p : Part)
  | index (s : Str)

/-- Parts after the first one follow a dot. -/
def stepsText : List Step → Str
  | [] => []
  | .part p :: r => 46 :: p.text ++ stepsText r
  | .index s :: r => idxText s ++ stepsText r

def stepName : Step → Str
  | .part p => p.name
  | .index s => idxText s

def StepOk : Step → Prop
  | .part p => p.Ok
  | .index s => IdxOk s

/-- C55 as it should be: a part followed by parts and indices in any order is read as its path. -/
def C55_steps : Prop :=
  ∀ (p : Part) (r : List Step), p.Ok → (∀ x ∈ r, StepOk x) → checkField [p.text ++ stepsText r] 0 = some (0, p.name :: r.map stepName)

/-- C55.  Parts joined by dots and followed by indices are read as their path, and use one token.
(Missing: indices followed by parts, see `C55_negation`.) -/
theorem C55_partial (n : Name) (hn : n.Ok) (ts : List Str) (i : Nat) (hi : ts[i]? = some n.text) : checkField ts i = some (i, n.path) :=
  checkField_name n hn ts i hi

/-- The index of `a[1].b` is read twice. -/
theorem C55_negation : ¬ C55_steps := by
  intro h
  have := h (.plain (ascii "a")) [.index (ascii "1"), .part (.plain (ascii "b"))] ⟨by decide, by decide⟩
    (by
      intro x hx
      simp only [List.mem_cons, List.not_mem_nil, or_false] at hx
      rcases hx with rfl | rfl
      · exact ⟨49, [], rfl, by decide, by decide, by simp⟩
      · exact ⟨by decide, by decide⟩)
  revert this
  decide

/-- `a[1].b` becomes the path `a`, `[1]`, `[1]`, `b`. -/
theorem C55_twice : checkField [ascii "a[1].b"] 0 = some (0, [ascii "a", ascii "[1]", ascii "[1]", ascii "b"]) := by decide

/-- An index 0 is an error. -/
theorem C55_zero : checkField [ascii "a[0]"] 0 = none := by decide

/-- Text before or after a quoted part is lost or misread. -/
theorem C55_around : checkField [ascii "ab`c`"] 0 = some (0, [ascii "c"]) ∧ checkField [ascii "`a`bc"] 0 = some (0, [ascii "a", ascii "a`bc"]) := by
  decide

example : (⟨[.plain (ascii "a"), .tick (ascii "b.c")], [ascii "12"]⟩ : Name).Ok ∧
    (⟨[.plain (ascii "a"), .tick (ascii "b.c")], [ascii "12"]⟩ : Name).text = ascii "a.`b.c`[12]" := by
  refine ⟨⟨by simp, ?_, ?_⟩, rfl⟩
  · intro p hp
    simp only [List.mem_cons, List.not_mem_nil, or_false] at hp
    rcases hp with rfl | rfl
    · exact ⟨by decide, by decide⟩
    · exact ⟨by decide, by decide⟩
  · intro s hs
    simp only [List.mem_singleton] at hs
    subst hs
    exact ⟨49, [50], rfl, by decide, by decide, by decide⟩

/-! ### Panics and lost conditions -/

/-- C57 as it should be: no text makes the parser panic. -/
def C57_noPanic (N : Env E) : Prop := ∀ text, ¬ ParsesTo N text .panic

/-- `a && b` does, as does any second operand that is only a field: line 1119 reads node -1. -/
theorem C57_negation (N : Env E) : ¬ C57_noPanic N := fun h => h (ascii "a && b") (parses_rfl N _ _ (by simp) 20 rfl)

theorem C57_second (N : Env E) : ParsesTo N (ascii "a == 1 && b") .panic := parses_rfl N _ _ (by simp) 20 rfl

/-- A group of a boolean as the second operand. -/
theorem C57_group (N : Env E) : ParsesTo N (ascii "a == 1 && ( true )") .panic := parses_rfl N _ _ (by simp) 20 rfl

/-- A constant within a call is a panic when the expression is output (line 1394). -/
theorem C57_constant (N : Env E) : ParsesTo N (ascii "ABS(PI()) == 1") .panic := parses_rfl N _ _ (by simp) 20 rfl

/-- C57 as it should be: what is added to a text is not ignored. -/
def C57_noLoss (N : Env E) : Prop :=
  ∀ text more e, (∃ t, t ∈ fieldsFrom [] more) → ParsesTo N text (.ok (some e)) → ¬ ParsesTo N (text ++ 32 :: more) (.ok (some e))

/-- `a == 1 && false` is parsed to `a == 1`, and so is `a == 1 &&`. -/
theorem C57_lost (N : Env E) : ¬ C57_noLoss N := by
  intro h
  exact h (ascii "a == 1") (ascii "&& false") _ ⟨kAnd, by decide⟩ (parses_rfl N _ _ (by simp) 20 rfl) (parses_rfl N _ _ (by simp) 20 rfl)

theorem C57_lost_and (N : Env E) : ∃ e, ParsesTo N (ascii "a == 1") (.ok (some e)) ∧ ParsesTo N (ascii "a == 1 &&") (.ok (some e)) ∧
    ParsesTo N (ascii "a == 1 || true == false") (.ok (some e)) :=
  ⟨_, parses_rfl N _ _ (by simp) 20 rfl, parses_rfl N _ _ (by simp) 20 rfl, parses_rfl N _ _ (by simp) 20 rfl⟩

/-- `true && a == 1` is accepted, with the constant as an operand of AND; the compiled expression does not match `{"a":1}`, which
`a == 1` matches. -/
theorem C57_operand (N : Env demoExt) : ∃ e, ParsesTo N (ascii "true && a == 1") (.ok (some e)) ∧
    (Transform.transform Transform.demoComp 0 [e] >>= fun df =>
      Match.run Match.demoFns df (Match.newMatcher df) (ascii "{\"a\":1}") >>= fun r => Res.ok r.1) = .ok (some false) ∧
    ∃ e', ParsesTo N (ascii "a == 1") (.ok (some e')) ∧
    (Transform.transform Transform.demoComp 0 [e'] >>= fun df =>
      Match.run Match.demoFns df (Match.newMatcher df) (ascii "{\"a\":1}") >>= fun r => Res.ok r.1) = .ok (some true) :=
  ⟨_, parses_rfl N _ _ (by simp) 20 rfl, by decide +kernel, _, parses_rfl N _ _ (by simp) 20 rfl, by decide +kernel⟩

/-! ### Numbers -/

/-- C59.  Texts are numbers exactly when they are signed decimals without leading zeros; whole numbers in the range of 64 bits have
their value, others are errors. -/
theorem C59_numbers (N : Env E) (t : Str) :
    (isNum t = true ↔ ∃ n : Num, n.Ok ∧ n.text = t) ∧
    ∀ n : Num, n.Ok → n.text = t → n.frac = none →
      (-(2 ^ 63) ≤ n.value → n.value < 2 ^ 63 → outValue N t = some (.value (.int (BitVec.ofInt 64 n.value)))) ∧
      (n.value < -(2 ^ 63) ∨ 2 ^ 63 ≤ n.value → outValue N t = none) := by
  refine ⟨isNum_iff t, ?_⟩
  rintro n hn rfl hf
  refine ⟨outValue_int N n hn hf, ?_⟩
  intro h
  unfold outValue
  rw [if_pos (isNum_text n hn), isInt_text n hn, if_pos (by simp [hf]), intOf_text n hn hf, if_neg (by omega)]
  rfl

example : (⟨true, [1, 2], none⟩ : Num).Ok ∧ (⟨true, [1, 2], none⟩ : Num).text = ascii "-12" ∧ (⟨true, [1, 2], none⟩ : Num).value = -12 :=
  ⟨⟨by simp, by simp, by simp, by simp⟩, rfl, rfl⟩

/-- C59 as it should be for quoted values: they are strings. -/
def C59_quoted (N : Env E) : Prop :=
  ∀ s : Str, (∀ b ∈ s, white b = false ∧ b ≠ 34) →
    ParsesTo N (ascii "a == " ++ 34 :: s ++ [34]) (.ok (some (.cmp .eq (.field ⟨0, [ascii "a"]⟩) (.value (.json (.str s))))))

/-- `a == "5"` compares with the number 5. -/
theorem C59_negation (N : Env E) : ¬ C59_quoted N := by
  intro h
  have h1 := h (ascii "5") (by decide)
  have h2 : ParsesTo N (ascii "a == \"5\"") (.ok (some (.cmp .eq (.field ⟨0, [ascii "a"]⟩) (.value (.int 5#64))))) :=
    parses_rfl N _ _ (by simp) 20 rfl
  have := parsesTo_unique N h1 h2
  simp at this

/-! ### Calls -/

/-- C60.  A call whose arguments are names, numbers, quoted words and, in the first place, such calls, compared with a number. -/
theorem C60_partial (N : Env E) (t : Term) (k : Str) (e : Expr E) (hk : t.key = some k) (ht : t.Means N e) (hs : ∀ b ∈ t.text, white b = false)
    (d : Nat) (hd : d < 10) : ParsesTo N (t.text ++ ascii " == " ++ [48 + d]) (.ok (some (.cmp .eq e (.value (.int (BitVec.ofInt 64 d)))))) := by
  have hq : Cond.Spec N (.bin t.text e [kEq] .eq [(aNum d).text] (.value (.int (BitVec.ofInt 64 d)))) :=
    ⟨.call t k e hk ht, by simp [binWords], (aCond_spec N "a" d free_a (by decide) hd).2.2⟩
  have hw := words_join [t.text, kEq, (aNum d).text] (by
    intro x hx
    simp only [List.mem_cons, List.not_mem_nil, or_false] at hx
    rcases hx with rfl | rfl | rfl
    · exact ⟨Term.text_ne ht, hs⟩
    · exact ⟨by decide, by decide⟩
    · refine ⟨by simp [aNum, Num.text, digits], ?_⟩
      intro b hb
      have : b = 48 + d := by simpa [aNum, Num.text, digits] using hb
      subst this
      simp [white]
      omega)
  have := C53_chain N _ [] _ hq (by intro x hx; exact absurd hx (by simp)) hw
  have htext : joinSp [t.text, kEq, (aNum d).text] = t.text ++ ascii " == " ++ [48 + d] := by
    simp [joinSp, aNum, Num.text, digits, kEq, ascii]
  rw [htext] at this
  exact this

/-- `POW(ABS(a),2)` means what it says. -/
example (N : Env E) : Term.Means N (.two (ascii "POW") (.one (ascii "ABS") (.atom (.name (aName "a")))) (.num (aNum 2)))
    (.func (ascii "mathPow") (.cons (.func (ascii "mathAbs") (.cons (.field ⟨0, [ascii "a"]⟩) .nil)) (.cons (.value (.int 2#64)) .nil))) := by
  refine .two _ _ _ _ _ _ (by decide) (.one _ _ _ _ (by decide) (.atom _ _ (.name (aName "a") ⟨aName_ok "a" (by decide) (by decide), by decide, by decide, ?_⟩)))
    ?_ (by decide)
  · rintro ⟨n, hn, h⟩
    obtain ⟨c, r, h1, h2, _⟩ := num_head n hn
    rw [h1] at h
    have : c = 97 := by
      have := congrArg List.head? h
      simpa [aName, Name.text, partsText, Part.text, ascii] using this
    omega
  · exact .int (aNum 2) (aNum_ok 2 (by decide)) rfl (by decide) (by decide)

/-- C60 as it should be: calls may also be the second argument. -/
def C60_second (N : Env E) : Prop :=
  ParsesTo N (ascii "POW(a,ABS(b)) == 1") (.ok (some (.cmp .eq
    (.func (ascii "mathPow") (.cons (.field ⟨0, [ascii "a"]⟩) (.cons (.func (ascii "mathAbs") (.cons (.field ⟨0, [ascii "b"]⟩) .nil)) .nil)))
    (.value (.int 1#64)))))

/-- The second argument loses its own argument: line 1715 passes the first one on. -/
theorem C60_negation (N : Env E) : ¬ C60_second N := by
  intro h
  have h2 : ParsesTo N (ascii "POW(a,ABS(b)) == 1") (.ok (some (.cmp .eq
    (.func (ascii "mathPow") (.cons (.field ⟨0, [ascii "a"]⟩) (.cons (.func (ascii "mathAbs") .nil) .nil))) (.value (.int 1#64))))) :=
    parses_rfl N _ _ (by simp) 20 rfl
  have := parsesTo_unique N h h2
  simp at this

/-- An invalid date within another call is accepted: line 1715 does not look at the error. -/
theorem C60_date (N : Env E) :
    ParsesTo { N with validTime := fun _ => false } (ascii "DATE(\"x\") == 1") (.ok none) ∧
    ParsesTo { N with validTime := fun _ => false } (ascii "ABS(DATE(\"x\")) == 1") (.ok (some (.cmp .eq
      (.func (ascii "mathAbs") (.cons (.func (ascii "date") (.cons (.value (.json (.str (ascii "x")))) .nil)) .nil)) (.value (.int 1#64))))) :=
  ⟨parses_rfl _ _ _ (by simp) 20 rfl, parses_rfl _ _ _ (by simp) 20 rfl⟩

/-! ### Splitting -/

/-- `d` does not occur in `a ++ d` before its end. -/
def FirstAt (a d : Str) : Prop := ∀ x y, a ++ d = x ++ d ++ y → y = []

theorem cut_first : ∀ (a d b : Str), d ≠ [] → FirstAt a d → cut d (a ++ d ++ b) = some (a, b) := by
  intro a
  induction a with
  | nil =>
    intro d b hd _
    cases d with
    | nil => exact absurd rfl hd
    | cons c d =>
      rw [List.nil_append, List.cons_append, cut, if_pos (by rw [hasPrefix, List.isPrefixOf_iff_prefix]; exact ⟨b, rfl⟩)]
      simp
  | cons c a ih =>
    intro d b hd hf
    rw [List.cons_append, List.cons_append, cut, if_neg, ih d b hd]
    · rfl
    · intro x y h
      exact hf (c :: x) y (by simpa using h)
    · intro hp
      rw [hasPrefix, List.isPrefixOf_iff_prefix] at hp
      obtain ⟨z, hz⟩ := hp
      have hlen : d.length ≤ (c :: a ++ d).length := by simp; omega
      have hpre : d <+: c :: a ++ d := by
        have h1 : d <+: (c :: a ++ d) ++ b := ⟨z, by simpa using hz⟩
        exact List.prefix_of_prefix_length_le h1 (List.prefix_append _ _) hlen
      obtain ⟨y, hy⟩ := hpre
      have := hf [] y (by simpa using hy.symm)
      subst this
      have := congrArg List.length hy
      simp at this
      omega

theorem trim_app (a d : Str) (ha : a ≠ []) (h1 : ∀ c, a.head? = some c → c ∉ d) (h2 : ∀ c, a.getLast? = some c → c ∉ d) : trim d (a ++ d) = a := by
  unfold trim
  have hd1 : (a ++ d).dropWhile d.contains = a ++ d := by
    cases a with
    | nil => exact absurd rfl ha
    | cons c a =>
      have := h1 c rfl
      rw [List.cons_append, List.dropWhile_cons_of_neg (by simpa using this)]
  rw [hd1, List.reverse_append]
  have hr : ∀ (x y : Str), (∀ c ∈ x, d.contains c = true) → (∀ c, y.head? = some c → d.contains c = false) → (x ++ y).dropWhile d.contains = y :=
    fun x y hx hy => (takeWhile_app d.contains x y hx hy).2
  rw [hr]
  · simp
  · intro c hc; simpa using hc
  · intro c hc
    rw [List.head?_reverse] at hc
    simpa using h2 c hc

/-- C58.  `StringSplitFirstInst` splits a text at the first occurrence of the delimiter, if what is before it neither starts nor ends with
a character of the delimiter; without an occurrence the text is left as it is. -/
theorem C58_partial (d : Str) (hd : d ≠ []) :
    (∀ v : Str, (∀ a b, v ≠ a ++ d ++ b) → splitFirst v d = [v]) ∧
    ∀ a b : Str, FirstAt a d → (∀ c, a.head? = some c → c ∉ d) → (∀ c, a.getLast? = some c → c ∉ d) →
      splitFirst (a ++ d ++ b) d = (if a = [] then [] else [a]) ++ [d] ++ (if b = [] then [] else [b]) := by
  constructor
  · intro v hv
    have hne : v ≠ d := fun h => hv [] [] (by simp [h])
    have hc : cut d v = none := by
      have : ∀ v : Str, (∀ a b, v ≠ a ++ d ++ b) → cut d v = none := by
        intro v
        induction v with
        | nil => intro _; rfl
        | cons c v ih =>
          intro h
          rw [cut, if_neg, ih]
          · rfl
          · intro a b hab
            exact h (c :: a) b (by simp [hab])
          · intro hp
            rw [hasPrefix, List.isPrefixOf_iff_prefix] at hp
            obtain ⟨z, hz⟩ := hp
            exact h [] z (by simp [hz])
      exact this v hv
    rw [splitFirst, if_neg hne, hc]
  · intro a b hf h1 h2
    unfold splitFirst
    by_cases he : a ++ d ++ b = d
    · have hl := congrArg List.length he
      simp at hl
      have ha : a = [] := List.eq_nil_of_length_eq_zero (by omega)
      have hb : b = [] := List.eq_nil_of_length_eq_zero (by omega)
      subst ha; subst hb
      simp
    · rw [if_neg he, cut_first a d b hd hf]
      dsimp only
      by_cases ha : a = []
      · subst ha
        have hb : b ≠ [] := fun h => he (by simp [h])
        simp [hb]
      · rw [if_neg (by intro h; have := congrArg List.length h; simp at this; exact ha this)]
        by_cases hb : b = []
        · subst hb
          have hs : hasSuffix d (a ++ d) = true := by rw [hasSuffix, List.isSuffixOf_iff_suffix]; exact ⟨a, rfl⟩
          rw [if_pos (by simp [hs])]
          unfold trimSuffix
          rw [if_pos hs]
          simp [ha]
        · rw [if_neg (by simp [hb]), trim_app a d ha h1 h2]
          simp [ha, hb]

/-- C58 as it should be: nothing is lost. -/
def C58_split : Prop := ∀ v d : Str, d ≠ [] → (splitFirst v d).flatten = v

/-- `=a==b` at `==`: the first character is lost (`strings.Trim` removes the characters of the delimiter on both ends). -/
theorem C58_negation : ¬ C58_split := by
  intro h
  have := h (ascii "=a==b") kEq (by decide)
  revert this
  decide

example : FirstAt (ascii "ab") kEq := by
  intro x y h
  have hl := congrArg List.length h
  simp [ascii, kEq] at hl
  match x, y, hl with
  | [], [a, b], _ => simp [ascii, kEq] at h
  | [_], [a], _ => simp [ascii, kEq] at h
  | [_, _], [], _ => rfl
  | _ :: _ :: _ :: _, _, hl => simp at hl; omega

end Verif.Simple
