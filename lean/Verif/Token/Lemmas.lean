import Verif.Token.Grammar

/-! Helper lemmas about the scanner. -/

namespace Verif.Token

theorem isDigit_iff (c : Nat) : isDigit c = true ↔ 0x30 ≤ c ∧ c ≤ 0x39 := by simp [isDigit]
theorem isDigit19_iff (c : Nat) : isDigit19 c = true ↔ 0x31 ≤ c ∧ c ≤ 0x39 := by simp [isDigit19]
theorem isHex_iff (c : Nat) : isHex c = true ↔ Hex c := by
  simp [isHex, Hex]; omega
theorem isSpace_iff (c : Nat) : isSpace c = true ↔ (c = 0x20 ∨ c = 0x09 ∨ c = 0x0A ∨ c = 0x0D) := by
  simp [isSpace]; omega

/-! ### Accepting a token -/

/-- The scan continues with state `st'` after the character `c`. -/
theorem scan_cont {c rest pos st st' start esc ni} (h : act st c = .cont st') :
    scan (c :: rest) pos st start esc ni =
      scan rest (pos + 1) st' start (esc || decide (st = .inStringEsc))
        (ni || decide (st = .dot) || decide (st = .e)) := by
  simp only [scan, h]

theorem scan_done {c rest pos st ty start esc ni} (h : act st c = .done ty) :
    scan (c :: rest) pos st start esc ni =
      .tok (refine ty (esc || decide (st = .inStringEsc)) (ni || decide (st = .dot) || decide (st = .e)))
        start (pos + 1) := by
  simp only [scan, h]

theorem scan_rewind {c rest pos st start esc ni} (h : act st c = .rewind) :
    scan (c :: rest) pos st start esc ni =
      .tok (refine .number (esc || decide (st = .inStringEsc)) (ni || decide (st = .dot) || decide (st = .e)))
        start pos := by
  simp only [scan, h]

theorem scan_skip {c rest pos st start esc ni} (h : act st c = .skip) :
    scan (c :: rest) pos st start esc ni =
      scan rest (pos + 1) st (pos + 1) (esc || decide (st = .inStringEsc))
        (ni || decide (st = .dot) || decide (st = .e)) := by
  simp only [scan, h]

theorem scan_fail {c rest pos st start esc ni} (h : act st c = .fail) :
    scan (c :: rest) pos st start esc ni = .err := by
  simp only [scan, h]

theorem scan_ws (ws : List Nat) (h : IsWs ws) (rest : List Nat) (pos : Nat) :
    scan (ws ++ rest) pos .beginValue pos false false =
      scan rest (pos + ws.length) .beginValue (pos + ws.length) false false := by
  induction ws generalizing pos with
  | nil => rfl
  | cons c ws ih =>
    have hc := h c (by simp)
    have : act .beginValue c = .skip := by
      simp only [act, actBeginValue]
      rw [if_pos]
      exact ⟨by omega, (isSpace_iff c).2 hc⟩
    rw [List.cons_append, scan_skip this]
    simp only [reduceCtorEq, decide_false, Bool.or_self]
    rw [ih (fun x hx => h x (by simp [hx])) (pos + 1), List.length_cons]
    congr 1 <;> omega

theorem scan_str {b : List Nat} {e : Bool} (h : StrBody b e) (rest : List Nat) (pos start : Nat)
    (esc ni : Bool) :
    scan (b ++ 0x22 :: rest) pos .inString start esc ni =
      .tok (refine .escString (esc || e) ni) start (pos + b.length + 1) := by
  induction h generalizing pos esc with
  | nil => rw [List.nil_append, scan_done (ty := .escString) (by simp [act])]; simp
  | @plain c w e h1 h2 h3 h ih =>
    rw [List.cons_append, scan_cont (st' := .inString) (by simp [act, h2, h3]; omega)]
    simp only [reduceCtorEq, decide_false, Bool.or_false]
    rw [ih]; congr 1; simp only [List.length_cons]; omega
  | @esc c w e h1 h ih =>
    rw [List.cons_append, scan_cont (st' := .inStringEsc) (by simp [act]), List.cons_append,
      scan_cont (st' := .inString) (by simp only [act]; rw [if_pos]; unfold EscChar at h1; omega)]
    simp only [reduceCtorEq, decide_false, Bool.or_false, decide_true, Bool.or_true]
    rw [ih]; congr 1; simp only [List.length_cons]; omega
  | @uni a b c d w e ha hb hc hd h ih =>
    simp only [List.cons_append]
    rw [scan_cont (st' := .inStringEsc) (by simp [act]), scan_cont (st' := .inStringEscU) (by simp [act]),
      scan_cont (st' := .inStringEscU1) (by simp [act, (isHex_iff a).2 ha]),
      scan_cont (st' := .inStringEscU12) (by simp [act, (isHex_iff b).2 hb]),
      scan_cont (st' := .inStringEscU123) (by simp [act, (isHex_iff c).2 hc]),
      scan_cont (st' := .inString) (by simp [act, (isHex_iff d).2 hd])]
    simp only [reduceCtorEq, decide_false, Bool.or_false, decide_true, Bool.or_true]
    rw [ih]; congr 1; simp only [List.length_cons]; omega

/-- The character after a number. -/
def NumEnd (rest : List Nat) : Prop :=
  ∀ c ∈ rest.head?, ¬ (0x30 ≤ c ∧ c ≤ 0x39) ∧ c ≠ 0x2E ∧ c ≠ 0x65 ∧ c ≠ 0x45

theorem scan_e0 {ds : List Nat} (hd : Digits ds) {rest : List Nat} (hr : NumEnd rest) (pos start : Nat)
    (esc ni : Bool) :
    scan (ds ++ rest) pos .e0 start esc ni = .tok (refine .number esc ni) start (pos + ds.length) := by
  induction ds generalizing pos with
  | nil =>
    cases rest with
    | nil => simp [scan]
    | cons c rest =>
      have := hr c (by simp)
      rw [List.nil_append, scan_rewind (by simp [act, isDigit]; omega)]; simp
  | cons c ds ih =>
    have := hd c (by simp)
    rw [List.cons_append, scan_cont (st' := .e0) (by simp [act, isDigit, this])]
    simp only [reduceCtorEq, decide_false, Bool.or_false]
    rw [ih (fun x hx => hd x (by simp [hx]))]; congr 1; simp only [List.length_cons]; omega

/-- Scanning an optional exponent in a state where it may begin. -/
theorem scan_exp {x : List Nat} (hx : IsExp x) {rest : List Nat} (hr : NumEnd rest) (pos start : Nat)
    (esc ni : Bool) {st : TS} (hst : st = .s0 ∨ st = .s1 ∨ st = .dot0) :
    scan (x ++ rest) pos st start esc ni =
      .tok (refine .number esc (ni || decide (x ≠ []))) start (pos + x.length) := by
  rcases hx with rfl | ⟨e, sg, ds, rfl, he, hsg, hne, hd⟩
  · cases rest with
    | nil => rcases hst with rfl | rfl | rfl <;> simp [scan]
    | cons c rest =>
      have := hr c (by simp)
      have ha : act st c = .rewind := by
        rcases hst with rfl | rfl | rfl
        · simp only [act, act0]; rw [if_neg (by omega), if_neg (by omega)]
        · simp only [act, act0]; rw [if_neg (by rw [isDigit_iff]; omega), if_neg (by omega), if_neg (by omega)]
        · simp only [act]; rw [if_neg (by rw [isDigit_iff]; omega), if_neg (by omega)]
      rw [List.nil_append, scan_rewind ha]
      rcases hst with rfl | rfl | rfl <;> simp
  · have ha : act st e = .cont .e := by
      rcases hst with rfl | rfl | rfl
      · simp only [act, act0]; rw [if_neg (by omega), if_pos (by omega)]
      · simp only [act, act0]; rw [if_neg (by rw [isDigit_iff]; omega), if_neg (by omega), if_pos (by omega)]
      · simp only [act]; rw [if_neg (by rw [isDigit_iff]; omega), if_pos (by omega)]
    rw [List.cons_append, scan_cont ha]
    have hni : (ni || decide (st = .dot) || decide (st = .e)) = ni := by
      rcases hst with rfl | rfl | rfl <;> simp
    have hes : (esc || decide (st = .inStringEsc)) = esc := by
      rcases hst with rfl | rfl | rfl <;> simp
    rw [hni, hes]
    cases ds with
    | nil => exact absurd rfl hne
    | cons d ds =>
      have h1 := hd d (by simp)
      have hdd : Digits ds := fun x hx => hd x (by simp [hx])
      rcases hsg with rfl | rfl | rfl
      · rw [List.nil_append, List.cons_append, scan_cont (st' := .e0) (by
          simp only [act]; rw [if_neg (by omega), if_pos (by rw [isDigit_iff]; omega)])]
        rw [scan_e0 hdd hr]
        simp; omega
      · simp only [List.nil_append, List.cons_append]
        rw [scan_cont (st' := .eSign) (by simp [act]), scan_cont (st' := .e0) (by
          simp only [act]; rw [if_pos (by rw [isDigit_iff]; omega)])]
        rw [scan_e0 hdd hr]
        simp; omega
      · simp only [List.nil_append, List.cons_append]
        rw [scan_cont (st' := .eSign) (by simp [act]), scan_cont (st' := .e0) (by
          simp only [act]; rw [if_pos (by rw [isDigit_iff]; omega)])]
        rw [scan_e0 hdd hr]
        simp; omega

theorem scan_dot0 {ds x : List Nat} (hd : Digits ds) (hx : IsExp x) {rest : List Nat} (hr : NumEnd rest)
    (pos start : Nat) (esc : Bool) :
    scan (ds ++ (x ++ rest)) pos .dot0 start esc true =
      .tok (refine .number esc true) start (pos + ds.length + x.length) := by
  induction ds generalizing pos with
  | nil => rw [List.nil_append, scan_exp hx hr _ _ _ _ (Or.inr (Or.inr rfl))]; simp
  | cons c ds ih =>
    have := hd c (by simp)
    rw [List.cons_append, scan_cont (st' := .dot0) (by simp [act, isDigit, this])]
    simp only [reduceCtorEq, decide_false, Bool.or_false]
    rw [ih (fun x hx => hd x (by simp [hx]))]; congr 1; simp only [List.length_cons]; omega

theorem scan_frac {f x : List Nat} (hf : IsFrac f) (hx : IsExp x) {rest : List Nat} (hr : NumEnd rest)
    (pos start : Nat) (esc : Bool) {st : TS} (hst : st = .s0 ∨ st = .s1) :
    scan (f ++ (x ++ rest)) pos st start esc false =
      .tok (refine .number esc (decide (f ++ x ≠ []))) start (pos + f.length + x.length) := by
  rcases hf with rfl | ⟨ds, rfl, hne, hd⟩
  · rw [List.nil_append, scan_exp hx hr _ _ _ _ (by rcases hst with h | h <;> simp [h])]; simp
  · have ha : act st 0x2E = .cont .dot := by rcases hst with rfl | rfl <;> simp [act, act0, isDigit]
    rw [List.cons_append, scan_cont ha]
    have hni : (false || decide (st = .dot) || decide (st = .e)) = false := by
      rcases hst with rfl | rfl <;> simp
    have hes : (esc || decide (st = .inStringEsc)) = esc := by
      rcases hst with rfl | rfl <;> simp
    rw [hni, hes]
    cases ds with
    | nil => exact absurd rfl hne
    | cons d ds =>
      have h1 := hd d (by simp)
      rw [List.cons_append, scan_cont (st' := .dot0) (by simp [act, isDigit, h1])]
      simp only [reduceCtorEq, decide_false, Bool.or_false, decide_true, Bool.or_true]
      rw [scan_dot0 (fun x hx => hd x (by simp [hx])) hx hr]
      simp; omega

theorem scan_s1 {ds f x : List Nat} (hd : Digits ds) (hf : IsFrac f) (hx : IsExp x) {rest : List Nat}
    (hr : NumEnd rest) (pos start : Nat) (esc : Bool) :
    scan (ds ++ (f ++ (x ++ rest))) pos .s1 start esc false =
      .tok (refine .number esc (decide (f ++ x ≠ []))) start (pos + ds.length + f.length + x.length) := by
  induction ds generalizing pos with
  | nil => rw [List.nil_append, scan_frac hf hx hr _ _ _ (Or.inr rfl)]; simp
  | cons c ds ih =>
    have := hd c (by simp)
    rw [List.cons_append, scan_cont (st' := .s1) (by simp [act, isDigit, this])]
    simp only [reduceCtorEq, decide_false, Bool.or_false]
    rw [ih (fun x hx => hd x (by simp [hx]))]; congr 1; simp only [List.length_cons]; omega

theorem scan_uint {u f x : List Nat} (hu : IsUInt u) (hf : IsFrac f) (hx : IsExp x) {rest : List Nat}
    (hr : NumEnd rest) (pos start : Nat) (esc : Bool) {st : TS} (hst : st = .beginValue ∨ st = .neg) :
    scan (u ++ (f ++ (x ++ rest))) pos st start esc false =
      .tok (refine .number esc (decide (f ++ x ≠ []))) start (pos + u.length + f.length + x.length) := by
  have hni : (false || decide (st = .dot) || decide (st = .e)) = false := by
    rcases hst with rfl | rfl <;> simp
  have hes : (esc || decide (st = .inStringEsc)) = esc := by
    rcases hst with rfl | rfl <;> simp
  rcases hu with rfl | ⟨c, ds, rfl, hc, hd⟩
  · have ha : act st 0x30 = .cont .s0 := by rcases hst with rfl | rfl <;> simp [act, actBeginValue, isSpace]
    rw [List.singleton_append, scan_cont ha, hni, hes, scan_frac hf hx hr _ _ _ (Or.inl rfl)]
    simp
  · have ha : act st c = .cont .s1 := by
      rcases hst with rfl | rfl
      · simp only [act, actBeginValue]
        rw [if_neg (by omega), if_neg (by omega), if_neg (by omega), if_neg (by omega), if_neg (by omega),
          if_neg (by omega), if_neg (by omega), if_neg (by omega), if_neg (by omega), if_neg (by omega),
          if_neg (by omega), if_neg (by omega), if_neg (by omega), if_pos (by rw [isDigit19_iff]; omega)]
      · simp only [act]; rw [if_neg (by omega), if_pos (by rw [isDigit19_iff]; omega)]
    rw [List.cons_append, scan_cont ha, hni, hes, scan_s1 hd hf hx hr]
    congr 1; simp only [List.length_cons]; omega

theorem scan_num {i f x : List Nat} (hi : IsInt i) (hf : IsFrac f) (hx : IsExp x) {rest : List Nat}
    (hr : NumEnd rest) (pos start : Nat) :
    scan (i ++ (f ++ (x ++ rest))) pos .beginValue start false false =
      .tok (refine .number false (decide (f ++ x ≠ []))) start (pos + i.length + f.length + x.length) := by
  rcases hi with hu | ⟨u, rfl, hu⟩
  · exact scan_uint hu hf hx hr _ _ _ (Or.inl rfl)
  · rw [List.cons_append, scan_cont (st' := .neg) (by simp [act, actBeginValue, isSpace])]
    simp only [reduceCtorEq, decide_false, Bool.or_false]
    rw [scan_uint hu hf hx hr _ _ _ (Or.inr rfl)]
    congr 1; simp only [List.length_cons]; omega

/-- Every token text is recognised with its class. -/
theorem scan_accepts {ty : Tok} {w : List Nat} (h : TokText ty w) {rest : List Nat} (hf : Follow ty rest)
    (pos : Nat) :
    scan (w ++ rest) pos .beginValue pos false false = .tok ty pos (pos + w.length) := by
  cases h with
  | string h =>
    rw [List.cons_append, scan_cont (st' := .inString) (by simp [act, actBeginValue, isSpace]),
      List.append_assoc]
    simp only [reduceCtorEq, decide_false, Bool.or_false, List.singleton_append]
    rw [scan_str h]; simp [refine]; omega
  | escString h =>
    rw [List.cons_append, scan_cont (st' := .inString) (by simp [act, actBeginValue, isSpace]),
      List.append_assoc]
    simp only [reduceCtorEq, decide_false, Bool.or_false, List.singleton_append]
    rw [scan_str h]; simp [refine]; omega
  | integer h =>
    have := scan_num h (f := []) (x := []) (Or.inl rfl) (Or.inl rfl) (rest := rest) (hf (Or.inl rfl)) pos pos
    simpa [refine] using this
  | @number i f x hi hff hx hn =>
    have := scan_num hi hff hx (rest := rest) (hf (Or.inr rfl)) pos pos
    rw [List.append_assoc, List.append_assoc, this]
    simp [refine, hn]; omega
  | _ => simp [scan, act, actBeginValue, isSpace, refine]

/-! ### Soundness -/

/-- Prefix that a string state stands for. -/
def strPre : TS → List Nat
  | .inStringEsc => [0x5C]
  | .inStringEscU => [0x5C, 0x75]
  | .inStringEscU1 => [0x5C, 0x75, 0x30]
  | .inStringEscU12 => [0x5C, 0x75, 0x30, 0x30]
  | .inStringEscU123 => [0x5C, 0x75, 0x30, 0x30, 0x30]
  | _ => []

def IsStrState : TS → Prop
  | .inString | .inStringEsc | .inStringEscU | .inStringEscU1 | .inStringEscU12 | .inStringEscU123 => True
  | _ => False

theorem hex0 : Hex 0x30 := by simp [Hex]

theorem StrBody.pre_true {b : List Nat} {e : Bool} (h : StrBody (0x5C :: b) e) : e = true := by
  cases h with
  | plain _ _ h3 _ => exact absurd rfl h3
  | esc _ _ => rfl
  | uni _ _ _ _ _ => rfl

theorem StrBody.uni_inv {a b c d : Nat} {w : List Nat} {e : Bool} (h : StrBody (0x5C :: 0x75 :: a :: b :: c :: d :: w) e) :
    Hex a ∧ Hex b ∧ Hex c ∧ Hex d ∧ ∃ e', StrBody w e' := by
  cases h with
  | plain _ _ h3 _ => exact absurd rfl h3
  | esc h1 _ => simp [EscChar] at h1
  | uni ha hb hc hd h => exact ⟨ha, hb, hc, hd, _, h⟩

/-- Replacing one hex digit of an escape by another keeps the text derivable. -/
theorem StrBody.hexes {a b c d a' b' c' d' : Nat} {w : List Nat} {e : Bool}
    (h : StrBody (0x5C :: 0x75 :: a :: b :: c :: d :: w) e) (ha : Hex a') (hb : Hex b') (hc : Hex c') (hd : Hex d') :
    StrBody (0x5C :: 0x75 :: a' :: b' :: c' :: d' :: w) true := by
  obtain ⟨_, _, _, _, e', h⟩ := h.uni_inv
  exact .uni ha hb hc hd h

theorem StrBody.uni_len {w : List Nat} {e : Bool} (h : StrBody (0x5C :: 0x75 :: w) e) :
    ∃ a b c d w', w = a :: b :: c :: d :: w' ∧ Hex a ∧ Hex b ∧ Hex c ∧ Hex d ∧ ∃ e', StrBody w' e' := by
  cases h with
  | plain _ _ h3 _ => exact absurd rfl h3
  | esc h1 _ => simp [EscChar] at h1
  | uni ha hb hc hd h => exact ⟨_, _, _, _, _, rfl, ha, hb, hc, hd, _, h⟩

theorem str_sound (rest : List Nat) : ∀ (pos : Nat) (st : TS) (start : Nat) (esc ni : Bool) (ty : Tok) (s e : Nat),
    scan rest pos st start esc ni = .tok ty s e → IsStrState st →
    (st ≠ .inString → st ≠ .inStringEsc → esc = true) →
    ∃ body rest' b, rest = body ++ 0x22 :: rest' ∧ s = start ∧ e = pos + body.length + 1 ∧
      StrBody (strPre st ++ body) b ∧ ty = refine .escString (esc || b) ni := by
  induction rest with
  | nil =>
    intro pos st start esc ni ty s e h hst _
    cases st <;> simp [scan, IsStrState] at h hst
  | cons c rest ih =>
    intro pos st start esc ni ty s e h hst hesc
    cases st <;> simp only [IsStrState] at hst
    case inString =>
      by_cases h1 : c = 0x22
      · subst h1
        rw [scan_done (ty := .escString) (by simp [act])] at h
        simp at h
        obtain ⟨rfl, rfl, rfl⟩ := h
        exact ⟨[], rest, false, by simp, rfl, by simp, .nil, by simp⟩
      · by_cases h2 : c = 0x5C
        · subst h2
          rw [scan_cont (st' := .inStringEsc) (by simp [act])] at h
          simp only [reduceCtorEq, decide_false, Bool.or_false] at h
          obtain ⟨body, rest', b, e1, e2, e3, e4, e5⟩ := ih _ _ _ _ _ _ _ _ h trivial (by simp)
          refine ⟨0x5C :: body, rest', b, by rw [e1]; rfl, e2, by simp only [List.length_cons]; omega, e4, e5⟩
        · by_cases h3 : c < 0x20
          · rw [scan_fail (by simp [act, h1, h2, h3])] at h; simp at h
          · rw [scan_cont (st' := .inString) (by simp [act, h1, h2]; omega)] at h
            simp only [reduceCtorEq, decide_false, Bool.or_false] at h
            obtain ⟨body, rest', b, e1, e2, e3, e4, e5⟩ := ih _ _ _ _ _ _ _ _ h trivial (by simp)
            refine ⟨c :: body, rest', b, by rw [e1]; rfl, e2, by simp only [List.length_cons]; omega,
              .plain (by omega) h1 h2 e4, e5⟩
    case inStringEsc =>
      by_cases h1 : EscChar c
      · rw [scan_cont (st' := .inString) (by simp only [act]; rw [if_pos]; unfold EscChar at h1; omega)] at h
        simp only [decide_true, Bool.or_true, reduceCtorEq, decide_false, Bool.or_false] at h
        obtain ⟨body, rest', b, e1, e2, e3, e4, e5⟩ := ih _ _ _ _ _ _ _ _ h trivial (by simp)
        refine ⟨c :: body, rest', true, by rw [e1]; rfl, e2, by simp only [List.length_cons]; omega,
          .esc h1 e4, by rw [e5]; simp⟩
      · by_cases h2 : c = 0x75
        · subst h2
          rw [scan_cont (st' := .inStringEscU) (by simp [act])] at h
          simp only [decide_true, Bool.or_true, reduceCtorEq, decide_false, Bool.or_false] at h
          obtain ⟨body, rest', b, e1, e2, e3, e4, e5⟩ := ih _ _ _ _ _ _ _ _ h trivial (by simp)
          refine ⟨0x75 :: body, rest', b, by rw [e1]; rfl, e2, by simp only [List.length_cons]; omega, e4, ?_⟩
          rw [e5, e4.pre_true]; simp
        · rw [scan_fail (by
            simp only [act]; rw [if_neg (by unfold EscChar at h1; omega), if_neg h2])] at h
          simp at h
    case inStringEscU =>
      have he := hesc (by simp) (by simp)
      by_cases h1 : isHex c = true
      · rw [scan_cont (st' := .inStringEscU1) (by simp [act, h1])] at h
        simp only [reduceCtorEq, decide_false, Bool.or_false] at h
        obtain ⟨body, rest', b, e1, e2, e3, e4, e5⟩ := ih _ _ _ _ _ _ _ _ h trivial (fun _ _ => he)
        obtain ⟨a', b', c', d', w', hw, ha, hb, hc, hd, e', hwb⟩ := StrBody.uni_len (w := 0x30 :: body) e4
        simp only [List.cons.injEq] at hw
        obtain ⟨rfl, rfl⟩ := hw
        exact ⟨c :: b' :: c' :: d' :: w', rest', true, by rw [e1]; rfl, e2,
          by simp only [List.length_cons] at e3 ⊢; omega, .uni ((isHex_iff c).1 h1) hb hc hd hwb, by rw [e5, he]; simp⟩
      · rw [scan_fail (by simp [act, h1])] at h; simp at h
    case inStringEscU1 =>
      have he := hesc (by simp) (by simp)
      by_cases h1 : isHex c = true
      · rw [scan_cont (st' := .inStringEscU12) (by simp [act, h1])] at h
        simp only [reduceCtorEq, decide_false, Bool.or_false] at h
        obtain ⟨body, rest', b, e1, e2, e3, e4, e5⟩ := ih _ _ _ _ _ _ _ _ h trivial (fun _ _ => he)
        obtain ⟨a', b', c', d', w', hw, ha, hb, hc, hd, e', hwb⟩ := StrBody.uni_len (w := 0x30 :: 0x30 :: body) e4
        simp only [List.cons.injEq] at hw
        obtain ⟨rfl, rfl, rfl⟩ := hw
        exact ⟨c :: c' :: d' :: w', rest', true, by rw [e1]; rfl, e2,
          by simp only [List.length_cons] at e3 ⊢; omega, .uni hex0 ((isHex_iff c).1 h1) hc hd hwb, by rw [e5, he]; simp⟩
      · rw [scan_fail (by simp [act, h1])] at h; simp at h
    case inStringEscU12 =>
      have he := hesc (by simp) (by simp)
      by_cases h1 : isHex c = true
      · rw [scan_cont (st' := .inStringEscU123) (by simp [act, h1])] at h
        simp only [reduceCtorEq, decide_false, Bool.or_false] at h
        obtain ⟨body, rest', b, e1, e2, e3, e4, e5⟩ := ih _ _ _ _ _ _ _ _ h trivial (fun _ _ => he)
        obtain ⟨a', b', c', d', w', hw, ha, hb, hc, hd, e', hwb⟩ :=
          StrBody.uni_len (w := 0x30 :: 0x30 :: 0x30 :: body) e4
        simp only [List.cons.injEq] at hw
        obtain ⟨rfl, rfl, rfl, rfl⟩ := hw
        exact ⟨c :: d' :: w', rest', true, by rw [e1]; rfl, e2,
          by simp only [List.length_cons] at e3 ⊢; omega, .uni hex0 hex0 ((isHex_iff c).1 h1) hd hwb, by rw [e5, he]; simp⟩
      · rw [scan_fail (by simp [act, h1])] at h; simp at h
    case inStringEscU123 =>
      have he := hesc (by simp) (by simp)
      by_cases h1 : isHex c = true
      · rw [scan_cont (st' := .inString) (by simp [act, h1])] at h
        simp only [reduceCtorEq, decide_false, Bool.or_false] at h
        obtain ⟨body, rest', b, e1, e2, e3, e4, e5⟩ := ih _ _ _ _ _ _ _ _ h trivial (by simp)
        exact ⟨c :: body, rest', true, by rw [e1]; rfl, e2,
          by simp only [List.length_cons] at e3 ⊢; omega, .uni hex0 hex0 hex0 ((isHex_iff c).1 h1) e4, by rw [e5, he]; simp⟩
      · rw [scan_fail (by simp [act, h1])] at h; simp at h

/-- Remaining text of a number from a number state. -/
def NumTail : TS → List Nat → Prop
  | .e0, w => Digits w
  | .eSign, w => Digits w ∧ w ≠ []
  | .e, w => ∃ sg ds, w = sg ++ ds ∧ (sg = [] ∨ sg = [0x2B] ∨ sg = [0x2D]) ∧ ds ≠ [] ∧ Digits ds
  | .dot0, w => ∃ ds x, w = ds ++ x ∧ Digits ds ∧ IsExp x
  | .dot, w => ∃ ds x, w = ds ++ x ∧ Digits ds ∧ ds ≠ [] ∧ IsExp x
  | .s0, w => ∃ f x, w = f ++ x ∧ IsFrac f ∧ IsExp x
  | .s1, w => ∃ ds f x, w = ds ++ (f ++ x) ∧ Digits ds ∧ IsFrac f ∧ IsExp x
  | .neg, w => ∃ u f x, w = u ++ (f ++ x) ∧ IsUInt u ∧ IsFrac f ∧ IsExp x
  | _, _ => False

/-- Is the number, read from this state with this text, not a plain integer? -/
def NonInt : TS → List Nat → Bool → Prop
  | .e0, _, b => b = false
  | .eSign, _, b => b = false
  | .e, _, b => b = true
  | .dot, _, b => b = true
  | .dot0, w, b => ∃ ds x, w = ds ++ x ∧ Digits ds ∧ IsExp x ∧ b = decide (x ≠ [])
  | .s0, w, b => b = decide (w ≠ [])
  | .s1, w, b => ∃ ds fx, w = ds ++ fx ∧ Digits ds ∧ (∃ f x, fx = f ++ x ∧ IsFrac f ∧ IsExp x) ∧ b = decide (fx ≠ [])
  | .neg, w, b => ∃ u fx, w = u ++ fx ∧ IsUInt u ∧ (∃ f x, fx = f ++ x ∧ IsFrac f ∧ IsExp x) ∧ b = decide (fx ≠ [])
  | _, _, _ => False

def IsNumState : TS → Prop
  | .e0 | .eSign | .e | .dot0 | .dot | .s0 | .s1 | .neg => True
  | _ => False

theorem Digits.cons {c : Nat} {w : List Nat} (h : isDigit c = true) (hw : Digits w) : Digits (c :: w) := by
  intro x hx
  simp only [List.mem_cons] at hx
  rcases hx with rfl | hx
  · exact (isDigit_iff x).1 h
  · exact hw x hx

theorem num_sound (rest : List Nat) : ∀ (pos : Nat) (st : TS) (start : Nat) (esc ni : Bool) (ty : Tok) (s e : Nat),
    scan rest pos st start esc ni = .tok ty s e → IsNumState st →
    ∃ w rest' b, rest = w ++ rest' ∧ s = start ∧ e = pos + w.length ∧ NonInt st w b ∧
      (st = .eSign ∨ st = .e0 ∨ st = .dot0 ∨ st = .s0 ∨ st = .s1 ∨ st = .neg ∨ st = .dot ∨ st = .e) ∧
      NumTail st w ∧ ty = refine .number esc (ni || b) := by
  induction rest with
  | nil =>
    intro pos st start esc ni ty s e h hst
    cases st <;> simp only [IsNumState] at hst <;> simp [scan] at h
    case s0 =>
      obtain ⟨rfl, rfl, rfl⟩ := h
      exact ⟨[], [], false, rfl, rfl, rfl, by simp [NonInt], by simp, ⟨[], [], rfl, Or.inl rfl, Or.inl rfl⟩, by simp⟩
    case s1 =>
      obtain ⟨rfl, rfl, rfl⟩ := h
      exact ⟨[], [], false, rfl, rfl, rfl, ⟨[], [], rfl, by simp [Digits], ⟨[], [], rfl, Or.inl rfl, Or.inl rfl⟩, by simp⟩,
        by simp, ⟨[], [], [], rfl, by simp [Digits], Or.inl rfl, Or.inl rfl⟩, by simp⟩
    case dot0 =>
      obtain ⟨rfl, rfl, rfl⟩ := h
      exact ⟨[], [], false, rfl, rfl, rfl, ⟨[], [], rfl, by simp [Digits], Or.inl rfl, by simp⟩, by simp,
        ⟨[], [], rfl, by simp [Digits], Or.inl rfl⟩, by simp⟩
    case e0 =>
      obtain ⟨rfl, rfl, rfl⟩ := h
      exact ⟨[], [], false, rfl, rfl, rfl, rfl, by simp, by simp [NumTail, Digits], by simp⟩
  | cons c rest ih =>
    intro pos st start esc ni ty s e h hst
    cases st <;> simp only [IsNumState] at hst
    case e0 =>
      by_cases hd : isDigit c = true
      · rw [scan_cont (st' := .e0) (by simp [act, hd])] at h
        simp only [reduceCtorEq, decide_false, Bool.or_false] at h
        obtain ⟨w, rest', b, e1, e2, e3, e4, _, e5, e6⟩ := ih _ _ _ _ _ _ _ _ h trivial
        exact ⟨c :: w, rest', b, by rw [e1]; rfl, e2, by simp only [List.length_cons]; omega, e4, by simp,
          Digits.cons hd e5, e6⟩
      · rw [scan_rewind (by simp [act, hd])] at h
        simp at h
        obtain ⟨rfl, rfl, rfl⟩ := h
        exact ⟨[], _, false, rfl, rfl, rfl, rfl, by simp, by simp [NumTail, Digits], by simp⟩
    case eSign =>
      by_cases hd : isDigit c = true
      · rw [scan_cont (st' := .e0) (by simp [act, hd])] at h
        simp only [reduceCtorEq, decide_false, Bool.or_false] at h
        obtain ⟨w, rest', b, e1, e2, e3, e4, _, e5, e6⟩ := ih _ _ _ _ _ _ _ _ h trivial
        exact ⟨c :: w, rest', b, by rw [e1]; rfl, e2, by simp only [List.length_cons]; omega, e4, by simp,
          ⟨Digits.cons hd e5, by simp⟩, e6⟩
      · rw [scan_fail (by simp [act, hd])] at h; simp at h
    case e =>
      by_cases hs : c = 0x2B ∨ c = 0x2D
      · rw [scan_cont (st' := .eSign) (by simp only [act]; rw [if_pos (by omega)])] at h
        simp only [reduceCtorEq, decide_false, Bool.or_false, decide_true, Bool.or_true] at h
        obtain ⟨w, rest', b, e1, e2, e3, e4, _, e5, e6⟩ := ih _ _ _ _ _ _ _ _ h trivial
        refine ⟨c :: w, rest', true, by rw [e1]; rfl, e2, by simp only [List.length_cons]; omega, rfl, by simp,
          ⟨[c], w, rfl, ?_, e5.2, e5.1⟩, by rw [e6]; simp⟩
        rcases hs with rfl | rfl <;> simp
      · by_cases hd : isDigit c = true
        · rw [scan_cont (st' := .e0) (by simp only [act]; rw [if_neg (by omega), if_pos hd])] at h
          simp only [reduceCtorEq, decide_false, Bool.or_false, decide_true, Bool.or_true] at h
          obtain ⟨w, rest', b, e1, e2, e3, e4, _, e5, e6⟩ := ih _ _ _ _ _ _ _ _ h trivial
          exact ⟨c :: w, rest', true, by rw [e1]; rfl, e2, by simp only [List.length_cons]; omega, rfl, by simp,
            ⟨[], c :: w, rfl, Or.inl rfl, by simp, Digits.cons hd e5⟩, by rw [e6]; simp⟩
        · rw [scan_fail (by simp only [act]; rw [if_neg (by omega), if_neg hd])] at h; simp at h
    case dot0 =>
      by_cases hd : isDigit c = true
      · rw [scan_cont (st' := .dot0) (by simp [act, hd])] at h
        simp only [reduceCtorEq, decide_false, Bool.or_false] at h
        obtain ⟨w, rest', b, e1, e2, e3, e4, _, e5, e6⟩ := ih _ _ _ _ _ _ _ _ h trivial
        obtain ⟨ds, x, hw, hds, hx⟩ := e5
        obtain ⟨ds', x', hw', hds', hx', hb⟩ := e4
        exact ⟨c :: w, rest', b, by rw [e1]; rfl, e2, by simp only [List.length_cons]; omega,
          ⟨c :: ds', x', by rw [hw']; rfl, Digits.cons hd hds', hx', hb⟩, by simp,
          ⟨c :: ds, x, by rw [hw]; rfl, Digits.cons hd hds, hx⟩, e6⟩
      · by_cases he : c = 0x65 ∨ c = 0x45
        · rw [scan_cont (st' := .e) (by simp only [act]; rw [if_neg hd, if_pos (by omega)])] at h
          simp only [reduceCtorEq, decide_false, Bool.or_false] at h
          obtain ⟨w, rest', b, e1, e2, e3, e4, _, e5, e6⟩ := ih _ _ _ _ _ _ _ _ h trivial
          obtain ⟨sg, ds, hw, hsg, hne, hds⟩ := e5
          have hexp : IsExp (c :: w) := Or.inr ⟨c, sg, ds, by rw [hw], he, hsg, hne, hds⟩
          have hb : b = true := e4
          exact ⟨c :: w, rest', true, by rw [e1]; rfl, e2, by simp only [List.length_cons]; omega,
            ⟨[], c :: w, rfl, by simp [Digits], hexp, by simp⟩, by simp,
            ⟨[], c :: w, rfl, by simp [Digits], hexp⟩, by rw [e6, hb]⟩
        · rw [scan_rewind (by simp only [act]; rw [if_neg hd, if_neg (by omega)])] at h
          simp at h
          obtain ⟨rfl, rfl, rfl⟩ := h
          exact ⟨[], _, false, rfl, rfl, rfl, ⟨[], [], rfl, by simp [Digits], Or.inl rfl, by simp⟩, by simp,
            ⟨[], [], rfl, by simp [Digits], Or.inl rfl⟩, by simp⟩
    case dot =>
      by_cases hd : isDigit c = true
      · rw [scan_cont (st' := .dot0) (by simp [act, hd])] at h
        simp only [reduceCtorEq, decide_false, Bool.or_false, decide_true, Bool.or_true] at h
        obtain ⟨w, rest', b, e1, e2, e3, e4, _, e5, e6⟩ := ih _ _ _ _ _ _ _ _ h trivial
        obtain ⟨ds, x, hw, hds, hx⟩ := e5
        exact ⟨c :: w, rest', true, by rw [e1]; rfl, e2, by simp only [List.length_cons]; omega, rfl, by simp,
          ⟨c :: ds, x, by rw [hw]; rfl, Digits.cons hd hds, by simp, hx⟩, by rw [e6]; simp⟩
      · rw [scan_fail (by simp [act, hd])] at h; simp at h
    case s0 =>
      by_cases hdot : c = 0x2E
      · subst hdot
        rw [scan_cont (st' := .dot) (by simp [act, act0])] at h
        simp only [reduceCtorEq, decide_false, Bool.or_false] at h
        obtain ⟨w, rest', b, e1, e2, e3, e4, _, e5, e6⟩ := ih _ _ _ _ _ _ _ _ h trivial
        obtain ⟨ds, x, hw, hds, hne, hx⟩ := e5
        have hb : b = true := e4
        exact ⟨0x2E :: w, rest', true, by rw [e1]; rfl, e2, by simp only [List.length_cons]; omega, by simp [NonInt], by simp,
          ⟨0x2E :: ds, x, by rw [hw]; rfl, Or.inr ⟨ds, rfl, hne, hds⟩, hx⟩, by rw [e6, hb]⟩
      · by_cases he : c = 0x65 ∨ c = 0x45
        · rw [scan_cont (st' := .e) (by simp only [act, act0]; rw [if_neg hdot, if_pos (by omega)])] at h
          simp only [reduceCtorEq, decide_false, Bool.or_false] at h
          obtain ⟨w, rest', b, e1, e2, e3, e4, _, e5, e6⟩ := ih _ _ _ _ _ _ _ _ h trivial
          obtain ⟨sg, ds, hw, hsg, hne, hds⟩ := e5
          have hexp : IsExp (c :: w) := Or.inr ⟨c, sg, ds, by rw [hw], he, hsg, hne, hds⟩
          have hb : b = true := e4
          exact ⟨c :: w, rest', true, by rw [e1]; rfl, e2, by simp only [List.length_cons]; omega, by simp [NonInt], by simp,
            ⟨[], c :: w, rfl, Or.inl rfl, hexp⟩, by rw [e6, hb]⟩
        · rw [scan_rewind (by simp only [act, act0]; rw [if_neg hdot, if_neg (by omega)])] at h
          simp at h
          obtain ⟨rfl, rfl, rfl⟩ := h
          exact ⟨[], _, false, rfl, rfl, rfl, by simp [NonInt], by simp, ⟨[], [], rfl, Or.inl rfl, Or.inl rfl⟩, by simp⟩
    case s1 =>
      by_cases hd : isDigit c = true
      · rw [scan_cont (st' := .s1) (by simp [act, hd])] at h
        simp only [reduceCtorEq, decide_false, Bool.or_false] at h
        obtain ⟨w, rest', b, e1, e2, e3, e4, _, e5, e6⟩ := ih _ _ _ _ _ _ _ _ h trivial
        obtain ⟨ds, f, x, hw, hds, hf, hx⟩ := e5
        obtain ⟨ds', fx', hw', hds', hfx', hb⟩ := e4
        exact ⟨c :: w, rest', b, by rw [e1]; rfl, e2, by simp only [List.length_cons]; omega,
          ⟨c :: ds', fx', by rw [hw']; rfl, Digits.cons hd hds', hfx', hb⟩, by simp,
          ⟨c :: ds, f, x, by rw [hw]; rfl, Digits.cons hd hds, hf, hx⟩, e6⟩
      · by_cases hdot : c = 0x2E
        · subst hdot
          rw [scan_cont (st' := .dot) (by simp [act, act0, isDigit])] at h
          simp only [reduceCtorEq, decide_false, Bool.or_false] at h
          obtain ⟨w, rest', b, e1, e2, e3, e4, _, e5, e6⟩ := ih _ _ _ _ _ _ _ _ h trivial
          obtain ⟨ds, x, hw, hds, hne, hx⟩ := e5
          have hb : b = true := e4
          exact ⟨0x2E :: w, rest', true, by rw [e1]; rfl, e2, by simp only [List.length_cons]; omega,
            ⟨[], 0x2E :: w, rfl, by simp [Digits], ⟨0x2E :: ds, x, by rw [hw]; rfl, Or.inr ⟨ds, rfl, hne, hds⟩, hx⟩, by simp⟩,
            by simp, ⟨[], 0x2E :: ds, x, by rw [hw]; rfl, by simp [Digits], Or.inr ⟨ds, rfl, hne, hds⟩, hx⟩, by rw [e6, hb]⟩
        · by_cases he : c = 0x65 ∨ c = 0x45
          · rw [scan_cont (st' := .e) (by simp only [act, act0]; rw [if_neg hd, if_neg hdot, if_pos (by omega)])] at h
            simp only [reduceCtorEq, decide_false, Bool.or_false] at h
            obtain ⟨w, rest', b, e1, e2, e3, e4, _, e5, e6⟩ := ih _ _ _ _ _ _ _ _ h trivial
            obtain ⟨sg, ds, hw, hsg, hne, hds⟩ := e5
            have hexp : IsExp (c :: w) := Or.inr ⟨c, sg, ds, by rw [hw], he, hsg, hne, hds⟩
            have hb : b = true := e4
            exact ⟨c :: w, rest', true, by rw [e1]; rfl, e2, by simp only [List.length_cons]; omega,
              ⟨[], c :: w, rfl, by simp [Digits], ⟨[], c :: w, rfl, Or.inl rfl, hexp⟩, by simp⟩, by simp,
              ⟨[], [], c :: w, rfl, by simp [Digits], Or.inl rfl, hexp⟩, by rw [e6, hb]⟩
          · rw [scan_rewind (by simp only [act, act0]; rw [if_neg hd, if_neg hdot, if_neg (by omega)])] at h
            simp at h
            obtain ⟨rfl, rfl, rfl⟩ := h
            exact ⟨[], _, false, rfl, rfl, rfl, ⟨[], [], rfl, by simp [Digits], ⟨[], [], rfl, Or.inl rfl, Or.inl rfl⟩, by simp⟩,
              by simp, ⟨[], [], [], rfl, by simp [Digits], Or.inl rfl, Or.inl rfl⟩, by simp⟩
    case neg =>
      by_cases h0 : c = 0x30
      · subst h0
        rw [scan_cont (st' := .s0) (by simp [act])] at h
        simp only [reduceCtorEq, decide_false, Bool.or_false] at h
        obtain ⟨w, rest', b, e1, e2, e3, e4, _, e5, e6⟩ := ih _ _ _ _ _ _ _ _ h trivial
        have hb : b = decide (w ≠ []) := e4
        obtain ⟨f, x, hw, hf, hx⟩ := e5
        exact ⟨0x30 :: w, rest', b, by rw [e1]; rfl, e2, by simp only [List.length_cons]; omega,
          ⟨[0x30], w, rfl, Or.inl rfl, ⟨f, x, hw, hf, hx⟩, hb⟩, by simp,
          ⟨[0x30], f, x, by rw [hw]; rfl, Or.inl rfl, hf, hx⟩, e6⟩
      · by_cases hd : isDigit19 c = true
        · rw [scan_cont (st' := .s1) (by simp only [act]; rw [if_neg h0, if_pos hd])] at h
          simp only [reduceCtorEq, decide_false, Bool.or_false] at h
          obtain ⟨w, rest', b, e1, e2, e3, e4, _, e5, e6⟩ := ih _ _ _ _ _ _ _ _ h trivial
          obtain ⟨ds, f, x, hw, hds, hf, hx⟩ := e5
          obtain ⟨ds', fx', hw', hds', hfx', hb⟩ := e4
          exact ⟨c :: w, rest', b, by rw [e1]; rfl, e2, by simp only [List.length_cons]; omega,
            ⟨c :: ds', fx', by rw [hw']; rfl, Or.inr ⟨c, ds', rfl, (isDigit19_iff c).1 hd, hds'⟩, hfx', hb⟩, by simp,
            ⟨c :: ds, f, x, by rw [hw]; rfl, Or.inr ⟨c, ds, rfl, (isDigit19_iff c).1 hd, hds⟩, hf, hx⟩, e6⟩
        · rw [scan_fail (by simp only [act]; rw [if_neg h0, if_neg hd])] at h; simp at h

/-- From a number text with its class flag to the grammar. -/
theorem numText {u fx : List Nat} {b : Bool} (hi : IsInt u)
    (hfx : ∃ f x, fx = f ++ x ∧ IsFrac f ∧ IsExp x) (hb : b = decide (fx ≠ [])) :
    TokText (refine .number false b) (u ++ fx) := by
  obtain ⟨f, x, rfl, hf, hx⟩ := hfx
  by_cases h : f ++ x = []
  · subst hb; simp only [h]; simpa [refine] using TokText.integer hi
  · have hd : b = true := by rw [hb]; exact decide_eq_true h
    subst hd
    have : refine .number false true = .number := rfl
    rw [this, ← List.append_assoc]; exact .number hi hf hx h

/-- What a successful scan has read. -/
theorem scan_sound (rest : List Nat) : ∀ (pos : Nat) (ty : Tok) (s e : Nat),
    scan rest pos .beginValue pos false false = .tok ty s e →
    ∃ ws w rest', rest = ws ++ (w ++ rest') ∧ IsWs ws ∧ s = pos + ws.length ∧ e = s + w.length ∧
      ((ty = .end_ ∧ w = [] ∧ rest' = []) ∨ TokText ty w) := by
  induction rest with
  | nil =>
    intro pos ty s e h
    simp [scan] at h
    obtain ⟨rfl, rfl, rfl⟩ := h
    exact ⟨[], [], [], rfl, by simp [IsWs], rfl, rfl, Or.inl ⟨rfl, rfl, rfl⟩⟩
  | cons c rest ih =>
    intro pos ty s e h
    -- whitespace
    by_cases hsp : isSpace c = true
    · have hc := (isSpace_iff c).1 hsp
      rw [scan_skip (by simp only [act, actBeginValue]; rw [if_pos ⟨by omega, hsp⟩])] at h
      simp only [reduceCtorEq, decide_false, Bool.or_self] at h
      obtain ⟨ws, w, rest', e1, e2, e3, e4, e5⟩ := ih _ _ _ _ h
      refine ⟨c :: ws, w, rest', by rw [e1]; rfl, ?_, by simp only [List.length_cons]; omega, e4, e5⟩
      intro x hx
      simp only [List.mem_cons] at hx
      rcases hx with rfl | hx
      · exact hc
      · exact e2 x hx
    · have punct : ∀ (ty' : Tok) (n : Nat), act .beginValue c = .done ty' → refine ty' false false = ty' →
          c = n → TokText ty' [n] →
          ∃ ws w rest', c :: rest = ws ++ (w ++ rest') ∧ IsWs ws ∧ s = pos + ws.length ∧ e = s + w.length ∧
            ((ty = .end_ ∧ w = [] ∧ rest' = []) ∨ TokText ty w) := by
        intro ty' n ha hr hcn ht
        rw [scan_done ha] at h
        simp [hr] at h
        obtain ⟨rfl, rfl, rfl⟩ := h
        exact ⟨[], [c], rest, rfl, by simp [IsWs], rfl, rfl, Or.inr (by rw [hcn]; exact ht)⟩
      by_cases h1 : c = 123
      · exact punct .objectStart 0x7B (by simp [act, actBeginValue, h1, isSpace]) rfl h1 .objectStart
      by_cases h2 : c = 125
      · exact punct .objectEnd 0x7D (by simp [act, actBeginValue, h2, isSpace]) rfl h2 .objectEnd
      by_cases h3 : c = 58
      · exact punct .objectKeyDelim 0x3A (by simp [act, actBeginValue, h3, isSpace]) rfl h3 .keyDelim
      by_cases h4 : c = 91
      · exact punct .arrayStart 0x5B (by simp [act, actBeginValue, h4, isSpace]) rfl h4 .arrayStart
      by_cases h5 : c = 93
      · exact punct .arrayEnd 0x5D (by simp [act, actBeginValue, h5, isSpace]) rfl h5 .arrayEnd
      by_cases h6 : c = 44
      · exact punct .listDelim 0x2C (by simp [act, actBeginValue, h6, isSpace]) rfl h6 .listDelim
      by_cases h7 : c = 34
      · subst h7
        rw [scan_cont (st' := .inString) (by simp [act, actBeginValue, isSpace])] at h
        simp only [reduceCtorEq, decide_false, Bool.or_self] at h
        obtain ⟨body, rest', b, e1, e2, e3, e4, e5⟩ := str_sound _ _ _ _ _ _ _ _ _ h trivial (by simp)
        refine ⟨[], 0x22 :: (body ++ [0x22]), rest', by rw [e1]; simp, by simp [IsWs], by simp [e2],
          by simp only [List.length_cons, List.length_append, List.length_nil]; omega, Or.inr ?_⟩
        simp only [strPre, List.nil_append] at e4
        cases b with
        | true => rw [e5]; simpa [refine] using TokText.escString e4
        | false => rw [e5]; simpa [refine] using TokText.string e4
      by_cases h8 : c = 45
      · subst h8
        rw [scan_cont (st' := .neg) (by simp [act, actBeginValue, isSpace])] at h
        simp only [reduceCtorEq, decide_false, Bool.or_self] at h
        obtain ⟨w, rest', b, e1, e2, e3, e4, _, e5, e6⟩ := num_sound _ _ _ _ _ _ _ _ _ h trivial
        obtain ⟨u, fx, hw, hu, hfx, hb⟩ := e4
        refine ⟨[], 0x2D :: w, rest', by rw [e1]; simp, by simp [IsWs], by simp [e2],
          by simp only [List.length_cons]; omega, Or.inr ?_⟩
        rw [e6, hw]
        have := numText (u := 0x2D :: u) (Or.inr ⟨u, rfl, hu⟩) hfx hb
        simpa using this
      by_cases h9 : c = 48
      · subst h9
        rw [scan_cont (st' := .s0) (by simp [act, actBeginValue, isSpace])] at h
        simp only [reduceCtorEq, decide_false, Bool.or_self] at h
        obtain ⟨w, rest', b, e1, e2, e3, e4, _, e5, e6⟩ := num_sound _ _ _ _ _ _ _ _ _ h trivial
        refine ⟨[], 0x30 :: w, rest', by rw [e1]; simp, by simp [IsWs], by simp [e2],
          by simp only [List.length_cons]; omega, Or.inr ?_⟩
        rw [e6]
        have := numText (u := [0x30]) (Or.inl (Or.inl rfl)) e5 e4
        simpa using this
      by_cases h10 : c = 116
      · subst h10
        rw [scan_cont (st' := .t) (by simp [act, actBeginValue, isSpace])] at h
        rcases rest with _ | ⟨c1, _ | ⟨c2, _ | ⟨c3, rest'⟩⟩⟩
        · simp [scan] at h
        · by_cases g1 : c1 = 114 <;> simp [scan, act, g1] at h
        · simp only [scan, act] at h
          by_cases g1 : c1 = 114
          · by_cases g2 : c2 = 117 <;> simp [g1, g2] at h
          · simp [g1] at h
        · by_cases g1 : c1 = 114
          · by_cases g2 : c2 = 117
            · by_cases g3 : c3 = 101
              · subst g1 g2 g3
                simp [scan, act, refine] at h
                obtain ⟨rfl, rfl, rfl⟩ := h
                exact ⟨[], [0x74, 0x72, 0x75, 0x65], rest', rfl, by simp [IsWs], rfl, rfl, Or.inr .tru⟩
              · simp [scan, act, g1, g2, g3] at h
            · simp [scan, act, g1, g2] at h
          · simp [scan, act, g1] at h
      by_cases h11 : c = 102
      · subst h11
        rw [scan_cont (st' := .f) (by simp [act, actBeginValue, isSpace])] at h
        rcases rest with _ | ⟨c1, _ | ⟨c2, _ | ⟨c3, _ | ⟨c4, rest'⟩⟩⟩⟩
        · simp [scan] at h
        · by_cases g1 : c1 = 97 <;> simp [scan, act, g1] at h
        · by_cases g1 : c1 = 97
          · by_cases g2 : c2 = 108 <;> simp [scan, act, g1, g2] at h
          · simp [scan, act, g1] at h
        · by_cases g1 : c1 = 97
          · by_cases g2 : c2 = 108
            · by_cases g3 : c3 = 115 <;> simp [scan, act, g1, g2, g3] at h
            · simp [scan, act, g1, g2] at h
          · simp [scan, act, g1] at h
        · by_cases g1 : c1 = 97
          · by_cases g2 : c2 = 108
            · by_cases g3 : c3 = 115
              · by_cases g4 : c4 = 101
                · subst g1 g2 g3 g4
                  simp [scan, act, refine] at h
                  obtain ⟨rfl, rfl, rfl⟩ := h
                  exact ⟨[], [0x66, 0x61, 0x6C, 0x73, 0x65], rest', rfl, by simp [IsWs], rfl, rfl, Or.inr .fals⟩
                · simp [scan, act, g1, g2, g3, g4] at h
              · simp [scan, act, g1, g2, g3] at h
            · simp [scan, act, g1, g2] at h
          · simp [scan, act, g1] at h
      by_cases h12 : c = 110
      · subst h12
        rw [scan_cont (st' := .n) (by simp [act, actBeginValue, isSpace])] at h
        rcases rest with _ | ⟨c1, _ | ⟨c2, _ | ⟨c3, rest'⟩⟩⟩
        · simp [scan] at h
        · by_cases g1 : c1 = 117 <;> simp [scan, act, g1] at h
        · by_cases g1 : c1 = 117
          · by_cases g2 : c2 = 108 <;> simp [scan, act, g1, g2] at h
          · simp [scan, act, g1] at h
        · by_cases g1 : c1 = 117
          · by_cases g2 : c2 = 108
            · by_cases g3 : c3 = 108
              · subst g1 g2 g3
                simp [scan, act, refine] at h
                obtain ⟨rfl, rfl, rfl⟩ := h
                exact ⟨[], [0x6E, 0x75, 0x6C, 0x6C], rest', rfl, by simp [IsWs], rfl, rfl, Or.inr .null⟩
              · simp [scan, act, g1, g2, g3] at h
            · simp [scan, act, g1, g2] at h
          · simp [scan, act, g1] at h
      by_cases h13 : isDigit19 c = true
      · have ha : act .beginValue c = .cont .s1 := by
          simp only [act, actBeginValue]
          rw [if_neg (fun h => hsp h.2), if_neg h1, if_neg h2, if_neg h3, if_neg h4, if_neg h5, if_neg h6, if_neg h7,
            if_neg h8, if_neg h9, if_neg h10, if_neg h11, if_neg h12, if_pos h13]
        rw [scan_cont ha] at h
        simp only [reduceCtorEq, decide_false, Bool.or_self] at h
        obtain ⟨w, rest', b, e1, e2, e3, e4, _, e5, e6⟩ := num_sound _ _ _ _ _ _ _ _ _ h trivial
        obtain ⟨ds, fx, hw, hds, hfx, hb⟩ := e4
        refine ⟨[], c :: w, rest', by rw [e1]; simp, by simp [IsWs], by simp [e2],
          by simp only [List.length_cons]; omega, Or.inr ?_⟩
        rw [e6, hw]
        have := numText (u := c :: ds) (Or.inl (Or.inr ⟨c, ds, rfl, (isDigit19_iff c).1 h13, hds⟩)) hfx hb
        simpa using this
      · have ha : act .beginValue c = .fail := by
          simp only [act, actBeginValue]
          rw [if_neg (fun h => hsp h.2), if_neg h1, if_neg h2, if_neg h3, if_neg h4, if_neg h5, if_neg h6, if_neg h7,
            if_neg h8, if_neg h9, if_neg h10, if_neg h11, if_neg h12, if_neg h13]
        rw [scan_fail ha] at h; simp at h

end Verif.Token
