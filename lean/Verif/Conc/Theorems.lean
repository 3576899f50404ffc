import Verif.Conc.Model

/-!
# C39: goroutines that compare values at the same time
-/

namespace Verif.Conc
open Verif.FastVal

variable {E : Ext} {α : Type}

/-! ### The jobs are the comparisons -/

theorem toJsonStringInternal_string {d : Data E} (h : d.ty.isString = true) :
    d.toJsonStringInternal = (d.toJsonString.1, true) ∧ d.toJsonString.2 = true := by
  cases d <;> first | exact ⟨rfl, rfl⟩ | cases h

theorem toJsonStringInternal_num {d : Data E} {w : List Nat} (h : numText d = some w) :
    d.toJsonStringInternal = (.jsonStr w, true) ∧ d.ty.isNumeric = true := by
  cases d <;> first | (cases h; exact ⟨rfl, rfl⟩) | cases h

theorem internalJob_result (a b : FV E) (neg : Bool) :
    (internalJob a b neg).result = if neg then ((compareInternal a b).1 * -1, (compareInternal a b).2) else compareInternal a b := by
  unfold internalJob
  split
  · rename_i w h1 h2
    obtain ⟨k1, _⟩ := toJsonStringInternal_string h1
    obtain ⟨k2, k3⟩ := toJsonStringInternal_num h2
    have hc : compareInternal a b = (cmpBytes a.d.toJsonString.1.slice w, true) := by
      have h0 : compareInternal a b = compareStrings a b := by
        unfold compareInternal
        generalize a.d.ty = t at h1
        cases t <;> first | rfl | cases h1
      rw [h0, compareStrings, k1, k2, k3]
      simp [Data.slice]
    rw [hc, Job.result]
    cases neg <;> rfl
  · rfl

/-- Exactly the numbers that are not JSON texts are written to the shared buffer. -/
theorem C39_converted (d : Data E) : (∃ w, numText d = some w) ↔ d.ty = .uint ∨ d.ty = .int ∨ d.ty = .float := by
  cases d <;> simp [numText, Data.ty]

/-- A string compared with such a number uses the buffer. -/
theorem C39_uses_buffer (a b : FV E) (neg : Bool) (h : a.d.ty.isString = true) (h' : b.d.ty = .uint ∨ b.d.ty = .int ∨ b.d.ty = .float) :
    ∃ t w, internalJob a b neg = .conv t w neg := by
  obtain ⟨w, hw⟩ := (C39_converted b.d).2 h'
  unfold internalJob
  rw [h, hw]
  exact ⟨_, w, rfl⟩

example : ∃ t w, internalJob (E := demoExt) ⟨.str [49], true⟩ ⟨.int 1#64, true⟩ false = .conv t w false :=
  C39_uses_buffer _ _ _ rfl (Or.inr (Or.inl rfl))

/-- A comparison gives the result of its job. -/
theorem jobOf_result (a b : FV E) : (jobOf a b).result = compare a b := by
  have hr : ∀ x y : FV E, (internalJob x y true).result = reverseCompare y x := by
    intro x y; rw [internalJob_result]; rfl
  have hi : ∀ x y : FV E, (internalJob x y false).result = compareInternal x y := by
    intro x y; rw [internalJob_result]; rfl
  have hp : ∀ r, (Job.pure r).result = r := fun _ => rfl
  unfold jobOf Verif.FastVal.compare compareUserDefined
  cases hu : a.user <;> cases hv : b.user <;>
    simp only [Bool.or_true, Bool.or_false, Bool.false_eq_true, if_true, if_false, apply_ite Job.result, hr, hi, hp]

/-- A comparison converts a number only if one side is a string and the other a number. -/
theorem jobOf_pure (a b : FV E) (h : ¬ (a.d.ty.isString = true ∧ b.d.ty.isNumeric = true)) (h' : ¬ (b.d.ty.isString = true ∧ a.d.ty.isNumeric = true)) :
    jobOf a b = .pure (compare a b) := by
  have hi : ∀ (x y : FV E) (neg : Bool), ¬ (x.d.ty.isString = true ∧ y.d.ty.isNumeric = true) → ∃ r, internalJob x y neg = .pure r := by
    intro x y neg hn
    unfold internalJob
    split
    · rename_i w h1 h2
      exact absurd ⟨h1, (toJsonStringInternal_num h2).2⟩ hn
    · exact ⟨_, rfl⟩
  have : ∃ r, jobOf a b = .pure r := by
    obtain ⟨r1, e1⟩ := hi a b false h
    obtain ⟨r2, e2⟩ := hi b a true h'
    unfold jobOf
    rw [e1, e2]
    repeat' split
    all_goals exact ⟨_, rfl⟩
  obtain ⟨r, hr⟩ := this
  have h2 := jobOf_result a b
  rw [hr] at h2 ⊢
  rw [← h2]
  rfl

/-! ### One goroutine that converts -/

/-- What a goroutine that is not disturbed will return. -/
def owes : Th α → α
  | .run p => p.eval
  | .cut j _ k | .read _ j _ k | .wrote _ j _ k | .stored j _ k | .got _ j _ k => (k j.result).eval

/-- A goroutine finds in memory what it left there. -/
def Good (m : Mem) : Th α → Prop
  | .run _ => m.g.block < m.blocks.length
  | .cut j w _ => m.g.block < m.blocks.length ∧ m.g.len = 0 ∧ j.result = j.with w
  | .read h j w _ => m.g.block < m.blocks.length ∧ h.block < m.blocks.length ∧ h.len = 0 ∧ j.result = j.with w
  | .wrote h j w _ => m.g.block < m.blocks.length ∧ h.block < m.blocks.length ∧ m.read h = w ∧ j.result = j.with w
  | .stored j w _ => m.g.block < m.blocks.length ∧ m.read m.g = w ∧ j.result = j.with w
  | .got h j w _ => m.g.block < m.blocks.length ∧ m.read h = w ∧ j.result = j.with w

/-- `append` as Go defines it: the result holds the old contents and the new bytes, and no array changes its capacity or, before the end of
the slice, its contents. -/
theorem append_spec (m : Mem) (spare : Nat) (h : Hdr) (w : List Nat) (hb : h.block < m.blocks.length)
    (hl : h.len ≤ (m.blocks.getD h.block []).length) :
    (m.append spare h w).1.read (m.append spare h w).2 = m.read h ++ w ∧
    ∀ b, b < m.blocks.length → ((m.append spare h w).1.blocks.getD b []).length = (m.blocks.getD b []).length ∧
      ((m.append spare h w).1.blocks.getD b []).take (if b = h.block then h.len else (m.blocks.getD b []).length) =
        (m.blocks.getD b []).take (if b = h.block then h.len else (m.blocks.getD b []).length) := by
  have hrl : (m.read h).length = h.len := by simp only [Mem.read, List.length_take]; omega
  unfold Mem.append
  split
  · rename_i hc
    refine ⟨?_, ?_⟩
    · simp only [Mem.read, List.getD_eq_getElem?_getD, List.getElem?_set_self hb, Option.getD_some] at hrl ⊢
      rw [List.take_append_of_le_length (by simp [hrl])]
      rw [List.take_of_length_le (by simp [hrl])]
    · intro b hlt
      by_cases hbb : b = h.block
      · subst hbb
        simp only [List.getD_eq_getElem?_getD, List.getElem?_set_self hb, Option.getD_some, if_true] at hc hl hrl ⊢
        refine ⟨by simp [hrl]; omega, ?_⟩
        rw [List.append_assoc, List.take_append_of_le_length (by omega), List.take_of_length_le (by omega)]
        simp [Mem.read, List.getD_eq_getElem?_getD]
      · simp only [List.getD_eq_getElem?_getD, List.getElem?_set_ne (Ne.symm hbb)]
        exact ⟨trivial, trivial⟩
  · refine ⟨?_, ?_⟩
    · simp only [Mem.read, List.getD_eq_getElem?_getD] at hrl ⊢
      rw [List.getElem?_append_right (Nat.le_refl _)]
      simp only [Nat.sub_self, List.getElem?_cons_zero, Option.getD_some]
      rw [List.take_append_of_le_length (by simp [hrl]), List.take_of_length_le (by simp [hrl])]
    · intro b hlt
      simp only [List.getD_eq_getElem?_getD, List.getElem?_append_left hlt]
      exact ⟨trivial, trivial⟩

theorem append_read (m : Mem) (spare : Nat) (h : Hdr) (w : List Nat) (hb : h.block < m.blocks.length) (hl : h.len = 0) :
    (m.append spare h w).1.read (m.append spare h w).2 = w ∧ (m.append spare h w).2.block < (m.append spare h w).1.blocks.length ∧
    m.blocks.length ≤ (m.append spare h w).1.blocks.length ∧ (m.append spare h w).1.g = m.g := by
  have hr : m.read h = [] := by rw [Mem.read, hl]; rfl
  unfold Mem.append
  rw [hr, hl]
  split
  · refine ⟨?_, ?_, ?_, rfl⟩
    · simp [Mem.read, hb]
    · simpa using hb
    · simp
  · refine ⟨?_, ?_, ?_, rfl⟩
    · simp [Mem.read]
    · simp
    · simp

theorem step_good {spare : Nat} {m : Mem} {t : Th α} (h : Good m t) : Good (step spare m t).1 (step spare m t).2 ∧
    owes (step spare m t).2 = owes t := by
  cases t with
  | run p =>
    cases p with
    | ret a => exact ⟨h, rfl⟩
    | cmp j k =>
      cases j with
      | pure r => exact ⟨h, rfl⟩
      | conv a w neg => exact ⟨⟨h, rfl, rfl⟩, rfl⟩
  | cut j w k => exact ⟨⟨h.1, h.1, h.2⟩, rfl⟩
  | read x j w k =>
    obtain ⟨h1, h2, h3, h4⟩ := h
    obtain ⟨k1, k2, k3, k4⟩ := append_read m spare x w h2 h3
    exact ⟨⟨by show (m.append spare x w).1.g.block < _; rw [k4]; exact Nat.lt_of_lt_of_le h1 k3, k2, k1, h4⟩, rfl⟩
  | wrote x j w k => exact ⟨⟨h.2.1, h.2.2.1, h.2.2.2⟩, rfl⟩
  | stored j w k => exact ⟨h, rfl⟩
  | got x j w k =>
    refine ⟨h.1, ?_⟩
    show (k (j.with (m.read x))).eval = (k j.result).eval
    rw [h.2.1, h.2.2]

/-- A program that does not convert. -/
theorem step_noConv {spare : Nat} {m : Mem} {p : Prog α} (h : p.NoConv) : ∃ p', step spare m (.run p) = (m, .run p') ∧ p'.NoConv ∧
    p'.eval = p.eval := by
  cases p with
  | ret a => exact ⟨_, rfl, trivial, rfl⟩
  | cmp j k =>
    cases j with
    | pure r => exact ⟨_, rfl, h r, rfl⟩
    | conv a w neg => exact h.elim

/-- The state while at most goroutine `c` converts. -/
structure Calm (c : Nat) (p : Nat → Prog α) (s : Sys α) : Prop where
  conv : Good s.mem (s.th c)
  owes : ∀ i, owes (s.th i) = (p i).eval
  quiet : ∀ i, i ≠ c → ∃ q, s.th i = .run q ∧ q.NoConv

theorem calm_step {c : Nat} {p : Nat → Prog α} {s : Sys α} (h : Calm c p s) (spare i : Nat) : Calm c p (s.step spare i) := by
  by_cases hi : i = c
  · subst hi
    obtain ⟨h1, h2⟩ := step_good (spare := spare) h.conv
    refine ⟨?_, ?_, ?_⟩
    · show Good _ (if i = i then _ else _)
      rw [if_pos rfl]; exact h1
    · intro k
      show Conc.owes (if k = i then _ else _) = _
      by_cases hk : k = i
      · rw [if_pos hk, h2, hk]; exact h.owes i
      · rw [if_neg hk]; exact h.owes k
    · intro k hk
      obtain ⟨q, h3, h4⟩ := h.quiet k hk
      refine ⟨q, ?_, h4⟩
      show (if k = i then _ else _) = _
      rw [if_neg hk]; exact h3
  · obtain ⟨q, h3, h4⟩ := h.quiet i hi
    obtain ⟨q', e1, e2, e3⟩ := step_noConv (spare := spare) (m := s.mem) h4
    have hs : Conc.step spare s.mem (s.th i) = (s.mem, .run q') := by rw [h3]; exact e1
    refine ⟨?_, ?_, ?_⟩
    · show Good (Conc.step spare s.mem (s.th i)).1 (if c = i then _ else _)
      rw [if_neg (fun h0 => hi h0.symm), hs]; exact h.conv
    · intro k
      show Conc.owes (if k = i then _ else _) = _
      by_cases hk : k = i
      · rw [if_pos hk, hs, hk, ← h.owes i, h3]; exact e3
      · rw [if_neg hk]; exact h.owes k
    · intro k hk
      by_cases hki : k = i
      · refine ⟨q', ?_, e2⟩
        show (if k = i then _ else _) = _
        rw [if_pos hki, hs]
      · obtain ⟨q2, h5, h6⟩ := h.quiet k hk
        refine ⟨q2, ?_, h6⟩
        show (if k = i then _ else _) = _
        rw [if_neg hki]; exact h5

theorem calm_exec {c : Nat} {p : Nat → Prog α} : ∀ (l : List (Nat × Nat)) (s : Sys α), Calm c p s → Calm c p (Sys.exec l s)
  | [], _, h => h
  | (i, spare) :: l, s, h => calm_exec l _ (calm_step h spare i)

/-- C39 if at most one goroutine (`c`) converts numbers to strings: under every schedule, a goroutine that has finished has the
result it has when running alone.  (Missing: two goroutines that convert, for which it is false, see `C39_negation`.) -/
theorem C39_one_converter_partial (p : Nat → Prog α) (c : Nat) (h : ∀ i, i ≠ c → (p i).NoConv) (l : List (Nat × Nat)) (i : Nat) (a : α)
    (hf : (Sys.exec l (start p)).th i = .run (.ret a)) : a = (p i).eval := by
  have h0 : Calm c p (start p) := ⟨by show 0 < 1; omega, fun _ => rfl, fun i hi => ⟨p i, rfl, h i hi⟩⟩
  have := (calm_exec l _ h0).owes i
  rw [hf] at this
  exact this

/-- Every step that is not waiting for anything makes progress: running alone, a goroutine finishes. -/
theorem finishes (c : Nat) : ∀ (q : Prog α) (s : Sys α), s.th c = .run q → ∃ l a, (Sys.exec l s).th c = .run (.ret a)
  | .ret a, s, h => ⟨[], a, h⟩
  | .cmp (.pure r) k, s, h => by
    obtain ⟨l, a, hl⟩ := finishes c (k r) (s.step 0 c) (by
      show (if c = c then _ else _) = _
      rw [if_pos rfl, h]; rfl)
    exact ⟨(c, 0) :: l, a, hl⟩
  | .cmp (.conv x w neg) k, s, h => by
    have one : ∀ (s : Sys α) t, s.th c = t → (s.step 0 c).th c = (Conc.step 0 s.mem t).2 := by
      intro s t ht
      show (if c = c then _ else _) = _
      rw [if_pos rfl, ht]
    have h1 := one s _ h
    have h2 := one _ _ h1
    have h3 := one _ _ h2
    have h4 := one _ _ h3
    have h5 := one _ _ h4
    have h6 := one _ _ h5
    obtain ⟨l, a, hl⟩ := finishes c _ _ h6
    exact ⟨(c, 0) :: (c, 0) :: (c, 0) :: (c, 0) :: (c, 0) :: (c, 0) :: l, a, hl⟩

/-! ### Two goroutines that convert -/

/-- Comparing a string with a number. -/
def cmpOnce (a b : FV E) : Prog Int := .cmp (jobOf a b) (fun r => .ret r.1)

/-- Goroutine 0 compares the string constant `"1"` with the number 1, the others compare `"2"` with 2. -/
def demoProgs (i : Nat) : Prog Int :=
  if i = 0 then cmpOnce (E := demoExt) ⟨.jsonStr [49], true⟩ ⟨.int 1, false⟩ else cmpOnce (E := demoExt) ⟨.jsonStr [50], true⟩ ⟨.int 2, false⟩

/-- The full statement of C39 is false: goroutine 1 converts its number while goroutine 0 is about to compare, and goroutine 0
finds that `"1"` and 1 differ. -/
theorem C39_negation : ∃ (l : List (Nat × Nat)) (a : Int), (Sys.exec l (start demoProgs)).th 0 = .run (.ret a) ∧
    (demoProgs 0).eval = 0 ∧ a ≠ 0 := by
  refine ⟨[(0, 8), (0, 8), (0, 8), (0, 8), (0, 8), (1, 8), (1, 8), (1, 8), (0, 8)], -1, rfl, rfl, by decide⟩

/-- One goroutine converts, the other compares numbers. -/
def demoCalm (i : Nat) : Prog Int :=
  if i = 0 then cmpOnce (E := demoExt) ⟨.jsonStr [49], true⟩ ⟨.int 1, false⟩ else cmpOnce (E := demoExt) ⟨.int 3, true⟩ ⟨.int 2, false⟩

example : ∃ l a, (Sys.exec l (start demoCalm)).th 0 = .run (.ret a) ∧ a = 0 := by
  obtain ⟨l, a, h⟩ := finishes 0 (demoCalm 0) (start demoCalm) rfl
  refine ⟨l, a, h, C39_one_converter_partial demoCalm 0 ?_ l 0 a h⟩
  intro i hi
  rw [demoCalm, if_neg hi, cmpOnce, jobOf_pure _ _ (by decide) (by decide)]
  exact fun _ => trivial

end Verif.Conc
