import Verif.FastVal.Model

/-!
# Comparison of values: C17, C18, C19
-/

namespace Verif.FastVal

variable {E : Ext}

/-! ### C17 -/

/-- The integer a value of an integer kind stands for. -/
inductive Denotes : Data E → Int → Prop where
  | int (v : BitVec 64) : Denotes (.int v) v.toInt
  | uint (v : BitVec 64) : Denotes (.uint v) v.toNat

/-- Sign of a mathematical integer. -/
def sgn (z : Int) : Int := if z < 0 then -1 else if 0 < z then 1 else 0

theorem cmp3_eq_sgn (x y : Int) : cmp3 x y = sgn (x - y) := by
  unfold cmp3 sgn
  split
  · rw [if_pos (by omega)]
  · split
    · rw [if_neg (by omega), if_pos (by omega)]
    · rw [if_neg (by omega), if_neg (by omega)]

theorem neg_cmp3 (x y : Int) : cmp3 x y * -1 = cmp3 y x := by
  unfold cmp3
  by_cases h1 : x < y
  · rw [if_pos h1, if_neg (by omega), if_pos (by omega)]; rfl
  · by_cases h2 : y < x
    · rw [if_neg h1, if_pos h2, if_pos h2]; rfl
    · rw [if_neg h1, if_neg h2, if_neg h2, if_neg h1]; rfl

theorem toInt_cond (v : BitVec 64) :
    v.toInt = if 2 * v.toNat < 2 ^ 64 then (v.toNat : Int) else (v.toNat : Int) - 2 ^ 64 := by
  simpa using BitVec.toInt_eq_toNat_cond v

/-- The value comparison as a function of operand numbers: signed against unsigned. -/
theorem int_uint_internal (u u' : Bool) (x y : BitVec 64) :
    compareInternal (E := E) ⟨.int x, u⟩ ⟨.uint y, u'⟩ =
      if x.toInt ≥ 0 then (if x.toInt > 0 then (cmp3 x.toNat y.toNat, true) else (cmp3 0 y.toNat, false))
      else (cmp3 x.toInt y.toInt, decide (y.toNat ≤ maxInt64)) := by
  simp only [compareInternal, Data.ty, compareNumerics, Ty.isInt, Ty.isUInt, Ty.isFloat, Data.asInt, compareUint,
    compareInt, Data.asUint]
  simp
  split
  · split <;> rfl
  · rfl

theorem uint_int_internal (u u' : Bool) (x y : BitVec 64) :
    compareInternal (E := E) ⟨.uint y, u⟩ ⟨.int x, u'⟩ =
      if y.toInt ≥ 0 then (if x.toInt > 0 then (cmp3 y.toNat x.toNat, true) else (cmp3 y.toNat 0, false))
      else (cmp3 y.toInt x.toInt, decide (y.toNat ≤ maxInt64)) := by
  simp only [compareInternal, Data.ty, compareNumerics, Ty.isInt, Ty.isUInt, Ty.isFloat, Data.asInt, compareUint,
    compareInt, Data.asUint]
  simp
  split
  · split <;> rfl
  · rfl

theorem int_int_internal (u u' : Bool) (x y : BitVec 64) :
    compareInternal (E := E) ⟨.int x, u⟩ ⟨.int y, u'⟩ = (cmp3 x.toInt y.toInt, true) := by
  simp [compareInternal, Data.ty, compareNumerics, Ty.isInt, Ty.isUInt, Ty.isFloat, Data.asInt, compareInt]

theorem uint_uint_internal (u u' : Bool) (x y : BitVec 64) :
    compareInternal (E := E) ⟨.uint x, u⟩ ⟨.uint y, u'⟩ = (cmp3 x.toNat y.toNat, true) := by
  simp [compareInternal, Data.ty, compareNumerics, Ty.isInt, Ty.isUInt, Ty.isFloat, Data.asUint, compareUint]

theorem compat_same (a b : Data E) (h : sameType a.ty b.ty = true) : checkCompat a b = true := by
  simp [checkCompat, h]

theorem compat_uint_int (x y : BitVec 64) :
    checkCompat (E := E) (.uint y) (.int x) = decide (x.toInt > 0) := by
  simp only [checkCompat, sameType, Data.ty, Ty.isString, conv, Data.asUint]
  simp
  split <;> simp_all

theorem compat_int_uint (x y : BitVec 64) : checkCompat (E := E) (.int x) (.uint y) = true := by
  simp [checkCompat, sameType, Data.ty, Ty.isString, conv]

/-- Two values of the same type: `Compare` is the type's own comparison, whichever operand is user supplied. -/
theorem compare_same (a b : FV E) (h : sameType a.d.ty b.d.ty = true) :
    compare a b = if a.user || !b.user then compareInternal a b else reverseCompare a b := by
  have h' : sameType b.d.ty a.d.ty = true := by
    simp only [sameType, Bool.or_eq_true, Bool.and_eq_true, decide_eq_true_eq] at h ⊢
    rcases h with h | h
    · exact Or.inl h.symm
    · exact Or.inr ⟨h.2, h.1⟩
  rcases ha : a.user <;> rcases hb : b.user <;>
    simp [compare, compareUserDefined, ha, hb, h, compat_same _ _ h, compat_same _ _ h']

/-- The two integer comparisons with mixed signedness, by user flags. -/
theorem compare_int_uint (u u' : Bool) (x y : BitVec 64) :
    compare (E := E) ⟨.int x, u⟩ ⟨.uint y, u'⟩ =
      if u || (!u' && !decide (x.toInt > 0)) then compareInternal (E := E) ⟨.int x, u⟩ ⟨.uint y, u'⟩
      else reverseCompare (E := E) ⟨.int x, u⟩ ⟨.uint y, u'⟩ := by
  cases u <;> cases u' <;>
    simp [compare, compareUserDefined, compat_int_uint, compat_uint_int, sameType, Data.ty, Ty.isString, Ty.rank,
      Ty.isNumeric, Ty.isInt, Ty.isUInt, Ty.isFloat]

theorem compare_uint_int (u u' : Bool) (x y : BitVec 64) :
    compare (E := E) ⟨.uint y, u⟩ ⟨.int x, u'⟩ =
      if decide (x.toInt > 0) && !(!u && u') then compareInternal (E := E) ⟨.uint y, u⟩ ⟨.int x, u'⟩
      else reverseCompare (E := E) ⟨.uint y, u⟩ ⟨.int x, u'⟩ := by
  by_cases h : 0 < x.toInt <;> cases u <;> cases u' <;>
    simp [compare, compareUserDefined, compat_int_uint, compat_uint_int, sameType, Data.ty, Ty.isString, Ty.rank,
      Ty.isNumeric, Ty.isInt, Ty.isUInt, Ty.isFloat, h]

/-- C17, full statement (false, see `C17_mixed_counterexample`): every comparison of integers is valid and is the sign of
the difference. -/
def C17Statement (E : Ext) : Prop :=
  ∀ (a b : FV E) (x y : Int), Denotes a.d x → Denotes b.d y → compare a b = (sgn (x - y), true)

/-- C17: same signedness: valid and exact, whichever side is user supplied. -/
theorem C17_same_sign (u u' : Bool) (x y : BitVec 64) :
    compare (E := E) ⟨.int x, u⟩ ⟨.int y, u'⟩ = (sgn (x.toInt - y.toInt), true) ∧
    compare (E := E) ⟨.uint x, u⟩ ⟨.uint y, u'⟩ = (sgn ((x.toNat : Int) - y.toNat), true) := by
  constructor
  · rw [compare_same _ _ (by simp [sameType, Data.ty])]
    simp only [reverseCompare, int_int_internal, neg_cmp3, ite_self]
    rw [cmp3_eq_sgn]
  · rw [compare_same _ _ (by simp [sameType, Data.ty])]
    simp only [reverseCompare, uint_uint_internal, neg_cmp3, ite_self]
    rw [cmp3_eq_sgn]

/-- C17 (what holds of the full statement): whenever a comparison of two integers, of any signedness and origin, is
reported valid, its result is the sign of the mathematical difference. -/
theorem C17_valid_is_exact_partial (a b : FV E) (x y : Int) (ha : Denotes a.d x) (hb : Denotes b.d y)
    (hv : (compare a b).2 = true) : (compare a b).1 = sgn (x - y) := by
  obtain ⟨da, u⟩ := a
  obtain ⟨db, u'⟩ := b
  rw [← cmp3_eq_sgn]
  cases ha with
  | int v =>
    cases hb with
    | int w => rw [(C17_same_sign u u' v w).1, ← cmp3_eq_sgn]
    | uint w =>
      have hw := w.isLt
      have hv' := v.isLt
      have e1 := toInt_cond v
      have e2 := toInt_cond w
      rw [compare_int_uint] at hv ⊢
      simp only [reverseCompare, int_uint_internal, uint_int_internal] at hv ⊢
      split at hv <;> rename_i hc
      · rw [if_pos hc]
        split at hv
        · split at hv
          · rename_i h1 h2
            rw [if_pos h1, if_pos h2]
            have : v.toInt = v.toNat := by rw [e1]; split <;> omega
            simp only [this]
          · exact absurd hv (by simp)
        · rename_i h1
          rw [if_neg h1]
          have hm : w.toNat ≤ maxInt64 := of_decide_eq_true hv
          simp only [maxInt64] at hm
          have : w.toInt = w.toNat := by rw [e2]; split <;> omega
          simp only [this]
      · rw [if_neg hc]
        split at hv
        · split at hv
          · rename_i h1 h2
            rw [if_pos h1, if_pos h2]
            have : v.toInt = v.toNat := by rw [e1]; split <;> omega
            simp only [this, neg_cmp3]
          · exact absurd hv (by simp)
        · rename_i h1
          rw [if_neg h1]
          have hm : w.toNat ≤ maxInt64 := of_decide_eq_true hv
          simp only [maxInt64] at hm
          have : w.toInt = w.toNat := by rw [e2]; split <;> omega
          simp only [this, neg_cmp3]
  | uint w =>
    cases hb with
    | uint v => rw [(C17_same_sign u u' w v).2, ← cmp3_eq_sgn]
    | int v =>
      have hw := w.isLt
      have hv' := v.isLt
      have e1 := toInt_cond v
      have e2 := toInt_cond w
      rw [compare_uint_int] at hv ⊢
      simp only [reverseCompare, int_uint_internal, uint_int_internal] at hv ⊢
      split at hv <;> rename_i hc
      · rw [if_pos hc]
        split at hv
        · split at hv
          · rename_i h1 h2
            rw [if_pos h1, if_pos h2]
            have : v.toInt = v.toNat := by rw [e1]; split <;> omega
            simp only [this]
          · exact absurd hv (by simp)
        · rename_i h1
          rw [if_neg h1]
          have hm : w.toNat ≤ maxInt64 := of_decide_eq_true hv
          simp only [maxInt64] at hm
          have : w.toInt = w.toNat := by rw [e2]; split <;> omega
          simp only [this]
      · rw [if_neg hc]
        split at hv
        · split at hv
          · rename_i h1 h2
            rw [if_pos h1, if_pos h2]
            have : v.toInt = v.toNat := by rw [e1]; split <;> omega
            simp only [this, neg_cmp3]
          · exact absurd hv (by simp)
        · rename_i h1
          rw [if_neg h1]
          have hm : w.toNat ≤ maxInt64 := of_decide_eq_true hv
          simp only [maxInt64] at hm
          have : w.toInt = w.toNat := by rw [e2]; split <;> omega
          simp only [this, neg_cmp3]

example : compare (E := E) ⟨.int (BitVec.ofInt 64 (-7)), false⟩ ⟨.uint 3, false⟩ = (-1, true) := by
  rw [compare_int_uint, int_uint_internal]; rfl

/-- C17: document values of mixed signedness compare validly exactly if the signed one is not zero and the unsigned one
fits `int64`. -/
theorem C17_mixed_valid_iff (x y : BitVec 64) :
    ((compare (E := E) ⟨.int x, false⟩ ⟨.uint y, false⟩).2 = true ↔ x ≠ 0#64 ∧ y.toNat < 2 ^ 63) ∧
    ((compare (E := E) ⟨.uint y, false⟩ ⟨.int x, false⟩).2 = true ↔ x ≠ 0#64 ∧ y.toNat < 2 ^ 63) := by
  have hy := y.isLt
  have hx := x.isLt
  have e1 := toInt_cond x
  have e2 := toInt_cond y
  have h0 : x ≠ 0#64 ↔ x.toInt ≠ 0 := by
    rw [Ne, Ne, ← BitVec.toInt_inj]; simp
  rw [compare_int_uint, compare_uint_int]
  simp only [reverseCompare, int_uint_internal, uint_int_internal, h0, maxInt64]
  have e3 : y.toInt ≥ 0 ↔ y.toNat < 2 ^ 63 := by rw [e2]; split <;> omega
  clear e1 e2
  by_cases hp : x.toInt > 0
  · by_cases hyb : y.toNat < 2 ^ 63
    · have : y.toInt ≥ 0 := e3.2 hyb
      simp [hp, this, hyb]; intro h; rw [h] at hp; exact absurd hp (by decide)
    · have : ¬ y.toInt ≥ 0 := fun h => hyb (e3.1 h)
      simp [hp, this, hyb]; exact decide_eq_false (by omega)
  · by_cases hn : x.toInt ≥ 0
    · have : x.toInt = 0 := by omega
      simp [this]
    · simp only [hn, hp]; simp; exact decide_eq_true_iff.trans (by omega)

/-- C17, negation of the full statement: zero against an unsigned value is reported invalid, and a large unsigned value
is reported smaller than a small signed one. -/
theorem C17_mixed_counterexample :
    compare (E := E) ⟨.int 0, false⟩ ⟨.uint 0, false⟩ = (0, false) ∧
    equals (E := E) ⟨.int 0, false⟩ ⟨.uint 0, false⟩ = (false, false) ∧
    compare (E := E) ⟨.int 5, false⟩ ⟨.uint (BitVec.ofNat 64 (2 ^ 63)), false⟩ = (1, false) := by
  have h : compare (E := E) ⟨.int 0, false⟩ ⟨.uint 0, false⟩ = (0, false) := by
    rw [compare_int_uint, int_uint_internal]; rfl
  refine ⟨h, ?_, ?_⟩
  · unfold equals; rw [h]; rfl
  · rw [compare_int_uint]; simp only [reverseCompare, uint_int_internal]; rfl

theorem C17_full_statement_false (E : Ext) : ¬ C17Statement E := by
  intro h
  have := h ⟨.int 0, false⟩ ⟨.uint 0, false⟩ _ _ (.int 0) (.uint 0)
  rw [C17_mixed_counterexample.1] at this
  simp at this

/-! ### C18 -/

/-- Facts about IEEE-754 comparison used below. -/
structure FloatLaws (E : Ext) : Prop where
  lt_asymm : ∀ x y, E.lt x y = true → E.lt y x = false
  dist_symm : ∀ x y, E.lt (E.abs (E.sub x y)) E.eps = E.lt (E.abs (E.sub y x)) E.eps

/-- Facts about `time.Time.Equal` and `After`. -/
structure TimeLaws (E : Ext) : Prop where
  refl : ∀ s, E.timeEq s s = true
  eq_symm : ∀ s t, E.timeEq s t = E.timeEq t s
  total : ∀ s t, E.timeEq s t = false → E.timeAfter s t = !E.timeAfter t s

/-- The operands swapped. -/
def Anti (r s : Int × Bool) : Prop := s = (r.1 * -1, r.2)

theorem Anti.symm {r s : Int × Bool} (h : Anti r s) : Anti s r := by
  unfold Anti at *
  subst h
  ext
  · show r.1 = r.1 * -1 * -1
    omega
  · rfl

theorem anti_cmp3 (x y : Int) (v w : Bool) : Anti (cmp3 x y, v && w) (cmp3 y x, w && v) := by
  simp only [Anti, neg_cmp3, Bool.and_comm]

theorem anti_float (hF : FloatLaws E) (a b : Data E) : Anti (compareFloat a b) (compareFloat b a) := by
  unfold compareFloat Anti
  simp only
  generalize a.asFloat = p
  generalize b.asFloat = q
  obtain ⟨x, v⟩ := p
  obtain ⟨y, w⟩ := q
  simp only
  rcases hx : E.isNaN x <;> rcases hy : E.isNaN y <;> simp
  rw [hF.dist_symm y x]
  rcases hd : E.lt (E.abs (E.sub x y)) E.eps
  · rcases h1 : E.lt x y <;> rcases h2 : E.lt y x <;> simp [Bool.and_comm]
    exact absurd (hF.lt_asymm x y h1) (by simp [h2])
  · simp [Bool.and_comm]

theorem cmpBytes_anti : ∀ s t : List Nat, cmpBytes s t * -1 = cmpBytes t s
  | [], [] => rfl
  | [], _ :: _ => rfl
  | _ :: _, [] => rfl
  | a :: as, b :: bs => by
    simp only [cmpBytes]
    by_cases h1 : a < b
    · rw [if_pos h1, if_neg (by omega), if_pos h1]; rfl
    · by_cases h2 : b < a
      · rw [if_neg h1, if_pos h2, if_pos h2]; rfl
      · rw [if_neg h1, if_neg h2, if_neg h2, if_neg h1]; exact cmpBytes_anti as bs

theorem cmpSameLen_anti : ∀ s t : List Nat, cmpSameLen s t * -1 = cmpSameLen t s
  | [], [] => rfl
  | [], _ :: _ => rfl
  | _ :: _, [] => rfl
  | a :: as, b :: bs => by
    simp only [cmpSameLen]
    by_cases h1 : a < b
    · rw [if_neg (by omega), if_pos h1, if_pos h1]; rfl
    · by_cases h2 : b < a
      · rw [if_pos h2, if_neg (by omega), if_pos h2]; rfl
      · rw [if_neg h2, if_neg h1, if_neg h1, if_neg h2]; exact cmpSameLen_anti as bs

theorem anti_strings (a b : FV E) (ha : a.d.ty.isString = true) (hb : b.d.ty.isString = true) :
    Anti (compareStrings a b) (compareStrings b a) := by
  simp only [compareStrings, ha, hb, Bool.true_or, if_pos, Anti]
  rw [cmpBytes_anti, Bool.and_comm]

theorem anti_time (hT : TimeLaws E) (a b : Data E) : Anti (compareTime a b) (compareTime b a) := by
  unfold compareTime Anti
  rcases a.asTime with _ | s <;> rcases b.asTime with _ | t <;> try rfl
  simp only
  rw [hT.eq_symm t s]
  rcases he : E.timeEq s t
  · have := hT.total s t he
    rcases h1 : E.timeAfter s t <;> rcases h2 : E.timeAfter t s <;> simp_all
  · rfl

theorem anti_objarr (a b : Data E) (h : a.ty = b.ty) (ho : a.ty = .arr ∨ a.ty = .obj) :
    Anti (compareObjArr a b) (compareObjArr b a) := by
  have ho' : b.ty = .arr ∨ b.ty = .obj := h ▸ ho
  unfold compareObjArr Anti
  rw [if_pos ho, if_pos ho']
  by_cases h1 : a.slice.length > b.slice.length
  · rw [if_pos h1, if_neg (by omega), if_pos h1]; rfl
  · by_cases h2 : a.slice.length < b.slice.length
    · rw [if_pos h2, if_neg h1, if_pos h2]; rfl
    · rw [if_neg h1, if_neg h2, if_neg h2, if_neg h1]
      simp only [cmpSameLen_anti]

theorem anti_collate (a b : Data E) : Anti (collate a b) (collate b a) := by
  have hinj : ∀ s t : Ty, s.rank = t.rank → s = t := by
    intro s t; cases s <;> cases t <;> simp [Ty.rank]
  unfold collate Anti
  by_cases h : a.ty = b.ty
  · rw [if_pos h, if_pos h.symm]; rfl
  · have : a.ty.rank ≠ b.ty.rank := fun e => h (hinj _ _ e)
    rw [if_neg h, if_neg (fun e => h e.symm)]
    by_cases h1 : a.ty.rank < b.ty.rank
    · rw [if_pos h1, if_neg (by omega)]; rfl
    · rw [if_neg h1, if_pos (by omega)]; rfl

theorem anti_int (a b : Data E) (ha : a.ty.isInt = true) (hb : b.ty.isInt = true) :
    Anti (compareInt a b) (compareInt b a) := by
  cases a <;> simp [Ty.isInt, Data.ty] at ha <;> cases b <;> simp [Ty.isInt, Data.ty] at hb <;>
    simp only [compareInt] <;> exact anti_cmp3 _ _ _ _

theorem internal_float (a b : FV E) (ha : a.d.ty.isNumeric = true)
    (h : a.d.ty.isFloat = true ∨ b.d.ty.isFloat = true) : compareInternal a b = compareFloat a.d b.d := by
  obtain ⟨da, u⟩ := a
  obtain ⟨db, u'⟩ := b
  cases da <;> simp [Ty.isNumeric, Ty.isInt, Ty.isUInt, Ty.isFloat, Data.ty] at ha h <;> try rfl
  all_goals rcases h with h | h <;>
    simp [compareInternal, Data.ty, compareNumerics, Ty.isInt, Ty.isUInt, Ty.isFloat, h]
  all_goals cases db <;> simp at h <;> simp

theorem internal_int (a b : FV E) (ha : a.d.ty.isInt = true) (hb : b.d.ty.isInt = true) :
    compareInternal a b = compareInt a.d b.d := by
  obtain ⟨da, u⟩ := a
  obtain ⟨db, u'⟩ := b
  cases da <;> simp [Ty.isInt, Data.ty] at ha <;> cases db <;> simp [Ty.isInt, Data.ty] at hb <;> rfl

theorem internal_uint (a b : FV E) (ha : a.d.ty.isUInt = true) (hb : b.d.ty.isUInt = true) :
    compareInternal a b = compareUint a.d b.d := by
  obtain ⟨da, u⟩ := a
  obtain ⟨db, u'⟩ := b
  cases da <;> simp [Ty.isUInt, Data.ty] at ha <;> cases db <;> simp [Ty.isUInt, Data.ty] at hb <;> rfl

/-- Numbers of the same signedness, or of which one is a float, compare antisymmetrically. -/
theorem anti_numeric (hF : FloatLaws E) (a b : FV E) (ha : a.d.ty.isNumeric = true) (hb : b.d.ty.isNumeric = true)
    (h : (a.d.ty.isFloat = true ∨ b.d.ty.isFloat = true) ∨ (a.d.ty.isInt = true ∧ b.d.ty.isInt = true) ∨
      (a.d.ty.isUInt = true ∧ b.d.ty.isUInt = true)) :
    Anti (compareInternal a b) (compareInternal b a) := by
  rcases h with h | h | h
  · rw [internal_float a b ha h, internal_float b a hb h.symm]; exact anti_float hF _ _
  · rw [internal_int a b h.1 h.2, internal_int b a h.2 h.1]; exact anti_int _ _ h.1 h.2
  · rw [internal_uint a b h.1 h.2, internal_uint b a h.2 h.1]; exact anti_cmp3 _ _ _ _

theorem anti_internal_same (hF : FloatLaws E) (hT : TimeLaws E) (a b : FV E)
    (h : sameType a.d.ty b.d.ty = true) : Anti (compareInternal a b) (compareInternal b a) := by
  by_cases hs : a.d.ty.isString = true
  · have hsb : b.d.ty.isString = true := by
      simp only [sameType, Bool.or_eq_true, Bool.and_eq_true, decide_eq_true_eq] at h
      rcases h with h | h
      · exact h ▸ hs
      · exact h.2
    have e : ∀ x y : FV E, x.d.ty.isString = true → compareInternal x y = compareStrings x y := by
      intro x y hx
      obtain ⟨dx, ux⟩ := x
      cases dx <;> simp [Ty.isString, Data.ty] at hx <;> rfl
    rw [e _ _ hs, e _ _ hsb]
    exact anti_strings a b hs hsb
  · have ht : a.d.ty = b.d.ty := by
      simp only [sameType, Bool.or_eq_true, Bool.and_eq_true, decide_eq_true_eq] at h
      rcases h with h | h
      · exact h
      · exact absurd h.1 hs
    obtain ⟨da, u⟩ := a
    obtain ⟨db, u'⟩ := b
    cases da <;> cases db <;> first | (exfalso; simp [Data.ty] at ht; done) | skip
    all_goals first
      | exact anti_collate _ _
      | exact anti_numeric hF _ _ rfl rfl (Or.inl (Or.inl rfl))
      | exact anti_numeric hF _ _ rfl rfl (Or.inr (Or.inl ⟨rfl, rfl⟩))
      | exact anti_numeric hF _ _ rfl rfl (Or.inr (Or.inr ⟨rfl, rfl⟩))
      | (rename_i x y; exact anti_objarr (.arr x) (.arr y) rfl (Or.inl rfl))
      | (rename_i x y; exact anti_objarr (.obj x) (.obj y) rfl (Or.inr rfl))
      | (rename_i x y; exact anti_time hT (.time x) (.time y))
      | rfl
      | (exfalso; simp [Data.ty, Ty.isString] at hs; done)

/-- A user-supplied unsigned value against a signed value that is not positive (or does not parse). -/
def MixedSign (a b : FV E) : Prop :=
  a.user = true ∧ a.d.ty.isUInt = true ∧ b.d.ty.isInt = true ∧ b.d.asUint.2 = false

theorem compat_uint_kind (a b : Data E) (ha : a.ty.isUInt = true) (hb : b.ty.isInt = true) :
    checkCompat a b = b.asUint.2 := by
  cases a <;> simp [Ty.isUInt, Data.ty] at ha <;> cases b <;> simp [Ty.isInt, Data.ty] at hb <;>
    simp [checkCompat, sameType, Data.ty, Ty.isString, conv]

/-- Numeric kinds that do not convert into each other compare antisymmetrically. -/
theorem anti_numeric_incompatible (hF : FloatLaws E) (a b : FV E) (ha : a.d.ty.isNumeric = true)
    (hb : b.d.ty.isNumeric = true) (hc : checkCompat a.d b.d = false)
    (hm : ¬ (a.d.ty.isUInt = true ∧ b.d.ty.isInt = true ∧ b.d.asUint.2 = false)) :
    Anti (compareInternal a b) (compareInternal b a) := by
  by_cases hui : a.d.ty.isUInt = true ∧ b.d.ty.isInt = true
  · exact absurd ⟨hui.1, hui.2, by rw [← compat_uint_kind _ _ hui.1 hui.2]; exact hc⟩ hm
  obtain ⟨da, u⟩ := a
  obtain ⟨db, u'⟩ := b
  cases da <;> simp [Ty.isNumeric, Ty.isInt, Ty.isUInt, Ty.isFloat, Data.ty] at ha <;>
    cases db <;> simp [Ty.isNumeric, Ty.isInt, Ty.isUInt, Ty.isFloat, Data.ty] at hb
  all_goals first
    | exact anti_numeric hF _ _ rfl rfl (Or.inl (Or.inl rfl))
    | exact anti_numeric hF _ _ rfl rfl (Or.inl (Or.inr rfl))
    | exact anti_numeric hF _ _ rfl rfl (Or.inr (Or.inl ⟨rfl, rfl⟩))
    | exact anti_numeric hF _ _ rfl rfl (Or.inr (Or.inr ⟨rfl, rfl⟩))
    | (exfalso; exact hui ⟨rfl, rfl⟩)
    | (exfalso; exact absurd hc (by simp [checkCompat, sameType, conv, Data.ty]))

theorem sameType_comm (s t : Ty) : sameType s t = sameType t s := by
  rw [Bool.eq_iff_iff]
  simp only [sameType, Bool.or_eq_true, Bool.and_eq_true, decide_eq_true_eq]
  constructor <;> rintro (h | h)
  · exact Or.inl h.symm
  · exact Or.inr h.symm
  · exact Or.inl h.symm
  · exact Or.inr h.symm

theorem anti_reverse (a b : FV E) : Anti (compareInternal b a) (reverseCompare a b) := rfl

theorem anti_internal_reverse (a b : FV E) : Anti (compareInternal a b) (reverseCompare b a) := rfl

theorem anti_user (hF : FloatLaws E) (a b : FV E) (ha : a.user = true) (hb : b.user = false)
    (hm : ¬ MixedSign a b) : Anti (compare a b) (compare b a) := by
  simp only [compare, compareUserDefined, ha, hb, Bool.true_or, Bool.or_true, if_true, Bool.false_eq_true, if_false]
  by_cases hc : checkCompat a.d b.d = false
  · rw [if_pos hc, if_pos hc, Bool.and_comm b.d.ty.isNumeric]
    by_cases hn : (a.d.ty.isNumeric && b.d.ty.isNumeric) = true
    · rw [if_pos hn, if_pos hn]
      rw [Bool.and_eq_true] at hn
      have := anti_numeric_incompatible hF a b hn.1 hn.2 hc (fun h => hm ⟨ha, h⟩)
      unfold Anti reverseCompare at *
      simp only
      rw [this]
      ext
      · show (compareInternal a b).1 * -1 = (compareInternal a b).1 * -1 * -1 * -1
        omega
      · rfl
    · rw [if_neg hn, if_neg hn]; exact anti_collate _ _
  · rw [if_neg hc, if_neg hc]; rfl

/-- C18, full statement (false, see `C18_counterexample`). -/
def C18Statement (E : Ext) : Prop := ∀ a b : FV E, Anti (compare a b) (compare b a)

/-- C18 (what holds): swapping the operands negates the result and keeps the validity, for every pair of values of every
type of which at most one is user supplied, except a user-supplied unsigned constant against a non-positive signed
value. -/
theorem C18_antisymmetric_partial (hF : FloatLaws E) (hT : TimeLaws E) (a b : FV E)
    (hu : ¬ (a.user = true ∧ b.user = true)) (h1 : ¬ MixedSign a b) (h2 : ¬ MixedSign b a) :
    (compare b a).1 = -(compare a b).1 ∧ (compare b a).2 = (compare a b).2 := by
  suffices h : Anti (compare a b) (compare b a) by
    unfold Anti at h
    rw [h]
    exact ⟨by simp only; omega, rfl⟩
  rcases hau : a.user with _ | _
  · rcases hbu : b.user with _ | _
    · by_cases hs : sameType a.d.ty b.d.ty = true
      · have := anti_internal_same hF hT a b hs
        rw [compare_same _ _ hs, compare_same _ _ (by rw [sameType_comm]; exact hs)]
        simpa [hau, hbu] using this
      · have hs' : ¬ sameType b.d.ty a.d.ty = true := by rw [sameType_comm]; exact hs
        have hne : a.d.ty.rank ≠ b.d.ty.rank := by
          intro e
          apply hs
          have hinj : ∀ s t : Ty, s.rank = t.rank → s = t := by
            intro s t; cases s <;> cases t <;> simp [Ty.rank]
          simp [sameType, hinj _ _ e]
        simp only [compare, hau, hbu, Bool.or_self, if_neg hs, if_neg hs', Bool.false_eq_true, if_false]
        by_cases hlt : a.d.ty.rank < b.d.ty.rank
        · have hgt : ¬ b.d.ty.rank < a.d.ty.rank := by omega
          simp only [if_pos hlt, if_neg hgt]
          by_cases c1 : checkCompat a.d b.d = false
          · simp only [if_pos c1]
            by_cases c2 : checkCompat b.d a.d = false
            · simp only [if_pos c2]; exact anti_collate _ _
            · simp only [if_neg c2]; exact (anti_reverse a b).symm
          · simp only [if_neg c1]; rfl
        · have hgt : b.d.ty.rank < a.d.ty.rank := by omega
          simp only [if_neg hlt, if_pos hgt]
          by_cases c1 : checkCompat b.d a.d = false
          · simp only [if_pos c1]
            by_cases c2 : checkCompat a.d b.d = false
            · simp only [if_pos c2]; exact anti_collate _ _
            · simp only [if_neg c2]; rfl
          · simp only [if_neg c1]; exact (anti_reverse a b).symm
    · exact (anti_user hF b a hbu hau h2).symm
  · have hbu : b.user = false := by
      rcases hb : b.user with _ | _
      · rfl
      · exact absurd ⟨hau, hb⟩ hu
    exact anti_user hF a b hau hbu h1

/-- C18, negation of the full statement: −5 in a document against the unsigned constant 3, and the other way round. -/
theorem C18_counterexample :
    compare (E := E) ⟨.int (BitVec.ofInt 64 (-5)), false⟩ ⟨.uint 3, true⟩ = (-1, false) ∧
    compare (E := E) ⟨.uint 3, true⟩ ⟨.int (BitVec.ofInt 64 (-5)), false⟩ = (1, true) := by
  constructor
  · rw [compare_int_uint]; simp only [reverseCompare, uint_int_internal]; rfl
  · rw [compare_uint_int]; simp only [reverseCompare, int_uint_internal]; rfl

theorem C18_full_statement_false (E : Ext) : ¬ C18Statement E := by
  intro h
  have := h ⟨.int (BitVec.ofInt 64 (-5)), false⟩ ⟨.uint 3, true⟩
  rw [C18_counterexample.1, C18_counterexample.2] at this
  simp [Anti] at this

/-! ### C19 -/

/-- C19: equality is a valid comparison with result zero; the validity reported is that of the comparison. -/
theorem C19_equals_iff (a b : FV E) :
    ((equals a b).1 = true ↔ compare a b = (0, true)) ∧ (equals a b).2 = (compare a b).2 := by
  unfold equals
  rcases compare a b with ⟨r, v⟩
  cases v <;> simp

/-- The values that can be compared with themselves: numbers other than NaN whose text parses, strings, booleans, null,
times, arrays and objects. -/
def Proper : Data E → Prop
  | .invalid | .missing | .bin _ | .regex _ | .pcre _ => False
  | .float f => E.isNaN f = false
  | .jsonFloat s => (E.parseFloat s).2 = true ∧ E.isNaN (E.parseFloat s).1 = false
  | .jsonInt s => (parseInt s).2 = true
  | .jsonUint s => (parseUint s).2 = true
  | _ => True

theorem cmpBytes_self (s : List Nat) : cmpBytes s s = 0 := by
  induction s with
  | nil => rfl
  | cons a s ih => simp [cmpBytes, ih]

theorem cmpBytes_eq_zero : ∀ s t : List Nat, cmpBytes s t = 0 → s = t
  | [], [], _ => rfl
  | [], _ :: _, h => absurd h (by simp [cmpBytes])
  | _ :: _, [], h => absurd h (by simp [cmpBytes])
  | a :: as, b :: bs, h => by
    simp only [cmpBytes] at h
    split at h
    · exact absurd h (by decide)
    · split at h
      · exact absurd h (by decide)
      · rw [cmpBytes_eq_zero as bs h, show a = b by omega]

theorem cmpSameLen_self (s : List Nat) : cmpSameLen s s = 0 := by
  induction s with
  | nil => rfl
  | cons a s ih => simp [cmpSameLen, ih]

theorem cmpSameLen_eq_zero : ∀ s t : List Nat, s.length = t.length → cmpSameLen s t = 0 → s = t
  | [], [], _, _ => rfl
  | [], _ :: _, h, _ => absurd h (by simp)
  | _ :: _, [], h, _ => absurd h (by simp)
  | a :: as, b :: bs, hl, h => by
    simp only [cmpSameLen] at h
    split at h
    · exact absurd h (by decide)
    · split at h
      · exact absurd h (by decide)
      · rw [cmpSameLen_eq_zero as bs (by simpa using hl) h, show a = b by omega]

theorem cmp3_self (x : Int) : cmp3 x x = 0 := by simp [cmp3]

theorem internal_self (hF : FloatLaws E) (hT : TimeLaws E) (d : Data E) (u u' : Bool) (hp : Proper d) :
    compareInternal ⟨d, u⟩ ⟨d, u'⟩ = (0, true) := by
  have hfl : ∀ d : Data E, E.isNaN d.asFloat.1 = false → d.asFloat.2 = true → compareFloat d d = (0, true) := by
    intro d h1 h2
    unfold compareFloat
    simp only [h1, h2]
    have : E.lt d.asFloat.1 d.asFloat.1 = false := by
      rcases h : E.lt d.asFloat.1 d.asFloat.1
      · rfl
      · rw [hF.lt_asymm _ _ h] at h; exact absurd h (by simp)
    simp [this]
  cases d with
  | invalid | missing | bin | regex | pcre => exact absurd hp (by simp [Proper])
  | null | fals | tru => rfl
  | float f => exact hfl (.float f) hp rfl
  | jsonFloat s => exact hfl (.jsonFloat s) hp.2 hp.1
  | int v => rw [int_int_internal, cmp3_self]
  | uint v => rw [uint_uint_internal, cmp3_self]
  | jsonInt s =>
    rw [internal_int _ _ rfl rfl]
    have hp : (parseInt s).2 = true := hp
    simp [compareInt, Data.asInt, hp, cmp3_self]
  | jsonUint s =>
    rw [internal_uint _ _ rfl rfl]
    have hp : (parseUint s).2 = true := hp
    simp [compareUint, Data.asUint, hp, cmp3_self]
  | str s | binStr s | jsonStr s =>
    simp [compareInternal, compareStrings, Ty.isString, Data.ty, Data.toJsonStringInternal, Data.toJsonString, cmpBytes_self]
  | time t =>
    simp [compareInternal, Data.ty, compareTime, Data.asTime, hT.refl]
  | arr s | obj s =>
    show compareObjArr _ _ = _
    simp [compareObjArr, Data.ty, cmpSameLen_self]

/-- C19: every proper value equals itself, whichever side is user supplied. -/
theorem C19_refl (hF : FloatLaws E) (hT : TimeLaws E) (d : Data E) (u u' : Bool) (hp : Proper d) :
    equals ⟨d, u⟩ ⟨d, u'⟩ = (true, true) := by
  have hc : compare ⟨d, u⟩ ⟨d, u'⟩ = (0, true) := by
    rw [compare_same _ _ (by simp [sameType])]
    simp only [reverseCompare, internal_self hF hT d _ _ hp]
    simp
  unfold equals
  rw [hc]; rfl

/-- C19: symmetric, under the conditions of C18. -/
theorem C19_symm (hF : FloatLaws E) (hT : TimeLaws E) (a b : FV E)
    (hu : ¬ (a.user = true ∧ b.user = true)) (h1 : ¬ MixedSign a b) (h2 : ¬ MixedSign b a) :
    equals a b = equals b a := by
  obtain ⟨e1, e2⟩ := C18_antisymmetric_partial hF hT a b hu h1 h2
  unfold equals
  simp only [e1, e2]
  congr 2
  simp

/-- C19: two document strings are equal exactly if their bytes are (`strconv.AppendQuote` being injective). -/
theorem C19_string_eq (hq : ∀ s t, E.quote s = E.quote t → s = t) (s t : List Nat) (u u' : Bool) :
    equals (E := E) ⟨.binStr s, u⟩ ⟨.binStr t, u'⟩ = (decide (s = t), true) ∧
    equals (E := E) ⟨.binStr s, u⟩ ⟨.str t, u'⟩ = (decide (s = t), true) := by
  have key : ∀ a b : FV E, a.d.ty.isString = true → b.d.ty.isString = true →
      a.d.toJsonStringInternal = (.jsonStr (E.quote s), true) →
      b.d.toJsonStringInternal = (.jsonStr (E.quote t), true) → equals a b = (decide (s = t), true) := by
    intro a b ha hb ea eb
    have e : ∀ x y : FV E, x.d.ty.isString = true → compareInternal x y = compareStrings x y := by
      intro x y hx
      obtain ⟨dx, ux⟩ := x
      cases dx <;> simp [Ty.isString, Data.ty] at hx <;> rfl
    have e1 : compareInternal a b = (cmpBytes (E.quote s) (E.quote t), true) := by
      rw [e a b ha]; simp [compareStrings, hb, ea, eb, Data.slice]
    have e2 : reverseCompare a b = (cmpBytes (E.quote s) (E.quote t), true) := by
      rw [reverseCompare, e b a hb]; simp only [compareStrings, ha, ea, eb, Data.slice, Bool.true_or, if_true]
      rw [cmpBytes_anti]; rfl
    unfold equals
    rw [compare_same a b (by simp [sameType, ha, hb]), e1, e2]
    simp only [ite_self, Bool.true_eq_false, if_false, Prod.mk.injEq, and_true, decide_eq_decide]
    constructor
    · intro h; exact hq _ _ (cmpBytes_eq_zero _ _ h)
    · rintro rfl; exact cmpBytes_self _
  exact ⟨key _ _ rfl rfl rfl rfl, key _ _ rfl rfl rfl rfl⟩

/-- C19: arrays (objects) are equal exactly if their texts are. -/
theorem C19_array_eq (s t : List Nat) (u u' : Bool) :
    equals (E := E) ⟨.arr s, u⟩ ⟨.arr t, u'⟩ = (decide (s = t), true) ∧
    equals (E := E) ⟨.obj s, u⟩ ⟨.obj t, u'⟩ = (decide (s = t), true) := by
  have key : ∀ a b : FV E, a.d.ty = b.d.ty → (a.d.ty = .arr ∨ a.d.ty = .obj) → a.d.slice = s → b.d.slice = t →
      equals a b = (decide (s = t), true) := by
    intro a b hab ho ea eb
    have e : ∀ x y : FV E, (x.d.ty = .arr ∨ x.d.ty = .obj) → compareInternal x y = compareObjArr x.d y.d := by
      intro x y hx
      obtain ⟨dx, ux⟩ := x
      cases dx <;> simp [Data.ty] at hx <;> rfl
    have hst : sameType a.d.ty b.d.ty = true := by simp [sameType, hab]
    have v1 : ∀ x y : Data E, (x.ty = .arr ∨ x.ty = .obj) →
        compareObjArr x y = ((compareObjArr x y).1, true) := by
      intro x y hx
      unfold compareObjArr
      rw [if_pos hx]
      split
      · rfl
      · split <;> rfl
    have z1 : ∀ x y : Data E, (x.ty = .arr ∨ x.ty = .obj) → ((compareObjArr x y).1 = 0 ↔ x.slice = y.slice) := by
      intro x y hx
      unfold compareObjArr
      rw [if_pos hx]
      by_cases h1 : x.slice.length > y.slice.length
      · rw [if_pos h1]
        constructor
        · intro h; exact absurd h (by decide)
        · intro h; rw [h] at h1; omega
      · rw [if_neg h1]
        by_cases h2 : x.slice.length < y.slice.length
        · rw [if_pos h2]
          constructor
          · intro h; exact absurd h (by decide)
          · intro h; rw [h] at h2; omega
        · rw [if_neg h2]
          constructor
          · intro h; exact cmpSameLen_eq_zero _ _ (by omega) h
          · intro h; rw [h]; exact cmpSameLen_self _
    have ho' : b.d.ty = .arr ∨ b.d.ty = .obj := hab ▸ ho
    have ec : ∃ r, compare a b = (r, true) ∧ (r = 0 ↔ s = t) := by
      rw [compare_same _ _ hst]
      split
      · rw [e _ _ ho, v1 _ _ ho]
        exact ⟨_, rfl, by rw [z1 _ _ ho, ea, eb]⟩
      · refine ⟨(compareObjArr b.d a.d).1 * -1, ?_, ?_⟩
        · rw [reverseCompare, e _ _ ho', v1 _ _ ho']
        · rw [show (compareObjArr b.d a.d).1 * -1 = 0 ↔ (compareObjArr b.d a.d).1 = 0 by omega, z1 _ _ ho', ea, eb,
            eq_comm]
    obtain ⟨r, er, hr⟩ := ec
    unfold equals
    rw [er]
    simp only [Bool.true_eq_false, if_false, Prod.mk.injEq, and_true, decide_eq_decide]
    exact hr
  exact ⟨key _ _ rfl (Or.inl rfl) rfl rfl, key _ _ rfl (Or.inr rfl) rfl rfl⟩

/-- C19: a missing value, a regular expression or raw binary data is never equal to anything. -/
theorem C19_improper_never_equal (a b : FV E)
    (h : a.d.ty = .missing ∨ a.d.ty = .invalid ∨ a.d.ty = .bin ∨ a.d.ty = .regex ∨ a.d.ty = .pcre) :
    (equals a b).1 = false ∧ (equals b a).1 = false := by
  obtain ⟨da, u⟩ := a
  obtain ⟨db, u'⟩ := b
  constructor <;>
  · cases da <;> simp [Data.ty] at h <;> cases db <;> cases u <;> cases u' <;> rfl

/-- C19: null equals null only. -/
theorem C19_null_eq (b : FV E) (u : Bool) :
    (equals ⟨.null, u⟩ b).1 = true ↔ b.d.ty = .null := by
  obtain ⟨db, u'⟩ := b
  cases db <;> cases u <;> cases u' <;>
    simp [equals, compare, compareUserDefined, checkCompat, sameType, Data.ty, conv, compareInternal, compareNull,
      reverseCompare, Ty.rank, Ty.isString, collate, Ty.isNumeric, Ty.isInt, Ty.isUInt, Ty.isFloat]

/-- The hypotheses are satisfiable and the values of every comparable kind are covered. -/
example (E : Ext) (hF : FloatLaws E) (hT : TimeLaws E) :
    equals (E := E) ⟨.binStr [104, 105], false⟩ ⟨.binStr [104, 105], true⟩ = (true, true) :=
  C19_refl hF hT _ _ _ trivial

/-- An interpretation of the external operations (floats as integers, times as numbers, quoting as the identity)
satisfying the laws above. -/
def demoExt : Ext where
  F := Int
  T := Nat
  R := Unit
  ofInt := BitVec.toInt
  ofUint v := v.toNat
  toInt := BitVec.ofInt 64
  toUint := BitVec.ofInt 64
  isNaN _ := false
  lt x y := decide (x < y)
  add := (· + ·)
  sub := (· - ·)
  mul := (· * ·)
  div := (· / ·)
  abs x := x.natAbs
  neg := (- ·)
  eps := 1
  zero := 0
  one := 1
  nonZero x := decide (x ≠ 0)
  inIntRange x := decide (-(2 ^ 63) ≤ x ∧ x ≤ 2 ^ 63)
  parseFloat s := match parseNat s with
    | some n => (n, true)
    | none => (0, false)
  fmtE x := (toString x).toList.map Char.toNat
  fmtF x := (toString x).toList.map Char.toNat
  quote s := s
  parseTime _ := none
  timeEq s t := decide (s = t)
  timeAfter s t := decide (t < s)
  reMatch _ _ := true

theorem demoFloat : FloatLaws demoExt where
  lt_asymm := by
    intro (x : Int) (y : Int) h
    simp only [demoExt, decide_eq_true_eq, decide_eq_false_iff_not] at *
    omega
  dist_symm := by
    intro (x : Int) (y : Int)
    simp only [demoExt, decide_eq_decide]
    omega

theorem demoTime : TimeLaws demoExt where
  refl := by intro (s : Nat); exact decide_eq_true (rfl : s = s)
  eq_symm := by intro s t; simp only [demoExt, decide_eq_decide]; exact eq_comm
  total := by
    intro (s : Nat) (t : Nat) h
    simp only [demoExt, decide_eq_false_iff_not] at h
    have : ¬ (s = t) := h
    simp only [demoExt]
    by_cases h1 : t < s
    · have : ¬ s < t := by omega
      simp [h1, this]
    · have : s < t := by omega
      simp [h1, this]

example : (compare (E := demoExt) ⟨.float (3 : Int), false⟩ ⟨.int 7, true⟩).1 = -1 := by decide

end Verif.FastVal
