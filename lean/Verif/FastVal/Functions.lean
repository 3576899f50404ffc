import Verif.FastVal.Half
import Verif.FastVal.BinaryExt

/-!
# C72: what the functions compute
-/

namespace Verif.FastVal

variable {E : Ext}

/-! ### Specification -/

/-- A number, by its kind. -/
inductive Num (E : Ext) where
  | int (v : BitVec 64)
  | uint (v : BitVec 64)
  | float (f : E.F)

/-- The number a value is: of its kind, or the text of one. -/
def Data.num : Data E → Option (Num E)
  | .int v => some (.int v)
  | .uint v => some (.uint v)
  | .float f => some (.float f)
  | .jsonInt s => match parseInt s with
    | (v, true) => some (.int v)
    | _ => none
  | .jsonUint s => match parseUint s with
    | (v, true) => some (.uint v)
    | _ => none
  | .jsonFloat s => match E.parseFloat s with
    | (f, true) => some (.float f)
    | _ => none
  | _ => none

/-- As a float. -/
def Num.toF : Num E → E.F
  | .int v => E.ofInt v
  | .uint v => E.ofUint v
  | .float f => f

/-- The exact value, in units of 2^-1074. -/
inductive Num.Is (L : B64 E) : Num E → Int → Prop
  | int (v : BitVec 64) : Num.Is L (.int v) (v.toInt * one64)
  | uint (v : BitVec 64) : Num.Is L (.uint v) (v.toNat * one64)
  | float {f : E.F} {a : Int} : L.val f = some a → Num.Is L (.float f) a

/-- The whole number nearest to `a`, of two the one farther from 0. -/
def Nearest (a n : Int) : Prop := 2 * (a - n * one64).natAbs ≤ one64 ∧ (2 * (a - n * one64).natAbs = one64 → a.natAbs < (n * one64).natAbs)

/-- C72 as it should be: the absolute value and the nearest whole number. -/
def C72Statement (L : B64 E) (X : Fns E) : Prop := ∀ (d : Data E) (u : Bool) (x : Num E) (a : Int), d.num = some x → x.Is L a →
  (∃ r y, applyFn X .abs [⟨d, u⟩] = .ok r ∧ r.d.num = some y ∧ y.Is L a.natAbs) ∧
  (∃ r y n, applyFn X .round [⟨d, u⟩] = .ok r ∧ r.d.num = some y ∧ y.Is L (n * one64) ∧ Nearest a n)

/-! ### Values that are not numbers -/

theorem asFloat_num {d : Data E} {x : Num E} (h : d.num = some x) : d.asFloat = (x.toF, true) ∧ d.ty.isNumeric = true := by
  cases d <;> simp only [Data.num, reduceCtorEq] at h
  case int v | uint v | float f => obtain rfl := Option.some.inj h; exact ⟨rfl, rfl⟩
  case jsonInt s =>
    refine ⟨?_, rfl⟩
    generalize hp : parseInt s = p at h
    obtain ⟨v, b⟩ := p
    cases b <;> simp at h
    subst h
    simp [Data.asFloat, hp, Num.toF]
  case jsonUint s =>
    refine ⟨?_, rfl⟩
    generalize hp : parseUint s = p at h
    obtain ⟨v, b⟩ := p
    cases b <;> simp at h
    subst h
    simp [Data.asFloat, hp, Num.toF]
  case jsonFloat s =>
    refine ⟨?_, rfl⟩
    generalize hp : E.parseFloat s = p at h
    obtain ⟨v, b⟩ := p
    cases b <;> simp at h
    subst h
    simp [Data.asFloat, hp, Num.toF]

theorem asFloat_none {d : Data E} (h : d.num = none) : (d.asFloat.2 && d.ty.isNumeric) = false := by
  cases d <;> simp only [Data.num, reduceCtorEq] at h <;> try (simp [Data.ty, Ty.isNumeric, Ty.isInt, Ty.isUInt, Ty.isFloat]; done)
  case jsonInt s =>
    generalize hp : parseInt s = p at h
    obtain ⟨v, b⟩ := p
    cases b <;> simp at h
    simp [Data.asFloat, hp]
  case jsonUint s =>
    generalize hp : parseUint s = p at h
    obtain ⟨v, b⟩ := p
    cases b <;> simp at h
    simp [Data.asFloat, hp]
  case jsonFloat s =>
    generalize hp : E.parseFloat s = p at h
    obtain ⟨v, b⟩ := p
    cases b <;> simp at h
    simp [Data.asFloat, hp]

/-- C72: the functions of one number, applied to a number, are applied to its float; the others give no value. -/
theorem C72_one (X : Fns E) (f : UnF) (d : Data E) (u : Bool) (ps : List (FV E)) :
    applyFn X (.un f) (⟨d, u⟩ :: ps) = .ok (match d.num with
      | some x => ⟨.float (unOp X f x.toF), false⟩
      | none => invalidV) := by
  simp only [applyFn, opFloat]
  cases h : d.num with
  | none => rw [asFloat_none h]; rfl
  | some x =>
    obtain ⟨h1, h2⟩ := asFloat_num h
    rw [h1, h2]; rfl

/-- Degrees and radians. -/
theorem C72_angles (X : Fns E) (x : E.F) :
    unOp X .degrees x = E.div (E.mul x X.deg) X.pi ∧ unOp X .radians x = E.div (E.mul x X.pi) X.deg := ⟨rfl, rfl⟩

/-- C72: the functions of two numbers. -/
theorem C72_two (X : Fns E) (f : BinF) (d e : Data E) (u v : Bool) (ps : List (FV E)) :
    applyFn X (.bin f) (⟨d, u⟩ :: ⟨e, v⟩ :: ps) = .ok (match d.num, e.num with
      | some x, some y => ⟨.float (X.bin f x.toF y.toF), false⟩
      | _, _ => invalidV) := by
  simp only [applyFn, op2Floats]
  cases h : d.num with
  | none =>
    have := asFloat_none h
    rw [if_pos]
    revert this
    cases d.asFloat.2 <;> cases d.ty.isNumeric <;> simp
  | some x =>
    obtain ⟨h1, h2⟩ := asFloat_num h
    cases g : e.num with
    | none =>
      have := asFloat_none g
      rw [if_pos]
      revert this
      cases e.asFloat.2 <;> cases e.ty.isNumeric <;> simp
    | some y =>
      obtain ⟨g1, g2⟩ := asFloat_num g
      rw [h1, h2, g1, g2]
      rfl

/-- C72: arithmetic of whole numbers (the specifications are those of C20 and C41). -/
theorem C72_arith (X : Fns E) (a b : Data E) (u v : Bool) (ps : List (FV E)) (x y : Int) (ha : Denotes a x) (hb : Denotes b y) :
    applyFn X .add (⟨a, u⟩ :: ⟨b, v⟩ :: ps) = outV (ringSpec (· + ·) a b) ∧
    applyFn X .mul (⟨a, u⟩ :: ⟨b, v⟩ :: ps) = outV (ringSpec (· * ·) a b) ∧
    applyFn X .sub (⟨a, u⟩ :: ⟨b, v⟩ :: ps) = (match subSpec a b with
      | .inl o => outV o
      | .inr () => op2Floats a b E.sub) ∧
    applyFn X .neg (⟨a, u⟩ :: ps) = .ok (if 2 ^ 63 ≤ x then invalidV else ⟨.int (word (-x)), false⟩) ∧
    (y ≠ 0 → ¬ (x < 0 ∧ a.ty = .int ∧ 2 ^ 63 ≤ y) →
      applyFn X .div (⟨a, u⟩ :: ⟨b, v⟩ :: ps) = outV (quotSpec Int.tdiv a b) ∧
      applyFn X .mod (⟨a, u⟩ :: ⟨b, v⟩ :: ps) = outV (quotSpec Int.tmod a b)) :=
  ⟨C20_add a b x y ha hb, C20_mul a b x y ha hb, C20_sub a b x y ha hb, congrArg _ (C20_neg a x ha),
    fun h1 h2 => ⟨C41_div a b x y ha hb h1 h2, C41_mod a b x y ha hb h1 h2⟩⟩

/-- C72: arithmetic with a float. -/
theorem C72_float (X : Fns E) (d e : Data E) (u v : Bool) (ps : List (FV E)) (x y : Num E) (hd : d.num = some x) (he : e.num = some y)
    (hf : d.ty.isFloat = true ∨ e.ty.isFloat = true) :
    applyFn X .add (⟨d, u⟩ :: ⟨e, v⟩ :: ps) = .ok ⟨.float (E.add x.toF y.toF), false⟩ ∧
    applyFn X .sub (⟨d, u⟩ :: ⟨e, v⟩ :: ps) = .ok ⟨.float (E.sub x.toF y.toF), false⟩ ∧
    applyFn X .mul (⟨d, u⟩ :: ⟨e, v⟩ :: ps) = .ok ⟨.float (E.mul x.toF y.toF), false⟩ ∧
    applyFn X .div (⟨d, u⟩ :: ⟨e, v⟩ :: ps) = .ok ⟨.float (E.div x.toF y.toF), false⟩ := by
  obtain ⟨h1, h2⟩ := asFloat_num hd
  obtain ⟨g1, g2⟩ := asFloat_num he
  have key : ∀ op, op2Floats d e op = .ok ⟨.float (op x.toF y.toF), false⟩ := by
    intro op
    rw [op2Floats, h1, h2, g1, g2]; rfl
  have apart : ∀ {t : Ty}, t.isFloat = true → t.isUInt = false ∧ t.isInt = false := by
    intro t ht; cases t <;> simp_all [Ty.isFloat, Ty.isUInt, Ty.isInt]
  simp only [applyFn]
  by_cases hdf : d.ty.isFloat = true
  · obtain ⟨k1, k2⟩ := apart hdf
    refine ⟨?_, ?_, ?_, ?_⟩
    · simp [mathAdd, addMul, k1, k2, hdf, key]
    · simp [mathSub, k1, k2, hdf, key]
    · simp [mathMul, addMul, k1, k2, hdf, key]
    · simp [mathDiv, hdf, key]
  · have hef := hf.resolve_left hdf
    obtain ⟨k1, k2⟩ := apart hef
    by_cases hdu : d.ty.isUInt = true
    · refine ⟨?_, ?_, ?_, ?_⟩
      · simp [mathAdd, addMul, k1, k2, hdu, hef, key]
      · simp [mathSub, k1, k2, hdu, hef, key]
      · simp [mathMul, addMul, k1, k2, hdu, hef, key]
      · simp [mathDiv, divMod, hdf, hdu, k1, k2, hef, key]
    · have hdi : d.ty.isInt = true := by
        revert h2; rw [Ty.isNumeric]; simp [hdf, hdu]
      have hok : d.asInt.2 = true := by
        cases d <;> simp [Data.ty, Ty.isInt] at hdi
        · rfl
        · rename_i t
          simp only [Data.num] at hd
          simp only [Data.asInt]
          generalize parseInt t = p at hd ⊢
          obtain ⟨w, b⟩ := p
          cases b <;> simp at hd ⊢
      refine ⟨?_, ?_, ?_, ?_⟩
      · simp [mathAdd, addMul, k1, k2, hdu, hdi, hef, key]
      · simp [mathSub, k1, k2, hdu, hdi, hef, key]
      · simp [mathMul, addMul, k1, k2, hdu, hdi, hef, key]
      · simp [mathDiv, divMod, hdf, hdu, hdi, hok, k1, k2, hef, key]

theorem bad_num {d : Data E} (h : d.num = none) (hn : d.ty.isNumeric = true) : d.asInt.2 = false ∧ d.asUint.2 = false ∧ d.asFloat.2 = false := by
  cases d <;> simp only [Data.num, reduceCtorEq] at h <;> try (simp [Data.ty, Ty.isNumeric, Ty.isInt, Ty.isUInt, Ty.isFloat] at hn; done)
  case jsonInt s =>
    simp only [Data.asInt, Data.asUint, Data.asFloat]
    generalize parseInt s = p at h ⊢
    obtain ⟨v, b⟩ := p
    cases b <;> simp at h ⊢
  case jsonUint s =>
    simp only [Data.asInt, Data.asUint, Data.asFloat]
    generalize parseUint s = p at h ⊢
    obtain ⟨v, b⟩ := p
    cases b <;> simp at h ⊢
  case jsonFloat s =>
    simp only [Data.asInt, Data.asUint, Data.asFloat]
    generalize E.parseFloat s = p at h ⊢
    obtain ⟨v, b⟩ := p
    cases b <;> simp at h ⊢

/-- Not a number: the conversions of arithmetic fail. -/
theorem op2_bad {d e : Data E} (h : d.num = none ∨ e.num = none) (op : BitVec 64 → BitVec 64 → Res (BitVec 64)) (fop : E.F → E.F → E.F) :
    op2Ints d e op = .ok invalidV ∧ op2Uints d e op = .ok invalidV ∧ op2Floats d e fop = .ok invalidV := by
  simp only [op2Ints, op2Uints, op2Floats]
  rcases h with h | h
  · cases hn : d.ty.isNumeric
    · simp
    · obtain ⟨h1, h2, h3⟩ := bad_num h hn
      simp [h1, h2, h3]
  · cases hn : e.ty.isNumeric
    · simp
    · obtain ⟨h1, h2, h3⟩ := bad_num h hn
      simp [h1, h2, h3]

/-- C72: arithmetic with something that is not a number gives no value. -/
theorem C72_not_numbers (X : Fns E) (d e : Data E) (u v : Bool) (ps : List (FV E)) (h : d.num = none ∨ e.num = none)
    (f : FName) (hf : f = .add ∨ f = .sub ∨ f = .mul ∨ f = .div ∨ f = .mod) :
    applyFn X f (⟨d, u⟩ :: ⟨e, v⟩ :: ps) = .ok invalidV := by
  have k1 := fun op => (op2_bad h op (fun x _ => x)).1
  have k2 := fun op => (op2_bad h op (fun x _ => x)).2.1
  have k3 := fun fop => (op2_bad h (fun x _ => .ok x) fop).2.2
  rcases hf with rfl | rfl | rfl | rfl | rfl
  · simp only [applyFn, mathAdd, addMul, k1, k2, k3]
    simp
  · simp only [applyFn, mathSub, k1, k2, k3]
    by_cases he : e.ty.isInt = true
    · by_cases hb : d.ty.isUInt = true ∧ ¬ (d.asUint.2 = false ∨ e.asInt.2 = false)
      · obtain ⟨hb1, hb2⟩ := hb
        exfalso
        rcases h with h | h
        · exact hb2 (.inl (bad_num h (by rw [Ty.isNumeric, hb1]; simp)).2.1)
        · exact hb2 (.inr (bad_num h (by rw [Ty.isNumeric, he]; simp)).1)
      · by_cases hd : d.ty.isUInt = true
        · have : d.asUint.2 = false ∨ e.asInt.2 = false := by
            apply Classical.byContradiction; intro hh; exact hb ⟨hd, hh⟩
          simp [hd, he, this]
        · simp [hd]
    · simp [he]
  · simp only [applyFn, mathMul, addMul, k1, k2, k3]
    simp
  · simp only [applyFn, mathDiv, divMod, k1, k2, k3]
    simp
  · simp only [applyFn, mathMod, divMod, k1, k2]
    simp

theorem num_ty {d : Data E} {x : Num E} (h : d.num = some x) :
    (d.ty.isInt, d.ty.isUInt, d.ty.isFloat) = (match (generalizing := false) x with
      | .int _ => (true, false, false)
      | .uint _ => (false, true, false)
      | .float _ => (false, false, true)) := by
  cases d <;> simp only [Data.num, reduceCtorEq] at h
  case int v | uint v | float f => obtain rfl := Option.some.inj h; rfl
  case jsonInt s => generalize parseInt s = p at h; obtain ⟨v, b⟩ := p; cases b <;> simp at h; subst h; rfl
  case jsonUint s => generalize parseUint s = p at h; obtain ⟨v, b⟩ := p; cases b <;> simp at h; subst h; rfl
  case jsonFloat s => generalize E.parseFloat s = p at h; obtain ⟨v, b⟩ := p; cases b <;> simp at h; subst h; rfl

/-! ### Absolute value -/

theorem C72_abs_kind (X : Fns E) (d : Data E) (u : Bool) (ps : List (FV E)) :
    applyFn X .abs (⟨d, u⟩ :: ps) = .ok (match d.num with
      | some (.int v) => ⟨.int (E.toInt (E.abs (E.ofInt v))), false⟩
      | some (.uint _) => ⟨d, u⟩
      | some (.float f) => ⟨.float (E.abs f), false⟩
      | none => if d.ty.isUInt then ⟨d, u⟩ else invalidV) := by
  simp only [applyFn, mathAbs]
  cases h : d.num with
  | none =>
    have := asFloat_none h
    by_cases hu : d.ty.isUInt = true
    · rw [if_pos hu]; simp [hu]
    · simp only [hu]
      cases hd : d.asFloat.2
      · simp
      · rw [hd, Bool.true_and] at this
        have : d.ty.isInt = false ∧ d.ty.isFloat = false := by
          revert this; rw [Ty.isNumeric]; cases d.ty.isInt <;> cases d.ty.isFloat <;> simp
        simp [this]
  | some x =>
    obtain ⟨h1, h2⟩ := asFloat_num h
    have := num_ty h
    cases x <;> simp only [Prod.mk.injEq] at this <;> simp [this, h1, Num.toF]

theorem C72_round_kind (X : Fns E) (d : Data E) (u : Bool) (ps : List (FV E)) :
    applyFn X .round (⟨d, u⟩ :: ps) = .ok (match d.num with
      | some (.float f) => ⟨.float (floatMathRound X f), false⟩
      | some _ => ⟨d, u⟩
      | none => if d.ty.isInt || d.ty.isUInt then ⟨d, u⟩ else invalidV) := by
  simp only [applyFn, mathRound]
  cases h : d.num with
  | none =>
    have := asFloat_none h
    by_cases hf : d.ty.isFloat = true
    · have hn : d.ty.isNumeric = true := by rw [Ty.isNumeric, hf, Bool.or_true]
      rw [hn, Bool.and_true] at this
      have h2 : d.ty.isInt = false ∧ d.ty.isUInt = false := by
        revert hf; cases d.ty <;> simp [Ty.isFloat, Ty.isInt, Ty.isUInt]
      simp [hf, this, h2]
    · simp [hf]
  | some x =>
    obtain ⟨h1, h2⟩ := asFloat_num h
    have := num_ty h
    cases x <;> simp only [Prod.mk.injEq] at this <;> simp [this, h1, Num.toF]

/-! ### Absolute values -/

theorem one_pos : 0 < one64 := by rw [one64_eq]; exact Int.pow_pos (by omega)

/-- C72: the absolute value of a signed integer is that of the nearest float. -/
theorem C72_abs_int (L : B64 E) (v : BitVec 64) (h : rnd v.toInt.natAbs < 2 ^ 63) :
    (E.toInt (E.abs (E.ofInt v))).toInt = rnd v.toInt.natAbs := by
  have e : ((rnd (v.toInt * one64)).natAbs : Int) = rnd v.toInt.natAbs * one64 := by
    rw [one64_eq, rnd_shift, ← one64_eq]
    by_cases hv : 0 ≤ v.toInt
    · rw [show (v.toInt.natAbs : Int) = v.toInt by omega]
      have := Int.mul_nonneg (rnd_nonneg hv) (Int.le_of_lt one_pos)
      omega
    · rw [show (v.toInt.natAbs : Int) = -v.toInt by omega, rnd_neg, Int.neg_mul]
      have h1 := rnd_nonneg (z := -v.toInt) (by omega)
      have := Int.mul_nonneg h1 (Int.le_of_lt one_pos)
      rw [rnd_neg, Int.neg_mul] at this
      omega
  have e2 : (((rnd (v.toInt * one64)).natAbs : Int)).tdiv one64 = rnd v.toInt.natAbs := by
    rw [e, Int.mul_tdiv_cancel _ (Int.ne_of_gt one_pos)]
  have h0 := rnd_nonneg (z := v.toInt.natAbs) (by omega)
  have := L.toInt (L.abs (L.ofInt v)) (by rw [e2]; omega) (by rw [e2]; exact h)
  rw [this, e2]

/-- C72 for the absolute value, where the number has at most 53 significant bits and is not the least integer.  (Missing: larger
integers, false, see `C72_abs_large`.) -/
theorem C72_abs_partial (L : B64 E) (X : Fns E) (d : Data E) (u : Bool) (ps : List (FV E)) (x : Num E) (a : Int) (hd : d.num = some x)
    (hx : x.Is L a) (ha : ∀ v, x = .int v → Rep v.toInt ∧ v.toInt ≠ -(2 ^ 63)) :
    ∃ r y, applyFn X .abs (⟨d, u⟩ :: ps) = .ok r ∧ r.d.num = some y ∧ y.Is L a.natAbs := by
  rw [C72_abs_kind, hd]
  cases hx with
  | int v =>
    obtain ⟨h1, h2⟩ := ha v rfl
    have h3 : rnd v.toInt.natAbs = v.toInt.natAbs := by
      by_cases hv : 0 ≤ v.toInt
      · rw [show (v.toInt.natAbs : Int) = v.toInt by omega, rnd_exact h1]
      · rw [show (v.toInt.natAbs : Int) = -v.toInt by omega, rnd_neg, rnd_exact h1]
    have h4 := BitVec.toInt_lt (x := v)
    have h5 := BitVec.le_toInt (x := v)
    have h6 := C72_abs_int L v (by rw [h3]; omega)
    refine ⟨_, _, rfl, rfl, ?_⟩
    have h7 : ((v.toInt * one64).natAbs : Int) = (E.toInt (E.abs (E.ofInt v))).toInt * one64 := by
      rw [h6, h3, Int.natAbs_mul, Int.natCast_mul, Int.natAbs_of_nonneg (Int.le_of_lt one_pos)]
    rw [h7]
    exact .int _
  | uint v =>
    refine ⟨_, _, rfl, hd, ?_⟩
    have h7 : ((v.toNat * one64 : Int).natAbs : Int) = v.toNat * one64 := by
      rw [Int.natAbs_mul, Int.natCast_mul, Int.natAbs_of_nonneg (Int.le_of_lt one_pos)]; rfl
    rw [h7]
    exact .uint _
  | float hf => exact ⟨_, _, rfl, rfl, .float (L.abs hf)⟩

theorem rnd_minus_large : rnd (-9007199254740993 : Int).natAbs = 9007199254740992 := by decide +kernel

/-- The absolute value of −9007199254740993 is 9007199254740992. -/
theorem C72_abs_large (L : B64 E) (X : Fns E) : ∃ w, applyFn X .abs [⟨.int (-9007199254740993), true⟩] = .ok ⟨.int w, false⟩ ∧
    w.toInt = 9007199254740992 := by
  refine ⟨_, C72_abs_kind X _ _ _, ?_⟩
  have h : (-9007199254740993 : BitVec 64).toInt = -9007199254740993 := by decide
  have := C72_abs_int L (-9007199254740993) (by rw [h, rnd_minus_large]; omega)
  rw [this, h, rnd_minus_large]

/-! ### Rounding -/

theorem val_round (L : B64 E) (X : Fns E) (hX : L.val X.half = some half64) {f : E.F} {a : Int} (hf : L.val f = some a)
    (ha : a.natAbs < 2 ^ 63 * one64) (hm : rnd (a.natAbs + half64) / one64 < 2 ^ 63) :
    L.val (floatMathRound X f) = some (rnd (a.sign * (rnd (a.natAbs + half64) / one64) * one64)) := by
  have hH := half_pos
  have hU := one_half
  have hU0 := one_pos
  have hmax : (2 ^ 63 : Int) * one64 + half64 ≤ max64 := by decide +kernel
  have hpos : 0 ≤ rnd ((a.natAbs : Int) + half64) := rnd_nonneg (by omega)
  have hq := Int.ediv_nonneg hpos (Int.le_of_lt hU0)
  rw [floatMathRound, L.lt hf L.zero]
  by_cases h : a < 0
  · rw [decide_eq_true h, if_pos rfl]
    have hs : rnd (a - half64) = -rnd ((a.natAbs : Int) + half64) := by
      rw [← rnd_neg]; congr 1; omega
    have h1 := L.sub hf hX (in_range (by omega))
    have h2 : (rnd (a - half64)).tdiv one64 = a.sign * (rnd ((a.natAbs : Int) + half64) / one64) := by
      rw [hs, Int.neg_tdiv, Int.tdiv_eq_ediv_of_nonneg hpos, Int.sign_eq_neg_one_of_neg h]; omega
    rw [Int.sign_eq_neg_one_of_neg h] at h2 ⊢
    have h3 := L.toInt h1 (by rw [h2]; omega) (by rw [h2]; omega)
    rw [L.ofInt, h3, h2]
  · rw [decide_eq_false h, if_neg Bool.false_ne_true]
    have hs : (a.natAbs : Int) = a := by omega
    have h1 := L.add hf hX (in_range (by omega))
    rw [hs] at hm hpos hq ⊢
    have h2 : (rnd (a + half64)).tdiv one64 = rnd (a + half64) / one64 := Int.tdiv_eq_ediv_of_nonneg hpos
    have h3 := L.toInt h1 (by rw [h2]; omega) (by rw [h2]; omega)
    rw [L.ofInt, h3, h2]
    by_cases h0 : a = 0
    · subst h0
      have : rnd (0 + half64) / one64 = 0 := by decide +kernel
      rw [this]; rfl
    · rw [Int.sign_eq_one_of_pos (by omega), Int.one_mul]

/-- Nearest whole number of a nonnegative number. -/
theorem nearest_of {a : Int} (h : 0 ≤ a) : Nearest a ((a + half64) / one64) := by
  have hU := one_half
  have hU0 := one_pos
  have e := Int.mul_ediv_add_emod (a + half64) one64
  have er := Int.emod_nonneg (a + half64) (Int.ne_of_gt hU0)
  have er' := Int.emod_lt_of_pos (a + half64) hU0
  have := Int.mul_nonneg (Int.ediv_nonneg (show 0 ≤ a + half64 by omega) (Int.le_of_lt hU0)) (Int.le_of_lt hU0)
  rw [Int.mul_comm] at e
  constructor <;> omega

theorem nearest_sign {a n : Int} (h : Nearest a.natAbs n) (hn : 0 ≤ n) (ha : a ≠ 0) : Nearest a (a.sign * n) := by
  have := Int.mul_nonneg hn (Int.le_of_lt one_pos)
  obtain ⟨h1, h2⟩ := h
  by_cases hs : a < 0
  · rw [Int.sign_eq_neg_one_of_neg hs, Nearest, Int.neg_one_mul, Int.neg_mul]
    constructor <;> omega
  · rw [Int.sign_eq_one_of_pos (by omega), Nearest, Int.one_mul]
    constructor <;> omega

/-- C72 for rounding, below 2^52, except the largest number below one half and its negative.  (Missing: those two, for which the result is
±1, and odd numbers between 2^52 and 2^53, for which it is the next even number; both false, see `C72_round_below_half`,
`C72_round_mid`.  From 2^53 to 2^63 see `C72_round_high`; above, Go leaves the conversion open.) -/
theorem C72_round_partial (L : B64 E) (X : Fns E) (hX : L.val X.half = some half64) (d : Data E) (u : Bool) (ps : List (FV E)) (x : Num E) (a : Int)
    (hd : d.num = some x) (hx : x.Is L a) (h1 : ∀ f, x = .float f → a.natAbs < 2 ^ 52 * one64) (h2 : ∀ f, x = .float f → a.natAbs ≠ pred64) :
    ∃ r y n, applyFn X .round (⟨d, u⟩ :: ps) = .ok r ∧ r.d.num = some y ∧ y.Is L (n * one64) ∧ Nearest a n := by
  have hU0 := one_pos
  rw [C72_round_kind, hd]
  cases hx with
  | int v => exact ⟨_, _, _, rfl, hd, .int v, by constructor <;> omega⟩
  | uint v => exact ⟨_, _, _, rfl, hd, .uint v, by constructor <;> omega⟩
  | @float f _ hf =>
    have h1 := h1 f rfl
    have h2 := h2 f rfl
    have hrep : Rep (a.natAbs : Int) := by
      have := L.rep (L.abs hf)
      exact this
    have hlow := addHalf_low hrep (by omega) h1 h2
    have hU := one_half
    have hn52 : ((a.natAbs : Int) + half64) / one64 ≤ 2 ^ 52 := by
      apply Int.le_of_lt_add_one
      apply Int.ediv_lt_of_lt_mul hU0
      omega
    have hn0 := Int.ediv_nonneg (show 0 ≤ (a.natAbs : Int) + half64 by have := half_pos; omega) (Int.le_of_lt hU0)
    have hv := val_round L X hX hf (by omega) (by rw [hlow]; omega)
    rw [hlow] at hv
    have hsign : (a.sign * (((a.natAbs : Int) + half64) / one64)).natAbs ≤ 2 ^ 53 := by
      rw [Int.natAbs_mul]
      have : a.sign.natAbs ≤ 1 := by rw [Int.natAbs_sign]; split <;> omega
      have := Nat.mul_le_mul_right (((a.natAbs : Int) + half64) / one64).natAbs this
      omega
    rw [rnd_exact (rep_int hsign)] at hv
    refine ⟨_, _, _, rfl, rfl, .float hv, ?_⟩
    by_cases ha : a = 0
    · subst ha
      rw [Int.sign_zero, Int.zero_mul]
      constructor <;> omega
    · exact nearest_sign (nearest_of (by omega)) hn0 ha

/-- The largest number below one half is rounded to 1. -/
theorem C72_round_below_half (L : B64 E) (X : Fns E) (hX : L.val X.half = some half64) {f : E.F} (hf : L.val f = some pred64) :
    L.val (floatMathRound X f) = some one64 ∧ ¬ Nearest pred64 1 := by
  constructor
  · have h1 : (pred64.natAbs : Int) = pred64 := by decide +kernel
    have h2 : one64 / one64 = 1 := Int.ediv_self (Int.ne_of_gt one_pos)
    have := val_round L X hX hf (by decide +kernel) (by rw [h1, addHalf_pred, h2]; omega)
    rw [this, h1, addHalf_pred, h2, Int.mul_one, show pred64.sign = 1 by decide +kernel]
    congr 1
    exact rnd_exact (rep_int (z := 1) (by decide)) |>.trans (Int.one_mul _)
  · rintro ⟨h, -⟩
    revert h
    decide +kernel

/-- Between 2^52 and 2^53 odd whole numbers are rounded to the next even ones. -/
theorem C72_round_mid (L : B64 E) (X : Fns E) (hX : L.val X.half = some half64) {f : E.F} (n : Nat) (h1 : 2 ^ 52 ≤ n) (h2 : n < 2 ^ 53)
    (hf : L.val f = some (n * one64)) :
    L.val (floatMathRound X f) = some ((if n % 2 = 1 then n + 1 else n : Nat) * one64) := by
  have hU0 := one_pos
  have hna : (((n : Int) * one64).natAbs : Int) = n * one64 := by
    have := Int.mul_nonneg (show (0 : Int) ≤ n by omega) (Int.le_of_lt hU0); omega
  have hm : (if n % 2 = 1 then n + 1 else n) ≤ 2 ^ 53 := by split <;> omega
  generalize hk : (if n % 2 = 1 then n + 1 else n) = k at hm ⊢
  have e : rnd (((n : Int) * one64).natAbs + half64) / one64 = k := by
    rw [hna, addHalf_mid n h1 h2, hk, Int.mul_ediv_cancel _ (Int.ne_of_gt hU0)]
  have hlt : (n : Int) * one64 < 2 ^ 63 * one64 := Int.mul_lt_mul_of_pos_right (by omega) hU0
  have := val_round L X hX hf (by rw [hna]; exact hlt) (by rw [e]; omega)
  rw [this, e, Int.sign_eq_one_of_pos (Int.mul_pos (by omega) hU0), Int.one_mul, rnd_exact (rep_int (by omega))]

/-- From 2^53 on nothing changes. -/
theorem C72_round_high (L : B64 E) (X : Fns E) (hX : L.val X.half = some half64) {f : E.F} {a : Int} (h1 : 2 ^ 53 * one64 ≤ a.natAbs)
    (h2 : a.natAbs < 2 ^ 63 * one64) (hf : L.val f = some a) : L.val (floatMathRound X f) = some a := by
  have hU0 := one_pos
  have hrep : Rep (a.natAbs : Int) := L.rep (L.abs hf)
  have e := addHalf_high hrep h1
  have hlt : rnd ((a.natAbs : Int) + half64) / one64 < 2 ^ 63 := by
    rw [e]; exact Int.ediv_lt_of_lt_mul hU0 h2
  have hd : (a.natAbs : Int) / one64 * one64 = a.natAbs := by
    have e2 : (2 : Int) ^ (1074 + 52) * 2 = 2 ^ 53 * one64 := by rw [one64_eq, ← Int.pow_succ, ← Int.pow_add]
    have : (0 : Int) < 2 ^ (1074 + 52) := Int.pow_pos (by omega)
    obtain ⟨q, hq⟩ := rep_dvd hrep 1074 (by omega)
    rw [← one64_eq] at hq
    rw [hq, Int.mul_ediv_cancel _ (Int.ne_of_gt hU0)]
  have := val_round L X hX hf h2 hlt
  rw [this, e, Int.mul_assoc, hd, Int.sign_mul_natAbs, rnd_exact (L.rep hf)]

/-- C72 as stated is false. -/
theorem C72_negation (L : B64 E) (X : Fns E) : ¬ C72Statement L X := by
  intro h
  obtain ⟨⟨r, y, h1, h2, h3⟩, -⟩ := h (.int (-9007199254740993)) true _ _ rfl (.int _)
  obtain ⟨w, g1, g2⟩ := C72_abs_large L X
  rw [g1] at h1
  obtain rfl := Res.ok.inj h1
  obtain rfl := Option.some.inj h2
  generalize hz : ((((-9007199254740993 : BitVec 64).toInt * one64).natAbs : Int)) = z at h3
  cases h3
  rw [g2] at hz
  revert hz
  decide +kernel

/-! ### Examples -/

/-- The constants. -/
def fns64 : Fns ext64 := ⟨fun _ x => x, fun _ x _ => x, mk64 half64, mk64 (180 * one64), mk64 (884279719003555 * 2 ^ 1025), fun _ => none⟩

theorem fns64_half : laws64.val fns64.half = some half64 :=
  (val_mk (by decide +kernel)).trans (congrArg some (rnd_exact ⟨1, 1073, by decide, by rw [Int.one_mul, half64_eq]⟩))

/-- 0.49999999999999994 is that number. -/
example : val64 (ext64.parseFloat (txt "0.49999999999999994")).1 = some pred64 := by decide +kernel

/-- `ROUND(0.49999999999999994)` is 1, `ROUND(4503599627370497.0)` is 4503599627370498. -/
example : val64 (floatMathRound fns64 (ext64.parseFloat (txt "0.49999999999999994")).1) = some one64 ∧
    val64 (floatMathRound fns64 (ext64.parseFloat (txt "4503599627370497")).1) = some (4503599627370498 * one64) ∧
    val64 (floatMathRound fns64 (ext64.parseFloat (txt "-2.5")).1) = some (-3 * one64) := by decide +kernel

example : ∃ r y n, applyFn fns64 .round [⟨.float (ext64.parseFloat (txt "-2.5")).1, true⟩] = .ok r ∧ r.d.num = some y ∧ y.Is laws64 (n * one64) ∧
    Nearest (-5 * half64) n := by
  have hv : laws64.val (ext64.parseFloat (txt "-2.5")).1 = some (-5 * half64) := by decide +kernel
  refine C72_round_partial laws64 fns64 fns64_half _ _ _ _ _ rfl (.float hv) ?_ ?_
  · intro _ _; decide +kernel
  · intro _ _; decide +kernel

example : ∃ r y, applyFn fns64 .abs [⟨.int (-7), true⟩] = .ok r ∧ r.d.num = some y ∧ y.Is laws64 (((-7 : BitVec 64).toInt * one64).natAbs) :=
  C72_abs_partial laws64 fns64 _ _ _ _ _ rfl (.int _) (by intro v hv; cases hv; exact ⟨⟨-7, 0, by decide, by decide⟩, by decide⟩)

/-- The least integer keeps its sign (on amd64). -/
example : ext64.toInt (ext64.abs (ext64.ofInt 9223372036854775808#64)) = 9223372036854775808#64 := by decide +kernel

end Verif.FastVal
