import Verif.FastVal.Theorems

/-!
# Model of fastval_math.go and the arithmetic properties C20, C21, C41

The trigonometric and exponential functions of Go's `math` package enter only through `genericFastValFloatOp`, which is
modelled for an arbitrary operation.
-/

namespace Verif.FastVal

variable {E : Ext}

/-- `NewInvalidFastVal()`, fastval.go: not user defined. -/
def invalidV : FV E := ⟨.invalid, false⟩

/-- `genericFastVal2IntsOp`, fastval_math.go:129-137; the operation may panic. -/
def op2Ints (a b : Data E) (op : BitVec 64 → BitVec 64 → Res (BitVec 64)) : Res (FV E) :=
  if !a.ty.isNumeric || !b.ty.isNumeric || !a.asInt.2 || !b.asInt.2 then .ok invalidV
  else op a.asInt.1 b.asInt.1 >>= fun r => .ok ⟨.int r, false⟩

/-- `genericFastVal2UintsOp`, fastval_math.go:139-147. -/
def op2Uints (a b : Data E) (op : BitVec 64 → BitVec 64 → Res (BitVec 64)) : Res (FV E) :=
  if !a.ty.isNumeric || !b.ty.isNumeric || !a.asUint.2 || !b.asUint.2 then .ok invalidV
  else op a.asUint.1 b.asUint.1 >>= fun r => .ok ⟨.uint r, false⟩

/-- `genericFastValIntOp`, fastval_math.go:149-156. -/
def opInt (a : Data E) (op : BitVec 64 → BitVec 64) : FV E :=
  if a.asInt.2 && a.ty.isNumeric then ⟨.int (op a.asInt.1), false⟩ else invalidV

/-- `genericFastValFloatOp`, fastval_math.go:158-165. -/
def opFloat (a : Data E) (op : E.F → E.F) : FV E :=
  if a.asFloat.2 && a.ty.isNumeric then ⟨.float (op a.asFloat.1), false⟩ else invalidV

/-- `genericFastVal2FloatsOp`, fastval_math.go:167-175. -/
def op2Floats (a b : Data E) (op : E.F → E.F → E.F) : Res (FV E) :=
  if !a.ty.isNumeric || !b.ty.isNumeric || !a.asFloat.2 || !b.asFloat.2 then .ok invalidV
  else .ok ⟨.float (op a.asFloat.1 b.asFloat.1), false⟩

/-- `a / b` on `int64`: truncates, wraps for the least value by −1, panics for a zero divisor. -/
def sdivOp (a b : BitVec 64) : Res (BitVec 64) := if b = 0#64 then .panic else .ok (a.sdiv b)
/-- `a % b` on `int64`. -/
def sremOp (a b : BitVec 64) : Res (BitVec 64) := if b = 0#64 then .panic else .ok (a.srem b)
/-- `a / b` on `uint64`. -/
def udivOp (a b : BitVec 64) : Res (BitVec 64) := if b = 0#64 then .panic else .ok (a / b)
/-- `a % b` on `uint64`. -/
def umodOp (a b : BitVec 64) : Res (BitVec 64) := if b = 0#64 then .panic else .ok (a % b)

/-- `fastValMathAddMultSharedLogic`, fastval_math.go:241-312. -/
def addMul (a b : Data E) (op : BitVec 64 → BitVec 64 → BitVec 64) (fop : E.F → E.F → E.F) : Res (FV E) :=
  let bop := fun x y => Res.ok (op x y)
  if a.ty.isUInt then
    if b.ty.isUInt then op2Uints a b bop
    else if b.ty.isInt then
      if b.asInt.2 = false then .ok invalidV
      else if b.asInt.1.toInt ≥ 0 then op2Uints a b bop
      else if a.asUint.2 = false ∨ a.asUint.1.toNat > maxInt64 then .ok invalidV
      else op2Ints a b bop
    else if b.ty.isFloat then op2Floats a b fop
    else .ok invalidV
  else if a.ty.isInt then
    if b.ty.isUInt then
      if a.asInt.2 = false then .ok invalidV
      else if a.asInt.1.toInt ≥ 0 then op2Uints a b bop
      else if b.asUint.2 = false ∨ b.asUint.1.toNat > maxInt64 then .ok invalidV
      else op2Ints a b bop
    else if b.ty.isInt then op2Ints a b bop
    else if b.ty.isFloat then op2Floats a b fop
    else .ok invalidV
  else if a.ty.isFloat then op2Floats a b fop
  else .ok invalidV

/-- `FastValMathAdd`, fastval_math.go:314-316. -/
def mathAdd (a b : Data E) : Res (FV E) := addMul a b (· + ·) E.add

/-- `FastValMathMul`, fastval_math.go:318-320. -/
def mathMul (a b : Data E) : Res (FV E) := addMul a b (· * ·) E.mul

/-- `FastValMathSub`, fastval_math.go:322-419. -/
def mathSub (a b : Data E) : Res (FV E) :=
  let sub := fun x y : BitVec 64 => Res.ok (x - y)
  if a.ty.isUInt then
    if b.ty.isUInt then
      if a.asUint.2 = false ∨ b.asUint.2 = false then .ok invalidV
      else if a.asUint.1.toNat ≥ b.asUint.1.toNat then op2Uints a b sub
      else op2Ints a b sub
    else if b.ty.isInt then
      if a.asUint.2 = false ∨ b.asInt.2 = false then .ok invalidV
      else if b.asInt.1.toInt ≥ 0 then
        if b.asUint.2 = false then .ok invalidV
        else if b.asUint.1.toNat > a.asUint.1.toNat then op2Ints a b sub
        else op2Uints a b sub
      else op2Uints a (.int (-b.asInt.1)) (fun x y => Res.ok (x + y))
    else if b.ty.isFloat then op2Floats a b E.sub
    else .ok invalidV
  else if a.ty.isInt then
    if b.ty.isUInt then
      if a.asInt.2 = false ∨ b.asUint.2 = false then .ok invalidV
      else if b.asUint.1.toNat > maxInt64 then op2Floats a b E.sub
      else if a.asInt.1.toInt ≥ 0 then
        if a.asInt.1.toInt > b.asInt.1.toInt then op2Uints a b sub else op2Ints a b sub
      else op2Ints a b sub
    else if b.ty.isInt then op2Ints a b sub
    else if b.ty.isFloat then op2Floats a b E.sub
    else .ok invalidV
  else if a.ty.isFloat then op2Floats a b E.sub
  else .ok invalidV

/-- The integer part common to `FastValMathDiv` (421-493) and `FastValMathMod` (495-555): `sop`, `uop` are the signed and
unsigned operations, `wide` what happens for a negative dividend and a divisor above the signed range, `fl` what happens
for a float divisor. -/
def divMod (a b : Data E) (sop uop : BitVec 64 → BitVec 64 → Res (BitVec 64)) (wide fl : Res (FV E)) : Res (FV E) :=
  if a.ty.isUInt then
    if b.ty.isUInt then
      if b.asUint.2 = false ∨ b.asUint.1 = 0#64 then .ok invalidV else op2Uints a b uop
    else if b.ty.isInt then
      if b.asInt.2 = false ∨ b.asInt.1 = 0#64 then .ok invalidV
      else if b.asInt.1.toInt > 0 then op2Uints a b uop
      else op2Ints a b sop
    else if b.ty.isFloat then fl
    else .ok invalidV
  else if a.ty.isInt then
    if a.asInt.2 = false then .ok invalidV
    else if b.ty.isUInt then
      if b.asUint.2 = false ∨ (a.asInt.1.toInt < 0 ∧ b.asUint.1.toNat > maxInt64) then wide
      else if a.asInt.1.toInt ≥ 0 then op2Uints a b uop
      else op2Ints a b sop
    else if b.ty.isInt then op2Ints a b sop
    else if b.ty.isFloat then fl
    else .ok invalidV
  else .ok invalidV

/-- `FastValMathDiv`, fastval_math.go:421-493. -/
def mathDiv (a b : Data E) : Res (FV E) :=
  if a.ty.isFloat then op2Floats a b E.div
  else divMod a b sdivOp udivOp (op2Floats a b E.div) (op2Floats a b E.div)

/-- `FastValMathMod`, fastval_math.go:495-555: floats are not accepted. -/
def mathMod (a b : Data E) : Res (FV E) := divMod a b sremOp umodOp (.ok invalidV) (.ok invalidV)

/-- `FastValMathNeg`, fastval_math.go:557-578; `-1 * a` on words. -/
def mathNeg (a : Data E) : FV E :=
  if a.ty.isUInt then
    if a.asUint.1.toNat > maxInt64 then invalidV else opInt a (fun x => 18446744073709551615#64 * x)
  else if a.ty.isInt then opInt a (fun x => 18446744073709551615#64 * x)
  else if a.ty.isFloat then opFloat a E.neg
  else invalidV

/-! ### C20 -/

/-- Two's complement word of a mathematical integer. -/
abbrev word (z : Int) : BitVec 64 := BitVec.ofInt 64 z

theorem word_toInt (v : BitVec 64) : word v.toInt = v := BitVec.ofInt_toInt

theorem word_toNat (v : BitVec 64) : word (v.toNat : Int) = v := by
  rw [word, BitVec.ofInt_natCast]; simp

theorem word_add (x y : Int) : word (x + y) = word x + word y := by simp [word, BitVec.ofInt_add]
theorem word_mul (x y : Int) : word (x * y) = word x * word y := by simp [word, BitVec.ofInt_mul]
theorem word_neg (x : Int) : word (-x) = - word x := by simp [word, BitVec.ofInt_neg]
theorem word_sub (x y : Int) : word (x - y) = word x - word y := by
  rw [Int.sub_eq_add_neg, word_add, word_neg, BitVec.sub_eq_add_neg]

/-- The word of a representable integer stands for it. -/
theorem word_exact_signed (z : Int) (h : -(2 ^ 63) ≤ z ∧ z < 2 ^ 63) : (word z).toInt = z := by
  rw [word, BitVec.toInt_ofInt]
  exact Int.bmod_eq_of_le (by simp; omega) (by simp; omega)

theorem word_exact_unsigned (z : Int) (h : 0 ≤ z ∧ z < 2 ^ 64) : ((word z).toNat : Int) = z := by
  rw [word, BitVec.toNat_ofInt]
  have : z % (2 ^ 64 : Nat) = z := Int.emod_eq_of_lt h.1 (by simpa using h.2)
  rw [this]
  omega

theorem toInt_eq_toNat (v : BitVec 64) (h : v.toInt ≥ 0 ∨ v.toNat ≤ maxInt64) : v.toInt = v.toNat := by
  have h1 := v.isLt
  rw [toInt_cond] at *
  simp only [maxInt64] at h
  split
  · rfl
  · split at h <;> omega

theorem nat_le_iff (v : BitVec 64) : v.toNat ≤ maxInt64 ↔ v.toInt ≥ 0 := by
  have h1 := v.isLt
  rw [toInt_cond]
  simp only [maxInt64]
  split <;> omega

/-- Result of an addition-like operation `f` on integers: exact word, with the kind of the result by the kinds of the
operands; `none` where the code reports an invalid value. -/
def ringSpec (f : Int → Int → Int) : Data E → Data E → Option (Data E)
  | .int x, .int y => some (.int (word (f x.toInt y.toInt)))
  | .uint x, .uint y => some (.uint (word (f x.toNat y.toNat)))
  | .uint x, .int y =>
    if y.toInt > 0 then some (.uint (word (f x.toNat y.toInt)))
    else if y.toInt < 0 ∧ x.toNat < 2 ^ 63 then some (.int (word (f x.toNat y.toInt)))
    else none
  | .int x, .uint y =>
    if x.toInt > 0 then some (.uint (word (f x.toInt y.toNat)))
    else if x.toInt < 0 ∧ y.toNat < 2 ^ 63 then some (.int (word (f x.toInt y.toNat)))
    else none
  | _, _ => none

/-- The value produced: a fresh value of the given kind, or the invalid value. -/
def outV : Option (Data E) → Res (FV E)
  | some d => .ok ⟨d, false⟩
  | none => .ok invalidV

theorem addMul_spec (f : Int → Int → Int) (op : BitVec 64 → BitVec 64 → BitVec 64) (fop : E.F → E.F → E.F)
    (hop : ∀ x y, word (f x y) = op (word x) (word y)) (a b : Data E) (x y : Int) (ha : Denotes a x)
    (hb : Denotes b y) : addMul a b op fop = outV (ringSpec f a b) := by
  cases ha with
  | int v =>
    cases hb with
    | int w =>
      simp [addMul, Ty.isUInt, Ty.isInt, Ty.isNumeric, Data.ty, op2Ints, Data.asInt, ringSpec, outV, hop, word_toInt]
    | uint w =>
      have h0 : (v.toInt ≥ 0) = (0 ≤ v.toInt) := rfl
      by_cases h1 : v.toInt > 0
      · have h2 : 0 ≤ v.toInt := by omega
        simp [addMul, Ty.isUInt, Ty.isInt, Ty.isNumeric, Data.ty, op2Uints, Data.asInt, Data.asUint, ringSpec, outV, hop,
          word_toInt, word_toNat, h1, h2]
      · by_cases h2 : 0 ≤ v.toInt
        · have h3 : ¬ v.toInt < 0 := by omega
          simp [addMul, Ty.isUInt, Ty.isInt, Ty.isNumeric, Data.ty, op2Uints, Data.asInt, Data.asUint, ringSpec, outV,
            h1, h2, h3]
        · have h3 : v.toInt < 0 := by omega
          by_cases h4 : w.toNat > maxInt64
          · have h5 : ¬ w.toNat < 2 ^ 63 := by simp only [maxInt64] at h4; omega
            simp [addMul, Ty.isUInt, Ty.isInt, Data.ty, Data.asInt, Data.asUint, ringSpec, outV,
              h1, h2, h3, h4, h5]
          · have h5 : w.toNat < 2 ^ 63 := by simp only [maxInt64] at h4; omega
            have h6 : w.toNat ≤ maxInt64 := by omega
            simp [addMul, Ty.isUInt, Ty.isInt, Ty.isNumeric, Data.ty, op2Ints, Data.asInt, Data.asUint, ringSpec, outV,
              h1, h2, h3, h4, h5, h6, hop, word_toInt, word_toNat]
  | uint v =>
    cases hb with
    | uint w =>
      simp [addMul, Ty.isUInt, Ty.isNumeric, Data.ty, op2Uints, Data.asUint, ringSpec, outV, hop, word_toNat]
    | int w =>
      by_cases h1 : w.toInt > 0
      · have h2 : 0 ≤ w.toInt := by omega
        simp [addMul, Ty.isUInt, Ty.isInt, Ty.isNumeric, Data.ty, op2Uints, Data.asInt, Data.asUint, ringSpec, outV, hop,
          word_toInt, word_toNat, h1, h2]
      · by_cases h2 : 0 ≤ w.toInt
        · have h3 : ¬ w.toInt < 0 := by omega
          simp [addMul, Ty.isUInt, Ty.isInt, Ty.isNumeric, Data.ty, op2Uints, Data.asInt, Data.asUint, ringSpec, outV,
            h1, h2, h3]
        · have h3 : w.toInt < 0 := by omega
          by_cases h4 : v.toNat > maxInt64
          · have h5 : ¬ v.toNat < 2 ^ 63 := by simp only [maxInt64] at h4; omega
            simp [addMul, Ty.isUInt, Ty.isInt, Data.ty, Data.asInt, Data.asUint, ringSpec, outV,
              h1, h2, h3, h4, h5]
          · have h5 : v.toNat < 2 ^ 63 := by simp only [maxInt64] at h4; omega
            have h6 : v.toNat ≤ maxInt64 := by omega
            simp [addMul, Ty.isUInt, Ty.isInt, Ty.isNumeric, Data.ty, op2Ints, Data.asInt, Data.asUint, ringSpec, outV,
              h1, h2, h3, h4, h5, h6, hop, word_toInt, word_toNat]

/-- Result of a subtraction; `none` where the code reports an invalid value, `inr ()` where it falls back to floats. -/
def subSpec : Data E → Data E → Option (Data E) ⊕ Unit
  | .int x, .int y => .inl (some (.int (word (x.toInt - y.toInt))))
  | .uint x, .uint y =>
    if y.toNat ≤ x.toNat then .inl (some (.uint (word ((x.toNat : Int) - y.toNat))))
    else if y.toNat < 2 ^ 63 then .inl (some (.int (word ((x.toNat : Int) - y.toNat))))
    else .inl none
  | .uint x, .int y =>
    if y.toInt = 0 ∨ y.toInt = -(2 ^ 63) then .inl none
    else if y.toInt > x.toNat then .inl (some (.int (word ((x.toNat : Int) - y.toInt))))
    else .inl (some (.uint (word ((x.toNat : Int) - y.toInt))))
  | .int x, .uint y =>
    if 2 ^ 63 ≤ y.toNat then .inr ()
    else if x.toInt > y.toNat then .inl (some (.uint (word (x.toInt - y.toNat))))
    else .inl (some (.int (word (x.toInt - y.toNat))))
  | _, _ => .inl none

theorem sub_spec (a b : Data E) (x y : Int) (ha : Denotes a x) (hb : Denotes b y) :
    mathSub a b = match subSpec a b with
      | .inl o => outV o
      | .inr () => op2Floats a b E.sub := by
  cases ha with
  | int v =>
    cases hb with
    | int w =>
      simp [mathSub, Ty.isUInt, Ty.isInt, Ty.isNumeric, Data.ty, op2Ints, Data.asInt, subSpec, outV, word_sub,
        word_toInt]
    | uint w =>
      by_cases h1 : w.toNat > maxInt64
      · have h2 : 2 ^ 63 ≤ w.toNat := by simp only [maxInt64] at h1; omega
        have h2' : 9223372036854775808 ≤ w.toNat := h2
        simp [mathSub, Ty.isUInt, Ty.isInt, Data.ty, Data.asInt, Data.asUint, subSpec, h1, h2']
      · have h2 : ¬ 9223372036854775808 ≤ w.toNat := by simp only [maxInt64] at h1; omega
        have h3 : w.toNat ≤ maxInt64 := by omega
        have h4 : w.toInt = w.toNat := toInt_eq_toNat w (Or.inr h3)
        by_cases h5 : v.toInt > w.toNat
        · have h6 : 0 ≤ v.toInt := by omega
          have h7 : 0 < v.toInt := by omega
          simp [mathSub, Ty.isUInt, Ty.isInt, Ty.isNumeric, Data.ty, op2Uints, Data.asInt, Data.asUint, subSpec, outV,
            h1, h2, h4, h5, h6, h7, word_sub, word_toInt, word_toNat]
        · by_cases h6 : 0 ≤ v.toInt
          · simp [mathSub, Ty.isUInt, Ty.isInt, Ty.isNumeric, Data.ty, op2Ints, Data.asInt, Data.asUint, subSpec, outV,
              h1, h2, h3, h4, h5, h6, word_sub, word_toInt, word_toNat]
          · simp [mathSub, Ty.isUInt, Ty.isInt, Ty.isNumeric, Data.ty, op2Ints, Data.asInt, Data.asUint, subSpec, outV,
              h1, h2, h3, h5, h6, word_sub, word_toInt, word_toNat]
  | uint v =>
    cases hb with
    | uint w =>
      by_cases h1 : w.toNat ≤ v.toNat
      · simp [mathSub, Ty.isUInt, Ty.isNumeric, Data.ty, op2Uints, Data.asUint, subSpec, outV, h1, word_sub,
          word_toNat]
      · by_cases h2 : w.toNat ≤ maxInt64
        · have h3 : w.toNat < 9223372036854775808 := by simp only [maxInt64] at h2; omega
          have h4 : v.toNat ≤ maxInt64 := by omega
          simp [mathSub, Ty.isUInt, Ty.isNumeric, Data.ty, op2Ints, Data.asUint, Data.asInt, subSpec, outV, h1, h2, h3,
            h4, word_sub, word_toNat]
        · have h3 : ¬ w.toNat < 9223372036854775808 := by simp only [maxInt64] at h2; omega
          simp [mathSub, Ty.isUInt, Ty.isNumeric, Data.ty, op2Ints, Data.asUint, Data.asInt, subSpec, outV, h1, h2, h3]
    | int w =>
      have hv := v.isLt
      by_cases h0 : w.toInt = 0
      · have : ¬ 0 < w.toInt := by omega
        simp [mathSub, Ty.isUInt, Ty.isInt, Data.ty, Data.asUint, Data.asInt, subSpec, outV, h0]
      · by_cases h1 : 0 ≤ w.toInt
        · have h2 : 0 < w.toInt := by omega
          have h3 : w.toInt = w.toNat := toInt_eq_toNat w (Or.inl h1)
          have h4 : ¬ (w.toNat : Int) = -9223372036854775808 := by omega
          have h0' : ¬ w.toNat = 0 := by omega
          have h1' : (0 : Int) ≤ w.toNat := by omega
          have h2' : 0 < w.toNat := by omega
          by_cases h5 : w.toNat > v.toNat
          · have h6 : v.toNat ≤ maxInt64 := by have := (nat_le_iff w).2 h1; omega
            simp [mathSub, Ty.isUInt, Ty.isInt, Ty.isNumeric, Data.ty, op2Ints, Data.asInt, Data.asUint, subSpec, outV,
              h0', h2', h3, h4, h5, h6, word_sub, word_toNat]
          · simp [mathSub, Ty.isUInt, Ty.isInt, Ty.isNumeric, Data.ty, op2Uints, Data.asInt, Data.asUint, subSpec, outV,
              h0', h2', h3, h4, h5, word_sub, word_toNat]
        · by_cases h6 : w.toInt = -9223372036854775808
          · have h7 : ¬ 0 < (-w).toInt := by
              have : w = word (-9223372036854775808) := by rw [← h6, word_toInt]
              subst this; decide
            simp [mathSub, Ty.isUInt, Ty.isInt, Ty.isNumeric, Data.ty, op2Uints, Data.asUint, Data.asInt, subSpec, outV,
              h6, h7]
          · have hw : -(2 ^ 63) ≤ w.toInt := BitVec.le_toInt w
            have h7 : (-w).toInt = -w.toInt := by
              have : -w = word (-w.toInt) := by rw [word_neg, word_toInt]
              rw [this, word_exact_signed]; omega
            have h8 : 0 < (-w).toInt := by omega
            have h8' : w.toInt < 0 := by omega
            have h9 : ¬ w.toInt > v.toNat := by omega
            simp [mathSub, Ty.isUInt, Ty.isInt, Ty.isNumeric, Data.ty, op2Uints, Data.asUint, Data.asInt, subSpec, outV,
              h0, h1, h6, h7, h8', h9, word_sub, word_toNat, word_toInt, BitVec.sub_eq_add_neg]

/-- C20: addition of integers gives the two's complement word of the mathematical sum, of the kind tabulated by
`ringSpec`; hence the exact sum whenever it is representable (`word_exact_signed`, `word_exact_unsigned`). -/
theorem C20_add (a b : Data E) (x y : Int) (ha : Denotes a x) (hb : Denotes b y) :
    mathAdd a b = outV (ringSpec (· + ·) a b) := addMul_spec _ _ _ word_add a b x y ha hb

theorem C20_mul (a b : Data E) (x y : Int) (ha : Denotes a x) (hb : Denotes b y) :
    mathMul a b = outV (ringSpec (· * ·) a b) := addMul_spec _ _ _ word_mul a b x y ha hb

theorem C20_sub (a b : Data E) (x y : Int) (ha : Denotes a x) (hb : Denotes b y) :
    mathSub a b = match subSpec a b with
      | .inl o => outV o
      | .inr () => op2Floats a b E.sub := sub_spec a b x y ha hb

/-- C20: negation is exact for every representable result; the least `int64` negates to itself, an unsigned value above
the signed range is reported invalid. -/
theorem C20_neg (a : Data E) (x : Int) (ha : Denotes a x) :
    mathNeg a = if 2 ^ 63 ≤ x then invalidV else ⟨.int (word (-x)), false⟩ := by
  have key : ∀ v : BitVec 64, 18446744073709551615#64 * v = -v := by
    intro v
    rw [← word_toInt v, ← word_neg, show 18446744073709551615#64 = word (-1) from rfl, ← word_mul]
    congr 1; omega
  cases ha with
  | int v =>
    have hv := BitVec.toInt_lt (x := v)
    have hv' : ¬ 2 ^ 63 ≤ v.toInt := by simp at hv; omega
    rw [if_neg hv', word_neg, word_toInt]
    simp [mathNeg, Ty.isUInt, Ty.isInt, Ty.isNumeric, Data.ty, opInt, Data.asInt, key]
  | uint v =>
    by_cases h : v.toNat ≤ maxInt64
    · have h1 : ¬ (2 ^ 63 : Int) ≤ v.toNat := by simp only [maxInt64] at h; omega
      have h2 : ¬ maxInt64 < v.toNat := by omega
      rw [if_neg h1, word_neg, word_toNat]
      simp [mathNeg, Ty.isUInt, Ty.isInt, Ty.isNumeric, Data.ty, opInt, Data.asInt, Data.asUint, key, h, h2]
    · have h1 : (2 ^ 63 : Int) ≤ v.toNat := by simp only [maxInt64] at h; omega
      have h2 : maxInt64 < v.toNat := by omega
      rw [if_pos h1]
      simp [mathNeg, Ty.isUInt, Data.ty, Data.asUint, h2]

/-- C20, read off the tables: every valid result of an addition stands for the sum modulo 2^64, and for the sum itself if
that fits the kind of the result. -/
theorem C20_add_exact (a b r : Data E) (x y : Int) (ha : Denotes a x) (hb : Denotes b y)
    (h : mathAdd a b = .ok ⟨r, false⟩) (hr : r.ty ≠ .invalid) :
    (∃ w, r = .int w ∧ w = word (x + y) ∧ (-(2 ^ 63) ≤ x + y ∧ x + y < 2 ^ 63 → w.toInt = x + y)) ∨
    (∃ w, r = .uint w ∧ w = word (x + y) ∧ (0 ≤ x + y ∧ x + y < 2 ^ 64 → (w.toNat : Int) = x + y)) := by
  rw [C20_add a b x y ha hb] at h
  have key : ringSpec (· + ·) a b = some r ∨ r = .invalid := by
    rcases hs : ringSpec (· + ·) a b with _ | d
    · rw [hs] at h; simp only [outV, invalidV, Res.ok.injEq, FV.mk.injEq, and_true] at h; exact Or.inr h.symm
    · rw [hs] at h; simp only [outV, Res.ok.injEq, FV.mk.injEq, and_true] at h; exact Or.inl (by rw [h])
  rcases key with key | key
  · have : r = .int (word (x + y)) ∨ r = .uint (word (x + y)) := by
      cases ha <;> cases hb <;> simp only [ringSpec] at key
      · exact Or.inl (Option.some.inj key).symm
      · split at key
        · exact Or.inr (Option.some.inj key).symm
        · split at key
          · exact Or.inl (Option.some.inj key).symm
          · cases key
      · split at key
        · exact Or.inr (Option.some.inj key).symm
        · split at key
          · exact Or.inl (Option.some.inj key).symm
          · cases key
      · exact Or.inr (Option.some.inj key).symm
    rcases this with rfl | rfl
    · exact Or.inl ⟨_, rfl, rfl, word_exact_signed _⟩
    · exact Or.inr ⟨_, rfl, rfl, word_exact_unsigned _⟩
  · exact absurd (by rw [key]; rfl) hr

example : mathAdd (E := E) (.int (word (-3))) (.uint 5) = .ok ⟨.int 2, false⟩ := by
  rw [C20_add _ _ _ _ (.int _) (.uint _)]; rfl

example : mathSub (E := E) (.uint 3) (.uint 5) = .ok ⟨.int (word (-2)), false⟩ := by
  rw [C20_sub _ _ _ _ (.uint _) (.uint _)]; rfl

/-- C20, deviation: adding (or subtracting, or multiplying by) a signed zero makes an unsigned value invalid. -/
theorem C20_signed_zero_invalid (v : BitVec 64) :
    mathAdd (E := E) (.uint v) (.int 0) = .ok invalidV ∧ mathSub (E := E) (.uint v) (.int 0) = .ok invalidV ∧
    mathMul (E := E) (.uint v) (.int 0) = .ok invalidV ∧ mathAdd (E := E) (.int 0) (.uint v) = .ok invalidV := by
  refine ⟨?_, ?_, ?_, ?_⟩
  · rw [C20_add _ _ _ _ (.uint _) (.int _)]; rfl
  · rw [C20_sub _ _ _ _ (.uint _) (.int _)]; rfl
  · rw [C20_mul _ _ _ _ (.uint _) (.int _)]; rfl
  · rw [C20_add _ _ _ _ (.int _) (.uint _)]; rfl

/-! ### C21 -/

/-- The operand pairs on which division and modulo crash: a signed dividend that parses, and a divisor that is a signed
zero, or an unsigned zero while the dividend is not zero. -/
def Crashes (a b : Data E) : Prop :=
  a.ty.isInt = true ∧ a.asInt.2 = true ∧
    ((b.ty.isInt = true ∧ b.asInt = (0#64, true)) ∨
      (b.ty.isUInt = true ∧ b.asUint = (0#64, true) ∧ a.asInt.1 ≠ 0#64))

/-- C21, full statement (false, see `C21_counterexample`). -/
def C21Statement (E : Ext) : Prop := ∀ a b : Data E, mathDiv a b ≠ .panic ∧ mathMod a b ≠ .panic

theorem op2Ints_panic (a b : Data E) (op : BitVec 64 → BitVec 64 → Res (BitVec 64)) :
    op2Ints a b op = .panic ↔ (a.ty.isNumeric = true ∧ b.ty.isNumeric = true ∧ a.asInt.2 = true ∧ b.asInt.2 = true) ∧
      op a.asInt.1 b.asInt.1 = .panic := by
  unfold op2Ints
  split
  · rename_i h
    constructor
    · intro h'; cases h'
    · rintro ⟨⟨h1, h2, h3, h4⟩, -⟩; simp [h1, h2, h3, h4] at h
  · rename_i h
    simp only [Bool.or_eq_true, Bool.not_eq_true', not_or, Bool.not_eq_false] at h
    rcases ho : op a.asInt.1 b.asInt.1 <;> simp [h]

theorem op2Uints_panic (a b : Data E) (op : BitVec 64 → BitVec 64 → Res (BitVec 64)) :
    op2Uints a b op = .panic ↔
      (a.ty.isNumeric = true ∧ b.ty.isNumeric = true ∧ a.asUint.2 = true ∧ b.asUint.2 = true) ∧
      op a.asUint.1 b.asUint.1 = .panic := by
  unfold op2Uints
  split
  · rename_i h
    constructor
    · intro h'; cases h'
    · rintro ⟨⟨h1, h2, h3, h4⟩, -⟩; simp [h1, h2, h3, h4] at h
  · rename_i h
    simp only [Bool.or_eq_true, Bool.not_eq_true', not_or, Bool.not_eq_false] at h
    rcases ho : op a.asUint.1 b.asUint.1 <;> simp [h]

theorem op2Floats_panic (a b : Data E) (op : E.F → E.F → E.F) : op2Floats a b op ≠ .panic := by
  unfold op2Floats; split <;> simp

/-- On signed kinds, `AsUint` is valid exactly for positive values, and then agrees with `AsInt`. -/
theorem asUint_of_int (a : Data E) (ha : a.ty.isInt = true) (hv : a.asInt.2 = true) :
    (a.asUint.2 = true ↔ a.asInt.1.toInt > 0) := by
  cases a <;> simp [Ty.isInt, Data.ty] at ha
  · simp only [Data.asUint, Data.asInt]; split <;> simp_all
  · simp only [Data.asInt] at hv
    simp only [Data.asUint, Data.asInt, hv, true_and]; split <;> simp_all

/-- On unsigned kinds, a valid zero is a valid signed zero. -/
theorem asInt_of_uint (b : Data E) (hb : b.ty.isUInt = true) (hv : b.asUint.2 = true) (hm : b.asUint.1.toNat ≤ maxInt64) :
    b.asInt = (b.asUint.1, true) := by
  cases b <;> simp [Ty.isUInt, Data.ty] at hb
  · simp only [Data.asUint, Data.asInt] at *; simp [hm]
  · simp only [Data.asUint] at hv hm
    simp only [Data.asUint, Data.asInt, hv, true_and]
    rw [if_neg (by omega)]

theorem divMod_panic (a b : Data E) (sop uop : BitVec 64 → BitVec 64 → Res (BitVec 64)) (wide fl : Res (FV E))
    (hs : ∀ x y, sop x y = .panic ↔ y = 0#64) (hu : ∀ x y, uop x y = .panic ↔ y = 0#64) (hw : wide ≠ .panic)
    (hf : fl ≠ .panic) : divMod a b sop uop wide fl = .panic ↔ Crashes a b := by
  have hz : ∀ v : BitVec 64, v ≠ 0#64 ↔ v.toInt ≠ 0 := by
    intro v; rw [Ne, Ne, ← BitVec.toInt_inj]; simp
  have uiNum : ∀ t : Ty, t.isUInt = true → t.isNumeric = true := by
    intro t h; simp [Ty.isNumeric, h]
  have iNum : ∀ t : Ty, t.isInt = true → t.isNumeric = true := by
    intro t h; simp [Ty.isNumeric, h]
  have disj : ∀ t : Ty, t.isUInt = true → t.isInt = false := by
    intro t; cases t <;> simp [Ty.isUInt, Ty.isInt]
  unfold divMod
  by_cases hau : a.ty.isUInt = true
  · have hnc : ¬ Crashes a b := fun h => by have := h.1; rw [disj _ hau] at this; cases this
    rw [if_pos hau]
    refine ⟨fun h => ?_, fun h => absurd h hnc⟩
    exfalso
    by_cases hbu : b.ty.isUInt = true
    · rw [if_pos hbu] at h
      split at h
      · cases h
      · rename_i hc
        rw [op2Uints_panic, hu] at h
        exact hc (Or.inr h.2)
    · rw [if_neg hbu] at h
      by_cases hbi : b.ty.isInt = true
      · rw [if_pos hbi] at h
        split at h
        · cases h
        · rename_i hc
          split at h
          · rename_i hp
            rw [op2Uints_panic, hu] at h
            have : b.asInt.1 = b.asUint.1 := by
              cases b <;> simp [Ty.isInt, Data.ty] at hbi
              · simp only [Data.asUint, Data.asInt] at *
                split <;> simp_all
              · rename_i s
                have hv : (Data.asInt (E := E) (.jsonInt s)).2 = true := by
                  rcases hh : (Data.asInt (E := E) (.jsonInt s)).2
                  · exact absurd (Or.inl hh) hc
                  · rfl
                simp only [Data.asUint, Data.asInt] at *
                rw [if_pos ⟨hv, hp⟩]
            exact hc (Or.inr (this.trans h.2))
          · rw [op2Ints_panic, hs] at h
            exact hc (Or.inr h.2)
      · rw [if_neg hbi] at h
        split at h
        · exact hf h
        · cases h
  · rw [if_neg hau]
    by_cases hai : a.ty.isInt = true
    · rw [if_pos hai]
      by_cases hav : a.asInt.2 = false
      · rw [if_pos hav]
        constructor
        · intro h; cases h
        · intro h; rw [h.2.1] at hav; cases hav
      · rw [if_neg hav]
        have hav : a.asInt.2 = true := by simpa using hav
        by_cases hbu : b.ty.isUInt = true
        · rw [if_pos hbu]
          have hbi : b.ty.isInt = false := disj _ hbu
          have hcr : Crashes a b ↔ b.asUint = (0#64, true) ∧ a.asInt.1 ≠ 0#64 := by
            simp [Crashes, hai, hav, hbi, hbu]
          rw [hcr]
          by_cases hbv : b.asUint.2 = true
          · by_cases hneg : a.asInt.1.toInt < 0
            · by_cases hbig : b.asUint.1.toNat > maxInt64
              · rw [if_pos (Or.inr ⟨hneg, hbig⟩)]
                refine ⟨fun h => absurd h hw, fun h => ?_⟩
                rw [h.1] at hbig
                exact absurd hbig (by decide)
              · rw [if_neg (by rintro (h | h); rw [hbv] at h; cases h; exact hbig h.2), if_neg (by omega),
                  op2Ints_panic, hs, asInt_of_uint b hbu hbv (by omega)]
                simp only [uiNum _ hbu, iNum _ hai, hav, true_and]
                constructor
                · intro h; exact ⟨Prod.ext h hbv, (hz _).2 (by omega)⟩
                · intro h; rw [h.1]
            · rw [if_neg (by rintro (h | h); rw [hbv] at h; cases h; exact hneg h.1), if_pos (by omega),
                op2Uints_panic, hu, asUint_of_int a hai hav]
              simp only [uiNum _ hbu, iNum _ hai, hbv, true_and, and_true]
              constructor
              · intro h; exact ⟨Prod.ext h.2 hbv, (hz _).2 (by omega)⟩
              · intro h
                have := (hz _).1 h.2
                exact ⟨by omega, by rw [h.1]⟩
          · have hbv : b.asUint.2 = false := by simpa using hbv
            rw [if_pos (Or.inl hbv)]
            refine ⟨fun h => absurd h hw, fun h => ?_⟩
            rw [h.1] at hbv; cases hbv
        · rw [if_neg hbu]
          have hcr : Crashes a b ↔ b.ty.isInt = true ∧ b.asInt = (0#64, true) := by
            simp [Crashes, hai, hav, hbu]
          rw [hcr]
          by_cases hbi : b.ty.isInt = true
          · rw [if_pos hbi, op2Ints_panic, hs]
            simp only [iNum _ hai, iNum _ hbi, hav, true_and, hbi]
            constructor
            · intro h; exact Prod.ext h.2 h.1
            · intro h; rw [h]; exact ⟨rfl, rfl⟩
          · rw [if_neg hbi]
            refine ⟨fun h => ?_, fun h => absurd h.1 hbi⟩
            split at h
            · exact absurd h hf
            · cases h
    · rw [if_neg hai]
      exact ⟨fun h => (by cases h), fun h => absurd h.1 hai⟩

theorem sdivOp_panic (x y : BitVec 64) : sdivOp x y = .panic ↔ y = 0#64 := by unfold sdivOp; split <;> simp_all
theorem sremOp_panic (x y : BitVec 64) : sremOp x y = .panic ↔ y = 0#64 := by unfold sremOp; split <;> simp_all
theorem udivOp_panic (x y : BitVec 64) : udivOp x y = .panic ↔ y = 0#64 := by unfold udivOp; split <;> simp_all
theorem umodOp_panic (x y : BitVec 64) : umodOp x y = .panic ↔ y = 0#64 := by unfold umodOp; split <;> simp_all

/-- C21 (what holds of the full statement): division and modulo crash on the pairs `Crashes` and on no others, for all
values of all kinds. -/
theorem C21_crash_iff_partial (a b : Data E) :
    (mathDiv a b = .panic ↔ Crashes a b) ∧ (mathMod a b = .panic ↔ Crashes a b) := by
  constructor
  · unfold mathDiv
    split
    · rename_i h
      refine ⟨fun h' => absurd h' (op2Floats_panic _ _ _), fun h' => ?_⟩
      obtain ⟨h1, -⟩ := h'
      cases a <;> simp [Ty.isFloat, Ty.isInt, Data.ty] at h h1
    · exact divMod_panic a b _ _ _ _ sdivOp_panic udivOp_panic (op2Floats_panic _ _ _) (op2Floats_panic _ _ _)
  · exact divMod_panic a b _ _ _ _ sremOp_panic umodOp_panic (by simp) (by simp)

/-- C21: no crash when the dividend is unsigned, a float, or not a number at all. -/
theorem C21_safe (a b : Data E) (h : a.ty.isInt = false) : mathDiv a b ≠ .panic ∧ mathMod a b ≠ .panic := by
  constructor
  · intro h'; have := ((C21_crash_iff_partial a b).1.1 h').1; rw [h] at this; cases this
  · intro h'; have := ((C21_crash_iff_partial a b).2.1 h').1; rw [h] at this; cases this

/-- C21, negation: 7 / 0 and 7 % 0 crash for signed operands. -/
theorem C21_counterexample :
    mathDiv (E := E) (.int 7) (.int 0) = .panic ∧ mathMod (E := E) (.int 7) (.int 0) = .panic :=
  ⟨(C21_crash_iff_partial _ _).1.2 ⟨rfl, rfl, Or.inl ⟨rfl, rfl⟩⟩,
   (C21_crash_iff_partial _ _).2.2 ⟨rfl, rfl, Or.inl ⟨rfl, rfl⟩⟩⟩

theorem C21_full_statement_false (E : Ext) : ¬ C21Statement E := fun h =>
  (h (.int 7) (.int 0)).1 C21_counterexample.1

/-! ### C41: division truncates -/

/-- The kind of a quotient or remainder. -/
def quotSpec (f : Int → Int → Int) : Data E → Data E → Option (Data E)
  | .int x, .int y => some (.int (word (f x.toInt y.toInt)))
  | .uint x, .uint y => some (.uint (word (f x.toNat y.toNat)))
  | .uint x, .int y =>
    if y.toInt > 0 then some (.uint (word (f x.toNat y.toInt)))
    else if x.toNat < 2 ^ 63 then some (.int (word (f x.toNat y.toInt)))
    else none
  | .int x, .uint y =>
    if x.toInt > 0 then some (.uint (word (f x.toInt y.toNat)))
    else if x.toInt < 0 then some (.int (word (f x.toInt y.toNat)))
    else none
  | _, _ => none

theorem divMod_spec (f : Int → Int → Int) (sop uop : BitVec 64 → BitVec 64 → Res (BitVec 64)) (wide fl : Res (FV E))
    (hs : ∀ x y, y ≠ 0#64 → sop x y = .ok (word (f x.toInt y.toInt)))
    (hu : ∀ x y, y ≠ 0#64 → uop x y = .ok (word (f x.toNat y.toNat)))
    (a b : Data E) (x y : Int) (ha : Denotes a x) (hb : Denotes b y) (hy : y ≠ 0)
    (hwide : ¬ (x < 0 ∧ a.ty = .int ∧ 2 ^ 63 ≤ y)) : divMod a b sop uop wide fl = outV (quotSpec f a b) := by
  have hz : ∀ v : BitVec 64, v ≠ 0#64 ↔ v.toInt ≠ 0 := by
    intro v; rw [Ne, Ne, ← BitVec.toInt_inj]; simp
  have hz' : ∀ v : BitVec 64, v ≠ 0#64 ↔ v.toNat ≠ 0 := by
    intro v; rw [Ne, Ne, ← BitVec.toNat_inj]; simp
  cases ha with
  | int v =>
    cases hb with
    | int w =>
      have hw : w ≠ 0#64 := (hz w).2 hy
      simp [divMod, Ty.isUInt, Ty.isInt, Ty.isNumeric, Data.ty, op2Ints, Data.asInt, quotSpec, outV, hs _ _ hw]
    | uint w =>
      have hw : w ≠ 0#64 := (hz' w).2 (by omega)
      by_cases h1 : v.toInt > 0
      · have h2 : 0 ≤ v.toInt := by omega
        have h3 : ¬ v.toInt < 0 := by omega
        have h4 : v.toInt = v.toNat := toInt_eq_toNat v (Or.inl h2)
        have h1' : 0 < v.toNat := by omega
        simp [divMod, Ty.isUInt, Ty.isInt, Ty.isNumeric, Data.ty, op2Uints, Data.asInt, Data.asUint, quotSpec, outV,
          hu _ _ hw, h4, h1']
        intro h; omega
      · by_cases h2 : v.toInt < 0
        · have h3 : ¬ 0 ≤ v.toInt := by omega
          have h4 : w.toNat ≤ maxInt64 := by
            simp only [Data.ty, maxInt64] at *
            have : ¬ (2 ^ 63 : Int) ≤ w.toNat := fun h => hwide ⟨h2, trivial, h⟩
            omega
          have h5 : ¬ maxInt64 < w.toNat := by omega
          have h6 : w.toInt = w.toNat := toInt_eq_toNat w (Or.inr h4)
          simp [divMod, Ty.isUInt, Ty.isInt, Ty.isNumeric, Data.ty, op2Ints, Data.asInt, Data.asUint, quotSpec, outV,
            hs _ _ hw, h1, h2, h3, h4, h5, h6]
        · have h3 : v.toInt = 0 := by omega
          simp [divMod, Ty.isUInt, Ty.isInt, Ty.isNumeric, Data.ty, op2Uints, Data.asInt, Data.asUint, quotSpec, outV,
            h3]
  | uint v =>
    cases hb with
    | uint w =>
      have hw : w ≠ 0#64 := (hz' w).2 (by omega)
      simp [divMod, Ty.isUInt, Ty.isNumeric, Data.ty, op2Uints, Data.asUint, quotSpec, outV, hu _ _ hw, hw]
    | int w =>
      have hw : w ≠ 0#64 := (hz w).2 hy
      by_cases h1 : w.toInt > 0
      · have h4 : w.toInt = w.toNat := toInt_eq_toNat w (Or.inl (by omega))
        have h1' : 0 < w.toNat := by omega
        simp [divMod, Ty.isUInt, Ty.isInt, Ty.isNumeric, Data.ty, op2Uints, Data.asInt, Data.asUint, quotSpec, outV,
          hu _ _ hw, hw, h4, h1']
      · by_cases h2 : v.toNat ≤ maxInt64
        · have h3 : v.toNat < 9223372036854775808 := by simp only [maxInt64] at h2; omega
          have h4 : v.toInt = v.toNat := toInt_eq_toNat v (Or.inr h2)
          simp [divMod, Ty.isUInt, Ty.isInt, Ty.isNumeric, Data.ty, op2Ints, Data.asInt, quotSpec, outV,
            hs _ _ hw, hw, h1, h2, h3, h4]
        · have h3 : ¬ v.toNat < 9223372036854775808 := by simp only [maxInt64] at h2; omega
          simp [divMod, Ty.isUInt, Ty.isInt, Ty.isNumeric, Data.ty, op2Ints, Data.asInt, quotSpec, outV,
            hw, h1, h2, h3]

/-- C41: integer division by a non-zero divisor is the quotient truncated toward zero, reduced to the word of the
result's kind. -/
theorem C41_div (a b : Data E) (x y : Int) (ha : Denotes a x) (hb : Denotes b y) (hy : y ≠ 0)
    (hwide : ¬ (x < 0 ∧ a.ty = .int ∧ 2 ^ 63 ≤ y)) : mathDiv a b = outV (quotSpec Int.tdiv a b) := by
  have hf : ¬ a.ty.isFloat = true := by cases ha <;> simp [Ty.isFloat, Data.ty]
  rw [mathDiv, if_neg hf]
  refine divMod_spec Int.tdiv _ _ _ _ ?_ ?_ a b x y ha hb hy hwide
  · intro v w hw
    rw [sdivOp, if_neg hw]
    congr 1
    apply BitVec.eq_of_toInt_eq
    rw [BitVec.toInt_sdiv, word, BitVec.toInt_ofInt]
  · intro v w hw
    rw [udivOp, if_neg hw]
    congr 1
    apply BitVec.eq_of_toNat_eq
    rw [← Int.ofNat_tdiv, word, BitVec.ofInt_natCast, BitVec.toNat_ofNat, BitVec.toNat_udiv,
      Nat.mod_eq_of_lt (Nat.lt_of_le_of_lt (Nat.div_le_self _ _) v.isLt)]

/-- C41: modulo is the remainder of truncated division (sign of the dividend). -/
theorem C41_mod (a b : Data E) (x y : Int) (ha : Denotes a x) (hb : Denotes b y) (hy : y ≠ 0)
    (hwide : ¬ (x < 0 ∧ a.ty = .int ∧ 2 ^ 63 ≤ y)) : mathMod a b = outV (quotSpec Int.tmod a b) := by
  refine divMod_spec Int.tmod _ _ _ _ ?_ ?_ a b x y ha hb hy hwide
  · intro v w hw
    rw [sremOp, if_neg hw]
    congr 1
    rw [← BitVec.toInt_srem, word_toInt]
  · intro v w hw
    rw [umodOp, if_neg hw]
    congr 1
    apply BitVec.eq_of_toNat_eq
    rw [← Int.ofNat_tmod, word, BitVec.ofInt_natCast, BitVec.toNat_ofNat, BitVec.toNat_umod,
      Nat.mod_eq_of_lt (Nat.lt_of_le_of_lt (Nat.mod_le _ _) v.isLt)]

example : mathDiv (E := E) (.int (word (-7))) (.uint 2) = .ok ⟨.int (word (-3)), false⟩ := by
  rw [C41_div _ _ _ _ (.int _) (.uint _) (by decide) (fun h => absurd h.2.2 (by decide))]; rfl

end Verif.FastVal
