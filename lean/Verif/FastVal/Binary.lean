import Verif.FastVal.Kinds
import Verif.FastVal.Func
import Verif.FastVal.Round

/-!
# C72, C73: numbers as `float64`

The operations of `Ext` on floats are parameters; here they are those of IEEE 754 binary64, as Go's specification demands (`B64`).
-/

namespace Verif.FastVal

variable {E : Ext}

/-! ### Specification: binary64 -/

/-- The number 1, in units of 2^-1074. -/
def one64 : Int := 2 ^ 1074

/-- The largest finite number. -/
def max64 : Int := (2 ^ 53 - 1) * 2 ^ 2045

/-- The constant `0.0000001`: the nearest number to 10^-7. -/
def eps64 : Int := 7555786372591432 * 2 ^ 998

theorem one64_eq : one64 = 2 ^ 1074 := rfl
theorem max64_eq : max64 = (2 ^ 53 - 1) * 2 ^ 2045 := rfl
theorem eps64_eq : eps64 = 7555786372591432 * 2 ^ 998 := rfl

attribute [irreducible] one64 max64 eps64

/-- Binary64 numbers: `val` is the value of a finite one, in units of 2^-1074. -/
structure B64 (E : Ext) where
  val : E.F → Option Int
  rep : ∀ {x a}, val x = some a → Rep a
  bound : ∀ {x a}, val x = some a → a.natAbs ≤ max64
  nan : ∀ {x a}, val x = some a → E.isNaN x = false
  lt : ∀ {x y a b}, val x = some a → val y = some b → E.lt x y = decide (a < b)
  ofInt : ∀ v, val (E.ofInt v) = some (rnd (v.toInt * one64))
  ofUint : ∀ v, val (E.ofUint v) = some (rnd (v.toNat * one64))
  abs : ∀ {x a}, val x = some a → val (E.abs x) = some a.natAbs
  neg : ∀ {x a}, val x = some a → val (E.neg x) = some (-a)
  zero : val E.zero = some 0
  one : val E.one = some one64
  eps : val E.eps = some eps64
  add : ∀ {x y a b}, val x = some a → val y = some b → (rnd (a + b)).natAbs ≤ max64 → val (E.add x y) = some (rnd (a + b))
  sub : ∀ {x y a b}, val x = some a → val y = some b → (rnd (a - b)).natAbs ≤ max64 → val (E.sub x y) = some (rnd (a - b))
  /-- a difference beyond the largest number is infinite -/
  sub_inf : ∀ {x y a b}, val x = some a → val y = some b → ¬ (rnd (a - b)).natAbs ≤ max64 → E.lt (E.abs (E.sub x y)) E.eps = false
  /-- conversion to an integer drops the fraction; outside of the range of `int64` Go leaves the result open -/
  toInt : ∀ {x a}, val x = some a → -(2 ^ 63) ≤ a.tdiv one64 → a.tdiv one64 < 2 ^ 63 → (E.toInt x).toInt = a.tdiv one64

/-- The number a document value is, if it is a number. -/
inductive DocV.Is (L : B64 E) : DocV E → Int → Prop
  | int (v : BitVec 64) : DocV.Is L (.int v) (v.toInt * one64)
  | float {f : E.F} {a : Int} : L.val f = some a → DocV.Is L (.float f) a

/-- The number a constant is. -/
inductive ConV.Is (L : B64 E) : ConV E → Int → Prop
  | int (v : BitVec 64) : ConV.Is L (.int v) (v.toInt * one64)
  | uint (v : BitVec 64) : ConV.Is L (.uint v) (v.toNat * one64)
  | float {f : E.F} {a : Int} : L.val f = some a → ConV.Is L (.float f) a

/-- A float among the two. -/
def withFloat : DocV E → ConV E → Bool
  | .float _, _ => true
  | _, .float _ => true
  | _, _ => false

/-- C73 as it should be: numbers are ordered by their values. -/
def C73Statement (L : B64 E) : Prop := ∀ (x : DocV E) (c : ConV E) (a b : Int), x.Is L a → c.Is L b →
  compare (E := E) ⟨x.data, false⟩ ⟨c.data, true⟩ = (sgn (a - b), true)

/-! ### Comparison -/

theorem rnd_zero : rnd 0 = 0 := rfl

theorem eps_rep : Rep eps64 := ⟨7555786372591432, 998, by decide, eps64_eq⟩

theorem max_rep : rnd max64 = max64 := rnd_exact ⟨2 ^ 53 - 1, 2045, by decide, max64_eq⟩

theorem in_range {z : Int} (h : (z.natAbs : Int) ≤ max64) : ((rnd z).natAbs : Int) ≤ max64 := by
  have h1 := rnd_mono (show z ≤ max64 by omega)
  have h2 := rnd_mono (show -max64 ≤ z by omega)
  rw [rnd_neg] at h2
  rw [max_rep] at h1 h2
  omega

theorem ordF_val (L : B64 E) {x y : E.F} {a b : Int} (hx : L.val x = some a) (hy : L.val y = some b) :
    ordF x y = (if (rnd (a - b)).natAbs < eps64 then 0 else sgn (a - b), true) := by
  have key : E.lt (E.abs (E.sub x y)) E.eps = decide (((rnd (a - b)).natAbs : Int) < eps64) := by
    by_cases h : (rnd (a - b)).natAbs ≤ max64
    · exact L.lt (L.abs (L.sub hx hy h)) L.eps
    · rw [L.sub_inf hx hy h, eq_comm, decide_eq_false_iff_not]
      have : eps64 ≤ max64 := by decide +kernel
      omega
  rw [ordF, L.nan hx, L.nan hy, key, L.lt hx hy, L.lt hy hx]
  simp only [Bool.false_eq_true, if_false, decide_eq_true_eq, Prod.mk.injEq, and_true]
  split
  · rfl
  · rw [sgn]
    split <;> split <;> (try split) <;> omega

theorem near_neg (z : Int) : (if ((rnd (-z)).natAbs : Int) < eps64 then 0 else sgn (-z)) = -(if ((rnd z).natAbs : Int) < eps64 then 0 else sgn z) := by
  rw [rnd_neg, Int.natAbs_neg, ← neg_sgn]
  split <;> rfl

theorem flip_ordF_val (L : B64 E) {x y : E.F} {a b : Int} (hx : L.val x = some a) (hy : L.val y = some b) :
    flip (ordF x y) = (if (rnd (b - a)).natAbs < eps64 then 0 else sgn (b - a), true) := by
  rw [ordF_val L hx hy, flip, show b - a = -(a - b) by omega, near_neg]

/-- An integer of at most 53 bits is a binary64 number. -/
theorem rep_int {z : Int} (h : z.natAbs ≤ 2 ^ 53) : Rep (z * one64) := ⟨z, 1074, h, by rw [one64_eq]⟩

theorem L_ofInt (L : B64 E) {v : BitVec 64} (h : Rep (v.toInt * one64)) : L.val (E.ofInt v) = some (v.toInt * one64) := by
  rw [L.ofInt, rnd_exact h]

theorem L_ofUint (L : B64 E) {v : BitVec 64} (h : Rep (v.toNat * one64)) : L.val (E.ofUint v) = some (v.toNat * one64) := by
  rw [L.ofUint, rnd_exact h]

/-- C73, where a float is involved and both numbers have at most 53 significant bits (as all floats do, and the integers up to 2^53):
the order is that of the values, except that values whose rounded difference is below 10^-7 count as equal.
(Missing: that small differences count, which is false, see `C73_tolerance`; larger integers, false too, see `C73_large`.  Two integers:
see C18.) -/
theorem C73_partial (L : B64 E) (x : DocV E) (c : ConV E) (a b : Int) (hx : x.Is L a) (hc : c.Is L b) (hf : withFloat x c = true)
    (ha : Rep a) (hb : Rep b) :
    compare (E := E) ⟨x.data, false⟩ ⟨c.data, true⟩ = (if (rnd (a - b)).natAbs < eps64 then 0 else sgn (a - b), true) := by
  rw [C45_constant]
  cases hx with
  | int v =>
    cases hc with
    | int w => cases hf
    | uint w => cases hf
    | float hg => exact flip_ordF_val L hg (L_ofInt L ha)
  | float hv =>
    cases hc with
    | int w => exact flip_ordF_val L (L_ofInt L hb) hv
    | uint w => exact flip_ordF_val L (L_ofUint L hb) hv
    | float hg => exact flip_ordF_val L hg hv

/-- Likewise two numbers of documents. -/
theorem C73_document_partial (L : B64 E) (x y : DocV E) (a b : Int) (hx : x.Is L a) (hy : y.Is L b) (ha : Rep a) (hb : Rep b) :
    compare (E := E) ⟨x.data, false⟩ ⟨y.data, false⟩ =
      ((match x, y with
        | .int _, .int _ => sgn (a - b)
        | _, _ => if (rnd (a - b)).natAbs < eps64 then 0 else sgn (a - b)), true) := by
  rw [C45_document]
  cases hx with
  | int v =>
    cases hy with
    | int w =>
      have : v.toInt * one64 - w.toInt * one64 = (v.toInt - w.toInt) * one64 := by rw [Int.sub_mul]
      simp only [docDoc, this]
      have h1 : (0 : Int) < one64 := by decide +kernel
      generalize one64 = u at h1
      congr 1
      unfold sgn
      have h2 : v.toInt - w.toInt < 0 ↔ (v.toInt - w.toInt) * u < 0 := by
        rw [← Int.mul_lt_mul_right h1, Int.zero_mul]
      have h3 : 0 < v.toInt - w.toInt ↔ 0 < (v.toInt - w.toInt) * u := by
        rw [← Int.mul_lt_mul_right h1, Int.zero_mul]
      simp only [h2, h3]
    | float hg => exact flip_ordF_val L hg (L_ofInt L ha)
  | float hv =>
    cases hy with
    | int w => exact ordF_val L hv (L_ofInt L hb)
    | float hg => exact ordF_val L hv hg

/-- Rounding does not make a difference of at least 10^-7 smaller. -/
theorem far_of {z : Int} (h : eps64 ≤ z.natAbs) : ¬ ((rnd z).natAbs : Int) < eps64 := by
  have key : ∀ {z : Int}, eps64 ≤ z → ¬ ((rnd z).natAbs : Int) < eps64 := by
    intro z h
    have := rnd_mono h
    rw [rnd_exact eps_rep] at this
    omega
  by_cases hz : 0 ≤ z
  · exact key (by omega)
  · rw [← Int.neg_neg z, rnd_neg, Int.natAbs_neg]
    exact key (by omega)

/-- C73 for numbers that differ by at least 10^-7. -/
theorem C73_apart (L : B64 E) (x : DocV E) (c : ConV E) (a b : Int) (hx : x.Is L a) (hc : c.Is L b) (hf : withFloat x c = true)
    (ha : Rep a) (hb : Rep b) (h : eps64 ≤ (a - b).natAbs) :
    compare (E := E) ⟨x.data, false⟩ ⟨c.data, true⟩ = (sgn (a - b), true) := by
  rw [C73_partial L x c a b hx hc hf ha hb, if_neg (far_of h)]

/-- The tolerance: every number closer to 0 than 10^-7 equals 0, and 0.0 and −0.0. -/
theorem C73_tolerance (L : B64 E) {f : E.F} {a : Int} (hf : L.val f = some a) (h : a.natAbs < eps64) :
    compare (E := E) ⟨.float f, false⟩ ⟨.int 0#64, true⟩ = (0, true) := by
  have := C73_partial L (.float f) (.int 0#64) a 0 (.float hf) (by simpa using ConV.Is.int (L := L) 0#64) rfl (L.rep hf)
    (by simpa using rep_int (z := 0) (by decide))
  rw [show (DocV.float f : DocV E).data = .float f from rfl, show (ConV.int 0#64 : ConV E).data = .int 0#64 from rfl] at this
  rw [this, Int.sub_zero, rnd_exact (L.rep hf), if_pos h]

theorem rnd_large : rnd ((2 ^ 53 + 1) * one64) = 2 ^ 53 * one64 := by decide +kernel

/-- Large integers: 9007199254740993 and 9007199254740992 both equal the float 9007199254740992.0, although the first is larger than the
second. -/
theorem C73_large (L : B64 E) : ∃ f, L.val f = some (2 ^ 53 * one64) ∧
    compare (E := E) ⟨.int 9007199254740993#64, false⟩ ⟨.float f, true⟩ = (0, true) ∧
    compare (E := E) ⟨.int 9007199254740992#64, false⟩ ⟨.float f, true⟩ = (0, true) ∧
    compare (E := E) ⟨.int 9007199254740993#64, false⟩ ⟨.int 9007199254740992#64, true⟩ = (1, true) := by
  have h0 : L.val (E.ofInt 9007199254740992#64) = some (2 ^ 53 * one64) := L_ofInt L (rep_int (by decide))
  have h1 : L.val (E.ofInt 9007199254740993#64) = some (2 ^ 53 * one64) := by
    rw [L.ofInt, ← rnd_large]; rfl
  have h2 : ∀ {v}, L.val (E.ofInt v) = some (2 ^ 53 * one64) →
      compare (E := E) ⟨.int v, false⟩ ⟨.float (E.ofInt 9007199254740992#64), true⟩ = (0, true) := by
    intro v hv
    have := C45_constant (E := E) (.int v) (.float (E.ofInt 9007199254740992#64))
    refine this.trans ((flip_ordF_val L h0 hv).trans ?_)
    rw [Int.sub_self, if_pos (by decide +kernel)]
  exact ⟨_, h0, h2 h1, h2 h0, (C45_constant (E := E) (.int _) (.int _)).trans rfl⟩

/-- C73 as stated is false, whatever the representation of floats. -/
theorem C73_negation (L : B64 E) : ¬ C73Statement L := by
  intro h
  obtain ⟨f, h0, h1, -, -⟩ := C73_large L
  have := h (.int 9007199254740993#64) (.float f) _ _ (.int _) (.float h0)
  rw [show (DocV.int 9007199254740993#64 : DocV E).data = .int 9007199254740993#64 from rfl,
    show (ConV.float f : ConV E).data = .float f from rfl, h1] at this
  exact absurd (congrArg Prod.fst this) (by decide +kernel)

end Verif.FastVal
