import Verif.FastVal.Binary

/-!
# A model of binary64

All operations compute the exact result and round it.  Infinities and NaNs are one value.  Texts of numbers are those of JSON
(`strconv.ParseFloat` accepts others too).  What has nothing to do with floats is as in `demoExt`.
-/

namespace Verif.FastVal

/-- A finite binary64 number, or none. -/
abbrev F64 := Option { z : Int // rnd z = z ∧ (z.natAbs : Int) ≤ max64 }

theorem rnd_rnd (z : Int) : rnd (rnd z) = rnd z := rnd_exact (rnd_rep z)

/-- The number `z`, rounded. -/
def mk64 (z : Int) : F64 := if h : ((rnd z).natAbs : Int) ≤ max64 then some ⟨rnd z, rnd_rnd z, h⟩ else none

/-- `n / d` to 53 significant bits (at most to units), to the nearest, to even in the middle. -/
def rndQ (n d : Nat) : Nat :=
  let k := (n / d).log2 - 52
  let q := n / (d * 2 ^ k)
  let r := n % (d * 2 ^ k)
  (if d * 2 ^ k < 2 * r ∨ (2 * r = d * 2 ^ k ∧ q % 2 = 1) then q + 1 else q) * 2 ^ k

def quo64 (n d : Int) : F64 :=
  if d = 0 then none else mk64 (n.sign * d.sign * rndQ n.natAbs d.natAbs)

def lift2 (f : Int → Int → F64) : F64 → F64 → F64
  | some x, some y => f x y
  | _, _ => none

/-- Longest prefix of digits, as a number with its length, and the rest. -/
def digits64 : List Nat → Nat → Nat → Nat × Nat × List Nat
  | c :: cs, v, n => if 48 ≤ c ∧ c ≤ 57 then digits64 cs (v * 10 + (c - 48)) (n + 1) else (v, n, c :: cs)
  | [], v, n => (v, n, [])

/-- `[ + | - ] digits` to the end. -/
def exp64 (s : List Nat) : Option Int :=
  let (neg, s) := match s with
    | 45 :: r => (true, r)
    | 43 :: r => (false, r)
    | r => (false, r)
  match digits64 s 0 0 with
  | (v, n, []) => if n = 0 then none else some (if neg then -v else v)
  | _ => none

/-- `± v · 10^e`. -/
def dec64 (neg : Bool) (v : Nat) (e : Int) : F64 := quo64 ((if neg then -(v : Int) else v) * one64 * 10 ^ e.toNat) (10 ^ (-e).toNat)

/-- The text of a number. -/
def parse64 (s : List Nat) : Option F64 :=
  let (neg, s) := match s with
    | 45 :: r => (true, r)
    | r => (false, r)
  let (v, n, s) := digits64 s 0 0
  if n = 0 then none
  else
    let (v, m, s) := match s with
      | 46 :: r => digits64 r v 0
      | r => (v, 0, r)
    match s with
    | [] => some (dec64 neg v (-m))
    | c :: r => if c = 101 ∨ c = 69 then (exp64 r).map fun e => dec64 neg v (e - m) else none

/-- Binary64 arithmetic. -/
def ext64 : Ext where
  F := F64
  T := Nat
  R := Unit
  ofInt v := mk64 (v.toInt * one64)
  ofUint v := mk64 (v.toNat * one64)
  toInt x := match x with
    | some z => if -(2 ^ 63) ≤ z.1.tdiv one64 ∧ z.1.tdiv one64 < 2 ^ 63 then BitVec.ofInt 64 (z.1.tdiv one64) else 9223372036854775808#64
    | none => 9223372036854775808#64
  toUint x := match x with
    | some z => if 0 ≤ z.1 ∧ z.1.tdiv one64 < 2 ^ 64 then BitVec.ofInt 64 (z.1.tdiv one64) else 9223372036854775808#64
    | none => 9223372036854775808#64
  isNaN x := x.isNone
  lt x y := match x, y with
    | some x, some y => decide (x.1 < y.1)
    | _, _ => false
  add := lift2 fun x y => mk64 (x + y)
  sub := lift2 fun x y => mk64 (x - y)
  mul := lift2 fun x y => quo64 (x * y) one64
  div := lift2 fun x y => quo64 (x * one64) y
  abs x := x.bind fun z => mk64 z.1.natAbs
  neg x := x.bind fun z => mk64 (-z.1)
  eps := mk64 eps64
  zero := mk64 0
  one := mk64 one64
  nonZero x := match x with
    | some z => decide (z.1 ≠ 0)
    | none => true
  inIntRange x := match x with
    | some z => decide (-(2 ^ 63 * one64) ≤ z.1 ∧ z.1 ≤ 2 ^ 63 * one64)
    | none => false
  parseFloat s := match parse64 s with
    | some x => (x, x.isSome)
    | none => (mk64 0, false)
  fmtE _ := []
  fmtF _ := []
  quote s := s
  parseTime _ := none
  timeEq s t := decide (s = t)
  timeAfter s t := decide (t < s)
  reMatch _ _ := true

/-- The value of a number. -/
def val64 (x : F64) : Option Int := x.map (·.1)

theorem val_mk {z : Int} (h : ((rnd z).natAbs : Int) ≤ max64) : val64 (mk64 z) = some (rnd z) := by
  rw [mk64, dif_pos h]; rfl

theorem mk_inf {z : Int} (h : ¬ ((rnd z).natAbs : Int) ≤ max64) : mk64 z = none := by rw [mk64, dif_neg h]

theorem val_some {x : F64} {a : Int} (h : val64 x = some a) : ∃ h', x = some ⟨a, h'⟩ := by
  match x with
  | some ⟨z, hz⟩ =>
    obtain rfl : z = a := Option.some.inj h
    exact ⟨hz, rfl⟩

theorem word_bound {z : Int} (h : z.natAbs ≤ 2 ^ 64) : ((z * one64).natAbs : Int) ≤ max64 := by
  have h1 : (2 ^ 64 : Int) * one64 ≤ max64 := by decide +kernel
  have h2 : (0 : Int) ≤ one64 := by decide +kernel
  have h3 : ((z * one64).natAbs : Int) = z.natAbs * one64 := by
    rw [Int.natAbs_mul, Int.natCast_mul, Int.natAbs_of_nonneg h2]
  rw [h3]
  exact Int.le_trans (Int.mul_le_mul_of_nonneg_right (by omega) h2) h1

theorem one_rep : Rep one64 := ⟨1, 1074, by decide, by rw [Int.one_mul, one64_eq]⟩

/-- The model has the laws. -/
def laws64 : B64 ext64 where
  val := val64
  rep := by
    intro x a h
    obtain ⟨h', rfl⟩ := val_some h
    rw [← h'.1]; exact rnd_rep a
  bound := by
    intro x a h
    obtain ⟨h', rfl⟩ := val_some h
    exact h'.2
  nan := by
    intro x a h
    obtain ⟨h', rfl⟩ := val_some h
    rfl
  lt := by
    intro x y a b hx hy
    obtain ⟨h', rfl⟩ := val_some hx
    obtain ⟨h'', rfl⟩ := val_some hy
    rfl
  ofInt v := by
    have h1 := BitVec.toInt_lt (x := v)
    have h2 := BitVec.le_toInt (x := v)
    exact val_mk (in_range (word_bound (by omega)))
  ofUint v := by
    have := v.isLt
    exact val_mk (in_range (word_bound (by omega)))
  abs := by
    intro x a h
    obtain ⟨h', rfl⟩ := val_some h
    have e : rnd a.natAbs = a.natAbs := by
      by_cases ha : 0 ≤ a
      · rw [show (a.natAbs : Int) = a by omega]; exact h'.1
      · rw [show (a.natAbs : Int) = -a by omega, rnd_neg, h'.1]
    have := val_mk (z := a.natAbs) (by rw [e]; exact h'.2)
    rw [e] at this
    exact this
  neg := by
    intro x a h
    obtain ⟨h', rfl⟩ := val_some h
    have e : rnd (-a) = -a := by rw [rnd_neg, h'.1]
    have := val_mk (z := -a) (by rw [e, Int.natAbs_neg]; exact h'.2)
    rw [e] at this
    exact this
  zero := val_mk (z := 0) (by decide +kernel)
  one := by
    show val64 (mk64 one64) = some one64
    rw [val_mk (by decide +kernel), rnd_exact one_rep]
  eps := by
    show val64 (mk64 eps64) = some eps64
    rw [val_mk (by decide +kernel), rnd_exact eps_rep]
  add := by
    intro x y a b hx hy h
    obtain ⟨h', rfl⟩ := val_some hx
    obtain ⟨h'', rfl⟩ := val_some hy
    exact val_mk h
  sub := by
    intro x y a b hx hy h
    obtain ⟨h', rfl⟩ := val_some hx
    obtain ⟨h'', rfl⟩ := val_some hy
    exact val_mk h
  sub_inf := by
    intro x y a b hx hy h
    obtain ⟨h', rfl⟩ := val_some hx
    obtain ⟨h'', rfl⟩ := val_some hy
    show ext64.lt (ext64.abs (mk64 (a - b))) ext64.eps = false
    rw [mk_inf h]
    rfl
  toInt := by
    intro x a h h1 h2
    obtain ⟨h', rfl⟩ := val_some h
    show (if -(2 ^ 63) ≤ a.tdiv one64 ∧ a.tdiv one64 < 2 ^ 63 then BitVec.ofInt 64 (a.tdiv one64) else 9223372036854775808#64).toInt = _
    rw [if_pos ⟨h1, h2⟩, BitVec.toInt_ofInt]
    exact Int.bmod_eq_of_le (by omega) (by omega)

/-- The rounding of quotients agrees with that of whole numbers. -/
theorem rndQ_one (n : Nat) : rndQ n 1 = rndN n := by
  rw [rndQ, Nat.div_one]
  by_cases h : n < 2 ^ 53
  · have : n.log2 - 52 = 0 := by
      by_cases h0 : n = 0
      · subst h0; rfl
      · have := (Nat.log2_lt h0).2 h
        omega
    rw [this, rndN_low (by omega)]
    simp
    omega
  · rw [rndN, if_neg h]
    simp only [Nat.one_mul]

/-- `eps64` is the nearest number to 10^-7. -/
example : rndQ (2 ^ 1074) (10 ^ 7) = 7555786372591432 * 2 ^ 998 := by decide +kernel

/-- Texts of numbers. -/
def txt (s : String) : List Nat := s.toList.map Char.toNat

example : val64 (ext64.parseFloat (txt "1.5")).1 = some (3 * 2 ^ 1073) := by decide +kernel
example : val64 (ext64.parseFloat (txt "-25e-2")).1 = some (-(2 ^ 1072)) := by decide +kernel
example : (ext64.parseFloat (txt "1e5x")).2 = false := by decide +kernel
example : val64 (ext64.parseFloat (txt "4.9e-324")).1 = some 1 := by decide +kernel
example : val64 (ext64.parseFloat (txt "1.7976931348623157e308")).1 = some max64 := by decide +kernel
example : (ext64.parseFloat (txt "1.8e308")).2 = false := by decide +kernel

/-! ### Examples for C73 -/

/-- 0.00000006 equals 0 and 0.00000012, which are not equal. -/
theorem C73_not_transitive :
    compare (E := ext64) ⟨.jsonFloat (txt "0.00000006"), false⟩ ⟨.int 0#64, true⟩ = (0, true) ∧
    compare (E := ext64) ⟨.jsonFloat (txt "0.00000006"), false⟩ ⟨.jsonFloat (txt "0.00000012"), true⟩ = (0, true) ∧
    compare (E := ext64) ⟨.jsonFloat (txt "0.00000012"), false⟩ ⟨.int 0#64, true⟩ = (1, true) := by
  decide +kernel

/-- 1.5 is above 1. -/
example : compare (E := ext64) ⟨.float (ext64.parseFloat (txt "1.5")).1, false⟩ ⟨.int 1#64, true⟩ = (1, true) :=
  (C73_apart laws64 (.float (ext64.parseFloat (txt "1.5")).1) (.int 1#64) (3 * 2 ^ 1073) (1 * one64)
    (.float (by decide +kernel)) (.int _) rfl ⟨3, 1073, by decide, rfl⟩ (rep_int (by decide)) (by decide +kernel)).trans (by decide +kernel)

/-- 0.1 + 0.2 equals 0.3 thanks to the tolerance. -/
example : compare (E := ext64) ⟨.float (ext64.add (ext64.parseFloat (txt "0.1")).1 (ext64.parseFloat (txt "0.2")).1), false⟩
    ⟨.jsonFloat (txt "0.3"), true⟩ = (0, true) := by decide +kernel

end Verif.FastVal
