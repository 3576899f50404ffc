import Verif.BinTree.Theorems
import Verif.FastVal.BinaryExt
import Verif.FastVal.Functions
import Verif.FastVal.Conv
import Verif.FastVal.Kinds
import Verif.Quote.Claims

/-!
# Cases: trees and values

Concrete instances of theorems of these parts that have none beside them: each example applies the theorem it names.
-/

namespace Verif.BinTree

/-- `C02_early_decision_sound`: condition 6 true decides the tree, whatever 2 and 4 are. -/
example : ∃ st, isResolved st 0 = .ok true ∧ ∀ g : Nat → Bool, g 6 = true → isTrue st 0 = .ok (demoSh.eval 0 g) := by
  have h : InProgress demoTree demoSh 0 [6] (fun _ => true) _ :=
    ⟨⟨newState demoTree, rfl, ⟨⟨0, demo_shaped⟩, Or.inl rfl, Or.inl (Nat.le_refl 0)⟩, newState_fresh _ _ (Nat.le_refl _), rfl⟩,
      by simp [demoSh, Sh.IsLeaf, Sh.size]⟩
  exact ⟨_, by decide, fun g hg => C02_early_decision_sound h (by decide) g (by simpa using hg)⟩

/-- `C02_undecided_is_open`: condition 2 true does not decide it, both outcomes are possible. -/
example (v : Bool) : ∃ g : Nat → Bool, (∀ i ∈ [2], g i = true) ∧ demoSh.eval 0 g = v := by
  have h : InProgress demoTree demoSh 0 [2] (fun _ => true) _ :=
    ⟨⟨newState demoTree, rfl, ⟨⟨0, demo_shaped⟩, Or.inl rfl, Or.inl (Nat.le_refl 0)⟩, newState_fresh _ _ (Nat.le_refl _), rfl⟩,
      by simp [demoSh, Sh.IsLeaf, Sh.size]⟩
  exact C02_undecided_is_open h (by simp [demoSh, Sh.NeorFree]) (by decide) v

/-- `C02_decision_final` -/
example : ∃ st st', runMarks demoTree st (decided [2, 4] (fun _ => true)) = .ok st' ∧ isResolved st' 0 = .ok true ∧ isTrue st' 0 = isTrue st 0 := by
  have h : InProgress demoTree demoSh 0 [6] (fun _ => true) _ :=
    ⟨⟨newState demoTree, rfl, ⟨⟨0, demo_shaped⟩, Or.inl rfl, Or.inl (Nat.le_refl 0)⟩, newState_fresh _ _ (Nat.le_refl _), rfl⟩,
      by simp [demoSh, Sh.IsLeaf, Sh.size]⟩
  exact ⟨_, C02_decision_final h (by decide) (by simp [demoSh, Sh.IsLeaf, Sh.size])⟩

/-- `C08_validate_accepts_layouts`, `C08_validate_sound_partial` -/
example : ∃ s, Positional demoTree s 0 0 ∧ demoTree.length = s.size :=
  C08_validate_sound_partial (C08_validate_accepts_layouts demo_shaped rfl)

end Verif.BinTree

namespace Verif.FastVal
open Verif.Token (D)

/-! ### The model of binary64 has the laws of comparison -/

theorem sub64_symm (x y : F64) : ext64.abs (ext64.sub x y) = ext64.abs (ext64.sub y x) := by
  match x, y with
  | none, none => rfl
  | none, some _ => rfl
  | some _, none => rfl
  | some x, some y =>
    show (mk64 (x.1 - y.1)).bind (fun z => mk64 z.1.natAbs) = (mk64 (y.1 - x.1)).bind (fun z => mk64 z.1.natAbs)
    have h : y.1 - x.1 = -(x.1 - y.1) := by omega
    rw [h]
    generalize x.1 - y.1 = d
    have e : (rnd (-d)).natAbs = (rnd d).natAbs := by rw [rnd_neg, Int.natAbs_neg]
    unfold mk64
    by_cases hd : ((rnd d).natAbs : Int) ≤ max64
    · rw [dif_pos hd, dif_pos (by rw [e]; exact hd)]
      simp only [Option.bind_some, e]
    · rw [dif_neg hd, dif_neg (by rw [e]; exact hd)]

/-- The assumptions of C18 and C19 about floats hold of binary64. -/
theorem floatLaws64 : FloatLaws ext64 where
  lt_asymm x y h := by
    match x, y with
    | none, _ => cases h
    | some _, none => cases h
    | some x, some y =>
      have h : x.1 < y.1 := of_decide_eq_true h
      exact decide_eq_false (by omega)
  dist_symm x y := congrArg (fun z => ext64.lt z ext64.eps) (sub64_symm x y)

theorem timeLaws64 : TimeLaws ext64 :=
  have aux : ∀ a b : Nat, decide (a = b) = false → decide (b < a) = !decide (a < b) := by
    intro a b hab
    have hab := of_decide_eq_false hab
    by_cases hl : a < b
    · simp [hl]; omega
    · simp [hl]; omega
  have aux1 : ∀ a : Nat, decide (a = a) = true := fun a => decide_eq_true rfl
  have aux2 : ∀ a b : Nat, decide (a = b) = decide (b = a) := fun a b => by rw [decide_eq_decide]; exact eq_comm
  ⟨aux1, aux2, aux⟩

/-- `C18_antisymmetric_partial`: 1.5 against the constant 2, with binary64. -/
example : (compare (E := ext64) ⟨.int 2, true⟩ ⟨.jsonFloat (txt "1.5"), false⟩).1 = -(compare (E := ext64) ⟨.jsonFloat (txt "1.5"), false⟩ ⟨.int 2, true⟩).1 ∧
    (compare (E := ext64) ⟨.int 2, true⟩ ⟨.jsonFloat (txt "1.5"), false⟩).2 = (compare (E := ext64) ⟨.jsonFloat (txt "1.5"), false⟩ ⟨.int 2, true⟩).2 :=
  C18_antisymmetric_partial floatLaws64 timeLaws64 _ _ (by simp) (by simp [MixedSign]) (by simp [MixedSign, Data.ty, Ty.isUInt])

example : compare (E := ext64) ⟨.jsonFloat (txt "1.5"), false⟩ ⟨.int 2, true⟩ = (-1, true) := by decide +kernel

/-- `C19_symm` -/
example : equals (E := ext64) ⟨.jsonFloat (txt "2.0"), false⟩ ⟨.int 2, true⟩ = equals (E := ext64) ⟨.int 2, true⟩ ⟨.jsonFloat (txt "2.0"), false⟩ :=
  C19_symm floatLaws64 timeLaws64 _ _ (by simp) (by simp [MixedSign]) (by simp [MixedSign, Data.ty, Ty.isUInt])

/-- `C19_string_eq` with quoted texts. -/
example : equals (E := Quote.extQ) ⟨.binStr [97, 34], false⟩ ⟨.str [97], true⟩ = (false, true) :=
  (C19_string_eq (E := Quote.extQ) (fun _ _ h => Quote.appendQuote_inj _ h) [97, 34] [97] false true).2

/-! ### Arithmetic: −7 and 2 -/

theorem den7 : Denotes (E := ext64) (.int (-7)) (-7) := Denotes.int (-7)
theorem den2 : Denotes (E := ext64) (.int 2) 2 := Denotes.int 2

/-- `C20_mul` -/
example : mathMul (E := ext64) (.int (-7)) (.int 2) = outV (ringSpec (· * ·) (.int (-7)) (.int 2)) := C20_mul _ _ (-7) 2 den7 den2

/-- `C20_neg` -/
example : mathNeg (E := ext64) (.int (-7)) = ⟨.int 7, false⟩ := (C20_neg _ (-7) den7).trans (by rw [if_neg (by decide)]; rfl)

/-- `C20_add_exact` -/
example : (∃ w, (Data.int (-5) : Data ext64) = .int w ∧ w = word (-7 + 2) ∧ (-(2 ^ 63) ≤ (-7 + 2 : Int) ∧ (-7 + 2 : Int) < 2 ^ 63 → w.toInt = -7 + 2)) ∨
    (∃ w, (Data.int (-5) : Data ext64) = .uint w ∧ w = word (-7 + 2) ∧ (0 ≤ (-7 + 2 : Int) ∧ (-7 + 2 : Int) < 2 ^ 64 → (w.toNat : Int) = -7 + 2)) :=
  C20_add_exact (.int (-7)) (.int 2) (.int (-5)) (-7) 2 den7 den2 rfl (by simp [Data.ty])

/-- `C41_mod` -/
example : mathMod (E := ext64) (.int (-7)) (.int 2) = outV (quotSpec Int.tmod (.int (-7)) (.int 2)) :=
  C41_mod _ _ (-7) 2 den7 den2 (by decide) (by decide)

/-- `C21_safe` -/
example : mathDiv (E := ext64) (.uint 7) (.int 0) ≠ .panic ∧ mathMod (E := ext64) (.uint 7) (.int 0) ≠ .panic := C21_safe _ _ rfl

/-! ### Functions -/

/-- `C72_arith` -/
example : applyFn fns64 .add [⟨.int (-7), true⟩, ⟨.int 2, false⟩] = outV (ringSpec (· + ·) (.int (-7)) (.int 2)) :=
  (C72_arith fns64 _ _ true false [] (-7) 2 den7 den2).1

/-- `C72_float` -/
example : applyFn fns64 .add [⟨.int (-7), true⟩, ⟨.float (ext64.parseFloat (txt "1.5")).1, false⟩] =
    .ok ⟨.float (ext64.add (ext64.ofInt (-7)) (ext64.parseFloat (txt "1.5")).1), false⟩ :=
  (C72_float fns64 _ _ true false [] (.int (-7)) (.float (ext64.parseFloat (txt "1.5")).1) rfl rfl (Or.inr rfl)).1

/-- `C72_not_numbers` -/
example : applyFn fns64 .mod [⟨.int (-7), true⟩, ⟨.tru, false⟩] = .ok invalidV :=
  C72_not_numbers fns64 _ _ true false [] (Or.inr rfl) .mod (by simp)

/-- `C72_abs_int` -/
example : (ext64.toInt (ext64.abs (ext64.ofInt (-7)))).toInt = 7 := C72_abs_int laws64 (-7) (by decide +kernel)

/-- `C72_round_below_half` -/
example : val64 (floatMathRound fns64 (ext64.parseFloat (txt "0.49999999999999994")).1) = some one64 ∧ ¬ Nearest pred64 1 :=
  C72_round_below_half laws64 fns64 fns64_half (by decide +kernel)

/-- `C72_round_mid` -/
example : val64 (floatMathRound fns64 (ext64.parseFloat (txt "4503599627370497")).1) = some ((4503599627370498 : Nat) * one64) :=
  C72_round_mid laws64 fns64 fns64_half 4503599627370497 (by decide) (by decide) (by decide +kernel)

/-! ### Comparison of numbers -/

theorem val15 : laws64.val (ext64.parseFloat (txt "1.5")).1 = some (3 * half64) := by decide +kernel

theorem rep15 : Rep (3 * half64) := laws64.rep val15
theorem rep2 : Rep ((2 : BitVec 64).toInt * one64) := rep_int (by decide)

/-- `C73_partial` -/
example : compare (E := ext64) ⟨(DocV.float (ext64.parseFloat (txt "1.5")).1 : DocV ext64).data, false⟩ ⟨(ConV.int 2 : ConV ext64).data, true⟩ = (-1, true) :=
  (C73_partial laws64 _ _ _ _ (.float val15) (.int 2) rfl rep15 rep2).trans (by decide +kernel)

/-- `C73_document_partial` -/
example : compare (E := ext64) ⟨(DocV.float (ext64.parseFloat (txt "1.5")).1 : DocV ext64).data, false⟩ ⟨(DocV.int 2 : DocV ext64).data, false⟩ = (-1, true) :=
  (C73_document_partial laws64 _ _ _ _ (.float val15) (.int 2) rep15 rep2).trans (by decide +kernel)

/-- `C73_tolerance`: 0.00000001 equals 0. -/
example : compare (E := ext64) ⟨.float (ext64.parseFloat (txt "0.00000001")).1, false⟩ ⟨.int 0#64, true⟩ = (0, true) :=
  C73_tolerance laws64 (f := (ext64.parseFloat (txt "0.00000001")).1) (a := (val64 (ext64.parseFloat (txt "0.00000001")).1).getD 0)
    (by decide +kernel) (by decide +kernel)

/-- `C45_constant_left` -/
example : compare (E := ext64) ⟨(ConV.int 2 : ConV ext64).data, true⟩ ⟨(DocV.int 3 : DocV ext64).data, false⟩ = flip (docCon (DocV.int 3 : DocV ext64) (ConV.int 2)) :=
  C45_constant_left _ _ rfl

/-! ### Conversions -/

/-- `C47_uint_value` -/
example : (parseUint (txt "12")).1.toNat = Lit.decVal (txt "12") := C47_uint_value (by decide)

/-- `C75_uint_partial`, `C75_uint_complete` -/
example : Whole (.binStr (txt "12") : Data ext64) (12#64).toNat := C75_uint_partial _ 12#64 (by simp) (by decide)
example : (Data.binStr (txt "12") : Data ext64).asUint = (12#64, true) :=
  C75_uint_complete _ 12#64 (by decide) (.binStr (.plain (txt "12") (by simp [Dec, txt]))) (by
    rintro s (h | h)
    · cases h; simp [Dec, txt]
    · cases h) (by simp)

/-- `C75_bool` -/
example : ∃ b, (Data.jsonUint (txt "0") : Data ext64).asBool = (b, true) ∧ (b = false ↔ (Num.uint 0#64 : Num ext64).zero) := C75_bool _ _ rfl

end Verif.FastVal

namespace Verif.Quote
open Verif.FastVal

/-- `C74_equal`, `C74_equal_document`: bytes that are not UTF-8. -/
example : ∃ n, compare (E := extQ) ⟨(DocV.str [0xFF]).data, false⟩ ⟨(ConV.str (extQ.quote [0xFE])).data, true⟩ = (n, true) ∧ (n = 0 ↔ [0xFF] = [0xFE]) :=
  C74_equal (E := extQ) rfl _ _
example : ∃ n, compare (E := extQ) ⟨(DocV.str [0xFF]).data, false⟩ ⟨(DocV.str [0xFE]).data, false⟩ = (n, true) ∧ (n = 0 ↔ [0xFF] = [0xFE]) :=
  C74_equal_document (E := extQ) rfl _ _

/-- `C74_order`, `C74_order_document` -/
example : compare (E := extQ) ⟨(DocV.str (bytes [0xE9])).data, false⟩ ⟨(ConV.str (extQ.quote (bytes [10]))).data, true⟩ =
    (lexBy (place fun c => decide (0xA1 ≤ c)) [0xE9] [10], true) := C74_order (E := extQ) rfl _ _ (by decide) (by decide)
example : compare (E := extQ) ⟨(DocV.str (bytes [0xE9])).data, false⟩ ⟨(DocV.str (bytes [10])).data, false⟩ =
    (lexBy (place fun c => decide (0xA1 ≤ c)) [0xE9] [10], true) := C74_order_document (E := extQ) rfl _ _ (by decide) (by decide)

/-- `C74_negation` -/
example : compare (E := extQ) ⟨(DocV.str [10]).data, false⟩ ⟨(ConV.str (extQ.quote [65])).data, true⟩ = (1, true) := (C74_negation (E := extQ) rfl).1

end Verif.Quote
