import Verif.FastVal.Functions

/-!
# Conversions keep the value (C75)
-/

namespace Verif.FastVal

open Verif.Lit (decVal)

variable {E : Ext}

/-! ### Specification -/

/-- The whole number a value stands for: a number, a decimal text, or a truth value as 0 or 1. -/
inductive Whole : Data E → Int → Prop where
  | int (v : BitVec 64) : Whole (.int v) v.toInt
  | uint (v : BitVec 64) : Whole (.uint v) v.toNat
  | jsonInt {s : List Nat} {z : Int} : Signed s z → Whole (.jsonInt s) z
  | jsonUint {s : List Nat} : Dec s → Whole (.jsonUint s) (decVal s)
  | binStr {s : List Nat} {z : Int} : Signed s z → Whole (.binStr s) z
  | jsonStr {s : List Nat} {z : Int} : Signed s z → Whole (.jsonStr s) z
  | tru : Whole .tru 1
  | fals : Whole .fals 0

/-- ASCII letters in lower case. -/
def lower (s : List Nat) : List Nat := s.map fun c => if 65 ≤ c ∧ c ≤ 90 then c + 32 else c

/-- The text `true` or `false` in any case. -/
def wordBool (s : List Nat) : Option Bool :=
  if lower s = [116, 114, 117, 101] then some true else if lower s = [102, 97, 108, 115, 101] then some false else none

def Num.zero : Num E → Prop
  | .int v => v.toInt = 0
  | .uint v => v.toNat = 0
  | .float f => E.nonZero f = false

/-- C75 as it should be, for unsigned numbers and truth values: what is converted successfully keeps its value, and a text is a truth
value exactly if it spells one. -/
def C75Statement (E : Ext) : Prop :=
  (∀ (d : Data E) (v : BitVec 64), d.asUint = (v, true) → Whole d v.toNat) ∧
  (∀ s : List Nat, (Data.jsonStr s : Data E).asBool = match wordBool s with
    | some b => (b, true)
    | none => (false, false))

/-! ### Integers -/

theorem toInt_small {v : BitVec 64} (h : v.toNat ≤ maxInt64) : v.toInt = v.toNat := by
  rw [BitVec.toInt_eq_toNat_cond, if_pos (by unfold maxInt64 at h; omega)]

/-- **C75.** `AsInt` succeeds exactly on the values that stand for a number of 63 bits and a sign, with that number. -/
theorem C75_int (d : Data E) (v : BitVec 64) : d.asInt = (v, true) ↔ Whole d v.toInt := by
  have hlt := BitVec.toInt_lt (x := v)
  constructor
  · intro h
    cases d <;> simp only [Data.asInt, Prod.mk.injEq, Bool.false_eq_true, and_false] at h
    case int w => rw [← h.1]; exact .int w
    case uint w =>
      obtain ⟨rfl, h⟩ := h
      rw [toInt_small (of_decide_eq_true h)]
      exact .uint w
    case jsonInt s => exact .jsonInt ((C47_int s v).1 h)
    case binStr s => exact .binStr ((C47_int s v).1 h)
    case jsonStr s => exact .jsonStr ((C47_int s v).1 h)
    case tru => rw [← h.1]; exact .tru
    case fals => rw [← h.1]; exact .fals
    case jsonUint s =>
      split at h
      · simp at h
      · next hc =>
        simp only [Prod.mk.injEq] at h
        obtain ⟨rfl, h⟩ := h
        rw [h] at hc
        rw [toInt_small (by simpa using hc), C47_uint_value h]
        exact .jsonUint ((C47_uint s).1 h).1
  · intro h
    generalize hz : v.toInt = z at h
    cases h with
    | int w => rw [BitVec.eq_of_toInt_eq hz]; rfl
    | uint w =>
      have hw : w.toNat ≤ maxInt64 := by unfold maxInt64; omega
      rw [← toInt_small hw] at hz
      rw [BitVec.eq_of_toInt_eq hz]
      simp only [Data.asInt, hw, decide_true]
    | jsonInt hs => exact (C47_int _ v).2 (hz ▸ hs)
    | binStr hs => exact (C47_int _ v).2 (hz ▸ hs)
    | jsonStr hs => exact (C47_int _ v).2 (hz ▸ hs)
    | jsonUint hd =>
      rename_i s
      have hok := (C47_uint s).2 ⟨hd, by omega⟩
      have hv := C47_uint_value hok
      have hle : (parseUint s).1.toNat ≤ maxInt64 := by unfold maxInt64; omega
      simp only [Data.asInt, hok, true_and]
      rw [if_neg (by omega)]
      congr 1
      exact BitVec.eq_of_toInt_eq (by rw [toInt_small hle, hz, hv])
    | tru => rw [BitVec.eq_of_toInt_eq (show v.toInt = (1#64).toInt from hz)]; rfl
    | fals => rw [BitVec.eq_of_toInt_eq (show v.toInt = (0#64).toInt from hz)]; rfl

/-- C75 for `AsUint`: except for texts of numbers with a fraction or exponent, what is converted successfully keeps its value.
(Missing: those texts, for which it is false, see `C75_fraction`.) -/
theorem C75_uint_partial (d : Data E) (v : BitVec 64) (hd : ∀ s, d ≠ .jsonFloat s) (h : d.asUint = (v, true)) : Whole d v.toNat := by
  cases d <;> simp only [Data.asUint, Prod.mk.injEq, Bool.false_eq_true, and_false] at h
  case int w =>
    split at h
    · next hp =>
      simp only [Prod.mk.injEq, and_true] at h
      subst h
      have : (w.toNat : Int) = w.toInt := by
        rw [BitVec.toInt_eq_toNat_cond] at hp ⊢
        have := w.isLt
        split at hp
        · next h => rw [if_pos h]
        · omega
      rw [this]; exact .int w
    · simp at h
  case uint w => rw [← h.1]; exact .uint w
  case jsonInt s =>
    split at h
    · next hp =>
      simp only [Prod.mk.injEq, and_true] at h
      subst h
      have h2 : parseInt s = ((parseInt s).1, true) := Prod.ext rfl hp.1
      have := (C47_int s _).1 h2
      generalize (parseInt s).1 = w at hp this
      have e : (w.toNat : Int) = w.toInt := by
        rw [BitVec.toInt_eq_toNat_cond] at hp ⊢
        have := w.isLt
        split at hp
        · next h => rw [if_pos h]
        · omega
      rw [e]; exact .jsonInt this
    · simp at h
  case binStr s =>
    have h2 : (parseUint s).2 = true := by rw [h]
    have := C47_uint_value h2
    rw [h] at this
    rw [this]; exact .binStr (.plain s ((C47_uint s).1 h2).1)
  case jsonStr s =>
    have h2 : (parseUint s).2 = true := by rw [h]
    have := C47_uint_value h2
    rw [h] at this
    rw [this]; exact .jsonStr (.plain s ((C47_uint s).1 h2).1)
  case jsonUint s =>
    have h2 : (parseUint s).2 = true := by rw [h]
    have := C47_uint_value h2
    rw [h] at this
    rw [this]; exact .jsonUint ((C47_uint s).1 h2).1
  case jsonFloat s => exact absurd rfl (hd s)
  case tru => rw [← h.1]; exact .tru
  case fals => rw [← h.1]; exact .fals

/-- **C75.** `AsUint` succeeds on every value that stands for a positive number of 64 bits (strings without a sign). -/
theorem C75_uint_complete (d : Data E) (v : BitVec 64) (h0 : 0 < v.toNat) (h : Whole d v.toNat)
    (hs : ∀ s, d = .binStr s ∨ d = .jsonStr s → Dec s) (hr : ∀ s, d = .jsonInt s → v.toNat < 2 ^ 63) : d.asUint = (v, true) := by
  have hlt := v.isLt
  generalize hz : (v.toNat : Int) = z at h
  have hu : ∀ s, Signed s z → Dec s → parseUint s = (v, true) := by
    intro s h1 hd
    have e : (decVal s : Int) = z := by
      cases h1 with
      | plain => rfl
      | plus _ _ => exact absurd hd.head (by omega)
      | minus _ _ => exact absurd hd.head (by omega)
    have hok := (C47_uint s).2 ⟨hd, by omega⟩
    exact Prod.ext (BitVec.eq_of_toNat_eq (by have := C47_uint_value hok; dsimp only; omega)) hok
  cases h with
  | int w =>
    have e : w = v := BitVec.eq_of_toNat_eq (by
      have h1 := BitVec.toInt_eq_toNat_cond w
      have h2 := w.isLt
      split at h1 <;> omega)
    subst e
    simp only [Data.asUint]
    rw [if_pos (by omega)]
  | uint w => rw [BitVec.eq_of_toNat_eq (show v.toNat = w.toNat by omega)]; rfl
  | jsonInt h1 =>
    rename_i s
    have hr := hr s rfl
    have hv : v.toInt = v.toNat := toInt_small (by unfold maxInt64; omega)
    have := (C47_int s v).2 (by rw [hv, hz]; exact h1)
    simp only [Data.asUint, this, true_and]
    rw [if_pos (by omega)]
  | binStr h1 => exact hu _ h1 (hs _ (.inl rfl))
  | jsonStr h1 => exact hu _ h1 (hs _ (.inr rfl))
  | jsonUint h1 => exact hu _ (.plain _ h1) h1
  | tru => rw [BitVec.eq_of_toNat_eq (show v.toNat = (1#64).toNat by simp; omega)]; rfl
  | fals => omega

/-- The statement is false for texts of numbers with a fraction: 1.5 is converted to 1. -/
theorem C75_fraction : (Data.jsonFloat (txt "1.5") : Data ext64).asUint = (1#64, true) ∧ ¬ C75Statement ext64 := by
  have h : (Data.jsonFloat (txt "1.5") : Data ext64).asUint = (1#64, true) := by decide +kernel
  exact ⟨h, fun hs => nomatch hs.1 _ _ h⟩

/-! ### Truth values -/

/-- **C75.** A number is true exactly if it is not 0. -/
theorem C75_bool (d : Data E) (x : Num E) (h : d.num = some x) : ∃ b, d.asBool = (b, true) ∧ (b = false ↔ x.zero) := by
  have hi : ∀ v : BitVec 64, decide (v ≠ 0#64) = false ↔ v.toInt = 0 := by
    intro v
    rw [decide_eq_false_iff_not, Decidable.not_not]
    exact ⟨fun h => by subst h; rfl, fun h => BitVec.eq_of_toInt_eq h⟩
  have hn : ∀ v : BitVec 64, decide (v ≠ 0#64) = false ↔ v.toNat = 0 := by
    intro v
    rw [decide_eq_false_iff_not, Decidable.not_not]
    exact ⟨fun h => by subst h; rfl, fun h => BitVec.eq_of_toNat_eq h⟩
  cases d <;> simp only [Data.num, reduceCtorEq] at h
  case int v => cases h; exact ⟨_, rfl, hi v⟩
  case uint v => cases h; exact ⟨_, rfl, hn v⟩
  case float f => cases h; exact ⟨_, rfl, Iff.rfl⟩
  case jsonInt s =>
    generalize hp : parseInt s = p at h
    obtain ⟨v, b⟩ := p
    cases b <;> simp at h
    subst h
    exact ⟨_, by simp only [Data.asBool, hp], hi v⟩
  case jsonUint s =>
    generalize hp : parseUint s = p at h
    obtain ⟨v, b⟩ := p
    cases b <;> simp at h
    subst h
    exact ⟨_, by simp only [Data.asBool, hp], hn v⟩
  case jsonFloat s =>
    generalize hp : E.parseFloat s = p at h
    obtain ⟨v, b⟩ := p
    cases b <;> simp at h
    subst h
    exact ⟨_, by simp only [Data.asBool, hp], Iff.rfl⟩

/-- A character that is `l` in either case, or a bar. -/
def likeLetter (l c : Nat) : Prop := c = 124 ∨ (if 65 ≤ c ∧ c ≤ 90 then c + 32 else c) = l

theorem likeLetter_iff {l c : Nat} (h : 97 ≤ l ∧ l ≤ 122) :
    (decide (c = l - 32) || decide (c = 124) || decide (c = l)) = true ↔ likeLetter l c := by
  unfold likeLetter
  simp only [Bool.or_eq_true, decide_eq_true_eq]
  split <;> omega

/-- Every character of `s` is the letter of `w` at its place, in either case, or a bar. -/
def Barred : List Nat → List Nat → Prop
  | [], [] => True
  | l :: w, c :: s => likeLetter l c ∧ Barred w s
  | _, _ => False

theorem trueText_iff (s : List Nat) : isTrueText s = true ↔ Barred [116, 114, 117, 101] s := by
  match s with
  | [] | [_] | [_, _] | [_, _, _] => simp [isTrueText, Barred]
  | _ :: _ :: _ :: _ :: _ :: _ => simp [isTrueText, Barred]
  | [a, b, c, d] =>
    have h1 := likeLetter_iff (l := 116) (c := a) (by omega)
    have h2 := likeLetter_iff (l := 114) (c := b) (by omega)
    have h3 := likeLetter_iff (l := 117) (c := c) (by omega)
    have h4 := likeLetter_iff (l := 101) (c := d) (by omega)
    simp only [Barred, isTrueText, ← h1, ← h2, ← h3, ← h4, Bool.and_eq_true, and_true, and_assoc]

theorem falseText_iff (s : List Nat) : isFalseText s = true ↔ Barred [102, 97, 108, 115, 101] s := by
  match s with
  | [] | [_] | [_, _] | [_, _, _] | [_, _, _, _] => simp [isFalseText, Barred]
  | _ :: _ :: _ :: _ :: _ :: _ :: _ => simp [isFalseText, Barred]
  | [a, b, c, d, e] =>
    have h1 := likeLetter_iff (l := 102) (c := a) (by omega)
    have h2 := likeLetter_iff (l := 97) (c := b) (by omega)
    have h3 := likeLetter_iff (l := 108) (c := c) (by omega)
    have h4 := likeLetter_iff (l := 115) (c := d) (by omega)
    have h5 := likeLetter_iff (l := 101) (c := e) (by omega)
    simp only [Barred, isFalseText, ← h1, ← h2, ← h3, ← h4, ← h5, Bool.and_eq_true, and_true, and_assoc]

theorem Barred.len : ∀ {w s : List Nat}, Barred w s → s.length = w.length
  | [], [], _ => rfl
  | _ :: _, _ :: _, h => congrArg (· + 1) h.2.len

theorem barred_plain : ∀ (w s : List Nat), 124 ∉ s → (Barred w s ↔ lower s = w)
  | [], [], _ => by simp [Barred, lower]
  | [], _ :: _, _ => by simp [Barred, lower]
  | _ :: _, [], _ => by simp [Barred, lower]
  | l :: w, c :: s, h => by
    have hc : c ≠ 124 := fun e => h (by simp [e])
    have ih := barred_plain w s (fun hm => h (by simp [hm]))
    simp only [Barred, likeLetter, lower, List.map_cons, List.cons.injEq] at ih ⊢
    rw [ih]
    simp [hc]

/-- **C75.** The texts that are truth values: the letters of `true` or `false`, each in either case or replaced by a bar. -/
theorem C75_text (s : List Nat) :
    (((Data.jsonStr s : Data E).asBool = (true, true)) ↔ Barred [116, 114, 117, 101] s) ∧
    (((Data.jsonStr s : Data E).asBool = (false, true)) ↔ Barred [102, 97, 108, 115, 101] s) ∧
    ((Data.jsonStr s : Data E).asBool = (true, true) ∨ (Data.jsonStr s : Data E).asBool = (false, true) ∨
      (Data.jsonStr s : Data E).asBool = (false, false)) := by
  rw [← trueText_iff, ← falseText_iff]
  have hx : ¬ (isTrueText s = true ∧ isFalseText s = true) := by
    rw [trueText_iff, falseText_iff]
    intro h
    have h1 := h.1.len
    have h2 := h.2.len
    simp at h1 h2
    omega
  simp only [Data.asBool]
  cases h1 : isTrueText s <;> cases h2 : isFalseText s <;> simp_all

/-- C75 for texts without bars: they are truth values exactly if they spell one.  (Missing: texts with bars, see `C75_bar`.) -/
theorem C75_text_partial (s : List Nat) (h : 124 ∉ s) : (Data.jsonStr s : Data E).asBool = match wordBool s with
    | some b => (b, true)
    | none => (false, false) := by
  have h1 := trueText_iff s
  have h2 := falseText_iff s
  rw [barred_plain _ _ h] at h1 h2
  simp only [Data.asBool, wordBool]
  by_cases e1 : lower s = [116, 114, 117, 101]
  · rw [if_pos (h1.2 e1), if_pos e1]
  · rw [if_neg (fun e => e1 (h1.1 e)), if_neg e1]
    by_cases e2 : lower s = [102, 97, 108, 115, 101]
    · rw [if_pos (h2.2 e2), if_pos e2]
    · rw [if_neg (fun e => e2 (h2.1 e)), if_neg e2]

/-- The statement is false for texts with bars: `t|ue` is true. -/
theorem C75_bar : (Data.jsonStr (txt "t|ue") : Data E).asBool = (true, true) ∧ wordBool (txt "t|ue") = none := by
  constructor
  · rfl
  · decide

/-! ### Texts and times -/

/-- **C75.** The texts of whole numbers and truth values are read back as what they are. -/
theorem C75_roundtrip :
    (∀ v : BitVec 64, (Data.int v : Data E).toJsonStringInternal.1.asInt = (v, true) ∧ (Data.jsonStr (Data.int v : Data E).asString.1 : Data E).asInt = (v, true)) ∧
    (∀ v : BitVec 64, (Data.uint v : Data E).toJsonStringInternal.1.asUint = (v, true) ∧
      (Data.jsonStr (Data.uint v : Data E).asString.1 : Data E).asUint = (v, true)) ∧
    ((Data.tru : Data E).toJsonString.1.asBool = (true, true) ∧ (Data.jsonStr (Data.tru : Data E).asString.1 : Data E).asBool = (true, true)) ∧
    ((Data.fals : Data E).toJsonString.1.asBool = (false, true) ∧ (Data.jsonStr (Data.fals : Data E).asString.1 : Data E).asBool = (false, true)) :=
  ⟨fun v => ⟨C47_roundtrip_int v, C47_roundtrip_int v⟩, fun v => ⟨C47_roundtrip_uint v, C47_roundtrip_uint v⟩, ⟨rfl, rfl⟩, ⟨rfl, rfl⟩⟩

/-- **C75.** A string is the time its text is, except that a `StringValue` is read as the empty text, whatever its text is. -/
theorem C75_time (s : List Nat) :
    (Data.binStr s : Data E).asTime = E.parseTime s ∧ (Data.jsonStr s : Data E).asTime = E.parseTime s ∧
    (Data.str s : Data E).asTime = E.parseTime [] := ⟨rfl, rfl, rfl⟩

/-! ### Examples -/

example : Whole (.jsonInt (txt "-12") : Data ext64) (-12) := .jsonInt (.minus (txt "12") (by simp [Dec, txt]))
example : (Data.jsonInt (txt "-12") : Data ext64).asInt = (BitVec.ofInt 64 (-12), true) := by decide
example : Whole (.binStr (txt "12") : Data ext64) (12#64).toNat := .binStr (.plain (txt "12") (by simp [Dec, txt]))
example : (Data.jsonUint (txt "0") : Data ext64).num = some (.uint 0#64) := by rfl
example : wordBool (txt "TRue") = some true ∧ 124 ∉ txt "TRue" := by decide

end Verif.FastVal
