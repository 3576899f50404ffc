import Verif.Simple.Field

/-!
# Numbers

A number is written as a sign, digits without leading zeros and possibly a point and more digits.  `isNum` accepts exactly these texts,
and whole numbers that fit in 64 bits get their value.
-/

namespace Verif.Simple
open Verif.FastVal Verif.Expr

/-- A decimal number; the digits are values below ten. -/
structure Num where
  neg : Bool
  whole : List Nat
  frac : Option (List Nat)

def digits (l : List Nat) : Str := l.map (48 + ·)

def Num.text (n : Num) : Str :=
  (if n.neg then [45] else []) ++ digits n.whole ++ (match n.frac with | some f => 46 :: digits f | none => [])

/-- No leading zero, and digits after the point if there is one. -/
structure Num.Ok (n : Num) : Prop where
  ne : n.whole ≠ []
  lead : n.whole = [0] ∨ n.whole.head? ≠ some 0
  digit : ∀ d ∈ n.whole, d < 10
  fracOk : ∀ f, n.frac = some f → f ≠ [] ∧ ∀ d ∈ f, d < 10

/-- The value of the whole part: the digits in base ten. -/
def ofDigits : List Nat → Nat
  | [] => 0
  | d :: r => d * 10 ^ r.length + ofDigits r

def Num.value (n : Num) : Int := if n.neg then -(ofDigits n.whole : Int) else ofDigits n.whole

theorem digit_iff (c : Nat) : digit c = true ↔ ∃ d, d < 10 ∧ c = 48 + d := by
  simp only [digit, Bool.and_eq_true, decide_eq_true_eq]
  constructor
  · intro h; exact ⟨c - 48, by omega, by omega⟩
  · rintro ⟨d, h, rfl⟩; omega

theorem digits_all (l : List Nat) (h : ∀ d ∈ l, d < 10) : ∀ c ∈ digits l, digit c = true := by
  intro c hc
  obtain ⟨d, hd, rfl⟩ := List.mem_map.1 hc
  exact (digit_iff _).2 ⟨d, h d hd, rfl⟩

theorem all_digits (s : Str) (h : ∀ c ∈ s, digit c = true) : ∃ l, (∀ d ∈ l, d < 10) ∧ s = digits l := by
  refine ⟨s.map (· - 48), ?_, ?_⟩
  · intro d hd
    obtain ⟨c, hc, rfl⟩ := List.mem_map.1 hd
    obtain ⟨d, h1, rfl⟩ := (digit_iff c).1 (h c hc)
    omega
  · rw [digits, List.map_map]
    conv => lhs; rw [← List.map_id s]
    apply List.map_congr_left
    intro c hc
    obtain ⟨d, h1, rfl⟩ := (digit_iff c).1 (h c hc)
    simp

theorem takeWhile_app (p : Nat → Bool) (a b : Str) (ha : ∀ c ∈ a, p c = true) (hb : ∀ c, b.head? = some c → p c = false) :
    (a ++ b).takeWhile p = a ∧ (a ++ b).dropWhile p = b := by
  induction a with
  | nil =>
    cases b with
    | nil => simp
    | cons c b => simp [hb c rfl]
  | cons c a ih =>
    have := ih (fun x hx => ha x (List.mem_cons_of_mem _ hx))
    simp [ha c (by simp), this]

def Num.tail (n : Num) : Str := match n.frac with | some f => 46 :: digits f | none => []

theorem unsigned_text (n : Num) (hn : n.Ok) : unsigned n.text = digits n.whole ++ n.tail := by
  unfold unsigned Num.text
  cases hneg : n.neg with
  | true => simp [Num.tail]
  | false =>
    have h := hn.ne
    cases hw : n.whole with
    | nil => exact absurd hw h
    | cons d w =>
      have : ¬ (48 + d = 45) := by omega
      simp [digits, Num.tail, this]

theorem parts_text (n : Num) (hn : n.Ok) :
    (unsigned n.text).takeWhile digit = digits n.whole ∧ (unsigned n.text).dropWhile digit = n.tail := by
  rw [unsigned_text n hn]
  refine takeWhile_app _ _ _ (digits_all _ hn.digit) ?_
  intro c hc
  unfold Num.tail at hc
  cases hf : n.frac with
  | none => simp [hf] at hc
  | some f => simp [hf] at hc; subst hc; decide

theorem isNum_text (n : Num) (hn : n.Ok) : isNum n.text = true := by
  obtain ⟨h1, h2⟩ := parts_text n hn
  have hw : digits n.whole = [48] ∨ (digits n.whole ≠ [] ∧ (digits n.whole).head? ≠ some 48) := by
    rcases hn.lead with h | h
    · left; rw [h]; rfl
    · right
      have := hn.ne
      cases hw : n.whole with
      | nil => exact absurd hw this
      | cons d w => rw [hw] at h; simp [digits] at h ⊢; omega
  have ht : n.tail = [] ∨ (n.tail.head? = some 46 ∧ n.tail.length ≥ 2 ∧ (n.tail.drop 1).all digit = true) := by
    unfold Num.tail
    cases hf : n.frac with
    | none => left; rfl
    | some f =>
      right
      obtain ⟨h3, h4⟩ := hn.fracOk f hf
      refine ⟨rfl, ?_, ?_⟩
      · cases f with
        | nil => exact absurd rfl h3
        | cons d f => simp [digits]
      · simpa using digits_all f h4
  unfold isNum
  simp only [h1, h2]
  rcases hw with h | h <;> rcases ht with k | k <;> simp [h, k]
  · right; simpa using List.all_eq_true.1 k.2.2
  · right; simpa using List.all_eq_true.1 k.2.2

theorem isNum_complete (t : Str) (h : isNum t = true) : ∃ n : Num, n.Ok ∧ n.text = t := by
  unfold isNum at h
  simp only [Bool.and_eq_true, Bool.or_eq_true, decide_eq_true_eq] at h
  obtain ⟨h1, h2⟩ := h
  have hi : ∀ c ∈ (unsigned t).takeWhile digit, digit c = true := by
    intro c hc
    have := List.all_takeWhile (p := digit) (l := unsigned t)
    exact List.all_eq_true.1 this c hc
  obtain ⟨w, hw, hwt⟩ := all_digits _ hi
  have hsplit : unsigned t = digits w ++ (unsigned t).dropWhile digit := by
    rw [← hwt]; exact (List.takeWhile_append_dropWhile).symm
  have hsign : t = (if t.head? = some 45 then [45] else []) ++ unsigned t := by
    unfold unsigned
    cases t with
    | nil => simp
    | cons c s =>
      by_cases hc : c = 45
      · subst hc; simp
      · simp [hc]
  have hlead : w ≠ [] ∧ (w = [0] ∨ w.head? ≠ some 0) := by
    rw [hwt] at h1
    cases w with
    | nil => simp [digits] at h1
    | cons d w =>
      refine ⟨by simp, ?_⟩
      rcases h1 with h1 | h1
      · left
        simp only [digits, List.map_cons, List.cons.injEq, List.map_eq_nil_iff] at h1
        rw [h1.2]
        have : d = 0 := by omega
        rw [this]
      · right
        simp [digits] at h1 ⊢
        omega
  rcases h2 with h2 | h2
  · refine ⟨⟨decide (t.head? = some 45), w, none⟩, ⟨hlead.1, hlead.2, hw, by simp⟩, ?_⟩
    rw [Num.text]
    conv => rhs; rw [hsign, hsplit, h2]
    simp
  · obtain ⟨⟨h3, h4⟩, h5⟩ := h2
    cases hr : (unsigned t).dropWhile digit with
    | nil => rw [hr] at h3; simp at h3
    | cons c r =>
      rw [hr] at h3 h4 h5
      simp only [List.head?_cons, Option.some.injEq] at h3
      subst h3
      obtain ⟨f, hf, hft⟩ := all_digits r (by intro c hc; exact List.all_eq_true.1 h5 c (by simpa using hc))
      refine ⟨⟨decide (t.head? = some 45), w, some f⟩, ⟨hlead.1, hlead.2, hw, ?_⟩, ?_⟩
      · intro g hg
        simp only [Option.some.injEq] at hg
        subst hg
        refine ⟨?_, hf⟩
        intro he
        subst he
        rw [hft] at h4
        simp [digits] at h4
      · rw [Num.text]
        conv => rhs; rw [hsign, hsplit, hr, hft]
        simp

/-- `valueNumRegex` accepts exactly the texts of numbers. -/
theorem isNum_iff (t : Str) : isNum t = true ↔ ∃ n : Num, n.Ok ∧ n.text = t :=
  ⟨isNum_complete t, fun ⟨n, hn, h⟩ => h ▸ isNum_text n hn⟩

theorem foldl_digits : ∀ (w : List Nat) (a : Nat), (digits w).foldl (fun a c => 10 * a + (c - 48)) a = a * 10 ^ w.length + ofDigits w := by
  intro w
  induction w with
  | nil => intro a; simp [digits, ofDigits]
  | cons d w ih =>
    intro a
    rw [digits, List.map_cons, List.foldl_cons]
    have := ih (10 * a + (48 + d - 48))
    rw [digits] at this
    rw [this, ofDigits]
    rw [show 48 + d - 48 = d by omega, List.length_cons, Nat.pow_succ, Nat.add_mul]
    have : 10 * a * 10 ^ w.length = a * (10 ^ w.length * 10) := by
      rw [Nat.mul_comm (10 ^ w.length) 10, ← Nat.mul_assoc, Nat.mul_comm a 10]
    omega

theorem isInt_text (n : Num) (hn : n.Ok) : isInt n.text = decide (n.frac = none) := by
  unfold isInt
  rw [unsigned_text n hn]
  have hw := digits_all _ hn.digit
  cases hf : n.frac with
  | none =>
    have : n.tail = [] := by simp [Num.tail, hf]
    rw [this]
    have h1 : digits n.whole ≠ [] := by simpa [digits] using hn.ne
    have h2 : (digits n.whole).all digit = true := List.all_eq_true.2 hw
    simp [h1, h2]
  | some f =>
    have : n.tail = 46 :: digits f := by simp [Num.tail, hf]
    rw [this]
    simp [show digit 46 = false from rfl]

/-- Whole numbers get their value, or an error outside of 64 bits. -/
theorem intOf_text (n : Num) (hn : n.Ok) (hf : n.frac = none) :
    intOf n.text = if -(2 ^ 63) ≤ n.value ∧ n.value < 2 ^ 63 then some (BitVec.ofInt 64 n.value) else none := by
  have hu := unsigned_text n hn
  have ht : n.tail = [] := by simp [Num.tail, hf]
  rw [ht, List.append_nil] at hu
  unfold intOf
  simp only [hu, foldl_digits, Nat.zero_mul, Nat.zero_add]
  have hh : n.text.head? = some 45 ↔ n.neg = true := by
    unfold Num.text
    cases hneg : n.neg with
    | true => simp
    | false =>
      have h := hn.ne
      cases hw : n.whole with
      | nil => exact absurd hw h
      | cons d w => simp [digits]; omega
  unfold Num.value
  cases hneg : n.neg with
  | true =>
    rw [if_pos (hh.2 hneg)]
    simp only [if_true]
    by_cases hv : ofDigits n.whole ≤ 2 ^ 63
    · rw [if_pos hv, if_pos (by constructor <;> omega)]
      simp [BitVec.ofInt_neg]
    · rw [if_neg hv, if_neg (by omega)]
  | false =>
    rw [if_neg (by rw [hh, hneg]; simp)]
    simp only [Bool.false_eq_true, if_false]
    by_cases hv : ofDigits n.whole < 2 ^ 63
    · rw [if_pos hv, if_pos (by constructor <;> omega)]
      simp
    · rw [if_neg hv, if_neg (by omega)]

end Verif.Simple
