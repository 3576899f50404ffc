/-!
# Rounding to 53 significant bits

A finite `float64` is a whole number of units of 2^-1074 with at most 53 significant bits (an exponent and a mantissa, including the
subnormal numbers); so sums, differences and conversions are described by rounding whole numbers.
-/

namespace Verif.FastVal

/-- Specification: at most 53 significant bits. -/
def Rep (z : Int) : Prop := ∃ (m : Int) (k : Nat), m.natAbs ≤ 2 ^ 53 ∧ z = m * 2 ^ k

/-- `n` to 53 significant bits, to the nearest, to even in the middle. -/
def rndN (n : Nat) : Nat :=
  if n < 2 ^ 53 then n
  else
    let k := n.log2 - 52
    let q := n / 2 ^ k
    let r := n % 2 ^ k
    (if 2 ^ k < 2 * r ∨ (2 * r = 2 ^ k ∧ q % 2 = 1) then q + 1 else q) * 2 ^ k

def rnd : Int → Int
  | .ofNat n => rndN n
  | .negSucc n => -(rndN (n + 1) : Int)

theorem rnd_nat (n : Nat) : rnd (n : Int) = rndN n := rfl

theorem rnd_neg (z : Int) : rnd (-z) = - rnd z := by
  match z with
  | .ofNat 0 => rfl
  | .ofNat (n + 1) => rfl
  | .negSucc n =>
    show rnd ((n + 1 : Nat) : Int) = - -(rndN (n + 1) : Int)
    rw [rnd_nat]; omega

/-! ### Bounds -/

/-- What `rndN` does above 2^53: quotient, remainder and exponent. -/
theorem rndN_split {n : Nat} (h : 2 ^ 53 ≤ n) : ∃ k q r, k = n.log2 - 52 ∧ n = q * 2 ^ k + r ∧ r < 2 ^ k ∧ 2 ^ 52 ≤ q ∧ q < 2 ^ 53 ∧ 0 < k ∧
    n.log2 = k + 52 ∧ rndN n = (if 2 ^ k < 2 * r ∨ (2 * r = 2 ^ k ∧ q % 2 = 1) then q + 1 else q) * 2 ^ k := by
  have hn : n ≠ 0 := by omega
  have h53 : 53 ≤ n.log2 := (Nat.le_log2 hn).2 h
  refine ⟨n.log2 - 52, n / 2 ^ (n.log2 - 52), n % 2 ^ (n.log2 - 52), rfl, ?_, Nat.mod_lt _ (Nat.two_pow_pos _), ?_, ?_, by omega, by omega, ?_⟩
  · rw [Nat.mul_comm]; exact (Nat.div_add_mod _ _).symm
  · rw [Nat.le_div_iff_mul_le (Nat.two_pow_pos _), ← Nat.pow_add, show 52 + (n.log2 - 52) = n.log2 by omega]
    exact Nat.log2_self_le hn
  · rw [Nat.div_lt_iff_lt_mul (Nat.two_pow_pos _), ← Nat.pow_add, show 53 + (n.log2 - 52) = n.log2 + 1 by omega]
    exact Nat.lt_log2_self
  · rw [rndN, if_neg (by omega)]

theorem rndN_low {n : Nat} (h : n ≤ 2 ^ 53) : rndN n = n := by
  rcases Nat.lt_or_eq_of_le h with h | rfl
  · rw [rndN, if_pos h]
  · rfl

/-- The rounded value stays within the powers of two around. -/
theorem rndN_bounds (n : Nat) (h : n ≠ 0) : 2 ^ n.log2 ≤ rndN n ∧ rndN n ≤ 2 ^ (n.log2 + 1) := by
  by_cases hn : n < 2 ^ 53
  · rw [rndN_low (by omega)]
    exact ⟨Nat.log2_self_le h, Nat.le_of_lt Nat.lt_log2_self⟩
  · obtain ⟨k, q, r, hk, e, hr, h1, h2, h3, h4, h5⟩ := rndN_split (Nat.le_of_not_lt hn)
    rw [h5, h4]
    constructor
    · rw [Nat.add_comm, Nat.pow_add]
      refine Nat.mul_le_mul_right _ ?_
      split <;> omega
    · rw [show k + 52 + 1 = 53 + k by omega, Nat.pow_add]
      refine Nat.mul_le_mul_right _ ?_
      split <;> omega

theorem rndN_mono {a b : Nat} (h : a ≤ b) : rndN a ≤ rndN b := by
  by_cases ha0 : a = 0
  · subst ha0; rw [show rndN 0 = 0 from rfl]; omega
  have hb0 : b ≠ 0 := by omega
  by_cases hl : a.log2 = b.log2
  · by_cases hb : b < 2 ^ 53
    · rw [rndN_low (by omega), rndN_low (by omega)]; exact h
    · have h53 : 53 ≤ b.log2 := (Nat.le_log2 hb0).2 (by omega)
      have ha : 2 ^ 53 ≤ a := (Nat.le_log2 ha0).1 (by omega)
      obtain ⟨k, q, r, hk, e, hr, -, -, h3, h4, h5⟩ := rndN_split ha
      obtain ⟨k', q', r', hk', e', hr', -, -, h3', h4', h5'⟩ := rndN_split (Nat.le_of_not_lt hb)
      obtain rfl : k = k' := by omega
      rw [h5, h5']
      refine Nat.mul_le_mul_right _ ?_
      rcases Nat.lt_trichotomy q q' with hq | rfl | hq
      · split <;> split <;> omega
      · split <;> split <;> omega
      · exfalso
        have := Nat.mul_le_mul_right (2 ^ k) (show q' + 1 ≤ q from hq)
        rw [Nat.add_mul] at this
        omega
  · have hl' : a.log2 < b.log2 := by
      have : a.log2 ≤ b.log2 := (Nat.le_log2 hb0).2 (Nat.le_trans (Nat.log2_self_le ha0) h)
      omega
    calc rndN a ≤ 2 ^ (a.log2 + 1) := (rndN_bounds a ha0).2
      _ ≤ 2 ^ b.log2 := Nat.pow_le_pow_right (by omega) hl'
      _ ≤ rndN b := (rndN_bounds b hb0).1

theorem rnd_nonneg {z : Int} (h : 0 ≤ z) : 0 ≤ rnd z := by
  obtain ⟨n, rfl⟩ := Int.eq_ofNat_of_zero_le h
  rw [rnd_nat]; omega

/-- Rounding keeps the order. -/
theorem rnd_mono {a b : Int} (h : a ≤ b) : rnd a ≤ rnd b := by
  have key : ∀ {a b : Int}, 0 ≤ a → a ≤ b → rnd a ≤ rnd b := by
    intro a b ha h
    obtain ⟨m, rfl⟩ := Int.eq_ofNat_of_zero_le ha
    obtain ⟨n, rfl⟩ := Int.eq_ofNat_of_zero_le (Int.le_trans ha h)
    rw [rnd_nat, rnd_nat]
    have := rndN_mono (show m ≤ n by omega)
    omega
  by_cases ha : 0 ≤ a
  · exact key ha h
  · by_cases hb : 0 ≤ b
    · have h1 := rnd_nonneg (z := -a) (by omega)
      have h2 := rnd_nonneg hb
      rw [rnd_neg] at h1
      omega
    · have := key (a := -b) (b := -a) (by omega) (by omega)
      rw [rnd_neg, rnd_neg] at this
      omega

/-! ### Numbers that need no rounding -/

theorem rndN_exact (m k : Nat) (h : m ≤ 2 ^ 53) : rndN (m * 2 ^ k) = m * 2 ^ k := by
  by_cases hn : m * 2 ^ k < 2 ^ 53
  · exact rndN_low (by omega)
  · obtain ⟨j, q, r, hj, e, hr, h1, h2, h3, h4, h5⟩ := rndN_split (Nat.le_of_not_lt hn)
    -- the exponent taken is at most the one given, or the number is a power of two
    by_cases hjk : j ≤ k
    · have : r = 0 := by
        have hd : 2 ^ j ∣ m * 2 ^ k := Nat.dvd_trans (Nat.pow_dvd_pow 2 hjk) (Nat.dvd_mul_left _ _)
        have hd' : 2 ^ j ∣ r := by
          rw [e] at hd
          exact (Nat.dvd_add_right (Nat.dvd_mul_left _ _)).1 hd
        exact Nat.eq_zero_of_dvd_of_lt hd' hr
      subst this
      rw [h5, if_neg, e, Nat.add_zero]
      have := Nat.two_pow_pos j
      omega
    · have hm : m = 2 ^ 53 := by
        have h6 : 2 ^ (j + 52) ≤ m * 2 ^ k := by
          rw [← h4]; exact Nat.log2_self_le (by omega)
        have h7 : 2 ^ (53 + k) ≤ 2 ^ (j + 52) := Nat.pow_le_pow_right (by omega) (by omega)
        rw [Nat.pow_add] at h7
        have := Nat.le_of_mul_le_mul_right (Nat.le_trans h7 h6) (Nat.two_pow_pos k)
        omega
      subst hm
      have hj1 : j = k + 1 := by
        have h6 : 2 ^ (j + 52) ≤ 2 ^ 53 * 2 ^ k := by
          rw [← h4]; exact Nat.log2_self_le (by omega)
        rw [← Nat.pow_add] at h6
        have := (Nat.pow_le_pow_iff_right (by omega : 1 < 2)).1 h6
        omega
      subst hj1
      have hq : 2 ^ 53 * 2 ^ k = 2 ^ 52 * 2 ^ (k + 1) := by rw [← Nat.pow_add, ← Nat.pow_add]; congr 1; omega
      have hr0 : r = 0 := by
        have hd : 2 ^ (k + 1) ∣ r := by
          have : 2 ^ (k + 1) ∣ 2 ^ 53 * 2 ^ k := by rw [hq]; exact Nat.dvd_mul_left _ _
          rw [e] at this
          exact (Nat.dvd_add_right (Nat.dvd_mul_left _ _)).1 this
        exact Nat.eq_zero_of_dvd_of_lt hd hr
      have hc : ¬ (2 ^ (k + 1) < 2 * r ∨ (2 * r = 2 ^ (k + 1) ∧ q % 2 = 1)) := by omega
      rw [if_neg hc] at h5
      omega

/-- Numbers with at most 53 significant bits are kept. -/
theorem rnd_exact {z : Int} (h : Rep z) : rnd z = z := by
  obtain ⟨m, k, hm, rfl⟩ := h
  match m with
  | .ofNat n =>
    have : (Int.ofNat n) * 2 ^ k = ((n * 2 ^ k : Nat) : Int) := by push_cast; rfl
    rw [this, rnd_nat, rndN_exact n k hm]
  | .negSucc n =>
    have : (Int.negSucc n) * 2 ^ k = -(((n + 1) * 2 ^ k : Nat) : Int) := by
      rw [Int.negSucc_eq, Int.neg_mul]; push_cast; rfl
    rw [this, rnd_neg, rnd_nat, rndN_exact (n + 1) k hm]

/-- The result has at most 53 significant bits. -/
theorem rnd_rep (z : Int) : Rep (rnd z) := by
  have key : ∀ n : Nat, ∃ m k, m ≤ 2 ^ 53 ∧ rndN n = m * 2 ^ k := by
    intro n
    by_cases h : n < 2 ^ 53
    · exact ⟨n, 0, by omega, by rw [rndN_low (by omega)]; omega⟩
    · obtain ⟨k, q, r, -, -, -, -, h2, -, -, h5⟩ := rndN_split (Nat.le_of_not_lt h)
      exact ⟨_, k, by split <;> omega, h5⟩
  match z with
  | .ofNat n =>
    obtain ⟨m, k, h1, h2⟩ := key n
    refine ⟨m, k, by omega, ?_⟩
    show ((rndN n : Nat) : Int) = _
    rw [h2]; push_cast; rfl
  | .negSucc n =>
    obtain ⟨m, k, h1, h2⟩ := key (n + 1)
    refine ⟨-m, k, by omega, ?_⟩
    show -((rndN (n + 1) : Nat) : Int) = _
    rw [h2, Int.neg_mul]; push_cast; rfl

/-- No number with at most 53 significant bits lies strictly between the neighbours of `n`. -/
theorem rep_gap {n w : Nat} (h : 2 ^ 53 ≤ n) (hw : rndN w = w) {k q r : Nat} (hk : k = n.log2 - 52) (e : n = q * 2 ^ k + r) (hr : r < 2 ^ k)
    (h1 : 2 ^ 52 ≤ q) (h2 : q < 2 ^ 53) : (w ≤ n → w ≤ q * 2 ^ k) ∧ (n < w → (q + 1) * 2 ^ k ≤ w) := by
  have hp := Nat.two_pow_pos k
  -- a number of the same size is a multiple of 2^k
  have key : w.log2 = n.log2 → ∃ q', w = q' * 2 ^ k := by
    intro hl
    have hn0 : n ≠ 0 := by omega
    have h53 : 53 ≤ n.log2 := (Nat.le_log2 hn0).2 h
    have hw53 : 2 ^ 53 ≤ w := by
      have : w ≠ 0 := by rintro rfl; simp [Nat.log2_zero] at hl; omega
      exact (Nat.le_log2 this).1 (by omega)
    obtain ⟨k', q', r', hk', e', hr', -, -, -, -, h5⟩ := rndN_split hw53
    obtain rfl : k = k' := by omega
    rw [hw] at h5
    exact ⟨_, h5⟩
  have hlt : ∀ q', (q' * 2 ^ k ≤ n → q' * 2 ^ k ≤ q * 2 ^ k) ∧ (n < q' * 2 ^ k → (q + 1) * 2 ^ k ≤ q' * 2 ^ k) := by
    intro q'
    constructor
    · intro hh
      refine Nat.mul_le_mul_right _ (Nat.le_of_not_lt fun hq => ?_)
      have := Nat.mul_le_mul_right (2 ^ k) (show q + 1 ≤ q' from hq)
      rw [Nat.add_mul] at this
      omega
    · intro hh
      refine Nat.mul_le_mul_right _ (Nat.succ_le_of_lt (Nat.lt_of_not_le fun hq => ?_))
      have := Nat.mul_le_mul_right (2 ^ k) hq
      omega
  have hlog : n.log2 = k + 52 := by
    clear key
    have : 53 ≤ n.log2 := (Nat.le_log2 (by omega)).2 h
    omega
  constructor
  · intro hwn
    by_cases hl : w.log2 = n.log2
    · obtain ⟨q', rfl⟩ := key hl
      exact (hlt q').1 hwn
    · by_cases hw0 : w = 0
      · omega
      have : w.log2 ≤ n.log2 := (Nat.le_log2 (by omega)).2 (Nat.le_trans (Nat.log2_self_le hw0) hwn)
      have h6 : 2 ^ (w.log2 + 1) ≤ 2 ^ (52 + k) := Nat.pow_le_pow_right (by omega) (by omega)
      have h7 : w < 2 ^ (w.log2 + 1) := Nat.lt_log2_self
      rw [Nat.pow_add 2 52] at h6
      have := Nat.mul_le_mul_right (2 ^ k) h1
      omega
  · intro hnw
    by_cases hl : w.log2 = n.log2
    · obtain ⟨q', rfl⟩ := key hl
      exact (hlt q').2 hnw
    · have : n.log2 ≤ w.log2 := (Nat.le_log2 (by omega)).2 (Nat.le_trans (Nat.log2_self_le (by omega)) (Nat.le_of_lt hnw))
      have h6 : 2 ^ (53 + k) ≤ 2 ^ w.log2 := Nat.pow_le_pow_right (by omega) (by omega)
      have h7 : 2 ^ w.log2 ≤ w := Nat.log2_self_le (by omega)
      rw [Nat.pow_add 2 53] at h6
      have := Nat.mul_le_mul_right (2 ^ k) (show q + 1 ≤ 2 ^ 53 by omega)
      omega

theorem rndN_nearest (n w : Nat) (hw : rndN w = w) : ((rndN n : Int) - n).natAbs ≤ ((w : Int) - n).natAbs := by
  by_cases h : n < 2 ^ 53
  · rw [rndN_low (by omega)]; omega
  · obtain ⟨k, q, r, hk, e, hr, h1, h2, h3, h4, h5⟩ := rndN_split (Nat.le_of_not_lt h)
    obtain ⟨g1, g2⟩ := rep_gap (Nat.le_of_not_lt h) hw hk e hr h1 h2
    have hq : (q + 1) * 2 ^ k = q * 2 ^ k + 2 ^ k := by rw [Nat.add_mul, Nat.one_mul]
    by_cases hc : 2 ^ k < 2 * r ∨ (2 * r = 2 ^ k ∧ q % 2 = 1)
    · rw [if_pos hc] at h5
      by_cases hwn : w ≤ n
      · have := g1 hwn; omega
      · have := g2 (by omega); omega
    · rw [if_neg hc] at h5
      by_cases hwn : w ≤ n
      · have := g1 hwn; omega
      · have := g2 (by omega); omega

/-- Rounding is to the nearest: no number with at most 53 significant bits is closer. -/
theorem rnd_nearest (z w : Int) (hw : Rep w) : (rnd z - z).natAbs ≤ (w - z).natAbs := by
  have key : ∀ (n : Nat) (w : Int), rnd w = w → (rnd (n : Int) - n).natAbs ≤ (w - n).natAbs := by
    intro n w hw
    rw [rnd_nat]
    match w with
    | .ofNat m => exact rndN_nearest n m (by have : ((rndN m : Nat) : Int) = m := hw; omega)
    | .negSucc m =>
      have := rndN_nearest n 0 rfl
      omega
  have hw' := rnd_exact hw
  by_cases hz : 0 ≤ z
  · obtain ⟨n, rfl⟩ := Int.eq_ofNat_of_zero_le hz
    exact key n w hw'
  · obtain ⟨n, hn⟩ := Int.eq_ofNat_of_zero_le (show 0 ≤ -z by omega)
    have := key n (-w) (by rw [rnd_neg, hw'])
    rw [← hn, rnd_neg] at this
    omega

/-! ### Scaling, and where two numbers of 53 bits lie -/

theorem log2_shift (n k : Nat) (h : n ≠ 0) : (n * 2 ^ k).log2 = n.log2 + k := by
  have hp := Nat.two_pow_pos k
  have h0 : n * 2 ^ k ≠ 0 := Nat.mul_ne_zero h (by omega)
  apply Nat.le_antisymm
  · have : (n * 2 ^ k).log2 < n.log2 + k + 1 := by
      rw [Nat.log2_lt h0, show n.log2 + k + 1 = (n.log2 + 1) + k by omega, Nat.pow_add]
      exact (Nat.mul_lt_mul_right hp).2 Nat.lt_log2_self
    omega
  · rw [Nat.le_log2 h0, Nat.pow_add]
    exact Nat.mul_le_mul_right _ (Nat.log2_self_le h)

theorem rndN_shift (n k : Nat) : rndN (n * 2 ^ k) = rndN n * 2 ^ k := by
  by_cases h : n < 2 ^ 53
  · rw [rndN_exact n k (by omega), rndN_low (by omega)]
  · have hp := Nat.two_pow_pos k
    have hn : 2 ^ 53 ≤ n := by omega
    have hnk : 2 ^ 53 ≤ n * 2 ^ k := Nat.le_trans hn (Nat.le_mul_of_pos_right _ hp)
    rw [rndN, if_neg (by omega), rndN, if_neg h]
    have h53 : 53 ≤ n.log2 := (Nat.le_log2 (by omega)).2 hn
    have e1 : (n * 2 ^ k).log2 - 52 = (n.log2 - 52) + k := by rw [log2_shift n k (by omega)]; omega
    simp only [e1]
    generalize n.log2 - 52 = j
    rw [Nat.pow_add, Nat.mul_div_mul_right _ _ hp, Nat.mul_mod_mul_right]
    have e2 : (2 ^ j * 2 ^ k < 2 * (n % 2 ^ j * 2 ^ k)) ↔ 2 ^ j < 2 * (n % 2 ^ j) := by
      rw [← Nat.mul_assoc]; exact Nat.mul_lt_mul_right hp
    have e3 : (2 * (n % 2 ^ j * 2 ^ k) = 2 ^ j * 2 ^ k) ↔ 2 * (n % 2 ^ j) = 2 ^ j := by
      rw [← Nat.mul_assoc]; exact Nat.mul_left_inj (by omega)
    simp only [e2, e3, Nat.mul_assoc]

theorem rnd_shift (z : Int) (k : Nat) : rnd (z * 2 ^ k) = rnd z * 2 ^ k := by
  have key : ∀ n : Nat, rnd ((n : Int) * 2 ^ k) = rnd n * 2 ^ k := by
    intro n
    have : (n : Int) * 2 ^ k = ((n * 2 ^ k : Nat) : Int) := by push_cast; rfl
    rw [this, rnd_nat, rnd_nat, rndN_shift]; push_cast; rfl
  by_cases hz : 0 ≤ z
  · obtain ⟨n, rfl⟩ := Int.eq_ofNat_of_zero_le hz
    exact key n
  · obtain ⟨n, hn⟩ := Int.eq_ofNat_of_zero_le (show 0 ≤ -z by omega)
    obtain rfl : z = -(n : Int) := by omega
    rw [Int.neg_mul, rnd_neg, key, rnd_neg, Int.neg_mul]

/-- A number of 53 bits at or above 2^(i+52) is a multiple of 2^i. -/
theorem rep_dvd {z : Int} (h : Rep z) (i : Nat) (hz : 2 ^ (i + 52) ≤ z) : ∃ q, z = q * 2 ^ i := by
  obtain ⟨m, k, hm, rfl⟩ := h
  have hk : (0 : Int) < 2 ^ k := Int.pow_pos (by omega)
  have hm0 : 0 < m := by
    apply Int.lt_of_not_ge
    intro h
    have := Int.mul_nonpos_of_nonpos_of_nonneg h (Int.le_of_lt hk)
    have : (0 : Int) < 2 ^ (i + 52) := Int.pow_pos (by omega)
    omega
  obtain ⟨n, rfl⟩ := Int.eq_ofNat_of_zero_le (Int.le_of_lt hm0)
  have h1 : 2 ^ (i + 52) ≤ n * 2 ^ k := by exact_mod_cast hz
  by_cases hik : i ≤ k
  · refine ⟨n * 2 ^ (k - i), ?_⟩
    rw [Int.mul_assoc, ← Int.pow_add, Nat.sub_add_cancel hik]
  · have h2 : n * 2 ^ k ≤ 2 ^ (53 + k) := by rw [Nat.pow_add]; exact Nat.mul_le_mul_right _ (by omega)
    have h3 := (Nat.pow_le_pow_iff_right (by omega : 1 < 2)).1 (Nat.le_trans h1 h2)
    obtain rfl : i = k + 1 := by omega
    have hn : n = 2 ^ 53 := by
      rw [show k + 1 + 52 = 53 + k by omega, Nat.pow_add] at h1
      have := Nat.le_of_mul_le_mul_right h1 (Nat.two_pow_pos k)
      omega
    subst hn
    refine ⟨2 ^ 52, ?_⟩
    have e : (2 : Int) ^ (k + 1) = 2 ^ k * 2 := Int.pow_succ _ _
    rw [e, show ((2 ^ 53 : Nat) : Int) = 9007199254740992 from rfl, show (2 ^ 52 : Int) = 4503599627370496 from rfl]
    generalize (2 : Int) ^ k = p
    omega

end Verif.FastVal
