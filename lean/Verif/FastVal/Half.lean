import Verif.FastVal.Binary

/-!
# Adding one half
-/

namespace Verif.FastVal

/-- One half. -/
def half64 : Int := 2 ^ 1073

/-- The largest number below one half, 0.49999999999999994. -/
def pred64 : Int := 2 ^ 1073 - 2 ^ 1020

theorem half64_eq : half64 = 2 ^ 1073 := rfl
theorem pred64_eq : pred64 = 2 ^ 1073 - 2 ^ 1020 := rfl

attribute [irreducible] half64 pred64

theorem one_half : one64 = 2 * half64 := by
  rw [one64_eq, half64_eq, show 1074 = 1073 + 1 from rfl, Int.pow_succ]; omega

theorem half_pos : 0 < half64 := by rw [half64_eq]; exact Int.pow_pos (by omega)

/-- Rounding `a + ½` can reach the next whole number only from the largest number below one half. -/
theorem addHalf_low {a : Int} (ha : Rep a) (h0 : 0 ≤ a) (h1 : a < 2 ^ 52 * one64) (h2 : a ≠ pred64) :
    rnd (a + half64) / one64 = (a + half64) / one64 := by
  have hH := half_pos
  have hU := one_half
  have hU0 : 0 < one64 := by omega
  obtain ⟨N, hN⟩ := Int.eq_ofNat_of_zero_le (Int.ediv_nonneg (show 0 ≤ a + half64 by omega) (Int.le_of_lt hU0))
  have e := Int.mul_ediv_add_emod (a + half64) one64
  have er := Int.emod_nonneg (a + half64) (Int.ne_of_gt hU0)
  have er' := Int.emod_lt_of_pos (a + half64) hU0
  rw [hN] at e
  rw [hN]
  generalize hr : (a + half64) % one64 = r at e er er'
  -- the whole part is at most 2^52
  have hN52 : N ≤ 2 ^ 52 := by
    apply Nat.le_of_not_lt
    intro hlt
    have : (2 ^ 52 + 1 : Int) * one64 ≤ one64 * N := by
      rw [Int.mul_comm one64]
      exact Int.mul_le_mul_of_nonneg_right (by omega) (by omega)
    rw [Int.add_mul] at this
    omega
  have hlow : one64 * N ≤ rnd (a + half64) := by
    have := rnd_mono (show one64 * N ≤ a + half64 by omega)
    rwa [Int.mul_comm, rnd_exact (rep_int (by omega)), Int.mul_comm] at this
  have hhigh : rnd (a + half64) ≤ one64 * (N + 1) := by
    have := rnd_mono (show a + half64 ≤ one64 * (N + 1) by rw [Int.mul_add]; omega)
    rwa [Int.mul_comm, show (N : Int) + 1 = ((N + 1 : Nat) : Int) from rfl, rnd_exact (rep_int (by omega)), Int.mul_comm] at this
  suffices hne : rnd (a + half64) ≠ one64 * (N + 1) by
    have h3 : rnd (a + half64) = (rnd (a + half64) - one64 * N) + one64 * N := by omega
    have h4 : (rnd (a + half64) - one64 * N) < one64 := by rw [Int.mul_add] at hhigh hne; omega
    rw [h3, Int.add_mul_ediv_left _ _ (Int.ne_of_gt hU0), Int.ediv_eq_zero_of_lt (by omega) h4]
    omega
  intro heq
  by_cases hN0 : N = 0
  · subst hN0
    have hp : (2 : Int) ^ 1073 = 2 ^ 1021 * 2 ^ 52 := by rw [← Int.pow_add]
    have hq : (2 : Int) ^ 1021 = 2 ^ 1020 * 2 := by rw [← Int.pow_succ]
    have hpos : (0 : Int) < 2 ^ 1020 := Int.pow_pos (by omega)
    have hw : Rep (one64 - 2 ^ 1021) := by
      refine ⟨2 ^ 53 - 1, 1021, by decide, ?_⟩
      rw [hU, half64_eq, hp, Int.sub_mul]
      generalize (2 : Int) ^ 1021 = p
      omega
    have hn := rnd_nearest (a + half64) _ hw
    rw [heq] at hn
    have hah : a < half64 := by omega
    have h5 : a ≤ pred64 := by
      by_cases hq' : 2 ^ (1020 + 52) ≤ a
      · obtain ⟨q, hq2⟩ := rep_dvd ha 1020 hq'
        have h6 : half64 = 9007199254740992 * 2 ^ 1020 := by
          rw [half64_eq, hp, hq]
          generalize (2 : Int) ^ 1020 = p
          omega
        rw [pred64_eq, ← half64_eq, h6]
        rw [h6, hq2] at hah
        have := Int.lt_of_mul_lt_mul_right hah (Int.le_of_lt hpos)
        have := Int.mul_le_mul_of_nonneg_right (show q ≤ 9007199254740992 - 1 by omega) (Int.le_of_lt hpos)
        rw [Int.sub_mul] at this
        omega
      · have h7 : (2 : Int) ^ (1020 + 52) * 2 = half64 := by rw [half64_eq, ← Int.pow_succ]
        have h8 : (2 : Int) ^ (1020 + 52) = 2 ^ 1020 * 2 ^ 52 := Int.pow_add _ _ _
        rw [pred64_eq, ← half64_eq]
        generalize (2 : Int) ^ 1020 = p at *
        omega
    rw [pred64_eq, ← half64_eq] at h2 h5
    generalize (2 : Int) ^ 1021 = p at *
    generalize (2 : Int) ^ 1020 = p' at *
    omega
  · -- in units of half of the last place
    obtain ⟨j, hj⟩ : ∃ j, j = N.log2 := ⟨_, rfl⟩
    have hj1 : 2 ^ j ≤ N := by rw [hj]; exact Nat.log2_self_le hN0
    have hj2 : N < 2 ^ (j + 1) := by rw [hj]; exact Nat.lt_log2_self
    have hj52 : j ≤ 52 := (Nat.pow_le_pow_iff_right (by omega : 1 < 2)).1 (Nat.le_trans hj1 hN52)
    have hP : (0 : Int) < 2 ^ (j + 1021) := Int.pow_pos (by omega)
    have hM : half64 = 2 ^ (52 - j) * 2 ^ (j + 1021) := by
      have h3 : 1073 = (52 - j) + (j + 1021) := by omega
      rw [half64_eq, h3, Int.pow_add]
    have hMj : (2 : Int) ^ (52 - j) * 2 ^ j = 2 ^ 52 := by rw [← Int.pow_add]; congr 1; omega
    have hM0 : (0 : Int) < 2 ^ (52 - j) := Int.pow_pos (by omega)
    have hj1' : (2 : Int) ^ j ≤ N := by exact_mod_cast hj1
    have hj2' : (N : Int) + 1 ≤ 2 ^ j * 2 := by
      rw [← Int.pow_succ]
      have : ((N + 1 : Nat) : Int) ≤ ((2 ^ (j + 1) : Nat) : Int) := by exact_mod_cast hj2
      exact_mod_cast this
    have hjpos : (0 : Int) < 2 ^ j := Int.pow_pos (by omega)
    have hPj : (2 : Int) ^ (j + 1021 + 1) = 2 * 2 ^ (j + 1021) := by rw [Int.pow_succ]; omega
    have hB1 : (2 : Int) ^ (j + 1021 + 52) = 2 ^ j * half64 := by
      rw [half64_eq, ← Int.pow_add]
    have hB2 : (2 : Int) ^ (j + 1021 + 1 + 52) = 2 ^ j * one64 := by
      rw [one64_eq, ← Int.pow_add]
    -- `a` is a multiple of that
    obtain ⟨A, hA⟩ : ∃ A, a = A * 2 ^ (j + 1021) := by
      refine rep_dvd ha _ ?_
      rw [hB1]
      have h3 : 2 ^ j * one64 ≤ N * one64 := Int.mul_le_mul_of_nonneg_right hj1' (by omega)
      have h4 : 1 * half64 ≤ 2 ^ j * half64 := Int.mul_le_mul_of_nonneg_right (by omega) (by omega)
      rw [hU] at h3 e
      rw [Int.mul_comm _ (N : Int)] at e
      rw [← Int.mul_assoc, Int.mul_right_comm] at h3
      omega
    generalize hMM : (2 : Int) ^ (52 - j) = M at hM hMj hM0
    generalize hPP : (2 : Int) ^ (j + 1021) = P at *
    generalize hJJ : (2 : Int) ^ j = J at *
    -- the distance
    have hU2 : one64 = 2 * M * P := by rw [hU, hM, Int.mul_assoc]
    have hw : Rep (one64 * (N + 1) - 2 * P) := by
      refine ⟨M * (N + 1) - 1, j + 1021 + 1, ?_, ?_⟩
      · have h3 : M * (N + 1) ≤ M * (J * 2) := Int.mul_le_mul_of_nonneg_left hj2' (Int.le_of_lt hM0)
        have h4 : 0 < M * ((N : Int) + 1) := Int.mul_pos hM0 (by omega)
        rw [← Int.mul_assoc, hMj] at h3
        omega
      · rw [hPj, hU2, Int.sub_mul]
        congr 1
        · ac_rfl
        · omega
    have hn := rnd_nearest (a + half64) _ hw
    rw [heq] at hn
    have hd : one64 * (N + 1) - (a + half64) = (2 * M * (N + 1) - (A + M)) * P := by
      rw [hU2, hM, hA]
      simp only [Int.sub_mul, Int.add_mul, Int.mul_add]
      ac_rfl
    have hdpos : 0 < one64 * ((N : Int) + 1) - (a + half64) := by rw [Int.mul_add]; omega
    generalize hdd : 2 * M * ((N : Int) + 1) - (A + M) = d at hd
    have hd0 : 0 < d := by
      rw [hd] at hdpos
      apply Int.lt_of_not_ge
      intro h3
      have := Int.mul_nonpos_of_nonpos_of_nonneg h3 (Int.le_of_lt hP)
      omega
    have hd1 : d = 1 := by
      apply Int.le_antisymm _ hd0
      apply Int.le_of_lt_add_one
      apply Int.lt_of_not_ge
      intro h2d
      have := Int.mul_le_mul_of_nonneg_right h2d (Int.le_of_lt hP)
      omega
    have hAM : A = 2 * (M * N) + M - 1 := by
      rw [hd1, Int.mul_add, Int.mul_one, Int.mul_assoc] at hdd
      omega
    have hMN : M * J ≤ M * N := Int.mul_le_mul_of_nonneg_left hj1' (Int.le_of_lt hM0)
    by_cases hj' : j = 52
    · have hM1 : M = 1 := by rw [← hMM, hj']; rfl
      subst hM1
      have hAge : 2 ^ 53 * P ≤ A * P := Int.mul_le_mul_of_nonneg_right (by omega) (Int.le_of_lt hP)
      rw [hU2, hA] at h1
      omega
    · have hMe : ∃ M', M = 2 * M' := by
        refine ⟨2 ^ (51 - j), ?_⟩
        rw [← hMM, show 52 - j = 51 - j + 1 by omega, Int.pow_succ]; omega
      obtain ⟨M', hM'⟩ := hMe
      obtain ⟨B, hB⟩ := rep_dvd ha (j + 1021 + 1) (by
        rw [hB2, hU2, hA, show J * (2 * M * P) = (2 * (M * J)) * P by ac_rfl]
        exact Int.mul_le_mul_of_nonneg_right (by omega) (Int.le_of_lt hP))
      rw [hPj, hA, ← Int.mul_assoc] at hB
      have := Int.eq_of_mul_eq_mul_right (Int.ne_of_gt hP) hB
      omega

theorem addHalf_pred : rnd (pred64 + half64) = one64 := by decide +kernel

/-- Between 2^52 and 2^53 the sum is in the middle of two whole numbers, and the even one is taken. -/
theorem addHalf_mid (n : Nat) (h1 : 2 ^ 52 ≤ n) (h2 : n < 2 ^ 53) :
    rnd (n * one64 + half64) = (if n % 2 = 1 then n + 1 else n : Nat) * one64 := by
  have e : (n : Int) * one64 + half64 = ((2 * n + 1 : Nat) : Int) * 2 ^ 1073 := by
    rw [one_half, half64_eq]
    push_cast
    rw [Int.add_mul, ← Int.mul_assoc, Int.mul_comm (n : Int) 2, Int.one_mul]
  rw [e, rnd_shift, rnd_nat]
  have hl : (2 * n + 1).log2 = 53 := by
    apply Nat.le_antisymm
    · have := (Nat.log2_lt (show 2 * n + 1 ≠ 0 by omega)).2 (show 2 * n + 1 < 2 ^ 54 by omega)
      omega
    · exact (Nat.le_log2 (by omega)).2 (by omega)
  have : rndN (2 * n + 1) = (if n % 2 = 1 then n + 1 else n) * 2 := by
    rw [rndN, if_neg (by omega), hl]
    have h3 : (2 * n + 1) / 2 ^ (53 - 52) = n := by omega
    have h4 : (2 * n + 1) % 2 ^ (53 - 52) = 1 := by omega
    simp only [h3, h4]
    by_cases hn : n % 2 = 1
    · rw [if_pos (.inr ⟨trivial, hn⟩), if_pos hn]
    · rw [if_neg (by omega), if_neg hn]
  rw [this, one_half, half64_eq]
  push_cast
  rw [Int.mul_assoc]

/-- Above 2^53 the half is lost. -/
theorem addHalf_high {a : Int} (ha : Rep a) (h : 2 ^ 53 * one64 ≤ a) : rnd (a + half64) = a := by
  have hH := half_pos
  have hU := one_half
  have h1 := rnd_mono (show a ≤ a + half64 by omega)
  rw [rnd_exact ha] at h1
  have h2 := rnd_nearest (a + half64) a ha
  have key : ∀ {z}, Rep z → a ≤ z → ∃ q, z = q * (2 * one64) := by
    intro z hz haz
    have e : (2 : Int) ^ (1075 + 52) = 2 ^ 53 * one64 := by rw [one64_eq, ← Int.pow_add]
    obtain ⟨q, hq⟩ := rep_dvd hz 1075 (by rw [e]; omega)
    refine ⟨q, ?_⟩
    rw [hq, one64_eq, show 1075 = 1074 + 1 from rfl, Int.pow_succ, Int.mul_comm _ 2]
  obtain ⟨p, hp⟩ := key ha (Int.le_refl _)
  obtain ⟨q, hq⟩ := key (rnd_rep (a + half64)) h1
  have hle : p ≤ q := by
    apply Int.not_lt.1
    intro hlt
    have := Int.mul_le_mul_of_nonneg_right (show q + 1 ≤ p by omega) (show 0 ≤ 2 * one64 by omega)
    rw [Int.add_mul] at this
    omega
  by_cases hpq : p = q
  · rw [hq, hp, hpq]
  · have := Int.mul_le_mul_of_nonneg_right (show p + 1 ≤ q by omega) (show 0 ≤ 2 * one64 by omega)
    rw [Int.add_mul] at this
    omega

end Verif.FastVal
