import Verif.Date.Model

/-!
# Dates
-/

namespace Verif.Date
open Verif.Expr (ascii)

/-! ### Specification -/

structure When where
  y : Nat
  m : Nat
  d : Nat
  h : Nat
  mi : Nat
  s : Nat
  deriving DecidableEq

def leap (y : Nat) : Bool := y % 4 = 0 && (y % 100 ≠ 0 || y % 400 = 0)

def daysIn (y m : Nat) : Nat :=
  if m = 2 then (if leap y then 29 else 28) else if m = 4 ∨ m = 6 ∨ m = 9 ∨ m = 11 then 30 else 31

/-- The day exists. -/
def When.Real (w : When) : Prop := w.d ≤ daysIn w.y w.m

instance (w : When) : Decidable w.Real := inferInstanceAs (Decidable (_ ≤ _))

/-- The values that the patterns let through. -/
structure When.Shaped (w : When) : Prop where
  y : 1900 ≤ w.y ∧ w.y < 2100
  m : 1 ≤ w.m ∧ w.m ≤ 12
  d : 1 ≤ w.d ∧ w.d ≤ 31
  h : w.h < 24
  mi : w.mi < 60
  s : w.s < 60

/-- Two and four decimal digits. -/
def d2 (n : Nat) : Str := [48 + n / 10, 48 + n % 10]
def d4 (n : Nat) : Str := d2 (n / 100) ++ d2 (n % 100)

def clock (w : When) : Str := d2 w.h ++ 58 :: d2 w.mi ++ 58 :: d2 w.s

/-- Texts for a year, a month or a day, with the separators `sep`. -/
inductive DayText (sep : Nat → Prop) : Str → When → Prop
  | year (y : Nat) : 1900 ≤ y → y < 2100 → DayText sep (d4 y) ⟨y, 1, 1, 0, 0, 0⟩
  | month (y m a : Nat) : 1900 ≤ y → y < 2100 → 1 ≤ m → m ≤ 12 → sep a → DayText sep (d4 y ++ a :: d2 m) ⟨y, m, 1, 0, 0, 0⟩
  | day (y m d a b : Nat) : 1900 ≤ y → y < 2100 → 1 ≤ m → m ≤ 12 → 1 ≤ d → d ≤ 31 → sep a → sep b →
      DayText sep (d4 y ++ a :: d2 m ++ b :: d2 d) ⟨y, m, d, 0, 0, 0⟩

/-- Texts for a second: a day, spaces and a time. -/
def StampText (sep : Nat → Prop) (s : Str) (w : When) : Prop :=
  w.Shaped ∧ ∃ a b n, sep a ∧ sep b ∧ s = (d4 w.y ++ a :: d2 w.m ++ b :: d2 w.d) ++ 32 :: List.replicate n 32 ++ clock w

/-- The separators of the patterns, and the one of ISO 8601. -/
def AnySep (a : Nat) : Prop := a = 45 ∨ a = 32 ∨ a = 47 ∨ a = 46
def Dash (a : Nat) : Prop := a = 45

/-- The form of RFC 3339 in UTC without fractions, with the separators `a` and `b` of the date. -/
def rfcText (a b : Nat) (w : When) : Str := (d4 w.y ++ a :: d2 w.m ++ b :: d2 w.d) ++ 84 :: clock w ++ [90]

/-- What is assumed of `time.Parse(time.RFC3339, _)`: it reads the texts of that form with `-` as the separator if the day exists, rejects
the others of that form, and what it reads has a `T` after the date. -/
structure RfcLaws {T : Type} (rfc : Str → Option T) (at_ : When → T) : Prop where
  reads : ∀ w : When, w.Shaped → w.Real → rfc (rfcText 45 45 w) = some (at_ w)
  unreal : ∀ w : When, w.Shaped → ¬ w.Real → rfc (rfcText 45 45 w) = none
  seps : ∀ (w : When) (a b : Nat), w.Shaped → ¬ (a = 45 ∧ b = 45) → rfc (rfcText a b w) = none
  tee : ∀ s t, rfc s = some t → s[10]? = some 84

/-! ### The patterns -/

theorem mat_chr {c : Nat} {s : Str} : Mat (chr c) s ↔ s = [c] := by
  rw [chr, mat_one]
  constructor
  · rintro ⟨x, h, rfl⟩; simp only [decide_eq_true_eq] at h; rw [h]
  · rintro rfl; exact ⟨c, by simp, rfl⟩

theorem mat_rng {a b : Nat} {s : Str} : Mat (rng a b) s ↔ ∃ c, a ≤ c ∧ c ≤ b ∧ s = [c] := by
  rw [rng, mat_one]
  constructor
  · rintro ⟨x, h, rfl⟩; simp only [Bool.and_eq_true, decide_eq_true_eq] at h; exact ⟨x, h.1, h.2, rfl⟩
  · rintro ⟨x, h1, h2, rfl⟩; exact ⟨x, by simp [h1, h2], rfl⟩

theorem mat_sep {s : Str} : Mat sep s ↔ ∃ a, AnySep a ∧ s = [a] := by
  rw [sep, mat_one]
  constructor
  · rintro ⟨x, h, rfl⟩; exact ⟨x, by simpa [AnySep, or_assoc] using h, rfl⟩
  · rintro ⟨x, h, rfl⟩; exact ⟨x, by simpa [AnySep, or_assoc] using h, rfl⟩

theorem d2_of {a b : Nat} (h1 : 48 ≤ a) (h2 : 48 ≤ b) (h3 : b ≤ 57) : [a, b] = d2 ((a - 48) * 10 + (b - 48)) := by
  simp only [d2, List.cons.injEq, and_true]
  omega

theorem two_iff {a b c d : Nat} {s : Str} : Mat (.cat (rng a b) (rng c d)) s ↔ ∃ x y, a ≤ x ∧ x ≤ b ∧ c ≤ y ∧ y ≤ d ∧ s = [x, y] := by
  rw [mat_cat]
  constructor
  · rintro ⟨u, v, rfl, h1, h2⟩
    obtain ⟨x, hx1, hx2, rfl⟩ := mat_rng.1 h1
    obtain ⟨y, hy1, hy2, rfl⟩ := mat_rng.1 h2
    exact ⟨x, y, hx1, hx2, hy1, hy2, rfl⟩
  · rintro ⟨x, y, h1, h2, h3, h4, rfl⟩
    exact ⟨[x], [y], rfl, mat_rng.2 ⟨x, h1, h2, rfl⟩, mat_rng.2 ⟨y, h3, h4, rfl⟩⟩

theorem chr_rng (c : Nat) {s : Str} : Mat (chr c) s ↔ Mat (rng c c) s := by
  rw [mat_chr, mat_rng]
  constructor
  · rintro rfl; exact ⟨c, by omega, by omega, rfl⟩
  · rintro ⟨x, h1, h2, rfl⟩; rw [Nat.le_antisymm h2 h1]

theorem one_two {a c d : Nat} {s : Str} : Mat (.cat (chr a) (rng c d)) s ↔ ∃ y, c ≤ y ∧ y ≤ d ∧ s = [a, y] := by
  rw [mat_cat]
  constructor
  · rintro ⟨u, v, rfl, h1, h2⟩
    obtain rfl := mat_chr.1 h1
    obtain ⟨y, hy1, hy2, rfl⟩ := mat_rng.1 h2
    exact ⟨y, hy1, hy2, rfl⟩
  · rintro ⟨y, h3, h4, rfl⟩
    exact ⟨[a], [y], rfl, mat_chr.2 rfl, mat_rng.2 ⟨y, h3, h4, rfl⟩⟩

theorem mat_month {s : Str} : Mat pMonth s ↔ ∃ m, 1 ≤ m ∧ m ≤ 12 ∧ s = d2 m := by
  rw [pMonth, mat_alt, one_two, one_two]
  constructor
  · rintro (⟨y, h1, h2, rfl⟩ | ⟨y, h1, h2, rfl⟩)
    · exact ⟨_, by omega, by omega, d2_of (by omega) (by omega) (by omega)⟩
    · exact ⟨_, by omega, by omega, d2_of (by omega) (by omega) (by omega)⟩
  · rintro ⟨m, h1, h2, rfl⟩
    by_cases h : m < 10
    · exact .inl ⟨48 + m % 10, by omega, by omega, by simp only [d2, List.cons.injEq, and_true]; omega⟩
    · exact .inr ⟨48 + m % 10, by omega, by omega, by simp only [d2, List.cons.injEq, and_true]; omega⟩

theorem mat_day {s : Str} : Mat pDay s ↔ ∃ m, 1 ≤ m ∧ m ≤ 31 ∧ s = d2 m := by
  rw [pDay, mat_alt, mat_alt, one_two, one_two, dig, two_iff]
  constructor
  · rintro (⟨y, h1, h2, rfl⟩ | ⟨x, y, h0, h0', h1, h2, rfl⟩ | ⟨y, h1, h2, rfl⟩)
    · exact ⟨_, by omega, by omega, d2_of (by omega) (by omega) (by omega)⟩
    · exact ⟨_, by omega, by omega, d2_of (by omega) (by omega) (by omega)⟩
    · exact ⟨_, by omega, by omega, d2_of (by omega) (by omega) (by omega)⟩
  · rintro ⟨m, h1, h2, rfl⟩
    by_cases h : m < 10
    · exact .inl ⟨48 + m % 10, by omega, by omega, by simp only [d2, List.cons.injEq, and_true]; omega⟩
    · by_cases h' : m < 30
      · exact .inr (.inl ⟨48 + m / 10, 48 + m % 10, by omega, by omega, by omega, by omega, rfl⟩)
      · exact .inr (.inr ⟨48 + m % 10, by omega, by omega, by simp only [d2, List.cons.injEq, and_true]; omega⟩)

theorem mat_hour {s : Str} : Mat pHour s ↔ ∃ m, m < 24 ∧ s = d2 m := by
  rw [pHour, mat_alt, one_two, dig, two_iff]
  constructor
  · rintro (⟨x, y, h0, h0', h1, h2, rfl⟩ | ⟨y, h1, h2, rfl⟩)
    · exact ⟨_, by omega, d2_of (by omega) (by omega) (by omega)⟩
    · exact ⟨_, by omega, d2_of (by omega) (by omega) (by omega)⟩
  · rintro ⟨m, h1, rfl⟩
    by_cases h : m < 20
    · exact .inl ⟨48 + m / 10, 48 + m % 10, by omega, by omega, by omega, by omega, rfl⟩
    · exact .inr ⟨48 + m % 10, by omega, by omega, by simp only [d2, List.cons.injEq, and_true]; omega⟩

theorem mat_sixty {s : Str} : Mat pSixty s ↔ ∃ m, m < 60 ∧ s = d2 m := by
  rw [pSixty, dig, two_iff]
  constructor
  · rintro ⟨x, y, h0, h0', h1, h2, rfl⟩
    exact ⟨_, by omega, d2_of (by omega) (by omega) (by omega)⟩
  · rintro ⟨m, h1, rfl⟩
    exact ⟨48 + m / 10, 48 + m % 10, by omega, by omega, by omega, by omega, rfl⟩

theorem mat_year {s : Str} : Mat pYear s ↔ ∃ y, 1900 ≤ y ∧ y < 2100 ∧ s = d4 y := by
  rw [pYear, mat_cat]
  have hc : ∀ {u}, Mat (.alt (.cat (chr 49) (chr 57)) (.cat (chr 50) (chr 48))) u ↔ u = d2 19 ∨ u = d2 20 := by
    intro u
    rw [mat_alt, mat_cat, mat_cat]
    constructor
    · rintro (⟨x, y, rfl, h1, h2⟩ | ⟨x, y, rfl, h1, h2⟩)
      · rw [mat_chr.1 h1, mat_chr.1 h2]; exact .inl rfl
      · rw [mat_chr.1 h1, mat_chr.1 h2]; exact .inr rfl
    · rintro (rfl | rfl)
      · exact .inl ⟨[49], [57], rfl, mat_chr.2 rfl, mat_chr.2 rfl⟩
      · exact .inr ⟨[50], [48], rfl, mat_chr.2 rfl, mat_chr.2 rfl⟩
  have hd : ∀ {u}, Mat (.cat dig dig) u ↔ ∃ n, n < 100 ∧ u = d2 n := by
    intro u
    rw [dig, two_iff]
    constructor
    · rintro ⟨x, y, h0, h0', h1, h2, rfl⟩
      exact ⟨_, by omega, d2_of (by omega) (by omega) (by omega)⟩
    · rintro ⟨m, h1, rfl⟩
      exact ⟨48 + m / 10, 48 + m % 10, by omega, by omega, by omega, by omega, rfl⟩
  constructor
  · rintro ⟨u, v, rfl, h1, h2⟩
    obtain ⟨n, hn, rfl⟩ := hd.1 h2
    rcases hc.1 h1 with rfl | rfl
    · exact ⟨1900 + n, by omega, by omega, by rw [d4, show (1900 + n) / 100 = 19 by omega, show (1900 + n) % 100 = n by omega]⟩
    · exact ⟨2000 + n, by omega, by omega, by rw [d4, show (2000 + n) / 100 = 20 by omega, show (2000 + n) % 100 = n by omega]⟩
  · rintro ⟨y, h1, h2, rfl⟩
    refine ⟨d2 (y / 100), d2 (y % 100), rfl, hc.2 ?_, hd.2 ⟨y % 100, by omega, rfl⟩⟩
    rcases (by omega : y / 100 = 19 ∨ y / 100 = 20) with h | h
    · exact .inl (by rw [h])
    · exact .inr (by rw [h])

theorem mat_isoMonth {s : Str} : Mat isoMonth s ↔ ∃ y m a, 1900 ≤ y ∧ y < 2100 ∧ 1 ≤ m ∧ m ≤ 12 ∧ AnySep a ∧ s = d4 y ++ a :: d2 m := by
  rw [isoMonth, mat_cat]
  constructor
  · rintro ⟨u, v, rfl, h1, h2⟩
    obtain ⟨y, hy1, hy2, rfl⟩ := mat_year.1 h1
    obtain ⟨p, q, rfl, h3, h4⟩ := mat_cat.1 h2
    obtain ⟨a, ha, rfl⟩ := mat_sep.1 h3
    obtain ⟨m, hm1, hm2, rfl⟩ := mat_month.1 h4
    exact ⟨y, m, a, hy1, hy2, hm1, hm2, ha, rfl⟩
  · rintro ⟨y, m, a, hy1, hy2, hm1, hm2, ha, rfl⟩
    exact ⟨_, _, rfl, mat_year.2 ⟨y, hy1, hy2, rfl⟩, mat_cat.2 ⟨[a], _, rfl, mat_sep.2 ⟨a, ha, rfl⟩, mat_month.2 ⟨m, hm1, hm2, rfl⟩⟩⟩

theorem mat_isoDay {s : Str} : Mat isoDay s ↔ ∃ y m d a b, 1900 ≤ y ∧ y < 2100 ∧ 1 ≤ m ∧ m ≤ 12 ∧ 1 ≤ d ∧ d ≤ 31 ∧ AnySep a ∧ AnySep b ∧
    s = d4 y ++ a :: d2 m ++ b :: d2 d := by
  rw [isoDay, mat_cat]
  constructor
  · rintro ⟨u, v, rfl, h1, h2⟩
    obtain ⟨y, hy1, hy2, rfl⟩ := mat_year.1 h1
    obtain ⟨p, q, rfl, h3, h4⟩ := mat_cat.1 h2
    obtain ⟨a, ha, rfl⟩ := mat_sep.1 h3
    obtain ⟨p, q, rfl, h3, h5⟩ := mat_cat.1 h4
    obtain ⟨m, hm1, hm2, rfl⟩ := mat_month.1 h3
    obtain ⟨p, q, rfl, h3, h6⟩ := mat_cat.1 h5
    obtain ⟨b, hb, rfl⟩ := mat_sep.1 h3
    obtain ⟨d, hd1, hd2, rfl⟩ := mat_day.1 h6
    exact ⟨y, m, d, a, b, hy1, hy2, hm1, hm2, hd1, hd2, ha, hb, by simp⟩
  · rintro ⟨y, m, d, a, b, hy1, hy2, hm1, hm2, hd1, hd2, ha, hb, rfl⟩
    exact ⟨d4 y, a :: (d2 m ++ b :: d2 d), by simp, mat_year.2 ⟨y, hy1, hy2, rfl⟩, mat_cat.2 ⟨[a], _, rfl, mat_sep.2 ⟨a, ha, rfl⟩,
      mat_cat.2 ⟨_, _, rfl, mat_month.2 ⟨m, hm1, hm2, rfl⟩, mat_cat.2 ⟨[b], _, rfl, mat_sep.2 ⟨b, hb, rfl⟩, mat_day.2 ⟨d, hd1, hd2, rfl⟩⟩⟩⟩⟩

theorem mat_spaces {s : Str} : Mat (.star (chr 32)) s ↔ ∃ n, s = List.replicate n 32 := by
  constructor
  · intro h
    have : ∀ {r : RE} {s : Str}, Mat r s → r = .star (chr 32) → ∃ n, s = List.replicate n 32 := by
      intro r s h
      induction h with
      | stop => exact fun _ => ⟨0, rfl⟩
      | more h1 _ _ ih =>
        intro hr
        injection hr with hr
        subst hr
        obtain ⟨n, rfl⟩ := ih rfl
        rw [mat_chr.1 h1]
        exact ⟨n + 1, rfl⟩
      | empty => intro h; cases h
      | one _ => intro h; cases h
      | cat _ _ => intro h; cases h
      | left _ => intro h; cases h
      | right _ => intro h; cases h
    exact this h rfl
  · rintro ⟨n, rfl⟩
    induction n with
    | zero => exact .stop
    | succ n ih => exact .more (s := [32]) (mat_chr.2 rfl) ih

theorem mat_time {s : Str} : Mat pTime s ↔ ∃ h mi sec, h < 24 ∧ mi < 60 ∧ sec < 60 ∧ s = d2 h ++ 58 :: d2 mi ++ 58 :: d2 sec := by
  rw [pTime, mat_cat]
  constructor
  · rintro ⟨u, v, rfl, h1, h2⟩
    obtain ⟨h, hh, rfl⟩ := mat_hour.1 h1
    obtain ⟨p, q, rfl, h3, h4⟩ := mat_cat.1 h2
    obtain rfl := mat_chr.1 h3
    obtain ⟨p, q, rfl, h3, h5⟩ := mat_cat.1 h4
    obtain ⟨mi, hm, rfl⟩ := mat_sixty.1 h3
    obtain ⟨p, q, rfl, h3, h6⟩ := mat_cat.1 h5
    obtain rfl := mat_chr.1 h3
    obtain ⟨sec, hs, rfl⟩ := mat_sixty.1 h6
    exact ⟨h, mi, sec, hh, hm, hs, by simp⟩
  · rintro ⟨h, mi, sec, hh, hm, hs, rfl⟩
    exact ⟨d2 h, 58 :: (d2 mi ++ 58 :: d2 sec), by simp, mat_hour.2 ⟨h, hh, rfl⟩, mat_cat.2 ⟨[58], _, rfl, mat_chr.2 rfl,
      mat_cat.2 ⟨_, _, rfl, mat_sixty.2 ⟨mi, hm, rfl⟩, mat_cat.2 ⟨[58], _, rfl, mat_chr.2 rfl, mat_sixty.2 ⟨sec, hs, rfl⟩⟩⟩⟩⟩

theorem mat_sample {s : Str} : Mat sample s ↔ ∃ w, StampText AnySep s w := by
  rw [sample, mat_cat]
  constructor
  · rintro ⟨u, v, rfl, h1, h2⟩
    obtain ⟨y, m, d, a, b, hy1, hy2, hm1, hm2, hd1, hd2, ha, hb, rfl⟩ := mat_isoDay.1 h1
    obtain ⟨p, q, rfl, h3, h4⟩ := mat_cat.1 h2
    obtain ⟨p, r, rfl, h5, h6⟩ := mat_cat.1 h3
    obtain rfl := mat_chr.1 h5
    obtain ⟨n, rfl⟩ := mat_spaces.1 h6
    obtain ⟨h, mi, sec, hh, hm, hs, rfl⟩ := mat_time.1 h4
    exact ⟨⟨y, m, d, h, mi, sec⟩, ⟨⟨hy1, hy2⟩, ⟨hm1, hm2⟩, ⟨hd1, hd2⟩, hh, hm, hs⟩, a, b, n, ha, hb, by simp [clock]⟩
  · rintro ⟨w, hw, a, b, n, ha, hb, rfl⟩
    refine ⟨d4 w.y ++ a :: d2 w.m ++ b :: d2 w.d, 32 :: List.replicate n 32 ++ clock w, by simp,
      mat_isoDay.2 ⟨_, _, _, _, _, hw.y.1, hw.y.2, hw.m.1, hw.m.2, hw.d.1, hw.d.2, ha, hb, rfl⟩, mat_cat.2 ⟨32 :: List.replicate n 32, clock w, rfl, ?_, ?_⟩⟩
    · exact mat_cat.2 ⟨[32], _, rfl, mat_chr.2 rfl, mat_spaces.2 ⟨n, rfl⟩⟩
    · exact mat_time.2 ⟨_, _, _, hw.h, hw.mi, hw.s, rfl⟩

/-! ### Lengths -/

theorem d4_len (y : Nat) : (d4 y).length = 4 := rfl
theorem clock_len (w : When) : (clock w).length = 8 := rfl

theorem year_len {s : Str} (h : isoYear.test s = true) : s.length = 4 := by
  obtain ⟨y, _, _, rfl⟩ := mat_year.1 ((test_iff _ _).1 h); rfl
theorem month_len {s : Str} (h : isoMonth.test s = true) : s.length = 7 := by
  obtain ⟨y, m, a, _, _, _, _, _, rfl⟩ := mat_isoMonth.1 ((test_iff _ _).1 h); rfl
theorem day_len {s : Str} (h : isoDay.test s = true) : s.length = 10 := by
  obtain ⟨y, m, d, a, b, _, _, _, _, _, _, _, _, rfl⟩ := mat_isoDay.1 ((test_iff _ _).1 h); rfl

theorem stamp_len {sp : Nat → Prop} {s : Str} {w : When} (h : StampText sp s w) : s.length ≥ 19 := by
  obtain ⟨_, a, b, n, _, _, rfl⟩ := h
  simp [d4, d2, clock]

theorem stamp_ten {sp : Nat → Prop} {s : Str} {w : When} (h : StampText sp s w) : s[10]? = some 32 := by
  obtain ⟨_, a, b, n, _, _, rfl⟩ := h
  rfl

/-- The four kinds of texts exclude each other. -/
theorem kinds (s : Str) :
    (isoYear.test s = true ∧ ∃ y, 1900 ≤ y ∧ y < 2100 ∧ s = d4 y) ∨
    (isoYear.test s = false ∧ isoMonth.test s = true ∧ ∃ y m a, 1900 ≤ y ∧ y < 2100 ∧ 1 ≤ m ∧ m ≤ 12 ∧ AnySep a ∧ s = d4 y ++ a :: d2 m) ∨
    (isoYear.test s = false ∧ isoMonth.test s = false ∧ isoDay.test s = true ∧ ∃ y m d a b, 1900 ≤ y ∧ y < 2100 ∧ 1 ≤ m ∧ m ≤ 12 ∧ 1 ≤ d ∧ d ≤ 31 ∧
      AnySep a ∧ AnySep b ∧ s = d4 y ++ a :: d2 m ++ b :: d2 d) ∨
    (isoYear.test s = false ∧ isoMonth.test s = false ∧ isoDay.test s = false ∧ ∀ w, ¬ DayText AnySep s w) := by
  cases h1 : isoYear.test s with
  | true => exact .inl ⟨rfl, mat_year.1 ((test_iff _ _).1 h1)⟩
  | false =>
    cases h2 : isoMonth.test s with
    | true => exact .inr (.inl ⟨rfl, rfl, mat_isoMonth.1 ((test_iff _ _).1 h2)⟩)
    | false =>
      cases h3 : isoDay.test s with
      | true => exact .inr (.inr (.inl ⟨rfl, rfl, rfl, mat_isoDay.1 ((test_iff _ _).1 h3)⟩))
      | false =>
        refine .inr (.inr (.inr ⟨rfl, rfl, rfl, fun w hw => ?_⟩))
        cases hw with
        | year y hy1 hy2 => rw [(test_iff _ isoYear).2 (mat_year.2 ⟨y, hy1, hy2, rfl⟩)] at h1; cases h1
        | month y m a hy1 hy2 hm1 hm2 ha =>
          rw [(test_iff _ isoMonth).2 (mat_isoMonth.2 ⟨y, m, a, hy1, hy2, hm1, hm2, ha, rfl⟩)] at h2; cases h2
        | day y m d a b hy1 hy2 hm1 hm2 hd1 hd2 ha hb =>
          rw [(test_iff _ isoDay).2 (mat_isoDay.2 ⟨y, m, d, a, b, hy1, hy2, hm1, hm2, hd1, hd2, ha, hb, rfl⟩)] at h3; cases h3

theorem DayText.len {sp : Nat → Prop} {s : Str} {w : When} (h : DayText sp s w) : s.length ≤ 10 := by cases h <;> simp [d4, d2]

theorem DayText.shaped {sp : Nat → Prop} {s : Str} {w : When} (h : DayText sp s w) : w.Shaped := by
  cases h with
  | year y h1 h2 => exact ⟨⟨h1, h2⟩, by simp, by simp, by simp, by simp, by simp⟩
  | month y m a h1 h2 h3 h4 _ => exact ⟨⟨h1, h2⟩, ⟨h3, h4⟩, by simp, by simp, by simp, by simp⟩
  | day y m d a b h1 h2 h3 h4 h5 h6 _ _ => exact ⟨⟨h1, h2⟩, ⟨h3, h4⟩, ⟨h5, h6⟩, by simp, by simp, by simp⟩

theorem AnySep.of_dash {a : Nat} (h : Dash a) : AnySep a := .inl h

theorem DayText.mono {sp sp' : Nat → Prop} {s : Str} {w : When} (hs : ∀ a, sp a → sp' a) (h : DayText sp s w) : DayText sp' s w := by
  cases h with
  | year y h1 h2 => exact .year y h1 h2
  | month y m a h1 h2 h3 h4 h5 => exact .month y m a h1 h2 h3 h4 (hs _ h5)
  | day y m d a b h1 h2 h3 h4 h5 h6 h7 h8 => exact .day y m d a b h1 h2 h3 h4 h5 h6 (hs _ h7) (hs _ h8)

/-! ### Rewriting -/

/-- A text for a day becomes the RFC form of the same separators. -/
theorem iso_day {s : Str} {w : When} (h : DayText AnySep s w) :
    ∃ a b, isoToRfc s = rfcText a b w ∧ (a = 45 ∧ b = 45 ↔ DayText Dash s w) := by
  have hno : ∀ {r : RE} {n}, (r.test s = true → s.length = n) → s.length ≠ n → r.test s = false := by
    intro r n h1 h2
    cases hr : r.test s with
    | false => rfl
    | true => exact absurd (h1 hr) h2
  cases h with
  | year y h1 h2 =>
    have ht : isoYear.test (d4 y) = true := (test_iff _ isoYear).2 (mat_year.2 ⟨y, h1, h2, rfl⟩)
    refine ⟨45, 45, ?_, by simp [DayText.year y h1 h2]⟩
    rw [isoToRfc, if_pos ht]
    simp [rfcText, clock, d2, ascii]
  | month y m a h1 h2 h3 h4 ha =>
    have ht : isoMonth.test (d4 y ++ a :: d2 m) = true := (test_iff _ isoMonth).2 (mat_isoMonth.2 ⟨y, m, a, h1, h2, h3, h4, ha, rfl⟩)
    have h0 := hno (r := isoYear) year_len (by simp [d4, d2])
    refine ⟨a, 45, ?_, ?_⟩
    · rw [isoToRfc, if_neg (by rw [h0]; simp), if_pos ht]
      simp [rfcText, clock, d2, ascii]
    · constructor
      · rintro ⟨rfl, _⟩; exact .month y m 45 h1 h2 h3 h4 rfl
      · intro h
        generalize hs : d4 y ++ a :: d2 m = s at h
        cases h with
        | year y' => have := congrArg List.length hs; simp [d4, d2] at this
        | day y' => have := congrArg List.length hs; simp [d4, d2] at this
        | month y' m' a' _ _ _ _ ha' =>
          have := (List.append_inj hs (by simp [d4, d2])).2
          injection this with this _
          exact ⟨this.trans ha', rfl⟩
  | day y m d a b h1 h2 h3 h4 h5 h6 ha hb =>
    have ht : isoDay.test (d4 y ++ a :: d2 m ++ b :: d2 d) = true :=
      (test_iff _ isoDay).2 (mat_isoDay.2 ⟨y, m, d, a, b, h1, h2, h3, h4, h5, h6, ha, hb, rfl⟩)
    have h0 := hno (r := isoYear) year_len (by simp [d4, d2])
    have h0' := hno (r := isoMonth) month_len (by simp [d4, d2])
    refine ⟨a, b, ?_, ?_⟩
    · rw [isoToRfc, if_neg (by rw [h0]; simp), if_neg (by rw [h0']; simp), if_pos ht]
      simp [rfcText, clock, d2, ascii]
    · constructor
      · rintro ⟨rfl, rfl⟩; exact .day y m d 45 45 h1 h2 h3 h4 h5 h6 rfl rfl
      · intro h
        generalize hs : d4 y ++ a :: d2 m ++ b :: d2 d = s at h
        cases h with
        | month y' m' a' => have := congrArg List.length hs; simp [d4, d2] at this
        | year y' => have := congrArg List.length hs; simp [d4, d2] at this
        | day y' m' d' a' b' _ _ _ _ _ _ ha' hb' =>
          have e1 := List.append_inj hs (by simp [d4, d2])
          have e2 := (List.append_inj e1.1 (by simp [d4, d2])).2
          injection e2 with e2 _
          have e3 := e1.2
          injection e3 with e3 _
          exact ⟨e2.trans ha', e3.trans hb'⟩

/-- A text for a second becomes the RFC form of the same separators. -/
theorem stamp_text {s : Str} {a b n : Nat} {w : When}
    (h : s = (d4 w.y ++ a :: d2 w.m ++ b :: d2 w.d) ++ 32 :: List.replicate n 32 ++ clock w) :
    s.take 10 ++ 84 :: s.drop (s.length - 8) ++ [90] = rfcText a b w := by
  have h1 : s.take 10 = d4 w.y ++ a :: d2 w.m ++ b :: d2 w.d := by
    rw [h, List.append_assoc, List.take_append_of_le_length (by simp [d4, d2]), List.take_of_length_le (by simp [d4, d2])]
  have h2 : s.drop (s.length - 8) = clock w := by
    have : s.length - 8 = ((d4 w.y ++ a :: d2 w.m ++ b :: d2 w.d) ++ 32 :: List.replicate n 32).length := by
      rw [h, List.length_append, clock_len]; omega
    rw [this, h, List.drop_left]
  rw [h1, h2, rfcText]

variable {T : Type}

theorem rfc_text {rfc : Str → Option T} {at_ : When → T} (L : RfcLaws rfc at_) {a b : Nat} {w : When} (hw : w.Shaped) (t : T) :
    rfc (rfcText a b w) = some t ↔ a = 45 ∧ b = 45 ∧ w.Real ∧ t = at_ w := by
  by_cases hs : a = 45 ∧ b = 45
  · obtain ⟨rfl, rfl⟩ := hs
    by_cases hr : w.Real
    · rw [L.reads w hw hr]; simp [hr, eq_comm]
    · rw [L.unreal w hw hr]; simp [hr]
  · rw [L.seps w a b hw hs]
    simp only [reduceCtorEq, false_iff]
    exact fun h => hs ⟨h.1, h.2.1⟩

/-- What `GetNewTimeFastVal` reads. -/
theorem getNewTime_iff {rfc : Str → Option T} {at_ : When → T} (L : RfcLaws rfc at_) (s : Str) (t : T) :
    getNewTime rfc s = some t ↔ (∃ w, DayText Dash s w ∧ w.Real ∧ t = at_ w) ∨ rfc s = some t := by
  have hday : ∀ w, DayText AnySep s w → (getNewTime rfc s = some t ↔ DayText Dash s w ∧ w.Real ∧ t = at_ w) := by
    intro w hw
    obtain ⟨a, b, he, hd⟩ := iso_day hw
    rw [getNewTime, he, rfc_text L hw.shaped, ← hd, and_assoc]
  by_cases hx : ∃ w, DayText AnySep s w
  · obtain ⟨w, hw⟩ := hx
    have hr : rfc s ≠ some t := by
      intro h
      have := L.tee _ _ h
      rw [List.getElem?_eq_none hw.len] at this
      cases this
    constructor
    · exact fun h => .inl ⟨w, (hday w hw).1 h⟩
    · rintro (⟨w', h1, h2⟩ | h)
      · exact (hday w' (h1.mono fun _ => AnySep.of_dash)).2 ⟨h1, h2⟩
      · exact absurd h hr
  · have hiso : isoToRfc s = s := by
      rcases kinds s with ⟨_, y, h1, h2, h⟩ | ⟨_, _, y, m, a, h1, h2, h3, h4, h5, h⟩ | ⟨_, _, _, y, m, d, a, b, h1, h2, h3, h4, h5, h6, h7, h8, h⟩ |
        ⟨h1, h2, h3, _⟩
      · subst h; exact absurd ⟨_, .year y h1 h2⟩ hx
      · subst h; exact absurd ⟨_, .month y m a h1 h2 h3 h4 h5⟩ hx
      · subst h; exact absurd ⟨_, .day y m d a b h1 h2 h3 h4 h5 h6 h7 h8⟩ hx
      · simp [isoToRfc, h1, h2, h3]
    rw [getNewTime, hiso]
    constructor
    · exact .inr
    · rintro (⟨w, h, _⟩ | h)
      · exact absurd ⟨w, h.mono fun _ => AnySep.of_dash⟩ hx
      · exact h

theorem dateBin_eq (rfc : Str → Option T) (s : Str) :
    dateBin rfc s = if sample.test s then rfc (s.take 10 ++ 84 :: s.drop (s.length - 8) ++ [90]) else getNewTime rfc s := by
  by_cases hs : sample.test s = true
  · rw [if_pos hs]
    obtain ⟨w, hw⟩ := mat_sample.1 ((test_iff _ _).1 hs)
    have hl := stamp_len hw
    have h1 : isoYear.test s = false := by
      cases h : isoYear.test s with
      | false => rfl
      | true => have := year_len h; omega
    have h2 : isoMonth.test s = false := by
      cases h : isoMonth.test s with
      | false => rfl
      | true => have := month_len h; omega
    have h3 : isoDay.test s = false := by
      cases h : isoDay.test s with
      | false => rfl
      | true => have := day_len h; omega
    simp [dateBin, h1, h2, h3, hs]
  · rw [if_neg hs, dateBin, getNewTime, isoToRfc, if_neg hs]

/-- What `DATE` of a document string reads. -/
theorem dateBin_iff {rfc : Str → Option T} {at_ : When → T} (L : RfcLaws rfc at_) (s : Str) (t : T) :
    dateBin rfc s = some t ↔ (∃ w, (DayText Dash s w ∨ StampText Dash s w) ∧ w.Real ∧ t = at_ w) ∨ rfc s = some t := by
  rw [dateBin_eq]
  by_cases hs : sample.test s = true
  · rw [if_pos hs]
    obtain ⟨w, hw⟩ := mat_sample.1 ((test_iff _ _).1 hs)
    have hr : rfc s ≠ some t := by
      intro h
      have := L.tee _ _ h
      rw [stamp_ten hw] at this
      cases this
    have hl := stamp_len hw
    obtain ⟨hsh, a, b, n, ha, hb, he⟩ := hw
    rw [stamp_text he, rfc_text L hsh]
    constructor
    · rintro ⟨rfl, rfl, h1, h2⟩
      exact .inl ⟨w, .inr ⟨hsh, 45, 45, n, rfl, rfl, he⟩, h1, h2⟩
    · rintro (⟨w', h1 | h1, h2, h3⟩ | h)
      · have := h1.len; omega
      · obtain ⟨hsh', a', b', n', ha', hb', he'⟩ := h1
        have e := (stamp_text he).symm.trans (stamp_text he')
        have := (rfc_text L hsh (a := a) (b := b) t).1 (by rw [e, ha', hb', L.reads w' hsh' h2, h3])
        exact this
      · exact absurd h hr
  · rw [if_neg hs, getNewTime_iff L]
    constructor
    · rintro (⟨w, h1, h2⟩ | h)
      · exact .inl ⟨w, .inl h1, h2⟩
      · exact .inr h
    · rintro (⟨w, h1 | h1, h2⟩ | h)
      · exact .inl ⟨w, h1, h2⟩
      · obtain ⟨hsh, a, b, n, ha, hb, he⟩ := h1
        exact absurd ((test_iff _ _).2 (mat_sample.2 ⟨w, hsh, a, b, n, .inl ha, .inl hb, he⟩)) hs
      · exact .inr h

end Verif.Date
