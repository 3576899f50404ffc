import Verif.Quote.Lemmas

/-!
# Quoted texts: the items of a string
-/

namespace Verif.Quote

open Verif.Lit (utf8 and_63)
open Verif.FastVal (cmpBytes)

theorem or_6 (x y : Nat) (h : y < 64) : x <<< 6 ||| y = x * 64 + y := by
  rw [← Nat.shiftLeft_add_eq_or_of_lt (i := 6) (by simpa using h), Nat.shiftLeft_eq]

theorem or_12 (x y : Nat) (h : y < 4096) : x <<< 12 ||| y = x * 4096 + y := by
  rw [← Nat.shiftLeft_add_eq_or_of_lt (i := 12) (by simpa using h), Nat.shiftLeft_eq]

theorem or_18 (x y : Nat) (h : y < 262144) : x <<< 18 ||| y = x * 262144 + y := by
  rw [← Nat.shiftLeft_add_eq_or_of_lt (i := 18) (by simpa using h), Nat.shiftLeft_eq]

theorem rune_2 (a b : Nat) : (a &&& 0x1F) <<< 6 ||| (b &&& 0x3F) = a % 32 * 64 + b % 64 := by
  rw [and_63, show a &&& 0x1F = a % 32 from Nat.and_two_pow_sub_one_eq_mod a 5, or_6 _ _ (by omega)]

theorem rune_3 (a b c : Nat) :
    (a &&& 0x0F) <<< 12 ||| (b &&& 0x3F) <<< 6 ||| (c &&& 0x3F) = a % 16 * 4096 + b % 64 * 64 + c % 64 := by
  rw [and_63, and_63, show a &&& 0x0F = a % 16 from Nat.and_two_pow_sub_one_eq_mod a 4, Nat.or_assoc, or_6 _ _ (by omega),
    or_12 _ _ (by omega)]
  omega

theorem rune_4 (a b c d : Nat) :
    (a &&& 0x07) <<< 18 ||| (b &&& 0x3F) <<< 12 ||| (c &&& 0x3F) <<< 6 ||| (d &&& 0x3F) =
      a % 8 * 262144 + b % 64 * 4096 + c % 64 * 64 + d % 64 := by
  rw [and_63, and_63, and_63, show a &&& 0x07 = a % 8 from Nat.and_two_pow_sub_one_eq_mod a 3, Nat.or_assoc, Nat.or_assoc,
    or_6 _ _ (by omega), or_12 _ _ (by omega), or_18 _ _ (by omega)]
  omega

theorem within_iff {lo hi b : Nat} : within lo hi b = true ↔ lo ≤ b ∧ b ≤ hi := by simp [within]

theorem second_iff {a b : Nat} (h : secondLo a ≤ b ∧ b ≤ secondHi a) : 0x80 ≤ b ∧ b ≤ 0xBF ∧ (a = 0xE0 → 0xA0 ≤ b) ∧
    (a = 0xED → b ≤ 0x9F) ∧ (a = 0xF0 → 0x90 ≤ b) ∧ (a = 0xF4 → b ≤ 0x8F) := by
  unfold secondLo secondHi at h
  repeat' split at h
  all_goals omega

/-- A decoded code point is a scalar value, and the bytes consumed are its UTF-8 encoding. -/
theorem decodeRune_some {s : List Nat} {r w : Nat} (h : decodeRune s = some (r, w)) :
    Scalar r ∧ s = utf8 r ++ s.drop w ∧ 1 ≤ w := by
  unfold decodeRune at h
  split at h
  · exact nomatch h
  · rename_i b0 rest
    split at h
    · simp only [Option.some.injEq, Prod.mk.injEq] at h
      obtain ⟨rfl, rfl⟩ := h
      refine ⟨.inl (by omega), ?_, by omega⟩
      rw [utf8, if_pos (by omega)]; rfl
    · split at h
      · exact nomatch h
      · split at h
        · split at h
          · rename_i b1 t
            split at h
            · next hw =>
              simp only [within_iff] at hw
              simp only [Option.some.injEq, Prod.mk.injEq, rune_2] at h
              obtain ⟨rfl, rfl⟩ := h
              refine ⟨.inl (by omega), ?_, by omega⟩
              rw [utf8, if_neg (by omega), if_pos (by omega)]
              simp only [List.drop_succ_cons, List.drop_zero, List.cons_append, List.nil_append, List.cons.injEq, and_true]
              omega
            · exact nomatch h
          · exact nomatch h
        · split at h
          · split at h
            · rename_i b1 b2 t
              split at h
              · next hw =>
                simp only [Bool.and_eq_true, within_iff] at hw
                simp only [Option.some.injEq, Prod.mk.injEq, rune_3] at h
                obtain ⟨rfl, rfl⟩ := h
                have h1 := second_iff hw.1
                have h2 := hw.2
                clear hw
                refine ⟨by unfold Scalar; omega, ?_, by omega⟩
                rw [utf8, if_neg (by omega), if_neg (by omega), if_pos (by omega)]
                simp only [List.drop_succ_cons, List.drop_zero, List.cons_append, List.nil_append, List.cons.injEq, and_true]
                omega
              · exact nomatch h
            · exact nomatch h
          · split at h
            · split at h
              · rename_i b1 b2 b3 t
                split at h
                · next hw =>
                  simp only [Bool.and_eq_true, within_iff] at hw
                  simp only [Option.some.injEq, Prod.mk.injEq, rune_4] at h
                  obtain ⟨rfl, rfl⟩ := h
                  have h1 := second_iff hw.1.1
                  have h2 := hw.1.2
                  have h3 := hw.2
                  clear hw
                  refine ⟨by unfold Scalar; omega, ?_, by omega⟩
                  rw [utf8, if_neg (by omega), if_neg (by omega), if_neg (by omega)]
                  simp only [List.drop_succ_cons, List.drop_zero, List.cons_append, List.nil_append, List.cons.injEq, and_true]
                  omega
                · exact nomatch h
              · exact nomatch h
            · exact nomatch h

theorem decodeRune_none {b : Nat} {t : List Nat} (h : decodeRune (b :: t) = none) : 0x80 ≤ b := by
  simp only [decodeRune] at h
  by_cases hb : b < 0x80
  · rw [if_pos hb] at h; exact nomatch h
  · omega

/-- The encoding of a scalar value is decoded to it. -/
theorem decodeRune_utf8 {c : Nat} (hc : Scalar c) (t : List Nat) : decodeRune (utf8 c ++ t) = some (c, (utf8 c).length) := by
  unfold Scalar at hc
  unfold utf8
  by_cases h1 : c < 0x80
  · simp only [if_pos h1, decodeRune, List.cons_append, List.nil_append, List.length_singleton]
  · simp only [if_neg h1]
    by_cases h2 : c < 0x800
    · simp only [if_pos h2, decodeRune, List.cons_append, List.nil_append]
      rw [if_neg (by omega), if_neg (by omega), if_pos (by omega), if_pos (within_iff.2 (by omega)), rune_2]
      simp only [List.length_cons, List.length_nil, Option.some.injEq, Prod.mk.injEq, and_true]
      omega
    · simp only [if_neg h2]
      by_cases h3 : c < 0x10000
      · simp only [if_pos h3, decodeRune, List.cons_append, List.nil_append]
        rw [if_neg (by omega), if_neg (by omega), if_neg (by omega), if_pos (by omega), if_pos, rune_3]
        · simp only [List.length_cons, List.length_nil, Option.some.injEq, Prod.mk.injEq, and_true]
          omega
        · simp only [Bool.and_eq_true, within_iff]
          refine ⟨⟨?_, ?_⟩, by omega⟩
          · unfold secondLo; repeat' split
            all_goals omega
          · unfold secondHi; repeat' split
            all_goals omega
      · simp only [if_neg h3, decodeRune, List.cons_append, List.nil_append]
        rw [if_neg (by omega), if_neg (by omega), if_neg (by omega), if_neg (by omega), if_pos (by omega), if_pos, rune_4]
        · simp only [List.length_cons, List.length_nil, Option.some.injEq, Prod.mk.injEq, and_true]
          omega
        · simp only [Bool.and_eq_true, within_iff]
          refine ⟨⟨⟨?_, ?_⟩, by omega⟩, by omega⟩
          · unfold secondLo; repeat' split
            all_goals omega
          · unfold secondHi; repeat' split
            all_goals omega

theorem quoteLoop_items (tab : Nat → Bool) : ∀ (n : Nat) (s : List Nat), s.length ≤ n →
    ∃ xs : List It, (∀ x ∈ xs, x.WF) ∧ s = (xs.map It.bytes).flatten ∧ quoteLoop tab n s = (xs.map (It.text tab)).flatten
  | n, [], _ => ⟨[], by simp, rfl, by cases n <;> rfl⟩
  | 0, _ :: _, h => by simp at h
  | n + 1, b :: rest, h => by
    cases hd : decodeRune (b :: rest) with
    | none =>
      obtain ⟨xs, h1, h2, h3⟩ := quoteLoop_items tab n rest (by simpa using h)
      have hb := decodeRune_none hd
      by_cases h256 : b < 256
      · refine ⟨.bad b :: xs, ?_, ?_, ?_⟩
        · intro x hx
          rcases List.mem_cons.1 hx with rfl | hx
          · exact ⟨hb, h256⟩
          · exact h1 x hx
        · simp [It.bytes, ← h2]
        · simp only [quoteLoop, hd, if_pos h256, List.map_cons, List.flatten_cons, h3]; rfl
      · refine ⟨.other b :: xs, ?_, ?_, ?_⟩
        · intro x hx
          rcases List.mem_cons.1 hx with rfl | hx
          · exact Nat.not_lt.1 h256
          · exact h1 x hx
        · simp [It.bytes, ← h2]
        · simp only [quoteLoop, hd, if_neg h256, List.map_cons, List.flatten_cons, h3]; rfl
    | some p =>
      obtain ⟨r, w⟩ := p
      obtain ⟨hr, hs, hw⟩ := decodeRune_some hd
      obtain ⟨xs, h1, h2, h3⟩ := quoteLoop_items tab n ((b :: rest).drop w) (by
        rw [List.length_drop]; simp only [List.length_cons] at h ⊢; omega)
      refine ⟨.rune r :: xs, ?_, ?_, ?_⟩
      · intro x hx
        rcases List.mem_cons.1 hx with rfl | hx
        · exact hr
        · exact h1 x hx
      · rw [List.map_cons, List.flatten_cons, ← h2]; exact hs
      · simp only [quoteLoop, hd, List.map_cons, List.flatten_cons, h3]; rfl

theorem utf8_ne (c : Nat) : utf8 c ≠ [] := by
  obtain ⟨a, t, e, _⟩ := utf8_cons c
  rw [e]; simp

/-- What is written for a string of scalar values. -/
theorem quoteLoop_utf8 (tab : Nat → Bool) : ∀ (cs : List Nat) (n : Nat), (∀ c ∈ cs, Scalar c) →
    (cs.map utf8).flatten.length ≤ n → quoteLoop tab n (cs.map utf8).flatten = (cs.map (escapedRune tab)).flatten
  | [], n, _, _ => by cases n <;> rfl
  | c :: cs, n, hc, hn => by
    obtain ⟨a, t, e, _⟩ := utf8_cons c
    have hd := decodeRune_utf8 (hc c (by simp)) (cs.map utf8).flatten
    simp only [List.map_cons, List.flatten_cons] at hn ⊢
    rw [List.length_append] at hn
    have hl : (utf8 c).length = t.length + 1 := by rw [e]; rfl
    obtain ⟨m, rfl⟩ : ∃ m, n = m + 1 := ⟨n - 1, by omega⟩
    have ih := quoteLoop_utf8 tab cs m (fun c hc' => hc c (by simp [hc'])) (by omega)
    have hx : utf8 c ++ (cs.map utf8).flatten = a :: (t ++ (cs.map utf8).flatten) := by rw [e]; rfl
    rw [hx] at hd ⊢
    rw [quoteLoop, hd]
    dsimp only
    rw [← ih, ← hx, List.drop_left]

/-- What is written for any string. -/
theorem appendQuote_items (tab : Nat → Bool) (s : List Nat) :
    ∃ xs : List It, (∀ x ∈ xs, x.WF) ∧ s = (xs.map It.bytes).flatten ∧ appendQuote tab s = (xs.map (It.text tab)).flatten :=
  quoteLoop_items tab _ s (Nat.le_refl _)

/-- Two strings with the same text are the same. -/
theorem appendQuote_inj (tab : Nat → Bool) {s t : List Nat} (h : appendQuote tab s = appendQuote tab t) : s = t := by
  obtain ⟨xs, hx, hs, hqs⟩ := appendQuote_items tab s
  obtain ⟨ys, hy, ht, hqt⟩ := appendQuote_items tab t
  have hc := cmp_items tab xs ys hx hy
  rw [← hqs, ← hqt, h] at hc
  have h0 : cmpBytes (appendQuote tab t) (appendQuote tab t) = 0 := by
    have := cmp_prefix (appendQuote tab t) [] []
    rw [List.append_nil] at this
    rw [this]; rfl
  rw [hs, ht, lexBy_zero tab xs ys hx hy (by rw [← hc, h0])]

theorem map_rune (tab : Nat → Bool) (cs : List Nat) : (cs.map It.rune).map (It.text tab) = cs.map (escapedRune tab) := by
  rw [List.map_map]; rfl

theorem lexBy_map {α β : Type} (f : α → β) (k : β → Nat) : ∀ (xs ys : List α), lexBy k (xs.map f) (ys.map f) = lexBy (fun a => k (f a)) xs ys
  | [], [] => rfl
  | [], _ :: _ => rfl
  | _ :: _, [] => rfl
  | x :: xs, y :: ys => by simp only [List.map_cons, lexBy, lexBy_map f k xs ys]

/-- The order of the texts written for two strings of scalar values. -/
theorem cmp_quote (tab : Nat → Bool) (cs ds : List Nat) (hc : ∀ c ∈ cs, Scalar c) (hd : ∀ d ∈ ds, Scalar d) :
    cmpBytes (appendQuote tab (cs.map utf8).flatten) (appendQuote tab (ds.map utf8).flatten) = lexBy (place tab) cs ds := by
  unfold appendQuote
  rw [quoteLoop_utf8 tab cs _ hc (Nat.le_refl _), quoteLoop_utf8 tab ds _ hd (Nat.le_refl _), ← map_rune, ← map_rune, cmp_items]
  · exact lexBy_map It.rune (It.place tab) cs ds
  · intro x hx
    obtain ⟨c, h, rfl⟩ := List.mem_map.1 hx
    exact hc c h
  · intro x hx
    obtain ⟨c, h, rfl⟩ := List.mem_map.1 hx
    exact hd c h

/-- The bytewise order of UTF-8 texts is the order by code points. -/
theorem cmp_utf8 : ∀ (cs ds : List Nat), (∀ c ∈ cs, Scalar c) → (∀ d ∈ ds, Scalar d) →
    cmpBytes (cs.map utf8).flatten (ds.map utf8).flatten = lexBy id cs ds
  | [], [], _, _ => rfl
  | [], d :: ds, _, _ => by
    simp only [List.map_nil, List.flatten_nil, List.map_cons, List.flatten_cons, lexBy]
    exact cmp_nil_left (fun h => utf8_ne d (List.append_eq_nil_iff.1 h).1)
  | c :: cs, [], _, _ => by
    simp only [List.map_nil, List.flatten_nil, List.map_cons, List.flatten_cons, lexBy]
    exact cmp_nil_right (fun h => utf8_ne c (List.append_eq_nil_iff.1 h).1)
  | c :: cs, d :: ds, hc, hd => by
    have wc : c < 0x110000 := by have := hc c (by simp); unfold Scalar at this; omega
    have wd : d < 0x110000 := by have := hd d (by simp); unfold Scalar at this; omega
    simp only [List.map_cons, List.flatten_cons, lexBy, id]
    by_cases h1 : c < d
    · rw [if_pos h1]; exact utf8_below h1 wd _ _
    · rw [if_neg h1]
      by_cases h2 : d < c
      · rw [if_pos h2, cmp_flip, utf8_below h2 wc]; rfl
      · rw [if_neg h2]
        cases (show c = d by omega)
        rw [cmp_prefix]
        exact cmp_utf8 cs ds (fun z hz => hc z (by simp [hz])) (fun z hz => hd z (by simp [hz]))

end Verif.Quote
