import Verif.Quote.Model
import Verif.Quote.Spec
import Verif.Lit.Lemmas
import Verif.FastVal.Model

/-!
# Quoted texts: a code in which the order of two texts is decided by the first different characters
-/

namespace Verif.Quote

open Verif.Lit (encodeRune utf8 encodeRune_eq and_63)
open Verif.FastVal (cmpBytes)

/-! ### Texts below others, however they continue -/

def Below (x y : List Nat) : Prop := ∀ u v, cmpBytes (x ++ u) (y ++ v) = -1

theorem Below.head {a b : Nat} (x y : List Nat) (h : a < b) : Below (a :: x) (b :: y) := by
  intro u v
  simp [cmpBytes, h]

theorem Below.cons {x y : List Nat} (a : Nat) (h : Below x y) : Below (a :: x) (a :: y) := by
  intro u v
  simp [cmpBytes, h u v]

theorem Below.prefix {x y : List Nat} (p : List Nat) (h : Below x y) : Below (p ++ x) (p ++ y) := by
  induction p with
  | nil => exact h
  | cons a p ih => exact ih.cons a

theorem Below.append {x y : List Nat} (x' y' : List Nat) (h : Below x y) : Below (x ++ x') (y ++ y') := by
  intro u v
  rw [List.append_assoc, List.append_assoc]
  exact h _ _

theorem cmp_flip : ∀ x y : List Nat, cmpBytes y x = - cmpBytes x y
  | [], [] => rfl
  | [], _ :: _ => rfl
  | _ :: _, [] => rfl
  | a :: x, b :: y => by
    simp only [cmpBytes, cmp_flip x y]
    by_cases h1 : a < b
    · rw [if_neg (show ¬ b < a by omega), if_pos h1, if_pos h1]; rfl
    · by_cases h2 : b < a
      · rw [if_pos h2, if_neg h1, if_pos h2]
      · rw [if_neg h2, if_neg h1, if_neg h1, if_neg h2]

theorem cmp_prefix (p x y : List Nat) : cmpBytes (p ++ x) (p ++ y) = cmpBytes x y := by
  induction p with
  | nil => rfl
  | cons a p ih => simp [cmpBytes, ih]

theorem cmp_zero : ∀ {x y : List Nat}, cmpBytes x y = 0 → x = y
  | [], [], _ => rfl
  | [], _ :: _, h => by simp [cmpBytes] at h
  | _ :: _, [], h => by simp [cmpBytes] at h
  | a :: x, b :: y, h => by
    simp only [cmpBytes] at h
    split at h
    · simp at h
    · split at h
      · simp at h
      · rw [cmp_zero h, show a = b by omega]

/-! ### Hexadecimal digits -/

theorem hexDigit_lt {a b : Nat} (h : a < b) : hexDigit a < hexDigit b := by
  unfold hexDigit
  split <;> split <;> omega

theorem hex2_below {a b : Nat} (h : a < b) : Below (hex2 a) (hex2 b) := by
  unfold hex2
  by_cases h1 : a / 16 = b / 16
  · rw [h1]
    exact (Below.head _ _ (hexDigit_lt (by omega))).cons _
  · exact Below.head _ _ (hexDigit_lt (by omega))

theorem hex4_below {a b : Nat} (h : a < b) : Below (hex4 a) (hex4 b) := by
  unfold hex4
  by_cases h1 : a / 256 = b / 256
  · rw [h1]
    exact (hex2_below (by omega)).prefix _
  · exact (hex2_below (by omega)).append _ _

theorem hex8_below {a b : Nat} (h : a < b) : Below (hex8 a) (hex8 b) := by
  unfold hex8
  by_cases h1 : a / 65536 = b / 65536
  · rw [h1]
    exact (hex4_below (by omega)).prefix _
  · exact (hex4_below (by omega)).append _ _

/-! ### UTF-8 -/

theorem below_2 {a b c d : Nat} (h : a < c ∨ (a = c ∧ b < d)) : Below [a, b] [c, d] := by
  rcases h with h | ⟨rfl, h⟩
  · exact .head _ _ h
  · exact (Below.head _ _ h).cons _

theorem below_3 {a b c a' b' c' : Nat} (h : a < a' ∨ (a = a' ∧ (b < b' ∨ (b = b' ∧ c < c')))) : Below [a, b, c] [a', b', c'] := by
  rcases h with h | ⟨rfl, h⟩
  · exact .head _ _ h
  · exact (below_2 h).cons _

theorem below_4 {a b c d a' b' c' d' : Nat}
    (h : a < a' ∨ (a = a' ∧ (b < b' ∨ (b = b' ∧ (c < c' ∨ (c = c' ∧ d < d')))))) : Below [a, b, c, d] [a', b', c', d'] := by
  rcases h with h | ⟨rfl, h⟩
  · exact .head _ _ h
  · exact (below_3 h).cons _

/-- UTF-8 keeps the order of code points. -/
theorem utf8_below {a b : Nat} (h : a < b) (hb : b < 0x110000) : Below (utf8 a) (utf8 b) := by
  unfold utf8
  split
  · split
    · exact .head _ _ h
    · split
      · exact .head _ _ (by omega)
      · split <;> exact .head _ _ (by omega)
  · split
    · rw [if_neg (by omega)]
      split
      · exact below_2 (by omega)
      · split <;> exact .head _ _ (by omega)
    · split
      · rw [if_neg (by omega), if_neg (by omega)]
        split
        · exact below_3 (by omega)
        · exact .head _ _ (by omega)
      · rw [if_neg (by omega), if_neg (by omega), if_neg (by omega)]
        exact below_4 (by omega)

theorem utf8_cons (c : Nat) : ∃ a t, utf8 c = a :: t ∧ (c < 0x80 → a = c ∧ t = []) ∧ (0x80 ≤ c → 0xC0 ≤ a) ∧
    (c < 0x110000 → a < 256) := by
  unfold utf8
  split
  · exact ⟨_, _, rfl, fun _ => ⟨rfl, rfl⟩, by omega, by omega⟩
  · split
    · exact ⟨_, _, rfl, by omega, by omega, by omega⟩
    · split <;> exact ⟨_, _, rfl, by omega, by omega, by omega⟩

/-! ### The items of a string -/

/-- A code point, a byte that is not part of one, or a number that is no byte. -/
inductive It where
  | rune (c : Nat)
  | bad (b : Nat)
  | other (b : Nat)

def It.WF : It → Prop
  | .rune c => Scalar c
  | .bad b => 0x80 ≤ b ∧ b < 256
  | .other b => 256 ≤ b

def It.bytes : It → List Nat
  | .rune c => utf8 c
  | .bad b => [b]
  | .other b => [b]

def It.text (tab : Nat → Bool) : It → List Nat
  | .rune c => escapedRune tab c
  | .bad b => [92, 120] ++ hex2 b
  | .other b => [b]

def It.place (tab : Nat → Bool) : It → Nat
  | .rune c => Quote.place tab c
  | .bad b => 0x5C * 2 ^ 40 + 0x78 * 2 ^ 32 + b
  | .other b => (0x110000 + b) * 2 ^ 40

/-- What stands behind the backslash and the letter. -/
def rest (c : Nat) : List Nat :=
  if letter c = 0x78 then hex2 c else if letter c = 0x75 then hex4 c else if letter c = 0x55 then hex8 c else []

theorem letter_cases (c : Nat) : (letter c = 0x78 ∧ c < 0x80) ∨ (letter c = 0x75 ∧ 0x80 ≤ c ∧ c < 0x10000) ∨
    (letter c = 0x55 ∧ 0x10000 ≤ c) ∨
    (letter c = 0x22 ∧ c = 0x22) ∨ (letter c = 0x5C ∧ c = 0x5C) ∨ (letter c = 0x61 ∧ c = 7) ∨ (letter c = 0x62 ∧ c = 8) ∨
    (letter c = 0x66 ∧ c = 12) ∨ (letter c = 0x6E ∧ c = 10) ∨ (letter c = 0x72 ∧ c = 13) ∨ (letter c = 0x74 ∧ c = 9) ∨
    (letter c = 0x76 ∧ c = 11) := by
  unfold letter
  by_cases h1 : c = 0x22
  · subst h1; decide
  by_cases h2 : c = 0x5C
  · subst h2; decide
  by_cases h3 : c = 7
  · subst h3; decide
  by_cases h4 : c = 8
  · subst h4; decide
  by_cases h5 : c = 12
  · subst h5; decide
  by_cases h6 : c = 10
  · subst h6; decide
  by_cases h7 : c = 13
  · subst h7; decide
  by_cases h8 : c = 9
  · subst h8; decide
  by_cases h9 : c = 11
  · subst h9; decide
  rw [if_neg h1, if_neg h2, if_neg h3, if_neg h4, if_neg h5, if_neg h6, if_neg h7, if_neg h8, if_neg h9]
  by_cases h10 : c < 0x80
  · rw [if_pos h10]; exact .inl ⟨rfl, h10⟩
  · rw [if_neg h10]
    by_cases h11 : c < 0x10000
    · rw [if_pos h11]; exact .inr (.inl ⟨rfl, by omega, h11⟩)
    · rw [if_neg h11]; exact .inr (.inr (.inl ⟨rfl, by omega⟩))

theorem isPrint_iff {tab : Nat → Bool} {c : Nat} (h1 : c ≠ 0x22) (h2 : c ≠ 0x5C) : isPrint tab c = true ↔ ¬ Escaped tab c := by
  unfold isPrint Escaped
  split
  · simp only [decide_eq_true_eq]; omega
  · cases tab c <;> simp <;> omega

theorem escaped_text {tab : Nat → Bool} {c : Nat} (h : Escaped tab c) : escapedRune tab c = 92 :: letter c :: rest c := by
  unfold escapedRune
  by_cases h1 : c = 0x22
  · subst h1; rfl
  · by_cases h2 : c = 0x5C
    · subst h2; rfl
    · rw [if_neg (by omega), if_neg (by rw [isPrint_iff h1 h2]; exact fun hn => hn h)]
      split
      · next h => subst h; rfl
      · split
        · next h => subst h; rfl
        · split
          · next h => subst h; rfl
          · split
            · next h => subst h; rfl
            · split
              · next h => subst h; rfl
              · split
                · next h => subst h; rfl
                · split
                  · next h => subst h; rfl
                  · have hl : letter c = if c < 0x80 then 0x78 else if c < 0x10000 then 0x75 else 0x55 := by
                      unfold letter
                      rw [if_neg h1, if_neg h2]
                      simp only [*, if_false]
                    split
                    · have : letter c = 0x78 := by rw [hl, if_pos (by omega)]
                      unfold rest
                      rw [this]; rfl
                    · have h80 : 0x80 ≤ c := by
                        unfold Escaped at h; omega
                      split
                      · next hs =>
                        have : letter c = 0x75 := by rw [hl, if_neg (by omega), if_pos hs]
                        unfold rest
                        rw [this]; rfl
                      · next hs =>
                        have : letter c = 0x55 := by rw [hl, if_neg (by omega), if_neg hs]
                        unfold rest
                        rw [this]; rfl

theorem plain_text {tab : Nat → Bool} {c : Nat} (hc : Scalar c) (h : ¬ Escaped tab c) : escapedRune tab c = utf8 c := by
  unfold escapedRune
  have h' := h
  unfold Escaped at h'
  rw [if_neg (by omega), if_pos ((isPrint_iff (by omega) (by omega)).2 h)]
  unfold Scalar at hc
  exact encodeRune_eq (by omega) (by omega)

theorem letter_bound (c : Nat) : letter c ≤ 0x78 := by have := letter_cases c; omega

theorem rest_below {a b : Nat} (hl : letter a = letter b) (h : a < b) : Below (rest a) (rest b) := by
  unfold rest
  rw [hl]
  split
  · exact hex2_below h
  · split
    · exact hex4_below h
    · split
      · exact hex8_below h
      · have := letter_cases a; have := letter_cases b; omega

theorem head_lt (tab : Nat → Bool) {c : Nat} (h : Scalar c) : ∃ a t, escapedRune tab c = a :: t ∧ a < 256 := by
  by_cases e : Escaped tab c
  · exact ⟨_, _, escaped_text e, by omega⟩
  · obtain ⟨a, t, e', _, _, h3⟩ := utf8_cons c
    exact ⟨a, t, by rw [plain_text h e, e'], h3 (by unfold Scalar at h; omega)⟩

theorem place_lt (tab : Nat → Bool) {c : Nat} (h : Scalar c) : place tab c < 0x110000 * 2 ^ 40 := by
  have := letter_bound c
  unfold place
  unfold Scalar at h
  split <;> omega

/-- An item with the smaller place has the smaller text, however the texts continue. -/
theorem item_below {tab : Nat → Bool} {x y : It} (hx : x.WF) (hy : y.WF) (h : x.place tab < y.place tab) :
    Below (x.text tab) (y.text tab) := by
  cases x with
  | rune a =>
    have ha : a < 0x110000 := by simp only [It.WF, Scalar] at hx; omega
    have la := letter_bound a
    cases y with
    | rune b =>
      have hb : b < 0x110000 := by simp only [It.WF, Scalar] at hy; omega
      have lb := letter_bound b
      simp only [It.place, place, It.text] at h ⊢
      by_cases ea : Escaped tab a
      · rw [if_pos ea] at h
        rw [escaped_text ea]
        by_cases eb : Escaped tab b
        · rw [if_pos eb] at h
          rw [escaped_text eb]
          by_cases hl : letter a = letter b
          · rw [hl]
            exact ((rest_below hl (by omega)).cons _).cons _
          · exact (Below.head _ _ (by omega)).cons _
        · rw [if_neg eb] at h
          rw [plain_text hy eb]
          obtain ⟨x, t, e, h1, h2, _⟩ := utf8_cons b
          rw [e]
          refine .head _ _ ?_
          by_cases h80 : b < 0x80
          · have := (h1 h80).1; unfold Escaped at eb; omega
          · have := h2 (by omega); omega
      · rw [if_neg ea] at h
        rw [plain_text hx ea]
        by_cases eb : Escaped tab b
        · rw [if_pos eb] at h
          rw [escaped_text eb]
          obtain ⟨x, t, e, h1, h2, _⟩ := utf8_cons a
          rw [e]
          refine .head _ _ ?_
          have := (h1 (by omega)).1; unfold Escaped at ea; omega
        · rw [if_neg eb] at h
          rw [plain_text hy eb]
          exact utf8_below (by omega) hb
    | bad b =>
      simp only [It.WF] at hy
      simp only [It.place, place, It.text] at h ⊢
      by_cases ea : Escaped tab a
      · rw [if_pos ea] at h
        rw [escaped_text ea]
        by_cases hl : letter a = 0x78
        · have : rest a = hex2 a := by unfold rest; rw [if_pos hl]
          rw [hl, this]
          exact ((hex2_below (by omega)).cons _).cons _
        · exact (Below.head _ _ (by omega)).cons _
      · rw [if_neg ea] at h
        rw [plain_text hx ea]
        obtain ⟨x, t, e, h1, h2, _⟩ := utf8_cons a
        rw [e]
        refine .head _ _ ?_
        have := (h1 (by omega)).1; unfold Escaped at ea; omega
    | other b =>
      obtain ⟨x, t, e, hlt⟩ := head_lt tab (c := a) hx
      simp only [It.WF] at hy
      simp only [It.text]
      rw [e]
      exact .head _ _ (by omega)
  | other a =>
    simp only [It.WF] at hx
    cases y with
    | rune b =>
      have := place_lt tab (c := b) hy
      simp only [It.place] at h
      omega
    | bad b =>
      simp only [It.WF] at hy
      simp only [It.place] at h
      omega
    | other b =>
      simp only [It.place] at h
      exact .head _ _ (by omega)
  | bad a =>
    simp only [It.WF] at hx
    cases y with
    | rune b =>
      have hb : b < 0x110000 := by simp only [It.WF, Scalar] at hy; omega
      have lb := letter_bound b
      simp only [It.place, place, It.text] at h ⊢
      by_cases eb : Escaped tab b
      · rw [if_pos eb] at h
        have := letter_cases b
        omega
      · rw [if_neg eb] at h
        rw [plain_text hy eb]
        obtain ⟨x, t, e, h1, h2, _⟩ := utf8_cons b
        rw [e]
        refine .head _ _ ?_
        by_cases h80 : b < 0x80
        · have := (h1 h80).1; unfold Escaped at eb; omega
        · have := h2 (by omega); omega
    | bad b =>
      simp only [It.place, It.text] at h ⊢
      exact ((hex2_below (by omega)).cons _).cons _
    | other b =>
      simp only [It.WF] at hy
      exact .head _ _ (by omega)

/-- Items are determined by their places. -/
theorem place_inj {tab : Nat → Bool} {x y : It} (hx : x.WF) (hy : y.WF) (h : x.place tab = y.place tab) : x = y := by
  have hc : ∀ c, Scalar c → c < 0x110000 := fun c h => by unfold Scalar at h; omega
  cases x with
  | rune a =>
    have ha := hc a hx
    have la := letter_bound a
    cases y with
    | rune b =>
      have hb := hc b hy
      have lb := letter_bound b
      simp only [It.place, place] at h
      congr 1
      by_cases ea : Escaped tab a
      · by_cases eb : Escaped tab b
        · rw [if_pos ea, if_pos eb] at h; omega
        · rw [if_pos ea, if_neg eb] at h; have := letter_cases a; unfold Escaped at eb; omega
      · by_cases eb : Escaped tab b
        · rw [if_neg ea, if_pos eb] at h; have := letter_cases b; unfold Escaped at ea; omega
        · rw [if_neg ea, if_neg eb] at h; omega
    | bad b =>
      simp only [It.WF] at hy
      simp only [It.place, place] at h
      have := letter_cases a
      by_cases ea : Escaped tab a
      · rw [if_pos ea] at h; omega
      · rw [if_neg ea] at h; omega
    | other b =>
      have := place_lt tab (c := a) hx
      simp only [It.place] at h
      omega
  | other a =>
    simp only [It.WF] at hx
    cases y with
    | rune b =>
      have := place_lt tab (c := b) hy
      simp only [It.place] at h
      omega
    | bad b =>
      simp only [It.WF] at hy
      simp only [It.place] at h
      omega
    | other b =>
      simp only [It.place] at h
      congr 1; omega
  | bad a =>
    simp only [It.WF] at hx
    cases y with
    | rune b =>
      have hb := hc b hy
      simp only [It.place, place] at h
      have := letter_cases b
      by_cases eb : Escaped tab b
      · rw [if_pos eb] at h; omega
      · rw [if_neg eb] at h; omega
    | bad b =>
      simp only [It.place] at h
      congr 1; omega
    | other b =>
      simp only [It.place] at h
      omega

theorem text_ne (tab : Nat → Bool) (x : It) (hx : x.WF) : x.text tab ≠ [] := by
  cases x with
  | bad b => simp [It.text]
  | other b => simp [It.text]
  | rune c =>
    simp only [It.text]
    by_cases e : Escaped tab c
    · rw [escaped_text e]; simp
    · rw [plain_text hx e]
      obtain ⟨a, t, e, _⟩ := utf8_cons c
      rw [e]; simp

theorem cmp_nil_left {x : List Nat} (h : x ≠ []) : cmpBytes [] x = -1 := by
  cases x with
  | nil => exact absurd rfl h
  | cons => rfl

theorem cmp_nil_right {x : List Nat} (h : x ≠ []) : cmpBytes x [] = 1 := by
  cases x with
  | nil => exact absurd rfl h
  | cons => rfl

/-- The order of texts made of items is the lexicographic order of the items by their places. -/
theorem cmp_items (tab : Nat → Bool) : ∀ (xs ys : List It), (∀ x ∈ xs, x.WF) → (∀ y ∈ ys, y.WF) →
    cmpBytes (xs.map (It.text tab)).flatten (ys.map (It.text tab)).flatten = lexBy (It.place tab) xs ys
  | [], [], _, _ => rfl
  | [], y :: ys, _, hy => by
    simp only [List.map_nil, List.flatten_nil, List.map_cons, List.flatten_cons, lexBy]
    exact cmp_nil_left (fun h => text_ne tab y (hy y (by simp)) (List.append_eq_nil_iff.1 h).1)
  | x :: xs, [], hx, _ => by
    simp only [List.map_nil, List.flatten_nil, List.map_cons, List.flatten_cons, lexBy]
    exact cmp_nil_right (fun h => text_ne tab x (hx x (by simp)) (List.append_eq_nil_iff.1 h).1)
  | x :: xs, y :: ys, hx, hy => by
    have wx := hx x (by simp)
    have wy := hy y (by simp)
    simp only [List.map_cons, List.flatten_cons, lexBy]
    by_cases h1 : x.place tab < y.place tab
    · rw [if_pos h1]; exact item_below wx wy h1 _ _
    · rw [if_neg h1]
      by_cases h2 : y.place tab < x.place tab
      · rw [if_pos h2, cmp_flip, item_below wy wx h2]; rfl
      · rw [if_neg h2]
        cases place_inj wx wy (show x.place tab = y.place tab by omega)
        rw [cmp_prefix]
        exact cmp_items tab xs ys (fun z hz => hx z (by simp [hz])) (fun z hz => hy z (by simp [hz]))

theorem lexBy_zero (tab : Nat → Bool) : ∀ (xs ys : List It), (∀ x ∈ xs, x.WF) → (∀ y ∈ ys, y.WF) →
    lexBy (It.place tab) xs ys = 0 → xs = ys
  | [], [], _, _, _ => rfl
  | [], _ :: _, _, _, h => by simp [lexBy] at h
  | _ :: _, [], _, _, h => by simp [lexBy] at h
  | x :: xs, y :: ys, hx, hy, h => by
    simp only [lexBy] at h
    split at h
    · simp at h
    · split at h
      · simp at h
      · rw [place_inj (hx x (by simp)) (hy y (by simp)) (show x.place tab = y.place tab by omega),
          lexBy_zero tab xs ys (fun z hz => hx z (by simp [hz])) (fun z hz => hy z (by simp [hz])) h]

end Verif.Quote
