import Verif.Lit.Model
import Verif.Lit.Spec

namespace Verif.Lit
open Verif.Token

/-! ### Integers -/

theorem parseDigits_eq (ds : List Nat) (h : Digits ds) (v : Nat) :
    parseDigits (BitVec.ofNat 64 v) ds = some (BitVec.ofNat 64 (v * 10 ^ ds.length + decVal ds)) := by
  induction ds generalizing v with
  | nil => simp [parseDigits, decVal]
  | cons c cs ih =>
    have hc := h c (by simp)
    rw [parseDigits, if_pos hc]
    have : 10#64 * BitVec.ofNat 64 v + BitVec.ofNat 64 (c - 48) = BitVec.ofNat 64 (10 * v + (c - 48)) := by
      apply BitVec.eq_of_toNat_eq; simp
    rw [this, ih (fun x hx => h x (by simp [hx]))]
    congr 2
    simp only [decVal, List.length_cons, Nat.pow_succ, Nat.add_mul]
    rw [← Nat.add_assoc]
    congr 2
    rw [Nat.mul_comm 10 v, Nat.mul_assoc, Nat.mul_comm 10]

/-! ### Escapes -/

theorem h2I_hex {c : Nat} (h : IsHex c) : h2I c = some (hexVal c) ∧ hexVal c < 16 := by
  unfold IsHex at h
  unfold h2I hexVal
  rcases h with h | h | h
  · rw [if_pos h, if_pos h.2]; exact ⟨rfl, by omega⟩
  · rw [if_neg (by omega), if_pos h, if_neg (by omega), if_pos (by omega)]
    exact ⟨by congr 1; omega, by omega⟩
  · rw [if_neg (by omega), if_neg (by omega), if_pos h, if_neg (by omega), if_neg (by omega)]
    exact ⟨by congr 1; omega, by omega⟩

theorem h2I_lt {c n : Nat} (h : h2I c = some n) : n < 16 := by
  unfold h2I at h
  repeat' split at h
  all_goals simp at h
  all_goals omega

theorem decodeSingle_hex (x y : Nat) (h : Hex4) (hw : h.WF) (rest : List Nat) :
    decodeSingle (x :: y :: (h.text ++ rest)) = some h.val := by
  obtain ⟨h1, h2, h3, h4⟩ := hw
  simp only [Hex4.text, List.cons_append, List.nil_append, decodeSingle, (h2I_hex h1).1, (h2I_hex h2).1, (h2I_hex h3).1,
    (h2I_hex h4).1, Hex4.val, Nat.shiftLeft_eq]
  congr 1; omega

theorem decodeSingle_some {inp : List Nat} {r : Nat} (h : decodeSingle inp = some r) : 6 ≤ inp.length ∧ r ≤ 0xFFFF := by
  unfold decodeSingle at h
  split at h
  · split at h
    · rename_i h1 h2 h3 h4 e1 e2 e3 e4
      have := h2I_lt e1; have := h2I_lt e2; have := h2I_lt e3; have := h2I_lt e4
      simp only [Option.some.injEq, Nat.shiftLeft_eq] at h
      refine ⟨by simp, by omega⟩
    · simp at h
  · simp at h

theorem or_add_192 : ∀ x, x < 32 → 0xC0 ||| x = 0xC0 + x := by decide
theorem or_add_128 : ∀ x, x < 64 → 0x80 ||| x = 0x80 + x := by decide
theorem or_add_224 : ∀ x, x < 16 → 0xE0 ||| x = 0xE0 + x := by decide
theorem or_add_240 : ∀ x, x < 8 → 0xF0 ||| x = 0xF0 + x := by decide
theorem and_63 (x : Nat) : x &&& 0x3F = x % 64 := Nat.and_two_pow_sub_one_eq_mod x 6

theorem encodeRune_eq {r : Nat} (h : r ≤ 0x10FFFF) (hs : ¬ (0xD800 ≤ r ∧ r ≤ 0xDFFF)) : encodeRune r = utf8 r := by
  unfold encodeRune utf8
  by_cases h1 : r ≤ 0x7F
  · rw [if_pos h1, if_pos (show r < 0x80 by omega)]
  · rw [if_neg h1, if_neg (show ¬ r < 0x80 by omega)]
    by_cases h2 : r ≤ 0x7FF
    · rw [if_pos h2, if_pos (show r < 0x800 by omega)]
      simp only [and_63, Nat.shiftRight_eq_div_pow]
      rw [or_add_192 _ (by omega), or_add_128 _ (by omega)]
    · rw [if_neg h2, if_neg (show ¬ r < 0x800 by omega), if_neg (show ¬ (r > 0x10FFFF ∨ (0xD800 ≤ r ∧ r ≤ 0xDFFF)) by omega)]
      by_cases h3 : r ≤ 0xFFFF
      · rw [if_pos h3, if_pos (show r < 0x10000 by omega)]
        simp only [and_63, Nat.shiftRight_eq_div_pow]
        rw [or_add_224 _ (by omega), or_add_128 _ (by omega), or_add_128 _ (by omega)]
      · rw [if_neg h3, if_neg (show ¬ r < 0x10000 by omega)]
        simp only [and_63, Nat.shiftRight_eq_div_pow]
        rw [or_add_240 _ (by omega), or_add_128 _ (by omega), or_add_128 _ (by omega), or_add_128 _ (by omega)]

theorem encodeRune_len (r : Nat) : 1 ≤ (encodeRune r).length ∧ (encodeRune r).length ≤ 4 ∧
    (r ≤ 0xFFFF → (encodeRune r).length ≤ 3) := by
  unfold encodeRune
  repeat' split
  all_goals simp
  omega

/-- What one escape consumes and produces, with enough room. -/
theorem unescapeOne_some {inp : List Nat} {room n : Nat} {bs : List Nat}
    (h : unescapeOne inp room = .ok (some (n, bs))) : n ≤ inp.length ∧ bs.length + 1 ≤ n ∧ 2 ≤ n := by
  unfold unescapeOne at h
  split at h
  · split at h
    · split at h
      · simp at h
      · simp at h; obtain ⟨rfl, rfl⟩ := h; simp
    · split at h
      · split at h
        · simp at h
        · rename_i r m hd
          split at h
          · simp at h
          · simp at h
            obtain ⟨rfl, rfl⟩ := h
            unfold decodeUnicode at hd
            split at hd
            · simp at hd
            · rename_i r1 h1
              have := decodeSingle_some h1
              split at hd
              · simp at hd
                obtain ⟨rfl, rfl⟩ := hd
                have := encodeRune_len r1
                refine ⟨by omega, ?_, by omega⟩
                have := this.2.2 (by omega); omega
              · split at hd
                · simp at hd
                · rename_i r2 h2
                  have h2' := decodeSingle_some h2
                  split at hd
                  · simp at hd
                  · simp at hd
                    obtain ⟨rfl, rfl⟩ := hd
                    have := encodeRune_len (combine r1 r2)
                    have h3 := h2'.1
                    simp only [List.length_drop] at h3
                    exact ⟨by omega, by omega, by omega⟩
      · simp at h
  · simp at h

/-- With as much room as input, an escape never overruns the buffer. -/
theorem unescapeOne_ok {inp : List Nat} {room : Nat} (h : inp.length ≤ room) :
    ∃ r, unescapeOne inp room = .ok r := by
  unfold unescapeOne
  split
  · rename_i e rest
    simp only [List.length_cons] at h
    split
    · rw [if_neg (by omega)]; exact ⟨_, rfl⟩
    · split
      · split
        · exact ⟨_, rfl⟩
        · rename_i r m hd
          have hlen : (encodeRune r).length ≤ room := by
            unfold decodeUnicode at hd
            split at hd
            · simp at hd
            · rename_i r1 h1
              have := decodeSingle_some h1
              simp only [List.length_cons] at this
              have := (encodeRune_len r).2.1
              omega
          rw [if_neg (by omega)]; exact ⟨_, rfl⟩
      · exact ⟨_, rfl⟩
  · exact ⟨_, rfl⟩

theorem idxBackslash_none {l : List Nat} : idxBackslash l = none ↔ ∀ c ∈ l, c ≠ 92 := by
  induction l with
  | nil => simp [idxBackslash]
  | cons c l ih =>
    rw [idxBackslash]
    by_cases h : c = 92
    · simp [h]
    · simp [h, ih]

theorem idxBackslash_some {l : List Nat} {j : Nat} (h : idxBackslash l = some j) :
    j < l.length ∧ (∀ c ∈ l.take j, c ≠ 92) ∧ ∃ r, l.drop j = 92 :: r := by
  induction l generalizing j with
  | nil => simp [idxBackslash] at h
  | cons c l ih =>
    rw [idxBackslash] at h
    by_cases hc : c = 92
    · simp [hc] at h; subst h; simp [hc]
    · simp only [hc, if_false, Option.map_eq_some_iff] at h
      obtain ⟨i, hi, rfl⟩ := h
      obtain ⟨h1, h2, r, h3⟩ := ih hi
      refine ⟨by simp; exact h1, ?_, r, by simpa using h3⟩
      intro x hx
      simp only [List.take_succ_cons, List.mem_cons] at hx
      rcases hx with rfl | hx
      · exact hc
      · exact h2 x hx

theorem unescapeLoop_total (cap : Nat) (fuel : Nat) : ∀ (inp acc : List Nat), inp.length < fuel →
    acc.length + inp.length ≤ cap →
    unescapeLoop cap fuel inp acc = .ok none ∨
      ∃ out, unescapeLoop cap fuel inp acc = .ok (some out) ∧ out.length ≤ acc.length + inp.length := by
  induction fuel with
  | zero => intro inp acc h; omega
  | succ fuel ih =>
    intro inp acc h1 h2
    rw [unescapeLoop]
    by_cases hn : inp = []
    · rw [if_pos hn]; exact Or.inr ⟨acc, rfl, by omega⟩
    · rw [if_neg hn]
      obtain ⟨r, hr⟩ := unescapeOne_ok (inp := inp) (room := cap - acc.length) (by omega)
      rw [hr, Res.bind_ok]
      cases r with
      | none => exact Or.inl rfl
      | some p =>
        obtain ⟨n, bs⟩ := p
        obtain ⟨a1, a2, a3⟩ := unescapeOne_some hr
        simp only
        rw [if_neg (by omega)]
        have hd : (inp.drop n).length = inp.length - n := List.length_drop
        cases hj : idxBackslash (inp.drop n) with
        | none =>
          simp only
          rw [if_neg (by simp only [List.length_append]; omega)]
          exact Or.inr ⟨_, rfl, by simp only [List.length_append]; omega⟩
        | some j =>
          have hj' := (idxBackslash_some hj).1
          simp only
          rw [if_neg (by simp only [List.length_append]; omega)]
          have l1 : ((inp.drop n).drop j).length = inp.length - n - j := by simp only [List.length_drop]
          have l2 : ((inp.drop n).take j).length = j := by simp only [List.length_take]; omega
          have := ih ((inp.drop n).drop j) (acc ++ bs ++ (inp.drop n).take j) (by omega)
            (by simp only [List.length_append]; omega)
          rcases this with h | ⟨out, h, hl⟩
          · exact Or.inl h
          · exact Or.inr ⟨out, h, by simp only [List.length_append] at hl; omega⟩

/-! ### Correct decoding -/

theorem Hex4.val_lt {h : Hex4} (hw : h.WF) : h.val < 65536 := by
  obtain ⟨h1, h2, h3, h4⟩ := hw
  have := (h2I_hex h1).2; have := (h2I_hex h2).2; have := (h2I_hex h3).2; have := (h2I_hex h4).2
  unfold Hex4.val; omega

/-- One escape of the specification is decoded to its bytes. -/
theorem unescapeOne_ch {c : Ch} (hw : c.WF) (hp : ∀ x, c ≠ .plain x) (rest : List Nat) (room : Nat)
    (hr : (c.text ++ rest).length ≤ room) :
    unescapeOne (c.text ++ rest) room = .ok (some (c.text.length, c.bytes)) := by
  cases c with
  | plain x => exact absurd rfl (hp x)
  | esc c =>
    simp only [Ch.text, List.cons_append, List.nil_append, List.length_cons] at hr ⊢
    simp only [Ch.WF] at hw
    unfold unescapeOne
    simp only
    rw [if_pos (by omega), if_neg (by omega)]
    simp only [Ch.bytes, escTable, List.length_nil]
    rcases hw with rfl | rfl | rfl | rfl | rfl | rfl | rfl | rfl <;> rfl
  | uni h =>
    obtain ⟨hw, hs⟩ := hw
    have hv := Hex4.val_lt hw
    have hd : decodeUnicode (92 :: 117 :: (h.text ++ rest)) = some (h.val, 6) := by
      unfold decodeUnicode
      rw [decodeSingle_hex _ _ h hw]
      simp only
      rw [if_pos ⟨by omega, by simp only [isUTF16, Bool.and_eq_false_iff, decide_eq_false_iff_not]; omega⟩]
    simp only [Ch.text, List.cons_append] at hr ⊢
    unfold unescapeOne
    simp only
    rw [if_neg (by omega), if_pos trivial, hd]
    simp only
    rw [if_neg (by
      have := (encodeRune_len h.val).2.1
      simp only [List.length_cons, List.length_append, Hex4.text] at hr; omega)]
    rw [encodeRune_eq (by omega) (by omega)]
    rfl
  | pair hi lo =>
    obtain ⟨hh, hl, hs1, hs2⟩ := hw
    have hd : decodeUnicode (92 :: 117 :: ((hi.text ++ 92 :: 117 :: lo.text) ++ rest)) = some (combine hi.val lo.val, 12) := by
      unfold decodeUnicode
      rw [List.append_assoc, decodeSingle_hex _ _ hi hh]
      simp only
      rw [if_neg (by simp [isUTF16]; omega)]
      have : (92 :: 117 :: (hi.text ++ (92 :: 117 :: lo.text ++ rest))).drop 6 = 92 :: 117 :: (lo.text ++ rest) := by
        simp [Hex4.text]
      rw [this, decodeSingle_hex _ _ lo hl]
      simp only
      rw [if_neg (by omega)]
    simp only [Ch.text, List.cons_append] at hr ⊢
    unfold unescapeOne
    simp only
    rw [if_neg (by omega), if_pos trivial, hd]
    simp only
    rw [if_neg (by
      have := (encodeRune_len (combine hi.val lo.val)).2.1
      simp only [List.length_cons, List.length_append, Hex4.text] at hr; omega)]
    have hc : combine hi.val lo.val = 0x10000 + (hi.val - 0xD800) * 0x400 + (lo.val - 0xDC00) := by
      unfold combine; rw [Nat.shiftLeft_eq]
    rw [hc, encodeRune_eq (by omega) (by omega)]
    rfl

theorem chText_cons (c : Ch) (cs : List Ch) : chText (c :: cs) = c.text ++ chText cs := rfl
theorem chBytes_cons (c : Ch) (cs : List Ch) : chBytes (c :: cs) = c.bytes ++ chBytes cs := rfl

/-- A text starts with plain characters up to its first escape. -/
theorem split_plain (cs : List Ch) (hw : ∀ c ∈ cs, c.WF) :
    (idxBackslash (chText cs) = none ∧ chBytes cs = chText cs) ∨
      ∃ ps c r, cs = ps ++ c :: r ∧ (∀ x, c ≠ .plain x) ∧ chBytes ps = chText ps ∧
        idxBackslash (chText cs) = some (chText ps).length := by
  induction cs with
  | nil => exact Or.inl ⟨rfl, rfl⟩
  | cons c cs ih =>
    by_cases hp : ∃ x, c = .plain x
    · obtain ⟨x, rfl⟩ := hp
      have hx := (hw _ (List.mem_cons_self)).2.2
      have hi : idxBackslash (chText (.plain x :: cs)) = (idxBackslash (chText cs)).map (· + 1) := by
        rw [chText_cons]; simp only [Ch.text, List.cons_append, List.nil_append, idxBackslash]; rw [if_neg hx]
      rcases ih (fun c hc => hw c (by simp [hc])) with ⟨h1, h2⟩ | ⟨ps, c, r, e1, e2, e3, e4⟩
      · refine Or.inl ⟨by rw [hi, h1]; rfl, ?_⟩
        rw [chText_cons, chBytes_cons, h2]; rfl
      · refine Or.inr ⟨.plain x :: ps, c, r, by rw [e1]; rfl, e2, ?_, ?_⟩
        · rw [chText_cons, chBytes_cons, e3]; rfl
        · rw [hi, e4, chText_cons]; simp [Ch.text]
    · refine Or.inr ⟨[], c, cs, rfl, fun x hx => hp ⟨x, hx⟩, rfl, ?_⟩
      cases c with
      | plain x => exact absurd ⟨x, rfl⟩ hp
      | _ => simp [Ch.text, idxBackslash, chText]

theorem chText_append (a b : List Ch) : chText (a ++ b) = chText a ++ chText b := by simp [chText]
theorem chBytes_append (a b : List Ch) : chBytes (a ++ b) = chBytes a ++ chBytes b := by simp [chBytes]

theorem Ch.text_pos (c : Ch) : 1 ≤ c.text.length := by cases c <;> simp [Ch.text]

theorem Ch.bytes_le {c : Ch} (hw : c.WF) : c.bytes.length ≤ c.text.length := by
  by_cases hp : ∃ x, c = .plain x
  · obtain ⟨x, rfl⟩ := hp; simp [Ch.bytes, Ch.text]
  · have := unescapeOne_some (unescapeOne_ch hw (fun x h => hp ⟨x, h⟩) [] _ (Nat.le_refl _))
    omega

theorem unescapeLoop_ch (cap fuel : Nat) : ∀ (c : Ch) (cs : List Ch) (acc : List Nat), c.WF → (∀ x, c ≠ .plain x) →
    (∀ c ∈ cs, c.WF) → (chText (c :: cs)).length < fuel → acc.length + (chText (c :: cs)).length ≤ cap →
    unescapeLoop cap fuel (chText (c :: cs)) acc = .ok (some (acc ++ chBytes (c :: cs))) := by
  induction fuel with
  | zero => intro c cs acc _ _ _ h; omega
  | succ fuel ih =>
    intro c cs acc hw hp hws h1 h2
    have hpos := c.text_pos
    have hb := c.bytes_le hw
    rw [unescapeLoop, if_neg (by
      rw [chText_cons]; intro h; have := congrArg List.length h; simp only [List.length_append, List.length_nil] at this; omega)]
    rw [chText_cons] at h1 h2 ⊢
    simp only [List.length_append] at h1 h2
    rw [unescapeOne_ch hw hp _ _ (by simp only [List.length_append]; omega), Res.bind_ok]
    simp only
    rw [if_neg (by simp only [List.length_append]; omega), List.drop_left]
    rcases split_plain cs hws with ⟨e1, e2⟩ | ⟨ps, c', r, e1, e2, e3, e4⟩
    · rw [e1]
      simp only
      rw [if_neg (by simp only [List.length_append]; omega)]
      rw [chBytes_cons, e2, List.append_assoc]
    · rw [e4]
      have ht : chText cs = chText ps ++ chText (c' :: r) := by rw [e1, chText_append]
      have hl : (chText cs).length = (chText ps).length + (chText (c' :: r)).length := by
        rw [ht, List.length_append]
      simp only
      rw [if_neg (by simp only [List.length_append]; omega)]
      rw [ht, List.drop_left, List.take_left]
      rw [ih c' r _ (hws c' (by rw [e1]; simp)) e2 (fun x hx => hws x (by rw [e1]; simp [hx])) (by omega)
        (by simp only [List.length_append]; omega)]
      rw [e1, chBytes_cons c, chBytes_append, e3]
      simp only [List.append_assoc]

end Verif.Lit
