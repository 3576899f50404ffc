import Verif.Lit.Lemmas

/-!
# Properties C15, C16 and the key-spelling part of C40
-/

namespace Verif.Lit
open Verif.Token

/-! ### C15 -/

/-- Every integer literal is read as its value modulo 2^64. -/
theorem C15_int_mod (w : List Nat) (h : TokText .integer w) : parseInt w = BitVec.ofInt 64 (intVal w) := by
  have hu : ∀ u, IsUInt u → Digits u ∧ ∃ c cs, u = c :: cs ∧ 0x30 ≤ c := by
    rintro u (rfl | ⟨c, ds, rfl, hc, hd⟩)
    · exact ⟨by simp [Digits], 0x30, [], rfl, by omega⟩
    · refine ⟨?_, c, ds, rfl, by omega⟩
      intro x hx; simp only [List.mem_cons] at hx; rcases hx with rfl | hx
      · omega
      · exact hd x hx
  cases h with
  | integer hi =>
    rcases hi with hi | ⟨u, rfl, hi⟩
    · obtain ⟨hd, c, cs, rfl, hc⟩ := hu w hi
      have := parseDigits_eq (c :: cs) hd 0
      simp only [Nat.zero_mul, Nat.zero_add] at this
      have hv : intVal (c :: cs) = decVal (c :: cs) := by
        unfold intVal
        split
        · rename_i h; simp only [List.cons.injEq] at h; omega
        · rfl
      rw [hv]
      unfold parseInt
      simp only
      have hc45 : ¬ c = 45 := by omega
      simp [hc45, this]
    · obtain ⟨hd, _⟩ := hu u hi
      have := parseDigits_eq u hd 0
      simp only [Nat.zero_mul, Nat.zero_add] at this
      unfold parseInt intVal
      simp only
      rw [if_pos trivial, this]
      simp [BitVec.ofInt_neg]

/-- **C15.** An integer literal whose value fits in a signed 64-bit integer is read as that value. -/
theorem C15_int_exact (w : List Nat) (h : TokText .integer w) (h1 : -(2 ^ 63) ≤ intVal w) (h2 : intVal w < 2 ^ 63) :
    (parseInt w).toInt = intVal w := by
  rw [C15_int_mod w h, BitVec.toInt_ofInt]
  exact Int.bmod_eq_of_le (by omega) (by omega)

example : TokText .integer (bytes "-9223372036854775808") ∧ -(2 ^ 63) ≤ intVal (bytes "-9223372036854775808") ∧
    intVal (bytes "-9223372036854775808") < 2 ^ 63 :=
  ⟨.integer (Or.inr ⟨bytes "9223372036854775808", by decide, Or.inr ⟨0x39, bytes "223372036854775808", by decide, by simp,
    by unfold Digits; decide⟩⟩), by decide, by decide⟩

/-- Outside that range the literal is not rejected: it is read as another integer. -/
theorem C15_out_of_range_wraps : (parseInt (bytes "9223372036854775808")).toInt = -9223372036854775808 := by decide

/-! ### C16 -/

/-- **C16 (decoding).** The text of any sequence of spelled characters is decoded to exactly the bytes they denote. -/
theorem C16_decode (cs : List Ch) (hw : ∀ c ∈ cs, c.WF) : unescape (chText cs) = .ok (some (chBytes cs)) := by
  unfold unescape
  rcases split_plain cs hw with ⟨e1, e2⟩ | ⟨ps, c, r, e1, e2, e3, e4⟩
  · rw [e1, e2]
  · rw [e4]
    have ht : chText cs = chText ps ++ chText (c :: r) := by rw [e1, chText_append]
    simp only
    have hl : (chText cs).length = (chText ps).length + (chText (c :: r)).length := by rw [ht, List.length_append]
    rw [show (chText cs).drop (chText ps).length = chText (c :: r) by rw [ht, List.drop_left],
      show (chText cs).take (chText ps).length = chText ps by rw [ht, List.take_left]]
    rw [unescapeLoop_ch _ _ c r _ (hw c (by rw [e1]; simp)) e2 (fun x hx => hw x (by rw [e1]; simp [hx])) (by omega) (by omega)]
    rw [e1, chBytes_append, e3]

/-- `a\né😀"` spelled `a\n\u00e9\uD83D\ude00\"`. -/
def demoCh : List Ch :=
  [.plain 0x61, .esc 0x6E, .uni ⟨0x30, 0x30, 0x65, 0x39⟩, .pair ⟨0x44, 0x38, 0x33, 0x44⟩ ⟨0x64, 0x65, 0x30, 0x30⟩, .esc 0x22]

theorem demoCh_WF : ∀ c ∈ demoCh, c.WF := by
  intro c hc
  simp only [demoCh, List.mem_cons, List.not_mem_nil, or_false] at hc
  rcases hc with rfl | rfl | rfl | rfl | rfl <;> simp [Ch.WF, Hex4.WF, IsHex, Hex4.val, hexVal]

example : (∀ c ∈ demoCh, c.WF) ∧ chText demoCh = bytes "a\\n\\u00e9\\uD83D\\ude00\\\"" ∧
    chBytes demoCh = [0x61, 0x0A, 0xC3, 0xA9, 0xF0, 0x9F, 0x98, 0x80, 0x22] := ⟨demoCh_WF, by decide, by decide⟩

/-- **C16 (buffer).** On any bytes whatsoever decoding neither panics nor runs over its buffer: it returns an error, or
a result no longer than the input. -/
theorem C16_never_longer (inp : List Nat) :
    unescape inp = .ok none ∨ ∃ out, unescape inp = .ok (some out) ∧ out.length ≤ inp.length := by
  unfold unescape
  cases h : idxBackslash inp with
  | none => exact Or.inr ⟨inp, rfl, Nat.le_refl _⟩
  | some i =>
    have hi := (idxBackslash_some h).1
    have l1 : (inp.drop i).length = inp.length - i := List.length_drop
    have l2 : (inp.take i).length = i := by simp only [List.length_take]; omega
    rcases unescapeLoop_total inp.length (inp.length + 1) (inp.drop i) (inp.take i) (by omega) (by omega) with h | ⟨out, h, hl⟩
    · exact Or.inl h
    · exact Or.inr ⟨out, h, by omega⟩

theorem strBody_of_ch (cs : List Ch) (hw : ∀ c ∈ cs, c.WF) : StrBody (chText cs) (chHasEsc cs) := by
  induction cs with
  | nil => exact .nil
  | cons c cs ih =>
    have h := ih (fun c hc => hw c (by simp [hc]))
    have hc := hw c (by simp)
    rw [chText_cons]
    cases c with
    | plain x => exact .plain hc.1 hc.2.1 hc.2.2 h
    | esc x => exact .esc hc h
    | uni x => exact .uni hc.1.1 hc.1.2.1 hc.1.2.2.1 hc.1.2.2.2 h
    | pair hi lo =>
      exact .uni hc.1.1 hc.1.2.1 hc.1.2.2.1 hc.1.2.2.2 (.uni hc.2.1.1 hc.2.1.2.1 hc.2.1.2.2.1 hc.2.1.2.2.2 h)

/-- Text of the literal with its quotation marks. -/
def litText (cs : List Ch) : List Nat := 0x22 :: (chText cs ++ [0x22])

/-- Class of the literal. -/
def litTok (cs : List Ch) : Tok := if chHasEsc cs then .escString else .string

theorem litText_tok (cs : List Ch) (hw : ∀ c ∈ cs, c.WF) : TokText (litTok cs) (litText cs) := by
  have h := strBody_of_ch cs hw
  unfold litTok
  split
  · rename_i he; rw [he] at h; exact .escString h
  · rename_i he; rw [Bool.not_eq_true] at he; rw [he] at h; exact .string h

/-- How the matcher decodes a string token: `ParseString` or `ParseEscString` by class (fastlitparse.go:69-73,
fastMatcher.go:761-766). -/
def decodeStr (ty : Tok) (w : List Nat) : Res (List Nat) :=
  if ty = .escString then parseEscString w else parseString w

theorem chBytes_plain (cs : List Ch) (h : chHasEsc cs = false) : chBytes cs = chText cs := by
  induction cs with
  | nil => rfl
  | cons c cs ih =>
    cases c with
    | plain x => rw [chText_cons, chBytes_cons, ih h]; rfl
    | _ => simp [chHasEsc] at h

theorem strip_quotes (b : List Nat) : ((0x22 :: (b ++ [0x22])).drop 1).take ((0x22 :: (b ++ [0x22])).length - 2) = b := by
  simp

/-- **C16 (from the document).** Anywhere in a document, a literal spelling any sequence of characters is read as one
token, and the matcher decodes it to exactly the denoted bytes. -/
theorem C16_literal_in_document (cs : List Ch) (hw : ∀ c ∈ cs, c.WF) (pre ws post : List Nat) (hws : IsWs ws) :
    ∃ ty k', step ⟨pre ++ (ws ++ (litText cs ++ post)), pre.length⟩ = (some (ty, litText cs), k') ∧
      (ty = .string ∨ ty = .escString) ∧ decodeStr ty (litText cs) = .ok (chBytes cs) := by
  have ht := litText_tok cs hw
  have hty : litTok cs = .string ∨ litTok cs = .escString := by unfold litTok; split <;> simp
  refine ⟨litTok cs, _, C12_grammar_accepted pre ws (litText cs) post (litTok cs) hws ht ?_, hty, ?_⟩
  · apply follow_str <;> rcases hty with h | h <;> rw [h] <;> simp
  · unfold decodeStr litTok
    by_cases he : chHasEsc cs = true
    · simp only [he, if_true]
      unfold parseEscString litText
      rw [if_neg (by simp), strip_quotes, C16_decode cs hw, Res.bind_ok]
      rfl
    · rw [Bool.not_eq_true] at he
      simp only [he, Bool.false_eq_true, if_false, reduceCtorEq]
      unfold parseString litText
      rw [if_neg (by simp), strip_quotes, chBytes_plain cs he]

example : (∀ c ∈ demoCh, c.WF) ∧ IsWs (bytes "  ") := ⟨demoCh_WF, by simp [IsWs, bytes]⟩

/-- A key spelled in any way decodes to the bytes it denotes. -/
theorem decode_spelled (cs : List Ch) (hw : ∀ c ∈ cs, c.WF) : decodeStr (litTok cs) (litText cs) = .ok (chBytes cs) := by
  obtain ⟨ty, k', hs, hty, hd⟩ := C16_literal_in_document cs hw [] [] [] (by simp [IsWs])
  have := C12_token_in_grammar _ _ _ _ (by rcases hty with h | h <;> rw [h] <;> simp) hs
  rw [C12_class_unique _ _ _ (litText_tok cs hw) this]; exact hd

/-- **C40 (spellings).** Two spellings of the same key decode to the same bytes. -/
theorem C40_spelling_irrelevant (cs cs' : List Ch) (hw : ∀ c ∈ cs, c.WF) (hw' : ∀ c ∈ cs', c.WF)
    (h : chBytes cs = chBytes cs') : decodeStr (litTok cs) (litText cs) = decodeStr (litTok cs') (litText cs') := by
  rw [decode_spelled cs hw, decode_spelled cs' hw', h]

example : chBytes [.plain 0x61] = chBytes [.uni ⟨0x30, 0x30, 0x36, 0x31⟩] ∧ (Ch.uni ⟨0x30, 0x30, 0x36, 0x31⟩).WF := by
  refine ⟨by decide, ?_⟩
  simp [Ch.WF, Hex4.WF, IsHex, Hex4.val, hexVal]

/-! ### Unpaired surrogates (they denote no character) -/

/-- A literal with an unpaired surrogate is accepted by the tokenizer but read as the empty string, so it compares
equal to `""` and, as a key, addresses the empty name: `"\uD83D"`. -/
theorem C16_lone_surrogate_reads_empty :
    step ⟨bytes "\"\\uD83D\"", 0⟩ = (some (.escString, bytes "\"\\uD83D\""), ⟨bytes "\"\\uD83D\"", 8⟩) ∧
      parseEscString (bytes "\"\\uD83D\"") = .ok [] := by decide

/-- The two characters where the second escape should begin are not looked at: `\uD83D` followed by the six plain
characters `zzde00` is decoded as U+1F600, and the plain text is lost. -/
theorem C16_lone_surrogate_swallows_text :
    unescape (bytes "\\uD83Dzzde00") = .ok (some [0xF0, 0x9F, 0x98, 0x80]) := by decide

/-- Two low surrogates are accepted as a pair and decoded as U+FFFD. -/
theorem C16_low_low_pair : unescape (bytes "\\uDC00\\uDC00") = .ok (some [0xEF, 0xBF, 0xBD]) := by decide

end Verif.Lit
