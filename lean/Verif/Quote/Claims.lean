import Verif.Quote.Decode
import Verif.Slow.Theorems
import Verif.FastVal.BinaryExt
import Verif.Transform.Values

/-!
# How strings compare (C74)
-/

namespace Verif.Quote

open Verif.Lit (utf8 litTok litText chBytes Ch)
open Verif.FastVal
open Verif.Expr
open Verif.Transform
open Verif.Match
open Verif.Token (D Ms Tok)

variable {E : Ext}

/-- The bytes of a string of code points. -/
def bytes (cs : List Nat) : List Nat := (cs.map utf8).flatten

theorem cmp_quote_zero (tab : Nat → Bool) (s t : List Nat) : cmpBytes (appendQuote tab s) (appendQuote tab t) = 0 ↔ s = t := by
  refine ⟨fun h => appendQuote_inj tab (cmp_zero h), ?_⟩
  rintro rfl
  have := cmp_prefix (appendQuote tab s) [] []
  rw [List.append_nil] at this
  rw [this]; rfl

/-- **C74.** A string of a document and a string constant are equal exactly if they consist of the same bytes, valid UTF-8 or not. -/
theorem C74_equal {tab : Nat → Bool} (hq : E.quote = appendQuote tab) (s t : List Nat) :
    ∃ n, compare (E := E) ⟨(DocV.str s).data, false⟩ ⟨(ConV.str (E.quote t)).data, true⟩ = (n, true) ∧ (n = 0 ↔ s = t) := by
  rw [C45_constant, hq]
  refine ⟨_, rfl, ?_⟩
  rw [hq, show ∀ x : Int, -x = 0 ↔ x = 0 by omega, cmp_quote_zero]
  exact eq_comm

/-- **C74.** Likewise two strings of documents. -/
theorem C74_equal_document {tab : Nat → Bool} (hq : E.quote = appendQuote tab) (s t : List Nat) :
    ∃ n, compare (E := E) ⟨(DocV.str s).data, false⟩ ⟨(DocV.str t).data, false⟩ = (n, true) ∧ (n = 0 ↔ s = t) := by
  rw [C45_document]
  refine ⟨_, rfl, ?_⟩
  rw [hq, cmp_quote_zero]

/-- **C74.** The order of a string of a document and a string constant: lexicographic, the characters ordered by `place`. -/
theorem C74_order {tab : Nat → Bool} (hq : E.quote = appendQuote tab) (cs ds : List Nat) (hc : ∀ c ∈ cs, Scalar c)
    (hd : ∀ d ∈ ds, Scalar d) :
    compare (E := E) ⟨(DocV.str (bytes cs)).data, false⟩ ⟨(ConV.str (E.quote (bytes ds))).data, true⟩ = (lexBy (place tab) cs ds, true) := by
  rw [C45_constant]
  show (- cmpBytes (E.quote (bytes ds)) (E.quote (bytes cs)), true) = _
  rw [← cmp_flip, hq]
  exact congrArg (·, true) (cmp_quote tab cs ds hc hd)

/-- **C74.** Likewise two strings of documents. -/
theorem C74_order_document {tab : Nat → Bool} (hq : E.quote = appendQuote tab) (cs ds : List Nat) (hc : ∀ c ∈ cs, Scalar c)
    (hd : ∀ d ∈ ds, Scalar d) :
    compare (E := E) ⟨(DocV.str (bytes cs)).data, false⟩ ⟨(DocV.str (bytes ds)).data, false⟩ = (lexBy (place tab) cs ds, true) := by
  rw [C45_document]
  show (cmpBytes (E.quote (bytes cs)) (E.quote (bytes ds)), true) = _
  rw [hq]
  exact congrArg (·, true) (cmp_quote tab cs ds hc hd)

theorem lexBy_plain (tab : Nat → Bool) : ∀ (cs ds : List Nat), (∀ c ∈ cs, ¬ Escaped tab c) → (∀ d ∈ ds, ¬ Escaped tab d) →
    lexBy (place tab) cs ds = lexBy id cs ds
  | [], [], _, _ => rfl
  | [], _ :: _, _, _ => rfl
  | _ :: _, [], _, _ => rfl
  | c :: cs, d :: ds, hc, hd => by
    have ih := lexBy_plain tab cs ds (fun z hz => hc z (by simp [hz])) (fun z hz => hd z (by simp [hz]))
    have h1 : place tab c = c * 2 ^ 40 := if_neg (hc c (by simp))
    have h2 : place tab d = d * 2 ^ 40 := if_neg (hd d (by simp))
    simp only [lexBy, ih, id, h1, h2]
    by_cases h3 : c < d
    · rw [if_pos h3, if_pos (by omega)]
    · rw [if_neg h3, if_neg (by omega)]
      by_cases h4 : d < c
      · rw [if_pos h4, if_pos (by omega)]
      · rw [if_neg h4, if_neg (by omega)]

/-- C74, for strings without quotation marks, backslashes and characters that are not printable: the order is that of the code
points, and of the bytes.  (Missing: the other strings, for which it is false, see `C74_negation`, and given by `C74_order`.) -/
theorem C74_partial {tab : Nat → Bool} (hq : E.quote = appendQuote tab) (cs ds : List Nat) (hc : ∀ c ∈ cs, Scalar c ∧ ¬ Escaped tab c)
    (hd : ∀ d ∈ ds, Scalar d ∧ ¬ Escaped tab d) :
    compare (E := E) ⟨(DocV.str (bytes cs)).data, false⟩ ⟨(ConV.str (E.quote (bytes ds))).data, true⟩ = (lexBy id cs ds, true) ∧
    lexBy id cs ds = lexBy id (bytes cs) (bytes ds) := by
  have hb : ∀ x y : List Nat, lexBy id x y = cmpBytes x y := by
    intro x
    induction x with
    | nil => intro y; cases y <;> rfl
    | cons a x ih => intro y; cases y with
      | nil => rfl
      | cons b y => simp only [lexBy, cmpBytes, ih, id]
  refine ⟨?_, ?_⟩
  · rw [C74_order hq cs ds (fun c h => (hc c h).1) (fun d h => (hd d h).1),
      lexBy_plain tab cs ds (fun c h => (hc c h).2) (fun d h => (hd d h).2)]
  · rw [hb (bytes cs), bytes, bytes, cmp_utf8 cs ds (fun c h => (hc c h).1) (fun d h => (hd d h).1)]

/-- The full statement of C74 is false: a line feed orders above `A`, and so does a quotation mark. -/
theorem C74_negation {tab : Nat → Bool} (hq : E.quote = appendQuote tab) :
    compare (E := E) ⟨(DocV.str [10]).data, false⟩ ⟨(ConV.str (E.quote [65])).data, true⟩ = (1, true) ∧
    compare (E := E) ⟨(DocV.str [34]).data, false⟩ ⟨(ConV.str (E.quote [65])).data, true⟩ = (1, true) ∧
    lexBy id [10] [65] = -1 ∧ lexBy id [34] [65] = -1 := by
  have h1 := C74_order hq [10] [65] (by simp [Scalar]) (by simp [Scalar])
  have h2 := C74_order hq [34] [65] (by simp [Scalar]) (by simp [Scalar])
  have e1 : lexBy (place tab) [10] [65] = 1 := by
    have h1 : Escaped tab 10 := by simp [Escaped]
    have h2 : ¬ Escaped tab 65 := by simp [Escaped]
    simp [lexBy, place, if_pos h1, if_neg h2, letter]
  have e2 : lexBy (place tab) [34] [65] = 1 := by
    have h1 : Escaped tab 34 := by simp [Escaped]
    have h2 : ¬ Escaped tab 65 := by simp [Escaped]
    simp [lexBy, place, if_pos h1, if_neg h2, letter]
  exact ⟨h1.trans (by rw [e1]), h2.trans (by rw [e2]), by decide, by decide⟩

/-- **C74.** The whole matcher, for a field compared with a string constant by `=`: a string of the document, however it is spelled,
matches exactly if it denotes the same bytes. -/
theorem C74_match {tab : Nat → Bool} (hq : E.quote = appendQuote tab) (X : Fns E) (C : Comp E) (slot0 : Nat) (p : Path)
    (t : List Nat) {data : List Nat} {r : D} (hr : Begins data r) (cs : List Ch) (hcs : ∀ c ∈ cs, c.WF) (l : List D)
    (hw : walk p r = .lit (litTok cs) (litText cs) :: l) (hne : ∀ x ∈ walk p r, ¬ EmptyArr x) :
    ∃ df, transform C slot0 [.cmp .eq (.field ⟨0, p⟩) (.value (.json (.str t)))] = .ok df ∧ ∀ m, Ready df m →
      ∃ m', run X df m data = .ok (some (decide (chBytes cs = t)), m') := by
  obtain ⟨df, h1, h2⟩ := C48_match X C slot0 (c := .eq) (by decide) p (g := .json (.str t)) (k := .str (E.quote t)) rfl hr hne
  refine ⟨df, h1, fun m hm => ?_⟩
  obtain ⟨m', h⟩ := (h2 m hm).2 _ _ _ hw (.str cs hcs)
  refine ⟨m', h.trans ?_⟩
  obtain ⟨n, hn, h0⟩ := C74_equal hq (chBytes cs) t
  rw [C45_constant] at hn
  rw [hn]
  simp only [outcome, Bool.true_and, h0]

theorem appendQuote_plain (tab : Nat → Bool) (cs : List Nat) (hc : ∀ c ∈ cs, Scalar c ∧ ¬ Escaped tab c) :
    appendQuote tab (bytes cs) = bytes cs := by
  unfold appendQuote bytes
  rw [quoteLoop_utf8 tab cs _ (fun c h => (hc c h).1) (Nat.le_refl _)]
  exact congrArg List.flatten (List.map_congr_left fun c h => plain_text (hc c h).1 (hc c h).2)

/-- **C74.** A pattern is matched with the string itself, if no character of it is written with a backslash, and with the text where
these characters are replaced otherwise. -/
theorem C74_pattern {tab : Nat → Bool} (hq : E.quote = appendQuote tab) (X : Fns E) (C : Comp E) (f : Field) {s : List Nat} {r : E.R}
    (hr : C.regexp s = some r) (cs : List Ch) (hcs : ∀ c ∈ cs, c.WF) (ds : List Nat) (hd : ∀ d ∈ ds, Scalar d) (he : chBytes cs = bytes ds) :
    condHolds X C .like (.field f) (.regex (.json (.str s))) (.lit (litTok cs) (litText cs)) =
      E.reMatch r (ds.map fun d => if Escaped tab d then 92 :: letter d :: rest d else utf8 d).flatten := by
  refine (C48_pattern X C f hr (.str cs hcs)).trans ?_
  show E.reMatch r (E.quote (chBytes cs)) = _
  rw [hq, he]
  unfold appendQuote bytes
  rw [quoteLoop_utf8 tab ds _ hd (Nat.le_refl _)]
  congr 2
  refine List.map_congr_left fun d h => ?_
  split
  · next e => exact escaped_text e
  · next e => exact plain_text (hd d h) e

example : chBytes spellA = bytes [97] ∧ Scalar 97 ∧ ¬ Escaped (fun _ => false) 97 := by decide

/-- The laws assumed of `strconv.AppendQuote` elsewhere (C35) hold of the model. -/
theorem quoteLaws {tab : Nat → Bool} (hq : E.quote = appendQuote tab) : Slow.QuoteLaws E where
  plain s hs := by
    have h : ∀ l : List Nat, (∀ b ∈ l, 0x20 ≤ b ∧ b < 0x7F ∧ b ≠ 0x22 ∧ b ≠ 0x5C) →
        (l.map utf8).flatten = l ∧ (l.map (escapedRune tab)).flatten = l := by
      intro l
      induction l with
      | nil => exact fun _ => ⟨rfl, rfl⟩
      | cons b l ih =>
        intro hl
        have hb := hl b (by simp)
        obtain ⟨i1, i2⟩ := ih (fun c hc => hl c (by simp [hc]))
        have hu : utf8 b = [b] := if_pos (by omega)
        have he : escapedRune tab b = [b] := by
          rw [plain_text (.inl (by omega)) (by unfold Escaped; omega), hu]
        simp only [List.map_cons, List.flatten_cons, i1, i2, hu, he]
        exact ⟨rfl, rfl⟩
    obtain ⟨h1, h2⟩ := h s hs
    rw [hq]
    have := quoteLoop_utf8 tab s (s.map utf8).flatten.length (fun c hc => .inl (by have := hs c hc; omega)) (Nat.le_refl _)
    rw [h1, h2] at this
    exact this
  inj s t h := appendQuote_inj tab (by rw [hq] at h; exact h)

/-! ### Examples -/

/-- The binary64 model with quoted texts, where everything from U+00A1 on is taken to be printable. -/
def extQ : Ext := { ext64 with quote := appendQuote fun c => decide (0xA1 ≤ c) }

example : extQ.quote = appendQuote fun c => decide (0xA1 ≤ c) := rfl

/-- `é` (U+00E9) and the character U+1F600 are written as they are, U+0085 and bytes that are not UTF-8 as escapes. -/
example : bytes [0x61, 0xE9, 0x1F600] = [0x61, 0xC3, 0xA9, 0xF0, 0x9F, 0x98, 0x80] ∧
    extQ.quote [0x61, 0xC3, 0xA9, 0xF0, 0x9F, 0x98, 0x80] = [0x61, 0xC3, 0xA9, 0xF0, 0x9F, 0x98, 0x80] ∧
    extQ.quote [0xC2, 0x85, 0xFF, 10, 1] = [92, 117, 48, 48, 56, 53, 92, 120, 102, 102, 92, 110, 92, 120, 48, 49] := by
  decide +kernel

example : ∀ c ∈ [0x61, 0xE9, 0x1F600], Scalar c ∧ ¬ Escaped (fun c => decide (0xA1 ≤ c)) c := by decide

example : compare (E := extQ) ⟨(DocV.str (bytes [0x61, 0xE9])).data, false⟩ ⟨(ConV.str (extQ.quote (bytes [0x61, 0x7A]))).data, true⟩ = (1, true) :=
  (C74_partial (E := extQ) rfl [0x61, 0xE9] [0x61, 0x7A] (by decide) (by decide)).1

/-- `$doc.a = "a"` on `{"a":"\\u0061"}`. -/
def docS : D := .obj [] (.cons .string [34, 97, 34] [] [] (.lit (litTok spellA) (litText spellA)) [] [] .nil)
def textS : List Nat := [123, 34, 97, 34, 58, 34, 92, 117, 48, 48, 54, 49, 34, 125]

theorem docS_text : Begins textS docS := by
  refine ⟨?_, [], [], by simp [Token.IsWs], trivial, rfl⟩
  have := Lit.litText_tok spellA spellA_WF
  have hs : litTok spellA = .escString := by decide
  simp only [docS, D.WF, Ms.WF]
  rw [hs] at this ⊢
  simp [this, Token.IsWs, text_a, Tok.isLiteral]

example : ∃ df, transform (E := extQ) ⟨fun _ => some (), fun _ => none⟩ 0 [.cmp .eq (.field ⟨0, [[97]]⟩) (.value (.json (.str [97])))] = .ok df ∧
    ∀ m, Ready df m → ∃ m', run (E := extQ) ⟨fun _ x => x, fun _ x _ => x, extQ.one, extQ.one, extQ.one, fun _ => none⟩ df m textS = .ok (some true, m') := by
  have hw : walk [[97]] docS = [.lit (litTok spellA) (litText spellA)] := by rfl
  exact C74_match (E := extQ) rfl _ _ 0 [[97]] [97] docS_text spellA spellA_WF [] hw
    (by rw [hw]; intro x hx; rw [List.mem_singleton] at hx; subst hx; exact fun h => h)

end Verif.Quote
