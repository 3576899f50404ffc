import Verif.Token.Skip

/-!
# Properties C09–C14 (tokenizer, skipping)
-/

namespace Verif.Token

/-- Bytes of a literal string, for the examples. -/
def bytes (s : String) : List Nat := s.toList.map Char.toNat

/-! ### C09 -/

/-- **C09 (progress).** A successful step keeps the input, stays inside it, and moves strictly forward unless it
reports the end of the input. -/
theorem C09_step_progress (k k' : Tkn) (ty : Tok) (w : List Nat) (hk : k.pos ≤ k.data.length)
    (h : step k = (some (ty, w), k')) :
    k'.data = k.data ∧ k'.pos ≤ k.data.length ∧ (ty = .end_ ∨ k.pos < k'.pos) := by
  obtain ⟨hd, h⟩ := step_some h
  rcases h with ⟨rfl, _, _, h1, h2⟩ | ⟨ht, ws, post, _, _, hp, hle⟩
  · exact ⟨hd, by omega, Or.inl rfl⟩
  · have := List.length_pos_iff.2 ht.ne_nil
    exact ⟨hd, hle, Or.inr (by omega)⟩

example : (⟨bytes " [1]", 0⟩ : Tkn).pos ≤ (bytes " [1]").length ∧
    step ⟨bytes " [1]", 0⟩ = (some (.arrayStart, [0x5B]), ⟨bytes " [1]", 2⟩) := by decide

/-- **C09 (end).** The end is reported exactly when nothing but whitespace is left. -/
theorem C09_end_iff (k : Tkn) :
    (∃ w k', step k = (some (.end_, w), k')) ↔ IsWs (k.data.drop k.pos) := by
  constructor
  · rintro ⟨w, k', h⟩
    obtain ⟨_, h⟩ := step_some h
    rcases h with ⟨_, _, ⟨ws, hws, e⟩, _⟩ | ⟨ht, _⟩
    · rw [e]; exact hws
    · exact ht.not_end.elim
  · intro h
    obtain ⟨k', e, _⟩ := step_end rfl h
    exact ⟨_, _, e⟩

/-- **C09 (termination).** From any position, after at most as many tokens as there are bytes left, the next
step reports the end of the input or an error. -/
theorem C09_tokenizing_terminates (k : Tkn) :
    ∃ ts k', Reads k ts k' ∧ ts.length ≤ k.data.length - k.pos ∧ (∀ t ∈ ts, t.1 ≠ .end_) ∧
      ((step k').1 = none ∨ (step k').1 = some (.end_, [])) := by
  suffices H : ∀ n (k : Tkn), k.data.length - k.pos ≤ n → k.pos ≤ k.data.length →
      ∃ ts k', Reads k ts k' ∧ ts.length ≤ n ∧ (∀ t ∈ ts, t.1 ≠ .end_) ∧
        ((step k').1 = none ∨ (step k').1 = some (.end_, [])) by
    by_cases hk : k.pos ≤ k.data.length
    · exact H _ k (Nat.le_refl _) hk
    · refine ⟨[], k, rfl, by simp, by simp, Or.inr ?_⟩
      unfold step; rw [if_pos (by omega)]
  intro n
  induction n with
  | zero =>
    intro k h1 h2
    refine ⟨[], k, rfl, by simp, by simp, Or.inr ?_⟩
    unfold step; rw [if_pos (by omega)]
  | succ n ih =>
    intro k h1 h2
    rcases hs : step k with ⟨r, k1⟩
    cases r with
    | none => exact ⟨[], k, rfl, by simp, by simp, Or.inl (by rw [hs])⟩
    | some p =>
      obtain ⟨ty, w⟩ := p
      have hst := step_some hs
      rcases hst.2 with ⟨rfl, rfl, _⟩ | ⟨ht, _, _, _, _, hp, hle⟩
      · exact ⟨[], k, rfl, by simp, by simp, Or.inr (by rw [hs])⟩
      · have := List.length_pos_iff.2 ht.ne_nil
        obtain ⟨ts, k', e1, e2, e3, e4⟩ := ih k1 (by rw [hst.1]; omega) (by rw [hst.1]; exact hle)
        refine ⟨(ty, w) :: ts, k', ⟨k1, hs, e1⟩, by simp only [List.length_cons]; omega, ?_, e4⟩
        intro t hmem
        simp only [List.mem_cons] at hmem
        rcases hmem with rfl | hmem
        · intro he; simp only at he; subst he; exact ht.not_end
        · exact e3 t hmem

/-! ### C10 -/

/-- **C10.** The text of a token is a contiguous piece of the input that ends at the new position, preceded only by
whitespace since the old position. -/
theorem C10_token_text_exact (k k' : Tkn) (ty : Tok) (w : List Nat) (hty : ty ≠ .end_)
    (h : step k = (some (ty, w), k')) :
    w ≠ [] ∧ ∃ ws, IsWs ws ∧ k'.pos = k.pos + ws.length + w.length ∧
      k.data.drop k.pos = ws ++ (w ++ k.data.drop k'.pos) := by
  obtain ⟨hd, h⟩ := step_some h
  rcases h with ⟨rfl, _⟩ | ⟨ht, ws, post, hws, e, hp, _⟩
  · exact absurd rfl hty
  · refine ⟨ht.ne_nil, ws, hws, hp, ?_⟩
    rw [hp, drop_tok e]; exact e

example : (Tok.integer ≠ .end_) ∧ step ⟨bytes "[ 12 ]", 1⟩ = (some (.integer, bytes "12"), ⟨bytes "[ 12 ]", 4⟩) := by
  decide

/-! ### C11 -/

/-- **C11.** A failing step leaves the tokenizer as it was; it fails again in the same way. -/
theorem C11_error_does_not_consume (k k' : Tkn) (h : step k = (none, k')) : k' = k ∧ step k' = (none, k') := by
  have : k' = k := by
    unfold step at h
    split at h
    · simp at h
    · split at h
      · simp at h; exact h.symm
      · simp at h
  rw [this] at h ⊢
  exact ⟨rfl, h⟩

example : step ⟨bytes "[tru]", 1⟩ = (none, ⟨bytes "[tru]", 1⟩) := by decide

/-! ### C12 -/

/-- **C12 (soundness).** Every token other than the end has a text derived by the grammar rule of its class. -/
theorem C12_token_in_grammar (k k' : Tkn) (ty : Tok) (w : List Nat) (hty : ty ≠ .end_)
    (h : step k = (some (ty, w), k')) : TokText ty w := by
  obtain ⟨_, h⟩ := step_some h
  rcases h with ⟨rfl, _⟩ | ⟨ht, _⟩
  · exact absurd rfl hty
  · exact ht

/-- **C12 (completeness).** Every text of the grammar, after any whitespace and followed by a text that cannot
continue it, is read as one token of its class. -/
theorem C12_grammar_accepted (pre ws w post : List Nat) (ty : Tok) (hws : IsWs ws) (ht : TokText ty w)
    (hf : Follow ty post) :
    step ⟨pre ++ (ws ++ (w ++ post)), pre.length⟩ =
      (some (ty, w), ⟨pre ++ (ws ++ (w ++ post)), pre.length + ws.length + w.length⟩) :=
  step_tok (by simp) hws ht hf

example : IsWs (bytes " \n") ∧ TokText .number (bytes "-0.5e+3") ∧ Follow .number (bytes "]x") := by
  refine ⟨by simp [IsWs, bytes], ?_, by simp [Follow, bytes]⟩
  exact TokText.number (i := bytes "-0") (f := bytes ".5") (x := bytes "e+3")
    (Or.inr ⟨[0x30], by decide, Or.inl rfl⟩) (Or.inr ⟨[0x35], by decide, by simp, by simp [Digits]⟩)
    (Or.inr ⟨0x65, [0x2B], [0x33], by decide, Or.inl rfl, Or.inr (Or.inl rfl), by simp, by simp [Digits]⟩)
    (by decide)

/-- **C12.** The class of a text is determined by the text. -/
theorem C12_class_unique (ty ty' : Tok) (w : List Nat) (h : TokText ty w) (h' : TokText ty' w) : ty = ty' := by
  have a := scan_accepts h (rest := []) (by intro _; simp) 0
  have b := scan_accepts h' (rest := []) (by intro _; simp) 0
  rw [a] at b
  simp at b
  exact b

/-- **C12.** An error means that no prefix of the rest is whitespace followed by a complete token. -/
theorem C12_error_means_no_token (k k' : Tkn) (h : step k = (none, k')) (ws w post : List Nat) (ty : Tok)
    (hws : IsWs ws) (ht : TokText ty w) (hf : Follow ty post) : k.data.drop k.pos ≠ ws ++ (w ++ post) := by
  intro e
  rw [step_tok e hws ht hf] at h
  simp at h

theorem StrBody.no_ctl {b : List Nat} {e : Bool} (h : StrBody b e) : ∀ c ∈ b, 0x20 ≤ c := by
  induction h with
  | nil => simp
  | plain h1 h2 h3 h ih =>
    intro x hx; simp only [List.mem_cons] at hx; rcases hx with rfl | hx
    · exact h1
    · exact ih x hx
  | esc h1 h ih =>
    intro x hx; simp only [List.mem_cons] at hx; rcases hx with rfl | rfl | hx
    · omega
    · unfold EscChar at h1; omega
    · exact ih x hx
  | uni ha hb hc hd h ih =>
    intro x hx; simp only [List.mem_cons] at hx
    unfold Hex at ha hb hc hd
    rcases hx with rfl | rfl | rfl | rfl | rfl | rfl | hx
    all_goals first | omega | exact ih x hx

theorem StrBody.no_esc {b : List Nat} {e : Bool} (h : StrBody b e) : e = false → ∀ c ∈ b, c ≠ 0x22 ∧ c ≠ 0x5C := by
  induction h with
  | nil => simp
  | plain h1 h2 h3 h ih =>
    intro he x hx; simp only [List.mem_cons] at hx; rcases hx with rfl | hx
    · exact ⟨h2, h3⟩
    · exact ih he x hx
  | esc _ _ _ => simp
  | uni _ _ _ _ _ _ => simp

/-- **C12 (plain strings).** A token read as a plain string is quoted, and between the quotation marks there is no
backslash, quotation mark or control character. -/
theorem C12_plain_string (k k' : Tkn) (w : List Nat) (h : step k = (some (.string, w), k')) :
    ∃ b, w = 0x22 :: (b ++ [0x22]) ∧ ∀ c ∈ b, c ≠ 0x22 ∧ c ≠ 0x5C ∧ 0x20 ≤ c := by
  have := C12_token_in_grammar k k' _ w (by simp) h
  cases this with
  | string hb => exact ⟨_, rfl, fun c hc => ⟨(hb.no_esc rfl c hc).1, (hb.no_esc rfl c hc).2, hb.no_ctl c hc⟩⟩

example : step ⟨bytes "{\"a b\":1}", 1⟩ = (some (.string, bytes "\"a b\""), ⟨bytes "{\"a b\":1}", 6⟩) := by decide

/-- **C12 (integers).** A token read as an integer is an optional minus sign and digits without leading zero: it has
no fraction and no exponent. -/
theorem C12_integer (k k' : Tkn) (w : List Nat) (h : step k = (some (.integer, w), k')) :
    ∃ sg ds, w = sg ++ ds ∧ (sg = [] ∨ sg = [0x2D]) ∧ ds ≠ [] ∧ Digits ds ∧ (ds.head? = some 0x30 → ds = [0x30]) := by
  have hu : ∀ u, IsUInt u → u ≠ [] ∧ Digits u ∧ (u.head? = some 0x30 → u = [0x30]) := by
    rintro u (rfl | ⟨c, ds, rfl, hc, hd⟩)
    · simp [Digits]
    · refine ⟨by simp, ?_, by simp; omega⟩
      intro x hx; simp only [List.mem_cons] at hx; rcases hx with rfl | hx
      · omega
      · exact hd x hx
  have := C12_token_in_grammar k k' _ w (by simp) h
  cases this with
  | integer hi =>
    rcases hi with hi | ⟨u, rfl, hi⟩
    · exact ⟨[], w, rfl, Or.inl rfl, hu w hi⟩
    · exact ⟨[0x2D], u, rfl, Or.inr rfl, hu u hi⟩

example : step ⟨bytes "-10,", 0⟩ = (some (.integer, bytes "-10"), ⟨bytes "-10,", 3⟩) := by decide

/-! ### C13 -/

/-- **C13.** Stepping through the text of a document with any layout yields exactly its tokens, then the end. -/
theorem C13_tokens_of_document (d : D) (hd : d.WF) (ws ws' : List Nat) (hws : IsWs ws) (hws' : IsWs ws') :
    ∃ k1 k2, Reads ⟨ws ++ (d.text ++ ws'), 0⟩ d.toks k1 ∧ step k1 = (some (.end_, []), k2) := by
  have hf : d.Follows ws' := by
    cases d with
    | lit ty w => exact follow_of_isWs hws'
    | _ => trivial
  have h := reads_D d hd ⟨ws ++ (d.text ++ ws'), 0⟩ ws ws' hws hf rfl
  obtain ⟨k2, e, _⟩ := step_end (k := ⟨ws ++ (d.text ++ ws'), 0 + ws.length + d.text.length⟩) (ws := ws')
    (drop_tok (pos := 0) rfl) hws'
  exact ⟨_, k2, h, e⟩

/-- **C13 (in context).** The same with any text before and after the document. -/
theorem C13_tokens_in_context (d : D) (hd : d.WF) (pre ws post : List Nat) (hws : IsWs ws) (hf : d.Follows post) :
    Reads ⟨pre ++ (ws ++ (d.text ++ post)), pre.length⟩ d.toks
      ⟨pre ++ (ws ++ (d.text ++ post)), pre.length + ws.length + d.text.length⟩ :=
  reads_D d hd ⟨_, pre.length⟩ ws post hws hf (by simp)

/-- A document with layout: `{ "a" :[1 ,-2.5],"\n":null}`. -/
def demoD : D :=
  .obj [0x20] (.cons .string (bytes "\"a\"") [0x20] []
    (.arr [] (.cons (.lit .integer [0x31]) [0x20] [] (.cons (.lit .number (bytes "-2.5")) [] [] .nil))) [] []
    (.cons .escString (bytes "\"\\n\"") [] [] (.lit .null (bytes "null")) [] [] .nil))

theorem demoD_text : demoD.text = bytes "{ \"a\" :[1 ,-2.5],\"\\n\":null}" := by decide

theorem demoD_WF : demoD.WF := by
  simp only [demoD, D.WF, Ms.WF, Es.WF, scalar_iff, Tok.isLiteral]
  refine ⟨by simp [IsWs], by simp, ?_, by simp [IsWs], by simp [IsWs], ⟨by simp [IsWs], ⟨trivial, ?_⟩, by simp [IsWs], by simp [IsWs],
    ⟨trivial, ?_⟩, by simp [IsWs], by simp [IsWs], trivial⟩, by simp [IsWs], by simp [IsWs], by simp, ?_, by simp [IsWs], by simp [IsWs],
    ⟨trivial, ?_⟩, by simp [IsWs], by simp [IsWs], trivial⟩
  · exact TokText.string (b := [0x61]) (.plain (by simp) (by simp) (by simp) .nil)
  · exact .integer (Or.inl (Or.inr ⟨0x31, [], rfl, by simp, by simp [Digits]⟩))
  · exact TokText.number (i := bytes "-2") (f := bytes ".5") (x := [])
      (Or.inr ⟨[0x32], by decide, Or.inr ⟨0x32, [], rfl, by simp, by simp [Digits]⟩⟩)
      (Or.inr ⟨[0x35], by decide, by simp, by simp [Digits]⟩) (Or.inl rfl) (by decide)
  · exact TokText.escString (b := [0x5C, 0x6E]) (.esc (by simp [EscChar]) .nil)
  · exact .null

example : demoD.WF ∧ IsWs [0x0A] ∧ demoD.Follows (bytes "xyz") ∧ demoD.toks.length = 13 :=
  ⟨demoD_WF, by simp [IsWs], trivial, by decide⟩

/-! ### C14 -/

/-- **C14.** When the first token of a value has been read, skipping the value stops exactly at its end, whatever
comes before and after. -/
theorem C14_skip_exact (d : D) (hd : d.WF) (pre ws post : List Nat) (hws : IsWs ws) (hf : d.Follows post) :
    ∃ ty w k1, step ⟨pre ++ (ws ++ (d.text ++ post)), pre.length⟩ = (some (ty, w), k1) ∧
      skipValue ty k1 = .ok (false, ⟨pre ++ (ws ++ (d.text ++ post)), pre.length + ws.length + d.text.length⟩) := by
  have h := C13_tokens_in_context d hd pre ws post hws hf
  cases d with
  | lit ty w =>
    obtain ⟨k1, e, h⟩ := h
    refine ⟨ty, w, k1, e, ?_⟩
    have h' : (⟨pre ++ (ws ++ (D.text (.lit ty w) ++ post)), pre.length + ws.length + (D.text (.lit ty w)).length⟩ : Tkn) = k1 := h
    rw [h']
    have := hd.1
    cases ty <;> simp [Tok.isLiteral] at this <;> rfl
  | arr ws' es =>
    rw [D.toks] at h
    obtain ⟨k1, e, h⟩ := h
    refine ⟨_, _, k1, e, ?_⟩
    have hp := C09_step_progress _ _ _ _ (by simp) e
    exact leave_of_reads (by rw [hp.1]; exact hp.2.1) (es.closes hd.2) h
  | obj ws' ms =>
    rw [D.toks] at h
    obtain ⟨k1, e, h⟩ := h
    refine ⟨_, _, k1, e, ?_⟩
    have hp := C09_step_progress _ _ _ _ (by simp) e
    exact leave_of_reads (by rw [hp.1]; exact hp.2.1) (ms.closes hd.2) h

example : demoD.WF ∧ IsWs [] ∧ demoD.Follows (bytes "]]}garbage") := ⟨demoD_WF, by simp [IsWs], trivial⟩

/-- **C14.** Leaving a container always finishes, on any input whatsoever: it returns (with or without an error) or
panics at the end of the input. -/
theorem C14_leave_never_stuck (k : Tkn) (hk : k.pos ≤ k.data.length) : leaveValue k ≠ .stuck :=
  leaveLoop_total _ 0 k (by omega) hk

/-- **C14 (truncated input).** Leaving a container whose closing bracket is missing panics (it does not return an
error): `[1` from behind the bracket. -/
theorem C14_truncated_container_panics : skipValue .arrayStart ⟨bytes "[1", 1⟩ = .panic := by decide

/-- The states the scanner can be in: it starts in `toksBeginValue` (jsontokenizer.go:140) and follows its transitions. -/
inductive Reached : TS → Prop
  | start : Reached .beginValue
  | next {s s' : TS} {c : Nat} : Reached s → act s c = .cont s' → Reached s'

/-- C10: no byte leads back to the beginning of a value, so of the four states that begin a token only `toksBeginValue` is ever entered: the
cases of jsontokenizer.go:168-178 and 231-251 are dead code, and a key is scanned like any other value. -/
theorem C10_unreached {s : TS} (h : Reached s) : s ≠ .beginValueOrEmpty ∧ s ≠ .beginStringOrEmpty ∧ s ≠ .beginString := by
  let fine : Act → Prop := fun a => ∀ s', a = .cont s' → s' ≠ .beginValueOrEmpty ∧ s' ≠ .beginStringOrEmpty ∧ s' ≠ .beginString
  have ite_fine : ∀ {p : Prop} [Decidable p] {a b : Act}, fine a → fine b → fine (if p then a else b) := by
    intro p _ a b ha hb; by_cases hp : p
    · rw [if_pos hp]; exact ha
    · rw [if_neg hp]; exact hb
  have key : ∀ (s : TS) (c : Nat), fine (act s c) := by
    intro s c
    cases s <;> simp only [act, actBeginValue, actBeginString, act0] <;> repeat' apply ite_fine
    all_goals (intro s' e; cases e <;> simp)
  cases h with
  | start => simp
  | next _ h => exact key _ _ _ h

/-- The scanner does leave its first state: a quotation mark leads into a string. -/
example : Reached .inString ∧ TS.inString ≠ .beginString :=
  ⟨.next (c := 34) .start (by decide), (C10_unreached (.next (c := 34) .start (by decide))).2.2⟩

end Verif.Token
