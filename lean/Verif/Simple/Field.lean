import Verif.Simple.Fuel

/-!
# Field names

The names that the parser reads as they are meant: parts joined by dots, each plain or between backticks, followed by indices.
-/

namespace Verif.Simple
open Verif.FastVal Verif.Expr

/-- A part of a name: plain text or text between backticks. -/
inductive Part where
  | plain (s : Str)
  | tick (s : Str)

def Part.text : Part → Str
  | .plain s => s
  | .tick s => 96 :: s ++ [96]

def Part.name : Part → Str
  | .plain s => s
  | .tick s => s

/-- Plain parts have no dot, bracket or backtick, quoted ones no backtick; neither is empty. -/
def Part.Ok : Part → Prop
  | .plain s => s ≠ [] ∧ ∀ b ∈ s, b ≠ 46 ∧ b ≠ 96 ∧ b ≠ 91
  | .tick s => s ≠ [] ∧ ∀ b ∈ s, b ≠ 96

def partsText : List Part → Str
  | [] => []
  | [p] => p.text
  | p :: r => p.text ++ 46 :: partsText r

/-- An index in brackets. -/
def idxText (s : Str) : Str := 91 :: s ++ [93]

/-- Digits of which the first is not 0. -/
def IdxOk (s : Str) : Prop := ∃ d r, s = d :: r ∧ 49 ≤ d ∧ d ≤ 57 ∧ ∀ b ∈ r, 48 ≤ b ∧ b ≤ 57

/-- A field name: parts and indices. -/
structure Name where
  parts : List Part
  idxs : List Str

def Name.text (n : Name) : Str := partsText n.parts ++ n.idxs.flatMap idxText

/-- The path meant. -/
def Name.path (n : Name) : List Str := n.parts.map Part.name ++ n.idxs.map idxText

def Name.Ok (n : Name) : Prop := n.parts ≠ [] ∧ (∀ p ∈ n.parts, p.Ok) ∧ ∀ s ∈ n.idxs, IdxOk s

/-- The parts when the text ends here. -/
def FS.eff (s : FS) : List Str := if s.skip then s.out else s.out ++ [s.cur]

theorem fieldChars_plain : ∀ (s r : Str) (st : FS), st.mode = .none → (∀ b ∈ s, b ≠ 46 ∧ b ≠ 96 ∧ b ≠ 91) →
    fieldChars (s ++ r) st = fieldChars r { st with cur := st.cur ++ s } := by
  intro s
  induction s with
  | nil => intro r st _ _; simp
  | cons c s ih =>
    intro r st hm hs
    obtain ⟨h1, h2, h3⟩ := hs c (by simp)
    rw [List.cons_append, fieldChars]
    have : fieldChar c (s ++ r).head? st = some { st with cur := st.cur ++ [c] } := by
      simp [fieldChar, hm, h1, h2, h3]
    rw [this]
    dsimp only
    rw [ih r { st with cur := st.cur ++ [c] } hm (fun b hb => hs b (by simp [hb]))]
    simp

theorem fieldChars_ticked : ∀ (s r : Str) (st : FS), st.mode = .tick → (∀ b ∈ s, b ≠ 96) →
    fieldChars (s ++ r) st = fieldChars r { st with cur := st.cur ++ s } := by
  intro s
  induction s with
  | nil => intro r st _ _; simp
  | cons c s ih =>
    intro r st hm hs
    have h1 := hs c (by simp)
    rw [List.cons_append, fieldChars]
    have : fieldChar c (s ++ r).head? st = some { st with cur := st.cur ++ [c] } := by
      simp [fieldChar, hm, h1]
    rw [this]
    dsimp only
    rw [ih r { st with cur := st.cur ++ [c] } hm (fun b hb => hs b (by simp [hb]))]
    simp

theorem fieldChars_digits : ∀ (s r : Str) (st : FS), st.mode = .nest → 2 ≤ st.cur.length → (∀ b ∈ s, 48 ≤ b ∧ b ≤ 57) →
    fieldChars (s ++ r) st = fieldChars r { st with cur := st.cur ++ s } := by
  intro s
  induction s with
  | nil => intro r st _ _ _; simp
  | cons c s ih =>
    intro r st hm hl hs
    have h1 := hs c (by simp)
    rw [List.cons_append, fieldChars]
    have : fieldChar c (s ++ r).head? st = some { st with cur := st.cur ++ [c] } := by
      have h2 : ¬ st.cur.length = 1 := by omega
      have h3 : c ≠ 93 := by omega
      simp [fieldChar, hm, digit, h1, h2, h3]
    rw [this]
    dsimp only
    rw [ih r { st with cur := st.cur ++ [c] } hm (by simp; omega) (fun b hb => hs b (by simp [hb]))]
    simp

/-- A part, then the end of the text, a dot or a bracket. -/
theorem fieldChars_part (p : Part) (hp : p.Ok) (r : Str) (hr : r = [] ∨ r.head? = some 46 ∨ r.head? = some 91) (out : List Str) :
    ∃ st', fieldChars (p.text ++ r) ⟨.none, false, [], out, []⟩ = fieldChars r st' ∧ st'.mode = .none ∧ st'.unf = [] ∧
      st'.eff = out ++ [p.name] := by
  cases p with
  | plain s =>
    obtain ⟨_, hs⟩ := hp
    refine ⟨_, fieldChars_plain s r _ rfl hs, rfl, rfl, ?_⟩
    simp [FS.eff, Part.name]
  | tick s =>
    obtain ⟨hne, hs⟩ := hp
    have hr' : (r.head? = none ∨ r.head? = some 46) ∨ r.head? = some 91 := by
      rcases hr with h | h | h
      · subst h; simp
      · simp [h]
      · simp [h]
    refine ⟨⟨.none, true, s ++ [96], out ++ [s], []⟩, ?_, rfl, rfl, ?_⟩
    · rw [Part.text, List.append_assoc, List.cons_append, fieldChars]
      have h1 : ∀ nx, fieldChar 96 nx ⟨.none, false, [], out, []⟩ = some ⟨.tick, false, [], out, []⟩ := by
        intro nx; simp [fieldChar]
      rw [h1]
      dsimp only
      rw [fieldChars_ticked s _ _ rfl hs, List.singleton_append, fieldChars]
      have h2 : fieldChar 96 r.head? ⟨.tick, false, s, out, []⟩ = some ⟨.none, true, s ++ [96], out ++ [s], []⟩ := by
        simp only [fieldChar]
        rw [if_pos trivial, if_neg hne]
        rcases hr' with (h | h) | h <;> simp [h]
      rw [show ([] : Str) ++ s = s from rfl, h2]
    · simp [FS.eff, Part.name]

theorem fieldChars_dot (st : FS) (hm : st.mode = .none) (hu : st.unf = []) (r : Str) :
    fieldChars (46 :: r) st = fieldChars r ⟨.none, false, [], st.eff, []⟩ := by
  rw [fieldChars]
  have : fieldChar 46 r.head? st = some ⟨.none, false, [], st.eff, []⟩ := by
    rcases st with ⟨m, sk, cur, out, unf⟩
    dsimp only at hm hu
    subst hm hu
    cases sk <;> simp [fieldChar, FS.push, FS.eff]
  rw [this]

theorem fieldChars_parts : ∀ (ps : List Part), ps ≠ [] → (∀ p ∈ ps, p.Ok) → ∀ (r : Str), (r = [] ∨ r.head? = some 91) → ∀ out,
    ∃ st', fieldChars (partsText ps ++ r) ⟨.none, false, [], out, []⟩ = fieldChars r st' ∧ st'.mode = .none ∧ st'.unf = [] ∧
      st'.eff = out ++ ps.map Part.name := by
  intro ps
  induction ps with
  | nil => intro h; exact absurd rfl h
  | cons p ps ih =>
    intro _ hok r hr out
    cases ps with
    | nil =>
      obtain ⟨st', h1, h2, h3, h4⟩ := fieldChars_part p (hok p (by simp)) r (by rcases hr with h | h <;> simp [h]) out
      exact ⟨st', h1, h2, h3, by simpa using h4⟩
    | cons p' ps =>
      obtain ⟨st1, h1, h2, h3, h4⟩ := fieldChars_part p (hok p (by simp)) (46 :: (partsText (p' :: ps) ++ r)) (by simp) out
      obtain ⟨st2, k1, k2, k3, k4⟩ := ih (by simp) (fun q hq => hok q (by simp [hq])) r hr (out ++ [p.name])
      refine ⟨st2, ?_, k2, k3, by simpa using k4⟩
      rw [partsText, List.append_assoc, List.cons_append, h1, fieldChars_dot st1 h2 h3, h4, k1]
      simp

theorem fieldChars_idx (s : Str) (hs : IdxOk s) (r : Str) (hr : r = [] ∨ r.head? = some 91) (st : FS) (hm : st.mode = .none)
    (hu : st.unf = []) :
    ∃ st', fieldChars (idxText s ++ r) st = fieldChars r st' ∧ st'.mode = .none ∧ st'.unf = [] ∧ st'.eff = st.eff ++ [idxText s] := by
  obtain ⟨d, t, rfl, hd1, hd2, ht⟩ := hs
  refine ⟨⟨.none, true, idxText (d :: t), st.eff ++ [idxText (d :: t)], []⟩, ?_, rfl, rfl, by simp [FS.eff]⟩
  rw [idxText, List.append_assoc, List.cons_append, fieldChars]
  have h1 : ∀ nx, fieldChar 91 nx st = some ⟨.nest, false, [91], st.eff, []⟩ := by
    intro nx
    rcases st with ⟨m, sk, cur, out, unf⟩
    dsimp only at hm hu
    subst hm hu
    cases sk <;> simp [fieldChar, FS.push, FS.eff]
  rw [h1]
  dsimp only
  rw [List.cons_append, fieldChars]
  have h2 : ∀ nx, fieldChar d nx ⟨.nest, false, [91], st.eff, []⟩ = some ⟨.nest, false, [91, d], st.eff, []⟩ := by
    intro nx
    have a1 : d ≠ 48 := by omega
    have a2 : d ≠ 93 := by omega
    have a3 : 48 ≤ d := by omega
    simp [fieldChar, digit, a1, a2, a3, hd2]
  rw [h2]
  dsimp only
  rw [fieldChars_digits t _ _ rfl (by simp) ht, List.singleton_append, fieldChars]
  have h3 : fieldChar 93 r.head? ⟨.nest, false, [91, d] ++ t, st.eff, []⟩ =
      some ⟨.none, true, idxText (d :: t), st.eff ++ [idxText (d :: t)], []⟩ := by
    rcases hr with h | h <;> simp [fieldChar, digit, FS.push, idxText, h]
  rw [h3]
  rfl

theorem fieldChars_idxs : ∀ (is : List Str), (∀ s ∈ is, IdxOk s) → ∀ st : FS, st.mode = .none → st.unf = [] →
    ∃ st', fieldChars (is.flatMap idxText) st = some st' ∧ st'.mode = .none ∧ st'.unf = [] ∧ st'.eff = st.eff ++ is.map idxText := by
  intro is
  induction is with
  | nil => intro _ st hm hu; exact ⟨st, rfl, hm, hu, by simp⟩
  | cons s is ih =>
    intro hok st hm hu
    have hr : is.flatMap idxText = [] ∨ (is.flatMap idxText).head? = some 91 := by
      cases is with
      | nil => simp
      | cons a b => right; simp [idxText]
    obtain ⟨st1, h1, h2, h3, h4⟩ := fieldChars_idx s (hok s (by simp)) _ hr st hm hu
    obtain ⟨st2, k1, k2, k3, k4⟩ := ih (fun q hq => hok q (by simp [hq])) st1 h2 h3
    exact ⟨st2, by rw [List.flatMap_cons, h1, k1], k2, k3, by rw [k4, h4]; simp⟩

theorem fieldChars_name (n : Name) (hn : n.Ok) :
    ∃ st', fieldChars n.text ⟨.none, false, [], [], []⟩ = some st' ∧ st'.mode = .none ∧ st'.unf = [] ∧ st'.eff = n.path := by
  obtain ⟨h1, h2, h3⟩ := hn
  have hr : n.idxs.flatMap idxText = [] ∨ (n.idxs.flatMap idxText).head? = some 91 := by
    cases n.idxs with
    | nil => simp
    | cons a b => right; simp [idxText]
  obtain ⟨st1, a1, a2, a3, a4⟩ := fieldChars_parts n.parts h1 h2 _ hr []
  obtain ⟨st2, b1, b2, b3, b4⟩ := fieldChars_idxs n.idxs h3 st1 a2 a3
  exact ⟨st2, by rw [Name.text, a1, b1], b2, b3, by rw [b4, a4]; rfl⟩

theorem part_text_ne (p : Part) (hp : p.Ok) : p.text ≠ [] := by
  cases p with
  | plain s => exact hp.1
  | tick s => simp [Part.text]

theorem partsText_ne : ∀ ps : List Part, ps ≠ [] → (∀ p ∈ ps, p.Ok) → partsText ps ≠ [] := by
  intro ps hne hok
  match ps, hne with
  | [p], _ => exact part_text_ne p (hok p (by simp))
  | p :: q :: r, _ => simp [partsText]

theorem name_text_ne (n : Name) (hn : n.Ok) : n.text ≠ [] := by
  have := partsText_ne n.parts hn.1 hn.2.1
  simp [Name.text, this]

/-- `checkAndParseField` reads a name as its path and uses one token. -/
theorem checkField_name (n : Name) (hn : n.Ok) (ts : List Str) (i : Nat) (hi : ts[i]? = some n.text) :
    checkField ts i = some (i, n.path) := by
  unfold checkField
  rw [hi]
  have hd : ts.drop i = n.text :: ts.drop (i + 1) := by
    have hlt : i < ts.length := by
      apply Classical.byContradiction
      intro h
      rw [List.getElem?_eq_none (by omega)] at hi
      exact absurd hi (by simp)
    rw [List.drop_eq_getElem_cons hlt]
    rw [List.getElem?_eq_getElem hlt] at hi
    simp at hi
    rw [hi]
  obtain ⟨st, h1, h2, h3, h4⟩ := fieldChars_name n hn
  have ht : fieldToks (n.text :: ts.drop (i + 1)) ⟨.none, false, [], [], []⟩ = some (0, n.path) := by
    rw [fieldToks, h1]
    dsimp only
    rw [h2]
    dsimp only
    rw [← h4]
    rfl
  rw [hd, ht]
  cases h : n.text with
  | nil => exact absurd h (name_text_ne n hn)
  | cons a b => rfl

/-! ### When a token is read as a field -/

/-- All spellings of operators. -/
def opWords : List Str :=
  [kAnd, ascii "AND", kOr, ascii "OR", kGe, kLt, kLe, kGt, kEq, ascii "=", kNe, kLike, ascii "LIKE", kNotLike, kExists, kIsMissing,
   kIsNull, kIsNotNull]

/-- No operator is written in `t`. -/
def NoOp (t : Str) : Prop := ∀ k ∈ opWords, ¬ k <:+: t

theorem isOpTok_mem (t : Str) (h : isOpTok t = true) : t ∈ opWords := by
  simp only [isOpTok, isChainTok, isEqTok, isCompareTok, isLikeTok, isOnlyTok, Bool.or_eq_true, decide_eq_true_eq] at h
  rcases h with ((((((h | h) | h) | h) | ((h | h) | h)) | (((h | h) | h) | h)) | ((h | h) | h)) | (((h | h) | h) | h) <;> subst h <;> decide

theorem seekLoop_none (s : Str) (hs : ∀ k, isOpTok (s.take k) = false) : ∀ n k, seekLoop s n k false = none := by
  intro n
  induction n with
  | zero => intro k; simp [seekLoop, hs]
  | succ n ih => intro k; simp [seekLoop, hs, ih]

theorem seek_none : ∀ t : Str, NoOp t → seek t = none := by
  intro t
  induction t with
  | nil => intro _; rfl
  | cons c s ih =>
    intro h
    have h1 : ∀ k, isOpTok ((c :: s).take k) = false := by
      intro k
      cases hk : isOpTok ((c :: s).take k) with
      | false => rfl
      | true => exact absurd (List.take_prefix k (c :: s)).isInfix (h _ (isOpTok_mem _ hk))
    rw [seek, seekLoop_none _ h1]
    exact ih fun k hk hki => h k hk (hki.trans (List.suffix_cons c s).isInfix)

theorem isOpTok_false (t : Str) (h : NoOp t) : isOpTok t = false := by
  cases hk : isOpTok t with
  | false => rfl
  | true => exact absurd (List.infix_refl t) (h _ (isOpTok_mem _ hk))

theorem inner_none (name t : Str) (h : (40 : Nat) ∉ t) : inner name t = none := by
  unfold inner
  rw [if_neg]
  intro hp
  simp only [Bool.and_eq_true] at hp
  have := List.isPrefixOf_iff_prefix.1 hp.1.1
  exact h (this.subset (by simp))

theorem funcKey_none (t : Str) (h : (40 : Nat) ∉ t) : funcKey t = none := by
  unfold funcKey
  rw [List.find?_eq_none.2]
  · rfl
  · intro p _
    simp [subMatches, inner_none _ t h]

/-- `t` starts with a digit or a minus sign. -/
def NumLike (t : Str) : Prop := ∃ c, t.head? = some c ∧ (c = 45 ∨ (48 ≤ c ∧ c ≤ 57))

theorem isNum_false (t : Str) (hne : t ≠ []) (h : ¬ NumLike t) : isNum t = false := by
  cases t with
  | nil => exact absurd rfl hne
  | cons c s =>
    have h1 : c ≠ 45 := fun h' => h ⟨c, rfl, .inl h'⟩
    have h2 : digit c = false := by
      cases hd : digit c with
      | false => rfl
      | true =>
        simp [digit] at hd
        exact absurd ⟨c, rfl, .inr hd⟩ h
    simp [isNum, unsigned, h1, h2]

/-- The words with a meaning of their own. -/
def ownWords : List Str := [ascii "NOT", ascii "IS", ascii "true", ascii "false"]

/-- What keeps a token from being taken for something else than a field. -/
structure Free (t : Str) : Prop where
  ne : t ≠ []
  noOp : NoOp t
  noNum : ¬ NumLike t
  noOpen : (40 : Nat) ∉ t
  noClose : (41 : Nat) ∉ t
  noWord : t ∉ ownWords

theorem look_field {E : Ext} (N : Env E) (c : Ctx) (t : Str) (hm : c.sub.mode ≠ .value) (h : Free t) :
    look N c t = .done (.ok (fieldTok c t)) := by
  have hw := h.noWord
  simp only [ownWords, List.mem_cons, List.not_mem_nil, or_false, not_or] at hw
  obtain ⟨w1, w2, w3, w4⟩ := hw
  simp [look, w1, w2, w3, w4, isOpTok_false t h.noOp, hm, isNum_false t h.ne h.noNum, funcKey_none t h.noOpen, h.noOpen, h.noClose,
    seek_none t h.noOp]

theorem name_no_dot (n : Name) (hn : n.Ok) : hasPrefix [46] n.text = false ∧ hasSuffix [46] n.text = false := by
  obtain ⟨h1, h2, h3⟩ := hn
  have hend : ∀ ps : List Part, ps ≠ [] → (∀ p ∈ ps, p.Ok) → (partsText ps).getLast? ≠ some 46 ∧ (partsText ps).head? ≠ some 46 := by
    have hpart : ∀ p : Part, p.Ok → p.text.getLast? ≠ some 46 ∧ p.text.head? ≠ some 46 := by
      intro p hp
      cases p with
      | plain s =>
        constructor
        · intro h; exact (hp.2 46 (List.mem_of_getLast? h)).1 rfl
        · intro h; exact (hp.2 46 (List.mem_of_head? h)).1 rfl
      | tick s =>
        refine ⟨?_, by simp [Part.text]⟩
        rw [Part.text, List.getLast?_concat]
        decide
    intro ps
    induction ps with
    | nil => intro h; exact absurd rfl h
    | cons p ps ih =>
      intro _ hok
      cases ps with
      | nil => exact hpart p (hok p (by simp))
      | cons q r =>
        have hq := ih (by simp) (fun x hx => hok x (by simp [hx]))
        have hp := hpart p (hok p (by simp))
        have hne := partsText_ne (q :: r) (by simp) (fun x hx => hok x (by simp [hx]))
        constructor
        · rw [partsText, List.getLast?_append, List.getLast?_cons_of_ne_nil hne]
          · intro h
            cases hl : (partsText (q :: r)).getLast? with
            | none => simp at hl; exact hne hl
            | some x => rw [hl] at h; simp at h; exact hq.1 (by rw [hl, h])
          · simp
        · rw [partsText]
          · cases hpt : p.text with
            | nil => exact absurd hpt (part_text_ne p (hok p (by simp)))
            | cons a b => rw [hpt] at hp; simpa using hp.2
          · simp
  have hne := partsText_ne n.parts h1 h2
  have he := hend n.parts h1 h2
  constructor
  · cases hp : hasPrefix [46] n.text with
    | false => rfl
    | true =>
      have := List.isPrefixOf_iff_prefix.1 hp
      obtain ⟨t, ht⟩ := this
      exfalso
      apply he.2
      cases hpt : partsText n.parts with
      | nil => exact absurd hpt hne
      | cons a b =>
        rw [Name.text, hpt] at ht
        simp at ht
        simp [ht.1]
  · cases hp : hasSuffix [46] n.text with
    | false => rfl
    | true =>
      exfalso
      have h46 : n.text.getLast? = some 46 := by
        obtain ⟨t, ht⟩ := List.isSuffixOf_iff_suffix.1 hp
        rw [← ht]; simp
      rw [Name.text] at h46
      cases hl : n.idxs.reverse with
      | nil =>
        have : n.idxs = [] := by simpa using hl
        rw [this] at h46
        simp at h46
        exact he.1 h46
      | cons a b =>
        have : n.idxs = b.reverse ++ [a] := by
          have := congrArg List.reverse hl
          simpa using this
        rw [this, List.flatMap_append, List.flatMap_singleton, ← List.append_assoc, idxText, ← List.append_assoc, List.getLast?_concat] at h46
        exact absurd h46 (by decide)

/-- A free name is read as a field with its path. -/
theorem fieldTok_name (n : Name) (hn : n.Ok) (c : Ctx) (hc : c.tokens[c.idx]? = some n.text) :
    fieldTok c n.text = ({ c with fieldTokens := n.path }, .ok ([], .field)) := by
  obtain ⟨h1, h2⟩ := name_no_dot n hn
  simp [fieldTok, h1, h2, checkField_name n hn c.tokens c.idx hc]

end Verif.Simple
