import Verif.Simple.GroupTheorems
import Verif.Simple.Weight

/-!
# C71: white space around symbols and parentheses
-/

namespace Verif.Simple
open Verif.FastVal Verif.Expr

variable {E : Ext}

/-! ### Specification -/

/-- The characters of the operators that are written with symbols: `! & < = > | ~`. -/
def symChar (b : Nat) : Bool := b = 33 || b = 38 || b = 60 || b = 61 || b = 62 || b = 124 || b = 126

/-- The operators written with symbols. -/
def symWords : List Str := [kEq, kNe, kLt, kLe, kGt, kGe, kLike, ascii "=", kAnd, kOr]

/-- The operators written with letters. -/
def letterWords : List Str := [ascii "AND", ascii "OR", ascii "LIKE", kNotLike, kExists, kIsMissing, kIsNull, kIsNotNull]

/-- Kinds of tokens: names and numbers, values in quotation marks, symbols, parentheses, operators of letters, and the words `NOT` and
`IS`, with which operators of several words start. -/
inductive Kind where
  | atom | quoted | sym | opn | cls | key | neg
  deriving DecidableEq

/-- A token without symbols, parentheses, backticks and operators in it. -/
structure Plain (t : Str) : Prop where
  ne : t ≠ []
  noOp : NoOp t
  chars : ∀ b ∈ t, symChar b = false ∧ b ≠ 40 ∧ b ≠ 41 ∧ b ≠ 96

def IsTok : Kind → Str → Prop
  | .atom, t => Plain t ∧ t.head? ≠ some 34 ∧ t.head? ≠ some 39 ∧ t ≠ ascii "NOT" ∧ t ≠ ascii "IS"
  | .quoted, t => Plain t ∧ 2 ≤ t.length ∧ ((t.head? = some 34 ∧ t.getLast? = some 34) ∨ (t.head? = some 39 ∧ t.getLast? = some 39))
  | .sym, t => t ∈ symWords
  | .opn, t => t = [40]
  | .cls, t => t = [41]
  | .key, t => t ∈ letterWords
  | .neg, t => t = ascii "NOT" ∨ t = ascii "IS"

abbrev Tok := Kind × Str

/-- Which tokens may be written next to each other without white space. -/
def follows : Kind → Kind → Bool
  | .atom, .sym | .atom, .cls | .quoted, .cls | .sym, .atom | .sym, .quoted | .sym, .opn | .opn, .opn | .opn, .atom | .cls, .cls
  | .cls, .sym => true
  | _, _ => false

/-- Tokens that may be written as one word.  Behind a value in quotation marks there are only closing parentheses. -/
def Good : List Tok → Prop
  | [] => False
  | x :: r => IsTok x.1 x.2 ∧ match r with
    | [] => True
    | y :: r' => follows x.1 y.1 = true ∧ (x.1 = .quoted → ∀ z ∈ y :: r', z.1 = .cls) ∧ Good (y :: r')

/-- A word of the text: a closing parenthesis at its start is the whole word. -/
def PartOk (p : List Tok) : Prop := Good p ∧ ∀ x y r, p = x :: y :: r → x.1 ≠ .cls

/-- The words of a text, given by their tokens.  The words after `NOT` and `IS` are single tokens. -/
def Lined : List (List Tok) → Prop
  | [] => True
  | p :: ps => PartOk p ∧ (∀ x ∈ p, x.1 = .neg → ∀ q, ps.head? = some q → q.length = 1) ∧ Lined ps

/-- The word that some tokens make. -/
def flat (p : List Tok) : Str := (p.map Prod.snd).flatten

/-! ### Symbols -/

theorem sym_facts : ∀ s ∈ symWords, s ≠ [] ∧ (∀ b ∈ s, symChar b = true) ∧ s ∈ opWords ∧ isOpTok s = true := by decide

theorem op_facts : ∀ k ∈ opWords, k ≠ [] ∧ (∀ b ∈ k, b ≠ 40 ∧ b ≠ 41) ∧ ((∀ b ∈ k, symChar b = true) ∨ (∀ b ∈ k, symChar b = false)) := by decide

/-- Nothing before a symbol is found in it, and it is found whole. -/
theorem seek_at (s : Str) (hs : s ∈ symWords) (v : Str) (hv : ∀ b, v.head? = some b → symChar b = false) : seek (s ++ v) = some s := by
  have hb : ∀ b : Nat, symChar b = false → b ≠ 33 ∧ b ≠ 38 ∧ b ≠ 60 ∧ b ≠ 61 ∧ b ≠ 62 ∧ b ≠ 124 ∧ b ≠ 126 := by
    intro b h; simp [symChar] at h; omega
  simp only [symWords, List.mem_cons, List.not_mem_nil, or_false] at hs
  cases v with
  | nil => rcases hs with rfl | rfl | rfl | rfl | rfl | rfl | rfl | rfl | rfl | rfl <;> rfl
  | cons b r =>
    obtain ⟨h1, h2, h3, h4, h5, h6, h7⟩ := hb b (hv b rfl)
    cases r <;> rcases hs with rfl | rfl | rfl | rfl | rfl | rfl | rfl | rfl | rfl | rfl <;>
      simp [seek, seekLoop, isOpTok, isChainTok, isEqTok, isCompareTok, isLikeTok, isOnlyTok, kEq, kNe, kLt, kLe, kGt, kGe, kLike, kAnd, kOr, kNotLike,
        kExists, kIsMissing, kIsNull, kIsNotNull, ascii, h1, h2, h3, h4, h5, h6, h7]

theorem seek_glued : ∀ (u s v : Str), NoOp u → (∀ b ∈ u, symChar b = false) → s ∈ symWords → (∀ b, v.head? = some b → symChar b = false) →
    seek (u ++ s ++ v) = some s := by
  intro u
  induction u with
  | nil => intro s v _ _ hs hv; exact seek_at s hs v hv
  | cons c u ih =>
    intro s v hn hc hs hv
    have h1 : ∀ k, isOpTok ((c :: u ++ s ++ v).take k) = false := by
      intro k
      cases hk : isOpTok ((c :: u ++ s ++ v).take k) with
      | false => rfl
      | true =>
        exfalso
        have hm := isOpTok_mem _ hk
        obtain ⟨hne, _, hall⟩ := op_facts _ hm
        have hk0 : k ≠ 0 := by rintro rfl; exact hne rfl
        by_cases hle : k ≤ (c :: u).length
        · rw [List.append_assoc, List.take_append_of_le_length hle] at hm
          exact hn _ hm (List.take_prefix _ _).isInfix
        · rcases hall with h | h
          · have := h c (by
              cases k with
              | zero => exact absurd rfl hk0
              | succ k => simp)
            rw [hc c (by simp)] at this
            cases this
          · obtain ⟨hsne, hss, _⟩ := sym_facts s hs
            cases s with
            | nil => exact hsne rfl
            | cons x s =>
              have hx : x ∈ (c :: u ++ (x :: s) ++ v).take k := by
                rw [List.append_assoc, List.take_append]
                apply List.mem_append_right
                cases hd : k - (c :: u).length with
                | zero => omega
                | succ j => simp
              have := h x hx
              rw [hss x (by simp)] at this
              cases this
    show seek (c :: (u ++ s ++ v)) = some s
    rw [seek]
    have : c :: (u ++ s ++ v) = c :: u ++ s ++ v := by simp
    rw [this, seekLoop_none _ h1]
    exact ih s v (fun k hk hi => hn k hk (hi.trans (List.suffix_cons c u).isInfix)) (fun b hb => hc b (List.mem_cons_of_mem _ hb)) hs hv

theorem cut_glued : ∀ (u s v : Str), (∀ b ∈ u, symChar b = false) → s ∈ symWords → cut s (u ++ s ++ v) = some (u, v) := by
  intro u
  induction u with
  | nil =>
    intro s v _ hs
    obtain ⟨hne, _⟩ := sym_facts s hs
    cases s with
    | nil => exact absurd rfl hne
    | cons x s =>
      show cut (x :: s) (x :: (s ++ v)) = _
      rw [cut, if_pos ((hasPrefix_iff (x :: s) (x :: (s ++ v))).2 ⟨v, rfl⟩)]
      simp
  | cons c u ih =>
    intro s v hc hs
    obtain ⟨hne, hss, _⟩ := sym_facts s hs
    show cut s (c :: (u ++ s ++ v)) = _
    rw [cut, if_neg, ih s v (fun b hb => hc b (List.mem_cons_of_mem _ hb)) hs]
    · rfl
    · intro hp
      obtain ⟨z, hz⟩ := (hasPrefix_iff _ _).1 hp
      cases s with
      | nil => exact hne rfl
      | cons x s =>
        injection hz with h _
        have := hss x (by simp)
        rw [h, hc c (by simp)] at this
        cases this

/-- The pieces that are left of a word when it is split at a symbol. -/
theorem split_glued (u s v : Str) (hu : ∀ b ∈ u, symChar b = false) (hs : s ∈ symWords) (hne : u ≠ [] ∨ v ≠ []) :
    splitFirst (u ++ s ++ v) s = (if u = [] then [] else [u]) ++ [s] ++ (if v = [] then [] else [v]) := by
  obtain ⟨hsne, hss, _⟩ := sym_facts s hs
  unfold splitFirst
  rw [if_neg, cut_glued u s v hu hs]
  · dsimp only
    cases u with
    | nil =>
      have hv : v ≠ [] := by simpa using hne
      simp [hv]
    | cons c u =>
      rw [if_neg (by intro h; have := congrArg List.length h; simp at this; omega)]
      cases v with
      | nil =>
        have : hasSuffix s (c :: u ++ s) = true := List.isSuffixOf_iff_suffix.2 (List.suffix_append _ _)
        rw [if_pos (by rw [this]; rfl), trimSuffix, if_pos this]
        have : (c :: u ++ s).length - s.length = (c :: u).length := by simp; omega
        rw [this, List.take_left]; rfl
      | cons b v =>
        rw [if_neg (by simp)]
        have htr : trim s (c :: u ++ s) = c :: u := by
          unfold trim
          have h1 : s.contains c = false := by
            rw [← Bool.not_eq_true, List.contains_iff_mem]
            intro h
            have := hss c h
            rw [hu c (by simp)] at this
            cases this
          rw [List.cons_append, List.dropWhile_cons_of_neg (by simpa using h1)]
          rw [← List.cons_append, List.reverse_append]
          rw [List.dropWhile_append_of_pos (by intro a ha; simpa using ha)]
          have h2 : (c :: u).reverse.dropWhile s.contains = (c :: u).reverse := by
            cases hr : (c :: u).reverse with
            | nil => rfl
            | cons x r =>
              rw [List.dropWhile_cons_of_neg]
              have hx : x ∈ c :: u := by rw [← List.mem_reverse, hr]; simp
              intro h
              have := hss x (by simpa using h)
              rw [hu x hx] at this
              cases this
          rw [h2, List.reverse_reverse]
        rw [htr]; simp
  · intro h
    have := congrArg List.length h
    simp at this
    rcases hne with h | h
    · exact h (List.eq_nil_of_length_eq_zero (by omega))
    · exact h (List.eq_nil_of_length_eq_zero (by omega))

/-! ### Words -/

/-- Symbols and parentheses. -/
def special (b : Nat) : Bool := symChar b || b = 40 || b = 41

theorem Plain.special {t : Str} (h : Plain t) : ∀ b ∈ t, Simple.special b = false := by
  intro b hb
  obtain ⟨h1, h2, h3, _⟩ := h.chars b hb
  simp [Simple.special, h1, h2, h3]

theorem tok_ne {k : Kind} {t : Str} (h : IsTok k t) : t ≠ [] := by
  cases k with
  | atom => exact h.1.ne
  | quoted => exact h.1.ne
  | sym => exact (sym_facts t h).1
  | opn => rw [show t = [40] from h]; simp
  | cls => rw [show t = [41] from h]; simp
  | key => rintro rfl; exact absurd (show [] ∈ letterWords from h) (by decide)
  | neg => rcases h with rfl | rfl <;> decide

theorem letter_facts : ∀ k ∈ letterWords, (∀ b ∈ k, b ≠ 40 ∧ b ≠ 41 ∧ b ≠ 34 ∧ b ≠ 39) ∧ isOpTok k = true := by decide

theorem tok_no40 {k : Kind} {t : Str} (h : IsTok k t) (hk : k ≠ .opn) : 40 ∉ t := by
  intro hm
  cases k with
  | atom => exact (h.1.chars _ hm).2.1 rfl
  | quoted => exact (h.1.chars _ hm).2.1 rfl
  | sym => have := (sym_facts t h).2.1 _ hm; revert this; decide
  | opn => exact hk rfl
  | cls => rw [show t = [41] from h] at hm; simp at hm
  | key => exact ((letter_facts t h).1 _ hm).1 rfl
  | neg => rcases h with rfl | rfl <;> revert hm <;> decide

theorem tok_no41 {k : Kind} {t : Str} (h : IsTok k t) (hk : k ≠ .cls) : 41 ∉ t := by
  intro hm
  cases k with
  | atom => exact (h.1.chars _ hm).2.2.1 rfl
  | quoted => exact (h.1.chars _ hm).2.2.1 rfl
  | sym => have := (sym_facts t h).2.1 _ hm; revert this; decide
  | opn => rw [show t = [40] from h] at hm; simp at hm
  | cls => exact hk rfl
  | key => exact ((letter_facts t h).1 _ hm).2.1 rfl
  | neg => rcases h with rfl | rfl <;> revert hm <;> decide

theorem flat_cons (x : Tok) (r : List Tok) : flat (x :: r) = x.2 ++ flat r := rfl

theorem flat_append (p q : List Tok) : flat (p ++ q) = flat p ++ flat q := by simp [flat]

theorem flat_one (x : Tok) : flat [x] = x.2 := by simp [flat]

theorem good_head {x : Tok} {r : List Tok} (h : Good (x :: r)) : IsTok x.1 x.2 := by cases r <;> (unfold Good at h; exact h.1)

theorem good_next {x y : Tok} {r : List Tok} (h : Good (x :: y :: r)) : follows x.1 y.1 = true := h.2.1

theorem good_tail {x y : Tok} {r : List Tok} (h : Good (x :: y :: r)) : Good (y :: r) := h.2.2.2

theorem good_one {x : Tok} (h : IsTok x.1 x.2) : Good [x] := ⟨h, trivial⟩

theorem good_right : ∀ (p q : List Tok), Good (p ++ q) → q ≠ [] → Good q := by
  intro p
  induction p with
  | nil => intro q h _; exact h
  | cons x p ih =>
    intro q h hq
    cases hp : p ++ q with
    | nil => simp at hp; exact absurd hp.2 hq
    | cons y r =>
      rw [List.cons_append, hp] at h
      exact ih q (hp ▸ good_tail h) hq

theorem good_left : ∀ (p q : List Tok), Good (p ++ q) → p ≠ [] → Good p := by
  intro p
  induction p with
  | nil => intro q _ h; exact absurd rfl h
  | cons x p ih =>
    intro q h _
    cases p with
    | nil => exact ⟨good_head h, trivial⟩
    | cons y p =>
      have h' : Good (x :: y :: (p ++ q)) := h
      exact ⟨h'.1, h'.2.1, fun hx z hz => h'.2.2.1 hx z (by
        simp only [List.mem_cons, List.mem_append] at hz ⊢
        rcases hz with hz | hz
        · exact .inl hz
        · exact .inr (.inl hz)), ih q h'.2.2.2 (by simp)⟩

theorem good_all : ∀ p : List Tok, Good p → ∀ x ∈ p, IsTok x.1 x.2 := by
  intro p
  induction p with
  | nil => intro h; exact h.elim
  | cons x p ih =>
    intro h z hz
    cases p with
    | nil => simp at hz; subst hz; exact h.1
    | cons y p =>
      rw [List.mem_cons] at hz
      rcases hz with rfl | hz
      · exact h.1
      · exact ih (good_tail h) z hz

/-- The tokens of a kind at the end. -/
theorem trail (k : Kind) : ∀ p : List Tok, ∃ p' q, p = p' ++ q ∧ (∀ z ∈ q, z.1 = k) ∧ (∀ z, p'.getLast? = some z → z.1 ≠ k) := by
  intro p
  induction p with
  | nil => exact ⟨[], [], rfl, by simp, by simp⟩
  | cons x p ih =>
    obtain ⟨p', q, h1, h2, h3⟩ := ih
    cases p' with
    | nil =>
      by_cases hx : x.1 = k
      · exact ⟨[], x :: q, by simp [h1], by simpa [hx] using h2, by simp⟩
      · exact ⟨[x], q, by simp [h1], h2, by simp [hx]⟩
    | cons y p' => exact ⟨x :: y :: p', q, by simp [h1], h2, by simpa using h3⟩

theorem flat_getLast (p : List Tok) (z : Tok) (hz : p.getLast? = some z) (hne : z.2 ≠ []) : (flat p).getLast? = z.2.getLast? := by
  obtain ⟨p', rfl⟩ : ∃ p', p = p' ++ [z] := by
    rcases List.eq_nil_or_concat p with rfl | ⟨p', y, rfl⟩
    · simp at hz
    · simp at hz; subst hz; exact ⟨p', by simp⟩
  rw [flat_append, flat_one, List.getLast?_append]
  cases h : z.2.getLast? with
  | none => simp at h; exact absurd h hne
  | some _ => rfl

theorem flat_head (x : Tok) (r : List Tok) (hne : x.2 ≠ []) : (flat (x :: r)).head? = x.2.head? := by
  rw [flat_cons]
  cases h : x.2 with
  | nil => exact absurd h hne
  | cons a b => rfl

theorem flat_same (k : Kind) (ch : Nat) (hk : ∀ t, IsTok k t → t = [ch]) : ∀ q : List Tok, (∀ z ∈ q, z.1 = k ∧ IsTok z.1 z.2) →
    flat q = List.replicate q.length ch := by
  intro q
  induction q with
  | nil => intro _; rfl
  | cons z q ih =>
    intro h
    obtain ⟨h1, h2⟩ := h z (by simp)
    rw [flat_cons, ih fun x hx => h x (List.mem_cons_of_mem _ hx), hk z.2 (h1 ▸ h2)]
    rfl

/-- Parentheses at the end of a word. -/
theorem suffix_glued (ch : Nat) (u : Str) (n : Nat) (hu : u.getLast? ≠ some ch) (c : Ctx) :
    parenSuffix c (u ++ List.replicate n ch) ch = c.replace (u :: List.replicate n [ch]) := by
  unfold parenSuffix
  have h0 : u.reverse.dropWhile (· = ch) = u.reverse ∧ u.reverse.takeWhile (· = ch) = [] := by
    cases hr : u.reverse with
    | nil => exact ⟨rfl, rfl⟩
    | cons x r =>
      have hx : x ≠ ch := by
        rintro rfl
        apply hu
        rw [← List.head?_reverse, hr]; rfl
      exact ⟨List.dropWhile_cons_of_neg (by simpa using hx), List.takeWhile_cons_of_neg (by simpa using hx)⟩
  have h1 : (u ++ List.replicate n ch).reverse = List.replicate n ch ++ u.reverse := by simp
  have hp : ∀ a ∈ List.replicate n ch, decide (a = ch) = true := by intro a ha; simpa using (List.mem_replicate.1 ha).2
  rw [h1, List.dropWhile_append_of_pos hp, List.takeWhile_append_of_pos hp, h0.1, h0.2]
  simp

/-! ### Looking at a word of several tokens -/

/-- What is certain about words of several tokens. -/
structure Mixed (w : Str) : Prop where
  special : ∃ b ∈ w, special b = true
  notOp : isOpTok w = false
  noQuote : quoteOf w = none
  noFunc : funcKey w = none

theorem isNum_plain {t : Str} (h : isNum t = true) : ∀ b ∈ t, special b = false := by
  have hd : ∀ b, digit b = true → special b = false := by
    intro b hb; simp [digit] at hb; simp [special, symChar]; omega
  unfold isNum at h
  dsimp only at h
  rw [Bool.and_eq_true] at h
  have h1 : ∀ b ∈ unsigned t, special b = false := by
    intro b hb
    rw [← List.takeWhile_append_dropWhile (p := digit) (l := unsigned t), List.mem_append] at hb
    rcases hb with hb | hb
    · exact hd b (List.all_eq_true.1 List.all_takeWhile b hb)
    · cases hr : (unsigned t).dropWhile digit with
      | nil => rw [hr] at hb; cases hb
      | cons c r =>
        have h2 := h.2
        rw [hr] at h2 hb
        simp only [List.head?_cons, List.length_cons, List.drop_succ_cons, List.drop_zero, reduceCtorEq, decide_false, Bool.false_or, Bool.and_eq_true,
          decide_eq_true_eq, Option.some.injEq] at h2
        rw [List.mem_cons] at hb
        rcases hb with rfl | hb
        · rw [h2.1.1]; decide
        · exact hd b (List.all_eq_true.1 h2.2 b hb)
  intro b hb
  unfold unsigned at h1
  split at h1
  · rename_i hh
    cases t with
    | nil => cases hb
    | cons c r =>
      rw [List.mem_cons] at hb
      rcases hb with rfl | hb
      · simp at hh; rw [hh]; decide
      · exact h1 b hb
  · exact h1 b hb

theorem look_mixed (N : Env E) (c : Ctx) (w : Str) (h : Mixed w) : look N c w =
    (if w.contains 40 || w.contains 41 then lookParen c w
    else match (if c.sub.mode = .value then unfinished w else none) with
    | some q => .words q
    | none =>
    match seek w with
    | some d => .again (c.replace (splitFirst w d))
    | none => .done (.ok (fieldTok c w))) := by
  obtain ⟨⟨b, hb, hs⟩, h2, h3, h4⟩ := h
  have hw : ∀ k ∈ [ascii "NOT", ascii "IS", ascii "true", ascii "false"], w ≠ k := by
    intro k hk hw
    subst hw
    have : ∀ k ∈ [ascii "NOT", ascii "IS", ascii "true", ascii "false"], ∀ b ∈ k, special b = false := by decide
    rw [this _ hk b hb] at hs
    cases hs
  have hn : isNum w = false := by
    cases hn : isNum w with
    | false => rfl
    | true => rw [isNum_plain hn b hb] at hs; cases hs
  have hw1 := hw (ascii "NOT") (by simp)
  have hw2 := hw (ascii "IS") (by simp)
  have hw3 := hw (ascii "true") (by simp)
  have hw4 := hw (ascii "false") (by simp)
  unfold look
  rw [if_neg (by simp [hw1, hw2]), if_neg (by simp [h2]), h3]
  rw [show (if c.sub.mode = .value then (none : Option Nat) else none) = none by split <;> rfl]
  dsimp only
  rw [if_neg (by simp [hn]), if_neg hw3, if_neg hw4, h4]
  rfl

theorem fns_plain : ∀ p ∈ allFns, ascii p.1 ≠ [] ∧ ∀ b ∈ ascii p.1, special b = false := by decide

theorem find_plain (u : Str) (b : Nat) (v : Str) (hu : ∀ x ∈ u, special x = false) (hb : special b = true) : (u ++ b :: v).find? special = some b := by
  induction u with
  | nil => simp [hb]
  | cons x u ih =>
    rw [List.cons_append, List.find?_cons_of_neg (by rw [hu x (by simp)]; simp)]
    exact ih fun y hy => hu y (List.mem_cons_of_mem _ hy)

theorem sym_ne_nil {s : Str} (hs : s ∈ symWords) : ∃ b r, s = b :: r ∧ symChar b = true := by
  obtain ⟨h1, h2, _⟩ := sym_facts s hs
  cases s with
  | nil => exact absurd rfl h1
  | cons b r => exact ⟨b, r, rfl, h2 b (by simp)⟩

theorem special_of_sym {b : Nat} (h : symChar b = true) : special b = true := by simp [special, h]

theorem noFunc_plain (u : Str) (b : Nat) (v : Str) (hu : ∀ x ∈ u, special x = false) (hb : special b = true) (h40 : b ≠ 40 ∨ u = []) :
    funcKey (u ++ b :: v) = none := by
  cases hf : funcKey (u ++ b :: v) with
  | none => rfl
  | some key =>
    obtain ⟨⟨p, hp, rfl⟩, z, hz⟩ := funcKey_some hf
    obtain ⟨h1, h2⟩ := fns_plain p hp
    rcases h40 with h40 | rfl
    · have ha := find_plain u b v hu hb
      have hb' := find_plain (ascii p.1) 40 z h2 (by decide)
      rw [← hz, List.append_assoc] at ha
      rw [show [40] ++ z = 40 :: z from rfl, hb'] at ha
      injection ha with ha
      exact absurd ha.symm h40
    · cases hk : ascii p.1 with
      | nil => exact absurd hk h1
      | cons x k =>
        rw [hk] at hz
        simp only [List.nil_append, List.cons_append, List.cons.injEq] at hz
        have := h2 x (by rw [hk]; simp)
        rw [hz.1, hb] at this
        cases this

/-- The first special character. -/
theorem mixed_of (p : List Tok) (hp : PartOk p) (hl : 2 ≤ p.length) : Mixed (flat p) := by
  obtain ⟨hg, hc⟩ := hp
  cases p with
  | nil => simp at hl
  | cons x p =>
  cases p with
  | nil => simp at hl
  | cons y r =>
  obtain ⟨kx, x⟩ := x
  obtain ⟨ky, y⟩ := y
  have hx : IsTok kx x := good_head hg
  have hy : IsTok ky y := good_head (good_tail hg)
  have hf : follows kx ky = true := good_next hg
  have hcx : kx ≠ .cls := hc _ _ _ rfl
  have hw : flat ((kx, x) :: (ky, y) :: r) = x ++ (y ++ flat r) := by rw [flat_cons, flat_cons]
  rw [hw]
  have notOp : ∀ w : Str, ((40 ∈ w ∨ 41 ∈ w) ∨ ((∃ b ∈ w, symChar b = true) ∧ ∃ b ∈ w, symChar b = false)) → isOpTok w = false := by
    intro w hw
    cases ho : isOpTok w with
    | false => rfl
    | true =>
      exfalso
      obtain ⟨_, h1, h2⟩ := op_facts w (isOpTok_mem w ho)
      rcases hw with (h | h) | ⟨⟨b, hb, hb'⟩, d, hd, hd'⟩
      · exact (h1 _ h).1 rfl
      · exact (h1 _ h).2 rfl
      · rcases h2 with h2 | h2
        · rw [h2 d hd] at hd'; cases hd'
        · rw [h2 b hb] at hb'; cases hb'
  have plainMem : ∀ {t : Str}, Plain t → ∃ b ∈ t, symChar b = false := by
    intro t ht
    cases t with
    | nil => exact absurd rfl ht.ne
    | cons b t => exact ⟨b, by simp, (ht.chars b (by simp)).1⟩
  cases kx with
  | cls => exact absurd rfl hcx
  | key => cases ky <;> cases hf
  | neg => cases ky <;> cases hf
  | opn =>
    have hx' : x = [40] := hx
    subst hx'
    exact ⟨⟨40, by simp, by decide⟩, notOp _ (.inl (.inl (by simp))), quoteOf_none _ (by simp), noFunc_plain [] 40 _ (by simp) (by decide) (.inr rfl)⟩
  | sym =>
    obtain ⟨b, s, rfl, hb⟩ := sym_ne_nil hx
    refine ⟨⟨b, by simp, special_of_sym hb⟩, notOp _ ?_, quoteOf_none _ ?_, noFunc_plain [] b _ (by simp) (special_of_sym hb) (.inr rfl)⟩
    · cases ky with
      | atom => obtain ⟨d, hd, hd'⟩ := plainMem hy.1; exact .inr ⟨⟨b, by simp, hb⟩, d, by simp [hd], hd'⟩
      | quoted => obtain ⟨d, hd, hd'⟩ := plainMem hy.1; exact .inr ⟨⟨b, by simp, hb⟩, d, by simp [hd], hd'⟩
      | opn => have hy' : y = [40] := hy; subst hy'; exact .inl (.inl (by simp))
      | sym => cases hf
      | cls => cases hf
      | key => cases hf
      | neg => cases hf
    · constructor <;> (simp only [List.cons_append, List.head?_cons, ne_eq, Option.some.injEq]; rintro rfl; revert hb; decide)
  | atom =>
    have hq : (x ++ (y ++ flat r)).head? ≠ some 34 ∧ (x ++ (y ++ flat r)).head? ≠ some 39 := by
      cases x with
      | nil => exact absurd rfl hx.1.ne
      | cons a x => exact ⟨hx.2.1, hx.2.2.1⟩
    cases ky with
    | sym =>
      obtain ⟨b, s, rfl, hb⟩ := sym_ne_nil hy
      obtain ⟨d, hd, hd'⟩ := plainMem hx.1
      refine ⟨⟨b, by simp, special_of_sym hb⟩, notOp _ (.inr ⟨⟨b, by simp, hb⟩, d, by simp [hd], hd'⟩), quoteOf_none _ hq, ?_⟩
      exact noFunc_plain x b _ hx.1.special (special_of_sym hb) (.inl (by rintro rfl; revert hb; decide))
    | cls =>
      have hy' : y = [41] := hy
      subst hy'
      exact ⟨⟨41, by simp, by decide⟩, notOp _ (.inl (.inr (by simp))), quoteOf_none _ hq, noFunc_plain x 41 _ hx.1.special (by decide) (.inl (by decide))⟩
    | atom => cases hf
    | quoted => cases hf
    | opn => cases hf
    | key => cases hf
    | neg => cases hf
  | quoted =>
    cases ky with
    | cls =>
      have hall : ∀ z ∈ (Kind.cls, y) :: r, z.1 = .cls := (show Good ((Kind.quoted, x) :: (Kind.cls, y) :: r) from hg).2.2.1 rfl
      have hrep : y ++ flat r = List.replicate ((Kind.cls, y) :: r).length 41 :=
        flat_same .cls 41 (fun t ht => ht) ((.cls, y) :: r) fun z hz => ⟨hall z hz, good_all _ (good_tail hg) z hz⟩
      have hlast : (x ++ (y ++ flat r)).getLast? = some 41 := by
        rw [hrep, List.length_cons, List.replicate_succ']
        simp
      have hy' : y = [41] := hy
      subst hy'
      refine ⟨⟨41, by simp, by decide⟩, notOp _ (.inl (.inr (by simp))), ?_, noFunc_plain x 41 _ hx.1.special (by decide) (.inl (by decide))⟩
      unfold quoteOf
      rw [hlast]
      simp
    | atom => cases hf
    | quoted => cases hf
    | sym => cases hf
    | opn => cases hf
    | key => cases hf
    | neg => cases hf

theorem noOp_cls (u : Str) (hu : NoOp u) (n : Nat) : NoOp (u ++ List.replicate n 41) := by
  induction n with
  | zero => simpa using hu
  | succ n ih =>
    intro k hk hi
    rw [List.replicate_succ', ← List.append_assoc, List.infix_concat_iff] at hi
    rcases hi with hi | hi
    · obtain ⟨z, hz⟩ := hi
      obtain ⟨h1, h2, _⟩ := op_facts k hk
      have hl : k.getLast? = some 41 := by
        have := congrArg List.getLast? hz
        rw [List.getLast?_append] at this
        cases hk' : k.getLast? with
        | none => simp at hk'; exact absurd hk' h1
        | some b => rw [hk'] at this; simpa using this
      exact (h2 41 (List.mem_of_getLast? hl)).2 rfl
    · exact ih k hk hi

theorem partOk_of {x : Tok} {r : List Tok} (h : Good (x :: r)) (hx : x.1 ≠ .cls) : PartOk (x :: r) :=
  ⟨h, fun a b c he => by injection he with he _; rw [← he]; exact hx⟩

theorem partOk_one {x : Tok} (h : IsTok x.1 x.2) : PartOk [x] := ⟨good_one h, fun a b c he => by cases he⟩

/-- Behind a name or number and closing parentheses there is a symbol. -/
theorem upto_sym : ∀ (p : List Tok) (x : Tok), Good (x :: p) → (x.1 = .atom ∨ x.1 = .cls) → (p = [] → x.1 = .cls) →
    (∀ z, (x :: p).getLast? = some z → z.1 ≠ .cls) → ∃ q s post, p = q ++ (.sym, s) :: post ∧ ∀ z ∈ q, z.1 = .cls := by
  intro p
  induction p with
  | nil => intro x _ _ h1 h2; exact absurd (h1 rfl) (h2 x rfl)
  | cons y p ih =>
    intro x hg hx _ hl
    have hf := good_next hg
    have hy : y.1 = .sym ∨ y.1 = .cls := by
      rcases hx with hx | hx <;> rw [hx] at hf <;> revert hf <;> cases y.1 <;> simp [follows]
    rcases hy with hy | hy
    · exact ⟨[], y.2, p, by rw [← hy]; rfl, by simp⟩
    · obtain ⟨q, s, post, h1, h2⟩ := ih y (good_tail hg) (.inr hy) (fun _ => hy) (by simpa using hl)
      exact ⟨y :: q, s, post, by rw [h1]; rfl, by simpa [hy] using h2⟩

theorem unfinished_none {w : Str} (h : w.head? ≠ some 34 ∧ w.head? ≠ some 39) : unfinished w = none := by
  cases w with
  | nil => rfl
  | cons b w =>
    simp only [List.head?_cons, ne_eq, Option.some.injEq] at h
    unfold unfinished
    simp [hasPrefix, h.1, h.2, Ne.symm h.1, Ne.symm h.2]

/-- Looking at a word of several tokens splits it between tokens. -/
theorem look_glued (N : Env E) (c : Ctx) (p : List Tok) (hp : PartOk p) (hl : 2 ≤ p.length) :
    ∃ qs q r, look N c (flat p) = .again (c.replace (qs.map flat)) ∧ qs.flatten = p ∧ (∀ q ∈ qs, PartOk q) ∧ qs = q :: r ∧ q.length < p.length := by
  have hm := mixed_of p hp hl
  rw [look_mixed N c _ hm]
  obtain ⟨hg, hc⟩ := hp
  have hall := good_all p hg
  -- the first token
  obtain ⟨x, y, r, rfl⟩ : ∃ x y r, p = x :: y :: r := by
    match p, hl with
    | x :: y :: r, _ => exact ⟨x, y, r, rfl⟩
  have hx := good_head hg
  have hcx := hc _ _ _ rfl
  -- the last token
  obtain ⟨z, hz⟩ : ∃ z, (x :: y :: r).getLast? = some z := ⟨_, List.getLast?_eq_some_getLast (by simp)⟩
  have hzt := hall z (List.mem_of_getLast? hz)
  have hlast := flat_getLast _ z hz (tok_ne hzt)
  have hhead := flat_head x (y :: r) (tok_ne hx)
  have hlen : 2 ≤ (flat (x :: y :: r)).length := by
    have h1 := List.length_pos_iff.2 (tok_ne hx)
    have h2 := List.length_pos_iff.2 (tok_ne (good_head (good_tail hg)))
    rw [flat_cons, flat_cons]; simp; omega
  have hn1 : ∀ b, flat (x :: y :: r) ≠ [b] := by intro b h; rw [h] at hlen; simp at hlen
  have suffixCase : ∀ (k : Kind) (ch : Nat), (∀ t, IsTok k t → t = [ch]) → (∀ j t, IsTok j t → j ≠ k → ch ∉ t) → x.1 ≠ k → z.1 = k →
      ∃ qs q r', Next.again (parenSuffix c (flat (x :: y :: r)) ch) = .again (c.replace (qs.map flat)) ∧ qs.flatten = x :: y :: r ∧
        (∀ q ∈ qs, PartOk q) ∧ qs = q :: r' ∧ q.length < (x :: y :: r).length := by
    intro k ch hk hno hxk hzk
    obtain ⟨p', q, h1, h2, h3⟩ := trail k (x :: y :: r)
    have hq : flat q = List.replicate q.length ch := flat_same k ch hk q fun t ht => ⟨h2 t ht, hall t (by rw [h1]; simp [ht])⟩
    have hqm : (q.map fun t => [t]).map flat = List.replicate q.length [ch] := by
      rw [List.map_map, List.eq_replicate_iff]
      refine ⟨by simp, fun b hb => ?_⟩
      obtain ⟨t, ht, rfl⟩ := List.mem_map.1 hb
      rw [Function.comp, flat_one, hk t.2 (h2 t ht ▸ hall t (by rw [h1]; simp [ht]))]
    have hqne : q ≠ [] := by
      rintro rfl
      rw [List.append_nil] at h1
      exact h3 z (h1 ▸ hz) hzk
    obtain ⟨p'', rfl⟩ : ∃ p'', p' = x :: p'' := by
      cases p' with
      | nil => rw [List.nil_append] at h1; exact absurd (h2 x (by rw [← h1]; simp)) hxk
      | cons x' p'' => injection h1 with h1 _; exact ⟨p'', by rw [h1]⟩
    have hul : (flat (x :: p'')).getLast? ≠ some ch := by
      obtain ⟨z', hz'⟩ : ∃ z, (x :: p'').getLast? = some z := ⟨_, List.getLast?_eq_some_getLast (by simp)⟩
      have ht := hall z' (by rw [h1]; simp only [List.mem_append]; exact .inl (List.mem_of_getLast? hz'))
      rw [flat_getLast _ z' hz' (tok_ne ht)]
      intro hh
      exact hno z'.1 z'.2 ht (h3 z' hz') (List.mem_of_getLast? hh)
    refine ⟨(x :: p'') :: q.map fun t => [t], x :: p'', q.map fun t => [t], ?_, ?_, ?_, rfl, ?_⟩
    · rw [h1, flat_append, hq, suffix_glued ch _ _ hul, List.map_cons, hqm]
    · rw [List.flatten_cons, h1]
      congr 1
      clear hq hqm hqne h1 h2 h3 hul
      induction q with
      | nil => rfl
      | cons a q ih => simpa using ih
    · intro t ht
      rw [List.mem_cons] at ht
      rcases ht with rfl | ht
      · exact partOk_of (good_left _ q (h1 ▸ hg) (by simp)) hcx
      · obtain ⟨a, ha, rfl⟩ := List.mem_map.1 ht
        exact partOk_one (hall a (by rw [h1]; simp [ha]))
    · rw [h1, List.length_append]
      have := List.length_pos_iff.2 hqne
      omega
  by_cases hxo : x.1 = .opn
  · -- an opening parenthesis
    have hx' : x.2 = [40] := by have := hx; rw [hxo] at this; exact this
    have hw : flat (x :: y :: r) = 40 :: flat (y :: r) := by rw [flat_cons, hx']; rfl
    have hpre : hasPrefix [40] (flat (x :: y :: r)) = true := by rw [hw]; exact (hasPrefix_iff _ _).2 ⟨flat (y :: r), rfl⟩
    refine ⟨[[x], y :: r], [x], [y :: r], ?_, by simp, ?_, rfl, by simp⟩
    · rw [if_pos (by rw [hw]; simp)]
      unfold lookParen
      rw [if_pos (by rw [hpre]; simpa using hn1 40)]
      unfold parenPrefix
      rw [trimPrefix, if_pos hpre, hw]
      show Next.again (c.replace [[40], flat (y :: r)]) = Next.again (c.replace [flat [x], flat (y :: r)])
      rw [flat_one, hx']
    · intro q hq
      simp only [List.mem_cons, List.not_mem_nil, or_false] at hq
      rcases hq with rfl | rfl
      · exact partOk_one hx
      · refine partOk_of (good_tail hg) ?_
        have := good_next hg
        rw [hxo] at this
        intro hy; rw [hy] at this; cases this
  · have hnp : hasPrefix [40] (flat (x :: y :: r)) = false := by
      cases hh : hasPrefix [40] (flat (x :: y :: r)) with
      | false => rfl
      | true =>
        exfalso
        obtain ⟨v, hv⟩ := (hasPrefix_iff _ _).1 hh
        rw [← hv] at hhead
        have := List.mem_of_head? hhead.symm
        exact tok_no40 hx hxo this
    by_cases hzo : z.1 = .opn
    · -- opening parentheses at the end
      have hz' : z.2 = [40] := by have := hzt; rw [hzo] at this; exact this
      have hsuf : hasSuffix [40] (flat (x :: y :: r)) = true := by rw [hasSuffix_one, hlast, hz']; simp
      have hmem : 40 ∈ flat (x :: y :: r) := List.mem_of_getLast? (by rw [hlast, hz']; rfl)
      rw [if_pos (by simp [hmem])]
      unfold lookParen
      rw [if_neg (by rw [hnp]; simp), if_pos (by rw [hsuf]; simpa using hn1 40)]
      exact suffixCase .opn 40 (fun t ht => ht) (fun j t ht hj => tok_no40 ht hj) hxo hzo
    · have hns : hasSuffix [40] (flat (x :: y :: r)) = false := by
        rw [hasSuffix_one, hlast]
        simp only [decide_eq_false_iff_not]
        intro hh
        exact tok_no40 hzt hzo (List.mem_of_getLast? hh)
      by_cases hzc : z.1 = .cls
      · -- closing parentheses at the end
        have hz' : z.2 = [41] := by have := hzt; rw [hzc] at this; exact this
        have hsuf : hasSuffix [41] (flat (x :: y :: r)) = true := by rw [hasSuffix_one, hlast, hz']; simp
        have hmem : 41 ∈ flat (x :: y :: r) := List.mem_of_getLast? (by rw [hlast, hz']; rfl)
        rw [if_pos (by simp [hmem])]
        unfold lookParen
        rw [if_neg (by rw [hnp]; simp), if_neg (by rw [hns]; simp), if_pos (by rw [hsuf]; simpa using hn1 41)]
        exact suffixCase .cls 41 (fun t ht => ht) (fun j t ht hj => tok_no41 ht hj) hcx hzc
      · -- a symbol
        have hns' : hasSuffix [41] (flat (x :: y :: r)) = false := by
          rw [hasSuffix_one, hlast]
          simp only [decide_eq_false_iff_not]
          intro hh
          exact tok_no41 hzt hzc (List.mem_of_getLast? hh)
        have hnp' : hasPrefix [41] (flat (x :: y :: r)) = false := by
          cases hh : hasPrefix [41] (flat (x :: y :: r)) with
          | false => rfl
          | true =>
            exfalso
            obtain ⟨v, hv⟩ := (hasPrefix_iff _ _).1 hh
            rw [← hv] at hhead
            exact tok_no41 hx hcx (List.mem_of_head? hhead.symm)
        have hf := good_next hg
        have hkx : x.1 = .atom ∨ x.1 = .sym := by
          have hq : x.1 ≠ .quoted := by
            intro hq
            have hg' : Good (x :: y :: r) := hg
            have := hg'.2.2.1 hq z (by
              have : (y :: r).getLast? = some z := by simpa using hz
              exact List.mem_of_getLast? this)
            exact hzc this
          revert hxo hcx hq hf
          cases x.1 <;> cases y.1 <;> simp [follows]
        obtain ⟨pre, s, post, hdec, hpre⟩ : ∃ pre s post, x :: y :: r = pre ++ (.sym, s) :: post ∧ (pre = [] ∨ (x.1 = .atom ∧ ∃ q, pre = x :: q ∧ ∀ z ∈ q, z.1 = .cls)) := by
          rcases hkx with hk | hk
          · obtain ⟨q, s, post, h1, h2⟩ := upto_sym (y :: r) x hg (.inl hk) (by simp) (by
              intro z' hz'; rw [hz] at hz'; injection hz' with hz'; rw [← hz']; exact hzc)
            exact ⟨x :: q, s, post, by rw [h1]; rfl, .inr ⟨hk, q, rfl, h2⟩⟩
          · exact ⟨[], x.2, y :: r, by rw [← hk]; rfl, .inl rfl⟩
        have hs : s ∈ symWords := hall (.sym, s) (by rw [hdec]; simp)
        have hpreG : pre ≠ [] → Good pre := fun h => good_left pre _ (hdec ▸ hg) h
        have hpreF : NoOp (flat pre) ∧ (∀ b ∈ flat pre, symChar b = false) ∧ (pre ≠ [] → flat pre ≠ []) := by
          rcases hpre with rfl | ⟨hk, q, rfl, hq⟩
          · refine ⟨?_, by simp [flat], fun h => absurd rfl h⟩
            intro k hk hi
            obtain ⟨hne, _⟩ := op_facts k hk
            exact hne (List.infix_nil.1 hi)
          · have hq' : flat q = List.replicate q.length 41 :=
              flat_same .cls 41 (fun t ht => ht) q fun t ht => ⟨hq t ht, hall t (by rw [hdec]; simp [ht])⟩
            have hat : Plain x.2 := by have := hx; rw [hk] at this; exact this.1
            refine ⟨?_, ?_, ?_⟩
            · rw [flat_cons, hq']; exact noOp_cls _ hat.noOp _
            · intro b hb
              rw [flat_cons, hq', List.mem_append] at hb
              rcases hb with hb | hb
              · exact (hat.chars b hb).1
              · rw [(List.mem_replicate.1 hb).2]; decide
            · intro _ h
              rw [flat_cons] at h
              exact hat.ne (List.append_eq_nil_iff.1 h).1
        have hpost : post = [] ∨ ∃ y' r', post = y' :: r' ∧ Good post ∧ (y'.1 = .atom ∨ y'.1 = .quoted ∨ y'.1 = .opn) := by
          cases post with
          | nil => exact .inl rfl
          | cons y' r' =>
            have hg2 : Good ((Kind.sym, s) :: y' :: r') := good_right pre _ (hdec ▸ hg) (by simp)
            have hf2 := good_next hg2
            refine .inr ⟨y', r', rfl, good_tail hg2, ?_⟩
            revert hf2
            show follows .sym y'.1 = true → _
            cases y'.1 <;> simp [follows]
        have hpostH : ∀ b, (flat post).head? = some b → symChar b = false := by
          intro b hb
          rcases hpost with rfl | ⟨y', r', rfl, hgp, hk⟩
          · simp [flat] at hb
          · have hty := good_head hgp
            rw [flat_head y' r' (tok_ne hty)] at hb
            have hb' := List.mem_of_head? hb
            rcases hk with hk | hk | hk <;> rw [hk] at hty
            · exact (hty.1.chars b hb').1
            · exact (hty.1.chars b hb').1
            · rw [show y'.2 = [40] from hty] at hb'
              simp at hb'; subst hb'; decide
        have hpostN : post ≠ [] → flat post ≠ [] := by
          rcases hpost with rfl | ⟨y', r', rfl, hgp, hk⟩
          · exact fun h => absurd rfl h
          · intro _ h
            rw [flat_cons] at h
            exact tok_ne (good_head hgp) (List.append_eq_nil_iff.1 h).1
        have hw : flat (x :: y :: r) = flat pre ++ s ++ flat post := by rw [hdec, flat_append, flat_cons, List.append_assoc]
        have hseek : seek (flat (x :: y :: r)) = some s := by rw [hw]; exact seek_glued _ _ _ hpreF.1 hpreF.2.1 hs hpostH
        have hone : pre ≠ [] ∨ post ≠ [] := by
          by_cases h : pre = []
          · right
            rintro rfl
            rw [h] at hdec; simp at hdec
          · exact .inl h
        have hsplit : splitFirst (flat (x :: y :: r)) s = ((if pre = [] then [] else [pre]) ++ [[(Kind.sym, s)]] ++ (if post = [] then [] else [post])).map flat := by
          rw [hw, split_glued _ _ _ hpreF.2.1 hs (hone.imp hpreF.2.2 hpostN)]
          rw [List.map_append, List.map_append]
          congr 1
          · congr 1
            · by_cases h : pre = []
              · subst h; rfl
              · rw [if_neg h, if_neg (hpreF.2.2 h)]; rfl
            · show [s] = [flat [(Kind.sym, s)]]
              rw [flat_one]
          · by_cases h : post = []
            · subst h; rfl
            · rw [if_neg h, if_neg (hpostN h)]; rfl
        have hlook : (if (flat (x :: y :: r)).contains 40 || (flat (x :: y :: r)).contains 41 then lookParen c (flat (x :: y :: r))
            else match (if c.sub.mode = .value then unfinished (flat (x :: y :: r)) else none) with
            | some q => Next.words q
            | none => match seek (flat (x :: y :: r)) with
              | some d => .again (c.replace (splitFirst (flat (x :: y :: r)) d))
              | none => .done (.ok (fieldTok c (flat (x :: y :: r))))) = .again (c.replace (splitFirst (flat (x :: y :: r)) s)) := by
          by_cases hp : ((flat (x :: y :: r)).contains 40 || (flat (x :: y :: r)).contains 41) = true
          · rw [if_pos hp]
            unfold lookParen
            rw [if_neg (by rw [hnp]; simp), if_neg (by rw [hns]; simp), if_neg (by rw [hns']; simp), if_neg (by rw [hnp']; simp), if_neg (hn1 41), if_neg (hn1 40), hseek]
          · rw [if_neg hp, unfinished_none, hseek]
            · rw [show (if c.sub.mode = .value then (none : Option Nat) else none) = none by split <;> rfl]
            · rw [hhead]
              rcases hkx with hk | hk
              · rw [hk] at hx; exact ⟨hx.2.1, hx.2.2.1⟩
              · rw [hk] at hx
                obtain ⟨b, v, hb, hb'⟩ := sym_ne_nil hx
                rw [hb]
                constructor <;> (simp only [List.head?_cons, ne_eq, Option.some.injEq]; rintro rfl; revert hb'; decide)
        rw [hlook, hsplit]
        have hok : ∀ q ∈ (if pre = [] then [] else [pre]) ++ [[(Kind.sym, s)]] ++ (if post = [] then [] else [post]), PartOk q := by
          intro q hq
          simp only [List.mem_append, List.mem_singleton] at hq
          rcases hq with (hq | hq) | hq
          · by_cases h : pre = []
            · simp [h] at hq
            · rw [if_neg h, List.mem_singleton] at hq
              subst hq
              rcases hpre with hpre | ⟨_, q', rfl, _⟩
              · exact absurd hpre h
              · exact partOk_of (hpreG h) hcx
          · subst hq; exact partOk_one hs
          · rcases hpost with rfl | ⟨y', r', rfl, hgp, hk⟩
            · simp at hq
            · simp at hq
              subst hq
              refine partOk_of hgp ?_
              rcases hk with hk | hk | hk <;> rw [hk] <;> decide
        refine ⟨_, (if pre = [] then [(Kind.sym, s)] else pre), (if pre = [] then [] else [[(Kind.sym, s)]]) ++ (if post = [] then [] else [post]), rfl, ?_, hok, ?_, ?_⟩
        · rw [hdec]
          by_cases h1 : pre = [] <;> by_cases h2 : post = [] <;> simp [h1, h2]
        · by_cases h1 : pre = [] <;> simp [h1]
        · by_cases h1 : pre = []
          · simp [h1]
          · rw [if_neg h1, hdec]; simp

end Verif.Simple
