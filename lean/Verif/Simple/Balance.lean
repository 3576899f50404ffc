import Verif.Simple.Ends
import Verif.Simple.Theorems
import Verif.Simple.Acyclic
import Verif.Simple.Findings

/-!
# Accepted texts have balanced parentheses
-/

namespace Verif.Simple
open Verif.FastVal Verif.Expr

variable {E : Ext}

/-! ### Specification -/

/-- The depth after reading parentheses from depth `d`; `none` when one is closed that was not opened. -/
def nesting : Nat → Str → Option Nat
  | d, [] => some d
  | d, 40 :: s => nesting (d + 1) s
  | 0, 41 :: _ => none
  | d + 1, 41 :: s => nesting d s
  | d, _ :: s => nesting d s

/-- Every parenthesis of the text is opened and closed. -/
def Balanced (text : Str) : Prop := nesting 0 text = some 0

/-- A text without quotes in which no parenthesis opens inside a word (as it does in a call). -/
def Bare (text : Str) : Prop :=
  (∀ b ∈ text, b ≠ 34 ∧ b ≠ 39 ∧ b ≠ 96) ∧ ∀ u v b, text = u ++ b :: 40 :: v → white b = true ∨ b = 40

/-! ### Parentheses of tokens -/

def isParen (b : Nat) : Bool := b = 40 || b = 41

def parens (ts : List Str) : Str := ts.flatten.filter isParen

theorem nesting_filter : ∀ (s : Str) (d : Nat), nesting d (s.filter isParen) = nesting d s := by
  intro s
  induction s with
  | nil => intro d; rfl
  | cons b s ih =>
    intro d
    by_cases h1 : b = 40
    · subst h1; exact ih _
    · by_cases h2 : b = 41
      · subst h2
        cases d with
        | zero => rfl
        | succ d => exact ih d
      · rw [List.filter_cons_of_neg (by simp [isParen, h1, h2]), ih]
        rw [nesting]
        · simpa using h1
        · rintro - rfl; exact h2 rfl
        · rintro _ - rfl; exact h2 rfl

theorem parens_cons (t : Str) (ts : List Str) : parens (t :: ts) = t.filter isParen ++ parens ts := by simp [parens]
theorem parens_append (a b : List Str) : parens (a ++ b) = parens a ++ parens b := by simp [parens]

theorem filter_nil_of {t : Str} (h1 : 40 ∉ t) (h2 : 41 ∉ t) : t.filter isParen = [] := by
  rw [List.filter_eq_nil_iff]
  intro b hb
  simp only [isParen, Bool.or_eq_true, decide_eq_true_eq, not_or]
  exact ⟨fun h => h1 (h ▸ hb), fun h => h2 (h ▸ hb)⟩

/-- A token without quotes in which parentheses open only at the start. -/
structure Clean (t : Str) : Prop where
  quotes : ∀ b ∈ t, b ≠ 34 ∧ b ≠ 39 ∧ b ≠ 96
  opens : 40 ∉ t.dropWhile (· = 40)

theorem Clean.of_none {t : Str} (hq : ∀ b ∈ t, b ≠ 34 ∧ b ≠ 39 ∧ b ≠ 96) (h : 40 ∉ t) : Clean t :=
  ⟨hq, fun hx => h (List.dropWhile_subset _ hx)⟩

theorem Clean.pieces {t : Str} {ts : List Str} (h : Clean t) (h40 : 40 ∉ t) (hp : ∀ p ∈ ts, ∀ x ∈ p, x ∈ t) : ∀ p ∈ ts, Clean p :=
  fun p hpp => .of_none (fun b hb => h.quotes b (hp p hpp b hb)) (fun hb => h40 (hp p hpp 40 hb))

/-- A clean token that does not start with an opening parenthesis has none. -/
theorem Clean.noOpen {t : Str} (h : Clean t) (hp : hasPrefix [40] t = false) : 40 ∉ t := by
  cases t with
  | nil => simp
  | cons b t =>
    have hb : b ≠ 40 := by rintro rfl; simp [hasPrefix] at hp
    have := h.opens
    rwa [List.dropWhile_cons_of_neg (by simpa using hb)] at this

theorem cut_parens : ∀ {t d a b : Str}, cut d t = some (a, b) → t = a ++ d ++ b := fun h => cut_split _ _ _ _ h

theorem trim_filter (d s : Str) (hd : ∀ x ∈ d, isParen x = false) : (trim d s).filter isParen = s.filter isParen := by
  have hdrop : ∀ s : Str, (s.dropWhile d.contains).filter isParen = s.filter isParen := by
    intro s
    induction s with
    | nil => rfl
    | cons b s ih =>
      by_cases hb : d.contains b = true
      · rw [List.dropWhile_cons_of_pos hb, ih, List.filter_cons_of_neg]
        rw [hd b (List.contains_iff_mem.1 hb)]
        simp
      · rw [List.dropWhile_cons_of_neg hb]
  rw [trim, List.filter_reverse, hdrop, List.filter_reverse, List.reverse_reverse, hdrop]

theorem op_noParen {d : Str} (h : isOpTok d = true) : ∀ x ∈ d, isParen x = false := by
  simp only [isOpTok, isChainTok, isEqTok, isCompareTok, isLikeTok, isOnlyTok, Bool.or_eq_true, decide_eq_true_eq] at h
  rcases h with ((((((rfl | rfl) | rfl) | rfl) | ((rfl | rfl) | rfl)) | (((rfl | rfl) | rfl) | rfl)) | ((rfl | rfl) | rfl)) | (((rfl | rfl) | rfl) | rfl) <;> decide

theorem split_parens {t d : Str} (hd : ∀ x ∈ d, isParen x = false) : parens (splitFirst t d) = t.filter isParen := by
  have hdf : d.filter isParen = [] := by
    rw [List.filter_eq_nil_iff]; intro b hb; rw [hd b hb]; simp
  unfold splitFirst
  split
  · rename_i h; simp [parens, h]
  · split
    · simp [parens]
    · rename_i a b hc
      have ht := cut_split _ _ _ _ hc
      split
      · rename_i h
        have : a = [] := by simpa using h
        subst this
        rw [ht]; simp [parens, hdf]
      · split
        · rename_i h
          simp only [Bool.and_eq_true, decide_eq_true_eq] at h
          rw [trimSuffix, if_pos h.2, ht, h.1]
          simp [parens, hdf]
        · rw [parens_cons, trim_filter _ _ hd, ht]
          simp [parens, hdf]

theorem prefix_parens {t : Str} {p : Nat} (hp : hasPrefix [p] t = true) : parens [[p], trimPrefix [p] t] = t.filter isParen := by
  obtain ⟨r, rfl⟩ := (hasPrefix_iff _ _).1 hp
  rw [trimPrefix, if_pos hp]
  simp [parens, List.filter_cons]

theorem suffix_parens (t : Str) (p : Nat) :
    parens ((t.reverse.dropWhile (· = p)).reverse :: (t.reverse.takeWhile (· = p)).map fun x => [x]) = t.filter isParen := by
  have hall : t.reverse.takeWhile (· = p) = List.replicate (t.reverse.takeWhile (· = p)).length p := by
    rw [List.eq_replicate_iff]
    refine ⟨rfl, fun b hb => ?_⟩
    simpa using List.all_eq_true.1 (List.all_takeWhile (l := t.reverse) (p := fun x => decide (x = p))) b hb
  have hrev : (t.reverse.takeWhile (· = p)).reverse = t.reverse.takeWhile (· = p) := by
    rw [hall, List.reverse_replicate]
  have hfl : ∀ l : Str, (l.map fun x => [x]).flatten = l := by
    intro l; induction l with
    | nil => rfl
    | cons b l ih => simp [ih]
  conv => rhs; rw [strip_split t p, hrev]
  rw [parens, List.flatten_cons, hfl]

theorem num_noParen {t : Str} (h : isNum t = true) : t.filter isParen = [] := by
  have hs : ∀ b ∈ unsigned t, digit b = true ∨ b = 46 := by
    intro b hb
    unfold isNum at h
    simp only [Bool.and_eq_true, Bool.or_eq_true, decide_eq_true_eq] at h
    rw [← List.takeWhile_append_dropWhile (p := digit) (l := unsigned t)] at hb
    rcases List.mem_append.1 hb with hb | hb
    · exact .inl (List.all_eq_true.1 List.all_takeWhile b hb)
    · rcases h.2 with h2 | ⟨⟨h2, h3⟩, h4⟩
      · rw [h2] at hb; simp at hb
      · cases hr : (unsigned t).dropWhile digit with
        | nil => rw [hr] at hb; simp at hb
        | cons x r =>
          rw [hr] at hb h2 h4
          simp only [List.head?_cons, Option.some.injEq] at h2
          rcases List.mem_cons.1 hb with rfl | hb
          · exact .inr h2
          · exact .inl (List.all_eq_true.1 h4 b (by simpa using hb))
  have ht : ∀ b ∈ t, digit b = true ∨ b = 46 ∨ b = 45 := by
    intro b hb
    unfold unsigned at hs
    split at hs
    · rename_i hh
      cases t with
      | nil => simp at hb
      | cons x r =>
        simp only [List.head?_cons, Option.some.injEq] at hh
        rcases List.mem_cons.1 hb with rfl | hb
        · exact .inr (.inr hh)
        · rcases hs b (by simpa using hb) with h | h
          · exact .inl h
          · exact .inr (.inl h)
    · rcases hs b hb with h | h
      · exact .inl h
      · exact .inr (.inl h)
  refine filter_nil_of (fun h => ?_) (fun h => ?_)
  · rcases ht _ h with h | h | h <;> revert h <;> decide
  · rcases ht _ h with h | h | h <;> revert h <;> decide

theorem func_notClean {t k : Str} (h : funcKey t = some k) : ¬ Clean t := by
  intro hc
  simp only [funcKey, Option.map_eq_some_iff] at h
  obtain ⟨p, hf, _⟩ := h
  have hm := List.mem_of_find?_eq_some hf
  have hs := List.find?_some hf
  have hname : ∃ b r, ascii p.1 = b :: r ∧ b ≠ 40 := by
    have : ∀ p ∈ table1 ++ table0 ++ table2, (match ascii p.1 with | b :: _ => decide (b ≠ 40) | [] => false) = true := by decide
    have := this p hm
    cases hh : ascii p.1 with
    | nil => rw [hh] at this; cases this
    | cons b r => rw [hh] at this; exact ⟨b, r, rfl, by simpa using this⟩
  obtain ⟨b, r, hn, hb⟩ := hname
  rw [subMatches] at hs
  cases hi : inner (ascii p.1) t with
  | none => rw [hi] at hs; cases hs
  | some m =>
    unfold inner at hi
    split at hi
    · rename_i hcond
      simp only [Bool.and_eq_true] at hcond
      obtain ⟨v, hv⟩ := (hasPrefix_iff _ _).1 hcond.1.1
      have := hc.opens
      rw [← hv, hn, List.cons_append, List.cons_append, List.dropWhile_cons_of_neg (by simpa using hb)] at this
      simp at this
    · cases hi

theorem quote_notClean {t : Str} {q : Nat} (h : quoteOf t = some q) : ¬ Clean t := by
  intro hc
  have hh : ∀ b, t.head? = some b → b ≠ 34 ∧ b ≠ 39 := fun b hb => ⟨(hc.quotes b (List.mem_of_mem_head? hb)).1, (hc.quotes b (List.mem_of_mem_head? hb)).2.1⟩
  unfold quoteOf at h
  split at h
  · rename_i h1
    simp only [Bool.and_eq_true, decide_eq_true_eq] at h1
    exact (hh _ h1.1.2).1 rfl
  · split at h
    · rename_i h1
      simp only [Bool.and_eq_true, decide_eq_true_eq] at h1
      exact (hh _ h1.1.2).2 rfl
    · cases h

theorem unfinished_notClean {t : Str} {q : Nat} (h : unfinished t = some q) : ¬ Clean t := by
  intro hc
  unfold unfinished at h
  split at h
  · rename_i h1
    simp only [Bool.and_eq_true] at h1
    obtain ⟨v, rfl⟩ := (hasPrefix_iff _ _).1 h1.1
    exact (hc.quotes 34 (by simp)).1 rfl
  · split at h
    · rename_i h1
      simp only [Bool.and_eq_true] at h1
      obtain ⟨v, rfl⟩ := (hasPrefix_iff _ _).1 h1.1
      exact (hc.quotes 39 (by simp)).2.1 rfl
    · cases h

theorem fieldChars_tick : ∀ (t : Str) (s s' : FS), 96 ∉ t → s.mode ≠ .tick → fieldChars t s = some s' → s'.mode ≠ .tick := by
  intro t
  induction t with
  | nil => intro s s' _ hm h; injection h with h; subst h; exact hm
  | cons b t ih =>
    intro s s' h96 hm h
    rw [fieldChars] at h
    split at h
    · rename_i s1 hs1
      refine ih s1 s' (fun hh => h96 (List.mem_cons_of_mem _ hh)) ?_ h
      have hb : b ≠ 96 := by rintro rfl; exact h96 (by simp)
      unfold fieldChar at hs1
      cases hmo : s.mode with
      | tick => exact absurd hmo hm
      | none =>
        rw [hmo] at hs1
        dsimp only at hs1
        rw [if_neg hb] at hs1
        split at hs1
        · injection hs1 with hs1; subst hs1; simp [FS.push]; split <;> simp [hmo]
        · split at hs1
          · injection hs1 with hs1; subst hs1; simp
          · injection hs1 with hs1; subst hs1; simp [hmo]
      | nest =>
        rw [hmo] at hs1
        dsimp only at hs1
        split at hs1
        · cases hs1
        · split at hs1
          · cases hs1
          · split at hs1
            · split at hs1
              · cases hs1
              · injection hs1 with hs1; subst hs1; simp
            · injection hs1 with hs1; subst hs1; simp [hmo]
    · cases h

theorem fieldToks_one {t : Str} {rest : List Str} {n : Nat} {p : List Str} (ht : 96 ∉ t)
    (h : fieldToks (t :: rest) ⟨.none, false, [], [], []⟩ = some (n, p)) : n = 0 := by
  rw [fieldToks] at h
  split at h
  · cases h
  · rename_i s' hs'
    have := fieldChars_tick _ _ _ ht (by simp) hs'
    split at h
    · injection h with h; injection h with h _; exact h.symm
    · cases h
    · rename_i hm; exact absurd hm this

/-! ### The parser -/

/-- The tokens not yet read. -/
def Ctx.ahead (c : Ctx) : List Str := c.tokens.drop (c.idx + if c.posOnly then 1 else 0)

/-- The depth at the end of the text if all parentheses ahead are read. -/
def Ctx.final (c : Ctx) : Option Nat := nesting c.depth (parens c.ahead)

/-- The current token is no parenthesis. -/
def Ctx.plain (c : Ctx) : Prop := ∀ t, c.tokens[c.idx]? = some t → t.filter isParen = []

def AllClean (ts : List Str) : Prop := ∀ t ∈ ts, Clean t

theorem ahead_eq {c : Ctx} (h : c.posOnly = false) : c.ahead = c.rest := by simp [Ctx.ahead, Ctx.rest, h]

/-- What `getCurrentToken` does to the parentheses. -/
structure Got (c c' : Ctx) (o : Except Err (Str × TT)) : Prop where
  pos : c'.posOnly = false
  clean : AllClean c'.rest
  none : o = .error .noMore → c'.rest = [] ∧ c'.final = c.final
  layer : o ≠ .error .layerDone
  close : ∀ tok, o = .ok (tok, .endParen) → ∃ r, c'.rest = [41] :: r ∧ nesting c'.depth (parens r) = c.final
  other : ∀ tok ty, o = .ok (tok, ty) → ty ≠ .endParen → c'.final = c.final ∧ (ty ≠ .paren → c'.plain)

def LookBal (c : Ctx) : Next → Prop
  | .done r => ∀ c' o, r = .ok (c', o) → Got c c' o
  | .again c' => c'.posOnly = false ∧ AllClean c'.rest ∧ c'.final = c.final
  | .words _ => False

theorem final_congr {c c' : Ctx} (h1 : c'.tokens = c.tokens) (h2 : c'.idx = c.idx) (h3 : c'.depth = c.depth) (h4 : c'.posOnly = c.posOnly) : c'.final = c.final := by
  simp [Ctx.final, Ctx.ahead, h1, h2, h3, h4]

/-- A token is read and nothing moves. -/
theorem lookBal_same {c c' : Ctx} {t : Str} {o : Except Err (Str × TT)} (ht : c.tokens[c.idx]? = some t) (hp : c.posOnly = false) (hc : AllClean c.rest)
    (h1 : c'.tokens = c.tokens) (h2 : c'.idx = c.idx) (h3 : c'.depth = c.depth) (h4 : c'.posOnly = c.posOnly)
    (ho : ∀ e, o = .error e → e ≠ .noMore ∧ e ≠ .layerDone) (hty : ∀ tok ty, o = .ok (tok, ty) → ty ≠ .endParen ∧ t.filter isParen = []) : LookBal c (.done (.ok (c', o))) := by
  intro c'' o' h
  injection h with h
  injection h with ha hb
  subst ha hb
  have hr : c'.rest = c.rest := by rw [Ctx.rest, Ctx.rest, h1, h2]
  refine ⟨h4.trans hp, by rw [hr]; exact hc, fun h => absurd rfl (ho _ h).1, fun h => (ho _ h).2 rfl, fun tok h => absurd rfl (hty _ _ h).1, fun tok ty h _ => ⟨final_congr h1 h2 h3 h4, fun _ t' ht' => ?_⟩⟩
  rw [h1, h2, ht] at ht'
  injection ht' with ht'
  rw [← ht']
  exact (hty _ _ h).2

theorem replace_bal {c : Ctx} {t : Str} {ts : List Str} (ht : c.tokens[c.idx]? = some t) (hp : c.posOnly = false) (hc : AllClean c.rest)
    (h1 : ∀ p ∈ ts, Clean p) (h2 : parens ts = t.filter isParen) :
    (c.replace ts).posOnly = false ∧ AllClean (c.replace ts).rest ∧ (c.replace ts).final = c.final := by
  refine ⟨hp, ?_, ?_⟩
  · rw [replace_rest ht]
    intro p hpp
    rcases List.mem_append.1 hpp with h | h
    · exact h1 p h
    · exact hc p (by rw [rest_cons ht]; exact List.mem_cons_of_mem _ h)
  · rw [Ctx.final, Ctx.final, ahead_eq hp, ahead_eq (c := c.replace ts) hp, replace_rest ht, rest_cons ht, parens_append, parens_cons, h2]
    rfl

theorem close_bal {c c1 : Ctx} {r : List Str} (hp : c1.posOnly = false) (hc : AllClean c1.rest) (hr : c1.rest = [41] :: r) (hf : c1.final = c.final) :
    LookBal c (endParen (closeParen c1)) := by
  intro c' o h
  injection h with h
  injection h with ha hb
  subst ha
  unfold closeParen at hb ⊢
  have hfin : nesting c1.depth (41 :: parens r) = c.final := by
    rw [← hf, Ctx.final, ahead_eq hp, hr]
    rfl
  by_cases hd : c1.depth = 0
  · rw [if_pos hd] at hb ⊢
    dsimp only at hb ⊢
    subst hb
    exact ⟨hp, hc, by simp, by simp, by simp, by simp⟩
  · rw [if_neg hd] at hb ⊢
    obtain ⟨d, hd'⟩ : ∃ d, c1.depth = d + 1 := ⟨c1.depth - 1, by omega⟩
    rw [hd'] at hfin
    dsimp only at hb ⊢
    by_cases h1 : (decide (c1.sub.lastOp = -1) && !c1.sub.isBool && decide (c1.sub.mode ≠ Mode.field)) = true
    · rw [if_pos h1] at hb ⊢
      dsimp only at hb ⊢
      subst hb
      exact ⟨hp, hc, by simp, by simp, by simp, by simp⟩
    · rw [if_neg h1] at hb ⊢
      dsimp only at hb ⊢
      subst hb
      refine ⟨hp, hc, by simp, by simp, fun tok _ => ⟨r, hr, ?_⟩, ?_⟩
      · show nesting (c1.depth - 1) _ = _
        rw [hd']
        exact hfin
      · intro tok ty h h2
        injection h with h
        injection h with _ h
        exact absurd h.symm h2

theorem lookParen_bal {c : Ctx} {t : Str} (ht : c.tokens[c.idx]? = some t) (hp : c.posOnly = false) (hc : AllClean c.rest) (ho : isOpTok t = false) :
    LookBal c (lookParen c t) := by
  have hct : Clean t := hc t (by rw [rest_cons ht]; simp)
  unfold lookParen
  by_cases h1 : (t ≠ [40] && hasPrefix [40] t) = true
  · rw [if_pos h1]
    simp only [Bool.and_eq_true] at h1
    refine replace_bal ht hp hc ?_ (prefix_parens h1.2)
    obtain ⟨r, rfl⟩ := (hasPrefix_iff _ _).1 h1.2
    intro p hpp
    rw [trimPrefix, if_pos h1.2] at hpp
    simp only [List.mem_cons, List.not_mem_nil, or_false] at hpp
    rcases hpp with rfl | rfl
    · exact ⟨by simp, by simp⟩
    · have hq := hct.quotes
      have hop := hct.opens
      rw [List.singleton_append, List.dropWhile_cons_of_pos (by simp)] at hop
      exact ⟨fun b hb => hq b (List.mem_append_right _ (by simpa using hb)), by simpa using hop⟩
  · rw [if_neg h1]
    have h40 : t = [40] ∨ 40 ∉ t := by
      by_cases h : t = [40]
      · exact .inl h
      · exact .inr (hct.noOpen (by simpa [h] using h1))
    by_cases h2 : (t ≠ [40] && hasSuffix [40] t) = true
    · exfalso
      simp only [Bool.and_eq_true, decide_eq_true_eq] at h2
      obtain ⟨r, hr⟩ := (hasSuffix_iff _ _).1 h2.2
      rcases h40 with h | h
      · exact h2.1 h
      · exact h (by rw [← hr]; simp)
    · rw [if_neg h2]
      by_cases h3 : (t ≠ [41] && hasSuffix [41] t) = true
      · rw [if_pos h3]
        have h40' : 40 ∉ t := by
          rcases h40 with rfl | h
          · exact absurd h3 (by decide)
          · exact h
        exact replace_bal ht hp hc (hct.pieces h40' (suffix_chars t 41)) (suffix_parens t 41)
      · rw [if_neg h3]
        by_cases h4 : (t ≠ [41] && hasPrefix [41] t) = true
        · rw [if_pos h4]
          have h40' : 40 ∉ t := by
            rcases h40 with rfl | h
            · exact absurd h4 (by decide)
            · exact h
          simp only [Bool.and_eq_true, decide_eq_true_eq] at h4
          obtain ⟨b1, b2, b3⟩ := replace_bal ht hp hc (hct.pieces h40' (prefix_pieces h4.2 h4.1).chars) (prefix_parens h4.2)
          exact close_bal b1 b2 (replace_rest ht _) b3
        · rw [if_neg h4]
          by_cases h5 : t = [41]
          · rw [if_pos h5]
            exact close_bal hp hc (by rw [rest_cons ht, h5]) rfl
          · rw [if_neg h5]
            by_cases h6 : t = [40]
            · rw [if_pos h6]
              intro c' o h
              injection h with h
              injection h with ha hb
              subst ha hb
              have hopen : openParen c = { c with depth := c.depth + 1, idx := c.idx + 1 } := by simp [openParen, advance, hp]
              rw [hopen]
              refine ⟨hp, ?_, by simp, by simp, by simp, fun tok ty h _ => ⟨?_, ?_⟩⟩
              · intro x hx
                exact hc x (by rw [rest_cons ht]; exact List.mem_cons_of_mem _ hx)
              · rw [Ctx.final, Ctx.final, ahead_eq hp, rest_cons ht, h6, parens_cons, ahead_eq (c := { c with depth := c.depth + 1, idx := c.idx + 1 }) hp]
                rfl
              · injection h with h
                injection h with _ h
                exact fun h' => absurd h.symm h'
            · rw [if_neg h6]
              have h40' : 40 ∉ t := h40.resolve_left h6
              split
              · rename_i d hs
                exact replace_bal ht hp hc (hct.pieces h40' (seek_pieces hs ho).chars) (split_parens (op_noParen (seek_some _ _ hs).1))
              · exact lookBal_same ht hp hc rfl rfl rfl rfl (by simp) (by simp)

theorem mark_pos (c : Ctx) (t : Str) : (mark c t).posOnly = c.posOnly := by
  unfold mark
  repeat' split
  all_goals rfl

theorem look_bal (N : Env E) {c : Ctx} {t : Str} (ht : c.tokens[c.idx]? = some t) (hp : c.posOnly = false) (hc : AllClean c.rest) :
    LookBal c (look N c t) := by
  have hct : Clean t := hc t (by rw [rest_cons ht]; simp)
  rw [look]
  split
  · rw [multi]
    split
    · rename_i p hf
      have hm := List.mem_of_find?_eq_some hf
      have hfs : p.1.isPrefixOf (c.tokens.drop c.idx) = true := by simpa using List.find?_some hf
      obtain ⟨r, hr⟩ := List.isPrefixOf_iff_prefix.1 hfs
      obtain ⟨h1, h2, h3, _⟩ := mark_same { c with idx := c.idx + (p.1.length - 1) } p.2
      have h4 := mark_pos { c with idx := c.idx + (p.1.length - 1) } p.2
      have hw : p.1 ≠ [] ∧ parens p.1 = [] := by
        have : ∀ p ∈ multiWords, p.1 ≠ [] ∧ parens p.1 = [] := by decide
        exact this p hm
      obtain ⟨w, x, hx⟩ : ∃ w x, p.1 = w ++ [x] := ⟨_, _, (List.dropLast_concat_getLast hw.1).symm⟩
      have hlen : p.1.length - 1 = w.length := by rw [hx]; simp
      have hrest : (mark { c with idx := c.idx + (p.1.length - 1) } p.2).rest = x :: r := by
        rw [Ctx.rest, h1, h2]
        show c.tokens.drop (c.idx + (p.1.length - 1)) = _
        rw [← List.drop_drop, ← hr, hx]
        simp
      have hpx : parens w ++ x.filter isParen = [] := by
        have := hw.2
        rw [hx, parens_append] at this
        simpa [parens] using this
      have hpx' := List.append_eq_nil_iff.1 hpx
      have hcr : c.rest = w ++ x :: r := by rw [Ctx.rest, ← hr, hx]; simp
      intro c' o h
      injection h with h
      injection h with ha hb
      subst ha hb
      refine ⟨h4.trans hp, ?_, by simp, by simp, ?_, fun tok ty h _ => ⟨?_, fun _ t' ht' => ?_⟩⟩
      · rw [hrest]
        intro y hy
        exact hc y (by rw [hcr]; exact List.mem_append_right _ hy)
      · intro tok h
        injection h with h
        injection h with _ h
        cases h
      · rw [Ctx.final, Ctx.final, ahead_eq (h4.trans hp), hrest, h3, ahead_eq hp, hcr, parens_append, hpx'.1]
        rfl
      · have := rest_cons ht'
        rw [hrest] at this
        injection this with this _
        rw [← this]
        exact hpx'.2
    · exact lookBal_same ht hp hc rfl rfl rfl rfl (by simp) (by simp)
  · split
    · rename_i ho
      obtain ⟨h1, h2, h3, h4⟩ := mark_same c (canon t)
      refine lookBal_same ht hp hc h1 h2 h3 (mark_pos c _) (by simp) (fun tok ty h => ?_)
      injection h with h
      injection h with ha hb
      subst hb
      refine ⟨by simp, ?_⟩
      rw [List.filter_eq_nil_iff]
      intro b hb
      rw [op_noParen ho b hb]
      simp
    · rename_i ho
      have ho : isOpTok t = false := by simpa using ho
      split
      · rename_i q hq
        split at hq
        · exact absurd hct (quote_notClean hq)
        · cases hq
      · split
        · rename_i hn
          refine lookBal_same ht hp hc rfl rfl rfl rfl (by simp) (fun tok ty h => ?_)
          injection h with h
          injection h with ha hb
          subst hb
          exact ⟨by unfold valueTT; split <;> simp, num_noParen hn⟩
        · split
          · rename_i h
            subst h
            exact lookBal_same ht hp hc rfl rfl rfl rfl (by simp) (fun tok ty h => by injection h with h; injection h with ha hb; subst hb; exact ⟨by simp, rfl⟩)
          · split
            · rename_i h
              subst h
              exact lookBal_same ht hp hc rfl rfl rfl rfl (by simp) (fun tok ty h => by injection h with h; injection h with ha hb; subst hb; exact ⟨by simp, rfl⟩)
            · split
              · rename_i key hk
                exact absurd hct (func_notClean hk)
              · split
                · exact lookParen_bal ht hp hc ho
                · rename_i hno
                  have hno : 40 ∉ t ∧ 41 ∉ t := by simpa using hno
                  split
                  · rename_i q hq
                    split at hq
                    · exact absurd hct (unfinished_notClean hq)
                    · cases hq
                  · split
                    · rename_i d hs
                      have hd := (seek_some _ _ hs).1
                      exact replace_bal ht hp hc (hct.pieces hno.1 (seek_pieces hs ho).chars) (split_parens (op_noParen hd))
                    · rw [fieldTok]
                      split
                      · exact lookBal_same ht hp hc rfl rfl rfl rfl (by simp) (by simp)
                      · split
                        · exact lookBal_same ht hp hc rfl rfl rfl rfl (by simp) (by simp)
                        · rename_i i ts hi
                          have hidx : i = c.idx := by
                            rw [checkField, ht] at hi
                            split at hi
                            · cases hi
                            · cases hi
                            · rename_i t' heq
                              simp only [Option.map_eq_some_iff] at hi
                              obtain ⟨⟨n, q⟩, hf, hi⟩ := hi
                              have hr : c.tokens.drop c.idx = t :: c.tokens.drop (c.idx + 1) := rest_cons ht
                              rw [hr] at hf
                              have := fieldToks_one (fun h => (hct.quotes _ h).2.2 rfl) hf
                              subst this
                              injection hi with hi _
                              exact hi.symm
                          refine lookBal_same ht hp hc rfl hidx rfl rfl (by simp) (fun tok ty h => ?_)
                          injection h with h
                          injection h with ha hb
                          subst hb
                          exact ⟨by simp, filter_nil_of hno.1 hno.2⟩

theorem getTok_bal (N : Env E) : ∀ n c c' o, getTok N n c = .ok (c', o) → c.posOnly = false → AllClean c.rest → Got c c' o := by
  intro n
  induction n with
  | zero => intro c c' o h; cases h
  | succ n ih =>
    intro c c' o h hp hc
    rw [getTok] at h
    cases ht : c.tokens[c.idx]? with
    | none =>
      rw [ht] at h
      dsimp only at h
      injection h with h
      injection h with ha hb
      subst ha hb
      refine ⟨hp, hc, fun _ => ⟨?_, rfl⟩, by simp, by simp, by simp⟩
      rw [Ctx.rest, List.drop_eq_nil_iff]
      exact List.getElem?_eq_none_iff.1 ht
    | some t =>
      rw [ht] at h
      dsimp only at h
      have hl := look_bal N ht hp hc
      cases hx : look N c t with
      | done r => rw [hx] at h hl; exact hl _ _ h
      | again c1 =>
        rw [hx] at h hl
        obtain ⟨h1, h2, h3⟩ := hl
        have := ih _ _ _ h h1 h2
        refine ⟨this.pos, this.clean, fun hn => ?_, this.layer, fun tok ho => ?_, fun tok ty ho hty => ?_⟩
        · rw [← h3]; exact this.none hn
        · rw [← h3]; exact this.close tok ho
        · rw [← h3]; exact this.other tok ty ho hty
      | words q => rw [hx] at hl; exact hl.elim

/-! ### The parser -/

/-- `c'` stands for the same parentheses as `c`. -/
structure Even (c c' : Ctx) : Prop where
  final : c'.final = c.final
  clean : AllClean c'.ahead
  here : c'.posOnly = true ∨ c'.plain

/-- `parse` leaves a layer. -/
structure Leave (c c' : Ctx) (e : Option Err) : Prop extends Even c c' where
  done : e = none → c'.ahead = [] ∧ c'.depth = 0

theorem check_end {c : Ctx} {ty : TT} (h : (check c ty).2 = some .layerDone) : ty = .endParen ∧ (check c ty).1 = { c with posOnly := true } := by
  unfold check checkValue at *
  revert h
  cases hm : c.sub.mode <;> dsimp only <;> repeat' split
  all_goals first
    | (intro h; cases h; done)
    | (intro h; exact ⟨by assumption, rfl⟩)
    | (intro h; simp at h; split at h <;> simp at h)
    | (intro h; simp at h)

theorem check_go {c : Ctx} {ty : TT} (h : (check c ty).2 = none ∨ (check c ty).2 = some .new ∨ (check c ty).2 = some .oneNew) :
    ty ≠ .endParen ∧ (check c ty).1 = c := by
  unfold check checkValue TT.isField TT.isBool TT.isValue at *
  revert h
  cases hm : c.sub.mode <;> cases ty <;> simp
  all_goals (repeat' split) <;> simp

theorem insert_pos {c c' : Ctx} {tok : Str} {ty : TT} (h : insert c tok ty = .ok c') : c'.posOnly = c.posOnly := by
  unfold insert at h
  dsimp only at h
  split at h
  · injection h with h; subst h; rfl
  all_goals
    obtain ⟨t, _, h⟩ := Res.bind_eq_ok.1 h
    injection h with h; subst h; rfl

theorem merge_pos {c c' : Ctx} {old : Sub} {e : Option Err} (h : merge c old = .ok (c', e)) : c'.posOnly = c.posOnly := by
  unfold merge at h
  split at h
  · injection h with h; injection h with ha hb; subst ha; rfl
  · split at h
    · injection h with h; injection h with ha hb; subst ha; rfl
    · split at h
      · injection h with h; injection h with ha hb; subst ha; rfl
      · split at h
        · injection h with h; injection h with ha hb; subst ha; rfl
        · obtain ⟨o, _, h⟩ := Res.bind_eq_ok.1 h
          obtain ⟨_, _, h⟩ := Res.bind_eq_ok.1 h
          split at h
          · injection h with h; injection h with ha hb; subst ha; rfl
          · obtain ⟨t, _, h⟩ := Res.bind_eq_ok.1 h
            obtain ⟨_, _, h⟩ := Res.bind_eq_ok.1 h
            split at h
            · injection h with h; injection h with ha hb; subst ha; rfl
            · obtain ⟨_, _, h⟩ := Res.bind_eq_ok.1 h
              obtain ⟨_, _, h⟩ := Res.bind_eq_ok.1 h
              injection h with h; injection h with ha hb; subst ha; rfl

theorem Even.same {c c1 c2 : Ctx} (h : Even c c1) (hs : Same c1 c2) (hp : c2.posOnly = c1.posOnly) : Even c c2 := by
  refine ⟨(final_congr hs.1 hs.2.1 hs.2.2 hp).trans h.final, ?_, ?_⟩
  · rw [Ctx.ahead, hs.1, hs.2.1, hp]; exact h.clean
  · rw [hp, Ctx.plain, hs.1, hs.2.1]; exact h.here

theorem advance_pos (c : Ctx) : (advance c).1.posOnly = false := by
  unfold advance
  dsimp only
  by_cases h : c.posOnly = true
  · rw [if_pos h]
  · rw [if_neg h]
    repeat' split
    all_goals simpa using h

theorem Even.advance {c c1 : Ctx} (h : Even c c1) (ha : (advance c1).2 = none) :
    (Simple.advance c1).1.posOnly = false ∧ AllClean (Simple.advance c1).1.rest ∧ (Simple.advance c1).1.final = c.final := by
  have hp := advance_pos c1
  rcases advance_cases c1 with ⟨_, h1, h2, h3⟩ | ⟨h1, _⟩
  · have hr : (Simple.advance c1).1.rest = c1.tokens.drop (c1.idx + 1) := by rw [Ctx.rest, h1, h2]
    by_cases hpo : c1.posOnly = true
    · have hah : c1.ahead = c1.tokens.drop (c1.idx + 1) := by simp [Ctx.ahead, hpo]
      refine ⟨hp, by rw [hr, ← hah]; exact h.clean, ?_⟩
      rw [Ctx.final, ahead_eq hp, hr, h3, ← hah]
      exact h.final
    · have hpf : c1.posOnly = false := by simpa using hpo
      have hpl := h.here.resolve_left hpo
      have hah := ahead_eq hpf
      cases ht : c1.tokens[c1.idx]? with
      | none =>
        have hle := List.getElem?_eq_none_iff.1 ht
        have e1 : c1.tokens.drop (c1.idx + 1) = [] := List.drop_eq_nil_iff.2 (by omega)
        have e2 : c1.rest = [] := List.drop_eq_nil_iff.2 hle
        refine ⟨hp, by rw [hr, e1]; simp [AllClean], ?_⟩
        rw [← h.final, Ctx.final, Ctx.final, ahead_eq hp, hr, h3, e1, hah, e2]
      | some t =>
        refine ⟨hp, ?_, ?_⟩
        · rw [hr]
          intro x hx
          exact h.clean x (by rw [hah, rest_cons ht]; exact List.mem_cons_of_mem _ hx)
        · rw [← h.final, Ctx.final, Ctx.final, ahead_eq hp, hr, h3, hah, rest_cons ht, parens_cons, hpl t ht]
          rfl
  · rw [h1] at ha; cases ha

theorem parse_bal (N : Env E) : ∀ n c c' e, parse N n c = .ok (c', e) → Leaves e → c.posOnly = false → AllClean c.rest → Leave c c' e := by
  intro n
  induction n with
  | zero => intro c c' e h; cases h
  | succ n ih =>
    intro c c' e h hl hp hc
    have hstep : ∀ c1, Even c c1 → (advance c1).2 ≠ none → c1.posOnly = false := by
      intro c1 _ ha
      cases hpo : c1.posOnly with
      | false => rfl
      | true => exact absurd (by simp [advance, hpo]) ha
    have hres : ∀ c1, Even c c1 → resume (parse N n) (advance c1) = .ok (c', e) → Leave c c' e := by
      intro c1 hk h
      unfold resume at h
      split at h
      · rename_i ha
        obtain ⟨k1, k2, k3⟩ := hk.advance ha
        have := ih _ _ _ h hl k1 k2
        exact ⟨⟨this.final.trans k3, this.clean, this.here⟩, this.done⟩
      · rename_i e1 ha
        have hpf := hstep _ hk (by rw [ha]; simp)
        rcases advance_cases c1 with ⟨h1, _⟩ | ⟨h1, h2⟩
        · rw [h1] at ha; cases ha
        · rw [h1] at ha
          injection ha with ha
          subst ha
          injection h with h
          have hf : finish (advance c1).1 .layerDone = ((advance c1).1, some .layerDone) := rfl
          rw [hf] at h
          injection h with ha hb
          subst ha hb
          exact ⟨hk.same h2 ((advance_pos c1).trans hpf.symm), by simp⟩
    have hback : ∀ c1 old, Even c c1 → back (parse N n) c1 old = .ok (c', e) → Leave c c' e := by
      intro c1 old hk h
      unfold back at h
      obtain ⟨⟨m, oe⟩, hm, h⟩ := Res.bind_eq_ok.1 h
      dsimp only at h
      split at h
      · injection h with h
        have := finish_leaves (c := m) (by rw [h]; exact hl)
        exact absurd hm (merge_errs _ _ _ _ this)
      · exact hres _ (hk.same (merge_same hm) (merge_pos hm)) h
    rw [parse] at h
    obtain ⟨⟨c1, o⟩, hg, h⟩ := Res.bind_eq_ok.1 h
    have hgot := getTok_bal N _ _ _ _ hg hp hc
    dsimp only at h
    split at h
    · rename_i e1
      injection h with h
      rcases finish_leaves (c := c1) (by rw [h]; exact hl) with rfl | rfl
      · obtain ⟨h1, h2⟩ := hgot.none rfl
        have hah : c1.ahead = [] := (ahead_eq hgot.pos).trans h1
        unfold finish at h
        rw [if_pos rfl] at h
        split at h
        · injection h with ha hb
          subst hb
          rcases hl with hl | hl <;> cases hl
        · rename_i hd
          injection h with ha hb
          subst ha hb
          refine ⟨⟨h2, by rw [hah]; simp [AllClean], .inr fun t ht => ?_⟩, fun _ => ⟨hah, by omega⟩⟩
          rw [rest_cons ht] at h1
          cases h1
      · exact absurd rfl hgot.layer
    · rename_i tok ty
      split at h
      · rename_i hchk
        obtain ⟨hne, hsame⟩ := check_go (.inl hchk)
        obtain ⟨c2, hi, h⟩ := Res.bind_eq_ok.1 h
        rw [hsame] at hi
        obtain ⟨k1, k2⟩ := hgot.other _ _ rfl hne
        have hpar : ty ≠ .paren := by rintro rfl; exact check_paren hchk
        have hk : Even c c1 := ⟨k1, by rw [ahead_eq hgot.pos]; exact hgot.clean, .inr (k2 hpar)⟩
        exact hres _ (hk.same (insert_same hi) (insert_pos hi)) h
      · rename_i e1 hchk
        split at h
        · rename_i hnew
          have hn : (check c1 ty).2 = some .new ∨ (check c1 ty).2 = some .oneNew := by
            simp only [Bool.or_eq_true, decide_eq_true_eq] at hnew
            rcases hnew with rfl | rfl
            · exact .inl hchk
            · exact .inr hchk
          obtain ⟨hne, hsame⟩ := check_go (.inr hn)
          rw [hsame] at h
          obtain ⟨⟨c5, oe⟩, hpar, h⟩ := Res.bind_eq_ok.1 h
          dsimp only at h
          have hk : Leaves oe → Even c c5 := by
            intro hlo
            have := ih _ _ _ hpar hlo hgot.pos hgot.clean
            exact ⟨this.final.trans (hgot.other _ _ rfl hne).1, this.clean, this.here⟩
          split at h
          · rename_i e2
            split at h
            · rename_i h2
              subst h2
              exact hback _ _ (hk (.inr rfl)) h
            · rename_i h2
              injection h with h
              rcases finish_leaves (c := c5) (by rw [h]; exact hl) with rfl | rfl
              · exact absurd hpar (parse_ne N _ _ _)
              · exact absurd rfl h2
          · exact hback _ _ (hk (.inl rfl)) h
        · injection h with h
          rcases finish_leaves (c := (check c1 ty).1) (by rw [h]; exact hl) with rfl | rfl
          · exact absurd hchk check_errs
          · obtain ⟨rfl, hsame⟩ := check_end hchk
            have hf : finish (check c1 .endParen).1 .layerDone = ((check c1 .endParen).1, some .layerDone) := rfl
            rw [hf, hsame] at h
            injection h with ha hb
            subst ha hb
            obtain ⟨r, hr, hfin⟩ := hgot.close _ rfl
            have hah : ({ c1 with posOnly := true } : Ctx).ahead = r := by
              have : c1.tokens.drop (c1.idx + 1) = c1.rest.drop 1 := by rw [Ctx.rest, List.drop_drop]
              simp [Ctx.ahead, this, hr]
            refine ⟨⟨?_, ?_, .inl rfl⟩, by simp⟩
            · rw [Ctx.final, hah]; exact hfin
            · rw [hah]
              intro x hx
              exact hgot.clean x (by rw [hr]; exact List.mem_cons_of_mem _ hx)

/-! ### Texts -/

theorem fields_parens : ∀ (s cur : Str), parens (fieldsFrom cur s) = (cur ++ s).filter isParen := by
  intro s
  induction s with
  | nil =>
    intro cur
    rw [fieldsFrom]
    split
    · rename_i h; simp [h, parens]
    · simp [parens]
  | cons b s ih =>
    intro cur
    rw [fieldsFrom]
    split
    · rename_i hb
      have hnb : isParen b = false := by
        cases hh : isParen b with
        | false => rfl
        | true =>
          simp only [isParen, Bool.or_eq_true, decide_eq_true_eq] at hh
          rcases hh with rfl | rfl <;> revert hb <;> decide
      split
      · rename_i hcur
        rw [ih, hcur]
        simp [hnb]
      · rw [parens_cons, ih]
        simp [hnb]
    · rw [ih, List.append_assoc, List.singleton_append]

theorem clean_push {cur : Str} {b : Nat} (h : Clean cur) (hq : b ≠ 34 ∧ b ≠ 39 ∧ b ≠ 96) (h40 : b = 40 → ∀ w x, cur = w ++ [x] → x = 40) :
    Clean (cur ++ [b]) := by
  refine ⟨fun x hx => ?_, ?_⟩
  · rcases List.mem_append.1 hx with hx | hx
    · exact h.quotes x hx
    · simp only [List.mem_singleton] at hx
      subst hx
      exact hq
  · rw [List.dropWhile_append]
    split
    · intro hx
      by_cases hb : b = 40
      · subst hb; simp at hx
      · rw [List.dropWhile_cons_of_neg (by simpa using hb)] at hx
        simp only [List.mem_singleton] at hx
        exact hb hx.symm
    · rename_i hne
      intro hx
      rcases List.mem_append.1 hx with hx | hx
      · exact h.opens hx
      · simp only [List.mem_singleton] at hx
        have hd : cur.dropWhile (· = 40) ≠ [] := by simpa using hne
        have hl := h40 hx.symm (cur.takeWhile (· = 40) ++ (cur.dropWhile (· = 40)).dropLast) ((cur.dropWhile (· = 40)).getLast hd)
          (by rw [List.append_assoc, List.dropLast_concat_getLast, List.takeWhile_append_dropWhile])
        have hm := List.getLast_mem hd
        rw [hl] at hm
        exact h.opens hm

theorem fields_clean : ∀ (s cur : Str), (∀ b ∈ s, b ≠ 34 ∧ b ≠ 39 ∧ b ≠ 96) → (∀ u v b, cur ++ s = u ++ b :: 40 :: v → isSpace b = true ∨ b = 40) →
    (∀ b ∈ cur, isSpace b = false) → Clean cur → AllClean (fieldsFrom cur s) := by
  intro s
  induction s with
  | nil =>
    intro cur _ _ _ hcl t ht
    rw [fieldsFrom] at ht
    split at ht
    · cases ht
    · simp only [List.mem_singleton] at ht
      subst ht
      exact hcl
  | cons b s ih =>
    intro cur hq ho hsp hcl
    have hrec : AllClean (fieldsFrom [] s) :=
      ih [] (fun x hx => hq x (List.mem_cons_of_mem _ hx)) (fun u v x h => ho (cur ++ b :: u) v x (by rw [List.nil_append] at h; rw [h]; simp)) (by simp)
        ⟨by simp, by simp⟩
    rw [fieldsFrom]
    split
    · split
      · exact hrec
      · intro t ht
        rcases List.mem_cons.1 ht with rfl | ht
        · exact hcl
        · exact hrec t ht
    · rename_i hb
      refine ih _ (fun x hx => hq x (List.mem_cons_of_mem _ hx)) (by simpa using ho) ?_ (clean_push hcl (hq b (by simp)) ?_)
      · intro x hx
        rcases List.mem_append.1 hx with hx | hx
        · exact hsp x hx
        · simp only [List.mem_singleton] at hx
          subst hx
          simpa using hb
      · rintro rfl w x rfl
        rcases ho w s x (by simp) with h | h
        · rw [hsp x (by simp)] at h; cases h
        · exact h

/-- **C67.**  A text without quotes and calls that the parser accepts has balanced parentheses. -/
theorem C67_balanced (N : Env E) (text : Str) (e : Expr E) (hb : Bare text) (h : ParsesTo N text (.ok (some e))) : Balanced text := by
  obtain ⟨_, n, h⟩ := h
  rw [parseSimple, parseTokens] at h
  obtain ⟨⟨c', o⟩, hp, h⟩ := Res.bind_eq_ok.1 h
  dsimp only at h
  cases o with
  | some e => cases h
  | none =>
    have := parse_bal N _ _ _ _ hp (.inl rfl) rfl (fields_clean text [] hb.1 (fun u v b h => isSpace_white b ▸ hb.2 u v b h) (by simp) ⟨by simp, by simp⟩)
    obtain ⟨h1, h2⟩ := this.done rfl
    have hf := this.final
    rw [Ctx.final, h1, h2] at hf
    rw [Balanced, ← nesting_filter]
    have : (newCtx (fieldsFrom [] text)).final = nesting 0 (text.filter isParen) := by
      show nesting 0 (parens ((fieldsFrom [] text).drop 0)) = _
      rw [List.drop_zero, fields_parens]
      rfl
    rw [← this, ← hf]
    rfl

/-! ### Examples -/

def opensOk : Str → Bool
  | b :: c :: s => (c ≠ 40 || white b || b = 40) && opensOk (c :: s)
  | _ => true

theorem opensOk_spec : ∀ (text u v : Str) (b : Nat), opensOk text = true → text = u ++ b :: 40 :: v → white b = true ∨ b = 40 := by
  intro text u
  induction u generalizing text with
  | nil =>
    rintro v b h rfl
    rw [List.nil_append, opensOk, Bool.and_eq_true] at h
    simpa using h.1
  | cons x u ih =>
    rintro v b h rfl
    cases u with
    | nil => exact ih _ v b (by rw [List.cons_append, List.nil_append, opensOk, Bool.and_eq_true] at h; exact h.2) rfl
    | cons y u => exact ih _ v b (by rw [List.cons_append, List.cons_append, opensOk, Bool.and_eq_true] at h; exact h.2) rfl

theorem bare_of {text : Str} (h : (text.all fun b => b ≠ 34 && b ≠ 39 && b ≠ 96) = true) (ho : opensOk text = true) : Bare text := by
  refine ⟨fun b hb => ?_, fun u v b h => opensOk_spec _ u v b ho h⟩
  have := List.all_eq_true.1 h b hb
  simp only [Bool.and_eq_true, decide_eq_true_eq] at this
  exact ⟨this.1.1, this.1.2, this.2⟩

set_option maxRecDepth 20000

/-- The hypotheses of `C67_balanced` hold for a text with nested groups, and a text that is not balanced is not accepted. -/
example (N : Env E) : Bare (ascii "((a==1)) && b < 2") ∧ (∃ e, ParsesTo N (ascii "((a==1)) && b < 2") (.ok (some e))) ∧
    ∀ e, ¬ ParsesTo N (ascii "((a==1) && b < 2") (.ok (some e)) :=
  ⟨bare_of (by decide) (by decide), ⟨_, parses_rfl N _ _ (by simp) 30 rfl⟩,
    fun e h => absurd (C67_balanced N _ e (bare_of (by decide) (by decide)) h) (by simp [Balanced]; decide)⟩

/-- Parentheses within quotes need not be balanced. -/
theorem C67_quoted (N : Env E) : ∃ e, ParsesTo N (ascii "a == \"(\"") (.ok (some e)) ∧ ¬ Balanced (ascii "a == \"(\"") :=
  ⟨_, parses_rfl N _ _ (by simp) 20 rfl, by simp [Balanced]; decide⟩

end Verif.Simple
