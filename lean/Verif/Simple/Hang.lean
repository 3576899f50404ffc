import Verif.Simple.Acyclic
import Verif.Simple.Findings

/-!
# C56: which texts `ParseSimpleExpression` does not end on
-/

namespace Verif.Simple
open Verif.FastVal Verif.Expr

variable {E : Ext}

/-! ### It ends without an opening parenthesis, a closing one, or quotation marks -/

theorem fieldsFrom_chars : ∀ (s cur t : Str), t ∈ fieldsFrom cur s → ∀ x ∈ t, x ∈ cur ∨ x ∈ s := by
  intro s
  induction s with
  | nil =>
    intro cur t h x hx
    rw [fieldsFrom] at h
    split at h
    · cases h
    · simp only [List.mem_singleton] at h; subst h; exact .inl hx
  | cons a s ih =>
    intro cur t h x hx
    rw [fieldsFrom] at h
    split at h
    · split at h
      · rcases ih _ _ h x hx with h | h
        · cases h
        · exact .inr (by simp [h])
      · rcases List.mem_cons.1 h with rfl | h
        · exact .inl hx
        · rcases ih _ _ h x hx with h | h
          · cases h
          · exact .inr (by simp [h])
    · rcases ih _ _ h x hx with h | h
      · rcases List.mem_append.1 h with h | h
        · exact .inl h
        · simp only [List.mem_singleton] at h; exact .inr (by simp [h])
      · exact .inr (by simp [h])

/-- What C56 says of all texts: the parser ends, with an expression, an error or a panic. -/
def Ends (N : Env E) (text : Str) : Prop := ∃ r, ParsesTo N text r

theorem ends_iff (N : Env E) (text : Str) : Ends N text ↔ ¬ Hangs N text := by
  refine ⟨fun ⟨r, h1, n, h2⟩ h => h1 (by rw [← h2]; exact h n), fun h => ?_⟩
  obtain ⟨n, hn⟩ := Classical.not_forall.1 h
  exact ⟨_, hn, n, rfl⟩

/-- C56, as far as it holds.  The parser ends on every text, valid or not, that lacks opening parentheses, closing parentheses, or
quotation marks. -/
theorem C56_partial (N : Env E) (text : Str) (h : 40 ∉ text ∨ 41 ∉ text ∨ (34 ∉ text ∧ 39 ∉ text)) : Ends N text := by
  have key : ∀ x, x ∉ text → ∀ t ∈ (newCtx (fieldsFrom [] text)).rest, x ∉ t := by
    intro x hx t ht hm
    have ht : t ∈ fieldsFrom [] text := List.mem_of_mem_drop ht
    rcases fieldsFrom_chars _ _ _ ht x hm with h | h
    · cases h
    · exact hx h
  have ht : Tame (newCtx (fieldsFrom [] text)) := by
    rcases h with h | h | ⟨h1, h2⟩
    · exact .inl ⟨rfl, key _ h⟩
    · exact .inr (.inl (key _ h))
    · exact .inr (.inr fun t ht => ⟨key _ h1 t ht, key _ h2 t ht⟩)
  obtain ⟨n, hn⟩ := parse_ends N _ _ (Nat.le_refl _) ht
  exact ⟨_, parseTokens_ends N _ n hn, n, rfl⟩

/-! ### The loop over the words of a quoted value -/

/-- A word without its closing parentheses. -/
def bare (t : Str) : Str := (t.reverse.dropWhile (· = 41)).reverse

/-- The words of a quoted value, within parentheses: the first that ends in `)` does not end the value. -/
def Trap (q : Nat) : List Str → Prop
  | [] => False
  | t :: ts => if hasSuffix [41] t then hasSuffix [q] (bare t) = false else hasSuffix [q] t = false ∧ Trap q ts

/-- A lone `)` is split into an empty word and `)`, over and over. -/
theorem quoteLoop_paren (q : Nat) (hq : q ≠ 41) : ∀ n c acc k, 0 < c.depth → c.tokens[c.idx]? = some (List.replicate (k + 1) 41) → quoteLoop q n c acc = .stuck := by
  intro n
  induction n with
  | zero => intro c acc k _ _; rfl
  | succ n ih =>
    intro c acc k hd ht
    have hrev : (List.replicate (k + 1) 41).reverse = List.replicate (k + 1) (41 : Nat) := List.reverse_replicate
    have hdw : (List.replicate (k + 1) (41 : Nat)).dropWhile (· = 41) = [] := by
      clear ht hrev
      induction k with
      | zero => rfl
      | succ k ih => rw [List.replicate_succ, List.dropWhile_cons_of_pos (by simp), ih]
    have htw : (List.replicate (k + 1) (41 : Nat)).takeWhile (· = 41) = List.replicate (k + 1) 41 := by
      rw [List.takeWhile_replicate]; simp
    have hsuf : hasSuffix [41] (List.replicate (k + 1) 41) = true := (hasSuffix_iff _ _).2 ⟨List.replicate k 41, by rw [List.replicate_succ']⟩
    have hstrip : stripParen c (List.replicate (k + 1) 41) = (c.replace ([] :: (List.replicate (k + 1) 41).map fun x => [x]), []) := by
      unfold stripParen parenSuffix
      rw [if_pos (by simp [hd, hsuf]), hrev, hdw, htw]; rfl
    rw [quoteLoop, ht]
    simp only [hstrip]
    rw [if_neg (by simp [hasSuffix])]
    refine ih _ _ 0 hd ?_
    have hlt := (List.getElem?_eq_some_iff.1 ht).1
    have hlen : (c.tokens.take c.idx).length = c.idx := by simp; omega
    show (c.tokens.take c.idx ++ ([] :: (List.replicate (k + 1) 41).map fun x => [x]) ++ c.tokens.drop (c.idx + 1))[c.idx + 1]? = _
    rw [List.append_assoc, List.getElem?_append_right (by omega), hlen]
    simp [List.replicate_succ]

theorem strip_neg {c : Ctx} {t : Str} (h : hasSuffix [41] t = false) : stripParen c t = (c, t) := by
  unfold stripParen; rw [if_neg (by simp [h])]

theorem strip_pos {c : Ctx} {t : Str} (hd : 0 < c.depth) (h : hasSuffix [41] t = true) : stripParen c t = (parenSuffix c t 41, bare t) := by
  unfold stripParen bare; rw [if_pos (by simp [h, hd])]

theorem trapped (q : Nat) (hq : q ≠ 41) : ∀ n c acc, 0 < c.depth → Trap q c.rest → quoteLoop q n c acc = .stuck := by
  intro n
  induction n with
  | zero => intro c acc _ _; rfl
  | succ n ih =>
    intro c acc hd h
    cases ht : c.tokens[c.idx]? with
    | none =>
      rw [Ctx.rest, List.drop_eq_nil_of_le (List.getElem?_eq_none_iff.1 ht)] at h
      exact h.elim
    | some t =>
      rw [rest_cons ht, Trap] at h
      rw [quoteLoop, ht]
      dsimp only
      split at h
      · rename_i hs
        rw [strip_pos hd hs]
        rw [if_neg (by simp [h])]
        refine quoteLoop_paren q hq n _ _ 0 hd ?_
        have hlt := (List.getElem?_eq_some_iff.1 ht).1
        have hlen : (c.tokens.take c.idx).length = c.idx := by simp; omega
        obtain ⟨p, hp⟩ := (hasSuffix_iff _ _).1 hs
        show (c.tokens.take c.idx ++ ((t.reverse.dropWhile (· = 41)).reverse :: (t.reverse.takeWhile (· = 41)).map fun x => [x]) ++ c.tokens.drop (c.idx + 1))[c.idx + 1]? = _
        rw [List.append_assoc, List.getElem?_append_right (by omega), hlen, ← hp]
        simp
      · rename_i hs
        have hs : hasSuffix [41] t = false := by simpa using hs
        rw [strip_neg hs, if_neg (by simp [h.1])]
        exact ih _ _ hd h.2

/-- The loop is endless exactly within parentheses and at a word that ends in `)` but does not end the value. -/
theorem quoteLoop_hangs_iff (q : Nat) (hq : q ≠ 41) (c : Ctx) (acc : Str) : (∀ n, quoteLoop q n c acc = .stuck) ↔ 0 < c.depth ∧ Trap q c.rest := by
  refine ⟨fun h => ?_, fun h n => trapped q hq n c acc h.1 h.2⟩
  by_cases hd : c.depth = 0
  · exact absurd (h _) (quoteLoop_ends q (c.tokens.length + 1) c acc (by omega) (.inl hd))
  refine ⟨by omega, ?_⟩
  have key : ∀ (ts : List Str) (c : Ctx) (acc : Str), c.rest = ts → 0 < c.depth → (∀ n, quoteLoop q n c acc = .stuck) → Trap q ts := by
    intro ts
    induction ts with
    | nil =>
      intro c acc hr hd h
      have h1 := h 1
      have : c.tokens[c.idx]? = none := List.getElem?_eq_none (List.drop_eq_nil_iff.1 hr)
      rw [quoteLoop, this] at h1
      cases h1
    | cons t ts ih =>
      intro c acc hr hd h
      have ht : c.tokens[c.idx]? = some t := by
        have := congrArg List.head? hr
        rwa [Ctx.rest, List.head?_drop] at this
      have hts : { c with idx := c.idx + 1 }.rest = ts := by
        have := rest_cons ht
        rw [hr] at this
        injection this with _ this
        exact this.symm
      rw [Trap]
      split
      · rename_i hs
        have h1 := h 1
        rw [quoteLoop, ht] at h1
        simp only [strip_pos hd hs] at h1
        cases hq : hasSuffix [q] (bare t) with
        | false => rfl
        | true => rw [if_pos hq] at h1; cases h1
      · rename_i hs
        have hs : hasSuffix [41] t = false := by simpa using hs
        cases hqt : hasSuffix [q] t with
        | true =>
          have h1 := h 1
          rw [quoteLoop, ht] at h1
          simp only [strip_neg hs] at h1
          rw [if_pos hqt] at h1; cases h1
        | false =>
          refine ⟨rfl, ih { c with idx := c.idx + 1 } (acc ++ 32 :: t) hts hd fun n => ?_⟩
          have h1 := h (n + 1)
          rw [quoteLoop, ht] at h1
          simp only [strip_neg hs] at h1
          rwa [if_neg (by simp [hqt])] at h1
  exact key _ c acc rfl (by omega) h

/-! ### Texts on which the parser does not end -/

theorem runs_stuck (N : Env E) {c : Ctx} (h : Runs N c .stuck) : ∀ n, parse N n c = .stuck := by
  intro n
  obtain ⟨n0, hn⟩ := h
  by_cases hp : parse N n c = .stuck
  · exact hp
  · rw [← parse_le N (Nat.le_add_right n n0) c hp]
    exact hn _ (by omega)

theorem bare_append (s : Str) (k : Nat) (hs : s.getLast? ≠ some 41) : bare (s ++ List.replicate k 41) = s := by
  unfold bare
  rw [List.reverse_append, List.reverse_replicate]
  have : ∀ k, (List.replicate k 41 ++ s.reverse).dropWhile (· = 41) = s.reverse := by
    intro k
    induction k with
    | zero =>
      show s.reverse.dropWhile _ = _
      cases hr : s.reverse with
      | nil => rfl
      | cons x r =>
        have hx : s.getLast? = some x := by rw [← List.head?_reverse, hr]; rfl
        exact List.dropWhile_cons_of_neg (by rintro h; simp at h; subst h; exact hs hx)
    | succ k ih => rw [List.replicate_succ, List.cons_append, List.dropWhile_cons_of_pos (by simp), ih]
  rw [this, List.reverse_reverse]

theorem trap_of (q : Nat) (s : Str) (k : Nat) (post : List Str) (hs : s.getLast? ≠ some 41) (hq : s.getLast? ≠ some q) : ∀ mid : List Str,
    (∀ w ∈ mid, w.getLast? ≠ some q ∧ w.getLast? ≠ some 41) → Trap q (mid ++ (s ++ List.replicate (k + 1) 41) :: post) := by
  intro mid
  induction mid with
  | nil =>
    intro _
    show Trap q ((s ++ List.replicate (k + 1) 41) :: post)
    rw [Trap, if_pos (by rw [hasSuffix_one]; simp [List.replicate_succ'])]
    rw [bare_append _ _ hs, hasSuffix_one]
    simp [hq]
  | cons w mid ih =>
    intro hm
    obtain ⟨h1, h2⟩ := hm w (by simp)
    show Trap q (w :: (mid ++ (s ++ List.replicate (k + 1) 41) :: post))
    rw [Trap, if_neg (by rw [hasSuffix_one]; simp [h2])]
    exact ⟨by rw [hasSuffix_one]; simp [h1], ih fun w hw => hm w (by simp [hw])⟩

/-- C56 fails: within parentheses, a quoted value of several words, one of which ends in a closing parenthesis without ending the value,
sends the parser into an endless loop.  What follows does not matter: the text may be one that should be accepted. -/
theorem C56_hangs (N : Env E) (l : Str) (a : Expr E) (hl : LeftMeans N l a) (w : List Str) (o : Bin) (hw : (w, o) ∈ binWords) (q : Nat) (first : Str)
    (mid : List Str) (hp : PhraseOk q first mid) (s : Str) (k : Nat) (hs : s.getLast? ≠ some 41) (hq : s.getLast? ≠ some q) (post : List Str) (text : Str)
    (ht : Words ([40] :: l :: (w ++ (q :: first) :: (mid ++ (s ++ List.replicate (k + 1) 41) :: post))) text) : Hangs N text := by
  rw [hangs_iff, fields_words _ _ ht]
  generalize hts : [40] :: l :: (w ++ (q :: first) :: (mid ++ (s ++ List.replicate (k + 1) 41) :: post)) = ts
  apply runs_stuck
  let c0 : Ctx := { newCtx ts with idx := 1, depth := 1 }
  have hopen : Gets N (newCtx ts) (c0, .ok ([40], .paren)) := by
    refine gets_done N _ [40] _ (by rw [← hts]; rfl) ?_
    rfl
  obtain ⟨p, h, tok, ty, hstep, _⟩ := lhs_step N c0 false l a rfl rfl (by show ts[1]? = _; rw [← hts]; rfl) (left_reads N l a hl)
  have hdrop : ts.drop 2 = w ++ (q :: first) :: (mid ++ (s ++ List.replicate (k + 1) 41) :: post) := by rw [← hts]; rfl
  have hwl : 1 ≤ w.length := by
    simp only [binWords, List.mem_cons, List.not_mem_nil, or_false, Prod.mk.injEq] at hw
    rcases hw with ⟨rfl, rfl⟩ | ⟨rfl, rfl⟩ | ⟨rfl, rfl⟩ | ⟨rfl, rfl⟩ | ⟨rfl, rfl⟩ | ⟨rfl, rfl⟩ | ⟨rfl, rfl⟩ | ⟨rfl, rfl⟩ | ⟨rfl, rfl⟩ | ⟨rfl, rfl⟩ <;> simp
  have hx : o.ctx .no ≠ .chain ∧ o.ctx .no ≠ .noField := by cases o <;> simp [Bin.ctx]
  have hgop := gets_bin N (ctx1 c0 p h tok ty) w o hw _ hdrop
  have hop := op_step N c0 false p h tok ty o.tok w.length (o.ctx .no) rfl rfl hwl hx.1 hgop
  rw [if_neg hx.2] at hop
  have hval : Runs N (ctx2 c0 p h tok ty o.tok w.length (o.ctx .no) .value) .stuck := by
    have hd2 : (ctx2 c0 p h tok ty o.tok w.length (o.ctx .no) .value).tokens.drop (ctx2 c0 p h tok ty o.tok w.length (o.ctx .no) .value).idx =
        (q :: first) :: (mid ++ (s ++ List.replicate (k + 1) 41) :: post) := by
      show ts.drop (2 + w.length) = _
      rw [← List.drop_drop, hdrop, List.drop_left]
    obtain ⟨h1, h2⟩ := tokens_head hd2
    have hget : ∀ n, getTok N n (ctx2 c0 p h tok ty o.tok w.length (o.ctx .no) .value) = .stuck := by
      intro n
      cases n with
      | zero => rfl
      | succ n =>
        rw [getTok, h1]
        dsimp only
        rw [look_phrase N _ q first mid hp rfl]
        dsimp only
        rw [unfinishedTok, trapped q (by rcases hp.quote with h | h <;> omega) n _ _ (Nat.lt_succ_self 0)
          (by show Trap q (List.drop _ _); rw [h2]; exact trap_of q s k post hs hq mid hp.mids)]
        rfl
    refine ⟨0, fun n _ => ?_⟩
    cases n with
    | zero => rfl
    | succ n => rw [parse, hget]; rfl
  obtain ⟨n1, hn1⟩ := hopen
  obtain ⟨n2, hn2⟩ := hstep _ (hop _ hval)
  refine ⟨n1 + n2 + 1, fun n hn => ?_⟩
  obtain ⟨m, rfl⟩ : ∃ m, n = m + 1 := ⟨n - 1, by omega⟩
  rw [parse, hn1 m (by omega), Res.bind_ok]
  show (parse N m c0 >>= _) = _
  rw [hn2 m (by omega)]
  rfl

/-- What C56 says: the parser ends on every text. -/
def C56_ends (N : Env E) : Prop := ∀ text, Ends N text

/-- A value with parentheses in it, in a group. -/
theorem C56_witness (N : Env E) : Hangs N (ascii "( a == \"b (c) d\" )") := by
  refine C56_hangs N (ascii "a") _ (aCond_spec N "a" 1 free_a (by decide) (by decide)).1 [kEq] .eq (by simp [binWords]) 34 (ascii "b") []
    ⟨.inl rfl, by decide, by decide, by decide, by simp⟩ (ascii "(c") 0 (by decide) (by decide) [ascii "d\"", ascii ")"] _ ?_
  exact words_join [[40], ascii "a", kEq, 34 :: ascii "b", ascii "(c" ++ [41], ascii "d\"", ascii ")"] (by decide)

/-- C56 is false. -/
theorem C56_negation (N : Env E) : ¬ C56_ends N := fun h => (ends_iff N _).1 (h _) (C56_witness N)

/-- A text on which the parser does not end has parentheses of both kinds and a quotation mark. -/
theorem C56_needs (N : Env E) (text : Str) (h : Hangs N text) : 40 ∈ text ∧ 41 ∈ text ∧ (34 ∈ text ∨ 39 ∈ text) := by
  have : ¬ (40 ∉ text ∨ 41 ∉ text ∨ (34 ∉ text ∧ 39 ∉ text)) := fun k => (ends_iff N text).1 (C56_partial N text k) h
  refine ⟨Classical.byContradiction fun k => this (.inl k), Classical.byContradiction fun k => this (.inr (.inl k)), Classical.byContradiction fun k => ?_⟩
  exact this (.inr (.inr ⟨fun x => k (.inl x), fun x => k (.inr x)⟩))

set_option maxRecDepth 20000 in
/-- Not within parentheses, the same value is read. -/
theorem C56_outside (N : Env E) : ParsesTo N (ascii "a == \"b (c) d\"") (.ok (some (.cmp .eq (.field ⟨0, [ascii "a"]⟩) (.value (.json (.str (ascii "b (c) d"))))))) :=
  parses_rfl N _ _ (by simp) 20 rfl

/-- The hypothesis of `C56_partial` is met by texts that are accepted, and by others. -/
example : 40 ∉ ascii "a == \"b c)\"" ∧ 41 ∉ ascii "( a == \"b c" ∧ 34 ∉ ascii "( a == 1 ) )" ∧ 39 ∉ ascii "( a == 1 ) )" := by decide

end Verif.Simple
