import Verif.Simple.Call
import Verif.Simple.Chain

/-!
# The two sides of a condition

What the tokens of a condition mean, and that the parser reads them so.
-/

namespace Verif.Simple
open Verif.FastVal Verif.Expr

variable {E : Ext}

/-- The constants `PI()` and `E()`. -/
inductive ConstTok (N : Env E) : Str → Expr E → Prop where
  | pi : ConstTok N (ascii "PI()") (.value (.json (.num N.pi)))
  | e : ConstTok N (ascii "E()") (.value (.json (.num N.e)))

/-- A token as the left side: a name, a call or a constant. -/
inductive LeftMeans (N : Env E) : Str → Expr E → Prop where
  | name (n : Name) : n.Ok → Free n.text → LeftMeans N n.text (.field ⟨0, n.path⟩)
  | call (t : Term) (k : Str) (e : Expr E) : t.key = some k → t.Means N e → LeftMeans N t.text e
  | const (t : Str) (e : Expr E) : ConstTok N t e → LeftMeans N t e

def Bin.likes (o : Bin) : Prop := o = .like ∨ o = .notLike

/-- What a phrase of several words says: the words with one space between them. -/
def phrase (first : Str) (mid : List Str) (last : Str) : Str := first ++ mid.flatMap (fun w => 32 :: w) ++ 32 :: last

/-- The words of a phrase between two quotes `q`: only the last one ends with the quote. -/
structure PhraseOk (q : Nat) (first : Str) (mid : List Str) : Prop where
  quote : q = 34 ∨ q = 39
  ne : first ≠ []
  noQuote : first.getLast? ≠ some q
  noParen : (40 : Nat) ∉ first ∧ (41 : Nat) ∉ first
  mids : ∀ w ∈ mid, w.getLast? ≠ some q ∧ w.getLast? ≠ some 41

/-- Tokens as the right side of the operator `o`.  Right of `=~` and `LIKE` stand patterns. -/
inductive RightMeans (N : Env E) (o : Bin) : List Str → Expr E → Prop where
  | num (n : Num) (e : Expr E) : ¬ o.likes → Atom.Means N (.num n) e → RightMeans N o [n.text] e
  | word (q : Nat) (s : Str) (e : Expr E) : ¬ o.likes → Atom.Means N (.quoted q s) e → RightMeans N o [q :: s ++ [q]] e
  | phrase (q : Nat) (first : Str) (mid : List Str) (last : Str) : ¬ o.likes → PhraseOk q first mid →
      RightMeans N o ((q :: first) :: (mid ++ [last ++ [q]])) (.value (.json (.str (phrase first mid last))))
  | bool (b : Bool) : o = .eq ∨ o = .ne → RightMeans N o [if b then ascii "true" else ascii "false"] (.value (.json (.bool b)))
  | call (t : Term) (k : Str) (e : Expr E) : t.key = some k → t.Means N e → RightMeans N o [t.text] e
  | const (t : Str) (e : Expr E) : ConstTok N t e → RightMeans N o [t] e
  | regex (q : Nat) (s : Str) : o.likes → q = 34 ∨ q = 39 → N.compiles s = true → RightMeans N o [q :: s ++ [q]] (.regex (.json (.str s)))
  | pcre (q : Nat) (s : Str) : o.likes → q = 34 ∨ q = 39 → N.compiles s = false → Verif.Filter.isPcre s = true →
      RightMeans N o [q :: s ++ [q]] (.pcre (.json (.str s)))
  | numRegex (n : Num) : o.likes → n.Ok → RightMeans N o [n.text] (.regex (.json (.str n.text)))
  | phraseRegex (q : Nat) (first : Str) (mid : List Str) (last : Str) : o.likes → PhraseOk q first mid →
      RightMeans N o ((q :: first) :: (mid ++ [last ++ [q]])) (.regex (.json (.str (phrase first mid last))))

/-! ### Left sides -/

theorem lhs_name (N : Env E) (n : Name) (hn : n.Ok) (hf : Free n.text) : Lhs N n.text (.field ⟨0, n.path⟩) := by
  intro c ht hm
  refine ⟨n.path, c.sub.helper, [], .field, ?_, rfl, ?_⟩
  · refine gets_done N c _ _ ht ?_
    rw [look_field N c _ (by rw [hm]; decide) hf, fieldTok_name n hn c ht]
  · intro tree i par l r h
    rw [outNode, h]

theorem opWords_no_paren : ∀ t ∈ opWords ++ ownWords, (40 : Nat) ∉ t := by decide

/-- Tokens with a parenthesis that are not names of something else. -/
theorem look_func (N : Env E) (c : Ctx) (t k : Str) (h40 : (40 : Nat) ∈ t) (hk : funcKey t = some k) : look N c t = .done (funcTok N c t k) := by
  have hne : ∀ w ∈ opWords ++ ownWords, t ≠ w := fun w hw he => opWords_no_paren w hw (he ▸ h40)
  have hop : isOpTok t = false := by
    cases h : isOpTok t with
    | false => rfl
    | true => exact absurd rfl (hne t (List.mem_append_left _ (isOpTok_mem t h)))
  have hnum : isNum t = false := by
    apply isNum_notNum
    rintro ⟨n, hn, rfl⟩
    have := num_chars n hn 40 h40
    omega
  have hq : quoteOf t = none := by
    apply quoteOf_none
    constructor <;> intro h
    · rw [funcKey_quote t (.inl h)] at hk; exact absurd hk (by simp)
    · rw [funcKey_quote t (.inr h)] at hk; exact absurd hk (by simp)
  have w1 : t ≠ ascii "NOT" := hne _ (by decide)
  have w2 : t ≠ ascii "IS" := hne _ (by decide)
  have w3 : t ≠ ascii "true" := hne _ (by decide)
  have w4 : t ≠ ascii "false" := hne _ (by decide)
  simp [look, w1, w2, w3, w4, hop, hnum, hq, hk]

/-- What a call or constant leaves behind in field or value mode. -/
theorem gets_func (N : Env E) (c : Ctx) (t k : Str) (e : Expr E) (ht : c.tokens[c.idx]? = some t) (h40 : (40 : Nat) ∈ t) (hk : funcKey t = some k)
    (hm : c.sub.mode = .field ∨ c.sub.mode = .value) (args : List (List Arg)) (l : Nat)
    (hr : resolve N (t.length + 1) ⟨[[]], 0⟩ t k = .ok (⟨args, l⟩, true)) (ho : outFunc N ⟨args, 0⟩ (args.length + 1) 0 = .ok (some e)) :
    Gets N c ({ c with sub := { c.sub with helper := some ⟨args, 0⟩ } }, .ok (t, .func)) ∧
    ∀ (tree : List Node) (i : Nat) (par l r : Int) p, tree[i]? = some ⟨.func, t, par, l, r, p, some ⟨args, 0⟩⟩ → outNode N tree 1 i = .ok (some e) := by
  constructor
  · refine gets_done N c t _ ht ?_
    rw [look_func N c t k h40 hk, funcTok, if_pos (by rcases hm with h | h <;> simp [h]), hr, Res.bind_ok]
    rfl
  · intro tree i par l r p h
    rw [outNode, h]
    exact ho

/-- Calls and constants. -/
inductive FuncTok (N : Env E) : Str → Expr E → Prop where
  | call (t : Term) (k : Str) (e : Expr E) : t.key = some k → t.Means N e → FuncTok N t.text e
  | const (t : Str) (e : Expr E) : ConstTok N t e → FuncTok N t e

theorem func_ready (N : Env E) (t : Str) (e : Expr E) (h : FuncTok N t e) : (40 : Nat) ∈ t ∧ ∃ k args l, funcKey t = some k ∧
    resolve N (t.length + 1) ⟨[[]], 0⟩ t k = .ok (⟨args, l⟩, true) ∧ outFunc N ⟨args, 0⟩ (args.length + 1) 0 = .ok (some e) := by
  cases h with
  | call t k e hk ht =>
    refine ⟨by cases t <;> simp_all [Term.key, Term.text], ?_⟩
    obtain ⟨h1, h2, _⟩ := call_resolves N t e ht k hk
    obtain ⟨row, more, l, h3, h4⟩ := h2 [] (t.text.length + 1) (by omega)
    refine ⟨k, row :: more, l, h1, h3, ?_⟩
    exact h4 ⟨row :: more, 0⟩ [] _ (by simp) (by simp; omega)
  | const t e h =>
    cases h with
    | pi => exact ⟨by decide, ascii "PI", [[.str (ascii "PI")]], 0, by decide, rfl, rfl⟩
    | e => exact ⟨by decide, ascii "E", [[.str (ascii "E")]], 0, by decide, rfl, rfl⟩

theorem lhs_func (N : Env E) (t : Str) (e : Expr E) (h : FuncTok N t e) : Lhs N t e := by
  obtain ⟨h40, k, args, l, hk, hr, ho⟩ := func_ready N t e h
  intro c ht hm
  obtain ⟨h1, h2⟩ := gets_func N c t k e ht h40 hk (.inl hm) args l hr ho
  exact ⟨c.fieldTokens, some ⟨args, 0⟩, t, .func, h1, rfl, fun tree i par l r h => h2 tree i par l r _ h⟩

theorem left_reads (N : Env E) (t : Str) (e : Expr E) (h : LeftMeans N t e) : Lhs N t e := by
  cases h with
  | name n hn hf => exact lhs_name N n hn hf
  | call t k e hk ht => exact lhs_func N _ _ (.call t k e hk ht)
  | const t e h => exact lhs_func N _ _ (.const t e h)

/-! ### Right sides -/

theorem valueTT_like (o : Bin) (c : Ctx) (h : c.sub.opCtx = o.ctx .no) (hl : o.likes) : valueTT c = .regex := by
  rcases hl with rfl | rfl <;> simp [valueTT, h, Bin.ctx]

theorem valueTT_value (o : Bin) (c : Ctx) (h : c.sub.opCtx = o.ctx .no) (hl : ¬ o.likes) : valueTT c = .value := by
  cases o <;> simp_all [valueTT, Bin.ctx, Bin.likes]

/-- A right side that is one token which changes nothing but the flag for booleans and the call. -/
theorem rhs_one (N : Env E) (o : Bin) (t : Str) (e : Expr E)
    (h : ∀ c : Ctx, c.tokens[c.idx]? = some t → c.sub.mode = .value → c.sub.opCtx = o.ctx .no → c.sub.helper = none → ∃ b h tok ty,
      Gets N c ({ c with sub := { c.sub with helper := h, isBool := b } }, .ok (tok, ty)) ∧
      (if ty.isBool then o = .eq ∨ o = .ne else ty.isValue = true) ∧
      ∀ (tree : List Node) (i : Nat) (par l r : Int), tree[i]? = some ⟨ty, tok, par, l, r, none, h⟩ → outNode N tree 1 i = .ok (some e)) :
    Rhs N o [t] e := by
  refine ⟨by simp, ?_⟩
  intro c rest ht hm ho hh
  exact h c (tokens_head ht).1 hm ho hh

theorem quote_not_word (q : Nat) (s : Str) (hq : q = 34 ∨ q = 39) : ∀ w ∈ opWords ++ ownWords, q :: s ≠ w := by
  have h : ∀ w ∈ opWords ++ ownWords, w.head? ≠ some 34 ∧ w.head? ≠ some 39 := by decide
  intro w hw he
  have := h w hw
  rw [← he] at this
  rcases hq with rfl | rfl <;> simp at this

theorem isOpTok_ne (t : Str) (h : ∀ w ∈ opWords ++ ownWords, t ≠ w) : isOpTok t = false := by
  cases hi : isOpTok t with
  | false => rfl
  | true => exact absurd rfl (h t (List.mem_append_left _ (isOpTok_mem t hi)))

theorem look_quoted (N : Env E) (c : Ctx) (q : Nat) (s : Str) (hq : q = 34 ∨ q = 39) (hm : c.sub.mode = .value) :
    look N c (q :: s ++ [q]) = .done (.ok (c, valueTok N c (q :: s ++ [q]) q)) := by
  have hne := quote_not_word q (s ++ [q]) hq
  have w1 : q :: s ++ [q] ≠ ascii "NOT" := hne _ (by decide)
  have w2 : q :: s ++ [q] ≠ ascii "IS" := hne _ (by decide)
  have hop : isOpTok (q :: s ++ [q]) = false := isOpTok_ne _ hne
  unfold look
  rw [if_neg (by simp only [w1, w2]; decide), if_neg (by rw [hop]; simp), if_pos hm, quoteOf_quoted q s hq]

theorem num_not_word (n : Num) (hn : n.Ok) : ∀ w ∈ opWords ++ ownWords, n.text ≠ w := by
  have h : ∀ w ∈ opWords ++ ownWords, ∀ c, w.head? = some c → c ≠ 45 ∧ ¬ (48 ≤ c ∧ c ≤ 57) := by decide
  intro w hw he
  obtain ⟨c, r, h1, h2, _⟩ := num_head n hn
  have := h w hw c (by rw [← he, h1]; rfl)
  omega

theorem look_num (N : Env E) (c : Ctx) (n : Num) (hn : n.Ok) : look N c n.text = .done (.ok (c, .ok (n.text, valueTT c))) := by
  have hne := num_not_word n hn
  have w1 : n.text ≠ ascii "NOT" := hne _ (by decide)
  have w2 : n.text ≠ ascii "IS" := hne _ (by decide)
  have hop : isOpTok n.text = false := isOpTok_ne _ hne
  have hq : quoteOf n.text = none := by
    obtain ⟨c, r, h1, h2, _⟩ := num_head n hn
    apply quoteOf_none
    rw [h1]; simp; omega
  simp [look, w1, w2, hop, hq, isNum_text n hn]

theorem keep_sub (c : Ctx) (hh : c.sub.helper = none) : ({ c with sub := { c.sub with helper := none, isBool := c.sub.isBool } } : Ctx) = c := by
  rw [← hh]

theorem rhs_num (N : Env E) (o : Bin) (n : Num) (e : Expr E) (hl : ¬ o.likes) (ha : Atom.Means N (.num n) e) : Rhs N o [n.text] e := by
  have hn : n.Ok := by cases ha <;> assumption
  apply rhs_one
  intro c ht hm ho hh
  refine ⟨c.sub.isBool, none, n.text, .value, ?_, rfl, ?_⟩
  · rw [keep_sub c hh]
    refine gets_done N c _ _ ht ?_
    rw [look_num N c n hn, valueTT_value o c ho hl]
  · intro tree i par l r h
    rw [outNode, h]
    dsimp only
    cases ha with
    | int _ hn hf h1 h2 => rw [outValue_int N n hn hf h1 h2]
    | float _ x hn hf hx => rw [outValue_float N n x hn hf hx]

theorem rhs_word (N : Env E) (o : Bin) (q : Nat) (s : Str) (e : Expr E) (hl : ¬ o.likes) (ha : Atom.Means N (.quoted q s) e) :
    Rhs N o [q :: s ++ [q]] e := by
  cases ha with
  | str _ _ hq hs =>
    apply rhs_one
    intro c ht hm ho hh
    refine ⟨c.sub.isBool, none, s, .value, ?_, rfl, ?_⟩
    · rw [keep_sub c hh]
      refine gets_done N c _ _ ht ?_
      rw [look_quoted N c q s hq hm, valueTok, valueTT_value o c ho hl, trim_quoted]
      simp
    · intro tree i par l r h
      rw [outNode, h]
      dsimp only
      rw [outValue_str N s hs]

theorem rhs_bool (N : Env E) (o : Bin) (b : Bool) (ho' : o = .eq ∨ o = .ne) :
    Rhs N o [if b then ascii "true" else ascii "false"] (.value (.json (.bool b))) := by
  apply rhs_one
  intro c ht hm ho hh
  cases b with
  | true =>
    refine ⟨true, none, ascii "true", .tru, ?_, ?_, ?_⟩
    · rw [← hh]
      refine gets_done N c _ _ ht ?_
      unfold look
      rw [hm]
      rfl
    · exact ho'
    · intro tree i par l r h
      rw [outNode, h]
  | false =>
    refine ⟨true, none, ascii "false", .fals, ?_, ?_, ?_⟩
    · rw [← hh]
      refine gets_done N c _ _ ht ?_
      unfold look
      rw [hm]
      rfl
    · exact ho'
    · intro tree i par l r h
      rw [outNode, h]

theorem rhs_func (N : Env E) (o : Bin) (t : Str) (e : Expr E) (h : FuncTok N t e) : Rhs N o [t] e := by
  obtain ⟨h40, k, args, l, hk, hr, ho⟩ := func_ready N t e h
  apply rhs_one
  intro c ht hm _ _
  obtain ⟨h1, h2⟩ := gets_func N c t k e ht h40 hk (.inr hm) args l hr ho
  exact ⟨c.sub.isBool, some ⟨args, 0⟩, t, .func, h1, rfl, fun tree i par l r h => h2 tree i par l r _ h⟩

theorem rhs_regex (N : Env E) (o : Bin) (q : Nat) (s : Str) (hl : o.likes) (hq : q = 34 ∨ q = 39) (hs : N.compiles s = true) :
    Rhs N o [q :: s ++ [q]] (.regex (.json (.str s))) := by
  apply rhs_one
  intro c ht hm ho hh
  refine ⟨c.sub.isBool, none, s, .regex, ?_, rfl, ?_⟩
  · rw [keep_sub c hh]
    refine gets_done N c _ _ ht ?_
    rw [look_quoted N c q s hq hm, valueTok, valueTT_like o c ho hl, trim_quoted]
    simp [hs]
  · intro tree i par l r h
    rw [outNode, h]

theorem rhs_pcre (N : Env E) (o : Bin) (q : Nat) (s : Str) (hl : o.likes) (hq : q = 34 ∨ q = 39) (hs : N.compiles s = false)
    (hp : Verif.Filter.isPcre s = true) : Rhs N o [q :: s ++ [q]] (.pcre (.json (.str s))) := by
  apply rhs_one
  intro c ht hm ho hh
  refine ⟨c.sub.isBool, none, s, .pcre, ?_, rfl, ?_⟩
  · rw [keep_sub c hh]
    refine gets_done N c _ _ ht ?_
    rw [look_quoted N c q s hq hm, valueTok, valueTT_like o c ho hl, trim_quoted]
    simp [hs, hp]
  · intro tree i par l r h
    rw [outNode, h]

theorem rhs_numRegex (N : Env E) (o : Bin) (n : Num) (hl : o.likes) (hn : n.Ok) : Rhs N o [n.text] (.regex (.json (.str n.text))) := by
  apply rhs_one
  intro c ht hm ho hh
  refine ⟨c.sub.isBool, none, n.text, .regex, ?_, rfl, ?_⟩
  · rw [keep_sub c hh]
    refine gets_done N c _ _ ht ?_
    rw [look_num N c n hn, valueTT_like o c ho hl]
  · intro tree i par l r h
    rw [outNode, h]

/-! ### Phrases -/

theorem hasSuffix_one (q : Nat) (s : Str) : hasSuffix [q] s = decide (s.getLast? = some q) := by
  rw [Bool.eq_iff_iff, decide_eq_true_eq, hasSuffix, List.isSuffixOf_iff_suffix]
  constructor
  · rintro ⟨z, rfl⟩; simp
  · intro h
    obtain ⟨z, rfl⟩ := List.getLast?_eq_some_iff.1 h
    exact ⟨z, rfl⟩

theorem stripParen_same (c : Ctx) (t : Str) (h : t.getLast? ≠ some 41) : stripParen c t = (c, t) := by
  unfold stripParen
  rw [if_neg (by rw [hasSuffix_one]; simp [h])]

theorem quoteLoop_words (q : Nat) (hq : q = 34 ∨ q = 39) : ∀ (mid : List Str) (last : Str) (rest : List Str) (c : Ctx) (acc : Str),
    c.tokens.drop c.idx = mid ++ (last ++ [q]) :: rest → (∀ w ∈ mid, w.getLast? ≠ some q ∧ w.getLast? ≠ some 41) →
    ∀ n, mid.length < n → quoteLoop q n c acc =
      .ok ({ c with idx := c.idx + mid.length }, some (acc ++ mid.flatMap (fun w => 32 :: w) ++ 32 :: last)) := by
  intro mid
  induction mid with
  | nil =>
    intro last rest c acc ht _ n hn
    obtain ⟨n, rfl⟩ : ∃ m, n = m + 1 := ⟨n - 1, by omega⟩
    have h1 := (tokens_head ht).1
    rw [quoteLoop, h1]
    dsimp only
    rw [stripParen_same _ _ (by simp; omega), if_pos (by rw [hasSuffix_one]; simp)]
    unfold trimSuffix
    rw [if_pos (by rw [hasSuffix_one]; simp)]
    simp
  | cons w mid ih =>
    intro last rest c acc ht hm n hn
    obtain ⟨n, rfl⟩ : ∃ m, n = m + 1 := ⟨n - 1, by omega⟩
    obtain ⟨h1, h2⟩ := tokens_head ht
    obtain ⟨h3, h4⟩ := hm w (by simp)
    rw [quoteLoop, h1]
    dsimp only
    rw [stripParen_same _ _ h4, if_neg (by rw [hasSuffix_one]; simp [h3])]
    rw [ih last rest { c with idx := c.idx + 1 } _ h2 (fun x hx => hm x (List.mem_cons_of_mem _ hx)) n (by simp at hn; omega)]
    simp
    omega

/-- The first word of a phrase. -/
theorem look_phrase (N : Env E) (c : Ctx) (q : Nat) (first : Str) (mid : List Str) (hp : PhraseOk q first mid) (hm : c.sub.mode = .value) :
    look N c (q :: first) = .words q := by
  have hne := quote_not_word q first hp.quote
  have w1 : q :: first ≠ ascii "NOT" := hne _ (by decide)
  have w2 : q :: first ≠ ascii "IS" := hne _ (by decide)
  have w3 : q :: first ≠ ascii "true" := hne _ (by decide)
  have w4 : q :: first ≠ ascii "false" := hne _ (by decide)
  have hop : isOpTok (q :: first) = false := isOpTok_ne _ hne
  have hlast : (q :: first).getLast? ≠ some q := by
    have := hp.noQuote
    have hn := hp.ne
    cases first with
    | nil => exact absurd rfl hn
    | cons a b => rw [List.getLast?_cons_cons]; exact this
  have hquote : quoteOf (q :: first) = none := by
    rcases hp.quote with rfl | rfl <;> simp [quoteOf, hlast]
  have hunf : unfinished (q :: first) = some q := by
    have hpre : ∀ x, hasPrefix [x] (x :: first) = true := by intro x; simp [hasPrefix, List.isPrefixOf]
    unfold unfinished
    rcases hp.quote with rfl | rfl
    · rw [if_pos (by rw [hpre, hasSuffix_one]; simp [hlast])]
    · rw [if_neg (by simp [hasPrefix, List.isPrefixOf]), if_pos (by rw [hpre, hasSuffix_one]; simp [hlast])]
  have hnum : isNum (q :: first) = false := by
    apply isNum_false _ (by simp)
    rintro ⟨x, hx, hx'⟩
    simp at hx
    rcases hp.quote with h | h <;> omega
  have hfn : funcKey (q :: first) = none := funcKey_quote _ (by rcases hp.quote with rfl | rfl <;> simp)
  have hq40 : ¬ (40 = q) := by rcases hp.quote with h | h <;> omega
  have hq41 : ¬ (41 = q) := by rcases hp.quote with h | h <;> omega
  simp [look, w1, w2, w3, w4, hop, hm, hquote, hunf, hnum, hfn, hp.noParen.1, hp.noParen.2, hq40, hq41]

theorem gets_phrase (N : Env E) (c : Ctx) (q : Nat) (first : Str) (mid : List Str) (last : Str) (rest : List Str) (hp : PhraseOk q first mid)
    (hm : c.sub.mode = .value) (ht : c.tokens.drop c.idx = ((q :: first) :: (mid ++ [last ++ [q]])) ++ rest) :
    Gets N c ({ c with idx := c.idx + (mid.length + 1) }, .ok (phrase first mid last, valueTT c)) := by
  obtain ⟨h1, h2⟩ := tokens_head (t := q :: first) (r := mid ++ (last ++ [q]) :: rest) (by rw [ht]; simp)
  have hlook := look_phrase N c q first mid hp hm
  refine ⟨mid.length + 2, fun n hn => ?_⟩
  obtain ⟨n, rfl⟩ : ∃ m, n = m + 1 := ⟨n - 1, by omega⟩
  rw [getTok, h1]
  dsimp only
  rw [hlook]
  dsimp only
  rw [unfinishedTok, quoteLoop_words q hp.quote mid last rest { c with idx := c.idx + 1 } _ h2 hp.mids n (by omega), Res.bind_ok]
  have htp : trimPrefix [q] (q :: first) = first := by
    unfold trimPrefix
    rw [if_pos (by simp [hasPrefix, List.isPrefixOf])]
    rfl
  simp only [htp, phrase, valueTT]
  rw [show c.idx + 1 + mid.length = c.idx + (mid.length + 1) by omega]

theorem rhs_phrase (N : Env E) (o : Bin) (q : Nat) (first : Str) (mid : List Str) (last : Str) (hp : PhraseOk q first mid) (e : Expr E)
    (he : ∀ (tree : List Node) (i : Nat) (par l r : Int) c, c.sub.opCtx = o.ctx .no →
      tree[i]? = some ⟨valueTT c, phrase first mid last, par, l, r, none, none⟩ → outNode N tree 1 i = .ok (some e)) :
    Rhs N o ((q :: first) :: (mid ++ [last ++ [q]])) e := by
  refine ⟨by simp, ?_⟩
  intro c rest ht hm ho hh
  refine ⟨c.sub.isBool, none, phrase first mid last, valueTT c, ?_, ?_, ?_⟩
  · have := gets_phrase N c q first mid last rest hp hm ht
    rw [← hh]
    simpa using this
  · unfold valueTT
    by_cases h : c.sub.opCtx = .like
    · rw [if_pos h]; rfl
    · rw [if_neg h]; rfl
  · intro tree i par l r h
    exact he tree i par l r c ho h

theorem phrase_notNum (first : Str) (mid : List Str) (last : Str) : NotNum (phrase first mid last) := by
  rintro ⟨n, hn, he⟩
  have h32 : (32 : Nat) ∈ n.text := by rw [he]; simp [phrase]
  have := num_chars n hn 32 h32
  omega

theorem right_reads (N : Env E) (o : Bin) (ts : List Str) (e : Expr E) (h : RightMeans N o ts e) : Rhs N o ts e := by
  cases h with
  | num n e hl ha => exact rhs_num N o n e hl ha
  | word q s e hl ha => exact rhs_word N o q s e hl ha
  | phrase q first mid last hl hp =>
    refine rhs_phrase N o q first mid last hp _ ?_
    intro tree i par l r c hc h
    rw [valueTT_value o c hc hl] at h
    rw [outNode, h]
    dsimp only
    rw [outValue_str N _ (phrase_notNum first mid last)]
  | bool b ho => exact rhs_bool N o b ho
  | call t k e hk ht => exact rhs_func N o _ _ (.call t k e hk ht)
  | const t e h => exact rhs_func N o _ _ (.const t e h)
  | regex q s hl hq hs => exact rhs_regex N o q s hl hq hs
  | pcre q s hl hq hs hp => exact rhs_pcre N o q s hl hq hs hp
  | numRegex n hl hn => exact rhs_numRegex N o n hl hn
  | phraseRegex q first mid last hl hp =>
    refine rhs_phrase N o q first mid last hp _ ?_
    intro tree i par l r c hc h
    rw [valueTT_like o c hc hl] at h
    rw [outNode, h]

end Verif.Simple
