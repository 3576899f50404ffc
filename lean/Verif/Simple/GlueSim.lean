import Verif.Simple.Glue
import Verif.Simple.Balance

/-!
# C71: the parser on texts that differ only in white space around tokens
-/

namespace Verif.Simple
open Verif.FastVal Verif.Expr

variable {E : Ext}

def Ctx.withT (c : Ctx) (T : List Str) : Ctx := { c with tokens := T }

/-! ### What does not look at the tokens -/

theorem withT_check (c : Ctx) (T : List Str) (ty : TT) : check (c.withT T) ty = ((check c ty).1.withT T, (check c ty).2) := by
  unfold check
  have hs : (c.withT T).sub = c.sub := rfl
  rw [hs]
  cases hm : c.sub.mode with
  | op =>
    dsimp only
    by_cases h1 : ty = .endParen
    · rw [if_pos h1, if_pos h1]; rfl
    · rw [if_neg h1, if_neg h1]
      by_cases h2 : ty ≠ .op
      · rw [if_pos h2, if_pos h2]
      · rw [if_neg h2, if_neg h2]
        split <;> rfl
  | chain =>
    dsimp only
    by_cases h1 : ty = .endParen
    · rw [if_pos h1, if_pos h1]; rfl
    · rw [if_neg h1, if_neg h1]
      by_cases h2 : ty ≠ .op
      · rw [if_pos h2, if_pos h2]
      · rw [if_neg h2, if_neg h2]
        split <;> rfl
  | field =>
    dsimp only
    split
    · rfl
    · split <;> rfl
  | value => rfl

theorem withT_mark (c : Ctx) (T : List Str) (t : Str) : mark (c.withT T) t = (mark c t).withT T := by
  unfold mark
  have hs : (c.withT T).sub = c.sub := rfl
  rw [hs]
  repeat' split
  all_goals rfl

theorem withT_insert (c : Ctx) (T : List Str) (tok : Str) (ty : TT) :
    insert (c.withT T) tok ty = (insert c tok ty >>= fun d => .ok (d.withT T)) := by
  unfold insert
  have hs : (c.withT T).sub = c.sub := rfl
  rw [hs]
  cases c.sub.mode with
  | field => rfl
  | chain =>
    dsimp only [Ctx.withT]
    cases modifyAt (c.tree ++ [⟨ty, tok, -1, c.sub.lastSub, -1, none, none⟩]) c.sub.lastSub (fun n => { n with parent := (c.tree.length : Int) }) <;> rfl
  | op =>
    dsimp only [Ctx.withT]
    cases modifyAt (c.tree ++ [⟨ty, tok, -1, c.sub.lastSub, -1, none, none⟩]) c.sub.lastSub (fun n => { n with parent := (c.tree.length : Int) }) <;> rfl
  | value =>
    dsimp only [Ctx.withT]
    cases modifyAt (c.tree ++ [⟨ty, tok, c.sub.lastOp, -1, -1, none, c.sub.helper⟩]) c.sub.lastOp (fun n => { n with right := (c.tree.length : Int) }) <;> rfl

theorem withT_merge (c : Ctx) (T : List Str) (old : Sub) :
    merge (c.withT T) old = (merge c old >>= fun r => .ok (r.1.withT T, r.2)) := by
  unfold merge
  have hs : (c.withT T).sub = c.sub := rfl
  have ht : (c.withT T).tree = c.tree := rfl
  rw [hs, ht]
  by_cases h1 : old.unused = true
  · rw [if_pos h1, if_pos h1]; rfl
  rw [if_neg h1, if_neg h1]
  by_cases h2 : (!c.sub.oneLayer && old.isBool) = true
  · rw [if_pos h2, if_pos h2]; rfl
  rw [if_neg h2, if_neg h2]
  by_cases h3 : old.lastOp ≥ c.tree.length
  · rw [if_pos h3, if_pos h3]; rfl
  rw [if_neg h3, if_neg h3]
  by_cases h4 : c.sub.lastOp ≥ c.tree.length
  · rw [if_pos h4, if_pos h4]; rfl
  rw [if_neg h4, if_neg h4]
  cases nodeAt c.tree old.lastOp with
  | panic => rfl
  | stuck => rfl
  | ok o =>
  cases nodeAt c.tree c.sub.lastOp with
  | panic => rfl
  | stuck => rfl
  | ok w =>
  show (if o.right ≠ -1 then _ else _) = ((if o.right ≠ -1 then _ else _) >>= _)
  by_cases h5 : o.right ≠ -1
  · rw [if_pos h5, if_pos h5]; rfl
  rw [if_neg h5, if_neg h5]
  cases modifyAt c.tree old.lastOp (fun n => { n with right := c.sub.lastOp }) with
  | panic => rfl
  | stuck => rfl
  | ok tr =>
  show (nodeAt tr c.sub.lastOp >>= _) = ((nodeAt tr c.sub.lastOp >>= _) >>= _)
  cases nodeAt tr c.sub.lastOp with
  | panic => rfl
  | stuck => rfl
  | ok w =>
  show (if w.parent ≠ -1 then _ else _) = ((if w.parent ≠ -1 then _ else _) >>= _)
  by_cases h6 : w.parent ≠ -1
  · rw [if_pos h6, if_pos h6]; rfl
  rw [if_neg h6, if_neg h6]
  cases modifyAt tr c.sub.lastOp (fun n => { n with parent := old.lastOp }) with
  | panic => rfl
  | stuck => rfl
  | ok tr' =>
  show (nodeAt tr' old.lastOp >>= _) = ((nodeAt tr' old.lastOp >>= _) >>= _)
  cases nodeAt tr' old.lastOp <;> rfl

theorem withT_advance (c : Ctx) (T : List Str) : advance (c.withT T) = ((advance c).1.withT T, (advance c).2) := by
  unfold advance
  have hs : (c.withT T).sub = c.sub := rfl
  have hp : (c.withT T).posOnly = c.posOnly := rfl
  rw [hs, hp]
  by_cases h : c.posOnly = true
  · rw [if_pos h, if_pos h]; rfl
  rw [if_neg h, if_neg h]
  dsimp only
  cases c.sub.mode with
  | field => rfl
  | op => cases c.sub.opCtx <;> rfl
  | value => dsimp only; split <;> rfl
  | chain => rfl

theorem advance_steps (c : Ctx) : (advance c).1.tokens = c.tokens ∧
    (((advance c).2 = none ∧ (advance c).1.idx = c.idx + 1) ∨ ((advance c).2 = some .layerDone ∧ (advance c).1.idx = c.idx)) := by
  unfold advance
  by_cases h : c.posOnly = true
  · rw [if_pos h]; exact ⟨rfl, .inl ⟨rfl, rfl⟩⟩
  rw [if_neg h]
  dsimp only
  cases c.sub.mode with
  | field => exact ⟨rfl, .inl ⟨rfl, rfl⟩⟩
  | op => cases c.sub.opCtx <;> exact ⟨rfl, .inl ⟨rfl, rfl⟩⟩
  | value =>
    dsimp only
    split
    · exact ⟨rfl, .inr ⟨rfl, rfl⟩⟩
    · exact ⟨rfl, .inl ⟨rfl, rfl⟩⟩
  | chain => exact ⟨rfl, .inl ⟨rfl, rfl⟩⟩

theorem withT_finish (c : Ctx) (T : List Str) (e : Err) : finish (c.withT T) e = ((finish c e).1.withT T, (finish c e).2) := by
  unfold finish
  have hd : (c.withT T).depth = c.depth := rfl
  rw [hd]
  repeat' split
  all_goals rfl

theorem withT_close (c : Ctx) (T : List Str) : closeParen (c.withT T) = ((closeParen c).1.withT T, (closeParen c).2) := by
  unfold closeParen
  have hd : (c.withT T).depth = c.depth := rfl
  have hs : (c.withT T).sub = c.sub := rfl
  rw [hd, hs]
  by_cases h : c.depth = 0
  · rw [if_pos h, if_pos h]
  · rw [if_neg h, if_neg h]
    dsimp only
    split <;> rfl

/-! ### Lists of tokens that agree -/

/-- From `i` on, the words are made of the same tokens. -/
def Agree (T1 T2 : List Str) (i : Nat) : Prop :=
  ∃ ps qs, Lined ps ∧ Lined qs ∧ ps.flatten = qs.flatten ∧ T1.drop i = ps.map flat ∧ T2.drop i = qs.map flat

/-- And the word at `i` is a single token, if there is one. -/
def Agree1 (T1 T2 : List Str) (i : Nat) : Prop :=
  ∃ ps qs, Lined ps ∧ Lined qs ∧ ps.flatten = qs.flatten ∧ T1.drop i = ps.map flat ∧ T2.drop i = qs.map flat ∧
    ((ps = [] ∧ qs = []) ∨ ∃ x ps' qs', ps = [x] :: ps' ∧ qs = [x] :: qs')

theorem Agree.symm {T1 T2 : List Str} {i : Nat} (h : Agree T1 T2 i) : Agree T2 T1 i := by
  obtain ⟨ps, qs, h1, h2, h3, h4, h5⟩ := h
  exact ⟨qs, ps, h2, h1, h3.symm, h5, h4⟩

theorem Agree1.agree {T1 T2 : List Str} {i : Nat} (h : Agree1 T1 T2 i) : Agree T1 T2 i := by
  obtain ⟨ps, qs, h1, h2, h3, h4, h5, _⟩ := h
  exact ⟨ps, qs, h1, h2, h3, h4, h5⟩

theorem lined_tail {p : List Tok} {ps : List (List Tok)} (h : Lined (p :: ps)) : Lined ps := h.2.2

theorem Agree1.next {T1 T2 : List Str} {i : Nat} (h : Agree1 T1 T2 i) : Agree T1 T2 (i + 1) := by
  obtain ⟨ps, qs, h1, h2, h3, h4, h5, h6⟩ := h
  have hd : ∀ T : List Str, T.drop (i + 1) = (T.drop i).drop 1 := by intro T; rw [List.drop_drop]
  rcases h6 with ⟨rfl, rfl⟩ | ⟨x, ps', qs', rfl, rfl⟩
  · exact ⟨[], [], trivial, trivial, rfl, by rw [hd, h4]; rfl, by rw [hd, h5]; rfl⟩
  · refine ⟨ps', qs', lined_tail h1, lined_tail h2, by simpa using h3, by rw [hd, h4]; rfl, by rw [hd, h5]; rfl⟩

theorem lined_ne {p : List Tok} {ps : List (List Tok)} (h : Lined (p :: ps)) : p ≠ [] := by
  rintro rfl
  exact h.1.1.elim

theorem lined_nil : ∀ {ps : List (List Tok)}, Lined ps → ps.flatten = [] → ps = [] := by
  intro ps h h'
  cases ps with
  | nil => rfl
  | cons p ps =>
    rw [List.flatten_cons, List.append_eq_nil_iff] at h'
    exact absurd h'.1 (lined_ne h)

/-- There are no `NOT` and `IS` in words of several tokens. -/
theorem no_neg : ∀ p : List Tok, Good p → 2 ≤ p.length → ∀ x ∈ p, x.1 ≠ .neg := by
  intro p
  induction p with
  | nil => intro h; exact h.elim
  | cons x p ih =>
    intro h hl z hz
    cases p with
    | nil => simp at hl
    | cons y r =>
      have hf := good_next h
      rw [List.mem_cons] at hz
      rcases hz with rfl | hz
      · intro hn; rw [hn] at hf; cases hy : y.1 <;> rw [hy] at hf <;> cases hf
      · cases r with
        | nil =>
          simp at hz; subst hz
          intro hn; rw [hn] at hf; cases hx : x.1 <;> rw [hx] at hf <;> cases hf
        | cons y' r' => exact ih (good_tail h) (by simp) z hz

theorem lined_append : ∀ (qs r : List (List Tok)), (∀ q ∈ qs, PartOk q ∧ ∀ x ∈ q, x.1 ≠ .neg) → Lined r → Lined (qs ++ r) := by
  intro qs
  induction qs with
  | nil => intro r _ h; exact h
  | cons q qs ih =>
    intro r h hr
    obtain ⟨h1, h2⟩ := h q (by simp)
    exact ⟨h1, fun x hx hn => absurd hn (h2 x hx), ih r (fun p hp => h p (List.mem_cons_of_mem _ hp)) hr⟩

/-! ### Splitting words -/

/-- Before a token is read, the word it is in is split so that it is a word of its own. -/
theorem separate (N : Env E) : ∀ (k : Nat) (ps : List (List Tok)) (c : Ctx), (∀ p r, ps = p :: r → p.length ≤ k) → Lined ps →
    c.tokens.drop c.idx = ps.map flat → ∃ m ps' T', Lined ps' ∧ ps'.flatten = ps.flatten ∧ (ps' = [] ∨ ∃ x r, ps' = [x] :: r) ∧
      T'.drop c.idx = ps'.map flat ∧ ∀ n, getTok N (n + m) c = getTok N n (c.withT T') := by
  intro k
  induction k with
  | zero =>
    intro ps c hk hl hd
    cases ps with
    | nil => exact ⟨0, [], c.tokens, hl, rfl, .inl rfl, hd, fun n => rfl⟩
    | cons p r =>
      have := hk p r rfl
      exact absurd (List.eq_nil_of_length_eq_zero (by omega)) (lined_ne hl)
  | succ k ih =>
    intro ps c hk hl hd
    cases ps with
    | nil => exact ⟨0, [], c.tokens, hl, rfl, .inl rfl, hd, fun n => rfl⟩
    | cons p r =>
      have hget : c.tokens[c.idx]? = some (flat p) := by
        have h := congrArg (fun l => l[0]?) hd
        simpa [List.getElem?_drop] using h
      match p, hk p r rfl, lined_ne hl with
      | [x], _, _ => exact ⟨0, [x] :: r, c.tokens, hl, rfl, .inr ⟨x, r, rfl⟩, hd, fun n => rfl⟩
      | x :: y :: p', hpk, _ =>
        obtain ⟨qs, q, r', h1, h2, h3, h4, h5⟩ := look_glued N c (x :: y :: p') hl.1 (by simp)
        have hnn := no_neg _ hl.1.1 (by simp)
        have hlin : Lined (qs ++ r) := by
          refine lined_append qs r (fun q hq => ⟨h3 q hq, fun z hz => hnn z ?_⟩) (lined_tail hl)
          rw [← h2]
          exact List.mem_flatten.2 ⟨q, hq, hz⟩
        have hdrop : (c.replace (qs.map flat)).tokens.drop (c.replace (qs.map flat)).idx = (qs ++ r).map flat := by
          have := replace_rest hget (qs.map flat)
          rw [Ctx.rest] at this
          rw [this, List.map_append]
          congr 1
          have hdd : c.tokens.drop (c.idx + 1) = (c.tokens.drop c.idx).drop 1 := by rw [List.drop_drop]
          rw [hdd, hd]; rfl
        obtain ⟨m, ps', T', i1, i2, i3, i4, i5⟩ := ih (qs ++ r) (c.replace (qs.map flat)) (by
          intro p0 r0 he
          rw [h4] at he
          injection he with he _
          rw [← he]
          have : q.length < (x :: y :: p').length := h5
          omega) hlin hdrop
        refine ⟨m + 1, ps', T', i1, by rw [i2, List.flatten_append, h2]; rfl, i3, i4, ?_⟩
        intro n
        rw [← Nat.add_assoc, getTok, hget]
        dsimp only
        rw [h1]
        dsimp only
        rw [i5 n]
        rfl

/-! ### Looking at a word that is one token -/

theorem checkField_one {t : Str} (h96 : 96 ∉ t) : ∃ o : Option (List Str), ∀ (ts : List Str) (i : Nat), ts[i]? = some t →
    checkField ts i = o.map fun p => (i, p) := by
  cases t with
  | nil => exact ⟨none, fun ts i h => by unfold checkField; rw [h]; rfl⟩
  | cons b t =>
    have hd : ∀ (ts : List Str) (i : Nat), ts[i]? = some (b :: t) → ts.drop i = (b :: t) :: ts.drop (i + 1) := by
      intro ts i h
      obtain ⟨hlt, he⟩ := List.getElem?_eq_some_iff.1 h
      rw [List.drop_eq_getElem_cons hlt, he]
    cases hf : fieldChars (b :: t) ⟨.none, false, [], [], []⟩ with
    | none =>
      refine ⟨none, fun ts i h => ?_⟩
      unfold checkField
      rw [h, hd ts i h]
      dsimp only
      rw [fieldToks]
      dsimp only
      rw [hf]; rfl
    | some s =>
      have hm := fieldChars_tick _ _ _ h96 (by simp) hf
      refine ⟨if s.mode = .none then some (if s.skip then s.out else s.out ++ [s.cur]) else none, fun ts i h => ?_⟩
      unfold checkField
      rw [h, hd ts i h]
      dsimp only
      rw [fieldToks]
      dsimp only
      rw [hf]
      dsimp only
      cases hmo : s.mode with
      | none => rfl
      | nest => rfl
      | tick => exact absurd hmo hm

/-- The result of looking at a single token `t` at `c.idx`, where the other list of tokens is `T`. -/
def OneOk (c : Ctx) (T : List Str) (a b : Next) : Prop :=
  ∃ d e, a = .done (.ok (d, e)) ∧ b = .done (.ok (d.withT T, e)) ∧ d.tokens = c.tokens ∧
    (e = .error .other ∨ ∃ tok ty, e = .ok (tok, ty) ∧ Agree d.tokens T d.idx ∧ (ty ≠ .paren → Agree1 d.tokens T d.idx))

theorem oneOk_same {c d : Ctx} {T : List Str} {e : Except Err (Str × TT)} {a b : Next} (ha : a = .done (.ok (d, e)))
    (hb : b = .done (.ok (d.withT T, e))) (h1 : d.tokens = c.tokens) (h2 : d.idx = c.idx) (h : Agree1 c.tokens T c.idx) (he : ∀ x, e = .error x → x = .other) : OneOk c T a b := by
  refine ⟨d, e, ha, hb, h1, ?_⟩
  cases e with
  | error x => exact .inl (by rw [he x rfl])
  | ok r => exact .inr ⟨r.1, r.2, rfl, by rw [h1, h2]; exact h.agree, fun _ => by rw [h1, h2]; exact h⟩

theorem look_plain (N : Env E) (c : Ctx) (T : List Str) (t : Str) (ht : Plain t) (hn : t ≠ ascii "NOT") (hi : t ≠ ascii "IS")
    (hu : unfinished t = none) (h1 : c.tokens[c.idx]? = some t) (h2 : T[c.idx]? = some t) (h : Agree1 c.tokens T c.idx) :
    OneOk c T (look N c t) (look N (c.withT T) t) := by
  have h40 : t.contains 40 = false := by
    rw [← Bool.not_eq_true, List.contains_iff_mem]; intro hm; exact (ht.chars _ hm).2.1 rfl
  have h41 : t.contains 41 = false := by
    rw [← Bool.not_eq_true, List.contains_iff_mem]; intro hm; exact (ht.chars _ hm).2.2.1 rfl
  have h96 : 96 ∉ t := fun hm => (ht.chars _ hm).2.2.2 rfl
  have hfk := funcKey_none t (by simpa using h40)
  have hl : ∀ c : Ctx, look N c t = match (if c.sub.mode = .value then quoteOf t else none) with
      | some q => .done (.ok (c, valueTok N c t q))
      | none => if isNum t then .done (.ok (c, .ok (t, valueTT c)))
        else if t = ascii "true" then .done (.ok ({ c with sub := { c.sub with isBool := true } }, .ok (t, .tru)))
        else if t = ascii "false" then .done (.ok ({ c with sub := { c.sub with isBool := true } }, .ok (t, .fals)))
        else .done (.ok (fieldTok c t)) := by
    intro c
    unfold look
    rw [if_neg (by simp [hn, hi]), if_neg (by simp [isOpTok_false t ht.noOp]), hfk, hu, seek_none t ht.noOp,
      show (if c.sub.mode = .value then (none : Option Nat) else none) = none by split <;> rfl, h40, h41]
    rfl
  rw [hl c, hl (c.withT T)]
  have hs : (c.withT T).sub = c.sub := rfl
  rw [hs]
  cases (if c.sub.mode = .value then quoteOf t else none) with
  | some q =>
    refine oneOk_same rfl rfl rfl rfl h ?_
    intro x hx
    unfold valueTok at hx
    dsimp only at hx
    split at hx
    · split at hx
      · cases hx
      · injection hx with hx; exact hx.symm
    · cases hx
  | none =>
    dsimp only
    by_cases hnum : isNum t = true
    · rw [if_pos hnum, if_pos hnum]
      exact oneOk_same rfl rfl rfl rfl h (fun x hx => by cases hx)
    rw [if_neg hnum, if_neg hnum]
    by_cases htr : t = ascii "true"
    · rw [if_pos htr, if_pos htr]
      exact oneOk_same rfl rfl rfl rfl h (fun x hx => by cases hx)
    rw [if_neg htr, if_neg htr]
    by_cases hfa : t = ascii "false"
    · rw [if_pos hfa, if_pos hfa]
      exact oneOk_same rfl rfl rfl rfl h (fun x hx => by cases hx)
    rw [if_neg hfa, if_neg hfa]
    obtain ⟨o, ho⟩ := checkField_one h96
    unfold fieldTok
    by_cases hdot : (hasPrefix [46] t || hasSuffix [46] t) = true
    · rw [if_pos hdot, if_pos hdot]
      exact oneOk_same rfl rfl rfl rfl h (fun x hx => by injection hx with hx; exact hx.symm)
    rw [if_neg hdot, if_neg hdot, ho c.tokens c.idx h1, ho (c.withT T).tokens (c.withT T).idx h2]
    cases o with
    | none => exact oneOk_same rfl rfl rfl rfl h (fun x hx => by injection hx with hx; exact hx.symm)
    | some p => exact oneOk_same rfl rfl rfl rfl h (fun x hx => by cases hx)

theorem unfinished_quoted {t : Str} (h : (t.head? = some 34 ∧ t.getLast? = some 34) ∨ (t.head? = some 39 ∧ t.getLast? = some 39)) : unfinished t = none := by
  have hp : ∀ b, hasPrefix [b] t = true → t.head? = some b := by
    intro b hb
    obtain ⟨v, rfl⟩ := (hasPrefix_iff _ _).1 hb
    rfl
  have hs : ∀ b, t.getLast? = some b → hasSuffix [b] t = true := by intro b hb; rw [hasSuffix_one, hb]; simp
  unfold unfinished
  rcases h with ⟨h1, h2⟩ | ⟨h1, h2⟩
  · rw [if_neg (by rw [hs 34 h2]; simp), if_neg]
    intro hh
    rw [Bool.and_eq_true] at hh
    have := hp 39 hh.1
    rw [h1] at this
    simp at this
  · rw [if_neg, if_neg (by rw [hs 39 h2]; simp)]
    intro hh
    rw [Bool.and_eq_true] at hh
    have := hp 34 hh.1
    rw [h1] at this
    simp at this

/-- The token after `NOT` and `IS` is a word of its own. -/
theorem after_neg {x : Tok} (hx : x.1 = .neg) {ps qs : List (List Tok)} (h1 : Lined ([x] :: ps)) (h2 : Lined ([x] :: qs)) (hf : ps.flatten = qs.flatten) :
    (ps = [] ∧ qs = []) ∨ ∃ y ps' qs', ps = [y] :: ps' ∧ qs = [y] :: qs' := by
  cases ps with
  | nil => exact .inl ⟨rfl, lined_nil (lined_tail h2) hf.symm⟩
  | cons p ps =>
    cases qs with
    | nil => exact absurd (List.append_eq_nil_iff.1 (by rw [List.flatten_cons, List.flatten_nil] at hf; exact hf)).1 (lined_ne (lined_tail h1))
    | cons q qs =>
      have hp := h1.2.1 x (by simp) hx p rfl
      have hq := h2.2.1 x (by simp) hx q rfl
      match p, q, hp, hq with
      | [y], [z], _, _ =>
        simp at hf
        exact .inr ⟨y, ps, qs, rfl, by rw [hf.1]⟩

theorem is_neg {x : Tok} (h : IsTok x.1 x.2) (hn : x.2 = ascii "NOT" ∨ x.2 = ascii "IS") : x.1 = .neg := by
  obtain ⟨k, t⟩ := x
  dsimp only at *
  cases k with
  | atom => rcases hn with hn | hn; exact absurd hn h.2.2.2.1; exact absurd hn h.2.2.2.2
  | quoted => rcases hn with rfl | rfl <;> exact absurd h.2.2 (by decide)
  | sym => rcases hn with rfl | rfl <;> exact absurd (show _ ∈ symWords from h) (by decide)
  | opn => rcases hn with rfl | rfl <;> exact absurd (show _ = _ from h) (by decide)
  | cls => rcases hn with rfl | rfl <;> exact absurd (show _ = _ from h) (by decide)
  | key => rcases hn with rfl | rfl <;> exact absurd (show _ ∈ letterWords from h) (by decide)
  | neg => rfl

theorem multi_one (c : Ctx) (T : List Str) (x : Tok) (ps qs : List (List Tok)) (hx : x.1 = .neg) (h1 : Lined ([x] :: ps)) (h2 : Lined ([x] :: qs))
    (hf : ps.flatten = qs.flatten) (hd : c.tokens.drop c.idx = ([x] :: ps).map flat) (hd' : T.drop c.idx = ([x] :: qs).map flat) :
    OneOk c T (.done (.ok (multi c))) (.done (.ok (multi (c.withT T)))) := by
  have hA : Agree1 c.tokens T c.idx := ⟨_, _, h1, h2, by rw [List.flatten_cons, List.flatten_cons, hf], hd, hd', .inr ⟨x, ps, qs, rfl, rfl⟩⟩
  have hpre : ∀ p ∈ multiWords, p.1.isPrefixOf (c.tokens.drop c.idx) = p.1.isPrefixOf (T.drop c.idx) ∧
      (p.1.isPrefixOf (c.tokens.drop c.idx) = true → Agree1 c.tokens T (c.idx + (p.1.length - 1))) := by
    have hdrop : ∀ (l : List Str) (k : Nat), l.drop (c.idx + k) = (l.drop c.idx).drop k := by intro l k; rw [List.drop_drop]
    have hlen : ∀ p ∈ multiWords, p.1.length = 2 ∨ (p.1 = [ascii "IS", ascii "NOT", ascii "NULL"]) := by decide
    intro p hp
    rcases after_neg hx h1 h2 hf with ⟨rfl, rfl⟩ | ⟨y, ps', qs', rfl, rfl⟩
    · rw [hd, hd']
      refine ⟨rfl, fun hpr => ?_⟩
      exfalso
      have := (List.isPrefixOf_iff_prefix.1 hpr).length_le
      rcases hlen p hp with h | h
      · simp at this; omega
      · rw [h] at this; simp at this
    · have hl1 := lined_tail h1
      have hl2 := lined_tail h2
      have hf' : ps'.flatten = qs'.flatten := by simpa using hf
      have hA1 : Agree1 c.tokens T (c.idx + 1) :=
        ⟨_, _, hl1, hl2, hf, by rw [hdrop, hd]; rfl, by rw [hdrop, hd']; rfl, .inr ⟨y, ps', qs', rfl, rfl⟩⟩
      rcases hlen p hp with h | h
      · obtain ⟨a, b, hab⟩ : ∃ a b, p.1 = [a, b] := by
          match p.1, h with
          | [a, b], _ => exact ⟨a, b, rfl⟩
        rw [hd, hd', hab]
        exact ⟨by simp [List.isPrefixOf], fun _ => hA1⟩
      · rw [h]
        by_cases hy : y.2 = ascii "NOT"
        · have hyn := is_neg (good_head hl1.1.1) (.inl hy)
          rcases after_neg hyn hl1 hl2 hf' with ⟨rfl, rfl⟩ | ⟨z, ps2, qs2, rfl, rfl⟩
          · rw [hd, hd']
            refine ⟨rfl, fun hpr => ?_⟩
            have := (List.isPrefixOf_iff_prefix.1 hpr).length_le
            simp at this
          · rw [hd, hd']
            refine ⟨by simp [List.isPrefixOf], fun _ => ?_⟩
            exact ⟨_, _, lined_tail hl1, lined_tail hl2, hf', by rw [hdrop, hd]; rfl, by rw [hdrop, hd']; rfl, .inr ⟨z, ps2, qs2, rfl, rfl⟩⟩
        · have hno : ∀ r : List (List Tok), List.isPrefixOf [ascii "IS", ascii "NOT", ascii "NULL"] (([x] :: [y] :: r).map flat) = false := by
            intro r
            simp only [List.map_cons, flat_one, List.isPrefixOf]
            have : (ascii "NOT" == y.2) = false := by
              rw [beq_eq_false_iff_ne]; exact fun hh => hy hh.symm
            rw [this]; simp
          rw [hd, hd', hno, hno]
          exact ⟨rfl, fun hh => by cases hh⟩
  have hfind : multiWords.find? (fun p => p.1.isPrefixOf (c.tokens.drop c.idx)) = multiWords.find? (fun p => p.1.isPrefixOf (T.drop c.idx)) := by
    have : ∀ l : List (List Str × Str), (∀ p ∈ l, p ∈ multiWords) →
        l.find? (fun p => p.1.isPrefixOf (c.tokens.drop c.idx)) = l.find? (fun p => p.1.isPrefixOf (T.drop c.idx)) := by
      intro l
      induction l with
      | nil => intro _; rfl
      | cons a l ih =>
        intro hl
        rw [List.find?_cons, List.find?_cons, (hpre a (hl a (by simp))).1, ih fun p hp => hl p (List.mem_cons_of_mem _ hp)]
    exact this multiWords fun p hp => hp
  unfold multi
  show OneOk c T _ (.done (.ok (match multiWords.find? fun p => p.1.isPrefixOf (T.drop c.idx) with | some p => _ | none => _)))
  rw [← hfind]
  cases hm : multiWords.find? fun p => p.1.isPrefixOf (c.tokens.drop c.idx) with
  | none => exact oneOk_same rfl rfl rfl rfl hA (fun e he => by injection he with he; exact he.symm)
  | some p =>
    have hp := List.mem_of_find?_eq_some hm
    have hp' := List.find?_some hm
    have hag := (hpre p hp).2 hp'
    obtain ⟨m1, m2, _⟩ := mark_same { c with idx := c.idx + (p.1.length - 1) } p.2
    refine ⟨mark { c with idx := c.idx + (p.1.length - 1) } p.2, .ok (p.2, .op), rfl, ?_, m1, .inr ⟨p.2, .op, rfl, ?_, fun _ => ?_⟩⟩
    · have := withT_mark { c with idx := c.idx + (p.1.length - 1) } T p.2
      rw [← this]; rfl
    · rw [m1, m2]; exact hag.agree
    · rw [m1, m2]; exact hag

theorem op_not_multi {t : Str} (h : isOpTok t = true) : ¬ (t = ascii "NOT" || t = ascii "IS") = true := by
  intro hh
  simp only [Bool.or_eq_true, decide_eq_true_eq] at hh
  rcases hh with rfl | rfl <;> revert h <;> decide

theorem look_paren (N : Env E) (c : Ctx) (b : Nat) (hb : b = 40 ∨ b = 41) : look N c [b] = lookParen c [b] := by
  unfold look
  have h : (¬ ([b] = ascii "NOT" || [b] = ascii "IS") = true) ∧ isOpTok [b] = false ∧ quoteOf [b] = none ∧ isNum [b] = false ∧ [b] ≠ ascii "true" ∧
      [b] ≠ ascii "false" ∧ funcKey [b] = none ∧ ([b].contains 40 || [b].contains 41) = true := by
    rcases hb with rfl | rfl <;> decide
  obtain ⟨h1, h2, h3, h4, h5, h6, h7, h8⟩ := h
  rw [if_neg h1, if_neg (by simp [h2]), h3, show (if c.sub.mode = .value then (none : Option Nat) else none) = none by split <;> rfl]
  dsimp only
  rw [if_neg (by simp [h4]), if_neg h5, if_neg h6, h7]
  dsimp only
  rw [if_pos h8]

theorem look_one (N : Env E) (c : Ctx) (T : List Str) (x : Tok) (ps qs : List (List Tok)) (h1 : Lined ([x] :: ps)) (h2 : Lined ([x] :: qs))
    (hf : ps.flatten = qs.flatten) (hd : c.tokens.drop c.idx = ([x] :: ps).map flat) (hd' : T.drop c.idx = ([x] :: qs).map flat) :
    OneOk c T (look N c x.2) (look N (c.withT T) x.2) := by
  have hA : Agree1 c.tokens T c.idx := ⟨_, _, h1, h2, by rw [List.flatten_cons, List.flatten_cons, hf], hd, hd', .inr ⟨x, ps, qs, rfl, rfl⟩⟩
  have ht := good_head h1.1.1
  have hg : ∀ (l : List Str) (r : List (List Tok)), l.drop c.idx = ([x] :: r).map flat → l[c.idx]? = some x.2 := by
    intro l r h
    have := congrArg (fun l => l[0]?) h
    simpa [List.getElem?_drop, flat_one] using this
  have hc1 := hg _ _ hd
  have hc2 := hg _ _ hd'
  have opCase : isOpTok x.2 = true → OneOk c T (look N c x.2) (look N (c.withT T) x.2) := by
    intro ho
    have hl : ∀ c : Ctx, look N c x.2 = .done (.ok (mark c (canon x.2), .ok (canon x.2, .op))) := by
      intro c
      unfold look
      rw [if_neg (op_not_multi ho), if_pos ho]
    rw [hl, hl, withT_mark]
    obtain ⟨m1, m2, _⟩ := mark_same c (canon x.2)
    exact oneOk_same rfl rfl m1 m2 hA (fun e he => by cases he)
  cases hk : x.1 with
  | atom =>
    rw [hk] at ht
    exact look_plain N c T x.2 ht.1 ht.2.2.2.1 ht.2.2.2.2 (unfinished_none ⟨ht.2.1, ht.2.2.1⟩) hc1 hc2 hA
  | quoted =>
    rw [hk] at ht
    refine look_plain N c T x.2 ht.1 ?_ ?_ (unfinished_quoted ht.2.2) hc1 hc2 hA
    · intro hh; rw [hh] at ht; exact absurd ht.2.2 (by decide)
    · intro hh; rw [hh] at ht; exact absurd ht.2.2 (by decide)
  | sym => rw [hk] at ht; exact opCase (sym_facts _ ht).2.2.2
  | key => rw [hk] at ht; exact opCase (letter_facts _ ht).2
  | neg =>
    have hl : ∀ c : Ctx, look N c x.2 = .done (.ok (multi c)) := by
      intro c
      unfold look
      rw [if_pos]
      rw [hk] at ht
      rcases ht with h | h <;> rw [h] <;> decide
    rw [hl, hl]
    exact multi_one c T x ps qs hk h1 h2 hf hd hd'
  | opn =>
    rw [hk] at ht
    have hx : x.2 = [40] := ht
    have hl : ∀ c : Ctx, look N c x.2 = .done (.ok (openParen c, .ok ([40], .paren))) := by
      intro c
      rw [hx, look_paren N c 40 (.inl rfl)]
      unfold lookParen
      rw [if_neg (by simp), if_neg (by simp), if_neg (by simp [hasSuffix, List.isSuffixOf]), if_neg (by simp [hasPrefix]), if_neg (by simp), if_pos rfl]
    rw [hl, hl]
    have ha := advance_steps { c with depth := c.depth + 1, posOnly := true }
    have hidx : (openParen c).idx = c.idx + 1 := by
      unfold openParen advance
      simp
    refine ⟨openParen c, _, rfl, ?_, ha.1, .inr ⟨[40], .paren, rfl, ?_, fun h => absurd rfl h⟩⟩
    · have := withT_advance { c with depth := c.depth + 1, posOnly := true } T
      have h' : openParen (c.withT T) = (openParen c).withT T := congrArg Prod.fst this
      rw [h']
    · rw [show (openParen c).tokens = c.tokens from ha.1, hidx]
      exact hA.next
  | cls =>
    rw [hk] at ht
    have hx : x.2 = [41] := ht
    have hl : ∀ c : Ctx, look N c x.2 = endParen (closeParen c) := by
      intro c
      rw [hx, look_paren N c 41 (.inr rfl)]
      unfold lookParen
      rw [if_neg (by simp [hasPrefix]), if_neg (by simp [hasSuffix, List.isSuffixOf]), if_neg (by simp), if_neg (by simp), if_pos rfl]
    rw [hl, hl, withT_close]
    obtain ⟨m1, m2, _, m4, _⟩ := closeParen_same c
    refine oneOk_same rfl rfl m1 m2 hA ?_
    intro e he
    cases hc : (closeParen c).2 with
    | none => rw [hc] at he; cases he
    | some e' => rw [hc] at he; injection he with he; rw [← he]; exact m4 e' hc

/-! ### Reading a token -/

theorem getTok_agree (N : Env E) (c : Ctx) (T : List Str) (h : Agree c.tokens T c.idx) :
    ∃ m d T' e, (∀ k, m ≤ k → getTok N k c = .ok (d, e)) ∧ (∀ k, m ≤ k → getTok N k (c.withT T) = .ok (d.withT T', e)) ∧
      (e = .error .other ∨ (e = .error .noMore ∧ Agree1 d.tokens T' d.idx) ∨
        ∃ tok ty, e = .ok (tok, ty) ∧ Agree d.tokens T' d.idx ∧ (ty ≠ .paren → Agree1 d.tokens T' d.idx)) := by
  obtain ⟨ps, qs, h1, h2, h3, h4, h5⟩ := h
  obtain ⟨m1, ps', T1, a1, a2, a3, a4, a5⟩ := separate N (ps.head?.elim 0 List.length) ps c (by rintro p r rfl; exact Nat.le_refl _) h1 h4
  obtain ⟨m2, qs', T2, b1, b2, b3, b4, b5⟩ := separate N (qs.head?.elim 0 List.length) qs (c.withT T) (by rintro p r rfl; exact Nat.le_refl _) h2 h5
  have hflat : ps'.flatten = qs'.flatten := by rw [a2, b2, h3]
  have hfuel : ∀ (c' : Ctx) (m : Nat) (d : Ctx) (r : Res (Ctx × Except Err (Str × TT))), (∀ n, getTok N (n + m) c' = getTok N n d) → (∀ n, getTok N (n + 1) d = r) →
      ∀ k, m1 + m2 + 1 ≤ k → m ≤ m1 + m2 → getTok N k c' = r := by
    intro c' m d r e1 e2 k hk hm
    obtain ⟨j, rfl⟩ : ∃ j, k = j + 1 + m := ⟨k - 1 - m, by omega⟩
    rw [e1, e2]
  have hnone : ∀ T' : List Str, T'.drop c.idx = [] → ∀ n, getTok N (n + 1) (c.withT T') = .ok (c.withT T', .error .noMore) := by
    intro T' hT n
    have : T'[c.idx]? = none := by
      have := congrArg (fun l => l[0]?) hT
      simpa [List.getElem?_drop] using this
    rw [getTok]
    show (match T'[c.idx]? with | none => _ | some t => _) = _
    rw [this]
  rcases a3 with rfl | ⟨x, ps2, rfl⟩
  · have hq : qs' = [] := lined_nil b1 hflat.symm
    subst hq
    refine ⟨m1 + m2 + 1, c.withT T1, T2, .error .noMore, ?_, ?_, .inr (.inl ⟨rfl, ?_⟩)⟩
    · exact fun k hk => hfuel _ _ _ _ a5 (hnone T1 a4) k hk (by omega)
    · exact fun k hk => hfuel _ _ _ _ b5 (hnone T2 b4) k hk (by omega)
    · exact ⟨[], [], trivial, trivial, rfl, a4, b4, .inl ⟨rfl, rfl⟩⟩
  · rcases b3 with rfl | ⟨y, qs2, rfl⟩
    · exfalso
      simp at hflat
    · have hxy : x = y ∧ ps2.flatten = qs2.flatten := by simpa using hflat
      obtain ⟨rfl, hfl⟩ := hxy
      obtain ⟨d, e, l1, l2, l3, l4⟩ := look_one N (c.withT T1) T2 x ps2 qs2 a1 b1 hfl a4 b4
      have hone : ∀ (T' : List Str) (r : List (List Tok)) (res : Res (Ctx × Except Err (Str × TT))), T'.drop c.idx = ([x] :: r).map flat →
          look N (c.withT T') x.2 = .done res → ∀ n, getTok N (n + 1) (c.withT T') = res := by
        intro T' r res hT hl n
        have : T'[c.idx]? = some x.2 := by
          have := congrArg (fun l => l[0]?) hT
          simpa [List.getElem?_drop, flat_one] using this
        rw [getTok]
        show (match T'[c.idx]? with | none => _ | some t => _) = _
        rw [this]
        dsimp only
        rw [hl]
      refine ⟨m1 + m2 + 1, d, T2, e, ?_, ?_, ?_⟩
      · exact fun k hk => hfuel _ _ _ _ a5 (hone T1 ps2 _ a4 l1) k hk (by omega)
      · exact fun k hk => hfuel _ _ _ _ b5 (hone T2 qs2 _ b4 l2) k hk (by omega)
      · rcases l4 with l4 | l4
        · exact .inl l4
        · exact .inr (.inr l4)

/-! ### Parsing -/

/-- The results agree, but for the tokens. -/
def OutOk (a b : Res (Ctx × Option Err)) : Prop :=
  (a = .panic ∧ b = .panic) ∨ ∃ d T e, a = .ok (d, e) ∧ b = .ok (d.withT T, e) ∧ e ≠ some .noMore ∧
    (e = none ∨ e = some .layerDone → Agree1 d.tokens T d.idx)

theorem outOk_finish (d : Ctx) (T : List Str) (e : Err) (h : e = .noMore ∨ e = .layerDone → Agree1 d.tokens T d.idx) :
    OutOk (.ok (finish d e)) (.ok (finish (d.withT T) e)) := by
  rw [withT_finish]
  refine .inr ⟨(finish d e).1, T, (finish d e).2, rfl, rfl, ?_, ?_⟩
  · unfold finish
    by_cases h1 : e = .noMore
    · rw [if_pos h1]; split <;> simp
    · rw [if_neg h1]; simpa using h1
  · rw [finish_same]
    unfold finish
    by_cases h1 : e = .noMore
    · exact fun _ => h (.inl h1)
    · rw [if_neg h1]
      intro h2
      simp at h2
      exact h (.inr h2)

/-- Going on after a token. -/
theorem resume_agree (N : Env E) (n : Nat)
    (ih : ∀ c T, Agree c.tokens T c.idx → parse N n c ≠ .stuck → ∃ m, ∀ k, m ≤ k → OutOk (parse N n c) (parse N k (c.withT T)))
    (c : Ctx) (T : List Str) (h : Agree1 c.tokens T c.idx) (hs : resume (parse N n) (advance c) ≠ .stuck) :
    ∃ m, ∀ k, m ≤ k → OutOk (resume (parse N n) (advance c)) (resume (parse N k) (advance (c.withT T))) := by
  rw [withT_advance]
  obtain ⟨h1, h2 | h2⟩ := advance_steps c
  · have hr : ∀ f, resume f (advance c) = f (advance c).1 := by intro f; unfold resume; rw [h2.1]
    have hr' : ∀ f, resume f ((advance c).1.withT T, (advance c).2) = f ((advance c).1.withT T) := by intro f; unfold resume; rw [h2.1]
    rw [hr] at hs ⊢
    obtain ⟨m, hm⟩ := ih (advance c).1 T (by rw [h1, h2.2]; exact h.next) hs
    exact ⟨m, fun k hk => by rw [hr']; exact hm k hk⟩
  · refine ⟨0, fun k _ => ?_⟩
    unfold resume
    rw [h2.1]
    exact outOk_finish _ _ _ fun _ => by rw [h1, h2.2]; exact h

theorem back_agree (N : Env E) (n : Nat)
    (ih : ∀ c T, Agree c.tokens T c.idx → parse N n c ≠ .stuck → ∃ m, ∀ k, m ≤ k → OutOk (parse N n c) (parse N k (c.withT T)))
    (c : Ctx) (T : List Str) (old : Sub) (h : Agree1 c.tokens T c.idx) (hs : back (parse N n) c old ≠ .stuck) :
    ∃ m, ∀ k, m ≤ k → OutOk (back (parse N n) c old) (back (parse N k) (c.withT T) old) := by
  unfold back at hs ⊢
  rw [withT_merge]
  cases hm : merge c old with
  | stuck => exact absurd hm (merge_ends c old)
  | panic => exact ⟨0, fun k _ => .inl ⟨rfl, rfl⟩⟩
  | ok r =>
    obtain ⟨d, e⟩ := r
    obtain ⟨s1, s2, _⟩ := merge_same hm
    rw [hm] at hs
    cases e with
    | some e =>
      refine ⟨0, fun k _ => ?_⟩
      exact outOk_finish d T e fun he => absurd hm (merge_errs c old d e he)
    | none =>
      obtain ⟨m, hm'⟩ := resume_agree N n ih d T (by rw [s1, s2]; exact h) hs
      exact ⟨m, hm'⟩

theorem parse_agree (N : Env E) : ∀ n c T, Agree c.tokens T c.idx → parse N n c ≠ .stuck →
    ∃ m, ∀ k, m ≤ k → OutOk (parse N n c) (parse N k (c.withT T)) := by
  intro n
  induction n with
  | zero => intro c T _ h; exact absurd rfl h
  | succ n ih =>
    intro c T hA hs
    obtain ⟨m0, d, T', e, g1, g2, g3⟩ := getTok_agree N c T hA
    have hg : getTok N n c = .ok (d, e) := by
      have hns : getTok N n c ≠ .stuck := by
        intro hh
        rw [parse, hh] at hs
        exact hs rfl
      rw [← getTok_le N (Nat.le_add_right n m0) c hns]
      exact g1 _ (by omega)
    rw [parse, hg] at hs ⊢
    have hpk : ∀ k, m0 + 1 ≤ k → ∃ j, k = j + 1 ∧ m0 ≤ j := fun k hk => ⟨k - 1, by omega, by omega⟩
    cases e with
    | error e =>
      refine ⟨m0 + 1, fun k hk => ?_⟩
      obtain ⟨j, rfl, hj⟩ := hpk k hk
      rw [parse, g2 j hj]
      refine outOk_finish d T' e fun he => ?_
      rcases g3 with g3 | ⟨_, g3⟩ | ⟨_, _, g3, _⟩
      · injection g3 with g3; rw [g3] at he; simp at he
      · exact g3
      · cases g3
    | ok r =>
      obtain ⟨tok, ty⟩ := r
      have g3' : Agree d.tokens T' d.idx ∧ (ty ≠ .paren → Agree1 d.tokens T' d.idx) := by
        rcases g3 with g3 | ⟨g3, _⟩ | ⟨_, _, g3, g4⟩
        · cases g3
        · cases g3
        · injection g3 with g3; injection g3 with _ g3; subst g3; exact g4
      obtain ⟨⟨s1, s2, _⟩, _⟩ := check_same d ty
      have hck := withT_check d T' ty
      have hA' : Agree (check d ty).1.tokens T' (check d ty).1.idx := by rw [s1, s2]; exact g3'.1
      have hA1' : ty ≠ .paren → Agree1 (check d ty).1.tokens T' (check d ty).1.idx := fun h => by rw [s1, s2]; exact g3'.2 h
      change (match (check d ty).2 with | none => _ | some e => _) ≠ _ at hs
      show ∃ m, ∀ k, m ≤ k → OutOk (match (check d ty).2 with | none => _ | some e => _) _
      have hT : ∀ j, m0 ≤ j → parse N (j + 1) (c.withT T) = match (check d ty).2 with
          | none => insert ((check d ty).1.withT T') tok ty >>= fun c => resume (parse N j) (advance c)
          | some e =>
            if e = .new || e = .oneNew then
              parse N j (Ctx.withT { (check d ty).1 with sub := newSub (e = .oneNew) } T') >>= fun r' =>
              match r'.2 with
              | some e' => if e' = .layerDone then back (parse N j) r'.1 (check d ty).1.sub else .ok (finish r'.1 e')
              | none => back (parse N j) r'.1 (check d ty).1.sub
            else .ok (finish ((check d ty).1.withT T') e) := by
        intro j hj
        rw [parse, g2 j hj]
        show (match (check (d.withT T') ty).2 with | none => _ | some e => _) = _
        rw [hck]
        rfl
      cases hc : (check d ty).2 with
      | none =>
        rw [hc] at hs
        dsimp only at hs ⊢
        have hty : ty ≠ .paren := by
          rintro rfl
          unfold check at hc
          cases hmo : d.sub.mode <;> rw [hmo] at hc <;> simp [checkValue, TT.isField, TT.isBool, TT.isValue] at hc
        cases hi : insert (check d ty).1 tok ty with
        | stuck => exact absurd hi (insert_ends _ _ _)
        | panic =>
          refine ⟨m0 + 1, fun k hk => ?_⟩
          obtain ⟨j, rfl, hj⟩ := hpk k hk
          rw [hT j hj, hc]
          dsimp only
          rw [withT_insert, hi]
          exact .inl ⟨rfl, rfl⟩
        | ok c2 =>
          rw [hi] at hs
          obtain ⟨i1, i2, _⟩ := insert_same hi
          obtain ⟨m, hm⟩ := resume_agree N n ih c2 T' (by rw [i1, i2]; exact hA1' hty) hs
          refine ⟨m0 + m + 1, fun k hk => ?_⟩
          obtain ⟨j, rfl, hj⟩ := hpk k (by omega)
          rw [hT j hj, hc]
          dsimp only
          rw [withT_insert, hi]
          exact hm j (by omega)
      | some e =>
        rw [hc] at hs
        dsimp only at hs ⊢
        by_cases he : (e = .new || e = .oneNew) = true
        · rw [if_pos he] at hs ⊢
          have hin : parse N n { (check d ty).1 with sub := newSub (e = .oneNew) } ≠ .stuck := by
            intro hh; rw [hh] at hs; exact hs rfl
          obtain ⟨m1, hm1⟩ := ih { (check d ty).1 with sub := newSub (e = .oneNew) } T' hA' hin
          cases hp : parse N n { (check d ty).1 with sub := newSub (e = .oneNew) } with
          | stuck => exact absurd hp hin
          | panic =>
            refine ⟨m0 + m1 + 1, fun k hk => ?_⟩
            obtain ⟨j, rfl, hj⟩ := hpk k (by omega)
            rw [hT j hj, hc]
            dsimp only
            rw [if_pos he]
            have := hm1 j (by omega)
            rw [hp] at this
            rcases this with ⟨_, hb⟩ | ⟨_, _, _, ha, _⟩
            · rw [hb]; exact .inl ⟨rfl, rfl⟩
            · cases ha
          | ok r' =>
            obtain ⟨d', e'⟩ := r'
            rw [hp] at hs
            -- the other side gives the same, at any later fuel
            have hother : ∀ j, m1 ≤ j → ∃ T2, parse N j (Ctx.withT { (check d ty).1 with sub := newSub (e = .oneNew) } T') = .ok (d'.withT T2, e') ∧ e' ≠ some .noMore ∧
                (e' = none ∨ e' = some .layerDone → Agree1 d'.tokens T2 d'.idx) := by
              intro j hj
              have := hm1 j hj
              rw [hp] at this
              rcases this with ⟨ha, _⟩ | ⟨d2, T2, e2, ha, hb, hc', hd⟩
              · cases ha
              · injection ha with ha; injection ha with ha1 ha2; subst ha1 ha2
                exact ⟨T2, hb, hc', hd⟩
            obtain ⟨T2, ho1, ho2, ho3⟩ := hother m1 (Nat.le_refl _)
            have hoAll : ∀ j, m1 ≤ j → parse N j (Ctx.withT { (check d ty).1 with sub := newSub (e = .oneNew) } T') = .ok (d'.withT T2, e') := by
              intro j hj
              rw [parse_le N hj _ (by rw [ho1]; simp), ho1]
            have hTj : ∀ j, m0 ≤ j → m1 ≤ j → parse N (j + 1) (c.withT T) = match (generalizing := false) e' with
                | some e' => if e' = .layerDone then back (parse N j) (d'.withT T2) (check d ty).1.sub else .ok (finish (d'.withT T2) e')
                | none => back (parse N j) (d'.withT T2) (check d ty).1.sub := by
              intro j hj hj1
              rw [hT j hj, hc]
              dsimp only
              rw [if_pos he, hoAll j hj1]
              rfl
            have hback : (e' = none ∨ e' = some .layerDone) → back (parse N n) d' (check d ty).1.sub ≠ .stuck →
                ∃ m, ∀ k, m ≤ k → OutOk (back (parse N n) d' (check d ty).1.sub) (back (parse N k) (d'.withT T2) (check d ty).1.sub) :=
              fun h1 h2 => back_agree N n ih d' T2 _ (ho3 h1) h2
            change (match (generalizing := false) e' with | some e' => _ | none => _) ≠ _ at hs
            show ∃ m, ∀ k, m ≤ k → OutOk (match (generalizing := false) e' with | some e' => _ | none => _) _
            cases e' with
            | none =>
              obtain ⟨m2, hm2⟩ := hback (.inl rfl) hs
              refine ⟨m0 + m1 + m2 + 1, fun k hk => ?_⟩
              obtain ⟨j, rfl, hj⟩ := hpk k (by omega)
              rw [hTj j hj (by omega)]
              exact hm2 j (by omega)
            | some e' =>
              dsimp only at hs ⊢
              by_cases hl : e' = .layerDone
              · rw [if_pos hl] at hs ⊢
                obtain ⟨m2, hm2⟩ := hback (.inr (by rw [hl])) hs
                refine ⟨m0 + m1 + m2 + 1, fun k hk => ?_⟩
                obtain ⟨j, rfl, hj⟩ := hpk k (by omega)
                rw [hTj j hj (by omega)]
                dsimp only
                rw [if_pos hl]
                exact hm2 j (by omega)
              · rw [if_neg hl]
                refine ⟨m0 + m1 + 1, fun k hk => ?_⟩
                obtain ⟨j, rfl, hj⟩ := hpk k (by omega)
                rw [hTj j hj (by omega)]
                dsimp only
                rw [if_neg hl]
                exact outOk_finish d' T2 e' fun h => by
                  rcases h with h | h
                  · exact absurd (by rw [h]) ho2
                  · exact absurd h hl
        · rw [if_neg he]
          refine ⟨m0 + 1, fun k hk => ?_⟩
          obtain ⟨j, rfl, hj⟩ := hpk k hk
          rw [hT j hj, hc]
          dsimp only
          rw [if_neg he]
          refine outOk_finish _ T' e fun h => ?_
          apply hA1'
          rintro rfl
          unfold check at hc
          cases hmo : d.sub.mode <;> rw [hmo] at hc <;> simp [checkValue, TT.isField, TT.isBool, TT.isValue] at hc <;> subst hc <;> simp at h he

end Verif.Simple
