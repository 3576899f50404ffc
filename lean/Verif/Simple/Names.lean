import Verif.Simple.Acyclic
import Verif.Simple.GlueTheorems
import Verif.Simple.Findings

/-!
# Which names can be written

`getCurrentToken` looks for operators within a token before it reads the token as a field (simpleParser.go:769-773), backticks or
not.  So a name that contains `OR`, `AND`, `LIKE`, … is never read as that field.
-/

namespace Verif.Simple
open Verif.FastVal Verif.Expr
open Verif.Filter (andThen)

variable {E : Ext}

/-! ### Specification -/

mutual
  /-- The fields of an expression that are not arguments of a call. -/
  def openFields : Expr E → List Verif.Expr.Field
    | .field f => [f]
    | .not e => openFields e
    | .and es => openFieldsL es
    | .or es => openFieldsL es
    | .exist e => openFields e
    | .notExist e => openFields e
    | .cmp _ l r => openFields l ++ openFields r
    | .loop _ _ i s => openFields i ++ openFields s
    | _ => []

  def openFieldsL : Exprs E → List Verif.Expr.Field
    | .nil => []
    | .cons e r => openFields e ++ openFieldsL r
end

/-- A path of parts without a space: none of the parts contains an operator. -/
def NoOps (path : List Str) : Prop := (∀ p ∈ path, (32 : Nat) ∉ p) → ∀ p ∈ path, NoOp p

theorem noOps_nil : NoOps [] := fun _ p hp => by cases hp

/-! ### `Seek` finds every operator -/

theorem seekLoop_true (s : Str) : ∀ n k, seekLoop s n k true ≠ none := by
  intro n
  induction n with
  | zero => intro k; unfold seekLoop; split <;> simp
  | succ n ih =>
    intro k
    unfold seekLoop
    split
    · exact ih _
    · simp

theorem seekLoop_false (s : Str) : ∀ n k, seekLoop s n k false = none → ∀ j, k ≤ j → j ≤ k + n → isOpTok (s.take j) = false := by
  intro n
  induction n with
  | zero =>
    intro k h j h1 h2
    obtain rfl : j = k := by omega
    unfold seekLoop at h
    split at h
    · cases h
    · rename_i hk; exact Bool.eq_false_iff.2 hk
  | succ n ih =>
    intro k h j h1 h2
    unfold seekLoop at h
    split at h
    · exact absurd h (seekLoop_true _ _ _)
    · rename_i hk
      rcases Nat.eq_or_lt_of_le h1 with rfl | hlt
      · exact Bool.eq_false_iff.2 hk
      · simp only [Bool.false_eq_true, if_false] at h
        exact ih (k + 1) h j hlt (by omega)

theorem isOpTok_opWords : ∀ k ∈ opWords, isOpTok k = true := by decide

theorem seek_noOp : ∀ t : Str, seek t = none → NoOp t := by
  intro t
  induction t with
  | nil =>
    intro _ k hk hi
    have : k = [] := List.eq_nil_of_infix_nil hi
    subst this
    revert hk
    decide
  | cons c s ih =>
    intro h k hk hi
    unfold seek at h
    split at h
    · cases h
    · rename_i hl
      rcases List.infix_cons_iff.1 hi with hp | hs
      · have := seekLoop_false _ _ _ hl k.length (by omega) (by have := hp.length_le; simp at this; omega)
        rw [List.prefix_iff_eq_take.1 hp |>.symm, isOpTok_opWords k hk] at this
        cases this
      · exact ih h k hk hs

theorem NoOp.infix {t u : Str} (h : NoOp t) (hu : u <:+: t) : NoOp u := fun k hk hi => h k hk (hi.trans hu)

/-! ### Parts of one token -/

/-- What holds after the characters `done` of a token: the parts are from the token, or from several tokens. -/
structure FInv (P : Str → Prop) (done : Str) (s : FS) : Prop where
  cur : s.cur <:+ done
  unf : s.unf = []
  out : ∀ p ∈ s.out, P p

theorem fieldChar_inv {t done r : Str} {c : Nat} {s s' : FS} (ht : t = done ++ c :: r) (h : FInv (· <:+: t) done s)
    (hc : fieldChar c r.head? s = some s') : FInv (· <:+: t) (done ++ [c]) s' := by
  have hcur : s.cur <:+: t := h.cur.isInfix.trans ⟨[], c :: r, by simp [ht]⟩
  have hnext : s.cur ++ [c] <:+ done ++ [c] := by
    obtain ⟨a, ha⟩ := h.cur
    exact ⟨a, by rw [← List.append_assoc, ha]⟩
  have hpre : done ++ [c] <:+: t := ⟨[], r, by simp [ht]⟩
  have hpush : ∀ x, x <:+: t → ∀ p ∈ (s.push x).out, p <:+: t := by
    intro x hx p hp
    unfold FS.push at hp
    split at hp
    · exact h.out p hp
    · rcases List.mem_append.1 hp with hp | hp
      · exact h.out p hp
      · rw [List.mem_singleton.1 hp]; exact hx
  have hpunf : ∀ x, (s.push x).unf = [] := by
    intro x; unfold FS.push; split <;> exact h.unf
  unfold fieldChar at hc
  split at hc
  · split at hc
    · injection hc with hc; subst hc
      exact ⟨List.nil_suffix, hpunf _, hpush _ hcur⟩
    · split at hc
      · injection hc with hc; subst hc
        exact ⟨List.nil_suffix, h.unf, h.out⟩
      · split at hc
        · rename_i h91
          injection hc with hc; subst hc
          exact ⟨⟨done, by rw [h91]⟩, hpunf _, hpush _ hcur⟩
        · injection hc with hc; subst hc
          exact ⟨hnext, h.unf, h.out⟩
  · split at hc
    · split at hc
      · cases hc
      · injection hc with hc; subst hc
        refine ⟨hnext, rfl, ?_⟩
        intro p hp
        rcases List.mem_append.1 hp with hp | hp
        · exact h.out p hp
        · rw [List.mem_singleton.1 hp, if_pos h.unf]
          exact hcur
    · injection hc with hc; subst hc
      exact ⟨hnext, h.unf, h.out⟩
  · split at hc
    · cases hc
    · split at hc
      · cases hc
      · split at hc
        · split at hc
          · cases hc
          · injection hc with hc; subst hc
            exact ⟨hnext, hpunf _, hpush _ (hnext.isInfix.trans hpre)⟩
        · injection hc with hc; subst hc
          exact ⟨hnext, h.unf, h.out⟩

theorem fieldChars_inv (t : Str) : ∀ (r done : Str) (s s' : FS), t = done ++ r → FInv (· <:+: t) done s → fieldChars r s = some s' →
    FInv (· <:+: t) t s' := by
  intro r
  induction r with
  | nil =>
    intro done s s' ht h hf
    rw [fieldChars] at hf
    injection hf with hf; subst hf
    rw [List.append_nil] at ht
    rw [ht] at h ⊢
    exact h
  | cons c r ih =>
    intro done s s' ht h hf
    rw [fieldChars] at hf
    split at hf
    · rename_i s1 h1
      exact ih (done ++ [c]) s1 s' (by simp [ht]) (fieldChar_inv ht h h1) hf
    · cases hf

/-- The parts only grow. -/
theorem fieldChars_grows : ∀ (r : Str) (s s' : FS), fieldChars r s = some s' → ∀ p ∈ s.out, p ∈ s'.out := by
  intro r
  induction r with
  | nil =>
    intro s s' hf
    rw [fieldChars] at hf
    injection hf with hf; subst hf
    exact fun _ h => h
  | cons c r ih =>
    intro s s' hf p hp
    rw [fieldChars] at hf
    split at hf
    · rename_i s1 h1
      refine ih s1 s' hf p ?_
      have hpush : ∀ x, p ∈ (s.push x).out := by
        intro x; unfold FS.push; split
        · exact hp
        · exact List.mem_append_left _ hp
      unfold fieldChar at h1
      repeat' split at h1
      all_goals first
        | cases h1; done
        | (injection h1 with h1; subst h1; first | exact hp | exact hpush _ | exact List.mem_append_left _ hp)
    · cases hf

/-- A name of several tokens has a part with a space. -/
theorem joinSp_space (a : Str) (l : List Str) (x : Str) : (32 : Nat) ∈ joinSp (a :: l ++ [x]) := by
  cases l with
  | nil => simp [joinSp]
  | cons b l => simp [joinSp]

theorem fieldChars_space : ∀ (r : Str) (s s' : FS), fieldChars r s = some s' → s.unf ≠ [] → s.mode = .tick →
    (∃ p ∈ s'.out, (32 : Nat) ∈ p) ∨ (s'.unf ≠ [] ∧ s'.mode = .tick) := by
  intro r
  induction r with
  | nil =>
    intro s s' hf h1 h2
    rw [fieldChars] at hf
    injection hf with hf; subst hf
    exact .inr ⟨h1, h2⟩
  | cons c r ih =>
    intro s s' hf h1 h2
    rw [fieldChars] at hf
    split at hf
    · rename_i s1 hc
      unfold fieldChar at hc
      rw [h2] at hc
      dsimp only at hc
      split at hc
      · split at hc
        · cases hc
        · injection hc with hc; subst hc
          refine .inl ⟨joinSp (s.unf ++ [s.cur]), fieldChars_grows _ _ _ hf _ ?_, ?_⟩
          · exact List.mem_append_right _ (List.mem_singleton.2 rfl)
          · cases hu : s.unf with
            | nil => exact absurd hu h1
            | cons a l => exact joinSp_space a l s.cur
      · injection hc with hc; subst hc
        exact ih _ _ hf h1 rfl
    · cases hf

theorem fieldToks_grows : ∀ (ts : List Str) (s : FS) (n : Nat) (ps : List Str), fieldToks ts s = some (n, ps) → ∀ p ∈ s.out, p ∈ ps := by
  intro ts
  induction ts with
  | nil => intro s n ps h; cases h
  | cons t rest ih =>
    intro s n ps h p hp
    rw [fieldToks] at h
    split at h
    · cases h
    · rename_i s' hs
      have hp' := fieldChars_grows _ _ _ hs p hp
      split at h
      · injection h with h; injection h with _ h; subst h
        split
        · exact hp'
        · exact List.mem_append_left _ hp'
      · cases h
      · cases hx : fieldToks rest { s' with unf := s'.unf ++ [s'.cur] } with
        | none => rw [hx] at h; cases h
        | some y =>
          rw [hx] at h
          injection h with h; injection h with _ h; subst h
          exact ih _ y.1 y.2 hx p hp'

theorem fieldToks_space : ∀ (ts : List Str) (s : FS) (n : Nat) (ps : List Str), fieldToks ts s = some (n, ps) → s.unf ≠ [] → s.mode = .tick →
    ∃ p ∈ ps, (32 : Nat) ∈ p := by
  intro ts
  induction ts with
  | nil => intro s n ps h; cases h
  | cons t rest ih =>
    intro s n ps h h1 h2
    rw [fieldToks] at h
    split at h
    · cases h
    · rename_i s' hs
      have hor := fieldChars_space _ _ _ hs h1 h2
      split at h
      · rename_i hm
        injection h with h; injection h with _ h; subst h
        rcases hor with ⟨p, hp, hsp⟩ | ⟨_, hm'⟩
        · refine ⟨p, ?_, hsp⟩
          split
          · exact hp
          · exact List.mem_append_left _ hp
        · rw [hm] at hm'; cases hm'
      · cases h
      · rename_i hm
        cases hx : fieldToks rest { s' with unf := s'.unf ++ [s'.cur] } with
        | none => rw [hx] at h; cases h
        | some y =>
          rw [hx] at h
          injection h with h; injection h with _ h; subst h
          exact ih _ y.1 y.2 hx (by simp) hm

/-- Parts without spaces are from the first token. -/
theorem checkField_parts {ts : List Str} {i j : Nat} {t : Str} {ps : List Str} (ht : ts[i]? = some t) (h : checkField ts i = some (j, ps))
    (hs : ∀ p ∈ ps, (32 : Nat) ∉ p) : ∀ p ∈ ps, p <:+: t := by
  unfold checkField at h
  rw [ht] at h
  have hd : ts.drop i = t :: ts.drop (i + 1) := by
    obtain ⟨hi, he⟩ := List.getElem?_eq_some_iff.1 ht
    rw [List.drop_eq_getElem_cons hi, he]
  split at h
  · cases h
  · cases h
  · rename_i hx
    cases hx
    cases hy : fieldToks (ts.drop i) ⟨.none, false, [], [], []⟩ with
    | none => rw [hy] at h; cases h
    | some y =>
      rw [hy] at h
      injection h with h; injection h with _ h; subst h
      rw [hd, fieldToks] at hy
      split at hy
      · cases hy
      · rename_i s' hs'
        have hinv := fieldChars_inv t t [] _ s' (by simp) ⟨List.nil_suffix, rfl, fun p hp => by cases hp⟩ hs'
        split at hy
        · injection hy with hy; subst hy
          intro p hp
          dsimp only at hp
          split at hp
          · exact hinv.out p hp
          · rcases List.mem_append.1 hp with hp | hp
            · exact hinv.out p hp
            · rw [List.mem_singleton.1 hp]; exact hinv.cur.isInfix
        · cases hy
        · rename_i hm
          cases hx : fieldToks (ts.drop (i + 1)) { s' with unf := s'.unf ++ [s'.cur] } with
          | none => rw [hx] at hy; cases hy
          | some z =>
            rw [hx] at hy
            injection hy with hy; subst hy
            obtain ⟨p, hp, hsp⟩ := fieldToks_space _ _ z.1 z.2 hx (by simp) hm
            exact absurd hsp (hs p hp)

/-! ### Reading a token -/

theorem quoteLoop_ft (q : Nat) : ∀ n c acc c' o, quoteLoop q n c acc = .ok (c', o) → c'.fieldTokens = c.fieldTokens := by
  intro n
  induction n with
  | zero => intro c acc c' o h; cases h
  | succ n ih =>
    intro c acc c' o h
    have hst : ∀ t, (stripParen c t).1.fieldTokens = c.fieldTokens := by intro t; unfold stripParen; split <;> rfl
    rw [quoteLoop] at h
    split at h
    · injection h with h; injection h with h _; subst h; rfl
    · rename_i t ht
      split at h
      · injection h with h; injection h with h _; subst h; exact hst t
      · exact (ih _ _ _ _ h).trans (hst t)

/-- What a token leaves in `fieldTokens`. -/
def FtOk (c c' : Ctx) : Prop := c'.fieldTokens = c.fieldTokens ∨ NoOps c'.fieldTokens

def NextFt (c : Ctx) : Next → Prop
  | .done r => ∀ c' o, r = .ok (c', o) → FtOk c c'
  | .again c' => c'.fieldTokens = c.fieldTokens
  | .words _ => True

theorem mark_ft (c : Ctx) (t : Str) : (mark c t).fieldTokens = c.fieldTokens := by
  unfold mark; repeat' split
  all_goals rfl

theorem advance_ft (c : Ctx) : (advance c).1.fieldTokens = c.fieldTokens := by
  unfold advance; dsimp only; repeat' split
  all_goals rfl

theorem closeParen_ft (c : Ctx) : (closeParen c).1.fieldTokens = c.fieldTokens := by
  unfold closeParen; dsimp only; repeat' split
  all_goals rfl

theorem check_ft (c : Ctx) (ty : TT) : (check c ty).1.fieldTokens = c.fieldTokens := by
  unfold check; repeat' split
  all_goals rfl

theorem finish_ft (c : Ctx) (e : Err) : (finish c e).1 = c := by
  unfold finish; repeat' split
  all_goals rfl

theorem nextFt_same {c c1 : Ctx} {o : Except Err (Str × TT)} (h : c1.fieldTokens = c.fieldTokens) : NextFt c (.done (.ok (c1, o))) := by
  intro c' o' h'
  injection h' with h'; injection h' with h' _; subst h'
  exact .inl h

theorem lookParen_ft (c : Ctx) (t : Str) : NextFt c (lookParen c t) := by
  unfold lookParen
  repeat' split
  · rfl
  · rfl
  · rfl
  · exact nextFt_same (closeParen_ft _)
  · exact nextFt_same (closeParen_ft _)
  · exact nextFt_same (advance_ft _)
  · rfl
  · exact nextFt_same rfl

theorem multi_ft (c : Ctx) : (multi c).1.fieldTokens = c.fieldTokens := by
  unfold multi
  split
  · exact mark_ft _ _
  · rfl

theorem look_ft (N : Env E) {c : Ctx} {t : Str} (ht : c.tokens[c.idx]? = some t) : NextFt c (look N c t) := by
  unfold look
  split
  · exact nextFt_same (multi_ft c)
  split
  · exact nextFt_same (mark_ft _ _)
  split
  · exact nextFt_same rfl
  split
  · exact nextFt_same rfl
  split
  · exact nextFt_same rfl
  split
  · exact nextFt_same rfl
  split
  · intro c' o h
    unfold funcTok at h
    split at h
    · obtain ⟨r, _, h⟩ := Res.bind_eq_ok.1 h
      dsimp only at h
      split at h
      all_goals
        injection h with h; injection h with h _; subst h
        exact .inl rfl
    · injection h with h; injection h with h _; subst h
      exact .inl rfl
  split
  · exact lookParen_ft c t
  split
  · trivial
  split
  · rfl
  · rename_i hseek
    have hno := seek_noOp t hseek
    intro c' o h
    injection h with h
    unfold fieldTok at h
    split at h
    · injection h with h _; subst h; exact .inl rfl
    · split at h
      · injection h with h _; subst h; exact .inl rfl
      · rename_i i ts hcf
        injection h with h _; subst h
        exact .inr fun hs p hp => hno.infix (checkField_parts ht hcf hs p hp)

theorem getTok_ft (N : Env E) : ∀ n c c' o, getTok N n c = .ok (c', o) → FtOk c c' := by
  intro n
  induction n with
  | zero => intro c c' o h; cases h
  | succ n ih =>
    intro c c' o h
    rw [getTok] at h
    cases ht : c.tokens[c.idx]? with
    | none =>
      rw [ht] at h
      injection h with h; injection h with h _; subst h
      exact .inl rfl
    | some t =>
      rw [ht] at h
      dsimp only at h
      have hl := look_ft N ht
      cases hx : look N c t with
      | done r => rw [hx] at h hl; exact hl _ _ h
      | again c1 =>
        rw [hx] at h hl
        rcases ih _ _ _ h with h1 | h1
        · exact .inl (h1.trans hl)
        · exact .inr h1
      | words q =>
        rw [hx] at h
        dsimp only at h
        rw [unfinishedTok] at h
        obtain ⟨r, hr, h⟩ := Res.bind_eq_ok.1 h
        have h1 := quoteLoop_ft q _ _ _ r.1 r.2 hr
        split at h
        all_goals
          injection h with h; injection h with h _; subst h
          exact .inl h1

/-! ### The tree -/

structure NInv (c : Ctx) : Prop where
  ft : NoOps c.fieldTokens
  tree : ∀ n ∈ c.tree, ∀ p, n.path = some p → NoOps p

theorem NInv.of {c c' : Ctx} (h : NInv c) (h1 : c'.tree = c.tree) (h2 : FtOk c c') : NInv c' :=
  ⟨h2.elim (fun e => e ▸ h.ft) id, h1 ▸ h.tree⟩

theorem modifyAt_paths {l l' : List Node} {i : Int} {f : Node → Node} (h : modifyAt l i f = .ok l') (hf : ∀ n, (f n).path = n.path)
    (hl : ∀ n ∈ l, ∀ p, n.path = some p → NoOps p) : ∀ n ∈ l', ∀ p, n.path = some p → NoOps p := by
  obtain ⟨k, a, _, ha, rfl⟩ := modifyAt_ok h
  intro n hn p hp
  rcases List.mem_or_eq_of_mem_set hn with hn | rfl
  · exact hl n hn p hp
  · exact hl a (List.mem_of_getElem? ha) p ((hf a).symm.trans hp)

theorem insert_names {c c' : Ctx} {tok : Str} {ty : TT} (h : NInv c) (hi : insert c tok ty = .ok c') : NInv c' := by
  have hnew : ∀ (nd : Node), (∀ p, nd.path = some p → NoOps p) → ∀ n ∈ c.tree ++ [nd], ∀ p, n.path = some p → NoOps p := by
    intro nd hnd n hn p hp
    rcases List.mem_append.1 hn with hn | hn
    · exact h.tree n hn p hp
    · rw [List.mem_singleton.1 hn] at hp; exact hnd p hp
  unfold insert at hi
  dsimp only at hi
  split at hi
  · injection hi with hi; subst hi
    exact ⟨h.ft, hnew _ fun p hp => by injection hp with hp; subst hp; exact h.ft⟩
  · obtain ⟨t, ht, hi⟩ := Res.bind_eq_ok.1 hi
    injection hi with hi; subst hi
    exact ⟨h.ft, modifyAt_paths ht (fun _ => rfl) (hnew _ fun p hp => by cases hp)⟩
  · obtain ⟨t, ht, hi⟩ := Res.bind_eq_ok.1 hi
    injection hi with hi; subst hi
    exact ⟨h.ft, modifyAt_paths ht (fun _ => rfl) (hnew _ fun p hp => by cases hp)⟩
  · obtain ⟨t, ht, hi⟩ := Res.bind_eq_ok.1 hi
    injection hi with hi; subst hi
    exact ⟨h.ft, modifyAt_paths ht (fun _ => rfl) (hnew _ fun p hp => by cases hp)⟩

theorem merge_names {c m : Ctx} {old : Sub} {e : Option Err} (h : NInv c) (hm : merge c old = .ok (m, e)) : NInv m := by
  unfold merge at hm
  split at hm
  · injection hm with hm; injection hm with hm _; subst hm; exact h
  split at hm
  · injection hm with hm; injection hm with hm _; subst hm; exact h
  split at hm
  · injection hm with hm; injection hm with hm _; subst hm; exact h
  split at hm
  · injection hm with hm; injection hm with hm _; subst hm; exact h
  obtain ⟨o, _, hm⟩ := Res.bind_eq_ok.1 hm
  obtain ⟨w, hw, hm⟩ := Res.bind_eq_ok.1 hm
  split at hm
  · injection hm with hm; injection hm with hm _; subst hm; exact h
  obtain ⟨t1, ht1, hm⟩ := Res.bind_eq_ok.1 hm
  have h1 := modifyAt_paths ht1 (fun _ => rfl) h.tree
  obtain ⟨_, _, hm⟩ := Res.bind_eq_ok.1 hm
  split at hm
  · injection hm with hm; injection hm with hm _; subst hm; exact ⟨h.ft, h1⟩
  obtain ⟨t2, ht2, hm⟩ := Res.bind_eq_ok.1 hm
  have h2 := modifyAt_paths ht2 (fun _ => rfl) h1
  obtain ⟨_, _, hm⟩ := Res.bind_eq_ok.1 hm
  injection hm with hm; injection hm with hm _; subst hm
  exact ⟨h.ft, h2⟩

theorem parse_names (N : Env E) : ∀ n c c' e, parse N n c = .ok (c', e) → NInv c → NInv c' := by
  intro n
  induction n with
  | zero => intro c c' e h; cases h
  | succ n ih =>
    intro c c' e h hinv
    have hfin : ∀ c1 e1, NInv c1 → (Res.ok (finish c1 e1) : Res (Ctx × Option Err)) = .ok (c', e) → NInv c' := by
      intro c1 e1 h1 h
      injection h with h
      have := finish_ft c1 e1
      rw [h] at this
      dsimp only at this
      rw [this]
      exact h1
    have hadv : ∀ c1, NInv c1 → resume (parse N n) (advance c1) = .ok (c', e) → NInv c' := by
      intro c1 h1 h
      have h2 : NInv (advance c1).1 := h1.of (advance_keep c1).1 (.inl (advance_ft c1))
      unfold resume at h
      split at h
      · exact ih _ _ _ h h2
      · exact hfin _ _ h2 h
    rw [parse] at h
    obtain ⟨r, hr, h⟩ := Res.bind_eq_ok.1 h
    have h1 : NInv r.1 := hinv.of (getTok_read N n c r.1 r.2 hr).keep.tree (getTok_ft N n c r.1 r.2 hr)
    split at h
    · exact hfin _ _ h1 h
    · rename_i tok ty hx
      have h2 : NInv (check r.1 ty).1 := h1.of (by unfold check; repeat' split
                                                   all_goals rfl) (.inl (check_ft _ _))
      split at h
      · obtain ⟨c2, hi, h⟩ := Res.bind_eq_ok.1 h
        exact hadv c2 (insert_names h2 hi) h
      · split at h
        · obtain ⟨r', hr', h⟩ := Res.bind_eq_ok.1 h
          have h3 : NInv r'.1 := ih _ _ r'.2 hr' ⟨h2.ft, h2.tree⟩
          have hback : back (parse N n) r'.1 (check r.1 ty).1.sub = .ok (c', e) → NInv c' := by
            intro h
            unfold back at h
            obtain ⟨m, hm, h⟩ := Res.bind_eq_ok.1 h
            have h4 : NInv m.1 := merge_names (e := m.2) h3 hm
            split at h
            · exact hfin _ _ h4 h
            · exact hadv _ h4 h
          split at h
          · split at h
            · exact hback h
            · exact hfin _ _ h3 h
          · exact hback h
        · exact hfin _ _ h2 h

/-! ### The expression -/

theorem outOp_fields (tree : List Node) (rec : Nat → Res (Option (Expr E))) (k : OpK) (pos : Nat) (P : Verif.Expr.Field → Prop)
    (hrec : ∀ i e, rec i = .ok (some e) → ∀ f ∈ openFields e, P f) (e : Expr E) (h : outOp tree rec k pos = .ok (some e)) :
    ∀ f ∈ openFields e, P f := by
  have hthen : ∀ {α β : Type} {x : Res (Option α)} {g : α → Res (Option β)} {b : β}, andThen x g = .ok (some b) →
      ∃ a, x = .ok (some a) ∧ g a = .ok (some b) := by
    intro α β x g b h
    unfold andThen at h
    obtain ⟨o, ho, h⟩ := Res.bind_eq_ok.1 h
    cases o with
    | none => cases h
    | some a => exact ⟨a, ho, h⟩
  unfold outOp at h
  cases k <;> dsimp only at h
  case cmp c =>
    obtain ⟨l, _, h⟩ := Res.bind_eq_ok.1 h
    split at h
    · obtain ⟨a, ha, h⟩ := hthen h
      obtain ⟨b, hb, h⟩ := hthen h
      injection h with h; injection h with h; subst h
      intro f hf
      rw [openFields] at hf
      exact (List.mem_append.1 hf).elim (hrec _ _ ha f) (hrec _ _ hb f)
    · cases h
  case notLike =>
    obtain ⟨l, _, h⟩ := Res.bind_eq_ok.1 h
    split at h
    · obtain ⟨a, ha, h⟩ := hthen h
      obtain ⟨b, hb, h⟩ := hthen h
      injection h with h; injection h with h; subst h
      intro f hf
      rw [openFields, openFields] at hf
      exact (List.mem_append.1 hf).elim (hrec _ _ ha f) (hrec _ _ hb f)
    · cases h
  case and | or =>
    obtain ⟨l, _, h⟩ := Res.bind_eq_ok.1 h
    split at h
    · obtain ⟨a, ha, h⟩ := hthen h
      split at h
      · obtain ⟨b, hb, h⟩ := hthen h
        injection h with h; injection h with h; subst h
        intro f hf
        simp only [openFields, openFieldsL, List.append_nil] at hf
        exact (List.mem_append.1 hf).elim (hrec _ _ ha f) (hrec _ _ hb f)
      · cases h
    · cases h
  case «exists» | missing =>
    obtain ⟨l, _, h⟩ := Res.bind_eq_ok.1 h
    split at h
    · obtain ⟨a, ha, h⟩ := hthen h
      injection h with h; injection h with h; subst h
      intro f hf
      rw [openFields] at hf
      exact hrec _ _ ha f hf
    · cases h
  case null | notNull =>
    obtain ⟨l, _, h⟩ := Res.bind_eq_ok.1 h
    split at h
    · obtain ⟨a, ha, h⟩ := hthen h
      injection h with h; injection h with h; subst h
      intro f hf
      simp only [openFields, List.append_nil] at hf
      exact hrec _ _ ha f hf
    · cases h

theorem outFunc_fields (N : Env E) (hp : Helper) (n l : Nat) (e : Expr E) (h : outFunc N hp n l = .ok (some e)) : openFields e = [] := by
  cases n with
  | zero => cases h
  | succ n =>
    rw [outFunc] at h
    split at h
    · split at h
      · injection h with h; injection h with h; subst h; rfl
      · unfold andThen at h
        obtain ⟨o, _, h⟩ := Res.bind_eq_ok.1 h
        cases o with
        | none => cases h
        | some a => injection h with h; injection h with h; subst h; rfl
    · cases h

theorem outValue_fields (N : Env E) (t : Str) (e : Expr E) (h : outValue N t = some e) : openFields e = [] := by
  unfold outValue at h
  split at h
  · split at h
    · cases hx : intOf t with
      | none => rw [hx] at h; cases h
      | some v => rw [hx] at h; injection h with h; subst h; rfl
    · cases hx : N.parseFloat t with
      | none => rw [hx] at h; cases h
      | some v => rw [hx] at h; injection h with h; subst h; rfl
  · injection h with h; subst h; rfl

theorem outNode_fields (N : Env E) (tree : List Node) (ht : ∀ n ∈ tree, ∀ p, n.path = some p → NoOps p) :
    ∀ n pos e, outNode N tree n pos = .ok (some e) → ∀ f ∈ openFields e, NoOps f.path := by
  intro n
  induction n with
  | zero => intro pos e h; cases h
  | succ n ih =>
    intro pos e h
    rw [outNode] at h
    split at h
    · cases h
    · rename_i node hn
      split at h
      · split at h
        · exact outOp_fields tree _ _ pos (fun f => NoOps f.path) ih e h
        · cases h
      · split at h
        · rename_i p hp
          injection h with h; injection h with h; subst h
          intro f hf
          rw [openFields, List.mem_singleton] at hf
          subst hf
          exact ht node (List.mem_of_getElem? hn) p hp
        · cases h
      · injection h with h; injection h with h; subst h; intro f hf; cases hf
      · injection h with h; injection h with h; subst h; intro f hf; cases hf
      · injection h with h
        intro f hf
        rw [outValue_fields N _ e h] at hf
        cases hf
      · injection h with h; injection h with h; subst h; intro f hf; cases hf
      · injection h with h; injection h with h; subst h; intro f hf; cases hf
      · split at h
        · intro f hf
          rw [outFunc_fields N _ _ _ e h] at hf
          cases hf
        · cases h
      · cases h
      · cases h

/-! ### C77 -/

/-- Whatever the text: no field of the result, outside of calls, has an operator in its name, unless the name is of several words. -/
theorem C77_fields (N : Env E) (text : Str) (e : Expr E) (h : ParsesTo N text (.ok (some e))) : ∀ f ∈ openFields e, NoOps f.path := by
  obtain ⟨_, n, h⟩ := h
  unfold parseSimple parseTokens at h
  obtain ⟨r, hr, h⟩ := Res.bind_eq_ok.1 h
  have hinv : NInv r.1 := parse_names N n _ r.1 r.2 hr ⟨noOps_nil, fun n hn => by cases hn⟩
  split at h
  · cases h
  · unfold outExpr at h
    split at h
    · cases h
    · split at h
      · cases h
      · split at h
        · exact outNode_fields N _ hinv.tree _ _ e h
        · cases h

/-! Names as texts. -/

theorem infix_split (k a : Str) (c : Nat) (b : Str) (hc : c ∉ k) (h : k <:+: a ++ c :: b) : k <:+: a ∨ k <:+: b := by
  induction a with
  | nil =>
    rcases List.infix_cons_iff.1 h with hp | hs
    · cases k with
      | nil => exact .inl List.nil_infix
      | cons x k =>
        obtain ⟨_, h1⟩ := hp
        injection h1 with h1 _
        exact absurd (by rw [h1]; simp) hc
    · exact .inr hs
  | cons x a ih =>
    rcases List.infix_cons_iff.1 h with hp | hs
    · left
      have hp' : k <+: (x :: a) ++ c :: b := hp
      by_cases hlen : k.length ≤ (x :: a).length
      · exact (List.prefix_of_prefix_length_le hp' ⟨c :: b, rfl⟩ hlen).isInfix
      · have := List.prefix_of_prefix_length_le (l₁ := (x :: a) ++ [c]) ⟨b, by simp⟩ hp' (by simp at hlen ⊢; omega)
        exact absurd (this.subset (by simp)) hc
    · exact (ih hs).imp (fun h => h.trans (List.suffix_cons x a).isInfix) id

theorem opWords_plain : ∀ k ∈ opWords, (46 : Nat) ∉ k ∧ (96 : Nat) ∉ k ∧ (91 : Nat) ∉ k ∧ (93 : Nat) ∉ k := by decide

theorem noOp_join (a : Str) (c : Nat) (b : Str) (hc : c = 46 ∨ c = 96 ∨ c = 91 ∨ c = 93) : NoOp (a ++ c :: b) ↔ NoOp a ∧ NoOp b := by
  constructor
  · intro h
    exact ⟨h.infix ⟨[], c :: b, by simp⟩, h.infix ⟨a ++ [c], [], by simp⟩⟩
  · rintro ⟨ha, hb⟩ k hk hi
    have := opWords_plain k hk
    rcases infix_split k a c b (by rcases hc with rfl | rfl | rfl | rfl <;> simp [this]) hi with h | h
    · exact ha k hk h
    · exact hb k hk h

theorem noOp_nil : NoOp [] := seek_noOp [] rfl

theorem noOp_part (p : Part) : NoOp p.text ↔ NoOp p.name := by
  cases p with
  | plain s => exact Iff.rfl
  | tick s =>
    show NoOp ([] ++ 96 :: (s ++ 96 :: [])) ↔ NoOp s
    rw [noOp_join _ _ _ (by simp), noOp_join _ _ _ (by simp)]
    simp [noOp_nil]

theorem noOp_parts : ∀ ps : List Part, NoOp (partsText ps) ↔ ∀ p ∈ ps, NoOp p.name := by
  intro ps
  induction ps with
  | nil => simp [partsText, noOp_nil]
  | cons p r ih =>
    cases r with
    | nil => simp [partsText, noOp_part]
    | cons q r => rw [partsText, noOp_join _ _ _ (by simp), ih, noOp_part]; simp; simp

theorem noOp_idx (s : Str) : NoOp (idxText s) ↔ NoOp s := by
  show NoOp ([] ++ 91 :: (s ++ 93 :: [])) ↔ NoOp s
  rw [noOp_join _ _ _ (by simp), noOp_join _ _ _ (by simp)]
  simp [noOp_nil]

theorem noOp_idxs : ∀ (is : List Str) (a : Str), NoOp (a ++ is.flatMap idxText) ↔ NoOp a ∧ ∀ s ∈ is, NoOp (idxText s) := by
  intro is
  induction is with
  | nil => intro a; simp
  | cons s is ih =>
    intro a
    have : a ++ (s :: is).flatMap idxText = (a ++ 91 :: s) ++ 93 :: ([] ++ is.flatMap idxText) := by simp [idxText]
    rw [this, noOp_join _ _ _ (by simp), noOp_join _ _ _ (by simp), ih]
    simp [noOp_nil, noOp_idx, and_assoc]

/-- A name has an operator in it when one of its parts has. -/
theorem noOp_name (n : Name) : NoOp n.text ↔ ∀ p ∈ n.path, NoOp p := by
  rw [Name.text, noOp_idxs, noOp_parts]
  simp only [Name.path, List.mem_append, List.mem_map]
  constructor
  · rintro ⟨h1, h2⟩ p (⟨a, ha, rfl⟩ | ⟨a, ha, rfl⟩)
    · exact h1 a ha
    · exact h2 a ha
  · intro h
    exact ⟨fun p hp => h _ (.inl ⟨p, hp, rfl⟩), fun s hs => h _ (.inr ⟨s, hs, rfl⟩)⟩

theorem path_infix (n : Name) : ∀ p ∈ n.path, ∀ b ∈ p, b ∈ n.text := by
  have hparts : ∀ ps : List Part, ∀ p ∈ ps, ∀ b ∈ p.name, b ∈ partsText ps := by
    intro ps
    induction ps with
    | nil => intro p hp; cases hp
    | cons q r ih =>
      intro p hp b hb
      have hq : ∀ b ∈ q.name, b ∈ q.text := by cases q <;> simp +contextual [Part.name, Part.text]
      cases r with
      | nil =>
        rw [List.mem_singleton] at hp
        subst hp
        exact hq b hb
      | cons q' r =>
        rw [partsText]
        · rcases List.mem_cons.1 hp with rfl | hp
          · exact List.mem_append_left _ (hq b hb)
          · exact List.mem_append_right _ (List.mem_cons_of_mem _ (ih p hp b hb))
        · simp
  intro p hp b hb
  rw [Name.text]
  rcases List.mem_append.1 hp with hp | hp
  · obtain ⟨a, ha, rfl⟩ := List.mem_map.1 hp
    exact List.mem_append_left _ (hparts _ a ha b hb)
  · obtain ⟨a, ha, rfl⟩ := List.mem_map.1 hp
    exact List.mem_append_right _ (List.mem_flatMap.2 ⟨a, ha, hb⟩)

theorem bin_fields (o : Bin) (f : Verif.Expr.Field) (b : Expr E) : f ∈ openFields (o.expr (.field f) b) := by
  cases o <;> simp [Bin.expr, openFields]

theorem un_fields (o : Un) (f : Verif.Expr.Field) : f ∈ openFields (o.expr (.field f) : Expr E) := by
  cases o <;> simp [Un.expr, openFields]

/-- Tokens that are one word, start with no digit or minus sign, have no parentheses and are no words with another meaning. -/
structure Word (t : Str) : Prop where
  noWhite : ∀ b ∈ t, white b = false
  noNum : ¬ NumLike t
  noParen : (40 : Nat) ∉ t ∧ (41 : Nat) ∉ t
  noWord : t ∉ ownWords

/-- C77 as it should be: a condition on a field is read as that. -/
def C77_names (N : Env E) : Prop :=
  ∀ (n : Name) (w : List Str) (o : Bin) (r : List Str) (b : Expr E) (text : Str), n.Ok → Word n.text → (w, o) ∈ binWords → RightMeans N o r b →
    Words (n.text :: (w ++ r)) text → ParsesTo N text (.ok (some (o.expr (.field ⟨0, n.path⟩) b)))

/-- C77.  A condition on a field is read as that exactly if no part of the name contains an operator, in backticks or not. -/
theorem C77_name_partial (N : Env E) (n : Name) (w : List Str) (o : Bin) (r : List Str) (b : Expr E) (text : Str) (hn : n.Ok) (hw : Word n.text)
    (ho : (w, o) ∈ binWords) (hr : RightMeans N o r b) (ht : Words (n.text :: (w ++ r)) text) :
    ParsesTo N text (.ok (some (o.expr (.field ⟨0, n.path⟩) b))) ↔ ∀ p ∈ n.path, NoOp p := by
  constructor
  · intro h
    refine C77_fields N text _ h ⟨0, n.path⟩ (bin_fields o _ b) fun p hp h32 => ?_
    have := hw.noWhite 32 (path_infix n p hp 32 h32)
    exact absurd this (by decide)
  · intro h
    have hf : Free n.text := ⟨name_text_ne n hn, (noOp_name n).2 h, hw.noNum, hw.noParen.1, hw.noParen.2, hw.noWord⟩
    have := C53_chain N (.bin n.text (.field ⟨0, n.path⟩) w o r b) [] text ⟨.name n hn hf, ho, hr⟩ (fun x hx => by cases hx)
      (by simpa [Cond.toks, linkToks] using ht)
    simpa [build, Cond.expr] using this

/-- The same for `EXISTS`, `IS MISSING`, `IS NULL` and `IS NOT NULL`. -/
theorem C77_unary_partial (N : Env E) (n : Name) (w : List Str) (o : Un) (text : Str) (hn : n.Ok) (hw : Word n.text)
    (ho : (w, o) ∈ unWords) (ht : Words (n.text :: w) text) :
    ParsesTo N text (.ok (some (o.expr (.field ⟨0, n.path⟩)))) ↔ ∀ p ∈ n.path, NoOp p := by
  constructor
  · intro h
    refine C77_fields N text _ h ⟨0, n.path⟩ (un_fields o _) fun p hp h32 => ?_
    have := hw.noWhite 32 (path_infix n p hp 32 h32)
    exact absurd this (by decide)
  · intro h
    have hf : Free n.text := ⟨name_text_ne n hn, (noOp_name n).2 h, hw.noNum, hw.noParen.1, hw.noParen.2, hw.noWord⟩
    have := C53_chain N (.un n.text (.field ⟨0, n.path⟩) w o) [] text ⟨.name n hn hf, ho⟩ (fun x hx => by cases hx)
      (by simpa [Cond.toks, linkToks] using ht)
    simpa [build, Cond.expr] using this

/-! Names that cannot be written. -/

theorem word_brand : Word (aName "BRAND").text := ⟨by decide, by unfold NumLike; simp [aName, Name.text, partsText, Part.text, ascii], by decide, by decide⟩
theorem word_brend : Word (aName "BREND").text := ⟨by decide, by unfold NumLike; simp [aName, Name.text, partsText, Part.text, ascii], by decide, by decide⟩

theorem right_one (N : Env E) : RightMeans N .eq [ascii "1"] (.value (.int 1)) :=
  (aCond_spec N "a" 1 free_a (by decide) (by decide)).2.2

/-- `BRAND == 1` is an error, `MAJORITY == 1` is `MAJ || ITY == 1`, and `` `ORDER` == 1 `` is a condition on the field ` OR DER`. -/
theorem C77_error (N : Env E) : ParsesTo N (ascii "BRAND == 1") (.ok none) := parses_rfl N _ _ (by simp) 20 rfl

theorem C77_other (N : Env E) : ParsesTo N (ascii "MAJORITY == 1") (.ok (some (.or (.cons (.field ⟨0, [ascii "MAJ"]⟩)
    (.cons (.cmp .eq (.field ⟨0, [ascii "ITY"]⟩) (.value (.int 1))) .nil))))) := parses_rfl N _ _ (by simp) 30 rfl

theorem C77_spaces (N : Env E) : ParsesTo N (ascii "`ORDER` == 1") (.ok (some (.cmp .eq (.field ⟨0, [ascii " OR DER"]⟩) (.value (.int 1))))) :=
  parses_rfl N _ _ (by simp) 30 rfl

theorem C77_negation (N : Env E) : ¬ C77_names N := by
  intro h
  have hw : Words ((aName "BRAND").text :: ([kEq] ++ [ascii "1"])) (ascii "BRAND == 1") := by
    have : ascii "BRAND == 1" = joinSp ((aName "BRAND").text :: ([kEq] ++ [ascii "1"])) := by decide
    rw [this]
    exact words_join _ (by decide)
  have h1 := h (aName "BRAND") [kEq] .eq [ascii "1"] _ _ (aName_ok _ (by decide) (by decide)) word_brand (by simp [binWords]) (right_one N) hw
  have h2 := (C77_name_partial N _ _ _ _ _ _ (aName_ok _ (by decide) (by decide)) word_brand (by simp [binWords]) (right_one N) hw).1 h1
  exact h2 (ascii "BRAND") (by decide) (ascii "AND") (by decide) ⟨ascii "BR", [], by decide⟩

/-- With a name that has no operator in it: `BREND == 1`. -/
example (N : Env E) : ParsesTo N (ascii "BREND == 1") (.ok (some (.cmp .eq (.field ⟨0, [ascii "BREND"]⟩) (.value (.int 1))))) := by
  have hw : Words ((aName "BREND").text :: ([kEq] ++ [ascii "1"])) (ascii "BREND == 1") := by
    have : ascii "BREND == 1" = joinSp ((aName "BREND").text :: ([kEq] ++ [ascii "1"])) := by decide
    rw [this]
    exact words_join _ (by decide)
  refine (C77_name_partial N _ _ _ _ _ _ (aName_ok _ (by decide) (by decide)) word_brend (by simp [binWords]) (right_one N) hw).2 ?_
  intro p hp
  obtain rfl : p = ascii "BREND" := by simpa [aName, Name.path, Part.name] using hp
  unfold NoOp
  decide

/-- Several words, and arguments of calls, may contain operators. -/
theorem C77_words (N : Env E) : ParsesTo N (ascii "`my ORDER` == 1") (.ok (some (.cmp .eq (.field ⟨0, [ascii "my ORDER"]⟩) (.value (.int 1))))) :=
  parses_rfl N _ _ (by simp) 30 rfl

theorem C77_calls (N : Env E) : ParsesTo N (ascii "ABS(ORDER) == 1")
    (.ok (some (.cmp .eq (.func (ascii "mathAbs") (.cons (.field ⟨0, [ascii "ORDER"]⟩) .nil)) (.value (.int 1))))) := parses_rfl N _ _ (by simp) 30 rfl

end Verif.Simple
