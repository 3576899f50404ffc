import Verif.Simple.Weight

/-!
# Where the parser ends
-/

namespace Verif.Simple
open Verif.FastVal Verif.Expr

variable {E : Ext}

theorem bind_stuck {α β : Type} {x : Res α} {f : α → Res β} (hx : x ≠ .stuck) (hf : ∀ a, x = .ok a → f a ≠ .stuck) : (x >>= f) ≠ .stuck := by
  cases x with
  | ok a => exact hf a rfl
  | panic => intro h; cases h
  | stuck => exact absurd rfl hx

/-! ### Calls -/

theorem push_ends (h : Helper) (i : Nat) (a : Arg) : h.push i a ≠ .stuck := by
  rw [Helper.push]; split <;> simp

theorem idx_ends {α : Type} (l : List α) (i : Nat) : Res.idx l i ≠ .stuck := by
  unfold Res.idx; split <;> simp

theorem inner_length {k t m : Str} (h : inner k t = some m) : m.length + 2 ≤ t.length := by
  rw [inner] at h
  split at h
  · rename_i hc
    injection h with h
    subst h
    simp only [Bool.and_eq_true, decide_eq_true_eq] at hc
    simp only [List.length_take, List.length_drop]
    omega
  · cases h

theorem lastComma_length : ∀ {s : Str} {r : Str × Str}, lastComma s = some r → r.1.length < s.length := by
  intro s
  induction s with
  | nil => intro r h; simp [lastComma] at h
  | cons c s ih =>
    intro r h
    rw [lastComma] at h
    split at h
    · rename_i a b hs
      injection h with h
      subst h
      have := ih hs
      simp at this ⊢
      omega
    · split at h
      · injection h with h; subst h; simp
      · cases h

theorem sub_first {key t : Str} {ms : List Str} {m1 : Str} (h : subMatches key t = some ms) (h1 : ms[1]? = some m1) : m1.length < t.length := by
  rw [subMatches] at h
  split at h
  · cases h
  · rename_i m hm
    have hl := inner_length hm
    split at h
    · split at h
      · injection h with h; subst h; simp at h1
      · cases h
    · split at h
      · split at h
        · cases h
        · injection h with h; subst h; simp at h1; subst h1; omega
      · split at h
        · split at h
          · cases h
          · rename_i c s
            cases hc : lastComma s with
            | none => rw [hc] at h; simp at h
            | some r =>
              rw [hc] at h
              simp only [Option.map_some, Option.some.injEq] at h
              subst h
              simp at h1
              subst h1
              have := lastComma_length hc
              simp at this hl ⊢
              omega
        · cases h

theorem checkField_le {ts : List Str} {i j : Nat} {p : List Str} (h : checkField ts i = some (j, p)) : i ≤ j := by
  rw [checkField] at h
  split at h
  · cases h
  · cases h
  · cases hf : fieldToks (ts.drop i) ⟨.none, false, [], [], []⟩ with
    | none => rw [hf] at h; simp at h
    | some r => rw [hf] at h; simp at h; omega

theorem argLoop_ends (N : Env E) (rec : Helper → Str → Str → Res (Helper × Bool)) (key : Str) (fx : Nat) (ms : List Str)
    (hrec : ∀ h m1 k, ms[1]? = some m1 → rec h m1 k ≠ .stuck) :
    ∀ n i h, ms.length + 1 ≤ n + i → 1 ≤ n → argLoop N rec key fx ms n i h ≠ .stuck := by
  intro n
  induction n with
  | zero => intro i h hn h1; omega
  | succ n ih =>
    intro i h hn h1
    rw [argLoop]
    cases hm : ms[i]? with
    | none => simp
    | some m =>
      have hi : i < ms.length := (List.getElem?_eq_some_iff.1 hm).1
      have hn1 : 1 ≤ n := by omega
      dsimp only
      split
      · refine bind_stuck (idx_ends _ _) fun m1 hm1 => bind_stuck ?_ fun r _ => bind_stuck (push_ends _ _ _) fun h' _ => ih _ _ (by omega) hn1
        refine hrec _ _ _ ?_
        unfold Res.idx at hm1
        split at hm1
        · rename_i a ha; injection hm1 with hm1; rw [ha, hm1]
        · cases hm1
      · split
        · refine bind_stuck (push_ends _ _ _) fun h' _ => ?_
          split
          · simp
          · exact ih _ _ (by omega) hn1
        · split
          · exact bind_stuck (push_ends _ _ _) fun h' _ => ih _ _ (by omega) hn1
          · split
            · simp
            · rename_i j ts hj
              have := checkField_le hj
              exact bind_stuck (push_ends _ _ _) fun h' _ => ih _ _ (by omega) hn1

theorem resolve_ends (N : Env E) : ∀ n h t key, t.length < n → resolve N n h t key ≠ .stuck := by
  intro n
  induction n with
  | zero => intro h t key hn; omega
  | succ n ih =>
    intro h t key hn
    rw [resolve]
    refine bind_stuck (push_ends _ _ _) fun h' _ => ?_
    split
    · simp
    · rename_i ms hms
      have hne : 1 ≤ ms.length := by
        rw [subMatches] at hms
        repeat' split at hms
        all_goals first
          | cases hms; done
          | (injection hms with hms; subst hms; simp; done)
          | skip
        rename_i c s _
        cases hc : lastComma s with
        | none => rw [hc] at hms; simp at hms
        | some r => rw [hc] at hms; simp at hms; subst hms; simp
      refine argLoop_ends N _ key _ ms (fun h m1 k h1 => ih h m1 k ?_) _ _ _ (Nat.le_refl _) hne
      have := sub_first hms h1
      omega

theorem funcTok_ends (N : Env E) (c : Ctx) (t key : Str) : funcTok N c t key ≠ .stuck := by
  rw [funcTok]
  split
  · refine bind_stuck (resolve_ends N _ _ _ _ (Nat.lt_succ_self _)) fun r _ => ?_
    dsimp only
    split <;> simp
  · simp

/-- The calls inside a call are at higher levels. -/
def Levels (h : Helper) : Prop := ∀ l row, h.args[l]? = some row → ∀ i, Arg.lvl i ∈ row → l < i

theorem push_levels {h h' : Helper} {l : Nat} {a : Arg} (hp : h.push l a = .ok h') (hl : Levels h) (ha : ∀ i, a = .lvl i → l < i) :
    Levels h' ∧ l < h.args.length ∧ h'.args.length = h.args.length := by
  unfold Helper.push at hp
  split at hp
  · rename_i row hrow
    injection hp with hp
    subst hp
    have hlt := (List.getElem?_eq_some_iff.1 hrow).1
    refine ⟨fun k row' hk i hi => ?_, hlt, by simp⟩
    by_cases hkl : l = k
    · subst hkl
      simp only [List.getElem?_set_self hlt, Option.some.injEq] at hk
      subst hk
      rcases List.mem_append.1 hi with hi | hi
      · exact hl _ _ hrow i hi
      · exact ha i (List.mem_singleton.1 hi).symm
    · simp only [List.getElem?_set_ne hkl] at hk
      exact hl _ _ hk i hi
  · cases hp

theorem argLoop_levels (N : Env E) (rec : Helper → Str → Str → Res (Helper × Bool)) (key : Str) (fx : Nat) (ms : List Str)
    (hrec : ∀ h t k h' b, rec h t k = .ok (h', b) → Levels h → Levels h' ∧ h.args.length ≤ h'.args.length) :
    ∀ n i h h' b, argLoop N rec key fx ms n i h = .ok (h', b) → Levels h → fx < h.args.length → Levels h' ∧ h.args.length ≤ h'.args.length := by
  intro n
  induction n with
  | zero => intro i h h' b hh; cases hh
  | succ n ih =>
    intro i h h' b hh hl hfx
    rw [argLoop] at hh
    have hstep : ∀ a i h1, h.push fx a = .ok h1 → (∀ j, a ≠ .lvl j) → argLoop N rec key fx ms n i h1 = .ok (h', b) →
        Levels h' ∧ h.args.length ≤ h'.args.length := by
      intro a i h1 hp ha hh
      obtain ⟨l1, l2, l3⟩ := push_levels hp hl fun j hj => absurd hj (ha j)
      obtain ⟨k1, k2⟩ := ih _ _ _ _ hh l1 (by omega)
      exact ⟨k1, by omega⟩
    split at hh
    · injection hh with hh
      injection hh with h1 h2
      subst h1
      exact ⟨hl, Nat.le_refl _⟩
    · split at hh
      · obtain ⟨m1, _, hh⟩ := Res.bind_eq_ok.1 hh
        obtain ⟨r, hr, hh⟩ := Res.bind_eq_ok.1 hh
        obtain ⟨h2, hp, hh⟩ := Res.bind_eq_ok.1 hh
        have hl0 : Levels { args := h.args ++ [[]], lvl := h.args.length } := by
          intro l row hrow i hi
          simp only [] at hrow
          rcases Nat.lt_or_ge l h.args.length with hlt | hge
          · rw [List.getElem?_append_left hlt] at hrow; exact hl _ _ hrow i hi
          · rw [List.getElem?_append_right hge] at hrow
            rcases hz : l - h.args.length with _ | z
            · rw [hz] at hrow; simp at hrow; subst hrow; simp at hi
            · rw [hz] at hrow; simp at hrow
        obtain ⟨k1, k2⟩ := hrec _ _ _ r.1 r.2 hr hl0
        simp at k2
        obtain ⟨l1, l2, l3⟩ := push_levels hp k1 (fun j hj => by injection hj with hj; omega)
        obtain ⟨m1, m2⟩ := ih _ _ _ _ hh l1 (by omega)
        exact ⟨m1, by omega⟩
      · split at hh
        · obtain ⟨h1, hp, hh⟩ := Res.bind_eq_ok.1 hh
          split at hh
          · injection hh with hh
            injection hh with ha hb
            subst ha
            obtain ⟨l1, l2, l3⟩ := push_levels hp hl (by simp)
            exact ⟨l1, by omega⟩
          · exact hstep _ _ _ hp (by simp) hh
        · split at hh
          · obtain ⟨h1, hp, hh⟩ := Res.bind_eq_ok.1 hh
            exact hstep _ _ _ hp (by simp) hh
          · split at hh
            · injection hh with hh
              injection hh with ha hb
              subst ha
              exact ⟨hl, Nat.le_refl _⟩
            · obtain ⟨h1, hp, hh⟩ := Res.bind_eq_ok.1 hh
              exact hstep _ _ _ hp (by simp) hh

theorem resolve_levels (N : Env E) : ∀ n h t key h' b, resolve N n h t key = .ok (h', b) → Levels h → Levels h' ∧ h.args.length ≤ h'.args.length := by
  intro n
  induction n with
  | zero => intro h t key h' b hh; cases hh
  | succ n ih =>
    intro h t key h' b hh hl
    rw [resolve] at hh
    obtain ⟨h1, hp, hh⟩ := Res.bind_eq_ok.1 hh
    obtain ⟨l1, l2, l3⟩ := push_levels hp hl (by simp)
    split at hh
    · injection hh with hh
      injection hh with ha hb
      subst ha
      exact ⟨l1, by omega⟩
    · obtain ⟨k1, k2⟩ := argLoop_levels N _ key _ _ ih _ _ _ _ _ hh l1 (by omega)
      exact ⟨k1, by omega⟩

/-- What reading a token does not change: the tree, and where the next node goes.  Calls that were read have their levels in order. -/
structure Keep (c c' : Ctx) : Prop where
  mode : c'.sub.mode = c.sub.mode
  tree : c'.tree = c.tree
  lastSub : c'.sub.lastSub = c.sub.lastSub
  lastOp : c'.sub.lastOp = c.sub.lastOp
  helper : (∀ h, c.sub.helper = some h → Levels h) → ∀ h, c'.sub.helper = some h → Levels h

theorem Keep.of {c c' : Ctx} (ht : c'.tree = c.tree) (hs : c'.sub = c.sub) : Keep c c' :=
  ⟨by rw [hs], ht, by rw [hs], by rw [hs], fun h => by rw [hs]; exact h⟩

theorem Keep.trans {a b c : Ctx} (h : Keep a b) (k : Keep b c) : Keep a c :=
  ⟨k.mode.trans h.mode, k.tree.trans h.tree, k.lastSub.trans h.lastSub, k.lastOp.trans h.lastOp, fun x => k.helper (h.helper x)⟩

/-! ### Quoted values -/

/-- The text lacks opening parentheses, closing parentheses, or quotation marks. -/
def Tame (c : Ctx) : Prop :=
  (c.depth = 0 ∧ ∀ t ∈ c.rest, 40 ∉ t) ∨ (∀ t ∈ c.rest, 41 ∉ t) ∨ (∀ t ∈ c.rest, 34 ∉ t ∧ 39 ∉ t)

/-- Tokens that contain no new characters leave a context tame. -/
theorem tame_of {c c' : Ctx} (h : Tame c) (hd : c.depth = 0 → c'.depth = 0)
    (hc : ∀ p ∈ c'.rest, ∃ t ∈ c.rest, ∀ x ∈ p, x ∈ t) : Tame c' := by
  rcases h with ⟨h0, h⟩ | h | h
  · refine .inl ⟨hd h0, fun p hp => ?_⟩
    obtain ⟨t, ht, hx⟩ := hc p hp
    exact fun hm => h t ht (hx _ hm)
  · refine .inr (.inl fun p hp => ?_)
    obtain ⟨t, ht, hx⟩ := hc p hp
    exact fun hm => h t ht (hx _ hm)
  · refine .inr (.inr fun p hp => ?_)
    obtain ⟨t, ht, hx⟩ := hc p hp
    exact ⟨fun hm => (h t ht).1 (hx _ hm), fun hm => (h t ht).2 (hx _ hm)⟩

/-- What remains has no characters that were not there, and is not heavier. -/
structure Less (c c' : Ctx) : Prop where
  chars : ∀ p ∈ c'.rest, ∃ t ∈ c.rest, ∀ x ∈ p, x ∈ t
  left : c'.left ≤ c.left

theorem Less.refl (c : Ctx) : Less c c := ⟨fun p hp => ⟨p, hp, fun _ h => h⟩, Nat.le_refl _⟩

theorem Less.trans {a b c : Ctx} (h : Less a b) (k : Less b c) : Less a c :=
  ⟨fun p hp => by
    obtain ⟨t, ht, hx⟩ := k.chars p hp
    obtain ⟨u, hu, hy⟩ := h.chars t ht
    exact ⟨u, hu, fun x h => hy x (hx x h)⟩, Nat.le_trans k.left h.left⟩

/-- Moving on. -/
theorem Less.of_idx {c c' : Ctx} (ht : c'.tokens = c.tokens) (hi : c.idx ≤ c'.idx) : Less c c' := by
  refine ⟨fun p hp => ⟨p, ?_, fun _ h => h⟩, ?_⟩
  · rw [Ctx.rest, ht] at hp
    obtain ⟨k, hk⟩ := Nat.exists_eq_add_of_le hi
    rw [hk, ← List.drop_drop] at hp
    exact List.mem_of_mem_drop hp
  · rw [Ctx.left, Ctx.rest, ht]
    exact weight_drop_le _ hi

theorem Less.replace {c : Ctx} {t : Str} (ht : c.tokens[c.idx]? = some t) {ts : List Str} (hw : weight ts ≤ 2 * t.length - 1)
    (hc : ∀ p ∈ ts, ∀ x ∈ p, x ∈ t) : Less c (c.replace ts) := by
  refine ⟨fun p hp => ?_, ?_⟩
  · rw [replace_rest ht] at hp
    rcases List.mem_append.1 hp with h | h
    · exact ⟨t, by rw [rest_cons ht]; simp, hc p h⟩
    · exact ⟨p, by rw [rest_cons ht]; simp [h], fun _ h => h⟩
  · rw [replace_left ht, left_cons ht]
    omega

theorem strip_less {c : Ctx} {t : Str} (ht : c.tokens[c.idx]? = some t) : Less c (stripParen c t).1 := by
  rw [stripParen]
  split
  · rename_i h
    simp only [Bool.and_eq_true] at h
    exact Less.replace ht (suffix_weight t 41 h.2) (suffix_chars t 41)
  · exact .refl c

theorem strip_idx (c : Ctx) (t : Str) : (stripParen c t).1.idx = c.idx := by
  rw [stripParen]; split <;> rfl

theorem strip_sub (c : Ctx) (t : Str) : (stripParen c t).1.sub = c.sub := by
  rw [stripParen]; split <;> rfl

theorem strip_tree (c : Ctx) (t : Str) : (stripParen c t).1.tree = c.tree := by
  rw [stripParen]; split <;> rfl

theorem strip_depth (c : Ctx) (t : Str) : (stripParen c t).1.depth = c.depth := by
  rw [stripParen]; split <;> rfl

theorem quoteLoop_less (q : Nat) : ∀ n c acc c' o, quoteLoop q n c acc = .ok (c', o) → Less c c' ∧ c'.sub = c.sub ∧ c'.depth = c.depth ∧ c'.tree = c.tree := by
  intro n
  induction n with
  | zero => intro c acc c' o h; cases h
  | succ n ih =>
    intro c acc c' o h
    rw [quoteLoop] at h
    cases ht : c.tokens[c.idx]? with
    | none =>
      rw [ht] at h
      dsimp only at h
      injection h with h
      injection h with h1 h2
      subst h1
      exact ⟨.refl c, rfl, rfl, rfl⟩
    | some t =>
      rw [ht] at h
      dsimp only at h
      split at h
      · injection h with h
        injection h with h1 h2
        subst h1
        exact ⟨strip_less ht, strip_sub c t, strip_depth c t, strip_tree c t⟩
      · obtain ⟨h1, h2, h3, h4⟩ := ih _ _ _ _ h
        have hm : Less (stripParen c t).1 { (stripParen c t).1 with idx := c.idx + 1 } := Less.of_idx rfl (by
          show (stripParen c t).1.idx ≤ c.idx + 1
          rw [strip_idx]
          omega)
        exact ⟨(strip_less ht).trans (hm.trans h1), h2.trans (strip_sub c t), h3.trans (strip_depth c t), h4.trans (strip_tree c t)⟩

/-- Without parentheses to split off, a quoted value is read to its end or to the end of the text. -/
theorem quoteLoop_ends (q : Nat) : ∀ n c acc, c.tokens.length < n + c.idx → (c.depth = 0 ∨ ∀ t ∈ c.rest, 41 ∉ t) → quoteLoop q (n + 1) c acc ≠ .stuck := by
  intro n
  induction n with
  | zero =>
    intro c acc hn hc
    rw [quoteLoop, List.getElem?_eq_none (by omega)]
    simp
  | succ n ih =>
    intro c acc hn hc
    rw [quoteLoop]
    cases ht : c.tokens[c.idx]? with
    | none => simp
    | some t =>
      dsimp only
      have hs : stripParen c t = (c, t) := by
        rw [stripParen, if_neg]
        rcases hc with h | h
        · simp [h]
        · intro hx
          simp only [Bool.and_eq_true] at hx
          obtain ⟨r, hr⟩ := (hasSuffix_iff _ _).1 hx.2
          exact h t (by rw [rest_cons ht]; simp) (by rw [← hr]; simp)
      rw [hs]
      split
      · simp
      · refine ih _ _ (by simp only []; omega) ?_
        rcases hc with h | h
        · exact .inl h
        · refine .inr fun u hu => h u ?_
          have : u ∈ c.tokens.drop (c.idx + 1) := hu
          rw [rest_cons ht]
          simp [this]

/-! ### One token -/

/-- What is known of a token that was read. -/
structure Read (c c' : Ctx) (o : Except Err (Str × TT)) : Prop where
  chars : ∀ p ∈ c'.rest, ∃ t ∈ c.rest, ∀ x ∈ p, x ∈ t
  left : c'.left ≤ c.left
  tame : Tame c → Tame c'
  paren : ∀ tok, o = .ok (tok, .paren) → c'.left < c.left
  next : ∀ tok ty, o = .ok (tok, ty) → ty ≠ .paren → c'.left1 < c.left
  ctx : ∀ tok ty, o = .ok (tok, ty) → ty.isField = true → c'.sub.opCtx = c.sub.opCtx
  none : o = .error .noMore → c.tokens[c.idx]? = Option.none
  keep : Keep c c'
  errs : ∀ e, o = .error e → e = .noMore ∨ e = .other

theorem Read.of {c c' : Ctx} {t : Str} {o : Except Err (Str × TT)} (ht : c.tokens[c.idx]? = some t) (hne : t ≠ []) (h : Less c c') (hd : c.depth = 0 → c'.depth = 0)
    (h1 : c'.left1 ≤ c.left1) (hp : ∀ tok, o ≠ .ok (tok, .paren)) (hs : ∀ tok ty, o = .ok (tok, ty) → ty.isField = true → c'.sub.opCtx = c.sub.opCtx)
    (hn : ∀ e, o = .error e → e = .other) (hm : Keep c c') : Read c c' o :=
  ⟨h.chars, h.left, fun k => tame_of k hd h.chars, fun tok ho => absurd ho (hp tok),
    fun _ _ _ _ => Nat.lt_of_le_of_lt h1 (left1_lt ht hne), hs, fun h => (by cases hn _ h), hm, fun e h => .inr (hn e h)⟩

theorem Read.trans {a b c : Ctx} {o : Except Err (Str × TT)} (h : Less a b) (hd : b.depth = a.depth) (hs : b.sub = a.sub) (htr : b.tree = a.tree) {t : Str} (hl : b.tokens[b.idx]? = some t) (k : Read b c o) : Read a c o :=
  ⟨(h.trans ⟨k.chars, k.left⟩).chars, Nat.le_trans k.left h.left, fun ht => k.tame (tame_of ht (fun h0 => hd.trans h0) h.chars),
    fun tok ho => Nat.lt_of_lt_of_le (k.paren tok ho) h.left, fun tok ty ho hp => Nat.lt_of_lt_of_le (k.next tok ty ho hp) h.left,
    fun tok ty ho hf => (k.ctx tok ty ho hf).trans (by rw [hs]), fun ho => by have := k.none ho; rw [hl] at this; (cases this), (Keep.of htr hs).trans k.keep, k.errs⟩

/-- The same tokens and a later position. -/
theorem later {c c' : Ctx} (ht : c'.tokens = c.tokens) (hi : c.idx ≤ c'.idx) : Less c c' ∧ c'.left1 ≤ c.left1 :=
  ⟨Less.of_idx ht hi, by rw [Ctx.left1, Ctx.left1, ht]; exact weight_drop_le _ (by omega)⟩

theorem mark_same (c : Ctx) (t : Str) : (mark c t).tokens = c.tokens ∧ (mark c t).idx = c.idx ∧ (mark c t).depth = c.depth ∧ Keep c (mark c t) := by
  rw [mark]
  repeat' split
  all_goals exact ⟨rfl, rfl, rfl, rfl, rfl, rfl, rfl, id⟩

theorem closeParen_same (c : Ctx) : (closeParen c).1.tokens = c.tokens ∧ (closeParen c).1.idx = c.idx ∧ (c.depth = 0 → (closeParen c).1.depth = 0) ∧
    (∀ e, (closeParen c).2 = some e → e = .other) ∧ (closeParen c).1.sub = c.sub ∧ (closeParen c).1.tree = c.tree := by
  rw [closeParen]
  dsimp only
  repeat' split
  all_goals first
    | exact ⟨rfl, rfl, id, fun e h => by simpa using h.symm, rfl, rfl⟩
    | exact ⟨rfl, rfl, fun h => absurd h (by assumption), fun e h => by simpa using h.symm, rfl, rfl⟩

/-- What `look` does: read the token, split it, or go on with a quoted value. -/
def LookOk (c : Ctx) (t : Str) : Next → Prop
  | .done r => r ≠ .stuck ∧ ∀ c' o, r = .ok (c', o) → Read c c' o
  | .again c' => ∃ ts, Pieces t ts ∧ c' = c.replace ts
  | .words _ => t ≠ [] ∧ (hasPrefix [34] t = true ∨ hasPrefix [39] t = true)

theorem lookOk_same {c c' : Ctx} {t : Str} {o : Except Err (Str × TT)} (ht : c.tokens[c.idx]? = some t) (hne : t ≠ []) (h1 : c'.tokens = c.tokens) (h2 : c.idx ≤ c'.idx)
    (h3 : c.depth = 0 → c'.depth = 0) (hp : ∀ tok, o ≠ .ok (tok, .paren)) (hs : ∀ tok ty, o = .ok (tok, ty) → ty.isField = true → c'.sub.opCtx = c.sub.opCtx)
    (hn : ∀ e, o = .error e → e = .other) (hm : Keep c c') : LookOk c t (.done (.ok (c', o))) := by
  refine ⟨by simp, fun c'' o' h => ?_⟩
  injection h with h
  injection h with ha hb
  subst ha hb
  exact Read.of ht hne (later h1 h2).1 h3 (later h1 h2).2 hp hs hn hm

theorem read_endParen {c c1 : Ctx} {t : Str} (ht : c.tokens[c.idx]? = some t) (hne : t ≠ []) (hl : Less c c1) (hl1 : c1.left < c.left ∨ c1.left1 ≤ c.left1)
    (hd : c1.depth = c.depth) (hs : c1.sub = c.sub) (htr : c1.tree = c.tree) :
    LookOk c t (endParen (closeParen c1)) := by
  obtain ⟨k1, k2, k3, k4, k5, k6⟩ := closeParen_same c1
  obtain ⟨hla, hlb⟩ := later k1 (Nat.le_of_eq k2.symm)
  refine ⟨by simp, fun c'' o' h => ?_⟩
  injection h with h
  injection h with ha hb
  subst ha
  have hk := hl.trans hla
  refine ⟨hk.chars, hk.left, fun k => tame_of k (fun h0 => k3 (hd.trans h0)) hk.chars, ?_, ?_, ?_, ?_, Keep.of (by rw [k6, htr]) (by rw [k5, hs]), ?_⟩
  · intro tok ho
    rw [← hb] at ho
    split at ho
    · cases ho
    · injection ho with ho; injection ho with h1 h2; cases h2
  · intro tok ty _ _
    rcases hl1 with h | h
    · exact Nat.lt_of_le_of_lt (Nat.le_trans hlb (left1_le _)) h
    · exact Nat.lt_of_le_of_lt (Nat.le_trans hlb h) (left1_lt ht hne)
  · intro tok ty ho hf
    rw [← hb] at ho
    split at ho
    · cases ho
    · injection ho with ho; injection ho with h1 h2; subst h2; cases hf
  · intro ho
    rw [← hb] at ho
    split at ho
    · rename_i e he
      injection ho with ho
      subst ho
      cases k4 _ he
    · cases ho
  · intro e ho
    rw [← hb] at ho
    split at ho
    · rename_i e' he
      injection ho with ho
      subst ho
      exact .inr (k4 _ he)
    · cases ho

theorem lookParen_ok {c : Ctx} {t : Str} (ht : c.tokens[c.idx]? = some t) (hne : t ≠ []) (ho : isOpTok t = false) : LookOk c t (lookParen c t) := by
  rw [lookParen]
  split
  · rename_i h
    simp only [Bool.and_eq_true, ne_eq, decide_eq_true_eq] at h
    exact ⟨_, prefix_pieces h.2 h.1, rfl⟩
  · split
    · rename_i h
      simp only [Bool.and_eq_true, ne_eq, decide_eq_true_eq] at h
      exact ⟨_, suffix_pieces h.2 h.1, rfl⟩
    · split
      · rename_i h
        simp only [Bool.and_eq_true, ne_eq, decide_eq_true_eq] at h
        exact ⟨_, suffix_pieces h.2 h.1, rfl⟩
      · split
        · rename_i h
          simp only [Bool.and_eq_true, ne_eq, decide_eq_true_eq] at h
          have hp := prefix_pieces h.2 h.1
          refine read_endParen ht hne (Less.replace ht (Nat.le_of_lt hp.light) hp.chars) (.inl ?_) rfl rfl rfl
          show (c.replace [[41], trimPrefix [41] t]).left < c.left
          rw [replace_left ht, left_cons ht]
          have := hp.light
          omega
        · split
          · exact read_endParen ht hne (.refl c) (.inr (Nat.le_refl _)) rfl rfl rfl
          · split
            · rename_i h40
              subst h40
              refine ⟨by simp, fun c'' o' h => ?_⟩
              injection h with h
              injection h with ha hb
              subst ha hb
              have hadv : (openParen c).tokens = c.tokens ∧ (openParen c).idx = c.idx + 1 := ⟨rfl, rfl⟩
              obtain ⟨hla, hlb⟩ := later (c := c) (c' := openParen c) hadv.1 (by rw [hadv.2]; omega)
              have hlt : (openParen c).left < c.left := by
                rw [Ctx.left, Ctx.rest, hadv.1, hadv.2]
                exact left1_lt ht hne
              refine ⟨hla.chars, hla.left, fun k => ?_, fun _ _ => hlt, ?_, ?_, ?_, Keep.of rfl rfl, by simp⟩
              · rcases k with ⟨_, k⟩ | k | k
                · exact absurd (by simp) (k [40] (by rw [rest_cons ht]; simp))
                · exact .inr (.inl fun p hp => by
                    obtain ⟨t, ht, hx⟩ := hla.chars p hp
                    exact fun hm => k t ht (hx _ hm))
                · exact .inr (.inr fun p hp => by
                    obtain ⟨t, ht, hx⟩ := hla.chars p hp
                    exact ⟨fun hm => (k t ht).1 (hx _ hm), fun hm => (k t ht).2 (hx _ hm)⟩)
              · intro tok ty ho hp
                injection ho with ho
                injection ho with h1 h2
                exact absurd h2.symm hp
              · intro tok ty ho hf
                injection ho with ho
                injection ho with h1 h2
                subst h2
                cases hf
              · intro ho; cases ho
            · split
              · rename_i d hs
                exact ⟨_, seek_pieces hs ho, rfl⟩
              · exact lookOk_same ht hne rfl (Nat.le_refl _) id (by simp) (by simp) (by simp [eq_comm]) (Keep.of rfl rfl)

theorem valueTT_ne (c : Ctx) : valueTT c ≠ .paren := by unfold valueTT; split <;> simp

theorem valueTok_cases (N : Env E) (c : Ctx) (t : Str) (q : Nat) :
    (∃ s, valueTok N c t q = .ok (s, .pcre)) ∨ valueTok N c t q = .error .other ∨ ∃ s, valueTok N c t q = .ok (s, valueTT c) := by
  unfold valueTok
  dsimp only
  split
  · split
    · exact .inl ⟨_, rfl⟩
    · exact .inr (.inl rfl)
  · exact .inr (.inr ⟨_, rfl⟩)

theorem look_ok (N : Env E) {c : Ctx} {t : Str} (ht : c.tokens[c.idx]? = some t) : LookOk c t (look N c t) := by
  by_cases hne : t = []
  · subst hne
    have : look N c [] = .done (.ok (c, .error .other)) := by
      have h1 : (if c.sub.mode = .value then quoteOf [] else none) = none := by split <;> rfl
      have h2 : (if c.sub.mode = .value then unfinished [] else none) = none := by split <;> rfl
      have h3 : fieldTok c [] = (c, .error .other) := by
        rw [fieldTok, checkField, ht]
        rfl
      simp only [look, h1, h2, h3]
      rfl
    rw [this]
    refine ⟨by simp, fun c'' o' h => ?_⟩
    injection h with h
    injection h with ha hb
    subst ha hb
    exact ⟨(Less.refl c).chars, Nat.le_refl _, id, by simp, by simp, by simp, by simp, Keep.of rfl rfl, by simp [eq_comm]⟩
  rw [look]
  split
  · rw [multi]
    split
    · rename_i p _
      obtain ⟨h1, h2, h3, h4⟩ := mark_same { c with idx := c.idx + (p.1.length - 1) } p.2
      refine lookOk_same ht hne h1 (by rw [h2]; exact Nat.le_add_right _ _) (fun h => h3.trans h) (by simp) (fun tok ty h hf => ?_) (by simp)
        (Keep.trans (Keep.of (c := c) (c' := { c with idx := c.idx + (p.1.length - 1) }) rfl rfl) h4)
      injection h with h
      injection h with ha hb
      subst hb
      cases hf
    · exact lookOk_same ht hne rfl (Nat.le_refl _) id (by simp) (by simp) (by simp [eq_comm]) (Keep.of rfl rfl)
  · split
    · obtain ⟨h1, h2, h3, h4⟩ := mark_same c (canon t)
      refine lookOk_same ht hne h1 (Nat.le_of_eq h2.symm) (fun h => h3.trans h) (by simp) (fun tok ty h hf => ?_) (by simp) h4
      injection h with h
      injection h with ha hb
      subst hb
      cases hf
    · rename_i ho
      have ho : isOpTok t = false := by simpa using ho
      split
      · rename_i q _
        refine lookOk_same ht hne rfl (Nat.le_refl _) id ?_ (fun _ _ _ _ => rfl) ?_ (Keep.of rfl rfl)
        · intro tok h
          rcases valueTok_cases N c t q with ⟨s, hv⟩ | hv | ⟨s, hv⟩ <;> rw [hv] at h
          · injection h with h; injection h with ha hb; cases hb
          · cases h
          · injection h with h; injection h with ha hb; exact valueTT_ne c hb
        · intro e h
          rcases valueTok_cases N c t q with ⟨s, hv⟩ | hv | ⟨s, hv⟩ <;> rw [hv] at h <;> cases h
          rfl
      · split
        · refine lookOk_same ht hne rfl (Nat.le_refl _) id ?_ (fun _ _ _ _ => rfl) (by simp [eq_comm]) (Keep.of rfl rfl)
          intro tok h
          injection h with h
          injection h with ha hb
          exact valueTT_ne c hb
        · split
          · exact lookOk_same ht hne rfl (Nat.le_refl _) id (by simp) (fun _ _ _ _ => rfl) (by simp [eq_comm]) ⟨rfl, rfl, rfl, rfl, id⟩
          · split
            · exact lookOk_same ht hne rfl (Nat.le_refl _) id (by simp) (fun _ _ _ _ => rfl) (by simp [eq_comm]) ⟨rfl, rfl, rfl, rfl, id⟩
            · split
              · rename_i key _
                refine ⟨funcTok_ends N c t key, fun c' o h => ?_⟩
                rw [funcTok] at h
                split at h
                · obtain ⟨r, hres, h⟩ := Res.bind_eq_ok.1 h
                  have hlev : Levels r.1 := (resolve_levels N _ _ _ _ r.1 r.2 hres (by
                    intro l row hrow i hi
                    rcases l with _ | l
                    · simp at hrow; subst hrow; simp at hi
                    · simp at hrow)).1
                  dsimp only at h
                  split at h
                  all_goals
                    injection h with h
                    injection h with ha hb
                    subst ha hb
                    obtain ⟨k1, k2⟩ := later (c := c) (c' := { c with sub := { c.sub with helper := some { r.1 with lvl := 0 } } }) rfl (Nat.le_refl _)
                    exact Read.of ht hne k1 id k2 (by simp) (fun _ _ _ _ => rfl) (by simp [eq_comm])
                      ⟨rfl, rfl, rfl, rfl, fun _ x hx => by injection hx with hx; subst hx; exact hlev⟩
                · injection h with h
                  injection h with ha hb
                  subst ha hb
                  exact Read.of ht hne (.refl c) id (Nat.le_refl _) (by simp) (fun _ _ _ _ => rfl) (by simp [eq_comm]) (Keep.of rfl rfl)
              · split
                · exact lookParen_ok ht hne ho
                · split
                  · rename_i q hq
                    refine ⟨hne, ?_⟩
                    split at hq
                    · rw [unfinished] at hq
                      split at hq
                      · rename_i h; simp only [Bool.and_eq_true] at h; exact .inl h.1
                      · split at hq
                        · rename_i h; simp only [Bool.and_eq_true] at h; exact .inr h.1
                        · cases hq
                    · cases hq
                  · split
                    · rename_i d hs
                      exact ⟨_, seek_pieces hs ho, rfl⟩
                    · rw [fieldTok]
                      split
                      · exact lookOk_same ht hne rfl (Nat.le_refl _) id (by simp) (fun _ _ _ _ => rfl) (by simp [eq_comm]) ⟨rfl, rfl, rfl, rfl, id⟩
                      · split
                        · exact lookOk_same ht hne rfl (Nat.le_refl _) id (by simp) (fun _ _ _ _ => rfl) (by simp [eq_comm]) ⟨rfl, rfl, rfl, rfl, id⟩
                        · rename_i i ts hi
                          exact lookOk_same ht hne rfl (checkField_le hi) id (by simp) (fun _ _ _ _ => rfl) (by simp [eq_comm]) (Keep.of rfl rfl)

theorem replace_get {c : Ctx} {t : Str} (ht : c.tokens[c.idx]? = some t) (h : Str) (r : List Str) : (c.replace (h :: r)).tokens[(c.replace (h :: r)).idx]? = some h := by
  have hr := replace_rest ht (h :: r)
  have : (c.replace (h :: r)).rest[0]? = some h := by rw [hr]; rfl
  rw [Ctx.rest, List.getElem?_drop] at this
  exact this

theorem getTok_read (N : Env E) : ∀ n c c' o, getTok N n c = .ok (c', o) → Read c c' o := by
  intro n
  induction n with
  | zero => intro c c' o h; cases h
  | succ n ih =>
    intro c c' o h
    rw [getTok] at h
    cases ht : c.tokens[c.idx]? with
    | none =>
      rw [ht] at h
      dsimp only at h
      injection h with h
      injection h with ha hb
      subst ha hb
      exact ⟨(Less.refl c).chars, Nat.le_refl _, id, by simp, by simp, by simp, fun _ => ht, Keep.of rfl rfl, by simp [eq_comm]⟩
    | some t =>
      rw [ht] at h
      dsimp only at h
      have hl := look_ok N ht
      cases hx : look N c t with
      | done r => rw [hx] at h hl; exact hl.2 _ _ h
      | again c1 =>
        rw [hx] at h hl
        obtain ⟨ts, hp, rfl⟩ := hl
        obtain ⟨a, r, rfl, _⟩ := hp.first
        exact Read.trans (Less.replace ht (Nat.le_of_lt hp.light) hp.chars) rfl rfl rfl (replace_get ht a r) (ih _ _ _ h)
      | words q =>
        rw [hx] at h hl
        dsimp only at h
        rw [unfinishedTok] at h
        obtain ⟨r, hr, h⟩ := Res.bind_eq_ok.1 h
        obtain ⟨k1, k2, k3, k4⟩ := quoteLoop_less q _ _ _ r.1 r.2 hr
        obtain ⟨l1, l2⟩ := later (c := c) (c' := { c with idx := c.idx + 1 }) rfl (Nat.le_succ _)
        have hlt : r.1.left < c.left := Nat.lt_of_le_of_lt k1.left (left1_lt ht hl.1)
        have hc := l1.trans k1
        split at h
        all_goals
          injection h with h
          injection h with ha hb
          subst ha hb
        · refine ⟨hc.chars, hc.left, fun k => tame_of k (fun h0 => k3.trans h0) hc.chars, ?_, fun _ _ _ _ => Nat.lt_of_le_of_lt (left1_le _) hlt, fun _ _ _ _ => by rw [k2], by simp, Keep.of k4 k2, by simp⟩
          · intro tok ho
            injection ho with ho
        · exact ⟨hc.chars, hc.left, fun k => tame_of k (fun h0 => k3.trans h0) hc.chars, by simp, by simp, by simp, by simp, Keep.of k4 k2, by simp [eq_comm]⟩

theorem getTok_ends (N : Env E) : ∀ k c, ((c.tokens[c.idx]?).getD []).length ≤ k → Tame c → ∃ n, getTok N n c ≠ .stuck := by
  intro k
  induction k using Nat.strongRecOn with
  | ind k ih =>
    intro c hk htame
    cases ht : c.tokens[c.idx]? with
    | none => exact ⟨1, by rw [getTok, ht]; simp⟩
    | some t =>
      have hl := look_ok N ht
      rw [ht] at hk
      simp only [Option.getD_some] at hk
      cases hx : look N c t with
      | done r =>
        rw [hx] at hl
        exact ⟨1, by rw [getTok, ht]; simp only [hx]; exact hl.1⟩
      | again c1 =>
        rw [hx] at hl
        obtain ⟨ts, hp, rfl⟩ := hl
        obtain ⟨a, r, rfl, ha⟩ := hp.first
        obtain ⟨n, hn⟩ := ih a.length (by omega) (c.replace (a :: r)) (by rw [replace_get ht a r]; simp)
          (tame_of htame id (Less.replace ht (Nat.le_of_lt hp.light) hp.chars).chars)
        exact ⟨n + 1, by rw [getTok, ht]; simp only [hx]; exact hn⟩
      | words q =>
        rw [hx] at hl
        refine ⟨c.tokens.length + 3, ?_⟩
        rw [getTok, ht]
        simp only [hx]
        rw [unfinishedTok]
        refine bind_stuck (quoteLoop_ends q _ _ _ (by simp only []; omega) ?_) fun r _ => by split <;> simp
        have hmem : t ∈ c.rest := by rw [rest_cons ht]; simp
        have hsub : ∀ u ∈ (Ctx.rest { c with idx := c.idx + 1 }), u ∈ c.rest := by
          intro u hu
          have : u ∈ c.tokens.drop (c.idx + 1) := hu
          rw [rest_cons ht]
          simp [this]
        rcases htame with ⟨h0, _⟩ | h | h
        · exact .inl h0
        · exact .inr fun u hu => h u (hsub u hu)
        · exfalso
          rcases hl.2 with h' | h'
          · obtain ⟨r, hr⟩ := (hasPrefix_iff _ _).1 h'
            exact (h t hmem).1 (by rw [← hr]; simp)
          · obtain ⟨r, hr⟩ := (hasPrefix_iff _ _).1 h'
            exact (h t hmem).2 (by rw [← hr]; simp)

/-! ### The whole text -/

theorem modifyAt_ends (l : List Node) (i : Int) (f : Node → Node) : modifyAt l i f ≠ .stuck := by
  unfold modifyAt
  repeat' split
  all_goals simp

theorem nodeAt_ends (l : List Node) (i : Int) : nodeAt l i ≠ .stuck := by
  unfold nodeAt
  split
  · exact idx_ends _ _
  · simp

theorem insert_ends (c : Ctx) (tok : Str) (ty : TT) : insert c tok ty ≠ .stuck := by
  unfold insert
  dsimp only
  split
  · simp
  · exact bind_stuck (modifyAt_ends _ _ _) fun _ _ => by simp
  · exact bind_stuck (modifyAt_ends _ _ _) fun _ _ => by simp
  · exact bind_stuck (modifyAt_ends _ _ _) fun _ _ => by simp

theorem merge_ends (c : Ctx) (old : Sub) : merge c old ≠ .stuck := by
  unfold merge
  split
  · simp
  · split
    · simp
    · split
      · simp
      · split
        · simp
        · refine bind_stuck (nodeAt_ends _ _) fun o _ => bind_stuck (nodeAt_ends _ _) fun _ _ => ?_
          split
          · simp
          · refine bind_stuck (modifyAt_ends _ _ _) fun tree _ => bind_stuck (nodeAt_ends _ _) fun w _ => ?_
            split
            · simp
            · exact bind_stuck (modifyAt_ends _ _ _) fun tree _ => bind_stuck (nodeAt_ends _ _) fun o _ => by simp

/-- Functions that change neither the tokens nor the position. -/
def Same (c c' : Ctx) : Prop := c'.tokens = c.tokens ∧ c'.idx = c.idx ∧ c'.depth = c.depth

theorem Same.left {c c' : Ctx} (h : Same c c') : c'.left = c.left := by rw [Ctx.left, Ctx.rest, h.1, h.2.1]; rfl
theorem Same.left1 {c c' : Ctx} (h : Same c c') : c'.left1 = c.left1 := by rw [Ctx.left1, h.1, h.2.1]; rfl
theorem Same.tame {c c' : Ctx} (h : Same c c') (k : Tame c) : Tame c' := by
  refine tame_of k (fun h0 => h.2.2.trans h0) fun p hp => ⟨p, ?_, fun _ h => h⟩
  rw [Ctx.rest, h.1, h.2.1] at hp
  exact hp

theorem insert_same {c c' : Ctx} {tok : Str} {ty : TT} (h : insert c tok ty = .ok c') : Same c c' := by
  unfold insert at h
  dsimp only at h
  split at h
  · injection h with h; subst h; exact ⟨rfl, rfl, rfl⟩
  all_goals
    obtain ⟨t, _, h⟩ := Res.bind_eq_ok.1 h
    injection h with h; subst h; exact ⟨rfl, rfl, rfl⟩

theorem merge_same {c c' : Ctx} {old : Sub} {e : Option Err} (h : merge c old = .ok (c', e)) : Same c c' := by
  unfold merge at h
  split at h
  · injection h with h; injection h with ha hb; subst ha; exact ⟨rfl, rfl, rfl⟩
  · split at h
    · injection h with h; injection h with ha hb; subst ha; exact ⟨rfl, rfl, rfl⟩
    · split at h
      · injection h with h; injection h with ha hb; subst ha; exact ⟨rfl, rfl, rfl⟩
      · split at h
        · injection h with h; injection h with ha hb; subst ha; exact ⟨rfl, rfl, rfl⟩
        · obtain ⟨o, _, h⟩ := Res.bind_eq_ok.1 h
          obtain ⟨_, _, h⟩ := Res.bind_eq_ok.1 h
          split at h
          · injection h with h; injection h with ha hb; subst ha; exact ⟨rfl, rfl, rfl⟩
          · obtain ⟨_, _, h⟩ := Res.bind_eq_ok.1 h
            obtain ⟨_, _, h⟩ := Res.bind_eq_ok.1 h
            split at h
            · injection h with h; injection h with ha hb; subst ha; exact ⟨rfl, rfl, rfl⟩
            · obtain ⟨_, _, h⟩ := Res.bind_eq_ok.1 h
              obtain ⟨_, _, h⟩ := Res.bind_eq_ok.1 h
              injection h with h; injection h with ha hb; subst ha; exact ⟨rfl, rfl, rfl⟩

theorem check_same (c : Ctx) (ty : TT) : Same c (check c ty).1 ∧ (check c ty).1.sub = c.sub := by
  unfold check
  repeat' split
  all_goals exact ⟨⟨rfl, rfl, rfl⟩, rfl⟩

/-- `advanceToken` goes to the next token, or says that the layer is done. -/
theorem advance_cases (c : Ctx) :
    ((advance c).2 = none ∧ (advance c).1.tokens = c.tokens ∧ (advance c).1.idx = c.idx + 1 ∧ (advance c).1.depth = c.depth) ∨
    ((advance c).2 = some .layerDone ∧ Same c (advance c).1) := by
  unfold advance
  dsimp only
  repeat' split
  all_goals first
    | exact .inl ⟨rfl, rfl, rfl, rfl⟩
    | exact .inr ⟨rfl, rfl, rfl, rfl⟩

theorem advance_left {c : Ctx} (h : (advance c).2 = none) : (advance c).1.left = c.left1 := by
  rcases advance_cases c with ⟨_, h1, h2, _⟩ | ⟨h1, _⟩
  · rw [Ctx.left, Ctx.rest, h1, h2]; rfl
  · rw [h] at h1; cases h1

theorem advance_le (c : Ctx) : (advance c).1.left ≤ c.left := by
  rcases advance_cases c with ⟨h, _, _, _⟩ | ⟨_, h⟩
  · rw [advance_left h]; exact left1_le c
  · exact Nat.le_of_eq h.left

theorem advance_tame {c : Ctx} (k : Tame c) : Tame (advance c).1 := by
  rcases advance_cases c with ⟨_, h1, h2, h3⟩ | ⟨_, h⟩
  · exact tame_of k (fun h0 => h3.trans h0) (later h1 (by omega)).1.chars
  · exact h.tame k

theorem finish_same (c : Ctx) (e : Err) : (finish c e).1 = c := by
  unfold finish; repeat' split
  all_goals rfl

/-- The two ways `parse` leaves a layer. -/
def Leaves (e : Option Err) : Prop := e = none ∨ e = some .layerDone

/-- If `parse` fails it does not matter what is left. -/
theorem finish_leaves {c : Ctx} {e : Err} (h : Leaves (finish c e).2) : e = .noMore ∨ e = .layerDone := by
  unfold finish at h
  split at h
  · left; assumption
  · rcases h with h | h
    · cases h
    · injection h with h; exact .inr h

/-- The checks that start a new layer. -/
theorem check_new {c : Ctx} {ty : TT} {e : Err} (h : (check c ty).2 = some e) (he : e = .new ∨ e = .oneNew) :
    ty = .paren ∨ (ty.isField = true ∧ c.sub.opCtx = .chain) := by
  have hv : ∀ {e}, checkValue c ty = some e → e = .new ∨ e = .oneNew → ty.isField = true ∧ c.sub.opCtx = .chain := by
    intro e h he
    unfold checkValue at h
    split at h
    · rename_i hc; simpa using hc
    · split at h
      · split at h
        · injection h with h; subst h; simp at he
        · cases h
      · split at h
        · injection h with h; subst h; simp at he
        · cases h
  unfold check at h
  split at h
  · split at h
    · injection h with h; subst h; simp at he
    · split at h
      · injection h with h; subst h; simp at he
      · split at h
        · injection h with h; subst h; simp at he
        · cases h
  · split at h
    · injection h with h; subst h; simp at he
    · split at h
      · injection h with h; subst h; simp at he
      · split at h
        · injection h with h; subst h; simp at he
        · cases h
  · split at h
    · left; assumption
    · split at h
      · injection h with h; subst h; simp at he
      · exact .inr (hv h he)
  · exact .inr (hv h he)

/-- A parenthesis is never a node. -/
theorem check_paren {c : Ctx} (h : (check c .paren).2 = none) : False := by
  unfold check checkValue TT.isField TT.isBool TT.isValue at h
  revert h
  cases c.sub.mode <;> simp

theorem insert_mode {c c' : Ctx} {tok : Str} {ty : TT} (h : insert c tok ty = .ok c') : c'.sub.mode = c.sub.mode := by
  unfold insert at h
  dsimp only at h
  split at h
  · injection h with h; subst h; rfl
  all_goals
    obtain ⟨t, _, h⟩ := Res.bind_eq_ok.1 h
    injection h with h; subst h; rfl

theorem advance_mode {c : Ctx} (h : c.sub.mode = .field) : (advance c).2 = none := by
  unfold advance
  split
  · rfl
  · dsimp only
    rw [h]

theorem check_field_done {c : Ctx} {ty : TT} (hm : c.sub.mode = .field) : (check c ty).2 ≠ some .layerDone ∧ (check c ty).2 ≠ some .noMore := by
  unfold check checkValue
  rw [hm]
  dsimp only
  repeat' split
  all_goals simp

theorem check_errs {c : Ctx} {ty : TT} : (check c ty).2 ≠ some .noMore := by
  unfold check checkValue
  repeat' split
  all_goals simp

theorem finish_ne (c : Ctx) (e : Err) : (finish c e).2 ≠ some .noMore := by
  unfold finish
  repeat' split
  all_goals simp
  assumption

theorem parse_ne (N : Env E) : ∀ n c c', parse N n c ≠ .ok (c', some .noMore) := by
  intro n
  induction n with
  | zero => intro c c' h; cases h
  | succ n ih =>
    intro c c' h
    have hfin : ∀ {c e}, Res.ok (finish c e) ≠ .ok (c', some .noMore) := by
      intro c e h
      injection h with h
      exact finish_ne c e (by rw [h])
    have hres : ∀ x, resume (parse N n) x ≠ .ok (c', some .noMore) := by
      intro x h
      unfold resume at h
      split at h
      · exact ih _ _ h
      · exact hfin h
    have hback : ∀ c old, back (parse N n) c old ≠ .ok (c', some .noMore) := by
      intro c old h
      unfold back at h
      obtain ⟨m, _, h⟩ := Res.bind_eq_ok.1 h
      split at h
      · exact hfin h
      · exact hres _ h
    rw [parse] at h
    obtain ⟨r, _, h⟩ := Res.bind_eq_ok.1 h
    split at h
    · exact hfin h
    · split at h
      · obtain ⟨c2, _, h⟩ := Res.bind_eq_ok.1 h
        exact hres _ h
      · split at h
        · obtain ⟨r', _, h⟩ := Res.bind_eq_ok.1 h
          split at h
          · split at h
            · exact hback _ _ h
            · exact hfin h
          · exact hback _ _ h
        · exact hfin h

/-- What is left when `parse` leaves a layer; something was read if a new layer was begun. -/
structure Left (c c' : Ctx) : Prop where
  left : c'.left ≤ c.left
  used : c.sub.mode = .field → c.sub.opCtx ≠ .chain → c'.left < c.left ∨ c'.left = 0
  tame : Tame c → Tame c'

theorem parse_left (N : Env E) : ∀ n c c' e, parse N n c = .ok (c', e) → Leaves e → Left c c' := by
  intro n
  induction n with
  | zero => intro c c' e h; cases h
  | succ n ih =>
    intro c c' e h he
    have hres : ∀ x c' e, resume (parse N n) x = .ok (c', e) → Leaves e → (x.2 = none ∨ x.2 = some .layerDone) → c'.left ≤ x.1.left ∧ (Tame x.1 → Tame c') := by
      intro x c' e h he hx
      unfold resume at h
      rcases hx with hx | hx <;> rw [hx] at h <;> dsimp only at h
      · exact ⟨(ih _ _ _ h he).left, (ih _ _ _ h he).tame⟩
      · injection h with h
        have := finish_same x.1 .layerDone
        rw [h] at this
        simp only at this
        rw [this]
        exact ⟨Nat.le_refl _, id⟩
    have hadv : ∀ c c' e, resume (parse N n) (advance c) = .ok (c', e) → Leaves e → c'.left ≤ c.left ∧ (Tame c → Tame c') ∧ ((advance c).2 = none → c'.left ≤ c.left1) := by
      intro c c' e h he
      obtain ⟨h1, h2⟩ := hres _ _ _ h he (by rcases advance_cases c with h | h <;> simp [h.1])
      exact ⟨Nat.le_trans h1 (advance_le c), fun k => h2 (advance_tame k), fun hn => by rw [← advance_left hn]; exact h1⟩
    have hback : ∀ c old c' e, back (parse N n) c old = .ok (c', e) → Leaves e → c'.left ≤ c.left ∧ (Tame c → Tame c') := by
      intro c old c' e h he
      unfold back at h
      obtain ⟨m, hm, h⟩ := Res.bind_eq_ok.1 h
      have hs := merge_same (c' := m.1) (e := m.2) hm
      split at h
      · injection h with h
        have := finish_same m.1 (by assumption)
        rw [h] at this
        simp only at this
        rw [this]
        exact ⟨Nat.le_of_eq hs.left, hs.tame⟩
      · obtain ⟨h1, h2, _⟩ := hadv _ _ _ h he
        exact ⟨by rw [← hs.left]; exact h1, fun k => h2 (hs.tame k)⟩
    rw [parse] at h
    obtain ⟨r, hr, h⟩ := Res.bind_eq_ok.1 h
    have hread := getTok_read N n c r.1 r.2 hr
    split at h
    · rename_i e' hx
      injection h with h
      have hf := finish_same r.1 e'
      rw [h] at hf
      simp only at hf
      subst hf
      refine ⟨hread.left, fun _ _ => ?_, hread.tame⟩
      have h2 := congrArg Prod.snd h
      simp only at h2
      rcases finish_leaves (by rw [h2]; exact he) with rfl | rfl
      · exact .inr (Nat.eq_zero_of_le_zero (by rw [← left_none (hread.none hx)]; exact hread.left))
      · rcases hread.errs _ hx with h | h <;> cases h
    · rename_i tok ty hx
      obtain ⟨hs, hsub⟩ := check_same r.1 ty
      split at h
      · rename_i hc
        obtain ⟨c2, hi, h⟩ := Res.bind_eq_ok.1 h
        have hs2 := insert_same hi
        obtain ⟨h1, h2, h3⟩ := hadv _ _ _ h he
        have hp : ty ≠ .paren := by rintro rfl; exact check_paren hc
        have hlt := hread.next tok ty hx hp
        refine ⟨?_, ?_, fun k => h2 (hs2.tame (hs.tame (hread.tame k)))⟩
        · exact Nat.le_trans h1 (by rw [hs2.left, hs.left]; exact hread.left)
        · intro hm ho
          have hm2 : c2.sub.mode = .field := by rw [insert_mode hi, hsub, hread.keep.mode, hm]
          refine .inl (Nat.lt_of_le_of_lt (h3 (advance_mode hm2)) ?_)
          rw [hs2.left1, hs.left1]
          exact hlt
      · rename_i e' hc
        split at h
        · rename_i hnew
          obtain ⟨r', hr', h⟩ := Res.bind_eq_ok.1 h
          have hnew : e' = .new ∨ e' = .oneNew := by simpa using hnew
          have hin : ∀ k, Leaves k → r'.2 = k → Left { (check r.1 ty).1 with sub := newSub (e' = .oneNew) } r'.1 := fun k hk h2 =>
            ih _ _ r'.2 hr' (by rw [h2]; exact hk)
          have hlow : ∀ k, Leaves k → r'.2 = k → back (parse N n) r'.1 (check r.1 ty).1.sub = .ok (c', e) → Left c c' := by
            intro k hk h2 h
            have hl := hin k hk h2
            obtain ⟨h3, h4⟩ := hback _ _ _ _ h he
            have h5 : r'.1.left ≤ r.1.left := by have := hl.left; rw [← hs.left]; exact this
            refine ⟨Nat.le_trans h3 (Nat.le_trans h5 hread.left), fun hm ho => ?_, fun k => h4 (hl.tame (hs.tame (hread.tame k)))⟩
            rcases check_new hc hnew with rfl | ⟨hf, hch⟩
            · exact .inl (Nat.lt_of_le_of_lt (Nat.le_trans h3 h5) (hread.paren tok hx))
            · exact absurd ((hread.ctx tok ty hx hf).symm.trans hch) ho
          split at h
          · rename_i e2 h2
            split at h
            · rename_i h3
              exact hlow _ (.inr rfl) (by rw [h2, h3]) h
            · injection h with h
              have hf := finish_same r'.1 e2
              rw [h] at hf
              simp only at hf
              have h6 := congrArg Prod.snd h
              simp only at h6
              rcases finish_leaves (by rw [h6]; exact he) with rfl | rfl
              · exact absurd (by rw [hr', ← h2]) (parse_ne N n _ r'.1)
              · rename_i h3; exact absurd rfl h3
          · rename_i h2
            exact hlow _ (.inl rfl) h2 h
        · injection h with h
          have hf := finish_same (check r.1 ty).1 e'
          rw [h] at hf
          simp only at hf
          have h6 := congrArg Prod.snd h
          simp only at h6
          rw [hf]
          refine ⟨by rw [hs.left]; exact hread.left, fun hm _ => ?_, fun k => hs.tame (hread.tame k)⟩
          have hm2 : r.1.sub.mode = .field := by rw [hread.keep.mode, hm]
          rcases finish_leaves (by rw [h6]; exact he) with rfl | rfl
          · exact absurd hc (check_field_done hm2).2
          · exact absurd hc (check_field_done hm2).1

/-- `parse` ends on every tame context. -/
theorem parse_ends (N : Env E) : ∀ k c, 2 * c.left + (if c.sub.opCtx = .chain then 1 else 0) ≤ k → Tame c → ∃ n, parse N n c ≠ .stuck := by
  intro k
  induction k using Nat.strongRecOn with
  | ind k ih =>
    intro c hk ht
    obtain ⟨n0, hn0⟩ := getTok_ends N _ c (Nat.le_refl _) ht
    cases hr : getTok N n0 c with
    | stuck => exact absurd hr hn0
    | panic => exact ⟨n0 + 1, by rw [parse, hr]; intro h; cases h⟩
    | ok r =>
      have hread := getTok_read N n0 c r.1 r.2 hr
      have hr' : ∀ m, n0 ≤ m → getTok N m c = .ok r := fun m hm => by rw [getTok_le N hm c hn0, hr]
      have hlow : ∀ c1 : Ctx, c1.left < c.left → Tame c1 → ∃ n, parse N n c1 ≠ .stuck := by
        intro c1 h1 h2
        refine ih (2 * c1.left + (if c1.sub.opCtx = .chain then 1 else 0)) ?_ c1 (Nat.le_refl _) h2
        split <;> omega
      have hres : ∀ c1 : Ctx, Tame c1 → c1.left1 < c.left → ∃ n, ∀ m, n ≤ m → resume (parse N m) (advance c1) ≠ .stuck := by
        intro c1 h1 h2
        rcases hx : (advance c1).2 with _ | e
        · obtain ⟨n, hn⟩ := hlow (advance c1).1 (by rw [advance_left hx]; exact h2) (advance_tame h1)
          refine ⟨n, fun m hm => ?_⟩
          rw [resume, hx]
          dsimp only
          rw [parse_le N hm _ hn]
          exact hn
        · exact ⟨0, fun m _ => by rw [resume, hx]; simp⟩
      rcases ho : r.2 with e | ⟨tok, ty⟩
      · refine ⟨n0 + 1, ?_⟩
        rw [parse, hr]
        show (match r.2 with | .error e => _ | .ok (tok, ty) => _) ≠ _
        rw [ho]
        simp
      · obtain ⟨hs, hsub⟩ := check_same r.1 ty
        have ht1 : Tame (check r.1 ty).1 := hs.tame (hread.tame ht)
        rcases hc : (check r.1 ty).2 with _ | e
        · have hp : ty ≠ .paren := by rintro rfl; exact check_paren hc
          cases hi : insert (check r.1 ty).1 tok ty with
          | stuck => exact absurd hi (insert_ends _ _ _)
          | panic =>
            refine ⟨n0 + 1, ?_⟩
            rw [parse, hr]
            show (match r.2 with | .error e => _ | .ok (tok, ty) => _) ≠ _
            rw [ho]
            dsimp only
            rw [hc]
            dsimp only
            rw [hi]
            intro h; cases h
          | ok c2 =>
            have hs2 := insert_same hi
            obtain ⟨n1, hn1⟩ := hres c2 (hs2.tame ht1) (by rw [hs2.left1, hs.left1]; exact hread.next tok ty ho hp)
            refine ⟨max n0 n1 + 1, ?_⟩
            rw [parse, hr' _ (Nat.le_max_left _ _)]
            show (match r.2 with | .error e => _ | .ok (tok, ty) => _) ≠ _
            rw [ho]
            dsimp only
            rw [hc]
            dsimp only
            rw [hi]
            exact hn1 _ (Nat.le_max_right _ _)
        · by_cases hnew : e = .new ∨ e = .oneNew
          · have hci : ∃ n, parse N n { (check r.1 ty).1 with sub := newSub (e = .oneNew) } ≠ .stuck := by
              have hl : (Ctx.left { (check r.1 ty).1 with sub := newSub (e = .oneNew) }) = r.1.left := hs.left
              have htm : Tame { (check r.1 ty).1 with sub := newSub (e = .oneNew) } := ht1
              rcases check_new hc hnew with rfl | ⟨hf, hch⟩
              · exact hlow _ (by rw [hl]; exact hread.paren tok ho) htm
              · refine ih (2 * c.left) ?_ _ ?_ htm
                · rw [if_pos ((hread.ctx tok ty ho hf).symm.trans hch)] at hk; omega
                · rw [hl]; have := hread.left; simp [newSub]; omega
            obtain ⟨n1, hn1⟩ := hci
            have hpos : 0 < c.left := by
              rcases check_new hc hnew with rfl | ⟨hf, _⟩
              · exact Nat.lt_of_le_of_lt (Nat.zero_le _) (hread.paren tok ho)
              · exact Nat.lt_of_le_of_lt (Nat.zero_le _) (hread.next tok ty ho (by rintro rfl; cases hf))
            cases hp : parse N n1 { (check r.1 ty).1 with sub := newSub (e = .oneNew) } with
            | stuck => exact absurd hp hn1
            | panic =>
              refine ⟨max n0 n1 + 1, ?_⟩
              rw [parse, hr' _ (Nat.le_max_left _ _)]
              show (match r.2 with | .error e => _ | .ok (tok, ty) => _) ≠ _
              rw [ho]
              dsimp only
              rw [hc]
              dsimp only
              rw [if_pos (by simpa using hnew), parse_le N (Nat.le_max_right _ _) _ hn1, hp]
              intro h; cases h
            | ok r' =>
              have hback : Leaves r'.2 → ∃ n, ∀ m, n ≤ m → back (parse N m) r'.1 (check r.1 ty).1.sub ≠ .stuck := by
                intro hl
                have hleft := parse_left N n1 _ r'.1 r'.2 hp hl
                have hlt : r'.1.left < c.left := by
                  rcases hleft.used rfl (by simp [newSub]) with h | h
                  · refine Nat.lt_of_lt_of_le h ?_
                    rw [show (Ctx.left { (check r.1 ty).1 with sub := newSub (e = .oneNew) }) = r.1.left from hs.left]
                    exact hread.left
                  · omega
                cases hm : merge r'.1 (check r.1 ty).1.sub with
                | stuck => exact absurd hm (merge_ends _ _)
                | panic => exact ⟨0, fun m _ => by rw [back, hm]; intro h; cases h⟩
                | ok x =>
                  have hsx := merge_same (c' := x.1) (e := x.2) hm
                  obtain ⟨n, hn⟩ := hres x.1 (hsx.tame (hleft.tame ht1)) (by
                    rw [hsx.left1]; exact Nat.lt_of_le_of_lt (left1_le _) hlt)
                  refine ⟨n, fun m hm' => ?_⟩
                  rw [back, hm]
                  show (match x.2 with | some e => _ | none => _) ≠ _
                  split
                  · simp
                  · exact hn m hm'
              have hgo : ∃ n, ∀ m, n ≤ m → (match r'.2 with
                  | some e' => if e' = Err.layerDone then back (parse N m) r'.1 (check r.1 ty).1.sub else .ok (finish r'.1 e')
                  | none => back (parse N m) r'.1 (check r.1 ty).1.sub) ≠ .stuck := by
                rcases h2 : r'.2 with _ | e2
                · exact hback (.inl h2)
                · by_cases he : e2 = .layerDone
                  · subst he
                    obtain ⟨n, hn⟩ := hback (.inr h2)
                    exact ⟨n, fun m hm => by dsimp only; rw [if_pos rfl]; exact hn m hm⟩
                  · exact ⟨0, fun m _ => by dsimp only; rw [if_neg he]; simp⟩
              obtain ⟨n2, hn2⟩ := hgo
              refine ⟨max (max n0 n1) n2 + 1, ?_⟩
              rw [parse, hr' _ (by omega)]
              show (match r.2 with | .error e => _ | .ok (tok, ty) => _) ≠ _
              rw [ho]
              dsimp only
              rw [hc]
              dsimp only
              rw [if_pos (by simpa using hnew), parse_le N (by omega : n1 ≤ max (max n0 n1) n2) _ hn1, hp]
              exact hn2 _ (by omega)
          · refine ⟨n0 + 1, ?_⟩
            rw [parse, hr]
            show (match r.2 with | .error e => _ | .ok (tok, ty) => _) ≠ _
            rw [ho]
            dsimp only
            rw [hc]
            dsimp only
            rw [if_neg (by simpa using hnew)]
            simp

end Verif.Simple
