import Verif.Simple.Model

/-!
# More rounds do not change a result that has been reached
-/

namespace Verif.Simple
open Verif.FastVal Verif.Expr

theorem bind_ne_stuck {α β : Type} {x : Res α} {f g : α → Res β} (hx : (x >>= f) ≠ .stuck)
    (h : ∀ a, x = .ok a → f a ≠ .stuck → g a = f a) : (x >>= g) = (x >>= f) := by
  cases x with
  | ok a => exact h a rfl hx
  | panic => rfl
  | stuck => rfl

theorem bind_mono {α β : Type} {x y : Res α} {f g : α → Res β} (hxy : x ≠ .stuck → y = x) (hx : (x >>= f) ≠ .stuck)
    (h : ∀ a, f a ≠ .stuck → g a = f a) : (y >>= g) = (x >>= f) := by
  have hns : x ≠ .stuck := by intro hs; rw [hs] at hx; exact hx rfl
  rw [hxy hns]
  exact bind_ne_stuck hx fun a _ => h a

theorem quoteLoop_mono (q : Nat) : ∀ n c acc, quoteLoop q n c acc ≠ .stuck → quoteLoop q (n + 1) c acc = quoteLoop q n c acc := by
  intro n
  induction n with
  | zero => intro c acc h; exact absurd rfl h
  | succ n ih =>
    intro c acc h
    rw [quoteLoop] at h ⊢
    conv => rhs; rw [quoteLoop]
    cases ht : c.tokens[c.idx]? with
    | none => rfl
    | some t =>
      rw [ht] at h
      dsimp only at h ⊢
      split at h
      · rename_i hq; rw [if_pos hq, if_pos hq]
      · rename_i hq
        rw [if_neg hq, if_neg hq]
        exact ih _ _ h

variable {E : Ext}

theorem unfinishedTok_mono (n : Nat) (c : Ctx) (t : Str) (q : Nat) (h : unfinishedTok n c t q ≠ .stuck) :
    unfinishedTok (n + 1) c t q = unfinishedTok n c t q :=
  bind_mono (quoteLoop_mono q n _ _) h fun _ _ => rfl

theorem getTok_mono (N : Env E) : ∀ n c, getTok N n c ≠ .stuck → getTok N (n + 1) c = getTok N n c := by
  intro n
  induction n with
  | zero => intro c h; exact absurd rfl h
  | succ n ih =>
    intro c h
    rw [getTok] at h ⊢
    conv => rhs; rw [getTok]
    cases ht : c.tokens[c.idx]? with
    | none => rfl
    | some t =>
      rw [ht] at h
      dsimp only at h ⊢
      cases hl : look N c t with
      | done r => rfl
      | again c' => rw [hl] at h; exact ih _ h
      | words q => rw [hl] at h; exact unfinishedTok_mono _ _ _ _ h

theorem getTok_le (N : Env E) {n m : Nat} (hm : n ≤ m) (c : Ctx) (h : getTok N n c ≠ .stuck) : getTok N m c = getTok N n c := by
  induction hm with
  | refl => rfl
  | step _ ih => rw [getTok_mono N _ c (ih ▸ h), ih]

theorem resume_mono {f g : Ctx → Res (Ctx × Option Err)} (hfg : ∀ c, f c ≠ .stuck → g c = f c) (x : Ctx × Option Err)
    (h : resume f x ≠ .stuck) : resume g x = resume f x := by
  unfold resume at h ⊢
  split at h
  · exact hfg _ h
  · rfl

theorem back_mono {f g : Ctx → Res (Ctx × Option Err)} (hfg : ∀ c, f c ≠ .stuck → g c = f c) (c : Ctx) (old : Sub)
    (h : back f c old ≠ .stuck) : back g c old = back f c old := by
  refine bind_ne_stuck h ?_
  intro m _ hm
  split at hm
  · rfl
  · exact resume_mono hfg _ hm

theorem parse_mono (N : Env E) : ∀ n c, parse N n c ≠ .stuck → parse N (n + 1) c = parse N n c := by
  intro n
  induction n with
  | zero => intro c h; exact absurd rfl h
  | succ n ih =>
    intro c h
    rw [parse] at h ⊢
    conv => rhs; rw [parse]
    refine bind_mono (getTok_mono N n c) h ?_
    intro r hr
    split at hr
    · rfl
    · split at hr
      · exact bind_ne_stuck hr fun c' _ hc => resume_mono ih _ hc
      · split at hr
        · rename_i he
          rw [if_pos he, if_pos he]
          refine bind_mono (ih _) hr ?_
          intro r' hr'
          split at hr'
          · split at hr'
            · rename_i hl
              rw [if_pos hl, if_pos hl]
              exact back_mono ih _ _ hr'
            · rename_i hl
              rw [if_neg hl, if_neg hl]
          · exact back_mono ih _ _ hr'
        · rename_i he
          rw [if_neg he, if_neg he]

theorem parse_le (N : Env E) {n m : Nat} (hm : n ≤ m) (c : Ctx) (h : parse N n c ≠ .stuck) : parse N m c = parse N n c := by
  induction hm with
  | refl => rfl
  | step _ ih => rw [parse_mono N _ c (ih ▸ h), ih]

theorem parseTokens_le (N : Env E) {n m : Nat} (hm : n ≤ m) (ts : List Str) (h : parseTokens N n ts ≠ .stuck) :
    parseTokens N m ts = parseTokens N n ts :=
  bind_mono (parse_le N hm _) h fun _ _ => rfl

/-- The result of `ParseSimpleExpression` is unique. -/
theorem parsesTo_unique (N : Env E) {text : Str} {r r' : Res (Option (Expr E))} (h : ParsesTo N text r) (h' : ParsesTo N text r') : r = r' := by
  obtain ⟨hs, n, hn⟩ := h
  obtain ⟨hs', m, hm⟩ := h'
  rcases Nat.le_total n m with hle | hle
  · have := parseTokens_le N hle (fieldsFrom [] text) (by rw [← parseSimple, hn]; exact hs)
    rw [← parseSimple, ← parseSimple, hn, hm] at this
    exact this.symm
  · have := parseTokens_le N hle (fieldsFrom [] text) (by rw [← parseSimple, hm]; exact hs')
    rw [← parseSimple, ← parseSimple, hn, hm] at this
    exact this

end Verif.Simple
