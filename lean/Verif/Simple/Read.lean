import Verif.Simple.Fuel

/-!
# What a growing tree outputs

`insertNode` and `mergeAndRestoreSubContexts` only append nodes, set parents and fill empty right children; what could be output
before stays the same.
-/

namespace Verif.Simple
open Verif.FastVal Verif.Expr
open Verif.Filter (andThen)

variable {E : Ext}

theorem andThen_some {α β : Type} {x : Res (Option α)} {f : α → Res (Option β)} {b : β} :
    andThen x f = .ok (some b) ↔ ∃ a, x = .ok (some a) ∧ f a = .ok (some b) := by
  cases x with
  | ok o => cases o with
    | none => simp [andThen]
    | some a => simp [andThen]
  | panic => simp [andThen]
  | stuck => simp [andThen]

structure Node.Le (a b : Node) : Prop where
  ty : a.ty = b.ty
  tok : a.tok = b.tok
  left : a.left = b.left
  path : a.path = b.path
  fn : a.fn = b.fn
  right : a.right ≠ -1 → b.right = a.right

theorem Node.Le.refl (a : Node) : a.Le a := ⟨rfl, rfl, rfl, rfl, rfl, fun _ => rfl⟩

theorem Node.Le.trans {a b c : Node} (h : a.Le b) (k : b.Le c) : a.Le c :=
  ⟨h.ty.trans k.ty, h.tok.trans k.tok, h.left.trans k.left, h.path.trans k.path, h.fn.trans k.fn,
    fun hr => by rw [k.right (by rw [h.right hr]; exact hr), h.right hr]⟩

def Grows (t t' : List Node) : Prop := t.length ≤ t'.length ∧ ∀ (i : Nat) (n : Node), t[i]? = some n → ∃ n', t'[i]? = some n' ∧ n.Le n'

theorem Grows.refl (t : List Node) : Grows t t := ⟨Nat.le_refl _, fun _ n h => ⟨n, h, .refl n⟩⟩

theorem Grows.trans {a b c : List Node} (h : Grows a b) (k : Grows b c) : Grows a c := by
  refine ⟨Nat.le_trans h.1 k.1, fun i n hn => ?_⟩
  obtain ⟨n1, h1, l1⟩ := h.2 i n hn
  obtain ⟨n2, h2, l2⟩ := k.2 i n1 h1
  exact ⟨n2, h2, l1.trans l2⟩

theorem grows_append (t r : List Node) : Grows t (t ++ r) := by
  refine ⟨by simp, fun i n hn => ⟨n, ?_, .refl n⟩⟩
  have : i < t.length := by
    rcases Nat.lt_or_ge i t.length with h | h
    · exact h
    · rw [List.getElem?_eq_none h] at hn; exact absurd hn (by simp)
  rw [List.getElem?_append_left this, hn]

theorem grows_set (t : List Node) (i : Nat) (a b : Node) (hi : t[i]? = some a) (hab : a.Le b) : Grows t (t.set i b) := by
  refine ⟨by simp, fun j n hn => ?_⟩
  by_cases h : j = i
  · subst h
    have hlt : j < t.length := by
      rcases Nat.lt_or_ge j t.length with h | h
      · exact h
      · rw [List.getElem?_eq_none h] at hn; exact absurd hn (by simp)
    rw [hi] at hn
    injection hn with hn
    subst hn
    exact ⟨b, by simp [hlt], hab⟩
  · exact ⟨n, by rw [List.getElem?_set_ne (Ne.symm h), hn], .refl n⟩

theorem leftOf_grows {t t' : List Node} (h : Grows t t') {p l : Nat} (hl : leftOf t p = .ok (some l)) : leftOf t' p = .ok (some l) := by
  unfold leftOf at hl ⊢
  cases hn : t[p]? with
  | none => rw [hn] at hl; simp at hl
  | some n =>
    rw [hn] at hl
    obtain ⟨n', hn', hle⟩ := h.2 p n hn
    rw [hn']
    dsimp only at hl ⊢
    rw [← hle.left]
    cases hnl : n.left with
    | negSucc k => rw [hnl] at hl; simp at hl
    | ofNat k =>
      rw [hnl] at hl
      dsimp only at hl ⊢
      split at hl
      · rename_i hk
        rw [if_pos (Nat.lt_of_lt_of_le hk h.1)]
        exact hl
      · simp at hl

theorem rightOf_grows {t t' : List Node} (h : Grows t t') {p r : Nat} (hr : rightOf t p = some r) : rightOf t' p = some r := by
  unfold rightOf at hr ⊢
  cases hn : t[p]? with
  | none => rw [hn] at hr; simp at hr
  | some n =>
    rw [hn] at hr
    obtain ⟨n', hn', hle⟩ := h.2 p n hn
    rw [hn']
    dsimp only at hr ⊢
    rw [← hle.left]
    cases hnl : n.left with
    | negSucc k => rw [hnl] at hr; simp at hr
    | ofNat k =>
      cases hnr : n.right with
      | negSucc j => rw [hnl, hnr] at hr; simp at hr
      | ofNat j =>
        have : n'.right = n.right := hle.right (by rw [hnr]; intro hx; exact absurd hx (by simp))
        rw [hnl, hnr] at hr
        rw [this, hnr]
        dsimp only at hr ⊢
        split at hr
        · rename_i hk
          simp only [Bool.and_eq_true, decide_eq_true_eq] at hk
          rw [if_pos (by simp only [Bool.and_eq_true, decide_eq_true_eq]; exact ⟨Nat.lt_of_lt_of_le hk.1 h.1, Nat.lt_of_lt_of_le hk.2 h.1⟩)]
          exact hr
        · simp at hr

theorem outOp_grows {t t' : List Node} (h : Grows t t') {f g : Nat → Res (Option (Expr E))}
    (hfg : ∀ i e, f i = .ok (some e) → g i = .ok (some e)) (k : OpK) (p : Nat) (e : Expr E) (ho : outOp t f k p = .ok (some e)) :
    outOp t' g k p = .ok (some e) := by
  have two : ∀ F : Expr E → Expr E → Expr E,
      (leftOf t p >>= fun l => match l, rightOf t p with
        | some l, some r => andThen (f l) fun a => andThen (f r) fun b => .ok (some (F a b))
        | _, _ => .ok none) = .ok (some e) →
      (leftOf t' p >>= fun l => match l, rightOf t' p with
        | some l, some r => andThen (g l) fun a => andThen (g r) fun b => .ok (some (F a b))
        | _, _ => .ok none) = .ok (some e) := by
    intro F hF
    obtain ⟨l, hl, hF⟩ := Res.bind_eq_ok.1 hF
    cases l with
    | none => simp at hF
    | some l =>
      rw [leftOf_grows h hl]
      cases hr : rightOf t p with
      | none => rw [hr] at hF; simp at hF
      | some r =>
        rw [hr] at hF
        dsimp only at hF
        obtain ⟨a, ha, hF⟩ := andThen_some.1 hF
        obtain ⟨b, hb, hF⟩ := andThen_some.1 hF
        simp only [Res.bind_ok, rightOf_grows h hr]
        exact andThen_some.2 ⟨a, hfg _ _ ha, andThen_some.2 ⟨b, hfg _ _ hb, hF⟩⟩
  have one : ∀ F : Expr E → Expr E,
      (leftOf t p >>= fun l => match l with
        | some l => andThen (f l) fun a => .ok (some (F a))
        | none => .ok none) = .ok (some e) →
      (leftOf t' p >>= fun l => match l with
        | some l => andThen (g l) fun a => .ok (some (F a))
        | none => .ok none) = .ok (some e) := by
    intro F hF
    obtain ⟨l, hl, hF⟩ := Res.bind_eq_ok.1 hF
    cases l with
    | none => simp at hF
    | some l =>
      rw [leftOf_grows h hl]
      obtain ⟨a, ha, hF⟩ := andThen_some.1 hF
      exact andThen_some.2 ⟨a, hfg _ _ ha, hF⟩
  have chain : ∀ F : Expr E → Expr E → Expr E,
      (leftOf t p >>= fun l => match l with
        | some l => andThen (f l) fun a => match rightOf t p with
          | some r => andThen (f r) fun b => .ok (some (F a b))
          | none => .ok none
        | none => .ok none) = .ok (some e) →
      (leftOf t' p >>= fun l => match l with
        | some l => andThen (g l) fun a => match rightOf t' p with
          | some r => andThen (g r) fun b => .ok (some (F a b))
          | none => .ok none
        | none => .ok none) = .ok (some e) := by
    intro F hF
    obtain ⟨l, hl, hF⟩ := Res.bind_eq_ok.1 hF
    cases l with
    | none => simp at hF
    | some l =>
      rw [leftOf_grows h hl]
      obtain ⟨a, ha, hF⟩ := andThen_some.1 hF
      refine andThen_some.2 ⟨a, hfg _ _ ha, ?_⟩
      cases hr : rightOf t p with
      | none => rw [hr] at hF; simp at hF
      | some r =>
        rw [hr] at hF
        obtain ⟨b, hb, hF⟩ := andThen_some.1 hF
        rw [rightOf_grows h hr]
        exact andThen_some.2 ⟨b, hfg _ _ hb, hF⟩
  cases k with
  | cmp c => exact two _ ho
  | notLike => exact two _ ho
  | and => exact chain _ ho
  | or => exact chain _ ho
  | «exists» => exact one _ ho
  | missing => exact one _ ho
  | null => exact one _ ho
  | notNull => exact one _ ho

/-- What could be output can be output from a tree that has grown, also with more rounds. -/
theorem outNode_grows (N : Env E) {t t' : List Node} (h : Grows t t') : ∀ (d i : Nat) (e : Expr E) (d' : Nat), d ≤ d' →
    outNode N t d i = .ok (some e) → outNode N t' d' i = .ok (some e) := by
  intro d
  induction d with
  | zero => intro i e d' _ ho; simp [outNode] at ho
  | succ d ih =>
    intro i e d' hd ho
    obtain ⟨d'', rfl⟩ : ∃ d'', d' = d'' + 1 := ⟨d' - 1, by omega⟩
    rw [outNode] at ho ⊢
    cases hn : t[i]? with
    | none => rw [hn] at ho; simp at ho
    | some n =>
      rw [hn] at ho
      obtain ⟨n', hn', hle⟩ := h.2 i n hn
      rw [hn']
      dsimp only at ho ⊢
      rw [← hle.ty, ← hle.tok, ← hle.path, ← hle.fn]
      cases hty : n.ty with
      | op =>
        rw [hty] at ho
        dsimp only at ho ⊢
        cases hk : opOf n.tok with
        | none => rw [hk] at ho; simp at ho
        | some k =>
          rw [hk] at ho
          exact outOp_grows h (fun j x hx => ih j x d'' (by omega) hx) k i e ho
      | _ => rw [hty] at ho; exact ho

end Verif.Simple
