import Verif.Slow.Multi
import Verif.Transform.ElementWhole

/-!
# C35 for loops whose bodies compare fields of the element
-/

namespace Verif.Slow
open Verif.FastVal Verif.Expr Verif.Transform
open Verif.Match (Mode run newMatcher Ready valOf parseLit Begins demoDoc demoFns indexKey indexKey_inj)
open Verif.Token (D Es Ms Tok TokText)
open Verif.Lit (Ch litText litTok chBytes intVal)

variable {E : Ext}

/-! ### Specification -/

mutual
  /-- As `Supported`; the bodies of the loops may compare two fields of the element, but contain no further loops. -/
  def Supported3 : Expr E → Prop
    | .cmp c l r => Supported (.cmp c l r)
    | .and es => Supported3s es
    | .or es => Supported3s es
    | .loop .any _ _ s => Supported2 (rebase s)
    | _ => False
  def Supported3s : Exprs E → Prop
    | .nil => True
    | .cons e r => Supported3 e ∧ Supported3s r
end

mutual
  /-- As `Sees`. -/
  def Sees3 : Expr E → D → Prop
    | .cmp c l r, d => Sees (.cmp c l r) d
    | .and es, d => Sees3s es d
    | .or es, d => Sees3s es d
    | .loop _ _ i s, d => ∃ ws es, (walk (inPath i) d).head? = some (.arr ws es) ∧ ∀ y ∈ esList es, Sees2 (rebase s) y
    | _, _ => False
  def Sees3s : Exprs E → D → Prop
    | .nil, _ => True
    | .cons e r, d => Sees3 e d ∧ Sees3s r d
end

/-! ### The variable of a loop does not matter to its body -/

theorem resolve_rebase {w : Int} {l : Expr E} (hl : ∀ f, Free l f → f.root = w) {V V' : Vars E} (hV : V' 0 = V w) :
    resolveParam V l = resolveParam V' (rebase l) := by
  cases l with
  | field f =>
    have : f.root = w := hl f (.field f)
    rw [rebase, resolveParam, resolveParam, resolveField, resolveField, this, hV]
  | _ => simp [rebase, resolveParam]

theorem cmp_rebase {w : Int} {c : Cmp} {l r : Expr E} (hf : ∀ f, Free (.cmp c l r) f → f.root = w) {V V' : Vars E} (hV : V' 0 = V w)
    {o : Option Bool} {t : Vars E} (h : matchCmp c l r V = .ok (o, t)) : t = V ∧ matchCmp c (rebase l) (rebase r) V' = .ok (o, V') := by
  unfold matchCmp compareExprs at h ⊢
  rw [← resolve_rebase (fun f h => hf f (.cmpL h)) hV, ← resolve_rebase (fun f h => hf f (.cmpR h)) hV]
  by_cases hc : c = .like
  · rw [if_pos hc] at h; cases h
  · rw [if_neg hc] at h ⊢
    obtain ⟨x, h1, h2⟩ := Res.bind_eq_ok.1 h
    rw [h1, Res.bind_ok]
    cases x with
    | none => cases h2; exact ⟨rfl, rfl⟩
    | some x =>
      obtain ⟨b, h3, h4⟩ := Res.bind_eq_ok.1 h2
      cases h4
      simp only [h3, Res.bind_ok, and_self]

mutual
  theorem one_rebase {w : Int} : ∀ (s : Expr E) (V V' : Vars E) (o : Option Bool) (t : Vars E), Supported2 (rebase s) →
      (∀ f, Free s f → f.root = w) → V' 0 = V w → matchOne s V = .ok (o, t) → t = V ∧ matchOne (rebase s) V' = .ok (o, V')
    | .cmp c l r, V, V', o, t, _, hf, hV, h => by rw [matchOne] at h; rw [rebase, matchOne]; exact cmp_rebase hf hV h
    | .and .nil, V, V', o, t, _, hf, hV, h => by rw [matchOne] at h; cases h; simp [rebase, rebases, matchOne]
    | .and (.cons e r), V, V', o, t, hs, hf, hV, h => by
      rw [matchOne] at h; rw [rebase, rebases, matchOne]
      rw [rebase, Supported2] at hs
      exact (all_rebase (.cons e r) V V' o t hs (fun f h => hf f (.and h)) hV).1 h
    | .or es, V, V', o, t, hs, hf, hV, h => by
      rw [matchOne] at h; rw [rebase, matchOne]
      rw [rebase, Supported2] at hs
      exact (all_rebase es V V' o t hs (fun f h => hf f (.or h)) hV).2 h
    | .not _, V, V', o, t, hs, hf, hV, h | .loop .., V, V', o, t, hs, hf, hV, h | .exist _, V, V', o, t, hs, hf, hV, h
    | .notExist _, V, V', o, t, hs, hf, hV, h | .tru, V, V', o, t, hs, hf, hV, h | .fals, V, V', o, t, hs, hf, hV, h
    | .value _, V, V', o, t, hs, hf, hV, h | .regex _, V, V', o, t, hs, hf, hV, h | .pcre _, V, V', o, t, hs, hf, hV, h
    | .time _, V, V', o, t, hs, hf, hV, h | .field _, V, V', o, t, hs, hf, hV, h | .func .., V, V', o, t, hs, hf, hV, h => by
      simp [rebase, Supported2] at hs
  theorem all_rebase {w : Int} : ∀ (es : Exprs E) (V V' : Vars E) (o : Option Bool) (t : Vars E), Supported2s (rebases es) →
      (∀ f, FreeAny es f → f.root = w) → V' 0 = V w →
      (matchAnd es V = .ok (o, t) → t = V ∧ matchAnd (rebases es) V' = .ok (o, V')) ∧
      (matchOr es V = .ok (o, t) → t = V ∧ matchOr (rebases es) V' = .ok (o, V'))
    | .nil, V, V', o, t, _, _, _ => by
      rw [rebases]
      constructor <;> intro h
      · rw [matchAnd] at h ⊢; cases h; exact ⟨rfl, rfl⟩
      · rw [matchOr] at h ⊢; cases h; exact ⟨rfl, rfl⟩
    | .cons e r, V, V', o, t, hs, hf, hV => by
      rw [rebases] at hs ⊢
      constructor <;> intro h
      · rw [matchAnd] at h ⊢
        obtain ⟨⟨o1, t1⟩, h1, h2⟩ := Res.bind_eq_ok.1 h
        obtain ⟨rfl, k2⟩ := one_rebase e V V' o1 t1 hs.1 (fun f h => hf f (.head h)) hV h1
        rw [k2, Res.bind_ok]
        match o1, h2 with
        | none, h2 => cases h2; exact ⟨rfl, rfl⟩
        | some false, h2 => cases h2; exact ⟨rfl, rfl⟩
        | some true, h2 => exact (all_rebase r t1 V' o t hs.2 (fun f h => hf f (.tail h)) hV).1 h2
      · rw [matchOr] at h ⊢
        obtain ⟨⟨o1, t1⟩, h1, h2⟩ := Res.bind_eq_ok.1 h
        obtain ⟨rfl, k2⟩ := one_rebase e V V' o1 t1 hs.1 (fun f h => hf f (.head h)) hV h1
        rw [k2, Res.bind_ok]
        match o1, h2 with
        | none, h2 => cases h2; exact ⟨rfl, rfl⟩
        | some true, h2 => cases h2; exact ⟨rfl, rfl⟩
        | some false, h2 => exact (all_rebase r t1 V' o t hs.2 (fun f h => hf f (.tail h)) hV).2 h2
end

/-- A body of the reference matcher. -/
theorem body_truth (X : Fns E) (C : Comp E) (hq : QuoteLaws E) (hF : FloatLaws E) {w : Int} {s : Expr E} (hb : Body C w s)
    (hs : Supported2 (rebase s)) {y : D} {j : J E} (hd : Decodes y j) (hsee : Sees2 (rebase s) y) {V t : Vars E} {b : Bool}
    (hV : V w = some j) (h : matchOne s V = .ok (some b, t)) : b = truth2 X C (rebase s) y ∧ t = V := by
  obtain ⟨rfl, h2⟩ := one_rebase (w := w) s V (Vars.set V 0 j) _ _ hs hb.free (by simp [Vars.set, hV]) h
  exact ⟨(slow_truth2 X C hq hF hd _ _ _ _ (by simp [Vars.set]) hb.frag hs hsee h2).1, rfl⟩

/-! ### A body of the fast matcher -/

theorem multiSem_sees (X : Fns E) (C : Comp E) {c : Cmp} {f g : Field} {y : D} {j : J E} (hd : Decodes y j)
    (hs : Supported2 (.cmp c (.field f : Expr E) (.field g))) (hsee : Sees2 (.cmp c (.field f : Expr E) (.field g)) y) :
    multiSem X C c (.field f) (.field g) y = some (pairHolds X C c (.field f) (.field g) y) := by
  obtain ⟨fr, p⟩ := f
  obtain ⟨gr, p'⟩ := g
  obtain ⟨x, x', hx, hx', _⟩ := hsee
  obtain ⟨_, _, _, h1, h2⟩ := hs
  simp only at hx hx' h1 h2
  have hne : p' ≠ p := fun h => h1 (h ▸ List.prefix_rfl)
  have hm : several (.field ⟨fr, p⟩ : Expr E) (.field ⟨gr, p'⟩) = true := by simp [several, paths, hne]
  have hsp := splits_base hm (loose_two h1 h2)
  have hbelow : ∀ q ∈ [p, p'], common p p' <+: q ∧ q.drop (common p p').length ≠ [] := by
    intro q hq
    obtain ⟨k, q', hq'⟩ := hsp.1 q hq
    have hq' : q = common p p' ++ k :: q' := hq'
    subst hq'
    exact ⟨⟨_, rfl⟩, by rw [List.drop_left]; simp⟩
  have hbase : base (.field ⟨fr, p⟩ : Expr E) (.field ⟨gr, p'⟩) = common p p' := rfl
  have hlen := walk_one (common p p') y j hd
  match hw : walk (common p p') y, hlen with
  | [], _ => rw [walk_below (hbelow p (by simp)).1 y, hw] at hx; cases hx
  | [z], _ =>
    have hz : ¬ EmptyArr z := fun h0 => by
      rw [walk_below (hbelow p (by simp)).1 y, hw, List.flatMap_cons, walk_emptyArr h0 (hbelow p (by simp)).2] at hx
      cases hx
    have e1 : walk (p.drop (common p p').length) z = [x] := by
      rw [walk_below (hbelow p (by simp)).1 y, hw] at hx; simpa using hx
    have e2 : walk (p'.drop (common p p').length) z = [x'] := by
      rw [walk_below (hbelow p' (by simp)).1 y, hw] at hx'; simpa using hx'
    have hh : ∀ c' : Cmp, multiHolds X C c' (.field ⟨fr, p⟩ : Expr E) (.field ⟨gr, p'⟩) (envAt (common p p') z) =
        multiHolds X C c' (.field ⟨fr, p⟩) (.field ⟨gr, p'⟩) (docEnv y) := by
      intro c'
      simp [multiHolds, isGone, mVal, envAt, docEnv, e1, e2, hx, hx']
    rw [multiSem, hbase, hw, List.findSome?_cons, afterVal_some hz, pairHolds]
    by_cases hc : c = .ne
    · simp [hc, hh, kNot]
    · simp [hc, hh]
  | _ :: _ :: _, h => simp at h

mutual
  theorem lsem_sees (X : Fns E) (C : Comp E) {y : D} {j : J E} (hd : Decodes y j) : ∀ e : Expr E, Supported2 e → Sees2 e y →
      lsem X C e y = some (truth2 X C e y)
    | .cmp c (.field f) (.field g), hs, hsee => by
      have hm : several (.field f : Expr E) (.field g) = true := by
        have hne : g.path ≠ f.path := fun h => hs.2.2.2.1 (h ▸ List.prefix_rfl)
        simp [several, paths, hne]
      rw [lsem, truth2, if_pos hm, if_pos hm]
      exact multiSem_sees X C hd hs hsee
    | .cmp c (.field f) (.value g), hs, hsee => by
      have hm : ¬ several (.field f : Expr E) (.value g) = true := by simp [several, paths]
      rw [lsem, truth2, if_neg hm, if_neg hm]
      exact (sem_sees X C _ y hsee hs).1
    | .cmp c (.value g) (.field f), hs, hsee => by
      have hm : ¬ several (.value g : Expr E) (.field f) = true := by simp [several, paths]
      rw [lsem, truth2, if_neg hm, if_neg hm]
      exact (sem_sees X C _ y hsee hs).1
    | .and es, hs, hsee => by rw [lsem, truth2]; exact (lsems_sees X C hd es hs hsee).1
    | .or es, hs, hsee => by rw [lsem, truth2]; exact (lsems_sees X C hd es hs hsee).2
  theorem lsems_sees (X : Fns E) (C : Comp E) {y : D} {j : J E} (hd : Decodes y j) : ∀ es : Exprs E, Supported2s es → Sees2s es y →
      lsemAll X C es y = some (truth2All X C es y) ∧ lsemAny X C es y = some (truth2Any X C es y)
    | .nil, _, _ => ⟨rfl, rfl⟩
    | .cons e r, hs, hsee => by
      have h1 := lsem_sees X C hd e hs.1 hsee.1
      obtain ⟨h2, h3⟩ := lsems_sees X C hd r hs.2 hsee.2
      rw [lsemAll, lsemAny, truth2All, truth2Any, h1, h2, h3]
      constructor
      · cases truth2 X C e y <;> cases truth2All X C r y <;> rfl
      · cases truth2 X C e y <;> cases truth2Any X C r y <;> rfl
end

theorem DecodesL.mem {l : List D} {js : List (J E)} (h : DecodesL l js) : ∀ y ∈ l, ∃ j : J E, Decodes y j := by
  induction h with
  | nil => intro y hy; cases hy
  | @cons d j l js hd _ ih =>
    intro y hy
    rcases List.mem_cons.1 hy with rfl | hy
    · exact ⟨j, hd⟩
    · exact ih y hy

/-! ### The reference matcher and the verdict of the fast matcher -/

mutual
  theorem slow_etop (X : Fns E) (C : Comp E) (hq : QuoteLaws E) (hF : FloatLaws E) {d : D} {j : J E} (hd : Decodes d j) : ∀ (e : Expr E)
      (s s' : Vars E) (b : Bool), s 0 = some j → EFrag C e → Supported3 e → Sees3 e d →
      matchOne e s = .ok (some b, s') → b = etop X C e d ∧ s' 0 = s 0
    | .cmp c l r, s, s', b, hs, hf, hsup, hsee, h => by
      simp only [EFrag] at hf
      rw [matchOne] at h
      obtain ⟨h1, h2⟩ := cmp_truth X C hq hF hd hs hf hsup hsee h
      simp only [etop]
      rw [(sem_sees X C _ d hsee hsup).2]
      exact ⟨h1, by rw [h2]⟩
    | .and .nil, s, s', b, hs, hf, hsup, hsee, h => by simp [EFrag, EFrags] at hf
    | .and (.cons e r), s, s', b, hs, hf, hsup, hsee, h => by
      rw [etop]
      exact (slow_etops X C hq hF hd (.cons e r) s s' b hs hf hsup hsee).1 h
    | .or es, s, s', b, hs, hf, hsup, hsee, h => by
      rw [etop]
      exact (slow_etops X C hq hF hd es s s' b hs hf hsup hsee).2 h
    | .loop .any w i e, s, s', b, hs, hf, hsup, hsee, h => by
      obtain ⟨ws, es, hw, hall⟩ := hsee
      have hi : i = .field ⟨0, inPath i⟩ := hf.1
      have hb : Body C w e := hf.2
      rw [matchOne, matchAnyIn] at h
      have hres : resolveParam s i = .ok ((resolveField s ⟨0, inPath i⟩).map .json) := by
        rw [show resolveParam s i = resolveParam s (.field ⟨0, inPath i⟩) from by rw [← hi]]
        rfl
      rw [hres] at h
      cases hr : resolveField s ⟨0, inPath i⟩ with
      | none => rw [hr] at h; cases h
      | some j' =>
        rw [hr] at h
        have hdj : Decodes (.arr ws es) j' := by
          rw [resolveField, hs] at hr
          exact follow_walk _ _ _ _ _ hd hw hr
        cases hdj with
        | @arr _ js _ hjs =>
          have hfa : firstArr (walk (inPath i) d) = some (esList es) := by
            cases hl : walk (inPath i) d with
            | nil => rw [hl] at hw; cases hw
            | cons y ys => rw [hl] at hw; cases hw; rw [firstArr]
          have hel := decodes_elems es js hjs
          obtain ⟨r1, r2⟩ := anyIn_truth (p := truth2 X C (rebase e)) (B := []) hel
            (fun d' hd' j' hj' s1 b1 s1' hs1 h1 => by
              obtain ⟨k1, k2⟩ := body_truth X C hq hF hb hsup hj' (hall d' hd') hs1 h1
              exact ⟨k1, fun u _ => by rw [k2]⟩) s s' b h
          refine ⟨?_, r2 0 (fun h0 => hb.var h0.symm) (by simp)⟩
          rw [etop, hfa, r1, Option.map_some, Option.getD_some, Mode.holds]
          have : ∀ l : List D, (∀ y ∈ l, y ∈ esList es) → l.any (truth2 X C (rebase e)) =
              l.any (fun y => decide (lsem X C (rebase e) y = some true)) := by
            intro l
            induction l with
            | nil => intro _; rfl
            | cons y l ih =>
              intro hl
              obtain ⟨jy, hy⟩ := hel.mem y (hl y (by simp))
              rw [List.any_cons, List.any_cons, ih (fun z hz => hl z (by simp [hz])), lsem_sees X C hy _ hsup (hall y (hl y (by simp)))]
              cases truth2 X C (rebase e) y <;> simp
          exact this _ (fun _ h => h)
    | .loop .every .., s, s', b, hs, hf, hsup, hsee, h | .loop .anyEvery .., s, s', b, hs, hf, hsup, hsee, h
    | .exist _, s, s', b, hs, hf, hsup, hsee, h | .notExist _, s, s', b, hs, hf, hsup, hsee, h
    | .not _, s, s', b, hs, hf, hsup, hsee, h | .tru, s, s', b, hs, hf, hsup, hsee, h | .fals, s, s', b, hs, hf, hsup, hsee, h
    | .value _, s, s', b, hs, hf, hsup, hsee, h | .regex _, s, s', b, hs, hf, hsup, hsee, h | .pcre _, s, s', b, hs, hf, hsup, hsee, h
    | .time _, s, s', b, hs, hf, hsup, hsee, h | .field _, s, s', b, hs, hf, hsup, hsee, h | .func .., s, s', b, hs, hf, hsup, hsee, h => by
      simp [Supported3] at hsup
  theorem slow_etops (X : Fns E) (C : Comp E) (hq : QuoteLaws E) (hF : FloatLaws E) {d : D} {j : J E} (hd : Decodes d j) : ∀ (es : Exprs E)
      (s s' : Vars E) (b : Bool), s 0 = some j → EFrags C es → Supported3s es → Sees3s es d →
      (matchAnd es s = .ok (some b, s') → b = etopAll X C es d ∧ s' 0 = s 0) ∧
      (matchOr es s = .ok (some b, s') → b = etopAny X C es d ∧ s' 0 = s 0)
    | .nil, s, s', b, hs, hf, hsup, hsee => by simp [EFrags] at hf
    | .cons e r, s, s', b, hs, hf, hsup, hsee => by
      have hfe : EFrag C e := by
        cases r with
        | nil => exact hf
        | cons _ _ => exact hf.1
      have hrest : ∀ t b', (t 0 = s 0 → (matchAnd r t = .ok (some b', s') → b' = etopAll X C r d ∧ s' 0 = s 0) ∧
          (matchOr r t = .ok (some b', s') → b' = etopAny X C r d ∧ s' 0 = s 0)) := by
        intro t b' ht
        cases r with
        | nil =>
          constructor <;> intro h
          · rw [matchAnd] at h; cases h; exact ⟨rfl, ht⟩
          · rw [matchOr] at h; cases h; exact ⟨rfl, ht⟩
        | cons e' r' =>
          rw [← ht]
          exact slow_etops X C hq hF hd (.cons e' r') t s' b' (ht.trans hs) hf.2 hsup.2 hsee.2
      constructor
      · intro h
        rw [matchAnd] at h
        obtain ⟨⟨o, t⟩, h1, h2⟩ := Res.bind_eq_ok.1 h
        match o, h1, h2 with
        | some false, h1, h2 =>
          cases h2
          obtain ⟨k1, k2⟩ := slow_etop X C hq hF hd e s _ _ hs hfe hsup.1 hsee.1 h1
          exact ⟨by rw [etopAll, ← k1]; rfl, k2⟩
        | some true, h1, h2 =>
          obtain ⟨k1, k2⟩ := slow_etop X C hq hF hd e s _ _ hs hfe hsup.1 hsee.1 h1
          obtain ⟨r1, r2⟩ := (hrest t b k2).1 h2
          exact ⟨by rw [etopAll, ← k1, ← r1]; rfl, r2⟩
      · intro h
        rw [matchOr] at h
        obtain ⟨⟨o, t⟩, h1, h2⟩ := Res.bind_eq_ok.1 h
        match o, h1, h2 with
        | some true, h1, h2 =>
          cases h2
          obtain ⟨k1, k2⟩ := slow_etop X C hq hF hd e s _ _ hs hfe hsup.1 hsee.1 h1
          exact ⟨by rw [etopAny, ← k1]; rfl, k2⟩
        | some false, h1, h2 =>
          obtain ⟨k1, k2⟩ := slow_etop X C hq hF hd e s _ _ hs hfe hsup.1 hsee.1 h1
          obtain ⟨r1, r2⟩ := (hrest t b k2).2 h2
          exact ⟨by rw [etopAny, ← k1, ← r1]; rfl, r2⟩
end

/-! ### C35 -/

mutual
  theorem supported2_unrebase : ∀ e : Expr E, Supported2 (rebase e) → SafeE e
    | .cmp c l r, h => by
      cases l <;> cases r <;> simp_all [rebase, Supported2, Supported, SafeE, SafeParam]
    | .and es, h => by rw [rebase, Supported2] at h; rw [SafeE]; exact supported2s_unrebase es h
    | .or es, h => by rw [rebase, Supported2] at h; rw [SafeE]; exact supported2s_unrebase es h
    | .not _, h | .loop .., h | .exist _, h | .notExist _, h | .tru, h | .fals, h | .value _, h | .regex _, h | .pcre _, h
    | .time _, h | .field _, h | .func .., h => by simp [rebase, Supported2] at h
  theorem supported2s_unrebase : ∀ es : Exprs E, Supported2s (rebases es) → SafeEs es
    | .nil, _ => trivial
    | .cons e r, h => by rw [rebases] at h; exact ⟨supported2_unrebase e h.1, supported2s_unrebase r h.2⟩
end

mutual
  theorem supported3_safe : ∀ e : Expr E, Supported3 e → SafeE e
    | .cmp c l r, h => supported_safe (.cmp c l r) h
    | .and es, h => by rw [SafeE]; exact supported3s_safe es h
    | .or es, h => by rw [SafeE]; exact supported3s_safe es h
    | .loop .any w i s, h => by rw [SafeE]; exact supported2_unrebase s h
  theorem supported3s_safe : ∀ es : Exprs E, Supported3s es → SafeEs es
    | .nil, _ => trivial
    | .cons e r, h => ⟨supported3_safe e h.1, supported3s_safe r h.2⟩
end

theorem supported3_root {e : Expr E} (h : Supported3 e) (s : Vars E) : matchRoot e s = matchOne e s := by
  cases e <;> simp_all [Supported3, matchRoot]

theorem supported3_gen {e : Expr E} (h : Supported3 e) : genExprs [e] = [e] := by
  cases e <;> simp_all [Supported3, genExprs]

/-- C35 for one expression made of AND, OR, comparisons of fields with constants and ANY loops over arrays of the document whose bodies
compare fields of the element with constants and with each other, and documents that have all the fields it asks for, without repeated
keys, whose values are compared faithfully: if the reference matcher reports no error, the fast matcher gives the same verdict.
(Missing: such loops inside other loops or next to comparisons of two fields of the document; the other documents, for which it is
false, see `C35_negation`.) -/
theorem C35_elements_partial (X : Fns E) (C : Comp E) (slot0 : Nat) (hq : QuoteLaws E) (hF : FloatLaws E)
    (unmarshal : List Nat → Option (J E)) {data : List Nat} {r : D} {j : J E} (hr : Begins data r) (hu : unmarshal data = some j)
    (hd : Decodes r j) {e : Expr E} (hfrag : EFrag C e) (hsup : Supported3 e) (hsee : Sees3 e r) (hreg : Regular5 [e] r)
    (s s' : M E) (hs : s.exprs = [e]) {b : Bool} (h : slowMatch unmarshal s data = .ok (some b, s')) :
    ∃ df, transform C slot0 [e] = .ok df ∧ ∀ m, Ready df m → ∃ m', run X df m data = .ok (some b, m') := by
  have one : ∀ {P : Expr E → Prop}, P e → ∀ x ∈ [e], P x := fun hP x hx => by rw [List.mem_singleton.1 hx]; exact hP
  obtain ⟨df, h1, h2⟩ := C34_elements_partial X C slot0 (supported3_gen hsup) (one hfrag) (one (supported3_safe e hsup)) hr hreg
  refine ⟨df, h1, fun m hm => ?_⟩
  obtain ⟨m', h3⟩ := h2 m hm
  refine ⟨m', ?_⟩
  rw [h3]
  unfold slowMatch at h
  rw [hu, hs] at h
  obtain ⟨⟨o, m1⟩, k1, k2⟩ := Res.bind_eq_ok.1 h
  match o, k1, k2 with
  | some b1, k1, k2 =>
    cases k2
    rw [matchFrom, supported3_root hsup] at k1
    obtain ⟨⟨o, t⟩, g1, g2⟩ := Res.bind_eq_ok.1 k1
    match o, g1, g2 with
    | some res, g1, g2 =>
      obtain ⟨e1, _⟩ := slow_etop X C hq hF hd e _ _ _ (by simp [Vars.set]) hfrag hsup hsee g1
      simp only at g2
      split at g2
      · rw [matchFrom] at g2
        cases g2
        cases res <;> simp [← e1]
      · cases g2

/-! ### Example -/

/-- What `docPairs`, `{"a":[{"a":1,"b":2},{"a":1,"b":1}]}`, decodes to. -/
def jPairs : J demoExt :=
  .obj (.cons [97] (.arr (.cons (.obj (.cons [97] (.num (1 : Int)) (.cons [98] (.num (2 : Int)) .nil))) (.cons jAB1 .nil))) .nil)

theorem docPairs_decodes : Decodes docPairs jPairs := by
  have ha : ∀ c ∈ [Ch.plain 97], c.WF := by intro c hc; rw [List.mem_singleton] at hc; subst hc; simp [Ch.WF]
  have hb : ∀ c ∈ [Ch.plain 98], c.WF := by intro c hc; rw [List.mem_singleton] at hc; subst hc; simp [Ch.WF]
  exact .obj (.cons (cs := [.plain 97]) ha (.arr (.cons (.obj (.cons (cs := [.plain 97]) ha (.int text_1)
    (.cons (cs := [.plain 98]) hb (.int text_2) .nil trivial) ⟨by decide, trivial⟩)) (.cons docAB1_decodes .nil))) .nil trivial)

theorem faithful2_one_two (c : Cmp) (j j' : J demoExt) (h : Decodes (.lit .integer [49]) j) (_ : Decodes (.lit .integer [50]) j') :
    Faithful2 (E := demoExt) c (.lit .integer [49]) (.lit .integer [50]) j j' where
  str := by
    intro s t hs
    subst hs
    generalize hx : D.lit .integer [49] = x at h
    cases h with
    | @str cs _ =>
      exfalso
      have : Tok.integer = litTok cs := by injection hx
      unfold litTok at this
      split at this <;> cases this
  num := by
    intro (f : Int) (y : Int) _ _
    refine ⟨rfl, rfl, ?_⟩
    intro hg
    have hg' : decide (((f - y : Int).natAbs : Int) < 1) = true := hg
    rw [decide_eq_true_eq] at hg'
    have : f = y := by omega
    subst this
    exact ⟨by simp [demoExt], by simp [demoExt]⟩
  left := by intro w hw; cases hw; rfl
  right := by intro w hw; cases hw; rfl
  ints := by intro w w' hw hw'; cases hw; cases hw'; decide

/-- `x.a = x.b AND x.a = 1` -/
def bodyPair : Expr demoExt :=
  .and (.cons (.cmp .eq (.field ⟨1, [[97]]⟩) (.field ⟨1, [[98]]⟩)) (.cons (.cmp .eq (.field ⟨1, [[97]]⟩) oneF) .nil))

/-- `ANY x IN a SATISFIES x.a = x.b AND x.a = 1` -/
def demoAnyPair : Expr demoExt := .loop .any 1 fieldA bodyPair

theorem bodyPair_body : Body demoComp 1 bodyPair := by
  refine ⟨by decide, by simp [bodyPair, Expr.Plain, Exprs.Plain, oneF], ?_, fun f hf => ?_⟩
  · simp only [bodyPair, rebase, rebases, oneF, Frag2, Frag2s]
    rw [if_pos (by rfl), if_neg (by decide)]
    exact ⟨⟨rfl, rfl, loose_ab⟩, by simp [Frag, Param, condPath, fieldPath]⟩
  · cases hf with
    | and hf => cases hf with
      | head hf => cases hf with
        | cmpL hf => cases hf; rfl
        | cmpR hf => cases hf; rfl
      | tail hf => cases hf with
        | head hf => cases hf with
          | cmpL hf => cases hf; rfl
          | cmpR hf => cases hf
        | tail hf => cases hf

theorem bodyPair_whole {y : D} (h : regularB (mConds (rebase bodyPair)) y = true) (ha : walk [[97]] y ≠ []) (hb : walk [[98]] y ≠ [])
    (ho : walk [] y = [y]) : Whole bodyPair y := by
  refine ⟨regular_of_check h, ⟨fun _ x hx p hp => ?_, fun h => absurd h (by decide), trivial⟩⟩
  have hx : x ∈ walk [] y := hx
  rw [ho, List.mem_singleton] at hx
  subst hx
  have hp : p ∈ [([[97]] : Path), [[98]]] := hp
  simp only [List.mem_cons, List.not_mem_nil, or_false] at hp
  rcases hp with rfl | rfl
  · exact ha
  · exact hb

/-- Both matchers accept `{"a":[{"a":1,"b":2},{"a":1,"b":1}]}`. -/
example : ∃ df, transform demoComp 0 [demoAnyPair] = .ok df ∧ ∀ m, Ready df m → ∃ m', run demoFns df m textPairs = .ok (some true, m') := by
  have h : ∃ s', slowMatch (fun _ => some jPairs) (newSlow [demoAnyPair]) textPairs = .ok (some true, s') := ⟨_, rfl⟩
  obtain ⟨s', h⟩ := h
  refine C35_elements_partial demoFns demoComp 0 demoQuote demoFloat (fun _ => some jPairs) docPairs_text rfl docPairs_decodes
    (e := demoAnyPair) ⟨rfl, bodyPair_body⟩ ?_ ⟨_, _, rfl, fun y hy => ?_⟩
    ⟨(fun ty t h => by cases h), regular_of_check (by decide +kernel), fun x hx => ?_⟩ (newSlow [demoAnyPair]) s' rfl h
  · simp [demoAnyPair, bodyPair, rebase, rebases, Supported3, Supported2, Supported2s, Supported, Scalar, oneF]
  · simp only [esList, List.mem_cons, List.not_mem_nil, or_false] at hy
    rcases hy with rfl | rfl
    · exact ⟨⟨_, _, rfl, rfl, fun j j' h h' => faithful2_one_two .eq j j' h h'⟩, ⟨_, rfl, fun j hj => faithful_demo .eq 1 j hj⟩, trivial⟩
    · exact ⟨⟨_, _, rfl, rfl, fun j j' h h' => faithful2_demo .eq j j' h h'⟩, ⟨_, rfl, fun j hj => faithful_demo .eq 1 j hj⟩, trivial⟩
  · rw [List.mem_singleton.1 hx]
    intro z hz y hy
    have hz : z ∈ walk [[97]] docPairs := hz
    simp only [docPairs, walk] at hz
    have hz := List.mem_singleton.1 hz
    subst hz
    simp only [elements, esList, List.mem_cons, List.not_mem_nil, or_false] at hy
    rcases hy with rfl | rfl
    · exact bodyPair_whole (by decide +kernel) (by decide +kernel) (by decide +kernel) rfl
    · exact bodyPair_whole (by decide +kernel) (by decide +kernel) (by decide +kernel) rfl

end Verif.Slow
