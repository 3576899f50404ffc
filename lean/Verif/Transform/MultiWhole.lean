import Verif.Transform.MultiSem
import Verif.Transform.Each

/-!
# C62: comparisons of several fields, from text to verdict
-/

namespace Verif.Transform
open Verif.FastVal Verif.Match Verif.Expr
open Verif.Token (D Es Ms Tok)
open Verif.BinTree (Sh K UnOp BinOp mergeSh mergeParts Shaped)

variable {E : Ext}

/-! ### Specification: truth on a document -/

/-- The values of fields in a document: the last one if a key is repeated. -/
def docEnv (d : D) : Env := fun p => lastOf none (walk p d)

/-- A comparison of several fields; `!=` is the negation of `=`. -/
def pairHolds (X : Fns E) (C : Comp E) (c : Cmp) (l r : Expr E) (d : D) : Bool :=
  if c = .ne then !multiHolds X C .eq l r (docEnv d) else multiHolds X C c l r (docEnv d)

mutual
  /-- As `truth`, with comparisons of several fields. -/
  def truth2 (X : Fns E) (C : Comp E) : Expr E → D → Bool
    | .cmp c l r, d => if several l r then pairHolds X C c l r d else truth X C (.cmp c l r) d
    | .not e, d => !truth2 X C e d
    | .and es, d => truth2All X C es d
    | .or es, d => truth2Any X C es d
    | e, d => truth X C e d
  def truth2All (X : Fns E) (C : Comp E) : Exprs E → D → Bool
    | .nil, _ => true
    | .cons e r, d => truth2 X C e d && truth2All X C r d
  def truth2Any (X : Fns E) (C : Comp E) : Exprs E → D → Bool
    | .nil, _ => false
    | .cons e r, d => truth2 X C e d || truth2Any X C r d
end

/-- Operands that are fields, not functions of fields. -/
def IsField : Expr E → Bool
  | .field _ => true
  | _ => false

/-- The comparison is between values in one and the same part of the document, that is neither missing nor an empty array; for two
fields it may be missing or empty. -/
def Once (l r : Expr E) (d : D) : Prop :=
  (∃ x, walk (base l r) d = [x] ∧ ¬ EmptyArr x) ∨ (IsField l = true ∧ IsField r = true ∧ (walk (base l r) d).length ≤ 1)

mutual
  /-- `Once` for all comparisons of several fields. -/
  def OnceE : Expr E → D → Prop
    | .cmp _ l r, d => several l r = true → Once l r d
    | .not e, d => OnceE e d
    | .and es, d => OnceEs es d
    | .or es, d => OnceEs es d
    | _, _ => True
  def OnceEs : Exprs E → D → Prop
    | .nil, _ => True
    | .cons e r, d => OnceE e d ∧ OnceEs r d
end

/-! ### The verdict is the truth -/

theorem walk_below {q p : Path} (h : q <+: p) (d : D) : walk p d = (walk q d).flatMap (walk (p.drop q.length)) := by
  obtain ⟨s, rfl⟩ := h
  rw [walk_append, List.drop_left]

theorem walk_emptyArr {x : D} (h : EmptyArr x) {p : Path} (hp : p ≠ []) : walk p x = [] := by
  cases x with
  | arr ws es =>
    cases es with
    | nil => cases p with
      | nil => exact absurd rfl hp
      | cons k p => rfl
    | cons _ _ _ _ => exact h.elim
  | obj _ _ => exact h.elim
  | lit _ _ => exact h.elim

mutual
  theorem mVal_congr (X : Fns E) (C : Comp E) {env env' : Env} : ∀ e : Expr E, (∀ p ∈ paths e, env p = env' p) → mVal X C env e = mVal X C env' e
    | .field f, h => by rw [mVal, mVal, h f.path (by simp [paths])]
    | .func n ps, h => by rw [mVal, mVal, mVals_congr X C _ ps h]
    | .value _, _ => rfl
    | .regex g, _ => by cases g with
      | json j => cases j <;> rfl
      | _ => rfl
    | .pcre g, _ => by cases g with
      | json j => cases j <;> rfl
      | _ => rfl
    | .time g, _ => by cases g with
      | json j => cases j <;> rfl
      | _ => rfl
    | .tru, _ | .fals, _ | .not _, _ | .and _, _ | .or _, _ | .loop .., _ | .exist _, _ | .notExist _, _ | .cmp .., _ => rfl
  theorem mVals_congr (X : Fns E) (C : Comp E) {env env' : Env} : ∀ (n : Nat) (ps : Exprs E), (∀ p ∈ pathsAll ps, env p = env' p) →
      mVals X C env n ps = mVals X C env' n ps
    | 0, _, _ => by simp [mVals]
    | _ + 1, .nil, _ => by simp [mVals]
    | n + 1, .cons e r, h => by
      rw [mVals, mVals, mVal_congr X C e (fun p hp => h p (List.mem_append_left _ hp)),
        mVals_congr X C n r (fun p hp => h p (List.mem_append_right _ hp))]
end

theorem isGone_congr {env env' : Env} : ∀ e : Expr E, (∀ p ∈ paths e, env p = env' p) → isGone env e = isGone env' e
  | .field f, h => by rw [isGone, isGone, h f.path (by simp [paths])]
  | .func .., _ | .value _, _ | .regex _, _ | .pcre _, _ | .time _, _ | .tru, _ | .fals, _ | .not _, _ | .and _, _ | .or _, _ | .loop .., _
  | .exist _, _ | .notExist _, _ | .cmp .., _ => rfl

theorem multiHolds_congr (X : Fns E) (C : Comp E) {c : Cmp} {l r : Expr E} {env env' : Env} (h : ∀ p ∈ paths l ++ paths r, env p = env' p) :
    multiHolds X C c l r env = multiHolds X C c l r env' := by
  unfold multiHolds
  have h1 := fun p hp => h p (List.mem_append_left _ hp)
  have h2 := fun p hp => h p (List.mem_append_right _ hp)
  rw [isGone_congr l h1, isGone_congr r h2, mVal_congr X C l h1, mVal_congr X C r h2]

theorem afterVal_some {f : D → Bool} {x : D} (h : ¬ EmptyArr x) : afterVal f x = some (f x) := by
  unfold afterVal
  split
  · exact absurd trivial h
  · rfl

/-- Two fields one of which is missing are in no relation. -/
theorem multiHolds_gone {X : Fns E} {C : Comp E} {c : Cmp} {l r : Expr E} {env : Env} (hl : IsField l = true)
    (h : ∀ p ∈ paths l, env p = none) : multiHolds X C c l r env = false := by
  cases l with
  | field f => simp [multiHolds, isGone, h f.path (by simp [paths])]
  | _ => cases hl

theorem multiTop_once (X : Fns E) (C : Comp E) {c : Cmp} {l r : Expr E} {d : D} (hm : several l r = true) (ha : Loose (paths l ++ paths r))
    (h : Once l r d) : multiTop X C c l r d = pairHolds X C c l r d := by
  have hsp := splits_base hm ha
  have hbelow : ∀ p ∈ paths l ++ paths r, base l r <+: p ∧ p.drop (base l r).length ≠ [] := by
    intro p hp
    obtain ⟨k, p', rfl⟩ := hsp.1 p hp
    exact ⟨⟨_, rfl⟩, by rw [List.drop_left]; simp⟩
  have key : ∀ x, walk (base l r) d = [x] → ¬ EmptyArr x → multiTop X C c l r d = pairHolds X C c l r d := by
    intro x hx hne
    have henv : ∀ p ∈ paths l ++ paths r, envAt (base l r) x p = docEnv d p := by
      intro p hp
      unfold envAt docEnv
      rw [walk_below (hbelow p hp).1 d, hx]
      simp
    unfold multiTop pairHolds
    rw [hx, List.findSome?_cons, afterVal_some hne, multiHolds_congr X C henv]
    by_cases hc : c = .ne <;> simp [hc]
  rcases h with ⟨x, hx, hne⟩ | ⟨hl, hr, hlen⟩
  · exact key x hx hne
  · have hgone : (∀ p ∈ paths l ++ paths r, docEnv d p = none) → pairHolds X C c l r d = decide (c = .ne) := by
      intro hg
      unfold pairHolds
      rw [multiHolds_gone hl (fun p hp => hg p (List.mem_append_left _ hp)), multiHolds_gone hl (fun p hp => hg p (List.mem_append_left _ hp))]
      by_cases hc : c = .ne <;> simp [hc]
    match hw : walk (base l r) d, hlen with
    | [], _ =>
      rw [hgone (fun p hp => by rw [docEnv, walk_below (hbelow p hp).1 d, hw]; rfl)]
      unfold multiTop
      rw [hw]
      by_cases hc : c = .ne <;> simp [hc]
    | [x], _ =>
      by_cases hne : EmptyArr x
      · rw [hgone (fun p hp => by
          rw [docEnv, walk_below (hbelow p hp).1 d, hw, List.flatMap_cons, walk_emptyArr hne (hbelow p hp).2]; rfl)]
        unfold multiTop
        have : ∀ f : D → Bool, afterVal f x = none := by
          intro f
          cases x with
          | arr ws es => cases es with
            | nil => rfl
            | cons _ _ _ _ => exact hne.elim
          | _ => exact hne.elim
        rw [hw, List.findSome?_cons, this]
        by_cases hc : c = .ne <;> simp [hc]
      · exact key x hw hne
    | _ :: _ :: _, h => simp at h

mutual
  theorem inner2_loopFree : ∀ (e : Expr E) (d : D), LoopFree e → Inner2 e d
    | .not e, d, h => inner2_loopFree e d h
    | .and es, d, h => inner2All_loopFree es d h
    | .or es, d, h => inner2All_loopFree es d h
    | .loop .., d, h => by simp [LoopFree] at h
    | .cmp .., d, _ | .exist _, d, _ | .notExist _, d, _
    | .tru, d, _ | .fals, d, _ | .value _, d, _ | .regex _, d, _ | .pcre _, d, _ | .time _, d, _ | .field _, d, _
    | .func .., d, _ => by simp [Inner2]
  theorem inner2All_loopFree : ∀ (es : Exprs E) (d : D), LoopFrees es → Inner2All es d
    | .nil, _, _ => trivial
    | .cons e r, d, h => ⟨inner2_loopFree e d h.1, inner2All_loopFree r d h.2⟩
end

mutual
  theorem top2_truth (X : Fns E) (C : Comp E) : ∀ (e : Expr E) (d : D), Frag2 C e → LoopFree e → OnceE e d → top2 X C e d = truth2 X C e d
    | .cmp c l r, d, hf, _, ho => by
      rw [Frag2] at hf
      rw [top2, truth2]
      by_cases hm : several l r = true
      · rw [if_pos hm] at hf; rw [if_pos hm, if_pos hm]; exact multiTop_once X C hm hf.2.2 (ho hm)
      · rw [if_neg hm, if_neg hm]; exact top_loopFree X C _ d (by simp [LoopFree])
    | .not e, d, hf, h, ho => by rw [Frag2] at hf; rw [top2, truth2, top2_truth X C e d hf h ho]
    | .and es, d, hf, h, ho => by rw [Frag2] at hf; rw [top2, truth2, (top2All_truth X C es d hf h ho).1]
    | .or es, d, hf, h, ho => by rw [Frag2] at hf; rw [top2, truth2, (top2All_truth X C es d hf h ho).2]
    | .exist e, d, _, h, _ | .notExist e, d, _, h, _ => by simp only [top2, truth2]; exact top_loopFree X C _ d h
    | .loop .., d, _, h, _ => by simp [LoopFree] at h
    | .tru, d, _, h, _ | .fals, d, _, h, _ => by simp only [top2, truth2]; exact top_loopFree X C _ d h
    | .value _, d, h, _, _ | .regex _, d, h, _, _ | .pcre _, d, h, _, _ | .time _, d, h, _, _
    | .field _, d, h, _, _ | .func .., d, h, _, _ => by simp [Frag2] at h
  theorem top2All_truth (X : Fns E) (C : Comp E) : ∀ (es : Exprs E) (d : D), Frag2s C es → LoopFrees es → OnceEs es d →
      top2All X C es d = truth2All X C es d ∧ top2Any X C es d = truth2Any X C es d
    | .nil, d, h, _, _ => by simp [Frag2s] at h
    | .cons e .nil, d, hf, h, ho => by
      rw [Frag2s] at hf
      simp only [top2All, truth2All, top2Any, truth2Any, top2_truth X C e d hf h.1 ho.1, and_self]
    | .cons e (.cons e' r), d, hf, h, ho => by
      rw [Frag2s] at hf
      obtain ⟨a, b⟩ := top2All_truth X C (.cons e' r) d hf.2 h.2 ho.2
      rw [top2All, truth2All, top2Any, truth2Any, a, b, top2_truth X C e d hf.1 h.1 ho.1]
      exact ⟨rfl, rfl⟩
end

/-! ### C62 -/

/-- C62 for combinations of conditions and comparisons of several fields.  (Missing: scalar documents, empty arrays as values and
fields that contain others, for which it is false, see `C62_negation`, `C62_empty_arrays`, `C32_two_fields`; loops.) -/
theorem C62_match_partial (X : Fns E) (C : Comp E) (slot0 : Nat) {es : List (Expr E)} {g : Expr E} {gs : List (Expr E)} (hg : genExprs es = g :: gs)
    (hfrag : ∀ x ∈ g :: gs, Frag2 C x) (hsafe : ∀ x ∈ g :: gs, SafeE x) (hlf : ∀ x ∈ g :: gs, LoopFree x)
    {data : List Nat} {r : D} (hr : Begins data r) (hd : ∀ ty w, r ≠ .lit ty w) (hreg : RegularAt (mCondsOf (g :: gs)) r)
    (ho : ∀ x ∈ g :: gs, OnceE x r) :
    ∃ df, transform C slot0 es = .ok df ∧ ∀ m, Ready df m →
      ∃ m', run X df m data = .ok (some ((g :: gs).any (fun x => truth2 X C x r)), m') := by
  obtain ⟨df, h1, h2⟩ := run_multi X (slot0 := slot0) hg hfrag hsafe hr ⟨hd, hreg, fun x hx => inner2_loopFree x r (hlf x hx)⟩
  refine ⟨df, h1, fun m hm => ?_⟩
  have : (g :: gs).any (fun x => truth2 X C x r) = (g :: gs).any (fun x => top2 X C x r) := by
    rw [Bool.eq_iff_iff, List.any_eq_true, List.any_eq_true]
    constructor
    · rintro ⟨x, hx, h⟩; exact ⟨x, hx, by rw [top2_truth X C x r (hfrag x hx) (hlf x hx) (ho x hx)]; exact h⟩
    · rintro ⟨x, hx, h⟩; exact ⟨x, hx, by rw [← top2_truth X C x r (hfrag x hx) (hlf x hx) (ho x hx)]; exact h⟩
  rw [this]
  exact h2 m hm

theorem loose_two {p p' : Path} (h : ¬ p <+: p') (h' : ¬ p' <+: p) : Loose [p, p'] := by
  intro a ha
  rcases List.mem_cons.1 ha with rfl | ha
  · exact ⟨p', by simp, h⟩
  · rw [List.mem_singleton] at ha
    subst ha
    exact ⟨p, by simp, h'⟩

/-- C62 for a comparison of two fields: if both have one value, the verdict is the comparison of the values; `!=` is the negation. -/
theorem C62_values_partial (X : Fns E) (C : Comp E) (slot0 : Nat) (c : Cmp) (p p' : Path) (h1 : ¬ p <+: p') (h2 : ¬ p' <+: p)
    {data : List Nat} {r : D} (hr : Begins data r) {u v : D} (hu : walk p r = [u]) (hv : walk p' r = [v])
    (hb : (walk (common p p') r).length ≤ 1) (ha : ¬ EmptyArr u) (hb' : ¬ EmptyArr v) {a b : FV E} (hva : valOf u = .ok a) (hvb : valOf v = .ok b) :
    ∃ df, transform C slot0 [.cmp c (.field ⟨0, p⟩) (.field ⟨0, p'⟩)] = .ok df ∧ ∀ m, Ready df m →
      ∃ m', run X df m data = .ok (some (if c = .ne then !cmpHolds .eq a b else cmpHolds c a b), m') := by
  have hne : p' ≠ p := fun h => h1 (h ▸ List.prefix_rfl)
  have hm : several (.field ⟨0, p⟩ : Expr E) (.field ⟨0, p'⟩) = true := by simp [several, paths, hne]
  have hbase : base (.field ⟨0, p⟩ : Expr E) (.field ⟨0, p'⟩) = common p p' := rfl
  have hpn : p ≠ [] := fun h => h1 (h ▸ List.nil_prefix)
  obtain ⟨df, t1, t2⟩ := C62_match_partial X C slot0 (es := [.cmp c (.field ⟨0, p⟩) (.field ⟨0, p'⟩)]) (g := .cmp c (.field ⟨0, p⟩) (.field ⟨0, p'⟩))
    (gs := []) rfl
    (fun x hx => by
      rw [List.mem_singleton.1 hx, Frag2, if_pos hm]
      exact ⟨rfl, rfl, loose_two h1 h2⟩)
    (fun x hx => by rw [List.mem_singleton.1 hx]; simp [SafeE, SafeParam])
    (fun x hx => by rw [List.mem_singleton.1 hx]; simp [LoopFree]) hr
    (fun ty w h => by
      subst h
      cases p with
      | nil => exact hpn rfl
      | cons k p => cases hu)
    (by
      have hc : mCondsOf [.cmp c (.field ⟨0, p⟩ : Expr E) (.field ⟨0, p'⟩)] = [(p, false), (p', false)] := by
        simp [mCondsOf, mConds, hm, paths]
      rw [hc]
      refine ⟨fun q hq x hx he => ?_, fun q hq x hx he k q' b' hk => ?_, fun q hq => ?_⟩
      · simp only [List.mem_cons, Prod.mk.injEq, and_true, List.not_mem_nil, or_false] at hq
        rcases hq with rfl | rfl
        · rw [hu, List.mem_singleton] at hx; exact absurd (hx ▸ he) ha
        · rw [hv, List.mem_singleton] at hx; exact absurd (hx ▸ he) hb'
      · simp only [List.mem_cons, Prod.mk.injEq, and_true, List.not_mem_nil, or_false] at hq hk
        have hpre : q <+: q ++ k :: q' := ⟨_, rfl⟩
        have hl : q ≠ q ++ k :: q' := fun h => by have := congrArg List.length h; simp at this
        rcases hq with rfl | rfl <;> rcases hk with ⟨hk, _⟩ | ⟨hk, _⟩
        · exact absurd hk.symm hl
        · exact absurd (hk ▸ hpre) h1
        · exact absurd (hk ▸ hpre) h2
        · exact absurd hk.symm hl
      · simp at hq)
    (fun x hx => by
      rw [List.mem_singleton.1 hx]
      exact fun _ => Or.inr ⟨rfl, rfl, by rw [hbase]; exact hb⟩)
  refine ⟨df, t1, fun m hmr => ?_⟩
  obtain ⟨m', t3⟩ := t2 m hmr
  refine ⟨m', ?_⟩
  rw [t3]
  have : ∀ c' : Cmp, multiHolds X C c' (.field ⟨0, p⟩ : Expr E) (.field ⟨0, p'⟩) (docEnv r) = cmpHolds c' a b := by
    intro c'
    simp [multiHolds, isGone, docEnv, hu, hv, lastOf, mVal, fieldVal, hva, hvb]
  simp [truth2, hm, pairHolds, this]

/-- C62 for a comparison of two fields one of which is missing. -/
theorem C62_missing_partial (X : Fns E) (C : Comp E) (slot0 : Nat) (c : Cmp) (p p' : Path) (h1 : ¬ p <+: p') (h2 : ¬ p' <+: p)
    {data : List Nat} {r : D} (hr : Begins data r) (hd : ∀ ty w, r ≠ .lit ty w) (hgone : walk p r = [] ∨ walk p' r = [])
    (hb : (walk (common p p') r).length ≤ 1) (ha : ∀ u ∈ walk p r ++ walk p' r, ¬ EmptyArr u) :
    ∃ df, transform C slot0 [.cmp c (.field ⟨0, p⟩) (.field ⟨0, p'⟩)] = .ok df ∧ ∀ m, Ready df m →
      ∃ m', run X df m data = .ok (some (decide (c = .ne)), m') := by
  have hne : p' ≠ p := fun h => h1 (h ▸ List.prefix_rfl)
  have hm : several (.field ⟨0, p⟩ : Expr E) (.field ⟨0, p'⟩) = true := by simp [several, paths, hne]
  have hbase : base (.field ⟨0, p⟩ : Expr E) (.field ⟨0, p'⟩) = common p p' := rfl
  obtain ⟨df, t1, t2⟩ := C62_match_partial X C slot0 (es := [.cmp c (.field ⟨0, p⟩) (.field ⟨0, p'⟩)]) (g := .cmp c (.field ⟨0, p⟩) (.field ⟨0, p'⟩))
    (gs := []) rfl
    (fun x hx => by
      rw [List.mem_singleton.1 hx, Frag2, if_pos hm]
      exact ⟨rfl, rfl, loose_two h1 h2⟩)
    (fun x hx => by rw [List.mem_singleton.1 hx]; simp [SafeE, SafeParam])
    (fun x hx => by rw [List.mem_singleton.1 hx]; simp [LoopFree]) hr hd
    (by
      have hc : mCondsOf [.cmp c (.field ⟨0, p⟩ : Expr E) (.field ⟨0, p'⟩)] = [(p, false), (p', false)] := by
        simp [mCondsOf, mConds, hm, paths]
      rw [hc]
      refine ⟨fun q hq x hx he => ?_, fun q hq x hx he k q' b' hk => ?_, fun q hq => ?_⟩
      · simp only [List.mem_cons, Prod.mk.injEq, and_true, List.not_mem_nil, or_false] at hq
        rcases hq with rfl | rfl
        · exact absurd he (ha x (List.mem_append_left _ hx))
        · exact absurd he (ha x (List.mem_append_right _ hx))
      · simp only [List.mem_cons, Prod.mk.injEq, and_true, List.not_mem_nil, or_false] at hq hk
        have hpre : q <+: q ++ k :: q' := ⟨_, rfl⟩
        have hl : q ≠ q ++ k :: q' := fun h => by have := congrArg List.length h; simp at this
        rcases hq with rfl | rfl <;> rcases hk with ⟨hk, _⟩ | ⟨hk, _⟩
        · exact absurd hk.symm hl
        · exact absurd (hk ▸ hpre) h1
        · exact absurd (hk ▸ hpre) h2
        · exact absurd hk.symm hl
      · simp at hq)
    (fun x hx => by
      rw [List.mem_singleton.1 hx]
      exact fun _ => Or.inr ⟨rfl, rfl, by rw [hbase]; exact hb⟩)
  refine ⟨df, t1, fun m hmr => ?_⟩
  obtain ⟨m', t3⟩ := t2 m hmr
  refine ⟨m', ?_⟩
  rw [t3]
  have : ∀ c' : Cmp, multiHolds X C c' (.field ⟨0, p⟩ : Expr E) (.field ⟨0, p'⟩) (docEnv r) = false := by
    intro c'
    rcases hgone with h | h <;> simp [multiHolds, isGone, docEnv, h, lastOf]
  by_cases hc : c = .ne <;> simp [truth2, hm, pairHolds, this, hc]

/-! ### C32, C38, C49 for comparisons of several fields -/

/-- C32 for the fragment with comparisons of several fields.  (Missing: fields that contain all others, see `C32_two_fields`; variables of
outer loops, several fields in loops.) -/
theorem C32_several_partial (C : Comp E) (slot0 : Nat) (es : List (Expr E)) (h : ∀ x ∈ genExprs es, Frag2 C x) :
    ∃ df, transform C slot0 es = .ok df := by
  cases hg : genExprs es with
  | nil => exact ⟨_, by rw [transform, hg]⟩
  | cons g gs =>
    obtain ⟨df, _, h1, _⟩ := transform_multi C slot0 es hg (by rw [← hg]; exact h)
    exact ⟨df, h1⟩

/-- C38 for expressions with comparisons of several fields and texts of documents. -/
theorem C38_several_partial (X : Fns E) (C : Comp E) (slot0 : Nat) {es : List (Expr E)} {g : Expr E} {gs : List (Expr E)}
    (hg : genExprs es = g :: gs) (hfrag : ∀ x ∈ g :: gs, Frag2 C x) (hsafe : ∀ x ∈ g :: gs, SafeE x)
    {data : List Nat} {r : D} (hr : Begins data r) :
    ∃ df, transform C slot0 es = .ok df ∧ ∀ m, Used X df m → ∃ b m', run X df (resetMatcher m) data = .ok (some b, m') := by
  obtain ⟨df, n, h1, hw, _, hs, _⟩ := transform_multi C slot0 es hg hfrag
  exact ⟨df, h1, fun m hm => C38_documents_partial X hw (hs hsafe) hr hm⟩

theorem each2_correct {X : Fns E} {C : Comp E} {sh : Nat → Sh} {r : D} {ρ : Path → Nat} : ∀ (es : List (Expr E)) (e : Expr E) (b : Nat) (n : Exec E)
    (l : Marks), (∀ x ∈ e :: es, Frag2 C x) → ShOK sh (shapes .neor (.ofList (e :: es))) b → (∀ x ∈ e :: es, Inner2 x r) →
    (∀ p ∈ storedAll (.ofList (e :: es)), ∃ s, (p, Note.slot s) ∈ notes n) →
    Hosts n (mItemsAll C ρ (.ofList (e :: es)) b) b (shapes .neor (.ofList (e :: es))).size → Ran2 X sh r ρ n l →
    ∀ (j : Nat) (x : Expr E), (e :: es)[j]? = some x →
      ∃ p, (mergeParts (shape e) (es.map shape) b)[j]? = some (shape x, p) ∧ (shape x).evalM p l.get = top2 X C x r
  | [], e, b, n, l, h, hsh, hi, hst, hh, hr, j, x, hj => by
    cases j with
    | succ j => simp at hj
    | zero =>
      simp only [List.getElem?_cons_zero, Option.some.injEq] at hj
      subst hj
      simp only [Exprs.ofList, shapes, mItemsAll, storedAll, List.append_nil] at hsh hh hst
      exact ⟨b, rfl, sem2_correct e b n l (h e (by simp)) hsh (hi e (by simp)) hst hh hr⟩
  | e' :: es, e, b, n, l, h, hsh, hi, hst, hh, hr, j, x, hj => by
    have hfr := frag2s_of_list e' es (fun x hx => h x (List.mem_cons_of_mem _ hx))
    rw [Exprs.ofList, storedAll] at hst
    simp only [Exprs.ofList] at hfr
    simp only [Exprs.ofList, shapes, mItemsAll, Sh.size] at hsh hh
    have w1 := mItems_within C ρ e (b + 1) (h e (by simp))
    have w2 := mItemsAll_within C ρ (.cons e' (.ofList es)) .neor (b + 1 + (shape e).size) hfr
    cases j with
    | zero =>
      simp only [List.getElem?_cons_zero, Option.some.injEq] at hj
      subst hj
      exact ⟨b + 1, rfl, sem2_correct e (b + 1) n l (h e (by simp)) (fun s' i hs => hsh s' i (Or.inr (Or.inl hs))) (hi e (by simp))
        (fun p hp => hst p (List.mem_append_left _ hp)) (hh.left w2 (by omega) (by omega) (by omega)) hr⟩
    | succ j =>
      simp only [List.getElem?_cons_succ] at hj
      obtain ⟨p, p1, p2⟩ := each2_correct es e' (b + 1 + (shape e).size) n l (fun x hx => h x (List.mem_cons_of_mem _ hx))
        (fun s' i hs => hsh s' i (Or.inr (Or.inr hs))) (fun x hx => hi x (List.mem_cons_of_mem _ hx))
        (fun p hp => hst p (List.mem_append_right _ hp))
        (hh.right w1 (by omega) (by simp only [Exprs.ofList]; omega) (by omega)) hr j x hj
      exact ⟨p, by simpa [mergeParts] using p1, p2⟩

/-- C49 for the fragment with comparisons of several fields.  (Missing: scalar documents, loops over elements with several fields.) -/
theorem C49_several_partial (X : Fns E) (C : Comp E) (slot0 : Nat) {es : List (Expr E)} {g : Expr E} {gs : List (Expr E)} (hg : genExprs es = g :: gs)
    (hfrag : ∀ x ∈ g :: gs, Frag2 C x) (hsafe : ∀ x ∈ g :: gs, SafeE x)
    {data : List Nat} {r : D} (hr : Begins data r) (hreg : Regular2 (g :: gs) r) :
    ∃ df, transform C slot0 es = .ok df ∧ ∀ m, Ready df m →
      ∃ b m', run X df m data = .ok (some b, m') ∧
        ∀ (i : Nat) (e : Expr E), es[i]? = some e → NotConst e → expressionMatched df m' i = .ok (top2 X C e r) := by
  obtain ⟨df, n, h1, hw, hbk, hs, hran⟩ := transform_multi C slot0 es hg hfrag
  refine ⟨df, h1, fun m hm => ?_⟩
  obtain ⟨b, hb⟩ := verdict_ok X (shapes .neor (.ofList (g :: gs))) (hs hsafe) hr.wf
  unfold verdict at hb
  obtain ⟨l, hd, _⟩ := Res.bind_eq_ok.1 hb
  obtain ⟨ρ, r1, r2, r3⟩ := hran X r hreg _ l hd
  have heach := each2_correct (X := X) (ρ := ρ) gs g 0 n l hfrag (subtree_ok (shapes .neor (.ofList (g :: gs))) 0) hreg.inner r1 r2 r3
  rw [shapes_merge] at hw hd
  obtain ⟨m', e1, e2⟩ := run_each X hw hr hm hd
  refine ⟨_, m', e1, fun i e hi hn => ?_⟩
  have hlen : ((mergeParts (shape g) (gs.map shape) 0).map Prod.snd).length = (genExprs es).length := by
    rw [hg, List.length_map, mergeParts_length]; simp
  obtain ⟨j, p, j1, j2, j3⟩ := (bucketIds_at es _ hlen i e hi).2.2 hn
  rw [hg] at j1
  obtain ⟨p', p1, p2⟩ := heach j e j1
  rw [List.getElem?_map, p1] at j2
  cases j2
  have hv := e2 _ (List.mem_of_getElem? p1)
  simp only [p2] at hv
  rw [← hbk] at j3
  simp only [expressionMatched, Res.idx_of_some j3, Res.bind_ok, BinTree.isResolved, BinTree.isTrue, Int.toNat_natCast,
    Res.idx_of_some hv]
  rw [if_neg (by omega)]
  cases top2 X C e r <;> rfl

theorem allAt_nested {j : Nat} {k : List Nat} : ∀ ps : List Path, (∀ x ∈ ps, x.length = j ∨ x[j]? = some k) → (∃ x ∈ ps, x.length = j) →
    allAt j k ps = .panic
  | [], _, h => by obtain ⟨x, hx, _⟩ := h; cases hx
  | x :: ps, h, hex => by
    rw [allAt]
    rcases h x (by simp) with hl | hk
    · rw [if_neg (by omega), Res.idx, List.getElem?_eq_none (by omega)]; rfl
    · have hlt : j < x.length := by
        apply Classical.byContradiction
        intro hn
        rw [List.getElem?_eq_none (by omega)] at hk; cases hk
      rw [if_neg (by omega), Res.idx_of_some hk, Res.bind_ok, if_neg (by simp)]
      refine allAt_nested ps (fun y hy => h y (List.mem_cons_of_mem _ hy)) ?_
      obtain ⟨y, hy, hyl⟩ := hex
      rcases List.mem_cons.1 hy with rfl | hy
      · omega
      · exact ⟨y, hy, hyl⟩

theorem commonPath_nested {p s : Path} {k : List Nat} {ps : List Path} (hps : ∀ x ∈ ps, x = p ∨ x = p ++ k :: s) (hp : p ∈ ps) :
    ∀ (b a : Path), p = a ++ b → commonPath ps a.length (b ++ k :: s) = .panic
  | [], a, ha => by
    rw [List.append_nil] at ha
    subst ha
    rw [List.nil_append, commonPath, allAt_nested ps (fun x hx => ?_) ⟨p, hp, rfl⟩]
    · rfl
    · rcases hps x hx with rfl | rfl
      · exact Or.inl rfl
      · right; simp
  | k' :: b, a, ha => by
    rw [List.cons_append, commonPath, allAt_true ps, Res.bind_ok]
    · have := commonPath_nested hps hp b (a ++ [k']) (by rw [ha]; simp)
      rw [List.length_append, List.length_singleton] at this
      simp only [this, if_pos, Res.bind_panic]
    · intro x hx
      rcases hps x hx with rfl | rfl <;> simp [ha]

theorem pickBase_nested {C : Comp E} {t : T E} (hc : t.ctx = []) (c : Cmp) {a b : Path} {p s : Path} {k : List Nat}
    (h : (a = p ∧ b = p ++ k :: s) ∨ (a = p ++ k :: s ∧ b = p)) : pickBase t (.cmp c (.field ⟨0, a⟩) (.field ⟨0, b⟩) : Expr E) = .panic := by
  have hne : p ≠ p ++ k :: s := fun h => by have := congrArg List.length h; simp at this
  have hcur : currentContext t = none := by simp [currentContext, hc]
  have key : findBestRoot t [⟨none, a⟩, ⟨none, b⟩] = .panic := by
    have hl : longest a [b] = p ++ k :: s := by rcases h with ⟨rfl, rfl⟩ | ⟨rfl, rfl⟩ <;> simp [longest]
    have := commonPath_nested (ps := [a, b]) (p := p) (s := s) (k := k) (by rcases h with ⟨rfl, rfl⟩ | ⟨rfl, rfl⟩ <;> simp)
      (by rcases h with ⟨rfl, rfl⟩ | ⟨rfl, rfl⟩ <;> simp) p [] rfl
    rw [List.length_nil] at this
    simp only [findBestRoot, hcur]
    simp [hl, this]
  have hfs : fieldRefs (.cmp c (.field ⟨0, a⟩) (.field ⟨0, b⟩) : Expr E) = .ok [⟨0, a⟩, ⟨0, b⟩] := by
    have hab : (⟨0, a⟩ : Field) ≠ ⟨0, b⟩ := by
      rintro h'
      have h' := congrArg Field.path h'
      rcases h with ⟨rfl, rfl⟩ | ⟨rfl, rfl⟩
      · exact hne h'
      · exact hne h'.symm
    simp [fieldRefs, fetch, addField, Ne.symm hab]
  rw [pickBase, hfs, Res.bind_ok, resolveRefs_root _ (by simp), Res.bind_ok]
  simp [key]

/-- C32 for a comparison of two fields, exactly: compilation succeeds unless one contains the other; then it panics
(findFieldRefsBestRoot reads past the end of the shorter path). -/
theorem C32_two_fields (C : Comp E) (slot0 : Nat) (c : Cmp) (p p' : Path) :
    ((∃ df, transform C slot0 [.cmp c (.field ⟨0, p⟩) (.field ⟨0, p'⟩)] = .ok df) ↔ (p <+: p' ∨ p' <+: p → p = p')) ∧
    ((p <+: p' ∨ p' <+: p) ∧ p ≠ p' → transform C slot0 [.cmp c (.field ⟨0, p⟩) (.field ⟨0, p'⟩)] = .panic) := by
  have hbad : (p <+: p' ∨ p' <+: p) → p ≠ p' → transform C slot0 [.cmp c (.field ⟨0, p⟩) (.field ⟨0, p'⟩)] = .panic := by
    intro h hne
    have : ∃ q s k, (p = q ∧ p' = q ++ k :: s) ∨ (p = q ++ k :: s ∧ p' = q) := by
      rcases h with ⟨t, ht⟩ | ⟨t, ht⟩
      · cases t with
        | nil => rw [List.append_nil] at ht; exact absurd ht hne
        | cons k s => exact ⟨p, s, k, Or.inl ⟨rfl, ht.symm⟩⟩
      · cases t with
        | nil => rw [List.append_nil] at ht; exact absurd ht.symm hne
        | cons k s => exact ⟨p', s, k, Or.inr ⟨ht.symm, rfl⟩⟩
    obtain ⟨q, s, k, h⟩ := this
    rw [transform_cons C slot0 _ (g := .cmp c (.field ⟨0, p⟩) (.field ⟨0, p'⟩)) (gs := []) rfl, tMerge, tOne]
    by_cases hc : c = .ne
    · rw [if_pos hc]
      have : tNot (tCompare C (.cmp .eq (.field ⟨0, p⟩) (.field ⟨0, p'⟩)) .equals (.field ⟨0, p⟩) (.field ⟨0, p'⟩)) (initT slot0) =
          tCompare C (.cmp .eq (.field ⟨0, p⟩) (.field ⟨0, p'⟩)) .equals (.field ⟨0, p⟩) (.field ⟨0, p'⟩)
            { (initT slot0 : T E) with bucketIdx := 2, tree := [⟨.not, 0, 1, 0⟩, ⟨.leaf, 0, 0, 0⟩], active := 1 } := rfl
      rw [this, tCompare, pickBase_nested (C := C) rfl .eq h]
      rfl
    · rw [if_neg hc, tCompare, pickBase_nested (C := C) rfl c h]; rfl
  refine ⟨⟨fun ⟨df, h⟩ hp => ?_, fun h => ?_⟩, fun h => hbad h.1 h.2⟩
  · apply Classical.byContradiction
    intro hne
    rw [hbad hp hne] at h; cases h
  · refine C32_several_partial C slot0 _ (fun x hx => ?_)
    rw [List.mem_singleton.1 (show x ∈ [_] from hx), Frag2]
    by_cases hm : several (.field ⟨0, p⟩ : Expr E) (.field ⟨0, p'⟩) = true
    · rw [if_pos hm]
      have hne : p ≠ p' := by
        rintro rfl
        simp [several, paths] at hm
      exact ⟨rfl, rfl, loose_two (fun hp => hne (h (Or.inl hp))) (fun hp => hne (h (Or.inr hp)))⟩
    · rw [if_neg hm]
      have : p' = p := by simpa [several, paths] using hm
      subst this
      simp [Frag, Param, condPath, fieldPath]

/-! ### Where it fails -/

/-- Compile and run. -/
def verdictOf (e : Expr demoExt) (data : List Nat) : Res (Option Bool) :=
  transform demoComp 0 [e] >>= fun df => run demoFns df (newMatcher df) data >>= fun r => Res.ok r.1

/-- C62 as stated is false: `a = b` matches the document `5`, and `a != b` does not; the operation of the root runs on a scalar document,
where an empty slot is read as the document itself (fastMatcher.go: `literalFromSlot` of an unset slot). -/
theorem C62_negation : verdictOf (.cmp .eq fieldA fieldB) [53] = .ok (some true) ∧ verdictOf (.cmp .ne fieldA fieldB) [53] = .ok (some false) := by
  decide +kernel

/-- `a = b` does not match `{"a":[],"b":[]}`, but matches `{"a":[1],"b":[1]}`: empty arrays are not stored. -/
theorem C62_empty_arrays :
    verdictOf (.cmp .eq fieldA fieldB) [123, 34, 97, 34, 58, 91, 93, 44, 34, 98, 34, 58, 91, 93, 125] = .ok (some false) ∧
    verdictOf (.cmp .eq fieldA fieldB) [123, 34, 97, 34, 58, 91, 49, 93, 44, 34, 98, 34, 58, 91, 49, 93, 125] = .ok (some true) := by
  decide +kernel

/-- With a repeated key `a = 1` is about the first value and `a = b` about the last: `{"a":1,"a":2,"b":1}` matches the former but not the
latter. -/
theorem C62_repeated_keys :
    verdictOf (.cmp .eq fieldA one) [123, 34, 97, 34, 58, 49, 44, 34, 97, 34, 58, 50, 44, 34, 98, 34, 58, 49, 125] = .ok (some true) ∧
    verdictOf (.cmp .eq fieldB one) [123, 34, 97, 34, 58, 49, 44, 34, 97, 34, 58, 50, 44, 34, 98, 34, 58, 49, 125] = .ok (some true) ∧
    verdictOf (.cmp .eq fieldA fieldB) [123, 34, 97, 34, 58, 49, 44, 34, 97, 34, 58, 50, 44, 34, 98, 34, 58, 49, 125] = .ok (some false) := by
  decide +kernel

/-! ### Examples -/

/-- `{"a":1,"b":1}` -/
def docAB1 : D := .obj [] (.cons .string [34, 97, 34] [] [] (.lit .integer [49]) [] []
  (.cons .string [34, 98, 34] [] [] (.lit .integer [49]) [] [] .nil))
def textAB1 : List Nat := [123, 34, 97, 34, 58, 49, 44, 34, 98, 34, 58, 49, 125]

theorem docAB1_text : Begins textAB1 docAB1 :=
  ⟨by simp [docAB1, D.WF, Ms.WF, Token.IsWs, text_a, text_b, text_1, Tok.isLiteral], [], [], by simp [Token.IsWs], trivial, rfl⟩

/-- `a + b` -/
def sumAB : Expr demoExt := .func [109, 97, 116, 104, 65, 100, 100] (.cons fieldA (.cons fieldB .nil))

/-- `a = b AND a + b >= 1`, and `a != b`. -/
def demoPairs : List (Expr demoExt) :=
  [.and (.cons (.cmp .eq fieldA fieldB) (.cons (.cmp .ge sumAB one) .nil)), .cmp .ne fieldA fieldB]

theorem loose_ab : Loose [([[97]] : Path), [[98]]] := loose_two (by decide) (by decide)

theorem demoPairs_frag : ∀ x ∈ demoPairs, Frag2 demoComp x ∧ SafeE x ∧ LoopFree x ∧ ∀ ms, OnceE x (.obj [] ms) := by
  intro x hx
  have h1 : several fieldA fieldB = true := by decide
  have h2 : several sumAB one = true := by decide
  have ho : ∀ l r : Expr demoExt, base l r = [] → ∀ ms, Once l r (.obj [] ms) := fun l r h ms => Or.inl ⟨.obj [] ms, by rw [h, walk], fun h => h⟩
  simp only [demoPairs, List.mem_cons, List.not_mem_nil, or_false] at hx
  rcases hx with rfl | rfl
  · refine ⟨?_, ?_, ?_, ?_⟩
    · simp only [Frag2, Frag2s, h1, h2, if_pos]
      exact ⟨⟨rfl, rfl, loose_ab⟩, ⟨⟨rfl, rfl, trivial⟩, trivial, loose_ab⟩⟩
    · simp [SafeE, SafeEs, SafeParam, SafeParams, sumAB, fieldA, fieldB, one, show fnameOf [109, 97, 116, 104, 65, 100, 100] = .add from by decide, FName.arity]
    · simp [LoopFree, LoopFrees]
    · exact fun ms => ⟨fun _ => ho _ _ rfl ms, fun _ => ho _ _ rfl ms, trivial⟩
  · refine ⟨?_, ?_, ?_, ?_⟩
    · simp only [Frag2, h1, if_pos]
      exact ⟨rfl, rfl, loose_ab⟩
    · simp [SafeE, SafeParam, fieldA, fieldB]
    · simp [LoopFree]
    · exact fun ms _ => ho _ _ rfl ms

/-- `C62_match_partial` on a document that matches and one that does not. -/
example : ∃ df, transform demoComp 0 demoPairs = .ok df ∧ ∀ m, Ready df m → ∃ m', run demoFns df m textAB1 = .ok (some true, m') := by
  obtain ⟨df, h1, h2⟩ := C62_match_partial demoFns demoComp 0 (es := demoPairs) rfl (fun x hx => (demoPairs_frag x hx).1)
    (fun x hx => (demoPairs_frag x hx).2.1) (fun x hx => (demoPairs_frag x hx).2.2.1) docAB1_text (by intro ty w h; cases h)
    (regular_of_check (by decide)) (fun x hx => (demoPairs_frag x hx).2.2.2 _)
  have : demoPairs.any (fun x => truth2 demoFns demoComp x docAB1) = true := by decide +kernel
  exact ⟨df, h1, fun m hm => by obtain ⟨m', h⟩ := h2 m hm; exact ⟨m', by rw [h]; exact congrArg (fun b => Res.ok (some b, m')) this⟩⟩

/-- `C62_values_partial` -/
example : ∃ df, transform demoComp 0 [.cmp .lt fieldA fieldB] = .ok df ∧ ∀ m, Ready df m →
    ∃ m', run demoFns df m textAB1 = .ok (some false, m') :=
  C62_values_partial demoFns demoComp 0 .lt [[97]] [[98]] (by decide) (by decide) docAB1_text (u := .lit .integer [49]) (v := .lit .integer [49])
    rfl rfl (by decide) (fun h => h) (fun h => h) (a := ⟨.int 1#64, false⟩) (b := ⟨.int 1#64, false⟩) (by rfl) (by rfl)

/-- `C62_missing_partial` -/
example : ∃ df, transform demoComp 0 [.cmp .ne fieldA fieldB] = .ok df ∧ ∀ m, Ready df m →
    ∃ m', run demoFns df m demoDoc = .ok (some true, m') :=
  C62_missing_partial demoFns demoComp 0 .ne [[97]] [[98]] (by decide) (by decide) docA1_text (by intro ty w h; cases h) (Or.inr rfl) (by decide)
    (by
      intro u hu
      rw [List.mem_singleton.1 (show u ∈ [D.lit .integer [49]] from hu)]; exact fun h => h)

example : ∃ df, transform demoComp 0 demoPairs = .ok df ∧ ∀ m, Used demoFns df m →
    ∃ b m', run demoFns df (resetMatcher m) textAE = .ok (some b, m') :=
  C38_several_partial demoFns demoComp 0 rfl (fun x hx => (demoPairs_frag x hx).1) (fun x hx => (demoPairs_frag x hx).2.1) docAE_text

example : ∃ df, transform demoComp 0 (.tru :: demoPairs) = .ok df ∧ ∀ m, Ready df m →
    ∃ b m', run demoFns df m textAB1 = .ok (some b, m') ∧
      ∀ (i : Nat) (e : Expr demoExt), (.tru :: demoPairs)[i]? = some e → NotConst e →
        expressionMatched df m' i = .ok (top2 demoFns demoComp e docAB1) :=
  C49_several_partial demoFns demoComp 0 (es := .tru :: demoPairs) rfl (fun x hx => (demoPairs_frag x hx).1) (fun x hx => (demoPairs_frag x hx).2.1)
    docAB1_text ⟨(by intro ty w h; cases h), regular_of_check (by decide), fun x hx => inner2_loopFree x _ (demoPairs_frag x hx).2.2.1⟩

end Verif.Transform
