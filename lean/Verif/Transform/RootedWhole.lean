import Verif.Transform.MultiWhole

/-!
# C76: loops that refer to the document, from text to verdict

`ANY v IN a SATISFIES v = b END`, where `b` is a field of the document: the loop is executed after the document's other parts, with the
array and the fields in slots.
-/

namespace Verif.Transform
open Verif.FastVal Verif.Match Verif.Expr
open Verif.Token (D Es Ms Tok)
open Verif.BinTree (Sh K UnOp BinOp mergeSh mergeParts Shaped)

variable {E : Ext}

/-! ### Specification: truth on a document -/

/-- A loop over an array of the document, whose body is about the element and fields of the document. -/
def loopHolds (X : Fns E) (C : Comp E) (m : Mode) (i s : Expr E) (d : D) : Bool :=
  match docEnv d (inPath i) with
  | some (.arr _ es) => Mode.holds m (fun y => decide (rsem X C (docEnv d) s y = some true)) (esList es)
  | _ => false

mutual
  /-- As `truth2`, with loops that refer to the document. -/
  def truth3 (X : Fns E) (C : Comp E) : Expr E → D → Bool
    | .cmp c l r, d => truth2 X C (.cmp c l r) d
    | .not e, d => !truth3 X C e d
    | .and es, d => truth3All X C es d
    | .or es, d => truth3Any X C es d
    | .loop m w i s, d => if rooted s then loopHolds X C m i s d else truth2 X C (.loop m w i s) d
    | e, d => truth2 X C e d
  def truth3All (X : Fns E) (C : Comp E) : Exprs E → D → Bool
    | .nil, _ => true
    | .cons e r, d => truth3 X C e d && truth3All X C r d
  def truth3Any (X : Fns E) (C : Comp E) : Exprs E → D → Bool
    | .nil, _ => false
    | .cons e r, d => truth3 X C e d || truth3Any X C r d
end

/-- The array is there, in the same part of the document as the fields, and its elements are regular. -/
def OnceRooted (i s : Expr E) (d : D) : Prop :=
  (walk (loopBase i s) d).length ≤ 1 ∧ ∃ ws es, walk (inPath i) d = [.arr ws es] ∧ ∀ y ∈ esList es, RegularAt (rConds s) y ∧ RInner s y

mutual
  /-- `Once` for all comparisons of several fields, `OnceRooted` for all loops; all loops refer to the document. -/
  def Once3 : Expr E → D → Prop
    | .cmp _ l r, d => several l r = true → Once l r d
    | .not e, d => Once3 e d
    | .and es, d => Once3s es d
    | .or es, d => Once3s es d
    | .loop _ _ i s, d => rooted s = true ∧ OnceRooted i s d
    | _, _ => True
  def Once3s : Exprs E → D → Prop
    | .nil, _ => True
    | .cons e r, d => Once3 e d ∧ Once3s r d
end

/-! ### The verdict is the truth -/

mutual
  theorem rVal_congr (X : Fns E) (C : Comp E) {env env' : Env} (x : FV E) : ∀ e : Expr E, (∀ p ∈ rootPaths e, env p = env' p) →
      rVal X C env x e = rVal X C env' x e
    | .field f, h => by
      rw [rVal, rVal]
      by_cases h0 : f.root = 0
      · rw [if_pos h0, if_pos h0, h f.path (by simp [rootPaths, h0])]
      · rw [if_neg h0, if_neg h0]
    | .func n ps, h => by rw [rVal, rVal, rVals_congr X C x _ ps h]
    | .value _, _ => rfl
    | .regex g, _ => by cases g with
      | json j => cases j <;> rfl
      | _ => rfl
    | .pcre g, _ => by cases g with
      | json j => cases j <;> rfl
      | _ => rfl
    | .time g, _ => by cases g with
      | json j => cases j <;> rfl
      | _ => rfl
    | .tru, _ | .fals, _ | .not _, _ | .and _, _ | .or _, _ | .loop .., _ | .exist _, _ | .notExist _, _ | .cmp .., _ => rfl
  theorem rVals_congr (X : Fns E) (C : Comp E) {env env' : Env} (x : FV E) : ∀ (n : Nat) (ps : Exprs E), (∀ p ∈ rootPathsAll ps, env p = env' p) →
      rVals X C env x n ps = rVals X C env' x n ps
    | 0, _, _ => by simp [rVals]
    | _ + 1, .nil, _ => by simp [rVals]
    | n + 1, .cons e r, h => by
      rw [rVals, rVals, rVal_congr X C x e (fun p hp => h p (List.mem_append_left _ hp)),
        rVals_congr X C x n r (fun p hp => h p (List.mem_append_right _ hp))]
end

theorem rGone_congr {env env' : Env} (e : Expr E) (h : ∀ p ∈ rootPaths e, env p = env' p) : rGone env e = rGone env' e := by
  cases e with
  | field f =>
    rw [rGone, rGone]
    by_cases h0 : f.root = 0
    · rw [h f.path (by simp [rootPaths, h0])]
    · simp [h0]
  | _ => rfl

theorem rHolds_congr (X : Fns E) (C : Comp E) {env env' : Env} {c : Cmp} {l r : Expr E} (h : ∀ p ∈ rootPaths l ++ rootPaths r, env p = env' p) :
    rHolds X C env c l r = rHolds X C env' c l r := by
  have h1 := fun p hp => h p (List.mem_append_left _ hp)
  have h2 := fun p hp => h p (List.mem_append_right _ hp)
  funext x
  unfold rHolds
  rw [rGone_congr l h1, rGone_congr r h2]
  simp only [fun v => rVal_congr X C v l h1, fun v => rVal_congr X C v r h2]

mutual
  theorem rsem_congr (X : Fns E) (C : Comp E) {env env' : Env} : ∀ (s : Expr E) (d : D), (∀ p ∈ rPaths s, env p = env' p) →
      rsem X C env s d = rsem X C env' s d
    | .cmp c l r, d, h => by rw [rsem, rsem, rHolds_congr X C h]
    | .not e, d, h => by rw [rsem, rsem, rsem_congr X C e d h]
    | .and es, d, h => by rw [rsem, rsem, (rsemAll_congr X C es d h).1]
    | .or es, d, h => by rw [rsem, rsem, (rsemAll_congr X C es d h).2]
    | .loop m w i s, d, h => by rw [rsem, rsem]; simp only [fun x => rsem_congr X C s x h]
    | .exist _, d, _ | .notExist _, d, _ | .tru, d, _ | .fals, d, _ | .value _, d, _ | .regex _, d, _ | .pcre _, d, _ | .time _, d, _
    | .field _, d, _ | .func .., d, _ => by simp only [rsem]
  theorem rsemAll_congr (X : Fns E) (C : Comp E) {env env' : Env} : ∀ (es : Exprs E) (d : D), (∀ p ∈ rPathsAll es, env p = env' p) →
      rsemAll X C env es d = rsemAll X C env' es d ∧ rsemAny X C env es d = rsemAny X C env' es d
    | .nil, d, _ => by simp only [rsemAll, rsemAny, and_self]
    | .cons e r, d, h => by
      obtain ⟨a, b⟩ := rsemAll_congr X C r d (fun p hp => h p (List.mem_append_right _ hp))
      rw [rsemAll, rsemAll, rsemAny, rsemAny, a, b, rsem_congr X C e d (fun p hp => h p (List.mem_append_left _ hp))]
      exact ⟨rfl, rfl⟩
end

theorem loopBase_once {i s : Expr E} {d x : D} (hl : Loose (inPath i :: rPaths s)) (hlen : (walk (loopBase i s) d).length ≤ 1)
    (h : walk (inPath i) d = [x]) : ∃ b, walk (loopBase i s) d = [b] ∧ ¬ EmptyArr b ∧
      ∀ p ∈ inPath i :: rPaths s, envAt (loopBase i s) b p = docEnv d p := by
  have hsp : Splits (loopBase i s) (inPath i :: rPaths s) := splits_of_loose (by simp) hl
  have hbelow : ∀ p ∈ inPath i :: rPaths s, loopBase i s <+: p ∧ p.drop (loopBase i s).length ≠ [] := by
    intro p hp
    obtain ⟨k, p', rfl⟩ := hsp.1 p hp
    exact ⟨⟨_, rfl⟩, by rw [List.drop_left]; simp⟩
  obtain ⟨h1, h2⟩ := hbelow (inPath i) (by simp)
  rw [walk_below h1] at h
  match hw : walk (loopBase i s) d, hlen with
  | [], _ => rw [hw] at h; cases h
  | [b], _ =>
    rw [hw] at h
    refine ⟨b, rfl, fun he => ?_, fun p hp => ?_⟩
    · rw [List.flatMap_cons, walk_emptyArr he h2] at h; cases h
    · unfold envAt docEnv
      rw [walk_below (hbelow p hp).1 d, hw]
      simp
  | _ :: _ :: _, h => simp at h

theorem afterOpt_some {f : D → Option Bool} {x : D} (h : ¬ EmptyArr x) : afterOpt f x = f x := by
  unfold afterOpt
  split
  · exact absurd trivial h
  · rfl

theorem rootedTop_once (X : Fns E) (C : Comp E) {m : Mode} {i s : Expr E} {d : D} (hl : Loose (inPath i :: rPaths s)) (h : OnceRooted i s d) :
    rootedTop X C m i s d = loopHolds X C m i s d := by
  obtain ⟨hlen, ws, es, ha, _⟩ := h
  obtain ⟨b, hb, hne, henv⟩ := loopBase_once hl hlen ha
  have hd : docEnv d (inPath i) = some (.arr ws es) := by rw [docEnv, ha]; rfl
  rw [rootedTop, hb, List.findSome?_cons, afterOpt_some hne, rootedLoop, henv _ (by simp), loopHolds, hd]
  simp only [Option.getD_some, fun y => rsem_congr X C (env := envAt (loopBase i s) b) s y (fun p hp => henv p (List.mem_cons_of_mem _ hp))]

mutual
  theorem inner2_once : ∀ (e : Expr E) (d : D) (_ : Frag2 C e), Once3 e d → Inner2 e d
    | .not e, d, hf, h => by rw [Frag2] at hf; exact inner2_once e d hf h
    | .and es, d, hf, h => by rw [Frag2] at hf; exact inner2All_once es d hf h
    | .or es, d, hf, h => by rw [Frag2] at hf; exact inner2All_once es d hf h
    | .loop m w i s, d, hf, h => by
      rw [Once3] at h
      obtain ⟨hr, h⟩ := h
      rw [Frag2, if_pos hr] at hf
      rw [Inner2, if_pos hr]
      refine ⟨h.1, fun x hx y hy => ?_⟩
      obtain ⟨hlen, ws, es, ha, hy'⟩ := h
      obtain ⟨b, hb, hne, henv⟩ := loopBase_once hf.2.2.2.2 hlen ha
      rw [hb, List.mem_singleton] at hx
      subst hx
      rw [henv _ (by simp), docEnv, ha] at hy
      exact hy' y hy
    | .cmp .., d, _, _ | .exist _, d, _, _ | .notExist _, d, _, _ | .tru, d, _, _ | .fals, d, _, _ | .value _, d, _, _ | .regex _, d, _, _
    | .pcre _, d, _, _ | .time _, d, _, _ | .field _, d, _, _ | .func .., d, _, _ => by simp [Inner2]
  theorem inner2All_once : ∀ (es : Exprs E) (d : D) (_ : Frag2s C es), Once3s es d → Inner2All es d
    | .nil, _, _, _ => trivial
    | .cons e .nil, d, hf, h => by
      rw [Frag2s] at hf
      exact ⟨inner2_once e d hf h.1, trivial⟩
    | .cons e (.cons e' r), d, hf, h => by
      rw [Frag2s] at hf
      exact ⟨inner2_once e d hf.1 h.1, inner2All_once (.cons e' r) d hf.2 h.2⟩
end

mutual
  theorem top2_truth3 (X : Fns E) (C : Comp E) : ∀ (e : Expr E) (d : D), Frag2 C e → Once3 e d → top2 X C e d = truth3 X C e d
    | .cmp c l r, d, hf, ho => by
      rw [truth3]
      exact top2_truth X C (.cmp c l r) d hf (by simp [LoopFree]) ho
    | .not e, d, hf, ho => by rw [Frag2] at hf; rw [top2, truth3, top2_truth3 X C e d hf ho]
    | .and es, d, hf, ho => by rw [Frag2] at hf; rw [top2, truth3, (top2All_truth3 X C es d hf ho).1]
    | .or es, d, hf, ho => by rw [Frag2] at hf; rw [top2, truth3, (top2All_truth3 X C es d hf ho).2]
    | .loop m w i s, d, hf, ho => by
      rw [Once3] at ho
      rw [Frag2, if_pos ho.1] at hf
      rw [top2, truth3, if_pos ho.1, if_pos ho.1]
      exact rootedTop_once X C hf.2.2.2.2 ho.2
    | .exist e, d, hf, _ | .notExist e, d, hf, _ => by simp only [truth3]; exact top2_truth X C _ d hf (by simp [LoopFree]) (by simp [OnceE])
    | .tru, d, hf, _ | .fals, d, hf, _ => by simp only [truth3]; exact top2_truth X C _ d hf (by simp [LoopFree]) (by simp [OnceE])
    | .value _, d, h, _ | .regex _, d, h, _ | .pcre _, d, h, _ | .time _, d, h, _ | .field _, d, h, _ | .func .., d, h, _ => by
      simp [Frag2] at h
  theorem top2All_truth3 (X : Fns E) (C : Comp E) : ∀ (es : Exprs E) (d : D), Frag2s C es → Once3s es d →
      top2All X C es d = truth3All X C es d ∧ top2Any X C es d = truth3Any X C es d
    | .nil, d, h, _ => by simp [Frag2s] at h
    | .cons e .nil, d, hf, ho => by
      rw [Frag2s] at hf
      simp only [top2All, truth3All, top2Any, truth3Any, top2_truth3 X C e d hf ho.1, and_self]
    | .cons e (.cons e' r), d, hf, ho => by
      rw [Frag2s] at hf
      obtain ⟨a, b⟩ := top2All_truth3 X C (.cons e' r) d hf.2 ho.2
      rw [top2All, truth3All, top2Any, truth3Any, a, b, top2_truth3 X C e d hf.1 ho.1]
      exact ⟨rfl, rfl⟩
end

theorem holds_congr {α : Type} {p q : α → Bool} {m : Mode} (l : List α) (h : ∀ y ∈ l, p y = q y) : Mode.holds m p l = Mode.holds m q l := by
  have h1 : l.any p = l.any q := by
    rw [Bool.eq_iff_iff, List.any_eq_true, List.any_eq_true]
    exact ⟨fun ⟨x, hx, hp⟩ => ⟨x, hx, by rw [← h x hx]; exact hp⟩, fun ⟨x, hx, hp⟩ => ⟨x, hx, by rw [h x hx]; exact hp⟩⟩
  have h2 : l.all p = l.all q := by
    rw [Bool.eq_iff_iff, List.all_eq_true, List.all_eq_true]
    exact ⟨fun hp x hx => by rw [← h x hx]; exact hp x hx, fun hp x hx => by rw [h x hx]; exact hp x hx⟩
  cases m <;> simp [Mode.holds, h1, h2]

/-! ### C76 -/

/-- C76 for combinations of conditions, comparisons of several fields and loops that refer to the document, from text to verdict.
(Missing: missing, empty and repeated arrays, for which it is false, see `C76_missing_array`, `C76_empty_array`, `C76_document_is_array`;
loops that do not refer to the document in the same expression; bodies that compare several fields of the variable.) -/
theorem C76_match_partial (X : Fns E) (C : Comp E) (slot0 : Nat) {es : List (Expr E)} {g : Expr E} {gs : List (Expr E)} (hg : genExprs es = g :: gs)
    (hfrag : ∀ x ∈ g :: gs, Frag2 C x) (hsafe : ∀ x ∈ g :: gs, SafeE x)
    {data : List Nat} {r : D} (hr : Begins data r) (hd : ∀ ty w, r ≠ .lit ty w) (hreg : RegularAt (mCondsOf (g :: gs)) r)
    (ho : ∀ x ∈ g :: gs, Once3 x r) :
    ∃ df, transform C slot0 es = .ok df ∧ ∀ m, Ready df m →
      ∃ m', run X df m data = .ok (some ((g :: gs).any (fun x => truth3 X C x r)), m') := by
  obtain ⟨df, h1, h2⟩ := run_multi X (slot0 := slot0) hg hfrag hsafe hr ⟨hd, hreg, fun x hx => inner2_once x r (hfrag x hx) (ho x hx)⟩
  refine ⟨df, h1, fun m hm => ?_⟩
  have : (g :: gs).any (fun x => truth3 X C x r) = (g :: gs).any (fun x => top2 X C x r) := by
    rw [Bool.eq_iff_iff, List.any_eq_true, List.any_eq_true]
    constructor
    · rintro ⟨x, hx, h⟩; exact ⟨x, hx, by rw [top2_truth3 X C x r (hfrag x hx) (ho x hx)]; exact h⟩
    · rintro ⟨x, hx, h⟩; exact ⟨x, hx, by rw [← top2_truth3 X C x r (hfrag x hx) (ho x hx)]; exact h⟩
  rw [this]
  exact h2 m hm

/-- C76 for a loop that compares a field of the elements with a field of the document: the verdict is that of comparing the values. -/
theorem C76_members_partial (X : Fns E) (C : Comp E) (slot0 : Nat) (m : Mode) {w : Int} (hw : w ≠ 0) (c : Cmp) (p q s : Path)
    (h1 : ¬ p <+: q) (h2 : ¬ q <+: p) {data : List Nat} {r : D} (hr : Begins data r) {ws : List Nat} {es : Es} {v : D}
    (hp : walk p r = [.arr ws es]) (hq : walk q r = [v]) (hb : (walk (common p q) r).length ≤ 1) (hes : esList es ≠ []) (hv : ¬ EmptyArr v)
    {b : FV E} (hvb : valOf v = .ok b) {f : D → FV E} (hf : ∀ y ∈ esList es, ∃ u, walk s y = [u] ∧ ¬ EmptyArr u ∧ valOf u = .ok (f y)) :
    ∃ df, transform C slot0 [.loop m w (.field ⟨0, p⟩) (.cmp c (.field ⟨w, s⟩) (.field ⟨0, q⟩))] = .ok df ∧ ∀ k, Ready df k →
      ∃ k', run X df k data = .ok (some (Mode.holds m (fun y => cmpHolds c (f y) b) (esList es)), k') := by
  have hrp : rPaths (.cmp c (.field ⟨w, s⟩) (.field ⟨0, q⟩) : Expr E) = [q] := by simp [rPaths, rootPaths, hw]
  have hrt : rooted (.cmp c (.field ⟨w, s⟩) (.field ⟨0, q⟩) : Expr E) = true := by simp [rooted, hrp]
  have hvp : vPath (.field ⟨w, s⟩ : Expr E) (.field ⟨0, q⟩) = s := by simp [vPath, varPath, hw]
  have hpn : p ≠ [] := fun h => h1 (h ▸ List.nil_prefix)
  obtain ⟨df, t1, t2⟩ := C76_match_partial X C slot0 (es := [.loop m w (.field ⟨0, p⟩) (.cmp c (.field ⟨w, s⟩) (.field ⟨0, q⟩))])
    (g := .loop m w (.field ⟨0, p⟩) (.cmp c (.field ⟨w, s⟩) (.field ⟨0, q⟩))) (gs := []) rfl
    (fun x hx => by
      rw [List.mem_singleton.1 hx, Frag2, if_pos hrt, hrp]
      refine ⟨rfl, hw, by simp [Expr.Plain], ?_, loose_two h1 h2⟩
      rw [RFrag, hvp]
      exact ⟨Or.inr rfl, Or.inl rfl⟩)
    (fun x hx => by rw [List.mem_singleton.1 hx]; simp [SafeE, SafeParam]) hr
    (fun ty t h => by
      subst h
      cases p with
      | nil => exact hpn rfl
      | cons k p => cases hp)
    (by
      have hc : mCondsOf [.loop m w (.field ⟨0, p⟩) (.cmp c (.field ⟨w, s⟩) (.field ⟨0, q⟩) : Expr E)] = [(p, false), (q, false)] := by
        simp [mCondsOf, mConds, hrt, hrp, inPath, fieldPath]
      rw [hc]
      refine ⟨fun a hq' x hx he => ?_, fun a hq' x hx he k q' b' hk => ?_, fun a hq' => ?_⟩
      · simp only [List.mem_cons, Prod.mk.injEq, and_true, List.not_mem_nil, or_false] at hq'
        rcases hq' with rfl | rfl
        · rw [hp, List.mem_singleton] at hx
          subst hx
          cases es with
          | nil => exact absurd rfl hes
          | cons _ _ _ _ => exact he.elim
        · rw [hq, List.mem_singleton] at hx; exact absurd (hx ▸ he) hv
      · simp only [List.mem_cons, Prod.mk.injEq, and_true, List.not_mem_nil, or_false] at hq' hk
        have hpre : a <+: a ++ k :: q' := ⟨_, rfl⟩
        have hl : a ≠ a ++ k :: q' := fun h => by have := congrArg List.length h; simp at this
        rcases hq' with rfl | rfl <;> rcases hk with ⟨hk, _⟩ | ⟨hk, _⟩
        · exact absurd hk.symm hl
        · exact absurd (hk ▸ hpre) h1
        · exact absurd (hk ▸ hpre) h2
        · exact absurd hk.symm hl
      · simp at hq')
    (fun x hx => by
      rw [List.mem_singleton.1 hx, Once3]
      refine ⟨hrt, by rw [loopBase, hrp]; exact hb, ws, es, hp, fun y hy => ⟨?_, by simp [RInner]⟩⟩
      rw [rConds, hvp]
      obtain ⟨u, u1, u2, _⟩ := hf y hy
      refine ⟨fun a ha z hz he => ?_, fun a ha z hz he k q' b' hk => ?_, fun a ha => ?_⟩
      · simp only [List.mem_singleton, Prod.mk.injEq, and_true] at ha
        subst ha
        rw [u1, List.mem_singleton] at hz
        exact absurd (hz ▸ he) u2
      · simp only [List.mem_singleton, Prod.mk.injEq, and_true] at ha hk
        have := congrArg List.length hk.1
        rw [ha, List.length_append, List.length_cons] at this
        omega
      · simp at ha)
  refine ⟨df, t1, fun k hk => ?_⟩
  obtain ⟨k', t3⟩ := t2 k hk
  refine ⟨k', ?_⟩
  rw [t3]
  have hd : docEnv r (inPath (.field ⟨0, p⟩ : Expr E)) = some (.arr ws es) := by
    rw [docEnv, show inPath (.field ⟨0, p⟩ : Expr E) = p from rfl, hp]; rfl
  have hbody : ∀ y ∈ esList es, decide (rsem X C (docEnv r) (.cmp c (.field ⟨w, s⟩) (.field ⟨0, q⟩)) y = some true) = cmpHolds c (f y) b := by
    intro y hy
    obtain ⟨u, u1, _, u3⟩ := hf y hy
    have hg : docEnv r q = some v := by rw [docEnv, hq]; rfl
    rw [rsem, hvp, u1]
    simp [rHolds, rGone, hw, hg, u3, rVal, fieldVal, hvb]
  simp only [List.any_cons, List.any_nil, Bool.or_false, truth3, if_pos hrt, loopHolds, hd]
  rw [holds_congr _ hbody]

/-- A loop whose array is missing in an object has the value of its body without any field, whatever the quantifier: false for `=`,
true for `!=`. -/
theorem C76_missing_array (X : Fns E) (C : Comp E) (slot0 : Nat) (m : Mode) {w : Int} {i s : Expr E} (hrt : rooted s = true)
    (hf : Frag2 C (.loop m w i s)) (hs : SafeE s) {data : List Nat} {ws : List Nat} {ms : Ms} (hr : Begins data (.obj ws ms))
    (hp : walk (inPath i) (.obj ws ms) = []) (hb : (walk (loopBase i s) (.obj ws ms)).length ≤ 1)
    (hreg : RegularAt (mCondsOf [.loop m w i s]) (.obj ws ms)) :
    ∃ df, transform C slot0 [.loop m w i s] = .ok df ∧ ∀ k, Ready df k → ∃ k', run X df k data = .ok (some (blank s), k') := by
  have hf' := hf
  rw [Frag2, if_pos hrt] at hf
  have hsp : Splits (loopBase i s) (inPath i :: rPaths s) := splits_of_loose (by simp) hf.2.2.2.2
  obtain ⟨k, p', hpi⟩ := hsp.1 (inPath i) (by simp)
  have hgone : ∀ x ∈ walk (loopBase i s) (.obj ws ms), envAt (loopBase i s) x (inPath i) = none := by
    intro x hx
    rw [walk_below ⟨_, hpi.symm⟩, List.flatMap_eq_nil_iff] at hp
    rw [envAt, hp x hx]; rfl
  obtain ⟨df, t1, t2⟩ := run_multi X (slot0 := slot0) (es := [.loop m w i s]) (g := .loop m w i s) (gs := []) rfl
    (fun x hx => by rw [List.mem_singleton.1 hx]; exact hf') (fun x hx => by rw [List.mem_singleton.1 hx, SafeE]; exact hs) hr
    ⟨fun ty t h => by (cases h), hreg, fun x hx => by
      rw [List.mem_singleton.1 hx, Inner2, if_pos hrt]
      refine ⟨hb, fun x hx y hy => ?_⟩
      rw [hgone x hx] at hy
      cases hy⟩
  refine ⟨df, t1, fun k hk => ?_⟩
  obtain ⟨k', t3⟩ := t2 k hk
  refine ⟨k', ?_⟩
  rw [t3]
  have : (walk (loopBase i s) (.obj ws ms)).findSome? (afterOpt (fun x => rootedLoop X C m i s (.obj ws ms) (envAt (loopBase i s) x))) = none := by
    rw [List.findSome?_eq_none_iff]
    intro x hx
    have : rootedLoop X C m i s (.obj ws ms) (envAt (loopBase i s) x) = none := by rw [rootedLoop, hgone x hx]; rfl
    unfold afterOpt
    split
    · rfl
    · exact this
  simp [top2, hrt, rootedTop, this]

/-! ### Where it fails -/

/-- The variable of the loops below. -/
def elemV : Expr demoExt := .field ⟨1, []⟩

/-- `EVERY v IN a SATISFIES v = b` does not match `{"a":[],"b":1}`, although `EVERY v IN a SATISFIES v = 1` does, and
`ANY v IN a SATISFIES v != b` does: empty arrays are not stored, the loop is not executed. -/
theorem C76_empty_array :
    verdictOf (.loop .every 1 fieldA (.cmp .eq elemV fieldB)) [123, 34, 97, 34, 58, 91, 93, 44, 34, 98, 34, 58, 49, 125] = .ok (some false) ∧
    verdictOf (.loop .every 1 fieldA (.cmp .eq elemV one)) [123, 34, 97, 34, 58, 91, 93, 44, 34, 98, 34, 58, 49, 125] = .ok (some true) ∧
    verdictOf (.loop .any 1 fieldA (.cmp .ne elemV fieldB)) [123, 34, 97, 34, 58, 91, 93, 44, 34, 98, 34, 58, 49, 125] = .ok (some true) := by
  decide +kernel

/-- `ANY v IN a SATISFIES v = 1 OR v = b` matches the document `[1]`, which has no field `a`: the slot of the array is empty, and the loop
runs over the document itself (fastMatcher.go: an unset slot has the position 0); `ANY v IN a SATISFIES v = 1` does not match. -/
theorem C76_document_is_array :
    verdictOf (.loop .any 1 fieldA (.or (.cons (.cmp .eq elemV one) (.cons (.cmp .eq elemV fieldB) .nil)))) [91, 49, 93] = .ok (some true) ∧
    verdictOf (.loop .any 1 fieldA (.cmp .eq elemV one)) [91, 49, 93] = .ok (some false) := by
  decide +kernel

/-- With a repeated key the loop is about the last value if it refers to the document, otherwise about the first array:
`{"a":[1],"a":[2],"b":1}`. -/
theorem C76_repeated_keys :
    verdictOf (.loop .any 1 fieldA (.cmp .eq elemV fieldB))
      [123, 34, 97, 34, 58, 91, 49, 93, 44, 34, 97, 34, 58, 91, 50, 93, 44, 34, 98, 34, 58, 49, 125] = .ok (some false) ∧
    verdictOf (.loop .any 1 fieldA (.cmp .eq elemV one))
      [123, 34, 97, 34, 58, 91, 49, 93, 44, 34, 97, 34, 58, 91, 50, 93, 44, 34, 98, 34, 58, 49, 125] = .ok (some true) := by
  decide +kernel

/-! ### Examples -/

/-- `{"a":[1],"b":1}` -/
def docL1 : D := .obj [] (.cons .string [34, 97, 34] [] [] (.arr [] (.cons (.lit .integer [49]) [] [] .nil)) [] []
  (.cons .string [34, 98, 34] [] [] (.lit .integer [49]) [] [] .nil))
def textL1 : List Nat := [123, 34, 97, 34, 58, 91, 49, 93, 44, 34, 98, 34, 58, 49, 125]

theorem docL1_text : Begins textL1 docL1 :=
  ⟨by simp [docL1, D.WF, Ms.WF, Es.WF, Token.IsWs, text_a, text_b, text_1, Tok.isLiteral], [], [], by simp [Token.IsWs], trivial, rfl⟩

/-- `NOT (ANY v IN a SATISFIES v != b)`, and `(EVERY v IN a SATISFIES v < b) AND b = 1` -/
def demoRooted : List (Expr demoExt) :=
  [.not (.loop .any 1 fieldA (.cmp .ne elemV fieldB)),
   .and (.cons (.loop .every 1 fieldA (.cmp .lt elemV fieldB)) (.cons (.cmp .eq fieldB one) .nil))]

theorem demoRooted_frag : ∀ x ∈ demoRooted, Frag2 demoComp x ∧ SafeE x ∧ Once3 x docL1 := by
  have hl : ∀ m c, Frag2 demoComp (.loop m 1 fieldA (.cmp c elemV fieldB)) := by
    intro m c
    rw [Frag2, if_pos (by rfl)]
    exact ⟨rfl, by decide, by simp [Expr.Plain, elemV, fieldB], ⟨Or.inr rfl, Or.inl rfl⟩, loose_ab⟩
  have ho : ∀ m c, Once3 (.loop m 1 fieldA (.cmp c elemV fieldB)) docL1 := by
    intro m c
    rw [Once3]
    refine ⟨rfl, by cases c <;> decide +kernel, [], _, rfl, fun y hy => ⟨?_, by simp [RInner]⟩⟩
    rw [esList, esList, List.mem_singleton] at hy
    subst hy
    exact regular_of_check (by cases c <;> decide +kernel)
  intro x hx
  rcases List.mem_cons.1 hx with rfl | hx
  · exact ⟨by rw [Frag2]; exact hl _ _, by simp [SafeE, SafeParam, elemV, fieldB], by rw [Once3]; exact ho _ _⟩
  · rcases List.mem_singleton.1 hx with rfl
    refine ⟨?_, by simp [SafeE, SafeEs, SafeParam, elemV, fieldB, one], ho .every .lt, fun h => by (cases h), trivial⟩
    rw [Frag2, Frag2s, Frag2s]
    refine ⟨hl _ _, ?_⟩
    rw [Frag2, if_neg (by decide)]
    simp [Frag, Param, condPath, fieldPath, fieldB, one]

/-- `C76_match_partial` -/
example : ∃ df, transform demoComp 0 demoRooted = .ok df ∧ ∀ m, Ready df m → ∃ m', run demoFns df m textL1 = .ok (some true, m') := by
  obtain ⟨df, h1, h2⟩ := C76_match_partial demoFns demoComp 0 (es := demoRooted) rfl (fun x hx => (demoRooted_frag x hx).1)
    (fun x hx => (demoRooted_frag x hx).2.1) docL1_text (by intro ty w h; cases h) (regular_of_check (by decide +kernel))
    (fun x hx => (demoRooted_frag x hx).2.2)
  have : demoRooted.any (fun x => truth3 demoFns demoComp x docL1) = true := by decide +kernel
  exact ⟨df, h1, fun m hm => by obtain ⟨m', h⟩ := h2 m hm; exact ⟨m', by rw [h]; exact congrArg (fun b => Res.ok (some b, m')) this⟩⟩

example : demoRooted.map (fun x => truth3 demoFns demoComp x docL1) = [true, false] := by decide +kernel

/-- `C76_members_partial` -/
example : ∃ df, transform demoComp 0 [.loop .any 1 fieldA (.cmp .eq elemV fieldB)] = .ok df ∧ ∀ k, Ready df k →
    ∃ k', run demoFns df k textL1 = .ok (some true, k') :=
  C76_members_partial demoFns demoComp 0 .any (by decide) .eq [[97]] [[98]] [] (by decide) (by decide) docL1_text rfl rfl (by decide)
    (by simp [esList]) (fun h => h) (b := ⟨.int 1#64, false⟩) (by rfl) (f := fun _ => ⟨.int 1#64, false⟩)
    (fun y hy => by
      rw [esList, esList, List.mem_singleton] at hy
      subst hy
      exact ⟨_, rfl, fun h => h, by rfl⟩)

/-- `C76_missing_array`: `ANY v IN b SATISFIES v != a` matches `{"a":1}`. -/
example : ∃ df, transform demoComp 0 [.loop .any 1 fieldB (.cmp .ne elemV fieldA)] = .ok df ∧ ∀ k, Ready df k →
    ∃ k', run demoFns df k demoDoc = .ok (some true, k') :=
  C76_missing_array demoFns demoComp 0 .any rfl
    (by
      rw [Frag2, if_pos (by rfl)]
      exact ⟨rfl, by decide, by simp [Expr.Plain, elemV, fieldA], ⟨Or.inr rfl, Or.inl rfl⟩, loose_two (by decide) (by decide)⟩)
    (by simp [SafeE, SafeParam, elemV, fieldA]) docA1_text rfl (by decide +kernel) (regular_of_check (by decide +kernel))

end Verif.Transform
