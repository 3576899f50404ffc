import Verif.Transform.Likeness
import Verif.Transform.ElementAny

/-!
# C24 and C26 for loops whose bodies compare several fields of the element
-/

namespace Verif.Transform
open Verif.FastVal Verif.Match Verif.Expr
open Verif.Token (D Es Ms Tok)

variable {E : Ext}

/-! ### Specification -/

mutual
  /-- No comparison is between two arrays or objects of elements, not even of different elements. -/
  def OneScalarOver : Expr E → List D → Prop
    | .cmp c l r, ys => c = .like ∨ (∀ y ∈ ys, ScalarIn y l) ∨ ∀ y ∈ ys, ScalarIn y r
    | .not e, ys => OneScalarOver e ys
    | .and es, ys => OneScalarOvers es ys
    | .or es, ys => OneScalarOvers es ys
    | .loop m w i s, ys => ∀ y ∈ ys, OneScalar (.loop m w i s) y
    | _, _ => True
  def OneScalarOvers : Exprs E → List D → Prop
    | .nil, _ => True
    | .cons e r, ys => OneScalarOver e ys ∧ OneScalarOvers r ys
end

mutual
  /-- No condition on a field of the document, and no body on the elements of an array, compares two arrays or objects. -/
  def OneScalarE : Expr E → D → Prop
    | .not e, d => OneScalarE e d
    | .and es, d => OneScalarEs es d
    | .or es, d => OneScalarEs es d
    | .loop _ _ i s, d => ∀ x ∈ walk (inPath i) d, OneScalarOver s (elements x)
    | e, d => OneScalar e d
  def OneScalarEs : Exprs E → D → Prop
    | .nil, _ => True
    | .cons e r, d => OneScalarE e d ∧ OneScalarEs r d
end

/-! ### The variable -/

theorem scalarIn_rebase {y : D} {e : Expr E} (h : ScalarIn y e) : ScalarIn y (rebase e) := by
  cases e <;> simp only [rebase] <;> first | exact h | exact h.elim | trivial

mutual
  theorem oneScalar_rebase : ∀ (e : Expr E) {y : D}, OneScalar e y → OneScalar (rebase e) y
    | .cmp c l r, y, h => by
      rw [OneScalar] at h; rw [rebase, OneScalar]
      exact h.imp_right (Or.imp scalarIn_rebase scalarIn_rebase)
    | .not e, y, h => by rw [OneScalar] at h; rw [rebase, OneScalar]; exact oneScalar_rebase e h
    | .and es, y, h => by rw [OneScalar] at h; rw [rebase, OneScalar]; exact oneScalars_rebase es h
    | .or es, y, h => by rw [OneScalar] at h; rw [rebase, OneScalar]; exact oneScalars_rebase es h
    | .loop m w i s, y, h => by rw [OneScalar] at h; rw [rebase, OneScalar, inPath_rebase]; exact h
    | .exist _, _, _ | .notExist _, _, _ | .tru, _, _ | .fals, _, _ | .value _, _, _ | .regex _, _, _ | .pcre _, _, _ | .time _, _, _
    | .field _, _, _ | .func .., _, _ => by simp [rebase, OneScalar]
  theorem oneScalars_rebase : ∀ (es : Exprs E) {y : D}, OneScalars es y → OneScalars (rebases es) y
    | .nil, _, _ => trivial
    | .cons e r, _, h => ⟨oneScalar_rebase e h.1, oneScalars_rebase r h.2⟩
end

mutual
  theorem over_rebase : ∀ (e : Expr E) {ys : List D}, OneScalarOver e ys → OneScalarOver (rebase e) ys
    | .cmp c l r, ys, h => by
      rw [OneScalarOver] at h; rw [rebase, OneScalarOver]
      exact h.imp_right (Or.imp (fun h y hy => scalarIn_rebase (h y hy)) fun h y hy => scalarIn_rebase (h y hy))
    | .not e, ys, h => by rw [OneScalarOver] at h; rw [rebase, OneScalarOver]; exact over_rebase e h
    | .and es, ys, h => by rw [OneScalarOver] at h; rw [rebase, OneScalarOver]; exact overs_rebase es h
    | .or es, ys, h => by rw [OneScalarOver] at h; rw [rebase, OneScalarOver]; exact overs_rebase es h
    | .loop m w i s, ys, h => by
      rw [OneScalarOver] at h; rw [rebase, OneScalarOver]
      intro y hy
      have := oneScalar_rebase _ (h y hy)
      rwa [rebase] at this
    | .exist _, _, _ | .notExist _, _, _ | .tru, _, _ | .fals, _, _ | .value _, _, _ | .regex _, _, _ | .pcre _, _, _ | .time _, _, _
    | .field _, _, _ | .func .., _, _ => by simp [rebase, OneScalarOver]
  theorem overs_rebase : ∀ (es : Exprs E) {ys : List D}, OneScalarOvers es ys → OneScalarOvers (rebases es) ys
    | .nil, _, _ => trivial
    | .cons e r, _, h => ⟨over_rebase e h.1, overs_rebase r h.2⟩
end

/-! ### Elements -/

/-- Values left by elements among `ys`. -/
def Left (ys : List D) (G : Env) : Prop := ∀ p x, G p = some x → ∃ y ∈ ys, x ∈ walk p y

set_option linter.unusedSectionVars false

section
variable {R : D → D → Prop} (hR : Likeness R)
include hR

omit hR in
theorem over_scalarOf {ys : List D} {env : Env} {e : Expr E} (hne : ys ≠ []) (hd : ∀ p ∈ paths e, ∀ x, env p = some x → ∃ y ∈ ys, x ∈ walk p y)
    (he : ∀ y ∈ ys, ScalarIn y e) : ScalarOf env e := by
  cases e with
  | field f =>
    intro x hx
    obtain ⟨y, hy, hx⟩ := hd _ (by simp [paths]) x hx
    exact he y hy x hx
  | _ =>
    cases ys with
    | nil => exact absurd rfl hne
    | cons y ys => exact he y (.head _)

omit hR in
theorem seeing_left {ys : List D} {K : List (Path × Bool)} {G : Env} {y : D} (hG : Left ys G) (hy : y ∈ ys) : Left ys (seeing K G y) := by
  intro p x hx
  rcases lastOf_mem hx with h | h
  · exact hG p x h
  · exact ⟨y, hy, reach_walk _ _ h⟩

theorem seeing_like {K : List (Path × Bool)} {G G' : Env} (hG : ∀ p, Both R (G p) (G' p)) {y y' : D} (h : R y y') (p : Path) :
    Both R (seeing K G y p) (seeing K G' y' p) :=
  along_last (hR.reach false K p y y' h) (hG p)

omit hR in
theorem envElem_left {ys : List D} {L : List (Path × Bool)} {G : Env} {q p : Path} {x y z : D} (hG : Left ys G) (hy : y ∈ ys) (hx : x ∈ walk q y)
    (hq : q <+: p) (hz : envElem L G q x p = some z) : ∃ y ∈ ys, z ∈ walk p y := by
  obtain ⟨p', rfl⟩ := hq
  rw [envElem, List.drop_left] at hz
  rcases lastOf_mem hz with h | h
  · exact hG _ _ h
  · exact ⟨y, hy, by rw [walk_append]; exact List.mem_flatMap.2 ⟨x, hx, reach_walk _ _ h⟩⟩

theorem multiElem_like (X : Fns E) {C : Comp E} {c : Cmp} {l r : Expr E} (hm : several l r = true) (hl : Loose (paths l ++ paths r)) {ys : List D}
    {G G' : Env} (hG : ∀ p, Both R (G p) (G' p)) (hleft : Left ys G) {y y' : D} (hy : y ∈ ys) (h : R y y') (hs : OneScalarOver (.cmp c l r) ys)
    (L : List (Path × Bool)) : multiElem X C L G c l r y = multiElem X C L G' c l r y' := by
  rw [OneScalarOver] at hs
  have hsp := splits_base hm hl
  have hne : ys ≠ [] := by rintro rfl; cases hy
  have := head_map_agree (f := fun x => multiHolds X C (if c = .ne then .eq else c) l r (envElem L G (base l r) x))
    (g := fun x => multiHolds X C (if c = .ne then .eq else c) l r (envElem L G' (base l r) x))
    (fun x x' hxy => multiHolds_sim hR X C (fun p => seeing_like hR (fun p' => hG _) hxy.1 _) (by
      have hd : ∀ p ∈ paths l ++ paths r, ∀ z, envElem L G (base l r) x p = some z → ∃ y ∈ ys, z ∈ walk p y := by
        intro p hp z hz
        obtain ⟨k, p', rfl⟩ := hsp.1 p hp
        exact envElem_left hleft hy hxy.2 ⟨_, rfl⟩ hz
      exact hs.imp (fun hc => by rw [hc]; rfl) (Or.imp (over_scalarOf hne fun p hp => hd p (List.mem_append_left _ hp))
        (over_scalarOf hne fun p hp => hd p (List.mem_append_right _ hp)))))
    ((hR.reachA L (base l r) y y' h).with fun x hx => reachA_walk _ _ _ _ hx)
  rw [multiElem, multiElem, this]

mutual
  theorem lsemR_like (X : Fns E) (C : Comp E) {L : List (Path × Bool)} {ys : List D} {G G' : Env} (hG : ∀ p, Both R (G p) (G' p)) (hleft : Left ys G)
      {y y' : D} (hy : y ∈ ys) (h : R y y') : ∀ e : Expr E, Frag2 C e → NoRooted e → OneScalarOver e ys → lsemR X C L G e y = lsemR X C L G' e y'
    | .cmp c l r, hf, _, hs => by
      rw [Frag2] at hf
      rw [lsemR, lsemR]
      split
      · rename_i hm; rw [if_pos hm] at hf; exact multiElem_like hR X hm hf.2.2 hG hleft hy h hs L
      · rename_i hm
        rw [if_neg hm] at hf
        rw [OneScalarOver] at hs
        exact semR_like hR X C _ hf h (by rw [OneScalar]; exact hs.imp_right (Or.imp (fun h => h y hy) fun h => h y hy))
    | .exist e, hf, _, hs => by
      rw [Frag2] at hf
      simp only [lsemR]
      exact semR_like hR X C _ hf h (by simp [OneScalar])
    | .notExist e, hf, _, hs => by
      rw [Frag2] at hf
      simp only [lsemR]
      exact semR_like hR X C _ hf h (by simp [OneScalar])
    | .not e, hf, hn, hs => by rw [Frag2] at hf; rw [OneScalarOver] at hs; rw [lsemR, lsemR, lsemR_like X C hG hleft hy h e hf hn hs]
    | .and es, hf, hn, hs => by rw [Frag2] at hf; rw [OneScalarOver] at hs; rw [lsemR, lsemR]; exact (lsemRs_like X C hG hleft hy h es hf hn hs).1
    | .or es, hf, hn, hs => by rw [Frag2] at hf; rw [OneScalarOver] at hs; rw [lsemR, lsemR]; exact (lsemRs_like X C hG hleft hy h es hf hn hs).2
    | .loop m w i s, hf, hn, hs => by
      rw [Frag2] at hf
      rw [NoRooted] at hn
      have hn' : ¬ rooted s = true := by rw [hn]; simp
      rw [if_neg hn'] at hf
      rw [OneScalarOver] at hs
      simp only [lsemR]
      exact semR_like hR X C _ hf h (hs y hy)
    | .tru, _, _, _ | .fals, _, _, _ | .value _, _, _, _ | .regex _, _, _, _ | .pcre _, _, _, _ | .time _, _, _, _ | .field _, _, _, _
    | .func .., _, _, _ => by simp [lsemR, semR]
  theorem lsemRs_like (X : Fns E) (C : Comp E) {L : List (Path × Bool)} {ys : List D} {G G' : Env} (hG : ∀ p, Both R (G p) (G' p)) (hleft : Left ys G)
      {y y' : D} (hy : y ∈ ys) (h : R y y') : ∀ es : Exprs E, Frag2s C es → NoRootedAll es → OneScalarOvers es ys →
      lsemRAll X C L G es y = lsemRAll X C L G' es y' ∧ lsemRAny X C L G es y = lsemRAny X C L G' es y'
    | .nil, _, _, _ => ⟨rfl, rfl⟩
    | .cons e .nil, hf, hn, hs => by
      rw [Frag2s] at hf
      simp only [lsemRAll, lsemRAny, lsemR_like X C hG hleft hy h e hf hn.1 hs.1, and_self]
    | .cons e (.cons e' r), hf, hn, hs => by
      rw [Frag2s] at hf
      obtain ⟨h1, h2⟩ := lsemRs_like X C (L := L) hG hleft hy h (.cons e' r) hf.2 hn.2 hs.2
      have a1 : ∀ G d, lsemRAll X C L G (.cons e (.cons e' r)) d = kAnd (lsemR X C L G e d) (lsemRAll X C L G (.cons e' r) d) := fun G d => by rw [lsemRAll]
      have a2 : ∀ G d, lsemRAny X C L G (.cons e (.cons e' r)) d = kOr (lsemR X C L G e d) (lsemRAny X C L G (.cons e' r) d) := fun G d => by rw [lsemRAny]
      rw [a1, a1, a2, a2, h1, h2, lsemR_like X C hG hleft hy h e hf.1 hn.1 hs.1]
      exact ⟨rfl, rfl⟩
end

theorem elemVals_like (X : Fns E) (C : Comp E) {w : Int} {s : Expr E} (hb : Body C w s) {ys0 : List D} (hs : OneScalarOver s ys0) :
    ∀ {ys ys' : List D} {G G' : Env}, All2 R ys ys' → (∀ y ∈ ys, y ∈ ys0) → (∀ p, Both R (G p) (G' p)) → Left ys0 G →
      elemVals X C s G ys = elemVals X C s G' ys' := by
  intro ys ys' G G' h
  induction h generalizing G G' with
  | nil => intros; rfl
  | @cons y y' ys ys' hy _ ih =>
    intro hsub hG hleft
    have hmem := hsub y (.head _)
    rw [elemVals, elemVals, lsemR_like hR X C hG hleft hmem hy _ hb.frag (noRooted_rebase hb.var s hb.frag hb.free) (over_rebase s hs),
      ih (fun z hz => hsub z (.tail _ hz)) (seeing_like hR hG hy) (seeing_left hleft hmem)]

theorem loopVal_like (X : Fns E) (C : Comp E) {m : Mode} {w : Int} {s : Expr E} (hb : Body C w s) {ys ys' : List D} (hs : OneScalarOver s ys)
    (h : All2 R ys ys') : loopVal X C m s ys = loopVal X C m s ys' := by
  have := elemVals_like hR X C hb hs (G := fun _ => none) (G' := fun _ => none) h (fun _ h => h) (fun _ => trivial) (by intro p x hx; cases hx)
  rw [loopVal, loopVal, this]

theorem firstArr_over {Q : List D → Prop} {l l' : List D} (h : All2 R l l') (hq : ∀ x ∈ l, Q (elements x)) {β : Type} {f : List D → β}
    (hf : ∀ ys ys', All2 R ys ys' → Q ys → f ys = f ys') : (firstArr l).map f = (firstArr l').map f := by
  induction h with
  | nil => rfl
  | @cons x y l l' h _ ih =>
    have ih := ih fun x hx => hq x (.tail _ hx)
    cases x with
    | lit ty w => cases hR.lit h; exact ih
    | obj ws ms => obtain ⟨_, _, rfl, _⟩ := hR.obj h; exact ih
    | arr ws es =>
      obtain ⟨_, _, rfl, ha⟩ := hR.arr h
      simp only [firstArr, Option.map_some, hf _ _ ha (hq _ (.head _))]

mutual
  theorem etopR_like (X : Fns E) (C : Comp E) {L : List (Path × Bool)} {d d' : D} (h : R d d') : ∀ e : Expr E, EFrag C e → OneScalarE e d →
      etopR X C L e d = etopR X C L e d'
    | .cmp c l r, hf, hs => by
      simp only [EFrag] at hf
      simp only [OneScalarE] at hs
      simp only [etopR]
      rw [topR, topR, cond_like hR X hf h hs L]
    | .exist e, hf, _ => by
      have := exist_like hR h L (condPath e e) true
      simp only [etopR, topR]
      cases h1 : (reach false L (condPath e e) d).head? <;> cases h2 : (reach false L (condPath e e) d').head? <;> simp [h1, h2] at this ⊢
    | .notExist e, hf, _ => by
      have := exist_like hR h L (condPath e e) true
      simp only [etopR, topR]
      cases h1 : (reach false L (condPath e e) d).head? <;> cases h2 : (reach false L (condPath e e) d').head? <;> simp [h1, h2] at this ⊢
    | .not e, hf, hs => by rw [EFrag] at hf; rw [OneScalarE] at hs; rw [etopR, etopR, etopR_like X C h e hf hs]
    | .and es, hf, hs => by rw [EFrag] at hf; rw [OneScalarE] at hs; rw [etopR, etopR]; exact (etopRs_like X C h es hf hs).1
    | .or es, hf, hs => by rw [EFrag] at hf; rw [OneScalarE] at hs; rw [etopR, etopR]; exact (etopRs_like X C h es hf hs).2
    | .loop m w i s, hf, hs => by
      rw [EFrag] at hf
      rw [OneScalarE] at hs
      rw [etopR, etopR, firstArr_over hR (Q := OneScalarOver s) (hR.reach true L (inPath i) d d' h) (fun x hx => hs x (reach_walk _ _ hx))
        fun ys ys' h hq => loopVal_like hR X C hf.2 hq h]
    | .tru, _, _ | .fals, _, _ | .value _, _, _ | .regex _, _, _ | .pcre _, _, _ | .time _, _, _ | .field _, _, _
    | .func .., _, _ => by simp [etopR, topR]
  theorem etopRs_like (X : Fns E) (C : Comp E) {L : List (Path × Bool)} {d d' : D} (h : R d d') : ∀ es : Exprs E, EFrags C es →
      OneScalarEs es d → etopRAll X C L es d = etopRAll X C L es d' ∧ etopRAny X C L es d = etopRAny X C L es d'
    | .nil, _, _ => ⟨rfl, rfl⟩
    | .cons e .nil, hf, hs => by
      rw [EFrags] at hf
      simp only [etopRAll, etopRAny, etopR_like X C h e hf hs.1, and_self]
    | .cons e (.cons e' r), hf, hs => by
      rw [EFrags] at hf
      obtain ⟨h1, h2⟩ := etopRs_like X C (L := L) h (.cons e' r) hf.2 hs.2
      have a1 : ∀ d, etopRAll X C L (.cons e (.cons e' r)) d = (etopR X C L e d && etopRAll X C L (.cons e' r) d) := fun d => by rw [etopRAll]
      have a2 : ∀ d, etopRAny X C L (.cons e (.cons e' r)) d = (etopR X C L e d || etopRAny X C L (.cons e' r) d) := fun d => by rw [etopRAny]
      rw [a1, a1, a2, a2, h1, h2, etopR_like X C h e hf.1 hs.1]
      exact ⟨rfl, rfl⟩
end

/-- Related documents have the same verdict. -/
theorem everdict_like (X : Fns E) {C : Comp E} {slot0 : Nat} {es : List (Expr E)} {g : Expr E} {gs : List (Expr E)} (hg : genExprs es = g :: gs)
    (hf : ∀ x ∈ g :: gs, EFrag C x) (hsafe : ∀ x ∈ g :: gs, SafeE x) {data data' : List Nat} {d d' : D}
    (hd : Begins data d) (hd' : Begins data' d') (hone : ∀ x ∈ g :: gs, OneScalarE x d) (h : R d d') :
    ∃ df, transform C slot0 es = .ok df ∧ ∀ m m', Ready df m → Ready df m' →
      ∃ b m1 m2, run X df m data = .ok (some b, m1) ∧ run X df m' data' = .ok (some b, m2) := by
  obtain ⟨df, h1, h2⟩ := C85_verdict X C slot0 hg hf hsafe hd
  obtain ⟨df', h1', h2'⟩ := C85_verdict X C slot0 hg hf hsafe hd'
  cases h1.symm.trans h1'
  refine ⟨df, h1, fun m m' hm hm' => ?_⟩
  obtain ⟨m1, e1⟩ := h2 m hm
  obtain ⟨m2, e2⟩ := h2' m' hm'
  refine ⟨_, m1, m2, e1, ?_⟩
  rw [e2]
  have : (g :: gs).any (fun x => etopR X C (condsOf (g :: gs)) x d) = (g :: gs).any (fun x => etopR X C (condsOf (g :: gs)) x d') := by
    rw [Bool.eq_iff_iff, List.any_eq_true, List.any_eq_true]
    constructor
    · rintro ⟨x, hx, h'⟩; exact ⟨x, hx, by rw [← etopR_like hR X C h x (hf x hx) (hone x hx)]; exact h'⟩
    · rintro ⟨x, hx, h'⟩; exact ⟨x, hx, by rw [etopR_like hR X C h x (hf x hx) (hone x hx)]; exact h'⟩
  rw [this]

end

/-! ### C24, C26 -/

/-- C24 for conditions and loops over arrays of the document whose bodies compare fields of the element, on documents on which no two arrays or
objects are compared.  (Missing: the others, for which it is false, see `C24_negation`.) -/
theorem C24_elements_partial (X : Fns E) (C : Comp E) (slot0 : Nat) {es : List (Expr E)} {g : Expr E} {gs : List (Expr E)}
    (hg : genExprs es = g :: gs) (hf : ∀ x ∈ g :: gs, EFrag C x) (hsafe : ∀ x ∈ g :: gs, SafeE x)
    {data data' : List Nat} {d d' : D} (hd : Begins data d) (hd' : Begins data' d') (hone : ∀ x ∈ g :: gs, OneScalarE x d) (hs : d.Same d') :
    ∃ df, transform C slot0 es = .ok df ∧ ∀ m m', Ready df m → Ready df m' →
      ∃ b m1 m2, run X df m data = .ok (some b, m1) ∧ run X df m' data' = .ok (some b, m2) :=
  everdict_like same_likeness X hg hf hsafe hd hd' hone hs

/-- C26 for the same expressions, on documents without repeated keys.  (Missing: the others, for which it is false, see `C26_negation`.) -/
theorem C26_elements_partial (X : Fns E) (C : Comp E) (slot0 : Nat) {es : List (Expr E)} {g : Expr E} {gs : List (Expr E)}
    (hg : genExprs es = g :: gs) (hf : ∀ x ∈ g :: gs, EFrag C x) (hsafe : ∀ x ∈ g :: gs, SafeE x)
    {data data' : List Nat} {d d' : D} (hd : Begins data d) (hd' : Begins data' d') (hone : ∀ x ∈ g :: gs, OneScalarE x d) (hdis : d.Distinct)
    (hs : Reord d d') :
    ∃ df, transform C slot0 es = .ok df ∧ ∀ m m', Ready df m → Ready df m' →
      ∃ b m1 m2, run X df m data = .ok (some b, m1) ∧ run X df m' data' = .ok (some b, m2) :=
  everdict_like reord_likeness X hg hf hsafe hd hd' hone ⟨hs, hdis⟩

/-- The second member of every comparison is scalar on the elements of `{"a":[{"a":1,"b":2},{"a":1,"b":1}]}`. -/
theorem docPairs_scalar : OneScalarE (Expr.loop .every 1 fieldA bodyAB) docPairs := by
  intro x hx
  have hx : x ∈ walk [[97]] docPairs := hx
  simp only [docPairs, walk] at hx
  have hx := List.mem_singleton.1 hx
  subst hx
  refine ⟨.inr (.inr fun y hy => ?_), .inr (.inr fun y hy => (by unfold Scalar; decide : Scalar (constOf (E := demoExt) (.int 1)))), trivial⟩
  simp only [elements, esList, List.mem_cons, List.not_mem_nil, or_false] at hy
  rcases hy with rfl | rfl
  · intro z hz
    have hz : z ∈ walk [[98]] _ := hz
    simp only [walk] at hz
    exact ⟨_, _, List.mem_singleton.1 hz⟩
  · intro z hz
    have hz : z ∈ walk [[98]] _ := hz
    simp only [docAB1, walk] at hz
    exact ⟨_, _, List.mem_singleton.1 hz⟩

/-- `{"a":[{"b":2,"a":1},{"a":1,"b":1}]}` -/
def docSwap : D := .obj [] (.cons .string [34, 97, 34] [] [] (.arr [] (.cons
    (.obj [] (.cons .string [34, 98, 34] [] [] (.lit .integer [50]) [] [] (.cons .string [34, 97, 34] [] [] (.lit .integer [49]) [] [] .nil)))
    [] [] (.cons docAB1 [] [] .nil))) [] [] .nil)
def textSwap : List Nat := [123, 34, 97, 34, 58, 91, 123, 34, 98, 34, 58, 50, 44, 34, 97, 34, 58, 49, 125, 44] ++ textAB1 ++ [93, 125]

theorem docSwap_text : Begins textSwap docSwap :=
  ⟨by simp [docSwap, docAB1, D.WF, Ms.WF, Es.WF, Token.IsWs, text_a, text_b, text_1, text_2, Tok.isLiteral], [], [], by simp [Token.IsWs], trivial, rfl⟩

/-- `EVERY x IN a SATISFIES x.a = x.b AND x.a = 1` has one verdict on both. -/
example : ∃ df, transform demoComp 0 [.loop .every 1 fieldA bodyAB] = .ok df ∧ ∀ m m', Ready df m → Ready df m' →
    ∃ b m1 m2, run demoFns df m textPairs = .ok (some b, m1) ∧ run demoFns df m' textSwap = .ok (some b, m2) :=
  C26_elements_partial demoFns demoComp 0 rfl (fun x hx => by rw [List.mem_singleton.1 hx]; exact ⟨rfl, bodyAB_body⟩)
    (fun x hx => by rw [List.mem_singleton.1 hx]; simp [SafeE, SafeEs, SafeParam, bodyAB, one]) docPairs_text docSwap_text
    (fun x hx => by rw [List.mem_singleton.1 hx]; exact docPairs_scalar)
    (by simp [docPairs, docAB1, D.Distinct, Ms.Distinct, Es.Distinct, Ms.keys]; decide)
    (.obj (.cons .here (.arr (.cons (.obj (.cons (.there .here) .lit (.cons .here .lit .nil)))
      (.cons (.obj (.cons .here .lit (.cons .here .lit .nil))) .nil))) .nil))

/-- The same with a space before every comma of the array and with one before the last bracket. -/
example : ∃ df, transform demoComp 0 [.loop .every 1 fieldA bodyAB] = .ok df ∧ ∀ m m', Ready df m → Ready df m' →
    ∃ b m1 m2, run demoFns df m textPairs = .ok (some b, m1) ∧
      run demoFns df m' ([123, 34, 97, 34, 58, 91, 123, 34, 97, 34, 58, 49, 44, 34, 98, 34, 58, 50, 125, 32, 44] ++ textAB1 ++ [32, 93, 125]) =
        .ok (some b, m2) :=
  C24_elements_partial demoFns demoComp 0 rfl (fun x hx => by rw [List.mem_singleton.1 hx]; exact ⟨rfl, bodyAB_body⟩)
    (fun x hx => by rw [List.mem_singleton.1 hx]; simp [SafeE, SafeEs, SafeParam, bodyAB, one]) docPairs_text
    (d' := .obj [] (.cons .string [34, 97, 34] [] [] (.arr [] (.cons
      (.obj [] (.cons .string [34, 97, 34] [] [] (.lit .integer [49]) [] [] (.cons .string [34, 98, 34] [] [] (.lit .integer [50]) [] [] .nil)))
      [32] [] (.cons docAB1 [32] [] .nil))) [] [] .nil))
    ⟨by simp [docAB1, D.WF, Ms.WF, Es.WF, Token.IsWs, text_a, text_b, text_1, text_2, Tok.isLiteral], [], [], by simp [Token.IsWs], trivial, rfl⟩
    (fun x hx => by rw [List.mem_singleton.1 hx]; exact docPairs_scalar)
    (by simp [docPairs, docAB1, D.Same, Ms.Same, Es.Same, Token.SameKey])

end Verif.Transform
