import Verif.Transform.Likeness

/-!
# C24 and C26 for loops that refer to the document

The layout of a text and the order of members do not matter to loops whose bodies compare fields of the elements with fields of the document
either, on documents on which no two containers are compared.
-/

namespace Verif.Transform
open Verif.FastVal Verif.Match Verif.Expr
open Verif.Token (D Es Ms Tok)

variable {E : Ext}

/-! ### Specification -/

/-- The operand stands for no array or object, in an element `x` of an array of the document `d`. -/
def ScalarAt (d x : D) : Expr E → Prop
  | .field f => ∀ y ∈ walk f.path (if f.root = 0 then d else x), ∃ ty w, y = .lit ty w
  | e => Inert e

mutual
  /-- No comparison is between two arrays or objects, in an element `x` of an array of the document `d`. -/
  def OneScalarAt (d : D) : Expr E → D → Prop
    | .cmp c l r, x => c = .like ∨ ScalarAt d x l ∨ ScalarAt d x r
    | .not e, x => OneScalarAt d e x
    | .and es, x => OneScalarsAt d es x
    | .or es, x => OneScalarsAt d es x
    | .loop _ _ i s, x => ∀ y ∈ walk (inPath i) x, ∀ z ∈ elements y, OneScalarAt d s z
    | _, _ => True
  def OneScalarsAt (d : D) : Exprs E → D → Prop
    | .nil, _ => True
    | .cons e r, x => OneScalarAt d e x ∧ OneScalarsAt d r x
end

mutual
  /-- No comparison is between two arrays or objects of the document, loops that refer to the document included.  (Such a loop runs over the
  document itself if the document is an array.) -/
  def OneScalarT : Expr E → D → Prop
    | .not e, d => OneScalarT e d
    | .and es, d => OneScalarsT es d
    | .or es, d => OneScalarsT es d
    | .loop m w i s, d =>
      if rooted s then ∀ x ∈ d :: walk (inPath i) d, ∀ y ∈ elements x, OneScalarAt d s y else OneScalar (.loop m w i s) d
    | e, d => OneScalar e d
  def OneScalarsT : Exprs E → D → Prop
    | .nil, _ => True
    | .cons e r, d => OneScalarT e d ∧ OneScalarsT r d
end

mutual
  /-- Without loops that refer to the document the condition is that of `C24_several_partial`. -/
  theorem oneScalarT_of : ∀ (e : Expr E) (d : D), NoRooted e → OneScalar e d → OneScalarT e d
    | .not e, d, hn, h => by rw [OneScalarT]; rw [NoRooted] at hn; rw [OneScalar] at h; exact oneScalarT_of e d hn h
    | .and es, d, hn, h => by rw [OneScalarT]; rw [NoRooted] at hn; rw [OneScalar] at h; exact oneScalarsT_of es d hn h
    | .or es, d, hn, h => by rw [OneScalarT]; rw [NoRooted] at hn; rw [OneScalar] at h; exact oneScalarsT_of es d hn h
    | .loop m w i s, d, hn, h => by
      rw [NoRooted] at hn
      rw [OneScalarT, if_neg (by rw [hn]; simp)]; exact h
    | .cmp .., d, _, h | .exist _, d, _, h | .notExist _, d, _, h | .tru, d, _, h | .fals, d, _, h | .value _, d, _, h | .regex _, d, _, h
    | .pcre _, d, _, h | .time _, d, _, h | .field _, d, _, h | .func .., d, _, h => by simpa only [OneScalarT] using h
  theorem oneScalarsT_of : ∀ (es : Exprs E) (d : D), NoRootedAll es → OneScalars es d → OneScalarsT es d
    | .nil, _, _, _ => trivial
    | .cons e r, d, hn, h => ⟨oneScalarT_of e d hn.1 h.1, oneScalarsT_of r d hn.2 h.2⟩
end

/-! ### Operands -/

set_option linter.unusedSectionVars false

theorem inert_rVal (X : Fns E) (C : Comp E) {e : Expr E} (h : Inert e) (env : Env) (x : FV E) : OkScalar (rVal X C env x e) := by
  cases e with
  | func n ps =>
    rw [rVal]; intro v hv; obtain ⟨vs, _, hv⟩ := Res.bind_eq_ok.1 hv; exact applyFn_scalar X _ vs v hv
  | value g => rw [rVal]; exact .ok h
  | regex g | pcre g | time g =>
    unfold rVal
    split
    all_goals first
      | contradiction
      | (split
         · exact .ok (by simp [Scalar, Data.ty])
         · intro v hv; cases hv)
      | (intro v hv; cases hv; done)
      | (rename_i heq; cases heq; done)
  | _ => exact h.elim

section
variable {R : D → D → Prop} (hR : Likeness R)
include hR

mutual
  theorem rVal_sim (X : Fns E) (C : Comp E) {env env' : Env} (h : ∀ p, Both R (env p) (env' p)) {x y : FV E} (hv : VSim x y) : ∀ e : Expr E,
      RSim (rVal X C env x e) (rVal X C env' y e)
    | .field f => by
      rw [rVal, rVal]
      split
      · have := h f.path
        cases h1 : env f.path <;> cases h2 : env' f.path <;> rw [h1, h2] at this
        · exact Or.inl rfl
        · exact this.elim
        · exact this.elim
        · exact hR.val this
      · exact hv
    | .func n ps => by
      rw [rVal, rVal]
      exact (rVals_sim X C h hv _ ps).bind fun _ _ hv => applyFn_sim X _ hv
    | .regex v | .pcre v | .time v =>
      RSim.of_eq (by cases v <;> first | (simp only [rVal]; done) | (rename_i j; cases j <;> simp only [rVal]))
    | .value _ | .cmp .. | .exist _ | .notExist _ | .not _ | .and _ | .or _ | .loop .. | .tru | .fals => by
      apply RSim.of_eq; simp only [rVal]
  theorem rVals_sim (X : Fns E) (C : Comp E) {env env' : Env} (h : ∀ p, Both R (env p) (env' p)) {x y : FV E} (hv : VSim x y) : ∀ (k : Nat)
      (es : Exprs E), RelE VSims (rVals X C env x k es) (rVals X C env' y k es)
    | 0, _ => by rw [rVals.eq_def, rVals.eq_def]; trivial
    | k + 1, .nil => by rw [rVals.eq_def, rVals.eq_def]; trivial
    | k + 1, .cons e r => by
      rw [rVals, rVals]
      exact (rVal_sim X C h hv e).bind fun _ _ hv1 => (rVals_sim X C h hv k r).bind fun _ _ hvs => ⟨hv1, hvs⟩
end

/-- What is seen of the fields `P` of the document are values of the document, or the document is a scalar. -/
def Seen (d : D) (P : List Path) (env : Env) : Prop := ∀ p ∈ P, ∀ y, env p = some y → y ∈ walk p d ∨ ∃ ty w, y = .lit ty w

omit hR in
theorem scalarAt_rVal (X : Fns E) {C : Comp E} {w : Int} {p : Path} {d z x : D} {env : Env} {e : Expr E} (hp : RParam C w p e)
    (henv : Seen d (rootPaths e) env) (h : ScalarAt d z e) (hx : x ∈ walk p z) {a : FV E} (ha : valOf x = .ok a) :
    OkScalar (rVal X C env a e) := by
  have hi : (∀ f, e ≠ .field f) → Inert e := by
    intro he
    cases e <;> first | exact h | exact absurd rfl (he _)
  cases e with
  | field f =>
    rw [RParam] at hp
    rw [rVal]
    have h : ∀ y ∈ walk f.path (if f.root = 0 then d else z), ∃ ty w, y = .lit ty w := h
    split
    · rename_i h0
      rw [if_pos h0] at h
      cases h1 : env f.path with
      | none => rw [fieldVal]; exact .ok (by simp [missingV, Scalar, Data.ty])
      | some y =>
        have : ∃ ty w, y = .lit ty w := (henv f.path (by simp [rootPaths, h0]) y h1).elim (h y) id
        obtain ⟨ty, w, rfl⟩ := this
        exact fun v hv => scalar_lit hv
    · rename_i h0
      rw [if_neg h0] at h
      have hf : f = ⟨w, p⟩ := hp.resolve_left h0
      subst hf
      obtain ⟨ty, w, rfl⟩ := h x hx
      exact .ok (scalar_lit ha)
  | _ => exact inert_rVal X C (hi (by intro f hf; cases hf)) env a

theorem rHolds_sim (X : Fns E) {C : Comp E} {w : Int} {p : Path} {c : Cmp} {l r : Expr E} (hl : RParam C w p l) (hr : RParam C w p r)
    {d z x y : D} {env env' : Env} (h : ∀ p, Both R (env p) (env' p)) (henv : Seen d (rootPaths l ++ rootPaths r) env) (hx : x ∈ walk p z)
    (hs : c = .like ∨ ScalarAt d z l ∨ ScalarAt d z r) (hxy : R x y) : rHolds X C env c l r x = rHolds X C env' c l r y := by
  have hg : ∀ e : Expr E, rGone env e = rGone env' e := by
    intro e
    cases e with
    | field f =>
      rw [rGone, rGone]
      have := h f.path
      cases h1 : env f.path <;> cases h2 : env' f.path <;> rw [h1, h2] at this <;> first | rfl | exact this.elim
    | _ => rfl
  unfold rHolds
  rw [hg, hg]
  split
  · rfl
  · have key : RelE (fun a b : Bool => a = b) (valOf x >>= fun v => rVal X C env v l >>= fun a => rVal X C env v r >>= fun b => .ok (cmpHolds c a b))
        (valOf y >>= fun v => rVal X C env' v l >>= fun a => rVal X C env' v r >>= fun b => .ok (cmpHolds c a b)) := by
      have hv := hR.val (E := E) hxy
      cases h1 : valOf (E := E) x <;> cases h2 : valOf (E := E) y <;> rw [h1, h2] at hv <;> first | exact hv.elim | trivial | skip
      rename_i u u'
      rw [Res.bind_ok, Res.bind_ok]
      have e1 := rVal_sim hR X C h hv l
      have e2 := rVal_sim hR X C h hv r
      cases g1 : rVal X C env u l <;> cases g2 : rVal X C env' u' l <;> rw [g1, g2] at e1 <;> first | exact e1.elim | trivial | skip
      rw [Res.bind_ok, Res.bind_ok]
      cases k1 : rVal X C env u r <;> cases k2 : rVal X C env' u' r <;> rw [k1, k2] at e2 <;> first | exact e2.elim | trivial | skip
      refine cmpHolds_sim e1 e2 (hs.imp_right (Or.imp (fun hs => ?_) fun hs => ?_))
      · exact scalarAt_rVal X hl (fun p hp => henv p (List.mem_append_left _ hp)) hs hx h1 _ g1
      · exact scalarAt_rVal X hr (fun p hp => henv p (List.mem_append_right _ hp)) hs hx h1 _ k1
    generalize (valOf x >>= fun v => rVal X C env v l >>= fun a => rVal X C env v r >>= fun b => Res.ok (cmpHolds c a b)) = a at key
    generalize (valOf y >>= fun v => rVal X C env' v l >>= fun a => rVal X C env' v r >>= fun b => Res.ok (cmpHolds c a b)) = b at key
    cases a <;> cases b <;> first | exact key | exact key.elim | rfl

/-! ### Bodies -/

mutual
  theorem rsemR_like (X : Fns E) (C : Comp E) {d : D} {env env' : Env} (h : ∀ p, Both R (env p) (env' p)) : ∀ (e : Expr E) {w : Int}
      {L : List (Path × Bool)} {x y : D}, RFrag C w e → Seen d (rPaths e) env → R x y → OneScalarAt d e x →
      rsemR X C env L e x = rsemR X C env' L e y
    | .cmp c l r, w, L, x, y, hf, he, hxy, hs => by
      rw [RFrag] at hf; rw [rPaths] at he; rw [OneScalarAt] at hs
      rw [rsemR, rsemR]
      exact head_map_agree (fun a b hab => rHolds_sim hR X hf.1 hf.2 h he hab.2 hs hab.1)
        ((hR.reach false L (vPath l r) x y hxy).with fun a ha => reach_walk _ _ ha)
    | .exist e, w, L, x, y, hf, he, hxy, hs => by rw [rsemR, rsemR]; exact exist_like hR hxy L _ true
    | .not e, w, L, x, y, hf, he, hxy, hs => by
      rw [RFrag] at hf; rw [rPaths] at he; rw [OneScalarAt] at hs
      rw [rsemR, rsemR, rsemR_like X C h e hf he hxy hs]
    | .and es, w, L, x, y, hf, he, hxy, hs => by
      rw [RFrag] at hf; rw [rPaths] at he; rw [OneScalarAt] at hs
      rw [rsemR, rsemR]; exact (rsemRs_like X C h es hf he hxy hs).1
    | .or es, w, L, x, y, hf, he, hxy, hs => by
      rw [RFrag] at hf; rw [rPaths] at he; rw [OneScalarAt] at hs
      rw [rsemR, rsemR]; exact (rsemRs_like X C h es hf he hxy hs).2
    | .loop m w' i s, w, L, x, y, hf, he, hxy, hs => by
      rw [RFrag] at hf; rw [rPaths] at he; rw [OneScalarAt] at hs
      rw [rsemR, rsemR]
      refine map_agree (firstArr_like hR (Q := OneScalarAt d s) (hR.reach true L (inPath i) x y hxy) fun a ha b hb => hs a (reach_walk _ _ ha) b hb)
        fun l l' hl => holds_agree (fun a b hab => ?_) m hl
      rw [rsemR_like X C h s hf.2.2.2 he hab.1 hab.2]
    | .tru, _, _, _, _, _, _, _, _ | .fals, _, _, _, _, _, _, _, _ | .notExist _, _, _, _, _, _, _, _, _ | .value _, _, _, _, _, _, _, _, _
    | .regex _, _, _, _, _, _, _, _, _ | .pcre _, _, _, _, _, _, _, _, _ | .time _, _, _, _, _, _, _, _, _
    | .field _, _, _, _, _, _, _, _, _ | .func .., _, _, _, _, _, _, _, _ => by simp [rsemR]
  theorem rsemRs_like (X : Fns E) (C : Comp E) {d : D} {env env' : Env} (h : ∀ p, Both R (env p) (env' p)) : ∀ (es : Exprs E) {w : Int}
      {L : List (Path × Bool)} {x y : D}, RFrags C w es → Seen d (rPathsAll es) env → R x y → OneScalarsAt d es x →
      rsemRAll X C env L es x = rsemRAll X C env' L es y ∧ rsemRAny X C env L es x = rsemRAny X C env' L es y
    | .nil, _, _, _, _, _, _, _, _ => by simp [rsemRAll, rsemRAny]
    | .cons e .nil, w, L, x, y, hf, he, hxy, hs => by
      rw [RFrags] at hf; rw [OneScalarsAt] at hs
      rw [rPathsAll] at he
      simp only [rsemRAll, rsemRAny, rsemR_like X C h e hf (fun p hp => he p (List.mem_append_left _ hp)) hxy hs.1, and_self]
    | .cons e (.cons e' r), w, L, x, y, hf, he, hxy, hs => by
      rw [RFrags] at hf; rw [OneScalarsAt] at hs
      rw [rPathsAll] at he
      obtain ⟨h1, h2⟩ := rsemRs_like X C h (.cons e' r) (L := L) hf.2 (fun p hp => he p (List.mem_append_right _ hp)) hxy hs.2
      have a1 : ∀ env d, rsemRAll X C env L (.cons e (.cons e' r)) d = kAnd (rsemR X C env L e d) (rsemRAll X C env L (.cons e' r) d) :=
        fun env d => by rw [rsemRAll]
      have a2 : ∀ env d, rsemRAny X C env L (.cons e (.cons e' r)) d = kOr (rsemR X C env L e d) (rsemRAny X C env L (.cons e' r) d) :=
        fun env d => by rw [rsemRAny]
      rw [a1, a1, a2, a2, h1, h2, rsemR_like X C h e hf.1 (fun p hp => he p (List.mem_append_left _ hp)) hxy hs.1]
      exact ⟨rfl, rfl⟩
end

/-! ### Loops -/

theorem rootedLoopR_like (X : Fns E) (C : Comp E) {m : Mode} {w : Int} {i s : Expr E} (hf : RFrag C w s) {d d' : D} (hd : R d d')
    {env env' : Env} (h : ∀ p, Both R (env p) (env' p)) (he : Seen d (inPath i :: rPaths s) env)
    (hs : ∀ x ∈ d :: walk (inPath i) d, ∀ y ∈ elements x, OneScalarAt d s y) :
    rootedLoopR X C m i s d env = rootedLoopR X C m i s d' env' := by
  have key : ∀ x y : D, R x y → (∀ z ∈ elements x, OneScalarAt d s z) →
      (match x with | .arr _ es => some (Mode.holds m (fun x => decide (rsemR X C env (rConds s) s x = some true)) (esList es)) | _ => none) =
      (match y with | .arr _ es => some (Mode.holds m (fun x => decide (rsemR X C env' (rConds s) s x = some true)) (esList es)) | _ => none) := by
    intro x y hxy hq
    cases x with
    | lit ty w => cases hR.lit hxy; rfl
    | obj ws ms => obtain ⟨_, _, rfl, _⟩ := hR.obj hxy; rfl
    | arr ws es =>
      obtain ⟨_, es', rfl, ha⟩ := hR.arr hxy
      refine congrArg some (holds_agree (fun a b hab => ?_) m (ha.with hq))
      rw [rsemR_like hR X C h s hf (fun p hp => he p (List.mem_cons_of_mem _ hp)) hab.1 hab.2]
  unfold rootedLoopR
  have hb := h (inPath i)
  cases h1 : env (inPath i) with
  | none =>
    cases h2 : env' (inPath i) <;> rw [h1, h2] at hb
    · exact key d d' hd (hs d List.mem_cons_self)
    · exact hb.elim
  | some x =>
    cases h2 : env' (inPath i) <;> rw [h1, h2] at hb
    · exact hb.elim
    · refine key x _ hb ?_
      rcases he _ List.mem_cons_self x h1 with hx | ⟨ty, u, rfl⟩
      · exact hs x (List.mem_cons_of_mem _ hx)
      · intro z hz; cases hz

omit hR in
/-- Decisions made alike at related values. -/
theorem decideAt_like (hR : Likeness R) {F F' : Env → Option Bool} {K : List (Path × Bool)} {Q : D → Prop} {G : Env → Prop}
    (hG : ∀ g x, G g → Q x → G (seeing K g x))
    (hF : ∀ g g' : Env, (∀ p, Both R (g p) (g' p)) → G g → F g = F' g') {l l' : List D} (h : All2 (fun x y => R x y ∧ Q x) l l') :
    ∀ {g g' : Env}, (∀ p, Both R (g p) (g' p)) → G g → decideAt F K g l = decideAt F' K g' l' := by
  induction h with
  | nil => intro g g' _ _; rfl
  | @cons x y _ _ h _ ih =>
    intro g g' hg hG'
    have hs : ∀ p, Both R (seeing K g x p) (seeing K g' y p) := fun p => along_last (hR.reach false _ _ x y h.1) (hg p)
    rw [decideAt, decideAt, hF _ _ hs (hG _ _ hG' h.2), ih hs (hG _ _ hG' h.2)]

theorem rootedTopR_like (X : Fns E) (C : Comp E) {m : Mode} {w : Int} {i s : Expr E} (hf : RFrag C w s)
    (ha : Loose (inPath i :: rPaths s)) {d d' : D} (hd : R d d') (hs : ∀ x ∈ d :: walk (inPath i) d, ∀ y ∈ elements x, OneScalarAt d s y)
    (L : List (Path × Bool)) : rootedTopR X C L m i s d = rootedTopR X C L m i s d' := by
  have hb : ∀ p ∈ inPath i :: rPaths s, p = loopBase i s ++ p.drop (loopBase i s).length := fun p hp => by
    obtain ⟨k, p', e⟩ := (splits_of_loose (by simp) ha).1 p hp
    rw [loopBase, e, List.drop_left]
  unfold rootedTopR
  rw [decideAt_like hR (G := fun g => ∀ p y, g p = some y → y ∈ walk (loopBase i s ++ p) d) (Q := fun x => x ∈ walk (loopBase i s) d)
    (F' := fun g => rootedLoopR X C m i s d' (fieldsAt d' (loopBase i s) g)) ?_ ?_
    ((hR.reachA L (loopBase i s) d d' hd).with fun x hx => reachA_walk _ _ _ _ hx) (g := fun _ => none) (g' := fun _ => none)
    (fun _ => trivial) (fun p y h => by cases h)]
  · intro g x hg hx p y hy
    rcases lastOf_mem hy with h | h
    · exact hg p y h
    · rw [walk_append]; exact List.mem_flatMap.2 ⟨x, hx, reach_walk _ _ h⟩
  · intro g g' hgg hg
    refine rootedLoopR_like hR X C hf hd (fun p => (hgg _).or (hR.scalarOf hd)) (fun p hp y hy => ?_) hs
    unfold fieldsAt at hy
    cases h1 : g (p.drop (loopBase i s).length) with
    | none =>
      rw [h1, Option.none_or] at hy
      cases d with
      | lit ty w => cases hy; exact Or.inr ⟨_, _, rfl⟩
      | _ => cases hy
    | some z =>
      rw [h1, Option.some_or] at hy
      cases hy
      exact Or.inl ((hb p hp).symm ▸ hg _ _ h1)

mutual
  theorem top2R_likeT (X : Fns E) (C : Comp E) {L : List (Path × Bool)} {d d' : D} (h : R d d') : ∀ e : Expr E, Frag2 C e →
      OneScalarT e d → top2R X C L e d = top2R X C L e d'
    | .not e, hf, hs => by rw [Frag2] at hf; rw [OneScalarT] at hs; rw [top2R, top2R, top2R_likeT X C h e hf hs]
    | .and es, hf, hs => by rw [Frag2] at hf; rw [OneScalarT] at hs; rw [top2R, top2R]; exact (top2Rs_likeT X C h es hf hs).1
    | .or es, hf, hs => by rw [Frag2] at hf; rw [OneScalarT] at hs; rw [top2R, top2R]; exact (top2Rs_likeT X C h es hf hs).2
    | .loop m w i s, hf, hs => by
      rw [Frag2] at hf
      rw [OneScalarT] at hs
      by_cases hn : rooted s = true
      · rw [if_pos hn] at hf hs
        rw [top2R, top2R, if_pos hn, if_pos hn]
        exact rootedTopR_like hR X C hf.2.2.2.1 hf.2.2.2.2 h hs L
      · rw [if_neg hn] at hf hs
        rw [top2R, top2R, if_neg hn, if_neg hn]
        exact loop_like hR X C hf h hs L
    | .cmp c l r, hf, hs => top2R_like hR X C h (.cmp c l r) hf trivial (by simpa only [OneScalarT] using hs)
    | .exist e, hf, hs => top2R_like hR X C h (.exist e) hf trivial (by simpa only [OneScalarT] using hs)
    | .notExist e, hf, hs => top2R_like hR X C h (.notExist e) hf trivial (by simpa only [OneScalarT] using hs)
    | .tru, _, _ | .fals, _, _ | .value _, _, _ | .regex _, _, _ | .pcre _, _, _ | .time _, _, _ | .field _, _, _
    | .func .., _, _ => by simp [top2R, topR]
  theorem top2Rs_likeT (X : Fns E) (C : Comp E) {L : List (Path × Bool)} {d d' : D} (h : R d d') : ∀ es : Exprs E, Frag2s C es →
      OneScalarsT es d → top2RAll X C L es d = top2RAll X C L es d' ∧ top2RAny X C L es d = top2RAny X C L es d'
    | .nil, _, _ => ⟨rfl, rfl⟩
    | .cons e .nil, hf, hs => by
      rw [Frag2s] at hf
      simp only [top2RAll, top2RAny, top2R_likeT X C h e hf hs.1, and_self]
    | .cons e (.cons e' r), hf, hs => by
      rw [Frag2s] at hf
      obtain ⟨h1, h2⟩ := top2Rs_likeT X C (L := L) h (.cons e' r) hf.2 hs.2
      have a1 : ∀ d, top2RAll X C L (.cons e (.cons e' r)) d = (top2R X C L e d && top2RAll X C L (.cons e' r) d) := fun d => by rw [top2RAll]
      have a2 : ∀ d, top2RAny X C L (.cons e (.cons e' r)) d = (top2R X C L e d || top2RAny X C L (.cons e' r) d) := fun d => by rw [top2RAny]
      rw [a1, a1, a2, a2, h1, h2, top2R_likeT X C h e hf.1 hs.1]
      exact ⟨rfl, rfl⟩
end

/-- Related documents have the same verdict. -/
theorem verdict_likeT (X : Fns E) {C : Comp E} {slot0 : Nat} {es : List (Expr E)} {g : Expr E} {gs : List (Expr E)} (hg : genExprs es = g :: gs)
    (hf : ∀ x ∈ g :: gs, Frag2 C x) (hsafe : ∀ x ∈ g :: gs, SafeE x) {data data' : List Nat} {d d' : D}
    (hd : Begins data d) (hd' : Begins data' d') (hone : ∀ x ∈ g :: gs, OneScalarT x d) (h : R d d') :
    ∃ df, transform C slot0 es = .ok df ∧ ∀ m m', Ready df m → Ready df m' →
      ∃ b m1 m2, run X df m data = .ok (some b, m1) ∧ run X df m' data' = .ok (some b, m2) := by
  obtain ⟨df, h1, h2⟩ := C84_verdict X (slot0 := slot0) hg hf hsafe hd
  obtain ⟨df', h1', h2'⟩ := C84_verdict X (slot0 := slot0) hg hf hsafe hd'
  cases h1.symm.trans h1'
  refine ⟨df, h1, fun m m' hm hm' => ?_⟩
  obtain ⟨m1, e1⟩ := h2 m hm
  obtain ⟨m2, e2⟩ := h2' m' hm'
  refine ⟨_, m1, m2, e1, ?_⟩
  rw [e2]
  have : (g :: gs).any (fun x => top2R X C (mCondsOf (g :: gs)) x d) = (g :: gs).any (fun x => top2R X C (mCondsOf (g :: gs)) x d') := by
    rw [Bool.eq_iff_iff, List.any_eq_true, List.any_eq_true]
    constructor
    · rintro ⟨x, hx, h'⟩; exact ⟨x, hx, by rw [← top2R_likeT hR X C h x (hf x hx) (hone x hx)]; exact h'⟩
    · rintro ⟨x, hx, h'⟩; exact ⟨x, hx, by rw [top2R_likeT hR X C h x (hf x hx) (hone x hx)]; exact h'⟩
  rw [this]

end

/-! ### Layout and order -/

/-- C24 for conditions, comparisons of several fields and loops, also those that refer to the document, where no two arrays or objects are
compared: whitespace and the spelling of keys do not matter.  (Missing: the others, for which it is false, see `C24_negation`.  Bodies that
compare several fields of the variable are in `C24_elements_partial`.) -/
theorem C24_rooted_partial (X : Fns E) (C : Comp E) (slot0 : Nat) {es : List (Expr E)} {g : Expr E} {gs : List (Expr E)}
    (hg : genExprs es = g :: gs) (hf : ∀ x ∈ g :: gs, Frag2 C x) (hsafe : ∀ x ∈ g :: gs, SafeE x)
    {data data' : List Nat} {d d' : D} (hd : Begins data d) (hd' : Begins data' d') (hone : ∀ x ∈ g :: gs, OneScalarT x d) (hs : d.Same d') :
    ∃ df, transform C slot0 es = .ok df ∧ ∀ m m', Ready df m → Ready df m' →
      ∃ b m1 m2, run X df m data = .ok (some b, m1) ∧ run X df m' data' = .ok (some b, m2) :=
  verdict_likeT same_likeness X hg hf hsafe hd hd' hone hs

/-- C26 for the same expressions, on documents without repeated keys: the order of members does not matter.  (Missing: the others, for which it
is false, see `C26_negation`.  Bodies that compare several fields of the variable are in `C26_elements_partial`.) -/
theorem C26_rooted_partial (X : Fns E) (C : Comp E) (slot0 : Nat) {es : List (Expr E)} {g : Expr E} {gs : List (Expr E)}
    (hg : genExprs es = g :: gs) (hf : ∀ x ∈ g :: gs, Frag2 C x) (hsafe : ∀ x ∈ g :: gs, SafeE x)
    {data data' : List Nat} {d d' : D} (hd : Begins data d) (hd' : Begins data' d') (hone : ∀ x ∈ g :: gs, OneScalarT x d) (hdis : d.Distinct)
    (hs : Reord d d') :
    ∃ df, transform C slot0 es = .ok df ∧ ∀ m m', Ready df m → Ready df m' →
      ∃ b m1 m2, run X df m data = .ok (some b, m1) ∧ run X df m' data' = .ok (some b, m2) :=
  verdict_likeT reord_likeness X hg hf hsafe hd hd' hone ⟨hs, hdis⟩

/-! ### Examples -/

/-- `b` is a number. -/
theorem demoRooted_one : ∀ x ∈ demoRooted, OneScalarT x docL1 := by
  have hb : ScalarIn docL1 fieldB := by
    show ∀ x ∈ walk [[98]] docL1, _
    rw [show walk [[98]] docL1 = [.lit .integer [49]] from rfl]
    intro x hx
    rw [List.mem_singleton] at hx
    exact ⟨_, _, hx⟩
  have hl : ∀ m c, OneScalarT (.loop m 1 fieldA (.cmp c elemV fieldB)) docL1 := by
    intro m c
    rw [OneScalarT, if_pos (by rfl)]
    intro x _ y _
    rw [OneScalarAt]
    exact Or.inr (Or.inr hb)
  intro x hx
  simp only [demoRooted, List.mem_cons, List.not_mem_nil, or_false] at hx
  rcases hx with rfl | rfl
  · rw [OneScalarT]; exact hl _ _
  · rw [OneScalarT]
    exact ⟨hl _ _, by simp only [OneScalarT, OneScalar]; exact Or.inr (Or.inl hb), trivial⟩

/-- `C24_rooted_partial`: `NOT (ANY v IN a SATISFIES v != b)` and `(EVERY v IN a SATISFIES v < b) AND b = 1` on `{"a":[1],"b":1}` and
`{"a": [ 1] ,"b":1}`. -/
example : ∃ df, transform demoComp 0 demoRooted = .ok df ∧ ∀ m m', Ready df m → Ready df m' →
    ∃ b m1 m2, run demoFns df m textL1 = .ok (some b, m1) ∧
      run demoFns df m' [123, 34, 97, 34, 58, 32, 91, 32, 49, 93, 32, 44, 34, 98, 34, 58, 49, 125] = .ok (some b, m2) :=
  C24_rooted_partial demoFns demoComp 0 (es := demoRooted) rfl (fun x hx => (demoRooted_frag x hx).1) (fun x hx => (demoRooted_frag x hx).2.1)
    docL1_text
    (d' := .obj [] (.cons .string [34, 97, 34] [] [32] (.arr [32] (.cons (.lit .integer [49]) [] [] .nil)) [32] []
      (.cons .string [34, 98, 34] [] [] (.lit .integer [49]) [] [] .nil)))
    ⟨by simp [D.WF, Ms.WF, Es.WF, Token.IsWs, text_a, text_b, text_1, Tok.isLiteral], [], [], by simp [Token.IsWs], trivial, rfl⟩
    demoRooted_one (by simp [docL1, D.Same, Ms.Same, Es.Same, Token.SameKey])

/-- `C26_rooted_partial`: the same on `{"a":[1],"b":1}` and `{"b":1,"a":[1]}`. -/
example : ∃ df, transform demoComp 0 demoRooted = .ok df ∧ ∀ m m', Ready df m → Ready df m' →
    ∃ b m1 m2, run demoFns df m textL1 = .ok (some b, m1) ∧
      run demoFns df m' [123, 34, 98, 34, 58, 49, 44, 34, 97, 34, 58, 91, 49, 93, 125] = .ok (some b, m2) :=
  C26_rooted_partial demoFns demoComp 0 (es := demoRooted) rfl (fun x hx => (demoRooted_frag x hx).1) (fun x hx => (demoRooted_frag x hx).2.1)
    docL1_text
    (d' := .obj [] (.cons .string [34, 98, 34] [] [] (.lit .integer [49]) [] []
      (.cons .string [34, 97, 34] [] [] (.arr [] (.cons (.lit .integer [49]) [] [] .nil)) [] [] .nil)))
    ⟨by simp [D.WF, Ms.WF, Es.WF, Token.IsWs, text_a, text_b, text_1, Tok.isLiteral], [], [], by simp [Token.IsWs], trivial, rfl⟩
    demoRooted_one (by simp [docL1, D.Distinct, Ms.Distinct, Es.Distinct, Ms.keys]; decide)
    (.obj (.cons (.there .here) (.arr (.cons .lit .nil)) (.cons .here .lit .nil)))

end Verif.Transform
