import Verif.Transform.Rooted
import Verif.Transform.Nodes
import Verif.Transform.AfterLoop

/-!
# Meaning of loops that refer to the document

The decisions of the body of a loop whose conditions compare a field of the loop's variable with fields of the document.
-/

namespace Verif.Transform
open Verif.FastVal Verif.Match Verif.Expr
open Verif.Token (D Es Ms Tok)
open Verif.BinTree (Sh K UnOp BinOp)

variable {E : Ext}

/-! ### Specification: the meaning of the body for one element -/

mutual
  /-- Value of a parameter, where `x` is the value of the variable's field and `env` has those of the document's fields. -/
  def rVal (X : Fns E) (C : Comp E) (env : Env) (x : FV E) : Expr E → Res (FV E)
    | .field f => if f.root = 0 then fieldVal (env f.path) else .ok x
    | .value v => .ok (constOf v)
    | .regex (.json (.str s)) => match C.regexp s with
      | some r => .ok ⟨.regex r, true⟩
      | none => .panic
    | .pcre (.json (.str s)) => match C.pcre s with
      | some r => .ok ⟨.pcre r, true⟩
      | none => .panic
    | .time (.json (.str s)) => match E.parseTime s with
      | some t => .ok ⟨.time t, true⟩
      | none => .panic
    | .func n ps => rVals X C env x (fnameOf n).arity ps >>= fun vs => applyFn X (fnameOf n) vs
    | _ => .panic
  def rVals (X : Fns E) (C : Comp E) (env : Env) (x : FV E) : Nat → Exprs E → Res (List (FV E))
    | 0, _ => .ok []
    | _ + 1, .nil => .ok []
    | n + 1, .cons p ps => rVal X C env x p >>= fun v => rVals X C env x n ps >>= fun vs => .ok (v :: vs)
end

/-- Whether the operand is a missing field of the document. -/
def rGone (env : Env) : Expr E → Bool
  | .field f => decide (f.root = 0) && (env f.path).isNone
  | _ => false

/-- Whether a comparison holds when the variable's field has the value `x`.  If an operand is a missing field of the document only
`!=` does. -/
def rHolds (X : Fns E) (C : Comp E) (env : Env) (c : Cmp) (l r : Expr E) (x : D) : Bool :=
  if rGone env l || rGone env r then decide (c = .ne)
  else match valOf x >>= fun v => rVal X C env v l >>= fun a => rVal X C env v r >>= fun b => .ok (cmpHolds c a b) with
    | .ok b => b
    | _ => false

mutual
  /-- Value of the body on an element `d`, `none` if it depends on a missing field of the variable. -/
  def rsem (X : Fns E) (C : Comp E) (env : Env) : Expr E → D → Option Bool
    | .cmp c l r, d => (walk (vPath l r) d).head?.map (rHolds X C env c l r)
    | .exist e, d => (walk (condPath e e) d).head?.map (fun _ => true)
    | .not e, d => kNot (rsem X C env e d)
    | .and es, d => rsemAll X C env es d
    | .or es, d => rsemAny X C env es d
    | .loop m _ i s, d => (firstArr (walk (inPath i) d)).map (Mode.holds m (fun x => decide (rsem X C env s x = some true)))
    | _, _ => none
  def rsemAll (X : Fns E) (C : Comp E) (env : Env) : Exprs E → D → Option Bool
    | .nil, _ => some true
    | .cons e r, d => kAnd (rsem X C env e d) (rsemAll X C env r d)
  def rsemAny (X : Fns E) (C : Comp E) (env : Env) : Exprs E → D → Option Bool
    | .nil, _ => some false
    | .cons e r, d => kOr (rsem X C env e d) (rsemAny X C env r d)
end

mutual
  /-- As `conds`, for the variable's fields. -/
  def rConds : Expr E → List (Path × Bool)
    | .cmp _ l r => [(vPath l r, false)]
    | .exist e => [(condPath e e, false)]
    | .not e => rConds e
    | .and es => rCondsAll es
    | .or es => rCondsAll es
    | .loop _ _ i _ => [(inPath i, true)]
    | _ => []
  def rCondsAll : Exprs E → List (Path × Bool)
    | .nil => []
    | .cons e r => rConds e ++ rCondsAll r
end

mutual
  /-- As `Inner`, for the loops in the body. -/
  def RInner : Expr E → D → Prop
    | .not e, d => RInner e d
    | .and es, d => RInnerAll es d
    | .or es, d => RInnerAll es d
    | .loop _ _ i s, d => ∀ x ∈ walk (inPath i) d, ∀ y ∈ elements x, RegularAt (rConds s) y ∧ RInner s y
    | _, _ => True
  def RInnerAll : Exprs E → D → Prop
    | .nil, _ => True
    | .cons e r, d => RInner e d ∧ RInnerAll r d
end

/-! ### Operands -/

mutual
  theorem resolve_rooted (X : Fns E) (C : Comp E) {ρ : Path → Nat} {env : Env} {rd : Nat → Res (FV E)} {w : Int} {p : Path} (x : FV E) :
      ∀ (e : Expr E) (v : FV E), RParam C w p e →
      Reads2 rd ρ env (rootPaths e) → resolveParam X rd (some x) (rref C ρ e) = .ok v → rVal X C env x e = .ok v
    | .field f, v, _, h, hv => by
      rw [rref] at hv; rw [rVal]; rw [rootPaths] at h
      by_cases h0 : f.root = 0
      · simp only [if_pos h0, resolveParam] at h hv ⊢; exact h f.path (by simp) v hv
      · simp only [if_neg h0, resolveParam] at hv ⊢; exact hv
    | .value g, v, _, _, hv => by simpa [rref, refOf, resolveParam, rVal] using hv
    | .regex g, v, h, _, hv => by obtain ⟨s, r, rfl, hr⟩ := h; simpa [rref, refOf, rVal, hr, resolveParam] using hv
    | .pcre g, v, h, _, hv => by obtain ⟨s, r, rfl, hr⟩ := h; simpa [rref, refOf, rVal, hr, resolveParam] using hv
    | .time g, v, h, _, hv => by obtain ⟨s, r, rfl, hr⟩ := h; simpa [rref, refOf, rVal, hr, resolveParam] using hv
    | .func n ps, v, h, hr, hv => by
      rw [rref, resolveParam] at hv
      obtain ⟨vs, h1, hv⟩ := Res.bind_eq_ok.1 hv
      rw [rVal, resolve_rooteds X C x ps _ vs h (by rw [rootPaths] at hr; exact hr) h1, Res.bind_ok, hv]
    | .tru, v, h, _, _ | .fals, v, h, _, _ | .not _, v, h, _, _ | .and _, v, h, _, _ | .or _, v, h, _, _ | .loop .., v, h, _, _
    | .exist _, v, h, _, _ | .notExist _, v, h, _, _ | .cmp .., v, h, _, _ => by simp [RParam] at h
  theorem resolve_rooteds (X : Fns E) (C : Comp E) {ρ : Path → Nat} {env : Env} {rd : Nat → Res (FV E)} {w : Int} {p : Path} (x : FV E) :
      ∀ (es : Exprs E) (n : Nat) (vs : List (FV E)),
      RParams C w p es → Reads2 rd ρ env (rootPathsAll es) → resolveParams X rd (some x) n (rrefs C ρ es) = .ok vs → rVals X C env x n es = .ok vs
    | .nil, n, vs, _, _, hv => by cases n <;> simpa [rrefs, resolveParams, rVals] using hv
    | .cons e r, n, vs, h, hr, hv => by
      cases n with
      | zero => simpa [resolveParams, rVals] using hv
      | succ n =>
        rw [rrefs, resolveParams] at hv
        obtain ⟨v, h1, hv⟩ := Res.bind_eq_ok.1 hv
        obtain ⟨w, h2, hv⟩ := Res.bind_eq_ok.1 hv
        rw [rVals, resolve_rooted X C x e v h.1 (fun p hp => hr p (by rw [rootPathsAll]; exact List.mem_append_left _ hp)) h1, Res.bind_ok,
          resolve_rooteds X C x r n w h.2 (fun p hp => hr p (by rw [rootPathsAll]; exact List.mem_append_right _ hp)) h2, Res.bind_ok, hv]
end

theorem rref_not_slot {C : Comp E} {ρ : Path → Nat} {w : Int} {p : Path} {e : Expr E} (h : RParam C w p e) (hf : ∀ f, e ≠ .field f) :
    ∀ s, rref C ρ e ≠ .slot s := by
  intro s
  cases e with
  | field f => exact absurd rfl (hf f)
  | regex g => obtain ⟨s', r, rfl, hr⟩ := h; simp [rref, refOf, hr]
  | pcre g => obtain ⟨s', r, rfl, hr⟩ := h; simp [rref, refOf, hr]
  | time g => obtain ⟨s', r, rfl, hr⟩ := h; simp [rref, refOf, hr]
  | value g => simp [rref, refOf]
  | func n ps => simp [rref]
  | _ => simp [RParam] at h

theorem side_rooted (X : Fns E) (C : Comp E) {ρ : Path → Nat} {env : Env} {rd : Nat → Res (FV E)} {w : Int} {p : Path} (x : FV E) {e : Expr E}
    (h : RParam C w p e) (hr : Reads2 rd ρ env (rootPaths e)) {v : FV E × Bool} (hv : opSide X rd (some x) (rside C ρ e) = .ok v) :
    rVal X C env x e = .ok v.1 ∧ v.2 = rGone env e := by
  by_cases hf : ∃ f, e = .field f
  · obtain ⟨f, rfl⟩ := hf
    rw [rside] at hv
    by_cases h0 : f.root = 0
    · rw [if_pos h0, opSide] at hv
      obtain ⟨y, hy, hv⟩ := Res.bind_eq_ok.1 hv
      cases hv
      have hy := resolve_rooted X C x (.field f) y h hr (by rw [rref, if_pos h0]; exact hy)
      refine ⟨hy, ?_⟩
      rw [rVal, if_pos h0] at hy
      simp only [rGone, h0, decide_true, Bool.true_and]
      cases he : env f.path with
      | none => rw [he, fieldVal] at hy; cases hy; simp [missingV, Data.ty]
      | some d =>
        rw [he, fieldVal] at hy
        simpa using valOf_not_missing hy
    · rw [if_neg h0, opSide] at hv
      cases hv
      simp [rVal, rGone, h0]
  · have hns := rref_not_slot (ρ := ρ) h (fun f he => hf ⟨f, he⟩)
    have hside : rside C ρ e = some (rref C ρ e) := by
      cases e with
      | field f => exact absurd ⟨f, rfl⟩ hf
      | _ => simp only [rside]
    rw [hside, opSide] at hv
    obtain ⟨y, hy, hv⟩ := Res.bind_eq_ok.1 hv
    cases hv
    refine ⟨resolve_rooted X C x e y h hr hy, ?_⟩
    have ha : rGone env e = false := by
      cases e with
      | field f => exact absurd ⟨f, rfl⟩ hf
      | _ => rfl
    rw [ha]
    split
    · rename_i s hs; exact absurd hs (hns s)
    · rfl

theorem op_rooted (X : Fns E) (C : Comp E) {ρ : Path → Nat} {env : Env} {rd : Nat → Res (FV E)} {w : Int} {p : Path} {l r : Expr E}
    (hl : RParam C w p l) (hr : RParam C w p r) (hrd : Reads2 rd ρ env (rootPaths l ++ rootPaths r)) (b : Nat) (c : Cmp) {x : D} {y : FV E}
    (hy : valOf x = .ok y) {q : Bool × Bool} (h : opResult X rd (some y) ⟨b, opOf c, rside C ρ l, rside C ρ r⟩ = .ok q) :
    q.1 = (if c = .ne then !rHolds X C env c l r x else rHolds X C env c l r x) := by
  rw [opResult] at h
  simp only at h
  obtain ⟨a, ha, h⟩ := Res.bind_eq_ok.1 h
  obtain ⟨d, hd, h⟩ := Res.bind_eq_ok.1 h
  obtain ⟨a1, a2⟩ := side_rooted X C y hl (fun p hp => hrd p (List.mem_append_left _ hp)) ha
  obtain ⟨d1, d2⟩ := side_rooted X C y hr (fun p hp => hrd p (List.mem_append_right _ hp)) hd
  rw [a2, d2] at h
  unfold rHolds
  split at h
  · rename_i hg
    rw [if_pos hg]
    cases h
    cases c <;> simp
  · rename_i hg
    rw [if_neg hg]
    simp only [hy, Res.bind_ok, a1, d1]
    obtain ⟨o, ho, h⟩ := Res.bind_eq_ok.1 h
    cases h
    cases c <;> simp only [opOf, evalOp] at ho <;> cases ho <;> simp [cmpHolds]

/-! ### Running the body -/

section
variable (X : Fns E) (C : Comp E) (sh : Nat → Sh) (r : D)

/-- A run of a node that stores nothing, with the slots `σ`. -/
structure Ran1 (n : Exec E) (d : D) (σ : Slots) (l : Marks) : Prop where
  still : n.NoStore
  tidy : n.Tidy
  full : n.Full
  clear : Clear n d
  run : ∃ h a, dExec X sh r h n d σ = .ok a ∧ a.1 = l

variable {X C sh r}

theorem Ran1.ran {n : Exec E} {d : D} {σ : Slots} {l : Marks} (h : Ran1 X sh r n d σ l) : Ran X sh r n d l := by
  obtain ⟨hh, a, h1, h2⟩ := h.run
  exact ⟨h.tidy, h.full, h.clear, hh, σ, a, h1, h2⟩

theorem Ran1.one {n : Exec E} {d : D} {σ : Slots} {l : Marks} (h : Ran1 X sh r n d σ l) {i : Nat} {p : Path} {it : Item E}
    (hi : withBucket i (items n) = [(p, it)]) (hd : Direct it) {f : D → Option Bool}
    (hf : ∀ x ∈ walk p d, ∀ h l, itemMarks X sh r h it x σ = .ok l → l = (f x).toList.map (fun v => (i, v))) :
    l.get i = (walk p d).findSome? f := by
  obtain ⟨hh, a, ha, rfl⟩ := h.run
  rw [get_of_sel, dExec_decides1 X sh r hh n d σ a i ha h.still h.tidy h.full h.clear p it hi hd _ hf]
  induction walk p d with
  | nil => rfl
  | cons x w ih =>
    rw [List.flatMap_cons, List.findSome?_cons]
    cases hx : f x with
    | none => simpa using ih
    | some v => simp

/-- A condition. -/
theorem Ran1.cond {n : Exec E} {d : D} {σ : Slots} {l : Marks} (h : Ran1 X sh r n d σ l) {i : Nat} {p : Path} {o : Op E}
    (hi : (withBucket i (items n)).Perm [(p, .op o)]) {g : D → Bool}
    (hg : ∀ x ∈ walk p d, ∀ y, valOf x = .ok y → ∀ q, opResult X (slotVal r σ) (some y) o = .ok q → q.1 = g x) :
    l.get i = (walk p d).head?.map g := by
  have hi' := List.perm_singleton.1 hi
  have hb : o.bucket = i := by
    have hm : (p, Item.op o) ∈ withBucket i (items n) := by rw [hi']; exact List.mem_singleton.2 rfl
    exact (mem_withBucket.1 hm).2
  rw [h.one hi' trivial (f := fun x => some (g x)) ?_, findSome_head]
  intro x hx hh l' hl
  rw [itemMarks] at hl
  obtain ⟨y, hy, hl⟩ := Res.bind_eq_ok.1 hl
  obtain ⟨q, hq, hl⟩ := Res.bind_eq_ok.1 hl
  cases hl
  simp [hg x hx y hy q hq, hb]

mutual
  theorem blank_rooted : ∀ (e : Expr E) (v : Int) (b : Nat) (p : Nat → Option Bool), RFrag C v e →
      (∀ i, b ≤ i → i < b + (shape e).size → p i = none) → (shape e).evalM b p = blank e
    | .cmp c l r, v, b, p, h, hp => by
      cases c <;> simp_all [shape, Sh.evalM, Sh.size, blank, UnOp.eval]
    | .exist e, v, b, p, h, hp => by simp_all [shape, Sh.evalM, Sh.size, blank]
    | .not e, v, b, p, h, hp => by
      rw [shape, Sh.size] at hp
      rw [shape, Sh.evalM, hp b (by omega) (by omega), blank,
        blank_rooted e v (b + 1) p h (fun i h1 h2 => hp i (by omega) (by omega))]
      rfl
    | .and es, v, b, p, h, hp => by rw [shape] at hp ⊢; rw [blank]; exact blank_rootedAll es v b p h hp
    | .or es, v, b, p, h, hp => by rw [shape] at hp ⊢; rw [blank]; exact blank_rootedAny es v b p h hp
    | .loop m w i s, v, b, p, h, hp => by
      rw [shape, Sh.size] at hp
      rw [shape, Sh.evalM, hp b (by omega) (by omega), blank,
        blank_rooted s w (b + 1) p h.2.2.2 (fun i h1 h2 => hp i (by omega) (by omega))]
      rfl
    | .tru, v, b, p, h, _ | .fals, v, b, p, h, _ | .notExist _, v, b, p, h, _
    | .value _, v, b, n, h, _ | .regex _, v, b, n, h, _
    | .pcre _, v, b, n, h, _ | .time _, v, b, n, h, _ | .field _, v, b, n, h, _ | .func .., v, b, n, h, _ => by
      simp [RFrag] at h
  theorem blank_rootedAll : ∀ (es : Exprs E) (v : Int) (b : Nat) (p : Nat → Option Bool), RFrags C v es →
      (∀ i, b ≤ i → i < b + (shapes .and es).size → p i = none) → (shapes .and es).evalM b p = blankAll es
    | .nil, v, b, p, h, hp => by simp [RFrags] at h
    | .cons e .nil, v, b, p, h, hp => by
      rw [RFrags] at h
      rw [shapes] at hp ⊢
      rw [blankAll, blankAll, Bool.and_true]
      exact blank_rooted e v b p h hp
    | .cons e (.cons e' r), v, b, p, h, hp => by
      rw [RFrags] at h
      rw [shapes, Sh.size] at hp
      rw [shapes, Sh.evalM, hp b (by omega) (by omega), blankAll,
        blank_rooted e v (b + 1) p h.1 (fun i h1 h2 => hp i (by omega) (by omega)),
        blank_rootedAll (.cons e' r) v (b + 1 + (shape e).size) p h.2 (fun i h1 h2 => hp i (by omega) (by omega))]
      rfl
  theorem blank_rootedAny : ∀ (es : Exprs E) (v : Int) (b : Nat) (p : Nat → Option Bool), RFrags C v es →
      (∀ i, b ≤ i → i < b + (shapes .or es).size → p i = none) → (shapes .or es).evalM b p = blankAny es
    | .nil, v, b, p, h, hp => by simp [RFrags] at h
    | .cons e .nil, v, b, p, h, hp => by
      rw [RFrags] at h
      rw [shapes] at hp ⊢
      rw [blankAny, blankAny, Bool.or_false]
      exact blank_rooted e v b p h hp
    | .cons e (.cons e' r), v, b, p, h, hp => by
      rw [RFrags] at h
      rw [shapes, Sh.size] at hp
      rw [shapes, Sh.evalM, hp b (by omega) (by omega), blankAny,
        blank_rooted e v (b + 1) p h.1 (fun i h1 h2 => hp i (by omega) (by omega)),
        blank_rootedAny (.cons e' r) v (b + 1 + (shape e).size) p h.2 (fun i h1 h2 => hp i (by omega) (by omega))]
      rfl
end

mutual
  theorem kind_rItems {ρ : Path → Nat} : ∀ (e : Expr E) (v : Int) (b : Nat), RFrag C v e → (rItems C ρ e b).map kind = rConds e ∧
      ∀ x ∈ rItems C ρ e b, Direct x.2
    | .cmp c l r, v, b, h => by simp [rItems, rConds, kind, Direct]
    | .exist e, v, b, h => by simp [rItems, rConds, kind, Direct]
    | .not e, v, b, h => by rw [rItems, rConds]; exact kind_rItems e v (b + 1) h
    | .and es, v, b, h => by rw [rItems, rConds]; exact kind_rItemsAll es v b h
    | .or es, v, b, h => by rw [rItems, rConds]; exact kind_rItemsAll es v b h
    | .loop m w i s, v, b, h => by simp [rItems, rConds, kind, Direct]
    | .tru, v, b, h | .fals, v, b, h | .notExist _, v, b, h | .value _, v, b, h | .regex _, v, b, h
    | .pcre _, v, b, h | .time _, v, b, h | .field _, v, b, h | .func .., v, b, h => by
      simp [RFrag] at h
  theorem kind_rItemsAll {ρ : Path → Nat} : ∀ (es : Exprs E) (v : Int) (b : Nat), RFrags C v es → (rItemsAll C ρ es b).map kind = rCondsAll es ∧
      ∀ x ∈ rItemsAll C ρ es b, Direct x.2
    | .nil, v, b, h => by simp [RFrags] at h
    | .cons e .nil, v, b, h => by
      rw [RFrags] at h
      rw [rItemsAll, rCondsAll, rCondsAll, List.append_nil]; exact kind_rItems e v b h
    | .cons e (.cons e' r), v, b, h => by
      rw [RFrags] at h
      obtain ⟨a1, a2⟩ := kind_rItems (ρ := ρ) e v (b + 1) h.1
      obtain ⟨b1, b2⟩ := kind_rItemsAll (ρ := ρ) (.cons e' r) v (b + 1 + (shape e).size) h.2
      rw [rItemsAll, rCondsAll, List.map_append, a1, b1]
      refine ⟨rfl, fun x hx => ?_⟩
      rcases List.mem_append.1 hx with hx | hx
      · exact a2 x hx
      · exact b2 x hx
end

theorem rbody_perm {ρ : Path → Nat} {s : Expr E} {w : Int} {b : Nat} (h : RFrag C w s) : (items (rbody C ρ s b)).Perm (rItems C ρ s b) := by
  have := (rbody_adds C ρ b h).perm
  rwa [emptyExec_items, List.append_nil] at this

theorem rbody_notes {ρ : Path → Nat} {s : Expr E} {w : Int} {b : Nat} (h : RFrag C w s) : notes (rbody C ρ s b) = [] := by
  have := (rbody_adds C ρ b h).notes
  rw [emptyExec_notes] at this
  exact List.perm_nil.1 this

mutual
  theorem rItems_still {ρ : Path → Nat} : ∀ (e : Expr E) (w : Int) (b : Nat), RFrag C w e → ∀ x ∈ rItems C ρ e b, x.2.Still
    | .cmp c l r, w, b, h, x, hx => by rw [rItems, List.mem_singleton] at hx; subst hx; trivial
    | .exist e, w, b, h, x, hx => by rw [rItems, List.mem_singleton] at hx; subst hx; trivial
    | .not e, w, b, h, x, hx => by rw [rItems] at hx; exact rItems_still e w (b + 1) h x hx
    | .and es, w, b, h, x, hx => by rw [rItems] at hx; exact rItemsAll_still es w b h x hx
    | .or es, w, b, h, x, hx => by rw [rItems] at hx; exact rItemsAll_still es w b h x hx
    | .loop m w' i s, w, b, h, x, hx => by
      rw [rItems, List.mem_singleton] at hx; subst hx
      have hr := h.2.2.2
      refine still_of_items _ (fun x hx => rItems_still s w' (b + 1) hr x ((rbody_perm hr).mem_iff.1 hx)) (fun p t hm => ?_)
      have := rbody_notes (ρ := ρ) (b := b + 1) hr
      rw [rbody] at this
      rw [this] at hm; cases hm
    | .tru, w, b, h, _, _ | .fals, w, b, h, _, _ | .notExist _, w, b, h, _, _ | .value _, w, b, h, _, _ | .regex _, w, b, h, _, _
    | .pcre _, w, b, h, _, _ | .time _, w, b, h, _, _ | .field _, w, b, h, _, _ | .func .., w, b, h, _, _ => by simp [RFrag] at h
  theorem rItemsAll_still {ρ : Path → Nat} : ∀ (es : Exprs E) (w : Int) (b : Nat), RFrags C w es → ∀ x ∈ rItemsAll C ρ es b, x.2.Still
    | .nil, w, b, h, _, _ => by simp [RFrags] at h
    | .cons e .nil, w, b, h, x, hx => by rw [RFrags] at h; rw [rItemsAll] at hx; exact rItems_still e w b h x hx
    | .cons e (.cons e' r), w, b, h, x, hx => by
      rw [RFrags] at h; rw [rItemsAll] at hx
      rcases List.mem_append.1 hx with hx | hx
      · exact rItems_still e w (b + 1) h.1 x hx
      · exact rItemsAll_still (.cons e' r) w _ h.2 x hx
end

theorem rbody_still {ρ : Path → Nat} {s : Expr E} {w : Int} {b : Nat} (h : RFrag C w s) : (rbody C ρ s b).NoStore := by
  refine still_of_items _ (fun x hx => rItems_still s w b h x ((rbody_perm h).mem_iff.1 hx)) (fun p t hm => ?_)
  rw [rbody_notes h] at hm; cases hm

/-- A run of a body. -/
theorem rbody_ran {ρ : Path → Nat} {s : Expr E} {w : Int} {b : Nat} (h : RFrag C w s) {y : D} (hreg : RegularAt (rConds s) y) {σ : Slots} {hh : Nat}
    {a : Marks × Slots} (ha : dExec X sh r hh (rbody C ρ s b) y σ = .ok a) : Ran1 X sh r (rbody C ρ s b) y σ a.1 :=
  ⟨rbody_still h, (rbody_adds C ρ b h).tidy, (rbody_adds C ρ b h).full,
    clear_of_kind (rbody_perm h) (rbody_notes h) (kind_rItems s w b h).1 (kind_rItems s w b h).2 hreg, hh, a, ha, rfl⟩

mutual
  /-- The decisions of a node that hosts a compiled body give its value. -/
  theorem rsem_correct {ρ : Path → Nat} {env : Env} {σ : Slots} : ∀ (e : Expr E) (v : Int) (b : Nat) (n : Exec E) (d : D) (l : Marks),
      RFrag C v e → ShOK sh (shape e) b → RInner e d → Reads2 (E := E) (slotVal r σ) ρ env (rPaths e) →
      Hosts n (rItems C ρ e b) b (shape e).size → Ran1 X sh r n d σ l → K (shape e) b l.get = rsem X C env e d
    | .cmp c l' r', v, b, n, d, l, h, _, _, hrd, hh, hr => by
      rw [rPaths] at hrd
      by_cases hne : c = .ne
      · subst hne
        have h0 : withBucket b (items n) = [] := by
          have := hh b (by omega) (by simp [shape, Sh.size])
          simpa [rItems, withBucket, Item.bucket] using this
        have h1 := hh (b + 1) (by omega) (by simp [shape, Sh.size])
        have hc := hr.cond (p := vPath l' r') (o := ⟨b + 1, opOf .ne, rside C ρ l', rside C ρ r'⟩)
          (g := fun x => !rHolds X C env .ne l' r' x) (by simpa [rItems, withBucket, Item.bucket] using h1)
          (fun x _ y hy q hq => by have := op_rooted X C h.1 h.2 hrd _ .ne hy hq; simpa using this)
        simp only [shape, K, hr.ran.none h0, hc, rsem, BinTree.kUn]
        cases (walk (vPath l' r') d).head? <;> simp
      · have h1 := hh b (by omega) (by have := (shape (.cmp c l' r')).size_pos; omega)
        have hc := hr.cond (p := vPath l' r') (o := ⟨b, opOf c, rside C ρ l', rside C ρ r'⟩)
          (g := rHolds X C env c l' r') (by simpa [rItems, withBucket, Item.bucket, hne] using h1)
          (fun x _ y hy q hq => by have := op_rooted X C h.1 h.2 hrd _ c hy hq; simpa [hne] using this)
        have hs : shape (.cmp c l' r') = .leaf := by cases c <;> first | rfl | exact absurd rfl hne
        simp only [hs, K, hc, rsem]
    | .exist e, v, b, n, d, l, h, _, _, _, hh, hr => by
      have h1 := hh b (by omega) (by simp [shape, Sh.size])
      have hc := hr.cond (p := condPath e e) (o := ⟨b, .exists_, sideOf C e, none⟩)
        (g := fun _ => true) (by simpa [rItems, withBucket, Item.bucket] using h1)
        (fun x _ y hy q hq => op_exists X C _ h _ hq)
      simp only [shape, K, hc, rsem]
    | .not e, v, b, n, d, l, h, hsh, hi, hrd, hh, hr => by
      have h0 : withBucket b (items n) = [] := by
        have := hh b (by omega) (by simp only [shape, Sh.size]; omega)
        rw [rItems, withBucket_out (rItems_within C ρ e v (b + 1) h) (by omega)] at this
        exact List.perm_nil.1 this
      have k1 := rsem_correct (ρ := ρ) (env := env) e v (b + 1) n d l h (fun s' i hs => hsh s' i (Or.inr hs)) (by rwa [RInner] at hi)
        (by rwa [rPaths] at hrd) (by rw [rItems] at hh; exact hh.mono (by omega) (by simp only [shape, Sh.size]; omega)) hr
      simp only [shape, K, hr.ran.none h0, k1, rsem]
      rfl
    | .and es, v, b, n, d, l, h, hsh, hi, hrd, hh, hr => by
      rw [shape] at hsh ⊢; rw [rsem]; rw [RInner] at hi; rw [rItems, shape] at hh; rw [rPaths] at hrd
      exact rsemAll_correct es v b n d l h hsh hi hrd hh hr
    | .or es, v, b, n, d, l, h, hsh, hi, hrd, hh, hr => by
      rw [shape] at hsh ⊢; rw [rsem]; rw [RInner] at hi; rw [rItems, shape] at hh; rw [rPaths] at hrd
      exact rsemAny_correct es v b n d l h hsh hi hrd hh hr
    | .loop m w i s, v, b, n, d, l, h, hsh, hi, hrd, hh, hr => by
      rw [RInner] at hi; rw [rPaths] at hrd
      have hsub : ShOK sh (shape s) (b + 1) := fun s' i hs => hsh s' i (Or.inr hs)
      have hshb : sh (b + 1) = shape s := hsub _ _ (by cases shape s <;> simp [Sh.SubAt])
      have hsp := (shape s).size_pos
      have h0 : withBucket b (items n) = [] := by
        have := hh b (by omega) (by simp only [shape, Sh.size]; omega)
        simpa [rItems, withBucket, Item.bucket] using this
      have h1 := hh (b + 1) (by omega) (by simp only [shape, Sh.size]; omega)
      have h1' : withBucket (b + 1) (items n) = [(inPath i, .loop (b + 1) m none (rbody C ρ s (b + 1)))] := by
        have := List.perm_singleton.1 (by simpa [rItems, withBucket, Item.bucket] using h1 :
          (withBucket (b + 1) (items n)).Perm [(inPath i, .loop (b + 1) m none (rins C ρ s (b + 1) emptyExec))])
        exact this
      have hl := hr.one h1' trivial (f := fun x => match x with
          | .arr _ es => some (Mode.holds m (fun x => decide (rsem X C env s x = some true)) (esList es))
          | _ => none) (by
        intro x hx hh' l' hl'
        rw [itemMarks] at hl'
        cases x with
        | lit ty t => cases hl'; rfl
        | obj ws ms => cases hl'; rfl
        | arr ws es =>
          rw [dLoop] at hl'
          obtain ⟨v', hv', hl'⟩ := Res.bind_eq_ok.1 hl'
          cases hl'
          have := dItems_init (p := fun x => decide (rsem X C env s x = some true)) hv' (by
            intro y hy a ha
            obtain ⟨q1, q2⟩ := hi _ hx y hy
            have := rsem_correct (ρ := ρ) (env := env) s w (b + 1) _ y a.1 h.2.2.2 hsub q2 hrd (fun i _ _ => (rbody_perm h.2.2.2).filter _)
              (rbody_ran h.2.2.2 q1 ha)
            rw [hshb, this])
          simp [this])
      have hl := hl.trans (firstArr_find (Mode.holds m (fun x => decide (rsem X C env s x = some true))) _)
      simp only [shape, K, hr.ran.none h0, rsem]
      cases hfa : firstArr (walk (inPath i) d) with
      | some xs =>
        rw [hfa] at hl
        have hk : K (shape s) (b + 1) l.get = some (Mode.holds m (fun x => decide (rsem X C env s x = some true)) xs) := by
          cases shape s <;> simp [K, hl]
        rw [hk]
        rfl
      | none =>
        have hout : ∀ j, b ≤ j → j < b + (1 + (shape s).size) → l.get j = none := by
          intro j hj1 hj2
          by_cases hj : j = b + 1
          · subst hj; rw [hl, hfa]; rfl
          · apply hr.ran.none
            have := hh j hj1 (by simp only [shape, Sh.size]; omega)
            rw [rItems, withBucket_out (L := [_]) (b := b + 1) (n := 1) (by
              intro x hx; rw [List.mem_singleton] at hx; subst hx; simp only [Item.bucket]; omega) (by omega)] at this
            exact List.perm_nil.1 this
        rw [K_none (shape s) (b + 1) l.get (fun j h1 h2 => hout j (by omega) (by omega))]
        rfl
    | .tru, v, b, n, d, l, h, _, _, _, _, _ | .fals, v, b, n, d, l, h, _, _, _, _, _ | .notExist _, v, b, n, d, l, h, _, _, _, _, _
    | .value _, v, b, n, d, l, h, _, _, _, _, _
    | .regex _, v, b, n, d, l, h, _, _, _, _, _ | .pcre _, v, b, n, d, l, h, _, _, _, _, _ | .time _, v, b, n, d, l, h, _, _, _, _, _
    | .field _, v, b, n, d, l, h, _, _, _, _, _ | .func .., v, b, n, d, l, h, _, _, _, _, _ => by simp [RFrag] at h

  theorem rsemAll_correct {ρ : Path → Nat} {env : Env} {σ : Slots} : ∀ (es : Exprs E) (v : Int) (b : Nat) (n : Exec E) (d : D) (l : Marks),
      RFrags C v es → ShOK sh (shapes .and es) b → RInnerAll es d → Reads2 (E := E) (slotVal r σ) ρ env (rPathsAll es) →
      Hosts n (rItemsAll C ρ es b) b (shapes .and es).size → Ran1 X sh r n d σ l → K (shapes .and es) b l.get = rsemAll X C env es d
    | .nil, v, b, n, d, l, h, _, _, _, _, _ => by simp [RFrags] at h
    | .cons e .nil, v, b, n, d, l, h, hsh, hi, hrd, hh, hr => by
      rw [RFrags] at h; rw [shapes] at hsh ⊢; rw [rItemsAll, shapes] at hh; rw [RInnerAll] at hi; rw [rPathsAll] at hrd
      rw [rsemAll, rsemAll, kAnd_true]
      exact rsem_correct e v b n d l h hsh hi.1 (fun p hp => hrd p (List.mem_append_left _ hp)) hh hr
    | .cons e (.cons e' r'), v, b, n, d, l, h, hsh, hi, hrd, hh, hr => by
      rw [RFrags] at h; rw [shapes] at hsh ⊢; rw [rItemsAll, shapes, Sh.size] at hh; rw [RInnerAll] at hi; rw [rPathsAll] at hrd
      have w1 := rItems_within C ρ e v (b + 1) h.1
      have w2 := rItemsAll_within C ρ (.cons e' r') .and v (b + 1 + (shape e).size) h.2
      have h0 : withBucket b (items n) = [] := by
        have := hh b (by omega) (by omega)
        rw [withBucket_append, withBucket_out w1 (by omega), withBucket_out w2 (by omega)] at this
        exact List.perm_nil.1 this
      have a1 := rsem_correct (env := env) e v (b + 1) n d l h.1 (fun s' i hs => hsh s' i (Or.inr (Or.inl hs))) hi.1
        (fun p hp => hrd p (List.mem_append_left _ hp)) (hh.left w2 (by omega) (by omega) (by omega)) hr
      have b1 := rsemAll_correct (env := env) (.cons e' r') v (b + 1 + (shape e).size) n d l h.2 (fun s' i hs => hsh s' i (Or.inr (Or.inr hs))) hi.2
        (fun p hp => hrd p (List.mem_append_right _ hp)) (hh.right w1 (by omega) (by omega) (by omega)) hr
      rw [rsemAll]
      simp only [K, hr.ran.none h0, a1, b1, kBin_and]
      rfl

  theorem rsemAny_correct {ρ : Path → Nat} {env : Env} {σ : Slots} : ∀ (es : Exprs E) (v : Int) (b : Nat) (n : Exec E) (d : D) (l : Marks),
      RFrags C v es → ShOK sh (shapes .or es) b → RInnerAll es d → Reads2 (E := E) (slotVal r σ) ρ env (rPathsAll es) →
      Hosts n (rItemsAll C ρ es b) b (shapes .or es).size → Ran1 X sh r n d σ l → K (shapes .or es) b l.get = rsemAny X C env es d
    | .nil, v, b, n, d, l, h, _, _, _, _, _ => by simp [RFrags] at h
    | .cons e .nil, v, b, n, d, l, h, hsh, hi, hrd, hh, hr => by
      rw [RFrags] at h; rw [shapes] at hsh ⊢; rw [rItemsAll, shapes] at hh; rw [RInnerAll] at hi; rw [rPathsAll] at hrd
      rw [rsemAny, rsemAny, kOr_false]
      exact rsem_correct e v b n d l h hsh hi.1 (fun p hp => hrd p (List.mem_append_left _ hp)) hh hr
    | .cons e (.cons e' r'), v, b, n, d, l, h, hsh, hi, hrd, hh, hr => by
      rw [RFrags] at h; rw [shapes] at hsh ⊢; rw [rItemsAll, shapes, Sh.size] at hh; rw [RInnerAll] at hi; rw [rPathsAll] at hrd
      have w1 := rItems_within C ρ e v (b + 1) h.1
      have w2 := rItemsAll_within C ρ (.cons e' r') .or v (b + 1 + (shape e).size) h.2
      have h0 : withBucket b (items n) = [] := by
        have := hh b (by omega) (by omega)
        rw [withBucket_append, withBucket_out w1 (by omega), withBucket_out w2 (by omega)] at this
        exact List.perm_nil.1 this
      have a1 := rsem_correct (env := env) e v (b + 1) n d l h.1 (fun s' i hs => hsh s' i (Or.inr (Or.inl hs))) hi.1
        (fun p hp => hrd p (List.mem_append_left _ hp)) (hh.left w2 (by omega) (by omega) (by omega)) hr
      have b1 := rsemAny_correct (env := env) (.cons e' r') v (b + 1 + (shape e).size) n d l h.2 (fun s' i hs => hsh s' i (Or.inr (Or.inr hs))) hi.2
        (fun p hp => hrd p (List.mem_append_right _ hp)) (hh.right w1 (by omega) (by omega) (by omega)) hr
      rw [rsemAny]
      simp only [K, hr.ran.none h0, a1, b1, kBin_or]
      rfl
end

end

/-! ### Well-formed and safe bodies -/

mutual
  theorem rItems_at {C : Comp E} (ρ : Path → Nat) : ∀ (e : Expr E) (w : Int) (b : Nat), RFrag C w e → ∀ x ∈ rItems C ρ e b, x.2.At2 (shape e) b
    | .cmp c l r, w, b, h, x, hx => by
      rw [rItems, List.mem_singleton] at hx; subst hx
      cases c <;> simp [Item.At2, shape, IsAtom]
    | .exist e, w, b, h, x, hx => by
      rw [rItems, List.mem_singleton] at hx; subst hx; simp [Item.At2, shape, IsAtom]
    | .not e, w, b, h, x, hx => by
      rw [rItems] at hx; rw [shape]
      exact (rItems_at ρ e w (b + 1) h x hx).mono (fun _ h => h) (fun _ _ h => h)
    | .and es, w, b, h, x, hx => by rw [rItems] at hx; rw [shape]; exact rItemsAll_at ρ es .and w b h x hx
    | .or es, w, b, h, x, hx => by rw [rItems] at hx; rw [shape]; exact rItemsAll_at ρ es .or w b h x hx
    | .loop m w' i s, w, b, h, x, hx => by
      rw [rItems, List.mem_singleton] at hx; subst hx
      have hr := h.2.2.2
      exact ⟨shape s, by rw [shape]; exact ⟨rfl, rfl⟩,
        fits_of_items _ (fun x hx => rItems_at ρ s w' (b + 1) hr x ((rbody_perm hr).mem_iff.1 hx)), rbody_still hr⟩
    | .tru, w, b, h, _, _ | .fals, w, b, h, _, _ | .notExist _, w, b, h, _, _ | .value _, w, b, h, _, _ | .regex _, w, b, h, _, _
    | .pcre _, w, b, h, _, _ | .time _, w, b, h, _, _ | .field _, w, b, h, _, _ | .func .., w, b, h, _, _ => by simp [RFrag] at h
  theorem rItemsAll_at {C : Comp E} (ρ : Path → Nat) : ∀ (es : Exprs E) (o : BinOp) (w : Int) (b : Nat), RFrags C w es →
      ∀ x ∈ rItemsAll C ρ es b, x.2.At2 (shapes o es) b
    | .nil, o, w, b, h, _, _ => by simp [RFrags] at h
    | .cons e .nil, o, w, b, h, x, hx => by
      rw [RFrags] at h; rw [rItemsAll] at hx; rw [shapes]; exact rItems_at ρ e w b h x hx
    | .cons e (.cons e' r), o, w, b, h, x, hx => by
      rw [RFrags] at h; rw [rItemsAll] at hx; rw [shapes]
      rcases List.mem_append.1 hx with hx | hx
      · exact (rItems_at ρ e w (b + 1) h.1 x hx).mono (s' := .bin o (shape e) (shapes o (.cons e' r))) (b' := b)
          (fun _ h => Or.inl h) (fun _ _ h => Or.inl h)
      · exact (rItemsAll_at ρ (.cons e' r) o w _ h.2 x hx).mono (s' := .bin o (shape e) (shapes o (.cons e' r))) (b' := b)
          (fun _ h => Or.inr h) (fun _ _ h => Or.inr h)
end

theorem rbody_fits {C : Comp E} {ρ : Path → Nat} {s : Expr E} {w : Int} {b : Nat} (h : RFrag C w s) : (rbody C ρ s b).Fits (shape s) b :=
  fits_of_items _ (fun x hx => rItems_at ρ s w b h x ((rbody_perm h).mem_iff.1 hx))

theorem rrefs_nth (C : Comp E) (ρ : Path → Nat) : ∀ (ps : Exprs E) (i : Nat), (rrefs C ρ ps).nth i = (ps.nth i).map (rref C ρ)
  | .nil, _ => by simp [rrefs, Refs.nth, Exprs.nth]
  | .cons e r, 0 => by simp [rrefs, Refs.nth, Exprs.nth]
  | .cons e r, i + 1 => by simp [rrefs, Refs.nth, Exprs.nth, rrefs_nth C ρ r i]

mutual
  theorem rref_safe {C : Comp E} {ρ : Path → Nat} {n : Nat} {w : Int} {p : Path} : ∀ e : Expr E, RParam C w p e → SafeParam e →
      (∀ p ∈ rootPaths e, 0 < ρ p ∧ ρ p ≤ n) → (rref C ρ e).Safe n true
    | .func f ps, hp, h, hs => by
      rw [rref, Ref.Safe]
      rw [rootPaths] at hs
      refine ⟨h.1, rrefs_safe _ ps hp h.2.1 hs, fun hf => ?_⟩
      obtain ⟨g, h1, h2⟩ := h.2.2 hf
      exact ⟨_, by rw [rrefs_nth, h1]; simp [rref, refOf], h2⟩
    | .field f, _, _, hs => by
      rw [rref]
      rw [rootPaths] at hs
      by_cases h0 : f.root = 0
      · rw [if_pos h0] at hs ⊢
        rw [Ref.Safe]; exact hs _ (by simp)
      · rw [if_neg h0, Ref.Safe]
    | .value g, _, _, _ => by simp [rref, refOf, Ref.Safe]
    | .regex g, h, _, _ => by obtain ⟨s, r, rfl, hr⟩ := h; simp [rref, refOf, hr, Ref.Safe]
    | .pcre g, h, _, _ => by obtain ⟨s, r, rfl, hr⟩ := h; simp [rref, refOf, hr, Ref.Safe]
    | .time g, h, _, _ => by obtain ⟨s, r, rfl, hr⟩ := h; simp [rref, refOf, hr, Ref.Safe]
    | .tru, h, _, _ | .fals, h, _, _ | .not _, h, _, _ | .and _, h, _, _ | .or _, h, _, _ | .loop .., h, _, _ | .exist _, h, _, _
    | .notExist _, h, _, _ | .cmp .., h, _, _ => by simp [RParam] at h
  theorem rrefs_safe {C : Comp E} {ρ : Path → Nat} {n : Nat} {w : Int} {p : Path} : ∀ (k : Nat) (ps : Exprs E), RParams C w p ps → SafeParams k ps →
      (∀ p ∈ rootPathsAll ps, 0 < ρ p ∧ ρ p ≤ n) → (rrefs C ρ ps).Safe n true k
    | 0, ps, _, _, _ => by rw [Refs.Safe.eq_def]; trivial
    | _ + 1, .nil, _, h, _ => by simp [SafeParams] at h
    | k + 1, .cons e r, hp, h, hs => by
      rw [rrefs, Refs.Safe]; rw [SafeParams] at h; rw [rootPathsAll] at hs
      exact ⟨rref_safe e hp.1 h.1 (fun p hp => hs p (List.mem_append_left _ hp)),
        rrefs_safe k r hp.2 h.2 (fun p hp => hs p (List.mem_append_right _ hp))⟩
end

theorem rside_safe {C : Comp E} {ρ : Path → Nat} {n : Nat} {w : Int} {p : Path} {e : Expr E} (hp : RParam C w p e) (h : SafeParam e)
    (hs : ∀ p ∈ rootPaths e, 0 < ρ p ∧ ρ p ≤ n) : ∀ r ∈ rside C ρ e, r.Safe n true := by
  intro r hr
  have := rref_safe e hp h hs
  unfold rside at hr
  split at hr
  · rename_i f
    rw [rref] at this
    split at hr
    · rename_i h0
      cases hr
      rwa [if_pos h0] at this
    · cases hr
  · cases hr; exact this

mutual
  theorem rItems_safe {C : Comp E} {ρ : Path → Nat} {k : Nat} : ∀ (e : Expr E) (w : Int) (b : Nat), RFrag C w e → SafeE e →
      (∀ p ∈ rPaths e, 0 < ρ p ∧ ρ p ≤ k) → ∀ x ∈ rItems C ρ e b, x.2.Safe k
    | .cmp c l r, w, b, h, hs, hst, x, hx => by
      rw [rItems, List.mem_singleton] at hx; subst hx
      rw [rPaths] at hst
      exact ⟨opOf_ne_in c, rside_safe h.1 hs.1 (fun p hp => hst p (List.mem_append_left _ hp)),
        rside_safe h.2 hs.2 (fun p hp => hst p (List.mem_append_right _ hp))⟩
    | .exist e, w, b, h, hs, _, x, hx => by
      rw [rItems, List.mem_singleton] at hx; subst hx
      exact ⟨by simp, sideOf_safe C k hs, by intro r hr; cases hr⟩
    | .not e, w, b, h, hs, hst, x, hx => by rw [rItems] at hx; rw [rPaths] at hst; exact rItems_safe e w (b + 1) h hs hst x hx
    | .and es, w, b, h, hs, hst, x, hx => by rw [rItems] at hx; rw [rPaths] at hst; exact rItemsAll_safe es w b h hs hst x hx
    | .or es, w, b, h, hs, hst, x, hx => by rw [rItems] at hx; rw [rPaths] at hst; exact rItemsAll_safe es w b h hs hst x hx
    | .loop m w' i s, w, b, h, hs, hst, x, hx => by
      rw [rItems, List.mem_singleton] at hx; subst hx
      rw [rPaths] at hst
      have hr := h.2.2.2
      refine ⟨rfl, safe_of_items _ (fun x hx => rItems_safe s w' (b + 1) hr hs hst x ((rbody_perm hr).mem_iff.1 hx)) (fun p t hm => ?_)⟩
      have := rbody_notes (ρ := ρ) (b := b + 1) hr
      rw [rbody] at this
      rw [this] at hm; cases hm
    | .tru, w, b, h, _, _, _, _ | .fals, w, b, h, _, _, _, _ | .notExist _, w, b, h, _, _, _, _ | .value _, w, b, h, _, _, _, _
    | .regex _, w, b, h, _, _, _, _ | .pcre _, w, b, h, _, _, _, _ | .time _, w, b, h, _, _, _, _ | .field _, w, b, h, _, _, _, _
    | .func .., w, b, h, _, _, _, _ => by simp [RFrag] at h
  theorem rItemsAll_safe {C : Comp E} {ρ : Path → Nat} {k : Nat} : ∀ (es : Exprs E) (w : Int) (b : Nat), RFrags C w es → SafeEs es →
      (∀ p ∈ rPathsAll es, 0 < ρ p ∧ ρ p ≤ k) → ∀ x ∈ rItemsAll C ρ es b, x.2.Safe k
    | .nil, w, b, h, _, _, _, _ => by simp [RFrags] at h
    | .cons e .nil, w, b, h, hs, hst, x, hx => by
      rw [RFrags] at h; rw [rItemsAll] at hx; rw [rPathsAll] at hst
      exact rItems_safe e w b h hs.1 (fun p hp => hst p (List.mem_append_left _ hp)) x hx
    | .cons e (.cons e' r), w, b, h, hs, hst, x, hx => by
      rw [RFrags] at h; rw [rItemsAll] at hx; rw [rPathsAll] at hst
      rcases List.mem_append.1 hx with hx | hx
      · exact rItems_safe e w (b + 1) h.1 hs.1 (fun p hp => hst p (List.mem_append_left _ hp)) x hx
      · exact rItemsAll_safe (.cons e' r) w _ h.2 hs.2 (fun p hp => hst p (List.mem_append_right _ hp)) x hx
end

theorem rbody_safe {C : Comp E} {ρ : Path → Nat} {k : Nat} {s : Expr E} {w : Int} {b : Nat} (h : RFrag C w s) (hs : SafeE s)
    (hst : ∀ p ∈ rPaths s, 0 < ρ p ∧ ρ p ≤ k) : (rbody C ρ s b).Safe k := by
  refine safe_of_items _ (fun x hx => rItems_safe s w b h hs hst x ((rbody_perm h).mem_iff.1 hx)) (fun p t hm => ?_)
  rw [rbody_notes h] at hm; cases hm

end Verif.Transform
