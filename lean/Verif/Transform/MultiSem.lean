import Verif.Transform.Multi
import Verif.Transform.RootedSem

/-!
# Meaning of comparisons of several fields

The decisions of the node compiled from an expression of `Frag2` give the expression's value.
-/

namespace Verif.Transform
open Verif.FastVal Verif.Match Verif.Expr
open Verif.Token (D Es Ms Tok)
open Verif.BinTree (Sh K UnOp BinOp mergeSh mergeParts Shaped)

variable {E : Ext}

/-! ### Specification: the meaning of an expression on a document -/

mutual
  /-- Value of a parameter.  Functions read as many parameters as they have. -/
  def mVal (X : Fns E) (C : Comp E) (env : Env) : Expr E → Res (FV E)
    | .field f => fieldVal (env f.path)
    | .value v => .ok (constOf v)
    | .regex (.json (.str s)) => match C.regexp s with
      | some r => .ok ⟨.regex r, true⟩
      | none => .panic
    | .pcre (.json (.str s)) => match C.pcre s with
      | some r => .ok ⟨.pcre r, true⟩
      | none => .panic
    | .time (.json (.str s)) => match E.parseTime s with
      | some t => .ok ⟨.time t, true⟩
      | none => .panic
    | .func n ps => mVals X C env (fnameOf n).arity ps >>= fun vs => applyFn X (fnameOf n) vs
    | _ => .panic
  def mVals (X : Fns E) (C : Comp E) (env : Env) : Nat → Exprs E → Res (List (FV E))
    | 0, _ => .ok []
    | _ + 1, .nil => .ok []
    | n + 1, .cons p ps => mVal X C env p >>= fun v => mVals X C env n ps >>= fun vs => .ok (v :: vs)
end

/-- Whether the operand is a missing field. -/
def isGone (env : Env) : Expr E → Bool
  | .field f => (env f.path).isNone
  | _ => false

/-- Whether a comparison holds; it does not if an operand is a missing field. -/
def multiHolds (X : Fns E) (C : Comp E) (c : Cmp) (l r : Expr E) (env : Env) : Bool :=
  if isGone env l || isGone env r then false
  else match mVal X C env l >>= fun a => mVal X C env r >>= fun b => .ok (cmpHolds c a b) with
    | .ok b => b
    | _ => false

/-- A loop that refers to the document: it runs over the array, or over the document itself if the array's field is missing. -/
def rootedLoop (X : Fns E) (C : Comp E) (m : Mode) (i s : Expr E) (r : D) (env : Env) : Option Bool :=
  match (env (inPath i)).getD r with
  | .arr _ es => some (Mode.holds m (fun x => decide (rsem X C env s x = some true)) (esList es))
  | _ => none

/-- It is decided at the value at the base; if it is not, the body's value without any of its fields counts. -/
def rootedTop (X : Fns E) (C : Comp E) (m : Mode) (i s : Expr E) (d : D) : Bool :=
  ((walk (loopBase i s) d).findSome? (afterOpt (fun x => rootedLoop X C m i s d (envAt (loopBase i s) x)))).getD (blank s)

/-- A comparison of several fields: decided at the first value at the base that is not an empty array, false if there is none.
`!=` is the negation of `=`. -/
def multiTop (X : Fns E) (C : Comp E) (c : Cmp) (l r : Expr E) (d : D) : Bool :=
  let v := ((walk (base l r) d).findSome? (afterVal (fun x => multiHolds X C (if c = .ne then .eq else c) l r (envAt (base l r) x)))).getD false
  if c = .ne then !v else v

mutual
  /-- Verdict on a document. -/
  def top2 (X : Fns E) (C : Comp E) : Expr E → D → Bool
    | .cmp c l r, d => if several l r then multiTop X C c l r d else top X C (.cmp c l r) d
    | .not e, d => !top2 X C e d
    | .and es, d => top2All X C es d
    | .or es, d => top2Any X C es d
    | .loop m w i s, d => if rooted s then rootedTop X C m i s d else top X C (.loop m w i s) d
    | e, d => top X C e d
  def top2All (X : Fns E) (C : Comp E) : Exprs E → D → Bool
    | .nil, _ => true
    | .cons e r, d => top2 X C e d && top2All X C r d
  def top2Any (X : Fns E) (C : Comp E) : Exprs E → D → Bool
    | .nil, _ => false
    | .cons e r, d => top2 X C e d || top2Any X C r d
end

mutual
  /-- Paths the matcher reads: as `conds`, and the fields of comparisons of several fields and of loops that refer to the document. -/
  def mConds : Expr E → List (Path × Bool)
    | .cmp c l r => if several l r then (paths l ++ paths r).map (fun p => (p, false)) else conds (.cmp c l r)
    | .not e => mConds e
    | .and es => mCondsAll es
    | .or es => mCondsAll es
    | .loop m w i s => if rooted s then (inPath i :: rPaths s).map (fun p => (p, false)) else conds (.loop m w i s)
    | e => conds e
  def mCondsAll : Exprs E → List (Path × Bool)
    | .nil => []
    | .cons e r => mConds e ++ mCondsAll r
end

mutual
  /-- As `Inner`, where a loop that refers to the document has one base. -/
  def Inner2 : Expr E → D → Prop
    | .not e, d => Inner2 e d
    | .and es, d => Inner2All es d
    | .or es, d => Inner2All es d
    | .loop m w i s, d =>
      if rooted s then (walk (loopBase i s) d).length ≤ 1 ∧ ∀ x ∈ walk (loopBase i s) d,
        ∀ y ∈ elements ((envAt (loopBase i s) x (inPath i)).getD d), RegularAt (rConds s) y ∧ RInner s y
      else Inner (.loop m w i s) d
    | _, _ => True
  def Inner2All : Exprs E → D → Prop
    | .nil, _ => True
    | .cons e r, d => Inner2 e d ∧ Inner2All r d
end

/-! ### Operands -/

mutual
  theorem resolve_multi (X : Fns E) (C : Comp E) {ρ : Path → Nat} {env : Env} {rd : Nat → Res (FV E)} : ∀ (e : Expr E) (v : FV E), MParam C e →
      Reads2 rd ρ env (paths e) → resolveParam X rd none (slotRef C ρ e) = .ok v → mVal X C env e = .ok v
    | .field f, v, _, h, hv => by rw [slotRef, resolveParam] at hv; rw [mVal]; exact h f.path (by simp [paths]) v hv
    | .value g, v, _, _, hv => by simpa [slotRef, refOf, resolveParam, mVal] using hv
    | .regex g, v, h, _, hv => by obtain ⟨s, r, rfl, hr⟩ := h; simpa [slotRef, refOf, mVal, hr, resolveParam] using hv
    | .pcre g, v, h, _, hv => by obtain ⟨s, r, rfl, hr⟩ := h; simpa [slotRef, refOf, mVal, hr, resolveParam] using hv
    | .time g, v, h, _, hv => by obtain ⟨s, r, rfl, hr⟩ := h; simpa [slotRef, refOf, mVal, hr, resolveParam] using hv
    | .func n ps, v, h, hr, hv => by
      rw [slotRef, resolveParam] at hv
      obtain ⟨vs, h1, hv⟩ := Res.bind_eq_ok.1 hv
      rw [mVal, resolve_multis X C ps _ vs h (by rw [paths] at hr; exact hr) h1, Res.bind_ok, hv]
    | .tru, v, h, _, _ | .fals, v, h, _, _ | .not _, v, h, _, _ | .and _, v, h, _, _ | .or _, v, h, _, _ | .loop .., v, h, _, _
    | .exist _, v, h, _, _ | .notExist _, v, h, _, _ | .cmp .., v, h, _, _ => by simp [MParam] at h
  theorem resolve_multis (X : Fns E) (C : Comp E) {ρ : Path → Nat} {env : Env} {rd : Nat → Res (FV E)} : ∀ (es : Exprs E) (n : Nat) (vs : List (FV E)),
      MParams C es → Reads2 rd ρ env (pathsAll es) → resolveParams X rd none n (slotRefs C ρ es) = .ok vs → mVals X C env n es = .ok vs
    | .nil, n, vs, _, _, hv => by cases n <;> simpa [slotRefs, resolveParams, mVals] using hv
    | .cons e r, n, vs, h, hr, hv => by
      cases n with
      | zero => simpa [resolveParams, mVals] using hv
      | succ n =>
        rw [slotRefs, resolveParams] at hv
        obtain ⟨v, h1, hv⟩ := Res.bind_eq_ok.1 hv
        obtain ⟨w, h2, hv⟩ := Res.bind_eq_ok.1 hv
        rw [mVals, resolve_multi X C e v h.1 (fun p hp => hr p (by rw [pathsAll]; exact List.mem_append_left _ hp)) h1, Res.bind_ok,
          resolve_multis X C r n w h.2 (fun p hp => hr p (by rw [pathsAll]; exact List.mem_append_right _ hp)) h2, Res.bind_ok, hv]
end

theorem slotRef_not_slot {C : Comp E} {ρ : Path → Nat} {e : Expr E} (h : MParam C e) (hf : ∀ f, e ≠ .field f) : ∀ s, slotRef C ρ e ≠ .slot s := by
  intro s
  cases e with
  | field f => exact absurd rfl (hf f)
  | regex g => obtain ⟨s', r, rfl, hr⟩ := h; simp [slotRef, refOf, hr]
  | pcre g => obtain ⟨s', r, rfl, hr⟩ := h; simp [slotRef, refOf, hr]
  | time g => obtain ⟨s', r, rfl, hr⟩ := h; simp [slotRef, refOf, hr]
  | value g => simp [slotRef, refOf]
  | func n ps => simp [slotRef]
  | _ => simp [MParam] at h

theorem side_multi (X : Fns E) (C : Comp E) {ρ : Path → Nat} {env : Env} {rd : Nat → Res (FV E)} {e : Expr E} (h : MParam C e)
    (hr : Reads2 rd ρ env (paths e)) {v : FV E × Bool} (hv : opSide X rd none (some (slotRef C ρ e)) = .ok v) :
    mVal X C env e = .ok v.1 ∧ v.2 = isGone env e := by
  rw [opSide] at hv
  obtain ⟨y, hy, hv⟩ := Res.bind_eq_ok.1 hv
  cases hv
  have hy := resolve_multi X C e y h hr hy
  refine ⟨hy, ?_⟩
  by_cases hf : ∃ f, e = .field f
  · obtain ⟨f, rfl⟩ := hf
    rw [mVal] at hy
    simp only [slotRef, isGone]
    cases he : env f.path with
    | none => rw [he, fieldVal] at hy; cases hy; simp [missingV, Data.ty]
    | some d =>
      rw [he, fieldVal] at hy
      simpa using valOf_not_missing hy
  · have hns := slotRef_not_slot (ρ := ρ) h (fun f he => hf ⟨f, he⟩)
    have ha : isGone env e = false := by
      cases e with
      | field f => exact absurd ⟨f, rfl⟩ hf
      | _ => rfl
    rw [ha]
    split
    · rename_i s hs; exact absurd hs (hns s)
    · rfl

theorem op_multi (X : Fns E) (C : Comp E) {ρ : Path → Nat} {env : Env} {rd : Nat → Res (FV E)} {l r : Expr E} (hl : MParam C l) (hr : MParam C r)
    (hrd : Reads2 rd ρ env (paths l ++ paths r)) {c : Cmp} {b : Nat} {v : Bool × Bool} (h : opResult X rd none (slotOp C ρ c l r b) = .ok v) :
    v.1 = multiHolds X C (if c = .ne then .eq else c) l r env := by
  rw [opResult, slotOp] at h
  obtain ⟨a, ha, h⟩ := Res.bind_eq_ok.1 h
  obtain ⟨d, hd, h⟩ := Res.bind_eq_ok.1 h
  obtain ⟨a1, a2⟩ := side_multi X C hl (fun p hp => hrd p (List.mem_append_left _ hp)) ha
  obtain ⟨d1, d2⟩ := side_multi X C hr (fun p hp => hrd p (List.mem_append_right _ hp)) hd
  rw [a2, d2] at h
  unfold multiHolds
  split at h
  · rename_i hg
    rw [if_pos hg]
    cases h; rfl
  · rename_i hg
    rw [if_neg hg, a1, d1]
    simp only [Res.bind_ok]
    obtain ⟨o, ho, h⟩ := Res.bind_eq_ok.1 h
    cases h
    cases c <;> simp only [opOf, evalOp] at ho <;> cases ho <;> simp [cmpHolds]

/-! ### Running the node -/

section
variable (X : Fns E) (C : Comp E) (sh : Nat → Sh) (r : D)

/-- A run of a node with empty slots on an array or object. -/
structure Ran2 (ρ : Path → Nat) (n : Exec E) (l : Marks) : Prop where
  tidy : n.Tidy
  full : n.Full
  clear : Clear n r
  once : ∀ s, (withSlot s (notes n)).length ≤ 1
  range : ∀ p s, (p, Note.slot s) ∈ notes n → 0 < s
  agrees : Agrees ρ n
  document : ∀ ty w, r ≠ .lit ty w
  run : ∃ h σ a, dExec X sh r h n r σ = .ok a ∧ a.1 = l ∧ ∀ s, look σ s = none

variable {X C sh r}

theorem Ran2.ran {ρ : Path → Nat} {n : Exec E} {l : Marks} (h : Ran2 X sh r ρ n l) : Ran X sh r n r l := by
  obtain ⟨hh, σ, a, h1, h2, _⟩ := h.run
  exact ⟨h.tidy, h.full, h.clear, hh, σ, a, h1, h2⟩

/-- The slots of fields whose paths split below `q`. -/
theorem Ran2.waits {ρ : Path → Nat} {n : Exec E} {l : Marks} (h : Ran2 X sh r ρ n l) {q : Path} {S : List Path} (hs : Splits q S)
    (hst : ∀ p ∈ S, ∃ s, (p, Note.slot s) ∈ notes n) {σ : Slots} (h3 : ∀ s, look σ s = none) :
    Waits n q (S.map (fun p => (ρ p, p.drop q.length))) σ := by
  have hnote : ∀ p ∈ S, (p, Note.slot (ρ p)) ∈ notes n := by
    intro p hp
    obtain ⟨s, hm⟩ := hst p hp
    rw [h.agrees p s hm]; exact hm
  have hex : ∀ x ∈ S.map (fun p => (ρ p, p.drop q.length)), ∃ k p', x = (ρ (q ++ k :: p'), k :: p') ∧
      (q ++ k :: p', Note.slot (ρ (q ++ k :: p'))) ∈ notes n := by
    intro x hx
    obtain ⟨p, hp, rfl⟩ := List.mem_map.1 hx
    obtain ⟨k, p', rfl⟩ := hs.1 p hp
    exact ⟨k, p', by simp, hnote _ hp⟩
  refine ⟨?_, ?_, ?_, ?_, fun x _ => h3 x.1⟩
  · obtain ⟨k, p', _, _, hm, _⟩ := hs.2
    intro h0
    rw [List.map_eq_nil_iff] at h0
    rw [h0] at hm; cases hm
  · intro x hx
    obtain ⟨k, p', rfl, hm⟩ := hex x hx
    exact h.range _ _ hm
  · intro x hx
    obtain ⟨k, p', rfl, hm⟩ := hex x hx
    simp
  · intro x hx
    obtain ⟨k, p', rfl, hm⟩ := hex x hx
    exact withSlot_one (h.once _) hm

theorem Ran2.reads {ρ : Path → Nat} {n : Exec E} {l : Marks} (h : Ran2 X sh r ρ n l) {q : Path} {S : List Path} {x : D} {σ : Slots}
    (hf : Filled (S.map (fun p => (ρ p, p.drop q.length))) x σ) : Reads2 (E := E) (slotVal r σ) ρ (envAt q x) S := by
  intro p hp w hw
  rw [slotVal_look h.document hw, hf (ρ p, p.drop q.length) (List.mem_map.2 ⟨p, hp, rfl⟩)] at hw
  exact hw

/-- A comparison of several fields. -/
theorem Ran2.multi {ρ : Path → Nat} {n : Exec E} {l : Marks} (h : Ran2 X sh r ρ n l) {c : Cmp} {e e' : Expr E} {q : Path} {i b : Nat}
    (hl : MParam C e) (hr : MParam C e') (hs : Splits q (paths e ++ paths e')) (hst : ∀ p ∈ paths e ++ paths e', ∃ s, (p, Note.slot s) ∈ notes n)
    (hi : withBucket i (items n) = [(q, .aop (slotOp C ρ c e e' b))]) :
    l.get i = (walk q r).findSome? (afterVal (fun x => multiHolds X C (if c = .ne then .eq else c) e e' (envAt q x))) := by
  obtain ⟨hh, σ, a, h1, rfl, h3⟩ := h.run
  refine dExec_after X sh r hh n r σ a i q (slotOp C ρ c e e' b) ((paths e ++ paths e').map (fun p => (ρ p, p.drop q.length))) _ h1 h.tidy h.full h.clear
    hi (h.waits hs hst (fun t => by simp [look])) (fun _ _ y _ => Or.inl (h3 y.1)) ?_
  intro x _ σ' hf v hv
  exact op_multi X C hl hr (h.reads hf) hv

/-- A loop that refers to the document. -/
theorem Ran2.rooted {ρ : Path → Nat} {n : Exec E} {l : Marks} (h : Ran2 X sh r ρ n l) {m : Mode} {i s : Expr E} {w : Int} {q : Path} {b : Nat}
    (hf : RFrag C w s) (hs : Splits q (inPath i :: rPaths s)) (hst : ∀ p ∈ inPath i :: rPaths s, ∃ t, (p, Note.slot t) ∈ notes n)
    (hsh : ShOK sh (shape s) b) (hi : withBucket b (items n) = [(q, .aloop b m (some (.slot (ρ (inPath i)))) (rbody C ρ s b))])
    (hlen : (walk q r).length ≤ 1)
    (hin : ∀ x ∈ walk q r, ∀ y ∈ elements ((envAt q x (inPath i)).getD r), RegularAt (rConds s) y ∧ RInner s y) :
    l.get b = (walk q r).findSome? (afterOpt (fun x => rootedLoop X C m i s r (envAt q x))) := by
  obtain ⟨hh, σ, a, h1, rfl, h3⟩ := h.run
  have hshb : sh b = shape s := hsh _ _ (by cases shape s <;> simp [Sh.SubAt])
  refine dExec_aloop X sh r hh n r σ a b q m (ρ (inPath i)) (rbody C ρ s b) ((inPath i :: rPaths s).map (fun p => (ρ p, p.drop q.length))) _ h1 h.tidy
    h.full h.clear hi (h.waits hs hst (fun t => by simp [look])) (fun _ x _ => h3 x.1) hlen (fun x hx h' σ' hfl p l' hp hl' => ?_)
  have hp' : p = envAt q x (inPath i) := by
    have h1 : look σ' (ρ (inPath i)) = p := by
      unfold Res.idx at hp
      rw [look]
      split at hp
      · rename_i y hy; cases hp; rw [hy]; rfl
      · cases hp
    rw [← h1]
    exact hfl (ρ (inPath i), (inPath i).drop q.length) (List.mem_map.2 ⟨_, List.mem_cons_self, rfl⟩)
  have hin := hin x hx
  rw [rootedLoop]
  rw [← hp'] at hin ⊢
  cases hd : p.getD r with
  | lit ty t => rw [hd] at hl'; cases hl'; rfl
  | obj ws ms => rw [hd] at hl'; cases hl'; rfl
  | arr ws es =>
    rw [hd] at hl' hin
    rw [dLoop] at hl'
    obtain ⟨v', hv', hl'⟩ := Res.bind_eq_ok.1 hl'
    cases hl'
    have := dItems_init (p := fun y => decide (rsem X C (envAt q x) s y = some true)) hv' (by
      intro y hy a ha
      obtain ⟨q1, q2⟩ := hin y hy
      have := rsem_correct (ρ := ρ) (env := envAt q x) s w b _ y a.1 hf hsh q2
        (fun p hp => h.reads (S := inPath i :: rPaths s) hfl p (List.mem_cons_of_mem _ hp)) (fun i _ _ => (rbody_perm hf).filter _)
        (rbody_ran hf q1 ha)
      rw [hshb, this])
    simp [Marks.get, this]

theorem multi_correct {ρ : Path → Nat} {n : Exec E} {l : Marks} {c : Cmp} {e e' : Expr E} {b : Nat} (hm : several e e' = true)
    (h : MParam C e ∧ MParam C e' ∧ Loose (paths e ++ paths e')) (hst : ∀ p ∈ paths e ++ paths e', ∃ s, (p, Note.slot s) ∈ notes n)
    (hh : Hosts n [(base e e', .aop (slotOp C ρ c e e' b))] b (shape (.cmp c e e')).size) (hr : Ran2 X sh r ρ n l) :
    (shape (.cmp c e e')).evalM b l.get = multiTop X C c e e' r := by
  have hsp := splits_base hm h.2.2
  by_cases hne : c = .ne
  · subst hne
    have h0 : withBucket b (items n) = [] := by
      have := hh b (by omega) (by simp [shape, Sh.size])
      simpa [withBucket, Item.bucket, slotOp] using this
    have h1 := hh (b + 1) (by omega) (by simp [shape, Sh.size])
    rw [withBucket_single (by simp [Item.bucket, slotOp])] at h1
    have := hr.multi h.1 h.2.1 hsp hst (List.perm_singleton.1 h1)
    simp only [shape, Sh.evalM, hr.ran.none h0, this, multiTop, if_pos]
    rfl
  · have h1 := hh b (by omega) (by have := (shape (.cmp c e e')).size_pos; omega)
    rw [withBucket_single (by simp [Item.bucket, slotOp, hne])] at h1
    have := hr.multi h.1 h.2.1 hsp hst (List.perm_singleton.1 h1)
    have hs : shape (.cmp c e e') = .leaf := by cases c <;> first | rfl | exact absurd rfl hne
    simp only [hs, Sh.evalM, this, multiTop, if_neg hne]

theorem rooted_correct {ρ : Path → Nat} {n : Exec E} {l : Marks} {m : Mode} {w : Int} {i s : Expr E} {b : Nat}
    (hf : RFrag C w s) (hl : Loose (inPath i :: rPaths s)) (hst : ∀ p ∈ inPath i :: rPaths s, ∃ t, (p, Note.slot t) ∈ notes n)
    (hsh : ShOK sh (shape (.loop m w i s)) b)
    (hin : (walk (loopBase i s) r).length ≤ 1 ∧ ∀ x ∈ walk (loopBase i s) r,
      ∀ y ∈ elements ((envAt (loopBase i s) x (inPath i)).getD r), RegularAt (rConds s) y ∧ RInner s y)
    (hh : Hosts n [(loopBase i s, .aloop (b + 1) m (some (.slot (ρ (inPath i)))) (rbody C ρ s (b + 1)))] b (shape (.loop m w i s)).size)
    (hr : Ran2 X sh r ρ n l) : (shape (.loop m w i s)).evalM b l.get = rootedTop X C m i s r := by
  have hsub : ShOK sh (shape s) (b + 1) := fun s' i hs => hsh s' i (Or.inr hs)
  have hsp := (shape s).size_pos
  have h0 : withBucket b (items n) = [] := by
    have := hh b (by omega) (by simp only [shape, Sh.size]; omega)
    simpa [withBucket, Item.bucket] using this
  have h1 := hh (b + 1) (by omega) (by simp only [shape, Sh.size]; omega)
  rw [withBucket_single (by simp [Item.bucket])] at h1
  have hl := hr.rooted hf (splits_of_loose (by simp) hl) hst hsub (List.perm_singleton.1 h1) hin.1 hin.2
  simp only [shape, Sh.evalM, hr.ran.none h0, rootedTop]
  have hlb : loopBase i s = baseOf (inPath i :: rPaths s) := rfl
  rw [← hlb] at hl
  cases hfa : (walk (loopBase i s) r).findSome? (afterOpt (fun x => rootedLoop X C m i s r (envAt (loopBase i s) x))) with
  | some v =>
    rw [hfa] at hl
    have he : (shape s).evalM (b + 1) l.get = v := by
      cases shape s <;> simp [Sh.evalM, hl]
    rw [he]
    rfl
  | none =>
    have hout : ∀ j, b ≤ j → j < b + (1 + (shape s).size) → l.get j = none := by
      intro j hj1 hj2
      by_cases hj : j = b + 1
      · subst hj; rw [hl, hfa]
      · apply hr.ran.none
        have := hh j hj1 (by simp only [shape, Sh.size]; omega)
        rw [withBucket_out (L := [_]) (b := b + 1) (n := 1) (by
          intro x hx; rw [List.mem_singleton] at hx; subst hx; simp only [Item.bucket]; omega) (by omega)] at this
        exact List.perm_nil.1 this
    rw [blank_rooted s w (b + 1) l.get hf (fun j h1 h2 => hout j (by omega) (by omega))]
    rfl

mutual
  /-- The decisions of a node that hosts a compiled expression give its verdict. -/
  theorem sem2_correct {ρ : Path → Nat} : ∀ (e : Expr E) (b : Nat) (n : Exec E) (l : Marks), Frag2 C e → ShOK sh (shape e) b → Inner2 e r →
      (∀ p ∈ stored e, ∃ s, (p, Note.slot s) ∈ notes n) → Hosts n (mItems C ρ e b) b (shape e).size → Ran2 X sh r ρ n l →
      (shape e).evalM b l.get = top2 X C e r
    | .cmp c l' r', b, n, l, h, hsh, hi, hst, hh, hr => by
      rw [Frag2] at h; rw [mItems] at hh; rw [top2]; rw [stored] at hst
      by_cases hm : several l' r' = true
      · rw [if_pos hm] at h hh hst ⊢
        exact multi_correct hm h hst hh hr
      · rw [if_neg hm] at h hh hst ⊢
        exact (sem_correct _ 0 b n r l h hsh trivial hh hr.ran).2
    | .exist e, b, n, l, h, hsh, hi, _, hh, hr => by
      simp only [top2]; simp only [mItems] at hh; rw [Frag2] at h
      exact (sem_correct _ 0 b n r l h hsh trivial hh hr.ran).2
    | .notExist e, b, n, l, h, hsh, hi, _, hh, hr => by
      simp only [top2]; simp only [mItems] at hh; rw [Frag2] at h
      exact (sem_correct _ 0 b n r l h hsh trivial hh hr.ran).2
    | .loop m w i s, b, n, l, h, hsh, hi, hst, hh, hr => by
      rw [Frag2] at h; rw [mItems] at hh; rw [top2]; rw [stored] at hst; rw [Inner2] at hi
      by_cases hm : rooted s = true
      · rw [if_pos hm] at h hh hst hi ⊢
        exact rooted_correct h.2.2.2.1 h.2.2.2.2 hst hsh hi hh hr
      · rw [if_neg hm] at h hh hst hi ⊢
        exact (sem_correct _ 0 b n r l h hsh hi hh hr.ran).2
    | .tru, b, n, l, h, hsh, hi, _, hh, hr => by
      simp only [top2]; simp only [mItems] at hh
      exact (sem_correct (C := C) .tru 0 b n r l rfl hsh trivial hh hr.ran).2
    | .fals, b, n, l, h, hsh, hi, _, hh, hr => by
      simp only [top2]; simp only [mItems] at hh
      exact (sem_correct (C := C) .fals 0 b n r l rfl hsh trivial hh hr.ran).2
    | .not e, b, n, l, h, hsh, hi, hst, hh, hr => by
      rw [Frag2] at h; rw [mItems] at hh; rw [stored] at hst
      have h0 : withBucket b (items n) = [] := by
        have := hh b (by omega) (by simp only [shape, Sh.size]; omega)
        rw [withBucket_out (mItems_within C ρ e (b + 1) h) (by omega)] at this
        exact List.perm_nil.1 this
      have k2 := sem2_correct e (b + 1) n l h (fun s' i hs => hsh s' i (Or.inr hs)) (by rwa [Inner2] at hi) hst
        (hh.mono (by omega) (by simp only [shape, Sh.size]; omega)) hr
      simp only [shape, Sh.evalM, hr.ran.none h0, k2, top2]
      rfl
    | .and es, b, n, l, h, hsh, hi, hst, hh, hr => by
      rw [shape] at hsh ⊢; rw [top2]; rw [Inner2] at hi; rw [mItems, shape] at hh; rw [Frag2] at h; rw [stored] at hst
      exact sem2All_correct es b n l h hsh hi hst hh hr
    | .or es, b, n, l, h, hsh, hi, hst, hh, hr => by
      rw [shape] at hsh ⊢; rw [top2]; rw [Inner2] at hi; rw [mItems, shape] at hh; rw [Frag2] at h; rw [stored] at hst
      exact sem2Any_correct es b n l h hsh hi hst hh hr
    | .value _, b, n, l, h, _, _, _, _, _ | .regex _, b, n, l, h, _, _, _, _, _ | .pcre _, b, n, l, h, _, _, _, _, _
    | .time _, b, n, l, h, _, _, _, _, _ | .field _, b, n, l, h, _, _, _, _, _ | .func .., b, n, l, h, _, _, _, _, _ => by simp [Frag2] at h

  theorem sem2All_correct {ρ : Path → Nat} : ∀ (es : Exprs E) (b : Nat) (n : Exec E) (l : Marks), Frag2s C es → ShOK sh (shapes .and es) b →
      Inner2All es r → (∀ p ∈ storedAll es, ∃ s, (p, Note.slot s) ∈ notes n) → Hosts n (mItemsAll C ρ es b) b (shapes .and es).size →
      Ran2 X sh r ρ n l → (shapes .and es).evalM b l.get = top2All X C es r
    | .nil, b, n, l, h, _, _, _, _, _ => by simp [Frag2s] at h
    | .cons e .nil, b, n, l, h, hsh, hi, hst, hh, hr => by
      rw [Frag2s] at h; rw [shapes] at hsh ⊢; rw [mItemsAll, shapes] at hh; rw [Inner2All] at hi
      rw [storedAll, storedAll, List.append_nil] at hst
      rw [top2All, top2All, Bool.and_true]
      exact sem2_correct e b n l h hsh hi.1 hst hh hr
    | .cons e (.cons e' r'), b, n, l, h, hsh, hi, hst, hh, hr => by
      rw [Frag2s] at h; rw [shapes] at hsh ⊢; rw [mItemsAll, shapes, Sh.size] at hh; rw [Inner2All] at hi; rw [storedAll] at hst
      have w1 := mItems_within C ρ e (b + 1) h.1
      have w2 := mItemsAll_within C ρ (.cons e' r') .and (b + 1 + (shape e).size) h.2
      have h0 : withBucket b (items n) = [] := by
        have := hh b (by omega) (by omega)
        rw [withBucket_append, withBucket_out w1 (by omega), withBucket_out w2 (by omega)] at this
        exact List.perm_nil.1 this
      have a2 := sem2_correct e (b + 1) n l h.1 (fun s' i hs => hsh s' i (Or.inr (Or.inl hs))) hi.1
        (fun p hp => hst p (List.mem_append_left _ hp)) (hh.left w2 (by omega) (by omega) (by omega)) hr
      have b2 := sem2All_correct (.cons e' r') (b + 1 + (shape e).size) n l h.2 (fun s' i hs => hsh s' i (Or.inr (Or.inr hs))) hi.2
        (fun p hp => hst p (List.mem_append_right _ hp)) (hh.right w1 (by omega) (by omega) (by omega)) hr
      rw [top2All]
      simp only [Sh.evalM, hr.ran.none h0, a2, b2]
      rfl

  theorem sem2Any_correct {ρ : Path → Nat} : ∀ (es : Exprs E) (b : Nat) (n : Exec E) (l : Marks), Frag2s C es → ShOK sh (shapes .or es) b →
      Inner2All es r → (∀ p ∈ storedAll es, ∃ s, (p, Note.slot s) ∈ notes n) → Hosts n (mItemsAll C ρ es b) b (shapes .or es).size →
      Ran2 X sh r ρ n l → (shapes .or es).evalM b l.get = top2Any X C es r
    | .nil, b, n, l, h, _, _, _, _, _ => by simp [Frag2s] at h
    | .cons e .nil, b, n, l, h, hsh, hi, hst, hh, hr => by
      rw [Frag2s] at h; rw [shapes] at hsh ⊢; rw [mItemsAll, shapes] at hh; rw [Inner2All] at hi
      rw [storedAll, storedAll, List.append_nil] at hst
      rw [top2Any, top2Any, Bool.or_false]
      exact sem2_correct e b n l h hsh hi.1 hst hh hr
    | .cons e (.cons e' r'), b, n, l, h, hsh, hi, hst, hh, hr => by
      rw [Frag2s] at h; rw [shapes] at hsh ⊢; rw [mItemsAll, shapes, Sh.size] at hh; rw [Inner2All] at hi; rw [storedAll] at hst
      have w1 := mItems_within C ρ e (b + 1) h.1
      have w2 := mItemsAll_within C ρ (.cons e' r') .or (b + 1 + (shape e).size) h.2
      have h0 : withBucket b (items n) = [] := by
        have := hh b (by omega) (by omega)
        rw [withBucket_append, withBucket_out w1 (by omega), withBucket_out w2 (by omega)] at this
        exact List.perm_nil.1 this
      have a2 := sem2_correct e (b + 1) n l h.1 (fun s' i hs => hsh s' i (Or.inr (Or.inl hs))) hi.1
        (fun p hp => hst p (List.mem_append_left _ hp)) (hh.left w2 (by omega) (by omega) (by omega)) hr
      have b2 := sem2Any_correct (.cons e' r') (b + 1 + (shape e).size) n l h.2 (fun s' i hs => hsh s' i (Or.inr (Or.inr hs))) hi.2
        (fun p hp => hst p (List.mem_append_right _ hp)) (hh.right w1 (by omega) (by omega) (by omega)) hr
      rw [top2Any]
      simp only [Sh.evalM, hr.ran.none h0, a2, b2]
      rfl
end

theorem merge2_correct {ρ : Path → Nat} : ∀ (e : Expr E) (es : List (Expr E)) (b : Nat) (n : Exec E)
    (l : Marks), (∀ x ∈ e :: es, Frag2 C x) → ShOK sh (shapes .neor (.ofList (e :: es))) b → (∀ x ∈ e :: es, Inner2 x r) →
    (∀ p ∈ storedAll (.ofList (e :: es)), ∃ s, (p, Note.slot s) ∈ notes n) →
    Hosts n (mItemsAll C ρ (.ofList (e :: es)) b) b (shapes .neor (.ofList (e :: es))).size → Ran2 X sh r ρ n l →
    (shapes .neor (.ofList (e :: es))).evalM b l.get = (e :: es).any (fun x => top2 X C x r)
  | e, [], b, n, l, h, hsh, hi, hst, hh, hr => by
    simp only [Exprs.ofList, shapes, mItemsAll, storedAll, List.append_nil] at hsh hh hst ⊢
    rw [sem2_correct e b n l (h e (by simp)) hsh (hi e (by simp)) hst hh hr]
    simp
  | e, e' :: es, b, n, l, h, hsh, hi, hst, hh, hr => by
    have hfr := frag2s_of_list e' es (fun x hx => h x (List.mem_cons_of_mem _ hx))
    rw [Exprs.ofList, storedAll] at hst
    simp only [Exprs.ofList] at hfr
    simp only [Exprs.ofList, shapes, mItemsAll, Sh.size] at hsh hh ⊢
    have w1 := mItems_within C ρ e (b + 1) (h e (by simp))
    have w2 := mItemsAll_within C ρ (.cons e' (.ofList es)) .neor (b + 1 + (shape e).size) hfr
    have h0 : withBucket b (items n) = [] := by
      have := hh b (by omega) (by omega)
      rw [withBucket_append, withBucket_out w1 (by omega), withBucket_out w2 (by omega)] at this
      exact List.perm_nil.1 this
    have a2 := sem2_correct e (b + 1) n l (h e (by simp)) (fun s' i hs => hsh s' i (Or.inr (Or.inl hs))) (hi e (by simp))
      (fun p hp => hst p (List.mem_append_left _ hp)) (hh.left w2 (by omega) (by omega) (by omega)) hr
    have b2 := merge2_correct e' es (b + 1 + (shape e).size) n l (fun x hx => h x (List.mem_cons_of_mem _ hx))
      (fun s' i hs => hsh s' i (Or.inr (Or.inr hs))) (fun x hx => hi x (List.mem_cons_of_mem _ hx))
      (fun p hp => hst p (List.mem_append_right _ hp))
      (hh.right w1 (by omega) (by simp only [Exprs.ofList]; omega) (by omega)) hr
    simp only [Exprs.ofList] at b2
    simp only [Sh.evalM, hr.ran.none h0, a2, b2]
    rfl

end

/-! ### Clear documents -/

/-- The kind of an item, given what is read. -/
def Kinded (cs : List (Path × Bool)) (x : Path × Item E) : Prop :=
  match x.2 with
  | .op _ => (x.1, false) ∈ cs
  | .loop .. => (x.1, true) ∈ cs
  | .aop _ => ∃ k p', (x.1 ++ k :: p', false) ∈ cs
  | .aloop .. => ∃ k p', (x.1 ++ k :: p', false) ∈ cs

theorem Kinded.mono {cs cs' : List (Path × Bool)} {x : Path × Item E} (h : Kinded cs x) (hs : ∀ y ∈ cs, y ∈ cs') : Kinded cs' x := by
  obtain ⟨p, it⟩ := x
  cases it with
  | op o => exact hs _ h
  | loop b m t e => exact hs _ h
  | aop o => obtain ⟨k, p', h⟩ := h; exact ⟨k, p', hs _ h⟩
  | aloop b m t e => obtain ⟨k, p', h⟩ := h; exact ⟨k, p', hs _ h⟩

def LoopsThere (cs : List (Path × Bool)) (L : List (Path × Item E)) : Prop :=
  ∀ p, (p, true) ∈ cs → ∃ b m t e, (p, Item.loop b m t e) ∈ L

theorem kinded_of_kind {L : List (Path × Item E)} {cs : List (Path × Bool)} (hk : L.map kind = cs) (hd : ∀ x ∈ L, Direct x.2) :
    (∀ x ∈ L, Kinded cs x) ∧ LoopsThere cs L := by
  subst hk
  refine ⟨fun x hm => ?_, fun p hm => ?_⟩
  · have h2 := hd _ hm
    have h1 : kind x ∈ L.map kind := List.mem_map.2 ⟨_, hm, rfl⟩
    obtain ⟨p, it⟩ := x
    cases it with
    | op o => exact h1
    | loop b m t e => exact h1
    | aop o => exact absurd h2 id
    | aloop b m t e => exact absurd h2 id
  · obtain ⟨⟨q, it⟩, hx, hy⟩ := List.mem_map.1 hm
    cases it with
    | loop b m t e => cases hy; exact ⟨b, m, t, e, hx⟩
    | op o => cases hy
    | aop o => cases hy
    | aloop b m t e => cases hy

theorem kinded_frag {C : Comp E} {e : Expr E} {b : Nat} (h : Frag C 0 e) :
    (∀ x ∈ eItems C e b, Kinded (conds e) x) ∧ LoopsThere (conds e) (eItems C e b) := by
  obtain ⟨h1, h2⟩ := kind_eItems (C := C) e 0 b h
  exact kinded_of_kind h1 h2

mutual
  theorem kinded_mItems {C : Comp E} (ρ : Path → Nat) : ∀ (e : Expr E) (b : Nat), Frag2 C e →
      (∀ x ∈ mItems C ρ e b, Kinded (mConds e) x) ∧ LoopsThere (mConds e) (mItems C ρ e b) ∧ ∀ p ∈ stored e, (p, false) ∈ mConds e
    | .cmp c l r, b, h => by
      rw [Frag2] at h; rw [mItems, mConds, stored]
      by_cases hm : several l r = true
      · simp only [if_pos hm] at h ⊢
        refine ⟨fun x hx => ?_, fun p hp => ?_, fun p hp => List.mem_map.2 ⟨p, hp, rfl⟩⟩
        · rw [List.mem_singleton] at hx
          subst hx
          obtain ⟨k, p', _, _, h1, _⟩ := (splits_base hm h.2.2).2
          exact ⟨k, p', List.mem_map.2 ⟨_, h1, rfl⟩⟩
        · obtain ⟨_, _, hp⟩ := List.mem_map.1 hp
          cases hp
      · simp only [if_neg hm] at h ⊢
        exact ⟨(kinded_frag h).1, (kinded_frag h).2, fun p hp => by cases hp⟩
    | .not e, b, h => by rw [Frag2] at h; rw [mItems, mConds, stored]; exact kinded_mItems ρ e (b + 1) h
    | .and es, b, h => by rw [Frag2] at h; rw [mItems, mConds, stored]; exact kinded_mItemsAll ρ es b h
    | .or es, b, h => by rw [Frag2] at h; rw [mItems, mConds, stored]; exact kinded_mItemsAll ρ es b h
    | .exist e, b, h => by
      rw [Frag2] at h; simp only [mItems, mConds, stored]
      exact ⟨(kinded_frag h).1, (kinded_frag h).2, fun p hp => by cases hp⟩
    | .notExist e, b, h => by
      rw [Frag2] at h; simp only [mItems, mConds, stored]
      exact ⟨(kinded_frag h).1, (kinded_frag h).2, fun p hp => by cases hp⟩
    | .loop m w i s, b, h => by
      rw [Frag2] at h; rw [mItems, mConds, stored]
      by_cases hm : rooted s = true
      · simp only [if_pos hm] at h ⊢
        refine ⟨fun x hx => ?_, fun p hp => ?_, fun p hp => List.mem_map.2 ⟨p, hp, rfl⟩⟩
        · rw [List.mem_singleton] at hx
          subst hx
          obtain ⟨k, p', _, _, h1, _⟩ := (splits_of_loose (by simp) h.2.2.2.2).2
          exact ⟨k, p', List.mem_map.2 ⟨_, h1, rfl⟩⟩
        · obtain ⟨_, _, hp⟩ := List.mem_map.1 hp
          cases hp
      · simp only [if_neg hm] at h ⊢
        exact ⟨(kinded_frag h).1, (kinded_frag h).2, fun p hp => by cases hp⟩
    | .tru, b, h => by
      simp only [mItems, mConds, stored]
      exact ⟨(kinded_frag (C := C) (e := .tru) rfl).1, (kinded_frag (C := C) (e := .tru) rfl).2, fun p hp => by cases hp⟩
    | .fals, b, h => by
      simp only [mItems, mConds, stored]
      exact ⟨(kinded_frag (C := C) (e := .fals) rfl).1, (kinded_frag (C := C) (e := .fals) rfl).2, fun p hp => by cases hp⟩
    | .value _, b, h | .regex _, b, h | .pcre _, b, h | .time _, b, h | .field _, b, h | .func .., b, h => by simp [Frag2] at h
  theorem kinded_mItemsAll {C : Comp E} (ρ : Path → Nat) : ∀ (es : Exprs E) (b : Nat), Frag2s C es →
      (∀ x ∈ mItemsAll C ρ es b, Kinded (mCondsAll es) x) ∧ LoopsThere (mCondsAll es) (mItemsAll C ρ es b) ∧
      ∀ p ∈ storedAll es, (p, false) ∈ mCondsAll es
    | .nil, b, h => by simp [Frag2s] at h
    | .cons e .nil, b, h => by
      rw [Frag2s] at h
      rw [mItemsAll, mCondsAll, mCondsAll, List.append_nil, storedAll, storedAll, List.append_nil]
      exact kinded_mItems ρ e b h
    | .cons e (.cons e' r), b, h => by
      rw [Frag2s] at h
      obtain ⟨a1, a2, a3⟩ := kinded_mItems ρ e (b + 1) h.1
      obtain ⟨b1, b2, b3⟩ := kinded_mItemsAll ρ (.cons e' r) (b + 1 + (shape e).size) h.2
      rw [mItemsAll, mCondsAll, storedAll]
      refine ⟨fun x hx => ?_, fun p hp => ?_, fun p hp => ?_⟩
      · rcases List.mem_append.1 hx with hx | hx
        · exact (a1 x hx).mono (fun y hy => List.mem_append_left _ hy)
        · exact (b1 x hx).mono (fun y hy => List.mem_append_right _ hy)
      · rcases List.mem_append.1 hp with hp | hp
        · obtain ⟨b, m, t, e, h⟩ := a2 p hp; exact ⟨b, m, t, e, List.mem_append_left _ h⟩
        · obtain ⟨b, m, t, e, h⟩ := b2 p hp; exact ⟨b, m, t, e, List.mem_append_right _ h⟩
      · rcases List.mem_append.1 hp with hp | hp
        · exact List.mem_append_left _ (a3 p hp)
        · exact List.mem_append_right _ (b3 p hp)
end

/-- `Clear` from regularity. -/
theorem clear_multi {n : Exec E} {L : List (Path × Item E)} {cs : List (Path × Bool)} {d : D} (hp : (items n).Perm L)
    (hk : ∀ x ∈ L, Kinded cs x) (hl : LoopsThere cs L) (hs : ∀ p s, (p, Note.slot s) ∈ notes n → (p, false) ∈ cs)
    (ha : ∀ p, (p, Note.after) ∈ notes n → ∃ k p', (p ++ k :: p', false) ∈ cs) (h : RegularAt cs d) : Clear n d := by
  have hop : ∀ p, Reads n p → (p, false) ∈ cs := by
    rintro p (⟨o, ho⟩ | ⟨s, ho⟩)
    · exact hk _ (hp.mem_iff.1 ho)
    · exact hs p s ho
  have hany : ∀ p, Content n p → ∃ p' b, (p ++ p', b) ∈ cs := by
    rintro p (⟨it, ho⟩ | ⟨s, ho⟩)
    · have := hk _ (hp.mem_iff.1 ho)
      cases it with
      | op o => exact ⟨[], _, by rw [List.append_nil]; exact this⟩
      | loop b m t e => exact ⟨[], _, by rw [List.append_nil]; exact this⟩
      | aop o => obtain ⟨k, p', h⟩ := this; exact ⟨_, _, h⟩
      | aloop b m t e => obtain ⟨k, p', h⟩ := this; exact ⟨_, _, h⟩
    · cases s with
      | slot s => exact ⟨[], _, by rw [List.append_nil]; exact hs p s ho⟩
      | after => obtain ⟨k, p', h⟩ := ha p ho; exact ⟨_, _, h⟩
  refine ⟨fun p ho x hx he => ?_, fun p ho x hx he k p' hit => ?_, fun q b m t e hq k p hit x hx => ?_⟩
  · obtain ⟨b, m, t, e, hm⟩ := hl p (h.arr p (hop p ho) x hx he)
    exact ⟨b, m, t, e, hp.mem_iff.2 hm⟩
  · obtain ⟨p2, b, hb⟩ := hany _ hit
    refine h.obj p (hop p ho) x hx he k (p' ++ p2) b ?_
    rwa [List.append_assoc, List.cons_append] at hb
  · have hq' : (q, true) ∈ cs := hk _ (hp.mem_iff.1 hq)
    obtain ⟨p2, b', hb'⟩ := hany _ hit
    refine h.loops q hq' k (p ++ p2) b' ?_ x hx
    rwa [List.append_assoc, List.cons_append] at hb'

mutual
  theorem mItems_at {C : Comp E} (ρ : Path → Nat) : ∀ (e : Expr E) (b : Nat), Frag2 C e → ∀ x ∈ mItems C ρ e b, x.2.At2 (shape e) b
    | .cmp c l r, b, h, x, hx => by
      rw [Frag2] at h; rw [mItems] at hx
      by_cases hm : several l r = true
      · rw [if_pos hm, List.mem_singleton] at hx
        subst hx
        cases c <;> simp [Item.At2, shape, IsAtom, slotOp]
      · rw [if_neg hm] at h hx; exact (eItems_at C _ 0 b h x hx).at2
    | .not e, b, h, x, hx => by
      rw [Frag2] at h; rw [mItems] at hx; rw [shape]
      exact (mItems_at ρ e (b + 1) h x hx).mono (fun _ h => h) (fun _ _ h => h)
    | .and es, b, h, x, hx => by rw [Frag2] at h; rw [mItems] at hx; rw [shape]; exact mItemsAll_at ρ es .and b h x hx
    | .or es, b, h, x, hx => by rw [Frag2] at h; rw [mItems] at hx; rw [shape]; exact mItemsAll_at ρ es .or b h x hx
    | .exist e, b, h, x, hx => by rw [Frag2] at h; simp only [mItems] at hx; exact (eItems_at C _ 0 b h x hx).at2
    | .notExist e, b, h, x, hx => by rw [Frag2] at h; simp only [mItems] at hx; exact (eItems_at C _ 0 b h x hx).at2
    | .loop m w i s, b, h, x, hx => by
      rw [Frag2] at h; rw [mItems] at hx
      by_cases hm : rooted s = true
      · rw [if_pos hm] at h
        rw [if_pos hm, List.mem_singleton] at hx
        subst hx
        exact ⟨shape s, by rw [shape]; exact ⟨rfl, rfl⟩, rbody_fits h.2.2.2.1, rbody_still h.2.2.2.1⟩
      · rw [if_neg hm] at h hx; exact (eItems_at C _ 0 b h x hx).at2
    | .tru, b, h, x, hx | .fals, b, h, x, hx => by simp [mItems, eItems] at hx
    | .value _, b, h, _, _ | .regex _, b, h, _, _ | .pcre _, b, h, _, _ | .time _, b, h, _, _ | .field _, b, h, _, _
    | .func .., b, h, _, _ => by simp [Frag2] at h
  theorem mItemsAll_at {C : Comp E} (ρ : Path → Nat) : ∀ (es : Exprs E) (o : BinOp) (b : Nat), Frag2s C es →
      ∀ x ∈ mItemsAll C ρ es b, x.2.At2 (shapes o es) b
    | .nil, o, b, h, _, _ => by simp [Frag2s] at h
    | .cons e .nil, o, b, h, x, hx => by
      rw [Frag2s] at h; rw [mItemsAll] at hx; rw [shapes]; exact mItems_at ρ e b h x hx
    | .cons e (.cons e' r), o, b, h, x, hx => by
      rw [Frag2s] at h; rw [mItemsAll] at hx; rw [shapes]
      rcases List.mem_append.1 hx with hx | hx
      · exact (mItems_at ρ e (b + 1) h.1 x hx).mono (s' := .bin o (shape e) (shapes o (.cons e' r))) (b' := b)
          (fun _ h => Or.inl h) (fun _ _ h => Or.inl h)
      · exact (mItemsAll_at ρ (.cons e' r) o _ h.2 x hx).mono (s' := .bin o (shape e) (shapes o (.cons e' r))) (b' := b)
          (fun _ h => Or.inr h) (fun _ _ h => Or.inr h)
end

theorem slotRefs_nth (C : Comp E) (ρ : Path → Nat) : ∀ (ps : Exprs E) (i : Nat), (slotRefs C ρ ps).nth i = (ps.nth i).map (slotRef C ρ)
  | .nil, _ => by simp [slotRefs, Refs.nth, Exprs.nth]
  | .cons e r, 0 => by simp [slotRefs, Refs.nth, Exprs.nth]
  | .cons e r, i + 1 => by simp [slotRefs, Refs.nth, Exprs.nth, slotRefs_nth C ρ r i]

mutual
  theorem slotRef_safe {C : Comp E} {ρ : Path → Nat} {n : Nat} : ∀ e : Expr E, MParam C e → SafeParam e → (∀ p ∈ paths e, 0 < ρ p ∧ ρ p ≤ n) →
      (slotRef C ρ e).Safe n false
    | .func f ps, hp, h, hs => by
      rw [slotRef, Ref.Safe]
      rw [paths] at hs
      refine ⟨h.1, slotRefs_safe _ ps hp h.2.1 hs, fun hf => ?_⟩
      obtain ⟨g, h1, h2⟩ := h.2.2 hf
      exact ⟨_, by rw [slotRefs_nth, h1]; simp [slotRef, refOf], h2⟩
    | .field f, _, _, hs => by rw [slotRef, Ref.Safe]; exact hs _ (by simp [paths])
    | .value g, _, _, _ => by simp [slotRef, refOf, Ref.Safe]
    | .regex g, h, _, _ => by obtain ⟨s, r, rfl, hr⟩ := h; simp [slotRef, refOf, hr, Ref.Safe]
    | .pcre g, h, _, _ => by obtain ⟨s, r, rfl, hr⟩ := h; simp [slotRef, refOf, hr, Ref.Safe]
    | .time g, h, _, _ => by obtain ⟨s, r, rfl, hr⟩ := h; simp [slotRef, refOf, hr, Ref.Safe]
    | .tru, h, _, _ | .fals, h, _, _ | .not _, h, _, _ | .and _, h, _, _ | .or _, h, _, _ | .loop .., h, _, _ | .exist _, h, _, _
    | .notExist _, h, _, _ | .cmp .., h, _, _ => by simp [MParam] at h
  theorem slotRefs_safe {C : Comp E} {ρ : Path → Nat} {n : Nat} : ∀ (k : Nat) (ps : Exprs E), MParams C ps → SafeParams k ps →
      (∀ p ∈ pathsAll ps, 0 < ρ p ∧ ρ p ≤ n) → (slotRefs C ρ ps).Safe n false k
    | 0, ps, _, _, _ => by rw [Refs.Safe.eq_def]; trivial
    | _ + 1, .nil, _, h, _ => by simp [SafeParams] at h
    | k + 1, .cons e r, hp, h, hs => by
      rw [slotRefs, Refs.Safe]; rw [SafeParams] at h; rw [pathsAll] at hs
      exact ⟨slotRef_safe e hp.1 h.1 (fun p hp => hs p (List.mem_append_left _ hp)),
        slotRefs_safe k r hp.2 h.2 (fun p hp => hs p (List.mem_append_right _ hp))⟩
end

mutual
  theorem mItems_safe {C : Comp E} {ρ : Path → Nat} {k : Nat} : ∀ (e : Expr E) (b : Nat), Frag2 C e → SafeE e →
      (∀ p ∈ stored e, 0 < ρ p ∧ ρ p ≤ k) → ∀ x ∈ mItems C ρ e b, x.2.Safe k
    | .cmp c l r, b, h, hs, hst, x, hx => by
      rw [Frag2] at h; rw [mItems] at hx; rw [stored] at hst
      by_cases hm : several l r = true
      · rw [if_pos hm] at h hst
        rw [if_pos hm, List.mem_singleton] at hx
        subst hx
        refine ⟨opOf_ne_in c, fun y hy => ?_, fun y hy => ?_⟩
        · simp only [slotOp, Option.mem_def, Option.some.injEq] at hy
          rw [← hy]
          exact slotRef_safe l h.1 hs.1 (fun p hp => hst p (List.mem_append_left _ hp))
        · simp only [slotOp, Option.mem_def, Option.some.injEq] at hy
          rw [← hy]
          exact slotRef_safe r h.2.1 hs.2 (fun p hp => hst p (List.mem_append_right _ hp))
      · rw [if_neg hm] at h hx; exact .of_ok (eItems_safe C k _ 0 b h hs x hx)
    | .not e, b, h, hs, hst, x, hx => by
      rw [Frag2] at h; rw [mItems] at hx; rw [stored] at hst; exact mItems_safe e (b + 1) h hs hst x hx
    | .and es, b, h, hs, hst, x, hx => by
      rw [Frag2] at h; rw [mItems] at hx; rw [stored] at hst; exact mItemsAll_safe es b h hs hst x hx
    | .or es, b, h, hs, hst, x, hx => by
      rw [Frag2] at h; rw [mItems] at hx; rw [stored] at hst; exact mItemsAll_safe es b h hs hst x hx
    | .exist e, b, h, hs, _, x, hx => by rw [Frag2] at h; simp only [mItems] at hx; exact .of_ok (eItems_safe C k _ 0 b h hs x hx)
    | .notExist e, b, h, hs, _, x, hx => by rw [Frag2] at h; simp only [mItems] at hx; exact .of_ok (eItems_safe C k _ 0 b h hs x hx)
    | .loop m w i s, b, h, hs, hst, x, hx => by
      rw [Frag2] at h; rw [mItems] at hx; rw [stored] at hst
      by_cases hm : rooted s = true
      · rw [if_pos hm] at h hst
        rw [if_pos hm, List.mem_singleton] at hx
        subst hx
        exact ⟨⟨_, rfl, hst _ List.mem_cons_self⟩, rbody_safe h.2.2.2.1 hs (fun p hp => hst p (List.mem_cons_of_mem _ hp))⟩
      · rw [if_neg hm] at h hx; exact .of_ok (eItems_safe C k _ 0 b h hs x hx)
    | .tru, b, h, _, _, x, hx | .fals, b, h, _, _, x, hx => by simp [mItems, eItems] at hx
    | .value _, b, h, _, _, _, _ | .regex _, b, h, _, _, _, _ | .pcre _, b, h, _, _, _, _ | .time _, b, h, _, _, _, _
    | .field _, b, h, _, _, _, _ | .func .., b, h, _, _, _, _ => by simp [Frag2] at h
  theorem mItemsAll_safe {C : Comp E} {ρ : Path → Nat} {k : Nat} : ∀ (es : Exprs E) (b : Nat), Frag2s C es → SafeEs es →
      (∀ p ∈ storedAll es, 0 < ρ p ∧ ρ p ≤ k) → ∀ x ∈ mItemsAll C ρ es b, x.2.Safe k
    | .nil, b, h, _, _, _, _ => by simp [Frag2s] at h
    | .cons e .nil, b, h, hs, hst, x, hx => by
      rw [Frag2s] at h; rw [mItemsAll] at hx; rw [storedAll] at hst
      exact mItems_safe e b h hs.1 (fun p hp => hst p (List.mem_append_left _ hp)) x hx
    | .cons e (.cons e' r), b, h, hs, hst, x, hx => by
      rw [Frag2s] at h; rw [mItemsAll] at hx; rw [storedAll] at hst
      rcases List.mem_append.1 hx with hx | hx
      · exact mItems_safe e (b + 1) h.1 hs.1 (fun p hp => hst p (List.mem_append_left _ hp)) x hx
      · exact mItemsAll_safe (.cons e' r) _ h.2 hs.2 (fun p hp => hst p (List.mem_append_right _ hp)) x hx
end

/-! ### The compiled definition -/

/-- What the matcher reads. -/
def mCondsOf (gs : List (Expr E)) : List (Path × Bool) := gs.flatMap mConds

theorem mCondsAll_of_list : ∀ gs : List (Expr E), mCondsAll (.ofList gs) = mCondsOf gs
  | [] => rfl
  | g :: gs => by rw [Exprs.ofList, mCondsAll, mCondsAll_of_list gs]; rfl

/-- A document on which the matcher sees all the values it needs. -/
structure Regular2 (gs : List (Expr E)) (d : D) : Prop where
  document : ∀ ty w, d ≠ .lit ty w
  outer : RegularAt (mCondsOf gs) d
  inner : ∀ x ∈ gs, Inner2 x d

/-- Expressions of the fragment are compiled without a crash; the definition is well-formed, and its decisions are those of a node
that hosts the expressions. -/
theorem transform_multi (C : Comp E) (slot0 : Nat) (es : List (Expr E)) {g : Expr E} {gs : List (Expr E)} (hg : genExprs es = g :: gs)
    (h : ∀ x ∈ g :: gs, Frag2 C x) :
    ∃ df n, transform C slot0 es = .ok df ∧ df.WF (shapes .neor (.ofList (g :: gs))) n ∧
      df.buckets = bucketIds es ((mergeParts (shape g) (gs.map shape) 0).map Prod.snd) ∧
      ((∀ x ∈ g :: gs, SafeE x) → n.Safe df.numSlots) ∧
      ∀ (X : Fns E) (r : D), Regular2 (g :: gs) r → ∀ k l, decisions X (shapes .neor (.ofList (g :: gs))) n k r = .ok l →
        ∃ ρ, (∀ p ∈ storedAll (.ofList (g :: gs)), ∃ s, (p, Note.slot s) ∈ notes n) ∧
          Hosts n (mItemsAll C ρ (.ofList (g :: gs)) 0) 0 (shapes .neor (.ofList (g :: gs))).size ∧
          Ran2 X (subtree (shapes .neor (.ofList (g :: gs))) 0) r ρ n l := by
  obtain ⟨t, h1, h2, h3⟩ := tMerge_multi C g gs (initT slot0) 0 h (initT_start slot0) rfl (good_empty _) (by intro x hx; cases hx)
  obtain ⟨hG, hids⟩ := tMerge_grown C g gs (initT slot0) t 0 (initT_start slot0) h1
  have hfr := frag2s_of_list g gs h
  obtain ⟨ρ, hρ⟩ := agrees_exists h2.good.tidy
  have hperm : (items t.1.root).Perm (mItemsAll C ρ (.ofList (g :: gs)) 0) := by
    have := h2.perm ρ hρ
    simpa [initT, emptyExec, items, itemsE, loopItems, afterItems] using this
  have hempty : ∀ x, x ∉ notes (initT slot0 : T E).root := by
    intro x hx
    have : notes (initT slot0 : T E).root = [] := emptyExec_notes
    rw [this] at hx; cases hx
  have hslots : ∀ p s, (p, Note.slot s) ∈ notes t.1.root → p ∈ storedAll (.ofList (g :: gs)) := by
    intro p s hm
    rcases h2.slots p s hm with hm | hm
    · exact absurd hm (hempty _)
    · exact hm
  have hafters : ∀ p, (p, Note.after) ∈ notes t.1.root → ∃ k p', p ++ k :: p' ∈ storedAll (.ofList (g :: gs)) := by
    intro p hm
    rcases h2.afters p hm with hm | hm
    · exact absurd hm (hempty _)
    · exact hm
  refine ⟨_, t.1.root, by rw [transform_cons C slot0 es hg, h1]; rfl, ⟨rfl, ?_, ?_, ?_⟩, ?_, ?_, ?_⟩
  · rw [shapes_merge]; exact hG.shaped
  · rw [shapes_merge]; have := hG.len; simpa [initT] using this
  · refine fits_of_items _ (fun x hx => ?_)
    exact mItemsAll_at ρ _ .neor 0 hfr x (hperm.mem_iff.1 hx)
  · simp only; rw [hids]; rfl
  · intro hsafe
    refine safe_of_items _ (fun x hx => ?_) (fun p s hm => (h2.good.range p s hm).2)
    refine mItemsAll_safe _ 0 hfr (safeEs_of_list _ hsafe) (fun p hp => ?_) x (hperm.mem_iff.1 hx)
    obtain ⟨s, hm⟩ := h3 p hp
    rw [hρ p s hm]
    exact h2.good.range p s hm
  · intro X r hreg k l hl
    obtain ⟨k1, k2, k3⟩ := kinded_mItemsAll (C := C) ρ (.ofList (g :: gs)) 0 hfr
    unfold decisions at hl
    obtain ⟨a, ha, hl⟩ := Res.bind_eq_ok.1 hl
    refine ⟨ρ, h3, fun i _ _ => hperm.filter _, ?_⟩
    refine ⟨h2.good.tidy, h2.good.full, ?_, h2.good.once, fun p s hm => (h2.good.range p s hm).1, hρ, hreg.document, _, _, a, ha, ?_, ?_⟩
    · refine clear_multi hperm k1 k2 (fun p s hm => k3 p (hslots p s hm)) (fun p hm => ?_) (by rw [mCondsAll_of_list]; exact hreg.outer)
      obtain ⟨k, p', hm⟩ := hafters p hm
      exact ⟨k, p', k3 _ hm⟩
    · cases hl; rfl
    · intro s
      rw [look]
      cases hx : (List.replicate k (none : Option D))[s - 1]? with
      | none => rfl
      | some x =>
        rw [List.getElem?_eq_some_iff] at hx
        obtain ⟨_, hx⟩ := hx
        rw [List.getElem_replicate] at hx
        rw [← hx]; rfl

/-- The matcher of the compiled definition finds out whether one of the expressions holds. -/
theorem run_multi (X : Fns E) {C : Comp E} {slot0 : Nat} {es : List (Expr E)} {g : Expr E} {gs : List (Expr E)} (hg : genExprs es = g :: gs)
    (h : ∀ x ∈ g :: gs, Frag2 C x) (hsafe : ∀ x ∈ g :: gs, SafeE x) {data : List Nat} {r : D} (hr : Begins data r)
    (hreg : Regular2 (g :: gs) r) :
    ∃ df, transform C slot0 es = .ok df ∧ ∀ m, Ready df m →
      ∃ m', run X df m data = .ok (some ((g :: gs).any (fun x => top2 X C x r)), m') := by
  obtain ⟨df, n, h1, hw, _, hs, hv⟩ := transform_multi C slot0 es hg h
  refine ⟨df, h1, fun m hm => ?_⟩
  obtain ⟨b, m', e1, e2⟩ := run_total X hw (hs hsafe) hr hm
  unfold verdict at e2
  obtain ⟨l, hl, e2⟩ := Res.bind_eq_ok.1 e2
  cases e2
  obtain ⟨ρ, r1, r2, r3⟩ := hv X r hreg _ l hl
  rw [merge2_correct (ρ := ρ) g gs 0 n l h (subtree_ok _ 0) hreg.inner r1 r2 r3] at e1
  exact ⟨m', e1⟩

end Verif.Transform
