import Verif.Filter.Multi
import Verif.Transform.ReachPairs

/-!
# C51 on any document

`Filter/Theorems.lean` and `Filter/Multi.lean` require the documents to be free of the values that the matcher overlooks.  Here documents are
arbitrary: a filter is true on what the matcher sees of the document.  It does not see empty arrays, nor empty objects below which other
conditions are; a comparison of several fields is decided at the first value below which they all are and which is no empty array; the
fields of a comparison of several fields of a document that is a scalar are the document.
-/

namespace Verif.Filter
open Verif.FastVal Verif.Expr Verif.Transform
open Verif.Match (valOf Ready run newMatcher Begins Divisor demoDoc demoFns missingV)
open Verif.Token (D Ms Es)

variable {E : Ext}

/-! ### Specification -/

/-- The first value of the field that is seen; `P` are the fields of the whole filter. -/
def seenField (P : List Path) (ps : List Path) (d : D) : Option D :=
  ((walk (ps.head?.getD []) d).filter (visible P (ps.head?.getD []))).head?

/-- As `onField`. -/
def onSeen (P : List Path) (ps : List Path) (d : D) (dflt : Bool) (test : FV E → Bool) : Bool :=
  match seenField P ps d with
  | none => dflt
  | some x => match valOf x with
    | .ok v => test v
    | _ => false

/-- The last value of the field that is seen, for a comparison of the fields `ps`, below their common value `x`; a scalar document has
itself as the value of every field. -/
def lastSeen (P : List Path) (ps : List Path) (d x : D) (p : Path) : Option D :=
  ((walk (p.drop (baseOf ps).length) x).filter (visible P p)).getLast?.or (scalar d)

/-- The value of a field, for a comparison of the fields `ps`. -/
def valueSeen (P : List Path) (ps : List Path) (d x : D) (p : Path) : Res (FV E) :=
  match lastSeen P ps d x p with
  | some y => valOf y
  | none => .ok missingV

/-- A test of several fields, with the value below which they are; it fails if there is no such value. -/
def onBase (ps : List Path) (d : D) (test : D → Bool) : Bool :=
  match (walk (baseOf ps) d).find? solid with
  | some x => test x
  | none => false

/-- The side is a field that is not seen. -/
def Side.unseen (P : List Path) (ps : List Path) (d x : D) (s : Side E) : Bool :=
  match s.bare with
  | some p => (lastSeen P ps d x p).isNone
  | none => false

/-- Comparison of several fields. -/
def Side.holdsSeen (N : Env E) (X : Fns E) (P : List Path) (d : D) (c : Cmp) (l r : Side E) : Bool :=
  onBase (l.fields ++ r.fields) d fun x =>
    !l.unseen P (l.fields ++ r.fields) d x && !r.unseen P (l.fields ++ r.fields) d x &&
      holdsB c (l.val2 N X (valueSeen P (l.fields ++ r.fields) d x)) (r.val2 N X (valueSeen P (l.fields ++ r.fields) d x))

/-- As `Cond.truth2`, on what is seen. -/
def Cond.truthAt (N : Env E) (X : Fns E) (C : Comp E) (k : Bool → Bool) (P : List Path) (d : D) : Cond E → Bool
  | .not c => !Cond.truthAt N X C k P d c
  | .bool b _ => k b
  | .regex a l =>
    match patVal N C l with
    | some p => if differ a.fields then onBase a.fields d fun x => holdsB .like (a.val2 N X (valueSeen P a.fields d x)) (.ok p)
      else onSeen P a.fields d false fun v => holdsB .like (a.val N X v) (.ok p)
    | none => false
  | .regexFn _ _ => false
  | .exist f => (seenField P [f.path] d).isSome
  | .null s neg => neg ^^ (if differ s.fields then onBase s.fields d fun x => holdsB .eq (s.val2 N X (valueSeen P s.fields d x)) (.ok ⟨.null, true⟩)
      else onSeen P s.fields d false fun v => holdsB .eq (s.val N X v) (.ok ⟨.null, true⟩))
  | .missing s neg => !neg ^^ (seenField P s.fields d).isSome
  | .cmp l c0 c1 r =>
    match cmpOf c0 c1 with
    | some c => if differ (l.fields ++ r.fields) then
        (match c with
          | .ne => !Side.holdsSeen N X P d .eq l r
          | c => Side.holdsSeen N X P d c l r)
      else onSeen P (l.fields ++ r.fields) d (decide (c = .ne)) fun v => holdsB c (l.val N X v) (r.val N X v)
    | none => false

mutual
  def Filt.truthAt (N : Env E) (X : Fns E) (C : Comp E) (k : Bool → Bool) (P : List Path) (d : D) : Filt E → Bool
    | .one c => Conj.truthAt N X C k P d c
    | .or c r => Conj.truthAt N X C k P d c || Filt.truthAt N X C k P d r
  def Conj.truthAt (N : Env E) (X : Fns E) (C : Comp E) (k : Bool → Bool) (P : List Path) (d : D) : Conj E → Bool
    | .one i => Item.truthAt N X C k P d i
    | .and i r => Item.truthAt N X C k P d i && Conj.truthAt N X C k P d r
  def Item.truthAt (N : Env E) (X : Fns E) (C : Comp E) (k : Bool → Bool) (P : List Path) (d : D) : Item E → Bool
    | .paren f => Filt.truthAt N X C k P d f
    | .cond c => c.truthAt N X C k P d
end

/-! ### Values in any environment -/

/-- The value of a field in an environment. -/
def inEnv (env : Transform.Env) (p : Path) : Res (FV E) :=
  match env p with
  | some y => valOf y
  | none => .ok missingV

theorem Fld.mValE (X : Fns E) (C : Comp E) (env : Transform.Env) (f : Fld) :
    Transform.mVal X C env f.expr = inEnv env f.path >>= negIf X f.neg := by
  rw [Fld.expr, mVal_neg, Transform.mVal]
  unfold inEnv fieldVal
  cases env f.path <;> rfl

theorem Term.mValE (X : Fns E) (C : Comp E) (env : Transform.Env) (t : Term E) : Transform.mVal X C env t.expr = t.val2 X (inEnv env) := by
  cases t with
  | field f => exact f.mValE X C env
  | left n o f => rw [Term.expr, mVal_two X C _ o.fnameOf_name o.arity, n.mVal, Fld.mValE]; rfl
  | right f o n => rw [Term.expr, mVal_two X C _ o.fnameOf_name o.arity, Fld.mValE, n.mVal]; rfl
  | both f o g => rw [Term.expr, mVal_two X C _ o.fnameOf_name o.arity, Fld.mValE, Fld.mValE]; rfl

mutual
  theorem Fn.mValE (N : Env E) (X : Fns E) (C : Comp E) (env : Transform.Env) : ∀ f : Fn E,
      Transform.mVal X C env (f.expr N) = f.val2 N X (inEnv env)
    | .pi neg => by rw [Fn.expr, mVal_neg, Transform.mVal]; rfl
    | .e neg => by rw [Fn.expr, mVal_neg, Transform.mVal]; rfl
    | .one neg n a => by
      rw [Fn.expr, mVal_neg, mVal_one X C _ n.fnameOf_name n.arity, Arg.mValE N X C env a, Fn.val2]
      cases Arg.val2 N X (inEnv env) a <;> rfl
    | .two neg n a b => by
      rw [Fn.expr, mVal_neg, mVal_two X C _ n.fnameOf_name n.arity, Arg.mValE N X C env a, Arg.mValE N X C env b, Fn.val2]
      cases Arg.val2 N X (inEnv env) a with
      | ok v => cases Arg.val2 N X (inEnv env) b <;> rfl
      | _ => rfl
  theorem Arg.mValE (N : Env E) (X : Fns E) (C : Comp E) (env : Transform.Env) : ∀ a : Arg E,
      Transform.mVal X C env (a.expr N) = a.val2 N X (inEnv env)
    | .fn f => by rw [Arg.expr, Arg.val2, Fn.mValE N X C env f]
    | .term t => by rw [Arg.expr, Arg.val2, t.mValE]
    | .lit l => by rw [Arg.expr, Arg.val2, l.mVal]
end

theorem Side.mValE (N : Env E) (X : Fns E) (C : Comp E) (env : Transform.Env) (s : Side E) :
    Transform.mVal X C env (s.expr N) = s.val2 N X (inEnv env) := by
  cases s with
  | fn f => exact f.mValE N X C env
  | bool b u => cases b <;> simp [Side.expr, Transform.mVal] <;> rfl
  | term t => exact t.mValE X C env
  | lit l => exact l.mVal X C _

theorem Side.goneE (N : Env E) (env : Transform.Env) (s : Side E) :
    isGone env (s.expr N) = match s.bare with
      | some p => (env p).isNone
      | none => false := by
  cases s with
  | fn f => exact (f.notGone N _).1
  | bool b u => rfl
  | lit l => exact (l.notGone _).1
  | term t =>
    cases t with
    | field f =>
      obtain ⟨neg, segs⟩ := f
      cases neg <;> rfl
    | _ => rfl

theorem Side.goneE_false (N : Env E) (env : Transform.Env) {s : Side E} (h : differ s.fields = true) : isGone env (s.expr N) = false := by
  rw [Side.goneE]
  cases s with
  | term t =>
    cases t with
    | field f => simp [Side.fields, Term.fields, differ] at h
    | _ => rfl
  | _ => rfl

/-! ### Conditions -/

/-- What is needed of the expression of a condition. -/
structure Good3 (X : Fns E) (C : Comp E) (P : List Path) (d : D) (e : Expr E) (t : Bool) (L : List (Path × Bool)) : Prop where
  frag : Frag2 C e
  safe : SafeE e
  lf : LoopFree e
  tr : truth2On X C P d e = t
  cs : mConds e = L

theorem Good3.neg {X : Fns E} {C : Comp E} {P : List Path} {d : D} {e : Expr E} {t : Bool} {L : List (Path × Bool)} (h : Good3 X C P d e t L) :
    Good3 X C P d (.not e) (!t) L :=
  ⟨h.frag, h.safe, h.lf, by rw [truth2On, h.tr], by rw [mConds, h.cs]⟩

/-- Conditions about one field. -/
theorem good3_one {N : Env E} {X : Fns E} {C : Comp E} {P : List Path} {d : D} {c : Cmp} {l r : Expr E} {t : Bool} {L : List (Path × Bool)}
    (hs : several l r = false) (h : Good N X C d (.cmp c l r) t L) (ps : List Path) (hp : condPath l r = ps.head?.getD [])
    (a b : FV E → Res (FV E)) (ha : ∀ v, paramVal X C v l = a v) (hb : ∀ v, paramVal X C v r = b v) :
    Good3 X C P d (.cmp c l r) (onSeen P ps d (decide (c = .ne)) fun v => holdsB c (a v) (b v)) L where
  frag := by rw [Frag2, if_neg (by simp [hs])]; exact h.frag
  safe := h.safe
  lf := h.lf
  tr := by
    rw [truth2On, if_neg (by simp [hs]), hp, onSeen, seenField]
    cases ((walk (ps.head?.getD []) d).filter (visible P (ps.head?.getD []))).head? with
    | none => rfl
    | some x => exact condHolds_eq X C c l r x a b ha hb
  cs := by rw [mConds, if_neg (by simp [hs])]; exact h.cs

/-- Conditions about several fields. -/
theorem good3_many {X : Fns E} {C : Comp E} {P : List Path} {d : D} {c : Cmp} {l r : Expr E} (hm : several l r = true) (hl : MParam C l)
    (hr : MParam C r) (ha : Loose (paths l ++ paths r)) (sl : SafeParam l) (sr : SafeParam r) {ps : List Path} (hps : paths l ++ paths r = ps) :
    Good3 X C P d (.cmp c l r)
      ((fun v => if c = .ne then !v else v) (onBase ps d fun x =>
        !isGone (lastSeen P ps d x) l && !isGone (lastSeen P ps d x) r &&
          holdsB (if c = .ne then .eq else c) (mVal X C (lastSeen P ps d x) l) (mVal X C (lastSeen P ps d x) r)))
      (ps.map (·, false)) where
  frag := by rw [Frag2, if_pos hm]; exact ⟨hl, hr, ha⟩
  safe := ⟨sl, sr⟩
  lf := trivial
  tr := by
    subst hps
    rw [truth2On, if_pos hm]
    unfold onBase
    have hb : base l r = baseOf (paths l ++ paths r) := rfl
    rw [hb]
    cases (walk (baseOf (paths l ++ paths r)) d).find? solid with
    | none => cases c <;> rfl
    | some x =>
      simp only
      rw [multiHolds_eq]
      rfl
  cs := by rw [mConds, if_pos hm, hps]

theorem Cond.good3 (N : Env E) (X : Fns E) (C : Comp E) (P : List Path) (d : D) : ∀ c : Cond E, c.valid N → c.Simple2 N C →
    Good3 X C P d (c.expr N) (c.truthAt N X C (fun _ => false) P d) c.places2
  | .not c, hv, hs => by
    have := (Cond.good3 N X C P d c hv hs).neg
    rw [Cond.expr]
    exact this
  | .bool b u, hv, hs => by
    have h := Cond.good N X C d (.bool b u) hv hs
    cases b <;> exact ⟨by simp [Cond.expr, Frag2], h.safe, h.lf, by simp [Cond.expr, truth2On, Cond.truthAt],
      by simp [Cond.expr, mConds, conds, Cond.places2, Cond.paths2]⟩
  | .regex a l, hv, hs => by
    obtain ⟨ha, hsa, hp⟩ := hs
    have hpath : Transform.paths (a.expr N) ++ Transform.paths (patExpr N l) = a.fields := by rw [a.paths N, pat_paths, List.append_nil]
    obtain ⟨q, hq⟩ := Option.isSome_iff_exists.1 hp
    cases hd : differ a.fields with
    | false =>
      have h := Cond.good N X C d (.regex a l) hv ⟨oneField_of_differ hd, hsa, hp⟩
      have hcp : condPath (a.expr N) (patExpr N l) = a.fields.head?.getD [] := by
        rw [condPath, pat_fieldPath, Arg.fieldPath]; cases a.fields.head? <;> rfl
      have h2 := good3_one (P := P) (by rw [several_eq, hpath]; exact hd) h a.fields hcp (fun v => a.val N X v) (fun _ => .ok q)
        (fun v => a.paramVal N X C v) (fun v => pat_val N X C v l hq)
      rw [Cond.truthAt, hq]
      simp only
      rw [if_neg (by simp [hd])]
      rw [Cond.places2, Cond.paths2, if_neg (by simp [hd])]
      exact h2
    | true =>
      have hsev : several (a.expr N) (patExpr N l) = true := by rw [several_eq, hpath]; exact hd
      have h := good3_many (X := X) (C := C) (P := P) (d := d) (c := .like) hsev (a.mparam N C) (pat_mparam N C l hp)
        (by rw [hpath]; exact ha hd) (a.safe N hsa) (pat_safe N l) hpath
      rw [Cond.places2, Cond.paths2, if_pos hd, Cond.truthAt, hq]
      simp only
      rw [if_pos hd]
      have e : ∀ x, (!isGone (lastSeen P a.fields d x) (a.expr N) && !isGone (lastSeen P a.fields d x) (patExpr N l) &&
          holdsB (if Cmp.like = .ne then .eq else .like) (mVal X C (lastSeen P a.fields d x) (a.expr N))
            (mVal X C (lastSeen P a.fields d x) (patExpr N l))) = holdsB .like (a.val2 N X (valueSeen P a.fields d x)) (.ok q) := by
        intro x
        rw [Arg.gone_false N hd, pat_gone, a.mValE N X C, pat_mVal N X C _ l hq]
        rfl
      simp only [e] at h
      exact h
  | .regexFn a f, hv, _ => by simp [Cond.valid] at hv
  | .exist f, hv, hs => by
    have h := Cond.good N X C d (.exist f) hv hs
    have hpath : condPath (f.expr : Expr E) f.expr = f.path := by rw [condPath_self, Fld.fieldPath]; rfl
    refine ⟨h.frag, h.safe, h.lf, ?_, h.cs⟩
    rw [Cond.expr, truth2On, hpath, Cond.truthAt, seenField]
    simp only [List.head?_cons, Option.getD_some]
    cases (walk f.path d).filter (visible P f.path) <;> rfl
  | .null s neg, hv, hs => by
    have hpath : Transform.paths (s.expr N) ++ Transform.paths (.value (.json .null) : Expr E) = s.fields := by
      rw [s.paths N]; simp [Transform.paths]
    have key : Good3 X C P d (.cmp .eq (s.expr N) (.value (.json .null))) (Cond.truthAt N X C (fun _ => false) P d (.null s false))
        (Cond.null s neg).places2 := by
      cases hd : differ s.fields with
      | false =>
        have h := Cond.good N X C d (.null s false) hv ⟨oneField_of_differ hd, hs.2⟩
        have hcp : condPath (s.expr N) (.value (.json .null)) = s.fields.head?.getD [] := by
          rw [condPath_null, Side.fieldPath]
        have h2 := good3_one (P := P) (by rw [several_eq, hpath]; exact hd) h s.fields hcp (fun v => s.val N X v) (fun _ => .ok ⟨.null, true⟩)
          (fun v => s.paramVal N X C v) (fun v => rfl)
        rw [Cond.truthAt, Bool.false_xor, if_neg (by simp [hd])]
        rw [Cond.places2, Cond.paths2, if_neg (by simp [hd])]
        exact h2
      | true =>
        have hsev : several (s.expr N) (.value (.json .null)) = true := by rw [several_eq, hpath]; exact hd
        have h := good3_many (X := X) (C := C) (P := P) (d := d) (c := .eq) hsev (s.mparam N C) trivial
          (by rw [hpath]; exact hs.1 hd) (s.safe N hs.2) trivial hpath
        rw [Cond.truthAt, Bool.false_xor, if_pos hd]
        rw [Cond.places2, Cond.paths2, if_pos hd]
        have e : ∀ x, (!isGone (lastSeen P s.fields d x) (s.expr N) && !isGone (lastSeen P s.fields d x) (.value (.json .null) : Expr E) &&
            holdsB (if Cmp.eq = .ne then .eq else .eq) (mVal X C (lastSeen P s.fields d x) (s.expr N))
              (mVal X C (lastSeen P s.fields d x) (.value (.json .null)))) =
            holdsB .eq (s.val2 N X (valueSeen P s.fields d x)) (.ok ⟨.null, true⟩) := by
          intro x
          rw [Side.goneE_false N _ hd, s.mValE N X C]
          rfl
        simp only [e] at h
        exact h
    cases neg
    · exact key
    · have h3 := key.neg
      have e : (!Cond.truthAt N X C (fun _ => false) P d (.null s false)) = Cond.truthAt N X C (fun _ => false) P d (.null s true) := by
        simp [Cond.truthAt]
      rw [e] at h3
      exact h3
  | .missing s neg, hv, hs => by
    have h := Cond.good N X C d (.missing s neg) hv hs
    have hpath : condPath (s.expr N) (s.expr N) = s.fields.head?.getD [] := by rw [condPath_self, Side.fieldPath]
    cases neg
    · refine ⟨h.frag, h.safe, h.lf, ?_, h.cs⟩
      rw [Cond.expr, if_neg (by simp), truth2On, hpath, Cond.truthAt, seenField]
      cases (walk (s.fields.head?.getD []) d).filter (visible P (s.fields.head?.getD [])) <;> rfl
    · refine ⟨h.frag, h.safe, h.lf, ?_, h.cs⟩
      rw [Cond.expr, if_pos rfl, truth2On, hpath, Cond.truthAt, seenField]
      cases (walk (s.fields.head?.getD []) d).filter (visible P (s.fields.head?.getD [])) <;> rfl
  | .cmp l c0 c1 r, hv, hs => by
    have hc : (cmpOf c0 c1).isSome := by
      rw [Cond.valid, Bool.and_eq_true] at hv; exact hv.2
    obtain ⟨c, hc⟩ := Option.isSome_iff_exists.1 hc
    have hex : (Cond.cmp l c0 c1 r).expr N = .cmp c (l.expr N) (r.expr N) := by rw [Cond.expr, hc]
    have hpath : Transform.paths (l.expr N) ++ Transform.paths (r.expr N) = l.fields ++ r.fields := by rw [l.paths N, r.paths N]
    obtain ⟨ha, hl, hr⟩ := hs
    cases hd : differ (l.fields ++ r.fields) with
    | false =>
      have h := Cond.good N X C d (.cmp l c0 c1 r) hv ⟨oneField_of_differ hd, hl, hr⟩
      rw [hex] at h
      have hcp : condPath (l.expr N) (r.expr N) = (l.fields ++ r.fields).head?.getD [] := by
        rw [condPath, Side.fieldPath, Side.fieldPath, head?_append']
      have h2 := good3_one (P := P) (by rw [several_eq, hpath]; exact hd) h (l.fields ++ r.fields) hcp (fun v => l.val N X v) (fun v => r.val N X v)
        (fun v => l.paramVal N X C v) (fun v => r.paramVal N X C v)
      rw [hex, Cond.truthAt, hc]
      simp only
      rw [if_neg (by simp [hd])]
      rw [Cond.places2, Cond.paths2, if_neg (by simp [hd])]
      exact h2
    | true =>
      have hsev : several (l.expr N) (r.expr N) = true := by rw [several_eq, hpath]; exact hd
      have h := good3_many (X := X) (C := C) (P := P) (d := d) (c := c) hsev (l.mparam N C) (r.mparam N C)
        (by rw [hpath]; exact ha hd) (l.safe N hl) (r.safe N hr) hpath
      have key : ∀ c', (onBase (l.fields ++ r.fields) d fun x =>
          !isGone (lastSeen P (l.fields ++ r.fields) d x) (l.expr N) && !isGone (lastSeen P (l.fields ++ r.fields) d x) (r.expr N) &&
          holdsB c' (mVal X C (lastSeen P (l.fields ++ r.fields) d x) (l.expr N))
            (mVal X C (lastSeen P (l.fields ++ r.fields) d x) (r.expr N))) = Side.holdsSeen N X P d c' l r := by
        intro c'
        unfold Side.holdsSeen
        congr 1
        funext x
        rw [Side.goneE, Side.goneE, Side.mValE, Side.mValE]
        rfl
      simp only [key] at h
      rw [hex, Cond.places2, Cond.paths2, if_pos hd, Cond.truthAt, hc]
      simp only
      rw [if_pos hd]
      cases c <;> exact h

/-! ### Filters -/

mutual
  theorem Filt.good3 (N : Env E) (X : Fns E) (C : Comp E) (P : List Path) (d : D) : ∀ f : Filt E, f.valid N → (∀ c ∈ f.conds, c.Simple2 N C) →
      Frag2s C (f.exprs N) ∧ SafeEs (f.exprs N) ∧ LoopFrees (f.exprs N) ∧
        truth2OnAny X C P d (f.exprs N) = f.truthAt N X C (fun _ => false) P d ∧ mCondsAll (f.exprs N) = f.conds.flatMap Cond.places2
    | .one c, hv, hs => by
      rw [Filt.valid] at hv; rw [Filt.conds] at hs
      obtain ⟨h1, h2, h3, h4, h5⟩ := Conj.good3 N X C P d c hv hs
      rw [Filt.exprs, Filt.truthAt, Filt.conds]
      refine ⟨h1, ⟨h2, trivial⟩, ⟨h3, trivial⟩, ?_, ?_⟩
      · rw [truth2OnAny, truth2OnAny, truth2On, h4, Bool.or_false]
      · rw [mCondsAll, mCondsAll, mConds, h5, List.append_nil]
    | .or c r, hv, hs => by
      rw [Filt.valid, Bool.and_eq_true] at hv; rw [Filt.conds] at hs
      obtain ⟨h1, h2, h3, h4, h5⟩ := Conj.good3 N X C P d c hv.1 fun x hx => hs x (List.mem_append_left _ hx)
      obtain ⟨g1, g2, g3, g4, g5⟩ := Filt.good3 N X C P d r hv.2 fun x hx => hs x (List.mem_append_right _ hx)
      rw [Filt.exprs, Filt.truthAt, Filt.conds]
      refine ⟨?_, ⟨h2, g2⟩, ⟨h3, g3⟩, ?_, ?_⟩
      · cases hr : Filt.exprs N r with
        | nil => rw [hr] at g1; simp [Frag2s] at g1
        | cons e es => rw [hr] at g1; exact ⟨h1, g1⟩
      · rw [truth2OnAny, truth2On, h4, g4]
      · rw [mCondsAll, mConds, h5, g5, List.flatMap_append]
  theorem Conj.good3 (N : Env E) (X : Fns E) (C : Comp E) (P : List Path) (d : D) : ∀ f : Conj E, f.valid N → (∀ c ∈ f.conds, c.Simple2 N C) →
      Frag2s C (f.exprs N) ∧ SafeEs (f.exprs N) ∧ LoopFrees (f.exprs N) ∧
        truth2OnAll X C P d (f.exprs N) = f.truthAt N X C (fun _ => false) P d ∧ mCondsAll (f.exprs N) = f.conds.flatMap Cond.places2
    | .one c, hv, hs => by
      rw [Conj.valid] at hv; rw [Conj.conds] at hs
      obtain ⟨h1, h2, h3, h4, h5⟩ := Item.good3 N X C P d c hv hs
      rw [Conj.exprs, Conj.truthAt, Conj.conds]
      refine ⟨h1, ⟨h2, trivial⟩, ⟨h3, trivial⟩, ?_, ?_⟩
      · rw [truth2OnAll, truth2OnAll, h4, Bool.and_true]
      · rw [mCondsAll, mCondsAll, h5, List.append_nil]
    | .and c r, hv, hs => by
      rw [Conj.valid, Bool.and_eq_true] at hv; rw [Conj.conds] at hs
      obtain ⟨h1, h2, h3, h4, h5⟩ := Item.good3 N X C P d c hv.1 fun x hx => hs x (List.mem_append_left _ hx)
      obtain ⟨g1, g2, g3, g4, g5⟩ := Conj.good3 N X C P d r hv.2 fun x hx => hs x (List.mem_append_right _ hx)
      rw [Conj.exprs, Conj.truthAt, Conj.conds]
      refine ⟨?_, ⟨h2, g2⟩, ⟨h3, g3⟩, ?_, ?_⟩
      · cases hr : Conj.exprs N r with
        | nil => rw [hr] at g1; simp [Frag2s] at g1
        | cons e es => rw [hr] at g1; exact ⟨h1, g1⟩
      · rw [truth2OnAll, h4, g4]
      · rw [mCondsAll, h5, g5, List.flatMap_append]
  theorem Item.good3 (N : Env E) (X : Fns E) (C : Comp E) (P : List Path) (d : D) : ∀ f : Item E, f.valid N → (∀ c ∈ f.conds, c.Simple2 N C) →
      Good3 X C P d (f.expr N) (f.truthAt N X C (fun _ => false) P d) (f.conds.flatMap Cond.places2)
    | .paren f, hv, hs => by
      rw [Item.valid] at hv; rw [Item.conds] at hs
      obtain ⟨h1, h2, h3, h4, h5⟩ := Filt.good3 N X C P d f hv hs
      rw [Item.expr, Item.truthAt, Item.conds]
      exact ⟨h1, h2, h3, by rw [truth2On, h4], by rw [mConds, h5]⟩
    | .cond c, hv, hs => by
      rw [Item.valid] at hv; rw [Item.conds] at hs
      have := Cond.good3 N X C P d c hv (hs c (List.mem_singleton.2 rfl))
      rw [Item.expr, Item.truthAt, Item.conds]
      simpa using this
end

/-! ### C51 -/

/-- C51 on any document, scalars included: the verdict of the matcher of a filter is its truth on what is seen of the document, where the
constant `TRUE`, like `FALSE`, is false.  (Conditions about one or several fields; no division by fields; patterns that compile.) -/
theorem C51_anywhere (N : Env E) (X : Fns E) (C : Comp E) (parse : List Nat → Option (FilterExpression E)) (text : List Nat) (f : Filt E)
    (ht : text ≠ []) (hp : parse text = some f.build) (hv : f.valid N) (hs : ∀ c ∈ f.conds, c.Simple2 N C)
    {data : List Nat} {d : D} (hd : Begins data d) :
    ∃ df, getMatcher N C parse text = .ok (some df) ∧ ∀ m, Ready df m →
      ∃ m', run X df m data = .ok (some (f.truthAt N X C (fun _ => false) f.paths2 d), m') := by
  obtain ⟨h1, h2, h3, h4, h5⟩ := Filt.good3 N X C f.paths2 d f hv hs
  have hone : ∀ {P : Expr E → Prop}, P (f.expr N) → ∀ x ∈ [f.expr N], P x := by
    intro P h x hx; rw [List.mem_singleton] at hx; rw [hx]; exact h
  have hP : pathsOf2 [f.expr N] = f.paths2 := by
    rw [pathsOf2, mCondsOf, List.flatMap_singleton, Filt.expr, mConds, h5, List.map_flatMap, Filt.paths2]
    congr 1
    funext c
    rw [Cond.places2, List.map_map]
    simp [Function.comp_def]
  obtain ⟨df, g1, g2⟩ := C84_loopFree X (C := C) (slot0 := 0) (es := [f.expr N]) (g := f.expr N) (gs := []) rfl (hone h1) (hone h3) (hone h2) hd
  refine ⟨df, ?_, fun m hm => ?_⟩
  · rw [getMatcher, newParser, if_neg ht, hp]
    simp only [C50_output, hv, if_true, andThen_some, g1, Res.bind_ok]
  · obtain ⟨m', hm'⟩ := g2 m hm
    refine ⟨m', ?_⟩
    rw [hm', hP, List.any_cons, List.any_nil, Bool.or_false, Filt.expr, truth2On, h4]

/-- The hypotheses, for `a == b AND NOT (a + b < 1)` on `{"a":{}}`: `b` is missing. -/
example : ∃ df, getMatcher demoEnv demoComp (fun _ => some pairFilt.build) [120] = .ok (some df) ∧
    ∀ m, Ready df m → ∃ m', run demoFns df m textAO = .ok (some false, m') := by
  have h := C51_anywhere demoEnv demoFns demoComp (fun _ => some pairFilt.build) [120] pairFilt (by simp) rfl (by decide)
    (fun c hc => (pairFilt_simple c hc).1) docAO_text
  have e : pairFilt.truthAt demoEnv demoFns demoComp (fun _ => false) pairFilt.paths2 docAO = false := by decide +kernel
  rw [e] at h
  exact h

/-! ### Consequences -/

/-- The filter of one condition. -/
def Filt.ofCond (c : Cond E) : Filt E := .one (.one (.cond c))

theorem visible_alone (p : Path) (x : D) : visible [p] p x = solid x := by
  unfold visible solid
  split
  · rfl
  · simp
  · split
    · rename_i h _ ; exact (h _ rfl).elim
    · rfl

/-- `EXISTS(f)` matches exactly the documents in which some value of the field is something else than an empty array. -/
theorem C51_exists (N : Env E) (X : Fns E) (C : Comp E) (parse : List Nat → Option (FilterExpression E)) (text : List Nat) (f : Fld)
    (ht : text ≠ []) (hp : parse text = some (Filt.ofCond (E := E) (.exist f)).build) (hv : (Filt.ofCond (E := E) (.exist f)).valid N)
    {data : List Nat} {d : D} (hd : Begins data d) :
    ∃ df, getMatcher N C parse text = .ok (some df) ∧ ∀ m, Ready df m →
      ∃ m', run X df m data = .ok (some ((walk f.path d).any solid), m') := by
  have h := C51_anywhere N X C parse text _ ht hp hv (fun c hc => by
    simp only [Filt.ofCond, Filt.conds, Conj.conds, Item.conds, List.mem_singleton] at hc
    subst hc; exact trivial) hd
  have e : (Filt.ofCond (E := E) (.exist f)).truthAt N X C (fun _ => false) (Filt.ofCond (E := E) (.exist f)).paths2 d = (walk f.path d).any solid := by
    show (seenField [f.path] [f.path] d).isSome = _
    rw [seenField]
    simp only [List.head?_cons, Option.getD_some]
    rw [List.filter_congr (fun x _ => visible_alone f.path x)]
    induction walk f.path d with
    | nil => rfl
    | cons x l ih =>
      rw [List.filter_cons, List.any_cons]
      cases solid x
      · simpa using ih
      · rfl
  rw [e] at h
  exact h

/-- A negated condition alone decides the opposite of the condition alone, on every document. -/
theorem C51_negated (N : Env E) (X : Fns E) (C : Comp E) (parse : List Nat → Option (FilterExpression E)) (text textN : List Nat) (c : Cond E)
    (ht : text ≠ []) (htN : textN ≠ []) (hp : parse text = some (Filt.ofCond c).build) (hpN : parse textN = some (Filt.ofCond (.not c)).build)
    (hv : (Filt.ofCond c).valid N) (hvN : (Filt.ofCond (.not c)).valid N) (hs : c.Simple2 N C) {data : List Nat} {d : D} (hd : Begins data d) :
    ∃ df dfN b, getMatcher N C parse text = .ok (some df) ∧ getMatcher N C parse textN = .ok (some dfN) ∧
      (∀ m, Ready df m → ∃ m', run X df m data = .ok (some b, m')) ∧ (∀ m, Ready dfN m → ∃ m', run X dfN m data = .ok (some (!b), m')) := by
  obtain ⟨df, h1, h2⟩ := C51_anywhere N X C parse text _ ht hp hv (fun c' hc => by
    simp only [Filt.ofCond, Filt.conds, Conj.conds, Item.conds, List.mem_singleton] at hc
    subst hc; exact hs) hd
  obtain ⟨dfN, g1, g2⟩ := C51_anywhere N X C parse textN _ htN hpN hvN (fun c' hc => by
    simp only [Filt.ofCond, Filt.conds, Conj.conds, Item.conds, List.mem_singleton] at hc
    subst hc; exact hs) hd
  exact ⟨df, dfN, _, h1, g1, h2, g2⟩

/-- `EXISTS(a) OR EXISTS(a.b)` -/
def widerFilt : Filt demoExt := .or (.one (.cond (.exist (fld 97)))) (.one (.one (.cond (.exist ⟨false, [⟨.ident [97], []⟩, ⟨.ident [98], []⟩]⟩))))

/-- A disjunct added to a filter can make it false: `EXISTS(a)` matches `{"a":{}}`, `EXISTS(a) OR EXISTS(a.b)` does not. -/
theorem C51_or_loses :
    (∃ df, getMatcher demoEnv demoComp (fun _ => some (Filt.ofCond (E := demoExt) (.exist (fld 97))).build) [120] = .ok (some df) ∧
      ∀ m, Ready df m → ∃ m', run demoFns df m textAO = .ok (some true, m')) ∧
    (∃ df, getMatcher demoEnv demoComp (fun _ => some widerFilt.build) [120] = .ok (some df) ∧
      ∀ m, Ready df m → ∃ m', run demoFns df m textAO = .ok (some false, m')) := by
  constructor
  · have h := C51_exists demoEnv demoFns demoComp (fun _ => some (Filt.ofCond (E := demoExt) (.exist (fld 97))).build) [120] (fld 97) (by simp) rfl
      (by decide) docAO_text
    have e : (walk (fld 97).path docAO).any solid = true := by decide +kernel
    rw [e] at h
    exact h
  · have h := C51_anywhere demoEnv demoFns demoComp (fun _ => some widerFilt.build) [120] widerFilt (by simp) rfl (by decide)
      (fun c hc => by
        simp only [widerFilt, Filt.conds, Conj.conds, Item.conds, List.mem_append, List.mem_singleton] at hc
        rcases hc with rfl | rfl <;> exact trivial) docAO_text
    have e : widerFilt.truthAt demoEnv demoFns demoComp (fun _ => false) widerFilt.paths2 docAO = false := by decide +kernel
    rw [e] at h
    exact h

end Verif.Filter
