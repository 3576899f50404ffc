import Verif.Transform.Carry

/-!
# C85: loops whose bodies compare several fields of the element, on any document

The verdict on every document.  An element that lacks a compared field is compared with the field of an element before it.
-/

namespace Verif.Transform
open Verif.FastVal Verif.Match Verif.Expr
open Verif.Token (D Es Ms Tok)
open Verif.BinTree (Sh K UnOp BinOp mergeSh mergeParts Shaped)

variable {E : Ext}

/-! ### Specification -/

mutual
  /-- Verdict on a document; `L` are the conditions and loops of the whole filter. -/
  def etopR (X : Fns E) (C : Comp E) (L : List (Path × Bool)) : Expr E → D → Bool
    | .not e, d => !etopR X C L e d
    | .and es, d => etopRAll X C L es d
    | .or es, d => etopRAny X C L es d
    | .loop m _ i s, d => ((firstArr (reach true L (inPath i) d)).map (loopVal X C m s)).getD (blank s)
    | e, d => topR X C L e d
  def etopRAll (X : Fns E) (C : Comp E) (L : List (Path × Bool)) : Exprs E → D → Bool
    | .nil, _ => true
    | .cons e r, d => etopR X C L e d && etopRAll X C L r d
  def etopRAny (X : Fns E) (C : Comp E) (L : List (Path × Bool)) : Exprs E → D → Bool
    | .nil, _ => false
    | .cons e r, d => etopR X C L e d || etopRAny X C L r d
end

/-! ### The loops by their buckets -/

mutual
  /-- The body of the loop with the bucket `j`, if the expression starts at `b`. -/
  def bodyOf : Expr E → Nat → Nat → Option (Expr E)
    | .not e, b, j => bodyOf e (b + 1) j
    | .and es, b, j => bodyOfs es b j
    | .or es, b, j => bodyOfs es b j
    | .loop _ _ _ s, b, j => if j = b + 1 then some s else none
    | _, _, _ => none
  def bodyOfs : Exprs E → Nat → Nat → Option (Expr E)
    | .nil, _, _ => none
    | .cons e .nil, b, j => bodyOf e b j
    | .cons e (.cons e' r), b, j => if j < b + 1 + (shape e).size then bodyOf e (b + 1) j else bodyOfs (.cons e' r) (b + 1 + (shape e).size) j
end

/-- The outcomes of the loops, if the body of bucket `b` is `V b`. -/
def valFor (X : Fns E) (C : Comp E) (V : Nat → Option (Expr E)) : Vals E := fun b m _ es =>
  match V b with
  | some s => loopVal X C m s (esList es)
  | none => false

theorem elemVals_scan (X : Fns E) (C : Comp E) (s : Expr E) : ∀ (ys : List D) (g : Env),
    elemVals X C s g ys = scan (fun g y => lsemR X C (mConds (rebase s)) g (rebase s) y) (seeing (mConds (rebase s))) g ys
  | [], _ => rfl
  | y :: ys, g => by rw [elemVals, scan, elemVals_scan X C s ys]

section
variable (X : Fns E) (C : Comp E) (sh : Nat → Sh) (r : D) (N : Nat) (V : Nat → Option (Expr E)) (L' : List (Path × Bool))

/-- The loops among the items. -/
def Loopy (L : List (Path × Item E)) : Prop :=
  ∀ q b m t n, (q, Item.loop b m t n) ∈ L → ∃ w s, Body C w s ∧ Made C s b N n ∧ V b = some s ∧ ShOK sh (shape s) b

variable {X C sh r N V L'}

theorem Loopy.carried {L : List (Path × Item E)} (h : Loopy C sh N V L) (hd : ∀ ty w, r ≠ .lit ty w) {q : Path} {b : Nat} {m : Mode}
    {t : Option (Ref E)} {n : Exec E} (hm : (q, Item.loop b m t n) ∈ L) (es : Es) {N' : Nat} : Carried (valFor X C V) X sh r N' b m n es := by
  obtain ⟨w, s, hb, hmade, hV, hsh⟩ := h q b m t n hm
  refine ⟨fun g y => lsemR X C (mConds (rebase s)) g (rebase s) y, seeing (mConds (rebase s)), fun y _ hh σ a g _ hg ha => ?_, ?_⟩
  · have hshb : sh b = shape s := hsh _ _ (BinTree.SubAt.refl _ _)
    rw [hshb]
    obtain ⟨n1, n2⟩ := hmade.nextR hb hg ha
    exact ⟨hmade.valueR hb hsh hd hg ha, n1, n2⟩
  · simp only [valFor, hV, loopVal, elemVals_scan]

theorem loopy_none {L : List (Path × Item E)} (h : ∀ q b m t n, (q, Item.loop b m t n) ∉ L) : Loopy C sh N V L :=
  fun q b m t n hm => absurd hm (h q b m t n)

theorem Loopy.append {L1 L2 : List (Path × Item E)} (h1 : Loopy C sh N V L1) (h2 : Loopy C sh N V L2) : Loopy C sh N V (L1 ++ L2) := by
  intro q b m t n hm
  rcases List.mem_append.1 hm with hm | hm
  · exact h1 q b m t n hm
  · exact h2 q b m t n hm

mutual
  theorem has_loopy : ∀ (e : Expr E) (b : Nat) (L : List (Path × Item E)), EFrag C e → Has C N e b L → ShOK sh (shape e) b →
      (∀ j, b ≤ j → j < b + (shape e).size → V j = bodyOf e b j) → Loopy C sh N V L
    | .cmp c l r', b, L, h, hh, _, _ => by simp only [Has] at hh; subst hh; exact loopy_none (by simp [eItems])
    | .exist e, b, L, h, hh, _, _ => by simp only [Has] at hh; subst hh; exact loopy_none (by simp [eItems])
    | .notExist e, b, L, h, hh, _, _ => by simp only [Has] at hh; subst hh; exact loopy_none (by simp [eItems])
    | .tru, b, L, h, hh, _, _ => by simp only [Has] at hh; subst hh; exact loopy_none (by simp [eItems])
    | .fals, b, L, h, hh, _, _ => by simp only [Has] at hh; subst hh; exact loopy_none (by simp [eItems])
    | .not e, b, L, h, hh, hsh, hv => by
      rw [EFrag] at h; rw [Has] at hh
      exact has_loopy e (b + 1) L h hh (fun s' i hs => hsh s' i (Or.inr hs))
        (fun j h1 h2 => by rw [hv j (by omega) (by simp only [shape, Sh.size]; omega), bodyOf])
    | .and es, b, L, h, hh, hsh, hv => by
      rw [EFrag] at h; rw [Has] at hh; rw [shape] at hsh hv
      exact hasAll_loopy .and es b L h hh hsh (fun j h1 h2 => by rw [hv j h1 h2, bodyOf])
    | .or es, b, L, h, hh, hsh, hv => by
      rw [EFrag] at h; rw [Has] at hh; rw [shape] at hsh hv
      exact hasAll_loopy .or es b L h hh hsh (fun j h1 h2 => by rw [hv j h1 h2, bodyOf])
    | .loop m w i s, b, L, h, hh, hsh, hv => by
      rw [EFrag] at h; rw [Has] at hh
      obtain ⟨n, rfl, hm⟩ := hh
      have hsp := (shape s).size_pos
      intro q b' m' t n' hx
      simp only [List.mem_singleton, Prod.mk.injEq, Item.loop.injEq] at hx
      obtain ⟨rfl, rfl, rfl, rfl, rfl⟩ := hx
      exact ⟨w, s, h.2, hm, by rw [hv (b + 1) (by omega) (by simp only [shape, Sh.size]; omega), bodyOf, if_pos rfl],
        fun s' i hs => hsh s' i (Or.inr hs)⟩
    | .value _, b, L, h, _, _, _ | .regex _, b, L, h, _, _, _ | .pcre _, b, L, h, _, _, _ | .time _, b, L, h, _, _, _
    | .field _, b, L, h, _, _, _ | .func .., b, L, h, _, _, _ => by simp [EFrag, Frag] at h
  theorem hasAll_loopy (o : BinOp) : ∀ (es : Exprs E) (b : Nat) (L : List (Path × Item E)), EFrags C es → HasAll C N es b L →
      ShOK sh (shapes o es) b → (∀ j, b ≤ j → j < b + (shapes o es).size → V j = bodyOfs es b j) → Loopy C sh N V L
    | .nil, b, L, h, _, _, _ => by simp [EFrags] at h
    | .cons e .nil, b, L, h, hh, hsh, hv => by
      rw [EFrags] at h; rw [HasAll] at hh; rw [shapes] at hsh hv
      exact has_loopy e b L h hh hsh (fun j h1 h2 => by rw [hv j h1 h2, bodyOfs])
    | .cons e (.cons e' r'), b, L, h, hh, hsh, hv => by
      rw [EFrags] at h; rw [HasAll] at hh; rw [shapes] at hsh hv; rw [Sh.size] at hv
      obtain ⟨L1, L2, rfl, h1, h2⟩ := hh
      refine (has_loopy e (b + 1) L1 h.1 h1 (fun s' i hs => hsh s' i (Or.inr (Or.inl hs))) (fun j j1 j2 => ?_)).append
        (hasAll_loopy o (.cons e' r') _ L2 h.2 h2 (fun s' i hs => hsh s' i (Or.inr (Or.inr hs))) (fun j j1 j2 => ?_))
      · rw [hv j (by omega) (by omega), bodyOfs, if_pos (by omega)]
      · rw [hv j (by omega) (by omega), bodyOfs, if_neg (by omega)]
end

/-! ### The verdict of the decisions -/

/-- Decisions with given outcomes of the loops. -/
structure RanG (val : Vals E) (X : Fns E) (sh : Nat → Sh) (r : D) (L' : List (Path × Bool)) (n : Exec E) (d : D) (l : Marks) : Prop where
  tidy : n.Tidy
  full : n.Full
  conds : ∀ x, x ∈ kinds n ↔ x ∈ L'
  run : ∃ h σ a, gExec val X sh r h n d σ = .ok a ∧ a.1 = l

theorem RanG.none {val : Vals E} {n : Exec E} {d : D} {l : Marks} (h : RanG val X sh r L' n d l) {i : Nat} (hi : withBucket i (items n) = []) :
    l.get i = none := by
  obtain ⟨hh, σ, a, ha, rfl⟩ := h.run
  rw [get_of_sel, (gExec_decides val X sh r hh n d σ a i ha h.tidy h.full).1 hi]
  rfl

theorem RanG.one {val : Vals E} {n : Exec E} {d : D} {l : Marks} (h : RanG val X sh r L' n d l) {i : Nat} {p : Path} {it : Item E}
    (hi : withBucket i (items n) = [(p, it)]) (hd : Direct it) {f : D → Option Bool}
    (hf : ∀ x σ l, gItem val X r it x σ = .ok l → l = (f x).toList.map (fun v => (i, v))) :
    l.get i = (reach (isLoop it) L' p d).findSome? f := by
  obtain ⟨hh, σ, a, ha, rfl⟩ := h.run
  rw [get_of_sel, (gExec_decides val X sh r hh n d σ a i ha h.tidy h.full).2 p it hi hd _ hf, reach_congr h.conds]
  induction reach (isLoop it) L' p d with
  | nil => rfl
  | cons x w ih =>
    rw [List.flatMap_cons, List.findSome?_cons]
    cases hx : f x with
    | none => simpa using ih
    | some v => simp

/-- A condition. -/
theorem RanG.cond {val : Vals E} {n : Exec E} {d : D} {l : Marks} (h : RanG val X sh r L' n d l) {i : Nat} {p : Path} {o : Op E}
    (hi : (withBucket i (items n)).Perm [(p, .op o)]) {g : D → Bool}
    (hg : ∀ x y, valOf x = .ok y → ∀ rd q, opResult X rd (some y) o = .ok q → q.1 = g x) :
    l.get i = (reach false L' p d).head?.map g := by
  have hi' := List.perm_singleton.1 hi
  have hb : o.bucket = i := by
    have hm : (p, Item.op o) ∈ withBucket i (items n) := by rw [hi']; exact List.mem_singleton.2 rfl
    exact (mem_withBucket.1 hm).2
  rw [h.one hi' trivial (f := fun x => some (g x)) ?_, findSome_head]
  · rfl
  intro x σ l' hl
  rw [gItem] at hl
  obtain ⟨y, hy, hl⟩ := Res.bind_eq_ok.1 hl
  obtain ⟨q, hq, hl⟩ := Res.bind_eq_ok.1 hl
  cases hl
  rw [hb, hg x y hy _ q hq]; rfl

/-- A single condition. -/
theorem singleR_correct {e : Expr E} {b : Nat} {n : Exec E} {l : Marks} {val : Vals E} (h : Frag C 0 e) (hk : match e with
      | .cmp .. | .exist _ | .notExist _ | .tru | .fals => True
      | _ => False) (hh : Hosts n (eItems C e b) b (shape e).size) (hr : RanG val X sh r L' n r l) :
    (shape e).evalM b l.get = topR X C L' e r := by
  match e, h, hk, hh with
  | .cmp c l' r', h, _, hh =>
    by_cases hne : c = .ne
    · subst hne
      have h0 : withBucket b (items n) = [] := by
        have := hh b (by omega) (by simp [shape, Sh.size])
        simpa [eItems, withBucket, Item.bucket] using this
      have h1 := hh (b + 1) (by omega) (by simp [shape, Sh.size])
      have hc := hr.cond (p := condPath l' r') (o := ⟨b + 1, opOf .ne, sideOf C l', sideOf C r'⟩)
        (g := fun x => !condHolds X C .ne l' r' x) (by simpa [eItems, withBucket, Item.bucket] using h1)
        (fun x y hy rd q hq => by have := op_cond X C rd h.1 h.2 _ .ne hy hq; simpa using this)
      simp only [shape, Sh.evalM, hr.none h0, hc, topR, UnOp.eval]
      cases (reach false (L') (condPath l' r') r).head? <;> simp
    · have h1 := hh b (by omega) (by have := (shape (.cmp c l' r')).size_pos; omega)
      have hc := hr.cond (p := condPath l' r') (o := ⟨b, opOf c, sideOf C l', sideOf C r'⟩)
        (g := condHolds X C c l' r') (by simpa [eItems, withBucket, Item.bucket, hne] using h1)
        (fun x y hy rd q hq => by have := op_cond X C rd h.1 h.2 _ c hy hq; simpa [hne] using this)
      have hs : shape (.cmp c l' r') = .leaf := by cases c <;> first | rfl | exact absurd rfl hne
      simp only [hs, Sh.evalM, hc, topR]
      simp [hne]
  | .exist e, h, _, hh =>
    have h1 := hh b (by omega) (by simp [shape, Sh.size])
    have hc := hr.cond (p := condPath e e) (o := ⟨b, .exists_, sideOf C e, none⟩)
      (g := fun _ => true) (by simpa [eItems, withBucket, Item.bucket] using h1)
      (fun x y hy rd q hq => op_exists X C rd h _ hq)
    simp only [shape, Sh.evalM, hc, topR]
    cases (reach false (L') (condPath e e) r).head? <;> simp
  | .notExist e, h, _, hh =>
    have h0 : withBucket b (items n) = [] := by
      have := hh b (by omega) (by simp [shape, Sh.size])
      simpa [eItems, withBucket, Item.bucket] using this
    have h1 := hh (b + 1) (by omega) (by simp [shape, Sh.size])
    have hc := hr.cond (p := condPath e e) (o := ⟨b + 1, .exists_, sideOf C e, none⟩)
      (g := fun _ => true) (by simpa [eItems, withBucket, Item.bucket] using h1)
      (fun x y hy rd q hq => op_exists X C rd h _ hq)
    simp only [shape, Sh.evalM, hr.none h0, hc, topR, UnOp.eval]
    cases (reach false (L') (condPath e e) r).head? <;> simp
  | .tru, _, _, hh =>
    have h0 : withBucket b (items n) = [] := by
      have := hh b (by omega) (by simp [shape, Sh.size])
      simpa [eItems, withBucket] using this
    simp [shape, Sh.evalM, hr.none h0, topR]
  | .fals, _, _, hh =>
    have h0 : withBucket b (items n) = [] := by
      have := hh b (by omega) (by simp [shape, Sh.size])
      simpa [eItems, withBucket] using this
    simp [shape, Sh.evalM, hr.none h0, topR]

/-- A loop of the document. -/
theorem eloopR_correct {m : Mode} {w : Int} {i s : Expr E} {b : Nat} {n body : Exec E} {l : Marks} (hb : Body C w s)
    (hv : V (b + 1) = bodyOf (.loop m w i s) b (b + 1))
    (hh : Hosts n [(inPath i, .loop (b + 1) m none body)] b (shape (.loop m w i s)).size) (hr : RanG (valFor X C V) X sh r L' n r l) :
    (shape (.loop m w i s)).evalM b l.get = ((firstArr (reach true L' (inPath i) r)).map (loopVal X C m s)).getD (blank s) := by
  rw [bodyOf, if_pos rfl] at hv
  have hsp := (shape s).size_pos
  have h0 : withBucket b (items n) = [] := by
    have := hh b (by omega) (by simp only [shape, Sh.size]; omega)
    simpa [withBucket, Item.bucket] using this
  have h1 := hh (b + 1) (by omega) (by simp only [shape, Sh.size]; omega)
  rw [withBucket_single (by simp [Item.bucket])] at h1
  have hl := hr.one (List.perm_singleton.1 h1) trivial (f := fun x => match x with
      | .arr _ es => some (loopVal X C m s (esList es))
      | _ => none) (by
    intro x σ l' hl'
    cases x with
    | lit ty t => cases hl'; rfl
    | obj ws ms => cases hl'; rfl
    | arr ws es => cases hl'; simp [valFor, hv])
  replace hl : l.get (b + 1) = (firstArr (reach true L' (inPath i) r)).map (loopVal X C m s) := hl.trans (firstArr_find (loopVal X C m s) _)
  simp only [shape, Sh.evalM, hr.none h0]
  cases hfa : firstArr (reach true L' (inPath i) r) with
  | some xs =>
    rw [hfa] at hl
    have he : (shape s).evalM (b + 1) l.get = loopVal X C m s xs := by
      cases shape s <;> simp [Sh.evalM, hl]
    rw [he]
    rfl
  | none =>
    have hout : ∀ j, b ≤ j → j < b + (1 + (shape s).size) → l.get j = none := by
      intro j hj1 hj2
      by_cases hj : j = b + 1
      · subst hj; rw [hl, hfa]; rfl
      · apply hr.none
        have := hh j hj1 (by simp only [shape, Sh.size]; omega)
        rw [withBucket_out (L := [_]) (b := b + 1) (n := 1) (by
          intro x hx; rw [List.mem_singleton] at hx; subst hx; simp only [Item.bucket]; omega) (by omega)] at this
        exact List.perm_nil.1 this
    rw [hb.blank (b + 1) l.get (fun j h1 h2 => hout j (by omega) (by omega))]
    rfl

mutual
  theorem etopR_correct : ∀ (e : Expr E) (b : Nat) (n : Exec E) (l : Marks) (L : List (Path × Item E)), EFrag C e →
      Has C N e b L → ShOK sh (shape e) b → (∀ j, b ≤ j → j < b + (shape e).size → V j = bodyOf e b j) → Hosts n L b (shape e).size → RanG (valFor X C V) X sh r L' n r l → (shape e).evalM b l.get = etopR X C L' e r
    | .cmp c l' r', b, n, l, L, h, hL, hsh, hi, hh, hr => by
      simp only [EFrag] at h; simp only [Has] at hL; subst hL; simp only [etopR]
      exact singleR_correct h trivial hh hr
    | .exist e, b, n, l, L, h, hL, hsh, hi, hh, hr => by
      simp only [EFrag] at h; simp only [Has] at hL; subst hL; simp only [etopR]
      exact singleR_correct h trivial hh hr
    | .notExist e, b, n, l, L, h, hL, hsh, hi, hh, hr => by
      simp only [EFrag] at h; simp only [Has] at hL; subst hL; simp only [etopR]
      exact singleR_correct h trivial hh hr
    | .tru, b, n, l, L, h, hL, hsh, hi, hh, hr => by
      simp only [Has] at hL; subst hL; simp only [etopR]
      exact singleR_correct (C := C) (e := .tru) rfl trivial hh hr
    | .fals, b, n, l, L, h, hL, hsh, hi, hh, hr => by
      simp only [Has] at hL; subst hL; simp only [etopR]
      exact singleR_correct (C := C) (e := .fals) rfl trivial hh hr
    | .loop m w i s, b, n, l, L, h, hL, hsh, hi, hh, hr => by
      rw [EFrag] at h; rw [Has] at hL; rw [etopR]
      obtain ⟨body, rfl, hm⟩ := hL
      exact eloopR_correct h.2 (hi _ (by omega) (by simp only [shape, Sh.size]; have := (shape s).size_pos; omega)) hh hr
    | .not e, b, n, l, L, h, hL, hsh, hi, hh, hr => by
      rw [EFrag] at h; rw [Has] at hL
      have hF := has_within e (b + 1) L h hL
      have h0 : withBucket b (items n) = [] := by
        have := hh b (by omega) (by simp only [shape, Sh.size]; omega)
        rw [withBucket_out hF (by omega)] at this
        exact List.perm_nil.1 this
      have k2 := etopR_correct e (b + 1) n l L h hL (fun s' i hs => hsh s' i (Or.inr hs)) (fun j h1 h2 => by rw [hi j (by omega) (by simp only [shape, Sh.size]; omega), bodyOf])
        (hh.mono (by omega) (by simp only [shape, Sh.size]; omega)) hr
      simp only [shape, Sh.evalM, hr.none h0, k2, etopR]
      rfl
    | .and es, b, n, l, L, h, hL, hsh, hi, hh, hr => by
      rw [shape] at hsh hh ⊢; rw [etopR]; rw [Has] at hL; rw [EFrag] at h
      exact etopRAll_correct es b n l L h hL hsh hi hh hr
    | .or es, b, n, l, L, h, hL, hsh, hi, hh, hr => by
      rw [shape] at hsh hh ⊢; rw [etopR]; rw [Has] at hL; rw [EFrag] at h
      exact etopRAny_correct es b n l L h hL hsh hi hh hr
    | .value _, b, n, l, L, h, _, _, _, _, _ | .regex _, b, n, l, L, h, _, _, _, _, _ | .pcre _, b, n, l, L, h, _, _, _, _, _
    | .time _, b, n, l, L, h, _, _, _, _, _ | .field _, b, n, l, L, h, _, _, _, _, _ | .func .., b, n, l, L, h, _, _, _, _, _ => by
      simp [EFrag, Frag] at h

  theorem etopRAll_correct : ∀ (es : Exprs E) (b : Nat) (n : Exec E) (l : Marks) (L : List (Path × Item E)), EFrags C es →
      HasAll C N es b L → ShOK sh (shapes .and es) b → (∀ j, b ≤ j → j < b + (shapes .and es).size → V j = bodyOfs es b j) → Hosts n L b (shapes .and es).size → RanG (valFor X C V) X sh r L' n r l →
      (shapes .and es).evalM b l.get = etopRAll X C L' es r
    | .nil, b, n, l, L, h, _, _, _, _, _ => by simp [EFrags] at h
    | .cons e .nil, b, n, l, L, h, hL, hsh, hi, hh, hr => by
      rw [EFrags] at h; rw [shapes] at hsh hh ⊢; rw [HasAll] at hL
      rw [etopRAll, etopRAll, Bool.and_true]
      exact etopR_correct e b n l L h hL hsh (fun j h1 h2 => by rw [hi j h1 h2, bodyOfs]) hh hr
    | .cons e (.cons e' r'), b, n, l, L, h, hL, hsh, hi, hh, hr => by
      rw [EFrags] at h; rw [shapes] at hsh hh hi ⊢; rw [Sh.size] at hh hi; rw [HasAll] at hL
      obtain ⟨L1, L2, rfl, hL1, hL2⟩ := hL
      have w1 := has_within e (b + 1) L1 h.1 hL1
      have w2 := hasAll_within .and (.cons e' r') _ L2 h.2 hL2
      have h0 : withBucket b (items n) = [] := by
        have := hh b (by omega) (by omega)
        rw [withBucket_append, withBucket_out w1 (by omega), withBucket_out w2 (by omega)] at this
        exact List.perm_nil.1 this
      have a2 := etopR_correct e (b + 1) n l L1 h.1 hL1 (fun s' i hs => hsh s' i (Or.inr (Or.inl hs)))
        (fun j h1 h2 => by rw [hi j (by omega) (by omega), bodyOfs, if_pos (by omega)])
        (hh.left w2 (by omega) (by omega) (by omega)) hr
      have b2 := etopRAll_correct (.cons e' r') (b + 1 + (shape e).size) n l L2 h.2 hL2 (fun s' i hs => hsh s' i (Or.inr (Or.inr hs)))
        (fun j h1 h2 => by rw [hi j (by omega) (by omega), bodyOfs, if_neg (by omega)])
        (hh.right w1 (by omega) (by omega) (by omega)) hr
      rw [etopRAll]
      simp only [Sh.evalM, hr.none h0, a2, b2]
      rfl

  theorem etopRAny_correct : ∀ (es : Exprs E) (b : Nat) (n : Exec E) (l : Marks) (L : List (Path × Item E)), EFrags C es →
      HasAll C N es b L → ShOK sh (shapes .or es) b → (∀ j, b ≤ j → j < b + (shapes .or es).size → V j = bodyOfs es b j) → Hosts n L b (shapes .or es).size → RanG (valFor X C V) X sh r L' n r l →
      (shapes .or es).evalM b l.get = etopRAny X C L' es r
    | .nil, b, n, l, L, h, _, _, _, _, _ => by simp [EFrags] at h
    | .cons e .nil, b, n, l, L, h, hL, hsh, hi, hh, hr => by
      rw [EFrags] at h; rw [shapes] at hsh hh ⊢; rw [HasAll] at hL
      rw [etopRAny, etopRAny, Bool.or_false]
      exact etopR_correct e b n l L h hL hsh (fun j h1 h2 => by rw [hi j h1 h2, bodyOfs]) hh hr
    | .cons e (.cons e' r'), b, n, l, L, h, hL, hsh, hi, hh, hr => by
      rw [EFrags] at h; rw [shapes] at hsh hh hi ⊢; rw [Sh.size] at hh hi; rw [HasAll] at hL
      obtain ⟨L1, L2, rfl, hL1, hL2⟩ := hL
      have w1 := has_within e (b + 1) L1 h.1 hL1
      have w2 := hasAll_within .or (.cons e' r') _ L2 h.2 hL2
      have h0 : withBucket b (items n) = [] := by
        have := hh b (by omega) (by omega)
        rw [withBucket_append, withBucket_out w1 (by omega), withBucket_out w2 (by omega)] at this
        exact List.perm_nil.1 this
      have a2 := etopR_correct e (b + 1) n l L1 h.1 hL1 (fun s' i hs => hsh s' i (Or.inr (Or.inl hs)))
        (fun j h1 h2 => by rw [hi j (by omega) (by omega), bodyOfs, if_pos (by omega)])
        (hh.left w2 (by omega) (by omega) (by omega)) hr
      have b2 := etopRAny_correct (.cons e' r') (b + 1 + (shape e).size) n l L2 h.2 hL2 (fun s' i hs => hsh s' i (Or.inr (Or.inr hs)))
        (fun j h1 h2 => by rw [hi j (by omega) (by omega), bodyOfs, if_neg (by omega)])
        (hh.right w1 (by omega) (by omega) (by omega)) hr
      rw [etopRAny]
      simp only [Sh.evalM, hr.none h0, a2, b2]
      rfl
end

theorem emergeR_correct : ∀ (e : Expr E) (es : List (Expr E)) (b : Nat) (n : Exec E) (l : Marks) (L : List (Path × Item E)),
    (∀ x ∈ e :: es, EFrag C x) → HasAll C N (.ofList (e :: es)) b L → ShOK sh (shapes .neor (.ofList (e :: es))) b →
    (∀ j, b ≤ j → j < b + (shapes .neor (.ofList (e :: es))).size → V j = bodyOfs (.ofList (e :: es)) b j) →
    Hosts n L b (shapes .neor (.ofList (e :: es))).size → RanG (valFor X C V) X sh r L' n r l →
    (shapes .neor (.ofList (e :: es))).evalM b l.get = (e :: es).any (fun x => etopR X C L' x r)
  | e, [], b, n, l, L, h, hL, hsh, hi, hh, hr => by
    simp only [Exprs.ofList, shapes, HasAll] at hsh hh hL ⊢
    simp only [Exprs.ofList, shapes] at hi
    rw [etopR_correct e b n l L (h e (by simp)) hL hsh (fun j h1 h2 => by rw [hi j h1 h2, bodyOfs]) hh hr]
    simp
  | e, e' :: es, b, n, l, L, h, hL, hsh, hi, hh, hr => by
    have hfr := efrags_of_list e' es (fun x hx => h x (List.mem_cons_of_mem _ hx))
    simp only [Exprs.ofList] at hfr
    simp only [Exprs.ofList, shapes, HasAll, Sh.size] at hsh hh hL ⊢
    simp only [Exprs.ofList, shapes, Sh.size] at hi
    obtain ⟨L1, L2, rfl, hL1, hL2⟩ := hL
    have w1 := has_within e (b + 1) L1 (h e (by simp)) hL1
    have w2 := hasAll_within .neor (.cons e' (.ofList es)) _ L2 hfr hL2
    have h0 : withBucket b (items n) = [] := by
      have := hh b (by omega) (by omega)
      rw [withBucket_append, withBucket_out w1 (by omega), withBucket_out w2 (by omega)] at this
      exact List.perm_nil.1 this
    have a2 := etopR_correct e (b + 1) n l L1 (h e (by simp)) hL1 (fun s' i hs => hsh s' i (Or.inr (Or.inl hs)))
      (fun j h1 h2 => by rw [hi j (by omega) (by omega), bodyOfs, if_pos (by omega)])
      (hh.left w2 (by omega) (by omega) (by omega)) hr
    have b2 := emergeR_correct e' es (b + 1 + (shape e).size) n l L2 (fun x hx => h x (List.mem_cons_of_mem _ hx)) hL2
      (fun s' i hs => hsh s' i (Or.inr (Or.inr hs))) (fun j h1 h2 => by
        simp only [Exprs.ofList] at h2
        rw [hi j (by omega) (by omega), bodyOfs, if_neg (by omega), Exprs.ofList])
      (hh.right w1 (by omega) (by simp only [Exprs.ofList]; omega) (by omega)) hr
    simp only [Exprs.ofList] at b2
    simp only [Sh.evalM, hr.none h0, a2, b2]
    rfl

end

/-! ### C85 -/

theorem arr_of_lit {ty : Token.Tok} {w : List Nat} : ∀ (q : Path) {ws : List Nat} {es : Es}, D.arr ws es ∈ walk q (.lit ty w) → False
  | [], _, _, h => by simp [walk] at h
  | k :: q, _, _, h => by simp [walk] at h

/-- Filters of conditions on single fields and loops over arrays of the document whose bodies compare fields of the element: on every
document the matcher of the compiled definition finds out what `etopR` says. -/
theorem C85_verdict (X : Fns E) (C : Comp E) (slot0 : Nat) {es : List (Expr E)} {g : Expr E} {gs : List (Expr E)} (hg : genExprs es = g :: gs)
    (h : ∀ x ∈ g :: gs, EFrag C x) (hsafe : ∀ x ∈ g :: gs, SafeE x) {data : List Nat} {r : D} (hr : Begins data r) :
    ∃ df, transform C slot0 es = .ok df ∧ ∀ m, Ready df m →
      ∃ m', run X df m data = .ok (some ((g :: gs).any (fun x => etopR X C (condsOf (g :: gs)) x r)), m') := by
  obtain ⟨t, L, h1, h2, h3, _, hap⟩ := tMerge_outer C g gs (initT slot0) 0 h (initT_start slot0)
    ⟨rfl, emptyExec_tidy, emptyExec_full, by intro x hx; cases hx⟩
  obtain ⟨hG, -⟩ := tMerge_grown C g gs (initT slot0) t 0 (initT_start slot0) h1
  have hfr := efrags_of_list g gs h
  have hF := hasAll_facts (X := X) (sh := subtree (shapes .neor (.ofList (g :: gs))) 0) (r := .obj [] .nil) (by intro _ _ h; cases h) .neor
    (.ofList (g :: gs)) 0 L hfr h2
  have hperm : (items t.1.root).Perm L := by
    have := h3.perm
    simpa [initT, emptyExec, items, itemsE, loopItems, afterItems] using this
  have hnotes : notes t.1.root = [] := by
    have := h3.notes
    have h0 : notes (initT slot0 : T E).root = [] := emptyExec_notes
    rw [h0] at this
    exact List.perm_nil.1 this
  refine ⟨_, by rw [transform_cons C slot0 es hg, h1]; rfl, fun m hm => ?_⟩
  have hw : Loose1 { parse := some t.1.root, tree := t.1.tree, buckets := bucketIds es t.2, numSlots := t.1.slotIdx : Def E }
      (shapes .neor (.ofList (g :: gs))) t.1.root := by
    refine ⟨rfl, ?_, ?_, outer_of_items _ (fun x hx => hF.items x (hperm.mem_iff.1 hx)) hnotes, h3.tidy⟩
    · rw [shapes_merge]; exact hG.shaped
    · rw [shapes_merge]; have := hG.len; simpa [initT] using this
  have hsf : t.1.root.Safe t.1.slotIdx := by
    refine safe_of_items _ (fun x hx => hF.safe (safeEs_of_list _ hsafe) x (hperm.mem_iff.1 hx)) (fun p s hm => ?_)
    rw [hnotes] at hm; cases hm
  have hloopy := hasAll_loopy (sh := subtree (shapes .neor (.ofList (g :: gs))) 0) (V := bodyOfs (.ofList (g :: gs)) 0) .neor _ 0 L hfr h2
    (subtree_ok _ 0) (fun _ _ _ => rfl)
  have hfine : FineG (valFor X C (bodyOfs (.ofList (g :: gs)) 0)) X (subtree (shapes .neor (.ofList (g :: gs))) 0) r t.1.slotIdx L t.1.root r := by
    intro q b m' t' e hx
    have hx' := hperm.mem_iff.1 hx
    refine ⟨⟨q, t', hx'⟩, fun ws xs hxs => ?_⟩
    cases r with
    | lit ty w => exact (arr_of_lit q hxs).elim
    | obj ws' ms => exact hloopy.carried (by intro _ _ h; cases h) hx' xs
    | arr ws' ys => exact hloopy.carried (by intro _ _ h; cases h) hx' xs
  obtain ⟨l, m', d1, d2⟩ := run_carry _ X hap hw hsf hr hfine hm
  refine ⟨m', ?_⟩
  rw [d2]
  rw [emergeR_correct (N := t.1.slotIdx) (L' := condsOf (g :: gs)) g gs 0 t.1.root l L h h2 (subtree_ok _ 0) (fun _ _ _ => rfl)
    (fun i _ _ => hperm.filter _) ⟨h3.tidy, h3.full, kinds_compiled hperm (by rw [hF.kinds, condsAll_of_list]) hnotes, _, _, _, d1, rfl⟩]

end Verif.Transform
