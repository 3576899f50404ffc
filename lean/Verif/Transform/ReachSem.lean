import Verif.Transform.Reach
import Verif.Transform.Theorems

/-!
# C83: the verdict on any document

The verdict of the compiled matcher on every document, without the restriction to regular documents of C22 and C23: conditions
are evaluated on the first value that `reach` gives for their path.
-/

namespace Verif.Transform
open Verif.FastVal Verif.Match Verif.Expr
open Verif.Token (D Es Ms Tok)
open Verif.BinTree (Sh K UnOp BinOp)

variable {E : Ext}

/-! ### Specification -/

mutual
  /-- Value of an expression on `d`, `none` if it depends on a field that is not reached.  `L` are the conditions of the whole filter, or
  of the whole body inside a loop. -/
  def semR (X : Fns E) (C : Comp E) (L : List (Path × Bool)) : Expr E → D → Option Bool
    | .cmp c l r, d => (reach false L (condPath l r) d).head?.map (condHolds X C c l r)
    | .exist e, d => (reach false L (condPath e e) d).head?.map (fun _ => true)
    | .notExist e, d => (reach false L (condPath e e) d).head?.map (fun _ => false)
    | .not e, d => kNot (semR X C L e d)
    | .and es, d => semRAll X C L es d
    | .or es, d => semRAny X C L es d
    | .loop m _ i s, d => (firstArr (reach true L (inPath i) d)).map (Mode.holds m (fun x => decide (semR X C (conds s) s x = some true)))
    | _, _ => none
  def semRAll (X : Fns E) (C : Comp E) (L : List (Path × Bool)) : Exprs E → D → Option Bool
    | .nil, _ => some true
    | .cons e r, d => kAnd (semR X C L e d) (semRAll X C L r d)
  def semRAny (X : Fns E) (C : Comp E) (L : List (Path × Bool)) : Exprs E → D → Option Bool
    | .nil, _ => some false
    | .cons e r, d => kOr (semR X C L e d) (semRAny X C L r d)
end

mutual
  /-- Verdict on a document: conditions on fields that are not reached are false (so their negations are true). -/
  def topR (X : Fns E) (C : Comp E) (L : List (Path × Bool)) : Expr E → D → Bool
    | .cmp c l r, d => ((reach false L (condPath l r) d).head?.map (condHolds X C c l r)).getD (decide (c = .ne))
    | .exist e, d => (reach false L (condPath e e) d).head?.isSome
    | .notExist e, d => !(reach false L (condPath e e) d).head?.isSome
    | .not e, d => !topR X C L e d
    | .and es, d => topRAll X C L es d
    | .or es, d => topRAny X C L es d
    | .loop m _ i s, d =>
      ((firstArr (reach true L (inPath i) d)).map (Mode.holds m (fun x => decide (semR X C (conds s) s x = some true)))).getD (blank s)
    | _, _ => false
  def topRAll (X : Fns E) (C : Comp E) (L : List (Path × Bool)) : Exprs E → D → Bool
    | .nil, _ => true
    | .cons e r, d => topR X C L e d && topRAll X C L r d
  def topRAny (X : Fns E) (C : Comp E) (L : List (Path × Bool)) : Exprs E → D → Bool
    | .nil, _ => false
    | .cons e r, d => topR X C L e d || topRAny X C L r d
end

/-! ### It depends on the set of conditions only -/

section
variable (X : Fns E) (C : Comp E)

mutual
  theorem semR_congr : ∀ (e : Expr E) (v : Int) (d : D), Frag C v e → ∀ {L L' : List (Path × Bool)}, (∀ x, x ∈ L ↔ x ∈ L') →
      semR X C L e d = semR X C L' e d
    | .cmp c l r, v, d, h, L, L', hL => by rw [semR, semR, reach_congr hL]
    | .exist e, v, d, h, L, L', hL => by rw [semR, semR, reach_congr hL]
    | .notExist e, v, d, h, L, L', hL => by rw [semR, semR, reach_congr hL]
    | .not e, v, d, h, L, L', hL => by rw [semR, semR, semR_congr e v d h hL]
    | .and es, v, d, h, L, L', hL => by rw [semR, semR]; exact (semRs_congr es v d h hL).1
    | .or es, v, d, h, L, L', hL => by rw [semR, semR]; exact (semRs_congr es v d h hL).2
    | .loop m w i s, v, d, h, L, L', hL => by rw [semR, semR, reach_congr hL]
    | .tru, v, d, h, L, L', hL | .fals, v, d, h, L, L', hL => by rw [semR, semR] <;> simp
    | .value _, v, d, h, _, _, _ | .regex _, v, d, h, _, _, _ | .pcre _, v, d, h, _, _, _ | .time _, v, d, h, _, _, _
    | .field _, v, d, h, _, _, _ | .func .., v, d, h, _, _, _ => by simp [Frag] at h
  theorem semRs_congr : ∀ (es : Exprs E) (v : Int) (d : D), Frags C v es → ∀ {L L' : List (Path × Bool)}, (∀ x, x ∈ L ↔ x ∈ L') →
      semRAll X C L es d = semRAll X C L' es d ∧ semRAny X C L es d = semRAny X C L' es d
    | .nil, v, d, h, _, _, _ => by simp [Frags] at h
    | .cons e .nil, v, d, h, L, L', hL => by
      rw [Frags] at h
      simp only [semRAll, semRAny, semR_congr e v d h hL, and_self]
    | .cons e (.cons e' r), v, d, h, L, L', hL => by
      rw [Frags] at h
      obtain ⟨h1, h2⟩ := semRs_congr (.cons e' r) v d h.2 hL
      have a1 : ∀ L, semRAll X C L (.cons e (.cons e' r)) d = kAnd (semR X C L e d) (semRAll X C L (.cons e' r) d) := fun L => by rw [semRAll]
      have a2 : ∀ L, semRAny X C L (.cons e (.cons e' r)) d = kOr (semR X C L e d) (semRAny X C L (.cons e' r) d) := fun L => by rw [semRAny]
      rw [a1, a1, a2, a2, h1, h2, semR_congr e v d h.1 hL]
      exact ⟨rfl, rfl⟩
end

mutual
  theorem topR_congr : ∀ (e : Expr E) (v : Int) (d : D), Frag C v e → ∀ {L L' : List (Path × Bool)}, (∀ x, x ∈ L ↔ x ∈ L') →
      topR X C L e d = topR X C L' e d
    | .cmp c l r, v, d, h, L, L', hL => by rw [topR, topR, reach_congr hL]
    | .exist e, v, d, h, L, L', hL => by rw [topR, topR, reach_congr hL]
    | .notExist e, v, d, h, L, L', hL => by rw [topR, topR, reach_congr hL]
    | .not e, v, d, h, L, L', hL => by rw [topR, topR, topR_congr e v d h hL]
    | .and es, v, d, h, L, L', hL => by rw [topR, topR]; exact (topRs_congr es v d h hL).1
    | .or es, v, d, h, L, L', hL => by rw [topR, topR]; exact (topRs_congr es v d h hL).2
    | .loop m w i s, v, d, h, L, L', hL => by rw [topR, topR, reach_congr hL]
    | .tru, v, d, h, L, L', hL | .fals, v, d, h, L, L', hL => by rw [topR, topR] <;> simp
    | .value _, v, d, h, _, _, _ | .regex _, v, d, h, _, _, _ | .pcre _, v, d, h, _, _, _ | .time _, v, d, h, _, _, _
    | .field _, v, d, h, _, _, _ | .func .., v, d, h, _, _, _ => by simp [Frag] at h
  theorem topRs_congr : ∀ (es : Exprs E) (v : Int) (d : D), Frags C v es → ∀ {L L' : List (Path × Bool)}, (∀ x, x ∈ L ↔ x ∈ L') →
      topRAll X C L es d = topRAll X C L' es d ∧ topRAny X C L es d = topRAny X C L' es d
    | .nil, v, d, h, _, _, _ => by simp [Frags] at h
    | .cons e .nil, v, d, h, L, L', hL => by
      rw [Frags] at h
      simp only [topRAll, topRAny, topR_congr e v d h hL, and_self]
    | .cons e (.cons e' r), v, d, h, L, L', hL => by
      rw [Frags] at h
      obtain ⟨h1, h2⟩ := topRs_congr (.cons e' r) v d h.2 hL
      have a1 : ∀ L, topRAll X C L (.cons e (.cons e' r)) d = (topR X C L e d && topRAll X C L (.cons e' r) d) := fun L => by rw [topRAll]
      have a2 : ∀ L, topRAny X C L (.cons e (.cons e' r)) d = (topR X C L e d || topRAny X C L (.cons e' r) d) := fun L => by rw [topRAny]
      rw [a1, a1, a2, a2, h1, h2, topR_congr e v d h.1 hL]
      exact ⟨rfl, rfl⟩
end

end

/-! ### The compiled node -/

/-- The conditions of a node are those of the expression it was compiled from. -/
theorem kinds_compiled {n : Exec E} {L : List (Path × Item E)} {cs : List (Path × Bool)} (hp : (items n).Perm L) (hk : L.map kind = cs)
    (hno : notes n = []) : ∀ x, x ∈ kinds n ↔ x ∈ cs := by
  intro x
  rw [← hk, kinds, hno, List.map_nil, List.append_nil, (hp.map kind).mem_iff]

section
variable (X : Fns E) (C : Comp E) (sh : Nat → Sh) (r : D)

/-- A run of a node, on any document. -/
structure RanR (n : Exec E) (d : D) (l : Marks) : Prop where
  tidy : n.Tidy
  full : n.Full
  run : ∃ h σ a, dExec X sh r h n d σ = .ok a ∧ a.1 = l

variable {X C sh r}

theorem RanR.none {n : Exec E} {d : D} {l : Marks} (h : RanR X sh r n d l) {i : Nat} (hi : withBucket i (items n) = []) : l.get i = none := by
  obtain ⟨hh, σ, a, ha, rfl⟩ := h.run
  rw [get_of_sel, (dExec_decidesR X sh r hh n d σ a i ha h.tidy h.full).1 hi]
  rfl

theorem RanR.one {n : Exec E} {d : D} {l : Marks} (h : RanR X sh r n d l) {i : Nat} {p : Path} {it : Item E} (hi : withBucket i (items n) = [(p, it)])
    (hd : Direct it) {f : D → Option Bool}
    (hf : ∀ x h σ l, itemMarks X sh r h it x σ = .ok l → l = (f x).toList.map (fun v => (i, v))) :
    l.get i = (reach (isLoop it) (kinds n) p d).findSome? f := by
  obtain ⟨hh, σ, a, ha, rfl⟩ := h.run
  rw [get_of_sel, (dExec_decidesR X sh r hh n d σ a i ha h.tidy h.full).2 p it hi hd _ hf]
  induction reach (isLoop it) (kinds n) p d with
  | nil => rfl
  | cons x w ih =>
    rw [List.flatMap_cons, List.findSome?_cons]
    cases hx : f x with
    | none => simpa using ih
    | some v => simp

/-- A condition. -/
theorem RanR.cond {n : Exec E} {d : D} {l : Marks} (h : RanR X sh r n d l) {i : Nat} {p : Path} {o : Op E}
    (hi : (withBucket i (items n)).Perm [(p, .op o)]) {g : D → Bool}
    (hg : ∀ x y, valOf x = .ok y → ∀ rd q, opResult X rd (some y) o = .ok q → q.1 = g x) :
    l.get i = (reach false (kinds n) p d).head?.map g := by
  have hi' := List.perm_singleton.1 hi
  have hb : o.bucket = i := by
    have hm : (p, Item.op o) ∈ withBucket i (items n) := by rw [hi']; exact List.mem_singleton.2 rfl
    exact (mem_withBucket.1 hm).2
  rw [h.one hi' trivial (f := fun x => some (g x)) ?_, findSome_head]
  · rfl
  intro x hh σ l' hl
  rw [itemMarks] at hl
  obtain ⟨y, hy, hl⟩ := Res.bind_eq_ok.1 hl
  obtain ⟨q, hq, hl⟩ := Res.bind_eq_ok.1 hl
  cases hl
  simp [hg x y hy _ q hq, hb]

mutual
  /-- The decisions of a node that hosts a compiled expression give its value. -/
  theorem semR_correct : ∀ (e : Expr E) (v : Int) (b : Nat) (n : Exec E) (d : D) (l : Marks), Frag C v e → ShOK sh (shape e) b →
      Hosts n (eItems C e b) b (shape e).size → RanR X sh r n d l →
      K (shape e) b l.get = semR X C (kinds n) e d ∧ (shape e).evalM b l.get = topR X C (kinds n) e d
    | .cmp c l' r', v, b, n, d, l, h, _, hh, hr => by
      by_cases hne : c = .ne
      · subst hne
        have h0 : withBucket b (items n) = [] := by
          have := hh b (by omega) (by simp [shape, Sh.size])
          simpa [eItems, withBucket, Item.bucket] using this
        have h1 := hh (b + 1) (by omega) (by simp [shape, Sh.size])
        have hc := hr.cond (p := condPath l' r') (o := ⟨b + 1, opOf .ne, sideOf C l', sideOf C r'⟩)
          (g := fun x => !condHolds X C .ne l' r' x) (by simpa [eItems, withBucket, Item.bucket] using h1)
          (fun x y hy rd q hq => by have := op_cond X C rd h.1 h.2 _ .ne hy hq; simpa using this)
        simp only [shape, K, Sh.evalM, hr.none h0, hc, semR, topR, BinTree.kUn, UnOp.eval]
        cases (reach false (kinds n) (condPath l' r') d).head? <;> simp
      · have h1 := hh b (by omega) (by have := (shape (.cmp c l' r')).size_pos; omega)
        have hc := hr.cond (p := condPath l' r') (o := ⟨b, opOf c, sideOf C l', sideOf C r'⟩)
          (g := condHolds X C c l' r') (by simpa [eItems, withBucket, Item.bucket, hne] using h1)
          (fun x y hy rd q hq => by have := op_cond X C rd h.1 h.2 _ c hy hq; simpa [hne] using this)
        have hs : shape (.cmp c l' r') = .leaf := by cases c <;> first | rfl | exact absurd rfl hne
        simp only [hs, K, Sh.evalM, hc, semR, topR]
        simp [hne]
    | .exist e, v, b, n, d, l, h, _, hh, hr => by
      have h1 := hh b (by omega) (by simp [shape, Sh.size])
      have hc := hr.cond (p := condPath e e) (o := ⟨b, .exists_, sideOf C e, none⟩)
        (g := fun _ => true) (by simpa [eItems, withBucket, Item.bucket] using h1)
        (fun x y hy rd q hq => op_exists X C rd h _ hq)
      simp only [shape, K, Sh.evalM, hc, semR, topR]
      cases (reach false (kinds n) (condPath e e) d).head? <;> simp
    | .notExist e, v, b, n, d, l, h, _, hh, hr => by
      have h0 : withBucket b (items n) = [] := by
        have := hh b (by omega) (by simp [shape, Sh.size])
        simpa [eItems, withBucket, Item.bucket] using this
      have h1 := hh (b + 1) (by omega) (by simp [shape, Sh.size])
      have hc := hr.cond (p := condPath e e) (o := ⟨b + 1, .exists_, sideOf C e, none⟩)
        (g := fun _ => true) (by simpa [eItems, withBucket, Item.bucket] using h1)
        (fun x y hy rd q hq => op_exists X C rd h _ hq)
      simp only [shape, K, Sh.evalM, hr.none h0, hc, semR, topR, BinTree.kUn, UnOp.eval]
      cases (reach false (kinds n) (condPath e e) d).head? <;> simp
    | .not e, v, b, n, d, l, h, hsh, hh, hr => by
      have h0 : withBucket b (items n) = [] := by
        have := hh b (by omega) (by simp only [shape, Sh.size]; omega)
        rw [eItems, withBucket_out (eItems_within C e v (b + 1) h) (by omega)] at this
        exact List.perm_nil.1 this
      obtain ⟨k1, k2⟩ := semR_correct e v (b + 1) n d l h (fun s' i hs => hsh s' i (Or.inr hs))
        (by rw [eItems] at hh; exact hh.mono (by omega) (by simp only [shape, Sh.size]; omega)) hr
      simp only [shape, K, Sh.evalM, hr.none h0, k1, k2, semR, topR]
      exact ⟨rfl, rfl⟩
    | .and es, v, b, n, d, l, h, hsh, hh, hr => by
      rw [shape] at hsh ⊢; rw [semR, topR]; rw [eItems, shape] at hh
      exact semRAll_correct es v b n d l h hsh hh hr
    | .or es, v, b, n, d, l, h, hsh, hh, hr => by
      rw [shape] at hsh ⊢; rw [semR, topR]; rw [eItems, shape] at hh
      exact semRAny_correct es v b n d l h hsh hh hr
    | .loop m w i s, v, b, n, d, l, h, hsh, hh, hr => by
      have hsub : ShOK sh (shape s) (b + 1) := fun s' i hs => hsh s' i (Or.inr hs)
      have hshb : sh (b + 1) = shape s := hsub _ _ (by cases shape s <;> simp [Sh.SubAt])
      have hsp := (shape s).size_pos
      have h0 : withBucket b (items n) = [] := by
        have := hh b (by omega) (by simp only [shape, Sh.size]; omega)
        simpa [eItems, withBucket, Item.bucket] using this
      have h1 := hh (b + 1) (by omega) (by simp only [shape, Sh.size]; omega)
      have h1' : withBucket (b + 1) (items n) = [(inPath i, .loop (b + 1) m none (ins C s (b + 1) emptyExec))] := by
        have := List.perm_singleton.1 (by simpa [eItems, withBucket, Item.bucket] using h1 :
          (withBucket (b + 1) (items n)).Perm [(inPath i, .loop (b + 1) m none (ins C s (b + 1) emptyExec))])
        exact this
      have hadds := ins_adds C s w (b + 1) emptyExec h.2.2.2 emptyExec_tidy emptyExec_full
        (by rw [emptyExec_items]; intro x hx; cases hx)
      have hperm : (items (ins C s (b + 1) emptyExec)).Perm (eItems C s (b + 1)) := by
        have := hadds.perm; rwa [emptyExec_items, List.append_nil] at this
      obtain ⟨kk1, kk2⟩ := kind_eItems (C := C) s w (b + 1) h.2.2.2
      have hl := hr.one h1' trivial (f := fun x => match x with
          | .arr _ es => some (Mode.holds m (fun x => decide (semR X C (conds s) s x = some true)) (esList es))
          | _ => none) (by
        intro x hh' σ l' hl'
        rw [itemMarks] at hl'
        cases x with
        | lit ty t => cases hl'; rfl
        | obj ws ms => cases hl'; rfl
        | arr ws es =>
          rw [dLoop] at hl'
          obtain ⟨v', hv', hl'⟩ := Res.bind_eq_ok.1 hl'
          cases hl'
          have := dItems_init (p := fun x => decide (semR X C (conds s) s x = some true)) hv' (by
            intro y hy a ha
            have hran : RanR X sh r (ins C s (b + 1) emptyExec) y a.1 :=
              ⟨hadds.tidy, hadds.full, hh', σ, a, ha, rfl⟩
            have := (semR_correct s w (b + 1) _ y a.1 h.2.2.2 hsub (fun i _ _ => hperm.filter _) hran).1
            rw [hshb, this, semR_congr X C s w y h.2.2.2 (kinds_compiled hperm kk1 (List.perm_nil.1 hadds.notes))])
          simp [this])
      replace hl := hl.trans (firstArr_find (Mode.holds m (fun x => decide (semR X C (conds s) s x = some true))) _)
      rw [isLoop] at hl
      simp only [shape, K, Sh.evalM, hr.none h0, semR, topR]
      cases hfa : firstArr (reach true (kinds n) (inPath i) d) with
      | some xs =>
        rw [hfa] at hl
        have hk : K (shape s) (b + 1) l.get = some (Mode.holds m (fun x => decide (semR X C (conds s) s x = some true)) xs) := by
          cases shape s <;> simp [K, hl]
        have he : (shape s).evalM (b + 1) l.get = Mode.holds m (fun x => decide (semR X C (conds s) s x = some true)) xs := by
          cases shape s <;> simp [Sh.evalM, hl]
        rw [hk, he]
        exact ⟨rfl, rfl⟩
      | none =>
        have hout : ∀ j, b ≤ j → j < b + (1 + (shape s).size) → l.get j = none := by
          intro j hj1 hj2
          by_cases hj : j = b + 1
          · subst hj; rw [hl, hfa]; rfl
          · apply hr.none
            have := hh j hj1 (by simp only [shape, Sh.size]; omega)
            rw [eItems, withBucket_out (L := [_]) (b := b + 1) (n := 1) (by
              intro x hx; rw [List.mem_singleton] at hx; subst hx; simp only [Item.bucket]; omega) (by omega)] at this
            exact List.perm_nil.1 this
        rw [blank_eval s w (b + 1) l.get h.2.2.2 (fun j h1 h2 => hout j (by omega) (by omega)),
          K_none (shape s) (b + 1) l.get (fun j h1 h2 => hout j (by omega) (by omega))]
        exact ⟨rfl, rfl⟩
    | .tru, v, b, n, d, l, h, _, hh, hr | .fals, v, b, n, d, l, h, _, hh, hr => by
      have h0 : withBucket b (items n) = [] := by
        have := hh b (by omega) (by simp [shape, Sh.size])
        simpa [eItems, withBucket] using this
      simp [shape, K, Sh.evalM, hr.none h0, semR, topR]
    | .value _, v, b, n, d, l, h, _, _, _
    | .regex _, v, b, n, d, l, h, _, _, _ | .pcre _, v, b, n, d, l, h, _, _, _ | .time _, v, b, n, d, l, h, _, _, _
    | .field _, v, b, n, d, l, h, _, _, _ | .func .., v, b, n, d, l, h, _, _, _ => by simp [Frag] at h

  theorem semRAll_correct : ∀ (es : Exprs E) (v : Int) (b : Nat) (n : Exec E) (d : D) (l : Marks), Frags C v es → ShOK sh (shapes .and es) b →
      Hosts n (eItemsAll C es b) b (shapes .and es).size → RanR X sh r n d l →
      K (shapes .and es) b l.get = semRAll X C (kinds n) es d ∧ (shapes .and es).evalM b l.get = topRAll X C (kinds n) es d
    | .nil, v, b, n, d, l, h, _, _, _ => by simp [Frags] at h
    | .cons e .nil, v, b, n, d, l, h, hsh, hh, hr => by
      rw [Frags] at h; rw [shapes] at hsh ⊢; rw [eItemsAll, shapes] at hh
      rw [semRAll, semRAll, topRAll, topRAll, kAnd_true, Bool.and_true]
      exact semR_correct e v b n d l h hsh hh hr
    | .cons e (.cons e' r'), v, b, n, d, l, h, hsh, hh, hr => by
      rw [Frags] at h; rw [shapes] at hsh ⊢; rw [eItemsAll, shapes, Sh.size] at hh
      have w1 := eItems_within C e v (b + 1) h.1
      have w2 := eItemsAll_within C (.cons e' r') .and v (b + 1 + (shape e).size) h.2
      have h0 : withBucket b (items n) = [] := by
        have := hh b (by omega) (by omega)
        rw [withBucket_append, withBucket_out w1 (by omega), withBucket_out w2 (by omega)] at this
        exact List.perm_nil.1 this
      obtain ⟨a1, a2⟩ := semR_correct e v (b + 1) n d l h.1 (fun s' i hs => hsh s' i (Or.inr (Or.inl hs)))
        (hh.left w2 (by omega) (by omega) (by omega)) hr
      obtain ⟨b1, b2⟩ := semRAll_correct (.cons e' r') v (b + 1 + (shape e).size) n d l h.2 (fun s' i hs => hsh s' i (Or.inr (Or.inr hs)))
        (hh.right w1 (by omega) (by omega) (by omega)) hr
      rw [semRAll, topRAll]
      simp only [K, Sh.evalM, hr.none h0, a1, a2, b1, b2, kBin_and]
      exact ⟨rfl, rfl⟩

  theorem semRAny_correct : ∀ (es : Exprs E) (v : Int) (b : Nat) (n : Exec E) (d : D) (l : Marks), Frags C v es → ShOK sh (shapes .or es) b →
      Hosts n (eItemsAll C es b) b (shapes .or es).size → RanR X sh r n d l →
      K (shapes .or es) b l.get = semRAny X C (kinds n) es d ∧ (shapes .or es).evalM b l.get = topRAny X C (kinds n) es d
    | .nil, v, b, n, d, l, h, _, _, _ => by simp [Frags] at h
    | .cons e .nil, v, b, n, d, l, h, hsh, hh, hr => by
      rw [Frags] at h; rw [shapes] at hsh ⊢; rw [eItemsAll, shapes] at hh
      rw [semRAny, semRAny, topRAny, topRAny, kOr_false, Bool.or_false]
      exact semR_correct e v b n d l h hsh hh hr
    | .cons e (.cons e' r'), v, b, n, d, l, h, hsh, hh, hr => by
      rw [Frags] at h; rw [shapes] at hsh ⊢; rw [eItemsAll, shapes, Sh.size] at hh
      have w1 := eItems_within C e v (b + 1) h.1
      have w2 := eItemsAll_within C (.cons e' r') .or v (b + 1 + (shape e).size) h.2
      have h0 : withBucket b (items n) = [] := by
        have := hh b (by omega) (by omega)
        rw [withBucket_append, withBucket_out w1 (by omega), withBucket_out w2 (by omega)] at this
        exact List.perm_nil.1 this
      obtain ⟨a1, a2⟩ := semR_correct e v (b + 1) n d l h.1 (fun s' i hs => hsh s' i (Or.inr (Or.inl hs)))
        (hh.left w2 (by omega) (by omega) (by omega)) hr
      obtain ⟨b1, b2⟩ := semRAny_correct (.cons e' r') v (b + 1 + (shape e).size) n d l h.2 (fun s' i hs => hsh s' i (Or.inr (Or.inr hs)))
        (hh.right w1 (by omega) (by omega) (by omega)) hr
      rw [semRAny, topRAny]
      simp only [K, Sh.evalM, hr.none h0, a1, a2, b1, b2, kBin_or]
      exact ⟨rfl, rfl⟩
end

theorem mergeR_correct {X : Fns E} {C : Comp E} {sh : Nat → Sh} {r : D} : ∀ (e : Expr E) (es : List (Expr E)) (v : Int) (b : Nat) (n : Exec E)
    (d : D) (l : Marks), (∀ x ∈ e :: es, Frag C v x) → ShOK sh (shapes .neor (.ofList (e :: es))) b → 
    Hosts n (eItemsAll C (.ofList (e :: es)) b) b (shapes .neor (.ofList (e :: es))).size → RanR X sh r n d l →
    (shapes .neor (.ofList (e :: es))).evalM b l.get = (e :: es).any (fun x => topR X C (kinds n) x d)
  | e, [], v, b, n, d, l, h, hsh, hh, hr => by
    simp only [Exprs.ofList, shapes, eItemsAll] at hsh hh ⊢
    rw [(semR_correct e v b n d l (h e (by simp)) hsh hh hr).2]
    simp
  | e, e' :: es, v, b, n, d, l, h, hsh, hh, hr => by
    have hfr := frags_of_list e' es (fun x hx => h x (List.mem_cons_of_mem _ hx))
    simp only [Exprs.ofList] at hfr
    simp only [Exprs.ofList, shapes, eItemsAll, Sh.size] at hsh hh ⊢
    have w1 := eItems_within C e v (b + 1) (h e (by simp))
    have w2 := eItemsAll_within C (.cons e' (.ofList es)) .neor v (b + 1 + (shape e).size) hfr
    have h0 : withBucket b (items n) = [] := by
      have := hh b (by omega) (by omega)
      rw [withBucket_append, withBucket_out w1 (by omega), withBucket_out w2 (by omega)] at this
      exact List.perm_nil.1 this
    have a2 := (semR_correct e v (b + 1) n d l (h e (by simp)) (fun s' i hs => hsh s' i (Or.inr (Or.inl hs)))
      (hh.left w2 (by omega) (by omega) (by omega)) hr).2
    have b2 := mergeR_correct e' es v (b + 1 + (shape e).size) n d l (fun x hx => h x (List.mem_cons_of_mem _ hx))
      (fun s' i hs => hsh s' i (Or.inr (Or.inr hs)))
      (hh.right w1 (by omega) (by simp only [Exprs.ofList]; omega) (by omega)) hr
    simp only [Exprs.ofList] at b2
    simp only [Sh.evalM, hr.none h0, a2, b2]
    rfl

end

/-! ### C83: any document -/

/-- The matcher of the compiled definition decides, on every document, whether one of the expressions holds on the values it reaches. -/
theorem C83_verdict (X : Fns E) (C : Comp E) (slot0 : Nat) {es : List (Expr E)} {g : Expr E} {gs : List (Expr E)} (hg : genExprs es = g :: gs)
    (h : ∀ x ∈ g :: gs, Frag C 0 x) (hsafe : ∀ x ∈ g :: gs, SafeE x) {data : List Nat} {r : D} (hr : Begins data r) :
    ∃ df, transform C slot0 es = .ok df ∧ ∀ m, Ready df m →
      ∃ m', run X df m data = .ok (some ((g :: gs).any (fun x => topR X C (condsOf (g :: gs)) x r)), m') := by
  obtain ⟨df, h1, hw, h3, _⟩ := transform_frag C slot0 es hg h
  refine ⟨df, h1, fun m hm => ?_⟩
  obtain ⟨b, m', e1, e2⟩ := run_total X hw (compiled_safe C _ h hsafe) hr hm
  have hfr := frags_of_list g gs h
  have hadds := insAll_adds C _ 0 0 emptyExec hfr emptyExec_tidy emptyExec_full (by intro x hx; cases hx)
  have hperm : (items (compiled C (g :: gs))).Perm (eItemsAll C (.ofList (g :: gs)) 0) := by
    have := hadds.perm
    simpa [compiled, emptyExec, items, itemsE, loopItems, afterItems] using this
  have hk := kind_eItemsAll (C := C) _ 0 0 hfr
  unfold verdict decisions at e2
  obtain ⟨l, h1, hb⟩ := Res.bind_eq_ok.1 e2
  obtain ⟨a, ha, hl⟩ := Res.bind_eq_ok.1 h1
  cases hb
  have hran : RanR X (subtree (shapes .neor (.ofList (g :: gs))) 0) r (compiled C (g :: gs)) r l :=
    ⟨hadds.tidy, hadds.full, _, _, _, ha, by cases hl; rfl⟩
  have hm := mergeR_correct g gs 0 0 (compiled C (g :: gs)) r l h (subtree_ok _ 0) (fun i _ _ => hperm.filter _) hran
  rw [hm] at e1
  refine ⟨m', ?_⟩
  rw [e1]
  have hc : ∀ x, x ∈ kinds (compiled C (g :: gs)) ↔ x ∈ condsOf (g :: gs) :=
    kinds_compiled hperm (by rw [hk.1, condsAll_of_list]) (List.perm_nil.1 hadds.notes)
  have : (g :: gs).any (fun x => topR X C (kinds (compiled C (g :: gs))) x r) = (g :: gs).any (fun x => topR X C (condsOf (g :: gs)) x r) := by
    rw [Bool.eq_iff_iff, List.any_eq_true, List.any_eq_true]
    constructor
    · rintro ⟨x, hx, h'⟩; exact ⟨x, hx, by rw [← topR_congr X C x 0 r (h x hx) hc]; exact h'⟩
    · rintro ⟨x, hx, h'⟩; exact ⟨x, hx, by rw [topR_congr X C x 0 r (h x hx) hc]; exact h'⟩
  rw [this]

/-- `a EXISTS OR a.b = 1` and a loop, on `{"a":[]}`: the hypotheses. -/
example : ∃ df, transform demoComp 0 demoLoops = .ok df ∧ ∀ m, Ready df m →
    ∃ m', run demoFns df m textAE = .ok (some (demoLoops.any (fun x => topR demoFns demoComp (condsOf demoLoops) x docAE)), m') :=
  C83_verdict demoFns demoComp 0 rfl (fun x hx => (demoLoops_frag x hx).1) (fun x hx => (demoLoops_frag x hx).2.1) docAE_text

/-! ### Regular documents: all values are reached -/

theorem RegularAt.below {L : List (Path × Bool)} {d x : D} {k : List Nat} (h : RegularAt L d)
    (hw : ∀ p, ∀ y ∈ walk p x, y ∈ walk (k :: p) d) : RegularAt (below k L) x where
  arr := fun p hp y hy he => mem_below.2 (h.arr (k :: p) (mem_below.1 hp) y (hw p y hy) he)
  obj := fun p hp y hy he k' p' b hb => h.obj (k :: p) (mem_below.1 hp) y (hw p y hy) he k' p' b (mem_below.1 hb)
  loops := fun q hq k' p b hb y hy => h.loops (k :: q) (mem_below.1 hq) k' p b (mem_below.1 hb) y (hw q y hy)

theorem flatMap_same {α β : Type} {f g : α → List β} : ∀ {l : List α}, (∀ x ∈ l, f x = g x) → l.flatMap f = l.flatMap g
  | [], _ => rfl
  | x :: l, h => by
    rw [List.flatMap_cons, List.flatMap_cons, h x List.mem_cons_self, flatMap_same fun y hy => h y (List.mem_cons_of_mem _ hy)]

/-- On the documents of C22 and C23 the matcher sees all the values at the paths of its conditions. -/
theorem C83_regular {loop : Bool} : ∀ {L : List (Path × Bool)} (p : Path) (d : D), RegularAt L d → (p, loop) ∈ L → reach loop L p d = walk p d
  | L, [], d, h, hp => by
    rw [reach, walk, if_pos]
    cases loop with
    | true => rfl
    | false =>
      rw [Bool.false_or]
      unfold noticed
      split
      · exact loopHere_iff.2 (h.arr [] hp _ (self_mem _) trivial)
      · rw [Bool.not_eq_true', Bool.eq_false_iff]
        intro hm
        obtain ⟨k, p, b, hm⟩ := moreBelow_iff.1 hm
        exact h.obj [] hp _ (self_mem _) trivial k p b hm
      · rfl
  | L, k :: p, d, h, hp => by
    cases d with
    | lit => rfl
    | obj ws ms =>
      rw [reach, walk]
      apply flatMap_same
      intro x hx
      exact C83_regular p x (h.below fun q y hy => by rw [walk]; exact List.mem_flatMap.2 ⟨x, hx, hy⟩) (mem_below.2 hp)
    | arr ws es =>
      rw [reach, walk, if_neg]
      · apply flatMap_same
        intro x hx
        exact C83_regular p x (h.below fun q y hy => by rw [walk]; exact List.mem_flatMap.2 ⟨x, hx, hy⟩) (mem_below.2 hp)
      · intro hl
        exact h.loops [] (loopHere_iff.1 hl) k p loop hp _ (self_mem _) trivial

example : reach false (condsOf demoExprs) [[97]] docA1 = walk [[97]] docA1 :=
  C83_regular _ _ (regular_of_check (by decide)) (by decide)

/-! ### Without loops -/

/-- A value at `p` on which a condition is evaluated, in a filter without loops whose conditions are at the paths `L`: not an empty array,
and not an empty object if there is a condition on something below `p`. -/
def visible (L : List Path) (p : Path) : D → Bool
  | .arr _ .nil => false
  | .obj _ .nil => !L.any fun q => p.isPrefixOf q && decide (p.length < q.length)
  | _ => true

/-- The paths of the conditions. -/
def pathsOf (gs : List (Expr E)) : List Path := (condsOf gs).map Prod.fst

theorem any_below {L : List Path} {p : Path} :
    (L.any fun q => p.isPrefixOf q && decide (p.length < q.length)) = true ↔ ∃ k p', p ++ k :: p' ∈ L := by
  rw [List.any_eq_true]
  constructor
  · rintro ⟨q, hq, h⟩
    rw [Bool.and_eq_true, List.isPrefixOf_iff_prefix, decide_eq_true_iff] at h
    obtain ⟨⟨t, rfl⟩, h⟩ := h
    cases t with
    | nil => simp at h
    | cons k p' => exact ⟨k, p', hq⟩
  · rintro ⟨k, p', h⟩
    exact ⟨_, h, by simp [List.isPrefixOf_iff_prefix.2 ⟨k :: p', rfl⟩]⟩

theorem visible_below {L : List (Path × Bool)} {k : List Nat} {p : Path} :
    visible ((below k L).map Prod.fst) p = visible (L.map Prod.fst) (k :: p) := by
  funext x
  unfold visible
  split
  · rfl
  · congr 1
    rw [Bool.eq_iff_iff, any_below, any_below]
    constructor
    · rintro ⟨k', p', h⟩
      obtain ⟨⟨q, b⟩, hq, he⟩ := List.mem_map.1 h
      have := mem_below.1 hq
      simp only at he; subst he
      exact ⟨k', p', List.mem_map.2 ⟨_, this, rfl⟩⟩
    · rintro ⟨k', p', h⟩
      obtain ⟨⟨q, b⟩, hq, he⟩ := List.mem_map.1 h
      simp only at he; subst he
      exact ⟨k', p', List.mem_map.2 ⟨(p ++ k' :: p', b), mem_below.2 hq, rfl⟩⟩
  · rfl

/-- Without loops, what is reached are the visible values at the path. -/
theorem reach_visible : ∀ {L : List (Path × Bool)} (p : Path) (d : D), (∀ q, (q, true) ∉ L) →
    reach false L p d = (walk p d).filter (visible (L.map Prod.fst) p)
  | L, [], d, h => by
    have hv : noticed L d = visible (L.map Prod.fst) [] d := by
      unfold noticed visible
      split
      · rw [Bool.eq_false_iff]; intro hl; exact h [] (loopHere_iff.1 hl)
      · congr 1
        rw [Bool.eq_iff_iff, moreBelow_iff, any_below]
        constructor
        · rintro ⟨k, p, b, hm⟩; exact ⟨k, p, List.mem_map.2 ⟨_, hm, rfl⟩⟩
        · rintro ⟨k, p, hm⟩
          obtain ⟨⟨q, b⟩, hq, he⟩ := List.mem_map.1 hm
          simp only [List.nil_append] at he; subst he
          exact ⟨k, p, b, hq⟩
      · rename_i h1 h2
        cases d with
        | lit => rfl
        | obj ws ms =>
          cases ms with
          | nil => exact (h2 _ rfl).elim
          | cons => rfl
        | arr ws es =>
          cases es with
          | nil => exact (h1 _ rfl).elim
          | cons => rfl
    rw [reach, walk, Bool.false_or, hv]
    cases hvd : visible (L.map Prod.fst) [] d <;> simp [hvd]
  | L, k :: p, d, h => by
    have hb : ∀ q, (q, true) ∉ below k L := fun q hq => h _ (mem_below.1 hq)
    have hf : reach false (below k L) p = fun x => (walk p x).filter (visible (L.map Prod.fst) (k :: p)) := by
      funext x; rw [reach_visible p x hb, visible_below]
    cases d with
    | lit => rfl
    | obj ws ms => rw [reach, walk, hf, List.filter_flatMap]
    | arr ws es =>
      rw [reach, walk, hf, List.filter_flatMap, if_neg]
      intro hl; exact h [] (loopHere_iff.1 hl)

mutual
  /-- Truth of an expression without loops, `vals` giving the values of the fields: conditions on fields without values are false, `!=` is
  the negation of `=`. -/
  def truthOn (X : Fns E) (C : Comp E) (vals : Path → List D) : Expr E → Bool
    | .cmp c l r => match (vals (condPath l r)).head? with
      | some x => condHolds X C c l r x
      | none => decide (c = .ne)
    | .exist e => !(vals (condPath e e)).isEmpty
    | .notExist e => (vals (condPath e e)).isEmpty
    | .not e => !truthOn X C vals e
    | .and es => truthOnAll X C vals es
    | .or es => truthOnAny X C vals es
    | _ => false
  def truthOnAll (X : Fns E) (C : Comp E) (vals : Path → List D) : Exprs E → Bool
    | .nil => true
    | .cons e r => truthOn X C vals e && truthOnAll X C vals r
  def truthOnAny (X : Fns E) (C : Comp E) (vals : Path → List D) : Exprs E → Bool
    | .nil => false
    | .cons e r => truthOn X C vals e || truthOnAny X C vals r
end

mutual
  theorem topR_loopFree (X : Fns E) (C : Comp E) (L : List (Path × Bool)) (d : D) : ∀ e : Expr E, LoopFree e →
      topR X C L e d = truthOn X C (fun p => reach false L p d) e
    | .cmp c l r, _ => by rw [topR, truthOn]; cases (reach false L (condPath l r) d).head? <;> rfl
    | .exist e, _ => by rw [topR, truthOn]; cases reach false L (condPath e e) d <;> rfl
    | .notExist e, _ => by rw [topR, truthOn]; cases reach false L (condPath e e) d <;> rfl
    | .not e, h => by rw [topR, truthOn, topR_loopFree X C L d e h]
    | .and es, h => by rw [topR, truthOn, topRAll_loopFree X C L d es h]
    | .or es, h => by rw [topR, truthOn, topRAny_loopFree X C L d es h]
    | .loop .., h => by simp [LoopFree] at h
    | .tru, _ | .fals, _ | .value _, _ | .regex _, _ | .pcre _, _ | .time _, _ | .field _, _
    | .func .., _ => by simp [topR, truthOn]
  theorem topRAll_loopFree (X : Fns E) (C : Comp E) (L : List (Path × Bool)) (d : D) : ∀ es : Exprs E, LoopFrees es →
      topRAll X C L es d = truthOnAll X C (fun p => reach false L p d) es
    | .nil, _ => rfl
    | .cons e r, h => by rw [topRAll, truthOnAll, topR_loopFree X C L d e h.1, topRAll_loopFree X C L d r h.2]
  theorem topRAny_loopFree (X : Fns E) (C : Comp E) (L : List (Path × Bool)) (d : D) : ∀ es : Exprs E, LoopFrees es →
      topRAny X C L es d = truthOnAny X C (fun p => reach false L p d) es
    | .nil, _ => rfl
    | .cons e r, h => by rw [topRAny, truthOnAny, topR_loopFree X C L d e h.1, topRAny_loopFree X C L d r h.2]
end

mutual
  theorem conds_loopFree : ∀ e : Expr E, LoopFree e → ∀ q, (q, true) ∉ conds e
    | .cmp .., _, q | .exist _, _, q | .notExist _, _, q => by simp [conds]
    | .not e, h, q => by rw [conds]; exact conds_loopFree e h q
    | .and es, h, q => by rw [conds]; exact condsAll_loopFree es h q
    | .or es, h, q => by rw [conds]; exact condsAll_loopFree es h q
    | .loop .., h, q => by simp [LoopFree] at h
    | .tru, _, q | .fals, _, q | .value _, _, q | .regex _, _, q | .pcre _, _, q | .time _, _, q | .field _, _, q
    | .func .., _, q => by simp [conds]
  theorem condsAll_loopFree : ∀ es : Exprs E, LoopFrees es → ∀ q, (q, true) ∉ condsAll es
    | .nil, _, q => by simp [condsAll]
    | .cons e r, h, q => by
      rw [condsAll, List.mem_append]
      rintro (h' | h')
      · exact conds_loopFree e h.1 q h'
      · exact condsAll_loopFree r h.2 q h'
end

/-- C22 on every document: the verdict is the truth of the expressions if the values of a field are the visible ones. -/
theorem C83_loopFree (X : Fns E) (C : Comp E) (slot0 : Nat) {es : List (Expr E)} {g : Expr E} {gs : List (Expr E)} (hg : genExprs es = g :: gs)
    (h : ∀ x ∈ g :: gs, Frag C 0 x) (hsafe : ∀ x ∈ g :: gs, SafeE x) (hlf : ∀ x ∈ g :: gs, LoopFree x)
    {data : List Nat} {r : D} (hr : Begins data r) :
    ∃ df, transform C slot0 es = .ok df ∧ ∀ m, Ready df m →
      ∃ m', run X df m data = .ok (some ((g :: gs).any
        (truthOn X C (fun p => (walk p r).filter (visible (pathsOf (g :: gs)) p)))), m') := by
  obtain ⟨df, h1, h2⟩ := C83_verdict X C slot0 hg h hsafe hr
  refine ⟨df, h1, fun m hm => ?_⟩
  obtain ⟨m', h3⟩ := h2 m hm
  refine ⟨m', ?_⟩
  rw [h3]
  have hno : ∀ q, (q, true) ∉ condsOf (g :: gs) := by
    intro q hq
    obtain ⟨x, hx, hq⟩ := List.mem_flatMap.1 hq
    exact conds_loopFree x (hlf x hx) q hq
  have hv : (fun p => reach false (condsOf (g :: gs)) p r) = fun p => (walk p r).filter (visible (pathsOf (g :: gs)) p) :=
    funext fun p => reach_visible p r hno
  have : (g :: gs).any (fun x => topR X C (condsOf (g :: gs)) x r) =
      (g :: gs).any (truthOn X C (fun p => (walk p r).filter (visible (pathsOf (g :: gs)) p))) := by
    rw [← hv, Bool.eq_iff_iff, List.any_eq_true, List.any_eq_true]
    constructor
    · rintro ⟨x, hx, h'⟩; exact ⟨x, hx, by rw [← topR_loopFree X C _ r x (hlf x hx)]; exact h'⟩
    · rintro ⟨x, hx, h'⟩; exact ⟨x, hx, by rw [topR_loopFree X C _ r x (hlf x hx)]; exact h'⟩
  rw [this]

/-- The hypotheses on `{"a":{}}`, for an expression that asks for `a` and for `a.b`. -/
example : ∃ df, transform demoComp 0 [existOr] = .ok df ∧ ∀ m, Ready df m →
    ∃ m', run demoFns df m textAO = .ok (some ([existOr].any
      (truthOn demoFns demoComp (fun p => (walk p docAO).filter (visible (pathsOf [existOr]) p)))), m') := by
  refine C83_loopFree demoFns demoComp 0 rfl ?_ ?_ ?_ docAO_text <;> intro x hx <;> rw [List.mem_singleton] at hx <;> subst hx
  · simp [existOr, Frag, Frags, Param, condPath, fieldPath, fieldA, one]
  · simp [existOr, SafeE, SafeEs, SafeParam, fieldA, one]
  · simp [existOr, LoopFree, LoopFrees]

/-- `a` is there but not visible. -/
example : walk [[97]] docAO ≠ [] ∧ (walk [[97]] docAO).filter (visible (pathsOf [existOr]) [[97]]) = [] := by decide +kernel

/-- One condition alone: all values at the path except empty arrays. -/
theorem visible_single (p : Path) (x : D) : visible [p] p x = match x with | .arr _ .nil => false | _ => true := by
  unfold visible
  split
  · rfl
  · simp
  · cases x with
    | lit => rfl
    | obj => rfl
    | arr ws es =>
      cases es with
      | nil => rename_i h _; exact absurd rfl (h _)
      | cons => rfl

/-- C33 on every document: `EXISTS` alone is true if there is a value at the path that is not an empty array. -/
theorem C83_exists (X : Fns E) (C : Comp E) (slot0 : Nat) (p : Path) {data : List Nat} {r : D} (hr : Begins data r) :
    ∃ df, transform C slot0 [.exist (.field ⟨0, p⟩)] = .ok df ∧ ∀ m, Ready df m →
      ∃ m', run X df m data = .ok (some ((walk p r).any (fun x => match x with | .arr _ .nil => false | _ => true)), m') := by
  have hp : condPath (.field ⟨0, p⟩) (.field ⟨0, p⟩ : Expr E) = p := by simp [condPath, fieldPath]
  obtain ⟨df, h1, h2⟩ := C83_loopFree X C slot0 (es := [.exist (.field ⟨0, p⟩)]) (g := .exist (.field ⟨0, p⟩)) (gs := []) rfl
    (by simp [Frag, Param, hp]) (by simp [SafeE, SafeParam]) (by simp [LoopFree]) hr
  refine ⟨df, h1, fun m hm => ?_⟩
  obtain ⟨m', h3⟩ := h2 m hm
  refine ⟨m', ?_⟩
  rw [h3]
  have hpa : pathsOf [(.exist (.field ⟨0, p⟩) : Expr E)] = [p] := by simp [pathsOf, condsOf, conds, hp]
  have hv : visible [p] p = fun x => match x with | .arr _ .nil => false | _ => true := funext (visible_single p)
  simp only [List.any_cons, List.any_nil, Bool.or_false, truthOn, hp, hpa, hv]
  congr 3
  induction walk p r with
  | nil => rfl
  | cons x l ih =>
    rw [List.filter_cons, List.any_cons, ← ih]
    split
    · rfl
    · simp

/-- The hypotheses on `{"a":[]}`: the verdict is false though there is a value at `a`. -/
example : ∃ df, transform demoComp 0 [.exist (.field ⟨0, [[97]]⟩)] = .ok df ∧ ∀ m, Ready df m →
    ∃ m', run demoFns df m textAE = .ok (some ((walk [[97]] docAE).any (fun x => match x with | .arr _ .nil => false | _ => true)), m') :=
  C83_exists demoFns demoComp 0 [[97]] docAE_text

example : walk [[97]] docAE ≠ [] ∧ (walk [[97]] docAE).any (fun x => match x with | .arr _ .nil => false | _ => true) = false := by
  decide +kernel

end Verif.Transform
