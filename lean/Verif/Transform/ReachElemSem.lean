import Verif.Transform.ReachElemOps
import Verif.Transform.ReachMulti
import Verif.Transform.ElementWhole

/-!
# Comparisons of several fields of an element, on any element

What the body of a loop decides about an element (fastMatcher.go:388-520) if earlier elements have left values in the slots: the slots are not
cleared between two elements, so a field that an element does not have is the one of an earlier element.
-/

namespace Verif.Transform
open Verif.FastVal Verif.Match Verif.Expr
open Verif.Token (D Es Ms Tok)
open Verif.BinTree (Sh K UnOp BinOp mergeSh mergeParts Shaped)

variable {E : Ext}

/-! ### Specification -/

/-- The fields at the first value `x` at `q`: the last values reached below it, or else those of the earlier elements (`G`). -/
def envElem (L : List (Path × Bool)) (G : Env) (q : Path) (x : D) : Env :=
  fun p => seeing (belowP q L) (fun p' => G (q ++ p')) x (p.drop q.length)

/-- A comparison of several fields of an element: decided at the first value reached at the base. -/
def multiElem (X : Fns E) (C : Comp E) (L : List (Path × Bool)) (G : Env) (c : Cmp) (l r : Expr E) (y : D) : Option Bool :=
  let v := (reachA L (base l r) y).head?.map fun x => multiHolds X C (if c = .ne then .eq else c) l r (envElem L G (base l r) x)
  if c = .ne then kNot v else v

mutual
  /-- Value of a body on an element; `L` are the conditions of the body, `G` the fields left by the earlier elements. -/
  def lsemR (X : Fns E) (C : Comp E) (L : List (Path × Bool)) (G : Env) : Expr E → D → Option Bool
    | .cmp c l r, d => if several l r then multiElem X C L G c l r d else semR X C L (.cmp c l r) d
    | .not e, d => kNot (lsemR X C L G e d)
    | .and es, d => lsemRAll X C L G es d
    | .or es, d => lsemRAny X C L G es d
    | e, d => semR X C L e d
  def lsemRAll (X : Fns E) (C : Comp E) (L : List (Path × Bool)) (G : Env) : Exprs E → D → Option Bool
    | .nil, _ => some true
    | .cons e r, d => kAnd (lsemR X C L G e d) (lsemRAll X C L G r d)
  def lsemRAny (X : Fns E) (C : Comp E) (L : List (Path × Bool)) (G : Env) : Exprs E → D → Option Bool
    | .nil, _ => some false
    | .cons e r, d => kOr (lsemR X C L G e d) (lsemRAny X C L G r d)
end

/-- Whether the body `s` holds of the elements, one after the other. -/
def elemVals (X : Fns E) (C : Comp E) (s : Expr E) : Env → List D → List Bool
  | _, [] => []
  | G, y :: ys =>
    decide (lsemR X C (mConds (rebase s)) G (rebase s) y = some true) :: elemVals X C s (seeing (mConds (rebase s)) G y) ys

/-- A loop over elements: before the first one no field has been seen. -/
def loopVal (X : Fns E) (C : Comp E) (m : Mode) (s : Expr E) (ys : List D) : Bool := Mode.holds m id (elemVals X C s (fun _ => none) ys)

/-! ### It depends on the loops, and on where there are conditions below -/

section
variable (X : Fns E) (C : Comp E)

mutual
  theorem semR_same {L L' : List (Path × Bool)} (h : Same L L') (d : D) : ∀ e : Expr E, semR X C L e d = semR X C L' e d
    | .cmp c l r => by rw [semR, semR, reach_same h]
    | .exist e => by rw [semR, semR, reach_same h]
    | .notExist e => by rw [semR, semR, reach_same h]
    | .not e => by rw [semR, semR, semR_same h d e]
    | .and es => by rw [semR, semR, semRAll_same h d es]
    | .or es => by rw [semR, semR, semRAny_same h d es]
    | .loop m w i s => by rw [semR, semR, reach_same h]
    | .tru | .fals | .value _ | .regex _ | .pcre _ | .time _ | .field _ | .func .. => by simp [semR]
  theorem semRAll_same {L L' : List (Path × Bool)} (h : Same L L') (d : D) : ∀ es : Exprs E, semRAll X C L es d = semRAll X C L' es d
    | .nil => rfl
    | .cons e r => by rw [semRAll, semRAll, semR_same h d e, semRAll_same h d r]
  theorem semRAny_same {L L' : List (Path × Bool)} (h : Same L L') (d : D) : ∀ es : Exprs E, semRAny X C L es d = semRAny X C L' es d
    | .nil => rfl
    | .cons e r => by rw [semRAny, semRAny, semR_same h d e, semRAny_same h d r]
end

theorem seeing_same {K K' : List (Path × Bool)} (h : Same K K') (g : Env) (x : D) : seeing K g x = seeing K' g x := by
  funext p
  rw [seeing, seeing, reach_same h]

theorem envElem_same {L L' : List (Path × Bool)} (h : Same L L') (G : Env) (q : Path) (x : D) : envElem L G q x = envElem L' G q x := by
  funext p
  rw [envElem, envElem, seeing_same (h.belowP q)]

mutual
  theorem lsemR_same {L L' : List (Path × Bool)} (h : Same L L') (G : Env) (d : D) : ∀ e : Expr E, lsemR X C L G e d = lsemR X C L' G e d
    | .cmp c l r => by simp only [lsemR, multiElem, reachA_same h, envElem_same h, semR_same X C h]
    | .not e => by rw [lsemR, lsemR, lsemR_same h G d e]
    | .and es => by rw [lsemR, lsemR, lsemRAll_same h G d es]
    | .or es => by rw [lsemR, lsemR, lsemRAny_same h G d es]
    | .loop m w i s => by simp only [lsemR]; exact semR_same X C h d _
    | .exist e | .notExist e | .tru | .fals | .value _ | .regex _ | .pcre _ | .time _ | .field _ | .func .. => by
      simp only [lsemR]; exact semR_same X C h d _
  theorem lsemRAll_same {L L' : List (Path × Bool)} (h : Same L L') (G : Env) (d : D) : ∀ es : Exprs E, lsemRAll X C L G es d = lsemRAll X C L' G es d
    | .nil => rfl
    | .cons e r => by rw [lsemRAll, lsemRAll, lsemR_same h G d e, lsemRAll_same h G d r]
  theorem lsemRAny_same {L L' : List (Path × Bool)} (h : Same L L') (G : Env) (d : D) : ∀ es : Exprs E, lsemRAny X C L G es d = lsemRAny X C L' G es d
    | .nil => rfl
    | .cons e r => by rw [lsemRAny, lsemRAny, lsemR_same h G d e, lsemRAny_same h G d r]
end

end

/-! ### Running the body -/

section
variable (X : Fns E) (C : Comp E) (sh : Nat → Sh) (r : D)

/-- The slots of a node hold the fields. -/
def HoldsN (n : Exec E) (g : Env) (σ : Slots) : Prop := ∀ p s, (p, Note.slot s) ∈ notes n → look σ s = g p

/-- A run of the node of a loop on an element, with the fields `g` in the slots. -/
structure Ran4 (ρ : Path → Nat) (n : Exec E) (y : D) (g : Env) (l : Marks) : Prop where
  tidy : n.Tidy
  full : n.Full
  once : ∀ s, (withSlot s (notes n)).length ≤ 1
  range : ∀ p s, (p, Note.slot s) ∈ notes n → 0 < s
  agrees : Agrees ρ n
  document : ∀ ty w, r ≠ .lit ty w
  run : ∃ h σ a, dExec X sh r h n y σ = .ok a ∧ a.1 = l ∧ HoldsN n g σ

variable {X C sh r}

theorem Ran4.ran {ρ : Path → Nat} {n : Exec E} {y : D} {g : Env} {l : Marks} (h : Ran4 X sh r ρ n y g l) : RanR X sh r n y l := by
  obtain ⟨hh, σ, a, h1, h2, _⟩ := h.run
  exact ⟨h.tidy, h.full, hh, σ, a, h1, h2⟩

/-- The slots of fields whose paths split below `q`. -/
theorem Ran4.waits {ρ : Path → Nat} {n : Exec E} {y : D} {g : Env} {l : Marks} (h : Ran4 X sh r ρ n y g l) {q : Path} {S : List Path} (hs : Splits q S)
    (hst : ∀ p ∈ S, ∃ s, (p, Note.slot s) ∈ notes n) : Waits n q (S.map (fun p => (ρ p, p.drop q.length))) [] := by
  have hnote : ∀ p ∈ S, (p, Note.slot (ρ p)) ∈ notes n := by
    intro p hp
    obtain ⟨s, hm⟩ := hst p hp
    rw [h.agrees p s hm]; exact hm
  have hex : ∀ x ∈ S.map (fun p => (ρ p, p.drop q.length)), ∃ k p', x = (ρ (q ++ k :: p'), k :: p') ∧
      (q ++ k :: p', Note.slot (ρ (q ++ k :: p'))) ∈ notes n := by
    intro x hx
    obtain ⟨p, hp, rfl⟩ := List.mem_map.1 hx
    obtain ⟨k, p', rfl⟩ := hs.1 p hp
    exact ⟨k, p', by simp, hnote _ hp⟩
  refine ⟨?_, ?_, ?_, ?_, fun x _ => by simp [look]⟩
  · obtain ⟨k, p', _, _, hm, _⟩ := hs.2
    intro h0
    rw [List.map_eq_nil_iff] at h0
    rw [h0] at hm; cases hm
  · intro x hx
    obtain ⟨k, p', rfl, hm⟩ := hex x hx
    exact h.range _ _ hm
  · intro x hx
    obtain ⟨k, p', rfl, hm⟩ := hex x hx
    simp
  · intro x hx
    obtain ⟨k, p', rfl, hm⟩ := hex x hx
    exact withSlot_one (h.once _) hm

/-- A comparison of several fields. -/
theorem Ran4.multi {ρ : Path → Nat} {n : Exec E} {y : D} {g : Env} {l : Marks} (h : Ran4 X sh r ρ n y g l) {c : Cmp} {e e' : Expr E} {q : Path} {i b : Nat}
    (hl : MParam C e) (hr : MParam C e') (hs : Splits q (paths e ++ paths e')) (hst : ∀ p ∈ paths e ++ paths e', ∃ s, (p, Note.slot s) ∈ notes n)
    (hi : withBucket i (items n) = [(q, .aop (slotOp C ρ c e e' b))]) :
    l.get i = (reachA (kinds n) q y).head?.map fun x => multiHolds X C (if c = .ne then .eq else c) e e' (envElem (kinds n) g q x) := by
  obtain ⟨hh, σ, a, h1, rfl, h3⟩ := h.run
  have := dExec_aopR X sh r hh n y σ a i q (slotOp C ρ c e e' b) ((paths e ++ paths e').map (fun p => (ρ p, p.drop q.length)))
    (fun g' => some (multiHolds X C (if c = .ne then .eq else c) e e' (fun p => g' (p.drop q.length)))) (fun p' => g (q ++ p')) h1 h.tidy h.full
    hi (h.waits hs hst) ?_ ?_
  · rw [this, decideAt_total (fun g' => rfl)]; rfl
  · intro x hx
    obtain ⟨p, hp, rfl⟩ := List.mem_map.1 hx
    obtain ⟨k, p', rfl⟩ := hs.1 p hp
    obtain ⟨s, hm⟩ := hst _ hp
    simp only [List.drop_left]
    rw [h.agrees _ s hm, h3 _ s hm]
  · intro g' σ' hf v hv
    congr 1
    refine op_multi X C hl hr (fun p hp w hw => ?_) hv
    rw [slotVal_look h.document hw, hf (ρ p, p.drop q.length) (List.mem_map.2 ⟨p, hp, rfl⟩)] at hw
    exact hw

theorem lmultiR_correct {ρ : Path → Nat} {n : Exec E} {y : D} {g : Env} {l : Marks} {c : Cmp} {e e' : Expr E} {b : Nat} (hm : several e e' = true)
    (h : MParam C e ∧ MParam C e' ∧ Loose (paths e ++ paths e')) (hst : ∀ p ∈ paths e ++ paths e', ∃ s, (p, Note.slot s) ∈ notes n)
    (hh : Hosts n [(base e e', .aop (slotOp C ρ c e e' b))] b (shape (.cmp c e e')).size) (hr : Ran4 X sh r ρ n y g l) :
    K (shape (.cmp c e e')) b l.get = multiElem X C (kinds n) g c e e' y := by
  have hsp := splits_base hm h.2.2
  by_cases hne : c = .ne
  · subst hne
    have h0 : withBucket b (items n) = [] := by
      have := hh b (by omega) (by simp [shape, Sh.size])
      simpa [withBucket, Item.bucket, slotOp] using this
    have h1 := hh (b + 1) (by omega) (by simp [shape, Sh.size])
    rw [withBucket_single (by simp [Item.bucket, slotOp])] at h1
    have := hr.multi h.1 h.2.1 hsp hst (List.perm_singleton.1 h1)
    simp only [shape, K, hr.ran.none h0, this, multiElem, if_pos]
    rfl
  · have h1 := hh b (by omega) (by have := (shape (.cmp c e e')).size_pos; omega)
    rw [withBucket_single (by simp [Item.bucket, slotOp, hne])] at h1
    have := hr.multi h.1 h.2.1 hsp hst (List.perm_singleton.1 h1)
    have hs : shape (.cmp c e e') = .leaf := by cases c <;> first | rfl | exact absurd rfl hne
    simp only [hs, K, this, multiElem, if_neg hne]

mutual
  /-- The decisions of the node of a loop on an element give the value of its body on that element. -/
  theorem lsemR_correct {ρ : Path → Nat} {y : D} {g : Env} : ∀ (e : Expr E) (b : Nat) (n : Exec E) (l : Marks), Frag2 C e → NoRooted e → ShOK sh (shape e) b →
      (∀ p ∈ stored e, ∃ s, (p, Note.slot s) ∈ notes n) → Hosts n (mItems C ρ e b) b (shape e).size → Ran4 X sh r ρ n y g l →
      K (shape e) b l.get = lsemR X C (kinds n) g e y
    | .cmp c l' r', b, n, l, h, _, hsh, hst, hh, hr => by
      rw [Frag2] at h; rw [mItems] at hh; rw [lsemR]; rw [stored] at hst
      by_cases hm : several l' r' = true
      · rw [if_pos hm] at h hh hst ⊢
        exact lmultiR_correct hm h hst hh hr
      · rw [if_neg hm] at h hh hst ⊢
        exact (semR_correct _ 0 b n y l h hsh hh hr.ran).1
    | .exist e, b, n, l, h, _, hsh, _, hh, hr => by
      simp only [lsemR]; simp only [mItems] at hh; rw [Frag2] at h
      exact (semR_correct _ 0 b n y l h hsh hh hr.ran).1
    | .notExist e, b, n, l, h, _, hsh, _, hh, hr => by
      simp only [lsemR]; simp only [mItems] at hh; rw [Frag2] at h
      exact (semR_correct _ 0 b n y l h hsh hh hr.ran).1
    | .loop m w i s, b, n, l, h, hno, hsh, hst, hh, hr => by
      rw [NoRooted] at hno
      rw [Frag2, hno, if_neg (by simp)] at h; rw [mItems, hno, if_neg (by simp)] at hh
      simp only [lsemR]
      exact (semR_correct _ 0 b n y l h hsh hh hr.ran).1
    | .tru, b, n, l, h, _, hsh, _, hh, hr => by
      simp only [lsemR]; simp only [mItems] at hh
      exact (semR_correct (C := C) .tru 0 b n y l rfl hsh hh hr.ran).1
    | .fals, b, n, l, h, _, hsh, _, hh, hr => by
      simp only [lsemR]; simp only [mItems] at hh
      exact (semR_correct (C := C) .fals 0 b n y l rfl hsh hh hr.ran).1
    | .not e, b, n, l, h, hno, hsh, hst, hh, hr => by
      rw [Frag2] at h; rw [mItems] at hh; rw [stored] at hst
      have h0 : withBucket b (items n) = [] := by
        have := hh b (by omega) (by simp only [shape, Sh.size]; omega)
        rw [withBucket_out (mItems_within C ρ e (b + 1) h) (by omega)] at this
        exact List.perm_nil.1 this
      have k2 := lsemR_correct e (b + 1) n l h (by rwa [NoRooted] at hno) (fun s' i hs => hsh s' i (Or.inr hs)) hst
        (hh.mono (by omega) (by simp only [shape, Sh.size]; omega)) hr
      simp only [shape, K, hr.ran.none h0, k2, lsemR]
      rfl
    | .and es, b, n, l, h, hno, hsh, hst, hh, hr => by
      rw [shape] at hsh ⊢; rw [lsemR]; rw [mItems, shape] at hh; rw [Frag2] at h; rw [stored] at hst; rw [NoRooted] at hno
      exact lsemRAll_correct es b n l h hno hsh hst hh hr
    | .or es, b, n, l, h, hno, hsh, hst, hh, hr => by
      rw [shape] at hsh ⊢; rw [lsemR]; rw [mItems, shape] at hh; rw [Frag2] at h; rw [stored] at hst; rw [NoRooted] at hno
      exact lsemRAny_correct es b n l h hno hsh hst hh hr
    | .value _, b, n, l, h, _, _, _, _, _ | .regex _, b, n, l, h, _, _, _, _, _ | .pcre _, b, n, l, h, _, _, _, _, _
    | .time _, b, n, l, h, _, _, _, _, _ | .field _, b, n, l, h, _, _, _, _, _ | .func .., b, n, l, h, _, _, _, _, _ => by simp [Frag2] at h

  theorem lsemRAll_correct {ρ : Path → Nat} {y : D} {g : Env} : ∀ (es : Exprs E) (b : Nat) (n : Exec E) (l : Marks), Frag2s C es → NoRootedAll es →
      ShOK sh (shapes .and es) b → (∀ p ∈ storedAll es, ∃ s, (p, Note.slot s) ∈ notes n) →
      Hosts n (mItemsAll C ρ es b) b (shapes .and es).size → Ran4 X sh r ρ n y g l → K (shapes .and es) b l.get = lsemRAll X C (kinds n) g es y
    | .nil, b, n, l, h, _, _, _, _, _ => by simp [Frag2s] at h
    | .cons e .nil, b, n, l, h, hno, hsh, hst, hh, hr => by
      rw [Frag2s] at h; rw [shapes] at hsh ⊢; rw [mItemsAll, shapes] at hh
      rw [storedAll, storedAll, List.append_nil] at hst
      rw [lsemRAll, lsemRAll, kAnd_true]
      exact lsemR_correct e b n l h hno.1 hsh hst hh hr
    | .cons e (.cons e' r'), b, n, l, h, hno, hsh, hst, hh, hr => by
      rw [Frag2s] at h; rw [shapes] at hsh ⊢; rw [mItemsAll, shapes, Sh.size] at hh; rw [storedAll] at hst
      have w1 := mItems_within C ρ e (b + 1) h.1
      have w2 := mItemsAll_within C ρ (.cons e' r') .and (b + 1 + (shape e).size) h.2
      have h0 : withBucket b (items n) = [] := by
        have := hh b (by omega) (by omega)
        rw [withBucket_append, withBucket_out w1 (by omega), withBucket_out w2 (by omega)] at this
        exact List.perm_nil.1 this
      have a2 := lsemR_correct e (b + 1) n l h.1 hno.1 (fun s' i hs => hsh s' i (Or.inr (Or.inl hs)))
        (fun p hp => hst p (List.mem_append_left _ hp)) (hh.left w2 (by omega) (by omega) (by omega)) hr
      have b2 := lsemRAll_correct (.cons e' r') (b + 1 + (shape e).size) n l h.2 hno.2 (fun s' i hs => hsh s' i (Or.inr (Or.inr hs)))
        (fun p hp => hst p (List.mem_append_right _ hp)) (hh.right w1 (by omega) (by omega) (by omega)) hr
      rw [lsemRAll]
      simp only [K, hr.ran.none h0, a2, b2, kBin_and, Option.none_or]

  theorem lsemRAny_correct {ρ : Path → Nat} {y : D} {g : Env} : ∀ (es : Exprs E) (b : Nat) (n : Exec E) (l : Marks), Frag2s C es → NoRootedAll es →
      ShOK sh (shapes .or es) b → (∀ p ∈ storedAll es, ∃ s, (p, Note.slot s) ∈ notes n) →
      Hosts n (mItemsAll C ρ es b) b (shapes .or es).size → Ran4 X sh r ρ n y g l → K (shapes .or es) b l.get = lsemRAny X C (kinds n) g es y
    | .nil, b, n, l, h, _, _, _, _, _ => by simp [Frag2s] at h
    | .cons e .nil, b, n, l, h, hno, hsh, hst, hh, hr => by
      rw [Frag2s] at h; rw [shapes] at hsh ⊢; rw [mItemsAll, shapes] at hh
      rw [storedAll, storedAll, List.append_nil] at hst
      rw [lsemRAny, lsemRAny, kOr_false]
      exact lsemR_correct e b n l h hno.1 hsh hst hh hr
    | .cons e (.cons e' r'), b, n, l, h, hno, hsh, hst, hh, hr => by
      rw [Frag2s] at h; rw [shapes] at hsh ⊢; rw [mItemsAll, shapes, Sh.size] at hh; rw [storedAll] at hst
      have w1 := mItems_within C ρ e (b + 1) h.1
      have w2 := mItemsAll_within C ρ (.cons e' r') .or (b + 1 + (shape e).size) h.2
      have h0 : withBucket b (items n) = [] := by
        have := hh b (by omega) (by omega)
        rw [withBucket_append, withBucket_out w1 (by omega), withBucket_out w2 (by omega)] at this
        exact List.perm_nil.1 this
      have a2 := lsemR_correct e (b + 1) n l h.1 hno.1 (fun s' i hs => hsh s' i (Or.inr (Or.inl hs)))
        (fun p hp => hst p (List.mem_append_left _ hp)) (hh.left w2 (by omega) (by omega) (by omega)) hr
      have b2 := lsemRAny_correct (.cons e' r') (b + 1 + (shape e).size) n l h.2 hno.2 (fun s' i hs => hsh s' i (Or.inr (Or.inr hs)))
        (fun p hp => hst p (List.mem_append_right _ hp)) (hh.right w1 (by omega) (by omega) (by omega)) hr
      rw [lsemRAny]
      simp only [K, hr.ran.none h0, a2, b2, kBin_or, Option.none_or]
end

/-- The node of a loop: its conditions are those of the body. -/
theorem Made.same {w : Int} {s : Expr E} {b N : Nat} {n : Exec E} (h : Made C s b N n) (hb : Body C w s) : Same (kinds n) (mConds (rebase s)) := by
  obtain ⟨ρ, hρ⟩ := agrees_exists h.good.tidy
  obtain ⟨k1, k2, k3⟩ := kinded_mItems (C := C) ρ (rebase s) b hb.frag
  refine same_kinds (h.perm ρ hρ) k1 k2 (fun p k hm => k3 p (h.slots p k hm)) (fun p hm => ?_) (fun p hp => ?_)
  · obtain ⟨k, p', hm⟩ := h.afters p hm
    exact ⟨k, p', k3 _ hm⟩
  · exact (there_mItems ρ (rebase s) b hb.frag p hp).imp id (h.stored p)

/-- What the body decides about an element, whatever the element. -/
theorem Made.valueR {w : Int} {s : Expr E} {b N : Nat} {n : Exec E} (h : Made C s b N n) (hb : Body C w s) (hsh : ShOK sh (shape s) b)
    (hd : ∀ ty w, r ≠ .lit ty w) {y : D} {hh : Nat} {σ : Slots} {a : Marks × Slots} {g : Env} (hg : HoldsN n g σ)
    (ha : dExec X sh r hh n y σ = .ok a) : K (shape s) b a.1.get = lsemR X C (mConds (rebase s)) g (rebase s) y := by
  obtain ⟨ρ, hρ⟩ := agrees_exists h.good.tidy
  have hperm := h.perm ρ hρ
  have hran : Ran4 X sh r ρ n y g a.1 :=
    ⟨h.good.tidy, h.good.full, h.good.once, fun p k hm => (h.good.range p k hm).1, hρ, hd, hh, σ, a, ha, rfl, hg⟩
  have := lsemR_correct (rebase s) b n a.1 hb.frag (noRooted_rebase hb.var s hb.frag hb.free) (by rw [shape_rebase]; exact hsh)
    h.stored (fun i _ _ => hperm.filter _) hran
  rwa [shape_rebase, lsemR_same X C (h.same hb)] at this

/-- What is in the slots afterwards. -/
theorem Made.nextR {w : Int} {s : Expr E} {b N : Nat} {n : Exec E} (h : Made C s b N n) (hb : Body C w s) {y : D} {hh : Nat} {σ : Slots}
    {a : Marks × Slots} {g : Env} (hg : HoldsN n g σ) (ha : dExec X sh r hh n y σ = .ok a) :
    HoldsN n (seeing (mConds (rebase s)) g y) a.2 ∧ ∀ k, 0 < k → (∀ p, (p, Note.slot k) ∉ notes n) → look a.2 k = look σ k := by
  refine ⟨fun p k hm => ?_, fun k hk hno => ?_⟩
  · have := (dExec_slottedR X sh r hh n y σ a k (h.good.range p k hm).1 ha h.good.tidy h.good.full).2 p (withSlot_one (h.good.once k) hm)
    rw [this, hg p k hm, seeing, reach_same (h.same hb)]
  · refine (dExec_slottedR X sh r hh n y σ a k hk ha h.good.tidy h.good.full).1 ?_
    apply List.eq_nil_iff_forall_not_mem.2
    intro p hp
    obtain ⟨x, hx, rfl⟩ := List.mem_map.1 hp
    obtain ⟨h1, h2⟩ := List.mem_filter.1 hx
    exact hno x.1 (by have := of_decide_eq_true h2; rw [← this]; exact h1)

end

end Verif.Transform
