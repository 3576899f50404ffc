import Verif.Transform.Element
import Verif.Transform.Outer

/-!
# Meaning of comparisons of several fields of an element

A comparison of several fields of a loop's element uses the values of the current element if the element has all of the fields: then
every slot is written before the comparison reads it, whatever earlier elements left there (`C34_negation` shows what happens
otherwise).
-/

namespace Verif.Transform
open Verif.FastVal Verif.Match Verif.Expr
open Verif.Token (D Es Ms Tok)
open Verif.BinTree (Sh K UnOp BinOp mergeSh mergeParts Shaped)

variable {E : Ext}

/-! ### Specification: the value of a body on an element -/

/-- A comparison of several fields: decided at the first value at the base that is not an empty array. -/
def multiSem (X : Fns E) (C : Comp E) (c : Cmp) (l r : Expr E) (d : D) : Option Bool :=
  let v := (walk (base l r) d).findSome? (afterVal (fun x => multiHolds X C (if c = .ne then .eq else c) l r (envAt (base l r) x)))
  if c = .ne then kNot v else v

mutual
  /-- Value of a body on an element, `none` if it depends on a missing field.  Only the element is looked at. -/
  def lsem (X : Fns E) (C : Comp E) : Expr E → D → Option Bool
    | .cmp c l r, d => if several l r then multiSem X C c l r d else sem X C (.cmp c l r) d
    | .not e, d => kNot (lsem X C e d)
    | .and es, d => lsemAll X C es d
    | .or es, d => lsemAny X C es d
    | e, d => sem X C e d
  def lsemAll (X : Fns E) (C : Comp E) : Exprs E → D → Option Bool
    | .nil, _ => some true
    | .cons e r, d => kAnd (lsem X C e d) (lsemAll X C r d)
  def lsemAny (X : Fns E) (C : Comp E) : Exprs E → D → Option Bool
    | .nil, _ => some false
    | .cons e r, d => kOr (lsem X C e d) (lsemAny X C r d)
end

mutual
  /-- The values at the bases have all the fields that are compared; and as in `Inner` for loops. -/
  def Complete : Expr E → D → Prop
    | .cmp _ l r, d => several l r = true → ∀ x ∈ walk (base l r) d, ∀ p ∈ paths l ++ paths r, walk (p.drop (base l r).length) x ≠ []
    | .not e, d => Complete e d
    | .and es, d => CompleteAll es d
    | .or es, d => CompleteAll es d
    | .loop m w i s, d => Inner (.loop m w i s) d
    | _, _ => True
  def CompleteAll : Exprs E → D → Prop
    | .nil, _ => True
    | .cons e r, d => Complete e d ∧ CompleteAll r d
end

mutual
  /-- No loop refers to the document. -/
  def NoRooted : Expr E → Prop
    | .not e => NoRooted e
    | .and es => NoRootedAll es
    | .or es => NoRootedAll es
    | .loop _ _ _ s => rooted s = false
    | _ => True
  def NoRootedAll : Exprs E → Prop
    | .nil => True
    | .cons e r => NoRooted e ∧ NoRootedAll r
end

mutual
  theorem noRooted_rebase {C : Comp E} {w : Int} (hw : w ≠ 0) : ∀ e : Expr E, Frag2 C (rebase e) → (∀ f, Free e f → f.root = w) → NoRooted (rebase e)
    | .loop m v i s, h, hf => by
      have := not_rooted hw h hf
      rw [rebase, NoRooted]; exact this
    | .not e, h, hf => by
      rw [rebase, Frag2] at h; rw [rebase, NoRooted]; exact noRooted_rebase hw e h (fun f h => hf f (.not h))
    | .and es, h, hf => by
      rw [rebase, Frag2] at h; rw [rebase, NoRooted]; exact noRooted_rebases hw es h (fun f h => hf f (.and h))
    | .or es, h, hf => by
      rw [rebase, Frag2] at h; rw [rebase, NoRooted]; exact noRooted_rebases hw es h (fun f h => hf f (.or h))
    | .cmp .., _, _ | .exist _, _, _ | .notExist _, _, _ | .tru, _, _ | .fals, _, _ | .value _, _, _ | .regex _, _, _ | .pcre _, _, _
    | .time _, _, _ | .field _, _, _ | .func .., _, _ => by simp [rebase, NoRooted]
  theorem noRooted_rebases {C : Comp E} {w : Int} (hw : w ≠ 0) : ∀ es : Exprs E, Frag2s C (rebases es) → (∀ f, FreeAny es f → f.root = w) →
      NoRootedAll (rebases es)
    | .nil, _, _ => trivial
    | .cons e .nil, h, hf => by
      rw [rebases, rebases, Frag2s] at h
      exact ⟨noRooted_rebase hw e h (fun f h => hf f (.head h)), trivial⟩
    | .cons e (.cons e' r), h, hf => by
      rw [rebases, rebases, Frag2s] at h
      have := noRooted_rebases hw (.cons e' r) (by rw [rebases]; exact h.2) (fun f h => hf f (.tail h))
      rw [rebases]
      exact ⟨noRooted_rebase hw e h.1 (fun f h => hf f (.head h)), this⟩
end

/-! ### Running the body -/

section
variable (X : Fns E) (C : Comp E) (sh : Nat → Sh) (r : D)

/-- A run of the node of a loop on an element, with any slots. -/
structure Ran3 (ρ : Path → Nat) (n : Exec E) (y : D) (l : Marks) : Prop where
  tidy : n.Tidy
  full : n.Full
  clear : Clear n y
  once : ∀ s, (withSlot s (notes n)).length ≤ 1
  range : ∀ p s, (p, Note.slot s) ∈ notes n → 0 < s
  agrees : Agrees ρ n
  document : ∀ ty w, r ≠ .lit ty w
  run : ∃ h σ a, dExec X sh r h n y σ = .ok a ∧ a.1 = l

variable {X C sh r}

theorem Ran3.ran {ρ : Path → Nat} {n : Exec E} {y : D} {l : Marks} (h : Ran3 X sh r ρ n y l) : Ran X sh r n y l :=
  ⟨h.tidy, h.full, h.clear, h.run⟩

/-- The slots of fields whose paths split below `q`. -/
theorem Ran3.waits {ρ : Path → Nat} {n : Exec E} {y : D} {l : Marks} (h : Ran3 X sh r ρ n y l) {q : Path} {S : List Path} (hs : Splits q S)
    (hst : ∀ p ∈ S, ∃ s, (p, Note.slot s) ∈ notes n) : Waits n q (S.map (fun p => (ρ p, p.drop q.length))) [] := by
  have hnote : ∀ p ∈ S, (p, Note.slot (ρ p)) ∈ notes n := by
    intro p hp
    obtain ⟨s, hm⟩ := hst p hp
    rw [h.agrees p s hm]; exact hm
  have hex : ∀ x ∈ S.map (fun p => (ρ p, p.drop q.length)), ∃ k p', x = (ρ (q ++ k :: p'), k :: p') ∧
      (q ++ k :: p', Note.slot (ρ (q ++ k :: p'))) ∈ notes n := by
    intro x hx
    obtain ⟨p, hp, rfl⟩ := List.mem_map.1 hx
    obtain ⟨k, p', rfl⟩ := hs.1 p hp
    exact ⟨k, p', by simp, hnote _ hp⟩
  refine ⟨?_, ?_, ?_, ?_, fun x _ => by simp [look]⟩
  · obtain ⟨k, p', _, _, hm, _⟩ := hs.2
    intro h0
    rw [List.map_eq_nil_iff] at h0
    rw [h0] at hm; cases hm
  · intro x hx
    obtain ⟨k, p', rfl, hm⟩ := hex x hx
    exact h.range _ _ hm
  · intro x hx
    obtain ⟨k, p', rfl, hm⟩ := hex x hx
    simp
  · intro x hx
    obtain ⟨k, p', rfl, hm⟩ := hex x hx
    exact withSlot_one (h.once _) hm

theorem Ran3.reads {ρ : Path → Nat} {n : Exec E} {y : D} {l : Marks} (h : Ran3 X sh r ρ n y l) {q : Path} {S : List Path} {x : D} {σ : Slots}
    (hf : Filled (S.map (fun p => (ρ p, p.drop q.length))) x σ) : Reads2 (E := E) (slotVal r σ) ρ (envAt q x) S := by
  intro p hp w hw
  rw [slotVal_look h.document hw, hf (ρ p, p.drop q.length) (List.mem_map.2 ⟨p, hp, rfl⟩)] at hw
  exact hw

/-- A comparison of several fields all of which are there. -/
theorem Ran3.multi {ρ : Path → Nat} {n : Exec E} {y : D} {l : Marks} (h : Ran3 X sh r ρ n y l) {c : Cmp} {e e' : Expr E} {q : Path} {i b : Nat}
    (hl : MParam C e) (hr : MParam C e') (hs : Splits q (paths e ++ paths e')) (hst : ∀ p ∈ paths e ++ paths e', ∃ s, (p, Note.slot s) ∈ notes n)
    (hi : withBucket i (items n) = [(q, .aop (slotOp C ρ c e e' b))])
    (hw : ∀ x ∈ walk q y, ∀ p ∈ paths e ++ paths e', walk (p.drop q.length) x ≠ []) :
    l.get i = (walk q y).findSome? (afterVal (fun x => multiHolds X C (if c = .ne then .eq else c) e e' (envAt q x))) := by
  obtain ⟨hh, σ, a, h1, rfl⟩ := h.run
  refine dExec_after X sh r hh n y σ a i q (slotOp C ρ c e e' b) ((paths e ++ paths e').map (fun p => (ρ p, p.drop q.length))) _ h1 h.tidy h.full h.clear
    hi (h.waits hs hst) (fun x hx z hz => ?_) ?_
  · obtain ⟨p, hp, rfl⟩ := List.mem_map.1 hz
    exact Or.inr (hw x hx p hp)
  · intro x _ σ' hf v hv
    exact op_multi X C hl hr (h.reads hf) hv

theorem lmulti_correct {ρ : Path → Nat} {n : Exec E} {y : D} {l : Marks} {c : Cmp} {e e' : Expr E} {b : Nat} (hm : several e e' = true)
    (h : MParam C e ∧ MParam C e' ∧ Loose (paths e ++ paths e')) (hst : ∀ p ∈ paths e ++ paths e', ∃ s, (p, Note.slot s) ∈ notes n)
    (hw : ∀ x ∈ walk (base e e') y, ∀ p ∈ paths e ++ paths e', walk (p.drop (base e e').length) x ≠ [])
    (hh : Hosts n [(base e e', .aop (slotOp C ρ c e e' b))] b (shape (.cmp c e e')).size) (hr : Ran3 X sh r ρ n y l) :
    K (shape (.cmp c e e')) b l.get = multiSem X C c e e' y := by
  have hsp := splits_base hm h.2.2
  by_cases hne : c = .ne
  · subst hne
    have h0 : withBucket b (items n) = [] := by
      have := hh b (by omega) (by simp [shape, Sh.size])
      simpa [withBucket, Item.bucket, slotOp] using this
    have h1 := hh (b + 1) (by omega) (by simp [shape, Sh.size])
    rw [withBucket_single (by simp [Item.bucket, slotOp])] at h1
    have := hr.multi h.1 h.2.1 hsp hst (List.perm_singleton.1 h1) hw
    simp only [shape, K, hr.ran.none h0, this, multiSem, if_pos]
    rfl
  · have h1 := hh b (by omega) (by have := (shape (.cmp c e e')).size_pos; omega)
    rw [withBucket_single (by simp [Item.bucket, slotOp, hne])] at h1
    have := hr.multi h.1 h.2.1 hsp hst (List.perm_singleton.1 h1) hw
    have hs : shape (.cmp c e e') = .leaf := by cases c <;> first | rfl | exact absurd rfl hne
    simp only [hs, K, this, multiSem, if_neg hne]

mutual
  /-- The decisions of the node of a loop on an element give the value of its body on that element. -/
  theorem lsem_correct {ρ : Path → Nat} {y : D} : ∀ (e : Expr E) (b : Nat) (n : Exec E) (l : Marks), Frag2 C e → NoRooted e → ShOK sh (shape e) b →
      Complete e y → (∀ p ∈ stored e, ∃ s, (p, Note.slot s) ∈ notes n) → Hosts n (mItems C ρ e b) b (shape e).size → Ran3 X sh r ρ n y l →
      K (shape e) b l.get = lsem X C e y
    | .cmp c l' r', b, n, l, h, _, hsh, hi, hst, hh, hr => by
      rw [Frag2] at h; rw [mItems] at hh; rw [lsem]; rw [stored] at hst; rw [Complete] at hi
      by_cases hm : several l' r' = true
      · rw [if_pos hm] at h hh hst ⊢
        exact lmulti_correct hm h hst (hi hm) hh hr
      · rw [if_neg hm] at h hh hst ⊢
        exact (sem_correct _ 0 b n y l h hsh trivial hh hr.ran).1
    | .exist e, b, n, l, h, _, hsh, hi, _, hh, hr => by
      simp only [lsem]; simp only [mItems] at hh; rw [Frag2] at h
      exact (sem_correct _ 0 b n y l h hsh trivial hh hr.ran).1
    | .notExist e, b, n, l, h, _, hsh, hi, _, hh, hr => by
      simp only [lsem]; simp only [mItems] at hh; rw [Frag2] at h
      exact (sem_correct _ 0 b n y l h hsh trivial hh hr.ran).1
    | .loop m w i s, b, n, l, h, hno, hsh, hi, hst, hh, hr => by
      rw [NoRooted] at hno
      rw [Frag2, hno, if_neg (by simp)] at h; rw [mItems, hno, if_neg (by simp)] at hh; rw [Complete] at hi
      simp only [lsem]
      exact (sem_correct _ 0 b n y l h hsh hi hh hr.ran).1
    | .tru, b, n, l, h, _, hsh, hi, _, hh, hr => by
      simp only [lsem]; simp only [mItems] at hh
      exact (sem_correct (C := C) .tru 0 b n y l rfl hsh trivial hh hr.ran).1
    | .fals, b, n, l, h, _, hsh, hi, _, hh, hr => by
      simp only [lsem]; simp only [mItems] at hh
      exact (sem_correct (C := C) .fals 0 b n y l rfl hsh trivial hh hr.ran).1
    | .not e, b, n, l, h, hno, hsh, hi, hst, hh, hr => by
      rw [Frag2] at h; rw [mItems] at hh; rw [stored] at hst
      have h0 : withBucket b (items n) = [] := by
        have := hh b (by omega) (by simp only [shape, Sh.size]; omega)
        rw [withBucket_out (mItems_within C ρ e (b + 1) h) (by omega)] at this
        exact List.perm_nil.1 this
      have k2 := lsem_correct e (b + 1) n l h (by rwa [NoRooted] at hno) (fun s' i hs => hsh s' i (Or.inr hs)) (by rwa [Complete] at hi) hst
        (hh.mono (by omega) (by simp only [shape, Sh.size]; omega)) hr
      simp only [shape, K, hr.ran.none h0, k2, lsem]
      rfl
    | .and es, b, n, l, h, hno, hsh, hi, hst, hh, hr => by
      rw [shape] at hsh ⊢; rw [lsem]; rw [Complete] at hi; rw [mItems, shape] at hh; rw [Frag2] at h; rw [stored] at hst; rw [NoRooted] at hno
      exact lsemAll_correct es b n l h hno hsh hi hst hh hr
    | .or es, b, n, l, h, hno, hsh, hi, hst, hh, hr => by
      rw [shape] at hsh ⊢; rw [lsem]; rw [Complete] at hi; rw [mItems, shape] at hh; rw [Frag2] at h; rw [stored] at hst; rw [NoRooted] at hno
      exact lsemAny_correct es b n l h hno hsh hi hst hh hr
    | .value _, b, n, l, h, _, _, _, _, _, _ | .regex _, b, n, l, h, _, _, _, _, _, _ | .pcre _, b, n, l, h, _, _, _, _, _, _
    | .time _, b, n, l, h, _, _, _, _, _, _ | .field _, b, n, l, h, _, _, _, _, _, _ | .func .., b, n, l, h, _, _, _, _, _, _ => by simp [Frag2] at h

  theorem lsemAll_correct {ρ : Path → Nat} {y : D} : ∀ (es : Exprs E) (b : Nat) (n : Exec E) (l : Marks), Frag2s C es → NoRootedAll es →
      ShOK sh (shapes .and es) b → CompleteAll es y → (∀ p ∈ storedAll es, ∃ s, (p, Note.slot s) ∈ notes n) →
      Hosts n (mItemsAll C ρ es b) b (shapes .and es).size → Ran3 X sh r ρ n y l → K (shapes .and es) b l.get = lsemAll X C es y
    | .nil, b, n, l, h, _, _, _, _, _, _ => by simp [Frag2s] at h
    | .cons e .nil, b, n, l, h, hno, hsh, hi, hst, hh, hr => by
      rw [Frag2s] at h; rw [shapes] at hsh ⊢; rw [mItemsAll, shapes] at hh; rw [CompleteAll] at hi
      rw [storedAll, storedAll, List.append_nil] at hst
      rw [lsemAll, lsemAll, kAnd_true]
      exact lsem_correct e b n l h hno.1 hsh hi.1 hst hh hr
    | .cons e (.cons e' r'), b, n, l, h, hno, hsh, hi, hst, hh, hr => by
      rw [Frag2s] at h; rw [shapes] at hsh ⊢; rw [mItemsAll, shapes, Sh.size] at hh; rw [CompleteAll] at hi; rw [storedAll] at hst
      have w1 := mItems_within C ρ e (b + 1) h.1
      have w2 := mItemsAll_within C ρ (.cons e' r') .and (b + 1 + (shape e).size) h.2
      have h0 : withBucket b (items n) = [] := by
        have := hh b (by omega) (by omega)
        rw [withBucket_append, withBucket_out w1 (by omega), withBucket_out w2 (by omega)] at this
        exact List.perm_nil.1 this
      have a2 := lsem_correct e (b + 1) n l h.1 hno.1 (fun s' i hs => hsh s' i (Or.inr (Or.inl hs))) hi.1
        (fun p hp => hst p (List.mem_append_left _ hp)) (hh.left w2 (by omega) (by omega) (by omega)) hr
      have b2 := lsemAll_correct (.cons e' r') (b + 1 + (shape e).size) n l h.2 hno.2 (fun s' i hs => hsh s' i (Or.inr (Or.inr hs))) hi.2
        (fun p hp => hst p (List.mem_append_right _ hp)) (hh.right w1 (by omega) (by omega) (by omega)) hr
      rw [lsemAll]
      simp only [K, hr.ran.none h0, a2, b2, kBin_and, Option.none_or]

  theorem lsemAny_correct {ρ : Path → Nat} {y : D} : ∀ (es : Exprs E) (b : Nat) (n : Exec E) (l : Marks), Frag2s C es → NoRootedAll es →
      ShOK sh (shapes .or es) b → CompleteAll es y → (∀ p ∈ storedAll es, ∃ s, (p, Note.slot s) ∈ notes n) →
      Hosts n (mItemsAll C ρ es b) b (shapes .or es).size → Ran3 X sh r ρ n y l → K (shapes .or es) b l.get = lsemAny X C es y
    | .nil, b, n, l, h, _, _, _, _, _, _ => by simp [Frag2s] at h
    | .cons e .nil, b, n, l, h, hno, hsh, hi, hst, hh, hr => by
      rw [Frag2s] at h; rw [shapes] at hsh ⊢; rw [mItemsAll, shapes] at hh; rw [CompleteAll] at hi
      rw [storedAll, storedAll, List.append_nil] at hst
      rw [lsemAny, lsemAny, kOr_false]
      exact lsem_correct e b n l h hno.1 hsh hi.1 hst hh hr
    | .cons e (.cons e' r'), b, n, l, h, hno, hsh, hi, hst, hh, hr => by
      rw [Frag2s] at h; rw [shapes] at hsh ⊢; rw [mItemsAll, shapes, Sh.size] at hh; rw [CompleteAll] at hi; rw [storedAll] at hst
      have w1 := mItems_within C ρ e (b + 1) h.1
      have w2 := mItemsAll_within C ρ (.cons e' r') .or (b + 1 + (shape e).size) h.2
      have h0 : withBucket b (items n) = [] := by
        have := hh b (by omega) (by omega)
        rw [withBucket_append, withBucket_out w1 (by omega), withBucket_out w2 (by omega)] at this
        exact List.perm_nil.1 this
      have a2 := lsem_correct e (b + 1) n l h.1 hno.1 (fun s' i hs => hsh s' i (Or.inr (Or.inl hs))) hi.1
        (fun p hp => hst p (List.mem_append_left _ hp)) (hh.left w2 (by omega) (by omega) (by omega)) hr
      have b2 := lsemAny_correct (.cons e' r') (b + 1 + (shape e).size) n l h.2 hno.2 (fun s' i hs => hsh s' i (Or.inr (Or.inr hs))) hi.2
        (fun p hp => hst p (List.mem_append_right _ hp)) (hh.right w1 (by omega) (by omega) (by omega)) hr
      rw [lsemAny]
      simp only [K, hr.ran.none h0, a2, b2, kBin_or, Option.none_or]
end

/-- The node of a loop with the body `s`. -/
structure Made (C : Comp E) (s : Expr E) (b N : Nat) (n : Exec E) : Prop where
  good : Good N n
  perm : ∀ ρ, Agrees ρ n → (items n).Perm (mItems C ρ (rebase s) b)
  slots : ∀ p k, (p, Note.slot k) ∈ notes n → p ∈ stored (rebase s)
  afters : ∀ p, (p, Note.after) ∈ notes n → ∃ k p', p ++ k :: p' ∈ stored (rebase s)
  stored : ∀ p ∈ stored (rebase s), ∃ k, (p, Note.slot k) ∈ notes n

theorem Made.mono {s : Expr E} {b N N' : Nat} {n : Exec E} (h : Made C s b N n) (hN : N ≤ N') : Made C s b N' n :=
  ⟨⟨h.good.tidy, h.good.full, fun p k hm => ⟨(h.good.range p k hm).1, Nat.le_trans (h.good.range p k hm).2 hN⟩, h.good.once⟩,
    h.perm, h.slots, h.afters, h.stored⟩

theorem Made.of_grow {s : Expr E} {b N N' : Nat} {n : Exec E}
    (h : Grow (fun x => x ∈ Transform.stored (rebase s)) (fun ρ => mItems C ρ (rebase s) b) N N' emptyExec n)
    (hst : ∀ p ∈ Transform.stored (rebase s), ∃ k, (p, Note.slot k) ∈ notes n) : Made C s b N' n := by
  have hempty : ∀ x, x ∉ notes (emptyExec : Exec E) := by
    intro x hx
    rw [emptyExec_notes] at hx; cases hx
  refine ⟨h.good, fun ρ hρ => ?_, fun p k hm => ?_, fun p hm => ?_, hst⟩
  · have := h.perm ρ hρ
    rwa [emptyExec_items, List.append_nil] at this
  · rcases h.slots p k hm with hm | hm
    · exact absurd hm (hempty _)
    · exact hm
  · rcases h.afters p hm with hm | hm
    · exact absurd hm (hempty _)
    · exact hm

/-- The element is regular for the body and has all the fields that are compared. -/
structure Whole (s : Expr E) (y : D) : Prop where
  regular : RegularAt (mConds (rebase s)) y
  complete : Complete (rebase s) y

theorem Made.value {w : Int} {s : Expr E} {b N : Nat} {n : Exec E} (h : Made C s b N n) (hb : Body C w s) (hsh : ShOK sh (shape s) b)
    (hd : ∀ ty w, r ≠ .lit ty w) {y : D} (hy : Whole s y) {hh : Nat} {σ : Slots} {a : Marks × Slots} (ha : dExec X sh r hh n y σ = .ok a) :
    K (shape s) b a.1.get = lsem X C (rebase s) y := by
  obtain ⟨ρ, hρ⟩ := agrees_exists h.good.tidy
  have hperm := h.perm ρ hρ
  obtain ⟨k1, k2, k3⟩ := kinded_mItems (C := C) ρ (rebase s) b hb.frag
  have hran : Ran3 X sh r ρ n y a.1 := by
    refine ⟨h.good.tidy, h.good.full, ?_, h.good.once, fun p k hm => (h.good.range p k hm).1, hρ, hd, hh, σ, a, ha, rfl⟩
    refine clear_multi hperm k1 k2 (fun p k hm => k3 p (h.slots p k hm)) (fun p hm => ?_) hy.regular
    obtain ⟨k, p', hm⟩ := h.afters p hm
    exact ⟨k, p', k3 _ hm⟩
  have := lsem_correct (rebase s) b n a.1 hb.frag (noRooted_rebase hb.var s hb.frag hb.free) (by rw [shape_rebase]; exact hsh) hy.complete
    h.stored (fun i _ _ => hperm.filter _) hran
  rwa [shape_rebase] at this

theorem Made.fits {w : Int} {s : Expr E} {b N : Nat} {n : Exec E} (h : Made C s b N n) (hb : Body C w s) : n.Fits (shape s) b := by
  obtain ⟨ρ, hρ⟩ := agrees_exists h.good.tidy
  refine fits_of_items _ (fun x hx => ?_)
  have := mItems_at ρ (rebase s) b hb.frag x ((h.perm ρ hρ).mem_iff.1 hx)
  rwa [shape_rebase] at this

theorem nth_rebases : ∀ (ps : Exprs E) (i : Nat), (rebases ps).nth i = (ps.nth i).map rebase
  | .nil, _ => by simp [rebases, Exprs.nth]
  | .cons e r, 0 => by simp [rebases, Exprs.nth]
  | .cons e r, i + 1 => by simp [rebases, Exprs.nth, nth_rebases r i]

mutual
  theorem safeParam_rebase : ∀ e : Expr E, SafeParam e → SafeParam (rebase e)
    | .func n ps, h => by
      rw [rebase]
      refine ⟨h.1, safeParams_rebase _ ps h.2.1, fun hf => ?_⟩
      obtain ⟨g, h1, h2⟩ := h.2.2 hf
      exact ⟨g, by rw [nth_rebases, h1]; simp [rebase], h2⟩
    | .cmp .., _ | .exist _, _ | .notExist _, _ | .tru, _ | .fals, _ | .value _, _ | .regex _, _ | .pcre _, _
    | .time _, _ | .field _, _ | .not _, _ | .and _, _ | .or _, _ | .loop .., _ => by simp [rebase, SafeParam]
  theorem safeParams_rebase : ∀ (k : Nat) (es : Exprs E), SafeParams k es → SafeParams k (rebases es)
    | 0, es, _ => by cases es <;> simp [rebases, SafeParams]
    | _ + 1, .nil, h => by simp [SafeParams] at h
    | k + 1, .cons e r, h => by
      rw [SafeParams] at h
      rw [rebases, SafeParams]; exact ⟨safeParam_rebase e h.1, safeParams_rebase k r h.2⟩
end

mutual
  theorem safe_rebase : ∀ e : Expr E, SafeE e → SafeE (rebase e)
    | .cmp c l r, h => by rw [rebase]; exact ⟨safeParam_rebase l h.1, safeParam_rebase r h.2⟩
    | .exist e, h => by rw [rebase]; exact safeParam_rebase e h
    | .notExist e, h => by rw [rebase]; exact safeParam_rebase e h
    | .not e, h => by rw [rebase]; exact safe_rebase e h
    | .and es, h => by rw [rebase]; exact safes_rebase es h
    | .or es, h => by rw [rebase]; exact safes_rebase es h
    | .loop m w i s, h => by rw [rebase]; exact h
    | .tru, _ | .fals, _ | .value _, _ | .regex _, _ | .pcre _, _ | .time _, _ | .field _, _ | .func .., _ => by simp [rebase, SafeE]
  theorem safes_rebase : ∀ es : Exprs E, SafeEs es → SafeEs (rebases es)
    | .nil, _ => trivial
    | .cons e r, h => ⟨safe_rebase e h.1, safes_rebase r h.2⟩
end

theorem Made.safe {w : Int} {s : Expr E} {b N : Nat} {n : Exec E} (h : Made C s b N n) (hb : Body C w s) (hs : SafeE s) : n.Safe N := by
  obtain ⟨ρ, hρ⟩ := agrees_exists h.good.tidy
  refine safe_of_items _ (fun x hx => ?_) (fun p s hm => (h.good.range p s hm).2)
  refine mItems_safe (rebase s) b hb.frag (safe_rebase s hs) (fun p hp => ?_) x ((h.perm ρ hρ).mem_iff.1 hx)
  obtain ⟨k, hm⟩ := h.stored p hp
  rw [hρ p k hm]
  exact h.good.range p k hm

end

mutual
  theorem blank_rebase : ∀ e : Expr E, blank (rebase e) = blank e
    | .not e => by rw [rebase, blank, blank, blank_rebase]
    | .and es => by rw [rebase, blank, blank, blank_rebases.1]
    | .or es => by rw [rebase, blank, blank, blank_rebases.2]
    | .cmp .. | .exist _ | .notExist _ | .loop .. | .tru | .fals | .value _ | .regex _ | .pcre _ | .time _ | .field _ | .func .. => by simp [rebase, blank]
  theorem blank_rebases : ∀ {es : Exprs E}, blankAll (rebases es) = blankAll es ∧ blankAny (rebases es) = blankAny es
    | .nil => ⟨rfl, rfl⟩
    | .cons e r => by simp only [rebases, blankAll, blankAny, blank_rebase e, (blank_rebases (es := r)).1, (blank_rebases (es := r)).2, and_self]
end

end Verif.Transform
