import Verif.Transform.ReachRooted

/-!
# C84: comparisons of several fields on any document

The verdict of the compiled matcher on every document, for expressions with comparisons of several fields and loops that refer to the document.
-/

namespace Verif.Transform
open Verif.FastVal Verif.Match Verif.Expr
open Verif.Token (D Es Ms Tok)
open Verif.BinTree (Sh K UnOp BinOp mergeSh mergeParts Shaped)

variable {E : Ext}

/-! ### Specification -/

/-- The fields below the value `x` at `q` of the document `r`: the last value reached; in a scalar document each field is the document. -/
def envR (r : D) (L : List (Path × Bool)) (q : Path) (x : D) : Env :=
  fun p => (lastOf none (reach false (belowP q L) (p.drop q.length) x)).or (scalar r)

/-- A comparison of several fields: decided at the first value reached at the base, false if there is none; `!=` is the negation of `=`. -/
def multiTopR (X : Fns E) (C : Comp E) (L : List (Path × Bool)) (c : Cmp) (l r : Expr E) (d : D) : Bool :=
  let v := ((reachA L (base l r) d).head?.map fun x => multiHolds X C (if c = .ne then .eq else c) l r (envR d L (base l r) x)).getD false
  if c = .ne then !v else v

mutual
  /-- Verdict on a document; `L` are the conditions of the whole filter. -/
  def top2R (X : Fns E) (C : Comp E) (L : List (Path × Bool)) : Expr E → D → Bool
    | .cmp c l r, d => if several l r then multiTopR X C L c l r d else topR X C L (.cmp c l r) d
    | .not e, d => !top2R X C L e d
    | .and es, d => top2RAll X C L es d
    | .or es, d => top2RAny X C L es d
    | .loop m w i s, d => if rooted s then rootedTopR X C L m i s d else topR X C L (.loop m w i s) d
    | e, d => topR X C L e d
  def top2RAll (X : Fns E) (C : Comp E) (L : List (Path × Bool)) : Exprs E → D → Bool
    | .nil, _ => true
    | .cons e r, d => top2R X C L e d && top2RAll X C L r d
  def top2RAny (X : Fns E) (C : Comp E) (L : List (Path × Bool)) : Exprs E → D → Bool
    | .nil, _ => false
    | .cons e r, d => top2R X C L e d || top2RAny X C L r d
end

/-! ### It depends on the loops, and on where there are conditions below -/

section
variable (X : Fns E) (C : Comp E)

mutual
  theorem topR_same {L L' : List (Path × Bool)} (h : Same L L') (d : D) : ∀ e : Expr E, topR X C L e d = topR X C L' e d
    | .cmp c l r => by rw [topR, topR, reach_same h]
    | .exist e => by rw [topR, topR, reach_same h]
    | .notExist e => by rw [topR, topR, reach_same h]
    | .not e => by rw [topR, topR, topR_same h d e]
    | .and es => by rw [topR, topR, topRAll_same h d es]
    | .or es => by rw [topR, topR, topRAny_same h d es]
    | .loop m w i s => by rw [topR, topR, reach_same h]
    | .tru | .fals | .value _ | .regex _ | .pcre _ | .time _ | .field _ | .func .. => by simp [topR]
  theorem topRAll_same {L L' : List (Path × Bool)} (h : Same L L') (d : D) : ∀ es : Exprs E, topRAll X C L es d = topRAll X C L' es d
    | .nil => rfl
    | .cons e r => by rw [topRAll, topRAll, topR_same h d e, topRAll_same h d r]
  theorem topRAny_same {L L' : List (Path × Bool)} (h : Same L L') (d : D) : ∀ es : Exprs E, topRAny X C L es d = topRAny X C L' es d
    | .nil => rfl
    | .cons e r => by rw [topRAny, topRAny, topR_same h d e, topRAny_same h d r]
end

theorem envR_same {L L' : List (Path × Bool)} (h : Same L L') (r : D) (q : Path) (x : D) : envR r L q x = envR r L' q x := by
  funext p
  rw [envR, envR, reach_same (h.belowP q)]

theorem multiTopR_same {L L' : List (Path × Bool)} (h : Same L L') (c : Cmp) (l r : Expr E) (d : D) :
    multiTopR X C L c l r d = multiTopR X C L' c l r d := by
  simp only [multiTopR, reachA_same h, envR_same h]

mutual
  theorem top2R_same {L L' : List (Path × Bool)} (h : Same L L') (d : D) : ∀ e : Expr E, top2R X C L e d = top2R X C L' e d
    | .cmp c l r => by rw [top2R, top2R, multiTopR_same X C h, topR_same X C h]
    | .not e => by rw [top2R, top2R, top2R_same h d e]
    | .and es => by rw [top2R, top2R, top2RAll_same h d es]
    | .or es => by rw [top2R, top2R, top2RAny_same h d es]
    | .loop m w i s => by rw [top2R, top2R, rootedTopR_same X C h, topR_same X C h]
    | .exist e | .notExist e | .tru | .fals | .value _ | .regex _ | .pcre _ | .time _ | .field _ | .func .. => by
      simp only [top2R]; exact topR_same X C h d _
  theorem top2RAll_same {L L' : List (Path × Bool)} (h : Same L L') (d : D) : ∀ es : Exprs E, top2RAll X C L es d = top2RAll X C L' es d
    | .nil => rfl
    | .cons e r => by rw [top2RAll, top2RAll, top2R_same h d e, top2RAll_same h d r]
  theorem top2RAny_same {L L' : List (Path × Bool)} (h : Same L L') (d : D) : ∀ es : Exprs E, top2RAny X C L es d = top2RAny X C L' es d
    | .nil => rfl
    | .cons e r => by rw [top2RAny, top2RAny, top2R_same h d e, top2RAny_same h d r]
end

end

/-! ### Running the node -/

section
variable (X : Fns E) (C : Comp E) (sh : Nat → Sh) (r : D)

/-- A run of a node with empty slots, on any document. -/
structure Ran2R (ρ : Path → Nat) (n : Exec E) (l : Marks) : Prop where
  tidy : n.Tidy
  full : n.Full
  once : ∀ s, (withSlot s (notes n)).length ≤ 1
  range : ∀ p s, (p, Note.slot s) ∈ notes n → 0 < s
  agrees : Agrees ρ n
  run : ∃ h σ a, dExec X sh r h n r σ = .ok a ∧ a.1 = l ∧ ∀ s, look σ s = none

variable {X C sh r}

theorem Ran2R.ran {ρ : Path → Nat} {n : Exec E} {l : Marks} (h : Ran2R X sh r ρ n l) : RanR X sh r n r l := by
  obtain ⟨hh, σ, a, h1, h2, _⟩ := h.run
  exact ⟨h.tidy, h.full, hh, σ, a, h1, h2⟩

/-- The slots of fields whose paths split below `q`. -/
theorem Ran2R.waits {ρ : Path → Nat} {n : Exec E} {l : Marks} (h : Ran2R X sh r ρ n l) {q : Path} {S : List Path} (hs : Splits q S)
    (hst : ∀ p ∈ S, ∃ s, (p, Note.slot s) ∈ notes n) {σ : Slots} (h3 : ∀ s, look σ s = none) :
    Waits n q (S.map (fun p => (ρ p, p.drop q.length))) σ := by
  have hnote : ∀ p ∈ S, (p, Note.slot (ρ p)) ∈ notes n := by
    intro p hp
    obtain ⟨s, hm⟩ := hst p hp
    rw [h.agrees p s hm]; exact hm
  have hex : ∀ x ∈ S.map (fun p => (ρ p, p.drop q.length)), ∃ k p', x = (ρ (q ++ k :: p'), k :: p') ∧
      (q ++ k :: p', Note.slot (ρ (q ++ k :: p'))) ∈ notes n := by
    intro x hx
    obtain ⟨p, hp, rfl⟩ := List.mem_map.1 hx
    obtain ⟨k, p', rfl⟩ := hs.1 p hp
    exact ⟨k, p', by simp, hnote _ hp⟩
  refine ⟨?_, ?_, ?_, ?_, fun x _ => h3 x.1⟩
  · obtain ⟨k, p', _, _, hm, _⟩ := hs.2
    intro h0
    rw [List.map_eq_nil_iff] at h0
    rw [h0] at hm; cases hm
  · intro x hx
    obtain ⟨k, p', rfl, hm⟩ := hex x hx
    exact h.range _ _ hm
  · intro x hx
    obtain ⟨k, p', rfl, hm⟩ := hex x hx
    simp
  · intro x hx
    obtain ⟨k, p', rfl, hm⟩ := hex x hx
    exact withSlot_one (h.once _) hm

theorem Ran2R.reads {ρ : Path → Nat} {n : Exec E} {l : Marks} (h : Ran2R X sh r ρ n l) {q : Path} {S : List Path} {x : D} {σ : Slots}
    (hf : FilledR (belowP q (kinds n)) (S.map (fun p => (ρ p, p.drop q.length))) x σ) :
    Reads2 (E := E) (slotVal r σ) ρ (envR r (kinds n) q x) S := by
  intro p hp w hw
  rw [slotVal_lookR hw, hf (ρ p, p.drop q.length) (List.mem_map.2 ⟨p, hp, rfl⟩)] at hw
  exact hw

/-- A comparison of several fields. -/
theorem Ran2R.multi {ρ : Path → Nat} {n : Exec E} {l : Marks} (h : Ran2R X sh r ρ n l) {c : Cmp} {e e' : Expr E} {q : Path} {i b : Nat}
    (hl : MParam C e) (hr : MParam C e') (hs : Splits q (paths e ++ paths e')) (hst : ∀ p ∈ paths e ++ paths e', ∃ s, (p, Note.slot s) ∈ notes n)
    (hi : withBucket i (items n) = [(q, .aop (slotOp C ρ c e e' b))]) :
    l.get i = (reachA (kinds n) q r).head?.map fun x => multiHolds X C (if c = .ne then .eq else c) e e' (envR r (kinds n) q x) := by
  obtain ⟨hh, σ, a, h1, rfl, h3⟩ := h.run
  refine dExec_afterR X sh r hh n r σ a i q (slotOp C ρ c e e' b) ((paths e ++ paths e').map (fun p => (ρ p, p.drop q.length))) _ h1 h.tidy h.full
    hi (h.waits hs hst h3) ?_
  intro x _ σ' hf v hv
  exact op_multi X C hl hr (h.reads hf) hv

theorem multiR_correct {ρ : Path → Nat} {n : Exec E} {l : Marks} {c : Cmp} {e e' : Expr E} {b : Nat} (hm : several e e' = true)
    (h : MParam C e ∧ MParam C e' ∧ Loose (paths e ++ paths e')) (hst : ∀ p ∈ paths e ++ paths e', ∃ s, (p, Note.slot s) ∈ notes n)
    (hh : Hosts n [(base e e', .aop (slotOp C ρ c e e' b))] b (shape (.cmp c e e')).size) (hr : Ran2R X sh r ρ n l) :
    (shape (.cmp c e e')).evalM b l.get = multiTopR X C (kinds n) c e e' r := by
  have hsp := splits_base hm h.2.2
  by_cases hne : c = .ne
  · subst hne
    have h0 : withBucket b (items n) = [] := by
      have := hh b (by omega) (by simp [shape, Sh.size])
      simpa [withBucket, Item.bucket, slotOp] using this
    have h1 := hh (b + 1) (by omega) (by simp [shape, Sh.size])
    rw [withBucket_single (by simp [Item.bucket, slotOp])] at h1
    have := hr.multi h.1 h.2.1 hsp hst (List.perm_singleton.1 h1)
    simp only [shape, Sh.evalM, hr.ran.none h0, this, multiTopR, if_pos]
    rfl
  · have h1 := hh b (by omega) (by have := (shape (.cmp c e e')).size_pos; omega)
    rw [withBucket_single (by simp [Item.bucket, slotOp, hne])] at h1
    have := hr.multi h.1 h.2.1 hsp hst (List.perm_singleton.1 h1)
    have hs : shape (.cmp c e e') = .leaf := by cases c <;> first | rfl | exact absurd rfl hne
    simp only [hs, Sh.evalM, this, multiTopR, if_neg hne]

/-- A loop that refers to the document. -/
theorem Ran2R.rooted {ρ : Path → Nat} {n : Exec E} {l : Marks} (h : Ran2R X sh r ρ n l) {m : Mode} {i s : Expr E} {w : Int} {q : Path} {b : Nat}
    (hf : RFrag C w s) (hs : Splits q (inPath i :: rPaths s)) (hst : ∀ p ∈ inPath i :: rPaths s, ∃ t, (p, Note.slot t) ∈ notes n)
    (hsh : ShOK sh (shape s) b) (hi : withBucket b (items n) = [(q, .aloop b m (some (.slot (ρ (inPath i)))) (rbody C ρ s b))]) :
    l.get b = decideAt (fun g => rootedLoopR X C m i s r (fieldsAt r q g)) (belowP q (kinds n)) (fun _ => none) (reachA (kinds n) q r) := by
  obtain ⟨hh, σ, a, h1, rfl, h3⟩ := h.run
  exact dExec_aloopR X sh r hh n r σ a b q m (ρ (inPath i)) (rbody C ρ s b) ((inPath i :: rPaths s).map (fun p => (ρ p, p.drop q.length))) _ _ h1
    h.tidy h.full hi (h.waits hs hst (fun t => by simp [look])) (fun x _ => h3 x.1) (rooted_gives hf hsh)

theorem rootedR_correct {ρ : Path → Nat} {n : Exec E} {l : Marks} {m : Mode} {w : Int} {i s : Expr E} {b : Nat}
    (hf : RFrag C w s) (hl : Loose (inPath i :: rPaths s)) (hst : ∀ p ∈ inPath i :: rPaths s, ∃ t, (p, Note.slot t) ∈ notes n)
    (hsh : ShOK sh (shape (.loop m w i s)) b)
    (hh : Hosts n [(loopBase i s, .aloop (b + 1) m (some (.slot (ρ (inPath i)))) (rbody C ρ s (b + 1)))] b (shape (.loop m w i s)).size)
    (hr : Ran2R X sh r ρ n l) : (shape (.loop m w i s)).evalM b l.get = rootedTopR X C (kinds n) m i s r := by
  have hsub : ShOK sh (shape s) (b + 1) := fun s' i hs => hsh s' i (Or.inr hs)
  have hsp := (shape s).size_pos
  have h0 : withBucket b (items n) = [] := by
    have := hh b (by omega) (by simp only [shape, Sh.size]; omega)
    simpa [withBucket, Item.bucket] using this
  have h1 := hh (b + 1) (by omega) (by simp only [shape, Sh.size]; omega)
  rw [withBucket_single (by simp [Item.bucket])] at h1
  have hl := hr.rooted hf (splits_of_loose (by simp) hl) hst hsub (List.perm_singleton.1 h1)
  simp only [shape, Sh.evalM, hr.ran.none h0, rootedTopR]
  have hlb : loopBase i s = baseOf (inPath i :: rPaths s) := rfl
  rw [← hlb] at hl
  rw [← hl]
  cases hfa : l.get (b + 1) with
  | some v =>
    have he : (shape s).evalM (b + 1) l.get = v := by
      cases shape s <;> simp [Sh.evalM, hfa]
    rw [he]
    rfl
  | none =>
    have hout : ∀ j, b ≤ j → j < b + (1 + (shape s).size) → l.get j = none := by
      intro j hj1 hj2
      by_cases hj : j = b + 1
      · subst hj; exact hfa
      · apply hr.ran.none
        have := hh j hj1 (by simp only [shape, Sh.size]; omega)
        rw [withBucket_out (L := [_]) (b := b + 1) (n := 1) (by
          intro x hx; rw [List.mem_singleton] at hx; subst hx; simp only [Item.bucket]; omega) (by omega)] at this
        exact List.perm_nil.1 this
    rw [blank_rooted s w (b + 1) l.get hf (fun j h1 h2 => hout j (by omega) (by omega))]
    rfl

mutual
  /-- The decisions of a node that hosts a compiled expression give its verdict. -/
  theorem sem2R_correct {ρ : Path → Nat} : ∀ (e : Expr E) (b : Nat) (n : Exec E) (l : Marks), Frag2 C e → ShOK sh (shape e) b →
      (∀ p ∈ stored e, ∃ s, (p, Note.slot s) ∈ notes n) → Hosts n (mItems C ρ e b) b (shape e).size → Ran2R X sh r ρ n l →
      (shape e).evalM b l.get = top2R X C (kinds n) e r
    | .cmp c l' r', b, n, l, h, hsh, hst, hh, hr => by
      rw [Frag2] at h; rw [mItems] at hh; rw [top2R]; rw [stored] at hst
      by_cases hm : several l' r' = true
      · rw [if_pos hm] at h hh hst ⊢
        exact multiR_correct hm h hst hh hr
      · rw [if_neg hm] at h hh hst ⊢
        exact (semR_correct _ 0 b n r l h hsh hh hr.ran).2
    | .exist e, b, n, l, h, hsh, _, hh, hr => by
      simp only [top2R]; simp only [mItems] at hh; rw [Frag2] at h
      exact (semR_correct _ 0 b n r l h hsh hh hr.ran).2
    | .notExist e, b, n, l, h, hsh, _, hh, hr => by
      simp only [top2R]; simp only [mItems] at hh; rw [Frag2] at h
      exact (semR_correct _ 0 b n r l h hsh hh hr.ran).2
    | .loop m w i s, b, n, l, h, hsh, hst, hh, hr => by
      rw [Frag2] at h; rw [mItems] at hh; rw [top2R]; rw [stored] at hst
      by_cases hm : rooted s = true
      · rw [if_pos hm] at h hh hst ⊢
        exact rootedR_correct h.2.2.2.1 h.2.2.2.2 hst hsh hh hr
      · rw [if_neg hm] at h hh hst ⊢
        exact (semR_correct _ 0 b n r l h hsh hh hr.ran).2
    | .tru, b, n, l, h, hsh, _, hh, hr => by
      simp only [top2R]; simp only [mItems] at hh
      exact (semR_correct (C := C) .tru 0 b n r l rfl hsh hh hr.ran).2
    | .fals, b, n, l, h, hsh, _, hh, hr => by
      simp only [top2R]; simp only [mItems] at hh
      exact (semR_correct (C := C) .fals 0 b n r l rfl hsh hh hr.ran).2
    | .not e, b, n, l, h, hsh, hst, hh, hr => by
      rw [Frag2] at h; rw [mItems] at hh; rw [stored] at hst
      have h0 : withBucket b (items n) = [] := by
        have := hh b (by omega) (by simp only [shape, Sh.size]; omega)
        rw [withBucket_out (mItems_within C ρ e (b + 1) h) (by omega)] at this
        exact List.perm_nil.1 this
      have k2 := sem2R_correct e (b + 1) n l h (fun s' i hs => hsh s' i (Or.inr hs)) hst
        (hh.mono (by omega) (by simp only [shape, Sh.size]; omega)) hr
      simp only [shape, Sh.evalM, hr.ran.none h0, k2, top2R]
      rfl
    | .and es, b, n, l, h, hsh, hst, hh, hr => by
      rw [shape] at hsh ⊢; rw [top2R]; rw [mItems, shape] at hh; rw [Frag2] at h; rw [stored] at hst
      exact sem2RAll_correct es b n l h hsh hst hh hr
    | .or es, b, n, l, h, hsh, hst, hh, hr => by
      rw [shape] at hsh ⊢; rw [top2R]; rw [mItems, shape] at hh; rw [Frag2] at h; rw [stored] at hst
      exact sem2RAny_correct es b n l h hsh hst hh hr
    | .value _, b, n, l, h, _, _, _, _ | .regex _, b, n, l, h, _, _, _, _ | .pcre _, b, n, l, h, _, _, _, _
    | .time _, b, n, l, h, _, _, _, _ | .field _, b, n, l, h, _, _, _, _ | .func .., b, n, l, h, _, _, _, _ => by simp [Frag2] at h

  theorem sem2RAll_correct {ρ : Path → Nat} : ∀ (es : Exprs E) (b : Nat) (n : Exec E) (l : Marks), Frag2s C es → ShOK sh (shapes .and es) b →
      (∀ p ∈ storedAll es, ∃ s, (p, Note.slot s) ∈ notes n) → Hosts n (mItemsAll C ρ es b) b (shapes .and es).size →
      Ran2R X sh r ρ n l → (shapes .and es).evalM b l.get = top2RAll X C (kinds n) es r
    | .nil, b, n, l, h, _, _, _, _ => by simp [Frag2s] at h
    | .cons e .nil, b, n, l, h, hsh, hst, hh, hr => by
      rw [Frag2s] at h; rw [shapes] at hsh ⊢; rw [mItemsAll, shapes] at hh
      rw [storedAll, storedAll, List.append_nil] at hst
      rw [top2RAll, top2RAll, Bool.and_true]
      exact sem2R_correct e b n l h hsh hst hh hr
    | .cons e (.cons e' r'), b, n, l, h, hsh, hst, hh, hr => by
      rw [Frag2s] at h; rw [shapes] at hsh ⊢; rw [mItemsAll, shapes, Sh.size] at hh; rw [storedAll] at hst
      have w1 := mItems_within C ρ e (b + 1) h.1
      have w2 := mItemsAll_within C ρ (.cons e' r') .and (b + 1 + (shape e).size) h.2
      have h0 : withBucket b (items n) = [] := by
        have := hh b (by omega) (by omega)
        rw [withBucket_append, withBucket_out w1 (by omega), withBucket_out w2 (by omega)] at this
        exact List.perm_nil.1 this
      have a2 := sem2R_correct e (b + 1) n l h.1 (fun s' i hs => hsh s' i (Or.inr (Or.inl hs)))
        (fun p hp => hst p (List.mem_append_left _ hp)) (hh.left w2 (by omega) (by omega) (by omega)) hr
      have b2 := sem2RAll_correct (.cons e' r') (b + 1 + (shape e).size) n l h.2 (fun s' i hs => hsh s' i (Or.inr (Or.inr hs)))
        (fun p hp => hst p (List.mem_append_right _ hp)) (hh.right w1 (by omega) (by omega) (by omega)) hr
      rw [top2RAll]
      simp only [Sh.evalM, hr.ran.none h0, a2, b2]
      rfl

  theorem sem2RAny_correct {ρ : Path → Nat} : ∀ (es : Exprs E) (b : Nat) (n : Exec E) (l : Marks), Frag2s C es → ShOK sh (shapes .or es) b →
      (∀ p ∈ storedAll es, ∃ s, (p, Note.slot s) ∈ notes n) → Hosts n (mItemsAll C ρ es b) b (shapes .or es).size →
      Ran2R X sh r ρ n l → (shapes .or es).evalM b l.get = top2RAny X C (kinds n) es r
    | .nil, b, n, l, h, _, _, _, _ => by simp [Frag2s] at h
    | .cons e .nil, b, n, l, h, hsh, hst, hh, hr => by
      rw [Frag2s] at h; rw [shapes] at hsh ⊢; rw [mItemsAll, shapes] at hh
      rw [storedAll, storedAll, List.append_nil] at hst
      rw [top2RAny, top2RAny, Bool.or_false]
      exact sem2R_correct e b n l h hsh hst hh hr
    | .cons e (.cons e' r'), b, n, l, h, hsh, hst, hh, hr => by
      rw [Frag2s] at h; rw [shapes] at hsh ⊢; rw [mItemsAll, shapes, Sh.size] at hh; rw [storedAll] at hst
      have w1 := mItems_within C ρ e (b + 1) h.1
      have w2 := mItemsAll_within C ρ (.cons e' r') .or (b + 1 + (shape e).size) h.2
      have h0 : withBucket b (items n) = [] := by
        have := hh b (by omega) (by omega)
        rw [withBucket_append, withBucket_out w1 (by omega), withBucket_out w2 (by omega)] at this
        exact List.perm_nil.1 this
      have a2 := sem2R_correct e (b + 1) n l h.1 (fun s' i hs => hsh s' i (Or.inr (Or.inl hs)))
        (fun p hp => hst p (List.mem_append_left _ hp)) (hh.left w2 (by omega) (by omega) (by omega)) hr
      have b2 := sem2RAny_correct (.cons e' r') (b + 1 + (shape e).size) n l h.2 (fun s' i hs => hsh s' i (Or.inr (Or.inr hs)))
        (fun p hp => hst p (List.mem_append_right _ hp)) (hh.right w1 (by omega) (by omega) (by omega)) hr
      rw [top2RAny]
      simp only [Sh.evalM, hr.ran.none h0, a2, b2]
      rfl
end

theorem merge2R_correct {ρ : Path → Nat} : ∀ (e : Expr E) (es : List (Expr E)) (b : Nat) (n : Exec E)
    (l : Marks), (∀ x ∈ e :: es, Frag2 C x) → ShOK sh (shapes .neor (.ofList (e :: es))) b →
    (∀ p ∈ storedAll (.ofList (e :: es)), ∃ s, (p, Note.slot s) ∈ notes n) →
    Hosts n (mItemsAll C ρ (.ofList (e :: es)) b) b (shapes .neor (.ofList (e :: es))).size → Ran2R X sh r ρ n l →
    (shapes .neor (.ofList (e :: es))).evalM b l.get = (e :: es).any (fun x => top2R X C (kinds n) x r)
  | e, [], b, n, l, h, hsh, hst, hh, hr => by
    simp only [Exprs.ofList, shapes, mItemsAll, storedAll, List.append_nil] at hsh hh hst ⊢
    rw [sem2R_correct e b n l (h e (by simp)) hsh hst hh hr]
    simp
  | e, e' :: es, b, n, l, h, hsh, hst, hh, hr => by
    have hfr := frag2s_of_list e' es (fun x hx => h x (List.mem_cons_of_mem _ hx))
    rw [Exprs.ofList, storedAll] at hst
    simp only [Exprs.ofList] at hfr
    simp only [Exprs.ofList, shapes, mItemsAll, Sh.size] at hsh hh ⊢
    have w1 := mItems_within C ρ e (b + 1) (h e (by simp))
    have w2 := mItemsAll_within C ρ (.cons e' (.ofList es)) .neor (b + 1 + (shape e).size) hfr
    have h0 : withBucket b (items n) = [] := by
      have := hh b (by omega) (by omega)
      rw [withBucket_append, withBucket_out w1 (by omega), withBucket_out w2 (by omega)] at this
      exact List.perm_nil.1 this
    have a2 := sem2R_correct e (b + 1) n l (h e (by simp)) (fun s' i hs => hsh s' i (Or.inr (Or.inl hs)))
      (fun p hp => hst p (List.mem_append_left _ hp)) (hh.left w2 (by omega) (by omega) (by omega)) hr
    have b2 := merge2R_correct e' es (b + 1 + (shape e).size) n l (fun x hx => h x (List.mem_cons_of_mem _ hx))
      (fun s' i hs => hsh s' i (Or.inr (Or.inr hs)))
      (fun p hp => hst p (List.mem_append_right _ hp))
      (hh.right w1 (by omega) (by simp only [Exprs.ofList]; omega) (by omega)) hr
    simp only [Exprs.ofList] at b2
    simp only [Sh.evalM, hr.ran.none h0, a2, b2]
    rfl

end

/-! ### The conditions of the compiled node -/

theorem there_frag {C : Comp E} {e : Expr E} {b : Nat} (h : Frag C 0 e) {p : Path} (hp : (p, false) ∈ conds e) : ∃ it, (p, it) ∈ eItems C e b := by
  rw [← (kind_eItems (C := C) e 0 b h).1] at hp
  obtain ⟨⟨q, it⟩, hx, hy⟩ := List.mem_map.1 hp
  rw [kind_eq] at hy
  have := congrArg Prod.fst hy
  simp only at this; subst this
  exact ⟨it, hx⟩

mutual
  /-- There is an operation or a stored field for everything that is read. -/
  theorem there_mItems {C : Comp E} (ρ : Path → Nat) : ∀ (e : Expr E) (b : Nat), Frag2 C e → ∀ p, (p, false) ∈ mConds e →
      (∃ it, (p, it) ∈ mItems C ρ e b) ∨ p ∈ stored e
    | .cmp c l r, b, h, p, hp => by
      rw [Frag2] at h; rw [mItems, stored]; rw [mConds] at hp
      by_cases hm : several l r = true
      · simp only [if_pos hm] at h hp ⊢
        obtain ⟨q, hq, he⟩ := List.mem_map.1 hp
        cases he
        exact Or.inr hq
      · simp only [if_neg hm] at h hp ⊢
        exact Or.inl (there_frag h hp)
    | .not e, b, h, p, hp => by rw [Frag2] at h; rw [mItems, stored]; rw [mConds] at hp; exact there_mItems ρ e (b + 1) h p hp
    | .and es, b, h, p, hp => by rw [Frag2] at h; rw [mItems, stored]; rw [mConds] at hp; exact there_mItemsAll ρ es b h p hp
    | .or es, b, h, p, hp => by rw [Frag2] at h; rw [mItems, stored]; rw [mConds] at hp; exact there_mItemsAll ρ es b h p hp
    | .exist e, b, h, p, hp => by
      rw [Frag2] at h; simp only [mItems]; simp only [mConds] at hp; exact Or.inl (there_frag h hp)
    | .notExist e, b, h, p, hp => by
      rw [Frag2] at h; simp only [mItems]; simp only [mConds] at hp; exact Or.inl (there_frag h hp)
    | .loop m w i s, b, h, p, hp => by
      rw [Frag2] at h; rw [mItems, stored]; rw [mConds] at hp
      by_cases hm : rooted s = true
      · simp only [if_pos hm] at h hp ⊢
        obtain ⟨q, hq, he⟩ := List.mem_map.1 hp
        cases he
        exact Or.inr hq
      · simp only [if_neg hm] at h hp ⊢
        exact Or.inl (there_frag h hp)
    | .tru, b, h, p, hp | .fals, b, h, p, hp => by simp [mConds, conds] at hp
    | .value _, b, h, _, _ | .regex _, b, h, _, _ | .pcre _, b, h, _, _ | .time _, b, h, _, _ | .field _, b, h, _, _
    | .func .., b, h, _, _ => by simp [Frag2] at h
  theorem there_mItemsAll {C : Comp E} (ρ : Path → Nat) : ∀ (es : Exprs E) (b : Nat), Frag2s C es → ∀ p, (p, false) ∈ mCondsAll es →
      (∃ it, (p, it) ∈ mItemsAll C ρ es b) ∨ p ∈ storedAll es
    | .nil, b, h, _, _ => by simp [Frag2s] at h
    | .cons e .nil, b, h, p, hp => by
      rw [Frag2s] at h
      rw [mCondsAll, mCondsAll, List.append_nil] at hp
      rw [mItemsAll, storedAll, storedAll, List.append_nil]
      exact there_mItems ρ e b h p hp
    | .cons e (.cons e' r), b, h, p, hp => by
      rw [Frag2s] at h
      rw [mCondsAll] at hp
      rw [mItemsAll, storedAll]
      rcases List.mem_append.1 hp with hp | hp
      · rcases there_mItems ρ e (b + 1) h.1 p hp with ⟨it, hi⟩ | hi
        · exact Or.inl ⟨it, List.mem_append_left _ hi⟩
        · exact Or.inr (List.mem_append_left _ hi)
      · rcases there_mItemsAll ρ (.cons e' r) (b + 1 + (shape e).size) h.2 p hp with ⟨it, hi⟩ | hi
        · exact Or.inl ⟨it, List.mem_append_right _ hi⟩
        · exact Or.inr (List.mem_append_right _ hi)
end

/-- The conditions of the node have the loops of the expressions, and something below the same paths. -/
theorem same_kinds {n : Exec E} {L : List (Path × Item E)} {cs : List (Path × Bool)} (hp : (items n).Perm L)
    (hk : ∀ x ∈ L, Kinded cs x) (hl : LoopsThere cs L) (hs : ∀ p s, (p, Note.slot s) ∈ notes n → (p, false) ∈ cs)
    (ha : ∀ p, (p, Note.after) ∈ notes n → ∃ k p', (p ++ k :: p', false) ∈ cs)
    (ht : ∀ p, (p, false) ∈ cs → (∃ it, (p, it) ∈ L) ∨ ∃ s, (p, Note.slot s) ∈ notes n) : Same (kinds n) cs := by
  refine ⟨fun q => ⟨fun h => ?_, fun h => ?_⟩, fun q => ⟨?_, ?_⟩⟩
  · rcases List.mem_append.1 h with h | h
    · obtain ⟨⟨p, it⟩, h1, h2⟩ := List.mem_map.1 h
      rw [kind_eq] at h2
      cases it with
      | loop b m t e => cases h2; exact hk _ (hp.mem_iff.1 h1)
      | _ => cases h2
    · obtain ⟨_, _, h2⟩ := List.mem_map.1 h; cases h2
  · obtain ⟨b, m, t, e, hm⟩ := hl q h
    exact List.mem_append_left _ (List.mem_map.2 ⟨_, hp.mem_iff.2 hm, rfl⟩)
  · rintro ⟨k, p, b, h⟩
    rcases List.mem_append.1 h with h | h
    · obtain ⟨⟨p', it⟩, h1, h2⟩ := List.mem_map.1 h
      rw [kind_eq] at h2
      have := hk _ (hp.mem_iff.1 h1)
      cases it with
      | op o => cases h2; exact ⟨k, p, _, this⟩
      | loop b m t e => cases h2; exact ⟨k, p, _, this⟩
      | aop o => cases h2; obtain ⟨k', p', h⟩ := this; exact ⟨k, p ++ k' :: p', false, (List.append_assoc q (k :: p) (k' :: p')) ▸ h⟩
      | aloop b m t e => cases h2; obtain ⟨k', p', h⟩ := this; exact ⟨k, p ++ k' :: p', false, (List.append_assoc q (k :: p) (k' :: p')) ▸ h⟩
    · obtain ⟨⟨p', nt⟩, h1, h2⟩ := List.mem_map.1 h
      cases h2
      cases nt with
      | slot s => exact ⟨k, p, _, hs _ s h1⟩
      | after => obtain ⟨k', p', h⟩ := ha _ h1; exact ⟨k, p ++ k' :: p', false, (List.append_assoc q (k :: p) (k' :: p')) ▸ h⟩
  · rintro ⟨k, p, b, h⟩
    cases b with
    | true =>
      obtain ⟨b, m, t, e, hm⟩ := hl _ h
      exact ⟨k, p, true, List.mem_append_left _ (List.mem_map.2 ⟨_, hp.mem_iff.2 hm, rfl⟩)⟩
    | false =>
      rcases ht _ h with ⟨it, hm⟩ | ⟨s, hm⟩
      · exact ⟨k, p, _, List.mem_append_left _ (List.mem_map.2 ⟨_, hp.mem_iff.2 hm, kind_eq _⟩)⟩
      · exact ⟨k, p, _, List.mem_append_right _ (List.mem_map.2 ⟨_, hm, rfl⟩)⟩

/-- The run of the compiled definition, on any document. -/
theorem transform_multiR (C : Comp E) (slot0 : Nat) (es : List (Expr E)) {g : Expr E} {gs : List (Expr E)} (hg : genExprs es = g :: gs)
    (h : ∀ x ∈ g :: gs, Frag2 C x) :
    ∃ df n, transform C slot0 es = .ok df ∧ df.WF (shapes .neor (.ofList (g :: gs))) n ∧
      ((∀ x ∈ g :: gs, SafeE x) → n.Safe df.numSlots) ∧ Same (kinds n) (mCondsOf (g :: gs)) ∧
      ∀ (X : Fns E) (r : D) k l, decisions X (shapes .neor (.ofList (g :: gs))) n k r = .ok l →
        ∃ ρ, (∀ p ∈ storedAll (.ofList (g :: gs)), ∃ s, (p, Note.slot s) ∈ notes n) ∧
          Hosts n (mItemsAll C ρ (.ofList (g :: gs)) 0) 0 (shapes .neor (.ofList (g :: gs))).size ∧
          Ran2R X (subtree (shapes .neor (.ofList (g :: gs))) 0) r ρ n l := by
  obtain ⟨t, h1, h2, h3⟩ := tMerge_multi C g gs (initT slot0) 0 h (initT_start slot0) rfl (good_empty _) (by intro x hx; cases hx)
  obtain ⟨hG, hids⟩ := tMerge_grown C g gs (initT slot0) t 0 (initT_start slot0) h1
  have hfr := frag2s_of_list g gs h
  obtain ⟨ρ, hρ⟩ := agrees_exists h2.good.tidy
  have hperm : (items t.1.root).Perm (mItemsAll C ρ (.ofList (g :: gs)) 0) := by
    have := h2.perm ρ hρ
    simpa [initT, emptyExec, items, itemsE, loopItems, afterItems] using this
  have hempty : ∀ x, x ∉ notes (initT slot0 : T E).root := by
    intro x hx
    have : notes (initT slot0 : T E).root = [] := emptyExec_notes
    rw [this] at hx; cases hx
  have hslots : ∀ p s, (p, Note.slot s) ∈ notes t.1.root → p ∈ storedAll (.ofList (g :: gs)) := by
    intro p s hm
    rcases h2.slots p s hm with hm | hm
    · exact absurd hm (hempty _)
    · exact hm
  have hafters : ∀ p, (p, Note.after) ∈ notes t.1.root → ∃ k p', p ++ k :: p' ∈ storedAll (.ofList (g :: gs)) := by
    intro p hm
    rcases h2.afters p hm with hm | hm
    · exact absurd hm (hempty _)
    · exact hm
  refine ⟨_, t.1.root, by rw [transform_cons C slot0 es hg, h1]; rfl, ⟨rfl, ?_, ?_, ?_⟩, ?_, ?_, ?_⟩
  · rw [shapes_merge]; exact hG.shaped
  · rw [shapes_merge]; have := hG.len; simpa [initT] using this
  · refine fits_of_items _ (fun x hx => ?_)
    exact mItemsAll_at ρ _ .neor 0 hfr x (hperm.mem_iff.1 hx)
  · intro hsafe
    refine safe_of_items _ (fun x hx => ?_) (fun p s hm => (h2.good.range p s hm).2)
    refine mItemsAll_safe _ 0 hfr (safeEs_of_list _ hsafe) (fun p hp => ?_) x (hperm.mem_iff.1 hx)
    obtain ⟨s, hm⟩ := h3 p hp
    rw [hρ p s hm]
    exact h2.good.range p s hm
  · obtain ⟨k1, k2, k3⟩ := kinded_mItemsAll (C := C) ρ (.ofList (g :: gs)) 0 hfr
    rw [← mCondsAll_of_list]
    refine same_kinds hperm k1 k2 (fun p s hm => k3 p (hslots p s hm)) (fun p hm => ?_) (fun p hp => ?_)
    · obtain ⟨k, p', hm⟩ := hafters p hm
      exact ⟨k, p', k3 _ hm⟩
    · exact (there_mItemsAll ρ _ 0 hfr p hp).imp id (h3 p)
  · intro X r k l hl
    unfold decisions at hl
    obtain ⟨a, ha, hl⟩ := Res.bind_eq_ok.1 hl
    refine ⟨ρ, h3, fun i _ _ => hperm.filter _, ?_⟩
    refine ⟨h2.good.tidy, h2.good.full, h2.good.once, fun p s hm => (h2.good.range p s hm).1, hρ, _, _, a, ha, ?_, ?_⟩
    · cases hl; rfl
    · intro s
      rw [look]
      cases hx : (List.replicate k (none : Option D))[s - 1]? with
      | none => rfl
      | some x =>
        rw [List.getElem?_eq_some_iff] at hx
        obtain ⟨_, hx⟩ := hx
        rw [List.getElem_replicate] at hx
        rw [← hx]; rfl

/-! ### C84 -/

/-- The matcher of the compiled definition decides, on every document, whether one of the expressions holds on the values it reaches. -/
theorem C84_verdict (X : Fns E) {C : Comp E} {slot0 : Nat} {es : List (Expr E)} {g : Expr E} {gs : List (Expr E)} (hg : genExprs es = g :: gs)
    (h : ∀ x ∈ g :: gs, Frag2 C x) (hsafe : ∀ x ∈ g :: gs, SafeE x) {data : List Nat} {r : D}
    (hr : Begins data r) :
    ∃ df, transform C slot0 es = .ok df ∧ ∀ m, Ready df m →
      ∃ m', run X df m data = .ok (some ((g :: gs).any (fun x => top2R X C (mCondsOf (g :: gs)) x r)), m') := by
  obtain ⟨df, n, h1, hw, hs, hsame, hv⟩ := transform_multiR C slot0 es hg h
  refine ⟨df, h1, fun m hm => ?_⟩
  obtain ⟨b, m', e1, e2⟩ := run_total X hw (hs hsafe) hr hm
  unfold verdict at e2
  obtain ⟨l, hl, e2⟩ := Res.bind_eq_ok.1 e2
  cases e2
  obtain ⟨ρ, r1, r2, r3⟩ := hv X r _ l hl
  rw [merge2R_correct (ρ := ρ) g gs 0 n l h (subtree_ok _ 0) r1 r2 r3] at e1
  refine ⟨m', ?_⟩
  rw [e1]
  congr 4
  funext x
  exact top2R_same X C hsame r x

end Verif.Transform
