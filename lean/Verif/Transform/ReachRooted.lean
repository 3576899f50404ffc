import Verif.Transform.ReachLoops
import Verif.Transform.ReachStill
import Verif.Transform.ReachSem
import Verif.Transform.MultiSem

/-!
# Loops that refer to the document, on any document

The decisions of a loop whose conditions compare a field of the loop's variable with fields of the document: as in `RootedSem.lean` and
`MultiSem.lean`, on every document and for all elements of the array.
-/

namespace Verif.Transform
open Verif.FastVal Verif.Match Verif.Expr
open Verif.Token (D Es Ms Tok)
open Verif.BinTree (Sh K UnOp BinOp)

variable {E : Ext}

/-! ### Specification -/

mutual
  /-- Value of the body on an element `d`, `none` if it depends on a field of the variable that is not reached.  `env` are the fields of the
  document, `L` the conditions of the whole body. -/
  def rsemR (X : Fns E) (C : Comp E) (env : Env) (L : List (Path × Bool)) : Expr E → D → Option Bool
    | .cmp c l r, d => (reach false L (vPath l r) d).head?.map (rHolds X C env c l r)
    | .exist e, d => (reach false L (condPath e e) d).head?.map (fun _ => true)
    | .not e, d => kNot (rsemR X C env L e d)
    | .and es, d => rsemRAll X C env L es d
    | .or es, d => rsemRAny X C env L es d
    | .loop m _ i s, d => (firstArr (reach true L (inPath i) d)).map (Mode.holds m (fun x => decide (rsemR X C env (rConds s) s x = some true)))
    | _, _ => none
  def rsemRAll (X : Fns E) (C : Comp E) (env : Env) (L : List (Path × Bool)) : Exprs E → D → Option Bool
    | .nil, _ => some true
    | .cons e r, d => kAnd (rsemR X C env L e d) (rsemRAll X C env L r d)
  def rsemRAny (X : Fns E) (C : Comp E) (env : Env) (L : List (Path × Bool)) : Exprs E → D → Option Bool
    | .nil, _ => some false
    | .cons e r, d => kOr (rsemR X C env L e d) (rsemRAny X C env L r d)
end

/-- The document if it is neither array nor object. -/
def scalar : D → Option D
  | .lit ty w => some (.lit ty w)
  | _ => none

/-- The fields of the document `r`, if `g` are those seen below `q`; in a scalar document each field is the document. -/
def fieldsAt (r : D) (q : Path) (g : Env) : Env := fun p => (g (p.drop q.length)).or (scalar r)

/-- A loop that refers to the document: it runs over the array, or over the document itself if the array's field has not been seen. -/
def rootedLoopR (X : Fns E) (C : Comp E) (m : Mode) (i s : Expr E) (r : D) (env : Env) : Option Bool :=
  match (env (inPath i)).getD r with
  | .arr _ es => some (Mode.holds m (fun x => decide (rsemR X C env (rConds s) s x = some true)) (esList es))
  | _ => none

/-- It is decided at the first value reached at the base at which it runs over an array; if there is none, the body's value without any of its
fields counts. -/
def rootedTopR (X : Fns E) (C : Comp E) (L : List (Path × Bool)) (m : Mode) (i s : Expr E) (d : D) : Bool :=
  (decideAt (fun g => rootedLoopR X C m i s d (fieldsAt d (loopBase i s) g)) (belowP (loopBase i s) L) (fun _ => none)
    (reachA L (loopBase i s) d)).getD (blank s)

/-! ### It depends on the set of conditions only -/

section
variable (X : Fns E) (C : Comp E)

mutual
  theorem rsemR_congr (env : Env) : ∀ (e : Expr E) (v : Int) (d : D), RFrag C v e → ∀ {L L' : List (Path × Bool)}, (∀ x, x ∈ L ↔ x ∈ L') →
      rsemR X C env L e d = rsemR X C env L' e d
    | .cmp c l r, v, d, h, L, L', hL => by rw [rsemR, rsemR, reach_congr hL]
    | .exist e, v, d, h, L, L', hL => by rw [rsemR, rsemR, reach_congr hL]
    | .not e, v, d, h, L, L', hL => by rw [rsemR, rsemR, rsemR_congr env e v d h hL]
    | .and es, v, d, h, L, L', hL => by rw [rsemR, rsemR]; exact (rsemRs_congr env es v d h hL).1
    | .or es, v, d, h, L, L', hL => by rw [rsemR, rsemR]; exact (rsemRs_congr env es v d h hL).2
    | .loop m w i s, v, d, h, L, L', hL => by rw [rsemR, rsemR, reach_congr hL]
    | .tru, v, d, h, L, L', hL | .fals, v, d, h, L, L', hL | .notExist _, v, d, h, L, L', hL
    | .value _, v, d, h, _, _, _ | .regex _, v, d, h, _, _, _ | .pcre _, v, d, h, _, _, _ | .time _, v, d, h, _, _, _
    | .field _, v, d, h, _, _, _ | .func .., v, d, h, _, _, _ => by simp [RFrag] at h
  theorem rsemRs_congr (env : Env) : ∀ (es : Exprs E) (v : Int) (d : D), RFrags C v es → ∀ {L L' : List (Path × Bool)}, (∀ x, x ∈ L ↔ x ∈ L') →
      rsemRAll X C env L es d = rsemRAll X C env L' es d ∧ rsemRAny X C env L es d = rsemRAny X C env L' es d
    | .nil, v, d, h, _, _, _ => by simp [RFrags] at h
    | .cons e .nil, v, d, h, L, L', hL => by
      rw [RFrags] at h
      simp only [rsemRAll, rsemRAny, rsemR_congr env e v d h hL, and_self]
    | .cons e (.cons e' r), v, d, h, L, L', hL => by
      rw [RFrags] at h
      obtain ⟨h1, h2⟩ := rsemRs_congr env (.cons e' r) v d h.2 hL
      have a1 : ∀ L, rsemRAll X C env L (.cons e (.cons e' r)) d = kAnd (rsemR X C env L e d) (rsemRAll X C env L (.cons e' r) d) := fun L => by rw [rsemRAll]
      have a2 : ∀ L, rsemRAny X C env L (.cons e (.cons e' r)) d = kOr (rsemR X C env L e d) (rsemRAny X C env L (.cons e' r) d) := fun L => by rw [rsemRAny]
      rw [a1, a1, a2, a2, h1, h2, rsemR_congr env e v d h.1 hL]
      exact ⟨rfl, rfl⟩
end

theorem rootedTopR_same {L L' : List (Path × Bool)} (h : Same L L') (m : Mode) (i s : Expr E) (d : D) :
    rootedTopR X C L m i s d = rootedTopR X C L' m i s d := by
  rw [rootedTopR, rootedTopR, reachA_same h, decideAt_same (h.belowP _)]

end

/-! ### Running the body -/

section
variable (X : Fns E) (C : Comp E) (sh : Nat → Sh) (r : D)

/-- A run of a node that stores nothing, with the slots `σ`, on any document. -/
structure Ran1R (n : Exec E) (d : D) (σ : Slots) (l : Marks) : Prop where
  still : n.NoStore
  tidy : n.Tidy
  full : n.Full
  run : ∃ h a, dExec X sh r h n d σ = .ok a ∧ a.1 = l

variable {X C sh r}

theorem Ran1R.ran {n : Exec E} {d : D} {σ : Slots} {l : Marks} (h : Ran1R X sh r n d σ l) : RanR X sh r n d l := by
  obtain ⟨hh, a, h1, h2⟩ := h.run
  exact ⟨h.tidy, h.full, hh, σ, a, h1, h2⟩

theorem Ran1R.one {n : Exec E} {d : D} {σ : Slots} {l : Marks} (h : Ran1R X sh r n d σ l) {i : Nat} {p : Path} {it : Item E}
    (hi : withBucket i (items n) = [(p, it)]) (hd : Direct it) {f : D → Option Bool}
    (hf : ∀ x h l, itemMarks X sh r h it x σ = .ok l → l = (f x).toList.map (fun v => (i, v))) :
    l.get i = (reach (isLoop it) (kinds n) p d).findSome? f := by
  obtain ⟨hh, a, ha, rfl⟩ := h.run
  rw [get_of_sel, dExec_decidesR1 X sh r hh n d σ a i ha h.still h.tidy h.full p it hi hd _ hf]
  induction reach (isLoop it) (kinds n) p d with
  | nil => rfl
  | cons x w ih =>
    rw [List.flatMap_cons, List.findSome?_cons]
    cases hx : f x with
    | none => simpa using ih
    | some v => simp

/-- A condition. -/
theorem Ran1R.cond {n : Exec E} {d : D} {σ : Slots} {l : Marks} (h : Ran1R X sh r n d σ l) {i : Nat} {p : Path} {o : Op E}
    (hi : (withBucket i (items n)).Perm [(p, .op o)]) {g : D → Bool}
    (hg : ∀ x y, valOf x = .ok y → ∀ q, opResult X (slotVal r σ) (some y) o = .ok q → q.1 = g x) :
    l.get i = (reach false (kinds n) p d).head?.map g := by
  have hi' := List.perm_singleton.1 hi
  have hb : o.bucket = i := by
    have hm : (p, Item.op o) ∈ withBucket i (items n) := by rw [hi']; exact List.mem_singleton.2 rfl
    exact (mem_withBucket.1 hm).2
  rw [h.one hi' trivial (f := fun x => some (g x)) ?_, findSome_head]
  · rfl
  intro x hh l' hl
  rw [itemMarks] at hl
  obtain ⟨y, hy, hl⟩ := Res.bind_eq_ok.1 hl
  obtain ⟨q, hq, hl⟩ := Res.bind_eq_ok.1 hl
  cases hl
  simp [hg x y hy q hq, hb]

/-- A run of a body. -/
theorem rbody_ranR {ρ : Path → Nat} {s : Expr E} {w : Int} {b : Nat} (h : RFrag C w s) {y : D} {σ : Slots} {hh : Nat}
    {a : Marks × Slots} (ha : dExec X sh r hh (rbody C ρ s b) y σ = .ok a) : Ran1R X sh r (rbody C ρ s b) y σ a.1 :=
  ⟨rbody_still h, (rbody_adds C ρ b h).tidy, (rbody_adds C ρ b h).full, hh, a, ha, rfl⟩

theorem rbody_kinds {ρ : Path → Nat} {s : Expr E} {w : Int} {b : Nat} (h : RFrag C w s) : ∀ x, x ∈ kinds (rbody C ρ s b) ↔ x ∈ rConds s :=
  kinds_compiled (rbody_perm h) (kind_rItems s w b h).1 (rbody_notes h)

mutual
  /-- The decisions of a node that hosts a compiled body give its value. -/
  theorem rsemR_correct {ρ : Path → Nat} {env : Env} {σ : Slots} : ∀ (e : Expr E) (v : Int) (b : Nat) (n : Exec E) (d : D) (l : Marks),
      RFrag C v e → ShOK sh (shape e) b → Reads2 (E := E) (slotVal r σ) ρ env (rPaths e) →
      Hosts n (rItems C ρ e b) b (shape e).size → Ran1R X sh r n d σ l → K (shape e) b l.get = rsemR X C env (kinds n) e d
    | .cmp c l' r', v, b, n, d, l, h, _, hrd, hh, hr => by
      rw [rPaths] at hrd
      by_cases hne : c = .ne
      · subst hne
        have h0 : withBucket b (items n) = [] := by
          have := hh b (by omega) (by simp [shape, Sh.size])
          simpa [rItems, withBucket, Item.bucket] using this
        have h1 := hh (b + 1) (by omega) (by simp [shape, Sh.size])
        have hc := hr.cond (p := vPath l' r') (o := ⟨b + 1, opOf .ne, rside C ρ l', rside C ρ r'⟩)
          (g := fun x => !rHolds X C env .ne l' r' x) (by simpa [rItems, withBucket, Item.bucket] using h1)
          (fun x y hy q hq => by have := op_rooted X C h.1 h.2 hrd _ .ne hy hq; simpa using this)
        simp only [shape, K, hr.ran.none h0, hc, rsemR, BinTree.kUn]
        cases (reach false (kinds n) (vPath l' r') d).head? <;> simp
      · have h1 := hh b (by omega) (by have := (shape (.cmp c l' r')).size_pos; omega)
        have hc := hr.cond (p := vPath l' r') (o := ⟨b, opOf c, rside C ρ l', rside C ρ r'⟩)
          (g := rHolds X C env c l' r') (by simpa [rItems, withBucket, Item.bucket, hne] using h1)
          (fun x y hy q hq => by have := op_rooted X C h.1 h.2 hrd _ c hy hq; simpa [hne] using this)
        have hs : shape (.cmp c l' r') = .leaf := by cases c <;> first | rfl | exact absurd rfl hne
        simp only [hs, K, hc, rsemR]
    | .exist e, v, b, n, d, l, h, _, _, hh, hr => by
      have h1 := hh b (by omega) (by simp [shape, Sh.size])
      have hc := hr.cond (p := condPath e e) (o := ⟨b, .exists_, sideOf C e, none⟩)
        (g := fun _ => true) (by simpa [rItems, withBucket, Item.bucket] using h1)
        (fun x y hy q hq => op_exists X C _ h _ hq)
      simp only [shape, K, hc, rsemR]
    | .not e, v, b, n, d, l, h, hsh, hrd, hh, hr => by
      have h0 : withBucket b (items n) = [] := by
        have := hh b (by omega) (by simp only [shape, Sh.size]; omega)
        rw [rItems, withBucket_out (rItems_within C ρ e v (b + 1) h) (by omega)] at this
        exact List.perm_nil.1 this
      have k1 := rsemR_correct (ρ := ρ) (env := env) e v (b + 1) n d l h (fun s' i hs => hsh s' i (Or.inr hs))
        (by rwa [rPaths] at hrd) (by rw [rItems] at hh; exact hh.mono (by omega) (by simp only [shape, Sh.size]; omega)) hr
      simp only [shape, K, hr.ran.none h0, k1, rsemR]
      rfl
    | .and es, v, b, n, d, l, h, hsh, hrd, hh, hr => by
      rw [shape] at hsh ⊢; rw [rsemR]; rw [rItems, shape] at hh; rw [rPaths] at hrd
      exact rsemRAll_correct es v b n d l h hsh hrd hh hr
    | .or es, v, b, n, d, l, h, hsh, hrd, hh, hr => by
      rw [shape] at hsh ⊢; rw [rsemR]; rw [rItems, shape] at hh; rw [rPaths] at hrd
      exact rsemRAny_correct es v b n d l h hsh hrd hh hr
    | .loop m w i s, v, b, n, d, l, h, hsh, hrd, hh, hr => by
      rw [rPaths] at hrd
      have hsub : ShOK sh (shape s) (b + 1) := fun s' i hs => hsh s' i (Or.inr hs)
      have hshb : sh (b + 1) = shape s := hsub _ _ (by cases shape s <;> simp [Sh.SubAt])
      have hsp := (shape s).size_pos
      have h0 : withBucket b (items n) = [] := by
        have := hh b (by omega) (by simp only [shape, Sh.size]; omega)
        simpa [rItems, withBucket, Item.bucket] using this
      have h1 := hh (b + 1) (by omega) (by simp only [shape, Sh.size]; omega)
      have h1' : withBucket (b + 1) (items n) = [(inPath i, .loop (b + 1) m none (rbody C ρ s (b + 1)))] := by
        have := List.perm_singleton.1 (by simpa [rItems, withBucket, Item.bucket] using h1 :
          (withBucket (b + 1) (items n)).Perm [(inPath i, .loop (b + 1) m none (rins C ρ s (b + 1) emptyExec))])
        exact this
      have hl := hr.one h1' trivial (f := fun x => match x with
          | .arr _ es => some (Mode.holds m (fun x => decide (rsemR X C env (rConds s) s x = some true)) (esList es))
          | _ => none) (by
        intro x hh' l' hl'
        rw [itemMarks] at hl'
        cases x with
        | lit ty t => cases hl'; rfl
        | obj ws ms => cases hl'; rfl
        | arr ws es =>
          rw [dLoop] at hl'
          obtain ⟨v', hv', hl'⟩ := Res.bind_eq_ok.1 hl'
          cases hl'
          have := dItems_init (p := fun x => decide (rsemR X C env (rConds s) s x = some true)) hv' (by
            intro y hy a ha
            have := rsemR_correct (ρ := ρ) (env := env) s w (b + 1) _ y a.1 h.2.2.2 hsub hrd (fun i _ _ => (rbody_perm h.2.2.2).filter _)
              (rbody_ranR h.2.2.2 ha)
            rw [hshb, this, rsemR_congr X C env s w y h.2.2.2 (rbody_kinds h.2.2.2)])
          simp [this])
      replace hl := hl.trans (firstArr_find (Mode.holds m (fun x => decide (rsemR X C env (rConds s) s x = some true))) _)
      rw [isLoop] at hl
      simp only [shape, K, hr.ran.none h0, rsemR]
      cases hfa : firstArr (reach true (kinds n) (inPath i) d) with
      | some xs =>
        rw [hfa] at hl
        have hk : K (shape s) (b + 1) l.get = some (Mode.holds m (fun x => decide (rsemR X C env (rConds s) s x = some true)) xs) := by
          cases shape s <;> simp [K, hl]
        rw [hk]
        rfl
      | none =>
        have hout : ∀ j, b ≤ j → j < b + (1 + (shape s).size) → l.get j = none := by
          intro j hj1 hj2
          by_cases hj : j = b + 1
          · subst hj; rw [hl, hfa]; rfl
          · apply hr.ran.none
            have := hh j hj1 (by simp only [shape, Sh.size]; omega)
            rw [rItems, withBucket_out (L := [_]) (b := b + 1) (n := 1) (by
              intro x hx; rw [List.mem_singleton] at hx; subst hx; simp only [Item.bucket]; omega) (by omega)] at this
            exact List.perm_nil.1 this
        rw [K_none (shape s) (b + 1) l.get (fun j h1 h2 => hout j (by omega) (by omega))]
        rfl
    | .tru, v, b, n, d, l, h, _, _, _, _ | .fals, v, b, n, d, l, h, _, _, _, _ | .notExist _, v, b, n, d, l, h, _, _, _, _
    | .value _, v, b, n, d, l, h, _, _, _, _
    | .regex _, v, b, n, d, l, h, _, _, _, _ | .pcre _, v, b, n, d, l, h, _, _, _, _ | .time _, v, b, n, d, l, h, _, _, _, _
    | .field _, v, b, n, d, l, h, _, _, _, _ | .func .., v, b, n, d, l, h, _, _, _, _ => by simp [RFrag] at h

  theorem rsemRAll_correct {ρ : Path → Nat} {env : Env} {σ : Slots} : ∀ (es : Exprs E) (v : Int) (b : Nat) (n : Exec E) (d : D) (l : Marks),
      RFrags C v es → ShOK sh (shapes .and es) b → Reads2 (E := E) (slotVal r σ) ρ env (rPathsAll es) →
      Hosts n (rItemsAll C ρ es b) b (shapes .and es).size → Ran1R X sh r n d σ l → K (shapes .and es) b l.get = rsemRAll X C env (kinds n) es d
    | .nil, v, b, n, d, l, h, _, _, _, _ => by simp [RFrags] at h
    | .cons e .nil, v, b, n, d, l, h, hsh, hrd, hh, hr => by
      rw [RFrags] at h; rw [shapes] at hsh ⊢; rw [rItemsAll, shapes] at hh; rw [rPathsAll] at hrd
      rw [rsemRAll, rsemRAll, kAnd_true]
      exact rsemR_correct e v b n d l h hsh (fun p hp => hrd p (List.mem_append_left _ hp)) hh hr
    | .cons e (.cons e' r'), v, b, n, d, l, h, hsh, hrd, hh, hr => by
      rw [RFrags] at h; rw [shapes] at hsh ⊢; rw [rItemsAll, shapes, Sh.size] at hh; rw [rPathsAll] at hrd
      have w1 := rItems_within C ρ e v (b + 1) h.1
      have w2 := rItemsAll_within C ρ (.cons e' r') .and v (b + 1 + (shape e).size) h.2
      have h0 : withBucket b (items n) = [] := by
        have := hh b (by omega) (by omega)
        rw [withBucket_append, withBucket_out w1 (by omega), withBucket_out w2 (by omega)] at this
        exact List.perm_nil.1 this
      have a1 := rsemR_correct (env := env) e v (b + 1) n d l h.1 (fun s' i hs => hsh s' i (Or.inr (Or.inl hs)))
        (fun p hp => hrd p (List.mem_append_left _ hp)) (hh.left w2 (by omega) (by omega) (by omega)) hr
      have b1 := rsemRAll_correct (env := env) (.cons e' r') v (b + 1 + (shape e).size) n d l h.2 (fun s' i hs => hsh s' i (Or.inr (Or.inr hs)))
        (fun p hp => hrd p (List.mem_append_right _ hp)) (hh.right w1 (by omega) (by omega) (by omega)) hr
      rw [rsemRAll]
      simp only [K, hr.ran.none h0, a1, b1, kBin_and]
      rfl

  theorem rsemRAny_correct {ρ : Path → Nat} {env : Env} {σ : Slots} : ∀ (es : Exprs E) (v : Int) (b : Nat) (n : Exec E) (d : D) (l : Marks),
      RFrags C v es → ShOK sh (shapes .or es) b → Reads2 (E := E) (slotVal r σ) ρ env (rPathsAll es) →
      Hosts n (rItemsAll C ρ es b) b (shapes .or es).size → Ran1R X sh r n d σ l → K (shapes .or es) b l.get = rsemRAny X C env (kinds n) es d
    | .nil, v, b, n, d, l, h, _, _, _, _ => by simp [RFrags] at h
    | .cons e .nil, v, b, n, d, l, h, hsh, hrd, hh, hr => by
      rw [RFrags] at h; rw [shapes] at hsh ⊢; rw [rItemsAll, shapes] at hh; rw [rPathsAll] at hrd
      rw [rsemRAny, rsemRAny, kOr_false]
      exact rsemR_correct e v b n d l h hsh (fun p hp => hrd p (List.mem_append_left _ hp)) hh hr
    | .cons e (.cons e' r'), v, b, n, d, l, h, hsh, hrd, hh, hr => by
      rw [RFrags] at h; rw [shapes] at hsh ⊢; rw [rItemsAll, shapes, Sh.size] at hh; rw [rPathsAll] at hrd
      have w1 := rItems_within C ρ e v (b + 1) h.1
      have w2 := rItemsAll_within C ρ (.cons e' r') .or v (b + 1 + (shape e).size) h.2
      have h0 : withBucket b (items n) = [] := by
        have := hh b (by omega) (by omega)
        rw [withBucket_append, withBucket_out w1 (by omega), withBucket_out w2 (by omega)] at this
        exact List.perm_nil.1 this
      have a1 := rsemR_correct (env := env) e v (b + 1) n d l h.1 (fun s' i hs => hsh s' i (Or.inr (Or.inl hs)))
        (fun p hp => hrd p (List.mem_append_left _ hp)) (hh.left w2 (by omega) (by omega) (by omega)) hr
      have b1 := rsemRAny_correct (env := env) (.cons e' r') v (b + 1 + (shape e).size) n d l h.2 (fun s' i hs => hsh s' i (Or.inr (Or.inr hs)))
        (fun p hp => hrd p (List.mem_append_right _ hp)) (hh.right w1 (by omega) (by omega) (by omega)) hr
      rw [rsemRAny]
      simp only [K, hr.ran.none h0, a1, b1, kBin_or]
      rfl
end

/-- Reading a slot. -/
theorem slotVal_lookR {r : D} {σ : Slots} {s : Nat} {v : FV E} (h : slotVal r σ s = .ok v) :
    slotVal (E := E) r σ s = fieldVal ((look σ s).or (scalar r)) := by
  unfold slotVal at h ⊢
  split at h
  · cases h
  · rename_i hs
    rw [if_neg hs]
    obtain ⟨p, hp, h⟩ := Res.bind_eq_ok.1 h
    rw [hp, Res.bind_ok]
    have hl : look σ s = p := by
      unfold Res.idx at hp
      rw [look]
      split at hp
      · rename_i x hx; cases hp; rw [hx]; rfl
      · cases hp
    rw [hl]
    cases p with
    | some d => rfl
    | none => cases r <;> rfl

theorem HoldsE.reads {ρ : Path → Nat} {q : Path} {S : List Path} {g : Env} {σ : Slots}
    (h : HoldsE (S.map (fun p => (ρ p, p.drop q.length))) g σ) : Reads2 (E := E) (slotVal r σ) ρ (fieldsAt r q g) S := by
  intro p hp w hw
  rw [slotVal_lookR hw, h (ρ p, p.drop q.length) (List.mem_map.2 ⟨p, hp, rfl⟩)] at hw
  exact hw

/-- What the loop decides when the slots hold the fields. -/
theorem rooted_gives {ρ : Path → Nat} {m : Mode} {i s : Expr E} {w : Int} {q : Path} {b : Nat} (hf : RFrag C w s) (hsh : ShOK sh (shape s) b) :
    LoopGivesE X sh r b m (ρ (inPath i)) (rbody C ρ s b) ((inPath i :: rPaths s).map (fun p => (ρ p, p.drop q.length)))
      (fun g => rootedLoopR X C m i s r (fieldsAt r q g)) := by
  have hshb : sh b = shape s := hsh _ _ (by cases shape s <;> simp [Sh.SubAt])
  intro g σ hg hh p l hp hl
  have hp' : p = g ((inPath i).drop q.length) := by
    have h1 : look σ (ρ (inPath i)) = p := by
      unfold Res.idx at hp
      rw [look]
      split at hp
      · rename_i y hy; cases hp; rw [hy]; rfl
      · cases hp
    rw [← h1]
    exact hg (ρ (inPath i), (inPath i).drop q.length) (List.mem_map.2 ⟨_, List.mem_cons_self, rfl⟩)
  have hv : (fieldsAt r q g (inPath i)).getD r = p.getD r := by
    rw [fieldsAt, ← hp']
    cases p with
    | some d => rfl
    | none => cases r <;> rfl
  show _ = rootedLoopR X C m i s r (fieldsAt r q g)
  rw [rootedLoopR, hv]
  cases hd : p.getD r with
  | lit ty t => rw [hd] at hl; cases hl; rfl
  | obj ws ms => rw [hd] at hl; cases hl; rfl
  | arr ws es =>
    rw [hd, dLoop] at hl
    obtain ⟨v', hv', hl⟩ := Res.bind_eq_ok.1 hl
    cases hl
    have := dItems_init (p := fun y => decide (rsemR X C (fieldsAt r q g) (rConds s) s y = some true)) hv' (by
      intro y hy a ha
      have := rsemR_correct (ρ := ρ) (env := fieldsAt r q g) s w b _ y a.1 hf hsh
        (fun p hp => hg.reads (S := inPath i :: rPaths s) p (List.mem_cons_of_mem _ hp)) (fun i _ _ => (rbody_perm hf).filter _) (rbody_ranR hf ha)
      rw [hshb, this, rsemR_congr X C _ s w y hf (rbody_kinds hf)])
    simp [Marks.get, this]

end

end Verif.Transform
