import Verif.Transform.Rename
import Verif.Transform.Compiles

/-!
# Pushing negations inward

The normal form of C101 and what the transformer makes of it.
-/

namespace Verif.Transform
open Verif.FastVal Verif.Match Verif.Expr
open Verif.BinTree (Tree Node NodeType Sh BinOp)

variable {E : Ext}

/-! ### The normal form -/

mutual
  /-- The expression (for `true`: its negation) with negations pushed inward as far as they go: through negations, conjunctions and disjunctions, and
  into comparisons and tests of existence that have an opposite.  Loops are left alone. -/
  def pushNot : Bool → Expr E → Expr E
    | n, .not e => pushNot (!n) e
    | n, .or es => if n then .and (pushNots n es) else .or (pushNots n es)
    | n, .and es => if n then .or (pushNots n es) else .and (pushNots n es)
    | n, .exist e => if n then .notExist e else .exist e
    | n, .notExist e => if n then .exist e else .notExist e
    | n, .cmp .eq l r => if n then .cmp .ne l r else .cmp .eq l r
    | n, .cmp .ne l r => if n then .cmp .eq l r else .cmp .ne l r
    | n, e => if n then .not e else e

  def pushNots : Bool → Exprs E → Exprs E
    | _, .nil => .nil
    | n, .cons e es => .cons (pushNot n e) (pushNots n es)
end

/-- The other of the two connectives. -/
def otherOp : Bool → BinOp → BinOp
  | true, .or => .and
  | true, .and => .or
  | _, o => o

/-- The same on trees. -/
def pushSh : Bool → Sh → Sh
  | n, .leaf => if n then .un .not .leaf else .leaf
  | n, .un .not a => pushSh (!n) a
  | n, .un .loop a => if n then .un .not (.un .loop a) else .un .loop a
  | n, .bin o a c => .bin (otherOp n o) (pushSh n a) (pushSh n c)

mutual
  theorem shape_push (C : Comp E) {w : Option Int} : ∀ (n : Bool) (e : Expr E), Compiles C w e → shape (pushNot n e) = pushSh n (shape e)
    | n, .not e, h => by
      rw [Compiles] at h
      rw [pushNot, shape_push C (!n) e h, shape, pushSh]
    | n, .or es, h => by
      rw [Compiles] at h
      rw [pushNot]
      cases n
      · exact shapes_push C false .or es h
      · exact shapes_push C true .or es h
    | n, .and es, h => by
      rw [Compiles] at h
      rw [pushNot]
      cases n
      · exact shapes_push C false .and es h
      · exact shapes_push C true .and es h
    | n, .exist e, _ => by cases n <;> rfl
    | n, .notExist e, _ => by cases n <;> rfl
    | n, .cmp c l r, _ => by cases c <;> cases n <;> rfl
    | n, .loop m v i s, _ => by cases n <;> rfl
    | n, .field _, _ => by cases n <;> rfl
    | n, .value _, _ => by cases n <;> rfl
    | n, .regex _, _ => by cases n <;> rfl
    | n, .pcre _, _ => by cases n <;> rfl
    | n, .func _ _, _ => by cases n <;> rfl
    | n, .time _, _ => by cases n <;> rfl
    | n, .tru, _ => by cases n <;> rfl
    | n, .fals, _ => by cases n <;> rfl

  theorem shapes_push (C : Comp E) {w : Option Int} (n : Bool) (o : BinOp) : ∀ es : Exprs E, CompilesAll C w es →
      shapes (otherOp n o) (pushNots n es) = pushSh n (shapes o es)
    | .nil, h => by rw [CompilesAll] at h; exact h.elim
    | .cons e .nil, h => by
      rw [CompilesAll] at h
      rw [pushNots, pushNots, shapes, shape_push C n e h, shapes]
    | .cons e (.cons e' r), h => by
      rw [CompilesAll] at h
      have := shapes_push C n o (.cons e' r) h.2
      rw [pushNots] at this
      rw [pushNots, pushNots, shapes, shape_push C n e h.1, this, shapes, pushSh]
end

mutual
  theorem shape_neorFree : ∀ e : Expr E, (shape e).NeorFree
    | .not e => shape_neorFree e
    | .or es => shapes_neorFree (by decide) es
    | .and es => shapes_neorFree (by decide) es
    | .exist e => trivial
    | .notExist e => trivial
    | .cmp c l r => by cases c <;> trivial
    | .loop m v i s => shape_neorFree s
    | .field _ => trivial
    | .value _ => trivial
    | .regex _ => trivial
    | .pcre _ => trivial
    | .func _ _ => trivial
    | .time _ => trivial
    | .tru => trivial
    | .fals => trivial
  theorem shapes_neorFree {o : BinOp} (ho : o ≠ .neor) : ∀ es : Exprs E, (shapes o es).NeorFree
    | .nil => trivial
    | .cons e .nil => shape_neorFree e
    | .cons e (.cons e' r) => ⟨ho, shape_neorFree e, shapes_neorFree ho (.cons e' r)⟩
end

/-! ### Where the atoms go -/

/-- A part that is not taken apart: it is moved as a whole, behind a new negation if need be. -/
def LitAt (σ : Nat → Nat) (n : Bool) (sz b b' : Nat) : Prop :=
  if n then (∀ i, σ i ≠ b') ∧ SegTo σ b (b' + 1) sz else SegTo σ b b' sz

/-- `σ` takes the positions of the atoms in the tree of an expression at `b` to their positions in the tree of its normal form at `b'`, and nothing
to the positions of the connectives there. -/
def FitsAt (σ : Nat → Nat) : Bool → Sh → Nat → Nat → Prop
  | n, .leaf, b, b' => LitAt σ n 1 b b'
  | n, .un .not a, b, b' => FitsAt σ (!n) a (b + 1) b'
  | n, .un .loop a, b, b' => LitAt σ n (a.size + 1) b b'
  | n, .bin _ a c, b, b' => (∀ i, σ i ≠ b') ∧ FitsAt σ n a (b + 1) (b' + 1) ∧ FitsAt σ n c (b + 1 + a.size) (b' + 1 + (pushSh n a).size)

def litPos (n : Bool) (sz b b' i : Nat) : Option Nat :=
  if b ≤ i ∧ i < b + sz then some ((if n then b' + 1 else b') + (i - b)) else none

/-- The positions of atoms. -/
def pushPos : Bool → Sh → Nat → Nat → Nat → Option Nat
  | n, .leaf, b, b', i => litPos n 1 b b' i
  | n, .un .not a, b, b', i => pushPos (!n) a (b + 1) b' i
  | n, .un .loop a, b, b', i => litPos n (a.size + 1) b b' i
  | n, .bin _ a c, b, b', i => (pushPos n a (b + 1) (b' + 1) i).or (pushPos n c (b + 1 + a.size) (b' + 1 + (pushSh n a).size) i)

theorem litPos_some {n : Bool} {sz b b' i x : Nat} (h : litPos n sz b b' i = some x) :
    b ≤ i ∧ i < b + sz ∧ x = (if n then b' + 1 else b') + (i - b) := by
  rw [litPos] at h
  split at h
  · rename_i g
    exact ⟨g.1, g.2, (Option.some.inj h).symm⟩
  · cases h

theorem pushPos_range : ∀ (s : Sh) (n : Bool) (b b' i x : Nat), pushPos n s b b' i = some x →
    (b ≤ i ∧ i < b + s.size) ∧ b' ≤ x ∧ x < b' + (pushSh n s).size
  | .leaf, n, b, b', i, x, h => by
    have := litPos_some h
    cases n <;> simp [pushSh, Sh.size] at this ⊢ <;> omega
  | .un .not a, n, b, b', i, x, h => by
    have := pushPos_range a (!n) (b + 1) b' i x h
    simp only [pushSh, Sh.size]
    omega
  | .un .loop a, n, b, b', i, x, h => by
    have := litPos_some h
    cases n <;> simp [pushSh, Sh.size] at this ⊢ <;> omega
  | .bin o a c, n, b, b', i, x, h => by
    simp only [pushSh, Sh.size]
    rw [pushPos, Option.or_eq_some_iff] at h
    rcases h with h | ⟨_, h⟩
    · have := pushPos_range a n _ _ i x h; omega
    · have := pushPos_range c n _ _ i x h; omega

theorem pushPos_inj : ∀ (s : Sh) (n : Bool) (b b' i j x : Nat), pushPos n s b b' i = some x → pushPos n s b b' j = some x → i = j
  | .leaf, n, b, b', i, j, x, h, g => by
    have := litPos_some h; have := litPos_some g; omega
  | .un .not a, n, b, b', i, j, x, h, g => pushPos_inj a (!n) (b + 1) b' i j x h g
  | .un .loop a, n, b, b', i, j, x, h, g => by
    have := litPos_some h; have := litPos_some g; omega
  | .bin o a c, n, b, b', i, j, x, h, g => by
    rw [pushPos, Option.or_eq_some_iff] at h g
    rcases h with h | ⟨_, h⟩ <;> rcases g with g | ⟨_, g⟩
    · exact pushPos_inj a n _ _ i j x h g
    · have := pushPos_range a n _ _ i x h; have := pushPos_range c n _ _ j x g; omega
    · have := pushPos_range c n _ _ i x h; have := pushPos_range a n _ _ j x g; omega
    · exact pushPos_inj c n _ _ i j x h g

theorem litAt_of {σ : Nat → Nat} {n : Bool} {sz b b' : Nat} (h1 : ∀ i x, litPos n sz b b' i = some x → σ i = x)
    (h2 : ∀ x, b' ≤ x → x < b' + (if n then sz + 1 else sz) → (∀ i, litPos n sz b b' i ≠ some x) → ∀ i, σ i ≠ x) : LitAt σ n sz b b' := by
  have hs : SegTo σ b (if n then b' + 1 else b') sz := by
    intro j hj
    refine h1 (b + j) _ ?_
    rw [litPos, if_pos (by omega)]
    congr 2; omega
  cases n with
  | false => exact hs
  | true =>
    refine ⟨h2 b' (by omega) (by simp) (fun i hi => ?_), hs⟩
    have := litPos_some hi
    simp at this; omega

theorem fits_of {σ : Nat → Nat} : ∀ (s : Sh) (n : Bool) (b b' : Nat), (∀ i x, pushPos n s b b' i = some x → σ i = x) →
    (∀ x, b' ≤ x → x < b' + (pushSh n s).size → (∀ i, pushPos n s b b' i ≠ some x) → ∀ i, σ i ≠ x) → FitsAt σ n s b b'
  | .leaf, n, b, b', h1, h2 => litAt_of h1 (fun x hx hx' => h2 x hx (by cases n <;> exact hx'))
  | .un .not a, n, b, b', h1, h2 => fits_of a (!n) (b + 1) b' h1 h2
  | .un .loop a, n, b, b', h1, h2 => litAt_of h1 (fun x hx hx' => h2 x hx (by cases n <;> exact hx'))
  | .bin o a c, n, b, b', h1, h2 => by
    simp only [pushSh, Sh.size, pushPos] at h1 h2
    refine ⟨h2 b' (by omega) (by omega) (fun i hi => ?_), fits_of a n _ _ (fun i x hi => h1 i x (by rw [hi]; rfl)) (fun x hx hx' hn => ?_),
      fits_of c n _ _ (fun i x hi => h1 i x ?_) (fun x hx hx' hn => ?_)⟩
    · rw [Option.or_eq_some_iff] at hi
      rcases hi with h | ⟨_, h⟩
      · have := pushPos_range a n _ _ i _ h; omega
      · have := pushPos_range c n _ _ i _ h; omega
    · refine h2 x (by omega) (by omega) (fun i hi => ?_)
      rw [Option.or_eq_some_iff] at hi
      rcases hi with h | ⟨_, h⟩
      · exact hn i h
      · have := pushPos_range c n _ _ i _ h; omega
    · rw [Option.or_eq_some_iff]
      refine Or.inr ⟨?_, hi⟩
      cases hx : pushPos n a (b + 1) (b' + 1) i with
      | none => rfl
      | some y => have := pushPos_range a n _ _ i _ hx; have := pushPos_range c n _ _ i _ hi; omega
    · refine h2 x (by omega) (by omega) (fun i hi => ?_)
      rw [Option.or_eq_some_iff] at hi
      rcases hi with h | ⟨_, h⟩
      · have := pushPos_range a n _ _ i _ h; omega
      · exact hn i h

/-- There is such a renaming. -/
theorem fits_exists (n : Bool) (s : Sh) : ∃ σ : Nat → Nat, (∀ x y, σ x = σ y → x = y) ∧ FitsAt σ n s 0 0 := by
  refine ⟨fun i => (pushPos n s 0 0 i).getD (i + (pushSh n s).size), fun x y h => ?_, fits_of s n 0 0 (fun i x hi => by simp [hi]) (fun x _ hx hn i e => ?_)⟩
  · simp only at h
    cases hx : pushPos n s 0 0 x with
    | none => cases hy : pushPos n s 0 0 y with
      | none => rw [hx, hy] at h; simp at h; omega
      | some j => rw [hx, hy] at h; simp at h; have := pushPos_range s n 0 0 y j hy; omega
    | some i => cases hy : pushPos n s 0 0 y with
      | none => rw [hx, hy] at h; simp at h; have := pushPos_range s n 0 0 x i hx; omega
      | some j =>
        rw [hx, hy] at h; simp at h; subst h
        exact pushPos_inj s n 0 0 x y i hx hy
  · cases hi : pushPos n s 0 0 i with
    | none => rw [hi] at e; simp at e; omega
    | some j => rw [hi] at e; simp at e; subst e; exact hn i hi

/-! ### The transformer -/

/-- What two parts of the transformer do, for a subtree and its normal form. -/
def Pushes (σ : Nat → Nat) (n : Bool) (s : Sh) (f f' : T E → Res (T E)) : Prop :=
  ∀ P P' t t', Enter σ P P' t t' → FitsAt σ n s P P' → Abreast (Handled σ (P + s.size) (P' + (pushSh n s).size)) (f t) (f' t')

section
variable {σ : Nat → Nat}

theorem lit_pushes {n : Bool} {sz : Nat} {f : T E → Res (T E)} (hf : Moves σ sz f) {P P' : Nat} {t t' : T E} (h : Enter σ P P' t t')
    (hl : LitAt σ n sz P P') : Abreast (Handled σ (P + sz) (P' + if n then sz + 1 else sz)) (f t) ((if n then tNot f else f) t') := by
  cases n with
  | false => exact hf _ _ _ _ h hl
  | true =>
    obtain ⟨_, hs⟩ := hl
    simp only [if_true, tNot, setTy, setLeft]
    rw [h.active']
    obtain ⟨u, e1, hu⟩ := modNode_right h (i := P') (by omega) _
    rw [e1, Res.bind_ok]
    obtain ⟨w, e2, hw⟩ := modNode_right (newBucket_right hu) (i := P') (by omega) (fun n => { n with left := P' + 1 })
    rw [(newBucket_right hu).active', e2, Res.bind_ok]
    have := hf _ _ _ _ hw hs
    rw [show P' + (sz + 1) = P' + 1 + sz by omega]
    exact this

theorem not_pushes {n : Bool} {a : Sh} {f f' : T E → Res (T E)} (hf : Pushes σ (!n) a f f') : Pushes σ n (.un .not a) (tNot f) f' := by
  intro P P' t t' h hfit
  simp only [tNot, setTy, setLeft]
  rw [h.active]
  obtain ⟨u, e1, hu⟩ := modNode_left h (i := P) (by omega) (fun n => { n with ty := NodeType.not })
  rw [e1, Res.bind_ok]
  obtain ⟨w, e2, hw⟩ := modNode_left (newBucket_left hu) (i := P) (by omega) (fun n => { n with left := P + 1 })
  rw [(newBucket_left hu).active, e2, Res.bind_ok]
  have := hf _ _ _ _ hw hfit
  rw [Sh.size, pushSh, show P + (a.size + 1) = P + 1 + a.size by omega]
  exact this

theorem bin_pushes {n : Bool} {o : BinOp} {a c : Sh} {ty ty' : NodeType} {f f' g g' : T E → Res (T E)} (hf : Pushes σ n a f f')
    (hg : Pushes σ n c g g') : Pushes σ n (.bin o a c) (tBin ty f g) (tBin ty' f' g') := by
  intro P P' t t' h hfit
  obtain ⟨_, hs1, hs2⟩ := hfit
  simp only [tBin]
  rw [h.active, h.active']
  refine (modNode_renamed h (by omega) (by omega) _ _).bind (fun u u' _ _ hu => ?_)
  have hb := newBucket_renamed hu
  refine (modNode_renamed hb (by omega) (by omega) _ _).bind (fun w w' _ _ hw => ?_)
  refine (hf _ _ _ _ hw hs1).bind (fun d d' _ _ hd => ?_)
  obtain ⟨Q, Q', hd⟩ := hd
  have hd' : Renamed σ P P' _ _ { d with active := P } { d' with active := P' } :=
    { hd with active := rfl, active' := rfl, lt := by omega, lt' := by omega }
  refine (modNode_renamed (newBucket_renamed hd') (by omega) (by omega) _ _).bind (fun x x' _ _ hx => ?_)
  have := hg _ _ _ _ hx hs2
  simp only [Sh.size, pushSh]
  rw [show P + (a.size + c.size + 1) = P + 1 + a.size + c.size by omega,
    show P' + ((pushSh n a).size + (pushSh n c).size + 1) = P' + 1 + (pushSh n a).size + (pushSh n c).size by omega]
  exact this

theorem leaf_pushes {n : Bool} {f : T E → Res (T E)} (hf : Moves σ 1 f) : Pushes σ n .leaf f (if n then tNot f else f) := by
  intro P P' t t' h hfit
  have := lit_pushes hf h hfit
  cases n <;> exact this

theorem body_pushes {n : Bool} {a : Sh} {f : T E → Res (T E)} (hf : Moves σ (a.size + 1) f) : Pushes σ n (.un .loop a) f (if n then tNot f else f) := by
  intro P P' t t' h hfit
  have := lit_pushes hf h hfit
  cases n <;> exact this

theorem tOne_not (C : Comp E) (e : Expr E) : tOne C (.not e) = tNot (tOne C e) := by funext t; rw [tOne]

theorem tOne_notIf (C : Comp E) (n : Bool) (e : Expr E) : tOne C (if n then .not e else e) = if n then tNot (tOne C e) else tOne C e := by
  cases n
  · rfl
  · exact tOne_not C e

theorem panic_pushes (n : Bool) (s : Sh) : Pushes σ n s (fun _ : T E => .panic) (fun _ => .panic) := fun _ _ _ _ _ _ => trivial

variable (hσ : ∀ x y, σ x = σ y → x = y)
include hσ

mutual
  theorem tOne_pushes (C : Comp E) : ∀ (n : Bool) (e : Expr E), Pushes σ n (shape e) (tOne C e) (tOne C (pushNot n e))
    | n, .not e => by
      rw [tOne_not, pushNot]; exact not_pushes (tOne_pushes C (!n) e)
    | n, .or es => by
      have h1 : tOne C (.or es) = tOr C es := by funext t; rw [tOne]
      rw [h1, pushNot]
      cases n with
      | false =>
        have h2 : tOne C (.or (pushNots false es)) = tOr C (pushNots false es) := by funext t; rw [tOne]
        rw [if_neg (by decide), h2]; exact tOr_pushes C es
      | true =>
        have h2 : tOne C (.and (pushNots true es)) = tAnd C (pushNots true es) := by funext t; rw [tOne]
        rw [if_pos rfl, h2]; exact tOr_dual C es
    | n, .and es => by
      have h1 : tOne C (.and es) = tAnd C es := by funext t; rw [tOne]
      rw [h1, pushNot]
      cases n with
      | false =>
        have h2 : tOne C (.and (pushNots false es)) = tAnd C (pushNots false es) := by funext t; rw [tOne]
        rw [if_neg (by decide), h2]; exact tAnd_pushes C es
      | true =>
        have h2 : tOne C (.or (pushNots true es)) = tOr C (pushNots true es) := by funext t; rw [tOne]
        rw [if_pos rfl, h2]; exact tAnd_dual C es
    | n, .exist e => by
      have h1 : tOne C (.exist e) = tExists C e := by funext t; rw [tOne]
      have h2 : tOne C (.notExist e) = tNot (tExists C e) := by funext t; rw [tOne]
      have : tOne C (pushNot n (.exist e)) = if n then tNot (tExists C e) else tExists C e := by
        cases n
        · exact h1
        · exact h2
      rw [this, h1]; exact leaf_pushes (tExists_moves hσ C e)
    | n, .notExist e => by
      have h1 : tOne C (.exist e) = tExists C e := by funext t; rw [tOne]
      have h2 : tOne C (.notExist e) = tNot (tExists C e) := by funext t; rw [tOne]
      have : tOne C (pushNot n (.notExist e)) = if !n then tNot (tExists C e) else tExists C e := by
        cases n
        · exact h2
        · exact h1
      rw [this, h2]; exact not_pushes (leaf_pushes (n := !n) (tExists_moves hσ C e))
    | n, .cmp c l r => by
      have h1 : tOne C (.cmp .eq l r) = tCompare C (.cmp .eq l r) .equals l r := by funext t; rw [tOne, if_neg (by decide)]; rfl
      have h2 : tOne C (.cmp .ne l r) = tNot (tCompare C (.cmp .eq l r) .equals l r) := by funext t; rw [tOne, if_pos rfl]
      by_cases he : c = .eq
      · subst he
        have : tOne C (pushNot n (.cmp .eq l r)) = if n then tNot (tCompare C (.cmp .eq l r) .equals l r) else tCompare C (.cmp .eq l r) .equals l r := by
          cases n
          · exact h1
          · exact h2
        rw [this, h1]; exact leaf_pushes (tCompare_moves hσ C _ _ l r)
      · by_cases hn : c = .ne
        · subst hn
          have : tOne C (pushNot n (.cmp .ne l r)) =
              if !n then tNot (tCompare C (.cmp .eq l r) .equals l r) else tCompare C (.cmp .eq l r) .equals l r := by
            cases n
            · exact h2
            · exact h1
          rw [this, h2]; exact not_pushes (leaf_pushes (n := !n) (tCompare_moves hσ C _ _ l r))
        · have h3 : tOne C (.cmp c l r) = tCompare C (.cmp c l r) (opOf c) l r := by funext t; rw [tOne, if_neg hn]
          have h4 : pushNot n (.cmp c l r) = if n then .not (.cmp c l r) else .cmp c l r := by
            cases c <;> first | rfl | exact absurd rfl hn | exact absurd rfl he
          have h5 : shape (.cmp c l r) = .leaf := by cases c <;> first | rfl | exact absurd rfl hn
          rw [h4, tOne_notIf, h3, h5]
          exact leaf_pushes (tCompare_moves hσ C _ _ l r)
    | n, .loop m v i s => by
      rw [show pushNot n (.loop m v i s) = if n then .not (.loop m v i s) else .loop m v i s from rfl, tOne_notIf]
      exact body_pushes (tOne_moves hσ C (.loop m v i s))
    | n, .field f => by rw [show pushNot n (.field f) = if n then .not (.field f) else .field f from rfl, tOne_notIf]; exact leaf_pushes (tOne_moves hσ C (.field f))
    | n, .value f => by rw [show pushNot n (.value f) = if n then .not (.value f) else .value f from rfl, tOne_notIf]; exact leaf_pushes (tOne_moves hσ C (.value f))
    | n, .regex f => by rw [show pushNot n (.regex f) = if n then .not (.regex f) else .regex f from rfl, tOne_notIf]; exact leaf_pushes (tOne_moves hσ C (.regex f))
    | n, .pcre f => by rw [show pushNot n (.pcre f) = if n then .not (.pcre f) else .pcre f from rfl, tOne_notIf]; exact leaf_pushes (tOne_moves hσ C (.pcre f))
    | n, .func f g => by rw [show pushNot n (.func f g) = if n then .not (.func f g) else .func f g from rfl, tOne_notIf]; exact leaf_pushes (tOne_moves hσ C (.func f g))
    | n, .time f => by rw [show pushNot n (.time f) = if n then .not (.time f) else .time f from rfl, tOne_notIf]; exact leaf_pushes (tOne_moves hσ C (.time f))
    | n, .tru => by rw [show pushNot n (.tru : Expr E) = if n then .not .tru else .tru from rfl, tOne_notIf]; exact leaf_pushes (tOne_moves hσ C .tru)
    | n, .fals => by rw [show pushNot n (.fals : Expr E) = if n then .not .fals else .fals from rfl, tOne_notIf]; exact leaf_pushes (tOne_moves hσ C .fals)

  theorem tOr_pushes (C : Comp E) : ∀ (es : Exprs E), Pushes σ false (shapes .or es) (tOr C es) (tOr C (pushNots false es))
    | .nil => panic_pushes _ _
    | .cons e .nil => by
      have h1 : ∀ e, tOr C (.cons e .nil) = tOne C e := fun e => by funext t; rw [tOr]
      rw [pushNots, pushNots, h1, h1]; exact tOne_pushes C false e
    | .cons e (.cons e' r) => by
      have h1 : ∀ e e' r, tOr C (.cons e (.cons e' r)) = tBin .or (tOne C e) (tOr C (.cons e' r)) := fun e e' r => by funext t; rw [tOr.eq_def]
      have := tOr_pushes C (.cons e' r)
      rw [pushNots] at this
      rw [pushNots, pushNots, h1, h1]; exact bin_pushes (tOne_pushes C false e) this

  theorem tAnd_pushes (C : Comp E) : ∀ (es : Exprs E), Pushes σ false (shapes .and es) (tAnd C es) (tAnd C (pushNots false es))
    | .nil => panic_pushes _ _
    | .cons e .nil => by
      have h1 : ∀ e, tAnd C (.cons e .nil) = tOne C e := fun e => by funext t; rw [tAnd]
      rw [pushNots, pushNots, h1, h1]; exact tOne_pushes C false e
    | .cons e (.cons e' r) => by
      have h1 : ∀ e e' r, tAnd C (.cons e (.cons e' r)) = tBin .and (tOne C e) (tAnd C (.cons e' r)) := fun e e' r => by funext t; rw [tAnd.eq_def]
      have := tAnd_pushes C (.cons e' r)
      rw [pushNots] at this
      rw [pushNots, pushNots, h1, h1]; exact bin_pushes (tOne_pushes C false e) this

  theorem tOr_dual (C : Comp E) : ∀ (es : Exprs E), Pushes σ true (shapes .or es) (tOr C es) (tAnd C (pushNots true es))
    | .nil => panic_pushes _ _
    | .cons e .nil => by
      have h1 : ∀ e, tOr C (.cons e .nil) = tOne C e := fun e => by funext t; rw [tOr]
      have h2 : ∀ e, tAnd C (.cons e .nil) = tOne C e := fun e => by funext t; rw [tAnd]
      rw [pushNots, pushNots, h1, h2]; exact tOne_pushes C true e
    | .cons e (.cons e' r) => by
      have h1 : ∀ e e' r, tOr C (.cons e (.cons e' r)) = tBin .or (tOne C e) (tOr C (.cons e' r)) := fun e e' r => by funext t; rw [tOr.eq_def]
      have h2 : ∀ e e' r, tAnd C (.cons e (.cons e' r)) = tBin .and (tOne C e) (tAnd C (.cons e' r)) := fun e e' r => by funext t; rw [tAnd.eq_def]
      have := tOr_dual C (.cons e' r)
      rw [pushNots] at this
      rw [pushNots, pushNots, h1, h2]; exact bin_pushes (tOne_pushes C true e) this

  theorem tAnd_dual (C : Comp E) : ∀ (es : Exprs E), Pushes σ true (shapes .and es) (tAnd C es) (tOr C (pushNots true es))
    | .nil => panic_pushes _ _
    | .cons e .nil => by
      have h1 : ∀ e, tAnd C (.cons e .nil) = tOne C e := fun e => by funext t; rw [tAnd]
      have h2 : ∀ e, tOr C (.cons e .nil) = tOne C e := fun e => by funext t; rw [tOr]
      rw [pushNots, pushNots, h1, h2]; exact tOne_pushes C true e
    | .cons e (.cons e' r) => by
      have h1 : ∀ e e' r, tAnd C (.cons e (.cons e' r)) = tBin .and (tOne C e) (tAnd C (.cons e' r)) := fun e e' r => by funext t; rw [tAnd.eq_def]
      have h2 : ∀ e e' r, tOr C (.cons e (.cons e' r)) = tBin .or (tOne C e) (tOr C (.cons e' r)) := fun e e' r => by funext t; rw [tOr.eq_def]
      have := tAnd_dual C (.cons e' r)
      rw [pushNots] at this
      rw [pushNots, pushNots, h1, h2]; exact bin_pushes (tOne_pushes C true e) this
end

/-- What compiling an expression and its normal form gives. -/
theorem transform_push (C : Comp E) (slot0 : Nat) (n : Bool) (e : Expr E) (hf : FitsAt σ n (shape e) 0 0) (hn : genExprs [e] = [e])
    (hn' : genExprs [pushNot n e] = [pushNot n e]) :
    Abreast (fun df df' => df'.parse = df.parse.map (renExec σ) ∧ df'.numSlots = df.numSlots) (transform C slot0 [e])
      (transform C slot0 [pushNot n e]) := by
  rw [transform_cons C slot0 [e] hn, transform_cons C slot0 [pushNot n e] hn']
  simp only [tMerge]
  have h0 : Enter σ 0 0 (initT slot0 : T E) (initT slot0) :=
    ⟨rfl, emptyExec_ren.symm, rfl, rfl, rfl, rfl, rfl, rfl, rfl, by omega, by omega⟩
  refine Abreast.bind (P := fun r r' => Handled σ (0 + (shape e).size) (0 + (pushSh n (shape e)).size) r.1 r'.1)
    ((tOne_pushes hσ C n e _ _ _ _ h0 hf).bind (fun a a' _ _ h => ?_)) (fun r r' _ _ h => ?_)
  · exact h
  obtain ⟨Q, Q', h⟩ := h
  exact ⟨by simp [h.root], h.slot⟩

end

end Verif.Transform
