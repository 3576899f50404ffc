import Verif.Transform.PushRun

/-!
# Grouping does not matter

C102: for everything that compiles, conjunctions and disjunctions can be regrouped without changing the verdict on any document: `(a OR b) OR c`,
`a OR (b OR c)` and `a OR b OR c` answer alike, also deep inside an expression; and this can be combined with the normal forms of C101.
-/

namespace Verif.Transform
open Verif.Token Verif.FastVal Verif.Match Verif.Expr
open Verif.BinTree (Tree State Node NodeType Sh SV K Inv Shaped Fresh Dead BinOp kBin)

variable {E : Ext} {σ : Nat → Nat}

/-! ### Regrouping -/

/-- A disjunction (`true`) or conjunction. -/
def connE : Bool → Exprs E → Expr E
  | true, es => .or es
  | false, es => .and es

mutual
  /-- One regrouping somewhere outside the bodies of loops. -/
  inductive Regroup : Expr E → Expr E → Prop
    | not {e e'} : Regroup e e' → Regroup (.not e) (.not e')
    | conn {o es es'} : Regroups o es es' → Regroup (connE o es) (connE o es')

  /-- One regrouping among or in the operands of a disjunction or conjunction. -/
  inductive Regroups : Bool → Exprs E → Exprs E → Prop
    | head {o e e' r} : Regroup e e' → Regroups o (.cons e r) (.cons e' r)
    | tail {o e r r'} : Regroups o r r' → Regroups o (.cons e r) (.cons e r')
    /-- A disjunction or conjunction of a single expression. -/
    | single {o o' e r} : Regroups o (.cons (connE o' (.cons e .nil)) r) (.cons e r)
    /-- The last operand is a group. -/
    | last {o e r} : Regroups o (.cons (connE o (.cons e r)) .nil) (.cons e r)
    /-- The first operand of a group that is not the last one leaves it. -/
    | turn {o x x' xs y ys} : Regroups o (.cons (connE o (.cons x (.cons x' xs))) (.cons y ys)) (.cons x (.cons (connE o (.cons x' xs)) (.cons y ys)))
end

/-- Any number of steps in either direction. -/
inductive Chain {α : Type} (R : α → α → Prop) : α → α → Prop
  | refl {a} : Chain R a a
  | to {a b c} : R a b → Chain R b c → Chain R a c
  | back {a b c} : R b a → Chain R b c → Chain R a c

theorem Chain.trans {α : Type} {R : α → α → Prop} {a b c : α} (h : Chain R a b) (g : Chain R b c) : Chain R a c := by
  induction h with
  | refl => exact g
  | to h _ ih => exact .to h (ih g)
  | back h _ ih => exact .back h (ih g)

theorem Chain.map {α β : Type} {R : α → α → Prop} {S : β → β → Prop} {f : α → β} (hf : ∀ a b, R a b → S (f a) (f b)) {a b : α} (h : Chain R a b) :
    Chain S (f a) (f b) := by
  induction h with
  | refl => exact .refl
  | to h _ ih => exact .to (hf _ _ h) ih
  | back h _ ih => exact .back (hf _ _ h) ih

/-! ### Trees -/

/-- `s'` at `b` is `s` with one rotation, and `σ` says what becomes of the positions. -/
inductive Turned (σ : Nat → Nat) : Sh → Sh → Nat → Prop
  | same {s b} : SegTo σ b b s.size → Turned σ s s b
  | not {a a' b} : σ b = b → Turned σ a a' (b + 1) → Turned σ (.un .not a) (.un .not a') b
  | bin {o a a' c c' b} : o ≠ .neor → σ b = b → a'.size = a.size → Turned σ a a' (b + 1) → Turned σ c c' (b + 1 + a.size) →
      Turned σ (.bin o a c) (.bin o a' c') b
  | turn {o x y z b} : o ≠ .neor → σ b = b → σ (b + 1) = b + 1 + x.size → SegTo σ (b + 1 + 1) (b + 1) x.size →
      SegTo σ (b + 1 + 1 + x.size) (b + 1 + x.size + 1) y.size → SegTo σ (b + 1 + (x.size + y.size + 1)) (b + 1 + x.size + 1 + y.size) z.size →
      Turned σ (.bin o (.bin o x y) z) (.bin o x (.bin o y z)) b

theorem Turned.size {s s' : Sh} {b : Nat} (h : Turned σ s s' b) : s'.size = s.size := by
  induction h with
  | same => rfl
  | not _ _ ih => simp only [Sh.size, ih]
  | bin _ _ e _ _ _ ih => simp only [Sh.size, e, ih]
  | turn => simp only [Sh.size]; omega

theorem Turned.atom {s s' : Sh} {b : Nat} (h : Turned σ s s' b) : ∀ i, IsAtom s b i → IsAtom s' b (σ i) := by
  induction h with
  | same hs => exact fun i hi => isAtom_at hs hi
  | not _ _ ih => exact ih
  | bin _ _ e _ _ ih1 ih2 =>
    intro i hi
    rcases hi with hi | hi
    · exact Or.inl (ih1 i hi)
    · exact Or.inr (e ▸ ih2 i hi)
  | turn _ _ _ h1 h2 h3 =>
    intro i hi
    rcases hi with (hi | hi) | hi
    · exact Or.inl (isAtom_at h1 hi)
    · exact Or.inr (Or.inl (isAtom_at h2 hi))
    · exact Or.inr (Or.inr (isAtom_at h3 hi))

theorem Turned.loop {s s' : Sh} {b : Nat} (h : Turned σ s s' b) :
    ∀ i x, LoopAt s b i x → LoopAt s' b (σ i) x ∧ SegTo σ i (σ i) x.size := by
  induction h with
  | same hs => exact fun i x hi => loopAt_at hs hi
  | not _ _ ih => exact ih
  | bin _ _ e _ _ ih1 ih2 =>
    intro i x hi
    rcases hi with hi | hi
    · exact ⟨Or.inl (ih1 i x hi).1, (ih1 i x hi).2⟩
    · exact ⟨Or.inr (e ▸ (ih2 i x hi).1), (ih2 i x hi).2⟩
  | turn _ _ _ h1 h2 h3 =>
    intro i x hi
    rcases hi with (hi | hi) | hi
    · have := loopAt_at h1 hi; exact ⟨Or.inl this.1, this.2⟩
    · have := loopAt_at h2 hi; exact ⟨Or.inr (Or.inl this.1), this.2⟩
    · have := loopAt_at h3 hi; exact ⟨Or.inr (Or.inr this.1), this.2⟩

theorem kBin_assoc {o : BinOp} (ho : o ≠ .neor) (x y z : Option Bool) : kBin o x (kBin o y z) = kBin o (kBin o x y) z := by
  cases o <;> first | exact absurd rfl ho | (rcases x with _ | _ | _ <;> rcases y with _ | _ | _ <;> rcases z with _ | _ | _ <;> rfl)

theorem kBin_open {o : BinOp} (ho : o ≠ .neor) {x y z : Option Bool} (h : kBin o (kBin o x y) z = none) :
    (x = none → kBin o x y = none) ∧ (y = none → kBin o x y = none ∧ kBin o y z = none) ∧ (z = none → kBin o y z = none) := by
  cases o <;> first | exact absurd rfl ho | (rcases x with _ | _ | _ <;> rcases y with _ | _ | _ <;> rcases z with _ | _ | _ <;> revert h <;> decide)

section
variable (hσ : ∀ x y, σ x = σ y → x = y) (p : Nat → Option Bool)
include hσ

theorem moved_to {i j : Nat} (h : σ i = j) : moved σ p j = p i := by rw [← h, moved_at hσ]

theorem Turned.K {s s' : Sh} {b : Nat} (h : Turned σ s s' b) : AtomsOnly p s b → K s' b (moved σ p) = K s b p := by
  induction h with
  | same hs => exact fun _ => K_seg hσ p _ _ _ hs
  | not e _ ih =>
    intro hp
    rw [BinTree.K, BinTree.K, moved_to hσ p e, ih hp.not.2]
  | bin _ e e' _ _ ih1 ih2 =>
    intro hp
    rw [BinTree.K, BinTree.K, moved_to hσ p e, e', ih1 hp.bin.2.1, ih2 hp.bin.2.2]
  | turn ho e e' h1 h2 h3 =>
    intro hp
    obtain ⟨p0, hxy, _⟩ := hp.bin
    obtain ⟨p1, _, _⟩ := hxy.bin
    rw [BinTree.K, BinTree.K, BinTree.K, BinTree.K, moved_to hσ p e, moved_to hσ p e', K_seg hσ p _ _ _ h1, K_seg hσ p _ _ _ h2, K_seg hσ p _ _ _ h3, p0, p1]
    simp only [Option.none_or]
    exact kBin_assoc ho _ _ _

theorem Turned.evalM {s s' : Sh} {b : Nat} (h : Turned σ s s' b) : AtomsOnly p s b → s'.evalM b (moved σ p) = s.evalM b p := by
  induction h with
  | same hs => exact fun _ => evalM_seg hσ p _ _ _ hs
  | not e _ ih =>
    intro hp
    rw [Sh.evalM, Sh.evalM, moved_to hσ p e, ih hp.not.2]
  | bin _ e e' _ _ ih1 ih2 =>
    intro hp
    rw [Sh.evalM, Sh.evalM, moved_to hσ p e, e', ih1 hp.bin.2.1, ih2 hp.bin.2.2]
  | turn ho e e' h1 h2 h3 =>
    rename_i o x y z b
    intro hp
    obtain ⟨p0, hxy, _⟩ := hp.bin
    obtain ⟨p1, _, _⟩ := hxy.bin
    rw [Sh.evalM, Sh.evalM, Sh.evalM, Sh.evalM, moved_to hσ p e, moved_to hσ p e', evalM_seg hσ p _ _ _ h1, evalM_seg hσ p _ _ _ h2,
      evalM_seg hσ p _ _ _ h3, p0, p1]
    simp only [Option.getD_none]
    cases o <;> first | exact absurd rfl ho | (simp only [BinTree.BinOp.eval, Bool.or_assoc, Bool.and_assoc]; rfl)

/-- The state of one operand: kept if it has no value, decided otherwise. -/
theorem part_iff {d d' : List SV} {x : Sh} {b b' : Nat} (hs : SegTo σ b b' x.size) {i : Nat} (h1 : b ≤ i) (h2 : i < b + x.size)
    (g : BinTree.K x b p = none → Inv d p x b ∧ Inv d' (moved σ p) x b')
    (g' : BinTree.K x b p ≠ none → d[i]? ≠ some .unknown ∧ d'[σ i]? ≠ some .unknown) :
    d[i]? = some .unknown ↔ d'[σ i]? = some .unknown := by
  by_cases hk : BinTree.K x b p = none
  · exact inv_at hσ hs (g hk).1 (g hk).2 h1 h2
  · exact iff_of_false (g' hk).1 (g' hk).2

theorem Turned.inv {s s' : Sh} {b : Nat} {d d' : List SV} (h : Turned σ s s' b) : AtomsOnly p s b → Inv d p s b → Inv d' (moved σ p) s' b →
    ∀ i, IsAtom s b i → (d[i]? = some .unknown ↔ d'[σ i]? = some .unknown) := by
  induction h with
  | same hs => exact fun _ g g' i hi => inv_at hσ hs g g' (isAtom_range hi).1 (isAtom_range hi).2
  | not e ht ih =>
    rename_i a a' b
    intro hp g g' i hi
    have hT : Turned σ (.un .not a) (.un .not a') b := .not e ht
    have hK := hT.K hσ p hp
    have r := isAtom_range hi
    have r' := isAtom_range (hT.atom i hi)
    by_cases hk : BinTree.K (.un .not a) b p = none
    · have g2 := g.2; have g2' := g'.2
      rw [if_pos hk] at g2
      rw [if_pos (by rw [hK]; exact hk)] at g2'
      exact ih hp.not.2 g2 g2' i hi
    · exact iff_of_false (Inv.ne g hk r.1 r.2) (Inv.ne g' (by rw [hK]; exact hk) r'.1 r'.2)
  | bin ho e e' ht1 ht2 ih1 ih2 =>
    rename_i o a a' c c' b
    intro hp g g' i hi
    have hT : Turned σ (.bin o a c) (.bin o a' c') b := .bin ho e e' ht1 ht2
    have hK := hT.K hσ p hp
    have r := isAtom_range hi
    have r' := isAtom_range (hT.atom i hi)
    by_cases hk : BinTree.K (.bin o a c) b p = none
    · have g2 := g.2; have g2' := g'.2
      rw [if_pos (Or.inl hk)] at g2
      rw [if_pos (Or.inl (by rw [hK]; exact hk)), e'] at g2'
      rcases hi with hi | hi
      · exact ih1 hp.bin.2.1 g2.1 g2'.1 i hi
      · exact ih2 hp.bin.2.2 g2.2 g2'.2 i hi
    · exact iff_of_false (Inv.ne g hk r.1 r.2) (Inv.ne g' (by rw [hK]; exact hk) r'.1 r'.2)
  | turn ho e e' h1 h2 h3 =>
    rename_i o x y z b
    intro hp g g' i hi
    have hT : Turned σ (.bin o (.bin o x y) z) (.bin o x (.bin o y z)) b := .turn ho e e' h1 h2 h3
    have hK := hT.K hσ p hp
    have r := isAtom_range hi
    have r' := isAtom_range (hT.atom i hi)
    by_cases hk : BinTree.K (.bin o (.bin o x y) z) b p = none
    · obtain ⟨p0, hxy, _⟩ := hp.bin
      obtain ⟨p1, _, _⟩ := hxy.bin
      have g2 := g.2; have g2' := g'.2
      rw [if_pos (Or.inl hk)] at g2
      rw [if_pos (Or.inl (by rw [hK]; exact hk))] at g2'
      obtain ⟨gxy, gz⟩ := g2
      obtain ⟨gx', gyz'⟩ := g2'
      have kxy : BinTree.K (.bin o x y) (b + 1) p = kBin o (BinTree.K x (b + 1 + 1) p) (BinTree.K y (b + 1 + 1 + x.size) p) := by
        rw [BinTree.K, p1, Option.none_or]
      have kyz : BinTree.K (.bin o y z) (b + 1 + x.size) (moved σ p) =
          kBin o (BinTree.K y (b + 1 + 1 + x.size) p) (BinTree.K z (b + 1 + (x.size + y.size + 1)) p) := by
        rw [BinTree.K, moved_to hσ p e', p1, Option.none_or, K_seg hσ p _ _ _ h2, K_seg hσ p _ _ _ h3]
      have hk' : kBin o (kBin o (BinTree.K x (b + 1 + 1) p) (BinTree.K y (b + 1 + 1 + x.size) p)) (BinTree.K z (b + 1 + (x.size + y.size + 1)) p) = none := by
        have := hk
        rw [BinTree.K, p0, Option.none_or, kxy] at this
        exact this
      obtain ⟨o1, o2, o3⟩ := kBin_open ho hk'
      rcases hi with (hi | hi) | hi
      · have rx := isAtom_range hi
        have rx' := isAtom_range (isAtom_at h1 hi)
        refine part_iff hσ p h1 rx.1 rx.2 (fun hx => ?_) (fun hx => ⟨?_, ?_⟩)
        · have gg := gxy.2
          rw [if_pos (Or.inl (by rw [kxy]; exact o1 hx))] at gg
          exact ⟨gg.1, gx'⟩
        · by_cases hxy0 : BinTree.K (.bin o x y) (b + 1) p = none
          · have gg := gxy.2
            rw [if_pos (Or.inl hxy0)] at gg
            exact Inv.ne gg.1 hx rx.1 rx.2
          · exact Inv.ne gxy hxy0 (by omega) (by simp only [Sh.size]; omega)
        · exact Inv.ne gx' (by rw [K_seg hσ p _ _ _ h1]; exact hx) rx'.1 rx'.2
      · have rx := isAtom_range hi
        have rx' := isAtom_range (isAtom_at h2 hi)
        refine part_iff hσ p h2 rx.1 rx.2 (fun hx => ?_) (fun hx => ⟨?_, ?_⟩)
        · have gg := gxy.2
          rw [if_pos (Or.inl (by rw [kxy]; exact (o2 hx).1))] at gg
          have gg' := gyz'.2
          rw [if_pos (Or.inl (by rw [kyz]; exact (o2 hx).2))] at gg'
          exact ⟨gg.2, gg'.1⟩
        · by_cases hxy0 : BinTree.K (.bin o x y) (b + 1) p = none
          · have gg := gxy.2
            rw [if_pos (Or.inl hxy0)] at gg
            exact Inv.ne gg.2 hx rx.1 rx.2
          · exact Inv.ne gxy hxy0 (by omega) (by simp only [Sh.size]; omega)
        · by_cases hyz0 : BinTree.K (.bin o y z) (b + 1 + x.size) (moved σ p) = none
          · have gg' := gyz'.2
            rw [if_pos (Or.inl hyz0)] at gg'
            exact Inv.ne gg'.1 (by rw [K_seg hσ p _ _ _ h2]; exact hx) rx'.1 rx'.2
          · exact Inv.ne gyz' hyz0 (by omega) (by simp only [Sh.size]; omega)
      · have rx := isAtom_range hi
        have rx' := isAtom_range (isAtom_at h3 hi)
        simp only [Sh.size] at rx
        refine part_iff hσ p h3 rx.1 rx.2 (fun hx => ?_) (fun hx => ⟨?_, ?_⟩)
        · have gg' := gyz'.2
          rw [if_pos (Or.inl (by rw [kyz]; exact o3 hx))] at gg'
          exact ⟨gz, gg'.2⟩
        · exact Inv.ne gz hx rx.1 rx.2
        · by_cases hyz0 : BinTree.K (.bin o y z) (b + 1 + x.size) (moved σ p) = none
          · have gg' := gyz'.2
            rw [if_pos (Or.inl hyz0)] at gg'
            exact Inv.ne gg'.2 (by rw [K_seg hσ p _ _ _ h3]; exact hx) rx'.1 rx'.2
          · exact Inv.ne gyz' hyz0 (by omega) (by simp only [Sh.size]; omega)
    · exact iff_of_false (Inv.ne g hk r.1 r.2) (Inv.ne g' (by rw [hK]; exact hk) r'.1 r'.2)

theorem Turned.like {s s' : Sh} {b : Nat} (h : Turned σ s s' b) : TreesLike σ s b s' b :=
  ⟨h.atom, h.loop, fun p hp => by rw [h.K hσ p hp], fun p _ _ hp g g' => h.inv hσ p hp g g'⟩

end

/-! ### The transformer -/

/-- In step from an active bucket `b` on, over `n` buckets. -/
def InStep (σ : Nat → Nat) (b n : Nat) (f f' : T E → Res (T E)) : Prop :=
  ∀ t t', Enter σ b b t t' → Abreast (Handled σ (b + n) (b + n)) (f t) (f' t')

/-- What two parts of the transformer do, for a tree and its rotation. -/
def Turns (s s' : Sh) (f f' : T E → Res (T E)) : Prop :=
  ∀ b, ∃ σ : Nat → Nat, (∀ x y, σ x = σ y → x = y) ∧ (∀ i, i < b ∨ b + s.size ≤ i → σ i = i) ∧ Turned σ s s' b ∧ InStep σ b s.size f f'

/-- One that does not depend on the buckets. -/
def Roams (n : Nat) (f : T E → Res (T E)) : Prop := ∀ σ : Nat → Nat, (∀ x y, σ x = σ y → x = y) → Moves σ n f

theorem Roams.turns {s : Sh} {f : T E → Res (T E)} (h : Roams s.size f) : Turns s s f f := fun b =>
  ⟨id, fun _ _ h => h, fun _ _ => rfl, .same (fun _ _ => rfl), fun t t' ht => h id (fun _ _ h => h) b b t t' ht (fun _ _ => rfl)⟩

theorem not_turns {a a' : Sh} {f f' : T E → Res (T E)} (h : Turns a a' f f') : Turns (.un .not a) (.un .not a') (tNot f) (tNot f') := by
  intro b
  obtain ⟨σ, hσ, ho, ht, hs⟩ := h (b + 1)
  refine ⟨σ, hσ, fun i hi => ho i (by simp only [Sh.size] at hi; omega), .not (ho b (by omega)) ht, fun t t' he => ?_⟩
  simp only [tNot]
  rw [he.active, he.active']
  refine (modNode_renamed he (by omega) (by omega) _ _).bind (fun u u' _ _ hu => ?_)
  have hb := newBucket_renamed hu
  refine (modNode_renamed hb (by omega) (by omega) _ _).bind (fun w w' _ _ hw => ?_)
  have := hs _ _ hw
  rw [Sh.size, show b + (a.size + 1) = b + 1 + a.size by omega]
  exact this

theorem bin_inStep {ty : NodeType} {b n m : Nat} {f f' g g' : T E → Res (T E)} (hf : InStep σ (b + 1) n f f')
    (hg : InStep σ (b + 1 + n) m g g') : InStep σ b (n + m + 1) (tBin ty f g) (tBin ty f' g') := by
  intro t t' h
  simp only [tBin]
  rw [h.active, h.active']
  refine (modNode_renamed h (by omega) (by omega) _ _).bind (fun u u' _ _ hu => ?_)
  have hb := newBucket_renamed hu
  refine (modNode_renamed hb (by omega) (by omega) _ _).bind (fun w w' _ _ hw => ?_)
  refine (hf _ _ hw).bind (fun d d' _ _ hd => ?_)
  obtain ⟨Q, Q', hd⟩ := hd
  have hd' : Renamed σ b b _ _ { d with active := b } { d' with active := b } :=
    { hd with active := rfl, active' := rfl, lt := by omega, lt' := by omega }
  refine (modNode_renamed (newBucket_renamed hd') (by omega) (by omega) _ _).bind (fun x x' _ _ hx => ?_)
  have := hg _ _ hx
  rw [show b + (n + m + 1) = b + 1 + n + m by omega]
  exact this

theorem Roams.inStep {n : Nat} {f : T E → Res (T E)} (h : Roams n f) (hσ : ∀ x y, σ x = σ y → x = y) {b : Nat} (hs : SegTo σ b b n) :
    InStep σ b n f f := fun t t' ht => h σ hσ b b t t' ht hs

theorem left_turns {o : BinOp} (hno : o ≠ .neor) {ty : NodeType} {a a' c : Sh} {f f' g : T E → Res (T E)} (h : Turns a a' f f') (hg : Roams c.size g) :
    Turns (.bin o a c) (.bin o a' c) (tBin ty f g) (tBin ty f' g) := by
  intro b
  obtain ⟨σ, hσ, ho, ht, hs⟩ := h (b + 1)
  have hc : SegTo σ (b + 1 + a.size) (b + 1 + a.size) c.size := fun j _ => ho _ (by omega)
  exact ⟨σ, hσ, fun i hi => ho i (by simp only [Sh.size] at hi; omega), .bin hno (ho b (by omega)) ht.size ht (.same hc), bin_inStep hs (hg.inStep hσ hc)⟩

theorem right_turns {o : BinOp} (hno : o ≠ .neor) {ty : NodeType} {a c c' : Sh} {f g g' : T E → Res (T E)} (hf : Roams a.size f) (h : Turns c c' g g') :
    Turns (.bin o a c) (.bin o a c') (tBin ty f g) (tBin ty f g') := by
  intro b
  obtain ⟨σ, hσ, ho, ht, hs⟩ := h (b + 1 + a.size)
  have ha : SegTo σ (b + 1) (b + 1) a.size := fun j _ => ho _ (by omega)
  exact ⟨σ, hσ, fun i hi => ho i (by simp only [Sh.size] at hi; omega), .bin hno (ho b (by omega)) rfl (.same ha) ht, bin_inStep (hf.inStep hσ ha) hs⟩

theorem res_assoc {α β γ : Type} (x : Res α) (f : α → Res β) (g : β → Res γ) : ((x >>= f) >>= g) = (x >>= fun a => f a >>= g) := by
  cases x <;> rfl

/-- The positions after a rotation at `b` whose first part has `n` nodes. -/
def turnPos (b n i : Nat) : Nat := if i = b + 1 then b + 1 + n else if b + 2 ≤ i ∧ i < b + 2 + n then i - 1 else i

theorem turnPos_inj (b n x y : Nat) (h : turnPos b n x = turnPos b n y) : x = y := by
  unfold turnPos at h
  split at h <;> split at h <;> (try split at h) <;> (try split at h) <;> omega

/-- The rotation itself. -/
theorem turn_turns {o : BinOp} (hno : o ≠ .neor) {ty : NodeType} {x y z : Sh} {f g h : T E → Res (T E)} (hf : Roams x.size f) (hg : Roams y.size g)
    (hh : Roams z.size h) :
    Turns (.bin o (.bin o x y) z) (.bin o x (.bin o y z)) (tBin ty (tBin ty f g) h) (tBin ty f (tBin ty g h)) := by
  intro b
  have hσ := turnPos_inj b x.size
  have s0 : turnPos b x.size b = b := by rw [turnPos, if_neg (by omega), if_neg (by omega)]
  have s1 : turnPos b x.size (b + 1) = b + 1 + x.size := by simp [turnPos]
  have sx : SegTo (turnPos b x.size) (b + 1 + 1) (b + 1) x.size := fun j hj => by
    rw [turnPos, if_neg (by omega), if_pos (by omega)]; omega
  have sy : SegTo (turnPos b x.size) (b + 1 + 1 + x.size) (b + 1 + x.size + 1) y.size := fun j hj => by
    rw [turnPos, if_neg (by omega), if_neg (by omega)]; omega
  have sz : SegTo (turnPos b x.size) (b + 1 + (x.size + y.size + 1)) (b + 1 + x.size + 1 + y.size) z.size := fun j hj => by
    rw [turnPos, if_neg (by omega), if_neg (by omega)]; omega
  refine ⟨turnPos b x.size, hσ, fun i hi => ?_, .turn hno s0 s1 sx sy sz, fun t t' he => ?_⟩
  · simp only [Sh.size] at hi
    rw [turnPos, if_neg (by omega), if_neg (by omega)]
  · simp only [tBin, setTy, setLeft, setRight]
    rw [he.active, he.active']
    refine (modNode_renamed he (by omega) (by omega) _ _).bind (fun u u' _ _ hu => ?_)
    have hb := newBucket_renamed hu
    rw [hb.active, hb.active']
    simp only [res_assoc]
    refine (modNode_renamed hb (by omega) (by omega) _ _).bind (fun w w' _ _ hw => ?_)
    rw [hw.active]
    obtain ⟨w1, e1, hw1⟩ := modNode_left hw (i := b + 1) (by omega) (fun n => { n with ty := ty })
    rw [e1, Res.bind_ok]
    have hb1 := newBucket_left hw1
    rw [hb1.active]
    obtain ⟨w2, e2, hw2⟩ := modNode_left hb1 (i := b + 1) (by omega) (fun n => { n with left := b + 1 + 1 })
    rw [e2, Res.bind_ok]
    refine (hf _ hσ _ _ _ _ hw2 sx).bind (fun d d' _ _ hd => ?_)
    obtain ⟨Q, Q', hd⟩ := hd
    have hd' : Renamed (turnPos b x.size) (b + 1) b _ _ { d with active := b + 1 } { d' with active := b } :=
      { hd with active := rfl, active' := rfl, lt := by omega, lt' := by omega }
    have hb2 := newBucket_renamed hd'
    rw [hb2.active, hb2.active']
    refine (modNode_renamed hb2 (by omega) (by omega) _ _).bind (fun v v' _ _ hv => ?_)
    rw [hv.active']
    obtain ⟨v1, e3, hv1⟩ := modNode_right hv (i := b + 1 + x.size) (by omega) (fun n => { n with ty := ty })
    rw [e3, Res.bind_ok]
    have hb3 := newBucket_right hv1
    rw [hb3.active']
    obtain ⟨v2, e4, hv2⟩ := modNode_right hb3 (i := b + 1 + x.size) (by omega) (fun n => { n with left := b + 1 + x.size + 1 })
    rw [e4, Res.bind_ok]
    refine (hg _ hσ _ _ _ _ hv2 sy).bind (fun k k' _ _ hk => ?_)
    obtain ⟨R, R', hk⟩ := hk
    have hk' : Renamed (turnPos b x.size) b (b + 1 + x.size) _ _ { k with active := b } { k' with active := b + 1 + x.size } :=
      { hk with active := rfl, active' := rfl, lt := by omega, lt' := by omega }
    have hb4 := newBucket_renamed hk'
    refine (modNode_renamed hb4 (by omega) (by omega) _ _).bind (fun q q' _ _ hq => ?_)
    have hz : SegTo (turnPos b x.size) (b + 1 + 1 + x.size + y.size) (b + 1 + x.size + 1 + y.size) z.size := by
      rw [show b + 1 + 1 + x.size + y.size = b + 1 + (x.size + y.size + 1) by omega]; exact sz
    have := hh _ hσ _ _ _ _ hq hz
    simp only [Sh.size]
    rw [show b + 1 + 1 + x.size + y.size + z.size = b + (x.size + y.size + 1 + z.size + 1) by omega,
      show b + 1 + x.size + 1 + y.size + z.size = b + (x.size + y.size + 1 + z.size + 1) by omega] at this
    exact this

/-! ### Expressions -/

def connOp : Bool → BinOp
  | true => .or
  | false => .and

def connTy : Bool → NodeType
  | true => .or
  | false => .and

def tConn (C : Comp E) : Bool → Exprs E → T E → Res (T E)
  | true => tOr C
  | false => tAnd C

theorem connOp_ne (o : Bool) : connOp o ≠ .neor := by cases o <;> decide

theorem tOne_conn (C : Comp E) (o : Bool) (es : Exprs E) : tOne C (connE o es) = tConn C o es := by
  cases o
  · funext t; show tOne C (.and es) t = tAnd C es t; rw [tOne]
  · funext t; show tOne C (.or es) t = tOr C es t; rw [tOne]

theorem tConn_one (C : Comp E) (o : Bool) (e : Expr E) : tConn C o (.cons e .nil) = tOne C e := by
  cases o
  · funext t; show tAnd C (.cons e .nil) t = _; rw [tAnd]
  · funext t; show tOr C (.cons e .nil) t = _; rw [tOr]

theorem tConn_cons (C : Comp E) (o : Bool) (e e' : Expr E) (r : Exprs E) :
    tConn C o (.cons e (.cons e' r)) = tBin (connTy o) (tOne C e) (tConn C o (.cons e' r)) := by
  cases o
  · funext t; show tAnd C (.cons e (.cons e' r)) t = tBin .and (tOne C e) (tAnd C (.cons e' r)) t; rw [tAnd.eq_def]
  · funext t; show tOr C (.cons e (.cons e' r)) t = tBin .or (tOne C e) (tOr C (.cons e' r)) t; rw [tOr.eq_def]

theorem shape_conn (o : Bool) (es : Exprs E) : shape (connE o es) = shapes (connOp o) es := by cases o <;> rfl

theorem tOne_free (C : Comp E) (e : Expr E) : Roams (shape e).size (tOne C e) := fun _ hσ => tOne_moves hσ C e

theorem tConn_free (C : Comp E) (o : Bool) (es : Exprs E) : Roams (shapes (connOp o) es).size (tConn C o es) := fun _ hσ => by
  cases o
  · exact tAnd_moves hσ C es
  · exact tOr_moves hσ C es

theorem Regroups.cons {o : Bool} {es es' : Exprs E} (h : Regroups o es es') : ∃ e r e' r', es = .cons e r ∧ es' = .cons e' r' := by
  cases h <;> exact ⟨_, _, _, _, rfl, rfl⟩

mutual
  theorem regroup_turns (C : Comp E) : ∀ {e e' : Expr E}, Regroup e e' → Turns (shape e) (shape e') (tOne C e) (tOne C e')
    | _, _, .not h => by
      rw [tOne_not, tOne_not]
      exact not_turns (regroup_turns C h)
    | _, _, .conn h => by
      rw [tOne_conn, tOne_conn, shape_conn, shape_conn]
      exact regroups_turns C h

  theorem regroups_turns (C : Comp E) : ∀ {o : Bool} {es es' : Exprs E}, Regroups o es es' →
      Turns (shapes (connOp o) es) (shapes (connOp o) es') (tConn C o es) (tConn C o es')
    | o, _, _, @Regroups.head _ _ e e' .nil h => by
      rw [tConn_one, tConn_one]
      exact regroup_turns C h
    | o, _, _, @Regroups.head _ _ e e' (.cons y ys) h => by
      rw [tConn_cons, tConn_cons]
      exact left_turns (connOp_ne o) (regroup_turns C h) (tConn_free C o (.cons y ys))
    | o, _, _, @Regroups.tail _ _ e r r' h => by
      have ih := regroups_turns C h
      obtain ⟨x, xs, y, ys, rfl, rfl⟩ := h.cons
      rw [tConn_cons, tConn_cons]
      exact right_turns (connOp_ne o) (tOne_free C e) ih
    | o, _, _, @Regroups.single _ _ o' e r => by
      have h1 : tOne C (connE o' (.cons e .nil)) = tOne C e := by rw [tOne_conn, tConn_one]
      have h2 : shape (connE o' (.cons e .nil)) = shape e := by rw [shape_conn]; rfl
      have h3 : tConn C o (.cons (connE o' (.cons e .nil)) r) = tConn C o (.cons e r) := by
        cases r
        · rw [tConn_one, tConn_one, h1]
        · rw [tConn_cons, tConn_cons, h1]
      have h4 : shapes (connOp o) (.cons (connE o' (.cons e .nil)) r) = shapes (connOp o) (.cons e r) := by
        cases r
        · exact h2
        · rw [shapes, shapes, h2]
      rw [h3, h4]
      exact (tConn_free C o (.cons e r)).turns
    | o, _, _, @Regroups.last _ _ e r => by
      have h3 : tConn C o (.cons (connE o (.cons e r)) .nil) = tConn C o (.cons e r) := by rw [tConn_one, tOne_conn]
      have h4 : shapes (connOp o) (.cons (connE o (.cons e r)) .nil) = shapes (connOp o) (.cons e r) := by rw [shapes, shape_conn]
      rw [h3, h4]
      exact (tConn_free C o (.cons e r)).turns
    | o, _, _, @Regroups.turn _ _ x x' xs y ys => by
      rw [tConn_cons, tConn_cons, tConn_cons, tOne_conn, tOne_conn, tConn_cons, shapes, shapes, shapes, shape_conn, shape_conn, shapes]
      exact turn_turns (connOp_ne o) (tOne_free C x) (tConn_free C o (.cons x' xs)) (tConn_free C o (.cons y ys))
end

/-! ### Verdicts -/

theorem Regroup.notConst {e e' : Expr E} (h : Regroup e e') : NotConst e ∧ NotConst e' := by
  cases h with
  | not => exact ⟨by simp [NotConst], by simp [NotConst]⟩
  | conn => rename_i o _ _ _; cases o <;> exact ⟨by simp [NotConst, connE], by simp [NotConst, connE]⟩

theorem gen_one {x : Expr E} (hx : NotConst x) : genExprs [x] = [x] := by
  cases x <;> first | rfl | exact absurd rfl hx.1 | exact absurd rfl hx.2

theorem transform_turn {C : Comp E} (slot0 : Nat) {e e' : Expr E} (hs : InStep σ 0 (shape e).size (tOne C e) (tOne C e')) (hn : genExprs [e] = [e])
    (hn' : genExprs [e'] = [e']) :
    Abreast (fun df df' => df'.parse = df.parse.map (renExec σ) ∧ df'.numSlots = df.numSlots) (transform C slot0 [e]) (transform C slot0 [e']) := by
  rw [transform_cons C slot0 [e] hn, transform_cons C slot0 [e'] hn']
  simp only [tMerge]
  have h0 : Enter σ 0 0 (initT slot0 : T E) (initT slot0) :=
    ⟨rfl, emptyExec_ren.symm, rfl, rfl, rfl, rfl, rfl, rfl, rfl, by omega, by omega⟩
  refine Abreast.bind (P := fun r r' => Handled σ (0 + (shape e).size) (0 + (shape e).size) r.1 r'.1)
    ((hs _ _ h0).bind (fun a a' _ _ h => ?_)) (fun r r' _ _ h => ?_)
  · exact h
  obtain ⟨Q, Q', h⟩ := h
  exact ⟨by simp [h.root], h.slot⟩

theorem regroup_compiles (C : Comp E) (slot0 : Nat) {e e' : Expr E} (hr : Regroup e e') :
    (∃ df, transform C slot0 [e] = .ok df) ↔ ∃ df', transform C slot0 [e'] = .ok df' := by
  obtain ⟨σ, hσ, _, ht, hs⟩ := regroup_turns C hr 0
  have h := transform_turn slot0 hs (gen_one hr.notConst.1) (gen_one hr.notConst.2)
  cases hx : transform C slot0 [e] <;> cases hy : transform C slot0 [e'] <;> rw [hx, hy] at h <;>
    first | exact h.elim | (exact ⟨fun _ => ⟨_, rfl⟩, fun _ => ⟨_, rfl⟩⟩) | (constructor <;> (rintro ⟨_, h⟩; cases h))

theorem regroup_run (X : Fns E) (C : Comp E) (slot0 : Nat) {e e' : Expr E} (hr : Regroup e e') {df df' : Def E} (h : transform C slot0 [e] = .ok df)
    (h' : transform C slot0 [e'] = .ok df') {d : D} {data : List Nat} (hb : Begins data d) {m m' : M} (hm : Ready df m) (hm' : Ready df' m') :
    (∃ b k k', run X df m data = .ok (some b, k) ∧ run X df' m' data = .ok (some b, k') ∧ (m.coll = m'.coll → k.coll = k'.coll)) ∨
      (run X df m data = .panic ∧ run X df' m' data = .panic) := by
  obtain ⟨σ, hσ, _, ht, hs⟩ := regroup_turns C hr 0
  have hd := transform_turn slot0 hs (gen_one hr.notConst.1) (gen_one hr.notConst.2)
  rw [h, h'] at hd
  obtain ⟨hd1, hd2⟩ := hd
  obtain ⟨node, hl, _⟩ := transform_laid C slot0 (gen_one hr.notConst.1) h
  obtain ⟨node', hl', _⟩ := transform_laid C slot0 (gen_one hr.notConst.2) h'
  have hnode : node' = renExec σ node := by
    have := hl'.parse
    rw [hd1, hl.parse] at this
    exact (Option.some.inj this).symm
  subst hnode
  rcases run_like hσ X (n := false) (ht.like hσ) (fun p hp => by rw [Bool.false_xor]; exact ht.evalM hσ p hp) hl hl' hd2 hb hm hm' with
    ⟨b, k, k', e1, e2, e3⟩ | h
  · exact Or.inl ⟨b, k, k', e1, by simpa using e2, e3⟩
  · exact Or.inr h

/-- A step: a regrouping, or from an expression to its normal form (C101). -/
inductive Law : Expr E → Expr E → Prop
  | regroup {e e'} : Regroup e e' → Law e e'
  | push {e} : NotConst e → NotConst (pushNot false e) → Law e (pushNot false e)

theorem Law.notConst {e e' : Expr E} (h : Law e e') : NotConst e ∧ NotConst e' := by
  cases h with
  | regroup h => exact h.notConst
  | push h h' => exact ⟨h, h'⟩

theorem law_compiles (C : Comp E) (slot0 : Nat) {e e' : Expr E} (h : Law e e') :
    (∃ df, transform C slot0 [e] = .ok df) ↔ ∃ df', transform C slot0 [e'] = .ok df' := by
  cases h with
  | regroup h => exact regroup_compiles C slot0 h
  | push => exact C101_compiles C slot0 false e

theorem law_run (X : Fns E) (C : Comp E) (slot0 : Nat) {e e' : Expr E} (hr : Law e e') {df df' : Def E} (h : transform C slot0 [e] = .ok df)
    (h' : transform C slot0 [e'] = .ok df') {d : D} {data : List Nat} (hb : Begins data d) {m m' : M} (hm : Ready df m) (hm' : Ready df' m') :
    (∃ b k k', run X df m data = .ok (some b, k) ∧ run X df' m' data = .ok (some b, k') ∧ (m.coll = m'.coll → k.coll = k'.coll)) ∨
      (run X df m data = .panic ∧ run X df' m' data = .panic) := by
  cases hr with
  | regroup hr => exact regroup_run X C slot0 hr h h' hb hm hm'
  | push hn hn' =>
    have := C101_push X C slot0 false hn hn' h h' hb hm hm'
    simpa only [Bool.false_xor] using this

/-- **C102.**  Expressions that differ by any number of regroupings and normal forms, in both directions, compile, or fail to compile, together. -/
theorem C102_compiles (C : Comp E) (slot0 : Nat) {e e' : Expr E} (hr : Chain Law e e') :
    (∃ df, transform C slot0 [e] = .ok df) ↔ ∃ df', transform C slot0 [e'] = .ok df' := by
  induction hr with
  | refl => exact Iff.rfl
  | to h _ ih => exact (law_compiles C slot0 h).trans ih
  | back h _ ih => exact (law_compiles C slot0 h).symm.trans ih

theorem run_same (X : Fns E) (C : Comp E) (slot0 : Nat) {e : Expr E} (hn : NotConst e) {df : Def E} (h : transform C slot0 [e] = .ok df) {d : D}
    {data : List Nat} (hb : Begins data d) {m m' : M} (hm : Ready df m) (hm' : Ready df m') :
    (∃ b k k', run X df m data = .ok (some b, k) ∧ run X df m' data = .ok (some b, k') ∧ (m.coll = m'.coll → k.coll = k'.coll)) ∨
      (run X df m data = .panic ∧ run X df m' data = .panic) := by
  obtain ⟨node, hl, _⟩ := transform_laid C slot0 (gen_one hn) h
  rcases run_document X hl hb hm with ⟨b, v, k, e1, e2, _, e4⟩ | ⟨e1, e2, _⟩
  · rcases run_document X hl hb hm' with ⟨b', v', k', f1, f2, _, f4⟩ | ⟨f1, _, _⟩
    · rw [e1] at f1; cases f1
      exact Or.inl ⟨b, k, k', e2, f2, fun hc => by rw [e4, f4, hc]⟩
    · rw [e1] at f1; cases f1
  · rcases run_document X hl hb hm' with ⟨b', v', k', f1, f2, _⟩ | ⟨_, f2, _⟩
    · rw [e1] at f1; cases f1
    · exact Or.inr ⟨e2, f2⟩

/-- **C102.**  On every document such expressions have the same verdict and set the collation flag alike; if one of the matchers crashes, so does the
other. -/
theorem C102_laws (X : Fns E) (C : Comp E) (slot0 : Nat) {e e' : Expr E} (hr : Chain Law e e') (hn : NotConst e) {df df' : Def E}
    (h : transform C slot0 [e] = .ok df) (h' : transform C slot0 [e'] = .ok df') {d : D} {data : List Nat} (hb : Begins data d) {m m' : M}
    (hm : Ready df m) (hm' : Ready df' m') :
    (∃ b k k', run X df m data = .ok (some b, k) ∧ run X df' m' data = .ok (some b, k') ∧ (m.coll = m'.coll → k.coll = k'.coll)) ∨
      (run X df m data = .panic ∧ run X df' m' data = .panic) := by
  have fresh : ∀ (df1 : Def E) (m : M), ∃ m1 : M, Ready df1 m1 ∧ m1.coll = m.coll := fun df1 m =>
    ⟨{ newMatcher df1 with coll := m.coll }, ⟨rfl, rfl⟩, rfl⟩
  induction hr generalizing df m with
  | refl =>
    rw [h] at h'; cases h'
    exact run_same X C slot0 hn h hb hm hm'
  | to hs _ ih =>
    obtain ⟨df1, h1⟩ := (law_compiles C slot0 hs).1 ⟨df, h⟩
    obtain ⟨m1, r1, c1⟩ := fresh df1 m
    rcases law_run X C slot0 hs h h1 hb hm r1 with ⟨b, k, k1, e1, e2, e3⟩ | ⟨e1, e2⟩
    · rcases ih hs.notConst.2 h1 h' r1 with ⟨b', k', k2, f1, f2, f3⟩ | ⟨f1, _⟩
      · rw [e2] at f1; cases f1
        exact Or.inl ⟨b, k, k2, e1, f2, fun hc => (e3 c1.symm).trans (f3 (c1.trans hc))⟩
      · rw [e2] at f1; cases f1
    · rcases ih hs.notConst.2 h1 h' r1 with ⟨b', k', k2, f1, f2, _⟩ | ⟨_, f2⟩
      · rw [e2] at f1; cases f1
      · exact Or.inr ⟨e1, f2⟩
  | back hs _ ih =>
    obtain ⟨df1, h1⟩ := (law_compiles C slot0 hs).2 ⟨df, h⟩
    obtain ⟨m1, r1, c1⟩ := fresh df1 m
    rcases law_run X C slot0 hs h1 h hb r1 hm with ⟨b, k1, k, e2, e1, e3⟩ | ⟨e2, e1⟩
    · rcases ih hs.notConst.1 h1 h' r1 with ⟨b', k', k2, f1, f2, f3⟩ | ⟨f1, _⟩
      · rw [e2] at f1; cases f1
        exact Or.inl ⟨b, k, k2, e1, f2, fun hc => (e3 c1).symm.trans (f3 (c1.trans hc))⟩
      · rw [e2] at f1; cases f1
    · rcases ih hs.notConst.1 h1 h' r1 with ⟨b', k', k2, f1, f2, _⟩ | ⟨_, f2⟩
      · rw [e2] at f1; cases f1
      · exact Or.inr ⟨e1, f2⟩

/-! ### Flat lists -/

/-- The operands of both. -/
def joinE : Exprs E → Exprs E → Exprs E
  | .nil, ys => ys
  | .cons x xs, ys => .cons x (joinE xs ys)

theorem joinE_nil : ∀ xs : Exprs E, joinE xs .nil = xs
  | .nil => rfl
  | .cons x xs => by rw [joinE, joinE_nil xs]

/-- A group among the operands can be dissolved. -/
theorem dissolve (o : Bool) : ∀ (x : Expr E) (xs ys : Exprs E), Chain (Regroups o) (.cons (connE o (.cons x xs)) ys) (joinE (.cons x xs) ys)
  | x, .nil, ys => .to .single .refl
  | x, .cons x' xs, .nil => by rw [joinE_nil]; exact .to .last .refl
  | x, .cons x' xs, .cons y ys => .to .turn (Chain.map (S := Regroups o) (f := fun r => Exprs.cons x r) (fun _ _ h => .tail h) (dissolve o x' xs (.cons y ys)))

/-- **C102.**  Anywhere among the operands of a disjunction (or conjunction), a group can be replaced by its operands. -/
theorem C102_flat (o : Bool) (zs : Exprs E) (x : Expr E) (xs ys : Exprs E) :
    Chain Law (connE o (joinE zs (.cons (connE o (.cons x xs)) ys))) (connE o (joinE zs (joinE (.cons x xs) ys))) := by
  have : ∀ zs : Exprs E, Chain (Regroups o) (joinE zs (.cons (connE o (.cons x xs)) ys)) (joinE zs (joinE (.cons x xs) ys)) := by
    intro zs
    induction zs using Exprs.rec (motive_1 := fun _ => True) with
    | nil => exact dissolve o x xs ys
    | cons e r _ ih => exact Chain.map (S := Regroups o) (f := fun r => Exprs.cons e r) (fun _ _ h => .tail h) ih
    | _ => trivial
  exact Chain.map (S := Law) (f := connE o) (fun _ _ h => .regroup (.conn h)) (this zs)

/-! ### Examples -/

/-- `(loop OR a = 1) OR NOT (a = 1)` against the flat disjunction, on `{"a":[{"a":1,"b":2},{"a":1,"b":1}]}`. -/
example : ∃ df df', transform demoComp 0 [.or (.cons (.or (.cons demoNested (.cons (.cmp .eq fieldA one) .nil))) (.cons (.not (.cmp .eq fieldA one)) .nil))] = .ok df ∧
    transform demoComp 0 [.or (.cons demoNested (.cons (.cmp .eq fieldA one) (.cons (.not (.cmp .eq fieldA one)) .nil)))] = .ok df' ∧
    ∃ b n n', run demoFns df (newMatcher df) textPairs = .ok (some b, n) ∧ run demoFns df' (newMatcher df') textPairs = .ok (some b, n') := by
  have hr := C102_flat (E := demoExt) true .nil demoNested (.cons (.cmp .eq fieldA one) .nil) (.cons (.not (.cmp .eq fieldA one)) .nil)
  simp only [joinE, connE] at hr
  obtain ⟨df, h⟩ := (C86_compiles demoComp 0
      [.or (.cons (.or (.cons demoNested (.cons (.cmp .eq fieldA one) .nil))) (.cons (.not (.cmp .eq fieldA one)) .nil))]).1.2 (by
    intro e he
    simp only [List.mem_cons, List.not_mem_nil, or_false] at he
    subst he
    have hc : Compiles demoComp none (.cmp .eq fieldA one) := by
      simp only [Compiles, OkParam, occs, fieldA, one, Visible]
      refine ⟨by simp, by simp, by decide⟩
    have hn : Compiles demoComp none (.not (.cmp .eq fieldA one)) := by rw [Compiles]; exact hc
    rw [Compiles, CompilesAll.eq_3, CompilesAll.eq_2]
    refine ⟨?_, hn⟩
    rw [Compiles, CompilesAll.eq_3, CompilesAll.eq_2]
    exact ⟨demoNested_compiles, hc⟩)
  obtain ⟨df', h'⟩ := (C102_compiles demoComp 0 hr).1 ⟨df, h⟩
  refine ⟨df, df', h, h', ?_⟩
  obtain ⟨b, n, e⟩ := C95_verdict demoFns demoComp 0 h (e := .or (.cons (.or (.cons demoNested (.cons (.cmp .eq fieldA one) .nil))) (.cons (.not (.cmp .eq fieldA one)) .nil))) (by
    intro e he
    simp only [List.mem_cons, List.not_mem_nil, or_false] at he
    subst he; simp [demoNested, SafeE, SafeEs, SafeParam, fieldA, fieldB, one]) (by simp) (by simp [NotConst]) docPairs_text (ready_new df)
  rcases C102_laws demoFns demoComp 0 hr (by simp [NotConst]) h h' docPairs_text (ready_new df) (ready_new df') with
    ⟨b', n', n2, e1, e2, _⟩ | ⟨e1, _⟩
  · exact ⟨b', n', n2, e1, e2⟩
  · rw [e] at e1; cases e1

/-- `NOT ((a AND b) AND c)` and `NOT a OR NOT b OR NOT c`, where `a`, `b` and `c` are loops. -/
example (a b c : Expr demoExt) (ha : pushNot true a = .not a) (hb : pushNot true b = .not b) (hc : pushNot true c = .not c) :
    Chain Law (.not (.and (.cons (.and (.cons a (.cons b .nil))) (.cons c .nil)))) (.or (.cons (.not a) (.cons (.not b) (.cons (.not c) .nil)))) := by
  have h := C102_flat true .nil (.not a) (.cons (.not b) .nil) (.cons (.not c) .nil)
  refine .to (.push (by simp [NotConst]) (by simp [NotConst, pushNot])) ?_
  have e : pushNot false (.not (.and (.cons (.and (.cons a (.cons b .nil))) (.cons c .nil)))) =
      .or (.cons (.or (.cons (.not a) (.cons (.not b) .nil))) (.cons (.not c) .nil)) := by
    simp [pushNot, pushNots, ha, hb, hc]
  rw [e]
  exact h

example : pushNot true demoNested = .not demoNested := rfl

end Verif.Transform
