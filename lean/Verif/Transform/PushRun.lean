import Verif.Transform.Push
import Verif.Transform.NegateRun

/-!
# The normal form has the same verdict

C101: for everything that compiles, the definition of an expression and that of its normal form `pushNot` have the same verdict on every document.
As in `Verif.Transform.NegateRun` the matcher is followed on both definitions, whose nodes differ in the numbers of buckets (`Verif.Transform.Push`).
-/

namespace Verif.Transform
open Verif.Token Verif.FastVal Verif.Match Verif.Expr
open Verif.BinTree (Tree State Sh SV K Inv Shaped Fresh Dead)

variable {E : Ext} {σ : Nat → Nat}

/-! ### Decisions at other positions -/

open Classical in
/-- The decisions for the other positions. -/
noncomputable def moved (σ : Nat → Nat) (p : Nat → Option Bool) (j : Nat) : Option Bool := if h : ∃ i, σ i = j then p h.choose else none

theorem moved_at (hσ : ∀ x y, σ x = σ y → x = y) (p : Nat → Option Bool) (i : Nat) : moved σ p (σ i) = p i := by
  have h : ∃ k, σ k = σ i := ⟨i, rfl⟩
  rw [moved, dif_pos h, hσ _ _ h.choose_spec]

theorem moved_off (p : Nat → Option Bool) {j : Nat} (h : ∀ i, σ i ≠ j) : moved σ p j = none := by
  rw [moved, dif_neg (fun ⟨i, hi⟩ => h i hi)]

theorem moved_none : moved σ (fun _ => none) = fun _ => none := by funext j; rw [moved]; split <;> rfl

theorem moved_also (hσ : ∀ x y, σ x = σ y → x = y) (p : Nat → Option Bool) (i : Nat) (x : Bool) :
    moved σ (also p [(i, x)]) = also (moved σ p) [(σ i, x)] := by
  funext j
  by_cases h : ∃ k, σ k = j
  · obtain ⟨k, rfl⟩ := h
    rw [moved_at hσ]
    simp only [also, Marks.get, List.lookup, moved_at hσ]
    by_cases hk : k = i
    · simp [hk]
    · have h1 : (k == i) = false := by simpa using hk
      have h2 : (σ k == σ i) = false := by simpa using fun e => hk (hσ _ _ e)
      rw [h1, h2]
  · have hj : ∀ k, σ k ≠ j := fun k hk => h ⟨k, hk⟩
    have h2 : (j == σ i) = false := by simpa using fun e => hj i (Eq.symm e)
    rw [moved_off _ hj]
    simp only [also, Marks.get, List.lookup, moved_off p hj, h2]
    rfl

section
variable (hσ : ∀ x y, σ x = σ y → x = y) (p : Nat → Option Bool)
include hσ

theorem moved_seg {b b' n : Nat} (h : SegTo σ b b' n) {j : Nat} (hj : j < n) : moved σ p (b' + j) = p (b + j) := by
  rw [← h j hj, moved_at hσ]

theorem K_seg : ∀ (s : Sh) (b b' : Nat), SegTo σ b b' s.size → K s b' (moved σ p) = K s b p
  | .leaf, b, b', h => moved_seg hσ p h (j := 0) (by simp [Sh.size])
  | .un o a, b, b', h => by
    rw [K, K, K_seg a (b + 1) (b' + 1) (h.sub 1 _ (by simp only [Sh.size]; omega)), show moved σ p b' = p b from moved_seg hσ p h (j := 0) (by simp [Sh.size])]
  | .bin o a c, b, b', h => by
    have hc := h.sub (1 + a.size) c.size (by simp only [Sh.size]; omega)
    rw [← Nat.add_assoc, ← Nat.add_assoc] at hc
    rw [K, K, K_seg a (b + 1) (b' + 1) (h.sub 1 _ (by simp only [Sh.size]; omega)), K_seg c _ _ hc,
      show moved σ p b' = p b from moved_seg hσ p h (j := 0) (by simp [Sh.size])]

theorem evalM_seg : ∀ (s : Sh) (b b' : Nat), SegTo σ b b' s.size → s.evalM b' (moved σ p) = s.evalM b p
  | .leaf, b, b', h => by rw [Sh.evalM, Sh.evalM, show moved σ p b' = p b from moved_seg hσ p h (j := 0) (by simp [Sh.size])]
  | .un o a, b, b', h => by
    rw [Sh.evalM, Sh.evalM, evalM_seg a (b + 1) (b' + 1) (h.sub 1 _ (by simp only [Sh.size]; omega)),
      show moved σ p b' = p b from moved_seg hσ p h (j := 0) (by simp [Sh.size])]
  | .bin o a c, b, b', h => by
    have hc := h.sub (1 + a.size) c.size (by simp only [Sh.size]; omega)
    rw [← Nat.add_assoc, ← Nat.add_assoc] at hc
    rw [Sh.evalM, Sh.evalM, evalM_seg a (b + 1) (b' + 1) (h.sub 1 _ (by simp only [Sh.size]; omega)), evalM_seg c _ _ hc,
      show moved σ p b' = p b from moved_seg hσ p h (j := 0) (by simp [Sh.size])]

/-- A tree, or its negation. -/
def notIf (n : Bool) (s : Sh) : Sh := if n then .un .not s else s

/-- A value, or its negation. -/
def flipIf (n : Bool) (x : Option Bool) : Option Bool := if n then x.map (!·) else x

omit hσ in
theorem flipIf_none (n : Bool) (x : Option Bool) : flipIf n x = none ↔ x = none := by cases n <;> cases x <;> simp [flipIf]

theorem K_lit {n : Bool} {s : Sh} {b b' : Nat} (h : LitAt σ n s.size b b') : K (notIf n s) b' (moved σ p) = flipIf n (K s b p) := by
  cases n with
  | false => exact K_seg hσ p s b b' h
  | true =>
    show K (.un .not s) b' _ = _
    rw [K, moved_off p h.1, K_seg hσ p s b (b' + 1) h.2]
    cases K s b p <;> rfl

theorem evalM_lit {n : Bool} {s : Sh} {b b' : Nat} (h : LitAt σ n s.size b b') : (notIf n s).evalM b' (moved σ p) = (n ^^ s.evalM b p) := by
  cases n with
  | false => rw [Bool.false_xor]; exact evalM_seg hσ p s b b' h
  | true =>
    show Sh.evalM (.un .not s) b' _ = _
    rw [Sh.evalM, moved_off p h.1, evalM_seg hσ p s b (b' + 1) h.2, Bool.true_xor]
    rfl

/-- Only atoms are decided. -/
def AtomsOnly (p : Nat → Option Bool) (s : Sh) (b : Nat) : Prop := ∀ j, b ≤ j → j < b + s.size → p j ≠ none → IsAtom s b j

omit hσ in
theorem AtomsOnly.not {a : Sh} {b : Nat} (h : AtomsOnly p (.un .not a) b) : p b = none ∧ AtomsOnly p a (b + 1) := by
  refine ⟨?_, fun j h1 h2 h3 => h j (by omega) (by simp only [Sh.size]; omega) h3⟩
  cases hb : p b with
  | none => rfl
  | some x =>
    have := isAtom_range (s := a) (h b (Nat.le_refl _) (by simp [Sh.size]) (by simp [hb]))
    omega

omit hσ in
theorem AtomsOnly.bin {o} {a c : Sh} {b : Nat} (h : AtomsOnly p (.bin o a c) b) :
    p b = none ∧ AtomsOnly p a (b + 1) ∧ AtomsOnly p c (b + 1 + a.size) := by
  refine ⟨?_, fun j h1 h2 h3 => ?_, fun j h1 h2 h3 => ?_⟩
  · cases hb : p b with
    | none => rfl
    | some x =>
      rcases h b (Nat.le_refl _) (by simp [Sh.size]) (by simp [hb]) with g | g
      · have := isAtom_range g; omega
      · have := isAtom_range g; omega
  · rcases h j (by omega) (by simp only [Sh.size]; omega) h3 with g | g
    · exact g
    · have := isAtom_range g; omega
  · rcases h j (by omega) (by simp only [Sh.size]; omega) h3 with g | g
    · have := isAtom_range g; omega
    · exact g

omit hσ in
theorem kBin_other (n : Bool) {o : BinTree.BinOp} (ho : o ≠ .neor) (x y : Option Bool) :
    BinTree.kBin (otherOp n o) (flipIf n x) (flipIf n y) = flipIf n (BinTree.kBin o x y) := by
  cases n <;> cases o <;> first | exact absurd rfl ho | (rcases x with _ | _ | _ <;> rcases y with _ | _ | _ <;> rfl)

theorem K_push : ∀ (s : Sh) (n : Bool) (b b' : Nat), s.NeorFree → FitsAt σ n s b b' → AtomsOnly p s b →
    K (pushSh n s) b' (moved σ p) = flipIf n (K s b p)
  | .leaf, n, b, b', _, h, _ => K_lit hσ p (s := .leaf) h
  | .un .not a, n, b, b', hf, h, hp => by
    obtain ⟨h0, ha⟩ := hp.not
    rw [pushSh, K_push a (!n) (b + 1) b' hf h ha, K, h0]
    cases n <;> cases K a (b + 1) p <;> simp [flipIf, BinTree.kUn]
  | .un .loop a, n, b, b', _, h, _ => K_lit hσ p (s := .un .loop a) h
  | .bin o a c, n, b, b', hf, h, hp => by
    obtain ⟨h0, ha, hc⟩ := hp.bin
    obtain ⟨f0, fa, fc⟩ := h
    rw [pushSh, K, moved_off p f0, K_push a n _ _ hf.2.1 fa ha, K_push c n _ _ hf.2.2 fc hc, Option.none_or, kBin_other n hf.1, K, h0, Option.none_or]

theorem evalM_push : ∀ (s : Sh) (n : Bool) (b b' : Nat), s.NeorFree → FitsAt σ n s b b' → AtomsOnly p s b →
    (pushSh n s).evalM b' (moved σ p) = (n ^^ s.evalM b p)
  | .leaf, n, b, b', _, h, _ => evalM_lit hσ p (s := .leaf) h
  | .un .not a, n, b, b', hf, h, hp => by
    obtain ⟨h0, ha⟩ := hp.not
    rw [pushSh, evalM_push a (!n) (b + 1) b' hf h ha, Sh.evalM, h0]
    cases n <;> cases a.evalM (b + 1) p <;> rfl
  | .un .loop a, n, b, b', _, h, _ => evalM_lit hσ p (s := .un .loop a) h
  | .bin o a c, n, b, b', hf, h, hp => by
    obtain ⟨h0, ha, hc⟩ := hp.bin
    obtain ⟨f0, fa, fc⟩ := h
    rw [pushSh, Sh.evalM, moved_off p f0, evalM_push a n _ _ hf.2.1 fa ha, evalM_push c n _ _ hf.2.2 fc hc, Sh.evalM, h0]
    have ho := hf.1
    cases n <;> cases o <;> first | exact absurd rfl ho | (cases a.evalM (b + 1) p <;> cases c.evalM (b + 1 + a.size) p <;> rfl)

end

theorem isAtom_seg : ∀ (s : Sh) (b b' j : Nat), IsAtom s b (b + j) → IsAtom s b' (b' + j)
  | .leaf, b, b', j, h => by simp only [IsAtom] at h ⊢; omega
  | .un .loop a, b, b', j, h => by simp only [IsAtom] at h ⊢; omega
  | .un .not a, b, b', j, h => by
    have := (isAtom_range (s := a) h).1
    obtain ⟨k, rfl⟩ : ∃ k, j = 1 + k := ⟨j - 1, by omega⟩
    rw [← Nat.add_assoc]
    exact isAtom_seg a (b + 1) (b' + 1) k (by rw [Nat.add_assoc]; exact h)
  | .bin o a c, b, b', j, h => by
    rcases h with h | h
    · have := (isAtom_range h).1
      obtain ⟨k, rfl⟩ : ∃ k, j = 1 + k := ⟨j - 1, by omega⟩
      exact Or.inl (by rw [← Nat.add_assoc]; exact isAtom_seg a (b + 1) (b' + 1) k (by rw [Nat.add_assoc]; exact h))
    · have := (isAtom_range h).1
      obtain ⟨k, rfl⟩ : ∃ k, j = 1 + a.size + k := ⟨j - 1 - a.size, by omega⟩
      refine Or.inr ?_
      rw [← Nat.add_assoc, ← Nat.add_assoc]
      exact isAtom_seg c _ _ k (by rw [← Nat.add_assoc, ← Nat.add_assoc] at h; exact h)

theorem loopAt_seg {x : Sh} : ∀ (s : Sh) (b b' j : Nat), LoopAt s b (b + j) x → LoopAt s b' (b' + j) x ∧ j + x.size ≤ s.size
  | .leaf, b, b', j, h => h.elim
  | .un .loop a, b, b', j, h => by
    obtain ⟨h1, rfl⟩ := h
    exact ⟨⟨by omega, rfl⟩, by simp only [Sh.size]; omega⟩
  | .un .not a, b, b', j, h => by
    have := h.sub.2.2
    have := (isAtom_range (s := a) h.sub.2.1).1
    obtain ⟨k, rfl⟩ : ∃ k, j = 1 + k := ⟨j - 1, by omega⟩
    have := loopAt_seg a (b + 1) (b' + 1) k (by rw [Nat.add_assoc]; exact h)
    exact ⟨by rw [← Nat.add_assoc]; exact this.1, by simp only [Sh.size]; omega⟩
  | .bin o a c, b, b', j, h => by
    rcases h with h | h
    · have := (isAtom_range h.sub.2.1).1
      obtain ⟨k, rfl⟩ : ∃ k, j = 1 + k := ⟨j - 1, by omega⟩
      have := loopAt_seg a (b + 1) (b' + 1) k (by rw [Nat.add_assoc]; exact h)
      exact ⟨Or.inl (by rw [← Nat.add_assoc]; exact this.1), by simp only [Sh.size]; omega⟩
    · have := (isAtom_range h.sub.2.1).1
      obtain ⟨k, rfl⟩ : ∃ k, j = 1 + a.size + k := ⟨j - 1 - a.size, by omega⟩
      have := loopAt_seg c (b + 1 + a.size) (b' + 1 + a.size) k (by rw [← Nat.add_assoc, ← Nat.add_assoc] at h; exact h)
      exact ⟨Or.inr (by rw [← Nat.add_assoc, ← Nat.add_assoc]; exact this.1), by simp only [Sh.size]; omega⟩

theorem isAtom_at {s : Sh} {b b' i : Nat} (hs : SegTo σ b b' s.size) (h : IsAtom s b i) : IsAtom s b' (σ i) := by
  have r := isAtom_range h
  obtain ⟨j, rfl⟩ : ∃ j, i = b + j := ⟨i - b, by omega⟩
  rw [hs j (by omega)]
  exact isAtom_seg s b b' j h

theorem loopAt_at {s x : Sh} {b b' i : Nat} (hs : SegTo σ b b' s.size) (h : LoopAt s b i x) : LoopAt s b' (σ i) x ∧ SegTo σ i (σ i) x.size := by
  have r := isAtom_range h.sub.2.1
  obtain ⟨j, rfl⟩ : ∃ j, i = b + j := ⟨i - b, by omega⟩
  obtain ⟨g1, g2⟩ := loopAt_seg s b b' j h
  rw [hs j (by omega)]
  exact ⟨g1, hs.sub j _ g2⟩

theorem isAtom_lit {n : Bool} {s : Sh} {b b' i : Nat} (hl : LitAt σ n s.size b b') (h : IsAtom s b i) : IsAtom (notIf n s) b' (σ i) := by
  cases n with
  | false => exact isAtom_at hl h
  | true => exact isAtom_at (s := s) hl.2 h

theorem loopAt_lit {n : Bool} {s x : Sh} {b b' i : Nat} (hl : LitAt σ n s.size b b') (h : LoopAt s b i x) :
    LoopAt (notIf n s) b' (σ i) x ∧ SegTo σ i (σ i) x.size := by
  cases n with
  | false => exact loopAt_at hl h
  | true => exact loopAt_at (s := s) hl.2 h

theorem isAtom_push : ∀ (s : Sh) (n : Bool) (b b' i : Nat), FitsAt σ n s b b' → IsAtom s b i → IsAtom (pushSh n s) b' (σ i)
  | .leaf, n, b, b', i, h, hi => isAtom_lit (s := .leaf) h hi
  | .un .not a, n, b, b', i, h, hi => by rw [pushSh]; exact isAtom_push a (!n) (b + 1) b' i h hi
  | .un .loop a, n, b, b', i, h, hi => isAtom_lit (s := .un .loop a) h hi
  | .bin o a c, n, b, b', i, h, hi => by
    rw [pushSh]
    rcases hi with hi | hi
    · exact Or.inl (isAtom_push a n _ _ i h.2.1 hi)
    · exact Or.inr (isAtom_push c n _ _ i h.2.2 hi)

theorem loopAt_push {x : Sh} : ∀ (s : Sh) (n : Bool) (b b' i : Nat), FitsAt σ n s b b' → LoopAt s b i x →
    LoopAt (pushSh n s) b' (σ i) x ∧ SegTo σ i (σ i) x.size
  | .leaf, n, b, b', i, h, hi => hi.elim
  | .un .not a, n, b, b', i, h, hi => by rw [pushSh]; exact loopAt_push a (!n) (b + 1) b' i h hi
  | .un .loop a, n, b, b', i, h, hi => loopAt_lit (s := .un .loop a) h hi
  | .bin o a c, n, b, b', i, h, hi => by
    rw [pushSh]
    rcases hi with hi | hi
    · have := loopAt_push a n _ _ i h.2.1 hi; exact ⟨Or.inl this.1, this.2⟩
    · have := loopAt_push c n _ _ i h.2.2 hi; exact ⟨Or.inr this.1, this.2⟩

section
variable (hσ : ∀ x y, σ x = σ y → x = y) {p : Nat → Option Bool} {d d' : List SV}

theorem Inv.ne {s : Sh} {b i : Nat} (h : Inv d p s b) (hk : K s b p ≠ none) (h1 : b ≤ i) (h2 : i < b + s.size) : d[i]? ≠ some .unknown := by
  obtain ⟨x, hx, hu⟩ := h.closed.dead h.root (by simpa using hk) i h1 h2
  rw [hx]; simpa using hu

include hσ

/-- The decisions say which positions are undecided. -/
theorem inv_seg : ∀ (s : Sh) (b b' : Nat), SegTo σ b b' s.size → Inv d p s b → Inv d' (moved σ p) s b' →
    ∀ j, j < s.size → (d[b + j]? = some .unknown ↔ d'[b' + j]? = some .unknown)
  | .leaf, b, b', hs, h, h', j, hj => by
    have : j = 0 := by simp only [Sh.size] at hj; omega
    subst this
    have e := h.root; have e' := h'.root
    rw [K_seg hσ p _ _ _ hs] at e'
    rw [Nat.add_zero, Nat.add_zero, e, e']
  | .un o a, b, b', hs, h, h', j, hj => by
    simp only [Sh.size] at hj
    cases j with
    | zero =>
      have e := h.root; have e' := h'.root
      rw [K_seg hσ p _ _ _ hs] at e'
      rw [Nat.add_zero, Nat.add_zero, e, e']
    | succ j =>
      have g := h.2; have g' := h'.2
      rw [K_seg hσ p _ _ _ hs] at g'
      rw [show b + (j + 1) = b + 1 + j by omega, show b' + (j + 1) = b' + 1 + j by omega]
      by_cases hk : K (.un o a) b p = none
      · rw [if_pos hk] at g g'
        exact inv_seg a (b + 1) (b' + 1) (hs.sub 1 _ (by simp only [Sh.size]; omega)) g g' j (by omega)
      · rw [if_neg hk] at g g'
        exact iff_of_false (dead_ne g (by omega) (by omega)) (dead_ne g' (by omega) (by omega))
  | .bin o a c, b, b', hs, h, h', j, hj => by
    simp only [Sh.size] at hj
    cases j with
    | zero =>
      have e := h.root; have e' := h'.root
      rw [K_seg hσ p _ _ _ hs] at e'
      rw [Nat.add_zero, Nat.add_zero, e, e']
    | succ j =>
      have g := h.2; have g' := h'.2
      rw [K_seg hσ p _ _ _ hs, show moved σ p b' = p b from moved_seg hσ p hs (j := 0) (by simp [Sh.size])] at g'
      have hc := hs.sub (1 + a.size) c.size (by simp only [Sh.size]; omega)
      rw [← Nat.add_assoc, ← Nat.add_assoc] at hc
      by_cases hk : K (.bin o a c) b p = none ∨ (o = .neor ∧ p b = none)
      · rw [if_pos hk] at g g'
        by_cases hja : j < a.size
        · rw [show b + (j + 1) = b + 1 + j by omega, show b' + (j + 1) = b' + 1 + j by omega]
          exact inv_seg a (b + 1) (b' + 1) (hs.sub 1 _ (by simp only [Sh.size]; omega)) g.1 g'.1 j (by omega)
        · rw [show b + (j + 1) = b + 1 + a.size + (j - a.size) by omega, show b' + (j + 1) = b' + 1 + a.size + (j - a.size) by omega]
          exact inv_seg c _ _ hc g.2 g'.2 _ (by omega)
      · rw [if_neg hk] at g g'
        by_cases hja : j < a.size
        · exact iff_of_false (dead_ne g.1 (by omega) (by omega)) (dead_ne g'.1 (by omega) (by omega))
        · exact iff_of_false (dead_ne g.2 (by omega) (by omega)) (dead_ne g'.2 (by omega) (by omega))

theorem inv_at {s : Sh} {b b' : Nat} (hs : SegTo σ b b' s.size) (h : Inv d p s b) (h' : Inv d' (moved σ p) s b') {i : Nat} (h1 : b ≤ i)
    (h2 : i < b + s.size) : d[i]? = some .unknown ↔ d'[σ i]? = some .unknown := by
  obtain ⟨j, rfl⟩ : ∃ j, i = b + j := ⟨i - b, by omega⟩
  rw [hs j (by omega)]
  exact inv_seg hσ s b b' hs h h' j (by omega)

theorem inv_lit {n : Bool} {s : Sh} {b b' : Nat} (hl : LitAt σ n s.size b b') (h : Inv d p s b) (h' : Inv d' (moved σ p) (notIf n s) b') {i : Nat}
    (h1 : b ≤ i) (h2 : i < b + s.size) : d[i]? = some .unknown ↔ d'[σ i]? = some .unknown := by
  cases n with
  | false => exact inv_at hσ hl h h' h1 h2
  | true =>
    have g := h'.2
    have hk' : K (.un .not s) b' (moved σ p) = flipIf true (K s b p) := K_lit hσ p (n := true) hl
    by_cases hk : K s b p = none
    · rw [if_pos (by rw [hk', flipIf_none]; exact hk)] at g
      exact inv_at hσ hl.2 h g h1 h2
    · rw [if_neg (by rw [hk', flipIf_none]; exact hk)] at g
      have e : σ i = b' + 1 + (i - b) := by
        have := hl.2 (i - b) (by omega)
        rwa [show b + (i - b) = i by omega] at this
      exact iff_of_false (Inv.ne h hk h1 h2) (dead_ne g (by omega) (by omega))

theorem inv_push : ∀ (s : Sh) (n : Bool) (b b' : Nat), s.NeorFree → FitsAt σ n s b b' → AtomsOnly p s b → Inv d p s b →
    Inv d' (moved σ p) (pushSh n s) b' → ∀ i, IsAtom s b i → (d[i]? = some .unknown ↔ d'[σ i]? = some .unknown)
  | .leaf, n, b, b', _, h, _, g, g', i, hi => inv_lit hσ (s := .leaf) h g g' (isAtom_range hi).1 (isAtom_range hi).2
  | .un .loop a, n, b, b', _, h, _, g, g', i, hi => inv_lit hσ (s := .un .loop a) h g g' (isAtom_range hi).1 (isAtom_range hi).2
  | .un .not a, n, b, b', hf, h, hp, g, g', i, hi => by
    have r := isAtom_range hi
    have r' := isAtom_range (isAtom_push (.un .not a) n b b' i h hi)
    have hK := K_push hσ p (.un .not a) n b b' hf h hp
    by_cases hk : K (.un .not a) b p = none
    · have g2 := g.2
      rw [if_pos hk] at g2
      rw [pushSh] at g'
      exact inv_push a (!n) (b + 1) b' hf h hp.not.2 g2 g' i hi
    · exact iff_of_false (Inv.ne g hk r.1 r.2) (Inv.ne g' (by rw [hK]; exact fun e => hk ((flipIf_none _ _).1 e)) r'.1 r'.2)
  | .bin o a c, n, b, b', hf, h, hp, g, g', i, hi => by
    have r := isAtom_range hi
    have r' := isAtom_range (isAtom_push (.bin o a c) n b b' i h hi)
    have hK := K_push hσ p (.bin o a c) n b b' hf h hp
    by_cases hk : K (.bin o a c) b p = none
    · have g2 := g.2
      rw [if_pos (Or.inl hk)] at g2
      have g2' := g'
      rw [pushSh] at g2' hK
      have g3 := g2'.2
      rw [if_pos (Or.inl (by rw [hK, hk]; cases n <;> rfl))] at g3
      rcases hi with hi | hi
      · exact inv_push a n _ _ hf.2.1 h.2.1 hp.bin.2.1 g2.1 g3.1 i hi
      · exact inv_push c n _ _ hf.2.2 h.2.2 hp.bin.2.2 g2.2 g3.2 i hi
    · exact iff_of_false (Inv.ne g hk r.1 r.2) (Inv.ne g' (by rw [hK]; exact fun e => hk ((flipIf_none _ _).1 e)) r'.1 r'.2)

end

/-- What the matcher needs to know of two trees: `σ` takes atoms to atoms and bodies of loops to bodies of loops, and if only atoms are decided the
trees agree on whether they have a value and on which atoms are undecided. -/
structure TreesLike (σ : Nat → Nat) (s : Sh) (b : Nat) (s' : Sh) (b' : Nat) : Prop where
  atom : ∀ i, IsAtom s b i → IsAtom s' b' (σ i)
  loop : ∀ i a, LoopAt s b i a → LoopAt s' b' (σ i) a ∧ SegTo σ i (σ i) a.size
  over : ∀ p, AtomsOnly p s b → (K s' b' (moved σ p) = none ↔ K s b p = none)
  inv : ∀ p d d', AtomsOnly p s b → Inv d p s b → Inv d' (moved σ p) s' b' → ∀ i, IsAtom s b i →
    (d[i]? = some .unknown ↔ d'[σ i]? = some .unknown)

theorem fits_like (hσ : ∀ x y, σ x = σ y → x = y) {n : Bool} {s : Sh} {b b' : Nat} (hs : s.NeorFree) (hf : FitsAt σ n s b b') :
    TreesLike σ s b (pushSh n s) b' :=
  ⟨fun i hi => isAtom_push s n b b' i hf hi, fun i _ hi => loopAt_push s n b b' i hf hi,
    fun p hp => by rw [K_push hσ p s n b b' hs hf hp, flipIf_none], fun _ _ _ hp h h' i hi => inv_push hσ s n b b' hs hf hp h h' i hi⟩

/-- The trees of two expressions, or the body of a loop in both. -/
inductive Tie (σ : Nat → Nat) : Sh → Nat → Sh → Nat → Prop
  | body (s : Sh) (b b' : Nat) (h : 0 < b) (h' : 0 < b') (hs : SegTo σ b b' s.size) : Tie σ s b s b'
  | top (s s' : Sh) (hl : TreesLike σ s 0 s' 0) : Tie σ s 0 s' 0

theorem Tie.atom {s b s' b'} (h : Tie σ s b s' b') {i : Nat} (hi : IsAtom s b i) : IsAtom s' b' (σ i) := by
  rcases h with ⟨_, _, _, _, hs⟩ | ⟨_, hl⟩
  · exact isAtom_at hs hi
  · exact hl.atom i hi

theorem Tie.loop {s b s' b'} (h : Tie σ s b s' b') {i : Nat} {a : Sh} (hi : LoopAt s b i a) :
    LoopAt s' b' (σ i) a ∧ Tie σ a i a (σ i) ∧ SegTo σ i (σ i) a.size := by
  have key : LoopAt s' b' (σ i) a ∧ SegTo σ i (σ i) a.size := by
    rcases h with ⟨_, _, _, _, hs⟩ | ⟨_, hl⟩
    · exact loopAt_at hs hi
    · exact hl.loop i a hi
  exact ⟨key.1, .body a i (σ i) (by have := hi.sub.2.2; omega) (by have := key.1.sub.2.2; omega) key.2, key.2⟩

theorem Tie.over {s b s' b'} (h : Tie σ s b s' b') (p : Nat → Option Bool) (hp : ∀ i, p i ≠ none → IsAtom s b i) :
    decide (b' = 0 ∧ K s' b' (moved σ p) ≠ none) = decide (b = 0 ∧ K s b p ≠ none) := by
  rcases h with ⟨_, _, h, h', _⟩ | ⟨_, hl⟩
  · rw [decide_eq_decide]
    exact iff_of_false (fun e => by have := e.1; omega) (fun e => by have := e.1; omega)
  · have := hl.over p (fun j _ _ hj => hp j hj)
    simp [this]

mutual
  theorem lies_ren : ∀ (e : Exec E) {s b s' b'}, Tie σ s b s' b' → e.Lies s b → (renExec σ e).Lies s' b'
    | .mk st es ops ls a, s, b, s', b', hl, h => by
      rw [Exec.Lies] at h
      rw [renExec, Exec.Lies]
      refine ⟨liesElems_ren es hl h.1, ?_, liesLoops_ren ls hl h.2.2.1, liesAfter_ren a hl h.2.2.2⟩
      intro op ho
      obtain ⟨o, hm, rfl⟩ := List.mem_map.1 ho
      exact hl.atom (h.2.1 o hm)
  theorem liesElems_ren : ∀ (e : Elems E) {s b s' b'}, Tie σ s b s' b' → e.Lies s b → (renElems σ e).Lies s' b'
    | .nil, _, _, _, _, _, _ => by rw [renElems, Elems.Lies]; trivial
    | .cons k e r, _, _, _, _, hl, h => by
      rw [Elems.Lies] at h
      rw [renElems, Elems.Lies]
      exact ⟨lies_ren e hl h.1, liesElems_ren r hl h.2⟩
  theorem liesLoops_ren : ∀ (e : Loops E) {s b s' b'}, Tie σ s b s' b' → e.Lies s b → (renLoops σ e).Lies s' b'
    | .nil, _, _, _, _, _, _ => by rw [renLoops, Loops.Lies]; trivial
    | .cons i m g e r, _, _, _, _, hl, h => by
      rw [Loops.Lies] at h
      obtain ⟨⟨a, ha, hn⟩, h2⟩ := h
      rw [renLoops, Loops.Lies]
      exact ⟨⟨a, (hl.loop ha).1, lies_ren e (hl.loop ha).2.1 hn⟩, liesLoops_ren r hl h2⟩
  theorem liesAfter_ren : ∀ (e : After E) {s b s' b'}, Tie σ s b s' b' → e.Lies s b → (renAfter σ e).Lies s' b'
    | .none, _, _, _, _, _, _ => by rw [renAfter, After.Lies]; trivial
    | .some ops ls, _, _, _, _, hl, h => by
      rw [After.Lies] at h
      rw [renAfter, After.Lies]
      refine ⟨?_, liesLoops_ren ls hl h.2⟩
      intro op ho
      obtain ⟨o, hm, rfl⟩ := List.mem_map.1 ho
      exact hl.atom (h.1 o hm)
end

mutual
  theorem height_ren : ∀ e : Exec E, (renExec σ e).height = e.height
    | .mk st es ops ls a => by rw [renExec, Exec.height, Exec.height, heightElems_ren es, heightLoops_ren ls, heightAfter_ren a]
  theorem heightElems_ren : ∀ e : Elems E, (renElems σ e).height = e.height
    | .nil => by rw [renElems]
    | .cons k e r => by rw [renElems, Elems.height, Elems.height, height_ren e, heightElems_ren r]
  theorem heightLoops_ren : ∀ e : Loops E, (renLoops σ e).height = e.height
    | .nil => by rw [renLoops]
    | .cons i m g e r => by rw [renLoops, Loops.height, Loops.height, height_ren e, heightLoops_ren r]
  theorem heightAfter_ren : ∀ e : After E, (renAfter σ e).height = e.height
    | .none => by rw [renAfter]
    | .some ops ls => by rw [renAfter, After.height, After.height, heightLoops_ren ls]
end

/-! ### Running both -/

/-- States of the two matchers that belong together. -/
structure Mate (σ : Nat → Nat) (t t' : Tree) (N : Nat) (s : Sh) (b : Nat) (s' : Sh) (b' : Nat) (v v' : V) : Prop where
  slots : v'.slots = v.slots
  coll : v'.coll = v.coll
  st : ∃ p, St t s b v.bt p ∧ St t' s' b' v'.bt (moved σ p)
  wf : SlotsWF N v.slots

/-- Outcomes that belong together. -/
def MateOut (σ : Nat → Nat) (t t' : Tree) (N : Nat) (s : Sh) (b : Nat) (s' : Sh) (b' : Nat) (a a' : Bool × V) : Prop :=
  a'.1 = a.1 ∧ Mate σ t t' N s b s' b' a.2 a'.2

def Mates (σ : Nat → Nat) (t t' : Tree) (N : Nat) (s : Sh) (b : Nat) (s' : Sh) (b' : Nat) (f f' : V → Res (Bool × V)) : Prop :=
  ∀ v v', Mate σ t t' N s b s' b' v v' → Abreast (MateOut σ t t' N s b s' b') (f v) (f' v')

section
variable (hσ : ∀ x y, σ x = σ y → x = y) {t t' : Tree} {N : Nat} {s : Sh} {b : Nat} {s' : Sh} {b' : Nat}
include hσ

/-- Which positions are undecided is the same. -/
theorem resolved_same {bt bt' : State} {p} (hl : Tie σ s b s' b') (h : St t s b bt p) (h' : St t' s' b' bt' (moved σ p)) {i : Nat} (hi : IsAtom s b i) :
    ∃ d, BinTree.isResolved bt i = .ok d ∧ BinTree.isResolved bt' (σ i) = .ok d := by
  obtain ⟨r1, r2⟩ := isAtom_range hi
  obtain ⟨r1', r2'⟩ := isAtom_range (hl.atom hi)
  have key : bt.data[i]? = some .unknown ↔ bt'.data[σ i]? = some .unknown := by
    rcases hl with ⟨_, _, _, _, hs⟩ | ⟨_, hl⟩
    · exact inv_at hσ hs h.inv h'.inv r1 r2
    · exact hl.inv p _ _ (fun j _ _ hj => h.atoms j hj) h.inv h'.inv i hi
  obtain ⟨par, hsh⟩ := h.ctx.shaped
  obtain ⟨par', hsh'⟩ := h'.ctx.shaped
  have hb := hsh.bound
  have hb' := hsh'.bound
  have hi1 : i < bt.data.length := by rw [h.len]; omega
  have hi2 : σ i < bt'.data.length := by rw [h'.len]; omega
  have e1 := List.getElem?_eq_getElem hi1
  have e2 := List.getElem?_eq_getElem hi2
  refine ⟨decide (bt.data[i] ≠ .unknown), by simp [BinTree.isResolved, Res.idx_of_some e1], ?_⟩
  rw [e1, e2] at key
  simp only [Option.some.injEq] at key
  simp [BinTree.isResolved, Res.idx_of_some e2, key]

theorem Mate.root {v v' : V} (hl : Tie σ s b s' b') (h : Mate σ t t' N s b s' b' v v') :
    ∃ d, BinTree.isResolved v.bt 0 = .ok d ∧ BinTree.isResolved v'.bt 0 = .ok d := by
  obtain ⟨p, h1, h2⟩ := h.st
  exact ⟨_, h1.resolved0, by rw [h2.resolved0, hl.over _ h1.atoms]⟩

theorem Mates.check {f f' : V → Res (Bool × V)} (hl : Tie σ s b s' b') (hf : Mates σ t t' N s b s' b' f f') {a a'} (h : MateOut σ t t' N s b s' b' a a') :
    Abreast (MateOut σ t t' N s b s' b') (check f a) (check f' a') := by
  obtain ⟨d, e1, e2⟩ := h.2.root hσ hl
  rw [Match.check, Match.check, e1, e2, Res.bind_ok, Res.bind_ok, h.1]
  split
  · exact ⟨rfl, h.2⟩
  · split
    · trivial
    · exact hf _ _ h.2

/-- Marking in both. -/
theorem mark_mate {bt bt' : State} {p} (hl : Tie σ s b s' b') (h : St t s b bt p) (h' : St t' s' b' bt' (moved σ p)) {i : Nat} (hi : IsAtom s b i)
    (x : Bool) (e1 : BinTree.isResolved bt i = .ok false) (e2 : BinTree.isResolved bt' (σ i) = .ok false) :
    ∃ c c' q, BinTree.markNode t bt i x = .ok c ∧ BinTree.markNode t' bt' (σ i) x = .ok c' ∧ St t s b c q ∧ St t' s' b' c' (moved σ q) := by
  obtain ⟨c, m1, m2, _⟩ := h.mark hi x
  obtain ⟨c', m1', m2', _⟩ := h'.mark (hl.atom hi) x
  rw [BinTree.guardedMark, e1] at m1
  rw [BinTree.guardedMark, e2] at m1'
  exact ⟨c, c', _, by simpa using m1, by simpa using m1', m2, by rw [moved_also hσ]; exact m2'⟩

variable (X : Fns E) {r : D}

theorem op_mate (hl : Tie σ s b s' b') {lit : Option (FV E)} {op : Op E} (hi : IsAtom s b op.bucket) {v v' : V} (h : Mate σ t t' N s b s' b' v v') :
    Abreast (fun a a' => Mate σ t t' N s b s' b' { v with bt := a.1, coll := a.2 } { v' with bt := a'.1, coll := a'.2 })
      (matchOp X t (slotVal r v.slots) lit op v.bt v.coll) (matchOp X t' (slotVal r v'.slots) lit (renOp σ op) v'.bt v'.coll) := by
  obtain ⟨p, h1, h2⟩ := h.st
  obtain ⟨d, e1, e2⟩ := resolved_same hσ hl h1 h2 hi
  rw [matchOp, matchOp, e1, show (renOp σ op).bucket = σ op.bucket from rfl, e2, Res.bind_ok, Res.bind_ok]
  cases d with
  | true => exact h
  | false =>
    simp only [Bool.false_eq_true, if_false]
    rw [h.slots, show opResult X (slotVal r v.slots) lit (renOp σ op) = opResult X (slotVal r v.slots) lit op from rfl]
    refine (Abreast.same _).bind (fun o o' _ _ e => ?_)
    subst e
    obtain ⟨c, c', q, m1, m2, m3, m4⟩ := mark_mate hσ hl h1 h2 hi o'.1 e1 e2
    rw [m1, m2]
    exact ⟨rfl, by simp [h.coll], ⟨q, m3, m4⟩, h.wf⟩

theorem ops_mate (hl : Tie σ s b s' b') {lit : Option (FV E)} : ∀ (ops : List (Op E)), (∀ op ∈ ops, IsAtom s b op.bucket) →
    Mates σ t t' N s b s' b' (opsV X t r lit ops) (opsV X t' r lit (ops.map (renOp σ)))
  | [], _ => fun v v' h => ⟨rfl, h⟩
  | op :: ops, hi => by
    intro v v' h
    rw [List.map_cons, opsV_cons, opsV_cons]
    refine (op_mate hσ X hl (hi op List.mem_cons_self) h).bind (fun a a' _ _ ha => ?_)
    obtain ⟨d, e1, e2⟩ := ha.root hσ hl
    simp only at e1 e2
    rw [e1, e2, Res.bind_ok, Res.bind_ok]
    split
    · exact ⟨rfl, ha⟩
    · exact ops_mate hl ops (fun o ho => hi o (List.mem_cons_of_mem _ ho)) _ _ ha

/-! ### Loops -/

/-- The recursive calls belong together. -/
def RecM (σ : Nat → Nat) (t t' : Tree) (N h : Nat) (rec rec' : VRec E) : Prop :=
  ∀ (node : Exec E) (d : D) (s : Sh) (b : Nat) (s' : Sh) (b' : Nat), Tie σ s b s' b' → node.height ≤ h → node.Lies s b → d.WF →
    Mates σ t t' N s b s' b' (rec node d) (rec' (renExec σ node) d)

variable {h : Nat} {rec rec' : VRec E}

theorem items_mate (hT : RecM σ t t' N h rec rec') (hrec : RecW t N False h rec) (hrec' : RecW t' N False h rec') {i : Nat} {mode : Mode}
    {node : Exec E} {a : Sh} {par par' : Nat} (hsh : Shaped t a i par) (hsh' : Shaped t' a (σ i) par') (hi : 0 < i) (hi' : 0 < σ i) (hg : SegTo σ i (σ i) a.size) (hh : node.height ≤ h)
    (hn : node.Lies a i) : ∀ (es : Es), es.WF → ∀ (st : Bool) (v v' : V), v.bt.stall = i → v'.bt.stall = σ i →
    v.bt.data.length = t.length → v'.bt.data.length = t'.length → v.bt.data[0]? = some .unknown → v'.bt.data[0]? = some .unknown →
    SlotsWF N v.slots → v'.slots = v.slots → v'.coll = v.coll →
    Abreast (fun o o' => o'.1 = o.1 ∧ o'.2.slots = o.2.slots ∧ o'.2.coll = o.2.coll) (vItems rec t i mode node es st v)
      (vItems rec' t' (σ i) mode (renExec σ node) es st v')
  | .nil, _, st, v, v', _, _, _, _, _, _, _, h1, h2 => ⟨rfl, h1, h2⟩
  | .cons d _ _ rest, hes, st, v, v', h1, h1', h2, h2', h3, h3', h4, h5, h6 => by
    simp only [Es.WF] at hes
    have hd : d.WF := by simp_all
    have hrest : rest.WF := by simp_all
    have hlk := Tie.body a i (σ i) hi hi' hg
    obtain ⟨d1, e1, e2, e3, e4⟩ := BinTree.resetNode_spec hsh v.bt h2
    obtain ⟨d1', e1', e2', e3', e4'⟩ := BinTree.resetNode_spec hsh' v'.bt h2'
    have hst : St t a i { v.bt with data := d1 } (fun _ => none) :=
      ⟨⟨⟨par, hsh⟩, Or.inr h1.symm, Or.inl (by rw [← h1]; exact Nat.le_refl _)⟩, e2, e3.inv (fun _ _ _ => rfl), by simp,
        fun _ => by rw [← h3]; exact e4 0 (Or.inl hi)⟩
    have hst' : St t' a (σ i) { v'.bt with data := d1' } (fun _ => none) :=
      ⟨⟨⟨par', hsh'⟩, Or.inr h1'.symm, Or.inl (by rw [← h1']; exact Nat.le_refl _)⟩, e2', e3'.inv (fun _ _ _ => rfl), by simp,
        fun _ => by rw [← h3']; exact e4' 0 (Or.inl hi')⟩
    rw [vItems, vItems, e1, e1']
    simp only [Res.bind_ok]
    have htw : Mate σ t t' N a i a (σ i) { v with bt := { v.bt with data := d1 } } { v' with bt := { v'.bt with data := d1' } } :=
      ⟨h5, h6, ⟨_, hst, by rw [moved_none]; exact hst'⟩, h4⟩
    refine (hT node d a i a (σ i) hlk hh hn hd _ _ htw).bind (fun c c' k k' hc => ?_)
    have w := went_of (N := N) (v := { v with bt := { v.bt with data := d1 } }) hrec hh hn hd hst h4 k
    have w' := went_of (N := N) (v := { v' with bt := { v'.bt with data := d1' } }) hrec' (by rw [height_ren]; exact hh) (lies_ren node hlk hn) hd hst'
      (by rw [h5]; exact h4) k'
    obtain ⟨p, hp, hp'⟩ := hc.2.st
    have hf : c.1 = false := by
      cases hx : c.1 with
      | false => rfl
      | true => have := (hp.over_iff.1 (w.early hx)).1; omega
    rw [hc.1, hf]
    simp only [Bool.false_eq_true, if_false]
    rw [hp.isTrue, hp'.isTrue, Res.bind_ok, Res.bind_ok, K_seg hσ p a i (σ i) hg]
    have hout : ∀ j, j < i ∨ i + a.size ≤ j → c.2.bt.data[j]? = v.bt.data[j]? := fun j hj => by rw [w.out j hj]; exact e4 j hj
    have hout' : ∀ j, j < σ i ∨ σ i + a.size ≤ j → c'.2.bt.data[j]? = v'.bt.data[j]? := fun j hj => by rw [w'.out j hj]; exact e4' j hj
    cases mode.leaves (decide (K a i p = some true)) with
    | some x => exact ⟨rfl, hc.2.slots, hc.2.coll⟩
    | none =>
      exact items_mate hT hrec hrec' hsh hsh' hi hi' hg hh hn rest hrest _ c.2 c'.2 (by rw [w.stall]; exact h1) (by rw [w'.stall]; exact h1') hp.len hp'.len
        (by rw [hout 0 (Or.inl hi)]; exact h3) (by rw [hout' 0 (Or.inl hi')]; exact h3') w.slots hc.2.slots hc.2.coll

theorem loop_mate (hl : Tie σ s b s' b') (hT : RecM σ t t' N h rec rec') (hrec : RecW t N False h rec) (hrec' : RecW t' N False h rec') {i : Nat}
    {mode : Mode} {node : Exec E} {a : Sh} (hla : LoopAt s b i a) (hh : node.height ≤ h) (hn : node.Lies a i) {d : D} (hd : d.WF) {v v' : V}
    (hv : Mate σ t t' N s b s' b' v v') :
    Abreast (Mate σ t t' N s b s' b') (vLoop rec t i mode node d v) (vLoop rec' t' (σ i) mode (renExec σ node) d v') := by
  cases d with
  | lit ty w => exact hv
  | obj ws ms => exact hv
  | arr ws es =>
    simp only [vLoop]
    obtain ⟨p, hp, hp'⟩ := hv.st
    have hat := hla.sub.2.1
    obtain ⟨x, e1, e2⟩ := resolved_same hσ hl hp hp' hat
    rw [e1, e2, Res.bind_ok, Res.bind_ok]
    cases x with
    | true => exact hv
    | false =>
      simp only [Bool.false_eq_true, if_false]
      have hes : es.WF := by simp only [D.WF] at hd; exact hd.2
      obtain ⟨par, f1, f2, f3, f4⟩ := loop_frame hla hp e1
      obtain ⟨par', f1', f2', f3', f4'⟩ := loop_frame (hl.loop hla).1 hp' e2
      obtain ⟨_, hg, hg'⟩ := hl.loop hla
      have hn' := lies_ren node hg hn
      have hh' : (renExec σ node).height ≤ h := by rw [height_ren]; exact hh
      refine (items_mate hσ hT hrec hrec' (mode := mode) f1 f1' f2 f2' hg' hh hn es hes mode.init { v with bt := (BinTree.setStallIndex v.bt i).1 }
        { v' with bt := (BinTree.setStallIndex v'.bt (σ i)).1 } rfl rfl hp.len hp'.len f3 f3' hv.wf hv.slots hv.coll).bind (fun o o' k k' ho => ?_)
      have w := items_went hrec (mode := mode) f1 f2 hh hn False.elim es hes mode.init { v with bt := (BinTree.setStallIndex v.bt i).1 } rfl
        hp.len f3 hv.wf
      have w' := items_went hrec' (mode := mode) f1' f2' hh' hn' False.elim es hes mode.init { v' with bt := (BinTree.setStallIndex v'.bt (σ i)).1 } rfl
        hp'.len f3' (by rw [hv.slots]; exact hv.wf)
      rw [k] at w
      rw [k'] at w'
      obtain ⟨w1, w2, w3, w4⟩ := w
      obtain ⟨w1', w2', w3', w4'⟩ := w'
      obtain ⟨c, g1, g2⟩ := f4 o.2.bt w1 w2 w4
      obtain ⟨c', g1', g2'⟩ := f4' o'.2.bt w1' w2' w4'
      rw [g1, g1', Res.bind_ok, Res.bind_ok, g2, g2', ho.1]
      obtain ⟨m, m', q, m1, m2, m3, m4⟩ := mark_mate hσ hl hp hp' hat o.1 e1 e2
      rw [m1, m2]
      exact ⟨ho.2.1, ho.2.2, ⟨q, m3, m4⟩, w3⟩

theorem afterLoops_mate (hr : r.WF) (hl : Tie σ s b s' b') (hT : RecM σ t t' N h rec rec') (hrec : RecW t N False h rec)
    (hrec' : RecW t' N False h rec') : ∀ (ls : Loops E), ls.height ≤ h → ls.Lies s b →
    Mates σ t t' N s b s' b' (vAfterLoops rec t r ls) (vAfterLoops rec' t' r (renLoops σ ls))
  | .nil, _, _ => fun v v' hv => ⟨rfl, hv⟩
  | .cons i mode target node rest, hh, hla => by
    rw [Loops.height] at hh
    rw [Loops.Lies] at hla
    obtain ⟨⟨a, ha, hn⟩, hl'⟩ := hla
    intro v v' hv
    rw [renLoops, vAfterLoops.eq_def, vAfterLoops.eq_def rec']
    cases target with
    | none => trivial
    | some g =>
      cases g with
      | slot k =>
        simp only
        split
        · trivial
        · rw [hv.slots]
          refine (Abreast.same _).bind (fun o o' e _ eo => ?_)
          subst eo
          have hd : (o'.getD r).WF := by
            cases o' with
            | none => exact hr
            | some d =>
              refine hv.wf.2 d ?_
              unfold Res.idx at e
              cases hx : v.slots[k - 1]? with
              | none => rw [hx] at e; cases e
              | some y => rw [hx] at e; cases e; exact List.mem_of_getElem? hx
          refine (loop_mate hσ hl hT hrec hrec' (mode := mode) ha (by omega) hn hd hv).bind (fun x x' _ _ hx => ?_)
          obtain ⟨d, e1, e2⟩ := hx.root hσ hl
          rw [e1, e2, Res.bind_ok, Res.bind_ok]
          split
          · exact ⟨rfl, hx⟩
          · exact afterLoops_mate hr hl hT hrec hrec' rest (by omega) hl' _ _ hx
      | val _ => trivial
      | lit => trivial
      | fn _ _ => trivial

theorem after_mate (hr : r.WF) (hl : Tie σ s b s' b') (hT : RecM σ t t' N h rec rec') (hrec : RecW t N False h rec)
    (hrec' : RecW t' N False h rec') {ops : List (Op E)} {ls : Loops E} (hh : ls.height ≤ h) (ha : (After.some ops ls).Lies s b) :
    Mates σ t t' N s b s' b' (vAfter X rec t r ops ls) (vAfter X rec' t' r (ops.map (renOp σ)) (renLoops σ ls)) := by
  rw [After.Lies] at ha
  intro v v' hv
  rw [vAfter, vAfter]
  refine (afterLoops_mate hσ hr hl hT hrec hrec' ls hh ha.2 v v' hv).bind (fun a a' _ _ h => ?_)
  rw [h.1]
  split
  · exact h
  · exact ops_mate hσ X hl ops ha.1 _ _ h.2

theorem arrayLoops_mate (hl : Tie σ s b s' b') (hT : RecM σ t t' N h rec rec') (hrec : RecW t N False h rec) (hrec' : RecW t' N False h rec')
    {d : D} (hd : d.WF) : ∀ (ls : Loops E), ls.height ≤ h → ls.Lies s b →
    Mates σ t t' N s b s' b' (vArrayLoops rec t d ls) (vArrayLoops rec' t' d (renLoops σ ls))
  | .nil, _, _ => fun v v' hv => ⟨rfl, hv⟩
  | .cons i mode target node rest, hh, hla => by
    rw [Loops.height] at hh
    rw [Loops.Lies] at hla
    obtain ⟨⟨a, ha, hn⟩, hl'⟩ := hla
    intro v v' hv
    rw [renLoops, vArrayLoops.eq_def, vArrayLoops.eq_def rec']
    cases target with
    | some g => trivial
    | none =>
      simp only
      refine (loop_mate hσ hl hT hrec hrec' (mode := mode) ha (by omega) hn hd hv).bind (fun x x' _ _ hx => ?_)
      obtain ⟨y, e1, e2⟩ := hx.root hσ hl
      rw [e1, e2, Res.bind_ok, Res.bind_ok]
      split
      · exact ⟨rfl, hx⟩
      · exact arrayLoops_mate hl hT hrec hrec' hd rest (by omega) hl' _ _ hx

/-! ### Nodes -/

theorem members_mate (hl : Tie σ s b s' b') (hT : RecM σ t t' N h rec rec') {es : Elems E} (hh : es.height ≤ h) (he : es.Lies s b) :
    ∀ ms : Ms, ms.WF → Mates σ t t' N s b s' b' (vMembers rec es ms) (vMembers rec' (renElems σ es) ms)
  | .nil, _ => fun v v' hv => ⟨rfl, hv⟩
  | .cons kty key _ _ d _ _ rest, hm => by
    simp only [Ms.WF] at hm
    have hd : d.WF := by simp_all
    have hrest : rest.WF := by simp_all
    have ih := members_mate hl hT hh he rest hrest
    intro v v' hv
    rw [vMembers, vMembers]
    refine (Abreast.same _).bind (fun k k' _ _ ek => ?_)
    subst ek
    rw [find_ren]
    cases hf : es.find k' with
    | none => exact ih v v' hv
    | some e =>
      exact (hT e d s b s' b' hl (Nat.le_trans (Elems.height_find hf) hh) (he.find hf) hd v v' hv).bind (fun a a' _ _ ha => ih.check hσ hl ha)

theorem elems_mate (hl : Tie σ s b s' b') (hT : RecM σ t t' N h rec rec') {es : Elems E} (hh : es.height ≤ h) (he : es.Lies s b) :
    ∀ (xs : Es) (i : Nat), xs.WF → Mates σ t t' N s b s' b' (vElems rec es i xs) (vElems rec' (renElems σ es) i xs)
  | .nil, _, _ => fun v v' hv => ⟨rfl, hv⟩
  | .cons d _ _ rest, i, hm => by
    simp only [Es.WF] at hm
    have hd : d.WF := by simp_all
    have hrest : rest.WF := by simp_all
    have ih := elems_mate hl hT hh he rest (i + 1) hrest
    intro v v' hv
    rw [vElems, vElems]
    refine (Abreast.same _).bind (fun k k' _ _ ek => ?_)
    rw [find_ren]
    cases hf : es.find (indexKey i) with
    | none => exact ih v v' hv
    | some e =>
      exact (hT e d s b s' b' hl (Nat.le_trans (Elems.height_find hf) hh) (he.find hf) hd v v' hv).bind (fun a a' _ _ ha => ih.check hσ hl ha)

theorem finish_mate (hr : r.WF) (hl : Tie σ s b s' b') (hT : RecM σ t t' N h rec rec') (hrec : RecW t N False h rec) (hrec' : RecW t' N False h rec')
    {store : Nat} {after : After E} (hh : after.height ≤ h) (ha : after.Lies s b) {d : D} (hd : d.WF) :
    Mates σ t t' N s b s' b' (vFinish X rec t r store after d) (vFinish X rec' t' r store (renAfter σ after) d) := by
  have hk : Mates σ t t' N s b s' b' (fun v : V =>
      if store = 0 then Res.ok (false, v)
      else if store - 1 < v.slots.length then Res.ok (false, { v with slots := v.slots.set (store - 1) (some d) })
      else .panic) (fun v : V =>
      if store = 0 then Res.ok (false, v)
      else if store - 1 < v.slots.length then Res.ok (false, { v with slots := v.slots.set (store - 1) (some d) })
      else .panic) := by
    intro v v' hv
    simp only [hv.slots]
    split
    · exact ⟨rfl, hv⟩
    · split
      · refine ⟨rfl, rfl, hv.coll, hv.st, by simpa using hv.wf.1, fun x hx => ?_⟩
        rcases List.mem_or_eq_of_mem_set hx with h' | h'
        · exact hv.wf.2 x h'
        · cases h'; exact hd
      · trivial
  unfold vFinish
  cases after with
  | none => exact hk
  | some ops ls =>
    intro v v' hv
    rw [After.height] at hh
    exact (after_mate hσ X hr hl hT hrec hrec' hh ha v v' hv).bind (fun a a' _ _ h => hk.check hσ hl h)

theorem opsThen_mate (hr : r.WF) (hl : Tie σ s b s' b') (hT : RecM σ t t' N h rec rec') (hrec : RecW t N False h rec) (hrec' : RecW t' N False h rec')
    {store : Nat} {ops : List (Op E)} {after : After E} (hh : after.height ≤ h) (ho : ∀ op ∈ ops, IsAtom s b op.bucket) (ha : after.Lies s b)
    {d : D} (hd : d.WF) :
    Mates σ t t' N s b s' b' (vOpsThen X rec t r ops store after d) (vOpsThen X rec' t' r (ops.map (renOp σ)) store (renAfter σ after) d) := by
  intro v v' hv
  rw [vOpsThen, vOpsThen]
  refine (Abreast.same _).bind (fun x x' _ _ ex => ?_)
  subst ex
  refine (ops_mate hσ X hl ops ho v v' hv).bind (fun a a' _ _ h => ?_)
  rw [h.1]
  split
  · exact h
  · exact finish_mate hσ X hr hl hT hrec hrec' hh ha hd _ _ h.2

omit hσ in
theorem isEmptyElems_ren (es : Elems E) : (renElems σ es).isEmpty = es.isEmpty := by cases es <;> rfl
omit hσ in
theorem isEmptyLoops_ren (ls : Loops E) : (renLoops σ ls).isEmpty = ls.isEmpty := by cases ls <;> rfl

theorem exec_mate (hr : r.WF) : ∀ h : Nat, RecM σ t t' N h (vExec X t r h) (vExec X t' r h)
  | 0 => by
    intro n d s b s' b' _ hh
    cases n
    simp [Exec.height] at hh
  | h + 1 => by
    intro n d s b s' b' hlk hh hl hd
    have ih := exec_mate hr h
    have w := exec_stays (t := t) (N := N) (q := False) X hr h
    have w' := exec_stays (t := t') (N := N) (q := False) X hr h
    obtain ⟨store, es, ops, ls, af⟩ := n
    rw [Exec.Lies] at hl
    obtain ⟨l1, l2, l3, l4⟩ := hl
    rw [Exec.height] at hh
    have hk : ∀ {d : D}, d.WF → Mates σ t t' N s b s' b' (vOpsThen X (vExec X t r h) t r ops store af d)
        (vOpsThen X (vExec X t' r h) t' r (ops.map (renOp σ)) store (renAfter σ af) d) :=
      fun hd => opsThen_mate hσ X hr hlk ih w w' (by omega) l2 l4 hd
    intro v v' hv
    rw [renExec]
    cases d with
    | lit ty x => exact hk hd v v' hv
    | obj ws ms =>
      have hms : ms.WF := by simp only [D.WF] at hd; exact hd.2
      simp only [vExec, vObj, isEmptyElems_ren]
      split
      · exact hk hd v v' hv
      · refine (members_mate hσ hlk ih (by omega) l1 ms hms v v' hv).bind (fun a a' _ _ ha => ?_)
        refine Abreast.bind (P := MateOut σ t t' N s b s' b') ?_ (fun c c' _ _ hc => ?_)
        · cases af with
          | none => exact ⟨rfl, ha.2⟩
          | some aops als =>
            rw [After.height] at hh
            exact after_mate hσ X hr hlk ih w w' (by omega) l4 _ _ ha.2
        · cases ms with
          | nil => exact hc
          | cons kty key w1 w2 d' w3 w4 rest =>
            simp only
            rw [ha.1]
            split
            · exact ⟨rfl, hc.2⟩
            · exact (hk hd).check hσ hlk hc
    | arr ws es' =>
      have hes : es'.WF := by simp only [D.WF] at hd; exact hd.2
      simp only [vExec, vArr, isEmptyLoops_ren]
      split
      · cases es' with
        | nil => exact ⟨rfl, hv⟩
        | cons d' w1 w2 rest =>
          refine (elems_mate hσ hlk ih (by omega) l1 _ 0 hes v v' hv).bind (fun a a' _ _ ha => ?_)
          rw [ha.1]
          split
          · exact ha
          · exact hk hd _ _ ha.2
      · refine (arrayLoops_mate hσ hlk ih w w' hd ls (by omega) l3 v v' hv).bind (fun a a' _ _ ha => ?_)
        rw [ha.1]
        split
        · exact ha
        · exact hk hd _ _ ha.2

end

/-! ### Whole runs -/

theorem vRun_like (hσ : ∀ x y, σ x = σ y → x = y) (X : Fns E) {df df' : Def E} {s s' : Sh} {n : Bool} {node : Exec E} (hlike : TreesLike σ s 0 s' 0)
    (hval : ∀ p, AtomsOnly p s 0 → s'.evalM 0 (moved σ p) = (n ^^ s.evalM 0 p)) (hw : df.Laid s node) (hw' : df'.Laid s' (renExec σ node))
    (hN : df'.numSlots = df.numSlots) {r : D} (hr : r.WF) :
    Abreast (fun a a' => a'.1 = (n ^^ a.1) ∧ a'.2.coll = a.2.coll) (vRun X df (newV df) r) (vRun X df' (newV df') r) := by
  rw [vRun, hw.parse, vRun, hw'.parse]
  have h0 : Mate σ df.tree df'.tree df.numSlots s 0 s' 0 (newV df) (newV df') :=
    ⟨by simp [newV, hN], rfl, ⟨_, start_st hw, by rw [moved_none]; exact start_st hw'⟩, slotsWF_replicate _⟩
  simp only [height_ren]
  refine (exec_mate hσ X hr node.height node r s 0 s' 0 (.top s s' hlike) (Nat.le_refl _) hw.lies hr _ _ h0).bind (fun a a' k k' ha => ?_)
  have w := went_of (exec_stays X hr node.height) (Nat.le_refl _) hw.lies hr (start_st hw) (slotsWF_replicate _) k
  have w' := went_of (exec_stays X hr node.height) (by rw [height_ren]; exact Nat.le_refl _) hw'.lies hr (start_st hw') (slotsWF_replicate _) k'
  obtain ⟨p, hp, hp'⟩ := ha.2.st
  obtain ⟨c, c1, c2⟩ := resolve_value hw.shaped hw.len w.stall hp
  obtain ⟨c', c1', c2'⟩ := resolve_value hw'.shaped hw'.len w'.stall hp'
  rw [c1, c1', Res.bind_ok, Res.bind_ok, c2, c2', Res.bind_ok, Res.bind_ok]
  exact ⟨hval p (fun j _ _ hj => hp.atoms j hj), ha.2.coll⟩

/-- From definitions to matchers. -/
theorem run_like (hσ : ∀ x y, σ x = σ y → x = y) (X : Fns E) {df df' : Def E} {s s' : Sh} {n : Bool} {node : Exec E} (hlike : TreesLike σ s 0 s' 0)
    (hval : ∀ p, AtomsOnly p s 0 → s'.evalM 0 (moved σ p) = (n ^^ s.evalM 0 p)) (hl : df.Laid s node) (hl' : df'.Laid s' (renExec σ node))
    (hN : df'.numSlots = df.numSlots) {d : D} {data : List Nat} (hb : Begins data d) {m m' : M} (hm : Ready df m) (hm' : Ready df' m') :
    (∃ b k k', run X df m data = .ok (some b, k) ∧ run X df' m' data = .ok (some (n ^^ b), k') ∧ (m.coll = m'.coll → k.coll = k'.coll)) ∨
      (run X df m data = .panic ∧ run X df' m' data = .panic) := by
  have key := vRun_like hσ X hlike hval hl hl' hN hb.wf
  rcases run_document X hl hb hm with ⟨b, v, k, e1, e2, _, e4⟩ | ⟨e1, e2, _⟩
  · rcases run_document X hl' hb hm' with ⟨b', v', k', f1, f2, _, f4⟩ | ⟨f1, _, _⟩
    · rw [e1, f1] at key
      obtain ⟨k1, k2⟩ := key
      simp only at k1 k2
      exact Or.inl ⟨b, k, k', e2, by rw [f2, k1], fun hc => by rw [e4, f4, k2, hc]⟩
    · rw [e1, f1] at key; exact key.elim
  · rcases run_document X hl' hb hm' with ⟨b', v', k', f1, f2, _⟩ | ⟨f1, f2, _⟩
    · rw [e1, f1] at key; exact key.elim
    · exact Or.inr ⟨e2, f2⟩

mutual
  theorem compiles_push (C : Comp E) (w : Option Int) : ∀ (n : Bool) (e : Expr E), Compiles C w (pushNot n e) ↔ Compiles C w e
    | n, .not e => by rw [pushNot, compiles_push C w (!n) e, Compiles]
    | n, .or es => by
      have := compilesAll_push C w n es
      cases n <;> simpa only [pushNot, Bool.false_eq_true, if_false, if_true, Compiles] using this
    | n, .and es => by
      have := compilesAll_push C w n es
      cases n <;> simpa only [pushNot, Bool.false_eq_true, if_false, if_true, Compiles] using this
    | n, .exist e => by cases n <;> simp only [pushNot, Bool.false_eq_true, if_false, if_true, Compiles]
    | n, .notExist e => by cases n <;> simp only [pushNot, Bool.false_eq_true, if_false, if_true, Compiles]
    | n, .cmp c l r => by cases c <;> cases n <;> simp only [pushNot, Bool.false_eq_true, if_false, if_true, Compiles]
    | n, .loop m v i s => by cases n <;> simp only [pushNot, Bool.false_eq_true, if_false, if_true, Compiles]
    | n, .field _ => by cases n <;> simp only [pushNot, Bool.false_eq_true, if_false, if_true, Compiles]
    | n, .value _ => by cases n <;> simp only [pushNot, Bool.false_eq_true, if_false, if_true, Compiles]
    | n, .regex _ => by cases n <;> simp only [pushNot, Bool.false_eq_true, if_false, if_true, Compiles]
    | n, .pcre _ => by cases n <;> simp only [pushNot, Bool.false_eq_true, if_false, if_true, Compiles]
    | n, .func _ _ => by cases n <;> simp only [pushNot, Bool.false_eq_true, if_false, if_true, Compiles]
    | n, .time _ => by cases n <;> simp only [pushNot, Bool.false_eq_true, if_false, if_true, Compiles]
    | n, .tru => by cases n <;> simp only [pushNot, Bool.false_eq_true, if_false, if_true, Compiles]
    | n, .fals => by cases n <;> simp only [pushNot, Bool.false_eq_true, if_false, if_true, Compiles]

  theorem compilesAll_push (C : Comp E) (w : Option Int) (n : Bool) : ∀ es : Exprs E, CompilesAll C w (pushNots n es) ↔ CompilesAll C w es
    | .nil => by rw [pushNots]
    | .cons e .nil => by rw [pushNots, pushNots, CompilesAll, CompilesAll, compiles_push C w n e]
    | .cons e (.cons e' r) => by
      have := compilesAll_push C w n (.cons e' r)
      rw [pushNots] at this
      rw [pushNots, pushNots, CompilesAll, CompilesAll, compiles_push C w n e, this]
end

/-- **C101.**  An expression and its normal form compile, or fail to compile, together. -/
theorem C101_compiles (C : Comp E) (slot0 : Nat) (n : Bool) (e : Expr E) :
    (∃ df, transform C slot0 [e] = .ok df) ↔ ∃ df', transform C slot0 [pushNot n e] = .ok df' := by
  rw [(C86_compiles C slot0 [e]).1, (C86_compiles C slot0 [pushNot n e]).1]
  simp only [List.mem_cons, List.not_mem_nil, or_false, forall_eq, compiles_push]

/-- **C101.**  On every document the definition of the normal form has the same verdict; that of the normal form of the negation has the opposite one. -/
theorem C101_push (X : Fns E) (C : Comp E) (slot0 : Nat) (n : Bool) {e : Expr E} (hn : NotConst e) (hn' : NotConst (pushNot n e)) {df df' : Def E}
    (h : transform C slot0 [e] = .ok df) (h' : transform C slot0 [pushNot n e] = .ok df') {d : D} {data : List Nat} (hb : Begins data d) {m m' : M}
    (hm : Ready df m) (hm' : Ready df' m') :
    (∃ b k k', run X df m data = .ok (some b, k) ∧ run X df' m' data = .ok (some (n ^^ b), k') ∧ (m.coll = m'.coll → k.coll = k'.coll)) ∨
      (run X df m data = .panic ∧ run X df' m' data = .panic) := by
  have gen : ∀ {x : Expr E}, NotConst x → genExprs [x] = [x] := fun {x} hx => by
    cases x <;> first | rfl | exact absurd rfl hx.1 | exact absurd rfl hx.2
  obtain ⟨σ, hσ, hf⟩ := fits_exists n (shape e)
  have hc : Compiles C none e := (C86_compiles C slot0 [e]).1.1 ⟨df, h⟩ e (by simp)
  have hd := transform_push hσ C slot0 n e hf (gen hn) (gen hn')
  rw [h, h'] at hd
  obtain ⟨hd1, hd2⟩ := hd
  obtain ⟨node, hl, _⟩ := transform_laid C slot0 (gen hn) h
  obtain ⟨node', hl', _⟩ := transform_laid C slot0 (gen hn') h'
  have hnode : node' = renExec σ node := by
    have := hl'.parse
    rw [hd1, hl.parse] at this
    exact (Option.some.inj this).symm
  subst hnode
  have hl2 : df'.Laid (pushSh n (shape e)) (renExec σ node) := shape_push C n e hc ▸ hl'
  exact run_like hσ X (fits_like hσ (shape_neorFree e) hf) (fun p hp => evalM_push hσ p (shape e) n 0 0 (shape_neorFree e) hf hp) hl hl2 hd2 hb hm hm'

/-- **C101.**  Expressions with the same normal form have the same verdict on every document. -/
theorem C101_same (X : Fns E) (C : Comp E) (slot0 : Nat) {e e' : Expr E} (hs : pushNot false e = pushNot false e') (hn : NotConst e)
    (hn' : NotConst e') (hp : NotConst (pushNot false e)) {df df' : Def E} (h : transform C slot0 [e] = .ok df) (h' : transform C slot0 [e'] = .ok df')
    {d : D} {data : List Nat} (hb : Begins data d) {m m' : M} (hm : Ready df m) (hm' : Ready df' m') :
    (∃ b k k', run X df m data = .ok (some b, k) ∧ run X df' m' data = .ok (some b, k')) ∨
      (run X df m data = .panic ∧ run X df' m' data = .panic) := by
  obtain ⟨df1, h1⟩ := (C101_compiles C slot0 false e).1 ⟨df, h⟩
  rcases C101_push X C slot0 false hn hp h h1 hb hm (ready_new df1) with ⟨b, k, k1, e1, e2, _⟩ | ⟨e1, e2⟩
  · rcases C101_push X C slot0 false hn' (hs ▸ hp) h' (hs ▸ h1) hb hm' (ready_new df1) with ⟨b', k', k1', f1, f2, _⟩ | ⟨_, f2⟩
    · rw [e2] at f2
      simp only [Bool.false_xor, Res.ok.injEq, Prod.mk.injEq, Option.some.injEq] at f2
      exact Or.inl ⟨b, k, k', e1, by rw [f1, f2.1]⟩
    · rw [e2] at f2; cases f2
  · rcases C101_push X C slot0 false hn' (hs ▸ hp) h' (hs ▸ h1) hb hm' (ready_new df1) with ⟨b', k', k1', f1, f2, _⟩ | ⟨f1, _⟩
    · rw [e2] at f2; cases f2
    · exact Or.inr ⟨e1, f1⟩

/-- Each of the expressions negated. -/
def negateAll : Exprs E → Exprs E
  | .nil => .nil
  | .cons e r => .cons (.not e) (negateAll r)

theorem pushNots_negateAll (n : Bool) : ∀ es : Exprs E, pushNots n (negateAll es) = pushNots (!n) es
  | .nil => by rw [negateAll, pushNots, pushNots]
  | .cons e r => by rw [negateAll, pushNots, pushNots, pushNot, pushNots_negateAll n r]

/-- **C101.**  De Morgan's laws. -/
theorem C101_and (X : Fns E) (C : Comp E) (slot0 : Nat) {es : Exprs E} {df df' : Def E} (h : transform C slot0 [.not (.and es)] = .ok df)
    (h' : transform C slot0 [.or (negateAll es)] = .ok df') {d : D} {data : List Nat} (hb : Begins data d) {m m' : M} (hm : Ready df m)
    (hm' : Ready df' m') :
    (∃ b k k', run X df m data = .ok (some b, k) ∧ run X df' m' data = .ok (some b, k')) ∨
      (run X df m data = .panic ∧ run X df' m' data = .panic) :=
  C101_same X C slot0 (by simp [pushNot, pushNots_negateAll]) (by simp [NotConst]) (by simp [NotConst]) (by simp [NotConst, pushNot]) h h' hb hm hm'

theorem C101_or (X : Fns E) (C : Comp E) (slot0 : Nat) {es : Exprs E} {df df' : Def E} (h : transform C slot0 [.not (.or es)] = .ok df)
    (h' : transform C slot0 [.and (negateAll es)] = .ok df') {d : D} {data : List Nat} (hb : Begins data d) {m m' : M} (hm : Ready df m)
    (hm' : Ready df' m') :
    (∃ b k k', run X df m data = .ok (some b, k) ∧ run X df' m' data = .ok (some b, k')) ∨
      (run X df m data = .panic ∧ run X df' m' data = .panic) :=
  C101_same X C slot0 (by simp [pushNot, pushNots_negateAll]) (by simp [NotConst]) (by simp [NotConst]) (by simp [NotConst, pushNot]) h h' hb hm hm'

/-! ### Examples -/

/-- A disjunction of a loop in a loop that waits for two fields and a comparison, negated, and its normal form. -/
example : pushNot false (.not (.or (.cons demoNested (.cons (.not (.cmp .ne fieldA one)) .nil)))) =
    .and (.cons (.not demoNested) (.cons (.cmp .ne fieldA one) .nil)) := rfl

/-- Both compile, and have the same verdict on `{"a":[{"a":1,"b":2},{"a":1,"b":1}]}`. -/
example : ∃ df df', transform demoComp 0 [.not (.or (.cons demoNested (.cons (.not (.cmp .ne fieldA one)) .nil)))] = .ok df ∧
    transform demoComp 0 [.and (.cons (.not demoNested) (.cons (.cmp .ne fieldA one) .nil))] = .ok df' ∧
    ∃ b n n', run demoFns df (newMatcher df) textPairs = .ok (some b, n) ∧ run demoFns df' (newMatcher df') textPairs = .ok (some b, n') := by
  obtain ⟨df, h⟩ := (C86_compiles demoComp 0 [.not (.or (.cons demoNested (.cons (.not (.cmp .ne fieldA one)) .nil)))]).1.2 (by
    intro e he
    simp only [List.mem_cons, List.not_mem_nil, or_false] at he
    subst he
    simp only [Compiles, CompilesAll]
    refine ⟨demoNested_compiles, ?_⟩
    simp only [OkParam, occs, fieldA, one, Visible]
    refine ⟨by simp, by simp, by decide⟩)
  obtain ⟨df', h'⟩ := (C101_compiles demoComp 0 false _).1 ⟨df, h⟩
  refine ⟨df, df', h, h', ?_⟩
  obtain ⟨b, n, e⟩ := C95_verdict demoFns demoComp 0 h (e := .not (.or (.cons demoNested (.cons (.not (.cmp .ne fieldA one)) .nil)))) (by
    intro e he
    simp only [List.mem_cons, List.not_mem_nil, or_false] at he
    subst he; simp [demoNested, SafeE, SafeEs, SafeParam, fieldA, fieldB, one]) (by simp) (by simp [NotConst]) docPairs_text (ready_new df)
  rcases C101_push demoFns demoComp 0 false (by simp [NotConst]) (by simp [NotConst, pushNot]) h h' docPairs_text (ready_new df) (ready_new df') with
    ⟨b', n', n2, e1, e2, _⟩ | ⟨e1, _⟩
  · exact ⟨b', n', n2, e1, by simpa using e2⟩
  · rw [e] at e1; cases e1

/-- The normal form must not be a constant: the matcher of `NOT NOT TRUE` does not match an object, that of `TRUE` crashes on it. -/
example : pushNot false (.not (.not .tru) : Expr demoExt) = .tru ∧ verdictOn [(.not (.not .tru) : Expr demoExt)] [123, 125] = .ok (some false) ∧
    verdictOn [(.tru : Expr demoExt)] [123, 125] = .panic := by
  refine ⟨rfl, ?_⟩
  decide +kernel

end Verif.Transform
