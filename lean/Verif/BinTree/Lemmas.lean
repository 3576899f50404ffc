import Verif.BinTree.Model
import Verif.BinTree.Spec

/-! Helper lemmas about the decision-tree model. -/

namespace Verif.BinTree

open Res

def UnOp.ty : UnOp → NodeType
  | .not => .not
  | .loop => .loop

def BinOp.ty : BinOp → NodeType
  | .or => .or
  | .and => .and
  | .neor => .neor

@[simp] theorem UnOp.hasLeft (o : UnOp) : o.ty.hasLeft = true := by cases o <;> rfl
@[simp] theorem UnOp.hasRight (o : UnOp) : o.ty.hasRight = false := by cases o <;> rfl
@[simp] theorem BinOp.hasLeft (o : BinOp) : o.ty.hasLeft = true := by cases o <;> rfl
@[simp] theorem BinOp.hasRight (o : BinOp) : o.ty.hasRight = true := by cases o <;> rfl
@[simp] theorem leaf_hasLeft : NodeType.leaf.hasLeft = false := rfl
@[simp] theorem leaf_hasRight : NodeType.leaf.hasRight = false := rfl

theorem Sh.size_pos (s : Sh) : 0 < s.size := by cases s <;> simp [Sh.size]

/-- The array `t` contains, from position `b`, the preorder layout of `s`. -/
def Shaped (t : Tree) : Sh → Nat → Nat → Prop
  | .leaf, b, par => t[b]? = some ⟨.leaf, par, 0, 0⟩
  | .un o a, b, par => t[b]? = some ⟨o.ty, par, b + 1, 0⟩ ∧ Shaped t a (b + 1) b
  | .bin o a c, b, par =>
      t[b]? = some ⟨o.ty, par, b + 1, b + 1 + a.size⟩ ∧ Shaped t a (b + 1) b ∧
        Shaped t c (b + 1 + a.size) b

theorem Shaped.head {t : Tree} {s : Sh} {b par : Nat} (h : Shaped t s b par) :
    ∃ n, t[b]? = some n ∧ n.parent = par := by
  cases s with
  | leaf => exact ⟨_, h, rfl⟩
  | un o a => exact ⟨_, h.1, rfl⟩
  | bin o a c => exact ⟨_, h.1, rfl⟩

theorem Shaped.bound {t : Tree} {s : Sh} {b par : Nat} (h : Shaped t s b par) :
    b + s.size ≤ t.length := by
  induction s generalizing b par with
  | leaf =>
    have := List.getElem?_eq_some_iff.1 h
    obtain ⟨h, _⟩ := this
    simp [Sh.size]; omega
  | un o a ih => have := ih h.2; simp only [Sh.size]; omega
  | bin o a c iha ihc => have := ihc h.2.2; simp only [Sh.size]; omega

/-! ### Kleene value under a partial marking -/

/-- Three-valued meaning of a one-child node. -/
def kUn : UnOp → Option Bool → Option Bool
  | .not, x => x.map (!·)
  | .loop, x => x

/-- Three-valued meaning of a two-child node; `neor` waits for both. -/
def kBin : BinOp → Option Bool → Option Bool → Option Bool
  | .or, some true, _ => some true
  | .or, _, some true => some true
  | .or, some false, some false => some false
  | .or, _, _ => none
  | .and, some false, _ => some false
  | .and, _, some false => some false
  | .and, some true, some true => some true
  | .and, _, _ => none
  | .neor, some x, some y => some (x || y)
  | .neor, _, _ => none

/-- Value of the tree at `b` when the positions in `p` have been marked. -/
def K : Sh → Nat → (Nat → Option Bool) → Option Bool
  | .leaf, b, p => p b
  | .un o a, b, p => (p b).or (kUn o (K a (b + 1) p))
  | .bin o a c, b, p => (p b).or (kBin o (K a (b + 1) p) (K c (b + 1 + a.size) p))

def svOpt : Option Bool → SV
  | none => .unknown
  | some v => SV.ofBool v

@[simp] theorem svOpt_some (v : Bool) : svOpt (some v) = SV.ofBool v := rfl
@[simp] theorem svOpt_none : svOpt none = SV.unknown := rfl
@[simp] theorem ofBool_ne_unknown (v : Bool) : SV.ofBool v ≠ .unknown := by cases v <;> simp [SV.ofBool]
@[simp] theorem svOpt_eq_unknown (x : Option Bool) : svOpt x = .unknown ↔ x = none := by
  cases x <;> simp

/-- No undecided entry among positions `lo .. lo + n - 1`. -/
def Dead (d : List SV) (lo n : Nat) : Prop :=
  ∀ j, lo ≤ j → j < lo + n → ∃ x, d[j]? = some x ∧ x ≠ .unknown

/-- The state array `d` represents the marking `p` on the tree at `b`. -/
def Inv (d : List SV) (p : Nat → Option Bool) : Sh → Nat → Prop
  | .leaf, b => d[b]? = some (svOpt (p b))
  | .un o a, b =>
      d[b]? = some (svOpt (K (.un o a) b p)) ∧
        (if K (.un o a) b p = none then Inv d p a (b + 1) else Dead d (b + 1) a.size)
  | .bin o a c, b =>
      d[b]? = some (svOpt (K (.bin o a c) b p)) ∧
        (if K (.bin o a c) b p = none ∨ (o = .neor ∧ p b = none) then
          Inv d p a (b + 1) ∧ Inv d p c (b + 1 + a.size)
         else Dead d (b + 1) a.size ∧ Dead d (b + 1 + a.size) c.size)

theorem Inv.root {d p} {s : Sh} {b : Nat} (h : Inv d p s b) : d[b]? = some (svOpt (K s b p)) := by
  cases s with
  | leaf => exact h
  | un o a => exact h.1
  | bin o a c => exact h.1

theorem Dead.mono {d : List SV} {lo n lo' n' : Nat} (h : Dead d lo n) (h1 : lo ≤ lo')
    (h2 : lo' + n' ≤ lo + n) : Dead d lo' n' := fun j hj hj' => h j (by omega) (by omega)

/-- Settled nodes have only settled nodes below. -/
def Closed (d : List SV) : Sh → Nat → Prop
  | .leaf, _ => True
  | .un _ a, b => (d[b]? ≠ some .unknown → Dead d (b + 1) a.size) ∧ Closed d a (b + 1)
  | .bin _ a c, b =>
      (d[b]? ≠ some .unknown → Dead d (b + 1) a.size ∧ Dead d (b + 1 + a.size) c.size) ∧
        Closed d a (b + 1) ∧ Closed d c (b + 1 + a.size)

theorem Dead.closed {d : List SV} {s : Sh} {b : Nat} (h : Dead d b s.size) : Closed d s b := by
  induction s generalizing b with
  | leaf => trivial
  | un o a ih =>
    have ha : Dead d (b + 1) a.size := h.mono (by omega) (by simp only [Sh.size]; omega)
    exact ⟨fun _ => ha, ih ha⟩
  | bin o a c iha ihc =>
    have ha : Dead d (b + 1) a.size := h.mono (by omega) (by simp only [Sh.size]; omega)
    have hc : Dead d (b + 1 + a.size) c.size := h.mono (by omega) (by simp only [Sh.size]; omega)
    exact ⟨fun _ => ⟨ha, hc⟩, iha ha, ihc hc⟩

theorem Closed.dead {d : List SV} {s : Sh} {b : Nat} (h : Closed d s b) {x : SV}
    (hx : d[b]? = some x) (hu : x ≠ .unknown) : Dead d b s.size := by
  have hb : d[b]? ≠ some .unknown := by rw [hx]; simpa using hu
  cases s with
  | leaf =>
    intro j h1 h2
    have : j = b := by simp only [Sh.size] at h2; omega
    subst this; exact ⟨x, hx, hu⟩
  | un o a =>
    intro j h1 h2
    simp only [Sh.size] at h2
    by_cases hj : j = b
    · subst hj; exact ⟨x, hx, hu⟩
    · exact h.1 hb j (by omega) (by omega)
  | bin o a c =>
    intro j h1 h2
    simp only [Sh.size] at h2
    by_cases hj : j = b
    · subst hj; exact ⟨x, hx, hu⟩
    · by_cases hj' : j < b + 1 + a.size
      · exact (h.1 hb).1 j (by omega) (by omega)
      · exact (h.1 hb).2 j (by omega) (by omega)

theorem kBin_neor_some {x y : Option Bool} (h : kBin .neor x y ≠ none) :
    x ≠ none ∧ y ≠ none := by
  cases x <;> cases y <;> simp_all [kBin]

theorem Inv.closed {d p} {s : Sh} {b : Nat} (h : Inv d p s b) : Closed d s b := by
  induction s generalizing b with
  | leaf => trivial
  | un o a ih =>
    obtain ⟨h0, h1⟩ := h
    by_cases hk : K (.un o a) b p = none
    · rw [if_pos hk] at h1
      refine ⟨fun hb => ?_, ih h1⟩
      rw [h0, hk] at hb; simp at hb
    · rw [if_neg hk] at h1
      exact ⟨fun _ => h1, h1.closed⟩
  | bin o a c iha ihc =>
    obtain ⟨h0, h1⟩ := h
    by_cases hk : K (.bin o a c) b p = none ∨ (o = .neor ∧ p b = none)
    · rw [if_pos hk] at h1
      refine ⟨fun hb => ?_, iha h1.1, ihc h1.2⟩
      rcases hk with hk | ⟨ho, hp⟩
      · rw [h0, hk] at hb; simp at hb
      · subst ho
        have hkk : K (.bin .neor a c) b p ≠ none := by
          intro hk; rw [h0, hk] at hb; simp at hb
        simp only [K, hp, Option.none_or] at hkk
        obtain ⟨ka, kc⟩ := kBin_neor_some hkk
        exact ⟨(iha h1.1).dead h1.1.root (by simpa using ka),
          (ihc h1.2).dead h1.2.root (by simpa using kc)⟩
    · rw [if_neg hk] at h1
      exact ⟨fun _ => h1, h1.1.closed, h1.2.closed⟩

/-! ### Congruence: only the block matters -/

theorem K_congr {s : Sh} {b : Nat} {p q : Nat → Option Bool}
    (h : ∀ j, b ≤ j → j < b + s.size → p j = q j) : K s b p = K s b q := by
  induction s generalizing b with
  | leaf => exact h b (by omega) (by simp [Sh.size])
  | un o a ih =>
    simp only [Sh.size] at h
    have e1 := ih (b := b + 1) (fun j h1 h2 => h j (by omega) (by omega))
    simp only [K, h b (by omega) (by omega), e1]
  | bin o a c iha ihc =>
    simp only [Sh.size] at h
    have e1 := iha (b := b + 1) (fun j h1 h2 => h j (by omega) (by omega))
    have e2 := ihc (b := b + 1 + a.size) (fun j h1 h2 => h j (by omega) (by omega))
    simp only [K, h b (by omega) (by omega), e1, e2]

theorem Dead_congr {d e : List SV} {lo n : Nat} (h : ∀ j, lo ≤ j → j < lo + n → d[j]? = e[j]?)
    (hd : Dead d lo n) : Dead e lo n := fun j h1 h2 => by
  rw [← h j h1 h2]; exact hd j h1 h2

theorem Inv_congr {s : Sh} {b : Nat} {d e : List SV} {p q : Nat → Option Bool}
    (hd : ∀ j, b ≤ j → j < b + s.size → d[j]? = e[j]?)
    (hp : ∀ j, b ≤ j → j < b + s.size → p j = q j) (h : Inv d p s b) : Inv e q s b := by
  induction s generalizing b with
  | leaf =>
    have h1 := hd b (by omega) (by simp [Sh.size])
    have h2 := hp b (by omega) (by simp [Sh.size])
    simp only [Inv] at h ⊢
    rw [← h1, ← h2]; exact h
  | un o a ih =>
    have hk := K_congr hp
    obtain ⟨h0, h1⟩ := h
    simp only [Sh.size] at hd hp
    refine ⟨by rw [← hd b (by omega) (by omega), ← hk]; exact h0, ?_⟩
    rw [← hk]
    split at h1
    · rename_i hn; rw [if_pos hn]
      exact ih (fun j h1 h2 => hd j (by omega) (by omega)) (fun j h1 h2 => hp j (by omega) (by omega)) h1
    · rename_i hn; rw [if_neg hn]
      exact Dead_congr (fun j h1 h2 => hd j (by omega) (by omega)) h1
  | bin o a c iha ihc =>
    have hk := K_congr hp
    obtain ⟨h0, h1⟩ := h
    simp only [Sh.size] at hd hp
    refine ⟨by rw [← hd b (by omega) (by omega), ← hk]; exact h0, ?_⟩
    rw [← hk, ← hp b (by omega) (by omega)]
    split at h1
    · rename_i hn; rw [if_pos hn]
      exact ⟨iha (fun j h1 h2 => hd j (by omega) (by omega)) (fun j h1 h2 => hp j (by omega) (by omega)) h1.1,
        ihc (fun j h1 h2 => hd j (by omega) (by omega)) (fun j h1 h2 => hp j (by omega) (by omega)) h1.2⟩
    · rename_i hn; rw [if_neg hn]
      exact ⟨Dead_congr (fun j h1 h2 => hd j (by omega) (by omega)) h1.1,
        Dead_congr (fun j h1 h2 => hd j (by omega) (by omega)) h1.2⟩

theorem Closed_congr {s : Sh} {b : Nat} {d e : List SV}
    (hd : ∀ j, b ≤ j → j < b + s.size → d[j]? = e[j]?) (h : Closed d s b) : Closed e s b := by
  induction s generalizing b with
  | leaf => trivial
  | un o a ih =>
    simp only [Sh.size] at hd
    refine ⟨fun hb => ?_, ih (fun j h1 h2 => hd j (by omega) (by omega)) h.2⟩
    rw [← hd b (by omega) (by omega)] at hb
    exact Dead_congr (fun j h1 h2 => hd j (by omega) (by omega)) (h.1 hb)
  | bin o a c iha ihc =>
    simp only [Sh.size] at hd
    refine ⟨fun hb => ?_, iha (fun j h1 h2 => hd j (by omega) (by omega)) h.2.1,
      ihc (fun j h1 h2 => hd j (by omega) (by omega)) h.2.2⟩
    rw [← hd b (by omega) (by omega)] at hb
    exact ⟨Dead_congr (fun j h1 h2 => hd j (by omega) (by omega)) (h.1 hb).1,
      Dead_congr (fun j h1 h2 => hd j (by omega) (by omega)) (h.1 hb).2⟩

/-! ### resolveRecursive -/

/-- `unknown ↦ resolved`, everything else unchanged. -/
def res : SV → SV
  | .unknown => .resolved
  | x => x

theorem res_of_ne {x : SV} (h : x ≠ .unknown) : res x = x := by cases x <;> simp_all [res]
theorem res_ne (x : SV) : res x ≠ .unknown := by cases x <;> simp [res]

/-- Children of the node are closed. -/
def ClosedKids (d : List SV) : Sh → Nat → Prop
  | .leaf, _ => True
  | .un _ a, b => Closed d a (b + 1)
  | .bin _ a c, b => Closed d a (b + 1) ∧ Closed d c (b + 1 + a.size)

theorem Closed.kids {d : List SV} {s : Sh} {b : Nat} (h : Closed d s b) : ClosedKids d s b := by
  cases s with
  | leaf => trivial
  | un o a => exact h.2
  | bin o a c => exact h.2

theorem ClosedKids_congr {s : Sh} {b : Nat} {d e : List SV}
    (hd : ∀ j, b < j → j < b + s.size → d[j]? = e[j]?) (h : ClosedKids d s b) : ClosedKids e s b := by
  cases s with
  | leaf => trivial
  | un o a => simp only [Sh.size] at hd; exact Closed_congr (fun j h1 h2 => hd j (by omega) (by omega)) h
  | bin o a c =>
    simp only [Sh.size] at hd
    exact ⟨Closed_congr (fun j h1 h2 => hd j (by omega) (by omega)) h.1,
      Closed_congr (fun j h1 h2 => hd j (by omega) (by omega)) h.2⟩

/-- `d'` is `d` with the undecided entries at positions satisfying `P` replaced by `resolved`. -/
def ResOn (P : Nat → Prop) (d d' : List SV) : Prop :=
  d'.length = d.length ∧ (∀ j, P j → d'[j]? = (d[j]?).map res) ∧ (∀ j, ¬ P j → d'[j]? = d[j]?)

/-- One child step of `resolveRecursive`. -/
theorem resolveVisit_spec {s : Sh} {b : Nat} {rec : List SV → Nat → Res (List SV)} {d : List SV}
    (hrec : ∀ d, ClosedKids d s b → b + s.size ≤ d.length →
      ∃ d', rec d b = .ok d' ∧ ResOn (fun j => b < j ∧ j < b + s.size) d d')
    (hc : Closed d s b) (hl : b + s.size ≤ d.length) :
    ∃ d', resolveVisit rec d b = .ok d' ∧ ResOn (fun j => b ≤ j ∧ j < b + s.size) d d' := by
  have hpos := s.size_pos
  have hb : b < d.length := by omega
  have hidx : d[b]? = some d[b] := List.getElem?_eq_getElem hb
  rw [resolveVisit, Res.idx_of_some hidx]
  simp only [Res.bind_ok]
  by_cases hu : d[b] = .unknown
  · rw [if_pos hu]
    obtain ⟨d', h1, h2, h3, h4⟩ := hrec (d.set b .resolved)
      (ClosedKids_congr (fun j h1 h2 => by rw [List.getElem?_set_ne (by omega)]) hc.kids) (by simpa using hl)
    refine ⟨d', h1, by simpa using h2, fun j hj => ?_, fun j hj => ?_⟩
    · by_cases hj' : j = b
      · subst hj'
        rw [h4 j (by omega), hidx, hu]
        simp [hb, res]
      · rw [h3 j (by omega), List.getElem?_set_ne (by omega)]
    · rw [h4 j (by omega), List.getElem?_set_ne (by omega)]
  · rw [if_neg hu]
    refine ⟨d, rfl, rfl, fun j hj => ?_, fun j _ => rfl⟩
    obtain ⟨x, hx, hx'⟩ := hc.dead hidx hu j hj.1 hj.2
    rw [hx]; simp [res_of_ne hx']

theorem resolveRecursive_spec {t : Tree} {s : Sh} {b par : Nat} (hs : Shaped t s b par) :
    ∀ fuel, s.size ≤ fuel → ∀ d, ClosedKids d s b → b + s.size ≤ d.length →
      ∃ d', resolveRecursive t fuel d b = .ok d' ∧ ResOn (fun j => b < j ∧ j < b + s.size) d d' := by
  induction s generalizing b par with
  | leaf =>
    intro fuel hf d hc hl
    obtain ⟨fuel, rfl⟩ : ∃ f, fuel = f + 1 := ⟨fuel - 1, by simp [Sh.size] at hf; omega⟩
    refine ⟨d, ?_, rfl, fun j hj => ?_, fun j _ => rfl⟩
    · have hs' : t[b]? = some ⟨.leaf, par, 0, 0⟩ := hs
      simp [resolveRecursive, Res.idx_of_some hs']
    · simp only [Sh.size] at hj; omega
  | un o a ih =>
    intro fuel hf d hc hl
    simp only [Sh.size] at hf hl
    obtain ⟨fuel, rfl⟩ : ∃ f, fuel = f + 1 := ⟨fuel - 1, by omega⟩
    obtain ⟨d', h1, h2, h3, h4⟩ := resolveVisit_spec (s := a) (b := b + 1) (d := d)
      (fun d => ih hs.2 fuel (by omega) d) hc (by omega)
    refine ⟨d', ?_, h2, fun j hj => ?_, fun j hj => ?_⟩
    · simp only [resolveRecursive, Res.idx_of_some hs.1, Res.bind_ok, UnOp.hasLeft, if_true,
        UnOp.hasRight, h1]
      simp
    · simp only [Sh.size] at hj; exact h3 j (by omega)
    · simp only [Sh.size] at hj; exact h4 j (by omega)
  | bin o a c iha ihc =>
    intro fuel hf d hc hl
    simp only [Sh.size] at hf hl
    obtain ⟨fuel, rfl⟩ : ∃ f, fuel = f + 1 := ⟨fuel - 1, by omega⟩
    obtain ⟨d1, h1, h2, h3, h4⟩ := resolveVisit_spec (s := a) (b := b + 1) (d := d)
      (fun d => iha hs.2.1 fuel (by omega) d) hc.1 (by omega)
    have hcc : Closed d1 c (b + 1 + a.size) :=
      Closed_congr (fun j hj1 hj2 => by rw [h4 j (by omega)]) hc.2
    obtain ⟨d2, g1, g2, g3, g4⟩ := resolveVisit_spec (s := c) (b := b + 1 + a.size) (d := d1)
      (fun d => ihc hs.2.2 fuel (by omega) d) hcc (by omega)
    refine ⟨d2, ?_, by omega, fun j hj => ?_, fun j hj => ?_⟩
    · simp only [resolveRecursive, Res.idx_of_some hs.1, Res.bind_ok, BinOp.hasLeft, if_true,
        BinOp.hasRight, h1, g1]
    · simp only [Sh.size] at hj
      by_cases hj' : j < b + 1 + a.size
      · rw [g4 j (by omega), h3 j (by omega)]
      · rw [g3 j (by omega), h4 j (by omega)]
    · simp only [Sh.size] at hj; rw [g4 j (by omega), h4 j (by omega)]

/-! ### checkNode -/

theorem checkNode_un {t : Tree} {d : List SV} {b par : Nat} {o : UnOp} {x : Option Bool}
    (ht : t[b]? = some ⟨o.ty, par, b + 1, 0⟩) (hx : d[b + 1]? = some (svOpt x)) :
    checkNode t d b = .ok (kUn o x) := by
  rw [checkNode, Res.idx_of_some ht]
  rcases o with _ | _ <;> rcases x with _ | (_ | _) <;>
    simp [UnOp.ty, Res.idx_of_some hx, kUn, SV.ofBool]

theorem checkNode_bin {t : Tree} {d : List SV} {b par r : Nat} {o : BinOp} {x y : Option Bool}
    (ht : t[b]? = some ⟨o.ty, par, b + 1, r⟩) (hx : d[b + 1]? = some (svOpt x))
    (hy : d[r]? = some (svOpt y)) :
    checkNode t d b = .ok (kBin o x y) := by
  rw [checkNode, Res.idx_of_some ht]
  rcases o with _ | _ | _ <;> rcases x with _ | (_ | _) <;> rcases y with _ | (_ | _) <;>
    simp [BinOp.ty, Res.idx_of_some hx, Res.idx_of_some hy, kBin, SV.ofBool]

/-! ### MarkNode -/

/-- What `MarkNode` does after `resolveRecursive`. -/
def up (t : Tree) (stall fuel : Nat) (d : List SV) (i : Nat) : Res (List SV) :=
  if i = 0 then .ok d else if i = stall then .ok d else
    (Res.idx t i) >>= fun n => (checkNode t d n.parent) >>= fun r =>
      match r with
      | none => .ok d
      | some w => markNodeAux t stall fuel d n.parent w

theorem markNodeAux_succ (t : Tree) (stall fuel : Nat) (d : List SV) (i : Nat) (v : Bool)
    (h : d[i]? = some .unknown) :
    markNodeAux t stall (fuel + 1) d i v =
      (resolveRecursive t t.length (d.set i (SV.ofBool v)) i) >>= fun d => up t stall fuel d i := by
  rw [markNodeAux, Res.idx_of_some h]
  simp only [Res.bind_ok, ne_eq, not_true_eq_false, if_false]
  rfl

/-- Marking updates. -/
def upd (p : Nat → Option Bool) (i : Nat) (v : Bool) : Nat → Option Bool :=
  fun j => if j = i then some v else p j

theorem upd_self (p i v) : upd p i v i = some v := by simp [upd]
theorem upd_ne (p) {i j : Nat} (v) (h : j ≠ i) : upd p i v j = p j := by simp [upd, h]

theorem K_of_mark {s : Sh} {b : Nat} {p : Nat → Option Bool} {v : Bool} (h : p b = some v) :
    K s b p = some v := by cases s <;> simp [K, h]

theorem Inv.not_live {d p} {s : Sh} {b i : Nat} (h : Inv d p s b) (h1 : b ≤ i) (h2 : i < b + s.size)
    (hi : d[i]? = some .unknown) : K s b p = none := by
  by_cases hk : K s b p = none
  · exact hk
  · obtain ⟨x, hx, hx'⟩ := h.closed.dead h.root (by simpa using hk) i h1 h2
    rw [hi] at hx; simp at hx; exact absurd hx.symm hx'

/-- Marking the root of the block: everything below becomes settled. -/
theorem Inv.mark_root {t : Tree} {d : List SV} {s : Sh} {b par : Nat} (hs : Shaped t s b par)
    (hl : d.length = t.length) (h : Closed d s b) (hb : d[b]? = some .unknown) (v : Bool)
    (q : Nat → Option Bool) (hq : K s b q = some v)
    (hqn : ∀ a c, s = .bin .neor a c → q b = none → Inv d q a (b + 1) ∧ Inv d q c (b + 1 + a.size)) :
    ∃ d', resolveRecursive t t.length (d.set b (SV.ofBool v)) b = .ok d' ∧ Inv d' q s b ∧
      d'.length = d.length ∧ (∀ j, j < b ∨ b + s.size ≤ j → d'[j]? = d[j]?) := by
  have hbd := hs.bound
  have hbl : b < d.length := (List.getElem?_eq_some_iff.1 hb).1
  obtain ⟨d', h1, h2, h3, h4⟩ := resolveRecursive_spec hs t.length (by omega) (d.set b (SV.ofBool v))
    (ClosedKids_congr (fun j h1 h2 => by rw [List.getElem?_set_ne (by omega)]) h.kids)
    (by simp; omega)
  have hlen : d'.length = d.length := by simpa using h2
  have hroot : d'[b]? = some (SV.ofBool v) := by rw [h4 b (by omega)]; simp [hbl]
  have hdead : ∀ j, b < j → j < b + s.size → ∃ x, d'[j]? = some x ∧ x ≠ .unknown := by
    intro j j1 j2
    have : j < d.length := by omega
    refine ⟨res d[j], ?_, res_ne _⟩
    rw [h3 j ⟨j1, j2⟩, List.getElem?_set_ne (by omega), List.getElem?_eq_getElem this]; rfl
  refine ⟨d', h1, ?_, hlen, fun j hj => ?_⟩
  · cases s with
    | leaf => simp only [K] at hq; simp [Inv, hq, hroot]
    | un o a =>
      refine ⟨by rw [hq]; exact hroot, ?_⟩
      rw [if_neg (by simp [hq])]
      intro j j1 j2; exact hdead j (by omega) (by simp only [Sh.size]; omega)
    | bin o a c =>
      refine ⟨by rw [hq]; exact hroot, ?_⟩
      by_cases hn : o = .neor ∧ q b = none
      · rw [if_pos (Or.inr hn)]
        obtain ⟨ho, hqb⟩ := hn
        subst ho
        obtain ⟨ia, ic⟩ := hqn a c rfl hqb
        have hk : kBin .neor (K a (b + 1) q) (K c (b + 1 + a.size) q) ≠ none := by
          have := hq; simp only [K, hqb, Option.none_or] at this; simp [this]
        obtain ⟨ka, kc⟩ := kBin_neor_some hk
        have da := ia.closed.dead ia.root (by simpa using ka)
        have dc := ic.closed.dead ic.root (by simpa using kc)
        constructor
        · refine Inv_congr (fun j j1 j2 => ?_) (fun j _ _ => rfl) ia
          obtain ⟨x, hx, hx'⟩ := da j j1 j2
          rw [h3 j ⟨by omega, by simp only [Sh.size]; omega⟩, List.getElem?_set_ne (by omega), hx]
          simp [res_of_ne hx']
        · refine Inv_congr (fun j j1 j2 => ?_) (fun j _ _ => rfl) ic
          obtain ⟨x, hx, hx'⟩ := dc j j1 j2
          rw [h3 j ⟨by omega, by simp only [Sh.size]; omega⟩, List.getElem?_set_ne (by omega), hx]
          simp [res_of_ne hx']
      · rw [if_neg (by simp [hq]; intro h; exact fun h' => hn ⟨h, h'⟩)]
        constructor
        · intro j j1 j2; exact hdead j (by omega) (by simp only [Sh.size]; omega)
        · intro j j1 j2; exact hdead j (by omega) (by simp only [Sh.size]; omega)
  · rw [h4 j (by omega), List.getElem?_set_ne]
    have := s.size_pos; omega

/-- Outcome of marking a live node `i` inside the block of `s` at `b`. -/
theorem mark_sub {t : Tree} {stall : Nat} {s : Sh} {b par : Nat} (hs : Shaped t s b par)
    (hstall : stall ≤ b ∨ b + s.size ≤ stall) {d : List SV} {p : Nat → Option Bool}
    (hl : d.length = t.length) (hI : Inv d p s b) {i : Nat} (h1 : b ≤ i) (h2 : i < b + s.size)
    (hi : d[i]? = some .unknown) (v : Bool) :
    ∃ k d', k < s.size ∧ Inv d' (upd p i v) s b ∧ d'.length = d.length ∧
      (∀ j, j < b ∨ b + s.size ≤ j → d'[j]? = d[j]?) ∧
      ∀ f, markNodeAux t stall (f + k + 1) d i v =
        if K s b (upd p i v) = none then .ok d' else up t stall f d' b := by
  have hK := hI.not_live h1 h2 hi
  have hbu : d[b]? = some .unknown := by rw [hI.root, hK]; rfl
  by_cases hib : i = b
  · subst hib
    have hk : K s i (upd p i v) = some v := K_of_mark (upd_self _ _ _)
    obtain ⟨d', e1, e2, e3, e4⟩ := Inv.mark_root hs hl hI.closed hbu v (upd p i v) hk
      (fun a c _ hq => by simp [upd_self] at hq)
    refine ⟨0, d', s.size_pos, e2, e3, e4, fun f => ?_⟩
    rw [hk, if_neg (by simp), Nat.add_zero, markNodeAux_succ _ _ _ _ _ _ hi, e1]
    rfl
  · induction s generalizing b par with
    | leaf => simp only [Sh.size] at h2; omega
    | un o a ih =>
      simp only [Sh.size] at h2 hstall ⊢
      have hpb : p b = none := by
        cases hp : p b with
        | none => rfl
        | some w => rw [K_of_mark hp] at hK; simp at hK
      have hIa : Inv d p a (b + 1) := by have := hI.2; rwa [if_pos hK] at this
      have hKa := hIa.not_live (by omega) (by omega) hi
      have hq : upd p i v b = none := by rw [upd_ne _ _ (by omega), hpb]
      -- the child
      have child : ∃ k d', k < a.size ∧ Inv d' (upd p i v) a (b + 1) ∧ d'.length = d.length ∧
          (∀ j, j < b + 1 ∨ b + 1 + a.size ≤ j → d'[j]? = d[j]?) ∧
          ∀ f, markNodeAux t stall (f + k + 1) d i v =
            if K a (b + 1) (upd p i v) = none then .ok d' else up t stall f d' (b + 1) := by
        have hau : d[b + 1]? = some .unknown := by rw [hIa.root, hKa]; rfl
        by_cases hib' : i = b + 1
        · subst hib'
          have hk : K a (b + 1) (upd p (b + 1) v) = some v := K_of_mark (upd_self _ _ _)
          obtain ⟨d', e1, e2, e3, e4⟩ := Inv.mark_root hs.2 hl hIa.closed hau v (upd p (b + 1) v) hk
            (fun a c _ hq => by simp [upd_self] at hq)
          refine ⟨0, d', a.size_pos, e2, e3, e4, fun f => ?_⟩
          rw [hk, if_neg (by simp), Nat.add_zero, markNodeAux_succ _ _ _ _ _ _ hi, e1]
          rfl
        · exact ih hs.2 (by omega) hIa (by omega) (by omega) hKa hau hib'
      obtain ⟨k, d1, hk, hI1, hl1, hf1, hm⟩ := child
      have hd1b : d1[b]? = some .unknown := by rw [hf1 b (by omega)]; exact hbu
      have hKs : K (.un o a) b (upd p i v) = kUn o (K a (b + 1) (upd p i v)) := by
        simp [K, hq]
      by_cases hKa' : K a (b + 1) (upd p i v) = none
      · -- child still open
        have hKs' : K (.un o a) b (upd p i v) = none := by
          rw [hKs, hKa']; cases o <;> rfl
        refine ⟨k + 1, d1, by omega, ⟨by rw [hd1b, hKs']; rfl, by rw [if_pos hKs']; exact hI1⟩, hl1,
          fun j hj => hf1 j (by omega), fun f => ?_⟩
        rw [if_pos hKs', show f + (k + 1) + 1 = (f + 1) + k + 1 by omega, hm, if_pos hKa']
      · have hup : ∀ f, up t stall f d1 (b + 1) =
            match K (.un o a) b (upd p i v) with
            | none => .ok d1
            | some w => markNodeAux t stall f d1 b w := by
          intro f
          obtain ⟨n, hn, hnp⟩ := hs.2.head
          rw [up, if_neg (by omega), if_neg (by omega), Res.idx_of_some hn]
          simp only [Res.bind_ok, hnp]
          rw [checkNode_un hs.1 hI1.root, hKs]
          rfl
        cases hKs' : K (.un o a) b (upd p i v) with
        | none =>
          rw [hKs'] at hup
          refine ⟨k + 1, d1, by omega, ⟨by rw [hd1b, hKs']; rfl, by rw [if_pos hKs']; exact hI1⟩, hl1,
            fun j hj => hf1 j (by omega), fun f => ?_⟩
          rw [if_pos rfl, show f + (k + 1) + 1 = (f + 1) + k + 1 by omega, hm, if_neg hKa', hup]
        | some w =>
          rw [hKs'] at hup
          have hcl : Closed d1 (.un o a) b :=
            ⟨fun hb => absurd hd1b hb, hI1.closed⟩
          obtain ⟨d2, e1, e2, e3, e4⟩ := Inv.mark_root hs (by omega) hcl hd1b w (upd p i v) hKs'
            (fun a c h _ => by simp at h)
          refine ⟨k + 1, d2, by omega, e2, by omega, fun j hj => ?_, fun f => ?_⟩
          · rw [e4 j (by simp only [Sh.size]; omega), hf1 j (by omega)]
          · rw [if_neg (by simp), show f + (k + 1) + 1 = (f + 1) + k + 1 by omega, hm, if_neg hKa', hup]
            simp only
            rw [markNodeAux_succ _ _ _ _ _ _ hd1b, e1]
            rfl
    | bin o a c iha ihc =>
      simp only [Sh.size] at h2 hstall ⊢
      have hpb : p b = none := by
        cases hp : p b with
        | none => rfl
        | some w => rw [K_of_mark hp] at hK; simp at hK
      obtain ⟨hIa, hIc⟩ : Inv d p a (b + 1) ∧ Inv d p c (b + 1 + a.size) := by
        have := hI.2; rwa [if_pos (Or.inl hK)] at this
      have hq : upd p i v b = none := by rw [upd_ne _ _ (by omega), hpb]
      -- generic description of the child containing `i`
      have child : ∃ e sz k d1, (b + 1 ≤ e ∧ e + sz ≤ b + (a.size + c.size + 1)) ∧
          (∃ n, t[e]? = some n ∧ n.parent = b) ∧ k < sz ∧ sz ≤ a.size + c.size ∧
          Inv d1 (upd p i v) a (b + 1) ∧ Inv d1 (upd p i v) c (b + 1 + a.size) ∧
          d1.length = d.length ∧ (∀ j, j < e ∨ e + sz ≤ j → d1[j]? = d[j]?) ∧
          ∃ o' : Option Bool, (o' = none → K (.bin o a c) b (upd p i v) = none) ∧
          ∀ f, markNodeAux t stall (f + k + 1) d i v =
            if o' = none then .ok d1 else up t stall f d1 e := by
        by_cases hside : i < b + 1 + a.size
        · have hKa := hIa.not_live (by omega) (by omega) hi
          have hau : d[b + 1]? = some .unknown := by rw [hIa.root, hKa]; rfl
          have hKc : K c (b + 1 + a.size) (upd p i v) = K c (b + 1 + a.size) p :=
            K_congr (fun j j1 j2 => upd_ne _ _ (by omega))
          have ch : ∃ k d', k < a.size ∧ Inv d' (upd p i v) a (b + 1) ∧ d'.length = d.length ∧
              (∀ j, j < b + 1 ∨ b + 1 + a.size ≤ j → d'[j]? = d[j]?) ∧
              ∀ f, markNodeAux t stall (f + k + 1) d i v =
                if K a (b + 1) (upd p i v) = none then .ok d' else up t stall f d' (b + 1) := by
            by_cases hib' : i = b + 1
            · subst hib'
              have hk : K a (b + 1) (upd p (b + 1) v) = some v := K_of_mark (upd_self _ _ _)
              obtain ⟨d', e1, e2, e3, e4⟩ := Inv.mark_root hs.2.1 hl hIa.closed hau v (upd p (b + 1) v) hk
                (fun a c _ hq => by simp [upd_self] at hq)
              refine ⟨0, d', a.size_pos, e2, e3, e4, fun f => ?_⟩
              rw [hk, if_neg (by simp), Nat.add_zero, markNodeAux_succ _ _ _ _ _ _ hi, e1]
              rfl
            · exact iha hs.2.1 (by omega) hIa (by omega) (by omega) hKa hau hib'
          obtain ⟨k, d1, hk, hI1, hl1, hf1, hm⟩ := ch
          refine ⟨b + 1, a.size, k, d1, by omega, hs.2.1.head, hk, by omega, hI1,
            Inv_congr (fun j j1 j2 => (hf1 j (by omega)).symm) (fun j j1 j2 => (upd_ne _ _ (by omega)).symm) hIc,
            hl1, hf1, K a (b + 1) (upd p i v), fun h => ?_, hm⟩
          simp only [K, hq, Option.none_or, h, hKc]
          simp only [K, hpb, Option.none_or, hKa] at hK
          exact hK
        · have hKc := hIc.not_live (by omega) (by omega) hi
          have hcu : d[b + 1 + a.size]? = some .unknown := by rw [hIc.root, hKc]; rfl
          have hKa : K a (b + 1) (upd p i v) = K a (b + 1) p :=
            K_congr (fun j j1 j2 => upd_ne _ _ (by omega))
          have ch : ∃ k d', k < c.size ∧ Inv d' (upd p i v) c (b + 1 + a.size) ∧ d'.length = d.length ∧
              (∀ j, j < b + 1 + a.size ∨ b + 1 + a.size + c.size ≤ j → d'[j]? = d[j]?) ∧
              ∀ f, markNodeAux t stall (f + k + 1) d i v =
                if K c (b + 1 + a.size) (upd p i v) = none then .ok d'
                else up t stall f d' (b + 1 + a.size) := by
            by_cases hib' : i = b + 1 + a.size
            · subst hib'
              have hk : K c (b + 1 + a.size) (upd p (b + 1 + a.size) v) = some v := K_of_mark (upd_self _ _ _)
              obtain ⟨d', e1, e2, e3, e4⟩ := Inv.mark_root hs.2.2 hl hIc.closed hcu v
                (upd p (b + 1 + a.size) v) hk (fun a c _ hq => by simp [upd_self] at hq)
              refine ⟨0, d', c.size_pos, e2, e3, e4, fun f => ?_⟩
              rw [hk, if_neg (by simp), Nat.add_zero, markNodeAux_succ _ _ _ _ _ _ hi, e1]
              rfl
            · exact ihc hs.2.2 (by omega) hIc (by omega) (by omega) hKc hcu hib'
          obtain ⟨k, d1, hk, hI1, hl1, hf1, hm⟩ := ch
          refine ⟨b + 1 + a.size, c.size, k, d1, by omega, hs.2.2.head, hk, by omega,
            Inv_congr (fun j j1 j2 => (hf1 j (by omega)).symm) (fun j j1 j2 => (upd_ne _ _ (by omega)).symm) hIa,
            hI1, hl1, hf1, K c (b + 1 + a.size) (upd p i v), fun h => ?_, hm⟩
          simp only [K, hq, Option.none_or, h, hKa]
          simp only [K, hpb, Option.none_or, hKc] at hK
          exact hK
      obtain ⟨e, sz, k, d1, he, ⟨n, hn, hnp⟩, hk, hsz, hI1a, hI1c, hl1, hf1, o', ho', hm⟩ := child
      have hd1b : d1[b]? = some .unknown := by rw [hf1 b (by omega)]; exact hbu
      have hKs : K (.bin o a c) b (upd p i v) =
          kBin o (K a (b + 1) (upd p i v)) (K c (b + 1 + a.size) (upd p i v)) := by
        simp [K, hq]
      have hup : ∀ f, up t stall f d1 e =
          match K (.bin o a c) b (upd p i v) with
          | none => .ok d1
          | some w => markNodeAux t stall f d1 b w := by
        intro f
        rw [up, if_neg (by omega), if_neg (by omega), Res.idx_of_some hn]
        simp only [Res.bind_ok, hnp]
        rw [checkNode_bin hs.1 hI1a.root hI1c.root, hKs]
        rfl
      cases hKs' : K (.bin o a c) b (upd p i v) with
      | none =>
        rw [hKs'] at hup
        refine ⟨k + 1, d1, by omega, ⟨by rw [hd1b, hKs']; rfl, by rw [if_pos (Or.inl hKs')]; exact ⟨hI1a, hI1c⟩⟩,
          hl1, fun j hj => hf1 j (by omega), fun f => ?_⟩
        rw [if_pos rfl, show f + (k + 1) + 1 = (f + 1) + k + 1 by omega, hm]
        split
        · rfl
        · rw [hup]
      | some w =>
        rw [hKs'] at hup
        have hcl : Closed d1 (.bin o a c) b :=
          ⟨fun hb => absurd hd1b hb, hI1a.closed, hI1c.closed⟩
        obtain ⟨d2, e1, e2, e3, e4⟩ := Inv.mark_root hs (by omega) hcl hd1b w (upd p i v) hKs'
          (fun a' c' h _ => by
            simp only [Sh.bin.injEq] at h
            obtain ⟨_, rfl, rfl⟩ := h; exact ⟨hI1a, hI1c⟩)
        refine ⟨k + 1, d2, by omega, e2, by omega, fun j hj => ?_, fun f => ?_⟩
        · rw [e4 j (by simp only [Sh.size]; omega), hf1 j (by omega)]
        · have ho'' : ¬ o' = none := fun h => by rw [ho' h] at hKs'; simp at hKs'
          rw [if_neg (by simp), show f + (k + 1) + 1 = (f + 1) + k + 1 by omega, hm, if_neg ho'', hup]
          simp only
          rw [markNodeAux_succ _ _ _ _ _ _ hd1b, e1]
          rfl

end Verif.BinTree
