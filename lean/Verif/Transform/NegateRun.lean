import Verif.Transform.Negate
import Verif.Transform.InSync
import Verif.Transform.MergedAny
import Verif.Transform.Damage

/-!
# Negation negates

C100: for everything that compiles, the definition of `NOT e` and that of `e` have opposite verdicts on every document.  The matcher is followed on
both definitions; the nodes of one are those of the other with bucket numbers one higher (`Verif.Transform.Negate`).
-/

namespace Verif.Transform
open Verif.Token Verif.FastVal Verif.Match Verif.Expr
open Verif.BinTree (Tree State Sh SV K Inv Shaped Fresh Dead)

variable {E : Ext}

/-! ### Positions one higher -/

/-- The decisions for the higher positions. -/
def higher (p : Nat → Option Bool) : Nat → Option Bool
  | 0 => none
  | i + 1 => p i

theorem higher_none : higher (fun _ => none) = fun _ => none := by funext i; cases i <;> rfl

theorem higher_also (p : Nat → Option Bool) (i : Nat) (x : Bool) : higher (also p [(i, x)]) = also (higher p) [(i + 1, x)] := by
  funext j
  cases j with
  | zero => simp [higher, also, Marks.get, List.lookup]
  | succ j =>
    simp only [higher, also, Marks.get, List.lookup]
    by_cases h : j = i
    · simp [h]
    · have h1 : (j == i) = false := by simpa using h
      have h2 : (j + 1 == i + 1) = false := by simpa using h
      rw [h1, h2]

theorem K_higher (p : Nat → Option Bool) : ∀ (s : Sh) (b : Nat), K s (b + 1) (higher p) = K s b p
  | .leaf, b => rfl
  | .un o a, b => by rw [K, K, K_higher p a (b + 1)]; rfl
  | .bin o a c, b => by
    rw [K, K, K_higher p a (b + 1), show b + 1 + 1 + a.size = b + 1 + a.size + 1 by omega, K_higher p c (b + 1 + a.size)]; rfl

theorem evalM_higher (p : Nat → Option Bool) : ∀ (s : Sh) (b : Nat), s.evalM (b + 1) (higher p) = s.evalM b p
  | .leaf, b => rfl
  | .un o a, b => by rw [Sh.evalM, Sh.evalM, evalM_higher p a (b + 1)]; rfl
  | .bin o a c, b => by
    rw [Sh.evalM, Sh.evalM, evalM_higher p a (b + 1), show b + 1 + 1 + a.size = b + 1 + a.size + 1 by omega, evalM_higher p c (b + 1 + a.size)]; rfl

theorem isAtom_higher : ∀ (s : Sh) (b i : Nat), IsAtom s b i → IsAtom s (b + 1) (i + 1)
  | .leaf, b, i, h => by simp only [IsAtom] at h ⊢; omega
  | .un .loop a, b, i, h => by simp only [IsAtom] at h ⊢; omega
  | .un .not a, b, i, h => isAtom_higher a (b + 1) i h
  | .bin o a c, b, i, h => by
    rcases h with h | h
    · exact Or.inl (isAtom_higher a _ i h)
    · refine Or.inr ?_
      rw [show b + 1 + 1 + a.size = b + 1 + a.size + 1 by omega]
      exact isAtom_higher c _ i h

theorem loopAt_higher : ∀ (s : Sh) (b i : Nat) (x : Sh), LoopAt s b i x → LoopAt s (b + 1) (i + 1) x
  | .leaf, b, i, _, h => h.elim
  | .un .loop a, b, i, _, h => ⟨by have := h.1; omega, h.2⟩
  | .un .not a, b, i, x, h => loopAt_higher a (b + 1) i x h
  | .bin o a c, b, i, x, h => by
    rcases h with h | h
    · exact Or.inl (loopAt_higher a _ i x h)
    · refine Or.inr ?_
      rw [show b + 1 + 1 + a.size = b + 1 + a.size + 1 by omega]
      exact loopAt_higher c _ i x h

theorem dead_ne {d : List SV} {lo n j : Nat} (h : Dead d lo n) (h1 : lo ≤ j) (h2 : j < lo + n) : d[j]? ≠ some .unknown := by
  obtain ⟨x, e, hx⟩ := h j h1 h2
  rw [e]; simpa using hx

/-- The decisions say which positions are undecided. -/
theorem inv_unknown {d d' : List SV} {p : Nat → Option Bool} : ∀ (s : Sh) (b : Nat), Inv d p s b → Inv d' (higher p) s (b + 1) →
    ∀ i, b ≤ i → i < b + s.size → (d[i]? = some .unknown ↔ d'[i + 1]? = some .unknown)
  | .leaf, b, h, h', i, h1, h2 => by
    have : i = b := by simp only [Sh.size] at h2; omega
    subst this
    have e := h.root; have e' := h'.root
    rw [K_higher] at e'
    rw [e, e']
  | .un o a, b, h, h', i, h1, h2 => by
    simp only [Sh.size] at h2
    by_cases hi : i = b
    · subst hi
      have e := h.root; have e' := h'.root
      rw [K_higher] at e'
      rw [e, e']
    · have g := h.2; have g' := h'.2
      rw [K_higher] at g'
      by_cases hk : K (.un o a) b p = none
      · rw [if_pos hk] at g g'
        exact inv_unknown a (b + 1) g g' i (by omega) (by omega)
      · rw [if_neg hk] at g g'
        exact iff_of_false (dead_ne g (by omega) (by omega)) (dead_ne g' (by omega) (by omega))
  | .bin o a c, b, h, h', i, h1, h2 => by
    simp only [Sh.size] at h2
    by_cases hi : i = b
    · subst hi
      have e := h.root; have e' := h'.root
      rw [K_higher] at e'
      rw [e, e']
    · have g := h.2; have g' := h'.2
      rw [K_higher, show higher p (b + 1) = p b from rfl, show b + 1 + 1 + a.size = b + 1 + a.size + 1 by omega] at g'
      by_cases hk : K (.bin o a c) b p = none ∨ (o = .neor ∧ p b = none)
      · rw [if_pos hk] at g g'
        by_cases hia : i < b + 1 + a.size
        · exact inv_unknown a (b + 1) g.1 g'.1 i (by omega) (by omega)
        · exact inv_unknown c (b + 1 + a.size) g.2 g'.2 i (by omega) (by omega)
      · rw [if_neg hk] at g g'
        by_cases hia : i < b + 1 + a.size
        · exact iff_of_false (dead_ne g.1 (by omega) (by omega)) (dead_ne g'.1 (by omega) (by omega))
        · exact iff_of_false (dead_ne g.2 (by omega) (by omega)) (dead_ne g'.2 (by omega) (by omega))

/-- The tree of the expression and that of its negation, or the body of a loop in both. -/
inductive Link : Sh → Nat → Sh → Nat → Prop
  | body (s : Sh) (b : Nat) (h : 0 < b) : Link s b s (b + 1)
  | top (s : Sh) : Link s 0 (.un .not s) 0

theorem Link.atom {s b s' b'} (h : Link s b s' b') {i : Nat} (hi : IsAtom s b i) : IsAtom s' b' (i + 1) := by
  cases h with
  | body => exact isAtom_higher _ _ _ hi
  | top => exact isAtom_higher _ _ _ hi

theorem Link.loop {s b s' b'} (h : Link s b s' b') {i : Nat} {a : Sh} (hi : LoopAt s b i a) : LoopAt s' b' (i + 1) a := by
  cases h with
  | body => exact loopAt_higher _ _ _ _ hi
  | top => exact loopAt_higher _ _ _ _ hi

theorem K_not (s : Sh) (p : Nat → Option Bool) : K (.un .not s) 0 (higher p) = (K s 0 p).map (!·) := by
  rw [K, K_higher]
  show Option.or none _ = _
  rw [Option.none_or]
  cases K s 0 p <;> rfl

theorem Link.over {s b s' b'} (h : Link s b s' b') (p : Nat → Option Bool) :
    decide (b' = 0 ∧ K s' b' (higher p) ≠ none) = decide (b = 0 ∧ K s b p ≠ none) := by
  cases h with
  | body _ h => simp; omega
  | top =>
    rw [K_not]
    cases K s 0 p <;> rfl

mutual
  theorem lies_up : ∀ (e : Exec E) {s b s' b'}, Link s b s' b' → e.Lies s b → (upExec e).Lies s' b'
    | .mk st es ops ls a, s, b, s', b', hl, h => by
      rw [Exec.Lies] at h
      rw [upExec, Exec.Lies]
      refine ⟨liesElems_up es hl h.1, ?_, liesLoops_up ls hl h.2.2.1, liesAfter_up a hl h.2.2.2⟩
      intro op ho
      obtain ⟨o, hm, rfl⟩ := List.mem_map.1 ho
      exact hl.atom (h.2.1 o hm)
  theorem liesElems_up : ∀ (e : Elems E) {s b s' b'}, Link s b s' b' → e.Lies s b → (upElems e).Lies s' b'
    | .nil, _, _, _, _, _, _ => by rw [upElems, Elems.Lies]; trivial
    | .cons k e r, _, _, _, _, hl, h => by
      rw [Elems.Lies] at h
      rw [upElems, Elems.Lies]
      exact ⟨lies_up e hl h.1, liesElems_up r hl h.2⟩
  theorem liesLoops_up : ∀ (e : Loops E) {s b s' b'}, Link s b s' b' → e.Lies s b → (upLoops e).Lies s' b'
    | .nil, _, _, _, _, _, _ => by rw [upLoops, Loops.Lies]; trivial
    | .cons i m g e r, _, _, _, _, hl, h => by
      rw [Loops.Lies] at h
      obtain ⟨⟨a, ha, hn⟩, h2⟩ := h
      rw [upLoops, Loops.Lies]
      exact ⟨⟨a, hl.loop ha, lies_up e (.body a i (by have := ha.sub.2.2; omega)) hn⟩, liesLoops_up r hl h2⟩
  theorem liesAfter_up : ∀ (e : After E) {s b s' b'}, Link s b s' b' → e.Lies s b → (upAfter e).Lies s' b'
    | .none, _, _, _, _, _, _ => by rw [upAfter, After.Lies]; trivial
    | .some ops ls, _, _, _, _, hl, h => by
      rw [After.Lies] at h
      rw [upAfter, After.Lies]
      refine ⟨?_, liesLoops_up ls hl h.2⟩
      intro op ho
      obtain ⟨o, hm, rfl⟩ := List.mem_map.1 ho
      exact hl.atom (h.1 o hm)
end

mutual
  theorem height_up : ∀ e : Exec E, (upExec e).height = e.height
    | .mk st es ops ls a => by rw [upExec, Exec.height, Exec.height, heightElems_up es, heightLoops_up ls, heightAfter_up a]
  theorem heightElems_up : ∀ e : Elems E, (upElems e).height = e.height
    | .nil => by rw [upElems]
    | .cons k e r => by rw [upElems, Elems.height, Elems.height, height_up e, heightElems_up r]
  theorem heightLoops_up : ∀ e : Loops E, (upLoops e).height = e.height
    | .nil => by rw [upLoops]
    | .cons i m g e r => by rw [upLoops, Loops.height, Loops.height, height_up e, heightLoops_up r]
  theorem heightAfter_up : ∀ e : After E, (upAfter e).height = e.height
    | .none => by rw [upAfter]
    | .some ops ls => by rw [upAfter, After.height, After.height, heightLoops_up ls]
end

/-! ### Running both -/

/-- States of the two matchers that belong together. -/
structure Twin (t t' : Tree) (N : Nat) (s : Sh) (b : Nat) (s' : Sh) (b' : Nat) (v v' : V) : Prop where
  slots : v'.slots = v.slots
  coll : v'.coll = v.coll
  st : ∃ p, St t s b v.bt p ∧ St t' s' b' v'.bt (higher p)
  wf : SlotsWF N v.slots

/-- Outcomes that belong together. -/
def TwinOut (t t' : Tree) (N : Nat) (s : Sh) (b : Nat) (s' : Sh) (b' : Nat) (a a' : Bool × V) : Prop :=
  a'.1 = a.1 ∧ Twin t t' N s b s' b' a.2 a'.2

def Twins (t t' : Tree) (N : Nat) (s : Sh) (b : Nat) (s' : Sh) (b' : Nat) (f f' : V → Res (Bool × V)) : Prop :=
  ∀ v v', Twin t t' N s b s' b' v v' → Abreast (TwinOut t t' N s b s' b') (f v) (f' v')

section
variable {t t' : Tree} {N : Nat} {s : Sh} {b : Nat} {s' : Sh} {b' : Nat}

/-- Which positions are undecided is the same. -/
theorem resolved_eq {bt bt' : State} {p} (hl : Link s b s' b') (h : St t s b bt p) (h' : St t' s' b' bt' (higher p)) {i : Nat} (hi : IsAtom s b i) :
    ∃ d, BinTree.isResolved bt i = .ok d ∧ BinTree.isResolved bt' (i + 1) = .ok d := by
  obtain ⟨r1, r2⟩ := isAtom_range hi
  obtain ⟨r1', r2'⟩ := isAtom_range (hl.atom hi)
  have key : bt.data[i]? = some .unknown ↔ bt'.data[i + 1]? = some .unknown := by
    cases hl with
    | body => exact inv_unknown s b h.inv h'.inv i r1 r2
    | top =>
      have g := h'.inv.2
      by_cases hk : K s 0 p = none
      · rw [if_pos (by rw [K_not, hk]; rfl)] at g
        exact inv_unknown s 0 h.inv g i r1 r2
      · rw [if_neg (by rw [K_not]; simpa using hk)] at g
        obtain ⟨x, hx, hu⟩ := h.inv.closed.dead h.inv.root (by simpa using hk) i r1 r2
        exact iff_of_false (by rw [hx]; simpa using hu) (dead_ne g (by omega) (by omega))
  obtain ⟨par, hsh⟩ := h.ctx.shaped
  obtain ⟨par', hsh'⟩ := h'.ctx.shaped
  have hb := hsh.bound
  have hb' := hsh'.bound
  have hi1 : i < bt.data.length := by rw [h.len]; omega
  have hi2 : i + 1 < bt'.data.length := by rw [h'.len]; omega
  have e1 := List.getElem?_eq_getElem hi1
  have e2 := List.getElem?_eq_getElem hi2
  refine ⟨decide (bt.data[i] ≠ .unknown), by simp [BinTree.isResolved, Res.idx_of_some e1], ?_⟩
  rw [e1, e2] at key
  simp only [Option.some.injEq] at key
  simp [BinTree.isResolved, Res.idx_of_some e2, key]

theorem Twin.root {v v' : V} (hl : Link s b s' b') (h : Twin t t' N s b s' b' v v') :
    ∃ d, BinTree.isResolved v.bt 0 = .ok d ∧ BinTree.isResolved v'.bt 0 = .ok d := by
  obtain ⟨p, h1, h2⟩ := h.st
  exact ⟨_, h1.resolved0, by rw [h2.resolved0, hl.over]⟩

theorem Twins.check {f f' : V → Res (Bool × V)} (hl : Link s b s' b') (hf : Twins t t' N s b s' b' f f') {a a'} (h : TwinOut t t' N s b s' b' a a') :
    Abreast (TwinOut t t' N s b s' b') (check f a) (check f' a') := by
  obtain ⟨d, e1, e2⟩ := h.2.root hl
  rw [Match.check, Match.check, e1, e2, Res.bind_ok, Res.bind_ok, h.1]
  split
  · exact ⟨rfl, h.2⟩
  · split
    · trivial
    · exact hf _ _ h.2

/-- Marking in both. -/
theorem mark_twin {bt bt' : State} {p} (hl : Link s b s' b') (h : St t s b bt p) (h' : St t' s' b' bt' (higher p)) {i : Nat} (hi : IsAtom s b i)
    (x : Bool) (e1 : BinTree.isResolved bt i = .ok false) (e2 : BinTree.isResolved bt' (i + 1) = .ok false) :
    ∃ c c' q, BinTree.markNode t bt i x = .ok c ∧ BinTree.markNode t' bt' (i + 1) x = .ok c' ∧ St t s b c q ∧ St t' s' b' c' (higher q) := by
  obtain ⟨c, m1, m2, _⟩ := h.mark hi x
  obtain ⟨c', m1', m2', _⟩ := h'.mark (hl.atom hi) x
  rw [BinTree.guardedMark, e1] at m1
  rw [BinTree.guardedMark, e2] at m1'
  exact ⟨c, c', _, by simpa using m1, by simpa using m1', m2, by rw [higher_also]; exact m2'⟩

variable (X : Fns E) {r : D}

theorem op_twin (hl : Link s b s' b') {lit : Option (FV E)} {op : Op E} (hi : IsAtom s b op.bucket) {v v' : V} (h : Twin t t' N s b s' b' v v') :
    Abreast (fun a a' => Twin t t' N s b s' b' { v with bt := a.1, coll := a.2 } { v' with bt := a'.1, coll := a'.2 })
      (matchOp X t (slotVal r v.slots) lit op v.bt v.coll) (matchOp X t' (slotVal r v'.slots) lit (upOp op) v'.bt v'.coll) := by
  obtain ⟨p, h1, h2⟩ := h.st
  obtain ⟨d, e1, e2⟩ := resolved_eq hl h1 h2 hi
  rw [matchOp, matchOp, e1, show (upOp op).bucket = op.bucket + 1 from rfl, e2, Res.bind_ok, Res.bind_ok]
  cases d with
  | true => exact h
  | false =>
    simp only [Bool.false_eq_true, if_false]
    rw [h.slots, show opResult X (slotVal r v.slots) lit (upOp op) = opResult X (slotVal r v.slots) lit op from rfl]
    refine (Abreast.same _).bind (fun o o' _ _ e => ?_)
    subst e
    obtain ⟨c, c', q, m1, m2, m3, m4⟩ := mark_twin hl h1 h2 hi o'.1 e1 e2
    rw [m1, m2]
    exact ⟨rfl, by simp [h.coll], ⟨q, m3, m4⟩, h.wf⟩

theorem ops_twin (hl : Link s b s' b') {lit : Option (FV E)} : ∀ (ops : List (Op E)), (∀ op ∈ ops, IsAtom s b op.bucket) →
    Twins t t' N s b s' b' (opsV X t r lit ops) (opsV X t' r lit (ops.map upOp))
  | [], _ => fun v v' h => ⟨rfl, h⟩
  | op :: ops, hi => by
    intro v v' h
    rw [List.map_cons, opsV_cons, opsV_cons]
    refine (op_twin X hl (hi op List.mem_cons_self) h).bind (fun a a' _ _ ha => ?_)
    obtain ⟨d, e1, e2⟩ := ha.root hl
    simp only at e1 e2
    rw [e1, e2, Res.bind_ok, Res.bind_ok]
    split
    · exact ⟨rfl, ha⟩
    · exact ops_twin hl ops (fun o ho => hi o (List.mem_cons_of_mem _ ho)) _ _ ha

/-! ### Loops -/

/-- The recursive calls belong together. -/
def RecT (t t' : Tree) (N h : Nat) (rec rec' : VRec E) : Prop :=
  ∀ (node : Exec E) (d : D) (s : Sh) (b : Nat) (s' : Sh) (b' : Nat), Link s b s' b' → node.height ≤ h → node.Lies s b → d.WF →
    Twins t t' N s b s' b' (rec node d) (rec' (upExec node) d)

variable {h : Nat} {rec rec' : VRec E}

theorem went_of {t : Tree} {s : Sh} {b : Nat} {rec : VRec E} (hrec : RecW t N False h rec) {node : Exec E} {d : D} (hh : node.height ≤ h)
    (hn : node.Lies s b) (hd : d.WF) {v : V} {p} (hp : St t s b v.bt p) (hσ : SlotsWF N v.slots) {c} (hc : rec node d v = .ok c) :
    Went t N s b v c := by
  have := hrec node d s b hh hn False.elim hd v p hp hσ
  rw [hc] at this
  exact this

theorem items_twin (hT : RecT t t' N h rec rec') (hrec : RecW t N False h rec) (hrec' : RecW t' N False h rec') {i : Nat} {mode : Mode}
    {node : Exec E} {a : Sh} {par par' : Nat} (hsh : Shaped t a i par) (hsh' : Shaped t' a (i + 1) par') (hi : 0 < i) (hh : node.height ≤ h)
    (hn : node.Lies a i) : ∀ (es : Es), es.WF → ∀ (st : Bool) (v v' : V), v.bt.stall = i → v'.bt.stall = i + 1 →
    v.bt.data.length = t.length → v'.bt.data.length = t'.length → v.bt.data[0]? = some .unknown → v'.bt.data[0]? = some .unknown →
    SlotsWF N v.slots → v'.slots = v.slots → v'.coll = v.coll →
    Abreast (fun o o' => o'.1 = o.1 ∧ o'.2.slots = o.2.slots ∧ o'.2.coll = o.2.coll) (vItems rec t i mode node es st v)
      (vItems rec' t' (i + 1) mode (upExec node) es st v')
  | .nil, _, st, v, v', _, _, _, _, _, _, _, h1, h2 => ⟨rfl, h1, h2⟩
  | .cons d _ _ rest, hes, st, v, v', h1, h1', h2, h2', h3, h3', h4, h5, h6 => by
    simp only [Es.WF] at hes
    have hd : d.WF := by simp_all
    have hrest : rest.WF := by simp_all
    have hlk := Link.body a i hi
    obtain ⟨d1, e1, e2, e3, e4⟩ := BinTree.resetNode_spec hsh v.bt h2
    obtain ⟨d1', e1', e2', e3', e4'⟩ := BinTree.resetNode_spec hsh' v'.bt h2'
    have hst : St t a i { v.bt with data := d1 } (fun _ => none) :=
      ⟨⟨⟨par, hsh⟩, Or.inr h1.symm, Or.inl (by rw [← h1]; exact Nat.le_refl _)⟩, e2, e3.inv (fun _ _ _ => rfl), by simp,
        fun _ => by rw [← h3]; exact e4 0 (Or.inl hi)⟩
    have hst' : St t' a (i + 1) { v'.bt with data := d1' } (fun _ => none) :=
      ⟨⟨⟨par', hsh'⟩, Or.inr h1'.symm, Or.inl (by rw [← h1']; exact Nat.le_refl _)⟩, e2', e3'.inv (fun _ _ _ => rfl), by simp,
        fun _ => by rw [← h3']; exact e4' 0 (Or.inl (by omega))⟩
    rw [vItems, vItems, e1, e1']
    simp only [Res.bind_ok]
    have htw : Twin t t' N a i a (i + 1) { v with bt := { v.bt with data := d1 } } { v' with bt := { v'.bt with data := d1' } } :=
      ⟨h5, h6, ⟨_, hst, by rw [higher_none]; exact hst'⟩, h4⟩
    refine (hT node d a i a (i + 1) hlk hh hn hd _ _ htw).bind (fun c c' k k' hc => ?_)
    have w := went_of (N := N) (v := { v with bt := { v.bt with data := d1 } }) hrec hh hn hd hst h4 k
    have w' := went_of (N := N) (v := { v' with bt := { v'.bt with data := d1' } }) hrec' (by rw [height_up]; exact hh) (lies_up node hlk hn) hd hst'
      (by rw [h5]; exact h4) k'
    obtain ⟨p, hp, hp'⟩ := hc.2.st
    have hf : c.1 = false := by
      cases hx : c.1 with
      | false => rfl
      | true => have := (hp.over_iff.1 (w.early hx)).1; omega
    rw [hc.1, hf]
    simp only [Bool.false_eq_true, if_false]
    rw [hp.isTrue, hp'.isTrue, Res.bind_ok, Res.bind_ok, K_higher]
    have hout : ∀ j, j < i ∨ i + a.size ≤ j → c.2.bt.data[j]? = v.bt.data[j]? := fun j hj => by rw [w.out j hj]; exact e4 j hj
    have hout' : ∀ j, j < i + 1 ∨ i + 1 + a.size ≤ j → c'.2.bt.data[j]? = v'.bt.data[j]? := fun j hj => by rw [w'.out j hj]; exact e4' j hj
    cases mode.leaves (decide (K a i p = some true)) with
    | some x => exact ⟨rfl, hc.2.slots, hc.2.coll⟩
    | none =>
      exact items_twin hT hrec hrec' hsh hsh' hi hh hn rest hrest _ c.2 c'.2 (by rw [w.stall]; exact h1) (by rw [w'.stall]; exact h1') hp.len hp'.len
        (by rw [hout 0 (Or.inl hi)]; exact h3) (by rw [hout' 0 (Or.inl (by omega))]; exact h3') w.slots hc.2.slots hc.2.coll

/-- What a loop finds before it starts, and that it leaves the tree as it was. -/
theorem loop_frame {t : Tree} {s : Sh} {b i : Nat} {a : Sh} (hla : LoopAt s b i a) {bt : State} {p} (hp : St t s b bt p)
    (hres : BinTree.isResolved bt i = .ok false) : ∃ par, Shaped t a i par ∧ 0 < i ∧ bt.data[0]? = some .unknown ∧
    ∀ o : State, o.stall = i → o.data.length = t.length → (∀ j, j < i ∨ i + a.size ≤ j → o.data[j]? = bt.data[j]?) →
      ∃ c, BinTree.resetNode t o i = .ok c ∧ (BinTree.setStallIndex c bt.stall).1 = bt := by
  obtain ⟨hsub, hat, hlt⟩ := hla.sub
  have hr := isAtom_range hat
  obtain ⟨par0, hsh0⟩ := hp.ctx.shaped
  have hbd := hsh0.bound
  have hlen : i < bt.data.length := by have := hp.len; omega
  have hidx : bt.data[i]? = some .unknown := by
    have e := List.getElem?_eq_getElem hlen
    rw [e]
    simp only [BinTree.isResolved, Res.idx_of_some e, Res.bind_ok] at hres
    have := Res.ok.inj hres
    simpa using this
  obtain ⟨par, hshp⟩ := BinTree.SubAt.shaped hsub hsh0
  have hpb : p i = none := by
    cases hpi : p i with
    | none => rfl
    | some w => exact absurd hidx (hp.inv.marked hsub hpi)
  have hpn : ∀ j, i ≤ j → j < i + a.size → p j = none := by
    intro j h1 h2
    cases hpj : p j with
    | none => rfl
    | some w =>
      have hj := hp.atoms j (by simp [hpj])
      by_cases hjb : j = i
      · subst hjb; rw [hpb] at hpj; simp at hpj
      · have := atom_antichain s b i j a hat hj hsub (by omega); omega
  have hfresh : Fresh bt.data i a.size := (hp.inv.sub hsub hidx).fresh hpn
  have h0 : bt.data[0]? = some .unknown := by
    by_cases hb : b = 0
    · subst hb
      by_cases hk : K s 0 p = none
      · rw [hp.inv.root, hk]; rfl
      · have := hp.dead hk hr.1 hr.2
        rw [hres] at this; simp at this
    · exact hp.root hb
  refine ⟨par, hshp, by omega, h0, fun o o1 o2 o3 => ?_⟩
  obtain ⟨d2, r1, r2, r3, r4⟩ := BinTree.resetNode_spec hshp o o2
  refine ⟨_, r1, ?_⟩
  have hd2 : d2 = bt.data := by
    apply List.ext_getElem?
    intro j
    by_cases hj : i ≤ j ∧ j < i + a.size
    · rw [r3 j hj.1 hj.2, hfresh j hj.1 hj.2]
    · rw [r4 j (by omega), o3 j (by omega)]
  simp only [BinTree.setStallIndex, hd2]

theorem loop_twin (hl : Link s b s' b') (hT : RecT t t' N h rec rec') (hrec : RecW t N False h rec) (hrec' : RecW t' N False h rec') {i : Nat}
    {mode : Mode} {node : Exec E} {a : Sh} (hla : LoopAt s b i a) (hh : node.height ≤ h) (hn : node.Lies a i) {d : D} (hd : d.WF) {v v' : V}
    (hv : Twin t t' N s b s' b' v v') :
    Abreast (Twin t t' N s b s' b') (vLoop rec t i mode node d v) (vLoop rec' t' (i + 1) mode (upExec node) d v') := by
  cases d with
  | lit ty w => exact hv
  | obj ws ms => exact hv
  | arr ws es =>
    simp only [vLoop]
    obtain ⟨p, hp, hp'⟩ := hv.st
    have hat := hla.sub.2.1
    obtain ⟨x, e1, e2⟩ := resolved_eq hl hp hp' hat
    rw [e1, e2, Res.bind_ok, Res.bind_ok]
    cases x with
    | true => exact hv
    | false =>
      simp only [Bool.false_eq_true, if_false]
      have hes : es.WF := by simp only [D.WF] at hd; exact hd.2
      obtain ⟨par, f1, f2, f3, f4⟩ := loop_frame hla hp e1
      obtain ⟨par', f1', f2', f3', f4'⟩ := loop_frame (hl.loop hla) hp' e2
      have hn' := lies_up node (Link.body a i f2) hn
      have hh' : (upExec node).height ≤ h := by rw [height_up]; exact hh
      refine (items_twin hT hrec hrec' (mode := mode) f1 f1' f2 hh hn es hes mode.init { v with bt := (BinTree.setStallIndex v.bt i).1 }
        { v' with bt := (BinTree.setStallIndex v'.bt (i + 1)).1 } rfl rfl hp.len hp'.len f3 f3' hv.wf hv.slots hv.coll).bind (fun o o' k k' ho => ?_)
      have w := items_went hrec (mode := mode) f1 f2 hh hn False.elim es hes mode.init { v with bt := (BinTree.setStallIndex v.bt i).1 } rfl
        hp.len f3 hv.wf
      have w' := items_went hrec' (mode := mode) f1' f2' hh' hn' False.elim es hes mode.init { v' with bt := (BinTree.setStallIndex v'.bt (i + 1)).1 } rfl
        hp'.len f3' (by rw [hv.slots]; exact hv.wf)
      rw [k] at w
      rw [k'] at w'
      obtain ⟨w1, w2, w3, w4⟩ := w
      obtain ⟨w1', w2', w3', w4'⟩ := w'
      obtain ⟨c, g1, g2⟩ := f4 o.2.bt w1 w2 w4
      obtain ⟨c', g1', g2'⟩ := f4' o'.2.bt w1' w2' w4'
      rw [g1, g1', Res.bind_ok, Res.bind_ok, g2, g2', ho.1]
      obtain ⟨m, m', q, m1, m2, m3, m4⟩ := mark_twin hl hp hp' hat o.1 e1 e2
      rw [m1, m2]
      exact ⟨ho.2.1, ho.2.2, ⟨q, m3, m4⟩, w3⟩

theorem afterLoops_twin (hr : r.WF) (hl : Link s b s' b') (hT : RecT t t' N h rec rec') (hrec : RecW t N False h rec)
    (hrec' : RecW t' N False h rec') : ∀ (ls : Loops E), ls.height ≤ h → ls.Lies s b →
    Twins t t' N s b s' b' (vAfterLoops rec t r ls) (vAfterLoops rec' t' r (upLoops ls))
  | .nil, _, _ => fun v v' hv => ⟨rfl, hv⟩
  | .cons i mode target node rest, hh, hla => by
    rw [Loops.height] at hh
    rw [Loops.Lies] at hla
    obtain ⟨⟨a, ha, hn⟩, hl'⟩ := hla
    intro v v' hv
    rw [upLoops, vAfterLoops.eq_def, vAfterLoops.eq_def rec']
    cases target with
    | none => trivial
    | some g =>
      cases g with
      | slot k =>
        simp only
        split
        · trivial
        · rw [hv.slots]
          refine (Abreast.same _).bind (fun o o' e _ eo => ?_)
          subst eo
          have hd : (o'.getD r).WF := by
            cases o' with
            | none => exact hr
            | some d =>
              refine hv.wf.2 d ?_
              unfold Res.idx at e
              cases hx : v.slots[k - 1]? with
              | none => rw [hx] at e; cases e
              | some y => rw [hx] at e; cases e; exact List.mem_of_getElem? hx
          refine (loop_twin hl hT hrec hrec' (mode := mode) ha (by omega) hn hd hv).bind (fun x x' _ _ hx => ?_)
          obtain ⟨d, e1, e2⟩ := hx.root hl
          rw [e1, e2, Res.bind_ok, Res.bind_ok]
          split
          · exact ⟨rfl, hx⟩
          · exact afterLoops_twin hr hl hT hrec hrec' rest (by omega) hl' _ _ hx
      | val _ => trivial
      | lit => trivial
      | fn _ _ => trivial

theorem after_twin (hr : r.WF) (hl : Link s b s' b') (hT : RecT t t' N h rec rec') (hrec : RecW t N False h rec)
    (hrec' : RecW t' N False h rec') {ops : List (Op E)} {ls : Loops E} (hh : ls.height ≤ h) (ha : (After.some ops ls).Lies s b) :
    Twins t t' N s b s' b' (vAfter X rec t r ops ls) (vAfter X rec' t' r (ops.map upOp) (upLoops ls)) := by
  rw [After.Lies] at ha
  intro v v' hv
  rw [vAfter, vAfter]
  refine (afterLoops_twin hr hl hT hrec hrec' ls hh ha.2 v v' hv).bind (fun a a' _ _ h => ?_)
  rw [h.1]
  split
  · exact h
  · exact ops_twin X hl ops ha.1 _ _ h.2

theorem arrayLoops_twin (hl : Link s b s' b') (hT : RecT t t' N h rec rec') (hrec : RecW t N False h rec) (hrec' : RecW t' N False h rec')
    {d : D} (hd : d.WF) : ∀ (ls : Loops E), ls.height ≤ h → ls.Lies s b →
    Twins t t' N s b s' b' (vArrayLoops rec t d ls) (vArrayLoops rec' t' d (upLoops ls))
  | .nil, _, _ => fun v v' hv => ⟨rfl, hv⟩
  | .cons i mode target node rest, hh, hla => by
    rw [Loops.height] at hh
    rw [Loops.Lies] at hla
    obtain ⟨⟨a, ha, hn⟩, hl'⟩ := hla
    intro v v' hv
    rw [upLoops, vArrayLoops.eq_def, vArrayLoops.eq_def rec']
    cases target with
    | some g => trivial
    | none =>
      simp only
      refine (loop_twin hl hT hrec hrec' (mode := mode) ha (by omega) hn hd hv).bind (fun x x' _ _ hx => ?_)
      obtain ⟨y, e1, e2⟩ := hx.root hl
      rw [e1, e2, Res.bind_ok, Res.bind_ok]
      split
      · exact ⟨rfl, hx⟩
      · exact arrayLoops_twin hl hT hrec hrec' hd rest (by omega) hl' _ _ hx

/-! ### Nodes -/

theorem members_twin (hl : Link s b s' b') (hT : RecT t t' N h rec rec') {es : Elems E} (hh : es.height ≤ h) (he : es.Lies s b) :
    ∀ ms : Ms, ms.WF → Twins t t' N s b s' b' (vMembers rec es ms) (vMembers rec' (upElems es) ms)
  | .nil, _ => fun v v' hv => ⟨rfl, hv⟩
  | .cons kty key _ _ d _ _ rest, hm => by
    simp only [Ms.WF] at hm
    have hd : d.WF := by simp_all
    have hrest : rest.WF := by simp_all
    have ih := members_twin hl hT hh he rest hrest
    intro v v' hv
    rw [vMembers, vMembers]
    refine (Abreast.same _).bind (fun k k' _ _ ek => ?_)
    subst ek
    rw [find_up]
    cases hf : es.find k' with
    | none => exact ih v v' hv
    | some e =>
      exact (hT e d s b s' b' hl (Nat.le_trans (Elems.height_find hf) hh) (he.find hf) hd v v' hv).bind (fun a a' _ _ ha => ih.check hl ha)

theorem elems_twin (hl : Link s b s' b') (hT : RecT t t' N h rec rec') {es : Elems E} (hh : es.height ≤ h) (he : es.Lies s b) :
    ∀ (xs : Es) (i : Nat), xs.WF → Twins t t' N s b s' b' (vElems rec es i xs) (vElems rec' (upElems es) i xs)
  | .nil, _, _ => fun v v' hv => ⟨rfl, hv⟩
  | .cons d _ _ rest, i, hm => by
    simp only [Es.WF] at hm
    have hd : d.WF := by simp_all
    have hrest : rest.WF := by simp_all
    have ih := elems_twin hl hT hh he rest (i + 1) hrest
    intro v v' hv
    rw [vElems, vElems]
    refine (Abreast.same _).bind (fun k k' _ _ ek => ?_)
    rw [find_up]
    cases hf : es.find (indexKey i) with
    | none => exact ih v v' hv
    | some e =>
      exact (hT e d s b s' b' hl (Nat.le_trans (Elems.height_find hf) hh) (he.find hf) hd v v' hv).bind (fun a a' _ _ ha => ih.check hl ha)

theorem finish_twin (hr : r.WF) (hl : Link s b s' b') (hT : RecT t t' N h rec rec') (hrec : RecW t N False h rec) (hrec' : RecW t' N False h rec')
    {store : Nat} {after : After E} (hh : after.height ≤ h) (ha : after.Lies s b) {d : D} (hd : d.WF) :
    Twins t t' N s b s' b' (vFinish X rec t r store after d) (vFinish X rec' t' r store (upAfter after) d) := by
  have hk : Twins t t' N s b s' b' (fun v : V =>
      if store = 0 then Res.ok (false, v)
      else if store - 1 < v.slots.length then Res.ok (false, { v with slots := v.slots.set (store - 1) (some d) })
      else .panic) (fun v : V =>
      if store = 0 then Res.ok (false, v)
      else if store - 1 < v.slots.length then Res.ok (false, { v with slots := v.slots.set (store - 1) (some d) })
      else .panic) := by
    intro v v' hv
    simp only [hv.slots]
    split
    · exact ⟨rfl, hv⟩
    · split
      · refine ⟨rfl, rfl, hv.coll, hv.st, by simpa using hv.wf.1, fun x hx => ?_⟩
        rcases List.mem_or_eq_of_mem_set hx with h' | h'
        · exact hv.wf.2 x h'
        · cases h'; exact hd
      · trivial
  unfold vFinish
  cases after with
  | none => exact hk
  | some ops ls =>
    intro v v' hv
    rw [After.height] at hh
    exact (after_twin X hr hl hT hrec hrec' hh ha v v' hv).bind (fun a a' _ _ h => hk.check hl h)

theorem opsThen_twin (hr : r.WF) (hl : Link s b s' b') (hT : RecT t t' N h rec rec') (hrec : RecW t N False h rec) (hrec' : RecW t' N False h rec')
    {store : Nat} {ops : List (Op E)} {after : After E} (hh : after.height ≤ h) (ho : ∀ op ∈ ops, IsAtom s b op.bucket) (ha : after.Lies s b)
    {d : D} (hd : d.WF) :
    Twins t t' N s b s' b' (vOpsThen X rec t r ops store after d) (vOpsThen X rec' t' r (ops.map upOp) store (upAfter after) d) := by
  intro v v' hv
  rw [vOpsThen, vOpsThen]
  refine (Abreast.same _).bind (fun x x' _ _ ex => ?_)
  subst ex
  refine (ops_twin X hl ops ho v v' hv).bind (fun a a' _ _ h => ?_)
  rw [h.1]
  split
  · exact h
  · exact finish_twin X hr hl hT hrec hrec' hh ha hd _ _ h.2

theorem isEmptyElems_up (es : Elems E) : (upElems es).isEmpty = es.isEmpty := by cases es <;> rfl
theorem isEmptyLoops_up (ls : Loops E) : (upLoops ls).isEmpty = ls.isEmpty := by cases ls <;> rfl

theorem exec_twin (hr : r.WF) : ∀ h : Nat, RecT t t' N h (vExec X t r h) (vExec X t' r h)
  | 0 => by
    intro n d s b s' b' _ hh
    cases n
    simp [Exec.height] at hh
  | h + 1 => by
    intro n d s b s' b' hlk hh hl hd
    have ih := exec_twin hr h
    have w := exec_stays (t := t) (N := N) (q := False) X hr h
    have w' := exec_stays (t := t') (N := N) (q := False) X hr h
    obtain ⟨store, es, ops, ls, af⟩ := n
    rw [Exec.Lies] at hl
    obtain ⟨l1, l2, l3, l4⟩ := hl
    rw [Exec.height] at hh
    have hk : ∀ {d : D}, d.WF → Twins t t' N s b s' b' (vOpsThen X (vExec X t r h) t r ops store af d)
        (vOpsThen X (vExec X t' r h) t' r (ops.map upOp) store (upAfter af) d) :=
      fun hd => opsThen_twin X hr hlk ih w w' (by omega) l2 l4 hd
    intro v v' hv
    rw [upExec]
    cases d with
    | lit ty x => exact hk hd v v' hv
    | obj ws ms =>
      have hms : ms.WF := by simp only [D.WF] at hd; exact hd.2
      simp only [vExec, vObj, isEmptyElems_up]
      split
      · exact hk hd v v' hv
      · refine (members_twin hlk ih (by omega) l1 ms hms v v' hv).bind (fun a a' _ _ ha => ?_)
        refine Abreast.bind (P := TwinOut t t' N s b s' b') ?_ (fun c c' _ _ hc => ?_)
        · cases af with
          | none => exact ⟨rfl, ha.2⟩
          | some aops als =>
            rw [After.height] at hh
            exact after_twin X hr hlk ih w w' (by omega) l4 _ _ ha.2
        · cases ms with
          | nil => exact hc
          | cons kty key w1 w2 d' w3 w4 rest =>
            simp only
            rw [ha.1]
            split
            · exact ⟨rfl, hc.2⟩
            · exact (hk hd).check hlk hc
    | arr ws es' =>
      have hes : es'.WF := by simp only [D.WF] at hd; exact hd.2
      simp only [vExec, vArr, isEmptyLoops_up]
      split
      · cases es' with
        | nil => exact ⟨rfl, hv⟩
        | cons d' w1 w2 rest =>
          refine (elems_twin hlk ih (by omega) l1 _ 0 hes v v' hv).bind (fun a a' _ _ ha => ?_)
          rw [ha.1]
          split
          · exact ha
          · exact hk hd _ _ ha.2
      · refine (arrayLoops_twin hlk ih w w' hd ls (by omega) l3 v v' hv).bind (fun a a' _ _ ha => ?_)
        rw [ha.1]
        split
        · exact ha
        · exact hk hd _ _ ha.2

end

/-! ### Whole runs -/

theorem start_st {df : Def E} {s : Sh} {node : Exec E} (hw : df.Laid s node) : St df.tree s 0 (newV df).bt (fun _ => none) := by
  have hf := BinTree.newState_fresh df.tree s.size (by have := hw.len; omega)
  exact ⟨⟨⟨0, hw.shaped⟩, Or.inl rfl, Or.inl (Nat.le_refl 0)⟩, by simp [newV, BinTree.newState], hf.inv (fun _ _ _ => rfl), by simp, by simp⟩

/-- `Resolve` makes the value of the tree the verdict. -/
theorem resolve_value {t : Tree} {s : Sh} {bt : State} {p} (hs : Shaped t s 0 0) (hlen : t.length = s.size) (hst : bt.stall = 0) (h : St t s 0 bt p) :
    ∃ c, BinTree.resolve t bt = .ok c ∧ BinTree.isTrue c 0 = .ok (s.evalM 0 p) := by
  obtain ⟨d', q, r1, r2, r3, r4, _⟩ := BinTree.resolve_spec hs hlen hst h.len h.inv
  refine ⟨_, r1, ?_⟩
  simp only [BinTree.isTrue, Res.idx_of_some r2.root]
  cases hk : K s 0 q with
  | none => exact absurd hk r4
  | some w =>
    rw [← BinTree.evalM_falseExt r3 hs, BinTree.K_evalM hk]
    cases w <;> rfl

theorem vRun_not (X : Fns E) {df df' : Def E} {s : Sh} {node : Exec E} (hw : df.Laid s node) (hw' : df'.Laid (.un .not s) (upExec node))
    (hN : df'.numSlots = df.numSlots) {r : D} (hr : r.WF) :
    Abreast (fun a a' => a'.1 = !a.1 ∧ a'.2.coll = a.2.coll) (vRun X df (newV df) r) (vRun X df' (newV df') r) := by
  rw [vRun, hw.parse, vRun, hw'.parse]
  have h0 : Twin df.tree df'.tree df.numSlots s 0 (.un .not s) 0 (newV df) (newV df') :=
    ⟨by simp [newV, hN], rfl, ⟨_, start_st hw, by rw [higher_none]; exact start_st hw'⟩, slotsWF_replicate _⟩
  simp only [height_up]
  refine (exec_twin X hr node.height node r s 0 (.un .not s) 0 (.top s) (Nat.le_refl _) hw.lies hr _ _ h0).bind (fun a a' k k' ha => ?_)
  have w := went_of (exec_stays X hr node.height) (Nat.le_refl _) hw.lies hr (start_st hw) (slotsWF_replicate _) k
  have w' := went_of (exec_stays X hr node.height) (by rw [height_up]; exact Nat.le_refl _) hw'.lies hr (start_st hw') (slotsWF_replicate _) k'
  obtain ⟨p, hp, hp'⟩ := ha.2.st
  obtain ⟨c, c1, c2⟩ := resolve_value hw.shaped hw.len w.stall hp
  obtain ⟨c', c1', c2'⟩ := resolve_value hw'.shaped hw'.len w'.stall hp'
  rw [c1, c1', Res.bind_ok, Res.bind_ok, c2, c2', Res.bind_ok, Res.bind_ok]
  refine ⟨?_, ha.2.coll⟩
  show Sh.evalM _ _ _ = !_
  rw [Sh.evalM, evalM_higher]
  rfl

/-- **C100.**  An expression that is not a constant and its negation compile, or fail to compile, together. -/
theorem C100_compiles (C : Comp E) (slot0 : Nat) {e : Expr E} (hn : NotConst e) :
    (∃ df, transform C slot0 [e] = .ok df) ↔ ∃ df', transform C slot0 [.not e] = .ok df' := by
  have hg : genExprs [e] = [e] := by
    cases e <;> first | rfl | exact absurd rfl hn.1 | exact absurd rfl hn.2
  have h := transform_not C slot0 e hg
  cases hx : transform C slot0 [e] <;> cases hy : transform C slot0 [.not e] <;> rw [hx, hy] at h <;>
    first | exact h.elim | (exact ⟨fun _ => ⟨_, rfl⟩, fun _ => ⟨_, rfl⟩⟩) | (constructor <;> (rintro ⟨_, h⟩; cases h))

/-- **C100.**  On every document the definition of the negation has the opposite verdict, whatever the expression; if one of the matchers crashes, so
does the other. -/
theorem C100_not (X : Fns E) (C : Comp E) (slot0 : Nat) {e : Expr E} (hn : NotConst e) {df df' : Def E} (h : transform C slot0 [e] = .ok df)
    (h' : transform C slot0 [.not e] = .ok df') {d : D} {data : List Nat} (hb : Begins data d) {m m' : M} (hm : Ready df m) (hm' : Ready df' m') :
    (∃ b n n', run X df m data = .ok (some b, n) ∧ run X df' m' data = .ok (some (!b), n') ∧ (m.coll = m'.coll → n.coll = n'.coll)) ∨
      (run X df m data = .panic ∧ run X df' m' data = .panic) := by
  have hg : genExprs [e] = [e] := by
    cases e <;> first | rfl | exact absurd rfl hn.1 | exact absurd rfl hn.2
  have hd := transform_not C slot0 e hg
  rw [h, h'] at hd
  obtain ⟨hd1, hd2⟩ := hd
  obtain ⟨node, hl, _⟩ := transform_laid C slot0 hg h
  obtain ⟨node', hl', _⟩ := transform_laid C slot0 (es := [.not e]) (g := .not e) (gs := []) rfl h'
  have hnode : node' = upExec node := by
    have := hl'.parse
    rw [hd1, hl.parse] at this
    exact (Option.some.inj this).symm
  subst hnode
  have key := vRun_not X (s := shape e) hl hl' hd2 hb.wf
  rcases run_document X hl hb hm with ⟨b, v, n, e1, e2, _, e4⟩ | ⟨e1, e2, _⟩
  · rcases run_document X hl' hb hm' with ⟨b', v', n', f1, f2, _, f4⟩ | ⟨f1, _, _⟩
    · rw [e1, f1] at key
      obtain ⟨k1, k2⟩ := key
      simp only at k1 k2
      exact Or.inl ⟨b, n, n', e2, by rw [f2, k1], fun hc => by rw [e4, f4, k2, hc]⟩
    · rw [e1, f1] at key; exact key.elim
  · rcases run_document X hl' hb hm' with ⟨b', v', n', f1, f2, _⟩ | ⟨f1, f2, _⟩
    · rw [e1, f1] at key; exact key.elim
    · exact Or.inr ⟨e2, f2⟩

/-- `l != r` and `NOT EXISTS` are compiled as negations. -/
theorem C100_ne (C : Comp E) (slot0 : Nat) (l r : Expr E) : transform C slot0 [.cmp .ne l r] = transform C slot0 [.not (.cmp .eq l r)] := by
  have h : ∀ t, tOne C (.cmp .ne l r) t = tOne C (.not (.cmp .eq l r)) t := fun t => by
    rw [tOne, tOne, if_pos rfl]
    have : tCompare C (.cmp .eq l r) .equals l r = tOne C (.cmp .eq l r) := by
      funext t
      rw [tOne, if_neg (by decide)]
      rfl
    rw [this]
  rw [transform_cons C slot0 [.cmp .ne l r] (g := .cmp .ne l r) (gs := []) rfl, transform_cons C slot0 [.not (.cmp .eq l r)] (g := .not (.cmp .eq l r)) (gs := []) rfl]
  have hb : ∀ ids, bucketIds [.cmp .ne l r] ids = bucketIds [.not (.cmp .eq l r)] ids := fun ids => by cases ids <;> rfl
  simp only [tMerge, h, hb]

theorem C100_missing (C : Comp E) (slot0 : Nat) (e : Expr E) : transform C slot0 [.notExist e] = transform C slot0 [.not (.exist e)] := by
  have h : ∀ t, tOne C (.notExist e) t = tOne C (.not (.exist e)) t := fun t => by
    rw [tOne, tOne]
    have : tExists C e = tOne C (.exist e) := by
      funext t
      rw [tOne]
    rw [this]
  rw [transform_cons C slot0 [.notExist e] (g := .notExist e) (gs := []) rfl, transform_cons C slot0 [.not (.exist e)] (g := .not (.exist e)) (gs := []) rfl]
  have hb : ∀ ids, bucketIds [.notExist e] ids = bucketIds [.not (.exist e)] ids := fun ids => by cases ids <;> rfl
  simp only [tMerge, h, hb]

/-- Negating twice changes nothing. -/
theorem C100_twice (X : Fns E) (C : Comp E) (slot0 : Nat) {e : Expr E} (hn : NotConst e) {df df' : Def E} (h : transform C slot0 [e] = .ok df)
    (h' : transform C slot0 [.not (.not e)] = .ok df') {d : D} {data : List Nat} (hb : Begins data d) {m m' : M} (hm : Ready df m) (hm' : Ready df' m') :
    (∃ b n n', run X df m data = .ok (some b, n) ∧ run X df' m' data = .ok (some b, n')) ∨
      (run X df m data = .panic ∧ run X df' m' data = .panic) := by
  obtain ⟨df1, h1⟩ := (C100_compiles C slot0 hn).1 ⟨df, h⟩
  rcases C100_not X C slot0 hn h h1 hb hm (ready_new df1) with ⟨b, n, n1, e1, e2, _⟩ | ⟨e1, e2⟩
  · rcases C100_not X C slot0 (e := .not e) ⟨by simp, by simp⟩ h1 h' hb (ready_new df1) hm' with ⟨b1, n1', n', f1, f2, _⟩ | ⟨f1, _⟩
    · rw [e2] at f1; cases f1
      exact Or.inl ⟨b, n, n', e1, by simpa using f2⟩
    · rw [e2] at f1; cases f1
  · rcases C100_not X C slot0 (e := .not e) ⟨by simp, by simp⟩ h1 h' hb (ready_new df1) hm' with ⟨b1, n1', n', f1, f2, _⟩ | ⟨_, f2⟩
    · rw [e2] at f1; cases f1
    · exact Or.inr ⟨e1, f2⟩

/-! ### Examples -/

/-- A loop in a loop that waits for two fields, on `{"a":[{"a":1,"b":2},{"a":1,"b":1}]}`. -/
example : ∃ df df', transform demoComp 0 [demoNested] = .ok df ∧ transform demoComp 0 [.not demoNested] = .ok df' ∧
    ∃ b n n', run demoFns df (newMatcher df) textPairs = .ok (some b, n) ∧ run demoFns df' (newMatcher df') textPairs = .ok (some (!b), n') := by
  have hn0 : NotConst demoNested := by simp [NotConst, demoNested]
  obtain ⟨df, h⟩ := (C86_compiles demoComp 0 [demoNested]).1.2 (by
    intro e he
    simp only [List.mem_cons, List.not_mem_nil, or_false] at he
    subst he; exact demoNested_compiles)
  obtain ⟨df', h'⟩ := (C100_compiles demoComp 0 hn0).1 ⟨df, h⟩
  refine ⟨df, df', h, h', ?_⟩
  obtain ⟨b, n, e⟩ := C95_verdict demoFns demoComp 0 h (e := demoNested) (by
    intro e he
    simp only [List.mem_cons, List.not_mem_nil, or_false] at he
    subst he; simp [demoNested, SafeE, SafeEs, SafeParam, fieldA, fieldB]) (by simp) hn0 docPairs_text (ready_new df)
  rcases C100_not demoFns demoComp 0 hn0 h h' docPairs_text (ready_new df) (ready_new df') with ⟨b', n', n2, e1, e2, _⟩ | ⟨e1, _⟩
  · exact ⟨b', n', n2, e1, e2⟩
  · rw [e] at e1; cases e1

/-- Constants have to be excepted: the matcher of `TRUE` crashes on an object, and that of its negation matches it. -/
example : verdictOn [(.not .tru : Expr demoExt)] [123, 125] = .ok (some true) ∧ verdictOn [(.tru : Expr demoExt)] [123, 125] = .panic := by
  decide +kernel

end Verif.Transform
