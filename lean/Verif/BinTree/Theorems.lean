import Verif.BinTree.Run

/-!
# Theorems about the decision tree (C01 - C06, C08)

`Shaped t s 0 0` with `t.length = s.size` says that the array `t` is the preorder layout of the Boolean tree
`s` (this is what the compiler produces, see `Verif.Transform`).  `Sh.eval` is the Boolean meaning.
-/

namespace Verif.BinTree

open Res

/-- A concrete tree used to show that hypotheses are met: `(x0 AND NOT x1) OR loop(x2)`. -/
def demoSh : Sh := .bin .or (.bin .and .leaf (.un .not .leaf)) (.un .loop .leaf)

/-- Its array layout. -/
def demoTree : Tree :=
  [⟨.or, 0, 1, 5⟩, ⟨.and, 0, 2, 3⟩, ⟨.leaf, 1, 0, 0⟩, ⟨.not, 1, 4, 0⟩, ⟨.leaf, 3, 0, 0⟩,
   ⟨.loop, 0, 6, 0⟩, ⟨.leaf, 5, 0, 0⟩]

theorem demo_shaped : Shaped demoTree demoSh 0 0 := by
  simp [Shaped, demoTree, demoSh, UnOp.ty, BinOp.ty, Sh.size]

example : demoTree.length = demoSh.size := rfl

/-! ### C01 -/

/-- Marks at positions none of which lies inside another: the verdict after `Resolve` is the value of the tree
in which every marked position has its marked value and every unmarked condition is false.  Marks may be on
conditions or on whole subtrees (the matcher marks a loop node with the outcome of the loop). -/
theorem C01_verdict_of_marks {t : Tree} {s : Sh} (hs : Shaped t s 0 0) (hlen : t.length = s.size)
    (l : List (Nat × Bool)) (hr : ∀ x ∈ l, x.1 < s.size)
    (ha : Antichain s 0 (fun i => ∃ v, (i, v) ∈ l)) :
    ∃ st, (runMarks t (newState t) l >>= resolve t) = .ok st ∧ isResolved st 0 = .ok true ∧
      isTrue st 0 = .ok (s.evalM 0 (fun i => l.lookup i)) := by
  have hf := newState_fresh t s.size (by omega)
  have hI := hf.inv (p := fun _ => none) (fun _ _ _ => rfl)
  have hctx : Ctx t (newState t).stall s 0 := ⟨⟨0, hs⟩, Or.inl rfl, Or.inl (Nat.le_refl 0)⟩
  obtain ⟨d1, e1, e2, e3, _⟩ := runMarks_spec l hctx (by simp [newState]) hI
    (fun x hx => ⟨by omega, by have := hr x hx; omega⟩)
    (by intro i j s' hi hj; exact ha i j s' (by simpa using hi) (by simpa using hj))
  obtain ⟨d2, q, g1, g2, g3, g4, g5⟩ := resolve_spec (st := { newState t with data := d1 }) hs hlen rfl e3 e2
  refine ⟨_, by rw [e1]; exact g1, ?_, ?_⟩
  · simp [isResolved, Res.idx_of_some g2.root, g4]
  · cases hk : K s 0 q with
    | none => exact absurd hk g4
    | some v =>
      have := evalM_falseExt g3 hs
      rw [K_evalM hk] at this
      simp only [Option.none_or] at this
      simp only [isTrue, Res.idx_of_some g2.root, hk, ← this]
      cases v <;> simp [SV.ofBool]

theorem leaf_antichain (s : Sh) (b : Nat) (P : Nat → Prop) (h : ∀ i, P i → s.IsLeaf b i) :
    Antichain s b P := by
  intro i j s' hi hj hs' hij
  have h1 := isLeaf_iff_subAt.1 (h i hi)
  have : s' = .leaf := by
    clear hj
    induction s generalizing b with
    | leaf => exact hs'.1
    | un o a ih =>
      rcases h1 with ⟨h1, _⟩ | h1
      · simp at h1
      · rcases hs' with ⟨rfl, rfl⟩ | hs'
        · have := SubAt.range h1; omega
        · exact ih (b + 1) (fun i hi => h i hi) hs' h1
    | bin o a c iha ihc =>
      rcases h1 with ⟨h1, _⟩ | h1 | h1
      · simp at h1
      · rcases hs' with ⟨rfl, rfl⟩ | hs' | hs'
        · have := SubAt.range h1; omega
        · exact same h1 hs'
        · have r1 := SubAt.range h1; have r2 := SubAt.range hs'
          simp only [Sh.size] at r1; have := s'.size_pos; omega
      · rcases hs' with ⟨rfl, rfl⟩ | hs' | hs'
        · have := SubAt.range h1; omega
        · have r1 := SubAt.range h1; have r2 := SubAt.range hs'
          simp only [Sh.size] at r1; have := s'.size_pos; omega
        · exact same h1 hs'
  subst this
  simp only [Sh.size]; omega
where
  same {s s' : Sh} {b i : Nat} (h1 : s.SubAt b .leaf i) (h2 : s.SubAt b s' i) : s' = .leaf := by
    induction s generalizing b with
    | leaf => exact h2.1
    | un o a ih =>
      rcases h1 with ⟨h1, _⟩ | h1
      · simp at h1
      · rcases h2 with ⟨rfl, rfl⟩ | h2
        · have := SubAt.range h1; omega
        · exact ih h1 h2
    | bin o a c iha ihc =>
      rcases h1 with ⟨h1, _⟩ | h1 | h1
      · simp at h1
      · rcases h2 with ⟨rfl, rfl⟩ | h2 | h2
        · have := SubAt.range h1; omega
        · exact iha h1 h2
        · have r1 := SubAt.range h1; have r2 := SubAt.range h2
          simp only [Sh.size] at r1; have := s'.size_pos; omega
      · rcases h2 with ⟨rfl, rfl⟩ | h2 | h2
        · have := SubAt.range h1; omega
        · have r1 := SubAt.range h1; have r2 := SubAt.range h2
          simp only [Sh.size] at r1; have := s'.size_pos; omega
        · exact ihc h1 h2

/-- The marks made when the conditions `l` are decided in that order with outcomes `f`. -/
def decided (l : List Nat) (f : Nat → Bool) : List (Nat × Bool) := l.map (fun i => (i, f i))

theorem lookup_decided (l : List Nat) (f : Nat → Bool) (i : Nat) :
    (decided l f).lookup i = if i ∈ l then some (f i) else none := by
  induction l with
  | nil => rfl
  | cons x l ih =>
    simp only [decided, List.map_cons, List.lookup_cons] at ih ⊢
    by_cases h : i = x
    · subst h; simp
    · have : (i == x) = false := by simpa using h
      simp [this, ih, h]

theorem mem_decided {l : List Nat} {f : Nat → Bool} {i : Nat} {v : Bool} (h : (i, v) ∈ decided l f) : i ∈ l := by
  simp only [decided, List.mem_map, Prod.mk.injEq] at h
  obtain ⟨x, hx, rfl, _⟩ := h; exact hx

/-- **C01.** Deciding any conditions in any order (repetitions allowed), then closing the document, gives the
Boolean value of the tree with undecided conditions false. -/
theorem C01_verdict_order_independent {t : Tree} {s : Sh} (hs : Shaped t s 0 0) (hlen : t.length = s.size)
    (f : Nat → Bool) (l : List Nat) (hl : ∀ i ∈ l, s.IsLeaf 0 i) :
    ∃ st, (runMarks t (newState t) (decided l f) >>= resolve t) = .ok st ∧ isResolved st 0 = .ok true ∧
      isTrue st 0 = .ok (s.eval 0 (fun i => decide (i ∈ l) && f i)) := by
  have hrange : ∀ i ∈ l, i < s.size := fun i hi => by
    have := SubAt.range (isLeaf_iff_subAt.1 (hl i hi)); simp only [Sh.size] at this; omega
  obtain ⟨st, e1, e2, e3⟩ := C01_verdict_of_marks hs hlen (decided l f)
    (fun x hx => hrange x.1 (mem_decided (v := x.2) hx))
    (leaf_antichain s 0 _ (fun i ⟨v, hv⟩ => hl i (mem_decided hv)))
  refine ⟨st, e1, e2, ?_⟩
  rw [e3, evalM_leaves (fun j hj _ _ => ?_)]
  · congr 1
    apply eval_congr; intro j _ _
    simp only [lookup_decided]; by_cases h : j ∈ l <;> simp [h]
  · rw [lookup_decided] at hj
    by_cases h : j ∈ l
    · exact hl j h
    · simp [h] at hj

/-- Two orders of the same decisions give the same verdict. -/
theorem C01_order_irrelevant {t : Tree} {s : Sh} (hs : Shaped t s 0 0) (hlen : t.length = s.size)
    (f : Nat → Bool) (l l' : List Nat) (hl : ∀ i ∈ l, s.IsLeaf 0 i) (hll : ∀ i, i ∈ l ↔ i ∈ l') :
    ∃ st st' v, (runMarks t (newState t) (decided l f) >>= resolve t) = .ok st ∧
      (runMarks t (newState t) (decided l' f) >>= resolve t) = .ok st' ∧
      isTrue st 0 = .ok v ∧ isTrue st' 0 = .ok v := by
  obtain ⟨st, e1, _, e3⟩ := C01_verdict_order_independent hs hlen f l hl
  obtain ⟨st', g1, _, g3⟩ := C01_verdict_order_independent hs hlen f l' (fun i hi => hl i ((hll i).2 hi))
  refine ⟨st, st', _, e1, g1, e3, ?_⟩
  rw [g3]
  congr 1
  apply eval_congr; intro j _ _; simp only [hll]

example : ∀ i ∈ [6, 2, 4], demoSh.IsLeaf 0 i := by simp [demoSh, Sh.IsLeaf, Sh.size]
example : demoSh.eval 0 (fun i => decide (i ∈ [2]) && true) = true := by decide
example : demoSh.eval 0 (fun i => decide (i ∈ [2, 4]) && true) = false := by decide

/-! ### C02 -/

/-- State of a decision in progress: the conditions `l` of the tree `s` at `b` (the whole tree, or the body of
the loop currently being evaluated) have been decided with outcomes `f`, starting from an untouched block. -/
structure InProgress (t : Tree) (s : Sh) (b : Nat) (l : List Nat) (f : Nat → Bool) (st : State) : Prop where
  run : ∃ st0 : State, st0.data.length = t.length ∧ Ctx t st0.stall s b ∧ Fresh st0.data b s.size ∧
    runMarks t st0 (decided l f) = .ok st
  conds : ∀ i ∈ l, s.IsLeaf b i

theorem InProgress.inv {t s b l f st} (h : InProgress t s b l f st) :
    st.data.length = t.length ∧ Ctx t st.stall s b ∧
      Inv st.data (fun i => if i ∈ l then some (f i) else none) s b := by
  obtain ⟨⟨st0, h1, h2, h3, h4⟩, hc⟩ := h
  have hI := h3.inv (p := fun _ => none) (fun _ _ _ => rfl)
  obtain ⟨d1, e1, e2, e3, _⟩ := runMarks_spec (decided l f) h2 h1 hI
    (fun x hx => by
      have := SubAt.range (isLeaf_iff_subAt.1 (hc x.1 (mem_decided (v := x.2) hx)))
      simp only [Sh.size] at this; omega)
    (leaf_antichain s b _ (fun i hi => by
      rcases hi with hi | ⟨v, hv⟩
      · simp at hi
      · exact hc i (mem_decided hv)))
  rw [e1] at h4
  simp only [Res.ok.injEq] at h4
  subst h4
  refine ⟨e3, h2, Inv_congr (fun _ _ _ => rfl) (fun j _ _ => ?_) e2⟩
  simp [lookup_decided]

theorem InProgress.leaves {t s b l f st} (h : InProgress t s b l f st) :
    ∀ j, (if j ∈ l then some (f j) else none) ≠ none → b ≤ j → j < b + s.size → s.IsLeaf b j := by
  intro j hj _ _
  by_cases hm : j ∈ l
  · exact h.conds j hm
  · simp [hm] at hj

/-- **C02, soundness.** A value that counts as decided is the value under every completion. -/
theorem C02_early_decision_sound {t : Tree} {s : Sh} {b : Nat} {l : List Nat} {f : Nat → Bool} {st : State}
    (h : InProgress t s b l f st) (hr : isResolved st b = .ok true) (g : Nat → Bool)
    (hg : ∀ i ∈ l, g i = f i) : isTrue st b = .ok (s.eval b g) := by
  obtain ⟨_, _, hI⟩ := h.inv
  have hroot := hI.root
  cases hk : K s b (fun i => if i ∈ l then some (f i) else none) with
  | none =>
    rw [hk] at hroot
    simp [isResolved, Res.idx_of_some hroot] at hr
  | some v =>
    rw [hk] at hroot
    have := K_sound hk h.leaves (g := g) (fun j w _ _ hw => by
      by_cases hm : j ∈ l
      · simp only [hm, if_true, Option.some.injEq] at hw; rw [hg j hm, hw]
      · simp [hm] at hw)
    rw [this]
    simp only [isTrue, Res.idx_of_some hroot]
    cases v <;> simp [SV.ofBool]

/-- **C02, completeness.** A value that counts as undecided is really open: both outcomes are possible (for a
tree of a single expression; merge nodes deliberately wait for both sides). -/
theorem C02_undecided_is_open {t : Tree} {s : Sh} {b : Nat} {l : List Nat} {f : Nat → Bool} {st : State}
    (h : InProgress t s b l f st) (hnf : s.NeorFree) (hr : isResolved st b = .ok false) (v : Bool) :
    ∃ g : Nat → Bool, (∀ i ∈ l, g i = f i) ∧ s.eval b g = v := by
  obtain ⟨_, _, hI⟩ := h.inv
  have hroot := hI.root
  cases hk : K s b (fun i => if i ∈ l then some (f i) else none) with
  | some w =>
    rw [hk] at hroot
    simp [isResolved, Res.idx_of_some hroot] at hr
  | none =>
    obtain ⟨g, g1, g2⟩ := (K_complete hnf h.leaves).2 hk v
    refine ⟨g, fun i hi => ?_, g2⟩
    have := SubAt.range (isLeaf_iff_subAt.1 (h.conds i hi))
    simp only [Sh.size] at this
    exact g1 i (f i) (by omega) (by omega) (by simp [hi])

/-- **C02, finality.** Once decided, later decisions do not change the value. -/
theorem C02_decision_final {t : Tree} {s : Sh} {b : Nat} {l l' : List Nat} {f : Nat → Bool} {st : State}
    (h : InProgress t s b l f st) (hr : isResolved st b = .ok true) (hl' : ∀ i ∈ l', s.IsLeaf b i) :
    ∃ st', runMarks t st (decided l' f) = .ok st' ∧ isResolved st' b = .ok true ∧
      isTrue st' b = isTrue st b := by
  obtain ⟨h1, h2, hI⟩ := h.inv
  obtain ⟨d1, e1, e2, e3, _⟩ := runMarks_spec (decided l' f) h2 h1 hI
    (fun x hx => by
      have := SubAt.range (isLeaf_iff_subAt.1 (hl' x.1 (mem_decided (v := x.2) hx)))
      simp only [Sh.size] at this; omega)
    (leaf_antichain s b _ (fun i hi => by
      rcases hi with hi | ⟨v, hv⟩
      · by_cases hm : i ∈ l
        · exact h.conds i hm
        · simp [hm] at hi
      · exact hl' i (mem_decided hv)))
  obtain ⟨⟨st0, k1, k2, k3, k4⟩, hc⟩ := h
  have hip : InProgress t s b (l ++ l') f { st with data := d1 } := by
    refine ⟨⟨st0, k1, k2, k3, ?_⟩, fun i hi => ?_⟩
    · rw [decided, List.map_append, runMarks_append, show runMarks t st0 (l.map _) = _ from k4]
      simp only [Res.bind_ok]; exact e1
    · rcases List.mem_append.1 hi with hi | hi
      · exact hc i hi
      · exact hl' i hi
  have hres : isResolved { st with data := d1 } b = .ok true := by
    -- root value cannot become undecided
    have hroot := hI.root
    cases hk : K s b (fun i => if i ∈ l then some (f i) else none) with
    | none => rw [hk] at hroot; simp [isResolved, Res.idx_of_some hroot] at hr
    | some w =>
      have hnone : K s b (fun i => if i ∈ l ++ l' then some (f i) else none) ≠ none := by
        have hmono : ∀ (l'' l0 : List Nat), (∀ i ∈ l'', s.IsLeaf b i) →
            K s b (fun i => if i ∈ l0 then some (f i) else none) = some w →
            K s b (fun i => if i ∈ l0 ++ l'' then some (f i) else none) = some w := by
          intro l''
          induction l'' with
          | nil => intro l0 _ h0; simpa using h0
          | cons x xs ih =>
            intro l0 hx h0
            have := ih (l0 ++ [x]) (fun i hi => hx i (by simp [hi])) (by
              by_cases hmem : x ∈ l0
              · rw [← h0]; congr 1; funext i
                have : i ∈ l0 ++ [x] ↔ i ∈ l0 := by
                  simp only [List.mem_append, List.mem_singleton]
                  exact ⟨fun h => h.elim id (fun h => h ▸ hmem), Or.inl⟩
                simp only [this]
              · have := K_mono (v := f x) (isLeaf_iff_subAt.1 (hx x (by simp)))
                  (by simp only [K, hmem, if_false]) h0
                rw [← this]; congr 1; funext i
                simp only [upd]
                by_cases hix : i = x
                · subst hix; simp
                · simp [hix])
            simpa using this
        rw [hmono l' l hl' hk]; simp
      have hroot' := hip.inv.2.2.root
      simp only at hroot'
      simp only [isResolved, Res.idx_of_some hroot']
      generalize K s b _ = z at hnone
      simp [hnone]
  refine ⟨_, e1, hres, ?_⟩
  rw [C02_early_decision_sound hip hres f (fun _ _ => rfl)]
  rw [C02_early_decision_sound ⟨⟨st0, k1, k2, k3, k4⟩, hc⟩ hr f (fun _ _ => rfl)]

/-- Meets the hypotheses: the demo tree with condition 6 decided true is decided although 2 and 4 are not. -/
example : ∃ st, InProgress demoTree demoSh 0 [6] (fun _ => true) st ∧ isResolved st 0 = .ok true := by
  refine ⟨_, ⟨⟨newState demoTree, rfl, ⟨⟨0, demo_shaped⟩, Or.inl rfl, Or.inl (Nat.le_refl 0)⟩,
    newState_fresh _ _ (Nat.le_refl _), rfl⟩, by simp [demoSh, Sh.IsLeaf, Sh.size]⟩, by decide⟩

example : demoSh.NeorFree := by simp [demoSh, Sh.NeorFree]

/-! ### C03, C04 -/

/-- Operations on a decision state between two documents. -/
inductive Op where
  | mark (i : Nat) (v : Bool)
  | resolve
  | reset
  deriving Repr

/-- Effect of an operation (`mark` with the "skip if settled" guard). -/
def Op.run (t : Tree) (st : State) : Op → Res State
  | .mark i v => guardedMark t st i v
  | .resolve => BinTree.resolve t st
  | .reset => .ok (BinTree.reset st)

/-- A history of operations. -/
def runOps (t : Tree) : State → List Op → Res State
  | st, [] => .ok st
  | st, o :: os => o.run t st >>= fun st => runOps t st os

theorem reset_eq_newState (t : Tree) (st : State) (h : st.data.length = t.length) : reset st = newState t := by
  simp [reset, newState, ← h, List.map_const']

theorem runOps_inv {t : Tree} {s : Sh} (hs : Shaped t s 0 0) (hlen : t.length = s.size) (ops : List Op)
    (hr : ∀ i v, Op.mark i v ∈ ops → i < t.length) {st : State} {p : Nat → Option Bool} (h0 : st.stall = 0)
    (hl : st.data.length = t.length) (hI : Inv st.data p s 0) :
    ∃ st' q, runOps t st ops = .ok st' ∧ st'.stall = 0 ∧ st'.data.length = t.length ∧ Inv st'.data q s 0 := by
  induction ops generalizing st p with
  | nil => exact ⟨st, p, rfl, h0, hl, hI⟩
  | cons o ops ih =>
    have step : ∃ st' q, o.run t st = .ok st' ∧ st'.stall = 0 ∧ st'.data.length = t.length ∧
        Inv st'.data q s 0 := by
      cases o with
      | mark i v =>
        have hi := hr i v (by simp)
        have hctx : Ctx t st.stall s 0 := ⟨⟨0, hs⟩, Or.inl rfl, Or.inl (by omega)⟩
        obtain ⟨d', q, e1, e2, e3, _⟩ := runMarks_ok [(i, v)] hctx hl hI (by simp; omega)
        refine ⟨{ st with data := d' }, q, ?_, h0, e3, e2⟩
        simp only [runMarks] at e1
        show guardedMark t st i v = _
        cases hg : guardedMark t st i v with
        | ok st' => rw [hg] at e1; simpa using e1
        | panic => rw [hg] at e1; simp at e1
        | stuck => rw [hg] at e1; simp at e1
      | resolve =>
        obtain ⟨d', q, e1, e2, _, _, e3⟩ := resolve_spec hs hlen h0 hl hI
        exact ⟨_, q, e1, h0, e3, e2⟩
      | reset =>
        refine ⟨_, fun _ => none, rfl, rfl, by simp [BinTree.reset, hl], ?_⟩
        rw [reset_eq_newState t st hl]
        exact (newState_fresh t s.size (by omega)).inv (fun _ _ _ => rfl)
    obtain ⟨st1, q1, e1, e2, e3, e4⟩ := step
    obtain ⟨st', q, g1, g2⟩ := ih (fun i v h => hr i v (by simp [h])) e2 e3 e4
    exact ⟨st', q, by simp only [runOps, e1, Res.bind_ok]; exact g1, g2⟩

/-- **C03.** No history of guarded evaluations (of any nodes, conditions or not), document ends and resets makes
the decision state panic (nor run forever). -/
theorem C03_no_panic {t : Tree} {s : Sh} (hs : Shaped t s 0 0) (hlen : t.length = s.size) (ops : List Op)
    (hr : ∀ i v, Op.mark i v ∈ ops → i < t.length) :
    ∃ st, runOps t (newState t) ops = .ok st := by
  obtain ⟨st, _, h, _⟩ := runOps_inv hs hlen ops hr (st := newState t) (p := fun _ => none) rfl
    (by simp [newState]) ((newState_fresh t s.size (by omega)).inv (fun _ _ _ => rfl))
  exact ⟨st, h⟩

/-- The guard matters: an unguarded second mark of the same condition panics. -/
theorem C03_unguarded_double_mark_panics :
    (markNode demoTree (newState demoTree) 2 true >>= fun st => markNode demoTree st 2 true) = .panic := by
  decide

example : ∀ i v, Op.mark i v ∈ [Op.mark 1 true, Op.mark 2 false, Op.resolve, Op.mark 6 true, Op.reset] →
    i < demoTree.length := by
  simp [demoTree]; omega

/-- States reachable while a document is being processed, including inside loops: any state obtained from a
new one by marks, node resets and stall changes, in any order, as long as the operations succeed. -/
inductive Reachable (t : Tree) : State → Prop where
  | new : Reachable t (newState t)
  | mark {st st'} (i v) (h : Reachable t st) (e : markNode t st i v = .ok st') : Reachable t st'
  | resetNode {st st'} (i) (h : Reachable t st) (e : resetNode t st i = .ok st') : Reachable t st'
  | stall {st} (i) (h : Reachable t st) : Reachable t (setStallIndex st i).1
  | resolve {st st'} (h : Reachable t st) (e : resolve t st = .ok st') : Reachable t st'
  | reset {st} (h : Reachable t st) : Reachable t (reset st)

theorem resolveVisit_length {rec : List SV → Nat → Res (List SV)}
    (hrec : ∀ d i d', rec d i = .ok d' → d'.length = d.length) {d c d'}
    (h : resolveVisit rec d c = .ok d') : d'.length = d.length := by
  obtain ⟨x, _, h⟩ := Res.bind_eq_ok.1 h
  split at h
  · have := hrec _ _ _ h; simpa using this
  · simp at h; rw [h]

theorem resolveRecursive_length {t : Tree} : ∀ fuel d i d', resolveRecursive t fuel d i = .ok d' →
    d'.length = d.length := by
  intro fuel
  induction fuel with
  | zero => intro d i d' h; simp [resolveRecursive] at h
  | succ fuel ih =>
    intro d i d' h
    rw [resolveRecursive] at h
    obtain ⟨n, _, h⟩ := Res.bind_eq_ok.1 h
    obtain ⟨d1, h1, h⟩ := Res.bind_eq_ok.1 h
    have e1 : d1.length = d.length := by
      split at h1
      · exact resolveVisit_length ih h1
      · simp at h1; rw [h1]
    split at h
    · rw [resolveVisit_length ih h, e1]
    · simp at h; rw [← h, e1]

theorem markNodeAux_length {t : Tree} {stall : Nat} : ∀ fuel d i v d', markNodeAux t stall fuel d i v = .ok d' →
    d'.length = d.length := by
  intro fuel
  induction fuel with
  | zero => intro d i v d' h; simp [markNodeAux] at h
  | succ fuel ih =>
    intro d i v d' h
    cases hx : d[i]? with
    | none => simp [markNodeAux, Res.idx, hx] at h
    | some x =>
      by_cases hu : x = .unknown
      · subst hu
        rw [markNodeAux_succ _ _ _ _ _ _ hx] at h
        obtain ⟨d1, h1, h⟩ := Res.bind_eq_ok.1 h
        have e1 : d1.length = d.length := by simpa using resolveRecursive_length _ _ _ _ h1
        rw [up] at h
        split at h
        · simp at h; rw [← h, e1]
        · split at h
          · simp at h; rw [← h, e1]
          · obtain ⟨n, _, h⟩ := Res.bind_eq_ok.1 h
            obtain ⟨r, _, h⟩ := Res.bind_eq_ok.1 h
            cases r with
            | none => simp at h; rw [← h, e1]
            | some w => rw [ih _ _ _ _ h, e1]
      · simp [markNodeAux, Res.idx_of_some hx, hu] at h

theorem markNode_length {t : Tree} {st st' : State} {i v} (h : markNode t st i v = .ok st') :
    st'.data.length = st.data.length := by
  rw [markNode] at h
  obtain ⟨d, h1, h2⟩ := Res.bind_eq_ok.1 h
  simp at h2; subst h2
  exact markNodeAux_length _ _ _ _ _ h1

theorem resetNodeRecursive_length {t : Tree} : ∀ fuel d i d', resetNodeRecursive t fuel d i = .ok d' →
    d'.length = d.length := by
  intro fuel
  induction fuel with
  | zero => intro d i d' h; simp [resetNodeRecursive] at h
  | succ fuel ih =>
    intro d i d' h
    rw [resetNodeRecursive] at h
    obtain ⟨_, _, h⟩ := Res.bind_eq_ok.1 h
    obtain ⟨n, _, h⟩ := Res.bind_eq_ok.1 h
    obtain ⟨d1, h1, h⟩ := Res.bind_eq_ok.1 h
    have e1 : d1.length = d.length := by
      split at h1
      · simpa using ih _ _ _ h1
      · simp at h1; rw [← h1]; simp
    split at h
    · rw [ih _ _ _ h, e1]
    · simp at h; rw [← h, e1]

theorem resolveLoop_length {t : Tree} : ∀ n st st', resolveLoop t n st = .ok st' →
    st'.data.length = st.data.length := by
  intro n
  induction n with
  | zero => intro st st' h; simp [resolveLoop] at h; rw [h]
  | succ n ih =>
    intro st st' h
    rw [resolveLoop] at h
    obtain ⟨x, _, h⟩ := Res.bind_eq_ok.1 h
    obtain ⟨s1, h1, h⟩ := Res.bind_eq_ok.1 h
    obtain ⟨r, _, h⟩ := Res.bind_eq_ok.1 h
    have e1 : s1.data.length = st.data.length := by
      split at h1
      · exact markNode_length h1
      · simp at h1; rw [h1]
    split at h
    · simp at h; rw [← h, e1]
    · rw [ih _ _ h, e1]

theorem Reachable.length {t : Tree} {st : State} (h : Reachable t st) : st.data.length = t.length := by
  induction h with
  | new => simp [newState]
  | mark i v _ e ih => rw [markNode_length e, ih]
  | resetNode i _ e ih =>
    rw [BinTree.resetNode] at e
    obtain ⟨d, h1, h2⟩ := Res.bind_eq_ok.1 e
    simp at h2; subst h2
    simp only; rw [resetNodeRecursive_length _ _ _ _ h1, ih]
  | stall i _ ih => simpa [setStallIndex] using ih
  | resolve _ e ih =>
    rw [BinTree.resolve] at e
    obtain ⟨b, _, e⟩ := Res.bind_eq_ok.1 e
    split at e
    · simp at e; rw [← e, ih]
    · rw [resolveLoop_length _ _ _ e, ih]
  | reset _ ih => simpa [BinTree.reset] using ih

/-- **C04.** Whatever happened before — any marks, loops entered and abandoned half way — `Reset` gives the
state of a new matcher. -/
theorem C04_reset_restores {t : Tree} {st : State} (h : Reachable t st) : reset st = newState t :=
  reset_eq_newState t st h.length

/-- **C44.** Copying one state of a tree into another makes all its decisions those of the source, whatever the target had
decided before, and leaves the stall index of the target alone; with equal stall indices the states become equal, so everything
that follows is the same. -/
theorem C44_copy {t : Tree} {st o : State} (h : Reachable t st) (ho : Reachable t o) :
    (∀ i, isResolved (copyFrom st o) i = isResolved o i ∧ isTrue (copyFrom st o) i = isTrue o i) ∧
      (copyFrom st o).stall = st.stall ∧ (st.stall = o.stall → copyFrom st o = o) := by
  have hd : (copyFrom st o).data = o.data := by
    show o.data ++ st.data.drop o.data.length = o.data
    rw [List.drop_eq_nil_of_le (by rw [h.length, ho.length]; exact Nat.le_refl _), List.append_nil]
  refine ⟨fun i => ⟨by unfold isResolved; rw [hd], by unfold isTrue; rw [hd]⟩, rfl, fun e => ?_⟩
  cases o with
  | mk d s =>
    have e' : (copyFrom st ⟨d, s⟩).stall = s := e
    generalize copyFrom st ⟨d, s⟩ = x at hd e'
    cases x
    cases hd
    cases e'
    rfl

/-- The states of a loop half way and of a new matcher differ both in decisions and in the stall index. -/
example : ∃ st, Reachable demoTree st ∧ copyFrom st (newState demoTree) ≠ newState demoTree ∧
    (copyFrom st (newState demoTree)).data = (newState demoTree).data := by
  refine ⟨_, .mark 6 true (.stall 5 .new) rfl, by decide, by decide⟩

/-- A reachable state different from a new one (a loop entered, its condition decided, then abandoned). -/
example : ∃ st, Reachable demoTree st ∧ st ≠ newState demoTree := by
  refine ⟨_, .mark 6 true (.stall 5 .new) rfl, by decide⟩

/-! ### C05 -/

/-- One pass over a loop body as `matchLoop` does it: clear the body, then decide some of its nodes. -/
def iteration (t : Tree) (b : Nat) (st : State) (l : List (Nat × Bool)) : Res State :=
  resetNode t st b >>= fun st => runMarks t st l

/-- All passes of one loop. -/
def iterations (t : Tree) (b : Nat) : State → List (List (Nat × Bool)) → Res State
  | st, [] => .ok st
  | st, l :: ls => iteration t b st l >>= fun st => iterations t b st ls

/-- **C05, isolation.** With the stall index on the loop node, deciding nodes of its body in any way, over any
number of elements, changes nothing outside the body. -/
theorem C05_loop_body_isolated {t : Tree} {s : Sh} {b par : Nat} (hs : Shaped t s b par) (st : State)
    (hst : st.stall = b) (hl : st.data.length = t.length) (ls : List (List (Nat × Bool)))
    (hr : ∀ l ∈ ls, ∀ x ∈ l, b ≤ x.1 ∧ x.1 < b + s.size) :
    ∃ st', iterations t b st ls = .ok st' ∧ st'.stall = st.stall ∧ st'.data.length = t.length ∧
      ∀ j, j < b ∨ b + s.size ≤ j → st'.data[j]? = st.data[j]? := by
  induction ls generalizing st with
  | nil => exact ⟨st, rfl, rfl, hl, fun _ _ => rfl⟩
  | cons l ls ih =>
    obtain ⟨d1, e1, e2, e3, e4⟩ := resetNode_spec hs st hl
    have hctx : Ctx t ({ st with data := d1 } : State).stall s b := ⟨⟨par, hs⟩, Or.inr hst.symm, Or.inl (by simp [hst])⟩
    obtain ⟨d2, q, g1, g2, g3, g4⟩ := runMarks_ok l hctx e2 (e3.inv (p := fun _ => none) (fun _ _ _ => rfl))
      (hr l (by simp))
    obtain ⟨st', k1, k2, k3, k4⟩ := ih { st with data := d2 } hst g3 (fun l hl => hr l (by simp [hl]))
    refine ⟨st', ?_, k2, k3, fun j hj => ?_⟩
    · simp only [iterations, iteration, e1, Res.bind_ok, g1]; exact k1
    · rw [k4 j hj]; simp only; rw [g4 j hj]; simp only; rw [e4 j hj]

/-- **C05, clearing.** Clearing a loop body leaves everything outside as it was and everything inside undecided. -/
theorem C05_clear_body {t : Tree} {s : Sh} {b par : Nat} (hs : Shaped t s b par) (st : State)
    (hl : st.data.length = t.length) :
    ∃ st', resetNode t st b = .ok st' ∧ st'.stall = st.stall ∧
      (∀ j, b ≤ j → j < b + s.size → isResolved st' j = .ok false) ∧
      (∀ j, j < b ∨ b + s.size ≤ j → st'.data[j]? = st.data[j]?) := by
  obtain ⟨d1, e1, e2, e3, e4⟩ := resetNode_spec hs st hl
  refine ⟨_, e1, rfl, fun j h1 h2 => ?_, e4⟩
  simp [isResolved, Res.idx_of_some (e3 j h1 h2)]

/-- **C05, round trip.** A loop entered on an undecided body leaves, after clearing and restoring the stall
index, exactly the state it found; so marking the loop node with the outcome is the only effect. -/
theorem C05_loop_round_trip {t : Tree} {s : Sh} {b par : Nat} (hs : Shaped t s b par) (st : State)
    (hl : st.data.length = t.length) (hf : Fresh st.data b s.size) (ls : List (List (Nat × Bool)))
    (hr : ∀ l ∈ ls, ∀ x ∈ l, b ≤ x.1 ∧ x.1 < b + s.size) :
    (iterations t b (setStallIndex st b).1 ls >>= fun st1 => resetNode t st1 b >>= fun st2 =>
      Res.ok (setStallIndex st2 (setStallIndex st b).2).1) = .ok st := by
  obtain ⟨st1, e1, e2, e3, e4⟩ := C05_loop_body_isolated hs (setStallIndex st b).1 rfl hl ls hr
  obtain ⟨d2, g1, g2, g3, g4⟩ := resetNode_spec hs st1 e3
  rw [e1]; simp only [Res.bind_ok, g1]
  congr 1
  simp only [setStallIndex]
  have : d2 = st.data := by
    apply List.ext_getElem?
    intro j
    by_cases hj : b ≤ j ∧ j < b + s.size
    · rw [g3 j hj.1 hj.2, hf j hj.1 hj.2]
    · rw [g4 j (by omega), e4 j (by omega)]; rfl
  rw [this]

example : Shaped demoTree (.un .loop .leaf) 5 0 := by simp [Shaped, demoTree, UnOp.ty]
example : Fresh (newState demoTree).data 5 (Sh.un .loop .leaf).size := by
  intro j h1 h2; exact newState_fresh demoTree 7 (by decide) j (by omega) (by simp only [Sh.size] at h2; omega)

/-- Without the stall index the body's outcome escapes: the same marks outside a loop context decide the root. -/
theorem C05_stall_needed :
    (runMarks demoTree (newState demoTree) [(6, true)] >>= fun st => isResolved st 0) = .ok true ∧
    (runMarks demoTree (setStallIndex (newState demoTree) 5).1 [(6, true)] >>= fun st => isResolved st 0) = .ok false := by
  decide

/-! ### C06 -/

theorem mergeParts_value {d q} {rest : List Sh} : ∀ {s : Sh} {b : Nat}, Inv d q (mergeSh s rest) b →
    K (mergeSh s rest) b q ≠ none →
    (∀ j, q j ≠ none → b ≤ j → j < b + (mergeSh s rest).size → (mergeSh s rest).IsLeaf b j) →
    ∀ x ∈ mergeParts s rest b, d[x.2]? = some (SV.ofBool (x.1.evalM x.2 q)) := by
  induction rest with
  | nil =>
    intro s b hI hk _ x hx
    simp only [mergeParts, List.mem_singleton] at hx
    subst hx
    simp only [mergeSh] at hI hk
    cases h : K s b q with
    | none => exact absurd h hk
    | some v =>
      have := hI.root
      rw [h] at this
      simp only [K_evalM h]; exact this
  | cons s' rest ih =>
    intro s b hI hk hq x hx
    simp only [mergeSh] at hI hk hq
    have hqb : q b = none := by
      cases h : q b with
      | none => rfl
      | some v =>
        have h3 := hq b (by simp [h]) (by omega) (by have := (Sh.bin .neor s (mergeSh s' rest)).size_pos; omega)
        rcases h3 with h3 | h3 <;>
        · have := SubAt.range (isLeaf_iff_subAt.1 h3); omega
    have hI2 := hI.2
    rw [if_pos (Or.inr ⟨rfl, hqb⟩)] at hI2
    simp only [K, hqb, Option.none_or] at hk
    obtain ⟨ka, kc⟩ := kBin_neor_some hk
    simp only [mergeParts, List.mem_cons] at hx
    rcases hx with rfl | hx
    · cases h : K s (b + 1) q with
      | none => exact absurd h ka
      | some v =>
        have := hI2.1.root
        rw [h] at this
        simp only [K_evalM h]; exact this
    · refine ih hI2.2 kc (fun j hj h1 h2 => ?_) x hx
      rcases hq j hj (by omega) (by simp only [Sh.size]; omega) with h3 | h3
      · have := SubAt.range (isLeaf_iff_subAt.1 h3); simp only [Sh.size] at this; omega
      · exact h3

theorem mergeParts_sub (rest : List Sh) : ∀ (s : Sh) (b : Nat), ∀ x ∈ mergeParts s rest b,
    (mergeSh s rest).SubAt b x.1 x.2 := by
  induction rest with
  | nil =>
    intro s b x hx
    simp only [mergeParts, List.mem_singleton] at hx
    subst hx; exact SubAt.refl _ _
  | cons s' rest ih =>
    intro s b x hx
    simp only [mergeParts, List.mem_cons] at hx
    rcases hx with rfl | hx
    · exact Or.inr (Or.inl (SubAt.refl _ _))
    · exact Or.inr (Or.inr (ih s' _ x hx))

theorem mergeSh_eval (rest : List Sh) (g : Nat → Bool) : ∀ (s : Sh) (b : Nat),
    (mergeSh s rest).eval b g = (mergeParts s rest b).any (fun x => x.1.eval x.2 g) := by
  induction rest with
  | nil => intro s b; simp [mergeSh, mergeParts]
  | cons s' rest ih => intro s b; simp [mergeSh, mergeParts, Sh.eval, BinOp.eval, ih]

theorem isLeaf_of_sub {s s' : Sh} {b b' j : Nat} (h : s.SubAt b s' b') (hl : s.IsLeaf b j) (h1 : b' ≤ j)
    (h2 : j < b' + s'.size) : s'.IsLeaf b' j := by
  induction s generalizing b with
  | leaf => obtain ⟨rfl, rfl⟩ := h; exact hl
  | un o a ih =>
    rcases h with ⟨rfl, rfl⟩ | h
    · exact hl
    · exact ih h hl
  | bin o a c iha ihc =>
    rcases h with ⟨rfl, rfl⟩ | h | h
    · exact hl
    · have := SubAt.range h
      rcases hl with hl | hl
      · exact iha h hl
      · have := SubAt.range (isLeaf_iff_subAt.1 hl); omega
    · have := SubAt.range h
      rcases hl with hl | hl
      · have := SubAt.range (isLeaf_iff_subAt.1 hl); simp only [Sh.size] at this; omega
      · exact ihc h hl

/-- **C06.** For merged expressions, after deciding any conditions in any order and closing the document, the
entry of every expression's root is its own Boolean value, and the overall verdict is their disjunction. -/
theorem C06_each_expression_own_verdict {t : Tree} (s : Sh) (rest : List Sh)
    (hs : Shaped t (mergeSh s rest) 0 0) (hlen : t.length = (mergeSh s rest).size)
    (f : Nat → Bool) (l : List Nat) (hl : ∀ i ∈ l, (mergeSh s rest).IsLeaf 0 i) :
    ∃ st, (runMarks t (newState t) (decided l f) >>= resolve t) = .ok st ∧
      (∀ x ∈ mergeParts s rest 0, isTrue st x.2 = .ok (x.1.eval x.2 (fun i => decide (i ∈ l) && f i))) ∧
      isTrue st 0 = .ok ((mergeParts s rest 0).any (fun x => x.1.eval x.2 (fun i => decide (i ∈ l) && f i))) := by
  have hctx : Ctx t (newState t).stall (mergeSh s rest) 0 := ⟨⟨0, hs⟩, Or.inl rfl, Or.inl (Nat.le_refl 0)⟩
  have hip : ∃ st1, InProgress t (mergeSh s rest) 0 l f st1 ∧ runMarks t (newState t) (decided l f) = .ok st1
      ∧ st1.stall = 0 := by
    obtain ⟨d1, e1, _⟩ := runMarks_spec (decided l f) hctx (by simp [newState])
      ((newState_fresh t _ (by omega)).inv (p := fun _ => none) (fun _ _ _ => rfl))
      (fun x hx => by
        have := SubAt.range (isLeaf_iff_subAt.1 (hl x.1 (mem_decided (v := x.2) hx)))
        simp only [Sh.size] at this; omega)
      (leaf_antichain _ 0 _ (fun i hi => by
        rcases hi with hi | ⟨v, hv⟩
        · simp at hi
        · exact hl i (mem_decided hv)))
    exact ⟨_, ⟨⟨newState t, by simp [newState], hctx, newState_fresh t _ (by omega), e1⟩, hl⟩, e1, rfl⟩
  obtain ⟨st1, hip, e1, h0⟩ := hip
  obtain ⟨h1, h2, hI⟩ := hip.inv
  obtain ⟨d2, q, g1, g2, g3, g4, g5⟩ := resolve_spec hs hlen h0 h1 hI
  have hq : ∀ j, q j ≠ none → 0 ≤ j → j < 0 + (mergeSh s rest).size → (mergeSh s rest).IsLeaf 0 j := by
    intro j hj _ hj2
    rcases g3 j with e | ⟨_, _, par, e⟩
    · rw [e] at hj; exact hip.leaves j hj (by omega) hj2
    · obtain ⟨s', hs'⟩ := exists_subAt (s := mergeSh s rest) (b := 0) (i := j) (by omega) hj2
      obtain ⟨par', hsh⟩ := SubAt.shaped hs' hs
      have : s' = .leaf := by
        cases s' with
        | leaf => rfl
        | un o a => have := hsh.1; rw [e] at this; cases o <;> simp [UnOp.ty] at this
        | bin o a c => have := hsh.1; rw [e] at this; cases o <;> simp [BinOp.ty] at this
      subst this
      exact isLeaf_iff_subAt.2 hs'
  have hpart : ∀ x ∈ mergeParts s rest 0,
      isTrue { st1 with data := d2 } x.2 = .ok (x.1.eval x.2 (fun i => decide (i ∈ l) && f i)) := by
    intro x hx
    have hv := mergeParts_value g2 g4 hq x hx
    have hsub := mergeParts_sub rest s 0 x hx
    obtain ⟨par', hsh⟩ := SubAt.shaped hsub hs
    rw [evalM_falseExt g3 hsh] at hv
    rw [evalM_leaves (fun j hj j1 j2 => by
      have := SubAt.range hsub
      exact isLeaf_of_sub hsub (hip.leaves j hj (by omega) (by omega)) j1 j2)] at hv
    have heq : x.1.eval x.2 (fun i => (if i ∈ l then some (f i) else none).getD false) =
        x.1.eval x.2 (fun i => decide (i ∈ l) && f i) := by
      apply eval_congr; intro j _ _; by_cases h : j ∈ l <;> simp [h]
    rw [heq] at hv
    simp only [isTrue, Res.idx_of_some hv]
    generalize x.1.eval x.2 (fun i => decide (i ∈ l) && f i) = v
    cases v <;> simp [SV.ofBool]
  refine ⟨{ st1 with data := d2 }, by rw [e1]; exact g1, hpart, ?_⟩
  rw [← mergeSh_eval]
  obtain ⟨st', k1, _, k3⟩ := C01_verdict_order_independent hs hlen f l hl
  rw [e1] at k1
  simp only [Res.bind_ok, g1, Res.ok.injEq] at k1
  subst k1; exact k3

/-- Three expressions `x`, `NOT y`, `z AND w` merged: a layout exists and the parts are where stated. -/
example : mergeParts .leaf [.un .not .leaf, .bin .and .leaf .leaf] 0 =
    [(.leaf, 1), (.un .not .leaf, 3), (.bin .and .leaf .leaf, 5)] := rfl

example : Shaped
    [⟨.neor, 0, 1, 2⟩, ⟨.leaf, 0, 0, 0⟩, ⟨.neor, 0, 3, 5⟩, ⟨.not, 2, 4, 0⟩, ⟨.leaf, 3, 0, 0⟩, ⟨.and, 2, 6, 7⟩,
     ⟨.leaf, 5, 0, 0⟩, ⟨.leaf, 5, 0, 0⟩]
    (mergeSh .leaf [.un .not .leaf, .bin .and .leaf .leaf]) 0 0 := by
  simp [Shaped, mergeSh, UnOp.ty, BinOp.ty, Sh.size]

/-! ### C08 -/

/-- `Validate` accepts every proper preorder layout. -/
theorem C08_validate_accepts_layouts {t : Tree} {s : Sh} (hs : Shaped t s 0 0) (hlen : t.length = s.size) :
    validate t = .ok true := by
  rw [validate, validateItem_complete hs (t.length + 1) (by omega)]
  simp [hlen]

/-- **C08 (partial).** An accepted array has, position by position, the node kinds and parent links of a tree
that fills the array; its child links are within range.  Missing: that the child links point at the actual
children — that is false, see `C08_validate_accepts_wrong_child_links`. -/
theorem C08_validate_sound_partial {t : Tree} (h : validate t = .ok true) :
    ∃ s, Positional t s 0 0 ∧ t.length = s.size := by
  rw [validate] at h
  obtain ⟨r, h1, h2⟩ := Res.bind_eq_ok.1 h
  cases r with
  | none => simp at h2
  | some pos =>
    obtain ⟨s, h3, h4⟩ := validateItem_sound _ _ _ _ h1
    simp at h2
    exact ⟨s, h3, by omega⟩

/-- An accepted array whose child links are the positional ones is a proper preorder layout (leaves must not
carry stray links). -/
theorem C08_validate_sound_of_links {t : Tree} (h : validate t = .ok true)
    (hleft : ∀ i n, t[i]? = some n → n.ty.hasLeft = true → n.left = i + 1)
    (hleaf : ∀ (i : Nat) (n : Node), t[i]? = some n → n.ty = .leaf → n.left = 0 ∧ n.right = 0)
    (hright : ∀ i n (s : Sh), t[i]? = some n → n.ty.hasRight = true → Positional t s (i + 1) i →
      n.right = i + 1 + s.size) :
    ∃ s, Shaped t s 0 0 ∧ t.length = s.size := by
  obtain ⟨s, h1, h2⟩ := C08_validate_sound_partial h
  refine ⟨s, ?_, h2⟩
  have : ∀ (s : Sh) (b par : Nat), Positional t s b par → Shaped t s b par := by
    intro s
    induction s with
    | leaf =>
      intro b par ⟨l, r, h⟩
      have := hleaf _ _ h rfl
      simp only at this
      simp only [Shaped, h, this]
    | un o a ih =>
      intro b par ⟨⟨l, h, _⟩, ha⟩
      have := hleft _ _ h (by simp)
      simp only at this
      exact ⟨by rw [h, this], ih _ _ ha⟩
    | bin o a c iha ihc =>
      intro b par ⟨⟨l, r, h, _⟩, ha, hc⟩
      have e1 := hleft _ _ h (by simp)
      have e2 := hright _ _ a h (by simp) ha
      simp only at e1 e2
      exact ⟨by rw [h, e1, e2], iha _ _ ha, ihc _ _ hc⟩
  exact this s _ _ h1

/-- An AND whose two child links are swapped, and one whose links both point at the first child. -/
theorem C08_validate_accepts_wrong_child_links :
    validate [⟨.and, 0, 2, 1⟩, ⟨.leaf, 0, 0, 0⟩, ⟨.leaf, 0, 0, 0⟩] = .ok true ∧
    validate [⟨.and, 0, 1, 1⟩, ⟨.leaf, 0, 0, 0⟩, ⟨.leaf, 0, 0, 0⟩] = .ok true ∧
    (∀ s, ¬ Shaped [⟨.and, 0, 1, 1⟩, ⟨.leaf, 0, 0, 0⟩, ⟨.leaf, 0, 0, 0⟩] s 0 0) ∧
    -- and the second one gives a wrong verdict: condition 1 alone makes the AND true
    (runMarks [⟨.and, 0, 1, 1⟩, ⟨.leaf, 0, 0, 0⟩, ⟨.leaf, 0, 0, 0⟩]
        (newState [⟨.and, 0, 1, 1⟩, ⟨.leaf, 0, 0, 0⟩, ⟨.leaf, 0, 0, 0⟩]) [(1, true)] >>=
      fun st => isTrue st 0) = .ok true ∧
    -- and then deciding condition 2 crashes in spite of the guard
    runMarks [⟨.and, 0, 1, 1⟩, ⟨.leaf, 0, 0, 0⟩, ⟨.leaf, 0, 0, 0⟩]
        (newState [⟨.and, 0, 1, 1⟩, ⟨.leaf, 0, 0, 0⟩, ⟨.leaf, 0, 0, 0⟩]) [(1, true), (2, false)] = .panic := by
  refine ⟨by decide, by decide, ?_, by decide, by decide⟩
  intro s hs
  cases s with
  | leaf => simp [Shaped] at hs
  | un o a => cases o <;> simp [Shaped, UnOp.ty] at hs
  | bin o a c =>
    have := a.size_pos
    have h1 := hs.1
    simp at h1; omega

/-- `Validate` itself can crash instead of returning an error. -/
theorem C08_validate_can_panic :
    validate [⟨.or, 0, 1, 1⟩, ⟨.leaf, 0, 0, 0⟩] = .panic ∧ validate [] = .panic := by decide

end Verif.BinTree
