import Verif.Transform.PrintInj
import Verif.Transform.Merged

/-!
# Printing the state of a match

Model of `binTreeState.String`, bintree.go:114-141.  C99: for everything that compiles the state of a matcher can be printed, the text tells
the tree and the state of each of its nodes, and after a match on a document its first line shows the verdict.
-/

namespace Verif.Transform
open Verif.FastVal Verif.Match Verif.Expr
open Verif.Token (D)
open Verif.BinTree (Tree NodeType Sh UnOp BinOp Shaped SV State mergeSh)
open Verif.ExprText (linesOf linesOf_ne linesOf_inj linesOf_one linesOf_feed linesOf_reindent split_margin reindent_inside reindent_inj
  split_at natText_inj natText_digit natText_ne)

variable {E : Ext}

/-! ### Model -/

/-- What follows the kind of a node, bintree.go:119-128. -/
def statusText : SV → List Nat
  | .unknown => []
  | .resolved => ascii " = undefined"
  | .tt => ascii " = true"
  | .ff => ascii " = false"

/-- `itemToString`, bintree.go:114-137; the first argument bounds the recursion. -/
def stateItem (t : Tree) (d : List SV) : Nat → Nat → Res (List Nat)
  | 0, _ => .stuck
  | fuel + 1, i =>
    Res.idx t i >>= fun n =>
    Res.idx d i >>= fun x =>
    (if n.left ≠ 0 then stateItem t d fuel n.left >>= fun y => .ok (reindent (ascii "  ") y ++ [10]) else .ok []) >>= fun l =>
    (if n.right ≠ 0 then stateItem t d fuel n.right >>= fun y => .ok (reindent (ascii "  ") y ++ [10]) else .ok []) >>= fun r =>
    .ok (trimRight (ascii "[" ++ natText i ++ ascii "] " ++ nodeTyText n.ty ++ statusText x ++ [10] ++ l ++ r))

/-- `String`, bintree.go:139-141. -/
def stateText (t : Tree) (bt : State) : Res (List Nat) := stateItem t bt.data (t.length + 1) 0

/-! ### Specification -/

/-- The line of node number `b`. -/
def stateLine (b : Nat) (ty : NodeType) (x : SV) : List Nat := ascii "[" ++ (natText b ++ (ascii "] " ++ (nodeTyText ty ++ statusText x)))

/-- A line for each node, children indented; `f` gives the states. -/
def stateLines (f : Nat → SV) : Sh → Nat → List (List Nat)
  | .leaf, b => [stateLine b .leaf (f b)]
  | .un o a, b => stateLine b o.ty (f b) :: (stateLines f a (b + 1)).map (ascii "  " ++ ·)
  | .bin o a c, b => stateLine b o.ty (f b) :: ((stateLines f a (b + 1)).map (ascii "  " ++ ·) ++ (stateLines f c (b + 1 + a.size)).map (ascii "  " ++ ·))

/-! ### Lines -/

theorem statusText_char (x : SV) : (∀ c ∈ statusText x, c ≠ 10) ∧ (x = .unknown ∨ Ends (statusText x)) := by
  cases x
  · exact ⟨by decide, Or.inl rfl⟩
  · exact ⟨by decide, Or.inr ⟨ascii " = undefine", 100, by decide, by decide⟩⟩
  · exact ⟨by decide, Or.inr ⟨ascii " = tru", 101, by decide, by decide⟩⟩
  · exact ⟨by decide, Or.inr ⟨ascii " = fals", 101, by decide, by decide⟩⟩

theorem nodeTyText_blank (o : NodeType) : ∀ c ∈ nodeTyText o, c ≠ 32 := by cases o <;> decide

theorem statusText_inj {x x' : SV} (h : statusText x = statusText x') : x = x' := by
  cases x <;> cases x' <;> first | rfl | exact absurd h (by decide)

/-- The kind and the status can be told apart. -/
theorem kindStatus_inj {ty ty' : NodeType} {x x' : SV} (h : nodeTyText ty ++ statusText x = nodeTyText ty' ++ statusText x') : ty = ty' ∧ x = x' := by
  have key : ∀ x : SV, x = .unknown ∨ ∃ u, statusText x = 32 :: u := by
    intro x
    cases x
    · exact Or.inl rfl
    · exact Or.inr ⟨ascii "= undefined", by decide⟩
    · exact Or.inr ⟨ascii "= true", by decide⟩
    · exact Or.inr ⟨ascii "= false", by decide⟩
  rcases key x with rfl | ⟨u, e⟩
  · rcases key x' with rfl | ⟨u', e'⟩
    · exact ⟨nodeTyText_inj (by simpa [statusText] using h), rfl⟩
    · rw [e', show statusText .unknown = [] from rfl, List.append_nil] at h
      exact absurd rfl (nodeTyText_blank ty 32 (by rw [h]; simp))
  · rcases key x' with rfl | ⟨u', e'⟩
    · rw [e, show statusText .unknown = [] from rfl, List.append_nil] at h
      exact absurd rfl (nodeTyText_blank ty' 32 (by rw [← h]; simp))
    · rw [e, e'] at h
      obtain ⟨h1, h2⟩ := split_at (P := fun c => c ≠ 32) (by simp) (nodeTyText_blank ty) (nodeTyText_blank ty') h
      exact ⟨nodeTyText_inj h1, statusText_inj (by rw [e, e', h2])⟩

theorem stateLine_feed (b : Nat) (ty : NodeType) (x : SV) : ∀ c ∈ stateLine b ty x, c ≠ 10 := by
  intro c hc
  simp only [stateLine, List.mem_append] at hc
  rcases hc with h | h | h | h | h
  · have : c = 91 := by simpa [ascii] using h
    omega
  · have := natText_digit h; omega
  · have : c = 93 ∨ c = 32 := by simpa [ascii] using h
    omega
  · exact (nodeTyText_char ty).1 c h
  · exact (statusText_char x).1 c h

theorem stateLine_ends (b : Nat) (ty : NodeType) (x : SV) : Ends (stateLine b ty x) := by
  have : Ends (nodeTyText ty ++ statusText x) := by
    rcases (statusText_char x).2 with rfl | h
    · rw [show statusText .unknown = [] from rfl, List.append_nil]; exact (nodeTyText_char ty).2
    · exact h.append _
  exact ((this.append _).append _).append _

theorem stateLine_margin (b : Nat) (ty : NodeType) (x : SV) : ¬ ExprText.Inside (stateLine b ty x) := by
  simp [ExprText.Inside, stateLine, ascii]

theorem stateLine_inj {b b' : Nat} {ty ty' : NodeType} {x x' : SV} (h : stateLine b ty x = stateLine b' ty' x') : ty = ty' ∧ x = x' := by
  have h := List.append_cancel_left h
  have e : ascii "] " = 93 :: [32] := by decide
  rw [e, List.cons_append, List.cons_append] at h
  have hd : ∀ n, ∀ c ∈ natText n, c ≠ 93 := by
    intro n c hc; have := natText_digit hc; omega
  obtain ⟨_, h2⟩ := split_at (P := fun c => c ≠ 93) (by simp) (hd _) (hd _) h
  exact kindStatus_inj (List.append_cancel_left (as := [32]) h2)

theorem stateItem_lines {t : Tree} {d : List SV} {f : Nat → SV} : ∀ (s : Sh) (b par fuel : Nat), Shaped t s b par →
    (∀ i, b ≤ i → i < b + s.size → d[i]? = some (f i)) → s.size < fuel →
    ∃ x, stateItem t d fuel b = .ok x ∧ Ends x ∧ linesOf x = stateLines f s b
  | _, _, _, 0, _, _, h => absurd h (by omega)
  | .leaf, b, par, fuel + 1, h, hd, _ => by
    refine ⟨stateLine b .leaf (f b), ?_, stateLine_ends .., linesOf_one (stateLine_feed _ _ _)⟩
    have h : t[b]? = some ⟨.leaf, par, 0, 0⟩ := h
    rw [stateItem, Res.idx_of_some h, Res.bind_ok, Res.idx_of_some (hd b (Nat.le_refl _) (by simp [Sh.size])), Res.bind_ok]
    simp only [ne_eq, not_true_eq_false, if_false, Res.bind_ok, List.append_nil]
    rw [← (stateLine_ends b .leaf (f b)).trim]
    simp [stateLine]
  | .un o a, b, par, fuel + 1, h, hd, hf => by
    simp only [Sh.size] at hd hf
    obtain ⟨x, e1, e2, e3⟩ := stateItem_lines (d := d) a (b + 1) b fuel h.2 (fun i h1 h2 => hd i (by omega) (by omega)) (by omega)
    have he : Ends (stateLine b o.ty (f b) ++ 10 :: reindent (ascii "  ") x) := ((e2.reindent _).append [10]).append _
    refine ⟨_, ?_, he, ?_⟩
    · rw [stateItem, Res.idx_of_some h.1, Res.bind_ok, Res.idx_of_some (hd b (Nat.le_refl _) (by omega)), Res.bind_ok]
      simp only [e1, Res.bind_ok, ne_eq, Nat.add_eq_zero_iff, Nat.one_ne_zero, and_false, not_false_eq_true, not_true_eq_false, if_true, if_false,
        List.append_nil]
      rw [← he.trim]
      simp [stateLine]
    · rw [linesOf_feed, linesOf_one (stateLine_feed _ _ _), linesOf_reindent, e3]
      rfl
  | .bin o a c, b, par, fuel + 1, h, hd, hf => by
    simp only [Sh.size] at hd hf
    obtain ⟨x, e1, e2, e3⟩ := stateItem_lines (d := d) a (b + 1) b fuel h.2.1 (fun i h1 h2 => hd i (by omega) (by omega)) (by omega)
    obtain ⟨y, g1, g2, g3⟩ := stateItem_lines (d := d) c (b + 1 + a.size) b fuel h.2.2 (fun i h1 h2 => hd i (by omega) (by omega)) (by omega)
    have he : Ends (stateLine b o.ty (f b) ++ 10 :: (reindent (ascii "  ") x ++ 10 :: reindent (ascii "  ") y)) :=
      ((((g2.reindent (ascii "  ")).append [10]).append (reindent (ascii "  ") x)).append [10]).append (stateLine b o.ty (f b))
    have hne : b + 1 + a.size ≠ 0 := by omega
    refine ⟨_, ?_, he, ?_⟩
    · rw [stateItem, Res.idx_of_some h.1, Res.bind_ok, Res.idx_of_some (hd b (Nat.le_refl _) (by omega)), Res.bind_ok]
      simp only [e1, g1, Res.bind_ok, if_pos hne, if_pos (show b + 1 ≠ 0 by omega)]
      rw [← he.trim]
      simp [stateLine]
    · rw [linesOf_feed, linesOf_feed, linesOf_one (stateLine_feed _ _ _), linesOf_reindent, linesOf_reindent, e3, g3]
      rfl

theorem stateLines_cons (f : Nat → SV) (s : Sh) (b : Nat) : ∃ h t, stateLines f s b = h :: t ∧ ¬ ExprText.Inside h ∧ ∀ l ∈ t, ExprText.Inside l := by
  cases s with
  | leaf => exact ⟨_, [], rfl, stateLine_margin _ _ _, fun _ h => nomatch h⟩
  | un o a =>
    refine ⟨_, _, rfl, stateLine_margin _ _ _, ?_⟩
    intro l hl
    obtain ⟨x, _, rfl⟩ := List.mem_map.1 hl
    rfl
  | bin o a c =>
    refine ⟨_, _, rfl, stateLine_margin _ _ _, ?_⟩
    intro l hl
    rcases List.mem_append.1 hl with hl | hl
    all_goals
      obtain ⟨x, _, rfl⟩ := List.mem_map.1 hl
      rfl

theorem stateLines_inj {f f' : Nat → SV} : ∀ (s s' : Sh) (b : Nat), stateLines f s b = stateLines f' s' b →
    s = s' ∧ ∀ i, b ≤ i → i < b + s.size → f i = f' i
  | .leaf, s', b, h => by
    cases s' with
    | leaf =>
      injection h with h _
      refine ⟨rfl, fun i h1 h2 => ?_⟩
      have : i = b := by simp only [Sh.size] at h2; omega
      rw [this]; exact (stateLine_inj h).2
    | un o a =>
      injection h with h _
      have := (stateLine_inj h).1
      cases o <;> cases this
    | bin o a c =>
      injection h with h _
      have := (stateLine_inj h).1
      cases o <;> cases this
  | .un o a, s', b, h => by
    cases s' with
    | leaf =>
      injection h with h _
      have := (stateLine_inj h).1
      cases o <;> cases this
    | un o' a' =>
      injection h with h h2
      obtain ⟨ho, hx⟩ := stateLine_inj h
      have : o = o' := by cases o <;> cases o' <;> first | rfl | cases ho
      obtain ⟨g1, g2⟩ := stateLines_inj a a' _ (map_blank_inj h2)
      refine ⟨by rw [this, g1], fun i h1 h2 => ?_⟩
      simp only [Sh.size] at h2
      by_cases hi : i = b
      · rw [hi]; exact hx
      · exact g2 i (by omega) (by omega)
    | bin o' a' c' =>
      injection h with h _
      have := (stateLine_inj h).1
      cases o <;> cases o' <;> cases this
  | .bin o a c, s', b, h => by
    cases s' with
    | leaf =>
      injection h with h _
      have := (stateLine_inj h).1
      cases o <;> cases this
    | un o' a' =>
      injection h with h _
      have := (stateLine_inj h).1
      cases o <;> cases o' <;> cases this
    | bin o' a' c' =>
      injection h with h h2
      obtain ⟨ho, hx⟩ := stateLine_inj h
      have : o = o' := by cases o <;> cases o' <;> first | rfl | cases ho
      subst this
      rw [← List.map_append, ← List.map_append] at h2
      have h2 := map_blank_inj h2
      obtain ⟨x, t, e1, _, e3⟩ := stateLines_cons f a (b + 1)
      obtain ⟨x', t', e1', _, e3'⟩ := stateLines_cons f' a' (b + 1)
      obtain ⟨y, u, f1, f2, _⟩ := stateLines_cons f c (b + 1 + a.size)
      obtain ⟨y', u', f1', f2', _⟩ := stateLines_cons f' c' (b + 1 + a'.size)
      rw [e1, e1', List.cons_append, List.cons_append] at h2
      injection h2 with g1 g2
      obtain ⟨g3, g4⟩ := split_margin e3 e3' (fun l hl => by rw [f1] at hl; cases hl; exact f2) (fun l hl => by rw [f1'] at hl; cases hl; exact f2') g2
      obtain ⟨k1, k2⟩ := stateLines_inj a a' (b + 1) (by rw [e1, e1', g1, g3])
      subst k1
      obtain ⟨k3, k4⟩ := stateLines_inj c c' _ g4
      refine ⟨by rw [k3], fun i h1 h2 => ?_⟩
      simp only [Sh.size] at h2
      by_cases hi : i = b
      · rw [hi]; exact hx
      · by_cases hi2 : i < b + 1 + a.size
        · exact k2 i (by omega) (by omega)
        · exact k4 i (by omega) (by omega)

/-! ### C99 -/

theorem stateText_lines {t : Tree} {s : Sh} (hs : Shaped t s 0 0) (hl : t.length = s.size) {bt : State} (hd : bt.data.length = t.length) :
    ∃ x, stateText t bt = .ok x ∧ linesOf x = stateLines (fun i => (bt.data[i]?).getD .unknown) s 0 := by
  obtain ⟨x, h1, _, h3⟩ := stateItem_lines (d := bt.data) (f := fun i => (bt.data[i]?).getD .unknown) s 0 0 (t.length + 1) hs
    (fun i _ h2 => by rw [List.getElem?_eq_getElem (show i < bt.data.length by omega)]; rfl) (by omega)
  exact ⟨x, h1, h3⟩

/-- **C99.**  A state with a value for each node of the tree of a compiled definition can be printed. -/
theorem C99_prints (C : Comp E) (slot0 : Nat) {es : List (Expr E)} {df : Def E} (h : transform C slot0 es = .ok df) (hne : genExprs es ≠ [])
    {bt : State} (hd : bt.data.length = df.tree.length) : ∃ text, stateText df.tree bt = .ok text := by
  cases hes : genExprs es with
  | nil => exact absurd hes hne
  | cons g gs =>
    obtain ⟨h1, h2, _⟩ := C07_tree C slot0 es hes h
    obtain ⟨x, hx, _⟩ := stateText_lines h1 h2 hd
    exact ⟨x, hx⟩

/-- States of compiled definitions that are printed alike are alike: the trees are the same and every node is in the same state. -/
theorem C99_tells (C C' : Comp E) (slot0 slot0' : Nat) {es es' : List (Expr E)} {df df' : Def E} (h : transform C slot0 es = .ok df)
    (h' : transform C' slot0' es' = .ok df') (hne : genExprs es ≠ []) (hne' : genExprs es' ≠ []) {bt bt' : State}
    (hd : bt.data.length = df.tree.length) (hd' : bt'.data.length = df'.tree.length) {text : List Nat} (ht : stateText df.tree bt = .ok text)
    (ht' : stateText df'.tree bt' = .ok text) : df.tree = df'.tree ∧ bt.data = bt'.data := by
  cases hes : genExprs es with
  | nil => exact absurd hes hne
  | cons g gs =>
    cases hes' : genExprs es' with
    | nil => exact absurd hes' hne'
    | cons g' gs' =>
      obtain ⟨h1, h2, _⟩ := C07_tree C slot0 es hes h
      obtain ⟨h1', h2', _⟩ := C07_tree C' slot0' es' hes' h'
      obtain ⟨x, hx, hl⟩ := stateText_lines h1 h2 hd
      obtain ⟨x', hx', hl'⟩ := stateText_lines h1' h2' hd'
      rw [ht] at hx; cases hx
      rw [ht'] at hx'; cases hx'
      obtain ⟨e1, e2⟩ := stateLines_inj _ _ 0 (hl.symm.trans hl')
      rw [← e1] at h1' h2'
      constructor
      · refine List.ext_getElem? fun i => ?_
        by_cases hi : i < (mergeSh (shape g) (gs.map shape)).size
        · exact shaped_unique _ 0 0 h1 h1' i (by omega) (by omega)
        · rw [List.getElem?_eq_none (by omega), List.getElem?_eq_none (by omega)]
      · refine List.ext_getElem? fun i => ?_
        by_cases hi : i < (mergeSh (shape g) (gs.map shape)).size
        · have := e2 i (by omega) (by omega)
          rw [List.getElem?_eq_getElem (show i < bt.data.length by omega), List.getElem?_eq_getElem (show i < bt'.data.length by omega)] at this ⊢
          exact congrArg some this
        · rw [List.getElem?_eq_none (by omega), List.getElem?_eq_none (by omega)]

theorem vRun_state (X : Fns E) {df : Def E} {s : Sh} {node : Exec E} (hw : df.Laid s node) {r : D} (hr : r.WF) {b : Bool}
    {v : V} (h : vRun X df (newV df) r = .ok (b, v)) : v.bt.data.length = df.tree.length ∧ v.bt.data[0]? = some (SV.ofBool b) := by
  have hf := BinTree.newState_fresh df.tree s.size (by have := hw.len; omega)
  have hs : St df.tree s 0 (newV df).bt (fun _ => none) :=
    ⟨⟨⟨0, hw.shaped⟩, Or.inl rfl, Or.inl (Nat.le_refl 0)⟩, by simp [newV, BinTree.newState], hf.inv (fun _ _ _ => rfl), by simp, by simp⟩
  have hgo := exec_stays (t := df.tree) (N := df.numSlots) (q := node.Safe df.numSlots) X hr node.height node r s 0 (Nat.le_refl _) hw.lies id hr (newV df) _ hs (slotsWF_replicate _)
  rw [vRun, hw.parse] at h
  obtain ⟨a, ha, h⟩ := Res.bind_eq_ok.1 h
  rw [ha] at hgo
  have hgo : Went df.tree df.numSlots s 0 (newV df) a := hgo
  obtain ⟨p, hp⟩ := hgo.st
  obtain ⟨d', q, r1, r2, r3, r4, r5⟩ := BinTree.resolve_spec hw.shaped hw.len hgo.stall hp.len hp.inv
  rw [r1, Res.bind_ok] at h
  obtain ⟨w, hw', h⟩ := Res.bind_eq_ok.1 h
  cases h
  refine ⟨r5, ?_⟩
  simp only [BinTree.isTrue, Res.idx_of_some r2.root, Res.bind_ok] at hw'
  show d'[0]? = _
  rw [r2.root]
  cases hk : BinTree.K s 0 q with
  | none => exact absurd hk r4
  | some x =>
    rw [hk] at hw'
    cases x <;> (have := Res.ok.inj hw'; subst this; rfl)

/-- After a match on a document that returned a verdict the state can be printed, and the first line of the text, that of the root, shows the verdict. -/
theorem C99_verdict (X : Fns E) (C : Comp E) (slot0 : Nat) {es : List (Expr E)} {df : Def E} (h : transform C slot0 es = .ok df) {d : D}
    {data : List Nat} (hb : Begins data d) {m : M} (hm : Ready df m) {b : Bool} {n : M} (hrun : run X df m data = .ok (some b, n)) :
    ∃ text ty rest, stateText df.tree n.bt = .ok text ∧
      linesOf text = (ascii "[0] " ++ nodeTyText ty ++ (if b then ascii " = true" else ascii " = false")) :: rest := by
  cases hes : genExprs es with
  | nil =>
    rw [run_noParse X (transform_nil C slot0 hes h) hb hm] at hrun
    cases hrun
  | cons g gs =>
    obtain ⟨node, hl, _⟩ := transform_laid C slot0 hes h
    rcases run_document X hl hb hm with ⟨b', v, n', e1, e2, e3, _⟩ | ⟨_, e2, _⟩
    · rw [e2] at hrun; cases hrun
      obtain ⟨f1, f2⟩ := vRun_state X hl hb.wf e1
      rw [← e3] at f1 f2
      obtain ⟨x, hx, hlx⟩ := stateText_lines hl.shaped hl.len f1
      have head : ∀ (f : Nat → SV) (s : Sh), ∃ ty rest, stateLines f s 0 = stateLine 0 ty (f 0) :: rest := by
        intro f s
        cases s with
        | leaf => exact ⟨_, _, rfl⟩
        | un o a => exact ⟨_, _, rfl⟩
        | bin o a c => exact ⟨_, _, rfl⟩
      obtain ⟨ty, rest, hh⟩ := head (fun i => (n.bt.data[i]?).getD .unknown) (mergeSh (shape g) (gs.map shape))
      refine ⟨x, ty, rest, hx, ?_⟩
      rw [hlx, hh]
      simp only [f2, Option.getD_some]
      cases b <;> rfl
    · rw [e2] at hrun; cases hrun

/-! ### Examples -/

/-- A tree `not (a or b)` in the middle of a match. -/
example : stateText [⟨.not, 0, 1, 0⟩, ⟨.or, 0, 2, 3⟩, ⟨.leaf, 1, 0, 0⟩, ⟨.leaf, 1, 0, 0⟩] ⟨[.unknown, .unknown, .ff, .unknown], 0⟩ =
    .ok (ascii "[0] not\n  [1] or\n    [2] leaf = false\n    [3] leaf") := by decide +kernel

/-- Two expressions with loops in loops, after a match on `{"a":[{"a":1,"b":2},{"a":1,"b":1}]}`. -/
example : ∃ df, transform demoComp 0 demoDeep = .ok df ∧ ∃ b n text, run demoFns df (newMatcher df) textPairs = .ok (some b, n) ∧
    stateText df.tree n.bt = .ok text ∧ ∃ ty rest, linesOf text = (ascii "[0] " ++ nodeTyText ty ++ (if b then ascii " = true" else ascii " = false")) :: rest := by
  obtain ⟨df, h⟩ := demoDeep_compiles
  have hn0 : NotConst demoNested := by simp [NotConst, demoNested]
  obtain ⟨b, n, e⟩ := C95_verdict demoFns demoComp 0 h (e := demoNested) (by
    intro e he
    simp only [demoDeep, List.mem_cons, List.not_mem_nil, or_false] at he
    rcases he with rfl | rfl <;> simp [demoNested, SafeE, SafeEs, SafeParam, fieldA, fieldB]) (by simp [demoDeep]) hn0 docPairs_text (ready_new df)
  obtain ⟨text, ty, rest, h1, h2⟩ := C99_verdict demoFns demoComp 0 h docPairs_text (ready_new df) e
  exact ⟨df, h, b, n, text, e, h1, ty, rest, h2⟩

/-- States of one definition that differ in one node are printed differently. -/
example : ∃ df, transform demoComp 0 demoDeep = .ok df ∧ ∀ (i j : Nat) (x y : SV), i < df.tree.length →
    stateText df.tree ⟨(List.replicate df.tree.length .unknown).set i x, 0⟩ = stateText df.tree ⟨(List.replicate df.tree.length .unknown).set i y, j⟩ →
    x = y := by
  obtain ⟨df, h⟩ := demoDeep_compiles
  refine ⟨df, h, fun i j x y hi e => ?_⟩
  have hne : genExprs demoDeep ≠ [] := by simp [demoDeep, demoNested, genExprs]
  obtain ⟨text, ht⟩ := C99_prints demoComp 0 h hne (bt := ⟨(List.replicate df.tree.length .unknown).set i x, 0⟩) (by simp)
  have := (C99_tells demoComp demoComp 0 0 h h hne hne (by simp) (by simp) ht (e ▸ ht)).2
  have := congrArg (·[i]?) this
  simpa [List.getElem?_set, hi] using this

end Verif.Transform
