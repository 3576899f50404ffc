import Verif.Transform.Theorems
/-!
The verdict of each expression of a merged definition: what `ExpressionMatched` (fastMatcher.go:844-848) answers after a run.
-/
namespace Verif.Transform
open Verif.FastVal Verif.Match Verif.Expr Verif.Token
open Verif.BinTree (Sh K UnOp BinOp mergeSh mergeParts Shaped Inv SV Tree FalseExt)

variable {E : Ext}

/-! ### The entries of the expressions' roots -/

/-- The positions of the nodes that merge the expressions. -/
def Spine : Sh → List Sh → Nat → Nat → Prop
  | _, [], _, _ => False
  | s, s' :: rest, b, j => j = b ∨ Spine s' rest (b + 1 + s.size) j

theorem spine_range : ∀ (rest : List Sh) (s : Sh) (b j : Nat), Spine s rest b j → b ≤ j
  | [], _, _, _, h => h.elim
  | s' :: rest, s, b, j, h => by
    rcases h with rfl | h
    · exact Nat.le_refl _
    · have := spine_range rest s' _ j h; omega

theorem spine_neor {t : Tree} : ∀ (rest : List Sh) (s : Sh) (b par j : Nat), Shaped t (mergeSh s rest) b par → Spine s rest b j →
    ∃ n, t[j]? = some n ∧ n.ty = .neor
  | [], _, _, _, _, _, h => h.elim
  | s' :: rest, s, b, par, j, hs, h => by
    rcases h with rfl | h
    · exact ⟨_, hs.1, rfl⟩
    · exact spine_neor rest s' _ _ j hs.2.2 h

theorem atom_range : ∀ (s : Sh) (b i : Nat), IsAtom s b i → b ≤ i ∧ i < b + s.size
  | .leaf, b, i, h => by simp only [IsAtom] at h; simp only [Sh.size]; omega
  | .un .loop a, b, i, h => by simp only [IsAtom] at h; have := a.size_pos; simp only [Sh.size]; omega
  | .un .not a, b, i, h => by
    simp only [IsAtom] at h
    have := atom_range a _ _ h
    simp only [Sh.size]; omega
  | .bin _ a c, b, i, h => by
    simp only [IsAtom] at h
    rcases h with h | h
    · have := atom_range a _ _ h; simp only [Sh.size]; omega
    · have := atom_range c _ _ h; simp only [Sh.size]; omega

theorem spine_not_atom : ∀ (rest : List Sh) (s : Sh) (b j : Nat), Spine s rest b j → ¬ IsAtom (mergeSh s rest) b j
  | [], _, _, _, h => h.elim
  | s' :: rest, s, b, j, h => by
    intro ha
    simp only [mergeSh, IsAtom] at ha
    rcases h with rfl | h
    · rcases ha with ha | ha
      · have := atom_range _ _ _ ha; omega
      · have := atom_range _ _ _ ha; omega
    · rcases ha with ha | ha
      · have h1 := atom_range _ _ _ ha
        have h2 := spine_range rest s' _ j h
        omega
      · exact spine_not_atom rest s' _ j h ha

/-- When the merged tree is decided, so is the root of every expression. -/
theorem parts_value {d : List SV} {q : Nat → Option Bool} : ∀ (rest : List Sh) (s : Sh) (b : Nat), Inv d q (mergeSh s rest) b →
    K (mergeSh s rest) b q ≠ none → (∀ j, Spine s rest b j → q j = none) →
    ∀ x ∈ mergeParts s rest b, d[x.2]? = some (SV.ofBool (x.1.evalM x.2 q))
  | [], s, b, hI, hk, _, x, hx => by
    simp only [mergeParts, List.mem_singleton] at hx
    subst hx
    simp only [mergeSh] at hI hk
    cases h : K s b q with
    | none => exact absurd h hk
    | some v =>
      have := hI.root
      rw [h] at this
      simp only [BinTree.K_evalM h]; exact this
  | s' :: rest, s, b, hI, hk, hq, x, hx => by
    simp only [mergeSh] at hI hk
    have hqb : q b = none := hq b (Or.inl rfl)
    have hI2 := hI.2
    rw [if_pos (Or.inr ⟨rfl, hqb⟩)] at hI2
    simp only [K, hqb, Option.none_or] at hk
    obtain ⟨ka, kc⟩ := BinTree.kBin_neor_some hk
    simp only [mergeParts, List.mem_cons] at hx
    rcases hx with rfl | hx
    · cases h : K s (b + 1) q with
      | none => exact absurd h ka
      | some v =>
        have := hI2.1.root
        rw [h] at this
        simp only [BinTree.K_evalM h]; exact this
    · exact parts_value rest s' _ hI2.2 kc (fun j hj => hq j (Or.inr hj)) x hx

/-- After a run at document level every expression's root holds the value of the decisions. -/
theorem vRun_each (X : Fns E) {df : Def E} {s : Sh} {rest : List Sh} {node : Exec E} (hw : df.WF (mergeSh s rest) node) {r : D} {l : Marks} {v : V}
    (hslots : v.slots = List.replicate df.numSlots none) (hbt : v.bt = BinTree.newState df.tree)
    (h : decisions X (mergeSh s rest) node df.numSlots r = .ok l) :
    ∃ v', vRun X df v r = .ok ((mergeSh s rest).evalM 0 l.get, v') ∧
      ∀ x ∈ mergeParts s rest 0, v'.bt.data[x.2]? = some (SV.ofBool (x.1.evalM x.2 l.get)) := by
  unfold decisions at h
  obtain ⟨a, h0, hl⟩ := Res.bind_eq_ok.1 h
  clear h
  have h := h0
  clear h0
  cases hl
  have hf := BinTree.newState_fresh df.tree (mergeSh s rest).size (by have := hw.len; omega)
  have hs : St df.tree (mergeSh s rest) 0 v.bt (fun _ => none) := by
    rw [hbt]
    exact ⟨⟨⟨0, hw.shaped⟩, Or.inl rfl, Or.inl (Nat.le_refl 0)⟩, by simp [BinTree.newState],
      hf.inv (fun _ _ _ => rfl), by simp, by simp⟩
  rw [← hslots] at h
  obtain ⟨c, c1, c2⟩ := exec_sound X df.tree (subtree (mergeSh s rest) 0) r node.height node r (mergeSh s rest) 0 v (fun _ => none) a hw.fits
    (subtree_ok (mergeSh s rest) 0) h hs
  have hstall : c.2.bt.stall = 0 := by rw [c2.stall, hbt]; rfl
  obtain ⟨d', q, r1, r2, r3, r4, r5⟩ := BinTree.resolve_spec hw.shaped hw.len hstall c2.st.len c2.st.inv
  have hK : also (fun _ => none) a.1 = a.1.get := by funext i; simp [also]
  have hat := c2.st.atoms
  rw [hK] at r3 hat
  have hsp : ∀ j, Spine s rest 0 j → q j = none := by
    intro j hj
    rcases r3 j with e | ⟨_, _, par, e⟩
    · rw [e]
      cases hp : a.1.get j with
      | none => rfl
      | some w => exact absurd (hat j (by simp [hp])) (spine_not_atom rest s 0 j hj)
    · obtain ⟨n, n1, n2⟩ := spine_neor rest s 0 0 j hw.shaped hj
      rw [e] at n1; cases n1; simp at n2
  unfold vRun
  rw [hw.parse]
  simp only [c1, Res.bind_ok, r1]
  have : BinTree.isTrue { c.2.bt with data := d' } 0 = .ok ((mergeSh s rest).evalM 0 a.1.get) := by
    simp only [BinTree.isTrue, Res.idx_of_some r2.root]
    cases hk : K (mergeSh s rest) 0 q with
    | none => exact absurd hk r4
    | some w =>
      rw [← BinTree.evalM_falseExt r3 hw.shaped, BinTree.K_evalM hk]
      cases w <;> rfl
  rw [this]
  refine ⟨_, rfl, fun x hx => ?_⟩
  have hv := parts_value rest s 0 r2 r4 hsp x hx
  obtain ⟨par', hsh⟩ := BinTree.SubAt.shaped (BinTree.mergeParts_sub rest s 0 x hx) hw.shaped
  rw [BinTree.evalM_falseExt r3 hsh] at hv
  exact hv

/-- The same for a run on the text. -/
theorem run_each (X : Fns E) {df : Def E} {s : Sh} {rest : List Sh} {node : Exec E} (hw : df.WF (mergeSh s rest) node)
    {data : List Nat} {r : D} (hr : Begins data r) {m : M} (hm : Ready df m) {l : Marks}
    (h : decisions X (mergeSh s rest) node df.numSlots r = .ok l) :
    ∃ m', run X df m data = .ok (some ((mergeSh s rest).evalM 0 l.get), m') ∧
      ∀ x ∈ mergeParts s rest 0, m'.bt.data[x.2]? = some (SV.ofBool (x.1.evalM x.2 l.get)) := by
  obtain ⟨v', hv', hp⟩ := vRun_each X hw (v := { newV df with coll := m.coll }) rfl rfl h
  have := run_rel X df hr (sim_ready hm data)
  rw [hv'] at this
  cases hrun : run X df m data with
  | ok a =>
    rw [hrun] at this
    obtain ⟨o, m'⟩ := a
    obtain ⟨h1, h2⟩ := this
    simp only at h1 h2
    exact ⟨m', by rw [h1], by rw [h2.bt]; exact hp⟩
  | panic => rw [hrun] at this; exact this.elim
  | stuck => rw [hrun] at this; exact this.elim

/-! ### The values of the decisions -/

theorem each_correct {X : Fns E} {C : Comp E} {sh : Nat → Sh} {r : D} : ∀ (es : List (Expr E)) (e : Expr E) (v : Int) (b : Nat) (n : Exec E)
    (d : D) (l : Marks), (∀ x ∈ e :: es, Frag C v x) → ShOK sh (shapes .neor (.ofList (e :: es))) b → (∀ x ∈ e :: es, Inner x d) →
    Hosts n (eItemsAll C (.ofList (e :: es)) b) b (shapes .neor (.ofList (e :: es))).size → Ran X sh r n d l →
    ∀ (j : Nat) (x : Expr E), (e :: es)[j]? = some x →
      ∃ p, (mergeParts (shape e) (es.map shape) b)[j]? = some (shape x, p) ∧ (shape x).evalM p l.get = top X C x d
  | [], e, v, b, n, d, l, h, hsh, hi, hh, hr, j, x, hj => by
    cases j with
    | succ j => simp at hj
    | zero =>
      simp only [List.getElem?_cons_zero, Option.some.injEq] at hj
      subst hj
      simp only [Exprs.ofList, shapes, eItemsAll] at hsh hh
      exact ⟨b, rfl, (sem_correct e v b n d l (h e (by simp)) hsh (hi e (by simp)) hh hr).2⟩
  | e' :: es, e, v, b, n, d, l, h, hsh, hi, hh, hr, j, x, hj => by
    have hfr := frags_of_list e' es (fun x hx => h x (List.mem_cons_of_mem _ hx))
    simp only [Exprs.ofList] at hfr
    simp only [Exprs.ofList, shapes, eItemsAll, Sh.size] at hsh hh
    have w1 := eItems_within C e v (b + 1) (h e (by simp))
    have w2 := eItemsAll_within C (.cons e' (.ofList es)) .neor v (b + 1 + (shape e).size) hfr
    cases j with
    | zero =>
      simp only [List.getElem?_cons_zero, Option.some.injEq] at hj
      subst hj
      exact ⟨b + 1, rfl, (sem_correct e v (b + 1) n d l (h e (by simp)) (fun s' i hs => hsh s' i (Or.inr (Or.inl hs))) (hi e (by simp))
        (hh.left w2 (by omega) (by omega) (by omega)) hr).2⟩
    | succ j =>
      simp only [List.getElem?_cons_succ] at hj
      obtain ⟨p, p1, p2⟩ := each_correct es e' v (b + 1 + (shape e).size) n d l (fun x hx => h x (List.mem_cons_of_mem _ hx))
        (fun s' i hs => hsh s' i (Or.inr (Or.inr hs))) (fun x hx => hi x (List.mem_cons_of_mem _ hx))
        (hh.right w1 (by omega) (by simp only [Exprs.ofList]; omega) (by omega)) hr j x hj
      exact ⟨p, by simpa [mergeParts] using p1, p2⟩

/-! ### C49 -/

/-- C49 for the fragment and regular documents, in terms of the value `top` of an expression.  (Missing: conditions on several fields.) -/
theorem C49_each_partial (X : Fns E) (C : Comp E) (slot0 : Nat) {es : List (Expr E)} {g : Expr E} {gs : List (Expr E)} (hg : genExprs es = g :: gs)
    (hfrag : ∀ x ∈ g :: gs, Frag C 0 x) (hsafe : ∀ x ∈ g :: gs, SafeE x)
    {data : List Nat} {r : D} (hr : Begins data r) (hreg : Regular (g :: gs) r) :
    ∃ df, transform C slot0 es = .ok df ∧ ∀ m, Ready df m →
      ∃ b m', run X df m data = .ok (some b, m') ∧
        ∀ (i : Nat) (e : Expr E), es[i]? = some e → NotConst e → expressionMatched df m' i = .ok (top X C e r) := by
  obtain ⟨df, h1, hw, h3, hbk⟩ := transform_frag C slot0 es hg hfrag
  refine ⟨df, h1, fun m hm => ?_⟩
  obtain ⟨b, hb⟩ := verdict_ok X (shapes .neor (.ofList (g :: gs))) (compiled_safe C df.numSlots hfrag hsafe) hr.wf
  have hfr := frags_of_list g gs hfrag
  have hadds := insAll_adds C _ 0 0 emptyExec hfr emptyExec_tidy emptyExec_full (by intro x hx; cases hx)
  have hperm : (items (compiled C (g :: gs))).Perm (eItemsAll C (.ofList (g :: gs)) 0) := by
    have := hadds.perm
    simpa [compiled, emptyExec, items, itemsE, loopItems, afterItems] using this
  have hk := kind_eItemsAll (C := C) _ 0 0 hfr
  unfold verdict at hb
  obtain ⟨l, hd, _⟩ := Res.bind_eq_ok.1 hb
  have hd' := hd
  unfold decisions at hd'
  obtain ⟨a, ha, hl⟩ := Res.bind_eq_ok.1 hd'
  have heach := each_correct (X := X) gs g 0 0 (compiled C (g :: gs)) r l hfrag
    (subtree_ok (shapes .neor (.ofList (g :: gs))) 0) hreg.inner (fun i _ _ => hperm.filter _)
    ⟨hadds.tidy, hadds.full, clear_of_kind hperm (List.perm_nil.1 hadds.notes) hk.1 hk.2 (by rw [condsAll_of_list]; exact hreg.outer), _, _, a, ha, by cases hl; rfl⟩
  rw [shapes_merge] at hw hd
  obtain ⟨m', r1, r2⟩ := run_each X hw hr hm hd
  refine ⟨_, m', r1, fun i e hi hn => ?_⟩
  have hlen : ((mergeParts (shape g) (gs.map shape) 0).map Prod.snd).length = (genExprs es).length := by
    rw [hg, List.length_map, mergeParts_length]; simp
  obtain ⟨j, p, j1, j2, j3⟩ := (bucketIds_at es _ hlen i e hi).2.2 hn
  rw [hg] at j1
  obtain ⟨p', p1, p2⟩ := heach j e j1
  rw [List.getElem?_map, p1] at j2
  cases j2
  have hv := r2 _ (List.mem_of_getElem? p1)
  simp only [p2] at hv
  rw [← hbk] at j3
  simp only [expressionMatched, Res.idx_of_some j3, Res.bind_ok, BinTree.isResolved, BinTree.isTrue, Int.toNat_natCast,
    Res.idx_of_some hv]
  rw [if_neg (by omega)]
  cases top X C e r <;> rfl

theorem genExprs_mem (es : List (Expr E)) (i : Nat) (e : Expr E) (hi : es[i]? = some e) (hn : NotConst e) : e ∈ genExprs es := by
  obtain ⟨j, _, h, _⟩ := (bucketIds_at es (List.replicate (genExprs es).length 0) (by simp) i e hi).2.2 hn
  exact List.mem_of_getElem? h

/-- C49 for expressions without loops: the answer for an expression is its truth on the document.  (Missing: as for C22.) -/
theorem C49_loopFree_partial (X : Fns E) (C : Comp E) (slot0 : Nat) {es : List (Expr E)} {g : Expr E} {gs : List (Expr E)} (hg : genExprs es = g :: gs)
    (hfrag : ∀ x ∈ g :: gs, Frag C 0 x) (hsafe : ∀ x ∈ g :: gs, SafeE x) (hlf : ∀ x ∈ g :: gs, LoopFree x)
    {data : List Nat} {r : D} (hr : Begins data r) (hreg : RegularAt (condsOf (g :: gs)) r) :
    ∃ df, transform C slot0 es = .ok df ∧ ∀ m, Ready df m →
      ∃ b m', run X df m data = .ok (some b, m') ∧
        ∀ (i : Nat) (e : Expr E), es[i]? = some e → NotConst e → expressionMatched df m' i = .ok (truth X C e r) := by
  obtain ⟨df, h1, h2⟩ := C49_each_partial X C slot0 hg hfrag hsafe hr ⟨hreg, fun x hx => inner_loopFree x r (hlf x hx)⟩
  refine ⟨df, h1, fun m hm => ?_⟩
  obtain ⟨b, m', h3, h4⟩ := h2 m hm
  refine ⟨b, m', h3, fun i e hi hn => ?_⟩
  rw [h4 i e hi hn, top_loopFree X C e r (hlf e (hg ▸ genExprs_mem es i e hi hn))]

/-- C49 for expressions with loops but without negation.  (Missing: as for C23.) -/
theorem C49_positive_partial (X : Fns E) (C : Comp E) (slot0 : Nat) {es : List (Expr E)} {g : Expr E} {gs : List (Expr E)} (hg : genExprs es = g :: gs)
    (hfrag : ∀ x ∈ g :: gs, Frag C 0 x) (hsafe : ∀ x ∈ g :: gs, SafeE x) (hpos : ∀ x ∈ g :: gs, Positive x)
    {data : List Nat} {r : D} (hr : Begins data r) (hreg : Regular (g :: gs) r) :
    ∃ df, transform C slot0 es = .ok df ∧ ∀ m, Ready df m →
      ∃ b m', run X df m data = .ok (some b, m') ∧
        ∀ (i : Nat) (e : Expr E), es[i]? = some e → NotConst e → expressionMatched df m' i = .ok (truth X C e r) := by
  obtain ⟨df, h1, h2⟩ := C49_each_partial X C slot0 hg hfrag hsafe hr hreg
  refine ⟨df, h1, fun m hm => ?_⟩
  obtain ⟨b, m', h3, h4⟩ := h2 m hm
  refine ⟨b, m', h3, fun i e hi hn => ?_⟩
  have hm := hg ▸ genExprs_mem es i e hi hn
  rw [h4 i e hi hn, (sem_positive X C e 0 r (hfrag e hm) (hpos e hm)).2]

/-- Before a match, and after `Reset`, no expression that is not constant is reported as matched. -/
theorem C49_fresh (C : Comp E) (slot0 : Nat) {es : List (Expr E)} {df : Def E} (h : transform C slot0 es = .ok df)
    {i : Nat} {e : Expr E} (hi : es[i]? = some e) (hn : NotConst e) {m : M} (hm : Ready df m) : expressionMatched df m i = .ok false := by
  have hmem := genExprs_mem es i e hi hn
  cases hg : genExprs es with
  | nil => rw [hg] at hmem; cases hmem
  | cons g gs =>
    obtain ⟨h1, _, _⟩ := C07_tree C slot0 es hg h
    obtain ⟨p, h2, h3⟩ := (C07_buckets C slot0 es hg h hi).2.2 hn
    obtain ⟨_, h4⟩ := BinTree.SubAt.shaped h3 h1
    obtain ⟨_, h5, _⟩ := h4.head
    have hlt : p < df.tree.length := by
      apply Classical.byContradiction
      intro hx
      rw [List.getElem?_eq_none (by omega)] at h5; cases h5
    have h6 : (BinTree.newState df.tree).data[p]? = some .unknown := by simp [BinTree.newState, hlt]
    simp only [expressionMatched, Res.idx_of_some h2, Res.bind_ok, hm.bt, BinTree.isResolved, Int.toNat_natCast, Res.idx_of_some h6]
    rw [if_neg (by omega)]
    rfl

/-- The other direction of the property is false: for a constant expression, merged with others or alone, the question crashes, whatever
the matcher has seen. -/
theorem C49_constants_crash (C : Comp E) (slot0 : Nat) (es : List (Expr E)) {df : Def E} (h : transform C slot0 es = .ok df)
    {i : Nat} {e : Expr E} (hi : es[i]? = some e) (hc : ¬ NotConst e) (m : M) : expressionMatched df m i = .panic := by
  have key : ∃ ids : List Nat, df.buckets = bucketIds es ids ∧ ids.length = (genExprs es).length := by
    cases hg : genExprs es with
    | nil =>
      unfold transform at h
      rw [hg] at h
      cases h
      exact ⟨[], rfl, rfl⟩
    | cons g gs =>
      rw [transform_cons C slot0 es hg] at h
      obtain ⟨r, hr, h⟩ := Res.bind_eq_ok.1 h
      cases h
      refine ⟨r.2, rfl, ?_⟩
      rw [(tMerge_grown C g gs (initT slot0) r 0 (initT_start slot0) hr).2, List.length_map, mergeParts_length]; simp
  obtain ⟨ids, k1, k2⟩ := key
  obtain ⟨a, b, _⟩ := bucketIds_at es ids k2 i e hi
  have he : e = .tru ∨ e = .fals := by
    by_cases h1 : e = .tru
    · exact Or.inl h1
    · by_cases h2 : e = .fals
      · exact Or.inr h2
      · exact absurd ⟨h1, h2⟩ hc
  rw [← k1] at a b
  rcases he with rfl | rfl
  · simp [expressionMatched, Res.idx_of_some (a rfl)]
  · simp [expressionMatched, Res.idx_of_some (b rfl)]

/-! ### Examples -/

example : ∃ df, transform demoComp 0 (.tru :: demoExprs) = .ok df ∧ ∀ m, Ready df m →
    ∃ b m', run demoFns df m demoDoc = .ok (some b, m') ∧
      ∀ (i : Nat) (e : Expr demoExt), (.tru :: demoExprs)[i]? = some e → NotConst e →
        expressionMatched df m' i = .ok (truth demoFns demoComp e docA1) :=
  C49_loopFree_partial demoFns demoComp 0 (es := .tru :: demoExprs) rfl (fun x hx => (demoExprs_frag x hx).1)
    (fun x hx => (demoExprs_frag x hx).2.1) (fun x hx => (demoExprs_frag x hx).2.2.1) docA1_text (regular_of_check (by decide))

/-- The two expressions have different values, so the answers are not the overall verdict. -/
example : demoLoops.map (fun x => truth demoFns demoComp x docLoop) = [true, false] := by decide +kernel

example : ∃ df, transform demoComp 0 demoLoops = .ok df ∧ ∀ m, Ready df m →
    ∃ b m', run demoFns df m textLoop = .ok (some b, m') ∧
      ∀ (i : Nat) (e : Expr demoExt), demoLoops[i]? = some e → NotConst e →
        expressionMatched df m' i = .ok (truth demoFns demoComp e docLoop) :=
  C49_positive_partial demoFns demoComp 0 rfl (fun x hx => (demoLoops_frag x hx).1) (fun x hx => (demoLoops_frag x hx).2.1)
    (fun x hx => (demoLoops_frag x hx).2.2) docLoop_text demoLoops_regular

example : ∃ df, transform demoComp 0 demoExprs = .ok df ∧ expressionMatched df (newMatcher df) 1 = .ok false :=
  let ⟨df, h⟩ := C32_fragment_partial demoComp 0 demoExprs (fun x hx => (demoExprs_frag x hx).1)
  ⟨df, h, C49_fresh demoComp 0 h (i := 1) (e := .cmp .ne fieldB one) rfl (by simp [NotConst]) (ready_new df)⟩

/-- A compiled definition with a constant. -/
example : ∃ df, transform demoComp 0 (.tru :: demoExprs) = .ok df ∧ ∀ m, expressionMatched df m 0 = .panic :=
  let ⟨df, h⟩ := C32_fragment_partial demoComp 0 (.tru :: demoExprs) (fun x hx => (demoExprs_frag x hx).1)
  ⟨df, h, fun m => C49_constants_crash demoComp 0 (.tru :: demoExprs) h (i := 0) rfl (by simp [NotConst]) m⟩

end Verif.Transform
