import Verif.Transform.ReachPairs
import Verif.Transform.Each
import Verif.Transform.ReachUnref

/-!
# Expressions compiled together and alone

What `ExpressionMatched` answers for each of several merged expressions, on every document, and when it is the verdict of the expression compiled
alone.
-/

set_option linter.unusedSectionVars false

namespace Verif.Transform
open Verif.FastVal Verif.Match Verif.Expr
open Verif.Token (D Es Ms Tok)
open Verif.BinTree (Sh K SV mergeSh mergeParts)

variable {E : Ext}

/-! ### The answers -/

theorem each2R_correct {X : Fns E} {C : Comp E} {sh : Nat → Sh} {r : D} {ρ : Path → Nat} : ∀ (es : List (Expr E)) (e : Expr E) (b : Nat) (n : Exec E)
    (l : Marks), (∀ x ∈ e :: es, Frag2 C x) → ShOK sh (shapes .neor (.ofList (e :: es))) b →
    (∀ p ∈ storedAll (.ofList (e :: es)), ∃ s, (p, Note.slot s) ∈ notes n) →
    Hosts n (mItemsAll C ρ (.ofList (e :: es)) b) b (shapes .neor (.ofList (e :: es))).size → Ran2R X sh r ρ n l →
    ∀ (j : Nat) (x : Expr E), (e :: es)[j]? = some x →
      ∃ p, (mergeParts (shape e) (es.map shape) b)[j]? = some (shape x, p) ∧ (shape x).evalM p l.get = top2R X C (kinds n) x r
  | [], e, b, n, l, h, hsh, hst, hh, hr, j, x, hj => by
    cases j with
    | succ j => simp at hj
    | zero =>
      simp only [List.getElem?_cons_zero, Option.some.injEq] at hj
      subst hj
      simp only [Exprs.ofList, shapes, mItemsAll, storedAll, List.append_nil] at hsh hh hst
      exact ⟨b, rfl, sem2R_correct e b n l (h e (by simp)) hsh hst hh hr⟩
  | e' :: es, e, b, n, l, h, hsh, hst, hh, hr, j, x, hj => by
    have hfr := frag2s_of_list e' es (fun x hx => h x (List.mem_cons_of_mem _ hx))
    rw [Exprs.ofList, storedAll] at hst
    simp only [Exprs.ofList] at hfr
    simp only [Exprs.ofList, shapes, mItemsAll, Sh.size] at hsh hh
    have w1 := mItems_within C ρ e (b + 1) (h e (by simp))
    have w2 := mItemsAll_within C ρ (.cons e' (.ofList es)) .neor (b + 1 + (shape e).size) hfr
    cases j with
    | zero =>
      simp only [List.getElem?_cons_zero, Option.some.injEq] at hj
      subst hj
      exact ⟨b + 1, rfl, sem2R_correct e (b + 1) n l (h e (by simp)) (fun s' i hs => hsh s' i (Or.inr (Or.inl hs)))
        (fun p hp => hst p (List.mem_append_left _ hp)) (hh.left w2 (by omega) (by omega) (by omega)) hr⟩
    | succ j =>
      simp only [List.getElem?_cons_succ] at hj
      obtain ⟨p, p1, p2⟩ := each2R_correct es e' (b + 1 + (shape e).size) n l (fun x hx => h x (List.mem_cons_of_mem _ hx))
        (fun s' i hs => hsh s' i (Or.inr (Or.inr hs))) (fun p hp => hst p (List.mem_append_right _ hp))
        (hh.right w1 (by omega) (by simp only [Exprs.ofList]; omega) (by omega)) hr j x hj
      exact ⟨p, by simpa [mergeParts] using p1, p2⟩

theorem transform_buckets (C : Comp E) (slot0 : Nat) {es : List (Expr E)} {g : Expr E} {gs : List (Expr E)} (hg : genExprs es = g :: gs) {df : Def E}
    (h : transform C slot0 es = .ok df) : df.buckets = bucketIds es ((mergeParts (shape g) (gs.map shape) 0).map Prod.snd) := by
  rw [transform_cons C slot0 es hg] at h
  obtain ⟨r, hr, h⟩ := Res.bind_eq_ok.1 h
  cases h
  exact congrArg (bucketIds es) (tMerge_grown C g gs (initT slot0) r 0 (initT_start slot0) hr).2

/-- What is answered for each expression, on every document: its truth on the values the matcher reaches.  Which these are depends on all
expressions. -/
theorem C97_answers (X : Fns E) (C : Comp E) (slot0 : Nat) {es : List (Expr E)} {g : Expr E} {gs : List (Expr E)} (hg : genExprs es = g :: gs)
    (hfrag : ∀ x ∈ g :: gs, Frag2 C x) (hsafe : ∀ x ∈ g :: gs, SafeE x) {data : List Nat} {r : D} (hr : Begins data r) :
    ∃ df, transform C slot0 es = .ok df ∧ ∀ m, Ready df m →
      ∃ b m', run X df m data = .ok (some b, m') ∧
        ∀ (i : Nat) (e : Expr E), es[i]? = some e → NotConst e → expressionMatched df m' i = .ok (top2R X C (mCondsOf (g :: gs)) e r) := by
  obtain ⟨df, n, h1, hw, hs, hsame, hv⟩ := transform_multiR C slot0 es hg hfrag
  have hbk := transform_buckets C slot0 hg h1
  refine ⟨df, h1, fun m hm => ?_⟩
  obtain ⟨b, hb⟩ := verdict_ok X (shapes .neor (.ofList (g :: gs))) (hs hsafe) hr.wf
  unfold verdict at hb
  obtain ⟨l, hd, _⟩ := Res.bind_eq_ok.1 hb
  obtain ⟨ρ, r1, r2, r3⟩ := hv X r _ l hd
  have heach := each2R_correct gs g 0 n l hfrag (subtree_ok _ 0) r1 r2 r3
  rw [shapes_merge] at hw hd
  obtain ⟨m', q1, q2⟩ := run_each X hw hr hm hd
  refine ⟨_, m', q1, fun i e hi hn => ?_⟩
  have hlen : ((mergeParts (shape g) (gs.map shape) 0).map Prod.snd).length = (genExprs es).length := by
    rw [hg, List.length_map, mergeParts_length]; simp
  obtain ⟨j, p, j1, j2, j3⟩ := (bucketIds_at es _ hlen i e hi).2.2 hn
  rw [hg] at j1
  obtain ⟨p', p1, p2⟩ := heach j e j1
  rw [List.getElem?_map, p1] at j2
  cases j2
  have hv := q2 _ (List.mem_of_getElem? p1)
  rw [top2R_same X C hsame r e] at p2
  simp only [p2] at hv
  rw [← hbk] at j3
  simp only [expressionMatched, Res.idx_of_some j3, Res.bind_ok, BinTree.isResolved, BinTree.isTrue, Int.toNat_natCast,
    Res.idx_of_some hv]
  rw [if_neg (by omega)]
  cases top2R X C (mCondsOf (g :: gs)) e r <;> rfl

/-! ### What the answer for one expression depends on -/

/-- For the values at `p` the conditions `L` and `L'` are alike: the same loops on the way, and conditions below or not. -/
structure Near (p : Path) (L L' : List (Path × Bool)) : Prop where
  loops : ∀ q, q <+: p → ((q, true) ∈ L ↔ (q, true) ∈ L')
  more : (∃ k p' b, (p ++ k :: p', b) ∈ L) ↔ ∃ k p' b, (p ++ k :: p', b) ∈ L'

theorem Near.below {k : List Nat} {p : Path} {L L' : List (Path × Bool)} (h : Near (k :: p) L L') : Near p (below k L) (below k L') := by
  refine ⟨fun q hq => ?_, ?_⟩
  · rw [mem_below, mem_below]
    exact h.loops (k :: q) ((List.prefix_cons_inj k).2 hq)
  · have := h.more
    simp only [mem_below]
    exact this

theorem Near.belowP {L L' : List (Path × Bool)} : ∀ (q : Path) {p : Path}, Near (q ++ p) L L' → Near p (belowP q L) (belowP q L')
  | [], _, h => h
  | k :: q, _, h => by
    rw [Transform.belowP, Transform.belowP]
    exact Near.belowP q h.below
termination_by q => q.length

theorem Near.loopHere {p : Path} {L L' : List (Path × Bool)} (h : Near p L L') : loopHere L = loopHere L' := by
  rw [Bool.eq_iff_iff, loopHere_iff, loopHere_iff]; exact h.loops [] (List.nil_prefix)

theorem reach_near {loop : Bool} : ∀ {L L' : List (Path × Bool)} (p : Path), Near p L L' → ∀ d : D, reach loop L p d = reach loop L' p d
  | L, L', [], h, d => by
    have hm : moreBelow L = moreBelow L' := by
      rw [Bool.eq_iff_iff, moreBelow_iff, moreBelow_iff]; exact h.more
    have : noticed L d = noticed L' d := by unfold noticed; rw [h.loopHere, hm]
    rw [reach, reach, this]
  | L, L', k :: p, h, .lit _ _ => rfl
  | L, L', k :: p, h, .obj _ ms => by
    rw [reach, reach, funext (reach_near p h.below)]
  | L, L', k :: p, h, .arr _ es => by
    rw [reach, reach, h.loopHere, funext (reach_near p h.below)]
termination_by _ _ p => p.length

theorem reachA_near : ∀ {L L' : List (Path × Bool)} (q p : Path), Near (q ++ p) L L' → ∀ d : D, reachA L q d = reachA L' q d
  | L, L', [], p, h, d => by
    have : entered L d = entered L' d := by unfold entered; rw [h.loopHere]
    rw [reachA, reachA, this]
  | L, L', k :: q, p, h, .lit _ _ => rfl
  | L, L', k :: q, p, h, .obj _ ms => by
    rw [reachA, reachA, funext (reachA_near q p h.below)]
  | L, L', k :: q, p, h, .arr _ es => by
    rw [reachA, reachA, h.loopHere, funext (reachA_near q p h.below)]
termination_by _ _ q => q.length

section
variable (X : Fns E) (C : Comp E) {L L' : List (Path × Bool)} (d : D)

mutual
  theorem topR_near : ∀ e : Expr E, (∀ x ∈ conds e, Near x.1 L L') → topR X C L e d = topR X C L' e d
    | .cmp c l r, h => by rw [topR, topR, reach_near _ (h (condPath l r, false) (by simp [conds]))]
    | .exist e, h => by rw [topR, topR, reach_near _ (h (condPath e e, false) (by simp [conds]))]
    | .notExist e, h => by rw [topR, topR, reach_near _ (h (condPath e e, false) (by simp [conds]))]
    | .not e, h => by rw [topR, topR, topR_near e (by simpa [conds] using h)]
    | .and es, h => by rw [topR, topR, topRAll_near es (by simpa [conds] using h)]
    | .or es, h => by rw [topR, topR, topRAny_near es (by simpa [conds] using h)]
    | .loop m w i s, h => by rw [topR, topR, reach_near _ (h (inPath i, true) (by simp [conds]))]
    | .tru, _ | .fals, _ | .value _, _ | .regex _, _ | .pcre _, _ | .time _, _ | .field _, _ | .func .., _ => by simp [topR]
  theorem topRAll_near : ∀ es : Exprs E, (∀ x ∈ condsAll es, Near x.1 L L') → topRAll X C L es d = topRAll X C L' es d
    | .nil, _ => rfl
    | .cons e r, h => by
      rw [topRAll, topRAll, topR_near e (fun x hx => h x (by rw [condsAll]; exact List.mem_append_left _ hx)),
        topRAll_near r (fun x hx => h x (by rw [condsAll]; exact List.mem_append_right _ hx))]
  theorem topRAny_near : ∀ es : Exprs E, (∀ x ∈ condsAll es, Near x.1 L L') → topRAny X C L es d = topRAny X C L' es d
    | .nil, _ => rfl
    | .cons e r, h => by
      rw [topRAny, topRAny, topR_near e (fun x hx => h x (by rw [condsAll]; exact List.mem_append_left _ hx)),
        topRAny_near r (fun x hx => h x (by rw [condsAll]; exact List.mem_append_right _ hx))]
end

/-- The fields of a comparison are alike. -/
theorem envR_near {q : Path} {ps : List Path} (hb : ∀ p ∈ ps, ∃ k p', p = q ++ k :: p') (h : ∀ p ∈ ps, Near p L L') (x : D) :
    ∀ p ∈ ps, envR d L q x p = envR d L' q x p := by
  intro p hp
  obtain ⟨k, p', rfl⟩ := hb p hp
  rw [envR, envR, List.drop_left' rfl, reach_near _ ((h _ hp).belowP q)]

theorem multiTopR_near {c : Cmp} {l r : Expr E} (hm : several l r = true) (hl : Loose (paths l ++ paths r)) (h : ∀ p ∈ paths l ++ paths r, Near p L L') :
    multiTopR X C L c l r d = multiTopR X C L' c l r d := by
  obtain ⟨hb, k, p', _, _, h1, _, _⟩ := splits_base hm hl
  have hA := reachA_near (base l r) (k :: p') (h _ h1) d
  unfold multiTopR
  rw [hA]
  have : ∀ x, multiHolds X C (if c = .ne then .eq else c) l r (envR d L (base l r) x) =
      multiHolds X C (if c = .ne then .eq else c) l r (envR d L' (base l r) x) :=
    fun x => multiHolds_congr X C (envR_near d hb h x)
  simp only [this]

theorem decideAt_env {F F' : Env → Option Bool} {K K' : List (Path × Bool)} {S : List Path} (hF : ∀ g g' : Env, (∀ p ∈ S, g p = g' p) → F g = F' g')
    (hK : ∀ p ∈ S, Near p K K') : ∀ (xs : List D) (g g' : Env), (∀ p ∈ S, g p = g' p) → decideAt F K g xs = decideAt F' K' g' xs
  | [], _, _, _ => rfl
  | x :: xs, g, g', h => by
    have hs : ∀ p ∈ S, seeing K g x p = seeing K' g' x p := by
      intro p hp
      unfold seeing
      rw [h p hp, reach_near p (hK p hp)]
    rw [decideAt, decideAt, hF _ _ hs, decideAt_env hF hK xs _ _ hs]

theorem rootedLoopR_env {m : Mode} {i s : Expr E} {env env' : Env} (h : ∀ p ∈ inPath i :: rPaths s, env p = env' p) :
    rootedLoopR X C m i s d env = rootedLoopR X C m i s d env' := by
  unfold rootedLoopR
  rw [h _ List.mem_cons_self]
  have hr : ∀ x, rsemR X C env (rConds s) s x = rsemR X C env' (rConds s) s x :=
    fun x => rsemR_env X C s x (fun p hp => h p (List.mem_cons_of_mem _ hp))
  simp only [hr]

theorem rootedTopR_near {m : Mode} {i s : Expr E} (hl : Loose (inPath i :: rPaths s)) (h : ∀ p ∈ inPath i :: rPaths s, Near p L L') :
    rootedTopR X C L m i s d = rootedTopR X C L' m i s d := by
  obtain ⟨hb, k, p', _, _, h1, _, _⟩ := splits_of_loose (by simp) hl
  have hA := reachA_near (loopBase i s) (k :: p') (h _ h1) d
  rw [rootedTopR, rootedTopR, hA]
  congr 1
  refine decideAt_env (S := (inPath i :: rPaths s).map (·.drop (loopBase i s).length)) (fun g g' hg => ?_) (fun p hp => ?_) _ _ _ (fun _ _ => rfl)
  · refine rootedLoopR_env X C d (fun p hp => ?_)
    rw [fieldsAt, fieldsAt, hg _ (List.mem_map.2 ⟨p, hp, rfl⟩)]
  · obtain ⟨y, hy, rfl⟩ := List.mem_map.1 hp
    obtain ⟨k, p', e⟩ := hb y hy
    have hn := h y hy
    rw [e] at hn ⊢
    rw [show loopBase i s = baseOf (inPath i :: rPaths s) from rfl, List.drop_left' rfl]
    exact hn.belowP _

mutual
  theorem top2R_near : ∀ e : Expr E, Frag2 C e → (∀ x ∈ mConds e, Near x.1 L L') → top2R X C L e d = top2R X C L' e d
    | .cmp c l r, hf, h => by
      rw [top2R, top2R]
      rw [Frag2] at hf
      rw [mConds] at h
      by_cases hm : several l r = true
      · rw [if_pos hm] at hf h
        rw [if_pos hm, if_pos hm]
        exact multiTopR_near X C d hm hf.2.2 (fun p hp => h (p, false) (List.mem_map.2 ⟨p, hp, rfl⟩))
      · rw [if_neg hm] at h
        rw [if_neg hm, if_neg hm]
        exact topR_near X C d _ h
    | .not e, hf, h => by
      rw [Frag2] at hf
      rw [top2R, top2R, top2R_near e hf (by simpa [mConds] using h)]
    | .and es, hf, h => by
      rw [Frag2] at hf
      rw [top2R, top2R, (top2Rs_near es hf (by simpa [mConds] using h)).1]
    | .or es, hf, h => by
      rw [Frag2] at hf
      rw [top2R, top2R, (top2Rs_near es hf (by simpa [mConds] using h)).2]
    | .loop m w i s, hf, h => by
      rw [top2R, top2R]
      rw [Frag2] at hf
      rw [mConds] at h
      by_cases hm : rooted s = true
      · rw [if_pos hm] at hf h
        rw [if_pos hm, if_pos hm]
        exact rootedTopR_near X C d hf.2.2.2.2 (fun p hp => h (p, false) (List.mem_map.2 ⟨p, hp, rfl⟩))
      · rw [if_neg hm] at h
        rw [if_neg hm, if_neg hm]
        exact topR_near X C d _ h
    | .exist e, _, h | .notExist e, _, h | .tru, _, h | .fals, _, h | .value _, _, h | .regex _, _, h | .pcre _, _, h | .time _, _, h
    | .field _, _, h | .func .., _, h => by
      simp only [top2R]
      simp only [mConds] at h
      exact topR_near X C d _ h
  theorem top2Rs_near : ∀ es : Exprs E, Frag2s C es → (∀ x ∈ mCondsAll es, Near x.1 L L') →
      top2RAll X C L es d = top2RAll X C L' es d ∧ top2RAny X C L es d = top2RAny X C L' es d
    | .nil, hf, _ => by simp [Frag2s] at hf
    | .cons e .nil, hf, h => by
      rw [Frag2s] at hf
      have he := top2R_near e hf (fun x hx => h x (by rw [mCondsAll]; exact List.mem_append_left _ hx))
      simp only [top2RAll, top2RAny, he, and_self]
    | .cons e (.cons e' r), hf, h => by
      rw [Frag2s] at hf
      rw [mCondsAll] at h
      have he := top2R_near e hf.1 (fun x hx => h x (List.mem_append_left _ hx))
      obtain ⟨h1, h2⟩ := top2Rs_near (.cons e' r) hf.2 (fun x hx => h x (List.mem_append_right _ hx))
      have a1 : ∀ L, top2RAll X C L (.cons e (.cons e' r)) d = (top2R X C L e d && top2RAll X C L (.cons e' r) d) := fun L => by rw [top2RAll]
      have a2 : ∀ L, top2RAny X C L (.cons e (.cons e' r)) d = (top2R X C L e d || top2RAny X C L (.cons e' r) d) := fun L => by rw [top2RAny]
      rw [a1, a1, a2, a2, he, h1, h2]
      exact ⟨rfl, rfl⟩
end

end

/-! ### C97 -/

/-- C97 as stated: after a match the answer for an expression is the verdict of the expression compiled alone. -/
def C97_full : Prop :=
  ∀ (E : Ext) (X : Fns E) (C : Comp E) (es : List (Expr E)) (df df1 : Def E) (i : Nat) (e : Expr E) (data : List Nat) (r : D) (b y : Bool) (m' m1' : M),
    transform C 0 es = .ok df → es[i]? = some e → NotConst e → transform C 0 [e] = .ok df1 → Begins data r →
    run X df (newMatcher df) data = .ok (some b, m') → run X df1 (newMatcher df1) data = .ok (some y, m1') → expressionMatched df m' i = .ok y

/-- What the other expressions may not ask for: loops over an array on the way to a field of `e` (unless `e` loops over it too), and fields below a
field of `e` (unless `e` does too). -/
structure Undisturbed (e : Expr E) (es : List (Expr E)) : Prop where
  loops : ∀ x ∈ mConds e, ∀ q, q <+: x.1 → (q, true) ∈ mCondsOf es → (q, true) ∈ mConds e
  more : ∀ x ∈ mConds e, ∀ k p b, (x.1 ++ k :: p, b) ∈ mCondsOf es → ∃ k p b, (x.1 ++ k :: p, b) ∈ mConds e

/-- C97 for an expression that is not disturbed by the others, on every document.  (Missing: the other expressions; there it is false,
`C97_negation`, and `C97_answers` gives the answer.) -/
theorem C97_alone_partial (X : Fns E) (C : Comp E) (slot0 slot1 : Nat) {es : List (Expr E)} (hfrag : ∀ x ∈ genExprs es, Frag2 C x)
    (hsafe : ∀ x ∈ genExprs es, SafeE x) {i : Nat} {e : Expr E} (hi : es[i]? = some e) (hn : NotConst e) (hu : Undisturbed e (genExprs es))
    {data : List Nat} {r : D} (hr : Begins data r) :
    ∃ df df1, transform C slot0 es = .ok df ∧ transform C slot1 [e] = .ok df1 ∧ ∀ m m1, Ready df m → Ready df1 m1 →
      ∃ b m' y m1', run X df m data = .ok (some b, m') ∧ run X df1 m1 data = .ok (some y, m1') ∧ expressionMatched df m' i = .ok y := by
  have hmem := genExprs_mem es i e hi hn
  cases hg : genExprs es with
  | nil => rw [hg] at hmem; cases hmem
  | cons g gs =>
    rw [hg] at hfrag hsafe hu hmem
    obtain ⟨df, h1, h2⟩ := C97_answers X C slot0 hg hfrag hsafe hr
    have hg1 : genExprs [e] = [e] := by
      have : e ∈ genExprs [e] := genExprs_mem [e] 0 e rfl hn
      cases e <;> first | rfl | (simp [genExprs] at this)
    obtain ⟨df1, h3, h4⟩ := C84_verdict X (C := C) (slot0 := slot1) hg1 (fun x hx => by rw [List.mem_singleton.1 hx]; exact hfrag e hmem)
      (fun x hx => by rw [List.mem_singleton.1 hx]; exact hsafe e hmem) hr
    refine ⟨df, df1, h1, h3, fun m m1 hm hm1 => ?_⟩
    obtain ⟨b, m', e1, e2⟩ := h2 m hm
    obtain ⟨m1', e3⟩ := h4 m1 hm1
    refine ⟨b, m', _, m1', e1, e3, ?_⟩
    have hsub : ∀ x ∈ mConds e, x ∈ mCondsOf (g :: gs) := fun x hx => List.mem_flatMap.2 ⟨e, hmem, hx⟩
    rw [e2 i e hi hn]
    simp only [List.any_cons, List.any_nil, Bool.or_false]
    congr 1
    have hc : mCondsOf [e] = mConds e := by simp [mCondsOf]
    rw [hc]
    refine top2R_near X C r e (hfrag e hmem) (fun x hx => ⟨fun q hq => ⟨hu.loops x hx q hq, hsub _⟩, ⟨?_, ?_⟩⟩)
    · rintro ⟨k, p, b, hb⟩; exact hu.more x hx k p b hb
    · rintro ⟨k, p, b, hb⟩; exact ⟨k, p, b, hsub _ hb⟩

/-- `a EXISTS`, `a.b = 1` -/
def demoNear : List (Expr demoExt) := [.exist fieldA, .cmp .eq (.field ⟨0, [[97], [98]]⟩) one]

/-- Compiled alone, `a EXISTS` matches `{"a":{}}`; compiled together with `a.b = 1` it does not. -/
theorem C97_negation : ¬ C97_full := by
  intro h
  have e1 : (transform demoComp 0 demoNear >>= fun df => run demoFns df (newMatcher df) textAO >>= fun r => expressionMatched df r.2 0 >>= fun y =>
      .ok (r.1, y)) = .ok (some false, false) := by decide +kernel
  have e2 : (run demoFns demoExist (newMatcher demoExist) textAO >>= fun r => Res.ok r.1) = .ok (some true) := by decide +kernel
  obtain ⟨df, t1, e1⟩ := Res.bind_eq_ok.1 e1
  obtain ⟨⟨o, m'⟩, t2, e1⟩ := Res.bind_eq_ok.1 e1
  obtain ⟨y, t3, e1⟩ := Res.bind_eq_ok.1 e1
  cases e1
  obtain ⟨⟨o1, m1'⟩, t4, e2⟩ := Res.bind_eq_ok.1 e2
  cases e2
  have := h demoExt demoFns demoComp demoNear df demoExist 0 (.exist fieldA) textAO docAO false true m' m1' t1 rfl (by simp [NotConst]) demoExist_compiled
    docAO_text t2 t4
  rw [t3] at this
  cases this

/-- `a.b = 1` is not disturbed by `a EXISTS`; on `{"a":{}}`. -/
example : ∃ df df1, transform demoComp 0 demoNear = .ok df ∧ transform demoComp 0 [.cmp .eq (.field ⟨0, [[97], [98]]⟩) one] = .ok df1 ∧
    ∀ m m1, Ready df m → Ready df1 m1 → ∃ b m' y m1', run demoFns df m textAO = .ok (some b, m') ∧ run demoFns df1 m1 textAO = .ok (some y, m1') ∧
      expressionMatched df m' 1 = .ok y :=
  C97_alone_partial demoFns demoComp 0 0 (es := demoNear) (i := 1) (e := .cmp .eq (.field ⟨0, [[97], [98]]⟩) one)
    (by
      intro x hx
      simp only [demoNear, genExprs, List.mem_cons, List.not_mem_nil, or_false] at hx
      rcases hx with rfl | rfl <;> simp [Frag2, Frag, several, paths, Param, condPath, fieldPath, fieldA, one])
    (by
      intro x hx
      simp only [demoNear, genExprs, List.mem_cons, List.not_mem_nil, or_false] at hx
      rcases hx with rfl | rfl <;> simp [SafeE, SafeParam, fieldA, one]) rfl (by simp [NotConst])
    ⟨by simp [demoNear, genExprs, mCondsOf, mConds, conds], by
      simp [demoNear, genExprs, mCondsOf, mConds, conds, several, paths, condPath, fieldPath, fieldA, one]⟩ docAO_text

/-- `a = b AND a + b >= 1` is not disturbed by `a != b`; on `{"a":1,"b":1}`. -/
example : ∃ df df1, transform demoComp 0 demoPairs = .ok df ∧
    transform demoComp 0 [.and (.cons (.cmp .eq fieldA fieldB) (.cons (.cmp .ge sumAB one) .nil))] = .ok df1 ∧
    ∀ m m1, Ready df m → Ready df1 m1 → ∃ b m' y m1', run demoFns df m textAB1 = .ok (some b, m') ∧ run demoFns df1 m1 textAB1 = .ok (some y, m1') ∧
      expressionMatched df m' 0 = .ok y := by
  have hm : ∀ x ∈ mConds (.and (.cons (.cmp .eq fieldA fieldB) (.cons (.cmp .ge sumAB one) .nil)) : Expr demoExt), x = ([[97]], false) ∨ x = ([[98]], false) := by
    simp only [mConds, mCondsAll, if_pos (show several fieldA fieldB = true from by decide), if_pos (show several sumAB one = true from by decide)]
    simp [paths, pathsAll, fieldA, fieldB, sumAB, one]
  have ha : ∀ x ∈ mCondsOf (genExprs demoPairs), x = ([[97]], false) ∨ x = ([[98]], false) := by
    intro x hx
    obtain ⟨e, he, hx⟩ := List.mem_flatMap.1 hx
    simp only [demoPairs, genExprs, List.mem_cons, List.not_mem_nil, or_false] at he
    rcases he with rfl | rfl
    · exact hm x hx
    · simp only [mConds, if_pos (show several fieldA fieldB = true from by decide)] at hx
      simpa [paths, fieldA, fieldB] using hx
  refine C97_alone_partial demoFns demoComp 0 0 (es := demoPairs) (i := 0) (fun x hx => (demoPairs_frag x hx).1) (fun x hx => (demoPairs_frag x hx).2.1) rfl
    (by simp [NotConst]) ⟨fun x _ q _ hq => ?_, fun x hx k p b hb => ?_⟩ docAB1_text
  · rcases ha _ hq with h | h <;> cases h
  · rcases hm x hx with rfl | rfl <;> rcases ha _ hb with h | h <;> simp at h

/-- The answers for `a EXISTS` and `a.b = 1` on `{"a":{}}`. -/
example : ∃ df, transform demoComp 0 demoNear = .ok df ∧ ∀ m, Ready df m → ∃ b m', run demoFns df m textAO = .ok (some b, m') ∧
    expressionMatched df m' 0 = .ok false ∧ expressionMatched df m' 1 = .ok false := by
  obtain ⟨df, h1, h2⟩ := C97_answers demoFns demoComp 0 (es := demoNear) (g := .exist fieldA) (gs := [.cmp .eq (.field ⟨0, [[97], [98]]⟩) one]) rfl
    (by
      intro x hx
      simp only [List.mem_cons, List.not_mem_nil, or_false] at hx
      rcases hx with rfl | rfl <;> simp [Frag2, Frag, several, paths, Param, condPath, fieldPath, fieldA, one])
    (by
      intro x hx
      simp only [List.mem_cons, List.not_mem_nil, or_false] at hx
      rcases hx with rfl | rfl <;> simp [SafeE, SafeParam, fieldA, one]) docAO_text
  refine ⟨df, h1, fun m hm => ?_⟩
  obtain ⟨b, m', e1, e2⟩ := h2 m hm
  exact ⟨b, m', e1, e2 0 _ rfl (by simp [NotConst]), e2 1 _ rfl (by simp [NotConst])⟩

end Verif.Transform
