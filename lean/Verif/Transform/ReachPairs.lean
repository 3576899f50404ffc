import Verif.Transform.ReachMulti
import Verif.Transform.MultiWhole

/-!
# C84 without loops, and for two fields
-/

namespace Verif.Transform
open Verif.FastVal Verif.Match Verif.Expr
open Verif.Token (D Es Ms Tok)

variable {E : Ext}

/-! ### Specification -/

/-- Not an empty array. -/
def solid : D → Bool
  | .arr _ .nil => false
  | _ => true

/-- The value of the field `p` for a comparison of several fields at the value `x` at `q`: the last visible value; the document itself if it
is scalar.  `P` are the paths of the filter. -/
def lastVisible (P : List Path) (r : D) (q : Path) (x : D) : Env :=
  fun p => ((walk (p.drop q.length) x).filter (visible P p)).getLast?.or (scalar r)

mutual
  /-- Truth of an expression without loops on the document `d`. -/
  def truth2On (X : Fns E) (C : Comp E) (P : List Path) (d : D) : Expr E → Bool
    | .cmp c l r =>
      if several l r then
        match (walk (base l r) d).find? solid with
        | some x => let v := multiHolds X C (if c = .ne then .eq else c) l r (lastVisible P d (base l r) x); if c = .ne then !v else v
        | none => decide (c = .ne)
      else match ((walk (condPath l r) d).filter (visible P (condPath l r))).head? with
        | some x => condHolds X C c l r x
        | none => decide (c = .ne)
    | .exist e => !((walk (condPath e e) d).filter (visible P (condPath e e))).isEmpty
    | .notExist e => ((walk (condPath e e) d).filter (visible P (condPath e e))).isEmpty
    | .not e => !truth2On X C P d e
    | .and es => truth2OnAll X C P d es
    | .or es => truth2OnAny X C P d es
    | _ => false
  def truth2OnAll (X : Fns E) (C : Comp E) (P : List Path) (d : D) : Exprs E → Bool
    | .nil => true
    | .cons e r => truth2On X C P d e && truth2OnAll X C P d r
  def truth2OnAny (X : Fns E) (C : Comp E) (P : List Path) (d : D) : Exprs E → Bool
    | .nil => false
    | .cons e r => truth2On X C P d e || truth2OnAny X C P d r
end

/-- The paths of the fields of the expressions. -/
def pathsOf2 (gs : List (Expr E)) : List Path := (mCondsOf gs).map Prod.fst

/-! ### Without loops -/

theorem lastOf_getLast (l : List D) : lastOf none l = l.getLast? := by
  rcases List.eq_nil_or_concat l with rfl | ⟨l', x, rfl⟩
  · rfl
  · rw [List.concat_eq_append, lastOf_append, lastOf_one, List.getLast?_append]; rfl

theorem reachA_solid : ∀ {L : List (Path × Bool)} (q : Path) (d : D), (∀ p, (p, true) ∉ L) → reachA L q d = (walk q d).filter solid
  | L, [], d, h => by
    have : entered L d = solid d := by
      unfold entered solid
      split
      · rw [Bool.eq_false_iff]; intro hl; exact h [] (loopHere_iff.1 hl)
      · rename_i hx
        split
        · exact (hx _ rfl).elim
        · rfl
    rw [reachA, walk, this]
    cases hs : solid d <;> simp [hs]
  | L, k :: q, d, h => by
    have hb : ∀ p, (p, true) ∉ below k L := fun p hp => h _ (mem_below.1 hp)
    have hf : reachA (below k L) q = fun x => (walk q x).filter solid := funext fun x => reachA_solid q x hb
    cases d with
    | lit => rfl
    | obj ws ms => rw [reachA, walk, hf, List.filter_flatMap]
    | arr ws es =>
      rw [reachA, walk, hf, List.filter_flatMap, if_neg]
      intro hl; exact h [] (loopHere_iff.1 hl)

theorem mem_belowP {L : List (Path × Bool)} {b : Bool} : ∀ {q p : Path}, (p, b) ∈ belowP q L ↔ (q ++ p, b) ∈ L
  | [], p => Iff.rfl
  | k :: q, p => by rw [belowP, mem_belowP, mem_below, List.cons_append]

theorem visible_belowP : ∀ {q : Path} {L : List (Path × Bool)} {p : Path},
    visible ((belowP q L).map Prod.fst) p = visible (L.map Prod.fst) (q ++ p)
  | [], _, _ => rfl
  | k :: q, L, p => by rw [belowP, visible_belowP, visible_below]; rfl

theorem envR_visible {L : List (Path × Bool)} (h : ∀ p, (p, true) ∉ L) {r x : D} {q p : Path} (hq : q <+: p) :
    envR r L q x p = lastVisible (L.map Prod.fst) r q x p := by
  obtain ⟨p', rfl⟩ := hq
  rw [envR, lastVisible, lastOf_getLast, List.drop_left, reach_visible _ _ fun p hp => h _ (mem_belowP.1 hp), visible_belowP]

theorem head_find {p : D → Bool} : ∀ l : List D, (l.filter p).head? = l.find? p
  | [] => rfl
  | x :: l => by
    rw [List.filter_cons, List.find?_cons]
    cases p x with
    | true => rfl
    | false => exact head_find l

mutual
  theorem top2R_loopFree (X : Fns E) (C : Comp E) {L : List (Path × Bool)} (hL : ∀ p, (p, true) ∉ L) (d : D) : ∀ e : Expr E, Frag2 C e → LoopFree e →
      top2R X C L e d = truth2On X C (L.map Prod.fst) d e
    | .cmp c l r, hf, _ => by
      rw [top2R, truth2On]
      rw [Frag2] at hf
      by_cases hm : several l r = true
      · rw [if_pos hm] at hf
        rw [if_pos hm, if_pos hm, multiTopR, reachA_solid _ _ hL, head_find]
        have hsp := splits_base hm hf.2.2
        cases (walk (base l r) d).find? solid with
        | none => cases c <;> rfl
        | some x =>
          have he : ∀ p ∈ paths l ++ paths r, envR d L (base l r) x p = lastVisible (L.map Prod.fst) d (base l r) x p := by
            intro p hp
            obtain ⟨k, p', rfl⟩ := hsp.1 p hp
            exact envR_visible hL ⟨_, rfl⟩
          simp only [Option.map_some, Option.getD_some, multiHolds_congr X C he]
      · rw [if_neg hm, if_neg hm, topR, reach_visible _ _ hL]
        cases ((walk (condPath l r) d).filter (visible (L.map Prod.fst) (condPath l r))).head? <;> rfl
    | .exist e, _, _ => by
      rw [top2R, truth2On, topR, reach_visible _ _ hL]
      · cases (walk (condPath e e) d).filter (visible (L.map Prod.fst) (condPath e e)) <;> rfl
      all_goals simp
    | .notExist e, _, _ => by
      rw [top2R, truth2On, topR, reach_visible _ _ hL]
      · cases (walk (condPath e e) d).filter (visible (L.map Prod.fst) (condPath e e)) <;> rfl
      all_goals simp
    | .not e, hf, h => by rw [Frag2] at hf; rw [top2R, truth2On, top2R_loopFree X C hL d e hf h]
    | .and es, hf, h => by rw [Frag2] at hf; rw [top2R, truth2On]; exact (top2Rs_loopFree X C hL d es hf h).1
    | .or es, hf, h => by rw [Frag2] at hf; rw [top2R, truth2On]; exact (top2Rs_loopFree X C hL d es hf h).2
    | .loop .., _, h => by simp [LoopFree] at h
    | .tru, _, _ | .fals, _, _ | .value _, _, _ | .regex _, _, _ | .pcre _, _, _ | .time _, _, _ | .field _, _, _
    | .func .., _, _ => by simp [top2R, topR, truth2On]
  theorem top2Rs_loopFree (X : Fns E) (C : Comp E) {L : List (Path × Bool)} (hL : ∀ p, (p, true) ∉ L) (d : D) : ∀ es : Exprs E, Frag2s C es →
      LoopFrees es → top2RAll X C L es d = truth2OnAll X C (L.map Prod.fst) d es ∧ top2RAny X C L es d = truth2OnAny X C (L.map Prod.fst) d es
    | .nil, _, _ => ⟨rfl, rfl⟩
    | .cons e .nil, hf, h => by
      rw [Frag2s] at hf
      simp only [top2RAll, top2RAny, truth2OnAll, truth2OnAny, top2R_loopFree X C hL d e hf h.1, and_self]
    | .cons e (.cons e' r), hf, h => by
      rw [Frag2s] at hf
      obtain ⟨h1, h2⟩ := top2Rs_loopFree X C hL d (.cons e' r) hf.2 h.2
      rw [top2RAll, top2RAny, truth2OnAll, truth2OnAny, h1, h2, top2R_loopFree X C hL d e hf.1 h.1]
      exact ⟨rfl, rfl⟩
end

mutual
  theorem mConds_loopFree : ∀ e : Expr E, LoopFree e → ∀ q, (q, true) ∉ mConds e
    | .cmp c l r, _, q => by rw [mConds]; split <;> simp [conds]
    | .exist _, _, q | .notExist _, _, q => by simp [mConds, conds]
    | .not e, h, q => by rw [mConds]; exact mConds_loopFree e h q
    | .and es, h, q => by rw [mConds]; exact mCondsAll_loopFree es h q
    | .or es, h, q => by rw [mConds]; exact mCondsAll_loopFree es h q
    | .loop .., h, q => by simp [LoopFree] at h
    | .tru, _, q | .fals, _, q | .value _, _, q | .regex _, _, q | .pcre _, _, q | .time _, _, q | .field _, _, q
    | .func .., _, q => by simp [mConds, conds]
  theorem mCondsAll_loopFree : ∀ es : Exprs E, LoopFrees es → ∀ q, (q, true) ∉ mCondsAll es
    | .nil, _, q => by simp [mCondsAll]
    | .cons e r, h, q => by
      rw [mCondsAll, List.mem_append]
      rintro (h' | h')
      · exact mConds_loopFree e h.1 q h'
      · exact mCondsAll_loopFree r h.2 q h'
end

/-- C62 on every document: without loops, the verdict is the truth of the expressions on the visible values. -/
theorem C84_loopFree (X : Fns E) {C : Comp E} {slot0 : Nat} {es : List (Expr E)} {g : Expr E} {gs : List (Expr E)} (hg : genExprs es = g :: gs)
    (h : ∀ x ∈ g :: gs, Frag2 C x) (hlf : ∀ x ∈ g :: gs, LoopFree x) (hsafe : ∀ x ∈ g :: gs, SafeE x) {data : List Nat} {r : D}
    (hr : Begins data r) :
    ∃ df, transform C slot0 es = .ok df ∧ ∀ m, Ready df m →
      ∃ m', run X df m data = .ok (some ((g :: gs).any (truth2On X C (pathsOf2 (g :: gs)) r)), m') := by
  obtain ⟨df, h1, h2⟩ := C84_verdict X (slot0 := slot0) hg h hsafe hr
  refine ⟨df, h1, fun m hm => ?_⟩
  obtain ⟨m', h3⟩ := h2 m hm
  refine ⟨m', ?_⟩
  rw [h3]
  have hno : ∀ q, (q, true) ∉ mCondsOf (g :: gs) := by
    intro q hq
    obtain ⟨x, hx, hq⟩ := List.mem_flatMap.1 hq
    exact mConds_loopFree x (hlf x hx) q hq
  have : (g :: gs).any (fun x => top2R X C (mCondsOf (g :: gs)) x r) = (g :: gs).any (truth2On X C (pathsOf2 (g :: gs)) r) := by
    rw [Bool.eq_iff_iff, List.any_eq_true, List.any_eq_true]
    constructor
    · rintro ⟨x, hx, h'⟩; exact ⟨x, hx, by rw [pathsOf2, ← top2R_loopFree X C hno r x (h x hx) (hlf x hx)]; exact h'⟩
    · rintro ⟨x, hx, h'⟩; exact ⟨x, hx, by rw [top2R_loopFree X C hno r x (h x hx) (hlf x hx)]; exact h'⟩
  rw [this]

/-- The hypotheses, on `{"a":{}}`. -/
example : ∃ df, transform demoComp 0 demoPairs = .ok df ∧ ∀ m, Ready df m →
    ∃ m', run demoFns df m textAO = .ok (some (demoPairs.any (truth2On demoFns demoComp (pathsOf2 demoPairs) docAO)), m') :=
  C84_loopFree demoFns rfl (fun x hx => (demoPairs_frag x hx).1) (by simp [LoopFree, LoopFrees])
    (fun x hx => (demoPairs_frag x hx).2.1) docAO_text

/-- The hypotheses of `C84_verdict`, on `{"a":[]}`. -/
example : ∃ df, transform demoComp 0 demoPairs = .ok df ∧ ∀ m, Ready df m →
    ∃ m', run demoFns df m textAE = .ok (some (demoPairs.any (fun x => top2R demoFns demoComp (mCondsOf demoPairs) x docAE)), m') :=
  C84_verdict demoFns rfl (fun x hx => (demoPairs_frag x hx).1)
    (fun x hx => (demoPairs_frag x hx).2.1) docAE_text

/-! ### Two fields -/

/-- The value of the member `k` in a comparison of two members: the last that is not an empty array; a scalar document is its own member. -/
def member (r : D) (k : List Nat) : Option D := ((walk [k] r).filter solid).getLast?.or (scalar r)

/-- Whether the comparison holds of the values; it does not if one is missing. -/
def valuesHold (E : Ext) (c : Cmp) : Option D → Option D → Bool
  | some x, some y =>
    match (valOf x : Res (FV E)), (valOf y : Res (FV E)) with
    | .ok v, .ok w => cmpHolds c v w
    | _, _ => false
  | _, _ => false

theorem visible_flat {k k' q : List Nat} : visible [[k], [k']] [q] = solid := by
  funext x
  unfold visible solid
  split
  · rfl
  · simp
  · rename_i h _
    split
    · exact (h _ rfl).elim
    · rfl

theorem multiHolds_members (X : Fns E) (C : Comp E) (c : Cmp) (f g : Field) (env : Env) :
    multiHolds X C c (.field f) (.field g) env = valuesHold E c (env f.path) (env g.path) := by
  have aux : ∀ a b : Option D, (if (a.isNone || b.isNone) = true then false
      else match (fieldVal (E := E) a >>= fun v => fieldVal (E := E) b >>= fun w => .ok (cmpHolds c v w) : Res Bool) with
        | .ok b => b
        | _ => false) = valuesHold E c a b := by
    intro a b
    rcases a with _ | x
    · simp [valuesHold]
    rcases b with _ | y
    · simp [valuesHold]
    simp only [fieldVal, valuesHold, Option.isNone_some, Bool.or_self, Bool.false_eq_true, if_false]
    rcases valOf (E := E) x with v | _ | _ <;> rcases valOf (E := E) y with w | _ | _ <;> rfl
  exact aux _ _

/-- Comparing two members, on every document. -/
theorem C84_members (X : Fns E) (C : Comp E) (slot0 : Nat) {k k' : List Nat} (hk : k ≠ k') (c : Cmp) {data : List Nat} {r : D} (hr : Begins data r) :
    ∃ df, transform C slot0 [.cmp c (.field ⟨0, [k]⟩) (.field ⟨0, [k']⟩)] = .ok df ∧ ∀ m, Ready df m →
      ∃ m', run X df m data = .ok (some (if c = .ne then !valuesHold E .eq (member r k) (member r k')
        else valuesHold E c (member r k) (member r k')), m') := by
  have hs : several (.field ⟨0, [k]⟩) (.field ⟨0, [k']⟩ : Expr E) = true := by
    simp only [several, paths, List.singleton_append, List.any_cons, List.any_nil, Bool.or_false, decide_eq_true_eq]
    intro h; cases h; exact hk rfl
  have hb : base (.field ⟨0, [k]⟩) (.field ⟨0, [k']⟩ : Expr E) = [] := by
    simp [base, baseOf, paths, common, hk]
  have hg : genExprs [(.cmp c (.field ⟨0, [k]⟩) (.field ⟨0, [k']⟩) : Expr E)] = [.cmp c (.field ⟨0, [k]⟩) (.field ⟨0, [k']⟩)] := by rfl
  obtain ⟨df, h1, h2⟩ := C84_loopFree X (C := C) (slot0 := slot0) hg (by
      intro x hx
      rw [List.mem_singleton] at hx
      subst hx
      rw [Frag2, if_pos hs]
      refine ⟨by simp [MParam], by simp [MParam], ?_⟩
      intro p hp
      simp only [paths, List.singleton_append, List.mem_cons, List.not_mem_nil, or_false] at hp ⊢
      rcases hp with rfl | rfl
      · exact ⟨[k'], Or.inr rfl, fun h => hk (List.cons_prefix_cons.1 h).1⟩
      · exact ⟨[k], Or.inl rfl, fun h => hk (List.cons_prefix_cons.1 h).1.symm⟩)
    (by simp [LoopFree]) (by simp [SafeE, SafeParam]) hr
  refine ⟨df, h1, fun m hm => ?_⟩
  obtain ⟨m', h3⟩ := h2 m hm
  refine ⟨m', ?_⟩
  rw [h3]
  have hP : pathsOf2 [(.cmp c (.field ⟨0, [k]⟩) (.field ⟨0, [k']⟩) : Expr E)] = [[k], [k']] := by
    simp [pathsOf2, mCondsOf, mConds, hs, paths]
  simp only [List.any_cons, List.any_nil, Bool.or_false, truth2On, hP, hs, hb, if_true, walk, List.find?_cons, List.find?_nil]
  have hm : ∀ q x, lastVisible [[k], [k']] x [] x [q] = member x q := by
    intro q x; simp only [lastVisible, List.drop, List.length_nil, visible_flat, member]
  cases hso : solid r with
  | true => simp only [multiHolds_members, hm]; by_cases hc : c = .ne <;> simp [hc]
  | false =>
    have hn : ∀ q, member r q = none := by
      intro q
      unfold solid at hso
      split at hso
      · rfl
      · cases hso
    simp only [hn, valuesHold]
    by_cases hc : c = .ne <;> simp [hc]

/-- The hypotheses, on `{"a":1,"b":1}`. -/
example : ∃ df, transform demoComp 0 [.cmp .lt (.field ⟨0, [[97]]⟩) (.field ⟨0, [[98]]⟩)] = .ok df ∧ ∀ m, Ready df m →
    ∃ m', run demoFns df m textAB1 = .ok (some (if Cmp.lt = .ne then !valuesHold demoExt .eq (member docAB1 [97]) (member docAB1 [98])
      else valuesHold demoExt .lt (member docAB1 [97]) (member docAB1 [98])), m') :=
  C84_members demoFns demoComp 0 (by decide) .lt docAB1_text

/-- On a scalar document the two fields are equal if the value equals itself: both are the document. -/
theorem C84_scalar (X : Fns E) (C : Comp E) (slot0 : Nat) {k k' : List Nat} (hk : k ≠ k') {data : List Nat} {ty : Tok} {w : List Nat}
    (hr : Begins data (.lit ty w)) :
    ∃ df, transform C slot0 [.cmp .eq (.field ⟨0, [k]⟩) (.field ⟨0, [k']⟩)] = .ok df ∧ ∀ m, Ready df m →
      ∃ m', run X df m data = .ok (some (valuesHold E .eq (some (.lit ty w)) (some (.lit ty w))), m') :=
  C84_members X C slot0 hk .eq hr

/-- On the document `1` the filter `a = b` holds. -/
example : valuesHold demoExt .eq (some (.lit .integer [49])) (some (.lit .integer [49])) = true := by decide +kernel

example : ∃ df, transform demoComp 0 [.cmp .eq (.field ⟨0, [[97]]⟩) (.field ⟨0, [[98]]⟩)] = .ok df ∧ ∀ m, Ready df m →
    ∃ m', run demoFns df m [49] = .ok (some (valuesHold demoExt .eq (some (.lit .integer [49])) (some (.lit .integer [49]))), m') :=
  C84_scalar demoFns demoComp 0 (by decide)
    ⟨by simp [D.WF, text_1, Tok.isLiteral], [], [], by simp [Token.IsWs], by simp [D.Follows, Token.Follow], rfl⟩

/-- `{"a":[],"b":[]}`: the members are missing for comparisons, so `a = b` is false and `a != b` true. -/
example : member (.obj [] (.cons .string [34, 97, 34] [] [] (.arr [] .nil) [] [] (.cons .string [34, 98, 34] [] [] (.arr [] .nil) [] [] .nil))) [97] = none := by
  decide +kernel

/-- `{"a":1,"a":2,"b":2}`: the last `a` counts. -/
example : member (.obj [] (.cons .string [34, 97, 34] [] [] (.lit .integer [49]) [] [] (.cons .string [34, 97, 34] [] [] (.lit .integer [50]) [] []
    (.cons .string [34, 98, 34] [] [] (.lit .integer [50]) [] [] .nil)))) [97] = some (.lit .integer [50]) := by
  rfl

end Verif.Transform
