import Verif.Transform.ElementAny
import Verif.Transform.ReachPairs

/-!
# C85 for two members of the element
-/

namespace Verif.Transform
open Verif.FastVal Verif.Match Verif.Expr
open Verif.Token (D Es Ms Tok)

variable {E : Ext}

/-! ### Specification -/

/-- The last value of the member `k` in the elements, empty arrays not counted. -/
def latest (k : List Nat) (ys : List D) : Option D := ((ys.flatMap (walk [k])).filter solid).getLast?

/-- Whether a comparison of two values that may be missing holds; `!=` is the negation of `=`. -/
def membersHold (E : Ext) (c : Cmp) (u v : Option D) : Bool := if c = .ne then !valuesHold E .eq u v else valuesHold E c u v

/-- Whether `k` compares with `k'` in the elements, one after the other: an element that lacks a member has the one of the last element
before it that has it.  The elements `before` have been seen.  Nothing holds of an empty array. -/
def pairVals (E : Ext) (c : Cmp) (k k' : List Nat) : List D → List D → List Bool
  | _, [] => []
  | before, y :: ys =>
    (solid y && membersHold E c (latest k (before ++ [y])) (latest k' (before ++ [y]))) :: pairVals E c k k' (before ++ [y]) ys

/-! ### Proof -/

theorem lastOf_or (o : Option D) (l : List D) : lastOf o l = l.getLast?.or o := by
  rcases List.eq_nil_or_concat l with rfl | ⟨l', x, rfl⟩
  · cases o <;> rfl
  · rw [List.concat_eq_append, lastOf_append, lastOf_one, List.getLast?_append]; rfl

theorem latest_concat (k : List Nat) (ys : List D) (y : D) : latest k (ys ++ [y]) = lastOf (latest k ys) ((walk [k] y).filter solid) := by
  rw [lastOf_or, latest, latest, List.flatMap_append, List.filter_append, List.getLast?_append]
  simp

theorem elemVals_pair (X : Fns E) (C : Comp E) (c : Cmp) {w : Int} {k k' : List Nat} (hk : k ≠ k') : ∀ (ys before : List D) (g : Env),
    g [k] = latest k before → g [k'] = latest k' before →
    elemVals X C (.cmp c (.field ⟨w, [k]⟩) (.field ⟨w, [k']⟩)) g ys = pairVals E c k k' before ys
  | [], _, _, _, _ => rfl
  | y :: ys, before, g, h1, h2 => by
    have hreb : rebase (.cmp c (.field ⟨w, [k]⟩) (.field ⟨w, [k']⟩) : Expr E) = .cmp c (.field ⟨0, [k]⟩) (.field ⟨0, [k']⟩) := by simp [rebase]
    have hs : several (.field ⟨0, [k]⟩) (.field ⟨0, [k']⟩ : Expr E) = true := by
      simp only [several, paths, List.singleton_append, List.any_cons, List.any_nil, Bool.or_false, decide_eq_true_eq]
      intro h; cases h; exact hk rfl
    have hb : base (.field ⟨0, [k]⟩) (.field ⟨0, [k']⟩ : Expr E) = [] := by
      simp [base, baseOf, paths, common, hk]
    have hc : mConds (.cmp c (.field ⟨0, [k]⟩) (.field ⟨0, [k']⟩) : Expr E) = [([k], false), ([k'], false)] := by simp [mConds, hs, paths]
    have hno : ∀ q, (q, true) ∉ [([k], false), ([k'], false)] := by simp
    have hsee : ∀ q old, seeing [([k], false), ([k'], false)] g y [q] = lastOf old ((walk [q] y).filter solid) ∨ g [q] ≠ old := by
      intro q old
      by_cases ho : g [q] = old
      · refine Or.inl ?_
        rw [seeing, ho, reach_visible _ _ hno]
        simp only [List.map, visible_flat]
      · exact Or.inr ho
    have e1 : seeing [([k], false), ([k'], false)] g y [k] = latest k (before ++ [y]) := by
      rw [latest_concat]; exact (hsee k _).resolve_right (fun h => h h1)
    have e2 : seeing [([k], false), ([k'], false)] g y [k'] = latest k' (before ++ [y]) := by
      rw [latest_concat]; exact (hsee k' _).resolve_right (fun h => h h2)
    have hm : ∀ c', multiHolds X C c' (.field ⟨0, [k]⟩ : Expr E) (.field ⟨0, [k']⟩) (seeing [([k], false), ([k'], false)] g y) =
        valuesHold E c' (latest k (before ++ [y])) (latest k' (before ++ [y])) := by
      intro c'
      simp only [multiHolds, isGone, mVal, e1, e2]
      rcases latest k (before ++ [y]) with _ | u <;> rcases latest k' (before ++ [y]) with _ | v <;>
        simp [valuesHold, fieldVal]
      rcases valOf (E := E) u with a | _ | _ <;> rcases valOf (E := E) v with b | _ | _ <;> rfl
    have henv : envElem [([k], false), ([k'], false)] g [] y = seeing [([k], false), ([k'], false)] g y := by
      funext p; simp [envElem, belowP]
    rw [elemVals, pairVals, hreb, hc, elemVals_pair X C c hk ys (before ++ [y]) _ e1 e2]
    congr 1
    rw [lsemR, if_pos hs, multiElem, hb, reachA_solid [] y hno, walk, membersHold]
    cases hso : solid y with
    | false => by_cases hne : c = .ne <;> simp [List.filter, hso, hne, kNot]
    | true =>
      by_cases hne : c = .ne
      · simp [List.filter, hso, hne, kNot, henv, hm]
      · simp [List.filter, hso, hne, henv, hm]

/-- A loop that compares two members of the element, on every document. -/
theorem C85_members (X : Fns E) (C : Comp E) (slot0 : Nat) (m : Mode) {w : Int} (hw : w ≠ 0) (a : Path) {k k' : List Nat} (hk : k ≠ k') (c : Cmp)
    {data : List Nat} {r : D} (hr : Begins data r) :
    ∃ df, transform C slot0 [.loop m w (.field ⟨0, a⟩) (.cmp c (.field ⟨w, [k]⟩) (.field ⟨w, [k']⟩))] = .ok df ∧ ∀ mt, Ready df mt →
      ∃ mt', run X df mt data = .ok (some (match firstArr (walk a r) with
        | some ys => Mode.holds m id (pairVals E c k k' [] ys)
        | none => decide (c = .ne)), mt') := by
  have hp1 : ¬ [k] <+: [k'] := fun h => hk (List.cons_prefix_cons.1 h).1
  have hp2 : ¬ [k'] <+: [k] := fun h => hk (List.cons_prefix_cons.1 h).1.symm
  have hs : several (.field ⟨0, [k]⟩) (.field ⟨0, [k']⟩ : Expr E) = true := by
    simp only [several, paths, List.singleton_append, List.any_cons, List.any_nil, Bool.or_false, decide_eq_true_eq]
    intro h; cases h; exact hk rfl
  obtain ⟨df, t1, t2⟩ := C85_verdict X C slot0 (es := [.loop m w (.field ⟨0, a⟩) (.cmp c (.field ⟨w, [k]⟩) (.field ⟨w, [k']⟩))])
    (g := .loop m w (.field ⟨0, a⟩) (.cmp c (.field ⟨w, [k]⟩) (.field ⟨w, [k']⟩))) (gs := []) rfl
    (fun x hx => by
      rw [List.mem_singleton.1 hx, EFrag]
      refine ⟨rfl, hw, by simp [Expr.Plain], ?_, fun f hf => ?_⟩
      · have hreb : rebase (.cmp c (.field ⟨w, [k]⟩) (.field ⟨w, [k']⟩) : Expr E) = .cmp c (.field ⟨0, [k]⟩) (.field ⟨0, [k']⟩) := by simp [rebase]
        rw [hreb, Frag2, if_pos hs]; exact ⟨rfl, rfl, loose_two hp1 hp2⟩
      · cases hf with
        | cmpL hf => cases hf; rfl
        | cmpR hf => cases hf; rfl)
    (fun x hx => by rw [List.mem_singleton.1 hx]; simp [SafeE, SafeParam]) hr
  refine ⟨df, t1, fun mt hmt => ?_⟩
  obtain ⟨mt', t3⟩ := t2 mt hmt
  refine ⟨mt', ?_⟩
  rw [t3]
  have hco : condsOf [.loop m w (.field ⟨0, a⟩ : Expr E) (.cmp c (.field ⟨w, [k]⟩) (.field ⟨w, [k']⟩))] = [(a, true)] := by
    simp [condsOf, conds, inPath]
  have hreg : RegularAt [(a, true)] r := by
    refine ⟨fun q hq => by simp at hq, fun q hq => by simp at hq, fun q hq k q' b hk => ?_⟩
    simp only [List.mem_singleton, Prod.mk.injEq, and_true] at hq
    subst hq
    simp only [List.mem_singleton, Prod.mk.injEq] at hk
    have := congrArg List.length hk.1
    simp at this
  simp only [List.any_cons, List.any_nil, Bool.or_false, etopR, hco, inPath]
  rw [C83_regular a r hreg (by simp)]
  cases firstArr (walk a r) with
  | none => simp [blank]
  | some ys => simp [loopVal, elemVals_pair X C c hk ys [] (fun _ => none) rfl rfl]

/-- The hypotheses, on `{"a":[{"a":1,"b":2},{"a":1,"b":1}]}`. -/
example : ∃ df, transform demoComp 0 [.loop .any 1 fieldA (.cmp .eq (.field ⟨1, [[97]]⟩) (.field ⟨1, [[98]]⟩))] = .ok df ∧ ∀ mt, Ready df mt →
    ∃ mt', run demoFns df mt textPairs = .ok (some (match firstArr (walk [[97]] docPairs) with
      | some ys => Mode.holds .any id (pairVals demoExt .eq [97] [98] [] ys)
      | none => decide (Cmp.eq = .ne)), mt') :=
  C85_members demoFns demoComp 0 .any (by decide) [[97]] (by decide) .eq docPairs_text

/-- If every element has both members, the elements do not influence each other. -/
theorem C85_complete (c : Cmp) (k k' : List Nat) : ∀ (ys before : List D), (∀ y ∈ ys, latest k [y] ≠ none ∧ latest k' [y] ≠ none) →
    pairVals E c k k' before ys = ys.map (fun y => solid y && membersHold E c (latest k [y]) (latest k' [y]))
  | [], _, _ => rfl
  | y :: ys, before, h => by
    have aux : ∀ q, latest q [y] ≠ none → latest q (before ++ [y]) = latest q [y] := by
      intro q hq
      have h0 := latest_concat q [] y
      rw [List.nil_append] at h0
      rw [latest_concat, h0, lastOf_or, lastOf_or]
      rw [h0, lastOf_or] at hq
      cases hl : ((walk [q] y).filter solid).getLast? with
      | none => rw [hl] at hq; exact absurd rfl hq
      | some u => rfl
    rw [pairVals, List.map_cons, aux k (h y (by simp)).1, aux k' (h y (by simp)).2,
      C85_complete c k k' ys _ (fun y hy => h y (List.mem_cons_of_mem _ hy))]

/-- The members of the second element, `{"a":1,"b":1}`. -/
example : latest [97] [docAB1] ≠ none ∧ latest [98] [docAB1] ≠ none := by decide

/-- The first element has only `k` and the second only `k'`: they are compared as if they were one. -/
theorem C85_stale (X : Fns E) (C : Comp E) (slot0 : Nat) {w : Int} (hw : w ≠ 0) (a : Path) {k k' : List Nat} (hk : k ≠ k')
    {data : List Nat} {r : D} (hr : Begins data r) {ws : List Nat} {es : Es} {y z u v : D} (ha : walk a r = [.arr ws es]) (he : esList es = [y, z])
    (hy : walk [k] y = [u]) (hy' : walk [k'] y = []) (hz : walk [k] z = []) (hz' : walk [k'] z = [v]) (hu : solid u = true) (hv : solid v = true) :
    ∃ df, transform C slot0 [.loop .any w (.field ⟨0, a⟩) (.cmp .eq (.field ⟨w, [k]⟩) (.field ⟨w, [k']⟩))] = .ok df ∧ ∀ mt, Ready df mt →
      ∃ mt', run X df mt data = .ok (some (valuesHold E .eq (some u) (some v)), mt') := by
  obtain ⟨df, t1, t2⟩ := C85_members X C slot0 .any hw a hk .eq hr
  refine ⟨df, t1, fun mt hmt => ?_⟩
  obtain ⟨mt', t3⟩ := t2 mt hmt
  refine ⟨mt', ?_⟩
  have hsz : solid z = true := by
    cases z with
    | arr ws xs => cases xs with
      | nil => simp [walk, elemsAt] at hz'
      | cons => rfl
    | _ => rfl
  rw [t3, ha]
  simp [firstArr, he, pairVals, latest, hy, hy', hz, hz', hu, hv, hsz, membersHold, valuesHold, Mode.holds, List.filter]

/-- `{"a":[{"a":1},{"b":1}]}` -/
def docSplit : D := .obj [] (.cons .string [34, 97, 34] [] [] (.arr [] (.cons
  (.obj [] (.cons .string [34, 97, 34] [] [] (.lit .integer [49]) [] [] .nil)) [] []
  (.cons (.obj [] (.cons .string [34, 98, 34] [] [] (.lit .integer [49]) [] [] .nil)) [] [] .nil))) [] [] .nil)

def textSplit : List Nat := [123, 34, 97, 34, 58, 91, 123, 34, 97, 34, 58, 49, 125, 44, 123, 34, 98, 34, 58, 49, 125, 93, 125]

theorem docSplit_text : Begins textSplit docSplit :=
  ⟨by simp [docSplit, D.WF, Ms.WF, Es.WF, Token.IsWs, text_a, text_b, text_1, Tok.isLiteral], [], [], by simp [Token.IsWs], trivial, rfl⟩

/-- `ANY x IN a SATISFIES x.a = x.b` matches this document, of which no element has both members. -/
example : ∃ df, transform demoComp 0 [.loop .any 1 fieldA (.cmp .eq (.field ⟨1, [[97]]⟩) (.field ⟨1, [[98]]⟩))] = .ok df ∧ ∀ m, Ready df m →
    ∃ m', run demoFns df m textSplit = .ok (some true, m') := by
  obtain ⟨df, h1, h2⟩ := C85_stale demoFns demoComp 0 (w := 1) (by decide) [[97]] (k := [97]) (k' := [98]) (by decide) docSplit_text rfl rfl rfl rfl rfl rfl rfl rfl
  refine ⟨df, h1, fun m hm => ?_⟩
  obtain ⟨m', h⟩ := h2 m hm
  exact ⟨m', by rw [h]; exact congrArg (fun b => Res.ok (some b, m')) (by decide +kernel)⟩

/-- On documents whose elements have the compared fields it is what C34 says: one element at a time. -/
theorem C85_regular (X : Fns E) (C : Comp E) (slot0 : Nat) {es : List (Expr E)} {g : Expr E} {gs : List (Expr E)} (hg : genExprs es = g :: gs)
    (h : ∀ x ∈ g :: gs, EFrag C x) (hsafe : ∀ x ∈ g :: gs, SafeE x) {data : List Nat} {r : D} (hr : Begins data r) (hreg : Regular5 (g :: gs) r) :
    (g :: gs).any (fun x => etopR X C (condsOf (g :: gs)) x r) = (g :: gs).any (fun x => etop X C x r) := by
  obtain ⟨df, h1, h2⟩ := C85_verdict X C slot0 hg h hsafe hr
  obtain ⟨df', h1', h2'⟩ := C34_elements_partial X C slot0 hg h hsafe hr hreg
  rw [h1] at h1'
  cases h1'
  obtain ⟨m1, e1⟩ := h2 _ (ready_new df)
  obtain ⟨m2, e2⟩ := h2' _ (ready_new df)
  rw [e1] at e2
  have := (Prod.mk.inj (Res.ok.inj e2)).1
  exact Option.some.inj this

/-- The hypotheses, on `{"a":[{"a":1,"b":2},{"a":1,"b":1}]}`. -/
example : [Expr.not (.loop .every 1 fieldA bodyAB)].any (fun x => etopR demoFns demoComp (condsOf [.not (.loop .every 1 fieldA bodyAB)]) x docPairs) =
    [Expr.not (.loop .every 1 fieldA bodyAB)].any (fun x => etop demoFns demoComp x docPairs) :=
  C85_regular demoFns demoComp 0 (es := [.not (.loop .every 1 fieldA bodyAB)]) rfl
    (fun x hx => by rw [List.mem_singleton.1 hx]; exact ⟨rfl, bodyAB_body⟩)
    (fun x hx => by rw [List.mem_singleton.1 hx]; simp [SafeE, SafeEs, SafeParam, one, bodyAB]) docPairs_text
    ⟨(fun ty t h => by cases h), regular_of_check (by decide +kernel), fun x hx => by
      rw [List.mem_singleton.1 hx]
      intro z hz y hy
      have hz : z ∈ walk [[97]] docPairs := hz
      simp only [docPairs, walk] at hz
      have hz := List.mem_singleton.1 hz
      subst hz
      simp only [elements, esList, List.mem_cons, List.not_mem_nil, or_false] at hy
      rcases hy with rfl | rfl
      · exact bodyAB_whole (by decide +kernel) (by decide +kernel) (by decide +kernel) rfl
      · exact bodyAB_whole (by decide +kernel) (by decide +kernel) (by decide +kernel) rfl⟩

/-- The hypotheses of `C85_verdict`: a loop whose body compares two members and one with a constant. -/
example : ∃ df, transform demoComp 0 [.loop .every 1 fieldA bodyAB] = .ok df ∧ ∀ m, Ready df m →
    ∃ m', run demoFns df m textSplit = .ok (some ([.loop .every 1 fieldA bodyAB].any
      (fun x => etopR demoFns demoComp (condsOf [.loop .every 1 fieldA bodyAB]) x docSplit)), m') :=
  C85_verdict demoFns demoComp 0 rfl (fun x hx => by rw [List.mem_singleton.1 hx]; exact ⟨rfl, bodyAB_body⟩)
    (fun x hx => by rw [List.mem_singleton.1 hx]; simp [SafeE, SafeEs, SafeParam, bodyAB, one]) docSplit_text

end Verif.Transform
