import Verif.Transform.ReachPairs
import Verif.Transform.RootedWhole

/-!
# C84 for loops that refer to the document
-/

namespace Verif.Transform
open Verif.FastVal Verif.Match Verif.Expr
open Verif.Token (D Es Ms Tok)

variable {E : Ext}

/-! ### Specification -/

/-- What a loop over the member `k` runs over, if it refers to the document: the last array, or the document itself if there is no such
member. -/
def loopedOver (r : D) (k : List Nat) : Option (List D) :=
  if solid r then
    match (member r k).getD r with
    | .arr _ es => some (esList es)
    | _ => none
  else none

/-- Whether a comparison of an element with the value of a member holds: never for an empty array, and only `!=` if there is no member. -/
def elemHolds (E : Ext) (c : Cmp) (v : Option D) (x : D) : Bool :=
  solid x && (if v.isNone then decide (c = .ne) else valuesHold E c (some x) v)

/-! ### Proof -/

theorem rHolds_elem (X : Fns E) (C : Comp E) (env : Env) (c : Cmp) {w : Int} (hw : w ≠ 0) (q : Path) (x : D) :
    rHolds X C env c (.field ⟨w, []⟩) (.field ⟨0, q⟩) x = if (env q).isNone then decide (c = .ne) else valuesHold E c (some x) (env q) := by
  have aux : ∀ b : Option D, (if (false || b.isNone) = true then decide (c = .ne)
      else match (valOf (E := E) x >>= fun v => (.ok v : Res (FV E)) >>= fun a => fieldVal (E := E) b >>= fun b => .ok (cmpHolds c a b) : Res Bool) with
        | .ok b => b
        | _ => false) = if b.isNone then decide (c = .ne) else valuesHold E c (some x) b := by
    intro b
    rcases b with _ | y
    · rfl
    simp only [fieldVal, valuesHold, Option.isNone_some, Bool.or_self, Bool.false_eq_true, if_false]
    rcases valOf (E := E) x with v | _ | _ <;> rcases valOf (E := E) y with w | _ | _ <;> rfl
  unfold rHolds
  simp only [rGone, rVal, hw, decide_false, Bool.false_and, if_false, decide_true, Bool.true_and, if_true]
  exact aux _

theorem noticed_elem (x : D) : noticed [([], false)] x = solid x := by
  unfold noticed solid
  split
  · rfl
  · rfl
  · rename_i h _
    split
    · exact (h _ rfl).elim
    · rfl

/-- A loop over a member that compares the elements with another member, on every document. -/
theorem C84_loop_members (X : Fns E) (C : Comp E) (slot0 : Nat) (m : Mode) {w : Int} (hw : w ≠ 0) {k k' : List Nat} (hk : k ≠ k') (c : Cmp)
    {data : List Nat} {r : D} (hr : Begins data r) :
    ∃ df, transform C slot0 [.loop m w (.field ⟨0, [k]⟩) (.cmp c (.field ⟨w, []⟩) (.field ⟨0, [k']⟩))] = .ok df ∧ ∀ a, Ready df a →
      ∃ a', run X df a data = .ok (some (match loopedOver r k with
        | some l => Mode.holds m (elemHolds E c (member r k')) l
        | none => decide (c = .ne)), a') := by
  have hrp : rPaths (.cmp c (.field ⟨w, []⟩) (.field ⟨0, [k']⟩) : Expr E) = [[k']] := by simp [rPaths, rootPaths, hw]
  have hrt : rooted (.cmp c (.field ⟨w, []⟩) (.field ⟨0, [k']⟩) : Expr E) = true := by simp [rooted, hrp]
  have hvp : vPath (.field ⟨w, []⟩ : Expr E) (.field ⟨0, [k']⟩) = [] := by simp [vPath, varPath, hw]
  have hb : loopBase (.field ⟨0, [k]⟩) (.cmp c (.field ⟨w, []⟩) (.field ⟨0, [k']⟩) : Expr E) = [] := by
    simp [loopBase, hrp, inPath, fieldPath, baseOf, common, hk]
  have hp1 : ¬ [k] <+: [k'] := fun h => hk (List.cons_prefix_cons.1 h).1
  have hp2 : ¬ [k'] <+: [k] := fun h => hk (List.cons_prefix_cons.1 h).1.symm
  obtain ⟨df, t1, t2⟩ := C84_verdict X (C := C) (slot0 := slot0)
    (es := [.loop m w (.field ⟨0, [k]⟩) (.cmp c (.field ⟨w, []⟩) (.field ⟨0, [k']⟩))])
    (g := .loop m w (.field ⟨0, [k]⟩) (.cmp c (.field ⟨w, []⟩) (.field ⟨0, [k']⟩))) (gs := []) rfl
    (fun x hx => by
      rw [List.mem_singleton.1 hx, Frag2, if_pos hrt, hrp]
      refine ⟨rfl, hw, by simp [Expr.Plain], ?_, loose_two hp1 hp2⟩
      rw [RFrag, hvp]
      exact ⟨Or.inr rfl, Or.inl rfl⟩)
    (fun x hx => by rw [List.mem_singleton.1 hx]; simp [SafeE, SafeParam]) hr
  refine ⟨df, t1, fun a ha => ?_⟩
  obtain ⟨a', h3⟩ := t2 a ha
  refine ⟨a', ?_⟩
  rw [h3]
  have hc : mCondsOf [.loop m w (.field ⟨0, [k]⟩) (.cmp c (.field ⟨w, []⟩) (.field ⟨0, [k']⟩) : Expr E)] = [([k], false), ([k'], false)] := by
    simp [mCondsOf, mConds, hrt, hrp, inPath, fieldPath]
  have hno : ∀ q, (q, true) ∉ [([k], false), ([k'], false)] := by simp
  simp only [List.any_cons, List.any_nil, Bool.or_false, top2R, hrt, if_true, hc, rootedTopR, hb, belowP, blank]
  rw [reachA_solid [] r hno, walk]
  cases hso : solid r with
  | false => simp [List.filter, hso, decideAt, loopedOver]
  | true =>
    have henv : ∀ q, fieldsAt r [] (seeing [([k], false), ([k'], false)] (fun _ => none) r) [q] = member r q := by
      intro q
      simp only [fieldsAt, seeing, List.length_nil, List.drop]
      rw [lastOf_getLast, reach_visible _ _ hno]
      simp only [List.map, visible_flat, member]
    have hel : ∀ x, decide (rsemR X C (fieldsAt r [] (seeing [([k], false), ([k'], false)] (fun _ => none) r)) (rConds (.cmp c (.field ⟨w, []⟩) (.field ⟨0, [k']⟩) : Expr E))
        (.cmp c (.field ⟨w, []⟩) (.field ⟨0, [k']⟩)) x = some true) = elemHolds E c (member r k') x := by
      intro x
      rw [rsemR, hvp, rConds, hvp]
      simp only [reach, Bool.false_or, noticed_elem, elemHolds]
      cases hx : solid x with
      | false => simp
      | true => simp [rHolds_elem X C _ c hw, henv]
    simp only [List.filter, hso, decideAt, Option.or_none, rootedLoopR, inPath, fieldPath, henv, loopedOver, if_true, hel]
    cases h : (member r k).getD r <;> simp

/-- The hypotheses, on `{"a":[1],"b":1}`. -/
example : ∃ df, transform demoComp 0 [.loop .any 1 fieldA (.cmp .eq elemV fieldB)] = .ok df ∧ ∀ a, Ready df a →
    ∃ a', run demoFns df a textL1 = .ok (some (match loopedOver docL1 [97] with
      | some l => Mode.holds .any (elemHolds demoExt .eq (member docL1 [98])) l
      | none => decide (Cmp.eq = .ne)), a') :=
  C84_loop_members demoFns demoComp 0 .any (by decide) (by decide) .eq docL1_text

example : loopedOver docL1 [97] = some [.lit .integer [49]] := rfl

/-- On an array the loop runs over the document. -/
example : loopedOver (.arr [] (.cons (.lit .integer [49]) [] [] .nil)) [97] = some [.lit .integer [49]] := rfl

/-- The hypotheses of `C84_verdict` with loops that refer to the document. -/
example : ∃ df, transform demoComp 0 demoRooted = .ok df ∧ ∀ m, Ready df m →
    ∃ m', run demoFns df m textL1 = .ok (some (demoRooted.any (fun x => top2R demoFns demoComp (mCondsOf demoRooted) x docL1)), m') :=
  C84_verdict demoFns rfl (fun x hx => (demoRooted_frag x hx).1) (fun x hx => (demoRooted_frag x hx).2.1) docL1_text

/-! ### Fields of another value -/

/-- `ANY v IN q.a SATISFIES v = q.b` matches `{"q":{"b":1},"q":{"a":[1]}}`, in which no `q` has both fields: the loop is tried at the second
`q`, which sees the `b` of the first.  It does not match `{"q":{"a":[1]},"q":{"b":1}}`: at the first `q` the loop runs and is decided,
without `b`. -/
theorem C84_fields_remain :
    verdictOf (.loop .any 1 (.field ⟨0, [[113], [97]]⟩) (.cmp .eq elemV (.field ⟨0, [[113], [98]]⟩)))
      [123, 34, 113, 34, 58, 123, 34, 98, 34, 58, 49, 125, 44, 34, 113, 34, 58, 123, 34, 97, 34, 58, 91, 49, 93, 125, 125] = .ok (some true) ∧
    verdictOf (.loop .any 1 (.field ⟨0, [[113], [97]]⟩) (.cmp .eq elemV (.field ⟨0, [[113], [98]]⟩)))
      [123, 34, 113, 34, 58, 123, 34, 97, 34, 58, 91, 49, 93, 125, 44, 34, 113, 34, 58, 123, 34, 98, 34, 58, 49, 125, 125] = .ok (some false) := by
  decide +kernel

end Verif.Transform
