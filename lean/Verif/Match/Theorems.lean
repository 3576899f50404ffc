import Verif.Match.Layout

/-!
# Theorems about the matcher, for arbitrary definitions
-/

namespace Verif.Match
open Verif.Token Verif.FastVal
open Verif.BinTree (Sh)

variable {E : Ext}

/-! ### C27: reuse after `Reset` -/

/-- What a caller sees of `Match`: verdict or error (`none`), and then `ExpressionMatched` for each expression. -/
def observe (X : Fns E) (df : Def E) (m : M) (data : List Nat) : Res (Option Bool × (Nat → Res Bool)) :=
  run X df m data >>= fun r => .ok (r.1, fun i => expressionMatched df r.2 i)

/-- A matcher that was used in any way (any documents, well-formed or not, any number of calls) and then reset behaves
like a new one. -/
theorem C27_reset_new (X : Fns E) (df : Def E) {m : M} (h : Used X df m) (data : List Nat) :
    observe X df (resetMatcher m) data = observe X df (newMatcher df) data := by
  have := run_reset X df h data
  unfold observe
  cases h1 : run X df (resetMatcher m) data <;> cases h2 : run X df (newMatcher df) data <;> rw [h1, h2] at this <;>
    first | exact this.elim | rfl | skip
  rename_i a b
  obtain ⟨o, m1⟩ := a
  obtain ⟨o', m2⟩ := b
  obtain ⟨e1, e2, _⟩ := this
  simp only at e1 e2
  subst e1 e2
  rfl

/-- The flag returned by `MatchWithStatus` is not reset: it stays set once any comparison collated. -/
theorem C27_status_sticky (X : Fns E) (df : Def E) {m : M} (h : Used X df m) (data : List Nat) {o c m'}
    (hr : runWithStatus X df (newMatcher df) data = .ok (o, c, m')) :
    ∃ m'', runWithStatus X df (resetMatcher m) data = .ok (o, m.coll || c, m'') := by
  have := run_reset X df h data
  unfold runWithStatus at hr ⊢
  cases h1 : run X df (resetMatcher m) data <;> cases h2 : run X df (newMatcher df) data <;> rw [h1, h2] at this <;>
    first | exact this.elim | skip
  · rename_i a b
    obtain ⟨o1, m1⟩ := a
    obtain ⟨o2, m2⟩ := b
    obtain ⟨e1, e2, _⟩ := this
    simp only at e1 e2
    subst e1 e2
    rw [h2] at hr
    cases hr
    exact ⟨_, rfl⟩
  · rw [h2] at hr; cases hr
  · rw [h2] at hr; cases hr

/-! ### Demonstration definitions -/

/-- `$doc.a = 1` -/
def demoEq : Def demoExt where
  parse := some (.mk 0 (.cons [97] (.mk 0 .nil [⟨0, .equals, none, some (.val ⟨.int 1#64, true⟩)⟩] .nil .none) .nil) [] .nil .none)
  tree := [⟨.leaf, 0, 0, 0⟩]
  buckets := [0]
  numSlots := 0

def demoFns : Fns demoExt := ⟨fun _ x => x, fun _ x _ => x, (0 : Int), (180 : Int), (3 : Int), fun _ => none⟩

/-- The text `{"a":1}`. -/
def demoDoc : List Nat := [123, 34, 97, 34, 58, 49, 125]

/-- `C27_reset_new` after a match on a document with an error. -/
example : observe demoFns demoEq (resetMatcher (newMatcher demoEq)) demoDoc = observe demoFns demoEq (newMatcher demoEq) demoDoc :=
  C27_reset_new demoFns demoEq .new _

theorem demo_run : run demoFns demoEq (newMatcher demoEq) demoDoc =
    .ok (some true, { tk := ⟨demoDoc, 6⟩, slots := [], bt := ⟨[.tt], 0⟩, coll := false }) := by decide

/-! ### C38: documents that are not well-formed -/

/-- C38 as stated is false: `{"a" 1}` crashes the matcher of `$doc.a = 1` (fastMatcher.go:372-375 panics when the token after
a key is not a colon). -/
theorem C38_negation : ¬ ∀ (E : Ext) (X : Fns E) (df : Def E) (s : Sh) (node : Exec E), df.WF s node → node.Safe df.numSlots →
    ∀ data, run X df (newMatcher df) data ≠ .panic := by
  intro h
  refine h demoExt demoFns demoEq .leaf _ ⟨rfl, ?_, rfl, ?_⟩ ?_ [123, 34, 97, 34, 32, 49, 125] (by decide)
  · exact rfl
  · simp [Exec.Fits, Elems.Fits, Loops.Fits, After.Fits, IsAtom]
  · simp [Exec.Safe, Elems.Safe, Loops.Safe, After.Safe, Op.Safe, Ref.Safe]

/-- C38 for texts of JSON documents: `Match` returns a verdict.  (Missing: for other byte sequences it can crash, see
`C38_negation`.) -/
theorem C38_documents_partial (X : Fns E) {df : Def E} {s : Sh} {node : Exec E} (hw : df.WF s node) (hsafe : node.Safe df.numSlots)
    {data : List Nat} {r : D} (hr : Begins data r) {m : M} (hm : Used X df m) :
    ∃ b m', run X df (resetMatcher m) data = .ok (some b, m') := by
  obtain ⟨b, m', h, _⟩ := run_total X hw hsafe hr (ready_reset X hm)
  exact ⟨b, m', h⟩

/-! ### C24: layout -/

/-- Texts of documents that differ in whitespace and in spellings of keys only get the same verdict, for definitions whose comparisons have a
constant (neither array nor object) on one side. -/
theorem C24_layout (X : Fns E) {df : Def E} {s : Sh} {node : Exec E} (hw : df.WF s node) (hsafe : node.Safe df.numSlots)
    (hone : node.OneSided) {data data' : List Nat} {r r' : D} (hr : Begins data r) (hr' : Begins data' r') (hs : r.Same r')
    {m m' : M} (hm : Used X df m) (hm' : Used X df m') :
    ∃ b m1 m2, run X df (resetMatcher m) data = .ok (some b, m1) ∧ run X df (resetMatcher m') data' = .ok (some b, m2) := by
  obtain ⟨b, m1, h1, e1⟩ := run_total X hw hsafe hr (ready_reset X hm)
  obtain ⟨b', m2, h2, e2⟩ := run_total X hw hsafe hr' (ready_reset X hm')
  rw [verdict_sim X hs s hone] at e1
  rw [e1] at e2
  cases e2
  exact ⟨b, m1, m2, h1, h2⟩

theorem demoEq_wf : demoEq.WF .leaf (.mk 0 (.cons [97] (.mk 0 .nil [⟨0, .equals, none, some (.val ⟨.int 1#64, true⟩)⟩] .nil .none)
    .nil) [] .nil .none) := by
  refine ⟨rfl, rfl, rfl, ?_⟩
  simp [Exec.Fits, Elems.Fits, Loops.Fits, After.Fits, IsAtom]

/-- `{"a":1}` and `{ "a" : 1 }`. -/
example : ∃ b m1 m2, run demoFns demoEq (resetMatcher (newMatcher demoEq)) demoDoc = .ok (some b, m1) ∧
    run demoFns demoEq (resetMatcher (newMatcher demoEq)) [123, 32, 34, 97, 34, 32, 58, 32, 49, 32, 125] = .ok (some b, m2) := by
  have hk : TokText .string [34, 97, 34] := .string (b := [97]) (.plain (by decide) (by decide) (by decide) .nil)
  have h1 : TokText .integer [49] := .integer (Or.inl (Or.inr ⟨49, [], rfl, by decide, by intro c hc; cases hc⟩))
  refine C24_layout demoFns demoEq_wf ?_ ?_ (r := .obj [] (.cons .string [34, 97, 34] [] [] (.lit .integer [49]) [] [] .nil))
    (r' := .obj [32] (.cons .string [34, 97, 34] [32] [32] (.lit .integer [49]) [32] [] .nil)) ?_ ?_ ?_ .new .new
  · simp [Exec.Safe, Elems.Safe, Loops.Safe, After.Safe, Op.Safe, Ref.Safe]
  · refine ⟨⟨⟨trivial, ?_, trivial, trivial⟩, trivial⟩, by simp, trivial, trivial⟩
    simp [Op.OneSided, Scalar, Data.ty]
  · exact ⟨by simp [D.WF, Ms.WF, IsWs, hk, h1, Tok.isLiteral], [], [], by simp [IsWs], trivial, rfl⟩
  · exact ⟨by simp [D.WF, Ms.WF, IsWs, hk, h1, Tok.isLiteral], [], [], by simp [IsWs], trivial, rfl⟩
  · simp [D.Same, Ms.Same, SameKey]

/-- `$doc.a = $doc.b` -/
def demoTwo : Def demoExt where
  parse := some (.mk 0 (.cons [97] (.mk 1 .nil [] .nil .none) (.cons [98] (.mk 2 .nil [] .nil .none) .nil)) [] .nil
    (.some [⟨0, .equals, some (.slot 1), some (.slot 2)⟩] .nil))
  tree := [⟨.leaf, 0, 0, 0⟩]
  buckets := [0]
  numSlots := 2

/-- Without the restriction C24 is false: `{"a":[1],"b":[1]}` matches `$doc.a = $doc.b`, `{"a":[1],"b":[ 1]}` does not. -/
theorem C24_negation :
    (run demoFns demoTwo (newMatcher demoTwo)
      [123, 34, 97, 34, 58, 91, 49, 93, 44, 34, 98, 34, 58, 91, 49, 93, 125] >>= fun r => Res.ok r.1) = .ok (some true) ∧
    (run demoFns demoTwo (newMatcher demoTwo)
      [123, 34, 97, 34, 58, 91, 49, 93, 44, 34, 98, 34, 58, 91, 32, 49, 93, 125] >>= fun r => Res.ok r.1) = .ok (some false) := by
  decide +kernel

end Verif.Match
