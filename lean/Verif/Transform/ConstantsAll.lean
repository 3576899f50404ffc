import Verif.Transform.Constants
import Verif.Transform.ReachPairs

/-!
# Constants among the expressions of a matcher, on any document (C82)
-/

namespace Verif.Transform
open Verif.FastVal Verif.Expr Verif.Match
open Verif.Token (D)

variable {E : Ext}

theorem genExprs_again (es : List (Expr E)) : genExprs (es.filter fun e => (constant e).isNone) = genExprs es := by
  rw [genExprs_filter, genExprs_filter, List.filter_filter]; simp

/-- Whatever the expressions are, the matcher compiled from them decides every text, document or not, as the matcher compiled from the
expressions without the constants: it is compiled if that one is, and only the table of buckets differs. -/
theorem C82_same_matcher (C : Comp E) (slot0 : Nat) (es : List (Expr E)) {df : Def E} (h : transform C slot0 es = .ok df) :
    ∃ df', transform C slot0 (es.filter fun e => (constant e).isNone) = .ok df' ∧
      df'.parse = df.parse ∧ df'.tree = df.tree ∧ df'.numSlots = df.numSlots ∧
      ∀ (X : Fns E) (m : M) (data : List Nat), run X df' m data = run X df m data := by
  have same : ∀ df' : Def E, df'.parse = df.parse → df'.tree = df.tree → df'.numSlots = df.numSlots →
      ∀ (X : Fns E) (m : M) (data : List Nat), run X df' m data = run X df m data := by
    intro df' h1 h2 h3 X m data
    obtain ⟨a, b, c, n⟩ := df
    obtain ⟨a', b', c', n'⟩ := df'
    cases h1; cases h2; cases h3
    rfl
  rw [transform] at h ⊢
  rw [genExprs_again]
  cases hg : genExprs es with
  | nil =>
    rw [hg] at h
    cases h
    exact ⟨_, rfl, rfl, rfl, rfl, same _ rfl rfl rfl⟩
  | cons g gs =>
    rw [hg] at h
    simp only at h ⊢
    obtain ⟨r, h1, h⟩ := Res.bind_eq_ok.1 h
    obtain ⟨ok, h2, h⟩ := Res.bind_eq_ok.1 h
    rw [h1, Res.bind_ok, h2, Res.bind_ok]
    cases ok with
    | false => cases h
    | true =>
      rw [if_pos rfl] at h ⊢
      split at h
      · cases h
      · rename_i hl
        cases h
        rw [if_neg hl]
        exact ⟨_, rfl, rfl, rfl, rfl, same _ rfl rfl rfl⟩

/-- The hypothesis, for `TRUE` and `b = 1`: the text `{` as well. -/
example : ∃ df df', transform demoComp 0 demoConst = .ok df ∧ transform demoComp 0 [.cmp .eq fieldB one] = .ok df' ∧
    run demoFns df' (newMatcher df) [123] = run demoFns df (newMatcher df) [123] := by
  obtain ⟨df, h, _⟩ := C82_ignored_partial demoFns demoComp demoConst demoConst_frag ⟨_, List.mem_cons_of_mem _ (List.mem_cons_self ..), rfl⟩
    docA1_text (regular_of_check (by decide))
  obtain ⟨df', h', _, _, _, hr⟩ := C82_same_matcher demoComp 0 demoConst h
  exact ⟨df, df', h, h', hr _ _ _⟩

/-- The verdict on any document, for expressions without loops, one of which is no constant: that of the others. -/
theorem C82_anywhere (X : Fns E) (C : Comp E) (es : List (Expr E)) (hf : ∀ e ∈ es, constant e = none → Frag2 C e ∧ SafeE e ∧ LoopFree e)
    (hn : ∃ e ∈ es, constant e = none) {data : List Nat} {d : D} (hd : Begins data d) :
    ∃ df, transform C 0 es = .ok df ∧ ∀ m, Ready df m →
      ∃ m', run X df m data = .ok (some ((es.filter fun e => (constant e).isNone).any
        (truth2On X C (pathsOf2 (es.filter fun e => (constant e).isNone)) d)), m') := by
  obtain ⟨e0, he0, hc0⟩ := hn
  cases hg : genExprs es with
  | nil =>
    rw [genExprs_filter, List.filter_eq_nil_iff] at hg
    exact absurd (by simp [hc0]) (hg e0 he0)
  | cons g gs =>
    have hgf := hg
    rw [genExprs_filter] at hgf
    have hm : ∀ x ∈ g :: gs, Frag2 C x ∧ SafeE x ∧ LoopFree x := by
      intro x hx
      rw [← hgf, List.mem_filter] at hx
      exact hf x hx.1 (by simpa using hx.2)
    rw [hgf]
    exact C84_loopFree X hg (fun x hx => (hm x hx).1) (fun x hx => (hm x hx).2.2) (fun x hx => (hm x hx).2.1) hd

/-- `TRUE` and `a exists`, on `{"a":[]}`: rejected. -/
example : ∃ df, transform demoComp 0 [.tru, .exist fieldA] = .ok df ∧ ∀ m, Ready df m → ∃ m', run demoFns df m textAE = .ok (some false, m') := by
  obtain ⟨df, h1, h2⟩ := C82_anywhere demoFns demoComp [.tru, .exist fieldA] (by
      intro x hx hc
      rcases List.mem_cons.1 hx with rfl | hx
      · cases hc
      · rcases List.mem_singleton.1 hx with rfl
        simp [Frag2, Frag, Param, condPath, fieldPath, fieldA, SafeE, SafeParam, LoopFree])
    ⟨_, List.mem_cons_of_mem _ (List.mem_cons_self ..), rfl⟩ docAE_text
  refine ⟨df, h1, fun m hm => ?_⟩
  obtain ⟨m', h⟩ := h2 m hm
  refine ⟨m', ?_⟩
  rw [h]
  have : ((([.tru, .exist fieldA] : List (Expr demoExt)).filter fun e => (constant e).isNone).any
        (truth2On demoFns demoComp (pathsOf2 (([.tru, .exist fieldA] : List (Expr demoExt)).filter fun e => (constant e).isNone)) docAE)) = false := by
    decide +kernel
  rw [this]

end Verif.Transform
