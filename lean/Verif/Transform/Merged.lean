import Verif.Transform.InSync
import Verif.Transform.Each

/-!
# Verdict and results of single expressions

The verdict of `Match` says whether one of the merged expressions matched, for everything that compiles.
-/

set_option linter.unusedSectionVars false

namespace Verif.Transform
open Verif.FastVal Verif.Match Verif.Expr
open Verif.Token (D)
open Verif.BinTree (Sh SV K Inv Shaped mergeSh mergeParts)

variable {E : Ext}

/-- The value of merged expressions is the disjunction of their values. -/
theorem evalM_merge {q : Nat → Option Bool} : ∀ (rest : List Sh) (s : Sh) (b : Nat), (∀ j, Spine s rest b j → q j = none) →
    (mergeSh s rest).evalM b q = (mergeParts s rest b).any (fun x => x.1.evalM x.2 q)
  | [], s, b, _ => by simp [mergeSh, mergeParts]
  | s' :: rest, s, b, hq => by
    have hqb : q b = none := hq b (Or.inl rfl)
    simp only [mergeSh, mergeParts, Sh.evalM, hqb, Option.getD_none, List.any_cons]
    rw [evalM_merge rest s' _ (fun j hj => hq j (Or.inr hj))]
    rfl

/-- After a run on a document the roots of all expressions are decided, and the verdict is their disjunction. -/
theorem vRun_merged (X : Fns E) {df : Def E} {s : Sh} {rest : List Sh} {node : Exec E} (hw : df.Laid (mergeSh s rest) node) {r : D} (hr : r.WF) {b : Bool}
    {v : V} (h : vRun X df (newV df) r = .ok (b, v)) :
    ∃ f : Sh × Nat → Bool, b = (mergeParts s rest 0).any f ∧ ∀ x ∈ mergeParts s rest 0, v.bt.data[x.2]? = some (SV.ofBool (f x)) := by
  have hf := BinTree.newState_fresh df.tree (mergeSh s rest).size (by have := hw.len; omega)
  have hs : St df.tree (mergeSh s rest) 0 (newV df).bt (fun _ => none) :=
    ⟨⟨⟨0, hw.shaped⟩, Or.inl rfl, Or.inl (Nat.le_refl 0)⟩, by simp [newV, BinTree.newState], hf.inv (fun _ _ _ => rfl), by simp, by simp⟩
  have hgo := exec_stays (t := df.tree) (N := df.numSlots) (q := node.Safe df.numSlots) X hr node.height node r (mergeSh s rest) 0 (Nat.le_refl _) hw.lies id hr (newV df) _ hs (slotsWF_replicate _)
  rw [vRun, hw.parse] at h
  obtain ⟨a, ha, h⟩ := Res.bind_eq_ok.1 h
  rw [ha] at hgo
  have hgo : Went df.tree df.numSlots (mergeSh s rest) 0 (newV df) a := hgo
  obtain ⟨p, hp⟩ := hgo.st
  obtain ⟨d', q, r1, r2, r3, r4, r5⟩ := BinTree.resolve_spec hw.shaped hw.len hgo.stall hp.len hp.inv
  rw [r1, Res.bind_ok] at h
  obtain ⟨w, hw', h⟩ := Res.bind_eq_ok.1 h
  cases h
  have hsp : ∀ j, Spine s rest 0 j → q j = none := by
    intro j hj
    rcases r3 j with e | ⟨_, _, par, e⟩
    · rw [e]
      cases hpj : p j with
      | none => rfl
      | some w => exact absurd (hp.atoms j (by simp [hpj])) (spine_not_atom rest s 0 j hj)
    · obtain ⟨n, n1, n2⟩ := spine_neor rest s 0 0 j hw.shaped hj
      rw [e] at n1; cases n1; simp at n2
  refine ⟨fun x => x.1.evalM x.2 q, ?_, fun x hx => parts_value rest s 0 r2 r4 hsp x hx⟩
  rw [← evalM_merge rest s 0 hsp]
  simp only [BinTree.isTrue, Res.idx_of_some r2.root, Res.bind_ok] at hw'
  cases hk : K (mergeSh s rest) 0 q with
  | none => exact absurd hk r4
  | some x =>
    rw [hk] at hw'
    rw [BinTree.K_evalM hk]
    cases x <;> exact (Res.ok.inj hw').symm

theorem bucketIds_onto : ∀ (es : List (Expr E)) (ids : List Nat), ids.length = (genExprs es).length → ∀ p ∈ ids,
    ∃ (i : Nat) (e : Expr E), es[i]? = some e ∧ NotConst e ∧ (bucketIds es ids)[i]? = some (p : Int)
  | [], ids, hl, p, hp => by
    have : ids = [] := List.length_eq_zero_iff.1 (by simpa [genExprs] using hl)
    rw [this] at hp; cases hp
  | x :: es, ids, hl, p, hp => by
    have hd : ((x = .tru ∨ x = .fals) ∧ genExprs (x :: es) = genExprs es ∧ ∃ c, bucketIds (x :: es) ids = c :: bucketIds es ids) ∨
        (NotConst x ∧ genExprs (x :: es) = x :: genExprs es ∧
          ∀ p ids', ids = p :: ids' → bucketIds (x :: es) ids = (p : Int) :: bucketIds es ids') := by
      cases x <;> first
        | exact Or.inl ⟨Or.inl rfl, rfl, _, rfl⟩
        | exact Or.inl ⟨Or.inr rfl, rfl, _, rfl⟩
        | exact Or.inr ⟨⟨by simp, by simp⟩, rfl, fun p ids' h => by rw [h]; rfl⟩
    rcases hd with ⟨_, h1, c, h2⟩ | ⟨hn, h1, h2⟩
    · obtain ⟨i, e, e1, e2, e3⟩ := bucketIds_onto es ids (by rw [hl, h1]) p hp
      exact ⟨i + 1, e, by simpa using e1, e2, by rw [h2]; simpa using e3⟩
    · cases ids with
      | nil => cases hp
      | cons p0 ids =>
        rcases List.mem_cons.1 hp with rfl | hp
        · exact ⟨0, x, rfl, hn, by rw [h2 p ids rfl]; rfl⟩
        · obtain ⟨i, e, e1, e2, e3⟩ := bucketIds_onto es ids (by rw [h1] at hl; simpa using hl) p hp
          exact ⟨i + 1, e, by simpa using e1, e2, by rw [h2 p0 ids rfl]; simpa using e3⟩

/-- **C96.**  Whatever the expressions: if `Match` on a document returns a verdict, then afterwards every question whether an expression that is not
constant matched has an answer, and the verdict is true if and only if one of the answers is. -/
theorem C96_some (X : Fns E) (C : Comp E) (slot0 : Nat) {es : List (Expr E)} {df : Def E} (h : transform C slot0 es = .ok df) {d : D}
    {data : List Nat} (hb : Begins data d) {m : M} (hm : Ready df m) {b : Bool} {n : M} (hrun : run X df m data = .ok (some b, n)) :
    (∀ (i : Nat) (e : Expr E), es[i]? = some e → NotConst e → ∃ y, expressionMatched df n i = .ok y) ∧
      (b = true ↔ ∃ (i : Nat) (e : Expr E), es[i]? = some e ∧ NotConst e ∧ expressionMatched df n i = .ok true) := by
  cases hes : genExprs es with
  | nil =>
    rw [run_noParse X (transform_nil C slot0 hes h) hb hm] at hrun
    cases hrun
  | cons g gs =>
    obtain ⟨node, hl, _⟩ := transform_laid C slot0 hes h
    rcases run_document X hl hb hm with ⟨b', v, n', e1, e2, e3, _⟩ | ⟨_, e2, _⟩
    · rw [e2] at hrun; cases hrun
      obtain ⟨f, f1, f2⟩ := vRun_merged X hl hb.wf e1
      rw [← e3] at f2
      have hbk : df.buckets = bucketIds es ((mergeParts (shape g) (gs.map shape) 0).map Prod.snd) := by
        have h' := h
        rw [transform_cons C slot0 es hes] at h'
        obtain ⟨r, hr, h'⟩ := Res.bind_eq_ok.1 h'
        cases h'
        have := (tMerge_grown C g gs (initT slot0) r 0 (initT_start slot0) hr).2
        exact congrArg (bucketIds es) this
      have hlen : ((mergeParts (shape g) (gs.map shape) 0).map Prod.snd).length = (genExprs es).length := by
        rw [hes, List.length_map, mergeParts_length]; simp
      have ask : ∀ (i : Nat) (x : Sh × Nat), x ∈ mergeParts (shape g) (gs.map shape) 0 → df.buckets[i]? = some (x.2 : Int) →
          expressionMatched df n i = .ok (f x) := by
        intro i x hx hi
        simp only [expressionMatched, Res.idx_of_some hi, Res.bind_ok, BinTree.isResolved, BinTree.isTrue, Int.toNat_natCast,
          Res.idx_of_some (f2 x hx)]
        rw [if_neg (by omega)]
        cases f x <;> rfl
      have part : ∀ (i : Nat) (e : Expr E), es[i]? = some e → NotConst e →
          ∃ x ∈ mergeParts (shape g) (gs.map shape) 0, df.buckets[i]? = some (x.2 : Int) := by
        intro i e hi hn
        obtain ⟨j, p, _, j2, j3⟩ := (bucketIds_at es _ hlen i e hi).2.2 hn
        rw [← hbk] at j3
        obtain ⟨x, hx, rfl⟩ := List.mem_map.1 (List.mem_of_getElem? j2)
        exact ⟨x, hx, j3⟩
      refine ⟨fun i e hi hn => ?_, ?_⟩
      · obtain ⟨x, hx, hxi⟩ := part i e hi hn
        exact ⟨_, ask i x hx hxi⟩
      · rw [f1, List.any_eq_true]
        constructor
        · rintro ⟨x, hx, hfx⟩
          obtain ⟨i, e, i1, i2, i3⟩ := bucketIds_onto es _ hlen x.2 (List.mem_map.2 ⟨x, hx, rfl⟩)
          rw [← hbk] at i3
          exact ⟨i, e, i1, i2, by rw [ask i x hx i3, hfx]⟩
        · rintro ⟨i, e, i1, i2, i3⟩
          obtain ⟨x, hx, hxi⟩ := part i e i1 i2
          rw [ask i x hx hxi] at i3
          exact ⟨x, hx, Res.ok.inj i3⟩
    · rw [e2] at hrun; cases hrun

/-- Two expressions with loops in loops and loops that wait for fields, on `{"a":[{"a":1,"b":2},{"a":1,"b":1}]}`. -/
example : ∃ df, transform demoComp 0 demoDeep = .ok df ∧ ∃ b n, run demoFns df (newMatcher df) textPairs = .ok (some b, n) ∧
    (b = true ↔ expressionMatched df n 0 = .ok true ∨ expressionMatched df n 1 = .ok true) := by
  obtain ⟨df, h⟩ := demoDeep_compiles
  have hn0 : NotConst demoNested := by simp [NotConst, demoNested]
  have hn1 : NotConst (.loop .every 1 fieldA (.cmp .eq (.field ⟨1, []⟩) fieldB) : Expr demoExt) := by simp [NotConst]
  obtain ⟨b, n, e⟩ := C95_verdict demoFns demoComp 0 h (e := demoNested) (by
    intro e he
    simp only [demoDeep, List.mem_cons, List.not_mem_nil, or_false] at he
    rcases he with rfl | rfl <;> simp [demoNested, SafeE, SafeEs, SafeParam, fieldA, fieldB]) (by simp [demoDeep]) hn0 docPairs_text (ready_new df)
  refine ⟨df, h, b, n, e, (C96_some demoFns demoComp 0 h docPairs_text (ready_new df) e).2.trans ⟨?_, ?_⟩⟩
  · rintro ⟨i, x, hi, _, hx⟩
    match i, hi with
    | 0, _ => exact Or.inl hx
    | 1, _ => exact Or.inr hx
  · rintro (hx | hx)
    · exact ⟨0, _, rfl, hn0, hx⟩
    · exact ⟨1, _, rfl, hn1, hx⟩

end Verif.Transform
