import Verif.Transform.Whole

/-!
# Theorems about compiled expressions
-/

namespace Verif.Transform
open Verif.FastVal Verif.Match Verif.Expr
open Verif.Token (D Es Ms Tok TokText IsWs)
open Verif.BinTree (Sh UnOp BinOp mergeSh mergeParts Shaped)

variable {E : Ext}

/-! ### C07: the decision tree -/

/-- Whatever list of expressions is compiled: the decision tree has the Boolean structure of the expressions, joined by `neor`,
and passes `Validate`. -/
theorem C07_tree (C : Comp E) (slot0 : Nat) (es : List (Expr E)) {g : Expr E} {gs : List (Expr E)} (hg : genExprs es = g :: gs) {df : Def E}
    (h : transform C slot0 es = .ok df) :
    Shaped df.tree (mergeSh (shape g) (gs.map shape)) 0 0 ∧ df.tree.length = (mergeSh (shape g) (gs.map shape)).size ∧
      BinTree.validate df.tree = .ok true := by
  rw [transform_cons C slot0 es hg] at h
  obtain ⟨r, hr, h⟩ := Res.bind_eq_ok.1 h
  cases h
  have hG := (tMerge_grown C g gs (initT slot0) r 0 (initT_start slot0) hr).1
  have hlen : r.1.tree.length = (mergeSh (shape g) (gs.map shape)).size := by have := hG.len; simpa [initT] using this
  exact ⟨hG.shaped, hlen, validate_shaped hG.shaped hlen⟩

/-- The panics of `Transform` after merging (transform.go:636-646) do not occur: if it panics, then while merging. -/
theorem C07_no_validation_panic (C : Comp E) (slot0 : Nat) (es : List (Expr E)) {g : Expr E} {gs : List (Expr E)}
    (hg : genExprs es = g :: gs) : transform C slot0 es = .panic ↔ tMerge C (g :: gs) (initT slot0) = .panic := by
  rw [transform_cons C slot0 es hg]
  cases tMerge C (g :: gs) (initT slot0) <;> simp [Bind.bind, Res.bind]

theorem bucketIds_at : ∀ (es : List (Expr E)) (ids : List Nat), ids.length = (genExprs es).length → ∀ (i : Nat) (e : Expr E),
    es[i]? = some e → (e = .tru → (bucketIds es ids)[i]? = some (-1)) ∧ (e = .fals → (bucketIds es ids)[i]? = some (-2)) ∧
      (NotConst e → ∃ j p : Nat, (genExprs es)[j]? = some e ∧ ids[j]? = some p ∧ (bucketIds es ids)[i]? = some (p : Int))
  | [], _, _, i, e, h => by simp at h
  | x :: es, ids, hl, i, e, h => by
    have hd : (x = .tru ∧ genExprs (x :: es) = genExprs es ∧ bucketIds (x :: es) ids = -1 :: bucketIds es ids) ∨
        (x = .fals ∧ genExprs (x :: es) = genExprs es ∧ bucketIds (x :: es) ids = -2 :: bucketIds es ids) ∨
        (NotConst x ∧ genExprs (x :: es) = x :: genExprs es ∧
          ∀ p ids', ids = p :: ids' → bucketIds (x :: es) ids = (p : Int) :: bucketIds es ids') := by
      cases x <;> first
        | exact Or.inl ⟨rfl, rfl, rfl⟩
        | exact Or.inr (Or.inl ⟨rfl, rfl, rfl⟩)
        | exact Or.inr (Or.inr ⟨by simp [NotConst], rfl, fun p ids' h => by rw [h]; rfl⟩)
    rcases hd with ⟨hx, h1, h2⟩ | ⟨hx, h1, h2⟩ | ⟨hx, h1, h2⟩
    · rw [h1] at hl ⊢
      rw [h2]
      cases i with
      | zero =>
        simp only [List.getElem?_cons_zero, Option.some.injEq] at h ⊢
        subst h
        exact ⟨fun _ => by trivial, fun h => by (rw [hx] at h; cases h), fun h => absurd hx h.1⟩
      | succ i => simpa using bucketIds_at es ids hl i e (by simpa using h)
    · rw [h1] at hl ⊢
      rw [h2]
      cases i with
      | zero =>
        simp only [List.getElem?_cons_zero, Option.some.injEq] at h ⊢
        subst h
        exact ⟨fun h => by (rw [hx] at h; cases h), fun _ => by trivial, fun h => absurd hx h.2⟩
      | succ i => simpa using bucketIds_at es ids hl i e (by simpa using h)
    · rw [h1] at hl ⊢
      match ids, hl with
      | p :: ids', hl =>
        rw [h2 p ids' rfl]
        cases i with
        | zero =>
          simp only [List.getElem?_cons_zero, Option.some.injEq] at h
          subst h
          exact ⟨fun h => absurd h hx.1, fun h => absurd h hx.2, fun _ => ⟨0, p, rfl, rfl, rfl⟩⟩
        | succ i =>
          obtain ⟨a, b, c⟩ := bucketIds_at es ids' (by simpa using hl) i e (by simpa using h)
          refine ⟨by simpa using a, by simpa using b, fun hn => ?_⟩
          obtain ⟨j, q, u, v, w⟩ := c hn
          exact ⟨j + 1, q, by simpa using u, by simpa using v, by simpa using w⟩

theorem mergeParts_at : ∀ (es : List Sh) (s : Sh) (b j : Nat) (x : Sh), (s :: es)[j]? = some x →
    ∃ p, ((mergeParts s es b).map Prod.snd)[j]? = some p ∧ (x, p) ∈ mergeParts s es b
  | [], s, b, 0, x, h => by simp at h; subst h; exact ⟨b, by simp [mergeParts], by simp [mergeParts]⟩
  | [], s, b, j + 1, x, h => by simp at h
  | s' :: es, s, b, 0, x, h => by simp at h; subst h; exact ⟨b + 1, by simp [mergeParts], by simp [mergeParts]⟩
  | s' :: es, s, b, j + 1, x, h => by
    obtain ⟨p, h1, h2⟩ := mergeParts_at es s' (b + 1 + s.size) j x (by simpa using h)
    exact ⟨p, by simpa [mergeParts] using h1, by simp [mergeParts, h2]⟩

theorem mergeParts_length : ∀ (es : List Sh) (s : Sh) (b : Nat), (mergeParts s es b).length = es.length + 1
  | [], s, b => by simp [mergeParts]
  | s' :: es, s, b => by simp [mergeParts, mergeParts_length es s']

/-- The bucket of each expression: markers for the constants, otherwise the position where its structure is in the tree. -/
theorem C07_buckets (C : Comp E) (slot0 : Nat) (es : List (Expr E)) {g : Expr E} {gs : List (Expr E)} (hg : genExprs es = g :: gs) {df : Def E}
    (h : transform C slot0 es = .ok df) {i : Nat} {e : Expr E} (hi : es[i]? = some e) :
    (e = .tru → df.buckets[i]? = some (-1)) ∧ (e = .fals → df.buckets[i]? = some (-2)) ∧
      (NotConst e → ∃ p : Nat, df.buckets[i]? = some (p : Int) ∧ (mergeSh (shape g) (gs.map shape)).SubAt 0 (shape e) p) := by
  rw [transform_cons C slot0 es hg] at h
  obtain ⟨r, hr, h⟩ := Res.bind_eq_ok.1 h
  cases h
  have hids := (tMerge_grown C g gs (initT slot0) r 0 (initT_start slot0) hr).2
  simp only
  have hlen : r.2.length = (genExprs es).length := by
    rw [hids, hg, List.length_map, mergeParts_length]; simp
  obtain ⟨a, b, c⟩ := bucketIds_at es r.2 hlen i e hi
  refine ⟨a, b, fun hn => ?_⟩
  obtain ⟨j, p, h1, h2, h3⟩ := c hn
  refine ⟨p, h3, ?_⟩
  rw [hg] at h1
  have h1' : (shape g :: gs.map shape)[j]? = some (shape e) := by rw [← List.map_cons, List.getElem?_map, h1]; rfl
  obtain ⟨q, k1, k2⟩ := mergeParts_at (gs.map shape) (shape g) 0 j (shape e) h1'
  rw [hids] at h2
  change ((mergeParts (shape g) (gs.map shape) 0).map Prod.snd)[j]? = some p at h2
  rw [k1] at h2
  cases h2
  exact BinTree.mergeParts_sub _ _ 0 _ k2

/-! ### Specification: truth of an expression on a document -/

mutual
  /-- Conditions on missing fields are false, `!=` is the negation of `=`, a loop over something that is not an array is false.
  A constant nested in an expression is false, also `TRUE`: `transformOne` makes a leaf for it that nothing decides (see
  `Verif.Filter.C51_negation`). -/
  def truth (X : Fns E) (C : Comp E) : Expr E → D → Bool
    | .cmp c l r, d => match (walk (condPath l r) d).head? with
      | some x => condHolds X C c l r x
      | none => decide (c = .ne)
    | .exist e, d => (walk (condPath e e) d).head?.isSome
    | .notExist e, d => !(walk (condPath e e) d).head?.isSome
    | .not e, d => !truth X C e d
    | .and es, d => truthAll X C es d
    | .or es, d => truthAny X C es d
    | .loop m _ i s, d => match firstArr (walk (inPath i) d) with
      | some l => Mode.holds m (truth X C s) l
      | none => false
    | _, _ => false
  def truthAll (X : Fns E) (C : Comp E) : Exprs E → D → Bool
    | .nil, _ => true
    | .cons e r, d => truth X C e d && truthAll X C r d
  def truthAny (X : Fns E) (C : Comp E) : Exprs E → D → Bool
    | .nil, _ => false
    | .cons e r, d => truth X C e d || truthAny X C r d
end

mutual
  /-- Without loops. -/
  def LoopFree : Expr E → Prop
    | .not e => LoopFree e
    | .and es => LoopFrees es
    | .or es => LoopFrees es
    | .loop .. => False
    | _ => True
  def LoopFrees : Exprs E → Prop
    | .nil => True
    | .cons e r => LoopFree e ∧ LoopFrees r
end

mutual
  /-- Without negation. -/
  def Positive : Expr E → Prop
    | .cmp c _ _ => c ≠ .ne
    | .notExist _ => False
    | .not _ => False
    | .and es => Positives es
    | .or es => Positives es
    | .loop _ _ _ s => Positive s
    | _ => True
  def Positives : Exprs E → Prop
    | .nil => True
    | .cons e r => Positive e ∧ Positives r
end

mutual
  theorem top_loopFree (X : Fns E) (C : Comp E) : ∀ (e : Expr E) (d : D), LoopFree e → top X C e d = truth X C e d
    | .cmp c l r, d, _ => by rw [top, truth]; cases (walk (condPath l r) d).head? <;> rfl
    | .exist e, d, _ => by rw [top, truth]
    | .notExist e, d, _ => by rw [top, truth]
    | .not e, d, h => by rw [top, truth, top_loopFree X C e d h]
    | .and es, d, h => by rw [top, truth, topAll_loopFree X C es d h]
    | .or es, d, h => by rw [top, truth, topAny_loopFree X C es d h]
    | .loop .., d, h => by simp [LoopFree] at h
    | .tru, d, _ | .fals, d, _ | .value _, d, _ | .regex _, d, _ | .pcre _, d, _ | .time _, d, _ | .field _, d, _
    | .func .., d, _ => by simp [top, truth]
  theorem topAll_loopFree (X : Fns E) (C : Comp E) : ∀ (es : Exprs E) (d : D), LoopFrees es → topAll X C es d = truthAll X C es d
    | .nil, d, _ => rfl
    | .cons e r, d, h => by rw [topAll, truthAll, top_loopFree X C e d h.1, topAll_loopFree X C r d h.2]
  theorem topAny_loopFree (X : Fns E) (C : Comp E) : ∀ (es : Exprs E) (d : D), LoopFrees es → topAny X C es d = truthAny X C es d
    | .nil, d, _ => rfl
    | .cons e r, d, h => by rw [topAny, truthAny, top_loopFree X C e d h.1, topAny_loopFree X C r d h.2]
end

theorem kAnd_some_true (x y : Option Bool) : decide (kAnd x y = some true) = (decide (x = some true) && decide (y = some true)) := by
  rcases x with _ | _ | _ <;> rcases y with _ | _ | _ <;> rfl

theorem kOr_some_true (x y : Option Bool) : decide (kOr x y = some true) = (decide (x = some true) || decide (y = some true)) := by
  rcases x with _ | _ | _ <;> rcases y with _ | _ | _ <;> rfl

mutual
  theorem blank_positive {C : Comp E} : ∀ (e : Expr E) (v : Int), Frag C v e → Positive e → blank e = false
    | .cmp c l r, v, _, h => by rw [blank]; exact decide_eq_false h
    | .exist e, v, _, _ => by rw [blank]
    | .and es, v, hf, h => by rw [blank]; exact blankAll_positive es v hf h
    | .or es, v, hf, h => by rw [blank]; exact blankAny_positive es v hf h
    | .loop m w i s, v, hf, h => by rw [blank]; exact blank_positive s w hf.2.2.2 h
    | .notExist _, v, _, h | .not _, v, _, h => by simp [Positive] at h
    | .tru, v, h, _ | .fals, v, h, _ => by simp [blank]
    | .value _, v, h, _ | .regex _, v, h, _ | .pcre _, v, h, _ | .time _, v, h, _ | .field _, v, h, _
    | .func .., v, h, _ => by simp [Frag] at h
  theorem blankAll_positive {C : Comp E} : ∀ (es : Exprs E) (v : Int), Frags C v es → Positives es → blankAll es = false
    | .nil, v, h, _ => by simp [Frags] at h
    | .cons e .nil, v, hf, h => by rw [blankAll, blank_positive e v hf h.1]; rfl
    | .cons e (.cons e' r), v, hf, h => by rw [blankAll, blank_positive e v hf.1 h.1]; rfl
  theorem blankAny_positive {C : Comp E} : ∀ (es : Exprs E) (v : Int), Frags C v es → Positives es → blankAny es = false
    | .nil, v, h, _ => by simp [Frags] at h
    | .cons e .nil, v, hf, h => by rw [blankAny, blank_positive e v hf h.1]; rfl
    | .cons e (.cons e' r), v, hf, h => by
      rw [blankAny, blank_positive e v hf.1 h.1, blankAny_positive (.cons e' r) v hf.2 h.2]; rfl
end

mutual
  theorem sem_positive (X : Fns E) (C : Comp E) : ∀ (e : Expr E) (v : Int) (d : D), Frag C v e → Positive e →
      decide (sem X C e d = some true) = truth X C e d ∧ top X C e d = truth X C e d
    | .cmp c l r, v, d, _, h => by
      have h' : decide (c = .ne) = false := decide_eq_false h
      rw [sem, top, truth]
      cases (walk (condPath l r) d).head? with
      | none => simp [h']
      | some x => cases hx : condHolds X C c l r x <;> simp [hx]
    | .exist e, v, d, _, _ => by
      rw [sem, top, truth]
      cases (walk (condPath e e) d).head? <;> simp
    | .and es, v, d, hf, h => by rw [sem, top, truth]; exact semAll_positive X C es v d hf h
    | .or es, v, d, hf, h => by rw [sem, top, truth]; exact semAny_positive X C es v d hf h
    | .loop m w i s, v, d, hf, h => by
      rw [sem, top, truth]
      have : (fun x => decide (sem X C s x = some true)) = truth X C s := by
        funext x; exact (sem_positive X C s w x hf.2.2.2 h).1
      rw [this, blank_positive s w hf.2.2.2 h]
      cases firstArr (walk (inPath i) d) with
      | none => simp
      | some l => simp
    | .notExist _, v, d, _, h | .not _, v, d, _, h => by simp [Positive] at h
    | .tru, v, d, h, _ | .fals, v, d, h, _ => by simp [sem, top, truth]
    | .value _, v, d, h, _ | .regex _, v, d, h, _ | .pcre _, v, d, h, _ | .time _, v, d, h, _
    | .field _, v, d, h, _ | .func .., v, d, h, _ => by simp [Frag] at h
  theorem semAll_positive (X : Fns E) (C : Comp E) : ∀ (es : Exprs E) (v : Int) (d : D), Frags C v es → Positives es →
      decide (semAll X C es d = some true) = truthAll X C es d ∧ topAll X C es d = truthAll X C es d
    | .nil, v, d, h, _ => by simp [Frags] at h
    | .cons e .nil, v, d, hf, h => by
      obtain ⟨a, b⟩ := sem_positive X C e v d hf h.1
      rw [semAll, semAll, kAnd_true, topAll, topAll, truthAll, truthAll, a, b]; simp
    | .cons e (.cons e' r), v, d, hf, h => by
      obtain ⟨a, b⟩ := sem_positive X C e v d hf.1 h.1
      obtain ⟨a', b'⟩ := semAll_positive X C (.cons e' r) v d hf.2 h.2
      rw [semAll, kAnd_some_true, topAll, truthAll, a, b, a', b']; simp
  theorem semAny_positive (X : Fns E) (C : Comp E) : ∀ (es : Exprs E) (v : Int) (d : D), Frags C v es → Positives es →
      decide (semAny X C es d = some true) = truthAny X C es d ∧ topAny X C es d = truthAny X C es d
    | .nil, v, d, h, _ => by simp [Frags] at h
    | .cons e .nil, v, d, hf, h => by
      obtain ⟨a, b⟩ := sem_positive X C e v d hf h.1
      rw [semAny, semAny, kOr_false, topAny, topAny, truthAny, truthAny, a, b]; simp
    | .cons e (.cons e' r), v, d, hf, h => by
      obtain ⟨a, b⟩ := sem_positive X C e v d hf.1 h.1
      obtain ⟨a', b'⟩ := semAny_positive X C (.cons e' r) v d hf.2 h.2
      rw [semAny, kOr_some_true, topAny, truthAny, a, b, a', b']; simp
end

mutual
  theorem inner_loopFree : ∀ (e : Expr E) (d : D), LoopFree e → Inner e d
    | .not e, d, h => inner_loopFree e d h
    | .and es, d, h => innerAll_loopFree es d h
    | .or es, d, h => innerAll_loopFree es d h
    | .loop .., d, h => by simp [LoopFree] at h
    | .cmp .., d, _ | .exist _, d, _ | .notExist _, d, _
    | .tru, d, _ | .fals, d, _ | .value _, d, _ | .regex _, d, _ | .pcre _, d, _ | .time _, d, _ | .field _, d, _
    | .func .., d, _ => by simp [Inner]
  theorem innerAll_loopFree : ∀ (es : Exprs E) (d : D), LoopFrees es → InnerAll es d
    | .nil, _, _ => trivial
    | .cons e r, d, h => ⟨inner_loopFree e d h.1, innerAll_loopFree r d h.2⟩
end

/-! ### C22: expressions without loops -/

/-- C22 for documents in which no condition reads an empty array, nor an empty object below which there are other conditions.
(Missing: the other documents, for which it is false, see `C22_negation`; comparisons between two fields.) -/
theorem C22_match_partial (X : Fns E) (C : Comp E) (slot0 : Nat) {es : List (Expr E)} {g : Expr E} {gs : List (Expr E)} (hg : genExprs es = g :: gs)
    (hfrag : ∀ x ∈ g :: gs, Frag C 0 x) (hsafe : ∀ x ∈ g :: gs, SafeE x) (hlf : ∀ x ∈ g :: gs, LoopFree x)
    {data : List Nat} {r : D} (hr : Begins data r) (hreg : RegularAt (condsOf (g :: gs)) r) :
    ∃ df, transform C slot0 es = .ok df ∧ ∀ m, Ready df m →
      ∃ m', run X df m data = .ok (some ((g :: gs).any (fun x => truth X C x r)), m') := by
  obtain ⟨df, h1, h2⟩ := run_top X (slot0 := slot0) hg hfrag hsafe hr ⟨hreg, fun x hx => inner_loopFree x r (hlf x hx)⟩
  refine ⟨df, h1, fun m hm => ?_⟩
  have : (g :: gs).any (fun x => truth X C x r) = (g :: gs).any (fun x => top X C x r) := by
    rw [Bool.eq_iff_iff, List.any_eq_true, List.any_eq_true]
    constructor
    · rintro ⟨x, hx, h⟩; exact ⟨x, hx, by rw [top_loopFree X C x r (hlf x hx)]; exact h⟩
    · rintro ⟨x, hx, h⟩; exact ⟨x, hx, by rw [← top_loopFree X C x r (hlf x hx)]; exact h⟩
  rw [this]
  exact h2 m hm

/-- Checking `RegularAt` by computation (for examples). -/
def regularB (L : List (Path × Bool)) (d : D) : Bool :=
  L.all fun x => (walk x.1 d).all fun v =>
    (if x.2 then
      match v with
      | .arr _ _ => L.all fun y => !(x.1.isPrefixOf y.1 && decide (x.1.length < y.1.length))
      | _ => true
    else
      match v with
      | .arr _ .nil => L.contains (x.1, true)
      | .obj _ .nil => L.all fun y => !(x.1.isPrefixOf y.1 && decide (x.1.length < y.1.length))
      | _ => true)

theorem regular_of_check {L : List (Path × Bool)} {d : D} (h : regularB L d = true) : RegularAt L d := by
  have hpre : ∀ (p : Path) k p', p.isPrefixOf (p ++ k :: p') = true := by
    intro p k p'; exact List.isPrefixOf_iff_prefix.2 ⟨_, rfl⟩
  unfold regularB at h
  rw [List.all_eq_true] at h
  constructor
  · intro p hp x hx he
    have := List.all_eq_true.1 (h _ hp) x hx
    cases x with
    | arr ws es =>
      cases es with
      | nil => simpa [List.contains_iff_mem] using this
      | cons => exact he.elim
    | _ => exact he.elim
  · intro p hp x hx he k p' b hc
    have := List.all_eq_true.1 (h _ hp) x hx
    cases x with
    | obj ws ms =>
      cases ms with
      | nil =>
        simp only [Bool.false_eq_true, if_false] at this
        have := List.all_eq_true.1 this _ hc
        simp [hpre] at this
      | cons => exact he.elim
    | _ => exact he.elim
  · intro q hq k p b hc x hx he
    have := List.all_eq_true.1 (h _ hq) x hx
    cases x with
    | arr ws es =>
      simp only [if_true] at this
      have := List.all_eq_true.1 this _ hc
      simp [hpre] at this
    | _ => exact he.elim

def demoComp : Comp demoExt := ⟨fun _ => some (), fun _ => some ()⟩

/-- `$doc.a` -/
def fieldA : Expr demoExt := .field ⟨0, [[97]]⟩
/-- `$doc.b` -/
def fieldB : Expr demoExt := .field ⟨0, [[98]]⟩
/-- `1` -/
def one : Expr demoExt := .value (.int 1#64)

/-- `a = 1 AND NOT (b EXISTS)`, and `b != 1`. -/
def demoExprs : List (Expr demoExt) := [.and (.cons (.cmp .eq fieldA one) (.cons (.not (.exist fieldB)) .nil)), .cmp .ne fieldB one]

theorem demoExprs_frag : ∀ x ∈ demoExprs, Frag demoComp 0 x ∧ SafeE x ∧ LoopFree x ∧ OneSidedE x := by
  intro x hx
  rcases List.mem_cons.1 hx with rfl | hx
  · simp [Frag, Frags, Param, condPath, fieldPath, fieldA, fieldB, one, SafeE, SafeEs, SafeParam, LoopFree, LoopFrees, OneSidedE, OneSidedEs,
      ScalarConst, Scalar, constOf, newFastVal, Data.ty, Ty.isString]
  · rcases List.mem_singleton.1 hx with rfl
    simp [Frag, Param, condPath, fieldPath, fieldB, one, SafeE, SafeParam, LoopFree, OneSidedE, ScalarConst, Scalar, constOf, newFastVal, Data.ty,
      Ty.isString]

theorem text_a : TokText .string [34, 97, 34] := .string (b := [97]) (.plain (by decide) (by decide) (by decide) .nil)
theorem text_b : TokText .string [34, 98, 34] := .string (b := [98]) (.plain (by decide) (by decide) (by decide) .nil)
theorem text_1 : TokText .integer [49] := .integer (Or.inl (Or.inr ⟨49, [], rfl, by decide, by intro c hc; cases hc⟩))

/-- `{"a":1}` -/
def docA1 : D := .obj [] (.cons .string [34, 97, 34] [] [] (.lit .integer [49]) [] [] .nil)

theorem docA1_exact : IsText demoDoc docA1 :=
  ⟨by simp [docA1, D.WF, Ms.WF, IsWs, text_a, text_1, Tok.isLiteral], [], [], by simp [IsWs], by simp [Token.IsWs], rfl⟩
theorem docA1_text : Begins demoDoc docA1 := docA1_exact.begins

example : ∃ df, transform demoComp 0 demoExprs = .ok df ∧ ∀ m, Ready df m →
    ∃ m', run demoFns df m demoDoc = .ok (some (demoExprs.any (fun x => truth demoFns demoComp x docA1)), m') := by
  refine C22_match_partial demoFns demoComp 0 (es := demoExprs) rfl (fun x hx => (demoExprs_frag x hx).1) (fun x hx => (demoExprs_frag x hx).2.1)
    (fun x hx => (demoExprs_frag x hx).2.2.1) docA1_text (regular_of_check (by decide))

/-- The texts `{"a":[]}`, `{"a":{}}`. -/
def docAE : D := .obj [] (.cons .string [34, 97, 34] [] [] (.arr [] .nil) [] [] .nil)
def textAE : List Nat := [123, 34, 97, 34, 58, 91, 93, 125]

theorem docAE_exact : IsText textAE docAE :=
  ⟨by simp [docAE, D.WF, Ms.WF, Es.WF, IsWs, text_a], [], [], by simp [IsWs], by simp [Token.IsWs], rfl⟩
theorem docAE_text : Begins textAE docAE := docAE_exact.begins

def docAO : D := .obj [] (.cons .string [34, 97, 34] [] [] (.obj [] .nil) [] [] .nil)
def textAO : List Nat := [123, 34, 97, 34, 58, 123, 125, 125]

theorem docAO_text : Begins textAO docAO :=
  ⟨by simp [docAO, D.WF, Ms.WF, IsWs, text_a], [], [], by simp [IsWs], trivial, rfl⟩

/-- Existence test of `a`. -/
def demoExist : Def demoExt where
  parse := some (.mk 0 (.cons [97] (.mk 0 .nil [⟨0, .exists_, none, none⟩] .nil .none) .nil) [] .nil .none)
  tree := [⟨.leaf, 0, 0, 0⟩]
  buckets := [0]
  numSlots := 0

theorem demoExist_compiled : transform demoComp 0 [.exist fieldA] = .ok demoExist := rfl

/-- C22 as stated is false: `a EXISTS` does not match `{"a":[]}` (fastMatcher.go: an array without elements runs no operations of
its node). -/
theorem C22_negation : ¬ ∀ (E : Ext) (X : Fns E) (C : Comp E) (e : Expr E) (df : Def E) (data : List Nat) (r : D),
    Frag C 0 e → SafeE e → LoopFree e → transform C 0 [e] = .ok df → IsText data r →
    ∃ m', run X df (newMatcher df) data = .ok (some (truth X C e r), m') := by
  intro h
  obtain ⟨m', h⟩ := h demoExt demoFns demoComp (.exist fieldA) demoExist textAE docAE (by simp [Frag, Param, condPath, fieldPath, fieldA])
    (by simp [SafeE, SafeParam, fieldA]) (by simp [LoopFree]) demoExist_compiled docAE_exact
  have h1 : (run demoFns demoExist (newMatcher demoExist) textAE >>= fun r => Res.ok r.1) = .ok (some false) := by decide +kernel
  have h2 : truth demoFns demoComp (.exist fieldA) docAE = true := by decide +kernel
  rw [h, h2] at h1
  cases h1

/-! ### C33: existence tests -/

/-- `EXISTS` is true on every present value except the empty array, if it is the whole expression.  (Missing: inside larger
expressions see `C22_match_partial`; the empty array see `C33_negation`.) -/
theorem C33_exists_partial (X : Fns E) (C : Comp E) (slot0 : Nat) (p : Path) {data : List Nat} {r : D} (hr : Begins data r)
    (hne : ∀ x ∈ walk p r, ¬ EmptyArr x) :
    ∃ df, transform C slot0 [.exist (.field ⟨0, p⟩)] = .ok df ∧ ∀ m, Ready df m →
      ∃ m', run X df m data = .ok (some (decide (walk p r ≠ [])), m') := by
  have hp : condPath (.field ⟨0, p⟩) (.field ⟨0, p⟩ : Expr E) = p := by simp [condPath, fieldPath]
  obtain ⟨df, h1, h2⟩ := C22_match_partial X C slot0 (es := [.exist (.field ⟨0, p⟩)]) (g := .exist (.field ⟨0, p⟩)) (gs := []) rfl
    (by simp [Frag, Param, hp]) (by simp [SafeE, SafeParam]) (by simp [LoopFree]) hr
    ⟨by
      intro q hq x hx he
      simp only [condsOf, List.flatMap_cons, List.flatMap_nil, List.append_nil, conds, hp, List.mem_singleton, Prod.mk.injEq, and_true] at hq
      subst hq
      exact absurd he (hne x hx), by
      intro q hq x hx he k p' b hc
      simp only [condsOf, List.flatMap_cons, List.flatMap_nil, List.append_nil, conds, hp, List.mem_singleton, Prod.mk.injEq, and_true] at hq hc
      subst hq
      have := congrArg List.length hc.1
      simp at this, by
      intro q hq
      simp [condsOf, conds] at hq⟩
  refine ⟨df, h1, fun m hm => ?_⟩
  obtain ⟨m', h⟩ := h2 m hm
  refine ⟨m', ?_⟩
  rw [h]
  simp only [List.any_cons, List.any_nil, Bool.or_false, truth, hp]
  cases walk p r <;> simp

/-- The hypotheses on `{"a":1}`. -/
example : ∃ df, transform demoComp 0 [.exist (.field ⟨0, [[97]]⟩)] = .ok df ∧ ∀ m, Ready df m →
    ∃ m', run demoFns df m demoDoc = .ok (some (decide (walk [[97]] docA1 ≠ [])), m') :=
  C33_exists_partial demoFns demoComp 0 [[97]] docA1_text (by
    intro x hx
    have h : walk [[97]] docA1 = [.lit .integer [49]] := by rfl
    rw [h, List.mem_singleton] at hx
    subst hx; exact fun h => h)

/-- `a EXISTS OR a.b = 1` -/
def existOr : Expr demoExt := .or (.cons (.exist fieldA) (.cons (.cmp .eq (.field ⟨0, [[97], [98]]⟩) one) .nil))

/-- C33 as stated is false: for an empty array, and for an empty object if the expression also mentions a field below. -/
theorem C33_negation :
    (run demoFns demoExist (newMatcher demoExist) textAE >>= fun r => Res.ok r.1) = .ok (some false) ∧
    walk [[97]] docAE ≠ [] ∧
    (transform demoComp 0 [existOr] >>= fun df => run demoFns df (newMatcher df) textAO >>= fun r => Res.ok r.1) = .ok (some false) ∧
    (transform demoComp 0 [.exist fieldA] >>= fun df => run demoFns df (newMatcher df) textAO >>= fun r => Res.ok r.1) = .ok (some true) := by
  decide +kernel

/-! ### C23: loops -/

/-- C23: any nesting of loops and conditions; an element satisfies the body if the body's three-valued meaning on it is true.
(Missing: documents where the matcher does not see what it needs, as for C22; bodies that mention outer variables or compare
fields with each other.) -/
theorem C23_loops_partial (X : Fns E) (C : Comp E) (slot0 : Nat) {es : List (Expr E)} {g : Expr E} {gs : List (Expr E)} (hg : genExprs es = g :: gs)
    (hfrag : ∀ x ∈ g :: gs, Frag C 0 x) (hsafe : ∀ x ∈ g :: gs, SafeE x)
    {data : List Nat} {r : D} (hr : Begins data r) (hreg : Regular (g :: gs) r) :
    ∃ df, transform C slot0 es = .ok df ∧ ∀ m, Ready df m →
      ∃ m', run X df m data = .ok (some ((g :: gs).any (fun x => top X C x r)), m') :=
  run_top X hg hfrag hsafe hr hreg

/-- C23 for expressions without negation: the verdict is the truth of the expression. -/
theorem C23_positive_partial (X : Fns E) (C : Comp E) (slot0 : Nat) {es : List (Expr E)} {g : Expr E} {gs : List (Expr E)} (hg : genExprs es = g :: gs)
    (hfrag : ∀ x ∈ g :: gs, Frag C 0 x) (hsafe : ∀ x ∈ g :: gs, SafeE x) (hpos : ∀ x ∈ g :: gs, Positive x)
    {data : List Nat} {r : D} (hr : Begins data r) (hreg : Regular (g :: gs) r) :
    ∃ df, transform C slot0 es = .ok df ∧ ∀ m, Ready df m →
      ∃ m', run X df m data = .ok (some ((g :: gs).any (fun x => truth X C x r)), m') := by
  obtain ⟨df, h1, h2⟩ := run_top X (slot0 := slot0) hg hfrag hsafe hr hreg
  refine ⟨df, h1, fun m hm => ?_⟩
  have : (g :: gs).any (fun x => truth X C x r) = (g :: gs).any (fun x => top X C x r) := by
    have hx : ∀ x ∈ g :: gs, top X C x r = truth X C x r := fun x hx => (sem_positive X C x 0 r (hfrag x hx) (hpos x hx)).2
    rw [Bool.eq_iff_iff, List.any_eq_true, List.any_eq_true]
    constructor
    · rintro ⟨x, h, h'⟩; exact ⟨x, h, by rw [hx x h]; exact h'⟩
    · rintro ⟨x, h, h'⟩; exact ⟨x, h, by rw [← hx x h]; exact h'⟩
  rw [this]
  exact h2 m hm

/-- `any x in a satisfies x.b = 1`, and `every x in b satisfies (any y in x satisfies y = 1)` -/
def demoLoops : List (Expr demoExt) :=
  [.loop .any 1 fieldA (.cmp .eq (.field ⟨1, [[98]]⟩) one),
   .loop .every 1 fieldB (.loop .any 2 (.field ⟨1, []⟩) (.cmp .eq (.field ⟨2, []⟩) one))]

/-- `{"a":[{"b":1}]}` -/
def docLoop : D := .obj [] (.cons .string [34, 97, 34] [] []
  (.arr [] (.cons (.obj [] (.cons .string [34, 98, 34] [] [] (.lit .integer [49]) [] [] .nil)) [] [] .nil)) [] [] .nil)
def textLoop : List Nat := [123, 34, 97, 34, 58, 91, 123, 34, 98, 34, 58, 49, 125, 93, 125]

theorem docLoop_text : Begins textLoop docLoop :=
  ⟨by simp [docLoop, D.WF, Ms.WF, Es.WF, IsWs, text_a, text_b, text_1, Tok.isLiteral], [], [], by simp [IsWs], trivial, rfl⟩

theorem demoLoops_frag : ∀ x ∈ demoLoops, Frag demoComp 0 x ∧ SafeE x ∧ Positive x := by
  intro x hx
  rcases List.mem_cons.1 hx with rfl | hx
  · simp [Frag, Param, condPath, inPath, fieldPath, fieldA, one, SafeE, SafeParam, Positive, Expr.Plain]
  · rcases List.mem_singleton.1 hx with rfl
    simp [Frag, Param, condPath, inPath, fieldPath, fieldB, one, SafeE, SafeParam, Positive, Expr.Plain]

theorem demoLoops_regular : Regular demoLoops docLoop := by
  refine ⟨regular_of_check (by decide +kernel), ?_⟩
  intro x hx
  rcases List.mem_cons.1 hx with rfl | hx
  · have h : walk (inPath fieldA) docLoop =
        [.arr [] (.cons (.obj [] (.cons .string [34, 98, 34] [] [] (.lit .integer [49]) [] [] .nil)) [] [] .nil)] := by rfl
    rw [Inner, h]
    intro x hx y hy
    rw [List.mem_singleton] at hx
    subst hx
    rw [elements, esList, esList, List.mem_singleton] at hy
    subst hy
    exact ⟨regular_of_check (by decide +kernel), by simp [Inner]⟩
  · rcases List.mem_singleton.1 hx with rfl
    have h : walk (inPath fieldB) docLoop = [] := by rfl
    rw [Inner, h]
    intro x hx; cases hx

example : ∃ df, transform demoComp 0 demoLoops = .ok df ∧ ∀ m, Ready df m →
    ∃ m', run demoFns df m textLoop = .ok (some (demoLoops.any (fun x => truth demoFns demoComp x docLoop)), m') :=
  C23_positive_partial demoFns demoComp 0 rfl (fun x hx => (demoLoops_frag x hx).1) (fun x hx => (demoLoops_frag x hx).2.1)
    (fun x hx => (demoLoops_frag x hx).2.2) docLoop_text demoLoops_regular

/-- The first loop of `docLoop` is true. -/
example : demoLoops.map (fun x => truth demoFns demoComp x docLoop) = [true, false] := by decide +kernel

/-- `any x in a satisfies x != 1` on `{"b":1}`: matches although there is no array. -/
def textB1 : List Nat := [123, 34, 98, 34, 58, 49, 125]
def docB1 : D := .obj [] (.cons .string [34, 98, 34] [] [] (.lit .integer [49]) [] [] .nil)

theorem docB1_text : Begins textB1 docB1 :=
  ⟨by simp [docB1, D.WF, Ms.WF, IsWs, text_b, text_1, Tok.isLiteral], [], [], by simp [IsWs], trivial, rfl⟩

/-- With negation the verdict is not the truth of the expression: a loop without an array counts as its body with all fields
missing; and on an element without the field `x.b`, `NOT (x.b = 1)` is undecided instead of true. -/
theorem C23_negation :
    (transform demoComp 0 [.loop .any 1 fieldA (.cmp .ne (.field ⟨1, []⟩) one)] >>= fun df =>
      run demoFns df (newMatcher df) textB1 >>= fun r => Res.ok r.1) = .ok (some true) ∧
    truth demoFns demoComp (.loop .any 1 fieldA (.cmp .ne (.field ⟨1, []⟩) one)) docB1 = false ∧
    (transform demoComp 0 [.loop .any 1 fieldA (.not (.cmp .eq (.field ⟨1, [[97]]⟩) one))] >>= fun df =>
      run demoFns df (newMatcher df) textLoop >>= fun r => Res.ok r.1) = .ok (some false) ∧
    truth demoFns demoComp (.loop .any 1 fieldA (.not (.cmp .eq (.field ⟨1, [[97]]⟩) one))) docLoop = true := by
  decide +kernel

/-! ### C24, C38: at the level of expressions -/

/-- C24 for expressions whose comparisons have a constant that is not an array or object on one side, or match patterns: on any
document (no regularity), the layout of the text does not matter. -/
theorem C24_expressions_partial (X : Fns E) (C : Comp E) (slot0 : Nat) {es : List (Expr E)} {g : Expr E} {gs : List (Expr E)}
    (hg : genExprs es = g :: gs) (hfrag : ∀ x ∈ g :: gs, Frag C 0 x) (hsafe : ∀ x ∈ g :: gs, SafeE x) (hone : ∀ x ∈ g :: gs, OneSidedE x)
    {data data' : List Nat} {r r' : D} (hr : Begins data r) (hr' : Begins data' r') (hs : r.Same r') :
    ∃ df, transform C slot0 es = .ok df ∧ ∀ m m', Used X df m → Used X df m' →
      ∃ b m1 m2, run X df (resetMatcher m) data = .ok (some b, m1) ∧ run X df (resetMatcher m') data' = .ok (some b, m2) := by
  obtain ⟨df, h1, hw, _, _⟩ := transform_frag C slot0 es hg hfrag
  exact ⟨df, h1, fun m m' hm hm' => C24_layout X hw (compiled_safe C _ hfrag hsafe) (compiled_one C hfrag hone) hr hr' hs hm hm'⟩

example : ∃ df, transform demoComp 0 demoExprs = .ok df ∧ ∀ m m', Used demoFns df m → Used demoFns df m' →
    ∃ b m1 m2, run demoFns df (resetMatcher m) demoDoc = .ok (some b, m1) ∧
      run demoFns df (resetMatcher m') [123, 32, 34, 97, 34, 32, 58, 32, 49, 32, 125] = .ok (some b, m2) := by
  refine C24_expressions_partial demoFns demoComp 0 (es := demoExprs) rfl (fun x hx => (demoExprs_frag x hx).1)
    (fun x hx => (demoExprs_frag x hx).2.1) (fun x hx => (demoExprs_frag x hx).2.2.2) docA1_text
    (r' := .obj [32] (.cons .string [34, 97, 34] [32] [32] (.lit .integer [49]) [32] [] .nil)) ?_ ?_
  · exact ⟨by simp [D.WF, Ms.WF, IsWs, text_a, text_1, Tok.isLiteral], [], [], by simp [IsWs], trivial, rfl⟩
  · simp [docA1, D.Same, Ms.Same, Token.SameKey]

/-- C38 for expressions of the fragment and texts of documents: a verdict, however the matcher was used before. -/
theorem C38_expressions_partial (X : Fns E) (C : Comp E) (slot0 : Nat) {es : List (Expr E)} {g : Expr E} {gs : List (Expr E)}
    (hg : genExprs es = g :: gs) (hfrag : ∀ x ∈ g :: gs, Frag C 0 x) (hsafe : ∀ x ∈ g :: gs, SafeE x)
    {data : List Nat} {r : D} (hr : Begins data r) :
    ∃ df, transform C slot0 es = .ok df ∧ ∀ m, Used X df m → ∃ b m', run X df (resetMatcher m) data = .ok (some b, m') := by
  obtain ⟨df, h1, hw, _, _⟩ := transform_frag C slot0 es hg hfrag
  exact ⟨df, h1, fun m hm => C38_documents_partial X hw (compiled_safe C _ hfrag hsafe) hr hm⟩

example : ∃ df, transform demoComp 0 demoLoops = .ok df ∧ ∀ m, Used demoFns df m →
    ∃ b m', run demoFns df (resetMatcher m) textAE = .ok (some b, m') :=
  C38_expressions_partial demoFns demoComp 0 rfl (fun x hx => (demoLoops_frag x hx).1) (fun x hx => (demoLoops_frag x hx).2.1) docAE_text

/-! ### C34: comparing two fields of the element of a loop -/

/-- C34 is false: `any x in a satisfies x.a = x.b` matches `{"a":[{"a":1},{"b":1}]}`; slots keep values of earlier elements. -/
theorem C34_negation :
    (transform demoComp 0 [.loop .any 1 fieldA (.cmp .eq (.field ⟨1, [[97]]⟩) (.field ⟨1, [[98]]⟩))] >>= fun df =>
      run demoFns df (newMatcher df) [123, 34, 97, 34, 58, 91, 123, 34, 97, 34, 58, 49, 125, 44, 123, 34, 98, 34, 58, 49, 125, 93, 125] >>=
      fun r => Res.ok r.1) = .ok (some true) ∧
    (transform demoComp 0 [.loop .any 1 fieldA (.cmp .eq (.field ⟨1, [[97]]⟩) (.field ⟨1, [[98]]⟩))] >>= fun df =>
      run demoFns df (newMatcher df) [123, 34, 97, 34, 58, 91, 123, 34, 97, 34, 58, 49, 125, 93, 125] >>=
      fun r => Res.ok r.1) = .ok (some false) ∧
    (transform demoComp 0 [.loop .any 1 fieldA (.cmp .eq (.field ⟨1, [[97]]⟩) (.field ⟨1, [[98]]⟩))] >>= fun df =>
      run demoFns df (newMatcher df) [123, 34, 97, 34, 58, 91, 123, 34, 98, 34, 58, 49, 125, 93, 125] >>=
      fun r => Res.ok r.1) = .ok (some false) := by
  decide +kernel

/-! ### C32: compilation -/

/-- C32 for the fragment.  (Missing: conditions on several fields, see `C32_negation`.) -/
theorem C32_fragment_partial (C : Comp E) (slot0 : Nat) (es : List (Expr E)) (h : ∀ x ∈ genExprs es, Frag C 0 x) :
    ∃ df, transform C slot0 es = .ok df := by
  cases hg : genExprs es with
  | nil => exact ⟨_, by rw [transform, hg]⟩
  | cons g gs =>
    obtain ⟨df, h1, _⟩ := transform_frag C slot0 es hg (by rw [← hg]; exact h)
    exact ⟨df, h1⟩

example : ∃ df, transform demoComp 0 (demoExprs ++ demoLoops) = .ok df :=
  C32_fragment_partial demoComp 0 _ (by
    intro x hx
    rcases List.mem_append.1 (show x ∈ demoExprs ++ demoLoops from hx) with h | h
    · exact (demoExprs_frag x h).1
    · exact (demoLoops_frag x h).1)

/-- C32 as stated is false: a path compared with a strict prefix of itself (findFieldRefsBestRoot reads past the end of the shorter
path), an outer variable used in an inner loop (getContext reads past the end of the stack), `NOT EXISTS` in a loop
(fetchExprFieldRefs does not know it). -/
theorem C32_negation :
    (transform demoComp 0 [.cmp .eq fieldA (.field ⟨0, [[97], [98]]⟩)] >>= fun _ => Res.ok ()) = .panic ∧
    (transform demoComp 0 [.loop .any 1 fieldA (.loop .any 2 (.field ⟨1, [[98]]⟩) (.cmp .eq (.field ⟨1, [[97]]⟩) one))] >>= fun _ => Res.ok ())
      = .panic ∧
    (transform demoComp 0 [.loop .any 1 fieldA (.notExist (.field ⟨1, [[98]]⟩))] >>= fun _ => Res.ok ()) = .panic := by
  decide +kernel

/-- `C07_tree` and `C07_buckets` on an `AND`, a constant and a loop. -/
example : ∃ df, transform demoComp 0 (demoExprs ++ .tru :: demoLoops) = .ok df ∧ BinTree.validate df.tree = .ok true ∧
    df.buckets[2]? = some (-1) ∧ (∃ p : Nat, df.buckets[3]? = some (p : Int)) := by
  obtain ⟨df, h⟩ := C32_fragment_partial demoComp 0 (demoExprs ++ .tru :: demoLoops) (by
    intro x hx
    rcases List.mem_append.1 (show x ∈ demoExprs ++ demoLoops from hx) with h | h
    · exact (demoExprs_frag x h).1
    · exact (demoLoops_frag x h).1)
  obtain ⟨p, hp, _⟩ := (C07_buckets demoComp 0 _ rfl h (i := 3) rfl).2.2 ⟨by simp, by simp⟩
  exact ⟨df, h, (C07_tree demoComp 0 _ rfl h).2.2, (C07_buckets demoComp 0 _ rfl h (i := 2) rfl).1 rfl, p, hp⟩

end Verif.Transform
