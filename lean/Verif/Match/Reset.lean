import Verif.Match.Refine

/-!
# Reusing a matcher

`Match` never changes the number of slots or the size of the tree state, and never reads `collateUsed`; so after `Reset`
a matcher is as good as new, except that `collateUsed` is still set if it ever was.
-/

namespace Verif.Match
open Verif.Token Verif.FastVal
open Verif.BinTree (Tree State)

variable {E : Ext}

/-! ### Runs side by side -/

/-- Both outcomes are of the same kind, and related if both are results. -/
def RelE {α β : Type} (Q : β → α → Prop) : Res β → Res α → Prop
  | .ok b, .ok a => Q b a
  | .panic, .panic => True
  | .stuck, .stuck => True
  | _, _ => False

theorem RelE.bind {α β α' β' : Type} {Q : β → α → Prop} {Q' : β' → α' → Prop} {x : Res β} {y : Res α}
    {f : β → Res β'} {g : α → Res α'} (h : RelE Q x y) (hf : ∀ b a, Q b a → RelE Q' (f b) (g a)) :
    RelE Q' (x >>= f) (y >>= g) := by
  cases x <;> cases y <;> first | exact hf _ _ h | exact h.elim | trivial

theorem RelE.same {α α' β' : Type} {Q' : β' → α' → Prop} (x : Res α) {f : α → Res β'} {g : α → Res α'}
    (hf : ∀ a, x = .ok a → RelE Q' (f a) (g a)) : RelE Q' (x >>= f) (x >>= g) := by
  cases x <;> first | exact hf _ rfl | trivial

/-- `m` with `collateUsed` already set if `c`. -/
def addC (c : Bool) (m : M) : M := { m with coll := c || m.coll }

/-- Sizes of tree state and slots. -/
def Len (n k : Nat) (m : M) : Prop := m.bt.data.length = n ∧ m.slots.length = k

/-- Same result, same matcher but for `collateUsed`, sizes kept. -/
def QC {α : Type} (c : Bool) (n k : Nat) (a b : α × M) : Prop := a.1 = b.1 ∧ a.2 = addC c b.2 ∧ Len n k b.2

def QC2 {α β : Type} (c : Bool) (n k : Nat) (a b : α × β × M) : Prop := a.1 = b.1 ∧ QC c n k a.2 b.2

def RecC (c : Bool) (n k : Nat) (rec : Rec E) : Prop :=
  ∀ node ty w m, Len n k m → RelE (QC c n k) (rec node ty w (addC c m)) (rec node ty w m)

section
variable {c : Bool} {n k : Nat}

theorem runOps_coll (X : Fns E) (t : Tree) (rd : Nat → Res (FV E)) (lit : Option (FV E)) (ops : List (Op E)) :
    ∀ bt coll, bt.data.length = n →
      RelE (fun a b => a.1 = b.1 ∧ a.2.1 = b.2.1 ∧ a.2.2 = (c || b.2.2) ∧ b.2.1.data.length = n)
        (runOps X t rd lit ops bt (c || coll)) (runOps X t rd lit ops bt coll) := by
  induction ops with
  | nil => intro bt coll h; exact ⟨rfl, rfl, rfl, h⟩
  | cons op ops ih =>
    intro bt coll h
    have hm : RelE (fun a b => a.1 = b.1 ∧ a.2 = (c || b.2) ∧ b.1.data.length = n)
        (matchOp X t rd lit op bt (c || coll)) (matchOp X t rd lit op bt coll) := by
      unfold matchOp
      refine RelE.same _ (fun r _ => ?_)
      cases r with
      | true => exact ⟨rfl, rfl, h⟩
      | false =>
        refine RelE.same _ (fun o _ => ?_)
        refine RelE.same _ (fun bt' hb => ?_)
        exact ⟨rfl, by simp [Bool.or_assoc], by rw [BinTree.markNode_length hb]; exact h⟩
    rw [runOps, runOps]
    refine RelE.bind hm ?_
    rintro ⟨bt1, c1⟩ ⟨bt2, c2⟩ ⟨rfl, h2, h3⟩
    refine RelE.same _ (fun d _ => ?_)
    cases d with
    | true => exact ⟨rfl, rfl, h2, h3⟩
    | false =>
      simp only at h2 ⊢
      subst h2
      exact ih _ _ h3

theorem opsM_coll (X : Fns E) (t : Tree) (lit : Option (FV E)) (ops : List (Op E)) {m : M} (hm : Len n k m) :
    RelE (QC c n k) (opsM X t lit ops (addC c m)) (opsM X t lit ops m) := by
  unfold opsM
  refine RelE.bind (runOps_coll (c := c) X t (literalFromSlot m) lit ops m.bt m.coll hm.1) ?_
  rintro ⟨x, bt, cl⟩ ⟨y, bt', cl'⟩ ⟨h1, h2, h3, h4⟩
  simp only at h1 h2 h3 h4
  subst h1 h2 h3
  exact ⟨rfl, rfl, h4, hm.2⟩

theorem objValue_coll {rec : Rec E} (hrec : RecC c n k rec) (elems : Elems E) (key : List Nat) (ty : Tok) (w : List Nat) {m : M}
    (hm : Len n k m) : RelE (QC c n k) (objValue rec elems key ty w (addC c m)) (objValue rec elems key ty w m) := by
  unfold objValue
  cases elems.find key with
  | some e =>
    refine RelE.bind (hrec e ty w m hm) ?_
    rintro ⟨x, m1⟩ ⟨y, m2⟩ ⟨_, h2, h3⟩
    simp only at h2 h3
    subst h2
    refine RelE.same _ (fun d _ => ?_)
    exact ⟨rfl, rfl, h3⟩
  | none =>
    refine RelE.same _ (fun r _ => ?_)
    exact ⟨rfl, rfl, hm⟩

theorem objItem_coll {rec : Rec E} (hrec : RecC c n k rec) (elems : Elems E) (arr : Bool) (idx : Nat)
    {kk : M → Res (Bool × Bool × M)} (hk : ∀ m, Len n k m → RelE (QC2 c n k) (kk (addC c m)) (kk m)) {m : M} (hm : Len n k m) :
    RelE (QC2 c n k) (objItem rec elems arr idx kk (addC c m)) (objItem rec elems arr idx kk m) := by
  have go : ∀ key ty w (m : M), Len n k m →
      RelE (QC2 c n k) (objValue rec elems key ty w (addC c m) >>= fun r => if r.1 then .ok (false, true, r.2) else kk r.2)
        (objValue rec elems key ty w m >>= fun r => if r.1 then .ok (false, true, r.2) else kk r.2) := by
    intro key ty w m hm
    refine RelE.bind (objValue_coll hrec elems key ty w hm) ?_
    rintro ⟨x, m1⟩ ⟨y, m2⟩ ⟨h1, h2, h3⟩
    simp only at h1 h2 h3
    subst h1 h2
    cases x with
    | true => exact ⟨rfl, rfl, rfl, h3⟩
    | false => exact hk _ h3
  unfold objItem
  simp only [show (addC c m).tk = m.tk from rfl]
  rcases hs : step m.tk with ⟨_ | ⟨ty, w⟩, tk⟩
  · exact ⟨rfl, rfl, rfl, hm⟩
  · simp only
    by_cases he : ty = (if arr then Tok.arrayEnd else .objectEnd)
    · rw [if_pos he, if_pos he]; exact ⟨rfl, rfl, rfl, hm⟩
    · rw [if_neg he, if_neg he]
      refine RelE.same _ (fun key _ => ?_)
      split
      · exact go _ _ _ { m with tk := tk } hm
      · rcases hs1 : step tk with ⟨_ | ⟨ty1, w1⟩, tk1⟩
        · exact ⟨rfl, rfl, rfl, hm⟩
        · simp only
          split
          · trivial
          · rcases hs2 : step tk1 with ⟨_ | ⟨ty2, w2⟩, tk2⟩
            · exact ⟨rfl, rfl, rfl, hm⟩
            · exact go _ _ _ { m with tk := tk2 } hm

theorem objLoop_coll {rec : Rec E} (hrec : RecC c n k rec) (elems : Elems E) (arr : Bool) : ∀ fuel idx (m : M), Len n k m →
    RelE (QC2 c n k) (objLoop rec elems arr fuel idx (addC c m)) (objLoop rec elems arr fuel idx m) := by
  intro fuel
  induction fuel with
  | zero => intro idx m hm; trivial
  | succ fuel ih =>
    intro idx m hm
    rw [objLoop, objLoop]
    simp only [show (addC c m).tk = m.tk from rfl]
    rcases hs : step m.tk with ⟨_ | ⟨ty, w⟩, tk⟩
    · exact ⟨rfl, rfl, rfl, hm⟩
    · simp only
      cases ty <;> first
        | exact objItem_coll hrec elems arr (idx + 1) (ih (idx + 1)) (m := { m with tk := tk }) hm
        | exact ⟨rfl, rfl, rfl, hm⟩
        | trivial

theorem matchObjArr_coll {rec : Rec E} (hrec : RecC c n k rec) (elems : Elems E) (arr : Bool) {m : M} (hm : Len n k m) :
    RelE (QC2 c n k) (matchObjArr rec elems arr (addC c m)) (matchObjArr rec elems arr m) := by
  unfold matchObjArr
  exact objItem_coll hrec elems arr 0 (objLoop_coll hrec elems arr _ 0) hm

theorem resetNode_length {t : Tree} {st st' : State} {i : Nat} (h : BinTree.resetNode t st i = .ok st') :
    st'.data.length = st.data.length := by
  rw [BinTree.resetNode] at h
  obtain ⟨d, h1, h2⟩ := Res.bind_eq_ok.1 h
  cases h2
  exact BinTree.resetNodeRecursive_length _ _ _ _ h1

theorem loopItem_coll {rec : Rec E} (hrec : RecC c n k rec) (t : Tree) (bucket : Nat) (mode : Mode) (node : Exec E)
    {kk : Bool → M → Res (Option Bool × M)} (hk : ∀ st m, Len n k m → RelE (QC c n k) (kk st (addC c m)) (kk st m)) (st : Bool)
    {m : M} (hm : Len n k m) :
    RelE (QC c n k) (loopItem rec t bucket mode node kk st (addC c m)) (loopItem rec t bucket mode node kk st m) := by
  unfold loopItem
  simp only [show (addC c m).tk = m.tk from rfl]
  rcases hs : step m.tk with ⟨_ | ⟨ty, w⟩, tk⟩
  · exact ⟨rfl, rfl, hm⟩
  · simp only
    split
    · exact ⟨rfl, rfl, hm⟩
    · refine RelE.same _ (fun bt hb => ?_)
      have hl := resetNode_length hb
      refine RelE.bind (hrec node ty w { m with tk := tk, bt := bt } ⟨hl.trans hm.1, hm.2⟩) ?_
      rintro ⟨x, m1⟩ ⟨y, m2⟩ ⟨h1, h2, h3⟩
      simp only at h1 h2 h3
      subst h1 h2
      cases x with
      | true => exact ⟨rfl, rfl, h3⟩
      | false =>
        simp only [Bool.false_eq_true, if_false]
        refine RelE.same _ (fun it _ => ?_)
        cases mode.leaves it with
        | some b => refine RelE.same _ (fun l _ => ?_); exact ⟨rfl, rfl, h3⟩
        | none => exact hk _ _ h3

theorem loopLoop_coll {rec : Rec E} (hrec : RecC c n k rec) (t : Tree) (bucket : Nat) (mode : Mode) (node : Exec E) :
    ∀ fuel st (m : M), Len n k m →
      RelE (QC c n k) (loopLoop rec t bucket mode node fuel st (addC c m)) (loopLoop rec t bucket mode node fuel st m) := by
  intro fuel
  induction fuel with
  | zero => intro st m hm; trivial
  | succ fuel ih =>
    intro st m hm
    rw [loopLoop, loopLoop]
    simp only [show (addC c m).tk = m.tk from rfl]
    rcases hs : step m.tk with ⟨_ | ⟨ty, w⟩, tk⟩
    · exact ⟨rfl, rfl, hm⟩
    · simp only
      cases ty <;> first
        | exact loopItem_coll hrec t bucket mode node ih st (m := { m with tk := tk }) hm
        | exact ⟨rfl, rfl, hm⟩
        | trivial

theorem matchLoop_coll {rec : Rec E} (hrec : RecC c n k rec) (t : Tree) (bucket : Nat) (mode : Mode) (node : Exec E) (ty : Tok)
    {m : M} (hm : Len n k m) :
    RelE (QC c n k) (matchLoop rec t bucket mode node ty (addC c m)) (matchLoop rec t bucket mode node ty m) := by
  unfold matchLoop
  split
  · exact ⟨rfl, rfl, hm⟩
  · refine RelE.same _ (fun r _ => ?_)
    cases r with
    | true =>
      refine RelE.same _ (fun l _ => ?_)
      exact ⟨rfl, rfl, hm⟩
    | false =>
      refine RelE.bind (loopItem_coll hrec t bucket mode node (loopLoop_coll hrec t bucket mode node _) mode.init
        (m := { m with bt := (BinTree.setStallIndex m.bt bucket).1 }) hm) ?_
      rintro ⟨x, m1⟩ ⟨y, m2⟩ ⟨h1, h2, h3⟩
      simp only at h1 h2 h3
      subst h1 h2
      cases x with
      | none => exact ⟨rfl, rfl, h3⟩
      | some b =>
        refine RelE.same _ (fun bt hb => ?_)
        refine RelE.same _ (fun bt' hb' => ?_)
        refine ⟨rfl, rfl, ?_, h3.2⟩
        have := BinTree.markNode_length hb'
        have e := resetNode_length hb
        simp only [BinTree.setStallIndex] at this
        rw [this, e]; exact h3.1

theorem afterLoops_coll {rec : Rec E} (hrec : RecC c n k rec) (t : Tree) (loops : Loops E) : ∀ {m : M}, Len n k m →
    RelE (QC c n k) (afterLoops rec t loops (addC c m)) (afterLoops rec t loops m) := by
  match loops with
  | .nil => intro m hm; exact ⟨rfl, rfl, hm⟩
  | .cons bucket mode target node rest =>
    intro m hm
    rw [afterLoops.eq_def, afterLoops.eq_def]
    simp only
    rcases target with _ | (_ | _ | sl | _)
    · trivial
    · trivial
    · trivial
    · simp only
      split
      · trivial
      · refine RelE.same _ (fun p _ => ?_)
        refine RelE.bind (matchLoop_coll hrec t bucket mode node _ (m := { m with tk := (step (seek m.tk p.1)).2 }) hm) ?_
        rintro ⟨x, m1⟩ ⟨y, m2⟩ ⟨h1, h2, h3⟩
        simp only at h1 h2 h3
        subst h1 h2
        cases x with
        | true => exact ⟨rfl, rfl, h3⟩
        | false =>
          simp only [Bool.false_eq_true, if_false]
          refine RelE.same _ (fun d _ => ?_)
          cases d with
          | true => exact ⟨rfl, rfl, h3⟩
          | false => exact afterLoops_coll hrec t rest h3
    · trivial

theorem matchAfter_coll (X : Fns E) {rec : Rec E} (hrec : RecC c n k rec) (t : Tree) (ops : List (Op E)) (loops : Loops E)
    {m : M} (hm : Len n k m) :
    RelE (fun a b => a = addC c b ∧ Len n k b) (matchAfter X rec t ops loops (addC c m)) (matchAfter X rec t ops loops m) := by
  unfold matchAfter
  refine RelE.bind (afterLoops_coll hrec t loops hm) ?_
  rintro ⟨x, m1⟩ ⟨y, m2⟩ ⟨h1, h2, h3⟩
  simp only at h1 h2 h3
  subst h1 h2
  cases x with
  | go =>
    refine RelE.bind (opsM_coll X t none ops h3) ?_
    rintro ⟨x, m1⟩ ⟨y, m2⟩ ⟨h1, h2, h3⟩
    simp only at h1 h2 h3
    subst h1 h2
    cases x with
    | true => exact ⟨rfl, h3⟩
    | false => exact ⟨rfl, h3⟩
  | done => exact ⟨rfl, h3⟩
  | err => exact ⟨rfl, h3⟩

theorem arrayLoops_coll {rec : Rec E} (hrec : RecC c n k rec) (t : Tree) (start : Nat) (loops : Loops E) :
    ∀ first {m : M}, Len n k m →
      RelE (QC c n k) (arrayLoops rec t start loops first (addC c m)) (arrayLoops rec t start loops first m) := by
  match loops with
  | .nil => intro first m hm; exact ⟨rfl, rfl, hm⟩
  | .cons bucket mode target node rest =>
    intro first m hm
    rw [arrayLoops.eq_def, arrayLoops.eq_def]
    simp only
    cases target with
    | some _ => trivial
    | none =>
      simp only
      have h1 : RelE (QC c n k)
          (matchLoop rec t bucket mode node .arrayStart (if first then addC c m else { addC c m with tk := seek m.tk start }))
          (matchLoop rec t bucket mode node .arrayStart (if first then m else { m with tk := seek m.tk start })) := by
        cases first with
        | true => exact matchLoop_coll hrec t bucket mode node _ hm
        | false => exact matchLoop_coll hrec t bucket mode node _ (m := { m with tk := seek m.tk start }) hm
      refine RelE.bind h1 ?_
      rintro ⟨x, m1⟩ ⟨y, m2⟩ ⟨h1, h2, h3⟩
      simp only at h1 h2 h3
      subst h1 h2
      cases x with
      | true => exact ⟨rfl, rfl, h3⟩
      | false =>
        simp only [Bool.false_eq_true, if_false]
        refine RelE.same _ (fun d _ => ?_)
        cases d with
        | true => exact ⟨rfl, rfl, h3⟩
        | false => exact arrayLoops_coll hrec t start rest false h3

theorem finish_coll (X : Fns E) {rec : Rec E} (hrec : RecC c n k rec) (t : Tree) (store : Nat) (after : After E) (p : Nat)
    {m : M} (hm : Len n k m) :
    RelE (QC c n k) (finish X rec t store after p (addC c m)) (finish X rec t store after p m) := by
  have go : ∀ {m : M}, Len n k m → RelE (QC c n k)
      ((fun m : M => if store = 0 then Res.ok (false, m)
        else if store - 1 < m.slots.length then
          Res.ok (false, { m with slots := m.slots.set (store - 1) (p, m.tk.pos - p) })
        else .panic) (addC c m))
      ((fun m : M => if store = 0 then Res.ok (false, m)
        else if store - 1 < m.slots.length then
          Res.ok (false, { m with slots := m.slots.set (store - 1) (p, m.tk.pos - p) })
        else .panic) m) := by
    intro m hm
    simp only [show (addC c m).slots = m.slots from rfl, show (addC c m).tk = m.tk from rfl]
    split
    · exact ⟨rfl, rfl, hm⟩
    · split
      · exact ⟨rfl, rfl, hm.1, by simpa using hm.2⟩
      · trivial
  unfold finish
  cases after with
  | none => exact go hm
  | some ops loops =>
    simp only
    refine RelE.bind (matchAfter_coll X hrec t ops loops hm) ?_
    rintro m1 m2 ⟨rfl, h3⟩
    refine RelE.same _ (fun d _ => ?_)
    cases d with
    | true => exact ⟨rfl, rfl, h3⟩
    | false => exact go h3

theorem opsThen_coll (X : Fns E) {rec : Rec E} (hrec : RecC c n k rec) (t : Tree) (ops : List (Op E)) (v : FV E) (store : Nat)
    (after : After E) (p : Nat) {m : M} (hm : Len n k m) :
    RelE (QC c n k) (opsThen X rec t ops v store after p (addC c m)) (opsThen X rec t ops v store after p m) := by
  unfold opsThen
  refine RelE.bind (opsM_coll X t (some v) ops hm) ?_
  rintro ⟨x, m1⟩ ⟨y, m2⟩ ⟨h1, h2, h3⟩
  simp only at h1 h2 h3
  subst h1 h2
  cases x with
  | true => exact ⟨rfl, rfl, h3⟩
  | false => exact finish_coll X hrec t store after p h3

theorem execObj_coll (X : Fns E) {rec : Rec E} (hrec : RecC c n k rec) (t : Tree) (store : Nat) (elems : Elems E)
    (ops : List (Op E)) (after : After E) (p : Nat) {m : M} (hm : Len n k m) :
    RelE (QC c n k) (execObj X rec t store elems ops after p (addC c m)) (execObj X rec t store elems ops after p m) := by
  unfold execObj
  simp only [show (addC c m).tk = m.tk from rfl]
  split
  · refine RelE.same _ (fun l _ => ?_)
    refine RelE.same _ (fun b _ => ?_)
    exact opsThen_coll X hrec t ops _ store after p (m := { m with tk := l.2 }) hm
  · refine RelE.bind (matchObjArr_coll hrec elems false hm) ?_
    rintro ⟨x, y, m1⟩ ⟨x', y', m2⟩ ⟨h1, h2, h3, h4⟩
    simp only at h1 h2 h3 h4
    subst h1 h2 h3
    have ha : RelE (fun a b => a = addC c b ∧ Len n k b)
        (match x, after with
          | false, .some aops aloops => matchAfter X rec t aops aloops (addC c m2)
          | _, _ => .ok (addC c m2))
        (match x, after with
          | false, .some aops aloops => matchAfter X rec t aops aloops m2
          | _, _ => .ok m2) := by
      cases x with
      | true => exact ⟨rfl, h4⟩
      | false =>
        cases after with
        | none => exact ⟨rfl, h4⟩
        | some aops aloops => exact matchAfter_coll X hrec t aops aloops h4
    refine RelE.bind ha ?_
    rintro m3 m4 ⟨rfl, h5⟩
    cases y with
    | true => exact ⟨rfl, rfl, h5⟩
    | false =>
      simp only [Bool.false_eq_true, if_false]
      refine RelE.same _ (fun d _ => ?_)
      cases d with
      | true => exact ⟨rfl, rfl, h5⟩
      | false =>
        refine RelE.same _ (fun b _ => ?_)
        exact opsThen_coll X hrec t ops _ store after p h5

theorem execArr_coll (X : Fns E) {rec : Rec E} (hrec : RecC c n k rec) (t : Tree) (store : Nat) (elems : Elems E)
    (ops : List (Op E)) (loops : Loops E) (after : After E) (p : Nat) {m : M} (hm : Len n k m) :
    RelE (QC c n k) (execArr X rec t store elems ops loops after p (addC c m)) (execArr X rec t store elems ops loops after p m) := by
  have go : ∀ {m2 : M}, Len n k m2 → RelE (QC c n k)
      (sliceOf m.tk.data (m.tk.pos - 1) (addC c m2).tk.pos >>= fun b => opsThen X rec t ops ⟨.arr b, false⟩ store after p (addC c m2))
      (sliceOf m.tk.data (m.tk.pos - 1) m2.tk.pos >>= fun b => opsThen X rec t ops ⟨.arr b, false⟩ store after p m2) := by
    intro m2 h
    refine RelE.same _ (fun b _ => ?_)
    exact opsThen_coll X hrec t ops _ store after p h
  unfold execArr
  simp only [show (addC c m).tk = m.tk from rfl]
  split
  · refine RelE.bind (matchObjArr_coll hrec elems true hm) ?_
    rintro ⟨x, y, m1⟩ ⟨x', y', m2⟩ ⟨h1, h2, h3, h4⟩
    simp only at h1 h2 h3 h4
    subst h1 h2 h3
    cases y with
    | true => exact ⟨rfl, rfl, h4⟩
    | false => exact go h4
  · refine RelE.bind (arrayLoops_coll hrec t m.tk.pos loops true hm) ?_
    rintro ⟨x, m1⟩ ⟨y, m2⟩ ⟨h1, h2, h3⟩
    simp only at h1 h2 h3
    subst h1 h2
    cases x with
    | go => exact go h3
    | done => exact ⟨rfl, rfl, h3⟩
    | err => exact ⟨rfl, rfl, h3⟩

theorem matchExec_coll (X : Fns E) (t : Tree) (h : Nat) : RecC c n k (matchExec X t h) := by
  induction h with
  | zero => intro node ty w m _; trivial
  | succ h ih =>
    intro node ty w m hm
    rw [matchExec]
    cases node with
    | mk store elems ops loops after =>
      simp only
      split
      · refine RelE.same _ (fun v _ => ?_)
        exact opsThen_coll X ih t ops v store after _ hm
      · cases ty <;> first
          | exact execObj_coll X ih t store elems ops after _ hm
          | exact execArr_coll X ih t store elems ops loops after _ hm
          | trivial

theorem resolve_length {t : Tree} {st st' : State} (h : BinTree.resolve t st = .ok st') : st'.data.length = st.data.length := by
  unfold BinTree.resolve at h
  obtain ⟨b, _, h⟩ := Res.bind_eq_ok.1 h
  cases b with
  | true => cases h; rfl
  | false => exact BinTree.resolveLoop_length _ _ _ h

/-- `Match` does not read `collateUsed`, adds to it, and keeps the sizes. -/
theorem run_coll (X : Fns E) (df : Def E) (data : List Nat) {m : M} (hm : Len n k m) :
    RelE (QC c n k) (run X df (addC c m) data) (run X df m data) := by
  unfold run
  simp only
  split
  · exact ⟨rfl, rfl, hm⟩
  · rcases hs : step (Tkn.mk data 0) with ⟨_ | ⟨ty, w⟩, tk⟩
    · exact ⟨rfl, rfl, hm⟩
    · simp only
      cases df.parse with
      | none => trivial
      | some node =>
        refine RelE.bind (matchExec_coll X df.tree node.height node ty w { m with tk := tk } hm) ?_
        rintro ⟨x, m1⟩ ⟨y, m2⟩ ⟨h1, h2, h3⟩
        simp only at h1 h2 h3
        subst h1 h2
        cases x with
        | true => exact ⟨rfl, rfl, h3⟩
        | false =>
          simp only [Bool.false_eq_true, if_false]
          refine RelE.same _ (fun bt hb => ?_)
          refine RelE.same _ (fun b _ => ?_)
          exact ⟨rfl, rfl, (resolve_length hb).trans h3.1, h3.2⟩

end

/-! ### Histories -/

/-- Matchers of a definition: new, after any `Match` that came back (with a verdict or an error), after any `Reset`. -/
inductive Used (X : Fns E) (df : Def E) : M → Prop
  | new : Used X df (newMatcher df)
  | run {m data o m'} (h : Used X df m) (e : run X df m data = .ok (o, m')) : Used X df m'
  | reset {m} (h : Used X df m) : Used X df (resetMatcher m)

theorem Used.len {X : Fns E} {df : Def E} {m : M} (h : Used X df m) : Len df.tree.length df.numSlots m := by
  induction h with
  | new => exact ⟨by simp [newMatcher, BinTree.newState], by simp [newMatcher]⟩
  | @run m data o m' _ e ih =>
    have := run_coll (c := false) X df data ih
    have hz : addC false m = m := by simp [addC]
    rw [hz, e] at this
    exact this.2.2
  | reset _ ih => exact ⟨by simpa [resetMatcher, BinTree.reset] using ih.1, by simpa [resetMatcher] using ih.2⟩

/-- After `Reset` only `collateUsed` (and the tokenizer, which `Match` sets anew) can differ from a new matcher. -/
theorem Used.reset_eq {X : Fns E} {df : Def E} {m : M} (h : Used X df m) :
    resetMatcher m = { addC m.coll (newMatcher df) with tk := m.tk } := by
  have hl := h.len
  have e : m.slots.map (fun _ => (0, 0)) = List.replicate df.numSlots (0, 0) := by
    rw [List.map_const', hl.2]
  simp only [resetMatcher, addC, newMatcher, BinTree.reset_eq_newState df.tree m.bt hl.1, e]
  simp

theorem run_tk (X : Fns E) (df : Def E) (m : M) (tk : Tkn) (data : List Nat) : run X df { m with tk := tk } data = run X df m data := rfl

/-- `Match` after `Reset` against `Match` of a new matcher. -/
theorem run_reset (X : Fns E) (df : Def E) {m : M} (h : Used X df m) (data : List Nat) :
    RelE (QC m.coll df.tree.length df.numSlots) (run X df (resetMatcher m) data) (run X df (newMatcher df) data) := by
  rw [h.reset_eq, run_tk]
  exact run_coll X df data (Used.new (X := X)).len

end Verif.Match
