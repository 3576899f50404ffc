import Verif.Match.Unref

/-!
# The matcher on arbitrary bytes

What one can say of the matcher without knowing that the input is the text of a document, for definitions without slots:
it ends, it only moves forward, the decision tree stays consistent, and after an error the tokenizer stands before the
token it could not read (so the next attempt to read fails as well) while the root is undecided.
-/

namespace Verif.Match
open Verif.Token Verif.FastVal
open Verif.BinTree (Tree State Sh SV K Inv Ctx Shaped Fresh)

variable {E : Ext}

/-- The call ends, and if it returns, the result is as described. -/
def Ends {α : Type} (Q : α → Prop) : Res α → Prop
  | .ok a => Q a
  | .panic => True
  | .stuck => False

theorem Ends.bind {α β : Type} {P : α → Prop} {Q : β → Prop} {x : Res α} {f : α → Res β} (h : Ends P x) (hf : ∀ a, P a → Ends Q (f a)) :
    Ends Q (x >>= f) := by
  cases x with
  | ok a => exact hf a h
  | panic => trivial
  | stuck => exact h.elim

theorem Ends.mono {α : Type} {P Q : α → Prop} {x : Res α} (h : Ends P x) (hf : ∀ a, P a → Q a) : Ends Q x := by
  cases x with
  | ok a => exact hf a h
  | panic => trivial
  | stuck => exact h.elim

theorem Ends.of_ne {α : Type} {x : Res α} (h : x ≠ .stuck) : Ends (fun _ => True) x := by
  cases x with
  | stuck => exact absurd rfl h
  | _ => trivial

theorem Ends.ne {α : Type} {Q : α → Prop} {x : Res α} (h : Ends Q x) : x ≠ .stuck := by
  rintro rfl; exact h

theorem Ends.ok {α : Type} {Q : α → Prop} {x : Res α} (h : Ends Q x) {a : α} (e : x = .ok a) : Q a := by
  subst e; exact h

/-- The next token cannot be read. -/
def Fails (k : Tkn) : Prop := (step k).1 = none

/-- A matcher at work on the part `s` at `b` of the tree: nothing is decided at the root. -/
structure Good (t : Tree) (s : Sh) (b : Nat) (m : M) : Prop where
  st : ∃ p, St t s b m.bt p
  root : m.bt.data[0]? = some .unknown
  pos : m.tk.pos ≤ m.tk.data.length

/-- Some work later. -/
structure Moved (t : Tree) (s : Sh) (b : Nat) (m m' : M) : Prop where
  data : m'.tk.data = m.tk.data
  pos : m.tk.pos ≤ m'.tk.pos
  len : m'.tk.pos ≤ m.tk.data.length
  slots : m'.slots = m.slots
  stall : m'.bt.stall = m.bt.stall
  st : ∃ p, St t s b m'.bt p
  out : ∀ j, j < b ∨ b + s.size ≤ j → m'.bt.data[j]? = m.bt.data[j]?

/-- After an error. -/
structure Failed (m m' : M) : Prop where
  data : m'.tk.data = m.tk.data
  pos : m.tk.pos ≤ m'.tk.pos
  len : m'.tk.pos ≤ m.tk.data.length
  fails : Fails m'.tk
  root : m'.bt.data[0]? = some .unknown

theorem Good.refl {t s b m} (h : Good t s b m) : Moved t s b m m :=
  ⟨rfl, Nat.le_refl _, h.pos, rfl, rfl, h.st, fun _ _ => rfl⟩

theorem Moved.trans {t s b m m' m''} (h : Moved t s b m m') (h' : Moved t s b m' m'') : Moved t s b m m'' :=
  ⟨h'.data.trans h.data, Nat.le_trans h.pos h'.pos, by rw [← h.data]; exact h'.len, h'.slots.trans h.slots, h'.stall.trans h.stall,
    h'.st, fun j hj => (h'.out j hj).trans (h.out j hj)⟩

theorem Moved.good {t s b m m'} (h : Moved t s b m m') (hr : m'.bt.data[0]? = some .unknown) : Good t s b m' :=
  ⟨h.st, hr, by rw [h.data]; exact h.len⟩

theorem Moved.failed {t s b m m' m''} (h : Moved t s b m m') (h' : Failed m' m'') : Failed m m'' :=
  ⟨h'.data.trans h.data, Nat.le_trans h.pos h'.pos, by rw [← h.data]; exact h'.len, h'.fails, h'.root⟩

theorem Failed.trans {m m' m''} (h : Failed m m') (h' : Failed m' m'') : Failed m m'' :=
  ⟨h'.data.trans h.data, Nat.le_trans h.pos h'.pos, by rw [← h.data]; exact h'.len, h'.fails, h'.root⟩

/-- Is the root decided? -/
theorem St.cases0 {t s b bt p} (h : St t s b bt p) :
    BinTree.isResolved bt 0 = .ok true ∨ (BinTree.isResolved bt 0 = .ok false ∧ bt.data[0]? = some .unknown) := by
  have hl := h.inv.in_range
  have hx : bt.data[0]? = some bt.data[0] := List.getElem?_eq_getElem (by omega)
  simp only [BinTree.isResolved, Res.idx_of_some hx, Res.bind_ok, Res.pure_eq]
  by_cases hu : bt.data[0] = .unknown
  · exact Or.inr ⟨by simp [hu], by rw [hx, hu]⟩
  · exact Or.inl (by simp [hu])

/-- Moving the tokenizer. -/
theorem Good.tk {t s b m} (h : Good t s b m) {k : Tkn} (hd : k.data = m.tk.data) (hp : k.pos ≤ m.tk.data.length) :
    Good t s b { m with tk := k } := ⟨h.st, h.root, by simp only [hd]; exact hp⟩

theorem Good.moved {t s b m} (h : Good t s b m) {k : Tkn} (hd : k.data = m.tk.data) (hp : m.tk.pos ≤ k.pos) (hp' : k.pos ≤ m.tk.data.length) :
    Moved t s b m { m with tk := k } :=
  ⟨hd, hp, hp', rfl, rfl, h.st, fun _ _ => rfl⟩

/-! ### Tokens -/

theorem step_cases (k : Tkn) (hk : k.pos ≤ k.data.length) :
    (step k = (none, k) ∧ Fails k) ∨ ∃ ty w k', step k = (some (ty, w), k') ∧ k'.data = k.data ∧ k.pos ≤ k'.pos ∧ k'.pos ≤ k.data.length ∧
      (ty = .end_ ∨ k.pos < k'.pos) := by
  rcases hs : step k with ⟨r, k'⟩
  cases r with
  | none =>
    obtain ⟨rfl, _⟩ := C11_error_does_not_consume k k' hs
    exact Or.inl ⟨rfl, by rw [Fails, hs]⟩
  | some x =>
    obtain ⟨ty, w⟩ := x
    obtain ⟨hd, h⟩ := step_some hs
    refine Or.inr ⟨ty, w, k', rfl, hd, ?_⟩
    rcases h with ⟨rfl, _, _, h1, h2⟩ | ⟨ht, ws, post, _, _, hp, hle⟩
    · exact ⟨by omega, by omega, Or.inl rfl⟩
    · have := List.length_pos_iff.2 ht.ne_nil
      exact ⟨by omega, hle, Or.inr (by omega)⟩

/-- What skipping does to the tokenizer. -/
structure Skipped (k : Tkn) (r : Bool × Tkn) : Prop where
  data : r.2.data = k.data
  pos : k.pos ≤ r.2.pos
  len : r.2.pos ≤ k.data.length
  fails : r.1 = true → Fails r.2

theorem leaveLoop_ends (fuel : Nat) : ∀ (d : Nat) (k : Tkn), k.data.length < k.pos + fuel → k.pos ≤ k.data.length →
    Ends (Skipped k) (leaveLoop fuel d k) := by
  induction fuel with
  | zero => intro d k h1 h2; omega
  | succ fuel ih =>
    intro d k h1 h2
    rw [leaveLoop]
    rcases step_cases k h2 with ⟨e, hf⟩ | ⟨ty, w, k', e, hd, hp, hl, hpr⟩
    · rw [e]; exact ⟨rfl, Nat.le_refl _, h2, fun _ => hf⟩
    · rw [e]
      have hi : ∀ d, ty ≠ .end_ → Ends (Skipped k) (leaveLoop fuel d k') := fun d hne => by
        rcases hpr with rfl | hlt
        · exact absurd rfl hne
        · exact (ih d k' (by rw [hd]; omega) (by rw [hd]; exact hl)).mono (fun r hr =>
            ⟨hr.data.trans hd, by have := hr.pos; omega, by rw [← hd]; exact hr.len, hr.fails⟩)
      have hq : Skipped k (false, k') := ⟨hd, hp, hl, by simp⟩
      cases ty <;> simp only <;> first
        | exact hi _ (by simp)
        | (split
           · exact hq
           · exact hi _ (by simp))
        | trivial

theorem leaveValue_ends (k : Tkn) (hk : k.pos ≤ k.data.length) : Ends (Skipped k) (leaveValue k) :=
  leaveLoop_ends _ 0 k (by omega) hk

theorem skipValue_ends (ty : Tok) (k : Tkn) (hk : k.pos ≤ k.data.length) : Ends (Skipped k) (skipValue ty k) := by
  have h := leaveValue_ends k hk
  have hq : Skipped k (false, k) := ⟨rfl, Nat.le_refl _, hk, by simp⟩
  cases ty <;> simp only [skipValue] <;> first | exact h | exact hq | trivial

theorem parseString_ends (w : List Nat) : Ends (fun _ => True) (Lit.parseString w) := by
  unfold Lit.parseString; split <;> trivial

theorem parseEscString_ends (w : List Nat) : Ends (fun _ => True) (Lit.parseEscString w) := by
  by_cases h : 2 ≤ w.length
  · obtain ⟨a, e⟩ := parseEscString_ok h
    rw [e]; trivial
  · unfold Lit.parseEscString; rw [if_pos (by omega)]; trivial

theorem parseLit_ends (ty : Tok) (w : List Nat) : Ends (fun _ => True) (parseLit (E := E) ty w) := by
  cases ty <;> simp only [parseLit] <;> first
    | trivial
    | exact (parseString_ends w).bind (fun _ _ => trivial)
    | exact (parseEscString_ends w).bind (fun _ _ => trivial)

theorem keyBytes_ends (arr : Bool) (ty : Tok) (w : List Nat) : Ends (fun _ => True) (keyBytes arr ty w) := by
  have h1 := parseString_ends w
  have h2 := parseEscString_ends w
  cases ty <;> simp only [keyBytes] <;> first
    | exact h1
    | exact h2
    | trivial
    | (cases arr <;> trivial)

theorem sliceOf_ends (d : List Nat) (a b : Nat) : Ends (fun _ => True) (sliceOf d a b) := by
  unfold sliceOf; split <;> trivial

theorem idx_ends {α : Type} (l : List α) (i : Nat) : Ends (fun _ => True) (Res.idx l i) := by
  unfold Res.idx; split <;> trivial

theorem literalFromSlot_ends (m : M) (s : Nat) : Ends (fun _ => True) (literalFromSlot (E := E) m s) := by
  unfold literalFromSlot
  split
  · trivial
  · refine (idx_ends _ _).bind (fun p _ => ?_)
    split
    · trivial
    · split
      · exact parseLit_ends _ _
      · split
        · split
          · exact (sliceOf_ends _ _ _).bind (fun _ _ => trivial)
          · exact (sliceOf_ends _ _ _).bind (fun _ _ => trivial)
          · trivial
        · trivial

/-! ### Operations -/

theorem applyFn_ends (X : Fns E) (f : FName) (vs : List (FV E)) : Ends (fun _ => True) (applyFn X f vs) := by
  have h2 : ∀ a b : Data E, mathDiv a b ≠ .stuck ∧ mathMod a b ≠ .stuck := by
    intro a b
    constructor
    · unfold mathDiv
      split
      · exact ok_notStuck (op2Floats_ok _ _ _)
      · exact divMod_notStuck a b (by intro x y; unfold sdivOp; split <;> simp) (by intro x y; unfold udivOp; split <;> simp)
          (ok_notStuck (op2Floats_ok _ _ _)) (ok_notStuck (op2Floats_ok _ _ _))
    · unfold mathMod
      exact divMod_notStuck a b (by intro x y; unfold sremOp; split <;> simp) (by intro x y; unfold umodOp; split <;> simp)
        (by simp) (by simp)
  match vs, f with
  | _, .other => cases vs <;> trivial
  | [], .abs | [], .round | [], .date | [], .neg | [], .un _ | [], .bin _ | [], .add | [], .sub | [], .mul | [], .div
  | [], .mod => trivial
  | p :: _, .abs => trivial
  | p :: _, .round => trivial
  | p :: _, .date => trivial
  | p :: _, .neg => trivial
  | p :: _, .un f => trivial
  | [p], .bin _ | [p], .add | [p], .sub | [p], .mul | [p], .div | [p], .mod => trivial
  | p :: q :: _, .bin f => exact Ends.of_ne (ok_notStuck (op2Floats_ok _ _ _))
  | p :: q :: _, .add => exact Ends.of_ne (ok_notStuck (addMul_ok _ _ _ _))
  | p :: q :: _, .sub => exact Ends.of_ne (ok_notStuck (mathSub_ok _ _))
  | p :: q :: _, .mul => exact Ends.of_ne (ok_notStuck (addMul_ok _ _ _ _))
  | p :: q :: _, .div => exact Ends.of_ne (h2 _ _).1
  | p :: q :: _, .mod => exact Ends.of_ne (h2 _ _).2

section
variable (X : Fns E) {rd : Nat → Res (FV E)} (lit : Option (FV E))

mutual
  theorem resolveParam_ends (hrd : ∀ s, Ends (fun _ => True) (rd s)) : ∀ r : Ref E, Ends (fun _ => True) (resolveParam X rd lit r)
    | .val v => trivial
    | .lit => by cases lit <;> trivial
    | .slot s => hrd s
    | .fn f ps => by
      rw [resolveParam]
      exact (resolveParams_ends hrd f.arity ps).bind (fun vs _ => applyFn_ends X f vs)

  theorem resolveParams_ends (hrd : ∀ s, Ends (fun _ => True) (rd s)) : ∀ (k : Nat) (ps : Refs E), Ends (fun _ => True) (resolveParams X rd lit k ps)
    | 0, ps => by rw [resolveParams.eq_def]; trivial
    | k + 1, .nil => trivial
    | k + 1, .cons p ps => by
      rw [resolveParams]
      exact (resolveParam_ends hrd p).bind (fun v _ => (resolveParams_ends hrd k ps).bind (fun vs _ => trivial))
end

theorem opResult_ends (hrd : ∀ s, Ends (fun _ => True) (rd s)) (op : Op E) : Ends (fun _ => True) (opResult X rd lit op) := by
  have hside : ∀ o : Option (Ref E), Ends (fun _ => True) (opSide X rd lit o) := by
    intro o
    cases o with
    | none => trivial
    | some r => exact (resolveParam_ends X lit hrd r).bind (fun v _ => trivial)
  unfold opResult
  refine (hside _).bind (fun l _ => (hside _).bind (fun r _ => ?_))
  split
  · trivial
  · refine Ends.bind (P := fun _ => True) ?_ (fun o _ => trivial)
    cases op.op <;> trivial
end

/-- Operations touch the tree only; they go on as long as the root is undecided. -/
theorem ops_ends (X : Fns E) {t : Tree} {s : Sh} {b : Nat} (lit : Option (FV E)) {ops : List (Op E)} (hf : ∀ op ∈ ops, IsAtom s b op.bucket)
    {m : M} (h : Good t s b m) :
    Ends (fun r => r.2.tk = m.tk ∧ Moved t s b m r.2 ∧ (r.1 = false → r.2.bt.data[0]? = some .unknown)) (opsM X t lit ops m) := by
  have hrd : ∀ i, Ends (fun _ => True) (literalFromSlot (E := E) m i) := literalFromSlot_ends m
  have key : ∀ (ops : List (Op E)) (bt : State) (coll : Bool), (∀ op ∈ ops, IsAtom s b op.bucket) → (∃ p, St t s b bt p) → bt.stall = m.bt.stall →
      bt.data[0]? = some .unknown → (∀ j, j < b ∨ b + s.size ≤ j → bt.data[j]? = m.bt.data[j]?) →
      Ends (fun r => (∃ p, St t s b r.2.1 p) ∧ r.2.1.stall = m.bt.stall ∧ (∀ j, j < b ∨ b + s.size ≤ j → r.2.1.data[j]? = m.bt.data[j]?) ∧
        (r.1 = false → r.2.1.data[0]? = some .unknown)) (runOps X t (literalFromSlot m) lit ops bt coll) := by
    intro ops
    induction ops with
    | nil => intro bt coll _ h1 h2 h3 h4; exact ⟨h1, h2, h4, fun _ => h3⟩
    | cons op ops ih =>
      intro bt coll hf h1 h2 h3 h4
      rw [runOps]
      obtain ⟨p, hst⟩ := h1
      refine Ends.bind (P := fun r => (∃ p, St t s b r.1 p) ∧ r.1.stall = m.bt.stall ∧
        ∀ j, j < b ∨ b + s.size ≤ j → r.1.data[j]? = m.bt.data[j]?) ?_ ?_
      · unfold matchOp
        have hr := isAtom_range (hf op (by simp))
        obtain ⟨par, hsh⟩ := hst.ctx.shaped
        have hbd := hsh.bound
        have hl := hst.len
        have hx : bt.data[op.bucket]? = some bt.data[op.bucket] := List.getElem?_eq_getElem (by omega)
        have hres : BinTree.isResolved bt op.bucket = .ok (decide (bt.data[op.bucket] ≠ .unknown)) := by
          simp [BinTree.isResolved, Res.idx_of_some hx]
        rw [hres]
        simp only [Res.bind_ok]
        split
        · exact ⟨⟨p, hst⟩, h2, h4⟩
        · rename_i hn
          refine (opResult_ends X lit hrd op).bind (fun o _ => ?_)
          obtain ⟨bt', e1, e2, e3, e4⟩ := hst.mark (hf op (by simp)) o.1
          rw [BinTree.guardedMark, hres] at e1
          simp only [Res.bind_ok] at e1
          rw [if_neg hn] at e1
          rw [e1]
          exact ⟨⟨_, e2⟩, e3.trans h2, fun j hj => (e4 j hj).trans (h4 j hj)⟩
      · rintro ⟨bt', c⟩ ⟨⟨p', hst'⟩, k2, k3⟩
        rcases hst'.cases0 with e | ⟨e, hu⟩
        · rw [e]; exact ⟨⟨p', hst'⟩, k2, k3, fun hh => (by cases hh)⟩
        · rw [e]
          exact ih bt' c (fun o ho => hf o (by simp [ho])) ⟨p', hst'⟩ k2 hu k3
  unfold opsM
  refine (key ops m.bt m.coll hf h.st rfl h.root (fun _ _ => rfl)).bind ?_
  rintro ⟨d, bt', c⟩ ⟨k1, k2, k3, k4⟩
  exact ⟨rfl, ⟨rfl, Nat.le_refl _, h.pos, rfl, k2, k1, k3⟩, k4⟩

/-! ### Objects and arrays -/

/-- The recursive calls behave. -/
def RecU (t : Tree) (h : Nat) (rec : Rec E) : Prop :=
  ∀ (node : Exec E) ty w m s b, node.NoSlots → node.Fits s b → node.height ≤ h → Good t s b m →
    Ends (fun r => (r.1 = true → Failed m r.2) ∧ (r.1 = false → Moved t s b m r.2)) (rec node ty w m)

theorem objValue_ends {t : Tree} {h : Nat} {rec : Rec E} (hrec : RecU t h rec) {elems : Elems E} {s : Sh} {b : Nat} (hn : elems.NoSlots)
    (hf : elems.Fits s b) (hh : elems.height ≤ h) (key : List Nat) (ty : Tok) (w : List Nat) {m : M} (hm : Good t s b m) :
    Ends (fun r => (r.1 = true → Moved t s b m r.2) ∧
      (r.1 = false → (Moved t s b m r.2 ∧ r.2.bt.data[0]? = some .unknown) ∨ Failed m r.2)) (objValue rec elems key ty w m) := by
  unfold objValue
  split
  · rename_i e he
    refine (hrec e ty w m s b (hn.find he) (hf.find he) (Nat.le_trans (Elems.height_find he) hh) hm).bind ?_
    rintro ⟨x, m'⟩ ⟨h1, h2⟩
    cases x with
    | true =>
      have hF := h1 rfl
      have : BinTree.isResolved m'.bt 0 = .ok false := by simp [BinTree.isResolved, Res.idx_of_some hF.root]
      rw [this]
      exact ⟨by simp, fun _ => Or.inr hF⟩
    | false =>
      have hM := h2 rfl
      obtain ⟨p, hst⟩ := hM.st
      rcases hst.cases0 with e | ⟨e, hu⟩
      · rw [e]; exact ⟨fun _ => hM, by simp⟩
      · rw [e]; exact ⟨by simp, fun _ => Or.inl ⟨hM, hu⟩⟩
  · refine (skipValue_ends ty m.tk hm.pos).bind ?_
    rintro ⟨x, k⟩ hk
    refine ⟨fun hh => (by cases hh), fun _ => ?_⟩
    cases x with
    | true => exact Or.inr ⟨hk.data, hk.pos, hk.len, hk.fails rfl, hm.root⟩
    | false => exact Or.inl ⟨hm.moved hk.data hk.pos hk.len, hm.root⟩

/-- The outcome of walking over an object or array: `(err != nil, shouldReturn)`. -/
def WalkU (t : Tree) (s : Sh) (b : Nat) (m : M) (r : Bool × Bool × M) : Prop :=
  (r.1 = true → r.2.1 = true ∧ Failed m r.2.2) ∧ (r.1 = false → Moved t s b m r.2.2 ∧ (r.2.1 = false → r.2.2.bt.data[0]? = some .unknown))

theorem Good.failed {t s b m} (h : Good t s b m) (hf : Fails m.tk) : Failed m m := ⟨rfl, Nat.le_refl _, h.pos, hf, h.root⟩

theorem WalkU.from {t s b m m' r} (h : Moved t s b m m') (hr : WalkU t s b m' r) : WalkU t s b m r :=
  ⟨fun e => ⟨(hr.1 e).1, h.failed (hr.1 e).2⟩, fun e => ⟨h.trans (hr.2 e).1, (hr.2 e).2⟩⟩

theorem objItem_ends {t : Tree} {h : Nat} {rec : Rec E} (hrec : RecU t h rec) {elems : Elems E} {s : Sh} {b : Nat} (hn : elems.NoSlots)
    (hf : elems.Fits s b) (hh : elems.height ≤ h) (arr : Bool) (idx : Nat) {k : M → Res (Bool × Bool × M)} {m : M} (hm : Good t s b m)
    (hk1 : ∀ m', Moved t s b m m' → m'.bt.data[0]? = some .unknown → Ends (WalkU t s b m') (k m'))
    (hk2 : ∀ m', Failed m m' → Ends (fun r => r.1 = true ∧ r.2.1 = true ∧ Failed m' r.2.2) (k m')) :
    Ends (WalkU t s b m) (objItem rec elems arr idx k m) := by
  unfold objItem
  rcases step_cases m.tk hm.pos with ⟨e, hF⟩ | ⟨ty, w, k1, e, hd, hp, hl, _⟩
  · rw [e]; exact ⟨fun _ => ⟨rfl, hm.failed hF⟩, fun hh => (by cases hh)⟩
  · rw [e]
    have hm1 := hm.tk hd hl
    have hM1 := hm.moved hd hp hl
    dsimp only
    have fin : ∀ {m2 : M} (r : Bool × M), Moved t s b m m2 → (r.1 = true → Moved t s b m2 r.2) ∧
        (r.1 = false → (Moved t s b m2 r.2 ∧ r.2.bt.data[0]? = some .unknown) ∨ Failed m2 r.2) →
        Ends (WalkU t s b m) (if r.1 then .ok (false, true, r.2) else k r.2) := by
      rintro m2 ⟨x, m3⟩ hM2 ⟨h1, h2⟩
      cases x with
      | true => exact ⟨fun hh => (by cases hh), fun _ => ⟨hM2.trans (h1 rfl), fun hh => (by cases hh)⟩⟩
      | false =>
        simp only [Bool.false_eq_true, if_false]
        rcases h2 rfl with ⟨hM3, hu⟩ | hF
        · exact (hk1 m3 (hM2.trans hM3) hu).mono (fun r hr => WalkU.from (hM2.trans hM3) hr)
        · refine (hk2 m3 (hM2.failed hF)).mono (fun r hr => ⟨fun _ => ⟨hr.2.1, (hM2.failed hF).trans hr.2.2⟩, fun e => ?_⟩)
          rw [hr.1] at e; cases e
    by_cases hend : ty = (if arr then Tok.arrayEnd else .objectEnd)
    · rw [if_pos hend]; exact ⟨fun hh => (by cases hh), fun _ => ⟨hM1, fun hh => (by cases hh)⟩⟩
    · rw [if_neg hend]
      refine (keyBytes_ends arr ty w).bind (fun key _ => ?_)
      split
      · exact (objValue_ends hrec hn hf hh (indexKey idx) ty w hm1).bind (fun r hr => fin r hM1 hr)
      · rcases step_cases k1 (by rw [hd]; exact hl) with ⟨e2, hF⟩ | ⟨ty2, w2, k2, e2, hd2, hp2, hl2, _⟩
        · rw [e2]
          exact ⟨fun _ => ⟨rfl, hM1.failed (hm1.failed hF)⟩, fun hh => (by cases hh)⟩
        · rw [e2]
          dsimp only
          split
          · trivial
          · rw [hd] at hl2
            have hm2 := hm.tk (hd2.trans hd) hl2
            have hM2 := hm.moved (hd2.trans hd) (Nat.le_trans hp hp2) hl2
            rcases step_cases k2 (by rw [hd2, hd]; exact hl2) with ⟨e3, hF⟩ | ⟨ty3, w3, k3, e3, hd3, hp3, hl3, _⟩
            · rw [e3]
              exact ⟨fun _ => ⟨rfl, hM2.failed (hm2.failed hF)⟩, fun hh => (by cases hh)⟩
            · rw [e3]
              rw [hd2, hd] at hl3
              have hm3 := hm.tk (hd3.trans (hd2.trans hd)) hl3
              have hM3 := hm.moved (hd3.trans (hd2.trans hd)) (Nat.le_trans hp (Nat.le_trans hp2 hp3)) hl3
              exact (objValue_ends hrec hn hf hh key ty3 w3 hm3).bind (fun r hr => fin r hM3 hr)

theorem objLoop_fails {rec : Rec E} {elems : Elems E} {arr : Bool} (fuel : Nat) (idx : Nat) {m : M} (hf : Fails m.tk)
    (hp : m.tk.pos ≤ m.tk.data.length) : objLoop rec elems arr (fuel + 1) idx m = .ok (true, true, m) := by
  rw [objLoop]
  rcases step_cases m.tk hp with ⟨e, _⟩ | ⟨ty, w, k1, e, _⟩
  · rw [e]
  · rw [Fails, e] at hf; cases hf

theorem objLoop_ends {t : Tree} {h : Nat} {rec : Rec E} (hrec : RecU t h rec) {elems : Elems E} {s : Sh} {b : Nat} (hn : elems.NoSlots)
    (hf : elems.Fits s b) (hh : elems.height ≤ h) (arr : Bool) (fuel : Nat) : ∀ (idx : Nat) {m : M}, Good t s b m →
      m.tk.data.length < m.tk.pos + fuel → Ends (WalkU t s b m) (objLoop rec elems arr fuel idx m) := by
  induction fuel with
  | zero => intro idx m hm hl; have := hm.pos; omega
  | succ fuel ih =>
    intro idx m hm hfu
    rw [objLoop]
    rcases step_cases m.tk hm.pos with ⟨e, hF⟩ | ⟨ty, w, k1, e, hd, hp, hl, hpr⟩
    · rw [e]; exact ⟨fun _ => ⟨rfl, hm.failed hF⟩, fun hh => (by cases hh)⟩
    · rw [e]
      have hm1 := hm.tk hd hl
      have hM1 := hm.moved hd hp hl
      dsimp only
      have hitem : ty ≠ .end_ → Ends (WalkU t s b m) (objItem rec elems arr (idx + 1) (objLoop rec elems arr fuel (idx + 1)) { m with tk := k1 }) := by
        intro hne
        have hlt : m.tk.pos < k1.pos := by
          rcases hpr with h | h
          · exact absurd h hne
          · exact h
        have hfuel : fuel ≠ 0 := by omega
        obtain ⟨f, rfl⟩ : ∃ f, fuel = f + 1 := ⟨fuel - 1, by omega⟩
        refine (objItem_ends hrec hn hf hh arr (idx + 1) hm1 ?_ ?_).mono (fun r hr => WalkU.from hM1 hr)
        · intro m' hM hu
          refine ih (idx + 1) (hM.good hu) ?_
          have := hM.pos
          rw [hM.data]
          simp only [hd] at this ⊢
          omega
        · intro m' hF
          have hpos : m'.tk.pos ≤ m'.tk.data.length := by rw [hF.data]; exact hF.len
          rw [objLoop_fails f (idx + 1) hF.fails hpos]
          exact ⟨rfl, rfl, ⟨rfl, Nat.le_refl _, hpos, hF.fails, hF.root⟩⟩
      cases ty <;> dsimp only <;> first
        | trivial
        | exact hitem (by simp)
        | exact ⟨fun hh => (by cases hh), fun _ => ⟨hM1, fun _ => hm.root⟩⟩
        | exact ⟨fun hh => (by cases hh), fun _ => ⟨hM1, fun hh => (by cases hh)⟩⟩

theorem matchObjArr_ends {t : Tree} {h : Nat} {rec : Rec E} (hrec : RecU t h rec) {elems : Elems E} {s : Sh} {b : Nat} (hn : elems.NoSlots)
    (hf : elems.Fits s b) (hh : elems.height ≤ h) (arr : Bool) {m : M} (hm : Good t s b m) :
    Ends (WalkU t s b m) (matchObjArr rec elems arr m) := by
  refine objItem_ends hrec hn hf hh arr 0 hm ?_ ?_
  · intro m' hM hu
    refine objLoop_ends hrec hn hf hh arr _ 0 (hM.good hu) ?_
    rw [hM.data]; omega
  · intro m' hF
    have hpos : m'.tk.pos ≤ m'.tk.data.length := by rw [hF.data]; exact hF.len
    rw [objLoop_fails _ 0 hF.fails hpos]
    exact ⟨rfl, rfl, ⟨rfl, Nat.le_refl _, hpos, hF.fails, hF.root⟩⟩

/-! ### Loops -/

/-- A matcher inside the loop whose body is the part `a` at `bucket` of the tree. -/
structure InLoop (t : Tree) (bucket : Nat) (m : M) : Prop where
  blen : m.bt.data.length = t.length
  root : m.bt.data[0]? = some .unknown
  stall : m.bt.stall = bucket
  pos : m.tk.pos ≤ m.tk.data.length

/-- Some iterations later. -/
structure Ran (t : Tree) (a : Sh) (bucket : Nat) (m m' : M) : Prop where
  data : m'.tk.data = m.tk.data
  pos : m.tk.pos ≤ m'.tk.pos
  len : m'.tk.pos ≤ m.tk.data.length
  slots : m'.slots = m.slots
  stall : m'.bt.stall = bucket
  blen : m'.bt.data.length = t.length
  out : ∀ j, j < bucket ∨ bucket + a.size ≤ j → m'.bt.data[j]? = m.bt.data[j]?

theorem Ran.inLoop {t a bucket m m'} (h : Ran t a bucket m m') (hb : 0 < bucket) (hr : m.bt.data[0]? = some .unknown) : InLoop t bucket m' :=
  ⟨h.blen, by rw [h.out 0 (Or.inl hb)]; exact hr, h.stall, by rw [h.data]; exact h.len⟩

theorem Ran.trans {t a bucket m m' m''} (h : Ran t a bucket m m') (h' : Ran t a bucket m' m'') : Ran t a bucket m m'' :=
  ⟨h'.data.trans h.data, Nat.le_trans h.pos h'.pos, by rw [← h.data]; exact h'.len, h'.slots.trans h.slots, h'.stall, h'.blen,
    fun j hj => (h'.out j hj).trans (h.out j hj)⟩

theorem Ran.failed {t a bucket m m' m''} (h : Ran t a bucket m m') (h' : Failed m' m'') : Failed m m'' :=
  ⟨h'.data.trans h.data, Nat.le_trans h.pos h'.pos, by rw [← h.data]; exact h'.len, h'.fails, h'.root⟩

theorem InLoop.tk {t bucket m} (a : Sh) (h : InLoop t bucket m) {k : Tkn} (hd : k.data = m.tk.data) (hp : m.tk.pos ≤ k.pos)
    (hl : k.pos ≤ m.tk.data.length) : InLoop t bucket { m with tk := k } ∧ Ran t a bucket m { m with tk := k } :=
  ⟨⟨h.blen, h.root, h.stall, by simp only [hd]; exact hl⟩, ⟨hd, hp, hl, rfl, h.stall, h.blen, fun _ _ => rfl⟩⟩

theorem InLoop.failed {t bucket m} (h : InLoop t bucket m) (hf : Fails m.tk) : Failed m m := ⟨rfl, Nat.le_refl _, h.pos, hf, h.root⟩

/-- The outcome of the iterations: an error or the state of the loop. -/
def LoopU (t : Tree) (a : Sh) (bucket : Nat) (m : M) (r : Option Bool × M) : Prop :=
  (r.1 = none → Failed m r.2) ∧ ((∃ x, r.1 = some x) → Ran t a bucket m r.2)

theorem LoopU.from {t a bucket m m' r} (h : Ran t a bucket m m') (hr : LoopU t a bucket m' r) : LoopU t a bucket m r :=
  ⟨fun e => h.failed (hr.1 e), fun e => h.trans (hr.2 e)⟩

theorem loopItem_ends {t : Tree} {h : Nat} {rec : Rec E} (hrec : RecU t h rec) {bucket : Nat} (mode : Mode) {node : Exec E} {a : Sh} {par : Nat}
    (hs : Shaped t a bucket par) (hb : 0 < bucket) (hn : node.NoSlots) (hf : node.Fits a bucket) (hh : node.height ≤ h)
    {k : Bool → M → Res (Option Bool × M)} (st : Bool) {m : M} (hm : InLoop t bucket m)
    (hk : ∀ st m', Ran t a bucket m m' → Ends (LoopU t a bucket m') (k st m')) :
    Ends (LoopU t a bucket m) (loopItem rec t bucket mode node k st m) := by
  unfold loopItem
  rcases step_cases m.tk hm.pos with ⟨e, hF⟩ | ⟨ty, w, k1, e, hd, hp, hl, _⟩
  · rw [e]; exact ⟨fun _ => hm.failed hF, fun ⟨x, hx⟩ => (by cases hx)⟩
  · rw [e]
    obtain ⟨hm1, hR1⟩ := hm.tk a hd hp hl
    dsimp only
    split
    · exact ⟨fun hx => (by cases hx), fun _ => hR1⟩
    · obtain ⟨d', e1, e2, e3, e4⟩ := BinTree.resetNode_spec hs m.bt hm.blen
      rw [e1]
      simp only [Res.bind_ok]
      have hroot : d'[0]? = some .unknown := by rw [e4 0 (Or.inl hb)]; exact hm.root
      have hst : St t a bucket { m.bt with data := d' } (fun _ => none) :=
        ⟨⟨⟨par, hs⟩, Or.inr hm.stall.symm, Or.inl (Nat.le_of_eq hm.stall)⟩, e2,
          e3.inv (fun _ _ _ => rfl), by simp, fun _ => hroot⟩
      refine (hrec node ty w { m with tk := k1, bt := { m.bt with data := d' } } a bucket hn hf hh ⟨⟨_, hst⟩, hroot, by simp only [hd]; exact hl⟩).bind ?_
      rintro ⟨x, m'⟩ ⟨h1, h2⟩
      cases x with
      | true =>
        have hF := h1 rfl
        refine ⟨fun _ => ⟨hF.data.trans hd, Nat.le_trans hp hF.pos, ?_, hF.fails, hF.root⟩, fun ⟨x, hx⟩ => (by cases hx)⟩
        have := hF.len
        simp only [hd] at this
        exact this
      | false =>
        simp only [Bool.false_eq_true, if_false]
        have hM := h2 rfl
        obtain ⟨p', hst'⟩ := hM.st
        have hlen := hM.len
        simp only [hd] at hlen
        have hR : Ran t a bucket m m' := ⟨hM.data.trans hd, Nat.le_trans hp hM.pos, hlen, hM.slots, hM.stall.trans hm.stall, hst'.len,
          fun j hj => (hM.out j hj).trans (e4 j hj)⟩
        have hit := hst'.isTrue
        rw [hit]
        simp only [Res.bind_ok]
        split
        · refine (leaveValue_ends m'.tk (by rw [hR.data]; exact hR.len)).bind ?_
          rintro ⟨y, k2⟩ hk2
          refine ⟨fun hx => (by cases hx), fun _ => hR.trans ?_⟩
          exact ⟨hk2.data, hk2.pos, hk2.len, rfl, hR.stall, hR.blen, fun _ _ => rfl⟩
        · exact (hk _ m' hR).mono (fun r hr => LoopU.from hR hr)

theorem loopLoop_ends {t : Tree} {h : Nat} {rec : Rec E} (hrec : RecU t h rec) {bucket : Nat} (mode : Mode) {node : Exec E} {a : Sh} {par : Nat}
    (hs : Shaped t a bucket par) (hb : 0 < bucket) (hn : node.NoSlots) (hf : node.Fits a bucket) (hh : node.height ≤ h) (fuel : Nat) :
    ∀ (st : Bool) {m : M}, InLoop t bucket m → m.tk.data.length < m.tk.pos + fuel →
      Ends (LoopU t a bucket m) (loopLoop rec t bucket mode node fuel st m) := by
  induction fuel with
  | zero => intro st m hm hl; have := hm.pos; omega
  | succ fuel ih =>
    intro st m hm hfu
    rw [loopLoop]
    rcases step_cases m.tk hm.pos with ⟨e, hF⟩ | ⟨ty, w, k1, e, hd, hp, hl, hpr⟩
    · rw [e]; exact ⟨fun _ => hm.failed hF, fun ⟨x, hx⟩ => (by cases hx)⟩
    · rw [e]
      obtain ⟨hm1, hR1⟩ := hm.tk a hd hp hl
      dsimp only
      cases ty <;> dsimp only <;> first
        | trivial
        | exact ⟨fun hx => (by cases hx), fun _ => hR1⟩
        | skip
      refine (loopItem_ends hrec mode hs hb hn hf hh st hm1 ?_).mono (fun r hr => LoopU.from hR1 hr)
      intro st' m' hR
      refine ih st' (hR.inLoop hb hm1.root) ?_
      have := hR.pos
      rw [hR.data]
      simp only [hd] at this ⊢
      rcases hpr with h | h
      · cases h
      · omega

theorem matchLoop_ends {t : Tree} {h : Nat} {rec : Rec E} (hrec : RecU t h rec) {bucket : Nat} (mode : Mode) {node : Exec E} {s a : Sh} {b : Nat}
    (hla : LoopAt s b bucket a) (hn : node.NoSlots) (hf : node.Fits a bucket) (hh : node.height ≤ h) (ty : Tok) {m : M} (hm : Good t s b m) :
    Ends (fun r => (r.1 = true → Failed m r.2) ∧ (r.1 = false → Moved t s b m r.2)) (matchLoop rec t bucket mode node ty m) := by
  unfold matchLoop
  split
  · exact ⟨fun hh => (by cases hh), fun _ => hm.refl⟩
  · obtain ⟨hsub, hat, hlt⟩ := hla.sub
    obtain ⟨p, hs⟩ := hm.st
    have hr := isAtom_range hat
    obtain ⟨par0, hsh0⟩ := hs.ctx.shaped
    have hbd := hsh0.bound
    have hlen : bucket < m.bt.data.length := by have := hs.len; omega
    have hidx : m.bt.data[bucket]? = some m.bt.data[bucket] := List.getElem?_eq_getElem hlen
    by_cases hu : m.bt.data[bucket] = .unknown
    · rw [hu] at hidx
      have hres : BinTree.isResolved m.bt bucket = .ok false := by simp [BinTree.isResolved, Res.idx_of_some hidx]
      rw [hres]
      simp only [Res.bind_ok, Bool.false_eq_true, if_false]
      obtain ⟨par, hshp⟩ := BinTree.SubAt.shaped hsub hsh0
      have hpb : p bucket = none := by
        cases hp : p bucket with
        | none => rfl
        | some w => exact absurd hidx (hs.inv.marked hsub hp)
      have hpn : ∀ j, bucket ≤ j → j < bucket + a.size → p j = none := by
        intro j h1 h2
        cases hp : p j with
        | none => rfl
        | some w =>
          have hj := hs.atoms j (by simp [hp])
          by_cases hjb : j = bucket
          · subst hjb; rw [hpb] at hp; simp at hp
          · have := atom_antichain s b bucket j a hat hj hsub (by omega); omega
      have hfresh : Fresh m.bt.data bucket a.size := (hs.inv.sub hsub hidx).fresh hpn
      have hin : InLoop t bucket { m with bt := (BinTree.setStallIndex m.bt bucket).1 } := ⟨hs.len, hm.root, rfl, hm.pos⟩
      refine (loopItem_ends hrec mode hshp (by omega) hn hf hh mode.init hin ?_).bind ?_
      · intro st m' hR
        refine loopLoop_ends hrec mode hshp (by omega) hn hf hh _ st (hR.inLoop (by omega) hin.root) ?_
        rw [hR.data]; dsimp only; omega
      · rintro ⟨o, m'⟩ ⟨h1, h2⟩
        cases o with
        | none =>
          have hF := h1 rfl
          exact ⟨fun _ => ⟨hF.data, hF.pos, hF.len, hF.fails, hF.root⟩, fun hx => (by cases hx)⟩
        | some x =>
          have hR := h2 ⟨x, rfl⟩
          dsimp only
          obtain ⟨d2, r1, r2, r3, r4⟩ := BinTree.resetNode_spec hshp m'.bt hR.blen
          rw [r1]
          simp only [Res.bind_ok]
          have hd2 : d2 = m.bt.data := by
            apply List.ext_getElem?
            intro j
            by_cases hj : bucket ≤ j ∧ j < bucket + a.size
            · rw [r3 j hj.1 hj.2, hfresh j hj.1 hj.2]
            · rw [r4 j (by omega), hR.out j (by omega)]; rfl
          have hst2 : (BinTree.setStallIndex { m'.bt with data := d2 } m.bt.stall).1 = m.bt := by
            simp only [BinTree.setStallIndex, hd2]
          obtain ⟨bt', m1, m2, m3, m4⟩ := hs.mark hat x
          rw [BinTree.guardedMark, hres] at m1
          simp only [Res.bind_ok, Bool.false_eq_true, if_false] at m1
          rw [hst2, m1]
          exact ⟨fun hx => (by cases hx), fun _ => ⟨hR.data, hR.pos, hR.len, hR.slots, m3, ⟨_, m2⟩, m4⟩⟩
    · have hres : BinTree.isResolved m.bt bucket = .ok true := by simp [BinTree.isResolved, Res.idx_of_some hidx, hu]
      rw [hres]
      simp only [Res.bind_ok, if_true]
      refine (skipValue_ends ty m.tk hm.pos).bind ?_
      rintro ⟨x, k⟩ hk
      exact ⟨fun hx => (by cases hx), fun _ => hm.moved hk.data hk.pos hk.len⟩

/-- The outcome of the loops over an array that starts at `start`. -/
def FlowU (t : Tree) (s : Sh) (b : Nat) (m : M) (r : Flow × M) : Prop :=
  (r.1 = .err → Failed m r.2) ∧ (r.1 ≠ .err → Moved t s b m r.2) ∧ (r.1 = .go → r.2.bt.data[0]? = some .unknown)

theorem arrayLoops_ends {t : Tree} {h : Nat} {rec : Rec E} (hrec : RecU t h rec) {s : Sh} {b : Nat} (loops : Loops E) :
    ∀ (start : Nat) (first : Bool) {m0 m : M}, loops.NoSlots → loops.Fits s b → loops.height ≤ h → Good t s b m0 → m0.tk.pos = start →
      (if first then m = m0 else Moved t s b m0 m ∧ m.bt.data[0]? = some .unknown) →
      Ends (FlowU t s b m0) (arrayLoops rec t start loops first m) := by
  match loops with
  | .nil =>
    intro start first m0 m _ _ _ hg hst hm
    rw [arrayLoops]
    cases first with
    | true =>
      simp only [if_true] at hm
      subst hm
      exact ⟨fun hx => (by cases hx), fun _ => hg.refl, fun _ => hg.root⟩
    | false => exact ⟨fun hx => (by cases hx), fun _ => hm.1, fun _ => hm.2⟩
  | .cons bucket mode target node rest =>
    intro start first m0 m hn hf hh hg hst hm
    obtain ⟨rfl, hn1, hn2⟩ := hn
    obtain ⟨⟨a, ha, hf1, _⟩, hf2⟩ := hf
    rw [Loops.height] at hh
    rw [arrayLoops]
    have hM : Moved t s b m0 (if first then m else { m with tk := seek m.tk start }) ∧
        (if first then m else { m with tk := seek m.tk start }).bt.data[0]? = some .unknown := by
      cases first with
      | true =>
        simp only [if_true] at hm
        subst hm
        exact ⟨hg.refl, hg.root⟩
      | false =>
        obtain ⟨h1, h2⟩ := hm
        refine ⟨⟨h1.data, ?_, ?_, h1.slots, h1.stall, h1.st, h1.out⟩, h2⟩
        · simp only [Bool.false_eq_true, if_false, seek]; omega
        · have := hg.pos; simp only [Bool.false_eq_true, if_false, seek]; omega
    refine (matchLoop_ends hrec mode ha hn1 hf1 (by omega) .arrayStart (hM.1.good hM.2)).bind ?_
    rintro ⟨x, m'⟩ ⟨h1, h2⟩
    cases x with
    | true =>
      refine ⟨fun _ => hM.1.failed (h1 rfl), fun hx => absurd rfl hx, fun hx => (by cases hx)⟩
    | false =>
      simp only [Bool.false_eq_true, if_false]
      have hM' := hM.1.trans (h2 rfl)
      obtain ⟨p', hst'⟩ := hM'.st
      rcases hst'.cases0 with e | ⟨e, hu⟩
      · rw [e]; exact ⟨fun hx => (by cases hx), fun _ => hM', fun hx => (by cases hx)⟩
      · rw [e]
        exact arrayLoops_ends hrec rest start false hn2 hf2 (by omega) hg hst ⟨hM', hu⟩

/-! ### Nodes -/

theorem finish_none (X : Fns E) (rec : Rec E) (t : Tree) (startPos : Nat) (m : M) : finish X rec t 0 .none startPos m = .ok (false, m) := rfl

theorem opsThen_ends (X : Fns E) {rec : Rec E} {t : Tree} {s : Sh} {b : Nat} {ops : List (Op E)} (hf : ∀ op ∈ ops, IsAtom s b op.bucket)
    (v : FV E) (startPos : Nat) {m : M} (hm : Good t s b m) :
    Ends (fun r => r.1 = false ∧ Moved t s b m r.2) (opsThen X rec t ops v 0 .none startPos m) := by
  unfold opsThen
  refine (ops_ends X (some v) hf hm).bind ?_
  rintro ⟨d, m'⟩ ⟨_, hM, _⟩
  cases d with
  | true => exact ⟨rfl, hM⟩
  | false => exact ⟨rfl, hM⟩

theorem exec_ends (X : Fns E) (t : Tree) (h : Nat) : RecU t h (matchExec X t h) := by
  induction h with
  | zero =>
    intro node ty w m s b hn hf hh hm
    cases node; simp only [Exec.height] at hh; omega
  | succ h ih =>
    intro node ty w m s b hn hf hh hm
    obtain ⟨store, elems, ops, loops, after⟩ := node
    obtain ⟨rfl, hn1, hn2, hn3, rfl⟩ := hn
    obtain ⟨hf1, hf2, hf3, _⟩ := hf
    simp only [Exec.height] at hh
    have hhe : elems.height ≤ h := by omega
    have hhl : loops.height ≤ h := by omega
    rw [matchExec]
    have then_ends : ∀ (v : FV E) (sp : Nat) {m' : M}, Moved t s b m m' → m'.bt.data[0]? = some .unknown →
        Ends (fun r => (r.1 = true → Failed m r.2) ∧ (r.1 = false → Moved t s b m r.2))
          (opsThen X (matchExec X t h) t ops v 0 .none sp m') := by
      intro v sp m' hM hu
      refine (opsThen_ends X hf2 v sp (hM.good hu)).mono (fun r hr => ⟨fun e => ?_, fun _ => hM.trans hr.2⟩)
      rw [hr.1] at e; cases e
    dsimp only
    by_cases hty : ty.isLiteral = true
    · rw [if_pos hty]
      exact (parseLit_ends ty w).bind (fun v _ => then_ends v _ hm.refl hm.root)
    · rw [if_neg hty]
      split
      · unfold execObj
        dsimp only
        split
        · refine (skipValue_ends _ m.tk hm.pos).bind ?_
          rintro ⟨x, k⟩ hk
          exact (sliceOf_ends _ _ _).bind (fun v _ => then_ends _ _ (hm.moved hk.data hk.pos hk.len) hm.root)
        · refine (matchObjArr_ends ih hn1 hf1 hhe false hm).bind ?_
          rintro ⟨e, ret, m'⟩ ⟨h1, h2⟩
          cases e with
          | true =>
            obtain ⟨hr, hF⟩ := h1 rfl
            simp only at hr
            subst hr
            exact ⟨fun _ => hF, fun hx => (by cases hx)⟩
          | false =>
            obtain ⟨hM, hu⟩ := h2 rfl
            simp only [Res.bind_ok]
            cases ret with
            | true => exact ⟨fun hx => (by cases hx), fun _ => hM⟩
            | false =>
              simp only [Bool.false_eq_true, if_false]
              obtain ⟨p', hst'⟩ := hM.st
              rcases hst'.cases0 with e | ⟨e, hu⟩
              · rw [e]; exact ⟨fun hx => (by cases hx), fun _ => hM⟩
              · rw [e]
                simp only [Res.bind_ok, Bool.false_eq_true, if_false]
                exact (sliceOf_ends _ _ _).bind (fun v _ => then_ends _ _ hM hu)
      · unfold execArr
        dsimp only
        split
        · refine (matchObjArr_ends ih hn1 hf1 hhe true hm).bind ?_
          rintro ⟨e, ret, m'⟩ ⟨h1, h2⟩
          cases e with
          | true =>
            obtain ⟨hr, hF⟩ := h1 rfl
            simp only at hr
            subst hr
            exact ⟨fun _ => hF, fun hx => (by cases hx)⟩
          | false =>
            obtain ⟨hM, hu⟩ := h2 rfl
            cases ret with
            | true => exact ⟨fun hx => (by cases hx), fun _ => hM⟩
            | false =>
              simp only [Bool.false_eq_true, if_false]
              exact (sliceOf_ends _ _ _).bind (fun v _ => then_ends _ _ hM (hu rfl))
        · refine (arrayLoops_ends ih loops m.tk.pos true hn3 hf3 hhl hm rfl rfl).bind ?_
          rintro ⟨fl, m'⟩ ⟨h1, h2, h3⟩
          cases fl with
          | go => exact (sliceOf_ends _ _ _).bind (fun v _ => then_ends _ _ (h2 (by simp)) (h3 rfl))
          | done => exact ⟨fun hx => (by cases hx), fun _ => h2 (by simp)⟩
          | err => exact ⟨fun _ => h1 rfl, fun hx => (by cases hx)⟩
      · trivial

/-- A matcher that is new or has been reset. -/
theorem Ready.good {df : Def E} {s : Sh} {node : Exec E} (hw : df.WF s node) {m : M} (hm : Ready df m) {k : Tkn} (hk : k.pos ≤ k.data.length) :
    Good df.tree s 0 { m with tk := k } := by
  have hf := BinTree.newState_fresh df.tree s.size (by have := hw.len; omega)
  have hs : St df.tree s 0 m.bt (fun _ => none) := by
    rw [hm.2]
    exact ⟨⟨⟨0, hw.shaped⟩, Or.inl rfl, Or.inl (Nat.le_refl 0)⟩, by simp [BinTree.newState],
      hf.inv (fun _ _ _ => rfl), by simp, by simp⟩
  refine ⟨⟨_, hs⟩, ?_, hk⟩
  dsimp only
  rw [hm.2]
  exact hf 0 (Nat.le_refl 0) (by have := s.size_pos; omega)

/-- The matcher ends on every input. -/
theorem run_ends (X : Fns E) {df : Def E} {s : Sh} {node : Exec E} (hw : df.WF s node) (hn : node.NoSlots) {m : M} (hm : Ready df m)
    (data : List Nat) : run X df m data ≠ .stuck := by
  refine Ends.ne (Q := fun _ => True) ?_
  unfold run
  dsimp only
  split
  · trivial
  · rcases step_cases (⟨data, 0⟩ : Tkn) (by simp) with ⟨e, hF⟩ | ⟨ty, w, k1, e, hd, hp, hl, _⟩
    · rw [e]; trivial
    · rw [e, hw.parse]
      dsimp only
      have hg := hm.good hw (k := k1) (by rw [hd]; exact hl)
      refine (exec_ends X df.tree node.height node ty w _ s 0 hn hw.fits (Nat.le_refl _) hg).bind ?_
      rintro ⟨x, m'⟩ ⟨_, h2⟩
      cases x with
      | true => trivial
      | false =>
        simp only [Bool.false_eq_true, if_false]
        have hM := h2 rfl
        obtain ⟨p', hst'⟩ := hM.st
        have hstall : m'.bt.stall = 0 := by rw [hM.stall]; simp only [hm.2]; rfl
        obtain ⟨d', q, r1, r2, _⟩ := BinTree.resolve_spec hw.shaped hw.len hstall hst'.len hst'.inv
        rw [r1]
        simp only [Res.bind_ok]
        refine Ends.bind (P := fun _ => True) ?_ (fun _ _ => trivial)
        exact (idx_ends _ _).bind (fun _ _ => trivial)

end Verif.Match
