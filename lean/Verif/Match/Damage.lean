import Verif.Match.Bytes

/-!
# The matcher on a damaged text

Two inputs that have the same tokens up to a position from which on the first cannot be read.  On the first the matcher
reports an error, or has come to its verdict before and it is the verdict of the second.
-/

namespace Verif.Match
open Verif.Token Verif.FastVal
open Verif.BinTree (Tree State Sh SV K Inv Ctx Shaped Fresh)

variable {E : Ext}

/-- If the second call returns, so does the first (or it never ends), with a related result. -/
def Tie {α β : Type} (Q : α → β → Prop) : Res α → Res β → Prop
  | .ok a, .ok b => Q a b
  | .panic, .ok _ => False
  | _, _ => True

theorem Tie.bind {α β α' β' : Type} {Q : α → β → Prop} {P : α → Prop} {Q' : α' → β' → Prop} {x : Res α} {y : Res β} {f : α → Res α'} {g : β → Res β'}
    (h : Tie Q x y) (hP : Ends P x) (hf : ∀ a b, Q a b → P a → Tie Q' (f a) (g b)) : Tie Q' (x >>= f) (y >>= g) := by
  cases x <;> cases y <;> first
    | exact h.elim
    | exact hP.elim
    | exact hf _ _ h hP
    | (simp only [Res.bind_ok, Res.bind_panic, Res.bind_stuck]
       first
         | trivial
         | (rename_i a; cases f a <;> trivial))

theorem Tie.bind' {α β α' β' : Type} {Q : α → β → Prop} {Q' : α' → β' → Prop} {x : Res α} {y : Res β} {f : α → Res α'} {g : β → Res β'}
    (h : Tie Q x y) (hx : x ≠ .stuck) (hf : ∀ a b, Q a b → Tie Q' (f a) (g b)) : Tie Q' (x >>= f) (y >>= g) :=
  h.bind (Ends.of_ne hx) (fun a b hq _ => hf a b hq)

theorem Tie.refl {α : Type} {Q : α → α → Prop} (h : ∀ a, Q a a) (x : Res α) : Tie Q x x := by
  cases x <;> first | exact h _ | trivial

theorem Tie.mono {α β : Type} {Q Q' : α → β → Prop} {x : Res α} {y : Res β} (h : Tie Q x y) (hq : ∀ a b, Q a b → Q' a b) : Tie Q' x y := by
  cases x <;> cases y <;> first | exact hq _ _ h | exact h

theorem Tie.left' {α β : Type} {Q : α → β → Prop} {a : α} {y : Res β} (h : ∀ b, y = .ok b → Q a b) : Tie Q (.ok a) y := by
  cases y <;> first | exact h _ rfl | trivial

theorem Tie.left {α β : Type} {Q : α → β → Prop} {a : α} (h : ∀ b, Q a b) (y : Res β) : Tie Q (.ok a) y := Tie.left' (fun b _ => h b)

theorem Tie.same {α α' β' : Type} {Q' : α' → β' → Prop} {x y : Res α} {f : α → Res α'} {g : α → Res β'} (h : x = y)
    (hf : ∀ a, x = .ok a → Tie Q' (f a) (g a)) : Tie Q' (x >>= f) (y >>= g) := by
  subst h
  cases x <;> first | exact hf _ rfl | trivial

section
variable {D1 D2 : List Nat} {R : Nat → Prop}

/-- From the positions `R` on, the next token of the first input cannot be read, or it is the next token of the second and
leads to such a position again. -/
def Cut (D1 D2 : List Nat) (R : Nat → Prop) : Prop :=
  ∀ p, R p → Fails ⟨D1, p⟩ ∨ ∃ ty w p', R p' ∧ step ⟨D1, p⟩ = (some (ty, w), ⟨D1, p'⟩) ∧ step ⟨D2, p⟩ = (some (ty, w), ⟨D2, p'⟩)

theorem Fails.step {k : Tkn} (h : Fails k) : step k = (none, k) := by
  rcases hs : Token.step k with ⟨r, k'⟩
  rw [Fails, hs] at h
  simp only at h
  subst h
  obtain ⟨rfl, _⟩ := C11_error_does_not_consume k k' hs
  rfl

/-- The tokenizers stand at the same place, or the first cannot read on. -/
def TSim (D1 D2 : List Nat) (R : Nat → Prop) (k1 k2 : Tkn) : Prop :=
  (∃ p, R p ∧ k1 = ⟨D1, p⟩ ∧ k2 = ⟨D2, p⟩) ∨ (Fails k1 ∧ k2.data = D2)

theorem leaveLoop_fails {k : Tkn} (h : Fails k) (f d : Nat) : leaveLoop (f + 1) d k = .ok (true, k) := by
  rw [leaveLoop, h.step]

theorem leaveLoop_data (f : Nat) : ∀ (d : Nat) (k : Tkn) (r : Bool × Tkn), leaveLoop f d k = .ok r → r.2.data = k.data := by
  induction f with
  | zero => intro d k r h; cases h
  | succ f ih =>
    intro d k r h
    rw [leaveLoop] at h
    rcases hs : step k with ⟨o, k'⟩
    rw [hs] at h
    cases o with
    | none =>
      obtain ⟨rfl, _⟩ := C11_error_does_not_consume k k' hs
      simp only [Res.ok.injEq] at h
      subst h; rfl
    | some x =>
      obtain ⟨ty, w⟩ := x
      obtain ⟨hd, _⟩ := step_some hs
      have hi : ∀ d, leaveLoop f d k' = .ok r → r.2.data = k.data := fun d e => (ih d k' r e).trans hd
      cases ty <;> simp only at h <;> first
        | exact hi _ h
        | (split at h
           · simp only [Res.ok.injEq] at h
             subst h; exact hd
           · exact hi _ h)
        | cases h

theorem leaveValue_data {k : Tkn} {r : Bool × Tkn} (h : leaveValue k = .ok r) : r.2.data = k.data := leaveLoop_data _ _ k r h

theorem leaveLoop_tie (hc : Cut D1 D2 R) (f1 : Nat) : ∀ (f2 d p : Nat), R p →
    Tie (fun r1 r2 => TSim D1 D2 R r1.2 r2.2) (leaveLoop f1 d ⟨D1, p⟩) (leaveLoop f2 d ⟨D2, p⟩) := by
  induction f1 with
  | zero => intro f2 d p hp; cases leaveLoop f2 d ⟨D2, p⟩ <;> trivial
  | succ f1 ih =>
    intro f2 d p hp
    rcases hc p hp with hF | ⟨ty, w, p', hp', e1, e2⟩
    · rw [leaveLoop_fails hF]
      exact Tie.left' (fun b hb => Or.inr ⟨hF, leaveLoop_data _ _ _ _ hb⟩)
    · cases f2 with
      | zero => cases leaveLoop (f1 + 1) d ⟨D1, p⟩ <;> trivial
      | succ f2 =>
        rw [leaveLoop, leaveLoop, e1, e2]
        have hq : TSim D1 D2 R ⟨D1, p'⟩ ⟨D2, p'⟩ := Or.inl ⟨p', hp', rfl, rfl⟩
        cases ty <;> simp only <;> first
          | exact ih f2 _ p' hp'
          | (split
             · exact hq
             · exact ih f2 _ p' hp')
          | trivial

theorem leaveValue_tie (hc : Cut D1 D2 R) {k1 k2 : Tkn} (h : TSim D1 D2 R k1 k2) :
    Tie (fun r1 r2 => TSim D1 D2 R r1.2 r2.2) (leaveValue k1) (leaveValue k2) := by
  rcases h with ⟨p, hp, rfl, rfl⟩ | ⟨hF, hd⟩
  · exact leaveLoop_tie hc _ _ 0 p hp
  · rw [leaveValue, leaveLoop_fails hF]
    exact Tie.left' (fun b hb => Or.inr ⟨hF, (leaveValue_data hb).trans hd⟩)

theorem skipValue_tie (hc : Cut D1 D2 R) (ty : Tok) {k1 k2 : Tkn} (h : TSim D1 D2 R k1 k2) :
    Tie (fun r1 r2 => TSim D1 D2 R r1.2 r2.2) (skipValue ty k1) (skipValue ty k2) := by
  have h1 := leaveValue_tie hc h
  cases ty <;> simp only [skipValue] <;> first | exact h1 | exact h | trivial

/-! ### Matchers -/

/-- The matchers agree and stand at the same place. -/
structure Sync (D1 D2 : List Nat) (R : Nat → Prop) (m1 m2 : M) : Prop where
  bt : m1.bt = m2.bt
  coll : m1.coll = m2.coll
  tk : ∃ p, R p ∧ m1.tk = ⟨D1, p⟩ ∧ m2.tk = ⟨D2, p⟩

/-- The matchers agree; the first may be unable to read on. -/
structure MLike (D1 D2 : List Nat) (R : Nat → Prop) (m1 m2 : M) : Prop where
  bt : m1.bt = m2.bt
  coll : m1.coll = m2.coll
  tk : TSim D1 D2 R m1.tk m2.tk

theorem Sync.like {m1 m2 : M} (h : Sync D1 D2 R m1 m2) : MLike D1 D2 R m1 m2 := ⟨h.bt, h.coll, Or.inl h.tk⟩

theorem Sync.move {m1 m2 : M} (h : Sync D1 D2 R m1 m2) {p : Nat} (hp : R p) :
    Sync D1 D2 R { m1 with tk := ⟨D1, p⟩ } { m2 with tk := ⟨D2, p⟩ } := ⟨h.bt, h.coll, p, hp, rfl, rfl⟩

theorem Sync.next (hc : Cut D1 D2 R) {m1 m2 : M} (h : Sync D1 D2 R m1 m2) :
    (step m1.tk = (none, m1.tk) ∧ Fails m1.tk) ∨ ∃ ty w p', R p' ∧ step m1.tk = (some (ty, w), ⟨D1, p'⟩) ∧ step m2.tk = (some (ty, w), ⟨D2, p'⟩) := by
  obtain ⟨p, hp, e1, e2⟩ := h.tk
  rw [e1, e2]
  rcases hc p hp with hF | h
  · exact Or.inl ⟨hF.step, hF⟩
  · exact Or.inr h

theorem MLike.cases {m1 m2 : M} (h : MLike D1 D2 R m1 m2) : Sync D1 D2 R m1 m2 ∨ Fails m1.tk := by
  rcases h.tk with h' | h'
  · exact Or.inl ⟨h.bt, h.coll, h'⟩
  · exact Or.inr h'.1

theorem MLike.data2 {m1 m2 : M} (h : MLike D1 D2 R m1 m2) : m2.tk.data = D2 := by
  rcases h.tk with ⟨p, _, _, e⟩ | ⟨_, e⟩
  · rw [e]
  · exact e

/-! ### Operations -/

theorem opResult_like (X : Fns E) (rd rd' : Nat → Res (FV E)) {v v' : FV E} (hv : VSim v v') {op : Op E} (hn : op.NoSlot) (ho : op.OneSided) :
    opResult X rd (some v) op = opResult X rd' (some v') op := by
  rw [opResult_noSlot X rd rd' (some v) hn]
  exact opResult_sim X (fun s => RSim.of_eq rfl) (show OSim (some v) (some v') from hv) ho

theorem runOps_like (X : Fns E) (t : Tree) (rd rd' : Nat → Res (FV E)) {v v' : FV E} (hv : VSim v v') (ops : List (Op E))
    (hn : ∀ op ∈ ops, op.NoSlot) (ho : ∀ op ∈ ops, op.OneSided) :
    ∀ (bt : State) (coll : Bool), runOps X t rd (some v) ops bt coll = runOps X t rd' (some v') ops bt coll := by
  induction ops with
  | nil => intro bt coll; rfl
  | cons op ops ih =>
    intro bt coll
    rw [runOps, runOps, matchOp, matchOp, opResult_like X rd rd' hv (hn op (by simp)) (ho op (by simp))]
    have := ih (fun o h => hn o (by simp [h])) (fun o h => ho o (by simp [h]))
    simp only [this]

/-- The outcome of a node: an error, or the same on both sides. -/
def ExecB (D1 D2 : List Nat) (R : Nat → Prop) (r1 r2 : Bool × M) : Prop :=
  r1.1 = true ∨ (r1.1 = false ∧ r2.1 = false ∧ MLike D1 D2 R r1.2 r2.2)

theorem ExecB.err (m : M) (y : Res (Bool × M)) : Tie (ExecB D1 D2 R) (.ok (true, m)) y := by
  cases y <;> first | exact Or.inl rfl | trivial

theorem opsThen_tie (X : Fns E) (rec : Rec E) (t : Tree) {ops : List (Op E)} (hn : ∀ op ∈ ops, op.NoSlot) (ho : ∀ op ∈ ops, op.OneSided)
    {v v' : FV E} (hv : VSim v v') (sp sp' : Nat) {m1 m2 : M} (h : MLike D1 D2 R m1 m2) :
    Tie (ExecB D1 D2 R) (opsThen X rec t ops v 0 .none sp m1) (opsThen X rec t ops v' 0 .none sp' m2) := by
  unfold opsThen opsM
  have e := runOps_like X t (literalFromSlot m1) (literalFromSlot m2) hv ops hn ho m1.bt m1.coll
  rw [e, ← h.bt, ← h.coll]
  cases hr : runOps X t (literalFromSlot m2) (some v') ops m1.bt m1.coll with
  | ok a =>
    obtain ⟨d, bt', c⟩ := a
    simp only [Res.bind_ok]
    have hl : MLike D1 D2 R { m1 with bt := bt', coll := c } { m2 with bt := bt', coll := c } := ⟨rfl, rfl, h.tk⟩
    cases d with
    | true => exact Or.inr ⟨rfl, rfl, hl⟩
    | false => exact Or.inr ⟨rfl, rfl, hl⟩
  | panic => trivial
  | stuck => trivial

/-! ### Objects and arrays -/

/-- The recursive calls behave alike. -/
def RecB (D1 D2 : List Nat) (R : Nat → Prop) (t : Tree) (h : Nat) (rec : Rec E) : Prop :=
  ∀ (node : Exec E) ty w m1 m2 s b, node.NoSlots → node.OneSided → node.Fits s b → node.height ≤ h → Good t s b m1 → Sync D1 D2 R m1 m2 →
    Tie (ExecB D1 D2 R) (rec node ty w m1) (rec node ty w m2)

theorem objValue_tie (hc : Cut D1 D2 R) {t : Tree} {h : Nat} {rec : Rec E} (hu : RecU t h rec) (hrec : RecB D1 D2 R t h rec) {elems : Elems E} {s : Sh} {b : Nat}
    (hn : elems.NoSlots) (ho : elems.OneSided) (hf : elems.Fits s b) (hh : elems.height ≤ h) (key : List Nat) (ty : Tok) (w : List Nat) {m1 m2 : M}
    (hm : Good t s b m1) (hs : Sync D1 D2 R m1 m2) :
    Tie (fun r1 r2 => (r1.1 = false ∧ Fails r1.2.tk) ∨ (r1.1 = r2.1 ∧ MLike D1 D2 R r1.2 r2.2))
      (objValue rec elems key ty w m1) (objValue rec elems key ty w m2) := by
  unfold objValue
  split
  · rename_i e he
    have hhe := Nat.le_trans (Elems.height_find he) hh
    refine (hrec e ty w m1 m2 s b (hn.find he) (ho.find he) (hf.find he) hhe hm hs).bind
      (hu e ty w m1 s b (hn.find he) (hf.find he) hhe hm) ?_
    rintro ⟨x1, m1'⟩ ⟨x2, m2'⟩ hB ⟨h1, h2⟩
    rcases hB with hx | ⟨hx, hx2, hl⟩
    · have hF := h1 hx
      have : BinTree.isResolved m1'.bt 0 = .ok false := by simp [BinTree.isResolved, Res.idx_of_some hF.root]
      rw [this]
      simp only [Res.bind_ok]
      cases (BinTree.isResolved m2'.bt 0 >>= fun d => Res.ok (d, m2')) <;> first | exact Or.inl ⟨rfl, hF.fails⟩ | trivial
    · rw [show m2'.bt = m1'.bt from hl.bt.symm]
      exact Tie.same rfl (fun d _ => Or.inr ⟨rfl, hl⟩)
  · refine (skipValue_tie hc ty (Or.inl hs.tk)).bind (skipValue_ends ty m1.tk hm.pos) ?_
    rintro ⟨x1, k1⟩ ⟨x2, k2⟩ hk _
    exact Or.inr ⟨rfl, hs.bt, hs.coll, hk⟩

/-- The outcome of walking over an object or array. -/
def WalkB (D1 D2 : List Nat) (R : Nat → Prop) (r1 r2 : Bool × Bool × M) : Prop :=
  r1.1 = true ∨ (r1.1 = false ∧ r2.1 = false ∧ r1.2.1 = r2.2.1 ∧ MLike D1 D2 R r1.2.2 r2.2.2)

theorem WalkB.err (m : M) (y : Res (Bool × Bool × M)) : Tie (WalkB D1 D2 R) (.ok (true, true, m)) y := by
  cases y <;> first | exact Or.inl rfl | trivial

theorem objItem_tie (hc : Cut D1 D2 R) {t : Tree} {h : Nat} {rec : Rec E} (hu : RecU t h rec) (hrec : RecB D1 D2 R t h rec) {elems : Elems E} {s : Sh} {b : Nat}
    (hn : elems.NoSlots) (ho : elems.OneSided) (hf : elems.Fits s b) (hh : elems.height ≤ h) (arr : Bool) (idx : Nat)
    {k1 k2 : M → Res (Bool × Bool × M)} {m1 m2 : M} (hm : Good t s b m1) (hs : Sync D1 D2 R m1 m2)
    (hk1 : ∀ m1' m2', Good t s b m1' → Moved t s b m1 m1' → Sync D1 D2 R m1' m2' → Tie (WalkB D1 D2 R) (k1 m1') (k2 m2'))
    (hk2 : ∀ m', Fails m'.tk → k1 m' = .stuck ∨ k1 m' = .ok (true, true, m')) :
    Tie (WalkB D1 D2 R) (objItem rec elems arr idx k1 m1) (objItem rec elems arr idx k2 m2) := by
  have hpos : ∀ {p ty w} {k : Tkn}, step k = (some (ty, w), ⟨D1, p⟩) → k.data = m1.tk.data → m1.tk.pos ≤ k.pos → k.pos ≤ m1.tk.data.length →
      D1 = m1.tk.data ∧ m1.tk.pos ≤ p ∧ p ≤ m1.tk.data.length := by
    intro p ty w k e hd h1 h2
    rcases step_cases k (by rw [hd]; exact h2) with ⟨e', _⟩ | ⟨ty', w', k', e', hd', hp, hl, _⟩
    · rw [e'] at e; simp at e
    · rw [e'] at e
      simp only [Prod.mk.injEq] at e
      obtain ⟨_, rfl⟩ := e
      simp only at hd' hp hl
      rw [hd] at hl hd'
      exact ⟨hd', by omega, hl⟩
  unfold objItem
  rcases hs.next hc with ⟨e, hF⟩ | ⟨ty, w, p1, hp1, e1, e2⟩
  · rw [e]; exact WalkB.err _ _
  · rw [e1, e2]
    obtain ⟨hd1, hle1, hlen1⟩ := hpos e1 rfl (Nat.le_refl _) hm.pos
    have hm1 := hm.tk (k := ⟨D1, p1⟩) hd1 hlen1
    have hM1 := hm.moved (k := ⟨D1, p1⟩) hd1 hle1 hlen1
    have hs1 := hs.move hp1
    dsimp only
    have fin : ∀ {n1 : M} (r1 r2 : Bool × M), Moved t s b m1 n1 →
        ((r1.1 = false ∧ Fails r1.2.tk) ∨ (r1.1 = r2.1 ∧ MLike D1 D2 R r1.2 r2.2)) →
        ((r1.1 = true → Moved t s b n1 r1.2) ∧ (r1.1 = false → (Moved t s b n1 r1.2 ∧ r1.2.bt.data[0]? = some .unknown) ∨ Failed n1 r1.2)) →
        Tie (WalkB D1 D2 R) (if r1.1 then .ok (false, true, r1.2) else k1 r1.2) (if r2.1 then .ok (false, true, r2.2) else k2 r2.2) := by
      rintro n1 ⟨x1, m1'⟩ ⟨x2, m2'⟩ hM hB ⟨_, hU⟩
      have hfail : x1 = false → Fails m1'.tk →
          ∀ y, Tie (WalkB D1 D2 R) (if x1 = true then Res.ok (false, true, m1') else k1 m1') y := by
        intro hx hF y
        subst hx
        simp only [Bool.false_eq_true, if_false]
        rcases hk2 m1' hF with e | e
        · rw [e]; cases y <;> trivial
        · rw [e]; exact WalkB.err _ _
      rcases hB with ⟨hx, hF⟩ | ⟨hx, hl⟩
      · exact hfail hx hF _
      · simp only at hx
        subst hx
        cases x1 with
        | true => exact Or.inr ⟨rfl, rfl, rfl, hl⟩
        | false =>
          rcases hl.cases with hs' | hF
          · rcases hU rfl with ⟨hM', hr⟩ | hF
            · simp only [Bool.false_eq_true, if_false]
              exact hk1 m1' m2' (hM'.good hr) (hM.trans hM') hs'
            · exact hfail rfl hF.fails _
          · exact hfail rfl hF _
    by_cases hend : ty = (if arr then Tok.arrayEnd else .objectEnd)
    · rw [if_pos hend, if_pos hend]; exact Or.inr ⟨rfl, rfl, rfl, hs1.like⟩
    · rw [if_neg hend, if_neg hend]
      refine Tie.same rfl (fun key _ => ?_)
      cases arr with
      | true =>
        simp only [if_true]
        exact (objValue_tie hc hu hrec hn ho hf hh (indexKey idx) ty w hm1 hs1).bind (objValue_ends hu hn hf hh (indexKey idx) ty w hm1)
          (fun r1 r2 hq hP => fin r1 r2 hM1 hq hP)
      | false =>
        simp only [Bool.false_eq_true, if_false]
        rcases hs1.next hc with ⟨e, hF⟩ | ⟨ty2, w2, p2, hp2, e3, e4⟩
        · simp only at e; rw [e]; exact WalkB.err _ _
        · simp only at e3 e4
          rw [e3, e4]
          obtain ⟨hd2, hle2, hlen2⟩ := hpos e3 hd1 hle1 hlen1
          dsimp only
          split
          · trivial
          · have hs2 := hs.move hp2
            rcases hs2.next hc with ⟨e, hF⟩ | ⟨ty3, w3, p3, hp3, e5, e6⟩
            · simp only at e; rw [e]; exact WalkB.err _ _
            · simp only at e5 e6
              rw [e5, e6]
              obtain ⟨hd3, hle3, hlen3⟩ := hpos e5 hd2 hle2 hlen2
              have hm3 := hm.tk (k := ⟨D1, p3⟩) hd3 hlen3
              have hM3 := hm.moved (k := ⟨D1, p3⟩) hd3 hle3 hlen3
              exact (objValue_tie hc hu hrec hn ho hf hh key ty3 w3 hm3 (hs.move hp3)).bind (objValue_ends hu hn hf hh key ty3 w3 hm3)
                (fun r1 r2 hq hP => fin r1 r2 hM3 hq hP)

theorem objLoop_err {rec : Rec E} {elems : Elems E} {arr : Bool} (fuel : Nat) (idx : Nat) {m : M} (hf : Fails m.tk) :
    objLoop rec elems arr fuel idx m = .stuck ∨ objLoop rec elems arr fuel idx m = .ok (true, true, m) := by
  cases fuel with
  | zero => exact Or.inl rfl
  | succ fuel => right; rw [objLoop, hf.step]

theorem objLoop_tie (hc : Cut D1 D2 R) {t : Tree} {h : Nat} {rec : Rec E} (hu : RecU t h rec) (hrec : RecB D1 D2 R t h rec) {elems : Elems E} {s : Sh} {b : Nat}
    (hn : elems.NoSlots) (ho : elems.OneSided) (hf : elems.Fits s b) (hh : elems.height ≤ h) (arr : Bool) (f1 : Nat) :
    ∀ (f2 idx : Nat) {m1 m2 : M}, Good t s b m1 → Sync D1 D2 R m1 m2 →
      Tie (WalkB D1 D2 R) (objLoop rec elems arr f1 idx m1) (objLoop rec elems arr f2 idx m2) := by
  induction f1 with
  | zero => intro f2 idx m1 m2 _ _; cases objLoop rec elems arr f2 idx m2 <;> trivial
  | succ f1 ih =>
    intro f2 idx m1 m2 hm hs
    cases f2 with
    | zero => cases objLoop rec elems arr (f1 + 1) idx m1 <;> trivial
    | succ f2 =>
      rw [objLoop, objLoop]
      rcases hs.next hc with ⟨e, hF⟩ | ⟨ty, w, p1, hp1, e1, e2⟩
      · rw [e]; exact WalkB.err _ _
      · rw [e1, e2]
        have hs1 := hs.move hp1
        rcases step_cases m1.tk hm.pos with ⟨e', _⟩ | ⟨ty', w', k', e', hd', hp, hl, _⟩
        · rw [e'] at e1; simp at e1
        · rw [e'] at e1
          simp only [Prod.mk.injEq] at e1
          obtain ⟨_, rfl⟩ := e1
          have hm1 := hm.tk hd' hl
          cases ty <;> dsimp only <;> first
            | trivial
            | exact Or.inr ⟨rfl, rfl, rfl, hs1.like⟩
            | exact objItem_tie hc hu hrec hn ho hf hh arr (idx + 1) hm1 hs1 (fun a b hg _ hab => ih f2 (idx + 1) hg hab)
                (fun m' hF => objLoop_err f1 (idx + 1) hF)

theorem matchObjArr_tie (hc : Cut D1 D2 R) {t : Tree} {h : Nat} {rec : Rec E} (hu : RecU t h rec) (hrec : RecB D1 D2 R t h rec) {elems : Elems E} {s : Sh} {b : Nat}
    (hn : elems.NoSlots) (ho : elems.OneSided) (hf : elems.Fits s b) (hh : elems.height ≤ h) (arr : Bool) {m1 m2 : M} (hm : Good t s b m1)
    (hs : Sync D1 D2 R m1 m2) : Tie (WalkB D1 D2 R) (matchObjArr rec elems arr m1) (matchObjArr rec elems arr m2) :=
  objItem_tie hc hu hrec hn ho hf hh arr 0 hm hs (fun _ _ hg _ hab => objLoop_tie hc hu hrec hn ho hf hh arr _ _ 0 hg hab)
    (fun _ hF => objLoop_err _ 0 hF)

/-! ### Loops -/

/-- The outcome of the iterations. -/
def LoopB (D1 D2 : List Nat) (R : Nat → Prop) (r1 r2 : Option Bool × M) : Prop :=
  r1.1 = none ∨ (r1.1 = r2.1 ∧ MLike D1 D2 R r1.2 r2.2)

theorem LoopB.err (m : M) (y : Res (Option Bool × M)) : Tie (LoopB D1 D2 R) (.ok (none, m)) y := by
  cases y <;> first | exact Or.inl rfl | trivial

theorem loopItem_tie (hc : Cut D1 D2 R) {t : Tree} {h : Nat} {rec : Rec E} (hu : RecU t h rec) (hrec : RecB D1 D2 R t h rec) {bucket : Nat} (mode : Mode)
    {node : Exec E} {a : Sh} {par : Nat} (hsh : Shaped t a bucket par) (hb : 0 < bucket) (hn : node.NoSlots) (ho : node.OneSided) (hf : node.Fits a bucket)
    (hh : node.height ≤ h) {k1 k2 : Bool → M → Res (Option Bool × M)} (st : Bool) {m1 m2 : M} (hm : InLoop t bucket m1) (hs : Sync D1 D2 R m1 m2)
    (hk1 : ∀ st m1' m2', InLoop t bucket m1' → Sync D1 D2 R m1' m2' → Tie (LoopB D1 D2 R) (k1 st m1') (k2 st m2'))
    (hk2 : ∀ st m', Fails m'.tk → k1 st m' = .stuck ∨ k1 st m' = .ok (none, m')) :
    Tie (LoopB D1 D2 R) (loopItem rec t bucket mode node k1 st m1) (loopItem rec t bucket mode node k2 st m2) := by
  unfold loopItem
  rcases hs.next hc with ⟨e, hF⟩ | ⟨ty, w, p1, hp1, e1, e2⟩
  · rw [e]; exact LoopB.err _ _
  · rw [e1, e2]
    have hs1 := hs.move hp1
    rcases step_cases m1.tk hm.pos with ⟨e', _⟩ | ⟨ty', w', k', e', hd', hp, hl, _⟩
    · rw [e'] at e1; simp at e1
    · rw [e'] at e1
      simp only [Prod.mk.injEq] at e1
      obtain ⟨_, rfl⟩ := e1
      dsimp only
      split
      · exact Or.inr ⟨rfl, hs1.like⟩
      · obtain ⟨d', r1, r2, r3, r4⟩ := BinTree.resetNode_spec hsh m1.bt hm.blen
        rw [← hs.bt, r1]
        simp only [Res.bind_ok]
        have hroot : d'[0]? = some .unknown := by rw [r4 0 (Or.inl hb)]; exact hm.root
        have hst : St t a bucket { m1.bt with data := d' } (fun _ => none) :=
          ⟨⟨⟨par, hsh⟩, Or.inr hm.stall.symm, Or.inl (Nat.le_of_eq hm.stall)⟩, r2,
            r3.inv (fun _ _ _ => rfl), by simp, fun _ => hroot⟩
        have hg : Good t a bucket { m1 with tk := ⟨D1, p1⟩, bt := { m1.bt with data := d' } } := ⟨⟨_, hst⟩, hroot, by rw [← hd'] at hl; exact hl⟩
        have hsy : Sync D1 D2 R { m1 with tk := ⟨D1, p1⟩, bt := { m1.bt with data := d' } } { m2 with tk := ⟨D2, p1⟩, bt := { m1.bt with data := d' } } :=
          ⟨rfl, hs.coll, p1, hp1, rfl, rfl⟩
        refine (hrec node ty w _ _ a bucket hn ho hf hh hg hsy).bind (hu node ty w _ a bucket hn hf hh hg) ?_
        rintro ⟨x1, m1'⟩ ⟨x2, m2'⟩ hB ⟨_, h2⟩
        rcases hB with hx | ⟨hx, hx2, hlk⟩
        · simp only at hx
          subst hx
          exact LoopB.err _ _
        · simp only at hx hx2
          subst hx hx2
          simp only [Bool.false_eq_true, if_false]
          have hM := h2 rfl
          obtain ⟨p', hst'⟩ := hM.st
          have hlen := hM.len
          have hR : InLoop t bucket m1' := by
            refine ⟨hst'.len, ?_, hM.stall.trans hm.stall, by rw [hM.data]; exact hlen⟩
            rw [hM.out 0 (Or.inl hb)]; exact hroot
          rw [show m2'.bt = m1'.bt from hlk.bt.symm]
          refine Tie.same rfl (fun it _ => ?_)
          split
          · refine (leaveValue_tie hc hlk.tk).bind (leaveValue_ends m1'.tk hR.pos) ?_
            rintro ⟨y1, q1⟩ ⟨y2, q2⟩ hk _
            exact Or.inr ⟨rfl, rfl, hlk.coll, hk⟩
          · rcases hlk.cases with hs' | hF
            · exact hk1 _ m1' m2' hR hs'
            · rcases hk2 (mode.next it st) m1' hF with e | e
              · rw [e]; cases k2 (mode.next it st) m2' <;> trivial
              · rw [e]; exact LoopB.err _ _

theorem loopLoop_err {rec : Rec E} {t : Tree} {bucket : Nat} {mode : Mode} {node : Exec E} (fuel : Nat) (st : Bool) {m : M} (hf : Fails m.tk) :
    loopLoop rec t bucket mode node fuel st m = .stuck ∨ loopLoop rec t bucket mode node fuel st m = .ok (none, m) := by
  cases fuel with
  | zero => exact Or.inl rfl
  | succ fuel => right; rw [loopLoop, hf.step]

theorem loopLoop_tie (hc : Cut D1 D2 R) {t : Tree} {h : Nat} {rec : Rec E} (hu : RecU t h rec) (hrec : RecB D1 D2 R t h rec) {bucket : Nat} (mode : Mode)
    {node : Exec E} {a : Sh} {par : Nat} (hsh : Shaped t a bucket par) (hb : 0 < bucket) (hn : node.NoSlots) (ho : node.OneSided) (hf : node.Fits a bucket)
    (hh : node.height ≤ h) (f1 : Nat) : ∀ (f2 : Nat) (st : Bool) {m1 m2 : M}, InLoop t bucket m1 → Sync D1 D2 R m1 m2 →
      Tie (LoopB D1 D2 R) (loopLoop rec t bucket mode node f1 st m1) (loopLoop rec t bucket mode node f2 st m2) := by
  induction f1 with
  | zero => intro f2 st m1 m2 _ _; cases loopLoop rec t bucket mode node f2 st m2 <;> trivial
  | succ f1 ih =>
    intro f2 st m1 m2 hm hs
    cases f2 with
    | zero => cases loopLoop rec t bucket mode node (f1 + 1) st m1 <;> trivial
    | succ f2 =>
      rw [loopLoop, loopLoop]
      rcases hs.next hc with ⟨e, hF⟩ | ⟨ty, w, p1, hp1, e1, e2⟩
      · rw [e]; exact LoopB.err _ _
      · rw [e1, e2]
        have hs1 := hs.move hp1
        rcases step_cases m1.tk hm.pos with ⟨e', _⟩ | ⟨ty', w', k', e', hd', hp, hl, _⟩
        · rw [e'] at e1; simp at e1
        · rw [e'] at e1
          simp only [Prod.mk.injEq] at e1
          obtain ⟨_, rfl⟩ := e1
          obtain ⟨hm1, _⟩ := hm.tk a hd' hp hl
          cases ty <;> dsimp only <;> first
            | trivial
            | exact Or.inr ⟨rfl, hs1.like⟩
            | exact loopItem_tie hc hu hrec mode hsh hb hn ho hf hh st hm1 hs1 (fun st a b hg hab => ih f2 st hg hab)
                (fun st m' hF => loopLoop_err f1 st hF)

theorem matchLoop_tie (hc : Cut D1 D2 R) {t : Tree} {h : Nat} {rec : Rec E} (hu : RecU t h rec) (hrec : RecB D1 D2 R t h rec) {bucket : Nat} (mode : Mode)
    {node : Exec E} {s a : Sh} {b : Nat} (hla : LoopAt s b bucket a) (hn : node.NoSlots) (ho : node.OneSided) (hf : node.Fits a bucket)
    (hh : node.height ≤ h) (ty : Tok) {m1 m2 : M} (hm : Good t s b m1) (hs : Sync D1 D2 R m1 m2) :
    Tie (ExecB D1 D2 R) (matchLoop rec t bucket mode node ty m1) (matchLoop rec t bucket mode node ty m2) := by
  unfold matchLoop
  split
  · exact Or.inr ⟨rfl, rfl, hs.like⟩
  · obtain ⟨hsub, hat, hlt⟩ := hla.sub
    obtain ⟨p, hst⟩ := hm.st
    obtain ⟨par0, hsh0⟩ := hst.ctx.shaped
    obtain ⟨par, hsh⟩ := BinTree.SubAt.shaped hsub hsh0
    rw [← hs.bt]
    refine Tie.same rfl (fun res _ => ?_)
    cases res with
    | true =>
      simp only [if_true]
      refine (skipValue_tie hc ty (Or.inl hs.tk)).bind (skipValue_ends ty m1.tk hm.pos) ?_
      rintro ⟨x1, k1⟩ ⟨x2, k2⟩ hk _
      exact Or.inr ⟨rfl, rfl, rfl, hs.coll, hk⟩
    | false =>
      simp only [Bool.false_eq_true, if_false]
      have hb : 0 < bucket := by omega
      have hin : InLoop t bucket { m1 with bt := (BinTree.setStallIndex m1.bt bucket).1 } := ⟨hst.len, hm.root, rfl, hm.pos⟩
      have hsy : Sync D1 D2 R { m1 with bt := (BinTree.setStallIndex m1.bt bucket).1 } { m2 with bt := (BinTree.setStallIndex m1.bt bucket).1 } :=
        ⟨rfl, hs.coll, hs.tk⟩
      refine Tie.bind (P := fun _ => True) (loopItem_tie hc hu hrec mode hsh hb hn ho hf hh mode.init hin hsy
        (fun st m1' m2' hg hab => loopLoop_tie hc hu hrec mode hsh hb hn ho hf hh _ _ st hg hab) (fun st m' hF => loopLoop_err _ st hF)) ?_ ?_
      · refine (loopItem_ends hu mode hsh hb hn hf hh mode.init hin ?_).mono (fun _ _ => trivial)
        intro st m' hR
        refine loopLoop_ends hu mode hsh hb hn hf hh _ st (hR.inLoop hb hin.root) ?_
        rw [hR.data]; dsimp only; omega
      · rintro ⟨o1, m1'⟩ ⟨o2, m2'⟩ hB _
        rcases hB with hx | ⟨hx, hl⟩
        · simp only at hx
          subst hx
          exact ExecB.err _ _
        · simp only at hx
          subst hx
          cases o1 with
          | none => exact Or.inl rfl
          | some x =>
            dsimp only
            rw [show m2'.bt = m1'.bt from hl.bt.symm]
            refine Tie.same rfl (fun bt1 _ => Tie.same rfl (fun bt2 _ => ?_))
            exact Or.inr ⟨rfl, rfl, rfl, hl.coll, hl.tk⟩

/-- The outcome of the loops over an array. -/
def FlowB (D1 D2 : List Nat) (R : Nat → Prop) (r1 r2 : Flow × M) : Prop :=
  r1.1 = .err ∨ (r1.1 = r2.1 ∧ MLike D1 D2 R r1.2 r2.2)

theorem FlowB.err (m : M) (y : Res (Flow × M)) : Tie (FlowB D1 D2 R) (.ok (.err, m)) y := by
  cases y <;> first | exact Or.inl rfl | trivial

theorem arrayLoops_tie (hc : Cut D1 D2 R) {t : Tree} {h : Nat} {rec : Rec E} (hu : RecU t h rec) (hrec : RecB D1 D2 R t h rec) {s : Sh} {b : Nat} (loops : Loops E) :
    ∀ (start : Nat) (first : Bool) {m0 m1 m2 : M}, loops.NoSlots → loops.OneSided → loops.Fits s b → loops.height ≤ h → Good t s b m0 → m0.tk = ⟨D1, start⟩ →
      R start → (if first then Sync D1 D2 R m1 m2 ∧ m1 = m0 else MLike D1 D2 R m1 m2 ∧ Moved t s b m0 m1 ∧ m1.bt.data[0]? = some .unknown) →
      Tie (FlowB D1 D2 R) (arrayLoops rec t start loops first m1) (arrayLoops rec t start loops first m2) := by
  match loops with
  | .nil =>
    intro start first m0 m1 m2 _ _ _ _ _ _ _ hm
    rw [arrayLoops, arrayLoops]
    cases first with
    | true => exact Or.inr ⟨rfl, hm.1.like⟩
    | false => exact Or.inr ⟨rfl, hm.1⟩
  | .cons bucket mode target node rest =>
    intro start first m0 m1 m2 hn ho hf hh hg hst hR hm
    obtain ⟨rfl, hn1, hn2⟩ := hn
    obtain ⟨ho1, ho2⟩ := ho
    obtain ⟨⟨a, ha, hf1, _⟩, hf2⟩ := hf
    rw [Loops.height] at hh
    rw [arrayLoops, arrayLoops]
    have hM : (Moved t s b m0 (if first then m1 else { m1 with tk := seek m1.tk start }) ∧
        (if first then m1 else { m1 with tk := seek m1.tk start }).bt.data[0]? = some .unknown) ∧
        Sync D1 D2 R (if first then m1 else { m1 with tk := seek m1.tk start }) (if first then m2 else { m2 with tk := seek m2.tk start }) := by
      cases first with
      | true =>
        simp only [if_true] at hm
        obtain ⟨hs, rfl⟩ := hm
        exact ⟨⟨hg.refl, hg.root⟩, hs⟩
      | false =>
        obtain ⟨hl, h1, h2⟩ := hm
        have hd2 := hl.data2
        have hd1 : m1.tk.data = D1 := by rw [h1.data, hst]
        refine ⟨⟨⟨h1.data, ?_, ?_, h1.slots, h1.stall, h1.st, h1.out⟩, h2⟩, hl.bt, hl.coll, start, hR, ?_, ?_⟩
        · simp only [Bool.false_eq_true, if_false, seek, hst]; omega
        · have := hg.pos; simp only [Bool.false_eq_true, if_false, seek]; rw [hst] at this ⊢; exact this
        · simp only [Bool.false_eq_true, if_false, seek, hd1]
        · simp only [Bool.false_eq_true, if_false, seek, hd2]
    refine (matchLoop_tie hc hu hrec mode ha hn1 ho1 hf1 (by omega) .arrayStart (hM.1.1.good hM.1.2) hM.2).bind
      (matchLoop_ends hu mode ha hn1 hf1 (by omega) .arrayStart (hM.1.1.good hM.1.2)) ?_
    rintro ⟨x1, m1'⟩ ⟨x2, m2'⟩ hB ⟨_, hU⟩
    rcases hB with hx | ⟨hx, hx2, hl⟩
    · simp only at hx
      subst hx
      exact FlowB.err _ _
    · simp only at hx hx2
      subst hx hx2
      simp only [Bool.false_eq_true, if_false]
      have hM' := hM.1.1.trans (hU rfl)
      obtain ⟨p', hst'⟩ := hM'.st
      rw [show m2'.bt = m1'.bt from hl.bt.symm]
      rcases hst'.cases0 with e | ⟨e, hu'⟩
      · rw [e]; exact Or.inr ⟨rfl, hl⟩
      · rw [e]
        exact arrayLoops_tie hc hu hrec rest start false hn2 ho2 hf2 (by omega) hg hst hR ⟨hl, hM', hu'⟩

/-! ### Nodes -/

theorem sliceOf_ok {data : List Nat} {a b : Nat} (h1 : a ≤ b) (h2 : b ≤ data.length) : sliceOf data a b = .ok (slice data a b) := by
  rw [sliceOf, if_pos ⟨h1, h2⟩]

theorem sliceOf_inv {data : List Nat} {a b : Nat} {x : List Nat} (h : sliceOf data a b = .ok x) : x = slice data a b := by
  unfold sliceOf at h; split at h <;> cases h; rfl

theorem exec_tie (hc : Cut D1 D2 R) (X : Fns E) (t : Tree) (h : Nat) : RecB D1 D2 R t h (matchExec X t h) := by
  induction h with
  | zero =>
    intro node ty w m1 m2 s b hn ho hf hh hm hs
    cases node; simp only [Exec.height] at hh; omega
  | succ h ih =>
    intro node ty w m1 m2 s b hn ho hf hh hm hs
    have hu := exec_ends X t h
    obtain ⟨store, elems, ops, loops, after⟩ := node
    obtain ⟨rfl, hn1, hn2, hn3, rfl⟩ := hn
    obtain ⟨ho1, ho2, ho3, _⟩ := ho
    obtain ⟨hf1, hf2, hf3, _⟩ := hf
    simp only [Exec.height] at hh
    have hhe : elems.height ≤ h := by omega
    have hhl : loops.height ≤ h := by omega
    obtain ⟨p, hR, t1, t2⟩ := hs.tk
    have then_obj : ∀ {m1' m2' : M} (mk : List Nat → FV E) (sp : Nat), (∀ x y, VSim (mk x) (mk y)) → Moved t s b m1 m1' → MLike D1 D2 R m1' m2' →
        Tie (ExecB D1 D2 R) (sliceOf m1.tk.data (m1.tk.pos - 1) m1'.tk.pos >>= fun x => opsThen X (matchExec X t h) t ops (mk x) 0 .none sp m1')
          (sliceOf m2.tk.data (m2.tk.pos - 1) m2'.tk.pos >>= fun x => opsThen X (matchExec X t h) t ops (mk x) 0 .none sp m2') := by
      intro m1' m2' mk sp hmk hM hl
      rw [sliceOf_ok (by have := hM.pos; omega) hM.len]
      simp only [Res.bind_ok]
      cases hsl : sliceOf m2.tk.data (m2.tk.pos - 1) m2'.tk.pos with
      | ok y => exact opsThen_tie X _ t hn2 ho2 (hmk _ _) sp sp hl
      | panic => simp only [Res.bind_panic]; cases opsThen X (matchExec X t h) t ops (mk _) 0 .none sp m1' <;> trivial
      | stuck => simp only [Res.bind_stuck]; cases opsThen X (matchExec X t h) t ops (mk _) 0 .none sp m1' <;> trivial
    have hobj : ∀ x y, VSim (E := E) ⟨.obj x, false⟩ ⟨.obj y, false⟩ := fun x y => Or.inr (Or.inl ⟨x, y, false, rfl, rfl⟩)
    have harr : ∀ x y, VSim (E := E) ⟨.arr x, false⟩ ⟨.arr y, false⟩ := fun x y => Or.inr (Or.inr ⟨x, y, false, rfl, rfl⟩)
    rw [matchExec]
    dsimp only
    by_cases hty : ty.isLiteral = true
    · rw [if_pos hty, if_pos hty]
      exact Tie.same rfl (fun v _ => opsThen_tie X _ t hn2 ho2 (VSim.rfl' v) _ _ hs.like)
    · rw [if_neg hty, if_neg hty]
      have hsp : m1.tk.pos = m2.tk.pos := by rw [t1, t2]
      split
      · unfold execObj
        dsimp only
        rw [hsp]
        split
        · refine (skipValue_tie hc .objectStart (Or.inl hs.tk)).bind (skipValue_ends _ m1.tk hm.pos) ?_
          rintro ⟨x1, k1⟩ ⟨x2, k2⟩ hk hU
          have := then_obj (m1' := { m1 with tk := k1 }) (m2' := { m2 with tk := k2 }) (fun x => ⟨.obj x, false⟩) (m2.tk.pos - w.length) hobj
            (hm.moved hU.data hU.pos hU.len) ⟨hs.bt, hs.coll, hk⟩
          rw [hsp] at this
          exact this
        · refine (matchObjArr_tie hc hu ih hn1 ho1 hf1 hhe false hm hs).bind (matchObjArr_ends hu hn1 hf1 hhe false hm) ?_
          rintro ⟨e1, ret1, m1'⟩ ⟨e2, ret2, m2'⟩ hB ⟨h1, h2⟩
          rcases hB with hx | ⟨hx, hx2, hr, hl⟩
          · simp only at hx
            subst hx
            obtain ⟨hr, hF⟩ := h1 rfl
            simp only at hr
            subst hr
            exact ExecB.err _ _
          · simp only at hx hx2 hr
            subst hx hx2 hr
            obtain ⟨hM, _⟩ := h2 rfl
            simp only [Res.bind_ok]
            cases ret1 with
            | true => exact Or.inr ⟨rfl, rfl, hl⟩
            | false =>
              simp only [Bool.false_eq_true, if_false]
              rw [show m2'.bt = m1'.bt from hl.bt.symm]
              refine Tie.same rfl (fun d _ => ?_)
              cases d with
              | true => exact Or.inr ⟨rfl, rfl, hl⟩
              | false =>
                simp only [Bool.false_eq_true, if_false]
                have := then_obj (fun x => ⟨.obj x, false⟩) (m2.tk.pos - w.length) hobj hM hl
                rw [hsp] at this
                exact this
      · unfold execArr
        dsimp only
        rw [hsp]
        split
        · refine (matchObjArr_tie hc hu ih hn1 ho1 hf1 hhe true hm hs).bind (matchObjArr_ends hu hn1 hf1 hhe true hm) ?_
          rintro ⟨e1, ret1, m1'⟩ ⟨e2, ret2, m2'⟩ hB ⟨h1, h2⟩
          rcases hB with hx | ⟨hx, hx2, hr, hl⟩
          · simp only at hx
            subst hx
            obtain ⟨hr, hF⟩ := h1 rfl
            simp only at hr
            subst hr
            exact ExecB.err _ _
          · simp only at hx hx2 hr
            subst hx hx2 hr
            obtain ⟨hM, _⟩ := h2 rfl
            cases ret1 with
            | true => exact Or.inr ⟨rfl, rfl, hl⟩
            | false =>
              simp only [Bool.false_eq_true, if_false]
              have := then_obj (fun x => ⟨.arr x, false⟩) (m2.tk.pos - w.length) harr hM hl
              rw [hsp] at this
              exact this
        · refine (arrayLoops_tie hc hu ih loops m2.tk.pos true hn3 ho3 hf3 hhl hm (by rw [t1, t2]) (by rw [t2]; exact hR) ⟨hs, rfl⟩).bind
            (arrayLoops_ends hu loops m2.tk.pos true hn3 hf3 hhl hm hsp rfl) ?_
          rintro ⟨f1, m1'⟩ ⟨f2, m2'⟩ hB ⟨_, h2, _⟩
          rcases hB with hx | ⟨hx, hl⟩
          · simp only at hx
            subst hx
            exact ExecB.err _ _
          · simp only at hx
            subst hx
            cases f1 with
            | go =>
              have := then_obj (fun x => ⟨.arr x, false⟩) (m2.tk.pos - w.length) harr (h2 (by simp)) hl
              rw [hsp] at this
              exact this
            | done => exact Or.inr ⟨rfl, rfl, hl⟩
            | err => exact Or.inl rfl
      · trivial

/-- The outcome of `Match`: an error, or the same on both sides. -/
def RunB (r1 r2 : Option Bool × M) : Prop := r1.1 = none ∨ (r1.1 = r2.1 ∧ r1.2.bt = r2.2.bt ∧ r1.2.coll = r2.2.coll)

theorem RunB.err (m : M) (y : Res (Option Bool × M)) : Tie RunB (.ok (none, m)) y := by
  cases y <;> first | exact Or.inl rfl | trivial

/-- On the first input `Match` reports an error or ends with the verdict, the collation flag and the decisions of the second. -/
theorem run_tie (hc : Cut D1 D2 R) (h0 : R 0) (hne : D1 ≠ []) (hne2 : D2 ≠ []) (X : Fns E) {df : Def E} {s : Sh} {node : Exec E} (hw : df.WF s node)
    (hn : node.NoSlots) (ho : node.OneSided) {m : M} (hm : Ready df m) :
    Tie RunB (run X df m D1) (run X df m D2) := by
  unfold run
  dsimp only
  rw [if_neg hne, if_neg hne2]
  rcases hc 0 h0 with hF | ⟨ty, w, p', hp', e1, e2⟩
  · rw [hF.step]; exact RunB.err _ _
  · rw [e1, e2, hw.parse]
    dsimp only
    rcases step_cases ⟨D1, 0⟩ (by simp) with ⟨e', _⟩ | ⟨ty', w', k', e', hd', hp, hl, _⟩
    · rw [e'] at e1; simp at e1
    · rw [e'] at e1
      simp only [Prod.mk.injEq] at e1
      obtain ⟨_, rfl⟩ := e1
      have hg := hm.good hw (k := ⟨D1, p'⟩) hl
      have hsy : Sync D1 D2 R { m with tk := ⟨D1, p'⟩ } { m with tk := ⟨D2, p'⟩ } := ⟨rfl, rfl, p', hp', rfl, rfl⟩
      refine (exec_tie hc X df.tree node.height node ty w _ _ s 0 hn ho hw.fits (Nat.le_refl _) hg hsy).bind
        (exec_ends X df.tree node.height node ty w _ s 0 hn hw.fits (Nat.le_refl _) hg) ?_
      rintro ⟨x1, m1'⟩ ⟨x2, m2'⟩ hB _
      rcases hB with hx | ⟨hx, hx2, hl⟩
      · simp only at hx
        subst hx
        exact RunB.err _ _
      · simp only at hx hx2
        subst hx hx2
        simp only [Bool.false_eq_true, if_false]
        rw [show m2'.bt = m1'.bt from hl.bt.symm]
        refine Tie.same rfl (fun bt1 _ => Tie.same rfl (fun v _ => ?_))
        exact Or.inr ⟨rfl, rfl, hl.coll⟩
end

/-! ### Damaged texts -/

/-- A byte that occurs in no JSON text outside of strings. -/
def Foreign (x : Nat) : Prop :=
  x ∉ [0x20, 0x09, 0x0A, 0x0D, 0x7B, 0x7D, 0x5B, 0x5D, 0x3A, 0x2C, 0x22, 0x2D, 0x2B, 0x2E, 0x65, 0x45, 0x74, 0x66, 0x6E] ∧ ¬ (0x30 ≤ x ∧ x ≤ 0x39)

theorem Foreign.act {x : Nat} (h : Foreign x) : act .beginValue x = .fail := by
  obtain ⟨h1, h2⟩ := h
  simp only [List.mem_cons, List.not_mem_nil, or_false, not_or] at h1
  have h3 : isSpace x = false := by simp [isSpace]; omega
  have h4 : isDigit19 x = false := by simp [isDigit19]; omega
  simp only [Token.act, actBeginValue, h3, h4]
  repeat' first | rw [if_neg (by omega)] | rw [if_neg (by simp)]

theorem Foreign.fails {x : Nat} (h : Foreign x) {k : Tkn} {ws rest : List Nat} (hws : IsWs ws) (hd : k.data.drop k.pos = ws ++ x :: rest) : Fails k := by
  have hlt : k.pos < k.data.length := drop_lt hd (by simp)
  unfold Fails step
  rw [if_neg (by omega), hd, scan_ws ws hws, scan_fail h.act]

/-- The scan looks at one byte beyond the token. -/
theorem scan_local : ∀ (l : List Nat) (pos : Nat) (st : TS) (start : Nat) (esc ni : Bool) (ty : Tok) (s e : Nat), scan l pos st start esc ni = .tok ty s e →
    pos ≤ e ∧ ∀ (j : Nat) (l' : List Nat), e < pos + j → j ≤ l.length → l'.take j = l.take j → scan l' pos st start esc ni = .tok ty s e := by
  intro l
  induction l with
  | nil =>
    intro pos st start esc ni ty s e h
    have he : e = pos := by
      cases st <;> simp only [scan] at h <;> first | (cases h; rfl) | cases h
    subst he
    exact ⟨Nat.le_refl _, fun j l' h1 h2 _ => by simp at h2; omega⟩
  | cons c rest ih =>
    intro pos st start esc ni ty s e h
    have hcons : ∀ {j : Nat} {l' : List Nat}, 0 < j → l'.take j = (c :: rest).take j → ∃ r', l' = c :: r' ∧ r'.take (j - 1) = rest.take (j - 1) := by
      intro j l' hj he
      obtain ⟨i, rfl⟩ : ∃ i, j = i + 1 := ⟨j - 1, by omega⟩
      cases l' with
      | nil => simp at he
      | cons c' r' =>
        simp only [List.take_succ_cons, List.cons.injEq] at he
        exact ⟨r', by rw [he.1], he.2⟩
    simp only [scan] at h
    cases ha : act st c with
    | skip =>
      rw [ha] at h
      obtain ⟨h1, h2⟩ := ih _ _ _ _ _ _ _ _ h
      refine ⟨by omega, fun j l' hj hl he => ?_⟩
      obtain ⟨r', rfl, hr⟩ := hcons (by omega) he
      simp only [scan, ha]
      exact h2 (j - 1) r' (by omega) (by simp at hl; omega) hr
    | cont st' =>
      rw [ha] at h
      obtain ⟨h1, h2⟩ := ih _ _ _ _ _ _ _ _ h
      refine ⟨by omega, fun j l' hj hl he => ?_⟩
      obtain ⟨r', rfl, hr⟩ := hcons (by omega) he
      simp only [scan, ha]
      exact h2 (j - 1) r' (by omega) (by simp at hl; omega) hr
    | done t =>
      rw [ha] at h
      simp only [Out.tok.injEq] at h
      refine ⟨by omega, fun j l' hj hl he => ?_⟩
      obtain ⟨r', rfl, hr⟩ := hcons (by omega) he
      simp only [scan, ha]
      simp only [Out.tok.injEq]; exact h
    | rewind =>
      rw [ha] at h
      simp only [Out.tok.injEq] at h
      refine ⟨by omega, fun j l' hj hl he => ?_⟩
      obtain ⟨r', rfl, hr⟩ := hcons (by omega) he
      simp only [scan, ha]
      simp only [Out.tok.injEq]; exact h
    | fail => rw [ha] at h; cases h

theorem step_local {D1 D2 : List Nat} {p p' n : Nat} {ty : Tok} {w : List Nat} (h : step ⟨D2, p⟩ = (some (ty, w), ⟨D2, p'⟩)) (hlt : p' < n) (hn : n ≤ D2.length)
    (hd : D1.take n = D2.take n) : step ⟨D1, p⟩ = (some (ty, w), ⟨D1, p'⟩) := by
  have hl1 : n ≤ D1.length := by
    have := congrArg List.length hd
    simp only [List.length_take] at this
    omega
  unfold step at h ⊢
  simp only at h ⊢
  by_cases hp : p ≥ D2.length
  · rw [if_pos hp] at h
    simp at h; omega
  · rw [if_neg hp] at h
    split at h
    · simp at h
    · rename_i ty' a b hs
      simp only [Prod.mk.injEq, Option.some.injEq, Tkn.mk.injEq, true_and] at h
      obtain ⟨⟨rfl, rfl⟩, rfl⟩ := h
      obtain ⟨h1, h2⟩ := scan_local _ _ _ _ _ _ _ _ _ hs
      rw [if_neg (by omega)]
      have := h2 (n - p) (D1.drop p) (by omega) (by simp; omega) (by rw [← List.drop_take, ← List.drop_take, hd])
      rw [this]
      simp only [Prod.mk.injEq, Option.some.injEq, true_and, and_true]
      unfold slice
      rw [← List.drop_take, ← List.drop_take]
      have : D1.take b = D2.take b := by
        have := congrArg (List.take b) hd
        rw [List.take_take, List.take_take, Nat.min_eq_left (by omega)] at this
        exact this
      rw [this]

/-- Reading tokens moves forward. -/
theorem Reads.le {k k' : Tkn} {ts : List (Tok × List Nat)} (h : Reads k ts k') (hk : k.pos ≤ k.data.length) :
    k.pos ≤ k'.pos ∧ k'.pos ≤ k.data.length := by
  induction ts generalizing k with
  | nil => rw [show k' = k from h]; exact ⟨Nat.le_refl _, hk⟩
  | cons t ts ih =>
    obtain ⟨k1, e, h'⟩ := h
    rcases step_cases k hk with ⟨e', _⟩ | ⟨ty', w', k2, e', hd', hp, hl, _⟩
    · rw [e'] at e; simp at e
    · rw [e'] at e
      simp only [Prod.mk.injEq] at e
      obtain ⟨_, rfl⟩ := e
      have := ih h' (by rw [hd']; exact hl)
      rw [hd'] at this
      omega

/-- A text whose first tokens are followed by something that is no token. -/
theorem cut_of_reads {D2 : List Nat} {n x : Nat} {rest : List Nat} (hn : n ≤ D2.length) (hx : Foreign x) :
    Cut (D2.take n ++ x :: rest) D2 (fun p => p ≤ D2.length ∧ ∃ ts, Reads ⟨D2, p⟩ ts ⟨D2, n⟩) := by
  rintro p ⟨hp, ts, hr⟩
  have hle := (Reads.le hr hp).1
  simp only at hle
  have hdrop : (D2.take n ++ x :: rest).drop p = (D2.drop p).take (n - p) ++ x :: rest := by
    rw [List.drop_append_of_le_length (by simp; omega), List.drop_take]
  cases ts with
  | nil =>
    have : n = p := congrArg Tkn.pos (show (⟨D2, n⟩ : Tkn) = ⟨D2, p⟩ from hr)
    subst this
    refine Or.inl (hx.fails (ws := []) (rest := rest) (by simp [IsWs]) ?_)
    simp [hdrop]
  | cons t ts =>
    obtain ⟨ty, w⟩ := t
    obtain ⟨k1, e, hr'⟩ := hr
    obtain ⟨hd, hcase⟩ := step_some e
    obtain ⟨d1, p1⟩ := k1
    simp only at hd hcase
    subst hd
    rcases hcase with ⟨_, _, ⟨ws, hws, hdr⟩, _⟩ | ⟨ht, ws, post, hws, hdr, hp1, hl1⟩
    · refine Or.inl (hx.fails (ws := ws.take (n - p)) (rest := rest) (fun c hc => hws c (List.mem_of_mem_take hc)) ?_)
      simp only [hdrop, hdr]
    · have hle1 := (Reads.le hr' hl1).1
      simp only at hle1
      refine Or.inr ⟨ty, w, p1, ⟨hl1, ts, hr'⟩, ?_, e⟩
      rcases Nat.lt_or_ge p1 n with hlt | hge
      · exact step_local e hlt hn (by rw [List.take_append_of_le_length (by simp; omega), List.take_take]; simp)
      · have hpn : p1 = n := by omega
        have hwl : (ws ++ w).length = n - p := by simp only [List.length_append]; omega
        have := step_tok (k := ⟨d1.take n ++ x :: rest, p⟩) (ws := ws) (w := w) (post := x :: rest) (ty := ty)
          (by simp only [hdrop, hdr]; rw [← List.append_assoc ws w post, List.take_append_of_le_length (by omega), List.take_of_length_le (by omega)]; simp)
          hws ht ?_
        · rw [this, hp1]
        · intro _ c hc
          simp only [List.head?_cons, Option.mem_def, Option.some.injEq] at hc
          subst hc
          obtain ⟨h1, h2⟩ := hx
          simp only [List.mem_cons, List.not_mem_nil, or_false, not_or] at h1
          exact ⟨h2, by omega, by omega, by omega⟩

end Verif.Match
