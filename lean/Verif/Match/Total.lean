import Verif.Match.Sound
import Verif.Match.Reset

/-!
# Matching well-formed documents never fails

For definitions whose references make sense (`Safe`), every document has decisions; so `Match` on its text returns a
verdict.
-/

namespace Verif.Match
open Verif.Token Verif.FastVal
open Verif.BinTree (Sh)

variable {E : Ext}

/-! ### Definitions whose references make sense -/

/-- A constant that can be divided by. -/
def Divisor (v : FV E) : Prop := ∀ a, ¬ Crashes a v.d

def Refs.nth : Refs E → Nat → Option (Ref E)
  | .nil, _ => none
  | .cons p _, 0 => some p
  | .cons _ ps, n + 1 => ps.nth n

mutual
  /-- Slots are in range, the active literal is there if used, functions have their parameters, and divisors are nonzero
  constants. -/
  def Ref.Safe (n : Nat) (lit : Bool) : Ref E → Prop
    | .val _ => True
    | .lit => lit = true
    | .slot s => 0 < s ∧ s ≤ n
    | .fn f ps => f ≠ .other ∧ ps.Safe n lit f.arity ∧
        ((f = .div ∨ f = .mod) → ∃ v, ps.nth 1 = some (.val v) ∧ Divisor v)

  /-- The first `k` parameters are there and safe. -/
  def Refs.Safe (n : Nat) (lit : Bool) : Nat → Refs E → Prop
    | 0, _ => True
    | _ + 1, .nil => False
    | k + 1, .cons p ps => p.Safe n lit ∧ ps.Safe n lit k
end

def Op.Safe (n : Nat) (lit : Bool) (op : Op E) : Prop :=
  op.op ≠ .in_ ∧ (∀ r ∈ op.lhs, r.Safe n lit) ∧ (∀ r ∈ op.rhs, r.Safe n lit)

mutual
  def Exec.Safe (n : Nat) : Exec E → Prop
    | .mk store es ops ls a => store ≤ n ∧ es.Safe n ∧ (∀ op ∈ ops, op.Safe n true) ∧ ls.Safe n none ∧ a.Safe n
  def Elems.Safe (n : Nat) : Elems E → Prop
    | .nil => True
    | .cons _ e r => e.Safe n ∧ r.Safe n
  /-- `slot = none`: loops of a node; otherwise those of an `AfterNode`. -/
  def Loops.Safe (n : Nat) (slot : Option Unit) : Loops E → Prop
    | .nil => True
    | .cons _ _ target e r =>
      (match slot with
        | none => target = none
        | some _ => ∃ s, target = some (.slot s) ∧ 0 < s ∧ s ≤ n) ∧ e.Safe n ∧ r.Safe n slot
  def After.Safe (n : Nat) : After E → Prop
    | .none => True
    | .some ops ls => (∀ op ∈ ops, op.Safe n false) ∧ ls.Safe n (some ())
end

theorem Elems.Safe.find {n : Nat} {es : Elems E} (h : es.Safe n) {k e} (he : es.find k = some e) : e.Safe n := by
  match es, h with
  | .cons k' e' r, h =>
    rw [Elems.find] at he
    split at he
    · simp at he; subst he; exact h.1
    · exact Elems.Safe.find (es := r) h.2 he

theorem Elems.height_find {es : Elems E} {k e} (he : es.find k = some e) : e.height ≤ es.height := by
  match es with
  | .cons k' e' r =>
    rw [Elems.find] at he
    rw [Elems.height]
    split at he
    · simp at he; subst he; omega
    · have := Elems.height_find (es := r) he; omega

/-! ### Values -/

def IsOk {α : Type} (x : Res α) : Prop := ∃ a, x = .ok a

theorem parseString_ok {w : List Nat} (h : 2 ≤ w.length) : IsOk (Lit.parseString w) := by
  unfold Lit.parseString; rw [if_neg (by omega)]; exact ⟨_, rfl⟩

theorem parseEscString_ok {w : List Nat} (h : 2 ≤ w.length) : IsOk (Lit.parseEscString w) := by
  unfold Lit.parseEscString; rw [if_neg (by omega)]
  rcases Lit.C16_never_longer ((w.drop 1).take (w.length - 2)) with h | ⟨_, h, _⟩ <;> rw [h] <;> exact ⟨_, rfl⟩

theorem parseLit_ok {ty : Tok} {w : List Nat} (h1 : ty.isLiteral = true) (h2 : TokText ty w) : IsOk (parseLit (E := E) ty w) := by
  cases h2 with
  | @string b h =>
    obtain ⟨s, hs⟩ := parseString_ok (w := 0x22 :: (b ++ [0x22])) (by simp)
    exact ⟨_, by rw [parseLit, hs]; rfl⟩
  | @escString b h =>
    obtain ⟨s, hs⟩ := parseEscString_ok (w := 0x22 :: (b ++ [0x22])) (by simp)
    exact ⟨_, by rw [parseLit, hs]; rfl⟩
  | _ => first | exact ⟨_, rfl⟩ | simp [Tok.isLiteral] at h1

theorem valOf_ok {d : D} (h : d.WF) : IsOk (valOf (E := E) d) := by
  cases d with
  | lit ty w => exact parseLit_ok (Token.scalar_iff.1 h.1) h.2
  | arr ws es => exact ⟨_, rfl⟩
  | obj ws ms => exact ⟨_, rfl⟩

/-- Slots hold well-formed parts. -/
def SlotsWF (n : Nat) (σ : Slots) : Prop := σ.length = n ∧ ∀ (d : D), some d ∈ σ → d.WF

theorem slotVal_ok {r : D} (hr : r.WF) {n : Nat} {σ : Slots} (hσ : SlotsWF n σ) {s : Nat} (h1 : 0 < s) (h2 : s ≤ n) :
    IsOk (slotVal (E := E) r σ s) := by
  unfold slotVal
  rw [if_neg (by omega)]
  have hlt : s - 1 < σ.length := by have := hσ.1; omega
  rw [Res.idx_of_some (List.getElem?_eq_getElem hlt)]
  simp only [Res.bind_ok]
  cases hd : σ[s - 1] with
  | some d => exact valOf_ok (hσ.2 d (by rw [← hd]; exact List.getElem_mem hlt))
  | none =>
    cases r with
    | lit ty w => exact parseLit_ok (Token.scalar_iff.1 hr.1) hr.2
    | _ => exact ⟨_, rfl⟩

theorem op2Ints_ok (a b : Data E) (op : BitVec 64 → BitVec 64 → BitVec 64) : IsOk (op2Ints a b (fun x y => .ok (op x y))) := by
  unfold op2Ints; split <;> exact ⟨_, rfl⟩

theorem op2Uints_ok (a b : Data E) (op : BitVec 64 → BitVec 64 → BitVec 64) : IsOk (op2Uints a b (fun x y => .ok (op x y))) := by
  unfold op2Uints; split <;> exact ⟨_, rfl⟩

theorem op2Floats_ok (a b : Data E) (op : E.F → E.F → E.F) : IsOk (op2Floats a b op) := by
  unfold op2Floats; split <;> exact ⟨_, rfl⟩

theorem addMul_ok (a b : Data E) (op fop) : IsOk (addMul a b op fop) := by
  unfold addMul
  repeat' split
  all_goals first | exact op2Ints_ok _ _ _ | exact op2Uints_ok _ _ _ | exact op2Floats_ok _ _ _ | exact ⟨_, rfl⟩

theorem mathSub_ok (a b : Data E) : IsOk (mathSub a b) := by
  unfold mathSub
  repeat' split
  all_goals first
    | exact op2Ints_ok _ _ (· - ·) | exact op2Uints_ok _ _ (· - ·) | exact op2Uints_ok _ _ (· + ·)
    | exact op2Floats_ok _ _ _ | exact ⟨_, rfl⟩

theorem op2Ints_notStuck (a b : Data E) {op : BitVec 64 → BitVec 64 → Res (BitVec 64)} (h : ∀ x y, op x y ≠ .stuck) :
    op2Ints a b op ≠ .stuck := by
  unfold op2Ints
  split
  · simp
  · cases ho : op a.asInt.1 b.asInt.1 with
    | stuck => exact absurd ho (h _ _)
    | _ => simp

theorem op2Uints_notStuck (a b : Data E) {op : BitVec 64 → BitVec 64 → Res (BitVec 64)} (h : ∀ x y, op x y ≠ .stuck) :
    op2Uints a b op ≠ .stuck := by
  unfold op2Uints
  split
  · simp
  · cases ho : op a.asUint.1 b.asUint.1 with
    | stuck => exact absurd ho (h _ _)
    | _ => simp

theorem ok_notStuck {α : Type} {x : Res α} (h : IsOk x) : x ≠ .stuck := by
  obtain ⟨a, rfl⟩ := h; simp

theorem divMod_notStuck (a b : Data E) {sop uop : BitVec 64 → BitVec 64 → Res (BitVec 64)} {wide fl : Res (FV E)}
    (h1 : ∀ x y, sop x y ≠ .stuck) (h2 : ∀ x y, uop x y ≠ .stuck) (h3 : wide ≠ .stuck) (h4 : fl ≠ .stuck) :
    divMod a b sop uop wide fl ≠ .stuck := by
  unfold divMod
  repeat' split
  all_goals first
    | exact op2Ints_notStuck _ _ h1 | exact op2Uints_notStuck _ _ h2 | exact h3 | exact h4 | simp

theorem ok_of {α : Type} {x : Res α} (h1 : x ≠ .panic) (h2 : x ≠ .stuck) : IsOk x := by
  cases x with
  | ok a => exact ⟨a, rfl⟩
  | panic => exact absurd rfl h1
  | stuck => exact absurd rfl h2

theorem div_ok (a b : Data E) (h : ¬ Crashes a b) : IsOk (mathDiv a b) ∧ IsOk (mathMod a b) := by
  have hc := C21_crash_iff_partial a b
  constructor
  · refine ok_of (fun e => h (hc.1.1 e)) ?_
    unfold mathDiv
    split
    · exact ok_notStuck (op2Floats_ok _ _ _)
    · exact divMod_notStuck a b (by intro x y; unfold sdivOp; split <;> simp) (by intro x y; unfold udivOp; split <;> simp)
        (ok_notStuck (op2Floats_ok _ _ _)) (ok_notStuck (op2Floats_ok _ _ _))
  · refine ok_of (fun e => h (hc.2.1 e)) ?_
    unfold mathMod
    exact divMod_notStuck a b (by intro x y; unfold sremOp; split <;> simp) (by intro x y; unfold umodOp; split <;> simp)
      (by simp) (by simp)

/-- A function whose arguments are there and whose divisor is not zero does not fail. -/
theorem applyFn_ok (X : Fns E) (f : FName) (vs : List (FV E)) (h0 : f ≠ .other) (h1 : vs.length = f.arity)
    (h2 : (f = .div ∨ f = .mod) → ∀ a, ∀ v ∈ vs[1]?, ¬ Crashes a v.d) : IsOk (applyFn X f vs) := by
  match vs, f with
  | _, .other => exact absurd rfl h0
  | [], .abs | [], .round | [], .date | [], .neg | [], .un _ | [], .bin _ | [], .add | [], .sub | [], .mul | [], .div
  | [], .mod => simp [FName.arity] at h1
  | p :: _, .abs => exact ⟨_, rfl⟩
  | p :: _, .round => exact ⟨_, rfl⟩
  | p :: _, .date => exact ⟨_, rfl⟩
  | p :: _, .neg => exact ⟨_, rfl⟩
  | p :: _, .un f => exact ⟨_, rfl⟩
  | [p], .bin _ | [p], .add | [p], .sub | [p], .mul | [p], .div | [p], .mod => simp [FName.arity] at h1
  | p :: q :: _, .bin f => exact op2Floats_ok _ _ _
  | p :: q :: _, .add => exact addMul_ok _ _ _ _
  | p :: q :: _, .sub => exact mathSub_ok _ _
  | p :: q :: _, .mul => exact addMul_ok _ _ _ _
  | p :: q :: _, .div => exact (div_ok _ _ (h2 (Or.inl rfl) _ q (by simp))).1
  | p :: q :: _, .mod => exact (div_ok _ _ (h2 (Or.inr rfl) _ q (by simp))).2

section
variable (X : Fns E) {rd : Nat → Res (FV E)} {lit : Option (FV E)} {n : Nat} {hl : Bool}

mutual
  theorem resolveParam_ok (hrd : ∀ s, 0 < s → s ≤ n → IsOk (rd s)) (hlit : hl = true → lit ≠ none) :
      ∀ r : Ref E, r.Safe n hl → IsOk (resolveParam X rd lit r)
    | .val v, _ => ⟨v, rfl⟩
    | .lit, h => by
      cases hlv : lit with
      | none => exact absurd hlv (hlit h)
      | some v => exact ⟨v, by rw [resolveParam]⟩
    | .slot s, h => hrd s h.1 h.2
    | .fn f ps, h => by
      obtain ⟨h0, h1, h2⟩ := h
      obtain ⟨vs, e1, e2, e3⟩ := resolveParams_ok hrd hlit f.arity ps h1
      rw [resolveParam, e1]
      refine applyFn_ok X f vs h0 e2 (fun hf a v hv => ?_)
      obtain ⟨w, hw1, hw2⟩ := h2 hf
      have : vs[1]? = some w := e3 1 w (by rcases hf with rfl | rfl <;> decide) hw1
      rw [this] at hv
      cases hv
      exact hw2 a

  theorem resolveParams_ok (hrd : ∀ s, 0 < s → s ≤ n → IsOk (rd s)) (hlit : hl = true → lit ≠ none) :
      ∀ (k : Nat) (ps : Refs E), ps.Safe n hl k → ∃ vs, resolveParams X rd lit k ps = .ok vs ∧ vs.length = k ∧
        ∀ i v, i < k → ps.nth i = some (.val v) → vs[i]? = some v
    | 0, ps, _ => ⟨[], by rw [resolveParams.eq_def], rfl, by intro i v h; omega⟩
    | k + 1, .nil, h => h.elim
    | k + 1, .cons p ps, h => by
      obtain ⟨v, e1⟩ := resolveParam_ok hrd hlit p h.1
      obtain ⟨vs, e2, e3, e4⟩ := resolveParams_ok hrd hlit k ps h.2
      refine ⟨v :: vs, by rw [resolveParams, e1]; simp only [Res.bind_ok, e2], by simp [e3], ?_⟩
      intro i w hi hw
      cases i with
      | zero =>
        simp only [Refs.nth] at hw
        cases hw
        rw [resolveParam] at e1
        cases e1; rfl
      | succ i => simpa using e4 i w (by omega) hw
end

theorem opResult_ok (hrd : ∀ s, 0 < s → s ≤ n → IsOk (rd s)) (hlit : hl = true → lit ≠ none) {op : Op E} (h : op.Safe n hl) :
    IsOk (opResult X rd lit op) := by
  obtain ⟨h1, h2, h3⟩ := h
  have side : ∀ o : Option (Ref E), (∀ r ∈ o, r.Safe n hl) → IsOk (opSide X rd lit o) := by
    intro o ho
    cases o with
    | none => exact ⟨_, rfl⟩
    | some r =>
      obtain ⟨v, e⟩ := resolveParam_ok X hrd hlit r (ho r rfl)
      exact ⟨_, by rw [opSide, e]; rfl⟩
  obtain ⟨l, el⟩ := side _ h2
  obtain ⟨r, er⟩ := side _ h3
  have he : IsOk (evalOp op.op l.1 r.1) := by
    cases ho : op.op <;> first | exact ⟨_, rfl⟩ | exact absurd ho h1
  obtain ⟨o, eo⟩ := he
  unfold opResult
  rw [el]
  simp only [Res.bind_ok, er]
  split
  · exact ⟨_, rfl⟩
  · rw [eo]; exact ⟨_, rfl⟩

end

/-! ### Walking -/

theorem dOps_ok (X : Fns E) {r : D} (hr : r.WF) {n : Nat} {σ : Slots} (hσ : SlotsWF n σ) {lit : Option (FV E)} {hl : Bool}
    (hlit : hl = true → lit ≠ none) (ops : List (Op E)) (h : ∀ op ∈ ops, op.Safe n hl) : IsOk (dOps X r σ lit ops) := by
  induction ops with
  | nil => exact ⟨_, rfl⟩
  | cons op ops ih =>
    obtain ⟨o, e⟩ := opResult_ok X (rd := slotVal r σ) (fun s h1 h2 => slotVal_ok hr hσ h1 h2) hlit (h op (by simp))
    obtain ⟨l, el⟩ := ih (fun o ho => h o (by simp [ho]))
    rw [dOps, e]
    simp only [Res.bind_ok, el]
    exact ⟨_, rfl⟩

/-- The recursive calls succeed on nodes of height below `h`. -/
def RecOk (n h : Nat) (rec : DRec E) : Prop :=
  ∀ node d σ, node.height ≤ h → node.Safe n → d.WF → SlotsWF n σ → ∃ a, rec node d σ = .ok a ∧ SlotsWF n a.2

theorem dItems_ok {n h : Nat} {rec : DRec E} (hrec : RecOk n h rec) (sh : Nat → Sh) (bucket : Nat) (mode : Mode) {node : Exec E}
    (hh : node.height ≤ h) (hn : node.Safe n) {σ : Slots} (hσ : SlotsWF n σ) (es : Es) :
    es.WF → ∀ st, IsOk (dItems rec sh bucket mode node σ es st) := by
  match es with
  | .nil => intro _ st; exact ⟨_, rfl⟩
  | .cons d _ _ rest =>
    intro he st
    obtain ⟨a, ha, _⟩ := hrec node d σ hh hn he.1 hσ
    rw [dItems, ha]
    simp only [Res.bind_ok]
    split
    · exact ⟨_, rfl⟩
    · exact dItems_ok hrec sh bucket mode hh hn hσ rest he.2.2.2 _

theorem dLoop_ok {n h : Nat} {rec : DRec E} (hrec : RecOk n h rec) (sh : Nat → Sh) (bucket : Nat) (mode : Mode) {node : Exec E}
    (hh : node.height ≤ h) (hn : node.Safe n) {σ : Slots} (hσ : SlotsWF n σ) {d : D} (hd : d.WF) :
    IsOk (dLoop rec sh bucket mode node d σ) := by
  cases d with
  | arr ws es =>
    obtain ⟨b, hb⟩ := dItems_ok hrec sh bucket mode hh hn hσ es hd.2 mode.init
    exact ⟨_, by rw [dLoop, hb]; rfl⟩
  | _ => exact ⟨_, rfl⟩

theorem dAfterLoops_ok {n h : Nat} {rec : DRec E} (hrec : RecOk n h rec) (sh : Nat → Sh) {r : D} (hr : r.WF) {σ : Slots}
    (hσ : SlotsWF n σ) (loops : Loops E) : loops.height ≤ h → loops.Safe n (some ()) → IsOk (dAfterLoops rec sh r σ loops) := by
  match loops with
  | .nil => intro _ _; exact ⟨_, rfl⟩
  | .cons bucket mode target node rest =>
    intro hh hs
    obtain ⟨⟨s, rfl, hs1, hs2⟩, hn, hrest⟩ := hs
    rw [Loops.height] at hh
    rw [dAfterLoops.eq_def]
    simp only
    rw [if_neg (by omega)]
    have hlt : s - 1 < σ.length := by have := hσ.1; omega
    rw [Res.idx_of_some (List.getElem?_eq_getElem hlt)]
    simp only [Res.bind_ok]
    have hwf : (σ[s - 1].getD r).WF := by
      cases hd : σ[s - 1] with
      | none => exact hr
      | some d => exact hσ.2 d (by rw [← hd]; exact List.getElem_mem hlt)
    obtain ⟨l, el⟩ := dLoop_ok hrec sh bucket mode (node := node) (by omega) hn hσ hwf
    obtain ⟨l', el'⟩ := dAfterLoops_ok hrec sh hr hσ rest (by omega) hrest
    rw [el]
    simp only [Res.bind_ok, el']
    exact ⟨_, rfl⟩

theorem dArrayLoops_ok {n h : Nat} {rec : DRec E} (hrec : RecOk n h rec) (sh : Nat → Sh) {d : D} (hd : d.WF) {σ : Slots}
    (hσ : SlotsWF n σ) (loops : Loops E) : loops.height ≤ h → loops.Safe n none → IsOk (dArrayLoops rec sh d σ loops) := by
  match loops with
  | .nil => intro _ _; exact ⟨_, rfl⟩
  | .cons bucket mode target node rest =>
    intro hh hs
    obtain ⟨rfl, hn, hrest⟩ := hs
    rw [Loops.height] at hh
    rw [dArrayLoops.eq_def]
    simp only
    obtain ⟨l, el⟩ := dLoop_ok hrec sh bucket mode (node := node) (by omega) hn hσ hd
    obtain ⟨l', el'⟩ := dArrayLoops_ok hrec sh hd hσ rest (by omega) hrest
    rw [el]
    simp only [Res.bind_ok, el']
    exact ⟨_, rfl⟩

theorem dAfter_ok (X : Fns E) {n h : Nat} {rec : DRec E} (hrec : RecOk n h rec) (sh : Nat → Sh) {r : D} (hr : r.WF) {σ : Slots}
    (hσ : SlotsWF n σ) (after : After E) (hh : after.height ≤ h) (hs : after.Safe n) : IsOk (dAfter X rec sh r σ after) := by
  cases after with
  | none => exact ⟨_, rfl⟩
  | some ops loops =>
    obtain ⟨l, el⟩ := dAfterLoops_ok hrec sh hr hσ loops hh hs.2
    obtain ⟨l', el'⟩ := dOps_ok X hr hσ (lit := none) (hl := false) (by simp) ops hs.1
    rw [dAfter, el]
    simp only [Res.bind_ok, el']
    exact ⟨_, rfl⟩

theorem dFinish_ok (X : Fns E) {n h : Nat} {rec : DRec E} (hrec : RecOk n h rec) (sh : Nat → Sh) {r : D} (hr : r.WF) {σ : Slots}
    (hσ : SlotsWF n σ) {store : Nat} {after : After E} {d : D} (hd : d.WF) (hh : after.height ≤ h) (hs : after.Safe n)
    (hst : store ≤ n) : ∃ a, dFinish X rec sh r store after d σ = .ok a ∧ SlotsWF n a.2 := by
  obtain ⟨l, el⟩ := dAfter_ok X hrec sh hr hσ after hh hs
  unfold dFinish
  rw [el]
  simp only [Res.bind_ok]
  unfold dStore
  split
  · exact ⟨_, rfl, hσ⟩
  · rw [if_pos (by have := hσ.1; omega)]
    refine ⟨_, rfl, by simpa using hσ.1, fun d' hd' => ?_⟩
    rcases List.mem_or_eq_of_mem_set hd' with hm | he
    · exact hσ.2 d' hm
    · cases he; exact hd

theorem dOpsThen_ok (X : Fns E) {n h : Nat} {rec : DRec E} (hrec : RecOk n h rec) (sh : Nat → Sh) {r : D} (hr : r.WF) {σ : Slots}
    (hσ : SlotsWF n σ) {ops : List (Op E)} {store : Nat} {after : After E} {d : D} (hd : d.WF) (ho : ∀ op ∈ ops, op.Safe n true)
    (hh : after.height ≤ h) (hs : after.Safe n) (hst : store ≤ n) :
    ∃ a, dOpsThen X rec sh r ops store after d σ = .ok a ∧ SlotsWF n a.2 := by
  obtain ⟨v, ev⟩ := valOf_ok (E := E) hd
  obtain ⟨l, el⟩ := dOps_ok X hr hσ (lit := some v) (hl := true) (by simp) ops ho
  obtain ⟨a, ea, ha⟩ := dFinish_ok X hrec sh hr hσ hd hh hs hst
  unfold dOpsThen
  rw [ev]
  simp only [Res.bind_ok, el, andThen, ea]
  exact ⟨_, rfl, ha⟩

theorem keyBytes_ok {ty : Tok} {w : List Nat} (h : TokText ty w) (hty : ty = .string ∨ ty = .escString) : IsOk (keyBytes false ty w) := by
  cases h with
  | @string b h => exact parseString_ok (w := 0x22 :: (b ++ [0x22])) (by simp)
  | @escString b h => exact parseEscString_ok (w := 0x22 :: (b ++ [0x22])) (by simp)
  | _ => simp at hty

theorem keyBytes_arr_ok {d : D} (h : d.WF) : IsOk (keyBytes true (D.headTok d).1 (D.headTok d).2) := by
  cases d with
  | lit ty w =>
    obtain ⟨h1, h2⟩ := h
    cases h2 with
    | @string b h => exact parseString_ok (w := 0x22 :: (b ++ [0x22])) (by simp)
    | @escString b h => exact parseEscString_ok (w := 0x22 :: (b ++ [0x22])) (by simp)
    | _ => exact ⟨_, rfl⟩
  | arr ws es => exact ⟨_, rfl⟩
  | obj ws ms => exact ⟨_, rfl⟩

theorem dMembers_ok {n h : Nat} {rec : DRec E} (hrec : RecOk n h rec) {elems : Elems E} (hh : elems.height ≤ h)
    (he : elems.Safe n) (ms : Ms) : ms.WF → ∀ {σ}, SlotsWF n σ → ∃ a, dMembers rec elems ms σ = .ok a ∧ SlotsWF n a.2 := by
  match ms with
  | .nil => intro _ σ hσ; exact ⟨_, rfl, hσ⟩
  | .cons kty key _ _ d _ _ rest =>
    intro hm σ hσ
    simp only [Ms.WF] at hm
    obtain ⟨k, ek⟩ := keyBytes_ok hm.2.1 hm.1
    rw [dMembers, ek]
    simp only [Res.bind_ok]
    have hd : d.WF := by simp_all
    have hrest : rest.WF := by simp_all
    cases hf : elems.find k with
    | none => exact dMembers_ok hrec hh he rest hrest hσ
    | some e =>
      obtain ⟨a, ea, ha⟩ := hrec e d σ (Nat.le_trans (Elems.height_find hf) hh) (he.find hf) hd hσ
      obtain ⟨b, eb, hb⟩ := dMembers_ok hrec hh he rest hrest ha
      simp only [ea, Res.bind_ok, andThen, eb]
      exact ⟨_, rfl, hb⟩

theorem dElems_ok {n h : Nat} {rec : DRec E} (hrec : RecOk n h rec) {elems : Elems E} (hh : elems.height ≤ h)
    (he : elems.Safe n) (es : Es) : es.WF → ∀ {i σ}, SlotsWF n σ → ∃ a, dElems rec elems i es σ = .ok a ∧ SlotsWF n a.2 := by
  match es with
  | .nil => intro _ i σ hσ; exact ⟨_, rfl, hσ⟩
  | .cons d _ _ rest =>
    intro hm i σ hσ
    obtain ⟨k, ek⟩ := keyBytes_arr_ok hm.1
    rw [dElems, ek]
    simp only [Res.bind_ok]
    cases hf : elems.find (indexKey i) with
    | none => exact dElems_ok hrec hh he rest hm.2.2.2 hσ
    | some e =>
      obtain ⟨a, ea, ha⟩ := hrec e d σ (Nat.le_trans (Elems.height_find hf) hh) (he.find hf) hm.1 hσ
      obtain ⟨b, eb, hb⟩ := dElems_ok hrec hh he rest hm.2.2.2 (i := i + 1) ha
      simp only [ea, Res.bind_ok, andThen, eb]
      exact ⟨_, rfl, hb⟩

theorem dExec_ok (X : Fns E) (sh : Nat → Sh) {r : D} (hr : r.WF) (n h : Nat) : RecOk n h (dExec X sh r h) := by
  induction h with
  | zero =>
    intro node d σ hh
    cases node
    simp [Exec.height] at hh
  | succ h ih =>
    intro node d σ hh hn hd hσ
    cases node with
    | mk store elems ops loops after =>
      obtain ⟨s1, s2, s3, s4, s5⟩ := hn
      rw [Exec.height] at hh
      have hk : ∀ {d σ}, d.WF → SlotsWF n σ →
          ∃ a, dOpsThen X (dExec X sh r h) sh r ops store after d σ = .ok a ∧ SlotsWF n a.2 :=
        fun hd hσ => dOpsThen_ok X ih sh hr hσ hd s3 (by omega) s5 s1
      rw [dExec]
      cases d with
      | lit ty w => exact hk hd hσ
      | obj ws ms =>
        simp only [dObj]
        split
        · exact hk hd hσ
        · obtain ⟨a, ea, ha⟩ := dMembers_ok ih (by omega) s2 ms hd.2 hσ
          obtain ⟨l, el⟩ := dAfter_ok X ih sh hr ha after (by omega) s5
          rw [ea]
          simp only [Res.bind_ok, el]
          split
          · exact ⟨_, rfl, ha⟩
          · obtain ⟨b, eb, hb⟩ := hk hd ha
            simp only [andThen, eb, Res.bind_ok]
            exact ⟨_, rfl, hb⟩
      | arr ws es =>
        simp only [dArr]
        split
        · split
          · exact ⟨_, rfl, hσ⟩
          · obtain ⟨a, ea, ha⟩ := dElems_ok ih (by omega) s2 es hd.2 (i := 0) hσ
            obtain ⟨b, eb, hb⟩ := hk hd ha
            rw [ea]
            simp only [Res.bind_ok, andThen, eb]
            exact ⟨_, rfl, hb⟩
        · obtain ⟨l, el⟩ := dArrayLoops_ok ih sh (d := .arr ws es) hd hσ loops (by omega) s4
          obtain ⟨b, eb, hb⟩ := hk hd hσ
          rw [el]
          simp only [Res.bind_ok, andThen, eb]
          exact ⟨_, rfl, hb⟩

/-- Every document has a verdict. -/
theorem verdict_ok (X : Fns E) (s : Sh) {node : Exec E} {n : Nat} (hn : node.Safe n) {r : D} (hr : r.WF) :
    ∃ b, verdict X s node n r = .ok b := by
  obtain ⟨a, ea, _⟩ := dExec_ok X (subtree s 0) hr n node.height node r (List.replicate n none) (Nat.le_refl _) hn hr
    ⟨by simp, by intro d hd; simp at hd⟩
  unfold verdict decisions
  rw [ea]
  exact ⟨_, rfl⟩

/-! ### At byte level -/

/-- A new matcher, or one that has been reset. -/
structure Ready (df : Def E) (m : M) : Prop where
  slots : m.slots = List.replicate df.numSlots (0, 0)
  bt : m.bt = BinTree.newState df.tree

theorem ready_new (df : Def E) : Ready df (newMatcher df) := ⟨rfl, rfl⟩

theorem ready_reset (X : Fns E) {df : Def E} {m : M} (h : Used X df m) : Ready df (resetMatcher m) := by
  rw [h.reset_eq]; exact ⟨rfl, rfl⟩

theorem sim_ready {df : Def E} {m : M} (hm : Ready df m) (data : List Nat) :
    Sim data { m with tk := ⟨data, 0⟩ } { newV df with coll := m.coll } := by
  refine ⟨rfl, hm.bt, rfl, by simp [hm.slots, newV], ?_⟩
  intro i p o h1 h2
  simp only [hm.slots, newV] at h1 h2
  rw [List.getElem?_replicate] at h1 h2
  split at h1
  · simp at h1 h2
    obtain rfl := h1
    obtain rfl := h2.2
    rfl
  · simp at h1

/-- `Match` on any text of the document returns the verdict of the decisions. -/
theorem run_verdict (X : Fns E) {df : Def E} {s : Sh} {node : Exec E} (hw : df.WF s node) {data : List Nat} {r : D}
    (hr : Begins data r) {m : M} (hm : Ready df m) {b : Bool} (hv : verdict X s node df.numSlots r = .ok b) :
    ∃ m', run X df m data = .ok (some b, m') := by
  obtain ⟨v', hv'⟩ := vRun_verdict X hw (v := { newV df with coll := m.coll }) rfl rfl hv
  have := run_rel X df hr (sim_ready hm data)
  rw [hv'] at this
  cases hrun : run X df m data with
  | ok a =>
    rw [hrun] at this
    obtain ⟨o, m'⟩ := a
    obtain ⟨h1, _⟩ := this
    simp only at h1
    exact ⟨m', by rw [h1]⟩
  | panic => rw [hrun] at this; exact this.elim
  | stuck => rw [hrun] at this; exact this.elim

/-- `Match` on any text of any document returns a verdict: no error, no crash, no endless loop. -/
theorem run_total (X : Fns E) {df : Def E} {s : Sh} {node : Exec E} (hw : df.WF s node) (hsafe : node.Safe df.numSlots)
    {data : List Nat} {r : D} (hr : Begins data r) {m : M} (hm : Ready df m) :
    ∃ b m', run X df m data = .ok (some b, m') ∧ verdict X s node df.numSlots r = .ok b := by
  obtain ⟨b, hb⟩ := verdict_ok X s hsafe hr.wf
  obtain ⟨m', h⟩ := run_verdict X hw hr hm hb
  exact ⟨b, m', h, hb⟩

end Verif.Match
