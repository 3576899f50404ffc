import Verif.Match.Total
import Verif.Match.Halts

/-!
# On documents the matcher never loses its place

For every definition whose operations and loops decide positions of the tree they belong to (`Lies`; loop bodies may store and read
slots and have loops of their own).  While a loop runs, the root of the tree stays undecided; therefore no element is left halfway.
-/

namespace Verif.Match
open Verif.Token Verif.FastVal
open Verif.BinTree (Tree State Sh SV K Shaped Fresh)

variable {E : Ext}

/-- The computation comes to a result with property `P`; it crashes only if `q` does not hold. -/
def Fares {α : Type} (q : Prop) (P : α → Prop) : Res α → Prop
  | .ok a => P a
  | .panic => ¬ q
  | .stuck => False

theorem Fares.bind {α β : Type} {q : Prop} {P : α → Prop} {Q : β → Prop} {x : Res α} {f : α → Res β} (h : Fares q P x)
    (hf : ∀ a, P a → Fares q Q (f a)) : Fares q Q (x >>= f) := by
  cases x with
  | ok a => exact hf a h
  | panic => exact h
  | stuck => exact h.elim

theorem Fares.mono {α : Type} {q : Prop} {P Q : α → Prop} {x : Res α} (h : Fares q P x) (hf : ∀ a, P a → Q a) : Fares q Q x := by
  cases x with
  | ok a => exact hf a h
  | panic => exact h
  | stuck => exact h

theorem Fares.of {α : Type} {q : Prop} {x : Res α} (h : x ≠ .stuck) (hq : q → IsOk x) : Fares q (fun _ => True) x := by
  cases x with
  | ok a => trivial
  | panic => intro h; obtain ⟨a, e⟩ := hq h; cases e
  | stuck => exact h rfl

theorem Fares.ok {α : Type} {q : Prop} {P : α → Prop} {a : α} (h : P a) : Fares q P (.ok a) := h

/-! ### Definitions -/

mutual
  /-- The node's operations and loops decide positions of the tree `s` at `b`. -/
  def Exec.Lies : Exec E → Sh → Nat → Prop
    | .mk _ es ops ls a, s, b => es.Lies s b ∧ (∀ op ∈ ops, IsAtom s b op.bucket) ∧ ls.Lies s b ∧ a.Lies s b
  def Elems.Lies : Elems E → Sh → Nat → Prop
    | .nil, _, _ => True
    | .cons _ e r, s, b => e.Lies s b ∧ r.Lies s b
  def Loops.Lies : Loops E → Sh → Nat → Prop
    | .nil, _, _ => True
    | .cons i _ _ e r, s, b => (∃ a, LoopAt s b i a ∧ e.Lies a i) ∧ r.Lies s b
  def After.Lies : After E → Sh → Nat → Prop
    | .none, _, _ => True
    | .some ops ls, s, b => (∀ op ∈ ops, IsAtom s b op.bucket) ∧ ls.Lies s b
end

theorem Elems.Lies.find {es : Elems E} {s b} (h : es.Lies s b) {k e} (he : es.find k = some e) : e.Lies s b := by
  match es, h with
  | .cons k' e' r, h =>
    rw [Elems.find] at he
    rw [Elems.Lies] at h
    split at he
    · simp at he; subst he; exact h.1
    · exact Elems.Lies.find (es := r) h.2 he

/-! ### Running -/

/-- The root of the tree is decided. -/
def Over (bt : State) : Prop := BinTree.isResolved bt 0 = .ok true

/-- From `v` the matcher has come to `a`: the state is one of the tree `s` at `b`, the rest of the tree is as it was, it leaves early only if
everything is decided, what is decided stays decided, and the slots hold parts of documents. -/
structure Went (t : Tree) (N : Nat) (s : Sh) (b : Nat) (v : V) (a : Bool × V) : Prop where
  st : ∃ p, St t s b a.2.bt p
  stall : a.2.bt.stall = v.bt.stall
  out : ∀ j, j < b ∨ b + s.size ≤ j → a.2.bt.data[j]? = v.bt.data[j]?
  early : a.1 = true → Over a.2.bt
  over : Over v.bt → Over a.2.bt
  slots : SlotsWF N a.2.slots

theorem St.over_iff {t s b bt p} (h : St t s b bt p) : Over bt ↔ b = 0 ∧ K s b p ≠ none := by
  rw [Over, h.resolved0]
  simp

theorem St.resolved0' {t s b bt p} (h : St t s b bt p) : ∃ d, BinTree.isResolved bt 0 = .ok d ∧ (d = true ↔ Over bt) := by
  refine ⟨_, h.resolved0, ?_⟩
  rw [h.over_iff]
  simp

section
variable {t : Tree} {N : Nat} {s : Sh} {b : Nat} {q : Prop}

theorem Went.refl {p v} (h : St t s b v.bt p) (hσ : SlotsWF N v.slots) : Went t N s b v (false, v) :=
  ⟨⟨p, h⟩, rfl, fun _ _ => rfl, by simp, id, hσ⟩

theorem Went.trans {v a c} (h : Went t N s b v a) (h' : Went t N s b a.2 c) : Went t N s b v c :=
  ⟨h'.st, h'.stall.trans h.stall, fun j hj => (h'.out j hj).trans (h.out j hj), h'.early, fun e => h'.over (h.over e), h'.slots⟩

theorem Went.flag {v a} (h : Went t N s b v a) {x : Bool} (hx : x = true → Over a.2.bt) : Went t N s b v (x, a.2) :=
  ⟨h.st, h.stall, h.out, hx, h.over, h.slots⟩

/-- A matcher that stays in the tree `s` at `b`. -/
def Stays (t : Tree) (N : Nat) (s : Sh) (b : Nat) (q : Prop) (f : V → Res (Bool × V)) : Prop :=
  ∀ v p, St t s b v.bt p → SlotsWF N v.slots → Fares q (Went t N s b v) (f v)

theorem Stays.after {f : V → Res (Bool × V)} (hf : Stays t N s b q f) {v a} (h : Went t N s b v a) : Fares q (Went t N s b v) (f a.2) := by
  obtain ⟨p, hp⟩ := h.st
  exact (hf a.2 p hp h.slots).mono (fun c hc => h.trans hc)

theorem Stays.check {f : V → Res (Bool × V)} (hf : Stays t N s b q f) {v a} (h : Went t N s b v a) : Fares q (Went t N s b v) (check f a) := by
  obtain ⟨p, hp⟩ := h.st
  obtain ⟨d, e, hd⟩ := hp.resolved0'
  rw [Match.check, e, Res.bind_ok]
  split
  · rename_i e; exact h.flag (fun _ => hd.1 e)
  · rename_i e'
    split
    · rename_i e''; exact absurd (hd.2 (h.early e'')) e'
    · exact hf.after h

/-- Marking. -/
theorem mark_went {bt : State} {p} (h : St t s b bt p) {i : Nat} (hi : IsAtom s b i) (x : Bool) :
    ∃ bt', BinTree.guardedMark t bt i x = .ok bt' ∧ (∃ p', St t s b bt' p') ∧ bt'.stall = bt.stall ∧
      (∀ j, j < b ∨ b + s.size ≤ j → bt'.data[j]? = bt.data[j]?) ∧ (Over bt → Over bt') := by
  obtain ⟨bt', e1, e2, e3, e4⟩ := h.mark hi x
  refine ⟨bt', e1, ⟨_, e2⟩, e3, e4, fun ho => ?_⟩
  have := h.mark_dead ((h.over_iff.1 ho).2) hi x
  rw [e1] at this
  cases ok_inj this
  exact ho

variable (X : Fns E) {r : D} (hr : r.WF)
include hr

theorem slotVal_ends (σ : Slots) (k : Nat) : Ends (fun _ => True) (slotVal (E := E) r σ k) := by
  unfold slotVal
  split
  · trivial
  · refine (idx_ends _ _).bind (fun o _ => ?_)
    cases o with
    | some d => cases d <;> first | exact parseLit_ends _ _ | trivial
    | none => cases r <;> first | exact parseLit_ends _ _ | trivial

theorem op_went {lit : Option (FV E)} {hl : Bool} (hlit : hl = true → lit ≠ none) {op : Op E} (hi : IsAtom s b op.bucket)
    (hs : q → op.Safe N hl) {v : V} {p} (hp : St t s b v.bt p) (hσ : SlotsWF N v.slots) :
    Fares q (fun a => Went t N s b v (false, { v with bt := a.1, coll := a.2 })) (matchOp X t (slotVal r v.slots) lit op v.bt v.coll) := by
  have ho : Fares q (fun _ => True) (opResult X (slotVal r v.slots) lit op) :=
    Fares.of (opResult_ends X lit (fun k => slotVal_ends hr v.slots k) op).ne
      (fun hq => opResult_ok X (fun k h1 h2 => slotVal_ok hr hσ h1 h2) hlit (hs hq))
  unfold matchOp
  obtain ⟨bt0, m0, _⟩ := mark_went hp hi true
  cases hres : BinTree.isResolved v.bt op.bucket with
  | panic => rw [BinTree.guardedMark, hres] at m0; cases m0
  | stuck => rw [BinTree.guardedMark, hres] at m0; cases m0
  | ok d =>
    simp only [Res.bind_ok]
    split
    · exact Went.refl hp hσ
    · rename_i hd
      refine ho.bind (fun o _ => ?_)
      obtain ⟨bt', m1, m2, m3, m4, m5⟩ := mark_went hp hi o.1
      rw [BinTree.guardedMark, hres] at m1
      have m1 : BinTree.markNode t v.bt op.bucket o.1 = .ok bt' := by simpa [hd] using m1
      rw [m1]
      exact ⟨m2, m3, m4, by simp, m5, hσ⟩

theorem ops_stays {lit : Option (FV E)} {hl : Bool} (hlit : hl = true → lit ≠ none) : ∀ (ops : List (Op E)), (∀ op ∈ ops, IsAtom s b op.bucket) →
    (q → ∀ op ∈ ops, op.Safe N hl) → Stays t N s b q (opsV X t r lit ops)
  | [], _, _ => fun v p hp hσ => Went.refl hp hσ
  | op :: ops, hi, hs => by
    intro v p hp hσ
    rw [opsV_cons]
    refine (op_went X hr hlit (hi op List.mem_cons_self) (fun h => hs h op List.mem_cons_self) hp hσ).bind (fun a ha => ?_)
    obtain ⟨p', hp'⟩ := ha.st
    obtain ⟨d, e, hd⟩ := hp'.resolved0'
    simp only at e
    rw [e, Res.bind_ok]
    split
    · rename_i e; exact ha.flag (fun _ => hd.1 e)
    · exact (ops_stays hlit ops (fun o ho => hi o (List.mem_cons_of_mem _ ho)) (fun h o ho => hs h o (List.mem_cons_of_mem _ ho))).after ha

/-! ### Loops -/

omit hr

/-- The recursive calls stay in the tree. -/
def RecW (t : Tree) (N : Nat) (q : Prop) (h : Nat) (rec : VRec E) : Prop :=
  ∀ (node : Exec E) (d : D) (s : Sh) (b : Nat), node.height ≤ h → node.Lies s b → (q → node.Safe N) → d.WF → Stays t N s b q (rec node d)

variable {h : Nat} {rec : VRec E}

/-- The elements of an array: only the tree of the body changes. -/
theorem items_went (hrec : RecW t N q h rec) {i : Nat} {mode : Mode} {node : Exec E} {a : Sh} {par : Nat} (hsh : Shaped t a i par) (hi : 0 < i)
    (hh : node.height ≤ h) (hn : node.Lies a i) (hs : q → node.Safe N) : ∀ (es : Es), es.WF → ∀ (st : Bool) (v : V), v.bt.stall = i →
    v.bt.data.length = t.length → v.bt.data[0]? = some .unknown → SlotsWF N v.slots →
    Fares q (fun o => o.2.bt.stall = i ∧ o.2.bt.data.length = t.length ∧ SlotsWF N o.2.slots ∧
      ∀ j, j < i ∨ i + a.size ≤ j → o.2.bt.data[j]? = v.bt.data[j]?) (vItems rec t i mode node es st v)
  | .nil, _, st, v, h1, h2, _, h4 => ⟨h1, h2, h4, fun _ _ => rfl⟩
  | .cons d _ _ rest, hes, st, v, h1, h2, h3, h4 => by
    simp only [Es.WF] at hes
    have hd : d.WF := by simp_all
    have hrest : rest.WF := by simp_all
    obtain ⟨d', e1, e2, e3, e4⟩ := BinTree.resetNode_spec hsh v.bt h2
    have hst : St t a i { v.bt with data := d' } (fun _ => none) :=
      ⟨⟨⟨par, hsh⟩, Or.inr h1.symm, Or.inl (by rw [← h1]; exact Nat.le_refl _)⟩, e2, e3.inv (fun _ _ _ => rfl), by simp,
        fun _ => by rw [← h3]; exact e4 0 (Or.inl hi)⟩
    rw [vItems, e1]
    simp only [Res.bind_ok]
    refine (hrec node d a i hh hn hs hd { v with bt := { v.bt with data := d' } } _ hst h4).bind (fun c hc => ?_)
    obtain ⟨p, hp⟩ := hc.st
    have hf : c.1 = false := by
      cases hx : c.1 with
      | false => rfl
      | true => have := (hp.over_iff.1 (hc.early hx)).1; omega
    rw [if_neg (by rw [hf]; simp), hp.isTrue, Res.bind_ok]
    have hout : ∀ j, j < i ∨ i + a.size ≤ j → c.2.bt.data[j]? = v.bt.data[j]? := fun j hj => by rw [hc.out j hj]; exact e4 j hj
    have hstall : c.2.bt.stall = i := by rw [hc.stall]; exact h1
    cases mode.leaves (decide (K a i p = some true)) with
    | some x => exact ⟨hstall, hp.len, hc.slots, hout⟩
    | none =>
      exact (items_went hrec hsh hi hh hn hs rest hrest _ c.2 hstall hp.len (by rw [hout 0 (Or.inl hi)]; exact h3) hc.slots).mono
        (fun o ho => ⟨ho.1, ho.2.1, ho.2.2.1, fun j hj => (ho.2.2.2 j hj).trans (hout j hj)⟩)

theorem loop_went (hrec : RecW t N q h rec) {i : Nat} {mode : Mode} {node : Exec E} {a : Sh} (hla : LoopAt s b i a) (hh : node.height ≤ h)
    (hn : node.Lies a i) (hs : q → node.Safe N) {d : D} (hd : d.WF) {v : V} {p} (hp : St t s b v.bt p) (hσ : SlotsWF N v.slots) :
    Fares q (fun v' => Went t N s b v (false, v')) (vLoop rec t i mode node d v) := by
  obtain ⟨hsub, hat, hlt⟩ := hla.sub
  cases d with
  | lit ty w => exact Went.refl hp hσ
  | obj ws ms => exact Went.refl hp hσ
  | arr ws es =>
    simp only [vLoop]
    have hr := isAtom_range hat
    obtain ⟨par0, hsh0⟩ := hp.ctx.shaped
    have hbd := hsh0.bound
    have hlen : i < v.bt.data.length := by have := hp.len; omega
    have hidx : v.bt.data[i]? = some v.bt.data[i] := List.getElem?_eq_getElem hlen
    by_cases hu : v.bt.data[i] = .unknown
    · rw [hu] at hidx
      have hres : BinTree.isResolved v.bt i = .ok false := by simp [BinTree.isResolved, Res.idx_of_some hidx]
      rw [hres]
      simp only [Res.bind_ok, Bool.false_eq_true, if_false]
      obtain ⟨par, hshp⟩ := BinTree.SubAt.shaped hsub hsh0
      have hpb : p i = none := by
        cases hpi : p i with
        | none => rfl
        | some w => exact absurd hidx (hp.inv.marked hsub hpi)
      have hpn : ∀ j, i ≤ j → j < i + a.size → p j = none := by
        intro j h1 h2
        cases hpj : p j with
        | none => rfl
        | some w =>
          have hj := hp.atoms j (by simp [hpj])
          by_cases hjb : j = i
          · subst hjb; rw [hpb] at hpj; simp at hpj
          · have := atom_antichain s b i j a hat hj hsub (by omega); omega
      have hfresh : Fresh v.bt.data i a.size := (hp.inv.sub hsub hidx).fresh hpn
      have h0 : v.bt.data[0]? = some .unknown := by
        by_cases hb : b = 0
        · subst hb
          by_cases hk : K s 0 p = none
          · rw [hp.inv.root, hk]; rfl
          · have := hp.dead hk hr.1 hr.2
            rw [hres] at this; simp at this
        · exact hp.root hb
      have hes : es.WF := by simp only [D.WF] at hd; exact hd.2
      refine (items_went hrec (mode := mode) hshp (by omega) hh hn hs es hes mode.init { v with bt := (BinTree.setStallIndex v.bt i).1 } rfl
        hp.len h0 hσ).bind (fun o ho => ?_)
      obtain ⟨i2, i3, i4, i5⟩ := ho
      obtain ⟨d2, r1, r2, r3, r4⟩ := BinTree.resetNode_spec hshp o.2.bt i3
      rw [r1]
      simp only [Res.bind_ok]
      have hd2 : d2 = v.bt.data := by
        apply List.ext_getElem?
        intro j
        by_cases hj : i ≤ j ∧ j < i + a.size
        · rw [r3 j hj.1 hj.2, hfresh j hj.1 hj.2]
        · rw [r4 j (by omega), i5 j (by omega)]; rfl
      have hst2 : (BinTree.setStallIndex { o.2.bt with data := d2 } v.bt.stall).1 = v.bt := by
        simp only [BinTree.setStallIndex, hd2]
      rw [hst2]
      obtain ⟨bt', m1, m2, m3, m4, m5⟩ := mark_went hp hat o.1
      rw [BinTree.guardedMark, hres] at m1
      have m1 : BinTree.markNode t v.bt i o.1 = .ok bt' := by simpa using m1
      rw [m1]
      exact ⟨m2, m3, m4, by simp, m5, i4⟩
    · have hres : BinTree.isResolved v.bt i = .ok true := by simp [BinTree.isResolved, Res.idx_of_some hidx, hu]
      rw [hres]
      simp only [Res.bind_ok, if_true]
      exact Went.refl hp hσ

include hr

theorem afterLoops_stays (hrec : RecW t N q h rec) : ∀ (ls : Loops E), ls.height ≤ h → ls.Lies s b → (q → ls.Safe N (some ())) →
    Stays t N s b q (vAfterLoops rec t r ls)
  | .nil, _, _, _ => fun v p hp hσ => Went.refl hp hσ
  | .cons i mode target node rest, hh, hl, hs => by
    rw [Loops.height] at hh
    rw [Loops.Lies] at hl
    obtain ⟨⟨a, ha, hn⟩, hl'⟩ := hl
    intro v p hp hσ
    rw [vAfterLoops.eq_def]
    have hno : (∀ k, target ≠ some (.slot k)) → ¬ q := fun hk hq => by
      have := hs hq
      rw [Loops.Safe] at this
      obtain ⟨⟨k, e, _⟩, _⟩ := this
      exact hk k e
    cases target with
    | none => exact hno (by simp)
    | some g =>
      cases g with
      | slot k =>
        simp only
        split
        · rename_i hk
          intro hq
          have := hs hq
          rw [Loops.Safe] at this
          obtain ⟨⟨k', e, h1, _⟩, _⟩ := this
          cases e; omega
        · have hidx : Fares q (fun o : Option D => (o.getD r).WF) (Res.idx v.slots (k - 1)) := by
            unfold Res.idx
            cases hx : v.slots[k - 1]? with
            | none =>
              intro hq
              have := hs hq
              rw [Loops.Safe] at this
              obtain ⟨⟨k', e, h1, h2⟩, _⟩ := this
              cases e
              have := List.getElem?_eq_none_iff.1 hx
              have := hσ.1
              omega
            | some o =>
              cases o with
              | none => exact hr
              | some d => exact hσ.2 d (List.mem_of_getElem? hx)
          refine hidx.bind (fun o ho => ?_)
          refine (loop_went hrec (mode := mode) ha (by omega) hn (fun hq => by have := hs hq; rw [Loops.Safe] at this; exact this.2.1) ho hp hσ).bind
            (fun v' hv' => ?_)
          obtain ⟨p', hp'⟩ := hv'.st
          obtain ⟨d, e, hd⟩ := hp'.resolved0'
          simp only at e
          rw [e, Res.bind_ok]
          split
          · rename_i e; exact hv'.flag (fun _ => hd.1 e)
          · exact (afterLoops_stays hrec rest (by omega) hl' (fun hq => by have := hs hq; rw [Loops.Safe] at this; exact this.2.2)).after hv'
      | val _ => exact hno (by simp)
      | lit => exact hno (by simp)
      | fn _ _ => exact hno (by simp)

theorem after_stays (hrec : RecW t N q h rec) {ops : List (Op E)} {ls : Loops E} (hh : ls.height ≤ h)
    (hl : (After.some ops ls).Lies s b) (hs : q → (After.some ops ls).Safe N) : Stays t N s b q (vAfter X rec t r ops ls) := by
  rw [After.Lies] at hl
  intro v p hp hσ
  rw [vAfter]
  refine (afterLoops_stays hr hrec ls hh hl.2 (fun hq => by have := hs hq; rw [After.Safe] at this; exact this.2) v p hp hσ).bind (fun a ha => ?_)
  split
  · exact ha
  · exact (ops_stays X hr (hl := false) (by simp) ops hl.1 (fun hq => by have := hs hq; rw [After.Safe] at this; exact this.1)).after ha

omit hr

theorem arrayLoops_stays (hrec : RecW t N q h rec) {d : D} (hd : d.WF) : ∀ (ls : Loops E), ls.height ≤ h → ls.Lies s b → (q → ls.Safe N none) →
    Stays t N s b q (vArrayLoops rec t d ls)
  | .nil, _, _, _ => fun v p hp hσ => Went.refl hp hσ
  | .cons i mode target node rest, hh, hl, hs => by
    rw [Loops.height] at hh
    rw [Loops.Lies] at hl
    obtain ⟨⟨a, ha, hn⟩, hl'⟩ := hl
    intro v p hp hσ
    rw [vArrayLoops.eq_def]
    cases target with
    | some g =>
      intro hq
      have := hs hq
      rw [Loops.Safe] at this
      cases this.1
    | none =>
      simp only
      refine (loop_went hrec (mode := mode) ha (by omega) hn (fun hq => by have := hs hq; rw [Loops.Safe] at this; exact this.2.1) hd hp hσ).bind
        (fun v' hv' => ?_)
      obtain ⟨p', hp'⟩ := hv'.st
      obtain ⟨x, e, hx⟩ := hp'.resolved0'
      simp only at e
      rw [e, Res.bind_ok]
      split
      · rename_i e; exact hv'.flag (fun _ => hx.1 e)
      · exact (arrayLoops_stays hrec hd rest (by omega) hl' (fun hq => by have := hs hq; rw [Loops.Safe] at this; exact this.2.2)).after hv'

/-! ### Nodes -/

theorem members_stays (hrec : RecW t N q h rec) {es : Elems E} (hh : es.height ≤ h) (hl : es.Lies s b) (hs : q → es.Safe N) :
    ∀ ms : Ms, ms.WF → Stays t N s b q (vMembers rec es ms)
  | .nil, _ => fun v p hp hσ => Went.refl hp hσ
  | .cons kty key _ _ d _ _ rest, hm => by
    simp only [Ms.WF] at hm
    obtain ⟨k, ek⟩ := keyBytes_ok hm.2.1 hm.1
    have hd : d.WF := by simp_all
    have hrest : rest.WF := by simp_all
    have ih := members_stays hrec hh hl hs rest hrest
    intro v p hp hσ
    rw [vMembers, ek, Res.bind_ok]
    cases hf : es.find k with
    | none => exact ih v p hp hσ
    | some e =>
      exact (hrec e d s b (Nat.le_trans (Elems.height_find hf) hh) (hl.find hf) (fun hq => (hs hq).find hf) hd v p hp hσ).bind (fun a ha => ih.check ha)

theorem elems_stays (hrec : RecW t N q h rec) {es : Elems E} (hh : es.height ≤ h) (hl : es.Lies s b) (hs : q → es.Safe N) :
    ∀ (xs : Es) (i : Nat), xs.WF → Stays t N s b q (vElems rec es i xs)
  | .nil, _, _ => fun v p hp hσ => Went.refl hp hσ
  | .cons d _ _ rest, i, hm => by
    simp only [Es.WF] at hm
    have hd : d.WF := by simp_all
    have hrest : rest.WF := by simp_all
    obtain ⟨k, ek⟩ := keyBytes_arr_ok hd
    have ih := elems_stays hrec hh hl hs rest (i + 1) hrest
    intro v p hp hσ
    rw [vElems, ek, Res.bind_ok]
    cases hf : es.find (indexKey i) with
    | none => exact ih v p hp hσ
    | some e =>
      exact (hrec e d s b (Nat.le_trans (Elems.height_find hf) hh) (hl.find hf) (fun hq => (hs hq).find hf) hd v p hp hσ).bind (fun a ha => ih.check ha)

include hr

theorem finish_stays (hrec : RecW t N q h rec) {store : Nat} {after : After E} (hh : after.height ≤ h) (hl : after.Lies s b)
    (hs : q → after.Safe N) (hst : q → store ≤ N) {d : D} (hd : d.WF) : Stays t N s b q (vFinish X rec t r store after d) := by
  have hk : Stays t N s b q (fun v : V =>
      if store = 0 then Res.ok (false, v)
      else if store - 1 < v.slots.length then Res.ok (false, { v with slots := v.slots.set (store - 1) (some d) })
      else .panic) := by
    intro v p hp hσ
    simp only
    split
    · exact Went.refl hp hσ
    · split
      · refine ⟨⟨p, hp⟩, rfl, fun _ _ => rfl, by simp, id, by simpa using hσ.1, fun x hx => ?_⟩
        rcases List.mem_or_eq_of_mem_set hx with h' | h'
        · exact hσ.2 x h'
        · cases h'; exact hd
      · intro hq
        have := hst hq
        have := hσ.1
        omega
  unfold vFinish
  cases after with
  | none => exact hk
  | some ops ls =>
    intro v p hp hσ
    rw [After.height] at hh
    exact (after_stays X hr hrec hh hl hs v p hp hσ).bind (fun a ha => hk.check ha)

theorem opsThen_stays (hrec : RecW t N q h rec) {store : Nat} {ops : List (Op E)} {after : After E} (hh : after.height ≤ h)
    (ho : ∀ op ∈ ops, IsAtom s b op.bucket) (hos : q → ∀ op ∈ ops, op.Safe N true) (hl : after.Lies s b) (hs : q → after.Safe N)
    (hst : q → store ≤ N) {d : D} (hd : d.WF) : Stays t N s b q (vOpsThen X rec t r ops store after d) := by
  intro v p hp hσ
  obtain ⟨x, ex⟩ := valOf_ok (E := E) hd
  rw [vOpsThen, ex, Res.bind_ok]
  refine (ops_stays X hr (hl := true) (by simp) ops ho hos v p hp hσ).bind (fun a ha => ?_)
  split
  · exact ha
  · exact (finish_stays X hr hrec hh hl hs hst hd).after ha

theorem exec_stays : ∀ h : Nat, RecW t N q h (vExec X t r h)
  | 0 => by
    intro n d s b hh
    cases n
    simp [Exec.height] at hh
  | h + 1 => by
    intro n d s b hh hl hs hd
    have ih := exec_stays h
    obtain ⟨store, es, ops, ls, af⟩ := n
    rw [Exec.Lies] at hl
    obtain ⟨l1, l2, l3, l4⟩ := hl
    rw [Exec.height] at hh
    have s1 : q → store ≤ N := fun hq => by have := hs hq; rw [Exec.Safe] at this; exact this.1
    have s2 : q → es.Safe N := fun hq => by have := hs hq; rw [Exec.Safe] at this; exact this.2.1
    have s3 : q → ∀ op ∈ ops, op.Safe N true := fun hq => by have := hs hq; rw [Exec.Safe] at this; exact this.2.2.1
    have s4 : q → ls.Safe N none := fun hq => by have := hs hq; rw [Exec.Safe] at this; exact this.2.2.2.1
    have s5 : q → af.Safe N := fun hq => by have := hs hq; rw [Exec.Safe] at this; exact this.2.2.2.2
    have hk : ∀ {d : D}, d.WF → Stays t N s b q (vOpsThen X (vExec X t r h) t r ops store af d) :=
      fun hd => opsThen_stays X hr ih (by omega) l2 s3 l4 s5 s1 hd
    intro v p hp hσ
    cases d with
    | lit ty w => exact hk hd v p hp hσ
    | obj ws ms =>
      have hms : ms.WF := by simp only [D.WF] at hd; exact hd.2
      simp only [vExec, vObj]
      split
      · exact hk hd v p hp hσ
      · refine (members_stays ih (by omega) l1 s2 ms hms v p hp hσ).bind (fun a ha => ?_)
        refine Fares.bind (P := fun c => Went t N s b v c ∧ (Over a.2.bt → Over c.2.bt)) ?_ (fun c hc => ?_)
        · cases af with
          | none => exact ⟨ha.flag (by simp), id⟩
          | some aops als =>
            rw [After.height] at hh
            obtain ⟨p', hp'⟩ := ha.st
            exact (after_stays X hr ih (by omega) l4 s5 a.2 p' hp' ha.slots).mono (fun c hc => ⟨ha.trans hc, hc.over⟩)
        · cases ms with
          | nil => exact hc.1
          | cons kty key w1 w2 d' w3 w4 rest =>
            simp only
            split
            · rename_i hx; exact hc.1.flag (fun _ => hc.2 (ha.early hx))
            · exact (hk hd).check hc.1
    | arr ws es' =>
      have hes : es'.WF := by simp only [D.WF] at hd; exact hd.2
      simp only [vExec, vArr]
      split
      · cases es' with
        | nil => exact Went.refl hp hσ
        | cons d' w1 w2 rest =>
          refine (elems_stays ih (by omega) l1 s2 _ 0 hes v p hp hσ).bind (fun a ha => ?_)
          split
          · exact ha
          · exact (hk hd).after ha
      · refine (arrayLoops_stays ih hd ls (by omega) l3 s4 v p hp hσ).bind (fun a ha => ?_)
        split
        · exact ha
        · exact (hk hd).after ha

end

/-! ### Whole runs -/

/-- A definition whose nodes decide positions of its tree; bodies of loops may be anything that does so, too. -/
structure Def.Laid (df : Def E) (s : Sh) (node : Exec E) : Prop where
  parse : df.parse = some node
  shaped : Shaped df.tree s 0 0
  len : df.tree.length = s.size
  lies : node.Lies s 0

theorem slotsWF_replicate (n : Nat) : SlotsWF n (List.replicate n none) :=
  ⟨by simp, fun d hd => by have := (List.mem_replicate.1 hd).2; cases this⟩

/-- On a document the matcher comes to a verdict; it crashes only if the definition is not safe. -/
theorem vRun_fares (X : Fns E) {df : Def E} {s : Sh} {node : Exec E} (hw : df.Laid s node) {r : D} (hr : r.WF) :
    Fares (node.Safe df.numSlots) (fun _ => True) (vRun X df (newV df) r) := by
  have hf := BinTree.newState_fresh df.tree s.size (by have := hw.len; omega)
  have hs : St df.tree s 0 (newV df).bt (fun _ => none) :=
    ⟨⟨⟨0, hw.shaped⟩, Or.inl rfl, Or.inl (Nat.le_refl 0)⟩, by simp [newV, BinTree.newState], hf.inv (fun _ _ _ => rfl), by simp, by simp⟩
  rw [vRun, hw.parse]
  refine (exec_stays X hr node.height node r s 0 (Nat.le_refl _) hw.lies id hr (newV df) _ hs (slotsWF_replicate _)).bind (fun a ha => ?_)
  obtain ⟨p, hp⟩ := ha.st
  obtain ⟨d', q, e1, e2, _, _, e5⟩ := BinTree.resolve_spec hw.shaped hw.len ha.stall hp.len hp.inv
  rw [e1, Res.bind_ok]
  simp only [BinTree.isTrue, Res.idx_of_some e2.root]
  trivial

/-- A matcher that is ready differs from a new one at most in the collation flag. -/
theorem run_ready (X : Fns E) {df : Def E} {m : M} (hm : Ready df m) (data : List Nat) :
    RelE (QC m.coll df.tree.length df.numSlots) (run X df m data) (run X df (newMatcher df) data) := by
  have e : addC m.coll (newMatcher df) = { m with tk := (newMatcher df).tk } := by
    obtain ⟨tk, slots, bt, coll⟩ := m
    obtain ⟨h1, h2⟩ := hm
    simp only at h1 h2
    subst h1 h2
    simp [addC, newMatcher]
  have := run_coll (c := m.coll) (n := df.tree.length) (k := df.numSlots) X df data (m := newMatcher df) (by simp [Len, newMatcher, BinTree.newState])
  rw [e] at this
  exact this

/-- What a match on (a text that begins with) the document `r` does is what the document says. -/
theorem run_document (X : Fns E) {df : Def E} {s : Sh} {node : Exec E} (hw : df.Laid s node) {r : D} {data : List Nat} (hr : Begins data r) {m : M}
    (hm : Ready df m) :
    (∃ b v n, vRun X df (newV df) r = .ok (b, v) ∧ run X df m data = .ok (some b, n) ∧ n.bt = v.bt ∧ n.coll = (m.coll || v.coll)) ∨
      (vRun X df (newV df) r = .panic ∧ run X df m data = .panic ∧ ¬ node.Safe df.numSlots) := by
  have h1 := vRun_fares X hw hr.wf
  have h2 := run_rel X df hr (sim_ready (ready_new df) data)
  have h3 := run_ready X hm data
  have hv : ({ newV df with coll := (newMatcher df).coll } : V) = newV df := rfl
  rw [hv] at h2
  cases hx : vRun X df (newV df) r with
  | stuck => rw [hx] at h1; exact h1.elim
  | panic =>
    rw [hx] at h1 h2
    cases hy : run X df (newMatcher df) data with
    | ok a => rw [hy] at h2; exact h2.elim
    | stuck => rw [hy] at h2; exact h2.elim
    | panic =>
      rw [hy] at h3
      cases hz : run X df m data with
      | ok a => rw [hz] at h3; exact h3.elim
      | stuck => rw [hz] at h3; exact h3.elim
      | panic => exact Or.inr ⟨rfl, rfl, h1⟩
  | ok bv =>
    rw [hx] at h2
    cases hy : run X df (newMatcher df) data with
    | stuck => rw [hy] at h2; exact h2.elim
    | panic => rw [hy] at h2; exact h2.elim
    | ok a =>
      rw [hy] at h2 h3
      obtain ⟨g1, g2⟩ := h2
      cases hz : run X df m data with
      | stuck => rw [hz] at h3; exact h3.elim
      | panic => rw [hz] at h3; exact h3.elim
      | ok c =>
        rw [hz] at h3
        obtain ⟨k1, k2, _⟩ := h3
        obtain ⟨c1, c2⟩ := c
        simp only at k1 k2
        refine Or.inl ⟨bv.1, bv.2, c2, rfl, by rw [k1, g1], ?_, ?_⟩
        · rw [k2]; exact g2.bt
        · rw [k2]; simp only [addC]; rw [g2.coll]

end Verif.Match
