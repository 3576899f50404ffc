import Verif.Transform.Given
import Verif.Transform.Outer

/-!
# What an element leaves in the slots

A loop whose body stores values starts with its slots empty, and the body finds in them what the elements before have left there.
The matcher decides what `gExec` says, if `val` gives the outcome of a loop that starts with empty slots (`Carried`).
-/

namespace Verif.Transform
open Verif.FastVal Verif.Match Verif.Expr
open Verif.Token (D Es Ms Tok)
open Verif.BinTree (Sh K Tree State Shaped Fresh)

variable {E : Ext}

/-! ### Going through the elements -/

/-- The outcomes of the body on the elements, one after the other. -/
def scan (F : Env → D → Option Bool) (nx : Env → D → Env) : Env → List D → List Bool
  | _, [] => []
  | g, y :: ys => decide (F g y = some true) :: scan F nx (nx g y) ys

/-- The loop over the outcomes, as `vItems` does it. -/
def foldM (m : Mode) : List Bool → Bool → Bool
  | [], st => st
  | b :: bs, st => match m.leaves b with
    | some o => o
    | none => foldM m bs (m.next b st)

theorem foldM_spec {m : Mode} : ∀ (l : List Bool) (st : Bool), foldM m l st = match m with
      | .any => if st then foldM m l st else l.any id
      | .every => if st then l.all id else foldM m l st
      | .anyEvery => if l.isEmpty then st else l.all id
  | [], st => by cases m <;> cases st <;> simp [foldM]
  | b :: bs, st => by
    cases m with
    | any =>
      have := foldM_spec (m := .any) bs st
      cases b <;> cases st <;> simp_all [foldM, Mode.leaves, Mode.next]
    | every =>
      have := foldM_spec (m := .every) bs st
      cases b <;> cases st <;> simp_all [foldM, Mode.leaves, Mode.next]
    | anyEvery =>
      have := foldM_spec (m := .anyEvery) bs true
      cases b with
      | false => simp [foldM, Mode.leaves]
      | true =>
        simp only [foldM, Mode.leaves, Mode.next, this]
        cases bs <;> simp

theorem foldM_holds (m : Mode) (l : List Bool) : foldM m l m.init = Mode.holds m id l := by
  rw [foldM_spec]
  cases m <;> simp [Mode.init, Mode.holds]
  cases l <;> simp

section
variable (val : Vals E) (X : Fns E) (t : Tree) (sh : Nat → Sh) (r : D) (N : Nat) (Λ : List (Path × Item E))

/-- The outcome of a loop over the elements `es` is the given one: the body decides `F`, given what is in its slots, leaves `nx` there
and writes no other slots. -/
def Carried (b : Nat) (m : Mode) (e : Exec E) (es : Es) : Prop :=
  ∃ (F : Env → D → Option Bool) (nx : Env → D → Env),
    (∀ y ∈ esList es, ∀ h σ a g, SlotsWF N σ → HoldsN e g σ → dExec X sh r h e y σ = .ok a →
      K (sh b) b a.1.get = F g y ∧ HoldsN e (nx g y) a.2 ∧ ∀ k, 0 < k → (∀ p, (p, Note.slot k) ∉ notes e) → look a.2 k = look σ k) ∧
    val b m e es = Mode.holds m id (scan F nx (fun _ => none) (esList es))

/-- So it is for all loops of the node, which are among `Λ`. -/
def FineG (n : Exec E) (d : D) : Prop :=
  ∀ q b m t e, (q, Item.loop b m t e) ∈ items n → (∃ q' t', (q', Item.loop b m t' e) ∈ Λ) ∧
    ∀ ws es, D.arr ws es ∈ walk q d → Carried val X sh r N b m e es

/-- The slots of the loops that are not decided are empty. -/
def SI (p : Nat → Option Bool) (σ : Slots) : Prop :=
  SlotsWF N σ ∧ ∀ q i m t e, (q, Item.loop i m t e) ∈ Λ → p i = none → ∀ p' k, (p', Note.slot k) ∈ notes e → look σ k = none

variable {Λ N} in
theorem SI.more {p : Nat → Option Bool} {σ : Slots} (h : SI N Λ p σ) (l : Marks) : SI N Λ (also p l) σ := by
  refine ⟨h.1, fun q i m t e hm hp => h.2 q i m t e hm ?_⟩
  cases hi : p i with
  | none => rfl
  | some w => simp [also, hi] at hp

/-- As `Post`, but the slots may have changed. -/
structure PostC (s : Sh) (b : Nat) (p : Nat → Option Bool) (l : Marks) (v : V) (a : Bool × V) : Prop where
  st : St t s b a.2.bt (also p l)
  stall : a.2.bt.stall = v.bt.stall
  out : ∀ j, j < b ∨ b + s.size ≤ j → a.2.bt.data[j]? = v.bt.data[j]?
  early : a.1 = true → b = 0 ∧ K s b (also p l) ≠ none
  slots : SI N Λ (also p l) a.2.slots

/-- A computation that decides `l` whatever is in the slots, and the matcher's counterpart. -/
def FollowsC (s : Sh) (b : Nat) (f : Slots → Res (Marks × Slots)) (g : V → Res (Bool × V)) : Prop :=
  ∃ l, (∀ x ∈ l, IsAtom s b x.1) ∧ (∀ σ, SlotsWF N σ → f σ = .ok (l, σ)) ∧
    ∀ v p, SI N Λ p v.slots → St t s b v.bt p → ∃ c, g v = .ok c ∧ PostC t N Λ s b p l v c

variable {val X t sh r N Λ}

theorem PostC.exit {s b p l v a} (h : PostC t N Λ s b p l v a) (hb : b = 0) (hk : K s b (also p l) ≠ none) {l'}
    (hl : ∀ x ∈ l', IsAtom s b x.1) : PostC t N Λ s b p (l ++ l') v (true, a.2) := by
  have e := h.st.extend hk l' hl
  have hk' := h.st.K_eq e
  exact ⟨by rw [also_append]; exact e, h.stall, h.out, fun _ => ⟨hb, by rw [also_append, ← hk']; exact hk⟩, by rw [also_append]; exact h.slots.more l'⟩

theorem PostC.trans {s b p l v a} (h : PostC t N Λ s b p l v a) {l' c} (h' : PostC t N Λ s b (also p l) l' a.2 c) :
    PostC t N Λ s b p (l ++ l') v c :=
  ⟨by rw [also_append]; exact h'.st, h'.stall.trans h.stall, fun j hj => (h'.out j hj).trans (h.out j hj),
    by rw [also_append]; exact h'.early, by rw [also_append]; exact h'.slots⟩

theorem PostC.refl {s b p v} (h : St t s b v.bt p) (hv : SI N Λ p v.slots) : PostC t N Λ s b p [] v (false, v) :=
  ⟨by rw [also_nil]; exact h, rfl, fun _ _ => rfl, by simp, by rw [also_nil]; exact hv⟩

theorem FollowsC.nil {s : Sh} {b : Nat} : FollowsC t N Λ s b (fun σ => .ok ([], σ)) (fun v => .ok (false, v)) :=
  ⟨[], by simp, fun _ _ => rfl, fun _ _ hv hs => ⟨_, rfl, PostC.refl hs hv⟩⟩

theorem PostC.check {s b p l v a} (h : PostC t N Λ s b p l v a) {k : V → Res (Bool × V)} {l'} (hl : ∀ x ∈ l', IsAtom s b x.1)
    (hk : ∀ v p, SI N Λ p v.slots → St t s b v.bt p → ∃ c, k v = .ok c ∧ PostC t N Λ s b p l' v c) :
    ∃ c, check k a = .ok c ∧ PostC t N Λ s b p (l ++ l') v c := by
  unfold Match.check
  rw [h.st.resolved0]
  simp only [Res.bind_ok]
  by_cases hd : b = 0 ∧ K s b (also p l) ≠ none
  · rw [if_pos (by simpa using hd)]
    exact ⟨_, rfl, h.exit hd.1 hd.2 hl⟩
  · rw [if_neg (by simpa using hd)]
    cases ha : a.1 with
    | true => exact absurd (h.early ha) hd
    | false =>
      simp only [Bool.false_eq_true, if_false]
      obtain ⟨c, e1, e2⟩ := hk _ _ h.slots h.st
      exact ⟨c, e1, h.trans e2⟩

/-- One computation after the other; the matcher looks whether the root is decided. -/
theorem FollowsC.check {s : Sh} {b : Nat} {f f' : Slots → Res (Marks × Slots)} {g g' : V → Res (Bool × V)} (h : FollowsC t N Λ s b f g)
    (h' : FollowsC t N Λ s b f' g') : FollowsC t N Λ s b (fun σ => f σ >>= fun a => andThen a f') (fun v => g v >>= Match.check g') := by
  obtain ⟨l, a1, a2, a3⟩ := h
  obtain ⟨l', b1, b2, b3⟩ := h'
  refine ⟨l ++ l', ?_, fun σ hσ => ?_, fun v p hv hs => ?_⟩
  · intro x hx
    rcases List.mem_append.1 hx with hx | hx
    · exact a1 x hx
    · exact b1 x hx
  · simp only [a2 σ hσ, Res.bind_ok, andThen, b2 σ hσ]
  · obtain ⟨c, e1, e2⟩ := a3 v p hv hs
    obtain ⟨c', g1, g2⟩ := e2.check b1 b3
    exact ⟨c', by simp only [e1, Res.bind_ok]; exact g1, g2⟩

/-- The same where the matcher goes by the flag. -/
theorem FollowsC.flag {s : Sh} {b : Nat} {f f' : Slots → Res (Marks × Slots)} {g g' : V → Res (Bool × V)} (h : FollowsC t N Λ s b f g)
    (h' : FollowsC t N Λ s b f' g') : FollowsC t N Λ s b (fun σ => f σ >>= fun a => andThen a f')
      (fun v => g v >>= fun a => if a.1 then .ok a else g' a.2) := by
  obtain ⟨l, a1, a2, a3⟩ := h
  obtain ⟨l', b1, b2, b3⟩ := h'
  refine ⟨l ++ l', ?_, fun σ hσ => ?_, fun v p hv hs => ?_⟩
  · intro x hx
    rcases List.mem_append.1 hx with hx | hx
    · exact a1 x hx
    · exact b1 x hx
  · simp only [a2 σ hσ, Res.bind_ok, andThen, b2 σ hσ]
  · obtain ⟨c, e1, e2⟩ := a3 v p hv hs
    simp only [e1, Res.bind_ok]
    cases hc : c.1 with
    | true =>
      have := e2.early hc
      have := e2.exit this.1 this.2 b1
      rw [← hc] at this
      exact ⟨c, by simp, this⟩
    | false =>
      obtain ⟨c', g1, g2⟩ := b3 _ _ e2.slots e2.st
      exact ⟨c', by simpa using g1, e2.trans g2⟩

theorem si_empty (N : Nat) (Λ : List (Path × Item E)) (p : Nat → Option Bool) : SI N Λ p (List.replicate N none) := by
  refine ⟨slotsWF_empty N, fun _ _ _ _ _ _ _ _ k _ => ?_⟩
  rw [look]
  by_cases h : k - 1 < N
  · rw [List.getElem?_replicate, if_pos h]; rfl
  · rw [List.getElem?_replicate, if_neg h]; rfl

theorem followsC_ops (hr : r.WF) {s : Sh} {b : Nat} {val : FV E} {ops : List (Op E)} (h : ∀ op ∈ ops, IsAtom s b op.bucket ∧ op.NoSlot)
    (hs : ∀ op ∈ ops, op.Safe N true) :
    FollowsC t N Λ s b (fun σ => dOps X r σ (some val) ops >>= fun l => .ok (l, σ)) (opsV X t r (some val) ops) := by
  obtain ⟨l, hl⟩ := dOps_ok X hr (slotsWF_empty N) (lit := some val) (hl := true) (by simp) ops hs
  have hl' : ∀ σ, dOps X r σ (some val) ops = .ok l := fun σ => by
    rw [dOps_noSlot X ops (r' := r) (σ' := List.replicate N none) (fun o ho => (h o ho).2), hl]
  refine ⟨l, dOps_atoms X r _ _ ops (fun o ho => (h o ho).1) hl, fun σ _ => by simp only [hl' σ, Res.bind_ok], fun v p hv hst => ?_⟩
  obtain ⟨c, e1, e2⟩ := ops_sound X ops (fun o ho => (h o ho).1) (hl' v.slots) hst
  exact ⟨c, e1, e2.st, e2.stall, e2.out, e2.early, by rw [opsV_slots e1]; exact hv.more l⟩

theorem followsC_opsThen (hr : r.WF) {h : Nat} {s : Sh} {b : Nat} {d : D} (hd : d.WF) {ops : List (Op E)}
    (ho : ∀ op ∈ ops, IsAtom s b op.bucket ∧ op.NoSlot) (hs : ∀ op ∈ ops, op.Safe N true) :
    FollowsC t N Λ s b (dOpsThen X (gExec val X sh r h) sh r ops 0 .none d) (vOpsThen X (vExec X t r h) t r ops 0 .none d) := by
  obtain ⟨val, hv⟩ := valOf_ok (E := E) hd
  obtain ⟨l, a1, a2, a3⟩ := followsC_ops (X := X) (t := t) hr (val := val) ho hs
  refine ⟨l, a1, fun σ hσ => ?_, fun v p hw hst => ?_⟩
  · have := a2 σ hσ
    obtain ⟨l', h1, h2⟩ := Res.bind_eq_ok.1 this
    cases h2
    simp [dOpsThen, hv, h1, Res.bind_ok, andThen, dFinish, dAfter, dStore]
  · obtain ⟨c, e1, e2⟩ := a3 v p hw hst
    unfold vOpsThen
    simp only [hv, Res.bind_ok, e1, vFinish]
    cases hc : c.1 with
    | true => exact ⟨c, by simp, e2⟩
    | false => exact ⟨c, by simp [← hc], e2⟩

/-! ### Loops -/

theorem items_carry (hr : r.WF) {h : Nat} {bucket : Nat} {mode : Mode} {node : Exec E} {s : Sh} {par : Nat} (hs : Shaped t s bucket par)
    (hb : 0 < bucket) (hf : node.Fits s bucket) (hsh : ShOK sh s bucket) (hh : node.height ≤ h) (hn : node.Safe N)
    {F : Env → D → Option Bool} {nx : Env → D → Env} (es : Es) : es.WF →
    (∀ y ∈ esList es, ∀ h σ a g, SlotsWF N σ → HoldsN node g σ → dExec X sh r h node y σ = .ok a →
      K (sh bucket) bucket a.1.get = F g y ∧ HoldsN node (nx g y) a.2 ∧
        ∀ k, 0 < k → (∀ p, (p, Note.slot k) ∉ notes node) → look a.2 k = look σ k) →
    ∀ g st (v : V), SlotsWF N v.slots → HoldsN node g v.slots → v.bt.stall = bucket → v.bt.data.length = t.length →
      v.bt.data[0]? = some .unknown →
      ∃ v', vItems (vExec X t r h) t bucket mode node es st v = .ok (foldM mode (scan F nx g (esList es)) st, v') ∧ v'.bt.stall = bucket ∧
        v'.bt.data.length = t.length ∧ SlotsWF N v'.slots ∧
        (∀ k, 0 < k → (∀ p, (p, Note.slot k) ∉ notes node) → look v'.slots k = look v.slots k) ∧
        ∀ j, j < bucket ∨ bucket + s.size ≤ j → v'.bt.data[j]? = v.bt.data[j]? := by
  match es with
  | .nil =>
    intro _ _ g st v hv _ h1 h2 _
    exact ⟨v, rfl, h1, h2, hv, fun _ _ _ => rfl, fun _ _ => rfl⟩
  | .cons d _ _ rest =>
    intro hw hall g st v hv hg h1 h2 h3
    have hshb : sh bucket = s := hsh s bucket (BinTree.SubAt.refl _ _)
    obtain ⟨d', e1, e2, e3, e4⟩ := BinTree.resetNode_spec hs v.bt h2
    have hst : St t s bucket { v.bt with data := d' } (fun _ => none) :=
      ⟨⟨⟨par, hs⟩, Or.inr h1.symm, Or.inl (by rw [← h1]; exact Nat.le_refl _)⟩, e2, e3.inv (fun _ _ _ => rfl), by simp,
        fun _ => by rw [← h3]; exact e4 0 (Or.inl hb)⟩
    obtain ⟨a, ha, haw⟩ := dExec_ok X sh hr N h node d v.slots hh hn hw.1 hv
    obtain ⟨c, c1, c2⟩ := exec_sound X t sh r h node d s bucket { v with bt := { v.bt with data := d' } } (fun _ => none) a hf hsh ha hst
    have hc : c.1 = false := by
      cases hc : c.1 with
      | false => rfl
      | true => have := (c2.early hc).1; omega
    have hK : also (fun _ => none) a.1 = a.1.get := by funext i; simp [also]
    obtain ⟨k1, k2, k3⟩ := hall d (by rw [esList]; exact List.mem_cons_self) h v.slots a g hv hg ha
    have hit := c2.st.isTrue
    rw [hK, ← hshb, k1] at hit
    have hsl : c.2.slots = a.2 := c2.slots hc
    have hstall : c.2.bt.stall = bucket := by rw [c2.stall]; exact h1
    have hout : ∀ j, j < bucket ∨ bucket + s.size ≤ j → c.2.bt.data[j]? = v.bt.data[j]? := fun j hj => by rw [c2.out j hj]; exact e4 j hj
    rw [esList, scan, foldM]
    cases hm : mode.leaves (decide (F g d = some true)) with
    | some bb =>
      refine ⟨c.2, ?_, hstall, c2.st.len, by rw [hsl]; exact haw, fun k hk hno => by rw [hsl]; exact k3 k hk hno, hout⟩
      simp only [vItems, e1, Res.bind_ok, c1, hc, Bool.false_eq_true, if_false, hit, hm]
    | none =>
      obtain ⟨v', g1, g2, g3, g4, g5, g6⟩ := items_carry hr hs hb hf hsh hh hn rest hw.2.2.2 (mode := mode)
        (fun y hy => hall y (by rw [esList]; exact List.mem_cons_of_mem _ hy)) (nx g d) (mode.next (decide (F g d = some true)) st) c.2
        (by rw [hsl]; exact haw) (by rw [hsl]; exact k2) hstall c2.st.len (by rw [hout 0 (Or.inl hb)]; exact h3)
      refine ⟨v', ?_, g2, g3, g4, fun k hk hno => by rw [g5 k hk hno, hsl]; exact k3 k hk hno, fun j hj => by rw [g6 j hj]; exact hout j hj⟩
      simp only [vItems, e1, Res.bind_ok, c1, hc, Bool.false_eq_true, if_false, hit, hm]
      exact g1

theorem loop_carry (hr : r.WF) {par0 : Nat} {h : Nat} {bucket : Nat} {mode : Mode} {node : Exec E} {s a : Sh} {b : Nat} (hsh0 : Shaped t s b par0)
    (hla : LoopAt s b bucket a) (hf : node.Fits a bucket) (hsh : ShOK sh s b) (hh : node.height ≤ h) (hn : node.Safe N) {d : D} (hd : d.WF)
    {M' N' : Nat} (hap : Apart M' N' Λ) (hin : ∃ q t', (q, Item.loop bucket mode t' node) ∈ Λ)
    (hfine : ∀ ws es, d = .arr ws es → Carried val X sh r N bucket mode node es) :
    ∃ l, (∀ x ∈ l, IsAtom s b x.1) ∧ (∀ ws es, d = .arr ws es → l = [(bucket, val bucket mode node es)]) ∧
      ∀ v p, SI N Λ p v.slots → St t s b v.bt p →
        ∃ v', vLoop (vExec X t r h) t bucket mode node d v = .ok v' ∧ PostC t N Λ s b p l v (false, v') := by
  obtain ⟨hsub, hat, hlt⟩ := hla.sub
  cases d with
  | lit ty w => exact ⟨[], by simp, (fun _ _ h => by cases h), fun v p hv hs => ⟨v, rfl, PostC.refl hs hv⟩⟩
  | obj ws ms => exact ⟨[], by simp, (fun _ _ h => by cases h), fun v p hv hs => ⟨v, rfl, PostC.refl hs hv⟩⟩
  | arr ws es =>
    obtain ⟨par, hshp⟩ := BinTree.SubAt.shaped hsub hsh0
    obtain ⟨F, nx, hall, hval⟩ := hfine ws es rfl
    have hvi := items_carry (mode := mode) hr hshp (by omega) hf (hsh.sub hsub) hh hn es hd.2 hall (fun _ => none) mode.init
    rw [foldM_holds, ← hval] at hvi
    generalize hoo : val bucket mode node es = o at hvi
    refine ⟨[(bucket, o)], by simpa using hat, fun ws' es' he => by cases he; rw [hoo], fun v p hv hs => ?_⟩
    obtain ⟨bt', m1, m2, m3, m4⟩ := hs.mark hat o
    simp only [vLoop]
    have hr := isAtom_range hat
    have hbd := hsh0.bound
    have hlen : bucket < v.bt.data.length := by have := hs.len; omega
    have hidx : v.bt.data[bucket]? = some v.bt.data[bucket] := List.getElem?_eq_getElem hlen
    unfold BinTree.guardedMark at m1
    by_cases hu : v.bt.data[bucket] = .unknown
    · -- undecided: run it
      rw [hu] at hidx
      have hres : BinTree.isResolved v.bt bucket = .ok false := by simp [BinTree.isResolved, Res.idx_of_some hidx]
      rw [hres] at m1 ⊢
      simp only [Res.bind_ok, Bool.false_eq_true, if_false] at m1 ⊢
      -- the body is untouched
      have hpb : p bucket = none := by
        cases hp : p bucket with
        | none => rfl
        | some w => exact absurd hidx (hs.inv.marked hsub hp)
      have hpn : ∀ j, bucket ≤ j → j < bucket + a.size → p j = none := by
        intro j h1 h2
        cases hp : p j with
        | none => rfl
        | some w =>
          have hj := hs.atoms j (by simp [hp])
          by_cases hjb : j = bucket
          · subst hjb; rw [hpb] at hp; simp at hp
          · have := atom_antichain s b bucket j a hat hj hsub (by omega); omega
      have hfresh : Fresh v.bt.data bucket a.size := (hs.inv.sub hsub hidx).fresh hpn
      have h0 : v.bt.data[0]? = some .unknown := by
        by_cases hb : b = 0
        · subst hb
          by_cases hk : K s 0 p = none
          · rw [hs.inv.root, hk]; rfl
          · have := hs.dead hk hr.1 hr.2
            rw [hres] at this; simp at this
        · exact hs.root hb
      obtain ⟨q0, t0, hin0⟩ := hin
      obtain ⟨v1, i1, i2, i3, i4, i6, i5⟩ := hvi { v with bt := (BinTree.setStallIndex v.bt bucket).1 } hv.1
        (fun p' k hk => hv.2 q0 bucket mode t0 node hin0 hpb p' k hk) rfl hs.len h0
      rw [i1]
      simp only [Res.bind_ok]
      obtain ⟨d2, r1, r2, r3, r4⟩ := BinTree.resetNode_spec hshp v1.bt i3
      rw [r1]
      simp only [Res.bind_ok]
      have hd2 : d2 = v.bt.data := by
        apply List.ext_getElem?
        intro j
        by_cases hj : bucket ≤ j ∧ j < bucket + a.size
        · rw [r3 j hj.1 hj.2, hfresh j hj.1 hj.2]
        · rw [r4 j (by omega), i5 j (by omega)]; rfl
      have hst2 : (BinTree.setStallIndex { v1.bt with data := d2 } v.bt.stall).1 = v.bt := by
        simp only [BinTree.setStallIndex, hd2]
      rw [hst2, m1]
      simp only [Res.bind_ok]
      refine ⟨_, rfl, m2, m3, m4, by simp, i4, fun q' i' m' t' e' hm' hp' p' k hk => ?_⟩
      have hne : i' ≠ bucket := by
        intro hb'; subst hb'
        simp [also, Marks.get, List.lookup] at hp'
      have hpi : p i' = none := by
        cases hi : p i' with
        | none => rfl
        | some w => simp [also, hi] at hp'
      have h1 := hv.2 q' i' m' t' e' hm' hpi p' k hk
      have h2 := hap.range q' i' m' t' e' hm' p' k hk
      rw [← h1]
      exact i6 k (by omega) (fun p2 => hap.apart q' i' m' t' e' q0 bucket mode t0 node hm' hin0 hne p' p2 k hk)
    · have hres : BinTree.isResolved v.bt bucket = .ok true := by simp [BinTree.isResolved, Res.idx_of_some hidx, hu]
      rw [hres] at m1 ⊢
      simp only [Res.bind_ok, if_true] at m1 ⊢
      cases ok_inj m1
      exact ⟨v, rfl, m2, m3, m4, by simp, hv.more _⟩

theorem arrayLoops_carry (hr : r.WF) {par0 : Nat} {h : Nat} {s : Sh} {b : Nat} (hsh0 : Shaped t s b par0) (hsh : ShOK sh s b) {ws : List Nat} {es : Es}
    (hd : (D.arr ws es).WF) {M' N' : Nat} (hap : Apart M' N' Λ) (ls : Loops E) : OuterL ls s b → ls.height ≤ h → ls.Safe N none →
    (∀ q i m t e, (q, Item.loop i m t e) ∈ loopItems Item.loop ls → (∃ q' t', (q', Item.loop i m t' e) ∈ Λ) ∧ Carried val X sh r N i m e es) →
    FollowsC t N Λ s b (fun σ => .ok (gLoops val es ls, σ)) (vArrayLoops (vExec X t r h) t (.arr ws es) ls) := by
  match ls with
  | .nil =>
    intro _ _ _ _
    exact ⟨[], by simp, fun _ _ => rfl, fun _ _ hv hs => ⟨_, rfl, PostC.refl hs hv⟩⟩
  | .cons i m tg e rest =>
    intro ho hh hs hf
    rw [OuterL] at ho
    obtain ⟨rfl, ⟨a, h1, h2⟩, h3⟩ := ho
    rw [Loops.height] at hh
    obtain ⟨l, a1, a2, a3⟩ := loop_carry (h := h) (mode := m) hr hsh0 h1 h2 hsh (by omega) hs.2.1 hd hap
      (hf [] i m none e (by rw [loopItems]; exact List.mem_cons_self)).1
      (fun ws' es' he => by cases he; exact (hf [] i m none e (by rw [loopItems]; exact List.mem_cons_self)).2)
    obtain ⟨l', b1, b2, b3⟩ := arrayLoops_carry (h := h) hr hsh0 hsh hd hap rest h3 (by omega) hs.2.2
      (fun q i m t e hm => hf q i m t e (by rw [loopItems]; exact List.mem_cons_of_mem _ hm))
    refine ⟨l ++ l', ?_, fun σ hσ => ?_, fun v p hv hst => ?_⟩
    · intro x hx
      rcases List.mem_append.1 hx with hx | hx
      · exact a1 x hx
      · exact b1 x hx
    · have h1 := (Prod.mk.inj (Res.ok.inj (b2 σ hσ))).1
      simp only [gLoops]
      rw [h1, a2 ws es rfl]; rfl
    · obtain ⟨v', e1, e2⟩ := a3 v p hv hst
      simp only [vArrayLoops, e1, Res.bind_ok]
      rw [e2.st.resolved0]
      simp only [Res.bind_ok]
      by_cases hd : b = 0 ∧ K s b (also p l) ≠ none
      · rw [if_pos (by simpa using hd)]
        exact ⟨_, rfl, e2.exit hd.1 hd.2 b1⟩
      · rw [if_neg (by simpa using hd)]
        obtain ⟨c, g1, g2⟩ := b3 _ _ e2.slots e2.st
        exact ⟨c, g1, e2.trans g2⟩

/-! ### Nodes -/

/-- The recursive calls. -/
def RecC (val : Vals E) (X : Fns E) (t : Tree) (sh : Nat → Sh) (r : D) (N : Nat) (Λ : List (Path × Item E)) (h : Nat) (s : Sh) (b : Nat) : Prop :=
  ∀ n d, Outer n s b → n.Tidy → n.height ≤ h → n.Safe N → d.WF → FineG val X sh r N Λ n d → FollowsC t N Λ s b (gExec val X sh r h n d) (vExec X t r h n d)

theorem members_carry {h : Nat} {s : Sh} {b : Nat} (hrec : RecC val X t sh r N Λ h s b) {es : Elems E} (ho : OuterE es s b) (ht : es.Tidy)
    (hh : es.height ≤ h) (hs : es.Safe N) (ms : Ms) : ms.WF → (∀ k e, es.find k = some e → ∀ x ∈ membersAt k ms, FineG val X sh r N Λ e x) →
    FollowsC t N Λ s b (dMembers (gExec val X sh r h) es ms) (vMembers (vExec X t r h) es ms) := by
  match ms with
  | .nil => intro _ _; exact FollowsC.nil
  | .cons kty key _ _ d _ _ rest =>
    intro hm hc
    simp only [Ms.WF] at hm
    obtain ⟨k, ek⟩ := keyBytes_ok hm.2.1 hm.1
    have hk' := memberKey_ok ek
    have hd : d.WF := by simp_all
    have hrest : rest.WF := by simp_all
    have ih := members_carry hrec ho ht hh hs rest hrest (by
      intro k1 e1 h1 x hx
      refine hc k1 e1 h1 x ?_
      rw [membersAt]
      split
      · exact List.mem_cons_of_mem _ hx
      · exact hx)
    cases hf : es.find k with
    | none =>
      obtain ⟨l, a1, a2, a3⟩ := ih
      refine ⟨l, a1, fun σ hσ => ?_, fun v p hv hst => ?_⟩
      · rw [dMembers, ek, Res.bind_ok, hf]; exact a2 σ hσ
      · rw [vMembers, ek, Res.bind_ok, hf]; exact a3 v p hv hst
    | some e =>
      have hcd := hrec e d (ho.find hf) (Elems.Tidy.find ht hf) (Nat.le_trans (Elems.height_find hf) hh) (hs.find hf) hd
        (hc k e hf d (by rw [membersAt, if_pos hk']; exact List.mem_cons_self))
      obtain ⟨l, a1, a2, a3⟩ := hcd.check ih
      refine ⟨l, a1, fun σ hσ => ?_, fun v p hv hst => ?_⟩
      · rw [dMembers, ek, Res.bind_ok, hf]; exact a2 σ hσ
      · rw [vMembers, ek, Res.bind_ok, hf]; exact a3 v p hv hst

theorem elems_carry {h : Nat} {s : Sh} {b : Nat} (hrec : RecC val X t sh r N Λ h s b) {es : Elems E} (ho : OuterE es s b) (ht : es.Tidy)
    (hh : es.height ≤ h) (hs : es.Safe N) (xs : Es) : xs.WF → ∀ i, (∀ k e, es.find k = some e → ∀ x ∈ elemsAt k i xs, FineG val X sh r N Λ e x) →
    FollowsC t N Λ s b (dElems (gExec val X sh r h) es i xs) (vElems (vExec X t r h) es i xs) := by
  match xs with
  | .nil => intro _ _ _; exact FollowsC.nil
  | .cons d _ _ rest =>
    intro hm i hc
    obtain ⟨k, ek⟩ := keyBytes_arr_ok hm.1
    have ih := elems_carry hrec ho ht hh hs rest hm.2.2.2 (i + 1) (by
      intro k1 e1 h1 x hx
      refine hc k1 e1 h1 x ?_
      rw [elemsAt]
      split
      · exact List.mem_cons_of_mem _ hx
      · exact hx)
    cases hf : es.find (indexKey i) with
    | none =>
      obtain ⟨l, a1, a2, a3⟩ := ih
      refine ⟨l, a1, fun σ hσ => ?_, fun v p hv hst => ?_⟩
      · rw [dElems, ek, Res.bind_ok, hf]; exact a2 σ hσ
      · rw [vElems, ek, Res.bind_ok, hf]; exact a3 v p hv hst
    | some e =>
      have hcd := hrec e d (ho.find hf) (Elems.Tidy.find ht hf) (Nat.le_trans (Elems.height_find hf) hh) (hs.find hf) hm.1
        (hc _ e hf d (by rw [elemsAt, if_pos rfl]; exact List.mem_cons_self))
      obtain ⟨l, a1, a2, a3⟩ := hcd.check ih
      refine ⟨l, a1, fun σ hσ => ?_, fun v p hv hst => ?_⟩
      · rw [dElems, ek, Res.bind_ok, hf]; exact a2 σ hσ
      · rw [vElems, ek, Res.bind_ok, hf]; exact a3 v p hv hst

theorem FineG.sub {st : Nat} {es : Elems E} {ops : List (Op E)} {ls : Loops E} {a : After E} {k : List Nat} {e : Exec E} {d x : D}
    (h : FineG val X sh r N Λ (.mk st es ops ls a : Exec E) d) (ht : es.Tidy) (he : es.find k = some e)
    (hw : ∀ p, ∀ y ∈ walk p x, y ∈ walk (k :: p) d) : FineG val X sh r N Λ e x := by
  intro q b m t e' hq
  obtain ⟨h1, h2⟩ := h (k :: q) b m t e' ((mem_items_find (y := (q, _)) ht he).1 hq)
  exact ⟨h1, fun ws es hy => h2 ws es (hw q _ hy)⟩

theorem exec_carry (hr : r.WF) {M' N' : Nat} (hap : Apart M' N' Λ) {par0 : Nat} {s : Sh} {b : Nat} (hsh0 : Shaped t s b par0) (hsh : ShOK sh s b) : ∀ h : Nat, RecC val X t sh r N Λ h s b
  | 0 => by
    intro n d _ _ hh
    cases n
    simp [Exec.height] at hh
  | h + 1 => by
    intro n d ho ht hh hs hd hf
    have ih := exec_carry hr hap hsh0 hsh h
    obtain ⟨st, es, ops, ls, af⟩ := n
    rw [Outer] at ho
    obtain ⟨rfl, rfl, o1, o2, o3⟩ := ho
    obtain ⟨s1, s2, s3, s4, s5⟩ := hs
    rw [Exec.height] at hh
    have hk : ∀ {d}, d.WF → FollowsC t N Λ s b (dOpsThen X (gExec val X sh r h) sh r ops 0 .none d) (vOpsThen X (vExec X t r h) t r ops 0 .none d) :=
      fun hd => followsC_opsThen hr hd o2 s3
    cases d with
    | lit ty w => exact hk hd
    | obj ws ms =>
      have hsub : ∀ k e, es.find k = some e → ∀ x ∈ membersAt k ms, FineG val X sh r N Λ e x := by
        intro k e he x hx
        refine hf.sub (k := k) ht.1 he ?_
        · intro p y hy; rw [walk]; exact List.mem_flatMap.2 ⟨x, hx, hy⟩
      by_cases hemp : es.isEmpty = true
      · obtain ⟨l, a1, a2, a3⟩ := hk hd
        refine ⟨l, a1, fun σ hσ => ?_, fun v p hv hst => ?_⟩
        · simp only [gExec, dObj, hemp, if_true]; exact a2 σ hσ
        · simp only [vExec, vObj, hemp, if_true]; exact a3 v p hv hst
      · have hm := members_carry ih o1 ht.1 (by omega) s2 ms hd.2 hsub
        cases ms with
        | nil =>
          refine ⟨[], by simp, fun σ hσ => ?_, fun v p hv hst => ⟨_, ?_, PostC.refl hst hv⟩⟩
          · simp [gExec, dObj, hemp, dMembers, dAfter, Res.bind_ok]
          · simp [vExec, vObj, hemp, vMembers, Res.bind_ok]
        | cons kty key k1 k2 v w1 w2 rest =>
          obtain ⟨l, a1, a2, a3⟩ := hm
          obtain ⟨l', b1, b2, b3⟩ := hk hd
          refine ⟨l ++ l', ?_, fun σ hσ => ?_, fun v p hv hst => ?_⟩
          · intro x hx
            rcases List.mem_append.1 hx with hx | hx
            · exact a1 x hx
            · exact b1 x hx
          · simp only [gExec, dObj, hemp, if_false, a2 σ hσ, Res.bind_ok, dAfter, andThen, List.append_nil, b2 σ hσ, Bool.false_eq_true]
          · obtain ⟨c, e1, e2⟩ := a3 v p hv hst
            simp only [vExec, vObj, hemp, if_false, e1, Res.bind_ok, Bool.false_eq_true]
            cases hc : c.1 with
            | true =>
              have := e2.early hc
              exact ⟨_, by simp, e2.exit this.1 this.2 b1⟩
            | false =>
              simp only [Bool.false_eq_true, if_false]
              rw [← hc]
              exact e2.check b1 b3
    | arr ws xs =>
      by_cases hemp : ls.isEmpty = true
      · have hls : ls = .nil := by cases ls with
          | nil => rfl
          | cons => cases hemp
        subst hls
        cases xs with
        | nil =>
          refine ⟨[], by simp, fun σ hσ => ?_, fun v p hv hst => ⟨_, ?_, PostC.refl hst hv⟩⟩
          · simp [gExec, gArr, hemp]
          · simp [vExec, vArr, hemp]
        | cons v w1 w2 rest =>
          have hsub : ∀ k e, es.find k = some e → ∀ x ∈ elemsAt k 0 (.cons v w1 w2 rest), FineG val X sh r N Λ e x := by
            intro k e he x hx
            refine hf.sub (k := k) ht.1 he ?_
            · intro p y hy; rw [walk]; exact List.mem_flatMap.2 ⟨x, hx, hy⟩
          obtain ⟨l, a1, a2, a3⟩ := (elems_carry ih o1 ht.1 (by omega) s2 _ hd.2 0 hsub).flag (hk hd)
          refine ⟨l, a1, fun σ hσ => ?_, fun v p hv hst => ?_⟩
          · simp only [gExec, gArr, hemp, if_true]; exact a2 σ hσ
          · simp only [vExec, vArr, hemp, if_true]; exact a3 v p hv hst
      · obtain ⟨l, a1, a2, a3⟩ := (arrayLoops_carry (val := val) (X := X) (h := h) hr hsh0 hsh hd hap ls o3 (by omega) s4 (by
          intro q i m t e hm
          have := loop_nil ls hm
          simp only at this; subst this
          obtain ⟨f1, f2⟩ := hf [] i m t e (by
            rw [items]
            exact List.mem_append_right _ (List.mem_append_right _ (List.mem_append_left _ hm)))
          exact ⟨f1, f2 ws xs (self_mem _)⟩)).flag (hk hd)
        refine ⟨l, a1, fun σ hσ => ?_, fun v p hv hst => ?_⟩
        · have := a2 σ hσ
          simp only [gExec, gArr, hemp, if_false, Bool.false_eq_true]; exact this
        · simp only [vExec, vArr, hemp, if_false, Bool.false_eq_true]; exact a3 v p hv hst

/-! ### The verdict -/

/-- `Match` on any text of the document returns the verdict of the decisions. -/
theorem run_carry (val : Vals E) (X : Fns E) {M' N' : Nat} (hap : Apart M' N' Λ) {df : Def E} {s : Sh} {node : Exec E} (hw : Loose1 df s node) (hsafe : node.Safe df.numSlots) {data : List Nat} {r : D}
    (hr : Begins data r) (hf : FineG val X (subtree s 0) r df.numSlots Λ node r) {m : M} (hm : Ready df m) :
    ∃ l m', gExec val X (subtree s 0) r node.height node r (List.replicate df.numSlots none) = .ok (l, List.replicate df.numSlots none) ∧ run X df m data = .ok (some (s.evalM 0 l.get), m') := by
  obtain ⟨l, _, a2, a3⟩ := exec_carry (val := val) (X := X) (sh := subtree s 0) hr.wf hap hw.shaped (subtree_ok s 0) node.height node r hw.outer hw.tidy (Nat.le_refl _)
    hsafe hr.wf hf
  refine ⟨l, ?_⟩
  have hd := a2 _ (slotsWF_empty _)
  have hfr := BinTree.newState_fresh df.tree s.size (by have := hw.len; omega)
  obtain ⟨c, c1, c2⟩ := a3 { newV df with coll := m.coll } (fun _ => none) (si_empty _ _ _)
    ⟨⟨⟨0, hw.shaped⟩, Or.inl rfl, Or.inl (Nat.le_refl 0)⟩, by simp [BinTree.newState, newV], hfr.inv (fun _ _ _ => rfl), by simp, by simp⟩
  have hv : ∃ v', vRun X df { newV df with coll := m.coll } r = .ok (s.evalM 0 l.get, v') := by
    have hstall : c.2.bt.stall = 0 := by rw [c2.stall]; rfl
    obtain ⟨d', q, r1, r2, r3, r4, r5⟩ := BinTree.resolve_spec hw.shaped hw.len hstall c2.st.len c2.st.inv
    have hK : also (fun _ => none) l = l.get := by funext i; simp [also]
    rw [hK] at r3
    unfold vRun
    rw [hw.parse]
    simp only [c1, Res.bind_ok, r1]
    have : BinTree.isTrue { c.2.bt with data := d' } 0 = .ok (s.evalM 0 l.get) := by
      simp only [BinTree.isTrue, Res.idx_of_some r2.root]
      cases hk : K s 0 q with
      | none => exact absurd hk r4
      | some w =>
        rw [← BinTree.evalM_falseExt r3 hw.shaped, BinTree.K_evalM hk]
        cases w <;> rfl
    rw [this]
    exact ⟨_, rfl⟩
  obtain ⟨v', hv'⟩ := hv
  have := run_rel X df hr (sim_ready hm data)
  rw [hv'] at this
  cases hrun : run X df m data with
  | ok a =>
    rw [hrun] at this
    obtain ⟨o, m'⟩ := a
    obtain ⟨h1, _⟩ := this
    simp only at h1
    exact ⟨m', hd, by rw [h1]⟩
  | panic => rw [hrun] at this; exact this.elim
  | stuck => rw [hrun] at this; exact this.elim

end
end Verif.Transform
