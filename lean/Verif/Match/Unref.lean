import Verif.Match.Theorems

/-!
# Definitions without slots, and what they read of a document

A definition without slots sees only the parts of a document at the paths of its nodes.
-/

namespace Verif.Match
open Verif.Token Verif.FastVal
open Verif.BinTree (Sh K)

variable {E : Ext}

mutual
  def Ref.NoSlot : Ref E → Prop
    | .slot _ => False
    | .fn _ ps => ps.NoSlot
    | _ => True
  def Refs.NoSlot : Refs E → Prop
    | .nil => True
    | .cons p ps => p.NoSlot ∧ ps.NoSlot
end

def Op.NoSlot (op : Op E) : Prop := (∀ r ∈ op.lhs, r.NoSlot) ∧ (∀ r ∈ op.rhs, r.NoSlot)

mutual
  /-- Nothing is stored or read from slots; there is no `AfterNode`. -/
  def Exec.NoSlots : Exec E → Prop
    | .mk st es ops ls a => st = 0 ∧ es.NoSlots ∧ (∀ op ∈ ops, op.NoSlot) ∧ ls.NoSlots ∧ a = .none
  def Elems.NoSlots : Elems E → Prop
    | .nil => True
    | .cons _ e r => e.NoSlots ∧ r.NoSlots
  def Loops.NoSlots : Loops E → Prop
    | .nil => True
    | .cons _ _ t e r => t = none ∧ e.NoSlots ∧ r.NoSlots
end

theorem Elems.NoSlots.find {es : Elems E} (h : es.NoSlots) {k e} (he : es.find k = some e) : e.NoSlots := by
  match es, h with
  | .cons k' e' r, h =>
    rw [Elems.find] at he
    split at he
    · simp at he; subst he; exact h.1
    · exact Elems.NoSlots.find (es := r) h.2 he

section
variable (X : Fns E) (rd rd' : Nat → Res (FV E)) (lit : Option (FV E))

mutual
  theorem resolveParam_noSlot : ∀ r : Ref E, r.NoSlot → resolveParam X rd lit r = resolveParam X rd' lit r
    | .val _, _ | .lit, _ => rfl
    | .slot _, h => h.elim
    | .fn f ps, h => by rw [resolveParam, resolveParam, resolveParams_noSlot ps f.arity h]
  theorem resolveParams_noSlot : ∀ (ps : Refs E) (n : Nat), ps.NoSlot → resolveParams X rd lit n ps = resolveParams X rd' lit n ps
    | ps, 0, _ => by rw [resolveParams.eq_def, resolveParams.eq_def]
    | .nil, n + 1, _ => rfl
    | .cons p ps, n + 1, h => by
      rw [resolveParams, resolveParams, resolveParam_noSlot p h.1, resolveParams_noSlot ps n h.2]
end

theorem opResult_noSlot {op : Op E} (h : op.NoSlot) : opResult X rd lit op = opResult X rd' lit op := by
  have side : ∀ o : Option (Ref E), (∀ r ∈ o, r.NoSlot) → opSide X rd lit o = opSide X rd' lit o := by
    intro o ho
    cases o with
    | none => rfl
    | some r => rw [opSide, opSide, resolveParam_noSlot X rd rd' lit r (ho r rfl)]
  unfold opResult
  rw [side _ h.1, side _ h.2]

end

theorem dOps_noSlot (X : Fns E) {r r' : D} {σ σ' : Slots} {lit : Option (FV E)} (ops : List (Op E)) (h : ∀ op ∈ ops, op.NoSlot) :
    dOps X r σ lit ops = dOps X r' σ' lit ops := by
  induction ops with
  | nil => rfl
  | cons op ops ih =>
    rw [dOps, dOps, opResult_noSlot X (slotVal r σ) (slotVal r' σ') lit (h op (by simp)), ih (fun o ho => h o (by simp [ho]))]

/-! ### References -/

/-- A step of a reference: into a member or an indexed element, into every element, or to the number of elements. -/
inductive RStep where
  | key (k : List Nat)
  | each
  | len
  deriving DecidableEq

abbrev RPath := List RStep

mutual
  /-- What a node reads. -/
  def rpaths : Exec E → List RPath
    | .mk _ es ops ls _ => ops.map (fun _ => []) ++ (rpathsE es ++ rpathsL ls)
  def rpathsE : Elems E → List RPath
    | .nil => []
    | .cons k e r => (rpaths e).map (.key k :: ·) ++ rpathsE r
  def rpathsL : Loops E → List RPath
    | .nil => []
    | .cons _ _ _ e r => [.len] :: ((rpaths e).map (.each :: ·) ++ rpathsL r)
end

mutual
  /-- Every node below a key reads something. -/
  def Exec.Reads : Exec E → Prop
    | .mk _ es _ ls _ => es.Reads ∧ ls.Reads
  def Elems.Reads : Elems E → Prop
    | .nil => True
    | .cons _ e r => rpaths e ≠ [] ∧ e.Reads ∧ r.Reads
  def Loops.Reads : Loops E → Prop
    | .nil => True
    | .cons _ _ _ e r => e.Reads ∧ r.Reads
end

theorem Elems.Reads.find {es : Elems E} (h : es.Reads) {k e} (he : es.find k = some e) : rpaths e ≠ [] ∧ e.Reads := by
  match es, h with
  | .cons k' e' r, h =>
    rw [Elems.find] at he
    split at he
    · simp at he; subst he; exact ⟨h.1, h.2.1⟩
    · exact Elems.Reads.find (es := r) h.2.2 he

theorem rpathsE_find {es : Elems E} {k e} (he : es.find k = some e) : ∀ p ∈ rpaths e, .key k :: p ∈ rpathsE es := by
  match es with
  | .cons k' e' r =>
    rw [Elems.find] at he
    intro p hp
    rw [rpathsE]
    split at he
    · rename_i hk; simp at he; subst he; subst hk
      exact List.mem_append_left _ (List.mem_map.2 ⟨p, hp, rfl⟩)
    · exact List.mem_append_right _ (rpathsE_find (es := r) he p hp)

/-- The key of a member as bytes. -/
def memberKey (kty : Tok) (key : List Nat) : List Nat :=
  match keyBytes false kty key with
  | .ok k => k
  | _ => []

mutual
  /-- The documents agree on what is referenced by `L`: unreferenced members may be added, removed and changed anywhere. -/
  inductive Agree : (RPath → Prop) → D → D → Prop
    | none {L : RPath → Prop} {d d' : D} (h : ∀ p, ¬ L p) : Agree L d d'
    | lit {L : RPath → Prop} {ty ty' : Tok} {w w' : List Nat} (h : L [] → ty = ty' ∧ w = w') : Agree L (.lit ty w) (.lit ty' w')
    | obj {L : RPath → Prop} {ws ws' : List Nat} {ms ms' : Ms} (h : L [] → D.obj ws ms = D.obj ws' ms') (hm : AgreeM L ms ms') :
        Agree L (.obj ws ms) (.obj ws' ms')
    | arr {L : RPath → Prop} {ws ws' : List Nat} {es es' : Es} (h : L [] → D.arr ws es = D.arr ws' es') (he : AgreeE L 0 es es') :
        Agree L (.arr ws es) (.arr ws' es')

  inductive AgreeM : (RPath → Prop) → Ms → Ms → Prop
    | nil {L : RPath → Prop} : AgreeM L .nil .nil
    | left {L : RPath → Prop} {kty : Tok} {key k1 k2 w1 w2 : List Nat} {d : D} {ms ms' : Ms}
        (h : ∀ p, ¬ L (.key (memberKey kty key) :: p)) (hm : AgreeM L ms ms') : AgreeM L (.cons kty key k1 k2 d w1 w2 ms) ms'
    | right {L : RPath → Prop} {kty : Tok} {key k1 k2 w1 w2 : List Nat} {d : D} {ms ms' : Ms}
        (h : ∀ p, ¬ L (.key (memberKey kty key) :: p)) (hm : AgreeM L ms ms') : AgreeM L ms (.cons kty key k1 k2 d w1 w2 ms')
    | both {L : RPath → Prop} {kty kty' : Tok} {key key' k1 k1' k2 k2' w1 w1' w2 w2' : List Nat} {d d' : D} {ms ms' : Ms}
        (hk : memberKey kty key = memberKey kty' key') (hd : Agree (fun p => L (.key (memberKey kty key) :: p)) d d')
        (hm : AgreeM L ms ms') : AgreeM L (.cons kty key k1 k2 d w1 w2 ms) (.cons kty' key' k1' k2' d' w1' w2' ms')

  /-- Elements are compared one by one, from index `i` on. -/
  inductive AgreeE : (RPath → Prop) → Nat → Es → Es → Prop
    | nil {L : RPath → Prop} {i : Nat} : AgreeE L i .nil .nil
    | cons {L : RPath → Prop} {i : Nat} {w1 w1' w2 w2' : List Nat} {d d' : D} {es es' : Es}
        (hd : Agree (fun p => L (.key (indexKey i) :: p) ∨ L (.each :: p)) d d') (he : AgreeE L (i + 1) es es') :
        AgreeE L i (.cons d w1 w2 es) (.cons d' w1' w2' es')
end

mutual
  theorem Agree.mono {L L' : RPath → Prop} (hL : ∀ p, L' p → L p) : ∀ {d d' : D}, Agree L d d' → Agree L' d d'
    | _, _, .none h => .none (fun p hp => h p (hL p hp))
    | _, _, .lit h => .lit (fun hp => h (hL _ hp))
    | _, _, .obj h hm => .obj (fun hp => h (hL _ hp)) (hm.mono hL)
    | _, _, .arr h he => .arr (fun hp => h (hL _ hp)) (he.mono hL)
  theorem AgreeM.mono {L L' : RPath → Prop} (hL : ∀ p, L' p → L p) : ∀ {ms ms' : Ms}, AgreeM L ms ms' → AgreeM L' ms ms'
    | _, _, .nil => .nil
    | _, _, .left h hm => .left (fun p hp => h p (hL _ hp)) (hm.mono hL)
    | _, _, .right h hm => .right (fun p hp => h p (hL _ hp)) (hm.mono hL)
    | _, _, .both hk hd hm => .both hk (hd.mono (fun p hp => hL _ hp)) (hm.mono hL)
  theorem AgreeE.mono {L L' : RPath → Prop} (hL : ∀ p, L' p → L p) : ∀ {i : Nat} {es es' : Es}, AgreeE L i es es' → AgreeE L' i es es'
    | _, _, _, .nil => .nil
    | _, _, _, .cons hd he => .cons (hd.mono (fun p hp => hp.imp (hL _) (hL _))) (he.mono hL)
end

/-! ### Decisions -/

/-- The same decisions on documents that agree. -/
def RecA (rec rec' : DRec E) : Prop :=
  ∀ n d d' σ σ' a a', n.NoSlots → n.Reads → Agree (· ∈ rpaths n) d d' → rec n d σ = .ok a → rec' n d' σ' = .ok a' → a.1 = a'.1

theorem andThen_ok {a : Marks × Slots} {f : Slots → Res (Marks × Slots)} {x : Marks × Slots} (h : andThen a f = .ok x) :
    ∃ b, f a.2 = .ok b ∧ x.1 = a.1 ++ b.1 := by
  unfold andThen at h
  obtain ⟨b, hb, h⟩ := Res.bind_eq_ok.1 h
  cases h
  exact ⟨b, hb, rfl⟩

theorem memberKey_ok {kty : Tok} {key k : List Nat} (h : keyBytes false kty key = .ok k) : memberKey kty key = k := by
  rw [memberKey, h]

theorem dMembers_agree {rec rec' : DRec E} (hrec : RecA rec rec') {L : RPath → Prop} {es : Elems E} (hn : es.NoSlots) (hr : es.Reads)
    (hL : ∀ p ∈ rpathsE es, L p) {ms ms' : Ms} (h : AgreeM L ms ms') : ∀ {σ σ' a a'}, dMembers rec es ms σ = .ok a →
    dMembers rec' es ms' σ' = .ok a' → a.1 = a'.1 := by
  match ms, ms', h with
  | _, _, .nil => intro σ σ' a a' ha ha'; cases ha; cases ha'; rfl
  | _, _, .left h hm =>
    intro σ σ' a a' ha ha'
    rw [dMembers] at ha
    obtain ⟨k, hk, ha⟩ := Res.bind_eq_ok.1 ha
    rw [memberKey_ok hk] at h
    cases hf : es.find k with
    | none => rw [hf] at ha; exact dMembers_agree hrec hn hr hL hm ha ha'
    | some e =>
      exfalso
      obtain ⟨h1, _⟩ := hr.find hf
      obtain ⟨p, hp⟩ := List.exists_mem_of_ne_nil _ h1
      exact h p (hL _ (rpathsE_find hf p hp))
  | _, _, .right h hm =>
    intro σ σ' a a' ha ha'
    rw [dMembers] at ha'
    obtain ⟨k, hk, ha'⟩ := Res.bind_eq_ok.1 ha'
    rw [memberKey_ok hk] at h
    cases hf : es.find k with
    | none => rw [hf] at ha'; exact dMembers_agree hrec hn hr hL hm ha ha'
    | some e =>
      exfalso
      obtain ⟨h1, _⟩ := hr.find hf
      obtain ⟨p, hp⟩ := List.exists_mem_of_ne_nil _ h1
      exact h p (hL _ (rpathsE_find hf p hp))
  | _, _, .both hk hd hm =>
    intro σ σ' a a' ha ha'
    rw [dMembers] at ha ha'
    obtain ⟨k, h1, ha⟩ := Res.bind_eq_ok.1 ha
    obtain ⟨k', h2, ha'⟩ := Res.bind_eq_ok.1 ha'
    rw [memberKey_ok h1, memberKey_ok h2] at hk
    rw [memberKey_ok h1] at hd
    subst hk
    cases hf : es.find k with
    | none => rw [hf] at ha ha'; exact dMembers_agree hrec hn hr hL hm ha ha'
    | some e =>
      rw [hf] at ha ha'
      simp only at ha ha'
      obtain ⟨b, hb, ha⟩ := Res.bind_eq_ok.1 ha
      obtain ⟨b', hb', ha'⟩ := Res.bind_eq_ok.1 ha'
      obtain ⟨c, hc, e1⟩ := andThen_ok ha
      obtain ⟨c', hc', e2⟩ := andThen_ok ha'
      rw [e1, e2, hrec e _ _ _ _ b b' (hn.find hf) (hr.find hf).2 (hd.mono (fun p hp => hL _ (rpathsE_find hf p hp))) hb hb',
        dMembers_agree hrec hn hr hL hm hc hc']

theorem dElems_agree {rec rec' : DRec E} (hrec : RecA rec rec') {L : RPath → Prop} {es : Elems E} (hn : es.NoSlots) (hr : es.Reads)
    (hL : ∀ p ∈ rpathsE es, L p) {i : Nat} {ds ds' : Es} (h : AgreeE L i ds ds') : ∀ {σ σ' a a'}, dElems rec es i ds σ = .ok a →
    dElems rec' es i ds' σ' = .ok a' → a.1 = a'.1 := by
  match i, ds, ds', h with
  | _, _, _, .nil => intro σ σ' a a' ha ha'; cases ha; cases ha'; rfl
  | i, _, _, .cons hd he =>
    intro σ σ' a a' ha ha'
    rw [dElems] at ha ha'
    obtain ⟨_, _, ha⟩ := Res.bind_eq_ok.1 ha
    obtain ⟨_, _, ha'⟩ := Res.bind_eq_ok.1 ha'
    cases hf : es.find (indexKey i) with
    | none => rw [hf] at ha ha'; exact dElems_agree hrec hn hr hL he ha ha'
    | some e =>
      rw [hf] at ha ha'
      simp only at ha ha'
      obtain ⟨b, hb, ha⟩ := Res.bind_eq_ok.1 ha
      obtain ⟨b', hb', ha'⟩ := Res.bind_eq_ok.1 ha'
      obtain ⟨c, hc, e1⟩ := andThen_ok ha
      obtain ⟨c', hc', e2⟩ := andThen_ok ha'
      rw [e1, e2, hrec e _ _ _ _ b b' (hn.find hf) (hr.find hf).2 (hd.mono (fun p hp => Or.inl (hL _ (rpathsE_find hf p hp)))) hb hb',
        dElems_agree hrec hn hr hL he hc hc']

theorem dItems_agree {rec rec' : DRec E} (hrec : RecA rec rec') {L : RPath → Prop} {sh : Nat → Sh} {b : Nat} {m : Mode} {node : Exec E}
    (hn : node.NoSlots) (hr : node.Reads) (hL : ∀ p ∈ rpaths node, L (.each :: p)) {i : Nat} {ds ds' : Es} (h : AgreeE L i ds ds') :
    ∀ {σ σ' st v v'}, dItems rec sh b m node σ ds st = .ok v → dItems rec' sh b m node σ' ds' st = .ok v' → v = v' := by
  match i, ds, ds', h with
  | _, _, _, .nil => intro σ σ' st v v' hv hv'; cases hv; cases hv'; rfl
  | i, _, _, .cons hd he =>
    intro σ σ' st v v' hv hv'
    rw [dItems] at hv hv'
    obtain ⟨a, ha, hv⟩ := Res.bind_eq_ok.1 hv
    obtain ⟨a', ha', hv'⟩ := Res.bind_eq_ok.1 hv'
    rw [← hrec node _ _ _ _ a a' hn hr (hd.mono (fun p hp => Or.inr (hL p hp))) ha ha'] at hv'
    simp only at hv hv'
    cases hm : m.leaves (decide (K (sh b) b a.1.get = some true)) with
    | some x => rw [hm] at hv hv'; cases hv; cases hv'; rfl
    | none => rw [hm] at hv hv'; exact dItems_agree hrec hn hr hL he hv hv'

theorem dArrayLoops_agree {rec rec' : DRec E} (hrec : RecA rec rec') {L : RPath → Prop} {sh : Nat → Sh} {ws ws' : List Nat} {ds ds' : Es}
    (h : AgreeE L 0 ds ds') : ∀ (ls : Loops E), ls.NoSlots → ls.Reads → (∀ p ∈ rpathsL ls, L p) → ∀ {σ σ' v v'},
    dArrayLoops rec sh (.arr ws ds) σ ls = .ok v → dArrayLoops rec' sh (.arr ws' ds') σ' ls = .ok v' → v = v'
  | .nil, _, _, _, σ, σ', v, v', hv, hv' => by cases hv; cases hv'; rfl
  | .cons b m t e r, hn, hr, hL, σ, σ', v, v', hv, hv' => by
    obtain ⟨rfl, hn1, hn2⟩ := hn
    rw [dArrayLoops] at hv hv'
    simp only [dLoop] at hv hv'
    obtain ⟨x, hx, hv⟩ := Res.bind_eq_ok.1 hv
    obtain ⟨x', hx', hv'⟩ := Res.bind_eq_ok.1 hv'
    obtain ⟨y, hy, hx⟩ := Res.bind_eq_ok.1 hx
    obtain ⟨y', hy', hx'⟩ := Res.bind_eq_ok.1 hx'
    obtain ⟨z, hz, hv⟩ := Res.bind_eq_ok.1 hv
    obtain ⟨z', hz', hv'⟩ := Res.bind_eq_ok.1 hv'
    cases hx; cases hx'; cases hv; cases hv'
    rw [rpathsL] at hL
    rw [dItems_agree hrec hn1 hr.1 (fun p hp => hL _ (List.mem_cons_of_mem _ (List.mem_append_left _ (List.mem_map.2 ⟨p, hp, rfl⟩)))) h hy hy',
      dArrayLoops_agree hrec h r hn2 hr.2 (fun p hp => hL _ (List.mem_cons_of_mem _ (List.mem_append_right _ hp))) hz hz']

theorem dOpsThen_agree (X : Fns E) {rec rec' : DRec E} {sh : Nat → Sh} {r r' : D} {ops : List (Op E)} (ho : ∀ op ∈ ops, op.NoSlot) {d d' : D}
    (hd : ops ≠ [] → d = d') {σ σ' : Slots} {a a' : Marks × Slots} (h : dOpsThen X rec sh r ops 0 .none d σ = .ok a)
    (h' : dOpsThen X rec' sh r' ops 0 .none d' σ' = .ok a') : a.1 = a'.1 := by
  unfold dOpsThen at h h'
  obtain ⟨v, hv, h⟩ := Res.bind_eq_ok.1 h
  obtain ⟨v', hv', h'⟩ := Res.bind_eq_ok.1 h'
  obtain ⟨l, hl, h⟩ := Res.bind_eq_ok.1 h
  obtain ⟨l', hl', h'⟩ := Res.bind_eq_ok.1 h'
  obtain ⟨c, hc, e1⟩ := andThen_ok h
  obtain ⟨c', hc', e2⟩ := andThen_ok h'
  simp only [dFinish, dAfter, dStore, Res.bind_ok, if_pos] at hc hc'
  cases hc; cases hc'
  rw [e1, e2]
  simp only [List.append_nil]
  cases ops with
  | nil => cases hl; cases hl'; rfl
  | cons op ops =>
    have := hd (by simp)
    subst this
    have hvv := Res.ok.inj (hv.symm.trans hv'); subst hvv
    rw [dOps_noSlot X (r' := r') (σ' := σ') (op :: ops) ho] at hl
    exact Res.ok.inj (hl.symm.trans hl')

theorem dOpsThen_nil (X : Fns E) {rec : DRec E} {sh : Nat → Sh} {r : D} {d : D} {σ : Slots} {a : Marks × Slots}
    (h : dOpsThen X rec sh r [] 0 .none d σ = .ok a) : a.1 = [] := by
  unfold dOpsThen at h
  obtain ⟨v, hv, h⟩ := Res.bind_eq_ok.1 h
  obtain ⟨l, hl, h⟩ := Res.bind_eq_ok.1 h
  obtain ⟨c, hc, e1⟩ := andThen_ok h
  simp only [dFinish, dAfter, dStore, Res.bind_ok, if_pos] at hc
  cases hc; cases hl; rw [e1]; rfl

theorem dElems_nil {rec : DRec E} : ∀ (i : Nat) (ds : Es) (σ : Slots) (b : Marks × Slots), dElems rec .nil i ds σ = .ok b → b.1 = []
  | _, .nil, σ, b, hb => by cases hb; rfl
  | i, .cons d w1 w2 ds, σ, b, hb => by
    rw [dElems] at hb
    obtain ⟨_, _, hb⟩ := Res.bind_eq_ok.1 hb
    exact dElems_nil (i + 1) ds σ b hb

/-- A node that reads nothing decides nothing. -/
theorem reads_nothing (X : Fns E) (sh : Nat → Sh) (r : D) {h : Nat} {n : Exec E} (hn : n.NoSlots) (hr : n.Reads) (h0 : rpaths n = []) {d : D}
    {σ : Slots} {a : Marks × Slots} (ha : dExec X sh r h n d σ = .ok a) : a.1 = [] := by
  obtain ⟨st, es, ops, ls, af⟩ := n
  obtain ⟨rfl, _, _, _, rfl⟩ := hn
  rw [rpaths] at h0
  obtain ⟨h1, h2⟩ := List.append_eq_nil_iff.1 h0
  obtain ⟨h2, h3⟩ := List.append_eq_nil_iff.1 h2
  have ho : ops = [] := List.map_eq_nil_iff.1 h1
  have hes : es = .nil := by
    cases es with
    | nil => rfl
    | cons k e r => rw [rpathsE] at h2; exact absurd (List.map_eq_nil_iff.1 (List.append_eq_nil_iff.1 h2).1) hr.1.1
  have hls : ls = .nil := by
    cases ls with
    | nil => rfl
    | cons => rw [rpathsL] at h3; cases h3
  subst ho hes hls
  cases h with
  | zero => cases ha
  | succ h =>
    rw [dExec] at ha
    cases d with
    | lit ty w => exact dOpsThen_nil X ha
    | obj ws ms =>
      simp only [dObj, Elems.isEmpty, if_pos] at ha
      exact dOpsThen_nil X ha
    | arr ws ds =>
      simp only [dArr, Loops.isEmpty, if_pos] at ha
      cases ds with
      | nil => cases ha; rfl
      | cons =>
        simp only at ha
        obtain ⟨b, hb, ha⟩ := Res.bind_eq_ok.1 ha
        obtain ⟨c, hc, e⟩ := andThen_ok ha
        rw [e, dElems_nil _ _ _ _ hb, dOpsThen_nil X hc]; rfl

theorem dExec_agree (X : Fns E) (sh : Nat → Sh) (r r' : D) (h : Nat) : RecA (dExec X sh r h) (dExec X sh r' h) := by
  induction h with
  | zero => intro n d d' σ σ' a a' _ _ _ ha; cases ha
  | succ h ih =>
    intro n d d' σ σ' a a' hn hr hag ha ha'
    have hn' := hn
    have hr' := hr
    have hag' := hag
    obtain ⟨st, es, ops, ls, af⟩ := n
    obtain ⟨rfl, n1, n2, n3, rfl⟩ := hn
    have hops : ops ≠ [] → (∀ {L : RPath → Prop}, (∀ p ∈ rpaths (.mk 0 es ops ls .none), L p) → L []) := by
      intro ho L hL
      apply hL
      cases ops with
      | nil => exact absurd rfl ho
      | cons o os => rw [rpaths]; simp
    have hE : ∀ p ∈ rpathsE es, p ∈ rpaths (.mk 0 es ops ls .none) := by
      intro p hp; rw [rpaths]; exact List.mem_append_right _ (List.mem_append_left _ hp)
    have hLp : ∀ p ∈ rpathsL ls, p ∈ rpaths (.mk 0 es ops ls .none) := by
      intro p hp; rw [rpaths]; exact List.mem_append_right _ (List.mem_append_right _ hp)
    cases hag with
    | none h0 =>
      have h0 : rpaths (.mk 0 es ops ls .none) = [] := List.eq_nil_iff_forall_not_mem.2 h0
      rw [reads_nothing X sh r hn' hr' h0 ha, reads_nothing X sh r' hn' hr' h0 ha']
    | lit h0 =>
      rw [dExec] at ha ha'
      refine dOpsThen_agree X n2 (fun ho => ?_) ha ha'
      obtain ⟨rfl, rfl⟩ := h0 (hops ho (fun p hp => hp))
      rfl
    | @obj _ ws ws' ms ms' h0 hm =>
      rw [dExec] at ha ha'
      simp only [dObj] at ha ha'
      have heq : ops ≠ [] → D.obj ws ms = D.obj ws' ms' := fun ho => h0 (hops ho (fun p hp => hp))
      split at ha
      · rename_i hemp
        rw [if_pos hemp] at ha'
        exact dOpsThen_agree X n2 heq ha ha'
      · rename_i hemp
        rw [if_neg hemp] at ha'
        obtain ⟨b, hb, ha⟩ := Res.bind_eq_ok.1 ha
        obtain ⟨b', hb', ha'⟩ := Res.bind_eq_ok.1 ha'
        simp only [dAfter, Res.bind_ok, List.append_nil] at ha ha'
        have hbb := dMembers_agree ih n1 hr.1 hE hm hb hb'
        cases ops with
        | nil =>
          have h1 : a.1 = b.1 := by
            cases ms with
            | nil => cases ha; rfl
            | cons =>
              obtain ⟨c, hc, e⟩ := andThen_ok ha
              rw [e, dOpsThen_nil X hc, List.append_nil]
          have h2 : a'.1 = b'.1 := by
            cases ms' with
            | nil => cases ha'; rfl
            | cons =>
              obtain ⟨c, hc, e⟩ := andThen_ok ha'
              rw [e, dOpsThen_nil X hc, List.append_nil]
          rw [h1, h2, hbb]
        | cons o os =>
          have := heq (by simp)
          cases this
          cases ms with
          | nil => cases ha; cases ha'; exact hbb
          | cons =>
            obtain ⟨c, hc, e⟩ := andThen_ok ha
            obtain ⟨c', hc', e'⟩ := andThen_ok ha'
            rw [e, e', hbb, dOpsThen_agree X n2 (fun _ => rfl) hc hc']
    | @arr _ ws ws' ds ds' h0 he =>
      rw [dExec] at ha ha'
      simp only [dArr] at ha ha'
      have heq : ops ≠ [] → D.arr ws ds = D.arr ws' ds' := fun ho => h0 (hops ho (fun p hp => hp))
      split at ha
      · rename_i hemp
        rw [if_pos hemp] at ha'
        match ds, ds', he with
        | .nil, .nil, _ => cases ha; cases ha'; rfl
        | .cons .., .cons .., he =>
          simp only at ha ha'
          obtain ⟨b, hb, ha⟩ := Res.bind_eq_ok.1 ha
          obtain ⟨b', hb', ha'⟩ := Res.bind_eq_ok.1 ha'
          obtain ⟨c, hc, e⟩ := andThen_ok ha
          obtain ⟨c', hc', e'⟩ := andThen_ok ha'
          rw [e, e', dElems_agree ih n1 hr.1 hE he hb hb', dOpsThen_agree X n2 heq hc hc']
      · rename_i hemp
        rw [if_neg hemp] at ha'
        obtain ⟨b, hb, ha⟩ := Res.bind_eq_ok.1 ha
        obtain ⟨b', hb', ha'⟩ := Res.bind_eq_ok.1 ha'
        obtain ⟨c, hc, e⟩ := andThen_ok ha
        obtain ⟨c', hc', e'⟩ := andThen_ok ha'
        rw [e, e', dArrayLoops_agree ih he ls n3 hr.2 hLp hb hb', dOpsThen_agree X n2 heq hc hc']

theorem verdict_agree (X : Fns E) (s : Sh) {node : Exec E} {n : Nat} (hn : node.NoSlots) (hr : node.Reads) {r r' : D}
    (h : Agree (· ∈ rpaths node) r r') {b b' : Bool} (hb : verdict X s node n r = .ok b) (hb' : verdict X s node n r' = .ok b') : b = b' := by
  unfold verdict decisions at hb hb'
  obtain ⟨l, h1, hb⟩ := Res.bind_eq_ok.1 hb
  obtain ⟨a, ha, hl⟩ := Res.bind_eq_ok.1 h1
  obtain ⟨l', h1', hb'⟩ := Res.bind_eq_ok.1 hb'
  obtain ⟨a', ha', hl'⟩ := Res.bind_eq_ok.1 h1'
  cases hl; cases hl'; cases hb; cases hb'
  rw [dExec_agree X _ r r' _ node r r' _ _ a a' hn hr h ha ha']

end Verif.Match
