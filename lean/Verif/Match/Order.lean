import Verif.Match.Unref

/-!
# Verdicts and the order of members
-/

namespace Verif.Match
open Verif.Token Verif.FastVal
open Verif.BinTree (Sh K)

variable {E : Ext}

/-! ### Specification -/

/-- `rest` is `ms` without a member with key `k` and value `d`. -/
inductive Pick : List Nat → D → Ms → Ms → Prop
  | here {kty : Tok} {key k1 k2 w1 w2 : List Nat} {d : D} {ms : Ms} : Pick (memberKey kty key) d (.cons kty key k1 k2 d w1 w2 ms) ms
  | there {k : List Nat} {d : D} {kty : Tok} {key k1 k2 w1 w2 : List Nat} {d1 : D} {ms rest : Ms} (h : Pick k d ms rest) :
      Pick k d (.cons kty key k1 k2 d1 w1 w2 ms) (.cons kty key k1 k2 d1 w1 w2 rest)

mutual
  /-- The same document with the members of its objects in another order (and different whitespace, and different spellings of keys). -/
  inductive Reord : D → D → Prop
    | lit {ty : Tok} {w : List Nat} : Reord (.lit ty w) (.lit ty w)
    | arr {ws ws' : List Nat} {es es' : Es} (h : ReordE es es') : Reord (.arr ws es) (.arr ws' es')
    | obj {ws ws' : List Nat} {ms ms' : Ms} (h : ReordM ms ms') : Reord (.obj ws ms) (.obj ws' ms')
  inductive ReordE : Es → Es → Prop
    | nil : ReordE .nil .nil
    | cons {d d' : D} {w1 w2 w1' w2' : List Nat} {es es' : Es} (hd : Reord d d') (he : ReordE es es') :
        ReordE (.cons d w1 w2 es) (.cons d' w1' w2' es')
  inductive ReordM : Ms → Ms → Prop
    | nil : ReordM .nil .nil
    | cons {kty : Tok} {key k1 k2 w1 w2 : List Nat} {d d' : D} {ms ms' rest : Ms} (hp : Pick (memberKey kty key) d' ms' rest)
        (hd : Reord d d') (hm : ReordM ms rest) : ReordM (.cons kty key k1 k2 d w1 w2 ms) ms'
end

theorem pick_nil {k : List Nat} {d : D} {rest : Ms} (h : Pick k d .nil rest) : False := nomatch h

def _root_.Verif.Token.Ms.keys : Ms → List (List Nat)
  | .nil => []
  | .cons kty key _ _ _ _ _ r => memberKey kty key :: r.keys

mutual
  /-- The members of every object have different keys. -/
  def _root_.Verif.Token.D.Distinct : D → Prop
    | .lit .. => True
    | .arr _ es => es.Distinct
    | .obj _ ms => ms.Distinct
  def _root_.Verif.Token.Es.Distinct : Es → Prop
    | .nil => True
    | .cons d _ _ r => d.Distinct ∧ r.Distinct
  def _root_.Verif.Token.Ms.Distinct : Ms → Prop
    | .nil => True
    | .cons kty key _ _ d _ _ r => memberKey kty key ∉ r.keys ∧ d.Distinct ∧ r.Distinct
end

/-! ### Buckets that occur once -/

def topsL : Loops E → List Nat
  | .nil => []
  | .cons b _ _ _ r => b :: topsL r

mutual
  /-- Buckets a node decides. -/
  def tops : Exec E → List Nat
    | .mk _ es ops ls _ => ops.map Op.bucket ++ (topsE es ++ topsL ls)
  def topsE : Elems E → List Nat
    | .nil => []
    | .cons _ e r => tops e ++ topsE r
end

mutual
  def Exec.Once : Exec E → Prop
    | .mk st es ops ls a => (tops (.mk st es ops ls a)).Nodup ∧ es.Once ∧ ls.Once
  def Elems.Once : Elems E → Prop
    | .nil => True
    | .cons _ e r => e.Once ∧ r.Once
  def Loops.Once : Loops E → Prop
    | .nil => True
    | .cons _ _ _ e r => e.Once ∧ r.Once
end

theorem Elems.Once.find {es : Elems E} (h : es.Once) {k e} (he : es.find k = some e) : e.Once := by
  match es, h with
  | .cons k' e' r, h =>
    rw [Elems.find] at he
    split at he
    · simp at he; subst he; exact h.1
    · exact Elems.Once.find (es := r) h.2 he

theorem topsE_find {es : Elems E} {k e} (he : es.find k = some e) : ∀ b ∈ tops e, b ∈ topsE es := by
  match es with
  | .cons k' e' r =>
    rw [Elems.find] at he
    intro b hb
    rw [topsE]
    split at he
    · simp at he; subst he; exact List.mem_append_left _ hb
    · exact List.mem_append_right _ (topsE_find (es := r) he b hb)

theorem topsE_disjoint : ∀ {es : Elems E}, (topsE es).Nodup → ∀ {k k' e e'}, k ≠ k' → es.find k = some e → es.find k' = some e' →
    ∀ b ∈ tops e, b ∉ tops e'
  | .cons k0 e0 r, hn, k, k', e, e', hk, he, he', b, hb => by
    rw [topsE, List.nodup_append] at hn
    rw [Elems.find] at he he'
    split at he
    · rename_i h0
      simp at he; subst he
      split at he'
      · rename_i h1; exact absurd (h0.symm.trans h1) hk
      · intro hb'; exact hn.2.2 b hb b (topsE_find he' b hb') rfl
    · split at he'
      · simp at he'; subst he'
        intro hb'; exact hn.2.2 b hb' b (topsE_find he b hb) rfl
      · exact topsE_disjoint (es := r) hn.2.1 hk he he' b hb

/-! ### Slots stay as they are -/

def KeepS (rec : DRec E) : Prop := ∀ n d σ a, n.NoSlots → rec n d σ = .ok a → a.2 = σ

theorem andThen_slots {a : Marks × Slots} {f : Slots → Res (Marks × Slots)} {x : Marks × Slots} (h : andThen a f = .ok x) :
    ∃ b, f a.2 = .ok b ∧ x = (a.1 ++ b.1, b.2) := by
  unfold andThen at h
  obtain ⟨b, hb, h⟩ := Res.bind_eq_ok.1 h
  cases h
  exact ⟨b, hb, rfl⟩

theorem dMembers_slots {rec : DRec E} (hrec : KeepS rec) {es : Elems E} (hn : es.NoSlots) : ∀ {ms : Ms} {σ a}, dMembers rec es ms σ = .ok a → a.2 = σ
  | .nil, σ, a, ha => by cases ha; rfl
  | .cons kty key k1 k2 d w1 w2 ms, σ, a, ha => by
    rw [dMembers] at ha
    obtain ⟨k, hk, ha⟩ := Res.bind_eq_ok.1 ha
    cases hf : es.find k with
    | none => rw [hf] at ha; exact dMembers_slots hrec hn ha
    | some e =>
      rw [hf] at ha
      obtain ⟨b, hb, ha⟩ := Res.bind_eq_ok.1 ha
      obtain ⟨c, hc, rfl⟩ := andThen_slots ha
      rw [← hrec e d σ b (hn.find hf) hb]
      exact dMembers_slots (a := c) hrec hn hc

theorem dElems_slots {rec : DRec E} (hrec : KeepS rec) {es : Elems E} (hn : es.NoSlots) : ∀ {ds : Es} {i σ a}, dElems rec es i ds σ = .ok a → a.2 = σ
  | .nil, i, σ, a, ha => by cases ha; rfl
  | .cons d w1 w2 ds, i, σ, a, ha => by
    rw [dElems] at ha
    obtain ⟨k, hk, ha⟩ := Res.bind_eq_ok.1 ha
    cases hf : es.find (indexKey i) with
    | none => rw [hf] at ha; exact dElems_slots hrec hn ha
    | some e =>
      rw [hf] at ha
      obtain ⟨b, hb, ha⟩ := Res.bind_eq_ok.1 ha
      obtain ⟨c, hc, rfl⟩ := andThen_slots ha
      rw [← hrec e d σ b (hn.find hf) hb]
      exact dElems_slots (a := c) hrec hn hc

theorem dOpsThen_form (X : Fns E) {rec : DRec E} {sh : Nat → Sh} {r : D} {ops : List (Op E)} {d : D} {σ : Slots} {a : Marks × Slots}
    (h : dOpsThen X rec sh r ops 0 .none d σ = .ok a) : ∃ v l, valOf d = .ok v ∧ dOps X r σ (some v) ops = .ok l ∧ a = (l, σ) := by
  unfold dOpsThen at h
  obtain ⟨v, hv, h⟩ := Res.bind_eq_ok.1 h
  obtain ⟨l, hl, h⟩ := Res.bind_eq_ok.1 h
  obtain ⟨c, hc, rfl⟩ := andThen_slots h
  simp only [dFinish, dAfter, dStore, Res.bind_ok, if_pos] at hc
  cases hc
  exact ⟨v, l, hv, hl, by simp⟩

theorem dExec_slots (X : Fns E) (sh : Nat → Sh) (r : D) : ∀ h, KeepS (dExec X sh r h)
  | 0 => by intro n d σ a _ ha; cases ha
  | h + 1 => by
    have ih := dExec_slots X sh r h
    intro n d σ a hn ha
    obtain ⟨st, es, ops, ls, af⟩ := n
    obtain ⟨rfl, n1, n2, n3, rfl⟩ := hn
    rw [dExec] at ha
    cases d with
    | lit ty w => obtain ⟨v, l, _, _, rfl⟩ := dOpsThen_form X ha; rfl
    | obj ws ms =>
      simp only [dObj] at ha
      split at ha
      · obtain ⟨v, l, _, _, rfl⟩ := dOpsThen_form X ha; rfl
      · obtain ⟨b, hb, ha⟩ := Res.bind_eq_ok.1 ha
        have hs := dMembers_slots ih n1 hb
        simp only [dAfter, Res.bind_ok, List.append_nil] at ha
        cases ms with
        | nil => cases ha; exact hs
        | cons =>
          obtain ⟨c, hc, rfl⟩ := andThen_slots ha
          obtain ⟨v, l, _, _, rfl⟩ := dOpsThen_form X hc
          exact hs
    | arr ws ds =>
      simp only [dArr] at ha
      split at ha
      · cases ds with
        | nil => cases ha; rfl
        | cons =>
          simp only at ha
          obtain ⟨b, hb, ha⟩ := Res.bind_eq_ok.1 ha
          have hs := dElems_slots ih n1 hb
          obtain ⟨c, hc, rfl⟩ := andThen_slots ha
          obtain ⟨v, l, _, _, rfl⟩ := dOpsThen_form X hc
          exact hs
      · obtain ⟨b, hb, ha⟩ := Res.bind_eq_ok.1 ha
        obtain ⟨c, hc, rfl⟩ := andThen_slots ha
        obtain ⟨v, l, _, _, rfl⟩ := dOpsThen_form X hc
        rfl

/-! ### Each bucket is decided at most once -/

def Marks.buckets (l : Marks) : List Nat := l.map Prod.fst

def RecT (rec : DRec E) : Prop := ∀ n d σ a, n.NoSlots → n.Once → d.Distinct → rec n d σ = .ok a →
  (Marks.buckets a.1).Nodup ∧ ∀ b ∈ Marks.buckets a.1, b ∈ tops n

theorem buckets_append (l l' : Marks) : Marks.buckets (l ++ l') = Marks.buckets l ++ Marks.buckets l' := List.map_append

theorem dMembers_once {rec : DRec E} (hrec : RecT rec) {es : Elems E} (hn : es.NoSlots) (ho : es.Once) (hd : (topsE es).Nodup) :
    ∀ {ms : Ms} {σ a}, ms.Distinct → dMembers rec es ms σ = .ok a → (Marks.buckets a.1).Nodup ∧
      ∀ b ∈ Marks.buckets a.1, ∃ k ∈ ms.keys, ∃ e, es.find k = some e ∧ b ∈ tops e
  | .nil, σ, a, _, ha => by cases ha; exact ⟨List.nodup_nil, by simp [Marks.buckets]⟩
  | .cons kty key k1 k2 d w1 w2 ms, σ, a, hms, ha => by
    obtain ⟨h1, h2, h3⟩ := hms
    rw [dMembers] at ha
    obtain ⟨k, hk, ha⟩ := Res.bind_eq_ok.1 ha
    have hk' := memberKey_ok hk
    rw [hk'] at h1
    cases hf : es.find k with
    | none =>
      rw [hf] at ha
      obtain ⟨g1, g2⟩ := dMembers_once hrec hn ho hd h3 ha
      exact ⟨g1, fun b hb => (g2 b hb).imp (fun k h => ⟨List.mem_cons_of_mem _ h.1, h.2⟩)⟩
    | some e =>
      rw [hf] at ha
      obtain ⟨b, hb, ha⟩ := Res.bind_eq_ok.1 ha
      obtain ⟨c, hc, rfl⟩ := andThen_slots ha
      obtain ⟨g1, g2⟩ := dMembers_once hrec hn ho hd h3 hc
      obtain ⟨f1, f2⟩ := hrec e d σ b (hn.find hf) (ho.find hf) h2 hb
      rw [buckets_append]
      refine ⟨List.nodup_append.2 ⟨f1, g1, ?_⟩, ?_⟩
      · rintro x hx y hy rfl
        obtain ⟨k', hk'', e', he', hx'⟩ := g2 x hy
        exact topsE_disjoint hd (by rintro rfl; exact h1 hk'') hf he' x (f2 x hx) hx'
      · intro x hx
        rcases List.mem_append.1 hx with hx | hx
        · exact ⟨k, by rw [Ms.keys, hk']; exact List.mem_cons_self, e, hf, f2 x hx⟩
        · exact (g2 x hx).imp (fun k h => ⟨List.mem_cons_of_mem _ h.1, h.2⟩)

theorem indexKey_inj {i j : Nat} (h : indexKey i = indexKey j) : i = j := by
  unfold indexKey at h
  have h := List.append_cancel_right (List.cons.inj h).2
  have hc : Function.Injective Char.toNat := fun a b hab => Char.ext (UInt32.toNat_inj.1 hab)
  have h := (List.map_inj_right (f := Char.toNat) (fun a b hab => hc hab)).1 h
  rw [← Nat.ofDigitChars_ten_toDigits (n := i), h, Nat.ofDigitChars_ten_toDigits]

theorem dElems_once {rec : DRec E} (hrec : RecT rec) {es : Elems E} (hn : es.NoSlots) (ho : es.Once) (hd : (topsE es).Nodup) :
    ∀ {ds : Es} {i σ a}, ds.Distinct → dElems rec es i ds σ = .ok a → (Marks.buckets a.1).Nodup ∧
      ∀ b ∈ Marks.buckets a.1, ∃ j, i ≤ j ∧ ∃ e, es.find (indexKey j) = some e ∧ b ∈ tops e
  | .nil, i, σ, a, _, ha => by cases ha; exact ⟨List.nodup_nil, by simp [Marks.buckets]⟩
  | .cons d w1 w2 ds, i, σ, a, hms, ha => by
    obtain ⟨h2, h3⟩ := hms
    rw [dElems] at ha
    obtain ⟨_, _, ha⟩ := Res.bind_eq_ok.1 ha
    cases hf : es.find (indexKey i) with
    | none =>
      rw [hf] at ha
      obtain ⟨g1, g2⟩ := dElems_once hrec hn ho hd h3 ha
      exact ⟨g1, fun b hb => (g2 b hb).imp (fun k h => ⟨Nat.le_of_succ_le h.1, h.2⟩)⟩
    | some e =>
      rw [hf] at ha
      obtain ⟨b, hb, ha⟩ := Res.bind_eq_ok.1 ha
      obtain ⟨c, hc, rfl⟩ := andThen_slots ha
      obtain ⟨g1, g2⟩ := dElems_once hrec hn ho hd h3 hc
      obtain ⟨f1, f2⟩ := hrec e d σ b (hn.find hf) (ho.find hf) h2 hb
      rw [buckets_append]
      refine ⟨List.nodup_append.2 ⟨f1, g1, ?_⟩, ?_⟩
      · rintro x hx y hy rfl
        obtain ⟨j, hj, e', he', hx'⟩ := g2 x hy
        refine topsE_disjoint hd (fun hh => ?_) hf he' x (f2 x hx) hx'
        have := indexKey_inj hh
        omega
      · intro x hx
        rcases List.mem_append.1 hx with hx | hx
        · exact ⟨i, Nat.le_refl _, e, hf, f2 x hx⟩
        · exact (g2 x hx).imp (fun k h => ⟨Nat.le_of_succ_le h.1, h.2⟩)

theorem dOps_buckets (X : Fns E) {r : D} {σ : Slots} {lit : Option (FV E)} : ∀ {ops : List (Op E)} {l : Marks}, dOps X r σ lit ops = .ok l →
    Marks.buckets l = ops.map Op.bucket
  | [], l, h => by cases h; rfl
  | op :: ops, l, h => by
    rw [dOps] at h
    obtain ⟨o, _, h⟩ := Res.bind_eq_ok.1 h
    obtain ⟨l', h2, h⟩ := Res.bind_eq_ok.1 h
    cases h
    rw [List.map_cons, ← dOps_buckets X h2]; rfl

theorem dArrayLoops_buckets {rec : DRec E} {sh : Nat → Sh} {ws : List Nat} {ds : Es} {σ : Slots} : ∀ {ls : Loops E} {l : Marks},
    dArrayLoops rec sh (.arr ws ds) σ ls = .ok l → Marks.buckets l = topsL ls
  | .nil, l, h => by cases h; rfl
  | .cons b m t e r, l, h => by
    cases t with
    | some _ => cases h
    | none =>
      simp only [dArrayLoops, dLoop] at h
      obtain ⟨x, hx, h⟩ := Res.bind_eq_ok.1 h
      obtain ⟨y, hy, hx⟩ := Res.bind_eq_ok.1 hx
      obtain ⟨z, hz, h⟩ := Res.bind_eq_ok.1 h
      cases hx; cases h
      rw [topsL, ← dArrayLoops_buckets hz]; rfl

theorem dExec_once (X : Fns E) (sh : Nat → Sh) (r : D) : ∀ h, RecT (dExec X sh r h)
  | 0 => by intro n d σ a _ _ _ ha; cases ha
  | h + 1 => by
    have ih := dExec_once X sh r h
    intro n d σ a hn ho hd ha
    obtain ⟨st, es, ops, ls, af⟩ := n
    obtain ⟨rfl, n1, n2, n3, rfl⟩ := hn
    obtain ⟨o1, o2, o3⟩ := ho
    rw [tops] at o1 ⊢
    obtain ⟨p1, p2, p3⟩ := List.nodup_append.1 o1
    obtain ⟨q1, q2, q3⟩ := List.nodup_append.1 p2
    rw [dExec] at ha
    have opsCase : ∀ {d σ a}, dOpsThen X (dExec X sh r h) sh r ops 0 .none d σ = .ok a → Marks.buckets a.1 = ops.map Op.bucket := by
      intro d σ a ha
      obtain ⟨v, l, _, hl, rfl⟩ := dOpsThen_form X ha
      exact dOps_buckets X hl
    cases d with
    | lit ty w =>
      rw [opsCase ha]
      exact ⟨p1, fun b hb => List.mem_append_left _ hb⟩
    | obj ws ms =>
      simp only [dObj] at ha
      split at ha
      · rw [opsCase ha]
        exact ⟨p1, fun b hb => List.mem_append_left _ hb⟩
      · obtain ⟨b, hb, ha⟩ := Res.bind_eq_ok.1 ha
        simp only [dAfter, Res.bind_ok, List.append_nil] at ha
        obtain ⟨g1, g2⟩ := dMembers_once ih n1 o2 q1 hd hb
        have g2' : ∀ x ∈ Marks.buckets b.1, x ∈ topsE es := by
          intro x hx
          obtain ⟨k, _, e, he, hx⟩ := g2 x hx
          exact topsE_find he x hx
        cases ms with
        | nil => cases ha; exact ⟨g1, fun x hx => List.mem_append_right _ (List.mem_append_left _ (g2' x hx))⟩
        | cons =>
          obtain ⟨c, hc, rfl⟩ := andThen_slots ha
          rw [buckets_append, opsCase hc]
          refine ⟨List.nodup_append.2 ⟨g1, p1, ?_⟩, ?_⟩
          · rintro x hx y hy rfl
            exact p3 x hy x (List.mem_append_left _ (g2' x hx)) rfl
          · intro x hx
            rcases List.mem_append.1 hx with hx | hx
            · exact List.mem_append_right _ (List.mem_append_left _ (g2' x hx))
            · exact List.mem_append_left _ hx
    | arr ws ds =>
      simp only [dArr] at ha
      split at ha
      · cases ds with
        | nil => cases ha; exact ⟨List.nodup_nil, by simp [Marks.buckets]⟩
        | cons =>
          simp only at ha
          obtain ⟨b, hb, ha⟩ := Res.bind_eq_ok.1 ha
          obtain ⟨g1, g2⟩ := dElems_once ih n1 o2 q1 hd hb
          have g2' : ∀ x ∈ Marks.buckets b.1, x ∈ topsE es := by
            intro x hx
            obtain ⟨k, _, e, he, hx⟩ := g2 x hx
            exact topsE_find he x hx
          obtain ⟨c, hc, rfl⟩ := andThen_slots ha
          rw [buckets_append, opsCase hc]
          refine ⟨List.nodup_append.2 ⟨g1, p1, ?_⟩, ?_⟩
          · rintro x hx y hy rfl
            exact p3 x hy x (List.mem_append_left _ (g2' x hx)) rfl
          · intro x hx
            rcases List.mem_append.1 hx with hx | hx
            · exact List.mem_append_right _ (List.mem_append_left _ (g2' x hx))
            · exact List.mem_append_left _ hx
      · obtain ⟨b, hb, ha⟩ := Res.bind_eq_ok.1 ha
        obtain ⟨c, hc, rfl⟩ := andThen_slots ha
        rw [buckets_append, opsCase hc, dArrayLoops_buckets hb]
        refine ⟨List.nodup_append.2 ⟨q2, p1, ?_⟩, ?_⟩
        · rintro x hx y hy rfl
          exact p3 x hy x (List.mem_append_right _ hx) rfl
        · intro x hx
          rcases List.mem_append.1 hx with hx | hx
          · exact List.mem_append_right _ (List.mem_append_right _ hx)
          · exact List.mem_append_left _ hx

theorem get_perm {l l' : Marks} (h : l.Perm l') : (Marks.buckets l).Nodup → Marks.get l = Marks.get l' := by
  induction h with
  | nil => intro _; rfl
  | cons x h ih =>
    intro hn
    have := ih (List.nodup_cons.1 hn).2
    funext i
    have := congrFun this i
    obtain ⟨b, v⟩ := x
    simp only [Marks.get, List.lookup_cons] at this ⊢
    rw [this]
  | swap x y l =>
    intro hn
    obtain ⟨b, v⟩ := x
    obtain ⟨b', v'⟩ := y
    have hne : b' ≠ b := by
      have := (List.nodup_cons.1 hn).1
      simp at this
      exact this.1
    funext i
    simp only [Marks.get, List.lookup_cons]
    by_cases h1 : i = b
    · subst h1
      have : (i == b') = false := by simp; exact fun h => hne h.symm
      simp [this]
    · have : (i == b) = false := by simpa using h1
      simp [this]
  | trans h1 h2 ih1 ih2 =>
    intro hn
    exact (ih1 hn).trans (ih2 ((h1.map Prod.fst).nodup_iff.1 hn))

/-! ### Permuted decisions -/

def RecO (rec rec' : DRec E) : Prop := ∀ n d d' σ σ' a a', n.NoSlots → n.OneSided → n.Once → d.Distinct → Reord d d' →
  rec n d σ = .ok a → rec' n d' σ' = .ok a' → a.1.Perm a'.1

theorem dMembers_pick {rec : DRec E} (hs : KeepS rec) {es : Elems E} (hn : es.NoSlots) {k : List Nat} {d : D} {ms rest : Ms} (h : Pick k d ms rest)
    {σ a} (ha : dMembers rec es ms σ = .ok a) : ∃ B c, dMembers rec es rest σ = .ok c ∧ a.1.Perm (B ++ c.1) ∧
      ((es.find k = none ∧ B = []) ∨ ∃ e b, es.find k = some e ∧ rec e d σ = .ok b ∧ B = b.1) := by
  induction h generalizing a with
  | here =>
    rw [dMembers] at ha
    obtain ⟨k, hk, ha⟩ := Res.bind_eq_ok.1 ha
    rw [memberKey_ok hk]
    cases hf : es.find k with
    | none => rw [hf] at ha; exact ⟨[], a, ha, .refl _, Or.inl ⟨rfl, rfl⟩⟩
    | some e =>
      rw [hf] at ha
      obtain ⟨b, hb, ha⟩ := Res.bind_eq_ok.1 ha
      obtain ⟨c, hc, rfl⟩ := andThen_slots ha
      rw [hs e _ σ b (hn.find hf) hb] at hc
      exact ⟨b.1, c, hc, .refl _, Or.inr ⟨e, b, rfl, hb, rfl⟩⟩
  | there h ih =>
    rw [dMembers] at ha
    obtain ⟨k, hk, ha⟩ := Res.bind_eq_ok.1 ha
    cases hf : es.find k with
    | none =>
      rw [hf] at ha
      obtain ⟨B, c, h1, h2, h3⟩ := ih ha
      refine ⟨B, c, ?_, h2, h3⟩
      rw [dMembers, hk, Res.bind_ok, hf]; exact h1
    | some e =>
      rw [hf] at ha
      obtain ⟨b, hb, ha⟩ := Res.bind_eq_ok.1 ha
      obtain ⟨a', ha', rfl⟩ := andThen_slots ha
      have hσ := hs e _ σ b (hn.find hf) hb
      rw [hσ] at ha'
      obtain ⟨B, c, h1, h2, h3⟩ := ih ha'
      refine ⟨B, (b.1 ++ c.1, c.2), ?_, ?_, h3⟩
      · rw [dMembers, hk, Res.bind_ok, hf]
        simp only [hb, Res.bind_ok, andThen, hσ, h1]
      · refine (h2.append_left b.1).trans ?_
        rw [← List.append_assoc, ← List.append_assoc]
        exact List.perm_append_comm.append_right _

theorem dMembers_reord {rec rec' : DRec E} (hs' : KeepS rec') (hs : KeepS rec) (hrec : RecO rec rec') {es : Elems E} (hn : es.NoSlots) (h1 : es.OneSided)
    (ho : es.Once) : ∀ {ms ms' : Ms}, ReordM ms ms' → ms.Distinct → ∀ {σ σ' a a'}, dMembers rec es ms σ = .ok a → dMembers rec' es ms' σ' = .ok a' →
    a.1.Perm a'.1
  | _, _, .nil, _, σ, σ', a, a', ha, ha' => by cases ha; cases ha'; exact .refl _
  | _, _, .cons hp hd hm, hdist, σ, σ', a, a', ha, ha' => by
    obtain ⟨g1, g2, g3⟩ := hdist
    obtain ⟨B, c, hc, hperm, hB⟩ := dMembers_pick hs' hn hp ha'
    rw [dMembers] at ha
    obtain ⟨k, hk, ha⟩ := Res.bind_eq_ok.1 ha
    rw [memberKey_ok hk] at hB
    rcases hB with ⟨hf, rfl⟩ | ⟨e, b, hf, hb, rfl⟩
    · rw [hf] at ha
      exact (dMembers_reord hs' hs hrec hn h1 ho hm g3 ha hc).trans hperm.symm
    · rw [hf] at ha
      obtain ⟨b', hb', ha⟩ := Res.bind_eq_ok.1 ha
      obtain ⟨c', hc', rfl⟩ := andThen_slots ha
      exact ((hrec e _ _ _ _ b' b (hn.find hf) (h1.find hf) (ho.find hf) g2 hd hb' hb).append
        (dMembers_reord hs' hs hrec hn h1 ho hm g3 hc' hc)).trans hperm.symm

theorem dElems_reord {rec rec' : DRec E} (hrec : RecO rec rec') {es : Elems E} (hn : es.NoSlots) (h1 : es.OneSided)
    (ho : es.Once) : ∀ {ds ds' : Es}, ReordE ds ds' → ds.Distinct → ∀ {i σ σ' a a'}, dElems rec es i ds σ = .ok a → dElems rec' es i ds' σ' = .ok a' →
    a.1.Perm a'.1
  | _, _, .nil, _, i, σ, σ', a, a', ha, ha' => by cases ha; cases ha'; exact .refl _
  | _, _, .cons hd he, hdist, i, σ, σ', a, a', ha, ha' => by
    obtain ⟨g2, g3⟩ := hdist
    rw [dElems] at ha ha'
    obtain ⟨_, _, ha⟩ := Res.bind_eq_ok.1 ha
    obtain ⟨_, _, ha'⟩ := Res.bind_eq_ok.1 ha'
    cases hf : es.find (indexKey i) with
    | none => rw [hf] at ha ha'; exact dElems_reord hrec hn h1 ho he g3 ha ha'
    | some e =>
      rw [hf] at ha ha'
      obtain ⟨b, hb, ha⟩ := Res.bind_eq_ok.1 ha
      obtain ⟨c, hc, rfl⟩ := andThen_slots ha
      obtain ⟨b', hb', ha'⟩ := Res.bind_eq_ok.1 ha'
      obtain ⟨c', hc', rfl⟩ := andThen_slots ha'
      exact (hrec e _ _ _ _ b b' (hn.find hf) (h1.find hf) (ho.find hf) g2 hd hb hb').append (dElems_reord hrec hn h1 ho he g3 hc hc')

theorem dItems_reord {rec rec' : DRec E} (ht : RecT rec) (hrec : RecO rec rec') {sh : Nat → Sh} {b : Nat} {m : Mode} {node : Exec E}
    (hn : node.NoSlots) (h1 : node.OneSided) (ho : node.Once) : ∀ {ds ds' : Es}, ReordE ds ds' → ds.Distinct → ∀ {σ σ' st v v'},
    dItems rec sh b m node σ ds st = .ok v → dItems rec' sh b m node σ' ds' st = .ok v' → v = v'
  | _, _, .nil, _, σ, σ', st, v, v', hv, hv' => by cases hv; cases hv'; rfl
  | _, _, .cons hd he, hdist, σ, σ', st, v, v', hv, hv' => by
    rw [dItems] at hv hv'
    obtain ⟨a, ha, hv⟩ := Res.bind_eq_ok.1 hv
    obtain ⟨a', ha', hv'⟩ := Res.bind_eq_ok.1 hv'
    have hp := hrec node _ _ _ _ a a' hn h1 ho hdist.1 hd ha ha'
    have hg := get_perm hp (ht node _ _ a hn ho hdist.1 ha).1
    rw [← hg] at hv'
    simp only at hv hv'
    cases hm : m.leaves (decide (K (sh b) b (Marks.get a.1) = some true)) with
    | some x => rw [hm] at hv hv'; cases hv; cases hv'; rfl
    | none => rw [hm] at hv hv'; exact dItems_reord ht hrec hn h1 ho he hdist.2 hv hv'

theorem dArrayLoops_reord {rec rec' : DRec E} (ht : RecT rec) (hrec : RecO rec rec') {sh : Nat → Sh} {ws ws' : List Nat} {ds ds' : Es}
    (h : ReordE ds ds') (hdist : ds.Distinct) : ∀ (ls : Loops E), ls.NoSlots → ls.OneSided → ls.Once → ∀ {σ σ' v v'},
    dArrayLoops rec sh (.arr ws ds) σ ls = .ok v → dArrayLoops rec' sh (.arr ws' ds') σ' ls = .ok v' → v = v'
  | .nil, _, _, _, σ, σ', v, v', hv, hv' => by cases hv; cases hv'; rfl
  | .cons b m t e r, hn, h1, ho, σ, σ', v, v', hv, hv' => by
    obtain ⟨rfl, hn1, hn2⟩ := hn
    rw [dArrayLoops] at hv hv'
    simp only [dLoop] at hv hv'
    obtain ⟨x, hx, hv⟩ := Res.bind_eq_ok.1 hv
    obtain ⟨x', hx', hv'⟩ := Res.bind_eq_ok.1 hv'
    obtain ⟨y, hy, hx⟩ := Res.bind_eq_ok.1 hx
    obtain ⟨y', hy', hx'⟩ := Res.bind_eq_ok.1 hx'
    obtain ⟨z, hz, hv⟩ := Res.bind_eq_ok.1 hv
    obtain ⟨z', hz', hv'⟩ := Res.bind_eq_ok.1 hv'
    cases hx; cases hx'; cases hv; cases hv'
    rw [dItems_reord ht hrec hn1 h1.1 ho.1 h hdist hy hy', dArrayLoops_reord ht hrec h hdist r hn2 h1.2 ho.2 hz hz']

theorem valOf_reord {d d' : D} (h : Reord d d') : RSim (valOf (E := E) d) (valOf d') := by
  cases h with
  | lit => exact RSim.of_eq rfl
  | arr => exact Or.inr (Or.inr ⟨_, _, _, rfl, rfl⟩)
  | obj => exact Or.inr (Or.inl ⟨_, _, _, rfl, rfl⟩)

theorem dOps_reord (X : Fns E) {r r' : D} {σ σ' : Slots} {lit lit' : Option (FV E)} (hl : OSim lit lit')
    (ops : List (Op E)) (hn : ∀ op ∈ ops, op.NoSlot) (ho : ∀ op ∈ ops, op.OneSided) : dOps X r σ lit ops = dOps X r' σ' lit' ops := by
  rw [dOps_noSlot X (r' := r') (σ' := σ') ops hn]
  clear hn
  induction ops with
  | nil => rfl
  | cons op ops ih =>
    rw [dOps, dOps, opResult_sim X (fun s => RSim.of_eq rfl) hl (ho op (by simp)), ih (fun o h => ho o (by simp [h]))]

theorem dExec_reord (X : Fns E) (sh : Nat → Sh) (r r' : D) : ∀ h, RecO (dExec X sh r h) (dExec X sh r' h)
  | 0 => by intro n d d' σ σ' a a' _ _ _ _ _ ha; cases ha
  | h + 1 => by
    have ih := dExec_reord X sh r r' h
    intro n d d' σ σ' a a' hn h1 ho hd hr ha ha'
    obtain ⟨st, es, ops, ls, af⟩ := n
    obtain ⟨rfl, n1, n2, n3, rfl⟩ := hn
    obtain ⟨s1, s2, s3, _⟩ := h1
    obtain ⟨_, o2, o3⟩ := ho
    rw [dExec] at ha ha'
    have opsCase : ∀ {d d' σ σ' a a'}, Reord d d' → dOpsThen X (dExec X sh r h) sh r ops 0 .none d σ = .ok a →
        dOpsThen X (dExec X sh r' h) sh r' ops 0 .none d' σ' = .ok a' → a.1 = a'.1 := by
      intro d d' σ σ' a a' hr ha ha'
      obtain ⟨v, l, hv, hl, rfl⟩ := dOpsThen_form X ha
      obtain ⟨v', l', hv', hl', rfl⟩ := dOpsThen_form X ha'
      have hvv := valOf_reord (E := E) hr
      rw [hv, hv'] at hvv
      rw [dOps_reord X (r' := r') (σ' := σ') (lit := some v) (lit' := some v') hvv ops n2 s2] at hl
      exact Res.ok.inj (hl.symm.trans hl')
    have hr' := hr
    cases hr with
    | lit => rw [opsCase hr' ha ha']
    | @obj ws ws' ms ms' hm =>
      simp only [dObj] at ha ha'
      split at ha
      · rename_i he
        rw [if_pos he] at ha'
        rw [opsCase hr' ha ha']
      · rename_i he
        rw [if_neg he] at ha'
        obtain ⟨b, hb, ha⟩ := Res.bind_eq_ok.1 ha
        obtain ⟨b', hb', ha'⟩ := Res.bind_eq_ok.1 ha'
        simp only [dAfter, Res.bind_ok, List.append_nil] at ha ha'
        have hp := dMembers_reord (dExec_slots X sh r' h) (dExec_slots X sh r h) ih n1 s1 o2 hm hd hb hb'
        cases hm with
        | nil => cases ha; cases ha'; exact hp
        | cons hpk _ _ =>
          cases ms' with
          | nil => exact (pick_nil hpk).elim
          | cons =>
            obtain ⟨c, hc, rfl⟩ := andThen_slots ha
            obtain ⟨c', hc', rfl⟩ := andThen_slots ha'
            simp only
            rw [opsCase hr' hc hc']
            exact hp.append_right _
    | @arr ws ws' ds ds' he =>
      simp only [dArr] at ha ha'
      split at ha
      · rename_i hl
        rw [if_pos hl] at ha'
        match ds, ds', he with
        | .nil, .nil, _ => cases ha; cases ha'; exact .refl _
        | .cons .., .cons .., he =>
          simp only at ha ha'
          obtain ⟨b, hb, ha⟩ := Res.bind_eq_ok.1 ha
          obtain ⟨b', hb', ha'⟩ := Res.bind_eq_ok.1 ha'
          have hp := dElems_reord ih n1 s1 o2 he hd hb hb'
          obtain ⟨c, hc, rfl⟩ := andThen_slots ha
          obtain ⟨c', hc', rfl⟩ := andThen_slots ha'
          simp only
          rw [opsCase hr' hc hc']
          exact hp.append_right _
      · rename_i hl
        rw [if_neg hl] at ha'
        obtain ⟨b, hb, ha⟩ := Res.bind_eq_ok.1 ha
        obtain ⟨b', hb', ha'⟩ := Res.bind_eq_ok.1 ha'
        have hp := dArrayLoops_reord (dExec_once X sh r h) ih he hd ls n3 s3 o3 hb hb'
        obtain ⟨c, hc, rfl⟩ := andThen_slots ha
        obtain ⟨c', hc', rfl⟩ := andThen_slots ha'
        simp only
        rw [opsCase hr' hc hc', hp]

theorem verdict_reord (X : Fns E) (s : Sh) {node : Exec E} {n : Nat} (hn : node.NoSlots) (h1 : node.OneSided) (ho : node.Once) {r r' : D}
    (hd : r.Distinct) (h : Reord r r') {b b' : Bool} (hb : verdict X s node n r = .ok b) (hb' : verdict X s node n r' = .ok b') : b = b' := by
  unfold verdict decisions at hb hb'
  obtain ⟨l, e1, hb⟩ := Res.bind_eq_ok.1 hb
  obtain ⟨a, ha, hl⟩ := Res.bind_eq_ok.1 e1
  obtain ⟨l', e1', hb'⟩ := Res.bind_eq_ok.1 hb'
  obtain ⟨a', ha', hl'⟩ := Res.bind_eq_ok.1 e1'
  cases hl; cases hl'; cases hb; cases hb'
  rw [get_perm (dExec_reord X _ r r' _ node r r' _ _ a a' hn h1 ho hd h ha ha') (dExec_once X _ r _ node r _ a hn ho hd ha).1]

end Verif.Match
