import Verif.BinTree.Lemmas

/-! Helper lemmas: whole runs of marks, `Resolve`, `ResetNode`, `Validate`. -/

namespace Verif.BinTree

open Res

/-! ### Subtrees -/

theorem SubAt.refl (s : Sh) (b : Nat) : s.SubAt b s b := by cases s <;> simp [Sh.SubAt]

theorem SubAt.range {s s' : Sh} {b b' : Nat} (h : s.SubAt b s' b') :
    b ≤ b' ∧ b' + s'.size ≤ b + s.size := by
  induction s generalizing b with
  | leaf => obtain ⟨rfl, rfl⟩ := h; omega
  | un o a ih =>
    rcases h with ⟨rfl, rfl⟩ | h
    · omega
    · have := ih h; simp only [Sh.size]; omega
  | bin o a c iha ihc =>
    rcases h with ⟨rfl, rfl⟩ | h | h
    · omega
    · have := iha h; simp only [Sh.size]; omega
    · have := ihc h; simp only [Sh.size]; omega

theorem SubAt.shaped {t : Tree} {s s' : Sh} {b b' par : Nat} (h : s.SubAt b s' b')
    (hs : Shaped t s b par) : ∃ par', Shaped t s' b' par' := by
  induction s generalizing b par with
  | leaf => obtain ⟨rfl, rfl⟩ := h; exact ⟨_, hs⟩
  | un o a ih =>
    rcases h with ⟨rfl, rfl⟩ | h
    · exact ⟨_, hs⟩
    · exact ih h hs.2
  | bin o a c iha ihc =>
    rcases h with ⟨rfl, rfl⟩ | h | h
    · exact ⟨_, hs⟩
    · exact iha h hs.2.1
    · exact ihc h hs.2.2

theorem exists_subAt {s : Sh} {b i : Nat} (h1 : b ≤ i) (h2 : i < b + s.size) :
    ∃ s', s.SubAt b s' i := by
  induction s generalizing b with
  | leaf => simp only [Sh.size] at h2; exact ⟨.leaf, rfl, by omega⟩
  | un o a ih =>
    simp only [Sh.size] at h2
    by_cases hb : i = b
    · exact ⟨_, Or.inl ⟨rfl, hb⟩⟩
    · obtain ⟨s', h⟩ := ih (b := b + 1) (by omega) (by omega); exact ⟨s', Or.inr h⟩
  | bin o a c iha ihc =>
    simp only [Sh.size] at h2
    by_cases hb : i = b
    · exact ⟨_, Or.inl ⟨rfl, hb⟩⟩
    · by_cases hb' : i < b + 1 + a.size
      · obtain ⟨s', h⟩ := iha (b := b + 1) (by omega) (by omega); exact ⟨s', Or.inr (Or.inl h)⟩
      · obtain ⟨s', h⟩ := ihc (b := b + 1 + a.size) (by omega) (by omega); exact ⟨s', Or.inr (Or.inr h)⟩

theorem isLeaf_iff_subAt {s : Sh} {b i : Nat} : s.IsLeaf b i ↔ s.SubAt b .leaf i := by
  induction s generalizing b with
  | leaf => simp [Sh.IsLeaf, Sh.SubAt]
  | un o a ih => simp [Sh.IsLeaf, Sh.SubAt, ih]
  | bin o a c iha ihc => simp [Sh.IsLeaf, Sh.SubAt, iha, ihc]

theorem Closed.sub {d : List SV} {s s' : Sh} {b b' : Nat} (h : s.SubAt b s' b') (hc : Closed d s b) :
    Closed d s' b' := by
  induction s generalizing b with
  | leaf => obtain ⟨rfl, rfl⟩ := h; exact hc
  | un o a ih =>
    rcases h with ⟨rfl, rfl⟩ | h
    · exact hc
    · exact ih h hc.2
  | bin o a c iha ihc =>
    rcases h with ⟨rfl, rfl⟩ | h | h
    · exact hc
    · exact iha h hc.2.1
    · exact ihc h hc.2.2

theorem Inv.sub {d p} {s s' : Sh} {b b' : Nat} (h : s.SubAt b s' b') (hI : Inv d p s b)
    (hu : d[b']? = some .unknown) : Inv d p s' b' := by
  induction s generalizing b with
  | leaf => obtain ⟨rfl, rfl⟩ := h; exact hI
  | un o a ih =>
    have hr := SubAt.range h
    have hpos := s'.size_pos
    have hK := hI.not_live (by omega) (by omega) hu
    rcases h with ⟨rfl, rfl⟩ | h
    · exact hI
    · have := hI.2; rw [if_pos hK] at this; exact ih h this
  | bin o a c iha ihc =>
    have hr := SubAt.range h
    have hpos := s'.size_pos
    have hK := hI.not_live (by omega) (by omega) hu
    rcases h with ⟨rfl, rfl⟩ | h | h
    · exact hI
    · have := hI.2; rw [if_pos (Or.inl hK)] at this; exact iha h this.1
    · have := hI.2; rw [if_pos (Or.inl hK)] at this; exact ihc h this.2

/-! ### Fresh states -/

theorem K_none {s : Sh} {b : Nat} {p : Nat → Option Bool}
    (h : ∀ j, b ≤ j → j < b + s.size → p j = none) : K s b p = none := by
  induction s generalizing b with
  | leaf => exact h b (by omega) (by simp [Sh.size])
  | un o a ih =>
    simp only [Sh.size] at h
    have e := ih (b := b + 1) (fun j h1 h2 => h j (by omega) (by omega))
    simp only [K, h b (by omega) (by omega), e]
    cases o <;> rfl
  | bin o a c iha ihc =>
    simp only [Sh.size] at h
    have e1 := iha (b := b + 1) (fun j h1 h2 => h j (by omega) (by omega))
    have e2 := ihc (b := b + 1 + a.size) (fun j h1 h2 => h j (by omega) (by omega))
    simp only [K, h b (by omega) (by omega), e1, e2]
    cases o <;> rfl

/-- Every entry of the block is undecided. -/
def Fresh (d : List SV) (b n : Nat) : Prop := ∀ j, b ≤ j → j < b + n → d[j]? = some .unknown

theorem Fresh.inv {d : List SV} {s : Sh} {b : Nat} {p : Nat → Option Bool} (h : Fresh d b s.size)
    (hp : ∀ j, b ≤ j → j < b + s.size → p j = none) : Inv d p s b := by
  induction s generalizing b with
  | leaf =>
    simp only [Sh.size] at h hp
    simp [Inv, h b (by omega) (by omega), hp b (by omega) (by omega)]
  | un o a ih =>
    have hk := K_none hp
    simp only [Sh.size] at h hp
    refine ⟨by rw [hk, h b (by omega) (by omega)]; rfl, ?_⟩
    rw [if_pos hk]
    exact ih (fun j h1 h2 => h j (by omega) (by omega)) (fun j h1 h2 => hp j (by omega) (by omega))
  | bin o a c iha ihc =>
    have hk := K_none hp
    simp only [Sh.size] at h hp
    refine ⟨by rw [hk, h b (by omega) (by omega)]; rfl, ?_⟩
    rw [if_pos (Or.inl hk)]
    exact ⟨iha (fun j h1 h2 => h j (by omega) (by omega)) (fun j h1 h2 => hp j (by omega) (by omega)),
      ihc (fun j h1 h2 => h j (by omega) (by omega)) (fun j h1 h2 => hp j (by omega) (by omega))⟩

/-- A live block without marks is fresh. -/
theorem Inv.fresh {d p} {s : Sh} {b : Nat} (hI : Inv d p s b)
    (hp : ∀ j, b ≤ j → j < b + s.size → p j = none) : Fresh d b s.size := by
  induction s generalizing b with
  | leaf =>
    intro j h1 h2
    have : j = b := by simp only [Sh.size] at h2; omega
    subst this
    rw [hI.root]; simp [K, hp j (by omega) (by simp [Sh.size])]
  | un o a ih =>
    have hk := K_none hp
    have h2 := hI.2; rw [if_pos hk] at h2
    simp only [Sh.size] at hp
    intro j j1 j2
    simp only [Sh.size] at j2
    by_cases hj : j = b
    · subst hj; rw [hI.root, hk]; rfl
    · exact ih h2 (fun j h1 h2 => hp j (by omega) (by omega)) j (by omega) (by omega)
  | bin o a c iha ihc =>
    have hk := K_none hp
    have h2 := hI.2; rw [if_pos (Or.inl hk)] at h2
    simp only [Sh.size] at hp
    intro j j1 j2
    simp only [Sh.size] at j2
    by_cases hj : j = b
    · subst hj; rw [hI.root, hk]; rfl
    · by_cases hj' : j < b + 1 + a.size
      · exact iha h2.1 (fun j h1 h2 => hp j (by omega) (by omega)) j (by omega) (by omega)
      · exact ihc h2.2 (fun j h1 h2 => hp j (by omega) (by omega)) j (by omega) (by omega)

theorem newState_fresh (t : Tree) (n : Nat) (h : n ≤ t.length) : Fresh (newState t).data 0 n := by
  intro j _ h2
  simp only [newState]
  rw [List.getElem?_replicate, if_pos (by omega)]

/-! ### Late marks on settled nodes -/

theorem kUn_mono (o : UnOp) {x : Option Bool} {w : Bool} (h : kUn o x = some w) : x ≠ none := by
  cases x <;> cases o <;> simp_all [kUn]

/-- Marking a position below which nothing was marked never changes a value that is already there. -/
theorem K_mono {s s' : Sh} {b i : Nat} {p : Nat → Option Bool} (h : s.SubAt b s' i)
    (hi : K s' i p = none) (v : Bool) {w : Bool} (hw : K s b p = some w) :
    K s b (upd p i v) = some w := by
  induction s generalizing b w with
  | leaf => obtain ⟨rfl, rfl⟩ := h; rw [hi] at hw; simp at hw
  | un o a ih =>
    rcases h with ⟨rfl, rfl⟩ | h
    · rw [hi] at hw; simp at hw
    · have hr := SubAt.range h
      simp only [K] at hw ⊢
      rw [upd_ne p v (by omega : b ≠ i)]
      cases hp : p b with
      | some x => simpa [hp] using hw
      | none =>
        simp only [hp, Option.none_or] at hw ⊢
        cases hk : K a (b + 1) p with
        | none => rw [hk] at hw; cases o <;> simp [kUn] at hw
        | some x => rw [ih h hk, ← hk]; exact hw
  | bin o a c iha ihc =>
    rcases h with ⟨rfl, rfl⟩ | h | h
    · rw [hi] at hw; simp at hw
    · have hr := SubAt.range h
      have := s'.size_pos
      have hc : K c (b + 1 + a.size) (upd p i v) = K c (b + 1 + a.size) p :=
        K_congr (fun j j1 j2 => upd_ne _ _ (by omega))
      simp only [K] at hw ⊢
      rw [upd_ne p v (by omega : b ≠ i), hc]
      cases hp : p b with
      | some x => simpa [hp] using hw
      | none =>
        simp only [hp, Option.none_or] at hw ⊢
        cases hk : K a (b + 1) p with
        | none =>
          rw [hk] at hw
          generalize K c (b + 1 + a.size) p = y at hw
          generalize K a (b + 1) (upd p i v) = x
          rcases o with _ | _ | _ <;> rcases y with _ | (_ | _) <;> rcases x with _ | (_ | _) <;> simp_all [kBin]
        | some x => rw [iha h hk, ← hk]; exact hw
    · have hr := SubAt.range h
      have := s'.size_pos
      have hc : K a (b + 1) (upd p i v) = K a (b + 1) p :=
        K_congr (fun j j1 j2 => upd_ne _ _ (by omega))
      simp only [K] at hw ⊢
      rw [upd_ne p v (by omega : b ≠ i), hc]
      cases hp : p b with
      | some x => simpa [hp] using hw
      | none =>
        simp only [hp, Option.none_or] at hw ⊢
        cases hk : K c (b + 1 + a.size) p with
        | none =>
          rw [hk] at hw
          generalize K a (b + 1) p = y at hw
          generalize K c (b + 1 + a.size) (upd p i v) = x
          rcases o with _ | _ | _ <;> rcases y with _ | (_ | _) <;> rcases x with _ | (_ | _) <;> simp_all [kBin]
        | some x => rw [ihc h hk, ← hk]; exact hw

/-- A mark on a node that is already settled (by an ancestor) leaves the representation valid. -/
theorem Inv.dead_upd {d p} {s s' : Sh} {b i : Nat} (hI : Inv d p s b) (h : s.SubAt b s' i)
    (hi : K s' i p = none) (hd : d[i]? ≠ some .unknown) (v : Bool) : Inv d (upd p i v) s b := by
  induction s generalizing b with
  | leaf =>
    obtain ⟨rfl, rfl⟩ := h
    have := hI.root; rw [hi] at this; exact absurd this hd
  | un o a ih =>
    rcases h with ⟨rfl, rfl⟩ | h
    · have := hI.root; rw [hi] at this; exact absurd this hd
    · have hr := SubAt.range h
      cases hk : K (.un o a) b p with
      | some w =>
        have hk' := K_mono (s := .un o a) (Or.inr h) hi v hk
        obtain ⟨h1, h2⟩ := hI
        rw [hk] at h1 h2
        refine ⟨by rw [hk']; exact h1, ?_⟩
        rw [hk']; exact h2
      | none =>
        obtain ⟨h1, h2⟩ := hI
        rw [hk, if_pos rfl] at h2
        have ih' := ih h2 h
        have hka : K a (b + 1) (upd p i v) = K a (b + 1) p := by
          have e1 := ih'.root; have e2 := h2.root
          rw [e1] at e2
          generalize K a (b + 1) (upd p i v) = x at e2 ⊢
          generalize K a (b + 1) p = y at e2 ⊢
          rcases x with _ | (_ | _) <;> rcases y with _ | (_ | _) <;> simp_all [svOpt, SV.ofBool]
        have hk' : K (.un o a) b (upd p i v) = none := by
          rw [← hk]; simp only [K, hka, upd_ne p v (by omega : b ≠ i)]
        refine ⟨by rw [hk']; rw [hk] at h1; exact h1, ?_⟩
        rw [if_pos hk']; exact ih'
  | bin o a c iha ihc =>
    rcases h with ⟨rfl, rfl⟩ | h
    · have := hI.root; rw [hi] at this; exact absurd this hd
    · have hr : b + 1 ≤ i ∧ i + s'.size ≤ b + 1 + a.size + c.size := by
        rcases h with h | h
        · have := SubAt.range h; omega
        · have := SubAt.range h; omega
      have hpos := s'.size_pos
      have hq : upd p i v b = p b := upd_ne p v (by omega : b ≠ i)
      obtain ⟨h1, h2⟩ := hI
      by_cases hcond : K (.bin o a c) b p = none ∨ (o = .neor ∧ p b = none)
      · rw [if_pos hcond] at h2
        have hpb : p b = none := by
          rcases hcond with hk | hk
          · cases hp : p b with
            | none => rfl
            | some w => rw [K_of_mark hp] at hk; simp at hk
          · exact hk.2
        have svinj : ∀ x y : Option Bool, svOpt x = svOpt y → x = y := by
          intro x y; rcases x with _ | (_ | _) <;> rcases y with _ | (_ | _) <;> simp [svOpt, SV.ofBool]
        have both : Inv d (upd p i v) a (b + 1) ∧ Inv d (upd p i v) c (b + 1 + a.size) := by
          rcases h with h | h
          · have hr := SubAt.range h
            exact ⟨iha h2.1 h, Inv_congr (fun _ _ _ => rfl) (fun j j1 j2 => (upd_ne _ _ (by omega)).symm) h2.2⟩
          · have hr := SubAt.range h
            exact ⟨Inv_congr (fun _ _ _ => rfl) (fun j j1 j2 => (upd_ne _ _ (by omega)).symm) h2.1, ihc h2.2 h⟩
        have hka : K a (b + 1) (upd p i v) = K a (b + 1) p := by
          have e1 := both.1.root; rw [h2.1.root] at e1
          exact (svinj _ _ (by simpa using e1)).symm
        have hkc : K c (b + 1 + a.size) (upd p i v) = K c (b + 1 + a.size) p := by
          have e1 := both.2.root; rw [h2.2.root] at e1
          exact (svinj _ _ (by simpa using e1)).symm
        have hk' : K (.bin o a c) b (upd p i v) = K (.bin o a c) b p := by
          simp only [K, hka, hkc, hq]
        refine ⟨by rw [hk']; exact h1, ?_⟩
        rw [hk', hq, if_pos hcond]; exact both
      · cases hk : K (.bin o a c) b p with
        | none => exact absurd (Or.inl hk) hcond
        | some w =>
          have hk' := K_mono (s := .bin o a c) (Or.inr h) hi v hk
          rw [hk] at h1
          rw [if_neg hcond] at h2
          refine ⟨by rw [hk']; exact h1, ?_⟩
          rw [hk', hq, if_neg (by rw [← hk]; exact hcond)]; exact h2

/-! ### One guarded mark -/

/-- The tree `s` occupies the whole block that marks can reach: either the whole array or the block below
the stall index. -/
structure Ctx (t : Tree) (stall : Nat) (s : Sh) (b : Nat) : Prop where
  shaped : ∃ par, Shaped t s b par
  top : b = 0 ∨ b = stall
  stall : stall ≤ b ∨ b + s.size ≤ stall

theorem markNode_spec {t : Tree} {s : Sh} {b : Nat} {st : State} {p : Nat → Option Bool}
    (hc : Ctx t st.stall s b) (hl : st.data.length = t.length) (hI : Inv st.data p s b) {i : Nat}
    (h1 : b ≤ i) (h2 : i < b + s.size) (hi : st.data[i]? = some .unknown) (v : Bool) :
    ∃ d', markNode t st i v = .ok { st with data := d' } ∧ Inv d' (upd p i v) s b ∧
      d'.length = t.length ∧ (∀ j, j < b ∨ b + s.size ≤ j → d'[j]? = st.data[j]?) := by
  obtain ⟨⟨par, hs⟩, htop, hst⟩ := hc
  obtain ⟨k, d', hk, e1, e2, e3, e4⟩ := mark_sub hs hst hl hI h1 h2 hi v
  have hb := hs.bound
  refine ⟨d', ?_, e1, by omega, e3⟩
  have := e4 (t.length - k - 1)
  rw [show t.length - k - 1 + k + 1 = t.length by omega] at this
  rw [markNode, this]
  have hup : ∀ f, up t st.stall f d' b = .ok d' := by
    intro f; rw [up]
    by_cases hb0 : b = 0
    · rw [if_pos hb0]
    · rw [if_neg hb0, if_pos (by omega)]
  rw [hup]; split <;> rfl

theorem guardedMark_spec {t : Tree} {s s' : Sh} {b : Nat} {st : State} {p : Nat → Option Bool}
    (hc : Ctx t st.stall s b) (hl : st.data.length = t.length) (hI : Inv st.data p s b) {i : Nat}
    (hs : s.SubAt b s' i) (hp : K s' i p = none) (v : Bool) :
    ∃ d', guardedMark t st i v = .ok { st with data := d' } ∧ Inv d' (upd p i v) s b ∧
      d'.length = t.length ∧ (∀ j, j < b ∨ b + s.size ≤ j → d'[j]? = st.data[j]?) := by
  have hr := SubAt.range hs
  have hpos := s'.size_pos
  obtain ⟨par, hsh⟩ := hc.shaped
  have hb := hsh.bound
  have hlt : i < st.data.length := by omega
  have hidx : st.data[i]? = some st.data[i] := List.getElem?_eq_getElem hlt
  by_cases hu : st.data[i] = .unknown
  · rw [hu] at hidx
    obtain ⟨d', e1, e2⟩ := markNode_spec hc hl hI hr.1 (by omega) hidx v
    refine ⟨d', ?_, e2⟩
    simp [guardedMark, isResolved, Res.idx_of_some hidx, e1]
  · refine ⟨st.data, ?_, hI.dead_upd hs hp (by rw [hidx]; simpa using hu) v, hl, fun _ _ => rfl⟩
    simp [guardedMark, isResolved, Res.idx_of_some hidx, hu]

/-! ### Two-valued reading -/

theorem K_evalM {s : Sh} {b : Nat} {p : Nat → Option Bool} {v : Bool} (h : K s b p = some v) :
    s.evalM b p = v := by
  induction s generalizing b v with
  | leaf => simp only [K] at h; simp [Sh.evalM, h]
  | un o a ih =>
    simp only [K] at h
    cases hp : p b with
    | some x => simp only [hp, Option.some_or, Option.some.injEq] at h; simp [Sh.evalM, hp, h]
    | none =>
      simp only [hp, Option.none_or] at h
      cases hk : K a (b + 1) p with
      | none => rw [hk] at h; cases o <;> simp [kUn] at h
      | some x =>
        rw [hk] at h
        simp only [Sh.evalM, hp, Option.getD_none, ih hk]
        cases o <;> simp_all [kUn, UnOp.eval]
  | bin o a c iha ihc =>
    simp only [K] at h
    cases hp : p b with
    | some x => simp only [hp, Option.some_or, Option.some.injEq] at h; simp [Sh.evalM, hp, h]
    | none =>
      simp only [hp, Option.none_or] at h
      simp only [Sh.evalM, hp, Option.getD_none]
      have ha : ∀ x, K a (b + 1) p = some x → a.evalM (b + 1) p = x := fun x hx => iha hx
      have hc : ∀ x, K c (b + 1 + a.size) p = some x → c.evalM (b + 1 + a.size) p = x := fun x hx => ihc hx
      generalize K a (b + 1) p = x at *
      generalize K c (b + 1 + a.size) p = y at *
      generalize a.evalM (b + 1) p = x' at *
      generalize c.evalM (b + 1 + a.size) p = y' at *
      rcases o with _ | _ | _ <;> rcases y with _ | (_ | _) <;> rcases x with _ | (_ | _) <;>
        simp_all [kBin, BinOp.eval]

/-- `q` is `p` with some unmarked conditions marked false. -/
def FalseExt (t : Tree) (p q : Nat → Option Bool) : Prop :=
  ∀ j, q j = p j ∨ (p j = none ∧ q j = some false ∧ ∃ par, t[j]? = some ⟨.leaf, par, 0, 0⟩)

theorem FalseExt.refl (t p) : FalseExt t p p := fun _ => Or.inl rfl

theorem FalseExt.trans {t p q r} (h1 : FalseExt t p q) (h2 : FalseExt t q r) : FalseExt t p r := by
  intro j
  rcases h1 j with e | ⟨e1, e2, e3⟩ <;> rcases h2 j with g | ⟨g1, g2, g3⟩
  · left; rw [g, e]
  · right; exact ⟨by rw [← e, g1], g2, g3⟩
  · right; exact ⟨e1, by rw [g, e2], e3⟩
  · rw [e2] at g1; simp at g1

theorem evalM_falseExt {t : Tree} {p q} (h : FalseExt t p q) {s : Sh} {b par : Nat}
    (hs : Shaped t s b par) : s.evalM b q = s.evalM b p := by
  induction s generalizing b par with
  | leaf =>
    rcases h b with e | ⟨e1, e2, _⟩
    · simp [Sh.evalM, e]
    · simp [Sh.evalM, e1, e2]
  | un o a ih =>
    have e : q b = p b := by
      rcases h b with e | ⟨e1, e2, par', e3⟩
      · exact e
      · rw [hs.1] at e3; cases o <;> simp [UnOp.ty] at e3
    simp only [Sh.evalM, e, ih hs.2]
  | bin o a c iha ihc =>
    have e : q b = p b := by
      rcases h b with e | ⟨e1, e2, par', e3⟩
      · exact e
      · rw [hs.1] at e3; cases o <;> simp [BinOp.ty] at e3
    simp only [Sh.evalM, e, iha hs.2.1, ihc hs.2.2]

/-! ### Resolve -/

/-- When every condition is settled, the tree is settled. -/
theorem K_of_leaves {d p} {s : Sh} {b : Nat} (hI : Inv d p s b)
    (h : ∀ i, s.SubAt b .leaf i → d[i]? ≠ some .unknown) : K s b p ≠ none := by
  induction s generalizing b with
  | leaf =>
    have := h b ⟨rfl, rfl⟩
    rw [hI.root] at this
    intro hk; rw [hk] at this; exact this rfl
  | un o a ih =>
    intro hk
    have h2 := hI.2; rw [if_pos hk] at h2
    have := ih h2 (fun i hi => h i (Or.inr hi))
    simp only [K] at hk
    cases hp : p b with
    | some x => simp [hp] at hk
    | none =>
      simp only [hp, Option.none_or] at hk
      cases hx : K a (b + 1) p with
      | none => exact this hx
      | some x => rw [hx] at hk; cases o <;> simp [kUn] at hk
  | bin o a c iha ihc =>
    intro hk
    have h2 := hI.2; rw [if_pos (Or.inl hk)] at h2
    have h3 := iha h2.1 (fun i hi => h i (Or.inr (Or.inl hi)))
    have h4 := ihc h2.2 (fun i hi => h i (Or.inr (Or.inr hi)))
    simp only [K] at hk
    cases hp : p b with
    | some x => simp [hp] at hk
    | none =>
      simp only [hp, Option.none_or] at hk
      cases hx : K a (b + 1) p with
      | none => exact h3 hx
      | some x =>
        cases hy : K c (b + 1 + a.size) p with
        | none => exact h4 hy
        | some y => rw [hx, hy] at hk; rcases o with _ | _ | _ <;> cases x <;> cases y <;> simp [kBin] at hk

/-- Unmarked positions of settled nodes stay settled under a mark: entries only leave `unknown`. -/
theorem mark_keeps {s : Sh} {b : Nat} {d d' : List SV} {p} {i : Nat} {v : Bool}
    (hI : Inv d p s b) (hI' : Inv d' (upd p i v) s b) {s' : Sh} (hs : s.SubAt b s' i)
    (hKi : K s' i p = none) {j : Nat} (h1 : b ≤ j) (h2 : j < b + s.size)
    (hj : d[j]? ≠ some .unknown) : d'[j]? ≠ some .unknown := by
  intro hju
  obtain ⟨sj, hsj⟩ := exists_subAt h1 h2
  -- the block of `j` is live in `d'`
  induction s generalizing b with
  | leaf =>
    obtain ⟨rfl, rfl⟩ := hsj
    obtain ⟨rfl, rfl⟩ := hs
    have := hI.root; rw [hKi] at this; exact hj this
  | un o a ih =>
    have hk' := hI'.not_live h1 h2 hju
    have hk : K (.un o a) b p = none := by
      cases hk : K (.un o a) b p with
      | none => rfl
      | some w => rw [K_mono hs hKi v hk] at hk'; simp at hk'
    rcases hsj with ⟨rfl, rfl⟩ | hsj
    · have := hI.root; rw [hk] at this; exact hj this
    · have hr := SubAt.range hsj
      have := sj.size_pos
      have i1 := hI.2; rw [if_pos hk] at i1
      have i2 := hI'.2; rw [if_pos hk'] at i2
      rcases hs with ⟨rfl, rfl⟩ | hs
      · rw [K_of_mark (upd_self _ _ _)] at hk'; simp at hk'
      · exact ih i1 i2 hs hr.1 (by omega) hsj
  | bin o a c iha ihc =>
    have hk' := hI'.not_live h1 h2 hju
    have hk : K (.bin o a c) b p = none := by
      cases hk : K (.bin o a c) b p with
      | none => rfl
      | some w => rw [K_mono hs hKi v hk] at hk'; simp at hk'
    have i1 := hI.2; rw [if_pos (Or.inl hk)] at i1
    have i2 := hI'.2; rw [if_pos (Or.inl hk')] at i2
    rcases hsj with ⟨rfl, rfl⟩ | hsj | hsj
    · have := hI.root; rw [hk] at this; exact hj this
    · have hr := SubAt.range hsj
      have := sj.size_pos
      rcases hs with ⟨rfl, rfl⟩ | hs | hs
      · rw [K_of_mark (upd_self _ _ _)] at hk'; simp at hk'
      · exact iha i1.1 i2.1 hs hr.1 (by omega) hsj
      · -- other side: same block, same marks
        have hr' := SubAt.range hs
        have l1 := Inv.sub hsj i2.1 hju
        have hkk : K sj j p = none := by
          rw [← K_congr (p := upd p i v) (fun x x1 x2 => upd_ne _ _ (by omega))]
          have := l1.root; rw [hju] at this; simpa using this.symm
        -- all of `a` is represented by both
        have ia' : Inv d' p a (b + 1) := Inv_congr (fun _ _ _ => rfl) (fun x x1 x2 => upd_ne _ _ (by omega)) i2.1
        exact absurd (same_rep i1.1 ia' hr.1 (by omega) hju) hj
    · have hr := SubAt.range hsj
      have := sj.size_pos
      rcases hs with ⟨rfl, rfl⟩ | hs | hs
      · rw [K_of_mark (upd_self _ _ _)] at hk'; simp at hk'
      · have hr' := SubAt.range hs
        have := s'.size_pos
        have ic' : Inv d' p c (b + 1 + a.size) :=
          Inv_congr (fun _ _ _ => rfl) (fun x x1 x2 => upd_ne _ _ (by omega)) i2.2
        exact absurd (same_rep i1.2 ic' hr.1 (by omega) hju) hj
      · exact ihc i1.2 i2.2 hs hr.1 (by omega) hsj
where
  /-- Two arrays representing the same marks have the same undecided entries. -/
  same_rep {d d' : List SV} {p} {s : Sh} {b j : Nat} (h : Inv d p s b) (h' : Inv d' p s b)
      (h1 : b ≤ j) (h2 : j < b + s.size) (hj : d'[j]? = some .unknown) : d[j]? = some .unknown := by
    induction s generalizing b with
    | leaf =>
      have : j = b := by simp only [Sh.size] at h2; omega
      subst this
      rw [h.root, ← h'.root]; exact hj
    | un o a ih =>
      have hk := h'.not_live h1 h2 hj
      by_cases hb : j = b
      · subst hb; rw [h.root, hk]; rfl
      · have i1 := h.2; rw [if_pos hk] at i1
        have i2 := h'.2; rw [if_pos hk] at i2
        simp only [Sh.size] at h2
        exact ih i1 i2 (by omega) (by omega)
    | bin o a c iha ihc =>
      have hk := h'.not_live h1 h2 hj
      by_cases hb : j = b
      · subst hb; rw [h.root, hk]; rfl
      · have i1 := h.2; rw [if_pos (Or.inl hk)] at i1
        have i2 := h'.2; rw [if_pos (Or.inl hk)] at i2
        simp only [Sh.size] at h2
        by_cases hb' : j < b + 1 + a.size
        · exact iha i1.1 i2.1 (by omega) (by omega)
        · exact ihc i1.2 i2.2 (by omega) (by omega)

theorem SubAt.trans {s s' s'' : Sh} {b b' b'' : Nat} (h : s.SubAt b s' b') (h' : s'.SubAt b' s'' b'') :
    s.SubAt b s'' b'' := by
  induction s generalizing b with
  | leaf => obtain ⟨rfl, rfl⟩ := h; exact h'
  | un o a ih =>
    rcases h with ⟨rfl, rfl⟩ | h
    · exact h'
    · exact Or.inr (ih h)
  | bin o a c iha ihc =>
    rcases h with ⟨rfl, rfl⟩ | h | h
    · exact h'
    · exact Or.inr (Or.inl (iha h))
    · exact Or.inr (Or.inr (ihc h))

theorem SubAt.at_base {s s' : Sh} {b : Nat} (h : s.SubAt b s' b) : s' = s := by
  cases s with
  | leaf => exact h.1
  | un o a =>
    rcases h with ⟨rfl, _⟩ | h
    · rfl
    · have := SubAt.range h; omega
  | bin o a c =>
    rcases h with ⟨rfl, _⟩ | h | h
    · rfl
    · have := SubAt.range h; omega
    · have := SubAt.range h; omega

/-- Marked positions are settled. -/
theorem Inv.marked {d p} {s s' : Sh} {b i : Nat} (hI : Inv d p s b) (h : s.SubAt b s' i) {v : Bool}
    (hp : p i = some v) : d[i]? ≠ some .unknown := by
  intro hu
  have := (hI.sub h hu).root
  rw [hu, K_of_mark hp] at this
  cases v <;> simp [svOpt, SV.ofBool] at this

theorem Inv.in_range {d p} {s : Sh} {b : Nat} (hI : Inv d p s b) : b < d.length :=
  (List.getElem?_eq_some_iff.1 hI.root).1

theorem resolveLoop_spec {t : Tree} {s : Sh} {st : State} {p : Nat → Option Bool}
    (hs : Shaped t s 0 0) (hlen : t.length = s.size) (hst : st.stall = 0)
    (hl : st.data.length = t.length) (hI : Inv st.data p s 0) (n : Nat) (hn : n ≤ t.length)
    (hset : ∀ i, n ≤ i → s.SubAt 0 .leaf i → st.data[i]? ≠ some .unknown) :
    ∃ d' q, resolveLoop t n st = .ok { st with data := d' } ∧ Inv d' q s 0 ∧ FalseExt t p q ∧
      K s 0 q ≠ none ∧ d'.length = t.length := by
  induction n generalizing st p with
  | zero =>
    exact ⟨st.data, p, rfl, hI, FalseExt.refl _ _, K_of_leaves hI (fun i hi => hset i (by omega) hi), hl⟩
  | succ n ih =>
    have hlt : n < st.data.length := by omega
    have hidx : st.data[n]? = some st.data[n] := List.getElem?_eq_getElem hlt
    have hctx : Ctx t st.stall s 0 := ⟨⟨0, hs⟩, Or.inl rfl, Or.inl (by omega)⟩
    have step : ∃ d' q, (if st.data[n] = .unknown then markNode t st n false else .ok st) =
        .ok { st with data := d' } ∧ Inv d' q s 0 ∧ FalseExt t p q ∧ d'.length = t.length ∧
        (∀ i, n ≤ i → s.SubAt 0 .leaf i → d'[i]? ≠ some .unknown) := by
      by_cases hu : st.data[n] = .unknown
      · rw [if_pos hu]
        rw [hu] at hidx
        obtain ⟨s', hs'⟩ := exists_subAt (s := s) (b := 0) (i := n) (by omega) (by omega)
        have hIn := hI.sub hs' hidx
        have hKn : K s' n p = none := hIn.not_live (by omega) (by have := s'.size_pos; omega) hidx
        have hleaf : s' = .leaf := by
          refine Decidable.byContradiction fun hne => ?_
          refine K_of_leaves hIn (fun i hi => hset i ?_ (SubAt.trans hs' hi)) hKn
          have := SubAt.range hi
          rcases Nat.lt_or_ge n i with h | h
          · omega
          · have : i = n := by omega
            subst this
            exact absurd (SubAt.at_base hi).symm hne
        subst hleaf
        obtain ⟨d', e1, e2, e3, e4⟩ := markNode_spec hctx hl hI (by omega : 0 ≤ n) (by omega) hidx false
        obtain ⟨par', hsh⟩ := SubAt.shaped hs' hs
        refine ⟨d', upd p n false, e1, e2, fun j => ?_, e3, fun i hi hil => ?_⟩
        · by_cases hj : j = n
          · subst hj; right; exact ⟨hKn, upd_self _ _ _, par', hsh⟩
          · left; exact upd_ne _ _ hj
        · by_cases hin : i = n
          · subst hin; exact e2.marked hil (upd_self _ _ _)
          · have := SubAt.range hil
            have hsz : Sh.leaf.size = 1 := rfl
            exact mark_keeps hI e2 hs' hKn (by omega) (by omega) (hset i (by omega) hil)
      · rw [if_neg hu]
        refine ⟨st.data, p, rfl, hI, FalseExt.refl _ _, hl, fun i hi hil => ?_⟩
        by_cases hin : i = n
        · subst hin; rw [hidx]; simpa using hu
        · exact hset i (by omega) hil
    obtain ⟨d1, q1, e1, e2, e3, e4, e5⟩ := step
    rw [resolveLoop, Res.idx_of_some hidx]
    simp only [Res.bind_ok]
    rw [e1]
    simp only [Res.bind_ok]
    rw [Res.idx_of_some e2.root]
    simp only [Res.bind_ok]
    by_cases hk : K s 0 q1 = none
    · rw [if_neg (by simp [hk])]
      obtain ⟨d', q, g1, g2, g3, g4, g5⟩ := ih (st := { st with data := d1 }) (p := q1) hst e4 e2 (by omega) e5
      exact ⟨d', q, g1, g2, e3.trans g3, g4, g5⟩
    · rw [if_pos (by simpa using hk)]
      exact ⟨d1, q1, rfl, e2, e3, hk, e4⟩

theorem resolve_spec {t : Tree} {s : Sh} {st : State} {p : Nat → Option Bool}
    (hs : Shaped t s 0 0) (hlen : t.length = s.size) (hst : st.stall = 0)
    (hl : st.data.length = t.length) (hI : Inv st.data p s 0) :
    ∃ d' q, resolve t st = .ok { st with data := d' } ∧ Inv d' q s 0 ∧ FalseExt t p q ∧
      K s 0 q ≠ none ∧ d'.length = t.length := by
  have hpos := s.size_pos
  by_cases hk : K s 0 p = none
  · obtain ⟨d', q, e⟩ := resolveLoop_spec hs hlen hst hl hI st.data.length (by omega)
      (fun i hi hil => by have := SubAt.range hil; have : Sh.leaf.size = 1 := rfl; omega)
    refine ⟨d', q, ?_, e.2⟩
    simp only [resolve, isResolved, Res.idx_of_some hI.root, hk]
    simpa using e.1
  · refine ⟨st.data, p, ?_, hI, FalseExt.refl _ _, hk, hl⟩
    simp only [resolve, isResolved, Res.idx_of_some hI.root]
    simp [hk]

/-! ### ResetNode -/

theorem resetNodeRecursive_spec {t : Tree} {s : Sh} {b par : Nat} (hs : Shaped t s b par) :
    ∀ fuel, s.size ≤ fuel → ∀ d : List SV, b + s.size ≤ d.length →
      ∃ d', resetNodeRecursive t fuel d b = .ok d' ∧ d'.length = d.length ∧ Fresh d' b s.size ∧
        (∀ j, j < b ∨ b + s.size ≤ j → d'[j]? = d[j]?) := by
  induction s generalizing b par with
  | leaf =>
    intro fuel hf d hl
    simp only [Sh.size] at hf hl ⊢
    obtain ⟨fuel, rfl⟩ : ∃ f, fuel = f + 1 := ⟨fuel - 1, by omega⟩
    have hs' : t[b]? = some ⟨.leaf, par, 0, 0⟩ := hs
    refine ⟨d.set b .unknown, ?_, by simp, fun j h1 h2 => ?_, fun j hj => ?_⟩
    · simp [resetNodeRecursive, Res.idx_of_some hs', Res.idx_of_some (List.getElem?_eq_getElem (by omega : b < d.length))]
    · have : j = b := by omega
      subst this; rw [List.getElem?_set_self (by omega)]
    · rw [List.getElem?_set_ne (by omega)]
  | un o a ih =>
    intro fuel hf d hl
    simp only [Sh.size] at hf hl ⊢
    obtain ⟨fuel, rfl⟩ : ∃ f, fuel = f + 1 := ⟨fuel - 1, by omega⟩
    obtain ⟨d', e1, e2, e3, e4⟩ := ih hs.2 fuel (by omega) (d.set b .unknown) (by simp; omega)
    refine ⟨d', ?_, by simpa using e2, fun j h1 h2 => ?_, fun j hj => ?_⟩
    · simp [resetNodeRecursive, Res.idx_of_some hs.1, Res.idx_of_some (List.getElem?_eq_getElem (by omega : b < d.length)), e1]
    · by_cases hj : j = b
      · subst hj; rw [e4 j (by omega), List.getElem?_set_self (by omega)]
      · exact e3 j (by omega) (by omega)
    · rw [e4 j (by omega), List.getElem?_set_ne (by omega)]
  | bin o a c iha ihc =>
    intro fuel hf d hl
    simp only [Sh.size] at hf hl ⊢
    obtain ⟨fuel, rfl⟩ : ∃ f, fuel = f + 1 := ⟨fuel - 1, by omega⟩
    obtain ⟨d1, e1, e2, e3, e4⟩ := iha hs.2.1 fuel (by omega) (d.set b .unknown) (by simp; omega)
    simp only [List.length_set] at e2
    obtain ⟨d2, g1, g2, g3, g4⟩ := ihc hs.2.2 fuel (by omega) d1 (by omega)
    refine ⟨d2, ?_, by omega, fun j h1 h2 => ?_, fun j hj => ?_⟩
    · simp [resetNodeRecursive, Res.idx_of_some hs.1, Res.idx_of_some (List.getElem?_eq_getElem (by omega : b < d.length)), e1, g1]
    · by_cases hj : j = b
      · subst hj; rw [g4 j (by omega), e4 j (by omega), List.getElem?_set_self (by omega)]
      · by_cases hj' : j < b + 1 + a.size
        · rw [g4 j (by omega)]; exact e3 j (by omega) (by omega)
        · exact g3 j (by omega) (by omega)
    · rw [g4 j (by omega), e4 j (by omega), List.getElem?_set_ne (by omega)]

theorem resetNode_spec {t : Tree} {s : Sh} {b par : Nat} (hs : Shaped t s b par) (st : State)
    (hl : st.data.length = t.length) :
    ∃ d', resetNode t st b = .ok { st with data := d' } ∧ d'.length = t.length ∧ Fresh d' b s.size ∧
        (∀ j, j < b ∨ b + s.size ≤ j → d'[j]? = st.data[j]?) := by
  have hb := hs.bound
  obtain ⟨d', e1, e2, e3⟩ := resetNodeRecursive_spec hs t.length (by omega) st.data (by omega)
  exact ⟨d', by simp [resetNode, e1], by omega, e3⟩

/-! ### Runs of guarded marks -/

/-- A sequence of guarded marks. -/
def runMarks (t : Tree) : State → List (Nat × Bool) → Res State
  | s, [] => .ok s
  | s, (i, v) :: l => guardedMark t s i v >>= fun s => runMarks t s l

theorem runMarks_append (t : Tree) (s : State) (l l' : List (Nat × Bool)) :
    runMarks t s (l ++ l') = runMarks t s l >>= fun s => runMarks t s l' := by
  induction l generalizing s with
  | nil => rfl
  | cons x l ih =>
    obtain ⟨i, v⟩ := x
    simp only [List.cons_append, runMarks]
    cases guardedMark t s i v with
    | ok s' => simp only [Res.bind_ok]; exact ih s'
    | panic => rfl
    | stuck => rfl

/-- The marked positions are pairwise not inside one another. -/
def Antichain (s : Sh) (b : Nat) (P : Nat → Prop) : Prop :=
  ∀ i j s', P i → P j → s.SubAt b s' i → i < j → i + s'.size ≤ j

theorem runMarks_spec {t : Tree} {s : Sh} {b : Nat} (l : List (Nat × Bool)) {st : State}
    {p : Nat → Option Bool} (hc : Ctx t st.stall s b) (hl : st.data.length = t.length)
    (hI : Inv st.data p s b) (hr : ∀ x ∈ l, b ≤ x.1 ∧ x.1 < b + s.size)
    (ha : Antichain s b (fun i => p i ≠ none ∨ ∃ v, (i, v) ∈ l)) :
    ∃ d', runMarks t st l = .ok { st with data := d' } ∧
      Inv d' (fun i => (p i).or (l.lookup i)) s b ∧ d'.length = t.length ∧
      (∀ j, j < b ∨ b + s.size ≤ j → d'[j]? = st.data[j]?) := by
  induction l generalizing st p with
  | nil => exact ⟨st.data, rfl, by simpa using hI, hl, fun _ _ => rfl⟩
  | cons x l ih =>
    obtain ⟨i, v⟩ := x
    have hri := hr (i, v) (by simp)
    obtain ⟨s', hs'⟩ := exists_subAt hri.1 hri.2
    have step : ∃ d', guardedMark t st i v = .ok { st with data := d' } ∧
        Inv d' (fun j => (p j).or (if j = i then some v else none)) s b ∧
        d'.length = t.length ∧ (∀ j, j < b ∨ b + s.size ≤ j → d'[j]? = st.data[j]?) := by
      cases hp : p i with
      | none =>
        have hK : K s' i p = none := by
          refine K_none (fun j j1 j2 => ?_)
          by_cases hj : j = i
          · subst hj; exact hp
          · cases hpj : p j with
            | none => rfl
            | some w =>
              have := ha i j s' (Or.inr ⟨v, by simp⟩) (Or.inl (by simp [hpj])) hs' (by omega)
              omega
        obtain ⟨d', e1, e2, e3⟩ := guardedMark_spec hc hl hI hs' hK v
        refine ⟨d', e1, Inv_congr (fun _ _ _ => rfl) (fun j _ _ => ?_) e2, e3⟩
        by_cases hj : j = i
        · subst hj; simp [upd, hp]
        · simp [upd, hj]
      | some w =>
        have hd := hI.marked hs' hp
        obtain ⟨par, hsh⟩ := hc.shaped
        have hlt : i < st.data.length := by have := hsh.bound; omega
        have hidx : st.data[i]? = some st.data[i] := List.getElem?_eq_getElem hlt
        have hu : st.data[i] ≠ .unknown := fun h => hd (by rw [hidx, h])
        refine ⟨st.data, by simp [guardedMark, isResolved, Res.idx_of_some hidx, hu], ?_, hl, fun _ _ => rfl⟩
        refine Inv_congr (fun _ _ _ => rfl) (fun j _ _ => ?_) hI
        by_cases hj : j = i
        · subst hj; simp [hp]
        · simp [hj]
    obtain ⟨d1, e1, e2, e3, e4⟩ := step
    obtain ⟨d', g1, g2, g3, g4⟩ := ih (st := { st with data := d1 }) hc e3 e2
      (fun x hx => hr x (by simp [hx])) (by
        intro i' j' s'' hi' hj'
        apply ha i' j' s''
        · rcases hi' with hi' | ⟨w, hw⟩
          · by_cases h : i' = i
            · subst h; exact Or.inr ⟨v, by simp⟩
            · left; simpa [h] using hi'
          · exact Or.inr ⟨w, by simp [hw]⟩
        · rcases hj' with hi' | ⟨w, hw⟩
          · by_cases h : j' = i
            · subst h; exact Or.inr ⟨v, by simp⟩
            · left; simpa [h] using hi'
          · exact Or.inr ⟨w, by simp [hw]⟩)
    refine ⟨d', ?_, ?_, g3, fun j hj => by rw [g4 j hj]; exact e4 j hj⟩
    · simp only [runMarks, e1, Res.bind_ok]; exact g1
    · refine Inv_congr (fun _ _ _ => rfl) (fun j _ _ => ?_) g2
      simp only [List.lookup_cons]
      by_cases hj : j = i
      · subst hj; cases p j <;> simp
      · have : (j == i) = false := by simpa using hj
        simp [this, hj]

/-- Guarded marks at arbitrary positions never fail. -/
theorem runMarks_ok {t : Tree} {s : Sh} {b : Nat} (l : List (Nat × Bool)) {st : State}
    {p : Nat → Option Bool} (hc : Ctx t st.stall s b) (hl : st.data.length = t.length)
    (hI : Inv st.data p s b) (hr : ∀ x ∈ l, b ≤ x.1 ∧ x.1 < b + s.size) :
    ∃ d' q, runMarks t st l = .ok { st with data := d' } ∧ Inv d' q s b ∧ d'.length = t.length ∧
      (∀ j, j < b ∨ b + s.size ≤ j → d'[j]? = st.data[j]?) := by
  induction l generalizing st p with
  | nil => exact ⟨st.data, p, rfl, hI, hl, fun _ _ => rfl⟩
  | cons x l ih =>
    obtain ⟨i, v⟩ := x
    have hri := hr (i, v) (by simp)
    obtain ⟨par, hsh⟩ := hc.shaped
    have hlt : i < st.data.length := by have := hsh.bound; simp only at hri; omega
    have hidx : st.data[i]? = some st.data[i] := List.getElem?_eq_getElem hlt
    have step : ∃ d' q, guardedMark t st i v = .ok { st with data := d' } ∧ Inv d' q s b ∧
        d'.length = t.length ∧ (∀ j, j < b ∨ b + s.size ≤ j → d'[j]? = st.data[j]?) := by
      by_cases hu : st.data[i] = .unknown
      · rw [hu] at hidx
        obtain ⟨d', e1, e2⟩ := markNode_spec hc hl hI hri.1 hri.2 hidx v
        exact ⟨d', _, by simp [guardedMark, isResolved, Res.idx_of_some hidx, e1], e2⟩
      · exact ⟨st.data, p, by simp [guardedMark, isResolved, Res.idx_of_some hidx, hu], hI, hl, fun _ _ => rfl⟩
    obtain ⟨d1, q1, e1, e2, e3, e4⟩ := step
    obtain ⟨d', q, g1, g2, g3, g4⟩ := ih (st := { st with data := d1 }) hc e3 e2 (fun x hx => hr x (by simp [hx]))
    refine ⟨d', q, ?_, g2, g3, fun j hj => by rw [g4 j hj]; exact e4 j hj⟩
    simp only [runMarks, e1, Res.bind_ok]; exact g1

/-! ### Completions -/

theorem evalM_leaves {s : Sh} {b : Nat} {m : Nat → Option Bool}
    (h : ∀ j, m j ≠ none → b ≤ j → j < b + s.size → s.IsLeaf b j) :
    s.evalM b m = s.eval b (fun i => (m i).getD false) := by
  induction s generalizing b with
  | leaf => rfl
  | un o a ih =>
    have hb : m b = none := by
      cases hm : m b with
      | none => rfl
      | some v =>
        have := h b (by simp [hm]) (by omega) (by have := (Sh.un o a).size_pos; omega)
        have := SubAt.range (isLeaf_iff_subAt.1 this)
        simp only [Sh.IsLeaf] at *
        have h3 := h b (by simp [hm]) (by omega) (by have := (Sh.un o a).size_pos; omega)
        have := SubAt.range (isLeaf_iff_subAt.1 h3); omega
    simp only [Sh.evalM, hb, Option.getD_none, Sh.eval]
    rw [ih (fun j hj h1 h2 => h j hj (by omega) (by simp only [Sh.size]; omega))]
  | bin o a c iha ihc =>
    have hb : m b = none := by
      cases hm : m b with
      | none => rfl
      | some v =>
        have h3 := h b (by simp [hm]) (by omega) (by have := (Sh.bin o a c).size_pos; omega)
        rcases h3 with h3 | h3 <;>
        · have := SubAt.range (isLeaf_iff_subAt.1 h3); omega
    simp only [Sh.evalM, hb, Option.getD_none, Sh.eval]
    rw [iha, ihc]
    · intro j hj h1 h2
      rcases h j hj (by omega) (by simp only [Sh.size]; omega) with h3 | h3
      · have := SubAt.range (isLeaf_iff_subAt.1 h3); simp only [Sh.size] at this; omega
      · exact h3
    · intro j hj h1 h2
      rcases h j hj (by omega) (by simp only [Sh.size]; omega) with h3 | h3
      · exact h3
      · have := SubAt.range (isLeaf_iff_subAt.1 h3); simp only [Sh.size] at this; omega

/-- `g` agrees with the marks `p` on the block. -/
def Agrees (s : Sh) (b : Nat) (p : Nat → Option Bool) (g : Nat → Bool) : Prop :=
  ∀ j v, b ≤ j → j < b + s.size → p j = some v → g j = v

theorem K_sound {s : Sh} {b : Nat} {p : Nat → Option Bool} {v : Bool} (h : K s b p = some v)
    (hp : ∀ j, p j ≠ none → b ≤ j → j < b + s.size → s.IsLeaf b j) {g : Nat → Bool}
    (hg : Agrees s b p g) : s.eval b g = v := by
  -- extend `p` to the full marking given by `g` on leaves
  induction s generalizing b v with
  | leaf =>
    simp only [K] at h
    exact hg b v (by omega) (by simp [Sh.size]) h
  | un o a ih =>
    have hb : p b = none := by
      cases hm : p b with
      | none => rfl
      | some v =>
        have h3 : a.IsLeaf (b + 1) b := hp b (by simp [hm]) (by omega) (by have := (Sh.un o a).size_pos; omega)
        have := SubAt.range (isLeaf_iff_subAt.1 h3); omega
    simp only [K, hb, Option.none_or] at h
    cases hk : K a (b + 1) p with
    | none => rw [hk] at h; cases o <;> simp [kUn] at h
    | some x =>
      have := ih hk (fun j hj h1 h2 => hp j hj (by omega) (by simp only [Sh.size]; omega))
        (fun j w h1 h2 => hg j w (by omega) (by simp only [Sh.size]; omega))
      simp only [Sh.eval, this]
      rw [hk] at h
      cases o <;> simp_all [kUn, UnOp.eval]
  | bin o a c iha ihc =>
    have hb : p b = none := by
      cases hm : p b with
      | none => rfl
      | some v =>
        have h3 := hp b (by simp [hm]) (by omega) (by have := (Sh.bin o a c).size_pos; omega)
        rcases h3 with h3 | h3 <;>
        · have := SubAt.range (isLeaf_iff_subAt.1 h3); omega
    simp only [K, hb, Option.none_or] at h
    have hpa : ∀ j, p j ≠ none → b + 1 ≤ j → j < b + 1 + a.size → a.IsLeaf (b + 1) j := by
      intro j hj h1 h2
      rcases hp j hj (by omega) (by simp only [Sh.size]; omega) with h3 | h3
      · exact h3
      · have := SubAt.range (isLeaf_iff_subAt.1 h3); simp only [Sh.size] at this; omega
    have hpc : ∀ j, p j ≠ none → b + 1 + a.size ≤ j → j < b + 1 + a.size + c.size → c.IsLeaf (b + 1 + a.size) j := by
      intro j hj h1 h2
      rcases hp j hj (by omega) (by simp only [Sh.size]; omega) with h3 | h3
      · have := SubAt.range (isLeaf_iff_subAt.1 h3); simp only [Sh.size] at this; omega
      · exact h3
    have ea : ∀ x, K a (b + 1) p = some x → a.eval (b + 1) g = x := fun x hx =>
      iha hx hpa (fun j w h1 h2 => hg j w (by omega) (by simp only [Sh.size]; omega))
    have ec : ∀ x, K c (b + 1 + a.size) p = some x → c.eval (b + 1 + a.size) g = x := fun x hx =>
      ihc hx hpc (fun j w h1 h2 => hg j w (by omega) (by simp only [Sh.size]; omega))
    simp only [Sh.eval]
    generalize K a (b + 1) p = x at *
    generalize K c (b + 1 + a.size) p = y at *
    generalize a.eval (b + 1) g = x' at *
    generalize c.eval (b + 1 + a.size) g = y' at *
    rcases o with _ | _ | _ <;> rcases y with _ | (_ | _) <;> rcases x with _ | (_ | _) <;>
      simp_all [kBin, BinOp.eval]

theorem eval_congr {s : Sh} {b : Nat} {f g : Nat → Bool}
    (h : ∀ j, b ≤ j → j < b + s.size → f j = g j) : s.eval b f = s.eval b g := by
  induction s generalizing b with
  | leaf => exact h b (by omega) (by simp [Sh.size])
  | un o a ih =>
    simp only [Sh.size] at h
    simp only [Sh.eval]; rw [ih (b := b + 1) (fun j h1 h2 => h j (by omega) (by omega))]
  | bin o a c iha ihc =>
    simp only [Sh.size] at h
    simp only [Sh.eval]
    rw [iha (b := b + 1) (fun j h1 h2 => h j (by omega) (by omega)),
      ihc (b := b + 1 + a.size) (fun j h1 h2 => h j (by omega) (by omega))]

/-- A completion of the marks exists, and if the value is still open both values are possible. -/
theorem K_complete {s : Sh} {b : Nat} {p : Nat → Option Bool} (hnf : s.NeorFree)
    (hp : ∀ j, p j ≠ none → b ≤ j → j < b + s.size → s.IsLeaf b j) :
    (∃ g, Agrees s b p g) ∧
    (K s b p = none → ∀ v, ∃ g, Agrees s b p g ∧ s.eval b g = v) := by
  refine ⟨⟨fun j => (p j).getD false, fun j v _ _ h => by simp [h]⟩, ?_⟩
  induction s generalizing b with
  | leaf =>
    intro hk v
    refine ⟨fun _ => v, fun j w h1 h2 hw => ?_, rfl⟩
    have : j = b := by simp only [Sh.size] at h2; omega
    subst this; simp only [K] at hk; rw [hk] at hw; simp at hw
  | un o a ih =>
    intro hk v
    have hb : p b = none := by
      cases hm : p b with
      | none => rfl
      | some v => rw [K_of_mark hm] at hk; simp at hk
    have hka : K a (b + 1) p = none := by
      simp only [K, hb, Option.none_or] at hk
      cases hx : K a (b + 1) p with
      | none => rfl
      | some x => rw [hx] at hk; cases o <;> simp [kUn] at hk
    have := ih hnf (fun j hj h1 h2 => hp j hj (by omega) (by simp only [Sh.size]; omega)) hka
      (match o with | .not => !v | .loop => v)
    obtain ⟨g, g1, g2⟩ := this
    refine ⟨g, fun j w h1 h2 hw => ?_, ?_⟩
    · by_cases hj : j = b
      · subst hj; rw [hb] at hw; simp at hw
      · simp only [Sh.size] at h2; exact g1 j w (by omega) (by omega) hw
    · simp only [Sh.eval, g2]; cases o <;> simp [UnOp.eval]
  | bin o a c iha ihc =>
    intro hk v
    have hb : p b = none := by
      cases hm : p b with
      | none => rfl
      | some v => rw [K_of_mark hm] at hk; simp at hk
    have hpa : ∀ j, p j ≠ none → b + 1 ≤ j → j < b + 1 + a.size → a.IsLeaf (b + 1) j := by
      intro j hj h1 h2
      rcases hp j hj (by omega) (by simp only [Sh.size]; omega) with h3 | h3
      · exact h3
      · have := SubAt.range (isLeaf_iff_subAt.1 h3); simp only [Sh.size] at this; omega
    have hpc : ∀ j, p j ≠ none → b + 1 + a.size ≤ j → j < b + 1 + a.size + c.size → c.IsLeaf (b + 1 + a.size) j := by
      intro j hj h1 h2
      rcases hp j hj (by omega) (by simp only [Sh.size]; omega) with h3 | h3
      · have := SubAt.range (isLeaf_iff_subAt.1 h3); simp only [Sh.size] at this; omega
      · exact h3
    simp only [K, hb, Option.none_or] at hk
    -- every requested pair of values, unless fixed, can be had
    have wa : ∀ x, (K a (b + 1) p = none ∨ K a (b + 1) p = some x) →
        ∃ g, Agrees a (b + 1) p g ∧ a.eval (b + 1) g = x := by
      intro x hx
      rcases hx with hx | hx
      · exact iha hnf.2.1 hpa hx x
      · exact ⟨fun j => (p j).getD false, fun j v _ _ h => by simp [h],
          K_sound hx hpa (fun j v _ _ h => by simp [h])⟩
    have wc : ∀ x, (K c (b + 1 + a.size) p = none ∨ K c (b + 1 + a.size) p = some x) →
        ∃ g, Agrees c (b + 1 + a.size) p g ∧ c.eval (b + 1 + a.size) g = x := by
      intro x hx
      rcases hx with hx | hx
      · exact ihc hnf.2.2 hpc hx x
      · exact ⟨fun j => (p j).getD false, fun j v _ _ h => by simp [h],
          K_sound hx hpc (fun j v _ _ h => by simp [h])⟩
    have comb : ∀ x y, (K a (b + 1) p = none ∨ K a (b + 1) p = some x) →
        (K c (b + 1 + a.size) p = none ∨ K c (b + 1 + a.size) p = some y) → o.eval x y = v →
        ∃ g, Agrees (.bin o a c) b p g ∧ (Sh.bin o a c).eval b g = v := by
      intro x y hx hy hv
      obtain ⟨ga, ga1, ga2⟩ := wa x hx
      obtain ⟨gc, gc1, gc2⟩ := wc y hy
      refine ⟨fun j => if j < b + 1 + a.size then ga j else gc j, fun j w h1 h2 hw => ?_, ?_⟩
      · simp only [Sh.size] at h2
        by_cases hj : j = b
        · subst hj; rw [hb] at hw; simp at hw
        · by_cases hj' : j < b + 1 + a.size
          · simp only [hj', if_true]; exact ga1 j w (by omega) (by omega) hw
          · simp only [hj', if_false]; exact gc1 j w (by omega) (by omega) hw
      · simp only [Sh.eval]
        rw [eval_congr (s := a) (g := ga) (fun j h1 h2 => by simp [h2]),
          eval_congr (s := c) (g := gc) (fun j h1 h2 => by simp [show ¬ j < b + 1 + a.size by omega]), ga2, gc2, hv]
    have hno := hnf.1
    cases hx : K a (b + 1) p with
    | none =>
      cases hy : K c (b + 1 + a.size) p with
      | none => exact comb v v (Or.inl hx) (Or.inl hy) (by cases o <;> cases v <;> simp_all [BinOp.eval])
      | some y =>
        rw [hx, hy] at hk
        refine comb v y (Or.inl hx) (Or.inr hy) ?_
        cases o <;> cases y <;> simp_all [kBin, BinOp.eval]
    | some x =>
      cases hy : K c (b + 1 + a.size) p with
      | none =>
        rw [hx, hy] at hk
        refine comb x v (Or.inr hx) (Or.inl hy) ?_
        cases o <;> cases x <;> simp_all [kBin, BinOp.eval]
      | some y => rw [hx, hy] at hk; exfalso; cases o <;> cases x <;> cases y <;> simp_all [kBin]

/-! ### Validate -/

theorem validateItem_complete {t : Tree} {s : Sh} {b par : Nat} (hs : Shaped t s b par) :
    ∀ fuel, s.size ≤ fuel → validateItem t fuel b par = .ok (some (b + s.size)) := by
  induction s generalizing b par with
  | leaf =>
    intro fuel hf
    obtain ⟨fuel, rfl⟩ : ∃ f, fuel = f + 1 := ⟨fuel - 1, by simp only [Sh.size] at hf; omega⟩
    have hs' : t[b]? = some ⟨.leaf, par, 0, 0⟩ := hs
    simp [validateItem, Res.idx_of_some hs', Sh.size]
  | un o a ih =>
    intro fuel hf
    simp only [Sh.size] at hf ⊢
    obtain ⟨fuel, rfl⟩ : ∃ f, fuel = f + 1 := ⟨fuel - 1, by omega⟩
    have hb := hs.2.bound
    have := a.size_pos
    have hty : ¬ o.ty = .leaf := by cases o <;> simp [UnOp.ty]
    simp [validateItem, Res.idx_of_some hs.1, hty, ih hs.2 fuel (by omega),
      show ¬ t.length ≤ b + 1 by omega]
    omega
  | bin o a c iha ihc =>
    intro fuel hf
    simp only [Sh.size] at hf ⊢
    obtain ⟨fuel, rfl⟩ : ∃ f, fuel = f + 1 := ⟨fuel - 1, by omega⟩
    have hb := hs.2.2.bound
    have := a.size_pos
    have := c.size_pos
    have hty : ¬ o.ty = .leaf := by cases o <;> simp [BinOp.ty]
    simp [validateItem, Res.idx_of_some hs.1, hty, iha hs.2.1 fuel (by omega), ihc hs.2.2 fuel (by omega),
      show ¬ t.length ≤ b + 1 by omega, show ¬ t.length ≤ b + 1 + a.size by omega]
    omega

/-- What `Validate` really checks: node kinds and parent links follow the preorder layout of `s`; child
links are only within range. -/
def Positional (t : Tree) : Sh → Nat → Nat → Prop
  | .leaf, b, par => ∃ l r, t[b]? = some ⟨.leaf, par, l, r⟩
  | .un o a, b, par =>
      (∃ l, t[b]? = some ⟨o.ty, par, l, 0⟩ ∧ 0 < l ∧ l < t.length) ∧ Positional t a (b + 1) b
  | .bin o a c, b, par =>
      (∃ l r, t[b]? = some ⟨o.ty, par, l, r⟩ ∧ 0 < l ∧ l < t.length ∧ 0 < r ∧ r < t.length) ∧
        Positional t a (b + 1) b ∧ Positional t c (b + 1 + a.size) b

theorem validateItem_sound {t : Tree} : ∀ fuel b par pos, validateItem t fuel b par = .ok (some pos) →
    ∃ s, Positional t s b par ∧ pos = b + s.size := by
  intro fuel
  induction fuel with
  | zero => intro b par pos h; simp [validateItem] at h
  | succ fuel ih =>
    intro b par pos h
    rw [validateItem] at h
    obtain ⟨n, hn, h⟩ := Res.bind_eq_ok.1 h
    have hn' : t[b]? = some n := by
      unfold Res.idx at hn; split at hn <;> simp_all
    obtain ⟨ty, p', l, r⟩ := n
    simp only at h
    by_cases hp : p' = par
    · subst hp
      simp only [ne_eq, not_true_eq_false, if_false] at h
      by_cases hty : ty = .leaf
      · subst hty
        simp at h
        exact ⟨.leaf, ⟨l, r, hn'⟩, by simp [Sh.size, h]⟩
      · simp only [hty, if_false] at h
        by_cases hl : l = 0 ∨ l ≥ t.length
        · simp [hl] at h
        · rw [if_neg hl] at h
          cases hr : ty.hasRight with
          | true =>
            by_cases hr' : r = 0 ∨ r ≥ t.length
            · simp [hr, hr'] at h
            · simp only [hr, hr', and_false, if_false, reduceCtorEq, false_and, if_true] at h
              obtain ⟨x, hx, h⟩ := Res.bind_eq_ok.1 h
              cases x with
              | none => simp at h
              | some q =>
                simp only at h
                obtain ⟨sa, ha1, ha2⟩ := ih _ _ _ hx
                obtain ⟨sc, hc1, hc2⟩ := ih _ _ _ h
                subst ha2
                obtain ⟨o, ho⟩ : ∃ o : BinOp, o.ty = ty := by
                  cases ty with
                  | or => exact ⟨.or, rfl⟩
                  | and => exact ⟨.and, rfl⟩
                  | neor => exact ⟨.neor, rfl⟩
                  | leaf => exact absurd rfl hty
                  | not => simp [NodeType.hasRight] at hr
                  | loop => simp [NodeType.hasRight] at hr
                refine ⟨.bin o sa sc, ⟨⟨l, r, by rw [ho]; exact hn', by omega, by omega, by omega, by omega⟩, ha1, hc1⟩, ?_⟩
                simp only [Sh.size]; omega
          | false =>
            by_cases hr' : r = 0
            · simp only [hr, hr', false_and, if_false, reduceCtorEq, ne_eq, not_true_eq_false, and_false] at h
              obtain ⟨x, hx, h⟩ := Res.bind_eq_ok.1 h
              cases x with
              | none => simp at h
              | some q =>
                simp at h
                obtain ⟨sa, ha1, ha2⟩ := ih _ _ _ hx
                subst ha2
                obtain ⟨o, ho⟩ : ∃ o : UnOp, o.ty = ty := by
                  cases ty with
                  | or => simp [NodeType.hasRight] at hr
                  | and => simp [NodeType.hasRight] at hr
                  | neor => simp [NodeType.hasRight] at hr
                  | leaf => exact absurd rfl hty
                  | not => exact ⟨.not, rfl⟩
                  | loop => exact ⟨.loop, rfl⟩
                refine ⟨.un o sa, ⟨⟨l, by rw [ho, ← hr']; exact hn', by omega, by omega⟩, ha1⟩, ?_⟩
                simp only [Sh.size]; omega
            · simp [hr, hr'] at h
    · simp [hp] at h

end Verif.BinTree
