import Verif.Match.Marks

/-!
# The matcher computes the verdict of the decisions

`vExec`, which works on the tree's state, against `dExec`, which lists decisions.
-/

namespace Verif.Match
open Verif.Token Verif.FastVal
open Verif.BinTree (Tree State Sh SV K Inv Ctx Shaped Antichain Fresh)

variable {E : Ext}

/-! ### Positions -/

theorem isAtom_range {s : Sh} {b i : Nat} (h : IsAtom s b i) : b ≤ i ∧ i < b + s.size := by
  induction s generalizing b with
  | leaf => simp only [IsAtom] at h; simp only [Sh.size]; omega
  | un o a ih =>
    have := a.size_pos
    cases o with
    | loop => simp only [IsAtom] at h; simp only [Sh.size]; omega
    | not => have := ih h; simp only [Sh.size]; omega
  | bin o a c iha ihc =>
    rcases h with h | h
    · have := iha h; simp only [Sh.size]; omega
    · have := ihc h; simp only [Sh.size]; omega

theorem atom_antichain (s : Sh) (b : Nat) : Antichain s b (IsAtom s b) := by
  intro i j s' hi hj hs hij
  induction s generalizing b with
  | leaf => simp only [IsAtom] at hi hj; omega
  | un o a ih =>
    cases o with
    | loop => simp only [IsAtom] at hi hj; omega
    | not =>
      have hr := isAtom_range (s := a) hi
      rcases hs with ⟨rfl, rfl⟩ | hs
      · omega
      · exact ih _ hi hj hs
  | bin o a c iha ihc =>
    have hri : b + 1 ≤ i := by
      rcases hi with hi | hi
      · exact (isAtom_range hi).1
      · have := (isAtom_range hi).1; omega
    rcases hs with ⟨rfl, rfl⟩ | hs | hs
    · omega
    · have hrs := BinTree.SubAt.range hs
      have := s'.size_pos
      rcases hi with hi | hi
      · rcases hj with hj | hj
        · exact iha _ hi hj hs
        · have := isAtom_range hj; omega
      · have := isAtom_range hi; omega
    · have hrs := BinTree.SubAt.range hs
      have := s'.size_pos
      rcases hi with hi | hi
      · have := isAtom_range hi; omega
      · rcases hj with hj | hj
        · have := isAtom_range hj; omega
        · exact ihc _ hi hj hs

theorem LoopAt.sub {s a : Sh} {b i : Nat} (h : LoopAt s b i a) : s.SubAt b a i ∧ IsAtom s b i ∧ b < i := by
  induction s generalizing b with
  | leaf => exact h.elim
  | un o x ih =>
    cases o with
    | loop =>
      obtain ⟨rfl, rfl⟩ := h
      exact ⟨Or.inr (BinTree.SubAt.refl _ _), rfl, by omega⟩
    | not =>
      obtain ⟨h1, h2, h3⟩ := ih h
      exact ⟨Or.inr h1, h2, by omega⟩
  | bin o x y ihx ihy =>
    rcases h with h | h
    · obtain ⟨h1, h2, h3⟩ := ihx h
      exact ⟨Or.inr (Or.inl h1), Or.inl h2, by omega⟩
    · obtain ⟨h1, h2, h3⟩ := ihy h
      exact ⟨Or.inr (Or.inr h1), Or.inr h2, by omega⟩

/-- `sh` gives the subtrees of `s`. -/
def ShOK (sh : Nat → Sh) (s : Sh) (b : Nat) : Prop := ∀ s' i, s.SubAt b s' i → sh i = s'

theorem ShOK.sub {sh : Nat → Sh} {s a : Sh} {b i : Nat} (h : ShOK sh s b) (ha : s.SubAt b a i) : ShOK sh a i :=
  fun s' j hs => h s' j (BinTree.SubAt.trans ha hs)

theorem subtree_of_subAt {s s' : Sh} {b i : Nat} (h : s.SubAt b s' i) : subtree s b i = s' := by
  induction s generalizing b with
  | leaf => obtain ⟨rfl, rfl⟩ := h; rfl
  | un o a ih =>
    rcases h with ⟨rfl, rfl⟩ | h
    · simp [subtree]
    · have := BinTree.SubAt.range h
      rw [subtree, if_neg (by omega)]; exact ih h
  | bin o a c iha ihc =>
    have hp := s'.size_pos
    rcases h with ⟨rfl, rfl⟩ | h | h
    · simp [subtree]
    · have := BinTree.SubAt.range h
      rw [subtree, if_neg (by omega), if_pos (by omega)]; exact iha h
    · have := BinTree.SubAt.range h
      rw [subtree, if_neg (by omega), if_neg (by omega)]; exact ihc h

theorem subtree_ok (s : Sh) (b : Nat) : ShOK (subtree s b) s b := fun _ _ => subtree_of_subAt

/-! ### What the description says by itself -/

/-- Decisions are about atoms; slots keep their number; without stores they keep their contents. -/
structure Static (s : Sh) (b : Nat) (σ : Slots) (a : Marks × Slots) : Prop where
  atoms : ∀ x ∈ a.1, IsAtom s b x.1
  len : a.2.length = σ.length

def RecD (rec : DRec E) : Prop :=
  ∀ node d σ a s b, node.Fits s b → rec node d σ = .ok a → Static s b σ a ∧ (node.NoStore → a.2 = σ)

theorem ok_inj {α : Type} {a b : α} (h : Res.ok a = Res.ok b) : a = b := by cases h; rfl

theorem dOps_atoms (X : Fns E) (r : D) (σ : Slots) (lit : Option (FV E)) {s : Sh} {b : Nat} (ops : List (Op E)) :
    ∀ {l}, (∀ op ∈ ops, IsAtom s b op.bucket) → dOps X r σ lit ops = .ok l → ∀ x ∈ l, IsAtom s b x.1 := by
  induction ops with
  | nil => intro l _ h x hx; cases ok_inj h; simp at hx
  | cons op ops ih =>
    intro l hf h x hx
    simp only [dOps] at h
    obtain ⟨o, _, h⟩ := Res.bind_eq_ok.1 h
    obtain ⟨l', h', h⟩ := Res.bind_eq_ok.1 h
    cases ok_inj h
    rcases List.mem_cons.1 hx with rfl | hx
    · exact hf op (by simp)
    · exact ih (fun o ho => hf o (by simp [ho])) h' x hx

theorem dLoop_atoms {rec : DRec E} {sh : Nat → Sh} {bucket : Nat} {mode : Mode} {node : Exec E} {d : D} {σ : Slots} {l : Marks}
    (h : dLoop rec sh bucket mode node d σ = .ok l) : ∀ x ∈ l, x.1 = bucket := by
  intro x hx
  cases d with
  | arr ws es =>
    simp only [dLoop] at h
    obtain ⟨o, _, h⟩ := Res.bind_eq_ok.1 h
    cases ok_inj h; simp at hx; rw [hx]
  | _ => cases ok_inj h; simp at hx

theorem dAfterLoops_atoms {rec : DRec E} {sh : Nat → Sh} {r : D} {σ : Slots} {s : Sh} {b : Nat} (loops : Loops E) :
    ∀ {l}, loops.Fits s b → dAfterLoops rec sh r σ loops = .ok l → ∀ x ∈ l, IsAtom s b x.1 := by
  match loops with
  | .nil => intro l _ h x hx; cases ok_inj h; simp at hx
  | .cons bucket mode target node rest =>
    intro l hf h x hx
    rw [dAfterLoops.eq_def] at h
    simp only at h
    split at h
    · split at h
      · simp at h
      · obtain ⟨p, _, h⟩ := Res.bind_eq_ok.1 h
        obtain ⟨l1, h1, h⟩ := Res.bind_eq_ok.1 h
        obtain ⟨l2, h2, h⟩ := Res.bind_eq_ok.1 h
        cases ok_inj h
        rcases List.mem_append.1 hx with hx | hx
        · obtain ⟨⟨a, ha, _⟩, _⟩ := hf
          rw [dLoop_atoms h1 x hx]; exact ha.sub.2.1
        · exact dAfterLoops_atoms rest hf.2 h2 x hx
    · simp at h

theorem dArrayLoops_atoms {rec : DRec E} {sh : Nat → Sh} {d : D} {σ : Slots} {s : Sh} {b : Nat} (loops : Loops E) :
    ∀ {l}, loops.Fits s b → dArrayLoops rec sh d σ loops = .ok l → ∀ x ∈ l, IsAtom s b x.1 := by
  match loops with
  | .nil => intro l _ h x hx; cases ok_inj h; simp at hx
  | .cons bucket mode target node rest =>
    intro l hf h x hx
    rw [dArrayLoops.eq_def] at h
    simp only at h
    split at h
    · simp at h
    · obtain ⟨l1, h1, h⟩ := Res.bind_eq_ok.1 h
      obtain ⟨l2, h2, h⟩ := Res.bind_eq_ok.1 h
      cases ok_inj h
      rcases List.mem_append.1 hx with hx | hx
      · obtain ⟨⟨a, ha, _⟩, _⟩ := hf
        rw [dLoop_atoms h1 x hx]; exact ha.sub.2.1
      · exact dArrayLoops_atoms rest hf.2 h2 x hx

theorem dAfter_atoms {X : Fns E} {rec : DRec E} {sh : Nat → Sh} {r : D} {σ : Slots} {s : Sh} {b : Nat} {after : After E} {l : Marks}
    (hf : after.Fits s b) (h : dAfter X rec sh r σ after = .ok l) : ∀ x ∈ l, IsAtom s b x.1 := by
  cases after with
  | none => cases ok_inj h; simp
  | some ops loops =>
    simp only [dAfter] at h
    obtain ⟨l1, h1, h⟩ := Res.bind_eq_ok.1 h
    obtain ⟨l2, h2, h⟩ := Res.bind_eq_ok.1 h
    cases ok_inj h
    intro x hx
    rcases List.mem_append.1 hx with hx | hx
    · exact dAfterLoops_atoms loops hf.2 h1 x hx
    · exact dOps_atoms X r σ none ops hf.1 h2 x hx

/-- `Static`, and no change of the slots if `ns`. -/
def St0 (s : Sh) (b : Nat) (ns : Prop) (σ : Slots) (a : Marks × Slots) : Prop := Static s b σ a ∧ (ns → a.2 = σ)

theorem St0.refl {s : Sh} {b : Nat} {ns : Prop} {σ : Slots} {l : Marks} (h : ∀ x ∈ l, IsAtom s b x.1) : St0 s b ns σ (l, σ) :=
  ⟨⟨h, rfl⟩, fun _ => rfl⟩

theorem andThen_static {s : Sh} {b : Nat} {ns : Prop} {σ : Slots} {a c : Marks × Slots} {f : Slots → Res (Marks × Slots)}
    (ha : St0 s b ns σ a) (hf : ∀ c, f a.2 = .ok c → St0 s b ns a.2 c) (h : andThen a f = .ok c) : St0 s b ns σ c := by
  unfold andThen at h
  obtain ⟨c', h', h⟩ := Res.bind_eq_ok.1 h
  cases ok_inj h
  obtain ⟨⟨h1, h2⟩, h3⟩ := hf c' h'
  refine ⟨⟨fun x hx => ?_, by simp only; rw [h2, ha.1.len]⟩, fun n => by simp only; rw [h3 n, ha.2 n]⟩
  rcases List.mem_append.1 hx with hx | hx
  · exact ha.1.atoms x hx
  · exact h1 x hx

theorem Elems.NoStore.find {es : Elems E} (h : es.NoStore) {k e} (he : es.find k = some e) : e.NoStore := by
  match es, h with
  | .cons k' e' r, h =>
    rw [Elems.find] at he
    split at he
    · simp at he; subst he; exact h.1
    · exact Elems.NoStore.find (es := r) h.2 he

theorem dMembers_static {rec : DRec E} (hrec : RecD rec) {elems : Elems E} {s : Sh} {b : Nat} (hf : elems.Fits s b) (ms : Ms) :
    ∀ {σ a}, dMembers rec elems ms σ = .ok a → St0 s b elems.NoStore σ a := by
  match ms with
  | .nil => intro σ a h; cases ok_inj h; exact St0.refl (by simp)
  | .cons kty key _ _ d _ _ rest =>
    intro σ a h
    rw [dMembers] at h
    obtain ⟨k, _, h⟩ := Res.bind_eq_ok.1 h
    cases hk : elems.find k with
    | none => rw [hk] at h; exact dMembers_static hrec hf rest h
    | some e =>
      rw [hk] at h
      obtain ⟨a1, h1, h⟩ := Res.bind_eq_ok.1 h
      have := hrec e d σ a1 s b (hf.find hk) h1
      exact andThen_static ⟨this.1, fun n => this.2 (n.find hk)⟩ (fun c hc => dMembers_static hrec hf rest hc) h

theorem dElems_static {rec : DRec E} (hrec : RecD rec) {elems : Elems E} {s : Sh} {b : Nat} (hf : elems.Fits s b) (es : Es) :
    ∀ {i σ a}, dElems rec elems i es σ = .ok a → St0 s b elems.NoStore σ a := by
  match es with
  | .nil => intro i σ a h; cases ok_inj h; exact St0.refl (by simp)
  | .cons d _ _ rest =>
    intro i σ a h
    rw [dElems] at h
    obtain ⟨k, _, h⟩ := Res.bind_eq_ok.1 h
    cases hk : elems.find (indexKey i) with
    | none => rw [hk] at h; exact dElems_static hrec hf rest h
    | some e =>
      rw [hk] at h
      obtain ⟨a1, h1, h⟩ := Res.bind_eq_ok.1 h
      have := hrec e d σ a1 s b (hf.find hk) h1
      exact andThen_static ⟨this.1, fun n => this.2 (n.find hk)⟩ (fun c hc => dElems_static hrec hf rest hc) h

theorem dStore_len {store : Nat} {d : D} {σ σ' : Slots} (h : dStore store d σ = .ok σ') :
    σ'.length = σ.length ∧ (store = 0 → σ' = σ) := by
  unfold dStore at h
  split at h
  · cases ok_inj h; exact ⟨rfl, fun _ => rfl⟩
  · split at h
    · cases ok_inj h; exact ⟨by simp, fun h0 => absurd h0 (by assumption)⟩
    · simp at h

theorem dFinish_static {X : Fns E} {rec : DRec E} {sh : Nat → Sh} {r : D} {store : Nat} {after : After E} {d : D} {σ : Slots}
    {s : Sh} {b : Nat} {c} (hf : after.Fits s b) (h : dFinish X rec sh r store after d σ = .ok c) :
    St0 s b (store = 0) σ c := by
  unfold dFinish at h
  obtain ⟨l, h1, h⟩ := Res.bind_eq_ok.1 h
  obtain ⟨σ', h2, h⟩ := Res.bind_eq_ok.1 h
  cases ok_inj h
  have := dStore_len h2
  exact ⟨⟨dAfter_atoms hf h1, this.1⟩, this.2⟩

theorem dOpsThen_static {X : Fns E} {rec : DRec E} {sh : Nat → Sh} {r : D} {ops : List (Op E)} {store : Nat} {after : After E}
    {d : D} {σ : Slots} {s : Sh} {b : Nat} {c} (ho : ∀ op ∈ ops, IsAtom s b op.bucket) (hf : after.Fits s b)
    (h : dOpsThen X rec sh r ops store after d σ = .ok c) : St0 s b (store = 0) σ c := by
  unfold dOpsThen at h
  obtain ⟨val, _, h⟩ := Res.bind_eq_ok.1 h
  obtain ⟨l, h1, h⟩ := Res.bind_eq_ok.1 h
  exact andThen_static (St0.refl (dOps_atoms X r σ _ ops ho h1)) (fun c hc => dFinish_static hf hc) h

theorem St0.mono {s : Sh} {b : Nat} {ns ns' : Prop} {σ : Slots} {a : Marks × Slots} (h : St0 s b ns σ a) (hn : ns' → ns) :
    St0 s b ns' σ a := ⟨h.1, fun n => h.2 (hn n)⟩

theorem dExec_static (X : Fns E) (sh : Nat → Sh) (r : D) (h : Nat) : RecD (dExec X sh r h) := by
  induction h with
  | zero => intro node d σ a s b _ h; simp [dExec] at h
  | succ h ih =>
    intro node d σ a s b hf he
    cases node with
    | mk store elems ops loops after =>
      obtain ⟨f1, f2, f3, f4⟩ := hf
      rw [dExec] at he
      have hk : ∀ d σ c, dOpsThen X (dExec X sh r h) sh r ops store after d σ = .ok c →
          St0 s b (Exec.mk store elems ops loops after).NoStore σ c :=
        fun d σ c hc => (dOpsThen_static f2 f4 hc).mono (fun n => n.1)
      cases d with
      | lit ty w => exact hk _ _ _ he
      | obj ws ms =>
        simp only [dObj] at he
        split at he
        · exact hk _ _ _ he
        · obtain ⟨a1, h1, he⟩ := Res.bind_eq_ok.1 he
          obtain ⟨l, h2, he⟩ := Res.bind_eq_ok.1 he
          have hm := (dMembers_static ih f1 ms h1).mono (ns' := (Exec.mk store elems ops loops after).NoStore) (fun n => n.2.1)
          have hm' : St0 s b (Exec.mk store elems ops loops after).NoStore σ (a1.1 ++ l, a1.2) :=
            ⟨⟨fun x hx => by
              rcases List.mem_append.1 hx with hx | hx
              · exact hm.1.atoms x hx
              · exact dAfter_atoms f4 h2 x hx, hm.1.len⟩, hm.2⟩
          split at he
          · cases ok_inj he; exact hm'
          · exact andThen_static hm' (fun c hc => hk _ _ _ hc) he
      | arr ws es =>
        simp only [dArr] at he
        split at he
        · split at he
          · cases ok_inj he; exact St0.refl (by simp)
          · obtain ⟨a1, h1, he⟩ := Res.bind_eq_ok.1 he
            have hm := (dElems_static ih f1 _ h1).mono (ns' := (Exec.mk store elems ops loops after).NoStore) (fun n => n.2.1)
            exact andThen_static hm (fun c hc => hk _ _ _ hc) he
        · obtain ⟨l, h1, he⟩ := Res.bind_eq_ok.1 he
          exact andThen_static (St0.refl (dArrayLoops_atoms loops f3 h1)) (fun c hc => hk _ _ _ hc) he

/-! ### States of the tree -/

/-- `p`, and where it says nothing `l`. -/
def also (p : Nat → Option Bool) (l : Marks) : Nat → Option Bool := fun i => (p i).or (l.get i)

theorem also_nil (p : Nat → Option Bool) : also p [] = p := by
  funext i; simp [also, Marks.get]

theorem also_append (p : Nat → Option Bool) (l l' : Marks) : also p (l ++ l') = also (also p l) l' := by
  funext i; simp [also, Marks.get, List.lookup_append, Option.or_assoc]

/-- The state decides the atoms as `p` says, for the tree `s` at `b`: the whole tree, or the body of the running loop. -/
structure St (t : Tree) (s : Sh) (b : Nat) (bt : State) (p : Nat → Option Bool) : Prop where
  ctx : Ctx t bt.stall s b
  len : bt.data.length = t.length
  inv : Inv bt.data p s b
  atoms : ∀ i, p i ≠ none → IsAtom s b i
  root : b ≠ 0 → bt.data[0]? = some .unknown

theorem mem_of_lookup {l : Marks} {i : Nat} (h : l.lookup i ≠ none) : ∃ v, (i, v) ∈ l := by
  induction l with
  | nil => simp at h
  | cons x l ih =>
    obtain ⟨j, w⟩ := x
    rw [List.lookup_cons] at h
    by_cases hj : i = j
    · exact ⟨w, by simp [hj]⟩
    · have : (i == j) = false := by simpa using hj
      rw [this] at h
      obtain ⟨v, hv⟩ := ih h
      exact ⟨v, by simp [hv]⟩

theorem also_atoms {s : Sh} {b : Nat} {p : Nat → Option Bool} {l : Marks} (hp : ∀ i, p i ≠ none → IsAtom s b i)
    (hl : ∀ x ∈ l, IsAtom s b x.1) : ∀ i, also p l i ≠ none → IsAtom s b i := by
  intro i hi
  cases hpi : p i with
  | some w => exact hp i (by simp [hpi])
  | none =>
    simp only [also, hpi, Option.none_or] at hi
    obtain ⟨v, hv⟩ := mem_of_lookup hi
    exact hl _ hv

theorem St.marks {t s b bt p} (h : St t s b bt p) (l : Marks) (hl : ∀ x ∈ l, IsAtom s b x.1) :
    ∃ bt', BinTree.runMarks t bt l = .ok bt' ∧ St t s b bt' (also p l) ∧ bt'.stall = bt.stall ∧
      ∀ j, j < b ∨ b + s.size ≤ j → bt'.data[j]? = bt.data[j]? := by
  obtain ⟨d', e1, e2, e3, e4⟩ := BinTree.runMarks_spec l h.ctx h.len h.inv (fun x hx => isAtom_range (hl x hx)) (by
    intro i j s' hi hj
    apply atom_antichain s b i j s'
    · rcases hi with hi | ⟨v, hv⟩
      · exact h.atoms i hi
      · exact hl _ hv
    · rcases hj with hi | ⟨v, hv⟩
      · exact h.atoms j hi
      · exact hl _ hv)
  refine ⟨_, e1, ⟨h.ctx, e3, e2, also_atoms h.atoms hl, fun hb => ?_⟩, rfl, e4⟩
  rw [← h.root hb]
  exact e4 0 (Or.inl (by omega))

theorem St.mark {t s b bt p} (h : St t s b bt p) {i : Nat} (hi : IsAtom s b i) (v : Bool) :
    ∃ bt', BinTree.guardedMark t bt i v = .ok bt' ∧ St t s b bt' (also p [(i, v)]) ∧ bt'.stall = bt.stall ∧
      ∀ j, j < b ∨ b + s.size ≤ j → bt'.data[j]? = bt.data[j]? := by
  obtain ⟨bt', e1, e2⟩ := h.marks [(i, v)] (by simpa using hi)
  refine ⟨bt', ?_, e2⟩
  simp only [BinTree.runMarks] at e1
  cases hg : BinTree.guardedMark t bt i v with
  | ok x => rw [hg] at e1; simp only [Res.bind_ok] at e1; exact e1
  | panic => rw [hg] at e1; simp at e1
  | stuck => rw [hg] at e1; simp at e1

/-- Everything is settled. -/
theorem St.dead {t s b bt p} (h : St t s b bt p) (hk : K s b p ≠ none) {i : Nat} (h1 : b ≤ i) (h2 : i < b + s.size) :
    BinTree.isResolved bt i = .ok true := by
  have hr := h.inv.root
  obtain ⟨x, hx, hu⟩ := h.inv.closed.dead hr (by simpa using hk) i h1 h2
  simp [BinTree.isResolved, Res.idx_of_some hx, hu]

theorem St.mark_dead {t s b bt p} (h : St t s b bt p) (hk : K s b p ≠ none) {i : Nat} (hi : IsAtom s b i) (v : Bool) :
    BinTree.guardedMark t bt i v = .ok bt := by
  have hr := isAtom_range hi
  have := h.dead hk hr.1 hr.2
  simp [BinTree.guardedMark, this]

theorem St.marks_dead {t s b bt p} (h : St t s b bt p) (hk : K s b p ≠ none) (l : Marks) (hl : ∀ x ∈ l, IsAtom s b x.1) :
    BinTree.runMarks t bt l = .ok bt := by
  induction l with
  | nil => rfl
  | cons x l ih =>
    obtain ⟨i, v⟩ := x
    simp only [BinTree.runMarks, h.mark_dead hk (hl (i, v) (by simp)) v, Res.bind_ok]
    exact ih (fun x hx => hl x (by simp [hx]))

/-- Once the root is settled, further decisions change nothing. -/
theorem St.extend {t s b bt p} (h : St t s b bt p) (hk : K s b p ≠ none) (l : Marks) (hl : ∀ x ∈ l, IsAtom s b x.1) :
    St t s b bt (also p l) := by
  obtain ⟨bt', e1, e2, _⟩ := h.marks l hl
  rw [h.marks_dead hk l hl] at e1
  cases ok_inj e1; exact e2

theorem svOpt_inj {x y : Option Bool} (h : BinTree.svOpt x = BinTree.svOpt y) : x = y := by
  revert h
  rcases x with _ | (_ | _) <;> rcases y with _ | (_ | _) <;> simp [BinTree.svOpt, SV.ofBool]

theorem St.K_eq {t s b bt p q} (h : St t s b bt p) (h' : St t s b bt q) : K s b p = K s b q := by
  have := h.inv.root
  rw [h'.inv.root] at this
  exact (svOpt_inj (by simpa using this)).symm

/-- Is the root of the whole tree settled? -/
theorem St.resolved0 {t s b bt p} (h : St t s b bt p) :
    BinTree.isResolved bt 0 = .ok (decide (b = 0 ∧ K s b p ≠ none)) := by
  by_cases hb : b = 0
  · subst hb
    simp [BinTree.isResolved, Res.idx_of_some h.inv.root]
  · simp [BinTree.isResolved, Res.idx_of_some (h.root hb), hb]

theorem St.isTrue {t s b bt p} (h : St t s b bt p) : BinTree.isTrue bt b = .ok (decide (K s b p = some true)) := by
  simp only [BinTree.isTrue, Res.idx_of_some h.inv.root]
  rcases K s b p with _ | (_ | _) <;> rfl

/-! ### Running against the description -/

structure Post (t : Tree) (s : Sh) (b : Nat) (p : Nat → Option Bool) (l : Marks) (σ : Slots) (v : V) (a : Bool × V) : Prop where
  st : St t s b a.2.bt (also p l)
  stall : a.2.bt.stall = v.bt.stall
  out : ∀ j, j < b ∨ b + s.size ≤ j → a.2.bt.data[j]? = v.bt.data[j]?
  early : a.1 = true → b = 0 ∧ K s b (also p l) ≠ none
  slots : a.1 = false → a.2.slots = σ
  slen : a.2.slots.length = σ.length

theorem Post.exit {t s b p l σ v a} (h : Post t s b p l σ v a) (hb : b = 0) (hk : K s b (also p l) ≠ none) {l' σ'}
    (hl : ∀ x ∈ l', IsAtom s b x.1) (hσ : σ'.length = σ.length) : Post t s b p (l ++ l') σ' v (true, a.2) := by
  have e := h.st.extend hk l' hl
  have hk' := h.st.K_eq e
  refine ⟨by rw [also_append]; exact e, h.stall, h.out, fun _ => ⟨hb, by rw [also_append, ← hk']; exact hk⟩, by simp, ?_⟩
  rw [hσ]; exact h.slen

theorem Post.trans {t s b p l σ v a} (h : Post t s b p l σ v a) {l' σ' c} (h' : Post t s b (also p l) l' σ' a.2 c) :
    Post t s b p (l ++ l') σ' v c :=
  ⟨by rw [also_append]; exact h'.st, h'.stall.trans h.stall, fun j hj => (h'.out j hj).trans (h.out j hj),
    by rw [also_append]; exact h'.early, h'.slots, h'.slen⟩

theorem Post.refl {t s b p v} (h : St t s b v.bt p) : Post t s b p [] v.slots v (false, v) :=
  ⟨by rw [also_nil]; exact h, rfl, fun _ _ => rfl, by simp, fun _ => rfl, rfl⟩

/-- Going on after a child. -/
theorem check_sound {t s b p l σ v a} (h : Post t s b p l σ v a) {k : V → Res (Bool × V)} {l' σ'}
    (hl : ∀ x ∈ l', IsAtom s b x.1) (hσ : σ'.length = σ.length)
    (hk : a.2.slots = σ → St t s b a.2.bt (also p l) → ∃ c, k a.2 = .ok c ∧ Post t s b (also p l) l' σ' a.2 c) :
    ∃ c, check k a = .ok c ∧ Post t s b p (l ++ l') σ' v c := by
  unfold check
  rw [h.st.resolved0]
  simp only [Res.bind_ok]
  by_cases hd : b = 0 ∧ K s b (also p l) ≠ none
  · rw [if_pos (by simpa using hd)]
    exact ⟨_, rfl, h.exit hd.1 hd.2 hl hσ⟩
  · rw [if_neg (by simpa using hd)]
    cases ha : a.1 with
    | true => exact absurd (h.early ha) hd
    | false =>
      simp only [Bool.false_eq_true, if_false]
      obtain ⟨c, e1, e2⟩ := hk (h.slots ha) h.st
      exact ⟨c, e1, h.trans e2⟩

theorem matchOp_guarded (X : Fns E) (t : Tree) {rd : Nat → Res (FV E)} {lit : Option (FV E)} {op : Op E} {bt bt' : State}
    {coll : Bool} {o : Bool × Bool} (ho : opResult X rd lit op = .ok o) (hm : BinTree.guardedMark t bt op.bucket o.1 = .ok bt') :
    ∃ c, matchOp X t rd lit op bt coll = .ok (bt', c) := by
  unfold matchOp
  unfold BinTree.guardedMark at hm
  cases hr : BinTree.isResolved bt op.bucket with
  | panic => rw [hr] at hm; cases hm
  | stuck => rw [hr] at hm; cases hm
  | ok b =>
    rw [hr] at hm
    simp only [Res.bind_ok] at hm ⊢
    cases b with
    | true => cases ok_inj hm; exact ⟨_, rfl⟩
    | false =>
      simp only [Bool.false_eq_true, if_false, ho, Res.bind_ok] at hm ⊢
      rw [hm]; exact ⟨_, rfl⟩

theorem opsV_nil (X : Fns E) (t : Tree) (r : D) (lit : Option (FV E)) (v : V) : opsV X t r lit [] v = .ok (false, v) := rfl

theorem opsV_cons (X : Fns E) (t : Tree) (r : D) (lit : Option (FV E)) (op : Op E) (ops : List (Op E)) (v : V) :
    opsV X t r lit (op :: ops) v =
      matchOp X t (slotVal r v.slots) lit op v.bt v.coll >>= fun a =>
      BinTree.isResolved a.1 0 >>= fun d =>
      if d then .ok (true, { v with bt := a.1, coll := a.2 }) else opsV X t r lit ops { v with bt := a.1, coll := a.2 } := by
  unfold opsV
  rw [runOps]
  cases matchOp X t (slotVal r v.slots) lit op v.bt v.coll with
  | panic => rfl
  | stuck => rfl
  | ok a =>
    simp only [Res.bind_ok]
    cases BinTree.isResolved a.1 0 with
    | panic => rfl
    | stuck => rfl
    | ok d => cases d <;> rfl

theorem ops_sound (X : Fns E) {t : Tree} {r : D} {lit : Option (FV E)} {s : Sh} {b : Nat} (ops : List (Op E)) :
    ∀ {v p l}, (∀ op ∈ ops, IsAtom s b op.bucket) → dOps X r v.slots lit ops = .ok l → St t s b v.bt p →
      ∃ c, opsV X t r lit ops v = .ok c ∧ Post t s b p l v.slots v c := by
  induction ops with
  | nil => intro v p l _ h hs; cases ok_inj h; exact ⟨_, opsV_nil .., Post.refl hs⟩
  | cons op ops ih =>
    intro v p l hf h hs
    have hf' : ∀ o ∈ ops, IsAtom s b o.bucket := fun o ho => hf o (by simp [ho])
    simp only [dOps] at h
    obtain ⟨o, ho, h⟩ := Res.bind_eq_ok.1 h
    obtain ⟨l', h', h⟩ := Res.bind_eq_ok.1 h
    cases ok_inj h
    obtain ⟨bt', m1, m2, m3, m4⟩ := hs.mark (hf op (by simp)) o.1
    obtain ⟨c, hc⟩ := matchOp_guarded X t (coll := v.coll) ho m1
    rw [opsV_cons, hc]
    simp only [Res.bind_ok]
    rw [m2.resolved0]
    simp only [Res.bind_ok]
    have hp : Post t s b p [(op.bucket, o.1)] v.slots v (false, { v with bt := bt', coll := c }) :=
      ⟨m2, m3, m4, by simp, fun _ => rfl, rfl⟩
    by_cases hd : b = 0 ∧ K s b (also p [(op.bucket, o.1)]) ≠ none
    · rw [if_pos (by simpa using hd)]
      exact ⟨_, rfl, hp.exit hd.1 hd.2 (l' := l') (dOps_atoms X r v.slots lit ops hf' h') rfl⟩
    · rw [if_neg (by simpa using hd)]
      obtain ⟨c', e1, e2⟩ := ih (v := { v with bt := bt', coll := c }) hf' h' m2
      exact ⟨c', e1, hp.trans e2⟩

/-- With everything settled nothing happens, whatever is in the slots. -/
theorem ops_dead (X : Fns E) {t : Tree} {r : D} {lit : Option (FV E)} {s : Sh} {b : Nat} (ops : List (Op E)) {v : V} {p}
    (hf : ∀ op ∈ ops, IsAtom s b op.bucket) (hs : St t s b v.bt p) (hb : b = 0) (hk : K s b p ≠ none) :
    ∃ x, opsV X t r lit ops v = .ok (x, v) := by
  cases ops with
  | nil => exact ⟨_, opsV_nil ..⟩
  | cons op ops =>
    have hr := isAtom_range (hf op (by simp))
    have := hs.dead hk hr.1 hr.2
    refine ⟨true, ?_⟩
    have h0 := hs.resolved0
    rw [opsV_cons, matchOp, this]
    simp only [Res.bind_ok, if_true]
    rw [h0]
    simp only [Res.bind_ok]
    rw [if_pos (by simpa using ⟨hb, hk⟩)]

/-! ### Loops -/

/-- The recursive calls agree with the description. -/
def RecS (t : Tree) (sh : Nat → Sh) (rec : DRec E) (vrec : VRec E) : Prop :=
  ∀ node d s b v p a, node.Fits s b → ShOK sh s b → rec node d v.slots = .ok a → St t s b v.bt p →
    ∃ c, vrec node d v = .ok c ∧ Post t s b p a.1 a.2 v c

theorem items_sound {t : Tree} {sh : Nat → Sh} {rec : DRec E} {vrec : VRec E} (hrd : RecD rec) (hrs : RecS t sh rec vrec)
    {bucket : Nat} {mode : Mode} {node : Exec E} {s : Sh} {par : Nat} (hs : Shaped t s bucket par) (hb : 0 < bucket)
    (hf : node.Fits s bucket) (hn : node.NoStore) (hsh : ShOK sh s bucket) (es : Es) :
    ∀ {st o v}, dItems rec sh bucket mode node v.slots es st = .ok o → v.bt.stall = bucket → v.bt.data.length = t.length →
      v.bt.data[0]? = some .unknown →
      ∃ v', vItems vrec t bucket mode node es st v = .ok (o, v') ∧ v'.bt.stall = bucket ∧ v'.bt.data.length = t.length ∧
        v'.slots = v.slots ∧ ∀ j, j < bucket ∨ bucket + s.size ≤ j → v'.bt.data[j]? = v.bt.data[j]? := by
  match es with
  | .nil =>
    intro st o v h h1 h2 h3
    rw [dItems] at h; cases ok_inj h
    exact ⟨v, rfl, h1, h2, rfl, fun _ _ => rfl⟩
  | .cons d _ _ rest =>
    intro st o v h h1 h2 h3
    rw [dItems] at h
    obtain ⟨a, ha, h⟩ := Res.bind_eq_ok.1 h
    obtain ⟨d', e1, e2, e3, e4⟩ := BinTree.resetNode_spec hs v.bt h2
    have hst : St t s bucket { v.bt with data := d' } (fun _ => none) :=
      ⟨⟨⟨par, hs⟩, Or.inr h1.symm, Or.inl (by rw [← h1]; exact Nat.le_refl _)⟩, e2, e3.inv (fun _ _ _ => rfl), by simp,
        fun _ => by rw [← h3]; exact e4 0 (Or.inl hb)⟩
    obtain ⟨c, c1, c2⟩ := hrs node d s bucket { v with bt := { v.bt with data := d' } } (fun _ => none) a hf hsh ha hst
    have hc : c.1 = false := by
      cases hc : c.1 with
      | false => rfl
      | true => have := (c2.early hc).1; omega
    have hsl : c.2.slots = v.slots := by rw [c2.slots hc]; exact (hrd node d v.slots a s bucket hf ha).2 hn
    have hK : also (fun _ => none) a.1 = a.1.get := by funext i; simp [also]
    have hit := c2.st.isTrue
    rw [hK] at hit
    have hshb : sh bucket = s := hsh s bucket (BinTree.SubAt.refl _ _)
    rw [hshb] at h
    rw [vItems, e1]
    simp only [Res.bind_ok]
    rw [c1]
    simp only [Res.bind_ok, hc, Bool.false_eq_true, if_false, hit]
    have hout : ∀ j, j < bucket ∨ bucket + s.size ≤ j → c.2.bt.data[j]? = v.bt.data[j]? := fun j hj => by
      rw [c2.out j hj]; exact e4 j hj
    have hstall : c.2.bt.stall = bucket := by rw [c2.stall]; exact h1
    cases hm : mode.leaves (decide (K s bucket a.1.get = some true)) with
    | some bb =>
      simp only [hm] at h ⊢
      cases ok_inj h
      exact ⟨_, rfl, hstall, c2.st.len, hsl, hout⟩
    | none =>
      simp only [hm] at h ⊢
      rw [← hsl, ← hshb] at h
      obtain ⟨v', g1, g2, g3, g4, g5⟩ := items_sound hrd hrs hs hb hf hn hsh rest (v := c.2) h hstall c2.st.len (by
        rw [hout 0 (Or.inl hb)]; exact h3)
      rw [hshb] at g1
      exact ⟨v', g1, g2, g3, by rw [g4, hsl], fun j hj => by rw [g5 j hj]; exact hout j hj⟩

theorem loop_sound {t : Tree} {sh : Nat → Sh} {rec : DRec E} {vrec : VRec E} (hrd : RecD rec) (hrs : RecS t sh rec vrec)
    {bucket : Nat} {mode : Mode} {node : Exec E} {s a : Sh} {b : Nat} (hla : LoopAt s b bucket a)
    (hf : node.Fits a bucket) (hn : node.NoStore) (hsh : ShOK sh s b) {d : D} {v : V} {p l}
    (h : dLoop rec sh bucket mode node d v.slots = .ok l) (hs : St t s b v.bt p) :
    ∃ v', vLoop vrec t bucket mode node d v = .ok v' ∧ Post t s b p l v.slots v (false, v') := by
  obtain ⟨hsub, hat, hlt⟩ := hla.sub
  cases d with
  | lit ty w => cases ok_inj h; exact ⟨v, rfl, Post.refl hs⟩
  | obj ws ms => cases ok_inj h; exact ⟨v, rfl, Post.refl hs⟩
  | arr ws es =>
    simp only [dLoop] at h
    obtain ⟨o, ho, h⟩ := Res.bind_eq_ok.1 h
    cases ok_inj h
    obtain ⟨bt', m1, m2, m3, m4⟩ := hs.mark hat o
    have hpost : ∀ c, Post t s b p [(bucket, o)] v.slots v (false, { v with bt := bt', coll := c }) :=
      fun c => ⟨m2, m3, m4, by simp, fun _ => rfl, rfl⟩
    simp only [vLoop]
    have hr := isAtom_range hat
    obtain ⟨par0, hsh0⟩ := hs.ctx.shaped
    have hbd := hsh0.bound
    have hlen : bucket < v.bt.data.length := by have := hs.len; omega
    have hidx : v.bt.data[bucket]? = some v.bt.data[bucket] := List.getElem?_eq_getElem hlen
    unfold BinTree.guardedMark at m1
    by_cases hu : v.bt.data[bucket] = .unknown
    · -- undecided: run it
      rw [hu] at hidx
      have hres : BinTree.isResolved v.bt bucket = .ok false := by simp [BinTree.isResolved, Res.idx_of_some hidx]
      rw [hres] at m1 ⊢
      simp only [Res.bind_ok, Bool.false_eq_true, if_false] at m1 ⊢
      obtain ⟨par, hshp⟩ := BinTree.SubAt.shaped hsub hsh0
      -- the body is untouched
      have hpb : p bucket = none := by
        cases hp : p bucket with
        | none => rfl
        | some w => exact absurd hidx (hs.inv.marked hsub hp)
      have hpn : ∀ j, bucket ≤ j → j < bucket + a.size → p j = none := by
        intro j h1 h2
        cases hp : p j with
        | none => rfl
        | some w =>
          have hj := hs.atoms j (by simp [hp])
          by_cases hjb : j = bucket
          · subst hjb; rw [hpb] at hp; simp at hp
          · have := atom_antichain s b bucket j a hat hj hsub (by omega); omega
      have hfresh : Fresh v.bt.data bucket a.size := (hs.inv.sub hsub hidx).fresh hpn
      have h0 : v.bt.data[0]? = some .unknown := by
        by_cases hb : b = 0
        · subst hb
          by_cases hk : K s 0 p = none
          · rw [hs.inv.root, hk]; rfl
          · have := hs.dead hk hr.1 hr.2
            rw [hres] at this; simp at this
        · exact hs.root hb
      obtain ⟨v1, i1, i2, i3, i4, i5⟩ := items_sound (mode := mode) hrd hrs hshp (by omega) hf hn (hsh.sub hsub) es
        (v := { v with bt := (BinTree.setStallIndex v.bt bucket).1 }) ho rfl hs.len h0
      rw [i1]
      simp only [Res.bind_ok]
      obtain ⟨d2, r1, r2, r3, r4⟩ := BinTree.resetNode_spec hshp v1.bt i3
      rw [r1]
      simp only [Res.bind_ok]
      have hd2 : d2 = v.bt.data := by
        apply List.ext_getElem?
        intro j
        by_cases hj : bucket ≤ j ∧ j < bucket + a.size
        · rw [r3 j hj.1 hj.2, hfresh j hj.1 hj.2]
        · rw [r4 j (by omega), i5 j (by omega)]; rfl
      have hst2 : (BinTree.setStallIndex { v1.bt with data := d2 } v.bt.stall).1 = v.bt := by
        simp only [BinTree.setStallIndex, hd2]
      rw [hst2, m1]
      simp only [Res.bind_ok]
      refine ⟨_, rfl, ?_⟩
      have := hpost v1.coll
      have e : v1.slots = v.slots := i4
      rw [← e] at this
      rw [show ({ slots := v1.slots, bt := bt', coll := v1.coll } : V) = { v1 with bt := bt' } from rfl] at this
      exact ⟨this.st, this.stall, this.out, this.early, fun _ => e, by simp only; rw [e]⟩
    · have hres : BinTree.isResolved v.bt bucket = .ok true := by simp [BinTree.isResolved, Res.idx_of_some hidx, hu]
      rw [hres] at m1 ⊢
      simp only [Res.bind_ok, if_true] at m1 ⊢
      cases ok_inj m1
      exact ⟨v, rfl, hpost v.coll⟩

theorem loop_dead {t : Tree} {vrec : VRec E} {bucket : Nat} {mode : Mode} {node : Exec E} {s : Sh} {b : Nat}
    (hat : IsAtom s b bucket) {d : D} {v : V} {p} (hs : St t s b v.bt p) (hk : K s b p ≠ none) :
    vLoop vrec t bucket mode node d v = .ok v := by
  cases d with
  | arr ws es =>
    have hr := isAtom_range hat
    have := hs.dead hk hr.1 hr.2
    simp [vLoop, this]
  | _ => rfl

theorem idx_ok {α : Type} {l : List α} {i : Nat} {a : α} (h : Res.idx l i = .ok a) : i < l.length := by
  unfold Res.idx at h
  cases hl : l[i]? with
  | none => rw [hl] at h; simp at h
  | some x => exact (List.getElem?_eq_some_iff.1 hl).1

theorem afterLoops_sound {t : Tree} {sh : Nat → Sh} {rec : DRec E} {vrec : VRec E} (hrd : RecD rec) (hrs : RecS t sh rec vrec)
    {r : D} {s : Sh} {b : Nat} (hsh : ShOK sh s b) (loops : Loops E) : ∀ {v p l}, loops.Fits s b →
      dAfterLoops rec sh r v.slots loops = .ok l → St t s b v.bt p →
      ∃ c, vAfterLoops vrec t r loops v = .ok c ∧ Post t s b p l v.slots v c := by
  match loops with
  | .nil => intro v p l _ h hs; cases ok_inj h; exact ⟨_, rfl, Post.refl hs⟩
  | .cons bucket mode target node rest =>
    intro v p l hf h hs
    obtain ⟨⟨a, ha1, ha2, ha3⟩, hf2⟩ := hf
    rw [dAfterLoops.eq_def] at h
    rw [vAfterLoops.eq_def]
    simp only at h ⊢
    split at h
    · rename_i sl
      split at h
      · simp at h
      · rename_i hsl
        simp only [if_neg hsl]
        obtain ⟨q, hq, h⟩ := Res.bind_eq_ok.1 h
        obtain ⟨l1, h1, h⟩ := Res.bind_eq_ok.1 h
        obtain ⟨l2, h2, h⟩ := Res.bind_eq_ok.1 h
        cases ok_inj h
        rw [hq]
        obtain ⟨v', e1, e2⟩ := loop_sound hrd hrs ha1 ha2 ha3 hsh h1 hs
        simp only [Res.bind_ok, e1]
        rw [e2.st.resolved0]
        simp only [Res.bind_ok]
        by_cases hd : b = 0 ∧ K s b (also p l1) ≠ none
        · rw [if_pos (by simpa using hd)]
          exact ⟨_, rfl, e2.exit hd.1 hd.2 (dAfterLoops_atoms rest hf2 h2) rfl⟩
        · rw [if_neg (by simpa using hd)]
          have hsl' : v'.slots = v.slots := e2.slots rfl
          rw [← hsl'] at h2
          obtain ⟨c, g1, g2⟩ := afterLoops_sound hrd hrs hsh rest hf2 h2 e2.st
          rw [hsl'] at g2
          exact ⟨c, g1, e2.trans g2⟩
    · simp at h

theorem after_sound (X : Fns E) {t : Tree} {sh : Nat → Sh} {rec : DRec E} {vrec : VRec E} (hrd : RecD rec)
    (hrs : RecS t sh rec vrec) {r : D} {s : Sh} {b : Nat} (hsh : ShOK sh s b) {ops : List (Op E)} {loops : Loops E} {v p l}
    (hf : (After.some ops loops).Fits s b) (h : dAfter X rec sh r v.slots (.some ops loops) = .ok l) (hs : St t s b v.bt p) :
    ∃ c, vAfter X vrec t r ops loops v = .ok c ∧ Post t s b p l v.slots v c := by
  simp only [dAfter] at h
  obtain ⟨l1, h1, h⟩ := Res.bind_eq_ok.1 h
  obtain ⟨l2, h2, h⟩ := Res.bind_eq_ok.1 h
  cases ok_inj h
  obtain ⟨c, e1, e2⟩ := afterLoops_sound hrd hrs hsh loops hf.2 h1 hs
  unfold vAfter
  rw [e1]
  simp only [Res.bind_ok]
  have hat := dOps_atoms X r v.slots none ops hf.1 h2
  cases hc : c.1 with
  | true =>
    simp only [if_true]
    have := e2.early hc
    refine ⟨c, rfl, ?_⟩
    have := e2.exit this.1 this.2 hat rfl
    rw [← hc] at this
    exact this
  | false =>
    simp only [Bool.false_eq_true, if_false]
    have hsl := e2.slots hc
    rw [← hsl] at h2
    obtain ⟨c', g1, g2⟩ := ops_sound X ops hf.1 h2 e2.st
    rw [hsl] at g2
    exact ⟨c', g1, e2.trans g2⟩

theorem after_dead (X : Fns E) {t : Tree} {vrec : VRec E} {r : D} {s : Sh} {b : Nat} {ops : List (Op E)} {loops : Loops E}
    {v : V} {p} {sh : Nat → Sh} {rec : DRec E} {σ : Slots} {l} (hf : (After.some ops loops).Fits s b)
    (h : dAfter X rec sh r σ (.some ops loops) = .ok l)
    (hσ : v.slots.length = σ.length) (hs : St t s b v.bt p) (hb : b = 0) (hk : K s b p ≠ none) :
    ∃ x, vAfter X vrec t r ops loops v = .ok (x, v) := by
  simp only [dAfter] at h
  obtain ⟨l1, h1, h⟩ := Res.bind_eq_ok.1 h
  unfold vAfter
  cases loops with
  | nil => simp only [vAfterLoops, Res.bind_ok, Bool.false_eq_true, if_false]; exact ops_dead X ops hf.1 hs hb hk
  | cons bucket mode target node rest =>
    obtain ⟨⟨a, ha1, ha2, ha3⟩, hf2⟩ := hf.2
    rw [dAfterLoops.eq_def] at h1
    rw [vAfterLoops.eq_def]
    simp only at h1 ⊢
    split at h1
    · split at h1
      · simp at h1
      · rename_i hsl
        simp only [if_neg hsl]
        obtain ⟨q, hq, h1⟩ := Res.bind_eq_ok.1 h1
        have hi := idx_ok hq
        rw [← hσ] at hi
        rw [Res.idx_of_some (List.getElem?_eq_getElem hi)]
        simp only [Res.bind_ok]
        rw [loop_dead ha1.sub.2.1 hs hk]
        simp only [Res.bind_ok]
        rw [hs.resolved0]
        simp only [Res.bind_ok]
        rw [if_pos (by simpa using ⟨hb, hk⟩)]
        exact ⟨true, rfl⟩
    · simp at h1

theorem arrayLoops_sound {t : Tree} {sh : Nat → Sh} {rec : DRec E} {vrec : VRec E} (hrd : RecD rec) (hrs : RecS t sh rec vrec)
    {d : D} {s : Sh} {b : Nat} (hsh : ShOK sh s b) (loops : Loops E) : ∀ {v p l}, loops.Fits s b →
      dArrayLoops rec sh d v.slots loops = .ok l → St t s b v.bt p →
      ∃ c, vArrayLoops vrec t d loops v = .ok c ∧ Post t s b p l v.slots v c := by
  match loops with
  | .nil => intro v p l _ h hs; cases ok_inj h; exact ⟨_, rfl, Post.refl hs⟩
  | .cons bucket mode target node rest =>
    intro v p l hf h hs
    obtain ⟨⟨a, ha1, ha2, ha3⟩, hf2⟩ := hf
    rw [dArrayLoops.eq_def] at h
    rw [vArrayLoops.eq_def]
    simp only at h ⊢
    split at h
    · simp at h
    · obtain ⟨l1, h1, h⟩ := Res.bind_eq_ok.1 h
      obtain ⟨l2, h2, h⟩ := Res.bind_eq_ok.1 h
      cases ok_inj h
      obtain ⟨v', e1, e2⟩ := loop_sound hrd hrs ha1 ha2 ha3 hsh h1 hs
      simp only [Res.bind_ok, e1]
      rw [e2.st.resolved0]
      simp only [Res.bind_ok]
      by_cases hd : b = 0 ∧ K s b (also p l1) ≠ none
      · rw [if_pos (by simpa using hd)]
        exact ⟨_, rfl, e2.exit hd.1 hd.2 (dArrayLoops_atoms rest hf2 h2) rfl⟩
      · rw [if_neg (by simpa using hd)]
        have hsl' : v'.slots = v.slots := e2.slots rfl
        rw [← hsl'] at h2
        obtain ⟨c, g1, g2⟩ := arrayLoops_sound hrd hrs hsh rest hf2 h2 e2.st
        rw [hsl'] at g2
        exact ⟨c, g1, e2.trans g2⟩

/-! ### Objects, arrays, nodes -/

theorem members_sound {t : Tree} {sh : Nat → Sh} {rec : DRec E} {vrec : VRec E} (hrd : RecD rec) (hrs : RecS t sh rec vrec)
    {elems : Elems E} {s : Sh} {b : Nat} (hf : elems.Fits s b) (hsh : ShOK sh s b) (ms : Ms) : ∀ {v p a},
      dMembers rec elems ms v.slots = .ok a → St t s b v.bt p →
      ∃ c, vMembers vrec elems ms v = .ok c ∧ Post t s b p a.1 a.2 v c := by
  match ms with
  | .nil => intro v p a h hs; cases ok_inj h; exact ⟨_, rfl, Post.refl hs⟩
  | .cons kty key _ _ d _ _ rest =>
    intro v p a h hs
    rw [dMembers] at h
    rw [vMembers]
    obtain ⟨k, hk, h⟩ := Res.bind_eq_ok.1 h
    rw [hk]
    simp only [Res.bind_ok]
    cases he : elems.find k with
    | none =>
      rw [he] at h
      exact members_sound hrd hrs hf hsh rest h hs
    | some e =>
      rw [he] at h
      simp only at h ⊢
      obtain ⟨a1, h1, h⟩ := Res.bind_eq_ok.1 h
      unfold andThen at h
      obtain ⟨a2, h2, h⟩ := Res.bind_eq_ok.1 h
      cases ok_inj h
      obtain ⟨c, e1, e2⟩ := hrs e d s b v p a1 (hf.find he) hsh h1 hs
      rw [e1]
      simp only [Res.bind_ok]
      have hstat := dMembers_static hrd hf rest h2
      refine check_sound e2 hstat.1.atoms hstat.1.len (fun hsl hst => ?_)
      rw [← hsl] at h2
      exact members_sound hrd hrs hf hsh rest h2 hst

theorem elems_sound {t : Tree} {sh : Nat → Sh} {rec : DRec E} {vrec : VRec E} (hrd : RecD rec) (hrs : RecS t sh rec vrec)
    {elems : Elems E} {s : Sh} {b : Nat} (hf : elems.Fits s b) (hsh : ShOK sh s b) (es : Es) : ∀ {i v p a},
      dElems rec elems i es v.slots = .ok a → St t s b v.bt p →
      ∃ c, vElems vrec elems i es v = .ok c ∧ Post t s b p a.1 a.2 v c := by
  match es with
  | .nil => intro i v p a h hs; cases ok_inj h; exact ⟨_, rfl, Post.refl hs⟩
  | .cons d _ _ rest =>
    intro i v p a h hs
    rw [dElems] at h
    rw [vElems]
    obtain ⟨k, hk, h⟩ := Res.bind_eq_ok.1 h
    rw [hk]
    simp only [Res.bind_ok]
    cases he : elems.find (indexKey i) with
    | none =>
      rw [he] at h
      exact elems_sound hrd hrs hf hsh rest h hs
    | some e =>
      rw [he] at h
      simp only at h ⊢
      obtain ⟨a1, h1, h⟩ := Res.bind_eq_ok.1 h
      unfold andThen at h
      obtain ⟨a2, h2, h⟩ := Res.bind_eq_ok.1 h
      cases ok_inj h
      obtain ⟨c, e1, e2⟩ := hrs e d s b v p a1 (hf.find he) hsh h1 hs
      rw [e1]
      simp only [Res.bind_ok]
      have hstat := dElems_static hrd hf rest h2
      refine check_sound e2 hstat.1.atoms hstat.1.len (fun hsl hst => ?_)
      rw [← hsl] at h2
      exact elems_sound hrd hrs hf hsh rest h2 hst

theorem store_sound {t : Tree} {s : Sh} {b : Nat} {p} {store : Nat} {d : D} {v : V} {σ : Slots}
    (h : dStore store d v.slots = .ok σ) (hs : St t s b v.bt p) :
    ∃ c, (if store = 0 then Res.ok (false, v)
      else if store - 1 < v.slots.length then Res.ok (false, { v with slots := v.slots.set (store - 1) (some d) })
      else .panic) = .ok c ∧ Post t s b p [] σ v c := by
  unfold dStore at h
  by_cases h0 : store = 0
  · rw [if_pos h0] at h ⊢; cases ok_inj h; exact ⟨_, rfl, Post.refl hs⟩
  · rw [if_neg h0] at h ⊢
    by_cases h1 : store - 1 < v.slots.length
    · rw [if_pos h1] at h ⊢; cases ok_inj h
      exact ⟨_, rfl, by rw [also_nil]; exact hs, rfl, fun _ _ => rfl, by simp, fun _ => rfl, rfl⟩
    · rw [if_neg h1] at h; simp at h

theorem finish_sound (X : Fns E) {t : Tree} {sh : Nat → Sh} {rec : DRec E} {vrec : VRec E} (hrd : RecD rec)
    (hrs : RecS t sh rec vrec) {r : D} {s : Sh} {b : Nat} (hsh : ShOK sh s b) {store : Nat} {after : After E} {d : D} {v p a}
    (hf : after.Fits s b) (h : dFinish X rec sh r store after d v.slots = .ok a) (hs : St t s b v.bt p) :
    ∃ c, vFinish X vrec t r store after d v = .ok c ∧ Post t s b p a.1 a.2 v c := by
  unfold dFinish at h
  obtain ⟨l, h1, h⟩ := Res.bind_eq_ok.1 h
  obtain ⟨σ', h2, h⟩ := Res.bind_eq_ok.1 h
  cases ok_inj h
  unfold vFinish
  cases after with
  | none =>
    cases ok_inj h1
    exact store_sound h2 hs
  | some ops loops =>
    obtain ⟨c, e1, e2⟩ := after_sound X hrd hrs hsh hf h1 hs
    simp only [e1, Res.bind_ok]
    have := check_sound e2 (l' := []) (σ' := σ') (k := fun v => if store = 0 then Res.ok (false, v)
      else if store - 1 < v.slots.length then Res.ok (false, { v with slots := v.slots.set (store - 1) (some d) })
      else .panic) (by simp) (dStore_len h2).1 (fun hsl hst => by
        rw [← hsl] at h2
        exact store_sound h2 hst)
    simpa using this

theorem opsThen_sound (X : Fns E) {t : Tree} {sh : Nat → Sh} {rec : DRec E} {vrec : VRec E} (hrd : RecD rec)
    (hrs : RecS t sh rec vrec) {r : D} {s : Sh} {b : Nat} (hsh : ShOK sh s b) {ops : List (Op E)} {store : Nat} {after : After E}
    {d : D} {v p a} (hfo : ∀ op ∈ ops, IsAtom s b op.bucket) (hf : after.Fits s b)
    (h : dOpsThen X rec sh r ops store after d v.slots = .ok a) (hs : St t s b v.bt p) :
    ∃ c, vOpsThen X vrec t r ops store after d v = .ok c ∧ Post t s b p a.1 a.2 v c := by
  unfold dOpsThen at h
  unfold vOpsThen
  obtain ⟨val, hv, h⟩ := Res.bind_eq_ok.1 h
  obtain ⟨l, h1, h⟩ := Res.bind_eq_ok.1 h
  unfold andThen at h
  obtain ⟨a2, h2, h⟩ := Res.bind_eq_ok.1 h
  cases ok_inj h
  obtain ⟨c, e1, e2⟩ := ops_sound X ops hfo h1 hs
  simp only [hv, Res.bind_ok, e1]
  have hstat := dFinish_static hf h2
  cases hc : c.1 with
  | true =>
    simp only [if_true]
    have := e2.early hc
    have := e2.exit this.1 this.2 hstat.1.atoms hstat.1.len
    rw [← hc] at this
    exact ⟨c, rfl, this⟩
  | false =>
    simp only [Bool.false_eq_true, if_false]
    have hsl := e2.slots hc
    simp only at h2
    rw [← hsl] at h2
    obtain ⟨c', g1, g2⟩ := finish_sound X hrd hrs hsh hf h2 e2.st
    exact ⟨c', g1, e2.trans g2⟩

/-- The first `matchAfter` of an object node. -/
def vAfterOpt (X : Fns E) (rec : VRec E) (t : Tree) (r : D) : After E → V → Res (Bool × V)
  | .some aops aloops, v => vAfter X rec t r aops aloops v
  | .none, v => .ok (false, v)

theorem vObj_eq (X : Fns E) (rec : VRec E) (t : Tree) (r : D) (store : Nat) (elems : Elems E) (ops : List (Op E)) (after : After E)
    (ws : List Nat) (ms : Ms) (v : V) : vObj X rec t r store elems ops after ws ms v =
      if elems.isEmpty then vOpsThen X rec t r ops store after (.obj ws ms) v
      else vMembers rec elems ms v >>= fun a => vAfterOpt X rec t r after a.2 >>= fun b =>
        match ms with
        | .nil => .ok b
        | _ => if a.1 then .ok (true, b.2) else check (vOpsThen X rec t r ops store after (.obj ws ms)) b := by
  cases after <;> rfl

theorem obj_sound (X : Fns E) {t : Tree} {sh : Nat → Sh} {rec : DRec E} {vrec : VRec E} (hrd : RecD rec)
    (hrs : RecS t sh rec vrec) {r : D} {s : Sh} {b : Nat} (hsh : ShOK sh s b) {store : Nat} {elems : Elems E} {ops : List (Op E)}
    {after : After E} {ws : List Nat} {ms : Ms} {v p a} (hfe : elems.Fits s b) (hfo : ∀ op ∈ ops, IsAtom s b op.bucket)
    (hf : after.Fits s b) (h : dObj X rec sh r store elems ops after ws ms v.slots = .ok a) (hs : St t s b v.bt p) :
    ∃ c, vObj X vrec t r store elems ops after ws ms v = .ok c ∧ Post t s b p a.1 a.2 v c := by
  unfold dObj at h
  rw [vObj_eq]
  simp only at h
  by_cases hem : elems.isEmpty = true
  · rw [if_pos hem] at h ⊢
    exact opsThen_sound X hrd hrs hsh hfo hf h hs
  · rw [if_neg hem] at h ⊢
    obtain ⟨a1, h1, h⟩ := Res.bind_eq_ok.1 h
    obtain ⟨l, h2, h⟩ := Res.bind_eq_ok.1 h
    obtain ⟨c, e1, e2⟩ := members_sound hrd hrs hfe hsh ms h1 hs
    rw [e1]
    simp only [Res.bind_ok]
    have hatl := dAfter_atoms hf h2
    -- the first `matchAfter`
    have hA : ∃ c', vAfterOpt X vrec t r after c.2 = .ok c' ∧
        Post t s b p (a1.1 ++ l) a1.2 v (c.1 || c'.1, c'.2) ∧ (c.1 = true → c'.2 = c.2) := by
      cases hc : c.1 with
      | true =>
        have hearly := e2.early hc
        have hp := e2.exit hearly.1 hearly.2 hatl (σ' := a1.2) rfl
        cases after with
        | none => exact ⟨_, rfl, by simpa using hp, fun _ => rfl⟩
        | some aops aloops =>
          obtain ⟨x, hx⟩ := after_dead X (vrec := vrec) hf h2 e2.slen e2.st hearly.1 hearly.2
          exact ⟨_, hx, by simpa using hp, fun _ => rfl⟩
      | false =>
        have hsl := e2.slots hc
        cases after with
        | none =>
          cases ok_inj h2
          refine ⟨_, rfl, ?_, fun _ => rfl⟩
          simp only [List.append_nil, Bool.or_false]
          rw [← hc]; exact e2
        | some aops aloops =>
          rw [← hsl] at h2
          obtain ⟨c', g1, g2⟩ := after_sound X hrd hrs hsh hf h2 e2.st
          rw [hsl] at g2
          exact ⟨c', g1, by simpa using e2.trans g2, fun h => by simp at h⟩
    obtain ⟨c', hc', hp, hsame⟩ := hA
    rw [hc']
    simp only [Res.bind_ok]
    cases ms with
    | nil =>
      cases ok_inj h
      have hc : c.1 = false := by rw [vMembers] at e1; cases ok_inj e1; rfl
      simp only [hc, Bool.false_or] at hp
      exact ⟨_, rfl, hp⟩
    | cons kty key k1 k2 d w1 w2 rest =>
      simp only at h ⊢
      unfold andThen at h
      obtain ⟨a2, h3, h⟩ := Res.bind_eq_ok.1 h
      cases ok_inj h
      have hstat := dOpsThen_static hfo hf h3
      cases hc : c.1 with
      | true =>
        simp only [if_true]
        simp only [hc, Bool.true_or] at hp
        have hearly := hp.early rfl
        exact ⟨_, rfl, hp.exit hearly.1 hearly.2 hstat.1.atoms hstat.1.len⟩
      | false =>
        simp only [Bool.false_eq_true, if_false]
        simp only [hc, Bool.false_or] at hp
        refine check_sound hp hstat.1.atoms hstat.1.len (fun hsl hst => ?_)
        simp only at h3 hsl
        rw [← hsl] at h3
        exact opsThen_sound X hrd hrs hsh hfo hf h3 hst

theorem arr_sound (X : Fns E) {t : Tree} {sh : Nat → Sh} {rec : DRec E} {vrec : VRec E} (hrd : RecD rec)
    (hrs : RecS t sh rec vrec) {r : D} {s : Sh} {b : Nat} (hsh : ShOK sh s b) {store : Nat} {elems : Elems E} {ops : List (Op E)}
    {loops : Loops E} {after : After E} {ws : List Nat} {es : Es} {v p a} (hfe : elems.Fits s b)
    (hfo : ∀ op ∈ ops, IsAtom s b op.bucket) (hfl : loops.Fits s b)
    (hf : after.Fits s b) (h : dArr X rec sh r store elems ops loops after ws es v.slots = .ok a) (hs : St t s b v.bt p) :
    ∃ c, vArr X vrec t r store elems ops loops after ws es v = .ok c ∧ Post t s b p a.1 a.2 v c := by
  have go : ∀ {c : Bool × V} {a1 : Marks × Slots}, Post t s b p a1.1 a1.2 v c →
      andThen a1 (dOpsThen X rec sh r ops store after (.arr ws es)) = .ok a →
      ∃ c', (if c.1 then .ok c else vOpsThen X vrec t r ops store after (.arr ws es) c.2) = .ok c' ∧ Post t s b p a.1 a.2 v c' := by
    intro c a1 e2 h
    unfold andThen at h
    obtain ⟨a2, h3, h⟩ := Res.bind_eq_ok.1 h
    cases ok_inj h
    have hstat := dOpsThen_static hfo hf h3
    cases hc : c.1 with
    | true =>
      simp only [if_true]
      have := e2.early hc
      have := e2.exit this.1 this.2 hstat.1.atoms hstat.1.len
      rw [← hc] at this
      exact ⟨c, rfl, this⟩
    | false =>
      simp only [Bool.false_eq_true, if_false]
      have hsl := e2.slots hc
      rw [← hsl] at h3
      obtain ⟨c', g1, g2⟩ := opsThen_sound X hrd hrs hsh hfo hf h3 e2.st
      exact ⟨c', g1, e2.trans g2⟩
  unfold dArr at h
  unfold vArr
  simp only at h ⊢
  by_cases hem : loops.isEmpty = true
  · rw [if_pos hem] at h ⊢
    cases es with
    | nil => cases ok_inj h; exact ⟨_, rfl, Post.refl hs⟩
    | cons d w1 w2 rest =>
      simp only at h ⊢
      obtain ⟨a1, h1, h⟩ := Res.bind_eq_ok.1 h
      obtain ⟨c, e1, e2⟩ := elems_sound hrd hrs hfe hsh _ h1 hs
      rw [e1]
      exact go e2 h
  · rw [if_neg hem] at h ⊢
    obtain ⟨l, h1, h⟩ := Res.bind_eq_ok.1 h
    obtain ⟨c, e1, e2⟩ := arrayLoops_sound hrd hrs hsh loops hfl h1 hs
    rw [e1]
    exact go (a1 := (l, v.slots)) e2 h

theorem exec_sound (X : Fns E) (t : Tree) (sh : Nat → Sh) (r : D) (h : Nat) : RecS t sh (dExec X sh r h) (vExec X t r h) := by
  induction h with
  | zero => intro node d s b v p a _ _ h; simp [dExec] at h
  | succ h ih =>
    intro node d s b v p a hf hsh hd hs
    have hrd := dExec_static X sh r h
    cases node with
    | mk store elems ops loops after =>
      obtain ⟨f1, f2, f3, f4⟩ := hf
      rw [dExec] at hd
      rw [vExec]
      cases d with
      | lit ty w => exact opsThen_sound X hrd ih hsh f2 f4 hd hs
      | obj ws ms => exact obj_sound X hrd ih hsh f1 f2 f4 hd hs
      | arr ws es => exact arr_sound X hrd ih hsh f1 f2 f3 f4 hd hs

/-- A definition whose nodes fit its tree. -/
structure Def.WF (df : Def E) (s : Sh) (node : Exec E) : Prop where
  parse : df.parse = some node
  shaped : Shaped df.tree s 0 0
  len : df.tree.length = s.size
  fits : node.Fits s 0

/-- The document-level matcher computes the verdict. -/
theorem vRun_verdict (X : Fns E) {df : Def E} {s : Sh} {node : Exec E} (hw : df.WF s node) {r : D} {b : Bool} {v : V}
    (hslots : v.slots = List.replicate df.numSlots none) (hbt : v.bt = BinTree.newState df.tree)
    (h : verdict X s node df.numSlots r = .ok b) : ∃ v', vRun X df v r = .ok (b, v') := by
  unfold verdict decisions at h
  obtain ⟨l, h1, hb⟩ := Res.bind_eq_ok.1 h
  clear h
  obtain ⟨a, h, hl⟩ := Res.bind_eq_ok.1 h1
  clear h1
  cases ok_inj hl
  cases ok_inj hb
  have hf := BinTree.newState_fresh df.tree s.size (by have := hw.len; omega)
  have hs : St df.tree s 0 v.bt (fun _ => none) := by
    rw [hbt]
    exact ⟨⟨⟨0, hw.shaped⟩, Or.inl rfl, Or.inl (Nat.le_refl 0)⟩, by simp [BinTree.newState],
      hf.inv (fun _ _ _ => rfl), by simp, by simp⟩
  rw [← hslots] at h
  obtain ⟨c, c1, c2⟩ := exec_sound X df.tree (subtree s 0) r node.height node r s 0 v (fun _ => none) a hw.fits
    (subtree_ok s 0) h hs
  have hstall : c.2.bt.stall = 0 := by rw [c2.stall, hbt]; rfl
  obtain ⟨d', q, r1, r2, r3, r4, r5⟩ := BinTree.resolve_spec hw.shaped hw.len hstall c2.st.len c2.st.inv
  have hK : also (fun _ => none) a.1 = a.1.get := by funext i; simp [also]
  rw [hK] at r3
  unfold vRun
  rw [hw.parse]
  simp only [c1, Res.bind_ok, r1]
  have : BinTree.isTrue { c.2.bt with data := d' } 0 = .ok (s.evalM 0 a.1.get) := by
    simp only [BinTree.isTrue, Res.idx_of_some r2.root]
    cases hk : K s 0 q with
    | none => exact absurd hk r4
    | some w =>
      rw [← BinTree.evalM_falseExt r3 hw.shaped, BinTree.K_evalM hk]
      cases w <;> rfl
  rw [this]
  exact ⟨_, rfl⟩

end Verif.Match
