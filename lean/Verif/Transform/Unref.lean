import Verif.Transform.Theorems

/-!
# What an expression references
-/

namespace Verif.Transform
open Verif.FastVal Verif.Match Verif.Expr
open Verif.Token (D Es Ms Tok)

variable {E : Ext}

/-- A path of member names as a reference. -/
def rkeys (p : Path) : RPath := p.map RStep.key

mutual
  /-- What an expression references: the value of each comparison, and for a loop the number of elements and what the body
  references in each of them. -/
  def refsE : Expr E → List RPath
    | .cmp _ l r => [rkeys (condPath l r)]
    | .exist e => [rkeys (condPath e e)]
    | .notExist e => [rkeys (condPath e e)]
    | .not e => refsE e
    | .and es => refsEs es
    | .or es => refsEs es
    | .loop _ _ i s => (rkeys (inPath i) ++ [.len]) :: (refsE s).map (fun p => rkeys (inPath i) ++ .each :: p)
    | _ => []
  def refsEs : Exprs E → List RPath
    | .nil => []
    | .cons e r => refsE e ++ refsEs r
end

/-- What an item reads. -/
def itemReads (x : Path × Item E) (p : RPath) : Prop :=
  match x.2 with
  | .op _ => p = rkeys x.1
  | .loop _ _ _ body => p = rkeys x.1 ++ [.len] ∨ ∃ q ∈ rpaths body, p = rkeys x.1 ++ .each :: q
  | _ => False

theorem itemReads_under {k : List Nat} {x : Path × Item E} {p : RPath} (h : itemReads x p) : itemReads (k :: x.1, x.2) (.key k :: p) := by
  obtain ⟨q, it⟩ := x
  cases it with
  | op o => have h : p = rkeys q := h; subst h; exact rfl
  | loop b m t e =>
    rcases h with h | ⟨q', hq, h⟩
    · subst h; exact Or.inl rfl
    · subst h; exact Or.inr ⟨q', hq, rfl⟩
  | _ => exact h.elim

theorem rpathsL_items : ∀ {ls : Loops E} {p : RPath}, p ∈ rpathsL ls → ∃ x ∈ loopItems Item.loop ls, itemReads x p
  | .cons b m t e r, p, h => by
    rw [rpathsL] at h
    rw [loopItems]
    rcases List.mem_cons.1 h with h | h
    · subst h; exact ⟨_, List.mem_cons_self, Or.inl rfl⟩
    · rcases List.mem_append.1 h with h | h
      · obtain ⟨q, hq, rfl⟩ := List.mem_map.1 h
        exact ⟨_, List.mem_cons_self, Or.inr ⟨q, hq, rfl⟩⟩
      · obtain ⟨x, hx, h⟩ := rpathsL_items h
        exact ⟨x, List.mem_cons_of_mem _ hx, h⟩

mutual
  theorem rpaths_items : ∀ {n : Exec E} {p : RPath}, p ∈ rpaths n → ∃ x ∈ items n, itemReads x p
    | .mk st es ops ls a, p, h => by
      rw [rpaths] at h
      rw [items]
      rcases List.mem_append.1 h with h | h
      · obtain ⟨o, ho, rfl⟩ := List.mem_map.1 h
        exact ⟨([], .op o), List.mem_append_left _ (List.mem_map.2 ⟨o, ho, rfl⟩), rfl⟩
      · rcases List.mem_append.1 h with h | h
        · obtain ⟨x, hx, h⟩ := rpathsE_items h
          exact ⟨x, List.mem_append_right _ (List.mem_append_left _ hx), h⟩
        · obtain ⟨x, hx, h⟩ := rpathsL_items h
          exact ⟨x, List.mem_append_right _ (List.mem_append_right _ (List.mem_append_left _ hx)), h⟩
  theorem rpathsE_items : ∀ {es : Elems E} {p : RPath}, p ∈ rpathsE es → ∃ x ∈ itemsE es, itemReads x p
    | .cons k e r, p, h => by
      rw [rpathsE] at h
      rw [itemsE]
      rcases List.mem_append.1 h with h | h
      · obtain ⟨q, hq, rfl⟩ := List.mem_map.1 h
        obtain ⟨x, hx, hr⟩ := rpaths_items hq
        exact ⟨_, List.mem_append_left _ (List.mem_map.2 ⟨x, hx, rfl⟩), itemReads_under hr⟩
      · obtain ⟨x, hx, h⟩ := rpathsE_items h
        exact ⟨x, List.mem_append_right _ hx, h⟩
end

mutual
  theorem eItems_reads (C : Comp E) : ∀ (e : Expr E) (v : Int) (b : Nat), Frag C v e → ∀ x ∈ eItems C e b, ∀ p, itemReads x p → p ∈ refsE e
    | .cmp c l r, v, b, h, x, hx, p, hp => by
      rw [eItems, List.mem_singleton] at hx; subst hx; have hp : p = _ := hp; subst hp; simp [refsE]
    | .exist e, v, b, h, x, hx, p, hp => by
      rw [eItems, List.mem_singleton] at hx; subst hx; have hp : p = _ := hp; subst hp; simp [refsE]
    | .notExist e, v, b, h, x, hx, p, hp => by
      rw [eItems, List.mem_singleton] at hx; subst hx; have hp : p = _ := hp; subst hp; simp [refsE]
    | .not e, v, b, h, x, hx, p, hp => by rw [eItems] at hx; rw [refsE]; exact eItems_reads C e v (b + 1) h x hx p hp
    | .and es, v, b, h, x, hx, p, hp => by rw [eItems] at hx; rw [refsE]; exact eItemsAll_reads C es v b h x hx p hp
    | .or es, v, b, h, x, hx, p, hp => by rw [eItems] at hx; rw [refsE]; exact eItemsAll_reads C es v b h x hx p hp
    | .loop m w i s, v, b, h, x, hx, p, hp => by
      rw [eItems, List.mem_singleton] at hx; subst hx
      rw [refsE]
      rcases hp with hp | ⟨q, hq, hp⟩
      · subst hp; exact List.mem_cons_self
      · subst hp
        obtain ⟨y, hy, hyr⟩ := rpaths_items hq
        have ha := (ins_adds C s w (b + 1) emptyExec h.2.2.2 emptyExec_tidy emptyExec_full (by intro x hx; cases hx)).perm
        have hy' := ha.mem_iff.1 hy
        rw [emptyExec_items, List.append_nil] at hy'
        exact List.mem_cons_of_mem _ (List.mem_map.2 ⟨q, eItems_reads C s w (b + 1) h.2.2.2 y hy' q hyr, rfl⟩)
    | .tru, v, b, h, x, hx, _, _ | .fals, v, b, h, x, hx, _, _ => by simp [eItems] at hx
    | .value _, v, b, h, _, _, _, _ | .regex _, v, b, h, _, _, _, _
    | .pcre _, v, b, h, _, _, _, _ | .time _, v, b, h, _, _, _, _ | .field _, v, b, h, _, _, _, _ | .func .., v, b, h, _, _, _, _ => by
      simp [Frag] at h
  theorem eItemsAll_reads (C : Comp E) : ∀ (es : Exprs E) (v : Int) (b : Nat), Frags C v es → ∀ x ∈ eItemsAll C es b, ∀ p, itemReads x p →
      p ∈ refsEs es
    | .nil, v, b, h, _, _, _, _ => by simp [Frags] at h
    | .cons e .nil, v, b, h, x, hx, p, hp => by
      rw [Frags] at h; rw [eItemsAll] at hx; rw [refsEs]; exact List.mem_append_left _ (eItems_reads C e v b h x hx p hp)
    | .cons e (.cons e' r), v, b, h, x, hx, p, hp => by
      rw [Frags] at h; rw [eItemsAll] at hx; rw [refsEs]
      rcases List.mem_append.1 hx with hx | hx
      · exact List.mem_append_left _ (eItems_reads C e v (b + 1) h.1 x hx p hp)
      · exact List.mem_append_right _ (eItemsAll_reads C (.cons e' r) v _ h.2 x hx p hp)
end

theorem refsEs_list : ∀ (es : List (Expr E)) (p : RPath), p ∈ refsEs (.ofList es) → ∃ x ∈ es, p ∈ refsE x
  | e :: es, p, h => by
    rw [Exprs.ofList, refsEs] at h
    rcases List.mem_append.1 h with h | h
    · exact ⟨e, List.mem_cons_self, h⟩
    · obtain ⟨x, hx, h⟩ := refsEs_list es p h
      exact ⟨x, List.mem_cons_of_mem _ hx, h⟩

/-! ### Compiled definitions use no slots -/

mutual
  theorem refOf_noSlot (C : Comp E) : ∀ e : Expr E, (refOf C e).NoSlot
    | .func f ps => by rw [refOf, Ref.NoSlot]; exact refsOf_noSlot C ps
    | .regex g => by unfold refOf; repeat' split <;> simp_all [Ref.NoSlot]
    | .pcre g => by unfold refOf; repeat' split <;> simp_all [Ref.NoSlot]
    | .time g => by unfold refOf; repeat' split <;> simp_all [Ref.NoSlot]
    | .field _ | .value _ | .tru | .fals | .not _ | .and _ | .or _ | .loop .. | .exist _ | .notExist _ | .cmp .. => by simp [refOf, Ref.NoSlot]
  theorem refsOf_noSlot (C : Comp E) : ∀ ps : Exprs E, (refsOf C ps).NoSlot
    | .nil => trivial
    | .cons e r => by rw [refsOf, Refs.NoSlot]; exact ⟨refOf_noSlot C e, refsOf_noSlot C r⟩
end

theorem sideOf_noSlot (C : Comp E) (e : Expr E) : ∀ r ∈ sideOf C e, r.NoSlot := by
  intro r hr
  unfold sideOf at hr
  split at hr
  · cases hr
  · cases hr; exact refOf_noSlot C _

abbrev SlotFreeLoop : Nat → Mode → Option (Ref E) → Exec E → Prop := fun _ _ t e => t = none ∧ e.NoSlots

mutual
  theorem all_noSlots : ∀ n : Exec E, n.All Op.NoSlot SlotFreeLoop → n.NoSlots
    | .mk st es ops ls a, ⟨h1, h2, h3, h4, h5⟩ => ⟨h1, allE_noSlots es h2, h3, allL_noSlots ls h4, h5⟩
  theorem allE_noSlots : ∀ es : Elems E, es.All Op.NoSlot SlotFreeLoop → es.NoSlots
    | .nil, _ => trivial
    | .cons _ e r, h => ⟨all_noSlots e h.1, allE_noSlots r h.2⟩
  theorem allL_noSlots : ∀ ls : Loops E, ls.All SlotFreeLoop → ls.NoSlots
    | .nil, _ => trivial
    | .cons _ _ _ e r, h => ⟨h.1.1, h.1.2, allL_noSlots r h.2⟩
end

mutual
  theorem eItems_noSlot (C : Comp E) : ∀ (e : Expr E) (v : Int) (b : Nat), Frag C v e → ∀ x ∈ eItems C e b, x.2.Ok Op.NoSlot SlotFreeLoop
    | .cmp c l r, v, b, h, x, hx => by
      rw [eItems, List.mem_singleton] at hx; subst hx; exact ⟨sideOf_noSlot C l, sideOf_noSlot C r⟩
    | .exist e, v, b, h, x, hx => by
      rw [eItems, List.mem_singleton] at hx; subst hx; exact ⟨sideOf_noSlot C e, by intro r hr; cases hr⟩
    | .notExist e, v, b, h, x, hx => by
      rw [eItems, List.mem_singleton] at hx; subst hx; exact ⟨sideOf_noSlot C e, by intro r hr; cases hr⟩
    | .not e, v, b, h, x, hx => by rw [eItems] at hx; exact eItems_noSlot C e v (b + 1) h x hx
    | .and es, v, b, h, x, hx => by rw [eItems] at hx; exact eItemsAll_noSlot C es v b h x hx
    | .or es, v, b, h, x, hx => by rw [eItems] at hx; exact eItemsAll_noSlot C es v b h x hx
    | .loop m w i s, v, b, h, x, hx => by
      rw [eItems, List.mem_singleton] at hx; subst hx
      refine ⟨rfl, ?_⟩
      refine all_noSlots _ (ins_all C s w (b + 1) emptyExec h.2.2.2 (by intro x hx; cases hx) emptyExec_tidy emptyExec_full ?_ emptyExec_all)
      exact eItems_noSlot C s w (b + 1) h.2.2.2
    | .tru, v, b, h, x, hx | .fals, v, b, h, x, hx => by simp [eItems] at hx
    | .value _, v, b, h, _, _ | .regex _, v, b, h, _, _ | .pcre _, v, b, h, _, _
    | .time _, v, b, h, _, _ | .field _, v, b, h, _, _ | .func .., v, b, h, _, _ => by simp [Frag] at h
  theorem eItemsAll_noSlot (C : Comp E) : ∀ (es : Exprs E) (v : Int) (b : Nat), Frags C v es → ∀ x ∈ eItemsAll C es b,
      x.2.Ok Op.NoSlot SlotFreeLoop
    | .nil, v, b, h, _, _ => by simp [Frags] at h
    | .cons e .nil, v, b, h, x, hx => by rw [Frags] at h; rw [eItemsAll] at hx; exact eItems_noSlot C e v b h x hx
    | .cons e (.cons e' r), v, b, h, x, hx => by
      rw [Frags] at h; rw [eItemsAll] at hx
      rcases List.mem_append.1 hx with hx | hx
      · exact eItems_noSlot C e v (b + 1) h.1 x hx
      · exact eItemsAll_noSlot C (.cons e' r) v _ h.2 x hx
end

theorem compiled_noSlots (C : Comp E) {g : Expr E} {gs : List (Expr E)} (h : ∀ x ∈ g :: gs, Frag C 0 x) : (compiled C (g :: gs)).NoSlots :=
  all_noSlots _ (insAll_all C _ 0 0 emptyExec (frags_of_list g gs h) (by intro x hx; cases hx) emptyExec_tidy emptyExec_full
    (eItemsAll_noSlot C _ 0 0 (frags_of_list g gs h)) emptyExec_all)

/-! ### Every node below a key reads something -/

theorem rpathsL_ne : ∀ {ls : Loops E}, loopItems Item.loop ls ≠ [] → rpathsL ls ≠ []
  | .nil, h => absurd rfl h
  | .cons .., _ => by rw [rpathsL]; simp

mutual
  theorem rpaths_ne : ∀ {n : Exec E}, n.NoSlots → items n ≠ [] → rpaths n ≠ []
    | .mk st es ops ls a, ⟨_, h2, _, h4, h5⟩, h => by
      subst h5
      rw [rpaths]
      rw [items] at h
      intro h0
      obtain ⟨e1, h0⟩ := List.append_eq_nil_iff.1 h0
      obtain ⟨e2, e3⟩ := List.append_eq_nil_iff.1 h0
      apply h
      rw [List.map_eq_nil_iff.1 e1]
      have : itemsE es = [] := Classical.byContradiction (fun hc => rpathsE_ne h2 hc e2)
      have h' : loopItems Item.loop ls = [] := Classical.byContradiction (fun hc => rpathsL_ne hc e3)
      rw [this, h']; rfl
  theorem rpathsE_ne : ∀ {es : Elems E}, es.NoSlots → itemsE es ≠ [] → rpathsE es ≠ []
    | .nil, _, h => absurd rfl h
    | .cons k e r, ⟨h1, h2⟩, h => by
      rw [rpathsE]
      rw [itemsE] at h
      intro h0
      obtain ⟨e1, e2⟩ := List.append_eq_nil_iff.1 h0
      apply h
      have a1 : items e = [] := Classical.byContradiction (fun hc => rpaths_ne h1 hc (List.map_eq_nil_iff.1 e1))
      have a2 : itemsE r = [] := Classical.byContradiction (fun hc => rpathsE_ne h2 hc e2)
      rw [a1, a2]; rfl
end

mutual
  theorem noSlots_notes : ∀ {n : Exec E}, n.NoSlots → notes n = []
    | .mk st es ops ls a, ⟨h1, h2, _, _, h5⟩ => by subst h1 h5; rw [notes, noSlotsE_notes h2]; rfl
  theorem noSlotsE_notes : ∀ {es : Elems E}, es.NoSlots → notesE es = []
    | .nil, _ => rfl
    | .cons k e r, ⟨h1, h2⟩ => by rw [notesE, noSlots_notes h1, noSlotsE_notes h2]; rfl
end

mutual
  theorem full_reads : ∀ {n : Exec E}, n.NoSlots → n.Full → n.Reads
    | .mk .., h, hf => ⟨fullE_reads h.2.1 hf.1, fullL_reads h.2.2.2.1 hf.2.1⟩
  theorem fullE_reads : ∀ {es : Elems E}, es.NoSlots → es.Full → es.Reads
    | .nil, _, _ => trivial
    | .cons .., h, hf => ⟨rpaths_ne h.1 (hf.1.resolve_right (fun hc => hc (noSlots_notes h.1))), full_reads h.1 hf.2.1, fullE_reads h.2 hf.2.2⟩
  theorem fullL_reads : ∀ {ls : Loops E}, ls.NoSlots → ls.Full → ls.Reads
    | .nil, _, _ => trivial
    | .cons .., h, hf => ⟨full_reads h.2.1 hf.1, fullL_reads h.2.2 hf.2⟩
end

theorem compiled_adds (C : Comp E) {g : Expr E} {gs : List (Expr E)} (h : ∀ x ∈ g :: gs, Frag C 0 x) :
    Adds1 (eItemsAll C (.ofList (g :: gs)) 0) emptyExec (compiled C (g :: gs)) :=
  insAll_adds C _ 0 0 emptyExec (frags_of_list g gs h) emptyExec_tidy emptyExec_full (by intro x hx; cases hx)

theorem compiled_rpaths (C : Comp E) {g : Expr E} {gs : List (Expr E)} (h : ∀ x ∈ g :: gs, Frag C 0 x) (p : RPath)
    (hp : p ∈ rpaths (compiled C (g :: gs))) : ∃ x ∈ g :: gs, p ∈ refsE x := by
  obtain ⟨x, hx, hr⟩ := rpaths_items hp
  have hx' := (compiled_adds C h).perm.mem_iff.1 hx
  rw [emptyExec_items, List.append_nil] at hx'
  exact refsEs_list _ p (eItemsAll_reads C _ 0 0 (frags_of_list g gs h) x hx' p hr)

/-- C25 for expressions each of whose comparisons involves one field (of the document or of the enclosing loop's variable), on
any documents: if two documents agree on everything the expressions reference, the verdicts are the same. -/
theorem C25_unreferenced_partial (X : Fns E) (C : Comp E) (slot0 : Nat) {es : List (Expr E)} {g : Expr E} {gs : List (Expr E)}
    (hg : genExprs es = g :: gs) (hfrag : ∀ x ∈ g :: gs, Frag C 0 x) (hsafe : ∀ x ∈ g :: gs, SafeE x)
    {data data' : List Nat} {r r' : D} (hr : Begins data r) (hr' : Begins data' r') (hs : Agree (fun p => ∃ x ∈ g :: gs, p ∈ refsE x) r r') :
    ∃ df, transform C slot0 es = .ok df ∧ ∀ m m', Used X df m → Used X df m' →
      ∃ b m1 m2, run X df (resetMatcher m) data = .ok (some b, m1) ∧ run X df (resetMatcher m') data' = .ok (some b, m2) := by
  obtain ⟨df, h1, hw, _, _⟩ := transform_frag C slot0 es hg hfrag
  refine ⟨df, h1, fun m m' hm hm' => ?_⟩
  have hsf := compiled_safe C df.numSlots hfrag hsafe
  obtain ⟨b, m1, h1, e1⟩ := run_total X hw hsf hr (ready_reset X hm)
  obtain ⟨b', m2, h2, e2⟩ := run_total X hw hsf hr' (ready_reset X hm')
  have hn := compiled_noSlots C hfrag
  have := verdict_agree X _ hn (full_reads hn (compiled_adds C hfrag).full) (hs.mono (compiled_rpaths C hfrag)) e1 e2
  subst this
  exact ⟨b, m1, m2, h1, h2⟩

/-- `{"c":1,"a":[{"c":1,"b":1}]}` agrees with `{"a":[{"b":1}]}` on what the expressions of `demoLoops` reference. -/
def docLoopC : D := .obj [] (.cons .string [34, 99, 34] [] [] (.lit .integer [49]) [] [] (.cons .string [34, 97, 34] [] []
  (.arr [] (.cons (.obj [] (.cons .string [34, 99, 34] [] [] (.lit .integer [49]) [] [] (.cons .string [34, 98, 34] [] []
    (.lit .integer [49]) [] [] .nil))) [] [] .nil)) [] [] .nil))
def textLoopC : List Nat := [123, 34, 99, 34, 58, 49, 44, 34, 97, 34, 58, 91, 123, 34, 99, 34, 58, 49, 44, 34, 98, 34, 58, 49, 125, 93, 125]

theorem text_c : Token.TokText .string [34, 99, 34] := .string (b := [99]) (.plain (by decide) (by decide) (by decide) .nil)

theorem docLoopC_text : Begins textLoopC docLoopC :=
  ⟨by simp [docLoopC, D.WF, Ms.WF, Es.WF, Token.IsWs, text_a, text_b, text_c, text_1, Tok.isLiteral], [], [], by simp [Token.IsWs],
    trivial, rfl⟩

example : ∃ df, transform demoComp 0 demoLoops = .ok df ∧ ∀ m m', Used demoFns df m → Used demoFns df m' →
    ∃ b m1 m2, run demoFns df (resetMatcher m) textLoop = .ok (some b, m1) ∧ run demoFns df (resetMatcher m') textLoopC = .ok (some b, m2) := by
  refine C25_unreferenced_partial demoFns demoComp 0 (es := demoLoops) rfl (fun x hx => (demoLoops_frag x hx).1)
    (fun x hx => (demoLoops_frag x hx).2.1) docLoop_text docLoopC_text ?_
  have hk : memberKey .string [34, 99, 34] = [99] := by decide
  have hk' : memberKey .string [34, 97, 34] = [97] := by decide
  have hb : memberKey .string [34, 98, 34] = [98] := by decide
  have hL : ∀ p, (∃ x ∈ demoLoops, p ∈ refsE x) → p = [.key [97], .len] ∨ p = [.key [97], .each, .key [98]] ∨ p = [.key [98], .len] ∨
      p = [.key [98], .each, .len] ∨ p = [.key [98], .each, .each] := by
    rintro p ⟨x, hx, hp⟩
    simp only [demoLoops, List.mem_cons, List.not_mem_nil, or_false] at hx
    rcases hx with rfl | rfl <;> simp [refsE, rkeys, inPath, condPath, fieldPath, fieldA, fieldB, one] at hp
    · exact hp.elim Or.inl (fun h => Or.inr (Or.inl h))
    · exact Or.inr (Or.inr hp)
  refine Agree.mono hL (.obj (by simp) (.right ?_ (.both rfl (.arr ?_ (.cons (.obj ?_ (.right ?_ (.both rfl (.lit (by simp)) .nil))) .nil)) .nil)))
  · intro p; rw [hk]; simp
  · rw [hk']; simp
  · rw [hk']; simp
  · intro p; rw [hk, hk']; simp

end Verif.Transform
