import Verif.Transform.Rooted

/-!
# Compiling comparisons of several fields

`tOne_multi` shows what the transformer adds for comparisons of several fields, for loops that refer to the document, and for the
conditions of `Frag`.
-/

namespace Verif.Transform
open Verif.FastVal Verif.Match Verif.Expr
open Verif.Token (D Es Ms Tok)
open Verif.BinTree (Sh BinOp)

variable {E : Ext}

/-! ### Specification: the expressions -/

/-- Whether the body of a loop mentions the document. -/
def rooted (s : Expr E) : Bool := !(rPaths s).isEmpty

/-- The path of the `AfterNode` of a loop that refers to the document. -/
def loopBase (i s : Expr E) : Path := baseOf (inPath i :: rPaths s)

mutual
  /-- Boolean combinations of conditions and loops as in `Frag`, of comparisons of several fields none of which contains
  all the others, and of loops whose bodies mention the document, where no field contains all the others and the array. -/
  def Frag2 (C : Comp E) : Expr E → Prop
    | .cmp c l r => if several l r then MParam C l ∧ MParam C r ∧ Loose (paths l ++ paths r) else Frag C 0 (.cmp c l r)
    | .exist e => Frag C 0 (.exist e)
    | .notExist e => Frag C 0 (.notExist e)
    | .not e => Frag2 C e
    | .and es => Frag2s C es
    | .or es => Frag2s C es
    | .loop m w i s =>
      if rooted s then i = .field ⟨0, inPath i⟩ ∧ w ≠ 0 ∧ s.Plain ∧ RFrag C w s ∧ Loose (inPath i :: rPaths s)
      else Frag C 0 (.loop m w i s)
    | .tru => True
    | .fals => True
    | _ => False
  def Frag2s (C : Comp E) : Exprs E → Prop
    | .nil => False
    | .cons e .nil => Frag2 C e
    | .cons e (.cons e' r) => Frag2 C e ∧ Frag2s C (.cons e' r)
end

/-! ### What compilation adds -/

mutual
  def mItems (C : Comp E) (ρ : Path → Nat) : Expr E → Nat → List (Path × Item E)
    | .cmp c l r, b => if several l r then [(base l r, .aop (slotOp C ρ c l r b))] else eItems C (.cmp c l r) b
    | .not e, b => mItems C ρ e (b + 1)
    | .and es, b => mItemsAll C ρ es b
    | .or es, b => mItemsAll C ρ es b
    | .loop m w i s, b =>
      if rooted s then [(loopBase i s, .aloop (b + 1) m (some (.slot (ρ (inPath i)))) (rbody C ρ s (b + 1)))]
      else eItems C (.loop m w i s) b
    | e, b => eItems C e b
  def mItemsAll (C : Comp E) (ρ : Path → Nat) : Exprs E → Nat → List (Path × Item E)
    | .nil, _ => []
    | .cons e .nil, b => mItems C ρ e b
    | .cons e (.cons e' r), b => mItems C ρ e (b + 1) ++ mItemsAll C ρ (.cons e' r) (b + 1 + (shape e).size)
end

mutual
  /-- The fields of the comparisons of several fields, and of the loops that refer to the document. -/
  def stored : Expr E → List Path
    | .cmp _ l r => if several l r then paths l ++ paths r else []
    | .not e => stored e
    | .and es => storedAll es
    | .or es => storedAll es
    | .loop _ _ i s => if rooted s then inPath i :: rPaths s else []
    | _ => []
  def storedAll : Exprs E → List Path
    | .nil => []
    | .cons e r => stored e ++ storedAll r
end

/-! ### The transformer -/

mutual
  theorem mItems_within (C : Comp E) (ρ : Path → Nat) : ∀ (e : Expr E) (b : Nat), Frag2 C e → Within b (shape e).size (mItems C ρ e b)
    | .cmp c l r, b, h => by
      rw [Frag2] at h; rw [mItems]
      by_cases hm : several l r = true
      · rw [if_pos hm]
        intro x hx
        rw [List.mem_singleton] at hx
        subst hx
        cases c <;> simp [Item.bucket, shape, Sh.size, slotOp]
      · rw [if_neg hm] at h ⊢; exact eItems_within C _ 0 b h
    | .not e, b, h => by
      rw [mItems, shape, Sh.size]
      exact (mItems_within C ρ e (b + 1) (by rwa [Frag2] at h)).mono (by omega) (by omega)
    | .and es, b, h => by rw [mItems, shape]; exact mItemsAll_within C ρ es .and b (by rwa [Frag2] at h)
    | .or es, b, h => by rw [mItems, shape]; exact mItemsAll_within C ρ es .or b (by rwa [Frag2] at h)
    | .exist e, b, h => by simp only [mItems]; exact eItems_within C _ 0 b (by rwa [Frag2] at h)
    | .notExist e, b, h => by simp only [mItems]; exact eItems_within C _ 0 b (by rwa [Frag2] at h)
    | .loop m w i s, b, h => by
      rw [Frag2] at h; rw [mItems]
      by_cases hm : rooted s = true
      · rw [if_pos hm]
        intro x hx
        rw [List.mem_singleton] at hx
        subst hx
        have := BinTree.Sh.size_pos (shape s)
        simp only [Item.bucket, shape, Sh.size]
        omega
      · rw [if_neg hm] at h ⊢; exact eItems_within C _ 0 b h
    | .tru, b, h | .fals, b, h => by simp only [mItems]; exact eItems_within C _ 0 b rfl
    | .value _, b, h | .regex _, b, h | .pcre _, b, h | .time _, b, h | .field _, b, h | .func .., b, h => by simp [Frag2] at h
  theorem mItemsAll_within (C : Comp E) (ρ : Path → Nat) : ∀ (es : Exprs E) (o : BinOp) (b : Nat), Frag2s C es →
      Within b (shapes o es).size (mItemsAll C ρ es b)
    | .nil, o, b, h => by simp [Frag2s] at h
    | .cons e .nil, o, b, h => by
      rw [Frag2s] at h; rw [mItemsAll, shapes]; exact mItems_within C ρ e b h
    | .cons e (.cons e' r), o, b, h => by
      rw [Frag2s] at h; rw [mItemsAll, shapes, Sh.size]
      intro x hx
      rcases List.mem_append.1 hx with hx | hx
      · exact (mItems_within C ρ e (b + 1) h.1).mono (by omega) (by omega) x hx
      · exact (mItemsAll_within C ρ (.cons e' r) o _ h.2).mono (by omega) (by omega) x hx
end

/-- A condition or loop of `Frag`. -/
theorem single_does2 {C : Comp E} {e : Expr E} {t : T E} {par : Nat} (h : Frag C 0 e) (hs : Start t par) (hc : t.ctx = [])
    (hg : Good t.slotIdx t.root) (hb : ∀ x ∈ items t.root, x.2.bucket < t.active) : Does2 t [] (fun _ => eItems C e t.active) (tOne C e t) := by
  obtain ⟨t', h1, h2, h3⟩ := tOne_ins C e 0 t [] par h hs (Or.inl ⟨rfl, hc, rfl⟩)
  refine ⟨t', h1, ?_, fun p hp => by cases hp⟩
  rw [h2, h3]
  exact (Grow.of_adds hg (ins_adds C e 0 t.active t.root h hg.tidy hg.full hb))

mutual
  /-- The transformer adds the items of the expression and stores its fields. -/
  theorem tOne_multi (C : Comp E) : ∀ (e : Expr E) (t : T E) (par : Nat), Frag2 C e → Start t par → t.ctx = [] → Good t.slotIdx t.root →
      (∀ x ∈ items t.root, x.2.bucket < t.active) → Does2 t (stored e) (fun ρ => mItems C ρ e t.active) (tOne C e t)
    | .cmp c l r, t, par, h, hs, hc, hg, hb => by
      rw [Frag2] at h
      by_cases hm : several l r = true
      · rw [if_pos hm] at h
        rw [tOne]
        by_cases hne : c = .ne
        · subst hne
          rw [if_pos rfl]
          refine tNot_does2 hs hc (fun t1 _ ha hc1 hr1 hs1 => ?_)
          obtain ⟨t', k1, k2, k3⟩ := tCompare_multi (t := t1) hc1 (by rw [hr1, hs1]; exact hg) .eq .equals h.1 h.2.1 (splits_base hm h.2.2)
          refine ⟨t', k1, k2.mono (fun p hp => by rw [stored, if_pos hm]; exact hp) (fun ρ => ?_), by rw [stored, if_pos hm]; exact k3⟩
          rw [mItems, if_pos hm, slotOp, if_pos rfl, ha]; rfl
        · rw [if_neg hne]
          obtain ⟨t', k1, k2, k3⟩ := tCompare_multi (t := t) hc hg c (opOf c) h.1 h.2.1 (splits_base hm h.2.2)
          refine ⟨t', k1, k2.mono (fun p hp => by rw [stored, if_pos hm]; exact hp) (fun ρ => ?_), by rw [stored, if_pos hm]; exact k3⟩
          rw [mItems, if_pos hm, slotOp, if_neg hne]
      · rw [if_neg hm] at h
        have := single_does2 h hs hc hg hb
        simpa only [stored, mItems, if_neg hm] using this
    | .exist e, t, par, h, hs, hc, hg, hb => by
      simpa only [stored, mItems] using single_does2 (by rwa [Frag2] at h) hs hc hg hb
    | .notExist e, t, par, h, hs, hc, hg, hb => by
      simpa only [stored, mItems] using single_does2 (by rwa [Frag2] at h) hs hc hg hb
    | .loop m w i s, t, par, h, hs, hc, hg, hb => by
      rw [Frag2] at h
      by_cases hm : rooted s = true
      · rw [if_pos hm] at h
        obtain ⟨h1, h2, h3, h4, h5⟩ := h
        simp only [stored, mItems, if_pos hm]
        exact tLoop_rooted hc hs hg hb h1 h2 h3 h4 (splits_of_loose (by simp) h5)
      · rw [if_neg hm] at h
        have := single_does2 h hs hc hg hb
        simpa only [stored, mItems, if_neg hm] using this
    | .tru, t, par, h, hs, hc, hg, hb => by
      simpa only [stored, mItems] using single_does2 (e := .tru) (C := C) rfl hs hc hg hb
    | .fals, t, par, h, hs, hc, hg, hb => by
      simpa only [stored, mItems] using single_does2 (e := .fals) (C := C) rfl hs hc hg hb
    | .not e, t, par, h, hs, hc, hg, hb => by
      rw [Frag2] at h
      rw [tOne]
      simp only [stored, mItems]
      refine tNot_does2 hs hc (fun t1 h1 ha hc1 hr1 hs1 => ?_)
      have := tOne_multi C e t1 t.active h h1 hc1 (by rw [hr1, hs1]; exact hg) (by
        intro x hx; rw [hr1] at hx; have := hb x hx; omega)
      rwa [ha] at this
    | .and es, t, par, h, hs, hc, hg, hb => by
      rw [Frag2] at h
      rw [tOne]; simp only [stored, mItems]; exact tAnd_multi C es t par h hs hc hg hb
    | .or es, t, par, h, hs, hc, hg, hb => by
      rw [Frag2] at h
      rw [tOne]; simp only [stored, mItems]; exact tOr_multi C es t par h hs hc hg hb
    | .value _, t, par, h, _, _, _, _ | .regex _, t, par, h, _, _, _, _ | .pcre _, t, par, h, _, _, _, _
    | .time _, t, par, h, _, _, _, _ | .field _, t, par, h, _, _, _, _ | .func .., t, par, h, _, _, _, _ => by simp [Frag2] at h

  theorem tAnd_multi (C : Comp E) : ∀ (es : Exprs E) (t : T E) (par : Nat), Frag2s C es → Start t par → t.ctx = [] → Good t.slotIdx t.root →
      (∀ x ∈ items t.root, x.2.bucket < t.active) → Does2 t (storedAll es) (fun ρ => mItemsAll C ρ es t.active) (tAnd C es t)
    | .nil, t, par, h, _, _, _, _ => by simp [Frag2s] at h
    | .cons e .nil, t, par, h, hs, hc, hg, hb => by
      rw [Frag2s] at h
      rw [tAnd]; simp only [storedAll, List.append_nil, mItemsAll]
      exact tOne_multi C e t par h hs hc hg hb
    | .cons e (.cons e' r), t, par, h, hs, hc, hg, hb => by
      rw [Frag2s] at h
      rw [tAnd.eq_def, storedAll]; simp only [mItemsAll]
      refine tBin_does2 (o := .and) (a := shape e) hs hc (fun t1 h1 ha hc1 hr1 hs1 => ?_)
        (fun t1 t2 h1 h2 => tOne_grown C e t1 t2 _ h1 h2) (fun t1 n k h1 ha hc1 hr1 hs1 hp hag hgn => ?_)
        (fun k n hgn => agrees_exists hgn.tidy)
      · have := tOne_multi C e t1 t.active h.1 h1 hc1 (by rw [hr1, hs1]; exact hg) (by
          intro x hx; rw [hr1] at hx; have := hb x hx; omega)
        rwa [ha] at this
      · have := tAnd_multi C (.cons e' r) t1 t.active h.2 h1 hc1 (by rw [hr1, hs1]; exact hgn) (by
          intro x hx; rw [hr1] at hx
          obtain ⟨ρ, hρ⟩ := hag
          rw [ha]
          exact mem_perm_bound (hp ρ hρ) hb (mItems_within C ρ e (t.active + 1) h.1) (by omega) x hx)
        rwa [ha] at this

  theorem tOr_multi (C : Comp E) : ∀ (es : Exprs E) (t : T E) (par : Nat), Frag2s C es → Start t par → t.ctx = [] → Good t.slotIdx t.root →
      (∀ x ∈ items t.root, x.2.bucket < t.active) → Does2 t (storedAll es) (fun ρ => mItemsAll C ρ es t.active) (tOr C es t)
    | .nil, t, par, h, _, _, _, _ => by simp [Frag2s] at h
    | .cons e .nil, t, par, h, hs, hc, hg, hb => by
      rw [Frag2s] at h
      rw [tOr]; simp only [storedAll, List.append_nil, mItemsAll]
      exact tOne_multi C e t par h hs hc hg hb
    | .cons e (.cons e' r), t, par, h, hs, hc, hg, hb => by
      rw [Frag2s] at h
      rw [tOr.eq_def, storedAll]; simp only [mItemsAll]
      refine tBin_does2 (o := .or) (a := shape e) hs hc (fun t1 h1 ha hc1 hr1 hs1 => ?_)
        (fun t1 t2 h1 h2 => tOne_grown C e t1 t2 _ h1 h2) (fun t1 n k h1 ha hc1 hr1 hs1 hp hag hgn => ?_)
        (fun k n hgn => agrees_exists hgn.tidy)
      · have := tOne_multi C e t1 t.active h.1 h1 hc1 (by rw [hr1, hs1]; exact hg) (by
          intro x hx; rw [hr1] at hx; have := hb x hx; omega)
        rwa [ha] at this
      · have := tOr_multi C (.cons e' r) t1 t.active h.2 h1 hc1 (by rw [hr1, hs1]; exact hgn) (by
          intro x hx; rw [hr1] at hx
          obtain ⟨ρ, hρ⟩ := hag
          rw [ha]
          exact mem_perm_bound (hp ρ hρ) hb (mItems_within C ρ e (t.active + 1) h.1) (by omega) x hx)
        rwa [ha] at this
end

theorem frag2s_of_list {C : Comp E} : ∀ (e : Expr E) (es : List (Expr E)), (∀ x ∈ e :: es, Frag2 C x) → Frag2s C (.ofList (e :: es))
  | e, [], h => h e (by simp)
  | e, e' :: es, h => ⟨h e (by simp), frag2s_of_list e' es (fun x hx => h x (List.mem_cons_of_mem _ hx))⟩

theorem tMerge_multi (C : Comp E) : ∀ (e : Expr E) (es : List (Expr E)) (t : T E) (par : Nat), (∀ x ∈ e :: es, Frag2 C x) → Start t par →
    t.ctx = [] → Good t.slotIdx t.root → (∀ x ∈ items t.root, x.2.bucket < t.active) →
    ∃ r, tMerge C (e :: es) t = .ok r ∧ Grow (fun x => x ∈ storedAll (.ofList (e :: es))) (fun ρ => mItemsAll C ρ (.ofList (e :: es)) t.active)
      t.slotIdx r.1.slotIdx t.root r.1.root ∧ ∀ p ∈ storedAll (.ofList (e :: es)), ∃ s, (p, Note.slot s) ∈ notes r.1.root
  | e, [], t, par, h, hs, hc, hg, hb => by
    obtain ⟨t', h1, h2, h3⟩ := tOne_multi C e t par (h e (by simp)) hs hc hg hb
    refine ⟨(t', [t.active]), by rw [tMerge, h1]; rfl, ?_, ?_⟩
    · simpa only [Exprs.ofList, storedAll, List.append_nil, mItemsAll] using h2
    · simpa only [Exprs.ofList, storedAll, List.append_nil] using h3
  | e, e' :: es, t, par, h, hs, hc, hg, hb => by
    obtain ⟨t1, e1, ha, hs1, hctx, hr, hsl, hn, hbf⟩ := first_child (ty := .neor) hs
    obtain ⟨t2, h1, h2, h3⟩ := tOne_multi C e t1 t.active (h e (by simp)) hs1 (by rw [hctx, hc]) (by rw [hr, hsl]; exact hg) (by
      intro x hx; rw [hr] at hx; have := hb x hx; omega)
    have hG := tOne_grown C e t1 t2 _ hs1 h1
    obtain ⟨t3, e3, ha3, hs3, hc3, hr3, hsl3, _⟩ := second_child (o := .neor) ha hn hbf hG
    obtain ⟨r, k1, k2, k3⟩ := tMerge_multi C e' es t3 t.active (fun x hx => h x (List.mem_cons_of_mem _ hx)) hs3
      (by rw [hc3, hG.ctx, hctx, hc]) (by rw [hr3, hsl3]; exact h2.good) (by
        intro x hx; rw [hr3] at hx
        obtain ⟨ρ, hρ⟩ := agrees_exists h2.good.tidy
        rw [ha3]
        have hp := h2.perm ρ hρ
        rw [hr, ha] at hp
        exact mem_perm_bound hp hb (mItems_within C ρ e (t.active + 1) (h e (by simp))) (by omega) x hx)
    obtain ⟨x, hx, e1⟩ := Res.bind_eq_ok.1 e1
    refine ⟨(r.1, (newBucket x).active :: r.2), ?_, ?_, ?_⟩
    · rw [tMerge, hx]
      simp only [Res.bind_ok]
      rw [e1, Res.bind_ok, h1, Res.bind_ok, e3, Res.bind_ok, k1]
      rfl
    · rw [hr3, hsl3] at k2
      rw [hr, hsl] at h2
      refine (h2.trans k2).mono (fun p hp => ?_) (fun ρ => ?_)
      · simp only [Exprs.ofList] at hp ⊢
        rw [storedAll]
        exact List.mem_append.2 hp
      · simp only [Exprs.ofList, mItemsAll, ha, ha3]
    · intro p hp
      simp only [Exprs.ofList] at hp
      rw [storedAll] at hp
      rcases List.mem_append.1 hp with hp | hp
      · obtain ⟨s, hm⟩ := h3 p hp
        exact ⟨s, k2.keep _ (by rw [hr3]; exact hm)⟩
      · exact k3 p (by simpa only [Exprs.ofList] using hp)

end Verif.Transform
