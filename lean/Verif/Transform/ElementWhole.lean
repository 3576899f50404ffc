import Verif.Transform.ElementSem
import Verif.Transform.Unref
import Verif.Transform.MultiWhole

/-!
# C34: comparisons of several fields of an element, from the expressions to the verdict

Expressions whose loops over arrays of the document have bodies that compare several fields of the element.  On documents whose
elements have the fields that are compared, `Match` returns the verdict of the specification, which looks at one element at a time.
-/

namespace Verif.Transform
open Verif.FastVal Verif.Match Verif.Expr
open Verif.Token (D Es Ms Tok)
open Verif.BinTree (Sh K UnOp BinOp mergeSh mergeParts Shaped)

variable {E : Ext}

/-! ### Specification -/

mutual
  /-- Conditions on a field of the document, loops over its arrays with bodies in `Body`, and boolean combinations. -/
  def EFrag (C : Comp E) : Expr E → Prop
    | .not e => EFrag C e
    | .and es => EFrags C es
    | .or es => EFrags C es
    | .loop _ w i s => i = .field ⟨0, inPath i⟩ ∧ Body C w s
    | .tru => True
    | .fals => True
    | e => Frag C 0 e
  def EFrags (C : Comp E) : Exprs E → Prop
    | .nil => False
    | .cons e .nil => EFrag C e
    | .cons e (.cons e' r) => EFrag C e ∧ EFrags C (.cons e' r)
end

mutual
  /-- Verdict on a document. -/
  def etop (X : Fns E) (C : Comp E) : Expr E → D → Bool
    | .not e, d => !etop X C e d
    | .and es, d => etopAll X C es d
    | .or es, d => etopAny X C es d
    | .loop m _ i s, d =>
      ((firstArr (walk (inPath i) d)).map (Mode.holds m (fun y => decide (lsem X C (rebase s) y = some true)))).getD (blank s)
    | e, d => top X C e d
  def etopAll (X : Fns E) (C : Comp E) : Exprs E → D → Bool
    | .nil, _ => true
    | .cons e r, d => etop X C e d && etopAll X C r d
  def etopAny (X : Fns E) (C : Comp E) : Exprs E → D → Bool
    | .nil, _ => false
    | .cons e r, d => etop X C e d || etopAny X C r d
end

mutual
  /-- The elements are regular for the bodies and have all the fields that are compared. -/
  def EInner : Expr E → D → Prop
    | .not e, d => EInner e d
    | .and es, d => EInnerAll es d
    | .or es, d => EInnerAll es d
    | .loop _ _ i s, d => ∀ x ∈ walk (inPath i) d, ∀ y ∈ elements x, Whole s y
    | _, _ => True
  def EInnerAll : Exprs E → D → Prop
    | .nil, _ => True
    | .cons e r, d => EInner e d ∧ EInnerAll r d
end

/-- A document on which the matcher sees all the values it needs. -/
structure Regular5 (gs : List (Expr E)) (d : D) : Prop where
  document : ∀ ty w, d ≠ .lit ty w
  outer : RegularAt (condsOf gs) d
  inner : ∀ x ∈ gs, EInner x d

/-! ### The items -/

mutual
  /-- What an expression adds to a node; `N` bounds the slots. -/
  def Has (C : Comp E) (N : Nat) : Expr E → Nat → List (Path × Item E) → Prop
    | .not e, b, L => Has C N e (b + 1) L
    | .and es, b, L => HasAll C N es b L
    | .or es, b, L => HasAll C N es b L
    | .loop m _ i s, b, L => ∃ n, L = [(inPath i, .loop (b + 1) m none n)] ∧ Made C s (b + 1) N n
    | e, b, L => L = eItems C e b
  def HasAll (C : Comp E) (N : Nat) : Exprs E → Nat → List (Path × Item E) → Prop
    | .nil, _, L => L = []
    | .cons e .nil, b, L => Has C N e b L
    | .cons e (.cons e' r), b, L => ∃ L1 L2, L = L1 ++ L2 ∧ Has C N e (b + 1) L1 ∧ HasAll C N (.cons e' r) (b + 1 + (shape e).size) L2
end

mutual
  theorem Has.mono {C : Comp E} {N N' : Nat} (hN : N ≤ N') : ∀ {e : Expr E} {b : Nat} {L : List (Path × Item E)}, Has C N e b L → Has C N' e b L
    | .not e, b, L, h => by rw [Has] at h ⊢; exact Has.mono hN h
    | .and es, b, L, h => by rw [Has] at h ⊢; exact HasAll.mono hN h
    | .or es, b, L, h => by rw [Has] at h ⊢; exact HasAll.mono hN h
    | .loop m w i s, b, L, h => by
      rw [Has] at h ⊢
      obtain ⟨n, h1, h2⟩ := h
      exact ⟨n, h1, h2.mono hN⟩
    | .cmp .., b, L, h | .exist _, b, L, h | .notExist _, b, L, h | .tru, b, L, h | .fals, b, L, h | .value _, b, L, h | .regex _, b, L, h
    | .pcre _, b, L, h | .time _, b, L, h | .field _, b, L, h | .func .., b, L, h => by simp only [Has] at h ⊢; exact h
  theorem HasAll.mono {C : Comp E} {N N' : Nat} (hN : N ≤ N') : ∀ {es : Exprs E} {b : Nat} {L : List (Path × Item E)}, HasAll C N es b L →
      HasAll C N' es b L
    | .nil, b, L, h => by rw [HasAll] at h ⊢; exact h
    | .cons e .nil, b, L, h => by rw [HasAll] at h ⊢; exact Has.mono hN h
    | .cons e (.cons e' r), b, L, h => by
      rw [HasAll] at h ⊢
      obtain ⟨L1, L2, h1, h2, h3⟩ := h
      exact ⟨L1, L2, h1, Has.mono hN h2, HasAll.mono hN h3⟩
end

/-- Items of a node that satisfies `Outer`. -/
def OItem (s : Sh) (b : Nat) : Item E → Prop
  | .op o => IsAtom s b o.bucket ∧ o.NoSlot
  | .loop i _ t e => t = none ∧ ∃ a, LoopAt s b i a ∧ e.Fits a i
  | _ => False

theorem OItem.mono {s s' : Sh} {b b' : Nat} (h1 : ∀ i, IsAtom s b i → IsAtom s' b' i) (h2 : ∀ i a, LoopAt s b i a → LoopAt s' b' i a)
    {it : Item E} (h : OItem s b it) : OItem s' b' it := by
  cases it with
  | op o => exact ⟨h1 _ h.1, h.2⟩
  | loop i m t e => obtain ⟨h0, a, h, h'⟩ := h; exact ⟨h0, a, h2 _ _ h, h'⟩
  | _ => exact h.elim

theorem OItem.direct {s : Sh} {b : Nat} {it : Item E} (h : OItem s b it) : Direct it := by
  cases it with
  | op o => trivial
  | loop i m t e => trivial
  | _ => exact h.elim

theorem outerL_of_items {s : Sh} {b : Nat} : ∀ ls : Loops E, (∀ x ∈ loopItems Item.loop ls, OItem s b x.2) → OuterL ls s b
  | .nil, _ => trivial
  | .cons i m t e r, h => by
    have h1 : OItem s b (.loop i m t e) := h ([], .loop i m t e) (by rw [loopItems]; exact List.mem_cons_self)
    exact ⟨h1.1, h1.2, outerL_of_items r (fun x hx => h x (by rw [loopItems]; exact List.mem_cons_of_mem _ hx))⟩

mutual
  theorem outer_of_items {s : Sh} {b : Nat} : ∀ n : Exec E, (∀ x ∈ items n, OItem s b x.2) → notes n = [] → Outer n s b
    | .mk st es ops ls a, h, hn => by
      rw [items] at h
      rw [notes] at hn
      obtain ⟨n1, hn⟩ := List.append_eq_nil_iff.1 hn
      obtain ⟨n2, n3⟩ := List.append_eq_nil_iff.1 hn
      refine ⟨?_, ?_, outerE_of_items es (fun x hx => h x (List.mem_append_right _ (List.mem_append_left _ hx))) n3,
        fun o ho => h ([], .op o) (List.mem_append_left _ (List.mem_map.2 ⟨o, ho, rfl⟩)),
        outerL_of_items ls (fun x hx => h x (List.mem_append_right _ (List.mem_append_right _ (List.mem_append_left _ hx))))⟩
      · by_cases hst : st = 0
        · exact hst
        · rw [slotNote, if_neg hst] at n1; cases n1
      · cases a with
        | none => rfl
        | some ops' ls' => cases n2
  theorem outerE_of_items {s : Sh} {b : Nat} : ∀ es : Elems E, (∀ x ∈ itemsE es, OItem s b x.2) → notesE es = [] → OuterE es s b
    | .nil, _, _ => trivial
    | .cons k e r, h, hn => by
      rw [itemsE] at h
      rw [notesE] at hn
      obtain ⟨n1, n2⟩ := List.append_eq_nil_iff.1 hn
      exact ⟨outer_of_items e (fun x hx => h (k :: x.1, x.2) (List.mem_append_left _ (List.mem_map.2 ⟨x, hx, rfl⟩)))
          (List.map_eq_nil_iff.1 n1),
        outerE_of_items r (fun x hx => h x (List.mem_append_right _ hx)) n2⟩
end

section
variable (X : Fns E) (C : Comp E) (sh : Nat → Sh) (r : D) (N : Nat)

/-- What is used of the items. -/
structure Facts (s : Sh) (b : Nat) (cs : List (Path × Bool)) (safe inner : Prop) (L : List (Path × Item E)) : Prop where
  within : Within b s.size L
  kinds : L.map kind = cs
  items : ∀ x ∈ L, OItem s b x.2
  safe : safe → ∀ x ∈ L, x.2.Safe N
  fine : inner → ShOK sh s b → ∀ q b' m t e, (q, Item.loop b' m t e) ∈ L → ∀ x ∈ walk q r, ∀ y ∈ elements x, Steady X sh r N b' e y

variable {X C sh r N}

theorem Facts.un {o : UnOp} {s : Sh} {b : Nat} {cs : List (Path × Bool)} {safe inner : Prop} {L : List (Path × Item E)}
    (h : Facts X sh r N s (b + 1) cs safe inner L) (ho : o = .not) : Facts X sh r N (.un o s) b cs safe inner L := by
  subst ho
  exact ⟨h.within.mono (by omega) (by simp only [Sh.size]; omega), h.kinds,
    fun x hx => (h.items x hx).mono (s' := .un .not s) (b' := b) (fun _ h => h) (fun _ _ h => h), h.safe,
    fun hi hsh => h.fine hi (fun s' i hs => hsh s' i (Or.inr hs))⟩

theorem Facts.bin {o : BinOp} {s s' : Sh} {b : Nat} {cs cs' : List (Path × Bool)} {safe safe' inner inner' : Prop} {L L' : List (Path × Item E)}
    (h : Facts X sh r N s (b + 1) cs safe inner L) (h' : Facts X sh r N s' (b + 1 + s.size) cs' safe' inner' L') :
    Facts X sh r N (.bin o s s') b (cs ++ cs') (safe ∧ safe') (inner ∧ inner') (L ++ L') := by
  refine ⟨?_, ?_, ?_, ?_, ?_⟩
  · intro x hx
    rcases List.mem_append.1 hx with hx | hx
    · exact h.within.mono (by omega) (by simp only [Sh.size]; omega) x hx
    · exact h'.within.mono (by omega) (by simp only [Sh.size]; omega) x hx
  · rw [List.map_append, h.kinds, h'.kinds]
  · intro x hx
    rcases List.mem_append.1 hx with hx | hx
    · exact (h.items x hx).mono (s' := .bin o s s') (b' := b) (fun _ h => Or.inl h) (fun _ _ h => Or.inl h)
    · exact (h'.items x hx).mono (s' := .bin o s s') (b' := b) (fun _ h => Or.inr h) (fun _ _ h => Or.inr h)
  · intro hs x hx
    rcases List.mem_append.1 hx with hx | hx
    · exact h.safe hs.1 x hx
    · exact h'.safe hs.2 x hx
  · intro hi hsh q b' m t e hx
    rcases List.mem_append.1 hx with hx | hx
    · exact h.fine hi.1 (fun s' i hs => hsh s' i (Or.inr (Or.inl hs))) q b' m t e hx
    · exact h'.fine hi.2 (fun s' i hs => hsh s' i (Or.inr (Or.inr hs))) q b' m t e hx

/-- A single condition. -/
theorem facts_single {e : Expr E} {b : Nat} {inner : Prop} (h : Frag C 0 e) (hk : match e with
      | .cmp .. | .exist _ | .notExist _ | .tru | .fals => True
      | _ => False) : Facts X sh r N (shape e) b (conds e) (SafeE e) inner (eItems C e b) := by
  obtain ⟨k1, k2⟩ := kind_eItems (C := C) e 0 b h
  have hnl : ∀ q b' m t n, (q, Item.loop b' m t n) ∉ eItems C e b := by
    intro q b' m t n
    cases e with
    | loop m w i s => exact hk.elim
    | not e => exact hk.elim
    | and es => exact hk.elim
    | or es => exact hk.elim
    | _ => simp [eItems]
  refine ⟨eItems_within C e 0 b h, k1, fun x hx => ?_, fun hs x hx => .of_ok (eItems_safe C N e 0 b h hs x hx),
    fun _ _ q b' m t n hx => absurd hx (hnl q b' m t n)⟩
  have a1 := eItems_at C e 0 b h x hx
  have a2 := eItems_noSlot C e 0 b h x hx
  obtain ⟨q, it⟩ := x
  cases it with
  | op o => exact ⟨a1, a2⟩
  | loop b' m t n => exact absurd hx (hnl q b' m t n)
  | _ => exact a1.elim

mutual
  theorem has_facts (hd : ∀ ty w, r ≠ .lit ty w) : ∀ (e : Expr E) (b : Nat) (L : List (Path × Item E)), EFrag C e → Has C N e b L →
      Facts X sh r N (shape e) b (conds e) (SafeE e) (EInner e r) L
    | .cmp c l r', b, L, h, hh => by simp only [EFrag] at h; simp only [Has] at hh; subst hh; exact facts_single h trivial
    | .exist e, b, L, h, hh => by simp only [EFrag] at h; simp only [Has] at hh; subst hh; exact facts_single h trivial
    | .notExist e, b, L, h, hh => by simp only [EFrag] at h; simp only [Has] at hh; subst hh; exact facts_single h trivial
    | .tru, b, L, h, hh => by simp only [Has] at hh; subst hh; exact facts_single (C := C) (e := .tru) rfl trivial
    | .fals, b, L, h, hh => by simp only [Has] at hh; subst hh; exact facts_single (C := C) (e := .fals) rfl trivial
    | .not e, b, L, h, hh => by
      rw [EFrag] at h; rw [Has] at hh; rw [shape, conds, SafeE, EInner]
      exact (has_facts hd e (b + 1) L h hh).un rfl
    | .and es, b, L, h, hh => by
      rw [EFrag] at h; rw [Has] at hh; rw [shape, conds, SafeE, EInner]
      exact hasAll_facts hd .and es b L h hh
    | .or es, b, L, h, hh => by
      rw [EFrag] at h; rw [Has] at hh; rw [shape, conds, SafeE, EInner]
      exact hasAll_facts hd .or es b L h hh
    | .loop m w i s, b, L, h, hh => by
      rw [EFrag] at h; rw [Has] at hh; rw [shape, conds, SafeE, EInner]
      obtain ⟨n, rfl, hm⟩ := hh
      have hsp := (shape s).size_pos
      refine ⟨?_, rfl, ?_, ?_, ?_⟩
      · intro x hx
        rw [List.mem_singleton] at hx; subst hx
        simp only [Item.bucket, Sh.size]; omega
      · intro x hx
        rw [List.mem_singleton] at hx; subst hx
        exact ⟨rfl, shape s, ⟨rfl, rfl⟩, hm.fits h.2⟩
      · intro hs x hx
        rw [List.mem_singleton] at hx; subst hx
        exact ⟨rfl, hm.safe h.2 hs⟩
      · intro hi hsh q b' m' t e hx x hxw y hy
        simp only [List.mem_singleton, Prod.mk.injEq, Item.loop.injEq] at hx
        obtain ⟨rfl, rfl, rfl, rfl, rfl⟩ := hx
        have hsub : ShOK sh (shape s) (b + 1) := fun s' i hs => hsh s' i (Or.inr hs)
        have hshb : sh (b + 1) = shape s := hsub _ _ (by cases shape s <;> simp [Sh.SubAt])
        refine ⟨lsem X C (rebase s) y, fun hh σ a _ ha => ?_⟩
        rw [hshb]
        exact hm.value h.2 hsub hd (hi x hxw y hy) ha
    | .value _, b, L, h, _ | .regex _, b, L, h, _ | .pcre _, b, L, h, _ | .time _, b, L, h, _ | .field _, b, L, h, _
    | .func .., b, L, h, _ => by simp [EFrag, Frag] at h
  theorem hasAll_facts (hd : ∀ ty w, r ≠ .lit ty w) (o : BinOp) : ∀ (es : Exprs E) (b : Nat) (L : List (Path × Item E)), EFrags C es →
      HasAll C N es b L → Facts X sh r N (shapes o es) b (condsAll es) (SafeEs es) (EInnerAll es r) L
    | .nil, b, L, h, _ => by simp [EFrags] at h
    | .cons e .nil, b, L, h, hh => by
      rw [EFrags] at h; rw [HasAll] at hh; rw [shapes, condsAll, condsAll, List.append_nil]
      have := has_facts hd e b L h hh
      exact ⟨this.within, this.kinds, this.items, fun hs => this.safe hs.1, fun hi => this.fine hi.1⟩
    | .cons e (.cons e' r'), b, L, h, hh => by
      rw [EFrags] at h; rw [HasAll] at hh; rw [shapes, condsAll]
      obtain ⟨L1, L2, rfl, h1, h2⟩ := hh
      exact (has_facts hd e (b + 1) L1 h.1 h1).bin (hasAll_facts hd o (.cons e' r') _ L2 h.2 h2)
end

/-! ### The verdict -/

mutual
  theorem blank2_eval {C : Comp E} : ∀ (e : Expr E) (b : Nat) (p : Nat → Option Bool), Frag2 C e →
      (∀ i, b ≤ i → i < b + (shape e).size → p i = none) → (shape e).evalM b p = blank e
    | .cmp c l r, b, p, h, hp => by
      cases c <;> simp_all [shape, Sh.evalM, Sh.size, blank, UnOp.eval]
    | .exist e, b, p, h, hp => by simp_all [shape, Sh.evalM, Sh.size, blank]
    | .notExist e, b, p, h, hp => by simp_all [shape, Sh.evalM, Sh.size, blank, UnOp.eval]
    | .not e, b, p, h, hp => by
      rw [shape, Sh.size] at hp; rw [Frag2] at h
      rw [shape, Sh.evalM, hp b (by omega) (by omega), blank,
        blank2_eval e (b + 1) p h (fun i h1 h2 => hp i (by omega) (by omega))]
      rfl
    | .and es, b, p, h, hp => by rw [Frag2] at h; rw [shape] at hp ⊢; rw [blank]; exact blank2All_eval es b p h hp
    | .or es, b, p, h, hp => by rw [Frag2] at h; rw [shape] at hp ⊢; rw [blank]; exact blank2Any_eval es b p h hp
    | .loop m w i s, b, p, h, hp => by
      rw [Frag2] at h
      by_cases hr : rooted s = true
      · rw [if_pos hr] at h
        rw [shape, Sh.size] at hp
        rw [shape, Sh.evalM, hp b (by omega) (by omega), blank,
          blank_rooted s w (b + 1) p h.2.2.2.1 (fun i h1 h2 => hp i (by omega) (by omega))]
        rfl
      · rw [if_neg hr] at h
        exact blank_eval _ 0 b p h hp
    | .tru, b, p, h, hp | .fals, b, p, h, hp => by simp_all [shape, Sh.evalM, Sh.size, blank]
    | .value _, b, n, h, _ | .regex _, b, n, h, _ | .pcre _, b, n, h, _ | .time _, b, n, h, _ | .field _, b, n, h, _ | .func .., b, n, h, _ => by
      simp [Frag2] at h
  theorem blank2All_eval {C : Comp E} : ∀ (es : Exprs E) (b : Nat) (p : Nat → Option Bool), Frag2s C es →
      (∀ i, b ≤ i → i < b + (shapes .and es).size → p i = none) → (shapes .and es).evalM b p = blankAll es
    | .nil, b, p, h, hp => by simp [Frag2s] at h
    | .cons e .nil, b, p, h, hp => by
      rw [Frag2s] at h
      rw [shapes] at hp ⊢
      rw [blankAll, blankAll, Bool.and_true]
      exact blank2_eval e b p h hp
    | .cons e (.cons e' r), b, p, h, hp => by
      rw [Frag2s] at h
      rw [shapes, Sh.size] at hp
      rw [shapes, Sh.evalM, hp b (by omega) (by omega), blankAll,
        blank2_eval e (b + 1) p h.1 (fun i h1 h2 => hp i (by omega) (by omega)),
        blank2All_eval (.cons e' r) (b + 1 + (shape e).size) p h.2 (fun i h1 h2 => hp i (by omega) (by omega))]
      rfl
  theorem blank2Any_eval {C : Comp E} : ∀ (es : Exprs E) (b : Nat) (p : Nat → Option Bool), Frag2s C es →
      (∀ i, b ≤ i → i < b + (shapes .or es).size → p i = none) → (shapes .or es).evalM b p = blankAny es
    | .nil, b, p, h, hp => by simp [Frag2s] at h
    | .cons e .nil, b, p, h, hp => by
      rw [Frag2s] at h
      rw [shapes] at hp ⊢
      rw [blankAny, blankAny, Bool.or_false]
      exact blank2_eval e b p h hp
    | .cons e (.cons e' r), b, p, h, hp => by
      rw [Frag2s] at h
      rw [shapes, Sh.size] at hp
      rw [shapes, Sh.evalM, hp b (by omega) (by omega), blankAny,
        blank2_eval e (b + 1) p h.1 (fun i h1 h2 => hp i (by omega) (by omega)),
        blank2Any_eval (.cons e' r) (b + 1 + (shape e).size) p h.2 (fun i h1 h2 => hp i (by omega) (by omega))]
      rfl
end

theorem Body.blank {w : Int} {s : Expr E} (h : Body C w s) (b : Nat) (p : Nat → Option Bool)
    (hp : ∀ i, b ≤ i → i < b + (shape s).size → p i = none) : (shape s).evalM b p = Transform.blank s := by
  have := blank2_eval (rebase s) b p h.frag (by rw [shape_rebase]; exact hp)
  rwa [shape_rebase, blank_rebase] at this

/-- A loop of the document. -/
theorem eloop_correct {m : Mode} {w : Int} {i s : Expr E} {b : Nat} {n body : Exec E} {l : Marks} (hb : Body C w s) (hm : Made C s (b + 1) N body)
    (hsh : ShOK sh (shape (.loop m w i s)) b) (hd : ∀ ty w, r ≠ .lit ty w)
    (hi : ∀ x ∈ walk (inPath i) r, ∀ y ∈ elements x, Whole s y)
    (hh : Hosts n [(inPath i, .loop (b + 1) m none body)] b (shape (.loop m w i s)).size) (hr : Ran X sh r n r l) :
    (shape (.loop m w i s)).evalM b l.get =
      ((firstArr (walk (inPath i) r)).map (Mode.holds m (fun y => decide (lsem X C (rebase s) y = some true)))).getD (blank s) := by
  have hsub : ShOK sh (shape s) (b + 1) := fun s' i hs => hsh s' i (Or.inr hs)
  have hshb : sh (b + 1) = shape s := hsub _ _ (by cases shape s <;> simp [Sh.SubAt])
  have hsp := (shape s).size_pos
  have h0 : withBucket b (items n) = [] := by
    have := hh b (by omega) (by simp only [shape, Sh.size]; omega)
    simpa [withBucket, Item.bucket] using this
  have h1 := hh (b + 1) (by omega) (by simp only [shape, Sh.size]; omega)
  rw [withBucket_single (by simp [Item.bucket])] at h1
  have hl := hr.one (List.perm_singleton.1 h1) trivial (f := fun x => match x with
      | .arr _ es => some (Mode.holds m (fun x => decide (lsem X C (rebase s) x = some true)) (esList es))
      | _ => none) (by
    intro x hx hh' σ l' hl'
    rw [itemMarks] at hl'
    cases x with
    | lit ty t => cases hl'; rfl
    | obj ws ms => cases hl'; rfl
    | arr ws es =>
      rw [dLoop] at hl'
      obtain ⟨v', hv', hl'⟩ := Res.bind_eq_ok.1 hl'
      cases hl'
      have := dItems_init (p := fun x => decide (lsem X C (rebase s) x = some true)) hv' (by
        intro y hy a ha
        rw [hshb, hm.value hb hsub hd (hi _ hx y hy) ha])
      simp [this])
  replace hl : l.get (b + 1) = (firstArr (walk (inPath i) r)).map (Mode.holds m (fun x => decide (lsem X C (rebase s) x = some true))) :=
    hl.trans (firstArr_find (Mode.holds m (fun x => decide (lsem X C (rebase s) x = some true))) _)
  simp only [shape, Sh.evalM, hr.none h0]
  cases hfa : firstArr (walk (inPath i) r) with
  | some xs =>
    rw [hfa] at hl
    have he : (shape s).evalM (b + 1) l.get = Mode.holds m (fun x => decide (lsem X C (rebase s) x = some true)) xs := by
      cases shape s <;> simp [Sh.evalM, hl]
    rw [he]
    rfl
  | none =>
    have hout : ∀ j, b ≤ j → j < b + (1 + (shape s).size) → l.get j = none := by
      intro j hj1 hj2
      by_cases hj : j = b + 1
      · subst hj; rw [hl, hfa]; rfl
      · apply hr.none
        have := hh j hj1 (by simp only [shape, Sh.size]; omega)
        rw [withBucket_out (L := [_]) (b := b + 1) (n := 1) (by
          intro x hx; rw [List.mem_singleton] at hx; subst hx; simp only [Item.bucket]; omega) (by omega)] at this
        exact List.perm_nil.1 this
    rw [hb.blank (b + 1) l.get (fun j h1 h2 => hout j (by omega) (by omega))]
    rfl

mutual
  theorem etop_correct (hd : ∀ ty w, r ≠ .lit ty w) : ∀ (e : Expr E) (b : Nat) (n : Exec E) (l : Marks) (L : List (Path × Item E)), EFrag C e →
      Has C N e b L → ShOK sh (shape e) b → EInner e r → Hosts n L b (shape e).size → Ran X sh r n r l → (shape e).evalM b l.get = etop X C e r
    | .cmp c l' r', b, n, l, L, h, hL, hsh, hi, hh, hr => by
      simp only [EFrag] at h; simp only [Has] at hL; subst hL; simp only [etop]
      exact (sem_correct _ 0 b n r l h hsh trivial hh hr).2
    | .exist e, b, n, l, L, h, hL, hsh, hi, hh, hr => by
      simp only [EFrag] at h; simp only [Has] at hL; subst hL; simp only [etop]
      exact (sem_correct _ 0 b n r l h hsh trivial hh hr).2
    | .notExist e, b, n, l, L, h, hL, hsh, hi, hh, hr => by
      simp only [EFrag] at h; simp only [Has] at hL; subst hL; simp only [etop]
      exact (sem_correct _ 0 b n r l h hsh trivial hh hr).2
    | .tru, b, n, l, L, h, hL, hsh, hi, hh, hr => by
      simp only [Has] at hL; subst hL; simp only [etop]
      exact (sem_correct (C := C) .tru 0 b n r l rfl hsh trivial hh hr).2
    | .fals, b, n, l, L, h, hL, hsh, hi, hh, hr => by
      simp only [Has] at hL; subst hL; simp only [etop]
      exact (sem_correct (C := C) .fals 0 b n r l rfl hsh trivial hh hr).2
    | .loop m w i s, b, n, l, L, h, hL, hsh, hi, hh, hr => by
      rw [EFrag] at h; rw [Has] at hL; rw [EInner] at hi; rw [etop]
      obtain ⟨body, rfl, hm⟩ := hL
      exact eloop_correct h.2 hm hsh hd hi hh hr
    | .not e, b, n, l, L, h, hL, hsh, hi, hh, hr => by
      rw [EFrag] at h; rw [Has] at hL
      have hF : Facts X sh r N (shape e) (b + 1) (conds e) (SafeE e) (EInner e r) L := has_facts hd e (b + 1) L h hL
      have h0 : withBucket b (items n) = [] := by
        have := hh b (by omega) (by simp only [shape, Sh.size]; omega)
        rw [withBucket_out hF.within (by omega)] at this
        exact List.perm_nil.1 this
      have k2 := etop_correct hd e (b + 1) n l L h hL (fun s' i hs => hsh s' i (Or.inr hs)) (by rwa [EInner] at hi)
        (hh.mono (by omega) (by simp only [shape, Sh.size]; omega)) hr
      simp only [shape, Sh.evalM, hr.none h0, k2, etop]
      rfl
    | .and es, b, n, l, L, h, hL, hsh, hi, hh, hr => by
      rw [shape] at hsh hh ⊢; rw [etop]; rw [EInner] at hi; rw [Has] at hL; rw [EFrag] at h
      exact etopAll_correct hd es b n l L h hL hsh hi hh hr
    | .or es, b, n, l, L, h, hL, hsh, hi, hh, hr => by
      rw [shape] at hsh hh ⊢; rw [etop]; rw [EInner] at hi; rw [Has] at hL; rw [EFrag] at h
      exact etopAny_correct hd es b n l L h hL hsh hi hh hr
    | .value _, b, n, l, L, h, _, _, _, _, _ | .regex _, b, n, l, L, h, _, _, _, _, _ | .pcre _, b, n, l, L, h, _, _, _, _, _
    | .time _, b, n, l, L, h, _, _, _, _, _ | .field _, b, n, l, L, h, _, _, _, _, _ | .func .., b, n, l, L, h, _, _, _, _, _ => by
      simp [EFrag, Frag] at h

  theorem etopAll_correct (hd : ∀ ty w, r ≠ .lit ty w) : ∀ (es : Exprs E) (b : Nat) (n : Exec E) (l : Marks) (L : List (Path × Item E)), EFrags C es →
      HasAll C N es b L → ShOK sh (shapes .and es) b → EInnerAll es r → Hosts n L b (shapes .and es).size → Ran X sh r n r l →
      (shapes .and es).evalM b l.get = etopAll X C es r
    | .nil, b, n, l, L, h, _, _, _, _, _ => by simp [EFrags] at h
    | .cons e .nil, b, n, l, L, h, hL, hsh, hi, hh, hr => by
      rw [EFrags] at h; rw [shapes] at hsh hh ⊢; rw [HasAll] at hL; rw [EInnerAll] at hi
      rw [etopAll, etopAll, Bool.and_true]
      exact etop_correct hd e b n l L h hL hsh hi.1 hh hr
    | .cons e (.cons e' r'), b, n, l, L, h, hL, hsh, hi, hh, hr => by
      rw [EFrags] at h; rw [shapes] at hsh hh ⊢; rw [Sh.size] at hh; rw [HasAll] at hL; rw [EInnerAll] at hi
      obtain ⟨L1, L2, rfl, hL1, hL2⟩ := hL
      have w1 := (has_facts (X := X) (sh := sh) hd e (b + 1) L1 h.1 hL1).within
      have w2 := (hasAll_facts (X := X) (sh := sh) hd .and (.cons e' r') _ L2 h.2 hL2).within
      have h0 : withBucket b (items n) = [] := by
        have := hh b (by omega) (by omega)
        rw [withBucket_append, withBucket_out w1 (by omega), withBucket_out w2 (by omega)] at this
        exact List.perm_nil.1 this
      have a2 := etop_correct hd e (b + 1) n l L1 h.1 hL1 (fun s' i hs => hsh s' i (Or.inr (Or.inl hs))) hi.1
        (hh.left w2 (by omega) (by omega) (by omega)) hr
      have b2 := etopAll_correct hd (.cons e' r') (b + 1 + (shape e).size) n l L2 h.2 hL2 (fun s' i hs => hsh s' i (Or.inr (Or.inr hs))) hi.2
        (hh.right w1 (by omega) (by omega) (by omega)) hr
      rw [etopAll]
      simp only [Sh.evalM, hr.none h0, a2, b2]
      rfl

  theorem etopAny_correct (hd : ∀ ty w, r ≠ .lit ty w) : ∀ (es : Exprs E) (b : Nat) (n : Exec E) (l : Marks) (L : List (Path × Item E)), EFrags C es →
      HasAll C N es b L → ShOK sh (shapes .or es) b → EInnerAll es r → Hosts n L b (shapes .or es).size → Ran X sh r n r l →
      (shapes .or es).evalM b l.get = etopAny X C es r
    | .nil, b, n, l, L, h, _, _, _, _, _ => by simp [EFrags] at h
    | .cons e .nil, b, n, l, L, h, hL, hsh, hi, hh, hr => by
      rw [EFrags] at h; rw [shapes] at hsh hh ⊢; rw [HasAll] at hL; rw [EInnerAll] at hi
      rw [etopAny, etopAny, Bool.or_false]
      exact etop_correct hd e b n l L h hL hsh hi.1 hh hr
    | .cons e (.cons e' r'), b, n, l, L, h, hL, hsh, hi, hh, hr => by
      rw [EFrags] at h; rw [shapes] at hsh hh ⊢; rw [Sh.size] at hh; rw [HasAll] at hL; rw [EInnerAll] at hi
      obtain ⟨L1, L2, rfl, hL1, hL2⟩ := hL
      have w1 := (has_facts (X := X) (sh := sh) hd e (b + 1) L1 h.1 hL1).within
      have w2 := (hasAll_facts (X := X) (sh := sh) hd .or (.cons e' r') _ L2 h.2 hL2).within
      have h0 : withBucket b (items n) = [] := by
        have := hh b (by omega) (by omega)
        rw [withBucket_append, withBucket_out w1 (by omega), withBucket_out w2 (by omega)] at this
        exact List.perm_nil.1 this
      have a2 := etop_correct hd e (b + 1) n l L1 h.1 hL1 (fun s' i hs => hsh s' i (Or.inr (Or.inl hs))) hi.1
        (hh.left w2 (by omega) (by omega) (by omega)) hr
      have b2 := etopAny_correct hd (.cons e' r') (b + 1 + (shape e).size) n l L2 h.2 hL2 (fun s' i hs => hsh s' i (Or.inr (Or.inr hs))) hi.2
        (hh.right w1 (by omega) (by omega) (by omega)) hr
      rw [etopAny]
      simp only [Sh.evalM, hr.none h0, a2, b2]
      rfl
end

theorem efrags_of_list : ∀ (e : Expr E) (es : List (Expr E)), (∀ x ∈ e :: es, EFrag C x) → EFrags C (.ofList (e :: es))
  | e, [], h => h e (by simp)
  | e, e' :: es, h => ⟨h e (by simp), efrags_of_list e' es (fun x hx => h x (List.mem_cons_of_mem _ hx))⟩

theorem emerge_correct (hd : ∀ ty w, r ≠ .lit ty w) : ∀ (e : Expr E) (es : List (Expr E)) (b : Nat) (n : Exec E) (l : Marks) (L : List (Path × Item E)),
    (∀ x ∈ e :: es, EFrag C x) → HasAll C N (.ofList (e :: es)) b L → ShOK sh (shapes .neor (.ofList (e :: es))) b → (∀ x ∈ e :: es, EInner x r) →
    Hosts n L b (shapes .neor (.ofList (e :: es))).size → Ran X sh r n r l →
    (shapes .neor (.ofList (e :: es))).evalM b l.get = (e :: es).any (fun x => etop X C x r)
  | e, [], b, n, l, L, h, hL, hsh, hi, hh, hr => by
    simp only [Exprs.ofList, shapes, HasAll] at hsh hh hL ⊢
    rw [etop_correct hd e b n l L (h e (by simp)) hL hsh (hi e (by simp)) hh hr]
    simp
  | e, e' :: es, b, n, l, L, h, hL, hsh, hi, hh, hr => by
    have hfr := efrags_of_list e' es (fun x hx => h x (List.mem_cons_of_mem _ hx))
    simp only [Exprs.ofList] at hfr
    simp only [Exprs.ofList, shapes, HasAll, Sh.size] at hsh hh hL ⊢
    obtain ⟨L1, L2, rfl, hL1, hL2⟩ := hL
    have w1 := (has_facts (X := X) (sh := sh) hd e (b + 1) L1 (h e (by simp)) hL1).within
    have w2 := (hasAll_facts (X := X) (sh := sh) hd .neor (.cons e' (.ofList es)) _ L2 hfr hL2).within
    have h0 : withBucket b (items n) = [] := by
      have := hh b (by omega) (by omega)
      rw [withBucket_append, withBucket_out w1 (by omega), withBucket_out w2 (by omega)] at this
      exact List.perm_nil.1 this
    have a2 := etop_correct hd e (b + 1) n l L1 (h e (by simp)) hL1 (fun s' i hs => hsh s' i (Or.inr (Or.inl hs))) (hi e (by simp))
      (hh.left w2 (by omega) (by omega) (by omega)) hr
    have b2 := emerge_correct hd e' es (b + 1 + (shape e).size) n l L2 (fun x hx => h x (List.mem_cons_of_mem _ hx)) hL2
      (fun s' i hs => hsh s' i (Or.inr (Or.inr hs))) (fun x hx => hi x (List.mem_cons_of_mem _ hx))
      (hh.right w1 (by omega) (by simp only [Exprs.ofList]; omega) (by omega)) hr
    simp only [Exprs.ofList] at b2
    simp only [Sh.evalM, hr.none h0, a2, b2]
    rfl

end

/-! ### Compilation -/

/-- The slots of loops: above `M`, at most `N`, and different for different loops. -/
structure Apart (M N : Nat) (L : List (Path × Item E)) : Prop where
  range : ∀ q i m t e, (q, Item.loop i m t e) ∈ L → ∀ p s, (p, Note.slot s) ∈ notes e → M < s ∧ s ≤ N
  apart : ∀ q i m t e q' i' m' t' e', (q, Item.loop i m t e) ∈ L → (q', Item.loop i' m' t' e') ∈ L → i ≠ i' →
    ∀ p p' s, (p, Note.slot s) ∈ notes e → (p', Note.slot s) ∉ notes e'

theorem Apart.single {M N : Nat} {q : Path} {i : Nat} {m : Mode} {t : Option (Ref E)} {e : Exec E}
    (h : ∀ p s, (p, Note.slot s) ∈ notes e → M < s ∧ s ≤ N) : Apart M N [(q, Item.loop i m t e)] := by
  refine ⟨fun q i m t e hm => ?_, fun q i m t e q' i' m' t' e' h1 h2 hne => ?_⟩
  · cases List.mem_singleton.1 hm; exact h
  · cases List.mem_singleton.1 h1
    cases List.mem_singleton.1 h2
    exact absurd rfl hne

theorem Apart.of_none {M N : Nat} {L : List (Path × Item E)} (h : ∀ q i m t e, (q, Item.loop i m t e) ∈ L → ∀ p s, (p, Note.slot s) ∉ notes e) :
    Apart M N L :=
  ⟨fun q i m t e hm p s hs => absurd hs (h q i m t e hm p s), fun q i m t e _ _ _ _ _ h1 _ _ p _ s hs => absurd hs (h q i m t e h1 p s)⟩

theorem Apart.append {M K N : Nat} {L L' : List (Path × Item E)} (h : Apart M K L) (h' : Apart K N L') (h1 : M ≤ K) (h2 : K ≤ N) :
    Apart M N (L ++ L') := by
  refine ⟨fun q i m t e hm p s hs => ?_, fun q i m t e q' i' m' t' e' hm hm' hne p p' s hs hs' => ?_⟩
  · rcases List.mem_append.1 hm with hm | hm
    · have := h.range q i m t e hm p s hs; omega
    · have := h'.range q i m t e hm p s hs; omega
  · rcases List.mem_append.1 hm with hm | hm <;> rcases List.mem_append.1 hm' with hm' | hm'
    · exact h.apart q i m t e q' i' m' t' e' hm hm' hne p p' s hs hs'
    · have := h.range q i m t e hm p s hs
      have := h'.range q' i' m' t' e' hm' p' s hs'
      omega
    · have := h'.range q i m t e hm p s hs
      have := h.range q' i' m' t' e' hm' p' s hs'
      omega
    · exact h'.apart q i m t e q' i' m' t' e' hm hm' hne p p' s hs hs'

/-- The outcome of transforming an expression. -/
def Does5 (P : Nat → Nat → List (Path × Item E) → Prop) (t : T E) (r : Res (T E)) : Prop :=
  ∃ t' L, r = .ok t' ∧ P t'.slotIdx t.active L ∧ Adds1 L t.root t'.root ∧ t.slotIdx ≤ t'.slotIdx ∧ Apart t.slotIdx t'.slotIdx L

theorem Does5.imp {P Q : Nat → Nat → List (Path × Item E) → Prop} {t : T E} {r : Res (T E)} (h : Does5 P t r)
    (hi : ∀ N b L, P N b L → Q N b L) : Does5 Q t r := by
  obtain ⟨t', L, h1, h2, h3⟩ := h
  exact ⟨t', L, h1, hi _ _ _ h2, h3⟩

/-- A node being built. -/
structure Ready5 (t : T E) : Prop where
  ctx : t.ctx = []
  tidy : t.root.Tidy
  full : t.root.Full
  bound : ∀ x ∈ items t.root, x.2.bucket < t.active

theorem Ready5.child {t t1 : T E} (h : Ready5 t) (ha : t.active ≤ t1.active) (hc : t1.ctx = t.ctx) (hr : t1.root = t.root) : Ready5 t1 :=
  ⟨by rw [hc, h.ctx], by rw [hr]; exact h.tidy, by rw [hr]; exact h.full, fun x hx => Nat.lt_of_lt_of_le (h.bound x (by rwa [hr] at hx)) ha⟩

theorem tNot_does5 {g : T E → Res (T E)} {t : T E} {par : Nat} {P : Nat → Nat → List (Path × Item E) → Prop} (hs : Start t par) (hr : Ready5 t)
    (hg : ∀ t1 : T E, Start t1 t.active → t1.active = t.active + 1 → Ready5 t1 → Does5 P t1 (g t1)) :
    Does5 (fun N b L => P N (b + 1) L) t (tNot g t) := by
  obtain ⟨t1, e1, ha, hs1, hctx, hr1, hsl, _, _⟩ := first_child (ty := .not) hs
  obtain ⟨t2, L, h1, h2, h3, h4, h5⟩ := hg t1 hs1 ha (hr.child (by omega) hctx hr1)
  refine ⟨t2, L, ?_, by rw [ha] at h2; exact h2, by rw [hr1] at h3; exact h3, by omega, by rw [← hsl]; exact h5⟩
  rw [tNot]
  obtain ⟨x, hx, e1⟩ := Res.bind_eq_ok.1 e1
  rw [hx, Res.bind_ok]
  simp only
  rw [e1, Res.bind_ok, h1]

theorem tBin_does5 {o : BinOp} {g g' : T E → Res (T E)} {t : T E} {par : Nat} {P P' : Nat → Nat → List (Path × Item E) → Prop} {a : Sh}
    (hs : Start t par) (hr : Ready5 t)
    (hg : ∀ t1 : T E, Start t1 t.active → t1.active = t.active + 1 → Ready5 t1 → Does5 P t1 (g t1))
    (hgr : ∀ t1 t2 : T E, Start t1 t.active → g t1 = .ok t2 → Grown t1 t2 a t.active)
    (hw : ∀ N b L, P N b L → Within b a.size L) (hmono : ∀ N N' b L, N ≤ N' → P N b L → P N' b L)
    (hg' : ∀ t1 : T E, Start t1 t.active → t1.active = t.active + 1 + a.size → Ready5 t1 → Does5 P' t1 (g' t1)) :
    Does5 (fun N b L => ∃ L1 L2, L = L1 ++ L2 ∧ P N (b + 1) L1 ∧ P' N (b + 1 + a.size) L2) t (tBin o.ty g g' t) := by
  obtain ⟨t1, e1, ha, hs1, hctx, hr1, hsl, hn, hb⟩ := first_child (ty := o.ty) hs
  obtain ⟨t2, L, h1, h2, h3, h4, h5⟩ := hg t1 hs1 ha (hr.child (by omega) hctx hr1)
  have hG := hgr t1 t2 hs1 h1
  obtain ⟨t3, e3, ha3, hs3, hc3, hr3, hsl3, _⟩ := second_child (o := o) ha hn hb hG
  rw [hr1] at h3
  have hr' : Ready5 t3 := by
    refine ⟨by rw [hc3, hG.ctx, hctx, hr.ctx], by rw [hr3]; exact h3.tidy, by rw [hr3]; exact h3.full, fun x hx => ?_⟩
    rw [hr3] at hx
    rw [ha3]
    have hw2 := hw _ _ _ h2
    rw [ha] at hw2
    exact mem_perm_bound h3.perm hr.bound hw2 (by omega) x hx
  obtain ⟨t4, L', k1, k2, k3, k4, k5⟩ := hg' t3 hs3 ha3 hr'
  refine ⟨t4, L ++ L', ?_, ⟨L, L', rfl, ?_, ?_⟩, ?_, by omega, ?_⟩
  · rw [tBin]
    obtain ⟨x, hx, e1⟩ := Res.bind_eq_ok.1 e1
    rw [hx, Res.bind_ok]
    simp only
    rw [e1, Res.bind_ok, h1, Res.bind_ok, e3, Res.bind_ok, k1]
  · rw [ha] at h2; exact hmono _ _ _ _ (by omega) h2
  · rw [ha3] at k2; exact k2
  · rw [hr3] at k3; exact h3.trans k3
  · rw [hsl] at h5; rw [hsl3] at k5; exact h5.append k5 (by omega) (by omega)

theorem adds_made (p : Path) (b : Nat) (m : Mode) {e n : Exec E} (ht : n.Tidy) (hf : n.Full) (het : e.Tidy) (hef : e.Full) :
    Adds1 [(p, .loop b m none e)] n (update (keys p) (addLoop b m none e) n) :=
  ⟨update_key_tidy (fun n h => addLoop_tidy b m none het n h) p n ht,
    (update_key_full (fun n h => addLoop_full b m none hef n h) p n hf).1, by
    have := update_key_items (P := fun _ => True) trivial (fun _ _ _ _ _ _ _ _ _ => trivial)
      (fun n _ => addLoop_items b m none e n) p n trivial ht
    simpa [underPath, keys] using this,
    update_key_notes (new := []) (fun n => by rw [addLoop_notes]; exact .refl _) p n⟩

theorem single_does5 {C : Comp E} {e : Expr E} {t : T E} {par : Nat} (h : Frag C 0 e) (hk : match e with
      | .cmp .. | .exist _ | .notExist _ | .tru | .fals => True
      | _ => False) (hs : Start t par) (hr : Ready5 t) :
    Does5 (fun _ b L => L = eItems C e b) t (tOne C e t) := by
  obtain ⟨t', h1, h2, h3⟩ := tOne_ins C e 0 t [] par h hs (Or.inl ⟨rfl, hr.ctx, rfl⟩)
  refine ⟨t', _, h1, rfl, ?_, by omega, .of_none fun q b' m t n hx => ?_⟩
  · rw [h2]
    exact ins_adds C e 0 t.active t.root h hr.tidy hr.full hr.bound
  · exfalso
    cases e with
    | loop m w i s => exact hk.elim
    | not e => exact hk.elim
    | and es => exact hk.elim
    | or es => exact hk.elim
    | _ => simp [eItems] at hx

mutual
  theorem has_within {C : Comp E} {N : Nat} : ∀ (e : Expr E) (b : Nat) (L : List (Path × Item E)), EFrag C e → Has C N e b L →
      Within b (shape e).size L
    | .cmp c l r, b, L, h, hh => by simp only [EFrag] at h; simp only [Has] at hh; subst hh; exact eItems_within C _ 0 b h
    | .exist e, b, L, h, hh => by simp only [EFrag] at h; simp only [Has] at hh; subst hh; exact eItems_within C _ 0 b h
    | .notExist e, b, L, h, hh => by simp only [EFrag] at h; simp only [Has] at hh; subst hh; exact eItems_within C _ 0 b h
    | .tru, b, L, h, hh => by simp only [Has] at hh; subst hh; exact eItems_within C .tru 0 b rfl
    | .fals, b, L, h, hh => by simp only [Has] at hh; subst hh; exact eItems_within C .fals 0 b rfl
    | .not e, b, L, h, hh => by
      rw [EFrag] at h; rw [Has] at hh; rw [shape]
      exact (has_within e (b + 1) L h hh).mono (by omega) (by simp only [Sh.size]; omega)
    | .and es, b, L, h, hh => by rw [EFrag] at h; rw [Has] at hh; rw [shape]; exact hasAll_within .and es b L h hh
    | .or es, b, L, h, hh => by rw [EFrag] at h; rw [Has] at hh; rw [shape]; exact hasAll_within .or es b L h hh
    | .loop m w i s, b, L, h, hh => by
      rw [Has] at hh; rw [shape]
      obtain ⟨n, rfl, hm⟩ := hh
      have hsp := (shape s).size_pos
      intro x hx
      rw [List.mem_singleton] at hx; subst hx
      simp only [Item.bucket, Sh.size]; omega
    | .value _, b, L, h, _ | .regex _, b, L, h, _ | .pcre _, b, L, h, _ | .time _, b, L, h, _ | .field _, b, L, h, _
    | .func .., b, L, h, _ => by simp [EFrag, Frag] at h
  theorem hasAll_within {C : Comp E} {N : Nat} (o : BinOp) : ∀ (es : Exprs E) (b : Nat) (L : List (Path × Item E)), EFrags C es →
      HasAll C N es b L → Within b (shapes o es).size L
    | .nil, b, L, h, _ => by simp [EFrags] at h
    | .cons e .nil, b, L, h, hh => by rw [EFrags] at h; rw [HasAll] at hh; rw [shapes]; exact has_within e b L h hh
    | .cons e (.cons e' r'), b, L, h, hh => by
      rw [EFrags] at h; rw [HasAll] at hh; rw [shapes]
      obtain ⟨L1, L2, rfl, h1, h2⟩ := hh
      intro x hx
      rcases List.mem_append.1 hx with hx | hx
      · exact (has_within e (b + 1) L1 h.1 h1).mono (by omega) (by simp only [Sh.size]; omega) x hx
      · exact (hasAll_within o (.cons e' r') _ L2 h.2 h2).mono (by omega) (by simp only [Sh.size]; omega) x hx
end

theorem loop_does5 {C : Comp E} {m : Mode} {w : Int} {i s : Expr E} {t : T E} {par : Nat} (hi : i = .field ⟨0, inPath i⟩) (h : Body C w s)
    (hs : Start t par) (hr : Ready5 t) :
    Does5 (fun N b L => Has C N (.loop m w i s) b L) t (tOne C (.loop m w i s) t) := by
  obtain ⟨t', n, h1, h2, h3, h4⟩ := tLoop_elem (m := m) hs hr.ctx hr.bound hi h
  refine ⟨t', [(inPath i, .loop (t.active + 1) m none n)], h1, ?_, ?_, h3.le, .single fun p s hm => ⟨?_, (h3.good.range p s hm).2⟩⟩
  · simp only [Has]; exact ⟨n, rfl, Made.of_grow h3 h4⟩
  · rw [h2]; exact adds_made _ _ _ hr.tidy hr.full h3.good.tidy h3.good.full
  · rcases h3.fresh p s hm with h | h
    · rw [emptyExec_notes] at h; cases h
    · exact h

mutual
  /-- The transformer adds the items of the expression. -/
  theorem tOne_outer (C : Comp E) : ∀ (e : Expr E) (t : T E) (par : Nat), EFrag C e → Start t par → Ready5 t →
      Does5 (fun N b L => Has C N e b L) t (tOne C e t)
    | .cmp c l r, t, par, h, hs, hr => by
      simp only [EFrag] at h; simp only [Has]; exact single_does5 h trivial hs hr
    | .exist e, t, par, h, hs, hr => by
      simp only [EFrag] at h; simp only [Has]; exact single_does5 h trivial hs hr
    | .notExist e, t, par, h, hs, hr => by
      simp only [EFrag] at h; simp only [Has]; exact single_does5 h trivial hs hr
    | .tru, t, par, h, hs, hr => by
      simp only [Has]; exact single_does5 (C := C) (e := .tru) rfl trivial hs hr
    | .fals, t, par, h, hs, hr => by
      simp only [Has]; exact single_does5 (C := C) (e := .fals) rfl trivial hs hr
    | .not e, t, par, h, hs, hr => by
      rw [EFrag] at h
      rw [tOne]; simp only [Has]
      exact tNot_does5 (P := fun N b L => Has C N e b L) hs hr (fun t1 h1 _ hr1 => tOne_outer C e t1 t.active h h1 hr1)
    | .and es, t, par, h, hs, hr => by
      rw [EFrag] at h
      rw [tOne]; simp only [Has]; exact tAnd_outer C es t par h hs hr
    | .or es, t, par, h, hs, hr => by
      rw [EFrag] at h
      rw [tOne]; simp only [Has]; exact tOr_outer C es t par h hs hr
    | .loop m w i s, t, par, h, hs, hr => by
      rw [EFrag] at h
      exact loop_does5 h.1 h.2 hs hr
    | .value _, t, par, h, _, _ | .regex _, t, par, h, _, _ | .pcre _, t, par, h, _, _
    | .time _, t, par, h, _, _ | .field _, t, par, h, _, _ | .func .., t, par, h, _, _ => by simp [EFrag, Frag] at h

  theorem tAnd_outer (C : Comp E) : ∀ (es : Exprs E) (t : T E) (par : Nat), EFrags C es → Start t par → Ready5 t →
      Does5 (fun N b L => HasAll C N es b L) t (tAnd C es t)
    | .nil, t, par, h, _, _ => by simp [EFrags] at h
    | .cons e .nil, t, par, h, hs, hr => by
      rw [EFrags] at h
      rw [tAnd]; simp only [HasAll]
      exact tOne_outer C e t par h hs hr
    | .cons e (.cons e' r), t, par, h, hs, hr => by
      rw [EFrags] at h
      rw [tAnd.eq_def]; simp only [HasAll]
      exact tBin_does5 (o := .and) (a := shape e) (P := fun N b L => EFrag C e ∧ Has C N e b L)
          (P' := fun N b L => HasAll C N (.cons e' r) b L) hs hr
        (fun t1 h1 _ hr1 => by
          obtain ⟨t', L, k1, k2, k3⟩ := tOne_outer C e t1 t.active h.1 h1 hr1
          exact ⟨t', L, k1, ⟨h.1, k2⟩, k3⟩)
        (fun t1 t2 h1 h2 => tOne_grown C e t1 t2 _ h1 h2) (fun N b L k => has_within e b L k.1 k.2)
        (fun N N' b L hN k => ⟨k.1, k.2.mono hN⟩) (fun t1 h1 _ hr1 => tAnd_outer C (.cons e' r) t1 t.active h.2 h1 hr1) |>.imp
        (fun N b L k => by obtain ⟨L1, L2, a, b, c⟩ := k; exact ⟨L1, L2, a, b.2, c⟩)

  theorem tOr_outer (C : Comp E) : ∀ (es : Exprs E) (t : T E) (par : Nat), EFrags C es → Start t par → Ready5 t →
      Does5 (fun N b L => HasAll C N es b L) t (tOr C es t)
    | .nil, t, par, h, _, _ => by simp [EFrags] at h
    | .cons e .nil, t, par, h, hs, hr => by
      rw [EFrags] at h
      rw [tOr]; simp only [HasAll]
      exact tOne_outer C e t par h hs hr
    | .cons e (.cons e' r), t, par, h, hs, hr => by
      rw [EFrags] at h
      rw [tOr.eq_def]; simp only [HasAll]
      exact tBin_does5 (o := .or) (a := shape e) (P := fun N b L => EFrag C e ∧ Has C N e b L)
          (P' := fun N b L => HasAll C N (.cons e' r) b L) hs hr
        (fun t1 h1 _ hr1 => by
          obtain ⟨t', L, k1, k2, k3⟩ := tOne_outer C e t1 t.active h.1 h1 hr1
          exact ⟨t', L, k1, ⟨h.1, k2⟩, k3⟩)
        (fun t1 t2 h1 h2 => tOne_grown C e t1 t2 _ h1 h2) (fun N b L k => has_within e b L k.1 k.2)
        (fun N N' b L hN k => ⟨k.1, k.2.mono hN⟩) (fun t1 h1 _ hr1 => tOr_outer C (.cons e' r) t1 t.active h.2 h1 hr1) |>.imp
        (fun N b L k => by obtain ⟨L1, L2, a, b, c⟩ := k; exact ⟨L1, L2, a, b.2, c⟩)
end

theorem tMerge_outer (C : Comp E) : ∀ (e : Expr E) (es : List (Expr E)) (t : T E) (par : Nat), (∀ x ∈ e :: es, EFrag C x) → Start t par →
    Ready5 t → ∃ r L, tMerge C (e :: es) t = .ok r ∧ HasAll C r.1.slotIdx (.ofList (e :: es)) t.active L ∧ Adds1 L t.root r.1.root ∧
      t.slotIdx ≤ r.1.slotIdx ∧ Apart t.slotIdx r.1.slotIdx L
  | e, [], t, par, h, hs, hr => by
    obtain ⟨t', L, h1, h2, h3, h4⟩ := tOne_outer C e t par (h e (by simp)) hs hr
    refine ⟨(t', [t.active]), L, by rw [tMerge, h1]; rfl, ?_, h3, h4⟩
    simpa only [Exprs.ofList, HasAll] using h2
  | e, e' :: es, t, par, h, hs, hr => by
    obtain ⟨t1, e1, ha, hs1, hctx, hr1, hsl, hn, hbf⟩ := first_child (ty := .neor) hs
    obtain ⟨t2, L, h1, h2, h3, h4, h5⟩ := tOne_outer C e t1 t.active (h e (by simp)) hs1 (hr.child (by omega) hctx hr1)
    have hG := tOne_grown C e t1 t2 _ hs1 h1
    obtain ⟨t3, e3, ha3, hs3, hc3, hr3, hsl3, _⟩ := second_child (o := .neor) ha hn hbf hG
    rw [hr1] at h3
    have hr' : Ready5 t3 := by
      refine ⟨by rw [hc3, hG.ctx, hctx, hr.ctx], by rw [hr3]; exact h3.tidy, by rw [hr3]; exact h3.full, fun x hx => ?_⟩
      rw [hr3] at hx
      rw [ha3]
      have hw2 := has_within e _ L (h e (by simp)) h2
      rw [ha] at hw2
      exact mem_perm_bound h3.perm hr.bound hw2 (by omega) x hx
    obtain ⟨r, L', k1, k2, k3, k4, k5⟩ := tMerge_outer C e' es t3 t.active (fun x hx => h x (List.mem_cons_of_mem _ hx)) hs3 hr'
    obtain ⟨x, hx, e1⟩ := Res.bind_eq_ok.1 e1
    refine ⟨(r.1, (newBucket x).active :: r.2), L ++ L', ?_, ?_, ?_, by simp only; omega, ?_⟩
    · rw [tMerge, hx]
      simp only [Res.bind_ok]
      rw [e1, Res.bind_ok, h1, Res.bind_ok, e3, Res.bind_ok, k1]
      rfl
    · simp only [Exprs.ofList] at k2 ⊢
      rw [HasAll]
      rw [ha] at h2
      rw [ha3] at k2
      exact ⟨L, L', rfl, h2.mono (by omega), k2⟩
    · rw [hr3] at k3; exact h3.trans k3
    · rw [hsl] at h5; rw [hsl3] at k5; exact h5.append k5 (by omega) (by simp only; omega)

theorem eInnerAll_of_list : ∀ {gs : List (Expr E)} {d : D}, (∀ x ∈ gs, EInner x d) → EInnerAll (.ofList gs) d
  | [], _, _ => trivial
  | e :: es, _, h => ⟨h e (by simp), eInnerAll_of_list (fun x hx => h x (List.mem_cons_of_mem _ hx))⟩

/-- The expressions compile, and the matcher of the definition finds out whether one of them holds. -/
theorem run_elem (X : Fns E) {C : Comp E} {slot0 : Nat} {es : List (Expr E)} {g : Expr E} {gs : List (Expr E)} (hg : genExprs es = g :: gs)
    (h : ∀ x ∈ g :: gs, EFrag C x) (hsafe : ∀ x ∈ g :: gs, SafeE x) {data : List Nat} {r : D} (hr : Begins data r)
    (hreg : Regular5 (g :: gs) r) :
    ∃ df, transform C slot0 es = .ok df ∧ ∀ m, Ready df m →
      ∃ m', run X df m data = .ok (some ((g :: gs).any (fun x => etop X C x r)), m') := by
  obtain ⟨t, L, h1, h2, h3, _⟩ := tMerge_outer C g gs (initT slot0) 0 h (initT_start slot0)
    ⟨rfl, emptyExec_tidy, emptyExec_full, by intro x hx; cases hx⟩
  obtain ⟨hG, -⟩ := tMerge_grown C g gs (initT slot0) t 0 (initT_start slot0) h1
  have hfr := efrags_of_list g gs h
  have hF := hasAll_facts (X := X) (sh := subtree (shapes .neor (.ofList (g :: gs))) 0) (r := r) hreg.document .neor (.ofList (g :: gs)) 0 L hfr h2
  have hperm : (items t.1.root).Perm L := by
    have := h3.perm
    simpa [initT, emptyExec, items, itemsE, loopItems, afterItems] using this
  have hnotes : notes t.1.root = [] := by
    have := h3.notes
    have h0 : notes (initT slot0 : T E).root = [] := emptyExec_notes
    rw [h0] at this
    exact List.perm_nil.1 this
  refine ⟨_, by rw [transform_cons C slot0 es hg, h1]; rfl, fun m hm => ?_⟩
  have hw : Loose1 { parse := some t.1.root, tree := t.1.tree, buckets := bucketIds es t.2, numSlots := t.1.slotIdx : Def E }
      (shapes .neor (.ofList (g :: gs))) t.1.root := by
    refine ⟨rfl, ?_, ?_, outer_of_items _ (fun x hx => hF.items x (hperm.mem_iff.1 hx)) hnotes, h3.tidy⟩
    · rw [shapes_merge]; exact hG.shaped
    · rw [shapes_merge]; have := hG.len; simpa [initT] using this
  have hsf : t.1.root.Safe t.1.slotIdx := by
    refine safe_of_items _ (fun x hx => hF.safe (safeEs_of_list _ hsafe) x (hperm.mem_iff.1 hx)) (fun p s hm => ?_)
    rw [hnotes] at hm; cases hm
  have hfine : Fine X (subtree (shapes .neor (.ofList (g :: gs))) 0) r t.1.slotIdx t.1.root r := fun q b m' t' e hx =>
    hF.fine (eInnerAll_of_list hreg.inner) (subtree_ok _ 0) q b m' t' e (hperm.mem_iff.1 hx)
  obtain ⟨l, m', d1, d2⟩ := run_loose X hw hsf hr hfine hm
  refine ⟨m', ?_⟩
  rw [d2]
  unfold decisions at d1
  obtain ⟨a, ha, hl⟩ := Res.bind_eq_ok.1 d1
  have hl : a.1 = l := by cases hl; rfl
  rw [emerge_correct (N := t.1.slotIdx) hreg.document g gs 0 t.1.root l L h h2 (subtree_ok _ 0) hreg.inner (fun i _ _ => hperm.filter _)
    ⟨h3.tidy, h3.full, clear_of_kind hperm hnotes hF.kinds (fun x hx => (hF.items x hx).direct) (by rw [condsAll_of_list]; exact hreg.outer),
      _, _, a, ha, hl⟩]

/-! ### C34 -/

/-- C34 for loops over arrays of the document whose bodies compare fields of the element: on documents whose elements have the
compared fields, the verdict looks at one element at a time (`etop`, `lsem`).  (Missing: elements that lack a compared field, for
which it is false, `C34_negation`; such loops inside other loops.) -/
theorem C34_elements_partial (X : Fns E) (C : Comp E) (slot0 : Nat) {es : List (Expr E)} {g : Expr E} {gs : List (Expr E)}
    (hg : genExprs es = g :: gs) (h : ∀ x ∈ g :: gs, EFrag C x) (hsafe : ∀ x ∈ g :: gs, SafeE x) {data : List Nat} {r : D}
    (hr : Begins data r) (hreg : Regular5 (g :: gs) r) :
    ∃ df, transform C slot0 es = .ok df ∧ ∀ m, Ready df m →
      ∃ m', run X df m data = .ok (some ((g :: gs).any (fun x => etop X C x r)), m') :=
  run_elem X hg h hsafe hr hreg

/-- Two fields of a value are in a relation (specification); `!=` is the negation of `=`. -/
def fieldsHold (E : Ext) (c : Cmp) (p p' : Path) (y : D) : Bool :=
  match walk p y, walk p' y with
  | [u], [v] =>
    match (valOf u : Res (FV E)), (valOf v : Res (FV E)) with
    | .ok a, .ok b => if c = .ne then !cmpHolds .eq a b else cmpHolds c a b
    | _, _ => false
  | _, _ => false

/-- The value has one value at each of the two paths. -/
structure HasBoth (E : Ext) (p p' : Path) (y : D) : Prop where
  left : ∃ u a, walk p y = [u] ∧ ¬ EmptyArr u ∧ (valOf u : Res (FV E)) = .ok a
  right : ∃ v b, walk p' y = [v] ∧ ¬ EmptyArr v ∧ (valOf v : Res (FV E)) = .ok b
  base : (walk (common p p') y).length ≤ 1

theorem regular_two {p p' : Path} (h1 : ¬ p <+: p') (h2 : ¬ p' <+: p) {d : D} (hu : ∀ u ∈ walk p d, ¬ EmptyArr u)
    (hv : ∀ v ∈ walk p' d, ¬ EmptyArr v) : RegularAt [(p, false), (p', false)] d := by
  refine ⟨fun q hq x hx he => ?_, fun q hq x hx he k q' b' hk => ?_, fun q hq => ?_⟩
  · simp only [List.mem_cons, Prod.mk.injEq, and_true, List.not_mem_nil, or_false] at hq
    rcases hq with rfl | rfl
    · exact absurd he (hu x hx)
    · exact absurd he (hv x hx)
  · simp only [List.mem_cons, Prod.mk.injEq, and_true, List.not_mem_nil, or_false] at hq hk
    have hpre : q <+: q ++ k :: q' := ⟨_, rfl⟩
    have hl : q ≠ q ++ k :: q' := fun h => by have := congrArg List.length h; simp at this
    rcases hq with rfl | rfl <;> rcases hk with ⟨hk, _⟩ | ⟨hk, _⟩
    · exact absurd hk.symm hl
    · exact absurd (hk ▸ hpre) h1
    · exact absurd (hk ▸ hpre) h2
    · exact absurd hk.symm hl
  · simp at hq

/-- C34 for one comparison of two fields of the element: if every element has both, the loop's verdict is that of the relation
between the two fields of each element. -/
theorem C34_values_partial (X : Fns E) (C : Comp E) (slot0 : Nat) (m : Mode) (c : Cmp) (w : Int) (hw : w ≠ 0) (a p p' : Path)
    (h1 : ¬ p <+: p') (h2 : ¬ p' <+: p) {data : List Nat} {r : D} (hr : Begins data r) (hd : ∀ ty t, r ≠ .lit ty t) {ws : List Nat} {es : Es}
    (ha : walk a r = [.arr ws es]) (he : ∀ y ∈ esList es, HasBoth E p p' y) :
    ∃ df, transform C slot0 [.loop m w (.field ⟨0, a⟩) (.cmp c (.field ⟨w, p⟩) (.field ⟨w, p'⟩))] = .ok df ∧ ∀ mt, Ready df mt →
      ∃ mt', run X df mt data = .ok (some (Mode.holds m (fieldsHold E c p p') (esList es)), mt') := by
  have hne : p' ≠ p := fun h => h1 (h ▸ List.prefix_rfl)
  have hm : several (.field ⟨0, p⟩ : Expr E) (.field ⟨0, p'⟩) = true := by simp [several, paths, hne]
  have hbase : base (.field ⟨0, p⟩ : Expr E) (.field ⟨0, p'⟩) = common p p' := rfl
  have hloose : Loose (paths (.field ⟨0, p⟩ : Expr E) ++ paths (.field ⟨0, p'⟩ : Expr E)) := loose_two h1 h2
  have hreb : rebase (.cmp c (.field ⟨w, p⟩) (.field ⟨w, p'⟩) : Expr E) = .cmp c (.field ⟨0, p⟩) (.field ⟨0, p'⟩) := by simp [rebase]
  have hsp := splits_base hm hloose
  have hbelow : ∀ q ∈ [p, p'], common p p' <+: q ∧ q.drop (common p p').length ≠ [] := by
    intro q hq
    obtain ⟨k, q', hq'⟩ := hsp.1 q hq
    rw [hbase] at hq'
    subst hq'
    exact ⟨⟨_, rfl⟩, by rw [List.drop_left]; simp⟩
  -- the value at the base
  have hone : ∀ y, HasBoth E p p' y → ∃ x, walk (common p p') y = [x] ∧ ¬ EmptyArr x ∧
      walk (p.drop (common p p').length) x = walk p y ∧ walk (p'.drop (common p p').length) x = walk p' y := by
    intro y hy
    obtain ⟨u, a', hu, _, _⟩ := hy.left
    have hlen := hy.base
    match hw : walk (common p p') y, hlen with
    | [], _ => rw [walk_below (hbelow p (by simp)).1 y, hw] at hu; cases hu
    | [x], _ =>
      refine ⟨x, rfl, fun h0 => ?_, ?_, ?_⟩
      · rw [walk_below (hbelow p (by simp)).1 y, hw, List.flatMap_cons, walk_emptyArr h0 (hbelow p (by simp)).2] at hu
        cases hu
      · rw [walk_below (hbelow p (by simp)).1 y, hw]; simp
      · rw [walk_below (hbelow p' (by simp)).1 y, hw]; simp
    | _ :: _ :: _, h => simp at h
  have hsem : ∀ y, HasBoth E p p' y →
      lsem X C (rebase (.cmp c (.field ⟨w, p⟩) (.field ⟨w, p'⟩))) y = some (fieldsHold E c p p' y) := by
    intro y hy
    obtain ⟨x, x1, x2, x3, x4⟩ := hone y hy
    obtain ⟨u, va, hu, _, hva⟩ := hy.left
    obtain ⟨v, vb, hv, _, hvb⟩ := hy.right
    have : ∀ c' : Cmp, multiHolds X C c' (.field ⟨0, p⟩ : Expr E) (.field ⟨0, p'⟩) (envAt (common p p') x) = cmpHolds c' va vb := by
      intro c'
      simp [multiHolds, isGone, envAt, x3, x4, hu, hv, lastOf, mVal, fieldVal, hva, hvb]
    rw [hreb, lsem, if_pos hm, multiSem, hbase, x1, List.findSome?_cons, afterVal_some x2, this, fieldsHold, hu, hv]
    by_cases hc : c = .ne <;> simp [hc, hva, hvb, kNot]
  obtain ⟨df, t1, t2⟩ := C34_elements_partial X C slot0 (es := [.loop m w (.field ⟨0, a⟩) (.cmp c (.field ⟨w, p⟩) (.field ⟨w, p'⟩))])
    (g := .loop m w (.field ⟨0, a⟩) (.cmp c (.field ⟨w, p⟩) (.field ⟨w, p'⟩))) (gs := []) rfl
    (fun x hx => by
      rw [List.mem_singleton.1 hx, EFrag]
      refine ⟨rfl, hw, by simp [Expr.Plain], ?_, fun f hf => ?_⟩
      · rw [hreb, Frag2, if_pos hm]; exact ⟨rfl, rfl, hloose⟩
      · cases hf with
        | cmpL hf => cases hf; rfl
        | cmpR hf => cases hf; rfl)
    (fun x hx => by rw [List.mem_singleton.1 hx]; simp [SafeE, SafeParam]) hr
    ⟨hd, by
      have : condsOf [.loop m w (.field ⟨0, a⟩ : Expr E) (.cmp c (.field ⟨w, p⟩) (.field ⟨w, p'⟩))] = [(a, true)] := by
        simp [condsOf, conds, inPath]
      rw [this]
      refine ⟨fun q hq => by simp at hq, fun q hq => by simp at hq, fun q hq k q' b hk => ?_⟩
      simp only [List.mem_singleton, Prod.mk.injEq, and_true] at hq
      subst hq
      simp only [List.mem_singleton, Prod.mk.injEq] at hk
      have := congrArg List.length hk.1
      simp at this, by
      intro x hx
      rw [List.mem_singleton.1 hx, EInner]
      intro z hz y hy
      simp only [inPath] at hz
      rw [ha, List.mem_singleton] at hz
      subst hz
      have hy := he y hy
      obtain ⟨x, x1, x2, x3, x4⟩ := hone y hy
      obtain ⟨u, va, hu, hu', hva⟩ := hy.left
      obtain ⟨v, vb, hv, hv', hvb⟩ := hy.right
      constructor
      · have : mConds (rebase (.cmp c (.field ⟨w, p⟩) (.field ⟨w, p'⟩) : Expr E)) = [(p, false), (p', false)] := by
          rw [hreb]; simp [mConds, hm, paths]
        rw [this]
        refine regular_two h1 h2 (fun z hz => ?_) (fun z hz => ?_)
        · rw [hu, List.mem_singleton] at hz; subst hz; exact hu'
        · rw [hv, List.mem_singleton] at hz; subst hz; exact hv'
      · rw [hreb, Complete]
        intro _ z hz q hq
        rw [hbase] at hz ⊢
        rw [x1, List.mem_singleton] at hz
        subst hz
        simp only [paths, List.cons_append, List.nil_append, List.mem_cons, List.not_mem_nil, or_false] at hq
        rcases hq with rfl | rfl
        · rw [x3, hu]; simp
        · rw [x4, hv]; simp⟩
  refine ⟨df, t1, fun mt hmt => ?_⟩
  obtain ⟨mt', t3⟩ := t2 mt hmt
  refine ⟨mt', ?_⟩
  rw [t3]
  have hcongr : ∀ l : List D, (∀ y ∈ l, HasBoth E p p' y) →
      Mode.holds m (fun y => decide (lsem X C (rebase (.cmp c (.field ⟨w, p⟩) (.field ⟨w, p'⟩))) y = some true)) l =
        Mode.holds m (fieldsHold E c p p') l := by
    intro l hl
    have hq : ∀ y ∈ l, decide (lsem X C (rebase (.cmp c (.field ⟨w, p⟩) (.field ⟨w, p'⟩))) y = some true) = fieldsHold E c p p' y := by
      intro y hy
      rw [hsem y (hl y hy)]
      cases fieldsHold E c p p' y <;> simp
    have hany : ∀ (f g : D → Bool) (l : List D), (∀ y ∈ l, f y = g y) → l.any f = l.any g ∧ l.all f = l.all g := by
      intro f g l
      induction l with
      | nil => simp
      | cons x l ih => intro h; simp [h x (by simp), ih (fun y hy => h y (by simp [hy]))]
    cases m <;> simp only [Mode.holds, (hany _ _ l hq).1, (hany _ _ l hq).2]
  simp only [List.any_cons, List.any_nil, Bool.or_false, etop, inPath, ha, firstArr, Option.map_some, Option.getD_some]
  rw [hcongr _ he]

/-- `{"a":[{"a":1,"b":2},{"a":1,"b":1}]}` -/
def docPairs : D := .obj [] (.cons .string [34, 97, 34] [] [] (.arr [] (.cons
    (.obj [] (.cons .string [34, 97, 34] [] [] (.lit .integer [49]) [] [] (.cons .string [34, 98, 34] [] [] (.lit .integer [50]) [] [] .nil)))
    [] [] (.cons docAB1 [] [] .nil))) [] [] .nil)
def textPairs : List Nat := [123, 34, 97, 34, 58, 91, 123, 34, 97, 34, 58, 49, 44, 34, 98, 34, 58, 50, 125, 44] ++ textAB1 ++ [93, 125]

theorem text_2 : Token.TokText .integer [50] := .integer (Or.inl (Or.inr ⟨50, [], rfl, by decide, by intro c hc; cases hc⟩))

theorem docPairs_text : Begins textPairs docPairs :=
  ⟨by simp [docPairs, docAB1, D.WF, Ms.WF, Es.WF, Token.IsWs, text_a, text_b, text_1, text_2, Tok.isLiteral], [], [], by simp [Token.IsWs], trivial, rfl⟩

/-- `ANY x IN a SATISFIES x.a = x.b` on this document. -/
example : ∃ df, transform demoComp 0 [.loop .any 1 fieldA (.cmp .eq (.field ⟨1, [[97]]⟩) (.field ⟨1, [[98]]⟩))] = .ok df ∧ ∀ m, Ready df m →
    ∃ m', run demoFns df m textPairs = .ok (some true, m') := by
  obtain ⟨df, h1, h2⟩ := C34_values_partial demoFns demoComp 0 .any .eq 1 (by decide) [[97]] [[97]] [[98]] (by decide) (by decide) docPairs_text
    (fun ty t h => by cases h) (ws := []) rfl (fun y hy => by
      simp only [esList, List.mem_cons, List.not_mem_nil, or_false] at hy
      rcases hy with rfl | rfl
      · exact ⟨⟨_, _, rfl, id, rfl⟩, ⟨_, _, rfl, id, rfl⟩, by decide +kernel⟩
      · exact ⟨⟨_, _, rfl, id, rfl⟩, ⟨_, _, rfl, id, rfl⟩, by decide +kernel⟩)
  refine ⟨df, h1, fun m hm => ?_⟩
  obtain ⟨m', h⟩ := h2 m hm
  exact ⟨m', by rw [h]; exact congrArg (fun b => Res.ok (some b, m')) (by decide +kernel)⟩

/-- `x.a = x.b AND x.a = 1` -/
def bodyAB : Expr demoExt :=
  .and (.cons (.cmp .eq (.field ⟨1, [[97]]⟩) (.field ⟨1, [[98]]⟩)) (.cons (.cmp .eq (.field ⟨1, [[97]]⟩) one) .nil))

theorem bodyAB_body : Body demoComp 1 bodyAB := by
  refine ⟨by decide, by simp [bodyAB, Expr.Plain, Exprs.Plain, one], ?_, fun f hf => ?_⟩
  · simp only [bodyAB, rebase, rebases, one, Frag2, Frag2s]
    rw [if_pos (by rfl), if_neg (by decide)]
    exact ⟨⟨rfl, rfl, loose_ab⟩, by simp [Frag, Param, condPath, fieldPath]⟩
  · cases hf with
    | and hf => cases hf with
      | head hf => cases hf with
        | cmpL hf => cases hf; rfl
        | cmpR hf => cases hf; rfl
      | tail hf => cases hf with
        | head hf => cases hf with
          | cmpL hf => cases hf; rfl
          | cmpR hf => cases hf
        | tail hf => cases hf

theorem bodyAB_whole {y : D} (h : regularB (mConds (rebase bodyAB)) y = true) (ha : walk [[97]] y ≠ []) (hb : walk [[98]] y ≠ [])
    (ho : walk [] y = [y]) : Whole bodyAB y := by
  refine ⟨regular_of_check h, ⟨fun _ x hx p hp => ?_, fun h => absurd h (by decide), trivial⟩⟩
  have hx : x ∈ walk [] y := hx
  rw [ho, List.mem_singleton] at hx
  subst hx
  have hp : p ∈ [([[97]] : Path), [[98]]] := hp
  simp only [List.mem_cons, List.not_mem_nil, or_false] at hp
  rcases hp with rfl | rfl
  · exact ha
  · exact hb

/-- `NOT (EVERY x IN a SATISFIES x.a = x.b AND x.a = 1)` on the same document. -/
example : ∃ df, transform demoComp 0 [.not (.loop .every 1 fieldA bodyAB)] = .ok df ∧ ∀ m, Ready df m →
    ∃ m', run demoFns df m textPairs = .ok (some true, m') := by
  obtain ⟨df, h1, h2⟩ := C34_elements_partial demoFns demoComp 0 (es := [.not (.loop .every 1 fieldA bodyAB)]) (g := .not (.loop .every 1 fieldA bodyAB))
    (gs := []) rfl
    (fun x hx => by rw [List.mem_singleton.1 hx]; exact ⟨rfl, bodyAB_body⟩)
    (fun x hx => by rw [List.mem_singleton.1 hx]; simp [SafeE, SafeEs, SafeParam, one, bodyAB]) docPairs_text
    ⟨(fun ty t h => by cases h), regular_of_check (by decide +kernel), fun x hx => by
      rw [List.mem_singleton.1 hx]
      intro z hz y hy
      have hz : z ∈ walk [[97]] docPairs := hz
      simp only [docPairs, walk] at hz
      have hz := List.mem_singleton.1 hz
      subst hz
      simp only [elements, esList, List.mem_cons, List.not_mem_nil, or_false] at hy
      rcases hy with rfl | rfl
      · exact bodyAB_whole (by decide +kernel) (by decide +kernel) (by decide +kernel) rfl
      · exact bodyAB_whole (by decide +kernel) (by decide +kernel) (by decide +kernel) rfl⟩
  refine ⟨df, h1, fun m hm => ?_⟩
  obtain ⟨m', h⟩ := h2 m hm
  exact ⟨m', by rw [h]; exact congrArg (fun b => Res.ok (some b, m')) (by decide +kernel)⟩

end Verif.Transform
