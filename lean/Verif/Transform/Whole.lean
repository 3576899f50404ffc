import Verif.Transform.Sem
import Verif.Match.Theorems

/-!
# Compiled definitions

The definition compiled from expressions of the fragment is well-formed, and so the matcher computes their meaning.
-/

namespace Verif.Match
open Verif.FastVal Verif.Transform
variable {E : Ext}

mutual
  /-- No slots, no `AfterNode`; operations satisfy `P`, loops satisfy `Q`. -/
  def Exec.All (P : Op E → Prop) (Q : Nat → Mode → Option (Ref E) → Exec E → Prop) : Exec E → Prop
    | .mk st es ops ls a => st = 0 ∧ es.All P Q ∧ (∀ op ∈ ops, P op) ∧ ls.All Q ∧ a = .none
  def Elems.All (P : Op E → Prop) (Q : Nat → Mode → Option (Ref E) → Exec E → Prop) : Elems E → Prop
    | .nil => True
    | .cons _ e r => e.All P Q ∧ r.All P Q
  def Loops.All (Q : Nat → Mode → Option (Ref E) → Exec E → Prop) : Loops E → Prop
    | .nil => True
    | .cons b m t e r => Q b m t e ∧ r.All Q
end

end Verif.Match

namespace Verif.Transform
open Verif.FastVal Verif.Match Verif.Expr
open Verif.Token (D Es Ms Tok)
open Verif.BinTree (Sh K UnOp BinOp mergeSh mergeParts Shaped)

variable {E : Ext}

section
variable {P : Op E → Prop} {Q : Nat → Mode → Option (Ref E) → Exec E → Prop}

theorem emptyExec_all : (emptyExec : Exec E).All P Q := ⟨rfl, trivial, (fun _ h => nomatch h), trivial, rfl⟩

theorem alterElems_all {k : List Nat} {f : Exec E → Exec E} (hf : ∀ n, n.All P Q → (f n).All P Q) : ∀ es : Elems E, es.All P Q →
    (alterElems k f es).All P Q
  | .nil, _ => ⟨hf _ emptyExec_all, trivial⟩
  | .cons k' e r, h => by
    rw [alterElems]
    split
    · exact ⟨hf _ h.1, h.2⟩
    · exact ⟨h.1, alterElems_all hf r h.2⟩

theorem update_key_all {f : Exec E → Exec E} (hf : ∀ n, n.All P Q → (f n).All P Q) : ∀ (p : Path) (n : Exec E), n.All P Q →
    (update (p.map Step.key) f n).All P Q
  | [], n, h => hf n h
  | k :: p, .mk st es ops ls a, h => by
    rw [List.map_cons, update]
    exact ⟨h.1, alterElems_all (fun n hn => update_key_all hf p n hn) es h.2.1, h.2.2⟩

theorem addOp_all {op : Op E} (ho : P op) (n : Exec E) (h : n.All P Q) : (addOp op n).All P Q := by
  obtain ⟨st, es, ops, ls, a⟩ := n
  refine ⟨h.1, h.2.1, ?_, h.2.2.2⟩
  intro o hm
  rcases List.mem_append.1 hm with hm | hm
  · exact h.2.2.1 o hm
  · rw [List.mem_singleton] at hm; subst hm; exact ho

theorem snoc_all {b m t} {e : Exec E} (he : Q b m t e) : ∀ ls : Loops E, ls.All Q → (Loops.snoc ls b m t e).All Q
  | .nil, _ => ⟨he, trivial⟩
  | .cons .., h => ⟨h.1, snoc_all he _ h.2⟩

theorem addLoop_all {b m t} {e : Exec E} (he : Q b m t e) (n : Exec E) (h : n.All P Q) : (addLoop b m t e n).All P Q := by
  obtain ⟨st, es, ops, ls, a⟩ := n
  exact ⟨h.1, h.2.1, h.2.2.1, snoc_all he ls h.2.2.2.1, h.2.2.2.2⟩

/-- An item of a node satisfies `P` or `Q`. -/
def Item.Ok (P : Op E → Prop) (Q : Nat → Mode → Option (Ref E) → Exec E → Prop) : Item E → Prop
  | .op o => P o
  | .loop b m t e => Q b m t e
  | _ => False

mutual
  theorem ins_all (C : Comp E) : ∀ (e : Expr E) (v : Int) (b : Nat) (n : Exec E), Frag C v e → (∀ x ∈ items n, x.2.bucket < b) →
      n.Tidy → n.Full → (∀ x ∈ eItems C e b, x.2.Ok P Q) → n.All P Q → (ins C e b n).All P Q
    | .cmp c l r, v, b, n, h, _, _, _, ho, hn => by
      rw [ins]; exact update_key_all (addOp_all (ho _ (by rw [eItems]; exact List.mem_singleton.2 rfl))) _ n hn
    | .exist e, v, b, n, h, _, _, _, ho, hn => by
      rw [ins]; exact update_key_all (addOp_all (ho _ (by rw [eItems]; exact List.mem_singleton.2 rfl))) _ n hn
    | .notExist e, v, b, n, h, _, _, _, ho, hn => by
      rw [ins]; exact update_key_all (addOp_all (ho _ (by rw [eItems]; exact List.mem_singleton.2 rfl))) _ n hn
    | .not e, v, b, n, h, hb, ht, hf, ho, hn => by
      rw [ins]; rw [eItems] at ho
      exact ins_all C e v (b + 1) n h (fun x hx => Nat.lt_succ_of_lt (hb x hx)) ht hf ho hn
    | .and es, v, b, n, h, hb, ht, hf, ho, hn => by rw [ins]; rw [eItems] at ho; exact insAll_all C es v b n h hb ht hf ho hn
    | .or es, v, b, n, h, hb, ht, hf, ho, hn => by rw [ins]; rw [eItems] at ho; exact insAll_all C es v b n h hb ht hf ho hn
    | .loop m w i s, v, b, n, h, hb, ht, hf, ho, hn => by
      rw [ins, update_congr _ n (noLoop_of_lt (fun x hx => Nat.lt_succ_of_lt (hb x hx)))]
      exact update_key_all (addLoop_all (ho _ (by rw [eItems]; exact List.mem_singleton.2 rfl))) _ n hn
    | .tru, v, b, n, h, _, _, _, _, hn | .fals, v, b, n, h, _, _, _, _, hn => by simpa [ins] using hn
    | .value _, v, b, n, h, _, _, _, _, _
    | .regex _, v, b, n, h, _, _, _, _, _ | .pcre _, v, b, n, h, _, _, _, _, _ | .time _, v, b, n, h, _, _, _, _, _
    | .field _, v, b, n, h, _, _, _, _, _ | .func .., v, b, n, h, _, _, _, _, _ => by simp [Frag] at h
  theorem insAll_all (C : Comp E) : ∀ (es : Exprs E) (v : Int) (b : Nat) (n : Exec E), Frags C v es → (∀ x ∈ items n, x.2.bucket < b) →
      n.Tidy → n.Full → (∀ x ∈ eItemsAll C es b, x.2.Ok P Q) → n.All P Q → (insAll C es b n).All P Q
    | .nil, v, b, n, h, _, _, _, _, _ => by simp [Frags] at h
    | .cons e .nil, v, b, n, h, hb, ht, hf, ho, hn => by
      rw [Frags] at h; rw [insAll]; rw [eItemsAll] at ho
      exact ins_all C e v b n h hb ht hf ho hn
    | .cons e (.cons e' r), v, b, n, h, hb, ht, hf, ho, hn => by
      rw [Frags] at h; rw [insAll]; rw [eItemsAll] at ho
      have h1 := ins_adds C e v (b + 1) n h.1 ht hf (fun x hx => Nat.lt_succ_of_lt (hb x hx))
      have hw := eItems_within C e v (b + 1) h.1
      refine insAll_all C (.cons e' r) v _ _ h.2 (mem_perm_bound h1.perm hb hw (by omega)) h1.tidy h1.full
        (fun x hx => ho x (List.mem_append_right _ hx)) ?_
      exact ins_all C e v (b + 1) n h.1 (fun x hx => Nat.lt_succ_of_lt (hb x hx)) ht hf (fun x hx => ho x (List.mem_append_left _ hx)) hn
end

end

/-! ### Positions -/

mutual
  theorem all_fits {s : Sh} {b : Nat} : ∀ n : Exec E, n.All (fun o => IsAtom s b o.bucket)
      (fun i _ _ e => ∃ a, LoopAt s b i a ∧ e.Fits a i ∧ e.NoStore) → n.Fits s b ∧ n.NoStore
    | .mk st es ops ls a, h => by
      obtain ⟨h1, h2, h3, h4, h5⟩ := h
      subst h1 h5
      obtain ⟨e1, e2⟩ := allE_fits es h2
      obtain ⟨l1, l2⟩ := allL_fits ls h4
      exact ⟨⟨e1, h3, l1, trivial⟩, rfl, e2, l2, trivial⟩
  theorem allE_fits {s : Sh} {b : Nat} : ∀ es : Elems E, es.All (fun o => IsAtom s b o.bucket)
      (fun i _ _ e => ∃ a, LoopAt s b i a ∧ e.Fits a i ∧ e.NoStore) → es.Fits s b ∧ es.NoStore
    | .nil, _ => ⟨trivial, trivial⟩
    | .cons _ e r, h => by
      obtain ⟨a1, a2⟩ := all_fits e h.1
      obtain ⟨b1, b2⟩ := allE_fits r h.2
      exact ⟨⟨a1, b1⟩, a2, b2⟩
  theorem allL_fits {s : Sh} {b : Nat} : ∀ ls : Loops E, ls.All (fun i _ _ e => ∃ a, LoopAt s b i a ∧ e.Fits a i ∧ e.NoStore) →
      ls.Fits s b ∧ ls.NoStore
    | .nil, _ => ⟨trivial, trivial⟩
    | .cons _ _ _ e r, h => by
      obtain ⟨b1, b2⟩ := allL_fits r h.2
      exact ⟨⟨h.1, b1⟩, by obtain ⟨_, _, _, h⟩ := h.1; exact h, b2⟩
end

/-- The item decides a position of the tree `s` at `b`. -/
def Item.At (s : Sh) (b : Nat) (it : Item E) : Prop :=
  it.Ok (fun o => IsAtom s b o.bucket) (fun i _ _ e => ∃ a, LoopAt s b i a ∧ e.Fits a i ∧ e.NoStore)

theorem Item.At.mono {s s' : Sh} {b b' : Nat} (h1 : ∀ i, IsAtom s b i → IsAtom s' b' i) (h2 : ∀ i a, LoopAt s b i a → LoopAt s' b' i a)
    {it : Item E} (h : it.At s b) : it.At s' b' := by
  cases it with
  | op o => exact h1 _ h
  | loop i m t e => obtain ⟨a, h, h'⟩ := h; exact ⟨a, h2 _ _ h, h'⟩
  | _ => exact h.elim

mutual
  theorem eItems_at (C : Comp E) : ∀ (e : Expr E) (v : Int) (b : Nat), Frag C v e → ∀ x ∈ eItems C e b, x.2.At (shape e) b
    | .cmp c l r, v, b, h, x, hx => by
      rw [eItems, List.mem_singleton] at hx; subst hx
      cases c <;> simp [Item.At, Item.Ok, shape, IsAtom]
    | .exist e, v, b, h, x, hx => by
      rw [eItems, List.mem_singleton] at hx; subst hx; simp [Item.At, Item.Ok, shape, IsAtom]
    | .notExist e, v, b, h, x, hx => by
      rw [eItems, List.mem_singleton] at hx; subst hx; simp [Item.At, Item.Ok, shape, IsAtom]
    | .not e, v, b, h, x, hx => by
      rw [eItems] at hx; rw [shape]
      exact (eItems_at C e v (b + 1) h x hx).mono (fun _ h => h) (fun _ _ h => h)
    | .and es, v, b, h, x, hx => by rw [eItems] at hx; rw [shape]; exact eItemsAll_at C es .and v b h x hx
    | .or es, v, b, h, x, hx => by rw [eItems] at hx; rw [shape]; exact eItemsAll_at C es .or v b h x hx
    | .loop m w i s, v, b, h, x, hx => by
      rw [eItems, List.mem_singleton] at hx; subst hx
      refine ⟨shape s, by rw [shape]; exact ⟨rfl, rfl⟩, ?_⟩
      refine all_fits _ (ins_all C s w (b + 1) emptyExec h.2.2.2 (by intro x hx; cases hx) emptyExec_tidy emptyExec_full ?_ emptyExec_all)
      exact eItems_at C s w (b + 1) h.2.2.2
    | .tru, v, b, h, x, hx | .fals, v, b, h, x, hx => by simp [eItems] at hx
    | .value _, v, b, h, _, _ | .regex _, v, b, h, _, _ | .pcre _, v, b, h, _, _
    | .time _, v, b, h, _, _ | .field _, v, b, h, _, _ | .func .., v, b, h, _, _ => by simp [Frag] at h
  theorem eItemsAll_at (C : Comp E) : ∀ (es : Exprs E) (o : BinOp) (v : Int) (b : Nat), Frags C v es →
      ∀ x ∈ eItemsAll C es b, x.2.At (shapes o es) b
    | .nil, o, v, b, h, _, _ => by simp [Frags] at h
    | .cons e .nil, o, v, b, h, x, hx => by
      rw [Frags] at h; rw [eItemsAll] at hx; rw [shapes]; exact eItems_at C e v b h x hx
    | .cons e (.cons e' r), o, v, b, h, x, hx => by
      rw [Frags] at h; rw [eItemsAll] at hx; rw [shapes]
      rcases List.mem_append.1 hx with hx | hx
      · exact (eItems_at C e v (b + 1) h.1 x hx).mono (s' := .bin o (shape e) (shapes o (.cons e' r))) (b' := b)
          (fun _ h => Or.inl h) (fun _ _ h => Or.inl h)
      · exact (eItemsAll_at C (.cons e' r) o v _ h.2 x hx).mono (s' := .bin o (shape e) (shapes o (.cons e' r))) (b' := b)
          (fun _ h => Or.inr h) (fun _ _ h => Or.inr h)
end

/-! ### The compiled definition -/

theorem frags_of_list {C : Comp E} {v : Int} : ∀ (e : Expr E) (es : List (Expr E)), (∀ x ∈ e :: es, Frag C v x) →
    Frags C v (.ofList (e :: es))
  | e, [], h => h e (by simp)
  | e, e' :: es, h => ⟨h e (by simp), frags_of_list e' es (fun x hx => h x (List.mem_cons_of_mem _ hx))⟩

theorem shapes_merge : ∀ (e : Expr E) (es : List (Expr E)), shapes .neor (.ofList (e :: es)) = mergeSh (shape e) (es.map shape)
  | e, [] => by simp [Exprs.ofList, shapes, mergeSh]
  | e, e' :: es => by
    have := shapes_merge e' es
    simp only [Exprs.ofList] at this
    simp only [Exprs.ofList, shapes, List.map_cons, mergeSh, this]

theorem tMerge_ins (C : Comp E) : ∀ (e : Expr E) (es : List (Expr E)) (v : Int) (t : T E) (A : Addr) (par : Nat),
    (∀ x ∈ e :: es, Frag C v x) → Start t par → InCtx t v A →
    ∃ r, tMerge C (e :: es) t = .ok r ∧ r.1.root = update A (insAll C (.ofList (e :: es)) t.active) t.root ∧ r.1.slotIdx = t.slotIdx
  | e, [], v, t, A, par, h, hs, hc => by
    obtain ⟨t', h1, h2, h3⟩ := tOne_ins C e v t A par (h e (by simp)) hs hc
    exact ⟨(t', [t.active]), by rw [tMerge, h1]; rfl, by simpa [Exprs.ofList, insAll] using h2, h3⟩
  | e, e' :: es, v, t, A, par, h, hs, hc => by
    obtain ⟨t1, e1, ha, hs1, hctx, hr, hsl, hn, hb⟩ := first_child (ty := .neor) hs
    obtain ⟨t2, h1, h2, h3⟩ := tOne_ins C e v t1 A t.active (h e (by simp)) hs1 (hc.of_ctx hctx)
    have hG := tOne_grown C e t1 t2 _ hs1 h1
    obtain ⟨t3, e3, ha3, hs3, hc3, hr3, hsl3, _⟩ := second_child (o := .neor) ha hn hb hG
    obtain ⟨r, k1, k2, k3⟩ := tMerge_ins C e' es v t3 A t.active (fun x hx => h x (List.mem_cons_of_mem _ hx)) hs3
      (hc.of_ctx (hc3.trans (hG.ctx.trans hctx)))
    obtain ⟨x, hx, e1⟩ := Res.bind_eq_ok.1 e1
    refine ⟨(r.1, (newBucket x).active :: r.2), ?_, ?_, ?_⟩
    · rw [tMerge, hx]
      simp only [Res.bind_ok]
      rw [e1, Res.bind_ok, h1, Res.bind_ok, e3, Res.bind_ok, k1]
      rfl
    · simp only
      rw [k2, hr3, h2, hr, update_comp, ha3, ha]
      simp only [Exprs.ofList, insAll]
    · simp only
      rw [k3, hsl3, h3, hsl]

/-- The node compiled for a list of expressions. -/
def compiled (C : Comp E) (gs : List (Expr E)) : Exec E := insAll C (.ofList gs) 0 emptyExec

/-- Expressions of the fragment are compiled without a crash, and the definition is well-formed. -/
theorem transform_frag (C : Comp E) (slot0 : Nat) (es : List (Expr E)) {g : Expr E} {gs : List (Expr E)} (hg : genExprs es = g :: gs)
    (h : ∀ x ∈ g :: gs, Frag C 0 x) :
    ∃ df, transform C slot0 es = .ok df ∧ df.WF (shapes .neor (.ofList (g :: gs))) (compiled C (g :: gs)) ∧
      df.numSlots = slot0 ∧ df.buckets = bucketIds es ((mergeParts (shape g) (gs.map shape) 0).map Prod.snd) := by
  obtain ⟨r, h1, h2, h3⟩ := tMerge_ins C g gs 0 (initT slot0) [] 0 h (initT_start slot0) (Or.inl ⟨rfl, rfl, rfl⟩)
  obtain ⟨hG, hids⟩ := tMerge_grown C g gs (initT slot0) r 0 (initT_start slot0) h1
  refine ⟨_, by rw [transform_cons C slot0 es hg, h1]; rfl, ?_, h3, ?_⟩
  · have hroot : r.1.root = compiled C (g :: gs) := by rw [h2]; rfl
    have hfr := frags_of_list g gs h
    refine ⟨?_, ?_, ?_, ?_⟩
    · simp only; rw [hroot]
    · rw [shapes_merge]; exact hG.shaped
    · rw [shapes_merge]; have := hG.len; simpa [initT] using this
    · refine (all_fits _ (insAll_all C _ 0 0 emptyExec hfr (by intro x hx; cases hx) emptyExec_tidy emptyExec_full ?_ emptyExec_all)).1
      exact eItemsAll_at C _ .neor 0 0 hfr
  · simp only; rw [hids]; rfl

/-! ### Expressions that cannot crash the matcher -/

/-- The `i`th expression. -/
def _root_.Verif.Expr.Exprs.nth : Exprs E → Nat → Option (Expr E)
  | .nil, _ => none
  | .cons e _, 0 => some e
  | .cons _ r, i + 1 => r.nth i

mutual
  /-- Functions are known and have their parameters; divisors are nonzero constants. -/
  def SafeParam : Expr E → Prop
    | .func n ps => fnameOf n ≠ .other ∧ SafeParams (fnameOf n).arity ps ∧
        ((fnameOf n = .div ∨ fnameOf n = .mod) → ∃ g, ps.nth 1 = some (.value g) ∧ Divisor (constOf g))
    | _ => True
  def SafeParams : Nat → Exprs E → Prop
    | 0, _ => True
    | _ + 1, .nil => False
    | k + 1, .cons e r => SafeParam e ∧ SafeParams k r
end

mutual
  /-- All function calls are safe. -/
  def SafeE : Expr E → Prop
    | .cmp _ l r => SafeParam l ∧ SafeParam r
    | .exist e => SafeParam e
    | .notExist e => SafeParam e
    | .not e => SafeE e
    | .and es => SafeEs es
    | .or es => SafeEs es
    | .loop _ _ _ s => SafeE s
    | _ => True
  def SafeEs : Exprs E → Prop
    | .nil => True
    | .cons e r => SafeE e ∧ SafeEs r
end

theorem refsOf_nth (C : Comp E) : ∀ (ps : Exprs E) (i : Nat), (refsOf C ps).nth i = (ps.nth i).map (refOf C)
  | .nil, _ => by simp [refsOf, Refs.nth, Exprs.nth]
  | .cons e r, 0 => by simp [refsOf, Refs.nth, Exprs.nth]
  | .cons e r, i + 1 => by simp [refsOf, Refs.nth, Exprs.nth, refsOf_nth C r i]

mutual
  theorem refOf_safe (C : Comp E) (n : Nat) : ∀ e : Expr E, SafeParam e → (refOf C e).Safe n true
    | .func f ps, h => by
      rw [refOf, Ref.Safe]
      refine ⟨h.1, refsOf_safe C n _ ps h.2.1, fun hf => ?_⟩
      obtain ⟨g, h1, h2⟩ := h.2.2 hf
      exact ⟨_, by rw [refsOf_nth, h1]; simp [refOf], h2⟩
    | .regex g, _ => by unfold refOf; repeat' split <;> simp_all [Ref.Safe]
    | .pcre g, _ => by unfold refOf; repeat' split <;> simp_all [Ref.Safe]
    | .time g, _ => by unfold refOf; repeat' split <;> simp_all [Ref.Safe]
    | .field _, _ | .value _, _ | .tru, _ | .fals, _ | .not _, _ | .and _, _ | .or _, _ | .loop .., _ | .exist _, _ | .notExist _, _
    | .cmp .., _ => by simp [refOf, Ref.Safe]
  theorem refsOf_safe (C : Comp E) (n : Nat) : ∀ (k : Nat) (ps : Exprs E), SafeParams k ps → (refsOf C ps).Safe n true k
    | 0, ps, _ => by rw [Refs.Safe.eq_def]; trivial
    | _ + 1, .nil, h => by simp [SafeParams] at h
    | k + 1, .cons e r, h => by
      rw [refsOf, Refs.Safe]; rw [SafeParams] at h; exact ⟨refOf_safe C n e h.1, refsOf_safe C n k r h.2⟩
end

theorem sideOf_safe (C : Comp E) (n : Nat) {e : Expr E} (h : SafeParam e) : ∀ r ∈ sideOf C e, r.Safe n true := by
  intro r hr
  unfold sideOf at hr
  split at hr
  · cases hr
  · cases hr; exact refOf_safe C n _ h

theorem opOf_ne_in (c : Cmp) : opOf c ≠ .in_ := by cases c <;> decide

mutual
  theorem all_safe {k : Nat} : ∀ n : Exec E, n.All (fun o => o.Safe k true) (fun _ _ t e => t = none ∧ e.Safe k) → n.Safe k
    | .mk st es ops ls a, h => by
      obtain ⟨h1, h2, h3, h4, h5⟩ := h
      subst h1 h5
      exact ⟨Nat.zero_le _, allE_safe es h2, h3, allL_safe ls h4, trivial⟩
  theorem allE_safe {k : Nat} : ∀ es : Elems E, es.All (fun o => o.Safe k true) (fun _ _ t e => t = none ∧ e.Safe k) → es.Safe k
    | .nil, _ => trivial
    | .cons _ e r, h => ⟨all_safe e h.1, allE_safe r h.2⟩
  theorem allL_safe {k : Nat} : ∀ ls : Loops E, ls.All (fun _ _ t e => t = none ∧ e.Safe k) → ls.Safe k none
    | .nil, _ => trivial
    | .cons _ _ _ e r, h => ⟨h.1.1, h.1.2, allL_safe r h.2⟩
end

mutual
  theorem eItems_safe (C : Comp E) (k : Nat) : ∀ (e : Expr E) (v : Int) (b : Nat), Frag C v e → SafeE e →
      ∀ x ∈ eItems C e b, x.2.Ok (fun o => o.Safe k true) (fun _ _ t e => t = none ∧ e.Safe k)
    | .cmp c l r, v, b, h, hs, x, hx => by
      rw [eItems, List.mem_singleton] at hx; subst hx
      exact ⟨opOf_ne_in c, sideOf_safe C k hs.1, sideOf_safe C k hs.2⟩
    | .exist e, v, b, h, hs, x, hx => by
      rw [eItems, List.mem_singleton] at hx; subst hx
      exact ⟨by simp, sideOf_safe C k hs, by intro r hr; cases hr⟩
    | .notExist e, v, b, h, hs, x, hx => by
      rw [eItems, List.mem_singleton] at hx; subst hx
      exact ⟨by simp, sideOf_safe C k hs, by intro r hr; cases hr⟩
    | .not e, v, b, h, hs, x, hx => by
      rw [eItems] at hx; exact eItems_safe C k e v (b + 1) h hs x hx
    | .and es, v, b, h, hs, x, hx => by rw [eItems] at hx; exact eItemsAll_safe C k es v b h hs x hx
    | .or es, v, b, h, hs, x, hx => by rw [eItems] at hx; exact eItemsAll_safe C k es v b h hs x hx
    | .loop m w i s, v, b, h, hs, x, hx => by
      rw [eItems, List.mem_singleton] at hx; subst hx
      refine ⟨rfl, ?_⟩
      refine all_safe _ (ins_all C s w (b + 1) emptyExec h.2.2.2 (by intro x hx; cases hx) emptyExec_tidy emptyExec_full ?_ emptyExec_all)
      exact eItems_safe C k s w (b + 1) h.2.2.2 hs
    | .tru, v, b, h, _, x, hx | .fals, v, b, h, _, x, hx => by simp [eItems] at hx
    | .value _, v, b, h, _, _, _ | .regex _, v, b, h, _, _, _ | .pcre _, v, b, h, _, _, _
    | .time _, v, b, h, _, _, _ | .field _, v, b, h, _, _, _ | .func .., v, b, h, _, _, _ => by simp [Frag] at h
  theorem eItemsAll_safe (C : Comp E) (k : Nat) : ∀ (es : Exprs E) (v : Int) (b : Nat), Frags C v es → SafeEs es →
      ∀ x ∈ eItemsAll C es b, x.2.Ok (fun o => o.Safe k true) (fun _ _ t e => t = none ∧ e.Safe k)
    | .nil, v, b, h, _, _, _ => by simp [Frags] at h
    | .cons e .nil, v, b, h, hs, x, hx => by
      rw [Frags] at h; rw [eItemsAll] at hx; exact eItems_safe C k e v b h hs.1 x hx
    | .cons e (.cons e' r), v, b, h, hs, x, hx => by
      rw [Frags] at h; rw [eItemsAll] at hx
      rcases List.mem_append.1 hx with hx | hx
      · exact eItems_safe C k e v (b + 1) h.1 hs.1 x hx
      · exact eItemsAll_safe C k (.cons e' r) v _ h.2 hs.2 x hx
end

theorem safeEs_of_list : ∀ es : List (Expr E), (∀ x ∈ es, SafeE x) → SafeEs (.ofList es)
  | [], _ => trivial
  | e :: es, h => ⟨h e (by simp), safeEs_of_list es (fun x hx => h x (List.mem_cons_of_mem _ hx))⟩

theorem compiled_safe (C : Comp E) (k : Nat) {g : Expr E} {gs : List (Expr E)} (h : ∀ x ∈ g :: gs, Frag C 0 x) (hs : ∀ x ∈ g :: gs, SafeE x) :
    (compiled C (g :: gs)).Safe k :=
  all_safe _ (insAll_all C _ 0 0 emptyExec (frags_of_list g gs h) (by intro x hx; cases hx) emptyExec_tidy emptyExec_full
    (eItemsAll_safe C k _ 0 0 (frags_of_list g gs h) (safeEs_of_list _ hs)) emptyExec_all)

/-! ### Expressions that do not compare parts of documents with each other -/

/-- A constant that is not an array or object. -/
def ScalarConst : Expr E → Prop
  | .value g => Scalar (constOf g)
  | .regex _ => True
  | .pcre _ => True
  | .time _ => True
  | _ => False

mutual
  /-- Comparisons have such a constant on one side, or match a pattern. -/
  def OneSidedE : Expr E → Prop
    | .cmp c l r => c = .like ∨ ScalarConst l ∨ ScalarConst r
    | .not e => OneSidedE e
    | .and es => OneSidedEs es
    | .or es => OneSidedEs es
    | .loop _ _ _ s => OneSidedE s
    | _ => True
  def OneSidedEs : Exprs E → Prop
    | .nil => True
    | .cons e r => OneSidedE e ∧ OneSidedEs r
end

theorem sideOf_scalar {C : Comp E} {v : Int} {p : Path} {e : Expr E} (h : Param C v p e) (hs : ScalarConst e) :
    ∃ c, sideOf C e = some (.val c) ∧ Scalar c := by
  cases e with
  | value g => exact ⟨_, by simp only [sideOf, refOf], hs⟩
  | regex g => obtain ⟨s, r, rfl, hr⟩ := h; exact ⟨⟨.regex r, true⟩, by simp only [sideOf, refOf, hr], by simp [Scalar, Data.ty]⟩
  | pcre g => obtain ⟨s, r, rfl, hr⟩ := h; exact ⟨⟨.pcre r, true⟩, by simp only [sideOf, refOf, hr], by simp [Scalar, Data.ty]⟩
  | time g => obtain ⟨s, r, rfl, hr⟩ := h; exact ⟨⟨.time r, true⟩, by simp only [sideOf, refOf, hr], by simp [Scalar, Data.ty]⟩
  | _ => exact hs.elim

mutual
  theorem all_one : ∀ n : Exec E, n.All Op.OneSided (fun _ _ _ e => e.OneSided) → n.OneSided
    | .mk st es ops ls a, h => by
      obtain ⟨h1, h2, h3, h4, h5⟩ := h
      subst h1 h5
      exact ⟨allE_one es h2, h3, allL_one ls h4, trivial⟩
  theorem allE_one : ∀ es : Elems E, es.All Op.OneSided (fun _ _ _ e => e.OneSided) → es.OneSided
    | .nil, _ => trivial
    | .cons _ e r, h => ⟨all_one e h.1, allE_one r h.2⟩
  theorem allL_one : ∀ ls : Loops E, ls.All (fun _ _ _ e => e.OneSided) → ls.OneSided
    | .nil, _ => trivial
    | .cons _ _ _ e r, h => ⟨h.1, allL_one r h.2⟩
end

mutual
  theorem eItems_one (C : Comp E) : ∀ (e : Expr E) (v : Int) (b : Nat), Frag C v e → OneSidedE e →
      ∀ x ∈ eItems C e b, x.2.Ok Op.OneSided (fun _ _ _ e => e.OneSided)
    | .cmp c l r, v, b, h, hs, x, hx => by
      rw [eItems, List.mem_singleton] at hx; subst hx
      rcases hs with rfl | hs | hs
      · exact Or.inr (Or.inl rfl)
      · exact Or.inr (Or.inr (Or.inr (sideOf_scalar h.1 hs)))
      · exact Or.inr (Or.inr (Or.inl (sideOf_scalar h.2 hs)))
    | .exist e, v, b, h, hs, x, hx => by
      rw [eItems, List.mem_singleton] at hx; subst hx; exact Or.inl rfl
    | .notExist e, v, b, h, hs, x, hx => by
      rw [eItems, List.mem_singleton] at hx; subst hx; exact Or.inl rfl
    | .not e, v, b, h, hs, x, hx => by
      rw [eItems] at hx; exact eItems_one C e v (b + 1) h hs x hx
    | .and es, v, b, h, hs, x, hx => by rw [eItems] at hx; exact eItemsAll_one C es v b h hs x hx
    | .or es, v, b, h, hs, x, hx => by rw [eItems] at hx; exact eItemsAll_one C es v b h hs x hx
    | .loop m w i s, v, b, h, hs, x, hx => by
      rw [eItems, List.mem_singleton] at hx; subst hx
      refine all_one _ (ins_all C s w (b + 1) emptyExec h.2.2.2 (by intro x hx; cases hx) emptyExec_tidy emptyExec_full ?_ emptyExec_all)
      exact eItems_one C s w (b + 1) h.2.2.2 hs
    | .tru, v, b, h, _, x, hx | .fals, v, b, h, _, x, hx => by simp [eItems] at hx
    | .value _, v, b, h, _, _, _ | .regex _, v, b, h, _, _, _ | .pcre _, v, b, h, _, _, _
    | .time _, v, b, h, _, _, _ | .field _, v, b, h, _, _, _ | .func .., v, b, h, _, _, _ => by simp [Frag] at h
  theorem eItemsAll_one (C : Comp E) : ∀ (es : Exprs E) (v : Int) (b : Nat), Frags C v es → OneSidedEs es →
      ∀ x ∈ eItemsAll C es b, x.2.Ok Op.OneSided (fun _ _ _ e => e.OneSided)
    | .nil, v, b, h, _, _, _ => by simp [Frags] at h
    | .cons e .nil, v, b, h, hs, x, hx => by
      rw [Frags] at h; rw [eItemsAll] at hx; exact eItems_one C e v b h hs.1 x hx
    | .cons e (.cons e' r), v, b, h, hs, x, hx => by
      rw [Frags] at h; rw [eItemsAll] at hx
      rcases List.mem_append.1 hx with hx | hx
      · exact eItems_one C e v (b + 1) h.1 hs.1 x hx
      · exact eItemsAll_one C (.cons e' r) v _ h.2 hs.2 x hx
end

theorem oneSidedEs_of_list : ∀ es : List (Expr E), (∀ x ∈ es, OneSidedE x) → OneSidedEs (.ofList es)
  | [], _ => trivial
  | e :: es, h => ⟨h e (by simp), oneSidedEs_of_list es (fun x hx => h x (List.mem_cons_of_mem _ hx))⟩

theorem compiled_one (C : Comp E) {g : Expr E} {gs : List (Expr E)} (h : ∀ x ∈ g :: gs, Frag C 0 x) (hs : ∀ x ∈ g :: gs, OneSidedE x) :
    (compiled C (g :: gs)).OneSided :=
  all_one _ (insAll_all C _ 0 0 emptyExec (frags_of_list g gs h) (by intro x hx; cases hx) emptyExec_tidy emptyExec_full
    (eItemsAll_one C _ 0 0 (frags_of_list g gs h) (oneSidedEs_of_list _ hs)) emptyExec_all)

/-! ### The verdict -/

theorem merge_correct {X : Fns E} {C : Comp E} {sh : Nat → Sh} {r : D} : ∀ (e : Expr E) (es : List (Expr E)) (v : Int) (b : Nat) (n : Exec E)
    (d : D) (l : Marks), (∀ x ∈ e :: es, Frag C v x) → ShOK sh (shapes .neor (.ofList (e :: es))) b → (∀ x ∈ e :: es, Inner x d) →
    Hosts n (eItemsAll C (.ofList (e :: es)) b) b (shapes .neor (.ofList (e :: es))).size → Ran X sh r n d l →
    (shapes .neor (.ofList (e :: es))).evalM b l.get = (e :: es).any (fun x => top X C x d)
  | e, [], v, b, n, d, l, h, hsh, hi, hh, hr => by
    simp only [Exprs.ofList, shapes, eItemsAll] at hsh hh ⊢
    rw [(sem_correct e v b n d l (h e (by simp)) hsh (hi e (by simp)) hh hr).2]
    simp
  | e, e' :: es, v, b, n, d, l, h, hsh, hi, hh, hr => by
    have hfr := frags_of_list e' es (fun x hx => h x (List.mem_cons_of_mem _ hx))
    simp only [Exprs.ofList] at hfr
    simp only [Exprs.ofList, shapes, eItemsAll, Sh.size] at hsh hh ⊢
    have w1 := eItems_within C e v (b + 1) (h e (by simp))
    have w2 := eItemsAll_within C (.cons e' (.ofList es)) .neor v (b + 1 + (shape e).size) hfr
    have h0 : withBucket b (items n) = [] := by
      have := hh b (by omega) (by omega)
      rw [withBucket_append, withBucket_out w1 (by omega), withBucket_out w2 (by omega)] at this
      exact List.perm_nil.1 this
    have a2 := (sem_correct e v (b + 1) n d l (h e (by simp)) (fun s' i hs => hsh s' i (Or.inr (Or.inl hs))) (hi e (by simp))
      (hh.left w2 (by omega) (by omega) (by omega)) hr).2
    have b2 := merge_correct e' es v (b + 1 + (shape e).size) n d l (fun x hx => h x (List.mem_cons_of_mem _ hx))
      (fun s' i hs => hsh s' i (Or.inr (Or.inr hs))) (fun x hx => hi x (List.mem_cons_of_mem _ hx))
      (hh.right w1 (by omega) (by simp only [Exprs.ofList]; omega) (by omega)) hr
    simp only [Exprs.ofList] at b2
    simp only [Sh.evalM, hr.none h0, a2, b2]
    rfl

/-- All conditions outside loops of the expressions. -/
def condsOf (gs : List (Expr E)) : List (Path × Bool) := gs.flatMap conds

/-- A document on which the matcher sees all the values it needs. -/
structure Regular (gs : List (Expr E)) (d : D) : Prop where
  outer : RegularAt (condsOf gs) d
  inner : ∀ x ∈ gs, Inner x d

theorem condsAll_of_list : ∀ gs : List (Expr E), condsAll (.ofList gs) = condsOf gs
  | [] => rfl
  | g :: gs => by rw [Exprs.ofList, condsAll, condsAll_of_list gs]; rfl

theorem verdict_top {X : Fns E} {C : Comp E} {g : Expr E} {gs : List (Expr E)} (h : ∀ x ∈ g :: gs, Frag C 0 x) {r : D}
    (hreg : Regular (g :: gs) r) {n : Nat} {b : Bool}
    (hv : verdict X (shapes .neor (.ofList (g :: gs))) (compiled C (g :: gs)) n r = .ok b) :
    b = (g :: gs).any (fun x => top X C x r) := by
  have hfr := frags_of_list g gs h
  have hadds := insAll_adds C _ 0 0 emptyExec hfr emptyExec_tidy emptyExec_full (by intro x hx; cases hx)
  have hperm : (items (compiled C (g :: gs))).Perm (eItemsAll C (.ofList (g :: gs)) 0) := by
    have := hadds.perm
    simpa [compiled, emptyExec, items, itemsE, loopItems, afterItems] using this
  have hk := kind_eItemsAll (C := C) _ 0 0 hfr
  unfold verdict decisions at hv
  obtain ⟨l, h1, hb⟩ := Res.bind_eq_ok.1 hv
  obtain ⟨a, ha, hl⟩ := Res.bind_eq_ok.1 h1
  cases hb
  refine merge_correct g gs 0 0 (compiled C (g :: gs)) r l h (subtree_ok _ 0) hreg.inner ?_ ⟨hadds.tidy, hadds.full, ?_, _, _, _, ha, ?_⟩
  · intro i _ _
    exact hperm.filter _
  · exact clear_of_kind hperm (List.perm_nil.1 hadds.notes) hk.1 hk.2 (by rw [condsAll_of_list]; exact hreg.outer)
  · cases hl; rfl

/-- The matcher of the compiled definition finds out whether one of the expressions holds. -/
theorem run_top (X : Fns E) {C : Comp E} {slot0 : Nat} {es : List (Expr E)} {g : Expr E} {gs : List (Expr E)} (hg : genExprs es = g :: gs)
    (h : ∀ x ∈ g :: gs, Frag C 0 x) (hsafe : ∀ x ∈ g :: gs, SafeE x) {data : List Nat} {r : D} (hr : Begins data r)
    (hreg : Regular (g :: gs) r) :
    ∃ df, transform C slot0 es = .ok df ∧ ∀ m, Ready df m →
      ∃ m', run X df m data = .ok (some ((g :: gs).any (fun x => top X C x r)), m') := by
  obtain ⟨df, h1, hw, h3, _⟩ := transform_frag C slot0 es hg h
  refine ⟨df, h1, fun m hm => ?_⟩
  obtain ⟨b, m', e1, e2⟩ := run_total X hw (compiled_safe C _ h hsafe) hr hm
  rw [verdict_top h hreg e2] at e1
  exact ⟨m', e1⟩

end Verif.Transform
