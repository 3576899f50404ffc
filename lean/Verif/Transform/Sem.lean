import Verif.Transform.Compile
import Verif.Transform.Walk

/-!
# Meaning of compiled expressions

The decisions of the node compiled from an expression of the fragment `Frag` give the expression's value.
-/

namespace Verif.Transform
open Verif.FastVal Verif.Match Verif.Expr
open Verif.Token (D Es Ms Tok)
open Verif.BinTree (Sh K UnOp BinOp)

variable {E : Ext}

/-! ### Specification: the meaning of an expression on a value -/

mutual
  /-- Value of a parameter, where `x` is the value of the field it mentions.  Functions read as many parameters as they have. -/
  def paramVal (X : Fns E) (C : Comp E) (x : FV E) : Expr E → Res (FV E)
    | .field _ => .ok x
    | .value v => .ok (constOf v)
    | .regex (.json (.str s)) => match C.regexp s with
      | some r => .ok ⟨.regex r, true⟩
      | none => .panic
    | .pcre (.json (.str s)) => match C.pcre s with
      | some r => .ok ⟨.pcre r, true⟩
      | none => .panic
    | .time (.json (.str s)) => match E.parseTime s with
      | some t => .ok ⟨.time t, true⟩
      | none => .panic
    | .func n ps => paramVals X C x (fnameOf n).arity ps >>= fun vs => applyFn X (fnameOf n) vs
    | _ => .panic
  def paramVals (X : Fns E) (C : Comp E) (x : FV E) : Nat → Exprs E → Res (List (FV E))
    | 0, _ => .ok []
    | _ + 1, .nil => .ok []
    | n + 1, .cons p ps => paramVal X C x p >>= fun v => paramVals X C x n ps >>= fun vs => .ok (v :: vs)
end

/-- Whether a comparison holds between two values. -/
def cmpHolds : Cmp → FV E → FV E → Bool
  | .eq, l, r => (equals l r).1
  | .ne, l, r => !(equals l r).1
  | .lt, l, r => decide ((compare l r).1 < 0)
  | .le, l, r => decide ((compare l r).1 ≤ 0)
  | .gt, l, r => decide ((compare l r).1 > 0)
  | .ge, l, r => decide ((compare l r).1 ≥ 0)
  | .like, l, r => (matchesRe l r).1

/-- Whether the comparison `c l r` holds when the field it mentions has the value `x`. -/
def condHolds (X : Fns E) (C : Comp E) (c : Cmp) (l r : Expr E) (x : D) : Bool :=
  match valOf x >>= fun v => paramVal X C v l >>= fun a => paramVal X C v r >>= fun b => .ok (cmpHolds c a b) with
  | .ok b => b
  | _ => false

/-- The elements of an array. -/
def esList : Es → List D
  | .nil => []
  | .cons d _ _ r => d :: esList r

/-- The first array among values, as its elements. -/
def firstArr : List D → Option (List D)
  | [] => none
  | .arr _ es :: _ => some (esList es)
  | _ :: l => firstArr l

def kNot (x : Option Bool) : Option Bool := x.map (!·)

/-- Three-valued conjunction and disjunction. -/
def kAnd : Option Bool → Option Bool → Option Bool
  | some false, _ => some false
  | _, some false => some false
  | some true, some true => some true
  | _, _ => none

def kOr (x y : Option Bool) : Option Bool := kNot (kAnd (kNot x) (kNot y))

mutual
  /-- Value of an expression on `d`, `none` if it depends on a missing field (a field is missing if there is no value at its path;
  with repeated keys the first value counts; an array field is missing if there is no array at its path). -/
  def sem (X : Fns E) (C : Comp E) : Expr E → D → Option Bool
    | .cmp c l r, d => (walk (condPath l r) d).head?.map (condHolds X C c l r)
    | .exist e, d => (walk (condPath e e) d).head?.map (fun _ => true)
    | .notExist e, d => (walk (condPath e e) d).head?.map (fun _ => false)
    | .not e, d => kNot (sem X C e d)
    | .and es, d => semAll X C es d
    | .or es, d => semAny X C es d
    | .loop m _ i s, d => (firstArr (walk (inPath i) d)).map (Mode.holds m (fun x => decide (sem X C s x = some true)))
    | _, _ => none
  def semAll (X : Fns E) (C : Comp E) : Exprs E → D → Option Bool
    | .nil, _ => some true
    | .cons e r, d => kAnd (sem X C e d) (semAll X C r d)
  def semAny (X : Fns E) (C : Comp E) : Exprs E → D → Option Bool
    | .nil, _ => some false
    | .cons e r, d => kOr (sem X C e d) (semAny X C r d)
end

mutual
  /-- Value of an expression all of whose fields are missing. -/
  def blank : Expr E → Bool
    | .cmp c _ _ => decide (c = .ne)
    | .exist _ => false
    | .notExist _ => true
    | .not e => !blank e
    | .and es => blankAll es
    | .or es => blankAny es
    | .loop _ _ _ s => blank s
    | _ => false
  def blankAll : Exprs E → Bool
    | .nil => true
    | .cons e r => blank e && blankAll r
  def blankAny : Exprs E → Bool
    | .nil => false
    | .cons e r => blank e || blankAny r
end

mutual
  /-- Verdict on a document: conditions on missing fields are false (so their negations are true). -/
  def top (X : Fns E) (C : Comp E) : Expr E → D → Bool
    | .cmp c l r, d => ((walk (condPath l r) d).head?.map (condHolds X C c l r)).getD (decide (c = .ne))
    | .exist e, d => (walk (condPath e e) d).head?.isSome
    | .notExist e, d => !(walk (condPath e e) d).head?.isSome
    | .not e, d => !top X C e d
    | .and es, d => topAll X C es d
    | .or es, d => topAny X C es d
    | .loop m _ i s, d =>
      ((firstArr (walk (inPath i) d)).map (Mode.holds m (fun x => decide (sem X C s x = some true)))).getD (blank s)
    | _, _ => false
  def topAll (X : Fns E) (C : Comp E) : Exprs E → D → Bool
    | .nil, _ => true
    | .cons e r, d => top X C e d && topAll X C r d
  def topAny (X : Fns E) (C : Comp E) : Exprs E → D → Bool
    | .nil, _ => false
    | .cons e r, d => top X C e d || topAny X C r d
end

/-! ### Specification: documents on which the matcher sees the values it needs -/

mutual
  /-- Paths of the conditions and of the arrays of the loops (`true`), outside the bodies of loops. -/
  def conds : Expr E → List (Path × Bool)
    | .cmp _ l r => [(condPath l r, false)]
    | .exist e => [(condPath e e, false)]
    | .notExist e => [(condPath e e, false)]
    | .not e => conds e
    | .and es => condsAll es
    | .or es => condsAll es
    | .loop _ _ i _ => [(inPath i, true)]
    | _ => []
  def condsAll : Exprs E → List (Path × Bool)
    | .nil => []
    | .cons e r => conds e ++ condsAll r
end

/-- Conditions do not read empty arrays (unless these are looped over), nor empty objects below which there are other conditions;
no condition lies below an array that is looped over. -/
structure RegularAt (L : List (Path × Bool)) (d : D) : Prop where
  arr : ∀ p, (p, false) ∈ L → ∀ x ∈ walk p d, EmptyArr x → (p, true) ∈ L
  obj : ∀ p, (p, false) ∈ L → ∀ x ∈ walk p d, EmptyObj x → ∀ k p' b, (p ++ k :: p', b) ∉ L
  loops : ∀ q, (q, true) ∈ L → ∀ k p b, (q ++ k :: p, b) ∈ L → ∀ x ∈ walk q d, ¬ IsArr x

/-- The elements of a value, if it is an array. -/
def elements : D → List D
  | .arr _ es => esList es
  | _ => []

mutual
  /-- The same for the elements of the arrays, in the bodies of the loops. -/
  def Inner : Expr E → D → Prop
    | .not e, d => Inner e d
    | .and es, d => InnerAll es d
    | .or es, d => InnerAll es d
    | .loop _ _ i s, d => ∀ x ∈ walk (inPath i) d, ∀ y ∈ elements x, RegularAt (conds s) y ∧ Inner s y
    | _, _ => True
  def InnerAll : Exprs E → D → Prop
    | .nil, _ => True
    | .cons e r, d => Inner e d ∧ InnerAll r d
end

/-! ### The items an expression adds -/

mutual
  def eItems (C : Comp E) : Expr E → Nat → List (Path × Item E)
    | .cmp c l r, b => [(condPath l r, .op ⟨if c = .ne then b + 1 else b, opOf c, sideOf C l, sideOf C r⟩)]
    | .exist e, b => [(condPath e e, .op ⟨b, .exists_, sideOf C e, none⟩)]
    | .notExist e, b => [(condPath e e, .op ⟨b + 1, .exists_, sideOf C e, none⟩)]
    | .not e, b => eItems C e (b + 1)
    | .and es, b => eItemsAll C es b
    | .or es, b => eItemsAll C es b
    | .loop m _ i s, b => [(inPath i, .loop (b + 1) m none (ins C s (b + 1) emptyExec))]
    | _, _ => []
  def eItemsAll (C : Comp E) : Exprs E → Nat → List (Path × Item E)
    | .nil, _ => []
    | .cons e .nil, b => eItems C e b
    | .cons e (.cons e' r), b => eItems C e (b + 1) ++ eItemsAll C (.cons e' r) (b + 1 + (shape e).size)
end

theorem shapes_size (o o' : BinOp) : ∀ es : Exprs E, (shapes o es).size = (shapes o' es).size
  | .nil => rfl
  | .cons e .nil => by simp [shapes]
  | .cons e (.cons e' r) => by simp [shapes, Sh.size, shapes_size o o' (.cons e' r)]

/-- All buckets lie within a range. -/
def Within (b n : Nat) (L : List (Path × Item E)) : Prop := ∀ x ∈ L, b ≤ x.2.bucket ∧ x.2.bucket < b + n

theorem Within.mono {b n b' n' : Nat} {L : List (Path × Item E)} (h : Within b n L) (h1 : b' ≤ b) (h2 : b + n ≤ b' + n') : Within b' n' L := by
  intro x hx; have := h x hx; omega

mutual
  theorem eItems_within (C : Comp E) : ∀ (e : Expr E) (v : Int) (b : Nat), Frag C v e → Within b (shape e).size (eItems C e b)
    | .cmp c l r, v, b, h => by
      intro x hx
      rw [eItems, List.mem_singleton] at hx
      subst hx
      cases c <;> simp [Item.bucket, shape, Sh.size]
    | .exist e, v, b, h => by
      intro x hx; rw [eItems, List.mem_singleton] at hx; subst hx; simp [Item.bucket, shape, Sh.size]
    | .notExist e, v, b, h => by
      intro x hx; rw [eItems, List.mem_singleton] at hx; subst hx; simp [Item.bucket, shape, Sh.size]
    | .not e, v, b, h => by
      rw [eItems, shape, Sh.size]
      exact (eItems_within C e v (b + 1) h).mono (by omega) (by omega)
    | .and es, v, b, h => by rw [eItems, shape]; exact eItemsAll_within C es .and v b h
    | .or es, v, b, h => by rw [eItems, shape]; exact eItemsAll_within C es .or v b h
    | .loop m w i s, v, b, h => by
      intro x hx; rw [eItems, List.mem_singleton] at hx; subst hx
      have := (shape s).size_pos
      simp only [Item.bucket, shape, Sh.size]; omega
    | .tru, v, b, h | .fals, v, b, h => by intro x hx; simp [eItems] at hx
    | .value _, v, b, h | .regex _, v, b, h | .pcre _, v, b, h | .time _, v, b, h
    | .field _, v, b, h | .func .., v, b, h => by simp [Frag] at h
  theorem eItemsAll_within (C : Comp E) : ∀ (es : Exprs E) (o : BinOp) (v : Int) (b : Nat), Frags C v es →
      Within b (shapes o es).size (eItemsAll C es b)
    | .nil, o, v, b, h => by simp [Frags] at h
    | .cons e .nil, o, v, b, h => by
      rw [Frags] at h; rw [eItemsAll, shapes]; exact eItems_within C e v b h
    | .cons e (.cons e' r), o, v, b, h => by
      rw [Frags] at h; rw [eItemsAll, shapes, Sh.size]
      intro x hx
      rcases List.mem_append.1 hx with hx | hx
      · exact (eItems_within C e v (b + 1) h.1).mono (by omega) (by omega) x hx
      · exact (eItemsAll_within C (.cons e' r) o v _ h.2).mono (by omega) (by omega) x hx
end

theorem mem_perm_bound {L L' L'' : List (Path × Item E)} {b b' n : Nat} (hp : L'.Perm (L'' ++ L)) (hL : ∀ x ∈ L, x.2.bucket < b)
    (hw : Within b' n L'') (h1 : b ≤ b' + n) : ∀ x ∈ L', x.2.bucket < b' + n := by
  intro x hx
  rcases List.mem_append.1 (hp.mem_iff.1 hx) with h | h
  · exact (hw x h).2
  · have := hL x h; omega

theorem noLoop_of_lt {n : Exec E} {b : Nat} (h : ∀ x ∈ items n, x.2.bucket < b) : NoLoop b n := by
  intro x hx
  have := h x hx
  constructor <;> intro b' m t e he <;> rw [he] at this <;> simp only [Item.bucket] at this <;> omega

/-- What `ins` does to a node. -/
structure Adds1 (L : List (Path × Item E)) (n n' : Exec E) : Prop where
  tidy : n'.Tidy
  full : n'.Full
  perm : (items n').Perm (L ++ items n)
  notes : (notes n').Perm (notes n)

theorem addOp_full (op : Op E) (n : Exec E) (h : n.Full) : (addOp op n).Full ∧ (items (addOp op n) ≠ [] ∨ notes (addOp op n) ≠ []) := by
  constructor
  · obtain ⟨st, es, ops, ls, a⟩ := n; exact h
  · left; intro h0
    have := (addOp_items op n).length_eq
    rw [h0] at this; simp at this

theorem loops_snoc_full {b m t} {e : Exec E} (he : e.Full) : ∀ ls : Loops E, ls.Full → (Loops.snoc ls b m t e).Full
  | .nil, _ => ⟨he, trivial⟩
  | .cons .., h => ⟨h.1, loops_snoc_full he _ h.2⟩

theorem addLoop_full (b : Nat) (m : Mode) (t : Option (Ref E)) {e : Exec E} (he : e.Full) (n : Exec E) (h : n.Full) :
    (addLoop b m t e n).Full ∧ (items (addLoop b m t e n) ≠ [] ∨ notes (addLoop b m t e n) ≠ []) := by
  constructor
  · obtain ⟨st, es, ops, ls, a⟩ := n; exact ⟨h.1, loops_snoc_full he ls h.2.1, h.2.2⟩
  · left; intro h0
    have := (addLoop_items b m t e n).length_eq
    rw [h0] at this; simp at this

theorem adds_op (p : Path) (op : Op E) {n : Exec E} (ht : n.Tidy) (hf : n.Full) : Adds1 [(p, .op op)] n (update (keys p) (addOp op) n) where
  tidy := update_key_tidy (fun n h => addOp_tidy op n h) p n ht
  full := (update_key_full (fun n h => addOp_full op n h) p n hf).1
  perm := by
    have := update_key_items (P := fun _ => True) trivial (fun _ _ _ _ _ _ _ _ _ => trivial) (fun n _ => addOp_items op n) p n trivial ht
    simpa [underPath, keys] using this
  notes := update_key_notes (new := []) (fun n => by rw [addOp_notes]; exact .refl _) p n

theorem alter_congr {b : Nat} {f g : Exec E → Exec E} (hfg : ∀ n, NoLoop b n → f n = g n) {k : List Nat} : ∀ es : Elems E,
    (∀ x ∈ itemsE es, (∀ b' m t e, x.2 = .loop b' m t e → b' ≠ b) ∧ (∀ b' m t e, x.2 = .aloop b' m t e → b' ≠ b)) →
    alterElems k f es = alterElems k g es
  | .nil, _ => by simp only [alterElems]; rw [hfg _ (noLoop_empty b)]
  | .cons k' e r, h => by
    simp only [alterElems]
    split
    · rename_i hk
      subst hk
      rw [hfg e (fun x hx => h (k' :: x.1, x.2) (by
        rw [itemsE]; exact List.mem_append_left _ (List.mem_map.2 ⟨x, hx, rfl⟩)))]
    · rw [alter_congr hfg r (fun x hx => h x (by rw [itemsE]; exact List.mem_append_right _ hx))]

/-- Below a node without a loop for the bucket, finding the loop to extend is adding a new one. -/
theorem update_congr {b : Nat} {m : Mode} {g : Exec E → Exec E} : ∀ (p : Path) (n : Exec E), NoLoop b n →
    update (keys p) (addBody b m g) n = update (keys p) (addLoop b m none (g emptyExec)) n
  | [], n, h => addBody_eq h
  | k :: p, .mk st es ops ls a, h => by
    have := alter_congr (k := k) (fun n hn => update_congr (m := m) (g := g) p n hn) es (fun x hx => h x (by
      rw [items]; exact List.mem_append_right _ (List.mem_append_left _ hx)))
    simp only [keys] at this
    simp only [keys, List.map_cons, update, this]

theorem adds_loop (p : Path) (b : Nat) (m : Mode) {g : Exec E → Exec E} {n : Exec E} (ht : n.Tidy) (hf : n.Full) (hb : NoLoop b n)
    (hgt : (g emptyExec).Tidy) (hgf : (g emptyExec).Full) :
    Adds1 [(p, .loop b m none (g emptyExec))] n (update (keys p) (addBody b m g) n) := by
  have hcong : update (keys p) (addBody b m g) n = update (keys p) (addLoop b m none (g emptyExec)) n :=
    update_congr p n hb
  rw [hcong]
  exact ⟨update_key_tidy (fun n h => addLoop_tidy b m none hgt n h) p n ht,
    (update_key_full (fun n h => addLoop_full b m none hgf n h) p n hf).1, by
    have := update_key_items (P := fun _ => True) trivial (fun _ _ _ _ _ _ _ _ _ => trivial)
      (fun n _ => addLoop_items b m none (g emptyExec) n) p n trivial ht
    simpa [underPath, keys] using this,
    update_key_notes (new := []) (fun n => by rw [addLoop_notes]; exact .refl _) p n⟩

theorem Adds1.trans {L L' : List (Path × Item E)} {n n' n'' : Exec E} (h : Adds1 L n n') (h' : Adds1 L' n' n'') : Adds1 (L ++ L') n n'' where
  tidy := h'.tidy
  full := h'.full
  perm := by
    refine h'.perm.trans ?_
    refine (h.perm.append_left L').trans ?_
    rw [← List.append_assoc]
    exact List.Perm.append_right _ List.perm_append_comm
  notes := h'.notes.trans h.notes

mutual
  /-- `ins` adds the items of the expression. -/
  theorem ins_adds (C : Comp E) : ∀ (e : Expr E) (v : Int) (b : Nat) (n : Exec E), Frag C v e → n.Tidy → n.Full →
      (∀ x ∈ items n, x.2.bucket < b) → Adds1 (eItems C e b) n (ins C e b n)
    | .cmp c l r, v, b, n, h, ht, hf, _ => by rw [eItems, ins]; exact adds_op _ _ ht hf
    | .exist e, v, b, n, h, ht, hf, _ => by rw [eItems, ins]; exact adds_op _ _ ht hf
    | .notExist e, v, b, n, h, ht, hf, _ => by rw [eItems, ins]; exact adds_op _ _ ht hf
    | .not e, v, b, n, h, ht, hf, hb => by
      rw [eItems, ins]; exact ins_adds C e v (b + 1) n h ht hf (fun x hx => Nat.lt_succ_of_lt (hb x hx))
    | .and es, v, b, n, h, ht, hf, hb => by rw [eItems, ins]; exact insAll_adds C es v b n h ht hf hb
    | .or es, v, b, n, h, ht, hf, hb => by rw [eItems, ins]; exact insAll_adds C es v b n h ht hf hb
    | .loop m w i s, v, b, n, h, ht, hf, hb => by
      rw [eItems, ins]
      have := ins_adds C s w (b + 1) emptyExec h.2.2.2 emptyExec_tidy emptyExec_full (by rw [emptyExec_items]; intro x hx; cases hx)
      exact adds_loop _ _ _ ht hf (noLoop_of_lt (fun x hx => Nat.lt_succ_of_lt (hb x hx))) this.tidy this.full
    | .tru, v, b, n, h, ht, hf, _ | .fals, v, b, n, h, ht, hf, _ => by simpa [eItems, ins] using ⟨ht, hf, List.Perm.refl _, List.Perm.refl _⟩
    | .value _, v, b, n, h, _, _, _ | .regex _, v, b, n, h, _, _, _
    | .pcre _, v, b, n, h, _, _, _ | .time _, v, b, n, h, _, _, _ | .field _, v, b, n, h, _, _, _ | .func .., v, b, n, h, _, _, _ => by
      simp [Frag] at h
  theorem insAll_adds (C : Comp E) : ∀ (es : Exprs E) (v : Int) (b : Nat) (n : Exec E), Frags C v es → n.Tidy → n.Full →
      (∀ x ∈ items n, x.2.bucket < b) → Adds1 (eItemsAll C es b) n (insAll C es b n)
    | .nil, v, b, n, h, _, _, _ => by simp [Frags] at h
    | .cons e .nil, v, b, n, h, ht, hf, hb => by
      rw [Frags] at h; rw [eItemsAll, insAll]; exact ins_adds C e v b n h ht hf hb
    | .cons e (.cons e' r), v, b, n, h, ht, hf, hb => by
      rw [Frags] at h; rw [eItemsAll, insAll]
      have h1 := ins_adds C e v (b + 1) n h.1 ht hf (fun x hx => Nat.lt_succ_of_lt (hb x hx))
      have hw := eItems_within C e v (b + 1) h.1
      refine h1.trans (insAll_adds C (.cons e' r) v _ _ h.2 h1.tidy h1.full ?_)
      exact mem_perm_bound h1.perm hb hw (by omega)
end

/-! ### Conditions -/

mutual
  theorem resolve_param (X : Fns E) (C : Comp E) {v : Int} {p : Path} (rd : Nat → Res (FV E)) (x : FV E) : ∀ e : Expr E, Param C v p e →
      resolveParam X rd (some x) (refOf C e) = paramVal X C x e
    | .field f, _ => by rw [refOf, resolveParam, paramVal]
    | .value g, _ => by rw [refOf, resolveParam, paramVal]
    | .regex g, h => by obtain ⟨s, r, rfl, hr⟩ := h; simp [refOf, paramVal, hr, resolveParam]
    | .pcre g, h => by obtain ⟨s, r, rfl, hr⟩ := h; simp [refOf, paramVal, hr, resolveParam]
    | .time g, h => by obtain ⟨s, r, rfl, hr⟩ := h; simp [refOf, paramVal, hr, resolveParam]
    | .func n ps, h => by rw [refOf, resolveParam, paramVal, resolve_params X C rd x ps _ h]
    | .tru, h | .fals, h | .not _, h | .and _, h | .or _, h | .loop .., h | .exist _, h | .notExist _, h | .cmp .., h => by
      simp [Param] at h
  theorem resolve_params (X : Fns E) (C : Comp E) {v : Int} {p : Path} (rd : Nat → Res (FV E)) (x : FV E) : ∀ (es : Exprs E) (n : Nat),
      Params C v p es → resolveParams X rd (some x) n (refsOf C es) = paramVals X C x n es
    | .nil, n, _ => by cases n <;> simp [refsOf, resolveParams, paramVals]
    | .cons e r, n, h => by
      cases n with
      | zero => simp [resolveParams, paramVals]
      | succ n => rw [refsOf, resolveParams, paramVals, resolve_param X C rd x e h.1, resolve_params X C rd x r n h.2]
end

theorem refOf_not_slot {C : Comp E} {v : Int} {p : Path} {e : Expr E} (h : Param C v p e) : ∀ s, refOf C e ≠ .slot s := by
  intro s
  cases e with
  | regex g => obtain ⟨s', r, rfl, hr⟩ := h; simp [refOf, hr]
  | pcre g => obtain ⟨s', r, rfl, hr⟩ := h; simp [refOf, hr]
  | time g => obtain ⟨s', r, rfl, hr⟩ := h; simp [refOf, hr]
  | _ => simp [refOf]

theorem side_param (X : Fns E) (C : Comp E) {v : Int} {p : Path} (rd : Nat → Res (FV E)) (x : FV E) {e : Expr E} (h : Param C v p e) :
    opSide X rd (some x) (sideOf C e) = paramVal X C x e >>= fun y => .ok (y, false) := by
  have hs : ∀ e' : Expr E, Param C v p e' → opSide X rd (some x) (some (refOf C e')) = paramVal X C x e' >>= fun y => .ok (y, false) := by
    intro e' h'
    rw [opSide, resolve_param X C rd x e' h']
    congr 1; funext y
    congr 2
    have := refOf_not_slot h'
    split
    · rename_i s hs; exact absurd hs (this s)
    · rfl
  cases e with
  | field f => simp [sideOf, opSide, paramVal]
  | _ => exact hs _ h

theorem op_cond (X : Fns E) (C : Comp E) {v : Int} {p : Path} (rd : Nat → Res (FV E)) {l r : Expr E} (hl : Param C v p l)
    (hr : Param C v p r) (b : Nat) (c : Cmp) {x : D} {y : FV E} (hy : valOf x = .ok y) {q : Bool × Bool}
    (h : opResult X rd (some y) ⟨b, opOf c, sideOf C l, sideOf C r⟩ = .ok q) :
    q.1 = (if c = .ne then !condHolds X C c l r x else condHolds X C c l r x) := by
  rw [opResult, side_param X C rd y hl] at h
  simp only at h
  obtain ⟨a', ha', h⟩ := Res.bind_eq_ok.1 h
  obtain ⟨a, ha, ha'⟩ := Res.bind_eq_ok.1 ha'
  cases ha'
  rw [side_param X C rd y hr] at h
  obtain ⟨d', hd', h⟩ := Res.bind_eq_ok.1 h
  obtain ⟨d, hd, hd'⟩ := Res.bind_eq_ok.1 hd'
  cases hd'
  simp only [Bool.or_self, Bool.false_eq_true, if_false] at h
  simp only [condHolds, hy, Res.bind_ok, ha, hd]
  obtain ⟨o, ho, h⟩ := Res.bind_eq_ok.1 h
  cases h
  cases c <;> simp only [opOf, evalOp] at ho <;> cases ho <;> simp [cmpHolds]

theorem op_exists (X : Fns E) (C : Comp E) {v : Int} {p : Path} (rd : Nat → Res (FV E)) {e : Expr E} (he : Param C v p e) (b : Nat)
    {y : FV E} {q : Bool × Bool} (h : opResult X rd (some y) ⟨b, .exists_, sideOf C e, none⟩ = .ok q) : q.1 = true := by
  rw [opResult, side_param X C rd y he] at h
  simp only at h
  obtain ⟨a', ha', h⟩ := Res.bind_eq_ok.1 h
  obtain ⟨a, ha, ha'⟩ := Res.bind_eq_ok.1 ha'
  cases ha'
  simp only [opSide, Res.bind_ok, Bool.or_self, Bool.false_eq_true, if_false, evalOp] at h
  cases h; rfl

/-! ### Loops -/

theorem dItems_holds {rec : DRec E} {sh : Nat → Sh} {b : Nat} {m : Mode} {e : Exec E} {σ : Slots} {p : D → Bool} : ∀ (es : Es) (st v : Bool),
    dItems rec sh b m e σ es st = .ok v →
    (∀ x ∈ esList es, ∀ a, rec e x σ = .ok a → decide (K (sh b) b a.1.get = some true) = p x) →
    v = match m with
      | .any => if st then v else (esList es).any p
      | .every => if st then (esList es).all p else v
      | .anyEvery => if (esList es).isEmpty then st else (esList es).all p
  | .nil, st, v, h, _ => by
    cases h
    cases m <;> cases st <;> simp [esList]
  | .cons d _ _ rest, st, v, h, hp => by
    rw [dItems] at h
    obtain ⟨a, ha, h⟩ := Res.bind_eq_ok.1 h
    have h1 := hp d (by simp [esList]) a ha
    simp only [h1] at h
    have hp' : ∀ x ∈ esList rest, ∀ a, rec e x σ = .ok a → decide (K (sh b) b a.1.get = some true) = p x :=
      fun x hx => hp x (by rw [esList]; exact List.mem_cons_of_mem _ hx)
    cases hpd : p d
    · rw [hpd] at h
      cases m with
      | any =>
        simp only [Mode.leaves, Mode.next] at h
        have := dItems_holds rest st v h hp'
        simp only at this ⊢
        rw [esList, List.any_cons, hpd, Bool.false_or]
        exact this
      | every =>
        simp only [Mode.leaves] at h
        cases h
        simp [esList, hpd]
      | anyEvery =>
        simp only [Mode.leaves] at h
        cases h
        simp [esList, hpd]
    · rw [hpd] at h
      cases m with
      | any =>
        simp only [Mode.leaves] at h
        cases h
        simp [esList, hpd]
      | every =>
        simp only [Mode.leaves, Mode.next] at h
        have := dItems_holds rest st v h hp'
        simp only at this ⊢
        rw [esList, List.all_cons, hpd, Bool.true_and]
        exact this
      | anyEvery =>
        simp only [Mode.leaves, Mode.next] at h
        have := dItems_holds rest true v h hp'
        simp only at this ⊢
        rw [esList, List.all_cons, hpd, Bool.true_and]
        simp only [List.isEmpty_cons, Bool.false_eq_true, if_false]
        rw [this]
        cases he : esList rest <;> simp

theorem dItems_init {rec : DRec E} {sh : Nat → Sh} {b : Nat} {m : Mode} {e : Exec E} {σ : Slots} {p : D → Bool} {es : Es} {v : Bool}
    (h : dItems rec sh b m e σ es m.init = .ok v)
    (hp : ∀ x ∈ esList es, ∀ a, rec e x σ = .ok a → decide (K (sh b) b a.1.get = some true) = p x) : v = Mode.holds m p (esList es) := by
  have := dItems_holds es m.init v h hp
  rw [this]
  cases m <;> simp [Mode.init, Mode.holds]
  cases esList es <;> simp

/-! ### The compiled node -/

/-- Within the range `[b, b + n)` of buckets the node has the items `L`. -/
def Hosts (node : Exec E) (L : List (Path × Item E)) (b n : Nat) : Prop :=
  ∀ i, b ≤ i → i < b + n → (withBucket i (items node)).Perm (withBucket i L)

theorem withBucket_out {b n i : Nat} {L : List (Path × Item E)} (h : Within b n L) (hi : i < b ∨ b + n ≤ i) : withBucket i L = [] := by
  apply List.eq_nil_iff_forall_not_mem.2
  intro x hx
  obtain ⟨h1, h2⟩ := mem_withBucket.1 hx
  have := h x h1
  omega

theorem Hosts.left {node : Exec E} {L L' : List (Path × Item E)} {b n b' n' b'' n'' : Nat} (h : Hosts node (L ++ L') b n) (hL' : Within b'' n'' L')
    (h1 : b ≤ b') (h2 : b' + n' ≤ b + n) (h3 : b' + n' ≤ b'') : Hosts node L b' n' := by
  intro i hi1 hi2
  have := h i (by omega) (by omega)
  rwa [withBucket_append, withBucket_out hL' (by omega), List.append_nil] at this

theorem Hosts.right {node : Exec E} {L L' : List (Path × Item E)} {b n b' n' b'' n'' : Nat} (h : Hosts node (L ++ L') b n) (hL : Within b'' n'' L)
    (h1 : b ≤ b') (h2 : b' + n' ≤ b + n) (h3 : b'' + n'' ≤ b') : Hosts node L' b' n' := by
  intro i hi1 hi2
  have := h i (by omega) (by omega)
  rwa [withBucket_append, withBucket_out hL (by omega), List.nil_append] at this

theorem Hosts.mono {node : Exec E} {L : List (Path × Item E)} {b n b' n' : Nat} (h : Hosts node L b n) (h1 : b ≤ b') (h2 : b' + n' ≤ b + n) :
    Hosts node L b' n' := fun i hi1 hi2 => h i (by omega) (by omega)

section
variable (X : Fns E) (C : Comp E) (sh : Nat → Sh) (r : D)

/-- A run of a node. -/
structure Ran (n : Exec E) (d : D) (l : Marks) : Prop where
  tidy : n.Tidy
  full : n.Full
  clear : Clear n d
  run : ∃ h σ a, dExec X sh r h n d σ = .ok a ∧ a.1 = l

variable {X C sh r}

theorem Ran.none {n : Exec E} {d : D} {l : Marks} (h : Ran X sh r n d l) {i : Nat} (hi : withBucket i (items n) = []) : l.get i = none := by
  obtain ⟨hh, σ, a, ha, rfl⟩ := h.run
  rw [get_of_sel, (dExec_decides X sh r hh n d σ a i ha h.tidy h.full h.clear).1 hi]
  rfl

theorem Ran.one {n : Exec E} {d : D} {l : Marks} (h : Ran X sh r n d l) {i : Nat} {p : Path} {it : Item E} (hi : withBucket i (items n) = [(p, it)])
    (hd : Direct it) {f : D → Option Bool}
    (hf : ∀ x ∈ walk p d, ∀ h σ l, itemMarks X sh r h it x σ = .ok l → l = (f x).toList.map (fun v => (i, v))) :
    l.get i = (walk p d).findSome? f := by
  obtain ⟨hh, σ, a, ha, rfl⟩ := h.run
  rw [get_of_sel, (dExec_decides X sh r hh n d σ a i ha h.tidy h.full h.clear).2 p it hi hd _ hf]
  induction walk p d with
  | nil => rfl
  | cons x w ih =>
    rw [List.flatMap_cons, List.findSome?_cons]
    cases hx : f x with
    | none => simpa using ih
    | some v => simp

theorem findSome_head {α β : Type} (g : α → β) (l : List α) : l.findSome? (fun x => some (g x)) = l.head?.map g := by
  cases l <;> rfl

/-- A condition. -/
theorem Ran.cond {n : Exec E} {d : D} {l : Marks} (h : Ran X sh r n d l) {i : Nat} {p : Path} {o : Op E}
    (hi : (withBucket i (items n)).Perm [(p, .op o)]) {g : D → Bool}
    (hg : ∀ x ∈ walk p d, ∀ y, valOf x = .ok y → ∀ rd q, opResult X rd (some y) o = .ok q → q.1 = g x) :
    l.get i = (walk p d).head?.map g := by
  have hi' := List.perm_singleton.1 hi
  have hb : o.bucket = i := by
    have hm : (p, Item.op o) ∈ withBucket i (items n) := by rw [hi']; exact List.mem_singleton.2 rfl
    exact (mem_withBucket.1 hm).2
  rw [h.one hi' trivial (f := fun x => some (g x)) ?_, findSome_head]
  intro x hx hh σ l' hl
  rw [itemMarks] at hl
  obtain ⟨y, hy, hl⟩ := Res.bind_eq_ok.1 hl
  obtain ⟨q, hq, hl⟩ := Res.bind_eq_ok.1 hl
  cases hl
  simp [hg x hx y hy _ q hq, hb]

theorem firstArr_find (p : List D → Bool) : ∀ l : List D,
    l.findSome? (fun x => match x with | .arr _ es => some (p (esList es)) | _ => none) = (firstArr l).map p
  | [] => rfl
  | .arr _ es :: l => rfl
  | .lit _ _ :: l => by rw [List.findSome?_cons]; exact firstArr_find p l
  | .obj _ _ :: l => by rw [List.findSome?_cons]; exact firstArr_find p l

theorem kBin_and (x y : Option Bool) : BinTree.kBin .and x y = kAnd x y := by
  rcases x with _ | _ | _ <;> rcases y with _ | _ | _ <;> rfl

theorem kBin_or (x y : Option Bool) : BinTree.kBin .or x y = kOr x y := by
  rcases x with _ | _ | _ <;> rcases y with _ | _ | _ <;> rfl

theorem kAnd_true (x : Option Bool) : kAnd x (some true) = x := by rcases x with _ | _ | _ <;> rfl
theorem kOr_false (x : Option Bool) : kOr x (some false) = x := by rcases x with _ | _ | _ <;> rfl

theorem K_none : ∀ (s : Sh) (b : Nat) (p : Nat → Option Bool), (∀ i, b ≤ i → i < b + s.size → p i = none) → K s b p = none
  | .leaf, b, p, h => h b (by omega) (by simp [Sh.size])
  | .un o a, b, p, h => by
    rw [Sh.size] at h
    rw [K, h b (by omega) (by omega), K_none a (b + 1) p (fun i h1 h2 => h i (by omega) (by omega))]
    cases o <;> rfl
  | .bin o a c, b, p, h => by
    rw [Sh.size] at h
    rw [K, h b (by omega) (by omega), K_none a (b + 1) p (fun i h1 h2 => h i (by omega) (by omega)),
      K_none c (b + 1 + a.size) p (fun i h1 h2 => h i (by omega) (by omega))]
    cases o <;> rfl

mutual
  /-- A tree none of whose positions is decided. -/
  theorem blank_eval : ∀ (e : Expr E) (v : Int) (b : Nat) (p : Nat → Option Bool), Frag C v e →
      (∀ i, b ≤ i → i < b + (shape e).size → p i = none) → (shape e).evalM b p = blank e
    | .cmp c l r, v, b, p, h, hp => by
      cases c <;> simp_all [shape, Sh.evalM, Sh.size, blank, UnOp.eval]
    | .exist e, v, b, p, h, hp => by simp_all [shape, Sh.evalM, Sh.size, blank]
    | .notExist e, v, b, p, h, hp => by simp_all [shape, Sh.evalM, Sh.size, blank, UnOp.eval]
    | .not e, v, b, p, h, hp => by
      rw [shape, Sh.size] at hp
      rw [shape, Sh.evalM, hp b (by omega) (by omega), blank,
        blank_eval e v (b + 1) p h (fun i h1 h2 => hp i (by omega) (by omega))]
      rfl
    | .and es, v, b, p, h, hp => by rw [shape] at hp ⊢; rw [blank]; exact blankAll_eval es v b p h hp
    | .or es, v, b, p, h, hp => by rw [shape] at hp ⊢; rw [blank]; exact blankAny_eval es v b p h hp
    | .loop m w i s, v, b, p, h, hp => by
      rw [shape, Sh.size] at hp
      rw [shape, Sh.evalM, hp b (by omega) (by omega), blank,
        blank_eval s w (b + 1) p h.2.2.2 (fun i h1 h2 => hp i (by omega) (by omega))]
      rfl
    | .tru, v, b, p, h, hp | .fals, v, b, p, h, hp => by simp_all [shape, Sh.evalM, Sh.size, blank]
    | .value _, v, b, n, h, _ | .regex _, v, b, n, h, _
    | .pcre _, v, b, n, h, _ | .time _, v, b, n, h, _ | .field _, v, b, n, h, _ | .func .., v, b, n, h, _ => by
      simp [Frag] at h
  theorem blankAll_eval : ∀ (es : Exprs E) (v : Int) (b : Nat) (p : Nat → Option Bool), Frags C v es →
      (∀ i, b ≤ i → i < b + (shapes .and es).size → p i = none) → (shapes .and es).evalM b p = blankAll es
    | .nil, v, b, p, h, hp => by simp [Frags] at h
    | .cons e .nil, v, b, p, h, hp => by
      rw [Frags] at h
      rw [shapes] at hp ⊢
      rw [blankAll, blankAll, Bool.and_true]
      exact blank_eval e v b p h hp
    | .cons e (.cons e' r), v, b, p, h, hp => by
      rw [Frags] at h
      rw [shapes, Sh.size] at hp
      rw [shapes, Sh.evalM, hp b (by omega) (by omega), blankAll,
        blank_eval e v (b + 1) p h.1 (fun i h1 h2 => hp i (by omega) (by omega)),
        blankAll_eval (.cons e' r) v (b + 1 + (shape e).size) p h.2 (fun i h1 h2 => hp i (by omega) (by omega))]
      rfl
  theorem blankAny_eval : ∀ (es : Exprs E) (v : Int) (b : Nat) (p : Nat → Option Bool), Frags C v es →
      (∀ i, b ≤ i → i < b + (shapes .or es).size → p i = none) → (shapes .or es).evalM b p = blankAny es
    | .nil, v, b, p, h, hp => by simp [Frags] at h
    | .cons e .nil, v, b, p, h, hp => by
      rw [Frags] at h
      rw [shapes] at hp ⊢
      rw [blankAny, blankAny, Bool.or_false]
      exact blank_eval e v b p h hp
    | .cons e (.cons e' r), v, b, p, h, hp => by
      rw [Frags] at h
      rw [shapes, Sh.size] at hp
      rw [shapes, Sh.evalM, hp b (by omega) (by omega), blankAny,
        blank_eval e v (b + 1) p h.1 (fun i h1 h2 => hp i (by omega) (by omega)),
        blankAny_eval (.cons e' r) v (b + 1 + (shape e).size) p h.2 (fun i h1 h2 => hp i (by omega) (by omega))]
      rfl
end

/-- `Clear` from regularity. -/
theorem clear_of_regular {n : Exec E} {L : List (Path × Item E)} {cs : List (Path × Bool)} {d : D} (hp : (items n).Perm L)
    (hnn : notes n = [])
    (hL : ∀ p it, (p, it) ∈ L → (∃ o, it = .op o ∧ (p, false) ∈ cs) ∨ (∃ b m t e, it = .loop b m t e ∧ (p, true) ∈ cs))
    (hL' : ∀ p, (p, true) ∈ cs → ∃ b m t e, (p, Item.loop b m t e) ∈ L) (h : RegularAt cs d) : Clear n d := by
  have hop : ∀ p, Reads n p → (p, false) ∈ cs := by
    rintro p (⟨o, ho⟩ | ⟨s, ho⟩)
    · rcases hL p _ (hp.mem_iff.1 ho) with ⟨_, _, h⟩ | ⟨_, _, _, _, h, _⟩
      · exact h
      · cases h
    · rw [hnn] at ho; cases ho
  have hany : ∀ p, Content n p → ∃ b, (p, b) ∈ cs := by
    rintro p (⟨it, ho⟩ | ⟨s, ho⟩)
    · rcases hL p _ (hp.mem_iff.1 ho) with ⟨_, _, h⟩ | ⟨_, _, _, _, _, h⟩
      · exact ⟨_, h⟩
      · exact ⟨_, h⟩
    · rw [hnn] at ho; cases ho
  refine ⟨fun p ho x hx he => ?_, fun p ho x hx he k p' hit => ?_, fun q b m t e hq k p hit x hx => ?_⟩
  · obtain ⟨b, m, t, e, hm⟩ := hL' p (h.arr p (hop p ho) x hx he)
    exact ⟨b, m, t, e, hp.mem_iff.2 hm⟩
  · obtain ⟨b, hb⟩ := hany _ hit
    exact h.obj p (hop p ho) x hx he k p' b hb
  · have hq' : (q, true) ∈ cs := by
      rcases hL q _ (hp.mem_iff.1 hq) with ⟨_, h, _⟩ | ⟨_, _, _, _, _, h⟩
      · cases h
      · exact h
    obtain ⟨b', hb'⟩ := hany _ hit
    exact h.loops q hq' k p b' hb' x hx

/-- The kind of an item. -/
def kind : Path × Item E → Path × Bool
  | (p, .loop ..) => (p, true)
  | (p, _) => (p, false)

mutual
  theorem kind_eItems : ∀ (e : Expr E) (v : Int) (b : Nat), Frag C v e → (eItems C e b).map kind = conds e ∧
      ∀ x ∈ eItems C e b, Direct x.2
    | .cmp c l r, v, b, h => by simp [eItems, conds, kind, Direct]
    | .exist e, v, b, h => by simp [eItems, conds, kind, Direct]
    | .notExist e, v, b, h => by simp [eItems, conds, kind, Direct]
    | .not e, v, b, h => by rw [eItems, conds]; exact kind_eItems e v (b + 1) h
    | .and es, v, b, h => by rw [eItems, conds]; exact kind_eItemsAll es v b h
    | .or es, v, b, h => by rw [eItems, conds]; exact kind_eItemsAll es v b h
    | .loop m w i s, v, b, h => by simp [eItems, conds, kind, Direct]
    | .tru, v, b, h | .fals, v, b, h => by simp [eItems, conds]
    | .value _, v, b, h | .regex _, v, b, h
    | .pcre _, v, b, h | .time _, v, b, h | .field _, v, b, h | .func .., v, b, h => by
      simp [Frag] at h
  theorem kind_eItemsAll : ∀ (es : Exprs E) (v : Int) (b : Nat), Frags C v es → (eItemsAll C es b).map kind = condsAll es ∧
      ∀ x ∈ eItemsAll C es b, Direct x.2
    | .nil, v, b, h => by simp [Frags] at h
    | .cons e .nil, v, b, h => by
      rw [Frags] at h
      rw [eItemsAll, condsAll, condsAll, List.append_nil]; exact kind_eItems e v b h
    | .cons e (.cons e' r), v, b, h => by
      rw [Frags] at h
      obtain ⟨a1, a2⟩ := kind_eItems e v (b + 1) h.1
      obtain ⟨b1, b2⟩ := kind_eItemsAll (.cons e' r) v (b + 1 + (shape e).size) h.2
      rw [eItemsAll, condsAll, List.map_append, a1, b1]
      refine ⟨rfl, fun x hx => ?_⟩
      rcases List.mem_append.1 hx with hx | hx
      · exact a2 x hx
      · exact b2 x hx
end

theorem clear_of_kind {n : Exec E} {L : List (Path × Item E)} {cs : List (Path × Bool)} {d : D} (hp : (items n).Perm L)
    (hnn : notes n = []) (hk : L.map kind = cs) (hd : ∀ x ∈ L, Direct x.2) (h : RegularAt cs d) : Clear n d := by
  subst hk
  refine clear_of_regular hp hnn ?_ ?_ h
  · intro p it hm
    have h2 := hd _ hm
    have h1 : kind (p, it) ∈ L.map kind := List.mem_map.2 ⟨_, hm, rfl⟩
    cases it with
    | op o => exact Or.inl ⟨o, rfl, h1⟩
    | loop b m t e => exact Or.inr ⟨b, m, t, e, rfl, h1⟩
    | aop o => exact absurd h2 id
    | aloop b m t e => exact absurd h2 id
  · intro p hm
    obtain ⟨⟨q, it⟩, hx, hy⟩ := List.mem_map.1 hm
    cases it with
    | loop b m t e => cases hy; exact ⟨b, m, t, e, hx⟩
    | op o => cases hy
    | aop o => cases hy
    | aloop b m t e => cases hy

mutual
  /-- The decisions of a node that hosts a compiled expression give its value. -/
  theorem sem_correct : ∀ (e : Expr E) (v : Int) (b : Nat) (n : Exec E) (d : D) (l : Marks), Frag C v e → ShOK sh (shape e) b → Inner e d →
      Hosts n (eItems C e b) b (shape e).size → Ran X sh r n d l →
      K (shape e) b l.get = sem X C e d ∧ (shape e).evalM b l.get = top X C e d
    | .cmp c l' r', v, b, n, d, l, h, _, _, hh, hr => by
      by_cases hne : c = .ne
      · subst hne
        have h0 : withBucket b (items n) = [] := by
          have := hh b (by omega) (by simp [shape, Sh.size])
          simpa [eItems, withBucket, Item.bucket] using this
        have h1 := hh (b + 1) (by omega) (by simp [shape, Sh.size])
        have hc := hr.cond (p := condPath l' r') (o := ⟨b + 1, opOf .ne, sideOf C l', sideOf C r'⟩)
          (g := fun x => !condHolds X C .ne l' r' x) (by simpa [eItems, withBucket, Item.bucket] using h1)
          (fun x _ y hy rd q hq => by have := op_cond X C rd h.1 h.2 _ .ne hy hq; simpa using this)
        simp only [shape, K, Sh.evalM, hr.none h0, hc, sem, top, BinTree.kUn, UnOp.eval]
        cases (walk (condPath l' r') d).head? <;> simp
      · have h1 := hh b (by omega) (by have := (shape (.cmp c l' r')).size_pos; omega)
        have hc := hr.cond (p := condPath l' r') (o := ⟨b, opOf c, sideOf C l', sideOf C r'⟩)
          (g := condHolds X C c l' r') (by simpa [eItems, withBucket, Item.bucket, hne] using h1)
          (fun x _ y hy rd q hq => by have := op_cond X C rd h.1 h.2 _ c hy hq; simpa [hne] using this)
        have hs : shape (.cmp c l' r') = .leaf := by cases c <;> first | rfl | exact absurd rfl hne
        simp only [hs, K, Sh.evalM, hc, sem, top]
        simp [hne]
    | .exist e, v, b, n, d, l, h, _, _, hh, hr => by
      have h1 := hh b (by omega) (by simp [shape, Sh.size])
      have hc := hr.cond (p := condPath e e) (o := ⟨b, .exists_, sideOf C e, none⟩)
        (g := fun _ => true) (by simpa [eItems, withBucket, Item.bucket] using h1)
        (fun x _ y hy rd q hq => op_exists X C rd h _ hq)
      simp only [shape, K, Sh.evalM, hc, sem, top]
      cases (walk (condPath e e) d).head? <;> simp
    | .notExist e, v, b, n, d, l, h, _, _, hh, hr => by
      have h0 : withBucket b (items n) = [] := by
        have := hh b (by omega) (by simp [shape, Sh.size])
        simpa [eItems, withBucket, Item.bucket] using this
      have h1 := hh (b + 1) (by omega) (by simp [shape, Sh.size])
      have hc := hr.cond (p := condPath e e) (o := ⟨b + 1, .exists_, sideOf C e, none⟩)
        (g := fun _ => true) (by simpa [eItems, withBucket, Item.bucket] using h1)
        (fun x _ y hy rd q hq => op_exists X C rd h _ hq)
      simp only [shape, K, Sh.evalM, hr.none h0, hc, sem, top, BinTree.kUn, UnOp.eval]
      cases (walk (condPath e e) d).head? <;> simp
    | .not e, v, b, n, d, l, h, hsh, hi, hh, hr => by
      have h0 : withBucket b (items n) = [] := by
        have := hh b (by omega) (by simp only [shape, Sh.size]; omega)
        rw [eItems, withBucket_out (eItems_within C e v (b + 1) h) (by omega)] at this
        exact List.perm_nil.1 this
      obtain ⟨k1, k2⟩ := sem_correct e v (b + 1) n d l h (fun s' i hs => hsh s' i (Or.inr hs)) (by rwa [Inner] at hi)
        (by rw [eItems] at hh; exact hh.mono (by omega) (by simp only [shape, Sh.size]; omega)) hr
      simp only [shape, K, Sh.evalM, hr.none h0, k1, k2, sem, top]
      exact ⟨rfl, rfl⟩
    | .and es, v, b, n, d, l, h, hsh, hi, hh, hr => by
      rw [shape] at hsh ⊢; rw [sem, top]; rw [Inner] at hi; rw [eItems, shape] at hh
      exact semAll_correct es v b n d l h hsh hi hh hr
    | .or es, v, b, n, d, l, h, hsh, hi, hh, hr => by
      rw [shape] at hsh ⊢; rw [sem, top]; rw [Inner] at hi; rw [eItems, shape] at hh
      exact semAny_correct es v b n d l h hsh hi hh hr
    | .loop m w i s, v, b, n, d, l, h, hsh, hi, hh, hr => by
      rw [Inner] at hi
      have hsub : ShOK sh (shape s) (b + 1) := fun s' i hs => hsh s' i (Or.inr hs)
      have hshb : sh (b + 1) = shape s := hsub _ _ (by cases shape s <;> simp [Sh.SubAt])
      have hsp := (shape s).size_pos
      have h0 : withBucket b (items n) = [] := by
        have := hh b (by omega) (by simp only [shape, Sh.size]; omega)
        simpa [eItems, withBucket, Item.bucket] using this
      have h1 := hh (b + 1) (by omega) (by simp only [shape, Sh.size]; omega)
      have h1' : withBucket (b + 1) (items n) = [(inPath i, .loop (b + 1) m none (ins C s (b + 1) emptyExec))] := by
        have := List.perm_singleton.1 (by simpa [eItems, withBucket, Item.bucket] using h1 :
          (withBucket (b + 1) (items n)).Perm [(inPath i, .loop (b + 1) m none (ins C s (b + 1) emptyExec))])
        exact this
      have hadds := ins_adds C s w (b + 1) emptyExec h.2.2.2 emptyExec_tidy emptyExec_full
        (by rw [emptyExec_items]; intro x hx; cases hx)
      have hperm : (items (ins C s (b + 1) emptyExec)).Perm (eItems C s (b + 1)) := by
        have := hadds.perm; rwa [emptyExec_items, List.append_nil] at this
      obtain ⟨kk1, kk2⟩ := kind_eItems (C := C) s w (b + 1) h.2.2.2
      have hl := hr.one h1' trivial (f := fun x => match x with
          | .arr _ es => some (Mode.holds m (fun x => decide (sem X C s x = some true)) (esList es))
          | _ => none) (by
        intro x hx hh' σ l' hl'
        rw [itemMarks] at hl'
        cases x with
        | lit ty t => cases hl'; rfl
        | obj ws ms => cases hl'; rfl
        | arr ws es =>
          rw [dLoop] at hl'
          obtain ⟨v', hv', hl'⟩ := Res.bind_eq_ok.1 hl'
          cases hl'
          have := dItems_init (p := fun x => decide (sem X C s x = some true)) hv' (by
            intro y hy a ha
            obtain ⟨q1, q2⟩ := hi _ hx y hy
            have hran : Ran X sh r (ins C s (b + 1) emptyExec) y a.1 :=
              ⟨hadds.tidy, hadds.full, clear_of_kind hperm (List.perm_nil.1 hadds.notes) kk1 kk2 q1, hh', σ, a, ha, rfl⟩
            have := (sem_correct s w (b + 1) _ y a.1 h.2.2.2 hsub q2 (fun i _ _ => hperm.filter _) hran).1
            rw [hshb, this])
          simp [this])
      rw [firstArr_find (Mode.holds m (fun x => decide (sem X C s x = some true)))] at hl
      simp only [shape, K, Sh.evalM, hr.none h0, sem, top]
      cases hfa : firstArr (walk (inPath i) d) with
      | some xs =>
        rw [hfa] at hl
        have hk : K (shape s) (b + 1) l.get = some (Mode.holds m (fun x => decide (sem X C s x = some true)) xs) := by
          cases shape s <;> simp [K, hl]
        have he : (shape s).evalM (b + 1) l.get = Mode.holds m (fun x => decide (sem X C s x = some true)) xs := by
          cases shape s <;> simp [Sh.evalM, hl]
        rw [hk, he]
        exact ⟨rfl, rfl⟩
      | none =>
        have hout : ∀ j, b ≤ j → j < b + (1 + (shape s).size) → l.get j = none := by
          intro j hj1 hj2
          by_cases hj : j = b + 1
          · subst hj; rw [hl, hfa]; rfl
          · apply hr.none
            have := hh j hj1 (by simp only [shape, Sh.size]; omega)
            rw [eItems, withBucket_out (L := [_]) (b := b + 1) (n := 1) (by
              intro x hx; rw [List.mem_singleton] at hx; subst hx; simp only [Item.bucket]; omega) (by omega)] at this
            exact List.perm_nil.1 this
        rw [blank_eval s w (b + 1) l.get h.2.2.2 (fun j h1 h2 => hout j (by omega) (by omega)),
          K_none (shape s) (b + 1) l.get (fun j h1 h2 => hout j (by omega) (by omega))]
        exact ⟨rfl, rfl⟩
    | .tru, v, b, n, d, l, h, _, _, hh, hr | .fals, v, b, n, d, l, h, _, _, hh, hr => by
      have h0 : withBucket b (items n) = [] := by
        have := hh b (by omega) (by simp [shape, Sh.size])
        simpa [eItems, withBucket] using this
      simp [shape, K, Sh.evalM, hr.none h0, sem, top]
    | .value _, v, b, n, d, l, h, _, _, _, _
    | .regex _, v, b, n, d, l, h, _, _, _, _ | .pcre _, v, b, n, d, l, h, _, _, _, _ | .time _, v, b, n, d, l, h, _, _, _, _
    | .field _, v, b, n, d, l, h, _, _, _, _ | .func .., v, b, n, d, l, h, _, _, _, _ => by simp [Frag] at h

  theorem semAll_correct : ∀ (es : Exprs E) (v : Int) (b : Nat) (n : Exec E) (d : D) (l : Marks), Frags C v es → ShOK sh (shapes .and es) b →
      InnerAll es d → Hosts n (eItemsAll C es b) b (shapes .and es).size → Ran X sh r n d l →
      K (shapes .and es) b l.get = semAll X C es d ∧ (shapes .and es).evalM b l.get = topAll X C es d
    | .nil, v, b, n, d, l, h, _, _, _, _ => by simp [Frags] at h
    | .cons e .nil, v, b, n, d, l, h, hsh, hi, hh, hr => by
      rw [Frags] at h; rw [shapes] at hsh ⊢; rw [eItemsAll, shapes] at hh; rw [InnerAll] at hi
      rw [semAll, semAll, topAll, topAll, kAnd_true, Bool.and_true]
      exact sem_correct e v b n d l h hsh hi.1 hh hr
    | .cons e (.cons e' r'), v, b, n, d, l, h, hsh, hi, hh, hr => by
      rw [Frags] at h; rw [shapes] at hsh ⊢; rw [eItemsAll, shapes, Sh.size] at hh; rw [InnerAll] at hi
      have w1 := eItems_within C e v (b + 1) h.1
      have w2 := eItemsAll_within C (.cons e' r') .and v (b + 1 + (shape e).size) h.2
      have h0 : withBucket b (items n) = [] := by
        have := hh b (by omega) (by omega)
        rw [withBucket_append, withBucket_out w1 (by omega), withBucket_out w2 (by omega)] at this
        exact List.perm_nil.1 this
      obtain ⟨a1, a2⟩ := sem_correct e v (b + 1) n d l h.1 (fun s' i hs => hsh s' i (Or.inr (Or.inl hs))) hi.1
        (hh.left w2 (by omega) (by omega) (by omega)) hr
      obtain ⟨b1, b2⟩ := semAll_correct (.cons e' r') v (b + 1 + (shape e).size) n d l h.2 (fun s' i hs => hsh s' i (Or.inr (Or.inr hs))) hi.2
        (hh.right w1 (by omega) (by omega) (by omega)) hr
      rw [semAll, topAll]
      simp only [K, Sh.evalM, hr.none h0, a1, a2, b1, b2, kBin_and]
      exact ⟨rfl, rfl⟩

  theorem semAny_correct : ∀ (es : Exprs E) (v : Int) (b : Nat) (n : Exec E) (d : D) (l : Marks), Frags C v es → ShOK sh (shapes .or es) b →
      InnerAll es d → Hosts n (eItemsAll C es b) b (shapes .or es).size → Ran X sh r n d l →
      K (shapes .or es) b l.get = semAny X C es d ∧ (shapes .or es).evalM b l.get = topAny X C es d
    | .nil, v, b, n, d, l, h, _, _, _, _ => by simp [Frags] at h
    | .cons e .nil, v, b, n, d, l, h, hsh, hi, hh, hr => by
      rw [Frags] at h; rw [shapes] at hsh ⊢; rw [eItemsAll, shapes] at hh; rw [InnerAll] at hi
      rw [semAny, semAny, topAny, topAny, kOr_false, Bool.or_false]
      exact sem_correct e v b n d l h hsh hi.1 hh hr
    | .cons e (.cons e' r'), v, b, n, d, l, h, hsh, hi, hh, hr => by
      rw [Frags] at h; rw [shapes] at hsh ⊢; rw [eItemsAll, shapes, Sh.size] at hh; rw [InnerAll] at hi
      have w1 := eItems_within C e v (b + 1) h.1
      have w2 := eItemsAll_within C (.cons e' r') .or v (b + 1 + (shape e).size) h.2
      have h0 : withBucket b (items n) = [] := by
        have := hh b (by omega) (by omega)
        rw [withBucket_append, withBucket_out w1 (by omega), withBucket_out w2 (by omega)] at this
        exact List.perm_nil.1 this
      obtain ⟨a1, a2⟩ := sem_correct e v (b + 1) n d l h.1 (fun s' i hs => hsh s' i (Or.inr (Or.inl hs))) hi.1
        (hh.left w2 (by omega) (by omega) (by omega)) hr
      obtain ⟨b1, b2⟩ := semAny_correct (.cons e' r') v (b + 1 + (shape e).size) n d l h.2 (fun s' i hs => hsh s' i (Or.inr (Or.inr hs))) hi.2
        (hh.right w1 (by omega) (by omega) (by omega)) hr
      rw [semAny, topAny]
      simp only [K, Sh.evalM, hr.none h0, a1, a2, b1, b2, kBin_or]
      exact ⟨rfl, rfl⟩
end

end

end Verif.Transform
