import Verif.Transform.PrintModel
import Verif.Transform.Halts

/-!
# Printing a compiled definition

Specification: where PCRE constants stand in an expression (`PcreParam`, `PcreCond`), and the text of a Boolean tree (`shText`).
-/

namespace Verif.Transform
open Verif.FastVal Verif.Match Verif.Expr

variable {E : Ext}

/-! ### Specification -/

mutual
  /-- A PCRE occurs in an operand. -/
  def PcreParam : Expr E → Prop
    | .pcre _ => True
    | .value (.pcre _) => True
    | .func _ ps => PcreParams ps
    | _ => False
  def PcreParams : Exprs E → Prop
    | .nil => False
    | .cons e r => PcreParam e ∨ PcreParams r
end

mutual
  /-- A PCRE occurs in a comparison or existence test of a condition. -/
  def PcreCond : Expr E → Prop
    | .cmp _ l r => PcreParam l ∨ PcreParam r
    | .exist e => PcreParam e
    | .notExist e => PcreParam e
    | .not e => PcreCond e
    | .and es => PcreConds es
    | .or es => PcreConds es
    | .loop _ _ _ s => PcreCond s
    | _ => False
  def PcreConds : Exprs E → Prop
    | .nil => False
    | .cons e r => PcreCond e ∨ PcreConds r
end

/-- The text of a tree of conditions whose root is number `b` and whose parent is number `par`: a line for each node, children
indented. -/
def shText : BinTree.Sh → Nat → Nat → List Nat
  | .leaf, b, par => trimRight (ascii "[" ++ natText b ++ ascii ":" ++ natText par ++ ascii "] leaf\n")
  | .un o a, b, par => trimRight (ascii "[" ++ natText b ++ ascii ":" ++ natText par ++ ascii "] " ++ nodeTyText o.ty ++ [10] ++
      (reindent (ascii "  ") (shText a (b + 1) b) ++ [10]))
  | .bin o a c, b, par => trimRight (ascii "[" ++ natText b ++ ascii ":" ++ natText par ++ ascii "] " ++ nodeTyText o.ty ++ [10] ++
      (reindent (ascii "  ") (shText a (b + 1) b) ++ [10]) ++ (reindent (ascii "  ") (shText c (b + 1 + a.size) b) ++ [10]))

/-! ### Trees -/

theorem itemText_shaped {t : BinTree.Tree} : ∀ (s : BinTree.Sh) (b par fuel : Nat), BinTree.Shaped t s b par → s.size < fuel →
    itemText t fuel b = .ok (shText s b par)
  | .leaf, b, par, fuel + 1, h, _ => by
    rw [BinTree.Shaped] at h
    rw [itemText, Res.idx_of_some h]
    simp [shText, nodeTyText, ascii]
  | .un o a, b, par, fuel + 1, h, hf => by
    rw [BinTree.Shaped] at h
    rw [BinTree.Sh.size] at hf
    rw [itemText, Res.idx_of_some h.1, Res.bind_ok]
    simp only [itemText_shaped a (b + 1) b fuel h.2 (by omega), Res.bind_ok, ne_eq, Nat.add_eq_zero_iff, Nat.one_ne_zero, and_false,
      not_false_eq_true, if_true, not_true_eq_false, if_false, List.append_nil, shText]
  | .bin o a c, b, par, fuel + 1, h, hf => by
    rw [BinTree.Shaped] at h
    rw [BinTree.Sh.size] at hf
    rw [itemText, Res.idx_of_some h.1, Res.bind_ok]
    have h1 : ¬ b + 1 + a.size = 0 := by omega
    simp only [itemText_shaped a (b + 1) b fuel h.2.1 (by omega), itemText_shaped c (b + 1 + a.size) b fuel h.2.2 (by omega), Res.bind_ok, ne_eq,
      h1, Nat.add_eq_zero_iff, Nat.one_ne_zero, and_false, not_false_eq_true, if_true, shText]

/-! ### Nodes -/

def dataP : Data E → Bool
  | .pcre _ => true
  | _ => false

mutual
  def refP : Ref E → Bool
    | .val v => dataP v.d
    | .fn _ ps => refsP ps
    | _ => false
  def refsP : Refs E → Bool
    | .nil => false
    | .cons p ps => refP p || refsP ps
end

def sideP : Option (Ref E) → Bool
  | none => false
  | some r => refP r

def opP (op : Op E) : Bool := sideP op.lhs || sideP op.rhs

mutual
  /-- A PCRE occurs in the node. -/
  def execP : Exec E → Bool
    | .mk _ es ops ls a => ops.any opP || (elemsP es || (loopsP ls || afterP a))
  def elemsP : Elems E → Bool
    | .nil => false
    | .cons _ e r => execP e || elemsP r
  def loopsP : Loops E → Bool
    | .nil => false
    | .cons _ _ t e r => sideP t || (execP e || loopsP r)
  def afterP : After E → Bool
    | .none => false
    | .some ops ls => ops.any opP || loopsP ls
end

/-- Panics exactly if `b`, and otherwise returns. -/
def PanicIf {α : Type} (x : Res α) (b : Bool) : Prop := if b = true then x = .panic else ∃ a, x = .ok a

theorem PanicIf.bind {α β : Type} {x : Res α} {f : α → Res β} {b c : Bool} (h : PanicIf x b) (hf : ∀ a, PanicIf (f a) c) : PanicIf (x >>= f) (b || c) := by
  cases b with
  | true => have h : x = .panic := h; rw [h]; exact rfl
  | false => obtain ⟨a, rfl⟩ : ∃ a, x = .ok a := h; exact hf a

theorem PanicIf.ok {α : Type} (a : α) : PanicIf (.ok a) false := ⟨a, rfl⟩

theorem PanicIf.map {α β : Type} {x : Res α} {f : α → β} {b : Bool} (h : PanicIf x b) : PanicIf (x >>= fun a => .ok (f a)) b := by
  have := h.bind (f := fun a => .ok (f a)) (c := false) fun a => .ok _
  rwa [Bool.or_false] at this

theorem fvText_iff (S : Show E) (v : FV E) : PanicIf (fvText S v) (dataP v.d) := by
  unfold fvText
  cases v.d <;> first | exact ⟨_, rfl⟩ | exact rfl

mutual
  theorem refText_iff (S : Show E) : ∀ r : Ref E, PanicIf (refText S r) (refP r)
    | .val v => by rw [refText, refP]; exact fvText_iff S v
    | .lit => by simp only [refText, refP]; exact .ok _
    | .slot s => by simp only [refText, refP]; exact .ok _
    | .fn f ps => by rw [refText, refP]; exact (refsText_iff S ps).map
  theorem refsText_iff (S : Show E) : ∀ r : Refs E, PanicIf (refsText S r) (refsP r)
    | .nil => by rw [refsText, refsP]; exact .ok _
    | .cons p .nil => by rw [refsText, refsP, refsP, Bool.or_false]; exact refText_iff S p
    | .cons p (.cons p' ps) => by
      rw [refsText, refsP]
      · exact (refText_iff S p).bind fun x => (refsText_iff S (.cons p' ps)).map
      · intro h; cases h
end

theorem sideText_iff (S : Show E) (r : Option (Ref E)) : PanicIf (sideText S r) (sideP r) := by
  cases r with
  | none => exact .ok _
  | some r => exact refText_iff S r

theorem opText_iff (S : Show E) (op : Op E) : PanicIf (opText S op) (opP op) :=
  (sideText_iff S op.lhs).bind fun _ => (sideText_iff S op.rhs).map

theorem opsText_iff (S : Show E) : ∀ ops : List (Op E), PanicIf (opsText S ops) (ops.any opP)
  | [] => .ok _
  | op :: ops => by rw [opsText, List.any_cons]; exact (opText_iff S op).bind fun _ => (opsText_iff S ops).map

mutual
  theorem execText_iff (S : Show E) : ∀ e : Exec E, PanicIf (execText S e) (execP e)
    | .mk st es ops ls a => by
      rw [execText, execP]
      exact (opsText_iff S ops).bind fun _ => (elemsText_iff S es).bind fun _ => (loopsText_iff S ls).bind fun _ => (afterText_iff S a).map
  theorem elemsText_iff (S : Show E) : ∀ es : Elems E, PanicIf (elemsText S es) (elemsP es)
    | .nil => by rw [elemsText, elemsP]; exact .ok _
    | .cons k e r => by rw [elemsText, elemsP]; exact (execText_iff S e).bind fun _ => (elemsText_iff S r).map
  theorem loopsText_iff (S : Show E) : ∀ ls : Loops E, PanicIf (loopsText S ls) (loopsP ls)
    | .nil => by rw [loopsText, loopsP]; exact .ok _
    | .cons b m t e r => by
      rw [loopsText, loopsP]
      exact (sideText_iff S t).bind fun _ => (execText_iff S e).bind fun _ => (loopsText_iff S r).map
  theorem afterText_iff (S : Show E) : ∀ a : After E, PanicIf (afterText S a) (afterP a)
    | .none => by rw [afterText, afterP]; exact .ok _
    | .some ops ls => by rw [afterText, afterP]; exact (opsText_iff S ops).bind fun _ => (loopsText_iff S ls).map
end

/-! ### Updates of nodes -/

/-- The node has somewhere to put what runs after it. -/
def hasAfter : Exec E → Bool
  | .mk _ _ _ _ .none => false
  | .mk _ _ _ _ (.some _ _) => true

/-- The nodes an update at the address changes (at most one in what the compiler builds, where buckets are unique). -/
def nodesAt : Addr → Exec E → List (Exec E)
  | [], e => [e]
  | .key k :: p, .mk _ es _ _ _ => (es.find k).toList.flatMap (nodesAt p)
  | .loop b :: p, .mk _ _ _ ls a => (findLoop b ls).toList.flatMap (nodesAt p) ++ (findAfter b a).toList.flatMap (nodesAt p)

theorem mem_opt {α β : Type} {o : Option α} {f : α → List β} {x : β} : x ∈ o.toList.flatMap f ↔ ∃ e, o = some e ∧ x ∈ f e := by
  cases o <;> simp

/-- Every node of `n` is in `n'`, with its place for what runs after it, if any. -/
def Grew (n n' : Exec E) : Prop := ∀ a, ∀ x ∈ nodesAt a n, ∃ y ∈ nodesAt a n', hasAfter x = true → hasAfter y = true

theorem Grew.refl (n : Exec E) : Grew n n := fun _ x h => ⟨x, h, id⟩

theorem Grew.trans {n1 n2 n3 : Exec E} (h : Grew n1 n2) (h' : Grew n2 n3) : Grew n1 n3 := by
  intro a x hx
  obtain ⟨y, hy, h1⟩ := h a x hx
  obtain ⟨z, hz, h2⟩ := h' a y hy
  exact ⟨z, hz, fun h => h2 (h1 h)⟩

theorem findAfter_alter (b : Nat) (f : Exec E → Exec E) (a : After E) : findAfter b (alterAfter b f a) = (findAfter b a).map f := by
  cases a with
  | none => rfl
  | some aops als => exact alterLoops_same b _ als

theorem findAfter_other {b b' : Nat} (hb : b' ≠ b) (f : Exec E → Exec E) (a : After E) : findAfter b' (alterAfter b f a) = findAfter b' a := by
  cases a with
  | none => rfl
  | some aops als => exact alterLoops_other hb _ als

theorem opt_grew {o : Option (Exec E)} {f : Exec E → Exec E} (hf : ∀ n, Grew n (f n)) {q : Addr} {x : Exec E} (h : x ∈ o.toList.flatMap (nodesAt q)) :
    ∃ y ∈ (o.map f).toList.flatMap (nodesAt q), hasAfter x = true → hasAfter y = true := by
  obtain ⟨e, rfl, hx⟩ := mem_opt.1 h
  obtain ⟨y, hy, h⟩ := hf e q x hx
  exact ⟨y, mem_opt.2 ⟨_, rfl, hy⟩, h⟩

theorem update_grew {f : Exec E → Exec E} (hf : ∀ n, Grew n (f n)) : ∀ (a : Addr) (n : Exec E), Grew n (update a f n)
  | [], n => hf n
  | .key k :: p, .mk st es ops ls af => by
    intro a x hx
    rw [update]
    cases a with
    | nil => cases List.mem_singleton.1 hx; cases af <;> exact ⟨_, List.mem_singleton.2 rfl, id⟩
    | cons s q =>
      cases s with
      | loop b => exact ⟨x, hx, id⟩
      | key k' =>
        rw [nodesAt] at hx ⊢
        by_cases hk : k' = k
        · subst hk
          obtain ⟨e, he, hx⟩ := mem_opt.1 hx
          rw [alterElems_same _ he]
          obtain ⟨y, hy, h⟩ := update_grew hf p e q x hx
          exact ⟨y, mem_opt.2 ⟨_, rfl, hy⟩, h⟩
        · rw [alterElems_other hk]; exact ⟨x, hx, id⟩
  | .loop b :: p, .mk st es ops ls af => by
    intro a x hx
    rw [update]
    cases a with
    | nil => cases List.mem_singleton.1 hx; cases af <;> exact ⟨_, List.mem_singleton.2 rfl, id⟩
    | cons s q =>
      cases s with
      | key k' => exact ⟨x, hx, id⟩
      | loop b' =>
        rw [nodesAt] at hx ⊢
        by_cases hk : b' = b
        · subst hk
          rw [findAfter_alter, alterLoops_same]
          rcases List.mem_append.1 hx with hx | hx
          · obtain ⟨y, hy, h⟩ := opt_grew (update_grew hf p) hx
            exact ⟨y, List.mem_append_left _ hy, h⟩
          · obtain ⟨y, hy, h⟩ := opt_grew (update_grew hf p) hx
            exact ⟨y, List.mem_append_right _ hy, h⟩
        · rw [alterLoops_other hk, findAfter_other hk]; exact ⟨x, hx, id⟩

/-- The node at an address after an update there. -/
theorem nodesAt_here (f : Exec E → Exec E) : ∀ (a : Addr) (n x : Exec E), x ∈ nodesAt a n → f x ∈ nodesAt a (update a f n)
  | [], n, x, h => by cases List.mem_singleton.1 h; exact List.mem_singleton.2 rfl
  | .key k :: p, .mk st es ops ls af, x, h => by
    rw [nodesAt] at h
    rw [update, nodesAt]
    obtain ⟨e, he, hx⟩ := mem_opt.1 h
    rw [alterElems_same _ he]
    exact mem_opt.2 ⟨_, rfl, nodesAt_here f p e x hx⟩
  | .loop b :: p, .mk st es ops ls af, x, h => by
    rw [nodesAt] at h
    rw [update, nodesAt, findAfter_alter, alterLoops_same]
    rcases List.mem_append.1 h with h | h
    · obtain ⟨e, he, hx⟩ := mem_opt.1 h
      exact List.mem_append_left _ (mem_opt.2 ⟨_, by rw [he]; rfl, nodesAt_here f p e x hx⟩)
    · obtain ⟨e, he, hx⟩ := mem_opt.1 h
      exact List.mem_append_right _ (mem_opt.2 ⟨_, by rw [he]; rfl, nodesAt_here f p e x hx⟩)

theorem nodesAt_append : ∀ (p q : Addr) (n : Exec E), nodesAt (p ++ q) n = (nodesAt p n).flatMap (nodesAt q)
  | [], q, n => by simp [nodesAt]
  | .key k :: p, q, .mk st es ops ls af => by
    rw [List.cons_append, nodesAt, nodesAt, List.flatMap_assoc, funext (nodesAt_append p q)]
  | .loop b :: p, q, .mk st es ops ls af => by
    rw [List.cons_append, nodesAt, nodesAt, List.flatMap_append, List.flatMap_assoc, List.flatMap_assoc, funext (nodesAt_append p q)]

/-- Below a node, the nodes of a path are created. -/
theorem nodesAt_keys (f : Exec E → Exec E) (p : Path) (n : Exec E) : ∃ x, f x ∈ nodesAt (keys p) (update (keys p) f n) := by
  induction p generalizing n with
  | nil => exact ⟨n, List.mem_singleton.2 rfl⟩
  | cons k p ih =>
    obtain ⟨st, es, ops, ls, af⟩ := n
    obtain ⟨x, hx⟩ := ih ((es.find k).getD emptyExec)
    refine ⟨x, ?_⟩
    simp only [keys, List.map_cons, update, nodesAt, find_alter_same, Option.toList_some, List.flatMap_cons, List.flatMap_nil, List.append_nil]
    exact hx

/-- The update adds nothing but `q`. -/
def Adds (f : Exec E → Exec E) (q : Bool) : Prop := ∀ n, (execP (f n) = true → execP n = true ∨ q = true) ∧ (execP n = true → execP (f n) = true)

theorem alterElems_adds {f : Exec E → Exec E} {q : Bool} (hf : Adds f q) (k : List Nat) : ∀ es : Elems E,
    (elemsP (alterElems k f es) = true → elemsP es = true ∨ q = true) ∧ (elemsP es = true → elemsP (alterElems k f es) = true)
  | .nil => by
    rw [alterElems]
    refine ⟨fun h => ?_, fun h => by cases h⟩
    simp only [elemsP, Bool.or_false] at h
    rcases (hf emptyExec).1 h with h | h
    · cases h
    · exact .inr h
  | .cons k' e r => by
    rw [alterElems]
    split
    · simp only [elemsP, Bool.or_eq_true]
      have := hf e
      exact ⟨fun h => h.elim (fun h => (this.1 h).imp_left .inl) fun h => .inl (.inr h), Or.imp_left this.2⟩
    · simp only [elemsP, Bool.or_eq_true]
      have := alterElems_adds hf k r
      exact ⟨fun h => h.elim (fun h => .inl (.inl h)) fun h => (this.1 h).imp_left .inr, Or.imp_right this.2⟩

theorem alterLoops_adds {f : Exec E → Exec E} {q : Bool} (hf : Adds f q) (b : Nat) : ∀ ls : Loops E,
    (loopsP (alterLoops b f ls) = true → loopsP ls = true ∨ q = true) ∧ (loopsP ls = true → loopsP (alterLoops b f ls) = true)
  | .nil => by rw [alterLoops]; exact ⟨.inl, id⟩
  | .cons b' m t e r => by
    rw [alterLoops]
    split
    · simp only [loopsP, Bool.or_eq_true]
      have := hf e
      exact ⟨fun h => h.elim (fun h => .inl (.inl h)) fun h => h.elim (fun h => (this.1 h).imp_left fun h => .inr (.inl h)) fun h => .inl (.inr (.inr h)),
        Or.imp_right (Or.imp_left this.2)⟩
    · simp only [loopsP, Bool.or_eq_true]
      have := alterLoops_adds hf b r
      exact ⟨fun h => h.elim (fun h => .inl (.inl h)) fun h => h.elim (fun h => .inl (.inr (.inl h))) fun h => (this.1 h).imp_left fun h => .inr (.inr h),
        Or.imp_right (Or.imp_right this.2)⟩

theorem alterAfter_adds {f : Exec E → Exec E} {q : Bool} (hf : Adds f q) (b : Nat) (a : After E) :
    (afterP (alterAfter b f a) = true → afterP a = true ∨ q = true) ∧ (afterP a = true → afterP (alterAfter b f a) = true) := by
  cases a with
  | none => exact ⟨.inl, id⟩
  | some ops ls =>
    simp only [alterAfter, afterP, Bool.or_eq_true]
    have := alterLoops_adds hf b ls
    exact ⟨fun h => h.elim (fun h => .inl (.inl h)) fun h => (this.1 h).imp_left .inr, Or.imp_right this.2⟩

theorem update_adds {f : Exec E → Exec E} {q : Bool} (hf : Adds f q) : ∀ a : Addr, Adds (update a f) q
  | [] => hf
  | .key k :: p => by
    rintro ⟨st, es, ops, ls, af⟩
    have := alterElems_adds (update_adds hf p) k es
    simp only [update, execP, Bool.or_eq_true] at this ⊢
    exact ⟨fun h => by
      rcases h with h | h | h
      · exact .inl (.inl h)
      · exact (this.1 h).imp_left fun h => .inr (.inl h)
      · exact .inl (.inr (.inr h)), Or.imp_right (Or.imp_left this.2)⟩
  | .loop b :: p => by
    rintro ⟨st, es, ops, ls, af⟩
    have h1 := alterLoops_adds (update_adds hf p) b ls
    have h2 := alterAfter_adds (update_adds hf p) b af
    simp only [update, execP, Bool.or_eq_true] at h1 h2 ⊢
    exact ⟨fun h => by
      rcases h with h | h | h | h
      · exact .inl (.inl h)
      · exact .inl (.inr (.inl h))
      · exact (h1.1 h).imp_left fun h => .inr (.inr (.inl h))
      · exact (h2.1 h).imp_left fun h => .inr (.inr (.inr h)), Or.imp_right (Or.imp_right (Or.imp h1.2 h2.2))⟩

theorem find_elemsP {k : List Nat} {e : Exec E} : ∀ {es : Elems E}, es.find k = some e → execP e = true → elemsP es = true
  | .nil, h, _ => by cases h
  | .cons k' e' r, h, he => by
    rw [Elems.find] at h
    rw [elemsP, Bool.or_eq_true]
    split at h
    · cases h; exact .inl he
    · exact .inr (find_elemsP h he)

theorem find_loopsP {b : Nat} {e : Exec E} : ∀ {ls : Loops E}, findLoop b ls = some e → execP e = true → loopsP ls = true
  | .nil, h, _ => by cases h
  | .cons b' m t e' r, h, he => by
    rw [findLoop] at h
    simp only [loopsP, Bool.or_eq_true]
    split at h
    · cases h; exact .inr (.inl he)
    · exact .inr (.inr (find_loopsP h he))

/-- What occurs in a node of the tree occurs in the tree. -/
theorem nodesAt_execP : ∀ (a : Addr) (n x : Exec E), x ∈ nodesAt a n → execP x = true → execP n = true
  | [], n, x, h, hx => by cases List.mem_singleton.1 h; exact hx
  | .key k :: p, .mk st es ops ls af, x, h, hx => by
    rw [nodesAt] at h
    obtain ⟨e, he, h⟩ := mem_opt.1 h
    simp only [execP, Bool.or_eq_true]
    exact .inr (.inl (find_elemsP he (nodesAt_execP p e x h hx)))
  | .loop b :: p, .mk st es ops ls af, x, h, hx => by
    rw [nodesAt] at h
    simp only [execP, Bool.or_eq_true]
    rcases List.mem_append.1 h with h | h
    · obtain ⟨e, he, h⟩ := mem_opt.1 h
      exact .inr (.inr (.inl (find_loopsP he (nodesAt_execP p e x h hx))))
    · obtain ⟨e, he, h'⟩ := mem_opt.1 h
      have := nodesAt_execP p e x h' hx
      refine .inr (.inr (.inr ?_))
      cases af with
      | none => cases he
      | some aops als => rw [afterP, Bool.or_eq_true]; exact .inr (find_loopsP he this)

theorem adds_id : Adds (id : Exec E → Exec E) false := fun _ => ⟨.inl, id⟩
theorem adds_setStore (s : Nat) : Adds (setStore s : Exec E → Exec E) false := by
  rintro ⟨st, es, ops, ls, af⟩; exact ⟨.inl, id⟩
theorem adds_ensureAfter : Adds (ensureAfter : Exec E → Exec E) false := by
  rintro ⟨st, es, ops, ls, af⟩
  cases af with
  | none => exact ⟨.inl, id⟩
  | some aops als => exact ⟨.inl, id⟩
theorem adds_addOp (op : Op E) : Adds (addOp op) (opP op) := by
  rintro ⟨st, es, ops, ls, af⟩
  simp only [addOp, execP, List.any_append, List.any_cons, List.any_nil, Bool.or_false, Bool.or_eq_true]
  constructor
  · rintro ((h | h) | h)
    · exact .inl (.inl h)
    · exact .inr h
    · exact .inl (.inr h)
  · exact Or.imp_left .inl
theorem adds_addAfterOp (op : Op E) : Adds (addAfterOp op) (opP op) := by
  rintro ⟨st, es, ops, ls, af⟩
  cases af with
  | none => exact ⟨.inl, id⟩
  | some aops als =>
    simp only [addAfterOp, execP, afterP, List.any_append, List.any_cons, List.any_nil, Bool.or_false, Bool.or_eq_true]
    constructor
    · rintro (h | h | h | (h | h) | h)
      · exact .inl (.inl h)
      · exact .inl (.inr (.inl h))
      · exact .inl (.inr (.inr (.inl h)))
      · exact .inl (.inr (.inr (.inr (.inl h))))
      · exact .inr h
      · exact .inl (.inr (.inr (.inr (.inr h))))
    · exact Or.imp_right (Or.imp_right (Or.imp_right (Or.imp_left .inl)))
theorem snoc_loopsP (b : Nat) (m : Mode) (t : Option (Ref E)) : ∀ ls : Loops E,
    loopsP (Loops.snoc ls b m t emptyExec) = (loopsP ls || sideP t)
  | .nil => by simp [Loops.snoc, loopsP, emptyExec, execP, elemsP, afterP]
  | .cons b' m' t' e' r => by simp [Loops.snoc, loopsP, snoc_loopsP b m t r, Bool.or_assoc]
theorem adds_addLoop (b : Nat) (m : Mode) (t : Option (Ref E)) : Adds (addLoop b m t emptyExec) (sideP t) := by
  rintro ⟨st, es, ops, ls, af⟩
  simp only [addLoop, execP, snoc_loopsP, Bool.or_eq_true]
  constructor
  · rintro (h | h | (h | h) | h)
    · exact .inl (.inl h)
    · exact .inl (.inr (.inl h))
    · exact .inl (.inr (.inr (.inl h)))
    · exact .inr h
    · exact .inl (.inr (.inr (.inr h)))
  · exact Or.imp_right (Or.imp_right (Or.imp_left .inl))
theorem adds_addAfterLoop (b : Nat) (m : Mode) (t : Option (Ref E)) : Adds (addAfterLoop b m t emptyExec) (sideP t) := by
  rintro ⟨st, es, ops, ls, af⟩
  cases af with
  | none => exact ⟨.inl, id⟩
  | some aops als =>
    simp only [addAfterLoop, execP, afterP, snoc_loopsP, Bool.or_eq_true]
    constructor
    · rintro (h | h | h | h | h | h)
      · exact .inl (.inl h)
      · exact .inl (.inr (.inl h))
      · exact .inl (.inr (.inr (.inl h)))
      · exact .inl (.inr (.inr (.inr (.inl h))))
      · exact .inl (.inr (.inr (.inr (.inr h))))
      · exact .inr h
    · exact Or.imp_right (Or.imp_right (Or.imp_right (Or.imp_right .inl)))

theorem find_snoc_other {b b' : Nat} (m : Mode) (t : Option (Ref E)) (e x : Exec E) : ∀ ls : Loops E, findLoop b' ls = some x →
    findLoop b' (Loops.snoc ls b m t e) = some x
  | .nil, h => by cases h
  | .cons b1 m1 t1 e1 r, h => by
    rw [findLoop] at h
    rw [Loops.snoc, findLoop]
    split
    · rename_i hb; rw [if_pos hb] at h; exact h
    · rename_i hb; rw [if_neg hb] at h; exact find_snoc_other m t e x r h

theorem find_snoc_here (b : Nat) (m : Mode) (t : Option (Ref E)) (e : Exec E) : ∀ ls : Loops E, ∃ x, findLoop b (Loops.snoc ls b m t e) = some x
  | .nil => by rw [Loops.snoc, findLoop, if_pos rfl]; exact ⟨_, rfl⟩
  | .cons b1 m1 t1 e1 r => by
    rw [Loops.snoc, findLoop]
    split
    · exact ⟨_, rfl⟩
    · exact find_snoc_here b m t e r

theorem grew_id (n : Exec E) : Grew n (id n) := .refl n
theorem grew_setStore (s : Nat) : ∀ n : Exec E, Grew n (setStore s n) := by
  rintro ⟨st, es, ops, ls, af⟩ a x h
  cases a with
  | nil => cases List.mem_singleton.1 h; cases af <;> exact ⟨_, List.mem_singleton.2 rfl, id⟩
  | cons s q => cases s <;> exact ⟨x, h, id⟩
theorem grew_addOp (op : Op E) : ∀ n : Exec E, Grew n (addOp op n) := by
  rintro ⟨st, es, ops, ls, af⟩ a x h
  cases a with
  | nil => cases List.mem_singleton.1 h; cases af <;> exact ⟨_, List.mem_singleton.2 rfl, id⟩
  | cons s q => cases s <;> exact ⟨x, h, id⟩
theorem grew_ensureAfter : ∀ n : Exec E, Grew n (ensureAfter n) := by
  rintro ⟨st, es, ops, ls, af⟩ a x h
  cases af with
  | some aops als => exact ⟨x, h, id⟩
  | none =>
    cases a with
    | nil => cases List.mem_singleton.1 h; exact ⟨_, List.mem_singleton.2 rfl, fun h => by cases h⟩
    | cons s q => cases s <;> exact ⟨x, h, id⟩
theorem grew_addAfterOp (op : Op E) : ∀ n : Exec E, Grew n (addAfterOp op n) := by
  rintro ⟨st, es, ops, ls, af⟩ a x h
  cases af with
  | none => exact ⟨x, h, id⟩
  | some aops als =>
    cases a with
    | nil => cases List.mem_singleton.1 h; exact ⟨_, List.mem_singleton.2 rfl, id⟩
    | cons s q => cases s <;> exact ⟨x, h, id⟩
theorem grew_addLoop (b : Nat) (m : Mode) (t : Option (Ref E)) : ∀ n : Exec E, Grew n (addLoop b m t emptyExec n) := by
  rintro ⟨st, es, ops, ls, af⟩ a x h
  cases a with
  | nil => cases List.mem_singleton.1 h; cases af <;> exact ⟨_, List.mem_singleton.2 rfl, id⟩
  | cons s q =>
    cases s with
    | key k => exact ⟨x, h, id⟩
    | loop b' =>
      rw [nodesAt] at h
      rw [addLoop, nodesAt]
      rcases List.mem_append.1 h with h | h
      · obtain ⟨e, he, hx⟩ := mem_opt.1 h
        exact ⟨x, List.mem_append_left _ (mem_opt.2 ⟨e, find_snoc_other m t emptyExec _ ls he, hx⟩), id⟩
      · exact ⟨x, List.mem_append_right _ h, id⟩
theorem grew_addAfterLoop (b : Nat) (m : Mode) (t : Option (Ref E)) : ∀ n : Exec E, Grew n (addAfterLoop b m t emptyExec n) := by
  rintro ⟨st, es, ops, ls, af⟩ a x h
  cases af with
  | none => exact ⟨x, h, id⟩
  | some aops als =>
    cases a with
    | nil => cases List.mem_singleton.1 h; exact ⟨_, List.mem_singleton.2 rfl, id⟩
    | cons s q =>
      cases s with
      | key k => exact ⟨x, h, id⟩
      | loop b' =>
        rw [nodesAt] at h
        rw [addAfterLoop, nodesAt]
        rcases List.mem_append.1 h with h | h
        · exact ⟨x, List.mem_append_left _ h, id⟩
        · obtain ⟨e, he, hx⟩ := mem_opt.1 h
          exact ⟨x, List.mem_append_right _ (mem_opt.2 ⟨e, find_snoc_other m t emptyExec _ als he, hx⟩), id⟩

/-! ### The transformer -/

/-- The node of every context is in the tree. -/
def Alive (t : T E) : Prop := ∀ va ∈ t.ctx, nodesAt va.2 t.root ≠ []

/-- The place for a condition is in the tree. -/
def Place (n : NRef) (r : Exec E) : Prop :=
  match n with
  | .node a => ∃ x, x ∈ nodesAt a r
  | .after a => ∃ x ∈ nodesAt a r, hasAfter x = true

theorem Place.grew {n : NRef} {r r' : Exec E} (h : Place n r) (hg : Grew r r') : Place n r' := by
  cases n with
  | node a => obtain ⟨x, hx⟩ := h; obtain ⟨y, hy, _⟩ := hg a x hx; exact ⟨y, hy⟩
  | after a => obtain ⟨x, hx, ha⟩ := h; obtain ⟨y, hy, h⟩ := hg a x hx; exact ⟨y, hy, h ha⟩

theorem Alive.grew {t t' : T E} (h : Alive t) (hc : t'.ctx = t.ctx) (hg : Grew t.root t'.root) : Alive t' := by
  intro va hva
  rw [hc] at hva
  obtain ⟨x, hx⟩ := List.exists_mem_of_ne_nil _ (h va hva)
  obtain ⟨y, hy, _⟩ := hg va.2 x hx
  exact List.ne_nil_of_mem hy

/-- The step keeps the nodes and the contexts and adds a PCRE exactly if `q`. -/
structure Printed (t t' : T E) (q : Prop) : Prop where
  ctx : t'.ctx = t.ctx
  grew : Grew t.root t'.root
  pcre : execP t'.root = true ↔ execP t.root = true ∨ q

theorem Printed.trans {t1 t2 t3 : T E} {p q : Prop} (h : Printed t1 t2 p) (h' : Printed t2 t3 q) : Printed t1 t3 (p ∨ q) :=
  ⟨h'.ctx.trans h.ctx, h.grew.trans h'.grew, by rw [h'.pcre, h.pcre, or_assoc]⟩

theorem Printed.congr {t t' : T E} {p q : Prop} (h : Printed t t' p) (hpq : p ↔ q) : Printed t t' q := ⟨h.ctx, h.grew, by rw [h.pcre, hpq]⟩

theorem Printed.then {t1 t2 t3 : T E} {q : Prop} (h : Printed t1 t2 False) (h' : Printed t2 t3 q) : Printed t1 t3 q := (h.trans h').congr (by simp)

theorem Printed.same {t t' : T E} (hc : t'.ctx = t.ctx) (hr : t'.root = t.root) : Printed t t' False := ⟨hc, by rw [hr]; exact .refl _, by simp [hr]⟩

theorem adds_none {f : Exec E → Exec E} (hf : Adds f false) (a : Addr) (n : Exec E) : execP (update a f n) = true ↔ execP n = true ∨ False := by
  have := update_adds hf a n
  exact ⟨fun h => (this.1 h).imp_right (by simp), fun h => h.elim this.2 False.elim⟩

theorem Printed.update {t : T E} {t' : T E} {f : Exec E → Exec E} (a : Addr) (hf : Adds f false) (hg : ∀ n, Grew n (f n)) (hc : t'.ctx = t.ctx)
    (hr : t'.root = Transform.update a f t.root) : Printed t t' False :=
  ⟨hc, by rw [hr]; exact update_grew hg a _, by rw [hr]; exact adds_none hf a _⟩

theorem modNode_printed {t t' : T E} {i : Nat} {f : BinTree.Node → BinTree.Node} (h : modNode t i f = .ok t') : Printed t t' False := by
  rw [modNode] at h
  obtain ⟨n, _, h⟩ := Res.bind_eq_ok.1 h
  cases h
  exact .same rfl rfl

theorem getContext_alive {t : T E} (h : Alive t) {v : Int} {c : Option Addr} (hc : getContext t v = .ok c) : ∃ x, x ∈ nodesAt (c.getD []) t.root := by
  rw [getContext] at hc
  split at hc
  · cases hc; exact ⟨_, List.mem_singleton.2 rfl⟩
  · split at hc
    · cases hc
    · rename_i v' a r hctx
      split at hc
      · cases hc
        exact List.exists_mem_of_ne_nil _ (h (v', a) (by rw [hctx]; exact .head _))
      · cases hc

theorem current_alive {t : T E} (h : Alive t) : ∃ x, x ∈ nodesAt ((currentContext t).getD []) t.root := by
  rw [currentContext]
  split
  · exact ⟨_, List.mem_singleton.2 rfl⟩
  · rename_i v' a r hctx
    exact List.exists_mem_of_ne_nil _ (h (v', a) (by rw [hctx]; exact .head _))

theorem addr_printed {f : Exec E → Exec E} {r : Exec E} {c : Addr} (h : ∃ x, x ∈ nodesAt c r) (p : Path) : ∃ x, f x ∈ nodesAt (c ++ keys p) (update (c ++ keys p) f r) := by
  obtain ⟨x, hx⟩ := h
  obtain ⟨y, hy⟩ := nodesAt_keys f p x
  refine ⟨y, ?_⟩
  rw [nodesAt_append, update_append]
  exact List.mem_flatMap.2 ⟨_, nodesAt_here _ c r x hx, hy⟩

theorem findBestRoot_ctx {t : T E} {rs : List RRef} {b : RRef × Bool} (h : findBestRoot t rs = .ok b) : b.1.ctx = currentContext t := by
  simp only [findBestRoot] at h
  split at h
  · cases h; rfl
  · obtain ⟨c, _, h⟩ := Res.bind_eq_ok.1 h
    cases h; rfl

theorem pickBase_printed {t : T E} {e : Expr E} {b : T E × NRef} (ht : Alive t) (h : pickBase t e = .ok b) : Printed t b.1 False ∧ Place b.2 b.1.root := by
  simp only [pickBase] at h
  obtain ⟨fs, _, h⟩ := Res.bind_eq_ok.1 h
  obtain ⟨rs, _, h⟩ := Res.bind_eq_ok.1 h
  obtain ⟨x, hx, h⟩ := Res.bind_eq_ok.1 h
  simp only [getExecNode] at h
  have hc := findBestRoot_ctx hx
  have h1 : Printed t { t with root := update x.1.addr id t.root } False := .update x.1.addr adds_id grew_id rfl rfl
  have h2 : ∃ y, id y ∈ nodesAt x.1.addr (update x.1.addr id t.root) := addr_printed (by rw [hc]; exact current_alive ht) x.1.path
  split at h <;> cases h
  · obtain ⟨y, hy⟩ := h2
    refine ⟨h1.then (.update x.1.addr adds_ensureAfter grew_ensureAfter rfl rfl), ensureAfter y, nodesAt_here _ _ _ _ hy, ?_⟩
    obtain ⟨st, es, ops, ls, af⟩ := y
    cases af <;> rfl
  · exact ⟨h1, h2⟩

theorem fieldRef_printed (t : T E) (n : NRef) (r : RRef) : Printed t (fieldRef t n r).1 False ∧ refP (fieldRef t n r).2 = false := by
  have h1 : Printed t { t with root := update r.addr id t.root } False := .update r.addr adds_id grew_id rfl rfl
  simp only [fieldRef, getExecNode]
  split
  · exact ⟨h1, rfl⟩
  · refine ⟨?_, rfl⟩
    simp only [storeExecNode, newSlot]
    split
    · exact h1.then (.update r.addr (adds_setStore _) (grew_setStore _) rfl rfl)
    · exact h1

theorem constOf_pcre (v : GoVal E) : dataP (constOf v).d = true ↔ PcreParam (.value v) := by
  cases v with
  | json j => cases j <;> simp [constOf, newFastVal, dataP, PcreParam, Data.ty, Ty.isString, Data.toJsonString] <;> (try (rename_i b; cases b <;> rfl))
  | _ => simp [constOf, newFastVal, dataP, PcreParam, Data.ty, Ty.isString]

mutual
  theorem makeParam_printed (C : Comp E) (n : NRef) : ∀ (e : Expr E) (t : T E) (r : T E × Ref E), makeParam C t n e = .ok r →
      Printed t r.1 False ∧ (refP r.2 = true ↔ PcreParam e)
    | .field f, t, r, h => by
      rw [makeParam] at h
      obtain ⟨x, _, h⟩ := Res.bind_eq_ok.1 h
      cases h
      have := fieldRef_printed t n x
      exact ⟨this.1, by simp [this.2, PcreParam]⟩
    | .value v, t, r, h => by
      rw [makeParam] at h; cases h
      exact ⟨.same rfl rfl, constOf_pcre v⟩
    | .regex v, t, r, h | .time v, t, r, h => by
      rw [makeParam] at h
      obtain ⟨x, _, h⟩ := Res.bind_eq_ok.1 h
      split at h <;> cases h
      exact ⟨.same rfl rfl, by simp [refP, dataP, PcreParam]⟩
    | .pcre v, t, r, h => by
      rw [makeParam] at h
      obtain ⟨x, _, h⟩ := Res.bind_eq_ok.1 h
      split at h <;> cases h
      exact ⟨.same rfl rfl, by simp [refP, dataP, PcreParam]⟩
    | .func f ps, t, r, h => by
      rw [makeParam] at h
      obtain ⟨x, hx, h⟩ := Res.bind_eq_ok.1 h
      cases h
      have := makeParams_printed C n ps t x hx
      exact ⟨this.1, by rw [refP, PcreParam]; exact this.2⟩
    | .tru, _, _, h | .fals, _, _, h | .not _, _, _, h | .and _, _, _, h | .or _, _, _, h | .loop _ _ _ _, _, _, h
    | .exist _, _, _, h | .notExist _, _, _, h | .cmp _ _ _, _, _, h => by simp [makeParam] at h

  theorem makeParams_printed (C : Comp E) (n : NRef) : ∀ (ps : Exprs E) (t : T E) (r : T E × Refs E), makeParams C t n ps = .ok r →
      Printed t r.1 False ∧ (refsP r.2 = true ↔ PcreParams ps)
    | .nil, t, r, h => by rw [makeParams] at h; cases h; exact ⟨.same rfl rfl, by simp [refsP, PcreParams]⟩
    | .cons p ps, t, r, h => by
      rw [makeParams] at h
      obtain ⟨x, hx, h⟩ := Res.bind_eq_ok.1 h
      obtain ⟨y, hy, h⟩ := Res.bind_eq_ok.1 h
      cases h
      have h1 := makeParam_printed C n p t x hx
      have h2 := makeParams_printed C n ps x.1 y hy
      exact ⟨(h1.1.trans h2.1).congr (by simp), by rw [refsP, PcreParams, Bool.or_eq_true, h1.2, h2.2]⟩
end

theorem makeDataRef_printed {C : Comp E} {n : NRef} {e : Expr E} {t : T E} {r : T E × Option (Ref E)} (h : makeDataRef C t n e = .ok r) :
    Printed t r.1 False ∧ (sideP r.2 = true ↔ PcreParam e) := by
  rw [makeDataRef] at h
  obtain ⟨x, hx, h⟩ := Res.bind_eq_ok.1 h
  have := makeParam_printed C n e t x hx
  split at h <;> cases h
  · rename_i f hf
    rw [hf] at this
    exact ⟨this.1, by simpa [refP, sideP] using this.2⟩
  · exact this

theorem addOp_printed {t : T E} {n : NRef} (hn : Place n t.root) (op : Op E) : Printed t (n.addOp t op) (opP op = true) := by
  cases n with
  | node a =>
    refine ⟨rfl, update_grew (grew_addOp op) a _, ?_⟩
    have h1 := update_adds (adds_addOp op) a t.root
    refine ⟨h1.1, fun h => h.elim h1.2 fun h => ?_⟩
    obtain ⟨x, hx⟩ := hn
    refine nodesAt_execP a _ _ (nodesAt_here _ a _ x hx) ?_
    obtain ⟨st, es, ops, ls, af⟩ := x
    simp [addOp, execP, h]
  | after a =>
    refine ⟨rfl, update_grew (grew_addAfterOp op) a _, ?_⟩
    have h1 := update_adds (adds_addAfterOp op) a t.root
    refine ⟨h1.1, fun h => h.elim h1.2 fun h => ?_⟩
    obtain ⟨x, hx, ha⟩ := hn
    refine nodesAt_execP a _ _ (nodesAt_here _ a _ x hx) ?_
    obtain ⟨st, es, ops, ls, af⟩ := x
    cases af with
    | none => cases ha
    | some aops als => simp [addAfterOp, execP, afterP, h]

/-- What a transformation adds. -/
def MakesP (f : T E → Res (T E)) (q : Prop) : Prop := ∀ t t', Alive t → f t = .ok t' → Printed t t' q

theorem tExists_printed (C : Comp E) (e : Expr E) : MakesP (tExists C e) (PcreParam e) := by
  intro t t' ht h
  rw [tExists] at h
  obtain ⟨b, hb, h⟩ := Res.bind_eq_ok.1 h
  obtain ⟨l, hl, h⟩ := Res.bind_eq_ok.1 h
  cases h
  obtain ⟨h1, hp⟩ := pickBase_printed ht hb
  obtain ⟨h2, hq⟩ := makeDataRef_printed hl
  exact ((h1.trans h2).trans (addOp_printed (hp.grew h2.grew) _)).congr (by simp [opP, sideP, ← hq])

theorem tCompare_printed (C : Comp E) (e l r : Expr E) (op : OpTy) : MakesP (tCompare C e op l r) (PcreParam l ∨ PcreParam r) := by
  intro t t' ht h
  rw [tCompare] at h
  obtain ⟨b, hb, h⟩ := Res.bind_eq_ok.1 h
  obtain ⟨x, hx, h⟩ := Res.bind_eq_ok.1 h
  obtain ⟨y, hy, h⟩ := Res.bind_eq_ok.1 h
  cases h
  obtain ⟨h1, hp⟩ := pickBase_printed ht hb
  obtain ⟨h2, hq⟩ := makeDataRef_printed hx
  obtain ⟨h3, hr⟩ := makeDataRef_printed hy
  exact (((h1.trans h2).trans h3).trans (addOp_printed ((hp.grew h2.grew).grew h3.grew) _)).congr (by simp [opP, ← hq, ← hr])

theorem newBucket_printed (t : T E) : Printed t (newBucket t) False := .same rfl rfl

theorem tNot_printed {f : T E → Res (T E)} {q : Prop} (hf : MakesP f q) : MakesP (tNot f) q := by
  intro t t' ht h
  rw [tNot] at h
  obtain ⟨x, hx, h⟩ := Res.bind_eq_ok.1 h
  obtain ⟨y, hy, h⟩ := Res.bind_eq_ok.1 h
  have h1 := ((modNode_printed hx).trans (newBucket_printed x)).trans (modNode_printed hy)
  exact (h1.trans (hf y t' (ht.grew h1.ctx h1.grew) h)).congr (by simp)

theorem tBin_printed {ty : BinTree.NodeType} {f g : T E → Res (T E)} {p q : Prop} (hf : MakesP f p) (hg : MakesP g q) : MakesP (tBin ty f g) (p ∨ q) := by
  intro t t' ht h
  rw [tBin] at h
  obtain ⟨x, hx, h⟩ := Res.bind_eq_ok.1 h
  obtain ⟨y, hy, h⟩ := Res.bind_eq_ok.1 h
  obtain ⟨z, hz, h⟩ := Res.bind_eq_ok.1 h
  obtain ⟨u, hu, h⟩ := Res.bind_eq_ok.1 h
  have h1 := ((modNode_printed hx).trans (newBucket_printed x)).trans (modNode_printed hy)
  have h2 := h1.trans (hf y z (ht.grew h1.ctx h1.grew) hz)
  have h3 : Printed z { z with active := t.active } False := .same rfl rfl
  have h4 := ((h2.trans h3).trans (newBucket_printed _)).trans (modNode_printed hu)
  exact (h4.trans (hg u t' (ht.grew h4.ctx h4.grew) h)).congr (by simp)

theorem tLoop_printed {C : Comp E} {e i : Expr E} {m : Mode} {v : Int} {f : T E → Res (T E)} {q : Prop} (hf : MakesP f q) : MakesP (tLoop C e m v i f) q := by
  intro t t' ht h
  rw [tLoop] at h
  obtain ⟨b, hb, h⟩ := Res.bind_eq_ok.1 h
  obtain ⟨r, hr, h⟩ := Res.bind_eq_ok.1 h
  obtain ⟨x, hx, h⟩ := Res.bind_eq_ok.1 h
  obtain ⟨y, hy, h⟩ := Res.bind_eq_ok.1 h
  obtain ⟨z, hz, h⟩ := Res.bind_eq_ok.1 h
  obtain ⟨u, hu, h⟩ := Res.bind_eq_ok.1 h
  obtain ⟨h1, hp⟩ := pickBase_printed ht hb
  obtain ⟨h2, _⟩ := makeDataRef_printed hr
  have h3 := ((modNode_printed hx).trans (newBucket_printed x)).trans (modNode_printed hy)
  have hpy := (hp.grew h2.grew).grew h3.grew
  have hz' : Printed y z False ∧ z.active = y.active ∧ nodesAt (b.2.addr ++ [.loop z.active]) z.root ≠ [] := by
    generalize b.2 = n at hz hpy
    generalize r.2 = tg at hz
    cases n with
    | node a =>
      cases tg with
      | some _ => simp [NRef.addLoop] at hz
      | none =>
        simp only [NRef.addLoop, Res.ok.injEq] at hz
        subst hz
        refine ⟨.update a (adds_addLoop _ _ none) (grew_addLoop _ _ none) rfl rfl, rfl, ?_⟩
        obtain ⟨w, hw⟩ := hpy
        have := nodesAt_here (Transform.addLoop y.active m none emptyExec) a y.root w hw
        rw [NRef.addr, nodesAt_append]
        obtain ⟨st, es, ops, ls, af⟩ := w
        obtain ⟨k, hk⟩ := find_snoc_here y.active m none emptyExec ls
        exact List.ne_nil_of_mem (List.mem_flatMap.2 ⟨_, this, by
          rw [Transform.addLoop, nodesAt]
          exact List.mem_append_left _ (mem_opt.2 ⟨k, hk, List.mem_singleton.2 rfl⟩)⟩)
    | after a =>
      cases tg with
      | none => simp [NRef.addLoop] at hz
      | some tg =>
        cases tg with
        | slot s =>
          simp only [NRef.addLoop, Res.ok.injEq] at hz
          subst hz
          refine ⟨.update a (by simpa [sideP, refP] using adds_addAfterLoop y.active m (some (.slot s) : Option (Ref E))) (grew_addAfterLoop _ _ _) rfl rfl,
            rfl, ?_⟩
          obtain ⟨w, hw, ha⟩ := hpy
          have := nodesAt_here (Transform.addAfterLoop y.active m (some (.slot s)) emptyExec) a y.root w hw
          rw [NRef.addr, nodesAt_append]
          obtain ⟨st, es, ops, ls, af⟩ := w
          cases af with
          | none => cases ha
          | some aops als =>
            obtain ⟨k, hk⟩ := find_snoc_here y.active m (some (.slot s)) emptyExec als
            exact List.ne_nil_of_mem (List.mem_flatMap.2 ⟨_, this, by
              rw [Transform.addAfterLoop, nodesAt]
              exact List.mem_append_right _ (mem_opt.2 ⟨k, hk, List.mem_singleton.2 rfl⟩)⟩)
        | _ => simp [NRef.addLoop] at hz
  obtain ⟨h4, _, hlive⟩ := hz'
  have h5 := ((h1.trans h2).trans h3).trans h4
  have hz1 : Alive { z with ctx := (v, b.2.addr ++ [.loop z.active]) :: z.ctx } := by
    intro va hva
    rcases List.mem_cons.1 hva with rfl | hva
    · exact hlive
    · exact (ht.grew h5.ctx h5.grew) va hva
  have h6 := hf _ u hz1 hu
  rw [h6.ctx] at h
  simp only [ne_eq, not_true_eq_false, if_false, Res.ok.injEq] at h
  subst h
  exact ⟨h5.ctx, h5.grew.trans h6.grew, by rw [h6.pcre]; show execP z.root = true ∨ q ↔ _; rw [h5.pcre]; simp⟩

mutual
  theorem tOne_printed (C : Comp E) : ∀ e : Expr E, MakesP (tOne C e) (PcreCond e)
    | .loop m v i s => by intro t t' ht h; rw [tOne] at h; rw [PcreCond]; exact tLoop_printed (tOne_printed C s) t t' ht h
    | .not e => by intro t t' ht h; rw [tOne] at h; rw [PcreCond]; exact tNot_printed (tOne_printed C e) t t' ht h
    | .or es => by intro t t' ht h; rw [tOne] at h; rw [PcreCond]; exact tOr_printed C es t t' ht h
    | .and es => by intro t t' ht h; rw [tOne] at h; rw [PcreCond]; exact tAnd_printed C es t t' ht h
    | .exist e => by intro t t' ht h; rw [tOne] at h; rw [PcreCond]; exact tExists_printed C e t t' ht h
    | .notExist e => by intro t t' ht h; rw [tOne] at h; rw [PcreCond]; exact tNot_printed (tExists_printed C e) t t' ht h
    | .cmp c l r => by
      intro t t' ht h
      rw [tOne] at h
      rw [PcreCond]
      split at h
      · exact tNot_printed (tCompare_printed C _ l r _) t t' ht h
      · exact tCompare_printed C _ l r _ t t' ht h
    | .tru | .fals | .value _ | .time _ | .regex _ | .pcre _ | .field _ | .func _ _ => by
      intro t t' ht h
      simp only [tOne, Res.ok.injEq] at h
      subst h
      simp only [PcreCond]
      exact .same rfl rfl
  theorem tOr_printed (C : Comp E) : ∀ es : Exprs E, MakesP (tOr C es) (PcreConds es)
    | .nil => by intro t t' ht h; rw [tOr] at h; cases h
    | .cons e .nil => by
      intro t t' ht h
      rw [tOr] at h
      rw [PcreConds, PcreConds, or_false]
      exact tOne_printed C e t t' ht h
    | .cons e (.cons e' r) => by
      intro t t' ht h
      rw [tOr.eq_def] at h
      rw [PcreConds]
      exact tBin_printed (tOne_printed C e) (tOr_printed C (.cons e' r)) t t' ht h
  theorem tAnd_printed (C : Comp E) : ∀ es : Exprs E, MakesP (tAnd C es) (PcreConds es)
    | .nil => by intro t t' ht h; rw [tAnd] at h; cases h
    | .cons e .nil => by
      intro t t' ht h
      rw [tAnd] at h
      rw [PcreConds, PcreConds, or_false]
      exact tOne_printed C e t t' ht h
    | .cons e (.cons e' r) => by
      intro t t' ht h
      rw [tAnd.eq_def] at h
      rw [PcreConds]
      exact tBin_printed (tOne_printed C e) (tAnd_printed C (.cons e' r)) t t' ht h
end

theorem tMerge_printed (C : Comp E) : ∀ (es : List (Expr E)) (t : T E) (r : T E × List Nat), Alive t → tMerge C es t = .ok r →
    Printed t r.1 (∃ e ∈ es, PcreCond e)
  | [], t, r, ht, h => by rw [tMerge] at h; cases h
  | [e], t, r, ht, h => by
    rw [tMerge] at h
    obtain ⟨t', ht', h⟩ := Res.bind_eq_ok.1 h
    cases h
    exact (tOne_printed C e t t' ht ht').congr (by simp)
  | e :: e' :: es, t, r, ht, h => by
    rw [tMerge] at h
    obtain ⟨x, hx, h⟩ := Res.bind_eq_ok.1 h
    obtain ⟨y, hy, h⟩ := Res.bind_eq_ok.1 h
    obtain ⟨z, hz, h⟩ := Res.bind_eq_ok.1 h
    obtain ⟨u, hu, h⟩ := Res.bind_eq_ok.1 h
    obtain ⟨q, hq, h⟩ := Res.bind_eq_ok.1 h
    cases h
    have h1 := ((modNode_printed hx).trans (newBucket_printed x)).trans (modNode_printed hy)
    have h2 := h1.trans (tOne_printed C e y z (ht.grew h1.ctx h1.grew) hz)
    have h3 : Printed z { z with active := t.active } False := .same rfl rfl
    have h4 := ((h2.trans h3).trans (newBucket_printed _)).trans (modNode_printed hu)
    exact (h4.trans (tMerge_printed C (e' :: es) u q (ht.grew h4.ctx h4.grew) hq)).congr (by simp)

/-! ### C90 -/

/-- **C90.**  What has compiled can be printed, unless an operand contains a PCRE or all expressions are constants; then printing panics. -/
theorem C90_prints (S : Show E) (C : Comp E) (slot0 : Nat) {es : List (Expr E)} {df : Def E} (h : transform C slot0 es = .ok df) :
    (defText S df = .panic ↔ (∀ e ∈ es, e = .tru ∨ e = .fals) ∨ ∃ e ∈ es, PcreCond e) ∧ (defText S df ≠ .panic → ∃ text, defText S df = .ok text) := by
  cases hes : genExprs es with
  | nil =>
    have hall : ∀ e ∈ es, e = .tru ∨ e = .fals := by
      intro e he
      apply Classical.byContradiction
      intro hn
      have := (mem_genExprs e es).2 ⟨he, by simpa [NotConst, not_or] using hn⟩
      rw [hes] at this
      cases this
    rw [transform, hes] at h
    cases h
    exact ⟨⟨fun _ => .inl hall, fun _ => rfl⟩, fun h => absurd rfl h⟩
  | cons g gs =>
    obtain ⟨h1, h2, _⟩ := C07_tree C slot0 es hes h
    have htree := itemText_shaped _ 0 0 (df.tree.length + 1) h1 (by omega)
    rw [transform_cons C slot0 es hes] at h
    obtain ⟨r, hr, h⟩ := Res.bind_eq_ok.1 h
    cases h
    have hm := tMerge_printed C (g :: gs) (initT slot0) r (by intro va hva; cases hva) hr
    have hp : execP r.1.root = true ↔ ∃ e ∈ es, PcreCond e := by
      rw [hm.pcre, ← hes]
      constructor
      · rintro (h | ⟨e, he, h⟩)
        · cases h
        · exact ⟨e, ((mem_genExprs e es).1 he).1, h⟩
      · rintro ⟨e, he, h⟩
        refine .inr ⟨e, (mem_genExprs e es).2 ⟨he, ?_⟩, h⟩
        constructor <;> rintro rfl <;> simp [PcreCond] at h
    have hne : ¬ ∀ e ∈ es, e = .tru ∨ e = .fals := by
      intro hall
      have := (mem_genExprs g es).1 (by rw [hes]; exact .head _)
      rcases hall g this.1 with hg | hg
      · exact this.2.1 hg
      · exact this.2.2 hg
    have ht := execText_iff S r.1.root
    cases hq : execP r.1.root with
    | true =>
      rw [hq] at ht
      have ht : execText S r.1.root = .panic := ht
      have : defText S { parse := some r.1.root, tree := r.1.tree, buckets := bucketIds es r.2, numSlots := r.1.slotIdx } = .panic := by
        simp [defText, ht]
      exact ⟨⟨fun _ => .inr (hp.1 hq), fun _ => this⟩, fun h => absurd this h⟩
    | false =>
      rw [hq] at ht
      obtain ⟨x, hx⟩ : ∃ x, execText S r.1.root = .ok x := ht
      have : ∃ text, defText S { parse := some r.1.root, tree := r.1.tree, buckets := bucketIds es r.2, numSlots := r.1.slotIdx } = .ok text := by
        simp only [defText, hx, Res.bind_ok]
        rw [htree]
        exact ⟨_, rfl⟩
      refine ⟨⟨fun h => ?_, fun h => ?_⟩, fun _ => this⟩
      · obtain ⟨text, ht⟩ := this
        rw [ht] at h; cases h
      · rcases h with h | h
        · exact absurd h hne
        · rw [hp.2 h] at hq; cases hq

/-- The part of the text that shows the tree: the tree of the compiled expressions, every node once, numbered from the root. -/
theorem C90_tree (C : Comp E) (slot0 : Nat) (es : List (Expr E)) {g : Expr E} {gs : List (Expr E)} (hg : genExprs es = g :: gs) {df : Def E}
    (h : transform C slot0 es = .ok df) :
    itemText df.tree (df.tree.length + 1) 0 = .ok (shText (BinTree.mergeSh (shape g) (gs.map shape)) 0 0) := by
  obtain ⟨h1, h2, _⟩ := C07_tree C slot0 es hg h
  exact itemText_shaped _ 0 0 (df.tree.length + 1) h1 (by omega)

/-! ### C91 -/

mutual
  /-- The same node, with the entries of its maps of elements (and those of the nodes below) in another order. -/
  inductive ExecS : Exec E → Exec E → Prop
    | mk {st es es' ops ls ls' a a'} : ElemsS es es' → LoopsS ls ls' → AfterS a a' → ExecS (.mk st es ops ls a) (.mk st es' ops ls' a')
  inductive ElemsS : Elems E → Elems E → Prop
    | nil : ElemsS .nil .nil
    | cons {k e e' r r'} : ExecS e e' → ElemsS r r' → ElemsS (.cons k e r) (.cons k e' r')
    | swap {k k' e e' r} : k ≠ k' → ElemsS (.cons k e (.cons k' e' r)) (.cons k' e' (.cons k e r))
    | trans {a b c} : ElemsS a b → ElemsS b c → ElemsS a c
  inductive LoopsS : Loops E → Loops E → Prop
    | nil : LoopsS .nil .nil
    | cons {b m t e e' r r'} : ExecS e e' → LoopsS r r' → LoopsS (.cons b m t e r) (.cons b m t e' r')
  inductive AfterS : After E → After E → Prop
    | none : AfterS .none .none
    | some {ops ls ls'} : LoopsS ls ls' → AfterS (.some ops ls) (.some ops ls')
end

theorem insertKey_comm {α : Type} {k k' : List Nat} (hk : k ≠ k') (x x' : α) : ∀ l : List (List Nat × α),
    insertKey k x (insertKey k' x' l) = insertKey k' x' (insertKey k x l)
  | [] => by
    rcases List.le_total k k' with h | h
    · have hlt : k < k' := (List.le_iff_lt_or_eq.1 h).resolve_right hk
      have hnl : ¬ k' < k := List.lt_asymm hlt
      simp [insertKey, hlt, hnl]
    · have hlt : k' < k := (List.le_iff_lt_or_eq.1 h).resolve_right (Ne.symm hk)
      have hnl : ¬ k < k' := List.lt_asymm hlt
      simp [insertKey, hlt, hnl]
  | (a, y) :: r => by
    have ih := insertKey_comm hk x x' r
    by_cases h1 : a < k <;> by_cases h2 : a < k'
    · simp [insertKey, h1, h2, ih]
    · have hlt : k' < k := List.lt_of_le_of_lt (List.not_lt.1 h2) h1
      simp [insertKey, h1, h2, hlt]
    · have hlt : k < k' := List.lt_of_le_of_lt (List.not_lt.1 h1) h2
      simp [insertKey, h1, h2, hlt]
    · rcases List.le_total k k' with h | h
      · have hlt : k < k' := (List.le_iff_lt_or_eq.1 h).resolve_right hk
        have hnl : ¬ k' < k := List.lt_asymm hlt
        simp [insertKey, h1, h2, hlt, hnl]
      · have hlt : k' < k := (List.le_iff_lt_or_eq.1 h).resolve_right (Ne.symm hk)
        have hnl : ¬ k < k' := List.lt_asymm hlt
        simp [insertKey, h1, h2, hlt, hnl]

mutual
  theorem execText_order (S : Show E) : ∀ {e e' : Exec E}, ExecS e e' → execText S e = execText S e'
    | _, _, .mk h1 h2 h3 => by rw [execText, execText, elemsText_order S h1, loopsText_order S h2, afterText_order S h3]
  theorem elemsText_order (S : Show E) : ∀ {e e' : Elems E}, ElemsS e e' → elemsText S e = elemsText S e'
    | _, _, .nil => rfl
    | _, _, .cons h1 h2 => by rw [elemsText, elemsText, execText_order S h1, elemsText_order S h2]
    | .cons k e (.cons k' e' r), _, .swap h => by
      simp only [elemsText]
      have p1 := execText_iff S e
      have p2 := execText_iff S e'
      have p3 := elemsText_iff S r
      cases g1 : execText S e <;> cases g2 : execText S e' <;> cases g3 : elemsText S r <;> simp [insertKey_comm h] <;>
        (rw [g1] at p1; rw [g2] at p2; rw [g3] at p3; unfold PanicIf at p1 p2 p3; split at p1 <;> split at p2 <;> split at p3 <;> simp at p1 p2 p3)
    | _, _, .trans h1 h2 => (elemsText_order S h1).trans (elemsText_order S h2)
  theorem loopsText_order (S : Show E) : ∀ {e e' : Loops E}, LoopsS e e' → loopsText S e = loopsText S e'
    | _, _, .nil => rfl
    | _, _, .cons h1 h2 => by rw [loopsText, loopsText, execText_order S h1, loopsText_order S h2]
  theorem afterText_order (S : Show E) : ∀ {e e' : After E}, AfterS e e' → afterText S e = afterText S e'
    | _, _, .none => rfl
    | _, _, .some h => by rw [afterText, afterText, loopsText_order S h]
end

/-- **C91.**  The text does not depend on the order in which the maps of a definition are walked. -/
theorem C91_deterministic (S : Show E) {df df' : Def E} {e e' : Exec E} (h : df.parse = some e) (h' : df'.parse = some e') (hs : ExecS e e')
    (ht : df.tree = df'.tree) (hb : df.buckets = df'.buckets) (hn : df.numSlots = df'.numSlots) : defText S df = defText S df' := by
  simp only [defText, h, h', execText_order S hs, ht, hb, hn]

/-! ### Examples -/

def demoShow : Show demoExt := ⟨fun _ => [], fun _ => [], fun _ => [], fun _ => []⟩

/-- `a = 1` and `NOT EVERY x IN a SATISFIES x = a` can be printed. -/
example : ∃ df text, transform demoComp 0 [.cmp .eq fieldA one, .not (.loop .every 1 fieldA (.cmp .eq (.field ⟨1, []⟩) fieldA))] = .ok df ∧
    defText demoShow df = .ok text := by
  cases h : transform demoComp 0 [.cmp .eq fieldA one, .not (.loop .every 1 fieldA (.cmp .eq (.field ⟨1, []⟩) fieldA))] with
  | ok df =>
    have h1 := C90_prints demoShow demoComp 0 h
    obtain ⟨text, ht⟩ := h1.2 (by rw [Ne, h1.1]; simp [PcreCond, PcreParam, fieldA, one])
    exact ⟨df, text, rfl, ht⟩
  | panic =>
    have : (transform demoComp 0 [.cmp .eq fieldA one, .not (.loop .every 1 fieldA (.cmp .eq (.field ⟨1, []⟩) fieldA))] >>= fun _ => Res.ok ()) = .ok () := by
      decide +kernel
    rw [h] at this; cases this
  | stuck =>
    have : (transform demoComp 0 [.cmp .eq fieldA one, .not (.loop .every 1 fieldA (.cmp .eq (.field ⟨1, []⟩) fieldA))] >>= fun _ => Res.ok ()) = .ok () := by
      decide +kernel
    rw [h] at this; cases this

/-- C90 without its exceptions is false: the definitions of `a LIKE pcre` and of `TRUE` compile and cannot be printed. -/
theorem C90_negation :
    (transform demoComp 0 [.cmp .like fieldA (.pcre (.json (.str [97])))] >>= fun df => Res.ok (decide (defText demoShow df = .panic))) = .ok true ∧
    (transform demoComp 0 [(.tru : Expr demoExt)] >>= fun df => Res.ok (decide (defText demoShow df = .panic))) = .ok true := by
  decide +kernel

/-- The text of `a = 1`. -/
example : (transform demoComp 0 [.cmp .eq fieldA one] >>= fun df => defText demoShow df) = .ok (ascii
    "match tree:\n  $doc:\n    :elems\n      `a`:\n        :ops\n          [0] @ eq (int)1\nbin tree:\n  [0:0] leaf\nmatch buckets:\n  0: 0\nnum buckets: 1\nnum slots: 0") := by
  decide +kernel

/-- Elements `b` and `a`, in either order. -/
example : defText demoShow ⟨some (.mk 0 (.cons [98] emptyExec (.cons [97] (.mk 1 .nil [] .nil .none) .nil)) [] .nil .none), [⟨.leaf, 0, 0, 0⟩], [0], 1⟩ =
    defText demoShow ⟨some (.mk 0 (.cons [97] (.mk 1 .nil [] .nil .none) (.cons [98] emptyExec .nil)) [] .nil .none), [⟨.leaf, 0, 0, 0⟩], [0], 1⟩ :=
  C91_deterministic demoShow rfl rfl (.mk (.swap (by decide)) .nil .none) rfl rfl rfl

end Verif.Transform
