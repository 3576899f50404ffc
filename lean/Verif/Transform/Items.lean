import Verif.Transform.Tree

/-!
# What a node contains, as a list

`items` flattens a node into its operations and loops, each with the path of keys that leads to it.
-/

namespace Verif.Transform
open Verif.FastVal Verif.Match Verif.Expr

variable {E : Ext}

abbrev Path := List (List Nat)

inductive Item (E : Ext) where
  | op (o : Op E)
  | loop (b : Nat) (m : Mode) (t : Option (Ref E)) (body : Exec E)
  | aop (o : Op E)
  | aloop (b : Nat) (m : Mode) (t : Option (Ref E)) (body : Exec E)

def Item.bucket : Item E → Nat
  | .op o => o.bucket
  | .loop b _ _ _ => b
  | .aop o => o.bucket
  | .aloop b _ _ _ => b

def loopItems (f : Nat → Mode → Option (Ref E) → Exec E → Item E) : Loops E → List (Path × Item E)
  | .nil => []
  | .cons b m t e r => ([], f b m t e) :: loopItems f r

def afterItems : After E → List (Path × Item E)
  | .none => []
  | .some ops ls => ops.map (fun o => ([], .aop o)) ++ loopItems .aloop ls

/-- Below a key. -/
def under {α : Type} (k : List Nat) (l : List (Path × α)) : List (Path × α) := l.map (fun x => (k :: x.1, x.2))

mutual
  def items : Exec E → List (Path × Item E)
    | .mk _ es ops ls a => ops.map (fun o => ([], .op o)) ++ (itemsE es ++ (loopItems .loop ls ++ afterItems a))
  def itemsE : Elems E → List (Path × Item E)
    | .nil => []
    | .cons k e r => under k (items e) ++ itemsE r
end

/-- What a node has besides its items: a slot its value is stored in, an `AfterNode`. -/
inductive Note where
  | slot (s : Nat)
  | after
  deriving DecidableEq

def slotNote (st : Nat) : List (Path × Note) := if st = 0 then [] else [([], .slot st)]

def afterNote : After E → List (Path × Note)
  | .none => []
  | .some _ _ => [([], .after)]

mutual
  /-- The notes of a node (not of the bodies of its loops), each with its path. -/
  def notes : Exec E → List (Path × Note)
    | .mk st es _ _ a => slotNote st ++ (afterNote a ++ notesE es)
  def notesE : Elems E → List (Path × Note)
    | .nil => []
    | .cons k e r => under k (notes e) ++ notesE r
end

/-- There is an item or a note at a path. -/
def Content (n : Exec E) (p : Path) : Prop := (∃ it, (p, it) ∈ items n) ∨ ∃ x, (p, x) ∈ notes n

/-- The value at a path is read by an operation or stored. -/
def Reads (n : Exec E) (p : Path) : Prop := (∃ o, (p, Item.op o) ∈ items n) ∨ ∃ s, (p, Note.slot s) ∈ notes n

/-- The items with a given bucket. -/
def withBucket (i : Nat) (l : List (Path × Item E)) : List (Path × Item E) := l.filter (fun x => decide (x.2.bucket = i))

theorem withBucket_append (i : Nat) (l l' : List (Path × Item E)) :
    withBucket i (l ++ l') = withBucket i l ++ withBucket i l' := List.filter_append ..

theorem withBucket_under (i : Nat) (k : List Nat) (l : List (Path × Item E)) :
    withBucket i (under k l) = under k (withBucket i l) := by
  simp [withBucket, under, List.filter_map, Function.comp_def]

theorem mem_withBucket {i : Nat} {l : List (Path × Item E)} {x : Path × Item E} :
    x ∈ withBucket i l ↔ x ∈ l ∧ x.2.bucket = i := by simp [withBucket]

end Verif.Transform

namespace Verif.Match
variable {E : FastVal.Ext}

mutual
  /-- No key occurs twice, down to the loop bodies. -/
  def Exec.Tidy : Exec E → Prop
    | .mk _ es _ ls a => es.Tidy ∧ ls.Tidy ∧ a.Tidy
  def Elems.Tidy : Elems E → Prop
    | .nil => True
    | .cons k e r => r.find k = none ∧ e.Tidy ∧ r.Tidy
  def Loops.Tidy : Loops E → Prop
    | .nil => True
    | .cons _ _ _ e r => e.Tidy ∧ r.Tidy
  def After.Tidy : After E → Prop
    | .none => True
    | .some _ ls => ls.Tidy
end

theorem Elems.Tidy.find {es : Elems E} (h : es.Tidy) {k e} (he : es.find k = some e) : e.Tidy := by
  match es, h with
  | .cons k' e' r, h =>
    rw [Elems.find] at he
    split at he
    · simp at he; subst he; exact h.2.1
    · exact Elems.Tidy.find (es := r) h.2.2 he

end Verif.Match

namespace Verif.Transform
open Verif.FastVal Verif.Match Verif.Expr
variable {E : Ext}

theorem emptyExec_items : items (emptyExec : Exec E) = [] := rfl
theorem emptyExec_tidy : (emptyExec : Exec E).Tidy := ⟨trivial, trivial, trivial⟩

/-! ### Updating -/

theorem find_alter (k : List Nat) (f : Exec E → Exec E) (k' : List Nat) (h : k' ≠ k) : ∀ es : Elems E,
    (alterElems k f es).find k' = es.find k'
  | .nil => by simp [alterElems, Elems.find, Ne.symm h]
  | .cons k1 e r => by
    rw [alterElems]
    split
    · rename_i hk; subst hk
      simp only [Elems.find, if_neg (Ne.symm h)]
    · simp only [Elems.find, find_alter k f k' h r]

theorem alterElems_tidy {k : List Nat} {f : Exec E → Exec E} (hf : ∀ n, n.Tidy → (f n).Tidy) : ∀ es : Elems E, es.Tidy →
    (alterElems k f es).Tidy
  | .nil, _ => ⟨rfl, hf _ emptyExec_tidy, trivial⟩
  | .cons k' e r, h => by
    rw [alterElems]
    split
    · exact ⟨h.1, hf _ h.2.1, h.2.2⟩
    · rename_i hk
      exact ⟨by rw [find_alter k f k' hk]; exact h.1, h.2.1, alterElems_tidy hf r h.2.2⟩

theorem update_key_tidy {f : Exec E → Exec E} (hf : ∀ n, n.Tidy → (f n).Tidy) : ∀ (p : Path) (n : Exec E), n.Tidy →
    (update (p.map Step.key) f n).Tidy
  | [], n, h => hf n h
  | k :: p, .mk st es ops ls a, h => by
    rw [List.map_cons, update]
    exact ⟨alterElems_tidy (fun n hn => update_key_tidy hf p n hn) es h.1, h.2⟩

theorem alterElems_items {k : List Nat} {f : Exec E → Exec E} {new : List (Path × Item E)} {P : Exec E → Prop} (hP : P emptyExec)
    (hf : ∀ n, P n → (items (f n)).Perm (new ++ items n)) : ∀ es : Elems E, (∀ k e, es.find k = some e → P e) → es.Tidy →
    (itemsE (alterElems k f es)).Perm (under k new ++ itemsE es)
  | .nil, _, _ => by
    simp only [alterElems, itemsE, List.append_nil]
    have := hf _ hP
    rw [emptyExec_items, List.append_nil] at this
    exact this.map _
  | .cons k' e r, h, ht => by
    rw [alterElems]
    split
    · rename_i hk
      subst hk
      rw [itemsE, itemsE, ← List.append_assoc]
      refine List.Perm.append_right _ ?_
      have := (hf e (h k' e (by simp [Elems.find]))).map (fun x => (k' :: x.1, x.2))
      rw [List.map_append] at this
      exact this
    · rw [itemsE, itemsE]
      have ih := alterElems_items (k := k) hP hf r (fun k1 e1 h1 => h k1 e1 (by
        rw [Elems.find]
        split
        · rename_i hk; subst hk; rw [ht.1] at h1; cases h1
        · exact h1)) ht.2.2
      refine (List.Perm.append_left _ ih).trans ?_
      rw [← List.append_assoc, ← List.append_assoc]
      exact List.Perm.append_right _ List.perm_append_comm

theorem perm_front {α : Type} (A B C : List α) : (A ++ (B ++ C)).Perm (B ++ (A ++ C)) := by
  rw [← List.append_assoc, ← List.append_assoc]
  exact List.Perm.append_right _ List.perm_append_comm

/-- Prefixing a path. -/
def underPath {α : Type} (p : Path) (l : List (Path × α)) : List (Path × α) := l.map (fun x => (p ++ x.1, x.2))

theorem underPath_cons {α : Type} (k : List Nat) (p : Path) (l : List (Path × α)) : under k (underPath p l) = underPath (k :: p) l := by
  simp [under, underPath]

/-- Updating the node at a path adds what the update adds there. -/
theorem update_key_items {f : Exec E → Exec E} {new : List (Path × Item E)} {P : Exec E → Prop} (hP : P emptyExec)
    (hsub : ∀ st es ops ls a, P (.mk st es ops ls a) → ∀ k e, es.find k = some e → P e)
    (hf : ∀ n, P n → (items (f n)).Perm (new ++ items n)) : ∀ (p : Path) (n : Exec E), P n → n.Tidy →
    (items (update (p.map Step.key) f n)).Perm (underPath p new ++ items n)
  | [], n, h, _ => by
    have := hf n h
    simpa [underPath, update] using this
  | k :: p, .mk st es ops ls a, h, ht => by
    rw [List.map_cons, update, items, items]
    have := alterElems_items (k := k) (f := update (p.map Step.key) f) (new := underPath p new) (P := fun n => P n ∧ n.Tidy)
      ⟨hP, emptyExec_tidy⟩ (fun n hn => update_key_items hP hsub hf p n hn.1 hn.2) es
      (fun k e he => ⟨hsub _ _ _ _ _ h k e he, Elems.Tidy.find ht.1 he⟩) ht.1
    rw [underPath_cons] at this
    refine ((this.append_right (loopItems .loop ls ++ afterItems a)).append_left _).trans ?_
    rw [List.append_assoc]
    exact perm_front _ _ _

theorem emptyExec_notes : notes (emptyExec : Exec E) = [] := rfl

theorem alterElems_notes {k : List Nat} {f : Exec E → Exec E} {new : List (Path × Note)} (hf : ∀ n, (notes (f n)).Perm (new ++ notes n)) :
    ∀ es : Elems E, (notesE (alterElems k f es)).Perm (under k new ++ notesE es)
  | .nil => by
    simp only [alterElems, notesE, List.append_nil]
    have := hf emptyExec
    rw [emptyExec_notes, List.append_nil] at this
    exact this.map _
  | .cons k' e r => by
    rw [alterElems]
    split
    · rename_i hk
      subst hk
      rw [notesE, notesE, ← List.append_assoc]
      refine List.Perm.append_right _ ?_
      have := (hf e).map (fun x => (k' :: x.1, x.2))
      rw [List.map_append] at this
      exact this
    · rw [notesE, notesE]
      exact (List.Perm.append_left _ (alterElems_notes hf r)).trans (perm_front _ _ _)

theorem update_key_notes {f : Exec E → Exec E} {new : List (Path × Note)} (hf : ∀ n, (notes (f n)).Perm (new ++ notes n)) :
    ∀ (p : Path) (n : Exec E), (notes (update (p.map Step.key) f n)).Perm (underPath p new ++ notes n)
  | [], n => by
    have := hf n
    simpa [underPath, update] using this
  | k :: p, .mk st es ops ls a => by
    rw [List.map_cons, update, notes, notes]
    have := alterElems_notes (k := k) (update_key_notes hf p) es
    rw [underPath_cons] at this
    refine ((this.append_left (afterNote a)).append_left _).trans ?_
    exact ((perm_front _ _ _).append_left _).trans (perm_front _ _ _)

theorem addOp_notes (op : Op E) (n : Exec E) : notes (addOp op n) = notes n := by
  obtain ⟨st, es, ops, ls, a⟩ := n; rfl

theorem addLoop_notes (b : Nat) (m : Mode) (t : Option (Ref E)) (e n : Exec E) : notes (addLoop b m t e n) = notes n := by
  obtain ⟨st, es, ops, ls, a⟩ := n; rfl

/-- No loop of the node has the bucket `b`. -/
def NoLoop (b : Nat) (n : Exec E) : Prop := ∀ x ∈ items n, (∀ b' m t e, x.2 = .loop b' m t e → b' ≠ b) ∧
  (∀ b' m t e, x.2 = .aloop b' m t e → b' ≠ b)

theorem noLoop_empty (b : Nat) : NoLoop b (emptyExec : Exec E) := by
  intro x hx; rw [emptyExec_items] at hx; cases hx

theorem mem_itemsE_find {es : Elems E} {k e} (he : es.find k = some e) {x : Path × Item E} (hx : x ∈ items e) :
    (k :: x.1, x.2) ∈ itemsE es := by
  match es with
  | .cons k' e' r =>
    rw [Elems.find] at he
    rw [itemsE]
    split at he
    · rename_i hk
      simp at he; subst he; subst hk
      exact List.mem_append_left _ (List.mem_map.2 ⟨x, hx, rfl⟩)
    · exact List.mem_append_right _ (mem_itemsE_find (es := r) he hx)

theorem noLoop_sub {b : Nat} {st es ops ls a} (h : NoLoop b (.mk st es ops ls a : Exec E)) : ∀ k e, es.find k = some e → NoLoop b e := by
  intro k e he x hx
  have := h (k :: x.1, x.2) (by
    rw [items]
    exact List.mem_append_right _ (List.mem_append_left _ (mem_itemsE_find he hx)))
  exact this

theorem alterLoops_absent {b : Nat} {g : Exec E → Exec E} {mk : Nat → Mode → Option (Ref E) → Exec E → Item E} : ∀ ls : Loops E,
    (∀ x ∈ loopItems mk ls, ∀ b' m t e, x.2 = mk b' m t e → b' ≠ b) → alterLoops b g ls = ls
  | .nil, _ => rfl
  | .cons b' m t e r, h => by
    rw [alterLoops, if_neg (h ([], mk b' m t e) (by simp [loopItems]) b' m t e rfl),
      alterLoops_absent (mk := mk) r (fun x hx => h x (by rw [loopItems]; exact List.mem_cons_of_mem _ hx))]

theorem alterLoops_snoc {b : Nat} {g : Exec E → Exec E} {m t} {mk : Nat → Mode → Option (Ref E) → Exec E → Item E} {e0 : Exec E} :
    ∀ ls : Loops E, (∀ x ∈ loopItems mk ls, ∀ b' m t e, x.2 = mk b' m t e → b' ≠ b) →
    alterLoops b g (Loops.snoc ls b m t e0) = Loops.snoc ls b m t (g e0)
  | .nil, _ => by simp [Loops.snoc, alterLoops]
  | .cons b' m' t' e r, h => by
    rw [Loops.snoc, alterLoops, if_neg (h ([], mk b' m' t' e) (by simp [loopItems]) b' m' t' e rfl),
      alterLoops_snoc (mk := mk) r (fun x hx => h x (by rw [loopItems]; exact List.mem_cons_of_mem _ hx)), Loops.snoc]

theorem loopItems_snoc (mk : Nat → Mode → Option (Ref E) → Exec E → Item E) {b m t e} : ∀ ls : Loops E,
    loopItems mk (Loops.snoc ls b m t e) = loopItems mk ls ++ [([], mk b m t e)]
  | .nil => rfl
  | .cons .. => by rw [Loops.snoc, loopItems, loopItems, loopItems_snoc mk]; rfl

theorem loops_snoc_tidy {b m t} {e : Exec E} (he : e.Tidy) : ∀ ls : Loops E, ls.Tidy → (Loops.snoc ls b m t e).Tidy
  | .nil, _ => ⟨he, trivial⟩
  | .cons .., h => ⟨h.1, loops_snoc_tidy he _ h.2⟩

/-- Adding a loop and then building its body. -/
def addBody (b : Nat) (m : Mode) (g : Exec E → Exec E) (n : Exec E) : Exec E :=
  update [.loop b] g (addLoop b m none emptyExec n)

theorem addBody_eq {b : Nat} {m : Mode} {g : Exec E → Exec E} {n : Exec E} (h : NoLoop b n) :
    addBody b m g n = addLoop b m none (g emptyExec) n := by
  obtain ⟨st, es, ops, ls, a⟩ := n
  have hl : ∀ x ∈ loopItems Item.loop ls, ∀ b' m t e, x.2 = Item.loop b' m t e → b' ≠ b := by
    intro x hx
    exact (h x (by rw [items]; exact List.mem_append_right _ (List.mem_append_right _ (List.mem_append_left _ hx)))).1
  have ha : alterAfter b g a = a := by
    cases a with
    | none => rfl
    | some ops' ls' =>
      rw [alterAfter, alterLoops_absent (mk := Item.aloop) ls']
      intro x hx
      exact (h x (by
        rw [items]
        exact List.mem_append_right _ (List.mem_append_right _ (List.mem_append_right _
          (List.mem_append_right _ hx))))).2
  simp only [addBody, addLoop, update]
  rw [show (fun x => g x) = g from rfl, alterLoops_snoc (mk := Item.loop) ls hl, ha]

theorem addLoop_items (b : Nat) (m : Mode) (t : Option (Ref E)) (e n : Exec E) :
    (items (addLoop b m t e n)).Perm ([([], Item.loop b m t e)] ++ items n) := by
  obtain ⟨st, es, ops, ls, a⟩ := n
  rw [addLoop, items, items, loopItems_snoc]
  have : ∀ (A B C D F : List (Path × Item E)), (A ++ (B ++ ((C ++ D) ++ F))).Perm (D ++ (A ++ (B ++ (C ++ F)))) := by
    intro A B C D F
    have h : A ++ (B ++ ((C ++ D) ++ F)) = (A ++ B ++ C) ++ (D ++ F) := by simp
    rw [h]
    have h2 : D ++ (A ++ (B ++ (C ++ F))) = (D ++ (A ++ B ++ C)) ++ F := by simp
    rw [h2, ← List.append_assoc]
    exact List.Perm.append_right _ List.perm_append_comm
  exact this _ _ _ _ _

theorem addOp_items (op : Op E) (n : Exec E) : (items (addOp op n)).Perm ([([], Item.op op)] ++ items n) := by
  obtain ⟨st, es, ops, ls, a⟩ := n
  rw [addOp, items, items, List.map_append, List.append_assoc]
  exact perm_front _ _ _

theorem addOp_tidy (op : Op E) (n : Exec E) (h : n.Tidy) : (addOp op n).Tidy := by
  obtain ⟨st, es, ops, ls, a⟩ := n; exact h

theorem addLoop_tidy (b : Nat) (m : Mode) (t : Option (Ref E)) {e : Exec E} (he : e.Tidy) (n : Exec E) (h : n.Tidy) :
    (addLoop b m t e n).Tidy := by
  obtain ⟨st, es, ops, ls, a⟩ := n; exact ⟨h.1, loops_snoc_tidy he ls h.2.1, h.2.2⟩

/-! ### Composition of updates -/

theorem alterElems_comp (k : List Nat) (f g : Exec E → Exec E) : ∀ es : Elems E,
    alterElems k g (alterElems k f es) = alterElems k (fun n => g (f n)) es
  | .nil => by simp [alterElems]
  | .cons k' e r => by
    by_cases h : k' = k
    · simp [alterElems, h]
    · simp [alterElems, h, alterElems_comp k f g r]

theorem alterLoops_comp (b : Nat) (f g : Exec E → Exec E) : ∀ ls : Loops E,
    alterLoops b g (alterLoops b f ls) = alterLoops b (fun n => g (f n)) ls
  | .nil => by simp [alterLoops]
  | .cons b' m t e r => by
    by_cases h : b' = b
    · simp [alterLoops, h]
    · simp [alterLoops, h, alterLoops_comp b f g r]

theorem alterAfter_comp (b : Nat) (f g : Exec E → Exec E) : ∀ a : After E,
    alterAfter b g (alterAfter b f a) = alterAfter b (fun n => g (f n)) a
  | .none => rfl
  | .some _ ls => by simp [alterAfter, alterLoops_comp]

theorem update_comp : ∀ (p : Addr) (f g : Exec E → Exec E) (n : Exec E),
    update p g (update p f n) = update p (fun n => g (f n)) n
  | [], f, g, n => rfl
  | .key k :: p, f, g, .mk st es ops ls a => by
    simp only [update, alterElems_comp]
    rw [funext (update_comp p f g)]
  | .loop b :: p, f, g, .mk st es ops ls a => by
    simp only [update, alterLoops_comp, alterAfter_comp]
    rw [funext (update_comp p f g)]

theorem update_append : ∀ (p q : Addr) (f : Exec E → Exec E) (n : Exec E), update (p ++ q) f n = update p (update q f) n
  | [], q, f, n => rfl
  | .key k :: p, q, f, .mk st es ops ls a => by
    simp only [List.cons_append, update]
    rw [funext (update_append p q f)]
  | .loop b :: p, q, f, .mk st es ops ls a => by
    simp only [List.cons_append, update]
    rw [funext (update_append p q f)]

end Verif.Transform
