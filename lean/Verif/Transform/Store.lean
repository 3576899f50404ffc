import Verif.Transform.Whole
import Verif.Transform.Slots

/-!
# Storing fields in slots

A comparison whose operands mention different fields of the document is compiled to an operation of the `AfterNode` of the
fields' common path; the fields are stored in slots.  `tCompare_multi` shows what the transformer adds for one such comparison.
-/

namespace Verif.Transform
open Verif.FastVal Verif.Match Verif.Expr
open Verif.Token (D Es Ms Tok)
open Verif.BinTree (Sh BinOp)

variable {E : Ext}

/-! ### Specification: the expressions -/

mutual
  /-- The paths of the fields mentioned in a parameter expression. -/
  def paths : Expr E → List Path
    | .field f => [f.path]
    | .func _ ps => pathsAll ps
    | _ => []
  def pathsAll : Exprs E → List Path
    | .nil => []
    | .cons e r => paths e ++ pathsAll r
end

mutual
  /-- Constants (whose patterns and times are valid), functions of parameters, and fields of the document. -/
  def MParam (C : Comp E) : Expr E → Prop
    | .field f => f.root = 0
    | .value _ => True
    | .regex g => ∃ s r, g = .json (.str s) ∧ C.regexp s = some r
    | .pcre g => ∃ s r, g = .json (.str s) ∧ C.pcre s = some r
    | .time g => ∃ s x, g = .json (.str s) ∧ E.parseTime s = some x
    | .func _ ps => MParams C ps
    | _ => False
  def MParams (C : Comp E) : Exprs E → Prop
    | .nil => True
    | .cons e r => MParam C e ∧ MParams C r
end

/-- The keys two paths have in common at their start. -/
def common : Path → Path → Path
  | k :: p, k' :: p' => if k = k' then k :: common p p' else []
  | _, _ => []

/-- The longest common start of paths. -/
def baseOf : List Path → Path
  | [] => []
  | p :: ps => ps.foldl common p

/-- The path whose value has all fields of the comparison below it. -/
def base (l r : Expr E) : Path := baseOf (paths l ++ paths r)

/-- Whether operands mention different fields. -/
def several (l r : Expr E) : Bool :=
  match paths l ++ paths r with
  | [] => false
  | p :: ps => ps.any (fun q => decide (q ≠ p))

/-- No field contains all the others. -/
def Loose (ps : List Path) : Prop := ∀ p ∈ ps, ∃ p' ∈ ps, ¬ p <+: p'

/-! ### The base -/

/-- All paths go on below `q`, and not all with the same key. -/
def Splits (q : Path) (ps : List Path) : Prop :=
  (∀ p ∈ ps, ∃ k p', p = q ++ k :: p') ∧ ∃ k p' k1 p1, q ++ k :: p' ∈ ps ∧ q ++ k1 :: p1 ∈ ps ∧ k ≠ k1

theorem common_left : ∀ p p' : Path, common p p' <+: p
  | [], _ => by simp [common]
  | k :: p, [] => by simp [common]
  | k :: p, k' :: p' => by
    rw [common]
    split
    · exact List.cons_prefix_cons.2 ⟨rfl, common_left p p'⟩
    · exact List.nil_prefix

theorem common_right : ∀ p p' : Path, common p p' <+: p'
  | [], _ => by simp [common]
  | k :: p, [] => by simp [common]
  | k :: p, k' :: p' => by
    rw [common]
    split
    · rename_i h; exact List.cons_prefix_cons.2 ⟨h, common_right p p'⟩
    · exact List.nil_prefix

theorem common_greatest : ∀ (x p p' : Path), x <+: p → x <+: p' → x <+: common p p'
  | [], _, _, _, _ => List.nil_prefix
  | k :: x, p, p', h, h' => by
    cases p with
    | nil => simp at h
    | cons a p => cases p' with
      | nil => simp at h'
      | cons a' p' =>
        rw [List.cons_prefix_cons] at h h'
        obtain ⟨rfl, h⟩ := h
        obtain ⟨rfl, h'⟩ := h'
        rw [common, if_pos rfl, List.cons_prefix_cons]
        exact ⟨rfl, common_greatest x p p' h h'⟩

theorem fold_common : ∀ (ps : List Path) (p : Path), (∀ x ∈ p :: ps, ps.foldl common p <+: x) ∧
    ∀ x, (∀ y ∈ p :: ps, x <+: y) → x <+: ps.foldl common p
  | [], p => ⟨by simp, fun x h => h p (by simp)⟩
  | p' :: ps, p => by
    obtain ⟨h1, h2⟩ := fold_common ps (common p p')
    rw [List.foldl_cons]
    refine ⟨fun x hx => ?_, fun x h => h2 x (fun y hy => ?_)⟩
    · rcases List.mem_cons.1 hx with rfl | hx
      · exact (h1 (common x p') (by simp)).trans (common_left _ _)
      · rcases List.mem_cons.1 hx with rfl | hx
        · exact (h1 (common p x) (by simp)).trans (common_right _ _)
        · exact h1 x (List.mem_cons_of_mem _ hx)
    · rcases List.mem_cons.1 hy with rfl | hy
      · exact common_greatest x _ _ (h p (by simp)) (h p' (by simp))
      · exact h y (List.mem_cons_of_mem _ (List.mem_cons_of_mem _ hy))

theorem splits_of_loose {l : List Path} (hl : l ≠ []) (ha : Loose l) : Splits (baseOf l) l := by
  cases l with
  | nil => exact absurd rfl hl
  | cons p ps =>
    obtain ⟨h1, h2⟩ := fold_common ps p
    rw [baseOf]
    have hbelow : ∀ x ∈ p :: ps, ∃ k p', x = ps.foldl common p ++ k :: p' := by
      intro x hx
      obtain ⟨t, ht⟩ := h1 x hx
      cases t with
      | nil =>
        exfalso
        rw [List.append_nil] at ht
        rw [ht] at h1
        obtain ⟨y, hy, hn⟩ := ha x hx
        exact hn (h1 y hy)
      | cons k t => exact ⟨k, t, ht.symm⟩
    refine ⟨hbelow, ?_⟩
    obtain ⟨k, p', hk⟩ := hbelow p (by simp)
    by_cases hall : ∀ x ∈ p :: ps, ps.foldl common p ++ [k] <+: x
    · have := (h2 _ hall).length_le
      rw [List.length_append, List.length_singleton] at this
      omega
    · have : ∃ x ∈ p :: ps, ¬ ps.foldl common p ++ [k] <+: x := by
        apply Classical.byContradiction
        intro h
        exact hall (fun x hx => Classical.byContradiction (fun hn => h ⟨x, hx, hn⟩))
      obtain ⟨x, hx, hn⟩ := this
      obtain ⟨k1, q1, hk1⟩ := hbelow x hx
      refine ⟨k, p', k1, q1, hk ▸ List.mem_cons_self, hk1 ▸ hx, fun he => ?_⟩
      subst he
      apply hn
      rw [hk1]
      exact ⟨q1, by simp⟩

theorem splits_base {l r : Expr E} (hm : several l r = true) (ha : Loose (paths l ++ paths r)) : Splits (base l r) (paths l ++ paths r) :=
  splits_of_loose (fun h => by unfold several at hm; rw [h] at hm; cases hm) ha

/-! ### What compilation adds -/

mutual
  /-- The reference for a parameter, where `ρ` gives the slots of the fields. -/
  def slotRef (C : Comp E) (ρ : Path → Nat) : Expr E → Ref E
    | .field f => .slot (ρ f.path)
    | .func n ps => .fn (fnameOf n) (slotRefs C ρ ps)
    | e => refOf C e
  def slotRefs (C : Comp E) (ρ : Path → Nat) : Exprs E → Refs E
    | .nil => .nil
    | .cons e r => .cons (slotRef C ρ e) (slotRefs C ρ r)
end

/-- The operation of a comparison of several fields. -/
def slotOp (C : Comp E) (ρ : Path → Nat) (c : Cmp) (l r : Expr E) (b : Nat) : Op E :=
  ⟨if c = .ne then b + 1 else b, opOf c, some (slotRef C ρ l), some (slotRef C ρ r)⟩

/-! ### Nodes and slots -/

theorem find_alter_same (k : List Nat) (f : Exec E → Exec E) : ∀ es : Elems E, (alterElems k f es).find k = some (f ((es.find k).getD emptyExec))
  | .nil => by simp [alterElems, Elems.find]
  | .cons k' e r => by
    rw [alterElems]
    by_cases h : k' = k
    · subst h; simp [Elems.find]
    · rw [if_neg h]
      simp only [Elems.find, if_neg h]
      exact find_alter_same k f r

/-- The node a path leads to, a new one if there is none. -/
theorem nodeAt_update (f : Exec E → Exec E) : ∀ (p : Path) (n : Exec E),
    nodeAt (keys p) (update (keys p) f n) = some (f ((nodeAt (keys p) n).getD emptyExec))
  | [], n => by simp [keys, nodeAt, update]
  | k :: p, .mk st es ops ls a => by
    have ih := nodeAt_update f p ((es.find k).getD emptyExec)
    simp only [keys] at ih
    simp only [keys, List.map_cons, update, nodeAt, find_alter_same, Option.bind_some, ih]
    cases es.find k with
    | some e => rfl
    | none =>
      simp only [Option.getD_none, Option.bind_none]
      congr 2
      cases p with
      | nil => rfl
      | cons k' p => rfl

theorem alterElems_id : ∀ (es : Elems E) {k e} {f : Exec E → Exec E}, es.find k = some e → f e = e → alterElems k f es = es
  | .nil, k, e, f, h, _ => by cases h
  | .cons k' e' r, k, e, f, h, hf => by
    rw [Elems.find] at h
    rw [alterElems]
    split at h
    · rename_i hk
      cases h
      rw [if_pos hk, hf]
    · rename_i hk
      rw [if_neg hk, alterElems_id r h hf]

/-- Looking for a node that is there changes nothing. -/
theorem update_id_there : ∀ (p : Path) (n : Exec E) {m}, nodeAt (keys p) n = some m → update (keys p) id n = n
  | [], n, m, _ => rfl
  | k :: p, .mk st es ops ls a, m, h => by
    simp only [keys, List.map_cons, nodeAt] at h
    cases he : es.find k with
    | none => rw [he] at h; cases h
    | some e =>
      rw [he, Option.bind_some] at h
      have := update_id_there p e h
      simp only [keys] at this
      simp only [keys, List.map_cons, update]
      rw [alterElems_id es he this]

theorem slot_noted : ∀ (p : Path) (n : Exec E) {m}, nodeAt (keys p) n = some m → storeOf m ≠ 0 → (p, Note.slot (storeOf m)) ∈ notes n
  | [], .mk st es ops ls a, m, h, hs => by
    simp only [keys, List.map_nil, nodeAt, Option.some.injEq] at h
    subst h
    rw [notes, slotNote]
    simp only [storeOf] at hs ⊢
    rw [if_neg hs]
    exact List.mem_append_left _ (List.mem_singleton.2 rfl)
  | k :: p, .mk st es ops ls a, m, h, hs => by
    simp only [keys, List.map_cons, nodeAt] at h
    cases he : es.find k with
    | none => rw [he] at h; cases h
    | some e =>
      rw [he, Option.bind_some] at h
      have := slot_noted p e h hs
      rw [notes]
      exact List.mem_append_right _ (List.mem_append_right _ (mem_notesE_find (x := (p, _)) he this))

theorem alterElems_notes_at {k : List Nat} {f : Exec E → Exec E} {new : List (Path × Note)} : ∀ es : Elems E,
    (notes (f ((es.find k).getD emptyExec))).Perm (new ++ notes ((es.find k).getD emptyExec)) →
    (notesE (alterElems k f es)).Perm (under k new ++ notesE es)
  | .nil, h => by
    simp only [alterElems, notesE, List.append_nil]
    rw [Elems.find, Option.getD_none, emptyExec_notes, List.append_nil] at h
    exact h.map _
  | .cons k' e r, h => by
    rw [Elems.find] at h
    rw [alterElems]
    by_cases hk : k' = k
    · subst hk
      rw [if_pos rfl, Option.getD_some] at h
      rw [if_pos rfl, notesE, notesE, ← List.append_assoc]
      refine List.Perm.append_right _ ?_
      have := h.map (fun x => (k' :: x.1, x.2))
      rw [List.map_append] at this
      exact this
    · rw [if_neg hk] at h
      rw [if_neg hk, notesE, notesE]
      exact (List.Perm.append_left _ (alterElems_notes_at r h)).trans (perm_front _ _ _)

theorem update_notes_at {f : Exec E → Exec E} {new : List (Path × Note)} : ∀ (p : Path) (n : Exec E),
    (notes (f ((nodeAt (keys p) n).getD emptyExec))).Perm (new ++ notes ((nodeAt (keys p) n).getD emptyExec)) →
    (notes (update (keys p) f n)).Perm (underPath p new ++ notes n)
  | [], n, h => by
    simpa [keys, underPath, update, nodeAt] using h
  | k :: p, .mk st es ops ls a, h => by
    have hn : (nodeAt (keys (k :: p)) (.mk st es ops ls a)).getD emptyExec = (nodeAt (keys p) ((es.find k).getD emptyExec)).getD emptyExec := by
      simp only [keys, List.map_cons, nodeAt]
      cases es.find k with
      | some e => rfl
      | none => cases p <;> rfl
    rw [hn] at h
    have h1 := update_notes_at p _ h
    have := alterElems_notes_at (k := k) es h1
    rw [underPath_cons] at this
    simp only [keys, List.map_cons, update]
    rw [notes, notes]
    refine ((this.append_left (afterNote a)).append_left _).trans ?_
    exact ((perm_front _ _ _).append_left _).trans (perm_front _ _ _)

theorem setStore_notes {s : Nat} (hs : s ≠ 0) (n : Exec E) (h : storeOf n = 0) : (notes (setStore s n)).Perm ([([], Note.slot s)] ++ notes n) := by
  obtain ⟨st, es, ops, ls, a⟩ := n
  simp only [storeOf] at h
  subst h
  rw [setStore, notes, notes, slotNote, slotNote, if_neg hs, if_pos rfl]
  exact .refl _

theorem setStore_items (s : Nat) (n : Exec E) : items (setStore s n) = items n := by obtain ⟨st, es, ops, ls, a⟩ := n; rfl

theorem setStore_tidy (s : Nat) (n : Exec E) (h : n.Tidy) : (setStore s n).Tidy := by obtain ⟨st, es, ops, ls, a⟩ := n; exact h

theorem setStore_full {s : Nat} (hs : s ≠ 0) (n : Exec E) (h : n.Full) :
    (setStore s n).Full ∧ (items (setStore s n) ≠ [] ∨ notes (setStore s n) ≠ []) := by
  obtain ⟨st, es, ops, ls, a⟩ := n
  refine ⟨h, Or.inr ?_⟩
  rw [setStore, notes, slotNote, if_neg hs]
  simp

theorem ensureAfter_items (n : Exec E) : items (ensureAfter n) = items n := by
  obtain ⟨st, es, ops, ls, a⟩ := n
  cases a with
  | none => simp [ensureAfter, items, afterItems, loopItems]
  | some => rfl

theorem ensureAfter_tidy (n : Exec E) (h : n.Tidy) : (ensureAfter n).Tidy := by
  obtain ⟨st, es, ops, ls, a⟩ := n
  cases a with
  | none => exact ⟨h.1, h.2.1, trivial⟩
  | some => exact h

theorem ensureAfter_full (n : Exec E) (h : n.Full) :
    (ensureAfter n).Full ∧ (items (ensureAfter n) ≠ [] ∨ notes (ensureAfter n) ≠ []) := by
  obtain ⟨st, es, ops, ls, a⟩ := n
  cases a with
  | none => exact ⟨⟨h.1, h.2.1, trivial⟩, Or.inr (by simp [ensureAfter, notes, afterNote])⟩
  | some => exact ⟨h, Or.inr (by simp [ensureAfter, notes, afterNote])⟩

/-- The `AfterNode` is there afterwards. -/
theorem ensureAfter_notes (n : Exec E) : ([], Note.after) ∈ notes (ensureAfter n) ∧
    ((notes (ensureAfter n)).Perm ([([], Note.after)] ++ notes n) ∨ (notes (ensureAfter n)).Perm (notes n)) := by
  obtain ⟨st, es, ops, ls, a⟩ := n
  cases a with
  | none =>
    refine ⟨by simp [ensureAfter, notes, afterNote], Or.inl ?_⟩
    simp only [ensureAfter, notes, afterNote, List.nil_append]
    exact perm_front _ _ _
  | some => exact ⟨by simp [ensureAfter, notes, afterNote], Or.inr (.refl _)⟩

/-- A note below `p`. -/
theorem note_under : ∀ (p : Path) (f : Exec E → Exec E) (n : Exec E) {x : Path × Note}, (∀ m, x ∈ notes (f m)) →
    (p ++ x.1, x.2) ∈ notes (update (keys p) f n)
  | [], f, n, x, h => by simpa [keys, update] using h n
  | k :: p, f, .mk st es ops ls a, x, h => by
    simp only [keys, List.map_cons, update]
    rw [notes]
    have ih := note_under p f ((es.find k).getD emptyExec) h
    exact List.mem_append_right _ (List.mem_append_right _ (mem_notesE_find (x := (p ++ x.1, x.2)) (find_alter_same k _ es) ih))

theorem ensureAfter_update (p : Path) (n : Exec E) : (p, Note.after) ∈ notes (update (keys p) ensureAfter n) ∧
    ((notes (update (keys p) ensureAfter n)).Perm ((p, Note.after) :: notes n) ∨ (notes (update (keys p) ensureAfter n)).Perm (notes n)) := by
  refine ⟨by simpa using note_under p ensureAfter n (x := ([], .after)) (fun m => (ensureAfter_notes m).1), ?_⟩
  rcases (ensureAfter_notes ((nodeAt (keys p) n).getD emptyExec)).2 with h | h
  · left
    have := update_notes_at p n h
    simpa [underPath] using this
  · right
    have := update_notes_at (new := []) p n h
    simpa [underPath] using this

theorem update_items_same {f : Exec E → Exec E} (hf : ∀ n, items (f n) = items n) (p : Path) (n : Exec E) (ht : n.Tidy) :
    (items (update (keys p) f n)).Perm (items n) := by
  have := update_key_items (P := fun _ => True) (new := []) trivial (fun _ _ _ _ _ _ _ _ _ => trivial) (fun n _ => by rw [hf]; exact .refl _) p n trivial ht
  simpa [underPath, keys] using this

theorem addAfterOp_notes (op : Op E) (n : Exec E) : notes (addAfterOp op n) = notes n := by
  obtain ⟨st, es, ops, ls, a⟩ := n
  cases a <;> rfl

theorem addAfterOp_tidy (op : Op E) (n : Exec E) (h : n.Tidy) : (addAfterOp op n).Tidy := by
  obtain ⟨st, es, ops, ls, a⟩ := n
  cases a with
  | none => exact h
  | some => exact h

theorem addAfterOp_node (op : Op E) (n : Exec E) (h : ([], Note.after) ∈ notes n) (hf : n.Full) :
    (items (addAfterOp op n)).Perm ([([], Item.aop op)] ++ items n) ∧ (addAfterOp op n).Full := by
  obtain ⟨st, es, ops, ls, a⟩ := n
  cases a with
  | none =>
    exfalso
    rw [notes] at h
    rcases List.mem_append.1 h with h | h
    · have := (slotNote_nil h).2
      cases this
    · rcases List.mem_append.1 h with h | h
      · cases h
      · obtain ⟨k, p, hk⟩ := mem_notesE_cons es h; cases hk
  | some ops' ls' =>
    refine ⟨?_, hf⟩
    simp only [addAfterOp, items, afterItems, List.map_append, List.map_cons, List.map_nil]
    have : ∀ (A B C D F G : List (Path × Item E)), (A ++ (B ++ (C ++ ((D ++ F) ++ G)))).Perm (F ++ (A ++ (B ++ (C ++ (D ++ G))))) := by
      intro A B C D F G
      have h : A ++ (B ++ (C ++ ((D ++ F) ++ G))) = (A ++ B ++ C ++ D) ++ (F ++ G) := by simp
      rw [h]
      have h2 : F ++ (A ++ (B ++ (C ++ (D ++ G)))) = (F ++ (A ++ B ++ C ++ D)) ++ G := by simp
      rw [h2, ← List.append_assoc]
      exact List.Perm.append_right _ List.perm_append_comm
    exact this _ _ _ _ _ _

/-- Changing an element that is there. -/
theorem alterElems_there {k : List Nat} {e : Exec E} {f : Exec E → Exec E} {new : List (Path × Item E)}
    (hf : (items (f e)).Perm (new ++ items e) ∧ (f e).Full ∧ (items (f e) ≠ [] ∨ notes (f e) ≠ [])) : ∀ es : Elems E, es.find k = some e → es.Full →
    (itemsE (alterElems k f es)).Perm (under k new ++ itemsE es) ∧ (alterElems k f es).Full
  | .nil, h, _ => by cases h
  | .cons k' e' r, h, hfu => by
    rw [Elems.find] at h
    rw [alterElems]
    by_cases hk : k' = k
    · subst hk
      rw [if_pos rfl] at h ⊢
      cases h
      refine ⟨?_, hf.2.2, hf.2.1, hfu.2.2⟩
      rw [itemsE, itemsE, ← List.append_assoc]
      refine List.Perm.append_right _ ?_
      have := hf.1.map (fun x => (k' :: x.1, x.2))
      rw [List.map_append] at this
      exact this
    · rw [if_neg hk] at h ⊢
      obtain ⟨h1, h2⟩ := alterElems_there hf r h hfu.2.2
      refine ⟨?_, hfu.1, hfu.2.1, h2⟩
      rw [itemsE, itemsE]
      exact (h1.append_left _).trans (perm_front _ _ _)

/-- Adding an operation to an `AfterNode`. -/
theorem addAfterOp_update (op : Op E) : ∀ (q : Path) (n : Exec E), (q, Note.after) ∈ notes n → n.Tidy → n.Full →
    (items (update (keys q) (addAfterOp op) n)).Perm ([(q, Item.aop op)] ++ items n) ∧ (update (keys q) (addAfterOp op) n).Full
  | [], n, h, ht, hf => by
    simp only [keys, List.map_nil, update]
    exact addAfterOp_node op n h hf
  | k :: q, .mk st es ops ls a, h, ht, hf => by
    have hm : (k :: q, Note.after) ∈ notesE es := by
      rw [notes] at h
      rcases List.mem_append.1 h with h | h
      · obtain ⟨_, h⟩ := slotNote_nil h; cases h
      · rcases List.mem_append.1 h with h | h
        · have := (afterNote_nil h).2; cases this
        · exact h
    cases he : es.find k with
    | none => exact (notes_absent es he (y := (q, .after)) hm).elim
    | some e =>
      have h1 := notes_find_mem es ht.1 he (y := (q, .after)) hm
      obtain ⟨i1, i2⟩ := addAfterOp_update op q e h1 (Elems.Tidy.find ht.1 he) (Elems.Full.find hf.1 he)
      have hne : items (update (keys q) (addAfterOp op) e) ≠ [] := by
        intro h0; have := i1.length_eq; rw [h0] at this; simp at this
      obtain ⟨j1, j2⟩ := alterElems_there (k := k) (f := update (keys q) (addAfterOp op)) ⟨i1, i2, Or.inl hne⟩ es he hf.1
      simp only [keys, List.map_cons, update]
      refine ⟨?_, j2, hf.2⟩
      rw [items, items]
      have h3 : under k [(q, Item.aop op)] = [(k :: q, Item.aop op)] := rfl
      simp only [keys] at j1
      rw [h3] at j1
      refine ((j1.append_right _).append_left _).trans ?_
      rw [List.append_assoc]
      exact perm_front _ _ _

/-! ### Growing a node -/

/-- A node whose slots are `1` to `k`, each used at most once. -/
structure Good (k : Nat) (n : Exec E) : Prop where
  tidy : n.Tidy
  full : n.Full
  range : ∀ p s, (p, Note.slot s) ∈ notes n → 0 < s ∧ s ≤ k
  once : ∀ s, (withSlot s (notes n)).length ≤ 1

theorem good_empty (k : Nat) : Good k (emptyExec : Exec E) :=
  ⟨emptyExec_tidy, emptyExec_full, (by rw [emptyExec_notes]; intro p s h; cases h), by intro s; rw [emptyExec_notes]; exact Nat.zero_le _⟩

theorem withSlot_perm {s : Nat} {l l' : List (Path × Note)} (h : l.Perm l') : (withSlot s l).Perm (withSlot s l') :=
  (h.filter _).map _

/-- The slots of the fields are `ρ`. -/
def Agrees (ρ : Path → Nat) (n : Exec E) : Prop := ∀ p s, (p, Note.slot s) ∈ notes n → ρ p = s

/-- What compiling a part adds to a node: items (depending on the slots), slots for the fields `P` and `AfterNode`s above them. -/
structure Grow (P : Path → Prop) (L : (Path → Nat) → List (Path × Item E)) (k k' : Nat) (n n' : Exec E) : Prop where
  good : Good k' n'
  le : k ≤ k'
  perm : ∀ ρ, Agrees ρ n' → (items n').Perm (L ρ ++ items n)
  keep : ∀ x ∈ notes n, x ∈ notes n'
  slots : ∀ p s, (p, Note.slot s) ∈ notes n' → (p, Note.slot s) ∈ notes n ∨ P p
  afters : ∀ p, (p, Note.after) ∈ notes n' → (p, Note.after) ∈ notes n ∨ ∃ k p', P (p ++ k :: p')
  fresh : ∀ p s, (p, Note.slot s) ∈ notes n' → (p, Note.slot s) ∈ notes n ∨ k < s

theorem Agrees.back {ρ : Path → Nat} {n n' : Exec E} (h : Agrees ρ n') (hk : ∀ x ∈ notes n, x ∈ notes n') : Agrees ρ n :=
  fun p s hm => h p s (hk _ hm)

theorem Grow.refl {P : Path → Prop} {k : Nat} {n : Exec E} (h : Good k n) : Grow P (fun _ => []) k k n n :=
  ⟨h, Nat.le_refl _, fun _ _ => .refl _, fun _ h => h, fun _ _ h => Or.inl h, fun _ h => Or.inl h, fun _ _ h => Or.inl h⟩

theorem Grow.trans {P Q : Path → Prop} {L L' : (Path → Nat) → List (Path × Item E)} {k k' k'' : Nat} {n n' n'' : Exec E}
    (h : Grow P L k k' n n') (h' : Grow Q L' k' k'' n' n'') : Grow (fun p => P p ∨ Q p) (fun ρ => L ρ ++ L' ρ) k k'' n n'' where
  good := h'.good
  le := Nat.le_trans h.le h'.le
  perm := fun ρ hρ => by
    refine (h'.perm ρ hρ).trans ?_
    refine ((h.perm ρ (hρ.back h'.keep)).append_left _).trans ?_
    rw [← List.append_assoc]
    exact List.Perm.append_right _ List.perm_append_comm
  keep := fun x hx => h'.keep x (h.keep x hx)
  slots := fun p s hm => by
    rcases h'.slots p s hm with h1 | h1
    · rcases h.slots p s h1 with h1 | h1
      · exact Or.inl h1
      · exact Or.inr (Or.inl h1)
    · exact Or.inr (Or.inr h1)
  afters := fun p hm => by
    rcases h'.afters p hm with h1 | ⟨k, p', h1⟩
    · rcases h.afters p h1 with h1 | ⟨k, p', h1⟩
      · exact Or.inl h1
      · exact Or.inr ⟨k, p', Or.inl h1⟩
    · exact Or.inr ⟨k, p', Or.inr h1⟩
  fresh := fun p s hm => by
    rcases h'.fresh p s hm with h1 | h1
    · exact h.fresh p s h1
    · exact Or.inr (Nat.lt_of_le_of_lt h.le h1)

theorem Grow.mono {P Q : Path → Prop} {L L' : (Path → Nat) → List (Path × Item E)} {k k' : Nat} {n n' : Exec E} (h : Grow P L k k' n n')
    (hpq : ∀ p, P p → Q p) (hL : ∀ ρ, L ρ = L' ρ) : Grow Q L' k k' n n' where
  good := h.good
  le := h.le
  perm := fun ρ hρ => by rw [← hL]; exact h.perm ρ hρ
  keep := h.keep
  slots := fun p s hm => (h.slots p s hm).imp id (hpq p)
  afters := fun p hm => (h.afters p hm).imp id (fun ⟨k, p', h⟩ => ⟨k, p', hpq _ h⟩)
  fresh := h.fresh

/-- A part that adds items only. -/
theorem Grow.of_adds {P : Path → Prop} {L : List (Path × Item E)} {k : Nat} {n n' : Exec E} (hg : Good k n) (h : Adds1 L n n') :
    Grow P (fun _ => L) k k n n' where
  good := ⟨h.tidy, h.full, fun p s hm => hg.range p s (h.notes.mem_iff.1 hm), fun s => by
    rw [(withSlot_perm h.notes).length_eq]; exact hg.once s⟩
  le := Nat.le_refl _
  perm := fun _ _ => h.perm
  keep := fun x hx => h.notes.mem_iff.2 hx
  slots := fun p s hm => Or.inl (h.notes.mem_iff.1 hm)
  afters := fun p hm => Or.inl (h.notes.mem_iff.1 hm)
  fresh := fun p s hm => Or.inl (h.notes.mem_iff.1 hm)

/-- Storing a field: its slot, new or old. -/
theorem store_grow {t : T E} (hg : Good t.slotIdx t.root) (q : Addr) (p : Path) :
    ∃ t' s, fieldRef t (.after q) ⟨none, p⟩ = (t', .slot s) ∧ t'.active = t.active ∧ t'.ctx = t.ctx ∧
      Grow (fun x => x = p) (fun _ => []) t.slotIdx t'.slotIdx t.root t'.root ∧ (p, Note.slot s) ∈ notes t'.root := by
  have ha : (⟨none, p⟩ : RRef).addr = keys p := by simp [RRef.addr, keys]
  simp only [fieldRef, getExecNode, ha]
  rw [if_neg (by simp), storeExecNode]
  simp only
  rw [nodeAt_update, Option.map_some, Option.getD_some, id]
  by_cases hs : storeOf ((nodeAt (keys p) t.root).getD emptyExec) = 0
  · rw [if_pos hs]
    refine ⟨_, _, rfl, rfl, rfl, ?_⟩
    simp only [newSlot, update_comp, id]
    have hne : t.slotIdx + 1 ≠ 0 := by omega
    have hn : (notes (update (keys p) (setStore (t.slotIdx + 1)) t.root)).Perm ((p, Note.slot (t.slotIdx + 1)) :: notes t.root) := by
      have := update_notes_at p t.root (setStore_notes hne _ hs)
      simpa [underPath] using this
    refine ⟨⟨⟨update_key_tidy (setStore_tidy _) p _ hg.tidy, (update_key_full (setStore_full hne) p _ hg.full).1, ?_, ?_⟩, Nat.le_succ _, ?_, ?_, ?_, ?_, ?_⟩, ?_⟩
    · intro p' s hm
      rcases List.mem_cons.1 (hn.mem_iff.1 hm) with h | h
      · cases h; exact ⟨Nat.succ_pos _, Nat.le_refl _⟩
      · have := hg.range p' s h; omega
    · intro s
      rw [(withSlot_perm hn).length_eq]
      by_cases h : s = t.slotIdx + 1
      · have h0 : withSlot s (notes t.root) = [] := by
          apply List.eq_nil_iff_forall_not_mem.2
          intro y hy
          have := hg.range y s (mem_withSlot.1 hy); omega
        have := withSlot_append s [(p, Note.slot (t.slotIdx + 1))] (notes t.root)
        rw [List.singleton_append] at this
        rw [this, h0, List.append_nil]
        simp only [withSlot, List.length_map]
        exact List.length_filter_le _ _
      · have := withSlot_append s [(p, Note.slot (t.slotIdx + 1))] (notes t.root)
        rw [List.singleton_append] at this
        rw [this]
        have h0 : withSlot s [(p, Note.slot (t.slotIdx + 1))] = [] := by simp [withSlot, Ne.symm h]
        rw [h0, List.nil_append]
        exact hg.once s
    · intro ρ _
      exact update_items_same (setStore_items _) p _ hg.tidy
    · intro x hx; exact hn.mem_iff.2 (List.mem_cons_of_mem _ hx)
    · intro p' s hm
      rcases List.mem_cons.1 (hn.mem_iff.1 hm) with h | h
      · cases h; exact Or.inr rfl
      · exact Or.inl h
    · intro p' hm
      rcases List.mem_cons.1 (hn.mem_iff.1 hm) with h | h
      · cases h
      · exact Or.inl h
    · intro p' s hm
      rcases List.mem_cons.1 (hn.mem_iff.1 hm) with h | h
      · cases h; exact Or.inr (Nat.lt_succ_self _)
      · exact Or.inl h
    · exact hn.mem_iff.2 List.mem_cons_self
  · rw [if_neg hs]
    refine ⟨_, _, rfl, rfl, rfl, ?_⟩
    cases hm : nodeAt (keys p) t.root with
    | none => rw [hm] at hs; exact absurd rfl hs
    | some m =>
      rw [hm, Option.getD_some] at hs
      simp only [Option.getD_some]
      rw [update_id_there p _ hm]
      exact ⟨(Grow.refl hg), slot_noted p _ hm hs⟩

mutual
  /-- References to fields become references to their slots. -/
  theorem makeParam_multi {C : Comp E} {q : Addr} : ∀ (e : Expr E) (t : T E), MParam C e → t.ctx = [] → Good t.slotIdx t.root →
      ∃ t' ref, makeParam C t (.after q) e = .ok (t', ref) ∧ t'.active = t.active ∧ t'.ctx = [] ∧
        Grow (fun x => x ∈ paths e) (fun _ => []) t.slotIdx t'.slotIdx t.root t'.root ∧ (∀ ρ, Agrees ρ t'.root → ref = slotRef C ρ e) ∧
        ∀ p ∈ paths e, ∃ s, (p, Note.slot s) ∈ notes t'.root
    | .field f, t, h, hc, hg => by
      obtain ⟨t', s, h1, h2, h3, h4, h5⟩ := store_grow hg q f.path
      have hf : f.root = 0 := h
      refine ⟨t', .slot s, ?_, h2, by rw [h3, hc], h4.mono (fun p hp => by simp [paths, hp]) (fun _ => rfl), fun ρ hρ => ?_, ?_⟩
      · rw [makeParam, resolveRef, getContext, if_pos hf, Res.bind_ok, Res.bind_ok, h1]
      · rw [slotRef, hρ _ _ h5]
      · intro p hp
        rw [paths, List.mem_singleton] at hp
        subst hp
        exact ⟨s, h5⟩
    | .value g, t, _, hc, hg => ⟨t, _, by rw [makeParam], rfl, hc, (Grow.refl hg), fun ρ _ => by simp [slotRef, refOf], fun p hp => by simp [paths] at hp⟩
    | .regex g, t, h, hc, hg => by
      obtain ⟨s, r, rfl, hr⟩ := h
      exact ⟨t, .val ⟨.regex r, true⟩, by simp only [makeParam, asStr, Res.bind_ok, hr], rfl, hc, (Grow.refl hg), fun ρ _ => by simp [slotRef, refOf, hr], fun p hp => by simp [paths] at hp⟩
    | .pcre g, t, h, hc, hg => by
      obtain ⟨s, r, rfl, hr⟩ := h
      exact ⟨t, .val ⟨.pcre r, true⟩, by simp only [makeParam, asStr, Res.bind_ok, hr], rfl, hc, (Grow.refl hg), fun ρ _ => by simp [slotRef, refOf, hr], fun p hp => by simp [paths] at hp⟩
    | .time g, t, h, hc, hg => by
      obtain ⟨s, r, rfl, hr⟩ := h
      exact ⟨t, .val ⟨.time r, true⟩, by simp only [makeParam, asStr, Res.bind_ok, hr], rfl, hc, (Grow.refl hg), fun ρ _ => by simp [slotRef, refOf, hr], fun p hp => by simp [paths] at hp⟩
    | .func n ps, t, h, hc, hg => by
      obtain ⟨t', refs, h1, h2, h3, h4, h5, h6⟩ := makeParams_multi ps t h hc hg
      exact ⟨t', _, by rw [makeParam, h1, Res.bind_ok], h2, h3, h4.mono (fun p hp => by rw [paths]; exact hp) (fun _ => rfl),
        fun ρ hρ => by rw [slotRef, h5 ρ hρ], fun p hp => by rw [paths] at hp; exact h6 p hp⟩
    | .tru, t, h, _, _ | .fals, t, h, _, _ | .not _, t, h, _, _ | .and _, t, h, _, _ | .or _, t, h, _, _ | .loop .., t, h, _, _
    | .exist _, t, h, _, _ | .notExist _, t, h, _, _ | .cmp .., t, h, _, _ => by simp [MParam] at h
  theorem makeParams_multi {C : Comp E} {q : Addr} : ∀ (es : Exprs E) (t : T E), MParams C es → t.ctx = [] → Good t.slotIdx t.root →
      ∃ t' refs, makeParams C t (.after q) es = .ok (t', refs) ∧ t'.active = t.active ∧ t'.ctx = [] ∧
        Grow (fun x => x ∈ pathsAll es) (fun _ => []) t.slotIdx t'.slotIdx t.root t'.root ∧ (∀ ρ, Agrees ρ t'.root → refs = slotRefs C ρ es) ∧
        ∀ p ∈ pathsAll es, ∃ s, (p, Note.slot s) ∈ notes t'.root
    | .nil, t, _, hc, hg => ⟨t, .nil, by rw [makeParams], rfl, hc, (Grow.refl hg), fun ρ _ => by rw [slotRefs], fun p hp => by simp [pathsAll] at hp⟩
    | .cons e r, t, h, hc, hg => by
      obtain ⟨t1, ref, h1, h2, h3, h4, h5, h6⟩ := makeParam_multi (q := q) e t h.1 hc hg
      obtain ⟨t2, refs, k1, k2, k3, k4, k5, k6⟩ := makeParams_multi (q := q) r t1 h.2 h3 h4.good
      refine ⟨t2, .cons ref refs, by rw [makeParams, h1, Res.bind_ok, k1, Res.bind_ok], by rw [k2, h2], k3,
        (h4.trans k4).mono (fun p hp => by rw [pathsAll]; exact List.mem_append.2 hp) (fun _ => rfl), fun ρ hρ => ?_, fun p hp => ?_⟩
      · rw [slotRefs, k5 ρ hρ, h5 ρ (hρ.back k4.keep)]
      · rw [pathsAll] at hp
        rcases List.mem_append.1 hp with hp | hp
        · obtain ⟨s, hs⟩ := h6 p hp; exact ⟨s, k4.keep _ hs⟩
        · exact k6 p hp
end

theorem makeDataRef_multi {C : Comp E} {q : Addr} (e : Expr E) (t : T E) (h : MParam C e) (hc : t.ctx = []) (hg : Good t.slotIdx t.root) :
    ∃ t' ref, makeDataRef C t (.after q) e = .ok (t', some ref) ∧ t'.active = t.active ∧ t'.ctx = [] ∧
      Grow (fun x => x ∈ paths e) (fun _ => []) t.slotIdx t'.slotIdx t.root t'.root ∧ (∀ ρ, Agrees ρ t'.root → ref = slotRef C ρ e) ∧
      ∀ p ∈ paths e, ∃ s, (p, Note.slot s) ∈ notes t'.root := by
  cases e with
  | field f =>
    obtain ⟨t', s, h1, h2, h3, h4, h5⟩ := store_grow hg q f.path
    have hf : f.root = 0 := h
    refine ⟨t', .slot s, ?_, h2, by rw [h3, hc], h4.mono (fun p hp => by simp [paths, hp]) (fun _ => rfl), fun ρ hρ => ?_, ?_⟩
    · rw [makeDataRef, makeParam, resolveRef, getContext, if_pos hf, Res.bind_ok, Res.bind_ok, h1]
      rfl
    · rw [slotRef, hρ _ _ h5]
    · intro p hp
      rw [paths, List.mem_singleton] at hp
      subst hp
      exact ⟨s, h5⟩
  | _ =>
    first
      | (obtain ⟨t', ref, h1, h2⟩ := makeParam_multi (q := q) _ t h hc hg
         exact ⟨t', ref, by rw [makeDataRef, h1]; rfl, h2⟩)

/-! ### The base node -/

mutual
  theorem mparam_plain {C : Comp E} : ∀ (e : Expr E), MParam C e → e.Plain
    | .func _ ps, h => by rw [Expr.Plain]; exact mparams_plain ps h
    | .field _, _ | .value _, _ | .regex _, _ | .pcre _, _ | .time _, _ => by simp [Expr.Plain]
    | .tru, h | .fals, h | .not _, h | .and _, h | .or _, h | .loop .., h | .exist _, h | .notExist _, h | .cmp .., h => by
      simp [MParam] at h
  theorem mparams_plain {C : Comp E} : ∀ (es : Exprs E), MParams C es → es.Plain
    | .nil, _ => trivial
    | .cons e r, h => ⟨mparam_plain e h.1, mparams_plain r h.2⟩
end

mutual
  theorem mparam_free {C : Comp E} : ∀ (e : Expr E), MParam C e → ∀ f, Free e f ↔ f.root = 0 ∧ f.path ∈ paths e
    | .func _ ps, h, f => by
      rw [paths, ← mparams_free ps h]
      exact ⟨fun hf => by cases hf; assumption, .func⟩
    | .field g, h, f => by
      have hg : g.root = 0 := h
      rw [paths, List.mem_singleton]
      constructor
      · intro hf; cases hf; exact ⟨h, rfl⟩
      · rintro ⟨h1, h2⟩
        have : f = g := by cases f; cases g; simp_all
        rw [this]; exact .field _
    | .value _, _, f | .regex _, _, f | .pcre _, _, f | .time _, _, f => by
      simp only [paths, List.not_mem_nil, and_false, iff_false]; intro h; nomatch h
    | .tru, h, _ | .fals, h, _ | .not _, h, _ | .and _, h, _ | .or _, h, _ | .loop .., h, _
    | .exist _, h, _ | .notExist _, h, _ | .cmp .., h, _ => by simp [MParam] at h
  theorem mparams_free {C : Comp E} : ∀ (es : Exprs E), MParams C es → ∀ f, FreeAny es f ↔ f.root = 0 ∧ f.path ∈ pathsAll es
    | .nil, _, f => by simp only [pathsAll, List.not_mem_nil, and_false, iff_false]; intro h; nomatch h
    | .cons e r, h, f => by
      rw [pathsAll, List.mem_append]
      have h1 := mparam_free e h.1 f
      have h2 := mparams_free r h.2 f
      constructor
      · intro hf
        cases hf with
        | head hf => exact ⟨(h1.1 hf).1, Or.inl (h1.1 hf).2⟩
        | tail hf => exact ⟨(h2.1 hf).1, Or.inr (h2.1 hf).2⟩
      · rintro ⟨h0, hp | hp⟩
        · exact .head (h1.2 ⟨h0, hp⟩)
        · exact .tail (h2.2 ⟨h0, hp⟩)
end

theorem longest_mem : ∀ (ps : List Path) (p : Path), longest p ps ∈ p :: ps
  | [], p => by simp [longest]
  | q :: qs, p => by
    rw [longest]
    have := longest_mem qs (if q.length > p.length then q else p)
    split at this
    · rename_i h; rw [if_pos h]; exact List.mem_cons_of_mem _ this
    · rename_i h; rw [if_neg h]
      rcases List.mem_cons.1 this with h1 | h1
      · rw [h1]; exact List.mem_cons_self
      · exact List.mem_cons_of_mem _ (List.mem_cons_of_mem _ h1)

theorem allAt_true {j : Nat} {k : List Nat} : ∀ ps : List Path, (∀ p ∈ ps, p[j]? = some k) → allAt j k ps = .ok true
  | [], _ => rfl
  | p :: ps, h => by
    have hp := h p (by simp)
    have hl : j < p.length := (List.getElem?_eq_some_iff.1 hp).1
    rw [allAt, if_neg (by omega), Res.idx_of_some hp, Res.bind_ok, if_neg (by simp), allAt_true ps (fun p hp => h p (List.mem_cons_of_mem _ hp))]

theorem allAt_false {j : Nat} {k : List Nat} : ∀ ps : List Path, (∀ p ∈ ps, j < p.length) → (∃ p ∈ ps, p[j]? ≠ some k) → allAt j k ps = .ok false
  | [], _, h => by obtain ⟨p, hp, _⟩ := h; cases hp
  | p :: ps, h, hex => by
    have hl := h p (by simp)
    have hp : p[j]? = some p[j] := List.getElem?_eq_getElem hl
    rw [allAt, if_neg (by omega), Res.idx_of_some hp, Res.bind_ok]
    by_cases he : p[j] = k
    · rw [if_neg (by simp [he])]
      refine allAt_false ps (fun p hp => h p (List.mem_cons_of_mem _ hp)) ?_
      obtain ⟨p', hp', hne⟩ := hex
      rcases List.mem_cons.1 hp' with rfl | hp'
      · rw [hp, he] at hne; exact absurd rfl hne
      · exact ⟨p', hp', hne⟩
    · rw [if_pos he]

theorem commonPath_splits {ps : List Path} {q : Path} (h : Splits q ps) {k0 : List Nat} {p0 : Path} : ∀ (suf pre : Path), q = pre ++ suf →
    commonPath ps pre.length (suf ++ k0 :: p0) = .ok suf
  | [], pre, hq => by
    rw [List.append_nil] at hq
    subst hq
    rw [List.nil_append, commonPath, allAt_false ps]
    · rfl
    · intro p hp
      obtain ⟨k, p', rfl⟩ := h.1 p hp
      simp
    · obtain ⟨k, p', k1, p1, h1, h2, hne⟩ := h.2
      by_cases hk : k = k0
      · refine ⟨_, h2, ?_⟩
        subst hk
        simpa using Ne.symm hne
      · refine ⟨_, h1, ?_⟩
        simpa using hk
  | k :: suf, pre, hq => by
    rw [List.cons_append, commonPath, allAt_true ps]
    · have := commonPath_splits h (k0 := k0) (p0 := p0) suf (pre ++ [k]) (by rw [hq]; simp)
      rw [List.length_append, List.length_singleton] at this
      simp [this]
    · intro p hp
      obtain ⟨k', p', rfl⟩ := h.1 p hp
      rw [hq]; simp

theorem resolveRefs_root {t : T E} : ∀ fs : List Field, (∀ f ∈ fs, f.root = 0) → resolveRefs t fs = .ok (fs.map (fun f => ⟨none, f.path⟩))
  | [], _ => rfl
  | f :: fs, h => by
    rw [resolveRefs, resolveRef, getContext, if_pos (h f (by simp)), Res.bind_ok, Res.bind_ok,
      resolveRefs_root fs (fun f hf => h f (List.mem_cons_of_mem _ hf)), Res.bind_ok, List.map_cons]

/-- The base of an expression with several fields is the `AfterNode` at their common path. -/
theorem pickBase_after {t : T E} (hc : t.ctx = []) {e : Expr E} {q : Path} {S : List Path} (hp : e.Plain)
    (hfree : ∀ f, Free e f ↔ f.root = 0 ∧ f.path ∈ S) (hs : Splits q S) :
    pickBase t e = .ok ({ t with root := update (keys q) ensureAfter t.root }, .after (keys q)) := by
  obtain ⟨fs, h1, h2, _⟩ := fetch_adds [] e hp []
  have hmem : ∀ f, f ∈ fs ↔ f.root = 0 ∧ f.path ∈ S := by
    intro f
    rw [h2 f, ← hfree f]
    simp
  have hpm : ∀ p, p ∈ fs.map Field.path ↔ p ∈ S := by
    intro p
    rw [List.mem_map]
    constructor
    · rintro ⟨f, hf, rfl⟩; exact ((hmem f).1 hf).2
    · intro hp; exact ⟨⟨0, p⟩, (hmem _).2 ⟨rfl, hp⟩, rfl⟩
  have hs' : Splits q (fs.map Field.path) := by
    refine ⟨fun p hp => hs.1 p ((hpm p).1 hp), ?_⟩
    obtain ⟨k, p', k1, p1, a, b, hne⟩ := hs.2
    exact ⟨k, p', k1, p1, (hpm _).2 a, (hpm _).2 b, hne⟩
  rw [pickBase, fieldRefs, h1, Res.bind_ok, resolveRefs_root fs (fun f hf => ((hmem f).1 hf).1), Res.bind_ok, findBestRoot]
  have hcur : currentContext t = none := by simp [currentContext, hc]
  have hfil : ((fs.map (fun f => (⟨none, f.path⟩ : RRef))).filter (fun r => decide (r.ctx = currentContext t))).map RRef.path = fs.map Field.path := by
    rw [hcur]
    have : (fs.map (fun f => (⟨none, f.path⟩ : RRef))).filter (fun r => decide (r.ctx = none)) = fs.map (fun f => (⟨none, f.path⟩ : RRef)) := by
      rw [List.filter_eq_self]
      intro r hr
      obtain ⟨f, _, rfl⟩ := List.mem_map.1 hr
      simp
    rw [this, List.map_map]
    rfl
  simp only [hfil]
  cases hps : fs.map Field.path with
  | nil =>
    exfalso
    obtain ⟨k, p', _, _, a, _⟩ := hs'.2
    rw [hps] at a; cases a
  | cons p ps =>
    rw [hps] at hs'
    obtain ⟨k0, p0, hb⟩ := hs'.1 _ (longest_mem ps p)
    have hcp : commonPath (p :: ps) 0 (longest p ps) = .ok q := by
      rw [hb]
      exact commonPath_splits hs' q [] rfl
    simp only [hcp, Res.bind_ok]
    rw [if_pos (by rw [hb]; simp)]
    have ha : (⟨currentContext t, q⟩ : RRef).addr = keys q := by simp [RRef.addr, hcur, keys]
    simp only [getExecNode, ha, update_comp, id]

theorem pickBase_multi {C : Comp E} {t : T E} (hc : t.ctx = []) (c : Cmp) {l r : Expr E} {q : Path} (hl : MParam C l) (hr : MParam C r)
    (hs : Splits q (paths l ++ paths r)) :
    pickBase t (.cmp c l r) = .ok ({ t with root := update (keys q) ensureAfter t.root }, .after (keys q)) := by
  refine pickBase_after hc ⟨mparam_plain l hl, mparam_plain r hr⟩ (fun f => ?_) hs
  rw [List.mem_append]
  have a := mparam_free l hl f
  have b := mparam_free r hr f
  constructor
  · intro h
    cases h with
    | cmpL h => exact ⟨(a.1 h).1, Or.inl (a.1 h).2⟩
    | cmpR h => exact ⟨(b.1 h).1, Or.inr (b.1 h).2⟩
  · rintro ⟨h0, h | h⟩
    · exact .cmpL (a.2 ⟨h0, h⟩)
    · exact .cmpR (b.2 ⟨h0, h⟩)

/-- Making an `AfterNode` above fields. -/
theorem ensure_grow {k : Nat} {R : Exec E} (hg : Good k R) {P : Path → Prop} {q : Path} (hex : ∃ k p', P (q ++ k :: p')) :
    Grow P (fun _ => []) k k R (update (keys q) ensureAfter R) := by
  obtain ⟨e1, e2⟩ := ensureAfter_update q R
  have hmem : ∀ x, x ∈ notes (update (keys q) ensureAfter R) → x = (q, Note.after) ∨ x ∈ notes R := by
    intro x hx
    rcases e2 with h | h
    · exact List.mem_cons.1 (h.mem_iff.1 hx)
    · exact Or.inr (h.mem_iff.1 hx)
  refine ⟨⟨update_key_tidy ensureAfter_tidy q _ hg.tidy, (update_key_full ensureAfter_full q _ hg.full).1, ?_, ?_⟩, Nat.le_refl _, ?_, ?_, ?_, ?_, ?_⟩
  · intro p s hm
    rcases hmem _ hm with h | h
    · cases h
    · exact hg.range p s h
  · intro s
    have : (withSlot s (notes (update (keys q) ensureAfter R))).length = (withSlot s (notes R)).length := by
      rcases e2 with h | h
      · rw [(withSlot_perm h).length_eq]; simp [withSlot]
      · rw [(withSlot_perm h).length_eq]
    rw [this]; exact hg.once s
  · intro ρ _
    exact update_items_same ensureAfter_items q _ hg.tidy
  · intro x hx
    rcases e2 with h | h
    · exact h.mem_iff.2 (List.mem_cons_of_mem _ hx)
    · exact h.mem_iff.2 hx
  · intro p s hm
    rcases hmem _ hm with h | h
    · cases h
    · exact Or.inl h
  · intro p hm
    rcases hmem _ hm with h | h
    · cases h; exact Or.inr hex
    · exact Or.inl h
  · intro p s hm
    rcases hmem _ hm with h | h
    · cases h
    · exact Or.inl h

/-! ### Comparisons -/

theorem tCompare_multi {C : Comp E} {t : T E} (hc : t.ctx = []) (hg : Good t.slotIdx t.root) (c : Cmp) (op : OpTy) {l r : Expr E} {q : Path}
    (hl : MParam C l) (hr : MParam C r) (hs : Splits q (paths l ++ paths r)) :
    ∃ t', tCompare C (.cmp c l r) op l r t = .ok t' ∧
      Grow (fun x => x ∈ paths l ++ paths r) (fun ρ => [(q, .aop ⟨t.active, op, some (slotRef C ρ l), some (slotRef C ρ r)⟩)])
        t.slotIdx t'.slotIdx t.root t'.root ∧ ∀ p ∈ paths l ++ paths r, ∃ s, (p, Note.slot s) ∈ notes t'.root := by
  have hex : ∃ k p', q ++ k :: p' ∈ paths l ++ paths r := by
    obtain ⟨k, p', _, _, a, _⟩ := hs.2
    exact ⟨k, p', a⟩
  obtain ⟨e1, e2⟩ := ensureAfter_update q t.root
  have g0 : Grow (fun x => x ∈ paths l ++ paths r) (fun _ => []) t.slotIdx t.slotIdx t.root (update (keys q) ensureAfter t.root) :=
    ensure_grow hg hex
  obtain ⟨t1, lr, a1, a2, a3, a4, a5, a6⟩ := makeDataRef_multi (q := keys q) l
    { t with root := update (keys q) ensureAfter t.root } hl hc g0.good
  obtain ⟨t2, rr, b1, b2, b3, b4, b5, b6⟩ := makeDataRef_multi (q := keys q) r t1 hr a3 a4.good
  have hafter : (q, Note.after) ∈ notes t2.root := b4.keep _ (a4.keep _ e1)
  obtain ⟨f1, f2⟩ := addAfterOp_update ⟨t.active, op, some lr, some rr⟩ q t2.root hafter b4.good.tidy b4.good.full
  have hnotes : (notes (update (keys q) (addAfterOp ⟨t.active, op, some lr, some rr⟩) t2.root)).Perm (notes t2.root) := by
    have := update_key_notes (new := []) (fun n => by rw [addAfterOp_notes ⟨t.active, op, some lr, some rr⟩]; exact .refl _) q t2.root
    simpa [underPath, keys] using this
  have hact : t2.active = t.active := by rw [b2, a2]
  refine ⟨{ t2 with root := update (keys q) (addAfterOp ⟨t.active, op, some lr, some rr⟩) t2.root }, ?_, ?_, ?_⟩
  · rw [tCompare, pickBase_multi hc c hl hr hs, Res.bind_ok]
    simp only
    rw [a1, Res.bind_ok]
    simp only
    rw [b1, Res.bind_ok]
    simp only [NRef.addOp, hact]
  · have g1 : Grow (fun x => x ∈ paths l ++ paths r) (fun ρ => [(q, .aop ⟨t.active, op, some (slotRef C ρ l), some (slotRef C ρ r)⟩)])
        t2.slotIdx t2.slotIdx t2.root (update (keys q) (addAfterOp ⟨t.active, op, some lr, some rr⟩) t2.root) := by
      refine ⟨⟨update_key_tidy (addAfterOp_tidy _) q _ b4.good.tidy, f2, fun p s hm => b4.good.range p s (hnotes.mem_iff.1 hm), fun s => ?_⟩,
        Nat.le_refl _, ?_, fun x hx => hnotes.mem_iff.2 hx, fun p s hm => Or.inl (hnotes.mem_iff.1 hm), fun p hm => Or.inl (hnotes.mem_iff.1 hm),
        fun p s hm => Or.inl (hnotes.mem_iff.1 hm)⟩
      · rw [(withSlot_perm hnotes).length_eq]; exact b4.good.once s
      · intro ρ hρ
        have hρ2 : Agrees ρ t2.root := fun p s hm => hρ p s (hnotes.mem_iff.2 hm)
        rw [← b5 ρ hρ2, ← a5 ρ (hρ2.back b4.keep)]
        exact f1
    refine (((g0.trans a4).trans b4).trans g1).mono ?_ (fun ρ => rfl)
    rintro p (((h | h) | h) | h)
    · exact h
    · exact List.mem_append_left _ h
    · exact List.mem_append_right _ h
    · exact h
  · intro p hp
    rcases List.mem_append.1 hp with hp | hp
    · obtain ⟨s, hs⟩ := a6 p hp
      exact ⟨s, hnotes.mem_iff.2 (b4.keep _ hs)⟩
    · obtain ⟨s, hs⟩ := b6 p hp
      exact ⟨s, hnotes.mem_iff.2 hs⟩

/-! ### Expressions -/

/-- The outcome of transforming an expression with the fields `S`. -/
def Does2 (t : T E) (S : List Path) (L : (Path → Nat) → List (Path × Item E)) (r : Res (T E)) : Prop :=
  ∃ t', r = .ok t' ∧ Grow (fun x => x ∈ S) L t.slotIdx t'.slotIdx t.root t'.root ∧ ∀ p ∈ S, ∃ s, (p, Note.slot s) ∈ notes t'.root

theorem tNot_does2 {g : T E → Res (T E)} {t : T E} {par : Nat} {S : List Path} {L : (Path → Nat) → List (Path × Item E)} (hs : Start t par)
    (hc : t.ctx = [])
    (hg : ∀ t1 : T E, Start t1 t.active → t1.active = t.active + 1 → t1.ctx = [] → t1.root = t.root → t1.slotIdx = t.slotIdx → Does2 t1 S L (g t1)) :
    Does2 t S L (tNot g t) := by
  obtain ⟨t1, e1, ha, hs1, hctx, hr, hsl, _, _⟩ := first_child (ty := .not) hs
  obtain ⟨t2, h1, h2, h3⟩ := hg t1 hs1 ha (by rw [hctx, hc]) hr hsl
  refine ⟨t2, ?_, by rw [hr, hsl] at h2; exact h2, h3⟩
  rw [tNot]
  obtain ⟨x, hx, e1⟩ := Res.bind_eq_ok.1 e1
  rw [hx, Res.bind_ok]
  simp only
  rw [e1, Res.bind_ok, h1]

theorem tBin_does2 {o : BinOp} {g g' : T E → Res (T E)} {t : T E} {par : Nat} {S S' : List Path} {L L' : (Path → Nat) → List (Path × Item E)}
    {a : Sh} (hs : Start t par) (hc : t.ctx = [])
    (hg : ∀ t1 : T E, Start t1 t.active → t1.active = t.active + 1 → t1.ctx = [] → t1.root = t.root → t1.slotIdx = t.slotIdx → Does2 t1 S L (g t1))
    (hgr : ∀ t1 t2 : T E, Start t1 t.active → g t1 = .ok t2 → Grown t1 t2 a t.active)
    (hg' : ∀ t1 : T E, ∀ n k, Start t1 t.active → t1.active = t.active + 1 + a.size → t1.ctx = [] → t1.root = n → t1.slotIdx = k →
      (∀ ρ, Agrees ρ n → (items n).Perm (L ρ ++ items t.root)) → (∃ ρ, Agrees ρ n) → Good k n → Does2 t1 S' L' (g' t1))
    (hag : ∀ k n, Good k n → ∃ ρ, Agrees ρ (n : Exec E)) :
    Does2 t (S ++ S') (fun ρ => L ρ ++ L' ρ) (tBin o.ty g g' t) := by
  obtain ⟨t1, e1, ha, hs1, hctx, hr, hsl, hn, hb⟩ := first_child (ty := o.ty) hs
  obtain ⟨t2, h1, h2, h3⟩ := hg t1 hs1 ha (by rw [hctx, hc]) hr hsl
  have hG := hgr t1 t2 hs1 h1
  obtain ⟨t3, e3, ha3, hs3, hc3, hr3, hsl3, _⟩ := second_child (o := o) ha hn hb hG
  obtain ⟨t4, k1, k2, k3⟩ := hg' t3 t2.root t2.slotIdx hs3 ha3 (by rw [hc3, hG.ctx, hctx, hc]) hr3 hsl3
    (by rw [hr] at h2; exact h2.perm) (hag _ _ h2.good) h2.good
  refine ⟨t4, ?_, ?_, ?_⟩
  · rw [tBin]
    obtain ⟨x, hx, e1⟩ := Res.bind_eq_ok.1 e1
    rw [hx, Res.bind_ok]
    simp only
    rw [e1, Res.bind_ok, h1, Res.bind_ok, e3, Res.bind_ok, k1]
  · rw [hr3, hsl3] at k2
    rw [hr, hsl] at h2
    exact (h2.trans k2).mono (fun p hp => List.mem_append.2 hp) (fun _ => rfl)
  · intro p hp
    rcases List.mem_append.1 hp with hp | hp
    · obtain ⟨s, hm⟩ := h3 p hp
      exact ⟨s, k2.keep _ (by rw [hr3]; exact hm)⟩
    · exact k3 p hp

/-- A node stores each of its paths in one slot at most. -/
theorem slot_unique : ∀ (p : Path) (n : Exec E), n.Tidy → ∀ {s s'}, (p, Note.slot s) ∈ notes n → (p, Note.slot s') ∈ notes n → s = s'
  | [], .mk st es ops ls a, ht, s, s', h, h' => by
    have aux : ∀ s, (([] : Path), Note.slot s) ∈ notes (.mk st es ops ls a) → s = st := by
      intro s h
      rw [notes] at h
      rcases List.mem_append.1 h with h | h
      · have := (slotNote_nil h).2
        cases this; rfl
      · rcases List.mem_append.1 h with h | h
        · cases a with
          | none => cases h
          | some => simp [afterNote] at h
        · obtain ⟨k, p, hk⟩ := mem_notesE_cons es h; cases hk
    rw [aux s h, aux s' h']
  | k :: p, .mk st es ops ls a, ht, s, s', h, h' => by
    have aux : ∀ s, (k :: p, Note.slot s) ∈ notes (.mk st es ops ls a) → (k :: p, Note.slot s) ∈ notesE es := by
      intro s h
      rw [notes] at h
      rcases List.mem_append.1 h with h | h
      · have := (slotNote_nil h).2
        cases this
      · rcases List.mem_append.1 h with h | h
        · have := (afterNote_nil h).2; cases this
        · exact h
    cases he : es.find k with
    | none => exact (notes_absent es he (y := (p, .slot s)) (aux s h)).elim
    | some e =>
      exact slot_unique p e (Elems.Tidy.find ht.1 he) (notes_find_mem es ht.1 he (y := (p, .slot s)) (aux s h))
        (notes_find_mem es ht.1 he (y := (p, .slot s')) (aux s' h'))

open Classical in
theorem agrees_exists {n : Exec E} (ht : n.Tidy) : ∃ ρ, Agrees ρ n := by
  refine ⟨fun p => if h : ∃ s, (p, Note.slot s) ∈ notes n then Classical.choose h else 0, fun p s hm => ?_⟩
  have h : ∃ s, (p, Note.slot s) ∈ notes n := ⟨s, hm⟩
  simp only [dif_pos h]
  exact slot_unique p n ht (Classical.choose_spec h) hm

end Verif.Transform
