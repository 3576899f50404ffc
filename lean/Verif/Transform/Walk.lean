import Verif.Transform.Items
import Verif.Match.Unref

/-!
# Decisions of a node, item by item

The decisions a node takes for a bucket that occurs once among its items come from the values at the item's path, in
document order.
-/

namespace Verif.Transform
open Verif.FastVal Verif.Match Verif.Expr
open Verif.Token (D Es Ms Tok)
open Verif.BinTree (Sh K)

variable {E : Ext}

/-! ### Nodes below a key are not empty -/

end Verif.Transform

namespace Verif.Match
open Verif.Transform Verif.FastVal
variable {E : Ext}

mutual
  /-- Every node below a key has items or notes, down to the loop bodies. -/
  def Exec.Full : Exec E → Prop
    | .mk _ es _ ls a => es.Full ∧ ls.Full ∧ a.Full
  def Elems.Full : Elems E → Prop
    | .nil => True
    | .cons _ e r => (items e ≠ [] ∨ notes e ≠ []) ∧ e.Full ∧ r.Full
  def Loops.Full : Loops E → Prop
    | .nil => True
    | .cons _ _ _ e r => e.Full ∧ r.Full
  def After.Full : After E → Prop
    | .none => True
    | .some _ ls => ls.Full
end

theorem Elems.Full.find {es : Elems E} (h : es.Full) {k e} (he : es.find k = some e) : e.Full := by
  match es, h with
  | .cons k' e' r, h =>
    rw [Elems.find] at he
    split at he
    · simp at he; subst he; exact h.2.1
    · exact Elems.Full.find (es := r) h.2.2 he

theorem Elems.Full.ne {es : Elems E} (h : es.Full) (hn : es.isEmpty = false) : itemsE es ≠ [] ∨ notesE es ≠ [] := by
  match es, h with
  | .nil, _ => cases hn
  | .cons k e r, h =>
    rcases h.1 with h1 | h1
    · left; intro h0
      rw [itemsE] at h0
      exact h1 (List.map_eq_nil_iff.1 (List.append_eq_nil_iff.1 h0).1)
    · right; intro h0
      rw [notesE] at h0
      exact h1 (List.map_eq_nil_iff.1 (List.append_eq_nil_iff.1 h0).1)

end Verif.Match

namespace Verif.Transform
open Verif.FastVal Verif.Match Verif.Expr
open Verif.Token (D Es Ms Tok)
open Verif.BinTree (Sh K)

variable {E : Ext}

theorem emptyExec_full : (emptyExec : Exec E).Full := ⟨trivial, trivial, trivial⟩

theorem alterElems_full {k : List Nat} {f : Exec E → Exec E} (hf : ∀ n, n.Full → (f n).Full ∧ (items (f n) ≠ [] ∨ notes (f n) ≠ [])) : ∀ es : Elems E, es.Full →
    (alterElems k f es).Full
  | .nil, _ => ⟨(hf _ emptyExec_full).2, (hf _ emptyExec_full).1, trivial⟩
  | .cons k' e r, h => by
    rw [alterElems]
    split
    · exact ⟨(hf _ h.2.1).2, (hf _ h.2.1).1, h.2.2⟩
    · exact ⟨h.1, h.2.1, alterElems_full hf r h.2.2⟩

theorem alterElems_ne {k : List Nat} {f : Exec E → Exec E} : ∀ es : Elems E, (alterElems k f es).isEmpty = false
  | .nil => by simp [alterElems, Elems.isEmpty]
  | .cons k' e r => by
    rw [alterElems]
    split <;> rfl

theorem update_key_full {f : Exec E → Exec E} (hf : ∀ n, n.Full → (f n).Full ∧ (items (f n) ≠ [] ∨ notes (f n) ≠ [])) : ∀ (p : Path) (n : Exec E), n.Full →
    (update (p.map Step.key) f n).Full ∧ (items (update (p.map Step.key) f n) ≠ [] ∨ notes (update (p.map Step.key) f n) ≠ [])
  | [], n, h => hf n h
  | k :: p, .mk st es ops ls a, h => by
    rw [List.map_cons, update]
    have := alterElems_full (k := k) (fun n hn => update_key_full hf p n hn) es h.1
    refine ⟨⟨this, h.2⟩, ?_⟩
    rcases this.ne (alterElems_ne es) with h1 | h1
    · left; intro h0
      rw [items] at h0
      exact h1 (List.append_eq_nil_iff.1 (List.append_eq_nil_iff.1 h0).2).1
    · right; intro h0
      rw [notes] at h0
      exact h1 (List.append_eq_nil_iff.1 (List.append_eq_nil_iff.1 h0).2).2

/-! ### Specification: values at a path -/

/-- Values of the members with key `k`, in order. -/
def membersAt (k : List Nat) : Ms → List D
  | .nil => []
  | .cons kty key _ _ d _ _ rest => if memberKey kty key = k then d :: membersAt k rest else membersAt k rest

/-- The elements, starting at index `i`, whose index is written `k` (`[0]`, `[1]`, …). -/
def elemsAt (k : List Nat) : Nat → Es → List D
  | _, .nil => []
  | i, .cons d _ _ rest => if indexKey i = k then d :: elemsAt k (i + 1) rest else elemsAt k (i + 1) rest

/-- The values at a path, in document order (several only if keys are repeated). -/
def walk : Path → D → List D
  | [], d => [d]
  | k :: p, .obj _ ms => (membersAt k ms).flatMap (walk p)
  | k :: p, .arr _ es => (elemsAt k 0 es).flatMap (walk p)
  | _ :: _, .lit _ _ => []

theorem self_mem (d : D) : d ∈ walk [] d := by rw [walk]; exact List.mem_singleton.2 rfl

def EmptyArr : D → Prop
  | .arr _ .nil => True
  | _ => False

def EmptyObj : D → Prop
  | .obj _ .nil => True
  | _ => False

def IsArr : D → Prop
  | .arr _ _ => True
  | _ => False

/-! ### Decisions -/

/-- The decisions for a bucket. -/
def sel (i : Nat) (l : Marks) : Marks := l.filter (fun x => decide (x.1 = i))

theorem sel_append (i : Nat) (l l' : Marks) : sel i (l ++ l') = sel i l ++ sel i l' := List.filter_append ..
theorem sel_nil (i : Nat) : sel i [] = [] := rfl

theorem get_of_sel {i : Nat} : ∀ l : Marks, l.get i = (sel i l).head?.map Prod.snd
  | [] => rfl
  | (j, v) :: l => by
    have ih := get_of_sel (i := i) l
    rw [Marks.get] at ih ⊢
    rw [List.lookup_cons, sel, List.filter_cons]
    by_cases h : i = j
    · subst h; simp
    · have h1 : ¬ j = i := fun e => h e.symm
      simp only [beq_eq_false_iff_ne.2 h, h1, decide_false, Bool.false_eq_true, if_false]
      exact ih

theorem sel_none {i : Nat} {l : Marks} (h : ∀ x ∈ l, x.1 ≠ i) : sel i l = [] := by
  rw [sel, List.filter_eq_nil_iff]
  intro x hx; simp [h x hx]

theorem sel_all {i : Nat} {l : Marks} (h : ∀ x ∈ l, x.1 = i) : sel i l = l := by
  rw [sel, List.filter_eq_self]
  intro x hx; simp [h x hx]

/-- The decisions of a single item on a value. -/
def itemMarks (X : Fns E) (sh : Nat → Sh) (r : D) (h : Nat) (it : Item E) (x : D) (σ : Slots) : Res Marks :=
  match it with
  | .op o => valOf x >>= fun v => opResult X (slotVal r σ) (some v) o >>= fun q => .ok [(o.bucket, q.1)]
  | .loop b m _ body => dLoop (dExec X sh r h) sh b m body x σ
  | _ => .panic

/-- An item of the node itself, not of its `AfterNode`. -/
def Direct : Item E → Prop
  | .op _ => True
  | .loop .. => True
  | _ => False

section
variable (X : Fns E) (sh : Nat → Sh) (r : D)

theorem dOps_sel_none {σ : Slots} {lit : Option (FV E)} {i : Nat} : ∀ (ops : List (Op E)) (l : Marks),
    dOps X r σ lit ops = .ok l → (∀ o ∈ ops, o.bucket ≠ i) → sel i l = []
  | [], l, h, _ => by cases h; rfl
  | o :: ops, l, h, hn => by
    rw [dOps] at h
    obtain ⟨q, _, h⟩ := Res.bind_eq_ok.1 h
    obtain ⟨l', hl', h⟩ := Res.bind_eq_ok.1 h
    cases h
    have := dOps_sel_none ops l' hl' (fun o' ho' => hn o' (List.mem_cons_of_mem _ ho'))
    rw [sel, List.filter_cons, if_neg (by simp [hn o (List.mem_cons_self)])]
    exact this

/-- Exactly one operation has the bucket. -/
theorem dOps_sel_one {σ : Slots} {lit : Option (FV E)} {i : Nat} {o : Op E} : ∀ (ops : List (Op E)) (l : Marks),
    dOps X r σ lit ops = .ok l → ops.filter (fun o => decide (o.bucket = i)) = [o] →
    ∃ q, opResult X (slotVal r σ) lit o = .ok q ∧ sel i l = [(o.bucket, q.1)]
  | [], l, _, hf => by simp at hf
  | o' :: ops, l, h, hf => by
    rw [dOps] at h
    obtain ⟨q, hq, h⟩ := Res.bind_eq_ok.1 h
    obtain ⟨l', hl', h⟩ := Res.bind_eq_ok.1 h
    cases h
    rw [List.filter_cons] at hf
    rw [sel, List.filter_cons]
    by_cases hb : o'.bucket = i
    · simp only [hb, decide_true, if_true] at hf ⊢
      have h1 : o' = o := by have := congrArg List.head? hf; simpa using this
      subst h1
      have h2 : ops.filter (fun o => decide (o.bucket = i)) = [] := by simpa using hf
      refine ⟨q, hq, ?_⟩
      rw [show List.filter (fun x => decide (x.1 = i)) l' = sel i l' from rfl, dOps_sel_none X r ops l' hl' (by
        intro o1 ho1 he
        have := List.filter_eq_nil_iff.1 h2 o1 ho1
        simp [he] at this), hb]
    · simp only [hb, decide_false, Bool.false_eq_true, if_false] at hf ⊢
      exact dOps_sel_one ops l' hl' hf

theorem dLoop_bucket {rec : DRec E} {b : Nat} {m : Mode} {e : Exec E} {d : D} {σ : Slots} {l : Marks}
    (h : dLoop rec sh b m e d σ = .ok l) : ∀ x ∈ l, x.1 = b := by
  cases d with
  | arr ws es =>
    rw [dLoop] at h
    obtain ⟨v, _, h⟩ := Res.bind_eq_ok.1 h
    cases h; simp
  | lit => cases h; intro x hx; cases hx
  | obj => cases h; intro x hx; cases hx

theorem dArrayLoops_sel_none {rec : DRec E} {d : D} {σ : Slots} {i : Nat} : ∀ (ls : Loops E) (l : Marks),
    dArrayLoops rec sh d σ ls = .ok l → withBucket i (loopItems .loop ls) = [] → sel i l = []
  | .nil, l, h, _ => by cases h; rfl
  | .cons b m t e ls, l, h, hn => by
    rw [loopItems, withBucket, List.filter_cons] at hn
    have hb : b ≠ i := by
      intro hb; simp [Item.bucket, hb] at hn
    rw [if_neg (by simp [Item.bucket, hb])] at hn
    cases t with
    | some _ => simp [dArrayLoops] at h
    | none =>
      rw [dArrayLoops] at h
      obtain ⟨l1, h1, h⟩ := Res.bind_eq_ok.1 h
      obtain ⟨l2, h2, h⟩ := Res.bind_eq_ok.1 h
      cases h
      rw [sel_append, dArrayLoops_sel_none ls l2 h2 hn, sel_none (fun x hx => by rw [dLoop_bucket sh h1 x hx]; exact hb)]
      rfl

theorem dArrayLoops_sel_one {rec : DRec E} {d : D} {σ : Slots} {i : Nat} {x : Path × Item E} : ∀ (ls : Loops E) (l : Marks),
    dArrayLoops rec sh d σ ls = .ok l → withBucket i (loopItems .loop ls) = [x] →
    ∃ m e, x = ([], .loop i m none e) ∧ dLoop rec sh i m e d σ = .ok (sel i l)
  | .nil, l, _, hn => by simp [loopItems, withBucket] at hn
  | .cons b m t e ls, l, h, hn => by
    rw [loopItems, withBucket, List.filter_cons] at hn
    cases t with
    | some _ => simp [dArrayLoops] at h
    | none =>
      rw [dArrayLoops] at h
      obtain ⟨l1, h1, h⟩ := Res.bind_eq_ok.1 h
      obtain ⟨l2, h2, h⟩ := Res.bind_eq_ok.1 h
      cases h
      by_cases hb : b = i
      · subst hb
        rw [if_pos (by simp [Item.bucket])] at hn
        have hx : x = ([], .loop b m none e) := by have := congrArg List.head? hn; simpa using this.symm
        have hr : withBucket b (loopItems .loop ls) = [] := by
          exact congrArg List.tail hn
        refine ⟨m, e, hx, ?_⟩
        rw [sel_append, dArrayLoops_sel_none sh ls l2 h2 hr, List.append_nil, sel_all (dLoop_bucket sh h1), h1]
      · rw [if_neg (by simp [Item.bucket, hb])] at hn
        obtain ⟨m', e', hx, hd⟩ := dArrayLoops_sel_one ls l2 h2 hn
        refine ⟨m', e', hx, ?_⟩
        rw [sel_append, sel_none (fun y hy => by rw [dLoop_bucket sh h1 y hy]; exact hb), List.nil_append, hd]

theorem dAfterLoops_sel_none {rec : DRec E} {σ : Slots} {i : Nat} : ∀ (ls : Loops E) (l : Marks),
    dAfterLoops rec sh r σ ls = .ok l → withBucket i (loopItems .aloop ls) = [] → sel i l = []
  | .nil, l, h, _ => by cases h; rfl
  | .cons b m t e ls, l, h, hn => by
    rw [loopItems, withBucket, List.filter_cons] at hn
    have hb : b ≠ i := by
      intro hb; simp [Item.bucket, hb] at hn
    rw [if_neg (by simp [Item.bucket, hb])] at hn
    rw [dAfterLoops.eq_def] at h
    simp only at h
    split at h
    · split at h
      · cases h
      · obtain ⟨p, _, h⟩ := Res.bind_eq_ok.1 h
        obtain ⟨l1, h1, h⟩ := Res.bind_eq_ok.1 h
        obtain ⟨l2, h2, h⟩ := Res.bind_eq_ok.1 h
        cases h
        rw [sel_append, dAfterLoops_sel_none ls l2 h2 hn, sel_none (fun x hx => by rw [dLoop_bucket sh h1 x hx]; exact hb)]
        rfl
    · cases h

theorem withBucket_map_ops {i : Nat} (mk : Op E → Item E) (hmk : ∀ o, (mk o).bucket = o.bucket) (ops : List (Op E)) :
    withBucket i (ops.map (fun o => (([] : Path), mk o))) = (ops.filter (fun o => decide (o.bucket = i))).map (fun o => ([], mk o)) := by
  rw [withBucket, List.filter_map]
  congr 1
  apply List.filter_congr
  intro o _; simp [hmk]

theorem ops_none {i : Nat} {mk : Op E → Item E} (hmk : ∀ o, (mk o).bucket = o.bucket) {ops : List (Op E)}
    (h : withBucket i (ops.map (fun o => (([] : Path), mk o))) = []) : ∀ o ∈ ops, o.bucket ≠ i := by
  intro o ho he
  rw [withBucket_map_ops mk hmk] at h
  have := List.filter_eq_nil_iff.1 (List.map_eq_nil_iff.1 h) o ho
  simp [he] at this

theorem dAfter_sel_none {rec : DRec E} {σ : Slots} {i : Nat} {a : After E} {l : Marks} (h : dAfter X rec sh r σ a = .ok l)
    (hn : withBucket i (afterItems a) = []) : sel i l = [] := by
  cases a with
  | none => cases h; rfl
  | some ops ls =>
    rw [afterItems, withBucket_append] at hn
    obtain ⟨hn1, hn2⟩ := List.append_eq_nil_iff.1 hn
    rw [dAfter] at h
    obtain ⟨l1, h1, h⟩ := Res.bind_eq_ok.1 h
    obtain ⟨l2, h2, h⟩ := Res.bind_eq_ok.1 h
    cases h
    rw [sel_append, dAfterLoops_sel_none sh r ls l1 h1 hn2, dOps_sel_none X r ops l2 h2 (ops_none (fun _ => rfl) hn1)]
    rfl

/-- Marks of an `andThen`. -/
theorem andThen_marks {a c : Marks × Slots} {f : Slots → Res (Marks × Slots)} (h : andThen a f = .ok c) :
    ∃ b, f a.2 = .ok b ∧ c.1 = a.1 ++ b.1 ∧ c.2 = b.2 := by
  rw [andThen] at h
  obtain ⟨b, hb, h⟩ := Res.bind_eq_ok.1 h
  cases h
  exact ⟨b, hb, rfl, rfl⟩

theorem dFinish_sel_none {rec : DRec E} {σ : Slots} {i st : Nat} {a : After E} {d : D} {c : Marks × Slots}
    (h : dFinish X rec sh r st a d σ = .ok c) (hn : withBucket i (afterItems a) = []) : sel i c.1 = [] := by
  rw [dFinish] at h
  obtain ⟨l, hl, h⟩ := Res.bind_eq_ok.1 h
  obtain ⟨σ', _, h⟩ := Res.bind_eq_ok.1 h
  cases h
  exact dAfter_sel_none X sh r hl hn

/-- The operations on the value of a node. -/
theorem dOpsThen_sel {rec : DRec E} {σ : Slots} {i st : Nat} {ops : List (Op E)} {a : After E} {d : D} {c : Marks × Slots}
    (h : dOpsThen X rec sh r ops st a d σ = .ok c) (hn : withBucket i (afterItems a) = []) :
    (withBucket i (ops.map (fun o => (([] : Path), Item.op o))) = [] → sel i c.1 = []) ∧
    (∀ x, withBucket i (ops.map (fun o => (([] : Path), Item.op o))) = [x] → x.1 = [] ∧ ∀ h', itemMarks X sh r h' x.2 d σ = .ok (sel i c.1)) := by
  rw [dOpsThen] at h
  obtain ⟨v, hv, h⟩ := Res.bind_eq_ok.1 h
  obtain ⟨l, hl, h⟩ := Res.bind_eq_ok.1 h
  obtain ⟨b, hb, h1, _⟩ := andThen_marks h
  have hb' := dFinish_sel_none X sh r hb hn
  rw [h1, sel_append, hb', List.append_nil]
  refine ⟨fun h0 => dOps_sel_none X r ops l hl (ops_none (fun _ => rfl) h0), fun x hx => ?_⟩
  rw [withBucket_map_ops _ (fun _ => rfl)] at hx
  cases hf : ops.filter (fun o => decide (o.bucket = i)) with
  | nil => rw [hf] at hx; simp at hx
  | cons o rest =>
    rw [hf] at hx
    simp only [List.map_cons, List.cons.injEq, List.map_eq_nil_iff] at hx
    obtain ⟨rfl, rfl⟩ := hx
    obtain ⟨q, hq, hs⟩ := dOps_sel_one X r ops l hl hf
    refine ⟨rfl, fun h' => ?_⟩
    simp [itemMarks, hv, hq, hs]

end

/-! ### Clear documents -/

/-- No operation reads, and no slot stores, an empty array that is not looped over, or an empty object below which there is
other content; there is no content below an array that is looped over. -/
structure Clear (n : Exec E) (d : D) : Prop where
  arr : ∀ p, Reads n p → ∀ x ∈ walk p d, EmptyArr x → ∃ b m t e, (p, Item.loop b m t e) ∈ items n
  obj : ∀ p, Reads n p → ∀ x ∈ walk p d, EmptyObj x → ∀ k p', ¬ Content n (p ++ k :: p')
  loops : ∀ q b m t e, (q, Item.loop b m t e) ∈ items n → ∀ k p, Content n (q ++ k :: p) → ∀ x ∈ walk q d, ¬ IsArr x

/-- What is claimed of the decisions for bucket `i`. -/
def Decides (X : Fns E) (sh : Nat → Sh) (r : D) (i : Nat) (L : List (Path × Item E)) (d : D) (l : Marks) : Prop :=
  (L = [] → sel i l = []) ∧
  (∀ p it, L = [(p, it)] → Direct it → ∀ f : D → Marks,
    (∀ x ∈ walk p d, ∀ h σ l, itemMarks X sh r h it x σ = .ok l → l = f x) → sel i l = (walk p d).flatMap f)

def RecI (X : Fns E) (sh : Nat → Sh) (r : D) (rec : DRec E) : Prop :=
  ∀ n d σ a i, rec n d σ = .ok a → n.Tidy → n.Full → Clear n d → Decides X sh r i (withBucket i (items n)) d a.1

/-- The items of `itemsE` at a bucket, seen from a key. -/
theorem itemsE_find {i : Nat} {es : Elems E} (ht : es.Tidy) {x : Path × Item E} (h : withBucket i (itemsE es) = [x]) :
    ∃ k p e, x.1 = k :: p ∧ es.find k = some e ∧ withBucket i (items e) = [(p, x.2)] ∧
      ∀ k' e', k' ≠ k → es.find k' = some e' → withBucket i (items e') = [] := by
  match es, ht with
  | .nil, _ => simp [itemsE, withBucket] at h
  | .cons k e r, ht =>
    rw [itemsE, withBucket_append, withBucket_under] at h
    have none_r : ∀ (es : Elems E), withBucket i (itemsE es) = [] → ∀ k' e', es.find k' = some e' → withBucket i (items e') = [] := by
      intro es hr k' e' he
      apply List.eq_nil_iff_forall_not_mem.2
      intro y hy
      obtain ⟨y1, y2⟩ := mem_withBucket.1 hy
      have := (mem_withBucket (i := i)).2 ⟨mem_itemsE_find he y1, y2⟩
      rw [hr] at this; cases this
    cases hh : withBucket i (items e) with
    | nil =>
      rw [hh, under, List.map_nil, List.nil_append] at h
      obtain ⟨k1, p, e1, h1, h2, h3, h4⟩ := itemsE_find (es := r) ht.2.2 h
      have hk : k ≠ k1 := by
        intro hk; subst hk; rw [ht.1] at h2; cases h2
      refine ⟨k1, p, e1, h1, by rw [Elems.find, if_neg hk]; exact h2, h3, ?_⟩
      intro k' e' hk' he'
      rw [Elems.find] at he'
      split at he'
      · cases he'; exact hh
      · exact h4 k' e' hk' he'
    | cons y ys =>
      rw [hh, under, List.map_cons, List.cons_append, List.cons.injEq] at h
      obtain ⟨h1, h2⟩ := h
      obtain ⟨h3, h4⟩ := List.append_eq_nil_iff.1 h2
      have hys : ys = [] := List.map_eq_nil_iff.1 h3
      subst hys
      subst h1
      refine ⟨k, y.1, e, rfl, by rw [Elems.find, if_pos rfl], hh, ?_⟩
      intro k' e' hk' he'
      rw [Elems.find, if_neg (Ne.symm hk')] at he'
      exact none_r r h4 k' e' he'

theorem itemsE_none {i : Nat} {es : Elems E} (h : withBucket i (itemsE es) = []) :
    ∀ k' e', es.find k' = some e' → withBucket i (items e') = [] := by
  intro k' e' he
  apply List.eq_nil_iff_forall_not_mem.2
  intro y hy
  obtain ⟨y1, y2⟩ := mem_withBucket.1 hy
  have := (mem_withBucket (i := i)).2 ⟨mem_itemsE_find he y1, y2⟩
  rw [h] at this; cases this

theorem loop_nil : ∀ {mk : Nat → Mode → Option (Ref E) → Exec E → Item E} (ls : Loops E) {y : Path × Item E}, y ∈ loopItems mk ls → y.1 = []
  | _, .nil, y, h => by cases h
  | _, .cons b m t e r, y, h => by
    rw [loopItems] at h
    rcases List.mem_cons.1 h with rfl | h
    · rfl
    · exact loop_nil r h

theorem absent : ∀ (es : Elems E) {k}, es.find k = none → ∀ {y : Path × Item E}, (k :: y.1, y.2) ∈ itemsE es → False
  | .nil, k, _, y, h => by cases h
  | .cons k' e' r, k, he, y, h => by
    rw [Elems.find] at he
    rw [itemsE] at h
    split at he
    · cases he
    · rename_i hk
      rcases List.mem_append.1 h with h | h
      · obtain ⟨z, hz, h⟩ := List.mem_map.1 h
        simp only [Prod.mk.injEq, List.cons.injEq] at h
        exact absurd h.1.1 hk
      · exact absent r he h

theorem find_mem : ∀ (es : Elems E), es.Tidy → ∀ {k e}, es.find k = some e → ∀ {y : Path × Item E}, (k :: y.1, y.2) ∈ itemsE es → y ∈ items e
  | .cons k' e' r, ht, k, e, he, y, h => by
    rw [itemsE] at h
    rw [Elems.find] at he
    by_cases hk : k' = k
    · subst hk
      rw [if_pos rfl] at he
      cases he
      rcases List.mem_append.1 h with h | h
      · obtain ⟨z, hz, h⟩ := List.mem_map.1 h
        simp only [Prod.mk.injEq, List.cons.injEq, true_and] at h
        rw [show y = z from Prod.ext h.1.symm h.2.symm]; exact hz
      · exfalso
        have := absent r ht.1 h
        exact this
    · rw [if_neg hk] at he
      rcases List.mem_append.1 h with h | h
      · obtain ⟨z, hz, h⟩ := List.mem_map.1 h
        simp only [Prod.mk.injEq, List.cons.injEq] at h
        exact absurd h.1.1 hk
      · exact find_mem r ht.2.2 he h

theorem mem_items_find {st : Nat} {es : Elems E} {ops : List (Op E)} {ls : Loops E} {a : After E} (ht : es.Tidy) {k e}
    (he : es.find k = some e) {y : Path × Item E} : y ∈ items e ↔ (k :: y.1, y.2) ∈ items (.mk st es ops ls a) := by
  rw [items]
  constructor
  · intro h; exact List.mem_append_right _ (List.mem_append_left _ (mem_itemsE_find he h))
  · intro h
    rcases List.mem_append.1 h with h | h
    · obtain ⟨o, _, h⟩ := List.mem_map.1 h; simp at h
    · rcases List.mem_append.1 h with h | h
      · exact find_mem es ht he h
      · rcases List.mem_append.1 h with h | h
        · have := loop_nil ls h; simp at this
        · cases a with
          | none => cases h
          | some ops' ls' =>
            rw [afterItems] at h
            rcases List.mem_append.1 h with h | h
            · obtain ⟨o, _, h⟩ := List.mem_map.1 h; simp at h
            · have := loop_nil ls' h; simp at this

theorem mem_notesE_find {es : Elems E} {k e} (he : es.find k = some e) {x : Path × Note} (hx : x ∈ notes e) :
    (k :: x.1, x.2) ∈ notesE es := by
  match es with
  | .cons k' e' r =>
    rw [Elems.find] at he
    rw [notesE]
    split at he
    · rename_i hk
      simp at he; subst he; subst hk
      exact List.mem_append_left _ (List.mem_map.2 ⟨x, hx, rfl⟩)
    · exact List.mem_append_right _ (mem_notesE_find (es := r) he hx)

theorem notes_absent : ∀ (es : Elems E) {k}, es.find k = none → ∀ {y : Path × Note}, (k :: y.1, y.2) ∈ notesE es → False
  | .nil, k, _, y, h => by cases h
  | .cons k' e' r, k, he, y, h => by
    rw [Elems.find] at he
    rw [notesE] at h
    split at he
    · cases he
    · rename_i hk
      rcases List.mem_append.1 h with h | h
      · obtain ⟨z, hz, h⟩ := List.mem_map.1 h
        simp only [Prod.mk.injEq, List.cons.injEq] at h
        exact absurd h.1.1 hk
      · exact notes_absent r he h

theorem notes_find_mem : ∀ (es : Elems E), es.Tidy → ∀ {k e}, es.find k = some e → ∀ {y : Path × Note}, (k :: y.1, y.2) ∈ notesE es → y ∈ notes e
  | .cons k' e' r, ht, k, e, he, y, h => by
    rw [notesE] at h
    rw [Elems.find] at he
    by_cases hk : k' = k
    · subst hk
      rw [if_pos rfl] at he
      cases he
      rcases List.mem_append.1 h with h | h
      · obtain ⟨z, hz, h⟩ := List.mem_map.1 h
        simp only [Prod.mk.injEq, List.cons.injEq, true_and] at h
        rw [show y = z from Prod.ext h.1.symm h.2.symm]; exact hz
      · exfalso
        have := notes_absent r ht.1 h
        exact this
    · rw [if_neg hk] at he
      rcases List.mem_append.1 h with h | h
      · obtain ⟨z, hz, h⟩ := List.mem_map.1 h
        simp only [Prod.mk.injEq, List.cons.injEq] at h
        exact absurd h.1.1 hk
      · exact notes_find_mem r ht.2.2 he h

theorem slotNote_nil {st : Nat} {y : Path × Note} (h : y ∈ slotNote st) : st ≠ 0 ∧ y = ([], .slot st) := by
  unfold slotNote at h
  split at h
  · cases h
  · rename_i h0; exact ⟨h0, List.mem_singleton.1 h⟩

theorem afterNote_nil {a : After E} {y : Path × Note} (h : y ∈ afterNote a) : a ≠ .none ∧ y = ([], .after) := by
  cases a with
  | none => cases h
  | some ops ls => exact ⟨by simp, List.mem_singleton.1 h⟩

theorem mem_notes_find {st : Nat} {es : Elems E} {ops : List (Op E)} {ls : Loops E} {a : After E} (ht : es.Tidy) {k e}
    (he : es.find k = some e) {y : Path × Note} : y ∈ notes e ↔ (k :: y.1, y.2) ∈ notes (.mk st es ops ls a) := by
  rw [notes]
  constructor
  · intro h; exact List.mem_append_right _ (List.mem_append_right _ (mem_notesE_find he h))
  · intro h
    rcases List.mem_append.1 h with h | h
    · have := (slotNote_nil h).2; simp at this
    · rcases List.mem_append.1 h with h | h
      · have := (afterNote_nil h).2; simp at this
      · exact notes_find_mem es ht he h

/-- Below a key. -/
theorem Clear.sub {st : Nat} {es : Elems E} {ops : List (Op E)} {ls : Loops E} {a : After E} {k : List Nat} {e : Exec E} {d x : D}
    (h : Clear (.mk st es ops ls a : Exec E) d) (ht : es.Tidy) (he : es.find k = some e)
    (hw : ∀ p, ∀ y ∈ walk p x, y ∈ walk (k :: p) d) : Clear e x := by
  have hc : ∀ p, Content e p → Content (.mk st es ops ls a : Exec E) (k :: p) := by
    rintro p (⟨it, h⟩ | ⟨y, h⟩)
    · exact Or.inl ⟨it, (mem_items_find ht he).1 h⟩
    · exact Or.inr ⟨y, (mem_notes_find ht he).1 h⟩
  have hr : ∀ p, Reads e p → Reads (.mk st es ops ls a : Exec E) (k :: p) := by
    rintro p (⟨it, h⟩ | ⟨y, h⟩)
    · exact Or.inl ⟨it, (mem_items_find ht he).1 h⟩
    · exact Or.inr ⟨y, (mem_notes_find ht he).1 h⟩
  refine ⟨fun p ho y hy he' => ?_, fun p ho y hy he' k' p' hm => ?_, fun q b m t e' hq k' p hp y hy => ?_⟩
  · obtain ⟨b, m, t, e1, h⟩ := h.arr (k :: p) (hr p ho) y (hw p y hy) he'
    exact ⟨b, m, t, e1, (mem_items_find (y := (p, _)) ht he).2 h⟩
  · exact h.obj (k :: p) (hr p ho) y (hw p y hy) he' k' p' (hc _ hm)
  · exact h.loops (k :: q) b m t e' ((mem_items_find (y := (q, _)) ht he).1 hq) k' p (hc _ hp) y (hw q y hy)

section
variable (X : Fns E) (sh : Nat → Sh) (r : D)

/-- No decision for a bucket that does not occur. -/
theorem dMembers_none {rec : DRec E} (hrec : RecI X sh r rec) {es : Elems E} (ht : es.Tidy) (hfu : es.Full) {i : Nat}
    (hn : withBucket i (itemsE es) = []) : ∀ (ms : Ms) (σ : Slots) (a : Marks × Slots), dMembers rec es ms σ = .ok a →
    (∀ k e, es.find k = some e → ∀ x ∈ membersAt k ms, Clear e x) → sel i a.1 = []
  | .nil, σ, a, h, _ => by cases h; rfl
  | .cons kty key _ _ d _ _ rest, σ, a, h, hc => by
    rw [dMembers] at h
    obtain ⟨k, hk, h⟩ := Res.bind_eq_ok.1 h
    have hk' := memberKey_ok hk
    have hc' : ∀ k e, es.find k = some e → ∀ x ∈ membersAt k rest, Clear e x := by
      intro k1 e1 h1 x hx
      refine hc k1 e1 h1 x ?_
      rw [membersAt]
      split
      · exact List.mem_cons_of_mem _ hx
      · exact hx
    split at h
    · rename_i e he
      obtain ⟨b, hb, h⟩ := Res.bind_eq_ok.1 h
      obtain ⟨c, hcc, h1, _⟩ := andThen_marks h
      rw [h1, sel_append, dMembers_none hrec ht hfu hn rest b.2 c hcc hc']
      rw [(hrec e d σ b i hb (Elems.Tidy.find ht he) (Elems.Full.find hfu he) (hc k e he d (by rw [membersAt, if_pos hk']; exact List.mem_cons_self))).1
        (itemsE_none hn k e he)]
      rfl
    · exact dMembers_none hrec ht hfu hn rest σ a h hc'

theorem dMembers_one {rec : DRec E} (hrec : RecI X sh r rec) {es : Elems E} (ht : es.Tidy) (hfu : es.Full) {i : Nat} {k p : _} {it : Item E}
    (hx : withBucket i (itemsE es) = [(k :: p, it)]) (hd : Direct it) {f : D → Marks} : ∀ (ms : Ms) (σ : Slots) (a : Marks × Slots),
    dMembers rec es ms σ = .ok a → (∀ k e, es.find k = some e → ∀ x ∈ membersAt k ms, Clear e x) →
    (∀ x ∈ (membersAt k ms).flatMap (walk p), ∀ h σ l, itemMarks X sh r h it x σ = .ok l → l = f x) →
    sel i a.1 = ((membersAt k ms).flatMap (walk p)).flatMap f
  | .nil, σ, a, h, _, _ => by cases h; rfl
  | .cons kty key _ _ d _ _ rest, σ, a, h, hc, hf => by
    rw [dMembers] at h
    obtain ⟨k', hk, h⟩ := Res.bind_eq_ok.1 h
    have hk' := memberKey_ok hk
    have hc' : ∀ k e, es.find k = some e → ∀ x ∈ membersAt k rest, Clear e x := by
      intro k1 e1 h1 x hx
      refine hc k1 e1 h1 x ?_
      rw [membersAt]
      split
      · exact List.mem_cons_of_mem _ hx
      · exact hx
    obtain ⟨k1, p1, e1, q1, q2, q3, q4⟩ := itemsE_find ht hx
    simp only [List.cons.injEq] at q1
    obtain ⟨rfl, rfl⟩ := q1
    by_cases hkk : k' = k
    · subst hkk
      rw [q2] at h
      simp only at h
      obtain ⟨b, hb, h⟩ := Res.bind_eq_ok.1 h
      obtain ⟨c, hcc, h1, _⟩ := andThen_marks h
      rw [membersAt, if_pos hk'] at hf ⊢
      rw [List.flatMap_cons] at hf ⊢
      rw [h1, sel_append, List.flatMap_append]
      rw [dMembers_one hrec ht hfu hx hd rest b.2 c hcc hc' (fun x hx => hf x (List.mem_append_right _ hx))]
      rw [(hrec e1 d σ b i hb (Elems.Tidy.find ht q2) (Elems.Full.find hfu q2) (hc k' e1 q2 d (by rw [membersAt, if_pos hk']; exact List.mem_cons_self))).2
        p it q3 hd f (fun x hx => hf x (List.mem_append_left _ hx))]
    · rw [membersAt, if_neg (by rw [hk']; exact hkk)] at hf ⊢
      split at h
      · rename_i e he
        obtain ⟨b, hb, h⟩ := Res.bind_eq_ok.1 h
        obtain ⟨c, hcc, h1, _⟩ := andThen_marks h
        rw [h1, sel_append, dMembers_one hrec ht hfu hx hd rest b.2 c hcc hc' hf]
        rw [(hrec e d σ b i hb (Elems.Tidy.find ht he) (Elems.Full.find hfu he) (hc k' e he d (by rw [membersAt, if_pos hk']; exact List.mem_cons_self))).1
          (q4 k' e hkk he)]
        rfl
      · exact dMembers_one hrec ht hfu hx hd rest σ a h hc' hf

theorem dElems_none {rec : DRec E} (hrec : RecI X sh r rec) {es : Elems E} (ht : es.Tidy) (hfu : es.Full) {i : Nat}
    (hn : withBucket i (itemsE es) = []) : ∀ (xs : Es) (j : Nat) (σ : Slots) (a : Marks × Slots), dElems rec es j xs σ = .ok a →
    (∀ k e, es.find k = some e → ∀ x ∈ elemsAt k j xs, Clear e x) → sel i a.1 = []
  | .nil, j, σ, a, h, _ => by cases h; rfl
  | .cons d _ _ rest, j, σ, a, h, hc => by
    rw [dElems] at h
    obtain ⟨_, _, h⟩ := Res.bind_eq_ok.1 h
    have hc' : ∀ k e, es.find k = some e → ∀ x ∈ elemsAt k (j + 1) rest, Clear e x := by
      intro k1 e1 h1 x hx
      refine hc k1 e1 h1 x ?_
      rw [elemsAt]
      split
      · exact List.mem_cons_of_mem _ hx
      · exact hx
    split at h
    · rename_i e he
      obtain ⟨b, hb, h⟩ := Res.bind_eq_ok.1 h
      obtain ⟨c, hcc, h1, _⟩ := andThen_marks h
      rw [h1, sel_append, dElems_none hrec ht hfu hn rest (j + 1) b.2 c hcc hc']
      rw [(hrec e d σ b i hb (Elems.Tidy.find ht he) (Elems.Full.find hfu he) (hc _ e he d (by rw [elemsAt, if_pos rfl]; exact List.mem_cons_self))).1
        (itemsE_none hn _ e he)]
      rfl
    · exact dElems_none hrec ht hfu hn rest (j + 1) σ a h hc'

theorem dElems_one {rec : DRec E} (hrec : RecI X sh r rec) {es : Elems E} (ht : es.Tidy) (hfu : es.Full) {i : Nat} {k p : _} {it : Item E}
    (hx : withBucket i (itemsE es) = [(k :: p, it)]) (hd : Direct it) {f : D → Marks} : ∀ (xs : Es) (j : Nat) (σ : Slots)
    (a : Marks × Slots), dElems rec es j xs σ = .ok a → (∀ k e, es.find k = some e → ∀ x ∈ elemsAt k j xs, Clear e x) →
    (∀ x ∈ (elemsAt k j xs).flatMap (walk p), ∀ h σ l, itemMarks X sh r h it x σ = .ok l → l = f x) →
    sel i a.1 = ((elemsAt k j xs).flatMap (walk p)).flatMap f
  | .nil, j, σ, a, h, _, _ => by cases h; rfl
  | .cons d _ _ rest, j, σ, a, h, hc, hf => by
    rw [dElems] at h
    obtain ⟨_, _, h⟩ := Res.bind_eq_ok.1 h
    have hc' : ∀ k e, es.find k = some e → ∀ x ∈ elemsAt k (j + 1) rest, Clear e x := by
      intro k1 e1 h1 x hx
      refine hc k1 e1 h1 x ?_
      rw [elemsAt]
      split
      · exact List.mem_cons_of_mem _ hx
      · exact hx
    obtain ⟨k1, p1, e1, q1, q2, q3, q4⟩ := itemsE_find ht hx
    simp only [List.cons.injEq] at q1
    obtain ⟨rfl, rfl⟩ := q1
    by_cases hkk : indexKey j = k
    · subst hkk
      rw [q2] at h
      simp only at h
      obtain ⟨b, hb, h⟩ := Res.bind_eq_ok.1 h
      obtain ⟨c, hcc, h1, _⟩ := andThen_marks h
      rw [elemsAt, if_pos rfl] at hf ⊢
      rw [List.flatMap_cons] at hf ⊢
      rw [h1, sel_append, List.flatMap_append]
      rw [dElems_one hrec ht hfu hx hd rest (j + 1) b.2 c hcc hc' (fun x hx => hf x (List.mem_append_right _ hx))]
      rw [(hrec e1 d σ b i hb (Elems.Tidy.find ht q2) (Elems.Full.find hfu q2) (hc _ e1 q2 d (by rw [elemsAt, if_pos rfl]; exact List.mem_cons_self))).2
        p it q3 hd f (fun x hx => hf x (List.mem_append_left _ hx))]
    · rw [elemsAt, if_neg hkk] at hf ⊢
      split at h
      · rename_i e he
        obtain ⟨b, hb, h⟩ := Res.bind_eq_ok.1 h
        obtain ⟨c, hcc, h1, _⟩ := andThen_marks h
        rw [h1, sel_append, dElems_one hrec ht hfu hx hd rest (j + 1) b.2 c hcc hc' hf]
        rw [(hrec e d σ b i hb (Elems.Tidy.find ht he) (Elems.Full.find hfu he) (hc _ e he d (by rw [elemsAt, if_pos rfl]; exact List.mem_cons_self))).1
          (q4 _ e hkk he)]
        rfl
      · exact dElems_one hrec ht hfu hx hd rest (j + 1) σ a h hc' hf

/-- A list that is the concatenation of four parts and has exactly one element. -/
theorem four_one {α : Type} {A B C F : List α} {x : α} (h : A ++ (B ++ (C ++ F)) = [x]) :
    (A = [x] ∧ B = [] ∧ C = [] ∧ F = []) ∨ (A = [] ∧ B = [x] ∧ C = [] ∧ F = []) ∨ (A = [] ∧ B = [] ∧ C = [x] ∧ F = []) ∨
      (A = [] ∧ B = [] ∧ C = [] ∧ F = [x]) := by
  cases A with
  | cons a A => simp at h; obtain ⟨rfl, rfl, rfl, rfl, rfl⟩ := h; simp
  | nil =>
    cases B with
    | cons a A => simp at h; obtain ⟨rfl, rfl, rfl, rfl⟩ := h; simp
    | nil =>
      cases C with
      | cons a A => simp at h; obtain ⟨rfl, rfl, rfl⟩ := h; simp
      | nil => simp at h; subst h; simp

theorem after_direct {i : Nat} {a : After E} {x : Path × Item E} (h : withBucket i (afterItems a) = [x]) : ¬ Direct x.2 := by
  have hx : x ∈ withBucket i (afterItems a) := by rw [h]; exact List.mem_singleton.2 rfl
  have hx := (mem_withBucket.1 hx).1
  cases a with
  | none => cases hx
  | some ops ls =>
    rw [afterItems] at hx
    rcases List.mem_append.1 hx with hx | hx
    · obtain ⟨o, _, rfl⟩ := List.mem_map.1 hx; exact id
    · have : ∀ (ls : Loops E), x ∈ loopItems Item.aloop ls → ¬ Direct x.2 := by
        intro ls
        match ls with
        | .nil => intro h; cases h
        | .cons b m t e r =>
          intro h
          rw [loopItems] at h
          rcases List.mem_cons.1 h with rfl | h
          · exact id
          · exact aux r h
      exact this ls hx
where aux {x : Path × Item E} : ∀ (ls : Loops E), x ∈ loopItems Item.aloop ls → ¬ Direct x.2
  | .nil, h => by cases h
  | .cons b m t e r, h => by
    rw [loopItems] at h
    rcases List.mem_cons.1 h with rfl | h
    · exact id
    · exact aux r h

theorem loop_item {i : Nat} {x : Path × Item E} {ls : Loops E} : withBucket i (loopItems .loop ls) = [x] →
    ∃ m t e, x = ([], Item.loop i m t e) := by
  intro h
  have hx : x ∈ withBucket i (loopItems .loop ls) := by rw [h]; exact List.mem_singleton.2 rfl
  obtain ⟨hx, hb⟩ := mem_withBucket.1 hx
  have : ∃ b m t e, x = ([], Item.loop b m t e) := aux ls hx
  obtain ⟨b, m, t, e, rfl⟩ := this
  have : b = i := hb
  subst this
  exact ⟨m, t, e, rfl⟩
where aux {x : Path × Item E} : ∀ (ls : Loops E), x ∈ loopItems Item.loop ls → ∃ b m t e, x = ([], Item.loop b m t e)
  | .nil, h => by cases h
  | .cons b m t e r, h => by
    rw [loopItems] at h
    rcases List.mem_cons.1 h with rfl | h
    · exact ⟨b, m, t, e, rfl⟩
    · exact aux r h

theorem dLoop_not_arr {rec : DRec E} {b : Nat} {m : Mode} {e : Exec E} {d : D} {σ : Slots} (h : ¬ IsArr d) :
    dLoop rec sh b m e d σ = .ok [] := by
  cases d with
  | arr ws es => exact absurd trivial h
  | lit => rfl
  | obj => rfl

/-- The node's own operations and loops on a value that is not an array. -/
theorem opsThen_decides {rec : DRec E} {st : Nat} {es : Elems E} {ops : List (Op E)} {ls : Loops E} {a : After E} {d : D} {σ : Slots}
    {c : Marks × Slots} {i : Nat} (h : dOpsThen X rec sh r ops st a d σ = .ok c) (hna : ¬ IsArr d)
    (hw : ∀ k p, itemsE es ≠ [] → walk (k :: p) d = []) :
    Decides X sh r i (withBucket i (items (.mk st es ops ls a))) d c.1 := by
  have hitems : withBucket i (items (.mk st es ops ls a)) = withBucket i (ops.map (fun o => (([] : Path), Item.op o))) ++
      (withBucket i (itemsE es) ++ (withBucket i (loopItems .loop ls) ++ withBucket i (afterItems a))) := by
    rw [items]; simp only [withBucket_append]
  refine ⟨fun h0 => ?_, fun p it h1 hd f hf => ?_⟩
  · rw [hitems] at h0
    obtain ⟨h1, h0⟩ := List.append_eq_nil_iff.1 h0
    obtain ⟨_, h0⟩ := List.append_eq_nil_iff.1 h0
    obtain ⟨_, h4⟩ := List.append_eq_nil_iff.1 h0
    exact (dOpsThen_sel X sh r h h4).1 h1
  · rw [hitems] at h1
    rcases four_one h1 with ⟨q1, q2, q3, q4⟩ | ⟨q1, q2, q3, q4⟩ | ⟨q1, q2, q3, q4⟩ | ⟨q1, q2, q3, q4⟩
    · obtain ⟨e1, e2⟩ := (dOpsThen_sel X sh r h q4).2 _ q1
      simp only at e1; subst e1
      have := hf d (by simp [walk]) 0 σ _ (e2 0)
      rw [this]; simp [walk]
    · obtain ⟨k, p', e, e1, _⟩ : ∃ k p' , ∃ _ : Unit, p = k :: p' ∧ True := by
        have hm : (p, it) ∈ withBucket i (itemsE es) := by rw [q2]; exact List.mem_singleton.2 rfl
        obtain ⟨k, p', hh⟩ := mem_itemsE_cons es (mem_withBucket.1 hm).1
        exact ⟨k, p', (), hh, trivial⟩
      subst e1
      rw [hw k p' (by intro h0; rw [h0] at q2; simp [withBucket] at q2), List.flatMap_nil]
      exact (dOpsThen_sel X sh r h q4).1 q1
    · obtain ⟨m, t, e, he⟩ := loop_item q3
      cases he
      have := hf d (by simp [walk]) 0 σ _ (dLoop_not_arr sh hna)
      rw [(dOpsThen_sel X sh r h q4).1 q1]
      simp [walk, ← this]
    · exact absurd hd (after_direct q4)
where mem_itemsE_cons : ∀ (es : Elems E) {x : Path × Item E}, x ∈ itemsE es → ∃ k p', x.1 = k :: p'
  | .nil, x, h => by cases h
  | .cons k e r, x, h => by
    rw [itemsE] at h
    rcases List.mem_append.1 h with h | h
    · obtain ⟨y, _, rfl⟩ := List.mem_map.1 h; exact ⟨k, y.1, rfl⟩
    · exact mem_itemsE_cons r h

theorem mem_notesE_cons : ∀ (es : Elems E) {x : Path × Note}, x ∈ notesE es → ∃ k p', x.1 = k :: p'
  | .nil, x, h => by cases h
  | .cons k e r, x, h => by
    rw [notesE] at h
    rcases List.mem_append.1 h with h | h
    · obtain ⟨y, _, rfl⟩ := List.mem_map.1 h; exact ⟨k, y.1, rfl⟩
    · exact mem_notesE_cons r h

/-- A node with keys has content below them. -/
theorem content_below {es : Elems E} (hfu : es.Full) (hne : es.isEmpty = false) :
    ∃ k p', ∀ st ops ls a, Content (.mk st es ops ls a : Exec E) (k :: p') := by
  rcases hfu.ne hne with h | h
  · obtain ⟨y, hy⟩ := List.exists_mem_of_ne_nil _ h
    obtain ⟨k, p', hk⟩ := opsThen_decides.mem_itemsE_cons es hy
    refine ⟨k, p', fun st ops ls a => Or.inl ⟨y.2, ?_⟩⟩
    rw [items, ← hk]
    exact List.mem_append_right _ (List.mem_append_left _ hy)
  · obtain ⟨y, hy⟩ := List.exists_mem_of_ne_nil _ h
    obtain ⟨k, p', hk⟩ := mem_notesE_cons es hy
    refine ⟨k, p', fun st ops ls a => Or.inr ⟨y.2, ?_⟩⟩
    rw [notes, ← hk]
    exact List.mem_append_right _ (List.mem_append_right _ hy)

theorem dObj_decides {rec : DRec E} (hrec : RecI X sh r rec) {st : Nat} {es : Elems E} {ops : List (Op E)} {ls : Loops E} {a : After E}
    {ws : List Nat} {ms : Ms} {σ : Slots} {c : Marks × Slots} {i : Nat} (h : dObj X rec sh r st es ops a ws ms σ = .ok c)
    (ht : es.Tidy) (hfu : es.Full) (hcl : Clear (.mk st es ops ls a : Exec E) (.obj ws ms)) :
    Decides X sh r i (withBucket i (items (.mk st es ops ls a))) (.obj ws ms) c.1 := by
  rw [dObj] at h
  by_cases hemp : es.isEmpty = true
  · simp only [hemp, if_true] at h
    have : es = .nil := by cases es with
      | nil => rfl
      | cons => cases hemp
    subst this
    exact opsThen_decides X sh r h (by exact id) (fun k p hne => absurd rfl hne)
  · simp only [hemp, Bool.false_eq_true, if_false] at h
    obtain ⟨b, hb, h⟩ := Res.bind_eq_ok.1 h
    obtain ⟨l, hl, h⟩ := Res.bind_eq_ok.1 h
    have hsub : ∀ k e, es.find k = some e → ∀ x ∈ membersAt k ms, Clear e x := by
      intro k e he x hx
      refine hcl.sub (k := k) ht he ?_
      · intro p y hy; rw [walk]; exact List.mem_flatMap.2 ⟨x, hx, hy⟩
    have hitems : withBucket i (items (.mk st es ops ls a)) = withBucket i (ops.map (fun o => (([] : Path), Item.op o))) ++
        (withBucket i (itemsE es) ++ (withBucket i (loopItems .loop ls) ++ withBucket i (afterItems a))) := by
      rw [items]; simp only [withBucket_append]
    rw [hitems]
    cases ms with
    | nil =>
      cases hb
      cases h
      refine ⟨fun h0 => ?_, fun p it h1 hd f hf => ?_⟩
      · obtain ⟨h1, h0⟩ := List.append_eq_nil_iff.1 h0
        obtain ⟨_, h0⟩ := List.append_eq_nil_iff.1 h0
        obtain ⟨_, h4⟩ := List.append_eq_nil_iff.1 h0
        exact dAfter_sel_none X sh r hl h4
      · rcases four_one h1 with ⟨q1, q2, q3, q4⟩ | ⟨q1, q2, q3, q4⟩ | ⟨q1, q2, q3, q4⟩ | ⟨q1, q2, q3, q4⟩
        · exfalso
          have hm : (p, it) ∈ ops.map (fun o => (([] : Path), Item.op o)) := by
            have : (p, it) ∈ withBucket i (ops.map (fun o => (([] : Path), Item.op o))) := by rw [q1]; exact List.mem_singleton.2 rfl
            exact (mem_withBucket.1 this).1
          obtain ⟨o, ho, he⟩ := List.mem_map.1 hm
          obtain ⟨k, p', hk⟩ := content_below hfu (by simpa using hemp)
          exact hcl.obj [] (Or.inl ⟨o, by rw [items]; exact List.mem_append_left _ (List.mem_map.2 ⟨o, ho, rfl⟩)⟩) (.obj ws .nil) (self_mem _)
            trivial k p' (hk _ _ _ _)
        · obtain ⟨k, p', hk⟩ := opsThen_decides.mem_itemsE_cons es (mem_withBucket.1 (by rw [q2]; exact List.mem_singleton.2 rfl :
            (p, it) ∈ withBucket i (itemsE es))).1
          simp only at hk; subst hk
          simp only [walk, membersAt, List.flatMap_nil, List.nil_append]
          exact dAfter_sel_none X sh r hl q4
        · obtain ⟨m, t, e, he⟩ := loop_item q3
          cases he
          have := hf _ (self_mem _) 0 σ [] (dLoop_not_arr (rec := dExec X sh r 0) (b := i) (m := m) (e := e) (d := .obj ws .nil) (σ := σ) sh (by intro h; exact h))
          simp only [List.nil_append]
          rw [dAfter_sel_none X sh r hl q4]
          simp [walk, ← this]
        · exact absurd hd (after_direct q4)
    | cons kty key k1 k2 v w1 w2 rest =>
      obtain ⟨b', hb', h1, _⟩ := andThen_marks h
      refine ⟨fun h0 => ?_, fun p it h1' hd f hf => ?_⟩
      · obtain ⟨z1, h0⟩ := List.append_eq_nil_iff.1 h0
        obtain ⟨z2, h0⟩ := List.append_eq_nil_iff.1 h0
        obtain ⟨_, z4⟩ := List.append_eq_nil_iff.1 h0
        rw [h1]
        simp only [sel_append]
        rw [dMembers_none X sh r hrec ht hfu z2 _ _ _ hb hsub, dAfter_sel_none X sh r hl z4, (dOpsThen_sel X sh r hb' z4).1 z1]
        rfl
      · rw [h1]
        simp only [sel_append]
        rcases four_one h1' with ⟨q1, q2, q3, q4⟩ | ⟨q1, q2, q3, q4⟩ | ⟨q1, q2, q3, q4⟩ | ⟨q1, q2, q3, q4⟩
        · rw [dMembers_none X sh r hrec ht hfu q2 _ _ _ hb hsub, dAfter_sel_none X sh r hl q4]
          obtain ⟨e1, e2⟩ := (dOpsThen_sel X sh r hb' q4).2 _ q1
          simp only at e1; subst e1
          rw [hf _ (self_mem _) 0 _ _ (e2 0)]
          simp [walk]
        · rw [dAfter_sel_none X sh r hl q4, (dOpsThen_sel X sh r hb' q4).1 q1]
          obtain ⟨k, p', hk⟩ := opsThen_decides.mem_itemsE_cons es (mem_withBucket.1 (by rw [q2]; exact List.mem_singleton.2 rfl :
            (p, it) ∈ withBucket i (itemsE es))).1
          simp only at hk; subst hk
          rw [dMembers_one X sh r hrec ht hfu q2 hd _ _ _ hb hsub (f := f) (by rw [walk] at hf; exact hf)]
          simp [walk]
        · rw [dMembers_none X sh r hrec ht hfu q2 _ _ _ hb hsub, dAfter_sel_none X sh r hl q4, (dOpsThen_sel X sh r hb' q4).1 q1]
          obtain ⟨m, t, e, he⟩ := loop_item q3
          cases he
          have := hf _ (self_mem _) 0 σ [] (dLoop_not_arr (rec := dExec X sh r 0) (b := i) (m := m) (e := e) (d := .obj ws (.cons kty key k1 k2 v w1 w2 rest)) (σ := σ) sh (by intro h; exact h))
          simp [walk, ← this]
        · exact absurd hd (after_direct q4)
theorem dArr_decides {rec : DRec E} {hh : Nat} (hre : rec = dExec X sh r hh) (hrec : RecI X sh r rec) {st : Nat} {es : Elems E}
    {ops : List (Op E)} {ls : Loops E} {a : After E} {ws : List Nat} {xs : Es} {σ : Slots} {c : Marks × Slots} {i : Nat}
    (h : dArr X rec sh r st es ops ls a ws xs σ = .ok c) (ht : es.Tidy) (hfu : es.Full)
    (hcl : Clear (.mk st es ops ls a : Exec E) (.arr ws xs)) :
    Decides X sh r i (withBucket i (items (.mk st es ops ls a))) (.arr ws xs) c.1 := by
  have hitems : withBucket i (items (.mk st es ops ls a)) = withBucket i (ops.map (fun o => (([] : Path), Item.op o))) ++
      (withBucket i (itemsE es) ++ (withBucket i (loopItems .loop ls) ++ withBucket i (afterItems a))) := by
    rw [items]; simp only [withBucket_append]
  have hopm : ∀ {p it}, withBucket i (ops.map (fun o => (([] : Path), Item.op o))) = [(p, it)] → ∃ o ∈ ops, p = [] ∧ it = .op o := by
    intro p it q1
    have hm : (p, it) ∈ ops.map (fun o => (([] : Path), Item.op o)) := by
      have : (p, it) ∈ withBucket i (ops.map (fun o => (([] : Path), Item.op o))) := by rw [q1]; exact List.mem_singleton.2 rfl
      exact (mem_withBucket.1 this).1
    obtain ⟨o, ho, he⟩ := List.mem_map.1 hm
    cases he
    exact ⟨o, ho, rfl, rfl⟩
  rw [dArr.eq_def] at h
  by_cases hemp : ls.isEmpty = true
  · simp only [hemp, if_true] at h
    have hls : ls = .nil := by cases ls with
      | nil => rfl
      | cons => cases hemp
    subst hls
    rw [hitems]
    cases xs with
    | nil =>
      cases h
      refine ⟨fun _ => rfl, fun p it h1 hd f hf => ?_⟩
      rcases four_one h1 with ⟨q1, q2, q3, q4⟩ | ⟨q1, q2, q3, q4⟩ | ⟨q1, q2, q3, q4⟩ | ⟨q1, q2, q3, q4⟩
      · exfalso
        obtain ⟨o, ho, _, _⟩ := hopm q1
        obtain ⟨b, m, t, e, hl⟩ := hcl.arr [] (Or.inl ⟨o, by rw [items]; exact List.mem_append_left _ (List.mem_map.2 ⟨o, ho, rfl⟩)⟩) _
          (self_mem (.arr ws .nil)) trivial
        rw [items] at hl
        rcases List.mem_append.1 hl with hl | hl
        · obtain ⟨o, _, hl⟩ := List.mem_map.1 hl; simp at hl
        · rcases List.mem_append.1 hl with hl | hl
          · obtain ⟨k, p', hk⟩ := opsThen_decides.mem_itemsE_cons es hl
            simp at hk
          · rcases List.mem_append.1 hl with hl | hl
            · cases hl
            · cases a with
              | none => cases hl
              | some ops' ls' =>
                rw [afterItems] at hl
                rcases List.mem_append.1 hl with hl | hl
                · obtain ⟨o, _, hl⟩ := List.mem_map.1 hl; simp at hl
                · exact after_direct.aux ls' hl trivial
      · obtain ⟨k, p', hk⟩ := opsThen_decides.mem_itemsE_cons es (mem_withBucket.1 (by rw [q2]; exact List.mem_singleton.2 rfl :
          (p, it) ∈ withBucket i (itemsE es))).1
        simp only at hk; subst hk
        simp [walk, elemsAt, sel]
      · simp [loopItems, withBucket] at q3
      · exact absurd hd (after_direct q4)
    | cons v w1 w2 rest =>
      have hsub : ∀ k e, es.find k = some e → ∀ x ∈ elemsAt k 0 (.cons v w1 w2 rest), Clear e x := by
        intro k e he x hx
        refine hcl.sub (k := k) ht he ?_
        · intro p y hy; rw [walk]; exact List.mem_flatMap.2 ⟨x, hx, hy⟩
      obtain ⟨b, hb, h⟩ := Res.bind_eq_ok.1 h
      obtain ⟨b', hb', h1, _⟩ := andThen_marks h
      rw [h1]
      refine ⟨fun h0 => ?_, fun p it h1' hd f hf => ?_⟩
      · obtain ⟨z1, h0⟩ := List.append_eq_nil_iff.1 h0
        obtain ⟨z2, h0⟩ := List.append_eq_nil_iff.1 h0
        obtain ⟨_, z4⟩ := List.append_eq_nil_iff.1 h0
        rw [sel_append, dElems_none X sh r hrec ht hfu z2 _ _ _ _ hb hsub, (dOpsThen_sel X sh r hb' z4).1 z1]
        rfl
      · rw [sel_append]
        rcases four_one h1' with ⟨q1, q2, q3, q4⟩ | ⟨q1, q2, q3, q4⟩ | ⟨q1, q2, q3, q4⟩ | ⟨q1, q2, q3, q4⟩
        · rw [dElems_none X sh r hrec ht hfu q2 _ _ _ _ hb hsub]
          obtain ⟨e1, e2⟩ := (dOpsThen_sel X sh r hb' q4).2 _ q1
          simp only at e1; subst e1
          rw [hf _ (self_mem _) 0 _ _ (e2 0)]
          simp [walk]
        · rw [(dOpsThen_sel X sh r hb' q4).1 q1]
          obtain ⟨k, p', hk⟩ := opsThen_decides.mem_itemsE_cons es (mem_withBucket.1 (by rw [q2]; exact List.mem_singleton.2 rfl :
            (p, it) ∈ withBucket i (itemsE es))).1
          simp only at hk; subst hk
          rw [dElems_one X sh r hrec ht hfu q2 hd _ _ _ _ hb hsub (f := f) (by rw [walk] at hf; exact hf)]
          simp [walk]
        · simp [loopItems, withBucket] at q3
        · exact absurd hd (after_direct q4)
  · simp only [hemp, Bool.false_eq_true, if_false] at h
    obtain ⟨l, hl, h⟩ := Res.bind_eq_ok.1 h
    obtain ⟨b', hb', h1, _⟩ := andThen_marks h
    rw [h1, hitems]
    refine ⟨fun h0 => ?_, fun p it h1' hd f hf => ?_⟩
    · obtain ⟨z1, h0⟩ := List.append_eq_nil_iff.1 h0
      obtain ⟨z2, h0⟩ := List.append_eq_nil_iff.1 h0
      obtain ⟨z3, z4⟩ := List.append_eq_nil_iff.1 h0
      rw [sel_append, dArrayLoops_sel_none sh _ _ hl z3, (dOpsThen_sel X sh r hb' z4).1 z1]
      rfl
    · rw [sel_append]
      rcases four_one h1' with ⟨q1, q2, q3, q4⟩ | ⟨q1, q2, q3, q4⟩ | ⟨q1, q2, q3, q4⟩ | ⟨q1, q2, q3, q4⟩
      · rw [dArrayLoops_sel_none sh _ _ hl q3]
        obtain ⟨e1, e2⟩ := (dOpsThen_sel X sh r hb' q4).2 _ q1
        simp only at e1; subst e1
        rw [hf _ (self_mem _) 0 _ _ (e2 0)]
        simp [walk]
      · exfalso
        have hm := (mem_withBucket.1 (by rw [q2]; exact List.mem_singleton.2 rfl : (p, it) ∈ withBucket i (itemsE es))).1
        obtain ⟨k, p', hk⟩ := opsThen_decides.mem_itemsE_cons es hm
        simp only at hk; subst hk
        cases ls with
        | nil => simp [Loops.isEmpty] at hemp
        | cons b m t e ls =>
          refine hcl.loops [] b m t e ?_ k p' (Or.inl ⟨it, ?_⟩) _ (self_mem _) trivial
          · rw [items, loopItems]
            exact List.mem_append_right _ (List.mem_append_right _ (List.mem_append_left _ List.mem_cons_self))
          · rw [items, List.nil_append]
            exact List.mem_append_right _ (List.mem_append_left _ hm)
      · rw [(dOpsThen_sel X sh r hb' q4).1 q1, List.append_nil]
        obtain ⟨m, e, he, hd'⟩ := dArrayLoops_sel_one sh _ _ hl q3
        cases he
        rw [hre] at hd'
        have hfs := hf _ (self_mem _) hh σ _ hd'
        simp only at hfs ⊢
        rw [hfs]; simp [walk]
      · exact absurd hd (after_direct q4)

/-- The decisions of a node for a bucket that occurs once come from the values at its path. -/
theorem dExec_decides : ∀ h : Nat, RecI X sh r (dExec X sh r h)
  | 0 => by intro n d σ a i h; cases h
  | hh + 1 => by
    intro n d σ a i h ht hfu hcl
    obtain ⟨st, es, ops, ls, af⟩ := n
    have ih := dExec_decides hh
    cases d with
    | lit ty s => exact opsThen_decides X sh r h (by exact id) (fun k p _ => rfl)
    | obj ws ms => exact dObj_decides X sh r ih h ht.1 hfu.1 hcl
    | arr ws xs => exact dArr_decides X sh r rfl ih h ht.1 hfu.1 hcl

end

end Verif.Transform
