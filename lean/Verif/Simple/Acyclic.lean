import Verif.Simple.Ends

/-!
# The tree has no cycles, so the output ends
-/

namespace Verif.Simple
open Verif.FastVal Verif.Expr
open Verif.Filter (andThen)

variable {E : Ext}

/-! ### Trees -/

/-- `j` is a child of the node. -/
def Node.kid (n : Node) (j : Nat) : Prop := n.left = .ofNat j ∨ n.right = .ofNat j

/-- The children are nodes; those of nodes from `b` on are nodes from `b` on; and some rank falls from node to child. -/
structure Wf (b : Nat) (t : List Node) : Prop where
  kids : ∀ i n, t[i]? = some n → ∀ j, n.kid j → j < t.length ∧ (b ≤ i → b ≤ j)
  rank : ∃ r : Nat → Nat, ∀ i n, t[i]? = some n → ∀ j, n.kid j → r j < r i

theorem Wf.nil : Wf 0 [] := ⟨by simp, fun _ => 0, by simp⟩

theorem getElem?_snoc {α : Type} (l : List α) (a x : α) (i : Nat) (h : (l ++ [a])[i]? = some x) : l[i]? = some x ∧ i < l.length ∨ i = l.length ∧ x = a := by
  rcases Nat.lt_trichotomy i l.length with hlt | rfl | hgt
  · rw [List.getElem?_append_left hlt] at h; exact .inl ⟨h, hlt⟩
  · rw [List.getElem?_append_right (Nat.le_refl _)] at h; simp at h; exact .inr ⟨rfl, h.symm⟩
  · rw [List.getElem?_eq_none (by simp; omega)] at h; cases h

/-- A new node, with at most a left child. -/
theorem Wf.snoc {b : Nat} {t : List Node} (h : Wf b t) (n : Node) (hr : n.right = -1) (hl : n.left = -1 ∨ ∃ j : Nat, n.left = .ofNat j ∧ b ≤ j ∧ j < t.length) :
    Wf b (t ++ [n]) := by
  have hk : ∀ j, n.kid j → n.left = .ofNat j ∧ b ≤ j ∧ j < t.length := by
    intro j hj
    rcases hj with hj | hj
    · rcases hl with hl | ⟨k, hk, h1, h2⟩
      · rw [hl] at hj; cases hj
      · rw [hk] at hj; injection hj with hj; subst hj; exact ⟨hk, h1, h2⟩
    · rw [hr] at hj; cases hj
  obtain ⟨r, hrank⟩ := h.rank
  refine ⟨fun i m hm j hj => ?_, fun i => if i = t.length then (match n.left with | .ofNat j => r j + 1 | _ => 0) else r i, fun i m hm j hj => ?_⟩
  · rcases getElem?_snoc _ _ _ _ hm with ⟨hm, hi⟩ | ⟨rfl, rfl⟩
    · obtain ⟨h1, h2⟩ := h.kids i m hm j hj
      exact ⟨by simp; omega, h2⟩
    · obtain ⟨h0, h1, h2⟩ := hk j hj
      exact ⟨by simp; omega, fun _ => h1⟩
  · rcases getElem?_snoc _ _ _ _ hm with ⟨hm, hi⟩ | ⟨rfl, rfl⟩
    · obtain ⟨h1, h2⟩ := h.kids i m hm j hj
      simp only [if_neg (Nat.ne_of_lt hi), if_neg (Nat.ne_of_lt h1)]
      exact hrank i m hm j hj
    · obtain ⟨h0, h1, h2⟩ := hk j hj
      simp only [if_neg (Nat.ne_of_lt h2), if_pos, h0]
      exact Nat.lt_succ_self _

theorem modifyAt_ok {l l' : List Node} {i : Int} {f : Node → Node} (h : modifyAt l i f = .ok l') :
    ∃ (n : Nat) (a : Node), i = .ofNat n ∧ l[n]? = some a ∧ l' = l.set n (f a) := by
  unfold modifyAt at h
  split at h
  · rename_i n
    split at h
    · rename_i a ha; injection h with h; exact ⟨n, a, rfl, ha, h.symm⟩
    · cases h
  · cases h

theorem getElem?_set_some {α : Type} (l : List α) (i k : Nat) (a x : α) (h : (l.set i a)[k]? = some x) : (k = i ∧ x = a) ∨ (k ≠ i ∧ l[k]? = some x) := by
  by_cases hk : i = k
  · subst hk
    by_cases hi : i < l.length
    · rw [List.getElem?_set_self hi] at h; injection h with h; exact .inl ⟨rfl, h.symm⟩
    · rw [List.getElem?_eq_none (by simp; omega)] at h; cases h
  · rw [List.getElem?_set_ne hk] at h; exact .inr ⟨fun h => hk h.symm, h⟩

/-- Changing the parent. -/
theorem Wf.parent {b : Nat} {t t' : List Node} {i p : Int} (h : Wf b t) (hm : modifyAt t i (fun n => { n with parent := p }) = .ok t') :
    Wf b t' ∧ t'.length = t.length := by
  obtain ⟨n, a, rfl, ha, rfl⟩ := modifyAt_ok hm
  obtain ⟨r, hr⟩ := h.rank
  have hback : ∀ (k : Nat) (m : Node), (t.set n { a with parent := p })[k]? = some m → ∃ m' : Node, t[k]? = some m' ∧ ∀ j, m.kid j → m'.kid j := by
    intro k m hm
    rcases getElem?_set_some _ _ _ _ _ hm with ⟨rfl, rfl⟩ | ⟨_, hm⟩
    · exact ⟨a, ha, fun j hj => hj⟩
    · exact ⟨m, hm, fun j hj => hj⟩
  refine ⟨⟨fun k m hm j hj => ?_, r, fun k m hm j hj => ?_⟩, by simp⟩
  · obtain ⟨m', h1, h2⟩ := hback k m hm
    rw [List.length_set]
    exact h.kids k m' h1 j (h2 j hj)
  · obtain ⟨m', h1, h2⟩ := hback k m hm
    exact hr k m' h1 j (h2 j hj)

/-- A new leaf as the right child of a node. -/
theorem Wf.leaf {b : Nat} {t t' : List Node} {i : Int} {n : Node} (h : Wf b t) (hl : n.left = -1) (hr : n.right = -1) (hi : i < t.length)
    (hm : modifyAt (t ++ [n]) i (fun n => { n with right := (t.length : Int) }) = .ok t') (hb : b ≤ t.length) :
    Wf b t' ∧ t'.length = t.length + 1 := by
  obtain ⟨k, a, rfl, ha, rfl⟩ := modifyAt_ok hm
  have hk : k < t.length := by simpa using hi
  rw [List.getElem?_append_left hk] at ha
  obtain ⟨r, hrank⟩ := h.rank
  have hback : ∀ i m, ((t ++ [n]).set k { a with right := (t.length : Int) })[i]? = some m → ∀ j, m.kid j →
      (j = t.length ∧ i = k) ∨ (i < t.length ∧ ∃ m', t[i]? = some m' ∧ m'.kid j) := by
    intro i m hm j hj
    rcases getElem?_set_some _ _ _ _ _ hm with ⟨rfl, rfl⟩ | ⟨_, hm⟩
    · rcases hj with hj | hj
      · exact .inr ⟨hk, a, ha, .inl hj⟩
      · simp only at hj
        have : (t.length : Int) = (j : Int) := hj
        exact .inl ⟨by omega, rfl⟩
    · rcases getElem?_snoc _ _ _ _ hm with ⟨hm, hi⟩ | ⟨rfl, rfl⟩
      · exact .inr ⟨hi, m, hm, hj⟩
      · rcases hj with hj | hj
        · rw [hl] at hj; cases hj
        · rw [hr] at hj; cases hj
  refine ⟨⟨fun i m hm j hj => ?_, fun i => if i = t.length then 0 else r i + 1, fun i m hm j hj => ?_⟩, by simp⟩
  · rcases hback i m hm j hj with ⟨rfl, rfl⟩ | ⟨hi, m', h1, h2⟩
    · exact ⟨by simp, fun _ => hb⟩
    · obtain ⟨k1, k2⟩ := h.kids i m' h1 j h2
      exact ⟨by simp; omega, k2⟩
  · rcases hback i m hm j hj with ⟨rfl, rfl⟩ | ⟨hi, m', h1, h2⟩
    · simp only [if_pos, if_neg (Nat.ne_of_lt hk)]; omega
    · obtain ⟨k1, k2⟩ := h.kids i m' h1 j h2
      simp only [if_neg (Nat.ne_of_lt hi), if_neg (Nat.ne_of_lt k1)]
      have := hrank i m' h1 j h2
      omega

/-- A tree above `b` becomes the right child of a node below `b`. -/
theorem Wf.join {b b0 : Nat} {t t' : List Node} {i : Int} {w : Nat} (h : Wf b t) (hb : b0 ≤ b) (h0 : ∀ i n, b0 ≤ i → i < b → t[i]? = some n → ∀ j, n.kid j → b0 ≤ j)
    (hi : i < b) (hw : b ≤ w) (hwl : w < t.length) (hm : modifyAt t i (fun n => { n with right := (w : Int) }) = .ok t') :
    Wf b0 t' ∧ t'.length = t.length := by
  obtain ⟨k, a, rfl, ha, rfl⟩ := modifyAt_ok hm
  have hk : k < b := by simpa using hi
  obtain ⟨r, hrank⟩ := h.rank
  have hback : ∀ i m, (t.set k { a with right := (w : Int) })[i]? = some m → ∀ j, m.kid j →
      (j = w ∧ i = k) ∨ (∃ m', t[i]? = some m' ∧ m'.kid j) := by
    intro i m hm j hj
    rcases getElem?_set_some _ _ _ _ _ hm with ⟨rfl, rfl⟩ | ⟨_, hm⟩
    · rcases hj with hj | hj
      · exact .inr ⟨a, ha, .inl hj⟩
      · simp only at hj
        have : (w : Int) = (j : Int) := hj
        exact .inl ⟨by omega, rfl⟩
    · exact .inr ⟨m, hm, hj⟩
  refine ⟨⟨fun i m hm j hj => ?_, fun i => if i < b then r i + r w + 1 else r i, fun i m hm j hj => ?_⟩, by simp⟩
  · rw [List.length_set]
    rcases hback i m hm j hj with ⟨rfl, rfl⟩ | ⟨m', h1, h2⟩
    · exact ⟨hwl, fun _ => by omega⟩
    · obtain ⟨k1, k2⟩ := h.kids i m' h1 j h2
      refine ⟨k1, fun hb0 => ?_⟩
      rcases Nat.lt_or_ge i b with hlt | hge
      · exact h0 i m' hb0 hlt h1 j h2
      · exact Nat.le_trans hb (k2 hge)
  · rcases hback i m hm j hj with ⟨rfl, rfl⟩ | ⟨m', h1, h2⟩
    · simp only [if_pos hk, if_neg (Nat.not_lt.2 hw)]; omega
    · obtain ⟨k1, k2⟩ := h.kids i m' h1 j h2
      have hlt := hrank i m' h1 j h2
      dsimp only
      by_cases hib : i < b
      · rw [if_pos hib]; split <;> omega
      · have := k2 (by omega)
        rw [if_neg hib, if_neg (by omega)]
        exact hlt

/-! ### The output of a tree -/

theorem andThen_ends {α β : Type} {x : Res (Option α)} {f : α → Res (Option β)} (hx : x ≠ .stuck) (hf : ∀ a, x = .ok (some a) → f a ≠ .stuck) : andThen x f ≠ .stuck := by
  unfold andThen
  refine bind_stuck hx fun o ho => ?_
  split
  · simp
  · rename_i a; exact hf a ho

theorem outArgs_ends (N : Env E) (rec : Nat → Res (Option (Expr E))) : ∀ as : List Arg, (∀ i, Arg.lvl i ∈ as → rec i ≠ .stuck) → outArgs N rec as ≠ .stuck := by
  intro as
  induction as with
  | nil => intro _; simp [outArgs]
  | cons a as ih =>
    intro h
    have hr := ih fun i hi => h i (by simp [hi])
    cases a with
    | str s =>
      rw [outArgs]
      split
      · simp
      · exact andThen_ends hr fun _ _ => by simp
    | lvl i =>
      rw [outArgs]
      refine andThen_ends (h i (by simp)) fun e _ => ?_
      split
      · exact andThen_ends hr fun _ _ => by simp
      · simp
    | fld ts =>
      rw [outArgs]
      exact andThen_ends hr fun _ _ => by simp

theorem outFunc_ends (N : Env E) (h : Helper) (hl : Levels h) : ∀ n l, h.args.length + 1 ≤ n + l → 1 ≤ n → outFunc N h n l ≠ .stuck := by
  intro n
  induction n with
  | zero => intro l _ h1; omega
  | succ n ih =>
    intro l hn _
    rw [outFunc]
    split
    · rename_i name as hrow
      have hlt := (List.getElem?_eq_some_iff.1 hrow).1
      split
      · simp
      · refine andThen_ends (outArgs_ends N _ as fun i hi => ?_) fun _ _ => by simp
        have := hl _ _ hrow i (by simp [hi])
        exact ih i (by omega) (by omega)
    · simp

theorem leftOf_kid {t : List Node} {p : Nat} {o : Option Nat} (h : leftOf t p = .ok o) : ∀ l, o = some l → ∃ n, t[p]? = some n ∧ n.kid l := by
  intro l hl
  unfold leftOf at h
  split at h
  · injection h with h; subst h; cases hl
  · rename_i n hn
    split at h
    · rename_i l' hl'
      split at h
      · injection h with h; subst h; injection hl with hl; subst hl; exact ⟨n, hn, .inl hl'⟩
      · injection h with h; subst h; cases hl
    · cases h

theorem rightOf_kid {t : List Node} {p r : Nat} (h : rightOf t p = some r) : ∃ n, t[p]? = some n ∧ n.kid r := by
  unfold rightOf at h
  split at h
  · cases h
  · rename_i n hn
    split at h
    · rename_i l r' hl hr
      split at h
      · injection h with h; subst h; exact ⟨n, hn, .inr hr⟩
      · cases h
    · cases h

theorem leftOf_ends (t : List Node) (p : Nat) : leftOf t p ≠ .stuck := by
  unfold leftOf
  repeat' split
  all_goals simp

theorem outOp_ends (t : List Node) (rec : Nat → Res (Option (Expr E))) (k : OpK) (p : Nat) (h : ∀ n, t[p]? = some n → ∀ j, n.kid j → rec j ≠ .stuck) :
    outOp t rec k p ≠ .stuck := by
  have h2 : ∀ f : Expr E → Expr E → Expr E, (leftOf t p >>= fun l =>
      match l, rightOf t p with
      | some l, some r => andThen (rec l) fun a => andThen (rec r) fun b => .ok (some (f a b))
      | _, _ => .ok none) ≠ .stuck := by
    intro f
    refine bind_stuck (leftOf_ends _ _) fun l hl => ?_
    split
    · rename_i hr
      obtain ⟨n, hn, hk⟩ := leftOf_kid hl _ rfl
      obtain ⟨n', hn', hk'⟩ := rightOf_kid hr
      exact andThen_ends (h n hn _ hk) fun a _ => andThen_ends (h n' hn' _ hk') fun b _ => by simp
    · simp
  have h1 : ∀ f : Expr E → Expr E, (leftOf t p >>= fun l => match l with
      | some l => andThen (rec l) fun a => .ok (some (f a))
      | none => .ok none) ≠ .stuck := by
    intro f
    refine bind_stuck (leftOf_ends _ _) fun l hl => ?_
    split
    · obtain ⟨n, hn, hk⟩ := leftOf_kid hl _ rfl
      exact andThen_ends (h n hn _ hk) fun a _ => by simp
    · simp
  have h3 : ∀ f : Expr E → Expr E → Expr E, (leftOf t p >>= fun l => match l with
      | some l => andThen (rec l) fun a => match rightOf t p with
        | some r => andThen (rec r) fun b => .ok (some (f a b))
        | none => .ok none
      | none => .ok none) ≠ .stuck := by
    intro f
    refine bind_stuck (leftOf_ends _ _) fun l hl => ?_
    split
    · obtain ⟨n, hn, hk⟩ := leftOf_kid hl _ rfl
      refine andThen_ends (h n hn _ hk) fun a _ => ?_
      split
      · rename_i r hr
        obtain ⟨n', hn', hk'⟩ := rightOf_kid hr
        exact andThen_ends (h n' hn' _ hk') fun b _ => by simp
      · simp
    · simp
  cases k <;> first | exact h2 _ | exact h1 _ | exact h3 _

theorem outNode_rank (N : Env E) (t : List Node) (r : Nat → Nat) (hr : ∀ i n, t[i]? = some n → ∀ j, n.kid j → r j < r i)
    (hl : ∀ n ∈ t, ∀ h, n.fn = some h → Levels h) : ∀ n p, r p < n → outNode N t n p ≠ .stuck := by
  intro n
  induction n with
  | zero => intro p h; omega
  | succ n ih =>
    intro p h
    rw [outNode]
    split
    · simp
    · rename_i node hn
      split
      · split
        · refine outOp_ends t _ _ p fun n' hn' j hj => ih j ?_
          have := hr p n' hn' j hj
          omega
        · simp
      · split <;> simp
      · simp
      · simp
      · simp
      · simp
      · simp
      · split
        · rename_i hh
          exact outFunc_ends N _ (hl node (List.mem_of_getElem? hn) _ hh) _ 0 (by omega) (by omega)
        · simp
      · simp
      · simp

/-- The rank can be taken below the number of nodes. -/
theorem Wf.small {b : Nat} {t : List Node} (h : Wf b t) :
    ∃ r : Nat → Nat, (∀ i n, t[i]? = some n → ∀ j, n.kid j → r j < r i) ∧ ∀ i, r i ≤ t.length := by
  obtain ⟨r, hr⟩ := h.rank
  refine ⟨fun i => ((List.range t.length).filter fun k => decide (r k < r i)).length, fun i n hn j hj => ?_, fun i => ?_⟩
  · have hj' := (h.kids i n hn j hj).1
    have hlt := hr i n hn j hj
    have hsub : ((List.range t.length).filter fun k => decide (r k < r j)).Sublist (((List.range t.length).filter fun k => decide (r k < r i)).filter fun k => decide (r k < r j)) := by
      rw [List.filter_filter]
      have : (fun k => decide (r k < r j) && decide (r k < r i)) = fun k => decide (r k < r j) := by
        funext k
        by_cases hk : r k < r j
        · simp [hk, Nat.lt_trans hk hlt]
        · simp [hk]
      rw [this]
      exact List.Sublist.refl _
    refine Nat.lt_of_le_of_lt hsub.length_le ?_
    refine List.length_filter_lt_length_iff_exists.2 ⟨j, ?_, by simp⟩
    simp [hj', hlt]
  · exact Nat.le_trans (List.length_filter_le _ _) (by simp)

theorem outExpr_ends (N : Env E) (c : Ctx) {b : Nat} (h : Wf b c.tree) (hl : ∀ n ∈ c.tree, ∀ h, n.fn = some h → Levels h) : outExpr N c ≠ .stuck := by
  obtain ⟨r, h1, h2⟩ := h.small
  unfold outExpr
  split
  · simp
  · split
    · simp
    · split
      · exact outNode_rank N c.tree r h1 hl _ _ (Nat.lt_succ_of_le (h2 _))
      · simp

/-! ### The parser builds such trees -/

/-- A node from `b` on, or none. -/
def At (b : Nat) (t : List Node) (i : Int) : Prop := i = -1 ∨ ∃ j : Nat, i = .ofNat j ∧ b ≤ j ∧ j < t.length

/-- The layer that began when there were `b` nodes: its nodes form a tree, and new nodes go there. -/
structure Inv (b : Nat) (c : Ctx) : Prop where
  le : b ≤ c.tree.length
  wf : Wf b c.tree
  sub : At b c.tree c.sub.lastSub
  op : At b c.tree c.sub.lastOp
  helper : ∀ h, c.sub.helper = some h → Levels h
  fns : ∀ n ∈ c.tree, ∀ h, n.fn = some h → Levels h

/-- The nodes before `b` are as they were. -/
def Old (b : Nat) (t t' : List Node) : Prop := t.length ≤ t'.length ∧ ∀ i < b, t'[i]? = t[i]?

theorem Old.refl (b : Nat) (t : List Node) : Old b t t := ⟨Nat.le_refl _, fun _ _ => rfl⟩
theorem Old.trans {b : Nat} {t u v : List Node} (h : Old b t u) (k : Old b u v) : Old b t v :=
  ⟨Nat.le_trans h.1 k.1, fun i hi => (k.2 i hi).trans (h.2 i hi)⟩
theorem Old.mono {b b' : Nat} {t u : List Node} (h : Old b' t u) (hb : b ≤ b') : Old b t u := ⟨h.1, fun i hi => h.2 i (by omega)⟩

theorem At.mono {b b' : Nat} {t t' : List Node} {i : Int} (h : At b' t i) (hb : b ≤ b') (hl : t.length ≤ t'.length) : At b t' i := by
  rcases h with h | ⟨j, h1, h2, h3⟩
  · exact .inl h
  · exact .inr ⟨j, h1, by omega, by omega⟩

theorem Inv.keep {b : Nat} {c c' : Ctx} (h : Inv b c) (k : Keep c c') : Inv b c' :=
  ⟨by rw [k.tree]; exact h.le, by rw [k.tree]; exact h.wf, by rw [k.tree, k.lastSub]; exact h.sub, by rw [k.tree, k.lastOp]; exact h.op,
    k.helper h.helper, by rw [k.tree]; exact h.fns⟩

theorem advance_keep (c : Ctx) : (advance c).1.tree = c.tree ∧ (advance c).1.sub.lastSub = c.sub.lastSub ∧ (advance c).1.sub.lastOp = c.sub.lastOp ∧
    ∀ h, (advance c).1.sub.helper = some h → c.sub.helper = some h := by
  unfold advance
  dsimp only
  repeat' split
  all_goals exact ⟨rfl, rfl, rfl, by simp⟩

theorem Inv.advance {b : Nat} {c : Ctx} (h : Inv b c) : Inv b (advance c).1 := by
  obtain ⟨h1, h2, h3, h4⟩ := advance_keep c
  exact ⟨by rw [h1]; exact h.le, by rw [h1]; exact h.wf, by rw [h1, h2]; exact h.sub, by rw [h1, h3]; exact h.op,
    fun x hx => h.helper x (h4 x hx), by rw [h1]; exact h.fns⟩

/-- Changing a node from `b` on without touching its call. -/
theorem modify_old {b : Nat} {t t' : List Node} {i : Int} {f : Node → Node} (hm : modifyAt t i f = .ok t') (hi : At b t i) (hf : ∀ n, (f n).fn = n.fn) :
    Old b t t' ∧ t'.length = t.length ∧ ((∀ n ∈ t, ∀ h, n.fn = some h → Levels h) → ∀ n ∈ t', ∀ h, n.fn = some h → Levels h) := by
  obtain ⟨k, a, rfl, ha, rfl⟩ := modifyAt_ok hm
  have hk : b ≤ k := by
    rcases hi with hi | ⟨j, h1, h2, _⟩
    · cases hi
    · injection h1 with h1; omega
  refine ⟨⟨by simp, fun i hi => List.getElem?_set_ne (by omega)⟩, by simp, fun hl n hn h hh => ?_⟩
  rcases List.mem_or_eq_of_mem_set hn with hn | rfl
  · exact hl n hn h hh
  · rw [hf] at hh
    exact hl a (List.mem_of_getElem? ha) h hh

theorem snoc_old {b : Nat} {t : List Node} (n : Node) (hb : b ≤ t.length) : Old b t (t ++ [n]) :=
  ⟨by simp, fun i hi => List.getElem?_append_left (by omega)⟩

theorem insert_inv {b : Nat} {c c' : Ctx} {tok : Str} {ty : TT} (h : Inv b c) (hi : insert c tok ty = .ok c') : Inv b c' ∧ Old b c.tree c'.tree := by
  have hlast : ∀ t' : List Node, t'.length = c.tree.length + 1 → At b t' (c.tree.length : Int) := fun t' ht =>
    .inr ⟨c.tree.length, rfl, h.le, by omega⟩
  have hfn : ∀ n : Node, (n.fn = none ∨ n.fn = c.sub.helper) → ∀ m ∈ c.tree ++ [n], ∀ x, m.fn = some x → Levels x := by
    intro n hn m hm x hx
    rcases List.mem_append.1 hm with hm | hm
    · exact h.fns m hm x hx
    · simp only [List.mem_singleton] at hm
      subst hm
      rcases hn with hn | hn
      · rw [hn] at hx; cases hx
      · exact h.helper x (by rw [← hn]; exact hx)
  unfold insert at hi
  dsimp only at hi
  have hop : ∀ c' : Ctx, (modifyAt (c.tree ++ [⟨ty, tok, -1, c.sub.lastSub, -1, none, none⟩]) c.sub.lastSub (fun n => { n with parent := (c.tree.length : Int) }) >>= fun tree =>
      Res.ok { c with tree := tree, head := if c.head = -1 then (c.tree.length : Int) else c.head, sub := { c.sub with lastOp := (c.tree.length : Int), lastSub := (c.tree.length : Int) } }) = .ok c' →
      Inv b c' ∧ Old b c.tree c'.tree := by
    intro c' hi
    obtain ⟨t, ht, hi⟩ := Res.bind_eq_ok.1 hi
    injection hi with hi; subst hi
    obtain ⟨h1, h2⟩ := (h.wf.snoc ⟨ty, tok, -1, c.sub.lastSub, -1, none, none⟩ rfl h.sub).parent ht
    have hlen : t.length = c.tree.length + 1 := by simpa using h2
    obtain ⟨h3, _, h5⟩ := modify_old ht (h.sub.mono (Nat.le_refl _) (by simp)) (fun _ => rfl)
    exact ⟨⟨by have := h.le; dsimp only; omega, h1, hlast t hlen, hlast t hlen, h.helper, h5 (hfn _ (.inl rfl))⟩, (snoc_old _ h.le).trans h3⟩
  split at hi
  · injection hi with hi; subst hi
    refine ⟨⟨by have := h.le; simp; omega, h.wf.snoc _ rfl (.inl rfl), hlast _ (by simp), ?_, h.helper, hfn _ (.inr rfl)⟩, snoc_old _ h.le⟩
    exact h.op.mono (Nat.le_refl _) (by simp)
  · exact hop c' hi
  · exact hop c' hi
  · obtain ⟨t, ht, hi⟩ := Res.bind_eq_ok.1 hi
    injection hi with hi; subst hi
    have hlt : c.sub.lastOp < c.tree.length := by
      rcases h.op with h | ⟨j, h1, _, h3⟩
      · rw [h]; omega
      · rw [h1]; exact Int.ofNat_lt.2 h3
    obtain ⟨h1, hlen⟩ := h.wf.leaf (n := ⟨ty, tok, c.sub.lastOp, -1, -1, none, c.sub.helper⟩) rfl rfl hlt ht h.le
    obtain ⟨h3, _, h5⟩ := modify_old ht (h.op.mono (Nat.le_refl _) (by simp)) (fun _ => rfl)
    have hop := h.op.mono (Nat.le_refl b) (t' := t) (by omega)
    exact ⟨⟨by have := h.le; dsimp only; omega, h1, hop, hop, h.helper, h5 (hfn _ (.inr rfl))⟩, (snoc_old _ h.le).trans h3⟩

theorem nodeAt_ok {t : List Node} {i : Int} {n : Node} (h : nodeAt t i = .ok n) : ∃ k : Nat, i = .ofNat k ∧ t[k]? = some n := by
  unfold nodeAt at h
  split at h
  · rename_i k
    unfold Res.idx at h
    split at h
    · rename_i a ha; injection h with h; subst h; exact ⟨k, rfl, ha⟩
    · cases h
  · cases h

/-- Seen from the layer outside, a layer is a tree too. -/
theorem Inv.outer {b b' : Nat} {t0 : List Node} {c : Ctx} (h : Inv b' c) (h0 : Wf b t0) (hb : b ≤ b') (ho : Old b' t0 c.tree) : Inv b c := by
  refine ⟨Nat.le_trans hb h.le, ⟨fun i n hn j hj => ⟨(h.wf.kids i n hn j hj).1, fun hi => ?_⟩, h.wf.rank⟩, h.sub.mono hb (Nat.le_refl _),
    h.op.mono hb (Nat.le_refl _), h.helper, h.fns⟩
  rcases Nat.lt_or_ge i b' with hlt | hge
  · rw [ho.2 i hlt] at hn
    exact (h0.kids i n hn j hj).2 hi
  · exact Nat.le_trans hb ((h.wf.kids i n hn j hj).2 hge)

theorem merge_inv {b b' : Nat} {c0 c m : Ctx} (h0 : Inv b c0) (hb : b' = c0.tree.length) (h : Inv b' c) (ho : Old b' c0.tree c.tree)
    (hm : merge c c0.sub = .ok (m, none)) : Inv b m ∧ Old b c0.tree m.tree := by
  have hbb : b ≤ b' := hb ▸ h0.le
  have hout := h.outer h0.wf hbb ho
  unfold merge at hm
  split at hm
  · injection hm with hm; injection hm with hm _; subst hm; exact ⟨hout, ho.mono hbb⟩
  · split at hm
    · injection hm with hm; injection hm with hm _; subst hm; exact ⟨hout, ho.mono hbb⟩
    · split at hm
      · injection hm with hm; injection hm with _ hm; cases hm
      · split at hm
        · injection hm with hm; injection hm with _ hm; cases hm
        · obtain ⟨o, _, hm⟩ := Res.bind_eq_ok.1 hm
          obtain ⟨w, hw, hm⟩ := Res.bind_eq_ok.1 hm
          split at hm
          · injection hm with hm; injection hm with _ hm; cases hm
          · obtain ⟨t1, ht1, hm⟩ := Res.bind_eq_ok.1 hm
            obtain ⟨_, _, hm⟩ := Res.bind_eq_ok.1 hm
            split at hm
            · injection hm with hm; injection hm with _ hm; cases hm
            · obtain ⟨t2, ht2, hm⟩ := Res.bind_eq_ok.1 hm
              obtain ⟨_, _, hm⟩ := Res.bind_eq_ok.1 hm
              injection hm with hm; injection hm with hm _; subst hm
              obtain ⟨k, hk, _⟩ := nodeAt_ok hw
              have hk' : b' ≤ k ∧ k < c.tree.length := by
                rcases h.op with h' | ⟨j, h1, h2, h3⟩
                · rw [h'] at hk; cases hk
                · rw [h1] at hk; injection hk with hk; subst hk; exact ⟨h2, h3⟩
              have hi : c0.sub.lastOp < b' := by
                rcases h0.op with h' | ⟨j, h1, _, h3⟩
                · rw [h']; omega
                · rw [h1, hb]; exact Int.ofNat_lt.2 h3
              rw [hk] at ht1 ht2
              obtain ⟨w1, l1⟩ := h.wf.join hbb (fun i n h1 h2 hn j hj => (hout.wf.kids i n hn j hj).2 h1) hi hk'.1 hk'.2 ht1
              obtain ⟨w2, l2⟩ := w1.parent ht2
              have hat : At b c.tree c0.sub.lastOp := h0.op.mono (Nat.le_refl _) ho.1
              obtain ⟨o1, _, f1⟩ := modify_old ht1 hat (fun _ => rfl)
              obtain ⟨o2, _, f2⟩ := modify_old (b := b) ht2 (.inr ⟨k, rfl, by omega, by omega⟩) (fun _ => rfl)
              have hl : c0.tree.length ≤ t2.length := by have := ho.1; omega
              exact ⟨⟨by have := hout.le; dsimp only; omega, w2, h0.sub.mono (Nat.le_refl _) hl, h0.op.mono (Nat.le_refl _) hl, h0.helper, f2 (f1 h.fns)⟩,
                ((ho.mono hbb).trans o1).trans o2⟩

theorem merge_errs (c : Ctx) (old : Sub) (m : Ctx) (e : Err) (he : e = .noMore ∨ e = .layerDone) : merge c old ≠ .ok (m, some e) := by
  intro hm
  have key : ∀ {a : Ctx}, Res.ok (a, some Err.other) ≠ .ok (m, some e) := by
    intro a h; injection h with h; injection h with _ h; injection h with h; subst h; simp at he
  have key' : ∀ {a : Ctx}, Res.ok (a, (none : Option Err)) ≠ .ok (m, some e) := by
    intro a h; injection h with h; injection h with _ h; cases h
  unfold merge at hm
  split at hm
  · exact key' hm
  · split at hm
    · exact key' hm
    · split at hm
      · exact key hm
      · split at hm
        · exact key hm
        · obtain ⟨o, _, hm⟩ := Res.bind_eq_ok.1 hm
          obtain ⟨w, hw, hm⟩ := Res.bind_eq_ok.1 hm
          split at hm
          · exact key hm
          · obtain ⟨t1, ht1, hm⟩ := Res.bind_eq_ok.1 hm
            obtain ⟨_, _, hm⟩ := Res.bind_eq_ok.1 hm
            split at hm
            · exact key hm
            · obtain ⟨t2, ht2, hm⟩ := Res.bind_eq_ok.1 hm
              obtain ⟨_, _, hm⟩ := Res.bind_eq_ok.1 hm
              exact key' hm

theorem parse_inv (N : Env E) : ∀ n b c c' e, parse N n c = .ok (c', e) → Leaves e → Inv b c → Inv b c' ∧ Old b c.tree c'.tree := by
  intro n
  induction n with
  | zero => intro b c c' e h; cases h
  | succ n ih =>
    intro b c c' e h he hinv
    have hadv : ∀ c1, Inv b c1 → Old b c.tree c1.tree → resume (parse N n) (advance c1) = .ok (c', e) → Inv b c' ∧ Old b c.tree c'.tree := by
      intro c1 h1 o1 h
      have h2 := h1.advance
      have o2 : Old b c.tree (advance c1).1.tree := by rw [(advance_keep c1).1]; exact o1
      unfold resume at h
      split at h
      · obtain ⟨h3, o3⟩ := ih b _ _ _ h he h2
        exact ⟨h3, o2.trans o3⟩
      · injection h with h
        have hf := finish_same (advance c1).1 (by assumption)
        rw [h] at hf
        simp only at hf
        rw [hf]
        exact ⟨h2, o2⟩
    rw [parse] at h
    obtain ⟨r, hr, h⟩ := Res.bind_eq_ok.1 h
    have hread := getTok_read N n c r.1 r.2 hr
    have h1 : Inv b r.1 := hinv.keep hread.keep
    split at h
    · rename_i e' hx
      injection h with h
      have hf := finish_same r.1 e'
      rw [h] at hf
      simp only at hf
      rw [hf]
      exact ⟨h1, by rw [hread.keep.tree]; exact Old.refl _ _⟩
    · rename_i tok ty hx
      have hsub := (check_same r.1 ty).2
      have htree : (check r.1 ty).1.tree = r.1.tree := by
        unfold check
        repeat' split
        all_goals rfl
      have h2 : Inv b (check r.1 ty).1 := h1.keep (Keep.of htree hsub)
      have o2 : Old b c.tree (check r.1 ty).1.tree := by rw [htree, hread.keep.tree]; exact Old.refl _ _
      split at h
      · obtain ⟨c2, hi, h⟩ := Res.bind_eq_ok.1 h
        obtain ⟨h3, o3⟩ := insert_inv h2 hi
        exact hadv c2 h3 (o2.trans o3) h
      · rename_i e' hc
        split at h
        · obtain ⟨r', hr', h⟩ := Res.bind_eq_ok.1 h
          have hnew : Inv (check r.1 ty).1.tree.length { (check r.1 ty).1 with sub := newSub (e' = .oneNew) } :=
            ⟨Nat.le_refl _, ⟨fun i n hn j hj => ⟨(h2.wf.kids i n hn j hj).1, fun hi => by
                rw [List.getElem?_eq_none hi] at hn; cases hn⟩, h2.wf.rank⟩, .inl rfl, .inl rfl, fun h hh => (by cases hh), h2.fns⟩
          have hlow : Leaves r'.2 → back (parse N n) r'.1 (check r.1 ty).1.sub = .ok (c', e) → Inv b c' ∧ Old b c.tree c'.tree := by
            intro hk h
            obtain ⟨h3, o3⟩ := ih _ _ _ _ (show parse N n _ = .ok (r'.1, r'.2) from hr') hk hnew
            unfold back at h
            obtain ⟨m, hm, h⟩ := Res.bind_eq_ok.1 h
            split at h
            · rename_i e2 h2
              injection h with h
              have h6 := congrArg Prod.snd h
              simp only at h6
              have := finish_leaves (by rw [h6]; exact he)
              exact absurd (show merge r'.1 (check r.1 ty).1.sub = .ok (m.1, some e2) by rw [hm, ← h2]) (merge_errs _ _ _ _ this)
            · rename_i hn
              obtain ⟨h4, o4⟩ := merge_inv h2 rfl h3 o3 (show merge _ _ = .ok (m.1, none) by rw [hm, ← hn])
              exact hadv m.1 h4 (o2.trans o4) h
          split at h
          · rename_i e2 h2
            split at h
            · rename_i h3
              exact hlow (.inr (by rw [h2, h3])) h
            · injection h with h
              have h6 := congrArg Prod.snd h
              simp only at h6
              rcases finish_leaves (by rw [h6]; exact he) with rfl | rfl
              · exact absurd (by rw [hr', ← h2]) (parse_ne N n _ r'.1)
              · rename_i h3; exact absurd rfl h3
          · rename_i h2
            exact hlow (.inl h2) h
        · injection h with h
          have hf := finish_same (check r.1 ty).1 e'
          rw [h] at hf
          simp only at hf
          rw [hf]
          exact ⟨h2, o2⟩

theorem newCtx_inv (ts : List Str) : Inv 0 (newCtx ts) :=
  ⟨Nat.le_refl _, Wf.nil, .inl rfl, .inl rfl, fun h hh => (by cases hh), fun n hn => (by cases hn)⟩

/-- Once the tokens are read, `outputExpression` ends too. -/
theorem parseTokens_ends (N : Env E) (ts : List Str) (n : Nat) (h : parse N n (newCtx ts) ≠ .stuck) : parseTokens N n ts ≠ .stuck := by
  unfold parseTokens
  refine bind_stuck h fun r hr => ?_
  split
  · simp
  · rename_i h2
    have h3 := (parse_inv N n 0 (newCtx ts) r.1 r.2 hr (.inl h2) (newCtx_inv ts)).1
    exact outExpr_ends N r.1 h3.wf h3.fns

/-- The parser hangs only while it reads tokens. -/
theorem hangs_iff (N : Env E) (text : Str) : Hangs N text ↔ ∀ n, parse N n (newCtx (fieldsFrom [] text)) = .stuck := by
  refine ⟨fun h n => ?_, fun h n => ?_⟩
  · by_cases hp : parse N n (newCtx (fieldsFrom [] text)) = .stuck
    · exact hp
    · exact absurd (h n) (parseTokens_ends N _ n hp)
  · show parseTokens N n _ = .stuck
    unfold parseTokens
    rw [h n]
    rfl

end Verif.Simple
