import Verif.Match.Halts
import Verif.Transform.Compiles

/-!
# Match ends

For every compiled list of expressions, every matcher (fresh, used, or left behind by an error) and every sequence of bytes, `Match`
comes to an end.
-/

namespace Verif.BinTree

/-- Positions of parents and children in a laid-out tree. -/
theorem Shaped.tame_at {t : Tree} : ∀ {s : Sh} {b par : Nat}, Shaped t s b par → ∀ (i : Nat) (n : Node), b ≤ i → i < b + s.size → t[i]? = some n →
    (i ≠ b → n.parent < i) ∧ (n.ty.hasLeft = true → i < n.left ∧ n.left < b + s.size) ∧
      (n.ty.hasRight = true → i < n.right ∧ n.right < b + s.size)
  | .leaf, b, par, h, i, n, h1, h2, hn => by
    simp only [Sh.size] at h2
    obtain rfl : i = b := by omega
    rw [Shaped, hn] at h
    cases h
    exact ⟨fun h => absurd rfl h, by simp, by simp⟩
  | .un o a, b, par, h, i, n, h1, h2, hn => by
    rw [Shaped] at h
    simp only [Sh.size] at h2 ⊢
    have hp := Sh.size_pos a
    by_cases hi : i = b
    · subst hi
      rw [hn] at h
      cases h.1
      exact ⟨fun h => absurd rfl h, fun _ => ⟨by simp, by simp only; omega⟩, by simp⟩
    · have ih := Shaped.tame_at h.2 i n (by omega) (by omega) hn
      refine ⟨fun _ => ?_, fun hl => ⟨(ih.2.1 hl).1, by have := (ih.2.1 hl).2; omega⟩, fun hl => ⟨(ih.2.2 hl).1, by have := (ih.2.2 hl).2; omega⟩⟩
      by_cases hj : i = b + 1
      · obtain ⟨n', hn', hpar⟩ := h.2.head
        rw [hj, hn'] at hn
        cases hn
        omega
      · exact ih.1 hj
  | .bin o a c, b, par, h, i, n, h1, h2, hn => by
    rw [Shaped] at h
    simp only [Sh.size] at h2 ⊢
    have hp := Sh.size_pos a
    have hq := Sh.size_pos c
    by_cases hi : i = b
    · subst hi
      rw [hn] at h
      cases h.1
      exact ⟨fun h => absurd rfl h, fun _ => ⟨by simp, by simp only; omega⟩, fun _ => ⟨by simp only; omega, by simp only; omega⟩⟩
    · by_cases hlt : i < b + 1 + a.size
      · have ih := Shaped.tame_at h.2.1 i n (by omega) hlt hn
        refine ⟨fun _ => ?_, fun hl => ⟨(ih.2.1 hl).1, by have := (ih.2.1 hl).2; omega⟩, fun hl => ⟨(ih.2.2 hl).1, by have := (ih.2.2 hl).2; omega⟩⟩
        by_cases hj : i = b + 1
        · obtain ⟨n', hn', hpar⟩ := h.2.1.head
          rw [hj, hn'] at hn
          cases hn
          omega
        · exact ih.1 hj
      · have ih := Shaped.tame_at h.2.2 i n (by omega) (by omega) hn
        refine ⟨fun _ => ?_, fun hl => ⟨(ih.2.1 hl).1, by have := (ih.2.1 hl).2; omega⟩, fun hl => ⟨(ih.2.2 hl).1, by have := (ih.2.2 hl).2; omega⟩⟩
        by_cases hj : i = b + 1 + a.size
        · obtain ⟨n', hn', hpar⟩ := h.2.2.head
          rw [hj, hn'] at hn
          cases hn
          omega
        · exact ih.1 hj

theorem Shaped.tame {t : Tree} {s : Sh} {par : Nat} (h : Shaped t s 0 par) (hlen : t.length = s.size) : Tame t where
  ne := by rw [hlen]; exact Sh.size_pos s
  up := fun i n hn hi => (h.tame_at i n (Nat.zero_le _) (by have := lt_of_some hn; omega) hn).1 hi
  left := fun i n hn hl => by
    have := (h.tame_at i n (Nat.zero_le _) (by have := lt_of_some hn; omega) hn).2.1 hl
    omega
  right := fun i n hn hl => by
    have := (h.tame_at i n (Nat.zero_le _) (by have := lt_of_some hn; omega) hn).2.2 hl
    omega

end Verif.BinTree

namespace Verif.Transform
open Verif.FastVal Verif.Match Verif.Expr

variable {E : Ext}

mutual
  /-- Where a condition is expected there is one: a constant, a comparison, a test for existence, a loop, or a combination. -/
  def Genuine : Expr E → Prop
    | .tru => True
    | .fals => True
    | .cmp _ _ _ => True
    | .exist _ => True
    | .notExist _ => True
    | .not e => Genuine e
    | .and es => GenuineAll es
    | .or es => GenuineAll es
    | .loop _ _ _ s => Genuine s
    | _ => False
  def GenuineAll : Exprs E → Prop
    | .nil => True
    | .cons e r => Genuine e ∧ GenuineAll r
end

mutual
  /-- The body of a loop that is inside of another loop is a condition.  Nothing is asked of other expressions. -/
  def Bodied (inside : Bool) : Expr E → Prop
    | .not e => Bodied inside e
    | .and es => BodiedAll inside es
    | .or es => BodiedAll inside es
    | .loop _ _ _ s => (inside = true → Genuine s) ∧ Bodied true s
    | _ => True
  def BodiedAll (inside : Bool) : Exprs E → Prop
    | .nil => True
    | .cons e r => Bodied inside e ∧ BodiedAll inside r
end

mutual
  theorem Genuine.bodied (b : Bool) : ∀ e : Expr E, Genuine e → Bodied b e
    | .not e, h => by rw [Genuine] at h; rw [Bodied]; exact Genuine.bodied b e h
    | .and es, h => by rw [Genuine] at h; rw [Bodied]; exact GenuineAll.bodied b es h
    | .or es, h => by rw [Genuine] at h; rw [Bodied]; exact GenuineAll.bodied b es h
    | .loop _ _ _ s, h => by rw [Genuine] at h; rw [Bodied]; exact ⟨fun _ => h, Genuine.bodied true s h⟩
    | .tru, _ | .fals, _ | .value _, _ | .time _, _ | .regex _, _ | .pcre _, _ | .field _, _ | .func _ _, _ | .exist _, _ | .notExist _, _
    | .cmp _ _ _, _ => by simp [Bodied]
  theorem GenuineAll.bodied (b : Bool) : ∀ es : Exprs E, GenuineAll es → BodiedAll b es
    | .nil, _ => trivial
    | .cons e r, h => by rw [GenuineAll] at h; rw [BodiedAll]; exact ⟨Genuine.bodied b e h.1, GenuineAll.bodied b r h.2⟩
end

mutual
  theorem LoopFree.bodied (b : Bool) : ∀ e : Expr E, LoopFree e → Bodied b e
    | .not e, h => by rw [LoopFree] at h; rw [Bodied]; exact LoopFree.bodied b e h
    | .and es, h => by rw [LoopFree] at h; rw [Bodied]; exact LoopFrees.bodied b es h
    | .or es, h => by rw [LoopFree] at h; rw [Bodied]; exact LoopFrees.bodied b es h
    | .loop _ _ _ s, h => by simp [LoopFree] at h
    | .tru, _ | .fals, _ | .value _, _ | .time _, _ | .regex _, _ | .pcre _, _ | .field _, _ | .func _ _, _ | .exist _, _ | .notExist _, _
    | .cmp _ _ _, _ => by simp [Bodied]
  theorem LoopFrees.bodied (b : Bool) : ∀ es : Exprs E, LoopFrees es → BodiedAll b es
    | .nil, _ => trivial
    | .cons e r, h => by rw [LoopFrees] at h; rw [BodiedAll]; exact ⟨LoopFree.bodied b e h.1, LoopFrees.bodied b r h.2⟩
end

mutual
  /-- What a condition that compiles refers to is visible. -/
  theorem occs_visible {C : Comp E} {w : Option Int} : ∀ (e : Expr E), Genuine e → Compiles C w e → ∀ f ∈ occs e, Visible w f
    | .tru, _, _ | .fals, _, _ => by simp [occs]
    | .cmp _ l r, _, h => by
      rw [Compiles] at h
      rw [occs]
      exact fun f hf => (List.mem_append.1 hf).elim ((okParam_occs l h.1).2 f) ((okParam_occs r h.2.1).2 f)
    | .exist e, _, h => by rw [Compiles] at h; rw [occs]; exact (okParam_occs e h.1).2
    | .notExist e, _, h => by rw [Compiles] at h; rw [occs]; exact (okParam_occs e h.1).2
    | .not e, hg, h => by rw [Compiles] at h; rw [Genuine] at hg; rw [occs]; exact occs_visible e hg h
    | .and es, hg, h => by rw [Compiles] at h; rw [Genuine] at hg; rw [occs]; exact occsAll_visible es hg h
    | .or es, hg, h => by rw [Compiles] at h; rw [Genuine] at hg; rw [occs]; exact occsAll_visible es hg h
    | .loop _ v i s, _, h => by rw [Compiles] at h; rw [occs]; exact h.2.1
    | .value _, h, _ | .time _, h, _ | .regex _, h, _ | .pcre _, h, _ | .field _, h, _ | .func _ _, h, _ => by simp [Genuine] at h
  theorem occsAll_visible {C : Comp E} {w : Option Int} : ∀ (es : Exprs E), GenuineAll es → CompilesAll C w es → ∀ f ∈ occsAll es, Visible w f
    | .nil, _, h => by simp [CompilesAll] at h
    | .cons e .nil, hg, h => by
      rw [CompilesAll] at h; rw [GenuineAll] at hg
      simpa [occsAll] using occs_visible e hg.1 h
    | .cons e (.cons e' r), hg, h => by
      rw [CompilesAll] at h; rw [GenuineAll] at hg
      rw [occsAll]
      exact fun f hf => (List.mem_append.1 hf).elim (occs_visible e hg.1 h.1 f) (occsAll_visible (.cons e' r) hg.2 h.2 f)
end

/-- A loop in a loop does not have to wait for several fields. -/
theorem nested_same {C : Comp E} {u v : Int} {m : Mode} {i s : Expr E} (hg : Genuine s) (hc : Compiles C (some v) s)
    (hi : OkArray (some u) (ownPaths (some u) (occs (.loop m v i s))) i) : ¬ Differ (ownPaths (some u) (occs (.loop m v i s))) := by
  have hs := occs_visible s hg hc
  cases i with
  | field f =>
    have key : ∀ p ∈ ownPaths (some u) (occs (.loop m v (.field f) s)), p = f.path := by
      intro p hp
      obtain ⟨g, hgm, rfl⟩ := List.mem_map.1 hp
      obtain ⟨h1, h2⟩ := List.mem_filter.1 hgm
      have h2 : g.root ≠ 0 ∧ g.root = u := of_decide_eq_true h2
      rw [occs, occs] at h1
      rcases List.mem_append.1 h1 with h1 | h1
      · rw [List.mem_singleton.1 h1]
      · obtain ⟨h3, h4⟩ := List.mem_filter.1 h1
        have h4 : g.root ≠ v := of_decide_eq_true h4
        rcases hs g h3 with h5 | h5
        · exact absurd h5 h2.1
        · exact absurd (Option.some.inj h5).symm h4
    rintro ⟨p, hp, q, hq, hpq⟩
    exact hpq ((key p hp).trans (key q hq).symm)
  | _ => exact hi.elim

/-! ### Updates keep nodes neat -/

/-- The change keeps nodes neat. -/
def Keeps (f : Exec E → Exec E) : Prop := ∀ top (e : Exec E), e.Neat top → (f e).Neat top

theorem neat_empty (top : Bool) : (emptyExec : Exec E).Neat top := by simp [emptyExec, Exec.Neat, Elems.Neat, Loops.Neat, After.Neat]

theorem alterElems_neat {top : Bool} {f : Exec E → Exec E} (hf : ∀ e, e.Neat top → (f e).Neat top) (k : List Nat) : ∀ es : Elems E, es.Neat top →
    (alterElems k f es).Neat top
  | .nil, _ => by rw [alterElems, Elems.Neat]; exact ⟨hf _ (neat_empty top), trivial⟩
  | .cons k' e r, h => by
    rw [Elems.Neat] at h
    rw [alterElems]
    split
    · rw [Elems.Neat]; exact ⟨hf e h.1, h.2⟩
    · rw [Elems.Neat]; exact ⟨h.1, alterElems_neat hf k r h.2⟩

theorem alterLoops_neat {f : Exec E → Exec E} (hf : ∀ e, e.Neat false → (f e).Neat false) (b : Nat) : ∀ ls : Loops E, ls.Neat → (alterLoops b f ls).Neat
  | .nil, _ => trivial
  | .cons b' m t e r, h => by
    rw [Loops.Neat] at h
    rw [alterLoops]
    split
    · rw [Loops.Neat]; exact ⟨h.1, hf e h.2.1, h.2.2⟩
    · rw [Loops.Neat]; exact ⟨h.1, h.2.1, alterLoops_neat hf b r h.2.2⟩

theorem update_neat {f : Exec E → Exec E} (hf : Keeps f) : ∀ a : Addr, Keeps (update a f)
  | [] => hf
  | .key k :: p => by
    intro top e h
    obtain ⟨st, es, ops, ls, af⟩ := e
    rw [Exec.Neat] at h
    rw [update, Exec.Neat]
    exact ⟨alterElems_neat (update_neat hf p top) k es h.1, h.2⟩
  | .loop b :: p => by
    intro top e h
    obtain ⟨st, es, ops, ls, af⟩ := e
    rw [Exec.Neat] at h
    rw [update, Exec.Neat]
    refine ⟨h.1, alterLoops_neat (update_neat hf p false) b ls h.2.1, ?_⟩
    cases af with
    | none => exact h.2.2
    | some aops als =>
      rw [After.Neat] at h
      rw [alterAfter, After.Neat]
      exact ⟨alterLoops_neat (update_neat hf p false) b als h.2.2.1, fun e => by rw [h.2.2.2 e]; rfl⟩

theorem update_keys_neat {f : Exec E → Exec E} (hf : ∀ e, e.Neat true → (f e).Neat true) : ∀ (ks : List (List Nat)) (e : Exec E), e.Neat true →
    (update (ks.map Step.key) f e).Neat true
  | [], e, h => hf e h
  | k :: ks, e, h => by
    obtain ⟨st, es, ops, ls, af⟩ := e
    rw [Exec.Neat] at h
    rw [List.map_cons, update, Exec.Neat]
    exact ⟨alterElems_neat (update_keys_neat hf ks) k es h.1, h.2⟩

theorem keeps_id : Keeps (id : Exec E → Exec E) := fun _ _ h => h

theorem keeps_setStore (s : Nat) : Keeps (setStore s : Exec E → Exec E) := by
  rintro top ⟨st, es, ops, ls, af⟩ h
  rw [Exec.Neat] at h; rw [setStore, Exec.Neat]; exact h

theorem keeps_addOp (op : Op E) : Keeps (addOp op) := by
  rintro top ⟨st, es, ops, ls, af⟩ h
  rw [Exec.Neat] at h; rw [addOp, Exec.Neat]; exact h

theorem keeps_ensureAfter : Keeps (ensureAfter : Exec E → Exec E) := by
  rintro top ⟨st, es, ops, ls, af⟩ h
  cases af with
  | none =>
    rw [Exec.Neat] at h
    rw [ensureAfter, Exec.Neat]
    exact ⟨h.1, h.2.1, trivial, fun _ => rfl⟩
  | some aops als => exact h

theorem keeps_addAfterOp (op : Op E) : Keeps (addAfterOp op) := by
  rintro top ⟨st, es, ops, ls, af⟩ h
  cases af with
  | none => exact h
  | some aops als =>
    rw [Exec.Neat] at h
    rw [addAfterOp, Exec.Neat]
    exact h

theorem snoc_neat {b : Nat} (hb : b ≠ 0) {m : Mode} {t : Option (Ref E)} {e : Exec E} (he : e.Neat false) : ∀ ls : Loops E, ls.Neat →
    (Loops.snoc ls b m t e).Neat
  | .nil, _ => by rw [Loops.snoc, Loops.Neat]; exact ⟨hb, he, trivial⟩
  | .cons b' m' t' e' r, h => by
    rw [Loops.Neat] at h
    rw [Loops.snoc, Loops.Neat]
    exact ⟨h.1, h.2.1, snoc_neat hb he r h.2.2⟩

theorem keeps_addLoop {b : Nat} (hb : b ≠ 0) (m : Mode) (t : Option (Ref E)) : Keeps (addLoop b m t emptyExec) := by
  rintro top ⟨st, es, ops, ls, af⟩ h
  rw [Exec.Neat] at h
  rw [addLoop, Exec.Neat]
  exact ⟨h.1, snoc_neat hb (neat_empty false) ls h.2.1, h.2.2⟩

theorem addAfterLoop_neat {b : Nat} (hb : b ≠ 0) (m : Mode) (t : Option (Ref E)) (e : Exec E) (h : e.Neat true) :
    (addAfterLoop b m t emptyExec e).Neat true := by
  obtain ⟨st, es, ops, ls, af⟩ := e
  cases af with
  | none => exact h
  | some aops als =>
    rw [Exec.Neat, After.Neat] at h
    rw [addAfterLoop, Exec.Neat, After.Neat]
    exact ⟨h.1, h.2.1, snoc_neat hb (neat_empty false) als h.2.2.1, fun e => (by cases e)⟩

/-! ### The transformer keeps nodes neat -/

theorem pickBase_neat {t : T E} {e : Expr E} {b : T E × NRef} (ht : t.root.Neat true) (h : pickBase t e = .ok b) : b.1.root.Neat true := by
  simp only [pickBase] at h
  obtain ⟨fs, _, h⟩ := Res.bind_eq_ok.1 h
  obtain ⟨rs, _, h⟩ := Res.bind_eq_ok.1 h
  obtain ⟨x, _, h⟩ := Res.bind_eq_ok.1 h
  simp only [getExecNode] at h
  have h1 := update_neat keeps_id x.1.addr true _ ht
  split at h <;> cases h
  · exact update_neat keeps_ensureAfter _ true _ h1
  · exact h1

theorem fieldRef_neat {t : T E} (ht : t.root.Neat true) (n : NRef) (r : RRef) : (fieldRef t n r).1.root.Neat true := by
  have h1 := update_neat keeps_id r.addr true _ ht
  simp only [fieldRef, getExecNode]
  split
  · exact h1
  · simp only [storeExecNode, newSlot]
    split
    · exact update_neat (keeps_setStore _) _ true _ h1
    · exact h1

mutual
  theorem makeParam_neat (C : Comp E) (n : NRef) : ∀ (e : Expr E) (t : T E) (r : T E × Ref E), t.root.Neat true → makeParam C t n e = .ok r →
      r.1.root.Neat true
    | .field f, t, r, ht, h => by
      rw [makeParam] at h
      obtain ⟨x, _, h⟩ := Res.bind_eq_ok.1 h
      cases h
      exact fieldRef_neat ht n x
    | .value v, t, r, ht, h => by rw [makeParam] at h; cases h; exact ht
    | .regex v, t, r, ht, h | .pcre v, t, r, ht, h | .time v, t, r, ht, h => by
      rw [makeParam] at h
      obtain ⟨x, _, h⟩ := Res.bind_eq_ok.1 h
      split at h <;> cases h
      exact ht
    | .func f ps, t, r, ht, h => by
      rw [makeParam] at h
      obtain ⟨x, hx, h⟩ := Res.bind_eq_ok.1 h
      cases h
      exact makeParams_neat C n ps t x ht hx
    | .tru, _, _, _, h | .fals, _, _, _, h | .not _, _, _, _, h | .and _, _, _, _, h | .or _, _, _, _, h | .loop _ _ _ _, _, _, _, h
    | .exist _, _, _, _, h | .notExist _, _, _, _, h | .cmp _ _ _, _, _, _, h => by simp [makeParam] at h

  theorem makeParams_neat (C : Comp E) (n : NRef) : ∀ (ps : Exprs E) (t : T E) (r : T E × Refs E), t.root.Neat true → makeParams C t n ps = .ok r →
      r.1.root.Neat true
    | .nil, t, r, ht, h => by rw [makeParams] at h; cases h; exact ht
    | .cons p ps, t, r, ht, h => by
      rw [makeParams] at h
      obtain ⟨x, hx, h⟩ := Res.bind_eq_ok.1 h
      obtain ⟨y, hy, h⟩ := Res.bind_eq_ok.1 h
      cases h
      exact makeParams_neat C n ps x.1 y (makeParam_neat C n p t x ht hx) hy
end

theorem makeDataRef_neat {C : Comp E} {n : NRef} {e : Expr E} {t : T E} {r : T E × Option (Ref E)} (ht : t.root.Neat true)
    (h : makeDataRef C t n e = .ok r) : r.1.root.Neat true := by
  rw [makeDataRef] at h
  obtain ⟨x, hx, h⟩ := Res.bind_eq_ok.1 h
  have := makeParam_neat C n e t x ht hx
  split at h <;> cases h <;> exact this

theorem nref_addOp_neat {t : T E} (ht : t.root.Neat true) (n : NRef) (op : Op E) : (n.addOp t op).root.Neat true := by
  cases n with
  | node a => exact update_neat (keeps_addOp op) a true _ ht
  | after a => exact update_neat (keeps_addAfterOp op) a true _ ht

theorem tExists_neat {C : Comp E} {e : Expr E} {t t' : T E} (ht : t.root.Neat true) (h : tExists C e t = .ok t') : t'.root.Neat true := by
  rw [tExists] at h
  obtain ⟨b, hb, h⟩ := Res.bind_eq_ok.1 h
  obtain ⟨l, hl, h⟩ := Res.bind_eq_ok.1 h
  cases h
  exact nref_addOp_neat (makeDataRef_neat (pickBase_neat ht hb) hl) _ _

theorem tCompare_neat {C : Comp E} {e l r : Expr E} {op : OpTy} {t t' : T E} (ht : t.root.Neat true) (h : tCompare C e op l r t = .ok t') :
    t'.root.Neat true := by
  rw [tCompare] at h
  obtain ⟨b, hb, h⟩ := Res.bind_eq_ok.1 h
  obtain ⟨x, hx, h⟩ := Res.bind_eq_ok.1 h
  obtain ⟨y, hy, h⟩ := Res.bind_eq_ok.1 h
  cases h
  exact nref_addOp_neat (makeDataRef_neat (makeDataRef_neat (pickBase_neat ht hb) hx) hy) _ _

/-- The transformation keeps nodes neat when it starts inside the loop over `w`. -/
def KeepsIn (f : T E → Res (T E)) (w : Option Int) : Prop :=
  ∀ t t' par, Start t par → Inside t w → t.root.Neat true → f t = .ok t' → t'.root.Neat true

theorem tNot_neat {f : T E → Res (T E)} {w : Option Int} (hf : KeepsIn f w) : KeepsIn (tNot f) w := by
  intro t t' par hs hw ht h
  obtain ⟨t1, e1, _, hs1, hc, hr, _⟩ := first_child (ty := .not) hs
  rw [tNot] at h
  obtain ⟨x, hx, h⟩ := Res.bind_eq_ok.1 h
  rw [hx, Res.bind_ok] at e1
  obtain ⟨y, hy, h⟩ := Res.bind_eq_ok.1 h
  rw [hy] at e1; cases e1
  exact hf t1 t' _ hs1 (hw.of_ctx hc) (by rw [hr]; exact ht) h

theorem tBin_neat {o : BinTree.BinOp} {f g : T E → Res (T E)} {w : Option Int} {a : BinTree.Sh}
    (hgr : ∀ t1 t2 par, Start t1 par → f t1 = .ok t2 → Grown t1 t2 a par) (hf : KeepsIn f w) (hg : KeepsIn g w) : KeepsIn (tBin o.ty f g) w := by
  intro t t' par hs hw ht h
  obtain ⟨t1, e1, ha, hs1, hc, hr, _, hn, hb⟩ := first_child (ty := o.ty) hs
  rw [tBin] at h
  obtain ⟨x, hx, h⟩ := Res.bind_eq_ok.1 h
  rw [hx, Res.bind_ok] at e1
  obtain ⟨y, hy, h⟩ := Res.bind_eq_ok.1 h
  rw [hy] at e1; cases e1
  obtain ⟨t2, h2, h⟩ := Res.bind_eq_ok.1 h
  have hG := hgr t1 t2 _ hs1 h2
  obtain ⟨t3, e3, _, hs3, hc3, hr3, _⟩ := second_child (o := o) ha hn hb hG
  obtain ⟨z, hz, h⟩ := Res.bind_eq_ok.1 h
  rw [hz] at e3; cases e3
  refine hg t3 t' _ hs3 (hw.of_ctx (hc3.trans (hG.ctx.trans hc))) ?_ h
  rw [hr3]
  exact hf t1 t2 _ hs1 (hw.of_ctx hc) (by rw [hr]; exact ht) h2

theorem tLoop_neat {C : Comp E} {m : Mode} {v : Int} {i s : Expr E} {w : Option Int} (hg : w.isSome = true → Genuine s) (hf : KeepsIn (tOne C s) (some v)) :
    KeepsIn (tLoop C (.loop m v i s) m v i (tOne C s)) w := by
  intro t t' par hs hw ht h
  have hcomp : Compiles C w (.loop m v i s) :=
    (tLoop_exact C m v i s hs hw (fun t1 h1 h2 => tOne_exact C s (some v) t1 _ h1 h2)).iff.1.1 ⟨t', h⟩
  rw [Compiles] at hcomp
  obtain ⟨_, _, _, harr, hbody⟩ := hcomp
  rw [tLoop] at h
  rcases pickBase_exact hw (.loop m v i s) with ⟨_, t0, c, b, h2, h3, _⟩ | ⟨_, h2⟩
  · obtain ⟨b', hb, h⟩ := Res.bind_eq_ok.1 h
    have hb0 := pickBase_neat ht hb
    have hsame := pickBase_same hb
    rw [h2] at hb; cases hb
    obtain ⟨r, hr, h⟩ := Res.bind_eq_ok.1 h
    have hr0 := makeDataRef_neat hb0 hr
    have hsame' := hsame.trans (makeDataRef_same hr)
    obtain ⟨t1, e1, ha, hs1, hc1, hroot, _⟩ := first_child (ty := .loop) (start_same hs hsame')
    obtain ⟨x, hx, h⟩ := Res.bind_eq_ok.1 h
    rw [hx, Res.bind_ok] at e1
    obtain ⟨y, hy, h⟩ := Res.bind_eq_ok.1 h
    rw [hy] at e1; cases e1
    obtain ⟨z, hz, h⟩ := Res.bind_eq_ok.1 h
    have hz' := addLoop_same hz
    obtain ⟨u, hu, h⟩ := Res.bind_eq_ok.1 h
    have hb1 : t1.active ≠ 0 := by omega
    have hroot1 : t1.root.Neat true := by rw [hroot]; exact hr0
    have hzt : z.root.Neat true := by
      cases b with
      | false =>
        simp only [nodeFor, Bool.false_eq_true, if_false] at hz
        cases hr2 : r.2 with
        | none =>
          rw [hr2, NRef.addLoop] at hz
          cases hz
          exact update_neat (keeps_addLoop hb1 m none) _ true _ hroot1
        | some q => rw [hr2] at hz; simp [NRef.addLoop] at hz
      | true =>
        cases w with
        | some u' =>
          exact absurd (h3.1 rfl) (nested_same (hg rfl) hbody (by rw [occs]; exact harr))
        | none =>
          rw [Inside] at hw
          simp only [nodeFor, if_true, currentContext, hw, Option.getD_none, List.nil_append] at hz
          cases hr2 : r.2 with
          | none => rw [hr2] at hz; simp [NRef.addLoop] at hz
          | some q =>
            rw [hr2] at hz
            cases q with
            | slot q =>
              rw [NRef.addLoop] at hz
              cases hz
              exact update_keys_neat (addAfterLoop_neat hb1 m _) c _ hroot1
            | _ => simp [NRef.addLoop] at hz
    have hst := start_same hs1 hz'
    have hu' : u.root.Neat true := by
      refine hf _ u r.1.active ?_ ?_ ?_ hu
      · exact ⟨hst.len, hst.bk, hst.node⟩
      · exact ⟨_, _, _, rfl⟩
      · exact hzt
    split at h
    · cases h
    · split at h
      · cases h
      · cases h; exact hu'
  · rw [h2] at h; cases h

mutual
  theorem tOne_neat (C : Comp E) : ∀ (e : Expr E) (w : Option Int), Bodied w.isSome e → KeepsIn (tOne C e) w
    | .loop m v i s, w, hg => by
      rw [Bodied] at hg
      intro t t' par hs hw ht h
      rw [tOne] at h
      exact tLoop_neat (fun h => hg.1 h) (tOne_neat C s (some v) hg.2) t t' par hs hw ht h
    | .not e, w, hg => by
      rw [Bodied] at hg
      intro t t' par hs hw ht h
      rw [tOne] at h
      exact tNot_neat (tOne_neat C e w hg) t t' par hs hw ht h
    | .or es, w, hg => by
      rw [Bodied] at hg
      intro t t' par hs hw ht h
      rw [tOne] at h
      exact tOr_neat C es w hg t t' par hs hw ht h
    | .and es, w, hg => by
      rw [Bodied] at hg
      intro t t' par hs hw ht h
      rw [tOne] at h
      exact tAnd_neat C es w hg t t' par hs hw ht h
    | .exist e, w, _ => by
      intro t t' par hs hw ht h
      rw [tOne] at h
      exact tExists_neat ht h
    | .notExist e, w, _ => by
      intro t t' par hs hw ht h
      rw [tOne] at h
      exact tNot_neat (w := w) (fun t1 t2 _ _ _ ht h => tExists_neat ht h) t t' par hs hw ht h
    | .cmp c l r, w, _ => by
      intro t t' par hs hw ht h
      rw [tOne] at h
      split at h
      · exact tNot_neat (w := w) (fun t1 t2 _ _ _ ht h => tCompare_neat ht h) t t' par hs hw ht h
      · exact tCompare_neat ht h
    | .tru, w, _ | .fals, w, _ | .value _, w, _ | .time _, w, _ | .regex _, w, _ | .pcre _, w, _ | .field _, w, _ | .func _ _, w, _ => by
      intro t t' par hs hw ht h
      simp only [tOne, Res.ok.injEq] at h
      rw [← h]; exact ht

  theorem tOr_neat (C : Comp E) : ∀ (es : Exprs E) (w : Option Int), BodiedAll w.isSome es → KeepsIn (tOr C es) w
    | .nil, w, _ => by intro t t' par hs hw ht h; rw [tOr] at h; cases h
    | .cons e .nil, w, hg => by
      rw [BodiedAll] at hg
      intro t t' par hs hw ht h
      rw [tOr] at h
      exact tOne_neat C e w hg.1 t t' par hs hw ht h
    | .cons e (.cons e' r), w, hg => by
      rw [BodiedAll] at hg
      intro t t' par hs hw ht h
      rw [tOr.eq_def] at h
      exact tBin_neat (o := .or) (fun t1 t2 par h1 h2 => tOne_grown C e t1 t2 par h1 h2) (tOne_neat C e w hg.1)
        (tOr_neat C (.cons e' r) w hg.2) t t' par hs hw ht h

  theorem tAnd_neat (C : Comp E) : ∀ (es : Exprs E) (w : Option Int), BodiedAll w.isSome es → KeepsIn (tAnd C es) w
    | .nil, w, _ => by intro t t' par hs hw ht h; rw [tAnd] at h; cases h
    | .cons e .nil, w, hg => by
      rw [BodiedAll] at hg
      intro t t' par hs hw ht h
      rw [tAnd] at h
      exact tOne_neat C e w hg.1 t t' par hs hw ht h
    | .cons e (.cons e' r), w, hg => by
      rw [BodiedAll] at hg
      intro t t' par hs hw ht h
      rw [tAnd.eq_def] at h
      exact tBin_neat (o := .and) (fun t1 t2 par h1 h2 => tOne_grown C e t1 t2 par h1 h2) (tOne_neat C e w hg.1)
        (tAnd_neat C (.cons e' r) w hg.2) t t' par hs hw ht h
end

theorem tMerge_neat (C : Comp E) : ∀ (e : Expr E) (es : List (Expr E)) (t : T E) (r : T E × List Nat) (par : Nat), (∀ x ∈ e :: es, Bodied false x) →
    Start t par → Inside t none → t.root.Neat true → tMerge C (e :: es) t = .ok r → r.1.root.Neat true
  | e, [], t, r, par, hg, hs, hw, ht, h => by
    rw [tMerge] at h
    obtain ⟨t', ht', h⟩ := Res.bind_eq_ok.1 h
    cases h
    exact tOne_neat C e none (hg e (by simp)) t t' par hs hw ht ht'
  | e, e' :: es, t, r, par, hg, hs, hw, ht, h => by
    rw [tMerge] at h
    obtain ⟨t1, e1, ha, hs1, hc, hr, _, hn, hb⟩ := first_child (ty := .neor) hs
    obtain ⟨x, hx, h⟩ := Res.bind_eq_ok.1 h
    rw [hx, Res.bind_ok] at e1
    obtain ⟨y, hy, h⟩ := Res.bind_eq_ok.1 h
    have hy1 := Res.ok.inj (hy.symm.trans e1); subst hy1
    obtain ⟨t2, e2, h⟩ := Res.bind_eq_ok.1 h
    have hG := tOne_grown C e y t2 _ hs1 e2
    obtain ⟨t3, e3, _, hs3, hc3, hr3, _⟩ := second_child (o := .neor) ha hn hb hG
    obtain ⟨z, hz, h⟩ := Res.bind_eq_ok.1 h
    have hz1 := Res.ok.inj (hz.symm.trans e3); subst hz1
    obtain ⟨q, hq, h⟩ := Res.bind_eq_ok.1 h
    cases h
    refine tMerge_neat C e' es z q _ (fun x hx => hg x (List.mem_cons_of_mem _ hx)) hs3 (hw.of_ctx (hc3.trans (hG.ctx.trans hc))) ?_ hq
    rw [hr3]
    exact tOne_neat C e none (hg e (by simp)) y t2 _ hs1 (hw.of_ctx hc) (by rw [hr]; exact ht) e2

/-- **C88.**  If the expressions compile and the bodies of loops in loops are conditions, then `Match` ends on every sequence of bytes, valid JSON or not, from every state of the matcher,
fresh, used or left behind by an error: it returns (a verdict or an error) or panics, but does not run forever. -/
theorem C88_terminates (X : Fns E) (C : Comp E) (slot0 : Nat) {es : List (Expr E)} (hg : ∀ e ∈ es, Bodied false e) {df : Def E}
    (h : transform C slot0 es = .ok df) (m : M) (data : List Nat) : run X df m data ≠ .stuck := by
  cases hes : genExprs es with
  | nil =>
    rw [transform, hes] at h
    cases h
    unfold run
    dsimp only
    split
    · simp
    · split <;> simp
  | cons g gs =>
    obtain ⟨h1, h2, _⟩ := C07_tree C slot0 es hes h
    refine (run_halts X (h1.tame h2) (fun e he => ?_) m data).ne
    rw [transform_cons C slot0 es hes] at h
    obtain ⟨r, hr, h⟩ := Res.bind_eq_ok.1 h
    cases h
    cases he
    refine tMerge_neat C g gs (initT slot0) r 0 (fun x hx => hg x ?_) (initT_start slot0) rfl (neat_empty true) hr
    rw [← hes] at hx
    exact ((mem_genExprs x es).1 hx).1

/-- `C88_terminates` with a loop in a loop, loops that wait for several fields, and a matcher in a state no run leaves behind. -/
example (data : List Nat) : ∃ df, transform demoComp 0 [demoNested, .loop .every 1 fieldA (.cmp .eq (.field ⟨1, []⟩) fieldB)] = .ok df ∧
    run demoFns df ⟨⟨[], 7⟩, [(9, 1), (2, 0)], ⟨[.ff, .tt, .resolved], 5⟩, true⟩ data ≠ .stuck := by
  obtain ⟨df, h⟩ := (C86_compiles demoComp 0 [demoNested, .loop .every 1 fieldA (.cmp .eq (.field ⟨1, []⟩) fieldB)]).1.2 (by
    intro e he
    simp only [List.mem_cons, List.not_mem_nil, or_false] at he
    rcases he with rfl | rfl
    · exact demoNested_compiles
    · simp only [Compiles, OkParam, OkArray, occs, fieldA, fieldB, Visible, Expr.Plain]
      exact ⟨by simp, by simp, by decide, Or.inl rfl, by simp, by simp, by decide⟩)
  refine ⟨df, h, C88_terminates demoFns demoComp 0 ?_ h _ data⟩
  intro e he
  simp only [List.mem_cons, List.not_mem_nil, or_false] at he
  rcases he with rfl | rfl <;> simp [demoNested, Bodied, BodiedAll, Genuine, GenuineAll]

/-- Why `C88_terminates` asks for `Bodied`: `ANY v IN a SATISFIES (ANY u IN v.x SATISFIES v.d)`, where the body of the inner loop is a bare
field, compiles, and a matcher whose root is decided while the loops are not then walks over the same element again and again. -/
theorem C88_genuine_needed : ∃ (e : Expr demoExt) (df : Def demoExt) (m : M) (data : List Nat), transform demoComp 0 [e] = .ok df ∧
    run demoFns df m data = .stuck := by
  have hc : Compiles demoComp none (.loop .any 1 fieldA (.loop .any 2 (.field ⟨1, [[120]]⟩) (.field ⟨1, [[100]]⟩)) : Expr demoExt) := by
    simp only [Compiles, OkArray, occs, fieldA, Visible, Expr.Plain]
    exact ⟨by simp, by simp, by decide, Or.inl rfl, by simp, by simp, by decide, Or.inl (by decide), trivial⟩
  obtain ⟨df, h⟩ := (C86_compiles demoComp 0 [_]).1.2 (fun e he => by rw [List.mem_singleton.1 he]; exact hc)
  refine ⟨_, df, ⟨⟨[], 0⟩, [(0, 0)], ⟨[.tt, .unknown, .unknown], 0⟩, false⟩,
    -- {"a":[{"x":[1],"d":2}]}
    [123, 34, 97, 34, 58, 91, 123, 34, 120, 34, 58, 91, 49, 93, 44, 34, 100, 34, 58, 50, 125, 93, 125], h, ?_⟩
  have hr : (transform demoComp 0 [.loop .any 1 fieldA (.loop .any 2 (.field ⟨1, [[120]]⟩) (.field ⟨1, [[100]]⟩))] >>= fun df => run demoFns df
      ⟨⟨[], 0⟩, [(0, 0)], ⟨[.tt, .unknown, .unknown], 0⟩, false⟩
      [123, 34, 97, 34, 58, 91, 123, 34, 120, 34, 58, 91, 49, 93, 44, 34, 100, 34, 58, 50, 125, 93, 125]) = .stuck := by decide +kernel
  rw [h] at hr
  exact hr

end Verif.Transform
