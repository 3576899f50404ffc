import Verif.Match.InSync
import Verif.Transform.Halts
import Verif.Transform.Trailing

/-!
# Every compiled definition keeps its place

The operations and loops of a node decide positions of the subtree of the loop they are in (`Lies`, from `Verif.Match.InSync`).  It is proved
of everything that compiles: nested loops, several expressions, loops that wait for fields, functions.
-/

set_option linter.unusedSectionVars false

namespace Verif.Transform
open Verif.FastVal Verif.Match Verif.Expr
open Verif.Token (D Es Ms Tok IsWs)
open Verif.BinTree (Sh mergeSh)

variable {E : Ext}

/-- What is asked of the parts of a definition: of the operations and loops that stand directly in the loop with the given bucket (0: in no
loop), in a node (`false`) or an `AfterNode` (`true`), and of the slots stored into. -/
structure Rules (E : Ext) where
  op : Nat → Bool → Op E → Prop
  loop : Nat → Bool → Nat → Option (Ref E) → Prop
  store : Nat → Prop

mutual
  /-- The rules hold for all parts of a node that stands in the loop with bucket `b`. -/
  def Exec.Obeys (R : Rules E) : Exec E → Nat → Prop
    | .mk st es ops ls a, b => R.store st ∧ Elems.Obeys R es b ∧ (∀ op ∈ ops, R.op b false op) ∧ Loops.Obeys R false ls b ∧ After.Obeys R a b
  def Elems.Obeys (R : Rules E) : Elems E → Nat → Prop
    | .nil, _ => True
    | .cons _ e r, b => Exec.Obeys R e b ∧ Elems.Obeys R r b
  def Loops.Obeys (R : Rules E) (after : Bool) : Loops E → Nat → Prop
    | .nil, _ => True
    | .cons i _ t e r, b => R.loop b after i t ∧ Exec.Obeys R e i ∧ Loops.Obeys R after r b
  def After.Obeys (R : Rules E) : After E → Nat → Prop
    | .none, _ => True
    | .some ops ls, b => (∀ op ∈ ops, R.op b true op) ∧ Loops.Obeys R true ls b
end

/-- The rules `R` ask for more than the rules `R'`. -/
structure Rules.Le (R R' : Rules E) : Prop where
  op : ∀ b a o, R.op b a o → R'.op b a o
  loop : ∀ b a i t, R.loop b a i t → R'.loop b a i t
  store : ∀ s, R.store s → R'.store s

mutual
  theorem Exec.Obeys.mono {R R' : Rules E} (hR : R.Le R') : ∀ (e : Exec E) (b : Nat), Exec.Obeys R e b → Exec.Obeys R' e b
    | .mk st es ops ls a, b, h => by
      rw [Exec.Obeys] at h ⊢
      exact ⟨hR.store _ h.1, Elems.Obeys.mono hR es b h.2.1, fun o ho => hR.op _ _ _ (h.2.2.1 o ho), Loops.Obeys.mono hR false ls b h.2.2.2.1,
        After.Obeys.mono hR a b h.2.2.2.2⟩
  theorem Elems.Obeys.mono {R R' : Rules E} (hR : R.Le R') : ∀ (es : Elems E) (b : Nat), Elems.Obeys R es b → Elems.Obeys R' es b
    | .nil, _, _ => trivial
    | .cons _ e r, b, h => by
      rw [Elems.Obeys] at h ⊢
      exact ⟨Exec.Obeys.mono hR e b h.1, Elems.Obeys.mono hR r b h.2⟩
  theorem Loops.Obeys.mono {R R' : Rules E} (hR : R.Le R') (after : Bool) : ∀ (ls : Loops E) (b : Nat), Loops.Obeys R after ls b →
      Loops.Obeys R' after ls b
    | .nil, _, _ => trivial
    | .cons i _ t e r, b, h => by
      rw [Loops.Obeys] at h ⊢
      exact ⟨hR.loop _ _ _ _ h.1, Exec.Obeys.mono hR e i h.2.1, Loops.Obeys.mono hR after r b h.2.2⟩
  theorem After.Obeys.mono {R R' : Rules E} (hR : R.Le R') : ∀ (a : After E) (b : Nat), After.Obeys R a b → After.Obeys R' a b
    | .none, _, _ => trivial
    | .some ops ls, b, h => by
      rw [After.Obeys] at h ⊢
      exact ⟨fun o ho => hR.op _ _ _ (h.1 o ho), Loops.Obeys.mono hR true ls b h.2⟩
end

/-! ### Updates -/

/-- The bucket of the loop an address is in, seen from the loop with bucket `b`. -/
def bucketOf : Nat → Addr → Nat
  | b, [] => b
  | b, .key _ :: p => bucketOf b p
  | _, .loop i :: p => bucketOf i p

theorem bucketOf_keys : ∀ (a : Addr) (ks : List (List Nat)) (b : Nat), bucketOf b (a ++ ks.map Step.key) = bucketOf b a
  | [], [], b => rfl
  | [], k :: ks, b => by
    have := bucketOf_keys [] ks b
    simpa [bucketOf] using this
  | .key k :: p, ks, b => by simpa [bucketOf] using bucketOf_keys p ks b
  | .loop i :: p, ks, b => by simpa [bucketOf] using bucketOf_keys p ks i

theorem bucketOf_loop : ∀ (a : Addr) (i b : Nat), bucketOf b (a ++ [.loop i]) = i
  | [], i, b => rfl
  | .key k :: p, i, b => by simpa [bucketOf] using bucketOf_loop p i b
  | .loop j :: p, i, b => by simpa [bucketOf] using bucketOf_loop p i j

section
variable {R : Rules E}

/-- The change keeps the rules in the loop with bucket `b`. -/
def KeepsR (R : Rules E) (b : Nat) (f : Exec E → Exec E) : Prop := ∀ e : Exec E, Exec.Obeys R e b → Exec.Obeys R (f e) b

theorem obeys_empty (h0 : R.store 0) (b : Nat) : Exec.Obeys R (emptyExec : Exec E) b := by
  simp [emptyExec, Exec.Obeys, Elems.Obeys, Loops.Obeys, After.Obeys, h0]

theorem alterElems_obeys (h0 : R.store 0) {b : Nat} {f : Exec E → Exec E} (hf : KeepsR R b f) (k : List Nat) : ∀ es : Elems E, Elems.Obeys R es b →
    Elems.Obeys R (alterElems k f es) b
  | .nil, _ => by rw [alterElems, Elems.Obeys]; exact ⟨hf _ (obeys_empty h0 b), trivial⟩
  | .cons k' e r, h => by
    rw [Elems.Obeys] at h
    rw [alterElems]
    split
    · rw [Elems.Obeys]; exact ⟨hf e h.1, h.2⟩
    · rw [Elems.Obeys]; exact ⟨h.1, alterElems_obeys h0 hf k r h.2⟩

theorem alterLoops_obeys {after : Bool} {b i : Nat} {f : Exec E → Exec E} (hf : KeepsR R i f) : ∀ ls : Loops E, Loops.Obeys R after ls b →
    Loops.Obeys R after (alterLoops i f ls) b
  | .nil, _ => trivial
  | .cons b' m t e r, h => by
    rw [Loops.Obeys] at h
    rw [alterLoops]
    split
    · rename_i he; subst he
      rw [Loops.Obeys]; exact ⟨h.1, hf e h.2.1, h.2.2⟩
    · rw [Loops.Obeys]; exact ⟨h.1, h.2.1, alterLoops_obeys hf r h.2.2⟩

theorem update_obeys (h0 : R.store 0) {f : Exec E → Exec E} : ∀ (a : Addr) (b : Nat), KeepsR R (bucketOf b a) f → KeepsR R b (update a f)
  | [], b, hf => hf
  | .key k :: p, b, hf => by
    intro e h
    obtain ⟨st, es, ops, ls, af⟩ := e
    rw [Exec.Obeys] at h
    rw [update, Exec.Obeys]
    exact ⟨h.1, alterElems_obeys h0 (update_obeys h0 p b hf) k es h.2.1, h.2.2⟩
  | .loop i :: p, b, hf => by
    intro e h
    obtain ⟨st, es, ops, ls, af⟩ := e
    rw [Exec.Obeys] at h
    rw [update, Exec.Obeys]
    have ih := update_obeys h0 p i hf
    refine ⟨h.1, h.2.1, h.2.2.1, alterLoops_obeys ih ls h.2.2.2.1, ?_⟩
    cases af with
    | none => exact h.2.2.2.2
    | some aops als =>
      rw [After.Obeys] at h
      rw [alterAfter, After.Obeys]
      exact ⟨h.2.2.2.2.1, alterLoops_obeys ih als h.2.2.2.2.2⟩

theorem keepsR_id (b : Nat) : KeepsR R b id := fun _ h => h

theorem keepsR_setStore {s : Nat} (hs : R.store s) (b : Nat) : KeepsR R b (setStore s) := by
  rintro ⟨st, es, ops, ls, af⟩ h
  rw [Exec.Obeys] at h; rw [setStore, Exec.Obeys]; exact ⟨hs, h.2⟩

theorem keepsR_addOp {b : Nat} {op : Op E} (ho : R.op b false op) : KeepsR R b (addOp op) := by
  rintro ⟨st, es, ops, ls, af⟩ h
  rw [Exec.Obeys] at h; rw [addOp, Exec.Obeys]
  refine ⟨h.1, h.2.1, fun o hm => ?_, h.2.2.2⟩
  rcases List.mem_append.1 hm with hm | hm
  · exact h.2.2.1 o hm
  · rw [List.mem_singleton.1 hm]; exact ho

theorem keepsR_ensureAfter (b : Nat) : KeepsR R b ensureAfter := by
  rintro ⟨st, es, ops, ls, af⟩ h
  cases af with
  | none =>
    rw [Exec.Obeys] at h
    rw [ensureAfter, Exec.Obeys]
    exact ⟨h.1, h.2.1, h.2.2.1, h.2.2.2.1, by simp [After.Obeys, Loops.Obeys]⟩
  | some aops als => exact h

theorem keepsR_addAfterOp {b : Nat} {op : Op E} (ho : R.op b true op) : KeepsR R b (addAfterOp op) := by
  rintro ⟨st, es, ops, ls, af⟩ h
  cases af with
  | none => exact h
  | some aops als =>
    rw [Exec.Obeys, After.Obeys] at h
    rw [addAfterOp, Exec.Obeys, After.Obeys]
    refine ⟨h.1, h.2.1, h.2.2.1, h.2.2.2.1, fun o hm => ?_, h.2.2.2.2.2⟩
    rcases List.mem_append.1 hm with hm | hm
    · exact h.2.2.2.2.1 o hm
    · rw [List.mem_singleton.1 hm]; exact ho

theorem snoc_obeys (h0 : R.store 0) {after : Bool} {b i : Nat} {m : Mode} {t : Option (Ref E)} (hl : R.loop b after i t) : ∀ ls : Loops E,
    Loops.Obeys R after ls b → Loops.Obeys R after (Loops.snoc ls i m t emptyExec) b
  | .nil, _ => by rw [Loops.snoc, Loops.Obeys]; exact ⟨hl, obeys_empty h0 i, trivial⟩
  | .cons b' m' t' e' r, h => by
    rw [Loops.Obeys] at h
    rw [Loops.snoc, Loops.Obeys]
    exact ⟨h.1, h.2.1, snoc_obeys h0 hl r h.2.2⟩

theorem keepsR_addLoop (h0 : R.store 0) {b i : Nat} {m : Mode} {t : Option (Ref E)} (hl : R.loop b false i t) :
    KeepsR R b (addLoop i m t emptyExec) := by
  rintro ⟨st, es, ops, ls, af⟩ h
  rw [Exec.Obeys] at h
  rw [addLoop, Exec.Obeys]
  exact ⟨h.1, h.2.1, h.2.2.1, snoc_obeys h0 hl ls h.2.2.2.1, h.2.2.2.2⟩

theorem keepsR_addAfterLoop (h0 : R.store 0) {b i : Nat} {m : Mode} {t : Option (Ref E)} (hl : R.loop b true i t) :
    KeepsR R b (addAfterLoop i m t emptyExec) := by
  rintro ⟨st, es, ops, ls, af⟩ h
  cases af with
  | none => exact h
  | some aops als =>
    rw [Exec.Obeys, After.Obeys] at h
    rw [addAfterLoop, Exec.Obeys, After.Obeys]
    exact ⟨h.1, h.2.1, h.2.2.1, h.2.2.2.1, h.2.2.2.2.1, snoc_obeys h0 hl als h.2.2.2.2.2⟩

end

/-! ### References -/

mutual
  theorem Ref.Safe.mono {n n' : Nat} (hn : n ≤ n') {lit : Bool} : ∀ r : Ref E, r.Safe n lit → r.Safe n' lit
    | .val _, _ => trivial
    | .lit, h => h
    | .slot s, h => by rw [Ref.Safe] at h ⊢; omega
    | .fn f ps, h => by
      rw [Ref.Safe] at h ⊢
      exact ⟨h.1, Refs.Safe.mono hn _ ps h.2.1, h.2.2⟩
  theorem Refs.Safe.mono {n n' : Nat} (hn : n ≤ n') {lit : Bool} : ∀ (k : Nat) (ps : Refs E), ps.Safe n lit k → ps.Safe n' lit k
    | 0, ps, _ => by cases ps <;> trivial
    | k + 1, .nil, h => h.elim
    | k + 1, .cons p ps, h => by
      rw [Refs.Safe] at h ⊢
      exact ⟨Ref.Safe.mono hn p h.1, Refs.Safe.mono hn k ps h.2⟩
end

theorem Op.Safe.mono {n n' : Nat} (hn : n ≤ n') {lit : Bool} {op : Op E} (h : op.Safe n lit) : op.Safe n' lit :=
  ⟨h.1, fun r hr => Ref.Safe.mono hn r (h.2.1 r hr), fun r hr => Ref.Safe.mono hn r (h.2.2 r hr)⟩

/-- The rules of the transformer: `A` and `B` say which buckets operations and loops may have; if `q` holds, the references make sense; `n` is
the number of slots so far. -/
def rulesFor (A B : Nat → Nat → Prop) (q : Prop) (n : Nat) : Rules E where
  op := fun b after op => A b op.bucket ∧ (q → op.Safe n (!after))
  loop := fun b after i t => B b i ∧ (match after with
    | false => t = none
    | true => ∃ s, t = some (.slot s) ∧ 0 < s ∧ s ≤ n)
  store := fun s => s ≤ n

theorem rulesFor_le {A B : Nat → Nat → Prop} {q : Prop} {n n' : Nat} (hn : n ≤ n') : (rulesFor A B q n : Rules E).Le (rulesFor A B q n') where
  op := fun _ _ _ h => ⟨h.1, fun hq => Op.Safe.mono hn (h.2 hq)⟩
  loop := fun _ after _ t h => ⟨h.1, by
    cases after with
    | false => exact h.2
    | true => obtain ⟨s, h1, h2, h3⟩ := h.2; exact ⟨s, h1, h2, Nat.le_trans h3 hn⟩⟩
  store := fun _ h => Nat.le_trans h hn

section
variable {A B : Nat → Nat → Prop} {q : Prop}

theorem rules0 (n : Nat) : (rulesFor A B q n : Rules E).store 0 := Nat.zero_le n

/-- The rules hold for what has been built. -/
def Proper (A B : Nat → Nat → Prop) (q : Prop) (t : T E) : Prop := Exec.Obeys (rulesFor A B q t.slotIdx) t.root 0

/-- `t'` comes after `t` and keeps the rules. -/
def Onward (A B : Nat → Nat → Prop) (q : Prop) (t t' : T E) : Prop := Proper A B q t → Proper A B q t' ∧ t.slotIdx ≤ t'.slotIdx

theorem Onward.trans {t t' t'' : T E} (h : Onward A B q t t') (h' : Onward A B q t' t'') : Onward A B q t t'' := fun hp =>
  ⟨(h' (h hp).1).1, Nat.le_trans (h hp).2 (h' (h hp).1).2⟩

theorem Onward.refl (t : T E) : Onward A B q t t := fun hp => ⟨hp, Nat.le_refl _⟩

/-- Updates. -/
theorem onward_update {t : T E} {f : Exec E → Exec E} (a : Addr) (hf : KeepsR (rulesFor A B q t.slotIdx) (bucketOf 0 a) f) :
    Onward A B q t { t with root := update a f t.root } :=
  fun hp => ⟨update_obeys (rules0 _) a 0 hf t.root hp, Nat.le_refl _⟩

theorem Elems.Obeys.find {R : Rules E} {b : Nat} {k : List Nat} {e : Exec E} : ∀ es : Elems E, Elems.Obeys R es b → es.find k = some e → Exec.Obeys R e b
  | .nil, _, h => by simp [Elems.find] at h
  | .cons k' e' r, h, he => by
    rw [Elems.Obeys] at h
    rw [Elems.find] at he
    split at he
    · cases he; exact h.1
    · exact Elems.Obeys.find r h.2 he

theorem Loops.Obeys.find {R : Rules E} {after : Bool} {b i : Nat} {e : Exec E} : ∀ ls : Loops E, Loops.Obeys R after ls b → findLoop i ls = some e →
    Exec.Obeys R e i
  | .nil, _, h => by simp [findLoop] at h
  | .cons i' m t e' r, h, he => by
    rw [Loops.Obeys] at h
    rw [findLoop] at he
    split at he
    · rename_i hi; subst hi; cases he; exact h.2.1
    · exact Loops.Obeys.find r h.2.2 he

theorem nodeAt_obeys {R : Rules E} : ∀ (a : Addr) (b : Nat) (e e' : Exec E), Exec.Obeys R e b → nodeAt a e = some e' → ∃ b', Exec.Obeys R e' b'
  | [], b, e, e', h, he => by rw [nodeAt] at he; cases he; exact ⟨b, h⟩
  | .key k :: p, b, .mk st es ops ls a, e', h, he => by
    rw [Exec.Obeys] at h
    rw [nodeAt] at he
    obtain ⟨x, hx, he⟩ := Option.bind_eq_some_iff.1 he
    exact nodeAt_obeys p b x e' (Elems.Obeys.find es h.2.1 hx) he
  | .loop i :: p, b, .mk st es ops ls a, e', h, he => by
    rw [Exec.Obeys] at h
    rw [nodeAt] at he
    obtain ⟨x, hx, he⟩ := Option.bind_eq_some_iff.1 he
    have : Exec.Obeys R x i := by
      rcases hl : findLoop i ls with _ | y
      · rw [hl] at hx
        cases a with
        | none => simp [findAfter] at hx
        | some aops als =>
          rw [After.Obeys] at h
          exact Loops.Obeys.find als h.2.2.2.2.2 (by simpa [findAfter] using hx)
      · rw [hl] at hx
        simp at hx; subst hx
        exact Loops.Obeys.find ls h.2.2.2.1 hl
    exact nodeAt_obeys p i x e' this he

theorem storeExecNode_onward (t : T E) (a : Addr) : Onward A B q t (storeExecNode t a).1 ∧
    (Proper A B q t → 0 < (storeExecNode t a).2 ∧ (storeExecNode t a).2 ≤ (storeExecNode t a).1.slotIdx) := by
  rw [storeExecNode]
  simp only [newSlot]
  split
  · refine ⟨?_, fun _ => ⟨Nat.succ_pos _, Nat.le_refl _⟩⟩
    intro hp
    refine ⟨?_, Nat.le_succ _⟩
    have hp' : Exec.Obeys (rulesFor A B q (t.slotIdx + 1)) t.root 0 := Exec.Obeys.mono (rulesFor_le (Nat.le_succ _)) _ _ hp
    exact update_obeys (rules0 _) a 0 (keepsR_setStore (Nat.le_refl _) _) t.root hp'
  · rename_i hs
    refine ⟨.refl t, fun hp => ⟨Nat.pos_of_ne_zero hs, ?_⟩⟩
    cases hn : nodeAt a t.root with
    | none => exact Nat.zero_le _
    | some e =>
      obtain ⟨b', h⟩ := nodeAt_obeys a 0 t.root e hp hn
      obtain ⟨st, es, ops, ls, af⟩ := e
      rw [Exec.Obeys] at h
      exact h.1

/-- Whether operations are added to the node itself. -/
def NRef.isNode : NRef → Bool
  | .node _ => true
  | .after _ => false

theorem fieldRef_onward (t : T E) (n : NRef) (r : RRef) : Onward A B q t (fieldRef t n r).1 ∧
    (Proper A B q t → (fieldRef t n r).2.Safe (fieldRef t n r).1.slotIdx n.isNode) := by
  have h1 : Onward A B q t { t with root := update r.addr id t.root } := onward_update r.addr (keepsR_id _)
  have h2 := storeExecNode_onward (A := A) (B := B) (q := q) { t with root := update r.addr id t.root } r.addr
  simp only [fieldRef, getExecNode]
  split
  · rename_i hn
    exact ⟨h1, fun _ => by rw [hn]; rfl⟩
  · exact ⟨h1.trans h2.1, fun hp => h2.2 (h1 hp).1⟩

mutual
  theorem makeParam_onward (C : Comp E) (n : NRef) : ∀ (e : Expr E) (t : T E) (r : T E × Ref E), makeParam C t n e = .ok r →
      Onward A B q t r.1 ∧ (Proper A B q t → (SafeParam e → r.2.Safe r.1.slotIdx n.isNode) ∧ ∀ s, r.2 = .slot s → 0 < s ∧ s ≤ r.1.slotIdx)
    | .field f, t, r, h => by
      rw [makeParam] at h
      obtain ⟨x, _, h⟩ := Res.bind_eq_ok.1 h
      cases h
      have := fieldRef_onward (A := A) (B := B) (q := q) t n x
      refine ⟨this.1, fun hp => ⟨fun _ => this.2 hp, fun s hs => ?_⟩⟩
      have h2 := this.2 hp
      rw [hs] at h2
      exact h2
    | .value v, t, r, h => by
      rw [makeParam] at h; cases h
      exact ⟨.refl t, fun _ => ⟨fun _ => trivial, fun s hs => by cases hs⟩⟩
    | .regex v, t, r, h | .pcre v, t, r, h | .time v, t, r, h => by
      rw [makeParam] at h
      obtain ⟨x, _, h⟩ := Res.bind_eq_ok.1 h
      split at h <;> cases h
      exact ⟨.refl t, fun _ => ⟨fun _ => trivial, fun s hs => by cases hs⟩⟩
    | .func f ps, t, r, h => by
      rw [makeParam] at h
      obtain ⟨x, hx, h⟩ := Res.bind_eq_ok.1 h
      cases h
      have := makeParams_onward C n ps t x hx
      refine ⟨this.1, fun hp => ⟨fun hs => ?_, fun s hs => by cases hs⟩⟩
      rw [SafeParam] at hs
      rw [Ref.Safe]
      refine ⟨hs.1, (this.2.1 hp) _ hs.2.1, fun hd => ?_⟩
      obtain ⟨g, hg, hdv⟩ := hs.2.2 hd
      exact ⟨_, this.2.2 1 g hg, hdv⟩
    | .tru, _, _, h | .fals, _, _, h | .not _, _, _, h | .and _, _, _, h | .or _, _, _, h | .loop _ _ _ _, _, _, h
    | .exist _, _, _, h | .notExist _, _, _, h | .cmp _ _ _, _, _, h => by simp [makeParam] at h

  theorem makeParams_onward (C : Comp E) (n : NRef) : ∀ (ps : Exprs E) (t : T E) (r : T E × Refs E), makeParams C t n ps = .ok r →
      Onward A B q t r.1 ∧ (Proper A B q t → ∀ k, SafeParams k ps → r.2.Safe r.1.slotIdx n.isNode k) ∧
        ∀ i g, ps.nth i = some (.value g) → r.2.nth i = some (.val (constOf g))
    | .nil, t, r, h => by
      rw [makeParams] at h; cases h
      refine ⟨.refl t, fun _ k hk => ?_, fun i g hg => by simp [Exprs.nth] at hg⟩
      cases k with
      | zero => trivial
      | succ k => exact hk.elim
    | .cons p ps, t, r, h => by
      rw [makeParams] at h
      obtain ⟨x, hx, h⟩ := Res.bind_eq_ok.1 h
      obtain ⟨y, hy, h⟩ := Res.bind_eq_ok.1 h
      cases h
      have h1 := makeParam_onward C n p t x hx
      have h2 := makeParams_onward C n ps x.1 y hy
      refine ⟨h1.1.trans h2.1, fun hp k hk => ?_, fun i g hg => ?_⟩
      · cases k with
        | zero => trivial
        | succ k =>
          rw [SafeParams] at hk
          have hp1 := (h1.1 hp).1
          rw [Refs.Safe]
          exact ⟨Ref.Safe.mono (h2.1 hp1).2 _ ((h1.2 hp).1 hk.1), h2.2.1 hp1 k hk.2⟩
      · cases i with
        | zero =>
          simp only [Exprs.nth, Option.some.injEq] at hg
          subst hg
          rw [makeParam] at hx; cases hx
          rfl
        | succ i => exact h2.2.2 i g (by simpa [Exprs.nth] using hg)
end

theorem makeDataRef_onward {C : Comp E} {n : NRef} {e : Expr E} {t : T E} {r : T E × Option (Ref E)} (h : makeDataRef C t n e = .ok r) :
    Onward A B q t r.1 ∧ (Proper A B q t → (SafeParam e → ∀ x ∈ r.2, x.Safe r.1.slotIdx n.isNode) ∧
      ∀ s, r.2 = some (.slot s) → 0 < s ∧ s ≤ r.1.slotIdx) := by
  rw [makeDataRef] at h
  obtain ⟨x, hx, h⟩ := Res.bind_eq_ok.1 h
  have := makeParam_onward (A := A) (B := B) (q := q) C n e t x hx
  split at h <;> cases h
  · exact ⟨this.1, fun hp => ⟨fun _ y hy => (by cases hy), fun s hs => (by cases hs)⟩⟩
  · refine ⟨this.1, fun hp => ⟨fun hs y hy => ?_, fun s hs => (this.2 hp).2 s (Option.some.inj hs)⟩⟩
    cases hy
    exact (this.2 hp).1 hs

/-! ### Conditions -/

/-- The bucket of the loop the transformer is in. -/
def hereOf (t : T E) : Nat := bucketOf 0 ((currentContext t).getD [])

theorem hereOf_ctx {t t' : T E} (h : t'.ctx = t.ctx) : hereOf t' = hereOf t := by rw [hereOf, hereOf, currentContext, currentContext, h]

theorem pickBase_onward {t : T E} {w : Option Int} (hw : Inside t w) {e : Expr E} {b : T E × NRef} (h : pickBase t e = .ok b) :
    Onward A B q t b.1 ∧ bucketOf 0 b.2.addr = hereOf t := by
  constructor
  · simp only [pickBase] at h
    obtain ⟨fs, _, h⟩ := Res.bind_eq_ok.1 h
    obtain ⟨rs, _, h⟩ := Res.bind_eq_ok.1 h
    obtain ⟨x, _, h⟩ := Res.bind_eq_ok.1 h
    simp only [getExecNode] at h
    have h1 : Onward A B q t { t with root := update x.1.addr id t.root } := onward_update x.1.addr (keepsR_id _)
    split at h <;> cases h
    · exact h1.trans (onward_update (t := { t with root := update x.1.addr id t.root }) x.1.addr (keepsR_ensureAfter _))
    · exact h1
  · rcases pickBase_exact hw e with ⟨_, t0, c, b0, h2, _⟩ | ⟨_, h2⟩
    · rw [h] at h2
      cases h2
      have : NRef.addr (nodeFor ((currentContext t).getD [] ++ c.map Step.key) b0) = (currentContext t).getD [] ++ c.map Step.key := by
        cases b0 <;> rfl
      rw [this, bucketOf_keys, hereOf]
    · rw [h] at h2; cases h2

theorem nref_addOp_onward {t : T E} {n : NRef} {op : Op E} (hA : A (bucketOf 0 n.addr) op.bucket)
    (hs : q → op.Safe t.slotIdx n.isNode) : Onward A B q t (n.addOp t op) := by
  cases n with
  | node a => exact onward_update a (keepsR_addOp ⟨hA, hs⟩)
  | after a => exact onward_update a (keepsR_addAfterOp ⟨hA, hs⟩)

theorem tExists_onward {C : Comp E} {e : Expr E} {t t' : T E} {w : Option Int} (hw : Inside t w) (hA : A (hereOf t) t.active)
    (hq : q → SafeParam e) (h : tExists C e t = .ok t') : Onward A B q t t' := by
  rw [tExists] at h
  obtain ⟨b, hb, h⟩ := Res.bind_eq_ok.1 h
  obtain ⟨l, hl, h⟩ := Res.bind_eq_ok.1 h
  cases h
  have h1 := pickBase_onward (A := A) (B := B) (q := q) hw hb
  have h2 := makeDataRef_onward (A := A) (B := B) (q := q) hl
  have hact := ((pickBase_same hb).trans (makeDataRef_same hl)).active
  intro hp
  refine ((h1.1.trans h2.1).trans (nref_addOp_onward ?_ ?_)) hp
  · rw [h1.2]; simpa [hact] using hA
  · exact fun hq' => ⟨by simp, (h2.2 (h1.1 hp).1).1 (hq hq'), fun r hr => by cases hr⟩

theorem opOf_ne (c : Cmp) : opOf c ≠ .in_ := by cases c <;> simp [opOf]

theorem tCompare_onward {C : Comp E} {e l r : Expr E} {op : OpTy} (hop : op ≠ .in_) {t t' : T E} {w : Option Int} (hw : Inside t w)
    (hA : A (hereOf t) t.active) (hq : q → SafeParam l ∧ SafeParam r) (h : tCompare C e op l r t = .ok t') : Onward A B q t t' := by
  rw [tCompare] at h
  obtain ⟨b, hb, h⟩ := Res.bind_eq_ok.1 h
  obtain ⟨x, hx, h⟩ := Res.bind_eq_ok.1 h
  obtain ⟨y, hy, h⟩ := Res.bind_eq_ok.1 h
  cases h
  have h1 := pickBase_onward (A := A) (B := B) (q := q) hw hb
  have h2 := makeDataRef_onward (A := A) (B := B) (q := q) hx
  have h3 := makeDataRef_onward (A := A) (B := B) (q := q) hy
  have hact := (((pickBase_same hb).trans (makeDataRef_same hx)).trans (makeDataRef_same hy)).active
  intro hp
  have hp1 := (h1.1 hp).1
  have hp2 := (h2.1 hp1).1
  refine (((h1.1.trans h2.1).trans h3.1).trans (nref_addOp_onward ?_ ?_)) hp
  · rw [h1.2]; simpa [hact] using hA
  · exact fun hq' => ⟨hop, fun r hr => Ref.Safe.mono (h3.1 hp2).2 r ((h2.2 hp1).1 (hq hq').1 r hr), (h3.2 hp2).1 (hq hq').2⟩

/-! ### Operators -/

/-- The buckets for an expression of the given shape, laid out from `a` on in the loop with bucket `b`, are allowed. -/
def Allows (A B : Nat → Nat → Prop) (b : Nat) : Sh → Nat → Prop
  | .leaf, a => A b a
  | .un .loop x, a => B b (a + 1) ∧ Allows A B (a + 1) x (a + 1)
  | .un .not x, a => Allows A B b x (a + 1)
  | .bin _ x y, a => Allows A B b x (a + 1) ∧ Allows A B b y (a + 1 + x.size)

/-- Where it is allowed, the transformation keeps the rules. -/
def Lawful (A B : Nat → Nat → Prop) (q : Prop) (s : Sh) (f : T E → Res (T E)) (w : Option Int) : Prop :=
  ∀ t t' par, Start t par → Inside t w → Allows A B (hereOf t) s t.active → f t = .ok t' → Onward A B q t t'

theorem onward_of {t t1 t' : T E} (hr : t1.root = t.root) (hs : t1.slotIdx = t.slotIdx) (h : Onward A B q t1 t') : Onward A B q t t' := by
  intro hp
  have := h (by rw [Proper, hr, hs]; exact hp)
  exact ⟨this.1, by omega⟩

theorem tNot_lawful {s : Sh} {f : T E → Res (T E)} {w : Option Int} (hf : Lawful A B q s f w) : Lawful A B q (.un .not s) (tNot f) w := by
  intro t t' par hs hw ha h
  obtain ⟨t1, e1, hact, hs1, hc, hr, hsl, _⟩ := first_child (ty := .not) hs
  rw [tNot] at h
  obtain ⟨x, hx, h⟩ := Res.bind_eq_ok.1 h
  rw [hx, Res.bind_ok] at e1
  obtain ⟨y, hy, h⟩ := Res.bind_eq_ok.1 h
  rw [hy] at e1; cases e1
  exact onward_of hr hsl (hf t1 t' _ hs1 (hw.of_ctx hc) (by rw [hereOf_ctx hc, hact]; exact ha) h)

theorem tBin_lawful {o : BinTree.BinOp} {f g : T E → Res (T E)} {w : Option Int} {s s' : Sh}
    (hgr : ∀ t1 t2 par, Start t1 par → f t1 = .ok t2 → Grown t1 t2 s par) (hf : Lawful A B q s f w) (hg : Lawful A B q s' g w) :
    Lawful A B q (.bin o s s') (tBin o.ty f g) w := by
  intro t t' par hs hw hal h
  obtain ⟨t1, e1, ha, hs1, hc, hr, hsl, hn, hb⟩ := first_child (ty := o.ty) hs
  rw [tBin] at h
  obtain ⟨x, hx, h⟩ := Res.bind_eq_ok.1 h
  rw [hx, Res.bind_ok] at e1
  obtain ⟨y, hy, h⟩ := Res.bind_eq_ok.1 h
  rw [hy] at e1; cases e1
  obtain ⟨t2, h2, h⟩ := Res.bind_eq_ok.1 h
  have hG := hgr t1 t2 _ hs1 h2
  obtain ⟨t3, e3, ha3, hs3, hc3, hr3, hsl3, _⟩ := second_child (o := o) ha hn hb hG
  obtain ⟨z, hz, h⟩ := Res.bind_eq_ok.1 h
  rw [hz] at e3; cases e3
  have hcc := hc3.trans (hG.ctx.trans hc)
  have k1 := onward_of hr hsl (hf t1 t2 _ hs1 (hw.of_ctx hc) (by rw [hereOf_ctx hc, ha]; exact hal.1) h2)
  exact k1.trans (onward_of hr3 hsl3 (hg t3 t' _ hs3 (hw.of_ctx hcc) (by rw [hereOf_ctx hcc, ha3]; exact hal.2) h))

theorem tLoop_lawful {C : Comp E} {m : Mode} {v : Int} {i e : Expr E} {f : T E → Res (T E)} {s : Sh} {w : Option Int} (hf : Lawful A B q s f (some v)) :
    Lawful A B q (.un .loop s) (tLoop C e m v i f) w := by
  intro t t' par hs hw hal h
  rw [tLoop] at h
  obtain ⟨b, hb, h⟩ := Res.bind_eq_ok.1 h
  obtain ⟨r, hr, h⟩ := Res.bind_eq_ok.1 h
  have h1 := pickBase_onward (A := A) (B := B) (q := q) hw hb
  have h2 := makeDataRef_onward (A := A) (B := B) (q := q) hr
  have hsame := (pickBase_same hb).trans (makeDataRef_same hr)
  obtain ⟨t1, e1, ha, hs1, hc1, hroot, hsl, _⟩ := first_child (ty := .loop) (start_same hs hsame)
  obtain ⟨x, hx, h⟩ := Res.bind_eq_ok.1 h
  rw [hx, Res.bind_ok] at e1
  obtain ⟨y, hy, h⟩ := Res.bind_eq_ok.1 h
  rw [hy] at e1; cases e1
  obtain ⟨z, hz, h⟩ := Res.bind_eq_ok.1 h
  have hz' := addLoop_same hz
  obtain ⟨u, hu, h⟩ := Res.bind_eq_ok.1 h
  rw [hsame.active] at ha
  intro hp
  have hp1 := (h1.1 hp).1
  obtain ⟨hp2, hle2⟩ := h2.1 hp1
  have hzo : Onward A B q t1 z := by
    have hB : B (bucketOf 0 b.2.addr) t1.active := by rw [h1.2, ha]; exact hal.1
    cases hbn : b.2 with
    | node a =>
      rw [hbn] at hz hB
      cases hr2 : r.2 with
      | none =>
        rw [hr2, NRef.addLoop] at hz
        cases hz
        exact onward_update a (keepsR_addLoop (rules0 _) ⟨hB, rfl⟩)
      | some p => rw [hr2] at hz; simp [NRef.addLoop] at hz
    | after a =>
      rw [hbn] at hz hB
      cases hr2 : r.2 with
      | none => rw [hr2] at hz; simp [NRef.addLoop] at hz
      | some p =>
        rw [hr2] at hz
        cases p with
        | slot p =>
          rw [NRef.addLoop] at hz
          cases hz
          have hslot := (h2.2 hp1).2 p hr2
          exact onward_update a (keepsR_addAfterLoop (rules0 _) ⟨hB, p, rfl, hslot.1, by rw [hsl]; exact hslot.2⟩)
        | _ => simp [NRef.addLoop] at hz
  obtain ⟨hp3, hle3⟩ := onward_of hroot hsl hzo hp2
  have hst := start_same hs1 hz'
  have hu' := hf { z with ctx := (v, b.2.addr ++ [.loop z.active]) :: z.ctx } u r.1.active ⟨hst.len, hst.bk, hst.node⟩ ⟨_, _, _, rfl⟩ (by
    rw [hereOf, currentContext]
    simp only [Option.getD_some]
    rw [bucketOf_loop, hz'.active, ha]
    exact hal.2) hu
  obtain ⟨hp4, hle4⟩ := hu' hp3
  have hle1 := (h1.1 hp).2
  have hle : t.slotIdx ≤ u.slotIdx := by
    have : z.slotIdx ≤ u.slotIdx := hle4
    omega
  split at h
  · cases h
  · split at h
    · cases h
    · cases h; exact ⟨hp4, hle⟩

mutual
  theorem tOne_lawful (C : Comp E) : ∀ (e : Expr E) (w : Option Int), (q → SafeE e) → Lawful A B q (shape e) (tOne C e) w
    | .loop m v i s, w, hq => by
      intro t t' par hs hw ha h
      rw [tOne] at h; rw [shape] at ha
      exact tLoop_lawful (tOne_lawful C s (some v) (fun h => by have := hq h; rwa [SafeE] at this)) t t' par hs hw ha h
    | .not e, w, hq => by
      intro t t' par hs hw ha h
      rw [tOne] at h; rw [shape] at ha
      exact tNot_lawful (tOne_lawful C e w (fun h => by have := hq h; rwa [SafeE] at this)) t t' par hs hw ha h
    | .or es, w, hq => by
      intro t t' par hs hw ha h
      rw [tOne] at h; rw [shape] at ha
      exact tOr_lawful C es w (fun h => by have := hq h; rwa [SafeE] at this) t t' par hs hw ha h
    | .and es, w, hq => by
      intro t t' par hs hw ha h
      rw [tOne] at h; rw [shape] at ha
      exact tAnd_lawful C es w (fun h => by have := hq h; rwa [SafeE] at this) t t' par hs hw ha h
    | .exist e, w, hq => by
      intro t t' par hs hw ha h
      rw [tOne] at h; simp only [shape] at ha
      exact tExists_onward hw ha (fun h => by have := hq h; rwa [SafeE] at this) h
    | .notExist e, w, hq => by
      intro t t' par hs hw ha h
      rw [tOne] at h; rw [shape] at ha
      exact tNot_lawful (s := .leaf) (w := w) (fun t1 t2 _ _ hw1 ha1 h1 => tExists_onward hw1 ha1
        (fun h => by have := hq h; rwa [SafeE] at this) h1) t t' par hs hw ha h
    | .cmp c l r, w, hq => by
      have hq' : q → SafeParam l ∧ SafeParam r := fun h => by have := hq h; rwa [SafeE] at this
      intro t t' par hs hw ha h
      rw [tOne] at h
      by_cases hc : c = .ne
      · subst hc
        rw [if_pos rfl] at h; rw [shape] at ha
        exact tNot_lawful (s := .leaf) (w := w) (fun t1 t2 _ _ hw1 ha1 h1 => tCompare_onward (by simp) hw1 ha1 hq' h1) t t' par hs hw ha h
      · rw [if_neg hc] at h
        have : shape (.cmp c l r : Expr E) = .leaf := by cases c <;> first | exact absurd rfl hc | simp [shape]
        rw [this] at ha
        exact tCompare_onward (opOf_ne c) hw ha hq' h
    | .tru, w, _ | .fals, w, _ | .value _, w, _ | .time _, w, _ | .regex _, w, _ | .pcre _, w, _ | .field _, w, _ | .func _ _, w, _ => by
      intro t t' par hs hw _ h
      simp only [tOne, Res.ok.injEq] at h
      rw [← h]; exact .refl t

  theorem tOr_lawful (C : Comp E) : ∀ (es : Exprs E) (w : Option Int), (q → SafeEs es) → Lawful A B q (shapes .or es) (tOr C es) w
    | .nil, w, _ => by intro t t' par hs hw _ h; rw [tOr] at h; cases h
    | .cons e .nil, w, hq => by
      intro t t' par hs hw ha h
      rw [tOr] at h; rw [shapes] at ha
      exact tOne_lawful C e w (fun h => by have := hq h; rw [SafeEs] at this; exact this.1) t t' par hs hw ha h
    | .cons e (.cons e' r), w, hq => by
      intro t t' par hs hw ha h
      rw [tOr.eq_def] at h; rw [shapes] at ha
      exact tBin_lawful (o := .or) (fun t1 t2 par h1 h2 => tOne_grown C e t1 t2 par h1 h2)
        (tOne_lawful C e w (fun h => by have := hq h; rw [SafeEs] at this; exact this.1))
        (tOr_lawful C (.cons e' r) w (fun h => by have := hq h; rw [SafeEs] at this; exact this.2)) t t' par hs hw ha h

  theorem tAnd_lawful (C : Comp E) : ∀ (es : Exprs E) (w : Option Int), (q → SafeEs es) → Lawful A B q (shapes .and es) (tAnd C es) w
    | .nil, w, _ => by intro t t' par hs hw _ h; rw [tAnd] at h; cases h
    | .cons e .nil, w, hq => by
      intro t t' par hs hw ha h
      rw [tAnd] at h; rw [shapes] at ha
      exact tOne_lawful C e w (fun h => by have := hq h; rw [SafeEs] at this; exact this.1) t t' par hs hw ha h
    | .cons e (.cons e' r), w, hq => by
      intro t t' par hs hw ha h
      rw [tAnd.eq_def] at h; rw [shapes] at ha
      exact tBin_lawful (o := .and) (fun t1 t2 par h1 h2 => tOne_grown C e t1 t2 par h1 h2)
        (tOne_lawful C e w (fun h => by have := hq h; rw [SafeEs] at this; exact this.1))
        (tAnd_lawful C (.cons e' r) w (fun h => by have := hq h; rw [SafeEs] at this; exact this.2)) t t' par hs hw ha h
end

theorem tMerge_lawful (C : Comp E) : ∀ (e : Expr E) (es : List (Expr E)) (t : T E) (r : T E × List Nat) (par : Nat), (q → ∀ x ∈ e :: es, SafeE x) →
    Start t par → Inside t none → Allows A B (hereOf t) (mergeSh (shape e) (es.map shape)) t.active → tMerge C (e :: es) t = .ok r →
    Onward A B q t r.1
  | e, [], t, r, par, hq, hs, hw, hal, h => by
    rw [tMerge] at h
    obtain ⟨t', ht', h⟩ := Res.bind_eq_ok.1 h
    cases h
    exact tOne_lawful C e none (fun h => hq h e (by simp)) t t' par hs hw hal ht'
  | e, e' :: es, t, r, par, hq, hs, hw, hal, h => by
    rw [tMerge] at h
    obtain ⟨t1, e1, ha, hs1, hc, hr, hsl, hn, hb⟩ := first_child (ty := .neor) hs
    obtain ⟨x, hx, h⟩ := Res.bind_eq_ok.1 h
    rw [hx, Res.bind_ok] at e1
    obtain ⟨y, hy, h⟩ := Res.bind_eq_ok.1 h
    have hy1 := Res.ok.inj (hy.symm.trans e1); subst hy1
    obtain ⟨t2, e2, h⟩ := Res.bind_eq_ok.1 h
    have hG := tOne_grown C e y t2 _ hs1 e2
    obtain ⟨t3, e3, ha3, hs3, hc3, hr3, hsl3, _⟩ := second_child (o := .neor) ha hn hb hG
    obtain ⟨z, hz, h⟩ := Res.bind_eq_ok.1 h
    have hz1 := Res.ok.inj (hz.symm.trans e3); subst hz1
    obtain ⟨p, hp, h⟩ := Res.bind_eq_ok.1 h
    cases h
    have hcc := hc3.trans (hG.ctx.trans hc)
    have k1 := onward_of hr hsl (tOne_lawful (A := A) (B := B) (q := q) C e none (fun h => hq h e (by simp)) y t2 _ hs1 (hw.of_ctx hc)
      (by rw [hereOf_ctx hc, ha]; exact hal.1) e2)
    exact k1.trans (onward_of hr3 hsl3 (tMerge_lawful C e' es z p _ (fun h x hx => hq h x (List.mem_cons_of_mem _ hx)) hs3 (hw.of_ctx hcc)
      (by rw [hereOf_ctx hcc, ha3]; exact hal.2) hp))

end

/-! ### Compiled definitions are laid out and safe -/

/-- Within the tree `S`: what the loop with bucket `b` may contain. -/
theorem allows_within (sh : Nat → Sh) : ∀ (x : Sh) (b : Nat) (S : Sh) (a : Nat), Match.ShOK sh x a → sh b = S →
    (∀ i, IsAtom x a i → IsAtom S b i) → (∀ i y, LoopAt x a i y → LoopAt S b i y) →
    Allows (fun b i => IsAtom (sh b) b i) (fun b i => LoopAt (sh b) b i (sh i)) b x a
  | .leaf, b, S, a, hok, hS, hA, hL => by rw [Allows, hS]; exact hA a rfl
  | .un .loop x, b, S, a, hok, hS, hA, hL => by
    rw [Allows]
    have hx : sh (a + 1) = x := hok x (a + 1) (Or.inr (BinTree.SubAt.refl ..))
    refine ⟨by rw [hS, hx]; exact hL (a + 1) x ⟨rfl, rfl⟩, ?_⟩
    exact allows_within sh x (a + 1) x (a + 1) (hok.sub (Or.inr (BinTree.SubAt.refl ..))) hx (fun _ h => h) (fun _ _ h => h)
  | .un .not x, b, S, a, hok, hS, hA, hL => by
    rw [Allows]
    exact allows_within sh x b S (a + 1) (hok.sub (Or.inr (BinTree.SubAt.refl ..))) hS hA hL
  | .bin o x y, b, S, a, hok, hS, hA, hL => by
    rw [Allows]
    exact ⟨allows_within sh x b S (a + 1) (hok.sub (Or.inr (Or.inl (BinTree.SubAt.refl ..)))) hS (fun i h => hA i (Or.inl h))
      (fun i z h => hL i z (Or.inl h)),
      allows_within sh y b S (a + 1 + x.size) (hok.sub (Or.inr (Or.inr (BinTree.SubAt.refl ..)))) hS (fun i h => hA i (Or.inr h))
      (fun i z h => hL i z (Or.inr h))⟩

mutual
  theorem Exec.Obeys.lies {sh : Nat → Sh} {q : Prop} {n : Nat} : ∀ (e : Exec E) (b : Nat),
      Exec.Obeys (rulesFor (fun b i => IsAtom (sh b) b i) (fun b i => LoopAt (sh b) b i (sh i)) q n) e b → e.Lies (sh b) b ∧ (q → e.Safe n)
    | .mk st es ops ls a, b, h => by
      rw [Exec.Obeys] at h
      have h1 := Elems.Obeys.lies es b h.2.1
      have h2 := Loops.Obeys.lies false ls b h.2.2.2.1
      have h3 := After.Obeys.lies a b h.2.2.2.2
      rw [Exec.Lies, Exec.Safe]
      exact ⟨⟨h1.1, fun o ho => (h.2.2.1 o ho).1, h2.1, h3.1⟩, fun hq => ⟨h.1, h1.2 hq, fun o ho => (h.2.2.1 o ho).2 hq, h2.2 hq, h3.2 hq⟩⟩
  theorem Elems.Obeys.lies {sh : Nat → Sh} {q : Prop} {n : Nat} : ∀ (es : Elems E) (b : Nat),
      Elems.Obeys (rulesFor (fun b i => IsAtom (sh b) b i) (fun b i => LoopAt (sh b) b i (sh i)) q n) es b → es.Lies (sh b) b ∧ (q → es.Safe n)
    | .nil, _, _ => ⟨trivial, fun _ => trivial⟩
    | .cons _ e r, b, h => by
      rw [Elems.Obeys] at h
      have h1 := Exec.Obeys.lies e b h.1
      have h2 := Elems.Obeys.lies r b h.2
      rw [Elems.Lies, Elems.Safe]
      exact ⟨⟨h1.1, h2.1⟩, fun hq => ⟨h1.2 hq, h2.2 hq⟩⟩
  theorem Loops.Obeys.lies {sh : Nat → Sh} {q : Prop} {n : Nat} (after : Bool) : ∀ (ls : Loops E) (b : Nat),
      Loops.Obeys (rulesFor (fun b i => IsAtom (sh b) b i) (fun b i => LoopAt (sh b) b i (sh i)) q n) after ls b →
      ls.Lies (sh b) b ∧ (q → ls.Safe n (if after then some () else none))
    | .nil, _, _ => ⟨trivial, fun _ => trivial⟩
    | .cons i _ t e r, b, h => by
      rw [Loops.Obeys] at h
      have h1 := Exec.Obeys.lies e i h.2.1
      have h2 := Loops.Obeys.lies after r b h.2.2
      rw [Loops.Lies]
      refine ⟨⟨⟨_, h.1.1, h1.1⟩, h2.1⟩, fun hq => ?_⟩
      have := h.1.2
      cases after <;> exact ⟨this, h1.2 hq, h2.2 hq⟩
  theorem After.Obeys.lies {sh : Nat → Sh} {q : Prop} {n : Nat} : ∀ (a : After E) (b : Nat),
      After.Obeys (rulesFor (fun b i => IsAtom (sh b) b i) (fun b i => LoopAt (sh b) b i (sh i)) q n) a b → a.Lies (sh b) b ∧ (q → a.Safe n)
    | .none, _, _ => ⟨trivial, fun _ => trivial⟩
    | .some ops ls, b, h => by
      rw [After.Obeys] at h
      have h2 := Loops.Obeys.lies true ls b h.2
      rw [After.Lies, After.Safe]
      exact ⟨⟨fun o ho => (h.1 o ho).1, h2.1⟩, fun hq => ⟨fun o ho => (h.1 o ho).2 hq, h2.2 hq⟩⟩
end

/-- Every compiled definition is laid out; if all function calls are, it is safe. -/
theorem transform_laid (C : Comp E) (slot0 : Nat) {es : List (Expr E)} {g : Expr E} {gs : List (Expr E)} (hes : genExprs es = g :: gs) {df : Def E}
    (h : transform C slot0 es = .ok df) : ∃ node, df.Laid (mergeSh (shape g) (gs.map shape)) node ∧
      ((∀ x ∈ g :: gs, SafeE x) → node.Safe df.numSlots) := by
  obtain ⟨h1, h2, _⟩ := C07_tree C slot0 es hes h
  have h' := h
  rw [transform_cons C slot0 es hes] at h'
  obtain ⟨r, hr, h'⟩ := Res.bind_eq_ok.1 h'
  cases h'
  have hok : Match.ShOK (subtree (mergeSh (shape g) (gs.map shape)) 0) (mergeSh (shape g) (gs.map shape)) 0 := subtree_ok _ 0
  have hS : subtree (mergeSh (shape g) (gs.map shape)) 0 0 = mergeSh (shape g) (gs.map shape) := hok _ 0 (BinTree.SubAt.refl ..)
  have hal := allows_within _ (mergeSh (shape g) (gs.map shape)) 0 _ 0 hok hS (fun _ h => h) (fun _ _ h => h)
  have hp := tMerge_lawful (q := ∀ x ∈ g :: gs, SafeE x) C g gs (initT slot0) r 0 id (initT_start slot0) rfl hal hr
    (obeys_empty (rules0 _) 0)
  have hl := Exec.Obeys.lies _ _ hp.1
  rw [hS] at hl
  exact ⟨r.1.root, ⟨rfl, h1, h2, hl.1⟩, hl.2⟩

/-! ### Documents -/

/-- A definition without a root node crashes. -/
theorem run_noParse (X : Fns E) {df : Def E} (hp : df.parse = none) {d : D} {data : List Nat} (hr : Begins data d) {m : M} (hm : Ready df m) :
    run X df m data = .panic := by
  have h2 := run_rel X df hr (sim_ready (ready_new df) data)
  have h3 := run_ready X hm data
  have hv : vRun X df { newV df with coll := (newMatcher df).coll } d = .panic := by rw [vRun, hp]
  rw [hv] at h2
  cases hy : run X df (newMatcher df) data with
  | ok a => rw [hy] at h2; exact h2.elim
  | stuck => rw [hy] at h2; exact h2.elim
  | panic =>
    rw [hy] at h3
    cases hz : run X df m data with
    | ok a => rw [hz] at h3; exact h3.elim
    | stuck => rw [hz] at h3; exact h3.elim
    | panic => rfl

theorem transform_nil (C : Comp E) (slot0 : Nat) {es : List (Expr E)} (hes : genExprs es = []) {df : Def E} (h : transform C slot0 es = .ok df) :
    df.parse = none := by
  rw [transform, hes] at h
  cases h
  rfl

/-- The result of a match on a text is that on the document it begins with, whatever the expressions. -/
theorem run_compiled (X : Fns E) (C : Comp E) (slot0 : Nat) {es : List (Expr E)} {df : Def E} (h : transform C slot0 es = .ok df) {d : D} (hd : d.WF) :
    (∃ b st, ∀ data m, Begins data d → Ready df m → ∃ n, run X df m data = .ok (some b, n) ∧ n.bt = st) ∨
      ((∀ data m, Begins data d → Ready df m → run X df m data = .panic) ∧ ¬ ((∀ e ∈ es, SafeE e) ∧ genExprs es ≠ [])) := by
  cases hes : genExprs es with
  | nil => exact Or.inr ⟨fun data m hb hm => run_noParse X (transform_nil C slot0 hes h) hb hm, fun hh => hh.2 rfl⟩
  | cons g gs =>
    obtain ⟨node, hl, hsafe⟩ := transform_laid C slot0 hes h
    cases hv : vRun X df (newV df) d with
    | ok bv =>
      refine Or.inl ⟨bv.1, bv.2.bt, fun data m hb hm => ?_⟩
      rcases run_document X hl hb hm with ⟨b, v, n, e1, e2, e3, _⟩ | ⟨e1, _⟩
      · rw [hv] at e1; cases e1
        exact ⟨n, e2, e3⟩
      · rw [hv] at e1; cases e1
    | panic =>
      refine Or.inr ⟨fun data m hb hm => ?_, fun hh => ?_⟩
      · rcases run_document X hl hb hm with ⟨b, v, n, e1, _⟩ | ⟨_, e2, _⟩
        · rw [hv] at e1; cases e1
        · exact e2
      · have hf := vRun_fares X hl hd
        rw [hv] at hf
        refine hf (hsafe (fun x hx => hh.1 x ?_))
        rw [← hes] at hx
        exact ((mem_genExprs x es).1 hx).1
    | stuck =>
      have hf := vRun_fares X hl hd
      rw [hv] at hf
      exact hf.elim

/-- **C93.**  Whatever the expressions, the bytes behind the document do not matter. -/
theorem C93_trailing : C93_full := by
  intro E X C slot0 es df h d hd ws ws' post post' h1 h2 hf hf' m m' hm hm' b n hrun
  rcases run_compiled X C slot0 h hd with ⟨b', st, hall⟩ | ⟨hall, _⟩
  · obtain ⟨n1, e1, _⟩ := hall _ m ⟨hd, ws, post, h1, hf, rfl⟩ hm
    obtain ⟨n2, e2, _⟩ := hall _ m' ⟨hd, ws', post', h2, hf', rfl⟩ hm'
    rw [hrun] at e1
    cases e1
    exact ⟨n2, e2⟩
  · rw [hall _ m ⟨hd, ws, post, h1, hf, rfl⟩ hm] at hrun
    cases hrun

/-- **C93**, with the results of the single expressions and with crashes: on two texts that begin with one document, either both matches crash or
both return the same verdict, and then all questions about single expressions have the same answers. -/
theorem C93_same (X : Fns E) (C : Comp E) (slot0 : Nat) {es : List (Expr E)} {df : Def E} (h : transform C slot0 es = .ok df) {d : D} (hd : d.WF)
    {data data' : List Nat} (hb : Begins data d) (hb' : Begins data' d) {m m' : M} (hm : Ready df m) (hm' : Ready df m') :
    (∃ b n n', run X df m data = .ok (some b, n) ∧ run X df m' data' = .ok (some b, n') ∧
      ∀ i, expressionMatched df n' i = expressionMatched df n i) ∨
    (run X df m data = .panic ∧ run X df m' data' = .panic) := by
  rcases run_compiled X C slot0 h hd with ⟨b, st, hall⟩ | ⟨hall, _⟩
  · obtain ⟨n1, e1, e1'⟩ := hall _ m hb hm
    obtain ⟨n2, e2, e2'⟩ := hall _ m' hb' hm'
    refine Or.inl ⟨b, n1, n2, e1, e2, fun i => ?_⟩
    unfold expressionMatched
    rw [e1', e2']
  · exact Or.inr ⟨hall _ m hb hm, hall _ m' hb' hm'⟩

/-- **C95.**  On a text that begins with a document a match never returns an error and never runs for ever, whatever was compiled (no condition on
the bodies of loops is needed, as it is for arbitrary bytes). -/
theorem C95_no_error (X : Fns E) (C : Comp E) (slot0 : Nat) {es : List (Expr E)} {df : Def E} (h : transform C slot0 es = .ok df) {d : D}
    {data : List Nat} (hb : Begins data d) {m : M} (hm : Ready df m) :
    run X df m data ≠ .stuck ∧ ∀ n, run X df m data ≠ .ok (none, n) := by
  rcases run_compiled X C slot0 h hb.wf with ⟨b, st, hall⟩ | ⟨hall, _⟩
  · obtain ⟨n1, e1, _⟩ := hall _ m hb hm
    rw [e1]
    exact ⟨by simp, by simp⟩
  · rw [hall _ m hb hm]
    exact ⟨by simp, by simp⟩

/-- **C95.**  If all calls of functions are safe and not all expressions are constants, it returns a verdict. -/
theorem C95_verdict (X : Fns E) (C : Comp E) (slot0 : Nat) {es : List (Expr E)} {df : Def E} (h : transform C slot0 es = .ok df)
    (hs : ∀ e ∈ es, SafeE e) {e : Expr E} (he : e ∈ es) (hn : NotConst e) {d : D} {data : List Nat} (hb : Begins data d) {m : M} (hm : Ready df m) :
    ∃ b n, run X df m data = .ok (some b, n) := by
  rcases run_compiled X C slot0 h hb.wf with ⟨b, st, hall⟩ | ⟨_, hc⟩
  · obtain ⟨n1, e1, _⟩ := hall _ m hb hm
    exact ⟨b, n1, e1⟩
  · refine absurd ⟨hs, fun hg => ?_⟩ hc
    have := (mem_genExprs e es).2 ⟨he, hn⟩
    rw [hg] at this
    cases this

/-- Two merged expressions, one with a loop in a loop, a comparison of fields of the element and a reference to the document from the inner
loop, the other a loop that waits for a field. -/
def demoDeep : List (Expr demoExt) := [demoNested, .loop .every 1 fieldA (.cmp .eq (.field ⟨1, []⟩) fieldB)]

theorem demoDeep_compiles : ∃ df, transform demoComp 0 demoDeep = .ok df :=
  (C86_compiles demoComp 0 demoDeep).1.2 (by
    intro e he
    simp only [demoDeep, List.mem_cons, List.not_mem_nil, or_false] at he
    rcases he with rfl | rfl
    · exact demoNested_compiles
    · simp only [Compiles, OkParam, OkArray, occs, fieldA, fieldB, Visible, Expr.Plain]
      exact ⟨by simp, by simp, by decide, Or.inl rfl, by simp, by simp, by decide⟩)

/-- `{"a":[{"a":1,"b":2},{"a":1,"b":1}]}` alone and followed by `,"b":` (`C93_trailing`, `C93_same`, `C95_no_error`, `C95_verdict`). -/
example : ∃ df, transform demoComp 0 demoDeep = .ok df ∧ ∀ m m', Ready df m → Ready df m' →
    ∃ b n n', run demoFns df m (docPairs.text ++ []) = .ok (some b, n) ∧ run demoFns df m' ([10] ++ (docPairs.text ++ [44, 34, 98, 34, 58])) = .ok (some b, n') ∧
      ∀ i, expressionMatched df n' i = expressionMatched df n i := by
  obtain ⟨df, h⟩ := demoDeep_compiles
  refine ⟨df, h, fun m m' hm hm' => ?_⟩
  have hb : Begins (docPairs.text ++ []) docPairs := ⟨docPairs_text.wf, [], [], by simp [IsWs], trivial, rfl⟩
  have hb' : Begins ([10] ++ (docPairs.text ++ [44, 34, 98, 34, 58])) docPairs := ⟨docPairs_text.wf, [10], _, by simp [IsWs], trivial, rfl⟩
  obtain ⟨b, n, e⟩ := C95_verdict demoFns demoComp 0 h (e := demoNested) (by
    intro e he
    simp only [demoDeep, List.mem_cons, List.not_mem_nil, or_false] at he
    rcases he with rfl | rfl <;> simp [demoNested, SafeE, SafeEs, SafeParam, fieldA, fieldB]) (by simp [demoDeep])
    (by simp [NotConst, demoNested]) hb hm
  rcases C93_same demoFns demoComp 0 h docPairs_text.wf hb hb' hm hm' with h1 | h1
  · exact h1
  · rw [h1.1] at e; cases e

/-- Why `C95_verdict` asks for safe calls: `DIV(a, 0) = 1` crashes on `{"a":1,"b":1}`. -/
theorem C95_safe_needed : verdictOf (.cmp .eq (.func (ascii "mathDivide") (.cons fieldA (.cons (.value (.int 0)) .nil))) one : Expr demoExt) textAB1 = .panic := by
  decide +kernel

/-- Why it asks for an expression that is no constant: `TRUE` alone crashes on every document. -/
theorem C95_constants_crash (X : Fns E) (C : Comp E) (slot0 : Nat) {es : List (Expr E)} {df : Def E} (h : transform C slot0 es = .ok df)
    (hc : ∀ e ∈ es, ¬ NotConst e) {d : D} {data : List Nat} (hb : Begins data d) {m : M} (hm : Ready df m) : run X df m data = .panic := by
  refine run_noParse X (transform_nil C slot0 ?_ h) hb hm
  cases hg : genExprs es with
  | nil => rfl
  | cons g gs =>
    have := (mem_genExprs g es).1 (by rw [hg]; simp)
    exact absurd this.2 (hc g this.1)

example : ∃ df, transform demoComp 0 [.tru, .fals] = .ok df ∧ run demoFns df (newMatcher df) textAB1 = .panic :=
  ⟨_, rfl, C95_constants_crash demoFns demoComp 0 (es := [.tru, .fals]) rfl (by simp [NotConst]) docAB1_text (ready_new _)⟩

end Verif.Transform
