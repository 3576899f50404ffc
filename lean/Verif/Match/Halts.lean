import Verif.Match.Bytes

/-!
# The matcher ends on any bytes, from any state

Definitions in which a node inside a loop has no loops of its own that run afterwards (`Neat`), and trees whose nodes lie
between their parent and their children (`Tame`).  Nothing is assumed of the matcher: its slots, its decision state and its
stall index may be anything a previous run (or error) left there.
-/

namespace Verif.BinTree
open Verif.Match (Ends idx_ends)

/-- Children come after, parents before a node. -/
structure Tame (t : Tree) : Prop where
  ne : 0 < t.length
  up : ∀ (i : Nat) (n : Node), t[i]? = some n → i ≠ 0 → n.parent < i
  left : ∀ (i : Nat) (n : Node), t[i]? = some n → n.ty.hasLeft = true → i < n.left ∧ n.left < t.length
  right : ∀ (i : Nat) (n : Node), t[i]? = some n → n.ty.hasRight = true → i < n.right ∧ n.right < t.length

/-- Entries that are decided stay as they are. -/
def Kept (d d' : List SV) : Prop := ∀ (j : Nat) (x : SV), d[j]? = some x → x ≠ .unknown → d'[j]? = some x

theorem Kept.refl (d : List SV) : Kept d d := fun _ _ h _ => h

theorem Kept.trans {a b c : List SV} (h : Kept a b) (h' : Kept b c) : Kept a c := fun j x e n => h' j x (h j x e n) n

theorem Kept.set {d : List SV} {i : Nat} (hi : d[i]? = some .unknown) (x : SV) : Kept d (d.set i x) := by
  intro j y e n
  rw [List.getElem?_set]
  split
  · rename_i hij; subst hij; rw [hi] at e; cases e; exact absurd rfl n
  · exact e

theorem idx_some {α : Type} (l : List α) (i : Nat) : Ends (fun a => l[i]? = some a) (Res.idx l i) := by
  unfold Res.idx
  split
  · assumption
  · trivial

theorem lt_of_some {α : Type} {l : List α} {i : Nat} {a : α} (h : l[i]? = some a) : i < l.length :=
  (List.getElem?_eq_some_iff.1 h).1

section
variable {t : Tree} (ht : Tame t)
include ht

theorem resetNodeRecursive_ends (fuel : Nat) : ∀ (d : List SV) (i : Nat), 0 < fuel → (i < t.length → t.length ≤ i + fuel) →
    Ends (fun d' => ∀ j < i, d'[j]? = d[j]?) (resetNodeRecursive t fuel d i) := by
  induction fuel with
  | zero => intro d i h _; omega
  | succ fuel ih =>
    intro d i _ hf
    rw [resetNodeRecursive]
    refine (idx_ends _ _).bind (fun _ _ => (idx_some t i).bind (fun n hn => ?_))
    have hi := hf (lt_of_some hn)
    have h0 : ∀ j < i, (d.set i SV.unknown)[j]? = d[j]? := fun j hj => List.getElem?_set_ne (by omega)
    refine Ends.bind (P := fun d' => ∀ j < i, d'[j]? = d[j]?) ?_ (fun d1 h1 => ?_)
    · split
      · rename_i hl
        have := ht.left i n hn hl
        exact (ih _ _ (by omega) (fun _ => by omega)).mono (fun d' hd j hj => (hd j (by omega)).trans (h0 j hj))
      · exact h0
    · split
      · rename_i hl
        have := ht.right i n hn hl
        exact (ih _ _ (by omega) (fun _ => by omega)).mono (fun d' hd j hj => (hd j (by omega)).trans (h1 j hj))
      · exact h1

theorem resetNode_ends (s : State) (i : Nat) : Ends (fun s' => ∀ j < i, s'.data[j]? = s.data[j]?) (resetNode t s i) := by
  unfold resetNode
  have := ht.ne
  exact (resetNodeRecursive_ends ht t.length s.data i ht.ne (fun _ => by omega)).bind (fun d hd => hd)

theorem resolveRecursive_ends (fuel : Nat) : ∀ (d : List SV) (i : Nat), 0 < fuel → (i < t.length → t.length ≤ i + fuel) →
    Ends (Kept d) (resolveRecursive t fuel d i) := by
  induction fuel with
  | zero => intro d i h _; omega
  | succ fuel ih =>
    intro d i _ hf
    rw [resolveRecursive]
    refine (idx_some t i).bind (fun n hn => ?_)
    have hi := hf (lt_of_some hn)
    have hv : ∀ (d : List SV) (c : Nat), i < c → c < t.length → Ends (Kept d) (resolveVisit (resolveRecursive t fuel) d c) := by
      intro d c h1 h2
      unfold resolveVisit
      refine (idx_some d c).bind (fun x hx => ?_)
      split
      · rename_i e; subst e
        exact (ih _ _ (by omega) (fun _ => by omega)).mono (fun d' h => (Kept.set hx _).trans h)
      · exact Kept.refl d
    refine Ends.bind (P := Kept d) ?_ (fun d1 h1 => ?_)
    · split
      · rename_i hl
        have := ht.left i n hn hl
        exact hv _ _ this.1 this.2
      · exact Kept.refl d
    · split
      · rename_i hl
        have := ht.right i n hn hl
        exact (hv _ _ this.1 this.2).mono (fun d' h => h1.trans h)
      · exact h1

omit ht in
theorem checkNode_ends (d : List SV) (i : Nat) : Ends (fun _ => True) (checkNode t d i) := by
  have key : ∀ {β : Type} (j : Nat) (f : SV → Res β), (∀ x, Ends (fun _ => True) (f x)) → Ends (fun _ => True) (Res.idx d j >>= f) :=
    fun j f hf => (idx_ends _ _).bind (fun x _ => hf x)
  unfold checkNode
  refine (idx_ends _ _).bind (fun n _ => ?_)
  cases n.ty <;> simp only
  · trivial
  all_goals repeat (first
    | trivial
    | (refine key _ _ (fun _ => ?_); try dsimp only)
    | split
    | (simp only [Res.pure_eq, Res.bind_ok]; trivial))

theorem markNodeAux_ends (stall : Nat) (fuel : Nat) : ∀ (d : List SV) (i : Nat) (v : Bool), 0 < fuel → (i < t.length → i + 1 ≤ fuel) →
    Ends (Kept d) (markNodeAux t stall fuel d i v) := by
  induction fuel with
  | zero => intro d i _ h _; omega
  | succ fuel ih =>
    intro d i v _ hf
    rw [markNodeAux]
    refine (idx_some d i).bind (fun x hx => ?_)
    split
    · trivial
    · rename_i hu
      have hu : x = .unknown := by simpa using hu
      subst hu
      dsimp only
      refine (resolveRecursive_ends ht t.length _ i ht.ne (fun _ => by omega)).bind (fun d1 h1 => ?_)
      have hk : Kept d d1 := (Kept.set hx _).trans h1
      split
      · exact hk
      · rename_i hi0
        have rest : Ends (Kept d) (Res.idx t i >>= fun n => checkNode t d1 n.parent >>= fun r => match r with
            | none => pure d1
            | some w => markNodeAux t stall fuel d1 n.parent w) := by
          refine (idx_some t i).bind (fun n hn => (checkNode_ends d1 n.parent).bind (fun r _ => ?_))
          have := ht.up i n hn hi0
          have := hf (lt_of_some hn)
          cases r with
          | none => exact hk
          | some w => exact (ih d1 n.parent w (by omega) (fun _ => by omega)).mono (fun d' h => hk.trans h)
        split
        · exact hk
        · exact rest

theorem markNode_ends (s : State) (i : Nat) (v : Bool) : Ends (fun s' => Kept s.data s'.data) (markNode t s i v) := by
  unfold markNode
  exact (markNodeAux_ends ht s.stall t.length s.data i v ht.ne (fun h => h)).bind (fun d hd => hd)

theorem resolveLoop_ends (k : Nat) : ∀ s : State, Ends (fun _ => True) (resolveLoop t k s) := by
  induction k with
  | zero => intro s; trivial
  | succ k ih =>
    intro s
    rw [resolveLoop]
    refine (idx_ends _ _).bind (fun x _ => Ends.bind (P := fun _ => True) ?_ (fun s' _ => (idx_ends _ _).bind (fun r _ => ?_)))
    · split
      · exact (markNode_ends ht s k false).mono (fun _ _ => trivial)
      · trivial
    · split
      · trivial
      · exact ih s'

end

/-- The root is decided. -/
def Dec (s : State) : Prop := ∃ x, s.data[0]? = some x ∧ x ≠ .unknown

theorem isResolved_ends (s : State) (i : Nat) : Ends (fun _ => True) (isResolved s i) := by
  unfold isResolved
  exact (idx_ends _ _).bind (fun _ _ => trivial)

theorem isTrue_ends (s : State) (i : Nat) : Ends (fun _ => True) (isTrue s i) := by
  unfold isTrue
  exact (idx_ends _ _).bind (fun _ _ => trivial)

theorem isResolved_root (s : State) : Ends (fun d => d = true ↔ Dec s) (isResolved s 0) := by
  unfold isResolved
  refine (idx_some _ _).bind (fun x hx => ?_)
  show decide (x ≠ .unknown) = true ↔ Dec s
  constructor
  · intro h; exact ⟨x, hx, by simpa using h⟩
  · rintro ⟨y, hy, hn⟩; rw [hx] at hy; cases hy; simpa using hn

theorem resolve_ends {t : Tree} (ht : Tame t) (s : State) : Ends (fun _ => True) (resolve t s) := by
  unfold resolve
  refine (isResolved_ends s 0).bind (fun d _ => ?_)
  split
  · trivial
  · exact resolveLoop_ends ht _ s

theorem Kept.dec {s s' : State} (h : Kept s.data s'.data) (hd : Dec s) : Dec s' := by
  obtain ⟨x, e, n⟩ := hd
  exact ⟨x, h 0 x e n, n⟩

end Verif.BinTree

namespace Verif.Match
open Verif.Token Verif.FastVal
open Verif.BinTree (Tree State Tame Dec Kept)

variable {E : Ext}

mutual
  /-- No loop has bucket 0, and no node inside a loop has loops that run afterwards; `top = false` asks the latter of the
  node itself. -/
  def Exec.Neat : Bool → Exec E → Prop
    | top, .mk _ es _ ls a => es.Neat top ∧ ls.Neat ∧ a.Neat top
  def Elems.Neat : Bool → Elems E → Prop
    | _, .nil => True
    | top, .cons _ e r => e.Neat top ∧ r.Neat top
  def Loops.Neat : Loops E → Prop
    | .nil => True
    | .cons b _ _ e r => b ≠ 0 ∧ e.Neat false ∧ r.Neat
  def After.Neat : Bool → After E → Prop
    | _, .none => True
    | top, .some _ ls => ls.Neat ∧ (top = false → ls = .nil)
end

theorem Elems.Neat.find {top : Bool} {es : Elems E} (h : es.Neat top) {k e} (he : es.find k = some e) : e.Neat top := by
  match es with
  | .cons k' e' r =>
    rw [Elems.find] at he
    rw [Elems.Neat] at h
    split at he
    · simp at he; subst he; exact h.1
    · exact Elems.Neat.find h.2 he

/-- Work that leaves the tokenizer further along, inside the input. -/
structure Fwd (m m' : M) : Prop where
  data : m'.tk.data = m.tk.data
  keep : Dec m.bt → Dec m'.bt
  len : m'.tk.pos ≤ m.tk.data.length
  pos : m.tk.pos ≤ m'.tk.pos

/-- Work of a node: further along, or (outside of loops) the root is decided or the next token cannot be read. -/
structure Adv (top : Bool) (m m' : M) : Prop where
  data : m'.tk.data = m.tk.data
  keep : Dec m.bt → Dec m'.bt
  on : (top = true ∧ Dec m'.bt) ∨ (m'.tk.pos ≤ m.tk.data.length ∧ ((top = true ∧ Fails m'.tk) ∨ m.tk.pos ≤ m'.tk.pos))

/-- Work that ends where it started, or (outside of loops) decides the root or ends before an unreadable token. -/
structure Th (top : Bool) (m m' : M) : Prop where
  data : m'.tk.data = m.tk.data
  keep : Dec m.bt → Dec m'.bt
  on : m'.tk = m.tk ∨ (top = true ∧ (Dec m'.bt ∨ (Fails m'.tk ∧ m'.tk.pos ≤ m.tk.data.length)))

/-- The tokenizer stands before an unreadable token. -/
structure Bad (m m' : M) : Prop where
  data : m'.tk.data = m.tk.data
  keep : Dec m.bt → Dec m'.bt
  len : m'.tk.pos ≤ m.tk.data.length
  fails : Fails m'.tk

theorem Fwd.refl {m : M} (h : m.tk.pos ≤ m.tk.data.length) : Fwd m m := ⟨rfl, id, h, Nat.le_refl _⟩

theorem Fwd.trans {a b c : M} (h : Fwd a b) (h' : Fwd b c) : Fwd a c :=
  ⟨h'.data.trans h.data, fun d => h'.keep (h.keep d), by rw [← h.data]; exact h'.len, Nat.le_trans h.pos h'.pos⟩

theorem Fwd.bad {a b c : M} (h : Fwd a b) (h' : Bad b c) : Bad a c :=
  ⟨h'.data.trans h.data, fun d => h'.keep (h.keep d), by rw [← h.data]; exact h'.len, h'.fails⟩

theorem Fwd.here {a b : M} (h : Fwd a b) : b.tk.pos ≤ b.tk.data.length := by rw [h.data]; exact h.len

theorem Bad.trans {a b c : M} (h : Bad a b) (h' : Bad b c) : Bad a c :=
  ⟨h'.data.trans h.data, fun d => h'.keep (h.keep d), by rw [← h.data]; exact h'.len, h'.fails⟩

theorem Bad.here {a b : M} (h : Bad a b) : b.tk.pos ≤ b.tk.data.length := by rw [h.data]; exact h.len

theorem Fwd.adv {top : Bool} {a b : M} (h : Fwd a b) : Adv top a b := ⟨h.data, h.keep, Or.inr ⟨h.len, Or.inr h.pos⟩⟩

theorem Adv.fwd {a b : M} (h : Adv false a b) : Fwd a b := by
  refine ⟨h.data, h.keep, ?_, ?_⟩
  · rcases h.on with ⟨h, _⟩ | ⟨h, _⟩
    · cases h
    · exact h
  · rcases h.on with ⟨h, _⟩ | ⟨_, ⟨h, _⟩ | h⟩
    · cases h
    · cases h
    · exact h

theorem Fwd.tk {m : M} {k : Tkn} (hd : k.data = m.tk.data) (hp : m.tk.pos ≤ k.pos) (hl : k.pos ≤ m.tk.data.length) :
    Fwd m { m with tk := k } := ⟨hd, id, hl, hp⟩

theorem Th.refl (top : Bool) (m : M) : Th top m m := ⟨rfl, id, Or.inl rfl⟩

theorem Th.trans {top : Bool} {a b c : M} (h : Th top a b) (h' : Th top b c) : Th top a c := by
  refine ⟨h'.data.trans h.data, fun d => h'.keep (h.keep d), ?_⟩
  rcases h'.on with e | ⟨ht, hd | ⟨hf, hl⟩⟩
  · rcases h.on with e' | ⟨ht, hd | ⟨hf, hl⟩⟩
    · exact Or.inl (e.trans e')
    · exact Or.inr ⟨ht, Or.inl (h'.keep hd)⟩
    · exact Or.inr ⟨ht, Or.inr (by rw [e]; exact ⟨hf, hl⟩)⟩
  · exact Or.inr ⟨ht, Or.inl hd⟩
  · exact Or.inr ⟨ht, Or.inr ⟨hf, by rw [← h.data]; exact hl⟩⟩

theorem Adv.th {top : Bool} {a b c : M} (h : Adv top a b) (h' : Th top b c) : Adv top a c := by
  refine ⟨h'.data.trans h.data, fun d => h'.keep (h.keep d), ?_⟩
  rcases h'.on with e | ⟨ht, hd | ⟨hf, hl⟩⟩
  · rw [e]
    rcases h.on with ⟨ht, hd⟩ | hx
    · exact Or.inl ⟨ht, h'.keep hd⟩
    · exact Or.inr hx
  · exact Or.inl ⟨ht, hd⟩
  · exact Or.inr ⟨by rw [← h.data]; exact hl, Or.inl ⟨ht, hf⟩⟩

section
variable (X : Fns E) {t : Tree} (ht : Tame t)
include ht

theorem opsM_ends (lit : Option (FV E)) (ops : List (Op E)) (m : M) :
    Ends (fun r => r.2.tk = m.tk ∧ (Dec m.bt → Dec r.2.bt) ∧ (r.1 = true → Dec r.2.bt)) (opsM X t lit ops m) := by
  have key : ∀ (ops : List (Op E)) (bt : State) (coll : Bool),
      Ends (fun r => (Dec bt → Dec r.2.1) ∧ (r.1 = true → Dec r.2.1)) (runOps X t (literalFromSlot m) lit ops bt coll) := by
    intro ops
    induction ops with
    | nil => intro bt coll; exact ⟨id, by simp⟩
    | cons op ops ih =>
      intro bt coll
      rw [runOps]
      refine Ends.bind (P := fun r => Dec bt → Dec r.1) ?_ (fun r hr => (BinTree.isResolved_root r.1).bind (fun d hd => ?_))
      · unfold matchOp
        refine (BinTree.isResolved_ends _ _).bind (fun x _ => ?_)
        split
        · exact id
        · exact (opResult_ends X lit (literalFromSlot_ends m) op).bind (fun o _ =>
            (BinTree.markNode_ends ht bt op.bucket o.1).bind (fun bt' hk => hk.dec))
      · split
        · rename_i h
          exact ⟨hr, fun _ => hd.1 h⟩
        · exact (ih r.1 r.2).mono (fun r' h' => ⟨fun d => h'.1 (hr d), h'.2⟩)
  unfold opsM
  exact (key ops m.bt m.coll).bind (fun r hr => ⟨rfl, hr.1, hr.2⟩)

omit ht

/-- The recursive calls behave. -/
def RecEnds (top : Bool) (h : Nat) (rec : Rec E) : Prop :=
  ∀ (node : Exec E) ty w m, node.Neat top → node.height ≤ h → m.tk.pos ≤ m.tk.data.length →
    Ends (fun r => Adv top m r.2 ∧ (r.1 = true → Bad m r.2)) (rec node ty w m)

/-! ### Objects and arrays -/

theorem objValue_halts {top : Bool} {h : Nat} {rec : Rec E} (hrec : RecEnds top h rec) {elems : Elems E} (hn : elems.Neat top)
    (hh : elems.height ≤ h) (key : List Nat) (ty : Tok) (w : List Nat) {m : M} (hm : m.tk.pos ≤ m.tk.data.length) :
    Ends (fun r => (r.1 = true → Adv top m r.2) ∧ (r.1 = false → Fwd m r.2 ∨ (Bad m r.2 ∧ Adv top m r.2))) (objValue rec elems key ty w m) := by
  unfold objValue
  split
  · rename_i e he
    refine (hrec e ty w m (hn.find he) (Nat.le_trans (Elems.height_find he) hh) hm).bind (fun r hr => ?_)
    refine (BinTree.isResolved_root r.2.bt).bind (fun d hd => ⟨fun _ => hr.1, fun h0 => ?_⟩)
    have hnd : ¬ Dec r.2.bt := fun hc => by rw [hd.2 hc] at h0; cases h0
    rcases hr.1.on with ⟨_, h1⟩ | ⟨hl, ⟨_, hf⟩ | hp⟩
    · exact absurd h1 hnd
    · exact Or.inr ⟨⟨hr.1.data, hr.1.keep, hl, hf⟩, hr.1⟩
    · exact Or.inl ⟨hr.1.data, hr.1.keep, hl, hp⟩
  · refine (skipValue_ends ty m.tk hm).bind ?_
    rintro ⟨x, k⟩ hk
    exact ⟨fun hh => (by cases hh), fun _ => Or.inl (Fwd.tk hk.data hk.pos hk.len)⟩

/-- The outcome of walking over an object or array: `(err != nil, shouldReturn)`. -/
def WalkT (top : Bool) (m : M) (r : Bool × Bool × M) : Prop :=
  Adv top m r.2.2 ∧ (r.1 = true → r.2.1 = true ∧ Bad m r.2.2)

theorem Fwd.then {top : Bool} {a b c : M} (h : Fwd a b) (h' : Adv top b c) : Adv top a c := by
  refine ⟨h'.data.trans h.data, fun d => h'.keep (h.keep d), ?_⟩
  rcases h'.on with hx | ⟨hl, hf | hp⟩
  · exact Or.inl hx
  · exact Or.inr ⟨by rw [← h.data]; exact hl, Or.inl hf⟩
  · exact Or.inr ⟨by rw [← h.data]; exact hl, Or.inr (Nat.le_trans h.pos hp)⟩

theorem WalkT.from {top : Bool} {m m' : M} {r} (h : Fwd m m') (hr : WalkT top m' r) : WalkT top m r :=
  ⟨h.then hr.1, fun e => ⟨(hr.2 e).1, h.bad (hr.2 e).2⟩⟩

theorem objItem_halts {top : Bool} {h : Nat} {rec : Rec E} (hrec : RecEnds top h rec) {elems : Elems E} (hn : elems.Neat top)
    (hh : elems.height ≤ h) (arr : Bool) (idx : Nat) {k : M → Res (Bool × Bool × M)} {m : M} (hm : m.tk.pos ≤ m.tk.data.length)
    (hk1 : ∀ m', Fwd m m' → Ends (WalkT top m') (k m')) (hk2 : ∀ m', Bad m m' → k m' = .ok (true, true, m')) :
    Ends (WalkT top m) (objItem rec elems arr idx k m) := by
  unfold objItem
  rcases step_cases m.tk hm with ⟨e, hF⟩ | ⟨ty, w, k1, e, hd, hp, hl, _⟩
  · rw [e]; exact ⟨(Fwd.refl hm).adv, fun _ => ⟨rfl, rfl, id, hm, hF⟩⟩
  · rw [e]
    have hM1 : Fwd m { m with tk := k1 } := Fwd.tk hd hp hl
    dsimp only
    have fin : ∀ {m2 : M} (r : Bool × M), Fwd m m2 → (r.1 = true → Adv top m2 r.2) ∧ (r.1 = false → Fwd m2 r.2 ∨ (Bad m2 r.2 ∧ Adv top m2 r.2)) →
        Ends (WalkT top m) (if r.1 then .ok (false, true, r.2) else k r.2) := by
      rintro m2 ⟨x, m3⟩ hM2 ⟨h1, h2⟩
      cases x with
      | true => exact ⟨hM2.then (h1 rfl), fun hh => (by cases hh)⟩
      | false =>
        simp only [Bool.false_eq_true, if_false]
        rcases h2 rfl with hM3 | ⟨hF, hA⟩
        · exact (hk1 m3 (hM2.trans hM3)).mono (fun r hr => WalkT.from (hM2.trans hM3) hr)
        · rw [hk2 m3 (hM2.bad hF)]
          exact ⟨hM2.then hA, fun _ => ⟨rfl, hM2.bad hF⟩⟩
    by_cases hend : ty = (if arr then Tok.arrayEnd else .objectEnd)
    · rw [if_pos hend]; exact ⟨hM1.adv, fun hh => (by cases hh)⟩
    · rw [if_neg hend]
      refine (keyBytes_ends arr ty w).bind (fun key _ => ?_)
      split
      · exact (objValue_halts hrec hn hh (indexKey idx) ty w hM1.here).bind (fun r hr => fin r hM1 hr)
      · rcases step_cases k1 (by rw [hd]; exact hl) with ⟨e2, hF⟩ | ⟨ty2, w2, k2, e2, hd2, hp2, hl2, _⟩
        · rw [e2]
          exact ⟨hM1.adv, fun _ => ⟨rfl, hd, id, hl, hF⟩⟩
        · rw [e2]
          dsimp only
          split
          · trivial
          · rw [hd] at hl2
            rcases step_cases k2 (by rw [hd2, hd]; exact hl2) with ⟨e3, hF⟩ | ⟨ty3, w3, k3, e3, hd3, hp3, hl3, _⟩
            · rw [e3]
              exact ⟨(Fwd.tk (hd2.trans hd) (Nat.le_trans hp hp2) hl2).adv, fun _ => ⟨rfl, hd2.trans hd, id, hl2, hF⟩⟩
            · rw [e3]
              rw [hd2, hd] at hl3
              have hM3 : Fwd m { m with tk := k3 } := Fwd.tk (hd3.trans (hd2.trans hd)) (Nat.le_trans hp (Nat.le_trans hp2 hp3)) hl3
              exact (objValue_halts hrec hn hh key ty3 w3 hM3.here).bind (fun r hr => fin r hM3 hr)

theorem objLoop_halts {top : Bool} {h : Nat} {rec : Rec E} (hrec : RecEnds top h rec) {elems : Elems E} (hn : elems.Neat top)
    (hh : elems.height ≤ h) (arr : Bool) (fuel : Nat) : ∀ (idx : Nat) {m : M}, m.tk.pos ≤ m.tk.data.length →
      m.tk.data.length < m.tk.pos + fuel → Ends (WalkT top m) (objLoop rec elems arr fuel idx m) := by
  induction fuel with
  | zero => intro idx m hm hl; omega
  | succ fuel ih =>
    intro idx m hm hfu
    rw [objLoop]
    rcases step_cases m.tk hm with ⟨e, hF⟩ | ⟨ty, w, k1, e, hd, hp, hl, hpr⟩
    · rw [e]; exact ⟨(Fwd.refl hm).adv, fun _ => ⟨rfl, rfl, id, hm, hF⟩⟩
    · rw [e]
      have hM1 : Fwd m { m with tk := k1 } := Fwd.tk hd hp hl
      dsimp only
      have hitem : ty ≠ .end_ → Ends (WalkT top m) (objItem rec elems arr (idx + 1) (objLoop rec elems arr fuel (idx + 1)) { m with tk := k1 }) := by
        intro hne
        have hlt : m.tk.pos < k1.pos := by
          rcases hpr with h | h
          · exact absurd h hne
          · exact h
        obtain ⟨f, rfl⟩ : ∃ f, fuel = f + 1 := ⟨fuel - 1, by omega⟩
        refine (objItem_halts hrec hn hh arr (idx + 1) hM1.here ?_ ?_).mono (fun r hr => WalkT.from hM1 hr)
        · intro m' hM
          refine ih (idx + 1) hM.here ?_
          have h1 := hM.pos
          have h2 := hM.data
          simp only [hd] at h1 h2
          rw [h2]
          omega
        · intro m' hF
          exact objLoop_fails f (idx + 1) hF.fails hF.here
      cases ty <;> dsimp only <;> first
        | trivial
        | exact hitem (by simp)
        | exact ⟨hM1.adv, fun hh => (by cases hh)⟩

theorem matchObjArr_halts {top : Bool} {h : Nat} {rec : Rec E} (hrec : RecEnds top h rec) {elems : Elems E} (hn : elems.Neat top)
    (hh : elems.height ≤ h) (arr : Bool) {m : M} (hm : m.tk.pos ≤ m.tk.data.length) :
    Ends (WalkT top m) (matchObjArr rec elems arr m) := by
  refine objItem_halts hrec hn hh arr 0 hm ?_ ?_
  · intro m' hM
    refine objLoop_halts hrec hn hh arr _ 0 hM.here ?_
    rw [hM.data]; omega
  · intro m' hF
    exact objLoop_fails _ 0 hF.fails hF.here

/-! ### Loops -/

include ht

theorem loopItem_halts {h : Nat} {rec : Rec E} (hrec : RecEnds false h rec) {bucket : Nat} (hb : bucket ≠ 0) (mode : Mode) {node : Exec E}
    (hn : node.Neat false) (hh : node.height ≤ h) {k : Bool → M → Res (Option Bool × M)} (st : Bool) {m : M} (hm : m.tk.pos ≤ m.tk.data.length)
    (hk : ∀ st m', Fwd m m' → Ends (fun r => Fwd m' r.2 ∧ (r.1 = none → Fails r.2.tk)) (k st m')) :
    Ends (fun r => Fwd m r.2 ∧ (r.1 = none → Fails r.2.tk)) (loopItem rec t bucket mode node k st m) := by
  unfold loopItem
  rcases step_cases m.tk hm with ⟨e, hF⟩ | ⟨ty, w, k1, e, hd, hp, hl, _⟩
  · rw [e]; exact ⟨Fwd.refl hm, fun _ => hF⟩
  · rw [e]
    dsimp only
    have hM1 : Fwd m { m with tk := k1 } := Fwd.tk hd hp hl
    split
    · exact ⟨hM1, by simp⟩
    · refine (BinTree.resetNode_ends ht m.bt bucket).bind (fun bt hbt => ?_)
      have hM2 : Fwd m { m with tk := k1, bt := bt } := by
        refine ⟨hd, ?_, hl, hp⟩
        rintro ⟨x, e, n⟩
        exact ⟨x, (hbt 0 (by omega)).trans e, n⟩
      refine (hrec node ty w _ hn hh hM2.here).bind ?_
      rintro ⟨x, m3⟩ ⟨hA, hB⟩
      have hM3 := hM2.trans hA.fwd
      cases x with
      | true => exact ⟨hM3, fun _ => (hB rfl).fails⟩
      | false =>
        simp only [Bool.false_eq_true, if_false]
        refine (BinTree.isTrue_ends _ _).bind (fun it _ => ?_)
        split
        · refine (leaveValue_ends m3.tk hM3.here).bind (fun l hl => ?_)
          exact ⟨hM3.trans (Fwd.tk hl.data hl.pos hl.len), by simp⟩
        · exact (hk _ m3 hM3).mono (fun r hr => ⟨hM3.trans hr.1, hr.2⟩)

theorem loopLoop_halts {h : Nat} {rec : Rec E} (hrec : RecEnds false h rec) {bucket : Nat} (hb : bucket ≠ 0) (mode : Mode) {node : Exec E}
    (hn : node.Neat false) (hh : node.height ≤ h) (fuel : Nat) : ∀ (st : Bool) {m : M}, m.tk.pos ≤ m.tk.data.length →
      m.tk.data.length < m.tk.pos + fuel →
      Ends (fun r => Fwd m r.2 ∧ (r.1 = none → Fails r.2.tk)) (loopLoop rec t bucket mode node fuel st m) := by
  induction fuel with
  | zero => intro st m hm hl; omega
  | succ fuel ih =>
    intro st m hm hfu
    rw [loopLoop]
    rcases step_cases m.tk hm with ⟨e, hF⟩ | ⟨ty, w, k1, e, hd, hp, hl, hpr⟩
    · rw [e]; exact ⟨Fwd.refl hm, fun _ => hF⟩
    · rw [e]
      have hM1 : Fwd m { m with tk := k1 } := Fwd.tk hd hp hl
      dsimp only
      have hitem : ty ≠ .end_ → Ends (fun r => Fwd m r.2 ∧ (r.1 = none → Fails r.2.tk))
          (loopItem rec t bucket mode node (loopLoop rec t bucket mode node fuel) st { m with tk := k1 }) := by
        intro hne
        have hlt : m.tk.pos < k1.pos := by
          rcases hpr with h | h
          · exact absurd h hne
          · exact h
        refine (loopItem_halts ht hrec hb mode hn hh st hM1.here ?_).mono (fun r hr => ⟨hM1.trans hr.1, hr.2⟩)
        intro st' m' hM
        refine ih st' hM.here ?_
        have h1 := hM.pos
        have h2 := hM.data
        simp only [hd] at h1 h2
        rw [h2]
        omega
      cases ty <;> dsimp only <;> first
        | trivial
        | exact hitem (by simp)
        | exact ⟨hM1, by simp⟩

theorem matchLoop_halts {h : Nat} {rec : Rec E} (hrec : RecEnds false h rec) {bucket : Nat} (hb : bucket ≠ 0) (mode : Mode) {node : Exec E}
    (hn : node.Neat false) (hh : node.height ≤ h) (ty : Tok) {m : M} (hm : m.tk.pos ≤ m.tk.data.length) :
    Ends (fun r => Fwd m r.2 ∧ (r.1 = true → Fails r.2.tk)) (matchLoop rec t bucket mode node ty m) := by
  unfold matchLoop
  split
  · exact ⟨Fwd.refl hm, by simp⟩
  · refine (BinTree.isResolved_ends _ _).bind (fun r _ => ?_)
    split
    · exact (skipValue_ends ty m.tk hm).bind (fun l hl => ⟨Fwd.tk hl.data hl.pos hl.len, by simp⟩)
    · have h0 : Fwd m { m with bt := (BinTree.setStallIndex m.bt bucket).1 } := ⟨rfl, id, hm, Nat.le_refl _⟩
      refine (loopItem_halts ht hrec hb mode hn hh mode.init h0.here ?_).bind ?_
      · intro st m' hM
        refine loopLoop_halts ht hrec hb mode hn hh _ st hM.here ?_
        rw [hM.data]; simp only; omega
      · rintro ⟨o, m'⟩ ⟨hM, hF⟩
        have hM' := h0.trans hM
        cases o with
        | none => exact ⟨hM', fun _ => hF rfl⟩
        | some b =>
          simp only
          refine (BinTree.resetNode_ends ht m'.bt bucket).bind (fun bt hbt => ?_)
          refine (BinTree.markNode_ends ht _ bucket b).bind (fun bt' hk => ?_)
          refine ⟨⟨hM'.data, fun d => ?_, hM'.len, hM'.pos⟩, by simp⟩
          obtain ⟨x, e, n⟩ := hM'.keep d
          exact hk.dec ⟨x, (hbt 0 (by omega)).trans e, n⟩

theorem arrayLoops_halts {h : Nat} {rec : Rec E} (hrec : RecEnds false h rec) {m0 : M} (h0 : m0.tk.pos ≤ m0.tk.data.length) :
    ∀ (loops : Loops E) (first : Bool) {m : M}, loops.Neat → loops.height ≤ h → Fwd m0 m →
      Ends (fun r => Fwd m0 r.2 ∧ (r.1 = .err → Fails r.2.tk)) (arrayLoops rec t m0.tk.pos loops first m)
  | .nil, _, m, _, _, hm => ⟨hm, by simp⟩
  | .cons bucket mode target node rest, first, m, hn, hh, hm => by
    rw [arrayLoops.eq_def]
    dsimp only
    rw [Loops.Neat] at hn
    rw [Loops.height] at hh
    split
    · trivial
    · have hs : Fwd m0 (if first then m else { m with tk := seek m.tk m0.tk.pos }) := by
        split
        · exact hm
        · exact ⟨hm.data, hm.keep, h0, Nat.le_refl _⟩
      refine (matchLoop_halts ht hrec hn.1 mode hn.2.1 (by omega) .arrayStart hs.here).bind ?_
      rintro ⟨x, m'⟩ ⟨hM, hF⟩
      cases x with
      | true => exact ⟨hs.trans hM, fun _ => hF rfl⟩
      | false =>
        simp only [Bool.false_eq_true, if_false]
        refine (BinTree.isResolved_ends _ _).bind (fun d _ => ?_)
        split
        · exact ⟨hs.trans hM, by simp⟩
        · exact arrayLoops_halts hrec h0 rest false hn.2.2 (by omega) (hs.trans hM)

theorem afterLoops_halts {h : Nat} {rec : Rec E} (hrec : RecEnds false h rec) :
    ∀ (loops : Loops E) (m : M), loops.Neat → loops.height ≤ h →
      Ends (fun r => r.2.tk.data = m.tk.data ∧ (Dec m.bt → Dec r.2.bt) ∧ (loops = .nil → r = (.go, m)) ∧
        (r.1 = .done → Dec r.2.bt) ∧ (r.1 = .err → Bad m r.2)) (afterLoops rec t loops m)
  | .nil, m, _, _ => ⟨rfl, id, fun _ => rfl, by simp, by simp⟩
  | .cons bucket mode target node rest, m, hn, hh => by
    rw [afterLoops.eq_def]
    rw [Loops.Neat] at hn
    rw [Loops.height] at hh
    dsimp only
    split
    · rename_i s
      split
      · trivial
      · refine (idx_ends _ _).bind (fun p _ => ?_)
        refine Ends.bind (P := fun r => r.2.tk.data = m.tk.data ∧ (Dec m.bt → Dec r.2.bt) ∧ (r.1 = true → Bad m r.2)) ?_ ?_
        · by_cases hp : p.1 ≤ m.tk.data.length
          · have hq : (step (seek m.tk p.1)).2.data = m.tk.data ∧ (step (seek m.tk p.1)).2.pos ≤ m.tk.data.length := by
              rcases step_cases (seek m.tk p.1) hp with ⟨e, _⟩ | ⟨ty, w, k, e, hd, _, hl, _⟩
              · rw [e]; exact ⟨rfl, hp⟩
              · rw [e]; exact ⟨hd, hl⟩
            refine (matchLoop_halts ht hrec hn.1 mode hn.2.1 (by omega) _ (m := { m with tk := (step (seek m.tk p.1)).2 })
              (by simp only; rw [hq.1]; exact hq.2)).mono (fun r hr => ?_)
            exact ⟨hr.1.data.trans hq.1, hr.1.keep, fun e => ⟨hr.1.data.trans hq.1, hr.1.keep, by
              have := hr.1.len; simp only [hq.1] at this; exact this, hr.2 e⟩⟩
          · have e : step (seek m.tk p.1) = (some (.end_, []), seek m.tk p.1) := by
              unfold step
              rw [if_pos (by simp only [seek]; omega)]
            rw [e]
            exact ⟨rfl, id, by simp⟩
        · rintro ⟨x, m'⟩ ⟨hd, hk, hb⟩
          cases x with
          | true => exact ⟨hd, hk, fun hc => (by cases hc), by simp, fun _ => hb rfl⟩
          | false =>
            simp only [Bool.false_eq_true, if_false]
            refine (BinTree.isResolved_root m'.bt).bind (fun d hdec => ?_)
            split
            · rename_i h
              exact ⟨hd, hk, fun hc => (by cases hc), fun _ => hdec.1 h, by simp⟩
            · refine (afterLoops_halts hrec rest m' hn.2.2 (by omega)).mono (fun r hr => ?_)
              refine ⟨hr.1.trans hd, fun h => hr.2.1 (hk h), fun hc => (by cases hc), hr.2.2.2.1, fun e => ?_⟩
              have hB := hr.2.2.2.2 e
              exact ⟨hB.data.trans hd, fun h => hB.keep (hk h), by rw [← hd]; exact hB.len, hB.fails⟩
    · trivial

theorem matchAfter_halts {top : Bool} {h : Nat} {rec : Rec E} (hrec : RecEnds false h rec) (ops : List (Op E)) {loops : Loops E}
    (hn : (After.some ops loops).Neat top) (hh : loops.height ≤ h) (m : M) : Ends (Th top m) (matchAfter X rec t ops loops m) := by
  unfold matchAfter
  rw [After.Neat] at hn
  refine (afterLoops_halts ht hrec loops m hn.1 hh).bind ?_
  rintro ⟨f, m1⟩ ⟨hd, hk, hnil, hdone, herr⟩
  have htop : f ≠ .go → top = true := by
    intro hf
    cases top with
    | true => rfl
    | false =>
      have := hnil (hn.2 rfl)
      cases this
      exact absurd rfl hf
  cases f with
  | done => exact ⟨hd, hk, Or.inr ⟨htop (by simp), Or.inl (hdone rfl)⟩⟩
  | err => exact ⟨hd, hk, Or.inr ⟨htop (by simp), Or.inr ⟨(herr rfl).fails, (herr rfl).len⟩⟩⟩
  | go =>
    simp only
    refine (opsM_ends X ht none ops m1).bind (fun o ho => ?_)
    split
    · rename_i h1
      refine ⟨by rw [ho.1]; exact hd, fun d => ho.2.1 (hk d), ?_⟩
      cases top with
      | true => exact Or.inr ⟨rfl, Or.inl (ho.2.2 h1)⟩
      | false =>
        have := hnil (hn.2 rfl)
        cases this
        exact Or.inl ho.1
    · refine ⟨by simp only [seek, ho.1]; exact hd, fun d => ho.2.1 (hk d), Or.inl ?_⟩
      have hd' : m1.tk.data = m.tk.data := hd
      simp only [seek, ho.1, hd']

/-! ### matchExec -/

theorem finish_halts {top : Bool} {h : Nat} {rec : Rec E} (hrec : RecEnds false h rec) (store : Nat) {after : After E} (hn : after.Neat top)
    (hh : after.height ≤ h) (startPos : Nat) (m : M) :
    Ends (fun r => Th top m r.2 ∧ r.1 = false) (finish X rec t store after startPos m) := by
  have hk : ∀ m' : M, Th top m m' → Ends (fun r => Th top m r.2 ∧ r.1 = false)
      (if store = 0 then Res.ok (false, m') else if store - 1 < m'.slots.length then
        Res.ok (false, { m' with slots := m'.slots.set (store - 1) (startPos, m'.tk.pos - startPos) }) else .panic) := by
    intro m' hm'
    split
    · exact ⟨hm', rfl⟩
    · split
      · exact ⟨⟨hm'.data, hm'.keep, hm'.on⟩, rfl⟩
      · trivial
  unfold finish
  dsimp only
  split
  · exact hk m (Th.refl top m)
  · rename_i ops loops
    rw [After.height] at hh
    refine (matchAfter_halts X ht hrec ops hn hh m).bind (fun m' hm' => ?_)
    refine (BinTree.isResolved_ends _ _).bind (fun d _ => ?_)
    split
    · exact ⟨hm', rfl⟩
    · exact hk m' hm'

theorem opsThen_halts {top : Bool} {h : Nat} {rec : Rec E} (hrec : RecEnds false h rec) (ops : List (Op E)) (v : FV E) (store : Nat)
    {after : After E} (hn : after.Neat top) (hh : after.height ≤ h) (startPos : Nat) (m : M) :
    Ends (fun r => Th top m r.2 ∧ r.1 = false) (opsThen X rec t ops v store after startPos m) := by
  unfold opsThen
  refine (opsM_ends X ht (some v) ops m).bind (fun r hr => ?_)
  have h1 : Th top m r.2 := ⟨by rw [hr.1], hr.2.1, Or.inl hr.1⟩
  split
  · exact ⟨h1, rfl⟩
  · exact (finish_halts X ht hrec store hn hh startPos r.2).mono (fun r' hr' => ⟨h1.trans hr'.1, hr'.2⟩)

theorem execObj_halts {top : Bool} {h : Nat} {rec : Rec E} (hrec : RecEnds top h rec) (hrec' : RecEnds false h rec) (store : Nat)
    {elems : Elems E} (hne : elems.Neat top) (hhe : elems.height ≤ h) (ops : List (Op E)) {after : After E} (hn : after.Neat top)
    (hh : after.height ≤ h) (startPos : Nat) {m : M} (hm : m.tk.pos ≤ m.tk.data.length) :
    Ends (fun r => Adv top m r.2 ∧ (r.1 = true → Bad m r.2)) (execObj X rec t store elems ops after startPos m) := by
  have hk : ∀ m' : M, Adv top m m' → Ends (fun r => Adv top m r.2 ∧ (r.1 = true → Bad m r.2))
      (sliceOf m.tk.data (m.tk.pos - 1) m'.tk.pos >>= fun b => opsThen X rec t ops ⟨.obj b, false⟩ store after startPos m') := by
    intro m' hm'
    refine (sliceOf_ends _ _ _).bind (fun b _ => ?_)
    exact (opsThen_halts X ht hrec' ops _ store hn hh startPos m').mono (fun r hr => ⟨hm'.th hr.1, fun e => by rw [hr.2] at e; cases e⟩)
  unfold execObj
  dsimp only
  split
  · exact (skipValue_ends .objectStart m.tk hm).bind (fun l hl => hk _ (Fwd.tk hl.data hl.pos hl.len).adv)
  · refine (matchObjArr_halts hrec hne hhe false hm).bind ?_
    rintro ⟨x, y, m1⟩ ⟨hw1, hw2⟩
    refine Ends.bind (P := fun m' => (x = true → m' = m1) ∧ Th top m1 m') ?_ ?_
    · cases x with
      | true => exact ⟨fun _ => rfl, Th.refl top m1⟩
      | false =>
        cases after with
        | none => exact ⟨fun _ => rfl, Th.refl top m1⟩
        | some aops aloops =>
          rw [After.height] at hh
          exact (matchAfter_halts X ht hrec' aops hn hh m1).mono (fun m' h => ⟨fun e => (by cases e), h⟩)
    · rintro m' ⟨hx, hT⟩
      cases x with
      | true =>
        obtain ⟨h1, h2⟩ := hw2 rfl
        cases hx rfl
        simp only at h1
        subst h1
        simp only [if_true]
        exact ⟨hw1, fun _ => h2⟩
      | false =>
        have hA := hw1.th hT
        dsimp only
        split
        · exact ⟨hA, fun e => (by cases e)⟩
        · refine (BinTree.isResolved_ends _ _).bind (fun d _ => ?_)
          split
          · exact ⟨hA, fun e => (by cases e)⟩
          · exact hk m' hA

theorem execArr_halts {top : Bool} {h : Nat} {rec : Rec E} (hrec : RecEnds top h rec) (hrec' : RecEnds false h rec) (store : Nat)
    {elems : Elems E} (hne : elems.Neat top) (hhe : elems.height ≤ h) (ops : List (Op E)) {loops : Loops E} (hnl : loops.Neat)
    (hhl : loops.height ≤ h) {after : After E} (hn : after.Neat top) (hh : after.height ≤ h) (startPos : Nat) {m : M}
    (hm : m.tk.pos ≤ m.tk.data.length) :
    Ends (fun r => Adv top m r.2 ∧ (r.1 = true → Bad m r.2)) (execArr X rec t store elems ops loops after startPos m) := by
  have hk : ∀ m' : M, Adv top m m' → Ends (fun r => Adv top m r.2 ∧ (r.1 = true → Bad m r.2))
      (sliceOf m.tk.data (m.tk.pos - 1) m'.tk.pos >>= fun b => opsThen X rec t ops ⟨.arr b, false⟩ store after startPos m') := by
    intro m' hm'
    refine (sliceOf_ends _ _ _).bind (fun b _ => ?_)
    exact (opsThen_halts X ht hrec' ops _ store hn hh startPos m').mono (fun r hr => ⟨hm'.th hr.1, fun e => by rw [hr.2] at e; cases e⟩)
  unfold execArr
  dsimp only
  split
  · refine (matchObjArr_halts hrec hne hhe true hm).bind (fun r hr => ?_)
    split
    · exact ⟨hr.1, fun e => (hr.2 e).2⟩
    · exact hk _ hr.1
  · refine (arrayLoops_halts ht hrec' hm loops true hnl hhl (Fwd.refl hm)).bind ?_
    rintro ⟨f, m'⟩ ⟨hM, hF⟩
    cases f with
    | go => exact hk m' hM.adv
    | done => exact ⟨hM.adv, fun e => (by cases e)⟩
    | err => exact ⟨hM.adv, fun _ => ⟨hM.data, hM.keep, hM.len, hF rfl⟩⟩

theorem matchExec_halts (h : Nat) : ∀ top, RecEnds top h (matchExec X t h) := by
  induction h with
  | zero =>
    intro top node ty w m _ hh
    cases node
    rw [Exec.height] at hh
    omega
  | succ h ih =>
    intro top node ty w m hn hh hm
    obtain ⟨store, elems, ops, loops, after⟩ := node
    rw [Exec.Neat] at hn
    rw [Exec.height] at hh
    rw [matchExec]
    dsimp only
    split
    · refine (parseLit_ends ty w).bind (fun v _ => ?_)
      exact (opsThen_halts X ht (ih false) ops v store hn.2.2 (by omega) _ m).mono
        (fun r hr => ⟨(Fwd.refl hm).adv.th hr.1, fun e => by rw [hr.2] at e; cases e⟩)
    · split
      · exact execObj_halts X ht (ih top) (ih false) store hn.1 (by omega) ops hn.2.2 (by omega) _ hm
      · exact execArr_halts X ht (ih top) (ih false) store hn.1 (by omega) ops hn.2.1 (by omega) hn.2.2 (by omega) _ hm
      · trivial

end

/-- The matcher ends, whatever the bytes and whatever state it starts from. -/
theorem run_halts (X : Fns E) {df : Def E} (ht : Tame df.tree) (hn : ∀ e, df.parse = some e → e.Neat true) (m : M) (data : List Nat) :
    Ends (fun _ => True) (run X df m data) := by
  unfold run
  dsimp only
  split
  · trivial
  · rcases step_cases ⟨data, 0⟩ (Nat.zero_le _) with ⟨e, _⟩ | ⟨ty, w, k, e, hd, hp, hl, _⟩
    · rw [e]; trivial
    · rw [e]
      dsimp only
      split
      · trivial
      · rename_i node he
        refine (matchExec_halts X ht node.height true node ty w _ (hn node he) (Nat.le_refl _) (by simp only [hd]; exact hl)).bind (fun r _ => ?_)
        split
        · trivial
        · exact (BinTree.resolve_ends ht _).bind (fun bt _ => (BinTree.isTrue_ends _ _).bind (fun b _ => trivial))

end Verif.Match
