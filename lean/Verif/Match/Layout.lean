import Verif.Match.Total
import Verif.Lit.Theorems

/-!
# Verdicts and the layout of documents

Two texts of the same document differ in whitespace and in the spelling of keys only.  The matcher sees the text of arrays and objects (as operands),
so a definition that compares two document parts can tell them apart; one whose operations have a constant on one side
cannot.
-/

namespace Verif.Token
open Verif.Lit (Ch litText litTok chBytes)

/-- The same key, possibly spelled differently. -/
def SameKey (ty : Tok) (k : List Nat) (ty' : Tok) (k' : List Nat) : Prop :=
  (ty = ty' ∧ k = k') ∨ ∃ cs cs' : List Ch, (∀ c ∈ cs, c.WF) ∧ (∀ c ∈ cs', c.WF) ∧ chBytes cs = chBytes cs' ∧
    ty = litTok cs ∧ k = litText cs ∧ ty' = litTok cs' ∧ k' = litText cs'

mutual
  /-- The same document with different whitespace and spellings of keys. -/
  def D.Same : D → D → Prop
    | .lit ty w, .lit ty' w' => ty = ty' ∧ w = w'
    | .arr _ es, .arr _ es' => es.Same es'
    | .obj _ ms, .obj _ ms' => ms.Same ms'
    | _, _ => False

  def Es.Same : Es → Es → Prop
    | .nil, .nil => True
    | .cons v _ _ r, .cons v' _ _ r' => v.Same v' ∧ r.Same r'
    | _, _ => False

  def Ms.Same : Ms → Ms → Prop
    | .nil, .nil => True
    | .cons ty k _ _ v _ _ r, .cons ty' k' _ _ v' _ _ r' => SameKey ty k ty' k' ∧ v.Same v' ∧ r.Same r'
    | _, _ => False
end

end Verif.Token

namespace Verif.Match
open Verif.Token Verif.FastVal
open Verif.BinTree (Sh)

variable {E : Ext}

/-- Values that agree except for the text of an array or object. -/
def VSim (x y : FV E) : Prop :=
  x = y ∨ (∃ s s' u, x = ⟨.obj s, u⟩ ∧ y = ⟨.obj s', u⟩) ∨ (∃ s s' u, x = ⟨.arr s, u⟩ ∧ y = ⟨.arr s', u⟩)

theorem VSim.rfl' (x : FV E) : VSim x x := Or.inl rfl

theorem VSim.ty {x y : FV E} (h : VSim x y) : x.d.ty = y.d.ty := by
  rcases h with rfl | ⟨s, s', u, rfl, rfl⟩ | ⟨s, s', u, rfl, rfl⟩ <;> rfl

/-- A constant that is not an array or object. -/
def Scalar (c : FV E) : Prop := c.d.ty ≠ .arr ∧ c.d.ty ≠ .obj

theorem compare_left {x y c : FV E} (h : VSim x y) (hc : Scalar c) : compare x c = compare y c := by
  rcases h with rfl | ⟨s, s', u, rfl, rfl⟩ | ⟨s, s', u, rfl, rfl⟩
  · rfl
  all_goals
    obtain ⟨d, u'⟩ := c
    cases d <;> first
      | (exfalso; simp [Scalar, Data.ty] at hc; done)
      | (cases u <;> cases u' <;> rfl)

theorem compare_right {x y c : FV E} (h : VSim x y) (hc : Scalar c) : compare c x = compare c y := by
  rcases h with rfl | ⟨s, s', u, rfl, rfl⟩ | ⟨s, s', u, rfl, rfl⟩
  · rfl
  all_goals
    obtain ⟨d, u'⟩ := c
    cases d <;> first
      | (exfalso; simp [Scalar, Data.ty] at hc; done)
      | (cases u <;> cases u' <;> rfl)

theorem matchesRe_sim {x y x' y' : FV E} (h : VSim x x') (h' : VSim y y') : matchesRe x y = matchesRe x' y' := by
  rcases h with rfl | ⟨s, s', u, rfl, rfl⟩ | ⟨s, s', u, rfl, rfl⟩ <;>
  rcases h' with rfl | ⟨s, s', u, rfl, rfl⟩ | ⟨s, s', u, rfl, rfl⟩ <;> rfl

/-- Lists of values that agree. -/
def VSims : List (FV E) → List (FV E) → Prop
  | [], [] => True
  | x :: xs, y :: ys => VSim x y ∧ VSims xs ys
  | _, _ => False

/-- The second outcome is the first up to the text of arrays and objects. -/
abbrev RSim (x y : Res (FV E)) : Prop := RelE VSim x y

theorem RSim.of_eq {x y : Res (FV E)} (h : x = y) : RSim x y := by
  subst h; cases x <;> first | exact Or.inl rfl | trivial

theorem applyFn_sim (X : Fns E) (f : FName) {vs vs' : List (FV E)} (h : VSims vs vs') : RSim (applyFn X f vs) (applyFn X f vs') := by
  have one : ∀ {x y : FV E}, VSim x y → mathAbs x = mathAbs y ∧ mathRound X x = mathRound X y ∧ dateFunc X x = dateFunc X y ∧
      mathNeg x.d = mathNeg y.d ∧ ∀ g, opFloat x.d g = opFloat y.d g := by
    intro x y h
    rcases h with rfl | ⟨s, s', u, rfl, rfl⟩ | ⟨s, s', u, rfl, rfl⟩ <;> exact ⟨rfl, rfl, rfl, rfl, fun _ => rfl⟩
  have two : ∀ {x y x' y' : FV E}, VSim x y → VSim x' y' → mathAdd x.d x'.d = mathAdd y.d y'.d ∧ mathSub x.d x'.d = mathSub y.d y'.d ∧
      mathMul x.d x'.d = mathMul y.d y'.d ∧ mathDiv x.d x'.d = mathDiv y.d y'.d ∧ mathMod x.d x'.d = mathMod y.d y'.d ∧
      ∀ g, op2Floats x.d x'.d g = op2Floats y.d y'.d g := by
    intro x y x' y' h h'
    rcases h with rfl | ⟨s, s', u, rfl, rfl⟩ | ⟨s, s', u, rfl, rfl⟩ <;>
    rcases h' with rfl | ⟨s, s', u, rfl, rfl⟩ | ⟨s, s', u, rfl, rfl⟩ <;> exact ⟨rfl, rfl, rfl, rfl, rfl, fun _ => rfl⟩
  match vs, vs', h with
  | [], [], _ => exact RSim.of_eq rfl
  | [x], [y], h =>
    obtain ⟨h1, h2, h3, h4, h5⟩ := one h.1
    cases f <;> first
      | exact RSim.of_eq rfl
      | exact RSim.of_eq (by simp only [applyFn, h1, h2, h3, h4, h5])
  | x :: x' :: _, y :: y' :: _, h =>
    obtain ⟨h1, h2, h3, h4, h5⟩ := one h.1
    obtain ⟨g1, g2, g3, g4, g5, g6⟩ := two h.1 h.2.1
    cases f <;> first
      | exact RSim.of_eq rfl
      | exact RSim.of_eq (by simp only [applyFn, h1, h2, h3, h4, h5, g1, g2, g3, g4, g5, g6])
  | [_], _ :: _ :: _, h => exact h.2.elim
  | _ :: _ :: _, [_], h => exact h.2.elim

section
variable (X : Fns E) {rd rd' : Nat → Res (FV E)} {lit lit' : Option (FV E)}

def OSim : Option (FV E) → Option (FV E) → Prop
  | none, none => True
  | some a, some b => VSim a b
  | _, _ => False

mutual
  theorem resolveParam_sim (hrd : ∀ s, RSim (rd s) (rd' s)) (hl : OSim lit lit') :
      ∀ r : Ref E, RSim (resolveParam X rd lit r) (resolveParam X rd' lit' r)
    | .val v => Or.inl rfl
    | .lit => by
      cases lit <;> cases lit' <;> first | exact hl | exact hl.elim | trivial
    | .slot s => hrd s
    | .fn f ps => by
      rw [resolveParam, resolveParam]
      have := resolveParams_sim hrd hl f.arity ps
      cases h1 : resolveParams X rd lit f.arity ps <;> cases h2 : resolveParams X rd' lit' f.arity ps <;>
        rw [h1, h2] at this <;> first | exact this.elim | trivial | exact applyFn_sim X f this

  theorem resolveParams_sim (hrd : ∀ s, RSim (rd s) (rd' s)) (hl : OSim lit lit') :
      ∀ (k : Nat) (ps : Refs E), RelE VSims (resolveParams X rd lit k ps) (resolveParams X rd' lit' k ps)
    | 0, ps => by rw [resolveParams.eq_def, resolveParams.eq_def]; trivial
    | k + 1, .nil => by rw [resolveParams.eq_def, resolveParams.eq_def]; trivial
    | k + 1, .cons p ps => by
      rw [resolveParams, resolveParams]
      have h1 := resolveParam_sim hrd hl p
      have h2 := resolveParams_sim hrd hl k ps
      have h1' : RelE VSim (resolveParam X rd lit p) (resolveParam X rd' lit' p) := h1
      refine RelE.bind h1' (fun v v' hv => ?_)
      refine RelE.bind h2 (fun vs vs' hvs => ?_)
      exact ⟨hv, hvs⟩
end

/-- The operation compares with a constant that is not an array or object, or is an existence test or a pattern. -/
def Op.OneSided (op : Op E) : Prop :=
  op.op = .exists_ ∨ op.op = .matches_ ∨ (∃ c, op.rhs = some (.val c) ∧ Scalar c) ∨ (∃ c, op.lhs = some (.val c) ∧ Scalar c)

theorem opSide_sim (hrd : ∀ s, RSim (rd s) (rd' s)) (hl : OSim lit lit') (o : Option (Ref E)) :
    RelE (fun a b => VSim a.1 b.1 ∧ a.2 = b.2) (opSide X rd lit o) (opSide X rd' lit' o) := by
  cases o with
  | none =>
    cases lit <;> cases lit' <;> first | exact ⟨Or.inl rfl, rfl⟩ | exact hl.elim | exact ⟨hl, rfl⟩
  | some r =>
    rw [opSide, opSide]
    have h1 : RelE VSim _ _ := resolveParam_sim X hrd hl r
    refine RelE.bind h1 (fun v v' hv => ?_)
    refine ⟨hv, ?_⟩
    cases r <;> simp only [hv.ty]

theorem opResult_sim (hrd : ∀ s, RSim (rd s) (rd' s)) (hl : OSim lit lit') {op : Op E} (ho : op.OneSided) :
    opResult X rd lit op = opResult X rd' lit' op := by
  have hL := opSide_sim X hrd hl op.lhs
  have hR := opSide_sim X hrd hl op.rhs
  unfold opResult
  have cst : ∀ (rd : Nat → Res (FV E)) (lit : Option (FV E)) (c : FV E), opSide X rd lit (some (.val c)) = .ok (c, false) := by
    intro rd lit c; rfl
  cases h1 : opSide X rd lit op.lhs <;> cases h2 : opSide X rd' lit' op.lhs <;> rw [h1, h2] at hL <;>
    first | exact hL.elim | rfl | skip
  rename_i l l'
  simp only [Res.bind_ok]
  cases h3 : opSide X rd lit op.rhs <;> cases h4 : opSide X rd' lit' op.rhs <;> rw [h3, h4] at hR <;>
    first | exact hR.elim | rfl | skip
  rename_i r r'
  obtain ⟨l1, l2⟩ := l
  obtain ⟨l1', l2'⟩ := l'
  obtain ⟨r1, r2⟩ := r
  obtain ⟨r1', r2'⟩ := r'
  obtain ⟨hv, hb⟩ := hL
  obtain ⟨hv', hb'⟩ := hR
  simp only at hv hb hv' hb'
  subst hb hb'
  simp only [Res.bind_ok]
  split
  · rfl
  · have hcmp : op.op ≠ .exists_ → op.op ≠ .matches_ → compare l1 r1 = compare l1' r1' := by
      intro n1 n2
      rcases ho with h | h | ⟨c, hc, hs⟩ | ⟨c, hc, hs⟩
      · exact absurd h n1
      · exact absurd h n2
      · rw [hc, cst] at h3 h4
        cases h3; cases h4
        exact compare_left hv hs
      · rw [hc, cst] at h1 h2
        cases h1; cases h2
        exact compare_right hv' hs
    have he : evalOp op.op l1 r1 = evalOp op.op l1' r1' := by
      cases hop : op.op <;> simp only [evalOp]
      all_goals first
        | rw [hcmp (by simp [hop]) (by simp [hop])]
        | (simp only [equals]; rw [hcmp (by simp [hop]) (by simp [hop])])
        | rw [matchesRe_sim hv hv']
    rw [he]

end

/-! ### Definitions -/

mutual
  /-- All operations are one-sided. -/
  def Exec.OneSided : Exec E → Prop
    | .mk _ es ops ls a => es.OneSided ∧ (∀ op ∈ ops, op.OneSided) ∧ ls.OneSided ∧ a.OneSided
  def Elems.OneSided : Elems E → Prop
    | .nil => True
    | .cons _ e r => e.OneSided ∧ r.OneSided
  def Loops.OneSided : Loops E → Prop
    | .nil => True
    | .cons _ _ _ e r => e.OneSided ∧ r.OneSided
  def After.OneSided : After E → Prop
    | .none => True
    | .some ops ls => (∀ op ∈ ops, op.OneSided) ∧ ls.OneSided
end

theorem Elems.OneSided.find {es : Elems E} (h : es.OneSided) {k e} (he : es.find k = some e) : e.OneSided := by
  match es, h with
  | .cons k' e' r, h =>
    rw [Elems.find] at he
    split at he
    · simp at he; subst he; exact h.1
    · exact Elems.OneSided.find (es := r) h.2 he

/-- The same slots but for layout. -/
def SSim : Slots → Slots → Prop
  | [], [] => True
  | none :: σ, none :: σ' => SSim σ σ'
  | some d :: σ, some d' :: σ' => d.Same d' ∧ SSim σ σ'
  | _, _ => False

theorem SSim.len {σ σ' : Slots} (h : SSim σ σ') : σ.length = σ'.length := by
  induction σ generalizing σ' with
  | nil => cases σ' with
    | nil => rfl
    | cons o _ => exact h.elim
  | cons o σ ih =>
    cases σ' with
    | nil => cases o <;> exact h.elim
    | cons o' σ' =>
      cases o <;> cases o' <;> first | exact h.elim | (simp only [SSim] at h; simp [ih h]) | (simp only [SSim] at h; simp [ih h.2])

def OdSim : Option D → Option D → Prop
  | none, none => True
  | some d, some d' => d.Same d'
  | _, _ => False

theorem SSim.get {σ σ' : Slots} (h : SSim σ σ') (i : Nat) : RelE OdSim (Res.idx σ i) (Res.idx σ' i) := by
  induction σ generalizing σ' i with
  | nil => cases σ' with
    | nil => trivial
    | cons o _ => exact h.elim
  | cons o σ ih =>
    cases σ' with
    | nil => cases o <;> exact h.elim
    | cons o' σ' =>
      cases o <;> cases o' <;> first | exact h.elim | skip
      · cases i with
        | zero => trivial
        | succ i => exact ih h i
      · cases i with
        | zero => exact h.1
        | succ i => exact ih h.2 i

theorem SSim.set {σ σ' : Slots} (h : SSim σ σ') (i : Nat) {d d' : D} (hd : d.Same d') : SSim (σ.set i (some d)) (σ'.set i (some d')) := by
  induction σ generalizing σ' i with
  | nil => cases σ' with
    | nil => trivial
    | cons o _ => exact h.elim
  | cons o σ ih =>
    cases σ' with
    | nil => cases o <;> exact h.elim
    | cons o' σ' =>
      cases o <;> cases o' <;> first | exact h.elim | skip
      · cases i with
        | zero => exact ⟨hd, h⟩
        | succ i => exact ih h i
      · cases i with
        | zero => exact ⟨hd, h.2⟩
        | succ i => exact ⟨h.1, ih h.2 i⟩

theorem valOf_sim {d d' : D} (h : d.Same d') : RSim (valOf (E := E) d) (valOf d') := by
  cases d <;> cases d' <;> first | exact h.elim | skip
  · obtain ⟨rfl, rfl⟩ := h; exact RSim.of_eq rfl
  · exact Or.inr (Or.inr ⟨_, _, _, rfl, rfl⟩)
  · exact Or.inr (Or.inl ⟨_, _, _, rfl, rfl⟩)

theorem slotVal_sim {r r' : D} (hr : r.Same r') {σ σ' : Slots} (hσ : SSim σ σ') (s : Nat) :
    RSim (slotVal (E := E) r σ s) (slotVal r' σ' s) := by
  unfold slotVal
  split
  · trivial
  · have hidx := hσ.get (s - 1)
    cases h1 : Res.idx σ (s - 1) <;> cases h2 : Res.idx σ' (s - 1) <;> rw [h1, h2] at hidx <;>
      first | exact hidx.elim | trivial | skip
    rename_i o o'
    simp only [Res.bind_ok]
    cases o <;> cases o' <;> first | exact hidx.elim | skip
    · cases r <;> cases r' <;> first | exact hr.elim | skip
      · obtain ⟨rfl, rfl⟩ := hr; exact RSim.of_eq rfl
      · exact Or.inl rfl
      · exact Or.inl rfl
    · exact valOf_sim hidx

section
variable (X : Fns E) {r r' : D}

theorem dOps_sim (hr : r.Same r') {σ σ' : Slots} (hσ : SSim σ σ') {lit lit' : Option (FV E)} (hl : OSim lit lit')
    (ops : List (Op E)) (ho : ∀ op ∈ ops, op.OneSided) : dOps X r σ lit ops = dOps X r' σ' lit' ops := by
  induction ops with
  | nil => rfl
  | cons op ops ih =>
    rw [dOps, dOps, opResult_sim X (fun s => slotVal_sim hr hσ s) hl (ho op (by simp)), ih (fun o h => ho o (by simp [h]))]

/-- Same decisions, same slots but for layout. -/
def MSim (a b : Marks × Slots) : Prop := a.1 = b.1 ∧ SSim a.2 b.2

def RecL (rec rec' : DRec E) : Prop :=
  ∀ node d d' σ σ', node.OneSided → d.Same d' → SSim σ σ' → RelE MSim (rec node d σ) (rec' node d' σ')

theorem RelE.of_eq {α β : Type} {Q : β → β → Prop} {x y : Res α} (h : x = y) {f g : α → Res β} (hf : ∀ a, RelE Q (f a) (g a)) :
    RelE Q (x >>= f) (y >>= g) := by
  subst h; exact RelE.same _ (fun a _ => hf a)

theorem andThen_sim {a a' : Marks × Slots} (h : MSim a a') {f g : Slots → Res (Marks × Slots)}
    (hf : RelE MSim (f a.2) (g a'.2)) : RelE MSim (andThen a f) (andThen a' g) := by
  unfold andThen
  refine RelE.bind hf ?_
  rintro b b' ⟨h1, h2⟩
  exact ⟨by simp only [h.1, h1], h2⟩

/-- A key spelled in any way is read as the bytes it denotes. -/
theorem keyBytes_spelled (cs : List Lit.Ch) (hw : ∀ c ∈ cs, c.WF) :
    keyBytes false (Lit.litTok cs) (Lit.litText cs) = .ok (Lit.chBytes cs) := by
  have h := Lit.decode_spelled cs hw
  unfold Lit.decodeStr at h
  unfold Lit.litTok at h ⊢
  by_cases he : Lit.chHasEsc cs = true
  · simp only [he, if_true] at h ⊢; exact h
  · simp only [he] at h ⊢; simpa [keyBytes] using h

theorem sameKey_bytes {ty ty' : Tok} {k k' : List Nat} (h : SameKey ty k ty' k') : keyBytes false ty k = keyBytes false ty' k' := by
  rcases h with ⟨rfl, rfl⟩ | ⟨cs, cs', h1, h2, h3, rfl, rfl, rfl, rfl⟩
  · rfl
  · rw [keyBytes_spelled cs h1, keyBytes_spelled cs' h2, h3]

theorem dMembers_sim {rec rec' : DRec E} (hrec : RecL rec rec') {elems : Elems E} (he : elems.OneSided) (ms ms' : Ms) :
    ms.Same ms' → ∀ {σ σ'}, SSim σ σ' → RelE MSim (dMembers rec elems ms σ) (dMembers rec' elems ms' σ') := by
  match ms, ms' with
  | .nil, .nil => intro _ σ σ' hσ; exact ⟨rfl, hσ⟩
  | .nil, .cons .. => exact fun h => h.elim
  | .cons .., .nil => exact fun h => h.elim
  | .cons kty key _ _ d _ _ rest, .cons kty' key' _ _ d' _ _ rest' =>
    rintro ⟨hk, hd, hrest⟩ σ σ' hσ
    rw [dMembers, dMembers, sameKey_bytes hk]
    refine RelE.same _ (fun k _ => ?_)
    cases hf : elems.find k with
    | none => exact dMembers_sim hrec he rest rest' hrest hσ
    | some e =>
      refine RelE.bind (hrec e d d' σ σ' (he.find hf) hd hσ) (fun a a' ha => ?_)
      exact andThen_sim ha (dMembers_sim hrec he rest rest' hrest ha.2)

theorem headTok_same {d d' : D} (h : d.Same d') : D.headTok d = D.headTok d' := by
  cases d <;> cases d' <;> first | exact h.elim | rfl | skip
  obtain ⟨rfl, rfl⟩ := h; rfl

theorem dElems_sim {rec rec' : DRec E} (hrec : RecL rec rec') {elems : Elems E} (he : elems.OneSided) (es es' : Es) :
    es.Same es' → ∀ {i σ σ'}, SSim σ σ' → RelE MSim (dElems rec elems i es σ) (dElems rec' elems i es' σ') := by
  match es, es' with
  | .nil, .nil => intro _ i σ σ' hσ; exact ⟨rfl, hσ⟩
  | .nil, .cons .. => exact fun h => h.elim
  | .cons .., .nil => exact fun h => h.elim
  | .cons d _ _ rest, .cons d' _ _ rest' =>
    rintro ⟨hd, hrest⟩ i σ σ' hσ
    rw [dElems, dElems, headTok_same hd]
    refine RelE.same _ (fun k _ => ?_)
    cases hf : elems.find (indexKey i) with
    | none => exact dElems_sim hrec he rest rest' hrest hσ
    | some e =>
      refine RelE.bind (hrec e d d' σ σ' (he.find hf) hd hσ) (fun a a' ha => ?_)
      exact andThen_sim ha (dElems_sim hrec he rest rest' hrest ha.2)

theorem dItems_sim {rec rec' : DRec E} (hrec : RecL rec rec') (sh : Nat → Sh) (bucket : Nat) (mode : Mode) {node : Exec E}
    (hn : node.OneSided) {σ σ' : Slots} (hσ : SSim σ σ') (es es' : Es) : es.Same es' → ∀ st,
      dItems rec sh bucket mode node σ es st = dItems rec' sh bucket mode node σ' es' st := by
  match es, es' with
  | .nil, .nil => intro _ st; rfl
  | .nil, .cons .. => exact fun h => h.elim
  | .cons .., .nil => exact fun h => h.elim
  | .cons d _ _ rest, .cons d' _ _ rest' =>
    rintro ⟨hd, hrest⟩ st
    rw [dItems, dItems]
    have := hrec node d d' σ σ' hn hd hσ
    cases h1 : rec node d σ <;> cases h2 : rec' node d' σ' <;> rw [h1, h2] at this <;> first | exact this.elim | rfl | skip
    rename_i a a'
    simp only [Res.bind_ok, this.1]
    split
    · rfl
    · exact dItems_sim hrec sh bucket mode hn hσ rest rest' hrest _

theorem dLoop_sim {rec rec' : DRec E} (hrec : RecL rec rec') (sh : Nat → Sh) (bucket : Nat) (mode : Mode) {node : Exec E}
    (hn : node.OneSided) {σ σ' : Slots} (hσ : SSim σ σ') {d d' : D} (hd : d.Same d') :
    dLoop rec sh bucket mode node d σ = dLoop rec' sh bucket mode node d' σ' := by
  cases d <;> cases d' <;> first | exact hd.elim | rfl | skip
  simp only [dLoop]
  rw [dItems_sim hrec sh bucket mode hn hσ _ _ hd]

theorem dAfterLoops_sim {rec rec' : DRec E} (hrec : RecL rec rec') (sh : Nat → Sh) (hr : r.Same r') {σ σ' : Slots}
    (hσ : SSim σ σ') (loops : Loops E) : loops.OneSided → dAfterLoops rec sh r σ loops = dAfterLoops rec' sh r' σ' loops := by
  match loops with
  | .nil => intro _; rfl
  | .cons bucket mode target node rest =>
    rintro ⟨hn, hrest⟩
    rw [dAfterLoops.eq_def, dAfterLoops.eq_def]
    simp only
    rcases target with _ | (_ | _ | s | _)
    · rfl
    · rfl
    · rfl
    · simp only
      split
      · rfl
      · have hidx := hσ.get (s - 1)
        cases h1 : Res.idx σ (s - 1) <;> cases h2 : Res.idx σ' (s - 1) <;> rw [h1, h2] at hidx <;>
          first | exact hidx.elim | rfl | skip
        rename_i o o'
        simp only [Res.bind_ok]
        have hd : (o.getD r).Same (o'.getD r') := by
          cases o <;> cases o' <;> first | exact hidx.elim | exact hr | exact hidx
        rw [dLoop_sim hrec sh bucket mode hn hσ hd, dAfterLoops_sim hrec sh hr hσ rest hrest]
    · rfl

theorem dArrayLoops_sim {rec rec' : DRec E} (hrec : RecL rec rec') (sh : Nat → Sh) {d d' : D} (hd : d.Same d') {σ σ' : Slots}
    (hσ : SSim σ σ') (loops : Loops E) : loops.OneSided → dArrayLoops rec sh d σ loops = dArrayLoops rec' sh d' σ' loops := by
  match loops with
  | .nil => intro _; rfl
  | .cons bucket mode target node rest =>
    rintro ⟨hn, hrest⟩
    rw [dArrayLoops.eq_def, dArrayLoops.eq_def]
    simp only
    cases target with
    | some _ => rfl
    | none =>
      simp only
      rw [dLoop_sim hrec sh bucket mode hn hσ hd, dArrayLoops_sim hrec sh hd hσ rest hrest]

theorem dAfter_sim {rec rec' : DRec E} (hrec : RecL rec rec') (sh : Nat → Sh) (hr : r.Same r') {σ σ' : Slots}
    (hσ : SSim σ σ') {after : After E} (ha : after.OneSided) : dAfter X rec sh r σ after = dAfter X rec' sh r' σ' after := by
  cases after with
  | none => rfl
  | some ops loops =>
    rw [dAfter, dAfter, dAfterLoops_sim hrec sh hr hσ loops ha.2, dOps_sim X hr hσ (lit := none) (lit' := none) trivial ops ha.1]

theorem dFinish_sim {rec rec' : DRec E} (hrec : RecL rec rec') (sh : Nat → Sh) (hr : r.Same r') {σ σ' : Slots}
    (hσ : SSim σ σ') {store : Nat} {after : After E} (ha : after.OneSided) {d d' : D} (hd : d.Same d') :
    RelE MSim (dFinish X rec sh r store after d σ) (dFinish X rec' sh r' store after d' σ') := by
  unfold dFinish
  rw [dAfter_sim X hrec sh hr hσ ha]
  refine RelE.same _ (fun l _ => ?_)
  unfold dStore
  rw [hσ.len]
  split
  · exact ⟨rfl, hσ⟩
  · split
    · exact ⟨rfl, hσ.set _ hd⟩
    · trivial

theorem dOpsThen_sim {rec rec' : DRec E} (hrec : RecL rec rec') (sh : Nat → Sh) (hr : r.Same r') {σ σ' : Slots}
    (hσ : SSim σ σ') {ops : List (Op E)} (ho : ∀ op ∈ ops, op.OneSided) {store : Nat} {after : After E} (ha : after.OneSided)
    {d d' : D} (hd : d.Same d') :
    RelE MSim (dOpsThen X rec sh r ops store after d σ) (dOpsThen X rec' sh r' ops store after d' σ') := by
  unfold dOpsThen
  have hv : RelE VSim (valOf (E := E) d) (valOf d') := valOf_sim hd
  refine RelE.bind hv (fun v v' hvv => ?_)
  rw [dOps_sim X hr hσ (lit := some v) (lit' := some v') hvv ops ho]
  refine RelE.same _ (fun l _ => ?_)
  exact andThen_sim (a := (l, σ)) (a' := (l, σ')) ⟨rfl, hσ⟩ (dFinish_sim X hrec sh hr hσ ha hd)

theorem dExec_sim (sh : Nat → Sh) (hr : r.Same r') (h : Nat) : RecL (dExec X sh r h) (dExec X sh r' h) := by
  induction h with
  | zero => intro node d d' σ σ' _ _ _; trivial
  | succ h ih =>
    intro node d d' σ σ' hn hd hσ
    cases node with
    | mk store elems ops loops after =>
      obtain ⟨n1, n2, n3, n4⟩ := hn
      rw [dExec, dExec]
      have hk : ∀ {σ σ'}, SSim σ σ' → RelE MSim (dOpsThen X (dExec X sh r h) sh r ops store after d σ)
          (dOpsThen X (dExec X sh r' h) sh r' ops store after d' σ') :=
        fun hσ => dOpsThen_sim X ih sh hr hσ n2 n4 hd
      cases d with
      | lit ty w =>
        cases d' with
        | lit _ _ => exact hk hσ
        | _ => exact hd.elim
      | obj ws ms =>
        cases d' with
        | obj ws' ms' =>
          simp only [dObj]
          split
          · exact hk hσ
          · refine RelE.bind (dMembers_sim ih n1 ms ms' hd hσ) ?_
            rintro ⟨l, σ1⟩ ⟨l', σ1'⟩ ⟨h1, h2⟩
            simp only at h1 h2
            subst h1
            rw [dAfter_sim X ih sh hr h2 n4]
            refine RelE.same _ (fun l1 _ => ?_)
            cases ms with
            | nil =>
              cases ms' with
              | nil => exact ⟨rfl, h2⟩
              | cons => exact hd.elim
            | cons =>
              cases ms' with
              | nil => exact hd.elim
              | cons => exact andThen_sim (a := (_, σ1)) (a' := (_, σ1')) ⟨rfl, h2⟩ (hk h2)
        | _ => exact hd.elim
      | arr ws es =>
        cases d' with
        | arr ws' es' =>
          simp only [dArr]
          split
          · cases es with
            | nil =>
              cases es' with
              | nil => exact ⟨rfl, hσ⟩
              | cons => exact hd.elim
            | cons =>
              cases es' with
              | nil => exact hd.elim
              | cons =>
                refine RelE.bind (dElems_sim ih n1 _ _ hd hσ) (fun a a' ha => ?_)
                exact andThen_sim ha (hk ha.2)
          · rw [dArrayLoops_sim ih sh (d := .arr ws es) (d' := .arr ws' es') hd hσ loops n3]
            refine RelE.same _ (fun l1 _ => ?_)
            exact andThen_sim (a := (_, σ)) (a' := (_, σ')) ⟨rfl, hσ⟩ (hk hσ)
        | _ => exact hd.elim

theorem verdict_sim (hr : r.Same r') (s : Sh) {node : Exec E} (hn : node.OneSided) (n : Nat) :
    verdict X s node n r = verdict X s node n r' := by
  have h0 : SSim (List.replicate n none) (List.replicate n none) := by
    induction n with
    | zero => trivial
    | succ n ih => exact ih
  have := dExec_sim X (subtree s 0) hr node.height node r r' _ _ hn hr h0
  unfold verdict decisions
  cases h1 : dExec X (subtree s 0) r node.height node r (List.replicate n none) <;>
    cases h2 : dExec X (subtree s 0) r' node.height node r' (List.replicate n none) <;> rw [h1, h2] at this <;>
    first | exact this.elim | rfl | skip
  simp only [Res.bind_ok, this.1]

end

end Verif.Match
