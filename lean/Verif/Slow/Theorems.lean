import Verif.Slow.Model
import Verif.Transform.Keys

/-!
# The reference matcher and the fast matcher (C35)
-/

namespace Verif.Slow
open Verif.FastVal Verif.Expr Verif.Transform
open Verif.Match (Mode run newMatcher Ready valOf parseLit Begins demoDoc demoFns)
open Verif.Token (D Es Ms Tok TokText)
open Verif.Lit (Ch litText litTok chBytes intVal)

variable {E : Ext}

/-! ### Specification: what a document decodes to -/

/-- No binding of the key. -/
def HasNot (k : List Nat) : Jms E → Prop
  | .nil => True
  | .cons k' _ r => k' ≠ k ∧ HasNot k r

mutual
  /-- `j` is what `encoding/json` decodes the document to.  (Strings are valid UTF-8; no object has a key twice; numbers are in
  the range of `float64`.) -/
  inductive Decodes : D → J E → Prop where
    | null {w : List Nat} : Decodes (.lit .null w) .null
    | tru {w : List Nat} : Decodes (.lit .tru w) (.bool true)
    | fals {w : List Nat} : Decodes (.lit .fals w) (.bool false)
    | int {w : List Nat} : TokText .integer w → Decodes (.lit .integer w) (.num (E.parseFloat w).1)
    | num {w : List Nat} : TokText .number w → Decodes (.lit .number w) (.num (E.parseFloat w).1)
    | str {cs : List Ch} : (∀ c ∈ cs, c.WF) → Decodes (.lit (litTok cs) (litText cs)) (.str (chBytes cs))
    | arr {es : Es} {js : Js E} {ws : List Nat} : DecodesEs es js → Decodes (.arr ws es) (.arr js)
    | obj {ms : Ms} {jms : Jms E} {ws : List Nat} : DecodesMs ms jms → Decodes (.obj ws ms) (.obj jms)
  inductive DecodesEs : Es → Js E → Prop where
    | nil : DecodesEs .nil .nil
    | cons {d : D} {j : J E} {es : Es} {js : Js E} {w1 w2 : List Nat} : Decodes d j → DecodesEs es js →
        DecodesEs (.cons d w1 w2 es) (.cons j js)
  inductive DecodesMs : Ms → Jms E → Prop where
    | nil : DecodesMs .nil .nil
    | cons {cs : List Ch} {d : D} {j : J E} {ms : Ms} {jms : Jms E} {k1 k2 w1 w2 : List Nat} : (∀ c ∈ cs, c.WF) → Decodes d j →
        DecodesMs ms jms → HasNot (chBytes cs) jms →
        DecodesMs (.cons (litTok cs) (litText cs) k1 k2 d w1 w2 ms) (.cons (chBytes cs) j jms)
end

/-! ### Specification: where the two comparisons agree -/

/-- Printable ASCII without quotation mark and backslash: `strconv.AppendQuote` leaves such text as it is. -/
def PlainText (s : List Nat) : Prop := ∀ b ∈ s, 0x20 ≤ b ∧ b < 0x7F ∧ b ≠ 0x22 ∧ b ≠ 0x5C

/-- Laws of `strconv.AppendQuote`. -/
structure QuoteLaws (E : Ext) : Prop where
  plain : ∀ s, PlainText s → E.quote s = s
  inj : ∀ s t, E.quote s = E.quote t → s = t

/-- Numbers that are not NaN, and are equal if they are closer than the tolerance of the fast matcher. -/
structure Apart (x y : E.F) : Prop where
  nan_left : E.isNaN x = false
  nan_right : E.isNaN y = false
  gap : E.lt (E.abs (E.sub x y)) E.eps = true → E.lt x y = false ∧ E.lt y x = false

/-- The constant `g` and the value `x` of the document, decoded as `j`, can be compared faithfully: order comparisons of strings
are about plain text, numbers are `Apart`, integers are converted to the number they denote. -/
structure Faithful (c : Cmp) (g : GoVal E) (x : D) (j : J E) : Prop where
  str : ∀ s t, g = .json (.str s) → j = .str t → c = .eq ∨ c = .ne ∨ (PlainText s ∧ PlainText t)
  num : ∀ f y, g = .json (.num f) → j = .num y → Apart f y
  int : ∀ w, x = .lit .integer w → E.ofInt (BitVec.ofInt 64 (intVal w)) = (E.parseFloat w).1

/-- The constant of a comparison. -/
def constSide : Expr E → Expr E → GoVal E
  | .value g, _ => g
  | _, .value g => g
  | _, _ => .other

/-- Constants both matchers support. -/
def Scalar : GoVal E → Prop
  | .json .null | .json (.bool _) | .json (.num _) | .json (.str _) => True
  | _ => False

mutual
  /-- Expressions both matchers support: AND and OR (not empty), ANY, comparisons between a field and a constant. -/
  def Supported : Expr E → Prop
    | .cmp c (.field _) (.value g) => c ≠ .like ∧ Scalar g
    | .cmp c (.value g) (.field _) => c ≠ .like ∧ Scalar g
    | .and es => Supporteds es
    | .or es => Supporteds es
    | .loop .any _ _ s => Supported s
    | _ => False
  def Supporteds : Exprs E → Prop
    | .nil => True
    | .cons e r => Supported e ∧ Supporteds r
end

mutual
  /-- The variables loops bind. -/
  def binds : Expr E → List Int
    | .and es => bindsAll es
    | .or es => bindsAll es
    | .loop _ v _ s => v :: binds s
    | _ => []
  def bindsAll : Exprs E → List Int
    | .nil => []
    | .cons e r => binds e ++ bindsAll r
end

mutual
  /-- No loop binds the variable of a loop around it. -/
  def Scoped : Expr E → Prop
    | .and es => ScopedAll es
    | .or es => ScopedAll es
    | .loop _ v _ s => v ∉ binds s ∧ Scoped s
    | _ => True
  def ScopedAll : Exprs E → Prop
    | .nil => True
    | .cons e r => Scoped e ∧ ScopedAll r
end

mutual
  /-- The document has all the fields the expression asks for, loops are over arrays, and values are compared faithfully. -/
  def Sees : Expr E → D → Prop
    | .cmp c l r, d => ∃ x, (walk (condPath l r) d).head? = some x ∧ ∀ j, Decodes x j → Faithful c (constSide l r) x j
    | .and es, d => SeesAll es d
    | .or es, d => SeesAll es d
    | .loop _ _ i s, d => ∃ ws es, (walk (inPath i) d).head? = some (.arr ws es) ∧ ∀ y ∈ esList es, Sees s y
    | _, _ => False
  def SeesAll : Exprs E → D → Prop
    | .nil, _ => True
    | .cons e r, d => Sees e d ∧ SeesAll r d
end

/-! ### Fields -/

theorem membersAt_none {k : List Nat} : ∀ (ms : Ms) (jms : Jms E), DecodesMs ms jms → HasNot k jms → membersAt k ms = []
  | .nil, _, _, _ => rfl
  | .cons .., _, h, hn => by
    cases h with
    | cons hw _ hms _ => rw [membersAt, memberKey_spelled _ hw, if_neg hn.1]; exact membersAt_none _ _ hms hn.2

theorem membersAt_lookup (k : List Nat) : ∀ (ms : Ms) (jms : Jms E), DecodesMs ms jms →
    membersAt k ms = [] ∨ ∃ d, membersAt k ms = [d] ∧ Decodes d (lookup k jms)
  | .nil, _, _ => Or.inl rfl
  | .cons .., _, h => by
    cases h with
    | @cons cs _ _ _ _ _ _ _ _ hw hd hms hn =>
      rw [membersAt, memberKey_spelled _ hw, lookup]
      by_cases hk : chBytes cs = k
      · rw [if_pos hk, if_pos hk]
        subst hk
        exact Or.inr ⟨_, by rw [membersAt_none _ _ hms hn], hd⟩
      · rw [if_neg hk, if_neg hk]
        exact membersAt_lookup k _ _ hms

/-- Where both find a value, it is the same. -/
theorem follow_walk : ∀ (p : Path) (d x : D) (j j' : J E), Decodes d j → (walk p d).head? = some x → follow p j = some j' → Decodes x j'
  | [], d, x, j, j', hd, hw, hf => by
    rw [walk] at hw; cases hw
    rw [follow] at hf; cases hf
    exact hd
  | k :: p, d, x, j, j', hd, hw, hf => by
    cases hd with
    | obj hms =>
      rw [follow] at hf
      rw [walk] at hw
      rcases membersAt_lookup k _ _ hms with h | ⟨y, h, hy⟩
      · rw [h] at hw; simp at hw
      · rw [h] at hw
        rw [List.flatMap_singleton] at hw
        exact follow_walk p y x _ j' hy hw hf
    | null | tru | fals | int | num | str | arr => simp [follow] at hf

/-! ### Comparisons -/

/-- The number the fast matcher reads. -/
theorem valOf_num {x : D} {y : E.F} (h : Decodes x (.num y))
    (hi : ∀ w, x = .lit .integer w → E.ofInt (BitVec.ofInt 64 (intVal w)) = (E.parseFloat w).1) :
    ∃ d : Data E, valOf x = .ok ⟨d, false⟩ ∧ d.asFloat = (y, true) ∧ (d.ty = .int ∨ d.ty = .float) := by
  cases h with
  | int ht =>
    refine ⟨_, rfl, ?_, Or.inl rfl⟩
    rw [Data.asFloat, Lit.C15_int_mod _ ht, hi _ rfl]
  | num ht => exact ⟨_, rfl, rfl, Or.inr rfl⟩

theorem valOf_str {x : D} {t : List Nat} (h : Decodes (E := E) x (.str t)) : valOf (E := E) x = .ok ⟨.binStr t, false⟩ := by
  generalize hj : (J.str t : J E) = j at h
  cases h with
  | str hw =>
    cases hj
    rename_i cs
    have := Lit.decode_spelled cs hw
    rw [valOf]
    unfold Lit.decodeStr at this
    by_cases hc : litTok cs = .escString
    · rw [hc] at this ⊢
      rw [parseLit]; rw [if_pos rfl] at this; simp only [this]; rfl
    · have hc' : litTok cs = .string := by
        unfold litTok at hc ⊢
        split
        · rename_i h'; rw [if_pos h'] at hc; exact absurd rfl hc
        · rfl
      rw [hc'] at this ⊢
      rw [parseLit]; rw [if_neg (by decide)] at this; simp only [this]; rfl
  | _ => cases hj

/-- A comparison of the fast matcher gives the same answers as the result `n`. -/
structure Same (c : Cmp) (r : Int × Bool) (n : Int) : Prop where
  order : (c = .eq ∨ c = .ne) ∨ r.1 = n
  zero : r.1 = 0 ↔ n = 0
  valid : n = 0 → r.2 = true

theorem Same.holds {c : Cmp} {a b : FV E} {n : Int} (h : Same c (compare a b) n) (hc : c ≠ .like) : test c n = .ok (cmpHolds c a b) := by
  have he : (equals a b).1 = decide (n = 0) := by
    unfold equals
    by_cases hn : n = 0
    · simp [h.valid hn, h.zero.2 hn, hn]
    · have : ¬ (compare a b).1 = 0 := fun h0 => hn (h.zero.1 h0)
      simp [this, hn]
  cases c with
  | eq => simp [test, cmpHolds, he]
  | ne => simp [test, cmpHolds, he]
  | like => exact absurd rfl hc
  | lt | le | gt | ge =>
    have ho : (compare a b).1 = n := by simpa using h.order
    simp [test, cmpHolds, ho]

theorem same_refl (c : Cmp) {r : Int × Bool} {n : Int} (h : r = (n, true)) : Same c r n := by
  subst h; exact ⟨Or.inr rfl, Iff.rfl, fun _ => rfl⟩

theorem same_ne (c : Cmp) {r : Int × Bool} {n : Int} (h : r.1 = n) (hn : n ≠ 0) : Same c r n :=
  ⟨Or.inr h, by rw [h], fun h0 => absurd h0 hn⟩

/-! Strings -/

theorem compare_str_left (s t : List Nat) : compare (E := E) ⟨.binStr t, false⟩ ⟨.jsonStr (E.quote s), true⟩ =
    (cmpBytes (E.quote t) (E.quote s), true) := by
  have : compare (E := E) ⟨.binStr t, false⟩ ⟨.jsonStr (E.quote s), true⟩ = (cmpBytes (E.quote s) (E.quote t) * -1, true) := rfl
  rw [this, cmpBytes_anti]

theorem compare_str_right (s t : List Nat) : compare (E := E) ⟨.jsonStr (E.quote s), true⟩ ⟨.binStr t, false⟩ =
    (cmpBytes (E.quote s) (E.quote t), true) := rfl

theorem same_str (hq : QuoteLaws E) {c : Cmp} {a b : List Nat} {r : Int × Bool} (hr : r = (cmpBytes (E.quote a) (E.quote b), true))
    (h : c = .eq ∨ c = .ne ∨ (PlainText a ∧ PlainText b)) : Same c r (cmpBytes a b) := by
  subst hr
  refine ⟨?_, ⟨?_, ?_⟩, fun _ => rfl⟩
  · rcases h with h | h | ⟨h1, h2⟩
    · exact Or.inl (Or.inl h)
    · exact Or.inl (Or.inr h)
    · right; rw [hq.plain a h1, hq.plain b h2]
  · intro h0
    rw [hq.inj a b (cmpBytes_eq_zero _ _ h0), cmpBytes_self]
  · intro h0
    rw [cmpBytes_eq_zero _ _ h0]
    exact cmpBytes_self _

/-! Numbers -/

/-- Three-way comparison of floats. -/
def cmpF (x y : E.F) : Int := if E.lt x y then -1 else if E.lt y x then 1 else 0

theorem compareFloat_apart {a b : Data E} {x y : E.F} (ha : a.asFloat = (x, true)) (hb : b.asFloat = (y, true)) (h : Apart x y) :
    compareFloat a b = (cmpF x y, true) := by
  unfold compareFloat cmpF
  rw [ha, hb]
  simp only [h.nan_left, h.nan_right]
  by_cases hg : E.lt (E.abs (E.sub x y)) E.eps = true
  · obtain ⟨h1, h2⟩ := h.gap hg
    simp [hg, h1, h2]
  · cases E.lt x y <;> cases E.lt y x <;> simp [hg]

theorem cmpF_anti (hF : FloatLaws E) (x y : E.F) : cmpF x y * -1 = cmpF y x := by
  unfold cmpF
  have := hF.lt_asymm x y
  cases h1 : E.lt x y <;> cases h2 : E.lt y x <;> simp_all

theorem compare_num_left (hF : FloatLaws E) {d : Data E} {f y : E.F} (hd : d.asFloat = (y, true)) (ht : d.ty = .int ∨ d.ty = .float)
    (h : Apart f y) : compare (E := E) ⟨d, false⟩ ⟨.float f, true⟩ = (cmpF y f, true) := by
  have hc : compareInternal (E := E) ⟨.float f, true⟩ ⟨d, false⟩ = compareFloat (.float f) d := rfl
  have hk : checkCompat (E := E) (.float f) d = true := by
    unfold checkCompat
    rcases ht with ht | ht <;> rw [ht] <;> rfl
  rw [Verif.FastVal.compare, compareUserDefined]
  simp only [Bool.false_or, if_true, Bool.false_eq_true, if_false, hk, Bool.true_eq_false, reverseCompare]
  rw [hc, compareFloat_apart rfl hd h]
  simp only
  rw [cmpF_anti hF]

theorem compare_num_right {d : Data E} {f y : E.F} (hd : d.asFloat = (y, true)) (ht : d.ty = .int ∨ d.ty = .float)
    (h : Apart f y) : compare (E := E) ⟨.float f, true⟩ ⟨d, false⟩ = (cmpF f y, true) := by
  have hc : compareInternal (E := E) ⟨.float f, true⟩ ⟨d, false⟩ = compareFloat (.float f) d := rfl
  have hk : checkCompat (E := E) (.float f) d = true := by
    unfold checkCompat
    rcases ht with ht | ht <;> rw [ht] <;> rfl
  rw [Verif.FastVal.compare, compareUserDefined]
  simp only [Bool.true_or, if_true, hk, Bool.true_eq_false, if_false]
  rw [hc, compareFloat_apart rfl hd h]

/-! All kinds -/

theorem agree_left (hq : QuoteLaws E) (hF : FloatLaws E) {c : Cmp} {g : GoVal E} {x : D} {j : J E} (hd : Decodes x j) (hg : Scalar g)
    (h : Faithful c g x j) {n : Int} (hn : compareVals (.json j) g = some n) :
    ∃ v, valOf x = .ok v ∧ Same c (compare v (constOf g)) n := by
  match j, g, hg with
  | .null, .json .null, _ =>
    cases hd; cases hn
    exact ⟨_, rfl, same_refl c rfl⟩
  | .null, .json (.bool true), _ | .null, .json (.bool false), _ | .null, .json (.num _), _ | .null, .json (.str _), _ =>
    cases hd; cases hn
    exact ⟨_, rfl, same_ne c rfl (by decide)⟩
  | .bool true, .json (.bool true), _ | .bool true, .json (.bool false), _ | .bool false, .json (.bool true), _
  | .bool false, .json (.bool false), _ =>
    cases hd; cases hn
    exact ⟨_, rfl, same_refl c rfl⟩
  | .num y, .json (.num f), _ =>
    obtain ⟨d, h1, h2, h3⟩ := valOf_num hd h.int
    cases hn
    exact ⟨_, h1, same_refl c (compare_num_left hF h2 h3 (h.num f y rfl rfl))⟩
  | .str t, .json (.str s), _ =>
    cases hn
    refine ⟨_, valOf_str hd, same_str hq (compare_str_left s t) ?_⟩
    rcases h.str s t rfl rfl with h | h | ⟨h1, h2⟩
    · exact Or.inl h
    · exact Or.inr (Or.inl h)
    · exact Or.inr (Or.inr ⟨h2, h1⟩)
  | .bool _, .json .null, _ | .bool _, .json (.num _), _ | .bool _, .json (.str _), _
  | .num _, .json .null, _ | .num _, .json (.bool _), _ | .num _, .json (.str _), _
  | .str _, .json .null, _ | .str _, .json (.bool _), _ | .str _, .json (.num _), _
  | .arr _, .json .null, _ | .arr _, .json (.bool _), _ | .arr _, .json (.num _), _ | .arr _, .json (.str _), _
  | .obj _, .json .null, _ | .obj _, .json (.bool _), _ | .obj _, .json (.num _), _ | .obj _, .json (.str _), _ => cases hn

/-- The value read from a document part is null exactly if it decodes to nil. -/
theorem valOf_ok {x : D} {j : J E} (hd : Decodes x j) : ∃ v : FV E, valOf x = .ok v ∧ v.user = false ∧ (v.d.ty = .null ↔ j = .null) := by
  cases hd with
  | str hw => exact ⟨_, valOf_str (.str hw), rfl, by simp [Data.ty]⟩
  | _ => exact ⟨_, rfl, rfl, by simp [Data.ty]⟩

theorem agree_right (hq : QuoteLaws E) {c : Cmp} {g : GoVal E} {x : D} {j : J E} (hd : Decodes x j) (hg : Scalar g)
    (h : Faithful c g x j) {n : Int} (hn : compareVals g (.json j) = some n) :
    ∃ v, valOf x = .ok v ∧ Same c (compare (constOf g) v) n := by
  match g, j, hg with
  | .json .null, j, _ =>
    obtain ⟨v, h1, h2, h3⟩ := valOf_ok hd
    refine ⟨v, h1, ?_⟩
    have hc : compare (E := E) ⟨.null, true⟩ v = compareNull .null v.d := by
      have hk : checkCompat (E := E) .null v.d = true := by
        unfold checkCompat
        simp [Data.ty]
      rw [Verif.FastVal.compare, compareUserDefined]
      simp [hk, compareInternal, Data.ty]
    have hc' : constOf (E := E) (.json .null) = ⟨.null, true⟩ := rfl
    rw [hc', hc]
    by_cases hj : j = .null
    · subst hj
      cases hn
      refine same_refl c ?_
      rw [compareNull, if_pos ⟨rfl, h3.2 rfl⟩]
    · have hn' : n = -1 := by
        cases j <;> simp_all [compareVals]
      subst hn'
      refine same_refl c ?_
      have hv : ¬ v.d.ty = .null := fun h0 => hj (h3.1 h0)
      rw [compareNull, if_neg (fun h0 => hv h0.2), if_pos ⟨rfl, hv⟩]
  | .json (.bool true), .bool true, _ | .json (.bool false), .bool true, _ | .json (.bool true), .bool false, _
  | .json (.bool false), .bool false, _ =>
    cases hd; cases hn
    exact ⟨_, rfl, same_refl c rfl⟩
  | .json (.num f), .num y, _ =>
    obtain ⟨d, h1, h2, h3⟩ := valOf_num hd h.int
    cases hn
    exact ⟨_, h1, same_refl c (compare_num_right h2 h3 (h.num f y rfl rfl))⟩
  | .json (.str s), .str t, _ =>
    cases hn
    exact ⟨_, valOf_str hd, same_str hq (compare_str_right s t) (h.str s t rfl rfl)⟩
  | .json (.bool _), .null, _ | .json (.bool _), .num _, _ | .json (.bool _), .str _, _ | .json (.bool _), .arr _, _
  | .json (.bool _), .obj _, _
  | .json (.num _), .null, _ | .json (.num _), .bool _, _ | .json (.num _), .str _, _ | .json (.num _), .arr _, _
  | .json (.num _), .obj _, _
  | .json (.str _), .null, _ | .json (.str _), .bool _, _ | .json (.str _), .num _, _ | .json (.str _), .arr _, _
  | .json (.str _), .obj _, _ => cases hn

/-! ### The reference matcher computes the truth -/

/-- Elementwise. -/
inductive DecodesL : List D → List (J E) → Prop where
  | nil : DecodesL [] []
  | cons {d : D} {j : J E} {l : List D} {js : List (J E)} : Decodes d j → DecodesL l js → DecodesL (d :: l) (j :: js)

theorem decodes_elems : ∀ (es : Es) (js : Js E), DecodesEs es js → DecodesL (esList es) (elems js)
  | .nil, _, h => by cases h; exact .nil
  | .cons .., _, h => by
    cases h with
    | cons h1 h2 => exact .cons h1 (decodes_elems _ _ h2)

/-- A comparison of the reference matcher. -/
theorem cmp_truth (X : Fns E) (C : Comp E) (hq : QuoteLaws E) (hF : FloatLaws E) {c : Cmp} {l r : Expr E} {v : Int} {d : D} {j : J E}
    (hd : Decodes d j) {s s' : Vars E} (hs : s v = some j) (hf : Frag C v (.cmp c l r)) (hsup : Supported (.cmp c l r))
    (hsee : Sees (.cmp c l r) d) {b : Bool} (h : matchCmp c l r s = .ok (some b, s')) : b = truth X C (.cmp c l r) d ∧ s' = s := by
  obtain ⟨x, hx, hfaith⟩ := hsee
  have hres : ∀ f : Field, f = ⟨v, condPath l r⟩ → ∀ j', resolveField s f = some j' → Decodes x j' := by
    intro f hf j' hj'
    subst hf
    rw [resolveField, hs] at hj'
    exact follow_walk _ _ _ _ _ hd hx hj'
  unfold matchCmp at h
  rw [truth, hx]
  match l, r, hsup with
  | .field f, .value g, ⟨hc, hg⟩ =>
    rw [if_neg hc, compareExprs, resolveParam, resolveParam] at h
    have hff : f = ⟨v, condPath (.field f) (.value g)⟩ := hf.1
    cases hr : resolveField s f with
    | none => rw [hr] at h; cases h
    | some j' =>
      rw [hr] at h
      have hdj := hres f hff j' hr
      simp only [Option.map_some, Res.bind_ok] at h
      cases hn : compareVals (.json j') g with
      | none => rw [hn] at h; cases h
      | some n =>
        rw [hn] at h
        obtain ⟨w, h1, h2⟩ := agree_left hq hF hdj hg (hfaith j' hdj) hn
        simp only [h2.holds hc, Res.bind_ok] at h
        cases h
        refine ⟨?_, rfl⟩
        simp only [condHolds, h1, Res.bind_ok, paramVal]
  | .value g, .field f, ⟨hc, hg⟩ =>
    rw [if_neg hc, compareExprs, resolveParam, resolveParam] at h
    have hff : f = ⟨v, condPath (.value g) (.field f)⟩ := hf.2
    cases hr : resolveField s f with
    | none => rw [hr] at h; cases h
    | some j' =>
      rw [hr] at h
      have hdj := hres f hff j' hr
      simp only [Option.map_some, Res.bind_ok] at h
      cases hn : compareVals g (.json j') with
      | none => rw [hn] at h; cases h
      | some n =>
        rw [hn] at h
        obtain ⟨w, h1, h2⟩ := agree_right hq hdj hg (hfaith j' hdj) hn
        simp only [h2.holds hc, Res.bind_ok] at h
        cases h
        refine ⟨?_, rfl⟩
        simp only [condHolds, h1, Res.bind_ok, paramVal]

/-- A loop of the reference matcher. -/
theorem anyIn_truth {p : D → Bool} {body : Vars E → Out E} {v : Int} {B : List Int} {l : List D} {js : List (J E)}
    (hl : DecodesL l js)
    (hbody : ∀ d ∈ l, ∀ j, Decodes d j → ∀ s b s', s v = some j → body s = .ok (some b, s') → b = p d ∧ ∀ u ∉ B, s' u = s u) :
    ∀ (s s' : Vars E) (b : Bool), anyIn body v js s = .ok (some b, s') → b = l.any p ∧ ∀ u, u ≠ v → u ∉ B → s' u = s u := by
  induction hl with
  | nil =>
    intro s s' b h
    cases h
    exact ⟨rfl, fun _ _ _ => rfl⟩
  | @cons d j l js hd _ ih =>
    intro s s' b h
    rw [anyIn] at h
    obtain ⟨⟨o, t⟩, h1, h2⟩ := Res.bind_eq_ok.1 h
    have herase : (∀ u ∉ B, t u = s.set v j u) → ∀ u, u ≠ v → u ∉ B → t.erase v u = s u := by
      intro ht u hu hB
      rw [Vars.erase, if_neg hu, ht u hB, Vars.set, if_neg hu]
    match o, h1, h2 with
    | some true, h1, h2 =>
      cases h2
      obtain ⟨k1, k2⟩ := hbody d List.mem_cons_self j hd _ _ _ (by rw [Vars.set, if_pos rfl]) h1
      exact ⟨by rw [List.any_cons, ← k1]; rfl, herase k2⟩
    | some false, h1, h2 =>
      obtain ⟨k1, k2⟩ := hbody d List.mem_cons_self j hd _ _ _ (by rw [Vars.set, if_pos rfl]) h1
      obtain ⟨r1, r2⟩ := ih (fun d hd => hbody d (List.mem_cons_of_mem _ hd)) _ _ _ h2
      refine ⟨by rw [List.any_cons, ← k1]; exact r1, fun u hu hB => ?_⟩
      rw [r2 u hu hB]
      exact herase k2 u hu hB

mutual
  /-- If the reference matcher gives an answer, it is the truth of the expression. -/
  theorem slow_truth (X : Fns E) (C : Comp E) (hq : QuoteLaws E) (hF : FloatLaws E) : ∀ (e : Expr E) (v : Int) (d : D) (j : J E)
      (s s' : Vars E) (b : Bool), Decodes d j → s v = some j → Frag C v e → Supported e → Scoped e → v ∉ binds e → Sees e d →
      matchOne e s = .ok (some b, s') → b = truth X C e d ∧ ∀ u ∉ binds e, s' u = s u
    | .cmp c l r, v, d, j, s, s', b, hd, hs, hf, hsup, _, _, hsee, h => by
      rw [matchOne] at h
      obtain ⟨h1, h2⟩ := cmp_truth X C hq hF hd hs hf hsup hsee h
      exact ⟨h1, fun u _ => by rw [h2]⟩
    | .and .nil, v, d, j, s, s', b, hd, hs, hf, hsup, hsc, hv, hsee, h => by simp [Frag, Frags] at hf
    | .and (.cons e r), v, d, j, s, s', b, hd, hs, hf, hsup, hsc, hv, hsee, h => by
      rw [truth]
      exact slow_truthAll X C hq hF (.cons e r) v d j s s' b hd hs hf hsup hsc hv hsee h
    | .or es, v, d, j, s, s', b, hd, hs, hf, hsup, hsc, hv, hsee, h => by
      rw [truth]
      exact slow_truthAny X C hq hF es v d j s s' b hd hs hf hsup hsc hv hsee h
    | .loop .any w i e, v, d, j, s, s', b, hd, hs, hf, hsup, hsc, hv, hsee, h => by
      obtain ⟨ws, es, hw, hall⟩ := hsee
      have hi : i = .field ⟨v, inPath i⟩ := hf.1
      rw [matchOne, matchAnyIn] at h
      have hres : resolveParam s i = .ok ((resolveField s ⟨v, inPath i⟩).map .json) := by
        rw [show resolveParam s i = resolveParam s (.field ⟨v, inPath i⟩) from by rw [← hi]]
        rfl
      rw [hres] at h
      cases hr : resolveField s ⟨v, inPath i⟩ with
      | none => rw [hr] at h; cases h
      | some j' =>
        rw [hr] at h
        have hdj : Decodes (.arr ws es) j' := by
          rw [resolveField, hs] at hr
          exact follow_walk _ _ _ _ _ hd hw hr
        cases hdj with
        | @arr _ js _ hjs =>
          have hfa : firstArr (walk (inPath i) d) = some (esList es) := by
            cases hl : walk (inPath i) d with
            | nil => rw [hl] at hw; cases hw
            | cons y ys => rw [hl] at hw; cases hw; rw [firstArr]
          rw [truth, hfa]
          obtain ⟨r1, r2⟩ := anyIn_truth (p := truth X C e) (B := binds e) (decodes_elems es js hjs)
            (fun d' hd' j' hj' s1 b1 s1' hs1 h1 =>
              slow_truth X C hq hF e w d' j' s1 s1' b1 hj' hs1 hf.2.2.2 hsup hsc.2 hsc.1 (hall d' hd') h1) s s' b h
          refine ⟨r1, fun u hu => ?_⟩
          rw [binds, List.mem_cons] at hu
          exact r2 u (fun h0 => hu (Or.inl h0)) (fun h0 => hu (Or.inr h0))
    | .loop .every .., v, d, j, s, s', b, hd, hs, hf, hsup, hsc, hv, hsee, h
    | .loop .anyEvery .., v, d, j, s, s', b, hd, hs, hf, hsup, hsc, hv, hsee, h => by simp [Supported] at hsup
    | .exist _, v, d, j, s, s', b, hd, hs, hf, hsup, hsc, hv, hsee, h | .notExist _, v, d, j, s, s', b, hd, hs, hf, hsup, hsc, hv, hsee, h
    | .not _, v, d, j, s, s', b, hd, hs, hf, hsup, hsc, hv, hsee, h => by simp [Supported] at hsup
    | .tru, v, d, j, s, s', b, hd, hs, hf, hsup, hsc, hv, hsee, h | .fals, v, d, j, s, s', b, hd, hs, hf, hsup, hsc, hv, hsee, h => by
      simp [Supported] at hsup
    | .value _, v, d, j, s, s', b, hd, hs, hf, hsup, hsc, hv, hsee, h | .regex _, v, d, j, s, s', b, hd, hs, hf, hsup, hsc, hv, hsee, h
    | .pcre _, v, d, j, s, s', b, hd, hs, hf, hsup, hsc, hv, hsee, h | .time _, v, d, j, s, s', b, hd, hs, hf, hsup, hsc, hv, hsee, h
    | .field _, v, d, j, s, s', b, hd, hs, hf, hsup, hsc, hv, hsee, h | .func .., v, d, j, s, s', b, hd, hs, hf, hsup, hsc, hv, hsee, h => by
      simp [Frag] at hf
  theorem slow_truthAll (X : Fns E) (C : Comp E) (hq : QuoteLaws E) (hF : FloatLaws E) : ∀ (es : Exprs E) (v : Int) (d : D) (j : J E)
      (s s' : Vars E) (b : Bool), Decodes d j → s v = some j → Frags C v es → Supporteds es → ScopedAll es → v ∉ bindsAll es → SeesAll es d →
      matchAnd es s = .ok (some b, s') → b = truthAll X C es d ∧ ∀ u ∉ bindsAll es, s' u = s u
    | .nil, v, d, j, s, s', b, hd, hs, hf, hsup, hsc, hv, hsee, h => by simp [Frags] at hf
    | .cons e r, v, d, j, s, s', b, hd, hs, hf, hsup, hsc, hv, hsee, h => by
      have hfe : Frag C v e := by
        cases r with
        | nil => exact hf
        | cons _ _ => exact hf.1
      rw [bindsAll, List.mem_append] at hv
      rw [matchAnd] at h
      obtain ⟨⟨o, t⟩, h1, h2⟩ := Res.bind_eq_ok.1 h
      match o, h1, h2 with
      | some false, h1, h2 =>
        cases h2
        obtain ⟨k1, k2⟩ := slow_truth X C hq hF e v d j s _ _ hd hs hfe hsup.1 hsc.1 (fun h0 => hv (Or.inl h0)) hsee.1 h1
        refine ⟨by rw [truthAll, ← k1]; rfl, fun u hu => k2 u (fun h0 => hu ?_)⟩
        rw [bindsAll]; exact List.mem_append_left _ h0
      | some true, h1, h2 =>
        obtain ⟨k1, k2⟩ := slow_truth X C hq hF e v d j s _ _ hd hs hfe hsup.1 hsc.1 (fun h0 => hv (Or.inl h0)) hsee.1 h1
        cases r with
        | nil =>
          rw [matchAnd] at h2
          cases h2
          refine ⟨by rw [truthAll, truthAll, ← k1]; rfl, fun u hu => k2 u (fun h0 => hu ?_)⟩
          rw [bindsAll]; exact List.mem_append_left _ h0
        | cons e' r' =>
          obtain ⟨r1, r2⟩ := slow_truthAll X C hq hF (.cons e' r') v d j t s' b hd (by rw [k2 v (fun h0 => hv (Or.inl h0))]; exact hs) hf.2
            hsup.2 hsc.2 (fun h0 => hv (Or.inr h0)) hsee.2 h2
          refine ⟨by rw [truthAll, ← k1, ← r1]; rfl, fun u hu => ?_⟩
          rw [bindsAll, List.mem_append] at hu
          rw [r2 u (fun h0 => hu (Or.inr h0)), k2 u (fun h0 => hu (Or.inl h0))]
  theorem slow_truthAny (X : Fns E) (C : Comp E) (hq : QuoteLaws E) (hF : FloatLaws E) : ∀ (es : Exprs E) (v : Int) (d : D) (j : J E)
      (s s' : Vars E) (b : Bool), Decodes d j → s v = some j → Frags C v es → Supporteds es → ScopedAll es → v ∉ bindsAll es → SeesAll es d →
      matchOr es s = .ok (some b, s') → b = truthAny X C es d ∧ ∀ u ∉ bindsAll es, s' u = s u
    | .nil, v, d, j, s, s', b, hd, hs, hf, hsup, hsc, hv, hsee, h => by simp [Frags] at hf
    | .cons e r, v, d, j, s, s', b, hd, hs, hf, hsup, hsc, hv, hsee, h => by
      have hfe : Frag C v e := by
        cases r with
        | nil => exact hf
        | cons _ _ => exact hf.1
      rw [bindsAll, List.mem_append] at hv
      rw [matchOr] at h
      obtain ⟨⟨o, t⟩, h1, h2⟩ := Res.bind_eq_ok.1 h
      match o, h1, h2 with
      | some true, h1, h2 =>
        cases h2
        obtain ⟨k1, k2⟩ := slow_truth X C hq hF e v d j s _ _ hd hs hfe hsup.1 hsc.1 (fun h0 => hv (Or.inl h0)) hsee.1 h1
        refine ⟨by rw [truthAny, ← k1]; rfl, fun u hu => k2 u (fun h0 => hu ?_)⟩
        rw [bindsAll]; exact List.mem_append_left _ h0
      | some false, h1, h2 =>
        obtain ⟨k1, k2⟩ := slow_truth X C hq hF e v d j s _ _ hd hs hfe hsup.1 hsc.1 (fun h0 => hv (Or.inl h0)) hsee.1 h1
        cases r with
        | nil =>
          rw [matchOr] at h2
          cases h2
          refine ⟨by rw [truthAny, truthAny, ← k1]; rfl, fun u hu => k2 u (fun h0 => hu ?_)⟩
          rw [bindsAll]; exact List.mem_append_left _ h0
        | cons e' r' =>
          obtain ⟨r1, r2⟩ := slow_truthAny X C hq hF (.cons e' r') v d j t s' b hd (by rw [k2 v (fun h0 => hv (Or.inl h0))]; exact hs) hf.2
            hsup.2 hsc.2 (fun h0 => hv (Or.inr h0)) hsee.2 h2
          refine ⟨by rw [truthAny, ← k1, ← r1]; rfl, fun u hu => ?_⟩
          rw [bindsAll, List.mem_append] at hu
          rw [r2 u (fun h0 => hu (Or.inr h0)), k2 u (fun h0 => hu (Or.inl h0))]
end

/-! ### The fast matcher computes the truth -/

mutual
  theorem sem_sees (X : Fns E) (C : Comp E) : ∀ (e : Expr E) (d : D), Sees e d → Supported e →
      sem X C e d = some (truth X C e d) ∧ top X C e d = truth X C e d
    | .cmp c l r, d, ⟨x, hx, _⟩, _ => by rw [sem, top, truth, hx]; exact ⟨rfl, rfl⟩
    | .and es, d, h, hs => by rw [sem, top, truth]; exact semAll_sees X C es d h hs
    | .or es, d, h, hs => by rw [sem, top, truth]; exact semAny_sees X C es d h hs
    | .loop .any w i s, d, ⟨ws, es, hw, h⟩, hs => by
      have hfa : firstArr (walk (inPath i) d) = some (esList es) := by
        cases hl : walk (inPath i) d with
        | nil => rw [hl] at hw; cases hw
        | cons y ys => rw [hl] at hw; cases hw; rw [firstArr]
      rw [sem, top, truth, hfa]
      have : (esList es).any (fun x => decide (sem X C s x = some true)) = (esList es).any (truth X C s) := by
        rw [Bool.eq_iff_iff, List.any_eq_true, List.any_eq_true]
        constructor
        · rintro ⟨x, h1, h2⟩
          refine ⟨x, h1, ?_⟩
          rw [(sem_sees X C s x (h x h1) hs).1] at h2
          simpa using h2
        · rintro ⟨x, h1, h2⟩
          refine ⟨x, h1, ?_⟩
          rw [(sem_sees X C s x (h x h1) hs).1, h2]
          rfl
      have h' : Mode.holds .any (fun x => decide (sem X C s x = some true)) (esList es) = Mode.holds .any (truth X C s) (esList es) := this
      simp only [Option.map_some, Option.getD_some, h']
      exact ⟨trivial, trivial⟩
    | .loop .every .., d, _, hs | .loop .anyEvery .., d, _, hs => by simp [Supported] at hs
    | .exist _, d, _, hs | .notExist _, d, _, hs | .not _, d, _, hs | .tru, d, _, hs | .fals, d, _, hs | .value _, d, _, hs
    | .regex _, d, _, hs | .pcre _, d, _, hs | .time _, d, _, hs | .field _, d, _, hs | .func .., d, _, hs => by simp [Supported] at hs
  theorem semAll_sees (X : Fns E) (C : Comp E) : ∀ (es : Exprs E) (d : D), SeesAll es d → Supporteds es →
      semAll X C es d = some (truthAll X C es d) ∧ topAll X C es d = truthAll X C es d
    | .nil, d, _, _ => ⟨rfl, rfl⟩
    | .cons e r, d, h, hs => by
      obtain ⟨a1, a2⟩ := sem_sees X C e d h.1 hs.1
      obtain ⟨b1, b2⟩ := semAll_sees X C r d h.2 hs.2
      rw [semAll, topAll, truthAll, a1, a2, b1, b2]
      refine ⟨?_, rfl⟩
      cases truth X C e d <;> cases truthAll X C r d <;> rfl
  theorem semAny_sees (X : Fns E) (C : Comp E) : ∀ (es : Exprs E) (d : D), SeesAll es d → Supporteds es →
      semAny X C es d = some (truthAny X C es d) ∧ topAny X C es d = truthAny X C es d
    | .nil, d, _, _ => ⟨rfl, rfl⟩
    | .cons e r, d, h, hs => by
      obtain ⟨a1, a2⟩ := sem_sees X C e d h.1 hs.1
      obtain ⟨b1, b2⟩ := semAny_sees X C r d h.2 hs.2
      rw [semAny, topAny, truthAny, a1, a2, b1, b2]
      refine ⟨?_, rfl⟩
      cases truth X C e d <;> cases truthAny X C r d <;> rfl
end

mutual
  theorem supported_safe : ∀ e : Expr E, Supported e → SafeE e
    | .cmp c (.field _) (.value _), _ => by simp [SafeE, SafeParam]
    | .cmp c (.value _) (.field _), _ => by simp [SafeE, SafeParam]
    | .and es, h => by rw [SafeE]; exact supporteds_safe es h
    | .or es, h => by rw [SafeE]; exact supporteds_safe es h
    | .loop .any _ _ s, h => by rw [SafeE]; exact supported_safe s h
  theorem supporteds_safe : ∀ es : Exprs E, Supporteds es → SafeEs es
    | .nil, _ => trivial
    | .cons e r, h => ⟨supported_safe e h.1, supporteds_safe r h.2⟩
end

mutual
  theorem frag_binds {C : Comp E} : ∀ (e : Expr E) (v : Int), Frag C v e → (0 : Int) ∉ binds e
    | .and es, v, h => by rw [binds]; exact frags_binds es v h
    | .or es, v, h => by rw [binds]; exact frags_binds es v h
    | .loop _ w _ s, v, h => by
      rw [binds, List.mem_cons]
      rintro (h0 | h0)
      · exact h.2.1 h0.symm
      · exact frag_binds s w h.2.2.2 h0
    | .cmp .., _, _ | .exist _, _, _ | .notExist _, _, _ | .not _, _, _ | .tru, _, _ | .fals, _, _ | .value _, _, _ | .regex _, _, _
    | .pcre _, _, _ | .time _, _, _ | .field _, _, _ | .func .., _, _ => by simp [binds]
  theorem frags_binds {C : Comp E} : ∀ (es : Exprs E) (v : Int), Frags C v es → (0 : Int) ∉ bindsAll es
    | .nil, _, _ => by simp [bindsAll]
    | .cons e .nil, v, h => by rw [bindsAll, bindsAll, List.append_nil]; exact frag_binds e v h
    | .cons e (.cons e' r), v, h => by
      rw [bindsAll, List.mem_append]
      rintro (h0 | h0)
      · exact frag_binds e v h.1 h0
      · exact frags_binds (.cons e' r) v h.2 h0
end

theorem supported_root {e : Expr E} (h : Supported e) (s : Vars E) : matchRoot e s = matchOne e s := by
  cases e <;> simp_all [Supported, matchRoot]

theorem supported_gen : ∀ es : List (Expr E), (∀ e ∈ es, Supported e) → genExprs es = es
  | [], _ => rfl
  | e :: es, h => by
    have he := h e List.mem_cons_self
    have ih := supported_gen es (fun x hx => h x (List.mem_cons_of_mem _ hx))
    cases e <;> simp_all [Supported, genExprs]

/-- What is assumed about an expression and a document. -/
structure Fits (C : Comp E) (e : Expr E) (r : D) : Prop where
  frag : Frag C 0 e
  sup : Supported e
  scope : Scoped e
  sees : Sees e r

theorem matchFrom_truth (X : Fns E) (C : Comp E) (hq : QuoteLaws E) (hF : FloatLaws E) {r : D} {j : J E} (hd : Decodes r j) :
    ∀ (es : List (Expr E)) (i : Nat) (matched b : Bool) (m m' : M E), (∀ e ∈ es, Fits C e r) → m.vars 0 = some j →
      matchFrom i es matched m = .ok (some b, m') →
      b = (if i = 0 then !es.isEmpty && es.all (fun e => truth X C e r) || (es.isEmpty && matched)
        else matched && es.all (fun e => truth X C e r)) ∧
      (∀ k, k < i → m'.matches_[k]? = m.matches_[k]?) ∧
      (∀ k, k < es.length → m'.matches_[i + k]? = (es[k]?).map (fun e => truth X C e r)) ∧ m'.exprs = m.exprs
  | [], i, matched, b, m, m', _, _, h => by
    rw [matchFrom] at h
    cases h
    refine ⟨by cases matched <;> simp, fun _ _ => rfl, fun k hk => absurd hk (Nat.not_lt_zero k), rfl⟩
  | e :: es, i, matched, b, m, m', hfit, hm, h => by
    rw [matchFrom] at h
    obtain ⟨⟨o, s⟩, h1, h2⟩ := Res.bind_eq_ok.1 h
    have he := hfit e List.mem_cons_self
    rw [supported_root he.sup] at h1
    match o, h1, h2 with
    | some res, h1, h2 =>
      obtain ⟨k1, k2⟩ := slow_truth X C hq hF e 0 r j _ _ _ hd hm he.frag he.sup he.scope (frag_binds e 0 he.frag) he.sees h1
      simp only at h2
      by_cases hi : i < m.matches_.length
      · rw [if_pos hi] at h2
        obtain ⟨r1, r2, r3, r4⟩ := matchFrom_truth X C hq hF hd es (i + 1) _ b _ m' (fun x hx => hfit x (List.mem_cons_of_mem _ hx))
          (by show s 0 = _; rw [k2 0 (frag_binds e 0 he.frag)]; exact hm) h2
        rw [if_neg (Nat.succ_ne_zero i)] at r1
        refine ⟨?_, ?_, ?_, r4⟩
        · rw [r1, List.all_cons, ← k1]
          by_cases h0 : i = 0
          · cases res <;> simp [h0]
          · cases res <;> simp [h0]
        · intro k hk
          rw [r2 k (by omega)]
          exact List.getElem?_set_ne (by omega)
        · intro k hk
          cases k with
          | zero =>
            rw [Nat.add_zero, r2 i (by omega)]
            show (m.matches_.set i res)[i]? = _
            rw [List.getElem?_set_self hi, k1]; rfl
          | succ k =>
            rw [show i + (k + 1) = i + 1 + k by omega, r3 k (by simpa using hk)]; rfl
      · rw [if_neg hi] at h2; cases h2

/-- **C35**, the reference matcher: if it reports no error, its verdict is whether there are expressions and all are true, and it
reports each expression's truth. -/
theorem C35_reference (X : Fns E) (C : Comp E) (hq : QuoteLaws E) (hF : FloatLaws E) (unmarshal : List Nat → Option (J E))
    {data : List Nat} {r : D} {j : J E} (hu : unmarshal data = some j) (hd : Decodes r j) (m m' : M E)
    (hfit : ∀ e ∈ m.exprs, Fits C e r) {b : Bool} (h : slowMatch unmarshal m data = .ok (some b, m')) :
    b = (!m.exprs.isEmpty && m.exprs.all (fun e => truth X C e r)) ∧
    ∀ k e, m.exprs[k]? = some e → expressionMatched m' k = .ok (truth X C e r) := by
  unfold slowMatch at h
  rw [hu] at h
  obtain ⟨⟨o, m1⟩, h1, h2⟩ := Res.bind_eq_ok.1 h
  match o, h1, h2 with
  | some b1, h1, h2 =>
    cases h2
    obtain ⟨r1, _, r3, _⟩ := matchFrom_truth X C hq hF hd m.exprs 0 false b _ m1 hfit (by simp [Vars.set]) h1
    refine ⟨by rw [r1]; simp, fun k e hk => ?_⟩
    obtain ⟨hk', _⟩ := List.getElem?_eq_some_iff.1 hk
    have := r3 k hk'
    rw [hk, Nat.zero_add] at this
    exact Res.idx_of_some this

/-- The fast matcher on such expressions: whether one of them is true. -/
theorem fast_any (X : Fns E) (C : Comp E) (slot0 : Nat) {es : List (Expr E)} (hne : es ≠ []) {data : List Nat} {r : D} (hr : Begins data r)
    (hfit : ∀ e ∈ es, Fits C e r) (hreg : Regular es r) : ∃ df, transform C slot0 es = .ok df ∧ ∀ m, Ready df m →
      ∃ m', run X df m data = .ok (some (es.any (fun e => truth X C e r)), m') := by
  have hgen := supported_gen es (fun e he => (hfit e he).sup)
  cases es with
  | nil => exact absurd rfl hne
  | cons g gs =>
    obtain ⟨df, h1, h2⟩ := run_top X (slot0 := slot0) hgen (fun e he => (hfit e he).frag) (fun e he => supported_safe e (hfit e he).sup) hr hreg
    refine ⟨df, h1, fun m hm => ?_⟩
    have : (g :: gs).any (fun e => truth X C e r) = (g :: gs).any (fun e => top X C e r) := by
      have hx : ∀ x ∈ g :: gs, top X C x r = truth X C x r := fun x hx => (sem_sees X C x r (hfit x hx).sees (hfit x hx).sup).2
      rw [Bool.eq_iff_iff, List.any_eq_true, List.any_eq_true]
      constructor
      · rintro ⟨x, h, h'⟩; exact ⟨x, h, by rw [hx x h]; exact h'⟩
      · rintro ⟨x, h, h'⟩; exact ⟨x, h, by rw [← hx x h]; exact h'⟩
    rw [this]
    exact h2 m hm

/-- C35 for one expression and documents that have all the fields it asks for, without repeated keys, whose arrays and objects
the fast matcher sees (`Regular`) and whose values are compared faithfully: if the reference matcher reports no error, the fast
matcher gives the same verdict.  (Missing: the other documents and several expressions, for which it is false, see
`C35_negation`; comparisons of two fields, Boolean constants.) -/
theorem C35_agree_partial (X : Fns E) (C : Comp E) (slot0 : Nat) (hq : QuoteLaws E) (hF : FloatLaws E)
    (unmarshal : List Nat → Option (J E)) {data : List Nat} {r : D} {j : J E} (hr : Begins data r) (hu : unmarshal data = some j)
    (hd : Decodes r j) {e : Expr E} (hfit : Fits C e r) (hreg : Regular [e] r) (s s' : M E) (hs : s.exprs = [e]) {b : Bool}
    (h : slowMatch unmarshal s data = .ok (some b, s')) :
    ∃ df, transform C slot0 [e] = .ok df ∧ ∀ m, Ready df m → ∃ m', run X df m data = .ok (some b, m') := by
  have hfit' : ∀ x ∈ [e], Fits C x r := by
    intro x hx
    rw [List.mem_singleton] at hx
    subst hx
    exact hfit
  have hb := (C35_reference X C hq hF unmarshal hu hd s s' (by rw [hs]; exact hfit') h).1
  rw [hs] at hb
  obtain ⟨df, h1, h2⟩ := fast_any X C slot0 (es := [e]) (List.cons_ne_nil _ _) hr hfit' hreg
  refine ⟨df, h1, fun m hm => ?_⟩
  obtain ⟨m', h3⟩ := h2 m hm
  refine ⟨m', ?_⟩
  rw [h3, hb]
  simp

/-! ### Examples -/

theorem demoQuote : QuoteLaws demoExt := ⟨fun _ _ => rfl, fun _ _ h => h⟩

/-- `a = 1` with a floating-point constant, as the reference matcher needs it. -/
def oneF : Expr demoExt := .value (.json (.num (1 : Int)))
def twoF : Expr demoExt := .value (.json (.num (2 : Int)))

/-- What `docLoop`, `{"a":[{"b":1}]}`, decodes to. -/
def jLoop : J demoExt := .obj (.cons [97] (.arr (.cons (.obj (.cons [98] (.num (1 : Int)) .nil)) .nil)) .nil)

theorem docLoop_decodes : Decodes docLoop jLoop := by
  have ha : ∀ c ∈ [Ch.plain 97], c.WF := by intro c hc; rw [List.mem_singleton] at hc; subst hc; simp [Ch.WF]
  have hb : ∀ c ∈ [Ch.plain 98], c.WF := by intro c hc; rw [List.mem_singleton] at hc; subst hc; simp [Ch.WF]
  exact .obj (.cons (cs := [.plain 97]) ha (.arr (.cons (.obj (.cons (cs := [.plain 98]) hb (.int text_1) .nil trivial)) .nil)) .nil trivial)

/-- `any x in a satisfies (x.b = 1 or x.b > 2)` -/
def demoAny : Expr demoExt :=
  .loop .any 1 fieldA (.or (.cons (.cmp .eq (.field ⟨1, [[98]]⟩) oneF) (.cons (.cmp .gt (.field ⟨1, [[98]]⟩) twoF) .nil)))

theorem walk_demo_b : walk [[98]] (.obj [] (.cons .string [34, 98, 34] [] [] (.lit .integer [49]) [] [] .nil)) = [.lit .integer [49]] := by rfl

theorem faithful_demo (c : Cmp) (f : Int) (j : J demoExt) (h : Decodes (.lit .integer [49]) j) :
    Faithful (E := demoExt) c (.json (.num f)) (.lit .integer [49]) j where
  str := fun _ _ h0 _ => nomatch h0
  num := by
    intro f' (y : Int) h0 hj
    cases h0
    refine ⟨rfl, rfl, ?_⟩
    intro hg
    have hg' : decide (((f - y : Int).natAbs : Int) < 1) = true := hg
    rw [decide_eq_true_eq] at hg'
    have : f = y := by omega
    subst this
    exact ⟨by simp [demoExt], by simp [demoExt]⟩
  int := by
    intro w hw
    cases hw
    rfl

theorem demoAny_fits : Fits demoComp demoAny docLoop where
  frag := by simp [demoAny, Frag, Frags, Param, condPath, inPath, fieldPath, fieldA, oneF, twoF, Expr.Plain, Exprs.Plain]
  sup := by simp [demoAny, Supported, Supporteds, Scalar, oneF, twoF]
  scope := by simp [demoAny, Scoped, ScopedAll, binds, bindsAll]
  sees := by
    refine ⟨[], _, rfl, ?_⟩
    intro y hy
    have hy' : y = .obj [] (.cons .string [34, 98, 34] [] [] (.lit .integer [49]) [] [] .nil) := by
      have : esList (.cons (.obj [] (.cons .string [34, 98, 34] [] [] (.lit .integer [49]) [] [] .nil)) [] [] .nil) =
        [.obj [] (.cons .string [34, 98, 34] [] [] (.lit .integer [49]) [] [] .nil)] := rfl
      exact List.mem_singleton.1 (this ▸ hy)
    subst hy'
    exact ⟨⟨_, rfl, fun j hj => faithful_demo .eq 1 j hj⟩, ⟨_, rfl, fun j hj => faithful_demo .gt 2 j hj⟩, trivial⟩

theorem demoAny_regular : Regular [demoAny] docLoop := by
  refine ⟨regular_of_check (by decide +kernel), ?_⟩
  intro x hx
  rw [List.mem_singleton] at hx
  subst hx
  have h : walk (inPath fieldA) docLoop =
      [.arr [] (.cons (.obj [] (.cons .string [34, 98, 34] [] [] (.lit .integer [49]) [] [] .nil)) [] [] .nil)] := by rfl
  rw [demoAny, Inner, h]
  intro x hx y hy
  rw [List.mem_singleton] at hx
  subst hx
  rw [elements, esList, esList, List.mem_singleton] at hy
  subst hy
  exact ⟨regular_of_check (by decide +kernel), by simp [Inner, InnerAll]⟩

/-- Both matchers accept `{"a":[{"b":1}]}`. -/
example : ∃ df, transform demoComp 0 [demoAny] = .ok df ∧ ∀ m, Ready df m → ∃ m', run demoFns df m textLoop = .ok (some true, m') := by
  have h : ∃ s', slowMatch (fun _ => some jLoop) (newSlow [demoAny]) textLoop = .ok (some true, s') := ⟨_, rfl⟩
  obtain ⟨s', h⟩ := h
  exact C35_agree_partial demoFns demoComp 0 demoQuote demoFloat (fun _ => some jLoop) docLoop_text rfl docLoop_decodes demoAny_fits
    demoAny_regular (newSlow [demoAny]) s' rfl h

/-- `{"a":1}` and `{"b":1}` decoded. -/
def jA1 : J demoExt := .obj (.cons [97] (.num (1 : Int)) .nil)
def jB1 : J demoExt := .obj (.cons [98] (.num (1 : Int)) .nil)

/-- The full statement of C35 is false: with the expressions `a = 1` and `a = 2` on `{"a":1}`, and with `a < 2` on `{"b":1}`, the
reference matcher reports no error and a verdict that differs from that of the fast matcher. -/
theorem C35_negation :
    (slowMatch (fun _ => some jA1) (newSlow [.cmp .eq fieldA oneF, .cmp .eq fieldA twoF]) demoDoc >>= fun r => Res.ok r.1) = .ok (some false) ∧
    (transform demoComp 0 [.cmp .eq fieldA oneF, .cmp .eq fieldA twoF] >>= fun df =>
      run demoFns df (newMatcher df) demoDoc >>= fun r => Res.ok r.1) = .ok (some true) ∧
    (slowMatch (fun _ => some jB1) (newSlow [.cmp .lt fieldA twoF]) textB1 >>= fun r => Res.ok r.1) = .ok (some true) ∧
    (transform demoComp 0 [.cmp .lt fieldA twoF] >>= fun df =>
      run demoFns df (newMatcher df) textB1 >>= fun r => Res.ok r.1) = .ok (some false) := by
  decide +kernel

end Verif.Slow
