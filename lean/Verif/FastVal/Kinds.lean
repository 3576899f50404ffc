import Verif.FastVal.Theorems
import Verif.Lit.Theorems

/-!
# Comparison of values of different kinds, patterns, and decimal text (C45, C46, C47)
-/

namespace Verif.FastVal
open Verif.Lit (decVal)

variable {E : Ext}

/-! ### Specification: the kinds of values a document has, and their comparison -/

/-- A value of a document as the matcher sees it. -/
inductive DocV (E : Ext) where
  | null
  | bool (b : Bool)
  | int (v : BitVec 64)
  | float (f : E.F)
  | str (s : List Nat)
  | arr (s : List Nat)
  | obj (s : List Nat)

/-- A constant of an expression. -/
inductive ConV (E : Ext) where
  | null
  | bool (b : Bool)
  | int (v : BitVec 64)
  | uint (v : BitVec 64)
  | float (f : E.F)
  /-- with its quoted text -/
  | str (s : List Nat)
  | time (t : E.T)

def DocV.data : DocV E → Data E
  | .null => .null
  | .bool true => .tru
  | .bool false => .fals
  | .int v => .int v
  | .float f => .float f
  | .str s => .binStr s
  | .arr s => .arr s
  | .obj s => .obj s

def ConV.data : ConV E → Data E
  | .null => .null
  | .bool true => .tru
  | .bool false => .fals
  | .int v => .int v
  | .uint v => .uint v
  | .float f => .float f
  | .str s => .jsonStr s
  | .time t => .time t

/-- Order of two numbers, as floats, up to the tolerance; a NaN is below everything else and never equal. -/
def ordF (x y : E.F) : Int × Bool :=
  if E.isNaN x then (if E.isNaN y then 0 else -1, false)
  else if E.isNaN y then (1, false)
  else (if E.lt (E.abs (E.sub x y)) E.eps then 0 else if E.lt x y then -1 else if E.lt y x then 1 else 0, true)

def ordB : Bool → Bool → Int
  | false, true => -1
  | true, false => 1
  | _, _ => 0

/-- Numbers 0 and 1 for truth values. -/
def boolInt (b : Bool) : Int := if b then 1 else 0
def boolF (b : Bool) : E.F := if b then E.one else E.zero

/-- Negated result. -/
def flip (r : Int × Bool) : Int × Bool := (-r.1, r.2)

/-- The order of a document value relative to a constant, and whether the comparison is meaningful (equality requires that). -/
def docCon : DocV E → ConV E → Int × Bool
  -- null is below everything
  | .null, .null => (0, true)
  | .null, _ => (-1, false)
  | _, .null => (1, true)
  -- truth values: false below true; as the numbers 0 and 1 relative to a number; incomparable to a string
  | .bool b, .bool c => (ordB b c, true)
  | .bool b, .int v => (sgn (boolInt b - v.toInt), true)
  | .bool b, .uint v => (sgn (boolInt b - v.toNat), true)
  | .bool b, .float f => flip (ordF f (boolF b))
  | .bool _, .str _ => (0, false)
  | .bool _, .time _ => (-1, false)
  -- numbers: by value; relative to a string, by their text
  | .int v, .bool b => flip (ordB b (decide (v ≠ 0#64)), true)
  | .int v, .int w => (sgn (v.toInt - w.toInt), true)
  | .int v, .uint w =>
    if 2 ^ 63 ≤ w.toNat then (sgn (v.toInt - (w.toNat - 2 ^ 64)), false) -- the constant wraps around
    else if 0 < v.toInt then (sgn (v.toInt - w.toNat), true) else (sgn (0 - w.toNat), false) -- 0 is not accepted
  | .int v, .float f => flip (ordF f (E.ofInt v))
  | .int v, .str s => flip (cmpBytes s (fmtInt v), true)
  | .int _, .time _ => (-1, false)
  | .float f, .bool b => flip (ordB b (E.nonZero f), true)
  | .float f, .int v => flip (ordF (E.ofInt v) f)
  | .float f, .uint v => flip (ordF (E.ofUint v) f)
  | .float f, .float g => flip (ordF g f)
  | .float f, .str s => flip (cmpBytes s (E.fmtE f), true)
  | .float _, .time _ => (-1, false)
  -- strings: relative to an integer or a time, as what they spell, if they do; otherwise above numbers
  | .str _, .bool _ => (1, false)
  | .str s, .int v => match parseInt s with
    | (w, true) => (sgn (w.toInt - v.toInt), true)
    | _ => (1, false)
  | .str s, .uint v => match parseUint s with
    | (w, true) => (sgn (w.toNat - v.toNat), true)
    | _ => (1, false)
  | .str _, .float _ => (1, false)
  | .str s, .str t => flip (cmpBytes t (E.quote s), true)
  | .str s, .time t => match E.parseTime s with
    | some u => if E.timeEq t u then (0, true) else if E.timeAfter t u then (-1, true) else (1, true)
    | none => (-1, false)
  -- arrays and objects: above all else
  | .arr _, _ => (1, false)
  | .obj _, _ => (1, false)

/-- The order of two values of a document. -/
def docDoc : DocV E → DocV E → Int × Bool
  -- null is below everything
  | .null, .null => (0, true)
  | .null, _ => (-1, true)
  | _, .null => (1, true)
  -- arrays and objects: by length, then bytewise, among each other; arrays below objects, above all else
  | .arr s, .arr t => (if s.length < t.length then -1 else if t.length < s.length then 1 else cmpBytes s t, true)
  | .obj s, .obj t => (if s.length < t.length then -1 else if t.length < s.length then 1 else cmpBytes s t, true)
  | .arr _, .obj _ => (-1, false)
  | .obj _, .arr _ => (1, false)
  | .arr _, _ => (1, false)
  | .obj _, _ => (1, false)
  | _, .arr _ => (-1, false)
  | _, .obj _ => (-1, false)
  -- truth values: false below true; a number relative to them is true unless it is 0; incomparable to strings
  | .bool b, .bool c => (ordB b c, true)
  | .bool b, .int v => (ordB b (decide (v ≠ 0#64)), true)
  | .int v, .bool b => flip (ordB b (decide (v ≠ 0#64)), true)
  | .bool b, .float f => (ordB b (E.nonZero f), true)
  | .float f, .bool b => flip (ordB b (E.nonZero f), true)
  | .bool _, .str _ => (0, false)
  | .str _, .bool _ => (0, false)
  -- numbers: by value
  | .int v, .int w => (sgn (v.toInt - w.toInt), true)
  | .int v, .float f => flip (ordF f (E.ofInt v))
  | .float f, .int v => ordF f (E.ofInt v)
  | .float f, .float g => ordF f g
  -- strings: relative to an integer by the number they spell, if they do; otherwise by text
  | .str s, .str t => (cmpBytes (E.quote s) (E.quote t), true)
  | .str s, .int v => match parseInt s with
    | (w, true) => (sgn (w.toInt - v.toInt), true)
    | _ => (cmpBytes (E.quote s) (fmtInt v), true)
  | .int v, .str s => match parseInt s with
    | (w, true) => (sgn (v.toInt - w.toInt), true)
    | _ => flip (cmpBytes (E.quote s) (fmtInt v), true)
  | .str s, .float f => (cmpBytes (E.quote s) (E.fmtE f), true)
  | .float f, .str s => flip (cmpBytes (E.quote s) (E.fmtE f), true)

/-! ### C45 -/

theorem compareFloat_ord (a b : Data E) (ha : a.asFloat.2 = true) (hb : b.asFloat.2 = true) :
    compareFloat a b = ordF a.asFloat.1 b.asFloat.1 := by
  unfold compareFloat ordF
  generalize a.asFloat = p at *
  generalize b.asFloat = q at *
  obtain ⟨x, v⟩ := p
  obtain ⟨y, w⟩ := q
  simp only at ha hb ⊢
  subst ha hb
  cases E.isNaN x <;> cases E.isNaN y <;> simp
  split
  · rfl
  · split
    · rfl
    · split <;> rfl

theorem flip_eq (r : Int × Bool) : (r.1 * -1, r.2) = flip r := by
  rw [flip]; congr 1; omega

theorem neg_sgn (x : Int) : - sgn x = sgn (- x) := by
  unfold sgn
  split <;> split <;> (try split) <;> (try split) <;> omega

theorem doc_con_ok {a b : Data E} (h : checkCompat b a = true) :
    compare (E := E) ⟨a, false⟩ ⟨b, true⟩ = flip (compareInternal ⟨b, true⟩ ⟨a, false⟩) := by
  rw [← flip_eq]
  simp [compare, compareUserDefined, h, reverseCompare]

theorem doc_con_bad {a b : Data E} (h : checkCompat b a = false) (hn : (a.ty.isNumeric && b.ty.isNumeric) = false) :
    compare (E := E) ⟨a, false⟩ ⟨b, true⟩ = collate a b := by
  simp [compare, compareUserDefined, h, hn]

theorem flip_sgn (x y : Int) : flip (cmp3 x y, true) = (sgn (y - x), true) := by
  rw [cmp3_eq_sgn, flip, neg_sgn, show -(x - y) = y - x by omega]

/-- **C45.** The comparison of a document value with a constant is given by the table `docCon` . -/
theorem C45_constant (x : DocV E) (c : ConV E) :
    compare (E := E) ⟨x.data, false⟩ ⟨c.data, true⟩ = docCon x c := by
  match x, c with
  | .null, .null | .null, .bool true | .null, .bool false | .null, .int _ | .null, .uint _ | .null, .float _ | .null, .str _
  | .null, .time _ => rfl
  | .bool true, .null | .bool false, .null | .int _, .null | .float _, .null | .str _, .null | .arr _, .null | .obj _, .null => rfl
  | .bool true, .bool true | .bool true, .bool false | .bool false, .bool true | .bool false, .bool false => rfl
  | .bool true, .int v => exact (doc_con_ok rfl).trans (flip_sgn v.toInt 1)
  | .bool false, .int v => exact (doc_con_ok rfl).trans (flip_sgn v.toInt 0)
  | .bool true, .uint v => exact (doc_con_ok rfl).trans (flip_sgn v.toNat 1)
  | .bool false, .uint v => exact (doc_con_ok rfl).trans (flip_sgn v.toNat 0)
  | .bool true, .float f => exact (doc_con_ok rfl).trans (congrArg flip (compareFloat_ord (.float f) .tru rfl rfl))
  | .bool false, .float f => exact (doc_con_ok rfl).trans (congrArg flip (compareFloat_ord (.float f) .fals rfl rfl))
  | .bool true, .str _ | .bool false, .str _ | .bool true, .time _ | .bool false, .time _ => rfl
  | .int v, .bool true =>
    refine (doc_con_ok rfl).trans (congrArg flip ?_)
    show compareBoolean (E := E) .tru (.int v) = (ordB true (decide (v ≠ 0#64)), true)
    by_cases h0 : v = 0#64 <;> simp [compareBoolean, Data.asBool, ordB, h0]
  | .int v, .bool false =>
    refine (doc_con_ok rfl).trans (congrArg flip ?_)
    show compareBoolean (E := E) .fals (.int v) = (ordB false (decide (v ≠ 0#64)), true)
    by_cases h0 : v = 0#64 <;> simp [compareBoolean, Data.asBool, ordB, h0]
  | .int v, .int w => exact (doc_con_ok rfl).trans (flip_sgn w.toInt v.toInt)
  | .int v, .uint w =>
    have hi : compare (E := E) ⟨.int v, false⟩ ⟨.uint w, true⟩ = flip (compareInternal (E := E) ⟨.uint w, true⟩ ⟨.int v, false⟩) := by
      rw [← flip_eq]
      cases hc : checkCompat (E := E) (.uint w) (.int v) <;>
        simp [compare, compareUserDefined, hc, reverseCompare, Data.ty, Ty.isNumeric, Ty.isInt, Ty.isUInt]
    have hu : compareInternal (E := E) ⟨.uint w, true⟩ ⟨.int v, false⟩ =
        if w.toInt ≥ 0 then compareUint (E := E) (.uint w) (.int v) else compareInt (E := E) (.uint w) (.int v) := by
      show (compareNumerics (E := E) (.uint w) (.int v)).getD (0, false) = _
      unfold compareNumerics
      simp [Data.ty, Ty.isInt, Ty.isUInt, Data.asInt]
    refine (hi.trans (congrArg flip hu)).trans ?_
    have hw := BitVec.toInt_eq_toNat_cond w
    have hwl := w.isLt
    by_cases hb : 2 ^ 63 ≤ w.toNat
    · have hwn : w.toInt = w.toNat - 2 ^ 64 := by rw [hw, if_neg (by omega)]; omega
      have hd : decide (w.toNat ≤ maxInt64) = false := decide_eq_false (by unfold maxInt64; omega)
      rw [if_neg (by omega)]
      simp only [docCon, hb, if_true, compareInt, Data.asInt, hd, Bool.false_and]
      rw [← hwn]
      have h1 := congrArg Prod.fst (flip_sgn w.toInt v.toInt)
      exact Prod.ext h1 rfl
    · have hwn : w.toInt = w.toNat := by rw [hw, if_pos (by omega)]
      rw [if_pos (by omega)]
      simp only [docCon, hb, if_false]
      by_cases hv : 0 < v.toInt
      · have hn : (v.toNat : Int) = v.toInt := by
          have h1 := BitVec.toInt_eq_toNat_cond v
          have h2 := v.isLt
          split at h1 <;> omega
        have ha : Data.asUint (E := E) (.int v) = (v, true) := if_pos hv
        simp only [compareUint, ha, hv, if_true]
        rw [← hn]
        exact flip_sgn _ _
      · have ha : Data.asUint (E := E) (.int v) = (0#64, false) := if_neg hv
        simp only [compareUint, ha, hv, if_false]
        have h1 := congrArg Prod.fst (flip_sgn (w.toNat : Int) 0)
        exact Prod.ext h1 rfl
  | .int v, .float f => exact (doc_con_ok rfl).trans (congrArg flip (compareFloat_ord (.float f) (.int v) rfl rfl))
  | .int v, .str s => exact (doc_con_ok rfl)
  | .int v, .time t => rfl
  | .float f, .bool true =>
    refine (doc_con_ok rfl).trans (congrArg flip ?_)
    show compareBoolean (E := E) .tru (.float f) = (ordB true (E.nonZero f), true)
    cases h0 : E.nonZero f <;> simp [compareBoolean, Data.asBool, ordB, h0]
  | .float f, .bool false =>
    refine (doc_con_ok rfl).trans (congrArg flip ?_)
    show compareBoolean (E := E) .fals (.float f) = (ordB false (E.nonZero f), true)
    cases h0 : E.nonZero f <;> simp [compareBoolean, Data.asBool, ordB, h0]
  | .float f, .int v => exact (show _ = flip (compareFloat (.int v) (.float f)) from by
      rw [← flip_eq]; rfl).trans (congrArg flip (compareFloat_ord (.int v) (.float f) rfl rfl))
  | .float f, .uint v => exact (show _ = flip (compareFloat (.uint v) (.float f)) from by
      rw [← flip_eq]; rfl).trans (congrArg flip (compareFloat_ord (.uint v) (.float f) rfl rfl))
  | .float f, .float g => exact (doc_con_ok rfl).trans (congrArg flip (compareFloat_ord (.float g) (.float f) rfl rfl))
  | .float f, .str s => exact (doc_con_ok rfl)
  | .float f, .time t => rfl
  | .str s, .bool true | .str s, .bool false | .str s, .float f => rfl
  | .str s, .int v =>
    have hc : checkCompat (E := E) (.int v) (.binStr s) = (parseInt s).2 := rfl
    cases hp : parseInt s with
    | mk w ok =>
      cases ok with
      | true =>
        refine (doc_con_ok (by rw [ConV.data, DocV.data, hc, hp])).trans ?_
        have : compareInternal (E := E) ⟨.int v, true⟩ ⟨.binStr s, false⟩ = (cmp3 v.toInt (parseInt s).1.toInt, true && (parseInt s).2) := rfl
        rw [ConV.data, DocV.data, this, hp]
        simp only [docCon, hp]
        exact flip_sgn _ _
      | false =>
        refine (doc_con_bad (by rw [ConV.data, DocV.data, hc, hp]) rfl).trans ?_
        simp only [docCon, hp]
        rfl
  | .str s, .uint v =>
    have hc : checkCompat (E := E) (.uint v) (.binStr s) = (parseUint s).2 := rfl
    cases hp : parseUint s with
    | mk w ok =>
      cases ok with
      | true =>
        refine (doc_con_ok (by rw [ConV.data, DocV.data, hc, hp])).trans ?_
        have : compareInternal (E := E) ⟨.uint v, true⟩ ⟨.binStr s, false⟩ = (cmp3 v.toNat (parseUint s).1.toNat, true && (parseUint s).2) := rfl
        rw [ConV.data, DocV.data, this, hp]
        simp only [docCon, hp]
        exact flip_sgn _ _
      | false =>
        refine (doc_con_bad (by rw [ConV.data, DocV.data, hc, hp]) rfl).trans ?_
        simp only [docCon, hp]
        rfl
  | .str s, .str t => exact (doc_con_ok rfl)
  | .str s, .time t =>
    have hc : checkCompat (E := E) (.time t) (.binStr s) = (E.parseTime s).isSome := rfl
    have hi : compareInternal (E := E) ⟨.time t, true⟩ ⟨.binStr s, false⟩ = compareTime (.time t) (.binStr s) := rfl
    cases hp : E.parseTime s with
    | some u =>
      refine (doc_con_ok (by rw [ConV.data, DocV.data, hc, hp]; rfl)).trans ?_
      rw [ConV.data, DocV.data, hi]
      simp only [compareTime, Data.asTime, hp, docCon]
      split
      · rfl
      · split <;> rfl
    | none =>
      refine (doc_con_bad (by rw [ConV.data, DocV.data, hc, hp]; rfl) rfl).trans ?_
      simp only [docCon, hp]
      rfl
  | .arr _, .bool true | .arr _, .bool false | .arr _, .int _ | .arr _, .uint _ | .arr _, .float _ | .arr _, .str _ | .arr _, .time _
  | .obj _, .bool true | .obj _, .bool false | .obj _, .int _ | .obj _, .uint _ | .obj _, .float _ | .obj _, .str _ | .obj _, .time _ => rfl

theorem collate_flip {a b : Data E} (h : a.ty ≠ b.ty) (hr : a.ty.rank ≠ b.ty.rank) : collate a b = flip (collate b a) := by
  unfold collate
  rw [if_neg h, if_neg (Ne.symm h)]
  by_cases h1 : a.ty.rank < b.ty.rank
  · rw [if_pos h1, if_neg (by omega)]; rfl
  · rw [if_neg h1, if_pos (by omega)]; rfl

/-- A document value and a constant that are both numbers, where the constant cannot be brought to the kind of the value. -/
def mixed : DocV E → ConV E → Bool
  | .float _, .int _ | .float _, .uint _ | .int _, .uint _ => true
  | _, _ => false

theorem DocV.ty_ne (x : DocV E) (c : ConV E) (h : checkCompat c.data x.data = false) : x.data.ty.rank ≠ c.data.ty.rank := by
  match x, c with
  | .null, .null | .bool true, .bool true | .bool false, .bool false | .int _, .int _ | .float _, .float _ | .str _, .str _ =>
    exact absurd h (by rw [show checkCompat _ _ = true from rfl]; exact Bool.noConfusion)
  | .bool false, .bool true => exact absurd h (by rw [show checkCompat _ _ = true from rfl]; exact Bool.noConfusion)
  | .bool true, .bool false => exact absurd h (by rw [show checkCompat _ _ = true from rfl]; exact Bool.noConfusion)
  | .null, .bool true | .null, .bool false | .null, .int _ | .null, .uint _ | .null, .float _ | .null, .str _ | .null, .time _
  | .bool true, .null | .bool true, .int _ | .bool true, .uint _ | .bool true, .float _ | .bool true, .str _ | .bool true, .time _
  | .bool false, .null | .bool false, .int _ | .bool false, .uint _ | .bool false, .float _ | .bool false, .str _ | .bool false, .time _
  | .int _, .null | .int _, .bool true | .int _, .bool false | .int _, .uint _ | .int _, .float _ | .int _, .str _ | .int _, .time _
  | .float _, .null | .float _, .bool true | .float _, .bool false | .float _, .uint _ | .float _, .int _ | .float _, .str _
  | .float _, .time _
  | .str _, .null | .str _, .bool true | .str _, .bool false | .str _, .uint _ | .str _, .int _ | .str _, .float _ | .str _, .time _
  | .arr _, .null | .arr _, .bool true | .arr _, .bool false | .arr _, .uint _ | .arr _, .int _ | .arr _, .float _ | .arr _, .str _
  | .arr _, .time _
  | .obj _, .null | .obj _, .bool true | .obj _, .bool false | .obj _, .uint _ | .obj _, .int _ | .obj _, .float _ | .obj _, .str _
  | .obj _, .time _ => exact Nat.ne_of_beq_eq_false rfl

theorem numeric_mixed (x : DocV E) (c : ConV E) (h : checkCompat c.data x.data = false) (hm : mixed x c = false) :
    (x.data.ty.isNumeric && c.data.ty.isNumeric) = false := by
  match x, c with
  | .int _, .int _ | .float _, .float _ | .int _, .float _ =>
    exact absurd h (by rw [show checkCompat _ _ = true from rfl]; exact Bool.noConfusion)
  | .int _, .uint _ | .float _, .uint _ | .float _, .int _ => exact nomatch hm
  | .null, _ | .bool true, _ | .bool false, _ | .str _, _ | .arr _, _ | .obj _, _ => rfl
  | .int _, .null | .int _, .bool true | .int _, .bool false | .int _, .str _ | .int _, .time _
  | .float _, .null | .float _, .bool true | .float _, .bool false | .float _, .str _ | .float _, .time _ => rfl

/-- **C45.** With the constant on the left the result is the negated one. -/
theorem C45_constant_left (x : DocV E) (c : ConV E) (hm : mixed x c = false) :
    compare (E := E) ⟨c.data, true⟩ ⟨x.data, false⟩ = flip (docCon x c) := by
  rw [← C45_constant x c]
  cases hc : checkCompat c.data x.data with
  | true =>
    rw [doc_con_ok hc]
    simp [compare, compareUserDefined, hc, flip]
  | false =>
    have hn := numeric_mixed x c hc hm
    have hr := x.ty_ne c hc
    rw [doc_con_bad hc hn, ← collate_flip (fun h => hr (by rw [h])) (Ne.symm hr)]
    have hn' : (c.data.ty.isNumeric && x.data.ty.isNumeric) = false := by rw [Bool.and_comm]; exact hn
    simp [compare, compareUserDefined, hc, hn']

example : mixed (.int 3#64 : DocV demoExt) (.float (0 : Int)) = false := rfl

/-- **C45.** A float of a document and an integer constant on the left. -/
theorem C45_constant_left_int (f : E.F) (v : BitVec 64) :
    compare (E := E) ⟨.int v, true⟩ ⟨.float f, false⟩ = flip (ordF f (E.ofInt v)) ∧
    compare (E := E) ⟨.uint v, true⟩ ⟨.float f, false⟩ = flip (ordF f (E.ofUint v)) :=
  ⟨(show _ = flip (compareFloat (.float f) (.int v)) from by rw [← flip_eq]; rfl).trans
      (congrArg flip (compareFloat_ord (.float f) (.int v) rfl rfl)),
   (show _ = flip (compareFloat (.float f) (.uint v)) from by rw [← flip_eq]; rfl).trans
      (congrArg flip (compareFloat_ord (.float f) (.uint v) rfl rfl))⟩

theorem cmpSameLen_eq : ∀ (s t : List Nat), s.length = t.length → cmpSameLen s t = cmpBytes s t
  | [], [], _ => rfl
  | a :: as, b :: bs, h => by
    have ih := cmpSameLen_eq as bs (by simpa using h)
    simp only [cmpSameLen, cmpBytes, ih]
    by_cases h1 : a < b
    · rw [if_pos h1, if_neg (by omega), if_pos h1]
    · by_cases h2 : b < a
      · rw [if_pos h2, if_neg h1, if_pos h2]
      · rw [if_neg h2, if_neg h1, if_neg h1, if_neg h2]

theorem objArr_ord (s t : List Nat) :
    (if s.length > t.length then ((1 : Int), true) else if s.length < t.length then (-1, true) else (cmpSameLen s t, true)) =
    (if s.length < t.length then -1 else if t.length < s.length then 1 else cmpBytes s t, true) := by
  by_cases h1 : s.length < t.length
  · rw [if_neg (by omega), if_pos h1, if_pos h1]
  · by_cases h2 : t.length < s.length
    · rw [if_pos h2, if_neg h1, if_pos h2]
    · rw [if_neg h2, if_neg h1, if_neg h1, if_neg h2, cmpSameLen_eq s t (by omega)]

theorem rev_eq (a b : FV E) : reverseCompare a b = flip (compareInternal b a) := by
  rw [← flip_eq]; rfl

/-- **C45.** The comparison of two document values is given by the table `docDoc`. -/
theorem C45_document (x y : DocV E) : compare (E := E) ⟨x.data, false⟩ ⟨y.data, false⟩ = docDoc x y := by
  match x, y with
  | .null, .null | .null, .bool true | .null, .bool false | .null, .int _ | .null, .float _ | .null, .str _
  | .null, .arr _ | .null, .obj _ => rfl
  | .bool true, .null | .bool false, .null | .int _, .null | .float _, .null | .str _, .null | .arr _, .null | .obj _, .null => rfl
  | .arr s, .arr t | .obj s, .obj t => exact objArr_ord s t
  | .arr _, .obj _ | .obj _, .arr _ => rfl
  | .arr _, .bool true | .arr _, .bool false | .arr _, .int _ | .arr _, .float _ | .arr _, .str _
  | .obj _, .bool true | .obj _, .bool false | .obj _, .int _ | .obj _, .float _ | .obj _, .str _ => rfl
  | .bool true, .arr _ | .bool false, .arr _ | .int _, .arr _ | .float _, .arr _ | .str _, .arr _
  | .bool true, .obj _ | .bool false, .obj _ | .int _, .obj _ | .float _, .obj _ | .str _, .obj _ => rfl
  | .bool true, .bool true | .bool true, .bool false | .bool false, .bool true | .bool false, .bool false => rfl
  | .bool true, .str _ | .bool false, .str _ | .str _, .bool true | .str _, .bool false => rfl
  | .bool true, .int v =>
    show compareBoolean (E := E) .tru (.int v) = (ordB true (decide (v ≠ 0#64)), true)
    by_cases h0 : v = 0#64 <;> simp [compareBoolean, Data.asBool, ordB, h0]
  | .bool false, .int v =>
    show compareBoolean (E := E) .fals (.int v) = (ordB false (decide (v ≠ 0#64)), true)
    by_cases h0 : v = 0#64 <;> simp [compareBoolean, Data.asBool, ordB, h0]
  | .int v, .bool true =>
    refine (rev_eq (E := E) ⟨.int v, false⟩ ⟨.tru, false⟩).trans (congrArg flip ?_)
    show compareBoolean (E := E) .tru (.int v) = (ordB true (decide (v ≠ 0#64)), true)
    by_cases h0 : v = 0#64 <;> simp [compareBoolean, Data.asBool, ordB, h0]
  | .int v, .bool false =>
    refine (rev_eq (E := E) ⟨.int v, false⟩ ⟨.fals, false⟩).trans (congrArg flip ?_)
    show compareBoolean (E := E) .fals (.int v) = (ordB false (decide (v ≠ 0#64)), true)
    by_cases h0 : v = 0#64 <;> simp [compareBoolean, Data.asBool, ordB, h0]
  | .bool true, .float f =>
    show compareBoolean (E := E) .tru (.float f) = (ordB true (E.nonZero f), true)
    cases h0 : E.nonZero f <;> simp [compareBoolean, Data.asBool, ordB, h0]
  | .bool false, .float f =>
    show compareBoolean (E := E) .fals (.float f) = (ordB false (E.nonZero f), true)
    cases h0 : E.nonZero f <;> simp [compareBoolean, Data.asBool, ordB, h0]
  | .float f, .bool true =>
    refine (rev_eq (E := E) ⟨.float f, false⟩ ⟨.tru, false⟩).trans (congrArg flip ?_)
    show compareBoolean (E := E) .tru (.float f) = (ordB true (E.nonZero f), true)
    cases h0 : E.nonZero f <;> simp [compareBoolean, Data.asBool, ordB, h0]
  | .float f, .bool false =>
    refine (rev_eq (E := E) ⟨.float f, false⟩ ⟨.fals, false⟩).trans (congrArg flip ?_)
    show compareBoolean (E := E) .fals (.float f) = (ordB false (E.nonZero f), true)
    cases h0 : E.nonZero f <;> simp [compareBoolean, Data.asBool, ordB, h0]
  | .int v, .int w => exact congrArg (·, true) (cmp3_eq_sgn v.toInt w.toInt)
  | .int v, .float f => exact (rev_eq (E := E) ⟨.int v, false⟩ ⟨.float f, false⟩).trans (congrArg flip (compareFloat_ord (.float f) (.int v) rfl rfl))
  | .float f, .int v => exact compareFloat_ord (.float f) (.int v) rfl rfl
  | .float f, .float g => exact compareFloat_ord (.float f) (.float g) rfl rfl
  | .str s, .str t => rfl
  | .str s, .float f => rfl
  | .float f, .str s => exact rev_eq (E := E) ⟨.float f, false⟩ ⟨.binStr s, false⟩
  | .str s, .int v =>
    have hc : checkCompat (E := E) (.int v) (.binStr s) = (parseInt s).2 := rfl
    have h : compare (E := E) ⟨.binStr s, false⟩ ⟨.int v, false⟩ =
        if checkCompat (E := E) (.int v) (.binStr s) = false then compareInternal ⟨.binStr s, false⟩ ⟨.int v, false⟩
        else reverseCompare ⟨.binStr s, false⟩ ⟨.int v, false⟩ := rfl
    rw [DocV.data, DocV.data, h, hc, rev_eq]
    have hi : compareInternal (E := E) ⟨.int v, false⟩ ⟨.binStr s, false⟩ = (cmp3 v.toInt (parseInt s).1.toInt, true && (parseInt s).2) := rfl
    rw [hi]
    cases hp : parseInt s with
    | mk w ok =>
      simp only [docDoc, hp]
      cases ok with
      | true => exact flip_sgn _ _
      | false => rfl
  | .int v, .str s =>
    have hc : checkCompat (E := E) (.int v) (.binStr s) = (parseInt s).2 := rfl
    have h : compare (E := E) ⟨.int v, false⟩ ⟨.binStr s, false⟩ =
        if checkCompat (E := E) (.int v) (.binStr s) = false then reverseCompare ⟨.int v, false⟩ ⟨.binStr s, false⟩
        else compareInternal ⟨.int v, false⟩ ⟨.binStr s, false⟩ := rfl
    rw [DocV.data, DocV.data, h, hc, rev_eq]
    have hi : compareInternal (E := E) ⟨.int v, false⟩ ⟨.binStr s, false⟩ = (cmp3 v.toInt (parseInt s).1.toInt, true && (parseInt s).2) := rfl
    rw [hi]
    cases hp : parseInt s with
    | mk w ok =>
      simp only [docDoc, hp]
      cases ok with
      | true => exact congrArg (·, true) (cmp3_eq_sgn _ _)
      | false => rfl

/-! ### C46: patterns -/

/-- **C46.** A pattern is matched against the quoted text of a document string; nothing else matches, negated or not. -/
theorem C46_document (x : DocV E) (b : FV E) : matchesRe ⟨x.data, false⟩ b =
    match x, b.d with
    | .str s, .regex r => (E.reMatch r (E.quote s), true)
    | .str s, .pcre r => (E.reMatch r (E.quote s), true)
    | _, _ => (false, false) := by
  obtain ⟨b, u⟩ := b
  cases x with
  | bool c => cases c <;> rfl
  | str s => cases b <;> rfl
  | _ => rfl

/-- **C46.** A string constant is matched by its own text. -/
theorem C46_constant (c : ConV E) (b : FV E) : matchesRe ⟨c.data, true⟩ b =
    match c, b.d with
    | .str s, .regex r => (E.reMatch r s, true)
    | .str s, .pcre r => (E.reMatch r s, true)
    | _, _ => (false, false) := by
  obtain ⟨b, u⟩ := b
  cases c with
  | bool c => cases c <;> rfl
  | str s => cases b <;> rfl
  | _ => rfl

/-! ### C47: decimal text -/

/-- Only decimal digits, at least one. -/
def Dec (s : List Nat) : Prop := s ≠ [] ∧ ∀ c ∈ s, 48 ≤ c ∧ c ≤ 57

theorem foldl_none (s : List Nat) :
    s.foldl (fun (acc : Option Nat) c => acc.bind fun v => if 48 ≤ c ∧ c ≤ 57 then some (10 * v + (c - 48)) else none) none = none := by
  induction s with
  | nil => rfl
  | cons _ _ ih => exact ih

theorem foldl_dec (s : List Nat) (n : Nat) (h : ∀ c ∈ s, 48 ≤ c ∧ c ≤ 57) :
    s.foldl (fun (acc : Option Nat) c => acc.bind fun v => if 48 ≤ c ∧ c ≤ 57 then some (10 * v + (c - 48)) else none) (some n) =
    some (n * 10 ^ s.length + decVal s) := by
  induction s generalizing n with
  | nil => simp [decVal]
  | cons c cs ih =>
    rw [List.foldl_cons, Option.bind_some, if_pos (h c (by simp)), ih _ (fun c hc => h c (by simp [hc]))]
    simp only [decVal, List.length_cons, Nat.pow_succ, Nat.add_mul, Option.some.injEq]
    rw [show n * (10 ^ cs.length * 10) = 10 * n * 10 ^ cs.length by
      rw [Nat.mul_comm (10 ^ cs.length), ← Nat.mul_assoc, Nat.mul_comm n]]
    omega

theorem foldl_bad (s : List Nat) (o : Option Nat) (h : ¬ ∀ c ∈ s, 48 ≤ c ∧ c ≤ 57) :
    s.foldl (fun (acc : Option Nat) c => acc.bind fun v => if 48 ≤ c ∧ c ≤ 57 then some (10 * v + (c - 48)) else none) o = none := by
  induction s generalizing o with
  | nil => exact absurd (fun _ h => nomatch h) h
  | cons c cs ih =>
    rw [List.foldl_cons]
    by_cases hc : 48 ≤ c ∧ c ≤ 57
    · exact ih _ (fun h' => h (by
        intro d hd
        rcases List.mem_cons.1 hd with rfl | hd
        · exact hc
        · exact h' d hd))
    · have : (o.bind fun v => if 48 ≤ c ∧ c ≤ 57 then some (10 * v + (c - 48)) else none) = none := by
        cases o with
        | none => rfl
        | some v => rw [Option.bind_some, if_neg hc]
      rw [this, foldl_none]

theorem parseNat_dec {s : List Nat} (h : Dec s) : parseNat s = some (decVal s) := by
  cases s with
  | nil => exact absurd rfl h.1
  | cons c cs => exact (foldl_dec (c :: cs) 0 h.2).trans (by simp)

theorem parseNat_bad {s : List Nat} (h : ¬ Dec s) : parseNat s = none := by
  cases s with
  | nil => rfl
  | cons c cs => exact foldl_bad (c :: cs) _ (fun h' => h ⟨by simp, h'⟩)

/-- **C47.** Text is read as an unsigned number iff it is digits only and in range, and the number is the one it spells. -/
theorem C47_uint (s : List Nat) : (parseUint s).2 = true ↔ Dec s ∧ decVal s < 2 ^ 64 := by
  unfold parseUint
  by_cases h : Dec s
  · rw [parseNat_dec h]
    by_cases hr : decVal s < 2 ^ 64
    · simp [hr, h]
    · simp [hr]
  · rw [parseNat_bad h]
    simp [h]

theorem C47_uint_value {s : List Nat} (h : (parseUint s).2 = true) : (parseUint s).1.toNat = decVal s := by
  obtain ⟨hd, hr⟩ := (C47_uint s).1 h
  unfold parseUint
  rw [parseNat_dec hd]
  simp only [hr, if_true, BitVec.toNat_ofNat]
  exact Nat.mod_eq_of_lt hr

/-- The sign and the digits of a text. -/
inductive Signed : List Nat → Int → Prop where
  | plain (s : List Nat) : Dec s → Signed s (decVal s)
  | plus (s : List Nat) : Dec s → Signed (43 :: s) (decVal s)
  | minus (s : List Nat) : Dec s → Signed (45 :: s) (-(decVal s : Int))

/-- The part of `parseInt` after the sign. -/
theorem parseInt_minus (r : List Nat) : parseInt (45 :: r) = match parseNat r with
    | none => (0#64, false)
    | some n => if n ≤ 2 ^ 63 then (BitVec.ofInt 64 (-(n : Int)), true) else (BitVec.ofInt 64 (-(2 ^ 63)), false) := by
  simp only [parseInt]
  cases parseNat r <;> simp only [if_true, if_false, Bool.false_eq_true]

theorem parseInt_plus (r : List Nat) : parseInt (43 :: r) = match parseNat r with
    | none => (0#64, false)
    | some n => if n < 2 ^ 63 then (BitVec.ofNat 64 n, true) else (BitVec.ofNat 64 (2 ^ 63 - 1), false) := by
  simp only [parseInt]
  cases parseNat r <;> simp only [if_true, if_false, Bool.false_eq_true]

theorem parseInt_plain (s : List Nat) (h1 : ∀ r, s ≠ 45 :: r) (h2 : ∀ r, s ≠ 43 :: r) : parseInt s = match parseNat s with
    | none => (0#64, false)
    | some n => if n < 2 ^ 63 then (BitVec.ofNat 64 n, true) else (BitVec.ofNat 64 (2 ^ 63 - 1), false) := by
  unfold parseInt
  split
  rename_i neg ds hm
  have : neg = false ∧ ds = s := by
    revert hm
    split
    · exact absurd rfl (h1 _)
    · exact absurd rfl (h2 _)
    · intro e
      cases e
      exact ⟨rfl, rfl⟩
  obtain ⟨rfl, rfl⟩ := this
  cases parseNat ds <;> simp only [if_false, Bool.false_eq_true]

theorem pos_iff (s : List Nat) (v : BitVec 64) :
    (match parseNat s with
      | none => (0#64, false)
      | some n => if n < 2 ^ 63 then (BitVec.ofNat 64 n, true) else (BitVec.ofNat 64 (2 ^ 63 - 1), false)) = (v, true) ↔
    Dec s ∧ v.toInt = decVal s := by
  have hv := BitVec.toInt_lt (x := v)
  by_cases hd : Dec s
  · rw [parseNat_dec hd]
    by_cases hr : decVal s < 2 ^ 63
    · simp only [hr, if_true, Prod.mk.injEq, and_true, hd, true_and]
      have : (BitVec.ofNat 64 (decVal s)).toInt = decVal s := by
        rw [BitVec.toInt_ofNat', Int.bmod_def]; omega
      constructor
      · rintro rfl; exact this
      · intro h; exact BitVec.eq_of_toInt_eq (this.trans h.symm)
    · simp only [hr, if_false, Prod.mk.injEq, Bool.false_eq_true, and_false, hd, true_and, false_iff]
      omega
  · rw [parseNat_bad hd]; simp [hd]

theorem neg_iff (s : List Nat) (v : BitVec 64) :
    (match parseNat s with
      | none => (0#64, false)
      | some n => if n ≤ 2 ^ 63 then (BitVec.ofInt 64 (-(n : Int)), true) else (BitVec.ofInt 64 (-(2 ^ 63)), false)) = (v, true) ↔
    Dec s ∧ v.toInt = -(decVal s : Int) := by
  have hv := BitVec.le_toInt (x := v)
  by_cases hd : Dec s
  · rw [parseNat_dec hd]
    by_cases hr : decVal s ≤ 2 ^ 63
    · simp only [hr, if_true, Prod.mk.injEq, and_true, hd, true_and]
      have : (BitVec.ofInt 64 (-(decVal s : Int))).toInt = -(decVal s : Int) := by
        rw [BitVec.toInt_ofInt, Int.bmod_def]; omega
      constructor
      · rintro rfl; exact this
      · intro h; exact BitVec.eq_of_toInt_eq (this.trans h.symm)
    · simp only [hr, if_false, Prod.mk.injEq, Bool.false_eq_true, and_false, hd, true_and, false_iff]
      omega
  · rw [parseNat_bad hd]; simp [hd]

theorem Dec.head {c : Nat} {s : List Nat} (h : Dec (c :: s)) : 48 ≤ c := (h.2 c (by simp)).1

/-- **C47.** Text is read as a signed number iff it is digits only after an optional sign, and in range, and the number is the one it
spells. -/
theorem C47_int (s : List Nat) (v : BitVec 64) : parseInt s = (v, true) ↔ Signed s v.toInt := by
  constructor
  · intro h
    by_cases h1 : ∃ r, s = 45 :: r
    · obtain ⟨r, rfl⟩ := h1
      rw [parseInt_minus] at h
      obtain ⟨hd, e⟩ := (neg_iff r v).1 h
      rw [e]; exact .minus r hd
    · by_cases h2 : ∃ r, s = 43 :: r
      · obtain ⟨r, rfl⟩ := h2
        rw [parseInt_plus] at h
        obtain ⟨hd, e⟩ := (pos_iff r v).1 h
        rw [e]; exact .plus r hd
      · rw [parseInt_plain s (fun r e => h1 ⟨r, e⟩) (fun r e => h2 ⟨r, e⟩)] at h
        obtain ⟨hd, e⟩ := (pos_iff s v).1 h
        rw [e]; exact .plain s hd
  · generalize hi : v.toInt = i
    intro h
    cases h with
    | plain s hd =>
      rw [parseInt_plain s (by rintro r rfl; have := hd.head; omega) (by rintro r rfl; have := hd.head; omega)]
      exact (pos_iff s v).2 ⟨hd, hi⟩
    | plus s hd =>
      rw [parseInt_plus]
      exact (pos_iff s v).2 ⟨hd, hi⟩
    | minus s hd =>
      rw [parseInt_minus]
      exact (neg_iff s v).2 ⟨hd, hi⟩

example : Signed [45, 49, 50] (BitVec.ofInt 64 (-12)).toInt := .minus [49, 50] ⟨by simp, by decide⟩

theorem digit_range {c : Char} (h : c.isDigit = true) : 48 ≤ c.toNat ∧ c.toNat ≤ 57 := by
  simp only [Char.isDigit, Bool.and_eq_true, decide_eq_true_eq] at h
  exact ⟨UInt32.le_iff_toNat_le.1 h.1, UInt32.le_iff_toNat_le.1 h.2⟩

theorem decVal_foldl (s : List Nat) (n : Nat) : s.foldl (fun v c => 10 * v + (c - 48)) n = n * 10 ^ s.length + decVal s := by
  induction s generalizing n with
  | nil => simp [decVal]
  | cons c cs ih =>
    rw [List.foldl_cons, ih]
    simp only [decVal, List.length_cons, Nat.pow_succ, Nat.add_mul]
    rw [show n * (10 ^ cs.length * 10) = 10 * n * 10 ^ cs.length by
      rw [Nat.mul_comm (10 ^ cs.length), ← Nat.mul_assoc, Nat.mul_comm n]]
    omega

theorem decVal_toDigits (n : Nat) : decVal ((Nat.toDigits 10 n).map Char.toNat) = n := by
  have h := Nat.ofDigitChars_ten_toDigits (n := n)
  rw [Nat.ofDigitChars_eq_foldl] at h
  have h2 := decVal_foldl ((Nat.toDigits 10 n).map Char.toNat) 0
  rw [List.foldl_map, Nat.zero_mul, Nat.zero_add] at h2
  exact h2.symm.trans h

theorem dec_toDigits (n : Nat) : Dec ((Nat.toDigits 10 n).map Char.toNat) := by
  refine ⟨by simpa using Nat.toDigits_ne_nil, ?_⟩
  intro c hc
  obtain ⟨d, hd, rfl⟩ := List.mem_map.1 hc
  exact digit_range (Nat.isDigit_of_mem_toDigits (by decide) (by decide) hd)

/-- **C47.** Formatting a number and reading the text back yields the number. -/
theorem C47_roundtrip_uint (v : BitVec 64) : parseUint (fmtUint v) = (v, true) := by
  have hd := dec_toDigits v.toNat
  have hr : decVal (fmtUint v) < 2 ^ 64 := by rw [fmtUint, decVal_toDigits]; exact v.isLt
  have h2 := (C47_uint (fmtUint v)).2 ⟨hd, hr⟩
  have h1 := C47_uint_value h2
  rw [fmtUint, decVal_toDigits] at h1
  exact Prod.ext (BitVec.eq_of_toNat_eq h1) h2

theorem C47_roundtrip_int (v : BitVec 64) : parseInt (fmtInt v) = (v, true) := by
  have hd := dec_toDigits v.toInt.natAbs
  rw [C47_int, fmtInt]
  by_cases h : v.toInt < 0
  · rw [if_pos h]
    have := Signed.minus _ hd
    rw [decVal_toDigits] at this
    rwa [show -(v.toInt.natAbs : Int) = v.toInt by omega] at this
  · rw [if_neg h]
    have := Signed.plain _ hd
    rw [decVal_toDigits] at this
    rwa [show (v.toInt.natAbs : Int) = v.toInt by omega] at this

end Verif.FastVal
