import Verif.Simple.Num
import Verif.Simple.Steps

/-!
# Calls

Terms: names, numbers, quoted words, and calls with one or two arguments of which only the first may be a call.
-/

namespace Verif.Simple
open Verif.FastVal Verif.Expr

variable {E : Ext}

inductive Atom where
  | name (n : Name)
  | num (n : Num)
  | quoted (q : Nat) (s : Str)

def Atom.text : Atom → Str
  | .name n => n.text
  | .num n => n.text
  | .quoted q s => q :: s ++ [q]

/-- Not the text of a number. -/
def NotNum (s : Str) : Prop := ¬ ∃ n : Num, n.Ok ∧ n.text = s

/-- Names that are not read as something else. -/
structure ArgName (n : Name) : Prop where
  ok : n.Ok
  noOpen : (40 : Nat) ∉ n.text
  noQuote : n.text.head? ≠ some 34 ∧ n.text.head? ≠ some 39
  notNum : NotNum n.text

/-- What an atom means. -/
inductive Atom.Means (N : Env E) : Atom → Expr E → Prop where
  | name (n : Name) : ArgName n → Means N (.name n) (.field ⟨0, n.path⟩)
  | int (n : Num) : n.Ok → n.frac = none → -(2 ^ 63) ≤ n.value → n.value < 2 ^ 63 → Means N (.num n) (.value (.int (BitVec.ofInt 64 n.value)))
  | float (n : Num) (x : E.F) : n.Ok → n.frac ≠ none → N.parseFloat n.text = some x → Means N (.num n) (.value (.json (.num x)))
  | str (q : Nat) (s : Str) : q = 34 ∨ q = 39 → NotNum s → Means N (.quoted q s) (.value (.json (.str s)))

inductive Term where
  | atom (a : Atom)
  | one (k : Str) (a : Term)
  | two (k : Str) (a : Term) (b : Atom)

def Term.text : Term → Str
  | .atom a => a.text
  | .one k a => k ++ [40] ++ a.text ++ [41]
  | .two k a b => k ++ [40] ++ a.text ++ [44] ++ b.text ++ [41]

/-- The functions of one argument and what they are called in expressions. -/
def fns1 : List (Str × Str) :=
  [(ascii "ABS", ascii "mathAbs"), (ascii "ACOS", ascii "mathAcos"), (ascii "ASIN", ascii "mathAsin"), (ascii "ATAN", ascii "mathAtan"),
   (ascii "CEIL", ascii "mathCeil"), (ascii "COS", ascii "mathCos"), (ascii "DEGREES", ascii "mathDegrees"), (ascii "EXP", ascii "mathExp"),
   (ascii "FLOOR", ascii "mathFloor"), (ascii "LOG", ascii "mathLog"), (ascii "LN", ascii "mathLn"), (ascii "SIN", ascii "mathSin"),
   (ascii "TAN", ascii "mathTan"), (ascii "RADIANS", ascii "mathRadians"), (ascii "ROUND", ascii "mathRound"), (ascii "SQRT", ascii "mathSqrt")]

/-- The functions of two arguments. -/
def fns2 : List (Str × Str) := [(ascii "ATAN2", ascii "mathAtan2"), (ascii "POW", ascii "mathPow")]

/-- What a term means. -/
inductive Term.Means (N : Env E) : Term → Expr E → Prop where
  | atom (a : Atom) (e : Expr E) : a.Means N e → Means N (.atom a) e
  | one (k f : Str) (a : Term) (e : Expr E) : (k, f) ∈ fns1 → Means N a e → Means N (.one k a) (.func f (.cons e .nil))
  | date (q : Nat) (s : Str) (e : Expr E) : Atom.Means N (.quoted q s) e → N.validTime s = true →
      Means N (.one (ascii "DATE") (.atom (.quoted q s))) (.func (ascii "date") (.cons e .nil))
  | two (k f : Str) (a : Term) (b : Atom) (e e' : Expr E) : (k, f) ∈ fns2 → Means N a e → b.Means N e' → (44 : Nat) ∉ b.text →
      Means N (.two k a b) (.func f (.cons e (.cons e' .nil)))

/-! ### The functions are found -/

def allFns : List (String × String) := table1 ++ table0 ++ table2

theorem inner_some {name t m : Str} (h : inner name t = some m) : name ++ [40] <+: t := by
  unfold inner at h
  by_cases hp : (hasPrefix (name ++ [40]) t && hasSuffix [41] t && t.length ≥ name.length + 2) = true
  · simp only [Bool.and_eq_true] at hp
    exact List.isPrefixOf_iff_prefix.1 hp.1.1
  · rw [if_neg hp] at h; exact absurd h (by simp)

theorem inner_call (k m : Str) : inner k (k ++ [40] ++ m ++ [41]) = some m := by
  unfold inner
  rw [if_pos]
  · simp only [Option.some.injEq, List.append_assoc]
    rw [show k ++ ([40] ++ (m ++ [41])) = (k ++ [40]) ++ (m ++ [41]) by simp]
    rw [List.drop_append_of_le_length (by simp)]
    rw [List.drop_eq_nil_of_le (by simp)]
    simp only [List.nil_append, List.length_append, List.length_cons, List.length_nil]
    rw [show k.length + (0 + 1) + (m.length + (0 + 1)) - k.length - 2 = m.length by omega]
    simp
  · simp only [Bool.and_eq_true, hasPrefix, hasSuffix]
    refine ⟨⟨?_, ?_⟩, ?_⟩
    · rw [List.isPrefixOf_iff_prefix]
      exact ⟨m ++ [41], by simp⟩
    · rw [List.isSuffixOf_iff_suffix]
      exact ⟨k ++ [40] ++ m, by simp⟩
    · simp

theorem prefix_name {a b m : Str} (ha : (40 : Nat) ∉ a) (hb : (40 : Nat) ∉ b) (h : a ++ [40] <+: b ++ [40] ++ m) : a = b := by
  induction a generalizing b with
  | nil =>
    cases b with
    | nil => rfl
    | cons c b =>
      obtain ⟨z, hz⟩ := h
      simp at hz
      exact absurd (by simp [← hz.1]) hb
  | cons c a ih =>
    cases b with
    | nil =>
      obtain ⟨z, hz⟩ := h
      simp at hz
      exact absurd (by simp [hz.1]) ha
    | cons d b =>
      obtain ⟨z, hz⟩ := h
      simp only [List.cons_append, List.cons.injEq] at hz
      rw [hz.1, ih (fun hx => ha (List.mem_cons_of_mem _ hx)) (fun hx => hb (List.mem_cons_of_mem _ hx)) ⟨z, hz.2⟩]

theorem fns_no_paren : ∀ p ∈ allFns, (40 : Nat) ∉ ascii p.1 := by decide

theorem funcKey_some {t key : Str} (h : funcKey t = some key) : (∃ p ∈ allFns, ascii p.1 = key) ∧ key ++ [40] <+: t := by
  unfold funcKey at h
  simp only [Option.map_eq_some_iff] at h
  obtain ⟨p, hp, rfl⟩ := h
  have h1 := List.mem_of_find?_eq_some hp
  have h2 := List.find?_some hp
  refine ⟨⟨p, h1, rfl⟩, ?_⟩
  cases hi : inner (ascii p.1) t with
  | none => simp [subMatches, hi] at h2
  | some m => exact inner_some hi

theorem funcKey_call (k m : Str) (hk : ∃ p ∈ allFns, ascii p.1 = k) (hs : (subMatches k (k ++ [40] ++ m ++ [41])).isSome = true) :
    funcKey (k ++ [40] ++ m ++ [41]) = some k := by
  obtain ⟨p, hp, rfl⟩ := hk
  cases hf : funcKey (ascii p.1 ++ [40] ++ m ++ [41]) with
  | none =>
    unfold funcKey at hf
    simp only [Option.map_eq_none_iff, List.find?_eq_none] at hf
    exact absurd hs (hf p hp)
  | some key =>
    obtain ⟨⟨p', hp', rfl⟩, hpre⟩ := funcKey_some hf
    rw [prefix_name (m := m ++ [41]) (fns_no_paren p' hp') (fns_no_paren p hp) (by simpa using hpre)]

theorem funcKey_quote (t : Str) (h : t.head? = some 34 ∨ t.head? = some 39) : funcKey t = none := by
  cases hf : funcKey t with
  | none => rfl
  | some key =>
    obtain ⟨⟨p, hp, rfl⟩, z, hz⟩ := funcKey_some hf
    have hall : ∀ p ∈ allFns, (ascii p.1).head? ≠ some 34 ∧ (ascii p.1).head? ≠ some 39 ∧ ascii p.1 ≠ [] := by decide
    obtain ⟨h1, h2, h3⟩ := hall p hp
    rw [← hz] at h
    cases hn : ascii p.1 with
    | nil => exact absurd hn h3
    | cons c s => rw [hn] at h h1 h2; simp at h h1 h2; omega

theorem outName_all : ∀ p ∈ fns1 ++ fns2, outName p.1 = p.2 := by decide

theorem sub_one (k m : Str) (hk : k ∈ fns1.map Prod.fst ∨ k = ascii "DATE") (hm : m ≠ []) :
    subMatches k (k ++ [40] ++ m ++ [41]) = some [k ++ [40] ++ m ++ [41], m] := by
  have h : ∀ k ∈ ascii "DATE" :: fns1.map Prod.fst, (table0.any fun p => ascii p.1 = k) = false ∧ (table1.any fun p => ascii p.1 = k) = true := by decide
  have hk' : k ∈ ascii "DATE" :: fns1.map Prod.fst := by rcases hk with h | h <;> simp_all
  obtain ⟨h1, h2⟩ := h k hk'
  unfold subMatches
  rw [inner_call]
  dsimp only
  rw [if_neg (by rw [h1]; simp), if_pos h2, if_neg hm]

theorem lastComma_none : ∀ b : Str, (44 : Nat) ∉ b → lastComma b = none := by
  intro b
  induction b with
  | nil => intro _; rfl
  | cons c b ih =>
    intro h
    rw [lastComma, ih (fun hx => h (List.mem_cons_of_mem _ hx))]
    have : c ≠ 44 := fun hc => h (by simp [hc])
    simp [this]

theorem lastComma_app : ∀ (a b : Str), (44 : Nat) ∉ b → b ≠ [] → lastComma (a ++ 44 :: b) = some (a, b) := by
  intro a
  induction a with
  | nil =>
    intro b h hb
    rw [List.nil_append, lastComma, lastComma_none b h]
    simp [hb]
  | cons c a ih =>
    intro b h hb
    rw [List.cons_append, lastComma, ih b h hb]

theorem sub_two (k a b : Str) (hk : k ∈ fns2.map Prod.fst) (ha : a ≠ []) (hb : b ≠ []) (hc : (44 : Nat) ∉ b) :
    subMatches k (k ++ [40] ++ (a ++ [44] ++ b) ++ [41]) = some [k ++ [40] ++ (a ++ [44] ++ b) ++ [41], a, b] := by
  have h : ∀ k ∈ fns2.map Prod.fst, (table0.any fun p => ascii p.1 = k) = false ∧ (table1.any fun p => ascii p.1 = k) = false ∧
      (table2.any fun p => ascii p.1 = k) = true := by decide
  obtain ⟨h1, h2, h3⟩ := h k hk
  unfold subMatches
  rw [inner_call]
  dsimp only
  rw [if_neg (by rw [h1]; simp), if_neg (by rw [h2]; simp), if_pos h3]
  cases a with
  | nil => exact absurd rfl ha
  | cons c a =>
    have : c :: a ++ [44] ++ b = c :: (a ++ 44 :: b) := by simp
    rw [this]
    dsimp only
    rw [lastComma_app a b hc hb]
    rfl

/-! ### Atoms as arguments -/

theorem quoteOf_none (t : Str) (h : t.head? ≠ some 34 ∧ t.head? ≠ some 39) : quoteOf t = none := by
  simp [quoteOf, h.1, h.2]

theorem quoteOf_quoted (q : Nat) (s : Str) (hq : q = 34 ∨ q = 39) : quoteOf (q :: s ++ [q]) = some q := by
  rcases hq with rfl | rfl
  · unfold quoteOf
    rw [if_pos (by rw [List.cons_append, List.getLast?_cons]; simp)]
  · unfold quoteOf
    rw [if_neg (by simp), if_pos (by rw [List.cons_append, List.getLast?_cons]; simp)]

theorem trim_quoted (q : Nat) (s : Str) : trimSuffix [q] (trimPrefix [q] (q :: s ++ [q])) = s := by
  have h1 : trimPrefix [q] (q :: s ++ [q]) = s ++ [q] := by
    unfold trimPrefix hasPrefix
    rw [if_pos (by rw [List.isPrefixOf_iff_prefix]; exact ⟨s ++ [q], rfl⟩)]
    simp
  rw [h1]
  unfold trimSuffix hasSuffix
  rw [if_pos (by rw [List.isSuffixOf_iff_suffix]; exact ⟨s, rfl⟩)]
  simp

theorem isNum_notNum {s : Str} (h : NotNum s) : isNum s = false := by
  cases hi : isNum s with
  | false => rfl
  | true => exact absurd ((isNum_iff s).1 hi) h

theorem outValue_int (N : Env E) (n : Num) (hn : n.Ok) (hf : n.frac = none) (h1 : -(2 ^ 63) ≤ n.value) (h2 : n.value < 2 ^ 63) :
    outValue N n.text = some (.value (.int (BitVec.ofInt 64 n.value))) := by
  unfold outValue
  rw [if_pos (isNum_text n hn), isInt_text n hn, if_pos (by simp [hf]), intOf_text n hn hf, if_pos ⟨h1, h2⟩]
  rfl

theorem outValue_float (N : Env E) (n : Num) (x : E.F) (hn : n.Ok) (hf : n.frac ≠ none) (hx : N.parseFloat n.text = some x) :
    outValue N n.text = some (.value (.json (.num x))) := by
  unfold outValue
  rw [if_pos (isNum_text n hn), isInt_text n hn, if_neg (by simp [hf]), hx]
  rfl

theorem outValue_str (N : Env E) (s : Str) (h : NotNum s) : outValue N s = some (.value (.json (.str s))) := by
  unfold outValue
  rw [isNum_notNum h]
  rfl

theorem num_head (n : Num) (hn : n.Ok) : ∃ c r, n.text = c :: r ∧ (c = 45 ∨ (48 ≤ c ∧ c ≤ 57)) ∧ (c ∈ [45] ++ digits n.whole) := by
  unfold Num.text
  cases hneg : n.neg with
  | true => exact ⟨45, _, rfl, .inl rfl, by simp⟩
  | false =>
    have h := hn.ne
    have hd := hn.digit
    cases hw : n.whole with
    | nil => exact absurd hw h
    | cons d w =>
      have := hd d (by simp [hw])
      exact ⟨48 + d, _, rfl, .inr (by omega), by simp [digits]⟩

theorem num_chars (n : Num) (hn : n.Ok) : ∀ c ∈ n.text, c = 45 ∨ c = 46 ∨ (48 ≤ c ∧ c ≤ 57) := by
  intro c hc
  have hdig : ∀ l : List Nat, (∀ d ∈ l, d < 10) → c ∈ digits l → 48 ≤ c ∧ c ≤ 57 := by
    intro l hl hc
    obtain ⟨d, hd, rfl⟩ := List.mem_map.1 hc
    have := hl d hd
    omega
  unfold Num.text at hc
  rw [List.mem_append, List.mem_append] at hc
  rcases hc with (hc | hc) | hc
  · cases hneg : n.neg <;> simp [hneg] at hc
    exact .inl hc
  · exact .inr (.inr (hdig _ hn.digit hc))
  · cases hf : n.frac with
    | none => simp [hf] at hc
    | some f =>
      simp only [hf, List.mem_cons] at hc
      rcases hc with hc | hc
      · exact .inr (.inl hc)
      · exact .inr (.inr (hdig _ (hn.fracOk f hf).2 hc))

theorem Atom.text_ne {N : Env E} {a : Atom} {e : Expr E} (h : a.Means N e) : a.text ≠ [] := by
  cases h with
  | name n hn => exact name_text_ne n hn.ok
  | int n hn => obtain ⟨c, r, h, _⟩ := num_head n hn; rw [Atom.text, h]; simp
  | float n x hn => obtain ⟨c, r, h, _⟩ := num_head n hn; rw [Atom.text, h]; simp
  | str q s _ _ => simp [Atom.text]

/-- One round of the loop over the arguments. -/
theorem atom_step (N : Env E) (a : Atom) (e : Expr E) (ha : a.Means N e) :
    ∃ x : Arg, (∀ (rec : Helper → Str → Str → Res (Helper × Bool)) key fx ms n i h, ms[i]? = some a.text →
        (key ≠ ascii "DATE" ∨ ∃ q s, a = .quoted q s ∧ N.validTime s = true) →
        argLoop N rec key fx ms (n + 1) i h = h.push fx x >>= fun h' => argLoop N rec key fx ms n (i + 1) h') ∧
      ∀ rec' r, outArgs N rec' (x :: r) = Verif.Filter.andThen (outArgs N rec' r) fun es => .ok (some (.cons e es)) := by
  have hnum : ∀ n : Num, n.Ok → quoteOf n.text = none ∧ funcKey n.text = none := by
    intro n hn
    have h40 : (40 : Nat) ∉ n.text := fun h => by have := num_chars n hn 40 h; omega
    obtain ⟨c, r, h, hc, _⟩ := num_head n hn
    refine ⟨quoteOf_none _ ?_, funcKey_none _ h40⟩
    rw [h]; simp; omega
  cases ha with
  | name n hn =>
    refine ⟨.fld n.path, ?_, ?_⟩
    · intro rec key fx ms k i h hi _
      have hi : ms[i]? = some n.text := hi
      rw [argLoop, hi]
      dsimp only
      rw [funcKey_none _ hn.noOpen]
      dsimp only
      rw [quoteOf_none _ hn.noQuote]
      dsimp only
      rw [if_neg (by rw [isNum_notNum hn.notNum]; simp), checkField_name n hn.ok ms i hi]
    · intro rec' r; rfl
  | int n hn hf h1 h2 =>
    refine ⟨.str n.text, ?_, ?_⟩
    · intro rec key fx ms k i h hi _
      have hi : ms[i]? = some n.text := hi
      rw [argLoop, hi]
      dsimp only
      rw [(hnum n hn).2]
      dsimp only
      rw [(hnum n hn).1]
      dsimp only
      rw [if_pos (isNum_text n hn)]
    · intro rec' r
      simp only [outArgs]
      rw [outValue_int N n hn hf h1 h2]
  | float n x hn hf hx =>
    refine ⟨.str n.text, ?_, ?_⟩
    · intro rec key fx ms k i h hi _
      have hi : ms[i]? = some n.text := hi
      rw [argLoop, hi]
      dsimp only
      rw [(hnum n hn).2]
      dsimp only
      rw [(hnum n hn).1]
      dsimp only
      rw [if_pos (isNum_text n hn)]
    · intro rec' r
      simp only [outArgs]
      rw [outValue_float N n x hn hf hx]
  | str q s hq hs =>
    refine ⟨.str s, ?_, ?_⟩
    · intro rec key fx ms k i h hi hd
      have hi : ms[i]? = some (q :: s ++ [q]) := hi
      rw [argLoop, hi]
      dsimp only
      rw [funcKey_quote _ (by rcases hq with rfl | rfl <;> simp)]
      dsimp only
      rw [quoteOf_quoted q s hq]
      simp only [trim_quoted]
      congr 1
      funext h'
      rw [if_neg]
      intro hc
      simp only [Bool.and_eq_true, decide_eq_true_eq, Bool.not_eq_true'] at hc
      rcases hd with hd | ⟨q', s', he, hv⟩
      · exact hd hc.1
      · injection he with _ he; subst he; rw [hv] at hc; simp at hc
    · intro rec' r
      simp only [outArgs]
      rw [outValue_str N s hs]

/-! ### Calls -/

theorem Term.text_ne {N : Env E} {a : Term} {e : Expr E} (h : a.Means N e) : a.text ≠ [] := by
  cases h with
  | atom a e h => exact Atom.text_ne h
  | one => simp [Term.text]
  | date => simp [Term.text]
  | two => simp [Term.text]

theorem push_app (pre : List (List Arg)) (row : List Arg) (suf : List (List Arg)) (l : Nat) (x : Arg) :
    Helper.push ⟨pre ++ row :: suf, l⟩ pre.length x = .ok ⟨pre ++ (row ++ [x]) :: suf, l⟩ := by
  unfold Helper.push
  simp

/-- The name of a term that is a call. -/
def Term.key : Term → Option Str
  | .atom _ => none
  | .one k _ => some k
  | .two k _ _ => some k

/-- What `resolveRecursiveFuncs` makes of a call can be output as what the call means. -/
def Resolves (N : Env E) (t k : Str) (e : Expr E) : Prop :=
  ∀ (pre : List (List Arg)) (n : Nat), t.length < n → ∃ row more l,
    resolve N n ⟨pre ++ [[]], pre.length⟩ t k = .ok (⟨pre ++ row :: more, l⟩, true) ∧
    ∀ (H : Helper) (suf : List (List Arg)) (m : Nat), H.args.drop pre.length = row :: more ++ suf → more.length < m →
      outFunc N H m pre.length = .ok (some e)

/-- The first argument, whatever it is. -/
theorem first_arg (N : Env E) (a : Term) (e : Expr E) (ha : a.Means N e)
    (hk : ∀ k, a.key = some k → funcKey a.text = some k ∧ Resolves N a.text k e ∧ ∃ f es, e = .func f es)
    (key : Str) (hd : key ≠ ascii "DATE") (ms : List Str) (hms : ms[1]? = some a.text) (pre : List (List Arg)) (row : List Arg) (n l d : Nat)
    (hn : a.text.length < n) :
    ∃ x more l', (∀ h, h = Helper.mk (pre ++ [row]) l →
        argLoop N (resolve N n) key pre.length ms (d + 1) 1 h = argLoop N (resolve N n) key pre.length ms d 2 ⟨pre ++ (row ++ [x]) :: more, l'⟩) ∧
      ∀ (H : Helper) (row' : List Arg) (suf : List (List Arg)) (m : Nat) r, H.args.drop pre.length = row' :: more ++ suf → more.length ≤ m →
        outArgs N (outFunc N H m) (x :: r) = Verif.Filter.andThen (outArgs N (outFunc N H m) r) fun es => .ok (some (.cons e es)) := by
  cases hkey : a.key with
  | none =>
    cases a with
    | one => simp [Term.key] at hkey
    | two => simp [Term.key] at hkey
    | atom a =>
      cases ha with
      | atom _ _ ha =>
        obtain ⟨x, h1, h2⟩ := atom_step N a e ha
        refine ⟨x, [], l, ?_, ?_⟩
        · rintro h rfl
          rw [h1 _ key pre.length ms d 1 _ hms (.inl hd), push_app, Res.bind_ok]
        · intro H row' suf m r _ _
          exact h2 _ r
  | some k =>
    obtain ⟨hf, hres, f, es, rfl⟩ := hk k hkey
    obtain ⟨row', more, l', hr, hout⟩ := hres (pre ++ [row]) n hn
    refine ⟨.lvl (pre.length + 1), row' :: more, l', ?_, ?_⟩
    · rintro h rfl
      rw [argLoop, hms]
      dsimp only
      rw [hf]
      dsimp only
      rw [Res.idx_of_some hms, Res.bind_ok]
      have hl : (pre ++ [row]).length = pre.length + 1 := by simp
      rw [hr, Res.bind_ok]
      dsimp only
      rw [hl, List.append_assoc, List.singleton_append, push_app, Res.bind_ok]
    · intro H rw' suf m r hH hm
      have := hout H suf m (by
        rw [List.length_append, List.length_singleton, ← List.drop_drop, hH]
        simp) (by simp only [List.length_cons] at hm; omega)
      rw [List.length_append, List.length_singleton] at this
      simp only [outArgs]
      rw [this]
      rfl

theorem fn1_mem (k f : Str) (h : (k, f) ∈ fns1) : (∃ p ∈ allFns, ascii p.1 = k) ∧ k ≠ ascii "DATE" ∧ outName k = f := by
  have hall : ∀ p ∈ fns1, (∃ q ∈ allFns, ascii q.1 = p.1) ∧ p.1 ≠ ascii "DATE" ∧ outName p.1 = p.2 := by decide
  exact hall _ h

theorem fn2_mem (k f : Str) (h : (k, f) ∈ fns2) : (∃ p ∈ allFns, ascii p.1 = k) ∧ k ≠ ascii "DATE" ∧ outName k = f := by
  have hall : ∀ p ∈ fns2, (∃ q ∈ allFns, ascii q.1 = p.1) ∧ p.1 ≠ ascii "DATE" ∧ outName p.1 = p.2 := by decide
  exact hall _ h

theorem out_row (N : Env E) (H : Helper) (l m : Nat) (k f : Str) (x : Arg) (as : List Arg) (es : Exprs E) (hr : H.args[l]? = some (.str k :: x :: as))
    (hf : outName k = f) (ha : outArgs N (outFunc N H m) (x :: as) = .ok (some es)) : outFunc N H (m + 1) l = .ok (some (.func f es)) := by
  rw [outFunc, hr]
  dsimp only
  rw [if_neg (by simp)]
  dsimp only
  rw [ha, hf]
  rfl

/-- Every call is found and resolved. -/
theorem call_resolves (N : Env E) (a : Term) (e : Expr E) (ha : a.Means N e) :
    ∀ k, a.key = some k → funcKey a.text = some k ∧ Resolves N a.text k e ∧ ∃ f es, e = .func f es := by
  induction ha with
  | atom a e h => intro k hk; simp [Term.key] at hk
  | one k f a e hk ha ih =>
    intro k' hk'
    simp only [Term.key, Option.some.injEq] at hk'
    subst hk'
    obtain ⟨h1, h2, h3⟩ := fn1_mem k f hk
    have hsub := sub_one k a.text (.inl (List.mem_map.2 ⟨_, hk, rfl⟩)) (Term.text_ne ha)
    refine ⟨funcKey_call k a.text h1 (by rw [hsub]; rfl), ?_, f, _, rfl⟩
    intro pre n hn
    obtain ⟨n, rfl⟩ : ∃ m, n = m + 1 := ⟨n - 1, by simp only [Term.text, List.length_append] at hn; omega⟩
    obtain ⟨x, more, l', hstep, hout⟩ := first_arg N a e ha ih k h2 [k ++ [40] ++ a.text ++ [41], a.text] rfl pre [.str k] n pre.length 1
      (by simp only [Term.text, List.length_append, List.length_singleton] at hn; omega)
    refine ⟨[.str k, x], more, l', ?_, ?_⟩
    · rw [resolve, push_app, Res.bind_ok, Term.text, hsub]
      dsimp only
      rw [List.nil_append]
      rw [show List.length [k ++ [40] ++ a.text ++ [41], a.text] = 1 + 1 from rfl, hstep _ rfl, argLoop]
      rfl
    · intro H suf m hH hm
      obtain ⟨m, rfl⟩ : ∃ j, m = j + 1 := ⟨m - 1, by omega⟩
      have hrow : H.args[pre.length]? = some [.str k, x] := by rw [← List.head?_drop, hH]; rfl
      refine out_row N H pre.length m k f x [] _ hrow h3 ?_
      rw [hout H _ suf m [] hH (by omega)]
      rfl
  | date q s e h hv =>
    intro k' hk'
    simp only [Term.key, Option.some.injEq] at hk'
    subst hk'
    have hsub := sub_one (ascii "DATE") (Atom.text (.quoted q s)) (.inr rfl) (Atom.text_ne h)
    refine ⟨funcKey_call _ _ ⟨("DATE", "date"), by decide, rfl⟩ (by rw [Term.text, hsub]; rfl), ?_, _, _, rfl⟩
    intro pre n hn
    obtain ⟨n, rfl⟩ : ∃ m, n = m + 1 := ⟨n - 1, by simp only [Term.text, List.length_append] at hn; omega⟩
    obtain ⟨x, hstep, hout⟩ := atom_step N _ e h
    refine ⟨[.str (ascii "DATE"), x], [], pre.length, ?_, ?_⟩
    · rw [resolve, push_app, Res.bind_ok, Term.text, Term.text, hsub]
      dsimp only
      rw [List.nil_append]
      rw [show ∀ a b : Str, List.length [a, b] = 1 + 1 from fun _ _ => rfl,
        hstep (resolve N n) (ascii "DATE") pre.length _ 1 1 _ rfl (.inr ⟨q, s, rfl, hv⟩), push_app, Res.bind_ok, argLoop]
      rfl
    · intro H suf m hH hm
      obtain ⟨m, rfl⟩ : ∃ j, m = j + 1 := ⟨m - 1, by omega⟩
      have hrow : H.args[pre.length]? = some [.str (ascii "DATE"), x] := by rw [← List.head?_drop, hH]; rfl
      refine out_row N H pre.length m _ (ascii "date") x [] _ hrow (by decide) ?_
      rw [hout]
      rfl
  | two k f a b e e' hk ha hb hc ih =>
    intro k' hk'
    simp only [Term.key, Option.some.injEq] at hk'
    subst hk'
    obtain ⟨h1, h2, h3⟩ := fn2_mem k f hk
    have hsub := sub_two k a.text b.text (List.mem_map.2 ⟨_, hk, rfl⟩) (Term.text_ne ha) (Atom.text_ne hb) hc
    have htext : Term.text (.two k a b) = k ++ [40] ++ (a.text ++ [44] ++ b.text) ++ [41] := by simp [Term.text]
    rw [htext]
    refine ⟨funcKey_call k _ h1 (by rw [hsub]; rfl), ?_, f, _, rfl⟩
    intro pre n hn
    obtain ⟨n, rfl⟩ : ∃ m, n = m + 1 := ⟨n - 1, by simp only [List.length_append] at hn; omega⟩
    obtain ⟨x, more, l', hstep, hout⟩ := first_arg N a e ha ih k h2 [k ++ [40] ++ (a.text ++ [44] ++ b.text) ++ [41], a.text, b.text] rfl pre
      [.str k] n pre.length 2 (by simp only [List.length_append, List.length_singleton] at hn; omega)
    obtain ⟨y, hstep', hout'⟩ := atom_step N b e' hb
    refine ⟨[.str k, x, y], more, l', ?_, ?_⟩
    · rw [resolve, push_app, Res.bind_ok, hsub]
      dsimp only
      rw [List.nil_append]
      rw [show ∀ a b c : Str, List.length [a, b, c] = 2 + 1 from fun _ _ _ => rfl, hstep _ rfl,
        hstep' (resolve N n) k pre.length _ 1 2 _ rfl (.inl h2), push_app, Res.bind_ok, argLoop]
      rfl
    · intro H suf m hH hm
      obtain ⟨m, rfl⟩ : ∃ j, m = j + 1 := ⟨m - 1, by omega⟩
      have hrow : H.args[pre.length]? = some [.str k, x, y] := by rw [← List.head?_drop, hH]; rfl
      refine out_row N H pre.length m k f x [y] _ hrow h3 ?_
      rw [hout H _ suf m [y] hH (by omega), hout']
      rfl

end Verif.Simple
