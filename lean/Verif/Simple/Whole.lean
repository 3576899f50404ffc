import Verif.Simple.GroupTheorems
import Verif.Filter.Theorems
import Verif.Transform.Store

/-!
# From the text of a simple expression to the verdict (C80)

`ParseSimpleExpression` followed by `Transform` and `Match`: what is answered for a text and a document.
-/

namespace Verif.Simple
open Verif.FastVal Verif.Expr Verif.Transform
open Verif.Token (D)
open Verif.Match (run Ready Begins)
open Verif.Filter (onField readField holdsB OneField Seen)

variable {E : Ext}

/-! ### Specification -/

def Bin.cmp : Bin → Cmp
  | .eq => .eq | .ne => .ne | .lt => .lt | .le => .le | .gt => .gt | .ge => .ge | .like => .like | .notLike => .like

/-- The fields that a condition mentions. -/
def Cond.fields : Cond E → List Path
  | .bin _ a _ _ _ b => paths a ++ paths b
  | .un _ a _ _ => paths a

/-- A condition on a document: the comparison is applied to the values of the sides, computed from the value of the field; on a
missing field it is false, except for `!=`, `NOT LIKE`, `IS MISSING` and `IS NOT NULL`. -/
def Cond.holds (X : Fns E) (C : Transform.Comp E) (d : D) : Cond E → Bool
  | .bin l a w .notLike r b => !onField (Cond.fields (.bin l a w .notLike r b)) d false fun v => holdsB .like (paramVal X C v a) (paramVal X C v b)
  | .bin l a w o r b => onField (Cond.fields (.bin l a w o r b)) d (decide (o = .ne)) fun v => holdsB o.cmp (paramVal X C v a) (paramVal X C v b)
  | .un _ a _ .exists => (readField (paths a) d).isSome
  | .un _ a _ .missing => !(readField (paths a) d).isSome
  | .un _ a _ .null => onField (paths a) d false fun v => holdsB .eq (paramVal X C v a) (.ok ⟨.null, true⟩)
  | .un _ a _ .notNull => onField (paths a) d true fun v => holdsB .ne (paramVal X C v a) (.ok ⟨.null, true⟩)

/-- The condition is about one field (it may occur several times) and its pattern compiles. -/
structure Cond.Readable (C : Transform.Comp E) (q : Cond E) : Prop where
  one : OneField q.fields
  regexp : ∀ l a w o r s, q = .bin l a w o r (.regex (.json (.str s))) → (C.regexp s).isSome
  pcre : ∀ l a w o r s, q = .bin l a w o r (.pcre (.json (.str s))) → (C.pcre s).isSome

def Cond.path (q : Cond E) : Path := q.fields.head?.getD []

/-- A chain from left to right, and one in which "and" binds more strongly than "or". -/
def inOrder (H : Cond E → Bool) : Bool → List (Link E) → Bool
  | b, [] => b
  | b, (_, .and, q) :: r => inOrder H (b && H q) r
  | b, (_, .or, q) :: r => inOrder H (b || H q) r
def andFirst (H : Cond E → Bool) : Bool → List (Link E) → Bool
  | b, [] => b
  | b, (_, .and, q) :: r => andFirst H (b && H q) r
  | b, (_, .or, q) :: r => b || andFirst H (H q) r

/-- The text is parsed, compiled, and matching the document gives `b`. -/
def Answers (N : Simple.Env E) (X : Fns E) (C : Transform.Comp E) (text : Str) (data : List Nat) (b : Bool) : Prop :=
  ∃ e df, ParsesTo N text (.ok (some e)) ∧ transform C 0 [e] = .ok df ∧ ∀ m, Ready df m → ∃ m', run X df m data = .ok (some b, m')

def Grp.conds : Grp E → List (Cond E)
  | .cond q => [q]
  | .group g ls => g.conds ++ ls.map (·.2.2)

def Txt.conds : Txt E → List (Cond E)
  | .chain g ls => g.conds ++ ls.map (·.2.2)
  | .last g ls _ _ g' ls' => g.conds ++ ls.map (·.2.2) ++ (g'.conds ++ ls'.map (·.2.2))
  | .whole g ls => g.conds ++ ls.map (·.2.2)

/-! ### Sides of conditions -/

theorem head?_or {α : Type} (l r : List α) : (l ++ r).head? = l.head?.or r.head? := by cases l <;> rfl

mutual
  theorem fieldPath_paths : ∀ e : Expr E, fieldPath e = (paths e).head?
    | .func _ ps => by rw [fieldPath, paths, fieldPaths_paths ps]
    | .field _ => by simp [paths, fieldPath]
    | .value _ | .regex _ | .pcre _ | .time _ | .tru | .fals | .or _ | .and _ | .not _ | .cmp _ _ _ | .exist _ | .notExist _
    | .loop _ _ _ _ => by simp [paths, fieldPath]
  theorem fieldPaths_paths : ∀ ps : Exprs E, fieldPaths ps = (pathsAll ps).head?
    | .nil => by simp [pathsAll, fieldPaths]
    | .cons e r => by rw [pathsAll, fieldPaths, head?_or, fieldPath_paths e, fieldPaths_paths r]
end

theorem condPath_paths (a b : Expr E) : condPath a b = (paths a ++ paths b).head?.getD [] := by
  rw [condPath, fieldPath_paths, fieldPath_paths, head?_or]

theorem condPath_self (a : Expr E) : condPath a a = (paths a).head?.getD [] := by
  rw [condPath, fieldPath_paths]; cases (paths a).head? <;> rfl

/-- What a side of a condition may be: it can be compiled if its fields are the field `p`. -/
structure SideOk (C : Transform.Comp E) (e : Expr E) : Prop where
  param : ∀ p, (∀ q ∈ paths e, q = p) → Param C 0 p e
  safe : SafeParam e

theorem fns_safe {k f : Str} (h : (k, f) ∈ fns1) : fnameOf f ≠ .other ∧ (fnameOf f).arity = 1 ∧ fnameOf f ≠ .div ∧ fnameOf f ≠ .mod := by
  have : ∀ x ∈ fns1, fnameOf x.2 ≠ .other ∧ (fnameOf x.2).arity = 1 ∧ fnameOf x.2 ≠ .div ∧ fnameOf x.2 ≠ .mod := by decide
  exact this _ h
theorem fns2_safe {k f : Str} (h : (k, f) ∈ fns2) : fnameOf f ≠ .other ∧ (fnameOf f).arity = 2 ∧ fnameOf f ≠ .div ∧ fnameOf f ≠ .mod := by
  have : ∀ x ∈ fns2, fnameOf x.2 ≠ .other ∧ (fnameOf x.2).arity = 2 ∧ fnameOf x.2 ≠ .div ∧ fnameOf x.2 ≠ .mod := by decide
  exact this _ h

theorem atom_side (C : Transform.Comp E) {N : Simple.Env E} {a : Atom} {e : Expr E} (h : a.Means N e) : SideOk C e := by
  cases h with
  | name n _ => exact ⟨fun p hp => by rw [Param, hp n.path (by simp [paths])], trivial⟩
  | int => exact ⟨fun _ _ => trivial, trivial⟩
  | float => exact ⟨fun _ _ => trivial, trivial⟩
  | str => exact ⟨fun _ _ => trivial, trivial⟩

theorem side_one {C : Transform.Comp E} {f : Str} {e : Expr E} (h : SideOk C e) (hf : fnameOf f ≠ .other ∧ (fnameOf f).arity = 1 ∧ fnameOf f ≠ .div ∧ fnameOf f ≠ .mod) :
    SideOk C (.func f (.cons e .nil)) := by
  refine ⟨fun p hp => ?_, hf.1, ?_, fun hc => (hc.elim hf.2.2.1 hf.2.2.2).elim⟩
  · rw [Param, Params]
    exact ⟨h.param p (fun q hq => hp q (by simp [paths, pathsAll, hq])), trivial⟩
  · rw [hf.2.1]; exact ⟨h.safe, trivial⟩

theorem side_two {C : Transform.Comp E} {f : Str} {e e' : Expr E} (h : SideOk C e) (h' : SideOk C e')
    (hf : fnameOf f ≠ .other ∧ (fnameOf f).arity = 2 ∧ fnameOf f ≠ .div ∧ fnameOf f ≠ .mod) :
    SideOk C (.func f (.cons e (.cons e' .nil))) := by
  refine ⟨fun p hp => ?_, hf.1, ?_, fun hc => (hc.elim hf.2.2.1 hf.2.2.2).elim⟩
  · rw [Param, Params, Params]
    exact ⟨h.param p (fun q hq => hp q (by simp [paths, pathsAll, hq])), h'.param p (fun q hq => hp q (by simp [paths, pathsAll, hq])), trivial⟩
  · rw [hf.2.1]; exact ⟨h.safe, h'.safe, trivial⟩

theorem term_side (C : Transform.Comp E) {N : Simple.Env E} {t : Term} {e : Expr E} (h : t.Means N e) : SideOk C e := by
  induction h with
  | atom a e h => exact atom_side C h
  | one k f a e hk _ ih => exact side_one ih (fns_safe hk)
  | date q s e h _ => exact side_one (atom_side C h) (by decide)
  | two k f a b e e' hk _ hb _ ih => exact side_two ih (atom_side C hb) (fns2_safe hk)

theorem const_side (C : Transform.Comp E) {N : Simple.Env E} {t : Str} {e : Expr E} (h : ConstTok N t e) : SideOk C e := by
  cases h <;> exact ⟨fun _ _ => trivial, trivial⟩

theorem left_side (C : Transform.Comp E) {N : Simple.Env E} {t : Str} {e : Expr E} (h : LeftMeans N t e) : SideOk C e := by
  cases h with
  | name n _ _ => exact ⟨fun p hp => by rw [Param, hp n.path (by simp [paths])], trivial⟩
  | call t k e _ h => exact term_side C h
  | const t e h => exact const_side C h

theorem right_side (C : Transform.Comp E) {N : Simple.Env E} {o : Bin} {ts : List Str} {e : Expr E} (h : RightMeans N o ts e)
    (hr : ∀ s, e = .regex (.json (.str s)) → (C.regexp s).isSome) (hp : ∀ s, e = .pcre (.json (.str s)) → (C.pcre s).isSome) : SideOk C e := by
  cases h with
  | num n e _ h => exact atom_side C h
  | word q s e _ h => exact atom_side C h
  | phrase => exact ⟨fun _ _ => trivial, trivial⟩
  | bool => exact ⟨fun _ _ => trivial, trivial⟩
  | call t k e _ h => exact term_side C h
  | const t e h => exact const_side C h
  | regex q s =>
    obtain ⟨r, h⟩ := Option.isSome_iff_exists.1 (hr _ rfl)
    exact ⟨fun _ _ => ⟨_, r, rfl, h⟩, trivial⟩
  | pcre q s =>
    obtain ⟨r, h⟩ := Option.isSome_iff_exists.1 (hp _ rfl)
    exact ⟨fun _ _ => ⟨_, r, rfl, h⟩, trivial⟩
  | numRegex n =>
    obtain ⟨r, h⟩ := Option.isSome_iff_exists.1 (hr _ rfl)
    exact ⟨fun _ _ => ⟨_, r, rfl, h⟩, trivial⟩
  | phraseRegex q f m l =>
    obtain ⟨r, h⟩ := Option.isSome_iff_exists.1 (hr _ rfl)
    exact ⟨fun _ _ => ⟨_, r, rfl, h⟩, trivial⟩

/-! ### Conditions -/

/-- What is needed of the expression of a text. -/
structure Usable (X : Fns E) (C : Transform.Comp E) (d : D) (ps : List Path) (e : Expr E) : Prop where
  frag : Frag C 0 e
  safe : SafeE e
  lf : LoopFree e
  cs : ∀ x ∈ conds e, x.2 = false ∧ x.1 ∈ ps
  gen : genExprs [e] = [e]

theorem cmp_good (X : Fns E) (C : Transform.Comp E) (d : D) (c : Cmp) {a b : Expr E} (ha : SideOk C a) (hb : SideOk C b) (h : OneField (paths a ++ paths b)) :
    Usable X C d [(paths a ++ paths b).head?.getD []] (.cmp c a b) := by
  have hp := condPath_paths a b
  refine ⟨⟨?_, ?_⟩, ⟨ha.safe, hb.safe⟩, trivial, ?_, rfl⟩
  · rw [hp]; exact ha.param _ (fun q hq => h q (List.mem_append_left _ hq))
  · rw [hp]; exact hb.param _ (fun q hq => h q (List.mem_append_right _ hq))
  · intro x hx
    rw [conds, List.mem_singleton] at hx
    rw [hx, hp]
    exact ⟨rfl, List.mem_singleton.2 rfl⟩

theorem Cond.good {N : Simple.Env E} (X : Fns E) (C : Transform.Comp E) (d : D) : ∀ q : Cond E, q.Spec N → q.Readable C →
    Usable X C d [q.path] q.expr ∧ truth X C q.expr d = q.holds X C d
  | .bin l a w o r b, hs, hr => by
    have ha := left_side C hs.1
    have hb := right_side C hs.2.2 (fun s h => hr.regexp l a w o r s (by rw [h])) (fun s h => hr.pcre l a w o r s (by rw [h]))
    have hg := fun c => cmp_good X C d c ha hb hr.one
    have ht := fun c => Filter.truth_cmp X C c a b d _ (condPath_paths a b) (fun v => paramVal X C v a) (fun v => paramVal X C v b)
      (fun _ => rfl) (fun _ => rfl)
    cases o
    case notLike =>
      obtain ⟨h1, h2, h3, h4, _⟩ := hg .like
      refine ⟨⟨h1, h2, h3, h4, rfl⟩, ?_⟩
      show truth X C (.not (.cmp .like a b)) d = _
      rw [truth, ht]
      rfl
    all_goals exact ⟨hg _, ht _⟩
  | .un l a w o, hs, hr => by
    have ha := left_side C hs.1
    have hn : SideOk C (.value (.json .null) : Expr E) := ⟨fun _ _ => trivial, trivial⟩
    have hone : OneField (paths a) := hr.one
    have hpn : paths a ++ paths (.value (.json .null) : Expr E) = paths a := by simp [paths]
    have hg := fun c => cmp_good X C d c ha hn (by rw [hpn]; exact hone)
    rw [hpn] at hg
    have ht := fun c => Filter.truth_cmp X C c a (.value (.json .null)) d (paths a) (by rw [condPath_paths, hpn]) (fun v => paramVal X C v a)
      (fun _ => .ok ⟨.null, true⟩) (fun _ => rfl) (fun _ => rfl)
    have hsf := condPath_self a
    have hpa := ha.param _ (fun q hq => hone q hq)
    cases o with
    | null => exact ⟨hg _, ht _⟩
    | notNull => exact ⟨hg _, ht _⟩
    | «exists» =>
      refine ⟨⟨?_, ha.safe, trivial, ?_, rfl⟩, ?_⟩
      · show Param C 0 (condPath a a) a
        rw [hsf]; exact hpa
      · intro x hx
        rw [List.mem_singleton.1 (show x ∈ [(condPath a a, false)] from hx), hsf]
        exact ⟨rfl, List.mem_singleton.2 rfl⟩
      · show truth X C (.exist a) d = _
        rw [truth, hsf]; rfl
    | missing =>
      refine ⟨⟨?_, ha.safe, trivial, ?_, rfl⟩, ?_⟩
      · show Param C 0 (condPath a a) a
        rw [hsf]; exact hpa
      · intro x hx
        rw [List.mem_singleton.1 (show x ∈ [(condPath a a, false)] from hx), hsf]
        exact ⟨rfl, List.mem_singleton.2 rfl⟩
      · show truth X C (.notExist a) d = _
        rw [truth, hsf]; rfl

/-! ### Texts -/

theorem conn_good {X : Fns E} {C : Transform.Comp E} {d : D} {ps : List Path} (o : Conn) {a b : Expr E} (ha : Usable X C d ps a) (hb : Usable X C d ps b) :
    Usable X C d ps (o.expr a b) := by
  have hc : ∀ x ∈ conds a ++ (conds b ++ []), x.2 = false ∧ x.1 ∈ ps := by
    intro x hx
    rw [List.append_nil] at hx
    rcases List.mem_append.1 hx with h | h
    · exact ha.cs x h
    · exact hb.cs x h
  cases o with
  | and =>
    exact ⟨⟨ha.frag, hb.frag⟩, ⟨ha.safe, hb.safe, trivial⟩, ⟨ha.lf, hb.lf, trivial⟩, by simpa [Conn.expr, conds, condsAll] using hc, rfl⟩
  | or =>
    exact ⟨⟨ha.frag, hb.frag⟩, ⟨ha.safe, hb.safe, trivial⟩, ⟨ha.lf, hb.lf, trivial⟩, by simpa [Conn.expr, conds, condsAll] using hc, rfl⟩

theorem buildTo_good {X : Fns E} {C : Transform.Comp E} {d : D} {ps : List Path} (s : Bool) (f : Expr E → Expr E) (hf : ∀ e, Usable X C d ps e → Usable X C d ps (f e)) :
    ∀ (ls : List (Link E)) (acc : Expr E), Usable X C d ps acc → (∀ x ∈ ls, Usable X C d ps x.2.2.expr) → Usable X C d ps (buildTo s f acc ls)
  | [], acc, ha, _ => hf acc ha
  | (_, o, q) :: r, acc, ha, hl => by
    have hq := hl _ (List.mem_cons_self ..)
    have hr := fun x hx => hl x (List.mem_cons_of_mem _ hx)
    rw [buildTo]
    split
    · exact conn_good o ha (buildTo_good s f hf r _ hq hr)
    · exact buildTo_good s f hf r _ (conn_good o ha hq) hr

theorem build_good {X : Fns E} {C : Transform.Comp E} {d : D} {ps : List Path} (s : Bool) (ls : List (Link E)) (acc : Expr E) (ha : Usable X C d ps acc)
    (hl : ∀ x ∈ ls, Usable X C d ps x.2.2.expr) : Usable X C d ps (build s acc ls) := by
  rw [← buildTo_id]
  exact buildTo_good s id (fun _ h => h) ls acc ha hl

theorem joinLeft_good {X : Fns E} {C : Transform.Comp E} {d : D} {ps : List Path} :
    ∀ (ls : List (Link E)) (acc : Expr E), Usable X C d ps acc → (∀ x ∈ ls, Usable X C d ps x.2.2.expr) → Usable X C d ps (joinLeft acc ls)
  | [], _, ha, _ => ha
  | (_, o, _) :: r, _, ha, hl => joinLeft_good r _ (conn_good o ha (hl _ (List.mem_cons_self ..))) (fun x hx => hl x (List.mem_cons_of_mem _ hx))

theorem Grp.good {X : Fns E} {C : Transform.Comp E} {d : D} {ps : List Path} : ∀ g : Grp E, (∀ q ∈ g.conds, Usable X C d ps q.expr) → Usable X C d ps g.expr
  | .cond q, h => h q (List.mem_singleton.2 rfl)
  | .group g ls, h => joinLeft_good ls _ (Grp.good g (fun q hq => h q (List.mem_append_left _ hq)))
      (fun _ hx => h _ (List.mem_append_right _ (List.mem_map_of_mem hx)))

theorem Txt.good {X : Fns E} {C : Transform.Comp E} {d : D} {ps : List Path} (s : Bool) (t : Txt E) (h : ∀ q ∈ t.conds, Usable X C d ps q.expr) :
    Usable X C d ps (t.expr s) := by
  have part : ∀ (g : Grp E) (ls : List (Link E)), (∀ q ∈ g.conds ++ ls.map (·.2.2), Usable X C d ps q.expr) →
      Usable X C d ps g.expr ∧ ∀ x ∈ ls, Usable X C d ps x.2.2.expr := fun g ls h =>
    ⟨Grp.good g (fun q hq => h q (List.mem_append_left _ hq)), fun x hx => h _ (List.mem_append_right _ (List.mem_map_of_mem hx))⟩
  cases t with
  | chain g ls => exact build_good s ls _ (part g ls h).1 (part g ls h).2
  | whole g ls => exact build_good s ls _ (part g ls h).1 (part g ls h).2
  | last g ls w o g' ls' =>
    obtain ⟨h1, h2⟩ := part g ls (fun q hq => h q (List.mem_append_left _ hq))
    obtain ⟨h3, h4⟩ := part g' ls' (fun q hq => h q (List.mem_append_right _ hq))
    exact buildTo_good s _ (fun e he => conn_good o he (build_good s ls' _ h3 h4)) ls _ h1 h2

theorem good_mono {X : Fns E} {C : Transform.Comp E} {d : D} {ps ps' : List Path} (h : ∀ p ∈ ps, p ∈ ps') {e : Expr E} (g : Usable X C d ps e) : Usable X C d ps' e :=
  ⟨g.frag, g.safe, g.lf, fun x hx => ⟨(g.cs x hx).1, h _ (g.cs x hx).2⟩, g.gen⟩

/-- The truth of a group on a document. -/
def Grp.holds (H : Cond E → Bool) : Grp E → Bool
  | .cond q => H q
  | .group g ls => inOrder H (g.holds H) ls

/-- C80 as it should be: a chain matches exactly the documents on which it is true, "and" before "or". -/
def C80_full (N : Simple.Env E) (X : Fns E) (C : Transform.Comp E) : Prop :=
  ∀ (q : Cond E) (ls : List (Link E)) (text : Str) (data : List Nat) (d : D), q.Spec N → LinksSpec N ls → Words (q.toks ++ linkToks ls) text →
    (∀ x ∈ q :: ls.map (·.2.2), x.Readable C) → Match.IsText data d → Seen ((q :: ls.map (·.2.2)).map Cond.path) d →
    Answers N X C text data (andFirst (Cond.holds X C d) (q.holds X C d) ls)

theorem good_answers {N : Simple.Env E} {X : Fns E} {C : Transform.Comp E} {d : D} {ps : List Path} {e : Expr E} {text : Str} {data : List Nat}
    (g : Usable X C d ps e) (hp : ParsesTo N text (.ok (some e))) (hd : Begins data d) (hs : Seen ps d) : Answers N X C text data (truth X C e d) := by
  have hc : condsOf [e] = conds e := by simp [condsOf]
  have hreg : RegularAt (condsOf [e]) d := by
    rw [hc]
    refine ⟨fun p hp x hx he => (hs.arr p (g.cs _ hp).2 x hx he).elim, fun p hp x hx he k p' b hb => ?_, fun q hq => ?_⟩
    · exact hs.obj p (g.cs _ hp).2 x hx he k p' (g.cs _ hb).2
    · exact absurd (g.cs _ hq).1 (by simp)
  have h1 : ∀ {P : Expr E → Prop}, P e → ∀ x ∈ [e], P x := fun h x hx => List.mem_singleton.1 hx ▸ h
  obtain ⟨df, h2, h3⟩ := C22_match_partial X C 0 g.gen (h1 g.frag) (h1 g.safe) (h1 g.lf) hd hreg
  refine ⟨e, df, hp, h2, fun m hm => ?_⟩
  obtain ⟨m', h⟩ := h3 m hm
  exact ⟨m', by simpa using h⟩

theorem conds_good {N : Simple.Env E} (X : Fns E) (C : Transform.Comp E) (d : D) {qs : List (Cond E)} (hs : ∀ q ∈ qs, q.Spec N)
    (hr : ∀ q ∈ qs, q.Readable C) : ∀ q ∈ qs, Usable X C d (qs.map Cond.path) q.expr ∧ truth X C q.expr d = q.holds X C d := by
  intro q hq
  obtain ⟨h1, h2⟩ := Cond.good X C d q (hs q hq) (hr q hq)
  exact ⟨good_mono (fun p hp => by rw [List.mem_singleton.1 hp]; exact List.mem_map_of_mem hq) h1, h2⟩

theorem linksTruth_inOrder {T : Expr E → Bool} {H : Cond E → Bool} : ∀ (ls : List (Link E)) (b : Bool), (∀ x ∈ ls, T x.2.2.expr = H x.2.2) →
    linksTruth T b ls = inOrder H b ls
  | [], _, _ => rfl
  | (_, .and, _) :: r, b, h => by
    rw [linksTruth, inOrder, h _ (List.mem_cons_self ..)]
    exact linksTruth_inOrder r _ fun x hx => h x (List.mem_cons_of_mem _ hx)
  | (_, .or, _) :: r, b, h => by
    rw [linksTruth, inOrder, h _ (List.mem_cons_self ..)]
    exact linksTruth_inOrder r _ fun x hx => h x (List.mem_cons_of_mem _ hx)

theorem Grp.truth_holds {T : Expr E → Bool} {H : Cond E → Bool} : ∀ g : Grp E, (∀ q ∈ g.conds, T q.expr = H q) → g.truth T = g.holds H
  | .cond q, h => h q (List.mem_singleton.2 rfl)
  | .group g ls, h => by
    rw [Grp.truth, Grp.holds, Grp.truth_holds g fun q hq => h q (List.mem_append_left _ hq)]
    exact linksTruth_inOrder ls _ fun x hx => h _ (List.mem_append_right _ (List.mem_map_of_mem hx))

theorem Grp.conds_spec {N : Simple.Env E} {s : Bool} : ∀ g : Grp E, g.Spec N s → ∀ q ∈ g.conds, q.Spec N
  | .cond q, h, x, hx => by rw [List.mem_singleton.1 hx]; exact h
  | .group g ls, h, x, hx => by
    rcases List.mem_append.1 hx with hx | hx
    · exact Grp.conds_spec g h.1 x hx
    · obtain ⟨y, hy, rfl⟩ := List.mem_map.1 hx
      exact (h.2.1 y hy).2

/-! ### Theorems -/

/-- C80.  Conditions joined only by "and" match exactly the documents on which all hold; joined only by "or", those on which one holds.
(Missing from `C80_full`: chains with both, see `C80_order_partial` and `C80_negation`.) -/
theorem C80_chain_partial (N : Simple.Env E) (X : Fns E) (C : Transform.Comp E) (q : Cond E) (ls : List (Link E)) (text : Str) (data : List Nat) (d : D)
    (hq : q.Spec N) (hls : LinksSpec N ls) (ht : Words (q.toks ++ linkToks ls) text) (hr : ∀ x ∈ q :: ls.map (·.2.2), x.Readable C)
    (hd : Begins data d) (hs : Seen ((q :: ls.map (·.2.2)).map Cond.path) d) :
    ((∀ x ∈ ls, x.2.1 = .and) → Answers N X C text data ((q :: ls.map (·.2.2)).all fun c => c.holds X C d)) ∧
    ((∀ x ∈ ls, x.2.1 = .or) → Answers N X C text data ((q :: ls.map (·.2.2)).any fun c => c.holds X C d)) := by
  have hg := conds_good (N := N) X C d (qs := q :: ls.map (·.2.2)) (fun c hc => by
    rcases List.mem_cons.1 hc with rfl | hc
    · exact hq
    · obtain ⟨y, hy, rfl⟩ := List.mem_map.1 hc; exact (hls y hy).2) hr
  have hl := fun (x : Link E) (hx : x ∈ ls) => hg x.2.2 (List.mem_cons_of_mem _ (List.mem_map_of_mem hx))
  have h0 := hg q (List.mem_cons_self ..)
  have ha := good_answers (build_good _ ls _ h0.1 fun x hx => (hl x hx).1) (C53_chain N q ls text hq hls ht) hd hs
  refine ⟨fun h => ?_, fun h => ?_⟩
  · rw [build_and _ (truth_doc X C d) _ ls _ h, h0.2] at ha
    have : (ls.all fun x => truth X C x.2.2.expr d) = (ls.map (·.2.2)).all fun c => c.holds X C d := by
      rw [List.all_map, Bool.eq_iff_iff, List.all_eq_true, List.all_eq_true]
      exact ⟨fun hh x hx => (hl x hx).2.symm.trans (hh x hx), fun hh x hx => (hl x hx).2.trans (hh x hx)⟩
    rw [this] at ha
    exact ha
  · rw [build_or _ (truth_doc X C d) _ ls _ h, h0.2] at ha
    have : (ls.any fun x => truth X C x.2.2.expr d) = (ls.map (·.2.2)).any fun c => c.holds X C d := by
      rw [List.any_map, Bool.eq_iff_iff, List.any_eq_true, List.any_eq_true]
      exact ⟨fun ⟨x, hx, hh⟩ => ⟨x, hx, (hl x hx).2.symm.trans hh⟩, fun ⟨x, hx, hh⟩ => ⟨x, hx, (hl x hx).2.trans hh⟩⟩
    rw [this] at ha
    exact ha

/-- C80.  Groups at the start, followed by conditions with a right side, without short circuiting: the documents are those on which the
text is true when it is read from left to right. -/
theorem C80_order_partial (N : Simple.Env E) (X : Fns E) (C : Transform.Comp E) (g : Grp E) (ls : List (Link E)) (text : Str) (data : List Nat) (d : D)
    (hg : g.Spec N false) (hls : LinksSpec N ls) (hb : ∀ x ∈ ls, x.2.2.unary = false) (ho : ¬ OneSymbol (g.toks ++ linkToks ls))
    (ht : Words (g.toks ++ linkToks ls) text) (hr : ∀ x ∈ g.conds ++ ls.map (·.2.2), x.Readable C) (hd : Begins data d)
    (hs : Seen ((g.conds ++ ls.map (·.2.2)).map Cond.path) d) :
    Answers N X C text data (inOrder (Cond.holds X C d) (g.holds (Cond.holds X C d)) ls) := by
  have hg' := conds_good (N := N) X C d (qs := g.conds ++ ls.map (·.2.2)) (fun c hc => by
    rcases List.mem_append.1 hc with hc | hc
    · exact Grp.conds_spec g hg c hc
    · obtain ⟨y, hy, rfl⟩ := List.mem_map.1 hc; exact (hls y hy).2) hr
  have hdd : decide (OneSymbol (Txt.chain g ls).toks) = false := decide_eq_false ho
  have hp := C61_partial N (.chain g ls) text (by rw [hdd]; exact ⟨hg, hls⟩) ht
  rw [hdd] at hp
  have ha := good_answers (Txt.good false (.chain g ls) fun q hq => (hg' q hq).1) hp hd hs
  rw [Txt.expr, build_flat _ _ hb, joinLeft_truth _ (truth_doc X C d), Grp.expr_truth _ (truth_doc X C d),
    Grp.truth_holds g fun q hq => (hg' q (List.mem_append_left _ hq)).2,
    linksTruth_inOrder ls _ fun x hx => (hg' x.2.2 (List.mem_append_right _ (List.mem_map_of_mem hx))).2] at ha
  exact ha

/-- C80.  Two groups joined by a connective match the documents on which the groups and the connective say so. -/
theorem C80_groups_partial (N : Simple.Env E) (X : Fns E) (C : Transform.Comp E) (g g' : Grp E) (ls' : List (Link E)) (w : Str) (o : Conn) (text : Str)
    (data : List Nat) (d : D) (hg : g.Spec N false) (hw : (w, o) ∈ connWords) (hg' : g'.Spec N false) (hls : LinksSpec N ls')
    (hb : ∀ x ∈ ls', x.2.2.unary = false) (ho : ¬ OneSymbol (Txt.last g [] w o g' ls').toks) (ht : Words (Txt.last g [] w o g' ls').toks text)
    (hr : ∀ x ∈ (Txt.last g [] w o g' ls').conds, x.Readable C) (hd : Begins data d) (hs : Seen ((Txt.last g [] w o g' ls').conds.map Cond.path) d) :
    Answers N X C text data (o.truth (g.holds (Cond.holds X C d)) ((Grp.group g' ls').holds (Cond.holds X C d))) := by
  have hl0 : LinksSpec N ([] : List (Link E)) := fun x hx => absurd hx (by simp)
  have hgg := conds_good (N := N) X C d (qs := (Txt.last g [] w o g' ls').conds) (fun c hc => by
    rcases List.mem_append.1 hc with hc | hc
    · rcases List.mem_append.1 hc with hc | hc
      · exact Grp.conds_spec g hg c hc
      · exact absurd hc (by simp)
    · rcases List.mem_append.1 hc with hc | hc
      · exact Grp.conds_spec g' hg' c hc
      · obtain ⟨y, hy, rfl⟩ := List.mem_map.1 hc; exact (hls y hy).2) hr
  have hdd : decide (OneSymbol (Txt.last g [] w o g' ls').toks) = false := decide_eq_false ho
  have hp := C61_partial N (.last g [] w o g' ls') text (by rw [hdd]; exact ⟨hg, hl0, hw, hg', hls⟩) ht
  rw [hdd] at hp
  have ha := good_answers (Txt.good false (.last g [] w o g' ls') fun q hq => (hgg q hq).1) hp hd hs
  have e1 : g.truth (fun e => truth X C e d) = g.holds (Cond.holds X C d) := Grp.truth_holds g fun q hq =>
    (hgg q (List.mem_append_left _ (List.mem_append_left _ hq))).2
  have e2 : (Grp.group g' ls').truth (fun e => truth X C e d) = (Grp.group g' ls').holds (Cond.holds X C d) :=
    Grp.truth_holds (.group g' ls') fun q hq => (hgg q (List.mem_append_right _ hq)).2
  have e3 : truth X C ((Txt.last g [] w o g' ls').expr false) d = o.truth (g.truth fun e => truth X C e d) ((Grp.group g' ls').truth fun e => truth X C e d) := by
    have hT := truth_doc X C d
    have := Conn.expr_truth _ hT o g.expr (build false g'.expr ls')
    rw [Txt.expr, buildTo]
    rw [Grp.expr_truth _ hT, build_flat _ _ hb, joinLeft_truth _ hT, Grp.expr_truth _ hT g'] at this
    rw [build_flat _ _ hb]
    exact this
  rw [e3, e1, e2] at ha
  exact ha

/-! ### Examples -/

theorem aCond_readable (C : Transform.Comp E) (s : String) (n : Nat) : (aCond E s n).Readable C :=
  ⟨fun p hp => by simpa [aCond, Cond.fields, paths] using hp, fun _ _ _ _ _ _ h => by simp [aCond] at h, fun _ _ _ _ _ _ h => by simp [aCond] at h⟩

open Verif.Match in
/-- `a == 1 || b == 2 && c == 3` on `{"a":1}`: read from left to right it is false. -/
theorem C80_mixed (N : Simple.Env demoExt) : Answers N demoFns demoComp (ascii "a == 1 || b == 2 && c == 3") demoDoc false := by
  have h := C80_order_partial N demoFns demoComp (.cond (aCond demoExt "a" 1)) (mixedLinks demoExt) (ascii "a == 1 || b == 2 && c == 3") demoDoc docA1
    (aCond_spec N "a" 1 free_a (by decide) (by decide)) (mixed_links N) (by simp [mixedLinks]; exact ⟨rfl, rfl⟩)
    (by
      have : (Grp.cond (aCond demoExt "a" 1)).toks ++ linkToks (mixedLinks demoExt) =
        [ascii "a", kEq, ascii "1", kOr, ascii "b", kEq, ascii "2", kAnd, ascii "c", kEq, ascii "3"] := rfl
      rw [this]; decide) mixed_words
    (by
      intro x hx
      simp only [Grp.conds, mixedLinks, List.map_cons, List.map_nil, List.cons_append, List.nil_append, List.mem_cons, List.not_mem_nil, or_false] at hx
      rcases hx with rfl | rfl | rfl <;> exact aCond_readable ..) docA1_text (Filter.seen_of_check (by decide +kernel))
  have : inOrder (Cond.holds demoFns demoComp docA1) ((Grp.cond (aCond demoExt "a" 1)).holds (Cond.holds demoFns demoComp docA1)) (mixedLinks demoExt) = false := by
    decide +kernel
  rwa [this] at h

theorem answers_unique {N : Simple.Env E} {X : Fns E} {C : Transform.Comp E} {text : Str} {data : List Nat} {b b' : Bool}
    (h : Answers N X C text data b) (h' : Answers N X C text data b') : b = b' := by
  obtain ⟨e, df, h1, h2, h3⟩ := h
  obtain ⟨e', df', h1', h2', h3'⟩ := h'
  have := parsesTo_unique N h1 h1'
  injection this with this
  injection this with this
  subst this
  rw [h2] at h2'
  injection h2' with h2'
  subst h2'
  obtain ⟨m1, g⟩ := h3 (Verif.Match.newMatcher df) ⟨rfl, rfl⟩
  obtain ⟨m2, g'⟩ := h3' (Verif.Match.newMatcher df) ⟨rfl, rfl⟩
  rw [g] at g'
  injection g' with g'
  injection g' with g'
  injection g'

open Verif.Match in
/-- C80 is false: `{"a":1}` is not matched by `a == 1 || b == 2 && c == 3`. -/
theorem C80_negation (N : Simple.Env demoExt) : ¬ C80_full N demoFns demoComp := by
  intro h
  have h := h (aCond demoExt "a" 1) (mixedLinks demoExt) (ascii "a == 1 || b == 2 && c == 3") demoDoc docA1
    (aCond_spec N "a" 1 free_a (by decide) (by decide)) (mixed_links N) mixed_words
    (by
      intro x hx
      simp only [mixedLinks, List.map_cons, List.map_nil, List.mem_cons, List.not_mem_nil, or_false] at hx
      rcases hx with rfl | rfl | rfl <;> exact aCond_readable ..) docA1_exact (Filter.seen_of_check (by decide +kernel))
  have := answers_unique (C80_mixed N) h
  revert this
  decide +kernel

theorem orB_links (N : Simple.Env demoExt) : LinksSpec N [(kOr, .or, aCond demoExt "b" 2)] := by
  intro x hx
  simp only [List.mem_singleton] at hx
  subst hx
  exact ⟨by simp [connWords], aCond_spec N "b" 2 free_b (by decide) (by decide)⟩

open Verif.Match in
/-- `a == 1 || b == 2` matches `{"a":1}`. -/
example (N : Simple.Env demoExt) : Answers N demoFns demoComp (ascii "a == 1 || b == 2") demoDoc true := by
  have h := (C80_chain_partial N demoFns demoComp (aCond demoExt "a" 1) [(kOr, .or, aCond demoExt "b" 2)] (ascii "a == 1 || b == 2") demoDoc docA1
    (aCond_spec N "a" 1 free_a (by decide) (by decide)) (orB_links N)
    (words_join [ascii "a", kEq, ascii "1", kOr, ascii "b", kEq, ascii "2"] (by decide))
    (by
      intro x hx
      simp only [List.map_cons, List.map_nil, List.mem_cons, List.not_mem_nil, or_false] at hx
      rcases hx with rfl | rfl <;> exact aCond_readable ..) docA1_text (Filter.seen_of_check (by decide +kernel))).2 (by simp)
  have : ((aCond demoExt "a" 1 :: List.map (fun x : Link demoExt => x.2.2) [(kOr, .or, aCond demoExt "b" 2)]).any fun c => c.holds demoFns demoComp docA1) = true := by
    decide +kernel
  rwa [this] at h

open Verif.Match in
/-- `( ( a == 1 OR b == 2 ) AND c == 3 ) OR ( a == 1 AND b == 1 )` does not match `{"a":1}`. -/
example (N : Simple.Env demoExt) :
    Answers N demoFns demoComp (ascii "( ( a == 1 OR b == 2 ) AND c == 3 ) OR ( a == 1 AND b == 1 )") demoDoc false := by
  have htk : (Txt.last (demoGrp demoExt) [] (ascii "OR") .or (.cond (aCond demoExt "a" 1)) [(ascii "AND", .and, aCond demoExt "b" 1)]).toks =
      [ascii "(", ascii "(", ascii "a", kEq, ascii "1", ascii "OR", ascii "b", kEq, ascii "2", ascii ")", ascii "AND", ascii "c", kEq, ascii "3", ascii ")",
       ascii "OR", ascii "(", ascii "a", kEq, ascii "1", ascii "AND", ascii "b", kEq, ascii "1", ascii ")"] := rfl
  have h := C80_groups_partial N demoFns demoComp (demoGrp demoExt) (.cond (aCond demoExt "a" 1)) [(ascii "AND", .and, aCond demoExt "b" 1)] (ascii "OR") .or
    (ascii "( ( a == 1 OR b == 2 ) AND c == 3 ) OR ( a == 1 AND b == 1 )") demoDoc docA1 (demoGrp_spec N) (by simp [connWords])
    (aCond_spec N "a" 1 free_a (by decide) (by decide))
    (by
      intro x hx
      simp only [List.mem_singleton] at hx
      subst hx
      exact ⟨by simp [connWords], aCond_spec N "b" 1 free_b (by decide) (by decide)⟩)
    (by simp; rfl) (by rw [htk]; decide) (by rw [htk]; exact words_join _ (by decide))
    (by
      intro x hx
      simp only [Txt.conds, Grp.conds, demoGrp, List.map_cons, List.map_nil, List.cons_append, List.nil_append, List.append_nil, List.mem_cons,
        List.not_mem_nil, or_false] at hx
      rcases hx with rfl | rfl | rfl | rfl | rfl <;> exact aCond_readable ..) docA1_text (Filter.seen_of_check (by decide +kernel))
  have : Conn.or.truth ((demoGrp demoExt).holds (Cond.holds demoFns demoComp docA1))
      ((Grp.group (.cond (aCond demoExt "a" 1)) [(ascii "AND", .and, aCond demoExt "b" 1)]).holds (Cond.holds demoFns demoComp docA1)) = false := by
    decide +kernel
  rwa [this] at h

end Verif.Simple
