import Verif.Simple.Whole
import Verif.Filter.Anywhere

/-!
# From the text of a simple expression to the verdict, on any document (C80)

As `Simple/Whole.lean`, for every text with a meaning, conditions that compare several fields, and every document.
-/

namespace Verif.Simple
open Verif.FastVal Verif.Expr Verif.Transform
open Verif.Token (D)
open Verif.Match (run Ready Begins)
open Verif.Filter (holdsB OneField differ seenField onSeen onBase lastSeen several_eq oneField_of_differ)

variable {E : Ext}

/-! ### Specification -/

/-- A comparison, on what is seen of the document: of one field if the sides mention one, of several otherwise. -/
def cmpSeen (X : Fns E) (C : Transform.Comp E) (P : List Path) (d : D) (c : Cmp) (a b : Expr E) : Bool :=
  if differ (paths a ++ paths b) then
    let v := onBase (paths a ++ paths b) d fun x =>
      !isGone (lastSeen P (paths a ++ paths b) d x) a && !isGone (lastSeen P (paths a ++ paths b) d x) b &&
        holdsB (if c = .ne then .eq else c) (mVal X C (lastSeen P (paths a ++ paths b) d x) a) (mVal X C (lastSeen P (paths a ++ paths b) d x) b)
    if c = .ne then !v else v
  else onSeen P (paths a ++ paths b) d (decide (c = .ne)) fun v => holdsB c (paramVal X C v a) (paramVal X C v b)

/-- As `Cond.holds`, on what is seen of the document; `P` are the fields of the whole text. -/
def Cond.holdsSeen (X : Fns E) (C : Transform.Comp E) (P : List Path) (d : D) : Cond E → Bool
  | .bin _ a _ .notLike _ b => !cmpSeen X C P d .like a b
  | .bin _ a _ o _ b => cmpSeen X C P d o.cmp a b
  | .un _ a _ .exists => (seenField P (paths a) d).isSome
  | .un _ a _ .missing => !(seenField P (paths a) d).isSome
  | .un _ a _ .null => onSeen P (paths a) d false fun v => holdsB .eq (paramVal X C v a) (.ok ⟨.null, true⟩)
  | .un _ a _ .notNull => onSeen P (paths a) d true fun v => holdsB .ne (paramVal X C v a) (.ok ⟨.null, true⟩)

/-- The condition compares fields none of which contains all others, or tests one field; its pattern compiles. -/
structure Cond.Readable2 (C : Transform.Comp E) (q : Cond E) : Prop where
  apart : Filter.Apart q.fields
  one : q.unary = true → OneField q.fields
  regexp : ∀ l a w o r s, q = .bin l a w o r (.regex (.json (.str s))) → (C.regexp s).isSome
  pcre : ∀ l a w o r s, q = .bin l a w o r (.pcre (.json (.str s))) → (C.pcre s).isSome

/-- The fields that are read. -/
def Cond.reads (q : Cond E) : List Path := if differ q.fields then q.fields else [q.path]

/-- How a chain that starts with the truth value `b` and ends with `f` is read.  With short circuiting, everything after a connective is
read first; otherwise from left to right, except that what follows a test without a right side is read before it is joined. -/
def readTo (H : Cond E → Bool) (s : Bool) (f : Bool → Bool) : Bool → List (Link E) → Bool
  | b, [] => f b
  | b, (_, o, q) :: r => if s || q.unary then o.truth b (readTo H s f (H q) r) else readTo H s f (o.truth b (H q)) r

def Txt.holds (H : Cond E → Bool) (s : Bool) : Txt E → Bool
  | .chain g ls => readTo H s id (g.holds H) ls
  | .last g ls _ o g' ls' => readTo H s (fun b => o.truth b (readTo H s id (g'.holds H) ls')) (g.holds H) ls
  | .whole g ls => readTo H s id (g.holds H) ls

/-! ### Sides -/

theorem atom_mparam (C : Transform.Comp E) {N : Simple.Env E} {a : Atom} {e : Expr E} (h : a.Means N e) : MParam C e := by
  cases h with
  | name n _ => exact rfl
  | int => trivial
  | float => trivial
  | str => trivial

theorem term_mparam (C : Transform.Comp E) {N : Simple.Env E} {t : Term} {e : Expr E} (h : t.Means N e) : MParam C e := by
  induction h with
  | atom a e h => exact atom_mparam C h
  | one k f a e hk _ ih => exact ⟨ih, trivial⟩
  | date q s e h _ => exact ⟨atom_mparam C h, trivial⟩
  | two k f a b e e' hk _ hb _ ih => exact ⟨ih, atom_mparam C hb, trivial⟩

theorem const_mparam (C : Transform.Comp E) {N : Simple.Env E} {t : Str} {e : Expr E} (h : ConstTok N t e) : MParam C e := by
  cases h <;> trivial

theorem left_mparam (C : Transform.Comp E) {N : Simple.Env E} {t : Str} {e : Expr E} (h : LeftMeans N t e) : MParam C e := by
  cases h with
  | name n _ _ => exact rfl
  | call t k e _ h => exact term_mparam C h
  | const t e h => exact const_mparam C h

theorem right_mparam (C : Transform.Comp E) {N : Simple.Env E} {o : Bin} {ts : List Str} {e : Expr E} (h : RightMeans N o ts e)
    (hr : ∀ s, e = .regex (.json (.str s)) → (C.regexp s).isSome) (hp : ∀ s, e = .pcre (.json (.str s)) → (C.pcre s).isSome) : MParam C e := by
  cases h with
  | num n e _ h => exact atom_mparam C h
  | word q s e _ h => exact atom_mparam C h
  | phrase => trivial
  | bool => trivial
  | call t k e _ h => exact term_mparam C h
  | const t e h => exact const_mparam C h
  | regex q s =>
    obtain ⟨r, h⟩ := Option.isSome_iff_exists.1 (hr _ rfl)
    exact ⟨_, r, rfl, h⟩
  | pcre q s =>
    obtain ⟨r, h⟩ := Option.isSome_iff_exists.1 (hp _ rfl)
    exact ⟨_, r, rfl, h⟩
  | numRegex n =>
    obtain ⟨r, h⟩ := Option.isSome_iff_exists.1 (hr _ rfl)
    exact ⟨_, r, rfl, h⟩
  | phraseRegex q f m l =>
    obtain ⟨r, h⟩ := Option.isSome_iff_exists.1 (hr _ rfl)
    exact ⟨_, r, rfl, h⟩

/-! ### Conditions -/

/-- What is needed of the expression of a text. -/
structure Usable2 (C : Transform.Comp E) (e : Expr E) (ps : List Path) : Prop where
  frag : Frag2 C e
  safe : SafeE e
  lf : LoopFree e
  cs : (mConds e).map Prod.fst = ps
  gen : genExprs [e] = [e]

theorem cmp_good2 (X : Fns E) (C : Transform.Comp E) (P : List Path) (d : D) (c : Cmp) {a b : Expr E} (ha : SideOk C a) (hb : SideOk C b)
    (ma : MParam C a) (mb : MParam C b) (hl : Filter.Apart (paths a ++ paths b)) :
    Usable2 C (.cmp c a b) (if differ (paths a ++ paths b) then paths a ++ paths b else [(paths a ++ paths b).head?.getD []]) ∧
      truth2On X C P d (.cmp c a b) = cmpSeen X C P d c a b := by
  cases hd : differ (paths a ++ paths b) with
  | true =>
    have g := Filter.good3_many (X := X) (C := C) (P := P) (d := d) (c := c) (l := a) (r := b) (by rw [several_eq]; exact hd) ma mb (hl hd)
      ha.safe hb.safe rfl
    refine ⟨⟨g.frag, g.safe, g.lf, ?_, rfl⟩, ?_⟩
    · rw [g.cs, if_pos rfl, List.map_map]; simp [Function.comp_def]
    · rw [g.tr, cmpSeen, if_pos hd]
  | false =>
    have h1 := oneField_of_differ hd
    have g := cmp_good X C d c ha hb h1
    have hs : several a b = false := by rw [several_eq]; exact hd
    refine ⟨⟨?_, g.safe, g.lf, ?_, rfl⟩, ?_⟩
    · rw [Frag2, if_neg (by simp [hs])]; exact g.frag
    · rw [mConds, if_neg (by simp [hs])]
      rw [conds, condPath_paths]
      rfl
    · rw [truth2On, if_neg (by simp [hs]), cmpSeen, if_neg (by simp [hd]), condPath_paths, onSeen, seenField]
      cases ((walk ((paths a ++ paths b).head?.getD []) d).filter (visible P ((paths a ++ paths b).head?.getD []))).head? with
      | none => rfl
      | some x => exact Filter.condHolds_eq X C c a b x _ _ (fun _ => rfl) (fun _ => rfl)

theorem Cond.good2 {N : Simple.Env E} (X : Fns E) (C : Transform.Comp E) (P : List Path) (d : D) : ∀ q : Cond E, q.Spec N → q.Readable2 C →
    Usable2 C q.expr q.reads ∧ truth2On X C P d q.expr = q.holdsSeen X C P d
  | .bin l a w o r b, hs, hr => by
    have ha := left_side C hs.1
    have hb := right_side C hs.2.2 (fun s h => hr.regexp l a w o r s (by rw [h])) (fun s h => hr.pcre l a w o r s (by rw [h]))
    have ma := left_mparam C hs.1
    have mb := right_mparam C hs.2.2 (fun s h => hr.regexp l a w o r s (by rw [h])) (fun s h => hr.pcre l a w o r s (by rw [h]))
    have hg := fun c => cmp_good2 X C P d c ha hb ma mb hr.apart
    cases o
    case notLike =>
      obtain ⟨⟨h1, h2, h3, h4, _⟩, h5⟩ := hg .like
      refine ⟨⟨h1, h2, h3, h4, rfl⟩, ?_⟩
      show truth2On X C P d (.not (.cmp .like a b)) = _
      rw [truth2On, h5]
      rfl
    all_goals exact hg _
  | .un l a w o, hs, hr => by
    have ha := left_side C hs.1
    have ma := left_mparam C hs.1
    have hn : SideOk C (.value (.json .null) : Expr E) := ⟨fun _ _ => trivial, trivial⟩
    have hone : OneField (paths a) := hr.one rfl
    have hpn : paths a ++ paths (.value (.json .null) : Expr E) = paths a := by simp [paths]
    have hd : differ (paths a) = false := by
      cases hpa : paths a with
      | nil => rfl
      | cons p ps =>
        rw [differ, List.any_eq_false]
        intro q hq
        rw [hpa] at hone
        simpa using hone q (List.mem_cons_of_mem _ hq)
    have hreads : (Cond.un l a w o).reads = [(paths a).head?.getD []] := by
      rw [Cond.reads, if_neg (by simp [Cond.fields, hd])]; rfl
    rw [hreads]
    have hg := fun c => cmp_good2 X C P d c ha hn ma trivial (by rw [hpn]; exact hr.apart)
    have hcs : ∀ c, cmpSeen X C P d c a (.value (.json .null)) =
        onSeen P (paths a) d (decide (c = .ne)) fun v => holdsB c (paramVal X C v a) (.ok ⟨.null, true⟩) := by
      intro c; rw [cmpSeen, hpn, if_neg (by simp [hd])]; rfl
    rw [hpn, if_neg (by simp [hd])] at hg
    have hsf := condPath_self a
    have hpa := ha.param _ (fun q hq => hone q hq)
    cases o with
    | null => exact ⟨(hg .eq).1, (hg .eq).2.trans (hcs .eq)⟩
    | notNull => exact ⟨(hg .ne).1, (hg .ne).2.trans (hcs .ne)⟩
    | «exists» =>
      refine ⟨⟨?_, ha.safe, trivial, ?_, rfl⟩, ?_⟩
      · show Param C 0 (condPath a a) a
        rw [hsf]; exact hpa
      · show [condPath a a] = _
        rw [hsf]
      · show truth2On X C P d (.exist a) = _
        rw [truth2On, hsf, Cond.holdsSeen, seenField]
        cases (walk ((paths a).head?.getD []) d).filter (visible P ((paths a).head?.getD [])) <;> rfl
    | missing =>
      refine ⟨⟨?_, ha.safe, trivial, ?_, rfl⟩, ?_⟩
      · show Param C 0 (condPath a a) a
        rw [hsf]; exact hpa
      · show [condPath a a] = _
        rw [hsf]
      · show truth2On X C P d (.notExist a) = _
        rw [truth2On, hsf, Cond.holdsSeen, seenField]
        cases (walk ((paths a).head?.getD []) d).filter (visible P ((paths a).head?.getD [])) <;> rfl

/-! ### Texts -/

theorem conn_good2 {C : Transform.Comp E} {ps ps' : List Path} (o : Conn) {a b : Expr E} (ha : Usable2 C a ps) (hb : Usable2 C b ps') :
    Usable2 C (o.expr a b) (ps ++ ps') := by
  have hc : (mConds a ++ (mConds b ++ [])).map Prod.fst = ps ++ ps' := by
    rw [List.append_nil, List.map_append, ha.cs, hb.cs]
  cases o with
  | and => exact ⟨⟨ha.frag, hb.frag⟩, ⟨ha.safe, hb.safe, trivial⟩, ⟨ha.lf, hb.lf, trivial⟩, by simpa [Conn.expr, mConds, mCondsAll] using hc, rfl⟩
  | or => exact ⟨⟨ha.frag, hb.frag⟩, ⟨ha.safe, hb.safe, trivial⟩, ⟨ha.lf, hb.lf, trivial⟩, by simpa [Conn.expr, mConds, mCondsAll] using hc, rfl⟩

theorem buildTo_good2 {C : Transform.Comp E} {pe : List Path} (s : Bool) (f : Expr E → Expr E)
    (hf : ∀ e ps, Usable2 C e ps → Usable2 C (f e) (ps ++ pe)) :
    ∀ (ls : List (Link E)) (acc : Expr E) (ps : List Path), Usable2 C acc ps → (∀ x ∈ ls, Usable2 C x.2.2.expr x.2.2.reads) →
      Usable2 C (buildTo s f acc ls) (ps ++ (ls.flatMap (·.2.2.reads) ++ pe))
  | [], acc, ps, ha, _ => hf acc ps ha
  | (_, o, q) :: r, acc, ps, ha, hl => by
    have hq := hl _ (List.mem_cons_self ..)
    have hr := fun x hx => hl x (List.mem_cons_of_mem _ hx)
    rw [buildTo, List.flatMap_cons]
    split
    · have := conn_good2 o ha (buildTo_good2 s f hf r _ _ hq hr)
      simpa using this
    · have := buildTo_good2 s f hf r _ _ (conn_good2 o ha hq) hr
      simpa using this

theorem build_good2 {C : Transform.Comp E} (s : Bool) (ls : List (Link E)) (acc : Expr E) (ps : List Path) (ha : Usable2 C acc ps)
    (hl : ∀ x ∈ ls, Usable2 C x.2.2.expr x.2.2.reads) : Usable2 C (build s acc ls) (ps ++ ls.flatMap (·.2.2.reads)) := by
  rw [← buildTo_id]
  have := buildTo_good2 (C := C) (pe := []) s id (fun _ _ h => by simpa using h) ls acc ps ha hl
  simpa using this

theorem joinLeft_good2 {C : Transform.Comp E} : ∀ (ls : List (Link E)) (acc : Expr E) (ps : List Path), Usable2 C acc ps →
    (∀ x ∈ ls, Usable2 C x.2.2.expr x.2.2.reads) → Usable2 C (joinLeft acc ls) (ps ++ ls.flatMap (·.2.2.reads))
  | [], _, ps, ha, _ => by simpa [joinLeft] using ha
  | (_, o, _) :: r, _, ps, ha, hl => by
    have := joinLeft_good2 r _ _ (conn_good2 o ha (hl _ (List.mem_cons_self ..))) (fun x hx => hl x (List.mem_cons_of_mem _ hx))
    rw [joinLeft, List.flatMap_cons]
    simpa using this

theorem Grp.good2 {C : Transform.Comp E} : ∀ g : Grp E, (∀ q ∈ g.conds, Usable2 C q.expr q.reads) → Usable2 C g.expr (g.conds.flatMap Cond.reads)
  | .cond q, h => by
    have := h q (List.mem_singleton.2 rfl)
    rw [Grp.conds, List.flatMap_singleton]
    exact this
  | .group g ls, h => by
    have := joinLeft_good2 ls _ _ (Grp.good2 g (fun q hq => h q (List.mem_append_left _ hq)))
      (fun _ hx => h _ (List.mem_append_right _ (List.mem_map_of_mem hx)))
    rw [Grp.conds, List.flatMap_append, List.flatMap_map]
    exact this

theorem Txt.good2 {C : Transform.Comp E} (s : Bool) (t : Txt E) (h : ∀ q ∈ t.conds, Usable2 C q.expr q.reads) :
    Usable2 C (t.expr s) (t.conds.flatMap Cond.reads) := by
  have part : ∀ (g : Grp E) (ls : List (Link E)), (∀ q ∈ g.conds ++ ls.map (·.2.2), Usable2 C q.expr q.reads) →
      Usable2 C g.expr (g.conds.flatMap Cond.reads) ∧ ∀ x ∈ ls, Usable2 C x.2.2.expr x.2.2.reads := fun g ls h =>
    ⟨Grp.good2 g (fun q hq => h q (List.mem_append_left _ hq)), fun x hx => h _ (List.mem_append_right _ (List.mem_map_of_mem hx))⟩
  have one : ∀ (g : Grp E) (ls : List (Link E)), (∀ q ∈ g.conds ++ ls.map (·.2.2), Usable2 C q.expr q.reads) →
      Usable2 C (build s g.expr ls) ((g.conds ++ ls.map (·.2.2)).flatMap Cond.reads) := by
    intro g ls h
    rw [List.flatMap_append, List.flatMap_map]
    exact build_good2 s ls _ _ (part g ls h).1 (part g ls h).2
  cases t with
  | chain g ls => exact one g ls h
  | whole g ls => exact one g ls h
  | last g ls w o g' ls' =>
    obtain ⟨h1, h2⟩ := part g ls (fun q hq => h q (List.mem_append_left _ hq))
    have h3 := one g' ls' (fun q hq => h q (List.mem_append_right _ hq))
    have := buildTo_good2 s (fun e => o.expr e (build s g'.expr ls')) (fun e _ he => conn_good2 o he h3) ls _ _ h1 h2
    rw [Txt.conds, List.flatMap_append, List.flatMap_append (xs := g.conds), List.flatMap_map, List.append_assoc]
    exact this

/-! ### Truth -/

theorem truth_seen (X : Fns E) (C : Transform.Comp E) (P : List Path) (d : D) : Truth fun e => truth2On X C P d e :=
  ⟨fun a b => by simp [truth2On, truth2OnAll], fun a b => by simp [truth2On, truth2OnAny]⟩

theorem buildTo_read (T : Expr E → Bool) (hT : Truth T) (H : Cond E → Bool) (s : Bool) (f : Expr E → Expr E) (k : Bool → Bool)
    (hf : ∀ e, T (f e) = k (T e)) : ∀ (ls : List (Link E)) (acc : Expr E), (∀ x ∈ ls, T x.2.2.expr = H x.2.2) →
      T (buildTo s f acc ls) = readTo H s k (T acc) ls
  | [], acc, _ => hf acc
  | (_, o, q) :: r, acc, h => by
    have hq : T q.expr = H q := h _ (List.mem_cons_self ..)
    have hr := fun x hx => h x (List.mem_cons_of_mem _ hx)
    rw [buildTo, readTo]
    split
    · rw [Conn.expr_truth T hT, buildTo_read T hT H s f k hf r q.expr hr, hq]
    · rw [buildTo_read T hT H s f k hf r _ hr, Conn.expr_truth T hT, hq]

theorem Txt.read (T : Expr E → Bool) (hT : Truth T) (H : Cond E → Bool) (s : Bool) (t : Txt E) (h : ∀ q ∈ t.conds, T q.expr = H q) :
    T (t.expr s) = t.holds H s := by
  have one : ∀ (g : Grp E) (ls : List (Link E)), (∀ q ∈ g.conds ++ ls.map (·.2.2), T q.expr = H q) →
      T (build s g.expr ls) = readTo H s id (g.holds H) ls := by
    intro g ls h
    rw [← buildTo_id, buildTo_read T hT H s id id (fun _ => rfl) ls _ (fun x hx => h _ (List.mem_append_right _ (List.mem_map_of_mem hx))),
      Grp.expr_truth T hT, Grp.truth_holds g fun q hq => h q (List.mem_append_left _ hq)]
  cases t with
  | chain g ls => exact one g ls h
  | whole g ls => exact one g ls h
  | last g ls w o g' ls' =>
    have h3 := one g' ls' (fun q hq => h q (List.mem_append_right _ hq))
    rw [Txt.expr, buildTo_read T hT H s _ (fun b => o.truth b (readTo H s id (g'.holds H) ls'))
      (fun e => by rw [Conn.expr_truth T hT, h3]) ls _
      (fun x hx => h _ (List.mem_append_left _ (List.mem_append_right _ (List.mem_map_of_mem hx)))),
      Grp.expr_truth T hT, Grp.truth_holds g fun q hq => h q (List.mem_append_left _ (List.mem_append_left _ hq))]
    rfl

theorem Txt.conds_spec {N : Simple.Env E} {s : Bool} (t : Txt E) (h : t.Spec N s) : ∀ q ∈ t.conds, q.Spec N := by
  have one : ∀ (g : Grp E) (ls : List (Link E)), g.Spec N s → LinksSpec N ls → ∀ q ∈ g.conds ++ ls.map (·.2.2), q.Spec N := by
    intro g ls hg hls q hq
    rcases List.mem_append.1 hq with hq | hq
    · exact Grp.conds_spec g hg q hq
    · obtain ⟨y, hy, rfl⟩ := List.mem_map.1 hq; exact (hls y hy).2
  cases t with
  | chain g ls => exact one g ls h.1 h.2
  | whole g ls => exact one g ls h.1 h.2
  | last g ls w o g' ls' =>
    intro q hq
    rcases List.mem_append.1 hq with hq | hq
    · exact one g ls h.1 h.2.1 q hq
    · exact one g' ls' h.2.2.2.1 h.2.2.2.2 q hq

/-- C80 on any document, for every text whose parentheses are at places where they are understood: the answer is the truth of the
conditions on what is seen of the document, joined as `Txt.holds` says (which is not "and" before "or", see `C80_negation`). -/
theorem C80_anywhere (N : Simple.Env E) (X : Fns E) (C : Transform.Comp E) (t : Txt E) (text : Str) (data : List Nat) (d : D)
    (ht : t.Spec N (decide (OneSymbol t.toks))) (hw : Words t.toks text) (hr : ∀ q ∈ t.conds, q.Readable2 C) (hd : Begins data d) :
    Answers N X C text data (t.holds (Cond.holdsSeen X C (t.conds.flatMap Cond.reads) d) (decide (OneSymbol t.toks))) := by
  have hg := fun q hq => Cond.good2 (N := N) X C (t.conds.flatMap Cond.reads) d q (t.conds_spec ht q hq) (hr q hq)
  have hu := t.good2 (decide (OneSymbol t.toks)) fun q hq => (hg q hq).1
  have hp := C61_partial N t text ht hw
  have h1 : ∀ {Q : Expr E → Prop}, Q (t.expr (decide (OneSymbol t.toks))) → ∀ x ∈ [t.expr (decide (OneSymbol t.toks))], Q x :=
    fun h x hx => List.mem_singleton.1 hx ▸ h
  obtain ⟨df, h2, h3⟩ := C84_loopFree X (C := C) (slot0 := 0) hu.gen (h1 hu.frag) (h1 hu.lf) (h1 hu.safe) hd
  refine ⟨_, df, hp, h2, fun m hm => ?_⟩
  obtain ⟨m', h⟩ := h3 m hm
  refine ⟨m', ?_⟩
  rw [h]
  have hP : pathsOf2 [t.expr (decide (OneSymbol t.toks))] = t.conds.flatMap Cond.reads := by
    rw [pathsOf2, mCondsOf, List.flatMap_singleton]; exact hu.cs
  rw [hP, List.any_cons, List.any_nil, Bool.or_false,
    t.read _ (truth_seen X C (t.conds.flatMap Cond.reads) d) _ _ fun q hq => (hg q hq).2]

theorem aCond_readable2 (C : Transform.Comp E) (s : String) (n : Nat) : (aCond E s n).Readable2 C :=
  ⟨fun h => by simp [aCond, Cond.fields, paths, differ] at h, fun h => by simp [aCond, Cond.unary] at h,
    fun _ _ _ _ _ _ h => by simp [aCond] at h, fun _ _ _ _ _ _ h => by simp [aCond] at h⟩

/-- The hypotheses, on `{"a":[]}`: `a == 1 || b == 2` is false there. -/
example (N : Simple.Env demoExt) : Answers N Verif.Match.demoFns demoComp (ascii "a == 1 || b == 2") textAE false := by
  have htk : (Txt.chain (.cond (aCond demoExt "a" 1)) [(kOr, .or, aCond demoExt "b" 2)]).toks =
      [ascii "a", kEq, ascii "1", kOr, ascii "b", kEq, ascii "2"] := rfl
  have hone : decide (OneSymbol (Txt.chain (.cond (aCond demoExt "a" 1)) [(kOr, .or, aCond demoExt "b" 2)]).toks) = true := by rw [htk]; decide
  have h := C80_anywhere N Verif.Match.demoFns demoComp (.chain (.cond (aCond demoExt "a" 1)) [(kOr, .or, aCond demoExt "b" 2)])
    (ascii "a == 1 || b == 2") textAE docAE ⟨aCond_spec N "a" 1 free_a (by decide) (by decide), orB_links N⟩
    (by rw [htk]; exact words_join [ascii "a", kEq, ascii "1", kOr, ascii "b", kEq, ascii "2"] (by decide))
    (by
      intro x hx
      simp only [Txt.conds, Grp.conds, List.map_cons, List.map_nil, List.cons_append, List.nil_append, List.mem_cons, List.not_mem_nil, or_false] at hx
      rcases hx with rfl | rfl <;> exact aCond_readable2 ..) docAE_text
  rw [hone] at h
  have e : (Txt.chain (.cond (aCond demoExt "a" 1)) [(kOr, .or, aCond demoExt "b" 2)]).holds (Cond.holdsSeen Verif.Match.demoFns demoComp
    ((Txt.chain (.cond (aCond demoExt "a" 1)) [(kOr, .or, aCond demoExt "b" 2)]).conds.flatMap Cond.reads) docAE) true = false := by decide +kernel
  rwa [e] at h

/-- `b == 2 AND c == 3`, then `w` for "or", then `a == 1`. -/
def sameMeaning (w : Str) : Txt demoExt := .chain (.cond (aCond demoExt "b" 2)) [(ascii "AND", .and, aCond demoExt "c" 3), (w, .or, aCond demoExt "a" 1)]

theorem sameMeaning_answers (N : Simple.Env demoExt) (w text : Str) (hc : (w, Conn.or) ∈ connWords) (ht : Words (sameMeaning w).toks text) :
    Answers N Verif.Match.demoFns demoComp text Verif.Match.demoDoc ((sameMeaning w).holds (Cond.holdsSeen Verif.Match.demoFns demoComp
      ((sameMeaning w).conds.flatMap Cond.reads) docA1) (decide (OneSymbol (sameMeaning w).toks))) :=
  C80_anywhere N Verif.Match.demoFns demoComp (sameMeaning w) text Verif.Match.demoDoc docA1
    ⟨aCond_spec N "b" 2 free_b (by decide) (by decide), by
      intro x hx
      simp only [List.mem_cons, List.not_mem_nil, or_false] at hx
      rcases hx with rfl | rfl
      · exact ⟨by simp [connWords], aCond_spec N "c" 3 free_c (by decide) (by decide)⟩
      · exact ⟨hc, aCond_spec N "a" 1 free_a (by decide) (by decide)⟩⟩ ht
    (by
      intro x hx
      simp only [sameMeaning, Txt.conds, Grp.conds, List.map_cons, List.map_nil, List.cons_append, List.nil_append, List.mem_cons, List.not_mem_nil,
        or_false] at hx
      rcases hx with rfl | rfl | rfl <;> exact aCond_readable2 ..) docA1_text

/-- `OR` and `||` do not mean the same: `b == 2 AND c == 3 OR a == 1` matches `{"a":1}`, `b == 2 AND c == 3 || a == 1` does not. -/
theorem C80_synonyms (N : Simple.Env demoExt) :
    Answers N Verif.Match.demoFns demoComp (ascii "b == 2 AND c == 3 OR a == 1") Verif.Match.demoDoc true ∧
    Answers N Verif.Match.demoFns demoComp (ascii "b == 2 AND c == 3 || a == 1") Verif.Match.demoDoc false := by
  have k1 : (sameMeaning (ascii "OR")).toks =
    [ascii "b", kEq, ascii "2", ascii "AND", ascii "c", kEq, ascii "3", ascii "OR", ascii "a", kEq, ascii "1"] := rfl
  have k2 : (sameMeaning kOr).toks = [ascii "b", kEq, ascii "2", ascii "AND", ascii "c", kEq, ascii "3", kOr, ascii "a", kEq, ascii "1"] := rfl
  constructor
  · have h := sameMeaning_answers N (ascii "OR") (ascii "b == 2 AND c == 3 OR a == 1") (by simp [connWords])
      (by rw [k1]; exact words_join [ascii "b", kEq, ascii "2", ascii "AND", ascii "c", kEq, ascii "3", ascii "OR", ascii "a", kEq, ascii "1"] (by decide))
    have hs : decide (OneSymbol (sameMeaning (ascii "OR")).toks) = false := by rw [k1]; decide
    rw [hs] at h
    have e : (sameMeaning (ascii "OR")).holds (Cond.holdsSeen Verif.Match.demoFns demoComp ((sameMeaning (ascii "OR")).conds.flatMap Cond.reads) docA1)
      false = true := by decide +kernel
    rwa [e] at h
  · have h := sameMeaning_answers N kOr (ascii "b == 2 AND c == 3 || a == 1") (by simp [connWords])
      (by rw [k2]; exact words_join [ascii "b", kEq, ascii "2", ascii "AND", ascii "c", kEq, ascii "3", kOr, ascii "a", kEq, ascii "1"] (by decide))
    have hs : decide (OneSymbol (sameMeaning kOr).toks) = true := by rw [k2]; decide
    rw [hs] at h
    have e : (sameMeaning kOr).holds (Cond.holdsSeen Verif.Match.demoFns demoComp ((sameMeaning kOr).conds.flatMap Cond.reads) docA1)
      true = false := by decide +kernel
    rwa [e] at h

end Verif.Simple
