import Verif.Transform.ReachElemSem

/-!
# Loops whose bodies store values, on any document

The decisions a node takes if the outcomes of its loops are given (`val`); `Carry.lean` shows that the matcher takes them.
-/

namespace Verif.Transform
open Verif.FastVal Verif.Match Verif.Expr
open Verif.Token (D Es Ms Tok)
open Verif.BinTree (Sh K UnOp BinOp)

variable {E : Ext}

/-- The outcome of the loop with a bucket, mode and body over the elements of an array. -/
abbrev Vals (E : Ext) := Nat → Mode → Exec E → Es → Bool

/-- The decisions of the loops over an array. -/
def gLoops (val : Vals E) (xs : Es) : Loops E → Marks
  | .nil => []
  | .cons b m _ e rest => (b, val b m e xs) :: gLoops val xs rest

/-- As `dArr`, with the given outcomes of the loops. -/
def gArr (val : Vals E) (X : Fns E) (rec : DRec E) (sh : Nat → Sh) (r : D) (store : Nat) (elems : Elems E) (ops : List (Op E)) (loops : Loops E)
    (after : After E) (ws : List Nat) (es : Es) (σ : Slots) : Res (Marks × Slots) :=
  let k := dOpsThen X rec sh r ops store after (.arr ws es)
  if loops.isEmpty then
    match es with
    | .nil => .ok ([], σ)
    | _ => dElems rec elems 0 es σ >>= fun a => andThen a k
  else andThen (gLoops val es loops, σ) k

/-- As `dExec`, with the given outcomes of the loops. -/
def gExec (val : Vals E) (X : Fns E) (sh : Nat → Sh) (r : D) : Nat → DRec E
  | 0 => fun _ _ _ => .stuck
  | h + 1 => fun node d σ =>
    match node with
    | .mk store elems ops loops after =>
      match d with
      | .lit _ _ => dOpsThen X (gExec val X sh r h) sh r ops store after d σ
      | .obj ws ms => dObj X (gExec val X sh r h) sh r store elems ops after ws ms σ
      | .arr ws es => gArr val X (gExec val X sh r h) sh r store elems ops loops after ws es σ

/-- As `itemMarks`, with the given outcomes of the loops. -/
def gItem (val : Vals E) (X : Fns E) (r : D) (it : Item E) (x : D) (σ : Slots) : Res Marks :=
  match it with
  | .op o => valOf x >>= fun v => opResult X (slotVal r σ) (some v) o >>= fun q => .ok [(o.bucket, q.1)]
  | .loop b m _ body => .ok (match x with
    | .arr _ es => [(b, val b m body es)]
    | _ => [])
  | _ => .panic

/-- As `DecidesR`, with the given outcomes of the loops. -/
def DecidesG (val : Vals E) (X : Fns E) (r : D) (i : Nat) (n : Exec E) (d : D) (l : Marks) : Prop :=
  (withBucket i (items n) = [] → sel i l = []) ∧
  (∀ p it, withBucket i (items n) = [(p, it)] → Direct it → ∀ f : D → Marks,
    (∀ x σ l, gItem val X r it x σ = .ok l → l = f x) → sel i l = (reach (isLoop it) (kinds n) p d).flatMap f)

def RecG (val : Vals E) (X : Fns E) (r : D) (rec : DRec E) : Prop :=
  ∀ n d σ a i, rec n d σ = .ok a → n.Tidy → n.Full → DecidesG val X r i n d a.1

section
variable {val : Vals E} {X : Fns E} {sh : Nat → Sh} {r : D}

theorem gItem_of_op {i : Nat} {ops : List (Op E)} {p : Path} {it : Item E}
    (h : withBucket i (ops.map (fun o => (([] : Path), Item.op o))) = [(p, it)]) {d : D} {σ : Slots} {l : Marks}
    (hm : itemMarks X sh r 0 it d σ = .ok l) : gItem val X r it d σ = .ok l := by
  obtain ⟨o, _, rfl, rfl⟩ := ops_item h
  exact hm

theorem gItem_not_arr {b : Nat} {m : Mode} {t : Option (Ref E)} {e : Exec E} {d : D} {σ : Slots} (h : ¬ IsArr d) :
    gItem val X r (.loop b m t e) d σ = .ok [] := by
  cases d with
  | arr ws es => exact absurd trivial h
  | lit => rfl
  | obj => rfl

variable (val)

theorem gLoops_sel_none {xs : Es} {i : Nat} : ∀ {ls : Loops E}, withBucket i (loopItems .loop ls) = [] → sel i (gLoops val xs ls) = []
  | .nil, _ => rfl
  | .cons b m t e ls, hn => by
    rw [loopItems, withBucket, List.filter_cons] at hn
    have hb : b ≠ i := by
      intro hb; simp [Item.bucket, hb] at hn
    rw [if_neg (by simp [Item.bucket, hb])] at hn
    rw [gLoops, sel, List.filter_cons, if_neg (by simpa using hb)]
    exact gLoops_sel_none hn

theorem gLoops_sel_one {xs : Es} {i : Nat} {x : Path × Item E} : ∀ (ls : Loops E), withBucket i (loopItems .loop ls) = [x] →
    ∃ m t e, x = ([], .loop i m t e) ∧ sel i (gLoops val xs ls) = [(i, val i m e xs)]
  | .nil, hn => by simp [loopItems, withBucket] at hn
  | .cons b m t e ls, hn => by
    rw [loopItems, withBucket, List.filter_cons] at hn
    by_cases hb : b = i
    · subst hb
      rw [if_pos (by simp [Item.bucket])] at hn
      have h1 := (List.cons.inj hn).1
      have h2 := (List.cons.inj hn).2
      refine ⟨m, t, e, h1.symm, ?_⟩
      have := gLoops_sel_none val (xs := xs) (i := b) (ls := ls) h2
      rw [gLoops, sel, List.filter_cons, if_pos (by simp)]
      rw [sel] at this
      rw [this]
    · rw [if_neg (by simp [Item.bucket, hb])] at hn
      obtain ⟨m', t', e', h1, h2⟩ := gLoops_sel_one ls hn
      refine ⟨m', t', e', h1, ?_⟩
      rw [gLoops, sel, List.filter_cons, if_neg (by simpa using hb)]
      exact h2

end

section
variable (val : Vals E) (X : Fns E) (sh : Nat → Sh) (r : D)

theorem gMembers_none {rec : DRec E} (hrec : RecG val X r rec) {es : Elems E} (ht : es.Tidy) (hfu : es.Full) {i : Nat}
    (hn : withBucket i (itemsE es) = []) : ∀ (ms : Ms) (σ : Slots) (a : Marks × Slots), dMembers rec es ms σ = .ok a → sel i a.1 = []
  | .nil, σ, a, h => by cases h; rfl
  | .cons kty key _ _ d _ _ rest, σ, a, h => by
    rw [dMembers] at h
    obtain ⟨k, hk, h⟩ := Res.bind_eq_ok.1 h
    split at h
    · rename_i e he
      obtain ⟨b, hb, h⟩ := Res.bind_eq_ok.1 h
      obtain ⟨c, hcc, h1, _⟩ := andThen_marks h
      rw [h1, sel_append, gMembers_none hrec ht hfu hn rest b.2 c hcc]
      rw [(hrec e d σ b i hb (Elems.Tidy.find ht he) (Elems.Full.find hfu he)).1
        (itemsE_none hn k e he)]
      rfl
    · exact gMembers_none hrec ht hfu hn rest σ a h

theorem gMembers_one {rec : DRec E} (hrec : RecG val X r rec) {es : Elems E} (ht : es.Tidy) (hfu : es.Full) {i : Nat}
    {k p : _} {it : Item E} (hx : withBucket i (itemsE es) = [(k :: p, it)]) (hd : Direct it) {f : D → Marks}
    (hf : ∀ x σ l, gItem val X r it x σ = .ok l → l = f x) {e : Exec E} (he : es.find k = some e) :
    ∀ (ms : Ms) (σ : Slots) (a : Marks × Slots), dMembers rec es ms σ = .ok a →
    sel i a.1 = ((membersAt k ms).flatMap (reach (isLoop it) (kinds e) p)).flatMap f
  | .nil, σ, a, h => by cases h; rfl
  | .cons kty key _ _ d _ _ rest, σ, a, h => by
    rw [dMembers] at h
    obtain ⟨k', hk, h⟩ := Res.bind_eq_ok.1 h
    have hk' := memberKey_ok hk
    obtain ⟨k1, p1, e1, q1, q2, q3, q4⟩ := itemsE_find ht hx
    simp only [List.cons.injEq] at q1
    obtain ⟨rfl, rfl⟩ := q1
    have : e1 = e := by rw [q2] at he; cases he; rfl
    subst this
    by_cases hkk : k' = k
    · subst hkk
      rw [q2] at h
      simp only at h
      obtain ⟨b, hb, h⟩ := Res.bind_eq_ok.1 h
      obtain ⟨c, hcc, h1, _⟩ := andThen_marks h
      rw [membersAt, if_pos hk', List.flatMap_cons, h1, sel_append, List.flatMap_append]
      rw [gMembers_one hrec ht hfu hx hd hf he rest b.2 c hcc]
      rw [(hrec e1 d σ b i hb (Elems.Tidy.find ht q2) (Elems.Full.find hfu q2)).2 p it q3 hd f hf]
    · rw [membersAt, if_neg (by rw [hk']; exact hkk)]
      split at h
      · rename_i e' he'
        obtain ⟨b, hb, h⟩ := Res.bind_eq_ok.1 h
        obtain ⟨c, hcc, h1, _⟩ := andThen_marks h
        rw [h1, sel_append, gMembers_one hrec ht hfu hx hd hf he rest b.2 c hcc]
        rw [(hrec e' d σ b i hb (Elems.Tidy.find ht he') (Elems.Full.find hfu he')).1
          (q4 k' e' hkk he')]
        rfl
      · exact gMembers_one hrec ht hfu hx hd hf he rest σ a h

theorem gElems_none {rec : DRec E} (hrec : RecG val X r rec) {es : Elems E} (ht : es.Tidy) (hfu : es.Full) {i : Nat}
    (hn : withBucket i (itemsE es) = []) : ∀ (xs : Es) (j : Nat) (σ : Slots) (a : Marks × Slots), dElems rec es j xs σ = .ok a → sel i a.1 = []
  | .nil, j, σ, a, h => by cases h; rfl
  | .cons d _ _ rest, j, σ, a, h => by
    rw [dElems] at h
    obtain ⟨_, _, h⟩ := Res.bind_eq_ok.1 h
    split at h
    · rename_i e he
      obtain ⟨b, hb, h⟩ := Res.bind_eq_ok.1 h
      obtain ⟨c, hcc, h1, _⟩ := andThen_marks h
      rw [h1, sel_append, gElems_none hrec ht hfu hn rest (j + 1) b.2 c hcc]
      rw [(hrec e d σ b i hb (Elems.Tidy.find ht he) (Elems.Full.find hfu he)).1
        (itemsE_none hn _ e he)]
      rfl
    · exact gElems_none hrec ht hfu hn rest (j + 1) σ a h

theorem gElems_one {rec : DRec E} (hrec : RecG val X r rec) {es : Elems E} (ht : es.Tidy) (hfu : es.Full) {i : Nat}
    {k p : _} {it : Item E} (hx : withBucket i (itemsE es) = [(k :: p, it)]) (hd : Direct it) {f : D → Marks}
    (hf : ∀ x σ l, gItem val X r it x σ = .ok l → l = f x) {e : Exec E} (he : es.find k = some e) :
    ∀ (xs : Es) (j : Nat) (σ : Slots) (a : Marks × Slots), dElems rec es j xs σ = .ok a →
    sel i a.1 = ((elemsAt k j xs).flatMap (reach (isLoop it) (kinds e) p)).flatMap f
  | .nil, j, σ, a, h => by cases h; rfl
  | .cons d _ _ rest, j, σ, a, h => by
    rw [dElems] at h
    obtain ⟨_, _, h⟩ := Res.bind_eq_ok.1 h
    obtain ⟨k1, p1, e1, q1, q2, q3, q4⟩ := itemsE_find ht hx
    simp only [List.cons.injEq] at q1
    obtain ⟨rfl, rfl⟩ := q1
    have : e1 = e := by rw [q2] at he; cases he; rfl
    subst this
    by_cases hkk : indexKey j = k
    · subst hkk
      rw [q2] at h
      simp only at h
      obtain ⟨b, hb, h⟩ := Res.bind_eq_ok.1 h
      obtain ⟨c, hcc, h1, _⟩ := andThen_marks h
      rw [elemsAt, if_pos rfl, List.flatMap_cons, h1, sel_append, List.flatMap_append]
      rw [gElems_one hrec ht hfu hx hd hf he rest (j + 1) b.2 c hcc]
      rw [(hrec e1 d σ b i hb (Elems.Tidy.find ht q2) (Elems.Full.find hfu q2)).2 p it q3 hd f hf]
    · rw [elemsAt, if_neg hkk]
      split at h
      · rename_i e' he'
        obtain ⟨b, hb, h⟩ := Res.bind_eq_ok.1 h
        obtain ⟨c, hcc, h1, _⟩ := andThen_marks h
        rw [h1, sel_append, gElems_one hrec ht hfu hx hd hf he rest (j + 1) b.2 c hcc]
        rw [(hrec e' d σ b i hb (Elems.Tidy.find ht he') (Elems.Full.find hfu he')).1
          (q4 _ e' hkk he')]
        rfl
      · exact gElems_one hrec ht hfu hx hd hf he rest (j + 1) σ a h

/-- The node's own operations and loops on a value that is noticed and not an array. -/
theorem opsThen_decidesG {rec : DRec E} {st : Nat} {es : Elems E} {ops : List (Op E)} {ls : Loops E} {a : After E} {d : D} {σ : Slots}
    {c : Marks × Slots} {i : Nat} (h : dOpsThen X rec sh r ops st a d σ = .ok c) (hna : ¬ IsArr d)
    (hs : noticed (kinds (.mk st es ops ls a)) d = true) (hw : ∀ loop k p, itemsE es ≠ [] → reach loop (kinds (.mk st es ops ls a)) (k :: p) d = []) :
    DecidesG val X r i (.mk st es ops ls a) d c.1 := by
  have hitems := items_bucket i st es ops ls a
  refine ⟨fun h0 => ?_, fun p it h1 hd f hf => ?_⟩
  · rw [hitems] at h0
    obtain ⟨h1, h0⟩ := List.append_eq_nil_iff.1 h0
    obtain ⟨_, h0⟩ := List.append_eq_nil_iff.1 h0
    obtain ⟨_, h4⟩ := List.append_eq_nil_iff.1 h0
    exact (dOpsThen_sel X sh r h h4).1 h1
  · rw [hitems] at h1
    rcases four_one h1 with ⟨q1, q2, q3, q4⟩ | ⟨q1, q2, q3, q4⟩ | ⟨q1, q2, q3, q4⟩ | ⟨q1, q2, q3, q4⟩
    · obtain ⟨e1, e2⟩ := (dOpsThen_sel X sh r h q4).2 _ q1
      simp only at e1; subst e1
      rw [hf d σ _ (gItem_of_op q1 (e2 0))]; simp [reach, hs]
    · have hm : (p, it) ∈ withBucket i (itemsE es) := by rw [q2]; exact List.mem_singleton.2 rfl
      obtain ⟨k, p', e1⟩ := opsThen_decides.mem_itemsE_cons es (mem_withBucket.1 hm).1
      simp only at e1; subst e1
      rw [hw _ k p' (by intro h0; rw [h0] at q2; simp [withBucket] at q2), List.flatMap_nil]
      exact (dOpsThen_sel X sh r h q4).1 q1
    · obtain ⟨m, t, e, he⟩ := loop_item q3
      cases he
      have := hf d σ _ (gItem_not_arr hna)
      rw [(dOpsThen_sel X sh r h q4).1 q1]
      simp [reach, hs, ← this]
    · exact absurd hd (after_direct q4)

theorem dObj_decidesG {rec : DRec E} (hrec : RecG val X r rec) {st : Nat} {es : Elems E} {ops : List (Op E)} {ls : Loops E} {a : After E}
    {ws : List Nat} {ms : Ms} {σ : Slots} {c : Marks × Slots} {i : Nat} (h : dObj X rec sh r st es ops a ws ms σ = .ok c)
    (ht : es.Tidy) (hfu : es.Full) :
    DecidesG val X r i (.mk st es ops ls a) (.obj ws ms) c.1 := by
  rw [dObj] at h
  have hmb := moreBelow_kinds (st := st) (ops := ops) (ls := ls) (a := a) hfu
  by_cases hemp : es.isEmpty = true
  · simp only [hemp, if_true] at h
    have := nil_of_isEmpty hemp
    subst this
    refine opsThen_decidesG val X sh r h (by exact id) ?_ (fun _ k p hne => absurd rfl hne)
    cases ms with
    | nil => rw [noticed, hmb]; rfl
    | cons => rfl
  · simp only [hemp, Bool.false_eq_true, if_false] at h
    obtain ⟨b, hb, h⟩ := Res.bind_eq_ok.1 h
    obtain ⟨l, hl, h⟩ := Res.bind_eq_ok.1 h
    have hitems := items_bucket i st es ops ls a
    have hsub : ∀ loop k e p, es.find k = some e → reach loop (kinds e) p = reach loop (below k (kinds (.mk st es ops ls a))) p :=
      fun loop k e p he => funext fun d => reach_congr (kinds_child ht he) p d
    cases ms with
    | nil =>
      cases hb
      cases h
      refine ⟨fun h0 => ?_, fun p it h1 hd f hf => ?_⟩
      · rw [hitems] at h0
        obtain ⟨h1, h0⟩ := List.append_eq_nil_iff.1 h0
        obtain ⟨_, h0⟩ := List.append_eq_nil_iff.1 h0
        obtain ⟨_, h4⟩ := List.append_eq_nil_iff.1 h0
        exact dAfter_sel_none X sh r hl h4
      · rw [hitems] at h1
        rcases four_one h1 with ⟨q1, q2, q3, q4⟩ | ⟨q1, q2, q3, q4⟩ | ⟨q1, q2, q3, q4⟩ | ⟨q1, q2, q3, q4⟩
        · obtain ⟨o, _, rfl, rfl⟩ := ops_item q1
          rw [reach, noticed, hmb]
          simp only [hemp, isLoop]
          exact dAfter_sel_none X sh r hl q4
        · obtain ⟨k, p', e, rfl, he⟩ := key_item ht q2
          simp only [reach, membersAt, List.flatMap_nil, List.nil_append]
          exact dAfter_sel_none X sh r hl q4
        · obtain ⟨m, t, e, he⟩ := loop_item q3
          cases he
          have := hf (.obj ws .nil) σ [] (gItem_not_arr (by intro h; exact h))
          simp only [List.nil_append]
          rw [dAfter_sel_none X sh r hl q4]
          simp [reach, isLoop, ← this]
        · exact absurd hd (after_direct q4)
    | cons kty key k1 k2 v w1 w2 rest =>
      obtain ⟨b', hb', h1, _⟩ := andThen_marks h
      refine ⟨fun h0 => ?_, fun p it h1' hd f hf => ?_⟩
      · rw [hitems] at h0
        obtain ⟨z1, h0⟩ := List.append_eq_nil_iff.1 h0
        obtain ⟨z2, h0⟩ := List.append_eq_nil_iff.1 h0
        obtain ⟨_, z4⟩ := List.append_eq_nil_iff.1 h0
        rw [h1]
        simp only [sel_append]
        rw [gMembers_none val X r hrec ht hfu z2 _ _ _ hb, dAfter_sel_none X sh r hl z4, (dOpsThen_sel X sh r hb' z4).1 z1]
        rfl
      · rw [hitems] at h1'
        rw [h1]
        simp only [sel_append]
        rcases four_one h1' with ⟨q1, q2, q3, q4⟩ | ⟨q1, q2, q3, q4⟩ | ⟨q1, q2, q3, q4⟩ | ⟨q1, q2, q3, q4⟩
        · rw [gMembers_none val X r hrec ht hfu q2 _ _ _ hb, dAfter_sel_none X sh r hl q4]
          obtain ⟨e1, e2⟩ := (dOpsThen_sel X sh r hb' q4).2 _ q1
          simp only at e1; subst e1
          rw [hf _ _ _ (gItem_of_op q1 (e2 0))]
          simp [reach, noticed]
        · rw [dAfter_sel_none X sh r hl q4, (dOpsThen_sel X sh r hb' q4).1 q1]
          obtain ⟨k, p', e, rfl, he⟩ := key_item ht q2
          rw [gMembers_one val X r hrec ht hfu q2 hd hf he _ _ _ hb, hsub _ _ _ _ he]
          simp [reach]
        · rw [gMembers_none val X r hrec ht hfu q2 _ _ _ hb, dAfter_sel_none X sh r hl q4, (dOpsThen_sel X sh r hb' q4).1 q1]
          obtain ⟨m, t, e, he⟩ := loop_item q3
          cases he
          have := hf (.obj ws (.cons kty key k1 k2 v w1 w2 rest)) σ [] (gItem_not_arr (by intro h; exact h))
          simp [reach, isLoop, ← this]
        · exact absurd hd (after_direct q4)

theorem gArr_decides {rec : DRec E} (hrec : RecG val X r rec) {st : Nat} {es : Elems E}
    {ops : List (Op E)} {ls : Loops E} {a : After E} {ws : List Nat} {xs : Es} {σ : Slots} {c : Marks × Slots} {i : Nat}
    (h : gArr val X rec sh r st es ops ls a ws xs σ = .ok c) (ht : es.Tidy) (hfu : es.Full)
    :
    DecidesG val X r i (.mk st es ops ls a) (.arr ws xs) c.1 := by
  have hlh := loopHere_kinds (st := st) (es := es) (ops := ops) (ls := ls) (a := a)
  have hitems := items_bucket i st es ops ls a
  have hsub : ∀ loop k e p, es.find k = some e → reach loop (kinds e) p = reach loop (below k (kinds (.mk st es ops ls a))) p :=
    fun loop k e p he => funext fun d => reach_congr (kinds_child ht he) p d
  rw [gArr.eq_def] at h
  by_cases hemp : ls.isEmpty = true
  · simp only [hemp, if_true] at h
    have hls := loops_nil_of_isEmpty hemp
    subst hls
    cases xs with
    | nil =>
      cases h
      refine ⟨fun _ => rfl, fun p it h1 hd f hf => ?_⟩
      rw [hitems] at h1
      rcases four_one h1 with ⟨q1, q2, q3, q4⟩ | ⟨q1, q2, q3, q4⟩ | ⟨q1, q2, q3, q4⟩ | ⟨q1, q2, q3, q4⟩
      · obtain ⟨o, _, rfl, rfl⟩ := ops_item q1
        rw [reach, noticed, hlh]
        rfl
      · obtain ⟨k, p', e, rfl, he⟩ := key_item ht q2
        simp [reach, elemsAt, sel]
      · simp [loopItems, withBucket] at q3
      · exact absurd hd (after_direct q4)
    | cons v w1 w2 rest =>
      obtain ⟨b, hb, h⟩ := Res.bind_eq_ok.1 h
      obtain ⟨b', hb', h1, _⟩ := andThen_marks h
      rw [h1]
      refine ⟨fun h0 => ?_, fun p it h1' hd f hf => ?_⟩
      · rw [hitems] at h0
        obtain ⟨z1, h0⟩ := List.append_eq_nil_iff.1 h0
        obtain ⟨z2, h0⟩ := List.append_eq_nil_iff.1 h0
        obtain ⟨_, z4⟩ := List.append_eq_nil_iff.1 h0
        rw [sel_append, gElems_none val X r hrec ht hfu z2 _ _ _ _ hb, (dOpsThen_sel X sh r hb' z4).1 z1]
        rfl
      · rw [hitems] at h1'
        rw [sel_append]
        rcases four_one h1' with ⟨q1, q2, q3, q4⟩ | ⟨q1, q2, q3, q4⟩ | ⟨q1, q2, q3, q4⟩ | ⟨q1, q2, q3, q4⟩
        · rw [gElems_none val X r hrec ht hfu q2 _ _ _ _ hb]
          obtain ⟨e1, e2⟩ := (dOpsThen_sel X sh r hb' q4).2 _ q1
          simp only at e1; subst e1
          rw [hf _ _ _ (gItem_of_op q1 (e2 0))]
          simp [reach, noticed]
        · rw [(dOpsThen_sel X sh r hb' q4).1 q1]
          obtain ⟨k, p', e, rfl, he⟩ := key_item ht q2
          rw [gElems_one val X r hrec ht hfu q2 hd hf he _ _ _ _ hb, hsub _ _ _ _ he]
          simp [reach, hlh, Loops.isEmpty]
        · simp [loopItems, withBucket] at q3
        · exact absurd hd (after_direct q4)
  · simp only [hemp, Bool.false_eq_true, if_false] at h
    obtain ⟨b', hb', h1, _⟩ := andThen_marks h
    rw [h1]
    simp only
    have hlh' : loopHere (kinds (.mk st es ops ls a)) = true := by rw [hlh]; simpa using hemp
    have hs : noticed (kinds (.mk st es ops ls a)) (.arr ws xs) = true := by
      cases xs with
      | nil => rw [noticed]; exact hlh'
      | cons => rfl
    refine ⟨fun h0 => ?_, fun p it h1' hd f hf => ?_⟩
    · rw [hitems] at h0
      obtain ⟨z1, h0⟩ := List.append_eq_nil_iff.1 h0
      obtain ⟨z2, h0⟩ := List.append_eq_nil_iff.1 h0
      obtain ⟨z3, z4⟩ := List.append_eq_nil_iff.1 h0
      rw [sel_append, gLoops_sel_none val z3, (dOpsThen_sel X sh r hb' z4).1 z1]
      rfl
    · rw [hitems] at h1'
      rw [sel_append]
      rcases four_one h1' with ⟨q1, q2, q3, q4⟩ | ⟨q1, q2, q3, q4⟩ | ⟨q1, q2, q3, q4⟩ | ⟨q1, q2, q3, q4⟩
      · rw [gLoops_sel_none val q3]
        obtain ⟨e1, e2⟩ := (dOpsThen_sel X sh r hb' q4).2 _ q1
        simp only at e1; subst e1
        rw [hf _ _ _ (gItem_of_op q1 (e2 0))]
        simp [reach, hs]
      · obtain ⟨k, p', e, rfl, he⟩ := key_item ht q2
        rw [gLoops_sel_none val q3, (dOpsThen_sel X sh r hb' q4).1 q1, reach, if_pos hlh']
        rfl
      · rw [(dOpsThen_sel X sh r hb' q4).1 q1, List.append_nil]
        obtain ⟨m, t, e, he, hd'⟩ := gLoops_sel_one val (xs := xs) _ q3
        cases he
        have hfs := hf (.arr ws xs) σ _ rfl
        simp only at hfs ⊢
        rw [hd', hfs]; simp [reach, isLoop]
      · exact absurd hd (after_direct q4)

/-- The decisions for a bucket that occurs once come from the values reached at the item's path. -/
theorem gExec_decides : ∀ h : Nat, RecG val X r (gExec val X sh r h)
  | 0 => by intro n d σ a i h; cases h
  | hh + 1 => by
    intro n d σ a i h ht hfu
    obtain ⟨st, es, ops, ls, af⟩ := n
    have ih := gExec_decides hh
    cases d with
    | lit ty s => exact opsThen_decidesG val X sh r h (by exact id) rfl (fun _ k p _ => rfl)
    | obj ws ms => exact dObj_decidesG val X sh r ih h ht.1 hfu.1
    | arr ws xs => exact gArr_decides val X sh r ih h ht.1 hfu.1

end

end Verif.Transform
