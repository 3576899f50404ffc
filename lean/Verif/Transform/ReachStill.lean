import Verif.Transform.Reach
import Verif.Transform.Still

/-!
# Nodes that store nothing, on any document

The decisions of the bodies of loops for the slots they start with: as in `Still.lean`, on every document.
-/

namespace Verif.Transform
open Verif.FastVal Verif.Match Verif.Expr
open Verif.Token (D Es Ms Tok)
open Verif.BinTree (Sh K)

variable {E : Ext}

/-- What is claimed of the decisions of a node that stores nothing: as `DecidesR`, with the slots `σ` throughout. -/
def DecidesR1 (X : Fns E) (sh : Nat → Sh) (r : D) (i : Nat) (n : Exec E) (d : D) (σ : Slots) (l : Marks) : Prop :=
  ∀ p it, withBucket i (items n) = [(p, it)] → Direct it → ∀ f : D → Marks,
    (∀ x h l, itemMarks X sh r h it x σ = .ok l → l = f x) → sel i l = (reach (isLoop it) (kinds n) p d).flatMap f

def RecR1 (X : Fns E) (sh : Nat → Sh) (r : D) (rec : DRec E) : Prop :=
  ∀ n d σ a i, rec n d σ = .ok a → n.NoStore → n.Tidy → n.Full → DecidesR1 X sh r i n d σ a.1

section
variable (X : Fns E) (sh : Nat → Sh) (r : D)

theorem rMembers_one1 {rec : DRec E} (hrec : RecR X sh r rec) (hr1 : RecR1 X sh r rec) (hN : RecN rec) {es : Elems E} (hns : es.NoStore) (ht : es.Tidy) (hfu : es.Full) {i : Nat}
    {k p : _} {it : Item E} (hx : withBucket i (itemsE es) = [(k :: p, it)]) (hd : Direct it) {f : D → Marks}
    {e : Exec E} (he : es.find k = some e) :
    ∀ (ms : Ms) (σ : Slots) (a : Marks × Slots), dMembers rec es ms σ = .ok a →
    (∀ x h l, itemMarks X sh r h it x σ = .ok l → l = f x) →
    sel i a.1 = ((membersAt k ms).flatMap (reach (isLoop it) (kinds e) p)).flatMap f
  | .nil, σ, a, h, _ => by cases h; rfl
  | .cons kty key _ _ d _ _ rest, σ, a, h, hf => by
    rw [dMembers] at h
    obtain ⟨k', hk, h⟩ := Res.bind_eq_ok.1 h
    have hk' := memberKey_ok hk
    obtain ⟨k1, p1, e1, q1, q2, q3, q4⟩ := itemsE_find ht hx
    simp only [List.cons.injEq] at q1
    obtain ⟨rfl, rfl⟩ := q1
    have : e1 = e := by rw [q2] at he; cases he; rfl
    subst this
    by_cases hkk : k' = k
    · subst hkk
      rw [q2] at h
      simp only at h
      obtain ⟨b, hb, h⟩ := Res.bind_eq_ok.1 h
      obtain ⟨c, hcc, h1, _⟩ := andThen_marks h
      rw [membersAt, if_pos hk', List.flatMap_cons, h1, sel_append, List.flatMap_append]
      rw [rMembers_one1 hrec hr1 hN hns ht hfu hx hd he rest b.2 c hcc (by rw [hN _ d σ b hb (noStore_find hns ‹_›)]; exact hf)]
      rw [hr1 e1 d σ b i hb (noStore_find hns q2) (Elems.Tidy.find ht q2) (Elems.Full.find hfu q2) p it q3 hd f hf]
    · rw [membersAt, if_neg (by rw [hk']; exact hkk)]
      split at h
      · rename_i e' he'
        obtain ⟨b, hb, h⟩ := Res.bind_eq_ok.1 h
        obtain ⟨c, hcc, h1, _⟩ := andThen_marks h
        rw [h1, sel_append, rMembers_one1 hrec hr1 hN hns ht hfu hx hd he rest b.2 c hcc (by rw [hN _ d σ b hb (noStore_find hns ‹_›)]; exact hf)]
        rw [(hrec e' d σ b i hb (Elems.Tidy.find ht he') (Elems.Full.find hfu he')).1
          (q4 k' e' hkk he')]
        rfl
      · exact rMembers_one1 hrec hr1 hN hns ht hfu hx hd he rest σ a h hf

theorem rElems_one1 {rec : DRec E} (hrec : RecR X sh r rec) (hr1 : RecR1 X sh r rec) (hN : RecN rec) {es : Elems E} (hns : es.NoStore) (ht : es.Tidy) (hfu : es.Full) {i : Nat}
    {k p : _} {it : Item E} (hx : withBucket i (itemsE es) = [(k :: p, it)]) (hd : Direct it) {f : D → Marks}
    {e : Exec E} (he : es.find k = some e) :
    ∀ (xs : Es) (j : Nat) (σ : Slots) (a : Marks × Slots), dElems rec es j xs σ = .ok a →
    (∀ x h l, itemMarks X sh r h it x σ = .ok l → l = f x) →
    sel i a.1 = ((elemsAt k j xs).flatMap (reach (isLoop it) (kinds e) p)).flatMap f
  | .nil, j, σ, a, h, _ => by cases h; rfl
  | .cons d _ _ rest, j, σ, a, h, hf => by
    rw [dElems] at h
    obtain ⟨_, _, h⟩ := Res.bind_eq_ok.1 h
    obtain ⟨k1, p1, e1, q1, q2, q3, q4⟩ := itemsE_find ht hx
    simp only [List.cons.injEq] at q1
    obtain ⟨rfl, rfl⟩ := q1
    have : e1 = e := by rw [q2] at he; cases he; rfl
    subst this
    by_cases hkk : indexKey j = k
    · subst hkk
      rw [q2] at h
      simp only at h
      obtain ⟨b, hb, h⟩ := Res.bind_eq_ok.1 h
      obtain ⟨c, hcc, h1, _⟩ := andThen_marks h
      rw [elemsAt, if_pos rfl, List.flatMap_cons, h1, sel_append, List.flatMap_append]
      rw [rElems_one1 hrec hr1 hN hns ht hfu hx hd he rest (j + 1) b.2 c hcc (by rw [hN _ d σ b hb (noStore_find hns ‹_›)]; exact hf)]
      rw [hr1 e1 d σ b i hb (noStore_find hns q2) (Elems.Tidy.find ht q2) (Elems.Full.find hfu q2) p it q3 hd f hf]
    · rw [elemsAt, if_neg hkk]
      split at h
      · rename_i e' he'
        obtain ⟨b, hb, h⟩ := Res.bind_eq_ok.1 h
        obtain ⟨c, hcc, h1, _⟩ := andThen_marks h
        rw [h1, sel_append, rElems_one1 hrec hr1 hN hns ht hfu hx hd he rest (j + 1) b.2 c hcc (by rw [hN _ d σ b hb (noStore_find hns ‹_›)]; exact hf)]
        rw [(hrec e' d σ b i hb (Elems.Tidy.find ht he') (Elems.Full.find hfu he')).1
          (q4 _ e' hkk he')]
        rfl
      · exact rElems_one1 hrec hr1 hN hns ht hfu hx hd he rest (j + 1) σ a h hf

/-- The node's own operations and loops on a value that is noticed and not an array. -/
theorem opsThen_decidesR1 {rec : DRec E} {st : Nat} {es : Elems E} {ops : List (Op E)} {ls : Loops E} {a : After E} {d : D} {σ : Slots}
    {c : Marks × Slots} {i : Nat} (h : dOpsThen X rec sh r ops st a d σ = .ok c) (hna : ¬ IsArr d)
    (hs : noticed (kinds (.mk st es ops ls a)) d = true) (hw : ∀ loop k p, itemsE es ≠ [] → reach loop (kinds (.mk st es ops ls a)) (k :: p) d = []) :
    DecidesR1 X sh r i (.mk st es ops ls a) d σ c.1 := by
  have hitems := items_bucket i st es ops ls a
  intro p it h1 hd f hf
  rw [hitems] at h1
  rcases four_one h1 with ⟨q1, q2, q3, q4⟩ | ⟨q1, q2, q3, q4⟩ | ⟨q1, q2, q3, q4⟩ | ⟨q1, q2, q3, q4⟩
  · obtain ⟨e1, e2⟩ := (dOpsThen_sel X sh r h q4).2 _ q1
    simp only at e1; subst e1
    rw [hf d 0 _ (e2 0)]; simp [reach, hs]
  · have hm : (p, it) ∈ withBucket i (itemsE es) := by rw [q2]; exact List.mem_singleton.2 rfl
    obtain ⟨k, p', e1⟩ := opsThen_decides.mem_itemsE_cons es (mem_withBucket.1 hm).1
    simp only at e1; subst e1
    rw [hw _ k p' (by intro h0; rw [h0] at q2; simp [withBucket] at q2), List.flatMap_nil]
    exact (dOpsThen_sel X sh r h q4).1 q1
  · obtain ⟨m, t, e, he⟩ := loop_item q3
    cases he
    have := hf d 0 _ (dLoop_not_arr sh hna)
    rw [(dOpsThen_sel X sh r h q4).1 q1]
    simp [reach, hs, ← this]
  · exact absurd hd (after_direct q4)

theorem dObj_decidesR1 {rec : DRec E} (hrec : RecR X sh r rec) (hr1 : RecR1 X sh r rec) (hN : RecN rec) {st : Nat} {es : Elems E} {ops : List (Op E)} {ls : Loops E} {a : After E}
    {ws : List Nat} {ms : Ms} {σ : Slots} {c : Marks × Slots} {i : Nat} (h : dObj X rec sh r st es ops a ws ms σ = .ok c)
    (hns : es.NoStore) (ht : es.Tidy) (hfu : es.Full) :
    DecidesR1 X sh r i (.mk st es ops ls a) (.obj ws ms) σ c.1 := by
  rw [dObj] at h
  have hmb := moreBelow_kinds (st := st) (ops := ops) (ls := ls) (a := a) hfu
  by_cases hemp : es.isEmpty = true
  · simp only [hemp, if_true] at h
    have := nil_of_isEmpty hemp
    subst this
    refine opsThen_decidesR1 X sh r h (by exact id) ?_ (fun _ k p hne => absurd rfl hne)
    cases ms with
    | nil => rw [noticed, hmb]; rfl
    | cons => rfl
  · simp only [hemp, Bool.false_eq_true, if_false] at h
    obtain ⟨b, hb, h⟩ := Res.bind_eq_ok.1 h
    obtain ⟨l, hl, h⟩ := Res.bind_eq_ok.1 h
    have hitems := items_bucket i st es ops ls a
    have hsub : ∀ loop k e p, es.find k = some e → reach loop (kinds e) p = reach loop (below k (kinds (.mk st es ops ls a))) p :=
      fun loop k e p he => funext fun d => reach_congr (kinds_child ht he) p d
    cases ms with
    | nil =>
      cases hb
      cases h
      intro p it h1 hd f hf
      rw [hitems] at h1
      rcases four_one h1 with ⟨q1, q2, q3, q4⟩ | ⟨q1, q2, q3, q4⟩ | ⟨q1, q2, q3, q4⟩ | ⟨q1, q2, q3, q4⟩
      · obtain ⟨o, _, rfl, rfl⟩ := ops_item q1
        rw [reach, noticed, hmb]
        simp only [hemp, isLoop]
        exact dAfter_sel_none X sh r hl q4
      · obtain ⟨k, p', e, rfl, he⟩ := key_item ht q2
        simp only [reach, membersAt, List.flatMap_nil, List.nil_append]
        exact dAfter_sel_none X sh r hl q4
      · obtain ⟨m, t, e, he⟩ := loop_item q3
        cases he
        have := hf (.obj ws .nil) 0 [] (dLoop_not_arr (rec := dExec X sh r 0) (b := i) (m := m) (e := e) (d := .obj ws .nil) (σ := σ) sh (by intro h; exact h))
        simp only [List.nil_append]
        rw [dAfter_sel_none X sh r hl q4]
        simp [reach, isLoop, ← this]
      · exact absurd hd (after_direct q4)
    | cons kty key k1 k2 v w1 w2 rest =>
      obtain ⟨b', hb', h1, _⟩ := andThen_marks h
      intro p it h1' hd f hf
      rw [hitems] at h1'
      rw [h1]
      simp only [sel_append]
      rcases four_one h1' with ⟨q1, q2, q3, q4⟩ | ⟨q1, q2, q3, q4⟩ | ⟨q1, q2, q3, q4⟩ | ⟨q1, q2, q3, q4⟩
      · rw [rMembers_none X sh r hrec ht hfu q2 _ _ _ hb, dAfter_sel_none X sh r hl q4]
        obtain ⟨e1, e2⟩ := (dOpsThen_sel X sh r hb' q4).2 _ q1
        simp only at e1; subst e1
        have e3 := e2 0
        simp only [dMembers_still hN hns _ _ _ hb] at e3
        rw [hf _ 0 _ e3]
        simp [reach, noticed]
      · rw [dAfter_sel_none X sh r hl q4, (dOpsThen_sel X sh r hb' q4).1 q1]
        obtain ⟨k, p', e, rfl, he⟩ := key_item ht q2
        rw [rMembers_one1 X sh r hrec hr1 hN hns ht hfu q2 hd he _ _ _ hb hf, hsub _ _ _ _ he]
        simp [reach]
      · rw [rMembers_none X sh r hrec ht hfu q2 _ _ _ hb, dAfter_sel_none X sh r hl q4, (dOpsThen_sel X sh r hb' q4).1 q1]
        obtain ⟨m, t, e, he⟩ := loop_item q3
        cases he
        have := hf (.obj ws (.cons kty key k1 k2 v w1 w2 rest)) 0 [] (dLoop_not_arr (rec := dExec X sh r 0) (b := i) (m := m) (e := e) (d := .obj ws (.cons kty key k1 k2 v w1 w2 rest)) (σ := σ) sh (by intro h; exact h))
        simp [reach, isLoop, ← this]
      · exact absurd hd (after_direct q4)

theorem dArr_decidesR1 {rec : DRec E} {hh : Nat} (hre : rec = dExec X sh r hh) (hrec : RecR X sh r rec) (hr1 : RecR1 X sh r rec) (hN : RecN rec) {st : Nat} {es : Elems E}
    {ops : List (Op E)} {ls : Loops E} {a : After E} {ws : List Nat} {xs : Es} {σ : Slots} {c : Marks × Slots} {i : Nat}
    (h : dArr X rec sh r st es ops ls a ws xs σ = .ok c) (hns : es.NoStore) (ht : es.Tidy) (hfu : es.Full) :
    DecidesR1 X sh r i (.mk st es ops ls a) (.arr ws xs) σ c.1 := by
  have hlh := loopHere_kinds (st := st) (es := es) (ops := ops) (ls := ls) (a := a)
  have hitems := items_bucket i st es ops ls a
  have hsub : ∀ loop k e p, es.find k = some e → reach loop (kinds e) p = reach loop (below k (kinds (.mk st es ops ls a))) p :=
    fun loop k e p he => funext fun d => reach_congr (kinds_child ht he) p d
  rw [dArr.eq_def] at h
  by_cases hemp : ls.isEmpty = true
  · simp only [hemp, if_true] at h
    have hls := loops_nil_of_isEmpty hemp
    subst hls
    cases xs with
    | nil =>
      cases h
      intro p it h1 hd f hf
      rw [hitems] at h1
      rcases four_one h1 with ⟨q1, q2, q3, q4⟩ | ⟨q1, q2, q3, q4⟩ | ⟨q1, q2, q3, q4⟩ | ⟨q1, q2, q3, q4⟩
      · obtain ⟨o, _, rfl, rfl⟩ := ops_item q1
        rw [reach, noticed, hlh]
        rfl
      · obtain ⟨k, p', e, rfl, he⟩ := key_item ht q2
        simp [reach, elemsAt, sel]
      · simp [loopItems, withBucket] at q3
      · exact absurd hd (after_direct q4)
    | cons v w1 w2 rest =>
      obtain ⟨b, hb, h⟩ := Res.bind_eq_ok.1 h
      obtain ⟨b', hb', h1, _⟩ := andThen_marks h
      rw [h1]
      intro p it h1' hd f hf
      rw [hitems] at h1'
      rw [sel_append]
      rcases four_one h1' with ⟨q1, q2, q3, q4⟩ | ⟨q1, q2, q3, q4⟩ | ⟨q1, q2, q3, q4⟩ | ⟨q1, q2, q3, q4⟩
      · rw [rElems_none X sh r hrec ht hfu q2 _ _ _ _ hb]
        obtain ⟨e1, e2⟩ := (dOpsThen_sel X sh r hb' q4).2 _ q1
        simp only at e1; subst e1
        have e3 := e2 0
        simp only [dElems_still hN hns _ _ _ _ hb] at e3
        rw [hf _ 0 _ e3]
        simp [reach, noticed]
      · rw [(dOpsThen_sel X sh r hb' q4).1 q1]
        obtain ⟨k, p', e, rfl, he⟩ := key_item ht q2
        rw [rElems_one1 X sh r hrec hr1 hN hns ht hfu q2 hd he _ _ _ _ hb hf, hsub _ _ _ _ he]
        simp [reach, hlh, Loops.isEmpty]
      · simp [loopItems, withBucket] at q3
      · exact absurd hd (after_direct q4)
  · simp only [hemp, Bool.false_eq_true, if_false] at h
    obtain ⟨l, hl, h⟩ := Res.bind_eq_ok.1 h
    obtain ⟨b', hb', h1, _⟩ := andThen_marks h
    rw [h1]
    have hlh' : loopHere (kinds (.mk st es ops ls a)) = true := by rw [hlh]; simpa using hemp
    have hs : noticed (kinds (.mk st es ops ls a)) (.arr ws xs) = true := by
      cases xs with
      | nil => rw [noticed]; exact hlh'
      | cons => rfl
    intro p it h1' hd f hf
    rw [hitems] at h1'
    rw [sel_append]
    rcases four_one h1' with ⟨q1, q2, q3, q4⟩ | ⟨q1, q2, q3, q4⟩ | ⟨q1, q2, q3, q4⟩ | ⟨q1, q2, q3, q4⟩
    · rw [dArrayLoops_sel_none sh _ _ hl q3]
      obtain ⟨e1, e2⟩ := (dOpsThen_sel X sh r hb' q4).2 _ q1
      simp only at e1; subst e1
      rw [hf _ 0 _ (e2 0)]
      simp [reach, hs]
    · obtain ⟨k, p', e, rfl, he⟩ := key_item ht q2
      rw [dArrayLoops_sel_none sh _ _ hl q3, (dOpsThen_sel X sh r hb' q4).1 q1, reach, if_pos hlh']
      rfl
    · rw [(dOpsThen_sel X sh r hb' q4).1 q1, List.append_nil]
      obtain ⟨m, e, he, hd'⟩ := dArrayLoops_sel_one sh _ _ hl q3
      cases he
      rw [hre] at hd'
      have hfs := hf (.arr ws xs) hh _ hd'
      simp only at hfs ⊢
      rw [hfs]; simp [reach, isLoop]
    · exact absurd hd (after_direct q4)

/-- The decisions of a node that stores nothing, for the slots it starts with, on any document. -/
theorem dExec_decidesR1 : ∀ h : Nat, RecR1 X sh r (dExec X sh r h)
  | 0 => by intro n d σ a i h; cases h
  | hh + 1 => by
    intro n d σ a i h hns ht hfu
    obtain ⟨st, es, ops, ls, af⟩ := n
    have ih := dExec_decidesR X sh r hh
    have ih1 := dExec_decidesR1 hh
    have hN := dExec_still X sh r hh
    cases d with
    | lit ty s => exact opsThen_decidesR1 X sh r h (by exact id) rfl (fun _ k p _ => rfl)
    | obj ws ms => exact dObj_decidesR1 X sh r ih ih1 hN h hns.2.1 ht.1 hfu.1
    | arr ws xs => exact dArr_decidesR1 X sh r rfl ih ih1 hN h hns.2.1 ht.1 hfu.1

end

end Verif.Transform
