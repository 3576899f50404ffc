import Verif.Transform.Slots

/-!
# Nodes that store nothing

The bodies of loops store nothing: they leave the slots as they are, and their decisions can be described for the slots they
start with.
-/

namespace Verif.Transform
open Verif.FastVal Verif.Match Verif.Expr
open Verif.Token (D Es Ms Tok)
open Verif.BinTree (Sh K)

variable {E : Ext}

theorem noStore_find {es : Elems E} (h : es.NoStore) {k e} (he : es.find k = some e) : e.NoStore := by
  match es, h with
  | .cons k' e' r, h =>
    rw [Elems.find] at he
    split at he
    · simp at he; subst he; exact h.1
    · exact noStore_find (es := r) h.2 he

section
variable (X : Fns E) (sh : Nat → Sh) (r : D)

/-- Nodes that store nothing leave the slots as they are. -/
def RecN (rec : DRec E) : Prop := ∀ n d σ a, rec n d σ = .ok a → n.NoStore → a.2 = σ

theorem dMembers_still {rec : DRec E} (hN : RecN rec) {es : Elems E} (hns : es.NoStore) : ∀ (ms : Ms) (σ : Slots) (a : Marks × Slots),
    dMembers rec es ms σ = .ok a → a.2 = σ
  | .nil, σ, a, h => by cases h; rfl
  | .cons kty key _ _ d _ _ rest, σ, a, h => by
    rw [dMembers] at h
    obtain ⟨k, hk, h⟩ := Res.bind_eq_ok.1 h
    split at h
    · rename_i e he
      obtain ⟨b, hb, h⟩ := Res.bind_eq_ok.1 h
      obtain ⟨c, hcc, _, h2⟩ := andThen_marks h
      rw [h2, dMembers_still hN hns rest b.2 c hcc, hN e d σ b hb (noStore_find hns he)]
    · exact dMembers_still hN hns rest σ a h

theorem dElems_still {rec : DRec E} (hN : RecN rec) {es : Elems E} (hns : es.NoStore) : ∀ (xs : Es) (j : Nat) (σ : Slots)
    (a : Marks × Slots), dElems rec es j xs σ = .ok a → a.2 = σ
  | .nil, j, σ, a, h => by cases h; rfl
  | .cons d _ _ rest, j, σ, a, h => by
    rw [dElems] at h
    obtain ⟨_, _, h⟩ := Res.bind_eq_ok.1 h
    split at h
    · rename_i e he
      obtain ⟨b, hb, h⟩ := Res.bind_eq_ok.1 h
      obtain ⟨c, hcc, _, h2⟩ := andThen_marks h
      rw [h2, dElems_still hN hns rest (j + 1) b.2 c hcc, hN e d σ b hb (noStore_find hns he)]
    · exact dElems_still hN hns rest (j + 1) σ a h

theorem dOpsThen_still {rec : DRec E} {σ : Slots} {ops : List (Op E)} {a : After E} {d : D} {c : Marks × Slots}
    (h : dOpsThen X rec sh r ops 0 a d σ = .ok c) : c.2 = σ := by
  rw [dOpsThen] at h
  obtain ⟨v, _, h⟩ := Res.bind_eq_ok.1 h
  obtain ⟨l, _, h⟩ := Res.bind_eq_ok.1 h
  obtain ⟨b, hb, _, h2⟩ := andThen_marks h
  rw [dFinish] at hb
  obtain ⟨l', _, hb⟩ := Res.bind_eq_ok.1 hb
  simp only [dStore, if_true, Res.bind_ok] at hb
  cases hb
  exact h2

theorem dExec_still : ∀ h : Nat, RecN (dExec X sh r h)
  | 0 => by intro n d σ a h; cases h
  | hh + 1 => by
    intro n d σ c h hns
    obtain ⟨st, es, ops, ls, af⟩ := n
    obtain ⟨rfl, hes, _, _⟩ := hns
    have ih := dExec_still hh
    cases d with
    | lit ty s => exact dOpsThen_still X sh r h
    | obj ws ms =>
      simp only [dExec, dObj] at h
      split at h
      · exact dOpsThen_still X sh r h
      · obtain ⟨b, hb, h⟩ := Res.bind_eq_ok.1 h
        obtain ⟨l, _, h⟩ := Res.bind_eq_ok.1 h
        have hb' := dMembers_still ih hes ms σ b hb
        split at h
        · cases h; exact hb'
        · obtain ⟨b1, hb1, _, h2⟩ := andThen_marks h
          rw [h2, dOpsThen_still X sh r hb1, hb']
    | arr ws xs =>
      simp only [dExec, dArr.eq_def] at h
      split at h
      · split at h
        · cases h; rfl
        · obtain ⟨b, hb, h⟩ := Res.bind_eq_ok.1 h
          obtain ⟨b1, hb1, _, h2⟩ := andThen_marks h
          rw [h2, dOpsThen_still X sh r hb1, dElems_still ih hes xs 0 σ b hb]
      · obtain ⟨l, _, h⟩ := Res.bind_eq_ok.1 h
        obtain ⟨b1, hb1, _, h2⟩ := andThen_marks h
        rw [h2, dOpsThen_still X sh r hb1]

/-- What is claimed of the decisions of a node that stores nothing: as `Decides`, with the slots `σ` throughout. -/
def Decides1 (i : Nat) (L : List (Path × Item E)) (d : D) (σ : Slots) (l : Marks) : Prop :=
  ∀ p it, L = [(p, it)] → Direct it → ∀ f : D → Marks,
    (∀ x ∈ walk p d, ∀ h l, itemMarks X sh r h it x σ = .ok l → l = f x) → sel i l = (walk p d).flatMap f

def RecI1 (rec : DRec E) : Prop :=
  ∀ n d σ a i, rec n d σ = .ok a → n.NoStore → n.Tidy → n.Full → Clear n d → Decides1 X sh r i (withBucket i (items n)) d σ a.1

theorem dMembers_one1 {rec : DRec E} (hrec : RecI X sh r rec) (hr1 : RecI1 X sh r rec) (hN : RecN rec) {es : Elems E} (hns : es.NoStore)
    (ht : es.Tidy) (hfu : es.Full) {i : Nat} {k p : _} {it : Item E}
    (hx : withBucket i (itemsE es) = [(k :: p, it)]) (hd : Direct it) {f : D → Marks} : ∀ (ms : Ms) (σ : Slots) (a : Marks × Slots),
    dMembers rec es ms σ = .ok a → (∀ k e, es.find k = some e → ∀ x ∈ membersAt k ms, Clear e x) →
    (∀ x ∈ (membersAt k ms).flatMap (walk p), ∀ h l, itemMarks X sh r h it x σ = .ok l → l = f x) →
    sel i a.1 = ((membersAt k ms).flatMap (walk p)).flatMap f
  | .nil, σ, a, h, _, _ => by cases h; rfl
  | .cons kty key _ _ d _ _ rest, σ, a, h, hc, hf => by
    rw [dMembers] at h
    obtain ⟨k', hk, h⟩ := Res.bind_eq_ok.1 h
    have hk' := memberKey_ok hk
    have hc' : ∀ k e, es.find k = some e → ∀ x ∈ membersAt k rest, Clear e x := by
      intro k1 e1 h1 x hx
      refine hc k1 e1 h1 x ?_
      rw [membersAt]
      split
      · exact List.mem_cons_of_mem _ hx
      · exact hx
    obtain ⟨k1, p1, e1, q1, q2, q3, q4⟩ := itemsE_find ht hx
    simp only [List.cons.injEq] at q1
    obtain ⟨rfl, rfl⟩ := q1
    by_cases hkk : k' = k
    · subst hkk
      rw [q2] at h
      simp only at h
      obtain ⟨b, hb, h⟩ := Res.bind_eq_ok.1 h
      obtain ⟨c, hcc, h1, _⟩ := andThen_marks h
      rw [membersAt, if_pos hk'] at hf ⊢
      rw [List.flatMap_cons] at hf ⊢
      rw [h1, sel_append, List.flatMap_append]
      have hσ := hN e1 d σ b hb (noStore_find hns q2)
      rw [dMembers_one1 hrec hr1 hN hns ht hfu hx hd rest b.2 c hcc hc' (by rw [hσ]; exact fun x hx => hf x (List.mem_append_right _ hx))]
      rw [hr1 e1 d σ b i hb (noStore_find hns q2) (Elems.Tidy.find ht q2) (Elems.Full.find hfu q2)
        (hc k' e1 q2 d (by rw [membersAt, if_pos hk']; exact List.mem_cons_self)) p it q3 hd f (fun x hx => hf x (List.mem_append_left _ hx))]
    · rw [membersAt, if_neg (by rw [hk']; exact hkk)] at hf ⊢
      split at h
      · rename_i e he
        obtain ⟨b, hb, h⟩ := Res.bind_eq_ok.1 h
        obtain ⟨c, hcc, h1, _⟩ := andThen_marks h
        have hσ := hN e d σ b hb (noStore_find hns he)
        rw [h1, sel_append, dMembers_one1 hrec hr1 hN hns ht hfu hx hd rest b.2 c hcc hc' (by rw [hσ]; exact hf)]
        rw [(hrec e d σ b i hb (Elems.Tidy.find ht he) (Elems.Full.find hfu he) (hc k' e he d (by rw [membersAt, if_pos hk']; exact List.mem_cons_self))).1
          (q4 k' e hkk he)]
        rfl
      · exact dMembers_one1 hrec hr1 hN hns ht hfu hx hd rest σ a h hc' hf

theorem dElems_one1 {rec : DRec E} (hrec : RecI X sh r rec) (hr1 : RecI1 X sh r rec) (hN : RecN rec) {es : Elems E} (hns : es.NoStore)
    (ht : es.Tidy) (hfu : es.Full) {i : Nat} {k p : _} {it : Item E}
    (hx : withBucket i (itemsE es) = [(k :: p, it)]) (hd : Direct it) {f : D → Marks} : ∀ (xs : Es) (j : Nat) (σ : Slots)
    (a : Marks × Slots), dElems rec es j xs σ = .ok a → (∀ k e, es.find k = some e → ∀ x ∈ elemsAt k j xs, Clear e x) →
    (∀ x ∈ (elemsAt k j xs).flatMap (walk p), ∀ h l, itemMarks X sh r h it x σ = .ok l → l = f x) →
    sel i a.1 = ((elemsAt k j xs).flatMap (walk p)).flatMap f
  | .nil, j, σ, a, h, _, _ => by cases h; rfl
  | .cons d _ _ rest, j, σ, a, h, hc, hf => by
    rw [dElems] at h
    obtain ⟨_, _, h⟩ := Res.bind_eq_ok.1 h
    have hc' : ∀ k e, es.find k = some e → ∀ x ∈ elemsAt k (j + 1) rest, Clear e x := by
      intro k1 e1 h1 x hx
      refine hc k1 e1 h1 x ?_
      rw [elemsAt]
      split
      · exact List.mem_cons_of_mem _ hx
      · exact hx
    obtain ⟨k1, p1, e1, q1, q2, q3, q4⟩ := itemsE_find ht hx
    simp only [List.cons.injEq] at q1
    obtain ⟨rfl, rfl⟩ := q1
    by_cases hkk : indexKey j = k
    · subst hkk
      rw [q2] at h
      simp only at h
      obtain ⟨b, hb, h⟩ := Res.bind_eq_ok.1 h
      obtain ⟨c, hcc, h1, _⟩ := andThen_marks h
      rw [elemsAt, if_pos rfl] at hf ⊢
      rw [List.flatMap_cons] at hf ⊢
      rw [h1, sel_append, List.flatMap_append]
      have hσ := hN e1 d σ b hb (noStore_find hns q2)
      rw [dElems_one1 hrec hr1 hN hns ht hfu hx hd rest (j + 1) b.2 c hcc hc' (by rw [hσ]; exact fun x hx => hf x (List.mem_append_right _ hx))]
      rw [hr1 e1 d σ b i hb (noStore_find hns q2) (Elems.Tidy.find ht q2) (Elems.Full.find hfu q2)
        (hc _ e1 q2 d (by rw [elemsAt, if_pos rfl]; exact List.mem_cons_self)) p it q3 hd f (fun x hx => hf x (List.mem_append_left _ hx))]
    · rw [elemsAt, if_neg hkk] at hf ⊢
      split at h
      · rename_i e he
        obtain ⟨b, hb, h⟩ := Res.bind_eq_ok.1 h
        obtain ⟨c, hcc, h1, _⟩ := andThen_marks h
        have hσ := hN e d σ b hb (noStore_find hns he)
        rw [h1, sel_append, dElems_one1 hrec hr1 hN hns ht hfu hx hd rest (j + 1) b.2 c hcc hc' (by rw [hσ]; exact hf)]
        rw [(hrec e d σ b i hb (Elems.Tidy.find ht he) (Elems.Full.find hfu he) (hc _ e he d (by rw [elemsAt, if_pos rfl]; exact List.mem_cons_self))).1
          (q4 _ e hkk he)]
        rfl
      · exact dElems_one1 hrec hr1 hN hns ht hfu hx hd rest (j + 1) σ a h hc' hf

/-- The four places an item can be at. -/
theorem withBucket_items {i st : Nat} {es : Elems E} {ops : List (Op E)} {ls : Loops E} {a : After E} :
    withBucket i (items (.mk st es ops ls a)) = withBucket i (ops.map (fun o => (([] : Path), Item.op o))) ++
      (withBucket i (itemsE es) ++ (withBucket i (loopItems .loop ls) ++ withBucket i (afterItems a))) := by
  rw [items]; simp only [withBucket_append]

theorem itemsE_cons {i : Nat} {es : Elems E} {p : Path} {it : Item E} (q2 : withBucket i (itemsE es) = [(p, it)]) : ∃ k p', p = k :: p' := by
  have hm : (p, it) ∈ withBucket i (itemsE es) := by rw [q2]; exact List.mem_singleton.2 rfl
  obtain ⟨k, p', hh⟩ := opsThen_decides.mem_itemsE_cons es (mem_withBucket.1 hm).1
  exact ⟨k, p', hh⟩

theorem opsThen_decides1 {rec : DRec E} {st : Nat} {es : Elems E} {ops : List (Op E)} {ls : Loops E} {a : After E} {d : D} {σ : Slots}
    {c : Marks × Slots} {i : Nat} (h : dOpsThen X rec sh r ops st a d σ = .ok c) (hna : ¬ IsArr d)
    (hw : ∀ k p, itemsE es ≠ [] → walk (k :: p) d = []) :
    Decides1 X sh r i (withBucket i (items (.mk st es ops ls a))) d σ c.1 := by
  intro p it h1 hd f hf
  rw [withBucket_items] at h1
  rcases four_one h1 with ⟨q1, q2, q3, q4⟩ | ⟨q1, q2, q3, q4⟩ | ⟨q1, q2, q3, q4⟩ | ⟨q1, q2, q3, q4⟩
  · obtain ⟨e1, e2⟩ := (dOpsThen_sel X sh r h q4).2 _ q1
    simp only at e1; subst e1
    have := hf d (by simp [walk]) 0 _ (e2 0)
    rw [this]; simp [walk]
  · obtain ⟨k, p', rfl⟩ := itemsE_cons q2
    rw [hw k p' (by intro h0; rw [h0] at q2; simp [withBucket] at q2), List.flatMap_nil]
    exact (dOpsThen_sel X sh r h q4).1 q1
  · obtain ⟨m, t, e, he⟩ := loop_item q3
    cases he
    have := hf d (by simp [walk]) 0 _ (dLoop_not_arr sh hna)
    rw [(dOpsThen_sel X sh r h q4).1 q1]
    simp [walk, ← this]
  · exact absurd hd (after_direct q4)

theorem dObj_decides1 {rec : DRec E} (hrec : RecI X sh r rec) (hr1 : RecI1 X sh r rec) (hN : RecN rec) {st : Nat} {es : Elems E}
    {ops : List (Op E)} {ls : Loops E} {a : After E}
    {ws : List Nat} {ms : Ms} {σ : Slots} {c : Marks × Slots} {i : Nat} (h : dObj X rec sh r st es ops a ws ms σ = .ok c)
    (hns : es.NoStore) (ht : es.Tidy) (hfu : es.Full) (hcl : Clear (.mk st es ops ls a : Exec E) (.obj ws ms)) :
    Decides1 X sh r i (withBucket i (items (.mk st es ops ls a))) (.obj ws ms) σ c.1 := by
  rw [dObj] at h
  by_cases hemp : es.isEmpty = true
  · simp only [hemp, if_true] at h
    have : es = .nil := by cases es with
      | nil => rfl
      | cons => cases hemp
    subst this
    exact opsThen_decides1 X sh r h (by exact id) (fun k p hne => absurd rfl hne)
  · simp only [hemp, Bool.false_eq_true, if_false] at h
    obtain ⟨b, hb, h⟩ := Res.bind_eq_ok.1 h
    obtain ⟨l, hl, h⟩ := Res.bind_eq_ok.1 h
    have hsub : ∀ k e, es.find k = some e → ∀ x ∈ membersAt k ms, Clear e x := by
      intro k e he x hx
      refine hcl.sub (k := k) ht he ?_
      · intro p y hy; rw [walk]; exact List.mem_flatMap.2 ⟨x, hx, hy⟩
    have hbσ := dMembers_still hN hns ms σ b hb
    rw [withBucket_items]
    cases ms with
    | nil =>
      cases hb
      cases h
      intro p it h1 hd f hf
      rcases four_one h1 with ⟨q1, q2, q3, q4⟩ | ⟨q1, q2, q3, q4⟩ | ⟨q1, q2, q3, q4⟩ | ⟨q1, q2, q3, q4⟩
      · exfalso
        have hm : (p, it) ∈ ops.map (fun o => (([] : Path), Item.op o)) := by
          have : (p, it) ∈ withBucket i (ops.map (fun o => (([] : Path), Item.op o))) := by rw [q1]; exact List.mem_singleton.2 rfl
          exact (mem_withBucket.1 this).1
        obtain ⟨o, ho, he⟩ := List.mem_map.1 hm
        obtain ⟨k, p', hk⟩ := content_below hfu (by simpa using hemp)
        exact hcl.obj [] (Or.inl ⟨o, by rw [items]; exact List.mem_append_left _ (List.mem_map.2 ⟨o, ho, rfl⟩)⟩) (.obj ws .nil) (self_mem _)
          trivial k p' (hk _ _ _ _)
      · obtain ⟨k, p', rfl⟩ := itemsE_cons q2
        simp only [walk, membersAt, List.flatMap_nil, List.nil_append]
        exact dAfter_sel_none X sh r hl q4
      · obtain ⟨m, t, e, he⟩ := loop_item q3
        cases he
        have := hf _ (self_mem _) 0 [] (dLoop_not_arr (rec := dExec X sh r 0) (b := i) (m := m) (e := e) (d := .obj ws .nil) (σ := σ) sh (by intro h; exact h))
        simp only [List.nil_append]
        rw [dAfter_sel_none X sh r hl q4]
        simp [walk, ← this]
      · exact absurd hd (after_direct q4)
    | cons kty key k1 k2 v w1 w2 rest =>
      obtain ⟨b', hb', h1, _⟩ := andThen_marks h
      simp only [hbσ] at hb'
      intro p it h1' hd f hf
      rw [h1]
      simp only [sel_append]
      rcases four_one h1' with ⟨q1, q2, q3, q4⟩ | ⟨q1, q2, q3, q4⟩ | ⟨q1, q2, q3, q4⟩ | ⟨q1, q2, q3, q4⟩
      · rw [dMembers_none X sh r hrec ht hfu q2 _ _ _ hb hsub, dAfter_sel_none X sh r hl q4]
        obtain ⟨e1, e2⟩ := (dOpsThen_sel X sh r hb' q4).2 _ q1
        simp only at e1; subst e1
        rw [hf _ (self_mem _) 0 _ (e2 0)]
        simp [walk]
      · rw [dAfter_sel_none X sh r hl q4, (dOpsThen_sel X sh r hb' q4).1 q1]
        obtain ⟨k, p', rfl⟩ := itemsE_cons q2
        rw [dMembers_one1 X sh r hrec hr1 hN hns ht hfu q2 hd _ _ _ hb hsub (f := f) (by rw [walk] at hf; exact hf)]
        simp [walk]
      · rw [dMembers_none X sh r hrec ht hfu q2 _ _ _ hb hsub, dAfter_sel_none X sh r hl q4, (dOpsThen_sel X sh r hb' q4).1 q1]
        obtain ⟨m, t, e, he⟩ := loop_item q3
        cases he
        have := hf _ (self_mem _) 0 [] (dLoop_not_arr (rec := dExec X sh r 0) (b := i) (m := m) (e := e) (d := .obj ws (.cons kty key k1 k2 v w1 w2 rest)) (σ := σ) sh (by intro h; exact h))
        simp [walk, ← this]
      · exact absurd hd (after_direct q4)

theorem dArr_decides1 {rec : DRec E} {hh : Nat} (hre : rec = dExec X sh r hh) (hrec : RecI X sh r rec) (hr1 : RecI1 X sh r rec) (hN : RecN rec)
    {st : Nat} {es : Elems E} {ops : List (Op E)} {ls : Loops E} {a : After E} {ws : List Nat} {xs : Es} {σ : Slots} {c : Marks × Slots} {i : Nat}
    (h : dArr X rec sh r st es ops ls a ws xs σ = .ok c) (hns : es.NoStore) (ht : es.Tidy) (hfu : es.Full)
    (hcl : Clear (.mk st es ops ls a : Exec E) (.arr ws xs)) :
    Decides1 X sh r i (withBucket i (items (.mk st es ops ls a))) (.arr ws xs) σ c.1 := by
  have hopm : ∀ {p it}, withBucket i (ops.map (fun o => (([] : Path), Item.op o))) = [(p, it)] → ∃ o ∈ ops, p = [] ∧ it = .op o := by
    intro p it q1
    have hm : (p, it) ∈ ops.map (fun o => (([] : Path), Item.op o)) := by
      have : (p, it) ∈ withBucket i (ops.map (fun o => (([] : Path), Item.op o))) := by rw [q1]; exact List.mem_singleton.2 rfl
      exact (mem_withBucket.1 this).1
    obtain ⟨o, ho, he⟩ := List.mem_map.1 hm
    cases he
    exact ⟨o, ho, rfl, rfl⟩
  rw [dArr.eq_def] at h
  by_cases hemp : ls.isEmpty = true
  · simp only [hemp, if_true] at h
    have hls : ls = .nil := by cases ls with
      | nil => rfl
      | cons => cases hemp
    subst hls
    rw [withBucket_items]
    cases xs with
    | nil =>
      cases h
      intro p it h1 hd f hf
      rcases four_one h1 with ⟨q1, q2, q3, q4⟩ | ⟨q1, q2, q3, q4⟩ | ⟨q1, q2, q3, q4⟩ | ⟨q1, q2, q3, q4⟩
      · exfalso
        obtain ⟨o, ho, _, _⟩ := hopm q1
        obtain ⟨b, m, t, e, hl⟩ := hcl.arr [] (Or.inl ⟨o, by rw [items]; exact List.mem_append_left _ (List.mem_map.2 ⟨o, ho, rfl⟩)⟩) _
          (self_mem (.arr ws .nil)) trivial
        exact no_loop_nil hl
      · obtain ⟨k, p', rfl⟩ := itemsE_cons q2
        simp [walk, elemsAt, sel]
      · simp [loopItems, withBucket] at q3
      · exact absurd hd (after_direct q4)
    | cons v w1 w2 rest =>
      have hsub : ∀ k e, es.find k = some e → ∀ x ∈ elemsAt k 0 (.cons v w1 w2 rest), Clear e x := by
        intro k e he x hx
        refine hcl.sub (k := k) ht he ?_
        · intro p y hy; rw [walk]; exact List.mem_flatMap.2 ⟨x, hx, hy⟩
      obtain ⟨b, hb, h⟩ := Res.bind_eq_ok.1 h
      obtain ⟨b', hb', h1, _⟩ := andThen_marks h
      have hbσ := dElems_still hN hns _ 0 σ b hb
      simp only [hbσ] at hb'
      rw [h1]
      intro p it h1' hd f hf
      rw [sel_append]
      rcases four_one h1' with ⟨q1, q2, q3, q4⟩ | ⟨q1, q2, q3, q4⟩ | ⟨q1, q2, q3, q4⟩ | ⟨q1, q2, q3, q4⟩
      · rw [dElems_none X sh r hrec ht hfu q2 _ _ _ _ hb hsub]
        obtain ⟨e1, e2⟩ := (dOpsThen_sel X sh r hb' q4).2 _ q1
        simp only at e1; subst e1
        rw [hf _ (self_mem _) 0 _ (e2 0)]
        simp [walk]
      · rw [(dOpsThen_sel X sh r hb' q4).1 q1]
        obtain ⟨k, p', rfl⟩ := itemsE_cons q2
        rw [dElems_one1 X sh r hrec hr1 hN hns ht hfu q2 hd _ _ _ _ hb hsub (f := f) (by rw [walk] at hf; exact hf)]
        simp [walk]
      · simp [loopItems, withBucket] at q3
      · exact absurd hd (after_direct q4)
  · simp only [hemp, Bool.false_eq_true, if_false] at h
    obtain ⟨l, hl, h⟩ := Res.bind_eq_ok.1 h
    obtain ⟨b', hb', h1, _⟩ := andThen_marks h
    rw [h1, withBucket_items]
    intro p it h1' hd f hf
    rw [sel_append]
    rcases four_one h1' with ⟨q1, q2, q3, q4⟩ | ⟨q1, q2, q3, q4⟩ | ⟨q1, q2, q3, q4⟩ | ⟨q1, q2, q3, q4⟩
    · rw [dArrayLoops_sel_none sh _ _ hl q3]
      obtain ⟨e1, e2⟩ := (dOpsThen_sel X sh r hb' q4).2 _ q1
      simp only at e1; subst e1
      rw [hf _ (self_mem _) 0 _ (e2 0)]
      simp [walk]
    · exfalso
      have hm := (mem_withBucket.1 (by rw [q2]; exact List.mem_singleton.2 rfl : (p, it) ∈ withBucket i (itemsE es))).1
      obtain ⟨k, p', rfl⟩ := itemsE_cons q2
      refine loops_content hcl (by simpa using hemp) (k := k) (p := p') (Or.inl ⟨it, ?_⟩)
      rw [items]
      exact List.mem_append_right _ (List.mem_append_left _ hm)
    · rw [(dOpsThen_sel X sh r hb' q4).1 q1, List.append_nil]
      obtain ⟨m, e, he, hd'⟩ := dArrayLoops_sel_one sh _ _ hl q3
      cases he
      rw [hre] at hd'
      have hfs := hf _ (self_mem _) hh _ hd'
      simp only at hfs ⊢
      rw [hfs]; simp [walk]
    · exact absurd hd (after_direct q4)

/-- The decisions of a node that stores nothing, for the slots it starts with. -/
theorem dExec_decides1 : ∀ h : Nat, RecI1 X sh r (dExec X sh r h)
  | 0 => by intro n d σ a i h; cases h
  | hh + 1 => by
    intro n d σ a i h hns ht hfu hcl
    obtain ⟨st, es, ops, ls, af⟩ := n
    have ih := dExec_decides X sh r hh
    have ih1 := dExec_decides1 hh
    have hN := dExec_still X sh r hh
    cases d with
    | lit ty s => exact opsThen_decides1 X sh r h (by exact id) (fun k p _ => rfl)
    | obj ws ms => exact dObj_decides1 X sh r ih ih1 hN h hns.2.1 ht.1 hfu.1 hcl
    | arr ws xs => exact dArr_decides1 X sh r rfl ih ih1 hN h hns.2.1 ht.1 hfu.1 hcl

end

end Verif.Transform
