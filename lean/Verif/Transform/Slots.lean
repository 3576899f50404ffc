import Verif.Transform.Walk

/-!
# Slots and the operations of an `AfterNode`

What a node leaves in a slot, and what the operations of an `AfterNode` decide when they read values stored below it.
-/

namespace Verif.Transform
open Verif.FastVal Verif.Match Verif.Expr
open Verif.Token (D Es Ms Tok)
open Verif.BinTree (Sh K)

variable {E : Ext}

/-- The content of a slot. -/
def look (σ : Slots) (s : Nat) : Option D := (σ[s - 1]?).join

/-- The last of the values, or what was there before. -/
def lastOf (old : Option D) (l : List D) : Option D := l.foldl (fun _ x => some x) old

theorem lastOf_append (o : Option D) (l l' : List D) : lastOf o (l ++ l') = lastOf (lastOf o l) l' := List.foldl_append ..
theorem lastOf_nil (o : Option D) : lastOf o [] = o := rfl
theorem lastOf_one (o : Option D) (x : D) : lastOf o [x] = some x := rfl

/-- The paths of the notes for a slot. -/
def withSlot (s : Nat) (l : List (Path × Note)) : List Path := (l.filter (fun x => decide (x.2 = .slot s))).map Prod.fst

theorem withSlot_append (s : Nat) (l l' : List (Path × Note)) : withSlot s (l ++ l') = withSlot s l ++ withSlot s l' := by
  simp [withSlot]

theorem withSlot_under (s : Nat) (k : List Nat) (l : List (Path × Note)) : withSlot s (under k l) = (withSlot s l).map (k :: ·) := by
  simp [withSlot, under, List.filter_map, Function.comp_def]

theorem mem_withSlot {s : Nat} {l : List (Path × Note)} {p : Path} : p ∈ withSlot s l ↔ (p, Note.slot s) ∈ l := by
  simp [withSlot]

theorem withSlot_mk {s : Nat} (hs : 0 < s) {st : Nat} {es : Elems E} {ops : List (Op E)} {ls : Loops E} {a : After E} :
    withSlot s (notes (.mk st es ops ls a)) = (if st = s then [[]] else []) ++ withSlot s (notesE es) := by
  rw [notes, withSlot_append, withSlot_append]
  have h1 : withSlot s (slotNote st) = if st = s then [[]] else [] := by
    unfold slotNote
    by_cases h : st = s
    · subst h; rw [if_neg (by omega), if_pos rfl]; simp [withSlot]
    · rw [if_neg h]
      split
      · rfl
      · simp [withSlot, h]
  have h2 : withSlot s (afterNote a) = [] := by cases a <;> simp [afterNote, withSlot]
  rw [h1, h2, List.nil_append]

theorem notesE_none {s : Nat} {es : Elems E} (h : withSlot s (notesE es) = []) :
    ∀ k' e', es.find k' = some e' → withSlot s (notes e') = [] := by
  intro k' e' he
  apply List.eq_nil_iff_forall_not_mem.2
  intro y hy
  have := mem_withSlot.2 (mem_notesE_find he (x := (y, Note.slot s)) (mem_withSlot.1 hy))
  rw [h] at this; cases this

/-- The notes of `notesE` for a slot, seen from a key. -/
theorem notesE_find {s : Nat} {es : Elems E} (ht : es.Tidy) {x : Path} (h : withSlot s (notesE es) = [x]) :
    ∃ k p e, x = k :: p ∧ es.find k = some e ∧ withSlot s (notes e) = [p] ∧
      ∀ k' e', k' ≠ k → es.find k' = some e' → withSlot s (notes e') = [] := by
  match es, ht with
  | .nil, _ => simp [notesE, withSlot] at h
  | .cons k e r, ht =>
    rw [notesE, withSlot_append, withSlot_under] at h
    cases hh : withSlot s (notes e) with
    | nil =>
      rw [hh, List.map_nil, List.nil_append] at h
      obtain ⟨k1, p, e1, h1, h2, h3, h4⟩ := notesE_find (es := r) ht.2.2 h
      have hk : k ≠ k1 := by
        intro hk; subst hk; rw [ht.1] at h2; cases h2
      refine ⟨k1, p, e1, h1, by rw [Elems.find, if_neg hk]; exact h2, h3, ?_⟩
      intro k' e' hk' he'
      rw [Elems.find] at he'
      split at he'
      · cases he'; exact hh
      · exact h4 k' e' hk' he'
    | cons y ys =>
      rw [hh, List.map_cons, List.cons_append, List.cons.injEq] at h
      obtain ⟨h1, h2⟩ := h
      obtain ⟨h3, h4⟩ := List.append_eq_nil_iff.1 h2
      have hys : ys = [] := List.map_eq_nil_iff.1 h3
      subst hys
      subst h1
      refine ⟨k, y, e, rfl, by rw [Elems.find, if_pos rfl], hh, ?_⟩
      intro k' e' hk' he'
      rw [Elems.find, if_neg (Ne.symm hk')] at he'
      exact notesE_none h4 k' e' he'

/-! ### Slots after a run -/

theorem dStore_look {st s : Nat} (hs : 0 < s) {d : D} {σ σ' : Slots} (h : dStore st d σ = .ok σ') :
    look σ' s = if st = s then some d else look σ s := by
  unfold dStore at h
  split at h
  · cases h
    rw [if_neg (by omega)]
  · split at h
    · rename_i h0 hl
      cases h
      by_cases he : st = s
      · subst he; simp [look, hl]
      · rw [if_neg he, look, look, List.getElem?_set_ne (by omega)]
    · cases h

section
variable (X : Fns E) (sh : Nat → Sh) (r : D)

theorem dOpsThen_look {rec : DRec E} {σ : Slots} {st s : Nat} (hs : 0 < s) {ops : List (Op E)} {a : After E} {d : D} {c : Marks × Slots}
    (h : dOpsThen X rec sh r ops st a d σ = .ok c) : look c.2 s = if st = s then some d else look σ s := by
  rw [dOpsThen] at h
  obtain ⟨v, _, h⟩ := Res.bind_eq_ok.1 h
  obtain ⟨l, _, h⟩ := Res.bind_eq_ok.1 h
  obtain ⟨b, hb, _, h2⟩ := andThen_marks h
  rw [dFinish] at hb
  obtain ⟨l', _, hb⟩ := Res.bind_eq_ok.1 hb
  obtain ⟨σ', hσ, hb⟩ := Res.bind_eq_ok.1 hb
  cases hb
  rw [h2]
  exact dStore_look hs hσ

/-- What is claimed of a slot. -/
def Slotted (s : Nat) (L : List Path) (d : D) (σ σ' : Slots) : Prop :=
  (L = [] → look σ' s = look σ s) ∧ (∀ p, L = [p] → look σ' s = lastOf (look σ s) (walk p d))

def RecS (rec : DRec E) : Prop :=
  ∀ n d σ a s, 0 < s → rec n d σ = .ok a → n.Tidy → n.Full → Clear n d → Slotted s (withSlot s (notes n)) d σ a.2

theorem dMembers_slot_none {rec : DRec E} (hrec : RecS rec) {es : Elems E} (ht : es.Tidy) (hfu : es.Full) {s : Nat} (hs : 0 < s)
    (hn : withSlot s (notesE es) = []) : ∀ (ms : Ms) (σ : Slots) (a : Marks × Slots), dMembers rec es ms σ = .ok a →
    (∀ k e, es.find k = some e → ∀ x ∈ membersAt k ms, Clear e x) → look a.2 s = look σ s
  | .nil, σ, a, h, _ => by cases h; rfl
  | .cons kty key _ _ d _ _ rest, σ, a, h, hc => by
    rw [dMembers] at h
    obtain ⟨k, hk, h⟩ := Res.bind_eq_ok.1 h
    have hk' := memberKey_ok hk
    have hc' : ∀ k e, es.find k = some e → ∀ x ∈ membersAt k rest, Clear e x := by
      intro k1 e1 h1 x hx
      refine hc k1 e1 h1 x ?_
      rw [membersAt]
      split
      · exact List.mem_cons_of_mem _ hx
      · exact hx
    split at h
    · rename_i e he
      obtain ⟨b, hb, h⟩ := Res.bind_eq_ok.1 h
      obtain ⟨c, hcc, _, h2⟩ := andThen_marks h
      rw [h2, dMembers_slot_none hrec ht hfu hs hn rest b.2 c hcc hc']
      exact (hrec e d σ b s hs hb (Elems.Tidy.find ht he) (Elems.Full.find hfu he)
        (hc k e he d (by rw [membersAt, if_pos hk']; exact List.mem_cons_self))).1 (notesE_none hn k e he)
    · exact dMembers_slot_none hrec ht hfu hs hn rest σ a h hc'

theorem dMembers_slot_one {rec : DRec E} (hrec : RecS rec) {es : Elems E} (ht : es.Tidy) (hfu : es.Full) {s : Nat} (hs : 0 < s) {k p : _}
    (hx : withSlot s (notesE es) = [k :: p]) : ∀ (ms : Ms) (σ : Slots) (a : Marks × Slots),
    dMembers rec es ms σ = .ok a → (∀ k e, es.find k = some e → ∀ x ∈ membersAt k ms, Clear e x) →
    look a.2 s = lastOf (look σ s) ((membersAt k ms).flatMap (walk p))
  | .nil, σ, a, h, _ => by cases h; rfl
  | .cons kty key _ _ d _ _ rest, σ, a, h, hc => by
    rw [dMembers] at h
    obtain ⟨k', hk, h⟩ := Res.bind_eq_ok.1 h
    have hk' := memberKey_ok hk
    have hc' : ∀ k e, es.find k = some e → ∀ x ∈ membersAt k rest, Clear e x := by
      intro k1 e1 h1 x hx
      refine hc k1 e1 h1 x ?_
      rw [membersAt]
      split
      · exact List.mem_cons_of_mem _ hx
      · exact hx
    obtain ⟨k1, p1, e1, q1, q2, q3, q4⟩ := notesE_find ht hx
    simp only [List.cons.injEq] at q1
    obtain ⟨rfl, rfl⟩ := q1
    by_cases hkk : k' = k
    · subst hkk
      rw [q2] at h
      simp only at h
      obtain ⟨b, hb, h⟩ := Res.bind_eq_ok.1 h
      obtain ⟨c, hcc, _, h2⟩ := andThen_marks h
      rw [membersAt, if_pos hk', List.flatMap_cons, lastOf_append, h2]
      rw [dMembers_slot_one hrec ht hfu hs hx rest b.2 c hcc hc']
      rw [(hrec e1 d σ b s hs hb (Elems.Tidy.find ht q2) (Elems.Full.find hfu q2)
        (hc k' e1 q2 d (by rw [membersAt, if_pos hk']; exact List.mem_cons_self))).2 p q3]
    · rw [membersAt, if_neg (by rw [hk']; exact hkk)]
      split at h
      · rename_i e he
        obtain ⟨b, hb, h⟩ := Res.bind_eq_ok.1 h
        obtain ⟨c, hcc, _, h2⟩ := andThen_marks h
        rw [h2, dMembers_slot_one hrec ht hfu hs hx rest b.2 c hcc hc']
        rw [(hrec e d σ b s hs hb (Elems.Tidy.find ht he) (Elems.Full.find hfu he)
          (hc k' e he d (by rw [membersAt, if_pos hk']; exact List.mem_cons_self))).1 (q4 k' e hkk he)]
      · exact dMembers_slot_one hrec ht hfu hs hx rest σ a h hc'

theorem dElems_slot_none {rec : DRec E} (hrec : RecS rec) {es : Elems E} (ht : es.Tidy) (hfu : es.Full) {s : Nat} (hs : 0 < s)
    (hn : withSlot s (notesE es) = []) : ∀ (xs : Es) (j : Nat) (σ : Slots) (a : Marks × Slots), dElems rec es j xs σ = .ok a →
    (∀ k e, es.find k = some e → ∀ x ∈ elemsAt k j xs, Clear e x) → look a.2 s = look σ s
  | .nil, j, σ, a, h, _ => by cases h; rfl
  | .cons d _ _ rest, j, σ, a, h, hc => by
    rw [dElems] at h
    obtain ⟨_, _, h⟩ := Res.bind_eq_ok.1 h
    have hc' : ∀ k e, es.find k = some e → ∀ x ∈ elemsAt k (j + 1) rest, Clear e x := by
      intro k1 e1 h1 x hx
      refine hc k1 e1 h1 x ?_
      rw [elemsAt]
      split
      · exact List.mem_cons_of_mem _ hx
      · exact hx
    split at h
    · rename_i e he
      obtain ⟨b, hb, h⟩ := Res.bind_eq_ok.1 h
      obtain ⟨c, hcc, _, h2⟩ := andThen_marks h
      rw [h2, dElems_slot_none hrec ht hfu hs hn rest (j + 1) b.2 c hcc hc']
      exact (hrec e d σ b s hs hb (Elems.Tidy.find ht he) (Elems.Full.find hfu he)
        (hc _ e he d (by rw [elemsAt, if_pos rfl]; exact List.mem_cons_self))).1 (notesE_none hn _ e he)
    · exact dElems_slot_none hrec ht hfu hs hn rest (j + 1) σ a h hc'

theorem dElems_slot_one {rec : DRec E} (hrec : RecS rec) {es : Elems E} (ht : es.Tidy) (hfu : es.Full) {s : Nat} (hs : 0 < s) {k p : _}
    (hx : withSlot s (notesE es) = [k :: p]) : ∀ (xs : Es) (j : Nat) (σ : Slots) (a : Marks × Slots), dElems rec es j xs σ = .ok a →
    (∀ k e, es.find k = some e → ∀ x ∈ elemsAt k j xs, Clear e x) →
    look a.2 s = lastOf (look σ s) ((elemsAt k j xs).flatMap (walk p))
  | .nil, j, σ, a, h, _ => by cases h; rfl
  | .cons d _ _ rest, j, σ, a, h, hc => by
    rw [dElems] at h
    obtain ⟨_, _, h⟩ := Res.bind_eq_ok.1 h
    have hc' : ∀ k e, es.find k = some e → ∀ x ∈ elemsAt k (j + 1) rest, Clear e x := by
      intro k1 e1 h1 x hx
      refine hc k1 e1 h1 x ?_
      rw [elemsAt]
      split
      · exact List.mem_cons_of_mem _ hx
      · exact hx
    obtain ⟨k1, p1, e1, q1, q2, q3, q4⟩ := notesE_find ht hx
    simp only [List.cons.injEq] at q1
    obtain ⟨rfl, rfl⟩ := q1
    by_cases hkk : indexKey j = k
    · subst hkk
      rw [q2] at h
      simp only at h
      obtain ⟨b, hb, h⟩ := Res.bind_eq_ok.1 h
      obtain ⟨c, hcc, _, h2⟩ := andThen_marks h
      rw [elemsAt, if_pos rfl, List.flatMap_cons, lastOf_append, h2]
      rw [dElems_slot_one hrec ht hfu hs hx rest (j + 1) b.2 c hcc hc']
      rw [(hrec e1 d σ b s hs hb (Elems.Tidy.find ht q2) (Elems.Full.find hfu q2)
        (hc _ e1 q2 d (by rw [elemsAt, if_pos rfl]; exact List.mem_cons_self))).2 p q3]
    · rw [elemsAt, if_neg hkk]
      split at h
      · rename_i e he
        obtain ⟨b, hb, h⟩ := Res.bind_eq_ok.1 h
        obtain ⟨c, hcc, _, h2⟩ := andThen_marks h
        rw [h2, dElems_slot_one hrec ht hfu hs hx rest (j + 1) b.2 c hcc hc']
        rw [(hrec e d σ b s hs hb (Elems.Tidy.find ht he) (Elems.Full.find hfu he)
          (hc _ e he d (by rw [elemsAt, if_pos rfl]; exact List.mem_cons_self))).1 (q4 _ e hkk he)]
      · exact dElems_slot_one hrec ht hfu hs hx rest (j + 1) σ a h hc'

theorem slot_read {st s : Nat} (hs : 0 < s) (h : st = s) {es : Elems E} {ops : List (Op E)} {ls : Loops E} {a : After E} :
    Reads (.mk st es ops ls a : Exec E) [] := by
  subst h
  refine Or.inr ⟨st, ?_⟩
  rw [notes, slotNote, if_neg (by omega)]
  exact List.mem_append_left _ (List.mem_singleton.2 rfl)

/-- Either the node's own slot, or one below. -/
theorem slot_cases {st s : Nat} {L : List Path} {p : Path} (h : (if st = s then [[]] else []) ++ L = [p]) :
    (st = s ∧ p = [] ∧ L = []) ∨ (st ≠ s ∧ L = [p]) := by
  by_cases he : st = s
  · rw [if_pos he] at h; simp at h; exact Or.inl ⟨he, h.1, h.2⟩
  · rw [if_neg he] at h; exact Or.inr ⟨he, h⟩

theorem slot_cases_none {st s : Nat} {L : List Path} (h : (if st = s then [([] : Path)] else []) ++ L = []) : st ≠ s ∧ L = [] := by
  by_cases he : st = s
  · rw [if_pos he] at h; simp at h
  · rw [if_neg he] at h; exact ⟨he, h⟩

/-- A value without anything below the keys. -/
theorem slotted_leaf {s st : Nat} (hs : 0 < s) {es : Elems E} {ops : List (Op E)} {ls : Loops E} {a : After E} {rec : DRec E} {d : D}
    {σ : Slots} {c : Marks × Slots} (h : dOpsThen X rec sh r ops st a d σ = .ok c) (hw : ∀ k p, withSlot s (notesE es) ≠ [] → walk (k :: p) d = []) :
    Slotted s (withSlot s (notes (.mk st es ops ls a))) d σ c.2 := by
  rw [withSlot_mk hs]
  have hl := dOpsThen_look X sh r hs h
  refine ⟨fun h0 => ?_, fun p h1 => ?_⟩
  · rw [hl, if_neg (slot_cases_none h0).1]
  · rcases slot_cases h1 with ⟨h2, rfl, _⟩ | ⟨h2, h3⟩
    · rw [hl, if_pos h2, walk, lastOf_one]
    · have hm : p ∈ withSlot s (notesE es) := by rw [h3]; exact List.mem_singleton.2 rfl
      obtain ⟨k, p', hk⟩ := mem_notesE_cons es (mem_withSlot.1 hm)
      simp only at hk; subst hk
      rw [hl, if_neg h2, hw k p' (by rw [h3]; simp), lastOf_nil]

theorem dObj_slotted {rec : DRec E} (hrec : RecS rec) {s : Nat} (hs : 0 < s) {st : Nat} {es : Elems E} {ops : List (Op E)} {ls : Loops E} {a : After E}
    {ws : List Nat} {ms : Ms} {σ : Slots} {c : Marks × Slots} (h : dObj X rec sh r st es ops a ws ms σ = .ok c)
    (ht : es.Tidy) (hfu : es.Full) (hcl : Clear (.mk st es ops ls a : Exec E) (.obj ws ms)) :
    Slotted s (withSlot s (notes (.mk st es ops ls a))) (.obj ws ms) σ c.2 := by
  rw [dObj] at h
  by_cases hemp : es.isEmpty = true
  · simp only [hemp, if_true] at h
    have : es = .nil := by cases es with
      | nil => rfl
      | cons => cases hemp
    subst this
    exact slotted_leaf X sh r hs h (fun k p hne => absurd rfl hne)
  · simp only [hemp, Bool.false_eq_true, if_false] at h
    obtain ⟨b, hb, h⟩ := Res.bind_eq_ok.1 h
    obtain ⟨l, hl, h⟩ := Res.bind_eq_ok.1 h
    have hsub : ∀ k e, es.find k = some e → ∀ x ∈ membersAt k ms, Clear e x := by
      intro k e he x hx
      refine hcl.sub (k := k) ht he ?_
      · intro p y hy; rw [walk]; exact List.mem_flatMap.2 ⟨x, hx, hy⟩
    rw [withSlot_mk hs]
    cases ms with
    | nil =>
      cases hb
      cases h
      refine ⟨fun _ => rfl, fun p h1 => ?_⟩
      rcases slot_cases h1 with ⟨h2, rfl, _⟩ | ⟨h2, h3⟩
      · exfalso
        obtain ⟨k, p', hk⟩ := content_below hfu (by simpa using hemp)
        exact hcl.obj [] (slot_read hs h2) (.obj ws .nil) (self_mem _) trivial k p' (hk _ _ _ _)
      · have hm : p ∈ withSlot s (notesE es) := by rw [h3]; exact List.mem_singleton.2 rfl
        obtain ⟨k, p', hk⟩ := mem_notesE_cons es (mem_withSlot.1 hm)
        simp only at hk; subst hk
        rfl
    | cons kty key k1 k2 v w1 w2 rest =>
      obtain ⟨b', hb', _, h2⟩ := andThen_marks h
      have hl' := dOpsThen_look X sh r hs hb'
      rw [h2]
      refine ⟨fun h0 => ?_, fun p h1 => ?_⟩
      · obtain ⟨z1, z2⟩ := slot_cases_none h0
        rw [hl', if_neg z1, dMembers_slot_none hrec ht hfu hs z2 _ _ _ hb hsub]
      · rcases slot_cases h1 with ⟨h2, rfl, _⟩ | ⟨h2, h3⟩
        · rw [hl', if_pos h2, walk, lastOf_one]
        · have hm : p ∈ withSlot s (notesE es) := by rw [h3]; exact List.mem_singleton.2 rfl
          obtain ⟨k, p', hk⟩ := mem_notesE_cons es (mem_withSlot.1 hm)
          simp only at hk; subst hk
          rw [hl', if_neg h2, dMembers_slot_one hrec ht hfu hs h3 _ _ _ hb hsub, walk]

theorem no_loop_nil {st : Nat} {es : Elems E} {ops : List (Op E)} {a : After E} {b m t e} :
    ([], Item.loop b m t e) ∉ items (.mk st es ops .nil a : Exec E) := by
  intro hl
  rw [items] at hl
  rcases List.mem_append.1 hl with hl | hl
  · obtain ⟨o, _, hl⟩ := List.mem_map.1 hl; simp at hl
  · rcases List.mem_append.1 hl with hl | hl
    · obtain ⟨k, p', hk⟩ := opsThen_decides.mem_itemsE_cons es hl
      simp at hk
    · rcases List.mem_append.1 hl with hl | hl
      · cases hl
      · cases a with
        | none => cases hl
        | some ops' ls' =>
          rw [afterItems] at hl
          rcases List.mem_append.1 hl with hl | hl
          · obtain ⟨o, _, hl⟩ := List.mem_map.1 hl; simp at hl
          · exact after_direct.aux ls' hl trivial

/-- A looped array has no content below it. -/
theorem loops_content {st : Nat} {es : Elems E} {ops : List (Op E)} {ls : Loops E} {a : After E} {ws : List Nat} {xs : Es}
    (hcl : Clear (.mk st es ops ls a : Exec E) (.arr ws xs)) (hemp : ls.isEmpty = false) {k : List Nat} {p : Path}
    (hc : Content (.mk st es ops ls a : Exec E) (k :: p)) : False := by
  cases ls with
  | nil => simp [Loops.isEmpty] at hemp
  | cons b m t e ls =>
    refine hcl.loops [] b m t e ?_ k p hc _ (self_mem _) trivial
    rw [items, loopItems]
    exact List.mem_append_right _ (List.mem_append_right _ (List.mem_append_left _ List.mem_cons_self))

theorem dArr_slotted {rec : DRec E} (hrec : RecS rec) {s : Nat} (hs : 0 < s) {st : Nat} {es : Elems E} {ops : List (Op E)} {ls : Loops E} {a : After E}
    {ws : List Nat} {xs : Es} {σ : Slots} {c : Marks × Slots} (h : dArr X rec sh r st es ops ls a ws xs σ = .ok c)
    (ht : es.Tidy) (hfu : es.Full) (hcl : Clear (.mk st es ops ls a : Exec E) (.arr ws xs)) :
    Slotted s (withSlot s (notes (.mk st es ops ls a))) (.arr ws xs) σ c.2 := by
  rw [dArr.eq_def] at h
  by_cases hemp : ls.isEmpty = true
  · simp only [hemp, if_true] at h
    have hls : ls = .nil := by cases ls with
      | nil => rfl
      | cons => cases hemp
    subst hls
    rw [withSlot_mk hs]
    cases xs with
    | nil =>
      cases h
      refine ⟨fun _ => rfl, fun p h1 => ?_⟩
      rcases slot_cases h1 with ⟨h2, rfl, _⟩ | ⟨h2, h3⟩
      · exfalso
        obtain ⟨b, m, t, e, hl⟩ := hcl.arr [] (slot_read hs h2) _ (self_mem (.arr ws .nil)) trivial
        exact no_loop_nil hl
      · have hm : p ∈ withSlot s (notesE es) := by rw [h3]; exact List.mem_singleton.2 rfl
        obtain ⟨k, p', hk⟩ := mem_notesE_cons es (mem_withSlot.1 hm)
        simp only at hk; subst hk
        rfl
    | cons v w1 w2 rest =>
      have hsub : ∀ k e, es.find k = some e → ∀ x ∈ elemsAt k 0 (.cons v w1 w2 rest), Clear e x := by
        intro k e he x hx
        refine hcl.sub (k := k) ht he ?_
        · intro p y hy; rw [walk]; exact List.mem_flatMap.2 ⟨x, hx, hy⟩
      obtain ⟨b, hb, h⟩ := Res.bind_eq_ok.1 h
      obtain ⟨b', hb', _, h2⟩ := andThen_marks h
      have hl' := dOpsThen_look X sh r hs hb'
      rw [h2]
      refine ⟨fun h0 => ?_, fun p h1 => ?_⟩
      · obtain ⟨z1, z2⟩ := slot_cases_none h0
        rw [hl', if_neg z1, dElems_slot_none hrec ht hfu hs z2 _ _ _ _ hb hsub]
      · rcases slot_cases h1 with ⟨h2, rfl, _⟩ | ⟨h2, h3⟩
        · rw [hl', if_pos h2, walk, lastOf_one]
        · have hm : p ∈ withSlot s (notesE es) := by rw [h3]; exact List.mem_singleton.2 rfl
          obtain ⟨k, p', hk⟩ := mem_notesE_cons es (mem_withSlot.1 hm)
          simp only at hk; subst hk
          rw [hl', if_neg h2, dElems_slot_one hrec ht hfu hs h3 _ _ _ _ hb hsub, walk]
  · simp only [hemp, Bool.false_eq_true, if_false] at h
    obtain ⟨l, hl, h⟩ := Res.bind_eq_ok.1 h
    obtain ⟨b', hb', _, h2⟩ := andThen_marks h
    have hl' := dOpsThen_look X sh r hs hb'
    rw [h2, withSlot_mk hs]
    refine ⟨fun h0 => ?_, fun p h1 => ?_⟩
    · rw [hl', if_neg (slot_cases_none h0).1]
    · rcases slot_cases h1 with ⟨h2, rfl, _⟩ | ⟨h2, h3⟩
      · rw [hl', if_pos h2, walk, lastOf_one]
      · exfalso
        have hm : p ∈ withSlot s (notesE es) := by rw [h3]; exact List.mem_singleton.2 rfl
        have hm' := mem_withSlot.1 hm
        obtain ⟨k, p', hk⟩ := mem_notesE_cons es hm'
        simp only at hk; subst hk
        refine loops_content hcl (by simpa using hemp) (k := k) (p := p') (Or.inr ⟨.slot s, ?_⟩)
        · rw [notes]; exact List.mem_append_right _ (List.mem_append_right _ hm')

/-- A slot stored at one path ends up with the last value at the path. -/
theorem dExec_slotted : ∀ h : Nat, RecS (dExec X sh r h)
  | 0 => by intro n d σ a s _ h; cases h
  | hh + 1 => by
    intro n d σ a s hs h ht hfu hcl
    obtain ⟨st, es, ops, ls, af⟩ := n
    have ih := dExec_slotted hh
    cases d with
    | lit ty w => exact slotted_leaf X sh r hs h (fun k p _ => rfl)
    | obj ws ms => exact dObj_slotted X sh r ih hs h ht.1 hfu.1 hcl
    | arr ws xs => exact dArr_slotted X sh r ih hs h ht.1 hfu.1 hcl

/-! ### Operations of an `AfterNode` -/

theorem walk_append : ∀ (q p : Path) (d : D), walk (q ++ p) d = (walk q d).flatMap (walk p)
  | [], p, d => by simp [walk]
  | k :: q, p, .obj _ ms => by
    simp only [List.cons_append, walk, List.flatMap_assoc]
    rw [funext (walk_append q p)]
  | k :: q, p, .arr _ es => by
    simp only [List.cons_append, walk, List.flatMap_assoc]
    rw [funext (walk_append q p)]
  | k :: q, p, .lit _ _ => by simp [walk]

theorem get_append (l l' : Marks) (i : Nat) : Marks.get (l ++ l') i = (l.get i).or (l'.get i) := by
  rw [get_of_sel, get_of_sel, get_of_sel, sel_append, List.head?_append]
  cases (sel i l).head? <;> simp

theorem get_none {i : Nat} {l : Marks} (h : sel i l = []) : l.get i = none := by rw [get_of_sel, h]; rfl

/-- The operations of an `AfterNode` are not reached on an empty array. -/
def afterVal (f : D → Bool) : D → Option Bool
  | .arr _ .nil => none
  | x => some (f x)

/-- The slots `SP`, stored below `q`, are empty in `σ`. -/
structure Waits (n : Exec E) (q : Path) (SP : List (Nat × Path)) (σ : Slots) : Prop where
  ne : SP ≠ []
  pos : ∀ x ∈ SP, 0 < x.1
  below : ∀ x ∈ SP, x.2 ≠ []
  one : ∀ x ∈ SP, withSlot x.1 (notes n) = [q ++ x.2]
  empty : ∀ x ∈ SP, look σ x.1 = none

/-- The slots have the last values below `x`. -/
def Filled (SP : List (Nat × Path)) (x : D) (σ : Slots) : Prop := ∀ y ∈ SP, look σ y.1 = lastOf none (walk y.2 x)

/-- At each of the values, the slots are empty or will be filled. -/
def Fillable (SP : List (Nat × Path)) (xs : List D) (σ : Slots) : Prop := ∀ x ∈ xs, ∀ y ∈ SP, look σ y.1 = none ∨ walk y.2 x ≠ []

theorem lastOf_ne {o o' : Option D} {l : List D} (h : l ≠ []) : lastOf o l = lastOf o' l := by
  cases l with
  | nil => exact absurd rfl h
  | cons x l => rfl

theorem Fillable.fill {SP : List (Nat × Path)} {xs : List D} {σ : Slots} (h : Fillable SP xs σ) {x : D} (hx : x ∈ xs) {y : Nat × Path} (hy : y ∈ SP) :
    lastOf (look σ y.1) (walk y.2 x) = lastOf none (walk y.2 x) := by
  rcases h x hx y hy with h | h
  · rw [h]
  · exact lastOf_ne h

def RecA (rec : DRec E) : Prop :=
  ∀ n d σ a i q o SP f, rec n d σ = .ok a → n.Tidy → n.Full → Clear n d → withBucket i (items n) = [(q, Item.aop o)] → Waits n q SP [] →
    Fillable SP (walk q d) σ →
    (∀ x ∈ walk q d, ∀ σ', Filled SP x σ' → ∀ v, opResult X (slotVal r σ') none o = .ok v → v.1 = f x) →
    Marks.get a.1 i = (walk q d).findSome? (afterVal f)

theorem dAfter_one {rec : DRec E} {σ : Slots} {a : After E} {l : Marks} {i : Nat} {x : Path × Item E} {o : Op E} (h : dAfter X rec sh r σ a = .ok l)
    (hx : withBucket i (afterItems a) = [x]) (ho : x.2 = .aop o) :
    x.1 = [] ∧ ∃ v, opResult X (slotVal r σ) none o = .ok v ∧ l.get i = some v.1 := by
  cases a with
  | none => simp [afterItems, withBucket] at hx
  | some ops ls =>
    rw [afterItems, withBucket_append] at hx
    rw [dAfter] at h
    obtain ⟨l1, h1, h⟩ := Res.bind_eq_ok.1 h
    obtain ⟨l2, h2, h⟩ := Res.bind_eq_ok.1 h
    cases h
    have haux : ∀ ls : Loops E, x ∉ withBucket i (loopItems .aloop ls) := by
      intro ls hm
      have := (mem_withBucket.1 hm).1
      have : ∀ ls : Loops E, x ∉ loopItems .aloop ls := by
        intro ls
        exact aux ho ls
      exact this ls (mem_withBucket.1 hm).1
    cases hA : withBucket i (ops.map (fun o => (([] : Path), Item.aop o))) with
    | nil =>
      rw [hA, List.nil_append] at hx
      exact absurd (by rw [hx]; exact List.mem_singleton.2 rfl) (haux ls)
    | cons y ys =>
      rw [hA, List.cons_append, List.cons.injEq] at hx
      obtain ⟨rfl, hx⟩ := hx
      obtain ⟨rfl, hls⟩ := List.append_eq_nil_iff.1 hx
      rw [withBucket_map_ops _ (fun _ => rfl)] at hA
      cases hf : ops.filter (fun o => decide (o.bucket = i)) with
      | nil => rw [hf] at hA; simp at hA
      | cons o' rest =>
        rw [hf] at hA
        simp only [List.map_cons, List.cons.injEq, List.map_eq_nil_iff] at hA
        obtain ⟨rfl, rfl⟩ := hA
        simp only [Item.aop.injEq] at ho
        subst ho
        obtain ⟨v, hv, hs⟩ := dOps_sel_one X r ops l2 h2 hf
        refine ⟨rfl, v, hv, ?_⟩
        rw [get_append, get_none (dAfterLoops_sel_none sh r ls l1 h1 hls), Option.none_or, get_of_sel, hs]
        rfl
where aux {x : Path × Item E} {o : Op E} (ho : x.2 = .aop o) : ∀ ls : Loops E, x ∉ loopItems Item.aloop ls
  | .nil, h => by cases h
  | .cons b m t e r, h => by
    rw [loopItems] at h
    rcases List.mem_cons.1 h with rfl | h
    · cases ho
    · exact aux ho r h

theorem lastOf_empty {q : Path} {SP : List (Nat × Path)} {d : D} {f : D → Bool} (hb : ∀ x ∈ SP, x.2 ≠ [])
    (h : (walk q d).findSome? (afterVal f) = none) : ∀ x ∈ SP, walk (q ++ x.2) d = [] := by
  intro x hx
  rw [walk_append]
  apply List.flatMap_eq_nil_iff.2
  intro y hy
  have hy' := List.findSome?_eq_none_iff.1 h y hy
  obtain ⟨k, p, hk⟩ := List.exists_cons_of_ne_nil (hb x hx)
  rw [hk]
  unfold afterVal at hy'
  split at hy'
  · rfl
  · cases hy'

/-- The waiting slots, seen from a key. -/
theorem Waits.sub {n e : Exec E} {k : List Nat} {q : Path} {SP : List (Nat × Path)} {σ : Slots} {es : Elems E} (ht : es.Tidy)
    (hn : ∀ x ∈ SP, withSlot x.1 (notesE es) = [k :: q ++ x.2]) (he : es.find k = some e) (h : Waits n (k :: q) SP σ) : Waits e q SP σ := by
  refine ⟨h.ne, h.pos, h.below, fun x hx => ?_, h.empty⟩
  obtain ⟨k1, p1, e1, q1, q2, q3, _⟩ := notesE_find ht (hn x hx)
  simp only [List.cons_append, List.cons.injEq] at q1
  obtain ⟨rfl, rfl⟩ := q1
  rw [he] at q2
  cases q2
  exact q3

/-- The slots of the parts of a node without the slots `SP` are left alone. -/
theorem sub_other {k k' : List Nat} {q : Path} {SP : List (Nat × Path)} {es : Elems E} {e : Exec E} (ht : es.Tidy)
    (hn : ∀ x ∈ SP, withSlot x.1 (notesE es) = [k :: q ++ x.2]) (hk : k' ≠ k) (he : es.find k' = some e) :
    ∀ x ∈ SP, withSlot x.1 (notes e) = [] := by
  intro x hx
  obtain ⟨k1, p1, e1, q1, _, _, q4⟩ := notesE_find ht (hn x hx)
  simp only [List.cons_append, List.cons.injEq] at q1
  obtain ⟨rfl, rfl⟩ := q1
  exact q4 k' e hk he

theorem Fillable.later {SP : List (Nat × Path)} {xs ys : List D} {σ σ' : Slots} (h : Fillable SP xs σ) (hs : ∀ y ∈ ys, y ∈ xs)
    (hl : ∀ y ∈ SP, look σ y.1 = none → look σ' y.1 = none) : Fillable SP ys σ' :=
  fun x hx y hy => (h x (hs x hx) y hy).imp (hl y hy) id

theorem dMembers_after {rec : DRec E} (hI : RecI X sh r rec) (hS : RecS rec) (hA : RecA X r rec) {es : Elems E} (ht : es.Tidy) (hfu : es.Full) {i : Nat}
    {k : List Nat} {q : Path} {o : Op E} {SP : List (Nat × Path)} {f : D → Bool} {n : Exec E} (hx : withBucket i (itemsE es) = [(k :: q, Item.aop o)])
    (hn : ∀ x ∈ SP, withSlot x.1 (notesE es) = [k :: q ++ x.2]) : ∀ (ms : Ms) (σ : Slots) (a : Marks × Slots),
    dMembers rec es ms σ = .ok a → (∀ k e, es.find k = some e → ∀ x ∈ membersAt k ms, Clear e x) → Waits n (k :: q) SP [] →
    Fillable SP ((membersAt k ms).flatMap (walk q)) σ →
    (∀ x ∈ (membersAt k ms).flatMap (walk q), ∀ σ', Filled SP x σ' → ∀ v, opResult X (slotVal r σ') none o = .ok v → v.1 = f x) →
    Marks.get a.1 i = ((membersAt k ms).flatMap (walk q)).findSome? (afterVal f)
  | .nil, σ, a, h, _, _, _, _ => by cases h; rfl
  | .cons kty key _ _ d _ _ rest, σ, a, h, hc, hw, hy, hf => by
    rw [dMembers] at h
    obtain ⟨k', hk, h⟩ := Res.bind_eq_ok.1 h
    have hk' := memberKey_ok hk
    have hc' : ∀ k e, es.find k = some e → ∀ x ∈ membersAt k rest, Clear e x := by
      intro k1 e1 h1 x hx
      refine hc k1 e1 h1 x ?_
      rw [membersAt]
      split
      · exact List.mem_cons_of_mem _ hx
      · exact hx
    obtain ⟨k1, p1, e1, q1, q2, q3, q4⟩ := itemsE_find ht hx
    simp only [List.cons.injEq] at q1
    obtain ⟨rfl, rfl⟩ := q1
    by_cases hkk : k' = k
    · subst hkk
      rw [q2] at h
      simp only at h
      obtain ⟨b, hb, h⟩ := Res.bind_eq_ok.1 h
      obtain ⟨c, hcc, h1, _⟩ := andThen_marks h
      rw [membersAt, if_pos hk'] at hf hy ⊢
      rw [List.flatMap_cons] at hf hy ⊢
      have hcl := hc k' e1 q2 d (by rw [membersAt, if_pos hk']; exact List.mem_cons_self)
      have hw1 := hw.sub ht hn q2
      have hd := hA e1 d σ b i q o SP f hb (Elems.Tidy.find ht q2) (Elems.Full.find hfu q2) hcl q3 hw1
        (hy.later (fun x hx => List.mem_append_left _ hx) (fun _ _ h => h)) (fun x hx => hf x (List.mem_append_left _ hx))
      rw [h1, get_append, List.findSome?_append, ← hd]
      cases hg : Marks.get b.1 i with
      | some v => simp
      | none =>
        simp only [Option.none_or]
        refine dMembers_after hI hS hA ht hfu hx hn rest b.2 c hcc hc' hw (hy.later (fun x hx => List.mem_append_right _ hx) ?_)
          (fun x hx => hf x (List.mem_append_right _ hx))
        intro x hx h0
        rw [hg] at hd
        rw [(hS e1 d σ b x.1 (hw.pos x hx) hb (Elems.Tidy.find ht q2) (Elems.Full.find hfu q2) hcl).2 _ (hw1.one x hx),
          lastOf_empty hw.below hd.symm x hx, h0, lastOf_nil]
    · rw [membersAt, if_neg (by rw [hk']; exact hkk)] at hf hy ⊢
      split at h
      · rename_i e he
        obtain ⟨b, hb, h⟩ := Res.bind_eq_ok.1 h
        obtain ⟨c, hcc, h1, _⟩ := andThen_marks h
        have hcl := hc k' e he d (by rw [membersAt, if_pos hk']; exact List.mem_cons_self)
        rw [h1, get_append, get_none ((hI e d σ b i hb (Elems.Tidy.find ht he) (Elems.Full.find hfu he) hcl).1 (q4 k' e hkk he)), Option.none_or]
        refine dMembers_after hI hS hA ht hfu hx hn rest b.2 c hcc hc' hw (hy.later (fun _ h => h) ?_) hf
        intro x hx h0
        rw [(hS e d σ b x.1 (hw.pos x hx) hb (Elems.Tidy.find ht he) (Elems.Full.find hfu he) hcl).1 (sub_other ht hn hkk he x hx), h0]
      · exact dMembers_after hI hS hA ht hfu hx hn rest σ a h hc' hw hy hf

theorem dElems_after {rec : DRec E} (hI : RecI X sh r rec) (hS : RecS rec) (hA : RecA X r rec) {es : Elems E} (ht : es.Tidy) (hfu : es.Full) {i : Nat}
    {k : List Nat} {q : Path} {o : Op E} {SP : List (Nat × Path)} {f : D → Bool} {n : Exec E} (hx : withBucket i (itemsE es) = [(k :: q, Item.aop o)])
    (hn : ∀ x ∈ SP, withSlot x.1 (notesE es) = [k :: q ++ x.2]) : ∀ (xs : Es) (j : Nat) (σ : Slots) (a : Marks × Slots),
    dElems rec es j xs σ = .ok a → (∀ k e, es.find k = some e → ∀ x ∈ elemsAt k j xs, Clear e x) → Waits n (k :: q) SP [] →
    Fillable SP ((elemsAt k j xs).flatMap (walk q)) σ →
    (∀ x ∈ (elemsAt k j xs).flatMap (walk q), ∀ σ', Filled SP x σ' → ∀ v, opResult X (slotVal r σ') none o = .ok v → v.1 = f x) →
    Marks.get a.1 i = ((elemsAt k j xs).flatMap (walk q)).findSome? (afterVal f)
  | .nil, j, σ, a, h, _, _, _, _ => by cases h; rfl
  | .cons d _ _ rest, j, σ, a, h, hc, hw, hy, hf => by
    rw [dElems] at h
    obtain ⟨_, _, h⟩ := Res.bind_eq_ok.1 h
    have hc' : ∀ k e, es.find k = some e → ∀ x ∈ elemsAt k (j + 1) rest, Clear e x := by
      intro k1 e1 h1 x hx
      refine hc k1 e1 h1 x ?_
      rw [elemsAt]
      split
      · exact List.mem_cons_of_mem _ hx
      · exact hx
    obtain ⟨k1, p1, e1, q1, q2, q3, q4⟩ := itemsE_find ht hx
    simp only [List.cons.injEq] at q1
    obtain ⟨rfl, rfl⟩ := q1
    by_cases hkk : indexKey j = k
    · subst hkk
      rw [q2] at h
      simp only at h
      obtain ⟨b, hb, h⟩ := Res.bind_eq_ok.1 h
      obtain ⟨c, hcc, h1, _⟩ := andThen_marks h
      rw [elemsAt, if_pos rfl] at hf hy ⊢
      rw [List.flatMap_cons] at hf hy ⊢
      have hcl := hc _ e1 q2 d (by rw [elemsAt, if_pos rfl]; exact List.mem_cons_self)
      have hw1 := hw.sub ht hn q2
      have hd := hA e1 d σ b i q o SP f hb (Elems.Tidy.find ht q2) (Elems.Full.find hfu q2) hcl q3 hw1
        (hy.later (fun x hx => List.mem_append_left _ hx) (fun _ _ h => h)) (fun x hx => hf x (List.mem_append_left _ hx))
      rw [h1, get_append, List.findSome?_append, ← hd]
      cases hg : Marks.get b.1 i with
      | some v => simp
      | none =>
        simp only [Option.none_or]
        refine dElems_after hI hS hA ht hfu hx hn rest (j + 1) b.2 c hcc hc' hw (hy.later (fun x hx => List.mem_append_right _ hx) ?_)
          (fun x hx => hf x (List.mem_append_right _ hx))
        intro x hx h0
        rw [hg] at hd
        rw [(hS e1 d σ b x.1 (hw.pos x hx) hb (Elems.Tidy.find ht q2) (Elems.Full.find hfu q2) hcl).2 _ (hw1.one x hx),
          lastOf_empty hw.below hd.symm x hx, h0, lastOf_nil]
    · rw [elemsAt, if_neg hkk] at hf hy ⊢
      split at h
      · rename_i e he
        obtain ⟨b, hb, h⟩ := Res.bind_eq_ok.1 h
        obtain ⟨c, hcc, h1, _⟩ := andThen_marks h
        have hcl := hc _ e he d (by rw [elemsAt, if_pos rfl]; exact List.mem_cons_self)
        rw [h1, get_append, get_none ((hI e d σ b i hb (Elems.Tidy.find ht he) (Elems.Full.find hfu he) hcl).1 (q4 _ e hkk he)), Option.none_or]
        refine dElems_after hI hS hA ht hfu hx hn rest (j + 1) b.2 c hcc hc' hw (hy.later (fun _ h => h) ?_) hf
        intro x hx h0
        rw [(hS e d σ b x.1 (hw.pos x hx) hb (Elems.Tidy.find ht he) (Elems.Full.find hfu he) hcl).1 (sub_other ht hn hkk he x hx), h0]
      · exact dElems_after hI hS hA ht hfu hx hn rest (j + 1) σ a h hc' hw hy hf

/-- Where the operation of an `AfterNode` is. -/
theorem aop_cases {i st : Nat} {es : Elems E} {ops : List (Op E)} {ls : Loops E} {a : After E} {q : Path} {o : Op E}
    (h : withBucket i (items (.mk st es ops ls a)) = [(q, Item.aop o)]) :
    withBucket i (ops.map (fun o => (([] : Path), Item.op o))) = [] ∧ withBucket i (loopItems .loop ls) = [] ∧
    ((q = [] ∧ withBucket i (itemsE es) = [] ∧ withBucket i (afterItems a) = [([], .aop o)]) ∨
     (∃ k q', q = k :: q' ∧ withBucket i (itemsE es) = [(q, Item.aop o)] ∧ withBucket i (afterItems a) = [])) := by
  rw [items] at h
  simp only [withBucket_append] at h
  rcases four_one h with ⟨q1, q2, q3, q4⟩ | ⟨q1, q2, q3, q4⟩ | ⟨q1, q2, q3, q4⟩ | ⟨q1, q2, q3, q4⟩
  · exfalso
    have : (q, Item.aop o) ∈ withBucket i (ops.map (fun o => (([] : Path), Item.op o))) := by rw [q1]; exact List.mem_singleton.2 rfl
    obtain ⟨o', _, he⟩ := List.mem_map.1 (mem_withBucket.1 this).1
    cases he
  · refine ⟨q1, q3, Or.inr ?_⟩
    have hm : (q, Item.aop o) ∈ withBucket i (itemsE es) := by rw [q2]; exact List.mem_singleton.2 rfl
    obtain ⟨k, p', hk⟩ := opsThen_decides.mem_itemsE_cons es (mem_withBucket.1 hm).1
    simp only at hk
    exact ⟨k, p', hk, q2, q4⟩
  · exfalso
    obtain ⟨m, t, e, he⟩ := loop_item q3
    cases he
  · have hm : (q, Item.aop o) ∈ withBucket i (afterItems a) := by rw [q4]; exact List.mem_singleton.2 rfl
    have hq : q = [] := by
      have := (mem_withBucket.1 hm).1
      cases a with
      | none => cases this
      | some ops' ls' =>
        rw [afterItems] at this
        rcases List.mem_append.1 this with h | h
        · obtain ⟨_, _, h⟩ := List.mem_map.1 h; cases h; rfl
        · have := loop_nil ls' h; exact this
    subst hq
    exact ⟨q1, q3, Or.inl ⟨rfl, q2, q4⟩⟩

/-- The slots below a node, when none is its own. -/
theorem Waits.inner {st : Nat} {es : Elems E} {ops : List (Op E)} {ls : Loops E} {a : After E} {q : Path} {SP : List (Nat × Path)} {σ : Slots}
    (h : Waits (.mk st es ops ls a : Exec E) q SP σ) : ∀ x ∈ SP, st ≠ x.1 ∧ withSlot x.1 (notesE es) = [q ++ x.2] := by
  intro x hx
  have h1 := h.one x hx
  rw [withSlot_mk (h.pos x hx)] at h1
  rcases slot_cases h1 with ⟨_, h3, _⟩ | h3
  · exact absurd (List.append_eq_nil_iff.1 h3).2 (h.below x hx)
  · exact h3

theorem Waits.content {st : Nat} {es : Elems E} {ops : List (Op E)} {ls : Loops E} {a : After E} {q : Path} {SP : List (Nat × Path)} {σ : Slots}
    (h : Waits (.mk st es ops ls a : Exec E) q SP σ) : ∃ k p, Content (.mk st es ops ls a : Exec E) (k :: p) := by
  obtain ⟨x, hx⟩ := List.exists_mem_of_ne_nil _ h.ne
  obtain ⟨_, h2⟩ := h.inner x hx
  have hm : q ++ x.2 ∈ withSlot x.1 (notesE es) := by rw [h2]; exact List.mem_singleton.2 rfl
  have hm' := mem_withSlot.1 hm
  obtain ⟨k, p', hk⟩ := mem_notesE_cons es hm'
  simp only at hk
  refine ⟨k, p', Or.inr ⟨.slot x.1, ?_⟩⟩
  rw [← hk, notes]
  exact List.mem_append_right _ (List.mem_append_right _ hm')

theorem Waits.ne_empty {st : Nat} {es : Elems E} {ops : List (Op E)} {ls : Loops E} {a : After E} {q : Path} {SP : List (Nat × Path)} {σ : Slots}
    (h : Waits (.mk st es ops ls a : Exec E) q SP σ) : es.isEmpty = false := by
  obtain ⟨x, hx⟩ := List.exists_mem_of_ne_nil _ h.ne
  obtain ⟨_, h2⟩ := h.inner x hx
  cases es with
  | nil => simp [notesE, withSlot] at h2
  | cons => rfl

theorem dOpsThen_after {rec : DRec E} {σ : Slots} {i st : Nat} {ops : List (Op E)} {a : After E} {d : D} {c : Marks × Slots} {o : Op E}
    (h : dOpsThen X rec sh r ops st a d σ = .ok c) (h1 : withBucket i (ops.map (fun o => (([] : Path), Item.op o))) = [])
    (h2 : withBucket i (afterItems a) = [([], .aop o)]) :
    ∃ v, opResult X (slotVal r σ) none o = .ok v ∧ Marks.get c.1 i = some v.1 := by
  rw [dOpsThen] at h
  obtain ⟨v, hv, h⟩ := Res.bind_eq_ok.1 h
  obtain ⟨l, hl, h⟩ := Res.bind_eq_ok.1 h
  obtain ⟨b, hb, e1, _⟩ := andThen_marks h
  rw [dFinish] at hb
  obtain ⟨l', hl', hb⟩ := Res.bind_eq_ok.1 hb
  obtain ⟨σ', hσ, hb⟩ := Res.bind_eq_ok.1 hb
  cases hb
  obtain ⟨_, w, hw, hg⟩ := dAfter_one X sh r hl' h2 rfl
  refine ⟨w, hw, ?_⟩
  rw [e1, get_append, get_none (dOps_sel_none X r ops l hl (ops_none (fun _ => rfl) h1)), Option.none_or, hg]

/-- What the operation of an `AfterNode` decides. -/
theorem dExec_after : ∀ h : Nat, RecA X r (dExec X sh r h)
  | 0 => by intro n d σ a i q o SP f h; cases h
  | hh + 1 => by
    intro n d σ c i q o SP f h ht hfu hcl hi hw hy hf
    obtain ⟨st, es, ops, ls, a⟩ := n
    obtain ⟨i1, i2, i3⟩ := aop_cases hi
    have hne := hw.ne_empty
    cases d with
    | lit ty w =>
      rcases i3 with ⟨rfl, i4, i5⟩ | ⟨k, q', rfl, i4, i5⟩
      · obtain ⟨v, hv, hg⟩ := dOpsThen_after X sh r h i1 i5
        rw [hg, hf _ (self_mem _) σ ?_ v hv]
        · rfl
        · intro x hx
          obtain ⟨k, p, hk⟩ := List.exists_cons_of_ne_nil (hw.below x hx)
          have := hy.fill (self_mem _) hx
          rw [hk] at this ⊢
          exact this
      · rw [get_none ((dOpsThen_sel X sh r h i5).1 i1)]; rfl
    | obj ws ms =>
      have hsub : ∀ k e, es.find k = some e → ∀ x ∈ membersAt k ms, Clear e x := by
        intro k e he x hx
        refine hcl.sub (k := k) ht.1 he ?_
        · intro p y hy; rw [walk]; exact List.mem_flatMap.2 ⟨x, hx, hy⟩
      simp only [dExec, dObj, hne, Bool.false_eq_true, if_false] at h
      obtain ⟨b, hb, h⟩ := Res.bind_eq_ok.1 h
      obtain ⟨l, hl, h⟩ := Res.bind_eq_ok.1 h
      have hin := hw.inner
      have hfirst : Marks.get (b.1 ++ l) i = (walk q (.obj ws ms)).findSome? (afterVal f) := by
        rcases i3 with ⟨rfl, i4, i5⟩ | ⟨k, q', rfl, i4, i5⟩
        · obtain ⟨_, v, hv, hg⟩ := dAfter_one X sh r hl i5 rfl
          rw [get_append, get_none (dMembers_none X sh r (dExec_decides X sh r hh) ht.1 hfu.1 i4 _ _ _ hb hsub), Option.none_or, hg]
          rw [hf _ (self_mem _) b.2 ?_ v hv]
          · rfl
          · intro x hx
            obtain ⟨k, p, hk⟩ := List.exists_cons_of_ne_nil (hw.below x hx)
            have h2 := (hin x hx).2
            rw [List.nil_append, hk] at h2
            rw [dMembers_slot_one (dExec_slotted X sh r hh) ht.1 hfu.1 (hw.pos x hx) h2 _ _ _ hb hsub, ← hy.fill (self_mem _) hx, hk, walk]
        · rw [get_append, get_none (dAfter_sel_none X sh r hl i5), Option.or_none]
          rw [dMembers_after X sh r (dExec_decides X sh r hh) (dExec_slotted X sh r hh) (dExec_after hh) ht.1 hfu.1 i4
            (fun x hx => (hin x hx).2) _ _ _ hb hsub hw (by rw [walk] at hy; exact hy) (by rw [walk] at hf; exact hf), walk]
      cases ms with
      | nil => cases h; exact hfirst
      | cons kty key k1 k2 v w1 w2 rest =>
        obtain ⟨b', hb', h1, _⟩ := andThen_marks h
        rw [h1, get_append, hfirst]
        rcases i3 with ⟨rfl, i4, i5⟩ | ⟨k, q', rfl, i4, i5⟩
        · rfl
        · rw [get_none ((dOpsThen_sel X sh r hb' i5).1 i1), Option.or_none]
    | arr ws xs =>
      by_cases hemp : ls.isEmpty = true
      · have hls : ls = .nil := by cases ls with
          | nil => rfl
          | cons => cases hemp
        subst hls
        simp only [dExec, dArr.eq_def, Loops.isEmpty, if_true] at h
        cases xs with
        | nil =>
          cases h
          rcases i3 with ⟨rfl, i4, i5⟩ | ⟨k, q', rfl, i4, i5⟩ <;> rfl
        | cons v w1 w2 rest =>
          have hsub : ∀ k e, es.find k = some e → ∀ x ∈ elemsAt k 0 (.cons v w1 w2 rest), Clear e x := by
            intro k e he x hx
            refine hcl.sub (k := k) ht.1 he ?_
            · intro p y hy; rw [walk]; exact List.mem_flatMap.2 ⟨x, hx, hy⟩
          obtain ⟨b, hb, h⟩ := Res.bind_eq_ok.1 h
          obtain ⟨b', hb', h1, _⟩ := andThen_marks h
          have hin := hw.inner
          rw [h1, get_append]
          rcases i3 with ⟨rfl, i4, i5⟩ | ⟨k, q', rfl, i4, i5⟩
          · obtain ⟨v', hv, hg⟩ := dOpsThen_after X sh r hb' i1 i5
            rw [get_none (dElems_none X sh r (dExec_decides X sh r hh) ht.1 hfu.1 i4 _ _ _ _ hb hsub), Option.none_or, hg]
            rw [hf _ (self_mem _) b.2 ?_ v' hv]
            · rfl
            · intro x hx
              obtain ⟨k, p, hk⟩ := List.exists_cons_of_ne_nil (hw.below x hx)
              have h2 := (hin x hx).2
              rw [List.nil_append, hk] at h2
              rw [dElems_slot_one (dExec_slotted X sh r hh) ht.1 hfu.1 (hw.pos x hx) h2 _ _ _ _ hb hsub, ← hy.fill (self_mem _) hx, hk, walk]
          · rw [get_none ((dOpsThen_sel X sh r hb' i5).1 i1), Option.or_none]
            rw [dElems_after X sh r (dExec_decides X sh r hh) (dExec_slotted X sh r hh) (dExec_after hh) ht.1 hfu.1 i4
              (fun x hx => (hin x hx).2) _ _ _ _ hb hsub hw (by rw [walk] at hy; exact hy) (by rw [walk] at hf; exact hf), walk]
      · exfalso
        obtain ⟨k, p, hc⟩ := hw.content
        exact loops_content hcl (by simpa using hemp) hc

end

end Verif.Transform
