import Verif.Transform.Still

/-!
# Loops of an `AfterNode`

What a loop of an `AfterNode` decides: it runs over a value stored in a slot below the node, and its body may read other slots.
-/

namespace Verif.Transform
open Verif.FastVal Verif.Match Verif.Expr
open Verif.Token (D Es Ms Tok)
open Verif.BinTree (Sh K)

variable {E : Ext}

/-- The loops of an `AfterNode` are not reached on an empty array. -/
def afterOpt (f : D → Option Bool) : D → Option Bool
  | .arr _ .nil => none
  | x => f x

section
variable (X : Fns E) (sh : Nat → Sh) (r : D)

/-- The loop decides `f` of the value its node is for, whenever the slots are filled from below that value. -/
def LoopGives (i : Nat) (m : Mode) (s0 : Nat) (body : Exec E) (SP : List (Nat × Path)) (f : D → Option Bool) (x : D) : Prop :=
  ∀ h σ, Filled SP x σ → ∀ p l, Res.idx σ (s0 - 1) = .ok p → dLoop (dExec X sh r h) sh i m body (p.getD r) σ = .ok l → l.get i = f x

def RecL (rec : DRec E) : Prop :=
  ∀ n d σ a i q m s0 body SP f, rec n d σ = .ok a → n.Tidy → n.Full → Clear n d →
    withBucket i (items n) = [(q, Item.aloop i m (some (.slot s0)) body)] → Waits n q SP [] →
    (walk q d ≠ [] → ∀ x ∈ SP, look σ x.1 = none) → (walk q d).length ≤ 1 → (∀ x ∈ walk q d, LoopGives X sh r i m s0 body SP f x) →
    Marks.get a.1 i = (walk q d).findSome? (afterOpt f)

theorem dAfterLoops_one {rec : DRec E} {σ : Slots} {i : Nat} {x : Path × Item E} : ∀ (ls : Loops E) (l : Marks),
    dAfterLoops rec sh r σ ls = .ok l → withBucket i (loopItems .aloop ls) = [x] →
    ∃ m s0 e p l', x = ([], .aloop i m (some (.slot s0)) e) ∧ Res.idx σ (s0 - 1) = .ok p ∧ dLoop rec sh i m e (p.getD r) σ = .ok l' ∧
      l.get i = l'.get i
  | .nil, l, _, hn => by simp [loopItems, withBucket] at hn
  | .cons b m t e ls, l, h, hn => by
    rw [loopItems, withBucket, List.filter_cons] at hn
    rw [dAfterLoops.eq_def] at h
    simp only at h
    split at h
    · rename_i s
      split at h
      · cases h
      · obtain ⟨p, hp, h⟩ := Res.bind_eq_ok.1 h
        obtain ⟨l1, h1, h⟩ := Res.bind_eq_ok.1 h
        obtain ⟨l2, h2, h⟩ := Res.bind_eq_ok.1 h
        cases h
        by_cases hb : b = i
        · subst hb
          rw [if_pos (by simp [Item.bucket])] at hn
          have hx : x = ([], .aloop b m (some (.slot s)) e) := by have := congrArg List.head? hn; simpa using this.symm
          have hr : withBucket b (loopItems .aloop ls) = [] := congrArg List.tail hn
          refine ⟨m, s, e, p, l1, hx, hp, h1, ?_⟩
          rw [get_append, get_none (dAfterLoops_sel_none sh r ls l2 h2 hr), Option.or_none]
        · rw [if_neg (by simp [Item.bucket, hb])] at hn
          obtain ⟨m', s', e', p', l', hx, hp', hd, hg⟩ := dAfterLoops_one ls l2 h2 hn
          refine ⟨m', s', e', p', l', hx, hp', hd, ?_⟩
          rw [get_append, get_none (sel_none (fun y hy => by rw [dLoop_bucket sh h1 y hy]; exact hb)), Option.none_or, hg]
    · cases h

theorem dAfter_loop {rec : DRec E} {σ : Slots} {a : After E} {l : Marks} {i : Nat} {q : Path} {m : Mode} {s0 : Nat} {body : Exec E}
    (h : dAfter X rec sh r σ a = .ok l) (hx : withBucket i (afterItems a) = [(q, .aloop i m (some (.slot s0)) body)]) :
    ∃ p l', Res.idx σ (s0 - 1) = .ok p ∧ dLoop rec sh i m body (p.getD r) σ = .ok l' ∧ l.get i = l'.get i := by
  cases a with
  | none => simp [afterItems, withBucket] at hx
  | some ops ls =>
    rw [afterItems, withBucket_append] at hx
    rw [dAfter] at h
    obtain ⟨l1, h1, h⟩ := Res.bind_eq_ok.1 h
    obtain ⟨l2, h2, h⟩ := Res.bind_eq_ok.1 h
    cases h
    cases hA : withBucket i (ops.map (fun o => (([] : Path), Item.aop o))) with
    | cons y ys =>
      exfalso
      rw [hA, List.cons_append, List.cons.injEq] at hx
      have hy : y ∈ withBucket i (ops.map (fun o => (([] : Path), Item.aop o))) := by rw [hA]; exact List.mem_cons_self
      obtain ⟨o, _, ho⟩ := List.mem_map.1 (mem_withBucket.1 hy).1
      rw [hx.1] at ho
      cases ho
    | nil =>
      rw [hA, List.nil_append] at hx
      obtain ⟨m', s', e', p, l', he, hp, hd, hg⟩ := dAfterLoops_one sh r ls l1 h1 hx
      cases he
      refine ⟨p, l', hp, hd, ?_⟩
      rw [get_append, get_none (dOps_sel_none X r ops l2 h2 (ops_none (fun _ => rfl) hA)), Option.or_none, hg]

theorem dMembers_aloop {rec : DRec E} (hI : RecI X sh r rec) (hS : RecS rec) (hA : RecL X sh r rec) {es : Elems E} (ht : es.Tidy) (hfu : es.Full) {i : Nat}
    {k : List Nat} {q : Path} {m : Mode} {s0 : Nat} {body : Exec E} {SP : List (Nat × Path)} {f : D → Option Bool} {n : Exec E}
    (hx : withBucket i (itemsE es) = [(k :: q, Item.aloop i m (some (.slot s0)) body)])
    (hn : ∀ x ∈ SP, withSlot x.1 (notesE es) = [k :: q ++ x.2]) (hw : Waits n (k :: q) SP []) : ∀ (ms : Ms) (σ : Slots) (a : Marks × Slots),
    dMembers rec es ms σ = .ok a → (∀ k e, es.find k = some e → ∀ x ∈ membersAt k ms, Clear e x) →
    ((membersAt k ms).flatMap (walk q) ≠ [] → ∀ x ∈ SP, look σ x.1 = none) → ((membersAt k ms).flatMap (walk q)).length ≤ 1 →
    (∀ x ∈ (membersAt k ms).flatMap (walk q), LoopGives X sh r i m s0 body SP f x) →
    Marks.get a.1 i = ((membersAt k ms).flatMap (walk q)).findSome? (afterOpt f)
  | .nil, σ, a, h, _, _, _, _ => by cases h; rfl
  | .cons kty key _ _ d _ _ rest, σ, a, h, hc, hE, h1, hf => by
    rw [dMembers] at h
    obtain ⟨k', hk, h⟩ := Res.bind_eq_ok.1 h
    have hk' := memberKey_ok hk
    have hc' : ∀ k e, es.find k = some e → ∀ x ∈ membersAt k rest, Clear e x := by
      intro k1 e1 h1 x hx
      refine hc k1 e1 h1 x ?_
      rw [membersAt]
      split
      · exact List.mem_cons_of_mem _ hx
      · exact hx
    obtain ⟨k1, p1, e1, q1, q2, q3, q4⟩ := itemsE_find ht hx
    simp only [List.cons.injEq] at q1
    obtain ⟨rfl, rfl⟩ := q1
    by_cases hkk : k' = k
    · subst hkk
      rw [q2] at h
      simp only at h
      obtain ⟨b, hb, h⟩ := Res.bind_eq_ok.1 h
      obtain ⟨c, hcc, h2, _⟩ := andThen_marks h
      rw [membersAt, if_pos hk', List.flatMap_cons] at hf h1 hE ⊢
      rw [List.length_append] at h1
      have hcl := hc k' e1 q2 d (by rw [membersAt, if_pos hk']; exact List.mem_cons_self)
      have hw1 := hw.sub ht hn q2
      have hd := hA e1 d σ b i q m s0 body SP f hb (Elems.Tidy.find ht q2) (Elems.Full.find hfu q2) hcl q3 hw1
        (fun hne => hE (by simp [hne])) (by omega) (fun x hx => hf x (List.mem_append_left _ hx))
      rw [h2, get_append, List.findSome?_append, hd]
      rw [dMembers_aloop hI hS hA ht hfu hx hn hw rest b.2 c hcc hc' ?_ (by omega) (fun x hx => hf x (List.mem_append_right _ hx))]
      intro hne x hx
      have h0 : walk q d = [] := by
        have := List.length_pos_iff.2 hne
        exact List.length_eq_zero_iff.1 (by omega)
      rw [(hS e1 d σ b x.1 (hw.pos x hx) hb (Elems.Tidy.find ht q2) (Elems.Full.find hfu q2) hcl).2 _ (hw1.one x hx), walk_append, h0,
        List.flatMap_nil, lastOf_nil]
      exact hE (by simp [hne]) x hx
    · rw [membersAt, if_neg (by rw [hk']; exact hkk)] at hf h1 hE ⊢
      split at h
      · rename_i e he
        obtain ⟨b, hb, h⟩ := Res.bind_eq_ok.1 h
        obtain ⟨c, hcc, h2, _⟩ := andThen_marks h
        have hcl := hc k' e he d (by rw [membersAt, if_pos hk']; exact List.mem_cons_self)
        rw [h2, get_append, get_none ((hI e d σ b i hb (Elems.Tidy.find ht he) (Elems.Full.find hfu he) hcl).1 (q4 k' e hkk he)), Option.none_or]
        refine dMembers_aloop hI hS hA ht hfu hx hn hw rest b.2 c hcc hc' ?_ h1 hf
        intro hne x hx
        rw [(hS e d σ b x.1 (hw.pos x hx) hb (Elems.Tidy.find ht he) (Elems.Full.find hfu he) hcl).1 (sub_other ht hn hkk he x hx)]
        exact hE hne x hx
      · exact dMembers_aloop hI hS hA ht hfu hx hn hw rest σ a h hc' hE h1 hf

theorem dElems_aloop {rec : DRec E} (hI : RecI X sh r rec) (hS : RecS rec) (hA : RecL X sh r rec) {es : Elems E} (ht : es.Tidy) (hfu : es.Full) {i : Nat}
    {k : List Nat} {q : Path} {m : Mode} {s0 : Nat} {body : Exec E} {SP : List (Nat × Path)} {f : D → Option Bool} {n : Exec E}
    (hx : withBucket i (itemsE es) = [(k :: q, Item.aloop i m (some (.slot s0)) body)])
    (hn : ∀ x ∈ SP, withSlot x.1 (notesE es) = [k :: q ++ x.2]) (hw : Waits n (k :: q) SP []) : ∀ (xs : Es) (j : Nat) (σ : Slots) (a : Marks × Slots),
    dElems rec es j xs σ = .ok a → (∀ k e, es.find k = some e → ∀ x ∈ elemsAt k j xs, Clear e x) →
    ((elemsAt k j xs).flatMap (walk q) ≠ [] → ∀ x ∈ SP, look σ x.1 = none) → ((elemsAt k j xs).flatMap (walk q)).length ≤ 1 →
    (∀ x ∈ (elemsAt k j xs).flatMap (walk q), LoopGives X sh r i m s0 body SP f x) →
    Marks.get a.1 i = ((elemsAt k j xs).flatMap (walk q)).findSome? (afterOpt f)
  | .nil, j, σ, a, h, _, _, _, _ => by cases h; rfl
  | .cons d _ _ rest, j, σ, a, h, hc, hE, h1, hf => by
    rw [dElems] at h
    obtain ⟨_, _, h⟩ := Res.bind_eq_ok.1 h
    have hc' : ∀ k e, es.find k = some e → ∀ x ∈ elemsAt k (j + 1) rest, Clear e x := by
      intro k1 e1 h1 x hx
      refine hc k1 e1 h1 x ?_
      rw [elemsAt]
      split
      · exact List.mem_cons_of_mem _ hx
      · exact hx
    obtain ⟨k1, p1, e1, q1, q2, q3, q4⟩ := itemsE_find ht hx
    simp only [List.cons.injEq] at q1
    obtain ⟨rfl, rfl⟩ := q1
    by_cases hkk : indexKey j = k
    · subst hkk
      rw [q2] at h
      simp only at h
      obtain ⟨b, hb, h⟩ := Res.bind_eq_ok.1 h
      obtain ⟨c, hcc, h2, _⟩ := andThen_marks h
      rw [elemsAt, if_pos rfl, List.flatMap_cons] at hf h1 hE ⊢
      rw [List.length_append] at h1
      have hcl := hc _ e1 q2 d (by rw [elemsAt, if_pos rfl]; exact List.mem_cons_self)
      have hw1 := hw.sub ht hn q2
      have hd := hA e1 d σ b i q m s0 body SP f hb (Elems.Tidy.find ht q2) (Elems.Full.find hfu q2) hcl q3 hw1
        (fun hne => hE (by simp [hne])) (by omega) (fun x hx => hf x (List.mem_append_left _ hx))
      rw [h2, get_append, List.findSome?_append, hd]
      rw [dElems_aloop hI hS hA ht hfu hx hn hw rest (j + 1) b.2 c hcc hc' ?_ (by omega) (fun x hx => hf x (List.mem_append_right _ hx))]
      intro hne x hx
      have h0 : walk q d = [] := by
        have := List.length_pos_iff.2 hne
        exact List.length_eq_zero_iff.1 (by omega)
      rw [(hS e1 d σ b x.1 (hw.pos x hx) hb (Elems.Tidy.find ht q2) (Elems.Full.find hfu q2) hcl).2 _ (hw1.one x hx), walk_append, h0,
        List.flatMap_nil, lastOf_nil]
      exact hE (by simp [hne]) x hx
    · rw [elemsAt, if_neg hkk] at hf h1 hE ⊢
      split at h
      · rename_i e he
        obtain ⟨b, hb, h⟩ := Res.bind_eq_ok.1 h
        obtain ⟨c, hcc, h2, _⟩ := andThen_marks h
        have hcl := hc _ e he d (by rw [elemsAt, if_pos rfl]; exact List.mem_cons_self)
        rw [h2, get_append, get_none ((hI e d σ b i hb (Elems.Tidy.find ht he) (Elems.Full.find hfu he) hcl).1 (q4 _ e hkk he)), Option.none_or]
        refine dElems_aloop hI hS hA ht hfu hx hn hw rest (j + 1) b.2 c hcc hc' ?_ h1 hf
        intro hne x hx
        rw [(hS e d σ b x.1 (hw.pos x hx) hb (Elems.Tidy.find ht he) (Elems.Full.find hfu he) hcl).1 (sub_other ht hn hkk he x hx)]
        exact hE hne x hx
      · exact dElems_aloop hI hS hA ht hfu hx hn hw rest (j + 1) σ a h hc' hE h1 hf

/-- Where the loop of an `AfterNode` is. -/
theorem aloop_cases {i st : Nat} {es : Elems E} {ops : List (Op E)} {ls : Loops E} {a : After E} {q : Path} {m : Mode} {t : Option (Ref E)} {body : Exec E}
    (h : withBucket i (items (.mk st es ops ls a)) = [(q, Item.aloop i m t body)]) :
    withBucket i (ops.map (fun o => (([] : Path), Item.op o))) = [] ∧ withBucket i (loopItems .loop ls) = [] ∧
    ((q = [] ∧ withBucket i (itemsE es) = [] ∧ withBucket i (afterItems a) = [([], .aloop i m t body)]) ∨
     (∃ k q', q = k :: q' ∧ withBucket i (itemsE es) = [(q, Item.aloop i m t body)] ∧ withBucket i (afterItems a) = [])) := by
  rw [withBucket_items] at h
  rcases four_one h with ⟨q1, q2, q3, q4⟩ | ⟨q1, q2, q3, q4⟩ | ⟨q1, q2, q3, q4⟩ | ⟨q1, q2, q3, q4⟩
  · exfalso
    have : (q, Item.aloop i m t body) ∈ withBucket i (ops.map (fun o => (([] : Path), Item.op o))) := by rw [q1]; exact List.mem_singleton.2 rfl
    obtain ⟨o', _, he⟩ := List.mem_map.1 (mem_withBucket.1 this).1
    cases he
  · obtain ⟨k, p', hk⟩ := itemsE_cons q2
    exact ⟨q1, q3, Or.inr ⟨k, p', hk, q2, q4⟩⟩
  · exfalso
    obtain ⟨m, t, e, he⟩ := loop_item q3
    cases he
  · have hm : (q, Item.aloop i m t body) ∈ withBucket i (afterItems a) := by rw [q4]; exact List.mem_singleton.2 rfl
    have hq : q = [] := by
      have := (mem_withBucket.1 hm).1
      cases a with
      | none => cases this
      | some ops' ls' =>
        rw [afterItems] at this
        rcases List.mem_append.1 this with h | h
        · obtain ⟨_, _, h⟩ := List.mem_map.1 h; cases h
        · have := loop_nil ls' h; exact this
    subst hq
    exact ⟨q1, q3, Or.inl ⟨rfl, q2, q4⟩⟩

theorem dOpsThen_aloop {rec : DRec E} {σ : Slots} {i st : Nat} {ops : List (Op E)} {a : After E} {d : D} {c : Marks × Slots}
    {m : Mode} {s0 : Nat} {body : Exec E} {q : Path}
    (h : dOpsThen X rec sh r ops st a d σ = .ok c) (h1 : withBucket i (ops.map (fun o => (([] : Path), Item.op o))) = [])
    (h2 : withBucket i (afterItems a) = [(q, .aloop i m (some (.slot s0)) body)]) :
    ∃ p l', Res.idx σ (s0 - 1) = .ok p ∧ dLoop rec sh i m body (p.getD r) σ = .ok l' ∧ Marks.get c.1 i = l'.get i := by
  rw [dOpsThen] at h
  obtain ⟨v, hv, h⟩ := Res.bind_eq_ok.1 h
  obtain ⟨l, hl, h⟩ := Res.bind_eq_ok.1 h
  obtain ⟨b, hb, e1, _⟩ := andThen_marks h
  rw [dFinish] at hb
  obtain ⟨l', hl', hb⟩ := Res.bind_eq_ok.1 hb
  obtain ⟨σ', hσ, hb⟩ := Res.bind_eq_ok.1 hb
  cases hb
  obtain ⟨p, w, hp, hw, hg⟩ := dAfter_loop X sh r hl' h2
  refine ⟨p, w, hp, hw, ?_⟩
  rw [e1, get_append, get_none (dOps_sel_none X r ops l hl (ops_none (fun _ => rfl) h1)), Option.none_or, hg]

/-- What a loop of an `AfterNode` decides. -/
theorem dExec_aloop : ∀ h : Nat, RecL X sh r (dExec X sh r h)
  | 0 => by intro n d σ a i q m s0 body SP f h; cases h
  | hh + 1 => by
    intro n d σ c i q m s0 body SP f h ht hfu hcl hi hw hE h1 hf
    obtain ⟨st, es, ops, ls, a⟩ := n
    obtain ⟨i1, i2, i3⟩ := aloop_cases hi
    have hne := hw.ne_empty
    cases d with
    | lit ty w =>
      rcases i3 with ⟨rfl, i4, i5⟩ | ⟨k, q', rfl, i4, i5⟩
      · obtain ⟨p, l', hp, hl', hg⟩ := dOpsThen_aloop X sh r h i1 i5
        rw [hg, hf _ (self_mem _) hh σ ?_ p l' hp hl']
        · simp [walk, afterOpt]
        · intro x hx
          obtain ⟨k, p, hk⟩ := List.exists_cons_of_ne_nil (hw.below x hx)
          rw [hE (by simp [walk]) x hx, hk]; rfl
      · rw [get_none ((dOpsThen_sel X sh r h i5).1 i1)]; rfl
    | obj ws ms =>
      have hsub : ∀ k e, es.find k = some e → ∀ x ∈ membersAt k ms, Clear e x := by
        intro k e he x hx
        refine hcl.sub (k := k) ht.1 he ?_
        · intro p y hy; rw [walk]; exact List.mem_flatMap.2 ⟨x, hx, hy⟩
      simp only [dExec, dObj, hne, Bool.false_eq_true, if_false] at h
      obtain ⟨b, hb, h⟩ := Res.bind_eq_ok.1 h
      obtain ⟨l, hl, h⟩ := Res.bind_eq_ok.1 h
      have hin := hw.inner
      rcases i3 with ⟨rfl, i4, i5⟩ | ⟨k, q', rfl, i4, i5⟩
      · have hfill : Filled SP (.obj ws ms) b.2 := by
          intro x hx
          obtain ⟨k, p, hk⟩ := List.exists_cons_of_ne_nil (hw.below x hx)
          have h2 := (hin x hx).2
          rw [List.nil_append, hk] at h2
          rw [dMembers_slot_one (dExec_slotted X sh r hh) ht.1 hfu.1 (hw.pos x hx) h2 _ _ _ hb hsub, hE (by simp [walk]) x hx, hk, walk]
        have hfirst : Marks.get (b.1 ++ l) i = f (.obj ws ms) := by
          obtain ⟨p, l', hp, hl', hg⟩ := dAfter_loop X sh r hl i5
          rw [get_append, get_none (dMembers_none X sh r (dExec_decides X sh r hh) ht.1 hfu.1 i4 _ _ _ hb hsub), Option.none_or, hg]
          exact hf _ (self_mem _) hh b.2 hfill p l' hp hl'
        have hgoal : (walk [] (.obj ws ms)).findSome? (afterOpt f) = f (.obj ws ms) := by simp [walk, afterOpt]
        rw [hgoal]
        cases ms with
        | nil => cases h; exact hfirst
        | cons kty key k1 k2 v w1 w2 rest =>
          obtain ⟨b', hb', h2, _⟩ := andThen_marks h
          obtain ⟨p, l', hp, hl', hg⟩ := dOpsThen_aloop X sh r hb' i1 i5
          rw [h2, get_append, hfirst, hg, hf _ (self_mem _) hh b.2 hfill p l' hp hl']
          simp
      · have hfirst : Marks.get (b.1 ++ l) i = (walk (k :: q') (.obj ws ms)).findSome? (afterOpt f) := by
          rw [get_append, get_none (dAfter_sel_none X sh r hl i5), Option.or_none]
          rw [walk] at h1 hE hf ⊢
          exact dMembers_aloop X sh r (dExec_decides X sh r hh) (dExec_slotted X sh r hh) (dExec_aloop hh) ht.1 hfu.1 i4
            (fun x hx => (hin x hx).2) hw _ _ _ hb hsub hE h1 hf
        cases ms with
        | nil => cases h; exact hfirst
        | cons kty key k1 k2 v w1 w2 rest =>
          obtain ⟨b', hb', h2, _⟩ := andThen_marks h
          rw [h2, get_append, hfirst, get_none ((dOpsThen_sel X sh r hb' i5).1 i1), Option.or_none]
    | arr ws xs =>
      by_cases hemp : ls.isEmpty = true
      · have hls : ls = .nil := by cases ls with
          | nil => rfl
          | cons => cases hemp
        subst hls
        simp only [dExec, dArr.eq_def, Loops.isEmpty, if_true] at h
        cases xs with
        | nil =>
          cases h
          rcases i3 with ⟨rfl, i4, i5⟩ | ⟨k, q', rfl, i4, i5⟩ <;> rfl
        | cons v w1 w2 rest =>
          have hsub : ∀ k e, es.find k = some e → ∀ x ∈ elemsAt k 0 (.cons v w1 w2 rest), Clear e x := by
            intro k e he x hx
            refine hcl.sub (k := k) ht.1 he ?_
            · intro p y hy; rw [walk]; exact List.mem_flatMap.2 ⟨x, hx, hy⟩
          obtain ⟨b, hb, h⟩ := Res.bind_eq_ok.1 h
          obtain ⟨b', hb', h2, _⟩ := andThen_marks h
          have hin := hw.inner
          rw [h2, get_append]
          rcases i3 with ⟨rfl, i4, i5⟩ | ⟨k, q', rfl, i4, i5⟩
          · obtain ⟨p, l', hp, hl', hg⟩ := dOpsThen_aloop X sh r hb' i1 i5
            rw [get_none (dElems_none X sh r (dExec_decides X sh r hh) ht.1 hfu.1 i4 _ _ _ _ hb hsub), Option.none_or, hg]
            rw [hf _ (self_mem _) hh b.2 ?_ p l' hp hl']
            · simp [walk, afterOpt]
            · intro x hx
              obtain ⟨k, p, hk⟩ := List.exists_cons_of_ne_nil (hw.below x hx)
              have h2 := (hin x hx).2
              rw [List.nil_append, hk] at h2
              rw [dElems_slot_one (dExec_slotted X sh r hh) ht.1 hfu.1 (hw.pos x hx) h2 _ _ _ _ hb hsub, hE (by simp [walk]) x hx, hk, walk]
          · rw [get_none ((dOpsThen_sel X sh r hb' i5).1 i1), Option.or_none]
            rw [walk] at h1 hE hf ⊢
            exact dElems_aloop X sh r (dExec_decides X sh r hh) (dExec_slotted X sh r hh) (dExec_aloop hh) ht.1 hfu.1 i4
              (fun x hx => (hin x hx).2) hw _ _ _ _ hb hsub hE h1 hf
      · exfalso
        obtain ⟨k, p, hc⟩ := hw.content
        exact loops_content hcl (by simpa using hemp) hc

end

end Verif.Transform
