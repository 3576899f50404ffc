import Verif.Transform.ReachSlots
import Verif.Transform.RootedSem

/-!
# Loops of an `AfterNode` on any document

What a loop of an `AfterNode` (fastMatcher.go:376-467) decides on every document: no regularity is assumed, unlike in `AfterLoop.lean`.  A loop
need not decide anything at a value, and the next value at the same path then starts with the slots the earlier one has filled.
-/

namespace Verif.Transform
open Verif.FastVal Verif.Match Verif.Expr
open Verif.Token (D Es Ms Tok)
open Verif.BinTree (Sh)

variable {E : Ext}

/-! ### Specification -/

/-- The fields seen after `x`: the last values reached below it, or else what was seen before. -/
def seeing (K : List (Path × Bool)) (g : Env) (x : D) : Env := fun p => lastOf (g p) (reach false K p x)

/-- The first decision made at the values, in order; what was seen below the earlier ones is still seen. -/
def decideAt (F : Env → Option Bool) (K : List (Path × Bool)) : Env → List D → Option Bool
  | _, [] => none
  | g, x :: xs => (F (seeing K g x)).or (decideAt F K (seeing K g x) xs)

theorem decideAt_append {F : Env → Option Bool} {K : List (Path × Bool)} : ∀ (xs ys : List D) (g : Env),
    decideAt F K g (xs ++ ys) = (decideAt F K g xs).or (decideAt F K (fun p => lastOf (g p) (xs.flatMap (reach false K p))) ys)
  | [], ys, g => by simp [decideAt, lastOf]
  | x :: xs, ys, g => by
    rw [List.cons_append, decideAt, decideAt, decideAt_append xs ys, Option.or_assoc]
    congr 2
    congr 1
    funext p
    rw [List.flatMap_cons, lastOf_append, seeing]

theorem decideAt_same {F : Env → Option Bool} {K K' : List (Path × Bool)} (h : Same K K') : ∀ (xs : List D) (g : Env),
    decideAt F K g xs = decideAt F K' g xs
  | [], g => rfl
  | x :: xs, g => by
    have : seeing K g x = seeing K' g x := by funext p; rw [seeing, seeing, reach_same h]
    rw [decideAt, decideAt, this, decideAt_same h xs]

/-- A loop that decides at every value decides at the first. -/
theorem decideAt_total {F : Env → Option Bool} {K : List (Path × Bool)} {f : Env → Bool} (h : ∀ g, F g = some (f g)) (g : Env) (xs : List D) :
    decideAt F K g xs = xs.head?.map fun x => f (seeing K g x) := by
  cases xs with
  | nil => rfl
  | cons x xs => simp [decideAt, h]

section
variable (X : Fns E) (sh : Nat → Sh) (r : D)

/-- The slots hold the fields. -/
def HoldsE (SP : List (Nat × Path)) (g : Env) (σ : Slots) : Prop := ∀ y ∈ SP, look σ y.1 = g y.2

/-- The loop decides `F` of the fields, whenever the slots hold them. -/
def LoopGivesE (i : Nat) (m : Mode) (s0 : Nat) (body : Exec E) (SP : List (Nat × Path)) (F : Env → Option Bool) : Prop :=
  ∀ g σ, HoldsE SP g σ → ∀ h p l, Res.idx σ (s0 - 1) = .ok p → dLoop (dExec X sh r h) sh i m body (p.getD r) σ = .ok l → l.get i = F g

def RecLR (rec : DRec E) : Prop :=
  ∀ n d σ a i q m s0 body SP F g, rec n d σ = .ok a → n.Tidy → n.Full →
    withBucket i (items n) = [(q, Item.aloop i m (some (.slot s0)) body)] → Waits n q SP [] → HoldsE SP g σ → LoopGivesE X sh r i m s0 body SP F →
    Marks.get a.1 i = decideAt F (belowP q (kinds n)) g (reachA (kinds n) q d)

/-- What the slots hold once the values below a key have been read. -/
theorem HoldsE.next {rec : DRec E} (hS : RecSR rec) {e : Exec E} (ht : e.Tidy) (hfu : e.Full) {q : Path} {SP : List (Nat × Path)} (hw : Waits e q SP [])
    {g : Env} {σ : Slots} (h : HoldsE SP g σ) {d : D} {b : Marks × Slots} (hb : rec e d σ = .ok b) :
    HoldsE SP (fun p => lastOf (g p) ((reachA (kinds e) q d).flatMap (reach false (belowP q (kinds e)) p))) b.2 := by
  intro y hy
  obtain ⟨k, p, hk⟩ := List.exists_cons_of_ne_nil (hw.below y hy)
  rw [(hS e d σ b y.1 (hw.pos y hy) hb ht hfu).2 _ (hw.one y hy), h y hy, hk, reach_append]

theorem rMembers_aloop {rec : DRec E} (hI : RecR X sh r rec) (hS : RecSR rec) (hA : RecLR X sh r rec) {es : Elems E} (ht : es.Tidy) (hfu : es.Full) {i : Nat}
    {k : List Nat} {q : Path} {m : Mode} {s0 : Nat} {body : Exec E} {SP : List (Nat × Path)} {F : Env → Option Bool} {n : Exec E}
    (hx : withBucket i (itemsE es) = [(k :: q, Item.aloop i m (some (.slot s0)) body)])
    (hn : ∀ x ∈ SP, withSlot x.1 (notesE es) = [k :: q ++ x.2]) {e : Exec E} (he : es.find k = some e) (hw : Waits n (k :: q) SP [])
    (hF : LoopGivesE X sh r i m s0 body SP F) : ∀ (ms : Ms) (σ : Slots) (a : Marks × Slots) (g : Env),
    dMembers rec es ms σ = .ok a → HoldsE SP g σ →
    Marks.get a.1 i = decideAt F (belowP q (kinds e)) g ((membersAt k ms).flatMap (reachA (kinds e) q))
  | .nil, σ, a, g, h, _ => by cases h; rfl
  | .cons kty key _ _ d _ _ rest, σ, a, g, h, hg => by
    rw [dMembers] at h
    obtain ⟨k', hk, h⟩ := Res.bind_eq_ok.1 h
    have hk' := memberKey_ok hk
    obtain ⟨k1, p1, e1, q1, q2, q3, q4⟩ := itemsE_find ht hx
    simp only [List.cons.injEq] at q1
    obtain ⟨rfl, rfl⟩ := q1
    have : e1 = e := by rw [q2] at he; cases he; rfl
    subst this
    by_cases hkk : k' = k
    · subst hkk
      rw [q2] at h
      simp only at h
      obtain ⟨b, hb, h⟩ := Res.bind_eq_ok.1 h
      obtain ⟨c, hcc, h1, _⟩ := andThen_marks h
      rw [membersAt, if_pos hk', List.flatMap_cons, decideAt_append]
      have hw1 := hw.sub ht hn q2
      have ht1 := Elems.Tidy.find ht q2
      have hfu1 := Elems.Full.find hfu q2
      rw [h1, get_append, hA e1 d σ b i q m s0 body SP F g hb ht1 hfu1 q3 hw1 hg hF,
        rMembers_aloop hI hS hA ht hfu hx hn he hw hF rest b.2 c _ hcc (hg.next hS ht1 hfu1 hw1 hb)]
    · rw [membersAt, if_neg (by rw [hk']; exact hkk)]
      split at h
      · rename_i e' he'
        obtain ⟨b, hb, h⟩ := Res.bind_eq_ok.1 h
        obtain ⟨c, hcc, h1, _⟩ := andThen_marks h
        rw [h1, get_append, get_none ((hI e' d σ b i hb (Elems.Tidy.find ht he') (Elems.Full.find hfu he')).1 (q4 k' e' hkk he')), Option.none_or]
        refine rMembers_aloop hI hS hA ht hfu hx hn he hw hF rest b.2 c g hcc fun x hx => ?_
        rw [(hS e' d σ b x.1 (hw.pos x hx) hb (Elems.Tidy.find ht he') (Elems.Full.find hfu he')).1 (sub_other ht hn hkk he' x hx), hg x hx]
      · exact rMembers_aloop hI hS hA ht hfu hx hn he hw hF rest σ a g h hg

theorem rElems_aloop {rec : DRec E} (hI : RecR X sh r rec) (hS : RecSR rec) (hA : RecLR X sh r rec) {es : Elems E} (ht : es.Tidy) (hfu : es.Full) {i : Nat}
    {k : List Nat} {q : Path} {m : Mode} {s0 : Nat} {body : Exec E} {SP : List (Nat × Path)} {F : Env → Option Bool} {n : Exec E}
    (hx : withBucket i (itemsE es) = [(k :: q, Item.aloop i m (some (.slot s0)) body)])
    (hn : ∀ x ∈ SP, withSlot x.1 (notesE es) = [k :: q ++ x.2]) {e : Exec E} (he : es.find k = some e) (hw : Waits n (k :: q) SP [])
    (hF : LoopGivesE X sh r i m s0 body SP F) : ∀ (xs : Es) (j : Nat) (σ : Slots) (a : Marks × Slots) (g : Env),
    dElems rec es j xs σ = .ok a → HoldsE SP g σ →
    Marks.get a.1 i = decideAt F (belowP q (kinds e)) g ((elemsAt k j xs).flatMap (reachA (kinds e) q))
  | .nil, j, σ, a, g, h, _ => by cases h; rfl
  | .cons d _ _ rest, j, σ, a, g, h, hg => by
    rw [dElems] at h
    obtain ⟨_, _, h⟩ := Res.bind_eq_ok.1 h
    obtain ⟨k1, p1, e1, q1, q2, q3, q4⟩ := itemsE_find ht hx
    simp only [List.cons.injEq] at q1
    obtain ⟨rfl, rfl⟩ := q1
    have : e1 = e := by rw [q2] at he; cases he; rfl
    subst this
    by_cases hkk : indexKey j = k
    · subst hkk
      rw [q2] at h
      simp only at h
      obtain ⟨b, hb, h⟩ := Res.bind_eq_ok.1 h
      obtain ⟨c, hcc, h1, _⟩ := andThen_marks h
      rw [elemsAt, if_pos rfl, List.flatMap_cons, decideAt_append]
      have hw1 := hw.sub ht hn q2
      have ht1 := Elems.Tidy.find ht q2
      have hfu1 := Elems.Full.find hfu q2
      rw [h1, get_append, hA e1 d σ b i q m s0 body SP F g hb ht1 hfu1 q3 hw1 hg hF,
        rElems_aloop hI hS hA ht hfu hx hn he hw hF rest (j + 1) b.2 c _ hcc (hg.next hS ht1 hfu1 hw1 hb)]
    · rw [elemsAt, if_neg hkk]
      split at h
      · rename_i e' he'
        obtain ⟨b, hb, h⟩ := Res.bind_eq_ok.1 h
        obtain ⟨c, hcc, h1, _⟩ := andThen_marks h
        rw [h1, get_append, get_none ((hI e' d σ b i hb (Elems.Tidy.find ht he') (Elems.Full.find hfu he')).1 (q4 _ e' hkk he')), Option.none_or]
        refine rElems_aloop hI hS hA ht hfu hx hn he hw hF rest (j + 1) b.2 c g hcc fun x hx => ?_
        rw [(hS e' d σ b x.1 (hw.pos x hx) hb (Elems.Tidy.find ht he') (Elems.Full.find hfu he')).1 (sub_other ht hn hkk he' x hx), hg x hx]
      · exact rElems_aloop hI hS hA ht hfu hx hn he hw hF rest (j + 1) σ a g h hg

/-- What a loop of an `AfterNode` decides, on any document. -/
theorem dExec_aloopR : ∀ h : Nat, RecLR X sh r (dExec X sh r h)
  | 0 => by intro n d σ a i q m s0 body SP F g h; cases h
  | hh + 1 => by
    intro n d σ c i q m s0 body SP F g h ht hfu hi hw hg hF
    obtain ⟨st, es, ops, ls, a⟩ := n
    obtain ⟨i1, i2, i3⟩ := aloop_cases hi
    have hne := hw.ne_empty
    have hlh := loopHere_kinds (st := st) (es := es) (ops := ops) (ls := ls) (a := a)
    have hin := hw.inner
    have hsub : ∀ k e p, es.find k = some e → reach false (kinds e) p = reach false (below k (kinds (.mk st es ops ls a))) p :=
      fun k e p he => funext fun d => reach_congr (kinds_child ht.1 he) p d
    have hsame : ∀ {k e}, es.find k = some e → Same (kinds e) (below k (kinds (.mk st es ops ls a))) := fun he => .of_mem (kinds_child ht.1 he)
    have hsubA : ∀ k e p, es.find k = some e → reachA (kinds e) p = reachA (below k (kinds (.mk st es ops ls a))) p :=
      fun k e p he => funext fun d => reachA_same (hsame he) p d
    have hone : ∀ d : D, entered (kinds (.mk st es ops ls a)) d = true →
        decideAt F (belowP [] (kinds (.mk st es ops ls a))) g (reachA (kinds (.mk st es ops ls a)) [] d) = F (seeing (kinds (.mk st es ops ls a)) g d) := by
      intro d hd
      rw [reachA, if_pos hd, decideAt, decideAt, Option.or_none]; rfl
    cases d with
    | lit ty w =>
      rcases i3 with ⟨rfl, i4, i5⟩ | ⟨k, q', rfl, i4, i5⟩
      · obtain ⟨p, l', hp, hl', he⟩ := dOpsThen_aloop X sh r h i1 i5
        rw [he, hone _ rfl]
        refine hF _ σ (fun x hx => ?_) hh p l' hp hl'
        obtain ⟨k, p, hk⟩ := hw.key hx
        rw [hg x hx, seeing, hk]; rfl
      · rw [get_none ((dOpsThen_sel X sh r h i5).1 i1)]; rfl
    | obj ws ms =>
      simp only [dExec, dObj, hne, Bool.false_eq_true, if_false] at h
      obtain ⟨b, hb, h⟩ := Res.bind_eq_ok.1 h
      obtain ⟨l, hl, h⟩ := Res.bind_eq_ok.1 h
      rcases i3 with ⟨rfl, i4, i5⟩ | ⟨k, q', rfl, i4, i5⟩
      · have hfill : HoldsE SP (seeing (kinds (.mk st es ops ls a)) g (.obj ws ms)) b.2 := by
          intro x hx
          obtain ⟨k, p, hk⟩ := hw.key hx
          have h2 := (hin x hx).2
          rw [List.nil_append, hk] at h2
          obtain ⟨k', p', e, hkk, he⟩ := key_slot ht.1 h2
          cases hkk
          rw [rMembers_slot_one (dExec_slottedR X sh r hh) ht.1 hfu.1 (hw.pos x hx) h2 he _ _ _ hb, hg x hx, seeing, hk, reach, hsub _ _ _ he]
        have hfirst : Marks.get (b.1 ++ l) i = F (seeing (kinds (.mk st es ops ls a)) g (.obj ws ms)) := by
          obtain ⟨p, l', hp, hl', he⟩ := dAfter_loop X sh r hl i5
          rw [get_append, get_none (rMembers_none X sh r (dExec_decidesR X sh r hh) ht.1 hfu.1 i4 _ _ _ hb), Option.none_or, he]
          exact hF _ b.2 hfill hh p l' hp hl'
        rw [hone _ rfl]
        cases ms with
        | nil => cases h; exact hfirst
        | cons kty key k1 k2 v w1 w2 rest =>
          obtain ⟨b', hb', h1, _⟩ := andThen_marks h
          obtain ⟨p, l', hp, hl', he⟩ := dOpsThen_aloop X sh r hb' i1 i5
          rw [h1, get_append, hfirst, he, hF _ b.2 hfill hh p l' hp hl', Option.or_self]
      · have hfirst : Marks.get (b.1 ++ l) i =
            decideAt F (belowP (k :: q') (kinds (.mk st es ops ls a))) g (reachA (kinds (.mk st es ops ls a)) (k :: q') (.obj ws ms)) := by
          rw [get_append, get_none (dAfter_sel_none X sh r hl i5), Option.or_none]
          obtain ⟨k', p', e, hkk, he⟩ := key_item ht.1 i4
          cases hkk
          rw [rMembers_aloop X sh r (dExec_decidesR X sh r hh) (dExec_slottedR X sh r hh) (dExec_aloopR hh) ht.1 hfu.1 i4
            (fun x hx => (hin x hx).2) he hw hF _ _ _ g hb hg, reachA, ← hsubA _ _ _ he, belowP, decideAt_same ((hsame he).belowP q')]
        cases ms with
        | nil => cases h; exact hfirst
        | cons kty key k1 k2 v w1 w2 rest =>
          obtain ⟨b', hb', h1, _⟩ := andThen_marks h
          rw [h1, get_append, hfirst, get_none ((dOpsThen_sel X sh r hb' i5).1 i1), Option.or_none]
    | arr ws xs =>
      by_cases hemp : ls.isEmpty = true
      · have hls := loops_nil_of_isEmpty hemp
        subst hls
        simp only [dExec, dArr.eq_def, Loops.isEmpty, if_true] at h
        cases xs with
        | nil =>
          cases h
          rcases i3 with ⟨rfl, i4, i5⟩ | ⟨k, q', rfl, i4, i5⟩
          · rw [reachA, entered, hlh]; rfl
          · rw [reachA, hlh]; rfl
        | cons v w1 w2 rest =>
          obtain ⟨b, hb, h⟩ := Res.bind_eq_ok.1 h
          obtain ⟨b', hb', h1, _⟩ := andThen_marks h
          rw [h1, get_append]
          rcases i3 with ⟨rfl, i4, i5⟩ | ⟨k, q', rfl, i4, i5⟩
          · obtain ⟨p, l', hp, hl', he⟩ := dOpsThen_aloop X sh r hb' i1 i5
            rw [get_none (rElems_none X sh r (dExec_decidesR X sh r hh) ht.1 hfu.1 i4 _ _ _ _ hb), Option.none_or, he, hone _ rfl]
            refine hF _ b.2 (fun x hx => ?_) hh p l' hp hl'
            obtain ⟨k, p, hk⟩ := hw.key hx
            have h2 := (hin x hx).2
            rw [List.nil_append, hk] at h2
            obtain ⟨k', p', e, hkk, he⟩ := key_slot ht.1 h2
            cases hkk
            rw [rElems_slot_one (dExec_slottedR X sh r hh) ht.1 hfu.1 (hw.pos x hx) h2 he _ _ _ _ hb, hg x hx, seeing, hk, reach,
              hsub _ _ _ he, hlh]
            rfl
          · rw [get_none ((dOpsThen_sel X sh r hb' i5).1 i1), Option.or_none]
            obtain ⟨k', p', e, hkk, he⟩ := key_item ht.1 i4
            cases hkk
            rw [rElems_aloop X sh r (dExec_decidesR X sh r hh) (dExec_slottedR X sh r hh) (dExec_aloopR hh) ht.1 hfu.1 i4
              (fun x hx => (hin x hx).2) he hw hF _ _ _ _ g hb hg, reachA, ← hsubA _ _ _ he, belowP, decideAt_same ((hsame he).belowP q'), hlh]
            rfl
      · simp only [dExec, dArr.eq_def, hemp, Bool.false_eq_true, if_false] at h
        obtain ⟨l, hl, h⟩ := Res.bind_eq_ok.1 h
        obtain ⟨b', hb', h1, _⟩ := andThen_marks h
        have hlh' : loopHere (kinds (.mk st es ops ls a)) = true := by rw [hlh]; simpa using hemp
        have hent : entered (kinds (.mk st es ops ls a)) (.arr ws xs) = true := by
          cases xs with
          | nil => rw [entered]; exact hlh'
          | cons => rfl
        rw [h1, get_append, get_none (dArrayLoops_sel_none sh _ _ hl i2), Option.none_or]
        rcases i3 with ⟨rfl, i4, i5⟩ | ⟨k, q', rfl, i4, i5⟩
        · obtain ⟨p, l', hp, hl', he⟩ := dOpsThen_aloop X sh r hb' i1 i5
          rw [he, hone _ hent]
          refine hF _ σ (fun x hx => ?_) hh p l' hp hl'
          obtain ⟨k, p, hk⟩ := hw.key hx
          rw [hg x hx, seeing, hk, reach, if_pos hlh']; rfl
        · rw [get_none ((dOpsThen_sel X sh r hb' i5).1 i1), reachA, if_pos hlh']; rfl

end

end Verif.Transform
