import Verif.Transform.Reach
import Verif.Transform.Slots

/-!
# Slots and `AfterNode`s on any document

What the slots of the matcher hold (fastMatcher.go:564-684), and what the operations of an `AfterNode` decide, on every document: no
regularity is assumed, unlike in `Slots.lean`.
-/

namespace Verif.Transform
open Verif.FastVal Verif.Match Verif.Expr
open Verif.Token (D Es Ms Tok)
open Verif.BinTree (Sh)

variable {E : Ext}

/-! ### Specification -/

/-- A value at which comparisons of fields below it are made: any but an empty array that is not looped over. -/
def entered (L : List (Path × Bool)) : D → Bool
  | .arr _ .nil => loopHere L
  | _ => true

/-- The values at a path at which comparisons of fields below the path are made. -/
def reachA : List (Path × Bool) → Path → D → List D
  | L, [], d => if entered L d then [d] else []
  | L, k :: p, .obj _ ms => (membersAt k ms).flatMap (reachA (below k L) p)
  | L, k :: p, .arr _ es => if loopHere L then [] else (elemsAt k 0 es).flatMap (reachA (below k L) p)
  | _, _ :: _, .lit _ _ => []

/-- The conditions below a path. -/
def belowP : Path → List (Path × Bool) → List (Path × Bool)
  | [], L => L
  | k :: q, L => belowP q (below k L)

/-! ### What it depends on -/

/-- The same loops, and conditions below the same paths. -/
structure Same (L L' : List (Path × Bool)) : Prop where
  loops : ∀ q, (q, true) ∈ L ↔ (q, true) ∈ L'
  more : ∀ q, (∃ k p b, (q ++ k :: p, b) ∈ L) ↔ ∃ k p b, (q ++ k :: p, b) ∈ L'

theorem Same.below {L L' : List (Path × Bool)} (h : Same L L') (k : List Nat) : Same (below k L) (below k L') := by
  refine ⟨fun q => ?_, fun q => ?_⟩
  · rw [mem_below, mem_below]; exact h.loops (k :: q)
  · have := h.more (k :: q)
    simp only [mem_below]
    exact this

theorem Same.of_mem {L L' : List (Path × Bool)} (h : ∀ x, x ∈ L ↔ x ∈ L') : Same L L' :=
  ⟨fun _ => h _, fun q => by simp only [h]⟩

theorem Same.loopHere {L L' : List (Path × Bool)} (h : Same L L') : loopHere L = loopHere L' := by
  rw [Bool.eq_iff_iff, loopHere_iff, loopHere_iff]; exact h.loops []

theorem Same.moreBelow {L L' : List (Path × Bool)} (h : Same L L') : moreBelow L = moreBelow L' := by
  rw [Bool.eq_iff_iff, moreBelow_iff, moreBelow_iff]; exact h.more []

theorem Same.belowP {L L' : List (Path × Bool)} (h : Same L L') : ∀ q, Same (belowP q L) (belowP q L')
  | [] => h
  | k :: q => Same.belowP (h.below k) q
termination_by q => q.length

theorem reach_same {loop : Bool} : ∀ {L L' : List (Path × Bool)}, Same L L' → ∀ (p : Path) (d : D), reach loop L p d = reach loop L' p d
  | L, L', h, [], d => by
    have : noticed L d = noticed L' d := by unfold noticed; rw [h.loopHere, h.moreBelow]
    rw [reach, reach, this]
  | L, L', h, k :: p, .lit _ _ => rfl
  | L, L', h, k :: p, .obj _ ms => by
    rw [reach, reach, funext (reach_same (h.below k) p)]
  | L, L', h, k :: p, .arr _ es => by
    rw [reach, reach, h.loopHere, funext (reach_same (h.below k) p)]
termination_by _ _ _ p => p.length

theorem reachA_same : ∀ {L L' : List (Path × Bool)}, Same L L' → ∀ (p : Path) (d : D), reachA L p d = reachA L' p d
  | L, L', h, [], d => by
    have : entered L d = entered L' d := by unfold entered; rw [h.loopHere]
    rw [reachA, reachA, this]
  | L, L', h, k :: p, .lit _ _ => rfl
  | L, L', h, k :: p, .obj _ ms => by
    rw [reachA, reachA, funext (reachA_same (h.below k) p)]
  | L, L', h, k :: p, .arr _ es => by
    rw [reachA, reachA, h.loopHere, funext (reachA_same (h.below k) p)]
termination_by _ _ _ p => p.length

/-- What is reached below a path is reached from the values at the path. -/
theorem reach_append {loop : Bool} : ∀ {L : List (Path × Bool)} (q : Path) (k : List Nat) (p : Path) (d : D),
    reach loop L (q ++ k :: p) d = (reachA L q d).flatMap (reach loop (belowP q L) (k :: p))
  | L, [], k, p, d => by
    rw [List.nil_append, reachA, belowP]
    cases hen : entered L d with
    | true => simp
    | false =>
      unfold entered at hen
      split at hen
      · simp [reach, elemsAt]
      · cases hen
  | L, k' :: q, k, p, .lit _ _ => by simp [reach, reachA]
  | L, k' :: q, k, p, .obj _ ms => by
    rw [List.cons_append, reach, reachA, belowP, List.flatMap_assoc, funext (reach_append q k p)]
  | L, k' :: q, k, p, .arr _ es => by
    rw [List.cons_append, reach, reachA, belowP]
    split
    · rfl
    · rw [List.flatMap_assoc, funext (reach_append q k p)]

/-! ### Slots -/

section
variable (X : Fns E) (sh : Nat → Sh) (r : D)

/-- What is claimed of a slot: it ends up with the last value reached. -/
def SlottedR (s : Nat) (L : List Path) (K : List (Path × Bool)) (d : D) (σ σ' : Slots) : Prop :=
  (L = [] → look σ' s = look σ s) ∧ (∀ p, L = [p] → look σ' s = lastOf (look σ s) (reach false K p d))

def RecSR (rec : DRec E) : Prop :=
  ∀ n d σ a s, 0 < s → rec n d σ = .ok a → n.Tidy → n.Full → SlottedR s (withSlot s (notes n)) (kinds n) d σ a.2

theorem rMembers_slot_none {rec : DRec E} (hrec : RecSR rec) {es : Elems E} (ht : es.Tidy) (hfu : es.Full) {s : Nat} (hs : 0 < s)
    (hn : withSlot s (notesE es) = []) : ∀ (ms : Ms) (σ : Slots) (a : Marks × Slots), dMembers rec es ms σ = .ok a → look a.2 s = look σ s
  | .nil, σ, a, h => by cases h; rfl
  | .cons kty key _ _ d _ _ rest, σ, a, h => by
    rw [dMembers] at h
    obtain ⟨k, hk, h⟩ := Res.bind_eq_ok.1 h
    split at h
    · rename_i e he
      obtain ⟨b, hb, h⟩ := Res.bind_eq_ok.1 h
      obtain ⟨c, hcc, _, h2⟩ := andThen_marks h
      rw [h2, rMembers_slot_none hrec ht hfu hs hn rest b.2 c hcc]
      exact (hrec e d σ b s hs hb (Elems.Tidy.find ht he) (Elems.Full.find hfu he)).1 (notesE_none hn k e he)
    · exact rMembers_slot_none hrec ht hfu hs hn rest σ a h

theorem rMembers_slot_one {rec : DRec E} (hrec : RecSR rec) {es : Elems E} (ht : es.Tidy) (hfu : es.Full) {s : Nat} (hs : 0 < s) {k p : _}
    (hx : withSlot s (notesE es) = [k :: p]) {e : Exec E} (he : es.find k = some e) : ∀ (ms : Ms) (σ : Slots) (a : Marks × Slots),
    dMembers rec es ms σ = .ok a → look a.2 s = lastOf (look σ s) ((membersAt k ms).flatMap (reach false (kinds e) p))
  | .nil, σ, a, h => by cases h; rfl
  | .cons kty key _ _ d _ _ rest, σ, a, h => by
    rw [dMembers] at h
    obtain ⟨k', hk, h⟩ := Res.bind_eq_ok.1 h
    have hk' := memberKey_ok hk
    obtain ⟨k1, p1, e1, q1, q2, q3, q4⟩ := notesE_find ht hx
    simp only [List.cons.injEq] at q1
    obtain ⟨rfl, rfl⟩ := q1
    have : e1 = e := by rw [q2] at he; cases he; rfl
    subst this
    by_cases hkk : k' = k
    · subst hkk
      rw [q2] at h
      simp only at h
      obtain ⟨b, hb, h⟩ := Res.bind_eq_ok.1 h
      obtain ⟨c, hcc, _, h2⟩ := andThen_marks h
      rw [membersAt, if_pos hk', List.flatMap_cons, lastOf_append, h2]
      rw [rMembers_slot_one hrec ht hfu hs hx he rest b.2 c hcc]
      rw [(hrec e1 d σ b s hs hb (Elems.Tidy.find ht q2) (Elems.Full.find hfu q2)).2 p q3]
    · rw [membersAt, if_neg (by rw [hk']; exact hkk)]
      split at h
      · rename_i e' he'
        obtain ⟨b, hb, h⟩ := Res.bind_eq_ok.1 h
        obtain ⟨c, hcc, _, h2⟩ := andThen_marks h
        rw [h2, rMembers_slot_one hrec ht hfu hs hx he rest b.2 c hcc]
        rw [(hrec e' d σ b s hs hb (Elems.Tidy.find ht he') (Elems.Full.find hfu he')).1 (q4 k' e' hkk he')]
      · exact rMembers_slot_one hrec ht hfu hs hx he rest σ a h

theorem rElems_slot_none {rec : DRec E} (hrec : RecSR rec) {es : Elems E} (ht : es.Tidy) (hfu : es.Full) {s : Nat} (hs : 0 < s)
    (hn : withSlot s (notesE es) = []) : ∀ (xs : Es) (j : Nat) (σ : Slots) (a : Marks × Slots), dElems rec es j xs σ = .ok a →
    look a.2 s = look σ s
  | .nil, j, σ, a, h => by cases h; rfl
  | .cons d _ _ rest, j, σ, a, h => by
    rw [dElems] at h
    obtain ⟨_, _, h⟩ := Res.bind_eq_ok.1 h
    split at h
    · rename_i e he
      obtain ⟨b, hb, h⟩ := Res.bind_eq_ok.1 h
      obtain ⟨c, hcc, _, h2⟩ := andThen_marks h
      rw [h2, rElems_slot_none hrec ht hfu hs hn rest (j + 1) b.2 c hcc]
      exact (hrec e d σ b s hs hb (Elems.Tidy.find ht he) (Elems.Full.find hfu he)).1 (notesE_none hn _ e he)
    · exact rElems_slot_none hrec ht hfu hs hn rest (j + 1) σ a h

theorem rElems_slot_one {rec : DRec E} (hrec : RecSR rec) {es : Elems E} (ht : es.Tidy) (hfu : es.Full) {s : Nat} (hs : 0 < s) {k p : _}
    (hx : withSlot s (notesE es) = [k :: p]) {e : Exec E} (he : es.find k = some e) : ∀ (xs : Es) (j : Nat) (σ : Slots) (a : Marks × Slots),
    dElems rec es j xs σ = .ok a → look a.2 s = lastOf (look σ s) ((elemsAt k j xs).flatMap (reach false (kinds e) p))
  | .nil, j, σ, a, h => by cases h; rfl
  | .cons d _ _ rest, j, σ, a, h => by
    rw [dElems] at h
    obtain ⟨_, _, h⟩ := Res.bind_eq_ok.1 h
    obtain ⟨k1, p1, e1, q1, q2, q3, q4⟩ := notesE_find ht hx
    simp only [List.cons.injEq] at q1
    obtain ⟨rfl, rfl⟩ := q1
    have : e1 = e := by rw [q2] at he; cases he; rfl
    subst this
    by_cases hkk : indexKey j = k
    · subst hkk
      rw [q2] at h
      simp only at h
      obtain ⟨b, hb, h⟩ := Res.bind_eq_ok.1 h
      obtain ⟨c, hcc, _, h2⟩ := andThen_marks h
      rw [elemsAt, if_pos rfl, List.flatMap_cons, lastOf_append, h2]
      rw [rElems_slot_one hrec ht hfu hs hx he rest (j + 1) b.2 c hcc]
      rw [(hrec e1 d σ b s hs hb (Elems.Tidy.find ht q2) (Elems.Full.find hfu q2)).2 p q3]
    · rw [elemsAt, if_neg hkk]
      split at h
      · rename_i e' he'
        obtain ⟨b, hb, h⟩ := Res.bind_eq_ok.1 h
        obtain ⟨c, hcc, _, h2⟩ := andThen_marks h
        rw [h2, rElems_slot_one hrec ht hfu hs hx he rest (j + 1) b.2 c hcc]
        rw [(hrec e' d σ b s hs hb (Elems.Tidy.find ht he') (Elems.Full.find hfu he')).1 (q4 _ e' hkk he')]
      · exact rElems_slot_one hrec ht hfu hs hx he rest (j + 1) σ a h

/-- A slot below a key. -/
theorem key_slot {s : Nat} {es : Elems E} (ht : es.Tidy) {p : Path} (h : withSlot s (notesE es) = [p]) :
    ∃ k p' e, p = k :: p' ∧ es.find k = some e := by
  obtain ⟨k, p', e, q1, q2, _⟩ := notesE_find ht h
  exact ⟨k, p', e, q1, q2⟩

/-- A value without anything below the keys. -/
theorem slottedR_leaf {s st : Nat} (hs : 0 < s) {es : Elems E} {ops : List (Op E)} {ls : Loops E} {a : After E} {rec : DRec E} {d : D}
    {σ : Slots} {c : Marks × Slots} (h : dOpsThen X rec sh r ops st a d σ = .ok c) {K : List (Path × Bool)} (hno : noticed K d = true)
    (hw : ∀ k p, withSlot s (notesE es) ≠ [] → reach false K (k :: p) d = []) :
    SlottedR s (withSlot s (notes (.mk st es ops ls a))) K d σ c.2 := by
  rw [withSlot_mk hs]
  have hl := dOpsThen_look X sh r hs h
  refine ⟨fun h0 => ?_, fun p h1 => ?_⟩
  · rw [hl, if_neg (slot_cases_none h0).1]
  · rcases slot_cases h1 with ⟨h2, rfl, _⟩ | ⟨h2, h3⟩
    · rw [hl, if_pos h2, reach, hno]; rfl
    · have hm : p ∈ withSlot s (notesE es) := by rw [h3]; exact List.mem_singleton.2 rfl
      obtain ⟨k, p', hk⟩ := mem_notesE_cons es (mem_withSlot.1 hm)
      simp only at hk; subst hk
      rw [hl, if_neg h2, hw k p' (by rw [h3]; simp), lastOf_nil]

theorem dObj_slottedR {rec : DRec E} (hrec : RecSR rec) {s : Nat} (hs : 0 < s) {st : Nat} {es : Elems E} {ops : List (Op E)} {ls : Loops E} {a : After E}
    {ws : List Nat} {ms : Ms} {σ : Slots} {c : Marks × Slots} (h : dObj X rec sh r st es ops a ws ms σ = .ok c) (ht : es.Tidy) (hfu : es.Full) :
    SlottedR s (withSlot s (notes (.mk st es ops ls a))) (kinds (.mk st es ops ls a)) (.obj ws ms) σ c.2 := by
  rw [dObj] at h
  have hmb := moreBelow_kinds (st := st) (ops := ops) (ls := ls) (a := a) hfu
  by_cases hemp : es.isEmpty = true
  · simp only [hemp, if_true] at h
    have := nil_of_isEmpty hemp
    subst this
    refine slottedR_leaf X sh r hs h ?_ (fun k p hne => absurd rfl hne)
    cases ms with
    | nil => rw [noticed, hmb]; rfl
    | cons => rfl
  · simp only [hemp, Bool.false_eq_true, if_false] at h
    obtain ⟨b, hb, h⟩ := Res.bind_eq_ok.1 h
    obtain ⟨l, hl, h⟩ := Res.bind_eq_ok.1 h
    have hsub : ∀ k e p, es.find k = some e → reach false (kinds e) p = reach false (below k (kinds (.mk st es ops ls a))) p :=
      fun k e p he => funext fun d => reach_congr (kinds_child ht he) p d
    rw [withSlot_mk hs]
    cases ms with
    | nil =>
      cases hb
      cases h
      refine ⟨fun _ => rfl, fun p h1 => ?_⟩
      rcases slot_cases h1 with ⟨h2, rfl, _⟩ | ⟨h2, h3⟩
      · rw [reach, noticed, hmb]; simp only [hemp]; rfl
      · obtain ⟨k, p', e, rfl, he⟩ := key_slot ht h3
        rfl
    | cons kty key k1 k2 v w1 w2 rest =>
      obtain ⟨b', hb', _, h2⟩ := andThen_marks h
      have hl' := dOpsThen_look X sh r hs hb'
      rw [h2]
      refine ⟨fun h0 => ?_, fun p h1 => ?_⟩
      · obtain ⟨z1, z2⟩ := slot_cases_none h0
        rw [hl', if_neg z1, rMembers_slot_none hrec ht hfu hs z2 _ _ _ hb]
      · rcases slot_cases h1 with ⟨h2, rfl, _⟩ | ⟨h2, h3⟩
        · rw [hl', if_pos h2, reach, noticed]; rfl
          all_goals simp
        · obtain ⟨k, p', e, rfl, he⟩ := key_slot ht h3
          rw [hl', if_neg h2, rMembers_slot_one hrec ht hfu hs h3 he _ _ _ hb, reach, hsub _ _ _ he]

theorem dArr_slottedR {rec : DRec E} (hrec : RecSR rec) {s : Nat} (hs : 0 < s) {st : Nat} {es : Elems E} {ops : List (Op E)} {ls : Loops E} {a : After E}
    {ws : List Nat} {xs : Es} {σ : Slots} {c : Marks × Slots} (h : dArr X rec sh r st es ops ls a ws xs σ = .ok c) (ht : es.Tidy) (hfu : es.Full) :
    SlottedR s (withSlot s (notes (.mk st es ops ls a))) (kinds (.mk st es ops ls a)) (.arr ws xs) σ c.2 := by
  have hlh := loopHere_kinds (st := st) (es := es) (ops := ops) (ls := ls) (a := a)
  have hsub : ∀ k e p, es.find k = some e → reach false (kinds e) p = reach false (below k (kinds (.mk st es ops ls a))) p :=
    fun k e p he => funext fun d => reach_congr (kinds_child ht he) p d
  rw [dArr.eq_def] at h
  by_cases hemp : ls.isEmpty = true
  · simp only [hemp, if_true] at h
    have hls := loops_nil_of_isEmpty hemp
    subst hls
    rw [withSlot_mk hs]
    cases xs with
    | nil =>
      cases h
      refine ⟨fun _ => rfl, fun p h1 => ?_⟩
      rcases slot_cases h1 with ⟨h2, rfl, _⟩ | ⟨h2, h3⟩
      · rw [reach, noticed, hlh]; rfl
      · obtain ⟨k, p', e, rfl, he⟩ := key_slot ht h3
        simp [reach, elemsAt, lastOf]
    | cons v w1 w2 rest =>
      obtain ⟨b, hb, h⟩ := Res.bind_eq_ok.1 h
      obtain ⟨b', hb', _, h2⟩ := andThen_marks h
      have hl' := dOpsThen_look X sh r hs hb'
      rw [h2]
      refine ⟨fun h0 => ?_, fun p h1 => ?_⟩
      · obtain ⟨z1, z2⟩ := slot_cases_none h0
        rw [hl', if_neg z1, rElems_slot_none hrec ht hfu hs z2 _ _ _ _ hb]
      · rcases slot_cases h1 with ⟨h2, rfl, _⟩ | ⟨h2, h3⟩
        · rw [hl', if_pos h2, reach, noticed]; rfl
          all_goals simp
        · obtain ⟨k, p', e, rfl, he⟩ := key_slot ht h3
          rw [hl', if_neg h2, rElems_slot_one hrec ht hfu hs h3 he _ _ _ _ hb, reach, hsub _ _ _ he, hlh]
          rfl
  · simp only [hemp, Bool.false_eq_true, if_false] at h
    obtain ⟨l, hl, h⟩ := Res.bind_eq_ok.1 h
    obtain ⟨b', hb', _, h2⟩ := andThen_marks h
    have hl' := dOpsThen_look X sh r hs hb'
    have hlh' : loopHere (kinds (.mk st es ops ls a)) = true := by rw [hlh]; simpa using hemp
    have hno : noticed (kinds (.mk st es ops ls a)) (.arr ws xs) = true := by
      cases xs with
      | nil => rw [noticed]; exact hlh'
      | cons => rfl
    rw [h2, withSlot_mk hs]
    refine ⟨fun h0 => ?_, fun p h1 => ?_⟩
    · rw [hl', if_neg (slot_cases_none h0).1]
    · rcases slot_cases h1 with ⟨h2, rfl, _⟩ | ⟨h2, h3⟩
      · rw [hl', if_pos h2, reach, hno]; rfl
      · obtain ⟨k, p', e, rfl, he⟩ := key_slot ht h3
        rw [hl', if_neg h2, reach, if_pos hlh', lastOf_nil]

/-- A slot stored at one path ends up with the last value reached at the path. -/
theorem dExec_slottedR : ∀ h : Nat, RecSR (dExec X sh r h)
  | 0 => by intro n d σ a s _ h; cases h
  | hh + 1 => by
    intro n d σ a s hs h ht hfu
    obtain ⟨st, es, ops, ls, af⟩ := n
    have ih := dExec_slottedR hh
    cases d with
    | lit ty w => exact slottedR_leaf X sh r hs h rfl (fun k p _ => rfl)
    | obj ws ms => exact dObj_slottedR X sh r ih hs h ht.1 hfu.1
    | arr ws xs => exact dArr_slottedR X sh r ih hs h ht.1 hfu.1

/-! ### Operations of an `AfterNode` -/

/-- The slots have the last values reached below `x`. -/
def FilledR (K : List (Path × Bool)) (SP : List (Nat × Path)) (x : D) (σ : Slots) : Prop :=
  ∀ y ∈ SP, look σ y.1 = lastOf none (reach false K y.2 x)

def RecAR (rec : DRec E) : Prop :=
  ∀ n d σ a i q o SP f, rec n d σ = .ok a → n.Tidy → n.Full → withBucket i (items n) = [(q, Item.aop o)] → Waits n q SP σ →
    (∀ x ∈ reachA (kinds n) q d, ∀ σ', FilledR (belowP q (kinds n)) SP x σ' → ∀ v, opResult X (slotVal r σ') none o = .ok v → v.1 = f x) →
    Marks.get a.1 i = (reachA (kinds n) q d).head?.map f

theorem Waits.later {n : Exec E} {q : Path} {SP : List (Nat × Path)} {σ σ' : Slots} (h : Waits n q SP σ)
    (hl : ∀ y ∈ SP, look σ' y.1 = look σ y.1) : Waits n q SP σ' :=
  ⟨h.ne, h.pos, h.below, h.one, fun x hx => by rw [hl x hx, h.empty x hx]⟩

/-- If nothing is reached at `q`, nothing is stored below it. -/
theorem reach_nothing {K : List (Path × Bool)} {q : Path} {d : D} (h : reachA K q d = []) {p : Path} (hp : p ≠ []) : reach false K (q ++ p) d = [] := by
  obtain ⟨k, p', rfl⟩ := List.exists_cons_of_ne_nil hp
  rw [reach_append, h, List.flatMap_nil]

theorem head_append {α β : Type} {l l' : List α} {f : α → β} : (l ++ l').head?.map f = (l.head?.map f).or (l'.head?.map f) := by
  cases l <;> simp

theorem rMembers_after {rec : DRec E} (hI : RecR X sh r rec) (hS : RecSR rec) (hA : RecAR X r rec) {es : Elems E} (ht : es.Tidy) (hfu : es.Full) {i : Nat}
    {k : List Nat} {q : Path} {o : Op E} {SP : List (Nat × Path)} {f : D → Bool} {n : Exec E} (hx : withBucket i (itemsE es) = [(k :: q, Item.aop o)])
    (hn : ∀ x ∈ SP, withSlot x.1 (notesE es) = [k :: q ++ x.2]) {e : Exec E} (he : es.find k = some e) : ∀ (ms : Ms) (σ : Slots) (a : Marks × Slots),
    dMembers rec es ms σ = .ok a → Waits n (k :: q) SP σ →
    (∀ x ∈ (membersAt k ms).flatMap (reachA (kinds e) q), ∀ σ', FilledR (belowP q (kinds e)) SP x σ' →
      ∀ v, opResult X (slotVal r σ') none o = .ok v → v.1 = f x) →
    Marks.get a.1 i = ((membersAt k ms).flatMap (reachA (kinds e) q)).head?.map f
  | .nil, σ, a, h, _, _ => by cases h; rfl
  | .cons kty key _ _ d _ _ rest, σ, a, h, hw, hf => by
    rw [dMembers] at h
    obtain ⟨k', hk, h⟩ := Res.bind_eq_ok.1 h
    have hk' := memberKey_ok hk
    obtain ⟨k1, p1, e1, q1, q2, q3, q4⟩ := itemsE_find ht hx
    simp only [List.cons.injEq] at q1
    obtain ⟨rfl, rfl⟩ := q1
    have : e1 = e := by rw [q2] at he; cases he; rfl
    subst this
    by_cases hkk : k' = k
    · subst hkk
      rw [q2] at h
      simp only at h
      obtain ⟨b, hb, h⟩ := Res.bind_eq_ok.1 h
      obtain ⟨c, hcc, h1, _⟩ := andThen_marks h
      rw [membersAt, if_pos hk'] at hf ⊢
      rw [List.flatMap_cons] at hf ⊢
      have hw1 := hw.sub ht hn q2
      have hd := hA e1 d σ b i q o SP f hb (Elems.Tidy.find ht q2) (Elems.Full.find hfu q2) q3 hw1
        (fun x hx => hf x (List.mem_append_left _ hx))
      rw [h1, get_append, head_append, ← hd]
      cases hg : Marks.get b.1 i with
      | some v => simp
      | none =>
        simp only [Option.none_or]
        have hnone : reachA (kinds e1) q d = [] := by
          rw [hg] at hd
          cases hr : reachA (kinds e1) q d with
          | nil => rfl
          | cons => rw [hr] at hd; simp at hd
        refine rMembers_after hI hS hA ht hfu hx hn he rest b.2 c hcc (hw.later ?_) (fun x hx => hf x (List.mem_append_right _ hx))
        intro x hx
        rw [(hS e1 d σ b x.1 (hw.pos x hx) hb (Elems.Tidy.find ht q2) (Elems.Full.find hfu q2)).2 _ (hw1.one x hx),
          reach_nothing hnone (hw.below x hx), lastOf_nil]
    · rw [membersAt, if_neg (by rw [hk']; exact hkk)] at hf ⊢
      split at h
      · rename_i e' he'
        obtain ⟨b, hb, h⟩ := Res.bind_eq_ok.1 h
        obtain ⟨c, hcc, h1, _⟩ := andThen_marks h
        rw [h1, get_append, get_none ((hI e' d σ b i hb (Elems.Tidy.find ht he') (Elems.Full.find hfu he')).1 (q4 k' e' hkk he')), Option.none_or]
        refine rMembers_after hI hS hA ht hfu hx hn he rest b.2 c hcc (hw.later ?_) hf
        intro x hx
        exact (hS e' d σ b x.1 (hw.pos x hx) hb (Elems.Tidy.find ht he') (Elems.Full.find hfu he')).1 (sub_other ht hn hkk he' x hx)
      · exact rMembers_after hI hS hA ht hfu hx hn he rest σ a h hw hf

theorem rElems_after {rec : DRec E} (hI : RecR X sh r rec) (hS : RecSR rec) (hA : RecAR X r rec) {es : Elems E} (ht : es.Tidy) (hfu : es.Full) {i : Nat}
    {k : List Nat} {q : Path} {o : Op E} {SP : List (Nat × Path)} {f : D → Bool} {n : Exec E} (hx : withBucket i (itemsE es) = [(k :: q, Item.aop o)])
    (hn : ∀ x ∈ SP, withSlot x.1 (notesE es) = [k :: q ++ x.2]) {e : Exec E} (he : es.find k = some e) :
    ∀ (xs : Es) (j : Nat) (σ : Slots) (a : Marks × Slots), dElems rec es j xs σ = .ok a → Waits n (k :: q) SP σ →
    (∀ x ∈ (elemsAt k j xs).flatMap (reachA (kinds e) q), ∀ σ', FilledR (belowP q (kinds e)) SP x σ' →
      ∀ v, opResult X (slotVal r σ') none o = .ok v → v.1 = f x) →
    Marks.get a.1 i = ((elemsAt k j xs).flatMap (reachA (kinds e) q)).head?.map f
  | .nil, j, σ, a, h, _, _ => by cases h; rfl
  | .cons d _ _ rest, j, σ, a, h, hw, hf => by
    rw [dElems] at h
    obtain ⟨_, _, h⟩ := Res.bind_eq_ok.1 h
    obtain ⟨k1, p1, e1, q1, q2, q3, q4⟩ := itemsE_find ht hx
    simp only [List.cons.injEq] at q1
    obtain ⟨rfl, rfl⟩ := q1
    have : e1 = e := by rw [q2] at he; cases he; rfl
    subst this
    by_cases hkk : indexKey j = k
    · subst hkk
      rw [q2] at h
      simp only at h
      obtain ⟨b, hb, h⟩ := Res.bind_eq_ok.1 h
      obtain ⟨c, hcc, h1, _⟩ := andThen_marks h
      rw [elemsAt, if_pos rfl] at hf ⊢
      rw [List.flatMap_cons] at hf ⊢
      have hw1 := hw.sub ht hn q2
      have hd := hA e1 d σ b i q o SP f hb (Elems.Tidy.find ht q2) (Elems.Full.find hfu q2) q3 hw1
        (fun x hx => hf x (List.mem_append_left _ hx))
      rw [h1, get_append, head_append, ← hd]
      cases hg : Marks.get b.1 i with
      | some v => simp
      | none =>
        simp only [Option.none_or]
        have hnone : reachA (kinds e1) q d = [] := by
          rw [hg] at hd
          cases hr : reachA (kinds e1) q d with
          | nil => rfl
          | cons => rw [hr] at hd; simp at hd
        refine rElems_after hI hS hA ht hfu hx hn he rest (j + 1) b.2 c hcc (hw.later ?_) (fun x hx => hf x (List.mem_append_right _ hx))
        intro x hx
        rw [(hS e1 d σ b x.1 (hw.pos x hx) hb (Elems.Tidy.find ht q2) (Elems.Full.find hfu q2)).2 _ (hw1.one x hx),
          reach_nothing hnone (hw.below x hx), lastOf_nil]
    · rw [elemsAt, if_neg hkk] at hf ⊢
      split at h
      · rename_i e' he'
        obtain ⟨b, hb, h⟩ := Res.bind_eq_ok.1 h
        obtain ⟨c, hcc, h1, _⟩ := andThen_marks h
        rw [h1, get_append, get_none ((hI e' d σ b i hb (Elems.Tidy.find ht he') (Elems.Full.find hfu he')).1 (q4 _ e' hkk he')), Option.none_or]
        refine rElems_after hI hS hA ht hfu hx hn he rest (j + 1) b.2 c hcc (hw.later ?_) hf
        intro x hx
        exact (hS e' d σ b x.1 (hw.pos x hx) hb (Elems.Tidy.find ht he') (Elems.Full.find hfu he')).1 (sub_other ht hn hkk he' x hx)
      · exact rElems_after hI hS hA ht hfu hx hn he rest (j + 1) σ a h hw hf

theorem Waits.key {st : Nat} {es : Elems E} {ops : List (Op E)} {ls : Loops E} {a : After E} {q : Path} {SP : List (Nat × Path)} {σ : Slots}
    (h : Waits (.mk st es ops ls a : Exec E) q SP σ) {x : Nat × Path} (hx : x ∈ SP) : ∃ k p, x.2 = k :: p :=
  List.exists_cons_of_ne_nil (h.below x hx)

/-- What the operation of an `AfterNode` decides, on any document. -/
theorem dExec_afterR : ∀ h : Nat, RecAR X r (dExec X sh r h)
  | 0 => by intro n d σ a i q o SP f h; cases h
  | hh + 1 => by
    intro n d σ c i q o SP f h ht hfu hi hw hf
    obtain ⟨st, es, ops, ls, a⟩ := n
    obtain ⟨i1, i2, i3⟩ := aop_cases hi
    have hne := hw.ne_empty
    have hlh := loopHere_kinds (st := st) (es := es) (ops := ops) (ls := ls) (a := a)
    have hin := hw.inner
    have hsub : ∀ k e p, es.find k = some e → reach false (kinds e) p = reach false (below k (kinds (.mk st es ops ls a))) p :=
      fun k e p he => funext fun d => reach_congr (kinds_child ht.1 he) p d
    have hsame : ∀ {k e}, es.find k = some e → Same (kinds e) (below k (kinds (.mk st es ops ls a))) := fun he => .of_mem (kinds_child ht.1 he)
    have hsubA : ∀ k e p, es.find k = some e → reachA (kinds e) p = reachA (below k (kinds (.mk st es ops ls a))) p :=
      fun k e p he => funext fun d => reachA_same (hsame he) p d
    have hfill : ∀ {k e q' x σ'}, es.find k = some e → FilledR (belowP q' (kinds e)) SP x σ' →
        FilledR (belowP (k :: q') (kinds (.mk st es ops ls a))) SP x σ' := by
      intro k e q' x σ' he hx y hy
      rw [hx y hy, reach_same ((hsame he).belowP q')]; rfl
    cases d with
    | lit ty w =>
      rcases i3 with ⟨rfl, i4, i5⟩ | ⟨k, q', rfl, i4, i5⟩
      · obtain ⟨v, hv, hg⟩ := dOpsThen_after X sh r h i1 i5
        rw [hg, hf (.lit ty w) (by simp [reachA, entered]) σ ?_ v hv]
        · rfl
        · intro x hx
          obtain ⟨k, p, hk⟩ := hw.key hx
          rw [hk, hw.empty x hx]
          rfl
      · rw [get_none ((dOpsThen_sel X sh r h i5).1 i1)]; rfl
    | obj ws ms =>
      simp only [dExec, dObj, hne, Bool.false_eq_true, if_false] at h
      obtain ⟨b, hb, h⟩ := Res.bind_eq_ok.1 h
      obtain ⟨l, hl, h⟩ := Res.bind_eq_ok.1 h
      have hfirst : Marks.get (b.1 ++ l) i = (reachA (kinds (.mk st es ops ls a)) q (.obj ws ms)).head?.map f := by
        rcases i3 with ⟨rfl, i4, i5⟩ | ⟨k, q', rfl, i4, i5⟩
        · obtain ⟨_, v, hv, hg⟩ := dAfter_one X sh r hl i5 rfl
          rw [get_append, get_none (rMembers_none X sh r (dExec_decidesR X sh r hh) ht.1 hfu.1 i4 _ _ _ hb), Option.none_or, hg]
          rw [hf (.obj ws ms) (by simp [reachA, entered]) b.2 ?_ v hv]
          · simp [reachA, entered]
          · intro x hx
            obtain ⟨k, p, hk⟩ := hw.key hx
            have h2 := (hin x hx).2
            rw [List.nil_append, hk] at h2
            obtain ⟨k', p', e, hkk, he⟩ := key_slot ht.1 h2
            cases hkk
            rw [rMembers_slot_one (dExec_slottedR X sh r hh) ht.1 hfu.1 (hw.pos x hx) h2 he _ _ _ hb, hw.empty x hx, hk, belowP, reach,
              hsub _ _ _ he]
        · rw [get_append, get_none (dAfter_sel_none X sh r hl i5), Option.or_none]
          obtain ⟨k', p', e, hkk, he⟩ := key_item ht.1 i4
          cases hkk
          rw [rMembers_after X sh r (dExec_decidesR X sh r hh) (dExec_slottedR X sh r hh) (dExec_afterR hh) ht.1 hfu.1 i4
            (fun x hx => (hin x hx).2) he _ _ _ hb hw (fun x hx σ' hfl => hf x (by rw [reachA, ← hsubA _ _ _ he]; exact hx) σ' (hfill he hfl)),
            reachA, ← hsubA _ _ _ he]
      cases ms with
      | nil => cases h; exact hfirst
      | cons kty key k1 k2 v w1 w2 rest =>
        obtain ⟨b', hb', h1, _⟩ := andThen_marks h
        rw [h1, get_append, hfirst]
        rcases i3 with ⟨rfl, i4, i5⟩ | ⟨k, q', rfl, i4, i5⟩
        · simp [reachA, entered]
        · rw [get_none ((dOpsThen_sel X sh r hb' i5).1 i1), Option.or_none]
    | arr ws xs =>
      by_cases hemp : ls.isEmpty = true
      · have hls := loops_nil_of_isEmpty hemp
        subst hls
        simp only [dExec, dArr.eq_def, Loops.isEmpty, if_true] at h
        cases xs with
        | nil =>
          cases h
          rcases i3 with ⟨rfl, i4, i5⟩ | ⟨k, q', rfl, i4, i5⟩
          · rw [reachA, entered, hlh]; rfl
          · rw [reachA, hlh]; rfl
        | cons v w1 w2 rest =>
          obtain ⟨b, hb, h⟩ := Res.bind_eq_ok.1 h
          obtain ⟨b', hb', h1, _⟩ := andThen_marks h
          rw [h1, get_append]
          rcases i3 with ⟨rfl, i4, i5⟩ | ⟨k, q', rfl, i4, i5⟩
          · obtain ⟨v', hv, hg⟩ := dOpsThen_after X sh r hb' i1 i5
            rw [get_none (rElems_none X sh r (dExec_decidesR X sh r hh) ht.1 hfu.1 i4 _ _ _ _ hb), Option.none_or, hg]
            rw [hf (.arr ws (.cons v w1 w2 rest)) (by simp [reachA, entered]) b.2 ?_ v' hv]
            · simp [reachA, entered]
            · intro x hx
              obtain ⟨k, p, hk⟩ := hw.key hx
              have h2 := (hin x hx).2
              rw [List.nil_append, hk] at h2
              obtain ⟨k', p', e, hkk, he⟩ := key_slot ht.1 h2
              cases hkk
              rw [rElems_slot_one (dExec_slottedR X sh r hh) ht.1 hfu.1 (hw.pos x hx) h2 he _ _ _ _ hb, hw.empty x hx, hk, belowP, reach,
                hsub _ _ _ he, hlh]
              rfl
          · rw [get_none ((dOpsThen_sel X sh r hb' i5).1 i1), Option.or_none]
            obtain ⟨k', p', e, hkk, he⟩ := key_item ht.1 i4
            cases hkk
            have hrA : reachA (kinds (.mk st es ops .nil a)) (k :: q') (.arr ws (.cons v w1 w2 rest)) =
                (elemsAt k 0 (.cons v w1 w2 rest)).flatMap (reachA (kinds e) q') := by
              rw [reachA, hlh, ← hsubA _ _ _ he]; rfl
            rw [hrA] at hf ⊢
            rw [rElems_after X sh r (dExec_decidesR X sh r hh) (dExec_slottedR X sh r hh) (dExec_afterR hh) ht.1 hfu.1 i4
              (fun x hx => (hin x hx).2) he _ _ _ _ hb hw (fun x hx σ' hfl => hf x hx σ' (hfill he hfl))]
      · have hlh' : loopHere (kinds (.mk st es ops ls a)) = true := by rw [hlh]; simpa using hemp
        have hen : entered (kinds (.mk st es ops ls a)) (.arr ws xs) = true := by
          cases xs with
          | nil => rw [entered]; exact hlh'
          | cons => rfl
        simp only [dExec, dArr.eq_def, hemp, Bool.false_eq_true, if_false] at h
        obtain ⟨l, hl, h⟩ := Res.bind_eq_ok.1 h
        obtain ⟨b', hb', h1, _⟩ := andThen_marks h
        rw [h1, get_append, get_none (dArrayLoops_sel_none sh _ _ hl i2), Option.none_or]
        rcases i3 with ⟨rfl, i4, i5⟩ | ⟨k, q', rfl, i4, i5⟩
        · obtain ⟨v, hv, hg⟩ := dOpsThen_after X sh r hb' i1 i5
          rw [hg, hf (.arr ws xs) (by simp [reachA, hen]) σ ?_ v hv]
          · simp [reachA, hen]
          · intro x hx
            obtain ⟨k, p, hk⟩ := hw.key hx
            rw [hk, hw.empty x hx, belowP, reach, if_pos hlh']
            rfl
        · rw [get_none ((dOpsThen_sel X sh r hb' i5).1 i1), reachA, if_pos hlh']
          rfl

end

end Verif.Transform
