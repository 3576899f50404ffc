import Verif.Transform.Sem

/-!
# Which values the matcher sees

`walk` gives the values at a path; the matcher of `fastMatcher.go:564-684` does not execute the operations of a node on all of
them.  `reach` gives those it does execute them on, for any document (no regularity), and the decisions of a node are computed
from them.
-/

namespace Verif.Transform
open Verif.FastVal Verif.Match Verif.Expr
open Verif.Token (D Es Ms Tok)
open Verif.BinTree (Sh K UnOp BinOp)

variable {E : Ext}

/-! ### Specification -/

/-- The conditions below a key. -/
def below (k : List Nat) : List (Path × Bool) → List (Path × Bool)
  | [] => []
  | ([], _) :: L => below k L
  | (k' :: p, b) :: L => if k' = k then (p, b) :: below k L else below k L

/-- There is a loop over the value itself. -/
def loopHere (L : List (Path × Bool)) : Bool := L.any fun x => x.1.isEmpty && x.2

/-- There are conditions below the value. -/
def moreBelow (L : List (Path × Bool)) : Bool := L.any fun x => !x.1.isEmpty

/-- A value on which conditions are evaluated: an empty array is not noticed unless it is looped over, an empty object not if
there are other conditions below it. -/
def noticed (L : List (Path × Bool)) : D → Bool
  | .arr _ .nil => loopHere L
  | .obj _ .nil => !moreBelow L
  | _ => true

/-- The values at a path, in document order, on which a condition (`loop = false`) or loop there is evaluated, if `L` are the
conditions and loops of the whole filter: there is nothing below an array that is looped over. -/
def reach (loop : Bool) : List (Path × Bool) → Path → D → List D
  | L, [], d => if loop || noticed L d then [d] else []
  | L, k :: p, .obj _ ms => (membersAt k ms).flatMap (reach loop (below k L) p)
  | L, k :: p, .arr _ es => if loopHere L then [] else (elemsAt k 0 es).flatMap (reach loop (below k L) p)
  | _, _ :: _, .lit _ _ => []

/-! ### It depends on the set of conditions only -/

theorem mem_below {k : List Nat} : ∀ {L : List (Path × Bool)} {x : Path × Bool}, x ∈ below k L ↔ (k :: x.1, x.2) ∈ L
  | [], x => by simp [below]
  | ([], b) :: L, x => by rw [below, mem_below (L := L)]; simp
  | (k' :: p, b) :: L, x => by
    rw [below]
    split
    · rename_i h; subst h
      rw [List.mem_cons, mem_below (L := L), List.mem_cons]
      constructor
      · rintro (rfl | h)
        · exact Or.inl rfl
        · exact Or.inr h
      · rintro (h | h)
        · obtain ⟨a, c⟩ := x; simp only [Prod.mk.injEq, List.cons.injEq, true_and] at h
          exact Or.inl (Prod.ext h.1 h.2)
        · exact Or.inr h
    · rename_i h
      rw [mem_below (L := L), List.mem_cons]
      constructor
      · exact Or.inr
      · rintro (h' | h')
        · simp only [Prod.mk.injEq, List.cons.injEq] at h'; exact absurd h'.1.1.symm h
        · exact h'

theorem loopHere_iff {L : List (Path × Bool)} : loopHere L = true ↔ ([], true) ∈ L := by
  unfold loopHere
  rw [List.any_eq_true]
  constructor
  · rintro ⟨⟨p, b⟩, hx, h⟩
    simp only [Bool.and_eq_true, List.isEmpty_iff] at h
    obtain ⟨rfl, rfl⟩ := h
    exact hx
  · intro h; exact ⟨_, h, rfl⟩

theorem moreBelow_iff {L : List (Path × Bool)} : moreBelow L = true ↔ ∃ k p b, (k :: p, b) ∈ L := by
  unfold moreBelow
  rw [List.any_eq_true]
  constructor
  · rintro ⟨⟨p, b⟩, hx, h⟩
    cases p with
    | nil => simp at h
    | cons k p => exact ⟨k, p, b, hx⟩
  · rintro ⟨k, p, b, h⟩; exact ⟨_, h, rfl⟩

theorem loopHere_congr {L L' : List (Path × Bool)} (h : ∀ x, x ∈ L ↔ x ∈ L') : loopHere L = loopHere L' := by
  rw [Bool.eq_iff_iff, loopHere_iff, loopHere_iff, h]

theorem moreBelow_congr {L L' : List (Path × Bool)} (h : ∀ x, x ∈ L ↔ x ∈ L') : moreBelow L = moreBelow L' := by
  rw [Bool.eq_iff_iff, moreBelow_iff, moreBelow_iff]; simp only [h]

theorem noticed_congr {L L' : List (Path × Bool)} (h : ∀ x, x ∈ L ↔ x ∈ L') (d : D) : noticed L d = noticed L' d := by
  unfold noticed
  rw [loopHere_congr h, moreBelow_congr h]

theorem reach_congr {loop : Bool} : ∀ {L L' : List (Path × Bool)}, (∀ x, x ∈ L ↔ x ∈ L') → ∀ (p : Path) (d : D), reach loop L p d = reach loop L' p d
  | L, L', h, [], d => by rw [reach, reach, noticed_congr h]
  | L, L', h, k :: p, d => by
    have hb : ∀ x, x ∈ below k L ↔ x ∈ below k L' := fun x => by rw [mem_below, mem_below, h]
    have hf : reach loop (below k L) p = reach loop (below k L') p := funext fun d => reach_congr hb p d
    cases d with
    | lit => rw [reach, reach]
    | obj ws ms => rw [reach, reach, hf]
    | arr ws es => rw [reach, reach, hf, loopHere_congr h]

/-- What is reached is at the path. -/
theorem reach_walk {loop : Bool} : ∀ {L : List (Path × Bool)} (p : Path) (d : D) {x : D}, x ∈ reach loop L p d → x ∈ walk p d
  | L, [], d, x, h => by
    rw [reach] at h; rw [walk]
    split at h
    · exact h
    · cases h
  | L, k :: p, d, x, h => by
    cases d with
    | lit => rw [reach] at h; cases h
    | obj ws ms =>
      rw [reach] at h; rw [walk]
      obtain ⟨y, hy, h⟩ := List.mem_flatMap.1 h
      exact List.mem_flatMap.2 ⟨y, hy, reach_walk p y h⟩
    | arr ws es =>
      rw [reach] at h; rw [walk]
      split at h
      · cases h
      · obtain ⟨y, hy, h⟩ := List.mem_flatMap.1 h
        exact List.mem_flatMap.2 ⟨y, hy, reach_walk p y h⟩

/-! ### Nodes -/

/-- The paths of the conditions and loops of a node, and of the values it stores. -/
def kinds (n : Exec E) : List (Path × Bool) := (items n).map kind ++ (notes n).map fun y => (y.1, false)

def isLoop : Item E → Bool
  | .loop .. => true
  | _ => false

theorem kind_eq (x : Path × Item E) : kind x = (x.1, isLoop x.2) := by
  obtain ⟨p, it⟩ := x
  cases it <;> rfl

theorem kinds_child {st : Nat} {es : Elems E} {ops : List (Op E)} {ls : Loops E} {a : After E} (ht : es.Tidy) {k e}
    (he : es.find k = some e) : ∀ x, x ∈ kinds e ↔ x ∈ below k (kinds (.mk st es ops ls a)) := by
  intro x
  rw [mem_below, kinds, kinds, List.mem_append, List.mem_append, List.mem_map, List.mem_map, List.mem_map, List.mem_map]
  constructor
  · rintro (⟨y, hy, rfl⟩ | ⟨y, hy, rfl⟩)
    · rw [kind_eq]
      exact Or.inl ⟨(k :: y.1, y.2), (mem_items_find ht he).1 hy, kind_eq _⟩
    · exact Or.inr ⟨(k :: y.1, y.2), (mem_notes_find ht he).1 hy, rfl⟩
  · rintro (⟨⟨p, it⟩, hy, hk⟩ | ⟨⟨p, y⟩, hy, hk⟩)
    · rw [kind_eq] at hk
      simp only [Prod.mk.injEq] at hk
      obtain ⟨rfl, h2⟩ := hk
      exact Or.inl ⟨(x.1, it), (mem_items_find (y := (x.1, it)) ht he).2 hy, by rw [kind_eq]; exact Prod.ext rfl h2⟩
    · simp only [Prod.mk.injEq] at hk
      obtain ⟨rfl, h2⟩ := hk
      exact Or.inr ⟨(x.1, y), (mem_notes_find (y := (x.1, y)) ht he).2 hy, Prod.ext rfl h2⟩

/-- What is claimed of the decisions for bucket `i`, on any document. -/
def DecidesR (X : Fns E) (sh : Nat → Sh) (r : D) (i : Nat) (n : Exec E) (d : D) (l : Marks) : Prop :=
  (withBucket i (items n) = [] → sel i l = []) ∧
  (∀ p it, withBucket i (items n) = [(p, it)] → Direct it → ∀ f : D → Marks,
    (∀ x h σ l, itemMarks X sh r h it x σ = .ok l → l = f x) → sel i l = (reach (isLoop it) (kinds n) p d).flatMap f)

def RecR (X : Fns E) (sh : Nat → Sh) (r : D) (rec : DRec E) : Prop :=
  ∀ n d σ a i, rec n d σ = .ok a → n.Tidy → n.Full → DecidesR X sh r i n d a.1

section
variable (X : Fns E) (sh : Nat → Sh) (r : D)

theorem rMembers_none {rec : DRec E} (hrec : RecR X sh r rec) {es : Elems E} (ht : es.Tidy) (hfu : es.Full) {i : Nat}
    (hn : withBucket i (itemsE es) = []) : ∀ (ms : Ms) (σ : Slots) (a : Marks × Slots), dMembers rec es ms σ = .ok a → sel i a.1 = []
  | .nil, σ, a, h => by cases h; rfl
  | .cons kty key _ _ d _ _ rest, σ, a, h => by
    rw [dMembers] at h
    obtain ⟨k, hk, h⟩ := Res.bind_eq_ok.1 h
    split at h
    · rename_i e he
      obtain ⟨b, hb, h⟩ := Res.bind_eq_ok.1 h
      obtain ⟨c, hcc, h1, _⟩ := andThen_marks h
      rw [h1, sel_append, rMembers_none hrec ht hfu hn rest b.2 c hcc]
      rw [(hrec e d σ b i hb (Elems.Tidy.find ht he) (Elems.Full.find hfu he)).1
        (itemsE_none hn k e he)]
      rfl
    · exact rMembers_none hrec ht hfu hn rest σ a h

theorem rMembers_one {rec : DRec E} (hrec : RecR X sh r rec) {es : Elems E} (ht : es.Tidy) (hfu : es.Full) {i : Nat}
    {k p : _} {it : Item E} (hx : withBucket i (itemsE es) = [(k :: p, it)]) (hd : Direct it) {f : D → Marks}
    (hf : ∀ x h σ l, itemMarks X sh r h it x σ = .ok l → l = f x) {e : Exec E} (he : es.find k = some e) :
    ∀ (ms : Ms) (σ : Slots) (a : Marks × Slots), dMembers rec es ms σ = .ok a →
    sel i a.1 = ((membersAt k ms).flatMap (reach (isLoop it) (kinds e) p)).flatMap f
  | .nil, σ, a, h => by cases h; rfl
  | .cons kty key _ _ d _ _ rest, σ, a, h => by
    rw [dMembers] at h
    obtain ⟨k', hk, h⟩ := Res.bind_eq_ok.1 h
    have hk' := memberKey_ok hk
    obtain ⟨k1, p1, e1, q1, q2, q3, q4⟩ := itemsE_find ht hx
    simp only [List.cons.injEq] at q1
    obtain ⟨rfl, rfl⟩ := q1
    have : e1 = e := by rw [q2] at he; cases he; rfl
    subst this
    by_cases hkk : k' = k
    · subst hkk
      rw [q2] at h
      simp only at h
      obtain ⟨b, hb, h⟩ := Res.bind_eq_ok.1 h
      obtain ⟨c, hcc, h1, _⟩ := andThen_marks h
      rw [membersAt, if_pos hk', List.flatMap_cons, h1, sel_append, List.flatMap_append]
      rw [rMembers_one hrec ht hfu hx hd hf he rest b.2 c hcc]
      rw [(hrec e1 d σ b i hb (Elems.Tidy.find ht q2) (Elems.Full.find hfu q2)).2 p it q3 hd f hf]
    · rw [membersAt, if_neg (by rw [hk']; exact hkk)]
      split at h
      · rename_i e' he'
        obtain ⟨b, hb, h⟩ := Res.bind_eq_ok.1 h
        obtain ⟨c, hcc, h1, _⟩ := andThen_marks h
        rw [h1, sel_append, rMembers_one hrec ht hfu hx hd hf he rest b.2 c hcc]
        rw [(hrec e' d σ b i hb (Elems.Tidy.find ht he') (Elems.Full.find hfu he')).1
          (q4 k' e' hkk he')]
        rfl
      · exact rMembers_one hrec ht hfu hx hd hf he rest σ a h

theorem rElems_none {rec : DRec E} (hrec : RecR X sh r rec) {es : Elems E} (ht : es.Tidy) (hfu : es.Full) {i : Nat}
    (hn : withBucket i (itemsE es) = []) : ∀ (xs : Es) (j : Nat) (σ : Slots) (a : Marks × Slots), dElems rec es j xs σ = .ok a → sel i a.1 = []
  | .nil, j, σ, a, h => by cases h; rfl
  | .cons d _ _ rest, j, σ, a, h => by
    rw [dElems] at h
    obtain ⟨_, _, h⟩ := Res.bind_eq_ok.1 h
    split at h
    · rename_i e he
      obtain ⟨b, hb, h⟩ := Res.bind_eq_ok.1 h
      obtain ⟨c, hcc, h1, _⟩ := andThen_marks h
      rw [h1, sel_append, rElems_none hrec ht hfu hn rest (j + 1) b.2 c hcc]
      rw [(hrec e d σ b i hb (Elems.Tidy.find ht he) (Elems.Full.find hfu he)).1
        (itemsE_none hn _ e he)]
      rfl
    · exact rElems_none hrec ht hfu hn rest (j + 1) σ a h

theorem rElems_one {rec : DRec E} (hrec : RecR X sh r rec) {es : Elems E} (ht : es.Tidy) (hfu : es.Full) {i : Nat}
    {k p : _} {it : Item E} (hx : withBucket i (itemsE es) = [(k :: p, it)]) (hd : Direct it) {f : D → Marks}
    (hf : ∀ x h σ l, itemMarks X sh r h it x σ = .ok l → l = f x) {e : Exec E} (he : es.find k = some e) :
    ∀ (xs : Es) (j : Nat) (σ : Slots) (a : Marks × Slots), dElems rec es j xs σ = .ok a →
    sel i a.1 = ((elemsAt k j xs).flatMap (reach (isLoop it) (kinds e) p)).flatMap f
  | .nil, j, σ, a, h => by cases h; rfl
  | .cons d _ _ rest, j, σ, a, h => by
    rw [dElems] at h
    obtain ⟨_, _, h⟩ := Res.bind_eq_ok.1 h
    obtain ⟨k1, p1, e1, q1, q2, q3, q4⟩ := itemsE_find ht hx
    simp only [List.cons.injEq] at q1
    obtain ⟨rfl, rfl⟩ := q1
    have : e1 = e := by rw [q2] at he; cases he; rfl
    subst this
    by_cases hkk : indexKey j = k
    · subst hkk
      rw [q2] at h
      simp only at h
      obtain ⟨b, hb, h⟩ := Res.bind_eq_ok.1 h
      obtain ⟨c, hcc, h1, _⟩ := andThen_marks h
      rw [elemsAt, if_pos rfl, List.flatMap_cons, h1, sel_append, List.flatMap_append]
      rw [rElems_one hrec ht hfu hx hd hf he rest (j + 1) b.2 c hcc]
      rw [(hrec e1 d σ b i hb (Elems.Tidy.find ht q2) (Elems.Full.find hfu q2)).2 p it q3 hd f hf]
    · rw [elemsAt, if_neg hkk]
      split at h
      · rename_i e' he'
        obtain ⟨b, hb, h⟩ := Res.bind_eq_ok.1 h
        obtain ⟨c, hcc, h1, _⟩ := andThen_marks h
        rw [h1, sel_append, rElems_one hrec ht hfu hx hd hf he rest (j + 1) b.2 c hcc]
        rw [(hrec e' d σ b i hb (Elems.Tidy.find ht he') (Elems.Full.find hfu he')).1
          (q4 _ e' hkk he')]
        rfl
      · exact rElems_one hrec ht hfu hx hd hf he rest (j + 1) σ a h

theorem nil_of_isEmpty {es : Elems E} (h : es.isEmpty = true) : es = .nil := by
  cases es with
  | nil => rfl
  | cons => cases h

theorem loops_nil_of_isEmpty {ls : Loops E} (h : ls.isEmpty = true) : ls = .nil := by
  cases ls with
  | nil => rfl
  | cons => cases h

/-- The items of a node, by where they come from. -/
theorem items_bucket (i st : Nat) (es : Elems E) (ops : List (Op E)) (ls : Loops E) (a : After E) :
    withBucket i (items (.mk st es ops ls a)) = withBucket i (ops.map (fun o => (([] : Path), Item.op o))) ++
      (withBucket i (itemsE es) ++ (withBucket i (loopItems .loop ls) ++ withBucket i (afterItems a))) := by
  rw [items]; simp only [withBucket_append]

theorem ops_item {i : Nat} {ops : List (Op E)} {p : Path} {it : Item E}
    (h : withBucket i (ops.map (fun o => (([] : Path), Item.op o))) = [(p, it)]) : ∃ o ∈ ops, p = [] ∧ it = .op o := by
  have hm : (p, it) ∈ ops.map (fun o => (([] : Path), Item.op o)) := by
    have : (p, it) ∈ withBucket i (ops.map (fun o => (([] : Path), Item.op o))) := by rw [h]; exact List.mem_singleton.2 rfl
    exact (mem_withBucket.1 this).1
  obtain ⟨o, ho, he⟩ := List.mem_map.1 hm
  cases he
  exact ⟨o, ho, rfl, rfl⟩

/-- An item below a key. -/
theorem key_item {i : Nat} {es : Elems E} (ht : es.Tidy) {p : Path} {it : Item E} (h : withBucket i (itemsE es) = [(p, it)]) :
    ∃ k p' e, p = k :: p' ∧ es.find k = some e := by
  obtain ⟨k, p', e, q1, q2, _⟩ := itemsE_find ht h
  exact ⟨k, p', e, q1, q2⟩

theorem loopHere_kinds {st : Nat} {es : Elems E} {ops : List (Op E)} {ls : Loops E} {a : After E} :
    loopHere (kinds (.mk st es ops ls a)) = !ls.isEmpty := by
  cases ls with
  | cons b m t e r =>
    rw [show (!(Loops.cons b m t e r).isEmpty) = true from rfl, loopHere_iff, kinds, List.mem_append, List.mem_map]
    left
    refine ⟨([], .loop b m t e), ?_, rfl⟩
    rw [items, loopItems]
    exact List.mem_append_right _ (List.mem_append_right _ (List.mem_append_left _ List.mem_cons_self))
  | nil =>
    rw [show (!(Loops.nil : Loops E).isEmpty) = false from rfl, Bool.eq_false_iff]
    intro h
    rw [loopHere_iff, kinds, List.mem_append, List.mem_map, List.mem_map] at h
    obtain ⟨⟨p, it⟩, hx, hk⟩ | ⟨y, _, hk⟩ := h
    case inr => simp at hk
    rw [kind_eq] at hk
    simp only [Prod.mk.injEq] at hk
    obtain ⟨rfl, hk⟩ := hk
    rw [items] at hx
    rcases List.mem_append.1 hx with hx | hx
    · obtain ⟨o, _, he⟩ := List.mem_map.1 hx; cases he; cases hk
    · rcases List.mem_append.1 hx with hx | hx
      · obtain ⟨k, p', he⟩ := opsThen_decides.mem_itemsE_cons es hx; cases he
      · rcases List.mem_append.1 hx with hx | hx
        · cases hx
        · cases a with
          | none => cases hx
          | some ops' ls' =>
            rw [afterItems] at hx
            rcases List.mem_append.1 hx with hx | hx
            · obtain ⟨o, _, he⟩ := List.mem_map.1 hx; cases he; cases hk
            · exact aux ls' hx hk
where aux : ∀ (ls : Loops E) {it : Item E}, ([], it) ∈ loopItems Item.aloop ls → isLoop it = true → False
  | .nil, _, h, _ => by cases h
  | .cons b m t e r, _, h, hk => by
    rw [loopItems] at h
    rcases List.mem_cons.1 h with h | h
    · cases h; cases hk
    · exact aux r h hk

theorem moreBelow_kinds {st : Nat} {es : Elems E} {ops : List (Op E)} {ls : Loops E} {a : After E} (hfu : es.Full) : moreBelow (kinds (.mk st es ops ls a)) = !es.isEmpty := by
  cases he : es.isEmpty with
  | false =>
    rw [show (!false) = true from rfl, moreBelow_iff]
    obtain ⟨k, p', h⟩ := content_below hfu he
    rcases h st ops ls a with ⟨it, h⟩ | ⟨y, h⟩
    · exact ⟨k, p', _, List.mem_append_left _ (List.mem_map.2 ⟨_, h, kind_eq _⟩)⟩
    · exact ⟨k, p', _, List.mem_append_right _ (List.mem_map.2 ⟨_, h, rfl⟩)⟩
  | true =>
    have := nil_of_isEmpty he
    subst this
    rw [show (!true) = false from rfl, Bool.eq_false_iff]
    intro h
    obtain ⟨k, p, b, h⟩ := moreBelow_iff.1 h
    rcases List.mem_append.1 h with h | h
    case inr =>
      obtain ⟨y, hy, hk⟩ := List.mem_map.1 h
      simp only [Prod.mk.injEq] at hk
      have hy' : (k :: p, y.2) ∈ notes (.mk st .nil ops ls a : Exec E) := by rw [← hk.1]; exact hy
      rw [notes] at hy'
      rcases List.mem_append.1 hy' with h | h
      · unfold slotNote at h
        split at h
        · cases h
        · rw [List.mem_singleton] at h; cases h
      · rcases List.mem_append.1 h with h | h
        · cases a with
          | none => cases h
          | some => rw [afterNote, List.mem_singleton] at h; cases h
        · cases h
    obtain ⟨⟨q, it⟩, hx, hk⟩ := List.mem_map.1 h
    rw [kind_eq] at hk
    simp only [Prod.mk.injEq] at hk
    obtain ⟨rfl, _⟩ := hk
    rw [items] at hx
    rcases List.mem_append.1 hx with hx | hx
    · obtain ⟨o, _, he⟩ := List.mem_map.1 hx; cases he
    · rcases List.mem_append.1 hx with hx | hx
      · cases hx
      · rcases List.mem_append.1 hx with hx | hx
        · have := loop_nil ls hx; cases this
        · cases a with
          | none => cases hx
          | some ops' ls' =>
            rw [afterItems] at hx
            rcases List.mem_append.1 hx with hx | hx
            · obtain ⟨o, _, h⟩ := List.mem_map.1 hx; simp at h
            · have := loop_nil ls' hx; simp at this

/-- The node's own operations and loops on a value that is noticed and not an array. -/
theorem opsThen_decidesR {rec : DRec E} {st : Nat} {es : Elems E} {ops : List (Op E)} {ls : Loops E} {a : After E} {d : D} {σ : Slots}
    {c : Marks × Slots} {i : Nat} (h : dOpsThen X rec sh r ops st a d σ = .ok c) (hna : ¬ IsArr d)
    (hs : noticed (kinds (.mk st es ops ls a)) d = true) (hw : ∀ loop k p, itemsE es ≠ [] → reach loop (kinds (.mk st es ops ls a)) (k :: p) d = []) :
    DecidesR X sh r i (.mk st es ops ls a) d c.1 := by
  have hitems := items_bucket i st es ops ls a
  refine ⟨fun h0 => ?_, fun p it h1 hd f hf => ?_⟩
  · rw [hitems] at h0
    obtain ⟨h1, h0⟩ := List.append_eq_nil_iff.1 h0
    obtain ⟨_, h0⟩ := List.append_eq_nil_iff.1 h0
    obtain ⟨_, h4⟩ := List.append_eq_nil_iff.1 h0
    exact (dOpsThen_sel X sh r h h4).1 h1
  · rw [hitems] at h1
    rcases four_one h1 with ⟨q1, q2, q3, q4⟩ | ⟨q1, q2, q3, q4⟩ | ⟨q1, q2, q3, q4⟩ | ⟨q1, q2, q3, q4⟩
    · obtain ⟨e1, e2⟩ := (dOpsThen_sel X sh r h q4).2 _ q1
      simp only at e1; subst e1
      rw [hf d 0 σ _ (e2 0)]; simp [reach, hs]
    · have hm : (p, it) ∈ withBucket i (itemsE es) := by rw [q2]; exact List.mem_singleton.2 rfl
      obtain ⟨k, p', e1⟩ := opsThen_decides.mem_itemsE_cons es (mem_withBucket.1 hm).1
      simp only at e1; subst e1
      rw [hw _ k p' (by intro h0; rw [h0] at q2; simp [withBucket] at q2), List.flatMap_nil]
      exact (dOpsThen_sel X sh r h q4).1 q1
    · obtain ⟨m, t, e, he⟩ := loop_item q3
      cases he
      have := hf d 0 σ _ (dLoop_not_arr sh hna)
      rw [(dOpsThen_sel X sh r h q4).1 q1]
      simp [reach, hs, ← this]
    · exact absurd hd (after_direct q4)

theorem dObj_decidesR {rec : DRec E} (hrec : RecR X sh r rec) {st : Nat} {es : Elems E} {ops : List (Op E)} {ls : Loops E} {a : After E}
    {ws : List Nat} {ms : Ms} {σ : Slots} {c : Marks × Slots} {i : Nat} (h : dObj X rec sh r st es ops a ws ms σ = .ok c)
    (ht : es.Tidy) (hfu : es.Full) :
    DecidesR X sh r i (.mk st es ops ls a) (.obj ws ms) c.1 := by
  rw [dObj] at h
  have hmb := moreBelow_kinds (st := st) (ops := ops) (ls := ls) (a := a) hfu
  by_cases hemp : es.isEmpty = true
  · simp only [hemp, if_true] at h
    have := nil_of_isEmpty hemp
    subst this
    refine opsThen_decidesR X sh r h (by exact id) ?_ (fun _ k p hne => absurd rfl hne)
    cases ms with
    | nil => rw [noticed, hmb]; rfl
    | cons => rfl
  · simp only [hemp, Bool.false_eq_true, if_false] at h
    obtain ⟨b, hb, h⟩ := Res.bind_eq_ok.1 h
    obtain ⟨l, hl, h⟩ := Res.bind_eq_ok.1 h
    have hitems := items_bucket i st es ops ls a
    have hsub : ∀ loop k e p, es.find k = some e → reach loop (kinds e) p = reach loop (below k (kinds (.mk st es ops ls a))) p :=
      fun loop k e p he => funext fun d => reach_congr (kinds_child ht he) p d
    cases ms with
    | nil =>
      cases hb
      cases h
      refine ⟨fun h0 => ?_, fun p it h1 hd f hf => ?_⟩
      · rw [hitems] at h0
        obtain ⟨h1, h0⟩ := List.append_eq_nil_iff.1 h0
        obtain ⟨_, h0⟩ := List.append_eq_nil_iff.1 h0
        obtain ⟨_, h4⟩ := List.append_eq_nil_iff.1 h0
        exact dAfter_sel_none X sh r hl h4
      · rw [hitems] at h1
        rcases four_one h1 with ⟨q1, q2, q3, q4⟩ | ⟨q1, q2, q3, q4⟩ | ⟨q1, q2, q3, q4⟩ | ⟨q1, q2, q3, q4⟩
        · obtain ⟨o, _, rfl, rfl⟩ := ops_item q1
          rw [reach, noticed, hmb]
          simp only [hemp, isLoop]
          exact dAfter_sel_none X sh r hl q4
        · obtain ⟨k, p', e, rfl, he⟩ := key_item ht q2
          simp only [reach, membersAt, List.flatMap_nil, List.nil_append]
          exact dAfter_sel_none X sh r hl q4
        · obtain ⟨m, t, e, he⟩ := loop_item q3
          cases he
          have := hf (.obj ws .nil) 0 σ [] (dLoop_not_arr (rec := dExec X sh r 0) (b := i) (m := m) (e := e) (d := .obj ws .nil) (σ := σ) sh (by intro h; exact h))
          simp only [List.nil_append]
          rw [dAfter_sel_none X sh r hl q4]
          simp [reach, isLoop, ← this]
        · exact absurd hd (after_direct q4)
    | cons kty key k1 k2 v w1 w2 rest =>
      obtain ⟨b', hb', h1, _⟩ := andThen_marks h
      refine ⟨fun h0 => ?_, fun p it h1' hd f hf => ?_⟩
      · rw [hitems] at h0
        obtain ⟨z1, h0⟩ := List.append_eq_nil_iff.1 h0
        obtain ⟨z2, h0⟩ := List.append_eq_nil_iff.1 h0
        obtain ⟨_, z4⟩ := List.append_eq_nil_iff.1 h0
        rw [h1]
        simp only [sel_append]
        rw [rMembers_none X sh r hrec ht hfu z2 _ _ _ hb, dAfter_sel_none X sh r hl z4, (dOpsThen_sel X sh r hb' z4).1 z1]
        rfl
      · rw [hitems] at h1'
        rw [h1]
        simp only [sel_append]
        rcases four_one h1' with ⟨q1, q2, q3, q4⟩ | ⟨q1, q2, q3, q4⟩ | ⟨q1, q2, q3, q4⟩ | ⟨q1, q2, q3, q4⟩
        · rw [rMembers_none X sh r hrec ht hfu q2 _ _ _ hb, dAfter_sel_none X sh r hl q4]
          obtain ⟨e1, e2⟩ := (dOpsThen_sel X sh r hb' q4).2 _ q1
          simp only at e1; subst e1
          rw [hf _ 0 _ _ (e2 0)]
          simp [reach, noticed]
        · rw [dAfter_sel_none X sh r hl q4, (dOpsThen_sel X sh r hb' q4).1 q1]
          obtain ⟨k, p', e, rfl, he⟩ := key_item ht q2
          rw [rMembers_one X sh r hrec ht hfu q2 hd hf he _ _ _ hb, hsub _ _ _ _ he]
          simp [reach]
        · rw [rMembers_none X sh r hrec ht hfu q2 _ _ _ hb, dAfter_sel_none X sh r hl q4, (dOpsThen_sel X sh r hb' q4).1 q1]
          obtain ⟨m, t, e, he⟩ := loop_item q3
          cases he
          have := hf (.obj ws (.cons kty key k1 k2 v w1 w2 rest)) 0 σ [] (dLoop_not_arr (rec := dExec X sh r 0) (b := i) (m := m) (e := e) (d := .obj ws (.cons kty key k1 k2 v w1 w2 rest)) (σ := σ) sh (by intro h; exact h))
          simp [reach, isLoop, ← this]
        · exact absurd hd (after_direct q4)

theorem dArr_decidesR {rec : DRec E} {hh : Nat} (hre : rec = dExec X sh r hh) (hrec : RecR X sh r rec) {st : Nat} {es : Elems E}
    {ops : List (Op E)} {ls : Loops E} {a : After E} {ws : List Nat} {xs : Es} {σ : Slots} {c : Marks × Slots} {i : Nat}
    (h : dArr X rec sh r st es ops ls a ws xs σ = .ok c) (ht : es.Tidy) (hfu : es.Full)
    :
    DecidesR X sh r i (.mk st es ops ls a) (.arr ws xs) c.1 := by
  have hlh := loopHere_kinds (st := st) (es := es) (ops := ops) (ls := ls) (a := a)
  have hitems := items_bucket i st es ops ls a
  have hsub : ∀ loop k e p, es.find k = some e → reach loop (kinds e) p = reach loop (below k (kinds (.mk st es ops ls a))) p :=
    fun loop k e p he => funext fun d => reach_congr (kinds_child ht he) p d
  rw [dArr.eq_def] at h
  by_cases hemp : ls.isEmpty = true
  · simp only [hemp, if_true] at h
    have hls := loops_nil_of_isEmpty hemp
    subst hls
    cases xs with
    | nil =>
      cases h
      refine ⟨fun _ => rfl, fun p it h1 hd f hf => ?_⟩
      rw [hitems] at h1
      rcases four_one h1 with ⟨q1, q2, q3, q4⟩ | ⟨q1, q2, q3, q4⟩ | ⟨q1, q2, q3, q4⟩ | ⟨q1, q2, q3, q4⟩
      · obtain ⟨o, _, rfl, rfl⟩ := ops_item q1
        rw [reach, noticed, hlh]
        rfl
      · obtain ⟨k, p', e, rfl, he⟩ := key_item ht q2
        simp [reach, elemsAt, sel]
      · simp [loopItems, withBucket] at q3
      · exact absurd hd (after_direct q4)
    | cons v w1 w2 rest =>
      obtain ⟨b, hb, h⟩ := Res.bind_eq_ok.1 h
      obtain ⟨b', hb', h1, _⟩ := andThen_marks h
      rw [h1]
      refine ⟨fun h0 => ?_, fun p it h1' hd f hf => ?_⟩
      · rw [hitems] at h0
        obtain ⟨z1, h0⟩ := List.append_eq_nil_iff.1 h0
        obtain ⟨z2, h0⟩ := List.append_eq_nil_iff.1 h0
        obtain ⟨_, z4⟩ := List.append_eq_nil_iff.1 h0
        rw [sel_append, rElems_none X sh r hrec ht hfu z2 _ _ _ _ hb, (dOpsThen_sel X sh r hb' z4).1 z1]
        rfl
      · rw [hitems] at h1'
        rw [sel_append]
        rcases four_one h1' with ⟨q1, q2, q3, q4⟩ | ⟨q1, q2, q3, q4⟩ | ⟨q1, q2, q3, q4⟩ | ⟨q1, q2, q3, q4⟩
        · rw [rElems_none X sh r hrec ht hfu q2 _ _ _ _ hb]
          obtain ⟨e1, e2⟩ := (dOpsThen_sel X sh r hb' q4).2 _ q1
          simp only at e1; subst e1
          rw [hf _ 0 _ _ (e2 0)]
          simp [reach, noticed]
        · rw [(dOpsThen_sel X sh r hb' q4).1 q1]
          obtain ⟨k, p', e, rfl, he⟩ := key_item ht q2
          rw [rElems_one X sh r hrec ht hfu q2 hd hf he _ _ _ _ hb, hsub _ _ _ _ he]
          simp [reach, hlh, Loops.isEmpty]
        · simp [loopItems, withBucket] at q3
        · exact absurd hd (after_direct q4)
  · simp only [hemp, Bool.false_eq_true, if_false] at h
    obtain ⟨l, hl, h⟩ := Res.bind_eq_ok.1 h
    obtain ⟨b', hb', h1, _⟩ := andThen_marks h
    rw [h1]
    have hlh' : loopHere (kinds (.mk st es ops ls a)) = true := by rw [hlh]; simpa using hemp
    have hs : noticed (kinds (.mk st es ops ls a)) (.arr ws xs) = true := by
      cases xs with
      | nil => rw [noticed]; exact hlh'
      | cons => rfl
    refine ⟨fun h0 => ?_, fun p it h1' hd f hf => ?_⟩
    · rw [hitems] at h0
      obtain ⟨z1, h0⟩ := List.append_eq_nil_iff.1 h0
      obtain ⟨z2, h0⟩ := List.append_eq_nil_iff.1 h0
      obtain ⟨z3, z4⟩ := List.append_eq_nil_iff.1 h0
      rw [sel_append, dArrayLoops_sel_none sh _ _ hl z3, (dOpsThen_sel X sh r hb' z4).1 z1]
      rfl
    · rw [hitems] at h1'
      rw [sel_append]
      rcases four_one h1' with ⟨q1, q2, q3, q4⟩ | ⟨q1, q2, q3, q4⟩ | ⟨q1, q2, q3, q4⟩ | ⟨q1, q2, q3, q4⟩
      · rw [dArrayLoops_sel_none sh _ _ hl q3]
        obtain ⟨e1, e2⟩ := (dOpsThen_sel X sh r hb' q4).2 _ q1
        simp only at e1; subst e1
        rw [hf _ 0 _ _ (e2 0)]
        simp [reach, hs]
      · obtain ⟨k, p', e, rfl, he⟩ := key_item ht q2
        rw [dArrayLoops_sel_none sh _ _ hl q3, (dOpsThen_sel X sh r hb' q4).1 q1, reach, if_pos hlh']
        rfl
      · rw [(dOpsThen_sel X sh r hb' q4).1 q1, List.append_nil]
        obtain ⟨m, e, he, hd'⟩ := dArrayLoops_sel_one sh _ _ hl q3
        cases he
        rw [hre] at hd'
        have hfs := hf (.arr ws xs) hh σ _ hd'
        simp only at hfs ⊢
        rw [hfs]; simp [reach, isLoop]
      · exact absurd hd (after_direct q4)

/-- The decisions of a node for a bucket that occurs once come from the values it reaches at the item's path. -/
theorem dExec_decidesR : ∀ h : Nat, RecR X sh r (dExec X sh r h)
  | 0 => by intro n d σ a i h; cases h
  | hh + 1 => by
    intro n d σ a i h ht hfu
    obtain ⟨st, es, ops, ls, af⟩ := n
    have ih := dExec_decidesR hh
    cases d with
    | lit ty s => exact opsThen_decidesR X sh r h (by exact id) rfl (fun _ k p _ => rfl)
    | obj ws ms => exact dObj_decidesR X sh r ih h ht.1 hfu.1
    | arr ws xs => exact dArr_decidesR X sh r rfl ih h ht.1 hfu.1

end

end Verif.Transform
