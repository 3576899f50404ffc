import Verif.Transform.Whole
import Verif.Transform.Slots

/-!
# Fields in slots

The values of fields, and nodes described by their items.
-/

namespace Verif.Transform
open Verif.FastVal Verif.Match Verif.Expr
open Verif.Token (D Es Ms Tok)
open Verif.BinTree (Sh)

variable {E : Ext}

/-! ### Specification: the values of fields -/

/-- The values of fields, `none` if missing. -/
abbrev Env := Path → Option D

/-- The value of a field. -/
def fieldVal : Option D → Res (FV E)
  | some d => valOf d
  | none => .ok missingV

/-- The fields below the value `x` at `q`; with repeated keys the last value counts. -/
def envAt (q : Path) (x : D) : Env := fun p => lastOf none (walk (p.drop q.length) x)

/-! ### Slots -/

/-- What the slots hold. -/
def Reads2 (rd : Nat → Res (FV E)) (ρ : Path → Nat) (env : Env) (ps : List Path) : Prop :=
  ∀ p ∈ ps, ∀ v, rd (ρ p) = .ok v → fieldVal (env p) = .ok v

theorem parseLit_not_missing {ty : Tok} {w : List Nat} {v : FV E} (h : parseLit ty w = .ok v) : v.d.ty ≠ .missing := by
  unfold parseLit at h
  split at h
  all_goals first
    | (cases h; simp [Data.ty]; done)
    | (obtain ⟨s, _, h⟩ := Res.bind_eq_ok.1 h; cases h; simp [Data.ty]; done)
    | (cases h; done)
    | (split at h <;> cases h <;> simp [Data.ty]; done)

theorem valOf_not_missing {d : D} {v : FV E} (h : valOf d = .ok v) : v.d.ty ≠ .missing := by
  cases d with
  | lit ty w => exact parseLit_not_missing h
  | arr ws es => cases h; simp [Data.ty]
  | obj ws ms => cases h; simp [Data.ty]

/-- Reading a slot. -/
theorem slotVal_look {r : D} (hd : ∀ ty w, r ≠ .lit ty w) {σ : Slots} {s : Nat} {v : FV E} (h : slotVal r σ s = .ok v) : slotVal (E := E) r σ s = fieldVal (look σ s) := by
  unfold slotVal at h ⊢
  split at h
  · cases h
  · rename_i hs
    rw [if_neg hs]
    obtain ⟨p, hp, h⟩ := Res.bind_eq_ok.1 h
    rw [hp, Res.bind_ok]
    have hl : look σ s = p := by
      unfold Res.idx at hp
      rw [look]
      split at hp
      · rename_i x hx; cases hp; rw [hx]; rfl
      · cases hp
    rw [hl]
    cases p with
    | some d => rfl
    | none =>
      cases r with
      | lit ty w => exact absurd rfl (hd ty w)
      | _ => rfl

theorem withSlot_one {n : Exec E} {p : Path} {s : Nat} (h1 : (withSlot s (notes n)).length ≤ 1) (h2 : (p, Note.slot s) ∈ notes n) :
    withSlot s (notes n) = [p] := by
  have hm := mem_withSlot.2 h2
  match hw : withSlot s (notes n) with
  | [] => rw [hw] at hm; cases hm
  | [x] => rw [hw, List.mem_singleton] at hm; rw [hm]
  | _ :: _ :: _ => rw [hw] at h1; simp at h1

theorem withBucket_single {i : Nat} {p : Path} {it : Item E} (h : it.bucket = i) : withBucket i [(p, it)] = [(p, it)] := by
  simp [withBucket, h]

/-! ### Nodes from their items -/

/-- Items that decide positions of the tree. -/
def Item.At2 (s : Sh) (b : Nat) : Item E → Prop
  | .op o => IsAtom s b o.bucket
  | .aop o => IsAtom s b o.bucket
  | .loop i _ _ e => ∃ a, LoopAt s b i a ∧ e.Fits a i ∧ e.NoStore
  | .aloop i _ _ e => ∃ a, LoopAt s b i a ∧ e.Fits a i ∧ e.NoStore

theorem Item.At.at2 {s : Sh} {b : Nat} {it : Item E} (h : it.At s b) : it.At2 s b := by
  cases it with
  | op o => exact h
  | loop i m t e => exact h
  | _ => exact h.elim

theorem Item.At2.mono {s s' : Sh} {b b' : Nat} (h1 : ∀ i, IsAtom s b i → IsAtom s' b' i) (h2 : ∀ i a, LoopAt s b i a → LoopAt s' b' i a)
    {it : Item E} (h : it.At2 s b) : it.At2 s' b' := by
  cases it with
  | op o => exact h1 _ h
  | aop o => exact h1 _ h
  | loop i m t e => obtain ⟨a, h, h'⟩ := h; exact ⟨a, h2 _ _ h, h'⟩
  | aloop i m t e => obtain ⟨a, h, h'⟩ := h; exact ⟨a, h2 _ _ h, h'⟩

theorem loops_fits {s : Sh} {b : Nat} : ∀ ls : Loops E, (∀ x ∈ loopItems Item.loop ls, x.2.At2 s b) → ls.Fits s b
  | .nil, _ => trivial
  | .cons i m t e r, h =>
    ⟨h ([], .loop i m t e) (by rw [loopItems]; exact List.mem_cons_self),
      loops_fits r (fun x hx => h x (by rw [loopItems]; exact List.mem_cons_of_mem _ hx))⟩

theorem aloops_fits {s : Sh} {b : Nat} : ∀ ls : Loops E, (∀ x ∈ loopItems Item.aloop ls, x.2.At2 s b) → ls.Fits s b
  | .nil, _ => trivial
  | .cons i m t e r, h =>
    ⟨h ([], .aloop i m t e) (by rw [loopItems]; exact List.mem_cons_self),
      aloops_fits r (fun x hx => h x (by rw [loopItems]; exact List.mem_cons_of_mem _ hx))⟩

mutual
  theorem fits_of_items {s : Sh} {b : Nat} : ∀ n : Exec E, (∀ x ∈ items n, x.2.At2 s b) → n.Fits s b
    | .mk st es ops ls a, h => by
      rw [items] at h
      refine ⟨fitsE_of_items es (fun x hx => h x (List.mem_append_right _ (List.mem_append_left _ hx))),
        fun o ho => h ([], .op o) (List.mem_append_left _ (List.mem_map.2 ⟨o, ho, rfl⟩)),
        loops_fits ls (fun x hx => h x (List.mem_append_right _ (List.mem_append_right _ (List.mem_append_left _ hx)))), ?_⟩
      cases a with
      | none => trivial
      | some ops' ls' =>
        exact ⟨fun o ho => h ([], .aop o) (List.mem_append_right _ (List.mem_append_right _ (List.mem_append_right _
            (List.mem_append_left _ (List.mem_map.2 ⟨o, ho, rfl⟩))))),
          aloops_fits ls' (fun x hx => h x (List.mem_append_right _ (List.mem_append_right _ (List.mem_append_right _
            (List.mem_append_right _ hx)))))⟩
  theorem fitsE_of_items {s : Sh} {b : Nat} : ∀ es : Elems E, (∀ x ∈ itemsE es, x.2.At2 s b) → es.Fits s b
    | .nil, _ => trivial
    | .cons k e r, h => by
      rw [itemsE] at h
      exact ⟨fits_of_items e (fun x hx => h (k :: x.1, x.2) (List.mem_append_left _ (List.mem_map.2 ⟨x, hx, rfl⟩))),
        fitsE_of_items r (fun x hx => h x (List.mem_append_right _ hx))⟩
end

/-- Items that cannot crash the matcher. -/
def Item.Safe (k : Nat) : Item E → Prop
  | .op o => o.Safe k true
  | .aop o => o.Safe k false
  | .loop _ _ t e => t = none ∧ e.Safe k
  | .aloop _ _ t e => (∃ s, t = some (.slot s) ∧ 0 < s ∧ s ≤ k) ∧ e.Safe k

theorem loops_safe {k : Nat} : ∀ ls : Loops E, (∀ x ∈ loopItems Item.loop ls, x.2.Safe k) → ls.Safe k none
  | .nil, _ => trivial
  | .cons i m t e r, h => by
    have h1 : t = none ∧ e.Safe k := h ([], .loop i m t e) (by rw [loopItems]; exact List.mem_cons_self)
    exact ⟨h1.1, h1.2, loops_safe r (fun x hx => h x (by rw [loopItems]; exact List.mem_cons_of_mem _ hx))⟩

theorem aloops_safe {k : Nat} : ∀ ls : Loops E, (∀ x ∈ loopItems Item.aloop ls, x.2.Safe k) → ls.Safe k (some ())
  | .nil, _ => trivial
  | .cons i m t e r, h => by
    have h1 : (∃ s, t = some (.slot s) ∧ 0 < s ∧ s ≤ k) ∧ e.Safe k := h ([], .aloop i m t e) (by rw [loopItems]; exact List.mem_cons_self)
    exact ⟨h1.1, h1.2, aloops_safe r (fun x hx => h x (by rw [loopItems]; exact List.mem_cons_of_mem _ hx))⟩

mutual
  theorem safe_of_items {k : Nat} : ∀ n : Exec E, (∀ x ∈ items n, x.2.Safe k) → (∀ p s, (p, Note.slot s) ∈ notes n → s ≤ k) → n.Safe k
    | .mk st es ops ls a, h, hn => by
      rw [items] at h
      rw [notes] at hn
      refine ⟨?_, safeE_of_items es (fun x hx => h x (List.mem_append_right _ (List.mem_append_left _ hx)))
          (fun p s hm => hn p s (List.mem_append_right _ (List.mem_append_right _ hm))),
        fun o ho => h ([], .op o) (List.mem_append_left _ (List.mem_map.2 ⟨o, ho, rfl⟩)),
        loops_safe ls (fun x hx => h x (List.mem_append_right _ (List.mem_append_right _ (List.mem_append_left _ hx)))), ?_⟩
      · by_cases hst : st = 0
        · omega
        · exact hn [] st (List.mem_append_left _ (by rw [slotNote, if_neg hst]; exact List.mem_singleton.2 rfl))
      · cases a with
        | none => trivial
        | some ops' ls' =>
          exact ⟨fun o ho => h ([], .aop o) (List.mem_append_right _ (List.mem_append_right _ (List.mem_append_right _
              (List.mem_append_left _ (List.mem_map.2 ⟨o, ho, rfl⟩))))),
            aloops_safe ls' (fun x hx => h x (List.mem_append_right _ (List.mem_append_right _ (List.mem_append_right _
              (List.mem_append_right _ hx)))))⟩
  theorem safeE_of_items {k : Nat} : ∀ es : Elems E, (∀ x ∈ itemsE es, x.2.Safe k) → (∀ p s, (p, Note.slot s) ∈ notesE es → s ≤ k) → es.Safe k
    | .nil, _, _ => trivial
    | .cons k' e r, h, hn => by
      rw [itemsE] at h
      rw [notesE] at hn
      exact ⟨safe_of_items e (fun x hx => h (k' :: x.1, x.2) (List.mem_append_left _ (List.mem_map.2 ⟨x, hx, rfl⟩)))
          (fun p s hm => hn (k' :: p) s (List.mem_append_left _ (List.mem_map.2 ⟨_, hm, rfl⟩))),
        safeE_of_items r (fun x hx => h x (List.mem_append_right _ hx)) (fun p s hm => hn p s (List.mem_append_right _ hm))⟩
end

theorem Item.Safe.of_ok {k : Nat} {it : Item E} (h : it.Ok (fun o => o.Safe k true) (fun _ _ t e => t = none ∧ e.Safe k)) : it.Safe k := by
  cases it with
  | op o => exact h
  | loop b m t e => exact h
  | _ => exact h.elim

/-- Items whose bodies store nothing. -/
def Item.Still : Item E → Prop
  | .op _ => True
  | .aop _ => True
  | .loop _ _ _ e => e.NoStore
  | .aloop _ _ _ e => e.NoStore

theorem loops_still {mk : Nat → Mode → Option (Ref E) → Exec E → Item E} (hmk : ∀ b m t e, (mk b m t e).Still → e.NoStore) : ∀ ls : Loops E,
    (∀ x ∈ loopItems mk ls, x.2.Still) → ls.NoStore
  | .nil, _ => trivial
  | .cons b m t e r, h =>
    ⟨hmk b m t e (h ([], mk b m t e) (by rw [loopItems]; exact List.mem_cons_self)),
      loops_still hmk r (fun x hx => h x (by rw [loopItems]; exact List.mem_cons_of_mem _ hx))⟩

mutual
  theorem still_of_items : ∀ n : Exec E, (∀ x ∈ items n, x.2.Still) → (∀ p s, (p, Note.slot s) ∉ notes n) → n.NoStore
    | .mk st es ops ls a, h, hn => by
      rw [items] at h
      rw [notes] at hn
      refine ⟨?_, stillE_of_items es (fun x hx => h x (List.mem_append_right _ (List.mem_append_left _ hx)))
          (fun p s hm => hn p s (List.mem_append_right _ (List.mem_append_right _ hm))),
        loops_still (mk := Item.loop) (fun _ _ _ _ h => h) ls
          (fun x hx => h x (List.mem_append_right _ (List.mem_append_right _ (List.mem_append_left _ hx)))), ?_⟩
      · by_cases hst : st = 0
        · exact hst
        · exact absurd (List.mem_append_left _ (by rw [slotNote, if_neg hst]; exact List.mem_singleton.2 rfl)) (hn [] st)
      · cases a with
        | none => trivial
        | some ops' ls' =>
          exact loops_still (mk := Item.aloop) (fun _ _ _ _ h => h) ls' (fun x hx => h x (List.mem_append_right _ (List.mem_append_right _ (List.mem_append_right _
            (List.mem_append_right _ hx)))))
  theorem stillE_of_items : ∀ es : Elems E, (∀ x ∈ itemsE es, x.2.Still) → (∀ p s, (p, Note.slot s) ∉ notesE es) → es.NoStore
    | .nil, _, _ => trivial
    | .cons k e r, h, hn => by
      rw [itemsE] at h
      rw [notesE] at hn
      exact ⟨still_of_items e (fun x hx => h (k :: x.1, x.2) (List.mem_append_left _ (List.mem_map.2 ⟨x, hx, rfl⟩)))
          (fun p s hm => hn (k :: p) s (List.mem_append_left _ (List.mem_map.2 ⟨_, hm, rfl⟩))),
        stillE_of_items r (fun x hx => h x (List.mem_append_right _ hx)) (fun p s hm => hn p s (List.mem_append_right _ hm))⟩
end

end Verif.Transform
