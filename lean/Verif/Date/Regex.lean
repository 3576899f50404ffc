/-!
# Regular expressions

The patterns of `fastval_date.go` are written in this small language.  `Mat` says which texts a pattern describes; `test` decides it
(the patterns of the file are anchored at both ends, so that `MatchString` asks for the whole text).
-/

namespace Verif.Date

abbrev Str := List Nat

inductive RE where
  | never | empty
  | one (p : Nat → Bool)
  | cat (a b : RE)
  | alt (a b : RE)
  | star (a : RE)

/-- The texts that a pattern describes. -/
inductive Mat : RE → Str → Prop
  | empty : Mat .empty []
  | one {p : Nat → Bool} {c : Nat} : p c = true → Mat (.one p) [c]
  | cat {a b : RE} {s t : Str} : Mat a s → Mat b t → Mat (.cat a b) (s ++ t)
  | left {a b : RE} {s : Str} : Mat a s → Mat (.alt a b) s
  | right {a b : RE} {s : Str} : Mat b s → Mat (.alt a b) s
  | stop {a : RE} : Mat (.star a) []
  | more {a : RE} {s t : Str} : Mat a s → Mat (.star a) t → Mat (.star a) (s ++ t)

/-! ### Deciding -/

def RE.null : RE → Bool
  | .never | .one _ => false
  | .empty | .star _ => true
  | .cat a b => a.null && b.null
  | .alt a b => a.null || b.null

/-- What has to follow after the character `c`. -/
def RE.after (c : Nat) : RE → RE
  | .never | .empty => .never
  | .one p => if p c then .empty else .never
  | .cat a b => if a.null then .alt (.cat (a.after c) b) (b.after c) else .cat (a.after c) b
  | .alt a b => .alt (a.after c) (b.after c)
  | .star a => .cat (a.after c) (.star a)

def RE.test (r : RE) : Str → Bool
  | [] => r.null
  | c :: s => (r.after c).test s

theorem mat_cat {a b : RE} {u : Str} : Mat (.cat a b) u ↔ ∃ s t, u = s ++ t ∧ Mat a s ∧ Mat b t := by
  constructor
  · intro h; cases h with | cat h1 h2 => exact ⟨_, _, rfl, h1, h2⟩
  · rintro ⟨s, t, rfl, h1, h2⟩; exact .cat h1 h2

theorem mat_alt {a b : RE} {u : Str} : Mat (.alt a b) u ↔ Mat a u ∨ Mat b u := by
  constructor
  · intro h
    cases h with
    | left h => exact .inl h
    | right h => exact .inr h
  · rintro (h | h)
    · exact .left h
    · exact .right h

theorem mat_one {p : Nat → Bool} {u : Str} : Mat (.one p) u ↔ ∃ c, p c = true ∧ u = [c] := by
  constructor
  · intro h; cases h with | one h => exact ⟨_, h, rfl⟩
  · rintro ⟨c, h, rfl⟩; exact .one h

theorem mat_empty {u : Str} : Mat .empty u ↔ u = [] := by
  constructor
  · intro h; cases h; rfl
  · rintro rfl; exact .empty

theorem mat_never {u : Str} : ¬ Mat .never u := by intro h; cases h

theorem null_iff (r : RE) : r.null = true ↔ Mat r [] := by
  induction r with
  | never => simp [RE.null, mat_never]
  | empty => simp [RE.null, mat_empty]
  | one p => simp [RE.null, mat_one]
  | star a => simp only [RE.null, true_iff]; exact .stop
  | cat a b iha ihb =>
    rw [RE.null, Bool.and_eq_true, iha, ihb, mat_cat]
    constructor
    · rintro ⟨h1, h2⟩; exact ⟨[], [], rfl, h1, h2⟩
    · rintro ⟨s, t, h, h1, h2⟩
      obtain ⟨rfl, rfl⟩ := List.append_eq_nil_iff.1 h.symm
      exact ⟨h1, h2⟩
  | alt a b iha ihb => rw [RE.null, Bool.or_eq_true, iha, ihb, mat_alt]

/-- The first nonempty round of a repetition. -/
theorem star_cons {r : RE} {u : Str} (h : Mat r u) : ∀ {a : RE} {c : Nat} {s : Str}, r = .star a → u = c :: s →
    ∃ x y, s = x ++ y ∧ Mat a (c :: x) ∧ Mat (.star a) y := by
  induction h with
  | stop => intro a c s _ h; cases h
  | @more a' x y h1 h2 _ ih2 =>
    rintro a c s hr hu
    injection hr with hr
    subst hr
    cases x with
    | nil => exact ih2 rfl hu
    | cons d x =>
      injection hu with h3 h4
      subst h3 h4
      exact ⟨x, y, rfl, h1, h2⟩
  | empty => intro a c s h; cases h
  | one _ => intro a c s h; cases h
  | cat _ _ => intro a c s h; cases h
  | left _ => intro a c s h; cases h
  | right _ => intro a c s h; cases h

theorem after_iff (c : Nat) (r : RE) : ∀ s, Mat (r.after c) s ↔ Mat r (c :: s) := by
  induction r with
  | never => intro s; simp [RE.after, mat_never]
  | empty => intro s; simp [RE.after, mat_never, mat_empty]
  | one p =>
    intro s
    rw [RE.after, mat_one]
    split
    · rename_i h
      rw [mat_empty]
      constructor
      · rintro rfl; exact ⟨c, h, rfl⟩
      · rintro ⟨d, _, hd⟩; injection hd
    · rename_i h
      refine ⟨fun h => (mat_never h).elim, ?_⟩
      rintro ⟨d, hd, he⟩
      injection he with he _
      subst he
      exact absurd hd h
  | alt a b iha ihb => intro s; rw [RE.after, mat_alt, mat_alt, iha, ihb]
  | cat a b iha ihb =>
    intro s
    have hcat : Mat (.cat (a.after c) b) s ↔ ∃ x y, s = x ++ y ∧ Mat a (c :: x) ∧ Mat b y := by
      rw [mat_cat]
      constructor
      · rintro ⟨x, y, h, h1, h2⟩; exact ⟨x, y, h, (iha x).1 h1, h2⟩
      · rintro ⟨x, y, h, h1, h2⟩; exact ⟨x, y, h, (iha x).2 h1, h2⟩
    rw [RE.after, mat_cat]
    split
    · rename_i hn
      rw [mat_alt, hcat, ihb]
      constructor
      · rintro (⟨x, y, rfl, h1, h2⟩ | h)
        · exact ⟨c :: x, y, rfl, h1, h2⟩
        · exact ⟨[], c :: s, rfl, (null_iff a).1 hn, h⟩
      · rintro ⟨x, y, h, h1, h2⟩
        cases x with
        | nil => exact .inr (by rw [h]; exact h2)
        | cons d x =>
          injection h with h3 h4
          subst h3
          exact .inl ⟨x, y, h4, h1, h2⟩
    · rename_i hn
      rw [hcat]
      constructor
      · rintro ⟨x, y, rfl, h1, h2⟩; exact ⟨c :: x, y, rfl, h1, h2⟩
      · rintro ⟨x, y, h, h1, h2⟩
        cases x with
        | nil => exact absurd ((null_iff a).2 h1) hn
        | cons d x =>
          injection h with h3 h4
          subst h3
          exact ⟨x, y, h4, h1, h2⟩
  | star a ih =>
    intro s
    rw [RE.after, mat_cat]
    constructor
    · rintro ⟨x, y, rfl, h1, h2⟩
      exact .more (s := c :: x) ((ih x).1 h1) h2
    · intro h
      obtain ⟨x, y, h0, h1, h2⟩ := star_cons h rfl rfl
      exact ⟨x, y, h0, (ih x).2 h1, h2⟩

/-- `test` decides what the pattern describes. -/
theorem test_iff : ∀ (s : Str) (r : RE), r.test s = true ↔ Mat r s := by
  intro s
  induction s with
  | nil => intro r; exact null_iff r
  | cons c s ih => intro r; rw [RE.test, ih, after_iff]

example : (RE.cat (.one (· == 49)) (.star (.one (· == 48)))).test [49, 48, 48] = true ∧ ¬ Mat (.cat (.one (· == 49)) (.star (.one (· == 48)))) [48] :=
  ⟨by decide, fun h => absurd ((test_iff _ _).2 h) (by decide)⟩

end Verif.Date
