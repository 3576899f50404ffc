import Verif.Filter.Model

/-!
# C65: which patterns count as PCRE
-/

namespace Verif.Filter
open Verif.FastVal Verif.Expr

/-- A look-ahead or look-behind: `(?=`, `(?<` or `(?!`, at least one character, and `)`, all on one line. -/
def IsLook (s : List Nat) : Prop :=
  ∃ x body, (x = 61 ∨ x = 60 ∨ x = 33) ∧ body ≠ [] ∧ 10 ∉ body ∧ s = [40, 63, x] ++ body ++ [41]

theorem closes_iff : ∀ s, closes s = true ↔ ∃ body rest, 10 ∉ body ∧ s = body ++ 41 :: rest := by
  intro s
  induction s with
  | nil => simp [closes]
  | cons c r ih =>
    rw [closes, Bool.or_eq_true, Bool.and_eq_true, ih]
    constructor
    · rintro (h | ⟨h, body, rest, h1, rfl⟩)
      · exact ⟨[], r, by simp, by simp only [decide_eq_true_eq] at h; rw [h]; rfl⟩
      · simp only [ne_eq, decide_eq_true_eq] at h
        exact ⟨c :: body, rest, by simp [h1]; exact fun h' => h h'.symm, rfl⟩
    · rintro ⟨body, rest, h1, h2⟩
      cases body with
      | nil => injection h2 with h2 _; exact .inl (by simp [h2])
      | cons b body =>
        injection h2 with h2 h3
        subst h2
        simp only [List.mem_cons, not_or] at h1
        exact .inr ⟨by simp; exact fun h => h1.1 h.symm, body, rest, h1.2, h3⟩

theorem dotClose_iff (s : List Nat) : dotClose s = true ↔ ∃ body rest, body ≠ [] ∧ 10 ∉ body ∧ s = body ++ 41 :: rest := by
  cases s with
  | nil => simp [dotClose]
  | cons c r =>
    rw [dotClose, Bool.and_eq_true, closes_iff]
    constructor
    · rintro ⟨h, body, rest, h1, rfl⟩
      simp only [ne_eq, decide_eq_true_eq] at h
      exact ⟨c :: body, rest, by simp, by simp [h1]; exact fun h' => h h'.symm, rfl⟩
    · rintro ⟨body, rest, hne, h1, h2⟩
      cases body with
      | nil => exact absurd rfl hne
      | cons b body =>
        injection h2 with h2 h3
        subst h2
        simp only [List.mem_cons, not_or] at h1
        exact ⟨by simp; exact fun h => h1.1 h.symm, body, rest, h1.2, h3⟩

theorem stripPrefix_iff : ∀ p s r, stripPrefix p s = some r ↔ s = p ++ r := by
  intro p
  induction p with
  | nil => intro s r; rw [stripPrefix]; simp
  | cons a p ih =>
    intro s r
    cases s with
    | nil => simp [stripPrefix]
    | cons c s =>
      rw [stripPrefix]
      split
      · rename_i h; subst h; rw [ih]; simp
      · rename_i h; simp; exact fun h' => absurd h'.symm h

theorem pcreHere_iff (s : List Nat) : pcreHere s = true ↔ ∃ l rest, IsLook l ∧ s = l ++ rest := by
  unfold pcreHere
  rw [List.any_eq_true]
  constructor
  · rintro ⟨p, hp, h⟩
    split at h
    · rename_i r hr
      rw [stripPrefix_iff] at hr
      obtain ⟨body, rest, h1, h2, rfl⟩ := (dotClose_iff r).1 h
      subst hr
      simp only [List.mem_cons, List.not_mem_nil, or_false] at hp
      rcases hp with rfl | rfl | rfl | rfl
      · exact ⟨_, rest, ⟨61, body, .inl rfl, h1, h2, rfl⟩, by simp [ascii]⟩
      · exact ⟨_, rest, ⟨60, body, .inr (.inl rfl), h1, h2, rfl⟩, by simp [ascii]⟩
      · exact ⟨_, rest, ⟨33, body, .inr (.inr rfl), h1, h2, rfl⟩, by simp [ascii]⟩
      · exact ⟨_, rest, ⟨60, 33 :: body, .inr (.inl rfl), by simp, by simp [h2], rfl⟩, by simp [ascii]⟩
    · cases h
  · rintro ⟨l, rest, ⟨x, body, hx, h1, h2, rfl⟩, rfl⟩
    refine ⟨[40, 63, x], ?_, ?_⟩
    · rcases hx with rfl | rfl | rfl
      · exact List.mem_cons_self
      · exact List.mem_cons_of_mem _ List.mem_cons_self
      · exact List.mem_cons_of_mem _ (List.mem_cons_of_mem _ List.mem_cons_self)
    · have : stripPrefix [40, 63, x] ([40, 63, x] ++ body ++ [41] ++ rest) = some (body ++ 41 :: rest) := by rw [stripPrefix_iff]; simp
      rw [this]
      exact (dotClose_iff _).2 ⟨body, rest, h1, h2, rfl⟩

/-- C65.  A pattern counts as PCRE exactly if a look-ahead or look-behind is somewhere in it, whatever is before and after. -/
theorem C65_pcre (s : List Nat) : isPcre s = true ↔ ∃ pre l post, IsLook l ∧ s = pre ++ l ++ post := by
  induction s with
  | nil =>
    simp only [isPcre, Bool.false_eq_true, false_iff]
    rintro ⟨pre, l, post, ⟨x, body, _, _, _, rfl⟩, h⟩
    simp at h
  | cons c s ih =>
    rw [isPcre, Bool.or_eq_true, pcreHere_iff, ih]
    constructor
    · rintro (⟨l, rest, hl, h⟩ | ⟨pre, l, post, hl, h⟩)
      · exact ⟨[], l, rest, hl, by simpa using h⟩
      · exact ⟨c :: pre, l, post, hl, by simp [h]⟩
    · rintro ⟨pre, l, post, hl, h⟩
      cases pre with
      | nil => exact .inl ⟨l, post, hl, by simpa using h⟩
      | cons a pre =>
        injection h with _ h
        exact .inr ⟨pre, l, post, hl, h⟩


/-- An escaped parenthesis counts too: `\(?=(a)` asks for an optional parenthesis, `=` and `a`, and needs no PCRE. -/
theorem C65_escaped (s : List Nat) (h : isPcre s = true) : isPcre (92 :: s) = true := by
  obtain ⟨pre, l, post, hl, rfl⟩ := (C65_pcre s).1 h
  exact (C65_pcre _).2 ⟨92 :: pre, l, post, hl, rfl⟩

example : isPcre (ascii "(?=(a)") = true := by decide

/-- Patterns of both kinds. -/
example : isPcre (ascii "ab(?!c)d") = true ∧ isPcre (ascii "a(?=)b") = false ∧ isPcre (ascii "(?=a" ++ [10] ++ ascii ")") = false := by decide

end Verif.Filter
