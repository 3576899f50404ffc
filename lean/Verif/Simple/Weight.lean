import Verif.Simple.Fuel

/-!
# How much text a context has left

Splitting a token makes the rest of the text lighter, and so does moving past a token.
-/

namespace Verif.Simple
open Verif.FastVal Verif.Expr

/-- The weight of tokens. -/
def weight : List Str → Nat
  | [] => 0
  | t :: ts => (2 * t.length - 1) + weight ts

/-- The tokens from the current one on. -/
def Ctx.rest (c : Ctx) : List Str := c.tokens.drop c.idx

/-- What is left, with the current token and without it. -/
def Ctx.left (c : Ctx) : Nat := weight c.rest
def Ctx.left1 (c : Ctx) : Nat := weight (c.tokens.drop (c.idx + 1))

theorem weight_append (a b : List Str) : weight (a ++ b) = weight a + weight b := by
  induction a with
  | nil => simp [weight]
  | cons t a ih => simp only [List.cons_append, weight, ih]; omega

theorem weight_drop (ts : List Str) (n : Nat) : weight (ts.drop n) ≤ weight ts := by
  induction ts generalizing n with
  | nil => simp
  | cons t ts ih =>
    cases n with
    | zero => simp
    | succ n => simp only [List.drop_succ_cons, weight]; have := ih n; omega

theorem weight_drop_le (ts : List Str) {n m : Nat} (h : n ≤ m) : weight (ts.drop m) ≤ weight (ts.drop n) := by
  obtain ⟨k, rfl⟩ := Nat.exists_eq_add_of_le h
  rw [← List.drop_drop]
  exact weight_drop _ _

theorem rest_cons {c : Ctx} {t : Str} (ht : c.tokens[c.idx]? = some t) : c.rest = t :: c.tokens.drop (c.idx + 1) := by
  obtain ⟨h, rfl⟩ := List.getElem?_eq_some_iff.1 ht
  exact List.drop_eq_getElem_cons h

theorem left_cons {c : Ctx} {t : Str} (ht : c.tokens[c.idx]? = some t) : c.left = (2 * t.length - 1) + c.left1 := by
  rw [Ctx.left, rest_cons ht, weight, Ctx.left1]

theorem left1_le (c : Ctx) : c.left1 ≤ c.left := weight_drop_le _ (Nat.le_succ _)

theorem left1_lt {c : Ctx} {t : Str} (ht : c.tokens[c.idx]? = some t) (hne : t ≠ []) : c.left1 < c.left := by
  rw [left_cons ht]
  have := List.length_pos_iff.2 hne
  omega

theorem left_none {c : Ctx} (h : c.tokens[c.idx]? = none) : c.left = 0 := by
  rw [Ctx.left, Ctx.rest, List.drop_eq_nil_of_le (List.getElem?_eq_none_iff.1 h), weight]

theorem replace_rest {c : Ctx} {t : Str} (ht : c.tokens[c.idx]? = some t) (ts : List Str) :
    (c.replace ts).rest = ts ++ c.tokens.drop (c.idx + 1) := by
  obtain ⟨h, -⟩ := List.getElem?_eq_some_iff.1 ht
  have hl : (c.tokens.take c.idx).length = c.idx := by rw [List.length_take]; omega
  show (c.tokens.take c.idx ++ ts ++ c.tokens.drop (c.idx + 1)).drop c.idx = _
  rw [List.append_assoc, List.drop_left' hl]

theorem replace_left {c : Ctx} {t : Str} (ht : c.tokens[c.idx]? = some t) (ts : List Str) :
    (c.replace ts).left = weight ts + c.left1 := by
  rw [Ctx.left, replace_rest ht, weight_append, Ctx.left1]

/-! ### Pieces -/

/-- The tokens `ts` are pieces of `t`: lighter, the first one shorter, and with no other characters. -/
structure Pieces (t : Str) (ts : List Str) : Prop where
  light : weight ts < 2 * t.length - 1
  first : ∃ h r, ts = h :: r ∧ h.length < t.length
  chars : ∀ p ∈ ts, ∀ x ∈ p, x ∈ t

theorem hasPrefix_iff (p s : Str) : hasPrefix p s = true ↔ p <+: s := by rw [hasPrefix, List.isPrefixOf_iff_prefix]
theorem hasSuffix_iff (p s : Str) : hasSuffix p s = true ↔ p <:+ s := by rw [hasSuffix, List.isSuffixOf_iff_suffix]

theorem prefix_pieces {t : Str} {p : Nat} (hp : hasPrefix [p] t = true) (hne : t ≠ [p]) : Pieces t [[p], trimPrefix [p] t] := by
  obtain ⟨r, rfl⟩ := (hasPrefix_iff _ _).1 hp
  have hr : r ≠ [] := by rintro rfl; exact hne rfl
  have hl := List.length_pos_iff.2 hr
  have ht : trimPrefix [p] ([p] ++ r) = r := by rw [trimPrefix, if_pos hp]; rfl
  rw [ht]
  refine ⟨?_, ⟨[p], _, rfl, ?_⟩, ?_⟩
  · simp [weight]; omega
  · simp; omega
  · intro x hx y hy
    simp only [List.mem_cons, List.not_mem_nil, or_false] at hx
    rcases hx with rfl | rfl
    · simp at hy; simp [hy]
    · simp [hy]

theorem weight_singles : ∀ l : Str, weight (l.map fun x => [x]) = l.length
  | [] => rfl
  | _ :: l => by simp only [List.map_cons, weight, weight_singles l, List.length_cons, List.length_nil]; omega

theorem strip_split (t : Str) (p : Nat) :
    t = (t.reverse.dropWhile (· = p)).reverse ++ (t.reverse.takeWhile (· = p)).reverse := by
  rw [← List.reverse_append, List.takeWhile_append_dropWhile, List.reverse_reverse]

theorem suffix_take {t : Str} {p : Nat} (hp : hasSuffix [p] t = true) : (t.reverse.takeWhile (· = p)) ≠ [] := by
  obtain ⟨r, rfl⟩ := (hasSuffix_iff _ _).1 hp
  simp

theorem suffix_chars (t : Str) (p : Nat) :
    ∀ x ∈ (t.reverse.dropWhile (· = p)).reverse :: (t.reverse.takeWhile (· = p)).map fun x => [x], ∀ y ∈ x, y ∈ t := by
  intro x hx y hy
  rw [strip_split t p]
  rcases List.mem_cons.1 hx with rfl | hx
  · exact List.mem_append_left _ hy
  · obtain ⟨z, hz, rfl⟩ := List.mem_map.1 hx
    rw [List.mem_singleton] at hy
    subst hy
    exact List.mem_append_right _ (List.mem_reverse.2 hz)

theorem suffix_weight (t : Str) (p : Nat) (hp : hasSuffix [p] t = true) :
    weight ((t.reverse.dropWhile (· = p)).reverse :: (t.reverse.takeWhile (· = p)).map fun x => [x]) ≤ 2 * t.length - 1 := by
  have h1 := congrArg List.length (strip_split t p)
  simp only [List.length_append, List.length_reverse] at h1
  have h2 := List.length_pos_iff.2 (suffix_take hp)
  rw [weight, weight_singles, List.length_reverse]
  omega

theorem suffix_pieces {t : Str} {p : Nat} (hp : hasSuffix [p] t = true) (hne : t ≠ [p]) :
    Pieces t ((t.reverse.dropWhile (· = p)).reverse :: (t.reverse.takeWhile (· = p)).map fun x => [x]) := by
  have h1 := congrArg List.length (strip_split t p)
  simp only [List.length_append, List.length_reverse] at h1
  have h2 := List.length_pos_iff.2 (suffix_take hp)
  have h3 : (t.reverse.dropWhile (· = p)) = [] → 2 ≤ (t.reverse.takeWhile (· = p)).length := by
    intro h0
    have hs := strip_split t p
    rw [h0] at hs
    have ha : ∀ x ∈ t.reverse.takeWhile (· = p), x = p := fun x hx => by simpa using List.all_eq_true.1 (List.all_takeWhile (l := t.reverse) (p := fun x => decide (x = p))) x hx
    rcases hl : t.reverse.takeWhile (· = p) with _ | ⟨a, _ | ⟨b, l⟩⟩
    · rw [hl] at h2; simp at h2
    · rw [hl] at hs ha
      have := ha a (by simp)
      subst this
      exact absurd (by simpa using hs) hne
    · simp
  refine ⟨?_, ⟨_, _, rfl, ?_⟩, suffix_chars t p⟩
  · rw [weight, weight_singles, List.length_reverse]
    by_cases h0 : (t.reverse.dropWhile (· = p)) = []
    · have := h3 h0; rw [h0] at h1 ⊢; simp at h1 ⊢; omega
    · have := List.length_pos_iff.2 h0; omega
  · rw [List.length_reverse]; omega

/-! ### Operators inside a token -/

theorem cut_split : ∀ (t d a b : Str), cut d t = some (a, b) → t = a ++ d ++ b := by
  intro t
  induction t with
  | nil => intro d a b h; simp [cut] at h
  | cons c s ih =>
    intro d a b h
    rw [cut] at h
    split at h
    · rename_i hp
      injection h with h
      injection h with h1 h2
      subst h1 h2
      obtain ⟨r, hr⟩ := (hasPrefix_iff _ _).1 hp
      rw [← hr]
      simp
    · cases hc : cut d s with
      | none => rw [hc] at h; simp at h
      | some r =>
        rw [hc] at h
        simp only [Option.map_some, Option.some.injEq, Prod.mk.injEq] at h
        obtain ⟨rfl, rfl⟩ := h
        rw [ih d r.1 r.2 hc]
        simp

theorem trim_sub (set s : Str) : ∀ x ∈ trim set s, x ∈ s := by
  intro x hx
  rw [trim, List.mem_reverse] at hx
  have := List.dropWhile_subset _ hx
  rw [List.mem_reverse] at this
  exact List.dropWhile_subset _ this

theorem dropWhile_app_all (p : Nat → Bool) (a b : Str) (ha : ∀ x ∈ a, p x = true) : (a ++ b).dropWhile p = b.dropWhile p := by
  induction a with
  | nil => rfl
  | cons c a ih => rw [List.cons_append, List.dropWhile_cons_of_pos (ha c (by simp))]; exact ih fun x hx => ha x (by simp [hx])

theorem length_dropWhile_le (p : Nat → Bool) (l : Str) : (l.dropWhile p).length ≤ l.length := (List.dropWhile_suffix p).length_le

theorem trim_length (d a : Str) : (trim d (a ++ d)).length ≤ a.length := by
  rw [trim, List.length_reverse]
  rcases h : (a ++ d).dropWhile d.contains with _ | ⟨c, r⟩
  · simp
  · obtain ⟨p, hp⟩ := List.dropWhile_suffix (l := a ++ d) d.contains
    have hpl := congrArg List.length hp
    rw [h] at hp hpl
    by_cases hlen : p.length ≤ a.length
    · have : c :: r = a.drop p.length ++ d := by
        have := congrArg (List.drop p.length) hp
        rw [List.drop_left, List.drop_append_of_le_length hlen] at this
        exact this
      rw [this, List.reverse_append, dropWhile_app_all _ _ _ (fun x hx => by simpa using hx)]
      refine Nat.le_trans (length_dropWhile_le _ _) ?_
      simp
    · have hc : d.contains c = false := by
        have := List.head_dropWhile_not (l := a ++ d) (p := d.contains) (by rw [h]; simp)
        simpa [h] using this
      exfalso
      have hm : c ∈ d := by
        have := congrArg (List.drop p.length) hp
        rw [List.drop_left, List.drop_append, List.drop_eq_nil_of_le (by omega), List.nil_append] at this
        exact List.mem_of_mem_drop (by rw [← this]; simp)
      rw [List.contains_iff_mem.2 hm] at hc
      cases hc

theorem split_pieces {t d : Str} (hd : d ≠ []) (hne : t ≠ d) (hs : ∃ r, cut d t = some r) : Pieces t (splitFirst t d) := by
  obtain ⟨⟨a, b⟩, hr⟩ := hs
  have ht := cut_split _ _ _ _ hr
  have hdl := List.length_pos_iff.2 hd
  rw [splitFirst, if_neg hne, hr]
  dsimp only
  have hlen : t.length = a.length + d.length + b.length := by rw [ht]; simp; omega
  split
  · rename_i ha
    have ha0 : a = [] := by simpa using ha
    subst ha0
    have hb : b ≠ [] := by rintro rfl; exact hne (by rw [ht]; simp)
    have := List.length_pos_iff.2 hb
    refine ⟨?_, ⟨d, _, rfl, by omega⟩, ?_⟩
    · simp only [weight]; simp at hlen; omega
    · intro x hx y hy
      simp only [List.mem_cons, List.not_mem_nil, or_false] at hx
      rw [ht]
      rcases hx with rfl | rfl <;> simp [hy]
  · rename_i ha
    have ha0 : a ≠ [] := by rintro rfl; exact ha (by simp)
    have hal := List.length_pos_iff.2 ha0
    split
    · rename_i hb
      have hb0 : b = [] := by simp at hb; exact hb.1
      subst hb0
      have htr : trimSuffix d (a ++ d) = a := by
        rw [trimSuffix, if_pos ((hasSuffix_iff _ _).2 ⟨a, rfl⟩)]
        simp
      rw [htr]
      refine ⟨?_, ⟨a, _, rfl, by omega⟩, ?_⟩
      · simp only [weight]; simp at hlen; omega
      · intro x hx y hy
        simp only [List.mem_cons, List.not_mem_nil, or_false] at hx
        rw [ht]
        rcases hx with rfl | rfl <;> simp [hy]
    · rename_i hb
      have hb0 : b ≠ [] := by
        rintro rfl
        exact hb (by simp [hasSuffix_iff])
      have hbl := List.length_pos_iff.2 hb0
      have := trim_length d a
      refine ⟨?_, ⟨_, _, rfl, by omega⟩, ?_⟩
      · simp only [weight]; omega
      · intro x hx y hy
        simp only [List.mem_cons, List.not_mem_nil, or_false] at hx
        rw [ht]
        rcases hx with rfl | rfl | rfl
        · rcases List.mem_append.1 (trim_sub _ _ y hy) with h | h <;> simp [h]
        · simp [hy]
        · simp [hy]

theorem opTok_ne {d : Str} (h : isOpTok d = true) : d ≠ [] := by rintro rfl; revert h; decide

theorem cut_of_suffix : ∀ (t d : Str), (∃ u v, t = u ++ d ++ v) → d ≠ [] → ∃ r, cut d t = some r := by
  intro t
  induction t with
  | nil => rintro d ⟨u, v, h⟩ hd; simp at h; exact absurd h.2.1 hd
  | cons c s ih =>
    rintro d ⟨u, v, h⟩ hd
    rw [cut]
    split
    · exact ⟨_, rfl⟩
    · rename_i hp
      cases u with
      | nil => exact absurd ((hasPrefix_iff _ _).2 ⟨v, by simpa using h.symm⟩) hp
      | cons x u =>
        simp only [List.cons_append, List.cons.injEq] at h
        obtain ⟨r, hr⟩ := ih d ⟨u, v, h.2⟩ hd
        exact ⟨_, by rw [hr]; rfl⟩

theorem seekLoop_some (s : Str) : ∀ n k found d, (found = true → isOpTok (s.take (k - 1)) = true) →
    seekLoop s n k found = some d → isOpTok d = true ∧ ∃ m, d = s.take m := by
  intro n
  induction n with
  | zero =>
    intro k found d hf h
    rw [seekLoop] at h
    split at h
    · rename_i ho; injection h with h; subst h; exact ⟨ho, _, rfl⟩
    · split at h
      · rename_i hfo; injection h with h; subst h; exact ⟨hf hfo, _, rfl⟩
      · cases h
  | succ n ih =>
    intro k found d hf h
    rw [seekLoop] at h
    split at h
    · rename_i ho; exact ih (k + 1) true d (fun _ => ho) h
    · split at h
      · rename_i hfo; injection h with h; subst h; exact ⟨hf hfo, _, rfl⟩
      · rename_i hfo; exact ih (k + 1) found d (fun hc => absurd hc hfo) h

theorem seek_some : ∀ (t d : Str), seek t = some d → isOpTok d = true ∧ ∃ u v, t = u ++ d ++ v := by
  intro t
  induction t with
  | nil => intro d h; simp [seek] at h
  | cons c s ih =>
    intro d h
    rw [seek] at h
    split at h
    · rename_i o ho
      injection h with h
      subst h
      obtain ⟨h1, m, hm⟩ := seekLoop_some _ _ _ _ _ (fun h => by cases h) ho
      exact ⟨h1, [], (c :: s).drop m, by rw [hm]; simp⟩
    · obtain ⟨h1, u, v, h2⟩ := ih d h
      exact ⟨h1, c :: u, v, by rw [h2]; simp⟩

theorem seek_pieces {t d : Str} (hs : seek t = some d) (ho : isOpTok t = false) : Pieces t (splitFirst t d) := by
  obtain ⟨h1, h2⟩ := seek_some t d hs
  refine split_pieces (opTok_ne h1) ?_ (cut_of_suffix t d h2 (opTok_ne h1))
  rintro rfl
  rw [h1] at ho
  cases ho

end Verif.Simple
