import Verif.Composer.Model

/-!
# C37: removing items never overruns the destination
-/

namespace Verif.Composer
open Verif.Token

/-- A successful step on a tokenizer inside its data. -/
theorem step_facts {k k' : Tkn} {ty : Tok} {w : List Nat} (h : step k = (some (ty, w), k')) (hk : k.pos ≤ k.data.length) :
    k'.data = k.data ∧ k.pos ≤ k'.pos ∧ k'.pos ≤ k.data.length ∧
      (ty ≠ .end_ → w ≠ [] ∧ TokText ty w ∧ k.pos + w.length ≤ k'.pos) := by
  obtain ⟨hd, h⟩ := step_some h
  rcases h with ⟨rfl, _, _, h1, h2⟩ | ⟨ht, ws, post, _, _, h1, h2⟩
  · exact ⟨hd, h1, by omega, fun h => absurd rfl h⟩
  · exact ⟨hd, by omega, h2, fun _ => ⟨ht.ne_nil, ht, by omega⟩⟩

/-- What holds between iterations, for a source of length `n`. -/
structure Inv (n : Nat) (s : St) : Prop where
  len : s.tk.data.length = n
  out : s.comp.out.length ≤ s.tk.pos
  pos : s.tk.pos ≤ n
  cap : n ≤ s.comp.cap
  prev : s.comp.prev = .listDelim → s.comp.out ≠ []

theorem write_ok (c : C) (data : List Nat) (ty : Tok) (hd : data ≠ []) (h : c.out.length + data.length ≤ c.cap)
    (hp : c.prev = .listDelim → c.out ≠ []) :
    ∃ c', write c data ty = .ok c' ∧ c'.cap = c.cap ∧ c'.out.length ≤ c.out.length + data.length ∧ c'.out ≠ [] := by
  unfold write
  by_cases h1 : ty = .objectEnd ∧ c.prev = .listDelim
  · rw [if_pos h1, if_neg (hp h1.2), if_pos (by rw [List.length_dropLast]; omega)]
    refine ⟨_, rfl, rfl, ?_, ?_⟩
    · simp only [List.length_append, List.length_dropLast]; omega
    · simp [hd]
  · rw [if_neg h1, if_pos h]
    refine ⟨_, rfl, rfl, ?_, ?_⟩
    · simp
    · simp [hd]

theorem valueLoop_ok (n : Nat) (fuel : Nat) : ∀ (d : Nat) (k : Tkn), k.data.length = n → k.pos ≤ n → n < k.pos + fuel →
    ∃ r, valueLoop fuel d k = .ok r ∧ ∀ k', r = some k' → k'.data = k.data ∧ k.pos ≤ k'.pos ∧ k'.pos ≤ n := by
  induction fuel with
  | zero => intro d k _ _ h; omega
  | succ fuel ih =>
    intro d k hl hp hf
    rw [valueLoop]
    rcases hs : step k with ⟨r, k1⟩
    cases r with
    | none => exact ⟨none, rfl, fun _ h => nomatch h⟩
    | some p =>
      obtain ⟨ty, w⟩ := p
      obtain ⟨e1, e2, e3, e4⟩ := step_facts hs (by omega)
      have found : ∃ r, Res.ok (some k1) = .ok r ∧ ∀ k', r = some k' → k'.data = k.data ∧ k.pos ≤ k'.pos ∧ k'.pos ≤ n :=
        ⟨some k1, rfl, fun k' h => by cases h; exact ⟨e1, e2, by omega⟩⟩
      have next : ty ≠ .end_ → ∀ d, ∃ r, valueLoop fuel d k1 = .ok r ∧
          ∀ k', r = some k' → k'.data = k.data ∧ k.pos ≤ k'.pos ∧ k'.pos ≤ n := by
        intro hty d
        have hw := List.length_pos_iff.2 (e4 hty).1
        obtain ⟨r, hr, h⟩ := ih d k1 (by rw [e1]; exact hl) (by omega) (by have := (e4 hty).2.2; omega)
        refine ⟨r, hr, fun k' hk => ?_⟩
        obtain ⟨a, b, c⟩ := h k' hk
        exact ⟨a.trans e1, by omega, c⟩
      have none : ∃ r, Res.ok (none : Option Tkn) = .ok r ∧ ∀ k', r = some k' → k'.data = k.data ∧ k.pos ≤ k'.pos ∧ k'.pos ≤ n :=
        ⟨_, rfl, fun _ h => nomatch h⟩
      cases ty <;> simp only [Tok.isLiteral, if_true, if_false, Bool.false_eq_true]
      all_goals first
        | exact none
        | exact next (by simp) _
        | (by_cases h0 : d = 0
           · rw [if_pos h0]; exact found
           · rw [if_neg h0]; exact next (by simp) _)
        | (by_cases h1 : d = 1
           · rw [if_pos h1]; exact found
           · rw [if_neg h1]
             by_cases h0 : d = 0
             · rw [if_pos h0]; exact none
             · rw [if_neg h0]; exact next (by simp) _)

theorem removeOne_ok (n : Nat) (name : List Nat) (s : St) (h : Inv n s) :
    ∃ r, removeOne name s = .ok r ∧ ∀ s', r = some s' → Inv n s' ∧ s.tk.pos < s'.tk.pos := by
  obtain ⟨r, hr, hk⟩ := valueLoop_ok n (s.tk.data.length + 1) 0 s.tk h.len h.pos (by rw [h.len]; omega)
  rw [removeOne, hr, Res.bind_ok]
  cases r with
  | none => exact ⟨none, rfl, fun _ h => nomatch h⟩
  | some k =>
    obtain ⟨k1, k2, k3⟩ := hk k rfl
    simp only []
    rcases hs : step k with ⟨r, k'⟩
    cases r with
    | none => exact ⟨none, rfl, fun _ h => nomatch h⟩
    | some p =>
      obtain ⟨ty, w⟩ := p
      obtain ⟨e1, e2, e3, e4⟩ := step_facts hs (by rw [k1, h.len]; exact k3)
      have hlen : k.data.length = n := by rw [k1]; exact h.len
      cases ty with
      | objectEnd =>
        obtain ⟨hw, _, hp⟩ := e4 (by simp)
        have hwl := List.length_pos_iff.2 hw
        have ho := h.out
        have hc := h.cap
        obtain ⟨c', hc', w1, w2, w3⟩ := write_ok s.comp w .objectEnd hw (by omega) h.prev
        simp only [hc', Res.bind_ok]
        by_cases h0 : s.depth = 0
        · rw [if_pos h0]; exact ⟨none, rfl, fun _ h => nomatch h⟩
        · rw [if_neg h0]
          refine ⟨_, rfl, fun s' hs' => ?_⟩
          cases hs'
          exact ⟨⟨by rw [e1]; exact hlen, by show c'.out.length ≤ k'.pos; omega, by show k'.pos ≤ n; omega, by show n ≤ c'.cap; omega, fun _ => w3⟩,
            by show s.tk.pos < k'.pos; omega⟩
      | listDelim =>
        obtain ⟨hw, _, hp⟩ := e4 (by simp)
        have hwl := List.length_pos_iff.2 hw
        have ho := h.out
        refine ⟨_, rfl, fun s' hs' => ?_⟩
        cases hs'
        exact ⟨⟨by rw [e1]; exact hlen, by show s.comp.out.length ≤ k'.pos; omega, by show k'.pos ≤ n; omega, h.cap, h.prev⟩,
          by show s.tk.pos < k'.pos; omega⟩
      | _ => exact ⟨none, rfl, fun _ h => nomatch h⟩

theorem removeLoop_ok (n : Nat) (key : List Nat) : ∀ (ns : List (List Nat)) (m : Bool) (s : St), Inv n s →
    ∃ r, removeLoop key ns m s = .ok r ∧
      ∀ m' s', r = some (m', s') → Inv n s' ∧ s.tk.pos ≤ s'.tk.pos ∧ (m' = false → s' = s)
  | [], m, s, h => ⟨_, rfl, fun m' s' e => by cases e; exact ⟨h, Nat.le_refl _, fun _ => rfl⟩⟩
  | x :: ns, m, s, h => by
    rw [removeLoop]
    by_cases hx : key = x
    · rw [if_pos hx]
      obtain ⟨r, hr, h1⟩ := removeOne_ok n x s h
      rw [hr, Res.bind_ok]
      cases r with
      | none => exact ⟨none, rfl, fun _ _ h => nomatch h⟩
      | some s1 =>
        obtain ⟨i1, p1⟩ := h1 s1 rfl
        obtain ⟨r, hr, h2⟩ := removeLoop_ok n key ns true s1 i1
        refine ⟨r, hr, fun m' s' e => ?_⟩
        obtain ⟨a, b, _⟩ := h2 m' s' e
        refine ⟨a, by omega, fun hm => ?_⟩
        subst hm
        exfalso
        have key_true : ∀ (ns : List (List Nat)) (s : St) (s' : St), removeLoop key ns true s ≠ .ok (some (false, s')) := by
          intro ns
          induction ns with
          | nil => intro s s' h; cases h
          | cons y ns ih =>
            intro s s' h
            rw [removeLoop] at h
            by_cases hy : key = y
            · rw [if_pos hy] at h
              obtain ⟨r, _, h⟩ := Res.bind_eq_ok.1 h
              cases r with
              | none => cases h
              | some s1 => exact ih _ _ h
            · rw [if_neg hy] at h; exact ih _ _ h
        exact key_true ns s1 s' (by rw [hr, e])
    · rw [if_neg hx]; exact removeLoop_ok n key ns m s h

/-- What an iteration achieves. -/
def Step (n : Nat) (p : Nat) (t : Turn) : Prop :=
  match t with
  | .err => True
  | .stop s => Inv n s
  | .go s => Inv n s ∧ p < s.tk.pos

/-- Writing a token read from `k`. -/
theorem write_step {n : Nat} {s : St} (h : Inv n s) {k' : Tkn} {ty : Tok} {w : List Nat} (hs : step s.tk = (some (ty, w), k'))
    (hty : ty ≠ .end_) (ty' : Tok) : ∃ c', write s.comp w ty' = .ok c' ∧ ∀ (d : Nat) rm, Inv n ⟨k', c', d, rm⟩ ∧ s.tk.pos < k'.pos := by
  obtain ⟨e1, e2, e3, e4⟩ := step_facts hs (by rw [h.len]; exact h.pos)
  obtain ⟨hw, _, hp⟩ := e4 hty
  have hwl := List.length_pos_iff.2 hw
  have ho := h.out
  have hc := h.cap
  have hl := h.len
  obtain ⟨c', hc', w1, w2, w3⟩ := write_ok s.comp w ty' hw (by omega) h.prev
  exact ⟨c', hc', fun d rm => ⟨⟨by rw [e1]; exact hl, by show c'.out.length ≤ k'.pos; omega, by show k'.pos ≤ n; omega, by show n ≤ c'.cap; omega, fun _ => w3⟩, by omega⟩⟩

theorem turn_ok (n : Nat) (keys : List (List Nat)) (s : St) (h : Inv n s) :
    ∃ t, turn keys s = .ok t ∧ Step n s.tk.pos t := by
  rw [turn]
  rcases hs : step s.tk with ⟨r, k⟩
  cases r with
  | none => exact ⟨.err, rfl, trivial⟩
  | some p =>
    obtain ⟨ty, w⟩ := p
    obtain ⟨e1, e2, e3, e4⟩ := step_facts hs (by rw [h.len]; exact h.pos)
    have ho := h.out
    have hc := h.cap
    have hl := h.len
    have simple : ty ≠ .end_ → ∀ d, ∃ t, (write s.comp w ty >>= fun c => .ok (.go ⟨k, c, d, s.removed⟩)) = .ok t ∧ Step n s.tk.pos t := by
      intro hty d
      obtain ⟨c', hc', hi⟩ := write_step h hs hty ty
      rw [hc', Res.bind_ok]
      exact ⟨_, rfl, hi d _⟩
    cases ty with
    | string =>
      simp only []
      obtain ⟨hw, htx, hp⟩ := e4 (by simp)
      have hwl := List.length_pos_iff.2 hw
      rw [strTurn]
      simp only []
      rcases hs2 : step k with ⟨r, k2⟩
      cases r with
      | none => exact ⟨.err, rfl, trivial⟩
      | some p =>
        obtain ⟨ty2, w2⟩ := p
        obtain ⟨f1, f2, f3, f4⟩ := step_facts hs2 (by rw [e1]; exact e3)
        have hkl : k.data.length = n := by rw [e1]; exact hl
        simp only []
        by_cases hd : ty2 = .objectKeyDelim
        · rw [if_pos hd]
          obtain ⟨hw2, _, hp2⟩ := f4 (by rw [hd]; simp)
          have hw2l := List.length_pos_iff.2 hw2
          rw [keyTurn]
          have h2 : ¬ w.length < 2 := by cases htx; simp
          rw [if_neg h2]
          have i0 : Inv n { s with tk := k2 } :=
            ⟨by show k2.data.length = n; rw [f1]; exact hkl, by show s.comp.out.length ≤ k2.pos; omega, by show k2.pos ≤ n; omega, hc, h.prev⟩
          obtain ⟨r, hr, hrem⟩ := removeLoop_ok n ((w.drop 1).take (w.length - 2)) keys false { s with tk := k2 } i0
          rw [hr, Res.bind_ok]
          cases r with
          | none => exact ⟨.err, rfl, trivial⟩
          | some q =>
            obtain ⟨m, s'⟩ := q
            obtain ⟨i1, p1, hsame⟩ := hrem m s' rfl
            cases m with
            | true => exact ⟨_, rfl, i1, by have : k2.pos ≤ s'.tk.pos := p1; omega⟩
            | false =>
              have := hsame rfl
              subst this
              simp only []
              obtain ⟨c1, hc1, a1, a2, a3⟩ := write_ok s.comp w .string hw (by omega) h.prev
              obtain ⟨c2, hc2, b1, b2, b3⟩ := write_ok c1 w2 .string hw2 (by omega) (fun _ => a3)
              rw [hc1, Res.bind_ok, hc2, Res.bind_ok]
              exact ⟨_, rfl, ⟨by show k2.data.length = n; rw [f1]; exact hkl, by show c2.out.length ≤ k2.pos; omega, by show k2.pos ≤ n; omega, by show n ≤ c2.cap; omega, fun _ => b3⟩,
                by show s.tk.pos < k2.pos; omega⟩
        · rw [if_neg hd]
          by_cases hu : ty2 = .unknown ∨ ty2 = .end_
          · rw [if_pos hu]; exact ⟨.err, rfl, trivial⟩
          · rw [if_neg hu]
            obtain ⟨hw2, _, hp2⟩ := f4 (fun h => hu (.inr h))
            have hw2l := List.length_pos_iff.2 hw2
            obtain ⟨c1, hc1, a1, a2, a3⟩ := write_ok s.comp w .string hw (by omega) h.prev
            obtain ⟨c2, hc2, b1, b2, b3⟩ := write_ok c1 w2 ty2 hw2 (by omega) (fun _ => a3)
            rw [hc1, Res.bind_ok, hc2, Res.bind_ok]
            have i2 : ∀ d, Inv n ⟨k2, c2, d, s.removed⟩ := fun d =>
              ⟨by show k2.data.length = n; rw [f1]; exact hkl, by show c2.out.length ≤ k2.pos; omega, by show k2.pos ≤ n; omega, by show n ≤ c2.cap; omega, fun _ => b3⟩
            by_cases hoe : ty2 = .objectEnd
            · rw [if_pos hoe]
              by_cases h0 : s.depth = 0
              · rw [if_pos h0]; exact ⟨.err, rfl, trivial⟩
              · rw [if_neg h0]; exact ⟨_, rfl, i2 _, by show s.tk.pos < k2.pos; omega⟩
            · rw [if_neg hoe]; exact ⟨_, rfl, i2 _, by show s.tk.pos < k2.pos; omega⟩
    | end_ => exact ⟨_, rfl, by show k.data.length = n; rw [e1]; exact hl, by show s.comp.out.length ≤ k.pos; omega, by show k.pos ≤ n; omega, hc, h.prev⟩
    | unknown => exact ⟨.err, rfl, trivial⟩
    | objectStart => exact simple (by simp) _
    | arrayStart => exact simple (by simp) _
    | objectEnd =>
      by_cases h0 : s.depth = 0
      · simp only [if_pos h0]; exact ⟨.err, rfl, trivial⟩
      · simp only [if_neg h0]; exact simple (by simp) _
    | arrayEnd =>
      by_cases h0 : s.depth = 0
      · simp only [if_pos h0]; exact ⟨.err, rfl, trivial⟩
      · simp only [if_neg h0]; exact simple (by simp) _
    | objectKeyDelim => exact simple (by simp) _
    | listDelim => exact simple (by simp) _
    | escString => exact simple (by simp) _
    | integer => exact simple (by simp) _
    | number => exact simple (by simp) _
    | null => exact simple (by simp) _
    | tru => exact simple (by simp) _
    | fals => exact simple (by simp) _

theorem loop_ok (n : Nat) (keys : List (List Nat)) (fuel : Nat) : ∀ s, Inv n s → n < s.tk.pos + fuel →
    ∃ r, loop keys fuel s = .ok r ∧ ∀ s', r = some s' → Inv n s' := by
  induction fuel with
  | zero => intro s h hf; have := h.pos; omega
  | succ fuel ih =>
    intro s h hf
    obtain ⟨t, ht, hst⟩ := turn_ok n keys s h
    rw [loop, ht, Res.bind_ok]
    cases t with
    | err => exact ⟨none, rfl, fun _ h => nomatch h⟩
    | stop s' => exact ⟨_, rfl, fun s'' e => by cases e; exact hst⟩
    | go s' => exact ih s' hst.1 (by have := hst.2; omega)

/-- **C37.**  With a nil destination or one whose capacity is at least the length of the source, the function returns a
result or an error for every source and every list of keys; the result is not longer than the source.  (On shorter
destinations it may panic instead of returning `ErrInsufficientMemory`: `C37_short_destination_panics`.) -/
theorem C37_no_overrun (src : List Nat) (keys : List (List Nat)) (cap : Option Nat)
    (hc : ∀ c, cap = some c → src.length ≤ c) :
    remove src keys cap = .ok none ∨ ∃ o, remove src keys cap = .ok (some o) ∧ o.dst.length ≤ src.length := by
  unfold remove
  by_cases h : src.length < 2 ∨ src.head? ≠ some 0x7B ∨ src.getLast? ≠ some 0x7D
  · rw [if_pos h]; exact .inl rfl
  · rw [if_neg h]
    have i0 : Inv src.length ⟨⟨src, 0⟩, ⟨cap.getD src.length, [], .unknown⟩, 0, []⟩ := by
      refine ⟨rfl, Nat.le_refl 0, Nat.zero_le _, ?_, fun h => nomatch h⟩
      show src.length ≤ cap.getD src.length
      cases cap with
      | none => exact Nat.le_refl _
      | some c => exact hc c rfl
    obtain ⟨r, hr, hi⟩ := loop_ok src.length keys (src.length + 1) _ i0 (by show src.length < 0 + (src.length + 1); omega)
    rw [hr, Res.bind_ok]
    cases r with
    | none => exact .inl rfl
    | some s =>
      have i := hi s rfl
      simp only []
      by_cases hd : s.depth ≠ 0
      · rw [if_pos hd]; exact .inl rfl
      · rw [if_neg hd]
        exact .inr ⟨_, rfl, Nat.le_trans i.out i.pos⟩

/-- **C37 (boundary).**  A destination that is too short is not reported with an error: the call panics. -/
theorem C37_short_destination_panics : remove (bytes "{\"a\":1}") [] (some 3) = .panic := by decide +kernel

/-- A destination of the length of the source. -/
example : remove (bytes "{\"a\": 1,\"b\":[2]}") [bytes "a"] (some 17) =
    .ok (some ⟨bytes "{\"b\":[2]}", [(bytes "a", bytes " 1")], true⟩) := by decide +kernel

end Verif.Composer
