import Verif.Transform.MultiWhole

/-!
# Documents with repeated keys (C79)

`encoding/json` keeps the last of several members with the same key; other readers keep the first.  The matcher does neither: a
condition on one field is decided by its first value, a comparison of several fields by the last ones.
-/

namespace Verif.Transform
open Verif.FastVal Verif.Expr Verif.Match Verif.Token

variable {E : Ext}

/-! ### Specification -/

/-- Members whose key is not in `seen` and has not occurred before. -/
def firstMs : List (List Nat) → Ms → Ms
  | _, .nil => .nil
  | seen, .cons kty key w1 w2 d w3 w4 rest =>
    if memberKey kty key ∈ seen then firstMs seen rest else .cons kty key w1 w2 d w3 w4 (firstMs (memberKey kty key :: seen) rest)

/-- Members whose key does not occur again. -/
def lastMs : Ms → Ms
  | .nil => .nil
  | .cons kty key w1 w2 d w3 w4 rest =>
    if membersAt (memberKey kty key) rest = [] then .cons kty key w1 w2 d w3 w4 (lastMs rest) else lastMs rest

/-- The document with only the first (last) of several members of the same name. -/
def keepFirst : D → D
  | .obj ws ms => .obj ws (firstMs [] ms)
  | d => d
def keepLast : D → D
  | .obj ws ms => .obj ws (lastMs ms)
  | d => d

mutual
  /-- The truth of an expression when conditions on one field are about the document `f` and comparisons of several fields about `l`. -/
  def truthMix (X : Fns E) (C : Comp E) (f l : D) : Expr E → Bool
    | .cmp c a b => if several a b then truth2 X C (.cmp c a b) l else truth2 X C (.cmp c a b) f
    | .not e => !truthMix X C f l e
    | .and es => truthMixAll X C f l es
    | .or es => truthMixAny X C f l es
    | e => truth2 X C e f
  def truthMixAll (X : Fns E) (C : Comp E) (f l : D) : Exprs E → Bool
    | .nil => true
    | .cons e r => truthMix X C f l e && truthMixAll X C f l r
  def truthMixAny (X : Fns E) (C : Comp E) (f l : D) : Exprs E → Bool
    | .nil => false
    | .cons e r => truthMix X C f l e || truthMixAny X C f l r
end

mutual
  /-- All fields are members of the document itself. -/
  def Flat : Expr E → Prop
    | .cmp _ a b => (several a b = true → ∀ p ∈ paths a ++ paths b, p.length = 1) ∧ (several a b = false → (condPath a b).length = 1)
    | .exist e => (condPath e e).length = 1
    | .notExist e => (condPath e e).length = 1
    | .not e => Flat e
    | .and es => Flats es
    | .or es => Flats es
    | _ => True
  def Flats : Exprs E → Prop
    | .nil => True
    | .cons e r => Flat e ∧ Flats r
end

/-! ### Members that are kept -/

theorem membersAt_first (k : List Nat) : ∀ (seen : List (List Nat)) (ms : Ms),
    membersAt k (firstMs seen ms) = if k ∈ seen then [] else (membersAt k ms).head?.toList
  | seen, .nil => by simp [firstMs, membersAt]
  | seen, .cons kty key w1 w2 d w3 w4 rest => by
    have ih := membersAt_first k seen rest
    have ih' := membersAt_first k (memberKey kty key :: seen) rest
    by_cases hs : memberKey kty key ∈ seen
    · rw [firstMs, if_pos hs, ih]
      by_cases hk : k ∈ seen
      · rw [if_pos hk, if_pos hk]
      · have hne : memberKey kty key ≠ k := fun h => hk (h ▸ hs)
        rw [if_neg hk, if_neg hk, membersAt, if_neg hne]
    · rw [firstMs, if_neg hs, membersAt, ih']
      by_cases hk : memberKey kty key = k
      · have hks : k ∉ seen := hk ▸ hs
        rw [if_pos hk, if_neg hks, membersAt, if_pos hk, if_pos (by rw [hk]; exact List.mem_cons_self ..)]
        rfl
      · have : (k ∈ memberKey kty key :: seen) ↔ k ∈ seen := by
          rw [List.mem_cons]; exact ⟨fun h => h.resolve_left (fun h => hk h.symm), Or.inr⟩
        rw [if_neg hk, membersAt, if_neg hk]
        simp only [this]

theorem membersAt_last (k : List Nat) : ∀ ms : Ms, membersAt k (lastMs ms) = (membersAt k ms).getLast?.toList
  | .nil => by simp [lastMs, membersAt]
  | .cons kty key w1 w2 d w3 w4 rest => by
    have ih := membersAt_last k rest
    by_cases hk : memberKey kty key = k
    · rw [lastMs, hk]
      by_cases hr : membersAt k rest = []
      · rw [if_pos hr, membersAt, if_pos hk, membersAt, if_pos hk, ih, hr]
        rfl
      · rw [if_neg hr, ih, membersAt, if_pos hk, List.getLast?_cons]
        cases hm : membersAt k rest with
        | nil => exact absurd hm hr
        | cons a l => simp [List.getLast?_cons]
    · rw [membersAt, if_neg hk, ← ih, lastMs]
      split
      · rw [membersAt, if_neg hk]
      · rfl

theorem walk_one (k : List Nat) (ws : List Nat) (ms : Ms) : walk [k] (.obj ws ms) = membersAt k ms := by
  rw [walk]
  show (membersAt k ms).flatMap (fun d => [d]) = membersAt k ms
  simp

theorem walk_first (k : List Nat) (d : D) : (walk [k] (keepFirst d)).head? = (walk [k] d).head? := by
  cases d with
  | obj ws ms =>
    rw [keepFirst, walk_one, walk_one, membersAt_first, if_neg (List.not_mem_nil)]
    cases membersAt k ms <;> rfl
  | arr ws es => rfl
  | lit ty w => rfl

theorem docEnv_last (k : List Nat) (d : D) : docEnv (keepLast d) [k] = docEnv d [k] := by
  have : ∀ (l : List D) (o : Option D), lastOf o l = l.getLast?.or o := by
    intro l
    induction l with
    | nil => intro o; rfl
    | cons x l ih =>
      intro o
      show lastOf (some x) l = _
      rw [ih, List.getLast?_cons]
      cases l.getLast? <;> rfl
  cases d with
  | obj ws ms =>
    rw [docEnv, docEnv, keepLast, walk_one, walk_one, membersAt_last, this, this]
    cases (membersAt k ms).getLast? <;> rfl
  | arr ws es => rfl
  | lit ty w => rfl

theorem one_of_length {p : Path} (h : p.length = 1) : ∃ k, p = [k] := List.length_eq_one_iff.1 h

mutual
  theorem truthMix_eq (X : Fns E) (C : Comp E) (d : D) : ∀ e : Expr E, LoopFree e → Flat e → truthMix X C (keepFirst d) (keepLast d) e = truth2 X C e d
    | .cmp c a b, _, hf => by
      rw [truthMix]
      split
      · rename_i hm
        rw [truth2, if_pos hm, truth2, if_pos hm, pairHolds, pairHolds]
        have : ∀ c', multiHolds X C c' a b (docEnv (keepLast d)) = multiHolds X C c' a b (docEnv d) := fun c' => by
          apply multiHolds_congr
          intro p hp
          obtain ⟨k, rfl⟩ := one_of_length (hf.1 hm p hp)
          exact docEnv_last k d
        rw [this, this]
      · rename_i hm
        obtain ⟨k, hk⟩ := one_of_length (hf.2 (by simpa using hm))
        rw [truth2, if_neg hm, truth2, if_neg hm, truth, truth, hk, walk_first]
    | .exist e, _, hf => by
      obtain ⟨k, hk⟩ := one_of_length hf
      simp only [truthMix, truth2, truth, hk, walk_first]
    | .notExist e, _, hf => by
      obtain ⟨k, hk⟩ := one_of_length hf
      simp only [truthMix, truth2, truth, hk, walk_first]
    | .not e, hl, hf => by rw [truthMix, truth2, truthMix_eq X C d e hl hf]
    | .and es, hl, hf => by rw [truthMix, truth2, truthMixAll_eq X C d es hl hf]
    | .or es, hl, hf => by rw [truthMix, truth2, truthMixAny_eq X C d es hl hf]
    | .loop _ _ _ _, hl, _ => nomatch hl
    | .tru, _, _ | .fals, _, _ | .value _, _, _ | .time _, _, _ | .regex _, _, _ | .pcre _, _, _ | .field _, _, _ | .func _ _, _, _ => by
      simp only [truthMix, truth2, truth]
  theorem truthMixAll_eq (X : Fns E) (C : Comp E) (d : D) : ∀ es : Exprs E, LoopFrees es → Flats es →
      truthMixAll X C (keepFirst d) (keepLast d) es = truth2All X C es d
    | .nil, _, _ => by rw [truthMixAll, truth2All]
    | .cons e r, hl, hf => by rw [truthMixAll, truth2All, truthMix_eq X C d e hl.1 hf.1, truthMixAll_eq X C d r hl.2 hf.2]
  theorem truthMixAny_eq (X : Fns E) (C : Comp E) (d : D) : ∀ es : Exprs E, LoopFrees es → Flats es →
      truthMixAny X C (keepFirst d) (keepLast d) es = truth2Any X C es d
    | .nil, _, _ => by rw [truthMixAny, truth2Any]
    | .cons e r, hl, hf => by rw [truthMixAny, truth2Any, truthMix_eq X C d e hl.1 hf.1, truthMixAny_eq X C d r hl.2 hf.2]
end

/-! ### C79 -/

/-- The full statement: a document is read like the one in which only the last member of each name is left. -/
def C79_full : Prop :=
  ∀ (E : Ext) (X : Fns E) (C : Comp E) (e : Expr E) (df : Def E) (data data' : List Nat) (d : D), transform C 0 [e] = .ok df →
    IsText data d → IsText data' (keepLast d) →
    ∀ b, (∃ m', run X df (newMatcher df) data = .ok (some b, m')) → ∃ m', run X df (newMatcher df) data' = .ok (some b, m')

/-- Expressions over members of the document: conditions on one field are about the first member of that name, comparisons of several
fields about the last ones.  (Missing: for the statement `C79_full`, which is false, all conditions would have to be about the last.  Not
covered: fields further below, see `C79_nested`, and loops.) -/
theorem C79_members_partial (X : Fns E) (C : Comp E) (slot0 : Nat) {es : List (Expr E)} {g : Expr E} {gs : List (Expr E)}
    (hg : genExprs es = g :: gs) (hfrag : ∀ x ∈ g :: gs, Frag2 C x) (hsafe : ∀ x ∈ g :: gs, SafeE x) (hlf : ∀ x ∈ g :: gs, LoopFree x)
    (hflat : ∀ x ∈ g :: gs, Flat x) {data : List Nat} {r : D} (hr : Begins data r) (hd : ∀ ty w, r ≠ .lit ty w)
    (hreg : RegularAt (mCondsOf (g :: gs)) r) (ho : ∀ x ∈ g :: gs, OnceE x r) :
    ∃ df, transform C slot0 es = .ok df ∧ ∀ m, Ready df m →
      ∃ m', run X df m data = .ok (some ((g :: gs).any (truthMix X C (keepFirst r) (keepLast r))), m') := by
  obtain ⟨df, h1, h2⟩ := C62_match_partial X C slot0 hg hfrag hsafe hlf hr hd hreg ho
  refine ⟨df, h1, fun m hm => ?_⟩
  obtain ⟨m', h⟩ := h2 m hm
  refine ⟨m', ?_⟩
  rw [h]
  congr 3
  rw [Bool.eq_iff_iff, List.any_eq_true, List.any_eq_true]
  constructor
  · rintro ⟨x, hx, h⟩; exact ⟨x, hx, by rw [truthMix_eq X C r x (hlf x hx) (hflat x hx)]; exact h⟩
  · rintro ⟨x, hx, h⟩; exact ⟨x, hx, by rw [← truthMix_eq X C r x (hlf x hx) (hflat x hx)]; exact h⟩

/-- If no key is repeated nothing is removed. -/
theorem C79_same (ws : List Nat) : ∀ (ms : Ms), (∀ k, (membersAt k ms).length ≤ 1) → keepFirst (.obj ws ms) = .obj ws ms ∧ keepLast (.obj ws ms) = .obj ws ms := by
  have hl : ∀ ms : Ms, (∀ k, (membersAt k ms).length ≤ 1) → lastMs ms = ms := by
    intro ms
    induction ms using lastMs.induct with
    | case1 => intro _; rfl
    | case2 kty key w1 w2 d w3 w4 rest h ih =>
      intro hk
      rw [lastMs, if_pos h, ih]
      intro k
      refine Nat.le_trans ?_ (hk k)
      rw [membersAt]
      split <;> simp
    | case3 kty key w1 w2 d w3 w4 rest h ih =>
      intro hk
      have := hk (memberKey kty key)
      rw [membersAt, if_pos rfl, List.length_cons] at this
      exact absurd (List.length_eq_zero_iff.1 (by omega)) h
  have hf : ∀ (ms : Ms) (seen : List (List Nat)), (∀ k ∈ seen, membersAt k ms = []) → (∀ k, (membersAt k ms).length ≤ 1) → firstMs seen ms = ms := by
    intro ms
    induction ms using lastMs.induct with
    | case1 => intro _ _ _; rfl
    | case2 kty key w1 w2 d w3 w4 rest h ih =>
      intro seen hs hk
      have hn : memberKey kty key ∉ seen := fun hc => by
        have := hs _ hc
        rw [membersAt, if_pos rfl] at this
        cases this
      rw [firstMs, if_neg hn, ih]
      · intro k hk'
        rcases List.mem_cons.1 hk' with rfl | hk'
        · exact h
        · have := hs k hk'
          rw [membersAt] at this
          split at this
          · cases this
          · exact this
      · intro k
        refine Nat.le_trans ?_ (hk k)
        rw [membersAt]
        split <;> simp
    | case3 kty key w1 w2 d w3 w4 rest h ih =>
      intro seen hs hk
      have := hk (memberKey kty key)
      rw [membersAt, if_pos rfl, List.length_cons] at this
      exact absurd (List.length_eq_zero_iff.1 (by omega)) h
  intro ms h
  rw [keepFirst, keepLast, hl ms h, hf ms [] (by intro k hk; cases hk) h]
  exact ⟨rfl, rfl⟩

/-! ### Examples -/

/-- `{"a":1,"a":2,"b":2}` -/
def docRep : D := .obj [] (.cons .string [34, 97, 34] [] [] (.lit .integer [49]) [] [] (.cons .string [34, 97, 34] [] [] (.lit .integer [50]) [] []
  (.cons .string [34, 98, 34] [] [] (.lit .integer [50]) [] [] .nil)))
def textRep : List Nat := [123, 34, 97, 34, 58, 49, 44, 34, 97, 34, 58, 50, 44, 34, 98, 34, 58, 50, 125]
/-- `{"a":2,"b":2}` and `{"a":1,"b":2}` -/
def textLast : List Nat := [123, 34, 97, 34, 58, 50, 44, 34, 98, 34, 58, 50, 125]
def textFirst : List Nat := [123, 34, 97, 34, 58, 49, 44, 34, 98, 34, 58, 50, 125]

theorem text_2 : TokText .integer [50] := .integer (Or.inl (Or.inr ⟨50, [], rfl, by decide, by intro c hc; cases hc⟩))

theorem docRep_exact : IsText textRep docRep :=
  ⟨by simp [docRep, D.WF, Ms.WF, Token.IsWs, text_a, text_b, text_1, text_2, Tok.isLiteral], [], [], by simp [Token.IsWs], by simp [Token.IsWs], rfl⟩
theorem docRep_text : Begins textRep docRep := docRep_exact.begins
theorem docLast_exact : IsText textLast (keepLast docRep) :=
  ⟨by simp [show keepLast docRep = .obj [] (.cons .string [34, 97, 34] [] [] (.lit .integer [50]) [] []
    (.cons .string [34, 98, 34] [] [] (.lit .integer [50]) [] [] .nil)) from rfl, D.WF, Ms.WF, Token.IsWs, text_a, text_b, text_2, Tok.isLiteral],
    [], [], by simp [Token.IsWs], by simp [Token.IsWs], rfl⟩
theorem docLast_text : Begins textLast (keepLast docRep) := docLast_exact.begins

/-- `a = 1 AND a = b` -/
def exprRep : Expr demoExt := .and (.cons (.cmp .eq fieldA one) (.cons (.cmp .eq fieldA fieldB) .nil))

/-- `a = 1 AND a = b` matches `{"a":1,"a":2,"b":2}`, but neither `{"a":2,"b":2}` nor `{"a":1,"b":2}`. -/
theorem C79_mixed : verdictOf exprRep textRep = .ok (some true) ∧ verdictOf exprRep textLast = .ok (some false) ∧
    verdictOf exprRep textFirst = .ok (some false) := by
  decide +kernel

/-- Fields further below are found although the first member of that name does not have them: `a.a = 1 AND a.b = 1` matches
`{"a":{"a":1},"a":{"b":1}}`. -/
theorem C79_nested :
    verdictOf (.and (.cons (.cmp .eq (.field ⟨0, [[97], [97]]⟩) one) (.cons (.cmp .eq (.field ⟨0, [[97], [98]]⟩) one) .nil)))
      [123, 34, 97, 34, 58, 123, 34, 97, 34, 58, 49, 125, 44, 34, 97, 34, 58, 123, 34, 98, 34, 58, 49, 125, 125] = .ok (some true) ∧
    verdictOf (.and (.cons (.cmp .eq (.field ⟨0, [[97], [97]]⟩) one) (.cons (.cmp .eq (.field ⟨0, [[97], [98]]⟩) one) .nil)))
      [123, 34, 97, 34, 58, 123, 34, 97, 34, 58, 49, 125, 125] = .ok (some false) ∧
    verdictOf (.and (.cons (.cmp .eq (.field ⟨0, [[97], [97]]⟩) one) (.cons (.cmp .eq (.field ⟨0, [[97], [98]]⟩) one) .nil)))
      [123, 34, 97, 34, 58, 123, 34, 98, 34, 58, 49, 125, 125] = .ok (some false) := by
  decide +kernel

theorem exprRep_ok : Frag2 demoComp exprRep ∧ SafeE exprRep ∧ LoopFree exprRep ∧ Flat exprRep ∧ ∀ ms, OnceE exprRep (.obj [] ms) := by
  have h1 : several fieldA fieldB = true := by decide
  have h2 : several fieldA one = false := by decide
  refine ⟨?_, ?_, ?_, ?_, ?_⟩
  · simp only [exprRep, Frag2, Frag2s, h1, h2, if_pos, Bool.false_eq_true, if_false]
    exact ⟨by simp [Frag, Param, condPath, fieldPath, fieldA, one], rfl, rfl, loose_ab⟩
  · simp [exprRep, SafeE, SafeEs, SafeParam, fieldA, fieldB, one]
  · simp [exprRep, LoopFree, LoopFrees]
  · refine ⟨⟨fun h => (by rw [h2] at h; cases h), fun _ => rfl⟩, ⟨fun _ p hp => ?_, fun h => (by rw [h1] at h; cases h)⟩, trivial⟩
    revert p
    decide
  · exact fun ms => ⟨fun h => (by rw [h2] at h; cases h), fun _ => Or.inl ⟨.obj [] ms, by rw [show base fieldA fieldB = [] from rfl, walk], fun h => h⟩, trivial⟩

/-- `C79_members_partial` on `{"a":1,"a":2,"b":2}`. -/
example : ∃ df, transform demoComp 0 [exprRep] = .ok df ∧ ∀ m, Ready df m → ∃ m', run demoFns df m textRep = .ok (some true, m') := by
  have mem : ∀ x ∈ [exprRep], x = exprRep := fun x hx => List.mem_singleton.1 hx
  obtain ⟨df, h1, h2⟩ := C79_members_partial demoFns demoComp 0 (es := [exprRep]) (g := exprRep) (gs := []) rfl
    (fun x hx => mem x hx ▸ exprRep_ok.1) (fun x hx => mem x hx ▸ exprRep_ok.2.1) (fun x hx => mem x hx ▸ exprRep_ok.2.2.1)
    (fun x hx => mem x hx ▸ exprRep_ok.2.2.2.1) docRep_text (by intro ty w h; cases h) (regular_of_check (by decide))
    (fun x hx => mem x hx ▸ exprRep_ok.2.2.2.2 _)
  have : [exprRep].any (truthMix demoFns demoComp (keepFirst docRep) (keepLast docRep)) = true := by decide +kernel
  exact ⟨df, h1, fun m hm => by obtain ⟨m', h⟩ := h2 m hm; exact ⟨m', by rw [h, this]⟩⟩

/-- Keys that occur once. -/
example : keepLast docAB1 = docAB1 := (C79_same _ _ (by
  intro k
  simp only [membersAt]
  split
  · rename_i h
    subst h
    decide
  · split <;> simp)).2

/-- C79 as stated is false. -/
theorem C79_negation : ¬ C79_full := by
  intro h
  obtain ⟨h1, h2, _⟩ := C79_mixed
  rw [verdictOf] at h1 h2
  obtain ⟨df, hd, h1⟩ := Res.bind_eq_ok.1 h1
  rw [hd, Res.bind_ok] at h2
  obtain ⟨⟨o, m1⟩, hr, h1⟩ := Res.bind_eq_ok.1 h1
  cases h1
  obtain ⟨⟨o, m2⟩, hr2, h2⟩ := Res.bind_eq_ok.1 h2
  cases h2
  obtain ⟨m', hm⟩ := h demoExt demoFns demoComp exprRep df textRep textLast docRep hd docRep_exact docLast_exact true ⟨m1, hr⟩
  rw [hm] at hr2
  cases hr2

end Verif.Transform
