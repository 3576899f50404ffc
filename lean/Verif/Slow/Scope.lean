import Verif.Slow.Theorems

/-!
# The variables of the reference matcher (C63, C64)
-/

namespace Verif.Slow
open Verif.FastVal Verif.Expr
open Verif.Match (Mode)

variable {E : Ext}

/-! ### Specification: expressions under an environment -/

/-- The results up to the first that decides, is an error or a panic; `stop` decides. -/
def firstRes (stop : Bool) : List (Res (Option Bool)) → Res (Option Bool)
  | [] => .ok (some (!stop))
  | .ok (some b) :: rest => if b = stop then .ok (some stop) else firstRes stop rest
  | x :: _ => x

/-- All elements of an array, in their order. -/
def cells : Js E → List (J E)
  | .nil => []
  | .cons v r => [v] ++ cells r

/-- The values of all members of an object, in their order. -/
def fields : Jms E → List (J E)
  | .nil => []
  | .cons _ v r => [v] ++ fields r

/-- The values a loop goes over. -/
def range : J E → Option (List (J E))
  | .obj ms => some (fields ms)
  | .arr es => some (cells es)
  | _ => none

mutual
  /-- The verdict (`none`: an error) on an expression whose variables have the values `s`: a loop's variable has a value in the loop's
  body only. -/
  def verdict : Expr E → Vars E → Res (Option Bool)
    | .or es, s => firstRes true (verdicts es s)
    | .and es, s => match es with
      | .nil => .ok (some false)
      | .cons e r => firstRes false (verdict e s :: verdicts r s)
    | .loop .any v i b, s => resolveParam s i >>= fun x => match x with
      | none => .ok none
      | some (.json j) => match range j with
        | some xs => firstRes true (xs.map fun x => verdict b (s.set v x))
        | none => .panic
      | some _ => .panic
    | .cmp c l r, s => if c = .like then .panic else compareExprs s l r >>= fun x => match x with
      | none => .ok none
      | some x => test c x >>= fun b => .ok (some b)
    | _, _ => .panic
  def verdicts : Exprs E → Vars E → List (Res (Option Bool))
    | .nil, _ => []
    | .cons e r, s => verdict e s :: verdicts r s
end

/-- The same for a whole expression, which may be a constant. -/
def verdictRoot : Expr E → Vars E → Res (Option Bool)
  | .tru, _ => .ok (some true)
  | .fals, _ => .ok (some false)
  | e, s => verdict e s

/-- The verdicts on all expressions, unless one is an error. -/
def allVerdicts : List (Expr E) → Vars E → Res (Option (List Bool))
  | [], _ => .ok (some [])
  | e :: es, s => verdictRoot e s >>= fun o => match o with
    | none => .ok none
    | some b => allVerdicts es s >>= fun r => .ok (r.map (b :: ·))

/-- The document is the only value. -/
def root (j : J E) : Vars E := fun u => if u = 0 then some j else none

theorem elems_cells : ∀ es : Js E, elems es = cells es
  | .nil => rfl
  | .cons v r => congrArg (v :: ·) (elems_cells r)

theorem values_fields : ∀ ms : Jms E, values ms = fields ms
  | .nil => rfl
  | .cons _ v r => congrArg (v :: ·) (values_fields r)

/-! ### Variables are only ever removed -/

/-- Every variable has the value it had, or none. -/
def Within (s' s : Vars E) : Prop := ∀ u, s' u = none ∨ s' u = s u

theorem Within.refl (s : Vars E) : Within s s := fun _ => .inr rfl
theorem Within.trans {a b c : Vars E} (h : Within a b) (k : Within b c) : Within a c := by
  intro u
  rcases h u with h | h
  · exact .inl h
  · rw [h]; exact k u

theorem within_erase {s s' : Vars E} {v : Int} {x : J E} (h : Within s' (s.set v x)) : Within (s'.erase v) s := by
  intro u
  unfold Vars.erase
  split
  · exact .inl rfl
  · rename_i hu
    rcases h u with h | h
    · exact .inl h
    · rw [h, Vars.set, if_neg hu]; exact .inr rfl

theorem anyIn_within {body : Vars E → Out E} {v : Int} (hb : ∀ s r, body s = .ok r → Within r.2 s) : ∀ (xs : List (J E)) (s : Vars E) r,
    anyIn body v xs s = .ok r → Within r.2 s := by
  intro xs
  induction xs with
  | nil => intro s r h; injection h with h; subst h; exact Within.refl _
  | cons x xs ih =>
    intro s r h
    rw [anyIn] at h
    obtain ⟨o, ho, h⟩ := Res.bind_eq_ok.1 h
    have hw := within_erase (hb _ _ ho)
    split at h
    · injection h with h; subst h; exact hw
    · injection h with h; subst h; exact hw
    · exact (ih _ _ h).trans hw

mutual
  theorem matchOne_within : ∀ (e : Expr E) (s : Vars E) r, matchOne e s = .ok r → Within r.2 s
    | .or es, s, r, h => by rw [matchOne] at h; exact matchOr_within es s r h
    | .and .nil, s, r, h => by rw [matchOne] at h; injection h with h; subst h; exact Within.refl _
    | .and (.cons e es), s, r, h => by rw [matchOne] at h; exact matchAnd_within (.cons e es) s r h
    | .loop .any v i b, s, r, h => by
      rw [matchOne, matchAnyIn] at h
      obtain ⟨x, _, h⟩ := Res.bind_eq_ok.1 h
      split at h
      · injection h with h; subst h; exact Within.refl _
      · exact anyIn_within (matchOne_within b) _ _ _ h
      · exact anyIn_within (matchOne_within b) _ _ _ h
      · cases h
    | .cmp c l r', s, r, h => by
      rw [matchOne, matchCmp] at h
      split at h
      · cases h
      · obtain ⟨x, _, h⟩ := Res.bind_eq_ok.1 h
        split at h
        · injection h with h; subst h; exact Within.refl _
        · obtain ⟨b, _, h⟩ := Res.bind_eq_ok.1 h
          injection h with h; subst h; exact Within.refl _
    | .tru, s, r, h => by simp [matchOne] at h
    | .fals, s, r, h => by simp [matchOne] at h
    | .value _, s, r, h => by simp [matchOne] at h
    | .time _, s, r, h => by simp [matchOne] at h
    | .regex _, s, r, h => by simp [matchOne] at h
    | .pcre _, s, r, h => by simp [matchOne] at h
    | .not _, s, r, h => by simp [matchOne] at h
    | .field _, s, r, h => by simp [matchOne] at h
    | .func _ _, s, r, h => by simp [matchOne] at h
    | .loop .every _ _ _, s, r, h => by simp [matchOne] at h
    | .loop .anyEvery _ _ _, s, r, h => by simp [matchOne] at h
    | .exist _, s, r, h => by simp [matchOne] at h
    | .notExist _, s, r, h => by simp [matchOne] at h
  theorem matchOr_within : ∀ (es : Exprs E) (s : Vars E) r, matchOr es s = .ok r → Within r.2 s
    | .nil, s, r, h => by rw [matchOr] at h; injection h with h; subst h; exact Within.refl _
    | .cons e es, s, r, h => by
      rw [matchOr] at h
      obtain ⟨o, ho, h⟩ := Res.bind_eq_ok.1 h
      have hw := matchOne_within e _ _ ho
      split at h
      · injection h with h; subst h; exact hw
      · injection h with h; subst h; exact hw
      · exact (matchOr_within es _ _ h).trans hw
  theorem matchAnd_within : ∀ (es : Exprs E) (s : Vars E) r, matchAnd es s = .ok r → Within r.2 s
    | .nil, s, r, h => by rw [matchAnd] at h; injection h with h; subst h; exact Within.refl _
    | .cons e es, s, r, h => by
      rw [matchAnd] at h
      obtain ⟨o, ho, h⟩ := Res.bind_eq_ok.1 h
      have hw := matchOne_within e _ _ ho
      split at h
      · injection h with h; subst h; exact hw
      · injection h with h; subst h; exact hw
      · exact (matchAnd_within es _ _ h).trans hw
end

theorem matchRoot_within {e : Expr E} {s : Vars E} {r : Option Bool × Vars E} (h : matchRoot e s = .ok r) : Within r.2 s := by
  unfold matchRoot at h
  split at h
  · injection h with h; subst h; exact Within.refl _
  · injection h with h; subst h; exact Within.refl _
  · exact matchOne_within _ _ _ h

/-! ### C63: documents do not influence each other -/

/-- A matcher for `es` that may have matched documents. -/
structure Clean (es : List (Expr E)) (m : M E) : Prop where
  exprs : m.exprs = es
  length : m.matches_.length = es.length
  vars : ∀ u, u ≠ 0 → m.vars u = none

theorem clean_new (es : List (Expr E)) : Clean es (newSlow es) := ⟨rfl, by simp [newSlow], fun _ _ => rfl⟩

theorem clean_set {es : List (Expr E)} {m : M E} (h : Clean es m) (j : J E) : m.vars.set 0 j = root j := by
  funext u
  unfold Vars.set root
  split
  · rfl
  · exact h.vars u (by assumption)

/-- The loop of `Match` does not read the results it overwrites. -/
theorem matchFrom_same : ∀ (es : List (Expr E)) (i : Nat) (b : Bool) (m m' : M E), m.vars = m'.vars → m.matches_.length = m'.matches_.length →
    (∀ k, k < i → m.matches_[k]? = m'.matches_[k]?) → m.matches_.length ≤ i + es.length → m.exprs = m'.exprs →
    (∃ r r' : M E, matchFrom i es b m = .ok (none, r) ∧ matchFrom i es b m' = .ok (none, r')) ∨ matchFrom i es b m = matchFrom i es b m' := by
  intro es
  induction es with
  | nil =>
    intro i b m m' hv hm hi hlen hx
    right
    have hmm : m.matches_ = m'.matches_ := by
      apply List.ext_getElem?
      intro k
      rcases Nat.lt_or_ge k i with h | h
      · exact hi k h
      · simp only [List.length_nil, Nat.add_zero] at hlen
        rw [List.getElem?_eq_none (by omega), List.getElem?_eq_none (by omega)]
    have : m = m' := by
      cases m; cases m'; simp only at hv hmm hx; subst hv; subst hmm; subst hx; rfl
    rw [this]
  | cons e es ih =>
    intro i b m m' hv hm hi hlen hx
    rw [matchFrom, matchFrom, hv, hm]
    cases ho : matchRoot e m'.vars with
    | ok o =>
      simp only [Res.bind_ok]
      cases h1 : o.1 with
      | none => exact .inl ⟨_, _, rfl, rfl⟩
      | some res =>
        dsimp only
        split
        · rename_i hlt
          refine ih _ _ _ _ rfl (by simp [hm]) ?_ (by simp only [List.length_set, List.length_cons] at hlen ⊢; omega) hx
          intro k hk
          rcases Nat.lt_or_ge k i with h | h
          · rw [List.getElem?_set_ne (by omega), List.getElem?_set_ne (by omega)]; exact hi k h
          · have : k = i := by omega
            subst this
            rw [List.getElem?_set_self (by omega), List.getElem?_set_self hlt]
        · exact .inr rfl
    | panic => exact .inr rfl
    | stuck => exact .inr rfl

theorem matchFrom_clean {es0 : List (Expr E)} : ∀ (es : List (Expr E)) (i : Nat) (b : Bool) (m : M E) r, Clean es0 m → matchFrom i es b m = .ok r → Clean es0 r.2 := by
  intro es
  induction es with
  | nil => intro i b m r hc h; injection h with h; subst h; exact hc
  | cons e es ih =>
    intro i b m r hc h
    rw [matchFrom] at h
    obtain ⟨o, ho, h⟩ := Res.bind_eq_ok.1 h
    have hw := matchRoot_within ho
    have hv : ∀ u, u ≠ 0 → o.2 u = none := by
      intro u hu
      rcases hw u with h | h
      · exact h
      · rw [h]; exact hc.vars u hu
    split at h
    · injection h with h; subst h; exact ⟨hc.exprs, hc.length, hv⟩
    · split at h
      · rename_i res _ _
        exact ih _ _ { m with vars := o.2, matches_ := m.matches_.set i res } _ ⟨hc.exprs, by simpa using hc.length, hv⟩ h
      · cases h

theorem slowMatch_clean {es : List (Expr E)} {unmarshal : List Nat → Option (J E)} {m : M E} {data : List Nat} {r : Option Bool × M E}
    (hc : Clean es m) (h : slowMatch unmarshal m data = .ok r) : Clean es r.2 := by
  unfold slowMatch at h
  split at h
  · injection h with h; subst h; exact hc
  · rename_i j _
    obtain ⟨r', hr, h⟩ := Res.bind_eq_ok.1 h
    have hc' : Clean es { m with vars := m.vars.set 0 j } := ⟨hc.exprs, hc.length, fun u hu => by rw [clean_set hc]; simp [root, hu]⟩
    have := matchFrom_clean _ _ _ _ _ hc' hr
    split at h
    · injection h with h; subst h; exact this
    · injection h with h; subst h
      exact ⟨this.exprs, this.length, fun u hu => by simp [Vars.erase, hu, this.vars u hu]⟩

/-- Matchers as they are used: made for the expressions, then given any documents and resets. -/
inductive Reach (unmarshal : List Nat → Option (J E)) (es : List (Expr E)) : M E → Prop where
  | new : Reach unmarshal es (newSlow es)
  | reset (m : M E) : Reach unmarshal es m → Reach unmarshal es (reset m)
  | doc (m : M E) (data : List Nat) (o : Option Bool) (m' : M E) : Reach unmarshal es m → slowMatch unmarshal m data = .ok (o, m') → Reach unmarshal es m'

theorem reach_clean {unmarshal : List Nat → Option (J E)} {es : List (Expr E)} {m : M E} (h : Reach unmarshal es m) : Clean es m := by
  induction h with
  | new => exact clean_new es
  | reset m _ ih => exact ⟨ih.exprs, by simpa [reset] using ih.length, fun _ _ => rfl⟩
  | doc m data o m' _ h ih => exact slowMatch_clean ih h

/-- C63.  `Reset` makes a used matcher a new one. -/
theorem C63_reset {unmarshal : List Nat → Option (J E)} {es : List (Expr E)} {m : M E} (h : Reach unmarshal es m) : reset m = newSlow es := by
  have hc := reach_clean h
  unfold reset newSlow
  have : m.matches_.map (fun _ => false) = es.map (fun _ => false) := by
    rw [List.map_const', List.map_const', hc.length]
  rw [this]
  cases m
  simp only at hc ⊢
  have := hc.exprs
  simp only at this
  rw [this]

/-- C63.  Even without `Reset`, and after errors, a used matcher gives the verdict, error or panic a new one gives; and unless that is an error
the new state is the same, so the results for the single expressions are too. -/
theorem C63_independent {unmarshal : List Nat → Option (J E)} {es : List (Expr E)} {m : M E} (h : Reach unmarshal es m) (data : List Nat) :
    (∃ r r', slowMatch unmarshal m data = .ok (none, r) ∧ slowMatch unmarshal (newSlow es) data = .ok (none, r')) ∨
    slowMatch unmarshal m data = slowMatch unmarshal (newSlow es) data := by
  have hc := reach_clean h
  unfold slowMatch
  cases hu : unmarshal data with
  | none => exact .inl ⟨_, _, rfl, rfl⟩
  | some j =>
    dsimp only
    rw [clean_set hc, clean_set (clean_new es), hc.exprs]
    rcases matchFrom_same es 0 false { m with vars := root j } { newSlow es with vars := root j } rfl (by simp [newSlow, hc.length]) (fun k hk => by omega)
      (by simp [hc.length]) hc.exprs with ⟨r, r', h1, h2⟩ | h
    · left
      rw [hc.exprs] at h1
      exact ⟨r, r', by rw [h1]; rfl, by show (matchFrom 0 es _ _ >>= _) = _; rw [h2]; rfl⟩
    · right
      rw [hc.exprs] at h
      show (matchFrom 0 es _ _ >>= _) = (matchFrom 0 es _ _ >>= _)
      rw [h]

/-- C63.  When `Match` succeeds no variable is left with a value. -/
theorem C63_clean {unmarshal : List Nat → Option (J E)} {es : List (Expr E)} {m m' : M E} (h : Reach unmarshal es m) {data : List Nat} {b : Bool}
    (hm : slowMatch unmarshal m data = .ok (some b, m')) : ∀ u, m'.vars u = none := by
  have hc := slowMatch_clean (reach_clean h) hm
  intro u
  by_cases hu : u = 0
  · subst hu
    unfold slowMatch at hm
    split at hm
    · injection hm with hm; injection hm with hm _; cases hm
    · obtain ⟨r, _, hm⟩ := Res.bind_eq_ok.1 hm
      split at hm
      · rename_i h1
        injection hm with hm; rw [hm] at h1; cases h1
      · injection hm with hm; injection hm with _ hm; subst hm; simp [Vars.erase]
  · exact hc.vars u hu

/-! ### C64: what the reference matcher computes -/

theorem set_erase {s : Vars E} {v : Int} {x : J E} (h : s v = none) : (s.set v x).erase v = s := by
  funext u
  unfold Vars.erase Vars.set
  by_cases hu : u = v
  · subst hu; simp [h]
  · simp [hu]

/-- The verdict, with the variables as they were. -/
def keeping (x : Res (Option Bool)) (s : Vars E) : Out E := x >>= fun o => .ok (o, s)

theorem anyIn_verdict {body : Vars E → Out E} {p : Vars E → Res (Option Bool)} {v : Int} {s : Vars E} (hs : s v = none)
    (hb : ∀ x, body (s.set v x) = keeping (p (s.set v x)) (s.set v x)) : ∀ xs : List (J E),
    anyIn body v xs s = keeping (firstRes true (xs.map fun x => p (s.set v x))) s := by
  intro xs
  induction xs with
  | nil => rfl
  | cons x xs ih =>
    rw [anyIn, hb x, List.map_cons]
    cases hp : p (s.set v x) with
    | ok o =>
      simp only [keeping, Res.bind_ok, set_erase hs]
      cases o with
      | none => rfl
      | some b => cases b with
        | true => rfl
        | false => simp only [firstRes, ih]; rfl
    | panic => rfl
    | stuck => rfl

theorem bound_set {s : Vars E} {v : Int} {x : J E} {bs : List Int} (hv : v ∉ bs) (h : ∀ u ∈ bs, s u = none) : ∀ u ∈ bs, (s.set v x) u = none := by
  intro u hu
  unfold Vars.set
  rw [if_neg (by rintro rfl; exact hv hu)]
  exact h u hu

mutual
  theorem matchOne_verdict : ∀ (e : Expr E) (s : Vars E), Scoped e → (∀ u ∈ binds e, s u = none) → matchOne e s = keeping (verdict e s) s
    | .or es, s, hs, hb => by rw [matchOne, verdict]; exact matchOr_verdict es s hs hb
    | .and .nil, s, _, _ => by rw [matchOne, verdict]; rfl
    | .and (.cons e es), s, hs, hb => by rw [matchOne, verdict]; exact matchAnd_verdict (.cons e es) s hs hb
    | .loop .any v i b, s, hs, hb => by
      rw [matchOne, matchAnyIn, verdict]
      have hv : s v = none := hb v (by simp [binds])
      have key : ∀ xs, anyIn (matchOne b) v xs s = keeping (firstRes true (xs.map fun x => verdict b (s.set v x))) s :=
        anyIn_verdict hv fun x => matchOne_verdict b _ hs.2 (bound_set hs.1 fun u hu => hb u (by simp [binds, hu]))
      cases hr : resolveParam s i with
      | ok x =>
        simp only [keeping, Res.bind_ok]
        cases x with
        | none => rfl
        | some g => cases g with
          | json j => cases j with
            | obj ms => exact (congrArg (anyIn _ v · s) (values_fields ms)).trans (key _)
            | arr es => exact (congrArg (anyIn _ v · s) (elems_cells es)).trans (key _)
            | null => rfl
            | bool _ => rfl
            | num _ => rfl
            | str _ => rfl
          | _ => rfl
      | panic => rfl
      | stuck => rfl
    | .cmp c l r, s, _, _ => by
      rw [matchOne, matchCmp, verdict]
      split
      · rfl
      · cases hc : compareExprs s l r with
        | ok x =>
          simp only [keeping, Res.bind_ok]
          cases x with
          | none => rfl
          | some n =>
            dsimp only
            cases test c n <;> rfl
        | panic => rfl
        | stuck => rfl
    | .tru, s, _, _ => by simp [matchOne, verdict, keeping]
    | .fals, s, _, _ => by simp [matchOne, verdict, keeping]
    | .value _, s, _, _ => by simp [matchOne, verdict, keeping]
    | .time _, s, _, _ => by simp [matchOne, verdict, keeping]
    | .regex _, s, _, _ => by simp [matchOne, verdict, keeping]
    | .pcre _, s, _, _ => by simp [matchOne, verdict, keeping]
    | .not _, s, _, _ => by simp [matchOne, verdict, keeping]
    | .field _, s, _, _ => by simp [matchOne, verdict, keeping]
    | .func _ _, s, _, _ => by simp [matchOne, verdict, keeping]
    | .loop .every _ _ _, s, _, _ => by simp [matchOne, verdict, keeping]
    | .loop .anyEvery _ _ _, s, _, _ => by simp [matchOne, verdict, keeping]
    | .exist _, s, _, _ => by simp [matchOne, verdict, keeping]
    | .notExist _, s, _, _ => by simp [matchOne, verdict, keeping]
  theorem matchOr_verdict : ∀ (es : Exprs E) (s : Vars E), ScopedAll es → (∀ u ∈ bindsAll es, s u = none) → matchOr es s = keeping (firstRes true (verdicts es s)) s
    | .nil, s, _, _ => by rw [matchOr, verdicts]; rfl
    | .cons e es, s, hs, hb => by
      rw [matchOr, verdicts, matchOne_verdict e s hs.1 fun u hu => hb u (by simp [bindsAll, hu])]
      have ih := matchOr_verdict es s hs.2 fun u hu => hb u (by simp [bindsAll, hu])
      cases hp : verdict e s with
      | ok o =>
        simp only [keeping, Res.bind_ok]
        cases o with
        | none => rfl
        | some b => cases b with
          | true => rfl
          | false => simp only [firstRes, ih]; rfl
      | panic => rfl
      | stuck => rfl
  theorem matchAnd_verdict : ∀ (es : Exprs E) (s : Vars E), ScopedAll es → (∀ u ∈ bindsAll es, s u = none) → matchAnd es s = keeping (firstRes false (verdicts es s)) s
    | .nil, s, _, _ => by rw [matchAnd, verdicts]; rfl
    | .cons e es, s, hs, hb => by
      rw [matchAnd, verdicts, matchOne_verdict e s hs.1 fun u hu => hb u (by simp [bindsAll, hu])]
      have ih := matchAnd_verdict es s hs.2 fun u hu => hb u (by simp [bindsAll, hu])
      cases hp : verdict e s with
      | ok o =>
        simp only [keeping, Res.bind_ok]
        cases o with
        | none => rfl
        | some b => cases b with
          | false => rfl
          | true => simp only [firstRes, ih]; rfl
      | panic => rfl
      | stuck => rfl
end

theorem matchRoot_verdict (e : Expr E) (s : Vars E) (hs : Scoped e) (hb : ∀ u ∈ binds e, s u = none) : matchRoot e s = keeping (verdictRoot e s) s := by
  unfold matchRoot verdictRoot
  split
  · rfl
  · rfl
  · rename_i h1 h2
    split
    · exact absurd rfl h1
    · exact absurd rfl h2
    · exact matchOne_verdict _ s hs hb

theorem matchFrom_verdicts {s : Vars E} : ∀ (es : List (Expr E)) (pre : List Bool) (b : Bool) (m : M E),
    (∀ e ∈ es, Scoped e ∧ ∀ u ∈ binds e, s u = none) → m.vars = s → (b = (decide (pre ≠ []) && pre.all id)) → (∃ rest : List Bool, m.matches_ = pre ++ rest ∧ rest.length = es.length) →
    match allVerdicts es s with
    | .ok (some bs) => matchFrom pre.length es b m = .ok (some (decide (pre ++ bs ≠ []) && (pre ++ bs).all id), { m with matches_ := pre ++ bs })
    | .ok none => ∃ l, matchFrom pre.length es b m = .ok (none, { m with matches_ := l })
    | .panic => matchFrom pre.length es b m = .panic
    | .stuck => matchFrom pre.length es b m = .stuck := by
  intro es
  induction es with
  | nil =>
    intro pre b m _ _ hb ⟨rest, hm, hl⟩
    have : rest = [] := List.length_eq_zero_iff.1 hl
    subst this
    rw [allVerdicts]
    dsimp only
    rw [matchFrom, hb, List.append_nil]
    rw [List.append_nil] at hm
    rw [← hm]
  | cons e es ih =>
    intro pre b m hes hv hb ⟨rest, hm, hl⟩
    obtain ⟨x, rest, rfl⟩ : ∃ x r, rest = x :: r := by
      cases rest with
      | nil => simp at hl
      | cons x r => exact ⟨x, r, rfl⟩
    have he := hes e (by simp)
    rw [allVerdicts, matchFrom, hv, matchRoot_verdict e s he.1 he.2]
    cases hp : verdictRoot e s with
    | panic => rfl
    | stuck => rfl
    | ok o =>
      simp only [keeping, Res.bind_ok]
      cases o with
      | none => exact ⟨m.matches_, by rw [← hv]⟩
      | some c =>
        dsimp only
        have hset : m.matches_.set pre.length c = (pre ++ [c]) ++ rest := by rw [hm]; simp
        rw [if_pos (by rw [hm]; simp), hset]
        have := ih (pre ++ [c]) (if pre.length = 0 ∧ c = true then true else if c = false then false else b) { m with vars := s, matches_ := (pre ++ [c]) ++ rest }
          (fun e he => hes e (by simp [he])) rfl ?_ ⟨rest, rfl, by simpa using hl⟩
        · rw [List.length_append, List.length_singleton] at this
          cases hall : allVerdicts es s with
          | panic => rw [hall] at this; exact this
          | stuck => rw [hall] at this; exact this
          | ok r =>
            rw [hall] at this
            cases r with
            | none =>
              obtain ⟨l, hl⟩ := this
              exact ⟨l, by rw [hl, ← hv]⟩
            | some bs =>
              simp only [List.append_assoc, List.singleton_append, Option.map_some, Res.bind_ok] at this ⊢
              rw [this, ← hv]
        · rw [hb]
          cases pre <;> cases c <;> simp

/-- What C64 says of expressions `es`: without errors, the verdict is that all expressions hold (and there is one), each under the document as the
value of variable 0 and its loops' variables. -/
def C64_scopes (es : List (Expr E)) : Prop := ∀ (unmarshal : List Nat → Option (J E)) (m : M E), Reach unmarshal es m →
  ∀ (data : List Nat) (j : J E), unmarshal data = some j →
  match allVerdicts es (root j) with
  | .ok (some bs) => ∃ m', slowMatch unmarshal m data = .ok (some (decide (bs ≠ []) && bs.all id), m') ∧ ∀ i, expressionMatched m' i = Res.idx bs i
  | .ok none => ∃ m', slowMatch unmarshal m data = .ok (none, m')
  | .panic => slowMatch unmarshal m data = .panic
  | .stuck => slowMatch unmarshal m data = .stuck

/-- C64, for expressions in which no loop binds the variable of a loop around it or of the document. -/
theorem C64_partial (es : List (Expr E)) (hes : ∀ e ∈ es, Scoped e ∧ (0 : Int) ∉ binds e) : C64_scopes es := by
  intro unmarshal m hr data j hj
  have hc := reach_clean hr
  have hset := clean_set hc j
  have h := matchFrom_verdicts (s := root j) es [] false { m with vars := root j }
    (fun e he => ⟨(hes e he).1, fun u hu => by unfold root; rw [if_neg (by rintro rfl; exact (hes e he).2 hu)]⟩) rfl rfl ⟨m.matches_, rfl, hc.length⟩
  have hsm : slowMatch unmarshal m data = (matchFrom 0 es false { m with vars := root j } >>= fun r =>
      match r.1 with
      | none => .ok r
      | some b => .ok (some b, { r.2 with vars := r.2.vars.erase 0 })) := by
    unfold slowMatch
    rw [hj]
    dsimp only
    rw [hset, hc.exprs]
    rfl
  rw [hsm]
  cases hall : allVerdicts es (root j) with
  | panic => rw [hall] at h; dsimp only at h ⊢; rw [List.length_nil] at h; rw [h]; rfl
  | stuck => rw [hall] at h; dsimp only at h ⊢; rw [List.length_nil] at h; rw [h]; rfl
  | ok r =>
    rw [hall] at h
    cases r with
    | none =>
      obtain ⟨l, hl⟩ := h
      rw [List.length_nil] at hl
      exact ⟨_, by rw [hl]; rfl⟩
    | some bs =>
      dsimp only at h ⊢
      rw [List.length_nil] at h
      exact ⟨_, by rw [h]; rfl, fun i => rfl⟩

/-! ### Examples and the counterexample -/

/-- `{"a":[{"b":[1],"c":1}]}` decoded. -/
def jNest : J demoExt :=
  .obj (.cons [97] (.arr (.cons (.obj (.cons [98] (.arr (.cons (.num (1 : Int)) .nil)) (.cons [99] (.num (1 : Int)) .nil))) .nil)) .nil)

/-- `ANY x IN a SATISFIES (ANY v IN x.b SATISFIES v = 1) AND x.c = 1`, where `v` may be `x`. -/
def nest (v : Int) : Expr demoExt :=
  .loop .any 1 (.field ⟨0, [[97]]⟩) (.and (.cons (.loop .any v (.field ⟨1, [[98]]⟩) (.cmp .eq (.field ⟨v, []⟩) oneF))
    (.cons (.cmp .eq (.field ⟨1, [[99]]⟩) oneF) .nil)))

/-- C64 is false when a loop binds the variable of a loop around it: `delete(m.vars, expr.VarId)` removes the outer value too, so what follows in
the outer body finds none. -/
theorem C64_negation : ¬ C64_scopes [nest 1] := by
  intro h
  have := h (fun _ => some jNest) (newSlow [nest 1]) .new [] jNest rfl
  have h1 : allVerdicts [nest 1] (root jNest) = .ok (some [true]) := by rfl
  rw [h1] at this
  obtain ⟨m', h2, _⟩ := this
  have h3 : (slowMatch (fun _ => some jNest) (newSlow [nest 1]) [] >>= fun r => Res.ok r.1) = .ok none := by rfl
  rw [h2] at h3
  cases h3

/-- With two variables the hypotheses of `C64_partial` hold, and the verdict is as it should be. -/
example : (∀ e ∈ [nest 2], Scoped e ∧ (0 : Int) ∉ binds e) ∧ allVerdicts [nest 2] (root jNest) = .ok (some [true]) := by
  refine ⟨?_, by rfl⟩
  intro e he
  rw [List.mem_singleton] at he
  subst he
  simp [nest, Scoped, ScopedAll, binds, bindsAll]

/-- A matcher that has matched a document, and met an error. -/
example : ∃ m : M demoExt, Reach (fun _ => some jNest) [nest 1] m ∧ m.vars 0 = some jNest := by
  have h : ∃ m', slowMatch (fun _ => some jNest) (newSlow [nest 1]) [] = .ok (none, m') ∧ m'.vars 0 = some jNest := ⟨_, rfl, rfl⟩
  obtain ⟨m', h1, h2⟩ := h
  exact ⟨m', .doc _ [] none _ .new h1, h2⟩

/-- Without an AND's operands the reference matcher says no: `C64_partial` is about that too. -/
example : allVerdicts [Expr.and (E := demoExt) .nil] (root jNest) = .ok (some [false]) := by rfl

end Verif.Slow
