import Verif.Slow.Theorems
import Verif.Transform.MultiWhole
import Verif.Match.Order

/-!
# C35 for comparisons of two fields
-/

namespace Verif.Slow
open Verif.FastVal Verif.Expr Verif.Transform
open Verif.Match (Mode run newMatcher Ready valOf parseLit Begins demoDoc demoFns indexKey indexKey_inj)
open Verif.Token (D Es Ms Tok TokText)
open Verif.Lit (Ch litText litTok chBytes intVal)

variable {E : Ext}

/-! ### Specification -/

/-- Two values of the document can be compared faithfully: order comparisons of strings are about plain text, numbers are `Apart`, an
integer is converted to the number it denotes, and two integers are in the same order as the numbers they are converted to. -/
structure Faithful2 (c : Cmp) (x y : D) (j j' : J E) : Prop where
  str : ∀ s t, j = .str s → j' = .str t → c = .eq ∨ c = .ne ∨ (PlainText s ∧ PlainText t)
  num : ∀ f f', j = .num f → j' = .num f' → Apart f f'
  left : ∀ w, x = .lit .integer w → E.ofInt (BitVec.ofInt 64 (intVal w)) = (E.parseFloat w).1
  right : ∀ w, y = .lit .integer w → E.ofInt (BitVec.ofInt 64 (intVal w)) = (E.parseFloat w).1
  ints : ∀ w w', x = .lit .integer w → y = .lit .integer w' →
    (E.lt (E.parseFloat w).1 (E.parseFloat w').1 = true ↔ (BitVec.ofInt 64 (intVal w)).toInt < (BitVec.ofInt 64 (intVal w')).toInt) ∧
    (E.lt (E.parseFloat w').1 (E.parseFloat w).1 = true ↔ (BitVec.ofInt 64 (intVal w')).toInt < (BitVec.ofInt 64 (intVal w)).toInt)

mutual
  /-- As `Supported`, without loops and with comparisons of two fields. -/
  def Supported2 : Expr E → Prop
    | .cmp c (.field f) (.field g) => c ≠ .like ∧ f.root = 0 ∧ g.root = 0 ∧ ¬ f.path <+: g.path ∧ ¬ g.path <+: f.path
    | .cmp c l r => Supported (.cmp c l r)
    | .and es => Supported2s es
    | .or es => Supported2s es
    | _ => False
  def Supported2s : Exprs E → Prop
    | .nil => True
    | .cons e r => Supported2 e ∧ Supported2s r
end

mutual
  /-- As `Sees`. -/
  def Sees2 : Expr E → D → Prop
    | .cmp c (.field f) (.field g), d => ∃ x y, walk f.path d = [x] ∧ walk g.path d = [y] ∧
        ∀ j j', Decodes (E := E) x j → Decodes y j' → Faithful2 c x y j j'
    | .cmp c l r, d => Sees (.cmp c l r) d
    | .and es, d => Sees2s es d
    | .or es, d => Sees2s es d
    | _, _ => False
  def Sees2s : Exprs E → D → Prop
    | .nil, _ => True
    | .cons e r, d => Sees2 e d ∧ Sees2s r d
end

/-! ### Comparisons of two values of the document -/

theorem compare_nums {d d' : Data E} {f f' : E.F} (hd : d.asFloat = (f, true)) (ht : d.ty = .int ∨ d.ty = .float) (hd' : d'.asFloat = (f', true))
    (ht' : d'.ty = .int ∨ d'.ty = .float) (hF : FloatLaws E) (h : Apart f f')
    (hi : d.ty = .int → d'.ty = .int → compareInt d d' = (cmpF f f', true)) :
    compare (E := E) ⟨d, false⟩ ⟨d', false⟩ = (cmpF f f', true) := by
  have ha : compareFloat d d' = (cmpF f f', true) := compareFloat_apart hd hd' h
  have hb : compareFloat d' d = (cmpF f' f, true) := compareFloat_apart hd' hd
    ⟨h.nan_right, h.nan_left, fun hg => by
      rw [hF.dist_symm] at hg
      obtain ⟨a, b⟩ := h.gap hg
      exact ⟨b, a⟩⟩
  match d, d', ht, ht' with
  | .int a, .int b, _, _ => exact hi rfl rfl
  | .int a, .float b, _, _ =>
    have : compare (E := E) ⟨.int a, false⟩ ⟨.float b, false⟩ = (let r := compareFloat (.float b) (.int a : Data E); (r.1 * -1, r.2)) := rfl
    rw [this, hb]
    simp only
    rw [cmpF_anti hF]
  | .float a, .int b, _, _ =>
    have : compare (E := E) ⟨.float a, false⟩ ⟨.int b, false⟩ = compareFloat (.float a) (.int b : Data E) := rfl
    rw [this, ha]
  | .float a, .float b, _, _ => exact ha

/-- Two integers. -/
theorem compareInt_ints {w w' : List Nat} (h : TokText .integer w) (h' : TokText .integer w')
    (hi : (E.lt (E.parseFloat w).1 (E.parseFloat w').1 = true ↔ (BitVec.ofInt 64 (intVal w)).toInt < (BitVec.ofInt 64 (intVal w')).toInt) ∧
      (E.lt (E.parseFloat w').1 (E.parseFloat w).1 = true ↔ (BitVec.ofInt 64 (intVal w')).toInt < (BitVec.ofInt 64 (intVal w)).toInt)) :
    compareInt (E := E) (.int (Lit.parseInt w)) (.int (Lit.parseInt w')) = (cmpF (E.parseFloat w).1 (E.parseFloat w').1, true) := by
  have : compareInt (E := E) (.int (Lit.parseInt w)) (.int (Lit.parseInt w')) = (cmp3 (Lit.parseInt w).toInt (Lit.parseInt w').toInt, true) := rfl
  rw [this, Lit.C15_int_mod _ h, Lit.C15_int_mod _ h', cmp3, cmpF]
  simp only [gt_iff_lt, hi.1, hi.2]

/-- A missing value, or null, on the left. -/
theorem compare_null_left {v : FV E} (hu : v.user = false) (hv : ¬ v.d.ty = .null) : compare (E := E) ⟨.null, false⟩ v = (-1, true) := by
  obtain ⟨d, u⟩ := v
  cases hu
  cases d <;> first | exact absurd rfl hv | rfl

theorem agree_both (hq : QuoteLaws E) (hF : FloatLaws E) {c : Cmp} {x y : D} {j j' : J E} (hd : Decodes x j) (hd' : Decodes y j')
    (h : Faithful2 c x y j j') {n : Int} (hn : compareVals (.json j) (.json j') = some n) :
    ∃ v w, valOf (E := E) x = .ok v ∧ valOf y = .ok w ∧ Same c (compare v w) n := by
  match j, j' with
  | .null, .null =>
    cases hd; cases hd'; cases hn
    exact ⟨_, _, rfl, rfl, same_refl c rfl⟩
  | .null, .bool b =>
    cases hd; cases hn
    obtain ⟨v, h1, h2, h3⟩ := valOf_ok hd'
    exact ⟨_, v, rfl, h1, same_refl c (compare_null_left h2 (fun h0 => nomatch h3.1 h0))⟩
  | .null, .num b =>
    cases hd; cases hn
    obtain ⟨v, h1, h2, h3⟩ := valOf_ok hd'
    exact ⟨_, v, rfl, h1, same_refl c (compare_null_left h2 (fun h0 => nomatch h3.1 h0))⟩
  | .null, .str b =>
    cases hd; cases hn
    obtain ⟨v, h1, h2, h3⟩ := valOf_ok hd'
    exact ⟨_, v, rfl, h1, same_refl c (compare_null_left h2 (fun h0 => nomatch h3.1 h0))⟩
  | .null, .arr b =>
    cases hd; cases hn
    obtain ⟨v, h1, h2, h3⟩ := valOf_ok hd'
    exact ⟨_, v, rfl, h1, same_refl c (compare_null_left h2 (fun h0 => nomatch h3.1 h0))⟩
  | .null, .obj b =>
    cases hd; cases hn
    obtain ⟨v, h1, h2, h3⟩ := valOf_ok hd'
    exact ⟨_, v, rfl, h1, same_refl c (compare_null_left h2 (fun h0 => nomatch h3.1 h0))⟩
  | .bool true, .bool true | .bool true, .bool false | .bool false, .bool true | .bool false, .bool false =>
    cases hd; cases hd'; cases hn
    exact ⟨_, _, rfl, rfl, same_refl c rfl⟩
  | .num f, .num f' =>
    obtain ⟨d, h1, h2, h3⟩ := valOf_num hd h.left
    obtain ⟨d', h1', h2', h3'⟩ := valOf_num hd' h.right
    cases hn
    refine ⟨_, _, h1, h1', same_refl c (compare_nums h2 h3 h2' h3' hF (h.num f f' rfl rfl) ?_)⟩
    intro ht ht'
    cases hd with
    | num hx => cases h1; cases ht
    | int hx =>
      cases hd' with
      | num hy => cases h1'; cases ht'
      | int hy =>
        cases h1; cases h1'
        exact compareInt_ints hx hy (h.ints _ _ rfl rfl)
  | .str s, .str t =>
    cases hn
    exact ⟨_, _, valOf_str hd, valOf_str hd', same_str hq rfl (h.str s t rfl rfl)⟩
  | .bool _, .null | .bool _, .num _ | .bool _, .str _ | .bool _, .arr _ | .bool _, .obj _
  | .num _, .null | .num _, .bool _ | .num _, .str _ | .num _, .arr _ | .num _, .obj _
  | .str _, .null | .str _, .num _ | .str _, .bool _ | .str _, .arr _ | .str _, .obj _
  | .arr _, .null | .arr _, .num _ | .arr _, .str _ | .arr _, .arr _ | .arr _, .obj _ | .arr _, .bool _
  | .obj _, .null | .obj _, .num _ | .obj _, .str _ | .obj _, .arr _ | .obj _, .obj _ | .obj _, .bool _ => cases hn

/-! ### A decoded document has at most one value at a path -/

theorem elemsAt_none {k : List Nat} : ∀ (es : Es) (i : Nat), (∀ m, i ≤ m → indexKey m ≠ k) → elemsAt k i es = []
  | .nil, _, _ => rfl
  | .cons d w1 w2 es, i, h => by
    rw [elemsAt, if_neg (h i (Nat.le_refl i))]
    exact elemsAt_none es (i + 1) (fun m hm => h m (by omega))

theorem elemsAt_one (k : List Nat) : ∀ (es : Es) (js : Js E) (i : Nat), DecodesEs es js →
    elemsAt k i es = [] ∨ ∃ d j, elemsAt k i es = [d] ∧ Decodes (E := E) d j
  | .nil, _, _, _ => Or.inl rfl
  | .cons .., _, i, h => by
    cases h with
    | cons hd hes =>
      rw [elemsAt]
      by_cases hk : indexKey i = k
      · rw [if_pos hk, elemsAt_none _ (i + 1) (fun m hm h0 => by have := indexKey_inj (hk.trans h0.symm); omega)]
        exact Or.inr ⟨_, _, rfl, hd⟩
      · rw [if_neg hk]
        exact elemsAt_one k _ _ (i + 1) hes

theorem walk_one : ∀ (p : Path) (d : D) (j : J E), Decodes d j → (walk p d).length ≤ 1
  | [], _, _, _ => by simp [walk]
  | k :: p, d, j, hd => by
    cases hd with
    | obj hms =>
      rw [walk]
      rcases membersAt_lookup k _ _ hms with h | ⟨y, h, hy⟩
      · rw [h]; simp
      · rw [h, List.flatMap_singleton]; exact walk_one p y _ hy
    | arr hes =>
      rw [walk]
      rcases elemsAt_one k _ _ 0 hes with h | ⟨y, j', h, hy⟩
      · rw [h]; simp
      · rw [h, List.flatMap_singleton]; exact walk_one p y _ hy
    | null | tru | fals | int | num | str => simp [walk]

mutual
  theorem once_decoded {d : D} {j : J E} (hd : Decodes d j) : ∀ e : Expr E, Supported2 e → OnceE e d
    | .cmp c (.field f) (.field g), _ => fun _ => Or.inr ⟨rfl, rfl, walk_one _ _ _ hd⟩
    | .cmp c (.field f) (.value g), _ => fun h => by simp [several, paths] at h
    | .cmp c (.value g) (.field f), _ => fun h => by simp [several, paths] at h
    | .and es, h => by rw [OnceE]; exact onces_decoded hd es h
    | .or es, h => by rw [OnceE]; exact onces_decoded hd es h
  theorem onces_decoded {d : D} {j : J E} (hd : Decodes d j) : ∀ es : Exprs E, Supported2s es → OnceEs es d
    | .nil, _ => trivial
    | .cons e r, h => ⟨once_decoded hd e h.1, onces_decoded hd r h.2⟩
end

/-! ### The reference matcher computes the truth -/

theorem cmp_truth2 (X : Fns E) (C : Comp E) (hq : QuoteLaws E) (hF : FloatLaws E) {c : Cmp} {f g : Field} {d : D} {j : J E}
    (hd : Decodes d j) {s s' : Vars E} (hs : s 0 = some j) (hsup : Supported2 (.cmp c (.field f : Expr E) (.field g)))
    (hsee : Sees2 (.cmp c (.field f : Expr E) (.field g)) d) {b : Bool} (h : matchCmp c (.field f : Expr E) (.field g) s = .ok (some b, s')) :
    b = truth2 X C (.cmp c (.field f) (.field g)) d ∧ s' = s := by
  obtain ⟨x, y, hx, hy, hfaith⟩ := hsee
  obtain ⟨hc, hf0, hg0, hp1, _⟩ := hsup
  have hne : g.path ≠ f.path := fun h => hp1 (h ▸ List.prefix_rfl)
  have hm : several (.field f : Expr E) (.field g) = true := by simp [several, paths, hne]
  unfold matchCmp at h
  rw [if_neg hc, compareExprs, resolveParam, resolveParam] at h
  cases hr : resolveField s f with
  | none => rw [hr] at h; cases h
  | some j1 =>
    cases hr' : resolveField s g with
    | none => rw [hr, hr'] at h; cases h
    | some j2 =>
      rw [hr, hr'] at h
      rw [resolveField, hf0, hs] at hr
      rw [resolveField, hg0, hs] at hr'
      have d1 : Decodes x j1 := follow_walk _ _ _ _ _ hd (by rw [hx]; rfl) hr
      have d2 : Decodes y j2 := follow_walk _ _ _ _ _ hd (by rw [hy]; rfl) hr'
      simp only [Option.map_some, Res.bind_ok] at h
      cases hn : compareVals (.json j1) (.json j2) with
      | none => rw [hn] at h; cases h
      | some n =>
        rw [hn] at h
        obtain ⟨v, w, h1, h2, h3⟩ := agree_both hq hF d1 d2 (hfaith j1 j2 d1 d2) hn
        simp only [h3.holds hc, Res.bind_ok] at h
        cases h
        refine ⟨?_, rfl⟩
        have hh : ∀ c', multiHolds X C c' (.field f : Expr E) (.field g) (docEnv d) = cmpHolds c' v w := by
          intro c'
          simp [multiHolds, isGone, docEnv, hx, hy, lastOf, mVal, fieldVal, h1, h2]
        rw [truth2, if_pos hm, pairHolds, hh, hh]
        by_cases he : c = .ne
        · subst he; rfl
        · rw [if_neg he]

mutual
  theorem slow_truth2 (X : Fns E) (C : Comp E) (hq : QuoteLaws E) (hF : FloatLaws E) {d : D} {j : J E} (hd : Decodes d j) : ∀ (e : Expr E)
      (s s' : Vars E) (b : Bool), s 0 = some j → Frag2 C e → Supported2 e → Sees2 e d →
      matchOne e s = .ok (some b, s') → b = truth2 X C e d ∧ s' = s
    | .cmp c (.field f) (.field g), s, s', b, hs, hf, hsup, hsee, h => cmp_truth2 X C hq hF hd hs hsup hsee h
    | .cmp c (.field f) (.value g), s, s', b, hs, hf, hsup, hsee, h => by
      have hm : ¬ several (.field f : Expr E) (.value g) = true := by simp [several, paths]
      rw [Frag2, if_neg hm] at hf
      rw [truth2, if_neg hm]
      exact cmp_truth X C hq hF hd hs hf hsup hsee h
    | .cmp c (.value g) (.field f), s, s', b, hs, hf, hsup, hsee, h => by
      have hm : ¬ several (.value g : Expr E) (.field f) = true := by simp [several, paths]
      rw [Frag2, if_neg hm] at hf
      rw [truth2, if_neg hm]
      exact cmp_truth X C hq hF hd hs hf hsup hsee h
    | .and .nil, s, s', b, hs, hf, hsup, hsee, h => by simp [Frag2, Frag2s] at hf
    | .and (.cons e r), s, s', b, hs, hf, hsup, hsee, h => by
      rw [truth2]
      exact (slow_truth2s X C hq hF hd (.cons e r) s s' b hs hf hsup hsee).1 h
    | .or es, s, s', b, hs, hf, hsup, hsee, h => by
      rw [truth2]
      exact (slow_truth2s X C hq hF hd es s s' b hs hf hsup hsee).2 h
  theorem slow_truth2s (X : Fns E) (C : Comp E) (hq : QuoteLaws E) (hF : FloatLaws E) {d : D} {j : J E} (hd : Decodes d j) : ∀ (es : Exprs E)
      (s s' : Vars E) (b : Bool), s 0 = some j → Frag2s C es → Supported2s es → Sees2s es d →
      (matchAnd es s = .ok (some b, s') → b = truth2All X C es d ∧ s' = s) ∧
      (matchOr es s = .ok (some b, s') → b = truth2Any X C es d ∧ s' = s)
    | .nil, s, s', b, hs, hf, hsup, hsee => by simp [Frag2s] at hf
    | .cons e r, s, s', b, hs, hf, hsup, hsee => by
      have hfe : Frag2 C e := by
        cases r with
        | nil => exact hf
        | cons _ _ => exact hf.1
      have hrest : ∀ t b', (t = s → (matchAnd r t = .ok (some b', s') → b' = truth2All X C r d ∧ s' = s) ∧
          (matchOr r t = .ok (some b', s') → b' = truth2Any X C r d ∧ s' = s)) := by
        intro t b' ht
        subst ht
        cases r with
        | nil =>
          constructor <;> intro h
          · rw [matchAnd] at h; cases h; exact ⟨rfl, rfl⟩
          · rw [matchOr] at h; cases h; exact ⟨rfl, rfl⟩
        | cons e' r' => exact slow_truth2s X C hq hF hd (.cons e' r') t s' b' hs hf.2 hsup.2 hsee.2
      constructor
      · intro h
        rw [matchAnd] at h
        obtain ⟨⟨o, t⟩, h1, h2⟩ := Res.bind_eq_ok.1 h
        match o, h1, h2 with
        | some false, h1, h2 =>
          cases h2
          obtain ⟨k1, k2⟩ := slow_truth2 X C hq hF hd e s _ _ hs hfe hsup.1 hsee.1 h1
          exact ⟨by rw [truth2All, ← k1]; rfl, k2⟩
        | some true, h1, h2 =>
          obtain ⟨k1, k2⟩ := slow_truth2 X C hq hF hd e s _ _ hs hfe hsup.1 hsee.1 h1
          obtain ⟨r1, r2⟩ := (hrest t b k2).1 h2
          exact ⟨by rw [truth2All, ← k1, ← r1]; rfl, r2⟩
      · intro h
        rw [matchOr] at h
        obtain ⟨⟨o, t⟩, h1, h2⟩ := Res.bind_eq_ok.1 h
        match o, h1, h2 with
        | some true, h1, h2 =>
          cases h2
          obtain ⟨k1, k2⟩ := slow_truth2 X C hq hF hd e s _ _ hs hfe hsup.1 hsee.1 h1
          exact ⟨by rw [truth2Any, ← k1]; rfl, k2⟩
        | some false, h1, h2 =>
          obtain ⟨k1, k2⟩ := slow_truth2 X C hq hF hd e s _ _ hs hfe hsup.1 hsee.1 h1
          obtain ⟨r1, r2⟩ := (hrest t b k2).2 h2
          exact ⟨by rw [truth2Any, ← k1, ← r1]; rfl, r2⟩
end

/-! ### C35 -/

mutual
  theorem supported2_safe : ∀ e : Expr E, Supported2 e → SafeE e
    | .cmp c (.field _) (.field _), _ => by simp [SafeE, SafeParam]
    | .cmp c (.field _) (.value _), _ => by simp [SafeE, SafeParam]
    | .cmp c (.value _) (.field _), _ => by simp [SafeE, SafeParam]
    | .and es, h => by rw [SafeE]; exact supported2s_safe es h
    | .or es, h => by rw [SafeE]; exact supported2s_safe es h
  theorem supported2s_safe : ∀ es : Exprs E, Supported2s es → SafeEs es
    | .nil, _ => trivial
    | .cons e r, h => ⟨supported2_safe e h.1, supported2s_safe r h.2⟩
end

mutual
  theorem supported2_loopFree : ∀ e : Expr E, Supported2 e → LoopFree e
    | .cmp c (.field _) (.field _), _ => by simp [LoopFree]
    | .cmp c (.field _) (.value _), _ => by simp [LoopFree]
    | .cmp c (.value _) (.field _), _ => by simp [LoopFree]
    | .and es, h => by rw [LoopFree]; exact supported2s_loopFree es h
    | .or es, h => by rw [LoopFree]; exact supported2s_loopFree es h
  theorem supported2s_loopFree : ∀ es : Exprs E, Supported2s es → LoopFrees es
    | .nil, _ => trivial
    | .cons e r, h => ⟨supported2_loopFree e h.1, supported2s_loopFree r h.2⟩
end

theorem supported2_root {e : Expr E} (h : Supported2 e) (s : Vars E) : matchRoot e s = matchOne e s := by
  cases e <;> simp_all [Supported2, matchRoot]

theorem supported2_gen {e : Expr E} (h : Supported2 e) : genExprs [e] = [e] := by
  cases e <;> simp_all [Supported2, genExprs]

/-- C35 for one expression with comparisons of two fields and of fields with constants, combined with AND and OR, and documents that
have all the fields it asks for, without repeated keys, whose values are compared faithfully: if the reference matcher reports no
error, the fast matcher gives the same verdict.  (Missing: loops together with comparisons of two fields; the other documents, for
which it is false, see `C35_negation`.) -/
theorem C35_several_partial (X : Fns E) (C : Comp E) (slot0 : Nat) (hq : QuoteLaws E) (hF : FloatLaws E)
    (unmarshal : List Nat → Option (J E)) {data : List Nat} {r : D} {j : J E} (hr : Begins data r) (hu : unmarshal data = some j)
    (hd : Decodes r j) {e : Expr E} (hfrag : Frag2 C e) (hsup : Supported2 e) (hsee : Sees2 e r) (hl : ∀ ty w, r ≠ .lit ty w)
    (hreg : RegularAt (mCondsOf [e]) r) (s s' : M E) (hs : s.exprs = [e]) {b : Bool}
    (h : slowMatch unmarshal s data = .ok (some b, s')) :
    ∃ df, transform C slot0 [e] = .ok df ∧ ∀ m, Ready df m → ∃ m', run X df m data = .ok (some b, m') := by
  have one : ∀ {P : Expr E → Prop}, P e → ∀ x ∈ [e], P x := fun hP x hx => by rw [List.mem_singleton.1 hx]; exact hP
  obtain ⟨df, h1, h2⟩ := C62_match_partial X C slot0 (supported2_gen hsup) (one hfrag) (one (supported2_safe e hsup))
    (one (supported2_loopFree e hsup)) hr hl hreg (one (P := fun x => OnceE x r) (once_decoded hd e hsup))
  refine ⟨df, h1, fun m hm => ?_⟩
  obtain ⟨m', h3⟩ := h2 m hm
  refine ⟨m', ?_⟩
  rw [h3]
  unfold slowMatch at h
  rw [hu, hs] at h
  obtain ⟨⟨o, m1⟩, k1, k2⟩ := Res.bind_eq_ok.1 h
  match o, k1, k2 with
  | some b1, k1, k2 =>
    cases k2
    rw [matchFrom, supported2_root hsup] at k1
    obtain ⟨⟨o, t⟩, g1, g2⟩ := Res.bind_eq_ok.1 k1
    match o, g1, g2 with
    | some res, g1, g2 =>
      obtain ⟨e1, _⟩ := slow_truth2 X C hq hF hd e _ _ _ (by simp [Vars.set]) hfrag hsup hsee g1
      simp only at g2
      split at g2
      · rw [matchFrom] at g2
        cases g2
        cases res <;> simp [← e1]
      · cases g2

/-! ### Example -/

/-- What `docAB1`, `{"a":1,"b":1}`, decodes to. -/
def jAB1 : J demoExt := .obj (.cons [97] (.num (1 : Int)) (.cons [98] (.num (1 : Int)) .nil))

theorem docAB1_decodes : Decodes docAB1 jAB1 := by
  have ha : ∀ c ∈ [Ch.plain 97], c.WF := by intro c hc; rw [List.mem_singleton] at hc; subst hc; simp [Ch.WF]
  have hb : ∀ c ∈ [Ch.plain 98], c.WF := by intro c hc; rw [List.mem_singleton] at hc; subst hc; simp [Ch.WF]
  exact .obj (.cons (cs := [.plain 97]) ha (.int text_1) (.cons (cs := [.plain 98]) hb (.int text_1) .nil trivial)
    ⟨by decide, trivial⟩)

/-- `a < b or (a = b and a = 1)` -/
def demoTwo : Expr demoExt :=
  .or (.cons (.cmp .lt fieldA fieldB) (.cons (.and (.cons (.cmp .eq fieldA fieldB) (.cons (.cmp .eq fieldA oneF) .nil))) .nil))

theorem faithful2_demo (c : Cmp) (j j' : J demoExt) (h : Decodes (.lit .integer [49]) j) (h' : Decodes (.lit .integer [49]) j') :
    Faithful2 (E := demoExt) c (.lit .integer [49]) (.lit .integer [49]) j j' where
  str := by
    intro s t hs
    subst hs
    generalize hx : D.lit .integer [49] = x at h
    cases h with
    | @str cs _ =>
      exfalso
      have : Tok.integer = litTok cs := by injection hx
      unfold litTok at this
      split at this <;> cases this
  num := by
    intro (f : Int) (y : Int) _ _
    refine ⟨rfl, rfl, ?_⟩
    intro hg
    have hg' : decide (((f - y : Int).natAbs : Int) < 1) = true := hg
    rw [decide_eq_true_eq] at hg'
    have : f = y := by omega
    subst this
    exact ⟨by simp [demoExt], by simp [demoExt]⟩
  left := by intro w hw; cases hw; rfl
  right := by intro w hw; cases hw; rfl
  ints := by intro w w' hw hw'; cases hw; cases hw'; decide

/-- Both matchers accept `{"a":1,"b":1}`. -/
example : ∃ df, transform demoComp 0 [demoTwo] = .ok df ∧ ∀ m, Ready df m → ∃ m', run demoFns df m textAB1 = .ok (some true, m') := by
  have h : ∃ s', slowMatch (fun _ => some jAB1) (newSlow [demoTwo]) textAB1 = .ok (some true, s') := ⟨_, rfl⟩
  obtain ⟨s', h⟩ := h
  refine C35_several_partial demoFns demoComp 0 demoQuote demoFloat (fun _ => some jAB1) docAB1_text rfl docAB1_decodes (e := demoTwo)
    ?_ ?_ ?_ (by intro ty w h; cases h) (regular_of_check (by decide +kernel)) (newSlow [demoTwo]) s' rfl h
  · have hm : several fieldA fieldB = true := by decide
    have hm' : several fieldA oneF = false := by decide
    simp only [demoTwo, Frag2, Frag2s, hm, hm', if_true, Bool.false_eq_true, if_false]
    exact ⟨⟨rfl, rfl, loose_ab⟩, ⟨rfl, rfl, loose_ab⟩, by simp [Frag, Param, condPath, fieldPath, fieldA, oneF, Expr.Plain]⟩
  · simp [demoTwo, Supported2, Supported2s, Supported, Scalar, fieldA, fieldB, oneF]
  · refine ⟨⟨_, _, rfl, rfl, fun j j' h h' => faithful2_demo .lt j j' h h'⟩, ⟨⟨_, _, rfl, rfl, fun j j' h h' => faithful2_demo .eq j j' h h'⟩,
      ⟨_, rfl, fun j hj => faithful_demo .eq 1 j hj⟩, trivial⟩, trivial⟩

end Verif.Slow
