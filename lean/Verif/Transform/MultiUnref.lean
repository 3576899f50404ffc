import Verif.Transform.MultiWhole
import Verif.Transform.Unref

/-!
# C25 for comparisons of several fields

Documents that agree on what expressions reference get the same verdict, also if comparisons reference several fields.
-/

namespace Verif.Transform
open Verif.FastVal Verif.Match Verif.Expr
open Verif.Token (D Es Ms Tok)

variable {E : Ext}

/-! ### Specification: what is referenced -/

mutual
  /-- As `refsE`, for comparisons of several fields as well: they reference each of the fields. -/
  def refs2 : Expr E → List RPath
    | .cmp c l r => if several l r then (paths l ++ paths r).map rkeys else refsE (.cmp c l r)
    | .not e => refs2 e
    | .and es => refs2s es
    | .or es => refs2s es
    | e => refsE e
  def refs2s : Exprs E → List RPath
    | .nil => []
    | .cons e r => refs2 e ++ refs2s r
end

/-! ### Values in documents that agree -/

/-- Lists of the same length whose elements are related. -/
inductive All2 (P : D → D → Prop) : List D → List D → Prop
  | nil : All2 P [] []
  | cons {x y : D} {l l' : List D} (h : P x y) (t : All2 P l l') : All2 P (x :: l) (y :: l')

theorem All2.append {P : D → D → Prop} {l l' m m' : List D} (h : All2 P l l') (h' : All2 P m m') : All2 P (l ++ m) (l' ++ m') := by
  induction h with
  | nil => exact h'
  | cons h _ ih => exact .cons h ih

theorem All2.bind {P Q : D → D → Prop} {f g : D → List D} {l l' : List D} (h : All2 P l l') (hf : ∀ x y, P x y → All2 Q (f x) (g y)) :
    All2 Q (l.flatMap f) (l'.flatMap g) := by
  induction h with
  | nil => exact .nil
  | cons h _ ih => rw [List.flatMap_cons, List.flatMap_cons]; exact (hf _ _ h).append ih

theorem All2.eq {P : D → D → Prop} {l l' : List D} (h : All2 P l l') (hp : ∀ x y, P x y → x = y) : l = l' := by
  induction h with
  | nil => rfl
  | cons h _ ih => rw [hp _ _ h, ih]

theorem membersAt_agree {L : RPath → Prop} {k : List Nat} (hk : ∃ p, L (.key k :: p)) : ∀ {ms ms' : Ms}, AgreeM L ms ms' →
    All2 (Agree (fun p => L (.key k :: p))) (membersAt k ms) (membersAt k ms')
  | _, _, .nil => .nil
  | _, _, .left (kty := kty) (key := key) h hm => by
    rw [membersAt, if_neg]
    · exact membersAt_agree hk hm
    · rintro rfl
      obtain ⟨p, hp⟩ := hk
      exact h p hp
  | _, _, .right (kty := kty) (key := key) h hm => by
    rw [membersAt.eq_2 k kty key, if_neg]
    · exact membersAt_agree hk hm
    · rintro rfl
      obtain ⟨p, hp⟩ := hk
      exact h p hp
  | _, _, .both hkk hd hm => by
    rw [membersAt, membersAt, ← hkk]
    split
    · rename_i h; subst h; exact .cons hd (membersAt_agree hk hm)
    · exact membersAt_agree hk hm

theorem elemsAt_agree {L : RPath → Prop} {k : List Nat} : ∀ {i : Nat} {es es' : Es}, AgreeE L i es es' →
    All2 (Agree (fun p => L (.key k :: p))) (elemsAt k i es) (elemsAt k i es')
  | _, _, _, .nil => .nil
  | _, _, _, .cons hd he => by
    rw [elemsAt, elemsAt]
    split
    · rename_i h; subst h; exact .cons (hd.mono (fun p hp => Or.inl hp)) (elemsAt_agree he)
    · exact elemsAt_agree he

/-- The values at a path on the way to something referenced agree. -/
theorem walk_agree : ∀ (q : Path) {L : RPath → Prop} {d d' : D}, Agree L d d' → (∃ p, L (rkeys q ++ p)) →
    All2 (Agree (fun p => L (rkeys q ++ p))) (walk q d) (walk q d')
  | [], L, d, d', h, _ => by rw [walk, walk]; exact .cons h .nil
  | k :: q, L, d, d', h, hp => by
    have hk : ∃ p, L (.key k :: p) := by obtain ⟨p, hp⟩ := hp; exact ⟨_, hp⟩
    have step : ∀ x y, Agree (fun p => L (.key k :: p)) x y → All2 (Agree (fun p => L (rkeys (k :: q) ++ p))) (walk q x) (walk q y) :=
      fun x y hxy => walk_agree q hxy hp
    cases h with
    | none h => obtain ⟨p, hp⟩ := hp; exact absurd hp (h _)
    | lit _ => exact .nil
    | obj _ hm => rw [walk, walk]; exact (membersAt_agree hk hm).bind step
    | arr _ he => rw [walk, walk]; exact (elemsAt_agree he).bind step

/-- The values of something referenced are the same. -/
theorem walk_same {L : RPath → Prop} {d d' : D} (h : Agree L d d') {p : Path} (hp : L (rkeys p)) : walk p d = walk p d' := by
  refine (walk_agree p h ⟨[], by simpa using hp⟩).eq (fun x y hxy => ?_)
  have h0 : (fun q => L (rkeys p ++ q)) [] := by simpa using hp
  cases hxy with
  | none hn => exact absurd h0 (hn _)
  | lit he => obtain ⟨rfl, rfl⟩ := he h0; rfl
  | obj he _ => exact he h0
  | arr he _ => exact he h0

theorem emptyArr_agree {L : RPath → Prop} {x y : D} (h : Agree L x y) {p : RPath} (hp : L p) : EmptyArr x ↔ EmptyArr y := by
  cases h with
  | none hn => exact absurd hp (hn _)
  | lit _ => exact Iff.rfl
  | obj _ _ => exact Iff.rfl
  | arr _ he => cases he <;> exact Iff.rfl

theorem afterVal_agree {f g : D → Bool} {x y : D} (h : EmptyArr x ↔ EmptyArr y) (hfg : f x = g y) : afterVal f x = afterVal g y := by
  by_cases hx : EmptyArr x
  · have e : ∀ (f : D → Bool) (x : D), EmptyArr x → afterVal f x = none := by
      intro f x hx
      match x, hx with
      | .arr _ .nil, _ => rfl
    rw [e f x hx, e g y (h.1 hx)]
  · rw [afterVal_some hx, afterVal_some (fun hy => hx (h.2 hy)), hfg]

theorem findSome_agree {P : D → D → Prop} {f g : D → Option Bool} {l l' : List D} (h : All2 P l l') (hf : ∀ x y, P x y → f x = g y) :
    l.findSome? f = l'.findSome? g := by
  induction h with
  | nil => rfl
  | cons h _ ih => rw [List.findSome?_cons, List.findSome?_cons, hf _ _ h, ih]

/-! ### Truth on documents that agree -/

theorem multiTop_agree (X : Fns E) (C : Comp E) {c : Cmp} {l r : Expr E} (hm : several l r = true) (ha : Loose (paths l ++ paths r))
    {L : RPath → Prop} {d d' : D} (h : Agree L d d') (hL : ∀ p ∈ paths l ++ paths r, L (rkeys p)) :
    multiTop X C c l r d = multiTop X C c l r d' := by
  have hsp := splits_base hm ha
  have hbelow : ∀ p ∈ paths l ++ paths r, rkeys p = rkeys (base l r) ++ rkeys (p.drop (base l r).length) := by
    intro p hp
    obtain ⟨k, p', rfl⟩ := hsp.1 p hp
    rw [List.drop_left, rkeys, rkeys, rkeys, List.map_append]
  obtain ⟨k0, p0, _, _, hmem, _⟩ := hsp.2
  have h0 := hL _ hmem
  rw [hbelow _ hmem] at h0
  unfold multiTop
  rw [findSome_agree (walk_agree (base l r) h ⟨_, h0⟩)]
  intro x y hxy
  refine afterVal_agree (emptyArr_agree hxy h0) (multiHolds_congr X C (fun p hp => ?_))
  unfold envAt
  rw [walk_same hxy (p := p.drop (base l r).length) (by rw [← hbelow p hp]; exact hL p hp)]

mutual
  theorem top2_agree (X : Fns E) (C : Comp E) {L : RPath → Prop} {d d' : D} (h : Agree L d d') : ∀ e : Expr E, Frag2 C e → LoopFree e →
      (∀ p ∈ refs2 e, L p) → top2 X C e d = top2 X C e d'
    | .cmp c l r, hf, _, hL => by
      rw [Frag2] at hf; rw [refs2] at hL
      rw [top2, top2]
      by_cases hm : several l r = true
      · rw [if_pos hm] at hf hL
        rw [if_pos hm, if_pos hm]
        exact multiTop_agree X C hm hf.2.2 h (fun p hp => hL _ (List.mem_map.2 ⟨p, hp, rfl⟩))
      · rw [if_neg hm] at hL
        rw [if_neg hm, if_neg hm, top_loopFree X C _ d (by simp [LoopFree]), top_loopFree X C _ d' (by simp [LoopFree]), truth, truth,
          walk_same h (hL _ (by simp [refsE]))]
    | .not e, hf, hl, hL => by
      rw [Frag2] at hf; rw [refs2] at hL; rw [top2, top2, top2_agree X C h e hf hl hL]
    | .and es, hf, hl, hL => by
      rw [Frag2] at hf; rw [refs2] at hL; rw [top2, top2, (top2s_agree X C h es hf hl hL).1]
    | .or es, hf, hl, hL => by
      rw [Frag2] at hf; rw [refs2] at hL; rw [top2, top2, (top2s_agree X C h es hf hl hL).2]
    | .exist e, _, hl, hL => by
      simp only [refs2] at hL
      simp only [top2]
      rw [top_loopFree X C _ d hl, top_loopFree X C _ d' hl, truth, truth, walk_same h (hL _ (by simp [refsE]))]
    | .notExist e, _, hl, hL => by
      simp only [refs2] at hL
      simp only [top2]
      rw [top_loopFree X C _ d hl, top_loopFree X C _ d' hl, truth, truth, walk_same h (hL _ (by simp [refsE]))]
    | .loop .., _, hl, _ => by simp [LoopFree] at hl
    | .tru, _, hl, _ | .fals, _, hl, _ => by
      simp only [top2]; rw [top_loopFree X C _ d hl, top_loopFree X C _ d' hl]; simp [truth]
    | .value _, hf, _, _ | .regex _, hf, _, _ | .pcre _, hf, _, _ | .time _, hf, _, _ | .field _, hf, _, _ | .func .., hf, _, _ => by
      simp [Frag2] at hf
  theorem top2s_agree (X : Fns E) (C : Comp E) {L : RPath → Prop} {d d' : D} (h : Agree L d d') : ∀ es : Exprs E, Frag2s C es → LoopFrees es →
      (∀ p ∈ refs2s es, L p) → top2All X C es d = top2All X C es d' ∧ top2Any X C es d = top2Any X C es d'
    | .nil, hf, _, _ => by simp [Frag2s] at hf
    | .cons e .nil, hf, hl, hL => by
      rw [Frag2s] at hf; rw [refs2s] at hL
      have := top2_agree X C h e hf hl.1 (fun p hp => hL p (List.mem_append_left _ hp))
      simp only [top2All, top2Any, this, and_self]
    | .cons e (.cons e' r), hf, hl, hL => by
      rw [Frag2s] at hf; rw [refs2s] at hL
      obtain ⟨a, b⟩ := top2s_agree X C h (.cons e' r) hf.2 hl.2 (fun p hp => hL p (List.mem_append_right _ hp))
      have c := top2_agree X C h e hf.1 hl.1 (fun p hp => hL p (List.mem_append_left _ hp))
      constructor
      · rw [top2All, a, c]; rfl
      · rw [top2Any, b, c]; rfl
end

mutual
  theorem mConds_refs : ∀ (e : Expr E), LoopFree e → ∀ p b, (p, b) ∈ mConds e → b = false ∧ rkeys p ∈ refs2 e
    | .cmp c l r, _, p, b, h => by
      rw [mConds] at h; rw [refs2]
      by_cases hm : several l r = true
      · rw [if_pos hm] at h ⊢
        obtain ⟨q, hq, e⟩ := List.mem_map.1 h
        cases e
        exact ⟨rfl, List.mem_map.2 ⟨p, hq, rfl⟩⟩
      · rw [if_neg hm] at h ⊢
        simp only [conds, List.mem_singleton, Prod.mk.injEq] at h
        obtain ⟨rfl, rfl⟩ := h
        exact ⟨rfl, by simp [refsE]⟩
    | .not e, hl, p, b, h => by rw [mConds] at h; rw [refs2]; exact mConds_refs e hl p b h
    | .and es, hl, p, b, h => by rw [mConds] at h; rw [refs2]; exact mCondsAll_refs es hl p b h
    | .or es, hl, p, b, h => by rw [mConds] at h; rw [refs2]; exact mCondsAll_refs es hl p b h
    | .exist e, _, p, b, h | .notExist e, _, p, b, h => by
      simp only [mConds, conds, List.mem_singleton, Prod.mk.injEq] at h
      obtain ⟨rfl, rfl⟩ := h
      exact ⟨rfl, by simp [refs2, refsE]⟩
    | .loop .., hl, _, _, _ => by simp [LoopFree] at hl
    | .tru, _, _, _, h | .fals, _, _, _, h | .value _, _, _, _, h | .regex _, _, _, _, h | .pcre _, _, _, _, h | .time _, _, _, _, h
    | .field _, _, _, _, h | .func .., _, _, _, h => by simp [mConds, conds] at h
  theorem mCondsAll_refs : ∀ (es : Exprs E), LoopFrees es → ∀ p b, (p, b) ∈ mCondsAll es → b = false ∧ rkeys p ∈ refs2s es
    | .nil, _, _, _, h => by simp [mCondsAll] at h
    | .cons e r, hl, p, b, h => by
      rw [mCondsAll] at h; rw [refs2s]
      rcases List.mem_append.1 h with h | h
      · exact ⟨(mConds_refs e hl.1 p b h).1, List.mem_append_left _ (mConds_refs e hl.1 p b h).2⟩
      · exact ⟨(mCondsAll_refs r hl.2 p b h).1, List.mem_append_right _ (mCondsAll_refs r hl.2 p b h).2⟩
end

/-- Of two documents that agree both are regular or none. -/
theorem regular_agree {gs : List (Expr E)} (hlf : ∀ x ∈ gs, LoopFree x) {d d' : D} (h : Agree (fun p => ∃ x ∈ gs, p ∈ refs2 x) d d')
    (hr : RegularAt (mCondsOf gs) d) : RegularAt (mCondsOf gs) d' := by
  have key : ∀ p b, (p, b) ∈ mCondsOf gs → b = false ∧ walk p d = walk p d' := by
    intro p b hp
    obtain ⟨x, hx, hp⟩ := List.mem_flatMap.1 hp
    obtain ⟨a, b⟩ := mConds_refs x (hlf x hx) p b hp
    exact ⟨a, walk_same h ⟨x, hx, b⟩⟩
  refine ⟨fun p hp x hx => hr.arr p hp x (by rw [(key p _ hp).2]; exact hx), fun p hp x hx => hr.obj p hp x (by rw [(key p _ hp).2]; exact hx),
    fun q hq => ?_⟩
  have := (key q _ hq).1
  cases this

/-- C25 for expressions with comparisons of several fields, without loops, on objects and arrays in which no field with a value that is an
empty array is referenced, nor an empty object together with something inside of it.  (Missing: other documents, loops.) -/
theorem C25_several_partial (X : Fns E) (C : Comp E) (slot0 : Nat) {es : List (Expr E)} {g : Expr E} {gs : List (Expr E)}
    (hg : genExprs es = g :: gs) (hfrag : ∀ x ∈ g :: gs, Frag2 C x) (hsafe : ∀ x ∈ g :: gs, SafeE x) (hlf : ∀ x ∈ g :: gs, LoopFree x)
    {data data' : List Nat} {r r' : D} (hr : Begins data r) (hr' : Begins data' r') (hd : ∀ ty w, r ≠ .lit ty w) (hd' : ∀ ty w, r' ≠ .lit ty w)
    (hreg : RegularAt (mCondsOf (g :: gs)) r) (hs : Agree (fun p => ∃ x ∈ g :: gs, p ∈ refs2 x) r r') :
    ∃ df, transform C slot0 es = .ok df ∧ ∀ m m', Ready df m → Ready df m' →
      ∃ b m1 m2, run X df m data = .ok (some b, m1) ∧ run X df m' data' = .ok (some b, m2) := by
  have hin := fun d : D => fun x hx => inner2_loopFree x d (hlf x hx)
  obtain ⟨df, h1, h2⟩ := run_multi X (slot0 := slot0) hg hfrag hsafe hr ⟨hd, hreg, hin r⟩
  obtain ⟨df', h1', h2'⟩ := run_multi X (slot0 := slot0) hg hfrag hsafe hr' ⟨hd', regular_agree hlf hs hreg, hin r'⟩
  rw [h1] at h1'
  cases h1'
  refine ⟨df, h1, fun m m' hm hm' => ?_⟩
  obtain ⟨m1, e1⟩ := h2 m hm
  obtain ⟨m2, e2⟩ := h2' m' hm'
  refine ⟨_, m1, m2, e1, ?_⟩
  have : (g :: gs).any (fun x => top2 X C x r) = (g :: gs).any (fun x => top2 X C x r') := by
    have hx : ∀ x ∈ g :: gs, top2 X C x r = top2 X C x r' := fun x hx =>
      top2_agree X C hs x (hfrag x hx) (hlf x hx) (fun p hp => ⟨x, hx, hp⟩)
    rw [Bool.eq_iff_iff, List.any_eq_true, List.any_eq_true]
    constructor
    · rintro ⟨x, h, h'⟩; exact ⟨x, h, by rw [← hx x h]; exact h'⟩
    · rintro ⟨x, h, h'⟩; exact ⟨x, h, by rw [hx x h]; exact h'⟩
  rw [this]
  exact e2

/-! ### Example -/

/-- `{"c":1,"a":1,"b":1}` agrees with `{"a":1,"b":1}` on `a` and `b`. -/
def docCAB1 : D := .obj [] (.cons .string [34, 99, 34] [] [] (.lit .integer [49]) [] [] (.cons .string [34, 97, 34] [] [] (.lit .integer [49]) [] []
  (.cons .string [34, 98, 34] [] [] (.lit .integer [49]) [] [] .nil)))
def textCAB1 : List Nat := [123, 34, 99, 34, 58, 49, 44, 34, 97, 34, 58, 49, 44, 34, 98, 34, 58, 49, 125]

theorem docCAB1_text : Begins textCAB1 docCAB1 :=
  ⟨by simp [docCAB1, D.WF, Ms.WF, Token.IsWs, text_a, text_b, text_c, text_1, Tok.isLiteral], [], [], by simp [Token.IsWs], trivial, rfl⟩

example : ∃ df, transform demoComp 0 demoPairs = .ok df ∧ ∀ m m', Ready df m → Ready df m' →
    ∃ b m1 m2, run demoFns df m textAB1 = .ok (some b, m1) ∧ run demoFns df m' textCAB1 = .ok (some b, m2) := by
  refine C25_several_partial demoFns demoComp 0 (es := demoPairs) rfl (fun x hx => (demoPairs_frag x hx).1)
    (fun x hx => (demoPairs_frag x hx).2.1) (fun x hx => (demoPairs_frag x hx).2.2.1) docAB1_text docCAB1_text
    (by intro ty w h; cases h) (by intro ty w h; cases h) (regular_of_check (by decide)) ?_
  have hk : memberKey .string [34, 99, 34] = [99] := by decide
  have hL : ∀ p, (∃ x ∈ demoPairs, p ∈ refs2 x) → p = [.key [97]] ∨ p = [.key [98]] := by
    rintro p ⟨x, hx, hp⟩
    have h1 : several fieldA fieldB = true := by decide
    have h2 : several sumAB one = true := by decide
    simp only [demoPairs, List.mem_cons, List.not_mem_nil, or_false] at hx
    rcases hx with rfl | rfl <;> simp only [refs2, refs2s, h1, h2, if_true] at hp <;>
      simp [rkeys, paths, pathsAll, fieldA, fieldB, one, sumAB] at hp
    · rcases hp with h | h | h | h <;> simp [h]
    · exact hp
  refine Agree.mono hL (.obj (by simp) (.right ?_ (.both rfl (.lit (fun _ => ⟨rfl, rfl⟩)) (.both rfl (.lit (fun _ => ⟨rfl, rfl⟩)) .nil))))
  intro p; rw [hk]; simp

end Verif.Transform
