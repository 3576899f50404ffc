import Verif.Transform.ElementMembers
import Verif.Transform.MultiUnref
import Verif.Transform.RootedWhole

/-!
# C25 on any document

Documents that agree on what a filter references get the same verdict: loops whose bodies compare several fields of the element, comparisons of
several fields and loops that refer to the document, on documents with repeated keys, empty arrays and empty objects anywhere.
-/

namespace Verif.Transform
open Verif.FastVal Verif.Match Verif.Expr
open Verif.Token (D Es Ms Tok)

variable {E : Ext}

/-! ### Specification: what is referenced -/

mutual
  /-- As `refsE`; a comparison of several fields references each of them, in the body of a loop in each of the elements. -/
  def refs5 : Expr E → List RPath
    | .not e => refs5 e
    | .and es => refs5s es
    | .or es => refs5s es
    | .loop _ _ i s => (rkeys (inPath i) ++ [.len]) :: (refs2 (rebase s)).map (fun p => rkeys (inPath i) ++ .each :: p)
    | e => refsE e
  def refs5s : Exprs E → List RPath
    | .nil => []
    | .cons e r => refs5 e ++ refs5s r
end

mutual
  /-- As `refs2`; a loop that refers to the document references the whole array and the fields of the document. -/
  def refs3 : Expr E → List RPath
    | .cmp c l r => refs2 (.cmp c l r)
    | .not e => refs3 e
    | .and es => refs3s es
    | .or es => refs3s es
    | .loop m w i s => if rooted s then (inPath i :: rPaths s).map rkeys else refsE (.loop m w i s)
    | e => refsE e
  def refs3s : Exprs E → List RPath
    | .nil => []
    | .cons e r => refs3 e ++ refs3s r
end

/-! ### Values reached in documents that agree -/

theorem agree_same {L : RPath → Prop} {x y : D} (h : Agree L x y) (h0 : L []) : x = y := by
  cases h with
  | none hn => exact absurd h0 (hn _)
  | lit he => obtain ⟨rfl, rfl⟩ := he h0; rfl
  | obj he _ => exact he h0
  | arr he _ => exact he h0

theorem entered_agree {L : RPath → Prop} {x y : D} (h : Agree L x y) {p : RPath} (hp : L p) (K : List (Path × Bool)) : entered K x = entered K y := by
  cases h with
  | none hn => exact absurd hp (hn _)
  | lit _ => rfl
  | obj _ _ => rfl
  | arr _ he => cases he <;> rfl

/-- Arrays at a path on the way to something referenced agree. -/
theorem reach_loop_agree : ∀ (q : Path) {L : RPath → Prop} {K : List (Path × Bool)} {d d' : D}, Agree L d d' → (∃ p, L (rkeys q ++ p)) →
    All2 (Agree (fun p => L (rkeys q ++ p))) (reach true K q d) (reach true K q d')
  | [], L, K, d, d', h, _ => by simp only [reach, Bool.true_or, if_true]; exact .cons h .nil
  | k :: q, L, K, d, d', h, hp => by
    have hk : ∃ p, L (.key k :: p) := by obtain ⟨p, hp⟩ := hp; exact ⟨_, hp⟩
    have step : ∀ x y, Agree (fun p => L (.key k :: p)) x y →
        All2 (Agree (fun p => L (rkeys (k :: q) ++ p))) (reach true (below k K) q x) (reach true (below k K) q y) :=
      fun x y hxy => reach_loop_agree q hxy hp
    cases h with
    | none h => obtain ⟨p, hp⟩ := hp; exact absurd hp (h _)
    | lit _ => exact .nil
    | obj _ hm => rw [reach, reach]; exact (membersAt_agree hk hm).bind step
    | arr _ he =>
      rw [reach, reach]
      split
      · exact .nil
      · exact (elemsAt_agree he).bind step

/-- Values at which comparisons of something referenced below are made agree. -/
theorem reachA_agree : ∀ (q : Path) {L : RPath → Prop} {K : List (Path × Bool)} {d d' : D}, Agree L d d' → (∃ p, L (rkeys q ++ p)) →
    All2 (Agree (fun p => L (rkeys q ++ p))) (reachA K q d) (reachA K q d')
  | [], L, K, d, d', h, hp => by
    obtain ⟨p, hp⟩ := hp
    rw [reachA, reachA, entered_agree h hp K]
    split
    · exact .cons h .nil
    · exact .nil
  | k :: q, L, K, d, d', h, hp => by
    have hk : ∃ p, L (.key k :: p) := by obtain ⟨p, hp⟩ := hp; exact ⟨_, hp⟩
    have step : ∀ x y, Agree (fun p => L (.key k :: p)) x y →
        All2 (Agree (fun p => L (rkeys (k :: q) ++ p))) (reachA (below k K) q x) (reachA (below k K) q y) :=
      fun x y hxy => reachA_agree q hxy hp
    cases h with
    | none h => obtain ⟨p, hp⟩ := hp; exact absurd hp (h _)
    | lit _ => exact .nil
    | obj _ hm => rw [reachA, reachA]; exact (membersAt_agree hk hm).bind step
    | arr _ he =>
      rw [reachA, reachA]
      split
      · exact .nil
      · exact (elemsAt_agree he).bind step

/-- The values reached of something referenced are the same. -/
theorem reach_same_of_agree : ∀ (q : Path) {L : RPath → Prop} {K : List (Path × Bool)} {d d' : D}, Agree L d d' → L (rkeys q) →
    reach false K q d = reach false K q d'
  | [], L, K, d, d', h, hp => by rw [agree_same h hp]
  | k :: q, L, K, d, d', h, hp => by
    have step : ∀ x y, Agree (fun p => L (.key k :: p)) x y →
        All2 Eq (reach false (below k K) q x) (reach false (below k K) q y) := by
      intro x y hxy
      rw [reach_same_of_agree q hxy hp]
      generalize reach false (below k K) q y = l
      induction l with
      | nil => exact .nil
      | cons a l ih => exact .cons rfl ih
    have hk : ∃ p, L (.key k :: p) := ⟨_, hp⟩
    cases h with
    | none h => exact absurd hp (h _)
    | lit _ => simp [reach]
    | obj _ hm => rw [reach, reach]; exact ((membersAt_agree hk hm).bind step).eq (fun _ _ h => h)
    | arr _ he =>
      rw [reach, reach]
      split
      · rfl
      · exact ((elemsAt_agree he).bind step).eq (fun _ _ h => h)

/-- Elements of arrays whose elements are referenced agree. -/
theorem esList_agree {L : RPath → Prop} : ∀ {i : Nat} {es es' : Es}, AgreeE L i es es' → All2 (Agree (fun p => L (.each :: p))) (esList es) (esList es')
  | _, _, _, .nil => .nil
  | _, _, _, .cons hd he => .cons (hd.mono (fun _ hp => Or.inr hp)) (esList_agree he)

/-- Of arrays that agree, as lists of elements. -/
inductive OptAll2 (P : D → D → Prop) : Option (List D) → Option (List D) → Prop
  | none : OptAll2 P none none
  | some {l l' : List D} (h : All2 P l l') : OptAll2 P (some l) (some l')

theorem firstArr_agree {L : RPath → Prop} (hL : ∃ p, L p) {l l' : List D} (h : All2 (Agree L) l l') :
    OptAll2 (Agree (fun p => L (.each :: p))) (firstArr l) (firstArr l') := by
  induction h with
  | nil => exact .none
  | cons h _ ih =>
    cases h with
    | none h => obtain ⟨p, hp⟩ := hL; exact absurd hp (h _)
    | lit _ => simpa only [firstArr] using ih
    | obj _ _ => simpa only [firstArr] using ih
    | arr _ he => simp only [firstArr]; exact .some (esList_agree he)

theorem map_agree {β : Type} {P : D → D → Prop} {o o' : Option (List D)} (h : OptAll2 P o o') {f g : List D → β}
    (hfg : ∀ l l', All2 P l l' → f l = g l') : o.map f = o'.map g := by
  cases h with
  | none => rfl
  | some h => rw [Option.map_some, Option.map_some, hfg _ _ h]

theorem holds_agree {P : D → D → Prop} {f g : D → Bool} (hfg : ∀ x y, P x y → f x = g y) (m : Mode) {l l' : List D} (h : All2 P l l') :
    Mode.holds m f l = Mode.holds m g l' := by
  have e : l.map f = l'.map g := by
    induction h with
    | nil => rfl
    | cons h _ ih => rw [List.map_cons, List.map_cons, hfg _ _ h, ih]
  have a : l.any f = l'.any g := by simpa [List.any_map] using congrArg (fun x => x.any id) e
  have b : l.all f = l'.all g := by simpa [List.all_map] using congrArg (fun x => x.all id) e
  have c : l.isEmpty = l'.isEmpty := by cases h <;> rfl
  cases m <;> simp only [Mode.holds, a, b, c]

theorem head_map_agree {β : Type} {P : D → D → Prop} {f g : D → β} (hfg : ∀ x y, P x y → f x = g y) {l l' : List D} (h : All2 P l l') :
    l.head?.map f = l'.head?.map g := by
  cases h with
  | nil => rfl
  | cons h _ => simp only [List.head?_cons, Option.map_some, hfg _ _ h]

/-! ### Conditions on one field -/

section
variable (X : Fns E) (C : Comp E)

mutual
  theorem semR_agree : ∀ (e : Expr E) {L : RPath → Prop} {K : List (Path × Bool)} {d d' : D}, Agree L d d' → (∀ p ∈ refsE e, L p) →
      semR X C K e d = semR X C K e d'
    | .cmp c l r, L, K, d, d', h, hL => by rw [semR, semR, reach_same_of_agree _ h (hL _ (by simp [refsE]))]
    | .exist e, L, K, d, d', h, hL => by rw [semR, semR, reach_same_of_agree _ h (hL _ (by simp [refsE]))]
    | .notExist e, L, K, d, d', h, hL => by rw [semR, semR, reach_same_of_agree _ h (hL _ (by simp [refsE]))]
    | .not e, L, K, d, d', h, hL => by rw [refsE] at hL; rw [semR, semR, semR_agree e h hL]
    | .and es, L, K, d, d', h, hL => by rw [refsE] at hL; rw [semR, semR]; exact (semRs_agree es h hL).1
    | .or es, L, K, d, d', h, hL => by rw [refsE] at hL; rw [semR, semR]; exact (semRs_agree es h hL).2
    | .loop m w i s, L, K, d, d', h, hL => by
      rw [refsE] at hL
      rw [semR, semR]
      have hp : L (rkeys (inPath i) ++ [.len]) := hL _ List.mem_cons_self
      refine map_agree (firstArr_agree (L := fun p => L (rkeys (inPath i) ++ p)) ⟨[.len], hp⟩ (reach_loop_agree _ h ⟨_, hp⟩)) (fun l l' hl => holds_agree (fun x y hxy => ?_) m hl)
      rw [semR_agree s hxy (fun p hp => hL _ (List.mem_cons_of_mem _ (List.mem_map.2 ⟨p, hp, rfl⟩)))]
    | .tru, _, _, _, _, _, _ | .fals, _, _, _, _, _, _ | .value _, _, _, _, _, _, _ | .regex _, _, _, _, _, _, _ | .pcre _, _, _, _, _, _, _
    | .time _, _, _, _, _, _, _ | .field _, _, _, _, _, _, _ | .func .., _, _, _, _, _, _ => by simp [semR]
  theorem semRs_agree : ∀ (es : Exprs E) {L : RPath → Prop} {K : List (Path × Bool)} {d d' : D}, Agree L d d' → (∀ p ∈ refsEs es, L p) →
      semRAll X C K es d = semRAll X C K es d' ∧ semRAny X C K es d = semRAny X C K es d'
    | .nil, _, _, _, _, _, _ => by simp [semRAll, semRAny]
    | .cons e r, L, K, d, d', h, hL => by
      rw [refsEs] at hL
      obtain ⟨a, b⟩ := semRs_agree r (K := K) h (fun p hp => hL p (List.mem_append_right _ hp))
      have c := semR_agree e (K := K) h (fun p hp => hL p (List.mem_append_left _ hp))
      simp only [semRAll, semRAny, a, b, c, and_self]
end

mutual
  theorem topR_agree : ∀ (e : Expr E) {L : RPath → Prop} {K : List (Path × Bool)} {d d' : D}, Agree L d d' → (∀ p ∈ refsE e, L p) →
      topR X C K e d = topR X C K e d'
    | .cmp c l r, L, K, d, d', h, hL => by rw [topR, topR, reach_same_of_agree _ h (hL _ (by simp [refsE]))]
    | .exist e, L, K, d, d', h, hL => by rw [topR, topR, reach_same_of_agree _ h (hL _ (by simp [refsE]))]
    | .notExist e, L, K, d, d', h, hL => by rw [topR, topR, reach_same_of_agree _ h (hL _ (by simp [refsE]))]
    | .not e, L, K, d, d', h, hL => by rw [refsE] at hL; rw [topR, topR, topR_agree e h hL]
    | .and es, L, K, d, d', h, hL => by rw [refsE] at hL; rw [topR, topR]; exact (topRs_agree es h hL).1
    | .or es, L, K, d, d', h, hL => by rw [refsE] at hL; rw [topR, topR]; exact (topRs_agree es h hL).2
    | .loop m w i s, L, K, d, d', h, hL => by
      rw [refsE] at hL
      rw [topR, topR]
      have hp : L (rkeys (inPath i) ++ [.len]) := hL _ List.mem_cons_self
      rw [map_agree (firstArr_agree (L := fun p => L (rkeys (inPath i) ++ p)) ⟨[.len], hp⟩ (reach_loop_agree _ h ⟨_, hp⟩)) (fun l l' hl => holds_agree (fun x y hxy => ?_) m hl)]
      rw [semR_agree X C s hxy (fun p hp => hL _ (List.mem_cons_of_mem _ (List.mem_map.2 ⟨p, hp, rfl⟩)))]
    | .tru, _, _, _, _, _, _ | .fals, _, _, _, _, _, _ | .value _, _, _, _, _, _, _ | .regex _, _, _, _, _, _, _ | .pcre _, _, _, _, _, _, _
    | .time _, _, _, _, _, _, _ | .field _, _, _, _, _, _, _ | .func .., _, _, _, _, _, _ => by simp [topR]
  theorem topRs_agree : ∀ (es : Exprs E) {L : RPath → Prop} {K : List (Path × Bool)} {d d' : D}, Agree L d d' → (∀ p ∈ refsEs es, L p) →
      topRAll X C K es d = topRAll X C K es d' ∧ topRAny X C K es d = topRAny X C K es d'
    | .nil, _, _, _, _, _, _ => by simp [topRAll, topRAny]
    | .cons e r, L, K, d, d', h, hL => by
      rw [refsEs] at hL
      obtain ⟨a, b⟩ := topRs_agree r (K := K) h (fun p hp => hL p (List.mem_append_right _ hp))
      have c := topR_agree e (K := K) h (fun p hp => hL p (List.mem_append_left _ hp))
      simp only [topRAll, topRAny, a, b, c, and_self]
end

/-! ### Comparisons of several fields of an element -/

/-- The paths of a comparison split at the base. -/
theorem base_split {l r : Expr E} (hm : several l r = true) (ha : Loose (paths l ++ paths r)) :
    (∀ p ∈ paths l ++ paths r, p = base l r ++ p.drop (base l r).length) ∧ ∃ p, p ∈ paths l ++ paths r := by
  have hsp := splits_base hm ha
  obtain ⟨k0, p0, _, _, hmem, _⟩ := hsp.2
  refine ⟨fun p hp => ?_, _, hmem⟩
  obtain ⟨k, p', rfl⟩ := hsp.1 p hp
  rw [List.drop_left]

theorem rkeys_append (p q : Path) : rkeys (p ++ q) = rkeys p ++ rkeys q := List.map_append

theorem multiElem_agree {c : Cmp} {l r : Expr E} (hm : several l r = true) (ha : Loose (paths l ++ paths r)) {L : RPath → Prop}
    {K : List (Path × Bool)} {G G' : Env} (hG : ∀ p, L (rkeys p) → G p = G' p) {d d' : D} (h : Agree L d d')
    (hL : ∀ p ∈ paths l ++ paths r, L (rkeys p)) : multiElem X C K G c l r d = multiElem X C K G' c l r d' := by
  obtain ⟨hb, p0, hp0⟩ := base_split hm ha
  have h0 := hL _ hp0
  rw [hb p0 hp0, rkeys_append] at h0
  unfold multiElem
  simp only
  rw [head_map_agree (fun x y hxy => ?_) (reachA_agree (base l r) h ⟨_, h0⟩)]
  refine multiHolds_congr X C (fun p hp => ?_)
  have hLp := hL p hp
  have e := hb p hp
  unfold envElem seeing
  simp only
  rw [← e, hG p hLp, reach_same_of_agree _ hxy (by rw [← rkeys_append, ← e]; exact hLp)]

mutual
  theorem lsemR_agree : ∀ (e : Expr E) {L : RPath → Prop} {K : List (Path × Bool)} {G G' : Env} {d d' : D}, Frag2 C e →
      (∀ p, L (rkeys p) → G p = G' p) → Agree L d d' → (∀ p ∈ refs2 e, L p) → lsemR X C K G e d = lsemR X C K G' e d'
    | .cmp c l r, L, K, G, G', d, d', hf, hG, h, hL => by
      rw [Frag2] at hf; rw [refs2] at hL
      rw [lsemR, lsemR]
      by_cases hm : several l r = true
      · rw [if_pos hm] at hf hL
        rw [if_pos hm, if_pos hm]
        exact multiElem_agree X C hm hf.2.2 hG h (fun p hp => hL _ (List.mem_map.2 ⟨p, hp, rfl⟩))
      · rw [if_neg hm] at hL
        rw [if_neg hm, if_neg hm, semR_agree X C _ h hL]
    | .not e, L, K, G, G', d, d', hf, hG, h, hL => by
      rw [Frag2] at hf; rw [refs2] at hL; rw [lsemR, lsemR, lsemR_agree e hf hG h hL]
    | .and es, L, K, G, G', d, d', hf, hG, h, hL => by
      rw [Frag2] at hf; rw [refs2] at hL; rw [lsemR, lsemR, (lsemRs_agree es hf hG h hL).1]
    | .or es, L, K, G, G', d, d', hf, hG, h, hL => by
      rw [Frag2] at hf; rw [refs2] at hL; rw [lsemR, lsemR, (lsemRs_agree es hf hG h hL).2]
    | .exist e, L, K, G, G', d, d', hf, hG, h, hL | .notExist e, L, K, G, G', d, d', hf, hG, h, hL
    | .loop .., L, K, G, G', d, d', hf, hG, h, hL | .tru, L, K, G, G', d, d', hf, hG, h, hL
    | .fals, L, K, G, G', d, d', hf, hG, h, hL | .value _, L, K, G, G', d, d', hf, hG, h, hL
    | .regex _, L, K, G, G', d, d', hf, hG, h, hL | .pcre _, L, K, G, G', d, d', hf, hG, h, hL
    | .time _, L, K, G, G', d, d', hf, hG, h, hL | .field _, L, K, G, G', d, d', hf, hG, h, hL
    | .func .., L, K, G, G', d, d', hf, hG, h, hL => by
      simp only [refs2] at hL; simp only [lsemR]; exact semR_agree X C _ h hL
  theorem lsemRs_agree : ∀ (es : Exprs E) {L : RPath → Prop} {K : List (Path × Bool)} {G G' : Env} {d d' : D}, Frag2s C es →
      (∀ p, L (rkeys p) → G p = G' p) → Agree L d d' → (∀ p ∈ refs2s es, L p) →
      lsemRAll X C K G es d = lsemRAll X C K G' es d' ∧ lsemRAny X C K G es d = lsemRAny X C K G' es d'
    | .nil, _, _, _, _, _, _, hf, _, _, _ => by simp [Frag2s] at hf
    | .cons e .nil, L, K, G, G', d, d', hf, hG, h, hL => by
      rw [Frag2s] at hf; rw [refs2s] at hL
      have := lsemR_agree e (K := K) hf hG h (fun p hp => hL p (List.mem_append_left _ hp))
      simp only [lsemRAll, lsemRAny, this, and_self]
    | .cons e (.cons e' r), L, K, G, G', d, d', hf, hG, h, hL => by
      rw [Frag2s] at hf; rw [refs2s] at hL
      obtain ⟨a, b⟩ := lsemRs_agree (.cons e' r) (K := K) hf.2 hG h (fun p hp => hL p (List.mem_append_right _ hp))
      have c := lsemR_agree e (K := K) hf.1 hG h (fun p hp => hL p (List.mem_append_left _ hp))
      constructor
      · rw [lsemRAll, a, c]; rfl
      · rw [lsemRAny, b, c]; rfl
end

theorem elemVals_agree {s : Expr E} (hf : Frag2 C (rebase s)) {L : RPath → Prop} (hL : ∀ p ∈ refs2 (rebase s), L p) {l l' : List D}
    (h : All2 (Agree L) l l') : ∀ {G G' : Env}, (∀ p, L (rkeys p) → G p = G' p) → elemVals X C s G l = elemVals X C s G' l' := by
  induction h with
  | nil => intro G G' _; rfl
  | cons h _ ih =>
    intro G G' hG
    rw [elemVals, elemVals, lsemR_agree X C (rebase s) hf hG h hL, ih (fun p hp => ?_)]
    unfold seeing
    rw [hG p hp, reach_same_of_agree _ h hp]

mutual
  theorem etopR_agree : ∀ (e : Expr E) {L : RPath → Prop} {K : List (Path × Bool)} {d d' : D}, EFrag C e → Agree L d d' → (∀ p ∈ refs5 e, L p) →
      etopR X C K e d = etopR X C K e d'
    | .not e, L, K, d, d', hf, h, hL => by rw [EFrag] at hf; rw [refs5] at hL; rw [etopR, etopR, etopR_agree e hf h hL]
    | .and es, L, K, d, d', hf, h, hL => by rw [EFrag] at hf; rw [refs5] at hL; rw [etopR, etopR]; exact (etopRs_agree es hf h hL).1
    | .or es, L, K, d, d', hf, h, hL => by rw [EFrag] at hf; rw [refs5] at hL; rw [etopR, etopR]; exact (etopRs_agree es hf h hL).2
    | .loop m w i s, L, K, d, d', hf, h, hL => by
      rw [EFrag] at hf; rw [refs5] at hL
      rw [etopR, etopR]
      have hp : L (rkeys (inPath i) ++ [.len]) := hL _ List.mem_cons_self
      rw [map_agree (firstArr_agree (L := fun p => L (rkeys (inPath i) ++ p)) ⟨[.len], hp⟩ (reach_loop_agree _ h ⟨_, hp⟩)) (fun l l' hl => ?_)]
      rw [loopVal, loopVal, elemVals_agree X C hf.2.frag
        (fun p hp => hL _ (List.mem_cons_of_mem _ (List.mem_map.2 ⟨p, hp, rfl⟩))) hl (fun _ _ => rfl)]
    | .cmp .., L, K, d, d', hf, h, hL | .exist e, L, K, d, d', hf, h, hL | .notExist e, L, K, d, d', hf, h, hL
    | .tru, L, K, d, d', hf, h, hL | .fals, L, K, d, d', hf, h, hL | .value _, L, K, d, d', hf, h, hL
    | .regex _, L, K, d, d', hf, h, hL | .pcre _, L, K, d, d', hf, h, hL | .time _, L, K, d, d', hf, h, hL
    | .field _, L, K, d, d', hf, h, hL | .func .., L, K, d, d', hf, h, hL => by
      simp only [refs5] at hL; simp only [etopR]; exact topR_agree X C _ h hL
  theorem etopRs_agree : ∀ (es : Exprs E) {L : RPath → Prop} {K : List (Path × Bool)} {d d' : D}, EFrags C es → Agree L d d' →
      (∀ p ∈ refs5s es, L p) → etopRAll X C K es d = etopRAll X C K es d' ∧ etopRAny X C K es d = etopRAny X C K es d'
    | .nil, _, _, _, _, hf, _, _ => by simp [EFrags] at hf
    | .cons e .nil, L, K, d, d', hf, h, hL => by
      rw [EFrags] at hf; rw [refs5s] at hL
      have := etopR_agree e (K := K) hf h (fun p hp => hL p (List.mem_append_left _ hp))
      simp only [etopRAll, etopRAny, this, and_self]
    | .cons e (.cons e' r), L, K, d, d', hf, h, hL => by
      rw [EFrags] at hf; rw [refs5s] at hL
      obtain ⟨a, b⟩ := etopRs_agree (.cons e' r) (K := K) hf.2 h (fun p hp => hL p (List.mem_append_right _ hp))
      have c := etopR_agree e (K := K) hf.1 h (fun p hp => hL p (List.mem_append_left _ hp))
      constructor
      · rw [etopRAll, a, c]; rfl
      · rw [etopRAny, b, c]; rfl
end

/-! ### Comparisons of several fields, and loops that refer to the document -/

theorem multiTopR_agree {c : Cmp} {l r : Expr E} (hm : several l r = true) (ha : Loose (paths l ++ paths r)) {L : RPath → Prop}
    {K : List (Path × Bool)} {d d' : D} (hs : scalar d = scalar d') (h : Agree L d d') (hL : ∀ p ∈ paths l ++ paths r, L (rkeys p)) :
    multiTopR X C K c l r d = multiTopR X C K c l r d' := by
  obtain ⟨hb, p0, hp0⟩ := base_split hm ha
  have h0 := hL _ hp0
  rw [hb p0 hp0, rkeys_append] at h0
  unfold multiTopR
  simp only
  rw [head_map_agree (fun x y hxy => ?_) (reachA_agree (base l r) h ⟨_, h0⟩)]
  refine multiHolds_congr X C (fun p hp => ?_)
  have hLp := hL p hp
  have e := hb p hp
  unfold envR
  rw [hs, reach_same_of_agree _ hxy (by rw [← rkeys_append, ← e]; exact hLp)]

mutual
  theorem rsemR_env {env env' : Env} : ∀ (e : Expr E) {K : List (Path × Bool)} (d : D), (∀ p ∈ rPaths e, env p = env' p) →
      rsemR X C env K e d = rsemR X C env' K e d
    | .cmp c l r, K, d, h => by rw [rPaths] at h; rw [rsemR, rsemR, rHolds_congr X C h]
    | .exist e, K, d, h => by rw [rsemR, rsemR]
    | .not e, K, d, h => by rw [rPaths] at h; rw [rsemR, rsemR, rsemR_env e d h]
    | .and es, K, d, h => by rw [rPaths] at h; rw [rsemR, rsemR]; exact (rsemRs_env es d h).1
    | .or es, K, d, h => by rw [rPaths] at h; rw [rsemR, rsemR]; exact (rsemRs_env es d h).2
    | .loop m w i s, K, d, h => by rw [rPaths] at h; rw [rsemR, rsemR]; simp only [fun x => rsemR_env s (K := rConds s) x h]
    | .tru, _, _, _ | .fals, _, _, _ | .notExist _, _, _, _ | .value _, _, _, _ | .regex _, _, _, _ | .pcre _, _, _, _
    | .time _, _, _, _ | .field _, _, _, _ | .func .., _, _, _ => by simp [rsemR]
  theorem rsemRs_env {env env' : Env} : ∀ (es : Exprs E) {K : List (Path × Bool)} (d : D), (∀ p ∈ rPathsAll es, env p = env' p) →
      rsemRAll X C env K es d = rsemRAll X C env' K es d ∧ rsemRAny X C env K es d = rsemRAny X C env' K es d
    | .nil, _, _, _ => by simp [rsemRAll, rsemRAny]
    | .cons e r, K, d, h => by
      rw [rPathsAll] at h
      obtain ⟨a, b⟩ := rsemRs_env r (K := K) d (fun p hp => h p (List.mem_append_right _ hp))
      have c := rsemR_env e (K := K) d (fun p hp => h p (List.mem_append_left _ hp))
      simp only [rsemRAll, rsemRAny, a, b, c, and_self]
end

/-- The decision of a loop that refers to the document depends on its array and on the fields. -/
theorem rootedLoopR_agree {m : Mode} {i s : Expr E} {d d' : D} (hd : ∀ ws es, d ≠ .arr ws es) (hd' : ∀ ws es, d' ≠ .arr ws es) {env env' : Env}
    (h : ∀ p ∈ inPath i :: rPaths s, env p = env' p) : rootedLoopR X C m i s d env = rootedLoopR X C m i s d' env' := by
  unfold rootedLoopR
  rw [h _ List.mem_cons_self]
  have hr : ∀ x, rsemR X C env (rConds s) s x = rsemR X C env' (rConds s) s x :=
    fun x => rsemR_env X C s x (fun p hp => h p (List.mem_cons_of_mem _ hp))
  cases e : env' (inPath i) with
  | some x => simp only [Option.getD_some, hr]
  | none =>
    match d, d', hd, hd' with
    | .arr ws es, _, hd, _ => exact absurd rfl (hd ws es)
    | _, .arr ws es, _, hd' => exact absurd rfl (hd' ws es)
    | .obj .., .obj .., _, _ | .obj .., .lit .., _, _ | .lit .., .obj .., _, _ | .lit .., .lit .., _, _ => rfl

theorem decideAt_agree {F F' : Env → Option Bool} {K : List (Path × Bool)} {L : RPath → Prop}
    (hF : ∀ g g' : Env, (∀ p, L (rkeys p) → g p = g' p) → F g = F' g') {l l' : List D} (h : All2 (Agree L) l l') :
    ∀ {g g' : Env}, (∀ p, L (rkeys p) → g p = g' p) → decideAt F K g l = decideAt F' K g' l' := by
  induction h with
  | nil => intro g g' _; rfl
  | @cons x y _ _ h _ ih =>
    intro g g' hg
    have hs : ∀ p, L (rkeys p) → seeing K g x p = seeing K g' y p := by
      intro p hp
      unfold seeing
      rw [hg p hp, reach_same_of_agree _ h hp]
    rw [decideAt, decideAt, hF _ _ hs, ih hs]

theorem rootedTopR_agree {m : Mode} {i s : Expr E} (ha : Loose (inPath i :: rPaths s)) {L : RPath → Prop}
    {K : List (Path × Bool)} {d d' : D} (hd : ∃ ws ms, d = .obj ws ms) (hd' : ∃ ws ms, d' = .obj ws ms) (h : Agree L d d')
    (hL : ∀ p ∈ inPath i :: rPaths s, L (rkeys p)) : rootedTopR X C K m i s d = rootedTopR X C K m i s d' := by
  obtain ⟨ws, ms, rfl⟩ := hd
  obtain ⟨ws', ms', rfl⟩ := hd'
  have hb : ∀ p ∈ inPath i :: rPaths s, p = loopBase i s ++ p.drop (loopBase i s).length := fun p hp => by
    obtain ⟨k, p', e⟩ := (splits_of_loose (by simp) ha).1 p hp
    rw [loopBase, e, List.drop_left]
  have h0 := hL _ List.mem_cons_self
  rw [hb _ List.mem_cons_self, rkeys_append] at h0
  unfold rootedTopR
  rw [decideAt_agree (L := fun p => L (rkeys (loopBase i s) ++ p)) (fun g g' hg => ?_) (reachA_agree _ h ⟨_, h0⟩) (fun _ _ => rfl)]
  refine rootedLoopR_agree X C (by simp) (by simp) (fun p hp => ?_)
  unfold fieldsAt
  rw [hg _ (by rw [← rkeys_append, ← hb p hp]; exact hL p hp)]
  rfl

mutual
  theorem top2R_agree {L : RPath → Prop} {K : List (Path × Bool)} {d d' : D} (hs : scalar d = scalar d') (h : Agree L d d') : ∀ (e : Expr E), Frag2 C e →
      (NoRooted e ∨ (∃ ws ms, d = .obj ws ms) ∧ ∃ ws ms, d' = .obj ws ms) → (∀ p ∈ refs3 e, L p) → top2R X C K e d = top2R X C K e d'
    | .cmp c l r, hf, _, hL => by
      rw [Frag2] at hf; rw [refs3, refs2] at hL
      rw [top2R, top2R]
      by_cases hm : several l r = true
      · rw [if_pos hm] at hf hL
        rw [if_pos hm, if_pos hm]
        exact multiTopR_agree X C hm hf.2.2 hs h (fun p hp => hL _ (List.mem_map.2 ⟨p, hp, rfl⟩))
      · rw [if_neg hm] at hL
        rw [if_neg hm, if_neg hm, topR_agree X C _ h hL]
    | .not e, hf, hn, hL => by
      rw [Frag2] at hf; rw [refs3] at hL; rw [NoRooted] at hn; rw [top2R, top2R, top2R_agree hs h e hf hn hL]
    | .and es, hf, hn, hL => by
      rw [Frag2] at hf; rw [refs3] at hL; rw [NoRooted] at hn; rw [top2R, top2R, (top2Rs_agree hs h es hf hn hL).1]
    | .or es, hf, hn, hL => by
      rw [Frag2] at hf; rw [refs3] at hL; rw [NoRooted] at hn; rw [top2R, top2R, (top2Rs_agree hs h es hf hn hL).2]
    | .loop m w i s, hf, hn, hL => by
      rw [Frag2] at hf; rw [refs3] at hL; rw [NoRooted] at hn
      rw [top2R, top2R]
      by_cases hm : rooted s = true
      · rw [if_pos hm] at hf hL
        rw [if_pos hm, if_pos hm]
        rcases hn with hn | ⟨h1, h2⟩
        · rw [hm] at hn; cases hn
        · exact rootedTopR_agree X C hf.2.2.2.2 h1 h2 h (fun p hp => hL _ (List.mem_map.2 ⟨p, hp, rfl⟩))
      · rw [if_neg hm] at hL
        rw [if_neg hm, if_neg hm, topR_agree X C _ h hL]
    | .exist e, hf, hn, hL | .notExist e, hf, hn, hL | .tru, hf, hn, hL | .fals, hf, hn, hL | .value _, hf, hn, hL
    | .regex _, hf, hn, hL | .pcre _, hf, hn, hL | .time _, hf, hn, hL | .field _, hf, hn, hL | .func .., hf, hn, hL => by
      simp only [refs3] at hL; simp only [top2R]; exact topR_agree X C _ h hL
  theorem top2Rs_agree {L : RPath → Prop} {K : List (Path × Bool)} {d d' : D} (hs : scalar d = scalar d') (h : Agree L d d') : ∀ (es : Exprs E), Frag2s C es →
      (NoRootedAll es ∨ (∃ ws ms, d = .obj ws ms) ∧ ∃ ws ms, d' = .obj ws ms) → (∀ p ∈ refs3s es, L p) →
      top2RAll X C K es d = top2RAll X C K es d' ∧ top2RAny X C K es d = top2RAny X C K es d'
    | .nil, hf, _, _ => by simp [Frag2s] at hf
    | .cons e .nil, hf, hn, hL => by
      rw [Frag2s] at hf; rw [refs3s] at hL
      have := top2R_agree (K := K) hs h e hf (hn.imp (fun hn => by rw [NoRootedAll] at hn; exact hn.1) id) (fun p hp => hL p (List.mem_append_left _ hp))
      simp only [top2RAll, top2RAny, this, and_self]
    | .cons e (.cons e' r), hf, hn, hL => by
      rw [Frag2s] at hf; rw [refs3s] at hL
      obtain ⟨a, b⟩ := top2Rs_agree (K := K) hs h (.cons e' r) hf.2 (hn.imp (fun hn => by rw [NoRootedAll] at hn; exact hn.2) id)
        (fun p hp => hL p (List.mem_append_right _ hp))
      have c := top2R_agree (K := K) hs h e hf.1 (hn.imp (fun hn => by rw [NoRootedAll] at hn; exact hn.1) id)
        (fun p hp => hL p (List.mem_append_left _ hp))
      constructor
      · rw [top2RAll, a, c]; rfl
      · rw [top2RAny, b, c]; rfl
end

end

/-! ### The claims -/

theorem any_same {α : Type} {l : List α} {f g : α → Bool} (h : ∀ x ∈ l, f x = g x) : l.any f = l.any g := by
  rw [Bool.eq_iff_iff, List.any_eq_true, List.any_eq_true]
  constructor
  · rintro ⟨x, hx, h'⟩; exact ⟨x, hx, by rw [← h x hx]; exact h'⟩
  · rintro ⟨x, hx, h'⟩; exact ⟨x, hx, by rw [h x hx]; exact h'⟩

/-- C25 for conditions on one field and loops over arrays of the document whose bodies compare any number of fields of the element: any two
documents that agree on the referenced fields get the same verdict. -/
theorem C25_elements_partial (X : Fns E) (C : Comp E) (slot0 : Nat) {es : List (Expr E)} {g : Expr E} {gs : List (Expr E)}
    (hg : genExprs es = g :: gs) (hfrag : ∀ x ∈ g :: gs, EFrag C x) (hsafe : ∀ x ∈ g :: gs, SafeE x) {data data' : List Nat} {r r' : D}
    (hr : Begins data r) (hr' : Begins data' r') (hs : Agree (fun p => ∃ x ∈ g :: gs, p ∈ refs5 x) r r') :
    ∃ df, transform C slot0 es = .ok df ∧ ∀ m m', Ready df m → Ready df m' →
      ∃ b m1 m2, run X df m data = .ok (some b, m1) ∧ run X df m' data' = .ok (some b, m2) := by
  obtain ⟨df, h1, h2⟩ := C85_verdict X C slot0 hg hfrag hsafe hr
  obtain ⟨df', h1', h2'⟩ := C85_verdict X C slot0 hg hfrag hsafe hr'
  rw [h1] at h1'
  cases h1'
  refine ⟨df, h1, fun m m' hm hm' => ?_⟩
  obtain ⟨m1, e1⟩ := h2 m hm
  obtain ⟨m2, e2⟩ := h2' m' hm'
  refine ⟨_, m1, m2, e1, ?_⟩
  rw [any_same (fun x hx => etopR_agree X C x (hfrag x hx) hs (fun p hp => ⟨x, hx, hp⟩))]
  exact e2

/-- C25 for conditions on one field, comparisons of several fields and loops, also loops that refer to the document: any two objects that agree on
the referenced fields get the same verdict, and so do any two arrays if no loop refers to the document. -/
theorem C25_fields_partial (X : Fns E) (C : Comp E) (slot0 : Nat) {es : List (Expr E)} {g : Expr E} {gs : List (Expr E)}
    (hg : genExprs es = g :: gs) (hfrag : ∀ x ∈ g :: gs, Frag2 C x) (hsafe : ∀ x ∈ g :: gs, SafeE x) {data data' : List Nat} {r r' : D}
    (hr : Begins data r) (hr' : Begins data' r') (hd : ∀ ty w, r ≠ .lit ty w) (hd' : ∀ ty w, r' ≠ .lit ty w)
    (hro : (∀ x ∈ g :: gs, NoRooted x) ∨ (∃ ws ms, r = .obj ws ms) ∧ ∃ ws ms, r' = .obj ws ms)
    (hs : Agree (fun p => ∃ x ∈ g :: gs, p ∈ refs3 x) r r') :
    ∃ df, transform C slot0 es = .ok df ∧ ∀ m m', Ready df m → Ready df m' →
      ∃ b m1 m2, run X df m data = .ok (some b, m1) ∧ run X df m' data' = .ok (some b, m2) := by
  obtain ⟨df, h1, h2⟩ := C84_verdict X (slot0 := slot0) hg hfrag hsafe hr
  obtain ⟨df', h1', h2'⟩ := C84_verdict X (slot0 := slot0) hg hfrag hsafe hr'
  rw [h1] at h1'
  cases h1'
  refine ⟨df, h1, fun m m' hm hm' => ?_⟩
  obtain ⟨m1, e1⟩ := h2 m hm
  obtain ⟨m2, e2⟩ := h2' m' hm'
  refine ⟨_, m1, m2, e1, ?_⟩
  have hsc : ∀ {d : D}, (∀ ty w, d ≠ .lit ty w) → scalar d = none := by
    intro d hd
    cases d with
    | lit ty w => exact absurd rfl (hd ty w)
    | _ => rfl
  rw [any_same (fun x hx => top2R_agree X C (by rw [hsc hd, hsc hd']) hs x (hfrag x hx) (hro.imp (fun h => h x hx) id)
    (fun p hp => ⟨x, hx, hp⟩))]
  exact e2

/-- Arrays without any of the fields agree, but a loop that refers to the document runs over the document: `ANY v IN a SATISFIES v = 1 OR v = b`
matches `[1]` and not `[2]`. -/
theorem C25_rooted_negation :
    Agree (fun p => p ∈ refs3 (E := demoExt) (.loop .any 1 fieldA (.or (.cons (.cmp .eq elemV one) (.cons (.cmp .eq elemV fieldB) .nil)))))
      (.arr [] (.cons (.lit .integer [49]) [] [] .nil)) (.arr [] (.cons (.lit .integer [50]) [] [] .nil)) ∧
    verdictOf (.loop .any 1 fieldA (.or (.cons (.cmp .eq elemV one) (.cons (.cmp .eq elemV fieldB) .nil)))) [91, 49, 93] = .ok (some true) ∧
    verdictOf (.loop .any 1 fieldA (.or (.cons (.cmp .eq elemV one) (.cons (.cmp .eq elemV fieldB) .nil)))) [91, 50, 93] = .ok (some false) := by
  refine ⟨?_, by decide +kernel, by decide +kernel⟩
  have hL : ∀ p, p ∈ refs3 (E := demoExt) (.loop .any 1 fieldA (.or (.cons (.cmp .eq elemV one) (.cons (.cmp .eq elemV fieldB) .nil)))) →
      p = [.key [97]] ∨ p = [.key [98]] := by
    intro p hp
    rw [refs3, if_pos (by rfl)] at hp
    simpa [rkeys, inPath, rPaths, rPathsAll, rootPaths, fieldA, fieldB, elemV, one] using hp
  have h0 : indexKey 0 ≠ [97] ∧ indexKey 0 ≠ [98] := by decide
  exact Agree.mono hL (.arr (by simp) (.cons (.lit (fun h => by simp [h0.1, h0.2] at h)) .nil))

/-! ### Examples -/

/-- `{"a":[{"a":1},{"c":1,"b":1}]}` agrees with `{"a":[{"a":1},{"b":1}]}` on the members `a` and `b` of the elements. -/
def docSplitC : D := .obj [] (.cons .string [34, 97, 34] [] [] (.arr [] (.cons
  (.obj [] (.cons .string [34, 97, 34] [] [] (.lit .integer [49]) [] [] .nil)) [] []
  (.cons (.obj [] (.cons .string [34, 99, 34] [] [] (.lit .integer [49]) [] [] (.cons .string [34, 98, 34] [] [] (.lit .integer [49]) [] [] .nil)))
    [] [] .nil))) [] [] .nil)

def textSplitC : List Nat := [123, 34, 97, 34, 58, 91, 123, 34, 97, 34, 58, 49, 125, 44, 123, 34, 99, 34, 58, 49, 44, 34, 98, 34, 58, 49, 125, 93, 125]

theorem docSplitC_text : Begins textSplitC docSplitC :=
  ⟨by simp [docSplitC, D.WF, Ms.WF, Es.WF, Token.IsWs, text_a, text_b, text_c, text_1, Tok.isLiteral], [], [], by simp [Token.IsWs],
    trivial, rfl⟩

example : ∃ df, transform demoComp 0 [.loop .every 1 fieldA bodyAB] = .ok df ∧ ∀ m m', Ready df m → Ready df m' →
    ∃ b m1 m2, run demoFns df m textSplit = .ok (some b, m1) ∧ run demoFns df m' textSplitC = .ok (some b, m2) := by
  refine C25_elements_partial demoFns demoComp 0 rfl (fun x hx => by rw [List.mem_singleton.1 hx]; exact ⟨rfl, bodyAB_body⟩)
    (fun x hx => by rw [List.mem_singleton.1 hx]; simp [SafeE, SafeEs, SafeParam, bodyAB, one]) docSplit_text docSplitC_text ?_
  have hL : ∀ p, (∃ x ∈ [Expr.loop .every 1 fieldA bodyAB], p ∈ refs5 x) →
      p = [.key [97], .len] ∨ p = [.key [97], .each, .key [97]] ∨ p = [.key [97], .each, .key [98]] := by
    rintro p ⟨x, hx, hp⟩
    rw [List.mem_singleton.1 hx] at hp
    have h1 : several (E := demoExt) (.field ⟨0, [[97]]⟩) (.field ⟨0, [[98]]⟩) = true := by decide
    have h2 : several (E := demoExt) (.field ⟨0, [[97]]⟩) one = false := by decide
    have h3 : rebase one = one := rfl
    simp only [refs5, bodyAB, rebase, rebases, h3, refs2, refs2s, h1, h2, if_true, Bool.false_eq_true, if_false] at hp
    simp [rkeys, inPath, fieldA, paths, refsE, condPath, fieldPath, one] at hp
    rcases hp with h | h | h | h <;> simp [h]
  have hk : memberKey .string [34, 97, 34] = [97] := by decide
  have hc : memberKey .string [34, 99, 34] = [99] := by decide
  have hi : indexKey 0 ≠ [97] ∧ indexKey 1 ≠ [97] := by decide
  refine Agree.mono hL (.obj (by simp) (.both rfl (.arr (by simp) (.cons ?_ (.cons ?_ .nil))) .nil))
  · exact .obj (by simp) (.both rfl (.lit (fun _ => ⟨rfl, rfl⟩)) .nil)
  · refine .obj (by simp) (.right (fun p => ?_) (.both rfl (.lit (fun _ => ⟨rfl, rfl⟩)) .nil))
    rw [hc]; simp

/-- `{"c":1,"a":[1],"b":1}` -/
def docCL1 : D := .obj [] (.cons .string [34, 99, 34] [] [] (.lit .integer [49]) [] []
  (.cons .string [34, 97, 34] [] [] (.arr [] (.cons (.lit .integer [49]) [] [] .nil)) [] []
  (.cons .string [34, 98, 34] [] [] (.lit .integer [49]) [] [] .nil)))
def textCL1 : List Nat := [123, 34, 99, 34, 58, 49, 44, 34, 97, 34, 58, 91, 49, 93, 44, 34, 98, 34, 58, 49, 125]

theorem docCL1_text : Begins textCL1 docCL1 :=
  ⟨by simp [docCL1, D.WF, Ms.WF, Es.WF, Token.IsWs, text_a, text_b, text_c, text_1, Tok.isLiteral], [], [], by simp [Token.IsWs],
    trivial, rfl⟩

example : ∃ df, transform demoComp 0 demoRooted = .ok df ∧ ∀ m m', Ready df m → Ready df m' →
    ∃ b m1 m2, run demoFns df m textL1 = .ok (some b, m1) ∧ run demoFns df m' textCL1 = .ok (some b, m2) := by
  refine C25_fields_partial demoFns demoComp 0 (es := demoRooted) rfl (fun x hx => (demoRooted_frag x hx).1)
    (fun x hx => (demoRooted_frag x hx).2.1) docL1_text docCL1_text (by intro ty w h; cases h) (by intro ty w h; cases h)
    (Or.inr ⟨⟨_, _, rfl⟩, _, _, rfl⟩) ?_
  have hL : ∀ p, (∃ x ∈ demoRooted, p ∈ refs3 x) → p = [.key [97]] ∨ p = [.key [98]] := by
    rintro p ⟨x, hx, hp⟩
    have h1 : ∀ c, rooted (E := demoExt) (.cmp c elemV fieldB) = true := fun _ => rfl
    have h2 : several fieldB one = false := by decide
    simp only [demoRooted, List.mem_cons, List.not_mem_nil, or_false] at hx
    rcases hx with rfl | rfl <;> simp only [refs3, refs3s, refs2, h1, h2, if_true, Bool.false_eq_true, if_false] at hp <;>
      simp [rkeys, inPath, rPaths, rootPaths, refsE, condPath, fieldPath, fieldA, fieldB, elemV, one] at hp
    · exact hp
    · rcases hp with h | h <;> simp [h]
  have hk : memberKey .string [34, 99, 34] = [99] := by decide
  refine Agree.mono hL (.obj (by simp) (.right ?_ (.both rfl (.arr (fun _ => rfl) (.cons (.lit (fun _ => ⟨rfl, rfl⟩)) .nil))
    (.both rfl (.lit (fun _ => ⟨rfl, rfl⟩)) .nil))))
  intro p; rw [hk]; simp

end Verif.Transform
