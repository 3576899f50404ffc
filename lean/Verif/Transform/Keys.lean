import Verif.Transform.Order

/-!
# Keys written with escapes
-/

namespace Verif.Transform
open Verif.FastVal Verif.Match Verif.Expr
open Verif.Token (D Es Ms Tok)
open Verif.Lit (Ch litText litTok chBytes)

variable {E : Ext}

/-- Members with given spelled keys and values. -/
def spelled : List (List Ch × D) → Ms
  | [] => .nil
  | (cs, d) :: l => .cons (litTok cs) (litText cs) [] [] d [] [] (spelled l)

theorem memberKey_spelled (cs : List Ch) (hw : ∀ c ∈ cs, c.WF) : memberKey (litTok cs) (litText cs) = chBytes cs :=
  memberKey_ok (keyBytes_spelled cs hw)

/-- The values a path step finds are those of the members whose keys denote it. -/
theorem C40_path (k : List Nat) : ∀ l : List (List Ch × D), (∀ x ∈ l, ∀ c ∈ x.1, c.WF) →
    membersAt k (spelled l) = (l.filter (fun x => decide (chBytes x.1 = k))).map Prod.snd
  | [], _ => rfl
  | (cs, d) :: l, h => by
    rw [spelled, membersAt, memberKey_spelled cs (h _ List.mem_cons_self), C40_path k l (fun x hx => h x (List.mem_cons_of_mem _ hx))]
    by_cases hk : chBytes cs = k
    · simp [hk]
    · simp [hk]

/-- **C40.** A condition on the field `k` holds for an object exactly if it holds for the first member whose key, however it is
spelled, denotes `k` (and none of these members is an empty array, for which the matcher does not evaluate conditions). -/
theorem C40_match (X : Fns E) (C : Comp E) (slot0 : Nat) (c : Cmp) (k : List Nat) (g : GoVal E) (l : List (List Ch × D))
    (hw : ∀ x ∈ l, ∀ c ∈ x.1, c.WF) {data : List Nat} {ws : List Nat} (hr : Begins data (.obj ws (spelled l)))
    (hne : ∀ x ∈ l, chBytes x.1 = k → ¬ EmptyArr x.2) :
    ∃ df, transform C slot0 [.cmp c (.field ⟨0, [k]⟩) (.value g)] = .ok df ∧ ∀ m, Ready df m → ∃ m', run X df m data =
      .ok (some (match l.find? (fun x => decide (chBytes x.1 = k)) with
        | some x => condHolds X C c (.field ⟨0, [k]⟩) (.value g) x.2
        | none => decide (c = .ne)), m') := by
  have hp : condPath (.field ⟨0, [k]⟩) (.value g : Expr E) = [k] := by simp [condPath, fieldPath]
  have hwalk : walk [k] (.obj ws (spelled l)) = (l.filter (fun x => decide (chBytes x.1 = k))).map Prod.snd := by
    rw [walk, C40_path k l hw]
    simp [walk, List.flatMap_singleton']
  have hconds : condsOf [(.cmp c (.field ⟨0, [k]⟩) (.value g) : Expr E)] = [([k], false)] := by
    simp [condsOf, conds, hp]
  obtain ⟨df, h1, h2⟩ := C22_match_partial X C slot0 (es := [.cmp c (.field ⟨0, [k]⟩) (.value g)])
    (g := .cmp c (.field ⟨0, [k]⟩) (.value g)) (gs := []) rfl
    (by simp [Frag, Param, hp]) (by simp [SafeE, SafeParam]) (by simp [LoopFree]) hr
    ⟨by
      intro q hq x hx he
      rw [hconds] at hq
      simp only [List.mem_singleton, Prod.mk.injEq, and_true] at hq
      subst hq
      rw [hwalk] at hx
      obtain ⟨y, hy, rfl⟩ := List.mem_map.1 hx
      obtain ⟨hy, hk⟩ := List.mem_filter.1 hy
      exact absurd he (hne y hy (of_decide_eq_true hk)), by
      intro q hq x hx he k' p' b hc
      rw [hconds] at hq hc
      simp only [List.mem_singleton, Prod.mk.injEq, and_true] at hq hc
      subst hq
      have := congrArg List.length hc.1
      simp at this, by
      intro q hq
      rw [hconds] at hq
      simp at hq⟩
  refine ⟨df, h1, fun m hm => ?_⟩
  obtain ⟨m', h⟩ := h2 m hm
  refine ⟨m', ?_⟩
  rw [h]
  simp only [List.any_cons, List.any_nil, Bool.or_false, truth, hp, hwalk, List.head?_map, List.head?_filter]
  cases l.find? (fun x => decide (chBytes x.1 = k)) <;> rfl

/-- `{"\u0061":1}`, matched by `$doc.a = 1`. -/
def spellA : List Ch := [.uni ⟨0x30, 0x30, 0x36, 0x31⟩]

theorem spellA_WF : ∀ c ∈ spellA, c.WF := by
  intro c hc
  rw [spellA, List.mem_singleton] at hc; subst hc
  simp [Ch.WF, Lit.Hex4.WF, Lit.IsHex, Lit.Hex4.val, Lit.hexVal]

def textU : List Nat := [123, 34, 92, 117, 48, 48, 54, 49, 34, 58, 49, 125]

theorem docU_text : Begins textU (.obj [] (spelled [(spellA, .lit .integer [49])])) := by
  refine ⟨?_, [], [], by simp [Token.IsWs], trivial, rfl⟩
  have := Lit.litText_tok spellA spellA_WF
  simp only [spelled, D.WF, Ms.WF]
  refine ⟨by simp [Token.IsWs], ?_⟩
  have hs : litTok spellA = .escString := by decide
  rw [hs] at this ⊢
  simp [this, Token.IsWs, text_1, Tok.isLiteral]

example : ∃ df, transform demoComp 0 [.cmp .eq (.field ⟨0, [[97]]⟩) one] = .ok df ∧ ∀ m, Ready df m → ∃ m', run demoFns df m textU =
    .ok (some true, m') := by
  obtain ⟨df, h1, h2⟩ := C40_match demoFns demoComp 0 .eq [97] (.int 1#64) [(spellA, .lit .integer [49])]
    (by intro x hx; rw [List.mem_singleton] at hx; subst hx; exact spellA_WF) docU_text
    (by intro x hx _; rw [List.mem_singleton] at hx; subst hx; exact fun h => h)
  refine ⟨df, h1, fun m hm => ?_⟩
  obtain ⟨m', h⟩ := h2 m hm
  refine ⟨m', ?_⟩
  rw [h]
  have : (chBytes spellA = [97]) := by decide
  simp [this]
  decide +kernel

/-! Respelling keys at any depth: `C24_expressions_partial`, whose hypothesis `Same` allows it. -/

example : docA1.Same (.obj [] (spelled [(spellA, .lit .integer [49])])) := by
  refine ⟨Or.inr ⟨[.plain 97], spellA, ?_, spellA_WF, by decide, rfl, rfl, rfl, rfl⟩, ⟨rfl, rfl⟩, trivial⟩
  intro c hc
  rw [List.mem_singleton] at hc; subst hc; simp [Ch.WF]

end Verif.Transform
