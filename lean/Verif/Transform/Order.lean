import Verif.Transform.Unref
import Verif.Match.Order

/-!
# Compiled definitions and the order of members
-/

namespace Verif.Transform
open Verif.FastVal Verif.Match Verif.Expr
open Verif.Token (D Es Ms Tok)

variable {E : Ext}

/-- Buckets of items. -/
def bucketsOf (L : List (Path × Item E)) : List Nat := L.map (fun x => x.2.bucket)

theorem bucketsOf_append (L L' : List (Path × Item E)) : bucketsOf (L ++ L') = bucketsOf L ++ bucketsOf L' := List.map_append

theorem bucketsOf_loops (f : Nat → Mode → Option (Ref E) → Exec E → Item E) (hf : ∀ b m t e, (f b m t e).bucket = b) : ∀ ls : Loops E,
    bucketsOf (loopItems f ls) = topsL ls
  | .nil => rfl
  | .cons b m t e r => by rw [loopItems, topsL, ← bucketsOf_loops f hf r]; simp [bucketsOf, hf]

abbrev OnceLoop : Nat → Mode → Option (Ref E) → Exec E → Prop := fun _ _ _ e => e.Once

mutual
  theorem bucketsOf_items : ∀ n : Exec E, n.All (fun _ => True) OnceLoop → bucketsOf (items n) = tops n
    | .mk st es ops ls a, ⟨_, h2, _, _, h5⟩ => by
      subst h5
      rw [items, tops, bucketsOf_append, bucketsOf_append, bucketsOf_append, bucketsOf_itemsE es h2, bucketsOf_loops Item.loop (fun _ _ _ _ => rfl) ls]
      simp [bucketsOf, afterItems, Item.bucket, Function.comp_def]
  theorem bucketsOf_itemsE : ∀ es : Elems E, es.All (fun _ => True) OnceLoop → bucketsOf (itemsE es) = topsE es
    | .nil, _ => rfl
    | .cons k e r, ⟨h1, h2⟩ => by
      rw [itemsE, topsE, bucketsOf_append, bucketsOf_itemsE r h2, ← bucketsOf_items e h1]
      simp [bucketsOf, under, Function.comp_def]
end

theorem allL_once : ∀ ls : Loops E, ls.All OnceLoop → ls.Once
  | .nil, _ => trivial
  | .cons _ _ _ _ r, h => ⟨h.1, allL_once r h.2⟩

mutual
  theorem all_once : ∀ n : Exec E, n.All (fun _ => True) OnceLoop → (tops n).Nodup → n.Once
    | .mk st es ops ls a, ⟨_, h2, _, h4, _⟩, hn => by
      refine ⟨hn, allE_once es h2 ?_, allL_once ls h4⟩
      rw [tops] at hn
      exact (List.nodup_append.1 (List.nodup_append.1 hn).2.1).1
  theorem allE_once : ∀ es : Elems E, es.All (fun _ => True) OnceLoop → (topsE es).Nodup → es.Once
    | .nil, _, _ => trivial
    | .cons k e r, ⟨h1, h2⟩, hn => by
      rw [topsE] at hn
      exact ⟨all_once e h1 (List.nodup_append.1 hn).1, allE_once r h2 (List.nodup_append.1 hn).2.1⟩
end

mutual
  theorem eItems_nodup (C : Comp E) : ∀ (e : Expr E) (v : Int) (b : Nat), Frag C v e → (bucketsOf (eItems C e b)).Nodup
    | .cmp c l r, v, b, h => by simp [eItems, bucketsOf]
    | .exist e, v, b, h => by simp [eItems, bucketsOf]
    | .notExist e, v, b, h => by simp [eItems, bucketsOf]
    | .not e, v, b, h => by rw [eItems]; exact eItems_nodup C e v (b + 1) h
    | .and es, v, b, h => by rw [eItems]; exact eItemsAll_nodup C es v b h
    | .or es, v, b, h => by rw [eItems]; exact eItemsAll_nodup C es v b h
    | .loop m w i s, v, b, h => by simp [eItems, bucketsOf]
    | .tru, v, b, h | .fals, v, b, h => by simp [eItems, bucketsOf]
    | .value _, v, b, h | .regex _, v, b, h | .pcre _, v, b, h | .time _, v, b, h | .field _, v, b, h
    | .func .., v, b, h => by simp [Frag] at h
  theorem eItemsAll_nodup (C : Comp E) : ∀ (es : Exprs E) (v : Int) (b : Nat), Frags C v es → (bucketsOf (eItemsAll C es b)).Nodup
    | .nil, v, b, h => by simp [Frags] at h
    | .cons e .nil, v, b, h => by rw [Frags] at h; rw [eItemsAll]; exact eItems_nodup C e v b h
    | .cons e (.cons e' r), v, b, h => by
      rw [Frags] at h; rw [eItemsAll, bucketsOf_append]
      refine List.nodup_append.2 ⟨eItems_nodup C e v (b + 1) h.1, eItemsAll_nodup C (.cons e' r) v _ h.2, ?_⟩
      intro x hx y hy
      obtain ⟨x', hx', rfl⟩ := List.mem_map.1 hx
      obtain ⟨y', hy', rfl⟩ := List.mem_map.1 hy
      have h1 := eItems_within C e v (b + 1) h.1 x' hx'
      have h2 := eItemsAll_within C (.cons e' r) .neor v (b + 1 + (shape e).size) h.2 y' hy'
      omega
end

theorem once_of_adds {L : List (Path × Item E)} {n : Exec E} (h : Adds1 L emptyExec n) (ha : n.All (fun _ => True) OnceLoop)
    (hn : (bucketsOf L).Nodup) : n.Once := by
  refine all_once n ha ?_
  rw [← bucketsOf_items n ha]
  have hp := h.perm
  rw [emptyExec_items, List.append_nil] at hp
  exact (List.Perm.nodup_iff (hp.map _)).2 hn

mutual
  theorem eItems_once (C : Comp E) : ∀ (e : Expr E) (v : Int) (b : Nat), Frag C v e → ∀ x ∈ eItems C e b, x.2.Ok (fun _ => True) OnceLoop
    | .cmp c l r, v, b, h, x, hx => by rw [eItems, List.mem_singleton] at hx; subst hx; exact trivial
    | .exist e, v, b, h, x, hx => by rw [eItems, List.mem_singleton] at hx; subst hx; exact trivial
    | .notExist e, v, b, h, x, hx => by rw [eItems, List.mem_singleton] at hx; subst hx; exact trivial
    | .not e, v, b, h, x, hx => by rw [eItems] at hx; exact eItems_once C e v (b + 1) h x hx
    | .and es, v, b, h, x, hx => by rw [eItems] at hx; exact eItemsAll_once C es v b h x hx
    | .or es, v, b, h, x, hx => by rw [eItems] at hx; exact eItemsAll_once C es v b h x hx
    | .loop m w i s, v, b, h, x, hx => by
      rw [eItems, List.mem_singleton] at hx; subst hx
      refine once_of_adds (ins_adds C s w (b + 1) emptyExec h.2.2.2 emptyExec_tidy emptyExec_full (by intro x hx; cases hx)) ?_
        (eItems_nodup C s w (b + 1) h.2.2.2)
      refine ins_all C s w (b + 1) emptyExec h.2.2.2 (by intro x hx; cases hx) emptyExec_tidy emptyExec_full ?_ emptyExec_all
      exact eItems_once C s w (b + 1) h.2.2.2
    | .tru, v, b, h, x, hx | .fals, v, b, h, x, hx => by simp [eItems] at hx
    | .value _, v, b, h, _, _ | .regex _, v, b, h, _, _ | .pcre _, v, b, h, _, _
    | .time _, v, b, h, _, _ | .field _, v, b, h, _, _ | .func .., v, b, h, _, _ => by simp [Frag] at h
  theorem eItemsAll_once (C : Comp E) : ∀ (es : Exprs E) (v : Int) (b : Nat), Frags C v es → ∀ x ∈ eItemsAll C es b,
      x.2.Ok (fun _ => True) OnceLoop
    | .nil, v, b, h, _, _ => by simp [Frags] at h
    | .cons e .nil, v, b, h, x, hx => by rw [Frags] at h; rw [eItemsAll] at hx; exact eItems_once C e v b h x hx
    | .cons e (.cons e' r), v, b, h, x, hx => by
      rw [Frags] at h; rw [eItemsAll] at hx
      rcases List.mem_append.1 hx with hx | hx
      · exact eItems_once C e v (b + 1) h.1 x hx
      · exact eItemsAll_once C (.cons e' r) v _ h.2 x hx
end

theorem compiled_once (C : Comp E) {g : Expr E} {gs : List (Expr E)} (h : ∀ x ∈ g :: gs, Frag C 0 x) : (compiled C (g :: gs)).Once :=
  once_of_adds (compiled_adds C h) (insAll_all C _ 0 0 emptyExec (frags_of_list g gs h) (by intro x hx; cases hx) emptyExec_tidy emptyExec_full
    (eItemsAll_once C _ 0 0 (frags_of_list g gs h)) emptyExec_all) (eItemsAll_nodup C _ 0 0 (frags_of_list g gs h))

/-- C26 for expressions each of whose comparisons involves one field and has a scalar constant on one side (or matches a
pattern): if no object of the document has two members with the same key, the order of members does not matter. -/
theorem C26_order_partial (X : Fns E) (C : Comp E) (slot0 : Nat) {es : List (Expr E)} {g : Expr E} {gs : List (Expr E)}
    (hg : genExprs es = g :: gs) (hfrag : ∀ x ∈ g :: gs, Frag C 0 x) (hsafe : ∀ x ∈ g :: gs, SafeE x) (hone : ∀ x ∈ g :: gs, OneSidedE x)
    {data data' : List Nat} {r r' : D} (hr : Begins data r) (hr' : Begins data' r') (hd : r.Distinct) (hs : Reord r r') :
    ∃ df, transform C slot0 es = .ok df ∧ ∀ m m', Used X df m → Used X df m' →
      ∃ b m1 m2, run X df (resetMatcher m) data = .ok (some b, m1) ∧ run X df (resetMatcher m') data' = .ok (some b, m2) := by
  obtain ⟨df, h1, hw, _, _⟩ := transform_frag C slot0 es hg hfrag
  refine ⟨df, h1, fun m m' hm hm' => ?_⟩
  have hsf := compiled_safe C df.numSlots hfrag hsafe
  obtain ⟨b, m1, h1, e1⟩ := run_total X hw hsf hr (ready_reset X hm)
  obtain ⟨b', m2, h2, e2⟩ := run_total X hw hsf hr' (ready_reset X hm')
  have := verdict_reord X _ (compiled_noSlots C hfrag) (compiled_one C hfrag hone) (compiled_once C hfrag) hd hs e1 e2
  subst this
  exact ⟨b, m1, m2, h1, h2⟩

/-- `{"b":1,"a":1}` and `{"a":1,"b":1}` -/
def docBA : D := .obj [] (.cons .string [34, 98, 34] [] [] (.lit .integer [49]) [] [] (.cons .string [34, 97, 34] [] [] (.lit .integer [49]) [] [] .nil))
def docAB : D := .obj [] (.cons .string [34, 97, 34] [] [] (.lit .integer [49]) [] [] (.cons .string [34, 98, 34] [] [] (.lit .integer [49]) [] [] .nil))
def textBA : List Nat := [123, 34, 98, 34, 58, 49, 44, 34, 97, 34, 58, 49, 125]
def textAB : List Nat := [123, 34, 97, 34, 58, 49, 44, 34, 98, 34, 58, 49, 125]

theorem docBA_text : Begins textBA docBA :=
  ⟨by simp [docBA, D.WF, Ms.WF, Token.IsWs, text_a, text_b, text_1, Tok.isLiteral], [], [], by simp [Token.IsWs], trivial, rfl⟩
theorem docAB_text : Begins textAB docAB :=
  ⟨by simp [docAB, D.WF, Ms.WF, Token.IsWs, text_a, text_b, text_1, Tok.isLiteral], [], [], by simp [Token.IsWs], trivial, rfl⟩

example : ∃ df, transform demoComp 0 demoExprs = .ok df ∧ ∀ m m', Used demoFns df m → Used demoFns df m' →
    ∃ b m1 m2, run demoFns df (resetMatcher m) textAB = .ok (some b, m1) ∧ run demoFns df (resetMatcher m') textBA = .ok (some b, m2) := by
  refine C26_order_partial demoFns demoComp 0 (es := demoExprs) rfl (fun x hx => (demoExprs_frag x hx).1) (fun x hx => (demoExprs_frag x hx).2.1)
    (fun x hx => (demoExprs_frag x hx).2.2.2) docAB_text docBA_text ?_ ?_
  · simp [docAB, D.Distinct, Ms.Distinct, Ms.keys]; decide
  · exact .obj (.cons (.there .here) .lit (.cons .here .lit .nil))

/-- Without the restriction on comparisons C26 is false: `$doc.a = $doc.b` compares the texts of two objects, so
`{"a":{"a":1,"b":1},"b":{"a":1,"b":1}}` matches and `{"a":{"a":1,"b":1},"b":{"b":1,"a":1}}` does not. -/
theorem C26_negation : ∃ df, transform demoComp 0 [.cmp .eq fieldA fieldB] = .ok df ∧
    (run demoFns df (newMatcher df) [123, 34, 97, 34, 58, 123, 34, 97, 34, 58, 49, 44, 34, 98, 34, 58, 49, 125, 44, 34, 98, 34, 58, 123, 34, 97, 34, 58, 49, 44, 34, 98, 34, 58, 49, 125, 125] >>= fun r => Res.ok r.1) = .ok (some true) ∧
    (run demoFns df (newMatcher df) [123, 34, 97, 34, 58, 123, 34, 97, 34, 58, 49, 44, 34, 98, 34, 58, 49, 125, 44, 34, 98, 34, 58, 123, 34, 98, 34, 58, 49, 44, 34, 97, 34, 58, 49, 125, 125] >>= fun r => Res.ok r.1) = .ok (some false) :=
  ⟨demoTwo, rfl, by decide +kernel, by decide +kernel⟩

end Verif.Transform
