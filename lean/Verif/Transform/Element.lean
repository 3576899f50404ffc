import Verif.Transform.Multi

/-!
# Compiling comparisons of several fields of an element

The body of a loop may compare several fields of the loop's variable.  Such a comparison becomes an operation of the `AfterNode` of
the fields' common path below the node of the loop; `tOne_elem` shows that the transformer adds to the node of the loop what it would
add to the root for the same expression on the document.
-/

namespace Verif.Transform
open Verif.FastVal Verif.Match Verif.Expr
open Verif.Token (D Es Ms Tok)
open Verif.BinTree (Sh BinOp)

variable {E : Ext}

/-! ### Specification: the body, with the element as the document -/

mutual
  /-- The expression with its variable read as the document.  Bodies of loops have their own variable. -/
  def rebase : Expr E → Expr E
    | .field f => .field ⟨0, f.path⟩
    | .func n ps => .func n (rebases ps)
    | .cmp c l r => .cmp c (rebase l) (rebase r)
    | .exist e => .exist (rebase e)
    | .notExist e => .notExist (rebase e)
    | .not e => .not (rebase e)
    | .and es => .and (rebases es)
    | .or es => .or (rebases es)
    | .loop m v i s => .loop m v (rebase i) s
    | e => e
  def rebases : Exprs E → Exprs E
    | .nil => .nil
    | .cons e r => .cons (rebase e) (rebases r)
end

/-- The body of a loop over `w` mentions fields of `w` only, and is in the fragment with several fields. -/
structure Body (C : Comp E) (w : Int) (s : Expr E) : Prop where
  var : w ≠ 0
  plain : s.Plain
  frag : Frag2 C (rebase s)
  free : ∀ f, Free s f → f.root = w

/-! ### What does not depend on the variable -/

mutual
  theorem paths_rebase : ∀ e : Expr E, paths (rebase e) = paths e
    | .func n ps => by rw [rebase, paths, paths, paths_rebases]
    | .field _ | .value _ | .regex _ | .pcre _ | .time _
    | .tru | .fals | .not _ | .and _ | .or _ | .loop .. | .exist _ | .notExist _ | .cmp .. => by simp [rebase, paths]
  theorem paths_rebases : ∀ es : Exprs E, pathsAll (rebases es) = pathsAll es
    | .nil => rfl
    | .cons e r => by rw [rebases, pathsAll, pathsAll, paths_rebase, paths_rebases]
end

mutual
  theorem fieldPath_rebase : ∀ e : Expr E, fieldPath (rebase e) = fieldPath e
    | .func n ps => by rw [rebase, fieldPath, fieldPath, fieldPaths_rebase]
    | .field _ | .value _ | .regex _ | .pcre _ | .time _
    | .tru | .fals | .not _ | .and _ | .or _ | .loop .. | .exist _ | .notExist _ | .cmp .. => by simp [rebase, fieldPath]
  theorem fieldPaths_rebase : ∀ es : Exprs E, fieldPaths (rebases es) = fieldPaths es
    | .nil => rfl
    | .cons e r => by rw [rebases, fieldPaths, fieldPaths, fieldPath_rebase, fieldPaths_rebase]
end

theorem condPath_rebase (l r : Expr E) : condPath (rebase l) (rebase r) = condPath l r := by
  rw [condPath, condPath, fieldPath_rebase, fieldPath_rebase]

theorem several_rebase (l r : Expr E) : several (rebase l) (rebase r) = several l r := by
  rw [several, several, paths_rebase, paths_rebase]

theorem inPath_rebase (i : Expr E) : inPath (rebase i) = inPath i := by cases i <;> simp [rebase, inPath]

mutual
  theorem refOf_rebase (C : Comp E) : ∀ e : Expr E, refOf C (rebase e) = refOf C e
    | .func n ps => by rw [rebase, refOf, refOf, refsOf_rebase]
    | .regex _ | .pcre _ | .time _ => by rw [rebase] <;> simp
    | .field _ | .value _
    | .tru | .fals | .not _ | .and _ | .or _ | .loop .. | .exist _ | .notExist _ | .cmp .. => by simp [rebase, refOf]
  theorem refsOf_rebase (C : Comp E) : ∀ es : Exprs E, refsOf C (rebases es) = refsOf C es
    | .nil => rfl
    | .cons e r => by rw [rebases, refsOf, refsOf, refOf_rebase, refsOf_rebase]
end

theorem sideOf_rebase (C : Comp E) (e : Expr E) : sideOf C (rebase e) = sideOf C e := by
  cases e with
  | field f => simp [rebase, sideOf]
  | regex g => rw [rebase] <;> simp
  | pcre g => rw [rebase] <;> simp
  | time g => rw [rebase] <;> simp
  | _ => simp [rebase, sideOf, refOf, refsOf_rebase]

mutual
  theorem shape_rebase : ∀ e : Expr E, shape (rebase e) = shape e
    | .cmp c l r => by cases c <;> simp [rebase, shape]
    | .not e => by rw [rebase, shape, shape, shape_rebase]
    | .and es => by rw [rebase, shape, shape, shapes_rebase]
    | .or es => by rw [rebase, shape, shape, shapes_rebase]
    | .loop m v i s => by simp [rebase, shape]
    | .field _ | .func .. | .value _ | .regex _ | .pcre _ | .time _ | .tru | .fals | .exist _ | .notExist _ => by simp [rebase, shape]
  theorem shapes_rebase (o : BinOp) : ∀ es : Exprs E, shapes o (rebases es) = shapes o es
    | .nil => rfl
    | .cons e .nil => by simp [rebases, shapes, shape_rebase]
    | .cons e (.cons e' r) => by
      have := shapes_rebase o (.cons e' r)
      simp only [rebases] at this
      simp only [rebases, shapes, shape_rebase, this]
end

mutual
  theorem param_rebase {C : Comp E} {w : Int} {p : Path} : ∀ e : Expr E, Param C 0 p (rebase e) → (∀ f, Free e f → f.root = w) → Param C w p e
    | .func n ps, h, hf => by
      rw [rebase, Param] at h
      exact params_rebase ps h (fun f h => hf f (.func h))
    | .field f, h, hf => by
      simp only [rebase, Param, Field.mk.injEq, true_and] at h
      have := hf f (.field f)
      obtain ⟨a, b⟩ := f
      simp only at h this
      simp [Param, h, this]
    | .value _, _, _ => by simp [Param]
    | .regex g, h, _ => h
    | .pcre g, h, _ => h
    | .time g, h, _ => h
    | .tru, h, _ | .fals, h, _ | .not _, h, _ | .and _, h, _ | .or _, h, _ | .loop .., h, _ | .exist _, h, _
    | .notExist _, h, _ | .cmp .., h, _ => by simp [rebase, Param] at h
  theorem params_rebase {C : Comp E} {w : Int} {p : Path} : ∀ es : Exprs E, Params C 0 p (rebases es) → (∀ f, FreeAny es f → f.root = w) →
      Params C w p es
    | .nil, _, _ => trivial
    | .cons e r, h, hf => ⟨param_rebase e h.1 (fun f h => hf f (.head h)), params_rebase r h.2 (fun f h => hf f (.tail h))⟩
end

/-- The parts of a body that are not boolean combinations. -/
theorem frag_rebase {C : Comp E} {w : Int} {e : Expr E} (hb : match e with
      | .cmp .. | .exist _ | .loop .. => True
      | _ => False) (h : Frag C 0 (rebase e)) (hf : ∀ f, Free e f → f.root = w) : Frag C w e := by
  cases e with
  | cmp c l r =>
    rw [rebase, Frag, condPath_rebase] at h
    exact ⟨param_rebase l h.1 (fun f h => hf f (.cmpL h)), param_rebase r h.2 (fun f h => hf f (.cmpR h))⟩
  | exist e =>
    rw [rebase, Frag, condPath_rebase] at h
    exact param_rebase e h (fun f h => hf f (.exist h))
  | loop m v i s =>
    rw [rebase, Frag] at h
    refine ⟨?_, h.2.1, h.2.2.1, h.2.2.2⟩
    have h1 := h.1
    cases i with
    | field f =>
      have := hf f (.loopIn (.field f))
      obtain ⟨a, b⟩ := f
      simp only at this
      simp [inPath, this]
    | _ => simp [rebase] at h1
  | _ => exact hb.elim

theorem ins_rebase {C : Comp E} {e : Expr E} {b : Nat} (hb : match e with
      | .cmp .. | .exist _ | .loop .. => True
      | _ => False) : ins C (rebase e) b = ins C e b := by
  cases e with
  | cmp c l r => simp only [rebase, ins, condPath_rebase, sideOf_rebase]
  | exist e => simp only [rebase, ins, condPath_rebase, sideOf_rebase]
  | loop m v i s => simp only [rebase, ins, inPath_rebase]
  | _ => exact hb.elim

/-! ### The node of a loop -/

/-- The node at `A` can be replaced. -/
def There (A : Addr) (R : Exec E) : Prop := ∀ n, nodeAt A (update A (fun _ => n) R) = some n

theorem findLoop_snoc (b : Nat) (m : Mode) (t : Option (Ref E)) (e n : Exec E) : ∀ ls : Loops E,
    findLoop b (alterLoops b (fun _ => n) (Loops.snoc ls b m t e)) = some n
  | .nil => by simp [Loops.snoc, alterLoops, findLoop]
  | .cons b' m' t' e' r => by
    rw [Loops.snoc, alterLoops]
    by_cases h : b' = b
    · simp [h, findLoop]
    · rw [if_neg h, findLoop, if_neg h]; exact findLoop_snoc b m t e n r

theorem there_loop (p : Path) (b : Nat) (m : Mode) (t : Option (Ref E)) (e R : Exec E) :
    There (keys p ++ [.loop b]) (update (keys p) (addLoop b m t e) R) := by
  intro n
  rw [update_append, update_comp, nodeAt_append, nodeAt_update, Option.bind_some]
  generalize (nodeAt (keys p) R).getD emptyExec = N
  obtain ⟨st, es, ops, ls, a⟩ := N
  simp [addLoop, update, nodeAt, findLoop_snoc]

/-- The state `t` while the body is built at `A` corresponds to the state `t0` while it is built at the root. -/
structure Moved (w : Int) (A : Addr) (R : Exec E) (t t0 : T E) : Prop where
  root : t.root = update A (fun _ => t0.root) R
  slot : t.slotIdx = t0.slotIdx
  act : t.active = t0.active
  ctx : ∃ rest, t.ctx = (w, A) :: rest

theorem update_at (A q : Addr) (f : Exec E → Exec E) (n R : Exec E) :
    update (A ++ q) f (update A (fun _ => n) R) = update A (fun _ => update q f n) R := by
  rw [update_append, update_comp]

theorem fieldRef_at {w : Int} {A : Addr} {R : Exec E} {t t0 : T E} (ht : There A R) (hm : Moved w A R t t0) (q : Addr) (p : Path) :
    ∃ t', fieldRef t (.after (A ++ q)) ⟨some A, p⟩ = (t', (fieldRef t0 (.after q) ⟨none, p⟩).2) ∧
      Moved w A R t' (fieldRef t0 (.after q) ⟨none, p⟩).1 ∧ t'.ctx = t.ctx := by
  have ha : (⟨some A, p⟩ : RRef).addr = A ++ keys p := by simp [RRef.addr, keys]
  have ha0 : (⟨none, p⟩ : RRef).addr = keys p := by simp [RRef.addr, keys]
  simp only [fieldRef, getExecNode, ha, ha0]
  rw [if_neg (by simp), if_neg (by simp)]
  have hr : update (A ++ keys p) id t.root = update A (fun _ => update (keys p) id t0.root) R := by rw [hm.root, update_at]
  have hn : nodeAt (A ++ keys p) (update (A ++ keys p) id t.root) = nodeAt (keys p) (update (keys p) id t0.root) := by
    rw [hr, nodeAt_append, ht, Option.bind_some]
  simp only [storeExecNode, hn]
  split
  · refine ⟨{ t with slotIdx := t.slotIdx + 1, root := update (A ++ keys p) (setStore (t0.slotIdx + 1)) (update (A ++ keys p) id t.root) }, ?_, ⟨?_, ?_, hm.act, hm.ctx⟩, rfl⟩
    · simp only [newSlot, hm.slot]
    · simp only [newSlot]
      rw [hr, update_at]
    · simp only [newSlot, hm.slot]
  · exact ⟨_, rfl, ⟨hr, hm.slot, hm.act, hm.ctx⟩, rfl⟩

theorem resolveRef_at {w : Int} {A : Addr} {R : Exec E} {t t0 : T E} (hw : w ≠ 0) (hm : Moved w A R t t0) {f : Field} (hf : f.root = w) :
    resolveRef t f = .ok ⟨some A, f.path⟩ := by
  obtain ⟨rest, hc⟩ := hm.ctx
  rw [resolveRef, getContext, hf, if_neg hw, hc]
  simp

mutual
  theorem makeParam_at {C : Comp E} {w : Int} {A q : Addr} {R : Exec E} (hw : w ≠ 0) (ht : There A R) : ∀ (e : Expr E) (t t0 t0' : T E) (ref : Ref E),
      Moved w A R t t0 → (∀ f, Free e f → f.root = w) → makeParam C t0 (.after q) (rebase e) = .ok (t0', ref) →
      ∃ t', makeParam C t (.after (A ++ q)) e = .ok (t', ref) ∧ Moved w A R t' t0' ∧ t'.ctx = t.ctx
    | .field f, t, t0, t0', ref, hm, hf, h => by
      rw [rebase, makeParam, resolveRef, getContext, if_pos rfl, Res.bind_ok, Res.bind_ok] at h
      obtain ⟨t', h1, h2, h3⟩ := fieldRef_at ht hm q f.path
      simp only [Res.ok.injEq] at h
      rw [h] at h1 h2
      exact ⟨t', by rw [makeParam, resolveRef_at hw hm (hf f (.field f)), Res.bind_ok, h1], h2, h3⟩
    | .func n ps, t, t0, t0', ref, hm, hf, h => by
      rw [rebase, makeParam] at h
      obtain ⟨y, hy, h⟩ := Res.bind_eq_ok.1 h
      obtain ⟨t', h1, h2, h3⟩ := makeParams_at hw ht ps t t0 y.1 y.2 hm (fun f h => hf f (.func h)) hy
      cases h
      exact ⟨t', by rw [makeParam, h1, Res.bind_ok], h2, h3⟩
    | .value g, t, t0, t0', ref, hm, _, h => by
      simp only [rebase, makeParam, Res.ok.injEq, Prod.mk.injEq] at h
      obtain ⟨rfl, rfl⟩ := h
      exact ⟨t, by rw [makeParam], hm, rfl⟩
    | .regex g, t, t0, t0', ref, hm, _, h => by
      simp only [rebase, makeParam] at h
      obtain ⟨s, hs, h⟩ := Res.bind_eq_ok.1 h
      split at h
      · rename_i r hr
        cases h
        exact ⟨t, by simp [makeParam, hs, hr], hm, rfl⟩
      · cases h
    | .pcre g, t, t0, t0', ref, hm, _, h => by
      simp only [rebase, makeParam] at h
      obtain ⟨s, hs, h⟩ := Res.bind_eq_ok.1 h
      split at h
      · rename_i r hr
        cases h
        exact ⟨t, by simp [makeParam, hs, hr], hm, rfl⟩
      · cases h
    | .time g, t, t0, t0', ref, hm, _, h => by
      simp only [rebase, makeParam] at h
      obtain ⟨s, hs, h⟩ := Res.bind_eq_ok.1 h
      split at h
      · rename_i r hr
        cases h
        exact ⟨t, by simp [makeParam, hs, hr], hm, rfl⟩
      · cases h
    | .tru, t, t0, t0', ref, _, _, h | .fals, t, t0, t0', ref, _, _, h | .not _, t, t0, t0', ref, _, _, h | .and _, t, t0, t0', ref, _, _, h
    | .or _, t, t0, t0', ref, _, _, h | .loop .., t, t0, t0', ref, _, _, h | .exist _, t, t0, t0', ref, _, _, h
    | .notExist _, t, t0, t0', ref, _, _, h | .cmp .., t, t0, t0', ref, _, _, h => by simp [rebase, makeParam] at h
  theorem makeParams_at {C : Comp E} {w : Int} {A q : Addr} {R : Exec E} (hw : w ≠ 0) (ht : There A R) : ∀ (es : Exprs E) (t t0 t0' : T E) (refs : Refs E),
      Moved w A R t t0 → (∀ f, FreeAny es f → f.root = w) → makeParams C t0 (.after q) (rebases es) = .ok (t0', refs) →
      ∃ t', makeParams C t (.after (A ++ q)) es = .ok (t', refs) ∧ Moved w A R t' t0' ∧ t'.ctx = t.ctx
    | .nil, t, t0, t0', refs, hm, _, h => by
      simp only [rebases, makeParams, Res.ok.injEq, Prod.mk.injEq] at h
      obtain ⟨rfl, rfl⟩ := h
      exact ⟨t, by rw [makeParams], hm, rfl⟩
    | .cons e r, t, t0, t0', refs, hm, hf, h => by
      rw [rebases, makeParams] at h
      obtain ⟨y, hy, h⟩ := Res.bind_eq_ok.1 h
      obtain ⟨z, hz, h⟩ := Res.bind_eq_ok.1 h
      cases h
      obtain ⟨t1, a1, a2, a3⟩ := makeParam_at hw ht e t t0 y.1 y.2 hm (fun f h => hf f (.head h)) hy
      obtain ⟨t2, b1, b2, b3⟩ := makeParams_at hw ht r t1 y.1 z.1 z.2 a2 (fun f h => hf f (.tail h)) hz
      exact ⟨t2, by rw [makeParams, a1, Res.bind_ok, b1, Res.bind_ok], b2, by rw [b3, a3]⟩
end

theorem makeDataRef_at {C : Comp E} {w : Int} {A q : Addr} {R : Exec E} (hw : w ≠ 0) (ht : There A R) (e : Expr E) (t t0 t0' : T E)
    (o : Option (Ref E)) (hm : Moved w A R t t0) (hf : ∀ f, Free e f → f.root = w) (h : makeDataRef C t0 (.after q) (rebase e) = .ok (t0', o)) :
    ∃ t', makeDataRef C t (.after (A ++ q)) e = .ok (t', o) ∧ Moved w A R t' t0' ∧ t'.ctx = t.ctx := by
  rw [makeDataRef] at h
  obtain ⟨y, hy, h⟩ := Res.bind_eq_ok.1 h
  obtain ⟨t', h1, h2, h3⟩ := makeParam_at hw ht e t t0 y.1 y.2 hm hf hy
  refine ⟨t', ?_, ?_, h3⟩
  · rw [makeDataRef, h1, Res.bind_ok]
    cases e <;> simp only [rebase] at h
    case field f =>
      cases hr : y.2 <;> simp only [hr] at h <;> cases h <;> rfl
    all_goals cases h; rfl
  · cases e <;> simp only [rebase] at h
    case field f =>
      cases hr : y.2 <;> simp only [hr] at h <;> cases h <;> exact h2
    all_goals cases h; exact h2

/-! ### The base -/

mutual
  theorem rebase_free {C : Comp E} : ∀ e : Expr E, MParam C (rebase e) →
      (∀ f, Free e f → f.path ∈ paths e) ∧ ∀ p ∈ paths e, ∃ f, Free e f ∧ f.path = p
    | .func _ ps, h => by
      rw [rebase, MParam] at h
      obtain ⟨h1, h2⟩ := rebases_free ps h
      refine ⟨fun f hf => ?_, fun p hp => ?_⟩
      · cases hf with | func hf => rw [paths]; exact h1 f hf
      · rw [paths] at hp
        obtain ⟨f, hf, rfl⟩ := h2 p hp
        exact ⟨f, .func hf, rfl⟩
    | .field g, h => by
      refine ⟨fun f hf => ?_, fun p hp => ?_⟩
      · cases hf; simp [paths]
      · simp only [paths, List.mem_singleton] at hp
        exact ⟨g, .field g, hp.symm⟩
    | .value _, _ | .regex _, _ | .pcre _, _ | .time _, _ => by
      refine ⟨fun f hf => (by nomatch hf), fun p hp => by simp [paths] at hp⟩
    | .tru, h | .fals, h | .not _, h | .and _, h | .or _, h | .loop .., h | .exist _, h | .notExist _, h | .cmp .., h => by
      simp [rebase, MParam] at h
  theorem rebases_free {C : Comp E} : ∀ es : Exprs E, MParams C (rebases es) →
      (∀ f, FreeAny es f → f.path ∈ pathsAll es) ∧ ∀ p ∈ pathsAll es, ∃ f, FreeAny es f ∧ f.path = p
    | .nil, _ => ⟨fun f hf => (by nomatch hf), fun p hp => by simp [pathsAll] at hp⟩
    | .cons e r, h => by
      obtain ⟨a1, a2⟩ := rebase_free e h.1
      obtain ⟨b1, b2⟩ := rebases_free r h.2
      refine ⟨fun f hf => ?_, fun p hp => ?_⟩
      · rw [pathsAll, List.mem_append]
        cases hf with
        | head hf => exact Or.inl (a1 f hf)
        | tail hf => exact Or.inr (b1 f hf)
      · rw [pathsAll, List.mem_append] at hp
        rcases hp with hp | hp
        · obtain ⟨f, hf, rfl⟩ := a2 p hp; exact ⟨f, .head hf, rfl⟩
        · obtain ⟨f, hf, rfl⟩ := b2 p hp; exact ⟨f, .tail hf, rfl⟩
end

theorem resolveRefs_in {t : T E} {v : Int} {A : Addr} (hc : InCtx t v A) : ∀ fs : List Field, (∀ f ∈ fs, f.root = v) →
    resolveRefs t fs = .ok (fs.map (fun f => ⟨currentContext t, f.path⟩))
  | [], _ => rfl
  | f :: fs, h => by
    rw [resolveRefs, resolveRef, h f (by simp), hc.get.1, Res.bind_ok, Res.bind_ok,
      resolveRefs_in hc fs (fun f hf => h f (List.mem_cons_of_mem _ hf)), Res.bind_ok, List.map_cons]

/-- The base of an expression with several fields of the variable is the `AfterNode` at their common path below its node. -/
theorem pickBase_in {t : T E} {v : Int} {A : Addr} (hc : InCtx t v A) {e : Expr E} {q : Path} {S : List Path} (hp : e.Plain)
    (hfree : ∀ f, Free e f ↔ f.root = v ∧ f.path ∈ S) (hs : Splits q S) :
    pickBase t e = .ok ({ t with root := update (A ++ keys q) ensureAfter t.root }, .after (A ++ keys q)) := by
  obtain ⟨fs, h1, h2, _⟩ := fetch_adds [] e hp []
  have hmem : ∀ f, f ∈ fs ↔ f.root = v ∧ f.path ∈ S := by
    intro f
    rw [h2 f, ← hfree f]
    simp
  have hpm : ∀ p, p ∈ fs.map Field.path ↔ p ∈ S := by
    intro p
    rw [List.mem_map]
    constructor
    · rintro ⟨f, hf, rfl⟩; exact ((hmem f).1 hf).2
    · intro hp; exact ⟨⟨v, p⟩, (hmem _).2 ⟨rfl, hp⟩, rfl⟩
  have hs' : Splits q (fs.map Field.path) := by
    refine ⟨fun p hp => hs.1 p ((hpm p).1 hp), ?_⟩
    obtain ⟨k, p', k1, p1, a, b, hne⟩ := hs.2
    exact ⟨k, p', k1, p1, (hpm _).2 a, (hpm _).2 b, hne⟩
  rw [pickBase, fieldRefs, h1, Res.bind_ok, resolveRefs_in hc fs (fun f hf => ((hmem f).1 hf).1), Res.bind_ok, findBestRoot]
  have hfil : ((fs.map (fun f => (⟨currentContext t, f.path⟩ : RRef))).filter (fun r => decide (r.ctx = currentContext t))).map RRef.path =
      fs.map Field.path := by
    have : (fs.map (fun f => (⟨currentContext t, f.path⟩ : RRef))).filter (fun r => decide (r.ctx = currentContext t)) =
        fs.map (fun f => (⟨currentContext t, f.path⟩ : RRef)) := by
      rw [List.filter_eq_self]
      intro r hr
      obtain ⟨f, _, rfl⟩ := List.mem_map.1 hr
      simp
    rw [this, List.map_map]
    rfl
  simp only [hfil]
  cases hps : fs.map Field.path with
  | nil =>
    exfalso
    obtain ⟨k, p', _, _, a, _⟩ := hs'.2
    rw [hps] at a; cases a
  | cons p ps =>
    rw [hps] at hs'
    obtain ⟨k0, p0, hb⟩ := hs'.1 _ (longest_mem ps p)
    have hcp : commonPath (p :: ps) 0 (longest p ps) = .ok q := by
      rw [hb]
      exact commonPath_splits hs' q [] rfl
    simp only [hcp, Res.bind_ok]
    rw [if_pos (by rw [hb]; simp)]
    have ha : (⟨currentContext t, q⟩ : RRef).addr = A ++ keys q := by simp [RRef.addr, hc.get.2, keys]
    simp only [getExecNode, ha, update_comp, id]

theorem Moved.inCtx {w : Int} {A : Addr} {R : Exec E} {t t0 : T E} (hw : w ≠ 0) (hm : Moved w A R t t0) : InCtx t w A :=
  Or.inr ⟨hw, hm.ctx⟩

/-- A comparison of several fields of the element is compiled as one of several fields of the document. -/
theorem tCompare_at {C : Comp E} {w : Int} {A : Addr} {R : Exec E} (hw : w ≠ 0) (ht : There A R) {t t0 t0' : T E} (hc : t0.ctx = [])
    (hm : Moved w A R t t0) (c : Cmp) (op : OpTy) {l r : Expr E} {q : Path} (hp : l.Plain ∧ r.Plain) (hl : MParam C (rebase l)) (hr : MParam C (rebase r))
    (hf : ∀ f, Free (.cmp c l r) f → f.root = w) (hs : Splits q (paths l ++ paths r))
    (h : tCompare C (.cmp c (rebase l) (rebase r)) op (rebase l) (rebase r) t0 = .ok t0') :
    ∃ t', tCompare C (.cmp c l r) op l r t = .ok t' ∧ Moved w A R t' t0' := by
  have hb := pickBase_in (e := .cmp c l r) (hm.inCtx hw) (S := paths l ++ paths r) hp (fun f => by
    rw [List.mem_append]
    constructor
    · intro h
      refine ⟨hf f h, ?_⟩
      cases h with
      | cmpL h => exact Or.inl ((rebase_free l hl).1 f h)
      | cmpR h => exact Or.inr ((rebase_free r hr).1 f h)
    · rintro ⟨h0, h | h⟩
      · obtain ⟨g, hg, hgp⟩ := (rebase_free l hl).2 _ h
        have := hf g (.cmpL hg)
        have : g = f := by obtain ⟨a, b⟩ := g; obtain ⟨a', b'⟩ := f; simp_all
        subst this; exact .cmpL hg
      · obtain ⟨g, hg, hgp⟩ := (rebase_free r hr).2 _ h
        have := hf g (.cmpR hg)
        have : g = f := by obtain ⟨a, b⟩ := g; obtain ⟨a', b'⟩ := f; simp_all
        subst this; exact .cmpR hg) hs
  rw [tCompare, pickBase_multi hc c hl hr (by rw [paths_rebase, paths_rebase]; exact hs), Res.bind_ok] at h
  simp only at h
  obtain ⟨y, hy, h⟩ := Res.bind_eq_ok.1 h
  obtain ⟨z, hz, h⟩ := Res.bind_eq_ok.1 h
  cases h
  have hm1 : Moved w A R { t with root := update (A ++ keys q) ensureAfter t.root } { t0 with root := update (keys q) ensureAfter t0.root } :=
    ⟨by simp only; rw [hm.root, update_at], hm.slot, hm.act, hm.ctx⟩
  obtain ⟨t1, a1, a2, a3⟩ := makeDataRef_at hw ht l _ _ y.1 y.2 hm1 (fun f h => hf f (.cmpL h)) hy
  obtain ⟨t2, b1, b2, b3⟩ := makeDataRef_at hw ht r _ _ z.1 z.2 a2 (fun f h => hf f (.cmpR h)) hz
  refine ⟨_, by rw [tCompare, hb, Res.bind_ok]; simp only; rw [a1, Res.bind_ok]; simp only; rw [b1, Res.bind_ok], ?_⟩
  simp only [NRef.addOp]
  refine ⟨?_, b2.slot, b2.act, b2.ctx⟩
  simp only
  rw [b2.root, update_at, b2.act]

/-! ### Expressions -/

/-- The outcome of transforming an expression with the fields `S` at the node `n` of a loop, which is at `A`. -/
def Does3 (t : T E) (A : Addr) (R n : Exec E) (S : List Path) (L : (Path → Nat) → List (Path × Item E)) (r : Res (T E)) : Prop :=
  ∃ t' n', r = .ok t' ∧ t'.root = update A (fun _ => n') R ∧ Grow (fun x => x ∈ S) L t.slotIdx t'.slotIdx n n' ∧
    ∀ p ∈ S, ∃ s, (p, Note.slot s) ∈ notes n'

theorem tNot_does3 {g : T E → Res (T E)} {t : T E} {par : Nat} {A : Addr} {R n : Exec E} {S : List Path}
    {L : (Path → Nat) → List (Path × Item E)} (hs : Start t par)
    (hg : ∀ t1 : T E, Start t1 t.active → t1.active = t.active + 1 → t1.ctx = t.ctx → t1.root = t.root → t1.slotIdx = t.slotIdx →
      Does3 t1 A R n S L (g t1)) : Does3 t A R n S L (tNot g t) := by
  obtain ⟨t1, e1, ha, hs1, hctx, hr, hsl, _, _⟩ := first_child (ty := .not) hs
  obtain ⟨t2, n', h1, h0, h2, h3⟩ := hg t1 hs1 ha hctx hr hsl
  refine ⟨t2, n', ?_, h0, by rw [hsl] at h2; exact h2, h3⟩
  rw [tNot]
  obtain ⟨x, hx, e1⟩ := Res.bind_eq_ok.1 e1
  rw [hx, Res.bind_ok]
  simp only
  rw [e1, Res.bind_ok, h1]

theorem tBin_does3 {o : BinOp} {g g' : T E → Res (T E)} {t : T E} {par : Nat} {A : Addr} {R n : Exec E} {S S' : List Path}
    {L L' : (Path → Nat) → List (Path × Item E)} {a : Sh} (hs : Start t par)
    (hg : ∀ t1 : T E, Start t1 t.active → t1.active = t.active + 1 → t1.ctx = t.ctx → t1.root = t.root → t1.slotIdx = t.slotIdx →
      Does3 t1 A R n S L (g t1))
    (hgr : ∀ t1 t2 : T E, Start t1 t.active → g t1 = .ok t2 → Grown t1 t2 a t.active)
    (hg' : ∀ t1 : T E, ∀ n', Start t1 t.active → t1.active = t.active + 1 + a.size → t1.ctx = t.ctx → t1.root = update A (fun _ => n') R →
      (∀ ρ, Agrees ρ n' → (items n').Perm (L ρ ++ items n)) → Good t1.slotIdx n' → Does3 t1 A R n' S' L' (g' t1)) :
    Does3 t A R n (S ++ S') (fun ρ => L ρ ++ L' ρ) (tBin o.ty g g' t) := by
  obtain ⟨t1, e1, ha, hs1, hctx, hr, hsl, hn, hb⟩ := first_child (ty := o.ty) hs
  obtain ⟨t2, n1, h1, h0, h2, h3⟩ := hg t1 hs1 ha hctx hr hsl
  have hG := hgr t1 t2 hs1 h1
  obtain ⟨t3, e3, ha3, hs3, hc3, hr3, hsl3, _⟩ := second_child (o := o) ha hn hb hG
  obtain ⟨t4, n2, k1, k0, k2, k3⟩ := hg' t3 n1 hs3 ha3 (by rw [hc3, hG.ctx, hctx]) (by rw [hr3, h0]) h2.perm (by rw [hsl3]; exact h2.good)
  refine ⟨t4, n2, ?_, k0, ?_, ?_⟩
  · rw [tBin]
    obtain ⟨x, hx, e1⟩ := Res.bind_eq_ok.1 e1
    rw [hx, Res.bind_ok]
    simp only
    rw [e1, Res.bind_ok, h1, Res.bind_ok, e3, Res.bind_ok, k1]
  · rw [hsl3] at k2
    rw [hsl] at h2
    exact (h2.trans k2).mono (fun p hp => List.mem_append.2 hp) (fun _ => rfl)
  · intro p hp
    rcases List.mem_append.1 hp with hp | hp
    · obtain ⟨s, hm⟩ := h3 p hp
      exact ⟨s, k2.keep _ hm⟩
    · exact k3 p hp

/-- WithinLoop the node of a loop. -/
structure WithinLoop (w : Int) (A : Addr) (R n : Exec E) (t : T E) : Prop where
  root : t.root = update A (fun _ => n) R
  ctx : ∃ rest, t.ctx = (w, A) :: rest
  good : Good t.slotIdx n
  bound : ∀ x ∈ items n, x.2.bucket < t.active

theorem WithinLoop.child {w : Int} {A : Addr} {R n : Exec E} {t t1 : T E} (h : WithinLoop w A R n t) (ha : t.active ≤ t1.active) (hc : t1.ctx = t.ctx)
    (hr : t1.root = t.root) (hs : t1.slotIdx = t.slotIdx) : WithinLoop w A R n t1 :=
  ⟨by rw [hr, h.root], by rw [hc]; exact h.ctx, by rw [hs]; exact h.good, fun x hx => Nat.lt_of_lt_of_le (h.bound x hx) ha⟩

theorem WithinLoop.moved {w : Int} {A : Addr} {R n : Exec E} {t : T E} (h : WithinLoop w A R n t) :
    Moved w A R t { t with root := n, ctx := [] } := ⟨h.root, rfl, rfl, h.ctx⟩

theorem single_does3 {C : Comp E} {w : Int} {A : Addr} {R n : Exec E} {e : Expr E} {t : T E} {par : Nat} (hw : w ≠ 0) (hk : match e with
      | .cmp .. | .exist _ | .loop .. => True
      | _ => False) (h : Frag C 0 (rebase e)) (hf : ∀ f, Free e f → f.root = w) (hs : Start t par) (hb : WithinLoop w A R n t) :
    Does3 t A R n [] (fun _ => eItems C (rebase e) t.active) (tOne C e t) := by
  obtain ⟨t', h1, h2, h3⟩ := tOne_ins C e w t A par (frag_rebase hk h hf) hs (Or.inr ⟨hw, hb.ctx⟩)
  refine ⟨t', ins C e t.active n, h1, ?_, ?_, fun p hp => by cases hp⟩
  · rw [h2, hb.root, update_comp]
  · rw [h3, ← ins_rebase hk]
    exact (Grow.of_adds hb.good (ins_adds C (rebase e) 0 t.active n h hb.good.tidy hb.good.full hb.bound))

theorem several_does3 {C : Comp E} {w : Int} {A : Addr} {R n : Exec E} {c : Cmp} {op : OpTy} {l r : Expr E} {t : T E} (hw : w ≠ 0)
    (ht : There A R) (hp : l.Plain ∧ r.Plain) (hm : several l r = true) (hl : MParam C (rebase l)) (hr : MParam C (rebase r))
    (hlo : Loose (paths l ++ paths r)) (hf : ∀ f, Free (.cmp c l r) f → f.root = w) (hb : WithinLoop w A R n t) :
    Does3 t A R n (paths l ++ paths r)
      (fun ρ => [(base l r, .aop ⟨t.active, op, some (slotRef C ρ (rebase l)), some (slotRef C ρ (rebase r))⟩)])
      (tCompare C (.cmp c l r) op l r t) := by
  have hsp := splits_base hm hlo
  obtain ⟨t0', k1, k2, k3⟩ := tCompare_multi (C := C) (t := { t with root := n, ctx := [] }) rfl hb.good c op hl hr
    (q := base l r) (by rw [paths_rebase, paths_rebase]; exact hsp)
  obtain ⟨t', h1, h2⟩ := tCompare_at hw ht rfl hb.moved c op hp hl hr hf hsp k1
  rw [paths_rebase, paths_rebase] at k2 k3
  exact ⟨t', t0'.root, h1, h2.root, by rw [h2.slot]; exact k2, k3⟩

theorem base_rebase (l r : Expr E) : base (rebase l) (rebase r) = base l r := by
  rw [base, base, paths_rebase, paths_rebase]

/-- No loop in the body mentions the document. -/
theorem not_rooted {C : Comp E} {w : Int} {m : Mode} {v : Int} {i s : Expr E} (hw : w ≠ 0) (h : Frag2 C (rebase (.loop m v i s)))
    (hf : ∀ f, Free (.loop m v i s) f → f.root = w) : rooted s = false := by
  rw [rebase, Frag2] at h
  cases hr : rooted s with
  | false => rfl
  | true =>
    exfalso
    rw [if_pos hr] at h
    obtain ⟨_, hv, _, h4, _⟩ := h
    rw [rooted] at hr
    cases hp : rPaths s with
    | nil => rw [hp] at hr; simp at hr
    | cons p ps =>
      have := hf _ (.loopBody (rPaths_free v s h4 p (by rw [hp]; simp)) (fun h => hv h.symm))
      exact hw this.symm

mutual
  /-- The transformer adds the items of the body to the node of the loop. -/
  theorem tOne_elem (C : Comp E) {w : Int} {A : Addr} {R : Exec E} (hw : w ≠ 0) (ht : There A R) : ∀ (e : Expr E) (n : Exec E) (t : T E) (par : Nat),
      e.Plain → Frag2 C (rebase e) → (∀ f, Free e f → f.root = w) → Start t par → WithinLoop w A R n t →
      Does3 t A R n (stored (rebase e)) (fun ρ => mItems C ρ (rebase e) t.active) (tOne C e t)
    | .cmp c l r, n, t, par, hp, h, hf, hs, hb => by
      rw [rebase, Frag2, several_rebase, paths_rebase, paths_rebase] at h
      rw [rebase, stored, several_rebase, paths_rebase, paths_rebase]
      simp only [mItems, several_rebase, base_rebase]
      by_cases hm : several l r = true
      · simp only [if_pos hm] at h ⊢
        rw [tOne]
        by_cases hne : c = .ne
        · subst hne
          simp only [if_pos, slotOp]
          refine tNot_does3 hs (fun t1 _ ha hc1 hr1 hs1 => ?_)
          have := several_does3 (c := .eq) (op := .equals) hw ht hp hm h.1 h.2.1 h.2.2 (fun f hf' => hf f (by
            cases hf' with
            | cmpL h => exact .cmpL h
            | cmpR h => exact .cmpR h)) (hb.child (by omega) hc1 hr1 hs1)
          rw [ha] at this
          exact this
        · simp only [if_neg hne, slotOp]
          exact several_does3 hw ht hp hm h.1 h.2.1 h.2.2 hf hb
      · rw [if_neg hm] at h
        simp only [if_neg hm]
        exact single_does3 (e := .cmp c l r) hw trivial h hf hs hb
    | .exist e, n, t, par, hp, h, hf, hs, hb => by
      have := single_does3 (e := .exist e) (C := C) hw trivial (by rwa [rebase, Frag2] at h) hf hs hb
      simpa only [rebase, stored, mItems] using this
    | .loop m v i s, n, t, par, hp, h, hf, hs, hb => by
      have hr := not_rooted hw h hf
      rw [rebase, Frag2, hr, if_neg (by simp)] at h
      have := single_does3 (e := .loop m v i s) (C := C) hw trivial h hf hs hb
      simpa only [rebase, stored, mItems, hr, if_neg, Bool.false_eq_true, if_false] using this
    | .not e, n, t, par, hp, h, hf, hs, hb => by
      rw [rebase, Frag2] at h
      rw [tOne]
      simp only [rebase, stored, mItems]
      refine tNot_does3 hs (fun t1 h1 ha hc1 hr1 hs1 => ?_)
      have := tOne_elem C hw ht e n t1 t.active hp h (fun f h => hf f (.not h)) h1 (hb.child (by omega) hc1 hr1 hs1)
      rwa [ha] at this
    | .and es, n, t, par, hp, h, hf, hs, hb => by
      rw [rebase, Frag2] at h
      rw [tOne]; simp only [rebase, stored, mItems]; exact tAnd_elem C hw ht es n t par hp h (fun f h => hf f (.and h)) hs hb
    | .or es, n, t, par, hp, h, hf, hs, hb => by
      rw [rebase, Frag2] at h
      rw [tOne]; simp only [rebase, stored, mItems]; exact tOr_elem C hw ht es n t par hp h (fun f h => hf f (.or h)) hs hb
    | .notExist _, _, _, _, hp, _, _, _, _ | .tru, _, _, _, hp, _, _, _, _ | .fals, _, _, _, hp, _, _, _, _ => by simp [Expr.Plain] at hp
    | .value _, _, _, _, _, h, _, _, _ | .regex _, _, _, _, _, h, _, _, _ | .pcre _, _, _, _, _, h, _, _, _
    | .time _, _, _, _, _, h, _, _, _ | .field _, _, _, _, _, h, _, _, _ | .func .., _, _, _, _, h, _, _, _ => by simp [rebase, Frag2] at h

  theorem tAnd_elem (C : Comp E) {w : Int} {A : Addr} {R : Exec E} (hw : w ≠ 0) (ht : There A R) : ∀ (es : Exprs E) (n : Exec E) (t : T E) (par : Nat),
      es.Plain → Frag2s C (rebases es) → (∀ f, FreeAny es f → f.root = w) → Start t par → WithinLoop w A R n t →
      Does3 t A R n (storedAll (rebases es)) (fun ρ => mItemsAll C ρ (rebases es) t.active) (tAnd C es t)
    | .nil, _, _, _, _, h, _, _, _ => by simp [rebases, Frag2s] at h
    | .cons e .nil, n, t, par, hp, h, hf, hs, hb => by
      rw [rebases, rebases, Frag2s] at h
      rw [tAnd]; simp only [rebases, storedAll, List.append_nil, mItemsAll]
      exact tOne_elem C hw ht e n t par hp.1 h (fun f h => hf f (.head h)) hs hb
    | .cons e (.cons e' r), n, t, par, hp, h, hf, hs, hb => by
      rw [rebases, rebases, Frag2s] at h
      have hrb : rebases (.cons e' r) = .cons (rebase e') (rebases r) := by rw [rebases]
      rw [tAnd.eq_def, rebases, rebases, storedAll]; simp only [mItemsAll, shape_rebase]
      refine tBin_does3 (o := .and) (a := shape e) hs (fun t1 h1 ha hc1 hr1 hs1 => ?_)
        (fun t1 t2 h1 h2 => tOne_grown C e t1 t2 _ h1 h2) (fun t1 n' h1 ha hc1 hr1 hperm hgn => ?_)
      · have := tOne_elem C hw ht e n t1 t.active hp.1 h.1 (fun f h => hf f (.head h)) h1 (hb.child (by omega) hc1 hr1 hs1)
        rwa [ha] at this
      · have := tAnd_elem C hw ht (.cons e' r) n' t1 t.active hp.2 (by rw [hrb]; exact h.2) (fun f h => hf f (.tail h)) h1
          ⟨hr1, by rw [hc1]; exact hb.ctx, hgn, by
            intro x hx
            obtain ⟨ρ, hρ⟩ := agrees_exists hgn.tidy
            rw [ha, ← shape_rebase e]
            exact mem_perm_bound (hperm ρ hρ) hb.bound (mItems_within C ρ (rebase e) (t.active + 1) h.1) (by omega) x hx⟩
        rwa [ha, hrb] at this

  theorem tOr_elem (C : Comp E) {w : Int} {A : Addr} {R : Exec E} (hw : w ≠ 0) (ht : There A R) : ∀ (es : Exprs E) (n : Exec E) (t : T E) (par : Nat),
      es.Plain → Frag2s C (rebases es) → (∀ f, FreeAny es f → f.root = w) → Start t par → WithinLoop w A R n t →
      Does3 t A R n (storedAll (rebases es)) (fun ρ => mItemsAll C ρ (rebases es) t.active) (tOr C es t)
    | .nil, _, _, _, _, h, _, _, _ => by simp [rebases, Frag2s] at h
    | .cons e .nil, n, t, par, hp, h, hf, hs, hb => by
      rw [rebases, rebases, Frag2s] at h
      rw [tOr]; simp only [rebases, storedAll, List.append_nil, mItemsAll]
      exact tOne_elem C hw ht e n t par hp.1 h (fun f h => hf f (.head h)) hs hb
    | .cons e (.cons e' r), n, t, par, hp, h, hf, hs, hb => by
      rw [rebases, rebases, Frag2s] at h
      have hrb : rebases (.cons e' r) = .cons (rebase e') (rebases r) := by rw [rebases]
      rw [tOr.eq_def, rebases, rebases, storedAll]; simp only [mItemsAll, shape_rebase]
      refine tBin_does3 (o := .or) (a := shape e) hs (fun t1 h1 ha hc1 hr1 hs1 => ?_)
        (fun t1 t2 h1 h2 => tOne_grown C e t1 t2 _ h1 h2) (fun t1 n' h1 ha hc1 hr1 hperm hgn => ?_)
      · have := tOne_elem C hw ht e n t1 t.active hp.1 h.1 (fun f h => hf f (.head h)) h1 (hb.child (by omega) hc1 hr1 hs1)
        rwa [ha] at this
      · have := tOr_elem C hw ht (.cons e' r) n' t1 t.active hp.2 (by rw [hrb]; exact h.2) (fun f h => hf f (.tail h)) h1
          ⟨hr1, by rw [hc1]; exact hb.ctx, hgn, by
            intro x hx
            obtain ⟨ρ, hρ⟩ := agrees_exists hgn.tidy
            rw [ha, ← shape_rebase e]
            exact mem_perm_bound (hperm ρ hρ) hb.bound (mItems_within C ρ (rebase e) (t.active + 1) h.1) (by omega) x hx⟩
        rwa [ha, hrb] at this
end

/-! ### The loop -/

theorem addLoop_body (p : Path) (b : Nat) (m : Mode) (n R : Exec E) (h : ∀ x ∈ items R, x.2.bucket < b) :
    update (keys p ++ [.loop b]) (fun _ => n) (update (keys p) (addLoop b m none emptyExec) R) = update (keys p) (addLoop b m none n) R := by
  rw [update_append, update_comp]
  exact update_congr (g := fun _ => n) p R (noLoop_of_lt h)

/-- A loop over an array of the document whose body is in `Body`. -/
theorem tLoop_elem {C : Comp E} {m : Mode} {w : Int} {i s : Expr E} {t : T E} {par : Nat} (hs : Start t par) (hc : t.ctx = [])
    (hb : ∀ x ∈ items t.root, x.2.bucket < t.active) (hi : i = .field ⟨0, inPath i⟩) (h : Body C w s) :
    ∃ t' n, tOne C (.loop m w i s) t = .ok t' ∧ t'.root = update (keys (inPath i)) (addLoop (t.active + 1) m none n) t.root ∧
      Grow (fun x => x ∈ stored (rebase s)) (fun ρ => mItems C ρ (rebase s) (t.active + 1)) t.slotIdx t'.slotIdx emptyExec n ∧
      ∀ p ∈ stored (rebase s), ∃ k, (p, Note.slot k) ∈ notes n := by
  have hfree : ∀ f, Free (.loop m w i s) f ↔ f = ⟨0, inPath i⟩ := by
    intro f
    constructor
    · intro hf
      cases hf with
      | loopIn hf => rw [hi] at hf; cases hf; rfl
      | loopBody hf hv => exact absurd (h.free f hf) hv
    · intro hf
      subst hf
      refine .loopIn ?_
      have : Free (.field ⟨0, inPath i⟩ : Expr E) ⟨0, inPath i⟩ := .field _
      exact hi ▸ this
  have hpi : i.Plain := by rw [hi]; trivial
  have hin : InCtx t 0 [] := Or.inl ⟨rfl, hc, rfl⟩
  have hbase := pickBase_one (e := .loop m w i s) hin (p := inPath i) ⟨hpi, h.plain⟩ (fun f hf => (hfree f).1 hf)
    (fun _ => (hfree _).2 rfl)
  have hdr := makeDataRef_one (C := C) (t := { t with root := update ([] ++ keys (inPath i)) id t.root }) (v := 0) (A := [])
    (p := inPath i) hin (update_id_idem _ _) i (by rw [hi]; rfl)
  have hside : sideOf C i = none := by rw [hi]; rfl
  rw [tOne, tLoop, hbase, Res.bind_ok]
  simp only
  rw [hdr, Res.bind_ok, hside]
  simp only [List.nil_append]
  have hs0 : Start { t with root := update (keys (inPath i)) id t.root } par := ⟨hs.len, hs.bk, hs.node⟩
  obtain ⟨t1, e1, ha, hs1, hctx, hr, hsl, hn, hb1⟩ := first_child (ty := .loop) hs0
  obtain ⟨x, hx, e1⟩ := Res.bind_eq_ok.1 e1
  rw [hx, Res.bind_ok, e1, Res.bind_ok]
  simp only at ha hs1
  simp only [NRef.addLoop, Res.bind_ok, NRef.addr]
  have hroot : update (keys (inPath i)) (addLoop t1.active m none emptyExec) t1.root =
      update (keys (inPath i)) (addLoop t1.active m none emptyExec) t.root := by
    rw [hr]; simp only; rw [update_comp]; rfl
  obtain ⟨t2, n, h1, h2, h3, h4⟩ := tOne_elem C h.var (there_loop (inPath i) t1.active m none emptyExec t.root) s emptyExec { t1 with
      root := update (keys (inPath i)) (addLoop t1.active m none emptyExec) t1.root,
      ctx := (w, keys (inPath i) ++ [.loop t1.active]) :: t1.ctx } t.active h.plain h.frag h.free ⟨hs1.len, hs1.bk, hs1.node⟩
    ⟨by simp only; rw [hroot, addLoop_body _ _ _ _ _ (fun x hx => by have := hb x hx; omega)], ⟨_, rfl⟩, good_empty _, fun x hx => by
      rw [emptyExec_items] at hx; cases hx⟩
  rw [h1, Res.bind_ok]
  have hG := tOne_grown C s { t1 with
      root := update (keys (inPath i)) (addLoop t1.active m none emptyExec) t1.root,
      ctx := (w, keys (inPath i) ++ [.loop t1.active]) :: t1.ctx } t2 t.active ⟨hs1.len, hs1.bk, hs1.node⟩ h1
  rw [hG.ctx]
  simp only [ne_eq, not_true_eq_false, if_false]
  refine ⟨_, n, rfl, ?_, ?_, h4⟩
  · simp only
    rw [h2, addLoop_body _ _ _ _ _ (fun x hx => by have := hb x hx; omega), ha]
  · simp only at h3 ⊢
    rw [hsl, ha] at h3
    exact h3

end Verif.Transform
