import Verif.Transform.Store

/-!
# Compiling loops that refer to the document

The body of a loop may mention fields of the document besides the loop's variable.  The loop is then compiled to a loop of the
`AfterNode` of the common path of these fields and of the array, all of which are stored in slots.  `tLoop_rooted` shows what the
transformer adds for such a loop.
-/

namespace Verif.Transform
open Verif.FastVal Verif.Match Verif.Expr
open Verif.Token (D Es Ms Tok)
open Verif.BinTree (Sh BinOp)

variable {E : Ext}

/-! ### Specification: the bodies of loops -/

mutual
  /-- The path of a field of a loop's variable mentioned in a parameter expression. -/
  def varPath : Expr E → Option Path
    | .field f => if f.root = 0 then none else some f.path
    | .func _ ps => varPaths ps
    | _ => none
  def varPaths : Exprs E → Option Path
    | .nil => none
    | .cons e r => (varPath e).or (varPaths r)
end

/-- The path of the loop's variable a condition is about. -/
def vPath (l r : Expr E) : Path := ((varPath l).or (varPath r)).getD []

mutual
  /-- The fields of the document mentioned in a parameter expression. -/
  def rootPaths : Expr E → List Path
    | .field f => if f.root = 0 then [f.path] else []
    | .func _ ps => rootPathsAll ps
    | _ => []
  def rootPathsAll : Exprs E → List Path
    | .nil => []
    | .cons e r => rootPaths e ++ rootPathsAll r
end

mutual
  /-- The fields of the document mentioned in the body of a loop. -/
  def rPaths : Expr E → List Path
    | .cmp _ l r => rootPaths l ++ rootPaths r
    | .not e => rPaths e
    | .and es => rPathsAll es
    | .or es => rPathsAll es
    | .loop _ _ _ s => rPaths s
    | _ => []
  def rPathsAll : Exprs E → List Path
    | .nil => []
    | .cons e r => rPaths e ++ rPathsAll r
end

mutual
  /-- Constants, functions of parameters, fields of the document, and the field `p` of the variable `w`. -/
  def RParam (C : Comp E) (w : Int) (p : Path) : Expr E → Prop
    | .field f => f.root = 0 ∨ f = ⟨w, p⟩
    | .value _ => True
    | .regex g => ∃ s r, g = .json (.str s) ∧ C.regexp s = some r
    | .pcre g => ∃ s r, g = .json (.str s) ∧ C.pcre s = some r
    | .time g => ∃ s x, g = .json (.str s) ∧ E.parseTime s = some x
    | .func _ ps => RParams C w p ps
    | _ => False
  def RParams (C : Comp E) (w : Int) (p : Path) : Exprs E → Prop
    | .nil => True
    | .cons e r => RParam C w p e ∧ RParams C w p r
end

mutual
  /-- Boolean combinations of comparisons of one field of the variable `w` each with constants and fields of the document, of
  tests whether a field of `w` exists, and of loops over a field of `w` whose bodies are of this form for the loop's variable. -/
  def RFrag (C : Comp E) (w : Int) : Expr E → Prop
    | .cmp _ l r => RParam C w (vPath l r) l ∧ RParam C w (vPath l r) r
    | .exist e => Param C w (condPath e e) e
    | .not e => RFrag C w e
    | .and es => RFrags C w es
    | .or es => RFrags C w es
    | .loop _ w' i s => i = .field ⟨w, inPath i⟩ ∧ w' ≠ 0 ∧ s.Plain ∧ RFrag C w' s
    | _ => False
  def RFrags (C : Comp E) (w : Int) : Exprs E → Prop
    | .nil => False
    | .cons e .nil => RFrag C w e
    | .cons e (.cons e' r) => RFrag C w e ∧ RFrags C w (.cons e' r)
end

/-! ### What compilation adds -/

mutual
  /-- The reference for a parameter: fields of the document are in slots, given by `ρ`. -/
  def rref (C : Comp E) (ρ : Path → Nat) : Expr E → Ref E
    | .field f => if f.root = 0 then .slot (ρ f.path) else .lit
    | .func n ps => .fn (fnameOf n) (rrefs C ρ ps)
    | e => refOf C e
  def rrefs (C : Comp E) (ρ : Path → Nat) : Exprs E → Refs E
    | .nil => .nil
    | .cons e r => .cons (rref C ρ e) (rrefs C ρ r)
end

/-- One side of a comparison. -/
def rside (C : Comp E) (ρ : Path → Nat) : Expr E → Option (Ref E)
  | .field f => if f.root = 0 then some (.slot (ρ f.path)) else none
  | e => some (rref C ρ e)

mutual
  /-- What the body with bucket `b` adds to the loop's node. -/
  def rins (C : Comp E) (ρ : Path → Nat) : Expr E → Nat → Exec E → Exec E
    | .cmp c l r, b => update (keys (vPath l r))
        (addOp ⟨if c = .ne then b + 1 else b, opOf c, rside C ρ l, rside C ρ r⟩)
    | .exist e, b => update (keys (condPath e e)) (addOp ⟨b, .exists_, sideOf C e, none⟩)
    | .not e, b => rins C ρ e (b + 1)
    | .and es, b => rinsAll C ρ es b
    | .or es, b => rinsAll C ρ es b
    | .loop m _ i s, b => update (keys (inPath i)) (addBody (b + 1) m (rins C ρ s (b + 1)))
    | _, _ => id
  def rinsAll (C : Comp E) (ρ : Path → Nat) : Exprs E → Nat → Exec E → Exec E
    | .nil, _ => id
    | .cons e .nil, b => rins C ρ e b
    | .cons e (.cons e' r), b => fun n => rinsAll C ρ (.cons e' r) (b + 1 + (shape e).size) (rins C ρ e (b + 1) n)
end

mutual
  /-- What `rins` adds. -/
  def rItems (C : Comp E) (ρ : Path → Nat) : Expr E → Nat → List (Path × Item E)
    | .cmp c l r, b => [(vPath l r, .op ⟨if c = .ne then b + 1 else b, opOf c, rside C ρ l, rside C ρ r⟩)]
    | .exist e, b => [(condPath e e, .op ⟨b, .exists_, sideOf C e, none⟩)]
    | .not e, b => rItems C ρ e (b + 1)
    | .and es, b => rItemsAll C ρ es b
    | .or es, b => rItemsAll C ρ es b
    | .loop m _ i s, b => [(inPath i, .loop (b + 1) m none (rins C ρ s (b + 1) emptyExec))]
    | _, _ => []
  def rItemsAll (C : Comp E) (ρ : Path → Nat) : Exprs E → Nat → List (Path × Item E)
    | .nil, _ => []
    | .cons e .nil, b => rItems C ρ e b
    | .cons e (.cons e' r), b => rItems C ρ e (b + 1) ++ rItemsAll C ρ (.cons e' r) (b + 1 + (shape e).size)
end

/-! ### Field references -/

mutual
  theorem rparam_plain {C : Comp E} {v : Int} {p : Path} : ∀ (e : Expr E), RParam C v p e → e.Plain
    | .func _ ps, h => by rw [Expr.Plain]; exact rparams_plain ps h
    | .field _, _ | .value _, _ | .regex _, _ | .pcre _, _ | .time _, _ => by simp [Expr.Plain]
    | .tru, h | .fals, h | .not _, h | .and _, h | .or _, h | .loop .., h | .exist _, h | .notExist _, h | .cmp .., h => by
      simp [RParam] at h
  theorem rparams_plain {C : Comp E} {v : Int} {p : Path} : ∀ (es : Exprs E), RParams C v p es → es.Plain
    | .nil, _ => trivial
    | .cons e r, h => ⟨rparam_plain e h.1, rparams_plain r h.2⟩
end

mutual
  theorem rparam_free {C : Comp E} {w : Int} {p : Path} (hw : w ≠ 0) : ∀ (e : Expr E), RParam C w p e → ∀ f, Free e f →
      (f.root = 0 ∧ f.path ∈ rootPaths e) ∨ f = ⟨w, p⟩
    | .func _ ps, h, f, hf => by cases hf with | func hf => rw [rootPaths]; exact rparams_free hw ps h f hf
    | .field g, h, f, hf => by
      cases hf
      rcases h with h | h
      · exact Or.inl ⟨h, by rw [rootPaths, if_pos h]; simp⟩
      · exact Or.inr h
    | .value _, _, _, hf | .regex _, _, _, hf | .pcre _, _, _, hf | .time _, _, _, hf => nomatch hf
    | .tru, h, _, _ | .fals, h, _, _ | .not _, h, _, _ | .and _, h, _, _ | .or _, h, _, _ | .loop .., h, _, _
    | .exist _, h, _, _ | .notExist _, h, _, _ | .cmp .., h, _, _ => by simp [RParam] at h
  theorem rparams_free {C : Comp E} {w : Int} {p : Path} (hw : w ≠ 0) : ∀ (es : Exprs E), RParams C w p es → ∀ f, FreeAny es f →
      (f.root = 0 ∧ f.path ∈ rootPathsAll es) ∨ f = ⟨w, p⟩
    | .nil, _, _, hf => nomatch hf
    | .cons e r, h, f, hf => by
      rw [rootPathsAll, List.mem_append]
      cases hf with
      | head hf => exact (rparam_free hw e h.1 f hf).imp (fun h => ⟨h.1, Or.inl h.2⟩) id
      | tail hf => exact (rparams_free hw r h.2 f hf).imp (fun h => ⟨h.1, Or.inr h.2⟩) id
end

mutual
  theorem rootPaths_free : ∀ (e : Expr E) (p : Path), p ∈ rootPaths e → Free e ⟨0, p⟩
    | .func _ ps, p, h => by rw [rootPaths] at h; exact .func (rootPathsAll_free ps p h)
    | .field f, p, h => by
      rw [rootPaths] at h
      split at h
      · rename_i h0
        rw [List.mem_singleton] at h; subst h
        have : f = ⟨0, f.path⟩ := by cases f; simp_all
        have h2 : Free (.field f : Expr E) f := .field f
        exact this ▸ h2
      · cases h
    | .value _, _, h | .regex _, _, h | .pcre _, _, h | .time _, _, h | .tru, _, h | .fals, _, h | .not _, _, h | .and _, _, h | .or _, _, h
    | .loop .., _, h | .exist _, _, h | .notExist _, _, h | .cmp .., _, h => by simp [rootPaths] at h
  theorem rootPathsAll_free : ∀ (es : Exprs E) (p : Path), p ∈ rootPathsAll es → FreeAny es ⟨0, p⟩
    | .nil, _, h => by simp [rootPathsAll] at h
    | .cons e r, p, h => by
      rw [rootPathsAll] at h
      rcases List.mem_append.1 h with h | h
      · exact .head (rootPaths_free e p h)
      · exact .tail (rootPathsAll_free r p h)
end

mutual
  theorem varPath_free {C : Comp E} {w : Int} {p : Path} : ∀ (e : Expr E), RParam C w p e → varPath e ≠ none → Free e ⟨w, p⟩
    | .func _ ps, h, hp => by rw [varPath] at hp; exact .func (varPaths_free ps h hp)
    | .field g, h, hp => by
      rw [varPath] at hp
      split at hp
      · exact absurd rfl hp
      · rename_i h0
        rcases h with h | h
        · exact absurd h h0
        · rw [h]; exact .field _
    | .value _, _, hp | .regex _, _, hp | .pcre _, _, hp | .time _, _, hp => by simp [varPath] at hp
    | .tru, h, _ | .fals, h, _ | .not _, h, _ | .and _, h, _ | .or _, h, _ | .loop .., h, _
    | .exist _, h, _ | .notExist _, h, _ | .cmp .., h, _ => by simp [RParam] at h
  theorem varPaths_free {C : Comp E} {w : Int} {p : Path} : ∀ (es : Exprs E), RParams C w p es → varPaths es ≠ none → FreeAny es ⟨w, p⟩
    | .nil, _, hp => by simp [varPaths] at hp
    | .cons e r, h, hp => by
      rw [varPaths] at hp
      by_cases h1 : varPath e = none
      · rw [h1, Option.none_or] at hp; exact .tail (varPaths_free r h.2 hp)
      · exact .head (varPath_free e h.1 h1)
end

theorem vPath_some {C : Comp E} {w : Int} {l r : Expr E} (hl : RParam C w (vPath l r) l) (hr : RParam C w (vPath l r) r)
    (h : vPath l r ≠ []) : Free l ⟨w, vPath l r⟩ ∨ Free r ⟨w, vPath l r⟩ := by
  by_cases h1 : varPath l = none
  · by_cases h2 : varPath r = none
    · simp [vPath, h1, h2] at h
    · exact Or.inr (varPath_free r hr h2)
  · exact Or.inl (varPath_free l hl h1)

mutual
  theorem rfrag_free {C : Comp E} : ∀ (w : Int) (e : Expr E), w ≠ 0 → RFrag C w e → ∀ f, Free e f →
      (f.root = 0 ∧ f.path ∈ rPaths e) ∨ f.root = w
    | w, .cmp c l r, hw, h, f, hf => by
      rw [rPaths, List.mem_append]
      cases hf with
      | cmpL hf => exact (rparam_free hw l h.1 f hf).imp (fun h => ⟨h.1, Or.inl h.2⟩) (fun h => by rw [h])
      | cmpR hf => exact (rparam_free hw r h.2 f hf).imp (fun h => ⟨h.1, Or.inr h.2⟩) (fun h => by rw [h])
    | w, .exist e, hw, h, f, hf => by cases hf with | exist hf => rw [param_free e h f hf]; exact Or.inr rfl
    | w, .not e, hw, h, f, hf => by cases hf with | not hf => rw [rPaths]; exact rfrag_free w e hw h f hf
    | w, .and es, hw, h, f, hf => by cases hf with | and hf => rw [rPaths]; exact rfrags_free w es hw h f hf
    | w, .or es, hw, h, f, hf => by cases hf with | or hf => rw [rPaths]; exact rfrags_free w es hw h f hf
    | w, .loop m w' i s, hw, h, f, hf => by
      cases hf with
      | loopIn hf => rw [h.1] at hf; cases hf; exact Or.inr rfl
      | loopBody hf hv =>
        rw [rPaths]
        rcases rfrag_free w' s h.2.1 h.2.2.2 f hf with h' | h'
        · exact Or.inl h'
        · exact absurd h' hv
    | w, .tru, _, h, _, _ | w, .fals, _, h, _, _ | w, .notExist _, _, h, _, _
    | w, .value _, _, h, _, _ | w, .regex _, _, h, _, _ | w, .pcre _, _, h, _, _
    | w, .time _, _, h, _, _ | w, .field _, _, h, _, _ | w, .func .., _, h, _, _ => by simp [RFrag] at h
  theorem rfrags_free {C : Comp E} : ∀ (w : Int) (es : Exprs E), w ≠ 0 → RFrags C w es → ∀ f, FreeAny es f →
      (f.root = 0 ∧ f.path ∈ rPathsAll es) ∨ f.root = w
    | w, .cons e .nil, hw, h, f, hf => by
      rw [rPathsAll, rPathsAll, List.append_nil]
      cases hf with
      | head hf => rw [RFrags] at h; exact rfrag_free w e hw h f hf
      | tail hf => cases hf
    | w, .cons e (.cons e' r), hw, h, f, hf => by
      rw [RFrags] at h
      rw [rPathsAll, List.mem_append]
      cases hf with
      | head hf => exact (rfrag_free w e hw h.1 f hf).imp (fun h => ⟨h.1, Or.inl h.2⟩) id
      | tail hf => exact (rfrags_free w (.cons e' r) hw h.2 f hf).imp (fun h => ⟨h.1, Or.inr h.2⟩) id
end

mutual
  theorem rPaths_free {C : Comp E} : ∀ (w : Int) (e : Expr E), RFrag C w e → ∀ p ∈ rPaths e, Free e ⟨0, p⟩
    | w, .cmp c l r, h, p, hp => by
      rw [rPaths] at hp
      rcases List.mem_append.1 hp with hp | hp
      · exact .cmpL (rootPaths_free l p hp)
      · exact .cmpR (rootPaths_free r p hp)
    | w, .not e, h, p, hp => by rw [rPaths] at hp; exact .not (rPaths_free w e h p hp)
    | w, .and es, h, p, hp => by rw [rPaths] at hp; exact .and (rPathsAll_free w es h p hp)
    | w, .or es, h, p, hp => by rw [rPaths] at hp; exact .or (rPathsAll_free w es h p hp)
    | w, .loop m w' i s, h, p, hp => by
      rw [rPaths] at hp; exact .loopBody (rPaths_free w' s h.2.2.2 p hp) (Ne.symm h.2.1)
    | w, .exist _, h, _, hp => by simp [rPaths] at hp
    | w, .tru, h, _, _ | w, .fals, h, _, _ | w, .notExist _, h, _, _
    | w, .value _, h, _, _ | w, .regex _, h, _, _ | w, .pcre _, h, _, _
    | w, .time _, h, _, _ | w, .field _, h, _, _ | w, .func .., h, _, _ => by simp [RFrag] at h
  theorem rPathsAll_free {C : Comp E} : ∀ (w : Int) (es : Exprs E), RFrags C w es → ∀ p ∈ rPathsAll es, FreeAny es ⟨0, p⟩
    | w, .nil, h, _, _ => by simp [RFrags] at h
    | w, .cons e .nil, h, p, hp => by
      rw [rPathsAll, rPathsAll, List.append_nil] at hp; rw [RFrags] at h
      exact .head (rPaths_free w e h p hp)
    | w, .cons e (.cons e' r), h, p, hp => by
      rw [RFrags] at h
      rw [rPathsAll] at hp
      rcases List.mem_append.1 hp with hp | hp
      · exact .head (rPaths_free w e h.1 p hp)
      · exact .tail (rPathsAll_free w (.cons e' r) h.2 p hp)
end

/-! ### The base node -/

theorem commonPath_same {ps : List Path} {p : Path} (h : ∀ x ∈ ps, x = p) : ∀ (q pre : Path), p = pre ++ q → commonPath ps pre.length q = .ok q
  | [], pre, _ => rfl
  | k :: q, pre, hp => by
    rw [commonPath, allAt_true ps (fun x hx => by rw [h x hx, hp]; simp)]
    have := commonPath_same h q (pre ++ [k]) (by rw [hp]; simp)
    rw [List.length_append, List.length_singleton] at this
    simp [this]

theorem resolveRefs_rooted {t : T E} {w : Int} {A : Addr} (hw : w ≠ 0) (hc : InCtx t w A) {p : Path} : ∀ fs : List Field,
    (∀ f ∈ fs, f.root = 0 ∨ f = ⟨w, p⟩) →
    resolveRefs t fs = .ok (fs.map (fun f => ⟨if f.root = 0 then none else currentContext t, f.path⟩))
  | [], _ => rfl
  | f :: fs, h => by
    have hf : getContext t f.root = .ok (if f.root = 0 then none else currentContext t) := by
      rcases h f (by simp) with h | h
      · rw [if_pos h, getContext, if_pos h]
      · rw [h, if_neg hw, hc.get.1]
    rw [resolveRefs, resolveRef, hf, Res.bind_ok, Res.bind_ok,
      resolveRefs_rooted hw hc fs (fun f hf => h f (List.mem_cons_of_mem _ hf)), Res.bind_ok, List.map_cons]

/-- Inside a loop, fields of the document do not matter for the base. -/
theorem pickBase_rooted {t : T E} {w : Int} {A : Addr} (hw : w ≠ 0) (hc : InCtx t w A) {e : Expr E} {p : Path} (hp : e.Plain)
    (hall : ∀ f, Free e f → f.root = 0 ∨ f = ⟨w, p⟩) (hsome : p ≠ [] → Free e ⟨w, p⟩) :
    pickBase t e = .ok ({ t with root := update (A ++ keys p) id t.root }, .node (A ++ keys p)) := by
  obtain ⟨g1, g2⟩ := hc.get
  obtain ⟨fs, h1, h2, _⟩ := fetch_adds [] e hp []
  have hcur : currentContext t = some A := by
    rcases hc with ⟨rfl, _, _⟩ | ⟨_, rest, h⟩
    · exact absurd rfl hw
    · simp [currentContext, h]
  have hmem : ∀ f ∈ fs, f.root = 0 ∨ f = ⟨w, p⟩ := fun f hf => hall f (by simpa using (h2 f).1 hf)
  rw [pickBase, fieldRefs, h1, Res.bind_ok, resolveRefs_rooted hw hc fs hmem, Res.bind_ok, findBestRoot]
  generalize hl : ((fs.map (fun f => (⟨if f.root = 0 then none else currentContext t, f.path⟩ : RRef))).filter
    (fun r => decide (r.ctx = currentContext t))).map RRef.path = l
  have hlp : ∀ x ∈ l, x = p := by
    intro x hx
    rw [← hl] at hx
    obtain ⟨r, hr, rfl⟩ := List.mem_map.1 hx
    obtain ⟨hr, hcx⟩ := List.mem_filter.1 hr
    obtain ⟨f, hf, rfl⟩ := List.mem_map.1 hr
    rcases hmem f hf with h | h
    · simp [h, hcur] at hcx
    · rw [h]
  have hln : p ≠ [] → l ≠ [] := by
    intro hne h0
    have := (h2 ⟨w, p⟩).2 (Or.inr ⟨hsome hne, by simp⟩)
    have hm : p ∈ l := by
      rw [← hl]
      refine List.mem_map.2 ⟨⟨currentContext t, p⟩, List.mem_filter.2 ⟨List.mem_map.2 ⟨_, this, by simp [hw]⟩, by simp⟩, rfl⟩
    rw [h0] at hm; cases hm
  cases l with
  | nil =>
    have hp0 : p = [] := by
      apply Classical.byContradiction
      intro h; exact hln h rfl
    subst hp0
    simp [getExecNode, RRef.addr, hcur, keys]
  | cons x l =>
    have hlo : longest x l = p := hlp _ (longest_mem l x)
    have hcp : commonPath (x :: l) 0 p = .ok p := commonPath_same hlp p [] rfl
    simp only [hlo, hcp, Res.bind_ok]
    simp [getExecNode, RRef.addr, hcur, keys]

/-! ### Growing beside a loop -/

/-- A change of a node that has nothing to do with its fields. -/
def Beside (G : Exec E → Exec E) : Prop :=
  ∀ st ops ls a, ∃ ops' ls' a', ∀ es, G (.mk st es ops ls a) = .mk st es ops' ls' a'

theorem Beside.comp {F G : Exec E → Exec E} (hF : Beside F) (hG : Beside G) : Beside (fun n => F (G n)) := by
  intro st ops ls a
  obtain ⟨o1, l1, a1, h1⟩ := hG st ops ls a
  obtain ⟨o2, l2, a2, h2⟩ := hF st o1 l1 a1
  exact ⟨o2, l2, a2, fun es' => by simp only [h1 es', h2 es']⟩

theorem Beside.loop (b : Nat) (B : Addr) (F : Exec E → Exec E) : Beside (update (.loop b :: B) F) :=
  fun st ops ls a => ⟨_, _, _, fun es => by rw [update]⟩

theorem Beside.addAfter (b : Nat) (m : Mode) (tg : Option (Ref E)) (e : Exec E) : Beside (addAfterLoop b m tg e)
  | st, ops, ls, .none => ⟨_, _, _, fun es => rfl⟩
  | st, ops, ls, .some .. => ⟨_, _, _, fun es => rfl⟩

theorem Beside.id : Beside (id : Exec E → Exec E) := fun st ops ls a => ⟨_, _, _, fun es => rfl⟩

theorem Beside.swap {G : Exec E → Exec E} (hG : Beside G) (k : List Nat) (p : Path) (H : Exec E → Exec E) (n : Exec E) :
    update (keys (k :: p)) H (G n) = G (update (keys (k :: p)) H n) := by
  obtain ⟨st, es, ops, ls, a⟩ := n
  obtain ⟨o1, l1, a1, h1⟩ := hG st ops ls a
  simp only [keys, List.map_cons, h1, update]

theorem Beside.node {G : Exec E → Exec E} (hG : Beside G) (k : List Nat) (p : Path) (n : Exec E) :
    nodeAt (keys (k :: p)) (G n) = nodeAt (keys (k :: p)) n := by
  obtain ⟨st, es, ops, ls, a⟩ := n
  obtain ⟨o1, l1, a1, h1⟩ := hG st ops ls a
  simp only [keys, List.map_cons, h1, nodeAt]

theorem nodeAt_append : ∀ (A B : Addr) (n : Exec E), nodeAt (A ++ B) n = (nodeAt A n).bind (nodeAt B)
  | [], B, n => rfl
  | .key k :: A, B, .mk st es ops ls a => by
    simp only [List.cons_append, nodeAt]
    cases es.find k with
    | none => rfl
    | some e => exact nodeAt_append A B e
  | .loop b :: A, B, .mk st es ops ls a => by
    simp only [List.cons_append, nodeAt]
    cases (findLoop b ls).or (findAfter b a) with
    | none => rfl
    | some e => exact nodeAt_append A B e

theorem keys_append (p q : Path) : keys (p ++ q) = keys p ++ keys q := by simp [keys]

theorem beside_swap {G : Exec E → Exec E} (hG : Beside G) (q : Path) (k : List Nat) (p : Path) (H : Exec E → Exec E) (n : Exec E) :
    update (keys (q ++ k :: p)) H (update (keys q) G n) = update (keys q) G (update (keys (q ++ k :: p)) H n) := by
  rw [keys_append, update_append, update_append, update_comp, update_comp]
  congr 1
  funext x
  exact hG.swap k p H x

theorem beside_node {G : Exec E → Exec E} (hG : Beside G) (q : Path) (k : List Nat) (p : Path) (n : Exec E) :
    nodeAt (keys (q ++ k :: p)) (update (keys q) G n) = nodeAt (keys (q ++ k :: p)) n := by
  rw [keys_append, nodeAt_append, nodeAt_append, nodeAt_update, Option.bind_some, hG.node]
  cases nodeAt (keys q) n with
  | some m => rfl
  | none => rfl

/-- What storing a field does depends on the nodes and slots only. -/
theorem fieldRef_only {t : T E} {R : Exec E} {r : RRef} {t' : T E} {ref : Ref E}
    (h : fieldRef ⟨t.slotIdx, 0, R, [], [], 0⟩ (.after []) r = (t', ref)) :
    fieldRef { t with root := R } (.after []) r = ({ t with root := t'.root, slotIdx := t'.slotIdx }, ref) := by
  have hs : ∀ (t t1 : T E) (a : Addr), t1.slotIdx = t.slotIdx → t1.root = t.root →
      storeExecNode t a = ({ t with root := (storeExecNode t1 a).1.root, slotIdx := (storeExecNode t1 a).1.slotIdx }, (storeExecNode t1 a).2) := by
    intro t t1 a h1 h2
    simp only [storeExecNode, h2, newSlot, h1]
    split <;> simp [h1, h2]
  simp only [fieldRef, getExecNode] at h ⊢
  rw [if_neg (by simp)] at h ⊢
  cases h
  rw [hs { t with root := update r.addr id R } ⟨t.slotIdx, 0, update r.addr id R, [], [], 0⟩ r.addr rfl rfl]

/-- Storing a field beside a loop. -/
theorem fieldRef_beside {t : T E} {G : Exec E → Exec E} (hG : Beside G) {q : Path} {R : Exec E} (hr : t.root = update (keys q) G R)
    {ctx : NRef} {k : List Nat} {p : Path} (hctx : ctx ≠ .node (keys (q ++ k :: p))) {t' : T E} {ref : Ref E}
    (hu : fieldRef { t with root := R } (.after []) ⟨none, q ++ k :: p⟩ = (t', ref)) :
    fieldRef t ctx ⟨none, q ++ k :: p⟩ = ({ t with root := update (keys q) G t'.root, slotIdx := t'.slotIdx }, ref) := by
  have ha : (⟨none, q ++ k :: p⟩ : RRef).addr = keys (q ++ k :: p) := by simp [RRef.addr, keys]
  simp only [fieldRef, getExecNode, ha, if_neg hctx, storeExecNode, hr] at hu ⊢
  rw [if_neg (by simp)] at hu
  rw [beside_swap hG, beside_node hG]
  split at hu
  · rename_i h
    cases hu
    rw [if_pos h]
    simp only [newSlot, beside_swap hG]
  · rename_i h
    cases hu
    rw [if_neg h]

theorem keys_no_loop {p : Path} {A B : Addr} {b : Nat} : keys p ≠ A ++ .loop b :: B := by
  intro h
  have : Step.loop b ∈ keys p := by rw [h]; simp
  simp [keys] at this

/-- The paths all lead on below `q`. -/
def Below (q : Path) (ps : List Path) : Prop := ∀ p ∈ ps, ∃ k p', p = q ++ k :: p'

mutual
  /-- Parameters of a condition in a loop. -/
  theorem makeParam_rooted {C : Comp E} {w : Int} (hw : w ≠ 0) {p q : Path} {b : Nat} {B : Addr} : ∀ (e : Expr E), RParam C w p e →
      Below q (rootPaths e) → ∀ (R : Exec E) (k : Nat), Good k R →
      ∃ R' k' ref, Grow (fun x => x ∈ rootPaths e) (fun _ => []) k k' R R' ∧ (∀ ρ, Agrees ρ R' → ref = rref C ρ e) ∧
        (∀ p ∈ rootPaths e, ∃ s, (p, Note.slot s) ∈ notes R') ∧
        ∀ (t : T E) (G : Exec E → Exec E), Beside G → (∀ n, update (.loop b :: B ++ keys p) id (G n) = G n) → t.root = update (keys q) G R →
          t.slotIdx = k → InCtx t w (keys q ++ .loop b :: B) →
          makeParam C t (.node ((keys q ++ .loop b :: B) ++ keys p)) e = .ok ({ t with root := update (keys q) G R', slotIdx := k' }, ref)
    | .field f, h, hb, R, k, hg => by
      by_cases hf : f.root = 0
      · obtain ⟨k0, p0, hp0⟩ := hb f.path (by rw [rootPaths, if_pos hf]; simp)
        obtain ⟨t', s, h1, h2, h3, h4, h5⟩ := store_grow (t := ⟨k, 0, R, [], [], 0⟩) hg [] f.path
        refine ⟨t'.root, t'.slotIdx, .slot s, h4.mono (fun p hp => by rw [rootPaths, if_pos hf]; simp [hp]) (fun _ => rfl), fun ρ hρ => ?_, ?_, ?_⟩
        · rw [rref, if_pos hf, hρ _ _ h5]
        · intro p hp
          rw [rootPaths, if_pos hf, List.mem_singleton] at hp
          subst hp
          exact ⟨s, h5⟩
        · intro t G hG _ hr hk hc
          rw [makeParam, resolveRef, getContext, if_pos hf, Res.bind_ok, Res.bind_ok, hp0]
          rw [hp0] at h1
          have hu : fieldRef { t with root := R } (.after []) ⟨none, q ++ k0 :: p0⟩ =
              ({ t with root := t'.root, slotIdx := t'.slotIdx }, .slot s) := by
            rw [← hk] at h1
            exact fieldRef_only h1
          rw [fieldRef_beside hG hr (by intro h; injection h with h; rw [List.append_assoc, List.cons_append] at h; exact keys_no_loop h.symm) hu]
      · have hfe : f = ⟨w, p⟩ := h.resolve_left hf
        refine ⟨R, k, .lit, Grow.refl hg, fun ρ _ => by rw [rref, if_neg hf], fun p hp => ?_, ?_⟩
        · rw [rootPaths, if_neg hf] at hp; cases hp
        · intro t G hG hid hr hk hc
          obtain ⟨g1, g2⟩ := hc.get
          subst hfe
          have hroot : update ((keys q ++ .loop b :: B) ++ keys p) id t.root = t.root := by
            rw [hr, List.append_assoc, update_append, update_comp]
            congr 1
            funext n
            exact hid n
          rw [makeParam, resolveRef, g1, Res.bind_ok, Res.bind_ok, fieldRef_same' (by simp [RRef.addr, g2, keys]) hroot]
          simp only [← hr, ← hk]
    | .value g, _, _, R, k, hg => ⟨R, k, refOf C (.value g), Grow.refl hg, fun ρ _ => by simp only [rref], fun p hp => by simp [rootPaths] at hp,
        fun t G hG _ hr hk hc => by rw [makeParam, refOf]; simp only [← hr, ← hk]⟩
    | .regex g, h, _, R, k, hg => by
      obtain ⟨s, r, rfl, hr⟩ := h
      exact ⟨R, k, refOf C (.regex (.json (.str s))), Grow.refl hg, fun ρ _ => by simp only [rref], fun p hp => by simp [rootPaths] at hp,
        fun t G hG _ hr' hk hc => by simp only [makeParam, refOf, asStr, Res.bind_ok, hr]; simp only [← hr', ← hk]⟩
    | .pcre g, h, _, R, k, hg => by
      obtain ⟨s, r, rfl, hr⟩ := h
      exact ⟨R, k, refOf C (.pcre (.json (.str s))), Grow.refl hg, fun ρ _ => by simp only [rref], fun p hp => by simp [rootPaths] at hp,
        fun t G hG _ hr' hk hc => by simp only [makeParam, refOf, asStr, Res.bind_ok, hr]; simp only [← hr', ← hk]⟩
    | .time g, h, _, R, k, hg => by
      obtain ⟨s, r, rfl, hr⟩ := h
      exact ⟨R, k, refOf C (.time (.json (.str s))), Grow.refl hg, fun ρ _ => by simp only [rref], fun p hp => by simp [rootPaths] at hp,
        fun t G hG _ hr' hk hc => by simp only [makeParam, refOf, asStr, Res.bind_ok, hr]; simp only [← hr', ← hk]⟩
    | .func n ps, h, hb, R, k, hg => by
      rw [rootPaths] at hb
      obtain ⟨R', k', refs, h1, h2, h3, h4⟩ := makeParams_rooted hw ps h hb R k hg
      refine ⟨R', k', .fn (fnameOf n) refs, h1.mono (fun p hp => by rw [rootPaths]; exact hp) (fun _ => rfl), fun ρ hρ => by rw [rref, h2 ρ hρ],
        fun p hp => by rw [rootPaths] at hp; exact h3 p hp, fun t G hG hid hr hk hc => ?_⟩
      rw [makeParam, h4 t G hG hid hr hk hc, Res.bind_ok]
    | .tru, h, _, _, _, _ | .fals, h, _, _, _, _ | .not _, h, _, _, _, _ | .and _, h, _, _, _, _ | .or _, h, _, _, _, _
    | .loop .., h, _, _, _, _ | .exist _, h, _, _, _, _ | .notExist _, h, _, _, _, _ | .cmp .., h, _, _, _, _ => by simp [RParam] at h
  theorem makeParams_rooted {C : Comp E} {w : Int} (hw : w ≠ 0) {p q : Path} {b : Nat} {B : Addr} : ∀ (es : Exprs E), RParams C w p es →
      Below q (rootPathsAll es) → ∀ (R : Exec E) (k : Nat), Good k R →
      ∃ R' k' refs, Grow (fun x => x ∈ rootPathsAll es) (fun _ => []) k k' R R' ∧ (∀ ρ, Agrees ρ R' → refs = rrefs C ρ es) ∧
        (∀ p ∈ rootPathsAll es, ∃ s, (p, Note.slot s) ∈ notes R') ∧
        ∀ (t : T E) (G : Exec E → Exec E), Beside G → (∀ n, update (.loop b :: B ++ keys p) id (G n) = G n) → t.root = update (keys q) G R →
          t.slotIdx = k → InCtx t w (keys q ++ .loop b :: B) →
          makeParams C t (.node ((keys q ++ .loop b :: B) ++ keys p)) es = .ok ({ t with root := update (keys q) G R', slotIdx := k' }, refs)
    | .nil, _, _, R, k, hg => ⟨R, k, .nil, Grow.refl hg, fun ρ _ => by rw [rrefs], fun p hp => by simp [rootPathsAll] at hp,
        fun t G hG _ hr hk hc => by rw [makeParams]; simp only [← hr, ← hk]⟩
    | .cons e r, h, hb, R, k, hg => by
      rw [rootPathsAll] at hb
      obtain ⟨R1, k1, ref, a1, a2, a3, a4⟩ := makeParam_rooted (b := b) (B := B) hw e h.1 (fun p hp => hb p (List.mem_append_left _ hp)) R k hg
      obtain ⟨R2, k2, refs, b1, b2, b3, b4⟩ := makeParams_rooted (b := b) (B := B) hw r h.2 (fun p hp => hb p (List.mem_append_right _ hp)) R1 k1 a1.good
      refine ⟨R2, k2, .cons ref refs, (a1.trans b1).mono (fun p hp => by rw [rootPathsAll]; exact List.mem_append.2 hp) (fun _ => rfl),
        fun ρ hρ => by rw [rrefs, b2 ρ hρ, a2 ρ (hρ.back b1.keep)], fun p hp => ?_, fun t G hG hid hr hk hc => ?_⟩
      · rw [rootPathsAll] at hp
        rcases List.mem_append.1 hp with hp | hp
        · obtain ⟨s, hs⟩ := a3 p hp; exact ⟨s, b1.keep _ hs⟩
        · exact b3 p hp
      · rw [makeParams, a4 t G hG hid hr hk hc, Res.bind_ok]
        simp only
        rw [b4 { t with root := update (keys q) G R1, slotIdx := k1 } G hG hid rfl rfl hc, Res.bind_ok]
end

theorem makeDataRef_rooted {C : Comp E} {w : Int} (hw : w ≠ 0) {p q : Path} {b : Nat} {B : Addr} (e : Expr E) (h : RParam C w p e)
    (hb : Below q (rootPaths e)) (R : Exec E) (k : Nat) (hg : Good k R) :
    ∃ R' k' side, Grow (fun x => x ∈ rootPaths e) (fun _ => []) k k' R R' ∧ (∀ ρ, Agrees ρ R' → side = rside C ρ e) ∧
      (∀ p ∈ rootPaths e, ∃ s, (p, Note.slot s) ∈ notes R') ∧
      ∀ (t : T E) (G : Exec E → Exec E), Beside G → (∀ n, update (.loop b :: B ++ keys p) id (G n) = G n) → t.root = update (keys q) G R →
        t.slotIdx = k → InCtx t w (keys q ++ .loop b :: B) →
        makeDataRef C t (.node ((keys q ++ .loop b :: B) ++ keys p)) e = .ok ({ t with root := update (keys q) G R', slotIdx := k' }, side) := by
  obtain ⟨R', k', ref, h1, h2, h3, h4⟩ := makeParam_rooted (b := b) (B := B) hw e h hb R k hg
  obtain ⟨ρ0, hρ0⟩ := agrees_exists h1.good.tidy
  refine ⟨R', k', rside C ρ0 e, h1, fun ρ hρ => ?_, h3, fun t G hG hid hr hk hc => ?_⟩
  · have := (h2 ρ0 hρ0).symm.trans (h2 ρ hρ)
    cases e with
    | field f =>
      simp only [rref] at this
      simp only [rside]
      by_cases hf : f.root = 0
      · rw [if_pos hf, if_pos hf] at this ⊢; rw [this]
      · rw [if_neg hf, if_neg hf]
    | _ => simp only [rside, this]
  · rw [makeDataRef, h4 t G hG hid hr hk hc, Res.bind_ok, h2 ρ0 hρ0]
    cases e with
    | field f =>
      simp only [rside, rref]
      by_cases hf : f.root = 0
      · rw [if_pos hf, if_pos hf]
      · rw [if_neg hf, if_neg hf]
    | _ => simp only [rside]

/-! ### Bodies -/

/-- Transforming a part of a loop's body: fields are stored beside the loop, and `f` is applied to the loop's node, which is at
`.loop b0 :: B` below `q`. -/
def DoesR (q : Path) (b0 : Nat) (B : Addr) (w : Int) (S : List Path) (b : Nat) (f : (Path → Nat) → Exec E → Exec E)
    (run : T E → Res (T E)) : Prop :=
  ∀ (R : Exec E) (k : Nat), Good k R → ∃ R' k', Grow (fun x => x ∈ S) (fun _ => []) k k' R R' ∧
    (∀ p ∈ S, ∃ s, (p, Note.slot s) ∈ notes R') ∧
    ∀ (t : T E) (par : Nat) (G : Exec E → Exec E), Beside G → t.root = update (keys q) G R → t.slotIdx = k → t.active = b → Start t par →
      InCtx t w (keys q ++ .loop b0 :: B) → ∃ t', run t = .ok t' ∧ t'.slotIdx = k' ∧
        ∀ ρ, Agrees ρ R' → t'.root = update (keys q) (fun n => update (.loop b0 :: B) (f ρ) (G n)) R'

theorem tNot_doesR {q : Path} {b0 : Nat} {B : Addr} {w : Int} {S : List Path} {b : Nat} {f : (Path → Nat) → Exec E → Exec E}
    {g : T E → Res (T E)} (hg : DoesR q b0 B w S (b + 1) f g) : DoesR q b0 B w S b f (tNot g) := by
  intro R k hG
  obtain ⟨R', k', h1, h2, h3⟩ := hg R k hG
  refine ⟨R', k', h1, h2, fun t par G hB hr hk ha hs hc => ?_⟩
  obtain ⟨t1, e1, ha1, hs1, hctx, hr1, hsl, _, _⟩ := first_child (ty := .not) hs
  obtain ⟨t2, c1, c2, c3⟩ := h3 t1 _ G hB (by rw [hr1, hr]) (by rw [hsl, hk]) (by rw [ha1, ha]) hs1 (hc.of_ctx hctx)
  refine ⟨t2, ?_, c2, c3⟩
  rw [tNot]
  obtain ⟨x, hx, e1⟩ := Res.bind_eq_ok.1 e1
  rw [hx, Res.bind_ok]
  simp only
  rw [e1, Res.bind_ok, c1]

theorem tBin_doesR {q : Path} {b0 : Nat} {B : Addr} {w : Int} {S S' : List Path} {b : Nat} {f f' : (Path → Nat) → Exec E → Exec E}
    {o : BinOp} {a : Sh} {g g' : T E → Res (T E)} (hg : DoesR q b0 B w S (b + 1) f g)
    (hgr : ∀ (t1 t2 : T E) (par : Nat), Start t1 par → g t1 = .ok t2 → Grown t1 t2 a par)
    (hg' : DoesR q b0 B w S' (b + 1 + a.size) f' g') :
    DoesR q b0 B w (S ++ S') b (fun ρ n => f' ρ (f ρ n)) (tBin o.ty g g') := by
  intro R k hG
  obtain ⟨R1, k1, a1, a2, a3⟩ := hg R k hG
  obtain ⟨R2, k2, b1, b2, b3⟩ := hg' R1 k1 a1.good
  refine ⟨R2, k2, (a1.trans b1).mono (fun p hp => List.mem_append.2 hp) (fun _ => rfl), fun p hp => ?_, fun t par G hB hr hk ha hs hc => ?_⟩
  · rcases List.mem_append.1 hp with hp | hp
    · obtain ⟨s, hm⟩ := a2 p hp
      exact ⟨s, b1.keep _ hm⟩
    · exact b2 p hp
  · obtain ⟨t1, e1, ha1, hs1, hctx, hr1, hsl, hn, hb⟩ := first_child (ty := o.ty) hs
    obtain ⟨t2, c1, c2, c3⟩ := a3 t1 _ G hB (by rw [hr1, hr]) (by rw [hsl, hk]) (by rw [ha1, ha]) hs1 (hc.of_ctx hctx)
    have hGr := hgr t1 t2 _ hs1 c1
    obtain ⟨t3, e3, ha3, hs3, hc3, hr3, hsl3, _⟩ := second_child (o := o) ha1 hn hb hGr
    have hrun : ∀ ρ, Agrees ρ R2 → _ := fun ρ hρ => b3 t3 _ (fun n => update (.loop b0 :: B) (f ρ) (G n)) ((Beside.loop b0 B (f ρ)).comp hB)
      (by rw [hr3, c3 ρ (hρ.back b1.keep)]) (by rw [hsl3, c2]) (by rw [ha3, ha]) hs3 (hc.of_ctx (hc3.trans (hGr.ctx.trans hctx)))
    obtain ⟨ρ0, hρ0⟩ := agrees_exists b1.good.tidy
    obtain ⟨t4, d1, d2, _⟩ := hrun ρ0 hρ0
    refine ⟨t4, ?_, d2, fun ρ hρ => ?_⟩
    · rw [tBin]
      obtain ⟨x, hx, e1⟩ := Res.bind_eq_ok.1 e1
      rw [hx, Res.bind_ok]
      simp only
      rw [e1, Res.bind_ok, c1, Res.bind_ok, e3, Res.bind_ok, d1]
    · obtain ⟨t4', d1', _, d3'⟩ := hrun ρ hρ
      rw [d1] at d1'
      cases d1'
      rw [d3' ρ hρ]
      simp only [update_comp]

theorem tCompare_rooted {C : Comp E} {q : Path} {b0 : Nat} {B : Addr} {w : Int} (hw : w ≠ 0) (b : Nat) (c : Cmp) (op : OpTy) {l r : Expr E}
    (hl : RParam C w (vPath l r) l) (hr : RParam C w (vPath l r) r) (hb : Below q (rootPaths l ++ rootPaths r)) :
    DoesR q b0 B w (rootPaths l ++ rootPaths r) b
      (fun ρ => update (keys (vPath l r)) (addOp ⟨b, op, rside C ρ l, rside C ρ r⟩)) (tCompare C (.cmp c l r) op l r) := by
  intro R k hG
  obtain ⟨R1, k1, ls, a1, a2, a3, a4⟩ := makeDataRef_rooted (b := b0) (B := B) hw l hl (fun p hp => hb p (List.mem_append_left _ hp)) R k hG
  obtain ⟨R2, k2, rs, b1, b2, b3, b4⟩ := makeDataRef_rooted (b := b0) (B := B) hw r hr (fun p hp => hb p (List.mem_append_right _ hp)) R1 k1 a1.good
  refine ⟨R2, k2, (a1.trans b1).mono (fun p hp => List.mem_append.2 hp) (fun _ => rfl), fun p hp => ?_, fun t par G hB hrt hk ha hs hc => ?_⟩
  · rcases List.mem_append.1 hp with hp | hp
    · obtain ⟨s, hm⟩ := a3 p hp
      exact ⟨s, b1.keep _ hm⟩
    · exact b3 p hp
  · have hpb := pickBase_rooted (e := .cmp c l r) hw hc (p := vPath l r) ⟨rparam_plain l hl, rparam_plain r hr⟩
      (fun f hf => by
        cases hf with
        | cmpL hf => exact (rparam_free hw l hl f hf).imp And.left id
        | cmpR hf => exact (rparam_free hw r hr f hf).imp And.left id)
      (fun hne => (vPath_some hl hr hne).elim .cmpL .cmpR)
    have hB' : Beside (fun n => update (.loop b0 :: (B ++ keys (vPath l r))) id (G n)) := (Beside.loop _ _ _).comp hB
    have hid : ∀ n, update (.loop b0 :: B ++ keys (vPath l r)) id (update (.loop b0 :: (B ++ keys (vPath l r))) id (G n)) =
        update (.loop b0 :: (B ++ keys (vPath l r))) id (G n) := fun n => update_id_idem _ _
    have hroot : update ((keys q ++ .loop b0 :: B) ++ keys (vPath l r)) id t.root =
        update (keys q) (fun n => update (.loop b0 :: (B ++ keys (vPath l r))) id (G n)) R := by
      rw [hrt, List.append_assoc, List.cons_append, update_append, update_comp]
    have e1 := a4 { t with root := update ((keys q ++ .loop b0 :: B) ++ keys (vPath l r)) id t.root } _ hB' hid hroot hk hc
    have e2 := b4 { t with root := update (keys q) (fun n => update (.loop b0 :: (B ++ keys (vPath l r))) id (G n)) R1, slotIdx := k1 } _ hB' hid
      rfl rfl hc
    refine ⟨_, by rw [tCompare, hpb, Res.bind_ok]; simp only; rw [e1, Res.bind_ok]; simp only; rw [e2, Res.bind_ok], rfl, fun ρ hρ => ?_⟩
    simp only [NRef.addOp, ha]
    rw [a2 ρ (hρ.back b1.keep), b2 ρ hρ, List.append_assoc, update_append, update_comp]
    congr 1
    funext n
    rw [List.cons_append, update_comp, ← List.cons_append, update_append]
    rfl

theorem tExists_rooted {C : Comp E} {q : Path} {b0 : Nat} {B : Addr} {w : Int} (hw : w ≠ 0) (b : Nat) {e : Expr E}
    (h : Param C w (condPath e e) e) :
    DoesR q b0 B w [] b (fun _ => update (keys (condPath e e)) (addOp ⟨b, .exists_, sideOf C e, none⟩)) (tExists C e) := by
  intro R k hG
  refine ⟨R, k, Grow.refl hG, fun p hp => (by cases hp), fun t par G hB hrt hk ha hs hc => ?_⟩
  refine ⟨_, tExists_one hc h, hk, fun ρ _ => ?_⟩
  simp only [ha]
  rw [hrt, update_append, update_comp]

theorem tLoop_inner {C : Comp E} {q : Path} {b0 : Nat} {B : Addr} {w w' : Int} (hw : w ≠ 0) (b : Nat) {m : Mode} {i s : Expr E}
    (hi : i = .field ⟨w, inPath i⟩) (hw' : w' ≠ 0) (hpl : s.Plain) (hfr : RFrag C w' s) {f : (Path → Nat) → Exec E → Exec E} {S : List Path}
    {g : T E → Res (T E)} {a : Sh} (hgr : ∀ (t1 t2 : T E) (par : Nat), Start t1 par → g t1 = .ok t2 → Grown t1 t2 a par)
    (hg : DoesR q b0 (B ++ keys (inPath i) ++ [.loop (b + 1)]) w' S (b + 1) f g) :
    DoesR q b0 B w S b (fun ρ => update (keys (inPath i)) (addBody (b + 1) m (f ρ))) (tLoop C (.loop m w' i s) m w' i g) := by
  intro R k hG
  obtain ⟨R', k', h1, h2, h3⟩ := hg R k hG
  refine ⟨R', k', h1, h2, fun t par G hB hrt hk ha hs hc => ?_⟩
  have hin : Free i ⟨w, inPath i⟩ := by
    have : Free (.field ⟨w, inPath i⟩ : Expr E) ⟨w, inPath i⟩ := .field _
    exact hi ▸ this
  have hpi : i.Plain := by rw [hi]; trivial
  have hb := pickBase_rooted (e := .loop m w' i s) hw hc (p := inPath i) ⟨hpi, hpl⟩ (fun f hf => by
      cases hf with
      | loopIn hf => rw [hi] at hf; cases hf; exact Or.inr rfl
      | loopBody hf hv =>
        rcases rfrag_free w' s hw' hfr f hf with h | h
        · exact Or.inl h.1
        · exact absurd h hv) (fun _ => .loopIn hin)
  generalize hA : keys q ++ Step.loop b0 :: B = A at *
  have hdr := makeDataRef_one (C := C) (t := { t with root := update (A ++ keys (inPath i)) id t.root }) (v := w) (A := A)
    (p := inPath i) hc (update_id_idem _ _) i (by rw [hi]; rfl)
  have hside : sideOf C i = none := by rw [hi]; rfl
  rw [tLoop, hb, Res.bind_ok]
  simp only
  rw [hdr, Res.bind_ok, hside]
  simp only
  have hs0 : Start { t with root := update (A ++ keys (inPath i)) id t.root } par := ⟨hs.len, hs.bk, hs.node⟩
  obtain ⟨t1, e1, ha1, hs1, hctx, hr, hsl, hn, hb1⟩ := first_child (ty := .loop) hs0
  obtain ⟨x, hx, e1⟩ := Res.bind_eq_ok.1 e1
  rw [hx, Res.bind_ok, e1, Res.bind_ok]
  simp only at ha1 hs1 hr hsl
  have ha2 : t1.active = b + 1 := by rw [ha1, ha]
  simp only [NRef.addLoop, Res.bind_ok, NRef.addr]
  have hroot : update (A ++ keys (inPath i)) (addLoop t1.active m none emptyExec) t1.root =
      update (keys q) (fun n => update (.loop b0 :: (B ++ keys (inPath i))) (addLoop (b + 1) m none emptyExec) (G n)) R := by
    rw [hr, update_comp, ← hA, hrt, List.append_assoc, List.cons_append, update_append, update_comp, ha2]
    rfl
  obtain ⟨t2, c1, c2, c3⟩ := h3 { t1 with
      root := update (A ++ keys (inPath i)) (addLoop t1.active m none emptyExec) t1.root,
      ctx := (w', A ++ keys (inPath i) ++ [.loop t1.active]) :: t1.ctx } t.active _
    ((Beside.loop b0 (B ++ keys (inPath i)) (addLoop (b + 1) m none emptyExec)).comp hB) hroot (by simp only [hsl, hk]) ha2 ⟨hs1.len, hs1.bk, hs1.node⟩
    (Or.inr ⟨hw', t1.ctx, by rw [← hA, ha2]; simp⟩)
  rw [c1, Res.bind_ok]
  have hGr := hgr { t1 with
      root := update (A ++ keys (inPath i)) (addLoop t1.active m none emptyExec) t1.root,
      ctx := (w', A ++ keys (inPath i) ++ [.loop t1.active]) :: t1.ctx } t2 t.active ⟨hs1.len, hs1.bk, hs1.node⟩ c1
  rw [hGr.ctx]
  simp only [ne_eq, not_true_eq_false, if_false]
  refine ⟨_, rfl, c2, fun ρ hρ => ?_⟩
  simp only
  rw [c3 ρ hρ]
  congr 1
  funext n
  rw [← List.cons_append, ← List.cons_append, update_append, update_append, update_append, update_comp]
  simp only [update_comp]
  rfl

mutual
  /-- The transformer applies `rins` to the node of a loop. -/
  theorem tOne_rooted (C : Comp E) (q : Path) (b0 : Nat) : ∀ (e : Expr E) (B : Addr) (w : Int) (b : Nat), w ≠ 0 → RFrag C w e → Below q (rPaths e) →
      DoesR q b0 B w (rPaths e) b (fun ρ => rins C ρ e b) (tOne C e)
    | .cmp c l r, B, w, b, hw, h, hb => by
      rw [rPaths] at hb ⊢
      simp only [rins]
      have : tOne C (.cmp c l r) = fun t => if c = .ne then tNot (tCompare C (.cmp .eq l r) .equals l r) t else tCompare C (.cmp c l r) (opOf c) l r t := by
        funext t; rw [tOne]
      rw [this]
      by_cases hne : c = .ne
      · subst hne
        simp only [if_true]
        exact tNot_doesR (tCompare_rooted hw (b + 1) .eq .equals h.1 h.2 hb)
      · simp only [if_neg hne]
        exact tCompare_rooted hw b c (opOf c) h.1 h.2 hb
    | .exist e, B, w, b, hw, h, hb => by
      have : tOne C (.exist e) = tExists C e := by funext t; rw [tOne]
      rw [this, rPaths]
      simp only [rins]
      · exact tExists_rooted hw b h
      all_goals simp
    | .not e, B, w, b, hw, h, hb => by
      have : tOne C (.not e) = tNot (tOne C e) := by funext t; rw [tOne]
      rw [rPaths] at hb ⊢
      rw [this]
      simp only [rins]
      exact tNot_doesR (tOne_rooted C q b0 e B w (b + 1) hw h hb)
    | .and es, B, w, b, hw, h, hb => by
      have : tOne C (.and es) = tAnd C es := by funext t; rw [tOne]
      rw [rPaths] at hb ⊢
      rw [this]
      simp only [rins]
      exact tAnd_rooted C q b0 es B w b hw h hb
    | .or es, B, w, b, hw, h, hb => by
      have : tOne C (.or es) = tOr C es := by funext t; rw [tOne]
      rw [rPaths] at hb ⊢
      rw [this]
      simp only [rins]
      exact tOr_rooted C q b0 es B w b hw h hb
    | .loop m w' i s, B, w, b, hw, h, hb => by
      have : tOne C (.loop m w' i s) = tLoop C (.loop m w' i s) m w' i (tOne C s) := by funext t; rw [tOne]
      rw [rPaths] at hb ⊢
      rw [this]
      simp only [rins]
      exact tLoop_inner hw b h.1 h.2.1 h.2.2.1 h.2.2.2 (a := shape s) (fun t1 t2 par h1 h2 => tOne_grown C s t1 t2 par h1 h2)
        (tOne_rooted C q b0 s _ w' (b + 1) h.2.1 h.2.2.2 hb)
    | .tru, B, w, b, hw, h, hb | .fals, B, w, b, hw, h, hb | .notExist _, B, w, b, hw, h, hb
    | .value _, B, w, b, hw, h, hb | .regex _, B, w, b, hw, h, hb | .pcre _, B, w, b, hw, h, hb
    | .time _, B, w, b, hw, h, hb | .field _, B, w, b, hw, h, hb | .func .., B, w, b, hw, h, hb => by simp [RFrag] at h

  theorem tAnd_rooted (C : Comp E) (q : Path) (b0 : Nat) : ∀ (es : Exprs E) (B : Addr) (w : Int) (b : Nat), w ≠ 0 → RFrags C w es → Below q (rPathsAll es) →
      DoesR q b0 B w (rPathsAll es) b (fun ρ => rinsAll C ρ es b) (tAnd C es)
    | .nil, B, w, b, hw, h, hb => by simp [RFrags] at h
    | .cons e .nil, B, w, b, hw, h, hb => by
      have : tAnd C (.cons e .nil) = tOne C e := by funext t; rw [tAnd]
      rw [rPathsAll, rPathsAll, List.append_nil] at hb ⊢
      rw [RFrags] at h
      rw [this]; simp only [rinsAll]
      exact tOne_rooted C q b0 e B w b hw h hb
    | .cons e (.cons e' r), B, w, b, hw, h, hb => by
      have : tAnd C (.cons e (.cons e' r)) = tBin BinOp.and.ty (tOne C e) (tAnd C (.cons e' r)) := by funext t; rw [tAnd.eq_def]; rfl
      rw [rPathsAll] at hb ⊢
      rw [RFrags] at h
      rw [this]; simp only [rinsAll]
      exact tBin_doesR (a := shape e) (tOne_rooted C q b0 e B w (b + 1) hw h.1 (fun p hp => hb p (List.mem_append_left _ hp)))
        (fun t1 t2 par h1 h2 => tOne_grown C e t1 t2 par h1 h2) (tAnd_rooted C q b0 (.cons e' r) B w _ hw h.2 (fun p hp => hb p (List.mem_append_right _ hp)))

  theorem tOr_rooted (C : Comp E) (q : Path) (b0 : Nat) : ∀ (es : Exprs E) (B : Addr) (w : Int) (b : Nat), w ≠ 0 → RFrags C w es → Below q (rPathsAll es) →
      DoesR q b0 B w (rPathsAll es) b (fun ρ => rinsAll C ρ es b) (tOr C es)
    | .nil, B, w, b, hw, h, hb => by simp [RFrags] at h
    | .cons e .nil, B, w, b, hw, h, hb => by
      have : tOr C (.cons e .nil) = tOne C e := by funext t; rw [tOr]
      rw [rPathsAll, rPathsAll, List.append_nil] at hb ⊢
      rw [RFrags] at h
      rw [this]; simp only [rinsAll]
      exact tOne_rooted C q b0 e B w b hw h hb
    | .cons e (.cons e' r), B, w, b, hw, h, hb => by
      have : tOr C (.cons e (.cons e' r)) = tBin BinOp.or.ty (tOne C e) (tOr C (.cons e' r)) := by funext t; rw [tOr.eq_def]; rfl
      rw [rPathsAll] at hb ⊢
      rw [RFrags] at h
      rw [this]; simp only [rinsAll]
      exact tBin_doesR (a := shape e) (tOne_rooted C q b0 e B w (b + 1) hw h.1 (fun p hp => hb p (List.mem_append_left _ hp)))
        (fun t1 t2 par h1 h2 => tOne_grown C e t1 t2 par h1 h2) (tOr_rooted C q b0 (.cons e' r) B w _ hw h.2 (fun p hp => hb p (List.mem_append_right _ hp)))
end

/-! ### What bodies add -/

mutual
  theorem rItems_within (C : Comp E) (ρ : Path → Nat) : ∀ (e : Expr E) (w : Int) (b : Nat), RFrag C w e → Within b (shape e).size (rItems C ρ e b)
    | .cmp c l r, w, b, h => by
      intro x hx
      rw [rItems, List.mem_singleton] at hx
      subst hx
      cases c <;> simp [Item.bucket, shape, Sh.size]
    | .exist e, w, b, h => by
      intro x hx
      rw [rItems, List.mem_singleton] at hx
      subst hx; simp [Item.bucket, shape, Sh.size]
    | .not e, w, b, h => by
      rw [rItems, shape, Sh.size]; exact (rItems_within C ρ e w (b + 1) h).mono (by omega) (by omega)
    | .and es, w, b, h => by rw [rItems, shape]; exact rItemsAll_within C ρ es .and w b h
    | .or es, w, b, h => by rw [rItems, shape]; exact rItemsAll_within C ρ es .or w b h
    | .loop m w' i s, w, b, h => by
      intro x hx
      rw [rItems, List.mem_singleton] at hx
      subst hx
      have := BinTree.Sh.size_pos (shape s)
      simp only [Item.bucket, shape, Sh.size]
      omega
    | .tru, w, b, h | .fals, w, b, h | .notExist _, w, b, h
    | .value _, w, b, h | .regex _, w, b, h | .pcre _, w, b, h | .time _, w, b, h | .field _, w, b, h | .func .., w, b, h => by simp [RFrag] at h
  theorem rItemsAll_within (C : Comp E) (ρ : Path → Nat) : ∀ (es : Exprs E) (o : BinOp) (w : Int) (b : Nat), RFrags C w es →
      Within b (shapes o es).size (rItemsAll C ρ es b)
    | .nil, o, w, b, h => by simp [RFrags] at h
    | .cons e .nil, o, w, b, h => by
      rw [RFrags] at h; rw [rItemsAll, shapes]; exact rItems_within C ρ e w b h
    | .cons e (.cons e' r), o, w, b, h => by
      rw [RFrags] at h; rw [rItemsAll, shapes, Sh.size]
      intro x hx
      rcases List.mem_append.1 hx with hx | hx
      · exact (rItems_within C ρ e w (b + 1) h.1).mono (by omega) (by omega) x hx
      · exact (rItemsAll_within C ρ (.cons e' r) o w _ h.2).mono (by omega) (by omega) x hx
end

mutual
  /-- `rins` adds the items of the body. -/
  theorem rins_adds (C : Comp E) (ρ : Path → Nat) : ∀ (e : Expr E) (w : Int) (b : Nat) (n : Exec E), RFrag C w e → n.Tidy → n.Full →
      (∀ x ∈ items n, x.2.bucket < b) → Adds1 (rItems C ρ e b) n (rins C ρ e b n)
    | .cmp c l r, w, b, n, h, ht, hf, _ => by rw [rItems, rins]; exact adds_op _ _ ht hf
    | .exist e, w, b, n, h, ht, hf, _ => by rw [rItems, rins]; exact adds_op _ _ ht hf
    | .not e, w, b, n, h, ht, hf, hb => by
      rw [rItems, rins]; exact rins_adds C ρ e w (b + 1) n h ht hf (fun x hx => Nat.lt_succ_of_lt (hb x hx))
    | .and es, w, b, n, h, ht, hf, hb => by rw [rItems, rins]; exact rinsAll_adds C ρ es w b n h ht hf hb
    | .or es, w, b, n, h, ht, hf, hb => by rw [rItems, rins]; exact rinsAll_adds C ρ es w b n h ht hf hb
    | .loop m w' i s, w, b, n, h, ht, hf, hb => by
      rw [rItems, rins]
      have := rins_adds C ρ s w' (b + 1) emptyExec h.2.2.2 emptyExec_tidy emptyExec_full (by rw [emptyExec_items]; intro x hx; cases hx)
      exact adds_loop _ _ _ ht hf (noLoop_of_lt (fun x hx => Nat.lt_succ_of_lt (hb x hx))) this.tidy this.full
    | .tru, w, b, n, h, _, _, _ | .fals, w, b, n, h, _, _, _ | .notExist _, w, b, n, h, _, _, _
    | .value _, w, b, n, h, _, _, _ | .regex _, w, b, n, h, _, _, _ | .pcre _, w, b, n, h, _, _, _ | .time _, w, b, n, h, _, _, _
    | .field _, w, b, n, h, _, _, _ | .func .., w, b, n, h, _, _, _ => by simp [RFrag] at h
  theorem rinsAll_adds (C : Comp E) (ρ : Path → Nat) : ∀ (es : Exprs E) (w : Int) (b : Nat) (n : Exec E), RFrags C w es → n.Tidy → n.Full →
      (∀ x ∈ items n, x.2.bucket < b) → Adds1 (rItemsAll C ρ es b) n (rinsAll C ρ es b n)
    | .nil, w, b, n, h, _, _, _ => by simp [RFrags] at h
    | .cons e .nil, w, b, n, h, ht, hf, hb => by
      rw [RFrags] at h; rw [rItemsAll, rinsAll]; exact rins_adds C ρ e w b n h ht hf hb
    | .cons e (.cons e' r), w, b, n, h, ht, hf, hb => by
      rw [RFrags] at h; rw [rItemsAll, rinsAll]
      have h1 := rins_adds C ρ e w (b + 1) n h.1 ht hf (fun x hx => Nat.lt_succ_of_lt (hb x hx))
      have hw := rItems_within C ρ e w (b + 1) h.1
      refine h1.trans (rinsAll_adds C ρ (.cons e' r) w _ _ h.2 h1.tidy h1.full ?_)
      exact mem_perm_bound h1.perm hb hw (by omega)
end

/-- The node of a loop's body. -/
def rbody (C : Comp E) (ρ : Path → Nat) (s : Expr E) (b : Nat) : Exec E := rins C ρ s b emptyExec

theorem rbody_adds (C : Comp E) (ρ : Path → Nat) {s : Expr E} {w : Int} (b : Nat) (h : RFrag C w s) :
    Adds1 (rItems C ρ s b) emptyExec (rbody C ρ s b) :=
  rins_adds C ρ s w b emptyExec h emptyExec_tidy emptyExec_full (by rw [emptyExec_items]; intro x hx; cases hx)

/-! ### Loops of an `AfterNode` -/

theorem addAfterLoop_notes (b : Nat) (m : Mode) (t : Option (Ref E)) (e n : Exec E) : notes (addAfterLoop b m t e n) = notes n := by
  obtain ⟨st, es, ops, ls, a⟩ := n
  cases a <;> rfl

theorem addAfterLoop_tidy (b : Nat) (m : Mode) (t : Option (Ref E)) {e : Exec E} (he : e.Tidy) (n : Exec E) (h : n.Tidy) :
    (addAfterLoop b m t e n).Tidy := by
  obtain ⟨st, es, ops, ls, a⟩ := n
  cases a with
  | none => exact h
  | some => exact ⟨h.1, h.2.1, loops_snoc_tidy he _ h.2.2⟩

theorem addAfterLoop_node (b : Nat) (m : Mode) (t : Option (Ref E)) {e : Exec E} (he : e.Full) (n : Exec E) (h : ([], Note.after) ∈ notes n)
    (hf : n.Full) : (items (addAfterLoop b m t e n)).Perm ([([], Item.aloop b m t e)] ++ items n) ∧ (addAfterLoop b m t e n).Full := by
  obtain ⟨st, es, ops, ls, a⟩ := n
  cases a with
  | none =>
    exfalso
    rw [notes] at h
    rcases List.mem_append.1 h with h | h
    · have := (slotNote_nil h).2
      cases this
    · rcases List.mem_append.1 h with h | h
      · cases h
      · obtain ⟨k, p, hk⟩ := mem_notesE_cons es h; cases hk
  | some ops' ls' =>
    refine ⟨?_, hf.1, hf.2.1, loops_snoc_full he _ hf.2.2⟩
    simp only [addAfterLoop, items, afterItems, loopItems_snoc]
    rw [← List.append_assoc, ← List.append_assoc, ← List.append_assoc, ← List.append_assoc]
    refine List.perm_append_comm.trans ?_
    simp only [List.append_assoc]
    exact .refl _

theorem addAfterLoop_update (b : Nat) (m : Mode) (t : Option (Ref E)) {b' : Exec E} (he : b'.Full) : ∀ (q : Path) (n : Exec E), (q, Note.after) ∈ notes n → n.Tidy → n.Full →
    (items (update (keys q) (addAfterLoop b m t b') n)).Perm ([(q, Item.aloop b m t b')] ++ items n) ∧ (update (keys q) (addAfterLoop b m t b') n).Full
  | [], n, h, ht, hf => by
    simp only [keys, List.map_nil, update]
    exact addAfterLoop_node b m t he n h hf
  | k :: q, .mk st es ops ls a, h, ht, hf => by
    have hm : (k :: q, Note.after) ∈ notesE es := by
      rw [notes] at h
      rcases List.mem_append.1 h with h | h
      · obtain ⟨_, h⟩ := slotNote_nil h; cases h
      · rcases List.mem_append.1 h with h | h
        · have := (afterNote_nil h).2; cases this
        · exact h
    cases hk : es.find k with
    | none => exact (notes_absent es hk (y := (q, .after)) hm).elim
    | some e =>
      have h1 := notes_find_mem es ht.1 hk (y := (q, .after)) hm
      obtain ⟨i1, i2⟩ := addAfterLoop_update b m t he q e h1 (Elems.Tidy.find ht.1 hk) (Elems.Full.find hf.1 hk)
      have hne : items (update (keys q) (addAfterLoop b m t b') e) ≠ [] := by
        intro h0; have := i1.length_eq; rw [h0] at this; simp at this
      obtain ⟨j1, j2⟩ := alterElems_there (k := k) (f := update (keys q) (addAfterLoop b m t b')) ⟨i1, i2, Or.inl hne⟩ es hk hf.1
      simp only [keys, List.map_cons, update]
      refine ⟨?_, j2, hf.2⟩
      rw [items, items]
      have h3 : under k [(q, Item.aloop b m t b')] = [(k :: q, Item.aloop b m t b')] := rfl
      simp only [keys] at j1
      rw [h3] at j1
      refine ((j1.append_right _).append_left _).trans ?_
      rw [List.append_assoc]
      exact perm_front _ _ _

theorem addAfterBody_eq {b : Nat} {m : Mode} {t : Option (Ref E)} {g : Exec E → Exec E} {n : Exec E} (h : NoLoop b n) :
    update [.loop b] g (addAfterLoop b m t emptyExec n) = addAfterLoop b m t (g emptyExec) n := by
  obtain ⟨st, es, ops, ls, a⟩ := n
  have hl : alterLoops b g ls = ls := by
    refine alterLoops_absent (mk := Item.loop) ls (fun x hx => ?_)
    exact (h x (by rw [items]; exact List.mem_append_right _ (List.mem_append_right _ (List.mem_append_left _ hx)))).1
  cases a with
  | none => simp only [addAfterLoop, update, alterAfter]; rw [show (fun x => g x) = g from rfl, hl]
  | some ops' ls' =>
    simp only [addAfterLoop, update, alterAfter]
    rw [show (fun x => g x) = g from rfl, hl, alterLoops_snoc (mk := Item.aloop) ls']
    intro x hx
    exact (h x (by
      rw [items]
      exact List.mem_append_right _ (List.mem_append_right _ (List.mem_append_right _ (List.mem_append_right _ hx))))).2

theorem update_congr_loop {b : Nat} {f g : Exec E → Exec E} (hfg : ∀ n, NoLoop b n → f n = g n) : ∀ (p : Path) (n : Exec E), NoLoop b n →
    update (keys p) f n = update (keys p) g n
  | [], n, h => hfg n h
  | k :: p, .mk st es ops ls a, h => by
    have := alter_congr (k := k) (fun n hn => update_congr_loop hfg p n hn) es (fun x hx => h x (by
      rw [items]; exact List.mem_append_right _ (List.mem_append_left _ hx)))
    simp only [keys] at this
    simp only [keys, List.map_cons, update, this]

/-- The transformer adds a loop to the `AfterNode` above the array and the fields of the document, and stores these. -/
theorem tLoop_rooted {C : Comp E} {t : T E} {par : Nat} (hc : t.ctx = []) (hs : Start t par) (hg : Good t.slotIdx t.root)
    (hb : ∀ x ∈ items t.root, x.2.bucket < t.active) {m : Mode} {w : Int} {i s : Expr E} {q : Path}
    (hi : i = .field ⟨0, inPath i⟩) (hw : w ≠ 0) (hpl : s.Plain) (hfr : RFrag C w s) (hsp : Splits q (inPath i :: rPaths s)) :
    Does2 t (inPath i :: rPaths s)
      (fun ρ => [(q, .aloop (t.active + 1) m (some (.slot (ρ (inPath i)))) (rbody C ρ s (t.active + 1)))])
      (tOne C (.loop m w i s) t) := by
  generalize hp0 : inPath i = p0 at *
  subst hi
  have hfi : Free (.field ⟨0, p0⟩ : Expr E) ⟨0, p0⟩ := .field _
  have hfree : ∀ f, Free (.loop m w (.field ⟨0, p0⟩) s) f ↔ f.root = 0 ∧ f.path ∈ p0 :: rPaths s := by
    intro f
    rw [List.mem_cons]
    constructor
    · intro hf
      cases hf with
      | loopIn hf => cases hf; exact ⟨rfl, Or.inl rfl⟩
      | loopBody hf hv =>
        rcases rfrag_free w s hw hfr f hf with h | h
        · exact ⟨h.1, Or.inr h.2⟩
        · exact absurd h hv
    · rintro ⟨h0, h | h⟩
      · obtain ⟨root, path⟩ := f
        simp only at h0 h
        subst h0 h
        exact .loopIn hfi
      · obtain ⟨root, path⟩ := f
        simp only at h0 h
        subst h0
        exact .loopBody (rPaths_free w s hfr _ h) (Ne.symm hw)
  have hex : ∃ k p', q ++ k :: p' ∈ p0 :: rPaths s := by
    obtain ⟨k, p', _, _, a, _⟩ := hsp.2
    exact ⟨k, p', a⟩
  have hpb := pickBase_after (e := .loop m w (.field ⟨0, p0⟩) s) hc ⟨trivial, hpl⟩ hfree hsp
  obtain ⟨e1, _⟩ := ensureAfter_update q t.root
  have g0 := ensure_grow (P := fun x => x ∈ p0 :: rPaths s) hg hex
  obtain ⟨t0, ref, a1, a2, a3, a4, a5, a6⟩ := makeDataRef_multi (C := C) (q := keys q) (.field ⟨0, p0⟩) { t with root := update (keys q) ensureAfter t.root } rfl hc g0.good
  obtain ⟨s0, hs0⟩ := a6 (p0) (by simp [paths])
  have href : ref = .slot s0 := by
    obtain ⟨ρ, hρ⟩ := agrees_exists a4.good.tidy
    rw [a5 ρ hρ, ← hρ _ _ hs0, slotRef]
  subst href
  simp only at a2 a4
  have hact : t0.active = t.active := a2
  have ht0 := makeDataRef_same a1
  have hsT : Start t0 par := ⟨by rw [ht0.1, hact]; exact hs.len, by rw [ht0.2, ht0.1]; exact hs.bk, by rw [ht0.1, hact]; exact hs.node⟩
  obtain ⟨t1, f1, ha1, hs1, hctx, hr, hsl, hn, hb1⟩ := first_child (ty := .loop) hsT
  obtain ⟨x, hx, f1⟩ := Res.bind_eq_ok.1 f1
  have ha2 : t1.active = t.active + 1 := by rw [ha1, hact]
  obtain ⟨R', k', b1, b2, b3⟩ := tOne_rooted C q (t.active + 1) s [] w (t.active + 1) hw hfr
    (fun p hp => hsp.1 p (List.mem_cons_of_mem _ hp)) t0.root t0.slotIdx a4.good
  obtain ⟨t2, c1, c2, c3⟩ := b3 { t1 with
      root := update (keys q) (addAfterLoop t1.active m (some (.slot s0)) emptyExec) t1.root,
      ctx := (w, keys q ++ [.loop t1.active]) :: t1.ctx } t0.active (addAfterLoop (t.active + 1) m (some (.slot s0)) emptyExec)
    (Beside.addAfter _ _ _ _) (by simp only [hr, ha2]) (by simp only [hsl]) ha2 ⟨hs1.len, hs1.bk, hs1.node⟩
    (Or.inr ⟨hw, t1.ctx, by rw [ha2]⟩)
  have hGr := tOne_grown C s _ t2 t0.active (⟨hs1.len, hs1.bk, hs1.node⟩ : Start { t1 with
      root := update (keys q) (addAfterLoop t1.active m (some (.slot s0)) emptyExec) t1.root,
      ctx := (w, keys q ++ [.loop t1.active]) :: t1.ctx } _) c1
  have hgrow := (g0.trans a4).trans b1
  have hbk : ∀ x ∈ items R', x.2.bucket < t.active := by
    obtain ⟨ρ, hρ⟩ := agrees_exists b1.good.tidy
    intro x hx
    have := (hgrow.perm ρ hρ).mem_iff.1 hx
    exact hb x (by simpa using this)
  have hNo : NoLoop (t.active + 1) R' := noLoop_of_lt (fun x hx => Nat.lt_succ_of_lt (hbk x hx))
  have hafter : (q, Note.after) ∈ notes R' := b1.keep _ (a4.keep _ e1)
  have hroot : ∀ ρ, Agrees ρ R' → t2.root = update (keys q)
      (addAfterLoop (t.active + 1) m (some (.slot (ρ (p0)))) (rbody C ρ s (t.active + 1))) R' := by
    intro ρ hρ
    rw [c3 ρ hρ, hρ _ _ (b1.keep _ hs0)]
    exact update_congr_loop (fun n hn => addAfterBody_eq hn) q R' hNo
  have hnotes : (notes t2.root).Perm (notes R') := by
    obtain ⟨ρ, hρ⟩ := agrees_exists b1.good.tidy
    rw [hroot ρ hρ]
    have := update_key_notes (new := []) (fun n => by
      rw [addAfterLoop_notes (t.active + 1) m (some (.slot (ρ (p0)))) (rbody C ρ s (t.active + 1))]; exact .refl _) q R'
    simpa [underPath, keys] using this
  refine ⟨{ t2 with ctx := t1.ctx }, ?_, ?_, ?_⟩
  · rw [tOne, tLoop, hpb, Res.bind_ok]
    simp only
    rw [a1, Res.bind_ok]
    simp only
    rw [hx, Res.bind_ok, f1, Res.bind_ok]
    simp only [NRef.addLoop, Res.bind_ok, NRef.addr]
    rw [c1, Res.bind_ok, hGr.ctx]
    simp only [ne_eq, not_true_eq_false, if_false]
  · have g1 : Grow (fun x => x ∈ p0 :: rPaths s)
        (fun ρ => [(q, .aloop (t.active + 1) m (some (.slot (ρ (p0)))) (rbody C ρ s (t.active + 1)))]) k' k' R' t2.root := by
      refine ⟨⟨?_, ?_, fun p s hm => b1.good.range p s (hnotes.mem_iff.1 hm), fun s => ?_⟩,
        Nat.le_refl _, ?_, fun x hx => hnotes.mem_iff.2 hx, fun p s hm => Or.inl (hnotes.mem_iff.1 hm), fun p hm => Or.inl (hnotes.mem_iff.1 hm),
        fun p s hm => Or.inl (hnotes.mem_iff.1 hm)⟩
      · obtain ⟨ρ, hρ⟩ := agrees_exists b1.good.tidy
        rw [hroot ρ hρ]
        exact update_key_tidy (fun n h => addAfterLoop_tidy _ _ _ (rbody_adds C ρ _ hfr).tidy n h) q R' b1.good.tidy
      · obtain ⟨ρ, hρ⟩ := agrees_exists b1.good.tidy
        rw [hroot ρ hρ]
        exact (addAfterLoop_update _ _ _ (rbody_adds C ρ _ hfr).full q R' hafter b1.good.tidy b1.good.full).2
      · rw [(withSlot_perm hnotes).length_eq]; exact b1.good.once s
      · intro ρ hρ
        have hρ2 : Agrees ρ R' := fun p s hm => hρ p s (hnotes.mem_iff.2 hm)
        rw [hroot ρ hρ2]
        exact (addAfterLoop_update _ _ _ (rbody_adds C ρ _ hfr).full q R' hafter b1.good.tidy b1.good.full).1
    simp only [c2]
    refine (hgrow.trans g1).mono ?_ (fun ρ => rfl)
    rintro p (((h | h) | h) | h)
    · exact h
    · exact List.mem_cons.2 (Or.inl (List.mem_singleton.1 h))
    · exact List.mem_cons_of_mem _ h
    · exact h
  · intro p hp
    simp only
    rcases List.mem_cons.1 hp with hp | hp
    · subst hp; exact ⟨s0, hnotes.mem_iff.2 (b1.keep _ hs0)⟩
    · obtain ⟨s', hs'⟩ := b2 p hp
      exact ⟨s', hnotes.mem_iff.2 hs'⟩

end Verif.Transform
