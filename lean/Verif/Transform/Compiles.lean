import Verif.Transform.MultiWhole

/-!
# Which expressions compile

An exact description, by recursion on the expression, of the lists of expressions that `Transform` compiles; it panics on all
others.
-/

namespace Verif.Transform
open Verif.FastVal Verif.Match Verif.Expr

variable {E : Ext}

/-! ### Specification -/

mutual
  /-- The fields mentioned in the expression and not bound by a loop in it, in reading order. -/
  def occs : Expr E → List Field
    | .field f => [f]
    | .func _ ps => occsAll ps
    | .not e => occs e
    | .and es => occsAll es
    | .or es => occsAll es
    | .loop _ v i s => occs i ++ (occs s).filter (fun f => f.root ≠ v)
    | .exist e => occs e
    | .notExist e => occs e
    | .cmp _ l r => occs l ++ occs r
    | .tru => []
    | .fals => []
    | .value _ => []
    | .time _ => []
    | .regex _ => []
    | .pcre _ => []
  def occsAll : Exprs E → List Field
    | .nil => []
    | .cons e r => occs e ++ occsAll r
end

/-- A field can be referred to directly inside the loop over `w` (`none`: outside of all loops): it is a field of the document, or of
the variable of that loop, not of a loop further out. -/
def Visible (w : Option Int) (f : Field) : Prop := f.root = 0 ∨ w = some f.root

/-- The field belongs to the variable of the loop (outside of all loops: to the document). -/
def Mine : Option Int → Field → Prop
  | none, f => f.root = 0
  | some v, f => f.root ≠ 0 ∧ f.root = v

instance (w : Option Int) (f : Field) : Decidable (Mine w f) := by
  cases w <;> unfold Mine <;> infer_instance

/-- The paths of the fields that belong to the variable of the loop. -/
def ownPaths (w : Option Int) (fs : List Field) : List Path := (fs.filter (fun f => Mine w f)).map Field.path

/-- The paths that make `findFieldRefsBestRoot` read past the end of one: `q` is the start of all paths and shorter than the first
longest one, and the paths before `q` go on, after `q`, with the same key as the first longest one. -/
def Collide (ps : List Path) : Prop :=
  ∃ big l q r, ps.find? (fun p => ps.all (fun p' => decide (p'.length ≤ p.length))) = some big ∧ ps = l ++ q :: r ∧ q.length < big.length ∧
    (∀ p ∈ ps, q <+: p) ∧ ∀ p ∈ l, big.take (q.length + 1) <+: p

/-- A string that the given reader accepts. -/
def Accepted {R : Type} (read : List Nat → Option R) (v : GoVal E) : Prop := ∃ s x, v = .json (.str s) ∧ read s = some x

mutual
  /-- What can be an operand: visible fields, constants, valid patterns and times, and calls with such parameters. -/
  def OkParam (C : Comp E) (w : Option Int) : Expr E → Prop
    | .field f => Visible w f
    | .value _ => True
    | .regex v => Accepted C.regexp v
    | .pcre v => Accepted C.pcre v
    | .time v => Accepted E.parseTime v
    | .func _ ps => OkParams C w ps
    | _ => False
  def OkParams (C : Comp E) (w : Option Int) : Exprs E → Prop
    | .nil => True
    | .cons p ps => OkParam C w p ∧ OkParams C w ps
end

/-- The array of a loop: a field; outside of all loops or a field of the enclosing loop's variable, unless the fields of that variable
in the whole loop have different paths. -/
def OkArray (w : Option Int) (ps : List Path) : Expr E → Prop
  | .field f => Mine w f ∨ ∃ p ∈ ps, ∃ q ∈ ps, p ≠ q
  | _ => False

mutual
  /-- The expression compiles directly inside the loop over `w`. -/
  def Compiles (C : Comp E) (w : Option Int) : Expr E → Prop
    | .cmp _ l r => OkParam C w l ∧ OkParam C w r ∧ ¬ Collide (ownPaths w (occs l ++ occs r))
    | .exist e => OkParam C w e ∧ ¬ Collide (ownPaths w (occs e))
    | .notExist e => OkParam C w e ∧ ¬ Collide (ownPaths w (occs e))
    | .not e => Compiles C w e
    | .and es => CompilesAll C w es
    | .or es => CompilesAll C w es
    | .loop _ v i s =>
      let fs := occs i ++ (occs s).filter (fun f => f.root ≠ v)
      s.Plain ∧ (∀ f ∈ fs, Visible w f) ∧ ¬ Collide (ownPaths w fs) ∧ OkArray w (ownPaths w fs) i ∧ Compiles C (some v) s
    | _ => True
  /-- All of them compile, and there is one. -/
  def CompilesAll (C : Comp E) (w : Option Int) : Exprs E → Prop
    | .nil => False
    | .cons e .nil => Compiles C w e
    | .cons e (.cons e' r) => Compiles C w e ∧ CompilesAll C w (.cons e' r)
end

/-- The call succeeds if `P`; otherwise it panics. -/
def Exactly {α : Type} (r : Res α) (P : Prop) : Prop := (P ∧ ∃ a, r = .ok a) ∨ (¬ P ∧ r = .panic)

/-! ### Composition -/

theorem Exactly.bind {α β : Type} {r : Res α} {P Q : Prop} {f : α → Res β} (h : Exactly r P) (hf : ∀ a, P → r = .ok a → Exactly (f a) Q) :
    Exactly (r >>= f) (P ∧ Q) := by
  rcases h with ⟨hP, a, ha⟩ | ⟨hP, hr⟩
  · rcases hf a hP ha with ⟨hQ, b, hb⟩ | ⟨hQ, hr⟩
    · exact Or.inl ⟨⟨hP, hQ⟩, b, by rw [ha]; exact hb⟩
    · exact Or.inr ⟨fun h => hQ h.2, by rw [ha]; exact hr⟩
  · exact Or.inr ⟨fun h => hP h.1, by rw [hr]; rfl⟩

theorem Exactly.congr {α : Type} {r : Res α} {P Q : Prop} (h : Exactly r P) (hpq : P ↔ Q) : Exactly r Q := by
  rcases h with h | h
  · exact Or.inl ⟨hpq.1 h.1, h.2⟩
  · exact Or.inr ⟨fun hq => h.1 (hpq.2 hq), h.2⟩

theorem Exactly.ok {α : Type} (a : α) : Exactly (Res.ok a) True := Or.inl ⟨trivial, a, rfl⟩

theorem Exactly.panic {α : Type} : Exactly (Res.panic : Res α) False := Or.inr ⟨fun h => h, rfl⟩

theorem Exactly.map {α β : Type} {r : Res α} {P : Prop} {f : α → β} (h : Exactly r P) : Exactly (r >>= fun a => .ok (f a)) P :=
  (h.bind (Q := True) (fun _ _ _ => .ok _)).congr (by simp)

theorem Exactly.iff {α : Type} {r : Res α} {P : Prop} (h : Exactly r P) : ((∃ a, r = .ok a) ↔ P) ∧ (¬ P → r = .panic) := by
  rcases h with ⟨hP, ha⟩ | ⟨hP, hr⟩
  · exact ⟨⟨fun _ => hP, fun _ => ha⟩, fun h => absurd hP h⟩
  · refine ⟨⟨fun h => ?_, fun h => absurd h hP⟩, fun _ => hr⟩
    obtain ⟨a, ha⟩ := h
    rw [hr] at ha; cases ha

/-! ### The collected fields -/

/-- Adding a field unless it is there. -/
def addNew (fs : List Field) (f : Field) : List Field := if f ∈ fs then fs else fs ++ [f]

/-- The fields of `fs` not bound by `vs`. -/
def unbound (vs : List Int) (fs : List Field) : List Field := fs.filter (fun f => f.root ∉ vs)

theorem unbound_snoc (vs : List Int) (v : Int) (fs : List Field) : unbound (vs ++ [v]) fs = unbound vs (fs.filter (fun f => f.root ≠ v)) := by
  simp only [unbound, List.filter_filter]
  congr 1
  funext f
  by_cases h : f.root ∈ vs <;> by_cases h' : f.root = v <;> simp [h, h']

theorem unbound_append (vs : List Int) (a b : List Field) : unbound vs (a ++ b) = unbound vs a ++ unbound vs b := List.filter_append ..

theorem unbound_nil (fs : List Field) : unbound [] fs = fs := by simp [unbound]

mutual
  theorem fetch_occs (vs : List Int) : ∀ (e : Expr E), e.Plain → ∀ acc, fetch vs e acc = .ok ((unbound vs (occs e)).foldl addNew acc)
    | .field f, _, acc => by
      rw [fetch, addField, occs, unbound]
      by_cases h : f.root ∈ vs
      · simp [h]
      · by_cases h' : f ∈ acc <;> simp [h, h', addNew]
    | .value _, _, acc | .regex _, _, acc | .pcre _, _, acc | .time _, _, acc => by simp [fetch, occs, unbound]
    | .func _ ps, h, acc => by rw [fetch, occs]; exact fetchAll_occs vs ps h acc
    | .not e, h, acc => by rw [fetch, occs]; exact fetch_occs vs e h acc
    | .and es, h, acc => by rw [fetch, occs]; exact fetchAll_occs vs es h acc
    | .or es, h, acc => by rw [fetch, occs]; exact fetchAll_occs vs es h acc
    | .exist e, h, acc => by rw [fetch, occs]; exact fetch_occs vs e h acc
    | .cmp _ l r, h, acc => by
      rw [Expr.Plain] at h
      rw [fetch, occs, fetch_occs vs l h.1, Res.bind_ok, fetch_occs vs r h.2, unbound_append, List.foldl_append]
    | .loop _ v i s, h, acc => by
      rw [Expr.Plain] at h
      rw [fetch, occs, fetch_occs vs i h.1, Res.bind_ok, fetch_occs (vs ++ [v]) s h.2, unbound_append, List.foldl_append, unbound_snoc]
    | .tru, h, _ | .fals, h, _ | .notExist _, h, _ => by simp [Expr.Plain] at h

  theorem fetchAll_occs (vs : List Int) : ∀ (es : Exprs E), es.Plain → ∀ acc,
      fetchAll vs es acc = .ok ((unbound vs (occsAll es)).foldl addNew acc)
    | .nil, _, acc => by simp [fetchAll, occsAll, unbound]
    | .cons e r, h, acc => by
      rw [Exprs.Plain] at h
      rw [fetchAll, occsAll, fetch_occs vs e h.1, Res.bind_ok, fetchAll_occs vs r h.2, unbound_append, List.foldl_append]
end

theorem fieldRefs_occs {e : Expr E} (h : e.Plain) : fieldRefs e = .ok ((occs e).foldl addNew []) := by
  rw [fieldRefs, fetch_occs [] e h, unbound_nil]

theorem mem_addNew (fs acc : List Field) (f : Field) : f ∈ fs.foldl addNew acc ↔ f ∈ acc ∨ f ∈ fs := by
  induction fs generalizing acc with
  | nil => simp
  | cons x fs ih =>
    rw [List.foldl_cons, ih, addNew]
    split
    · next h =>
      constructor
      · rintro (h' | h') <;> simp [h']
      · rintro (h' | h')
        · exact Or.inl h'
        · rcases List.mem_cons.1 h' with rfl | h'
          · exact Or.inl h
          · exact Or.inr h'
    · simp [or_assoc]

/-! ### The base of a list of paths -/

/-- The core of `findFieldRefsBestRoot`. -/
def pick : List Path → Res (Path × Bool)
  | [] => .ok ([], false)
  | p :: ps => commonPath (p :: ps) 0 (longest p ps) >>= fun c => .ok (c, decide (c.length < (longest p ps).length))

theorem longest_append (p : Path) (a b : List Path) : longest p (a ++ b) = longest (longest p a) b := by
  induction a generalizing p with
  | nil => rfl
  | cons q a ih => rw [List.cons_append, longest, ih, longest]

theorem longest_max (p : Path) (ps : List Path) : ∀ q ∈ p :: ps, q.length ≤ (longest p ps).length := by
  induction ps generalizing p with
  | nil => simp [longest]
  | cons x ps ih =>
    intro q hq
    rw [longest]
    split
    · next h =>
      rcases List.mem_cons.1 hq with rfl | hq
      · exact Nat.le_trans (Nat.le_of_lt h) (ih x x (by simp))
      · exact ih x q hq
    · next h =>
      rcases List.mem_cons.1 hq with rfl | hq
      · exact ih q q (by simp)
      · rcases List.mem_cons.1 hq with rfl | hq
        · exact Nat.le_trans (by omega) (ih p p (by simp))
        · exact ih p q (List.mem_cons_of_mem _ hq)

theorem longest_split (p : Path) (ps : List Path) : ∃ as bs, p :: ps = as ++ longest p ps :: bs ∧ ∀ a ∈ as, a.length < (longest p ps).length := by
  induction ps generalizing p with
  | nil => exact ⟨[], [], rfl, by simp⟩
  | cons x ps ih =>
    rw [longest]
    split
    · next h =>
      obtain ⟨as, bs, h1, h2⟩ := ih x
      refine ⟨p :: as, bs, by rw [h1]; rfl, fun a ha => ?_⟩
      rcases List.mem_cons.1 ha with rfl | ha
      · exact Nat.lt_of_lt_of_le h (longest_max x ps x (by simp))
      · exact h2 a ha
    · next h =>
      obtain ⟨as, bs, h1, h2⟩ := ih p
      cases as with
      | nil =>
        simp only [List.nil_append, List.cons.injEq] at h1
        exact ⟨[], x :: ps, by rw [← h1.1]; rfl, by simp⟩
      | cons a as =>
        simp only [List.cons_append, List.cons.injEq] at h1
        obtain ⟨rfl, h1⟩ := h1
        refine ⟨p :: x :: as, bs, congrArg (fun l => p :: x :: l) h1, fun a ha => ?_⟩
        have hp := h2 p (by simp)
        rcases List.mem_cons.1 ha with rfl | ha
        · exact hp
        · rcases List.mem_cons.1 ha with rfl | ha
          · omega
          · exact h2 a (List.mem_cons_of_mem _ ha)

theorem longest_find (p : Path) (ps : List Path) :
    (p :: ps).find? (fun q => (p :: ps).all (fun q' => decide (q'.length ≤ q.length))) = some (longest p ps) := by
  obtain ⟨as, bs, h1, h2⟩ := longest_split p ps
  rw [List.find?_eq_some_iff_append]
  refine ⟨by simpa using longest_max p ps, as, bs, h1, fun a ha => ?_⟩
  have := h2 a ha
  simp only [Bool.not_eq_true', List.all_eq_false]
  exact ⟨longest p ps, by rw [h1]; simp, by simpa using this⟩

theorem longest_dup (p x : Path) (a b : List Path) (h : x ∈ p :: a) : longest p (a ++ x :: b) = longest p (a ++ b) := by
  have := longest_max p a x h
  rw [longest_append, longest_append, longest, if_neg (by omega)]

theorem allAt_pass {j : Nat} {k : List Nat} {x : Path} (h : x[j]? = some k) (a b : List Path) :
    allAt j k (a ++ x :: b) = allAt j k (a ++ b) := by
  induction a with
  | nil =>
    have hl := (List.getElem?_eq_some_iff.1 h).1
    rw [List.nil_append, allAt, if_neg (by omega), Res.idx_of_some h, Res.bind_ok]
    simp
  | cons y a ih => rw [List.cons_append, List.cons_append, allAt, allAt, ih]

theorem allAt_dup (j : Nat) (k : List Nat) (x : Path) (a b : List Path) (h : x ∈ a) : allAt j k (a ++ x :: b) = allAt j k (a ++ b) := by
  induction a with
  | nil => cases h
  | cons y a ih =>
    rw [List.cons_append, List.cons_append, allAt, allAt]
    rcases List.mem_cons.1 h with rfl | h
    · split
      · rfl
      · cases hx : x[j]? with
        | none => simp [Res.idx, hx]
        | some z =>
          rw [Res.idx_of_some hx, Res.bind_ok, Res.bind_ok]
          split
          · rfl
          · next hz =>
            have : z = k := Classical.not_not.1 hz
            rw [allAt_pass (by rw [hx, this])]
    · rw [ih h]

theorem commonPath_congr {a b : List Path} (h : ∀ j k, allAt j k a = allAt j k b) : ∀ (rest : Path) (j : Nat), commonPath a j rest = commonPath b j rest
  | [], _ => by rw [commonPath, commonPath]
  | k :: rest, j => by rw [commonPath, commonPath, h, commonPath_congr h rest (j + 1)]

theorem pick_dup (x : Path) (a b : List Path) (h : x ∈ a) : pick (a ++ x :: b) = pick (a ++ b) := by
  cases a with
  | nil => cases h
  | cons p a =>
    rw [List.cons_append, List.cons_append, pick, pick, longest_dup p x a b h]
    have := commonPath_congr (fun j k => allAt_dup j k x (p :: a) b h) (longest p (a ++ b)) 0
    rw [List.cons_append, List.cons_append] at this
    rw [this]

theorem ownPaths_append (w : Option Int) (a b : List Field) : ownPaths w (a ++ b) = ownPaths w a ++ ownPaths w b := by
  simp [ownPaths]

theorem pick_addNew (w : Option Int) (fs acc : List Field) : pick (ownPaths w (fs.foldl addNew acc)) = pick (ownPaths w (acc ++ fs)) := by
  induction fs generalizing acc with
  | nil => simp
  | cons f fs ih =>
    rw [List.foldl_cons, ih, addNew]
    split
    · next h =>
      rw [ownPaths_append, ownPaths_append, ← List.singleton_append, ownPaths_append]
      by_cases hm : Mine w f
      · have : ownPaths w [f] = [f.path] := by simp [ownPaths, hm]
        rw [this]
        exact (pick_dup f.path _ _ (List.mem_map.2 ⟨f, by simp [h, hm], rfl⟩)).symm
      · have : ownPaths w [f] = [] := by simp [ownPaths, hm]
        rw [this]; rfl
    · rw [List.append_assoc, List.singleton_append]

theorem allAt_cases {j : Nat} {k : List Nat} : ∀ (ps : List Path), (∀ p ∈ ps, j ≤ p.length) →
    (allAt j k ps = .ok true ∧ ∀ p ∈ ps, p[j]? = some k) ∨
    (allAt j k ps = .ok false ∧ (∃ p ∈ ps, p[j]? ≠ some k) ∧ ∀ l q r, ps = l ++ q :: r → (∀ p ∈ l, p[j]? = some k) → q.length ≠ j) ∨
    (allAt j k ps = .panic ∧ ∃ l q r, ps = l ++ q :: r ∧ q.length = j ∧ ∀ p ∈ l, p[j]? = some k)
  | [], _ => Or.inl ⟨rfl, by simp⟩
  | p :: ps, h => by
    rw [allAt, if_neg (by have := h p (by simp); omega)]
    cases hx : p[j]? with
    | none =>
      have hl : p.length = j := by have := h p (by simp); have := List.getElem?_eq_none_iff.1 hx; omega
      exact Or.inr (Or.inr ⟨by simp [Res.idx, hx], [], p, ps, rfl, hl, by simp⟩)
    | some z =>
      rw [Res.idx_of_some hx, Res.bind_ok]
      have hlt := (List.getElem?_eq_some_iff.1 hx).1
      by_cases hz : z = k
      · rw [if_neg (by simp [hz])]
        subst hz
        rcases allAt_cases ps (fun p' hp' => h p' (List.mem_cons_of_mem _ hp')) with h1 | h1 | h1
        · refine Or.inl ⟨h1.1, fun p' hp' => ?_⟩
          rcases List.mem_cons.1 hp' with rfl | hp'
          · exact hx
          · exact h1.2 p' hp'
        · obtain ⟨h1, ⟨p', hp', h2⟩, h3⟩ := h1
          refine Or.inr (Or.inl ⟨h1, ⟨p', List.mem_cons_of_mem _ hp', h2⟩, fun l q r he hl => ?_⟩)
          cases l with
          | nil => simp only [List.nil_append, List.cons.injEq] at he; rw [← he.1]; omega
          | cons y l =>
            simp only [List.cons_append, List.cons.injEq] at he
            exact h3 l q r he.2 (fun p hp => hl p (List.mem_cons_of_mem _ hp))
        · obtain ⟨h1, l, q, r, h2, h3, h4⟩ := h1
          refine Or.inr (Or.inr ⟨h1, p :: l, q, r, by rw [h2]; rfl, h3, fun p' hp' => ?_⟩)
          rcases List.mem_cons.1 hp' with rfl | hp'
          · exact hx
          · exact h4 p' hp'
      · rw [if_pos (by simpa using hz)]
        refine Or.inr (Or.inl ⟨rfl, ⟨p, by simp, by rw [hx]; simpa using hz⟩, fun l q r he hl => ?_⟩)
        cases l with
        | nil => simp only [List.nil_append, List.cons.injEq] at he; rw [← he.1]; omega
        | cons y l =>
          simp only [List.cons_append, List.cons.injEq] at he
          have := hl y (by simp)
          rw [← he.1, hx] at this
          exact absurd (Option.some.inj this) hz

theorem prefix_snoc {pre p : Path} {k : List Nat} (h : pre <+: p) (hk : p[pre.length]? = some k) : pre ++ [k] <+: p := by
  obtain ⟨t, rfl⟩ := h
  cases t with
  | nil => simp at hk
  | cons x t =>
    simp at hk
    subst hk
    exact ⟨t, by simp⟩

theorem at_of_prefix {pre p : Path} {k : List Nat} (h : pre ++ [k] <+: p) : p[pre.length]? = some k := by
  obtain ⟨t, rfl⟩ := h
  simp

/-- What stops the search at some key. -/
def Stops (ps : List Path) (pre rest : Path) : Prop :=
  ∃ m l q r, m < rest.length ∧ ps = l ++ q :: r ∧ q.length = pre.length + m ∧ (∀ p ∈ ps, pre ++ rest.take m <+: p) ∧
    ∀ p ∈ l, pre ++ rest.take (m + 1) <+: p

theorem commonPath_cases {ps : List Path} : ∀ (rest pre : Path), (∀ p ∈ ps, pre <+: p) →
    (∃ c, commonPath ps pre.length rest = .ok c ∧ ¬ Stops ps pre rest ∧ c.length ≤ rest.length ∧
      (c.length < rest.length ↔ ∃ p ∈ ps, ¬ pre ++ rest <+: p) ∧ (c.length = rest.length → c = rest)) ∨
    (commonPath ps pre.length rest = .panic ∧ Stops ps pre rest)
  | [], pre, h => Or.inl ⟨[], by rw [commonPath], fun ⟨m, l, q, r, hm, _⟩ => by simp at hm, by simp,
      by simpa using h, fun _ => rfl⟩
  | k :: rest, pre, h => by
    rw [commonPath]
    rcases allAt_cases (j := pre.length) (k := k) ps (fun p hp => (h p hp).length_le) with ⟨h1, h2⟩ | ⟨h1, ⟨p0, hp0, h2⟩, h3⟩ | ⟨h1, l, q, r, h2, h3, h4⟩
    · have hpre : ∀ p ∈ ps, pre ++ [k] <+: p := fun p hp => prefix_snoc (h p hp) (h2 p hp)
      have hst : Stops ps (pre ++ [k]) rest ↔ Stops ps pre (k :: rest) := by
        constructor
        · rintro ⟨m, l, q, r, a, b, c, d, e⟩
          refine ⟨m + 1, l, q, r, by simpa using a, b, by simp at c; omega, fun p hp => ?_, fun p hp => ?_⟩
          · simpa using d p hp
          · simpa using e p hp
        · rintro ⟨m, l, q, r, a, b, c, d, e⟩
          cases m with
          | zero =>
            have := at_of_prefix (hpre q (by rw [b]; simp))
            have := (List.getElem?_eq_some_iff.1 this).1
            omega
          | succ m =>
            refine ⟨m, l, q, r, by simpa using a, b, by simp; omega, fun p hp => ?_, fun p hp => ?_⟩
            · simpa using d p hp
            · simpa using e p hp
      have ih := commonPath_cases rest (pre ++ [k]) hpre
      rw [hst] at ih
      rw [h1, Res.bind_ok, if_pos rfl]
      simp only [List.length_append, List.length_singleton] at ih
      rcases ih with ⟨c, i1, i2, i3, i4, i5⟩ | ⟨i1, i2⟩
      · rw [i1, Res.bind_ok]
        refine Or.inl ⟨k :: c, rfl, i2, by simpa using i3, ?_, fun hc => by rw [i5 (by simpa using hc)]⟩
        simpa [List.append_assoc] using i4
      · exact Or.inr ⟨by rw [i1]; rfl, i2⟩
    · rw [h1, Res.bind_ok, if_neg (by simp)]
      refine Or.inl ⟨[], rfl, ?_, by simp, ?_, by simp⟩
      · rintro ⟨m, l, q, r, a, b, c, d, e⟩
        cases m with
        | zero =>
          refine h3 l q r b (fun p hp => ?_) (by simpa using c)
          exact at_of_prefix (by simpa using e p hp)
        | succ m =>
          refine h2 (at_of_prefix ?_)
          refine List.IsPrefix.trans ?_ (d p0 hp0)
          exact ⟨rest.take m, by simp⟩
      · simp only [List.length_nil, List.length_cons, Nat.zero_lt_succ, true_iff]
        refine ⟨p0, hp0, fun hh => h2 (at_of_prefix (List.IsPrefix.trans ⟨rest, by simp⟩ hh))⟩
    · rw [h1]
      refine Or.inr ⟨rfl, 0, l, q, r, by simp, h2, by simpa using h3, by simpa using h, fun p hp => ?_⟩
      have hp' : p ∈ ps := by rw [h2]; exact List.mem_append_left _ hp
      simpa using prefix_snoc (h p hp') (h4 p hp)

theorem stops_collide (p : Path) (ps : List Path) : Stops (p :: ps) [] (longest p ps) ↔ Collide (p :: ps) := by
  constructor
  · rintro ⟨m, l, q, r, a, b, c, d, e⟩
    simp only [List.length_nil, Nat.zero_add, List.nil_append] at c d e
    have hq : q = (longest p ps).take m := by
      have := d q (by rw [b]; simp)
      exact (this.eq_of_length (by rw [List.length_take]; omega)).symm
    refine ⟨longest p ps, l, q, r, longest_find p ps, b, by omega, by rw [hq]; exact d, by rw [c]; exact e⟩
  · rintro ⟨big, l, q, r, a, b, c, d, e⟩
    rw [longest_find] at a
    cases a
    have hq : q = (longest p ps).take q.length := by
      have hl : longest p ps ∈ p :: ps := by
        obtain ⟨as, bs, h1, _⟩ := longest_split p ps
        rw [h1]; simp
      exact List.prefix_iff_eq_take.1 (d _ hl)
    refine ⟨q.length, l, q, r, c, b, by simp, ?_, ?_⟩
    · rw [List.nil_append, ← hq]; exact d
    · simpa using e

/-- Whether the paths differ. -/
def Differ (ps : List Path) : Prop := ∃ p ∈ ps, ∃ q ∈ ps, p ≠ q

theorem pick_exact : ∀ (ps : List Path), (¬ Collide ps ∧ ∃ c b, pick ps = .ok (c, b) ∧ (b = true ↔ Differ ps) ∧ (b = false → ∀ p ∈ ps, p = c)) ∨
    (Collide ps ∧ pick ps = .panic)
  | [] => Or.inl ⟨fun ⟨_, l, q, r, _, h, _⟩ => by simp at h, [], false, rfl, by simp [Differ], by simp⟩
  | p :: ps => by
    have h := commonPath_cases (ps := p :: ps) (longest p ps) [] (fun _ _ => List.nil_prefix)
    rw [stops_collide] at h
    simp only [List.length_nil, List.nil_append] at h
    have hl : longest p ps ∈ p :: ps := by
      obtain ⟨as, bs, h1, _⟩ := longest_split p ps
      rw [h1]; simp
    have hmax := longest_max p ps
    rcases h with ⟨c, h1, h2, h3, h4, h5⟩ | ⟨h1, h2⟩
    · refine Or.inl ⟨h2, c, decide (c.length < (longest p ps).length), by rw [pick, h1]; rfl, ?_, ?_⟩
      · rw [decide_eq_true_iff, h4]
        constructor
        · rintro ⟨q, hq, hn⟩
          exact ⟨longest p ps, hl, q, hq, fun he => hn (by rw [he]; exact List.prefix_refl _)⟩
        · rintro ⟨a, ha, b, hb, hab⟩
          by_cases he : a = longest p ps
          · exact ⟨b, hb, fun hh => hab (he.trans (hh.eq_of_length (Nat.le_antisymm hh.length_le (hmax b hb))))⟩
          · exact ⟨a, ha, fun hh => he (hh.eq_of_length (Nat.le_antisymm hh.length_le (hmax a ha))).symm⟩
      · intro hb q hq
        have hn := of_decide_eq_false hb
        have hc : c = longest p ps := h5 (by omega)
        rw [h4] at hn
        have hh : longest p ps <+: q := Classical.not_not.1 (fun h => hn ⟨q, hq, h⟩)
        rw [hc]
        exact (hh.eq_of_length (Nat.le_antisymm hh.length_le (hmax q hq))).symm
    · exact Or.inr ⟨h2, by rw [pick, h1]; rfl⟩

/-! ### Choosing the node -/

/-- The transformer is directly inside the loop over `w`. -/
def Inside (t : T E) : Option Int → Prop
  | none => t.ctx = []
  | some v => ∃ A b rest, t.ctx = (v, A ++ [.loop b]) :: rest

theorem Inside.of_ctx {t t' : T E} {w : Option Int} (h : Inside t w) (hc : t'.ctx = t.ctx) : Inside t' w := by
  cases w <;> simpa only [Inside, hc] using h

/-- Where a visible field is. -/
def placeOf (t : T E) (f : Field) : RRef := ⟨if f.root = 0 then none else currentContext t, f.path⟩

theorem resolveRef_exact {t : T E} {w : Option Int} (h : Inside t w) (f : Field) :
    (Visible w f ∧ resolveRef t f = .ok (placeOf t f)) ∨ (¬ Visible w f ∧ resolveRef t f = .panic) := by
  rw [resolveRef, getContext, placeOf, currentContext]
  by_cases h0 : f.root = 0
  · exact Or.inl ⟨Or.inl h0, by simp [h0]⟩
  · rw [if_neg h0, if_neg h0]
    cases w with
    | none =>
      rw [Inside] at h
      exact Or.inr ⟨by simp [Visible, h0], by rw [h]; rfl⟩
    | some v =>
      obtain ⟨A, b, rest, hc⟩ := h
      rw [hc]
      simp only
      by_cases hv : v = f.root
      · exact Or.inl ⟨Or.inr (by rw [hv]), by rw [if_pos hv]; rfl⟩
      · exact Or.inr ⟨by simp [Visible, h0, hv], by rw [if_neg hv]; rfl⟩

theorem resolveRefs_exact {t : T E} {w : Option Int} (h : Inside t w) : ∀ (fs : List Field),
    ((∀ f ∈ fs, Visible w f) ∧ resolveRefs t fs = .ok (fs.map (placeOf t))) ∨ (¬ (∀ f ∈ fs, Visible w f) ∧ resolveRefs t fs = .panic)
  | [] => Or.inl ⟨by simp, rfl⟩
  | f :: fs => by
    rw [resolveRefs]
    rcases resolveRef_exact h f with ⟨h1, h2⟩ | ⟨h1, h2⟩
    · rcases resolveRefs_exact h fs with ⟨h3, h4⟩ | ⟨h3, h4⟩
      · exact Or.inl ⟨by simpa using ⟨h1, h3⟩, by rw [h2, Res.bind_ok, h4]; rfl⟩
      · exact Or.inr ⟨fun hh => h3 (fun f hf => hh f (List.mem_cons_of_mem _ hf)), by rw [h2, Res.bind_ok, h4]; rfl⟩
    · exact Or.inr ⟨fun hh => h1 (hh f (by simp)), by rw [h2]; rfl⟩

theorem mine_iff {t : T E} {w : Option Int} (h : Inside t w) {f : Field} (hv : Visible w f) :
    (placeOf t f).ctx = currentContext t ↔ Mine w f := by
  rw [placeOf, currentContext]
  cases w with
  | none =>
    have h0 : f.root = 0 := by simpa [Visible] using hv
    rw [Inside] at h
    simp [h, Mine, h0]
  | some v =>
    obtain ⟨A, b, rest, hc⟩ := h
    rw [hc]
    by_cases h0 : f.root = 0
    · simp [h0, Mine]
    · have : v = f.root := by simpa [Visible, h0] using hv
      simp [h0, Mine, this]

theorem findBestRoot_pick {t : T E} {w : Option Int} (h : Inside t w) {fs : List Field} (hv : ∀ f ∈ fs, Visible w f) :
    findBestRoot t (fs.map (placeOf t)) = (pick (ownPaths w fs) >>= fun r => .ok (⟨currentContext t, r.1⟩, r.2)) := by
  have hp : ((fs.map (placeOf t)).filter (fun r => decide (r.ctx = currentContext t))).map RRef.path = ownPaths w fs := by
    rw [ownPaths, List.filter_map, List.map_map]
    have : (fs.filter ((fun r : RRef => decide (r.ctx = currentContext t)) ∘ placeOf t)) = fs.filter (fun f => decide (Mine w f)) :=
      List.filter_congr (fun f hf => by simp only [Function.comp_apply, decide_eq_decide]; exact mine_iff h (hv f hf))
    rw [this]
    rfl
  rw [findBestRoot, hp]
  simp only
  cases ownPaths w fs with
  | nil => rfl
  | cons p ps =>
    rw [pick]
    simp only
    cases commonPath (p :: ps) 0 (longest p ps) <;> rfl

/-- The node chosen for an expression. -/
def nodeFor (a : Addr) (b : Bool) : NRef := if b then .after a else .node a

theorem pickBase_exact {t : T E} {w : Option Int} (h : Inside t w) (e : Expr E) :
    ((e.Plain ∧ (∀ f ∈ occs e, Visible w f) ∧ ¬ Collide (ownPaths w (occs e))) ∧ ∃ t' c b,
      pickBase t e = .ok (t', nodeFor ((currentContext t).getD [] ++ c.map Step.key) b) ∧ (b = true ↔ Differ (ownPaths w (occs e))) ∧
      (b = false → ∀ p ∈ ownPaths w (occs e), p = c)) ∨
    (¬ (e.Plain ∧ (∀ f ∈ occs e, Visible w f) ∧ ¬ Collide (ownPaths w (occs e))) ∧ pickBase t e = .panic) := by
  rw [pickBase]
  by_cases hp : e.Plain
  · rw [fieldRefs_occs hp, Res.bind_ok]
    have hmem : ∀ f, f ∈ (occs e).foldl addNew [] ↔ f ∈ occs e := fun f => by simp [mem_addNew]
    rcases resolveRefs_exact h ((occs e).foldl addNew []) with ⟨h1, h2⟩ | ⟨h1, h2⟩
    · rw [h2, Res.bind_ok, findBestRoot_pick h h1, pick_addNew w (occs e) [], List.nil_append]
      have hv : ∀ f ∈ occs e, Visible w f := fun f hf => h1 f ((hmem f).2 hf)
      rcases pick_exact (ownPaths w (occs e)) with ⟨h3, c, b, h4, h5, h6⟩ | ⟨h3, h4⟩
      · rw [h4, Res.bind_ok, Res.bind_ok]
        refine Or.inl ⟨⟨hp, hv, h3⟩, ?_⟩
        cases b with
        | false => exact ⟨_, c, false, rfl, h5, h6⟩
        | true => exact ⟨_, c, true, rfl, h5, h6⟩
      · exact Or.inr ⟨fun hh => hh.2.2 h3, by rw [h4]; rfl⟩
    · exact Or.inr ⟨fun hh => h1 (fun f hf => hh.2.1 f ((hmem f).1 hf)), by rw [h2]; rfl⟩
  · exact Or.inr ⟨fun hh => hp hh.1, by rw [(C29_panics_iff e).2 hp]; rfl⟩

/-! ### Operands -/

theorem accepted_exact {R α : Type} {read : List Nat → Option R} (v : GoVal E) {g : List Nat → Res α}
    (h1 : ∀ s x, read s = some x → ∃ a, g s = .ok a) (h0 : ∀ s, read s = none → g s = .panic) : Exactly (asStr v >>= g) (Accepted read v) := by
  unfold asStr
  split
  · next s =>
    rw [Res.bind_ok]
    cases hr : read s with
    | none =>
      refine Or.inr ⟨?_, h0 s hr⟩
      rintro ⟨s', x, h2, h3⟩
      cases h2; rw [hr] at h3; cases h3
    | some x => exact Or.inl ⟨⟨s, x, rfl, hr⟩, h1 s x hr⟩
  · next h =>
    refine Or.inr ⟨?_, rfl⟩
    rintro ⟨s, _, h2, _⟩
    exact h s h2

mutual
  theorem makeParam_exact (C : Comp E) (n : NRef) {w : Option Int} : ∀ (e : Expr E) (t : T E), Inside t w → Exactly (makeParam C t n e) (OkParam C w e)
    | .field f, t, h => by
      rw [makeParam, OkParam]
      rcases resolveRef_exact h f with ⟨h1, h2⟩ | ⟨h1, h2⟩
      · exact Or.inl ⟨h1, _, by rw [h2]; rfl⟩
      · exact Or.inr ⟨h1, by rw [h2]; rfl⟩
    | .value v, t, _ => by rw [makeParam, OkParam]; exact .ok _
    | .regex v, t, _ => by rw [makeParam, OkParam]; exact accepted_exact v (fun s x h => by simp [h]) (fun s h => by simp [h])
    | .pcre v, t, _ => by rw [makeParam, OkParam]; exact accepted_exact v (fun s x h => by simp [h]) (fun s h => by simp [h])
    | .time v, t, _ => by rw [makeParam, OkParam]; exact accepted_exact v (fun s x h => by simp [h]) (fun s h => by simp [h])
    | .func f ps, t, h => by rw [makeParam, OkParam]; exact (makeParams_exact C n ps t h).map
    | .tru, _, _ | .fals, _, _ | .not _, _, _ | .and _, _, _ | .or _, _, _ | .loop _ _ _ _, _, _ | .exist _, _, _ | .notExist _, _, _
    | .cmp _ _ _, _, _ => by simp only [makeParam, OkParam]; exact .panic

  theorem makeParams_exact (C : Comp E) (n : NRef) {w : Option Int} : ∀ (ps : Exprs E) (t : T E), Inside t w →
      Exactly (makeParams C t n ps) (OkParams C w ps)
    | .nil, t, _ => by rw [makeParams, OkParams]; exact .ok _
    | .cons p ps, t, h => by
      rw [makeParams, OkParams]
      exact (makeParam_exact C n p t h).bind (fun a _ ha =>
        (makeParams_exact C n ps a.1 (h.of_ctx (makeParam_same C t n p a ha).ctx)).map)
end

theorem makeDataRef_exact (C : Comp E) (n : NRef) {w : Option Int} (e : Expr E) (t : T E) (h : Inside t w) :
    Exactly (makeDataRef C t n e) (OkParam C w e) := by
  rw [makeDataRef]
  refine ((makeParam_exact C n e t h).bind (Q := True) (fun a _ _ => ?_)).congr (by simp)
  split <;> exact .ok _

mutual
  theorem okParam_occs {C : Comp E} {w : Option Int} : ∀ (e : Expr E), OkParam C w e → e.Plain ∧ ∀ f ∈ occs e, Visible w f
    | .field f, h => by simpa [Expr.Plain, occs, OkParam] using h
    | .value _, _ | .regex _, _ | .pcre _, _ | .time _, _ => by simp [Expr.Plain, occs]
    | .func _ ps, h => by rw [Expr.Plain, occs]; exact okParams_occs ps h
    | .tru, h | .fals, h | .not _, h | .and _, h | .or _, h | .loop _ _ _ _, h | .exist _, h | .notExist _, h | .cmp _ _ _, h => by
      simp [OkParam] at h
  theorem okParams_occs {C : Comp E} {w : Option Int} : ∀ (ps : Exprs E), OkParams C w ps → ps.Plain ∧ ∀ f ∈ occsAll ps, Visible w f
    | .nil, _ => by simp [Exprs.Plain, occsAll]
    | .cons p ps, h => by
      rw [OkParams] at h
      obtain ⟨h1, h2⟩ := okParam_occs p h.1
      obtain ⟨h3, h4⟩ := okParams_occs ps h.2
      rw [Exprs.Plain, occsAll]
      exact ⟨⟨h1, h3⟩, fun f hf => (List.mem_append.1 hf).elim (h2 f) (h4 f)⟩
end

/-! ### Conditions -/

theorem pickBase_exactly {t : T E} {w : Option Int} (h : Inside t w) (e : Expr E) :
    Exactly (pickBase t e) (e.Plain ∧ (∀ f ∈ occs e, Visible w f) ∧ ¬ Collide (ownPaths w (occs e))) := by
  rcases pickBase_exact h e with ⟨h1, t', c, b, h2, _⟩ | h1
  · exact Or.inl ⟨h1, _, h2⟩
  · exact Or.inr h1

theorem tExists_exact (C : Comp E) (e : Expr E) {w : Option Int} {t : T E} (h : Inside t w) :
    Exactly (tExists C e t) (OkParam C w e ∧ ¬ Collide (ownPaths w (occs e))) := by
  rw [tExists]
  refine ((pickBase_exactly h (.exist e)).bind (fun b _ hb => (makeDataRef_exact C b.2 e b.1 (h.of_ctx (pickBase_same hb).ctx)).map)).congr ?_
  rw [Expr.Plain, occs]
  constructor
  · exact fun hh => ⟨hh.2, hh.1.2.2⟩
  · exact fun hh => ⟨⟨(okParam_occs e hh.1).1, (okParam_occs e hh.1).2, hh.2⟩, hh.1⟩

theorem tCompare_exact (C : Comp E) (c : Cmp) (op : OpTy) (l r : Expr E) {w : Option Int} {t : T E} (h : Inside t w) :
    Exactly (tCompare C (.cmp c l r) op l r t) (OkParam C w l ∧ OkParam C w r ∧ ¬ Collide (ownPaths w (occs l ++ occs r))) := by
  rw [tCompare]
  refine ((pickBase_exactly h (.cmp c l r)).bind (fun b _ hb => ?_) (Q := OkParam C w l ∧ OkParam C w r)).congr ?_
  · have h1 := h.of_ctx (pickBase_same hb).ctx
    exact (makeDataRef_exact C b.2 l b.1 h1).bind (fun x _ hx => (makeDataRef_exact C b.2 r x.1 (h1.of_ctx (makeDataRef_same hx).ctx)).map)
  · rw [Expr.Plain, occs]
    constructor
    · exact fun hh => ⟨hh.2.1, hh.2.2, hh.1.2.2⟩
    · intro hh
      have h1 := okParam_occs l hh.1
      have h2 := okParam_occs r hh.2.1
      exact ⟨⟨⟨h1.1, h2.1⟩, fun f hf => (List.mem_append.1 hf).elim (h1.2 f) (h2.2 f), hh.2.2⟩, hh.1, hh.2.1⟩

/-! ### Operators -/

theorem tNot_exact {g : T E → Res (T E)} {t : T E} {par : Nat} {w : Option Int} {P : Prop} (hs : Start t par) (h : Inside t w)
    (hg : ∀ t1 : T E, Start t1 t.active → Inside t1 w → Exactly (g t1) P) : Exactly (tNot g t) P := by
  obtain ⟨t1, e1, ha, hs1, hctx, _⟩ := first_child (ty := .not) hs
  have : tNot g t = g t1 := by
    rw [tNot]
    obtain ⟨x, hx, e1⟩ := Res.bind_eq_ok.1 e1
    rw [hx, Res.bind_ok]
    simp only
    rw [e1, Res.bind_ok]
  rw [this]
  exact hg t1 hs1 (h.of_ctx hctx)

theorem tBin_exact {o : BinTree.BinOp} {g g' : T E → Res (T E)} {t : T E} {par : Nat} {w : Option Int} {P P' : Prop} {a : BinTree.Sh} (hs : Start t par)
    (h : Inside t w) (hg : ∀ t1 : T E, Start t1 t.active → Inside t1 w → Exactly (g t1) P)
    (hgr : ∀ t1 t2 : T E, Start t1 t.active → g t1 = .ok t2 → Grown t1 t2 a t.active)
    (hg' : ∀ t1 : T E, Start t1 t.active → Inside t1 w → Exactly (g' t1) P') : Exactly (tBin o.ty g g' t) (P ∧ P') := by
  obtain ⟨t1, e1, ha, hs1, hctx, _, _, hn, hb⟩ := first_child (ty := o.ty) hs
  have : tBin o.ty g g' t = (g t1 >>= fun t2 => setRight (newBucket { t2 with active := t.active }) t.active
      (newBucket { t2 with active := t.active }).active >>= g') := by
    rw [tBin]
    obtain ⟨x, hx, e1⟩ := Res.bind_eq_ok.1 e1
    rw [hx, Res.bind_ok]
    simp only
    rw [e1, Res.bind_ok]
  rw [this]
  refine (hg t1 hs1 (h.of_ctx hctx)).bind (fun t2 _ h2 => ?_)
  have hG := hgr t1 t2 hs1 h2
  obtain ⟨t3, e3, _, hs3, hc3, _⟩ := second_child (o := o) ha hn hb hG
  rw [e3, Res.bind_ok]
  exact hg' t3 hs3 (h.of_ctx (hc3.trans (hG.ctx.trans hctx)))

theorem start_same {t t' : T E} {par : Nat} (hs : Start t par) (h : SameTree t t') : Start t' par :=
  ⟨by rw [h.tree, h.active, hs.len], by rw [h.bk, h.tree, hs.bk], by rw [h.tree, h.active, hs.node]⟩

/-! ### Loops -/

/-- Whether the array is at the chosen node, or its value can be waited for. -/
theorem array_exact {t t' : T E} {w : Option Int} (h : Inside t w) (ht' : t'.ctx = t.ctx) (C : Comp E) (i : Expr E) {c : Path} {b : Bool} {fs : List Field}
    (hi : ∀ f ∈ occs i, f ∈ fs) (hv : ∀ f ∈ fs, Visible w f) (hb : b = true ↔ Differ (ownPaths w fs)) (hc : b = false → ∀ p ∈ ownPaths w fs, p = c)
    {r : T E × Option (Ref E)} (hr : makeDataRef C t' (nodeFor ((currentContext t).getD [] ++ c.map Step.key) b) i = .ok r) (x : T E) (k : Nat)
    (m : Mode) (e : Exec E) :
    Exactly ((nodeFor ((currentContext t).getD [] ++ c.map Step.key) b).addLoop x k m r.2 e) (OkArray w (ownPaths w fs) i) := by
  have hin' : Inside t' w := h.of_ctx ht'
  have hcur : currentContext t' = currentContext t := by rw [currentContext, ht', currentContext]
  rw [makeDataRef] at hr
  obtain ⟨y, hy, hr⟩ := Res.bind_eq_ok.1 hr
  cases i with
  | field f =>
    have hvf : Visible w f := hv f (hi f (by simp [occs]))
    rw [makeParam] at hy
    rcases resolveRef_exact hin' f with ⟨_, h2⟩ | ⟨h1, _⟩
    · rw [h2, Res.bind_ok, Res.ok.injEq] at hy
      rw [OkArray]
      have hD : (∃ p ∈ ownPaths w fs, ∃ q ∈ ownPaths w fs, p ≠ q) ↔ b = true := hb.symm
      rw [hD]
      by_cases heq : nodeFor ((currentContext t).getD [] ++ c.map Step.key) b = .node (placeOf t' f).addr
      · have hl : y.2 = .lit := by rw [← hy, fieldRef]; simp [heq]
        rw [hl] at hr
        cases hr
        have hbf : b = false := by
          cases b
          · rfl
          · simp [nodeFor] at heq
        subst hbf
        rw [heq, NRef.addLoop]
        refine Or.inl ⟨Or.inl ?_, _, rfl⟩
        -- the field is at the node, which is below the current context
        have hadr : (currentContext t).getD [] ++ c.map Step.key = (placeOf t' f).addr := by simpa [nodeFor] using heq
        rw [← mine_iff hin' hvf, hcur]
        cases w with
        | none =>
          have h0 : f.root = 0 := by simpa [Visible] using hvf
          rw [Inside] at h
          simp [placeOf, h0, currentContext, h]
        | some v =>
          obtain ⟨A, b', rest, hctx⟩ := h
          by_cases h0 : f.root = 0
          · exfalso
            rw [RRef.addr, placeOf, if_pos h0] at hadr
            have hm : Step.loop b' ∈ (currentContext t).getD [] ++ c.map Step.key := by simp [currentContext, hctx]
            rw [hadr] at hm
            simp at hm
          · rw [placeOf, if_neg h0, hcur]
      · have hl : ∃ s, y.2 = .slot s := by rw [← hy, fieldRef]; simp [heq]
        obtain ⟨s, hl⟩ := hl
        rw [hl] at hr
        cases hr
        cases b with
        | true => exact Or.inl ⟨Or.inr rfl, _, rfl⟩
        | false =>
          refine Or.inr ⟨?_, rfl⟩
          rintro (hm | hm)
          · refine heq ?_
            have hmem : f.path ∈ ownPaths w fs := List.mem_map.2 ⟨f, by simp [hi f (by simp [occs]), hm], rfl⟩
            have hp := hc rfl _ hmem
            have hx := (mine_iff hin' hvf).2 hm
            rw [hcur] at hx
            rw [RRef.addr, hx]
            simp [nodeFor, placeOf, hp]
          · cases hm
    · exact absurd hvf h1
  | value v =>
    rw [makeParam] at hy
    cases hy; cases hr
    cases b <;> exact .panic
  | regex v =>
    rw [makeParam] at hy
    obtain ⟨z, _, hy⟩ := Res.bind_eq_ok.1 hy
    split at hy <;> cases hy; cases hr
    cases b <;> exact .panic
  | pcre v =>
    rw [makeParam] at hy
    obtain ⟨z, _, hy⟩ := Res.bind_eq_ok.1 hy
    split at hy <;> cases hy; cases hr
    cases b <;> exact .panic
  | time v =>
    rw [makeParam] at hy
    obtain ⟨z, _, hy⟩ := Res.bind_eq_ok.1 hy
    split at hy <;> cases hy; cases hr
    cases b <;> exact .panic
  | func n ps =>
    rw [makeParam] at hy
    obtain ⟨z, _, hy⟩ := Res.bind_eq_ok.1 hy
    cases hy; cases hr
    cases b <;> exact .panic
  | tru | fals | not | and | or | loop | exist | notExist | cmp => simp [makeParam] at hy

theorem okArray_param {C : Comp E} {w : Option Int} {ps : List Path} {i : Expr E} {fs : List Field} (hi : ∀ f ∈ occs i, f ∈ fs)
    (hv : ∀ f ∈ fs, Visible w f) (h : OkArray w ps i) : i.Plain ∧ OkParam C w i := by
  cases i with
  | field f => exact ⟨trivial, hv f (hi f (by simp [occs]))⟩
  | _ => exact h.elim

theorem tLoop_exact (C : Comp E) (m : Mode) (v : Int) (i s : Expr E) {w : Option Int} {t : T E} {par : Nat} (hs : Start t par) (h : Inside t w)
    (hf : ∀ t1 : T E, Start t1 t.active → Inside t1 (some v) → Exactly (tOne C s t1) (Compiles C (some v) s)) :
    Exactly (tLoop C (.loop m v i s) m v i (tOne C s) t) (Compiles C w (.loop m v i s)) := by
  rw [tLoop]
  have key : Exactly (pickBase t (.loop m v i s) >>= fun b => makeDataRef C b.1 b.2 i >>= fun r =>
      setTy r.1 r.1.active .loop >>= fun t => setLeft (newBucket t) r.1.active (newBucket t).active >>= fun t =>
      b.2.addLoop t t.active m r.2 emptyExec >>= fun t =>
      tOne C s { t with ctx := (v, b.2.addr ++ [.loop t.active]) :: t.ctx } >>= fun t' =>
      match t'.ctx with
      | [] => .panic
      | (_, a') :: rest => if a' ≠ b.2.addr ++ [.loop t.active] then .panic else .ok { t' with ctx := rest })
      (((i.Plain ∧ s.Plain) ∧ (∀ f ∈ occs (.loop m v i s), Visible w f) ∧ ¬ Collide (ownPaths w (occs (.loop m v i s)))) ∧
        OkParam C w i ∧ OkArray w (ownPaths w (occs (.loop m v i s))) i ∧ Compiles C (some v) s) := by
    rcases pickBase_exact h (.loop m v i s) with ⟨h1, t', c, b, h2, h3, h4⟩ | ⟨h1, h2⟩
    · rw [h2, Res.bind_ok]
      simp only
      have hsame := pickBase_same h2
      simp only at hsame
      refine Exactly.congr (P := OkParam C w i ∧ OkArray w (ownPaths w (occs (.loop m v i s))) i ∧ Compiles C (some v) s) ?_
        ⟨fun hh => ⟨h1, hh⟩, fun hh => hh.2⟩
      refine (makeDataRef_exact C _ i t' (h.of_ctx hsame.ctx)).bind (fun r _ hr => ?_)
      have hsame' := hsame.trans (makeDataRef_same hr)
      obtain ⟨t1, e1, ha, hs1, hctx, _⟩ := first_child (ty := .loop) (start_same hs hsame')
      obtain ⟨x, hx, e1⟩ := Res.bind_eq_ok.1 e1
      rw [hx, Res.bind_ok, e1, Res.bind_ok]
      refine (array_exact h hsame.ctx C i (fun f hf => by rw [occs]; exact List.mem_append_left _ hf) h1.2.1 h3 h4 hr t1 t1.active m emptyExec).bind
        (fun t2 _ h2 => ?_)
      have hsame2 := addLoop_same h2
      have hst := start_same hs1 hsame2
      rw [hsame'.active] at hst
      have hst' : Start { t2 with ctx := (v, (nodeFor ((currentContext t).getD [] ++ c.map Step.key) b).addr ++ [.loop t2.active]) :: t2.ctx } t.active :=
        ⟨hst.len, hst.bk, hst.node⟩
      refine ((hf _ hst' ⟨_, _, _, rfl⟩).bind (Q := True) (fun t3 _ h5 => ?_)).congr (by simp)
      have hG := tOne_grown C s _ t3 _ hst' h5
      have hctx3 := hG.ctx
      simp only at hctx3
      rw [hctx3]
      simp only [ne_eq, not_true_eq_false, if_false]
      exact .ok _
    · rw [h2]
      exact Or.inr ⟨fun hh => h1 hh.1, rfl⟩
  refine key.congr ?_
  rw [Compiles, occs]
  constructor
  · rintro ⟨⟨⟨_, a⟩, b, c⟩, d, e, f⟩
    exact ⟨a, b, c, e, f⟩
  · rintro ⟨a, b, c, e, f⟩
    have := okArray_param (C := C) (fun f hf => List.mem_append_left _ hf) b e
    exact ⟨⟨⟨this.1, a⟩, b, c⟩, this.2, e, f⟩

mutual
  theorem tOne_exact (C : Comp E) : ∀ (e : Expr E) (w : Option Int) (t : T E) (par : Nat), Start t par → Inside t w →
      Exactly (tOne C e t) (Compiles C w e)
    | .loop m v i s, w, t, par, hs, h => by
      rw [tOne]
      exact tLoop_exact C m v i s hs h (fun t1 h1 h2 => tOne_exact C s (some v) t1 _ h1 h2)
    | .not e, w, t, par, hs, h => by
      rw [tOne, Compiles]
      exact tNot_exact hs h (fun t1 h1 h2 => tOne_exact C e w t1 _ h1 h2)
    | .or es, w, t, par, hs, h => by rw [tOne, Compiles]; exact tOr_exact C es w t par hs h
    | .and es, w, t, par, hs, h => by rw [tOne, Compiles]; exact tAnd_exact C es w t par hs h
    | .exist e, w, t, par, hs, h => by rw [tOne, Compiles]; exact tExists_exact C e h
    | .notExist e, w, t, par, hs, h => by
      rw [tOne, Compiles]
      exact tNot_exact hs h (fun t1 _ h2 => tExists_exact C e h2)
    | .cmp c l r, w, t, par, hs, h => by
      rw [tOne, Compiles]
      split
      · exact tNot_exact hs h (fun t1 _ h2 => tCompare_exact C .eq .equals l r h2)
      · exact tCompare_exact C c (opOf c) l r h
    | .tru, w, t, par, hs, h | .fals, w, t, par, hs, h | .value _, w, t, par, hs, h | .time _, w, t, par, hs, h | .regex _, w, t, par, hs, h
    | .pcre _, w, t, par, hs, h | .field _, w, t, par, hs, h | .func _ _, w, t, par, hs, h => by simp only [tOne, Compiles]; exact .ok t

  theorem tOr_exact (C : Comp E) : ∀ (es : Exprs E) (w : Option Int) (t : T E) (par : Nat), Start t par → Inside t w →
      Exactly (tOr C es t) (CompilesAll C w es)
    | .nil, w, t, par, hs, h => by rw [tOr, CompilesAll]; exact .panic
    | .cons e .nil, w, t, par, hs, h => by rw [tOr, CompilesAll]; exact tOne_exact C e w t par hs h
    | .cons e (.cons e' r), w, t, par, hs, h => by
      rw [tOr.eq_def, CompilesAll]
      exact tBin_exact (o := .or) hs h (fun t1 h1 h2 => tOne_exact C e w t1 _ h1 h2) (fun t1 t2 h1 h2 => tOne_grown C e t1 t2 _ h1 h2)
        (fun t1 h1 h2 => tOr_exact C (.cons e' r) w t1 _ h1 h2)

  theorem tAnd_exact (C : Comp E) : ∀ (es : Exprs E) (w : Option Int) (t : T E) (par : Nat), Start t par → Inside t w →
      Exactly (tAnd C es t) (CompilesAll C w es)
    | .nil, w, t, par, hs, h => by rw [tAnd, CompilesAll]; exact .panic
    | .cons e .nil, w, t, par, hs, h => by rw [tAnd, CompilesAll]; exact tOne_exact C e w t par hs h
    | .cons e (.cons e' r), w, t, par, hs, h => by
      rw [tAnd.eq_def, CompilesAll]
      exact tBin_exact (o := .and) hs h (fun t1 h1 h2 => tOne_exact C e w t1 _ h1 h2) (fun t1 t2 h1 h2 => tOne_grown C e t1 t2 _ h1 h2)
        (fun t1 h1 h2 => tAnd_exact C (.cons e' r) w t1 _ h1 h2)
end

theorem tMerge_exact (C : Comp E) : ∀ (e : Expr E) (es : List (Expr E)) (t : T E) (par : Nat), Start t par → Inside t none →
    Exactly (tMerge C (e :: es) t) (∀ x ∈ e :: es, Compiles C none x)
  | e, [], t, par, hs, h => by
    rw [tMerge]
    exact (tOne_exact C e none t par hs h).map.congr (by simp)
  | e, e' :: es, t, par, hs, h => by
    obtain ⟨t1, e1, ha, hs1, hctx, _, _, hn, hb⟩ := first_child (ty := .neor) hs
    rw [tMerge]
    obtain ⟨x, hx, e1⟩ := Res.bind_eq_ok.1 e1
    rw [hx, Res.bind_ok]
    simp only
    rw [e1, Res.bind_ok]
    refine ((tOne_exact C e none t1 _ hs1 (h.of_ctx hctx)).bind (fun t2 _ h2 => ?_)
      (Q := ∀ x ∈ e' :: es, Compiles C none x)).congr (by simp)
    have hG := tOne_grown C e t1 t2 _ hs1 h2
    obtain ⟨t3, e3, _, hs3, hc3, _⟩ := second_child (o := .neor) ha hn hb hG
    rw [e3, Res.bind_ok]
    exact (tMerge_exact C e' es t3 _ hs3 (h.of_ctx (hc3.trans (hG.ctx.trans hctx)))).map

theorem mem_genExprs (e : Expr E) : ∀ es : List (Expr E), e ∈ genExprs es ↔ e ∈ es ∧ e ≠ .tru ∧ e ≠ .fals
  | [] => by simp [genExprs]
  | x :: es => by
    have ih := mem_genExprs e es
    cases x <;> simp only [genExprs, List.mem_cons, ih] <;> constructor <;> grind

/-- **C86.**  Compiling a list of expressions succeeds if each of them compiles on its own in the sense of `Compiles`; otherwise it
panics.  No other outcome is possible, whatever the expressions and however often the transformer has been used. -/
theorem C86_compiles (C : Comp E) (slot0 : Nat) (es : List (Expr E)) :
    ((∃ df, transform C slot0 es = .ok df) ↔ ∀ e ∈ es, Compiles C none e) ∧
    (¬ (∀ e ∈ es, Compiles C none e) → transform C slot0 es = .panic) := by
  have hmem : (∀ e ∈ es, Compiles C none e) ↔ ∀ e ∈ genExprs es, Compiles C none e := by
    constructor
    · exact fun h e he => h e ((mem_genExprs e es).1 he).1
    · intro h e he
      by_cases h1 : e = .tru
      · subst h1; simp [Compiles]
      by_cases h2 : e = .fals
      · subst h2; simp [Compiles]
      exact h e ((mem_genExprs e es).2 ⟨he, h1, h2⟩)
  rw [hmem]
  refine Exactly.iff ?_
  cases hg : genExprs es with
  | nil =>
    rw [transform, hg]
    exact Or.inl ⟨by simp, _, rfl⟩
  | cons g gs =>
    rw [transform_cons C slot0 es hg]
    exact (tMerge_exact C g gs (initT slot0) 0 (initT_start slot0) rfl).map

/-! ### Examples -/

theorem collide_iff (ps : List Path) : Collide ps ↔ pick ps = .panic := by
  rcases pick_exact ps with ⟨h1, c, b, h2, _⟩ | ⟨h1, h2⟩
  · exact ⟨fun h => absurd h h1, fun h => by rw [h2] at h; cases h⟩
  · exact ⟨fun _ => h2, fun _ => h1⟩

instance (ps : List Path) : Decidable (Collide ps) := decidable_of_iff _ (collide_iff ps).symm

/-- `ANY v IN a SATISFIES v.a = v.b AND (ANY u IN v.c SATISFIES u = b)` -/
def demoNested : Expr demoExt := .loop .any 1 fieldA (.and (.cons (.cmp .eq (.field ⟨1, [[97]]⟩) (.field ⟨1, [[98]]⟩))
  (.cons (.loop .any 2 (.field ⟨1, [[99]]⟩) (.cmp .eq (.field ⟨2, []⟩) fieldB)) .nil)))

theorem demoNested_compiles : Compiles demoComp none demoNested := by
  simp only [demoNested, Compiles, CompilesAll, OkParam, OkArray, occs, occsAll, fieldA, fieldB, Visible, Expr.Plain, Exprs.Plain]
  refine ⟨by simp, by simp, by decide, Or.inl rfl, ⟨by simp, by simp, by decide⟩, by simp, by simp, by decide, Or.inl (by decide), by simp, by simp,
    by decide⟩

/-- `C86_compiles` in both directions. -/
example : (∃ df, transform demoComp 3 [demoNested, .tru, .not demoNested] = .ok df) ∧
    transform demoComp 3 [demoNested, .loop .any 1 fieldA (.loop .any 2 (.field ⟨1, [[98]]⟩) (.cmp .eq (.field ⟨1, [[97]]⟩) one))] = .panic := by
  constructor
  · refine (C86_compiles demoComp 3 _).1.2 (fun e he => ?_)
    simp only [List.mem_cons, List.not_mem_nil, or_false] at he
    rcases he with rfl | rfl | rfl
    · exact demoNested_compiles
    · simp [Compiles]
    · rw [Compiles]; exact demoNested_compiles
  · refine (C86_compiles demoComp 3 _).2 (fun h => ?_)
    have := h _ (List.mem_cons_of_mem _ (List.mem_cons_self ..))
    simp [Compiles, OkParam, Visible] at this

/-! ### Consequences -/

/-- Merged expressions compile exactly if each of them compiles alone. -/
theorem C86_alone (C : Comp E) (slot0 : Nat) (es : List (Expr E)) :
    (∃ df, transform C slot0 es = .ok df) ↔ ∀ e ∈ es, ∃ df, transform C 0 [e] = .ok df := by
  rw [(C86_compiles C slot0 es).1]
  constructor
  · exact fun h e he => (C86_compiles C 0 [e]).1.2 (fun x hx => by rw [List.mem_singleton.1 hx]; exact h e he)
  · exact fun h e he => (C86_compiles C 0 [e]).1.1 (h e he) e (by simp)

/-- A pattern or time that is not a string, or not a valid one, crashes the compiler; nothing else about the constant matters. -/
theorem C86_constants (C : Comp E) (slot0 : Nat) (c : Cmp) (f : Path) (v : GoVal E) :
    ((∃ df, transform C slot0 [.cmp c (.field ⟨0, f⟩) (.regex v)] = .ok df) ↔ ∃ s r, v = .json (.str s) ∧ C.regexp s = some r) ∧
    ((∃ df, transform C slot0 [.cmp c (.field ⟨0, f⟩) (.pcre v)] = .ok df) ↔ ∃ s r, v = .json (.str s) ∧ C.pcre s = some r) ∧
    ((∃ df, transform C slot0 [.cmp c (.field ⟨0, f⟩) (.time v)] = .ok df) ↔ ∃ s x, v = .json (.str s) ∧ E.parseTime s = some x) ∧
    (∃ df, transform C slot0 [.cmp c (.field ⟨0, f⟩) (.value v)] = .ok df) := by
  have hc : ∀ e : Expr E, occs e = [] → ¬ Collide (ownPaths none (occs (.field ⟨0, f⟩ : Expr E) ++ occs e)) := by
    intro e he
    rw [he]
    rintro ⟨big, l, q, r, h1, h2, h3, h4, h5⟩
    have hp : ownPaths none (occs (.field ⟨0, f⟩ : Expr E) ++ []) = [f] := by simp [occs, ownPaths, Mine]
    rw [hp] at h1 h2
    have hb : big = f := by simpa using List.mem_of_find?_eq_some h1
    cases l with
    | nil => simp at h2; rw [hb, ← h2.1] at h3; omega
    | cons x l => simp at h2
  refine ⟨?_, ?_, ?_, ?_⟩
  · rw [(C86_compiles C slot0 _).1]
    simp only [List.mem_singleton, forall_eq, Compiles, OkParam, Visible, true_or, true_and, hc (.regex v) rfl, not_false_eq_true, and_true]
    rfl
  · rw [(C86_compiles C slot0 _).1]
    simp only [List.mem_singleton, forall_eq, Compiles, OkParam, Visible, true_or, true_and, hc (.pcre v) rfl, not_false_eq_true, and_true]
    rfl
  · rw [(C86_compiles C slot0 _).1]
    simp only [List.mem_singleton, forall_eq, Compiles, OkParam, Visible, true_or, true_and, hc (.time v) rfl, not_false_eq_true, and_true]
    rfl
  · rw [(C86_compiles C slot0 _).1]
    simp only [List.mem_singleton, forall_eq, Compiles, OkParam, Visible, true_or, true_and, hc (.value v) rfl, not_false_eq_true]

example : transform demoComp 0 [.cmp .gt fieldA (.time (.json .null))] = .panic ∧
    ∃ df, transform demoComp 0 [.cmp .like fieldA (.regex (.json (.str [])))] = .ok df := by
  refine ⟨?_, (C86_constants demoComp 0 .like [[97]] _).1.2 ⟨[], _, rfl, rfl⟩⟩
  refine (C86_compiles demoComp 0 _).2 (fun h => ?_)
  have := h _ (List.mem_cons_self ..)
  simp [Compiles, OkParam, Accepted] at this

/-- Whether a comparison compiles depends on the order in which it mentions its fields: `a.c + a = a.b.x` compiles and
`a + a.c = a.b.x` crashes the compiler. -/
theorem C86_order_matters :
    (∃ df, transform demoComp 0 [.cmp .eq (.func (ascii "mathAdd") (.cons (.field ⟨0, [[97], [99]]⟩) (.cons fieldA .nil))) (.field ⟨0, [[97], [98], [120]]⟩)]
      = .ok df) ∧
    transform demoComp 0 [.cmp .eq (.func (ascii "mathAdd") (.cons fieldA (.cons (.field ⟨0, [[97], [99]]⟩) .nil))) (.field ⟨0, [[97], [98], [120]]⟩)]
      = .panic := by
  constructor
  · refine (C86_compiles demoComp 0 _).1.2 (fun e he => ?_)
    rw [List.mem_singleton.1 he]
    simp only [Compiles, OkParam, OkParams, fieldA, Visible, occs, occsAll]
    exact ⟨by simp, by simp, by decide⟩
  · refine (C86_compiles demoComp 0 _).2 (fun h => ?_)
    have := h _ (List.mem_cons_self ..)
    simp only [Compiles, fieldA, occs, occsAll] at this
    exact this.2.2 (by decide)

theorem compilesAll_iff (C : Comp E) (w : Option Int) : ∀ es : Exprs E, CompilesAll C w es ↔ es.toList ≠ [] ∧ ∀ e ∈ es.toList, Compiles C w e
  | .nil => by simp [CompilesAll, Exprs.toList]
  | .cons e .nil => by simp [CompilesAll, Exprs.toList]
  | .cons e (.cons e' r) => by
    rw [CompilesAll, compilesAll_iff C w (.cons e' r)]
    simp [Exprs.toList]

mutual
  theorem compact_compiles {C : Comp E} {w : Option Int} : ∀ e : Expr E, Compiles C w e → Compiles C w (compact e)
    | .or es, h => by
      rw [Compiles] at h
      rw [compact]
      exact compactOr_compiles es .nil ((compilesAll_iff C w es).1 h).2 (by simp [Exprs.toList])
    | .and es, h => by
      rw [Compiles] at h
      rw [compact]
      exact compactAnd_compiles es .nil ((compilesAll_iff C w es).1 h).2 (by simp [Exprs.toList])
    | .loop m v i s, h => by
      cases m with
      | anyEvery => rw [compact] <;> simp [h]
      | any => unfold compact; split <;> simp_all [Compiles]
      | every => unfold compact; split <;> simp_all [Compiles]
    | .tru, h | .fals, h | .value _, h | .time _, h | .regex _, h | .pcre _, h | .not _, h | .field _, h | .func _ _, h | .exist _, h | .notExist _, h
    | .cmp _ _ _, h => by rw [compact] <;> simp_all
  theorem compactOr_compiles {C : Comp E} {w : Option Int} : ∀ (es acc : Exprs E), (∀ e ∈ es.toList, Compiles C w e) → (∀ e ∈ acc.toList, Compiles C w e) →
      Compiles C w (compactOr es acc)
    | .nil, acc, _, h => by
      cases acc with
      | nil => simp [compactOr, Compiles]
      | cons e r => rw [compactOr.eq_def]; simp only; rw [Compiles, compilesAll_iff]; exact ⟨by simp [Exprs.toList], h⟩
    | .cons e r, acc, he, h => by
      have h1 := compact_compiles e (he e (by simp [Exprs.toList]))
      have hr : ∀ e ∈ r.toList, Compiles C w e := fun x hx => he x (by simp [Exprs.toList, hx])
      rw [compactOr]
      split
      · simp [Compiles]
      · exact compactOr_compiles r acc hr h
      · refine compactOr_compiles r _ hr (fun x hx => ?_)
        rw [toList_ofList] at hx
        rcases List.mem_append.1 hx with hx | hx
        · exact h x hx
        · rw [List.mem_singleton.1 hx]; exact h1
  theorem compactAnd_compiles {C : Comp E} {w : Option Int} : ∀ (es acc : Exprs E), (∀ e ∈ es.toList, Compiles C w e) → (∀ e ∈ acc.toList, Compiles C w e) →
      Compiles C w (compactAnd es acc)
    | .nil, acc, _, h => by
      cases acc with
      | nil => simp [compactAnd, Compiles]
      | cons e r => rw [compactAnd.eq_def]; simp only; rw [Compiles, compilesAll_iff]; exact ⟨by simp [Exprs.toList], h⟩
    | .cons e r, acc, he, h => by
      have h1 := compact_compiles e (he e (by simp [Exprs.toList]))
      have hr : ∀ e ∈ r.toList, Compiles C w e := fun x hx => he x (by simp [Exprs.toList, hx])
      rw [compactAnd]
      split
      · exact compactAnd_compiles r acc hr h
      · simp [Compiles]
      · refine compactAnd_compiles r _ hr (fun x hx => ?_)
        rw [toList_ofList] at hx
        rcases List.mem_append.1 hx with hx | hx
        · exact h x hx
        · rw [List.mem_singleton.1 hx]; exact h1
end

/-- Compaction never makes the compiler crash on an expression that compiles as it is. -/
theorem C86_compact (C : Comp E) (slot0 : Nat) (es : List (Expr E)) (h : ∃ df, transform C slot0 es = .ok df) :
    ∃ df, transform C slot0 (es.map compact) = .ok df := by
  refine (C86_compiles C slot0 _).1.2 (fun e he => ?_)
  obtain ⟨x, hx, rfl⟩ := List.mem_map.1 he
  exact compact_compiles x ((C86_compiles C slot0 es).1.1 h x hx)

example : ∃ df, transform demoComp 0 ([Expr.or (.cons .fals (.cons demoNested .nil))].map compact) = .ok df :=
  C86_compact demoComp 0 _ ((C86_compiles demoComp 0 _).1.2 (fun e he => by
    rw [List.mem_singleton.1 he]
    simp only [Compiles, CompilesAll]
    exact ⟨trivial, demoNested_compiles⟩))

/-- Compaction can remove what crashes the compiler. -/
theorem C86_compact_strict : transform demoComp 0 [Expr.and (.cons .fals (.cons (.or .nil) .nil))] = .panic ∧
    ∃ df, transform demoComp 0 [compact (E := demoExt) (.and (.cons .fals (.cons (.or .nil) .nil)))] = .ok df := by
  refine ⟨(C86_compiles demoComp 0 _).2 (fun h => ?_), ⟨_, rfl⟩⟩
  have := h _ (List.mem_cons_self ..)
  simp [Compiles, CompilesAll] at this

/-! ### Nodes that are not addressed -/

/-- Changing the node of one loop leaves the nodes of the others. -/
theorem alterLoops_other {b b' : Nat} (h : b' ≠ b) (f : Exec E → Exec E) : ∀ ls : Loops E, findLoop b' (alterLoops b f ls) = findLoop b' ls
  | .nil => rfl
  | .cons c m t e r => by
    rw [alterLoops]
    split
    · next hc =>
      have : c ≠ b' := fun hh => h (hh.symm.trans hc)
      simp [findLoop, this]
    · simp only [findLoop, alterLoops_other h f r]

theorem alterElems_other {k k' : List Nat} (h : k' ≠ k) (f : Exec E → Exec E) : ∀ es : Elems E, (alterElems k f es).find k' = es.find k'
  | .nil => by simp [alterElems, Elems.find, Ne.symm h]
  | .cons c e r => by
    rw [alterElems]
    split
    · next hc =>
      have : c ≠ k' := fun hh => h (hh.symm.trans hc)
      simp [Elems.find, this]
    · simp only [Elems.find, alterElems_other h f r]

theorem alterLoops_same (b : Nat) (f : Exec E → Exec E) : ∀ ls : Loops E, findLoop b (alterLoops b f ls) = (findLoop b ls).map f
  | .nil => rfl
  | .cons c m t e r => by
    rw [alterLoops]
    split
    · next hc => simp [findLoop, hc]
    · next hc => simp only [findLoop, hc, if_false, alterLoops_same b f r]

theorem alterElems_same {k : List Nat} (f : Exec E → Exec E) : ∀ {es : Elems E} {e : Exec E}, es.find k = some e → (alterElems k f es).find k = some (f e)
  | .nil, e, h => by simp [Elems.find] at h
  | .cons c e' r, e, h => by
    rw [alterElems]
    split
    · next hc =>
      simp only [Elems.find, hc, if_true, Option.some.injEq] at h ⊢
      rw [h]
    · next hc =>
      simp only [Elems.find, hc, if_false] at h ⊢
      exact alterElems_same f h

/-- Changing the node at one address leaves the nodes at all addresses that part from it. -/
theorem update_elsewhere (f : Exec E → Exec E) {s s' : Step} (hs : s ≠ s') : ∀ (pre p q : Addr) (n : Exec E),
    (nodeAt pre n).isSome → nodeAt (pre ++ s' :: q) (update (pre ++ s :: p) f n) = nodeAt (pre ++ s' :: q) n
  | [], p, q, .mk st es ops ls a, _ => by
    simp only [List.nil_append]
    cases s with
    | key k =>
      cases s' with
      | key k' => simp only [update, nodeAt]; rw [alterElems_other (fun h => hs (by rw [h]))]
      | loop b' => simp only [update, nodeAt]
    | loop b =>
      cases s' with
      | key k' => simp only [update, nodeAt]
      | loop b' =>
        simp only [update, nodeAt]
        rw [alterLoops_other (fun h => hs (by rw [h]))]
        cases a with
        | none => rfl
        | some aops als => simp only [alterAfter, findAfter]; rw [alterLoops_other (fun h => hs (by rw [h]))]
  | .key k :: pre, p, q, .mk st es ops ls a, h => by
    simp only [List.cons_append, update, nodeAt] at h ⊢
    cases he : es.find k with
    | none => simp [he] at h
    | some e =>
      rw [he, Option.bind_some] at h
      rw [alterElems_same _ he, Option.bind_some, Option.bind_some]
      exact update_elsewhere f hs pre p q e h
  | .loop b :: pre, p, q, .mk st es ops ls a, h => by
    simp only [List.cons_append, update, nodeAt] at h ⊢
    have ha : findAfter b (alterAfter b (update (pre ++ s :: p) f) a) = (findAfter b a).map (update (pre ++ s :: p) f) := by
      cases a with
      | none => rfl
      | some aops als => exact alterLoops_same b _ als
    rw [ha, alterLoops_same]
    have : ((findLoop b ls).map (update (pre ++ s :: p) f)).or ((findAfter b a).map (update (pre ++ s :: p) f)) =
        ((findLoop b ls).or (findAfter b a)).map (update (pre ++ s :: p) f) := by cases findLoop b ls <;> rfl
    rw [this]
    cases he : (findLoop b ls).or (findAfter b a) with
    | none => rfl
    | some e =>
      rw [he, Option.bind_some] at h
      rw [Option.map_some, Option.bind_some, Option.bind_some]
      exact update_elsewhere f hs pre p q e h

example : nodeAt (E := demoExt) [.loop 2] (update [.loop 1] (setStore 7)
      (addLoop 2 .any none (addOp ⟨3, .exists_, none, none⟩ emptyExec) (addLoop 1 .any none emptyExec emptyExec))) =
    some (addOp ⟨3, .exists_, none, none⟩ emptyExec) :=
  (update_elsewhere (setStore 7) (s := .loop 1) (s' := .loop 2) (by simp) [] [] [] _ rfl).trans rfl

end Verif.Transform
