import Verif.Transform.PrintInj

/-!
# What the printed parse tree tells

Specification: `Shown` compares two parse nodes as far as they can be printed (operands by their texts, members by their names, whatever the
order of the maps), `Plain` says that operands and names contain no line feeds and that blanks on the left of an operator follow commas, as they do
between the arguments of a function.
-/

namespace Verif.Transform
open Verif.FastVal Verif.Match Verif.Expr
open Verif.ExprText (linesOf linesOf_ne linesOf_inj linesOf_one linesOf_feed linesOf_reindent split_margin reindent_inside reindent_inj join_lines joinWith
  split_at natText_inj natText_digit natText_ne intText_char intText_inj)

variable {E : Ext}

/-! ### Specification -/

/-- Every blank follows a comma and the text does not end with a comma; the first argument is the byte before. -/
def Calm : Nat → List Nat → Prop
  | p, [] => p ≠ 44
  | p, c :: r => (c = 32 → p = 44) ∧ Calm c r

/-- The operand is printed within a line. -/
def PlainSide (S : Show E) (r : Option (Ref E)) : Prop := ∀ x, sideText S r = .ok x → ∀ c ∈ x, c ≠ 10

def PlainOp (S : Show E) (op : Op E) : Prop := (PlainSide S op.lhs ∧ ∀ x, sideText S op.lhs = .ok x → Calm 0 x) ∧ PlainSide S op.rhs

mutual
  def Plain (S : Show E) : Exec E → Prop
    | .mk _ es ops ls a => PlainElems S es ∧ (∀ op ∈ ops, PlainOp S op) ∧ PlainLoops S ls ∧ PlainAfter S a
  def PlainElems (S : Show E) : Elems E → Prop
    | .nil => True
    | .cons k e r => (∀ c ∈ k, c ≠ 10) ∧ Plain S e ∧ PlainElems S r
  def PlainLoops (S : Show E) : Loops E → Prop
    | .nil => True
    | .cons _ _ t e r => PlainSide S t ∧ Plain S e ∧ PlainLoops S r
  def PlainAfter (S : Show E) : After E → Prop
    | .none => True
    | .some ops ls => (∀ op ∈ ops, PlainOp S op) ∧ PlainLoops S ls
end

/-- The node has this member. -/
def HasElem (k : List Nat) (n : Exec E) : Elems E → Prop
  | .nil => False
  | .cons k' e r => (k' = k ∧ e = n) ∨ HasElem k n r

def ShownOp (S : Show E) (op op' : Op E) : Prop :=
  op.bucket = op'.bucket ∧ op.op = op'.op ∧ sideText S op.lhs = sideText S op'.lhs ∧ sideText S op.rhs = sideText S op'.rhs

def ShownOps (S : Show E) : List (Op E) → List (Op E) → Prop
  | [], [] => True
  | op :: r, op' :: r' => ShownOp S op op' ∧ ShownOps S r r'
  | _, _ => False

def aftOps : After E → List (Op E)
  | .none => []
  | .some ops _ => ops
def aftLoops : After E → Loops E
  | .none => .nil
  | .some _ ls => ls

mutual
  /-- The second node stores into the same slot and has the same operations and loops and at least the same members. -/
  def Shown (S : Show E) : Exec E → Exec E → Prop
    | .mk st es ops ls a, .mk st' es' ops' ls' a' => st = st' ∧ ShownElems S es es' ∧ ShownOps S ops ops' ∧ ShownLoops S ls ls' ∧ ShownAfter S a a'
  def ShownElems (S : Show E) : Elems E → Elems E → Prop
    | .nil, _ => True
    | .cons k e r, es' => (∃ e', HasElem k e' es' ∧ Shown S e e') ∧ ShownElems S r es'
  def ShownLoops (S : Show E) : Loops E → Loops E → Prop
    | .nil, .nil => True
    | .cons b m t e r, .cons b' m' t' e' r' => (b = b' ∧ m = m' ∧ sideText S t = sideText S t') ∧ Shown S e e' ∧ ShownLoops S r r'
    | _, _ => False
  def ShownAfter (S : Show E) : After E → After E → Prop
    | .none, a' => ShownOps S [] (aftOps a') ∧ (aftLoops a') = .nil
    | .some ops ls, a' => ShownOps S ops (aftOps a') ∧ ShownLoops S ls (aftLoops a')
end

/-! ### Texts made of whole lines -/

def feedAll (ls : List (List Nat)) : List Nat := ls.flatMap (· ++ [10])

theorem feedAll_append (a b : List (List Nat)) : feedAll (a ++ b) = feedAll a ++ feedAll b := by simp [feedAll]

theorem feed_lines (s : List Nat) : s ++ [10] = feedAll (linesOf s) := by
  have key : ∀ ls : List (List Nat), ls ≠ [] → joinWith [10] ls ++ [10] = feedAll ls := by
    intro ls
    induction ls with
    | nil => intro h; exact absurd rfl h
    | cons x r ih =>
      intro _
      cases r with
      | nil => simp [joinWith, feedAll]
      | cons y r => rw [joinWith, List.append_assoc, List.append_assoc, ih (by simp)]; simp [feedAll]
  rw [← key _ (linesOf_ne s), join_lines]

theorem linesOf_feedAll : ∀ (ls : List (List Nat)), (∀ l ∈ ls, ∀ c ∈ l, c ≠ 10) → linesOf (feedAll ls) = ls ++ [[]]
  | [], _ => rfl
  | l :: r, h => by
    have e : feedAll (l :: r) = l ++ 10 :: feedAll r := by simp [feedAll]
    rw [e, linesOf_feed, linesOf_one (h l (.head _)), linesOf_feedAll r fun x hx => h x (.tail _ hx)]
    rfl

/-- Trimming whole lines that are not empty gives the lines without the last line feed. -/
theorem trim_lines (ls : List (List Nat)) (h : ∀ l ∈ ls, l ≠ [] ∧ ∀ c ∈ l, c ≠ 10) :
    linesOf (trimRight (feedAll ls)) = if ls = [] then [[]] else ls := by
  rcases List.eq_nil_or_concat ls with rfl | ⟨r, l, rfl⟩
  · rfl
  · rw [List.concat_eq_append] at h ⊢
    have hl := h l (by simp)
    have he : Ends (feedAll r ++ l) := by
      refine Ends.append ⟨l.dropLast, l.getLast hl.1, (List.dropLast_concat_getLast hl.1).symm, ?_⟩ _
      exact hl.2 _ (List.getLast_mem hl.1)
    rw [feedAll_append, show feedAll [l] = l ++ [10] by simp [feedAll], ← List.append_assoc, he.trim, if_neg (by simp)]
    apply List.append_cancel_right (bs := [[]])
    rw [← linesOf_feedAll (r ++ [l]) fun x hx => (h x hx).2, feedAll_append, show feedAll [l] = l ++ [10] by simp [feedAll], ← List.append_assoc,
      show ∀ s : List Nat, s ++ [10] = s ++ 10 :: [] from fun _ => rfl, linesOf_feed]
    rfl

theorem linesOf_clean : ∀ (s : List Nat), ∀ l ∈ linesOf s, ∀ c ∈ l, c ≠ 10
  | [], l, hl, c, hc => by
    rw [linesOf, List.mem_singleton] at hl
    subst hl; cases hc
  | a :: r, l, hl, c, hc => by
    have ih := linesOf_clean r
    rw [linesOf] at hl
    split at hl
    · cases hl with
      | head => cases hc
      | tail _ hl => exact ih l hl c hc
    · rename_i ha
      split at hl
      · rename_i h; exact absurd h (linesOf_ne r)
      · rename_i x xs h
        cases hl with
        | head =>
          cases hc with
          | head => exact ha
          | tail _ hc => exact ih x (by rw [h]; exact .head _) c hc
        | tail _ hl => exact ih l (by rw [h]; exact .tail _ hl) c hc

/-! ### Blocks of lines -/

def ind (ls : List (List Nat)) : List (List Nat) := ls.map (ascii "  " ++ ·)

/-- The lines of a block. -/
def blk (title : List Nat) (items : List (List (List Nat))) : List (List Nat) :=
  if items.isEmpty then [] else title :: ind items.flatten

theorem block_lines {title : List Nat} (items : List (List Nat)) : block (title ++ [10]) items = feedAll (blk title (items.map linesOf)) := by
  unfold block blk
  cases items with
  | nil => rfl
  | cons x r =>
    rw [if_neg (by simp), if_neg (by simp)]
    have : ∀ xs : List (List Nat), (xs.flatMap fun x => reindent (ascii "  ") x ++ [10]) = feedAll (ind (xs.map linesOf).flatten) := by
      intro xs
      induction xs with
      | nil => rfl
      | cons y ys ih =>
        rw [List.flatMap_cons, ih, feed_lines, linesOf_reindent, List.map_cons, List.flatten_cons, ind, ind, List.map_append, feedAll_append]
    rw [this]
    simp [feedAll]

def elemLines (kx : List Nat × List Nat) : List (List Nat) := (ascii "`" ++ (kx.1 ++ ascii "`:")) :: ind (linesOf kx.2)

theorem elemsBlock_lines {ks : List (List Nat × List Nat)} : elemsBlock ks = feedAll (blk (ascii ":elems") (ks.map elemLines)) := by
  unfold elemsBlock blk
  cases ks with
  | nil => rfl
  | cons x r =>
    rw [if_neg (by simp), if_neg (by simp)]
    have : ∀ xs : List (List Nat × List Nat), (xs.flatMap fun kx => ascii "  `" ++ kx.1 ++ ascii "`:\n" ++ reindent (ascii "    ") kx.2 ++ [10]) =
        feedAll (ind (xs.map elemLines).flatten) := by
      intro xs
      induction xs with
      | nil => rfl
      | cons y ys ih =>
        rw [List.flatMap_cons, ih, List.map_cons, List.flatten_cons,
          show ∀ a b, ind (a ++ b) = ind a ++ ind b from fun a b => List.map_append, feedAll_append]
        congr 1
        have e : ascii "  `" ++ y.1 ++ ascii "`:\n" ++ reindent (ascii "    ") y.2 ++ [10] =
            (ascii "  " ++ (ascii "`" ++ (y.1 ++ ascii "`:"))) ++ [10] ++ (reindent (ascii "    ") y.2 ++ [10]) := by
          have a1 : ascii "  `" = ascii "  " ++ ascii "`" := by decide
          have a2 : ascii "`:\n" = ascii "`:" ++ [10] := by decide
          rw [a1, a2]
          simp only [List.append_assoc]
        rw [e, feed_lines (reindent _ _), reindent4, linesOf_reindent, linesOf_reindent]
        simp [elemLines, ind, feedAll]
    rw [this]
    have a3 : ascii ":elems\n" = ascii ":elems" ++ [10] := by decide
    rw [a3]
    simp [feedAll]

/-- What follows a block: nothing, or a line at the margin that is not the title of the block. -/
def Next (title : List Nat) (R : List (List Nat)) : Prop := ∀ l, R.head? = some l → ¬ ExprText.Inside l ∧ l ≠ title

theorem blk_inj {title : List Nat} {A A' : List (List (List Nat))} {R R' : List (List Nat)} (hR : Next title R) (hR' : Next title R') (h : blk title A ++ R = blk title A' ++ R') : A.flatten = A'.flatten ∧ R = R' := by
  have hin : ∀ A : List (List (List Nat)), ∀ l ∈ ind A.flatten, ExprText.Inside l := by
    intro A l hl
    obtain ⟨x, _, rfl⟩ := List.mem_map.1 hl
    rfl
  cases A with
  | nil =>
    cases A' with
    | nil => exact ⟨rfl, h⟩
    | cons x r =>
      have h : R = title :: (ind (x :: r).flatten ++ R') := h
      exact absurd rfl (hR title (by rw [h]; rfl)).2
  | cons x r =>
    cases A' with
    | nil =>
      have h : title :: (ind (x :: r).flatten ++ R) = R' := h
      exact absurd rfl (hR' title (by rw [← h]; rfl)).2
    | cons x' r' =>
      rw [blk, if_neg (by simp), blk, if_neg (by simp)] at h
      injection h with _ h
      obtain ⟨h1, h2⟩ := split_margin (hin _) (hin _) (fun l hl => (hR l hl).1) (fun l hl => (hR' l hl).1) h
      exact ⟨map_blank_inj h1, h2⟩

/-- A line at the margin and indented lines below it. -/
def Group (g : List (List Nat)) : Prop := ∃ h t, g = h :: t ∧ ¬ ExprText.Inside h ∧ ∀ l ∈ t, ExprText.Inside l

theorem groups_inj : ∀ {A A' : List (List (List Nat))}, (∀ g ∈ A, Group g) → (∀ g ∈ A', Group g) → A.flatten = A'.flatten → A = A'
  | [], [], _, _, _ => rfl
  | [], g :: r, _, h', h => by
    obtain ⟨x, t, rfl, _⟩ := h' g (.head _)
    cases h
  | g :: r, [], h0, _, h => by
    obtain ⟨x, t, rfl, _⟩ := h0 g (.head _)
    cases h
  | g :: r, g' :: r', h0, h0', h => by
    obtain ⟨x, t, rfl, h1, h2⟩ := h0 g (.head _)
    obtain ⟨x', t', rfl, h1', h2'⟩ := h0' g' (.head _)
    rw [List.flatten_cons, List.flatten_cons, List.cons_append, List.cons_append] at h
    injection h with e1 e2
    have hh : ∀ {r : List (List (List Nat))}, (∀ g ∈ r, Group g) → ∀ l, r.flatten.head? = some l → ¬ ExprText.Inside l := by
      intro r hr l hl
      cases r with
      | nil => cases hl
      | cons g r =>
        obtain ⟨x, t, rfl, h1, _⟩ := hr g (.head _)
        cases hl; exact h1
    have hr : ∀ g ∈ r, Group g := fun g hg => h0 g (.tail _ hg)
    have hr' : ∀ g ∈ r', Group g := fun g hg => h0' g (.tail _ hg)
    obtain ⟨e3, e4⟩ := split_margin h2 h2' (hh hr) (hh hr') e2
    rw [e1, e3, groups_inj hr hr' e4]

theorem group_ind {h : List Nat} (hh : ¬ ExprText.Inside h) (ls : List (List Nat)) : Group (h :: ind ls) := by
  refine ⟨h, _, rfl, hh, fun l hl => ?_⟩
  obtain ⟨x, _, rfl⟩ := List.mem_map.1 hl
  rfl

/-! ### The lines of a node -/

def storeLine (st : Nat) : List (List Nat) := if st > 0 then [ascii ":store $" ++ natText st] else []

def nodeLines (st : Nat) (o : List (List Nat)) (ks : List (List Nat × List Nat)) (l ao al : List (List Nat)) : List (List Nat) :=
  storeLine st ++ (blk (ascii ":ops") (o.map linesOf) ++ (blk (ascii ":elems") (ks.map elemLines) ++ (blk (ascii ":loops") (l.map linesOf) ++
    (blk (ascii ":after-ops:") (ao.map linesOf) ++ (blk (ascii ":after-loops:") (al.map linesOf) ++ [])))))

theorem after_text (S : Show E) {a : After E} {y : List Nat} (h : afterText S a = .ok y) :
    ∃ ao al, opsText S (aftOps a) = .ok ao ∧ loopsText S (aftLoops a) = .ok al ∧
      y = block (ascii ":after-ops:\n") ao ++ block (ascii ":after-loops:\n") al := by
  cases a with
  | none =>
    rw [afterText] at h
    cases h
    exact ⟨[], [], rfl, by rw [aftLoops, loopsText], rfl⟩
  | some ops ls =>
    rw [afterText] at h
    obtain ⟨o, h1, h⟩ := Res.bind_eq_ok.1 h
    obtain ⟨l, h2, h⟩ := Res.bind_eq_ok.1 h
    cases h
    exact ⟨o, l, h1, h2, rfl⟩

theorem exec_text (S : Show E) {st : Nat} {es : Elems E} {ops : List (Op E)} {ls : Loops E} {a : After E} {x : List Nat}
    (h : execText S (.mk st es ops ls a) = .ok x) : ∃ o ks l ao al, opsText S ops = .ok o ∧ elemsText S es = .ok ks ∧ loopsText S ls = .ok l ∧
      opsText S (aftOps a) = .ok ao ∧ loopsText S (aftLoops a) = .ok al ∧ x = trimRight (feedAll (nodeLines st o ks l ao al)) := by
  rw [execText] at h
  obtain ⟨o, h1, h⟩ := Res.bind_eq_ok.1 h
  obtain ⟨ks, h2, h⟩ := Res.bind_eq_ok.1 h
  obtain ⟨l, h3, h⟩ := Res.bind_eq_ok.1 h
  obtain ⟨y, h4, h⟩ := Res.bind_eq_ok.1 h
  obtain ⟨ao, al, h5, h6, rfl⟩ := after_text S h4
  refine ⟨o, ks, l, ao, al, h1, h2, h3, h5, h6, ?_⟩
  rw [← Res.ok.inj h]
  have a1 : ascii ":ops\n" = ascii ":ops" ++ [10] := by decide
  have a2 : ascii ":loops\n" = ascii ":loops" ++ [10] := by decide
  have a3 : ascii ":after-ops:\n" = ascii ":after-ops:" ++ [10] := by decide
  have a4 : ascii ":after-loops:\n" = ascii ":after-loops:" ++ [10] := by decide
  have a5 : (if st > 0 then ascii ":store $" ++ natText st ++ [10] else []) = feedAll (storeLine st) := by
    unfold storeLine
    split <;> simp [feedAll]
  rw [a1, a2, a3, a4, a5, block_lines, block_lines, block_lines, block_lines, elemsBlock_lines]
  simp only [nodeLines, feedAll_append, List.append_assoc, List.append_nil]

/-- Lines that are not empty and contain no line feeds. -/
def Clean (ls : List (List Nat)) : Prop := ∀ l ∈ ls, l ≠ [] ∧ ∀ c ∈ l, c ≠ 10

theorem Clean.append {a b : List (List Nat)} (ha : Clean a) (hb : Clean b) : Clean (a ++ b) := by
  intro l hl
  rcases List.mem_append.1 hl with h | h
  · exact ha l h
  · exact hb l h

theorem blk_clean {title : List Nat} (ht : title ≠ [] ∧ ∀ c ∈ title, c ≠ 10) {A : List (List (List Nat))} (hA : ∀ g ∈ A, ∀ l ∈ g, ∀ c ∈ l, c ≠ 10) :
    Clean (blk title A) := by
  intro l hl
  unfold blk at hl
  split at hl
  · cases hl
  · cases hl with
    | head => exact ht
    | tail _ hl =>
      obtain ⟨x, hx, rfl⟩ := List.mem_map.1 hl
      obtain ⟨g, hg, hxg⟩ := List.mem_flatten.1 hx
      refine ⟨by simp [ascii], fun c hc => ?_⟩
      rcases List.mem_append.1 hc with h | h
      · have : c = 32 := by simpa [ascii] using h
        omega
      · exact hA g hg x hxg c h

theorem lines_clean (xs : List (List Nat)) : ∀ g ∈ xs.map linesOf, ∀ l ∈ g, ∀ c ∈ l, c ≠ 10 := by
  intro g hg
  obtain ⟨x, _, rfl⟩ := List.mem_map.1 hg
  exact linesOf_clean x

theorem elems_clean {ks : List (List Nat × List Nat)} (h : ∀ kx ∈ ks, ∀ c ∈ kx.1, c ≠ 10) : ∀ g ∈ ks.map elemLines, ∀ l ∈ g, ∀ c ∈ l, c ≠ 10 := by
  intro g hg l hl c hc
  obtain ⟨kx, hk, rfl⟩ := List.mem_map.1 hg
  cases hl with
  | head =>
    simp only [List.mem_append] at hc
    rcases hc with h1 | h1 | h1
    · have : c = 96 := by simpa [ascii] using h1
      omega
    · exact h kx hk c h1
    · have : c = 96 ∨ c = 58 := by simpa [ascii] using h1
      omega
  | tail _ hl =>
    obtain ⟨x, hx, rfl⟩ := List.mem_map.1 hl
    rcases List.mem_append.1 hc with h1 | h1
    · have : c = 32 := by simpa [ascii] using h1
      omega
    · exact linesOf_clean _ x hx c h1

theorem nodeLines_clean {st : Nat} {o : List (List Nat)} {ks : List (List Nat × List Nat)} {l ao al : List (List Nat)}
    (h : ∀ kx ∈ ks, ∀ c ∈ kx.1, c ≠ 10) : Clean (nodeLines st o ks l ao al) := by
  refine Clean.append ?_ ((blk_clean (by decide) (lines_clean _)).append ((blk_clean (by decide) (elems_clean h)).append
    ((blk_clean (by decide) (lines_clean _)).append ((blk_clean (by decide) (lines_clean _)).append
      ((blk_clean (by decide) (lines_clean _)).append fun _ h => nomatch h)))))
  intro x hx
  unfold storeLine at hx
  split at hx
  · rw [List.mem_singleton] at hx
    subst hx
    refine ⟨by simp [ascii], fun c hc => ?_⟩
    rcases List.mem_append.1 hc with h1 | h1
    · exact (by decide : ∀ c ∈ ascii ":store $", c ≠ 10) c h1
    · have := natText_digit h1; omega
  · cases hx

theorem trim_inj {a b : List (List Nat)} (ha : Clean a) (hb : Clean b) (h : trimRight (feedAll a) = trimRight (feedAll b)) : a = b := by
  have h := congrArg linesOf h
  rw [trim_lines a ha, trim_lines b hb] at h
  by_cases h1 : a = []
  · rw [if_pos h1] at h
    by_cases h2 : b = []
    · rw [h1, h2]
    · rw [if_neg h2] at h
      exact absurd rfl (hb [] (by rw [← h]; exact .head _)).1
  · rw [if_neg h1] at h
    by_cases h2 : b = []
    · rw [if_pos h2] at h
      exact absurd rfl (ha [] (by rw [h]; exact .head _)).1
    · rw [if_neg h2] at h; exact h

theorem next_blk {title t : List Nat} {A : List (List (List Nat))} {R : List (List Nat)} (ht : ¬ ExprText.Inside t ∧ t ≠ title) (hR : Next title R) :
    Next title (blk t A ++ R) := by
  intro l hl
  unfold blk at hl
  split at hl
  · exact hR l hl
  · cases hl; exact ht

theorem next_nil (title : List Nat) : Next title [] := fun _ h => nomatch h

theorem nodeLines_inj {st st' : Nat} {o o' : List (List Nat)} {ks ks' : List (List Nat × List Nat)} {l l' ao ao' al al' : List (List Nat)}
    (h : nodeLines st o ks l ao al = nodeLines st' o' ks' l' ao' al') :
    st = st' ∧ (o.map linesOf).flatten = (o'.map linesOf).flatten ∧ (ks.map elemLines).flatten = (ks'.map elemLines).flatten ∧
      (l.map linesOf).flatten = (l'.map linesOf).flatten ∧ (ao.map linesOf).flatten = (ao'.map linesOf).flatten ∧
      (al.map linesOf).flatten = (al'.map linesOf).flatten := by
  unfold nodeLines at h
  have hs : ∀ (n : Nat) (o : List (List Nat)) (ks : List (List Nat × List Nat)) (l ao al : List (List Nat)), Next (ascii ":store $" ++ natText n)
      (blk (ascii ":ops") (o.map linesOf) ++ (blk (ascii ":elems") (ks.map elemLines) ++ (blk (ascii ":loops") (l.map linesOf) ++
        (blk (ascii ":after-ops:") (ao.map linesOf) ++ (blk (ascii ":after-loops:") (al.map linesOf) ++ []))))) := by
    intro n o ks l ao al
    refine next_blk ⟨by decide, by simp [ascii]⟩ (next_blk ⟨by decide, by simp [ascii]⟩ (next_blk ⟨by decide, by simp [ascii]⟩
      (next_blk ⟨by decide, by simp [ascii]⟩ (next_blk ⟨by decide, by simp [ascii]⟩ (next_nil _)))))
  have key : st = st' ∧ (blk (ascii ":ops") (o.map linesOf) ++ (blk (ascii ":elems") (ks.map elemLines) ++ (blk (ascii ":loops") (l.map linesOf) ++
        (blk (ascii ":after-ops:") (ao.map linesOf) ++ (blk (ascii ":after-loops:") (al.map linesOf) ++ []))))) =
      (blk (ascii ":ops") (o'.map linesOf) ++ (blk (ascii ":elems") (ks'.map elemLines) ++ (blk (ascii ":loops") (l'.map linesOf) ++
        (blk (ascii ":after-ops:") (ao'.map linesOf) ++ (blk (ascii ":after-loops:") (al'.map linesOf) ++ []))))) := by
    by_cases h1 : st > 0
    · by_cases h2 : st' > 0
      · rw [storeLine, if_pos h1, storeLine, if_pos h2] at h
        injection h with e1 e2
        exact ⟨natText_inj (List.append_cancel_left e1), e2⟩
      · rw [storeLine, if_pos h1, storeLine, if_neg h2, List.nil_append] at h
        exact absurd rfl (hs st o' ks' l' ao' al' _ (by rw [← h]; rfl)).2
    · by_cases h2 : st' > 0
      · rw [storeLine, if_neg h1, storeLine, if_pos h2, List.nil_append] at h
        exact absurd rfl (hs st' o ks l ao al _ (by rw [h]; rfl)).2
      · rw [storeLine, if_neg h1, storeLine, if_neg h2, List.nil_append, List.nil_append] at h
        exact ⟨by omega, h⟩
  obtain ⟨e0, h⟩ := key
  have n5 : ∀ t (al : List (List Nat)), ascii ":after-loops:" ≠ t → Next t (blk (ascii ":after-loops:") (al.map linesOf) ++ []) :=
    fun t al ht => next_blk ⟨by decide, ht⟩ (next_nil _)
  have n4 : ∀ t (ao al : List (List Nat)), ascii ":after-loops:" ≠ t → ascii ":after-ops:" ≠ t →
      Next t (blk (ascii ":after-ops:") (ao.map linesOf) ++ (blk (ascii ":after-loops:") (al.map linesOf) ++ [])) :=
    fun t ao al h1 h2 => next_blk ⟨by decide, h2⟩ (n5 t al h1)
  have n3 : ∀ t (l ao al : List (List Nat)), ascii ":after-loops:" ≠ t → ascii ":after-ops:" ≠ t → ascii ":loops" ≠ t →
      Next t (blk (ascii ":loops") (l.map linesOf) ++ (blk (ascii ":after-ops:") (ao.map linesOf) ++ (blk (ascii ":after-loops:") (al.map linesOf) ++ []))) :=
    fun t l ao al h1 h2 h3 => next_blk ⟨by decide, h3⟩ (n4 t ao al h1 h2)
  have n2 : ∀ t (ks : List (List Nat × List Nat)) (l ao al : List (List Nat)), ascii ":after-loops:" ≠ t → ascii ":after-ops:" ≠ t → ascii ":loops" ≠ t →
      ascii ":elems" ≠ t → Next t (blk (ascii ":elems") (ks.map elemLines) ++ (blk (ascii ":loops") (l.map linesOf) ++
        (blk (ascii ":after-ops:") (ao.map linesOf) ++ (blk (ascii ":after-loops:") (al.map linesOf) ++ [])))) :=
    fun t ks l ao al h1 h2 h3 h4 => next_blk ⟨by decide, h4⟩ (n3 t l ao al h1 h2 h3)
  obtain ⟨e1, h⟩ := blk_inj (n2 _ _ _ _ _ (by decide) (by decide) (by decide) (by decide)) (n2 _ _ _ _ _ (by decide) (by decide) (by decide) (by decide)) h
  obtain ⟨e2, h⟩ := blk_inj (n3 _ _ _ _ (by decide) (by decide) (by decide)) (n3 _ _ _ _ (by decide) (by decide) (by decide)) h
  obtain ⟨e3, h⟩ := blk_inj (n4 _ _ _ (by decide) (by decide)) (n4 _ _ _ (by decide) (by decide)) h
  obtain ⟨e4, h⟩ := blk_inj (n5 _ _ (by decide)) (n5 _ _ (by decide)) h
  obtain ⟨e5, _⟩ := blk_inj (next_nil _) (next_nil _) h
  exact ⟨e0, e1, e2, e3, e4, e5⟩

/-! ### Operations -/

theorem calm_split : ∀ {l l' u u' : List Nat} {p : Nat}, Calm p l → Calm p l' → l ++ 32 :: u = l' ++ 32 :: u' → l = l' ∧ u = u'
  | [], [], u, u', p, _, _, h => ⟨rfl, by injection h⟩
  | [], c :: r, u, u', p, h0, h0', h => by
    injection h with h1 _
    exact absurd (h0'.1 h1.symm) h0
  | c :: r, [], u, u', p, h0, h0', h => by
    injection h with h1 _
    exact absurd (h0.1 h1) h0'
  | c :: r, c' :: r', u, u', p, h0, h0', h => by
    injection h with h1 h2
    subst h1
    obtain ⟨e1, e2⟩ := calm_split h0.2 h0'.2 h2
    exact ⟨by rw [e1], e2⟩

theorem op_text (S : Show E) {op : Op E} {x : List Nat} (h : opText S op = .ok x) : ∃ l r, sideText S op.lhs = .ok l ∧ sideText S op.rhs = .ok r ∧
    x = ascii "[" ++ (natText op.bucket ++ 93 :: 32 :: (l ++ 32 :: (opTyText op.op ++ 32 :: r))) := by
  rw [opText] at h
  obtain ⟨l, h1, h⟩ := Res.bind_eq_ok.1 h
  obtain ⟨r, h2, h⟩ := Res.bind_eq_ok.1 h
  refine ⟨l, r, h1, h2, ?_⟩
  rw [← Res.ok.inj h]
  simp [ascii]

theorem opTyText_feed (o : OpTy) : ∀ c ∈ opTyText o, c ≠ 10 := by cases o <;> decide

theorem op_group (S : Show E) {op : Op E} {x : List Nat} (hp : PlainOp S op) (h : opText S op = .ok x) : Group (linesOf x) := by
  obtain ⟨l, r, h1, h2, rfl⟩ := op_text S h
  rw [linesOf_one]
  · exact ⟨_, [], rfl, by simp [ExprText.Inside, ascii], fun _ h => nomatch h⟩
  · intro c hc
    simp only [List.mem_append, List.mem_cons] at hc
    rcases hc with h | h | h | h | h | h | h | h | h
    · have : c = 91 := by simpa [ascii] using h
      omega
    · have := natText_digit h; omega
    · omega
    · omega
    · exact hp.1.1 l h1 c h
    · omega
    · exact opTyText_feed _ c h
    · omega
    · exact hp.2 r h2 c h

theorem op_shown (S : Show E) {op op' : Op E} {x : List Nat} (hp : PlainOp S op) (hp' : PlainOp S op') (h : opText S op = .ok x) (h' : opText S op' = .ok x) :
    ShownOp S op op' := by
  obtain ⟨l, r, h1, h2, e⟩ := op_text S h
  obtain ⟨l', r', h1', h2', e'⟩ := op_text S h'
  have h := List.append_cancel_left (e.symm.trans e')
  have hd : ∀ n, ∀ c ∈ natText n, c ≠ 93 := by
    intro n c hc; have := natText_digit hc; omega
  obtain ⟨g1, g2⟩ := split_at (P := fun c => c ≠ 93) (by simp) (hd _) (hd _) h
  injection g2 with _ g2
  obtain ⟨g3, g4⟩ := calm_split (hp.1.2 l h1) (hp'.1.2 l' h1') g2
  obtain ⟨g5, g6⟩ := split_at (P := fun c => c ≠ 32) (by simp) (opTyText_blank _) (opTyText_blank _) g4
  exact ⟨natText_inj g1, opTyText_inj g5, by rw [h1, h1', g3], by rw [h2, h2', g6]⟩

theorem ops_groups (S : Show E) : ∀ {ops : List (Op E)} {o : List (List Nat)}, (∀ op ∈ ops, PlainOp S op) → opsText S ops = .ok o → ∀ g ∈ o.map linesOf, Group g
  | [], o, _, h, g, hg => by
    cases h
    cases hg
  | op :: r, o, hp, h, g, hg => by
    rw [opsText] at h
    obtain ⟨x, h1, h⟩ := Res.bind_eq_ok.1 h
    obtain ⟨xs, h2, h⟩ := Res.bind_eq_ok.1 h
    cases h
    cases hg with
    | head => exact op_group S (hp op (.head _)) h1
    | tail _ hg => exact ops_groups S (fun op h => hp op (.tail _ h)) h2 g hg

theorem ops_shown (S : Show E) : ∀ {ops ops' : List (Op E)} {o : List (List Nat)}, (∀ op ∈ ops, PlainOp S op) → (∀ op ∈ ops', PlainOp S op) →
    opsText S ops = .ok o → opsText S ops' = .ok o → ShownOps S ops ops'
  | [], [], _, _, _, _, _ => trivial
  | [], op' :: r', o, _, _, h, h' => by
    cases h
    rw [opsText] at h'
    obtain ⟨x, h1, h'⟩ := Res.bind_eq_ok.1 h'
    obtain ⟨xs, h2, h'⟩ := Res.bind_eq_ok.1 h'
    cases h'
  | op :: r, [], o, _, _, h, h' => by
    cases h'
    rw [opsText] at h
    obtain ⟨x, h1, h⟩ := Res.bind_eq_ok.1 h
    obtain ⟨xs, h2, h⟩ := Res.bind_eq_ok.1 h
    cases h
  | op :: r, op' :: r', o, hp, hp', h, h' => by
    rw [opsText] at h h'
    obtain ⟨x, h1, h⟩ := Res.bind_eq_ok.1 h
    obtain ⟨xs, h2, h⟩ := Res.bind_eq_ok.1 h
    obtain ⟨x', h1', h'⟩ := Res.bind_eq_ok.1 h'
    obtain ⟨xs', h2', h'⟩ := Res.bind_eq_ok.1 h'
    cases h
    cases h'
    exact ⟨op_shown S (hp op (.head _)) (hp' op' (.head _)) h1 h1',
      ops_shown S (fun op h => hp op (.tail _ h)) (fun op h => hp' op (.tail _ h)) h2 h2'⟩

theorem ops_flat (S : Show E) {ops ops' : List (Op E)} {o o' : List (List Nat)} (hp : ∀ op ∈ ops, PlainOp S op) (hp' : ∀ op ∈ ops', PlainOp S op)
    (h : opsText S ops = .ok o) (h' : opsText S ops' = .ok o') (e : (o.map linesOf).flatten = (o'.map linesOf).flatten) : ShownOps S ops ops' := by
  have := groups_inj (ops_groups S hp h) (ops_groups S hp' h') e
  have : o = o' := (List.map_inj_right fun _ _ h => linesOf_inj h).1 this
  subst this
  exact ops_shown S hp hp' h h'

/-! ### Loops -/

def loopHead (b : Nat) (m : Mode) (t : List Nat) : List Nat :=
  ascii "[" ++ (natText b ++ 93 :: (ascii " :" ++ (modeText m ++ 32 :: (ascii "in " ++ (t ++ ascii ":")))))

theorem modeText_char (m : Mode) : ∀ c ∈ modeText m, c ≠ 10 ∧ c ≠ 32 := by cases m <;> decide

theorem loopHead_feed {b : Nat} {m : Mode} {t : List Nat} (ht : ∀ c ∈ t, c ≠ 10) : ∀ c ∈ loopHead b m t, c ≠ 10 := by
  intro c hc
  simp only [loopHead, List.mem_append, List.mem_cons] at hc
  rcases hc with h | h | h | h | h | h | h | h | h
  · have : c = 91 := by simpa [ascii] using h
    omega
  · have := natText_digit h; omega
  · omega
  · have : c = 32 ∨ c = 58 := by simpa [ascii] using h
    omega
  · exact (modeText_char m c h).1
  · omega
  · exact (by decide : ∀ c ∈ ascii "in ", c ≠ 10) c h
  · exact ht c h
  · have : c = 58 := by simpa [ascii] using h
    omega

theorem loopHead_inj {b b' : Nat} {m m' : Mode} {t t' : List Nat} (h : loopHead b m t = loopHead b' m' t') : b = b' ∧ m = m' ∧ t = t' := by
  have h := List.append_cancel_left h
  have hd : ∀ n, ∀ c ∈ natText n, c ≠ 93 := by
    intro n c hc; have := natText_digit hc; omega
  obtain ⟨g1, g2⟩ := split_at (P := fun c => c ≠ 93) (by simp) (hd _) (hd _) h
  have g2 := List.append_cancel_left g2
  obtain ⟨g3, g4⟩ := split_at (P := fun c => c ≠ 32) (by simp) (fun c hc => (modeText_char m c hc).2) (fun c hc => (modeText_char m' c hc).2) g2
  exact ⟨natText_inj g1, modeText_inj g3, List.append_cancel_right (List.append_cancel_left g4)⟩

theorem loops_text (S : Show E) {b : Nat} {m : Mode} {t : Option (Ref E)} {e : Exec E} {r : Loops E} {l : List (List Nat)}
    (hp : PlainSide S t) (h : loopsText S (.cons b m t e r) = .ok l) : ∃ x y z rest, sideText S t = .ok x ∧ execText S e = .ok y ∧ loopsText S r = .ok rest ∧
      l = z :: rest ∧ linesOf z = loopHead b m x :: ind (linesOf y) := by
  rw [loopsText] at h
  obtain ⟨x, h1, h⟩ := Res.bind_eq_ok.1 h
  obtain ⟨y, h2, h⟩ := Res.bind_eq_ok.1 h
  obtain ⟨rest, h3, h⟩ := Res.bind_eq_ok.1 h
  refine ⟨x, y, _, rest, h1, h2, h3, (Res.ok.inj h).symm, ?_⟩
  have e : ascii "[" ++ natText b ++ ascii "] :" ++ modeText m ++ ascii " in " ++ x ++ ascii ":\n" ++ reindent (ascii "  ") y =
      loopHead b m x ++ 10 :: reindent (ascii "  ") y := by
    simp [loopHead, ascii]
  rw [e, linesOf_feed, linesOf_one (loopHead_feed (hp x h1)), linesOf_reindent]
  rfl

theorem loops_groups (S : Show E) : ∀ {ls : Loops E} {l : List (List Nat)}, PlainLoops S ls → loopsText S ls = .ok l → ∀ g ∈ l.map linesOf, Group g
  | .nil, l, _, h, g, hg => by
    rw [loopsText] at h
    cases h
    cases hg
  | .cons b m t e r, l, hp, h, g, hg => by
    rw [PlainLoops] at hp
    obtain ⟨x, y, z, rest, h1, h2, h3, rfl, h4⟩ := loops_text S hp.1 h
    cases hg with
    | head => rw [h4]; exact group_ind (by simp [ExprText.Inside, loopHead, ascii]) _
    | tail _ hg => exact loops_groups S hp.2.2 h3 g hg

/-! ### Members -/

theorem mem_insertKey {α : Type} {k : List Nat} {x : α} {kx : List Nat × α} : ∀ {r : List (List Nat × α)}, kx ∈ insertKey k x r ↔ kx = (k, x) ∨ kx ∈ r
  | [] => by simp [insertKey]
  | (k', x') :: r => by
    rw [insertKey]
    split
    · rw [List.mem_cons, mem_insertKey, List.mem_cons]
      exact ⟨fun h => h.elim (fun h => .inr (.inl h)) (fun h => h.elim .inl (fun h => .inr (.inr h))),
        fun h => h.elim (fun h => .inr (.inl h)) (fun h => h.elim .inl (fun h => .inr (.inr h)))⟩
    · rw [List.mem_cons]

theorem elems_text (S : Show E) : ∀ {es : Elems E} {ks : List (List Nat × List Nat)}, PlainElems S es → elemsText S es = .ok ks → ∀ kx ∈ ks,
    (∀ c ∈ kx.1, c ≠ 10) ∧ ∃ e, HasElem kx.1 e es ∧ execText S e = .ok kx.2 ∧ Plain S e
  | .nil, ks, _, h, kx, hk => by
    rw [elemsText] at h
    cases h
    cases hk
  | .cons k e r, ks, hp, h, kx, hk => by
    rw [PlainElems] at hp
    rw [elemsText] at h
    obtain ⟨x, h1, h⟩ := Res.bind_eq_ok.1 h
    obtain ⟨xs, h2, h⟩ := Res.bind_eq_ok.1 h
    cases h
    rcases mem_insertKey.1 hk with rfl | hk
    · exact ⟨hp.1, e, .inl ⟨rfl, rfl⟩, h1, hp.2.1⟩
    · obtain ⟨g1, e', g2, g3, g4⟩ := elems_text S hp.2.2 h2 kx hk
      exact ⟨g1, e', .inr g2, g3, g4⟩

theorem elemLines_inj {kx kx' : List Nat × List Nat} (h : elemLines kx = elemLines kx') : kx = kx' := by
  injection h with h1 h2
  have h1 := List.append_cancel_right (List.append_cancel_left h1)
  exact Prod.ext h1 (linesOf_inj (map_blank_inj h2))

theorem elems_groups (ks : List (List Nat × List Nat)) : ∀ g ∈ ks.map elemLines, Group g := by
  intro g hg
  obtain ⟨kx, _, rfl⟩ := List.mem_map.1 hg
  exact group_ind (by simp [ExprText.Inside, ascii]) _

/-! ### Nodes -/

theorem PlainAfter.ops {S : Show E} {a : After E} (h : PlainAfter S a) : ∀ op ∈ aftOps a, PlainOp S op := by
  cases a with
  | none => exact fun _ h => nomatch h
  | some => rw [PlainAfter] at h; exact h.1
theorem PlainAfter.loops {S : Show E} {a : After E} (h : PlainAfter S a) : PlainLoops S (aftLoops a) := by
  cases a with
  | none => rw [aftLoops, PlainLoops]; trivial
  | some => rw [PlainAfter] at h; exact h.2

mutual
  theorem exec_shown (S : Show E) : ∀ (e e' : Exec E) (x : List Nat), Plain S e → Plain S e' → execText S e = .ok x → execText S e' = .ok x → Shown S e e'
    | .mk st es ops ls a, .mk st' es' ops' ls' a', x, hp, hp', h, h' => by
      rw [Plain] at hp hp'
      obtain ⟨o, ks, l, ao, al, h1, h2, h3, h4, h5, rfl⟩ := exec_text S h
      obtain ⟨o', ks', l', ao', al', h1', h2', h3', h4', h5', e⟩ := exec_text S h'
      have hk := elems_text S hp.1 h2
      have hk' := elems_text S hp'.1 h2'
      obtain ⟨g0, g1, g2, g3, g4, g5⟩ := nodeLines_inj (trim_inj (nodeLines_clean fun kx h => (hk kx h).1) (nodeLines_clean fun kx h => (hk' kx h).1) e)
      have gk : ks = ks' := (List.map_inj_right fun _ _ h => elemLines_inj h).1 (groups_inj (elems_groups ks) (elems_groups ks') g2)
      rw [Shown]
      refine ⟨g0, elems_shown S es es' ks ks' hp.1 hp'.1 h2 h2' (fun kx h => gk ▸ h), ops_flat S hp.2.1 hp'.2.1 h1 h1' g1,
        loops_shown S ls ls' l l' hp.2.2.1 hp'.2.2.1 h3 h3' g3, ?_⟩
      cases a with
      | none =>
        rw [ShownAfter]
        refine ⟨ops_flat S hp.2.2.2.ops hp'.2.2.2.ops h4 h4' g4, ?_⟩
        have : al = [] := by
          rw [aftLoops, loopsText] at h5
          cases h5; rfl
        subst this
        cases hl : aftLoops a' with
        | nil => rfl
        | cons b m t e r =>
          have hq := hp'.2.2.2.loops
          rw [hl] at h5' hq
          rw [PlainLoops] at hq
          obtain ⟨x, y, z, rest, _, _, _, rfl, e4⟩ := loops_text S hq.1 h5'
          rw [List.map_cons, List.flatten_cons, e4] at g5
          cases g5
      | some aops als =>
        rw [ShownAfter]
        have hq := hp.2.2.2
        rw [PlainAfter] at hq
        exact ⟨ops_flat S hq.1 hp'.2.2.2.ops h4 h4' g4, loops_shown S als (aftLoops a') al al' hq.2 hp'.2.2.2.loops h5 h5' g5⟩

  theorem elems_shown (S : Show E) : ∀ (es es' : Elems E) (ks ks' : List (List Nat × List Nat)), PlainElems S es → PlainElems S es' →
      elemsText S es = .ok ks → elemsText S es' = .ok ks' → (∀ kx ∈ ks, kx ∈ ks') → ShownElems S es es'
    | .nil, _, _, _, _, _, _, _, _ => by rw [ShownElems]; trivial
    | .cons k e r, es', ks, ks', hp, hp', h, h', hs => by
      have hk' := elems_text S hp' h'
      rw [PlainElems] at hp
      rw [elemsText] at h
      obtain ⟨x, h1, h⟩ := Res.bind_eq_ok.1 h
      obtain ⟨xs, h2, h⟩ := Res.bind_eq_ok.1 h
      cases h
      rw [ShownElems]
      obtain ⟨_, e', g1, g2, g3⟩ := hk' (k, x) (hs _ (mem_insertKey.2 (.inl rfl)))
      exact ⟨⟨e', g1, exec_shown S e e' x hp.2.1 g3 h1 g2⟩, elems_shown S r es' xs ks' hp.2.2 hp' h2 h' fun kx h => hs kx (mem_insertKey.2 (.inr h))⟩

  theorem loops_shown (S : Show E) : ∀ (ls ls' : Loops E) (l l' : List (List Nat)), PlainLoops S ls → PlainLoops S ls' → loopsText S ls = .ok l →
      loopsText S ls' = .ok l' → (l.map linesOf).flatten = (l'.map linesOf).flatten → ShownLoops S ls ls'
    | .nil, .nil, _, _, _, _, _, _, _ => by rw [ShownLoops]; trivial
    | .nil, .cons b m t e r, l, l', hp, hp', h, h', g => by
      rw [loopsText] at h
      cases h
      rw [PlainLoops] at hp'
      obtain ⟨x, y, z, rest, _, _, _, rfl, e4⟩ := loops_text S hp'.1 h'
      rw [List.map_cons, List.flatten_cons, e4] at g
      cases g
    | .cons b m t e r, .nil, l, l', hp, hp', h, h', g => by
      rw [loopsText] at h'
      cases h'
      rw [PlainLoops] at hp
      obtain ⟨x, y, z, rest, _, _, _, rfl, e4⟩ := loops_text S hp.1 h
      rw [List.map_cons, List.flatten_cons, e4] at g
      cases g
    | .cons b m t e r, .cons b' m' t' e' r', l, l', hp, hp', h, h', g => by
      have g' := groups_inj (loops_groups S hp h) (loops_groups S hp' h') g
      rw [PlainLoops] at hp hp'
      obtain ⟨x, y, z, rest, h1, h2, h3, rfl, h4⟩ := loops_text S hp.1 h
      obtain ⟨x', y', z', rest', h1', h2', h3', rfl, h4'⟩ := loops_text S hp'.1 h'
      rw [List.map_cons, List.map_cons] at g'
      injection g' with g1 g2
      rw [h4, h4'] at g1
      injection g1 with g1 g3
      obtain ⟨e1, e2, e3⟩ := loopHead_inj g1
      have e4 : y = y' := linesOf_inj (map_blank_inj g3)
      subst e4
      rw [ShownLoops]
      exact ⟨⟨e1, e2, by rw [h1, h1', e3]⟩, exec_shown S e e' y hp.2.1 hp'.2.1 h2 h2',
        loops_shown S r r' rest rest' hp.2.2 hp'.2.2 h3 h3' (by rw [g2])⟩
end

/-! ### C98 -/

/-- **C98.**  Whatever was compiled: if operands and names of members are printed within a line, definitions printed alike have the same tree, buckets
and number of slots, and their parse trees are the same as far as they are printed: slots, members, operations, loops and what is done after a value
has been read. -/
theorem C98_all (S : Show E) (C C' : Comp E) (slot0 slot0' : Nat) {es es' : List (Expr E)} {df df' : Def E} (h : transform C slot0 es = .ok df)
    (h' : transform C' slot0' es' = .ok df') (hp : ∀ e, df.parse = some e → Plain S e) (hp' : ∀ e, df'.parse = some e → Plain S e) {text : List Nat}
    (ht : defText S df = .ok text) (ht' : defText S df' = .ok text) :
    df.tree = df'.tree ∧ df.buckets = df'.buckets ∧ df.numSlots = df'.numSlots ∧
    ∃ e e', df.parse = some e ∧ df'.parse = some e' ∧ Shown S e e' ∧ Shown S e' e := by
  obtain ⟨h1, h2, h3, e, e', x, h4, h5, h6, h7⟩ := C98_definition S C C' slot0 slot0' h h' ht ht'
  exact ⟨h1, h2, h3, e, e', h4, h5, exec_shown S e e' x (hp e h4) (hp' e' h5) h6 h7, exec_shown S e' e x (hp' e' h5) (hp e h4) h7 h6⟩

/-! ### Examples -/

/-- `a EXISTS` meets the conditions. -/
example : transform demoComp 0 [.exist fieldA] = .ok demoExist ∧ (∀ e, demoExist.parse = some e → Plain demoShow e) ∧
    ∃ text, defText demoShow demoExist = .ok text := by
  refine ⟨demoExist_compiled, fun e he => ?_, ?_⟩
  · cases he
    have h0 : ∀ r x, sideText demoShow (r : Option (Ref demoExt)) = .ok (ascii "@") → sideText demoShow r = .ok x → x = ascii "@" := by
      intro r x h1 h2; exact (Res.ok.inj (h1.symm.trans h2)).symm
    simp only [Plain, PlainElems, PlainLoops, PlainAfter, and_true, true_and]
    refine ⟨⟨by decide, fun op hop => ?_⟩, fun _ h => nomatch h⟩
    rw [List.mem_singleton] at hop
    subst hop
    refine ⟨⟨fun x hx => ?_, fun x hx => ?_⟩, fun x hx => ?_⟩
    · rw [h0 _ x rfl hx]; decide
    · rw [h0 _ x rfl hx]; simp [Calm, ascii]
    · rw [h0 _ x rfl hx]; decide
  · exact ((C90_prints demoShow demoComp 0 demoExist_compiled).2 (by decide +kernel))

/-- Operations on texts without line feeds are plain: `a = "x" OR a = "z"`. -/
example : ∀ e, (alike (ascii "x") (ascii "z")).parse = some e → Plain demoShow e := by
  intro e he
  cases he
  have hs : ∀ (s : List Nat) x, sideText demoShow (some (.val ⟨.str s, true⟩) : Option (Ref demoExt)) = .ok x → x = ascii "(string)" ++ s := by
    intro s x h
    simp only [sideText, refText, fvText] at h
    exact (Res.ok.inj h).symm
  have hn : ∀ x, sideText demoShow (none : Option (Ref demoExt)) = .ok x → x = ascii "@" := fun x h => (Res.ok.inj h).symm
  simp only [Plain, PlainElems, PlainLoops, PlainAfter, and_true, true_and]
  refine ⟨⟨by decide, fun op hop => ?_⟩, fun _ h => nomatch h⟩
  have key : ∀ (b : Nat) (s : List Nat), (∀ c ∈ ascii "(string)" ++ s, c ≠ 10) →
      PlainOp demoShow (⟨b, .equals, none, some (.val ⟨.str s, true⟩)⟩ : Op demoExt) := by
    intro b s h
    refine ⟨⟨fun x hx => ?_, fun x hx => ?_⟩, fun x hx => ?_⟩
    · rw [hn x hx]; decide
    · rw [hn x hx]; simp [Calm, ascii]
    · rw [hs s x hx]; exact h
  simp only [List.mem_cons, List.not_mem_nil, or_false] at hop
  rcases hop with rfl | rfl
  · exact key _ _ (by decide)
  · exact key _ _ (by decide)

end Verif.Transform
