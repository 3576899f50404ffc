import Verif.Transform.Print
import Verif.Transform.ExprText

/-!
# What the printed definition tells

C98 says which parts of a definition can be read off its text: equality of texts gives equality of the tree, the buckets and the number of slots
(for everything that compiles, whatever the constants look like) and, operation by operation, of bucket and operator.
-/

namespace Verif.Transform
open Verif.FastVal Verif.Match Verif.Expr
open Verif.BinTree (Tree NodeType Sh UnOp BinOp Shaped)
open Verif.ExprText (linesOf linesOf_ne linesOf_inj linesOf_one linesOf_feed linesOf_reindent split_margin reindent_inside reindent_inj
  split_at natText_inj natText_digit natText_ne intText_char intText_inj)

variable {E : Ext}

/-! ### The words -/

theorem opTyText_inj {o o' : OpTy} (h : opTyText o = opTyText o') : o = o' := by
  cases o <;> cases o' <;> first | rfl | exact absurd h (by decide)

theorem nodeTyText_inj {o o' : NodeType} (h : nodeTyText o = nodeTyText o') : o = o' := by
  cases o <;> cases o' <;> first | rfl | exact absurd h (by decide)

theorem modeText_inj {m m' : Mode} (h : modeText m = modeText m') : m = m' := by
  cases m <;> cases m' <;> first | rfl | exact absurd h (by decide)

theorem opTyText_blank (o : OpTy) : ∀ c ∈ opTyText o, c ≠ 32 := by cases o <;> decide
theorem nodeTyText_char (o : NodeType) : (∀ c ∈ nodeTyText o, c ≠ 10) ∧ ∃ u c, nodeTyText o = u ++ [c] ∧ c ≠ 10 := by
  cases o
  · exact ⟨by decide, [108, 101, 97], 102, by decide, by decide⟩
  · exact ⟨by decide, [111], 114, by decide, by decide⟩
  · exact ⟨by decide, [97, 110], 100, by decide, by decide⟩
  · exact ⟨by decide, [110, 111], 116, by decide, by decide⟩
  · exact ⟨by decide, [110, 101, 111], 114, by decide, by decide⟩
  · exact ⟨by decide, [108, 111, 111], 112, by decide, by decide⟩

/-! ### Ends of texts -/

/-- The text does not end with a line feed (and is not empty). -/
def Ends (a : List Nat) : Prop := ∃ u c, a = u ++ [c] ∧ c ≠ 10

theorem Ends.append {a : List Nat} (h : Ends a) (b : List Nat) : Ends (b ++ a) := by
  obtain ⟨u, c, rfl, hc⟩ := h
  exact ⟨b ++ u, c, by simp, hc⟩

theorem Ends.reindent {a : List Nat} (h : Ends a) (ind : List Nat) : Ends (reindent ind a) := by
  obtain ⟨u, c, rfl, hc⟩ := h
  refine ⟨ind ++ u.flatMap fun c => if c = 10 then 10 :: ind else [c], c, ?_, hc⟩
  simp [Transform.reindent, hc]

theorem Ends.trim {a : List Nat} (h : Ends a) : trimRight (a ++ [10]) = a := by
  obtain ⟨u, c, rfl, hc⟩ := h
  have : (c == 10) = false := by simpa using hc
  simp [trimRight, List.dropWhile, this]

theorem Ends.nat (n : Nat) : Ends (natText n) := by
  have h1 := natText_ne n
  refine ⟨(natText n).dropLast, (natText n).getLast h1, (List.dropLast_concat_getLast h1).symm, ?_⟩
  have := natText_digit (List.getLast_mem h1)
  omega

/-! ### The lines of a tree -/

def headLine (b par : Nat) (ty : NodeType) : List Nat :=
  ascii "[" ++ (natText b ++ (ascii ":" ++ (natText par ++ (ascii "] " ++ nodeTyText ty))))

def shLines : Sh → Nat → Nat → List (List Nat)
  | .leaf, b, par => [headLine b par .leaf]
  | .un o a, b, par => headLine b par o.ty :: (shLines a (b + 1) b).map (ascii "  " ++ ·)
  | .bin o a c, b, par => headLine b par o.ty :: ((shLines a (b + 1) b).map (ascii "  " ++ ·) ++ (shLines c (b + 1 + a.size) b).map (ascii "  " ++ ·))

theorem headLine_feed (b par : Nat) (ty : NodeType) : ∀ c ∈ headLine b par ty, c ≠ 10 := by
  intro c hc
  simp only [headLine, List.mem_append] at hc
  rcases hc with h | h | h | h | h | h
  · have : c = 91 := by simpa [ascii] using h
    omega
  · have := natText_digit h; omega
  · have : c = 58 := by simpa [ascii] using h
    omega
  · have := natText_digit h; omega
  · have : c = 93 ∨ c = 32 := by simpa [ascii] using h
    omega
  · exact (nodeTyText_char ty).1 c h

theorem headLine_ends (b par : Nat) (ty : NodeType) : Ends (headLine b par ty) := by
  obtain ⟨u, c, h, hc⟩ := (nodeTyText_char ty).2
  exact ((((Ends.append ⟨u, c, h, hc⟩ _).append _).append _).append _).append _

theorem headLine_margin (b par : Nat) (ty : NodeType) : ¬ ExprText.Inside (headLine b par ty) := by
  simp [ExprText.Inside, headLine, ascii]

/-- The line tells the kind of the node. -/
theorem headLine_inj {b b' par par' : Nat} {ty ty' : NodeType} (h : headLine b par ty = headLine b' par' ty') : ty = ty' := by
  have key : ∀ b par ty, headLine b par ty = (ascii "[" ++ natText b ++ ascii ":" ++ natText par ++ ascii "]") ++ 32 :: nodeTyText ty := by
    intro b par ty; simp [headLine, ascii]
  have hP : ∀ b par : Nat, ∀ c ∈ ascii "[" ++ natText b ++ ascii ":" ++ natText par ++ ascii "]", c ≠ 32 := by
    intro b par c hc
    simp only [List.mem_append] at hc
    rcases hc with (((h | h) | h) | h) | h
    · have : c = 91 := by simpa [ascii] using h
      omega
    · have := natText_digit h; omega
    · have : c = 58 := by simpa [ascii] using h
      omega
    · have := natText_digit h; omega
    · have : c = 93 := by simpa [ascii] using h
      omega
  rw [key, key] at h
  exact nodeTyText_inj (split_at (P := fun c => c ≠ 32) (by simp) (hP b par) (hP b' par') h).2

theorem shText_lines : ∀ (s : Sh) (b par : Nat), Ends (shText s b par) ∧ linesOf (shText s b par) = shLines s b par
  | .leaf, b, par => by
    have e : shText .leaf b par = headLine b par .leaf := by
      have : shText .leaf b par = trimRight (headLine b par .leaf ++ [10]) := by simp [shText, headLine, nodeTyText, ascii]
      rw [this, (headLine_ends _ _ _).trim]
    exact ⟨e ▸ headLine_ends .., by rw [e, linesOf_one (headLine_feed b par .leaf)]; rfl⟩
  | .un o a, b, par => by
    obtain ⟨h1, h2⟩ := shText_lines a (b + 1) b
    have he : Ends (headLine b par o.ty ++ 10 :: reindent (ascii "  ") (shText a (b + 1) b)) :=
      ((h1.reindent _).append [10]).append _
    have e : shText (.un o a) b par = headLine b par o.ty ++ 10 :: reindent (ascii "  ") (shText a (b + 1) b) := by
      rw [← he.trim]; simp [shText, headLine]
    refine ⟨e ▸ he, ?_⟩
    rw [e, linesOf_feed, linesOf_one (headLine_feed b par o.ty), linesOf_reindent, h2]
    rfl
  | .bin o a c, b, par => by
    obtain ⟨_, h2⟩ := shText_lines a (b + 1) b
    obtain ⟨h3, h4⟩ := shText_lines c (b + 1 + a.size) b
    have he : Ends (headLine b par o.ty ++ 10 :: (reindent (ascii "  ") (shText a (b + 1) b) ++ 10 :: reindent (ascii "  ") (shText c (b + 1 + a.size) b))) :=
      ((((h3.reindent (ascii "  ")).append [10]).append (reindent (ascii "  ") (shText a (b + 1) b))).append [10]).append (headLine b par o.ty)
    have e : shText (.bin o a c) b par =
        headLine b par o.ty ++ 10 :: (reindent (ascii "  ") (shText a (b + 1) b) ++ 10 :: reindent (ascii "  ") (shText c (b + 1 + a.size) b)) := by
      rw [← he.trim]; simp [shText, headLine]
    refine ⟨e ▸ he, ?_⟩
    rw [e, linesOf_feed, linesOf_feed, linesOf_one (headLine_feed b par o.ty), linesOf_reindent, linesOf_reindent, h2, h4]
    rfl

/-- Below its first line a tree is indented. -/
theorem shLines_cons (s : Sh) (b par : Nat) : ∃ h t, shLines s b par = h :: t ∧ ¬ ExprText.Inside h ∧ ∀ l ∈ t, ExprText.Inside l := by
  cases s with
  | leaf => exact ⟨_, [], rfl, headLine_margin _ _ _, fun _ h => nomatch h⟩
  | un o a =>
    refine ⟨_, _, rfl, headLine_margin _ _ _, ?_⟩
    intro l hl
    obtain ⟨x, _, rfl⟩ := List.mem_map.1 hl
    rfl
  | bin o a c =>
    refine ⟨_, _, rfl, headLine_margin _ _ _, ?_⟩
    intro l hl
    rcases List.mem_append.1 hl with hl | hl
    all_goals
      obtain ⟨x, _, rfl⟩ := List.mem_map.1 hl
      rfl

theorem map_blank_inj {a b : List (List Nat)} (h : a.map (ascii "  " ++ ·) = b.map (ascii "  " ++ ·)) : a = b :=
  (List.map_inj_right fun _ _ h => List.append_cancel_left h).1 h

theorem shLines_inj : ∀ (s s' : Sh) (b b' par par' : Nat), shLines s b par = shLines s' b' par' → s = s'
  | .leaf, s', b, b', par, par', h => by
    cases s' with
    | leaf => rfl
    | un o a =>
      injection h with h _
      have := headLine_inj h
      cases o <;> cases this
    | bin o a c =>
      injection h with h _
      have := headLine_inj h
      cases o <;> cases this
  | .un o a, s', b, b', par, par', h => by
    cases s' with
    | leaf =>
      injection h with h _
      have := headLine_inj h
      cases o <;> cases this
    | un o' a' =>
      injection h with h h2
      have ho := headLine_inj h
      have : o = o' := by cases o <;> cases o' <;> first | rfl | cases ho
      rw [this, shLines_inj a a' _ _ _ _ (map_blank_inj h2)]
    | bin o' a' c' =>
      injection h with h _
      have := headLine_inj h
      cases o <;> cases o' <;> cases this
  | .bin o a c, s', b, b', par, par', h => by
    cases s' with
    | leaf =>
      injection h with h _
      have := headLine_inj h
      cases o <;> cases this
    | un o' a' =>
      injection h with h _
      have := headLine_inj h
      cases o <;> cases o' <;> cases this
    | bin o' a' c' =>
      injection h with h h2
      have ho := headLine_inj h
      have : o = o' := by cases o <;> cases o' <;> first | rfl | cases ho
      subst this
      rw [← List.map_append, ← List.map_append] at h2
      have h2 := map_blank_inj h2
      obtain ⟨x, t, e1, _, e3⟩ := shLines_cons a (b + 1) b
      obtain ⟨x', t', e1', _, e3'⟩ := shLines_cons a' (b' + 1) b'
      obtain ⟨y, u, f1, f2, _⟩ := shLines_cons c (b + 1 + a.size) b
      obtain ⟨y', u', f1', f2', _⟩ := shLines_cons c' (b' + 1 + a'.size) b'
      rw [e1, e1', List.cons_append, List.cons_append] at h2
      injection h2 with g1 g2
      obtain ⟨g3, g4⟩ := split_margin e3 e3' (fun l hl => by rw [f1] at hl; cases hl; exact f2) (fun l hl => by rw [f1'] at hl; cases hl; exact f2') g2
      rw [shLines_inj a a' _ _ _ _ (by rw [e1, e1', g1, g3]), shLines_inj c c' _ _ _ _ g4]

/-- The text of a tree tells the tree. -/
theorem shText_inj {s s' : Sh} {b par b' par' : Nat} (h : shText s b par = shText s' b' par') : s = s' := by
  refine shLines_inj s s' b b' par par' ?_
  rw [← (shText_lines s b par).2, ← (shText_lines s' b' par').2, h]

theorem shaped_unique {t t' : Tree} : ∀ (s : Sh) (b par : Nat), Shaped t s b par → Shaped t' s b par → ∀ i, b ≤ i → i < b + s.size → t[i]? = t'[i]?
  | .leaf, b, par, h, h', i, h1, h2 => by
    have : i = b := by simp only [Sh.size] at h2; omega
    rw [this]; exact h.trans h'.symm
  | .un o a, b, par, h, h', i, h1, h2 => by
    simp only [Sh.size] at h2
    by_cases hi : i = b
    · rw [hi]; exact h.1.trans h'.1.symm
    · exact shaped_unique a (b + 1) b h.2 h'.2 i (by omega) (by omega)
  | .bin o a c, b, par, h, h', i, h1, h2 => by
    simp only [Sh.size] at h2
    by_cases hi : i = b
    · rw [hi]; exact h.1.trans h'.1.symm
    · by_cases hi2 : i < b + 1 + a.size
      · exact shaped_unique a (b + 1) b h.2.1 h'.2.1 i (by omega) (by omega)
      · exact shaped_unique c (b + 1 + a.size) b h.2.2 h'.2.2 i (by omega) (by omega)

/-! ### The lines of a definition -/

def bLines : Nat → List Int → List (List Nat)
  | _, [] => []
  | i, b :: r => (ascii "  " ++ (natText i ++ (ascii ": " ++ intText b))) :: bLines (i + 1) r

theorem intText_feed (z : Int) : ∀ c ∈ intText z, c ≠ 10 := by
  intro c hc
  have := intText_char hc
  omega

theorem natText_feed (n : Nat) : ∀ c ∈ natText n, c ≠ 10 := by
  intro c hc
  have := natText_digit hc
  omega

theorem bucketLines_lines (u : List Nat) : ∀ (bs : List Int) (i : Nat), linesOf (bucketLines i bs ++ u) = bLines i bs ++ linesOf u
  | [], _ => rfl
  | b :: r, i => by
    have e : bucketLines i (b :: r) ++ u = (ascii "  " ++ (natText i ++ (ascii ": " ++ intText b))) ++ 10 :: (bucketLines (i + 1) r ++ u) := by
      simp [bucketLines]
    have hf : ∀ c ∈ ascii "  " ++ (natText i ++ (ascii ": " ++ intText b)), c ≠ 10 := by
      intro c hc
      simp only [List.mem_append] at hc
      rcases hc with h | h | h | h
      · have : c = 32 := by simpa [ascii] using h
        omega
      · exact natText_feed _ c h
      · have : c = 58 ∨ c = 32 := by simpa [ascii] using h
        omega
      · exact intText_feed _ c h
    rw [e, linesOf_feed, linesOf_one hf, bucketLines_lines u r (i + 1)]
    rfl

theorem bLines_inj : ∀ (bs bs' : List Int) (i : Nat), bLines i bs = bLines i bs' → bs = bs'
  | [], [], _, _ => rfl
  | [], _ :: _, _, h => nomatch h
  | _ :: _, [], _, h => nomatch h
  | b :: r, b' :: r', i, h => by
    injection h with h1 h2
    rw [intText_inj (List.append_cancel_left (List.append_cancel_left (List.append_cancel_left h1))), bLines_inj r r' _ h2]

theorem bLines_inside : ∀ (bs : List Int) (i : Nat), ∀ l ∈ bLines i bs, ExprText.Inside l
  | [], _, _, h => nomatch h
  | b :: r, i, l, h => by
    cases h with
    | head => rfl
    | tail _ h => exact bLines_inside r (i + 1) l h

theorem reindent4 (s : List Nat) : reindent (ascii "    ") s = reindent (ascii "  ") (reindent (ascii "  ") s) := by
  have : ∀ s : List Nat, (s.flatMap fun c => if c = 10 then 10 :: ascii "    " else [c]) =
      (s.flatMap fun c => if c = 10 then 10 :: ascii "  " else [c]).flatMap fun c => if c = 10 then 10 :: ascii "  " else [c] := by
    intro s
    induction s with
    | nil => rfl
    | cons c r ih =>
      rw [List.flatMap_cons, List.flatMap_cons, List.flatMap_append, ih]
      congr 1
      by_cases hc : c = 10
      · rw [if_pos hc, if_pos hc]; simp [ascii]
      · rw [if_neg hc, if_neg hc]; simp [hc]
  rw [reindent, this, reindent, reindent, List.flatMap_append]
  simp [ascii]

def defLines (x y : List Nat) (bs : List Int) (n k : Nat) : List (List Nat) :=
  ascii "match tree:" :: ((ascii "  $doc:" :: linesOf (reindent (ascii "  ") (reindent (ascii "  ") x))) ++ (ascii "bin tree:" ::
    (linesOf (reindent (ascii "  ") y) ++ (ascii "match buckets:" :: (bLines 0 bs ++ [ascii "num buckets: " ++ natText n, ascii "num slots: " ++ natText k])))))

theorem linesOf_line {a b : List Nat} (ha : ∀ c ∈ a, c ≠ 10) : linesOf (a ++ 10 :: b) = a :: linesOf b := by
  rw [linesOf_feed, linesOf_one ha]; rfl

theorem defText_lines (x y : List Nat) (bs : List Int) (n k : Nat) :
    linesOf (trimRight (ascii "match tree:\n  $doc:\n" ++ reindent (ascii "    ") x ++ ascii "\nbin tree:\n" ++ reindent (ascii "  ") y ++
      ascii "\nmatch buckets:\n" ++ bucketLines 0 bs ++ ascii "num buckets: " ++ natText n ++ ascii "\nnum slots: " ++ natText k ++ [10])) =
    defLines x y bs n k := by
  have he := (Ends.nat k).append (ascii "match tree:\n  $doc:\n" ++ reindent (ascii "    ") x ++ ascii "\nbin tree:\n" ++ reindent (ascii "  ") y ++
      ascii "\nmatch buckets:\n" ++ bucketLines 0 bs ++ ascii "num buckets: " ++ natText n ++ ascii "\nnum slots: ")
  rw [he.trim]
  have e : ascii "match tree:\n  $doc:\n" ++ reindent (ascii "    ") x ++ ascii "\nbin tree:\n" ++ reindent (ascii "  ") y ++
      ascii "\nmatch buckets:\n" ++ bucketLines 0 bs ++ ascii "num buckets: " ++ natText n ++ ascii "\nnum slots: " ++ natText k =
      ascii "match tree:" ++ 10 :: (ascii "  $doc:" ++ 10 :: (reindent (ascii "  ") (reindent (ascii "  ") x) ++ 10 :: (ascii "bin tree:" ++ 10 ::
        (reindent (ascii "  ") y ++ 10 :: (ascii "match buckets:" ++ 10 :: (bucketLines 0 bs ++ ((ascii "num buckets: " ++ natText n) ++ 10 ::
          (ascii "num slots: " ++ natText k)))))))) := by
    rw [reindent4]
    have a1 : ascii "match tree:\n  $doc:\n" = ascii "match tree:" ++ 10 :: (ascii "  $doc:" ++ [10]) := by decide
    have a2 : ascii "\nbin tree:\n" = 10 :: (ascii "bin tree:" ++ [10]) := by decide
    have a3 : ascii "\nmatch buckets:\n" = 10 :: (ascii "match buckets:" ++ [10]) := by decide
    have a4 : ascii "\nnum slots: " = 10 :: ascii "num slots: " := by decide
    rw [a1, a2, a3, a4]
    simp only [List.append_assoc, List.cons_append, List.nil_append]
  have w : ∀ (a : List Nat) (n : Nat), (∀ c ∈ a, c ≠ 10) → ∀ c ∈ a ++ natText n, c ≠ 10 := by
    intro a n ha c hc
    rcases List.mem_append.1 hc with h | h
    · exact ha c h
    · exact natText_feed n c h
  rw [e, linesOf_line (by decide), linesOf_line (by decide), linesOf_feed, linesOf_line (by decide), linesOf_feed, linesOf_line (by decide),
    bucketLines_lines, linesOf_line (w _ n (by decide)), linesOf_one (w _ k (by decide))]
  rfl

theorem defLines_inj {x x' y y' : List Nat} {bs bs' : List Int} {n n' k k' : Nat} (h : defLines x y bs n k = defLines x' y' bs' n' k') :
    x = x' ∧ y = y' ∧ bs = bs' ∧ n = n' ∧ k = k' := by
  unfold defLines at h
  injection h with _ h
  have hin : ∀ x : List Nat, ∀ l ∈ ascii "  $doc:" :: linesOf (reindent (ascii "  ") (reindent (ascii "  ") x)), ExprText.Inside l := by
    intro x l hl
    cases hl with
    | head => decide
    | tail _ hl => exact reindent_inside _ l hl
  have hm : ∀ {w : List Nat} {r : List (List Nat)}, ¬ ExprText.Inside w → ∀ l, (w :: r).head? = some l → ¬ ExprText.Inside l := by
    intro w r hw l hl; cases hl; exact hw
  obtain ⟨h1, h2⟩ := split_margin (hin x) (hin x') (hm (by decide)) (hm (by decide)) h
  injection h1 with _ h1
  injection h2 with _ h2
  obtain ⟨h3, h4⟩ := split_margin (reindent_inside y) (reindent_inside y') (hm (by decide)) (hm (by decide)) h2
  injection h4 with _ h4
  have hb : ∀ n k : Nat, ∀ l, [ascii "num buckets: " ++ natText n, ascii "num slots: " ++ natText k].head? = some l → ¬ ExprText.Inside l := by
    intro n k
    exact hm (by simp [ExprText.Inside, ascii])
  obtain ⟨h5, h6⟩ := split_margin (bLines_inside bs 0) (bLines_inside bs' 0) (hb n k) (hb n' k') h4
  injection h6 with h6 h7
  injection h7 with h7 _
  refine ⟨reindent_inj (congrArg linesOf (reindent_inj h1)), reindent_inj h3, bLines_inj bs bs' 0 h5, natText_inj (List.append_cancel_left h6),
    natText_inj (List.append_cancel_left h7)⟩

/-! ### C98 -/

/-- **C98.**  Whatever was compiled: if two definitions are printed alike, their trees, their buckets and their numbers of slots are the same, and
so are the texts of their parse trees. -/
theorem C98_definition (S : Show E) (C C' : Comp E) (slot0 slot0' : Nat) {es es' : List (Expr E)} {df df' : Def E} (h : transform C slot0 es = .ok df)
    (h' : transform C' slot0' es' = .ok df') {text : List Nat} (ht : defText S df = .ok text) (ht' : defText S df' = .ok text) :
    df.tree = df'.tree ∧ df.buckets = df'.buckets ∧ df.numSlots = df'.numSlots ∧
    ∃ e e' x, df.parse = some e ∧ df'.parse = some e' ∧ execText S e = .ok x ∧ execText S e' = .ok x := by
  have key : ∀ {C : Comp E} {slot0 : Nat} {es : List (Expr E)} {df : Def E}, transform C slot0 es = .ok df → defText S df = .ok text →
      ∃ e x s, df.parse = some e ∧ execText S e = .ok x ∧ Shaped df.tree s 0 0 ∧ df.tree.length = s.size ∧
        linesOf text = defLines x (shText s 0 0) df.buckets df.tree.length df.numSlots := by
    intro C slot0 es df h ht
    cases hes : genExprs es with
    | nil =>
      rw [(C90_prints S C slot0 h).1.2 (.inl (fun e he => ?_))] at ht
      · cases ht
      · apply Classical.byContradiction
        intro hn
        have := (mem_genExprs e es).2 ⟨he, by simpa [NotConst, not_or] using hn⟩
        rw [hes] at this
        cases this
    | cons g gs =>
      obtain ⟨h1, h2, _⟩ := C07_tree C slot0 es hes h
      unfold defText at ht
      cases hp : df.parse with
      | none => rw [hp] at ht; cases ht
      | some e =>
        rw [hp] at ht
        simp only at ht
        obtain ⟨x, hx, ht⟩ := Res.bind_eq_ok.1 ht
        rw [C90_tree C slot0 es hes h, Res.bind_ok] at ht
        refine ⟨e, x, _, rfl, hx, h1, h2, ?_⟩
        rw [← defText_lines]
        exact congrArg linesOf (Res.ok.inj ht).symm
  obtain ⟨e, x, s, h1, h2, h3, h4, h5⟩ := key h ht
  obtain ⟨e', x', s', h1', h2', h3', h4', h5'⟩ := key h' ht'
  obtain ⟨g1, g2, g3, g4, g5⟩ := defLines_inj (h5.symm.trans h5')
  subst g1
  have := shText_inj g2
  subst this
  refine ⟨List.ext_getElem? fun i => ?_, g3, g5, e, e', x, h1, h1', h2, h2'⟩
  by_cases hi : i < s.size
  · exact shaped_unique s 0 0 h3 h3' i (by omega) (by omega)
  · rw [List.getElem?_eq_none (by omega), List.getElem?_eq_none (by omega)]

/-- Two operations whose operands are printed without blanks and that are printed alike: same bucket, same operator, same texts of the operands. -/
theorem C98_operation (S : Show E) {op op' : Op E} {l l' r r' text : List Nat} (hl : sideText S op.lhs = .ok l) (hl' : sideText S op'.lhs = .ok l')
    (hr : sideText S op.rhs = .ok r) (hr' : sideText S op'.rhs = .ok r') (bl : ∀ c ∈ l, c ≠ 32) (bl' : ∀ c ∈ l', c ≠ 32)
    (ht : opText S op = .ok text) (ht' : opText S op' = .ok text) : op.bucket = op'.bucket ∧ op.op = op'.op ∧ l = l' ∧ r = r' := by
  rw [opText, hl, hr, Res.bind_ok, Res.bind_ok] at ht
  rw [opText, hl', hr', Res.bind_ok, Res.bind_ok] at ht'
  have h := (Res.ok.inj ht).trans (Res.ok.inj ht').symm
  have e : ∀ (b : Nat) (l w r : List Nat), ascii "[" ++ natText b ++ ascii "] " ++ l ++ ascii " " ++ w ++ ascii " " ++ r =
      ascii "[" ++ (natText b ++ 93 :: 32 :: (l ++ 32 :: (w ++ 32 :: r))) := by
    intro b l w r; simp [ascii]
  rw [e, e] at h
  have h := List.append_cancel_left h
  have hd : ∀ n, ∀ c ∈ natText n, c ≠ 93 := by
    intro n c hc; have := natText_digit hc; omega
  obtain ⟨h1, h2⟩ := split_at (P := fun c => c ≠ 93) (by simp) (hd _) (hd _) h
  injection h2 with _ h2
  obtain ⟨h3, h4⟩ := split_at (P := fun c => c ≠ 32) (by simp) bl bl' h2
  obtain ⟨h5, h6⟩ := split_at (P := fun c => c ≠ 32) (by simp) (opTyText_blank _) (opTyText_blank _) h4
  exact ⟨natText_inj h1, opTyText_inj h5, h3, h6⟩

/-! ### Examples -/

/-- `a != 1` and `NOT a = 1` are printed alike. -/
example : (transform demoComp 0 [.cmp .ne fieldA one] >>= fun df => transform demoComp 0 [.not (.cmp .eq fieldA one)] >>= fun df' =>
    defText demoShow df >>= fun x => defText demoShow df' >>= fun y => Res.ok (decide (x = y))) = .ok true := by
  decide +kernel

/-- An operation as in `C98_operation`. -/
example : opText demoShow (⟨0, .lessThan, none, some (.slot 1)⟩ : Op demoExt) = .ok (ascii "[0] @ lt $1") ∧
    sideText demoShow (none : Option (Ref demoExt)) = .ok (ascii "@") ∧ ∀ c ∈ ascii "@", c ≠ 32 := by decide +kernel

/-- A line feed in a constant reads like the end of an operation. -/
theorem block_shift (title a b c : List Nat) : block title [a ++ 10 :: b, c] = block title [a, b ++ 10 :: c] := by
  simp [block, reindent]

/-- The definition of `a = s OR a = t`. -/
def alike (s t : List Nat) : Def demoExt :=
  ⟨some (.mk 0 (.cons [97] (.mk 0 .nil [⟨1, .equals, none, some (.val ⟨.str s, true⟩)⟩, ⟨2, .equals, none, some (.val ⟨.str t, true⟩)⟩] .nil .none) .nil) [] .nil .none),
   [⟨.or, 0, 1, 2⟩, ⟨.leaf, 0, 0, 0⟩, ⟨.leaf, 0, 0, 0⟩], [0], 0⟩

/-- More than that the text does not tell: constants may contain line feeds.  The definition of `a = "x⏎[2] @ eq (string)y" OR a = "z"` is printed
like that of `a = "x" OR a = "y⏎[2] @ eq (string)z"`, and only the first matches `{"a":"z"}`. -/
theorem C98_negation :
    defText demoShow (alike (ascii "x" ++ 10 :: ascii "[2] @ eq (string)y") (ascii "z")) =
      defText demoShow (alike (ascii "x") (ascii "y" ++ 10 :: ascii "[2] @ eq (string)z")) ∧
    ((let df := alike (ascii "x" ++ 10 :: ascii "[2] @ eq (string)y") (ascii "z")
      run demoFns df (newMatcher df) (ascii "{\"a\":\"z\"}")) >>= fun r => Res.ok r.1) = .ok (some true) ∧
    ((let df := alike (ascii "x") (ascii "y" ++ 10 :: ascii "[2] @ eq (string)z")
      run demoFns df (newMatcher df) (ascii "{\"a\":\"z\"}")) >>= fun r => Res.ok r.1) = .ok (some false) := by
  refine ⟨?_, by decide +kernel, by decide +kernel⟩
  have e1 : ∀ (i : Nat) (s : List Nat), opText demoShow (⟨i, .equals, none, some (.val ⟨.str s, true⟩)⟩ : Op demoExt) =
      .ok (ascii "[" ++ natText i ++ ascii "] @ eq (string)" ++ s) := by
    intro i s; simp [opText, sideText, refText, fvText, opTyText, Res.bind_ok, ascii]
  simp only [defText, alike, execText, elemsText, loopsText, afterText, opsText, e1, Res.bind_ok]
  have key := block_shift (ascii ":ops\n") (ascii "[" ++ natText 1 ++ ascii "] @ eq (string)" ++ ascii "x") (ascii "[2] @ eq (string)y")
    (ascii "[2] @ eq (string)z")
  have f1 : ascii "[" ++ natText 2 ++ ascii "] @ eq (string)" ++ ascii "z" = ascii "[2] @ eq (string)z" := by decide
  have f2 : ascii "[" ++ natText 2 ++ ascii "] @ eq (string)" ++ (ascii "y" ++ 10 :: ascii "[2] @ eq (string)z") =
      ascii "[2] @ eq (string)y" ++ 10 :: ascii "[2] @ eq (string)z" := by decide
  rw [f1, f2, ← List.append_assoc (ascii "[" ++ natText 1 ++ ascii "] @ eq (string)") (ascii "x"), key]

end Verif.Transform
