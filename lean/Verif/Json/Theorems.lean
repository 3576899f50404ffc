import Verif.Json.Spec
import Verif.Match.Theorems

/-!
# C30: the JSON format of expressions
-/

namespace Verif.Json
open Verif.FastVal Verif.Match Verif.Expr

variable {E : Ext}

/-! ### Tags -/

def nameOf : Tag → String
  | .value => "value" | .field => "field" | .func => "func" | .not => "not" | .or => "or" | .and => "and"
  | .anyin => "anyin" | .everyin => "everyin" | .anyeveryin => "anyeveryin" | .exist => "exists"
  | .notexist => "notexists" | .equals => "equals" | .notequals => "notequals" | .lessthan => "lessthan"
  | .lessequals => "lessequals" | .greaterthan => "greaterthan" | .greaterequals => "greaterequals" | .like => "like"
  | .regex => "regex" | .time => "time"

theorem tagOf_name (t : Tag) : tagOf (ascii (nameOf t)) = some t := by
  cases t <;> decide +kernel

theorem tagOf_inv (s : List Nat) (t : Tag) (h : tagOf s = some t) : s = ascii (nameOf t) := by
  unfold tagOf at h
  cases hf : tagTable.find? (fun p => ascii p.1 = s) with
  | none => rw [hf] at h; exact nomatch h
  | some p =>
    rw [hf] at h
    have h1 := List.find?_some hf
    have h2 := List.mem_of_find?_eq_some hf
    simp only [Option.map_some, Option.some.injEq] at h
    have h3 : ascii p.1 = s := of_decide_eq_true h1
    have h4 : ∀ q ∈ tagTable, q.1 = nameOf q.2 := by decide +kernel
    rw [← h3, h4 p h2, h]

def Mode.tag : Mode → Tag
  | .any => .anyin
  | .every => .everyin
  | .anyEvery => .anyeveryin

def cmpT : Cmp → Tag
  | .eq => .equals
  | .ne => .notequals
  | .lt => .lessthan
  | .le => .lessequals
  | .gt => .greaterthan
  | .ge => .greaterequals
  | .like => .like

theorem parseSub_tag (vt : List Nat → Bool) (t : Tag) (r : Js E) :
    parseSub vt (.cons (tg (nameOf t)) r) = build vt (partsOf vt r) t := by
  rw [parseSub.eq_def]
  simp only [tg, tagOf_name]

theorem parseSub_cmp (vt : List Nat → Bool) (c : Cmp) (r : Js E) :
    parseSub vt (.cons (tg (cmpTag c)) r) = aCmp c (partsOf vt r) := by
  cases c
  · exact parseSub_tag vt .equals r
  · exact parseSub_tag vt .notequals r
  · exact parseSub_tag vt .lessthan r
  · exact parseSub_tag vt .lessequals r
  · exact parseSub_tag vt .greaterthan r
  · exact parseSub_tag vt .greaterequals r
  · exact parseSub_tag vt .like r

theorem parseSub_loop (vt : List Nat → Bool) (m : Mode) (r : Js E) :
    parseSub vt (.cons (tg (modeTag m)) r) = aLoop m (partsOf vt r) := by
  cases m
  · exact parseSub_tag vt .anyin r
  · exact parseSub_tag vt .everyin r
  · exact parseSub_tag vt .anyeveryin r

/-! ### Parts -/

theorem partsOf_arr (vt : List Nat → Bool) (d r : Js E) :
    partsOf vt (.cons (.arr d) r) = ⟨.arr d, some (parseSub vt d)⟩ :: partsOf vt r := by
  rw [partsOf.eq_def]; simp only []; rw [partOf.eq_def]

theorem partsOf_cons (vt : List Nat → Bool) (v : J E) (r : Js E) :
    partsOf vt (.cons v r) = ⟨v, partOf vt v⟩ :: partsOf vt r := by
  rw [partsOf.eq_def]

theorem partsOf_nil (vt : List Nat → Bool) : partsOf (E := E) vt .nil = [] := by rw [partsOf.eq_def]

theorem pathOf_strs (vt : List Nat → Bool) : ∀ p : List (List Nat), pathOf (partsOf vt (strs (E := E) p)) = some p
  | [] => by rw [strs, partsOf_nil, pathOf]
  | k :: p => by
    rw [strs, partsOf_cons, pathOf]
    simp only [pathOf_strs vt p, Option.map_some]

theorem pathOf_inv (vt : List Nat → Bool) : ∀ (r : Js E) (p : List (List Nat)), pathOf (partsOf vt r) = some p → r = strs p
  | .nil, p, h => by
    rw [partsOf_nil, pathOf] at h
    cases h; rfl
  | .cons v r, p, h => by
    rw [partsOf_cons, pathOf] at h
    cases v with
    | str s =>
      simp only [] at h
      cases hp : pathOf (partsOf vt r) with
      | none => rw [hp] at h; exact nomatch h
      | some q =>
        rw [hp] at h
        cases h
        rw [strs, ← pathOf_inv vt r q hp]
    | _ => exact nomatch h

/-! ### Everything the format denotes is parsed -/

theorem bindE_some {α β : Type} (a : α) (f : α → Res (Option β)) : bindE (.ok (some a)) f = f a := rfl

mutual
  theorem parse_enc (vt : List Nat → Bool) {S : Js E → Prop} {L : Prop} :
      ∀ (e : Expr E) (d : Js E), Enc S L vt e d → parseSub vt d = .ok (some e)
    | _, _, .value v r _ => by rw [show tg "value" = tg (nameOf .value) from rfl, parseSub_tag, partsOf_cons]; rfl
    | _, _, .regex v r _ => by rw [show tg "regex" = tg (nameOf .regex) from rfl, parseSub_tag, partsOf_cons]; rfl
    | _, _, .time v r _ hv => by
      rw [show tg "time" = tg (nameOf .time) from rfl, parseSub_tag, partsOf_cons]
      cases v with
      | str s =>
        show (if vt s = true then _ else _) = _
        rw [if_pos (hv s rfl)]
      | _ => rfl
    | _, _, .docField k path => by
      rw [show tg "field" = tg (nameOf .field) from rfl, parseSub_tag]
      have h := pathOf_strs (E := E) vt (k :: path)
      rw [strs, partsOf_cons] at h ⊢
      show Res.ok (Option.map _ (pathOf _)) = _
      rw [h]; rfl
    | _, _, .field f path => by
      rw [show tg "field" = tg (nameOf .field) from rfl, parseSub_tag, partsOf_cons]
      show Res.ok (Option.map _ (pathOf (partsOf vt (strs path)))) = _
      rw [pathOf_strs]; rfl
    | _, _, .func name es ds h => by
      rw [show tg "func" = tg (nameOf .func) from rfl, parseSub_tag, partsOf_cons]
      show bindE (paramsOf (partsOf vt ds)) _ = _
      rw [(parse_encL vt es ds h).1]; rfl
    | _, _, .anon e es d ds _ h1 h2 => by
      rw [show tg "func" = tg (nameOf .func) from rfl, parseSub_tag, partsOf_arr]
      show bindE (bindE (parseSub vt d) fun e => bindE (paramsOf (partsOf vt ds)) _) _ = _
      rw [parse_enc vt e d h1, (parse_encL vt es ds h2).1]; rfl
    | _, _, .not e d r _ h => by
      rw [show tg "not" = tg (nameOf .not) from rfl, parseSub_tag, partsOf_arr]
      show bindE (parseSub vt d) _ = _
      rw [parse_enc vt e d h]; rfl
    | _, _, .exist e d r _ h => by
      rw [show tg "exists" = tg (nameOf .exist) from rfl, parseSub_tag, partsOf_arr]
      show bindE (parseSub vt d) _ = _
      rw [parse_enc vt e d h]; rfl
    | _, _, .notExist e d r _ h => by
      rw [show tg "notexists" = tg (nameOf .notexist) from rfl, parseSub_tag, partsOf_arr]
      show bindE (parseSub vt d) _ = _
      rw [parse_enc vt e d h]; rfl
    | _, _, .or es ds h => by
      rw [show tg "or" = tg (nameOf .or) from rfl, parseSub_tag]
      show bindE (listOf (partsOf vt ds)) _ = _
      rw [(parse_encL vt es ds h).2]; rfl
    | _, _, .and es ds h => by
      rw [show tg "and" = tg (nameOf .and) from rfl, parseSub_tag]
      show bindE (listOf (partsOf vt ds)) _ = _
      rw [(parse_encL vt es ds h).2]; rfl
    | _, _, .cmp c l r dl dr s _ hl hr => by
      rw [parseSub_cmp, partsOf_arr, partsOf_arr]
      show bindE (parseSub vt dl) (fun l => bindE (parseSub vt dr) _) = _
      rw [parse_enc vt l dl hl, parse_enc vt r dr hr]; rfl
    | _, _, .loop m f i b di db s _ hi hb => by
      rw [parseSub_loop, partsOf_cons, partsOf_arr, partsOf_arr]
      show bindE (parseSub vt di) (fun l => bindE (parseSub vt db) _) = _
      rw [parse_enc vt i di hi, parse_enc vt b db hb]; rfl

  theorem parse_encL (vt : List Nat → Bool) {S : Js E → Prop} {L : Prop} :
      ∀ (es : Exprs E) (ds : Js E), EncL S L vt es ds →
        paramsOf (partsOf vt ds) = .ok (some es) ∧ listOf (partsOf vt ds) = .ok (some es)
    | _, _, .nil => by rw [partsOf_nil]; exact ⟨rfl, rfl⟩
    | _, _, .cons e es d ds h1 h2 => by
      rw [partsOf_arr]
      have ⟨a, b⟩ := parse_encL vt es ds h2
      constructor
      · show bindE (parseSub vt d) (fun e => bindE (paramsOf (partsOf vt ds)) _) = _
        rw [parse_enc vt e d h1, a]; rfl
      · show bindE (parseSub vt d) (fun e => bindE (listOf (partsOf vt ds)) _) = _
        rw [parse_enc vt e d h1, b]; rfl
end

/-! ### Everything that is accepted is denoted -/

theorem bindE_inv {α β : Type} {x : Res (Option α)} {f : α → Res (Option β)} {b : β} (h : bindE x f = .ok (some b)) :
    ∃ a, x = .ok (some a) ∧ f a = .ok (some b) := by
  cases x with
  | ok r => cases r with
    | none => exact nomatch h
    | some a => exact ⟨a, rfl, h⟩
  | panic => exact nomatch h
  | stuck => exact nomatch h

theorem idx0_cons {α : Type} (x : α) (xs : List α) : Res.idx (x :: xs) 0 = .ok x := rfl
theorem idx0_nil {α : Type} : Res.idx ([] : List α) 0 = .panic := rfl

/-- The part is an array that parses. -/
theorem part_inv (vt : List Nat → Bool) (v : J E) (r : Res (Option (Expr E))) (h : partOf vt v = some r) :
    ∃ d, v = .arr d ∧ r = parseSub vt d := by
  cases v with
  | arr d => rw [partOf.eq_def] at h; cases h; exact ⟨d, rfl, rfl⟩
  | _ => rw [partOf.eq_def] at h; exact nomatch h

/-- `e` is denoted by one of the arrays in a value or a list. -/
abbrev Ok (vt : List Nat → Bool) (d : Js E) : Prop := ∀ e, parseSub vt d = .ok (some e) → Lenient vt e d

/-- All the arrays directly inside `r` are parsed correctly. -/
def Okl (vt : List Nat → Bool) : Js E → Prop
  | .nil => True
  | .cons (.arr d) r => Ok vt d ∧ Okl vt r
  | .cons _ r => Okl vt r

theorem Okl.tail {vt : List Nat → Bool} {v : J E} {r : Js E} (h : Okl vt (.cons v r)) : Okl vt r := by
  cases v <;> first | exact h.2 | exact h

theorem Okl.head {vt : List Nat → Bool} {d : Js E} {r : Js E} (h : Okl vt (.cons (.arr d) r)) : Ok vt d := h.1

theorem params_inv (vt : List Nat → Bool) : ∀ (r : Js E) (es : Exprs E), Okl vt r →
    (paramsOf (partsOf vt r) = .ok (some es) ∨ listOf (partsOf vt r) = .ok (some es)) →
      EncL (fun _ => True) True vt es r
  | .nil, es, _, h => by
    rw [partsOf_nil] at h
    rcases h with h | h <;> (cases h; exact .nil)
  | .cons v r, es, ho, h => by
    rw [partsOf_cons] at h
    cases hp : partOf vt v with
    | none =>
      rw [paramsOf, listOf] at h
      simp only [hp] at h
      rcases h with h | h <;> exact nomatch h
    | some x =>
      obtain ⟨d, rfl, rfl⟩ := part_inv vt v x hp
      rw [paramsOf, listOf] at h
      simp only [hp] at h
      rcases h with h | h
      · obtain ⟨e, h1, h2⟩ := bindE_inv h
        obtain ⟨es', h3, h4⟩ := bindE_inv h2
        cases h4
        exact .cons e es' d r (ho.head e h1) (params_inv vt r es' ho.tail (.inl h3))
      · obtain ⟨e, h1, h2⟩ := bindE_inv h
        obtain ⟨es', h3, h4⟩ := bindE_inv h2
        cases h4
        exact .cons e es' d r (ho.head e h1) (params_inv vt r es' ho.tail (.inr h3))

theorem unary_inv (vt : List Nat → Bool) (mk : Expr E → Expr E) (r : Js E) (e : Expr E) (ho : Okl vt r)
    (h : aUnary mk (partsOf vt r) = .ok (some e)) :
    ∃ d s e', r = .cons (.arr d) s ∧ e = mk e' ∧ Lenient vt e' d := by
  cases r with
  | nil => rw [partsOf_nil] at h; exact nomatch h
  | cons v s =>
    rw [partsOf_cons] at h
    simp only [aUnary, idx0_cons, Res.bind_ok] at h
    cases hp : partOf vt v with
    | none => simp only [hp] at h; exact nomatch h
    | some x =>
      obtain ⟨d, rfl, rfl⟩ := part_inv vt v x hp
      simp only [hp] at h
      obtain ⟨e', h1, h2⟩ := bindE_inv h
      cases h2
      exact ⟨d, s, e', rfl, rfl, ho.head e' h1⟩

theorem cmp_inv (vt : List Nat → Bool) (c : Cmp) (r : Js E) (e : Expr E) (ho : Okl vt r)
    (h : aCmp c (partsOf vt r) = .ok (some e)) :
    Lenient vt e (.cons (tg (cmpTag c)) r) := by
  cases r with
  | nil => rw [partsOf_nil] at h; exact nomatch h
  | cons v s =>
    rw [partsOf_cons] at h
    simp only [aCmp, idx0_cons, Res.bind_ok] at h
    cases hp : partOf vt v with
    | none => simp only [hp] at h; exact nomatch h
    | some x =>
      obtain ⟨d, rfl, rfl⟩ := part_inv vt v x hp
      simp only [hp] at h
      cases s with
      | nil => rw [partsOf_nil] at h; exact nomatch h
      | cons v2 s =>
        rw [partsOf_cons] at h
        simp only [Res.idx, List.getElem?_cons_succ, List.getElem?_cons_zero, Res.bind_ok] at h
        cases hp2 : partOf vt v2 with
        | none => simp only [hp2] at h; exact nomatch h
        | some x2 =>
          obtain ⟨d2, rfl, rfl⟩ := part_inv vt v2 x2 hp2
          simp only [hp2] at h
          obtain ⟨l, h1, h2⟩ := bindE_inv h
          obtain ⟨r, h3, h4⟩ := bindE_inv h2
          cases h4
          exact .cmp c l r d d2 s trivial (ho.head l h1) (ho.tail.head r h3)

theorem loop_inv (vt : List Nat → Bool) (m : Mode) (r : Js E) (e : Expr E) (ho : Okl vt r)
    (h : aLoop m (partsOf vt r) = .ok (some e)) :
    Lenient vt e (.cons (tg (modeTag m)) r) := by
  cases r with
  | nil => rw [partsOf_nil] at h; exact nomatch h
  | cons v s =>
    rw [partsOf_cons] at h
    simp only [aLoop, idx0_cons, Res.bind_ok] at h
    cases v with
    | num f =>
      simp only [] at h
      cases s with
      | nil => rw [partsOf_nil] at h; exact nomatch h
      | cons v1 s =>
        rw [partsOf_cons] at h
        simp only [Res.idx, List.getElem?_cons_succ, List.getElem?_cons_zero, Res.bind_ok] at h
        cases hp : partOf vt v1 with
        | none => simp only [hp] at h; exact nomatch h
        | some x =>
          obtain ⟨d, rfl, rfl⟩ := part_inv vt v1 x hp
          simp only [hp] at h
          cases s with
          | nil => rw [partsOf_nil] at h; exact nomatch h
          | cons v2 s =>
            rw [partsOf_cons] at h
            simp only [List.getElem?_cons_zero, Res.bind_ok] at h
            cases hp2 : partOf vt v2 with
            | none => simp only [hp2] at h; exact nomatch h
            | some x2 =>
              obtain ⟨d2, rfl, rfl⟩ := part_inv vt v2 x2 hp2
              simp only [hp2] at h
              obtain ⟨l, h1, h2⟩ := bindE_inv h
              obtain ⟨r, h3, h4⟩ := bindE_inv h2
              cases h4
              exact .loop m f l r d d2 s trivial (ho.tail.head l h1) (ho.tail.tail.head r h3)
    | _ => exact nomatch h

theorem build_inv (vt : List Nat → Bool) (r : Js E) (t : Tag) (e : Expr E) (ho : Okl vt r)
    (h : build vt (partsOf vt r) t = .ok (some e)) : Lenient vt e (.cons (tg (nameOf t)) r) := by
  cases t with
  | value =>
    cases r with
    | nil => rw [partsOf_nil] at h; exact nomatch h
    | cons v s => rw [partsOf_cons] at h; cases h; exact .value v s trivial
  | regex =>
    cases r with
    | nil => rw [partsOf_nil] at h; exact nomatch h
    | cons v s => rw [partsOf_cons] at h; cases h; exact .regex v s trivial
  | time =>
    cases r with
    | nil => rw [partsOf_nil] at h; exact nomatch h
    | cons v s =>
      rw [partsOf_cons] at h
      cases v with
      | str x =>
        by_cases hx : vt x = true
        · simp only [build, aTime, idx0_cons, Res.bind_ok, if_pos hx] at h
          cases h
          exact .time _ s trivial (fun s hs => by cases hs; exact hx)
        · simp only [build, aTime, idx0_cons, Res.bind_ok, if_neg hx] at h
          exact nomatch h
      | _ => cases h; exact .time _ s trivial (fun s hs => nomatch hs)
  | field =>
    cases r with
    | nil => rw [partsOf_nil] at h; exact nomatch h
    | cons v s =>
      have hfld : ∀ (hn : aField (partsOf vt (.cons v s)) =
          .ok ((pathOf (partsOf vt (.cons v s))).map fun path => Expr.field ⟨0, path⟩)),
          Lenient vt e (.cons (tg (nameOf .field)) (.cons v s)) := by
        intro hn
        have h' : aField (partsOf vt (.cons v s)) = .ok (some e) := h
        rw [hn] at h'
        cases hp : pathOf (partsOf vt (.cons v s)) with
        | none => rw [hp] at h'; exact nomatch h'
        | some p =>
          rw [hp] at h'
          cases h'
          have := pathOf_inv vt _ p hp
          cases p with
          | nil => exact nomatch this
          | cons k p => rw [this]; exact .docField k p
      cases v with
      | num f =>
        rw [partsOf_cons] at h
        simp only [build, aField, idx0_cons, Res.bind_ok, List.drop_succ_cons, List.drop_zero] at h
        cases hp : pathOf (partsOf vt s) with
        | none => rw [hp] at h; exact nomatch h
        | some p =>
          rw [hp] at h
          cases h
          rw [pathOf_inv vt s p hp]
          exact .field f p
      | _ => exact hfld (by rw [partsOf_cons]; rfl)
  | func =>
    cases r with
    | nil => rw [partsOf_nil] at h; exact nomatch h
    | cons v s =>
      have hfld : ∀ (hn : aFunc (partsOf vt (.cons v s)) =
          bindE (paramsOf (partsOf vt (.cons v s))) fun es => .ok (some (.func [] es))),
          Lenient vt e (.cons (tg (nameOf .func)) (.cons v s)) := by
        intro hn
        have h' : aFunc (partsOf vt (.cons v s)) = .ok (some e) := h
        rw [hn] at h'
        obtain ⟨es, h1, h2⟩ := bindE_inv h'
        cases h2
        have := params_inv vt _ es ho (.inl h1)
        cases this with
        | cons e es d _ ha hb => exact .anon e es d s trivial ha hb
      cases v with
      | str x =>
        rw [partsOf_cons] at h
        simp only [build, aFunc, idx0_cons, Res.bind_ok, List.drop_succ_cons, List.drop_zero] at h
        obtain ⟨es, h1, h2⟩ := bindE_inv h
        cases h2
        exact .func x es s (params_inv vt s es ho.tail (.inl h1))
      | _ => exact hfld (by rw [partsOf_cons]; rfl)
  | not => obtain ⟨d, s, e', rfl, rfl, h1⟩ := unary_inv vt _ r e ho h; exact .not e' d s trivial h1
  | exist => obtain ⟨d, s, e', rfl, rfl, h1⟩ := unary_inv vt _ r e ho h; exact .exist e' d s trivial h1
  | notexist => obtain ⟨d, s, e', rfl, rfl, h1⟩ := unary_inv vt _ r e ho h; exact .notExist e' d s trivial h1
  | or =>
    obtain ⟨es, h1, h2⟩ := bindE_inv h
    cases h2
    exact .or es r (params_inv vt r es ho (.inr h1))
  | and =>
    obtain ⟨es, h1, h2⟩ := bindE_inv h
    cases h2
    exact .and es r (params_inv vt r es ho (.inr h1))
  | anyin => exact loop_inv vt .any r e ho h
  | everyin => exact loop_inv vt .every r e ho h
  | anyeveryin => exact loop_inv vt .anyEvery r e ho h
  | equals => exact cmp_inv vt .eq r e ho h
  | notequals => exact cmp_inv vt .ne r e ho h
  | lessthan => exact cmp_inv vt .lt r e ho h
  | lessequals => exact cmp_inv vt .le r e ho h
  | greaterthan => exact cmp_inv vt .gt r e ho h
  | greaterequals => exact cmp_inv vt .ge r e ho h
  | like => exact cmp_inv vt .like r e ho h

mutual
  theorem parse_ok (vt : List Nat → Bool) : ∀ d : Js E, Ok vt d
    | .nil => fun _ h => nomatch h
    | .cons t r => fun e h => by
      rw [parseSub.eq_def] at h
      simp only [] at h
      cases t with
      | str s =>
        simp only [] at h
        cases ht : tagOf s with
        | none => rw [ht] at h; exact nomatch h
        | some tag =>
          rw [ht] at h
          rw [tagOf_inv s tag ht]
          exact build_inv vt r tag e (parse_okl vt r) h
      | _ => exact nomatch h

  theorem parse_okl (vt : List Nat → Bool) : ∀ d : Js E, Okl vt d
    | .nil => trivial
    | .cons v r => match v with
      | .arr d => ⟨parse_ok vt d, parse_okl vt r⟩
      | .null => parse_okl vt r
      | .bool _ => parse_okl vt r
      | .num _ => parse_okl vt r
      | .str _ => parse_okl vt r
      | .obj _ => parse_okl vt r
end

/-- **C30 (what is accepted).**  `parseJsonSubexpr` returns the expression `e` exactly for the arrays that denote it, where
elements after the needed ones and missing function names are tolerated. -/
theorem C30_accepted (vt : List Nat → Bool) (e : Expr E) (d : Js E) :
    parseSub vt d = .ok (some e) ↔ Lenient vt e d :=
  ⟨parse_ok vt d e, parse_enc vt e d⟩

/-! ### Round trip -/

mutual
  /-- The array form of an expression. -/
  def encode : Expr E → Js E
    | .value (.json v) => .cons (tg "value") (.cons v .nil)
    | .regex (.json v) => .cons (tg "regex") (.cons v .nil)
    | .time (.json v) => .cons (tg "time") (.cons v .nil)
    | .field f => .cons (tg "field") (.cons (.num (E.ofInt (BitVec.ofInt 64 f.root))) (strs f.path))
    | .func n ps => .cons (tg "func") (.cons (.str n) (encodeL ps))
    | .not e => .cons (tg "not") (.cons (.arr (encode e)) .nil)
    | .exist e => .cons (tg "exists") (.cons (.arr (encode e)) .nil)
    | .notExist e => .cons (tg "notexists") (.cons (.arr (encode e)) .nil)
    | .and es => .cons (tg "and") (encodeL es)
    | .or es => .cons (tg "or") (encodeL es)
    | .cmp c l r => .cons (tg (cmpTag c)) (.cons (.arr (encode l)) (.cons (.arr (encode r)) .nil))
    | .loop m v i b => .cons (tg (modeTag m)) (.cons (.num (E.ofInt (BitVec.ofInt 64 v)))
        (.cons (.arr (encode i)) (.cons (.arr (encode b)) .nil)))
    | _ => .nil

  def encodeL : Exprs E → Js E
    | .nil => .nil
    | .cons e es => .cons (.arr (encode e)) (encodeL es)
end

mutual
  theorem encode_strict (vt : List Nat → Bool) : ∀ e : Expr E, Rep vt e → Strict vt e (encode e)
    | .tru, h => h.elim
    | .fals, h => h.elim
    | .pcre _, h => h.elim
    | .value v, h => by obtain ⟨j, rfl⟩ := h; exact .value j .nil rfl
    | .regex v, h => by obtain ⟨j, rfl⟩ := h; exact .regex j .nil rfl
    | .time v, h => by obtain ⟨j, rfl, h⟩ := h; exact .time j .nil rfl h
    | .field ⟨v, p⟩, h => by
      have h : VarOk E v := h
      have := Enc.field (S := (· = .nil)) (L := False) (vt := vt) (E.ofInt (BitVec.ofInt 64 v)) p
      rw [show (E.toInt (E.ofInt (BitVec.ofInt 64 v))).toInt = v from h] at this
      exact this
    | .func n ps, h => .func n ps _ (encodeL_strict vt ps h)
    | .not e, h => .not e _ .nil rfl (encode_strict vt e h)
    | .exist e, h => .exist e _ .nil rfl (encode_strict vt e h)
    | .notExist e, h => .notExist e _ .nil rfl (encode_strict vt e h)
    | .and es, h => .and es _ (encodeL_strict vt es h)
    | .or es, h => .or es _ (encodeL_strict vt es h)
    | .cmp c l r, h => .cmp c l r _ _ .nil rfl (encode_strict vt l h.1) (encode_strict vt r h.2)
    | .loop m v i b, h => by
      have h : VarOk E v ∧ Rep vt i ∧ Rep vt b := h
      have := Enc.loop (S := (· = .nil)) (L := False) (vt := vt) m (E.ofInt (BitVec.ofInt 64 v)) i b _ _ .nil rfl (encode_strict vt i h.2.1) (encode_strict vt b h.2.2)
      rw [show (E.toInt (E.ofInt (BitVec.ofInt 64 v))).toInt = v from h.1] at this
      exact this

  theorem encodeL_strict (vt : List Nat → Bool) : ∀ es : Exprs E, RepL vt es → EncL (· = .nil) False vt es (encodeL es)
    | .nil, _ => .nil
    | .cons e es, h => .cons e es _ _ (encode_strict vt e h.1) (encodeL_strict vt es h.2)
end

/-- **C30 (round trip).**  Every array of the format proper is parsed to the expression it denotes, every expression the
format can express has such an array, and no array denotes two expressions. -/
theorem C30_roundtrip (vt : List Nat → Bool) :
    (∀ (e : Expr E) (d : Js E), Strict vt e d → parseSub vt d = .ok (some e)) ∧
    (∀ e : Expr E, Rep vt e → ∃ d, Strict vt e d) ∧
    (∀ (e e' : Expr E) (d : Js E), Strict vt e d → Strict vt e' d → e = e') := by
  refine ⟨parse_enc vt, fun e h => ⟨_, encode_strict vt e h⟩, fun e e' d h h' => ?_⟩
  have h1 := parse_enc vt e d h
  rw [parse_enc vt e' d h'] at h1
  cases h1; rfl

/-- **C30 (texts).**  `ParseJsonExpression` returns the expression `e` exactly for the texts that are unmarshalled to an array denoting
it, and an error for texts that cannot be unmarshalled. -/
theorem C30_text (vt : List Nat → Bool) (unm : List Nat → Option (Js E)) (t : List Nat) :
    (∀ e, parseText vt unm t = .ok (some e) ↔ ∃ d, unm t = some d ∧ Lenient vt e d) ∧ (unm t = none → parseText vt unm t = .ok none) := by
  unfold parseText
  cases unm t with
  | none => simp
  | some d => simpa using fun e => C30_accepted vt e d

/-- **C30 (rejection).**  An array that denotes nothing, even leniently, does not yield an expression; in particular an unknown
tag or a tag that is not a string is an error. -/
theorem C30_rejected (vt : List Nat → Bool) (d : Js E) :
    ((∀ e, ¬ Lenient vt e d) → parseSub vt d = .ok none ∨ parseSub vt d = .panic ∨ parseSub vt d = .stuck) ∧
    (∀ (t : J E) (r : Js E), d = .cons t r → (∀ s, t = .str s → tagOf s = none) → parseSub vt d = .ok none) := by
  constructor
  · intro h
    cases hp : parseSub vt d with
    | ok r => cases r with
      | none => exact .inl rfl
      | some e => exact absurd (parse_ok vt d e hp) (h e)
    | panic => exact .inr (.inl rfl)
    | stuck => exact .inr (.inr rfl)
  · rintro t r rfl h
    rw [parseSub.eq_def]
    simp only []
    cases t with
    | str s => simp only [h s rfl]
    | _ => rfl

/-! ### Crashes -/

/-- How many elements must follow a tag. -/
def need : Tag → Nat
  | .or => 0
  | .and => 0
  | .anyin => 3
  | .everyin => 3
  | .anyeveryin => 3
  | .equals => 2
  | .notequals => 2
  | .lessthan => 2
  | .lessequals => 2
  | .greaterthan => 2
  | .greaterequals => 2
  | .like => 2
  | _ => 1

def Js.length : Js E → Nat
  | .nil => 0
  | .cons _ r => Js.length r + 1

/-- All elements are arrays. -/
def AllArr : Js E → Prop
  | .nil => True
  | .cons v r => (∃ d, v = .arr d) ∧ AllArr r

/-- The parameters of a function are arrays. -/
def ParamsArr : Js E → Prop
  | .cons (.str _) r => AllArr r
  | r => AllArr r

mutual
  /-- No array is empty, known tags are followed by enough elements, and parameters of functions are arrays. -/
  def Shaped : Js E → Prop
    | .nil => False
    | .cons t r =>
      (∀ s tag, t = .str s → tagOf s = some tag → need tag ≤ Js.length r ∧ (tag = .func → ParamsArr r)) ∧ ShapedL r

  def ShapedJ : J E → Prop
    | .arr d => Shaped d
    | _ => True

  def ShapedL : Js E → Prop
    | .nil => True
    | .cons v r => ShapedJ v ∧ ShapedL r
end

/-- Neither a panic nor stuck. -/
def Fine {α : Type} (x : Res α) : Prop := ∃ a, x = .ok a

theorem Fine.bind {α β : Type} {x : Res (Option α)} {f : α → Res (Option β)} (h : Fine x) (hf : ∀ a, Fine (f a)) :
    Fine (bindE x f) := by
  obtain ⟨a, rfl⟩ := h
  cases a with
  | none => exact ⟨none, rfl⟩
  | some a => exact hf a

/-- Every part that is an array parses without a crash. -/
def Good : List (Part E) → Prop
  | [] => True
  | p :: ps => (∀ r, p.sub = some r → Fine r) ∧ Good ps

theorem Good.idx {ps : List (Part E)} (h : Good ps) (i : Nat) (hi : i < ps.length) :
    ∃ p, Res.idx ps i = .ok p ∧ ∀ r, p.sub = some r → Fine r := by
  induction ps generalizing i with
  | nil => exact absurd hi (by simp)
  | cons p ps ih =>
    cases i with
    | zero => exact ⟨p, rfl, h.1⟩
    | succ i =>
      obtain ⟨q, hq, hr⟩ := ih h.2 i (by simpa using hi)
      refine ⟨q, ?_, hr⟩
      rw [← hq]
      simp only [Res.idx, List.getElem?_cons_succ]

theorem Good.drop {ps : List (Part E)} (h : Good ps) : Good (ps.drop 1) := by
  cases ps with
  | nil => exact h
  | cons p ps => exact h.2

theorem listOf_fine : ∀ ps : List (Part E), Good ps → Fine (listOf ps)
  | [], _ => ⟨_, rfl⟩
  | p :: ps, h => by
    rw [listOf]
    cases hp : p.sub with
    | none => exact ⟨_, rfl⟩
    | some r => exact (h.1 r hp).bind fun e => (listOf_fine ps h.2).bind fun es => ⟨_, rfl⟩

theorem paramsOf_fine : ∀ ps : List (Part E), Good ps → (∀ p ∈ ps, p.sub ≠ none) → Fine (paramsOf ps)
  | [], _, _ => ⟨_, rfl⟩
  | p :: ps, h, ha => by
    rw [paramsOf]
    cases hp : p.sub with
    | none => exact absurd hp (ha p (by simp))
    | some r => exact (h.1 r hp).bind fun e => (paramsOf_fine ps h.2 (fun q hq => ha q (by simp [hq]))).bind fun es => ⟨_, rfl⟩

theorem aUnary_fine (mk : Expr E → Expr E) (ps : List (Part E)) (h : Good ps) (hl : 0 < ps.length) : Fine (aUnary mk ps) := by
  obtain ⟨p, hp, hr⟩ := h.idx 0 hl
  rw [aUnary, hp, Res.bind_ok]
  cases hs : p.sub with
  | none => exact ⟨_, rfl⟩
  | some r => exact (hr r hs).bind fun e => ⟨_, rfl⟩

theorem aCmp_fine (c : Cmp) (ps : List (Part E)) (h : Good ps) (hl : 1 < ps.length) : Fine (aCmp c ps) := by
  obtain ⟨p, hp, hr⟩ := h.idx 0 (by omega)
  obtain ⟨q, hq, hs⟩ := h.idx 1 hl
  rw [aCmp, hp, Res.bind_ok]
  cases h1 : p.sub with
  | none => exact ⟨_, rfl⟩
  | some l =>
    simp only []
    rw [hq, Res.bind_ok]
    cases h2 : q.sub with
    | none => exact ⟨_, rfl⟩
    | some r => exact (hr l h1).bind fun e => (hs r h2).bind fun e => ⟨_, rfl⟩

theorem aLoop_fine (m : Mode) (ps : List (Part E)) (h : Good ps) (hl : 2 < ps.length) : Fine (aLoop m ps) := by
  obtain ⟨v, hv, _⟩ := h.idx 0 (by omega)
  obtain ⟨p, hp, hr⟩ := h.idx 1 (by omega)
  obtain ⟨q, hq, hs⟩ := h.idx 2 hl
  rw [aLoop, hv, Res.bind_ok]
  cases v.raw with
  | num f =>
    simp only []
    rw [hp, Res.bind_ok]
    cases h1 : p.sub with
    | none => exact ⟨_, rfl⟩
    | some l =>
      simp only []
      rw [hq, Res.bind_ok]
      cases h2 : q.sub with
      | none => exact ⟨_, rfl⟩
      | some r => exact (hr l h1).bind fun e => (hs r h2).bind fun e => ⟨_, rfl⟩
  | _ => exact ⟨_, rfl⟩

theorem aValue_fine (mk : GoVal E → Expr E) (ps : List (Part E)) (h : Good ps) (hl : 0 < ps.length) : Fine (aValue mk ps) := by
  obtain ⟨p, hp, _⟩ := h.idx 0 hl
  rw [aValue, hp]; exact ⟨_, rfl⟩

theorem parts_length (vt : List Nat → Bool) : ∀ r : Js E, (partsOf vt r).length = Js.length r
  | .nil => by rw [partsOf_nil]; rfl
  | .cons v r => by rw [partsOf_cons, List.length_cons, parts_length vt r]; rfl

theorem allArr_parts (vt : List Nat → Bool) : ∀ r : Js E, AllArr r → ∀ p ∈ partsOf vt r, p.sub ≠ none
  | .nil, _, p, hp => by rw [partsOf_nil] at hp; exact absurd hp (by simp)
  | .cons v r, h, p, hp => by
    obtain ⟨⟨d, rfl⟩, h⟩ := h
    rw [partsOf_arr, List.mem_cons] at hp
    rcases hp with rfl | hp
    · simp
    · exact allArr_parts vt r h p hp

theorem aFunc_fine (vt : List Nat → Bool) (r : Js E) (h : Good (partsOf vt r)) (hl : 0 < Js.length r) (hp : ParamsArr r) :
    Fine (aFunc (partsOf vt r)) := by
  cases r with
  | nil => exact absurd hl (by simp [Js.length])
  | cons v s =>
    rw [partsOf_cons] at h ⊢
    rw [aFunc, idx0_cons, Res.bind_ok]
    cases v with
    | str x => exact (paramsOf_fine _ h.2 (allArr_parts vt s hp)).bind fun es => ⟨_, rfl⟩
    | arr d =>
      have := allArr_parts vt _ hp
      rw [partsOf_cons] at this
      exact (paramsOf_fine _ h this).bind fun es => ⟨_, rfl⟩
    | null => exact absurd hp.1 (by simp)
    | bool _ => exact absurd hp.1 (by simp)
    | num _ => exact absurd hp.1 (by simp)
    | obj _ => exact absurd hp.1 (by simp)

theorem build_fine (vt : List Nat → Bool) (r : Js E) (t : Tag) (h : Good (partsOf vt r)) (hl : need t ≤ Js.length r)
    (hp : t = .func → ParamsArr r) : Fine (build vt (partsOf vt r) t) := by
  have hlen := parts_length vt r
  cases t with
  | value => exact aValue_fine _ _ h (by rw [hlen]; exact hl)
  | regex => exact aValue_fine _ _ h (by rw [hlen]; exact hl)
  | time =>
    obtain ⟨p, hp, _⟩ := h.idx 0 (by rw [hlen]; exact hl)
    rw [build, aTime, hp, Res.bind_ok]
    cases p.raw with
    | str s =>
      by_cases hv : vt s = true
      · simp only [if_pos hv]; exact ⟨_, rfl⟩
      · simp only [if_neg hv]; exact ⟨_, rfl⟩
    | _ => exact ⟨_, rfl⟩
  | field =>
    obtain ⟨p, hp, _⟩ := h.idx 0 (by rw [hlen]; exact hl)
    rw [build, aField, hp, Res.bind_ok]
    cases p.raw <;> exact ⟨_, rfl⟩
  | func => exact aFunc_fine vt r h hl (hp rfl)
  | not => exact aUnary_fine _ _ h (by rw [hlen]; exact hl)
  | exist => exact aUnary_fine _ _ h (by rw [hlen]; exact hl)
  | notexist => exact aUnary_fine _ _ h (by rw [hlen]; exact hl)
  | or => exact (listOf_fine _ h).bind fun es => ⟨_, rfl⟩
  | and => exact (listOf_fine _ h).bind fun es => ⟨_, rfl⟩
  | anyin => exact aLoop_fine _ _ h (by rw [hlen]; exact hl)
  | everyin => exact aLoop_fine _ _ h (by rw [hlen]; exact hl)
  | anyeveryin => exact aLoop_fine _ _ h (by rw [hlen]; exact hl)
  | equals => exact aCmp_fine _ _ h (by rw [hlen]; exact hl)
  | notequals => exact aCmp_fine _ _ h (by rw [hlen]; exact hl)
  | lessthan => exact aCmp_fine _ _ h (by rw [hlen]; exact hl)
  | lessequals => exact aCmp_fine _ _ h (by rw [hlen]; exact hl)
  | greaterthan => exact aCmp_fine _ _ h (by rw [hlen]; exact hl)
  | greaterequals => exact aCmp_fine _ _ h (by rw [hlen]; exact hl)
  | like => exact aCmp_fine _ _ h (by rw [hlen]; exact hl)

mutual
  theorem parse_fine (vt : List Nat → Bool) : ∀ d : Js E, Shaped d → Fine (parseSub vt d)
    | .nil, h => h.elim
    | .cons t r, h => by
      rw [parseSub.eq_def]
      simp only []
      cases t with
      | str s =>
        simp only []
        cases ht : tagOf s with
        | none => exact ⟨_, rfl⟩
        | some tag =>
          have ⟨h1, h2⟩ := h.1 s tag rfl ht
          exact build_fine vt r tag (parts_good vt r h.2) h1 h2
      | _ => exact ⟨_, rfl⟩

  theorem part_fine (vt : List Nat → Bool) : ∀ v : J E, ShapedJ v → ∀ r, partOf vt v = some r → Fine r
    | .arr d, h, r, hr => by
      rw [partOf.eq_def] at hr
      cases hr
      exact parse_fine vt d h
    | .null, _, r, hr => nomatch hr
    | .bool _, _, r, hr => nomatch hr
    | .num _, _, r, hr => nomatch hr
    | .str _, _, r, hr => nomatch hr
    | .obj _, _, r, hr => nomatch hr

  theorem parts_good (vt : List Nat → Bool) : ∀ d : Js E, ShapedL d → Good (partsOf vt d)
    | .nil, _ => by rw [partsOf_nil]; trivial
    | .cons v r, h => by
      rw [partsOf_cons]
      exact ⟨part_fine vt v h.1, parts_good vt r h.2⟩
end

/-- **C30 (no crash, partial).**  On shaped arrays the parser returns an expression or an error.  Missing: arrays that are
empty, too short, or have a function parameter that is no array; on these it panics (`C30_negation`). -/
theorem C30_no_crash_partial (vt : List Nat → Bool) (d : Js E) (h : Shaped d) :
    parseSub vt d = .ok none ∨ ∃ e, parseSub vt d = .ok (some e) ∧ Lenient vt e d := by
  obtain ⟨r, hr⟩ := parse_fine vt d h
  cases r with
  | none => exact .inl hr
  | some e => exact .inr ⟨e, hr, parse_ok vt d e hr⟩

/-- **C30 (negation).**  Malformed arrays are not always rejected with an error: the empty array, a comparison with one side,
and a function with a parameter that is no array panic, and surplus elements are ignored. -/
theorem C30_negation (vt : List Nat → Bool) :
    parseSub (E := E) vt .nil = .panic ∧
    parseSub (E := E) vt (.cons (tg "equals") (.cons (.arr (.cons (tg "field") (.cons (tg "a") .nil))) .nil)) = .panic ∧
    parseSub (E := E) vt (.cons (tg "func") (.cons (tg "date") (.cons .null .nil))) = .panic ∧
    parseSub (E := E) vt (.cons (tg "value") (.cons .null (.cons .null .nil))) = .ok (some (.value (.json .null))) := by
  refine ⟨rfl, ?_, ?_, ?_⟩
  · rw [show tg "equals" = tg (nameOf .equals) from rfl, parseSub_tag, partsOf_arr, partsOf_nil]; rfl
  · rw [show tg "func" = tg (nameOf .func) from rfl, parseSub_tag, partsOf_cons, partsOf_cons, partsOf_nil]; rfl
  · rw [show tg "value" = tg (nameOf .value) from rfl, parseSub_tag, partsOf_cons]; rfl

/-! ### Examples -/

/-- A text that is unmarshalled to `["value", null]`. -/
example : parseText (E := E) (fun _ => true) (fun t => if t = [91, 93] then some (.cons (tg "value") (.cons .null .nil)) else none) [91, 93] =
    .ok (some (.value (.json .null))) := by
  rw [parseText, if_pos rfl]
  dsimp only
  rw [show tg "value" = tg (nameOf .value) from rfl, parseSub_tag, partsOf_cons]; rfl

/-- `["and", ["equals", ["field", "a"], ["value", "x"]], ["anyin", 1, ["field", "b"], ["exists", ["field", 1]]]]` -/
def demoJson : Js demoExt :=
  .cons (tg "and") (.cons (.arr (.cons (tg "equals") (.cons (.arr (.cons (tg "field") (.cons (tg "a") .nil)))
      (.cons (.arr (.cons (tg "value") (.cons (tg "x") .nil))) .nil))))
    (.cons (.arr (.cons (tg "anyin") (.cons (.num (demoExt.ofInt 1#64)) (.cons (.arr (.cons (tg "field") (.cons (tg "b") .nil)))
      (.cons (.arr (.cons (tg "exists") (.cons (.arr (.cons (tg "field") (.cons (.num (demoExt.ofInt 1#64)) .nil))) .nil))) .nil)))))
    .nil))

def demoJsonExpr : Expr demoExt :=
  .and (.cons (.cmp .eq (.field ⟨0, [ascii "a"]⟩) (.value (.json (tg "x"))))
    (.cons (.loop .any (demoExt.toInt (demoExt.ofInt 1#64)).toInt (.field ⟨0, [ascii "b"]⟩)
      (.exist (.field ⟨(demoExt.toInt (demoExt.ofInt 1#64)).toInt, []⟩))) .nil))

theorem demoJson_strict (vt : List Nat → Bool) : Strict vt demoJsonExpr demoJson :=
  .and _ _ (.cons _ _ _ _ (.cmp .eq _ _ _ _ _ rfl (.docField _ []) (.value _ _ rfl))
    (.cons _ _ _ _ (.loop .any _ _ _ _ _ _ rfl (.docField _ []) (.exist _ _ _ rfl (.field _ []))) .nil))

example : parseSub (fun _ => true) demoJson = .ok (some demoJsonExpr) :=
  (C30_roundtrip _).1 _ _ (demoJson_strict _)

/-- Shaped, though the tag is unknown. -/
example : Shaped (E := demoExt) (.cons (tg "xor") (.cons (.arr (.cons (tg "value") (.cons .null .nil))) .nil)) := by
  refine ⟨fun s tag h ht => ?_, ⟨⟨fun s tag h ht => ?_, trivial, trivial⟩, trivial⟩⟩
  · cases h
    rw [show tagOf (ascii "xor") = none from by decide +kernel] at ht
    exact nomatch ht
  · cases h
    rw [show tagOf (ascii "value") = some .value from tagOf_name .value] at ht
    cases ht
    exact ⟨Nat.le_refl 1, fun h => nomatch h⟩

end Verif.Json
