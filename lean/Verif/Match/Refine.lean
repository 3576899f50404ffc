import Verif.Match.Value

/-!
# The byte-level matcher follows the document-level one
-/

namespace Verif.Match
open Verif.Token Verif.FastVal
open Verif.BinTree (Tree State)

variable {E : Ext}

/-! ### Relating outcomes -/

/-- The second outcome agrees with the first unless the first is `stuck`. -/
def Rel {α β : Type} (Q : β → α → Prop) : Res β → Res α → Prop
  | .ok b, .ok a => Q b a
  | .panic, .panic => True
  | .stuck, _ => True
  | _, _ => False

theorem Rel.bind {α β α' β' : Type} {Q : β → α → Prop} {Q' : β' → α' → Prop} {x : Res β} {y : Res α}
    {f : β → Res β'} {g : α → Res α'} (h : Rel Q x y) (hf : ∀ b a, Q b a → Rel Q' (f b) (g a)) :
    Rel Q' (x >>= f) (y >>= g) := by
  cases x <;> cases y <;> first | exact hf _ _ h | exact h.elim | trivial

/-- The same computation on both sides. -/
theorem Rel.same {α α' β' : Type} {Q' : β' → α' → Prop} (x : Res α) {f : α → Res β'} {g : α → Res α'}
    (hf : ∀ a, Rel Q' (f a) (g a)) : Rel Q' (x >>= f) (x >>= g) := by
  cases x <;> first | exact hf _ | trivial

theorem Rel.eq {α α' β' : Type} {Q' : β' → α' → Prop} {x y : Res α} (h : y = x) {f : α → Res β'} {g : α → Res α'}
    (hf : ∀ a, Rel Q' (f a) (g a)) : Rel Q' (x >>= f) (y >>= g) := by
  subst h; exact Rel.same _ hf

theorem Rel.panic {α β : Type} {Q : β → α → Prop} : Rel Q .panic .panic := trivial
theorem Rel.stuck {α β : Type} {Q : β → α → Prop} {y : Res α} : Rel Q .stuck y := trivial
theorem Rel.ok {α β : Type} {Q : β → α → Prop} {b : β} {a : α} (h : Q b a) : Rel Q (.ok b) (.ok a) := h

/-! ### Positions -/

theorem D.head_len (d : D) (hd : d.WF) : 0 < (D.headTok d).2.length := by
  cases d with
  | lit ty w => exact List.length_pos_iff.2 hd.2.ne_nil
  | _ => simp [D.headTok]

theorem D.text_pos (d : D) (hd : d.WF) : 0 < d.text.length := by
  cases d with
  | lit ty w => exact List.length_pos_iff.2 hd.2.ne_nil
  | _ => simp [D.text]

theorem step_head (d : D) (hd : d.WF) {data ws post : List Nat} {p : Nat} (hws : IsWs ws) (hf : d.Follows post)
    (h : data.drop p = ws ++ (d.text ++ post)) :
    step ⟨data, p⟩ = (some (D.headTok d), ⟨data, p + ws.length + (D.headTok d).2.length⟩) := by
  cases d with
  | lit ty w => exact step_tok (k := ⟨data, p⟩) h hws hd.2 hf
  | arr ws' es =>
    rw [D.text, List.cons_append] at h
    exact step_tok (k := ⟨data, p⟩) (w := [0x5B]) h hws .arrayStart (follow_str (by simp) (by simp) _)
  | obj ws' ms =>
    rw [D.text, List.cons_append] at h
    exact step_tok (k := ⟨data, p⟩) (w := [0x7B]) h hws .objectStart (follow_str (by simp) (by simp) _)

theorem drop_len {data l : List Nat} {p : Nat} (h : data.drop p = l) (hl : l ≠ []) : p + l.length = data.length := by
  have := drop_lt h hl
  have e : (data.drop p).length = data.length - p := List.length_drop
  rw [h] at e; omega

/-- Skipping the rest of a value. -/
theorem skip_head (d : D) (hd : d.WF) {data post : List Nat} {p : Nat} (hf : d.Follows post)
    (h : data.drop p = d.text ++ post) :
    skipValue (D.headTok d).1 ⟨data, p + (D.headTok d).2.length⟩ = .ok (false, ⟨data, p + d.text.length⟩) := by
  have hr := reads_D d hd ⟨data, p⟩ [] post (by simp [IsWs]) hf h
  have hs := step_head d hd (ws := []) (by simp [IsWs]) hf h
  have hlen := drop_len h (by have := D.text_pos d hd; intro e; simp at e; simp [e.1] at this)
  cases d with
  | lit ty w =>
    have := hd.1
    cases ty <;> simp [Tok.isLiteral] at this <;> rfl
  | arr ws' es =>
    rw [D.toks] at hr
    obtain ⟨k1, e, hr⟩ := hr
    rw [hs] at e; simp only [D.headTok, Prod.mk.injEq, Option.some.injEq, true_and] at e; subst e
    simp only [D.text, List.length_cons, List.length_append, List.length_nil, Nat.add_zero, D.headTok] at hr hlen ⊢
    exact leave_of_reads (by simp only; omega) (es.closes hd.2) hr
  | obj ws' ms =>
    rw [D.toks] at hr
    obtain ⟨k1, e, hr⟩ := hr
    rw [hs] at e; simp only [D.headTok, Prod.mk.injEq, Option.some.injEq, true_and] at e; subst e
    simp only [D.text, List.length_cons, List.length_append, List.length_nil, Nat.add_zero, D.headTok] at hr hlen ⊢
    exact leave_of_reads (by simp only; omega) (ms.closes hd.2) hr

/-- Leaving an array from behind one of its elements. -/
theorem leave_tail (es : Es) (hd : es.WF) {data w1 w2 post : List Nat} {p : Nat} (h1 : IsWs w1) (h2 : IsWs w2)
    (h : data.drop p = w1 ++ (es.tail w2 ++ post)) :
    leaveValue ⟨data, p⟩ = .ok (false, ⟨data, p + w1.length + (es.tail w2).length⟩) := by
  have hne : w1 ++ (es.tail w2 ++ post) ≠ [] := by
    obtain ⟨c, rest, e, _⟩ := es.tail_head w2; rw [e]; simp
  have := drop_lt h hne
  exact leave_of_reads (Nat.le_of_lt this) (es.closes_tail hd) (reads_EsTail es hd ⟨data, p⟩ w1 w2 post h1 h2 h)

theorem sliceOf_text {data post : List Nat} {p : Nat} {x : List Nat} (hx : x ≠ []) (h : data.drop p = x ++ post) :
    sliceOf data p (p + x.length) = .ok x := by
  have hl := drop_len h (by simp [hx])
  simp only [List.length_append] at hl
  unfold sliceOf
  rw [if_pos (by omega)]
  have := slice_of_drop (ws := []) (w := x) h
  simp only [List.length_nil, Nat.add_zero] at this
  rw [this]

/-! ### Simulation -/

/-- The text is the document `r` with whitespace around. -/
structure IsText (data : List Nat) (r : D) : Prop where
  wf : r.WF
  split : ∃ ws ws', IsWs ws ∧ IsWs ws' ∧ data = ws ++ (r.text ++ ws')

/-- The part `d` begins at `p`. -/
structure At (data : List Nat) (d : D) (p : Nat) (post : List Nat) : Prop where
  wf : d.WF
  drop : data.drop p = d.text ++ post
  follows : d.Follows post

def SlotRel (data : List Nat) (p : Nat × Nat) : Option D → Prop
  | none => p = (0, 0)
  | some d => p.2 = d.text.length ∧ ∃ post, At data d p.1 post

structure Sim (data : List Nat) (m : M) (v : V) : Prop where
  text : m.tk.data = data
  bt : m.bt = v.bt
  coll : m.coll = v.coll
  len : m.slots.length = v.slots.length
  slots : ∀ (i : Nat) (p : Nat × Nat) (o : Option D), m.slots[i]? = some p → v.slots[i]? = some o → SlotRel data p o

theorem Sim.tk {data m v} (h : Sim data m v) (p : Nat) : Sim data { m with tk := ⟨data, p⟩ } v :=
  ⟨rfl, h.bt, h.coll, h.len, h.slots⟩

theorem Sim.tree {data m v} (h : Sim data m v) (bt : State) : Sim data { m with bt := bt } { v with bt := bt } :=
  ⟨h.text, rfl, h.coll, h.len, h.slots⟩

/-- The text begins with the document `r`: whitespace, the document, and then any bytes that do not continue its last
token. -/
structure Begins (data : List Nat) (r : D) : Prop where
  wf : r.WF
  split : ∃ ws post, IsWs ws ∧ r.Follows post ∧ data = ws ++ (r.text ++ post)

theorem IsText.begins {data r} (h : IsText data r) : Begins data r := by
  obtain ⟨ws, ws', h1, h2, e⟩ := h.split
  refine ⟨h.wf, ws, ws', h1, ?_, e⟩
  cases r with
  | lit ty w => exact follow_of_isWs h2
  | _ => trivial

theorem Begins.root {data r} (h : Begins data r) :
    ∃ ws post, IsWs ws ∧ data.drop 0 = ws ++ (r.text ++ post) ∧ r.Follows post := by
  obtain ⟨ws, post, h1, h2, e⟩ := h.split
  exact ⟨ws, post, h1, by simpa using e, h2⟩

theorem headTok_literal {d : D} (hd : d.WF) : (D.headTok d).1.isLiteral = (match d with | .lit _ _ => true | _ => false) := by
  cases d with
  | lit ty w => exact scalar_iff.1 hd.1
  | _ => rfl

theorem slot_read {data r} (hr : Begins data r) {m v} (h : Sim data m v) (s : Nat) :
    literalFromSlot (E := E) m s = slotVal r v.slots s := by
  unfold literalFromSlot slotVal
  by_cases hs : s = 0
  · simp [hs]
  · rw [if_neg hs, if_neg hs]
    cases hp : m.slots[s - 1]? with
    | none =>
      have : v.slots[s - 1]? = none := by rw [List.getElem?_eq_none_iff] at hp ⊢; rw [← h.len]; exact hp
      simp [Res.idx, hp, this]
    | some p =>
      have hlt : s - 1 < v.slots.length := by
        rw [← h.len]; exact (List.getElem?_eq_some_iff.1 hp).1
      have ho : v.slots[s - 1]? = some v.slots[s - 1] := List.getElem?_eq_getElem hlt
      generalize v.slots[s - 1] = o at ho
      have hR := h.slots _ _ _ hp ho
      simp only [Res.idx, hp, ho, Res.bind_ok, seek, h.text]
      cases o with
      | none =>
        subst hR
        obtain ⟨ws, ws', h1, e, hf⟩ := hr.root
        rw [step_head r hr.wf h1 hf e]
        have hl := headTok_literal hr.wf
        cases r with
        | lit ty w => simp only at hl ⊢; rw [if_pos hl]; rfl
        | _ => simp [D.headTok, Tok.isLiteral]
      | some d =>
        obtain ⟨hsz, post, hat⟩ := hR
        rw [step_head d hat.wf (ws := []) (by simp [IsWs]) hat.follows hat.drop]
        have hl := headTok_literal hat.wf
        have hpos := D.text_pos d hat.wf
        have hsl := sliceOf_text (List.length_pos_iff.1 hpos) hat.drop
        rw [← hsz] at hsl
        cases d with
        | lit ty w => simp only at hl ⊢; rw [if_pos hl]; rfl
        | arr ws es =>
          have h0 : p.2 > 0 := by omega
          simp only [D.headTok, Tok.isLiteral, Bool.false_eq_true, if_false, if_pos h0, hsl]; rfl
        | obj ws es =>
          have h0 : p.2 > 0 := by omega
          simp only [D.headTok, Tok.isLiteral, Bool.false_eq_true, if_false, if_pos h0, hsl]; rfl

/-- The recursive calls agree. -/
def RecOK (data : List Nat) (rec : Rec E) (vrec : VRec E) : Prop :=
  ∀ node d m v p post, At data d p post → Sim data m v → m.tk.pos = p + (D.headTok d).2.length →
    Rel (fun (b : Bool × V) (a : Bool × M) => a.1 = false ∧ Sim data a.2 b.2 ∧ (b.1 = false → a.2.tk.pos = p + d.text.length))
      (vrec node d v) (rec node (D.headTok d).1 (D.headTok d).2 m)

theorem ops_rel (X : Fns E) (t : Tree) {data r} (hr : Begins data r) {m v} (h : Sim data m v) (lit : Option (FV E))
    (ops : List (Op E)) :
    Rel (fun (b : Bool × V) (a : Bool × M) => a.1 = b.1 ∧ Sim data a.2 b.2 ∧ a.2.tk = m.tk)
      (opsV X t r lit ops v) (opsM X t lit ops m) := by
  unfold opsV opsM
  rw [h.bt, h.coll, show literalFromSlot (E := E) m = slotVal r v.slots from funext (slot_read hr h)]
  refine Rel.same _ (fun o => ?_)
  exact Rel.ok ⟨rfl, ⟨h.text, rfl, rfl, h.len, h.slots⟩, rfl⟩

theorem tkn_eta (m : M) (data : List Nat) (p : Nat) (h1 : m.tk.data = data) (h2 : m.tk.pos = p) : m.tk = ⟨data, p⟩ := by
  cases hm : m.tk; simp_all

theorem set_tk (m : M) : { m with tk := m.tk } = m := rfl

/-- A value behind its key. -/
theorem objValue_rel {data : List Nat} {rec : Rec E} {vrec : VRec E} (hrec : RecOK data rec vrec) (elems : Elems E)
    (key : List Nat) {d : D} {p : Nat} {post : List Nat} (hat : At data d p post) {m v} (h : Sim data m v)
    (hp : m.tk.pos = p + (D.headTok d).2.length) (k : V → Res (Bool × V)) (g : M → Res (Bool × Bool × M))
    (Q : Bool × V → Bool × Bool × M → Prop)
    (hg : ∀ v m, Sim data m v → m.tk.pos = p + d.text.length → Rel Q (k v) (g m))
    (hQ : ∀ v m, Sim data m v → Q (true, v) (false, true, m)) :
    Rel Q (match elems.find key with
        | some e => vrec e d v >>= fun r => check k r
        | none => k v)
      (objValue rec elems key (D.headTok d).1 (D.headTok d).2 m >>= fun r => if r.1 then .ok (false, true, r.2) else g r.2) := by
  unfold objValue
  cases elems.find key with
  | none =>
    simp only
    rw [tkn_eta m data _ h.text hp, skip_head d hat.wf hat.follows hat.drop]
    simp only [Res.bind_ok]
    exact hg _ _ (h.tk _) rfl
  | some e =>
    simp only
    have hr := hrec e d m v p post hat h hp
    cases hv : vrec e d v with
    | stuck => exact Rel.stuck
    | panic =>
      rw [hv] at hr
      cases hb : rec e (D.headTok d).1 (D.headTok d).2 m with
      | panic => exact Rel.panic
      | ok a => rw [hb] at hr; exact hr.elim
      | stuck => rw [hb] at hr; exact hr.elim
    | ok b =>
      rw [hv] at hr
      cases hb : rec e (D.headTok d).1 (D.headTok d).2 m with
      | panic => rw [hb] at hr; exact hr.elim
      | stuck => rw [hb] at hr; exact hr.elim
      | ok a =>
        rw [hb] at hr
        obtain ⟨h1, h2, h3⟩ := hr
        simp only [Res.bind_ok, check, h2.bt]
        cases hd : BinTree.isResolved b.2.bt 0 with
        | panic => exact Rel.panic
        | stuck => exact Rel.stuck
        | ok dd =>
          simp only [Res.bind_ok]
          cases dd with
          | true => exact Rel.ok (hQ _ _ h2)
          | false =>
            simp only [Bool.false_eq_true, if_false]
            cases hb1 : b.1 with
            | true => exact Rel.stuck
            | false => exact hg _ _ h2 (h3 hb1)

/-- Result of walking an object or array: leaving early, or at the end `e`. -/
def WalkQ (data : List Nat) (e : Nat) (b : Bool × V) (a : Bool × Bool × M) : Prop :=
  a.1 = false ∧ a.2.1 = b.1 ∧ Sim data a.2.2 b.2 ∧ (b.1 = false → a.2.2.tk.pos = e)

theorem step_at {data ws w post : List Nat} {p : Nat} {ty : Tok} (hws : IsWs ws) (ht : TokText ty w) (hf : Follow ty post)
    (h : data.drop p = ws ++ (w ++ post)) :
    step ⟨data, p⟩ = (some (ty, w), ⟨data, p + ws.length + w.length⟩) ∧
      data.drop (p + ws.length + w.length) = post :=
  ⟨step_tok (k := ⟨data, p⟩) h hws ht hf, drop_tok h⟩

theorem objItem_rel {data : List Nat} {rec : Rec E} {vrec : VRec E} (hrec : RecOK data rec vrec) (elems : Elems E)
    {kty : Tok} {key k1 k2 : List Nat} {d : D} {w1 w2 : List Nat} {rest : Ms} (idx : Nat)
    (hk : kty = .string ∨ kty = .escString) (hkey : TokText kty key) (hk1 : IsWs k1) (hk2 : IsWs k2) (hd : d.WF)
    (hw1 : IsWs w1) {m v} (h : Sim data m v) {ws post : List Nat} (hws : IsWs ws)
    (hdrop : data.drop m.tk.pos = ws ++ ((Ms.cons kty key k1 k2 d w1 w2 rest).text ++ post))
    (k : V → Res (Bool × V)) (g : M → Res (Bool × Bool × M)) (Q : Bool × V → Bool × Bool × M → Prop)
    (hg : ∀ v m, Sim data m v → data.drop m.tk.pos = w1 ++ (rest.tail w2 ++ post) →
      m.tk.pos + w1.length + (rest.tail w2).length =
        (data.length - post.length) → Rel Q (k v) (g m))
    (hQ : ∀ v m, Sim data m v → Q (true, v) (false, true, m)) :
    Rel Q (keyBytes false kty key >>= fun kb => match elems.find kb with
        | some e => vrec e d v >>= fun r => check k r
        | none => k v)
      (objItem rec elems false idx g m) := by
  have htk := tkn_eta m data m.tk.pos h.text rfl
  rw [Ms.text] at hdrop
  simp only [List.append_assoc, List.cons_append] at hdrop
  have hfk : ∀ post, Follow kty post := follow_str (by rcases hk with rfl | rfl <;> simp) (by rcases hk with rfl | rfl <;> simp)
  obtain ⟨s1, d1⟩ := step_at hws hkey (hfk _) hdrop
  obtain ⟨s2, d2⟩ := step_at (w := [0x3A]) hk1 .keyDelim (follow_str (by simp) (by simp) _) d1
  have hfd : d.Follows (w1 ++ (rest.tail w2 ++ post)) := d.follows_ms hw1 rest post
  have s3 := step_head d hd hk2 hfd d2
  have d3 := drop_of_drop d2
  unfold objItem
  rw [htk, s1]
  simp only
  rw [if_neg (by rcases hk with rfl | rfl <;> simp)]
  refine Rel.same _ (fun kb => ?_)
  simp only [Bool.false_eq_true, if_false]
  rw [s2]
  simp only [ne_eq, not_true_eq_false, if_false]
  rw [s3]
  simp only
  refine objValue_rel hrec elems kb (m := { m with tk := ⟨data, _⟩ }) ⟨hd, d3, hfd⟩ (h.tk _) (by simp) k g Q ?_ hQ
  intro v' m' h' hp'
  refine hg v' m' h' ?_ ?_
  · rw [hp']; exact drop_of_drop d3
  · have e4 := drop_of_drop d3
    have hne : w1 ++ (rest.tail w2 ++ post) ≠ [] := by
      obtain ⟨c, r', e, _⟩ := rest.tail_head w2; rw [e]; simp
    have := drop_len e4 hne
    simp only [List.length_append] at this
    rw [hp']; omega

theorem members_rel {data : List Nat} {rec : Rec E} {vrec : VRec E} (hrec : RecOK data rec vrec) (elems : Elems E)
    (rest : Ms) (hd : rest.WF) : ∀ {w1 w2 post : List Nat} (_ : IsWs w1) (_ : IsWs w2) (fuel idx : Nat) {m v}
    (_ : Sim data m v) (_ : data.drop m.tk.pos = w1 ++ (rest.tail w2 ++ post)) (_ : (rest.tail w2).length ≤ fuel),
    Rel (WalkQ data (data.length - post.length)) (vMembers vrec elems rest v) (objLoop rec elems false fuel idx m) := by
  match rest, hd with
  | .nil, _ =>
    intro w1 w2 post hw1 hw2 fuel idx m v h hdrop hfuel
    rw [Ms.tail] at hdrop hfuel
    obtain ⟨s1, d1⟩ := step_at (w := [0x7D]) hw1 .objectEnd (follow_str (by simp) (by simp) _) hdrop
    obtain ⟨f, rfl⟩ : ∃ f, fuel = f + 1 := ⟨fuel - 1, by simp at hfuel; omega⟩
    rw [vMembers, objLoop, tkn_eta m data _ h.text rfl, s1]
    refine Rel.ok ⟨rfl, rfl, h.tk _, fun _ => ?_⟩
    have := drop_len hdrop (by simp)
    simp only [List.length_append] at this ⊢; omega
  | .cons kty key k1 k2 d w3 w4 rest, hd =>
    obtain ⟨hk, hkey, hk1, hk2, hv, h3, h4, hr⟩ := hd
    intro w1 w2 post hw1 hw2 fuel idx m v h hdrop hfuel
    have e : (Ms.cons kty key k1 k2 d w3 w4 rest).tail w2 = 0x2C :: (w2 ++ (Ms.cons kty key k1 k2 d w3 w4 rest).text) := by
      rw [Ms.tail, Ms.text]
    have e' : (Ms.cons kty key k1 k2 d w3 w4 rest).text.length =
        key.length + k1.length + 1 + k2.length + d.text.length + w3.length + (rest.tail w4).length := by
      rw [Ms.text]; simp only [List.length_append, List.length_cons]; omega
    rw [e] at hdrop hfuel
    simp only [List.length_cons, List.length_append] at hfuel
    obtain ⟨f, rfl⟩ : ∃ f, fuel = f + 1 := ⟨fuel - 1, by omega⟩
    simp only [List.append_assoc, List.cons_append] at hdrop
    obtain ⟨s1, d1⟩ := step_at (w := [0x2C]) hw1 .listDelim (follow_str (by simp) (by simp) _) hdrop
    rw [vMembers, objLoop, tkn_eta m data _ h.text rfl, s1]
    simp only
    refine objItem_rel (w2 := w4) (rest := rest) hrec elems (idx + 1) hk hkey hk1 hk2 hv h3 (h.tk _) hw2 d1 _ _ _ ?_ ?_
    · intro v' m' h' hd' _
      exact members_rel hrec elems rest hr h3 h4 f (idx + 1) h' hd' (by omega)
    · intro v' m' h'
      exact ⟨rfl, rfl, h', fun h => by simp at h⟩

theorem obj_rel {data : List Nat} {rec : Rec E} {vrec : VRec E} (hrec : RecOK data rec vrec) (elems : Elems E)
    (ms : Ms) (hd : ms.WF) {ws post : List Nat} (hws : IsWs ws) {m v} (h : Sim data m v)
    (hdrop : data.drop m.tk.pos = ws ++ (ms.text ++ post)) :
    Rel (fun b a => match ms with
        | .nil => a.1 = false ∧ a.2.1 = true ∧ Sim data a.2.2 v ∧ b = (false, v) ∧ a.2.2.tk.pos = data.length - post.length
        | _ => WalkQ data (data.length - post.length) b a)
      (vMembers vrec elems ms v) (matchObjArr rec elems false m) := by
  unfold matchObjArr
  cases ms with
  | nil =>
    rw [Ms.text] at hdrop
    obtain ⟨s1, d1⟩ := step_at (w := [0x7D]) hws .objectEnd (follow_str (by simp) (by simp) _) hdrop
    rw [vMembers, objItem, tkn_eta m data _ h.text rfl, s1]
    refine Rel.ok ⟨rfl, rfl, h.tk _, rfl, ?_⟩
    have := drop_len hdrop (by simp)
    simp only [List.length_append] at this ⊢; omega
  | cons kty key k1 k2 d w3 w4 rest =>
    obtain ⟨hk, hkey, hk1, hk2, hv, h3, h4, hr⟩ := hd
    rw [vMembers]
    refine objItem_rel (w2 := w4) (rest := rest) hrec elems 0 hk hkey hk1 hk2 hv h3 h hws hdrop _ _ _ ?_ ?_
    · intro v' m' h' hd' _
      refine members_rel hrec elems rest hr h3 h4 _ 0 h' hd' ?_
      rw [h.text]
      have := drop_len hd' (by obtain ⟨c, r', e, _⟩ := rest.tail_head w4; rw [e]; simp)
      simp only [List.length_append] at this; omega
    · intro v' m' h'
      exact ⟨rfl, rfl, h', fun h => by simp at h⟩

theorem arrItem_rel {data : List Nat} {rec : Rec E} {vrec : VRec E} (hrec : RecOK data rec vrec) (elems : Elems E)
    {d : D} {w1 w2 : List Nat} {rest : Es} (idx : Nat) (hd : d.WF)
    (hw1 : IsWs w1) {m v} (h : Sim data m v) {ws post : List Nat} (hws : IsWs ws)
    (hdrop : data.drop m.tk.pos = ws ++ ((Es.cons d w1 w2 rest).text ++ post))
    (k : V → Res (Bool × V)) (g : M → Res (Bool × Bool × M)) (Q : Bool × V → Bool × Bool × M → Prop)
    (hg : ∀ v m, Sim data m v → data.drop m.tk.pos = w1 ++ (rest.tail w2 ++ post) → Rel Q (k v) (g m))
    (hQ : ∀ v m, Sim data m v → Q (true, v) (false, true, m)) :
    Rel Q (keyBytes true (D.headTok d).1 (D.headTok d).2 >>= fun _ => match elems.find (indexKey idx) with
        | some e => vrec e d v >>= fun r => check k r
        | none => k v)
      (objItem rec elems true idx g m) := by
  have htk := tkn_eta m data m.tk.pos h.text rfl
  rw [Es.text] at hdrop
  simp only [List.append_assoc] at hdrop
  have hfd : d.Follows (w1 ++ (rest.tail w2 ++ post)) := d.follows_es hw1 rest post
  have s3 := step_head d hd hws hfd hdrop
  have d3 := drop_of_drop hdrop
  unfold objItem
  rw [htk, s3]
  simp only
  rw [if_neg (by
    cases d with
    | lit ty w => have := hd.1; simp only [D.headTok]; intro hh; simp only [if_true] at hh; rw [hh] at this; simp [Tok.isLiteral] at this
    | _ => simp [D.headTok])]
  refine Rel.same _ (fun kb => ?_)
  simp only [if_true]
  refine objValue_rel hrec elems _ (m := { m with tk := ⟨data, _⟩ }) ⟨hd, d3, hfd⟩ (h.tk _) (by simp) k g Q ?_ hQ
  intro v' m' h' hp'
  exact hg v' m' h' (by rw [hp']; exact drop_of_drop d3)

theorem elems_rel {data : List Nat} {rec : Rec E} {vrec : VRec E} (hrec : RecOK data rec vrec) (elems : Elems E)
    (rest : Es) (hd : rest.WF) : ∀ {w1 w2 post : List Nat} (_ : IsWs w1) (_ : IsWs w2) (fuel idx : Nat) {m v}
    (_ : Sim data m v) (_ : data.drop m.tk.pos = w1 ++ (rest.tail w2 ++ post)) (_ : (rest.tail w2).length ≤ fuel),
    Rel (WalkQ data (data.length - post.length)) (vElems vrec elems (idx + 1) rest v) (objLoop rec elems true fuel idx m) := by
  match rest, hd with
  | .nil, _ =>
    intro w1 w2 post hw1 hw2 fuel idx m v h hdrop hfuel
    rw [Es.tail] at hdrop hfuel
    obtain ⟨s1, d1⟩ := step_at (w := [0x5D]) hw1 .arrayEnd (follow_str (by simp) (by simp) _) hdrop
    obtain ⟨f, rfl⟩ : ∃ f, fuel = f + 1 := ⟨fuel - 1, by simp at hfuel; omega⟩
    rw [vElems, objLoop, tkn_eta m data _ h.text rfl, s1]
    refine Rel.ok ⟨rfl, rfl, h.tk _, fun _ => ?_⟩
    have := drop_len hdrop (by simp)
    simp only [List.length_append] at this ⊢; omega
  | .cons d w3 w4 rest, hd =>
    obtain ⟨hv, h3, h4, hr⟩ := hd
    intro w1 w2 post hw1 hw2 fuel idx m v h hdrop hfuel
    have e : (Es.cons d w3 w4 rest).tail w2 = 0x2C :: (w2 ++ (Es.cons d w3 w4 rest).text) := by
      rw [Es.tail, Es.text]
    have e' : (Es.cons d w3 w4 rest).text.length = d.text.length + w3.length + (rest.tail w4).length := by
      rw [Es.text]; simp only [List.length_append]; omega
    rw [e] at hdrop hfuel
    simp only [List.length_cons, List.length_append] at hfuel
    obtain ⟨f, rfl⟩ : ∃ f, fuel = f + 1 := ⟨fuel - 1, by omega⟩
    simp only [List.append_assoc, List.cons_append] at hdrop
    obtain ⟨s1, d1⟩ := step_at (w := [0x2C]) hw1 .listDelim (follow_str (by simp) (by simp) _) hdrop
    rw [vElems, objLoop, tkn_eta m data _ h.text rfl, s1]
    simp only
    refine arrItem_rel (w2 := w4) (rest := rest) hrec elems (idx + 1) hv h3 (h.tk _) hw2 d1 _ _ _ ?_ ?_
    · intro v' m' h' hd'
      exact elems_rel hrec elems rest hr h3 h4 f (idx + 1) h' hd' (by omega)
    · intro v' m' h'
      exact ⟨rfl, rfl, h', fun h => by simp at h⟩

theorem arr_rel {data : List Nat} {rec : Rec E} {vrec : VRec E} (hrec : RecOK data rec vrec) (elems : Elems E)
    (es : Es) (hd : es.WF) {ws post : List Nat} (hws : IsWs ws) {m v} (h : Sim data m v)
    (hdrop : data.drop m.tk.pos = ws ++ (es.text ++ post)) :
    Rel (fun b a => match es with
        | .nil => a.1 = false ∧ a.2.1 = true ∧ Sim data a.2.2 v ∧ b = (false, v) ∧ a.2.2.tk.pos = data.length - post.length
        | _ => WalkQ data (data.length - post.length) b a)
      (vElems vrec elems 0 es v) (matchObjArr rec elems true m) := by
  unfold matchObjArr
  cases es with
  | nil =>
    rw [Es.text] at hdrop
    obtain ⟨s1, d1⟩ := step_at (w := [0x5D]) hws .arrayEnd (follow_str (by simp) (by simp) _) hdrop
    rw [vElems, objItem, tkn_eta m data _ h.text rfl, s1]
    refine Rel.ok ⟨rfl, rfl, h.tk _, rfl, ?_⟩
    have := drop_len hdrop (by simp)
    simp only [List.length_append] at this ⊢; omega
  | cons d w3 w4 rest =>
    obtain ⟨hv, h3, h4, hr⟩ := hd
    rw [vElems]
    refine arrItem_rel (w2 := w4) (rest := rest) hrec elems 0 hv h3 h hws hdrop _ _ _ ?_ ?_
    · intro v' m' h' hd'
      refine elems_rel hrec elems rest hr h3 h4 _ 0 h' hd' ?_
      rw [h.text]
      have := drop_len hd' (by obtain ⟨c, r', e, _⟩ := rest.tail_head w4; rw [e]; simp)
      simp only [List.length_append] at this; omega
    · intro v' m' h'
      exact ⟨rfl, rfl, h', fun h => by simp at h⟩

/-! ### Loops -/

/-- Outcome of a loop's iterations. -/
def ItemsQ (data : List Nat) (e : Nat) (b : Bool × V) (a : Option Bool × M) : Prop :=
  a.1 = some b.1 ∧ Sim data a.2 b.2 ∧ a.2.tk.pos = e

theorem loopItem_rel {data : List Nat} {rec : Rec E} {vrec : VRec E} (hrec : RecOK data rec vrec) (t : Tree) (bucket : Nat)
    (mode : Mode) (node : Exec E) {d : D} {w1 w2 : List Nat} {rest : Es} (hd : d.WF) (hrest : rest.WF)
    (hw1 : IsWs w1) (hw2 : IsWs w2) {m v} (h : Sim data m v) {ws post : List Nat} (hws : IsWs ws)
    (hdrop : data.drop m.tk.pos = ws ++ ((Es.cons d w1 w2 rest).text ++ post)) (st : Bool)
    (g : Bool → M → Res (Option Bool × M))
    (hg : ∀ st v m, Sim data m v → data.drop m.tk.pos = w1 ++ (rest.tail w2 ++ post) →
      Rel (ItemsQ data (data.length - post.length)) (vItems vrec t bucket mode node rest st v) (g st m)) :
    Rel (ItemsQ data (data.length - post.length)) (vItems vrec t bucket mode node (.cons d w1 w2 rest) st v)
      (loopItem rec t bucket mode node g st m) := by
  have htk := tkn_eta m data m.tk.pos h.text rfl
  rw [Es.text] at hdrop
  simp only [List.append_assoc] at hdrop
  have hfd : d.Follows (w1 ++ (rest.tail w2 ++ post)) := d.follows_es hw1 rest post
  have s3 := step_head d hd hws hfd hdrop
  have d3 := drop_of_drop hdrop
  rw [vItems]
  unfold loopItem
  rw [htk, s3, h.bt]
  simp only
  rw [if_neg (by
    cases d with
    | lit ty w => have := hd.1; simp only [D.headTok]; intro hh; rw [hh] at this; simp [Tok.isLiteral] at this
    | _ => simp [D.headTok])]
  refine Rel.same _ (fun bt => ?_)
  refine Rel.bind (hrec node d { m with tk := ⟨data, _⟩, bt := bt } { v with bt := bt } _ _ ⟨hd, d3, hfd⟩
    ((h.tk _).tree bt) (by simp)) ?_
  rintro b a ⟨h1, h2, h3⟩
  simp only [h1, Bool.false_eq_true, if_false]
  cases hb : b.1 with
  | true => exact Rel.stuck
  | false =>
    simp only [Bool.false_eq_true, if_false]
    refine Rel.eq (by rw [h2.bt]) (fun it => ?_)
    have hpos := h3 hb
    have d4 := drop_of_drop d3
    cases mode.leaves it with
    | some bb =>
      simp only
      rw [tkn_eta a.2 data _ h2.text hpos, leave_tail rest hrest hw1 hw2 d4]
      refine Rel.ok ?_
      refine ⟨rfl, ⟨rfl, h2.bt, h2.coll, h2.len, h2.slots⟩, ?_⟩
      have := drop_len d4 (by obtain ⟨c, r', e, _⟩ := rest.tail_head w2; rw [e]; simp)
      simp only [List.length_append] at this ⊢; omega
    | none =>
      simp only
      exact hg _ _ _ h2 (by rw [hpos]; exact d4)

theorem items_rel {data : List Nat} {rec : Rec E} {vrec : VRec E} (hrec : RecOK data rec vrec) (t : Tree) (bucket : Nat)
    (mode : Mode) (node : Exec E) (rest : Es) (hd : rest.WF) : ∀ {w1 w2 post : List Nat} (_ : IsWs w1) (_ : IsWs w2)
    (fuel : Nat) (st : Bool) {m v} (_ : Sim data m v) (_ : data.drop m.tk.pos = w1 ++ (rest.tail w2 ++ post))
    (_ : (rest.tail w2).length ≤ fuel),
    Rel (ItemsQ data (data.length - post.length)) (vItems vrec t bucket mode node rest st v)
      (loopLoop rec t bucket mode node fuel st m) := by
  match rest, hd with
  | .nil, _ =>
    intro w1 w2 post hw1 hw2 fuel st m v h hdrop hfuel
    rw [Es.tail] at hdrop hfuel
    obtain ⟨s1, d1⟩ := step_at (w := [0x5D]) hw1 .arrayEnd (follow_str (by simp) (by simp) _) hdrop
    obtain ⟨f, rfl⟩ : ∃ f, fuel = f + 1 := ⟨fuel - 1, by simp at hfuel; omega⟩
    rw [vItems, loopLoop, tkn_eta m data _ h.text rfl, s1]
    refine Rel.ok ⟨rfl, h.tk _, ?_⟩
    have := drop_len hdrop (by simp)
    simp only [List.length_append] at this ⊢; omega
  | .cons d w3 w4 rest, hd =>
    obtain ⟨hv, h3, h4, hr⟩ := hd
    intro w1 w2 post hw1 hw2 fuel st m v h hdrop hfuel
    have e : (Es.cons d w3 w4 rest).tail w2 = 0x2C :: (w2 ++ (Es.cons d w3 w4 rest).text) := by
      rw [Es.tail, Es.text]
    have e' : (Es.cons d w3 w4 rest).text.length = d.text.length + w3.length + (rest.tail w4).length := by
      rw [Es.text]; simp only [List.length_append]; omega
    rw [e] at hdrop hfuel
    simp only [List.length_cons, List.length_append] at hfuel
    obtain ⟨f, rfl⟩ : ∃ f, fuel = f + 1 := ⟨fuel - 1, by omega⟩
    simp only [List.append_assoc, List.cons_append] at hdrop
    obtain ⟨s1, d1⟩ := step_at (w := [0x2C]) hw1 .listDelim (follow_str (by simp) (by simp) _) hdrop
    rw [loopLoop, tkn_eta m data _ h.text rfl, s1]
    simp only
    refine loopItem_rel hrec t bucket mode node hv hr h3 h4 (h.tk _) hw2 d1 st _ ?_
    intro st' v' m' h' hd'
    exact items_rel hrec t bucket mode node rest hr h3 h4 f st' h' hd' (by omega)

theorem first_items_rel {data : List Nat} {rec : Rec E} {vrec : VRec E} (hrec : RecOK data rec vrec) (t : Tree) (bucket : Nat)
    (mode : Mode) (node : Exec E) (es : Es) (hd : es.WF) {ws post : List Nat} (hws : IsWs ws) {m v} (h : Sim data m v)
    (hdrop : data.drop m.tk.pos = ws ++ (es.text ++ post)) (st : Bool) (fuel : Nat) (hfuel : data.length ≤ fuel) :
    Rel (ItemsQ data (data.length - post.length)) (vItems vrec t bucket mode node es st v)
      (loopItem rec t bucket mode node (loopLoop rec t bucket mode node fuel) st m) := by
  cases es with
  | nil =>
    rw [Es.text] at hdrop
    obtain ⟨s1, d1⟩ := step_at (w := [0x5D]) hws .arrayEnd (follow_str (by simp) (by simp) _) hdrop
    rw [vItems, loopItem, tkn_eta m data _ h.text rfl, s1]
    refine Rel.ok ⟨rfl, h.tk _, ?_⟩
    have := drop_len hdrop (by simp)
    simp only [List.length_append] at this ⊢; omega
  | cons d w3 w4 rest =>
    obtain ⟨hv, h3, h4, hr⟩ := hd
    refine loopItem_rel hrec t bucket mode node hv hr h3 h4 h hws hdrop st _ ?_
    intro st' v' m' h' hd'
    refine items_rel hrec t bucket mode node rest hr h3 h4 fuel st' h' hd' ?_
    have := drop_len hd' (by obtain ⟨c, r', e, _⟩ := rest.tail_head w4; rw [e]; simp)
    simp only [List.length_append] at this; omega

theorem loop_rel {data : List Nat} {rec : Rec E} {vrec : VRec E} (hrec : RecOK data rec vrec) (t : Tree) (bucket : Nat)
    (mode : Mode) (node : Exec E) {d : D} {p : Nat} {post : List Nat} (hat : At data d p post) {m v} (h : Sim data m v)
    (hp : m.tk.pos = p + (D.headTok d).2.length) :
    Rel (fun (b : V) (a : Bool × M) => a.1 = false ∧ Sim data a.2 b ∧
        ((D.headTok d).1 = .arrayStart → a.2.tk.pos = p + d.text.length))
      (vLoop vrec t bucket mode node d v) (matchLoop rec t bucket mode node (D.headTok d).1 m) := by
  cases d with
  | lit ty w =>
    have hne : ty ≠ .arrayStart := by intro e; have := hat.wf.1; rw [e] at this; simp [Tok.isLiteral] at this
    simp only [vLoop, D.headTok, matchLoop, ne_eq, hne, not_false_eq_true, if_true]
    exact Rel.ok ⟨rfl, h, fun hh => hh.elim⟩
  | obj ws ms =>
    simp only [vLoop, D.headTok, matchLoop, ne_eq, reduceCtorEq, not_false_eq_true, if_true]
    exact Rel.ok ⟨rfl, h, fun hh => hh.elim⟩
  | arr ws es =>
    simp only [vLoop, D.headTok, matchLoop, ne_eq, not_true_eq_false, if_false] at hp ⊢
    refine Rel.eq (by rw [h.bt]) (fun r => ?_)
    cases r with
    | true =>
      simp only [if_true]
      have := skip_head (.arr ws es) hat.wf hat.follows hat.drop
      simp only [D.headTok] at this
      rw [tkn_eta m data _ h.text hp, this]
      exact Rel.ok ⟨rfl, h.tk _, fun _ => rfl⟩
    | false =>
      simp only [Bool.false_eq_true, if_false]
      have hdr := hat.drop
      rw [D.text, List.cons_append] at hdr
      have hdr' : data.drop m.tk.pos = ws ++ (es.text ++ post) := by
        rw [hp]
        have := drop_of_drop (a := [0x5B]) (b := ws ++ es.text ++ post) hdr
        simpa using this
      have hlen := drop_len hdr (by simp)
      rw [h.bt]
      refine Rel.bind (first_items_rel hrec t bucket mode node es hat.wf.2 hat.wf.1
        (m := { m with bt := (BinTree.setStallIndex v.bt bucket).1 }) (h.tree _) hdr' mode.init (m.tk.data.length + 1)
        (by rw [h.text]; omega)) ?_
      rintro b a ⟨h1, h2, h3⟩
      simp only [h1]
      refine Rel.eq (by rw [h2.bt]) (fun bt => ?_)
      refine Rel.same _ (fun bt' => ?_)
      refine Rel.ok ⟨rfl, h2.tree _, fun _ => ?_⟩
      simp only [h3, D.text, List.length_cons, List.length_append] at hlen ⊢
      omega

theorem afterLoops_rel {data : List Nat} {r : D} (hr : Begins data r) {rec : Rec E} {vrec : VRec E}
    (hrec : RecOK data rec vrec) (t : Tree) (loops : Loops E) : ∀ {m v} (_ : Sim data m v),
    Rel (fun (b : Bool × V) (a : Flow × M) => a.1 = (if b.1 then .done else .go) ∧ Sim data a.2 b.2)
      (vAfterLoops vrec t r loops v) (afterLoops rec t loops m) := by
  match loops with
  | .nil => intro m v h; exact Rel.ok ⟨rfl, h⟩
  | .cons bucket mode target node rest =>
    intro m v h
    match target with
    | none => rw [vAfterLoops, afterLoops] <;> first | exact Rel.panic | (intros; simp at *)
    | some (.val _) => rw [vAfterLoops, afterLoops] <;> first | exact Rel.panic | (intros; simp at *)
    | some .lit => rw [vAfterLoops, afterLoops] <;> first | exact Rel.panic | (intros; simp at *)
    | some (.fn _ _) => rw [vAfterLoops, afterLoops] <;> first | exact Rel.panic | (intros; simp at *)
    | some (.slot s) =>
      rw [vAfterLoops, afterLoops]
      by_cases hs : s = 0
      · rw [if_pos hs, if_pos hs]; exact Rel.panic
      · rw [if_neg hs, if_neg hs]
        cases hp : m.slots[s - 1]? with
        | none =>
          have : v.slots[s - 1]? = none := by rw [List.getElem?_eq_none_iff] at hp ⊢; rw [← h.len]; exact hp
          simp [Res.idx, hp, this, Rel]
        | some p =>
          have hlt : s - 1 < v.slots.length := by
            rw [← h.len]; exact (List.getElem?_eq_some_iff.1 hp).1
          have ho : v.slots[s - 1]? = some v.slots[s - 1] := List.getElem?_eq_getElem hlt
          generalize v.slots[s - 1] = o at ho
          have hR := h.slots _ _ _ hp ho
          simp only [Res.idx, hp, ho, Res.bind_ok, seek, h.text]
          have key : ∃ q post, At data (o.getD r) q post ∧
              step ⟨data, p.1⟩ = (some (D.headTok (o.getD r)), ⟨data, q + (D.headTok (o.getD r)).2.length⟩) := by
            cases o with
            | none =>
              have hR : p = (0, 0) := hR
              subst hR
              obtain ⟨ws, ws', h1, e, hf⟩ := hr.root
              exact ⟨ws.length, ws', ⟨hr.wf, by have := drop_of_drop e; simpa using this, hf⟩, by
                have := step_head r hr.wf h1 hf e; simpa using this⟩
            | some d =>
              obtain ⟨hsz, post, hat⟩ := hR
              exact ⟨p.1, post, hat, by
                have := step_head d hat.wf (ws := []) (by simp [IsWs]) hat.follows hat.drop; simpa using this⟩
          obtain ⟨q, post, hat, hst⟩ := key
          rw [hst]
          simp only
          refine Rel.bind (loop_rel hrec t bucket mode node hat (h.tk _) rfl) ?_
          rintro b a ⟨h1, h2, _⟩
          simp only [h1, Bool.false_eq_true, if_false]
          refine Rel.eq (by rw [h2.bt]) (fun dd => ?_)
          cases dd with
          | true => exact Rel.ok ⟨rfl, h2⟩
          | false => exact afterLoops_rel hr hrec t rest h2

theorem after_rel (X : Fns E) {data : List Nat} {r : D} (hr : Begins data r) {rec : Rec E} {vrec : VRec E}
    (hrec : RecOK data rec vrec) (t : Tree) (ops : List (Op E)) (loops : Loops E) {m v} (h : Sim data m v) :
    Rel (fun (b : Bool × V) (a : M) => Sim data a b.2 ∧ (b.1 = false → a.tk.pos = m.tk.pos))
      (vAfter X vrec t r ops loops v) (matchAfter X rec t ops loops m) := by
  unfold vAfter matchAfter
  refine Rel.bind (afterLoops_rel hr hrec t loops h) ?_
  rintro b a ⟨h1, h2⟩
  cases hb : b.1 with
  | true =>
    simp only [hb, if_true] at h1 ⊢
    rw [h1]
    exact Rel.ok ⟨h2, fun h => by simp [hb] at h⟩
  | false =>
    simp only [hb, Bool.false_eq_true, if_false] at h1 ⊢
    rw [h1]
    simp only
    have := Rel.bind (Q' := fun (b : Bool × V) (a : M) => Sim data a b.2 ∧ (b.1 = false → a.tk.pos = m.tk.pos))
      (f := fun o => .ok o)
      (g := fun o => if o.1 then .ok o.2 else .ok { o.2 with tk := seek o.2.tk m.tk.pos }) (ops_rel X t hr h2 none ops) (by
        rintro b' a' ⟨e1, e2, e3⟩
        cases hb' : b'.1 with
        | true => rw [hb'] at e1; simp only [e1, if_true]; exact Rel.ok ⟨e2, fun h => by simp [hb'] at h⟩
        | false =>
          rw [hb'] at e1; simp only [e1, Bool.false_eq_true, if_false]
          refine Rel.ok ⟨?_, fun _ => rfl⟩
          rw [seek, show a'.2.tk.data = data from e2.text]
          exact e2.tk _)
    have e : (opsV X t r none ops b.2 >>= fun o => .ok o) = opsV X t r none ops b.2 := by
      cases opsV X t r none ops b.2 <;> rfl
    rw [e] at this
    exact this

theorem arrayLoops_rel {data : List Nat} {rec : Rec E} {vrec : VRec E}
    (hrec : RecOK data rec vrec) (t : Tree) {ws : List Nat} {es : Es} {p : Nat} {post : List Nat} (hat : At data (.arr ws es) p post)
    (loops : Loops E) : ∀ {m v} (first : Bool) (_ : Sim data m v) (_ : first = true → m.tk.pos = p + 1)
      (_ : first = false ∨ loops.isEmpty = true → m.tk.pos = p + (D.arr ws es).text.length),
    Rel (fun (b : Bool × V) (a : Flow × M) => a.1 = (if b.1 then .done else .go) ∧ Sim data a.2 b.2 ∧
        (b.1 = false → a.2.tk.pos = p + (D.arr ws es).text.length))
      (vArrayLoops vrec t (.arr ws es) loops v) (arrayLoops rec t (p + 1) loops first m) := by
  match loops with
  | .nil => intro m v first h _ h2; exact Rel.ok ⟨rfl, h, fun _ => h2 (Or.inr rfl)⟩
  | .cons bucket mode target node rest =>
    intro m v first h hp _
    cases target with
    | some x => rw [vArrayLoops, arrayLoops] <;> first | exact Rel.panic | (intros; simp at *)
    | none =>
      rw [vArrayLoops, arrayLoops]
      have hm : ∃ m0 : M, (if first = true then m else { m with tk := seek m.tk (p + 1) }) = m0 ∧ Sim data m0 v ∧ m0.tk.pos = p + 1 := by
        cases first with
        | true => exact ⟨m, rfl, h, hp rfl⟩
        | false => exact ⟨_, rfl, by rw [if_neg (by simp), seek, h.text]; exact h.tk _, rfl⟩
      obtain ⟨m0, e, h0, hp0⟩ := hm
      rw [e]
      refine Rel.bind (loop_rel hrec t bucket mode node hat h0 hp0) ?_
      rintro b a ⟨h1, h2, h3⟩
      simp only [h1, Bool.false_eq_true, if_false]
      refine Rel.eq (by rw [h2.bt]) (fun dd => ?_)
      cases dd with
      | true => exact Rel.ok ⟨rfl, h2, fun h => by simp at h⟩
      | false => exact arrayLoops_rel hrec t hat rest false h2 (by simp) (fun _ => h3 rfl)

/-! ### The end of a node -/

/-- Result of `matchExec`. -/
def ExecQ (data : List Nat) (e : Nat) (b : Bool × V) (a : Bool × M) : Prop :=
  a.1 = false ∧ Sim data a.2 b.2 ∧ (b.1 = false → a.2.tk.pos = e)

theorem Sim.store {data m v} (h : Sim data m v) {i : Nat} {p : Nat × Nat} {o : Option D} (hR : SlotRel data p o) :
    Sim data { m with slots := m.slots.set i p } { v with slots := v.slots.set i o } := by
  refine ⟨h.text, h.bt, h.coll, by simp [h.len], ?_⟩
  intro j q o' hq ho
  simp only [List.getElem?_set] at hq ho
  by_cases hij : i = j
  · subst hij
    simp only [if_true] at hq ho
    split at hq
    · split at ho
      · simp at hq ho; subst hq; subst ho; exact hR
      · simp at ho
    · simp at hq
  · rw [if_neg hij] at hq ho
    exact h.slots j q o' hq ho

theorem finish_rel (X : Fns E) {data : List Nat} {r : D} (hr : Begins data r) {rec : Rec E} {vrec : VRec E}
    (hrec : RecOK data rec vrec) (t : Tree) (store : Nat) (after : After E) {d : D} {p : Nat} {post : List Nat}
    (hat : At data d p post) {m v} (h : Sim data m v) (hp : m.tk.pos = p + d.text.length) :
    Rel (ExecQ data (p + d.text.length)) (vFinish X vrec t r store after d v) (finish X rec t store after p m) := by
  have hk : ∀ {m v}, Sim data m v → m.tk.pos = p + d.text.length →
      Rel (ExecQ data (p + d.text.length))
        (if store = 0 then Res.ok (false, v)
          else if store - 1 < v.slots.length then Res.ok (false, { v with slots := v.slots.set (store - 1) (some d) })
          else .panic)
        (if store = 0 then Res.ok (false, m)
          else if store - 1 < m.slots.length then
            Res.ok (false, { m with slots := m.slots.set (store - 1) (p, m.tk.pos - p) })
          else .panic) := by
    intro m v h hp
    by_cases hs : store = 0
    · rw [if_pos hs, if_pos hs]; exact Rel.ok ⟨rfl, h, fun _ => hp⟩
    · rw [if_neg hs, if_neg hs, h.len]
      by_cases hl : store - 1 < v.slots.length
      · rw [if_pos hl, if_pos hl]
        exact Rel.ok ⟨rfl, h.store ⟨by simp only; omega, post, hat⟩, fun _ => hp⟩
      · rw [if_neg hl, if_neg hl]; exact Rel.panic
  unfold vFinish finish
  cases after with
  | none => exact hk h hp
  | some ops loops =>
    simp only
    refine Rel.bind (after_rel X hr hrec t ops loops h) ?_
    rintro b a ⟨h1, h2⟩
    unfold check
    refine Rel.eq (by rw [h1.bt]) (fun dd => ?_)
    cases dd with
    | true => exact Rel.ok ⟨rfl, h1, fun h => by simp at h⟩
    | false =>
      simp only [Bool.false_eq_true, if_false]
      cases hb : b.1 with
      | true => exact Rel.stuck
      | false => exact hk h1 (by rw [h2 hb, hp])

theorem opsThen_rel (X : Fns E) {data : List Nat} {r : D} (hr : Begins data r) {rec : Rec E} {vrec : VRec E}
    (hrec : RecOK data rec vrec) (t : Tree) (ops : List (Op E)) (store : Nat) (after : After E) {d : D} {p : Nat} {post : List Nat}
    (hat : At data d p post) {m v} (h : Sim data m v) (hp : m.tk.pos = p + d.text.length) (val : FV E) :
    Rel (ExecQ data (p + d.text.length))
      (opsV X t r (some val) ops v >>= fun o => if o.1 then .ok o else vFinish X vrec t r store after d o.2)
      (opsThen X rec t ops val store after p m) := by
  unfold opsThen
  refine Rel.bind (ops_rel X t hr h (some val) ops) ?_
  rintro b a ⟨h1, h2, h3⟩
  rw [h1]
  cases hb : b.1 with
  | true =>
    simp only [if_true]
    exact Rel.ok ⟨rfl, h2, fun h => by simp [hb] at h⟩
  | false =>
    simp only [Bool.false_eq_true, if_false]
    exact finish_rel X hr hrec t store after hat h2 (by rw [h3]; exact hp)

theorem execObj_rel (X : Fns E) {data : List Nat} {r : D} (hr : Begins data r) {rec : Rec E} {vrec : VRec E}
    (hrec : RecOK data rec vrec) (t : Tree) (store : Nat) (elems : Elems E) (ops : List (Op E)) (after : After E)
    {ws : List Nat} {ms : Ms} {p : Nat} {post : List Nat} (hat : At data (.obj ws ms) p post) {m v} (h : Sim data m v)
    (hp : m.tk.pos = p + 1) :
    Rel (ExecQ data (p + (D.obj ws ms).text.length)) (vObj X vrec t r store elems ops after ws ms v)
      (execObj X rec t store elems ops after p m) := by
  have hdr := hat.drop
  have hlen := drop_len hdr (by rw [D.text]; simp)
  have hend : data.length - post.length = p + (D.obj ws ms).text.length := by
    simp only [List.length_append] at hlen; omega
  have hdr' : data.drop m.tk.pos = ws ++ (ms.text ++ post) := by
    rw [hp]
    rw [D.text, List.cons_append] at hdr
    have := drop_of_drop (a := [0x7B]) (b := ws ++ ms.text ++ post) hdr
    simpa using this
  have hk : ∀ {m' v'}, Sim data m' v' → m'.tk.pos = p + (D.obj ws ms).text.length →
      Rel (ExecQ data (p + (D.obj ws ms).text.length)) (vOpsThen X vrec t r ops store after (.obj ws ms) v')
        (sliceOf m.tk.data (m.tk.pos - 1) m'.tk.pos >>= fun b => opsThen X rec t ops ⟨.obj b, false⟩ store after p m') := by
    intro m' v' h' hp'
    rw [h.text, hp, hp', Nat.add_sub_cancel, sliceOf_text (by rw [D.text]; simp) hat.drop]
    exact opsThen_rel X hr hrec t ops store after hat h' hp' _
  unfold vObj execObj
  cases he : elems.isEmpty with
  | true =>
    simp only [if_true]
    have := skip_head (.obj ws ms) hat.wf hat.follows hat.drop
    simp only [D.headTok] at this
    rw [tkn_eta m data _ h.text hp] at hk ⊢
    rw [show p + 1 = p + [123].length from rfl, this]
    simp only [Res.bind_ok]
    exact hk (h.tk _) rfl
  | false =>
    simp only [Bool.false_eq_true, if_false]
    refine Rel.bind (obj_rel hrec elems ms hat.wf.2 hat.wf.1 h hdr') ?_
    intro b a hQ
    have ha1 : a.1 = false ∧ Sim data a.2.2 b.2 := by
      cases ms with
      | nil => exact ⟨hQ.1, by rw [hQ.2.2.2.1]; exact hQ.2.2.1⟩
      | cons => exact ⟨hQ.1, hQ.2.2.1⟩
    rw [ha1.1]
    have hA : Rel (fun (b' : Bool × V) (a' : M) => Sim data a' b'.2 ∧ (b'.1 = false → a'.tk.pos = a.2.2.tk.pos))
        (match (generalizing := false) after with
          | .some aops aloops => vAfter X vrec t r aops aloops b.2
          | .none => .ok (false, b.2))
        (match (generalizing := false) false, after with
          | false, .some aops aloops => matchAfter X rec t aops aloops a.2.2
          | _, _ => .ok a.2.2) := by
      cases after with
      | none => exact Rel.ok ⟨ha1.2, fun _ => rfl⟩
      | some aops aloops => exact after_rel X hr hrec t aops aloops ha1.2
    refine Rel.bind hA ?_
    rintro b' a' ⟨h1, h2⟩
    cases ms with
    | nil =>
      obtain ⟨_, e2, e3, e4, e5⟩ := hQ
      simp only [e2, if_true]
      exact Rel.ok ⟨rfl, h1, fun hb => by rw [h2 hb, e5, hend]⟩
    | cons kty key k1 k2 d w1 w2 rest =>
      obtain ⟨_, e2, e3, e4⟩ := hQ
      simp only [e2]
      cases hb : b.1 with
      | true =>
        simp only [if_true]
        exact Rel.ok ⟨rfl, h1, fun hb => by simp at hb⟩
      | false =>
        simp only [Bool.false_eq_true, if_false, check]
        refine Rel.eq (by rw [h1.bt]) (fun dd => ?_)
        cases dd with
        | true => exact Rel.ok ⟨rfl, h1, fun h => by simp at h⟩
        | false =>
          simp only [Bool.false_eq_true, if_false]
          cases hb' : b'.1 with
          | true => exact Rel.stuck
          | false => exact hk h1 (by rw [h2 hb', e4 hb, hend])

theorem execArr_rel (X : Fns E) {data : List Nat} {r : D} (hr : Begins data r) {rec : Rec E} {vrec : VRec E}
    (hrec : RecOK data rec vrec) (t : Tree) (store : Nat) (elems : Elems E) (ops : List (Op E)) (loops : Loops E) (after : After E)
    {ws : List Nat} {es : Es} {p : Nat} {post : List Nat} (hat : At data (.arr ws es) p post) {m v} (h : Sim data m v)
    (hp : m.tk.pos = p + 1) :
    Rel (ExecQ data (p + (D.arr ws es).text.length)) (vArr X vrec t r store elems ops loops after ws es v)
      (execArr X rec t store elems ops loops after p m) := by
  have hdr := hat.drop
  have hlen := drop_len hdr (by rw [D.text]; simp)
  have hend : data.length - post.length = p + (D.arr ws es).text.length := by
    simp only [List.length_append] at hlen; omega
  have hdr' : data.drop m.tk.pos = ws ++ (es.text ++ post) := by
    rw [hp]
    rw [D.text, List.cons_append] at hdr
    have := drop_of_drop (a := [0x5B]) (b := ws ++ es.text ++ post) hdr
    simpa using this
  have hk : ∀ {m' v'}, Sim data m' v' → m'.tk.pos = p + (D.arr ws es).text.length →
      Rel (ExecQ data (p + (D.arr ws es).text.length)) (vOpsThen X vrec t r ops store after (.arr ws es) v')
        (sliceOf m.tk.data (m.tk.pos - 1) m'.tk.pos >>= fun b => opsThen X rec t ops ⟨.arr b, false⟩ store after p m') := by
    intro m' v' h' hp'
    rw [h.text, hp, hp', Nat.add_sub_cancel, sliceOf_text (by rw [D.text]; simp) hat.drop]
    exact opsThen_rel X hr hrec t ops store after hat h' hp' _
  unfold vArr execArr
  cases he : loops.isEmpty with
  | true =>
    simp only [if_true]
    have hA := arr_rel hrec elems es hat.wf.2 hat.wf.1 h hdr'
    cases es with
    | nil =>
      simp only [vElems] at hA
      cases hm : matchObjArr rec elems true m with
      | ok a =>
        rw [hm] at hA
        obtain ⟨e1, e2, e3, _, e5⟩ := hA
        simp only [Res.bind_ok, e1, e2, if_true]
        exact Rel.ok ⟨rfl, e3, fun _ => by rw [e5, hend]⟩
      | panic => rw [hm] at hA; exact hA.elim
      | stuck => rw [hm] at hA; exact hA.elim
    | cons d w1 w2 rest =>
      refine Rel.bind hA ?_
      rintro b a ⟨e1, e2, e3, e4⟩
      simp only [e1, e2]
      cases hb : b.1 with
      | true =>
        simp only [if_true]
        exact Rel.ok ⟨rfl, e3, fun h => by simp [hb] at h⟩
      | false =>
        simp only [Bool.false_eq_true, if_false]
        exact hk e3 (by rw [e4 hb, hend])
  | false =>
    simp only [Bool.false_eq_true, if_false]
    rw [hp]
    rw [hp] at hk
    refine Rel.bind (arrayLoops_rel hrec t hat loops true h (fun _ => hp) (by simp [he])) ?_
    rintro b a ⟨h1, h2, h3⟩
    rw [h1]
    cases hb : b.1 with
    | true =>
      simp only [if_true]
      exact Rel.ok ⟨rfl, h2, fun h => by simp [hb] at h⟩
    | false =>
      simp only [Bool.false_eq_true, if_false]
      exact hk h2 (h3 hb)

/-- The byte-level `matchExec` follows the document-level one. -/
theorem exec_rel (X : Fns E) (t : Tree) {data : List Nat} {r : D} (hr : Begins data r) (h : Nat) :
    RecOK data (matchExec X t h) (vExec X t r h) := by
  induction h with
  | zero => intro node d m v p post _ _ _; exact Rel.stuck
  | succ h ih =>
    intro node d m v p post hat hs hp
    cases node with
    | mk store elems ops loops after =>
      have hstart : m.tk.pos - (D.headTok d).2.length = p := by omega
      rw [matchExec, vExec]
      simp only [hstart]
      cases d with
      | lit ty w =>
        have hl : ty.isLiteral = true := scalar_iff.1 hat.wf.1
        simp only [D.headTok, hl, if_true]
        rw [vOpsThen, valOf]
        refine Rel.same _ (fun val => ?_)
        exact opsThen_rel X hr ih t ops store after hat hs hp val
      | arr ws es =>
        simp only [D.headTok, Tok.isLiteral, Bool.false_eq_true, if_false]
        exact execArr_rel X hr ih t store elems ops loops after hat hs hp
      | obj ws ms =>
        simp only [D.headTok, Tok.isLiteral, Bool.false_eq_true, if_false]
        exact execObj_rel X hr ih t store elems ops after hat hs hp

/-- `Match` on any text of a document follows the document-level run. -/
theorem run_rel (X : Fns E) (df : Def E) {data : List Nat} {r : D} (hr : Begins data r) {m : M} {v : V}
    (hs : Sim data { m with tk := ⟨data, 0⟩ } v) :
    Rel (fun (b : Bool × V) (a : Option Bool × M) => a.1 = some b.1 ∧ Sim data a.2 b.2) (vRun X df v r) (run X df m data) := by
  obtain ⟨ws, ws', h1, e, hf⟩ := hr.root
  have hne : data ≠ [] := by
    intro hd; rw [hd] at e; simp at e
    have := D.text_pos r hr.wf; simp [e.2.1] at this
  unfold vRun run
  simp only
  rw [if_neg hne, step_head r hr.wf h1 hf e]
  simp only
  cases df.parse with
  | none => exact Rel.panic
  | some node =>
    simp only
    have hat : At data r ws.length ws' := ⟨hr.wf, by have := drop_of_drop e; simpa using this, hf⟩
    refine Rel.bind (exec_rel X df.tree hr node.height node r { m with tk := ⟨data, _⟩ } v ws.length ws' hat (hs.tk _) (by simp)) ?_
    rintro b a ⟨a1, a2, _⟩
    simp only [a1, Bool.false_eq_true, if_false]
    refine Rel.eq (by rw [a2.bt]) (fun bt => ?_)
    refine Rel.same _ (fun bb => ?_)
    exact Rel.ok ⟨rfl, a2.tree _⟩

end Verif.Match
