import Verif.Composer.Safe
import Verif.Composer.Spec

/-!
# C36: removing items keeps exactly the other items
-/

namespace Verif.Composer
open Verif.Token

/-- The composer after a write that fits. -/
def wr (c : C) (w : List Nat) (ty : Tok) : C :=
  ⟨c.cap, (if ty = .objectEnd ∧ c.prev = .listDelim then c.out.dropLast else c.out) ++ w, ty⟩

theorem write_wr (c : C) (w : List Nat) (ty : Tok) (h : c.out.length + w.length ≤ c.cap) (hp : c.prev = .listDelim → c.out ≠ []) :
    write c w ty = .ok (wr c w ty) := by
  unfold write wr
  by_cases h1 : ty = .objectEnd ∧ c.prev = .listDelim
  · rw [if_pos h1, if_neg (hp h1.2), if_pos (by rw [List.length_dropLast]; omega), if_pos h1]
  · rw [if_neg h1, if_pos h, if_neg h1]

theorem wr_plain (c : C) (w : List Nat) (ty : Tok) (h : ty ≠ .objectEnd ∨ c.prev ≠ .listDelim) : wr c w ty = ⟨c.cap, c.out ++ w, ty⟩ := by
  unfold wr
  rw [if_neg (by rintro ⟨a, b⟩; rcases h with h | h <;> contradiction)]

/-- Iterations that go on. -/
inductive Runs (keys : List (List Nat)) : St → St → Prop where
  | refl (s) : Runs keys s s
  | head {s s1 s2} (h : turn keys s = .ok (.go s1)) (h2 : Runs keys s1 s2) : Runs keys s s2

theorem Runs.trans {keys : List (List Nat)} {a b c : St} (h : Runs keys a b) (h2 : Runs keys b c) : Runs keys a c := by
  induction h with
  | refl => exact h2
  | head h _ ih => exact .head h (ih h2)

theorem Runs.one {keys : List (List Nat)} {a b : St} (h : turn keys a = .ok (.go b)) : Runs keys a b := .head h (.refl _)

theorem Runs.inv {keys : List (List Nat)} {n : Nat} {a b : St} (h : Runs keys a b) (i : Inv n a) : Inv n b := by
  induction h with
  | refl => exact i
  | head h _ ih =>
    obtain ⟨t, ht, hs⟩ := turn_ok n keys _ i
    rw [h] at ht
    cases ht
    exact ih hs.1

theorem fits {n : Nat} {s : St} (i : Inv n s) {ty : Tok} {w : List Nat} {k : Tkn} (hs : step s.tk = (some (ty, w), k))
    (hty : ty ≠ .end_) : s.comp.out.length + w.length ≤ s.comp.cap ∧ s.comp.out.length + w.length ≤ k.pos ∧ k.pos ≤ s.comp.cap := by
  obtain ⟨e1, e2, e3, e4⟩ := step_facts hs (by rw [i.len]; exact i.pos)
  obtain ⟨_, _, hp⟩ := e4 hty
  have h1 := i.out
  have h2 := i.cap
  have h3 := i.len
  omega

theorem turn_open {keys : List (List Nat)} {n : Nat} {s : St} (i : Inv n s) {ty : Tok} {w : List Nat} {k : Tkn}
    (hs : step s.tk = (some (ty, w), k)) (hty : ty = .objectStart ∨ ty = .arrayStart) :
    turn keys s = .ok (.go ⟨k, ⟨s.comp.cap, s.comp.out ++ w, ty⟩, s.depth + 1, s.removed⟩) := by
  rw [turn, hs]
  have hw := write_wr s.comp w ty (fits i hs (by rcases hty with rfl | rfl <;> simp)).1 i.prev
  rw [wr_plain _ _ _ (.inl (by rcases hty with rfl | rfl <;> simp))] at hw
  rcases hty with rfl | rfl <;> simp only [hw, Res.bind_ok]

theorem turn_close {keys : List (List Nat)} {n : Nat} {s : St} (i : Inv n s) {ty : Tok} {w : List Nat} {k : Tkn}
    (hs : step s.tk = (some (ty, w), k)) (hty : ty = .objectEnd ∨ ty = .arrayEnd) (hd : s.depth ≠ 0) :
    turn keys s = .ok (.go ⟨k, wr s.comp w ty, s.depth - 1, s.removed⟩) := by
  rw [turn, hs]
  have hw := write_wr s.comp w ty (fits i hs (by rcases hty with rfl | rfl <;> simp)).1 i.prev
  rcases hty with rfl | rfl <;> simp only [hw, Res.bind_ok, if_neg hd]

/-- Tokens of the default case. -/
def Other (ty : Tok) : Prop :=
  ty = .objectKeyDelim ∨ ty = .listDelim ∨ ty = .escString ∨ ty = .integer ∨ ty = .number ∨ ty = .null ∨ ty = .tru ∨ ty = .fals

theorem turn_other {keys : List (List Nat)} {n : Nat} {s : St} (i : Inv n s) {ty : Tok} {w : List Nat} {k : Tkn}
    (hs : step s.tk = (some (ty, w), k)) (hty : Other ty) :
    turn keys s = .ok (.go ⟨k, ⟨s.comp.cap, s.comp.out ++ w, ty⟩, s.depth, s.removed⟩) := by
  rw [turn, hs]
  have hne : ty ≠ .end_ ∧ ty ≠ .objectEnd := by rcases hty with rfl | rfl | rfl | rfl | rfl | rfl | rfl | rfl <;> simp
  have hw := write_wr s.comp w ty (fits i hs hne.1).1 i.prev
  rw [wr_plain _ _ _ (.inl hne.2)] at hw
  rcases hty with rfl | rfl | rfl | rfl | rfl | rfl | rfl | rfl <;> simp only [hw, Res.bind_ok]

/-- The depth after a value (`p`: a plain string) and the delimiter `ty`. -/
def after (p : Bool) (ty : Tok) (d : Nat) : Nat :=
  if ty = .listDelim then d else if ty = .arrayEnd ∧ p = true then d else d - 1

/-- A string and the delimiter behind it. -/
theorem turn_str {keys : List (List Nat)} {n : Nat} {s : St} (i : Inv n s) {w w2 : List Nat} {k k2 : Tkn} {ty2 : Tok}
    (hs : step s.tk = (some (.string, w), k)) (hs2 : step k = (some (ty2, w2), k2))
    (hty : ty2 = .listDelim ∨ ty2 = .objectEnd ∨ ty2 = .arrayEnd) (hd : s.depth ≠ 0) :
    turn keys s = .ok (.go ⟨k2, ⟨s.comp.cap, s.comp.out ++ w ++ w2, ty2⟩, after true ty2 s.depth, s.removed⟩) := by
  have hf := fits i hs (by simp)
  have hw := write_wr s.comp w .string hf.1 i.prev
  rw [wr_plain _ _ _ (.inl (by simp))] at hw
  obtain ⟨e1, e2, e3, _⟩ := step_facts hs (by rw [i.len]; exact i.pos)
  obtain ⟨f1, f2, f3, f4⟩ := step_facts hs2 (by rw [e1]; exact e3)
  obtain ⟨_, _, hp⟩ := f4 (by rcases hty with rfl | rfl | rfl <;> simp)
  have h2 := i.cap
  have h3 := i.len
  have e1' : k.data.length = n := by rw [e1]; exact h3
  have hw2 := write_wr ⟨s.comp.cap, s.comp.out ++ w, .string⟩ w2 ty2 (by simp only [List.length_append]; omega) (fun h => by cases h)
  rw [wr_plain _ _ _ (.inr (by simp))] at hw2
  rw [turn, hs]
  simp only [strTurn, hs2]
  rcases hty with rfl | rfl | rfl <;> simp [hw, hw2, Res.bind_ok, after, hd]

theorem inner_eq {b : List Nat} : inner (0x22 :: (b ++ [0x22])) = b := by simp [inner]

theorem inner_slice (key : List Nat) (h : 2 ≤ key.length) : (key.drop 1).take (key.length - 2) = inner key := by
  unfold inner
  rw [List.dropLast_eq_take, ← List.drop_one, List.length_drop]
  congr 1

theorem removeLoop_miss (key : List Nat) : ∀ (ns : List (List Nat)) (m : Bool) (s : St), key ∉ ns → removeLoop key ns m s = .ok (some (m, s))
  | [], _, _, _ => rfl
  | x :: ns, m, s, h => by
    rw [removeLoop, if_neg (by rintro rfl; exact h (List.mem_cons_self ..))]
    exact removeLoop_miss key ns m s (fun h' => h (List.mem_cons_of_mem _ h'))

theorem removeLoop_hit (key : List Nat) {s s' : St} (h1 : removeOne key s = .ok (some s')) :
    ∀ (ns : List (List Nat)) (m : Bool), key ∈ ns → ns.Nodup → removeLoop key ns m s = .ok (some (true, s'))
  | [], _, h, _ => by cases h
  | x :: ns, m, h, hn => by
    rw [List.nodup_cons] at hn
    rw [removeLoop]
    by_cases hx : key = x
    · subst hx
      rw [if_pos rfl, h1, Res.bind_ok]
      exact removeLoop_miss key ns true s' hn.1
    · rw [if_neg hx]
      exact removeLoop_hit key h1 ns m ((List.mem_cons.1 h).resolve_left hx) hn.2

/-- A key that stays, with its colon. -/
theorem turn_key {keys : List (List Nat)} {n : Nat} {s : St} (i : Inv n s) {w w2 : List Nat} {k k2 : Tkn}
    (hs : step s.tk = (some (.string, w), k)) (hs2 : step k = (some (.objectKeyDelim, w2), k2)) (hk : inner w ∉ keys) :
    turn keys s = .ok (.go ⟨k2, ⟨s.comp.cap, s.comp.out ++ w ++ w2, .string⟩, s.depth, s.removed⟩) := by
  have hf := fits i hs (by simp)
  have hw := write_wr s.comp w .string hf.1 i.prev
  rw [wr_plain _ _ _ (.inl (by simp))] at hw
  obtain ⟨e1, e2, e3, e4⟩ := step_facts hs (by rw [i.len]; exact i.pos)
  obtain ⟨f1, f2, f3, f4⟩ := step_facts hs2 (by rw [e1]; exact e3)
  obtain ⟨_, _, hp⟩ := f4 (by simp)
  have h2 := i.cap
  have h3 := i.len
  have e1' : k.data.length = n := by rw [e1]; exact h3
  have hw2 := write_wr ⟨s.comp.cap, s.comp.out ++ w, .string⟩ w2 .string (by simp only [List.length_append]; omega) (fun h => by cases h)
  rw [wr_plain _ _ _ (.inr (by simp))] at hw2
  have hl : ¬ w.length < 2 := by cases (e4 (by simp)).2.1; simp
  rw [turn, hs]
  simp only [strTurn, hs2, if_true, keyTurn]
  rw [if_neg hl, inner_slice w (by omega), removeLoop_miss _ _ _ _ hk, Res.bind_ok]
  simp only [hw, hw2, Res.bind_ok]

/-- A key that goes, with its colon, value and delimiter. -/
theorem turn_gone {keys : List (List Nat)} {s s' : St} {n : Nat} (i : Inv n s) {w w2 : List Nat} {k k2 : Tkn}
    (hs : step s.tk = (some (.string, w), k)) (hs2 : step k = (some (.objectKeyDelim, w2), k2)) (hk : inner w ∈ keys)
    (hn : keys.Nodup) (hr : removeOne (inner w) { s with tk := k2 } = .ok (some s')) : turn keys s = .ok (.go s') := by
  obtain ⟨e1, e2, e3, e4⟩ := step_facts hs (by rw [i.len]; exact i.pos)
  have hl : ¬ w.length < 2 := by cases (e4 (by simp)).2.1; simp
  rw [turn, hs]
  simp only [strTurn, hs2, if_true, keyTurn]
  rw [if_neg hl, inner_slice w (by omega), removeLoop_hit _ hr _ _ hk hn, Res.bind_ok]

/-- The value loop inside a container does what leaving the container does. -/
theorem valueLoop_leave (fuel : Nat) : ∀ (d : Nat) (k k' : Tkn), k.pos ≤ k.data.length → leaveLoop fuel d k = .ok (false, k') →
    valueLoop fuel (d + 1) k = .ok (some k') := by
  induction fuel with
  | zero => intro d k k' _ h; cases h
  | succ fuel ih =>
    intro d k k' hp h
    rw [leaveLoop] at h
    rw [valueLoop]
    rcases hs : step k with ⟨r, k1⟩
    rw [hs] at h
    cases r with
    | none => simp at h
    | some p =>
      obtain ⟨ty, w⟩ := p
      obtain ⟨e1, e2, e3, e4⟩ := step_facts hs hp
      have ih' := fun d h => ih d k1 k' (by rw [e1]; exact e3) h
      cases ty <;> simp only [Tok.isLiteral, if_true, if_false, Bool.false_eq_true] at h ⊢
      all_goals first
        | exact ih' _ h
        | (by_cases h0 : d = 0
           · rw [if_pos h0] at h; rw [if_pos (by omega)]; cases h; rfl
           · rw [if_neg h0] at h; rw [if_neg (by omega), if_neg (by omega)]
             have := ih' _ h
             rw [show d - 1 + 1 = d from by omega] at this
             rw [show d + 1 - 1 = d from by omega]
             exact this)
        | cases h
        | (rw [if_neg (by omega)]; exact ih' _ h)
        | exact absurd (e4 (by simp)).2.1 (by intro h; cases h)

theorem valueLoop_cont {k k1 k' : Tkn} {ty : Tok} {w : List Nat} {ts : List (Tok × List Nat)} (hp : k.pos ≤ k.data.length)
    (hs : step k = (some (ty, w), k1)) (hty : ty = .objectStart ∨ ty = .arrayStart) (hc : Closes ts) (hr : Reads k1 ts k') :
    valueLoop (k.data.length + 1) 0 k = .ok (some k') := by
  obtain ⟨e1, e2, e3, e4⟩ := step_facts hs hp
  obtain ⟨hw, _, h3⟩ := e4 (by rcases hty with rfl | rfl <;> simp)
  have hwl := List.length_pos_iff.2 hw
  have h1 := leaveLoop_mono _ 0 k1 (leaveLoop_total k.data.length 0 k1 (by rw [e1]; omega) (by rw [e1]; exact e3)) ts.length
  have h2 := hc k1 k' k.data.length hr
  rw [h1] at h2
  have := valueLoop_leave _ 0 k1 k' (by rw [e1]; exact e3) h2
  rw [valueLoop, hs]
  rcases hty with rfl | rfl <;> simp only [Tok.isLiteral, Bool.false_eq_true, if_false] <;> exact this

/-- The value loop reads one value. -/
theorem valueLoop_D (v : D) (hv : v.WF) (k : Tkn) (ws post : List Nat) (hws : IsWs ws) (hf : v.Follows post)
    (h : k.data.drop k.pos = ws ++ (v.text ++ post)) :
    valueLoop (k.data.length + 1) 0 k = .ok (some ⟨k.data, k.pos + ws.length + v.text.length⟩) := by
  have hr := reads_D v hv k ws post hws hf h
  have hp : k.pos ≤ k.data.length := by
    by_cases hle : k.pos ≤ k.data.length
    · exact hle
    · rw [List.drop_eq_nil_of_le (by omega)] at h
      have := congrArg List.length h
      cases v <;> simp [D.text] at this
      have := List.length_pos_iff.2 hv.2.ne_nil
      omega
  match v, hv, hr with
  | .lit ty w, hv, hr =>
    obtain ⟨k1, e, h2⟩ := hr
    have h2 : _ = k1 := h2
    rw [valueLoop, e]
    simp only [scalar_iff.1 hv.1, if_true, ← h2]
  | .arr ws' es, hv, hr =>
    obtain ⟨k1, e, h2⟩ := hr
    exact valueLoop_cont hp e (.inr rfl) (es.closes hv.2) h2
  | .obj ws' ms, hv, hr =>
    obtain ⟨k1, e, h2⟩ := hr
    exact valueLoop_cont hp e (.inl rfl) (ms.closes hv.2) h2

theorem st_eq {data : List Nat} {q q' cap : Nat} {o o' : List Nat} {p : Tok} {d d' : Nat} {r r' : List (List Nat × List Nat)}
    (hq : q = q') (ho : o = o') (hd : d = d') (hr : r = r') :
    St.mk ⟨data, q⟩ ⟨cap, o, p⟩ d r = ⟨⟨data, q'⟩, ⟨cap, o', p⟩, d', r'⟩ := by subst hq ho hd hr; rfl

theorem Runs.to {keys : List (List Nat)} {a b c : St} (h : Runs keys a b) (e : b = c) : Runs keys a c := e ▸ h

/-- A value and the delimiter behind it, given what the value alone does when it is not a plain string. -/
theorem run_val {keys : List (List Nat)} {n : Nat} {v : D} (hv : v.WF) {s : St} (i : Inv n s) {ws w1 post : List Nat} {ty : Tok} {c : Nat}
    (hty : ty = .listDelim ∨ ty = .objectEnd ∨ ty = .arrayEnd) (hc : TokText ty [c]) (hws : IsWs ws) (hw1 : IsWs w1)
    (hf : v.Follows (w1 ++ c :: post))
    (h : s.tk.data.drop s.tk.pos = ws ++ (v.text ++ (w1 ++ c :: post))) (hd : s.depth ≠ 0)
    (hD : plain v = false → ∃ p, p ≠ .listDelim ∧ Runs keys s ⟨⟨s.tk.data, s.tk.pos + ws.length + v.text.length⟩,
      ⟨s.comp.cap, s.comp.out ++ kept keys v, p⟩, s.depth + odd keys v, s.removed ++ gone keys v⟩) :
    Runs keys s ⟨⟨s.tk.data, s.tk.pos + ws.length + v.text.length + w1.length + 1⟩,
      ⟨s.comp.cap, s.comp.out ++ kept keys v ++ [c], ty⟩, after (plain v) ty (s.depth + odd keys v), s.removed ++ gone keys v⟩ := by
  have h1 := drop_tok h
  have hfc : ∀ post, Follow ty post := follow_str (by rcases hty with rfl | rfl | rfl <;> simp) (by rcases hty with rfl | rfl | rfl <;> simp)
  have hs2 := step_tok (k := ⟨s.tk.data, s.tk.pos + ws.length + v.text.length⟩) (w := [c]) h1 hw1 hc (hfc _)
  cases hp : plain v with
  | false =>
    obtain ⟨p, hp1, hr⟩ := hD hp
    refine hr.trans (Runs.one ?_)
    have i' := hr.inv i
    rcases hty with rfl | rfl | rfl
    · exact turn_other i' hs2 (by simp [Other])
    · rw [turn_close i' hs2 (.inl rfl) (by show s.depth + odd keys v ≠ 0; omega), wr_plain _ _ _ (.inr hp1)]; rfl
    · rw [turn_close i' hs2 (.inr rfl) (by show s.depth + odd keys v ≠ 0; omega), wr_plain _ _ _ (.inr hp1)]; rfl
  | true =>
    match v, hv, hp with
    | .lit t w, hv, hp =>
      have ht : t = .string := by simpa [plain] using hp
      subst ht
      have hs := step_tok (k := s.tk) h hws hv.2 hf
      refine (Runs.one (turn_str i hs hs2 hty hd)).to (st_eq rfl ?_ ?_ ?_)
      · simp [kept, D.text]
      · simp [odd]
      · simp [gone]

/-- Removing a member: the value and the delimiter behind it. -/
theorem removeOne_D {n : Nat} {v : D} (hv : v.WF) {name : List Nat} {s : St} (i : Inv n s) {k2 w1 post : List Nat} {ty : Tok} {c : Nat}
    (hc : TokText ty [c]) (hty : ty = .listDelim ∨ ty = .objectEnd) (hk2 : IsWs k2) (hw1 : IsWs w1)
    (hf : v.Follows (w1 ++ c :: post)) (h : s.tk.data.drop s.tk.pos = k2 ++ (v.text ++ (w1 ++ c :: post))) (hd : s.depth ≠ 0) :
    removeOne name s = .ok (some ⟨⟨s.tk.data, s.tk.pos + k2.length + v.text.length + w1.length + 1⟩,
      if ty = .objectEnd then wr s.comp [c] ty else s.comp, after false ty s.depth,
      s.removed ++ [(name, k2 ++ v.text)]⟩) := by
  have h1 := drop_tok h
  have hfc : ∀ post, Follow ty post := follow_str (by rcases hty with rfl | rfl <;> simp) (by rcases hty with rfl | rfl <;> simp)
  have hs2 := step_tok (k := ⟨s.tk.data, s.tk.pos + k2.length + v.text.length⟩) (w := [c]) h1 hw1 hc (hfc _)
  have hsl : slice s.tk.data s.tk.pos (s.tk.pos + k2.length + v.text.length) = k2 ++ v.text := by
    have := slice_of_drop (data := s.tk.data) (pos := s.tk.pos) (ws := []) (w := k2 ++ v.text) (post := w1 ++ c :: post)
      (by rw [h]; simp)
    simpa [Nat.add_assoc] using this
  rw [removeOne, valueLoop_D v hv s.tk k2 _ hk2 hf h, Res.bind_ok]
  simp only [hs2, hsl]
  rcases hty with rfl | rfl
  · simp [after]
  · have hcap : s.comp.out.length + [c].length ≤ s.comp.cap := by
      have hlt := drop_lt h1 (by simp)
      have h1 := i.out
      have h2 := i.cap
      have h3 := i.len
      simp only [List.length_cons, List.length_nil]
      omega
    simp [write_wr _ _ _ hcap i.prev, Res.bind_ok, after, hd]

/-- What an object has written in the end, from the state before a member. -/
def fin (c : C) (items : List (List Nat)) : List Nat :=
  (if items = [] then (if c.prev = .listDelim then c.out.dropLast else c.out) else c.out ++ commas items) ++ [0x7D]

theorem commas_cons (x : List Nat) {r : List (List Nat)} (h : r ≠ []) : commas (x :: r) = x ++ 0x2C :: commas r := by
  cases r with
  | nil => exact absurd rfl h
  | cons y r => rfl

theorem other_lit {ty : Tok} (h : ty.isLiteral = true) (hs : ty ≠ .string) : Other ty ∧ ty ≠ .listDelim := by
  cases ty <;> simp [Tok.isLiteral] at h <;> simp [Other] at hs ⊢

mutual
  theorem run_D {keys : List (List Nat)} (hn : keys.Nodup) {n : Nat} (v : D) (hv : v.WF) (hp : plain v = false) {s : St} (i : Inv n s)
      {ws post : List Nat} (hws : IsWs ws) (hf : v.Follows post) (h : s.tk.data.drop s.tk.pos = ws ++ (v.text ++ post)) :
      ∃ p, p ≠ .listDelim ∧ Runs keys s ⟨⟨s.tk.data, s.tk.pos + ws.length + v.text.length⟩,
        ⟨s.comp.cap, s.comp.out ++ kept keys v, p⟩, s.depth + odd keys v, s.removed ++ gone keys v⟩ := by
    match v, hv, hp, hf with
    | .lit ty w, hv, hp, hf =>
      have hs := step_tok (k := s.tk) h hws hv.2 hf
      obtain ⟨ho, hl⟩ := other_lit (scalar_iff.1 hv.1) (by simpa [plain] using hp)
      refine ⟨ty, hl, (Runs.one (turn_other i hs ho)).to (st_eq rfl ?_ ?_ ?_)⟩ <;> simp [kept, odd, gone, D.text]
    | .arr ws' es, hv, hp, hf =>
      rw [D.text, List.cons_append] at h
      have hs := step_tok (k := s.tk) (w := [0x5B]) h hws .arrayStart (follow_str (by simp) (by simp) _)
      have r1 := Runs.one (turn_open (keys := keys) i hs (.inr rfl))
      have r2 := run_Es hn es hv.2 (r1.inv i) (ws := ws') (post := post) hv.1
        ((drop_tok (w := [0x5B]) h).trans (by simp))
        (by show s.depth + 1 ≠ 0; omega)
      refine ⟨.arrayEnd, by simp, (r1.trans r2).to (st_eq ?_ ?_ ?_ ?_)⟩
      · simp [D.text]; omega
      · simp [kept]
      · show s.depth + 1 - 1 + _ = _; rw [odd]; omega
      · simp [gone]
    | .obj ws' ms, hv, hp, hf =>
      rw [D.text, List.cons_append] at h
      have hs := step_tok (k := s.tk) (w := [0x7B]) h hws .objectStart (follow_str (by simp) (by simp) _)
      have r1 := Runs.one (turn_open (keys := keys) i hs (.inl rfl))
      have r2 := run_Ms hn ms hv.2 (r1.inv i) (ws := ws') (post := post) hv.1
        ((drop_tok (w := [0x7B]) h).trans (by simp))
        (by show s.depth + 1 ≠ 0; omega)
      refine ⟨.objectEnd, by simp, (r1.trans r2).to (st_eq ?_ ?_ ?_ ?_)⟩
      · simp [D.text]; omega
      · simp only [fin, kept]
        by_cases h0 : keptMs keys ms = []
        · simp [h0, commas]
        · simp [h0]
      · show s.depth + 1 - 1 + _ = _; rw [odd]; omega
      · simp [gone]

  theorem run_Es {keys : List (List Nat)} (hn : keys.Nodup) {n : Nat} (es : Es) (hes : es.WF) {s : St} (i : Inv n s)
      {ws post : List Nat} (hws : IsWs ws) (h : s.tk.data.drop s.tk.pos = ws ++ (es.text ++ post)) (hd : s.depth ≠ 0) :
      Runs keys s ⟨⟨s.tk.data, s.tk.pos + ws.length + es.text.length⟩,
        ⟨s.comp.cap, s.comp.out ++ (commas (keptEs keys es) ++ [0x5D]), .arrayEnd⟩, s.depth - 1 + oddEs keys es,
        s.removed ++ goneEs keys es⟩ := by
    match es, hes with
    | .nil, _ =>
      have hs := step_tok (k := s.tk) (w := [0x5D]) h hws .arrayEnd (follow_str (by simp) (by simp) _)
      have := turn_close (keys := keys) i hs (.inr rfl) hd
      rw [wr_plain _ _ _ (.inl (by simp))] at this
      refine (Runs.one this).to (st_eq ?_ ?_ ?_ ?_) <;> simp [Es.text, keptEs, commas, oddEs, goneEs]
    | .cons v w1 w2 r, hes =>
      obtain ⟨hv, h1, h2, hr⟩ := hes
      rw [Es.text] at h
      simp only [List.append_assoc] at h
      have hf := v.follows_es (w1 := w1) (w2 := w2) h1 r post
      have hD := fun hp => run_D hn v hv hp i hws hf h
      match r, hr, hf, hD, h with
      | .nil, hr, hf, hD, h =>
        simp only [Es.tail, List.cons_append, List.nil_append] at h hf
        refine (run_val hv i (.inr (.inr rfl)) .arrayEnd hws h1 hf h hd hD).to (st_eq ?_ ?_ ?_ ?_)
        · simp [Es.text, Es.tail]; omega
        · simp [keptEs, commas]
        · rw [oddEs, after]
          cases plain v <;> simp <;> omega
        · simp [goneEs]
      | .cons v' w1' w2' r', hr, hf, hD, h =>
        have ht : (Es.cons v' w1' w2' r').tail w2 = 0x2C :: (w2 ++ (Es.cons v' w1' w2' r').text) := by rw [Es.tail, Es.text]
        rw [ht] at h hf
        simp only [List.cons_append, List.append_assoc] at h hf
        have r1 := run_val hv i (.inl rfl) .listDelim hws h1 hf h hd hD
        have r2 := run_Es hn (.cons v' w1' w2' r') hr (r1.inv i) (ws := w2) (post := post) h2
          (by
            have := drop_tok (w := [0x2C]) (drop_tok h)
            exact this)
          (by simp only [after, if_true]; omega)
        refine (r1.trans r2).to (st_eq ?_ ?_ ?_ ?_)
        · have : (Es.cons v w1 w2 (.cons v' w1' w2' r')).text = v.text ++ (w1 ++ (Es.cons v' w1' w2' r').tail w2) := by rw [Es.text]
          rw [this, ht]
          simp only [List.length_append, List.length_cons]
          omega
        · have hne : keptEs keys (.cons v' w1' w2' r') ≠ [] := by simp [keptEs]
          have : keptEs keys (.cons v w1 w2 (.cons v' w1' w2' r')) = kept keys v :: keptEs keys (.cons v' w1' w2' r') := by rw [keptEs]
          rw [this, commas_cons _ hne]
          simp
        · have : oddEs keys (.cons v w1 w2 (.cons v' w1' w2' r')) = odd keys v + oddEs keys (.cons v' w1' w2' r') := by rw [oddEs]
          rw [this]
          simp only [after, if_true]
          omega
        · have : goneEs keys (.cons v w1 w2 (.cons v' w1' w2' r')) = gone keys v ++ goneEs keys (.cons v' w1' w2' r') := by rw [goneEs]
          rw [this]
          simp

  theorem run_Ms {keys : List (List Nat)} (hn : keys.Nodup) {n : Nat} (ms : Ms) (hms : ms.WF) {s : St} (i : Inv n s)
      {ws post : List Nat} (hws : IsWs ws) (h : s.tk.data.drop s.tk.pos = ws ++ (ms.text ++ post)) (hd : s.depth ≠ 0) :
      Runs keys s ⟨⟨s.tk.data, s.tk.pos + ws.length + ms.text.length⟩,
        ⟨s.comp.cap, fin s.comp (keptMs keys ms), .objectEnd⟩, s.depth - 1 + oddMs keys ms, s.removed ++ goneMs keys ms⟩ := by
    match ms, hms with
    | .nil, _ =>
      have hs := step_tok (k := s.tk) (w := [0x7D]) h hws .objectEnd (follow_str (by simp) (by simp) _)
      have := turn_close (keys := keys) i hs (.inl rfl) hd
      refine (Runs.one this).to (st_eq ?_ ?_ ?_ ?_) <;> simp [Ms.text, keptMs, fin, oddMs, goneMs]
    | .cons kty key k1 k2 v w1 w2 r, hms =>
      obtain ⟨hk, hkey, hk1, hk2, hv, h1, h2, hr⟩ := hms
      rw [Ms.text] at h
      simp only [List.append_assoc, List.cons_append] at h
      have hfk : ∀ post, Follow kty post := follow_str (by rcases hk with rfl | rfl <;> simp) (by rcases hk with rfl | rfl <;> simp)
      have hs := step_tok (k := s.tk) h hws hkey (hfk _)
      have h' := drop_tok h
      have hs2 := step_tok (k := ⟨s.tk.data, s.tk.pos + ws.length + key.length⟩) (w := [0x3A]) h' hk1 .keyDelim
        (follow_str (by simp) (by simp) _)
      have h'' := drop_tok (w := [0x3A]) h'
      have hf := v.follows_ms (w1 := w1) (w2 := w2) h1 r post
      cases hg : goes keys kty key with
      | true =>
        have hg' : kty = .string ∧ inner key ∈ keys := by simpa [goes] using hg
        obtain ⟨rfl, hin⟩ := hg'
        have i' : Inv n { s with tk := ⟨s.tk.data, s.tk.pos + ws.length + key.length + k1.length + 1⟩ } := by
          have hlt := drop_lt h'' (by
            intro e
            have := congrArg List.length e
            cases r <;> simp [Ms.tail] at this)
          have ho := i.out
          refine ⟨i.len, ?_, ?_, i.cap, i.prev⟩
          · show s.comp.out.length ≤ s.tk.pos + ws.length + key.length + k1.length + 1; omega
          · show s.tk.pos + ws.length + key.length + k1.length + 1 ≤ n
            have := i.len
            simp only [List.length_cons, List.length_nil] at hlt
            omega
        match r, hr, hf, h'' with
        | .nil, hr, hf, h'' =>
          simp only [Ms.tail, List.cons_append, List.nil_append] at h'' hf
          have hr1 := removeOne_D (name := inner key) hv i' .objectEnd (.inr rfl) hk2 h1 hf h'' hd
          refine (Runs.one (turn_gone i hs hs2 hin hn hr1)).to ?_
          refine st_eq ?_ ?_ ?_ ?_
          · simp [Ms.text, Ms.tail]; omega
          · simp [keptMs, hg, fin]
          · simp [oddMs, hg, after]
          · simp [goneMs, hg]
        | .cons t key' x1 x2 v' w1' w2' r', hr, hf, h'' =>
          have ht : (Ms.cons t key' x1 x2 v' w1' w2' r').tail w2 = 0x2C :: (w2 ++ (Ms.cons t key' x1 x2 v' w1' w2' r').text) := by
            rw [Ms.tail, Ms.text]
          rw [ht] at h'' hf
          simp only [List.cons_append, List.append_assoc] at h'' hf
          have hr1 := removeOne_D (name := inner key) hv i' .listDelim (.inl rfl) hk2 h1 hf h'' hd
          have r1 := Runs.one (turn_gone i hs hs2 hin hn hr1)
          have r2 := run_Ms hn (.cons t key' x1 x2 v' w1' w2' r') hr (r1.inv i) (ws := w2) (post := post) h2
            (by exact drop_tok (w := [0x2C]) (drop_tok h''))
            (by simp only [after, if_true]; exact hd)
          refine (r1.trans r2).to ?_
          refine st_eq ?_ ?_ ?_ ?_
          · have : Ms.text (.cons .string key k1 k2 v w1 w2 (.cons t key' x1 x2 v' w1' w2' r')) = key ++ (k1 ++ 0x3A :: (k2 ++ (v.text ++ (w1 ++ Ms.tail (.cons t key' x1 x2 v' w1' w2' r') w2)))) := by rw [Ms.text]
            rw [this, ht]
            simp only [List.length_append, List.length_cons]
            omega
          · have : keptMs keys (.cons .string key k1 k2 v w1 w2 (.cons t key' x1 x2 v' w1' w2' r')) = keptMs keys (.cons t key' x1 x2 v' w1' w2' r') := by rw [keptMs, if_pos hg]
            rw [this]; rfl
          · have : oddMs keys (.cons .string key k1 k2 v w1 w2 (.cons t key' x1 x2 v' w1' w2' r')) = oddMs keys (.cons t key' x1 x2 v' w1' w2' r') := by rw [oddMs, if_pos hg]; omega
            rw [this]; simp [after]
          · have : goneMs keys (.cons .string key k1 k2 v w1 w2 (.cons t key' x1 x2 v' w1' w2' r')) = (inner key, k2 ++ v.text) :: goneMs keys (.cons t key' x1 x2 v' w1' w2' r') := by rw [goneMs, if_pos hg]; rfl
            rw [this]; simp
      | false =>
        -- the key and the colon are written
        have rk : ∃ p, Runs keys s ⟨⟨s.tk.data, s.tk.pos + ws.length + key.length + k1.length + 1⟩,
            ⟨s.comp.cap, s.comp.out ++ key ++ [0x3A], p⟩, s.depth, s.removed⟩ := by
          rcases hk with rfl | rfl
          · exact ⟨_, Runs.one (turn_key i hs hs2 (by simpa [goes] using hg))⟩
          · have ra := Runs.one (turn_other (keys := keys) i hs (by simp [Other]))
            exact ⟨_, ra.trans (Runs.one (turn_other (ra.inv i) hs2 (by simp [Other])))⟩
        obtain ⟨p, rk⟩ := rk
        have ik := rk.inv i
        have hD := fun hp => run_D hn v hv hp ik hk2 hf h''
        match r, hr, hf, hD, h'' with
        | .nil, hr, hf, hD, h'' =>
          simp only [Ms.tail, List.cons_append, List.nil_append] at h'' hf
          refine (rk.trans (run_val hv ik (.inr (.inl rfl)) .objectEnd hk2 h1 hf h'' hd hD)).to (st_eq ?_ ?_ ?_ ?_)
          · simp [Ms.text, Ms.tail]; omega
          · simp [keptMs, hg, fin, commas]
          · simp [oddMs, hg, after]; omega
          · simp [goneMs, hg]
        | .cons t key' x1 x2 v' w1' w2' r', hr, hf, hD, h'' =>
          have ht : (Ms.cons t key' x1 x2 v' w1' w2' r').tail w2 = 0x2C :: (w2 ++ (Ms.cons t key' x1 x2 v' w1' w2' r').text) := by
            rw [Ms.tail, Ms.text]
          rw [ht] at h'' hf
          simp only [List.cons_append, List.append_assoc] at h'' hf
          have r1 := rk.trans (run_val hv ik (.inl rfl) .listDelim hk2 h1 hf h'' hd hD)
          have r2 := run_Ms hn (.cons t key' x1 x2 v' w1' w2' r') hr (r1.inv i) (ws := w2) (post := post) h2
            (by exact drop_tok (w := [0x2C]) (drop_tok h''))
            (by simp only [after, if_true]; show s.depth + _ ≠ 0; omega)
          refine (r1.trans r2).to (st_eq ?_ ?_ ?_ ?_)
          · have : Ms.text (.cons kty key k1 k2 v w1 w2 (.cons t key' x1 x2 v' w1' w2' r')) = key ++ (k1 ++ 0x3A :: (k2 ++ (v.text ++ (w1 ++ Ms.tail (.cons t key' x1 x2 v' w1' w2' r') w2)))) := by rw [Ms.text]
            rw [this, ht]
            simp only [List.length_append, List.length_cons]
            omega
          · have : keptMs keys (.cons kty key k1 k2 v w1 w2 (.cons t key' x1 x2 v' w1' w2' r')) = (key ++ 0x3A :: kept keys v) :: keptMs keys (.cons t key' x1 x2 v' w1' w2' r') := by rw [keptMs, if_neg (by simp [hg])]
            rw [this]
            simp only [fin, if_true, Bool.false_eq_true, if_false]
            by_cases h0 : keptMs keys (.cons t key' x1 x2 v' w1' w2' r') = []
            · rw [if_pos h0, if_neg (by simp), List.dropLast_concat, h0]
              simp [commas]
            · rw [if_neg h0, if_neg (by simp), commas_cons _ h0]
              simp
          · have : oddMs keys (.cons kty key k1 k2 v w1 w2 (.cons t key' x1 x2 v' w1' w2' r')) = odd keys v + oddMs keys (.cons t key' x1 x2 v' w1' w2' r') := by rw [oddMs, if_neg (by simp [hg])]
            rw [this]
            simp only [after, if_true, Bool.false_eq_true, if_false]
            omega
          · have : goneMs keys (.cons kty key k1 k2 v w1 w2 (.cons t key' x1 x2 v' w1' w2' r')) = gone keys v ++ goneMs keys (.cons t key' x1 x2 v' w1' w2' r') := by rw [goneMs, if_neg (by simp [hg])]
            rw [this]
            simp
end

theorem loop_mono {keys : List (List Nat)} (fuel : Nat) : ∀ (s : St) (r : Option St), loop keys fuel s = .ok r →
    ∀ m, loop keys (fuel + m) s = .ok r := by
  induction fuel with
  | zero => intro s r h; cases h
  | succ fuel ih =>
    intro s r h m
    rw [Nat.add_right_comm, loop]
    rw [loop] at h
    obtain ⟨t, ht, h⟩ := Res.bind_eq_ok.1 h
    rw [ht, Res.bind_ok]
    cases t with
    | err => exact h
    | stop s' => exact h
    | go s' => exact ih _ _ h m

theorem Runs.loop {keys : List (List Nat)} {a b : St} (h : Runs keys a b) : ∃ m, ∀ fuel, loop keys (fuel + m) a = Composer.loop keys fuel b := by
  induction h with
  | refl s => exact ⟨0, fun _ => rfl⟩
  | head h _ ih =>
    obtain ⟨m, ih⟩ := ih
    refine ⟨m + 1, fun fuel => ?_⟩
    rw [← Nat.add_assoc, Composer.loop, h, Res.bind_ok]
    exact ih fuel

theorem Ms.text_last : ∀ (ms : Ms), ms.text.getLast? = some 0x7D
  | .nil => rfl
  | .cons kty key k1 k2 v w1 w2 r => by
    have : (r.tail w2).getLast? = some 0x7D := by
      cases r with
      | nil => rfl
      | cons t key' x1 x2 v' w1' w2' r' =>
        have ht : (Ms.cons t key' x1 x2 v' w1' w2' r').tail w2 = 0x2C :: (w2 ++ (Ms.cons t key' x1 x2 v' w1' w2' r').text) := by
          rw [Ms.tail, Ms.text]
        rw [ht]
        have := Ms.text_last (.cons t key' x1 x2 v' w1' w2' r')
        simp [List.getLast?_cons, List.getLast?_append, this]
    rw [Ms.text]
    simp [List.getLast?_cons, List.getLast?_append, this]

theorem keptMs_ne {keys : List (List Nat)} : ∀ (ms : Ms), ∀ x ∈ keptMs keys ms, x ≠ []
  | .nil => by intro x h; rw [keptMs] at h; cases h
  | .cons kty key k1 k2 v w1 w2 r => by
    intro x h
    rw [keptMs] at h
    by_cases hg : goes keys kty key = true
    · rw [if_pos hg] at h
      exact keptMs_ne r x h
    · rw [if_neg hg] at h
      rcases List.mem_cons.1 h with rfl | h
      · simp
      · exact keptMs_ne r x h

/-- **C36 (exact behaviour).**  For every object text and every list of distinct keys, with a destination of at least the length of
the source: if some array outside the removed values ends with a string written without escapes, the call returns an error;
otherwise it returns the text of the object without the members to be removed and without whitespace, the removed values in
the order of the document (their number is the length of this list), and whether any member is left. -/
theorem C36_exact (ws : List Nat) (ms : Ms) (hd : (D.obj ws ms).WF) (keys : List (List Nat)) (hn : keys.Nodup) (cap : Option Nat)
    (hc : ∀ c, cap = some c → (D.obj ws ms).text.length ≤ c) :
    remove (D.obj ws ms).text keys cap = .ok (
      if odd keys (.obj ws ms) = 0 then
        some ⟨kept keys (.obj ws ms), gone keys (.obj ws ms), decide (keptMs keys ms ≠ [])⟩
      else none) := by
  generalize hsrc : (D.obj ws ms).text = src at hc ⊢
  have hg : ¬ (src.length < 2 ∨ src.head? ≠ some 0x7B ∨ src.getLast? ≠ some 0x7D) := by
    have h1 := Ms.text_last ms
    have h2 : src = 0x7B :: (ws ++ ms.text) := by rw [← hsrc, D.text]
    have h3 : ms.text ≠ [] := by intro h; rw [h] at h1; cases h1
    have h4 := List.length_pos_iff.2 h3
    have h5 : src.getLast? = some 0x7D := by rw [h2]; simp [List.getLast?_cons, List.getLast?_append, h1]
    rintro (h | h | h)
    · rw [h2] at h; simp at h; omega
    · rw [h2] at h; simp at h
    · exact h h5
  have i0 : Inv src.length ⟨⟨src, 0⟩, ⟨cap.getD src.length, [], .unknown⟩, 0, []⟩ := by
    refine ⟨rfl, Nat.le_refl 0, Nat.zero_le _, ?_, fun h => nomatch h⟩
    show src.length ≤ cap.getD src.length
    cases cap with
    | none => exact Nat.le_refl _
    | some c => exact hc c rfl
  obtain ⟨p, _, hr⟩ := run_D hn (.obj ws ms) hd rfl i0 (ws := []) (post := []) (fun _ h => nomatch h) trivial (by simp [hsrc])
  obtain ⟨k', hs, _⟩ := step_end (k := ⟨src, 0 + 0 + src.length⟩) (ws := []) (by simp) (fun _ h => nomatch h)
  obtain ⟨m, hm⟩ := hr.loop
  simp only [hsrc, List.nil_append, List.length_nil, Nat.zero_add] at hm hs
  have hstop : loop keys 1 ⟨⟨src, src.length⟩, ⟨cap.getD src.length, kept keys (.obj ws ms), p⟩, odd keys (.obj ws ms), gone keys (.obj ws ms)⟩ =
      .ok (some ⟨k', ⟨cap.getD src.length, kept keys (.obj ws ms), p⟩, odd keys (.obj ws ms), gone keys (.obj ws ms)⟩) := by
    rw [loop, turn, hs]; rfl
  have h1 := hm 1
  rw [hstop] at h1
  obtain ⟨r, h2, _⟩ := loop_ok src.length keys (src.length + 1) _ i0 (by show src.length < 0 + (src.length + 1); omega)
  have h3 := loop_mono _ _ _ h2 (1 + m)
  have h4 := loop_mono _ _ _ h1 (src.length + 1)
  rw [Nat.add_comm (1 + m)] at h4
  rw [h3] at h4
  cases h4
  unfold remove
  rw [if_neg hg, h2, Res.bind_ok]
  simp only []
  by_cases h0 : odd keys (.obj ws ms) = 0
  · rw [if_neg (by simp [h0]), if_pos h0]
    have : decide ((kept keys (.obj ws ms)).length > 2) = decide (keptMs keys ms ≠ []) := by
      rw [decide_eq_decide, kept]
      constructor
      · intro h e
        rw [e] at h
        simp [commas] at h
      · intro h
        have hit := keptMs_ne (keys := keys) ms
        cases hk : keptMs keys ms with
        | nil => exact absurd hk h
        | cons x r =>
          have hx := List.length_pos_iff.2 (hit x (by rw [hk]; exact List.mem_cons_self ..))
          cases r with
          | nil => simp [commas]; omega
          | cons y r => simp [commas]; omega
    simp only [this]
  · rw [if_pos h0, if_neg h0]

/-- **C36 (partial).**  If no array outside the removed values ends with a string written without escapes, and the keys are
distinct, exactly the other members are left.  Missing: the full property has neither hypothesis; it fails without them
(`C36_negation_array`, `C36_negation_keys`). -/
theorem C36_kept_partial (ws : List Nat) (ms : Ms) (hd : (D.obj ws ms).WF) (keys : List (List Nat)) (hn : keys.Nodup)
    (ho : odd keys (.obj ws ms) = 0) :
    remove (D.obj ws ms).text keys none =
      .ok (some ⟨kept keys (.obj ws ms), gone keys (.obj ws ms), decide (keptMs keys ms ≠ [])⟩) := by
  rw [C36_exact ws ms hd keys hn none (fun _ h => nomatch h), if_pos ho]

/-- **C36 (negation).**  A valid object is rejected because of an array that ends with a string, although no key is removed. -/
theorem C36_negation_array : remove (bytes "{\"a\":[\"x\"]}") [] none = .ok none := by decide +kernel

/-- **C36 (negation).**  When the list contains a key twice, a member with another key goes as well (here the call fails: the
member after it is taken for the value). -/
theorem C36_negation_keys : remove (bytes "{\"a\":1,\"b\":2}") [bytes "a", bytes "a"] none = .ok none := by decide +kernel

/-! ### The result is an object again -/

mutual
  /-- What is left, as a document. -/
  def strip (keys : List (List Nat)) : D → D
    | .lit ty w => .lit ty w
    | .arr _ es => .arr [] (stripEs keys es)
    | .obj _ ms => .obj [] (stripMs keys ms)

  def stripEs (keys : List (List Nat)) : Es → Es
    | .nil => .nil
    | .cons v _ _ r => .cons (strip keys v) [] [] (stripEs keys r)

  def stripMs (keys : List (List Nat)) : Ms → Ms
    | .nil => .nil
    | .cons kty key _ _ v _ _ r =>
      if goes keys kty key then stripMs keys r else .cons kty key [] [] (strip keys v) [] [] (stripMs keys r)
end

theorem isWs_nil : IsWs [] := fun _ h => nomatch h

mutual
  theorem strip_WF (keys : List (List Nat)) (d : D) (h : d.WF) : (strip keys d).WF := by
    match d, h with
    | .lit ty w, h => rw [strip]; exact h
    | .arr _ es, h => rw [strip]; exact ⟨isWs_nil, stripEs_WF keys es h.2⟩
    | .obj _ ms, h => rw [strip]; exact ⟨isWs_nil, stripMs_WF keys ms h.2⟩

  theorem stripEs_WF (keys : List (List Nat)) (es : Es) (h : es.WF) : (stripEs keys es).WF := by
    match es, h with
    | .nil, _ => rw [stripEs]; exact trivial
    | .cons v _ _ r, h => rw [stripEs]; exact ⟨strip_WF keys v h.1, isWs_nil, isWs_nil, stripEs_WF keys r h.2.2.2⟩

  theorem stripMs_WF (keys : List (List Nat)) (ms : Ms) (h : ms.WF) : (stripMs keys ms).WF := by
    match ms, h with
    | .nil, _ => rw [stripMs]; exact trivial
    | .cons kty key _ _ v _ _ r, h =>
      rw [stripMs]
      by_cases hg : goes keys kty key = true
      · rw [if_pos hg]; exact stripMs_WF keys r h.2.2.2.2.2.2.2
      · rw [if_neg hg]
        exact ⟨h.1, h.2.1, isWs_nil, isWs_nil, strip_WF keys v h.2.2.2.2.1, isWs_nil, isWs_nil, stripMs_WF keys r h.2.2.2.2.2.2.2⟩
end

theorem Es.tail_eq (es : Es) (h : es ≠ .nil) (w : List Nat) : es.tail w = 0x2C :: (w ++ es.text) := by
  cases es with
  | nil => exact absurd rfl h
  | cons v w1 w2 r => rw [Es.tail, Es.text]

theorem Ms.tail_eq (ms : Ms) (h : ms ≠ .nil) (w : List Nat) : ms.tail w = 0x2C :: (w ++ ms.text) := by
  cases ms with
  | nil => exact absurd rfl h
  | cons kty key k1 k2 v w1 w2 r => rw [Ms.tail, Ms.text]

mutual
  theorem strip_text (keys : List (List Nat)) (d : D) : (strip keys d).text = kept keys d := by
    match d with
    | .lit ty w => rw [strip, kept, D.text]
    | .arr _ es => rw [strip, kept, D.text, List.nil_append, (stripEs_text keys es).1]
    | .obj _ ms => rw [strip, kept, D.text, List.nil_append, (stripMs_text keys ms).1]

  theorem stripEs_text (keys : List (List Nat)) (es : Es) :
      (stripEs keys es).text = commas (keptEs keys es) ++ [0x5D] ∧ (keptEs keys es = [] ↔ stripEs keys es = .nil) := by
    match es with
    | .nil => rw [stripEs, keptEs, Es.text]; simp [commas]
    | .cons v _ _ r =>
      obtain ⟨h1, h2⟩ := stripEs_text keys r
      have hv := strip_text keys v
      rw [stripEs, keptEs, Es.text, hv]
      refine ⟨?_, by simp⟩
      by_cases hr : stripEs keys r = .nil
      · rw [hr, h2.2 hr, Es.tail]; simp [commas]
      · rw [Es.tail_eq _ hr, h1, commas_cons _ (fun h => hr (h2.1 h))]; simp

  theorem stripMs_text (keys : List (List Nat)) (ms : Ms) :
      (stripMs keys ms).text = commas (keptMs keys ms) ++ [0x7D] ∧ (keptMs keys ms = [] ↔ stripMs keys ms = .nil) := by
    match ms with
    | .nil => rw [stripMs, keptMs, Ms.text]; simp [commas]
    | .cons kty key _ _ v _ _ r =>
      obtain ⟨h1, h2⟩ := stripMs_text keys r
      have hv := strip_text keys v
      rw [stripMs, keptMs]
      by_cases hg : goes keys kty key = true
      · rw [if_pos hg, if_pos hg]; exact ⟨h1, h2⟩
      · rw [if_neg hg, if_neg hg, Ms.text, hv]
        refine ⟨?_, by simp⟩
        by_cases hr : stripMs keys r = .nil
        · rw [hr, h2.2 hr, Ms.tail]; simp [commas]
        · rw [Ms.tail_eq _ hr, h1, commas_cons _ (fun h => hr (h2.1 h))]; simp
end

mutual
  theorem kept_strip (keys : List (List Nat)) (d : D) :
      kept keys (strip keys d) = kept keys d ∧ gone keys (strip keys d) = [] := by
    match d with
    | .lit ty w => rw [strip, kept, gone]; exact ⟨rfl, rfl⟩
    | .arr _ es => rw [strip, kept, kept, gone, (kept_stripEs keys es).1]; exact ⟨rfl, (kept_stripEs keys es).2⟩
    | .obj _ ms => rw [strip, kept, kept, gone, (kept_stripMs keys ms).1]; exact ⟨rfl, (kept_stripMs keys ms).2⟩

  theorem kept_stripEs (keys : List (List Nat)) (es : Es) :
      keptEs keys (stripEs keys es) = keptEs keys es ∧ goneEs keys (stripEs keys es) = [] := by
    match es with
    | .nil => rw [stripEs, goneEs]; exact ⟨rfl, rfl⟩
    | .cons v _ _ r =>
      rw [stripEs, keptEs, keptEs, goneEs, (kept_strip keys v).1, (kept_strip keys v).2, (kept_stripEs keys r).1, (kept_stripEs keys r).2]
      exact ⟨rfl, rfl⟩

  theorem kept_stripMs (keys : List (List Nat)) (ms : Ms) :
      keptMs keys (stripMs keys ms) = keptMs keys ms ∧ goneMs keys (stripMs keys ms) = [] := by
    match ms with
    | .nil => rw [stripMs, goneMs]; exact ⟨rfl, rfl⟩
    | .cons kty key _ _ v _ _ r =>
      obtain ⟨a, b⟩ := kept_stripMs keys r
      rw [stripMs, keptMs]
      by_cases hg : goes keys kty key = true
      · rw [if_pos hg, if_pos hg]; exact ⟨a, b⟩
      · rw [if_neg hg, if_neg hg, keptMs, if_neg hg, goneMs, if_neg hg, a, b, (kept_strip keys v).1, (kept_strip keys v).2]
        exact ⟨rfl, rfl⟩
end

theorem plain_strip (keys : List (List Nat)) (d : D) : plain (strip keys d) = plain d := by
  cases d <;> rw [strip] <;> rfl

mutual
  theorem odd_strip (keys : List (List Nat)) (d : D) : odd keys (strip keys d) = odd keys d := by
    match d with
    | .lit ty w => rw [strip]
    | .arr _ es => rw [strip, odd, odd]; exact oddEs_strip keys es
    | .obj _ ms => rw [strip, odd, odd]; exact oddMs_strip keys ms

  theorem oddEs_strip (keys : List (List Nat)) (es : Es) : oddEs keys (stripEs keys es) = oddEs keys es := by
    match es with
    | .nil => rw [stripEs]
    | .cons v _ _ .nil => rw [stripEs, stripEs, oddEs, oddEs, odd_strip keys v, plain_strip]
    | .cons v _ _ (.cons v' w1 w2 r) =>
      have := oddEs_strip keys (.cons v' w1 w2 r)
      rw [stripEs, stripEs, oddEs, oddEs, odd_strip keys v]
      rw [stripEs] at this
      rw [this]

  theorem oddMs_strip (keys : List (List Nat)) (ms : Ms) : oddMs keys (stripMs keys ms) = oddMs keys ms := by
    match ms with
    | .nil => rw [stripMs]
    | .cons kty key _ _ v _ _ r =>
      have := oddMs_strip keys r
      rw [stripMs, oddMs]
      by_cases hg : goes keys kty key = true
      · rw [if_pos hg, if_pos hg, this]; omega
      · rw [if_neg hg, if_neg hg, oddMs, if_neg hg, this, odd_strip keys v]
end

/-- **C43.**  Whenever the call succeeds on an object (with distinct keys), its result is the text of an object again; removing the
same keys from the result changes nothing and removes nothing. -/
theorem C43_idempotent (ws : List Nat) (ms : Ms) (hd : (D.obj ws ms).WF) (keys : List (List Nat)) (hn : keys.Nodup) (o : Out)
    (h : remove (D.obj ws ms).text keys none = .ok (some o)) :
    (∃ ms', (D.obj [] ms').WF ∧ (D.obj [] ms').text = o.dst) ∧ remove o.dst keys none = .ok (some ⟨o.dst, [], o.left⟩) := by
  rw [C36_exact ws ms hd keys hn none (fun _ h => nomatch h)] at h
  by_cases h0 : odd keys (.obj ws ms) = 0
  · rw [if_pos h0] at h
    cases h
    have hw := strip_WF keys _ hd
    have ht := strip_text keys (.obj ws ms)
    rw [strip] at hw ht
    refine ⟨⟨stripMs keys ms, hw, ht⟩, ?_⟩
    have hk := kept_strip keys (.obj ws ms)
    have ho := odd_strip keys (.obj ws ms)
    rw [strip] at hk ho
    have := C36_exact [] (stripMs keys ms) hw keys hn none (fun _ h => nomatch h)
    rw [if_pos (ho.trans h0), hk.1, hk.2, (kept_stripMs keys ms).1] at this
    rw [← ht]
    rw [ht] at this ⊢
    exact this
  · rw [if_neg h0] at h
    cases h

/-! ### Examples -/

/-- `{"a": [1, "x"], "b": {"a":2 ,"c":null}, "d" :["y",3]}`. -/
def demoC : D :=
  .obj [] (.cons .string (bytes "\"a\"") [] [0x20] (.arr [] (.cons (.lit .integer (bytes "1")) [] [0x20] (.cons (.lit .string (bytes "\"x\"")) [] [] .nil))) [] [0x20]
    (.cons .string (bytes "\"b\"") [] [0x20]
      (.obj [] (.cons .string (bytes "\"a\"") [] [] (.lit .integer (bytes "2")) [0x20] []
        (.cons .string (bytes "\"c\"") [] [] (.lit .null (bytes "null")) [] [] .nil))) [] [0x20]
    (.cons .string (bytes "\"d\"") [0x20] [] (.arr [] (.cons (.lit .string (bytes "\"y\"")) [] [] (.cons (.lit .integer (bytes "3")) [] [] .nil))) [] [] .nil)))

theorem demoC_text : demoC.text = bytes "{\"a\": [1, \"x\"], \"b\": {\"a\":2 ,\"c\":null}, \"d\" :[\"y\",3]}" := by decide

theorem str1 (c : Nat) (h1 : 0x20 ≤ c) (h2 : c ≠ 0x22) (h3 : c ≠ 0x5C) : TokText .string [0x22, c, 0x22] :=
  TokText.string (b := [c]) (.plain h1 h2 h3 .nil)

theorem dig1 (c : Nat) (h1 : 0x31 ≤ c) (h2 : c ≤ 0x39) : TokText .integer [c] :=
  .integer (.inl (.inr ⟨c, [], rfl, ⟨h1, h2⟩, fun _ h => nomatch h⟩))

theorem demoC_WF : demoC.WF := by
  have w0 : IsWs [] := isWs_nil
  have w1 : IsWs [0x20] := fun c h => .inl (List.mem_singleton.1 h)
  refine ⟨w0, .inl rfl, str1 0x61 (by omega) (by omega) (by omega), w0, w1,
    ⟨w0, ⟨scalar_iff.2 rfl, dig1 0x31 (by omega) (by omega)⟩, w0, w1, ⟨scalar_iff.2 rfl, str1 0x78 (by omega) (by omega) (by omega)⟩, w0, w0, trivial⟩, w0, w1,
    .inl rfl, str1 0x62 (by omega) (by omega) (by omega), w0, w1,
    ⟨w0, .inl rfl, str1 0x61 (by omega) (by omega) (by omega), w0, w0, ⟨scalar_iff.2 rfl, dig1 0x32 (by omega) (by omega)⟩, w1, w0,
      .inl rfl, str1 0x63 (by omega) (by omega) (by omega), w0, w0, ⟨scalar_iff.2 rfl, .null⟩, w0, w0, trivial⟩, w0, w1,
    .inl rfl, str1 0x64 (by omega) (by omega) (by omega), w1, w0,
    ⟨w0, ⟨scalar_iff.2 rfl, str1 0x79 (by omega) (by omega) (by omega)⟩, w0, w0, ⟨scalar_iff.2 rfl, dig1 0x33 (by omega) (by omega)⟩, w0, w0, trivial⟩, w0, w0, trivial⟩

/-- Members `a` on both levels go; the array that ends with a string goes with them, so the call succeeds. -/
example : odd [bytes "a"] demoC = 0 ∧ [bytes "a"].Nodup ∧
    kept [bytes "a"] demoC = bytes "{\"b\":{\"c\":null},\"d\":[\"y\",3]}" ∧
    gone [bytes "a"] demoC = [(bytes "a", bytes " [1, \"x\"]"), (bytes "a", bytes "2")] := by decide

example : remove demoC.text [bytes "a"] none =
    .ok (some ⟨bytes "{\"b\":{\"c\":null},\"d\":[\"y\",3]}", [(bytes "a", bytes " [1, \"x\"]"), (bytes "a", bytes "2")], true⟩) := by
  decide +kernel

/-- Without removing `a` the call fails. -/
example : odd [bytes "b"] demoC = 1 ∧ remove demoC.text [bytes "b"] none = .ok none := by
  constructor
  · decide
  · decide +kernel

end Verif.Composer
