import Verif.Token.Lemmas

/-!
# Model of skipping (fastMatcher.go), and reading token sequences
-/

namespace Verif.Token

/-- The loop of `FastMatcher.leaveValue`, fastMatcher.go:43-67.  The Boolean tells whether an error was
returned.  `fuel` bounds the iterations; `leaveValue` supplies one more than the length of the input, which
`C14_leave_never_stuck` shows to be enough. -/
def leaveLoop : Nat → Nat → Tkn → Res (Bool × Tkn)
  | 0, _, _ => .stuck
  | fuel + 1, depth, k =>
    match step k with
    | (none, k') => .ok (true, k')
    | (some (ty, _), k') =>
      match ty with
      | .objectStart | .arrayStart => leaveLoop fuel (depth + 1) k'
      | .objectEnd | .arrayEnd => if depth = 0 then .ok (false, k') else leaveLoop fuel (depth - 1) k'
      | .end_ => .panic
      | _ => leaveLoop fuel depth k'

/-- `FastMatcher.leaveValue`, fastMatcher.go:39-68. -/
def leaveValue (k : Tkn) : Res (Bool × Tkn) := leaveLoop (k.data.length + 1) 0 k

/-- `FastMatcher.skipValue`, fastMatcher.go:70-92. -/
def skipValue (ty : Tok) (k : Tkn) : Res (Bool × Tkn) :=
  match ty with
  | .string | .escString | .integer | .number | .null | .tru | .fals => .ok (false, k)
  | .objectStart | .arrayStart => leaveValue k
  | _ => .panic

/-! ### One token -/

theorem TokText.ne_nil {ty w} (h : TokText ty w) : w ≠ [] := by
  cases h with
  | integer h =>
    rcases h with (rfl | ⟨_, _, rfl, _⟩) | ⟨_, rfl, _⟩ <;> simp
  | number hi _ _ hn => rw [List.append_assoc]; intro h; exact hn (List.append_eq_nil_iff.1 h).2
  | _ => simp

theorem drop_lt {data : List Nat} {pos : Nat} {l : List Nat} (h : data.drop pos = l) (hl : l ≠ []) :
    pos < data.length := by
  apply Decidable.byContradiction
  intro hn
  rw [List.drop_eq_nil_of_le (by omega)] at h
  exact hl h.symm

theorem slice_of_drop {data : List Nat} {pos : Nat} {ws w post : List Nat}
    (h : data.drop pos = ws ++ (w ++ post)) :
    slice data (pos + ws.length) (pos + ws.length + w.length) = w := by
  unfold slice
  rw [← List.drop_drop, h, List.drop_left, Nat.add_sub_cancel_left, List.take_left]

theorem drop_of_drop {data : List Nat} {pos : Nat} {a b : List Nat} (h : data.drop pos = a ++ b) :
    data.drop (pos + a.length) = b := by
  rw [← List.drop_drop, h, List.drop_left]

theorem step_tok {k : Tkn} {ws w post : List Nat} {ty : Tok} (h : k.data.drop k.pos = ws ++ (w ++ post))
    (hws : IsWs ws) (ht : TokText ty w) (hf : Follow ty post) :
    step k = (some (ty, w), ⟨k.data, k.pos + ws.length + w.length⟩) := by
  have hlt : k.pos < k.data.length := drop_lt h (by simp [ht.ne_nil])
  unfold step
  rw [if_neg (by omega), h, scan_ws ws hws, scan_accepts ht hf]
  simp only [slice_of_drop h]

theorem step_end {k : Tkn} {ws : List Nat} (h : k.data.drop k.pos = ws) (hws : IsWs ws) :
    ∃ k', step k = (some (.end_, []), k') ∧ k'.data = k.data := by
  unfold step
  by_cases hp : k.pos ≥ k.data.length
  · rw [if_pos hp]; exact ⟨k, rfl, rfl⟩
  · rw [if_neg hp, h]
    have := scan_ws ws hws [] k.pos
    rw [List.append_nil] at this
    rw [this]
    simp [scan, slice]

/-! ### Token sequences -/

/-- Stepping from `k` yields exactly the tokens `ts` and leaves the tokenizer in `k'`. -/
def Reads : Tkn → List (Tok × List Nat) → Tkn → Prop
  | k, [], k' => k' = k
  | k, t :: ts, k' => ∃ k1, step k = (some t, k1) ∧ Reads k1 ts k'

theorem Reads.append {k k1 k2 : Tkn} {a b : List (Tok × List Nat)} (h1 : Reads k a k1) (h2 : Reads k1 b k2) :
    Reads k (a ++ b) k2 := by
  induction a generalizing k with
  | nil => rw [h1] at h2; exact h2
  | cons t ts ih =>
    obtain ⟨k', e, h⟩ := h1
    exact ⟨k', e, ih h⟩

/-- What may follow a document: anything after a container, a non-continuing character after a number. -/
def D.Follows : D → List Nat → Prop
  | .lit ty _, post => Follow ty post
  | _, _ => True

theorem follow_of_ws {ty : Tok} {w : List Nat} (hw : IsWs w) {c : Nat} {rest : List Nat}
    (hc : c = 0x2C ∨ c = 0x5D ∨ c = 0x7D) : Follow ty (w ++ c :: rest) := by
  intro _ x hx
  cases w with
  | nil => simp at hx; omega
  | cons y w => simp at hx; have := hw y (by simp); omega

theorem follow_of_isWs {ty : Tok} {w : List Nat} (hw : IsWs w) : Follow ty w := by
  intro _ x hx
  cases w with
  | nil => simp at hx
  | cons y w => simp at hx; have := hw y (by simp); omega

theorem follow_str {ty : Tok} (h : ty ≠ .integer) (h' : ty ≠ .number) (post : List Nat) : Follow ty post := by
  intro hh; rcases hh with hh | hh <;> contradiction

theorem Es.tail_head (es : Es) (w : List Nat) : ∃ c rest, es.tail w = c :: rest ∧ (c = 0x2C ∨ c = 0x5D ∨ c = 0x7D) := by
  cases es with
  | nil => exact ⟨0x5D, [], by simp [Es.tail], by simp⟩
  | cons v w1 w2 r => exact ⟨0x2C, _, by simp [Es.tail]; rfl, by simp⟩

theorem Ms.tail_head (ms : Ms) (w : List Nat) : ∃ c rest, ms.tail w = c :: rest ∧ (c = 0x2C ∨ c = 0x5D ∨ c = 0x7D) := by
  cases ms with
  | nil => exact ⟨0x7D, [], by simp [Ms.tail], by simp⟩
  | cons kty key k1 k2 v w1 w2 r => exact ⟨0x2C, _, by simp [Ms.tail]; rfl, by simp⟩

theorem D.follows_es {v : D} {w1 w2 : List Nat} (hw : IsWs w1) (es : Es) (post : List Nat) :
    v.Follows (w1 ++ (es.tail w2 ++ post)) := by
  cases v with
  | lit ty w =>
    obtain ⟨c, rest, e, hc⟩ := es.tail_head w2
    rw [e]; exact follow_of_ws hw hc
  | _ => trivial

theorem D.follows_ms {v : D} {w1 w2 : List Nat} (hw : IsWs w1) (ms : Ms) (post : List Nat) :
    v.Follows (w1 ++ (ms.tail w2 ++ post)) := by
  cases v with
  | lit ty w =>
    obtain ⟨c, rest, e, hc⟩ := ms.tail_head w2
    rw [e]; exact follow_of_ws hw hc
  | _ => trivial

/-- One token then more. -/
theorem Reads.tok {k k' : Tkn} {ws w post : List Nat} {ty : Tok} {ts} (h : k.data.drop k.pos = ws ++ (w ++ post))
    (hws : IsWs ws) (ht : TokText ty w) (hf : Follow ty post)
    (hr : Reads ⟨k.data, k.pos + ws.length + w.length⟩ ts k') : Reads k ((ty, w) :: ts) k' :=
  ⟨_, step_tok h hws ht hf, hr⟩

theorem drop_tok {data : List Nat} {pos : Nat} {ws w post : List Nat}
    (h : data.drop pos = ws ++ (w ++ post)) : data.drop (pos + ws.length + w.length) = post :=
  drop_of_drop (drop_of_drop h)

mutual
  theorem reads_D (d : D) (hd : d.WF) (k : Tkn) (ws post : List Nat) (hws : IsWs ws)
      (hf : d.Follows post) (h : k.data.drop k.pos = ws ++ (d.text ++ post)) :
      Reads k d.toks ⟨k.data, k.pos + ws.length + d.text.length⟩ := by
    match d, hd, hf with
    | .lit ty w, hd, hf =>
      rw [D.toks]
      exact Reads.tok h hws hd.2 hf rfl
    | .arr ws' es, hd, hf =>
      rw [D.toks]
      rw [D.text, List.cons_append] at h
      refine Reads.tok (w := [0x5B]) (post := ws' ++ es.text ++ post) h hws .arrayStart (follow_str (by simp) (by simp) _) ?_
      have h2 := drop_tok (w := [0x5B]) h
      have := reads_Es es hd.2 ⟨k.data, k.pos + ws.length + [0x5B].length⟩ ws' post hd.1 (by rw [h2]; simp)
      simp only [D.text, List.length_cons, List.length_append, List.length_nil] at this ⊢
      have e : k.pos + ws.length + (ws'.length + es.text.length + 1) =
        k.pos + ws.length + (0 + 1) + ws'.length + es.text.length := by omega
      rw [e]; exact this
    | .obj ws' ms, hd, hf =>
      rw [D.toks]
      rw [D.text, List.cons_append] at h
      refine Reads.tok (w := [0x7B]) (post := ws' ++ ms.text ++ post) h hws .objectStart (follow_str (by simp) (by simp) _) ?_
      have h2 := drop_tok (w := [0x7B]) h
      have := reads_Ms ms hd.2 ⟨k.data, k.pos + ws.length + [0x7B].length⟩ ws' post hd.1 (by rw [h2]; simp)
      simp only [D.text, List.length_cons, List.length_append, List.length_nil] at this ⊢
      have e : k.pos + ws.length + (ws'.length + ms.text.length + 1) =
        k.pos + ws.length + (0 + 1) + ws'.length + ms.text.length := by omega
      rw [e]; exact this

  theorem reads_Es (es : Es) (hd : es.WF) (k : Tkn) (ws post : List Nat) (hws : IsWs ws)
      (h : k.data.drop k.pos = ws ++ (es.text ++ post)) :
      Reads k es.toks ⟨k.data, k.pos + ws.length + es.text.length⟩ := by
    match es, hd with
    | .nil, _ => exact Reads.tok (w := [0x5D]) h hws .arrayEnd (follow_str (by simp) (by simp) _) rfl
    | .cons v w1 w2 r, hd =>
      obtain ⟨hv, h1, h2, hr⟩ := hd
      rw [Es.text] at h
      simp only [List.append_assoc] at h
      have hv' := reads_D v hv k ws (w1 ++ (r.tail w2 ++ post)) hws (v.follows_es h1 r post) h
      have ht := reads_EsTail r hr ⟨k.data, k.pos + ws.length + v.text.length⟩ w1 w2 post h1 h2 (drop_tok h)
      have := hv'.append ht
      rw [Es.toks]
      simp only [Es.text, List.length_append] at this ⊢
      simpa only [Nat.add_assoc] using this

  theorem reads_EsTail (es : Es) (hd : es.WF) (k : Tkn) (ws w2 post : List Nat) (hws : IsWs ws) (hw2 : IsWs w2)
      (h : k.data.drop k.pos = ws ++ (es.tail w2 ++ post)) :
      Reads k es.tailToks ⟨k.data, k.pos + ws.length + (es.tail w2).length⟩ := by
    match es, hd with
    | .nil, _ => exact Reads.tok (w := [0x5D]) h hws .arrayEnd (follow_str (by simp) (by simp) _) rfl
    | .cons v w1 w3 r, hd =>
      obtain ⟨hv, h1, h3, hr⟩ := hd
      rw [Es.tail] at h
      simp only [List.append_assoc, List.cons_append] at h
      rw [Es.tailToks]
      refine Reads.tok (w := [0x2C]) h hws .listDelim (follow_str (by simp) (by simp) _) ?_
      have h' := drop_tok (w := [0x2C]) h
      have hv' := reads_D v hv ⟨k.data, k.pos + ws.length + [0x2C].length⟩ w2 (w1 ++ (r.tail w3 ++ post)) hw2
        (v.follows_es h1 r post) h'
      have ht := reads_EsTail r hr ⟨k.data, k.pos + ws.length + [0x2C].length + w2.length + v.text.length⟩ w1 w3 post h1 h3
        (drop_tok h')
      have := hv'.append ht
      simp only [Es.tail, List.length_append, List.length_cons, List.length_nil] at this ⊢
      have e : k.pos + ws.length + (w2.length + (v.text.length + (w1.length + (r.tail w3).length)) + 1) =
        k.pos + ws.length + (0 + 1) + w2.length + v.text.length + w1.length + (r.tail w3).length := by omega
      rw [e]; exact this

  theorem reads_Ms (ms : Ms) (hd : ms.WF) (k : Tkn) (ws post : List Nat) (hws : IsWs ws)
      (h : k.data.drop k.pos = ws ++ (ms.text ++ post)) :
      Reads k ms.toks ⟨k.data, k.pos + ws.length + ms.text.length⟩ := by
    match ms, hd with
    | .nil, _ => exact Reads.tok (w := [0x7D]) h hws .objectEnd (follow_str (by simp) (by simp) _) rfl
    | .cons kty key k1 k2 v w1 w3 r, hd =>
      obtain ⟨hk, hkey, hk1, hk2, hv, h1, h3, hr⟩ := hd
      rw [Ms.text] at h
      simp only [List.append_assoc, List.cons_append] at h
      rw [Ms.toks]
      have hfk : ∀ post, Follow kty post := follow_str (by rcases hk with rfl | rfl <;> simp) (by rcases hk with rfl | rfl <;> simp)
      refine Reads.tok h hws hkey (hfk _) ?_
      have h' := drop_tok h
      refine Reads.tok (k := ⟨k.data, k.pos + ws.length + key.length⟩) (w := [0x3A]) h' hk1 .keyDelim (follow_str (by simp) (by simp) _) ?_
      have h'' := drop_tok (w := [0x3A]) h'
      have hv' := reads_D v hv ⟨k.data, k.pos + ws.length + key.length + k1.length + [0x3A].length⟩ k2
        (w1 ++ (r.tail w3 ++ post)) hk2 (v.follows_ms h1 r post) h''
      have ht := reads_MsTail r hr ⟨k.data, k.pos + ws.length + key.length + k1.length + [0x3A].length + k2.length + v.text.length⟩
        w1 w3 post h1 h3 (drop_tok h'')
      have := hv'.append ht
      simp only [Ms.text, List.length_append, List.length_cons, List.length_nil] at this ⊢
      have e : k.pos + ws.length + (key.length + (k1.length + (k2.length + (v.text.length + (w1.length + (r.tail w3).length)) + 1))) =
        k.pos + ws.length + key.length + k1.length + (0 + 1) + k2.length + v.text.length + w1.length + (r.tail w3).length := by
        omega
      rw [e]; exact this

  theorem reads_MsTail (ms : Ms) (hd : ms.WF) (k : Tkn) (ws w2 post : List Nat) (hws : IsWs ws) (hw2 : IsWs w2)
      (h : k.data.drop k.pos = ws ++ (ms.tail w2 ++ post)) :
      Reads k ms.tailToks ⟨k.data, k.pos + ws.length + (ms.tail w2).length⟩ := by
    match ms, hd with
    | .nil, _ => exact Reads.tok (w := [0x7D]) h hws .objectEnd (follow_str (by simp) (by simp) _) rfl
    | .cons kty key k1 k2 v w1 w3 r, hd =>
      obtain ⟨hk, hkey, hk1, hk2, hv, h1, h3, hr⟩ := hd
      rw [Ms.tail] at h
      simp only [List.append_assoc, List.cons_append] at h
      rw [Ms.tailToks]
      have hfk : ∀ post, Follow kty post := follow_str (by rcases hk with rfl | rfl <;> simp) (by rcases hk with rfl | rfl <;> simp)
      refine Reads.tok (w := [0x2C]) h hws .listDelim (follow_str (by simp) (by simp) _) ?_
      have h0 := drop_tok (w := [0x2C]) h
      refine Reads.tok (k := ⟨k.data, k.pos + ws.length + [0x2C].length⟩) h0 hw2 hkey (hfk _) ?_
      have h' := drop_tok h0
      refine Reads.tok (k := ⟨k.data, k.pos + ws.length + [0x2C].length + w2.length + key.length⟩) (w := [0x3A]) h' hk1
        .keyDelim (follow_str (by simp) (by simp) _) ?_
      have h'' := drop_tok (w := [0x3A]) h'
      have hv' := reads_D v hv ⟨k.data, k.pos + ws.length + [0x2C].length + w2.length + key.length + k1.length + [0x3A].length⟩ k2
        (w1 ++ (r.tail w3 ++ post)) hk2 (v.follows_ms h1 r post) h''
      have ht := reads_MsTail r hr ⟨k.data, k.pos + ws.length + [0x2C].length + w2.length + key.length + k1.length + [0x3A].length +
        k2.length + v.text.length⟩ w1 w3 post h1 h3 (drop_tok h'')
      have := hv'.append ht
      simp only [Ms.tail, List.length_append, List.length_cons, List.length_nil] at this ⊢
      have e : k.pos + ws.length + (w2.length + (key.length + (k1.length + (k2.length + (v.text.length + (w1.length + (r.tail w3).length)) + 1))) + 1) =
        k.pos + ws.length + (0 + 1) + w2.length + key.length + k1.length + (0 + 1) + k2.length + v.text.length + w1.length + (r.tail w3).length := by
        omega
      rw [e]; exact this
end

/-! ### Balanced sequences -/

/-- Depth change along a token sequence; `none` when it would close below the start. -/
def bal : Nat → List (Tok × List Nat) → Option Nat
  | d, [] => some d
  | d, (ty, _) :: ts =>
    match ty with
    | .objectStart | .arrayStart => bal (d + 1) ts
    | .objectEnd | .arrayEnd => if d = 0 then none else bal (d - 1) ts
    | .end_ => none
    | _ => bal d ts

theorem bal_append (a b : List (Tok × List Nat)) (d : Nat) : bal d (a ++ b) = (bal d a).bind (fun d' => bal d' b) := by
  induction a generalizing d with
  | nil => rfl
  | cons t ts ih =>
    obtain ⟨ty, w⟩ := t
    cases ty <;> simp only [List.cons_append, bal, ih]
    all_goals try split <;> rfl
    all_goals rfl

theorem leaveLoop_reads {k k' : Tkn} {ts : List (Tok × List Nat)} (h : Reads k ts k') {d d' : Nat}
    (hb : bal d ts = some d') (fuel : Nat) : leaveLoop (fuel + ts.length) d k = leaveLoop fuel d' k' := by
  induction ts generalizing k d with
  | nil => simp only [bal, Option.some.injEq] at hb; rw [← hb, show k' = k from h]; rfl
  | cons t ts ih =>
    obtain ⟨ty, w⟩ := t
    obtain ⟨k1, e, h⟩ := h
    rw [List.length_cons, ← Nat.add_assoc, leaveLoop, e]
    cases ty <;> simp only [bal] at hb ⊢ <;> first | exact ih h hb | skip
    all_goals first
      | (split at hb
         · simp at hb
         · rename_i hd; rw [if_neg hd]; exact ih h hb)
      | simp at hb

mutual
  theorem bal_D (d : D) (hd : d.WF) (n : Nat) : bal n d.toks = some n := by
    match d, hd with
    | .lit ty w, hd =>
      have := hd.1
      cases ty <;> simp [Tok.isLiteral] at this <;> simp [D.toks, bal]
    | .arr ws es, hd => rw [D.toks]; simp only [bal]; exact bal_Es es hd.2 n
    | .obj ws ms, hd => rw [D.toks]; simp only [bal]; exact bal_Ms ms hd.2 n

  theorem bal_Es (es : Es) (hd : es.WF) (n : Nat) : bal (n + 1) es.toks = some n := by
    match es, hd with
    | .nil, _ => simp [Es.toks, bal]
    | .cons v w1 w2 r, hd => rw [Es.toks, bal_append, bal_D v hd.1]; exact bal_EsTail r hd.2.2.2 n

  theorem bal_EsTail (es : Es) (hd : es.WF) (n : Nat) : bal (n + 1) es.tailToks = some n := by
    match es, hd with
    | .nil, _ => simp [Es.tailToks, bal]
    | .cons v w1 w2 r, hd =>
      rw [Es.tailToks]; simp only [bal]; rw [bal_append, bal_D v hd.1]; exact bal_EsTail r hd.2.2.2 n

  theorem bal_Ms (ms : Ms) (hd : ms.WF) (n : Nat) : bal (n + 1) ms.toks = some n := by
    match ms, hd with
    | .nil, _ => simp [Ms.toks, bal]
    | .cons kty key k1 k2 v w1 w2 r, hd =>
      rw [Ms.toks]
      rcases hd.1 with rfl | rfl <;> simp only [bal] <;> rw [bal_append, bal_D v hd.2.2.2.2.1] <;>
        exact bal_MsTail r hd.2.2.2.2.2.2.2 n

  theorem bal_MsTail (ms : Ms) (hd : ms.WF) (n : Nat) : bal (n + 1) ms.tailToks = some n := by
    match ms, hd with
    | .nil, _ => simp [Ms.tailToks, bal]
    | .cons kty key k1 k2 v w1 w2 r, hd =>
      rw [Ms.tailToks]
      rcases hd.1 with rfl | rfl <;> simp only [bal] <;> rw [bal_append, bal_D v hd.2.2.2.2.1] <;>
        exact bal_MsTail r hd.2.2.2.2.2.2.2 n
end

/-! ### Progress -/

/-- Facts about a successful step. -/
theorem step_some {k k' : Tkn} {ty : Tok} {w : List Nat} (h : step k = (some (ty, w), k')) :
    k'.data = k.data ∧
      ((ty = .end_ ∧ w = [] ∧ (∃ ws, IsWs ws ∧ k.data.drop k.pos = ws) ∧ k.pos ≤ k'.pos ∧ k'.pos ≤ max k.pos k.data.length) ∨
        (TokText ty w ∧ ∃ ws post, IsWs ws ∧ k.data.drop k.pos = ws ++ (w ++ post) ∧
          k'.pos = k.pos + ws.length + w.length ∧ k'.pos ≤ k.data.length)) := by
  unfold step at h
  by_cases hp : k.pos ≥ k.data.length
  · rw [if_pos hp] at h
    simp at h
    obtain ⟨⟨rfl, rfl⟩, rfl⟩ := h
    exact ⟨rfl, Or.inl ⟨rfl, rfl, ⟨[], by simp [IsWs], List.drop_eq_nil_of_le hp⟩, Nat.le_refl _, by omega⟩⟩
  · rw [if_neg hp] at h
    split at h
    · simp at h
    · rename_i ty' a b hs
      obtain ⟨ws, w', rest', e1, e2, e3, e4, e5⟩ := scan_sound _ _ _ _ _ hs
      have hlen : (k.data.drop k.pos).length = k.data.length - k.pos := List.length_drop
      rw [e1] at hlen
      simp only [List.length_append] at hlen
      subst e3 e4
      rw [slice_of_drop e1] at h
      simp only [Prod.mk.injEq, Option.some.injEq] at h
      obtain ⟨⟨rfl, rfl⟩, rfl⟩ := h
      refine ⟨rfl, ?_⟩
      rcases e5 with ⟨rfl, rfl, rfl⟩ | ht
      · left
        simp only [List.length_nil] at hlen ⊢
        simp only [List.length_nil, Nat.add_zero] at *
        exact ⟨trivial, trivial, ⟨ws, e2, by rw [e1]; simp⟩, by omega, by omega⟩
      · right
        exact ⟨ht, ws, rest', e2, e1, rfl, by simp only; omega⟩

theorem TokText.not_end {w} (h : TokText .end_ w) : False := by cases h

theorem leaveLoop_total (fuel : Nat) : ∀ (d : Nat) (k : Tkn), k.data.length < k.pos + fuel →
    k.pos ≤ k.data.length → leaveLoop fuel d k ≠ .stuck := by
  induction fuel with
  | zero => intro d k h1 h2; omega
  | succ fuel ih =>
    intro d k h1 h2
    rw [leaveLoop]
    rcases hs : step k with ⟨r, k'⟩
    cases r with
    | none => simp
    | some p =>
      obtain ⟨ty, w⟩ := p
      obtain ⟨hd, h⟩ := step_some hs
      simp only
      rcases h with ⟨rfl, _⟩ | ⟨ht, ws, post, _, _, hp, hle⟩
      · simp
      · have hw := List.length_pos_iff.2 ht.ne_nil
        have hi : ∀ d, leaveLoop fuel d k' ≠ .stuck := fun d => ih d k' (by rw [hd]; omega) (by rw [hd]; exact hle)
        cases ty <;> simp only <;> first | exact hi _ | skip
        all_goals first
          | (split
             · simp
             · exact hi _)
          | simp

/-- More fuel does not change a finished run. -/
theorem leaveLoop_mono (fuel : Nat) : ∀ (d : Nat) (k : Tkn), leaveLoop fuel d k ≠ .stuck →
    ∀ m, leaveLoop (fuel + m) d k = leaveLoop fuel d k := by
  induction fuel with
  | zero => intro d k h; simp [leaveLoop] at h
  | succ fuel ih =>
    intro d k h m
    rw [Nat.add_right_comm, leaveLoop, leaveLoop]
    rw [leaveLoop] at h
    rcases hs : step k with ⟨x, k'⟩
    rw [hs] at h
    cases x with
    | none => rfl
    | some p =>
      obtain ⟨ty, w⟩ := p
      cases ty <;> simp only at h ⊢ <;> first | exact ih _ _ h m | skip
      all_goals
        split at h
        · rename_i hd; rw [if_pos hd, if_pos hd]
        · rename_i hd; rw [if_neg hd, if_neg hd]; exact ih _ _ h m

/-- Leaving stops right behind the sequence. -/
def Closes (ts : List (Tok × List Nat)) : Prop :=
  ∀ k k' fuel, Reads k ts k' → leaveLoop (fuel + ts.length) 0 k = .ok (false, k')

theorem Closes.close {ty : Tok} (w : List Nat) (h : ty = .objectEnd ∨ ty = .arrayEnd) : Closes [(ty, w)] := by
  rintro k k' fuel ⟨k1, e, h2⟩
  have h2 : k' = k1 := h2
  subst h2
  simp only [List.length_cons, List.length_nil, Nat.zero_add, leaveLoop, e]
  rcases h with rfl | rfl <;> rfl

theorem Reads.split {a b : List (Tok × List Nat)} {k k' : Tkn} (h : Reads k (a ++ b) k') :
    ∃ k1, Reads k a k1 ∧ Reads k1 b k' := by
  induction a generalizing k with
  | nil => exact ⟨k, rfl, h⟩
  | cons t ts ih =>
    obtain ⟨k1, e, h⟩ := h
    obtain ⟨k2, h1, h2⟩ := ih h
    exact ⟨k2, ⟨k1, e, h1⟩, h2⟩

theorem Closes.prepend {a b : List (Tok × List Nat)} (ha : bal 0 a = some 0) (hb : Closes b) : Closes (a ++ b) := by
  intro k k' fuel h
  obtain ⟨k1, h1, h2⟩ := h.split
  have := leaveLoop_reads h1 ha (fuel + b.length)
  rw [List.length_append, Nat.add_comm a.length, ← Nat.add_assoc, this]
  exact hb k1 k' fuel h2

theorem Es.closes_tail (es : Es) (hd : es.WF) : Closes es.tailToks := by
  match es, hd with
  | .nil, _ => exact Closes.close _ (Or.inr rfl)
  | .cons v w1 w2 r, hd =>
    rw [Es.tailToks, ← List.cons_append]
    exact Closes.prepend (by simp only [bal]; exact bal_D v hd.1 0) (r.closes_tail hd.2.2.2)

theorem Es.closes (es : Es) (hd : es.WF) : Closes es.toks := by
  match es, hd with
  | .nil, _ => exact Closes.close _ (Or.inr rfl)
  | .cons v w1 w2 r, hd => exact Closes.prepend (bal_D v hd.1 0) (r.closes_tail hd.2.2.2)

theorem Ms.closes_tail (ms : Ms) (hd : ms.WF) : Closes ms.tailToks := by
  match ms, hd with
  | .nil, _ => exact Closes.close _ (Or.inl rfl)
  | .cons kty key k1 k2 v w1 w2 r, hd =>
    have : (Ms.cons kty key k1 k2 v w1 w2 r).tailToks =
      ((.listDelim, [0x2C]) :: (kty, key) :: (.objectKeyDelim, [0x3A]) :: v.toks) ++ r.tailToks := by simp [Ms.tailToks]
    rw [this]
    refine Closes.prepend ?_ (r.closes_tail hd.2.2.2.2.2.2.2)
    rcases hd.1 with rfl | rfl <;> simp only [bal] <;> exact bal_D v hd.2.2.2.2.1 0

theorem Ms.closes (ms : Ms) (hd : ms.WF) : Closes ms.toks := by
  match ms, hd with
  | .nil, _ => exact Closes.close _ (Or.inl rfl)
  | .cons kty key k1 k2 v w1 w2 r, hd =>
    have : (Ms.cons kty key k1 k2 v w1 w2 r).toks =
      ((kty, key) :: (.objectKeyDelim, [0x3A]) :: v.toks) ++ r.tailToks := by simp [Ms.toks]
    rw [this]
    refine Closes.prepend ?_ (r.closes_tail hd.2.2.2.2.2.2.2)
    rcases hd.1 with rfl | rfl <;> simp only [bal] <;> exact bal_D v hd.2.2.2.2.1 0

theorem leave_of_reads {k k' : Tkn} {ts : List (Tok × List Nat)} (hle : k.pos ≤ k.data.length) (hb : Closes ts)
    (h : Reads k ts k') : leaveValue k = .ok (false, k') := by
  have h1 := leaveLoop_mono _ 0 k (leaveLoop_total (k.data.length + 1) 0 k (by omega) hle) ts.length
  have h2 := hb k k' (k.data.length + 1) h
  rw [h1] at h2
  exact h2

end Verif.Token
