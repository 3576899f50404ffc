import Verif.Match.Damage
import Verif.Match.Theorems

/-!
# Texts that do not begin with a value, and bytes behind the document

What `Match` (fastMatcher.go:811-833) does is settled by the first byte behind the whitespace if that byte begins no value; and
by the document alone if the text begins with one.
-/

namespace Verif.Match
open Verif.Token Verif.FastVal
open Verif.BinTree (Tree State Sh)

variable {E : Ext}

/-! ### C92 -/

/-- Bytes with which no token begins. -/
def NoToken (x : Nat) : Prop :=
  x ∉ [0x20, 0x09, 0x0A, 0x0D, 0x7B, 0x7D, 0x5B, 0x5D, 0x3A, 0x2C, 0x22, 0x2D, 0x74, 0x66, 0x6E] ∧ ¬ (0x30 ≤ x ∧ x ≤ 0x39)

/-- Closing brackets, colon and comma. -/
def Delimiter (x : Nat) : Prop := x ∈ [0x7D, 0x5D, 0x3A, 0x2C]

theorem NoToken.act {x : Nat} (h : NoToken x) : act .beginValue x = .fail := by
  obtain ⟨h1, h2⟩ := h
  simp only [List.mem_cons, List.not_mem_nil, or_false, not_or] at h1
  have h3 : isSpace x = false := by simp [isSpace]; omega
  have h4 : isDigit19 x = false := by simp [isDigit19]; omega
  simp only [Token.act, actBeginValue, h3, h4]
  repeat' first | rw [if_neg (by omega)] | rw [if_neg (by simp)]

theorem Delimiter.token {x : Nat} (h : Delimiter x) : ∃ ty, TokText ty [x] ∧ ty ≠ .integer ∧ ty ≠ .number ∧ ty.isLiteral = false ∧
    ty ≠ .objectStart ∧ ty ≠ .arrayStart := by
  simp only [Delimiter, List.mem_cons, List.not_mem_nil, or_false] at h
  rcases h with rfl | rfl | rfl | rfl
  · exact ⟨_, .objectEnd, by simp, by simp, rfl, by simp, by simp⟩
  · exact ⟨_, .arrayEnd, by simp, by simp, rfl, by simp, by simp⟩
  · exact ⟨_, .keyDelim, by simp, by simp, rfl, by simp, by simp⟩
  · exact ⟨_, .listDelim, by simp, by simp, rfl, by simp, by simp⟩

theorem exec_other (X : Fns E) (t : Tree) (h : Nat) (node : Exec E) {ty : Tok} (hl : ty.isLiteral = false) (ho : ty ≠ .objectStart)
    (ha : ty ≠ .arrayStart) (w : List Nat) (m : M) : matchExec X t (h + 1) node ty w m = .panic := by
  cases node with
  | mk store elems ops loops after =>
    rw [matchExec]
    cases ty <;> simp_all [Tok.isLiteral]

theorem height_pos (node : Exec E) : ∃ h, node.height = h + 1 := by
  cases node with
  | mk store elems ops loops after =>
    rw [Exec.height]
    exact ⟨_, Nat.add_comm ..⟩

theorem run_other (X : Fns E) (df : Def E) (m : M) {data : List Nat} (hne : data ≠ []) {ty : Tok} {w : List Nat} {tk : Tkn}
    (hs : step ⟨data, 0⟩ = (some (ty, w), tk)) (hl : ty.isLiteral = false) (ho : ty ≠ .objectStart) (ha : ty ≠ .arrayStart) :
    run X df m data = .panic := by
  unfold run
  simp only [if_neg hne, hs]
  cases df.parse with
  | none => rfl
  | some node =>
    obtain ⟨h, e⟩ := height_pos node
    simp only [e, exec_other X df.tree h node hl ho ha]
    rfl

/-- The empty text: the verdict is false, without an error, whatever the definition and whatever the matcher has done before. -/
theorem C92_empty (X : Fns E) (df : Def E) (m : M) : ∃ m', run X df m [] = .ok (some false, m') ∧ m'.slots = m.slots ∧ m'.bt = m.bt ∧
    m'.coll = m.coll := ⟨_, rfl, rfl, rfl, rfl⟩

/-- Texts of whitespace only crash the matcher. -/
theorem C92_blank (X : Fns E) (df : Def E) (m : M) {ws : List Nat} (hws : IsWs ws) (hne : ws ≠ []) : run X df m ws = .panic := by
  obtain ⟨k', h, _⟩ := step_end (k := ⟨ws, 0⟩) (ws := ws) (by simp) hws
  exact run_other X df m hne h rfl (by simp) (by simp)

/-- Texts that begin with a closing bracket, a colon or a comma crash the matcher. -/
theorem C92_delimiter (X : Fns E) (df : Def E) (m : M) {ws rest : List Nat} {x : Nat} (hws : IsWs ws) (hx : Delimiter x) :
    run X df m (ws ++ x :: rest) = .panic := by
  obtain ⟨ty, h1, h2, h3, h4, h5, h6⟩ := hx.token
  exact run_other X df m (by simp) (step_tok (k := ⟨ws ++ x :: rest, 0⟩) (w := [x]) (post := rest) (by simp) hws h1 (follow_str h2 h3 _)) h4 h5 h6

/-- Texts that begin with a byte that begins no token are an error, and leave the state of the matcher alone. -/
theorem C92_error (X : Fns E) (df : Def E) (m : M) {ws rest : List Nat} {x : Nat} (hws : IsWs ws) (hx : NoToken x) :
    ∃ m', run X df m (ws ++ x :: rest) = .ok (none, m') ∧ m'.slots = m.slots ∧ m'.bt = m.bt ∧ m'.coll = m.coll := by
  have hs : step ⟨ws ++ x :: rest, 0⟩ = (none, ⟨ws ++ x :: rest, 0⟩) := by
    unfold step
    rw [if_neg (by simp)]
    simp only [List.drop_zero, scan_ws ws hws, scan_fail hx.act]
  refine ⟨{ m with tk := ⟨ws ++ x :: rest, 0⟩ }, ?_, rfl, rfl, rfl⟩
  unfold run
  rw [if_neg (by simp)]
  simp only [hs]

/-- … and nothing else begins otherwise: a byte is whitespace, begins a value, delimits, or begins no token. -/
theorem C92_cases (x : Nat) : (x = 0x20 ∨ x = 0x09 ∨ x = 0x0A ∨ x = 0x0D) ∨
    (x = 0x7B ∨ x = 0x5B ∨ x = 0x22 ∨ x = 0x2D ∨ (0x30 ≤ x ∧ x ≤ 0x39) ∨ x = 0x74 ∨ x = 0x66 ∨ x = 0x6E) ∨ Delimiter x ∨ NoToken x := by
  simp only [Delimiter, NoToken, List.mem_cons, List.not_mem_nil, or_false, not_or]
  omega

/-- `  ` crashes, `  }{` crashes, `  +1` is an error; the empty text is a verdict, for the demonstration matcher in a state left by a match. -/
example (m : M) : run demoFns demoEq m [32, 32] = .panic ∧ run demoFns demoEq m [32, 32, 125, 123] = .panic ∧
    (∃ m', run demoFns demoEq m [32, 32, 43, 49] = .ok (none, m')) ∧ ∃ m', run demoFns demoEq m [] = .ok (some false, m') :=
  ⟨C92_blank _ _ m (by simp [IsWs]) (by simp), C92_delimiter (ws := [32, 32]) _ _ m (by simp [IsWs]) (by simp [Delimiter]),
    (C92_error (ws := [32, 32]) _ _ m (by simp [IsWs]) (by simp [NoToken])).imp fun _ h => h.1, (C92_empty _ _ m).imp fun _ h => h.1⟩

/-! ### C93 -/

/-- The bytes behind the document do not matter: two texts that begin with one document get one verdict, even if no document
follows from the second. -/
theorem C93_definition (X : Fns E) {df : Def E} {s : Sh} {node : Exec E} (hw : df.WF s node) (hsafe : node.Safe df.numSlots) {d : D}
    (hd : d.WF) {ws ws' post post' : List Nat} (h1 : IsWs ws) (h2 : IsWs ws') (hf : d.Follows post) (hf' : d.Follows post') {m m' : M}
    (hm : Ready df m) (hm' : Ready df m') :
    ∃ b n n', run X df m (ws ++ (d.text ++ post)) = .ok (some b, n) ∧ run X df m' (ws' ++ (d.text ++ post')) = .ok (some b, n') := by
  obtain ⟨b, n, e1, e2⟩ := run_total X hw hsafe (data := ws ++ (d.text ++ post)) ⟨hd, ws, post, h1, hf, rfl⟩ hm
  obtain ⟨b', n', e1', e2'⟩ := run_total X hw hsafe (data := ws' ++ (d.text ++ post')) ⟨hd, ws', post', h2, hf', rfl⟩ hm'
  rw [e2] at e2'
  cases e2'
  exact ⟨b, n, n', e1, e1'⟩

/-- `{"a":1}` and `{"a":1}}}{"a":`. -/
example : ∃ b n n', run demoFns demoEq (newMatcher demoEq) demoDoc = .ok (some b, n) ∧
    run demoFns demoEq (newMatcher demoEq) (demoDoc ++ [125, 125, 123, 34, 97, 34, 58]) = .ok (some b, n') := by
  have hk : TokText .string [34, 97, 34] := .string (b := [97]) (.plain (by decide) (by decide) (by decide) .nil)
  have h1 : TokText .integer [49] := .integer (Or.inl (Or.inr ⟨49, [], rfl, by decide, by intro c hc; cases hc⟩))
  exact C93_definition demoFns demoEq_wf (by simp [Exec.Safe, Elems.Safe, Loops.Safe, After.Safe, Op.Safe, Ref.Safe])
    (d := .obj [] (.cons .string [34, 97, 34] [] [] (.lit .integer [49]) [] [] .nil))
    (by simp [D.WF, Ms.WF, IsWs, hk, h1, Tok.isLiteral]) (ws := []) (ws' := []) (post := []) (by simp [IsWs]) (by simp [IsWs]) trivial trivial
    (ready_new _) (ready_new _)

end Verif.Match
