import Verif.FastVal.Theorems

/-!
# Comparisons on several goroutines

The only memory that comparisons of different matchers share and write is the package variable `toJsonStringBuffer`
(fastval.go:90), used by `toJsonStringInternal` (fastval.go:429-450).  A comparison that converts a number to a string is
split into its accesses to this variable and to the array behind it; everything else is one step.  Goroutines interleave at
these steps, and every step sees the effects of the earlier ones (the Go memory model promises less for racing programs).
-/

namespace Verif.Conc
open Verif.FastVal

/-- What a comparison does with the shared buffer: nothing, or converting a number, whose text is `w`, and comparing the
text `a` with it (the result is negated if `neg`). -/
inductive Job where
  | pure (r : Int × Bool)
  | conv (a w : List Nat) (neg : Bool)

/-- The result for a given text of the number. -/
def Job.with : Job → List Nat → Int × Bool
  | .pure r, _ => r
  | .conv a _ neg, w => (if neg then cmpBytes a w * -1 else cmpBytes a w, true)

/-- The result of a comparison that is not disturbed. -/
def Job.result : Job → Int × Bool
  | .pure r => r
  | .conv a w neg => (if neg then cmpBytes a w * -1 else cmpBytes a w, true)

variable {E : Ext}

/-- The text of a number that `toJsonStringInternal` writes to the buffer, fastval.go:433-446. -/
def numText : Data E → Option (List Nat)
  | .uint v => some (fmtUint v)
  | .int v => some (fmtInt v)
  | .float f => some (E.fmtE f)
  | _ => none

/-- The comparison `compareInternal`, fastval.go:860-895, as a job. -/
def internalJob (a b : FV E) (neg : Bool) : Job :=
  match a.d.ty.isString, numText b.d with
  | true, some w => .conv a.d.toJsonString.1.slice w neg
  | _, _ => .pure (if neg then ((compareInternal a b).1 * -1, (compareInternal a b).2) else compareInternal a b)

/-- `Compare`, fastval.go:679-741, as a job. -/
def jobOf (a b : FV E) : Job :=
  if a.user then
    if checkCompat a.d b.d = false then
      if a.d.ty.isNumeric && b.d.ty.isNumeric then internalJob b a true else .pure (collate a.d b.d)
    else internalJob a b false
  else if b.user then
    if checkCompat b.d a.d = false then
      if a.d.ty.isNumeric && b.d.ty.isNumeric then internalJob b a true else .pure (collate a.d b.d)
    else internalJob b a true
  else if sameType a.d.ty b.d.ty then internalJob a b false
  else if a.d.ty.rank < b.d.ty.rank then
    if checkCompat a.d b.d = false then
      if checkCompat b.d a.d = false then .pure (collate a.d b.d) else internalJob b a true
    else internalJob a b false
  else
    if checkCompat b.d a.d = false then
      if checkCompat a.d b.d = false then .pure (collate a.d b.d) else internalJob a b false
    else internalJob b a true

/-- A sequential program that compares values and finally returns something, such as a call of `Match`. -/
inductive Prog (α : Type) where
  | ret (a : α)
  | cmp (j : Job) (k : Int × Bool → Prog α)

/-- What the program returns if it is not disturbed. -/
def Prog.eval {α : Type} : Prog α → α
  | .ret a => a
  | .cmp j k => (k j.result).eval

/-- The program never converts a number to a string, whatever the results of its comparisons are. -/
def Prog.NoConv {α : Type} : Prog α → Prop
  | .ret _ => True
  | .cmp (.pure _) k => ∀ r, (k r).NoConv
  | .cmp (.conv ..) _ => False

/-- A slice: index of the array behind it, and length (all slices here begin at the beginning of the array). -/
structure Hdr where
  block : Nat
  len : Nat
  deriving DecidableEq, Repr

/-- Shared memory: the arrays (each with all its capacity), and the variable `toJsonStringBuffer`. -/
structure Mem where
  blocks : List (List Nat)
  g : Hdr
  deriving DecidableEq, Repr

/-- The bytes of a slice. -/
def Mem.read (m : Mem) (h : Hdr) : List Nat := (m.blocks.getD h.block []).take h.len

/-- `append(slice, w...)`: in place if the capacity suffices, else in a new array, with `spare` bytes of further
capacity. -/
def Mem.append (m : Mem) (spare : Nat) (h : Hdr) (w : List Nat) : Mem × Hdr :=
  if h.len + w.length ≤ (m.blocks.getD h.block []).length then
    ({ m with blocks := m.blocks.set h.block (m.read h ++ w ++ (m.blocks.getD h.block []).drop (h.len + w.length)) },
      ⟨h.block, h.len + w.length⟩)
  else ({ m with blocks := m.blocks ++ [m.read h ++ w ++ List.replicate spare 0] }, ⟨m.blocks.length, h.len + w.length⟩)

/-- A goroutine: between two steps of its program, or inside a conversion. -/
inductive Th (α : Type) where
  | run (p : Prog α)
  /-- the buffer was cut to length 0 -/
  | cut (j : Job) (w : List Nat) (k : Int × Bool → Prog α)
  /-- the buffer was read for `append` -/
  | read (h : Hdr) (j : Job) (w : List Nat) (k : Int × Bool → Prog α)
  /-- the bytes were appended, giving `h` -/
  | wrote (h : Hdr) (j : Job) (w : List Nat) (k : Int × Bool → Prog α)
  /-- `h` was stored in the variable -/
  | stored (j : Job) (w : List Nat) (k : Int × Bool → Prog α)
  /-- the variable was read for the result `h` -/
  | got (h : Hdr) (j : Job) (w : List Nat) (k : Int × Bool → Prog α)

/-- One step of a goroutine, fastval.go:434-445 and 582-588. -/
def step {α : Type} (spare : Nat) (m : Mem) : Th α → Mem × Th α
  | .run (.ret a) => (m, .run (.ret a))
  | .run (.cmp (.pure r) k) => (m, .run (k r))
  | .run (.cmp (.conv a w neg) k) => ({ m with g := ⟨m.g.block, 0⟩ }, .cut (.conv a w neg) w k)
  | .cut j w k => (m, .read m.g j w k)
  | .read h j w k => ((m.append spare h w).1, .wrote (m.append spare h w).2 j w k)
  | .wrote h j w k => ({ m with g := h }, .stored j w k)
  | .stored j w k => (m, .got m.g j w k)
  | .got h j _ k => (m, .run (k (j.with (m.read h))))

/-- Several goroutines and the memory they share. -/
structure Sys (α : Type) where
  mem : Mem
  th : Nat → Th α

/-- Goroutine `i` makes a step. -/
def Sys.step {α : Type} (spare i : Nat) (s : Sys α) : Sys α :=
  ⟨(Conc.step spare s.mem (s.th i)).1, fun k => if k = i then (Conc.step spare s.mem (s.th i)).2 else s.th k⟩

/-- A schedule: which goroutine makes the next step, and how much further capacity an array it might create has. -/
def Sys.exec {α : Type} : List (Nat × Nat) → Sys α → Sys α
  | [], s => s
  | (i, spare) :: l, s => Sys.exec l (s.step spare i)

/-- All goroutines at the beginning; `toJsonStringBuffer` is nil. -/
def start {α : Type} (p : Nat → Prog α) : Sys α := ⟨⟨[[]], ⟨0, 0⟩⟩, fun i => .run (p i)⟩

end Verif.Conc
