import Verif.Token.Theorems

/-!
# Model of jsonComposer.go

`dst` is represented by its capacity `cap` and the bytes written so far, `out = dst[:pos]`; what lies behind the cursor is
never read.  Slicing beyond the capacity panics.  A nil composer and nil data do not occur: every call of `Write` passes the
text of a token other than `tknEnd`.  `copy` copies all of `data` whenever the slice expression before it succeeds, so
`ErrInsufficientMemory` is never returned.  All errors are one value (`none`).

The caller's map `removed` is represented by the list of its assignments, in order.
-/

namespace Verif.Composer
open Verif.Token

/-- `jsonObjComposer`, jsonComposer.go:18-27. -/
structure C where
  cap : Nat
  out : List Nat
  prev : Tok
  deriving DecidableEq, Repr

/-- `jsonObjComposer.Write`, jsonComposer.go:31-51. -/
def write (c : C) (data : List Nat) (ty : Tok) : Res C :=
  if ty = .objectEnd ∧ c.prev = .listDelim then
    if c.out = [] then .panic
    else if c.out.dropLast.length + data.length ≤ c.cap then .ok { c with out := c.out.dropLast ++ data, prev := ty }
    else .panic
  else if c.out.length + data.length ≤ c.cap then .ok { c with out := c.out ++ data, prev := ty }
  else .panic

/-- Variables of `MatchAndRemoveItemsFromJsonObject`. -/
structure St where
  tk : Tkn
  comp : C
  depth : Nat
  removed : List (List Nat × List Nat)
  deriving DecidableEq, Repr

/-- The loop `for !valueFound`, jsonComposer.go:197-235, with `valueDepth`; `none` is an error. -/
def valueLoop : Nat → Nat → Tkn → Res (Option Tkn)
  | 0, _, _ => .stuck
  | fuel + 1, d, k =>
    match step k with
    | (none, _) => .ok none
    | (some (ty, _), k') =>
      if ty.isLiteral then (if d = 0 then .ok (some k') else valueLoop fuel d k')
      else
        match ty with
        | .objectStart | .arrayStart => valueLoop fuel (d + 1) k'
        | .objectEnd | .arrayEnd => if d = 1 then .ok (some k') else if d = 0 then .ok none else valueLoop fuel (d - 1) k'
        | .end_ | .unknown => .ok none
        | _ => valueLoop fuel d k'

/-- After a key matched, jsonComposer.go:191-259. -/
def removeOne (name : List Nat) (s : St) : Res (Option St) :=
  valueLoop (s.tk.data.length + 1) 0 s.tk >>= fun r =>
  match r with
  | none => .ok none
  | some k =>
    let removed := s.removed ++ [(name, slice s.tk.data s.tk.pos k.pos)]
    match step k with
    | (none, _) => .ok none
    | (some (ty, w), k') =>
      match ty with
      | .objectEnd => write s.comp w ty >>= fun c =>
        if s.depth = 0 then .ok none else .ok (some ⟨k', c, s.depth - 1, removed⟩)
      | .listDelim => .ok (some ⟨k', s.comp, s.depth, removed⟩)
      | _ => .ok none

/-- The loop over `remove`, jsonComposer.go:183-260 (`BytesEqualsString`, lines 287-299, is equality of bytes): the new state and
`matched`. -/
def removeLoop (key : List Nat) : List (List Nat) → Bool → St → Res (Option (Bool × St))
  | [], m, s => .ok (some (m, s))
  | n :: ns, m, s =>
    if key = n then
      removeOne n s >>= fun r =>
      match r with
      | none => .ok none
      | some s => removeLoop key ns true s
    else removeLoop key ns m s

/-- How an iteration ends. -/
inductive Turn where
  | err | stop (s : St) | go (s : St)
  deriving DecidableEq, Repr

/-- A key has been read, jsonComposer.go:178-272: `key` and `delim` are the texts of its token and of the colon.  The slice
expression `potentialKey[1 : tknLen-1]` panics on a token shorter than two bytes. -/
def keyTurn (remove : List (List Nat)) (key delim : List Nat) (s : St) : Res Turn :=
  if key.length < 2 then .panic
  else
    removeLoop ((key.drop 1).take (key.length - 2)) remove false s >>= fun r =>
    match r with
    | none => .ok .err
    | some (true, s) => .ok (.go s)
    | some (false, s) =>
      write s.comp key .string >>= fun c =>
      write c delim .string >>= fun c => .ok (.go { s with comp := c })

/-- A string token has been read, jsonComposer.go:106-142. -/
def strTurn (remove : List (List Nat)) (w : List Nat) (s : St) : Res Turn :=
  match step s.tk with
  | (none, _) => .ok .err
  | (some (ty2, w2), k2) =>
    if ty2 = .objectKeyDelim then keyTurn remove w w2 { s with tk := k2 }
    else if ty2 = .unknown ∨ ty2 = .end_ then .ok .err
    else
      write s.comp w .string >>= fun c =>
      write c w2 ty2 >>= fun c =>
      if ty2 = .objectEnd then
        if s.depth = 0 then .ok .err else .ok (.go ⟨k2, c, s.depth - 1, s.removed⟩)
      else .ok (.go ⟨k2, c, s.depth, s.removed⟩)

/-- One iteration, jsonComposer.go:97-273. -/
def turn (remove : List (List Nat)) (s : St) : Res Turn :=
  match step s.tk with
  | (none, _) => .ok .err
  | (some (ty, w), k) =>
    match ty with
    | .string => strTurn remove w { s with tk := k }
    | .objectStart | .arrayStart =>
      write s.comp w ty >>= fun c => .ok (.go ⟨k, c, s.depth + 1, s.removed⟩)
    | .objectEnd | .arrayEnd =>
      if s.depth = 0 then .ok .err
      else write s.comp w ty >>= fun c => .ok (.go ⟨k, c, s.depth - 1, s.removed⟩)
    | .end_ => .ok (.stop { s with tk := k })
    | .unknown => .ok .err
    | _ => write s.comp w ty >>= fun c => .ok (.go ⟨k, c, s.depth, s.removed⟩)

/-- The loop `for tknType != tknEnd`. -/
def loop (remove : List (List Nat)) : Nat → St → Res (Option St)
  | 0, _ => .stuck
  | fuel + 1, s =>
    turn remove s >>= fun t =>
    match t with
    | .err => .ok none
    | .stop s => .ok (some s)
    | .go s => loop remove fuel s

/-- The results of a call without error: `dst[:n]`, the assignments to `removed`, and `atleastOneFieldLeft`; the number of
removed items is the number of assignments. -/
structure Out where
  dst : List Nat
  removed : List (List Nat × List Nat)
  left : Bool
  deriving DecidableEq, Repr

/-- `MatchAndRemoveItemsFromJsonObject`, jsonComposer.go:73-285, with `Commit`, lines 55-63; `cap` is the capacity of `dst`, or `none` for nil. -/
def remove (src : List Nat) (keys : List (List Nat)) (cap : Option Nat) : Res (Option Out) :=
  if src.length < 2 ∨ src.head? ≠ some 0x7B ∨ src.getLast? ≠ some 0x7D then .ok none
  else
    loop keys (src.length + 1) ⟨⟨src, 0⟩, ⟨cap.getD src.length, [], .unknown⟩, 0, []⟩ >>= fun r =>
    match r with
    | none => .ok none
    | some s => if s.depth ≠ 0 then .ok none else .ok (some ⟨s.comp.out, s.removed, decide (s.comp.out.length > 2)⟩)

end Verif.Composer
