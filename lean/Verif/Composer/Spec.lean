import Verif.Token.Grammar

/-!
# What removing members from an object means (specification)

Documents with layout are those of `Verif.Token.Grammar`.  A member is removed when its key is written without escapes and the
bytes between the quotation marks are one of the given keys; members are looked at on every nesting level, but not inside
removed values.
-/

namespace Verif.Composer
open Verif.Token

/-- The bytes between the first and the last byte of a string token. -/
def inner (key : List Nat) : List Nat := key.tail.dropLast

/-- The member with this key goes. -/
def goes (keys : List (List Nat)) (kty : Tok) (key : List Nat) : Bool := kty == .string && keys.contains (inner key)

/-- Texts separated by commas. -/
def commas : List (List Nat) → List Nat
  | [] => []
  | [x] => x
  | x :: y :: r => x ++ 0x2C :: commas (y :: r)

mutual
  /-- The text of what is left, without whitespace. -/
  def kept (keys : List (List Nat)) : D → List Nat
    | .lit _ w => w
    | .arr _ es => 0x5B :: (commas (keptEs keys es) ++ [0x5D])
    | .obj _ ms => 0x7B :: (commas (keptMs keys ms) ++ [0x7D])

  def keptEs (keys : List (List Nat)) : Es → List (List Nat)
    | .nil => []
    | .cons v _ _ r => kept keys v :: keptEs keys r

  def keptMs (keys : List (List Nat)) : Ms → List (List Nat)
    | .nil => []
    | .cons kty key _ _ v _ _ r =>
      if goes keys kty key then keptMs keys r else (key ++ 0x3A :: kept keys v) :: keptMs keys r
end

mutual
  /-- The removed keys with the text of their values (and the whitespace before it), in the order of the document. -/
  def gone (keys : List (List Nat)) : D → List (List Nat × List Nat)
    | .lit _ _ => []
    | .arr _ es => goneEs keys es
    | .obj _ ms => goneMs keys ms

  def goneEs (keys : List (List Nat)) : Es → List (List Nat × List Nat)
    | .nil => []
    | .cons v _ _ r => gone keys v ++ goneEs keys r

  def goneMs (keys : List (List Nat)) : Ms → List (List Nat × List Nat)
    | .nil => []
    | .cons kty key _ k2 v _ _ r =>
      (if goes keys kty key then [(inner key, k2 ++ v.text)] else gone keys v) ++ goneMs keys r
end

/-- A string written without escapes. -/
def plain : D → Bool
  | .lit ty _ => ty == .string
  | _ => false

mutual
  /-- The number of arrays, outside removed values, whose last element is a string written without escapes. -/
  def odd (keys : List (List Nat)) : D → Nat
    | .lit _ _ => 0
    | .arr _ es => oddEs keys es
    | .obj _ ms => oddMs keys ms

  def oddEs (keys : List (List Nat)) : Es → Nat
    | .nil => 0
    | .cons v _ _ .nil => odd keys v + if plain v then 1 else 0
    | .cons v _ _ (.cons v' w1 w2 r) => odd keys v + oddEs keys (.cons v' w1 w2 r)

  def oddMs (keys : List (List Nat)) : Ms → Nat
    | .nil => 0
    | .cons kty key _ _ v _ _ r => (if goes keys kty key then 0 else odd keys v) + oddMs keys r
end

end Verif.Composer
