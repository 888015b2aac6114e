import Mathlib.Data.Rat.Defs

/-! Reading printed decimal numbers. Independent of the model. -/

namespace GGCE.Spec

/-- the number written with the digits `s` -/
def readNat (s : List Char) : Nat := s.foldl (fun n c => 10 * n + (c.toNat - '0'.toNat)) 0

/-- the number written as digits, a point, digits -/
def readPositive (s : List Char) : ℚ :=
  (readNat (s.filter (· ≠ '.')) : ℚ) / 10 ^ (s.dropWhile (· ≠ '.')).tail.length

/-- the number written with a point and perhaps a minus sign -/
def readDecimal : List Char → ℚ
  | '-' :: s => -readPositive s
  | s => readPositive s

end GGCE.Spec
