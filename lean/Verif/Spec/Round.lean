import Verif.Num

/-!
# Rounding: what the results with floating point numbers are compared with

Independent of the model of the code.  Overflow and underflow are left out: every operation is assumed to stay in
the range of normal numbers.
-/

namespace SST.Round
open SST

/-- Rounding with relative error at most `u` (`u = 2⁻⁵³` for float64). -/
def RoundsTo (u : ℝ) (fl : ℝ → ℝ) : Prop := ∀ x, |fl x - x| ≤ u * |x|

/-- Rounding keeps the order and leaves whole numbers of at most 53 digits as they are. -/
structure KeepsIntegers (fl : ℝ → ℝ) : Prop where
  mono : Monotone fl
  int : ∀ k : ℤ, |k| ≤ 2 ^ 53 → fl k = k

/-- `v` is a sum of the numbers of the list, taken in any order and with any brackets, each addition rounded.  `numpy` and `pandas` do not promise an order. -/
inductive AnyOrder (fl : ℝ → ℝ) : List ℝ → ℝ → Prop
  | one (x : ℝ) : AnyOrder fl [x] x
  | add {l r : List ℝ} {a b : ℝ} : AnyOrder fl l a → AnyOrder fl r b → AnyOrder fl (l ++ r) (fl (a + b))
  | perm {l l' : List ℝ} {a : ℝ} : l.Perm l' → AnyOrder fl l a → AnyOrder fl l' a

/-- Of two numbers `≥ 0` neither is less than `(1 - u) ^ k` times the other. -/
def Near (u : ℝ) (k : ℕ) (x v : ℝ) : Prop := (1 - u) ^ k * x ≤ v ∧ (1 - u) ^ k * v ≤ x

/-- The same for results that may be NaN: both are NaN, or both are numbers with the given relation. -/
def BothOr (P : ℝ → ℝ → Prop) : Option ℝ → Option ℝ → Prop
  | none, none => True
  | some x, some v => P x v
  | _, _ => False

end SST.Round
