import Verif.Model.Fl

/-!
# Floating-point arithmetic with gradual underflow

As `binary p` in Model/Fl, but with a smallest exponent: numbers are multiples of `2^E` (numpy's `float64`: `p = 53`, `E = -1074`). Overflow is not modelled.
-/

namespace Padasip

/-- exponent of the last place of `x` (numpy's arithmetic, not code in /repo: models the `float64` of e.g. base_filter.py l. 101-114) -/
noncomputable def lastPlace (p : ℕ) (E : ℤ) (x : ℝ) : ℤ := max (Int.log 2 |x| - (p - 1)) E

/-- `x` rounded to the nearest number with at most `p` significant bits that is a multiple of `2^E`. -/
noncomputable def roundSub (p : ℕ) (E : ℤ) (x : ℝ) : ℝ := round (x / 2 ^ lastPlace p E x) * 2 ^ lastPlace p E x

/-- The numbers of that arithmetic. Simplified: infinities, NaN and signed zeros are not modelled; division by zero gives 0. -/
@[ext] structure Sf (p : ℕ) (E : ℤ) where
  val : ℝ

/-- correctly rounded arithmetic with gradual underflow as a `Scalar` -/
noncomputable instance (p : ℕ) (E : ℤ) : Scalar (Sf p E) where
  zero := ⟨0⟩
  one := ⟨1⟩
  add a b := ⟨roundSub p E (a.val + b.val)⟩
  sub a b := ⟨roundSub p E (a.val - b.val)⟩
  neg a := ⟨-a.val⟩
  mul a b := ⟨roundSub p E (a.val * b.val)⟩
  div a b := ⟨roundSub p E (a.val / b.val)⟩
  abs a := ⟨|a.val|⟩
  sgn a := ⟨if 0 < a.val then 1 else if a.val < 0 then -1 else 0⟩
  lt a b := decide (a.val < b.val)
  nat n := ⟨n⟩
  eqz a := decide (a.val = 0)

/-- rounded elementary functions with gradual underflow -/
noncomputable instance (p : ℕ) (E : ℤ) : Transc (Sf p E) where
  exp a := ⟨roundSub p E (Real.exp a.val)⟩
  tanh a := ⟨roundSub p E (Real.tanh a.val)⟩
  sqrt a := ⟨roundSub p E (Real.sqrt a.val)⟩
  log10 a := ⟨roundSub p E (Real.logb 10 a.val)⟩
  pow a b := ⟨roundSub p E (a.val ^ b.val)⟩

end Padasip
