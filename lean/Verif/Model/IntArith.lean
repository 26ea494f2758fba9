import Verif.Model.Filters
import Verif.Model.Misc
import Verif.Model.Real

/-!
# Integer data in the filters

The input matrix of a filter may be an integer array.  numpy then computes `integer op integer` in the integer type (modulo `2^b`) and
everything that involves a float as a float.  `Num b signed` are numbers that carry this distinction; because the filters of
`Model/Filters.lean` are defined over any `Scalar`, instantiating them with `Num` gives the filters on integer data.

Not covered: `FilterAP` and `FilterOCNLMS`, which copy every input into float arrays (`self.x_mem`, base_filter.py l. 233; `self.mem_x`,
ocnlms.py l. 129), a conversion the generic model does not perform.
-/

namespace Padasip

/-- A number in an expression: an element of an integer array of `b` bits (signed or unsigned), or a float (a real: rounding is not
modelled here). -/
inductive Num (b : ℕ) (signed : Bool) where
  | int (a : BitVec b)
  | flt (r : ℝ)

namespace Num
variable {b : ℕ} {signed : Bool}

/-- the number that is stood for -/
noncomputable def val : Num b signed → ℝ
  | int a => ((BitVec.value signed a : ℤ) : ℝ)
  | flt r => r

/-- numpy's `+`, `-`, `*`: in `b` bits if both operands are integers, otherwise in floats. -/
noncomputable def op (f : BitVec b → BitVec b → BitVec b) (g : ℝ → ℝ → ℝ) : Num b signed → Num b signed → Num b signed
  | int a, int c => int (f a c)
  | p, q => flt (g p.val q.val)

/-- `np.sign`, which keeps the type -/
noncomputable def sign : Num b signed → Num b signed
  | int a => int (if 0 < BitVec.value signed a then 1 else if BitVec.value signed a < 0 then -1 else 0)
  | flt r => flt (Scalar.sgn r)

/-- numpy arithmetic (type promotion rules for one integer type and `float64`): `/` and the functions of `Transc` always give floats, `np.abs`
and `np.sign` keep the type.  `1` is the float of `np.eye` (vslms_benveniste.py l. 96); `0` is the neutral element of sums. -/
noncomputable instance : Transc (Num b signed) where
  zero := int 0
  one := flt 1
  add := op (· + ·) (· + ·)
  sub := op (· - ·) (· - ·)
  neg
    | int a => int (-a)
    | flt r => flt (-r)
  mul := op (· * ·) (· * ·)
  div p q := flt (p.val / q.val)
  abs
    | int a => int (bvAbs signed a)
    | flt r => flt |r|
  sgn := sign
  lt p q := by classical exact decide (p.val < q.val)
  nat k := flt k
  eqz p := by classical exact decide (p.val = 0)
  exp p := flt (Real.exp p.val)
  tanh p := flt (Real.tanh p.val)
  sqrt p := flt (Real.sqrt p.val)
  log10 p := flt (Real.logb 10 p.val)
  pow p q := flt (p.val ^ q.val)

end Num

end Padasip
