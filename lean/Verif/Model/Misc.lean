import Verif.Model.Np
import Mathlib.Data.EReal.Inv
import Mathlib.Analysis.SpecialFunctions.Log.Basic
import Mathlib.Data.BitVec

/-!
# `padasip/misc/error_evaluation.py`

Series are 1-d arrays of run-time length (lists).  The second argument is optional: `none` is the default `x2=-1` (an `int`).
-/

namespace Padasip

section float
variable {K : Type}

/-- `get_valid_error(x1, x2=-1)`, error_evaluation.py l. 99-125.
Simplification: the arguments are 1-d series of numbers, so the conversion by `np.array` (l. 112, 118-119) cannot fail. -/
def getValidError [Scalar K] (x1 : List K) (x2 : Option (List K)) : Except Err (List K) :=
  match x2 with
  | none => .ok x1
  | some x2 =>
    if x1.length ≠ x2.length then .error .valueError
    else .ok (List.zipWith (· - ·) x1 x2)

/-- `np.dot(e, e)` of a series. -/
def dotSelf [Scalar K] (e : List K) : K := (e.map fun a => a * a).sum

/-- `logSE`, error_evaluation.py l. 127-149: `10*np.log10(e**2)`. -/
def logSE [Transc K] (x1 : List K) (x2 : Option (List K)) : Except Err (List K) :=
  match getValidError x1 x2 with
  | .error err => .error err
  | .ok e => .ok (e.map fun a => Scalar.nat 10 * Transc.log10 (a * a))

/-- `MAE`, error_evaluation.py l. 152-173: `np.sum(np.abs(e)) / float(len(e))`. -/
def MAE [Scalar K] (x1 : List K) (x2 : Option (List K)) : Except Err K :=
  match getValidError x1 x2 with
  | .error err => .error err
  | .ok e => .ok ((e.map Scalar.abs).sum / Scalar.nat e.length)

/-- `MSE`, error_evaluation.py l. 175-195: `np.dot(e, e) / float(len(e))`. -/
def MSE [Scalar K] (x1 : List K) (x2 : Option (List K)) : Except Err K :=
  match getValidError x1 x2 with
  | .error err => .error err
  | .ok e => .ok (dotSelf e / Scalar.nat e.length)

/-- `RMSE`, error_evaluation.py l. 198-218: `np.sqrt(np.dot(e, e) / float(len(e)))`. -/
def RMSE [Transc K] (x1 : List K) (x2 : Option (List K)) : Except Err K :=
  match getValidError x1 x2 with
  | .error err => .error err
  | .ok e => .ok (Transc.sqrt (dotSelf e / Scalar.nat e.length))

/-- `get_mean_error`, error_evaluation.py l. 221-245. -/
def getMeanError [Transc K] (x1 : List K) (x2 : Option (List K)) (function : String) : Except Err K :=
  if function = "MSE" then MSE x1 x2
  else if function = "MAE" then MAE x1 x2
  else if function = "RMSE" then RMSE x1 x2
  else .error .valueError

end float

/-! ## Integer data

numpy arrays of integers of `b` bits are vectors of `BitVec b`: `-`, `*` and `np.dot` are computed modulo `2^b`; the conversion to a
float reads the bits as unsigned or as two's complement. -/

/-- the integer an array element stands for -/
def BitVec.value {b : ℕ} (signed : Bool) (a : BitVec b) : ℤ := if signed then a.toInt else a.toNat

/-- `np.dot(e, e)` of an integer series (no widening, unlike `np.sum`) -/
def bvDotSelf {b : ℕ} (e : List (BitVec b)) : BitVec b := (e.map fun a => a * a).sum

/-- `get_valid_error` on integer arrays of one type, error_evaluation.py l. 99-125: `x1 - x2` keeps the type. -/
def getValidErrorInt {b : ℕ} (x1 x2 : List (BitVec b)) : Except Err (List (BitVec b)) :=
  if x1.length ≠ x2.length then .error .valueError else .ok (List.zipWith (· - ·) x1 x2)

/-- `MSE` on integer arrays, error_evaluation.py l. 175-195.  Simplification: the final quotient is exact. -/
def intMSE {b : ℕ} (signed : Bool) (x1 x2 : List (BitVec b)) : Except Err ℚ :=
  match getValidErrorInt x1 x2 with
  | .error err => .error err
  | .ok e => .ok (BitVec.value signed (bvDotSelf e) / e.length)

/-- `np.abs` on integers: the identity on unsigned types; on signed types `-a` for negative `a`, in `b` bits. -/
def bvAbs {b : ℕ} (signed : Bool) (a : BitVec b) : BitVec b := if signed && decide (a.toInt < 0) then -a else a

/-- `MAE` on integer arrays narrower than the platform integer, error_evaluation.py l. 152-173: `np.sum` accumulates in the platform
integer.  Simplification: that accumulator does not overflow. -/
def intMAE {b : ℕ} (signed : Bool) (x1 x2 : List (BitVec b)) : Except Err ℚ :=
  match getValidErrorInt x1 x2 with
  | .error err => .error err
  | .ok e => .ok (((e.map fun a => BitVec.value signed (bvAbs signed a)).sum : ℤ) / e.length)

/-- One iteration of the loop of `run` (base_filter.py l. 207-210) of `FilterNLMS` (nlms.py l. 160-164) when the row `x` is an array of
`b`-bit integers: `np.dot(w, x)` and the products with floats are float operations, `np.dot(x, x)` is an integer operation.
Returns `(y, e, new weights)`. -/
def nlmsIntStep {K : Type} [Field K] {b n : ℕ} (signed : Bool) (mu eps : K) (w : Fin n → K) (d : K) (x : Fin n → BitVec b) :
    K × K × (Fin n → K) :=
  let v : Fin n → K := fun i => (BitVec.value signed (x i) : K)
  let y := ∑ i, w i * v i
  let e := d - y
  let nu := mu / (eps + (BitVec.value signed (bvDotSelf (List.ofFn x)) : K))
  (y, e, fun i => w i + nu * v i * e)

/-- Extended reals as numpy floats for `logSE`: `np.log10(0) = -inf`.  The operations that `logSE` does not use are not meaningful here
(`abs`, `sgn`, `exp`, `tanh`, `sqrt`, `pow`). -/
noncomputable instance erealTransc : Transc EReal where
  abs a := a
  sgn a := a
  lt a b := by classical exact decide (a < b)
  nat k := ((k : ℝ) : EReal)
  eqz a := by classical exact decide (a = 0)
  exp a := a
  tanh a := a
  sqrt a := a
  log10 a := if a = 0 then ⊥ else if a = ⊤ then ⊤ else ((Real.log a.toReal / Real.log 10 : ℝ) : EReal)
  pow a _ := a

end Padasip
