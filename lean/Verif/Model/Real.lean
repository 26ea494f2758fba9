import Verif.Model.Np
import Mathlib.Analysis.SpecialFunctions.Pow.Real
import Mathlib.Analysis.SpecialFunctions.Log.Base

/-!
# Real numbers as an instance of the transcendental interface
-/

namespace Padasip

/-- numpy's transcendental functions, in exact real arithmetic (used to instantiate the theorems about
`np.exp`, `np.tanh`, `np.sqrt`, `np.log10`, `**`; rounding is not modelled). -/
noncomputable instance realTransc : Transc ℝ where
  toScalar := fieldScalar
  exp := Real.exp
  tanh := Real.tanh
  sqrt := Real.sqrt
  log10 := Real.logb 10
  pow a b := a ^ b

end Padasip
