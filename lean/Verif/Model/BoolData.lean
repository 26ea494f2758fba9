import Verif.Model.Filters
import Verif.Model.Misc
import Verif.Model.Real

/-!
# Boolean data

The input matrix of a filter may be a Boolean array (a binary signal).  numpy computes `bool * bool` as "and", `bool + bool` as "or" (so `np.dot` of two Boolean arrays is the Boolean "the arrays have
a common `True`"), everything that involves a float as a float (`True` is 1, `False` is 0); `bool - bool` and `np.sign` of a Boolean array raise `TypeError`; `np.sum` of a Boolean array counts.
Because the filters of Model/Filters are defined over any `Scalar`, instantiating them with `BNum` gives the filters on Boolean data; SSLMS and NSSLMS, which apply `np.sign` to the inputs, are modelled
separately.

Not covered: `FilterAP` and `FilterOCNLMS`, which copy every input into float arrays first.
-/

namespace Padasip

/-- A number in an expression: an element of a Boolean array, or a float (a real: rounding is not modelled here). -/
inductive BNum where
  | bool (a : Bool)
  | flt (r : ℝ)

namespace BNum

/-- the number that is stood for -/
noncomputable def val : BNum → ℝ
  | bool a => if a then 1 else 0
  | flt r => r

/-- numpy's `+`, `*`: a Boolean operation if both operands are Boolean, otherwise in floats. -/
noncomputable def op (f : Bool → Bool → Bool) (g : ℝ → ℝ → ℝ) : BNum → BNum → BNum
  | bool a, bool c => bool (f a c)
  | p, q => flt (g p.val q.val)

/-- is it an element of a Boolean array? -/
def isBool : BNum → Bool
  | bool _ => true
  | flt _ => false

/-- numpy arithmetic (type promotion rules for Booleans and `float64`).  `1` is the float of `np.eye` (vslms_benveniste.py l. 96); `0` is the neutral element of sums.  Differences of two Booleans
and signs of Booleans, which raise in numpy, do not occur in the filters modelled this way (the subtrahend of every difference is a float, `np.sign` is applied to float errors only); their values here
are arbitrary. -/
noncomputable instance : Transc BNum where
  zero := bool false
  one := flt 1
  add := op (· || ·) (· + ·)
  sub := op (fun a c => a ^^ c) (· - ·)
  neg p := flt (-p.val)
  mul := op (· && ·) (· * ·)
  div p q := flt (p.val / q.val)
  abs
    | bool a => bool a
    | flt r => flt |r|
  sgn p := flt (Scalar.sgn p.val)
  lt p q := by classical exact decide (p.val < q.val)
  nat k := flt k
  eqz p := by classical exact decide (p.val = 0)
  exp p := flt (Real.exp p.val)
  tanh p := flt (Real.tanh p.val)
  sqrt p := flt (Real.sqrt p.val)
  log10 p := flt (Real.logb 10 p.val)
  pow p q := flt (p.val ^ q.val)

end BNum

variable {n : Nat}

/-- `np.sign(x)` of an array: a Boolean array raises `TypeError` -/
def checkSign (x : List BNum) : Except Err Unit := if x.any BNum.isBool then .error .typeError else .ok ()

/-- `FilterSSLMS.learning_rule`, sslms.py l. 103 -/
noncomputable def sslmsRuleB (e : BNum) (x : List BNum) : M (Core BNum n Unit) (Vec BNum n) := do
  M.lift (checkSign x)
  sslmsRule e x

/-- `FilterNSSLMS.learning_rule`, nsslms.py l. 100 -/
noncomputable def nsslmsRuleB (e : BNum) (x : List BNum) : M (Core BNum n (EpsExt BNum)) (Vec BNum n) := do
  M.lift (checkSign x)
  nsslmsRule e x

/-- `FilterSSLMS` on data that may be Boolean -/
noncomputable def sslmsB (n : Nat) : FilterClass BNum n := mkBase Unit basePredict sslmsRuleB
/-- `FilterNSSLMS` on data that may be Boolean -/
noncomputable def nsslmsB (n : Nat) : FilterClass BNum n := mkBase (EpsExt BNum) basePredict nsslmsRuleB

/-- `get_valid_error(x1, x2)`, misc/error_evaluation.py l. 99-125, with two Boolean series: the difference (l. 124) raises `TypeError` -/
def getValidErrorB (x1 x2 : List Bool) : Except Err (List Bool) :=
  if x1.length ≠ x2.length then .error .valueError else .error .typeError

/-- `MAE(e)` of one Boolean series, error_evaluation.py l. 173: `np.sum(np.abs(e)) / float(len(e))` -/
noncomputable def maeB (e : List Bool) : ℝ := (e.count true : ℝ) / (e.length : ℝ)

/-- `MSE(e)` of one Boolean series, error_evaluation.py l. 196: `np.dot(e, e) / float(len(e))`, the product being a Boolean -/
noncomputable def mseB (e : List Bool) : ℝ := (BNum.bool (e.any fun a => a && a)).val / (e.length : ℝ)

/-- `RMSE(e)` of one Boolean series, error_evaluation.py l. 219 -/
noncomputable def rmseB (e : List Bool) : ℝ := Real.sqrt (mseB e)

/-- the function of two series: `get_valid_error` first -/
noncomputable def measureB (f : List Bool → ℝ) (x1 x2 : List Bool) : Except Err ℝ := (getValidErrorB x1 x2).map f

end Padasip
