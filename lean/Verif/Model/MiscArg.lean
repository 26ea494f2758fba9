import Verif.Model.Misc

/-!
# `padasip/misc/error_evaluation.py`: numbers where a series is expected

The default of the second argument is the number -1, recognised by `isinstance(x2, int) and x2 == -1`.
-/

namespace Padasip

variable {K : Type}

/-- What a user may pass as `x1` or `x2`: a Python `int` (a `bool` is one, too), another number (`float`, numpy scalar), a series. -/
inductive SeriesArg (K : Type) where
  | int (z : ℤ)
  | number (a : K)
  | series (l : List K)

/-- `get_valid_error(x1, x2=-1)`, error_evaluation.py l. 99-125, with any of these arguments.  `np.array` of a number is an array without dimensions: `len` of it
(l. 122, outside the `try`) is a `TypeError`.  With the default `x2` the array of a number gets through (l. 112): `.inr`. -/
def getValidErrorArg [Scalar K] (x1 : SeriesArg K) (x2 : SeriesArg K := .int (-1)) : Except Err (List K ⊕ Unit) :=
  match x2 with
  | .int (-1) => match x1 with
    | .series l => .ok (.inl l)
    | _ => .ok (.inr ())
  | .series b => match x1 with
    | .series a => if a.length ≠ b.length then .error .valueError else .ok (.inl (List.zipWith (· - ·) a b))
    | _ => .error .typeError
  | _ => .error .typeError

/-- The common shape of `MAE`, `MSE`, `RMSE` (l. 172-173, 194-195, 217-218): `len(e)` of an array without dimensions is a `TypeError`. -/
def meanOf [Scalar K] (f : List K → K) (x1 x2 : SeriesArg K) : Except Err K :=
  match getValidErrorArg x1 x2 with
  | .error err => .error err
  | .ok (.inr ()) => .error .typeError
  | .ok (.inl e) => .ok (f e)

/-- `MSE`, l. 175-195 -/
def MSEarg [Scalar K] (x1 : SeriesArg K) (x2 : SeriesArg K := .int (-1)) : Except Err K :=
  meanOf (fun e => dotSelf e / Scalar.nat e.length) x1 x2

/-- `MAE`, l. 152-173 -/
def MAEarg [Scalar K] (x1 : SeriesArg K) (x2 : SeriesArg K := .int (-1)) : Except Err K :=
  meanOf (fun e => (e.map Scalar.abs).sum / Scalar.nat e.length) x1 x2

/-- `RMSE`, l. 198-218 -/
def RMSEarg [Transc K] (x1 : SeriesArg K) (x2 : SeriesArg K := .int (-1)) : Except Err K :=
  meanOf (fun e => Transc.sqrt (dotSelf e / Scalar.nat e.length)) x1 x2

end Padasip
