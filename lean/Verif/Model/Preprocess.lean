import Verif.Model.Np

/-!
# `padasip/preprocess/input_from_history.py`, `standardize.py`, `standardize_back.py`
-/

namespace Padasip

variable {K : Type}

/-- An array of one dimension, or of two dimensions with a column count (which exists even without rows). -/
inductive NArr (K : Type) where
  | one (l : List K)
  | two (cols : Nat) (rows : List (List K))
  deriving DecidableEq

/-- An argument that should be an `int`. -/
inductive IntArg where
  | int (i : Int)
  | other
  deriving DecidableEq

/-- `np.array` of a list of arrays of length `cols`: without rows it is the empty 1-d array. -/
def arrayOfRows (cols : Nat) : List (List K) → NArr K
  | [] => .one []
  | r :: t => .two cols (r :: t)

/-- `np.vstack((x.T, np.ones(len(x)))).T`, input_from_history.py l. 72: a 1-d `x` counts as one row of `x.T`. -/
def appendOnes [Scalar K] : NArr K → NArr K
  | .one l => .two 2 (l.map fun a => [a, 1])
  | .two cols rows => .two (cols + 1) (rows.map fun r => r ++ [1])

/-- `input_from_history(a, n, bias)`, input_from_history.py l. 35-73.  `range(len(a)-n+1)` is empty for a negative argument.
Simplification: `a` is a series of numbers, so the conversion in l. 67 cannot fail. -/
def inputFromHistory [Scalar K] (a : List K) (n : IntArg) (bias : Bool) : Except Err (NArr K) :=
  match n with
  | .other => .error .valueError
  | .int n =>
    if ¬ n > 0 then .error .valueError
    else
      let x := arrayOfRows n.toNat ((List.range ((a.length : Int) - n + 1).toNat).map fun i => (a.drop i).take n.toNat)
      .ok (if bias then appendOnes x else x)

/-- `np.array(x).std()`: the square root of the mean of the squared deviations from the mean. -/
def stdL [Transc K] (x : List K) : K :=
  Transc.sqrt (meanL (x.map fun a => (a - meanL x) * (a - meanL x)))

/-- `standardize(x, offset=None, scale=None)`, standardize.py l. 61-99.
Simplification: `offset` and `scale` are numbers, so the conversions in l. 85, 92, 96 cannot fail. -/
def standardize [Transc K] (x : List K) (offset scale : Option K) : List K :=
  let o := offset.getD (meanL x)
  let s := scale.getD (stdL x)
  x.map fun a => (a - o) / s

/-- `standardize_back(xs, offset, scale)`, standardize_back.py l. 33-62 (same simplification). -/
def standardizeBack [Scalar K] (xs : List K) (offset scale : K) : List K :=
  xs.map fun a => a * scale + offset

end Padasip
