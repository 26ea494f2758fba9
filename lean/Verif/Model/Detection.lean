import Verif.Model.Preprocess

/-!
# `padasip/detection`: `elbnd.py`, `le.py`, `ese.py`

A history of weights (the third result of `run`) is the list of its rows, each a vector of `n` weights.
-/

namespace Padasip

variable {K : Type} {n : Nat}

/-- `np.diff(a, axis=0)`: `a[1:] - a[:-1]`. -/
def diff1 [Scalar K] (a : List (Vec K n)) : List (Vec K n) :=
  List.zipWith (fun r s i => r i - s i) (a.drop 1) a

/-- `np.diff(a, n=p, axis=0)` for `p >= 0`: `p` repeated first differences (le.py l. 167). -/
def diffN [Scalar K] : Nat → List (Vec K n) → List (Vec K n)
  | 0, a => a
  | p + 1, a => diffN p (diff1 a)

/-- `np.abs` of a row. -/
def absRow [Scalar K] (r : Vec K n) : Vec K n := fun i => Scalar.abs (r i)

/-! ## `elbnd.py` -/

/-- `dw`, elbnd.py l. 117-118: absolute first differences, and a last row of zeros (no row if `w` has none). -/
def elbndDw [Scalar K] (w : List (Vec K n)) : List (Vec K n) :=
  match w with
  | [] => []
  | _ => (diff1 w).map absRow ++ [fun _ => 0]

/-- the rows of `(dw.T*e).T`, elbnd.py l. 120: numpy broadcasting of the `N` columns of `dw.T` against `e`. -/
def elbndProd [Scalar K] (dw : List (Vec K n)) (e : List K) : Except Err (List (Vec K n)) :=
  if dw.length = e.length then .ok (List.zipWith (fun r b i => r i * b) dw e)
  else match dw, e with
    | dw, [b] => .ok (dw.map fun r i => r i * b)
    | [r], e => .ok (e.map fun b i => r i * b)
    | _, _ => .error .valueError

/-- `np.maximum(a, b)`: a NaN wins. -/
def smax [Scalar K] (a b : K) : K := if Scalar.isnan a || !(Scalar.lt a b || Scalar.isnan b) then a else b

/-- `np.max(a, axis=1)`, elbnd.py l. 123: `ValueError` for rows without entries (unless there are no rows). -/
def rowMax [Scalar K] (a : List (Vec K n)) : Except Err (List K) :=
  if n = 0 ∧ a ≠ [] then .error .valueError
  else .ok (a.map fun r => match List.ofFn r with
    | [] => 0
    | h :: t => t.foldl smax h)

/-- `ELBND(w, e, function)`, elbnd.py l. 87-127. -/
def elbnd [Scalar K] (w : List (Vec K n)) (e : List K) (function : String) : Except Err (List K) :=
  if ¬ (function = "max" ∨ function = "sum") then .error .valueError
  else match elbndProd (elbndDw w) e with
    | .error err => .error err
    | .ok p =>
      let a := p.map absRow
      if function = "max" then rowMax a
      else .ok (a.map vsum)

/-! ## `le.py` -/

/-- `dw`, le.py l. 166-167: a copy of `w` whose rows from `order` on are replaced by the absolute differences of that order. -/
def leDw [Scalar K] (order : Nat) (w : List (Vec K n)) : List (Vec K n) :=
  w.take order ++ (diffN order w).map absRow

/-- `dw[k-m:k]` for `k >= m`. -/
def leWindow (m k : Nat) (dw : List (Vec K n)) : List (Vec K n) := (dw.drop (k - m)).take m

/-- `awd`, le.py l. 169, 174, 182: zeros, and the mean of the `m` previous rows from row `m` on. -/
def leMean [Scalar K] (m : Nat) (dw : List (Vec K n)) (k : Nat) : Vec K n := fun i =>
  if k < m then 0 else meanL ((leWindow m k dw).map fun r => r i)

/-- `swd`, le.py l. 172, 175. -/
def leStd [Transc K] (m : Nat) (dw : List (Vec K n)) (k : Nat) : Vec K n := fun i =>
  if k < m then 0 else stdL ((leWindow m k dw).map fun r => r i)

/-- Result of `learning_entropy`: one number per sample, or one row per sample. -/
inductive LeOut (K : Type) (n : Nat) where
  | flat (l : List K)
  | rows (l : List (Vec K n))

/-- `x[:m] = c` -/
def fillFirst {α : Type} (m : Nat) (c : α) (x : List α) : List α := List.replicate (min m x.length) c ++ x.drop m

/-- Multiscale approach, le.py l. 180-190.
Simplification: the number of comparisons that hold is counted in `Nat` before it becomes a float. -/
def leMulti [Scalar K] (w : List (Vec K n)) (m order : Nat) (alphas : List K) : List K :=
  let dw := leDw order w
  let fh := dw.zipIdx.map fun (row, k) =>
    (alphas.map fun a => ((List.finRange n).filter fun i => Scalar.lt (leMean m dw k i * a) (row i)).length).sum
  fillFirst m 0 (fh.map fun c => Scalar.nat c / Scalar.nat (n * alphas.length))

/-- Direct approach, le.py l. 170-178, 190.  The literal `1e-10` is `1 / 10**10` (the same double). -/
def leDirect [Transc K] (w : List (Vec K n)) (m order : Nat) : List (Vec K n) :=
  let dw := leDw order w
  fillFirst m (fun _ => 0) (dw.zipIdx.map fun (row, k) => fun i =>
    (row i - leMean m dw k i) / (leStd m dw k i + 1 / Scalar.nat (10 ^ 10)))

/-- `learning_entropy(w, m, order, alpha)`, le.py l. 138-192.  `alpha=False`, `None` or `[]` select the direct approach; a negative `order`
raises `ValueError` in `np.diff`.  Simplifications: `m >= 0` and `alpha` is a list (all forms: `learningEntropyZ` in Model/DetectArgs);
`w` has two dimensions. -/
def learningEntropy [Transc K] (w : List (Vec K n)) (m : Nat) (order : Int) (alpha : Option (List K)) : Except Err (LeOut K n) :=
  if order < 0 then .error .valueError
  else match alpha with
    | some (a :: t) => .ok (.flat (leMulti w m order.toNat (a :: t)))
    | _ => .ok (.rows (leDirect w m order.toNat))

/-! ## `ese.py` -/

/-- The numerical ingredients of `pot` and `ESE`: the integer parts computed in `pot` (ese.py l. 92, 94, 96, 98, 100; rounding of `0.1 * n`
etc. included), `genpareto.fit` (l. 136; returns shape, location, scale) and `genpareto.cdf` (l. 138). -/
structure EseEnv (K : Type) where
  k10 : Nat → Except Err Int
  ksqrt : Nat → Except Err Int
  kloglog : Nat → Except Err Int
  klog : Nat → Except Err Int
  k35 : Nat → Except Err Int
  fit : List K → Except Err (K × K × K)
  cdf : K → K → K → K → K

/-- `-np.sort(-data)`, ese.py l. 88: decreasing order, NaN last (numpy sorts by `a < b or (b is NaN and a is not)`). -/
def sortDesc [Scalar K] (data : List K) : List K :=
  ((data.map fun a => -a).mergeSort fun a b => !(Scalar.lt b a || (Scalar.isnan a && !Scalar.isnan b))).map fun a => -a

/-- `k` in `pot`, ese.py l. 89-100. -/
def potCount (env : EseEnv K) (n : Nat) (method : String) : Except Err Int :=
  let atLeast1 (r : Except Err Int) : Except Err Int :=
    match r with
    | .ok v => .ok (max v 1)
    | .error e => .error e
  if method = "10%" then atLeast1 (env.k10 n)
  else if method = "sqrt" then atLeast1 (env.ksqrt n)
  else if method = "log10log10" then atLeast1 (env.kloglog n)
  else if method = "log10" then atLeast1 (env.klog n)
  else if method = "35%" then atLeast1 (env.k35 n)
  else .ok 0

/-- `pot(data, method)`, ese.py l. 81-101. -/
def pot [Scalar K] (env : EseEnv K) (data : List K) (method : String) : Except Err (List K) :=
  match potCount env data.length method with
  | .error e => .error e
  | .ok k => .ok (pySliceTo (sortDesc data) k)

/-- One entry of `hpp`, ese.py l. 134-138: `past` is `dw[i-window:i, j]`, `cur` is `dw[i, j]`; `a >= b` is false when one of them is a NaN. The literal `1e-20` is `1 / 10**20`. -/
def eseEntry [Scalar K] (env : EseEnv K) (method : String) (past : List K) (cur : K) : Except Err K :=
  match pot env past method with
  | .error e => .error e
  | .ok p =>
    match p.getLast? with
    | none => .error .indexError
    | some thr =>
      if Scalar.lt thr cur then
        match env.fit p with
        | .error e => .error e
        | .ok (c, loc, sc) =>
          if !Scalar.lt cur loc && !Scalar.isnan cur && !Scalar.isnan loc then .ok (1 - env.cdf cur c loc sc + 1 / Scalar.nat (10 ^ 20)) else .ok 1
      else .ok 1

/-- One row of `hpp` and `-np.log10(np.prod(...))`, ese.py l. 133-140: column by column, the first exception stops. -/
def eseRow [Transc K] (env : EseEnv K) (method : String) (past : List (Vec K n)) (cur : Vec K n) : Except Err K :=
  match (List.finRange n).mapM fun j => eseEntry env method (past.map fun r => r j) (cur j) with
  | .error e => .error e
  | .ok l => .ok (-Transc.log10 l.prod)

/-- `ESE(w, window, pot_method)`, ese.py l. 103-141.  Simplification: `window >= 0` (all integers: `eseZ` in Model/DetectArgs). -/
def ese [Transc K] (env : EseEnv K) (w : List (Vec K n)) (window : Nat) (method : String) : Except Err (List K) :=
  let dw := leDw 1 w
  if dw.length < window then .error .valueError
  else match (dw.drop window).zipIdx.mapM fun (cur, k) => eseRow env method ((dw.drop k).take window) cur with
    | .error e => .error e
    | .ok l => .ok (List.replicate window 0 ++ l)

end Padasip
