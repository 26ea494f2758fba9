import Verif.Model.Detection

/-!
# `learning_entropy` and `ESE` with Python's index rules

The loops of `le.py` and `ese.py` written index by index with the rules of Python for negative indices and slices, so that negative `m` and `window` and every form of `alpha`
are covered.  Props/DetectArgs relates them to `learningEntropy` and `ese`.
-/

namespace Padasip

variable {K : Type} {n : Nat}

/-- the row addressed by `a[k]` for an array of `N` rows: a negative index counts from the end. -/
def pyIdx (N : Nat) (k : Int) : Except Err Nat :=
  if 0 ≤ k then (if k < N then .ok k.toNat else .error .indexError)
  else if -(N : Int) ≤ k then .ok (N + k).toNat else .error .indexError

/-- a slice bound: a negative one counts from the end, and is then clipped to `0 .. N`. -/
def pyBound (N : Nat) (k : Int) : Nat := if 0 ≤ k then min k.toNat N else (N + k).toNat

/-- `l[a:b]` -/
def pySlice {α : Type} (l : List α) (a b : Int) : List α := (l.take (pyBound l.length b)).drop (pyBound l.length a)

/-- `range(a, b)` -/
def pyRange (a b : Int) : List Int := (List.range (b - a).toNat).map fun t : Nat => a + (t : Int)

/-- `for k in ks: acc[k] = f(k)` -/
def setLoop {α : Type} (f : Int → α) (ks : List Int) (acc : List α) : Except Err (List α) :=
  match ks with
  | [] => .ok acc
  | k :: t =>
    match pyIdx acc.length k with
    | .error e => .error e
    | .ok i => setLoop f t (acc.set i (f k))

/-- le.py l. 169, 173-174 and 181-182 (and l. 172, 175 with the standard deviation): zeros, then for `k in range(m, N)` the statistic of `dw[k-m:k]`, column by column. -/
def leStat [Scalar K] (stat : List K → K) (m : Int) (dw : List (Vec K n)) : Except Err (List (Vec K n)) :=
  setLoop (fun k i => stat ((pySlice dw (k - m) k).map fun r => r i)) (pyRange m dw.length) (List.replicate dw.length fun _ => 0)

/-- `le[:m] = 0`, le.py l. 190. -/
def fillFirstZ {α : Type} (m : Int) (c : α) (x : List α) : List α := List.replicate (pyBound x.length m) c ++ x.drop (pyBound x.length m)

/-- The forms of the argument `alpha`: `None` or `False`; a number; a list (or tuple); a one-dimensional numpy array.
Simplification: an empty array is not modelled (its truth value depends on the version of numpy). -/
inductive LeAlpha (K : Type) where
  | absent
  | scalar (a : K)
  | list (l : List K)
  | array (a : K) (t : List K)

/-- `not alpha`, le.py l. 170: an array of more than one element has no truth value. -/
def LeAlpha.isFalse [Scalar K] : LeAlpha K → Except Err Bool
  | .absent => .ok true
  | .scalar a => .ok (Scalar.eqz a)
  | .list l => .ok l.isEmpty
  | .array a [] => .ok (Scalar.eqz a)
  | .array _ (_ :: _) => .error .valueError

/-- `np.array(alpha)` as a sequence, le.py l. 184, 186: iterating over a 0-d array is a `TypeError`. -/
def LeAlpha.values : LeAlpha K → Except Err (List K)
  | .absent => .error .typeError
  | .scalar _ => .error .typeError
  | .list l => .ok l
  | .array a t => .ok (a :: t)

/-- `learning_entropy(w, m, order, alpha)`, le.py l. 138-192, for every integer `m` and `order` and the forms of `alpha` above.
Simplification: as in `leMulti` the number of comparisons that hold is counted in `Nat`; the two assignments of the loop l. 173-175 are made in two loops (they raise the same exception). -/
def learningEntropyZ [Transc K] (w : List (Vec K n)) (m order : Int) (alpha : LeAlpha K) : Except Err (LeOut K n) :=
  if order < 0 then .error .valueError
  else
    let dw := leDw order.toNat w
    match alpha.isFalse with
    | .error e => .error e
    | .ok true =>
      match leStat meanL m dw, leStat stdL m dw with
      | .ok awd, .ok swd =>
        .ok (.rows (fillFirstZ m (fun _ => 0) ((dw.zip (awd.zip swd)).map fun (d, a, s) => fun i => (d i - a i) / (s i + 1 / Scalar.nat (10 ^ 10)))))
      | .error e, _ => .error e
      | _, .error e => .error e
    | .ok false =>
      match leStat meanL m dw with
      | .error e => .error e
      | .ok awd =>
        match alpha.values with
        | .error e => .error e
        | .ok alphas =>
          .ok (.flat (fillFirstZ m 0 ((dw.zip awd).map fun (d, a) =>
            Scalar.nat (alphas.map fun al => ((List.finRange n).filter fun i => Scalar.lt (a i * al) (d i)).length).sum / Scalar.nat (n * alphas.length))))

/-- one pass of the outer loop of `ESE`, ese.py l. 130-138, for row `i`: `dw[i - window:i]` and `dw[i]` by Python's rules. -/
def eseRowZ [Transc K] (env : EseEnv K) (method : String) (dw : List (Vec K n)) (window i : Int) : Except Err K :=
  match pyIdx dw.length i with
  | .error e => if n = 0 then .ok (-Transc.log10 ([] : List K).prod) else .error e
  | .ok r =>
    match dw[r]? with
    | none => .error .indexError
    | some cur => eseRow env method (pySlice dw (i - window) i) cur

/-- `ESE(w, window, pot_method)`, ese.py l. 103-141, for every integer `window`: l. 129 raises for `window > N`, l. 141 for `window < 0`.
Simplifications: the logarithms (l. 140) are taken row by row; for an `i` out of range (`window < -N`) the exception is an `IndexError` (with some methods the code
raises another one first). -/
def eseZ [Transc K] (env : EseEnv K) (w : List (Vec K n)) (window : Int) (method : String) : Except Err (List K) :=
  let dw := leDw 1 w
  if (dw.length : Int) < window then .error .valueError
  else match (pyRange window dw.length).mapM (eseRowZ env method dw window) with
    | .error e => .error e
    | .ok l => if window < 0 then .error .valueError else .ok (List.replicate window.toNat 0 ++ l)

end Padasip
