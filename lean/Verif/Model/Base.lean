import Verif.Model.Np

/-!
# `padasip/filters/base_filter.py`, class `AdaptiveFilter`

The overridable methods are fields of a record; `run`, `adapt`, `pretrained_run` are written once.
-/

namespace Padasip

variable {K : Type} {n : Nat}

/-- Attributes every filter has, except `w_history` (base_filter.py l. 38-41), plus the attributes `ext` added by the
subclass.  `n` in the type is the true length of `self.w`; `nAttr` is the attribute `self.n`, which
`run` overwrites (l. 194) *before* the width of the data is known to be right. -/
structure Core (K : Type) (n : Nat) (X : Type) where
  w : Vec K n
  nAttr : Nat
  mu : K
  ext : X

/-- assignment to the attribute `self.n` -/
def Core.withN {X : Type} (s : Core K n X) (m : Nat) : Core K n X := { s with nAttr := m }

/-- A filter class as seen by its users: `predict`, `adapt`, and the body of the loop in `run`
(the statements after `self.w_history[k, :] = self.w`), which returns `(y[k], e[k])`. -/
structure FilterClass (K : Type) (n : Nat) where
  Ext : Type
  predict : List K → M (Core K n Ext) K
  adapt : K → List K → M (Core K n Ext) Unit
  body : K → List K → M (Core K n Ext) (K × K)

/-- A filter object: attributes plus `self.w_history` (base_filter.py l. 40: `False`, here `[]`, until the first `run`). -/
structure Obj (C : FilterClass K n) where
  core : Core K n C.Ext
  wHist : List (List K)

/-- A call on the attributes other than `w_history`. -/
def Obj.liftM {α : Type} {C : FilterClass K n} (m : M (Core K n C.Ext) α) : M (Obj C) α := fun o =>
  match m o.core with
  | (r, c) => (r, { o with core := c })

/-! ## Methods of the base class -/

variable [Scalar K]

/-- `AdaptiveFilter.predict`, base_filter.py l. 101-114: `np.dot(self.w, x)`. -/
def basePredict {X : Type} (x : List K) : M (Core K n X) K := do
  let v ← M.lift (asVec n x)
  let s ← M.get
  pure (dot s.w v)

/-- `AdaptiveFilter.adapt`, base_filter.py l. 154-166.
Simplification: `learning_rule` returns a vector of the length of `self.w`; with every rule of the library this holds whenever `predict` has
accepted `x`. -/
def baseAdapt {X : Type} (predict : List K → M (Core K n X) K)
    (learningRule : K → List K → M (Core K n X) (Vec K n)) (d : K) (x : List K) :
    M (Core K n X) Unit := do
  let y ← predict x
  let e := d - y
  let dw ← learningRule e x
  M.modify fun s => { s with w := fun i => s.w i + dw i }

/-- Body of the loop of `AdaptiveFilter.run`, base_filter.py l. 208-210. -/
def baseBody {X : Type} (predict : List K → M (Core K n X) K)
    (learningRule : K → List K → M (Core K n X) (Vec K n)) (d : K) (x : List K) :
    M (Core K n X) (K × K) := do
  let y ← predict x
  let e := d - y
  let dw ← learningRule e x
  M.modify fun s => { s with w := fun i => s.w i + dw i }
  pure (y, e)

/-- A subclass of `AdaptiveFilter` that overrides `predict` and/or `learning_rule` only. -/
def mkBase (X : Type) (predict : List K → M (Core K n X) K)
    (learningRule : K → List K → M (Core K n X) (Vec K n)) : FilterClass K n where
  Ext := X
  predict := predict
  adapt := baseAdapt predict learningRule
  body := baseBody predict learningRule

/-- `self.w_history[k, :] = self.w`, base_filter.py l. 207 and 319; the history has `self.n` columns, a
weight vector of length 1 is broadcast, any other mismatch raises `ValueError`. -/
def histWrite {C : FilterClass K n} (k : Nat) : M (Obj C) Unit := do
  let o ← M.get
  let row ← M.lift (bcast o.core.nAttr (List.ofFn o.core.w))
  M.modify fun o => { o with wHist := o.wHist.set k row }

/-- The adaptation loop of `run`, base_filter.py l. 206-210 and 318-331, from sample `k` on.
Simplification: the local arrays `y`, `e` (l. 202-203) are returned as lists instead of being filled in place; they are not
observable before the loop ends. -/
def runLoop (C : FilterClass K n) : Nat → List (K × List K) → M (Obj C) (List K × List K)
  | _, [] => pure ([], [])
  | k, (d, x) :: rest => do
    histWrite k
    let (y, e) ← Obj.liftM (C.body d x)
    let (ys, es) ← runLoop C (k + 1) rest
    pure (y :: ys, e :: es)

/-- `AdaptiveFilter.run`, base_filter.py l. 168-211, and `AdaptiveFilterAP.run`, l. 279-332 (same text up to the loop body).
`np.array(x)` of rows of different lengths raises (numpy >= 1.24), re-raised as `ValueError` (l. 196-200). -/
def run (C : FilterClass K n) (d : List K) (x : List (List K)) :
    M (Obj C) (List K × List K × List (List K)) :=
  if d.length ≠ x.length then M.raise .valueError
  else match x with
    | [] => M.raise .indexError                       -- `x[0]` of an empty sequence, l. 194
    | x0 :: _ => do
      M.modify fun o => { o with core := o.core.withN x0.length }
      if x.any (fun r => decide (r.length ≠ x0.length)) then M.raise .valueError
      else do
        M.modify fun o =>
          { o with wHist := List.replicate x.length (List.replicate o.core.nAttr 0) }
        let (ys, es) ← runLoop C 0 (d.zip x)
        let o ← M.get
        pure (ys, es, o.wHist)

/-- `adapt` on the object. -/
def adapt (C : FilterClass K n) (d : K) (x : List K) : M (Obj C) Unit := Obj.liftM (C.adapt d x)

/-- `predict` on the object. -/
def predict (C : FilterClass K n) (x : List K) : M (Obj C) K := Obj.liftM (C.predict x)

/-- `m` repeated `k` times, results dropped: `for _ in range(k): m`. -/
def repeatM {S α : Type} (m : M S α) : Nat → M S Unit
  | 0 => pure ()
  | k + 1 => do
    let _ ← m
    repeatM m k

/-- Python's `int(q)` of a number: truncation towards zero. -/
def truncRat (q : ℚ) : Int := if 0 ≤ q then q.floor else -((-q).floor)

/-- `AdaptiveFilter.pretrained_run`, base_filter.py l. 116-152 (inherited by AP).
Simplification: the product `len(d)*ntrain` is exact (`ntrain` a rational), not a rounded double.
`epochs` is a natural number (`range` of a negative number is empty, as for 0). -/
def pretrainedRun (C : FilterClass K n) (d : List K) (x : List (List K)) (ntrain : ℚ)
    (epochs : Nat) : M (Obj C) (List K × List K × List (List K)) := do
  let nTrain := truncRat ((d.length : ℚ) * ntrain)
  repeatM (run C (pySliceTo d nTrain) (pySliceTo x nTrain)) epochs
  run C (pySliceFrom d nTrain) (pySliceFrom x nTrain)

/-! ## Construction -/

/-- The `w` argument of the constructors (base_filter.py l. 30-36): a string or an array. -/
inductive WArg (K : Type) where
  | str (s : String)
  | arr (l : List K)

/-- `AdaptiveFilter.init_weights`, base_filter.py l. 59-99.  `rand n` stands for the draw `np.random.normal(0, 0.5, n)`.
Simplification: arrays hold numbers, so the conversion to `float64` (l. 94) cannot fail.
`n = -1` means "use `self.n`" (l. 83-84). -/
def initWeights (rand : (n : Nat) → Vec K n) (selfN : Nat) (w : WArg K) (n : Int) :
    Except Err (List K) :=
  let n : Int := if n = -1 then selfN else n
  match w with
  | .str s =>
    if s = "random" then
      if n < 0 then .error .valueError else .ok (List.ofFn (rand n.toNat))
    else if s = "zeros" then
      if n < 0 then .error .valueError else .ok (List.replicate n.toNat 0)
    else .error .valueError
  | .arr l => if (l.length : Int) = n then .ok l else .error .valueError

end Padasip
