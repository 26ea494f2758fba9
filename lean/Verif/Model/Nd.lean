import Verif.Model.Factory
import Verif.Model.Misc
import Verif.Model.Preprocess

/-!
# Two-dimensional arrays where the documentation asks for a series

`padasip/misc/error_evaluation.py` and `run` of the filters do not check the number of dimensions: a target stored as a column
(an array of shape `(N, 1)`, the usual result of reading a table) gets in.  Arrays of one or two dimensions are `NArr` (Model/Preprocess).
-/

namespace Padasip

variable {K : Type}

/-! ## error_evaluation.py -/

/-- Elementwise operation on two rows with numpy broadcasting of a length 1 (also used for the columns of two matrices). -/
def rowOp (f : K → K → K) (a b : List K) : Except Err (List K) :=
  if a.length = b.length then .ok (List.zipWith f a b)
  else match a, b with
    | a, [y] => .ok (a.map fun x => f x y)
    | [x], b => .ok (b.map fun y => f x y)
    | _, _ => .error .valueError

/-- `[g(r) for r in rows]` for a `g` that may raise. -/
def eachRow {α β : Type} (g : α → Except Err β) : List α → Except Err (List β)
  | [] => .ok []
  | r :: t => match g r with
    | .error e => .error e
    | .ok a => match eachRow g t with
      | .error e => .error e
      | .ok l => .ok (a :: l)

/-- the number of columns of the result of broadcasting two last axes of lengths `a` and `b` -/
def bcCols (a b : Nat) : Except Err Nat :=
  if a = b then .ok a else if b = 1 then .ok a else if a = 1 then .ok b else .error .valueError

/-- `len(x)` of an array -/
def NArr.size0 : NArr K → Nat
  | .one l => l.length
  | .two _ rows => rows.length

/-- `x1 - x2` (error_evaluation.py l. 124) for two arrays of one or two dimensions *with the same `len`*: the last axes are broadcast, a
1-d array is used as a row for every row of the 2-d one. -/
def ndSub [Scalar K] : NArr K → NArr K → Except Err (NArr K)
  | .one a, .one b => .ok (.one (List.zipWith (· - ·) a b))
  | .two c1 r1, .two c2 r2 => do
      let c ← bcCols c1 c2
      let rows ← eachRow (fun p => rowOp (· - ·) p.1 p.2) (r1.zip r2)
      pure (.two c rows)
  | .two c1 r1, .one b => do
      let c ← bcCols c1 b.length
      let rows ← eachRow (fun r => rowOp (· - ·) r b) r1
      pure (.two c rows)
  | .one a, .two c2 r2 => do
      let c ← bcCols a.length c2
      let rows ← eachRow (fun r => rowOp (· - ·) a r) r2
      pure (.two c rows)

/-- `get_valid_error(x1, x2=-1)`, error_evaluation.py l. 99-125, for arrays of one or two dimensions. -/
def getValidErrorNd [Scalar K] (x1 : NArr K) (x2 : Option (NArr K)) : Except Err (NArr K) :=
  match x2 with
  | none => .ok x1
  | some x2 => if x1.size0 ≠ x2.size0 then .error .valueError else ndSub x1 x2

/-- A number or a matrix: what `np.dot(e, e)` returns for a 1-d and for a 2-d array. -/
inductive NVal (K : Type) where
  | num (a : K)
  | mat (rows : List (List K))
  deriving DecidableEq

/-- entry `j` of a row (rows shorter than `j` do not occur) -/
def entry [Scalar K] (r : List K) (j : Nat) : K := r.getD j 0

/-- `np.dot(e, e)`: the scalar product of a series with itself; the matrix product of a 2-d array with itself, which needs as many columns as
rows. -/
def ndDot [Scalar K] : NArr K → Except Err (NVal K)
  | .one e => .ok (.num (dotSelf e))
  | .two c rows =>
    if c ≠ rows.length then .error .valueError
    else .ok (.mat (rows.map fun r => (List.range c).map fun j => (List.zipWith (fun a s => a * entry s j) r rows).sum))

/-- elementwise function of a number or matrix -/
def NVal.map (f : K → K) : NVal K → NVal K
  | .num a => .num (f a)
  | .mat rows => .mat (rows.map fun r => r.map f)

/-- `MSE`, error_evaluation.py l. 194-195, for arrays of one or two dimensions. -/
def MSEnd [Scalar K] (x1 : NArr K) (x2 : Option (NArr K)) : Except Err (NVal K) := do
  let e ← getValidErrorNd x1 x2
  let v ← ndDot e
  pure (v.map (· / Scalar.nat e.size0))

/-- `RMSE`, error_evaluation.py l. 217-218, for arrays of one or two dimensions. -/
def RMSEnd [Transc K] (x1 : NArr K) (x2 : Option (NArr K)) : Except Err (NVal K) := do
  let e ← getValidErrorNd x1 x2
  let v ← ndDot e
  pure (v.map fun a => Transc.sqrt (a / Scalar.nat e.size0))

/-- `np.sum(np.abs(e))` over all entries -/
def ndAbsSum [Scalar K] : NArr K → K
  | .one e => (e.map Scalar.abs).sum
  | .two _ rows => (rows.map fun r => (r.map Scalar.abs).sum).sum

/-- `MAE`, error_evaluation.py l. 172-173, for arrays of one or two dimensions. -/
def MAEnd [Scalar K] (x1 : NArr K) (x2 : Option (NArr K)) : Except Err K := do
  let e ← getValidErrorNd x1 x2
  pure (ndAbsSum e / Scalar.nat e.size0)

/-! ## `run` with a two-dimensional target -/

/-- the loop body of `run` when `d[k]` is an array (a row of the target) -/
structure NdClass {n : Nat} (C : FilterClass K n) where
  body : List K → List K → M (Core K n C.Ext) (K × K)

variable {n : Nat}

/-- Loop body of `AdaptiveFilter.run`, base_filter.py l. 208-210: `e[k] = d[k] - y[k]` accepts an array of exactly one element and raises
`ValueError` for any other. -/
def baseBodyNd [Scalar K] {X : Type} (predict : List K → M (Core K n X) K)
    (learningRule : K → List K → M (Core K n X) (Vec K n)) (d : List K) (x : List K) : M (Core K n X) (K × K) := do
  let y ← predict x
  match d with
  | [a] => do
    let e := a - y
    let dw ← learningRule e x
    M.modify fun s => { s with w := fun i => s.w i + dw i }
    pure (y, e)
  | _ => M.raise .valueError

/-- The filters that inherit `run` from `AdaptiveFilter`. -/
def mkBaseNd [Scalar K] (X : Type) (predict : List K → M (Core K n X) K)
    (learningRule : K → List K → M (Core K n X) (Vec K n)) : NdClass (mkBase X predict learningRule) where
  body := baseBodyNd predict learningRule

/-- Memory update of base_filter.py l. 321-324 when `d[k]` is an array: `self.d_mem[0] = d[k]` (l. 324) raises unless it has one element,
after `x_mem` has been pushed and `d_mem` shifted. -/
def apPushNd [Scalar K] {order : Nat} (d : List K) (x : List K) : M (Core K n (ApExt K n order)) Unit := do
  M.modify fun s => { s with ext := { s.ext with xMem := shiftCols s.ext.xMem } }
  if order = 0 then M.raise .indexError
  else do
    let x ← M.lift (bcastVec n x)
    M.modify fun s => { s with ext := { s.ext with
      xMem := fun i j => if j.val = 0 then x i else s.ext.xMem i j } }
    M.modify fun s => { s with ext := { s.ext with dMem := shiftVec s.ext.dMem } }
    match d with
    | [a] => M.modify fun s => { s with ext := { s.ext with dMem := fun j => if j.val = 0 then a else s.ext.dMem j } }
    | _ => M.raise .valueError

/-- `AdaptiveFilterAP.run`, base_filter.py l. 320-331, when `d[k]` is an array. -/
def apNd [Scalar K] (solve : Solver K) (order : Nat) : NdClass (ap K n solve order) where
  body := fun d x =>
    if h : 0 < order then do
      apPushNd d x
      apErr
      let s ← M.get
      let y := s.ext.yMem ⟨0, h⟩
      let e := s.ext.eMem ⟨0, h⟩
      let dw ← apRule solve s.ext.eMem s.ext.xMem
      M.modify fun s => { s with w := fun i => s.w i + dw i }
      pure (y, e)
    else do
      apPushNd d x
      pure (0, 0)

/-- the loop bodies of the fifteen filters -/
def ndOf [Transc K] (solve : Solver K) : (k : Kind) → NdClass (classOf (K := K) (n := n) solve k)
  | .lms => mkBaseNd Unit basePredict lmsRule
  | .lmf => mkBaseNd Unit basePredict lmfRule
  | .sslms => mkBaseNd Unit basePredict sslmsRule
  | .nlms => mkBaseNd (EpsExt K) basePredict nlmsRule
  | .nlmf => mkBaseNd (EpsExt K) basePredict nlmfRule
  | .nsslms => mkBaseNd (EpsExt K) basePredict nsslmsRule
  | .gngd => mkBaseNd (GngdExt K n) basePredict gngdRule
  | .mathews => mkBaseNd (MathewsExt K n) basePredict mathewsRule
  | .ang => mkBaseNd (AngExt K n) basePredict angRule
  | .benveniste => mkBaseNd (BenExt K n) basePredict benvenisteRule
  | .gmcc => mkBaseNd (GmccExt K) basePredict gmccRule
  | .llncosh => mkBaseNd (LlncoshExt K) basePredict llncoshRule
  | .rls => mkBaseNd (RlsExt K n) basePredict rlsRule
  | .ocnlms => mkBaseNd (OcExt K n) ocPredict ocRule
  | .ap order => apNd solve order

/-- The loop of `run`, base_filter.py l. 206-210 and 318-331, with rows of a 2-d target. -/
def runLoopNd [Scalar K] {C : FilterClass K n} (A : NdClass C) : Nat → List (List K × List K) → M (Obj C) (List K × List K)
  | _, [] => pure ([], [])
  | k, (d, x) :: rest => do
    histWrite k
    let (y, e) ← Obj.liftM (A.body d x)
    let (ys, es) ← runLoopNd A (k + 1) rest
    pure (y :: ys, e :: es)

/-- `run(d, x)`, base_filter.py l. 168-211 and 279-332, with a 2-d target given by its rows (rows of different lengths raise in `np.array`). -/
def runNd [Scalar K] {C : FilterClass K n} (A : NdClass C) (d : List (List K)) (x : List (List K)) :
    M (Obj C) (List K × List K × List (List K)) :=
  if d.length ≠ x.length then M.raise .valueError
  else match x with
    | [] => M.raise .indexError
    | x0 :: _ => do
      M.modify fun o => { o with core := o.core.withN x0.length }
      if x.any (fun r => decide (r.length ≠ x0.length)) || d.any (fun r => decide (r.length ≠ (d.headD []).length)) then M.raise .valueError
      else do
        M.modify fun o =>
          { o with wHist := List.replicate x.length (List.replicate o.core.nAttr 0) }
        let (ys, es) ← runLoopNd A 0 (d.zip x)
        let o ← M.get
        pure (ys, es, o.wHist)

end Padasip
