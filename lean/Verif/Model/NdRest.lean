import Verif.Model.NdArr

/-!
# Arrays of any number of dimensions as arguments of `adapt` of AP, OCNLMS and RLS

The three classes not covered by Model/NdArr and Model/NdMem.  AP and OCNLMS copy their arguments into arrays they own (numpy assignment); RLS rebinds its matrix `self.R` to
whatever the rule computes.
-/

namespace Padasip

variable {K : Type} {n order : Nat}

/-- numpy assignment into an array with one axis: leading axes of length 1 of the right-hand side are dropped first, as long as it has more than one axis. -/
def stripOnes : List Nat → List Nat
  | 1 :: a :: s => stripOnes (a :: s)
  | s => s

/-- `row[:] = x` for a row (or column) of length `n`, base_filter.py l. 267 (`self.x_mem[:, 0] = x`), ocnlms.py l. 143 (`self.mem_x[self.mem_idx, :] = x_k`): after the leading
axes of length 1 have been dropped, a number, one entry or `n` entries are accepted. -/
def assignVec (n : Nat) (x : Arr K) : Except Err (Vec K n) :=
  let s := stripOnes x.shape
  if s = [] ∨ s = [1] ∨ s = [n] then
    .ok fun i => x.entry (List.replicate (x.shape.length - s.length) 0 ++ bidx s [i.val])
  else .error .valueError

/-- `a[i] = d` for one entry of an array of floats, base_filter.py l. 269, ocnlms.py l. 137: an array with exactly one entry (of any number of dimensions; numpy >= 1.25 warns)
is accepted, any other raises `ValueError` ("setting an array element with a sequence"). -/
def assignNum (d : Arr K) : Except Err K :=
  if ∀ m ∈ d.shape, m = 1 then .ok (d.entry (List.replicate d.shape.length 0)) else .error .valueError

/-! ## AP -/

/-- Memory update of `AdaptiveFilterAP.adapt`, base_filter.py l. 266-269, for `d` and `x` of any shape. -/
def apPushArr (d x : Arr K) : M (Core K n (ApExt K n order)) Unit := do
  M.modify fun s => { s with ext := { s.ext with xMem := shiftCols s.ext.xMem } }
  if order = 0 then M.raise .indexError
  else do
    let x ← M.lift (assignVec n x)
    M.modify fun s => { s with ext := { s.ext with
      xMem := fun i j => if j.val = 0 then x i else s.ext.xMem i j } }
    M.modify fun s => { s with ext := { s.ext with dMem := shiftVec s.ext.dMem } }
    let d ← M.lift (assignNum d)
    M.modify fun s => { s with ext := { s.ext with
      dMem := fun j => if j.val = 0 then d else s.ext.dMem j } }

/-- `AdaptiveFilterAP.adapt`, base_filter.py l. 255-277, for `d` and `x` of any shape: after the memory update the arguments are not used any more. -/
def apAdaptCore [Scalar K] (solve : Solver K) (d x : Arr K) : M (Core K n (ApExt K n order)) Unit := do
  apPushArr d x
  apErr
  let s ← M.get
  let p1 := apGram s.ext.ifc s.ext.xMem
  let p2 ← M.lift (solve order p1 (eye order))
  let dw : Vec K n := fun i => dot (s.ext.xMem i) (matVec p2 s.ext.eMem)
  M.modify fun s => { s with w := fun i => s.w i + s.mu * dw i }

/-- the same on the object -/
def apAdaptNd [Scalar K] (solve : Solver K) (d x : Arr K) : M (Obj (ap K n solve order)) Unit :=
  Obj.liftM (C := ap K n solve order) (apAdaptCore solve d x)

/-! ## OCNLMS -/

/-- `np.dot(self.w, x - m_x) + m_d`, ocnlms.py l. 103 and 122, with the centred input. -/
def ocOutNd [Scalar K] (w : Vec K n) (md : K) (mx x : Arr K) : Except Err (Arr K × Arr K) := do
  let c ← x.zip (· - ·) mx
  let y ← (Arr.vec w).dot c
  .ok (c, y.map (· + md))

/-- `FilterOCNLMS.predict`, ocnlms.py l. 107-122, for `x` of any shape. -/
def ocPredictNd [Scalar K] (x : Arr K) : M (Core K n (OcExt K n)) (Arr K) := do
  let (md, mx) ← ocRead
  let s ← M.get
  let r ← M.lift (ocOutNd s.w md ⟨[mx.length], fun idx => mx.getD (idx.headD 0) 0⟩ x)
  pure r.2

/-- `FilterOCNLMS.learning_rule`, ocnlms.py l. 97-105, for `e` and `x` of any shape. -/
def ocRuleNd [Scalar K] (e x : Arr K) : M (Core K n (OcExt K n)) (Arr K) := do
  let xr ← M.lift (assignVec n x)
  ocUpdateX xr
  let (md, mx) ← ocRead
  let s ← M.get
  let r ← M.lift (ocOutNd s.w md ⟨[mx.length], fun idx => mx.getD (idx.headD 0) 0⟩ x)
  let t ← M.lift (e.zip (· + ·) r.2)
  let t ← M.lift (assignNum t)
  ocUpdateD t
  let q ← M.lift (r.1.dot r.1)
  let a ← M.lift ((q.map fun p => s.mu / (s.ext.eps + p)).zip (· * ·) e)
  M.lift (a.zip (· * ·) r.1)

/-- `AdaptiveFilter.adapt`, base_filter.py l. 164-166, of an OCNLMS filter, for `d` and `x` of any shape. -/
def ocAdaptCore [Scalar K] (d x : Arr K) : M (Core K n (OcExt K n)) Unit := do
  let y ← ocPredictNd x
  let e ← M.lift (d.zip (· - ·) y)
  let dw ← ocRuleNd e x
  let s ← M.get
  let w ← M.lift (iadd s.w dw)
  M.modify fun s => { s with w := w }

/-- the same on the object -/
def ocAdaptNd [Scalar K] (d x : Arr K) : M (Obj (ocnlms K n)) Unit := Obj.liftM (C := ocnlms K n) (ocAdaptCore d x)

/-! ## RLS -/

namespace Arr

/-- `a.T`: the axes in reverse order -/
def transpose (a : Arr K) : Arr K := ⟨a.shape.reverse, fun idx => a.entry idx.reverse⟩

/-- `x[None, :]` for an array with at least one axis -/
def newFirst (a : Arr K) : Arr K := ⟨1 :: a.shape, fun idx => a.entry idx.tail⟩

/-- `x[:, None]` for an array with at least one axis -/
def newSecond (a : Arr K) : Arr K := ⟨a.shape.take 1 ++ 1 :: a.shape.drop 1, fun idx => a.entry (idx.take 1 ++ idx.drop 2)⟩

/-- `a @ b` for two arrays with at least two axes: matrix products over the last two axes, the others are broadcast. -/
def matmul [Scalar K] (a b : Arr K) : Except Err (Arr K) :=
  match a.shape.reverse, b.shape.reverse with
  | m :: r :: sa, c :: m' :: sb =>
    if m = m' then
      (bshape sa.reverse sb.reverse).map fun s => ⟨s ++ [r, c], fun idx =>
        (List.ofFn fun k : Fin m =>
          a.entry (bidx sa.reverse (idx.take s.length) ++ [(idx.drop s.length).headD 0, k.val])
            * b.entry (bidx sb.reverse (idx.take s.length) ++ [k.val, (idx.drop s.length).getLastD 0])).sum⟩
    else .error .valueError
  | _, _ => .error .valueError

end Arr

/-- An RLS filter whose matrix `R` is whatever array the rule last computed. -/
structure RlsObj (K : Type) (n : Nat) where
  w : Vec K n
  mu : K
  R : Arr K

/-- `FilterRLS.learning_rule`, rls.py l. 179-186, for `e` of any shape and `x` with at least one axis.  (A number as `x` has no `x[:, None]`: `TypeError` or `IndexError`,
depending on its type; modelled as `TypeError`.)  `1 / self.mu` with `mu == 0` (a Python number) raises `ZeroDivisionError` before `self.R` is assigned. -/
def rlsRuleNd [Scalar K] (e x : Arr K) : M (RlsObj K n) (Arr K) := do
  let o ← M.get
  if x.shape = [] then M.raise .typeError
  else do
    let xx ← M.lift (x.newSecond.zip (· * ·) x.newFirst)
    let a ← M.lift (o.R.matmul xx)
    let R1 ← M.lift (a.matmul o.R)
    let b ← M.lift (x.dot o.R)
    let c ← M.lift (b.dot x.transpose)
    if Scalar.eqz o.mu then M.raise .zeroDivisionError
    else do
      let q ← M.lift (R1.zip (· / ·) (c.map (o.mu + ·)))
      let D ← M.lift (o.R.zip (· - ·) q)
      let R' := D.map (1 / o.mu * ·)
      M.modify fun o => { o with R := R' }
      let g ← M.lift (R'.dot x.transpose)
      M.lift (g.zip (· * ·) e)

/-- `AdaptiveFilter.adapt`, base_filter.py l. 164-166, of an RLS filter, for `d` and `x` of any shape. -/
def rlsAdaptNd [Scalar K] (d x : Arr K) : M (RlsObj K n) Unit := do
  let o ← M.get
  let y ← M.lift ((Arr.vec o.w).dot x)
  let e ← M.lift (d.zip (· - ·) y)
  let dw ← rlsRuleNd e x
  let w ← M.lift (iadd o.w dw)
  M.modify fun o => { o with w := w }

/-- a sequence of `adapt` calls, exceptions caught by the caller -/
def rlsAdaptsNd [Scalar K] (S : List (Arr K × Arr K)) (o : RlsObj K n) : RlsObj K n :=
  S.foldl (fun o p => (rlsAdaptNd p.1 p.2 o).2) o

end Padasip
