import Verif.Model.Factory

/-!
# Arrays of any number of dimensions as arguments of `predict` and `adapt`

Neither method checks the shape of its arguments (base_filter.py l. 101-114, 154-166): a number, a table or a larger array is handed to numpy.  This file models numpy's
broadcasting and `np.dot` for arrays of every shape, and `predict`/`adapt` on top of them for the eight classes whose rule is elementwise and keeps no state:
LMS, LMF, SSLMS, NLMS, NLMF, NSSLMS, GMCC, Llncosh.
-/

namespace Padasip

variable {K : Type} {n : Nat}

/-- A numpy array: its shape and its entries (`entry idx` is used for `idx` of the length of the shape and within it only).  A Python or numpy number is an array of
shape `[]`. -/
structure Arr (K : Type) where
  shape : List Nat
  entry : List Nat → K

/-- numpy's broadcasting of two shapes, written for reversed shapes (numpy aligns the last axes). -/
def bshapeRev : List Nat → List Nat → Except Err (List Nat)
  | [], b => .ok b
  | a, [] => .ok a
  | x :: a, y :: b =>
    if x = y ∨ y = 1 then (bshapeRev a b).map (x :: ·)
    else if x = 1 then (bshapeRev a b).map (y :: ·)
    else .error .valueError

/-- numpy's broadcasting of two shapes: `ValueError` if they do not fit. -/
def bshape (a b : List Nat) : Except Err (List Nat) := (bshapeRev a.reverse b.reverse).map List.reverse

/-- The index into an operand of shape `s` that belongs to the index `idx` of the result: leading axes are dropped, axes of length 1 are repeated. -/
def bidx (s idx : List Nat) : List Nat :=
  List.zipWith (fun m i => if m = 1 then 0 else i) s (idx.drop (idx.length - s.length))

namespace Arr

/-- a number -/
def num (a : K) : Arr K := ⟨[], fun _ => a⟩

/-- a vector -/
def vec [Scalar K] (v : Vec K n) : Arr K :=
  ⟨[n], fun idx => match idx with
    | [i] => if h : i < n then v ⟨i, h⟩ else 0
    | _ => 0⟩

/-- a table with `r` rows and `c` columns -/
def table [Scalar K] {r c : Nat} (A : Mat K r c) : Arr K :=
  ⟨[r, c], fun idx => match idx with
    | [i, j] => if h : i < r ∧ j < c then A ⟨i, h.1⟩ ⟨j, h.2⟩ else 0
    | _ => 0⟩

/-- a function of numpy applied to every entry -/
def map (f : K → K) (a : Arr K) : Arr K := ⟨a.shape, fun idx => f (a.entry idx)⟩

/-- an elementwise operation with broadcasting -/
def zip (f : K → K → K) (a b : Arr K) : Except Err (Arr K) :=
  (bshape a.shape b.shape).map fun s => ⟨s, fun idx => f (a.entry (bidx a.shape idx)) (b.entry (bidx b.shape idx))⟩

/-- `np.dot(a, b)`: the product if one of them is a number; the sum over the last axis of `a` and the last but one axis of `b` (the only axis, if `b` is a vector)
otherwise; `ValueError` if these have different lengths. -/
def dot [Scalar K] (a b : Arr K) : Except Err (Arr K) :=
  match a.shape.reverse, b.shape.reverse with
  | [], _ => zip (· * ·) a b
  | _, [] => zip (· * ·) a b
  | m :: sa, [m'] =>
    if m = m' then
      .ok ⟨sa.reverse, fun idx => (List.ofFn fun k : Fin m => a.entry (idx ++ [k.val]) * b.entry [k.val]).sum⟩
    else .error .valueError
  | m :: sa, c :: m' :: sb =>
    if m = m' then
      .ok ⟨sa.reverse ++ sb.reverse ++ [c], fun idx =>
        (List.ofFn fun k : Fin m =>
          a.entry (idx.take sa.length ++ [k.val])
            * b.entry ((idx.drop sa.length).dropLast ++ [k.val] ++ (idx.drop sa.length).getLast?.toList)).sum⟩
    else .error .valueError

end Arr

/-- the eight classes -/
inductive Elem where
  | lms | lmf | sslms | nlms | nlmf | nsslms | gmcc | llncosh
  deriving DecidableEq, Repr

/-- the filter class -/
def Elem.kind : Elem → Kind
  | .lms => .lms | .lmf => .lmf | .sslms => .sslms | .nlms => .nlms | .nlmf => .nlmf | .nsslms => .nsslms
  | .gmcc => .gmcc | .llncosh => .llncosh

/-- `FilterLMS.learning_rule`, lms.py l. 164: `self.mu * x * e` -/
def lmsNd [Scalar K] (s : Core K n Unit) (e x : Arr K) : Except Err (Arr K) := (x.map (s.mu * ·)).zip (· * ·) e

/-- `FilterLMF.learning_rule`, lmf.py l. 99: `self.mu * x * e ** 3` -/
def lmfNd [Scalar K] (s : Core K n Unit) (e x : Arr K) : Except Err (Arr K) := (x.map (s.mu * ·)).zip (· * ·) (e.map fun a => a * a * a)

/-- `FilterSSLMS.learning_rule`, sslms.py l. 103: `self.mu * np.sign(x) * np.sign(e)` -/
def sslmsNd [Scalar K] (s : Core K n Unit) (e x : Arr K) : Except Err (Arr K) :=
  (x.map fun a => s.mu * Scalar.sgn a).zip (· * ·) (e.map Scalar.sgn)

/-- `self.mu / (self.eps + np.dot(x, x))`, nlms.py l. 164, nlmf.py l. 99, nsslms.py l. 100: a matrix if `x` is a square table -/
def stepNd [Scalar K] (s : Core K n (EpsExt K)) (x : Arr K) : Except Err (Arr K) :=
  (x.dot x).map fun q => q.map fun a => s.mu / (s.ext.eps + a)

/-- `FilterNLMS.learning_rule`, nlms.py l. 164 -/
def nlmsNd [Scalar K] (s : Core K n (EpsExt K)) (e x : Arr K) : Except Err (Arr K) := do
  let q ← stepNd s x
  let a ← q.zip (· * ·) x
  a.zip (· * ·) e

/-- `FilterNLMF.learning_rule`, nlmf.py l. 99 -/
def nlmfNd [Scalar K] (s : Core K n (EpsExt K)) (e x : Arr K) : Except Err (Arr K) := do
  let q ← stepNd s x
  let a ← q.zip (· * ·) x
  a.zip (· * ·) (e.map fun a => a * a * a)

/-- `FilterNSSLMS.learning_rule`, nsslms.py l. 100 -/
def nsslmsNd [Scalar K] (s : Core K n (EpsExt K)) (e x : Arr K) : Except Err (Arr K) := do
  let q ← stepNd s x
  let a ← q.zip (· * ·) (x.map Scalar.sgn)
  a.zip (· * ·) (e.map Scalar.sgn)

/-- `FilterGMCC.learning_rule`, gmcc.py l. 82-84: all factors but the last are functions of `e` -/
def gmccNd [Transc K] (s : Core K n (GmccExt K)) (e x : Arr K) : Except Err (Arr K) :=
  (e.map fun a =>
    s.mu * s.ext.lambd * s.ext.alpha *
      Transc.exp (-s.ext.lambd * Transc.pow (Scalar.abs a) s.ext.alpha) *
      Transc.pow (Scalar.abs a) (s.ext.alpha - 1) * Scalar.sgn a).zip (· * ·) x

/-- `FilterLlncosh.learning_rule`, llncosh.py l. 94: `self.mu * np.tanh(self.lambd * e) * x` -/
def llncoshNd [Transc K] (s : Core K n (LlncoshExt K)) (e x : Arr K) : Except Err (Arr K) :=
  (e.map fun a => s.mu * Transc.tanh (s.ext.lambd * a)).zip (· * ·) x

/-- the learning rule of the class; none of the eight assigns an attribute -/
def ruleNd [Transc K] (solve : Solver K) : (p : Elem) → Core K n (classOf (n := n) solve p.kind).Ext → Arr K → Arr K → Except Err (Arr K)
  | .lms => lmsNd
  | .lmf => lmfNd
  | .sslms => sslmsNd
  | .nlms => nlmsNd
  | .nlmf => nlmfNd
  | .nsslms => nsslmsNd
  | .gmcc => gmccNd
  | .llncosh => llncoshNd

/-- `AdaptiveFilter.predict`, base_filter.py l. 114: `np.dot(self.w, x)`. -/
def predictNd [Scalar K] {C : FilterClass K n} (x : Arr K) : M (Obj C) (Arr K) := do
  let o ← M.get
  M.lift ((Arr.vec o.core.w).dot x)

/-- `self.w += dw`, base_filter.py l. 166: the result of the in-place sum must have the shape of `self.w`, otherwise `ValueError` ("non-broadcastable output operand"). -/
def iadd [Scalar K] (w : Vec K n) (dw : Arr K) : Except Err (Vec K n) := do
  let s ← bshape [n] dw.shape
  if s = [n] then .ok fun i => w i + dw.entry (bidx dw.shape [i.val]) else .error .valueError

/-- `AdaptiveFilter.adapt`, base_filter.py l. 164-166, for `d` and `x` of any shape. -/
def adaptNd [Transc K] (solve : Solver K) (p : Elem) (d x : Arr K) : M (Obj (classOf (n := n) solve p.kind)) Unit := do
  let y ← predictNd x
  let e ← M.lift (d.zip (· - ·) y)
  let o ← M.get
  let dw ← M.lift (ruleNd solve p o.core e x)
  let w ← M.lift (iadd o.core.w dw)
  M.modify fun o => { o with core := { o.core with w := w } }

end Padasip
