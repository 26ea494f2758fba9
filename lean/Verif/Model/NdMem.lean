import Verif.Model.NdArr

/-!
# Arrays of any number of dimensions as arguments of `adapt`: the filters that remember the last error

GNGD and the three VSLMS filters store the last error and a step size computed from it; if `d` is an array these attributes become arrays too.
-/

namespace Padasip

variable {K : Type} {n : Nat}

/-- the four classes -/
inductive Mem where
  | gngd | mathews | ang | benveniste
  deriving DecidableEq, Repr

/-- The attributes of the four classes: base_filter.py l. 38-41, gngd.py l. 80-83, vslms_mathews.py l. 86-89, vslms_ang.py l. 89-94, vslms_benveniste.py l. 86-90.  The weights are only ever changed
in place and stay a vector; the other attributes are assigned and take any shape.  Simplification: one record for the four classes (`eps` is used by GNGD only, `lastMu` by the
VSLMS filters, `lastFi` by Ang and Benveniste, `a` by Ang). -/
structure MemObj (K : Type) (n : Nat) where
  w : Vec K n
  nAttr : Nat
  mu : K
  ro : K
  a : K
  eps : Arr K
  lastE : Arr K
  lastX : Arr K
  lastFi : Arr K
  lastMu : Arr K

/-- the index of entry number `k` of an array read row by row (`np.ravel`) -/
def unravel : List Nat → Nat → List Nat
  | [], _ => []
  | _ :: s, k => k / s.prod :: unravel s (k % s.prod)

/-- `np.outer(a, b)`: both are flattened first -/
def Arr.outer [Scalar K] (a b : Arr K) : Arr K :=
  ⟨[a.shape.prod, b.shape.prod], fun idx => a.entry (unravel a.shape (idx.getD 0 0)) * b.entry (unravel b.shape (idx.getD 1 0))⟩

/-- `FilterGNGD.learning_rule`, gngd.py l. 89-94 -/
def gngdNd [Scalar K] (e x : Arr K) : M (MemObj K n) (Arr K) := do
  let o ← M.get
  let p ← M.lift ((e.map (o.ro * o.mu * ·)).zip (· * ·) o.lastE)
  let b ← M.lift (x.dot o.lastX)
  let p ← M.lift (p.zip (· * ·) b)
  let c ← M.lift (o.lastX.dot o.lastX)
  let den ← M.lift (c.zip (· + ·) o.eps)
  let t ← M.lift (p.zip (· / ·) (den.map fun a => a * a))
  let eps ← M.lift (o.eps.zip (· - ·) t)
  M.modify fun o => { o with eps := eps }
  let q ← M.lift (x.dot x)
  let s ← M.lift (eps.zip (· + ·) q)
  let nu := s.map (o.mu / ·)
  M.modify fun o => { o with lastE := e, lastX := x }
  let r ← M.lift (nu.zip (· * ·) e)
  M.lift (r.zip (· * ·) x)

/-- `FilterVSLMS_Mathews.learning_rule`, vslms_mathews.py l. 95-97 -/
def mathewsNd [Scalar K] (e x : Arr K) : M (MemObj K n) (Arr K) := do
  let o ← M.get
  let p ← M.lift ((e.map (o.ro * ·)).zip (· * ·) o.lastE)
  let b ← M.lift (o.lastX.dot x)
  let p ← M.lift (p.zip (· * ·) b)
  let mu ← M.lift (o.lastMu.zip (· + ·) p)
  M.modify fun o => { o with lastE := e, lastMu := mu, lastX := x }
  let r ← M.lift (mu.zip (· * ·) e)
  M.lift (r.zip (· * ·) x)

/-- the common end of Ang and Benveniste: `mu = self.last_mu + (self.ro * e * np.dot(self.last_x, fi))`, the assignments and `mu * e * x`, vslms_ang.py l. 101-103,
vslms_benveniste.py l. 98-100 -/
def fiNd [Scalar K] (fi e x : Arr K) : M (MemObj K n) (Arr K) := do
  let o ← M.get
  let b ← M.lift (o.lastX.dot fi)
  let p ← M.lift ((e.map (o.ro * ·)).zip (· * ·) b)
  let mu ← M.lift (o.lastMu.zip (· + ·) p)
  M.modify fun o => { o with lastE := e, lastMu := mu, lastX := x, lastFi := fi }
  let r ← M.lift (mu.zip (· * ·) e)
  M.lift (r.zip (· * ·) x)

/-- `FilterVSLMS_Ang.learning_rule`, vslms_ang.py l. 100-103 -/
def angNd [Scalar K] (e x : Arr K) : M (MemObj K n) (Arr K) := do
  let o ← M.get
  let t ← M.lift (o.lastE.zip (· * ·) o.lastX)
  let fi ← M.lift ((o.lastFi.map (o.a * ·)).zip (· + ·) t)
  fiNd fi e x

/-- `FilterVSLMS_Benveniste.learning_rule`, vslms_benveniste.py l. 96-100 -/
def benvenisteNd [Scalar K] (e x : Arr K) : M (MemObj K n) (Arr K) := do
  let o ← M.get
  let t ← M.lift (o.lastMu.zip (· * ·) (o.lastX.outer o.lastX))
  let part ← M.lift ((Arr.table (eye o.nAttr)).zip (· - ·) t)
  let f ← M.lift (part.dot o.lastFi)
  let t ← M.lift (o.lastE.zip (· * ·) o.lastX)
  let fi ← M.lift (f.zip (· + ·) t)
  fiNd fi e x

/-- the learning rule of the class -/
def memRule [Scalar K] : Mem → Arr K → Arr K → M (MemObj K n) (Arr K)
  | .gngd => gngdNd
  | .mathews => mathewsNd
  | .ang => angNd
  | .benveniste => benvenisteNd

/-- `AdaptiveFilter.predict`, base_filter.py l. 114 -/
def memPredict [Scalar K] (x : Arr K) : M (MemObj K n) (Arr K) := do
  let o ← M.get
  M.lift ((Arr.vec o.w).dot x)

/-- `AdaptiveFilter.adapt`, base_filter.py l. 164-166 -/
def memAdapt [Scalar K] (p : Mem) (d x : Arr K) : M (MemObj K n) Unit := do
  let y ← memPredict x
  let e ← M.lift (d.zip (· - ·) y)
  let dw ← memRule p e x
  let o ← M.get
  let w ← M.lift (iadd o.w dw)
  M.modify fun o => { o with w := w }

/-- A series of calls of `adapt`, each of which may raise (the exceptions are caught by the caller): the outcomes and the last state. -/
def memAdapts [Scalar K] (p : Mem) : List (Arr K × Arr K) → MemObj K n → List (Except Err Unit) × MemObj K n
  | [], o => ([], o)
  | (d, x) :: rest, o =>
    let r := memAdapt p d x o
    let t := memAdapts p rest r.2
    (r.1 :: t.1, t.2)

/-- Loop body of `AdaptiveFilter.run`, base_filter.py l. 208-210, for a number `d[k]` and a row `x[k]`: `y[k]` and `e[k]` are numbers. -/
def memBody [Scalar K] (p : Mem) (d : K) (x : List K) : M (MemObj K n) (K × K) := do
  let v ← M.lift (asVec n x)
  let o ← M.get
  let y := Padasip.dot o.w v
  let e := d - y
  let dw ← memRule p (Arr.num e) (Arr.vec v)
  let o ← M.get
  let w ← M.lift (iadd o.w dw)
  M.modify fun o => { o with w := w }
  pure (y, e)

end Padasip
