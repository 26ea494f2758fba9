import Verif.Model.Factory

/-!
# Arguments of unusual kinds: an array as target of `adapt`, a plain series as input of `run`, negative sizes, a rounded training length
-/

namespace Padasip

variable {K : Type} {n : Nat}

/-! ## `adapt(d, x)` with an array `d` -/

/-- `x * y` of two 1-d arrays of run-time length with numpy broadcasting. -/
def bmul [Scalar K] (x y : List K) : Except Err (List K) :=
  if x.length = y.length then .ok (List.zipWith (· * ·) x y)
  else match x, y with
    | x, [b] => .ok (x.map (· * b))
    | [a], y => .ok (y.map (a * ·))
    | _, _ => .error .valueError

/-- The nine filters whose learning rule uses the error elementwise only and keeps no trace of it. -/
inductive Plain where
  | lms | lmf | sslms | nlms | nlmf | nsslms | gmcc | llncosh | rls
  deriving DecidableEq, Repr

/-- the filter class -/
def Plain.kind : Plain → Kind
  | .lms => .lms | .lmf => .lmf | .sslms => .sslms | .nlms => .nlms | .nlmf => .nlmf | .nsslms => .nsslms
  | .gmcc => .gmcc | .llncosh => .llncosh | .rls => .rls

/-- `FilterLMS.learning_rule`, lms.py l. 164: `self.mu * x * e` with an array `e` -/
def lmsRuleArr [Scalar K] (e x : List K) : M (Core K n Unit) (List K) := do
  let x ← M.lift (asVec n x)
  let s ← M.get
  M.lift (bmul (List.ofFn fun i => s.mu * x i) e)

/-- `FilterLMF.learning_rule`, lmf.py l. 99 -/
def lmfRuleArr [Scalar K] (e x : List K) : M (Core K n Unit) (List K) := do
  let x ← M.lift (asVec n x)
  let s ← M.get
  M.lift (bmul (List.ofFn fun i => s.mu * x i) (e.map fun a => a * a * a))

/-- `FilterSSLMS.learning_rule`, sslms.py l. 103 -/
def sslmsRuleArr [Scalar K] (e x : List K) : M (Core K n Unit) (List K) := do
  let x ← M.lift (asVec n x)
  let s ← M.get
  M.lift (bmul (List.ofFn fun i => s.mu * Scalar.sgn (x i)) (e.map Scalar.sgn))

/-- `FilterNLMS.learning_rule`, nlms.py l. 164 -/
def nlmsRuleArr [Scalar K] (e x : List K) : M (Core K n (EpsExt K)) (List K) := do
  let x ← M.lift (asVec n x)
  let s ← M.get
  M.lift (bmul (List.ofFn fun i => s.mu / (s.ext.eps + dot x x) * x i) e)

/-- `FilterNLMF.learning_rule`, nlmf.py l. 99 -/
def nlmfRuleArr [Scalar K] (e x : List K) : M (Core K n (EpsExt K)) (List K) := do
  let x ← M.lift (asVec n x)
  let s ← M.get
  M.lift (bmul (List.ofFn fun i => s.mu / (s.ext.eps + dot x x) * x i) (e.map fun a => a * a * a))

/-- `FilterNSSLMS.learning_rule`, nsslms.py l. 100 -/
def nsslmsRuleArr [Scalar K] (e x : List K) : M (Core K n (EpsExt K)) (List K) := do
  let x ← M.lift (asVec n x)
  let s ← M.get
  M.lift (bmul (List.ofFn fun i => s.mu / (s.ext.eps + dot x x) * Scalar.sgn (x i)) (e.map Scalar.sgn))

/-- `FilterGMCC.learning_rule`, gmcc.py l. 82-84 -/
def gmccRuleArr [Transc K] (e x : List K) : M (Core K n (GmccExt K)) (List K) := do
  let x ← M.lift (asVec n x)
  let s ← M.get
  let q := s.ext
  M.lift (bmul (e.map fun a =>
    s.mu * q.lambd * q.alpha *
      Transc.exp (-q.lambd * Transc.pow (Scalar.abs a) q.alpha) *
      Transc.pow (Scalar.abs a) (q.alpha - 1) * Scalar.sgn a) (List.ofFn x))

/-- `FilterLlncosh.learning_rule`, llncosh.py l. 94 -/
def llncoshRuleArr [Transc K] (e x : List K) : M (Core K n (LlncoshExt K)) (List K) := do
  let x ← M.lift (asVec n x)
  let s ← M.get
  M.lift (bmul (e.map fun a => s.mu * Transc.tanh (s.ext.lambd * a)) (List.ofFn x))

/-- `FilterRLS.learning_rule`, rls.py l. 183-186: `self.R` is assigned before the product with `e` -/
def rlsRuleArr [Scalar K] (e x : List K) : M (Core K n (RlsExt K n)) (List K) := do
  let x ← M.lift (asVec n x)
  let s ← M.get
  let R := s.ext.R
  let R1 := matMul (matMul R (outer x x)) R
  let R2 := s.mu + dot (vecMat x R) x
  if Scalar.eqz s.mu then M.raise .zeroDivisionError
  else do
    let R' : Mat K n n := fun i j => 1 / s.mu * (R i j - R1 i j / R2)
    M.modify fun s => { s with ext := { s.ext with R := R' } }
    M.lift (bmul (List.ofFn (matVec R' x)) e)

/-- the learning rule of the class -/
def arrRule [Transc K] (solve : Solver K) : (p : Plain) → List K → List K → M (Core K n (classOf (n := n) solve p.kind).Ext) (List K)
  | .lms => lmsRuleArr
  | .lmf => lmfRuleArr
  | .sslms => sslmsRuleArr
  | .nlms => nlmsRuleArr
  | .nlmf => nlmfRuleArr
  | .nsslms => nsslmsRuleArr
  | .gmcc => gmccRuleArr
  | .llncosh => llncoshRuleArr
  | .rls => rlsRuleArr

/-- `AdaptiveFilter.adapt`, base_filter.py l. 164-166, with a 1-d array `d`: nothing checks that `d` is a number.  `self.w += dw` (in place) needs a `dw` that broadcasts to the
shape of `self.w`, otherwise `ValueError`. -/
def adaptArr [Transc K] (solve : Solver K) (p : Plain) (d x : List K) : M (Obj (classOf (n := n) solve p.kind)) Unit :=
  Obj.liftM do
    let y ← (classOf solve p.kind).predict x
    let e := d.map (· - y)
    let dw ← arrRule solve p e x
    let dw ← M.lift (bcastVec n dw)
    M.modify fun s => { s with w := fun i => s.w i + dw i }

/-! ## `run(d, x)` with a plain series `x` -/

/-- `run` (base_filter.py l. 190-194 and 302-306) when `x` is a series of numbers instead of a matrix: `len(x[0])` is a `TypeError`. -/
def runFlat [Scalar K] (C : FilterClass K n) (d x : List K) : M (Obj C) (List K × List K × List (List K)) :=
  if d.length ≠ x.length then M.raise .valueError
  else match x with
    | [] => M.raise .indexError
    | _ :: _ => M.raise .typeError

/-! ## Negative sizes -/

/-- The constructors with integer sizes.  base_filter.py l. 83-84: `n == -1` reads `self.n`, which the constructor has not assigned yet (l. 38-39): `AttributeError`, here `none`.
Any other negative `n`: `np.random.normal`, `np.zeros` raise `ValueError`, and no sequence has that length (l. 86-98).
A negative `order` (base_filter.py l. 232) or `mem` (ocnlms.py l. 129): `np.zeros` raises `ValueError`. -/
def constructInt [Transc K] (env : Env K) (t : Tag) (kw : Kwargs K) (n : ℤ) (order mem : Option ℤ) : Option (Except Err (AnyFilter K env)) :=
  let kw' : Kwargs K := { kw with n := some n.toNat, order := order.map Int.toNat, mem := mem.map Int.toNat }
  if badKeyword t kw' then some (.error .typeError)
  else match kw.mu <|> defaultMu t with
    | none => some (.error .typeError)
    | some _ =>
      if n = -1 then none
      else match initWeights env.rand 0 (kw.w.getD (.str "random")) n with
        | .error e => some (.error e)
        | .ok _ =>
          if order.getD 0 < 0 ∨ mem.getD 0 < 0 then some (.error .valueError)
          else some (construct env t kw')

/-! ## The training length in floating point -/

/-- `AdaptiveFilter.pretrained_run`, base_filter.py l. 145-152, with a rounded product `len(d)*ntrain`. -/
def pretrainedRunRounded [Scalar K] (rnd : ℚ → ℚ) (C : FilterClass K n) (d : List K) (x : List (List K)) (ntrain : ℚ)
    (epochs : Nat) : M (Obj C) (List K × List K × List (List K)) := do
  let nTrain := truncRat (rnd ((d.length : ℚ) * ntrain))
  repeatM (run C (pySliceTo d nTrain) (pySliceTo x nTrain)) epochs
  run C (pySliceFrom d nTrain) (pySliceFrom x nTrain)

end Padasip
