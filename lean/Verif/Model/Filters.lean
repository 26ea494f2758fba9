import Verif.Model.Base

/-!
# The fifteen adaptive filters: `padasip/filters/*.py`

Each learning rule is transcribed with the association of the source (`a * b * c` is `(a * b) * c`).
The length of `x` is checked here by `asVec`; in the source `predict` (called first by `run` and `adapt`) has
already rejected a wrong length.
-/

namespace Padasip

variable {K : Type} {n : Nat}

/-- The attributes of the filter `s`, updated with new `ext`. -/
def Core.setExt {X : Type} (s : Core K n X) (x : X) : Core K n X := { s with ext := x }

/-! ## LMS, LMF, SSLMS — no attributes of their own -/

/-- `AdaptiveFilter.learning_rule`, base_filter.py l. 43-57: the base class does not adapt. -/
def baseRule [Scalar K] (_e : K) (x : List K) : M (Core K n Unit) (Vec K n) := do
  let _ ← M.lift (asVec n x)
  pure (zeros n)

/-- `FilterLMS.learning_rule`, lms.py l. 160-164: `self.mu * x * e`. -/
def lmsRule [Scalar K] (e : K) (x : List K) : M (Core K n Unit) (Vec K n) := do
  let x ← M.lift (asVec n x)
  let s ← M.get
  pure fun i => s.mu * x i * e

/-- `FilterLMF.learning_rule`, lmf.py l. 95-99: `self.mu * x * e ** 3`. -/
def lmfRule [Scalar K] (e : K) (x : List K) : M (Core K n Unit) (Vec K n) := do
  let x ← M.lift (asVec n x)
  let s ← M.get
  pure fun i => s.mu * x i * (e * e * e)

/-- `FilterSSLMS.learning_rule`, sslms.py l. 99-103: `self.mu * np.sign(x) * np.sign(e)`. -/
def sslmsRule [Scalar K] (e : K) (x : List K) : M (Core K n Unit) (Vec K n) := do
  let x ← M.lift (asVec n x)
  let s ← M.get
  pure fun i => s.mu * Scalar.sgn (x i) * Scalar.sgn e

/-! ## NLMS, NLMF, NSSLMS — attribute `eps` -/

/-- Attribute `self.eps` of NLMS (nlms.py l. 158), NLMF (nlmf.py l. 93), NSSLMS (nsslms.py l. 94). -/
structure EpsExt (K : Type) where
  eps : K

/-- `FilterNLMS.learning_rule`, nlms.py l. 160-164: `self.mu / (self.eps + np.dot(x, x)) * x * e`. -/
def nlmsRule [Scalar K] (e : K) (x : List K) : M (Core K n (EpsExt K)) (Vec K n) := do
  let x ← M.lift (asVec n x)
  let s ← M.get
  pure fun i => s.mu / (s.ext.eps + dot x x) * x i * e

/-- `FilterNLMF.learning_rule`, nlmf.py l. 95-99: `self.mu / (self.eps + np.dot(x, x)) * x * e ** 3`. -/
def nlmfRule [Scalar K] (e : K) (x : List K) : M (Core K n (EpsExt K)) (Vec K n) := do
  let x ← M.lift (asVec n x)
  let s ← M.get
  pure fun i => s.mu / (s.ext.eps + dot x x) * x i * (e * e * e)

/-- `FilterNSSLMS.learning_rule`, nsslms.py l. 96-100:
`self.mu / (self.eps + np.dot(x, x)) * np.sign(x) * np.sign(e)`. -/
def nsslmsRule [Scalar K] (e : K) (x : List K) : M (Core K n (EpsExt K)) (Vec K n) := do
  let x ← M.lift (asVec n x)
  let s ← M.get
  pure fun i => s.mu / (s.ext.eps + dot x x) * Scalar.sgn (x i) * Scalar.sgn e

/-! ## GNGD -/

/-- Attributes of `FilterGNGD`, gngd.py l. 80-83. -/
structure GngdExt (K : Type) (n : Nat) where
  eps : K
  ro : K
  lastE : K
  lastX : Vec K n

/-- `FilterGNGD.learning_rule`, gngd.py l. 85-94.  `self.last_x = x` keeps a reference to `x`
(see `Model/Heap.lean`); here it is a value. -/
def gngdRule [Scalar K] (e : K) (x : List K) : M (Core K n (GngdExt K n)) (Vec K n) := do
  let x ← M.lift (asVec n x)
  let s ← M.get
  let q := s.ext
  let den := dot q.lastX q.lastX + q.eps
  let eps := q.eps - q.ro * s.mu * e * q.lastE * dot x q.lastX / (den * den)
  let nu := s.mu / (eps + dot x x)
  M.modify fun s => { s with ext := { q with eps := eps, lastE := e, lastX := x } }
  pure fun i => nu * e * x i

/-! ## VSLMS: Mathews, Ang, Benveniste -/

/-- Attributes of `FilterVSLMS_Mathews`, vslms_mathews.py l. 86-89. -/
structure MathewsExt (K : Type) (n : Nat) where
  ro : K
  lastE : K
  lastX : Vec K n
  lastMu : K

/-- `FilterVSLMS_Mathews.learning_rule`, vslms_mathews.py l. 91-97. -/
def mathewsRule [Scalar K] (e : K) (x : List K) : M (Core K n (MathewsExt K n)) (Vec K n) := do
  let x ← M.lift (asVec n x)
  let s ← M.get
  let q := s.ext
  let mu := q.lastMu + (q.ro * e * q.lastE * dot q.lastX x)
  M.modify fun s => { s with ext := { q with lastE := e, lastMu := mu, lastX := x } }
  pure fun i => mu * e * x i

/-- Attributes of `FilterVSLMS_Ang`, vslms_ang.py l. 89-94. -/
structure AngExt (K : Type) (n : Nat) where
  ro : K
  a : K
  lastE : K
  lastX : Vec K n
  lastFi : Vec K n
  lastMu : K

/-- `FilterVSLMS_Ang.learning_rule`, vslms_ang.py l. 96-103. -/
def angRule [Scalar K] (e : K) (x : List K) : M (Core K n (AngExt K n)) (Vec K n) := do
  let x ← M.lift (asVec n x)
  let s ← M.get
  let q := s.ext
  let fi : Vec K n := fun i => (q.a * q.lastFi i) + (q.lastE * q.lastX i)
  let mu := q.lastMu + (q.ro * e * dot q.lastX fi)
  M.modify fun s => { s with ext := { q with lastE := e, lastMu := mu, lastX := x, lastFi := fi } }
  pure fun i => mu * e * x i

/-- Attributes of `FilterVSLMS_Benveniste`, vslms_benveniste.py l. 86-90. -/
structure BenExt (K : Type) (n : Nat) where
  ro : K
  lastE : K
  lastX : Vec K n
  lastFi : Vec K n
  lastMu : K

/-- `np.eye(self.n) - (self.last_mu * np.outer(self.last_x, self.last_x))`, vslms_benveniste.py l. 96:
an `(nAttr, nAttr)` array minus an `(n, n)` array with numpy broadcasting.  When `nAttr = 1 ≠ n` the 1x1
identity is broadcast (every entry is `1 - ...`); when `n = 1 ≠ nAttr` the result has shape `(nAttr, nAttr)` and the product with
`last_fi` (l. 97) raises `ValueError`; any other mismatch raises `ValueError` at once. -/
def benFiPart [Scalar K] (nAttr : Nat) (lastMu : K) (lastX : Vec K n) : Except Err (Mat K n n) :=
  if nAttr = n then .ok fun i j => eye n i j - lastMu * outer lastX lastX i j
  else if nAttr = 1 then .ok fun i j => 1 - lastMu * outer lastX lastX i j
  else .error .valueError

/-- `FilterVSLMS_Benveniste.learning_rule`, vslms_benveniste.py l. 92-100. -/
def benvenisteRule [Scalar K] (e : K) (x : List K) : M (Core K n (BenExt K n)) (Vec K n) := do
  let x ← M.lift (asVec n x)
  let s ← M.get
  let q := s.ext
  let fiPart ← M.lift (benFiPart s.nAttr q.lastMu q.lastX)
  let fi : Vec K n := fun i => matVec fiPart q.lastFi i + (q.lastE * q.lastX i)
  let mu := q.lastMu + (q.ro * e * dot q.lastX fi)
  M.modify fun s => { s with ext := { q with lastE := e, lastMu := mu, lastX := x, lastFi := fi } }
  pure fun i => mu * e * x i

/-! ## GMCC, Llncosh -/

/-- Attributes of `FilterGMCC`, gmcc.py l. 75-76. -/
structure GmccExt (K : Type) where
  lambd : K
  alpha : K

/-- `FilterGMCC.learning_rule`, gmcc.py l. 78-84. -/
def gmccRule [Transc K] (e : K) (x : List K) : M (Core K n (GmccExt K)) (Vec K n) := do
  let x ← M.lift (asVec n x)
  let s ← M.get
  let q := s.ext
  pure fun i =>
    s.mu * q.lambd * q.alpha *
      Transc.exp (-q.lambd * Transc.pow (Scalar.abs e) q.alpha) *
      Transc.pow (Scalar.abs e) (q.alpha - 1) * Scalar.sgn e * x i

/-- Attribute of `FilterLlncosh`, llncosh.py l. 88. -/
structure LlncoshExt (K : Type) where
  lambd : K

/-- `FilterLlncosh.learning_rule`, llncosh.py l. 90-94: `self.mu * np.tanh(self.lambd * e) * x`. -/
def llncoshRule [Transc K] (e : K) (x : List K) : M (Core K n (LlncoshExt K)) (Vec K n) := do
  let x ← M.lift (asVec n x)
  let s ← M.get
  pure fun i => s.mu * Transc.tanh (s.ext.lambd * e) * x i

/-! ## RLS -/

/-- Attributes of `FilterRLS`, rls.py l. 176-177. -/
structure RlsExt (K : Type) (n : Nat) where
  eps : K
  R : Mat K n n

/-- `FilterRLS.learning_rule`, rls.py l. 179-186.  `1 / self.mu` with `mu == 0` (a Python number) raises
`ZeroDivisionError` before `self.R` is assigned. -/
def rlsRule [Scalar K] (e : K) (x : List K) : M (Core K n (RlsExt K n)) (Vec K n) := do
  let x ← M.lift (asVec n x)
  let s ← M.get
  let R := s.ext.R
  let R1 := matMul (matMul R (outer x x)) R
  let R2 := s.mu + dot (vecMat x R) x
  if Scalar.eqz s.mu then M.raise .zeroDivisionError
  else do
    let R' : Mat K n n := fun i j => 1 / s.mu * (R i j - R1 i j / R2)
    M.modify fun s => { s with ext := { s.ext with R := R' } }
    pure fun i => matVec R' x i * e

/-! ## OCNLMS -/

/-- Attributes of `FilterOCNLMS`, ocnlms.py l. 93-94 and 128-131 (`self.mem` is `memX.length`). -/
structure OcExt (K : Type) (n : Nat) where
  eps : K
  memEmpty : Bool
  memX : List (Vec K n)
  memD : List K
  memIdx : Nat

/-- `FilterOCNLMS.clear_memory`, ocnlms.py l. 124-131.  Simplification: the new `mem_x` has the true filter size `n`
columns (the source uses `self.n`, which differs only after a rejected `run`; that case is `OcObj.clear` in Model/OcWidth.lean, C130). -/
def ocClear [Scalar K] (mem : Nat) (q : OcExt K n) : OcExt K n :=
  { q with
    memEmpty := true, memX := List.replicate mem (zeros n), memD := List.replicate mem 0, memIdx := 0 }

/-- `FilterOCNLMS.clear_memory` as a method, ocnlms.py l. 124-131. -/
def ocClearMemory [Scalar K] (mem : Nat) : M (Core K n (OcExt K n)) Unit :=
  M.modify fun s => { s with ext := ocClear mem s.ext }

/-- `np.mean(rows, axis=0)`. -/
def meanRows [Scalar K] (rows : List (Vec K n)) : Vec K n := fun i => meanL (rows.map fun r => r i)

/-- The mean input vector `m_x` of `read_memory`, ocnlms.py l. 150-158.  It is an array of run-time length: in the branch
`np.zeros(self.n)` (l. 152) it has the length of the attribute `self.n`, which a rejected `run` may have left wrong. -/
def ocCenter [Scalar K] (nAttr : Nat) (q : OcExt K n) : List K :=
  if q.memEmpty then
    if q.memIdx = 0 then List.replicate nAttr 0
    else List.ofFn (meanRows (q.memX.take (q.memIdx + 1)))
  else List.ofFn (meanRows q.memX)

/-- The mean target returned by `read_memory`, ocnlms.py l. 150-159.
`np.delete(self.mem_d, self.mem_idx)` needs an index in range (`IndexError`).
The mean of an empty slice is `0/0`. -/
def ocCenterD [Scalar K] (q : OcExt K n) : Except Err K :=
  if q.memEmpty then
    if q.memIdx = 0 then .ok 0
    else .ok (meanL (q.memD.take q.memIdx))
  else if q.memIdx < q.memD.length then .ok (meanL (q.memD.eraseIdx q.memIdx))
  else .error .indexError

/-- Advance of the circular index, ocnlms.py l. 160-163: `idx += 1; if idx > len(mem_x)-1: idx = 0; mem_empty = False`. -/
def ocAdvance (q : OcExt K n) : OcExt K n :=
  if q.memX.length ≤ q.memIdx + 1 then { q with memIdx := 0, memEmpty := false }
  else { q with memIdx := q.memIdx + 1 }

/-- `FilterOCNLMS.read_memory`, ocnlms.py l. 145-164: returns `(m_d, m_x)` and advances the index. -/
def ocRead [Scalar K] : M (Core K n (OcExt K n)) (K × List K) := do
  let s ← M.get
  let mx := ocCenter s.nAttr s.ext
  let md ← M.lift (ocCenterD s.ext)
  M.modify fun s => { s with ext := ocAdvance s.ext }
  pure (md, mx)

/-- `FilterOCNLMS.predict`, ocnlms.py l. 107-122: `np.dot(self.w, x - m_x) + m_d`. -/
def ocPredict [Scalar K] (x : List K) : M (Core K n (OcExt K n)) K := do
  let (md, mx) ← ocRead
  let c ← M.lift (bsub x mx)
  let c ← M.lift (asVec n c)
  let s ← M.get
  pure (dot s.w c + md)

/-- `FilterOCNLMS.update_memory_x`, ocnlms.py l. 139-143: `self.mem_x[self.mem_idx, :] = x_k`. -/
def ocUpdateX [Scalar K] (x : Vec K n) : M (Core K n (OcExt K n)) Unit := do
  let s ← M.get
  if s.ext.memIdx < s.ext.memX.length then
    M.modify fun s => { s with ext := { s.ext with memX := s.ext.memX.set s.ext.memIdx x } }
  else M.raise .indexError

/-- `FilterOCNLMS.update_memory_d`, ocnlms.py l. 133-137: `self.mem_d[self.mem_idx-1] = d_k`
(index `-1` is the last entry). -/
def ocUpdateD [Scalar K] (d : K) : M (Core K n (OcExt K n)) Unit := do
  let s ← M.get
  if s.ext.memD.length = 0 then M.raise .indexError
  else
    let i := if s.ext.memIdx = 0 then s.ext.memD.length - 1 else s.ext.memIdx - 1
    M.modify fun s => { s with ext := { s.ext with memD := s.ext.memD.set i d } }

/-- `FilterOCNLMS.learning_rule`, ocnlms.py l. 97-105 (l. 101 broadcasts `x` into the memory row). -/
def ocRule [Scalar K] (e : K) (x : List K) : M (Core K n (OcExt K n)) (Vec K n) := do
  let xr ← M.lift (bcastVec n x)
  ocUpdateX xr
  let (md, mx) ← ocRead
  let c ← M.lift (bsub x mx)
  let c ← M.lift (asVec n c)
  let s ← M.get
  let y := dot s.w c + md
  ocUpdateD (e + y)
  pure fun i => s.mu / (s.ext.eps + dot c c) * e * c i

/-! ## AP: `AdaptiveFilterAP` (base_filter.py l. 214-332) and `FilterAP` (ap.py) -/

/-- `np.linalg.solve(A, B)` for square `A`: an external call.  Contract (`SolveSpec` in `Spec/Solve.lean`): the
unique solution if `A` is invertible, `LinAlgError` otherwise. -/
abbrev Solver (K : Type) := (m : Nat) → Mat K m m → Mat K m m → Except Err (Mat K m m)

/-- Attributes of `AdaptiveFilterAP`, base_filter.py l. 231-237 (`ide_ifc`, `ide` are functions of `ifc` and the order).
`self.y_mem`, `self.e_mem` are recomputed before every use. -/
structure ApExt (K : Type) (n order : Nat) where
  ifc : K
  xMem : Mat K n order
  dMem : Vec K order
  yMem : Vec K order
  eMem : Vec K order

variable {order : Nat}

/-- `self.x_mem[:, 1:] = self.x_mem[:, :-1]`, base_filter.py l. 266 / 321. -/
def shiftCols (X : Mat K n order) : Mat K n order := fun i j =>
  if h : j.val = 0 then X i j else X i ⟨j.val - 1, by omega⟩

/-- `self.d_mem[1:] = self.d_mem[:-1]`, base_filter.py l. 268 / 323. -/
def shiftVec (v : Vec K order) : Vec K order := fun j =>
  if h : j.val = 0 then v j else v ⟨j.val - 1, by omega⟩

/-- Memory update of base_filter.py l. 266-269 / 321-324.  The column assignment `self.x_mem[:, 0] = x` broadcasts an `x` of
length 1, raises `ValueError` for any other wrong length and `IndexError` for order 0 - after the shift of l. 266. -/
def apPush [Scalar K] (d : K) (x : List K) : M (Core K n (ApExt K n order)) Unit := do
  M.modify fun s => { s with ext := { s.ext with xMem := shiftCols s.ext.xMem } }
  if order = 0 then M.raise .indexError
  else do
    let x ← M.lift (bcastVec n x)
    M.modify fun s => { s with ext := { s.ext with
      xMem := fun i j => if j.val = 0 then x i else s.ext.xMem i j } }
    M.modify fun s => { s with ext := { s.ext with dMem := shiftVec s.ext.dMem } }
    M.modify fun s => { s with ext := { s.ext with
      dMem := fun j => if j.val = 0 then d else s.ext.dMem j } }

/-- `np.dot(x_mem.T, x_mem) + self.ide_ifc`, base_filter.py l. 274, ap.py l. 161. -/
def apGram [Scalar K] (ifc : K) (X : Mat K n order) : Mat K order order := fun a b =>
  dot (fun i => X i a) (fun i => X i b) + ifc * eye order a b

/-- `np.dot(self.x_mem.T, self.w)` and `self.d_mem - self.y_mem`, base_filter.py l. 271-272 / 326-327. -/
def apErr [Scalar K] : M (Core K n (ApExt K n order)) Unit := do
  M.modify fun s => { s with ext := { s.ext with
    yMem := fun j => dot (fun i => s.ext.xMem i j) s.w } }
  M.modify fun s => { s with ext := { s.ext with
    eMem := fun j => s.ext.dMem j - s.ext.yMem j } }

/-- `FilterAP.learning_rule`, ap.py l. 157-163. -/
def apRule [Scalar K] (solve : Solver K) (e : Vec K order) (X : Mat K n order) :
    M (Core K n (ApExt K n order)) (Vec K n) := do
  let s ← M.get
  let p2 ← M.lift (solve order (apGram s.ext.ifc X) (eye order))
  pure fun i => s.mu * dot (X i) (matVec p2 e)

/-- `AdaptiveFilterAP.adapt`, base_filter.py l. 255-277 (it does not call `learning_rule`). -/
def apAdapt [Scalar K] (solve : Solver K) (d : K) (x : List K) :
    M (Core K n (ApExt K n order)) Unit := do
  apPush d x
  apErr
  let s ← M.get
  let p1 := apGram s.ext.ifc s.ext.xMem
  let p2 ← M.lift (solve order p1 (eye order))
  let dw : Vec K n := fun i => dot (s.ext.xMem i) (matVec p2 s.ext.eMem)
  M.modify fun s => { s with w := fun i => s.w i + s.mu * dw i }

/-- Loop body of `AdaptiveFilterAP.run`, base_filter.py l. 320-331. -/
def apBody [Scalar K] (solve : Solver K) (h : 0 < order) (d : K) (x : List K) :
    M (Core K n (ApExt K n order)) (K × K) := do
  apPush d x
  apErr
  let s ← M.get
  let y := s.ext.yMem ⟨0, h⟩
  let e := s.ext.eMem ⟨0, h⟩
  let dw ← apRule solve s.ext.eMem s.ext.xMem
  M.modify fun s => { s with w := fun i => s.w i + dw i }
  pure (y, e)

/-! ## The classes -/

section classes
variable (K n)

/-- `FilterLMS`, lms.py -/
def lms [Scalar K] : FilterClass K n := mkBase Unit basePredict lmsRule
/-- `FilterLMF`, lmf.py -/
def lmf [Scalar K] : FilterClass K n := mkBase Unit basePredict lmfRule
/-- `FilterSSLMS`, sslms.py -/
def sslms [Scalar K] : FilterClass K n := mkBase Unit basePredict sslmsRule
/-- `FilterNLMS`, nlms.py -/
def nlms [Scalar K] : FilterClass K n := mkBase (EpsExt K) basePredict nlmsRule
/-- `FilterNLMF`, nlmf.py -/
def nlmf [Scalar K] : FilterClass K n := mkBase (EpsExt K) basePredict nlmfRule
/-- `FilterNSSLMS`, nsslms.py -/
def nsslms [Scalar K] : FilterClass K n := mkBase (EpsExt K) basePredict nsslmsRule
/-- `FilterGNGD`, gngd.py -/
def gngd [Scalar K] : FilterClass K n := mkBase (GngdExt K n) basePredict gngdRule
/-- `FilterVSLMS_Mathews`, vslms_mathews.py -/
def mathews [Scalar K] : FilterClass K n := mkBase (MathewsExt K n) basePredict mathewsRule
/-- `FilterVSLMS_Ang`, vslms_ang.py -/
def ang [Scalar K] : FilterClass K n := mkBase (AngExt K n) basePredict angRule
/-- `FilterVSLMS_Benveniste`, vslms_benveniste.py -/
def benveniste [Scalar K] : FilterClass K n := mkBase (BenExt K n) basePredict benvenisteRule
/-- `FilterGMCC`, gmcc.py -/
def gmcc [Transc K] : FilterClass K n := mkBase (GmccExt K) basePredict gmccRule
/-- `FilterLlncosh`, llncosh.py -/
def llncosh [Transc K] : FilterClass K n := mkBase (LlncoshExt K) basePredict llncoshRule
/-- `FilterRLS`, rls.py -/
def rls [Scalar K] : FilterClass K n := mkBase (RlsExt K n) basePredict rlsRule
/-- `FilterOCNLMS`, ocnlms.py (overrides `predict`) -/
def ocnlms [Scalar K] : FilterClass K n := mkBase (OcExt K n) ocPredict ocRule
/-- `FilterAP` of projection order `order`, ap.py; `predict` is inherited from `AdaptiveFilter`.
For order 0 the loop body raises in `apPush` (base_filter.py l. 322). -/
def ap [Scalar K] (solve : Solver K) (order : Nat) : FilterClass K n where
  Ext := ApExt K n order
  predict := basePredict
  adapt := apAdapt solve
  body := fun d x =>
    if h : 0 < order then apBody solve h d x
    else do
      apPush d x
      pure (0, 0)

end classes

end Padasip
