import Verif.Model.Factory

/-!
# `adapt(d, x)` with a Python list (or tuple) `x` in place of an array

`np.dot`, `np.sign`, `np.outer` and arithmetic with an array on the other side convert a list; the product of a number (a Python float, an `np.float64`) and a list does not: it raises `TypeError`
("can't multiply sequence by non-int of type ..."), and a list cannot be indexed with `[:, None]`.  (With a Python integer `mu` the first product of lms.py l. 164 repeats the list; the second one, with
the `np.float64` `e`, raises `TypeError` all the same.)  `run` converts its arguments to arrays (base_filter.py l. 197).

The attribute `last_x` of GNGD and the VSLMS filters is the object that was passed: the flag of the extended attributes says that it is a list.
-/

namespace Padasip

variable {K : Type} {n : Nat}

/-- a sequence of numbers as the caller passes it: a Python list, or an array of one dimension -/
structure PySeq (K : Type) where
  isList : Bool
  val : List K

/-- `a * x` with a number `a`: arrays are scaled, lists raise `TypeError` -/
def scale [Scalar K] (a : K) (x : PySeq K) : Except Err (List K) :=
  if x.isList then .error .typeError else .ok (x.val.map (a * ·))

/-- `a * x` for a sequence of the length of the weights -/
def scaleVec [Scalar K] (n : Nat) (a : K) (x : PySeq K) : Except Err (Vec K n) :=
  match scale a x with
  | .error e => .error e
  | .ok l => asVec n l

/-- `x[:, None]`, rls.py l. 183 -/
def column (x : PySeq K) : Except Err (List K) := if x.isList then .error .typeError else .ok x.val

/-- a method that does not look at `last_x`, on the attributes with the flag -/
def onPlain {X α : Type} (m : M (Core K n X) α) : M (Core K n (X × Bool)) α := fun s =>
  match m ⟨s.w, s.nAttr, s.mu, s.ext.1⟩ with
  | (r, t) => (r, ⟨t.w, t.nAttr, t.mu, (t.ext, s.ext.2)⟩)

/-- `FilterLMS.learning_rule`, lms.py l. 164: `self.mu * x * e` -/
def lmsRuleP [Scalar K] (e : K) (x : PySeq K) : M (Core K n (Unit × Bool)) (Vec K n) := do
  let s ← M.get
  let t ← M.lift (scaleVec n s.mu x)
  pure fun i => t i * e

/-- `FilterLMF.learning_rule`, lmf.py l. 99: `self.mu * x * e ** 3` -/
def lmfRuleP [Scalar K] (e : K) (x : PySeq K) : M (Core K n (Unit × Bool)) (Vec K n) := do
  let s ← M.get
  let t ← M.lift (scaleVec n s.mu x)
  pure fun i => t i * (e * e * e)

/-- `FilterSSLMS.learning_rule`, sslms.py l. 103: `self.mu * np.sign(x) * np.sign(e)` -/
def sslmsRuleP [Scalar K] (e : K) (x : PySeq K) : M (Core K n (Unit × Bool)) (Vec K n) := do
  let s ← M.get
  let t ← M.lift (scaleVec n s.mu ⟨false, x.val.map Scalar.sgn⟩)
  pure fun i => t i * Scalar.sgn e

/-- `FilterNLMS.learning_rule`, nlms.py l. 164: `self.mu / (self.eps + np.dot(x, x)) * x * e` -/
def nlmsRuleP [Scalar K] (e : K) (x : PySeq K) : M (Core K n (EpsExt K × Bool)) (Vec K n) := do
  let v ← M.lift (asVec n x.val)
  let s ← M.get
  let t ← M.lift (scaleVec n (s.mu / (s.ext.1.eps + dot v v)) x)
  pure fun i => t i * e

/-- `FilterNLMF.learning_rule`, nlmf.py l. 99 -/
def nlmfRuleP [Scalar K] (e : K) (x : PySeq K) : M (Core K n (EpsExt K × Bool)) (Vec K n) := do
  let v ← M.lift (asVec n x.val)
  let s ← M.get
  let t ← M.lift (scaleVec n (s.mu / (s.ext.1.eps + dot v v)) x)
  pure fun i => t i * (e * e * e)

/-- `FilterNSSLMS.learning_rule`, nsslms.py l. 100: `self.mu / (self.eps + np.dot(x, x)) * np.sign(x) * np.sign(e)` -/
def nsslmsRuleP [Scalar K] (e : K) (x : PySeq K) : M (Core K n (EpsExt K × Bool)) (Vec K n) := do
  let v ← M.lift (asVec n x.val)
  let s ← M.get
  let t ← M.lift (scaleVec n (s.mu / (s.ext.1.eps + dot v v)) ⟨false, x.val.map Scalar.sgn⟩)
  pure fun i => t i * Scalar.sgn e

/-- `FilterGNGD.learning_rule`, gngd.py l. 85-94: the attributes are assigned (l. 93) before the product with `x` (l. 94) -/
def gngdRuleP [Scalar K] (e : K) (x : PySeq K) : M (Core K n (GngdExt K n × Bool)) (Vec K n) := do
  let v ← M.lift (asVec n x.val)
  let s ← M.get
  let q := s.ext.1
  let den := dot q.lastX q.lastX + q.eps
  let eps := q.eps - q.ro * s.mu * e * q.lastE * dot v q.lastX / (den * den)
  let nu := s.mu / (eps + dot v v)
  M.modify fun s => { s with ext := ({ q with eps := eps, lastE := e, lastX := v }, x.isList) }
  M.lift (scaleVec n (nu * e) x)

/-- `FilterVSLMS_Mathews.learning_rule`, vslms_mathews.py l. 91-97: the attributes are assigned (l. 96) before the product with `x` (l. 97) -/
def mathewsRuleP [Scalar K] (e : K) (x : PySeq K) : M (Core K n (MathewsExt K n × Bool)) (Vec K n) := do
  let v ← M.lift (asVec n x.val)
  let s ← M.get
  let q := s.ext.1
  let mu := q.lastMu + (q.ro * e * q.lastE * dot q.lastX v)
  M.modify fun s => { s with ext := ({ q with lastE := e, lastMu := mu, lastX := v }, x.isList) }
  M.lift (scaleVec n (mu * e) x)

/-- `FilterVSLMS_Ang.learning_rule`, vslms_ang.py l. 96-103: `self.last_e * self.last_x` (l. 100) comes first, the product with `x` (l. 103) after the assignment of the attributes -/
def angRuleP [Scalar K] (e : K) (x : PySeq K) : M (Core K n (AngExt K n × Bool)) (Vec K n) := do
  let v ← M.lift (asVec n x.val)
  let s ← M.get
  let q := s.ext.1
  let t ← M.lift (scaleVec n q.lastE ⟨s.ext.2, List.ofFn q.lastX⟩)
  let fi : Vec K n := fun i => (q.a * q.lastFi i) + t i
  let mu := q.lastMu + (q.ro * e * dot q.lastX fi)
  M.modify fun s => { s with ext := ({ q with lastE := e, lastMu := mu, lastX := v, lastFi := fi }, x.isList) }
  M.lift (scaleVec n (mu * e) x)

/-- `FilterVSLMS_Benveniste.learning_rule`, vslms_benveniste.py l. 92-100: `np.outer(self.last_x, self.last_x)` (l. 96) accepts a list, `self.last_e * self.last_x` (l. 97) does not -/
def benvenisteRuleP [Scalar K] (e : K) (x : PySeq K) : M (Core K n (BenExt K n × Bool)) (Vec K n) := do
  let v ← M.lift (asVec n x.val)
  let s ← M.get
  let q := s.ext.1
  let fiPart ← M.lift (benFiPart s.nAttr q.lastMu q.lastX)
  let t ← M.lift (scaleVec n q.lastE ⟨s.ext.2, List.ofFn q.lastX⟩)
  let fi : Vec K n := fun i => matVec fiPart q.lastFi i + t i
  let mu := q.lastMu + (q.ro * e * dot q.lastX fi)
  M.modify fun s => { s with ext := ({ q with lastE := e, lastMu := mu, lastX := v, lastFi := fi }, x.isList) }
  M.lift (scaleVec n (mu * e) x)

/-- `FilterGMCC.learning_rule`, gmcc.py l. 78-84 -/
def gmccRuleP [Transc K] (e : K) (x : PySeq K) : M (Core K n (GmccExt K × Bool)) (Vec K n) := do
  let s ← M.get
  let q := s.ext.1
  M.lift (scaleVec n (s.mu * q.lambd * q.alpha *
      Transc.exp (-q.lambd * Transc.pow (Scalar.abs e) q.alpha) *
      Transc.pow (Scalar.abs e) (q.alpha - 1) * Scalar.sgn e) x)

/-- `FilterLlncosh.learning_rule`, llncosh.py l. 94: `self.mu * np.tanh(self.lambd * e) * x` -/
def llncoshRuleP [Transc K] (e : K) (x : PySeq K) : M (Core K n (LlncoshExt K × Bool)) (Vec K n) := do
  let s ← M.get
  M.lift (scaleVec n (s.mu * Transc.tanh (s.ext.1.lambd * e)) x)

/-- `FilterRLS.learning_rule`, rls.py l. 179-186: `x[:, None]` (l. 183) comes first -/
def rlsRuleP [Scalar K] (e : K) (x : PySeq K) : M (Core K n (RlsExt K n × Bool)) (Vec K n) := do
  let v ← M.lift (column x)
  onPlain (rlsRule e v)

/-- `AdaptiveFilter.adapt`, base_filter.py l. 164-166 -/
def adaptP [Scalar K] {X : Type} (rule : K → PySeq K → M (Core K n (X × Bool)) (Vec K n)) (d : K) (x : PySeq K) : M (Core K n (X × Bool)) Unit := do
  let y ← basePredict x.val
  let e := d - y
  let dw ← rule e x
  M.modify fun s => { s with w := fun i => s.w i + dw i }

/-- Loop body of `run`, base_filter.py l. 208-210: the rows of `x` are arrays -/
def bodyP [Scalar K] {X : Type} (rule : K → PySeq K → M (Core K n (X × Bool)) (Vec K n)) (d : K) (x : List K) : M (Core K n (X × Bool)) (K × K) := do
  let y ← basePredict x
  let e := d - y
  let dw ← rule e ⟨false, x⟩
  M.modify fun s => { s with w := fun i => s.w i + dw i }
  pure (y, e)

/-- A filter class together with its `adapt` for lists. -/
structure ListClass (K : Type) (n : Nat) (X : Type) where
  predict : List K → M (Core K n (X × Bool)) K
  adapt : K → PySeq K → M (Core K n (X × Bool)) Unit
  body : K → List K → M (Core K n (X × Bool)) (K × K)

/-- The methods of the class `k`.  OCNLMS (ocnlms.py l. 97-122: `x - m_x` is an array) and AP (base_filter.py l. 267: `self.x_mem[:, 0] = x`) do not compute with `x` itself. -/
def listClassOf [Transc K] (solve : Solver K) : (k : Kind) → ListClass K n (classOf (n := n) solve k).Ext
  | .lms => ⟨basePredict, adaptP lmsRuleP, bodyP lmsRuleP⟩
  | .lmf => ⟨basePredict, adaptP lmfRuleP, bodyP lmfRuleP⟩
  | .sslms => ⟨basePredict, adaptP sslmsRuleP, bodyP sslmsRuleP⟩
  | .nlms => ⟨basePredict, adaptP nlmsRuleP, bodyP nlmsRuleP⟩
  | .nlmf => ⟨basePredict, adaptP nlmfRuleP, bodyP nlmfRuleP⟩
  | .nsslms => ⟨basePredict, adaptP nsslmsRuleP, bodyP nsslmsRuleP⟩
  | .gngd => ⟨basePredict, adaptP gngdRuleP, bodyP gngdRuleP⟩
  | .mathews => ⟨basePredict, adaptP mathewsRuleP, bodyP mathewsRuleP⟩
  | .ang => ⟨basePredict, adaptP angRuleP, bodyP angRuleP⟩
  | .benveniste => ⟨basePredict, adaptP benvenisteRuleP, bodyP benvenisteRuleP⟩
  | .gmcc => ⟨basePredict, adaptP gmccRuleP, bodyP gmccRuleP⟩
  | .llncosh => ⟨basePredict, adaptP llncoshRuleP, bodyP llncoshRuleP⟩
  | .rls => ⟨basePredict, adaptP rlsRuleP, bodyP rlsRuleP⟩
  | .ocnlms => ⟨fun x => onPlain (ocPredict x), fun d x => onPlain (baseAdapt ocPredict ocRule d x.val), fun d x => onPlain (baseBody ocPredict ocRule d x)⟩
  | .ap order => ⟨basePredict, fun d x => onPlain (apAdapt solve d x.val), fun d x => onPlain ((ap K n solve order).body d x)⟩

/-- The class as a `FilterClass`, so that `run`, `adapt` and `predict` of Model/Base apply; arrays are passed. -/
def listClass [Transc K] (solve : Solver K) (k : Kind) : FilterClass K n where
  Ext := (classOf (n := n) solve k).Ext × Bool
  predict := (listClassOf solve k).predict
  adapt := fun d x => (listClassOf solve k).adapt d ⟨false, x⟩
  body := (listClassOf solve k).body

/-- `adapt(d, x)` of an object with a list or array `x` -/
def adaptSeq [Transc K] (solve : Solver K) (k : Kind) (d : K) (x : PySeq K) : M (Obj (listClass (n := n) solve k)) Unit :=
  Obj.liftM ((listClassOf solve k).adapt d x)

end Padasip
