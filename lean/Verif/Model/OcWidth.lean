import Verif.Model.Filters

/-!
# `padasip/filters/ocnlms.py` with a memory of any width

`clear_memory` creates `mem_x` with `self.n` columns (l. 129), and `self.n` is whatever the last `run` has found in `x[0]` (base_filter.py l. 194), also when that
`run` was rejected.  Here the memory of a filter with `n` weights has `c` columns, `c` chosen at run time; for `c = n` the definitions are those of
`Model/Filters.lean` (`ocW_same` in `Props/OcWidth.lean`).
-/

namespace Padasip

variable {K : Type} {n c : Nat} [Scalar K]

/-- `FilterOCNLMS.read_memory`, ocnlms.py l. 145-164. -/
def ocReadW : M (Core K n (OcExt K c)) (K × List K) := do
  let s ← M.get
  let mx := ocCenter s.nAttr s.ext
  let md ← M.lift (ocCenterD s.ext)
  M.modify fun s => { s with ext := ocAdvance s.ext }
  pure (md, mx)

/-- `FilterOCNLMS.predict`, ocnlms.py l. 107-122. -/
def ocPredictW (x : List K) : M (Core K n (OcExt K c)) K := do
  let (md, mx) ← ocReadW
  let v ← M.lift (bsub x mx)
  let v ← M.lift (asVec n v)
  let s ← M.get
  pure (dot s.w v + md)

/-- `FilterOCNLMS.update_memory_x`, ocnlms.py l. 139-143. -/
def ocUpdateXW (x : Vec K c) : M (Core K n (OcExt K c)) Unit := do
  let s ← M.get
  if s.ext.memIdx < s.ext.memX.length then
    M.modify fun s => { s with ext := { s.ext with memX := s.ext.memX.set s.ext.memIdx x } }
  else M.raise .indexError

/-- `FilterOCNLMS.update_memory_d`, ocnlms.py l. 133-137. -/
def ocUpdateDW (d : K) : M (Core K n (OcExt K c)) Unit := do
  let s ← M.get
  if s.ext.memD.length = 0 then M.raise .indexError
  else
    let i := if s.ext.memIdx = 0 then s.ext.memD.length - 1 else s.ext.memIdx - 1
    M.modify fun s => { s with ext := { s.ext with memD := s.ext.memD.set i d } }

/-- `FilterOCNLMS.learning_rule`, ocnlms.py l. 97-105: l. 101 broadcasts `x` into a row of the memory, which has `c` columns. -/
def ocRuleW (e : K) (x : List K) : M (Core K n (OcExt K c)) (Vec K n) := do
  let xr ← M.lift (bcastVec c x)
  ocUpdateXW xr
  let (md, mx) ← ocReadW
  let v ← M.lift (bsub x mx)
  let v ← M.lift (asVec n v)
  let s ← M.get
  let y := dot s.w v + md
  ocUpdateDW (e + y)
  pure fun i => s.mu / (s.ext.eps + dot v v) * e * v i

/-- `FilterOCNLMS` whose memory has `c` columns. -/
def ocnlmsW (K : Type) (n c : Nat) [Scalar K] : FilterClass K n := mkBase (OcExt K c) ocPredictW ocRuleW

/-- An OCNLMS filter with `n` weights and the current number of columns of its memory. -/
structure OcObj (K : Type) (n : Nat) [Scalar K] where
  width : Nat
  obj : Obj (ocnlmsW K n width)

/-- `FilterOCNLMS.clear_memory`, ocnlms.py l. 124-131: the new memory has `self.n` columns (`self.mem` rows: the current number). -/
def OcObj.clear (o : OcObj K n) : OcObj K n :=
  let q : OcExt K o.width := o.obj.core.ext
  ⟨o.obj.core.nAttr, ⟨⟨o.obj.core.w, o.obj.core.nAttr, o.obj.core.mu,
    (⟨q.eps, true, List.replicate q.memX.length (zeros _), List.replicate q.memX.length 0, 0⟩ : OcExt K o.obj.core.nAttr)⟩, o.obj.wHist⟩⟩

/-- A call of a public method. -/
inductive OcCall (K : Type) where
  | run (d : List K) (x : List (List K))
  | pretrained (d : List K) (x : List (List K)) (ntrain : ℚ) (epochs : Nat)
  | adapt (d : K) (x : List K)
  | predict (x : List K)
  | clear

/-- the exception a method raises, if any -/
def raised {α : Type} : Except Err α → Option Err
  | .ok _ => none
  | .error e => some e

/-- One call: the exception it raises (if any) and the object after it. -/
def OcObj.call (o : OcObj K n) : OcCall K → Option Err × OcObj K n
  | .run d x => let r := run (ocnlmsW K n o.width) d x o.obj; (raised r.1, ⟨o.width, r.2⟩)
  | .pretrained d x q k => let r := pretrainedRun (ocnlmsW K n o.width) d x q k o.obj; (raised r.1, ⟨o.width, r.2⟩)
  | .adapt d x => let r := Padasip.adapt (ocnlmsW K n o.width) d x o.obj; (raised r.1, ⟨o.width, r.2⟩)
  | .predict x => let r := Padasip.predict (ocnlmsW K n o.width) x o.obj; (raised r.1, ⟨o.width, r.2⟩)
  | .clear => (none, o.clear)

/-- A sequence of calls: the outcomes and the object at the end. -/
def OcObj.calls (o : OcObj K n) : List (OcCall K) → List (Option Err) × OcObj K n
  | [] => ([], o)
  | a :: t => let r := o.call a; let q := r.2.calls t; (r.1 :: q.1, q.2)

end Padasip
