import Verif.Model.Filters

/-!
# Filters derived from the base classes: `padasip/filters/base_filter.py` as a library for new filters

`AdaptiveFilter` and `AdaptiveFilterAP` are "base class[es] for adaptive filter classes" (l. 9-13, 214-218): every filter of the library, and every
filter of a user, is a subclass that replaces `learning_rule`.  Here `learning_rule` is an arbitrary function.
-/

namespace Padasip

variable {K : Type} {n : Nat}

/-- A method `learning_rule(self, e, x)` (base_filter.py l. 43-57) of a subclass: it may read all attributes, assign `self.mu` and the attributes of the subclass, raise, and return
an array of any length.  Simplification: it does not assign `self.w` and `self.n` (none of the library does), and raises one of the modelled exceptions. -/
abbrev CustomRule (K : Type) (n : Nat) (X : Type) := Core K n X → K → List K → Except Err (List K) × (K × X)

/-- the call `self.learning_rule(e, x)` -/
def callRule {X : Type} (rule : CustomRule K n X) (e : K) (x : List K) : M (Core K n X) (List K) := fun s =>
  ((rule s e x).1, { s with mu := (rule s e x).2.1, ext := (rule s e x).2.2 })

variable [Scalar K]

/-- `self.w += dw`, base_filter.py l. 166 and 210 (in place: `dw` is broadcast to the length of `self.w`, otherwise `ValueError`). -/
def addWeights {X : Type} (dw : List K) : M (Core K n X) Unit := do
  let v ← M.lift (bcastVec n dw)
  M.modify fun s => { s with w := fun i => s.w i + v i }

/-- `AdaptiveFilter.adapt`, base_filter.py l. 154-166, in a subclass with the given `learning_rule`. -/
def customAdapt {X : Type} (rule : CustomRule K n X) (d : K) (x : List K) : M (Core K n X) Unit := do
  let y ← basePredict x
  let e := d - y
  let dw ← callRule rule e x
  addWeights dw

/-- Body of the loop of `AdaptiveFilter.run`, base_filter.py l. 208-210, in a subclass with the given `learning_rule`. -/
def customBody {X : Type} (rule : CustomRule K n X) (d : K) (x : List K) : M (Core K n X) (K × K) := do
  let y ← basePredict x
  let e := d - y
  let dw ← callRule rule e x
  addWeights dw
  pure (y, e)

/-- `class MyFilter(AdaptiveFilter)` with its own `learning_rule` -/
def custom {X : Type} (rule : CustomRule K n X) : FilterClass K n where
  Ext := X
  predict := basePredict
  adapt := customAdapt rule
  body := customBody rule

/-- `AdaptiveFilter.learning_rule` itself, base_filter.py l. 57: `np.zeros(len(x))`. -/
def zeroRule {X : Type} : CustomRule K n X := fun s _ x => (.ok (List.replicate x.length 0), (s.mu, s.ext))

/-! ## `AdaptiveFilterAP` -/

/-- Attributes of a subclass of `AdaptiveFilterAP`: those of l. 231-237 and its own. -/
structure CustomApExt (K : Type) (n order : Nat) (X : Type) where
  ap : ApExt K n order
  own : X

/-- A method `learning_rule(self, e_mem, x_mem)` (base_filter.py l. 239-253) of a subclass of `AdaptiveFilterAP`; as `CustomRule`, it does not assign the memories. -/
abbrev CustomApRule (K : Type) (n order : Nat) (X : Type) :=
  Core K n (CustomApExt K n order X) → Vec K order → Mat K n order → Except Err (List K) × (K × X)

variable {order : Nat}

/-- A statement on the attributes of `AdaptiveFilterAP`, in an object that has further attributes. -/
def onAp {X α : Type} (m : M (Core K n (ApExt K n order)) α) : M (Core K n (CustomApExt K n order X)) α := fun s =>
  let r := m ⟨s.w, s.nAttr, s.mu, s.ext.ap⟩
  (r.1, ⟨r.2.w, r.2.nAttr, r.2.mu, ⟨r.2.ext, s.ext.own⟩⟩)

/-- the call `self.learning_rule(self.e_mem, self.x_mem)`, base_filter.py l. 331 -/
def callApRule {X : Type} (rule : CustomApRule K n order X) : M (Core K n (CustomApExt K n order X)) (List K) := fun s =>
  ((rule s s.ext.ap.eMem s.ext.ap.xMem).1,
    { s with mu := (rule s s.ext.ap.eMem s.ext.ap.xMem).2.1, ext := { s.ext with own := (rule s s.ext.ap.eMem s.ext.ap.xMem).2.2 } })

/-- Loop body of `AdaptiveFilterAP.run`, base_filter.py l. 320-331, in a subclass (order at least 1). -/
def customApBody {X : Type} (rule : CustomApRule K n order X) (h : 0 < order) (d : K) (x : List K) : M (Core K n (CustomApExt K n order X)) (K × K) := do
  onAp (apPush d x)
  onAp apErr
  let s ← M.get
  let y := s.ext.ap.yMem ⟨0, h⟩
  let e := s.ext.ap.eMem ⟨0, h⟩
  let dw ← callApRule rule
  addWeights dw
  pure (y, e)

/-- `class MyFilter(AdaptiveFilterAP)` with its own `learning_rule`; `adapt` (base_filter.py l. 255-277) does not call it. -/
def customAp {X : Type} (solve : Solver K) (rule : CustomApRule K n order X) (h : 0 < order) : FilterClass K n where
  Ext := CustomApExt K n order X
  predict := basePredict
  adapt := fun d x => onAp (apAdapt solve d x)
  body := customApBody rule h

/-- `AdaptiveFilterAP.learning_rule` itself, base_filter.py l. 253: `np.zeros(len(x_mem))`. -/
def zeroApRule {X : Type} : CustomApRule K n order X := fun s _ _ => (.ok (List.replicate n 0), (s.mu, s.ext.own))

end Padasip
