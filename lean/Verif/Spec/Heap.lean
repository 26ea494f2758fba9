import Verif.Model.Heap
import Verif.Model.Factory

/-!
# Specification for aliasing: what a caller would see if every argument were copied at the time of the call
-/

namespace Padasip

variable {K : Type} {n : Nat}

/-- a method call with its arguments **as values** -/
inductive VCall (K : Type) where
  | adapt (d : K) (x : List K)
  | predict (x : List K)
  | run (d : List K) (x : List (List K))

/-- the value a call returns -/
inductive VRes (K : Type) where
  | unit
  | val (a : K)
  | arrays (y e : List K) (h : List (List K))

/-- the call in the value model of `Model/Base.lean` -/
def VCall.replay [Scalar K] (C : FilterClass K n) : VCall K → Core K n C.Ext → Except Err (VRes K) × Core K n C.Ext
  | .adapt d x, c => match C.adapt d x c with
    | (.ok _, c') => (.ok .unit, c')
    | (.error e, c') => (.error e, c')
  | .predict x, c => match C.predict x c with
    | (.ok a, c') => (.ok (.val a), c')
    | (.error e, c') => (.error e, c')
  | .run d x, c => match Padasip.run C d x ⟨c, []⟩ with
    | (.ok (y, e, h), o) => (.ok (.arrays y e h), o.core)
    | (.error e, o) => (.error e, o.core)

/-- a sequence of calls, with the results -/
def replayAll [Scalar K] (C : FilterClass K n) : List (VCall K) → Core K n C.Ext → List (Except Err (VRes K)) × Core K n C.Ext
  | [], c => ([], c)
  | q :: t, c =>
    let (r, c1) := q.replay C c
    let (rs, c2) := replayAll C t c1
    (r :: rs, c2)

section
variable {C : FilterClass K n}

/-- the arguments of a statement, copied now -/
def callOf (h : Heap K) : Op K → Option (VCall K)
  | .adapt d x => some (.adapt d (h.cell x))
  | .predict x => some (.predict (h.cell x))
  | .run d x => some (.run (h.cell d) (x.map h.cell))
  | .alloc _ => none
  | .store _ _ _ => none

/-- the contents of what was returned, read now -/
def valueOf (h : Heap K) : Except Err (Out K) → Except Err (VRes K)
  | .error e => .error e
  | .ok (.val a) => .ok (.val a)
  | .ok (.arrays y e hb N) => .ok (.arrays (h.cell y) (h.cell e) ((List.range N).map fun k => h.cell (hb + k)))
  | .ok _ => .ok .unit

variable [Scalar K]

/-- the method calls of a program, with copies of their arguments -/
def callsOf (kp : Option (Keep C)) : List (Op K) → HState C → List (VCall K)
  | [], _ => []
  | op :: t, s => (callOf s.heap op).toList ++ callsOf kp t (s.step kp op).2

/-- the results of the method calls of a program, read when they are returned -/
def resultsOf (kp : Option (Keep C)) : List (Op K) → HState C → List (Except Err (VRes K))
  | [], _ => []
  | op :: t, s =>
    (match callOf s.heap op with
      | none => []
      | some _ => [valueOf (s.step kp op).2.heap (s.step kp op).1]) ++ resultsOf kp t (s.step kp op).2

/-- The caller does not store into the filter's weight array, nor into the array it passed to the last successful `adapt` (if the class keeps that array);
it passes existing arrays other than the filter's own weight array to `adapt`. -/
def SafeOp (kp : Option (Keep C)) (s : HState C) : Op K → Prop
  | .store r _ _ => r ≠ s.f.w ∧ (kp.isSome → r ≠ s.f.lastX)
  | .adapt _ x => x ≠ s.f.w ∧ x < s.heap.next
  | _ => True

/-- every statement of the program is safe at the time it is executed -/
def SafeAll (kp : Option (Keep C)) : List (Op K) → HState C → Prop
  | [], _ => True
  | op :: t, s => SafeOp kp s op ∧ SafeAll kp t (s.step kp op).2

/-- the references of a filter object are allocated, distinct, and have the size of the filter (established by the constructor) -/
structure HState.WF (kp : Option (Keep C)) (s : HState C) : Prop where
  w_lt : s.f.w < s.heap.next
  x_lt : s.f.lastX < s.heap.next
  ne : s.f.lastX ≠ s.f.w
  w_len : (s.heap.cell s.f.w).length = n
  x_len : kp.isSome → (s.heap.cell s.f.lastX).length = n

end

/-- the classes that keep `last_x`, and how -/
def keepOf [Transc K] (solve : Solver K) : (k : Kind) → Option (Keep (classOf (n := n) solve k))
  | .gngd => some keepGngd
  | .mathews => some keepMathews
  | .ang => some keepAng
  | .benveniste => some keepBen
  | .lms => none
  | .lmf => none
  | .sslms => none
  | .nlms => none
  | .nlmf => none
  | .nsslms => none
  | .gmcc => none
  | .llncosh => none
  | .rls => none
  | .ocnlms => none
  | .ap _ => none

end Padasip
