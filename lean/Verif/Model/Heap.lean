import Verif.Model.Filters

/-!
# References: which array objects a filter keeps, reads and writes

The other files treat arrays as values.  Here arrays are cells of a heap, and the model records *which array object* is stored where:

* `self.w` is one array object for the life of the filter, updated in place (`self.w += ...`, base_filter.py l. 166, 210);
* GNGD and the VSLMS filters store **the array object passed by the caller** as `self.last_x` (gngd.py l. 93, vslms_*.py `..., x, ...`);
* `init_weights` (l. 94), `run` (`np.array(x)`, l. 196-197) and the AP/OC-NLMS memories copy.

Simplifications: one statement sequence between two method calls is atomic (the library has no concurrency), so a method is "load the attributes from
the heap, do what the value model does, store"; attributes that never leave the filter (`R`, `x_mem`, `mem_x`, ...) stay values; a 2-d array is a
block of consecutive cells, one per row.
-/

namespace Padasip

variable {K : Type} {n : Nat}

/-- an array object is named by its address -/
macro "Ref" : term => `(Nat)

/-- All array objects: their contents, and the next free reference. -/
structure Heap (K : Type) where
  cell : Ref → List K
  next : Ref

/-- overwrite the contents of an array object -/
def Heap.put (h : Heap K) (r : Ref) (l : List K) : Heap K := { h with cell := Function.update h.cell r l }

/-- a new array object; its reference is the old `next` -/
def Heap.alloc (h : Heap K) (l : List K) : Heap K := { cell := Function.update h.cell h.next l, next := h.next + 1 }

/-- a new 2-d array: consecutive references starting at the old `next` -/
def Heap.allocRows (h : Heap K) : List (List K) → Heap K
  | [] => h
  | r :: t => (h.alloc r).allocRows t

/-- The attribute `last_x` of a class that keeps one (gngd.py l. 83, vslms_mathews.py l. 88, vslms_ang.py l. 92, vslms_benveniste.py l. 88). -/
structure Keep (C : FilterClass K n) where
  get : C.Ext → Vec K n
  set : C.Ext → Vec K n → C.Ext

/-- A filter object: `self.w` and `self.last_x` as references, the other attributes as values (the copies of `w` and `last_x` inside `core` are
stale and never read). -/
structure HFilter (C : FilterClass K n) where
  w : Ref
  lastX : Ref
  core : Core K n C.Ext

/-- the heap together with a filter object -/
structure HState (C : FilterClass K n) where
  heap : Heap K
  f : HFilter C

section
variable [Scalar K]

/-- contents of an array of length `n` -/
def toVec (l : List K) : Vec K n := fun i => l.getD i.val 0

variable {C : FilterClass K n}

/-- the attributes of the filter as they are read through the references -/
def HState.load (kp : Option (Keep C)) (s : HState C) : Core K n C.Ext :=
  { s.f.core with
    w := toVec (s.heap.cell s.f.w)
    ext := match kp with
      | none => s.f.core.ext
      | some k => k.set s.f.core.ext (toVec (s.heap.cell s.f.lastX)) }

/-- A method call with the input array object `x`: in-place update of `self.w`; a class that keeps `last_x` now refers to `x` itself (gngd.py l. 93;
an exception is raised before that assignment). -/
def HState.call {α : Type} (kp : Option (Keep C)) (m : M (Core K n C.Ext) α) (x : Ref) (s : HState C) : Except Err α × HState C :=
  match m (s.load kp) with
  | (.ok a, c) => (.ok a, { heap := s.heap.put s.f.w (List.ofFn c.w), f := { s.f with core := c, lastX := x } })
  | (.error e, c) => (.error e, { heap := s.heap.put s.f.w (List.ofFn c.w), f := { s.f with core := c } })

/-- `adapt(d, x)`, base_filter.py l. 154-166, 255-277 -/
def HState.adapt (kp : Option (Keep C)) (d : K) (x : Ref) (s : HState C) : Except Err Unit × HState C :=
  s.call kp (C.adapt d (s.heap.cell x)) x

/-- `predict(x)`, base_filter.py l. 101-114; keeps no reference -/
def HState.predict (kp : Option (Keep C)) (x : Ref) (s : HState C) : Except Err K × HState C :=
  s.call kp (C.predict (s.heap.cell x)) s.f.lastX

/-- The loop of `run`, base_filter.py l. 206-210, 318-331: the rows of the copied input start at `xb`, the rows of `w_history` at `hb`. -/
def HState.loop (kp : Option (Keep C)) (xb hb : Ref) : Nat → List K → HState C → Except Err (List K × List K) × HState C
  | _, [], s => (.ok ([], []), s)
  | k, d :: t, s =>
    match bcast s.f.core.nAttr (s.heap.cell s.f.w) with
    | .error e => (.error e, s)
    | .ok row =>
      let s1 : HState C := { s with heap := s.heap.put (hb + k) row }
      match s1.call kp (C.body d (s1.heap.cell (xb + k))) (xb + k) with
      | (.error e, s2) => (.error e, s2)
      | (.ok (y, e), s2) =>
        match s2.loop kp xb hb (k + 1) t with
        | (.error er, s3) => (.error er, s3)
        | (.ok (ys, es), s3) => (.ok (y :: ys, e :: es), s3)

/-- `run(d, x)`, base_filter.py l. 168-211, 279-332; `x` is the list of its row arrays.  Returned: the references of `y`, `e` and of the first row of
`w_history`, and the number of rows. -/
def HState.run (kp : Option (Keep C)) (d : Ref) (x : List Ref) (s : HState C) : Except Err (Ref × Ref × Ref × Nat) × HState C :=
  let dv := s.heap.cell d
  let xv := x.map s.heap.cell
  if dv.length ≠ xv.length then (.error .valueError, s)
  else match xv with
    | [] => (.error .indexError, s)
    | x0 :: _ =>
      let s1 : HState C := { s with f := { s.f with core := s.f.core.withN x0.length } }
      if xv.any (fun r => decide (r.length ≠ x0.length)) then (.error .valueError, s1)
      else
        let xb := s1.heap.next
        let h1 := s1.heap.allocRows xv
        let hb := h1.next
        let h2 := h1.allocRows (List.replicate xv.length (List.replicate x0.length 0))
        match HState.loop kp xb hb 0 dv { s1 with heap := h2 } with
        | (.error e, s3) => (.error e, s3)
        | (.ok (ys, es), s3) =>
          let h3 := s3.heap.alloc ys
          let h4 := h3.alloc es
          (.ok (s3.heap.next, h3.next, hb, xv.length), { s3 with heap := h4 })

/-- The constructor with an array `w` of the caller (`init_weights`, base_filter.py l. 92-94, copies it) and the attributes `core` (l. 36-41 and the
subclass): a new array for the weights, a new array of zeros for `last_x`. -/
def HState.new (h : Heap K) (wArg : Ref) (core : Core K n C.Ext) : HState C :=
  let h1 := h.alloc (h.cell wArg)
  { heap := h1.alloc (List.replicate n 0), f := { w := h.next, lastX := h1.next, core := core } }

/-! ## Everything a caller can do -/

/-- Statements of the calling program: create an array, store one element of an array in place, call a method. -/
inductive Op (K : Type) where
  | alloc (l : List K)
  | store (r : Ref) (i : Nat) (a : K)
  | adapt (d : K) (x : Ref)
  | predict (x : Ref)
  | run (d : Ref) (x : List Ref)

/-- what a statement returns -/
inductive Out (K : Type) where
  | unit
  | ref (r : Ref)
  | val (a : K)
  | arrays (y e h : Ref) (rows : Nat)

/-- one statement of the calling program -/
def HState.step (kp : Option (Keep C)) : Op K → HState C → Except Err (Out K) × HState C
  | .alloc l, s => (.ok (.ref s.heap.next), { s with heap := s.heap.alloc l })
  | .store r i a, s => (.ok .unit, { s with heap := s.heap.put r ((s.heap.cell r).set i a) })
  | .adapt d x, s => match s.adapt kp d x with
    | (.ok _, s') => (.ok .unit, s')
    | (.error e, s') => (.error e, s')
  | .predict x, s => match s.predict kp x with
    | (.ok a, s') => (.ok (.val a), s')
    | (.error e, s') => (.error e, s')
  | .run d x, s => match s.run kp d x with
    | (.ok (y, e, h, N), s') => (.ok (.arrays y e h N), s')
    | (.error e, s') => (.error e, s')

/-- a calling program (it may catch exceptions and go on) -/
def HState.exec (kp : Option (Keep C)) : List (Op K) → HState C → HState C
  | [], s => s
  | op :: t, s => (s.step kp op).2.exec kp t

end

/-- `last_x` of GNGD, gngd.py l. 83, 93 -/
def keepGngd [Scalar K] : Keep (gngd K n) where
  get := fun (q : GngdExt K n) => q.lastX
  set := fun (q : GngdExt K n) v => ({ q with lastX := v } : GngdExt K n)
/-- `last_x` of VSLMS (Mathews), vslms_mathews.py l. 88, 96 -/
def keepMathews [Scalar K] : Keep (mathews K n) where
  get := fun (q : MathewsExt K n) => q.lastX
  set := fun (q : MathewsExt K n) v => ({ q with lastX := v } : MathewsExt K n)
/-- `last_x` of VSLMS (Ang), vslms_ang.py l. 92, 102 -/
def keepAng [Scalar K] : Keep (ang K n) where
  get := fun (q : AngExt K n) => q.lastX
  set := fun (q : AngExt K n) v => ({ q with lastX := v } : AngExt K n)
/-- `last_x` of VSLMS (Benveniste), vslms_benveniste.py l. 88, 99 -/
def keepBen [Scalar K] : Keep (benveniste K n) where
  get := fun (q : BenExt K n) => q.lastX
  set := fun (q : BenExt K n) v => ({ q with lastX := v } : BenExt K n)

end Padasip
