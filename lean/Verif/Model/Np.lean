import Mathlib.Algebra.Order.Field.Basic
import Mathlib.Algebra.BigOperators.Fin
import Mathlib.Data.List.OfFn

/-!
# The numpy / Python layer used by the model

Lawless scalars, arrays of static size, run-time shape checks, and a state monad in which an
exception keeps the attributes already assigned (as in Python).
-/

namespace Padasip

/-- The Python exceptions raised (directly, or by numpy) in the modelled code.
`base_filter.py` l. 91, 96, 98, 193, 200, 305, 312 (`ValueError`), `ocnlms.py`/empty data (`IndexError`),
missing or unknown keyword (`TypeError`), `pca.py` l. 119 / `lda.py` l. 162 (`AssertionError`),
`rls.py` l. 177, 185 (`ZeroDivisionError`), `np.linalg` (`LinAlgError`), `int(inf)` (`OverflowError`). -/
inductive Err where
  | valueError | indexError | typeError | assertionError | zeroDivisionError | linAlgError
  | overflowError
  deriving DecidableEq, Repr

/-- Numbers as the code uses them: the operations of a Python/numpy float, with **no laws**.
Every structural theorem is stated over an arbitrary `Scalar`, hence also holds for IEEE doubles.
Simplification: `e ** 2`, `e ** 3` are written as products. -/
class Scalar (K : Type) extends Zero K, One K, Add K, Sub K, Neg K, Mul K, Div K where
  /-- `np.abs` -/
  abs : K → K
  /-- `np.sign` -/
  sgn : K → K
  /-- `a < b` -/
  lt : K → K → Bool
  /-- `float(n)` for a size `n` -/
  nat : Nat → K
  /-- `a == 0` (decides Python's `ZeroDivisionError`) -/
  eqz : K → Bool
  /-- `a != a` (decides how `np.max` and `np.sort` treat `a`); exact arithmetic has no NaN -/
  isnan : K → Bool := fun _ => false

/-- Transcendental functions of numpy used by the code: `np.exp` (`gmcc.py` l. 83, `mlp.py` l. 140, 144),
`np.tanh` (`llncosh.py` l. 94), `np.sqrt` (`error_evaluation.py` l. 219), `np.log10` (l. 149), `**` (`gmcc.py` l. 83-84). -/
class Transc (K : Type) extends Scalar K where
  exp : K → K
  tanh : K → K
  sqrt : K → K
  log10 : K → K
  pow : K → K → K

/-- Exact arithmetic in any linearly ordered field is a `Scalar` (used at `ℚ` for computed witnesses and at `ℝ`).
Division by zero is totalised to `0` here, *unlike* numpy (`nan`/`inf`): theorems that use this instance carry
hypotheses excluding it. -/
instance fieldScalar {K : Type} [Field K] [LinearOrder K] : Scalar K where
  abs a := |a|
  sgn a := if 0 < a then 1 else if a < 0 then -1 else 0
  lt a b := decide (a < b)
  nat n := (n : K)
  eqz a := decide (a = 0)

/-! ## Arrays -/

/-- A 1-d numpy array of length `n`. -/
abbrev Vec (K : Type) (n : Nat) := Fin n → K

/-- A 2-d numpy array of shape `(n, m)`. -/
abbrev Mat (K : Type) (n m : Nat) := Fin n → Fin m → K

section ops
variable {K : Type} [Scalar K] {n m p : Nat}

/-- `np.sum` of a 1-d array. Simplification: one fixed order of summation (numpy uses pairwise/BLAS orders,
which differ only by rounding). -/
def vsum (f : Vec K n) : K := (List.ofFn f).sum

/-- `np.dot(u, v)` of two 1-d arrays. -/
def dot (u v : Vec K n) : K := vsum fun i => u i * v i

/-- `np.dot(A, v)` / `A @ v`. -/
def matVec (A : Mat K n m) (v : Vec K m) : Vec K n := fun i => dot (A i) v

/-- `np.dot(v, A)`. -/
def vecMat (v : Vec K n) (A : Mat K n m) : Vec K m := fun j => vsum fun i => v i * A i j

/-- `A @ B`. -/
def matMul (A : Mat K n m) (B : Mat K m p) : Mat K n p := fun i j => vsum fun k => A i k * B k j

/-- `np.outer(u, v)`, also `u[:, None] * v[None, :]`. -/
def outer (u : Vec K n) (v : Vec K m) : Mat K n m := fun i j => u i * v j

/-- `np.identity(n)` / `np.eye(n)`. -/
def eye (n : Nat) : Mat K n n := fun i j => if i = j then 1 else 0

/-- `np.zeros(n)`. -/
def zeros (n : Nat) : Vec K n := fun _ => 0

/-- `np.mean` of a list of numbers (`sum / len`). -/
def meanL (l : List K) : K := l.sum / Scalar.nat l.length

end ops

/-! ## Run-time shapes -/

/-- An array argument of run-time length where numpy requires length exactly `n`
(e.g. `np.dot(self.w, x)`, base_filter.py l. 114): otherwise `ValueError`. -/
def asVec {K : Type} (n : Nat) (x : List K) : Except Err (Vec K n) :=
  if h : x.length = n then .ok fun i => x[i.val]'(h ▸ i.isLt) else .error .valueError

/-- numpy broadcasting of a 1-d array of run-time length to length `n`: equal length, or length 1
(e.g. `self.x_mem[:, 0] = x`, base_filter.py l. 267; `self.w_history[k, :] = self.w`, l. 207). -/
def bcast {K : Type} (n : Nat) (x : List K) : Except Err (List K) :=
  if x.length = n then .ok x
  else match x with
    | [a] => .ok (List.replicate n a)
    | _ => .error .valueError

/-- `bcast` followed by the (then certain) length. -/
def bcastVec {K : Type} (n : Nat) (x : List K) : Except Err (Vec K n) :=
  (bcast n x).bind (asVec n)

/-- `x - y` of two 1-d arrays of run-time length with numpy broadcasting (used in ocnlms.py l. 103, 105, 122). -/
def bsub {K : Type} [Scalar K] (x y : List K) : Except Err (List K) :=
  if x.length = y.length then .ok (List.zipWith (· - ·) x y)
  else match x, y with
    | x, [b] => .ok (x.map (· - b))
    | [a], y => .ok (y.map (a - ·))
    | _, _ => .error .valueError

/-- Python slice `l[:i]` for an integer `i` (negative counts from the end). -/
def pySliceTo {α : Type} (l : List α) (i : Int) : List α :=
  if 0 ≤ i then l.take i.toNat else l.take (l.length - (-i).toNat)

/-- Python slice `l[i:]` for an integer `i`. -/
def pySliceFrom {α : Type} (l : List α) (i : Int) : List α :=
  if 0 ≤ i then l.drop i.toNat else l.drop (l.length - (-i).toNat)

/-! ## Methods: state + exceptions, without roll-back -/

/-- A Python method on objects with attributes `S`: the new attributes are returned even when an exception is raised. -/
def M (S α : Type) : Type := S → Except Err α × S

namespace M
variable {S α β : Type}

/-- Sequencing: an exception stops the method but keeps the attributes assigned so far. -/
def bind' (m : M S α) (f : α → M S β) : M S β := fun s =>
  match m s with
  | (.ok a, s') => f a s'
  | (.error e, s') => (.error e, s')

instance : Monad (M S) where
  pure a := fun s => (.ok a, s)
  bind := bind'

/-- `raise` -/
def raise (e : Err) : M S α := fun s => (.error e, s)
/-- read all attributes -/
def get : M S S := fun s => (.ok s, s)
/-- assign attributes -/
def modify (f : S → S) : M S Unit := fun s => (.ok (), f s)
/-- a side-effect free computation that may raise -/
def lift (x : Except Err α) : M S α := fun s => (x, s)

@[simp] theorem pure_apply (a : α) (s : S) : (Pure.pure a : M S α) s = (.ok a, s) := rfl
theorem bind_apply (m : M S α) (f : α → M S β) (s : S) :
    (m >>= f) s = match m s with
      | (.ok a, s') => f a s'
      | (.error e, s') => (.error e, s') := rfl
theorem bind_ok {m : M S α} {f : α → M S β} {s s' : S} {a : α} (h : m s = (.ok a, s')) :
    (m >>= f) s = f a s' := by rw [bind_apply, h]
theorem bind_error {m : M S α} {f : α → M S β} {s s' : S} {e : Err} (h : m s = (.error e, s')) :
    (m >>= f) s = (.error e, s') := by rw [bind_apply, h]
@[simp] theorem bind_assoc' {γ : Type} (m : M S α) (f : α → M S β) (g : β → M S γ) :
    (m >>= f) >>= g = m >>= fun a => f a >>= g := by
  funext s
  show bind' (bind' m f) g s = bind' m (fun a => bind' (f a) g) s
  unfold bind'
  rcases h : m s with ⟨_ | _, _⟩ <;> simp only
@[simp] theorem raise_apply (e : Err) (s : S) : (raise e : M S α) s = (.error e, s) := rfl
@[simp] theorem get_apply (s : S) : (get : M S S) s = (.ok s, s) := rfl
@[simp] theorem modify_apply (f : S → S) (s : S) : (modify f) s = (.ok (), f s) := rfl
@[simp] theorem lift_apply (x : Except Err α) (s : S) : (lift x : M S α) s = (x, s) := rfl
@[simp] theorem get_bind (f : S → M S β) (s : S) : (get >>= f) s = f s s := rfl
@[simp] theorem modify_bind (g : S → S) (f : Unit → M S β) (s : S) :
    (modify g >>= f) s = f () (g s) := rfl
@[simp] theorem pure_bind_apply (a : α) (f : α → M S β) (s : S) :
    ((Pure.pure a : M S α) >>= f) s = f a s := rfl
@[simp] theorem raise_bind (e : Err) (f : α → M S β) (s : S) :
    ((raise e : M S α) >>= f) s = (.error e, s) := rfl
@[simp] theorem lift_ok_bind (a : α) (f : α → M S β) (s : S) :
    ((lift (.ok a) : M S α) >>= f) s = f a s := rfl
@[simp] theorem lift_error_bind (e : Err) (f : α → M S β) (s : S) :
    ((lift (.error e) : M S α) >>= f) s = (.error e, s) := rfl

end M

/-- Outcome of a method call without the state. -/
abbrev Res (α : Type) := Except Err α

end Padasip
