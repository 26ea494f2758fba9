import Verif.Spec.Ready
import Verif.Spec.Solve
import Verif.Model.Real

/-!
# Concrete objects used by the examples that accompany the theorems
-/

namespace Padasip

/-- exact real arithmetic, a solver meeting the contract, "random" weights all `1/2` -/
noncomputable def exEnv : Env ℝ := { rand := fun _ _ => 1 / 2, solve := exactSolve }

/-- A transcendental interface on `ℚ` with arbitrary (wrong) transcendental functions, so that witnesses about the other filters
can be computed by the kernel. -/
instance ratTransc : Transc ℚ where
  toScalar := fieldScalar
  exp := id
  tanh := id
  sqrt := id
  log10 := id
  pow a _ := a

/-- a solver on `ℚ` for order 1 only (for computed witnesses) -/
def ratSolve : Solver ℚ := fun _ A B =>
  if ∀ i, A i i ≠ 0 then .ok fun i j => B i j / A i i else .error .linAlgError

/-- equality of outcomes can be computed -/
instance exceptDec {α : Type} [DecidableEq α] : DecidableEq (Except Err α) := fun a b =>
  match a, b with
  | .ok a, .ok b => if h : a = b then .isTrue (by rw [h]) else .isFalse (by simpa using h)
  | .error a, .error b => if h : a = b then .isTrue (by rw [h]) else .isFalse (by simpa using h)
  | .ok _, .error _ => .isFalse (by simp)
  | .error _, .ok _ => .isFalse (by simp)

/-- a fresh OCNLMS filter of size 1: `FilterOCNLMS(1, mu=1, eps=1, mem=mem, w="zeros")` -/
def ocFresh (mem : ℕ) : Obj (ocnlms ℚ 1) :=
  ⟨⟨fun _ => 0, 1, 1, ocClear mem ⟨1, true, [], [], 0⟩⟩, []⟩

/-- rational environment for computed witnesses -/
def ratEnv : Env ℚ := { rand := fun _ _ => 1 / 2, solve := ratSolve }

end Padasip
