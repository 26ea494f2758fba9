import Verif.Model.Filters
import Mathlib.LinearAlgebra.Matrix.NonsingularInverse

/-!
# Contract of `np.linalg.solve` (exact arithmetic)
-/

namespace Padasip

variable {K : Type} [Field K] [LinearOrder K]

/-- `np.linalg.solve(A, B)` returns the solution of `A X = B` when `A` is invertible and raises `LinAlgError` otherwise. -/
structure SolveSpec (solve : Solver K) : Prop where
  regular : ∀ (m : ℕ) (A B : Mat K m m), (Matrix.of A).det ≠ 0 →
    ∃ X, solve m A B = .ok X ∧ matMul A X = B
  singular : ∀ (m : ℕ) (A B : Mat K m m), (Matrix.of A).det = 0 →
    solve m A B = .error .linAlgError

open Classical in
/-- A solver meeting the contract (used only to show that the contract can be met). -/
noncomputable def exactSolve : Solver K := fun _ A B =>
  if (Matrix.of A).det ≠ 0 then .ok ((Matrix.of A)⁻¹ * Matrix.of B) else .error .linAlgError

theorem exactSolve_spec : SolveSpec (exactSolve (K := K)) := by
  constructor
  · intro m A B h
    refine ⟨((Matrix.of A)⁻¹ * Matrix.of B : Matrix (Fin m) (Fin m) K), by simp [exactSolve, h], ?_⟩
    have : Matrix.of A * ((Matrix.of A)⁻¹ * Matrix.of B) = Matrix.of B := by
      rw [← mul_assoc, Matrix.mul_nonsing_inv _ (isUnit_iff_ne_zero.mpr h), one_mul]
    funext i j
    have h2 := congrFun (congrFun this i) j
    rw [Matrix.mul_apply] at h2
    exact (List.sum_ofFn).trans h2
  · intro m A B h
    simp [exactSolve, h]

end Padasip
