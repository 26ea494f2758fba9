import Verif.Lemmas.Field
import Verif.Spec.Solve
import Mathlib.LinearAlgebra.Matrix.ToLinearEquiv

/-! # `X^T X + ifc I` is positive definite for `ifc > 0` -/

set_option linter.unusedSectionVars false

namespace Padasip

open Finset

variable {K : Type} [Field K] [LinearOrder K] [IsStrictOrderedRing K] {n m : ℕ}

theorem eye_mulVec (v : Vec K m) (a : Fin m) : ∑ b, (eye m a b : K) * v b = v a := by
  simp [eye]

/-- the quadratic form of the Gram matrix -/
theorem gram_quad (c : K) (X : Mat K n m) (v : Vec K m) :
    ∑ a, v a * ∑ b, apGram c X a b * v b
      = dot (fun i => dot (X i) v) (fun i => dot (X i) v) + c * dot v v := by
  have h1 : ∀ a, ∑ b, apGram c X a b * v b
      = (∑ i, X i a * dot (X i) v) + c * v a := by
    intro a
    simp only [apGram, dot_eq, add_mul, sum_add_distrib]
    congr 1
    · simp only [sum_mul, mul_sum]
      rw [sum_comm]
      exact sum_congr rfl fun i _ => sum_congr rfl fun b _ => by ring
    · have := eye_mulVec v a
      calc ∑ b, c * eye m a b * v b = c * ∑ b, eye m a b * v b := by
            rw [mul_sum]; exact sum_congr rfl fun b _ => by ring
        _ = c * v a := by rw [this]
  simp only [h1, mul_add, sum_add_distrib]
  congr 1
  · rw [dot_eq]
    simp only [mul_sum]
    rw [sum_comm]
    refine sum_congr rfl fun i _ => ?_
    rw [dot_eq, mul_sum]
    refine sum_congr rfl fun a _ => by ring
  · rw [dot_eq, mul_sum]
    exact sum_congr rfl fun a _ => by ring

theorem gram_det_ne_zero {c : K} (hc : 0 < c) (X : Mat K n m) :
    (Matrix.of (apGram c X)).det ≠ 0 := by
  intro h0
  obtain ⟨v, hv, hv0⟩ := Matrix.exists_mulVec_eq_zero_iff.mpr h0
  apply hv
  have h1 : ∀ a, ∑ b, apGram c X a b * v b = 0 := fun a => by
    have := congrFun hv0 a
    simpa [Matrix.mulVec, dotProduct] using this
  have h2 := gram_quad c X v
  simp only [h1, mul_zero, sum_const_zero] at h2
  have h3 := dot_self_nonneg (fun i => dot (X i) v)
  have h4 := dot_self_nonneg v
  have h5 : dot v v = 0 := by
    have : c * dot v v ≤ 0 := by linarith
    have : dot v v ≤ 0 := by
      by_contra hcon
      have := mul_pos hc (not_le.mp hcon)
      linarith
    exact le_antisymm this h4
  funext a
  exact dot_self_eq_zero.mp h5 a

theorem gram_solvable {solve : Solver K} (hs : SolveSpec solve) {c : K} (hc : 0 < c) (X : Mat K n m) :
    ∃ P, solve m (apGram c X) (eye m) = .ok P ∧ matMul (apGram c X) P = eye m :=
  hs.regular _ _ _ (gram_det_ne_zero hc X)

end Padasip
