import Verif.Props.Stability
import Mathlib.Data.Matrix.Mul
import Mathlib.LinearAlgebra.Matrix.NonsingularInverse
import Mathlib.LinearAlgebra.Matrix.Symmetric

/-!
# C24-C26: RLS is exact exponentially weighted least squares

`rlsCorr mu eps x k` is the regularised, exponentially weighted autocorrelation matrix of the first `k` inputs.
-/

set_option linter.unusedSectionVars false

namespace Padasip

open Finset Matrix

variable {K : Type} [Field K] [LinearOrder K] [IsStrictOrderedRing K] {n : ℕ}

/-- `mu^k eps I + sum_{m<k} mu^(k-1-m) x(m) x(m)^T` -/
def rlsCorr (mu eps : K) (x : ℕ → Vec K n) (k : ℕ) (i j : Fin n) : K :=
  mu ^ k * eps * (if i = j then 1 else 0) + ∑ m ∈ range k, mu ^ (k - 1 - m) * x m i * x m j

/-- the cost `sum_{m<k} mu^(k-1-m) (d(m) - <w,x(m)>)^2 + mu^k eps |w - w0|^2` -/
def rlsCost (mu eps : K) (d : ℕ → K) (x : ℕ → Vec K n) (w0 : Vec K n) (k : ℕ) (w : Vec K n) : K :=
  (∑ m ∈ range k, mu ^ (k - 1 - m) * (d m - ∑ i, w i * x m i) ^ 2)
    + mu ^ k * eps * ∑ i, (w i - w0 i) ^ 2

/-! ## lemmas -/

theorem rlsCorr_succ (mu eps : K) (x : ℕ → Vec K n) (k : ℕ) (i j : Fin n) :
    rlsCorr mu eps x (k + 1) i j = mu * rlsCorr mu eps x k i j + x k i * x k j := by
  unfold rlsCorr
  rw [sum_range_succ, mul_add, mul_sum]
  have : ∀ m ∈ range k, mu ^ (k + 1 - 1 - m) * x m i * x m j
      = mu * (mu ^ (k - 1 - m) * x m i * x m j) := by
    intro m hm
    have hm := mem_range.mp hm
    have : k + 1 - 1 - m = (k - 1 - m) + 1 := by omega
    rw [this, pow_succ]; ring
  rw [sum_congr rfl this]
  simp only [Nat.add_sub_cancel, Nat.sub_self, pow_zero, one_mul, pow_succ]
  ring

theorem rlsCorr_symm (mu eps : K) (x : ℕ → Vec K n) (k : ℕ) (i j : Fin n) :
    rlsCorr mu eps x k i j = rlsCorr mu eps x k j i := by
  unfold rlsCorr
  congr 1
  · by_cases h : i = j
    · simp [h]
    · simp [h, Ne.symm h]
  · exact sum_congr rfl fun m _ => by ring

theorem rlsCorr_quad (mu eps : K) (x : ℕ → Vec K n) (k : ℕ) (v : Vec K n) :
    ∑ i, ∑ j, v i * rlsCorr mu eps x k i j * v j
      = mu ^ k * eps * ∑ i, v i ^ 2
        + ∑ m ∈ range k, mu ^ (k - 1 - m) * (∑ i, v i * x m i) ^ 2 := by
  induction k with
  | zero => simp [rlsCorr, mul_sum]; exact sum_congr rfl fun i _ => by ring
  | succ k ih =>
    have h1 : ∀ i, ∑ j, v i * rlsCorr mu eps x (k + 1) i j * v j
        = mu * (∑ j, v i * rlsCorr mu eps x k i j * v j) + v i * x k i * ∑ j, v j * x k j := by
      intro i
      rw [mul_sum, mul_sum, ← sum_add_distrib]
      exact sum_congr rfl fun j _ => by rw [rlsCorr_succ]; ring
    rw [sum_congr rfl fun i _ => h1 i, sum_add_distrib, ← mul_sum, ih, ← sum_mul, sum_range_succ]
    have : ∀ m ∈ range k, mu ^ (k + 1 - 1 - m) * (∑ i, v i * x m i) ^ 2
        = mu * (mu ^ (k - 1 - m) * (∑ i, v i * x m i) ^ 2) := by
      intro m hm
      have hm := mem_range.mp hm
      have : k + 1 - 1 - m = (k - 1 - m) + 1 := by omega
      rw [this, pow_succ]; ring
    rw [sum_congr rfl this, ← mul_sum]
    simp only [Nat.add_sub_cancel, Nat.sub_self, pow_zero, one_mul, pow_succ]
    ring

theorem rlsCorr_quad_nonneg {mu eps : K} (hm : 0 < mu) (he : 0 < eps) (x : ℕ → Vec K n) (k : ℕ)
    (v : Vec K n) : 0 ≤ ∑ i, ∑ j, v i * rlsCorr mu eps x k i j * v j := by
  rw [rlsCorr_quad]
  have h1 : 0 ≤ mu ^ k * eps * ∑ i, v i ^ 2 :=
    mul_nonneg (mul_pos (pow_pos hm k) he).le (sum_nonneg fun _ _ => sq_nonneg _)
  have h2 : 0 ≤ ∑ m ∈ range k, mu ^ (k - 1 - m) * (∑ i, v i * x m i) ^ 2 :=
    sum_nonneg fun m _ => mul_nonneg (pow_pos hm _).le (sq_nonneg _)
  linarith

theorem rlsCorr_quad_pos {mu eps : K} (hm : 0 < mu) (he : 0 < eps) (x : ℕ → Vec K n) (k : ℕ)
    {v : Vec K n} (hv : v ≠ 0) : 0 < ∑ i, ∑ j, v i * rlsCorr mu eps x k i j * v j := by
  rw [rlsCorr_quad]
  have h0 : 0 < ∑ i, v i ^ 2 := by
    obtain ⟨i, hi⟩ := Function.ne_iff.mp hv
    exact sum_pos' (fun _ _ => sq_nonneg _) ⟨i, mem_univ _, pow_pos_of_ne hi⟩
  have h1 : 0 < mu ^ k * eps * ∑ i, v i ^ 2 := mul_pos (mul_pos (pow_pos hm k) he) h0
  have h2 : 0 ≤ ∑ m ∈ range k, mu ^ (k - 1 - m) * (∑ i, v i * x m i) ^ 2 :=
    sum_nonneg fun m _ => mul_nonneg (pow_pos hm _).le (sq_nonneg _)
  linarith
where
  pow_pos_of_ne {a : K} (h : a ≠ 0) : 0 < a ^ 2 := by positivity

/-- `A` as a `Matrix` -/
def corrM (mu eps : K) (x : ℕ → Vec K n) (k : ℕ) : Matrix (Fin n) (Fin n) K :=
  Matrix.of (rlsCorr mu eps x k)

theorem corrM_succ (mu eps : K) (x : ℕ → Vec K n) (k : ℕ) :
    corrM mu eps x (k + 1) = mu • corrM mu eps x k + vecMulVec (x k) (x k) := by
  ext i j
  simp [corrM, rlsCorr_succ, vecMulVec_apply]

theorem corrM_symm (mu eps : K) (x : ℕ → Vec K n) (k : ℕ) :
    (corrM mu eps x k)ᵀ = corrM mu eps x k := by
  ext i j
  simp [corrM, rlsCorr_symm mu eps x k j i]

theorem quad_dot (A : Matrix (Fin n) (Fin n) K) (v : Fin n → K) :
    v ⬝ᵥ A *ᵥ v = ∑ i, ∑ j, v i * A i j * v j := by
  simp only [dotProduct, mulVec, mul_sum]
  exact sum_congr rfl fun i _ => sum_congr rfl fun j _ => by ring

theorem rlsR_matrix (mu : K) (R : Mat K n n) (x : Vec K n) :
    (Matrix.of (rlsR mu R x) : Matrix (Fin n) (Fin n) K)
      = mu⁻¹ • (Matrix.of R - (mu + x ⬝ᵥ Matrix.of R *ᵥ x)⁻¹ •
          vecMulVec (Matrix.of R *ᵥ x) (x ᵥ* Matrix.of R)) := by
  have hmul : ∀ (A B : Mat K n n), matMul A B = (Matrix.of A * Matrix.of B : Matrix (Fin n) (Fin n) K) := by
    intro A B; funext i j; rw [matMul_eq, Matrix.mul_apply]; rfl
  have h1 : matMul (matMul R (outer x x)) R
      = vecMulVec (Matrix.of R *ᵥ x) (x ᵥ* Matrix.of R) := by
    rw [hmul, hmul]
    have : (Matrix.of (outer x x) : Matrix (Fin n) (Fin n) K) = vecMulVec x x := rfl
    show (Matrix.of R * Matrix.of (outer x x)) * Matrix.of R = _
    rw [this, mul_vecMulVec, vecMulVec_mul]
  have h2 : dot (vecMat x R) x = x ⬝ᵥ Matrix.of R *ᵥ x := by
    rw [dot_eq, dotProduct_mulVec]
    simp only [dotProduct, vecMul, vecMat_eq]
    rfl
  ext i j
  simp only [Matrix.of_apply, rlsR, h1, h2, Matrix.smul_apply, Matrix.sub_apply, smul_eq_mul]
  rw [one_div, div_eq_inv_mul]

/-- Sherman-Morrison -/
theorem rls_inv_step {mu : K} (hm : mu ≠ 0) (A R : Matrix (Fin n) (Fin n) K) (x : Fin n → K)
    (h : A * R = 1) (hr : mu + x ⬝ᵥ R *ᵥ x ≠ 0) :
    (mu • A + vecMulVec x x) *
      (mu⁻¹ • (R - (mu + x ⬝ᵥ R *ᵥ x)⁻¹ • vecMulVec (R *ᵥ x) (x ᵥ* R))) = 1 := by
  have e1 : A * vecMulVec (R *ᵥ x) (x ᵥ* R) = vecMulVec x (x ᵥ* R) := by
    rw [mul_vecMulVec, mulVec_mulVec, h, one_mulVec]
  have e2 : vecMulVec x x * R = vecMulVec x (x ᵥ* R) := vecMulVec_mul _ _ _
  have e3 : vecMulVec x x * vecMulVec (R *ᵥ x) (x ᵥ* R)
      = (x ⬝ᵥ R *ᵥ x) • vecMulVec x (x ᵥ* R) := by
    rw [vecMulVec_mul_vecMulVec, vecMulVec_smul]
  rw [Matrix.mul_smul, Matrix.add_mul, Matrix.mul_sub, Matrix.mul_sub, Matrix.smul_mul, h,
    Matrix.mul_smul, Matrix.mul_smul, Matrix.smul_mul, e1, e2, e3]
  ext i j
  simp only [Matrix.smul_apply, Matrix.add_apply, Matrix.sub_apply, smul_eq_mul]
  generalize (1 : Matrix (Fin n) (Fin n) K) i j = a
  generalize vecMulVec x (x ᵥ* R) i j = b
  generalize x ⬝ᵥ R *ᵥ x = c at hr
  field_simp
  ring

variable {d : ℕ → K} {x : ℕ → Vec K n} {y e : ℕ → K}

/-- the inverse relation, at every sample -/
theorem rls_inv {o : Obj (rls K n)} (hmu : 0 < o.core.mu) (heps : 0 < o.core.ext.eps)
    (hR : ∀ i j, o.core.ext.R i j = if i = j then 1 / o.core.ext.eps else 0)
    {S : ℕ → Core K n (RlsExt K n)} (h : Runs (rls K n) o d x y e S) (k : ℕ) :
    corrM o.core.mu o.core.ext.eps x k * (Matrix.of (S k).ext.R : Matrix (Fin n) (Fin n) K) = 1 ∧
    ∀ v : Fin n → K, 0 ≤ v ⬝ᵥ Matrix.of (S k).ext.R *ᵥ v := by
  have hz : Scalar.eqz o.core.mu = false := by
    show decide (o.core.mu = 0) = false
    simp [hmu.ne']
  have pos : ∀ k, corrM o.core.mu o.core.ext.eps x k * (Matrix.of (S k).ext.R : Matrix (Fin n) (Fin n) K) = 1 →
      ∀ v : Fin n → K, 0 ≤ v ⬝ᵥ Matrix.of (S k).ext.R *ᵥ v := by
    intro k hk v
    set u := (Matrix.of (S k).ext.R : Matrix (Fin n) (Fin n) K) *ᵥ v with hu
    have h1 : corrM o.core.mu o.core.ext.eps x k *ᵥ u = v := by
      rw [hu, mulVec_mulVec, hk, one_mulVec]
    have h2 : v ⬝ᵥ u = u ⬝ᵥ corrM o.core.mu o.core.ext.eps x k *ᵥ u := by
      rw [h1, dotProduct_comm]
    rw [h2, quad_dot]
    exact rlsCorr_quad_nonneg hmu heps x k u
  induction k with
  | zero =>
    have h0 : corrM o.core.mu o.core.ext.eps x 0 * (Matrix.of (S 0).ext.R : Matrix (Fin n) (Fin n) K) = 1 := by
      have hR' : (Matrix.of (S 0).ext.R : Matrix (Fin n) (Fin n) K)
          = (1 / o.core.ext.eps) • (1 : Matrix (Fin n) (Fin n) K) := by
        ext i j
        rw [h.1]
        show o.core.ext.R i j = _
        rw [hR]
        simp [Matrix.one_apply]
      have hA : corrM o.core.mu o.core.ext.eps x 0
          = o.core.ext.eps • (1 : Matrix (Fin n) (Fin n) K) := by
        ext i j
        simp [corrM, rlsCorr, Matrix.one_apply]
      rw [hR', hA, Matrix.smul_mul, Matrix.one_mul, smul_smul, mul_one_div, div_self heps.ne',
        one_smul]
    exact ⟨h0, pos 0 h0⟩
  | succ k ih =>
    obtain ⟨h1, -, -, -, -, hRk⟩ := rls_runs hz h k
    have h2 : corrM o.core.mu o.core.ext.eps x (k + 1)
        * (Matrix.of (S (k + 1)).ext.R : Matrix (Fin n) (Fin n) K) = 1 := by
      rw [hRk, rlsR_matrix, corrM_succ, h1]
      exact rls_inv_step hmu.ne' _ _ _ ih.1 (by have := ih.2 (x k); linarith)
    exact ⟨h2, pos _ h2⟩

/-! ## C24 -/

/-- C24: with `mu > 0`, `eps > 0` and a fresh `R = I/eps`, after `k` samples `R` is the inverse of the weighted autocorrelation matrix,
is symmetric and positive definite, and the denominator of the next update is positive. -/
theorem C24_inverse_correlation (o : Obj (rls K n)) (hmu : 0 < o.core.mu) (heps : 0 < o.core.ext.eps)
    (hR : ∀ i j, o.core.ext.R i j = if i = j then 1 / o.core.ext.eps else 0)
    {S : ℕ → Core K n (RlsExt K n)} (h : Runs (rls K n) o d x y e S) (k : ℕ) :
    (∀ i j, ∑ m, rlsCorr o.core.mu o.core.ext.eps x k i m * (S k).ext.R m j
      = if i = j then 1 else 0) ∧
    (∀ i j, ∑ m, (S k).ext.R i m * rlsCorr o.core.mu o.core.ext.eps x k m j
      = if i = j then 1 else 0) ∧
    (∀ i j, (S k).ext.R i j = (S k).ext.R j i) ∧
    (∀ v : Vec K n, v ≠ 0 → 0 < ∑ i, ∑ j, v i * (S k).ext.R i j * v j) ∧
    0 < o.core.mu + ∑ i, ∑ j, x k i * (S k).ext.R i j * x k j := by
  obtain ⟨h1, h2⟩ := rls_inv hmu heps hR h k
  have h3 : (Matrix.of (S k).ext.R : Matrix (Fin n) (Fin n) K)
      * corrM o.core.mu o.core.ext.eps x k = 1 := mul_eq_one_comm.mp h1
  refine ⟨fun i j => ?_, fun i j => ?_, fun i j => ?_, fun v hv => ?_, ?_⟩
  · have := congrFun (congrFun h1 i) j
    rw [Matrix.mul_apply, Matrix.one_apply] at this
    exact this
  · have := congrFun (congrFun h3 i) j
    rw [Matrix.mul_apply, Matrix.one_apply] at this
    exact this
  · have h4 : (Matrix.of (S k).ext.R : Matrix (Fin n) (Fin n) K)ᵀ
        * corrM o.core.mu o.core.ext.eps x k = 1 := by
      have := congrArg Matrix.transpose h1
      rwa [Matrix.transpose_mul, corrM_symm, Matrix.transpose_one] at this
    have h5 : (Matrix.of (S k).ext.R : Matrix (Fin n) (Fin n) K)ᵀ = Matrix.of (S k).ext.R := by
      calc (Matrix.of (S k).ext.R : Matrix (Fin n) (Fin n) K)ᵀ
          = (Matrix.of (S k).ext.R)ᵀ * (corrM o.core.mu o.core.ext.eps x k * Matrix.of (S k).ext.R) := by
            rw [h1, Matrix.mul_one]
        _ = Matrix.of (S k).ext.R := by rw [← Matrix.mul_assoc, h4, Matrix.one_mul]
    exact (congrFun (congrFun h5 i) j).symm
  · have hq : ∑ i, ∑ j, v i * (S k).ext.R i j * v j = v ⬝ᵥ (Matrix.of (S k).ext.R : Matrix (Fin n) (Fin n) K) *ᵥ v :=
      (quad_dot (Matrix.of (S k).ext.R) v).symm
    rw [hq]
    set u := (Matrix.of (S k).ext.R : Matrix (Fin n) (Fin n) K) *ᵥ v with hu
    have h4 : corrM o.core.mu o.core.ext.eps x k *ᵥ u = v := by
      rw [hu, mulVec_mulVec, h1, one_mulVec]
    have h5 : v ⬝ᵥ u = u ⬝ᵥ corrM o.core.mu o.core.ext.eps x k *ᵥ u := by
      rw [h4, dotProduct_comm]
    rw [h5, quad_dot]
    refine rlsCorr_quad_pos hmu heps x k ?_
    intro h0
    rw [h0, mulVec_zero] at h4
    exact hv h4.symm
  · have := h2 (x k)
    rw [quad_dot] at this
    have : 0 ≤ ∑ i, ∑ j, x k i * (S k).ext.R i j * x k j := this
    linarith

/-- C24: the constructor sets `R = I/eps`. -/
theorem C24_fresh (env : Env ℝ) (w : Vec ℝ n) (mu eps : ℝ) (h : eps ≠ 0) :
    construct env .rls { n := some n, mu := some mu, w := some (.arr (List.ofFn w)), eps := some eps }
      = .ok ⟨n, .rls, ⟨⟨w, n, mu, (⟨eps, fun i j => if i = j then 1 / eps else 0⟩ : RlsExt ℝ n)⟩, []⟩⟩ := by
  have : Scalar.eqz eps = false := by
    show decide (eps = 0) = false
    simp [h]
  have h2 : (fun i j => 1 / eps * eye n i j : Mat ℝ n n) = fun i j => if i = j then 1 / eps else 0 := by
    funext i j
    by_cases hij : i = j <;> simp [eye, hij]
  rw [← h2]
  simp [construct, badKeyword, initWeights, initExt, Except.bind, rlsInit, this]

example : ∃ (o : Obj (rls ℝ 2)) (d : ℕ → ℝ) (x : ℕ → Vec ℝ 2) (y e : ℕ → ℝ)
    (S : ℕ → Core ℝ 2 (RlsExt ℝ 2)), Runs (rls ℝ 2) o d x y e S ∧ 0 < o.core.mu ∧ 0 < o.core.ext.eps ∧
    ∀ i j, o.core.ext.R i j = if i = j then 1 / o.core.ext.eps else 0 :=
  ⟨⟨⟨fun _ => 0, 2, 1 / 2, (⟨1, fun i j => if i = j then 1 / 1 else 0⟩ : RlsExt ℝ 2)⟩, []⟩,
    fun _ => 1, fun _ _ => 1, _, _, _,
    runs_of_safe rls_safe _ (by show decide ((1 / 2 : ℝ) = 0) = false; simp) _ _,
    by norm_num, one_pos, fun _ _ => rfl⟩

/-! ## C25 -/

/-- the normal equations: `A(k) (w(k) - ws) = mu^k eps (w0 - ws) + sum mu^(k-1-m) (d(m) - <ws,x(m)>) x(m)`, for any `ws` -/
theorem rls_normal {o : Obj (rls K n)} (hmu : 0 < o.core.mu) (heps : 0 < o.core.ext.eps)
    (hR : ∀ i j, o.core.ext.R i j = if i = j then 1 / o.core.ext.eps else 0)
    {S : ℕ → Core K n (RlsExt K n)} (h : Runs (rls K n) o d x y e S) (ws : Vec K n) (k : ℕ)
    (i : Fin n) :
    ∑ j, rlsCorr o.core.mu o.core.ext.eps x k i j * ((S k).w j - ws j)
      = o.core.mu ^ k * o.core.ext.eps * (o.core.w i - ws i)
        + ∑ m ∈ range k, o.core.mu ^ (k - 1 - m) * (d m - ∑ j, ws j * x m j) * x m i := by
  have hz : Scalar.eqz o.core.mu = false := by
    show decide (o.core.mu = 0) = false
    simp [hmu.ne']
  induction k generalizing i with
  | zero => rw [h.1]; simp [rlsCorr]
  | succ k ih =>
    obtain ⟨h1, -, hy, he, hw, hRk⟩ := rls_runs hz h k
    obtain ⟨h2, -⟩ := rls_inv hmu heps hR h (k + 1)
    have h3 : ∑ j, rlsCorr o.core.mu o.core.ext.eps x (k + 1) i j
        * matVec (rlsR (S k).mu (S k).ext.R (x k)) (x k) j = x k i := by
      rw [← hRk]
      have h4 : corrM o.core.mu o.core.ext.eps x (k + 1) *ᵥ
          ((Matrix.of (S (k + 1)).ext.R : Matrix (Fin n) (Fin n) K) *ᵥ x k) = x k := by
        rw [mulVec_mulVec, h2, one_mulVec]
      have := congrFun h4 i
      simp only [mulVec, dotProduct] at this
      rw [← this]
      refine sum_congr rfl fun j _ => ?_
      rw [matVec_eq]; rfl
    have h5 : ∑ j, rlsCorr o.core.mu o.core.ext.eps x (k + 1) i j * ((S (k + 1)).w j - ws j)
        = ∑ j, rlsCorr o.core.mu o.core.ext.eps x (k + 1) i j * ((S k).w j - ws j)
          + e k * x k i := by
      rw [← h3, mul_sum, ← sum_add_distrib]
      exact sum_congr rfl fun j _ => by rw [hw]; ring
    have h6 : ∑ j, rlsCorr o.core.mu o.core.ext.eps x (k + 1) i j * ((S k).w j - ws j)
        = o.core.mu * (∑ j, rlsCorr o.core.mu o.core.ext.eps x k i j * ((S k).w j - ws j))
          + x k i * ∑ j, ((S k).w j - ws j) * x k j := by
      rw [mul_sum, mul_sum, ← sum_add_distrib]
      exact sum_congr rfl fun j _ => by rw [rlsCorr_succ]; ring
    have h7 : ∑ j, ((S k).w j - ws j) * x k j = (d k - ∑ j, ws j * x k j) - e k := by
      rw [he, hy, dot_eq]
      simp only [sub_mul, sum_sub_distrib]; ring
    rw [h5, h6, h7, ih, sum_range_succ]
    have h8 : ∀ m ∈ range k, o.core.mu ^ (k + 1 - 1 - m) * (d m - ∑ j, ws j * x m j) * x m i
        = o.core.mu * (o.core.mu ^ (k - 1 - m) * (d m - ∑ j, ws j * x m j) * x m i) := by
      intro m hm
      have hm := mem_range.mp hm
      have : k + 1 - 1 - m = (k - 1 - m) + 1 := by omega
      rw [this, pow_succ]; ring
    rw [sum_congr rfl h8, ← mul_sum]
    simp only [Nat.add_sub_cancel, Nat.sub_self, pow_zero, one_mul, pow_succ]
    ring

/-- expansion of the cost around any point -/
theorem rlsCost_expand (mu eps : K) (d : ℕ → K) (x : ℕ → Vec K n) (w0 : Vec K n) (k : ℕ)
    (w v : Vec K n) :
    rlsCost mu eps d x w0 k (fun i => w i + v i)
      = rlsCost mu eps d x w0 k w
        + 2 * (∑ i, v i * (mu ^ k * eps * (w i - w0 i)
          - ∑ m ∈ range k, mu ^ (k - 1 - m) * (d m - ∑ j, w j * x m j) * x m i))
        + ∑ i, ∑ j, v i * rlsCorr mu eps x k i j * v j := by
  have h2 : ∀ m, (d m - ∑ i, (w i + v i) * x m i) ^ 2
      = (d m - ∑ i, w i * x m i) ^ 2 - 2 * (d m - ∑ i, w i * x m i) * (∑ i, v i * x m i)
        + (∑ i, v i * x m i) ^ 2 := by
    intro m
    simp only [add_mul, sum_add_distrib]; ring
  have h3 : ∑ i, v i * ∑ m ∈ range k, mu ^ (k - 1 - m) * (d m - ∑ j, w j * x m j) * x m i
      = ∑ m ∈ range k, mu ^ (k - 1 - m) * ((d m - ∑ j, w j * x m j) * ∑ i, v i * x m i) := by
    simp only [mul_sum]
    rw [sum_comm]
    exact sum_congr rfl fun m _ => sum_congr rfl fun i _ => by ring
  have h4 : ∑ i, (w i + v i - w0 i) ^ 2
      = ∑ i, (w i - w0 i) ^ 2 + 2 * ∑ i, v i * (w i - w0 i) + ∑ i, v i ^ 2 := by
    rw [mul_sum, ← sum_add_distrib, ← sum_add_distrib]
    exact sum_congr rfl fun i _ => by ring
  have h5 : ∑ i, v i * (mu ^ k * eps * (w i - w0 i)
          - ∑ m ∈ range k, mu ^ (k - 1 - m) * (d m - ∑ j, w j * x m j) * x m i)
      = mu ^ k * eps * (∑ i, v i * (w i - w0 i))
        - ∑ m ∈ range k, mu ^ (k - 1 - m) * ((d m - ∑ j, w j * x m j) * ∑ i, v i * x m i) := by
    rw [← h3, mul_sum, ← sum_sub_distrib]
    exact sum_congr rfl fun i _ => by ring
  rw [rlsCorr_quad, h5]
  unfold rlsCost
  rw [h4]
  have h6 : ∑ m ∈ range k, mu ^ (k - 1 - m) * (d m - ∑ i, (w i + v i) * x m i) ^ 2
      = ∑ m ∈ range k, mu ^ (k - 1 - m) * (d m - ∑ i, w i * x m i) ^ 2
        - 2 * (∑ m ∈ range k, mu ^ (k - 1 - m) * ((d m - ∑ j, w j * x m j) * ∑ i, v i * x m i))
        + ∑ m ∈ range k, mu ^ (k - 1 - m) * (∑ i, v i * x m i) ^ 2 := by
    rw [mul_sum, ← sum_sub_distrib, ← sum_add_distrib]
    exact sum_congr rfl fun m _ => by rw [h2]; ring
  rw [h6]; ring

/-- C25: after `k` samples the RLS weights are the unique minimiser of the regularised exponentially weighted least-squares cost. -/
theorem C25_least_squares (o : Obj (rls K n)) (hmu : 0 < o.core.mu) (heps : 0 < o.core.ext.eps)
    (hR : ∀ i j, o.core.ext.R i j = if i = j then 1 / o.core.ext.eps else 0)
    {S : ℕ → Core K n (RlsExt K n)} (h : Runs (rls K n) o d x y e S) (k : ℕ) (w : Vec K n)
    (hw : w ≠ (S k).w) :
    rlsCost o.core.mu o.core.ext.eps d x o.core.w k (S k).w
      < rlsCost o.core.mu o.core.ext.eps d x o.core.w k w := by
  have hn := rls_normal hmu heps hR h (S k).w k
  simp only [sub_self, mul_zero, sum_const_zero] at hn
  have h1 := rlsCost_expand o.core.mu o.core.ext.eps d x o.core.w k (S k).w (fun i => w i - (S k).w i)
  have h2 : (fun i => (S k).w i + (w i - (S k).w i)) = w := by funext i; ring
  have h3 : ∀ i, o.core.mu ^ k * o.core.ext.eps * ((S k).w i - o.core.w i)
      - ∑ m ∈ range k, o.core.mu ^ (k - 1 - m) * (d m - ∑ j, (S k).w j * x m j) * x m i = 0 := by
    intro i
    have := hn i
    linear_combination this
  rw [h2] at h1
  simp only [h3, mul_zero, sum_const_zero, add_zero] at h1
  rw [h1]
  have : (fun i => w i - (S k).w i) ≠ 0 := by
    intro h0
    apply hw
    funext i
    have := congrFun h0 i
    simp only [Pi.zero_apply] at this
    linarith
  linarith [rlsCorr_quad_pos hmu heps x k this]

/-! ## C26 -/

/-- C26: on noise-free data `A(k) (w(k) - ws) = mu^k eps (w(0) - ws)`. -/
theorem C26_noise_free (o : Obj (rls K n)) (hmu : 0 < o.core.mu) (heps : 0 < o.core.ext.eps)
    (hR : ∀ i j, o.core.ext.R i j = if i = j then 1 / o.core.ext.eps else 0)
    {S : ℕ → Core K n (RlsExt K n)} (h : Runs (rls K n) o d x y e S) (ws : Vec K n)
    (hd : ∀ k, d k = ∑ i, ws i * x k i) (k : ℕ) (i : Fin n) :
    ∑ j, rlsCorr o.core.mu o.core.ext.eps x k i j * ((S k).w j - ws j)
      = o.core.mu ^ k * o.core.ext.eps * (o.core.w i - ws i) := by
  rw [rls_normal hmu heps hR h ws k i]
  simp [hd]

/-- the weighted misalignment `(w - ws)^T A(k) (w - ws)` -/
def rlsMis (mu eps : K) (x : ℕ → Vec K n) (k : ℕ) (w ws : Vec K n) : K :=
  ∑ i, ∑ j, (w i - ws i) * rlsCorr mu eps x k i j * (w j - ws j)

/-- C26: on noise-free data with `0 < mu <= 1` the weighted misalignment never grows (it shrinks at least by the factor `mu`). -/
theorem C26_monotone (o : Obj (rls K n)) (hmu : 0 < o.core.mu) (hmu1 : o.core.mu ≤ 1)
    (heps : 0 < o.core.ext.eps)
    (hR : ∀ i j, o.core.ext.R i j = if i = j then 1 / o.core.ext.eps else 0)
    {S : ℕ → Core K n (RlsExt K n)} (h : Runs (rls K n) o d x y e S) (ws : Vec K n)
    (hd : ∀ k, d k = ∑ i, ws i * x k i) (k : ℕ) :
    rlsMis o.core.mu o.core.ext.eps x (k + 1) (S (k + 1)).w ws
      ≤ o.core.mu * rlsMis o.core.mu o.core.ext.eps x k (S k).w ws ∧
    rlsMis o.core.mu o.core.ext.eps x (k + 1) (S (k + 1)).w ws
      ≤ rlsMis o.core.mu o.core.ext.eps x k (S k).w ws := by
  have main : rlsMis o.core.mu o.core.ext.eps x (k + 1) (S (k + 1)).w ws
      ≤ o.core.mu * rlsMis o.core.mu o.core.ext.eps x k (S k).w ws := by
    -- the cost with target `ws`: both sides are costs of a least-squares problem, compare by minimality
    have hexp : ∀ k w, rlsCost o.core.mu o.core.ext.eps d x o.core.w k w
        = rlsCost o.core.mu o.core.ext.eps d x o.core.w k (S k).w
          + ∑ i, ∑ j, (w i - (S k).w i) * rlsCorr o.core.mu o.core.ext.eps x k i j * (w j - (S k).w j) := by
      intro k w
      have hn := rls_normal hmu heps hR h (S k).w k
      simp only [sub_self, mul_zero, sum_const_zero] at hn
      have h1 := rlsCost_expand o.core.mu o.core.ext.eps d x o.core.w k (S k).w (fun i => w i - (S k).w i)
      have h2 : (fun i => (S k).w i + (w i - (S k).w i)) = w := by funext i; ring
      have h3 : ∀ i, o.core.mu ^ k * o.core.ext.eps * ((S k).w i - o.core.w i)
          - ∑ m ∈ range k, o.core.mu ^ (k - 1 - m) * (d m - ∑ j, (S k).w j * x m j) * x m i = 0 := by
        intro i
        have := hn i
        linear_combination this
      rw [h2] at h1
      simp only [h3, mul_zero, sum_const_zero, add_zero] at h1
      exact h1
    have hrec : ∀ w, rlsCost o.core.mu o.core.ext.eps d x o.core.w (k + 1) w
        = o.core.mu * rlsCost o.core.mu o.core.ext.eps d x o.core.w k w
          + (d k - ∑ i, w i * x k i) ^ 2 := by
      intro w
      unfold rlsCost
      rw [sum_range_succ]
      have h8 : ∀ m ∈ range k, o.core.mu ^ (k + 1 - 1 - m) * (d m - ∑ j, w j * x m j) ^ 2
          = o.core.mu * (o.core.mu ^ (k - 1 - m) * (d m - ∑ j, w j * x m j) ^ 2) := by
        intro m hm
        have hm := mem_range.mp hm
        have : k + 1 - 1 - m = (k - 1 - m) + 1 := by omega
        rw [this, pow_succ]; ring
      rw [sum_congr rfl h8, ← mul_sum]
      simp only [Nat.add_sub_cancel, Nat.sub_self, pow_zero, one_mul, pow_succ]
      ring
    have hflip : ∀ k, rlsMis o.core.mu o.core.ext.eps x k (S k).w ws
        = ∑ i, ∑ j, (ws i - (S k).w i) * rlsCorr o.core.mu o.core.ext.eps x k i j * (ws j - (S k).w j) := by
      intro k
      unfold rlsMis
      exact sum_congr rfl fun i _ => sum_congr rfl fun j _ => by ring
    have h1 := hexp k ws
    have h2 := hexp (k + 1) ws
    have h3 := hexp k (S (k + 1)).w
    have h4 := hrec ws
    have h5 := hrec (S (k + 1)).w
    rw [← hd k] at h4
    rw [hflip, hflip]
    have h6 := rlsCorr_quad_nonneg hmu heps x k (fun i => (S (k + 1)).w i - (S k).w i)
    have h7 := sq_nonneg (d k - ∑ i, (S (k + 1)).w i * x k i)
    nlinarith [mul_nonneg hmu.le h6]
  refine ⟨main, main.trans ?_⟩
  have := rlsCorr_quad_nonneg hmu heps x k (fun i => (S k).w i - ws i)
  have h0 : 0 ≤ rlsMis o.core.mu o.core.ext.eps x k (S k).w ws := this
  nlinarith

/-- the hypotheses of C25 and C26: a fresh filter with forgetting factor 1/2, data without noise, and other weights than the ones reached -/
example : ∃ (o : Obj (rls ℝ 2)) (d : ℕ → ℝ) (x : ℕ → Vec ℝ 2) (ws w : Vec ℝ 2) (y e : ℕ → ℝ) (S : ℕ → Core ℝ 2 (RlsExt ℝ 2)),
    Runs (rls ℝ 2) o d x y e S ∧ 0 < o.core.mu ∧ o.core.mu ≤ 1 ∧ 0 < o.core.ext.eps ∧
    (∀ i j, o.core.ext.R i j = if i = j then 1 / o.core.ext.eps else 0) ∧ (∀ k, d k = ∑ i, ws i * x k i) ∧ w ≠ (S 0).w ∧ x 0 ≠ x 1 :=
  ⟨⟨⟨fun _ => 0, 2, 1 / 2, (⟨1, fun i j => if i = j then 1 / 1 else 0⟩ : RlsExt ℝ 2)⟩, []⟩,
    fun k => 3 * (k : ℝ) + (-2) * 1, fun k => ![(k : ℝ), 1], ![3, -2], fun _ => 5, _, _, _,
    runs_of_safe rls_safe _ (by show decide ((1 / 2 : ℝ) = 0) = false; simp) _ _,
    by norm_num, by norm_num, one_pos, fun _ _ => rfl, fun k => by simp [Fin.sum_univ_two],
    fun h => by have := congrFun h 0; norm_num [traj, Core.withN] at this, fun h => by have := congrFun h 0; norm_num at this⟩

end Padasip
