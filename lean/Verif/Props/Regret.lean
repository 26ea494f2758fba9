import Verif.Props.Monotone
import Verif.Props.Optimal
import Mathlib.Analysis.Convex.SpecificFunctions.Basic
import Mathlib.Analysis.Matrix.PosDef
import Mathlib.Analysis.Matrix.Spectrum
import Mathlib.LinearAlgebra.Matrix.SchurComplement

/-!
# C100: regret - on-line performance against the best fixed filter in hindsight

No assumption is made on how the data come about: `d` and `x` are arbitrary streams, `u` is any fixed weight vector (for instance the best one for these
data, chosen after seeing all of them).
-/

set_option linter.unusedSectionVars false
set_option linter.unusedVariables false
set_option linter.unusedSimpArgs false

namespace Padasip

open Finset Matrix

section field
variable {K : Type} [Field K] [LinearOrder K] [IsStrictOrderedRing K] {n : ℕ}
variable {d : ℕ → K} {x : ℕ → Vec K n} {y e : ℕ → K}

theorem comparator_gain {w x u : Vec K n} {d e g : K} (he : e = d - dot w x) :
    sqn (fun i => (w i + g * x i) - u i)
      = sqn (fun i => w i - u i) + 2 * g * ((d - ∑ i, u i * x i) - e) + g ^ 2 * sqn x := by
  have h2 : (fun i => (w i + g * x i) - u i) = fun i => (w i - u i) + g * x i := funext fun i => by ring
  have h3 : ∑ i, (w i - u i) * x i = (d - ∑ i, u i * x i) - e := by
    rw [he, dot_eq]; simp only [sub_mul, sum_sub_distrib]; ring
  rw [h2, sqn_add_smul, h3]

/-- C100: LMS with `mu |x(k)|^2 <= c < 1`: the total squared error of the run is at most `1/(1-c)` times (the total squared error of ANY fixed
weight vector `u` plus `|w(0)-u|^2 / mu`). -/
theorem C100_lms_regret (o : Obj (lms K n)) {S : ℕ → Core K n Unit} (h : Runs (lms K n) o d x y e S) (hmu : 0 < o.core.mu) {c : K}
    (hx : ∀ k, o.core.mu * ∑ i, x k i ^ 2 ≤ c) (u : Vec K n) (N : ℕ) :
    (1 - c) * ∑ k ∈ range N, e k ^ 2
      ≤ (∑ k ∈ range N, (d k - ∑ i, u i * x k i) ^ 2) + (∑ i, (o.core.w i - u i) ^ 2) / o.core.mu := by
  have key : sqn (fun i => (S N).w i - u i) + o.core.mu * ((1 - c) * ∑ k ∈ range N, e k ^ 2)
      ≤ o.core.mu * (∑ k ∈ range N, (d k - ∑ i, u i * x k i) ^ 2) + sqn (fun i => o.core.w i - u i) := by
    induction N with
    | zero => rw [h.1]; simp
    | succ N ih =>
      obtain ⟨h1, -, hy, he, hw⟩ := lms_runs h N
      have h2 := comparator_gain (w := (S N).w) (x := x N) (u := u) (g := o.core.mu * e N) (show e N = d N - dot (S N).w (x N) by rw [he, hy])
      have h3 : (fun i => (S (N + 1)).w i - u i) = fun i => ((S N).w i + o.core.mu * e N * x N i) - u i := by
        rw [hw, h1]; exact funext fun i => by ring
      rw [sum_range_succ, sum_range_succ, h3, h2]
      set v := d N - ∑ i, u i * x N i
      have h4 : o.core.mu * sqn (x N) ≤ c := hx N
      have h5 : 0 ≤ o.core.mu * e N ^ 2 * (c - o.core.mu * sqn (x N)) :=
        mul_nonneg (mul_nonneg hmu.le (sq_nonneg _)) (by linarith)
      have h6 : 0 ≤ o.core.mu * (e N - v) ^ 2 := mul_nonneg hmu.le (sq_nonneg _)
      nlinarith
  have h0 := sqn_nonneg (fun i => (S N).w i - u i)
  have h1 : o.core.mu * ((1 - c) * ∑ k ∈ range N, e k ^ 2)
      ≤ o.core.mu * ((∑ k ∈ range N, (d k - ∑ i, u i * x k i) ^ 2) + (∑ i, (o.core.w i - u i) ^ 2) / o.core.mu) := by
    rw [mul_add, mul_div_cancel₀ _ hmu.ne']
    unfold sqn at key h0
    linarith
  exact le_of_mul_le_mul_left h1 hmu

/-- C100: NLMS with `0 < mu < 1`, `eps > 0`, whatever the inputs: the same with errors weighted by `1 / (eps + |x(k)|^2)`. -/
theorem C100_nlms_regret (o : Obj (nlms K n)) {S : ℕ → Core K n (EpsExt K)} (h : Runs (nlms K n) o d x y e S) (hmu : 0 < o.core.mu)
    (heps : 0 < o.core.ext.eps) (u : Vec K n) (N : ℕ) :
    (1 - o.core.mu) * ∑ k ∈ range N, e k ^ 2 / (o.core.ext.eps + ∑ i, x k i ^ 2)
      ≤ (∑ k ∈ range N, (d k - ∑ i, u i * x k i) ^ 2 / (o.core.ext.eps + ∑ i, x k i ^ 2))
        + (∑ i, (o.core.w i - u i) ^ 2) / o.core.mu := by
  have key : sqn (fun i => (S N).w i - u i) + o.core.mu * ((1 - o.core.mu) * ∑ k ∈ range N, e k ^ 2 / (o.core.ext.eps + sqn (x k)))
      ≤ o.core.mu * (∑ k ∈ range N, (d k - ∑ i, u i * x k i) ^ 2 / (o.core.ext.eps + sqn (x k))) + sqn (fun i => o.core.w i - u i) := by
    induction N with
    | zero => rw [h.1]; simp
    | succ N ih =>
      obtain ⟨h1, h1', hy, he, hw⟩ := nlms_runs h N
      have hs := sqn_nonneg (x N)
      have hp : 0 < o.core.ext.eps + sqn (x N) := by linarith
      have h2 := comparator_gain (w := (S N).w) (x := x N) (u := u) (g := o.core.mu / (o.core.ext.eps + sqn (x N)) * e N)
        (show e N = d N - dot (S N).w (x N) by rw [he, hy])
      have h3 : (fun i => (S (N + 1)).w i - u i)
          = fun i => ((S N).w i + o.core.mu / (o.core.ext.eps + sqn (x N)) * e N * x N i) - u i := by
        rw [hw, h1, h1', sqn_eq_dot]; exact funext fun i => by ring
      rw [sum_range_succ, sum_range_succ, h3, h2]
      set v := d N - ∑ i, u i * x N i
      have hg := nlms_gain heps hmu.le hs
      have hr : 0 ≤ o.core.mu / (o.core.ext.eps + sqn (x N)) := div_nonneg hmu.le hp.le
      have e1 : ∀ t, o.core.mu * (t / (o.core.ext.eps + sqn (x N))) = o.core.mu / (o.core.ext.eps + sqn (x N)) * t := fun t => by ring
      have h5 := mul_nonneg (mul_nonneg hr (sq_nonneg (e N))) (sub_nonneg.mpr hg)
      have h6 := mul_nonneg hr (sq_nonneg (e N - v))
      rw [mul_add, mul_add, mul_add, show o.core.mu * ((1 - o.core.mu) * (e N ^ 2 / (o.core.ext.eps + sqn (x N))))
        = (1 - o.core.mu) * (o.core.mu * (e N ^ 2 / (o.core.ext.eps + sqn (x N)))) from by ring, e1, e1]
      nlinarith
  have h0 := sqn_nonneg (fun i => (S N).w i - u i)
  have h1 : o.core.mu * ((1 - o.core.mu) * ∑ k ∈ range N, e k ^ 2 / (o.core.ext.eps + ∑ i, x k i ^ 2))
      ≤ o.core.mu * ((∑ k ∈ range N, (d k - ∑ i, u i * x k i) ^ 2 / (o.core.ext.eps + ∑ i, x k i ^ 2))
        + (∑ i, (o.core.w i - u i) ^ 2) / o.core.mu) := by
    rw [mul_add, mul_div_cancel₀ _ hmu.ne']
    unfold sqn at key h0
    linarith
  exact le_of_mul_le_mul_left h1 hmu

/-! ### RLS -/

theorem rlsCost_succ (mu eps : K) (d : ℕ → K) (x : ℕ → Vec K n) (w0 : Vec K n) (k : ℕ) (w : Vec K n) :
    rlsCost mu eps d x w0 (k + 1) w = mu * rlsCost mu eps d x w0 k w + (d k - ∑ i, w i * x k i) ^ 2 := by
  unfold rlsCost
  rw [sum_range_succ]
  have : ∀ m ∈ range k, mu ^ (k + 1 - 1 - m) * (d m - ∑ i, w i * x m i) ^ 2
      = mu * (mu ^ (k - 1 - m) * (d m - ∑ i, w i * x m i) ^ 2) := by
    intro m hm
    have hm := mem_range.mp hm
    have : k + 1 - 1 - m = (k - 1 - m) + 1 := by omega
    rw [this, pow_succ]; ring
  rw [sum_congr rfl this, ← mul_sum]
  simp only [Nat.add_sub_cancel, Nat.sub_self, pow_zero, one_mul]
  ring

theorem rlsCost_around {o : Obj (rls K n)} (hmu : 0 < o.core.mu) (heps : 0 < o.core.ext.eps)
    (hR : ∀ i j, o.core.ext.R i j = if i = j then 1 / o.core.ext.eps else 0)
    {S : ℕ → Core K n (RlsExt K n)} (h : Runs (rls K n) o d x y e S) (k : ℕ) (w : Vec K n) :
    rlsCost o.core.mu o.core.ext.eps d x o.core.w k w
        = rlsCost o.core.mu o.core.ext.eps d x o.core.w k (S k).w
          + ∑ i, ∑ j, (w i - (S k).w i) * rlsCorr o.core.mu o.core.ext.eps x k i j * (w j - (S k).w j) := by
  have hn := rls_normal hmu heps hR h (S k).w k
  simp only [sub_self, mul_zero, sum_const_zero] at hn
  have h1 := rlsCost_expand o.core.mu o.core.ext.eps d x o.core.w k (S k).w (fun i => w i - (S k).w i)
  have h2 : (fun i => (S k).w i + (w i - (S k).w i)) = w := by funext i; ring
  have h3 : ∀ i, o.core.mu ^ k * o.core.ext.eps * ((S k).w i - o.core.w i)
      - ∑ m ∈ range k, o.core.mu ^ (k - 1 - m) * (d m - ∑ j, (S k).w j * x m j) * x m i = 0 := by
    intro i
    have := hn i
    linear_combination this
  rw [h2] at h1
  simpa only [h3, mul_zero, sum_const_zero, add_zero] using h1

/-- one step: the minimal cost grows by exactly the discounted a priori error -/
theorem rls_min_step {o : Obj (rls K n)} (hmu : 0 < o.core.mu) (heps : 0 < o.core.ext.eps)
    (hR : ∀ i j, o.core.ext.R i j = if i = j then 1 / o.core.ext.eps else 0)
    {S : ℕ → Core K n (RlsExt K n)} (h : Runs (rls K n) o d x y e S) (k : ℕ) :
    rlsCost o.core.mu o.core.ext.eps d x o.core.w (k + 1) (S (k + 1)).w
      = o.core.mu * rlsCost o.core.mu o.core.ext.eps d x o.core.w k (S k).w
        + o.core.mu / (o.core.mu + ∑ i, ∑ j, x k i * (S k).ext.R i j * x k j) * e k ^ 2 := by
  have hz : Scalar.eqz o.core.mu = false := by
    show decide (o.core.mu = 0) = false
    simp [hmu.ne']
  obtain ⟨h1, -, hy, he, hw, -⟩ := rls_runs hz h k
  obtain ⟨hA, -, -, -, hq⟩ := C24_inverse_correlation o hmu heps hR h k
  obtain ⟨r, -, -, hr, hpost⟩ := C83_rls o hmu heps hR h k
  rw [rlsCost_succ, hpost, rlsCost_around hmu heps hR h k (S (k + 1)).w]
  set A := rlsCorr o.core.mu o.core.ext.eps x k
  set R := (S k).ext.R
  set Q := o.core.mu + ∑ i, ∑ j, x k i * R i j * x k j with hQ
  have hdw : ∀ i, (S (k + 1)).w i - (S k).w i = (∑ j, R i j * x k j) * (e k / Q) := by
    intro i
    rw [hw]
    show (S k).w i + matVec (rlsR (S k).mu (S k).ext.R (x k)) (x k) i * e k - (S k).w i = _
    rw [h1, rls_gain _ hmu.ne' _ _ hq.ne' i]
    show _ + (∑ j, R i j * x k j) / Q * e k - _ = _
    ring
  have hAR : ∀ i, ∑ j, A i j * (∑ m, R j m * x k m) = x k i := by
    intro i
    simp only [mul_sum, ← mul_assoc]
    rw [sum_comm]
    calc ∑ m, ∑ j, A i j * R j m * x k m = ∑ m, (if i = m then 1 else 0) * x k m :=
          sum_congr rfl fun m _ => by rw [← sum_mul, hA i m]
      _ = x k i := by simp
  have hquad : ∑ i, ∑ j, ((S (k + 1)).w i - (S k).w i) * A i j * ((S (k + 1)).w j - (S k).w j)
      = (Q - o.core.mu) * (e k / Q) ^ 2 := by
    have : ∀ i, ∑ j, ((S (k + 1)).w i - (S k).w i) * A i j * ((S (k + 1)).w j - (S k).w j)
        = (e k / Q) ^ 2 * ((∑ j, R i j * x k j) * x k i) := by
      intro i
      simp only [hdw]
      rw [← hAR i, mul_sum, mul_sum]
      exact sum_congr rfl fun j _ => by ring
    rw [sum_congr rfl fun i _ => this i, ← mul_sum, hQ, add_sub_cancel_left, mul_comm]
    congr 1
    refine sum_congr rfl fun i _ => ?_
    rw [sum_mul]
    exact sum_congr rfl fun j _ => by ring
  rw [hquad, hr]
  have := hq.ne'
  field_simp
  ring

/-- C100: RLS, the exact account of a run: the minimal value of the least-squares cost (reached by the weights, C25) IS the discounted sum of the squared errors made
on the way, each weighted by `mu / (mu + x R x)`. -/
theorem C100_rls_identity (o : Obj (rls K n)) (hmu : 0 < o.core.mu) (heps : 0 < o.core.ext.eps)
    (hR : ∀ i j, o.core.ext.R i j = if i = j then 1 / o.core.ext.eps else 0)
    {S : ℕ → Core K n (RlsExt K n)} (h : Runs (rls K n) o d x y e S) (N : ℕ) :
    rlsCost o.core.mu o.core.ext.eps d x o.core.w N (S N).w
      = ∑ k ∈ range N, o.core.mu ^ (N - 1 - k)
          * (o.core.mu / (o.core.mu + ∑ i, ∑ j, x k i * (S k).ext.R i j * x k j) * e k ^ 2) := by
  induction N with
  | zero => rw [h.1]; simp [rlsCost, Core.withN]
  | succ N ih =>
    rw [rls_min_step hmu heps hR h N, ih, sum_range_succ, mul_sum]
    simp only [Nat.add_sub_cancel, Nat.sub_self, pow_zero, one_mul]
    congr 1
    refine sum_congr rfl fun m hm => ?_
    have hm := mem_range.mp hm
    have : N - m = (N - 1 - m) + 1 := by omega
    rw [this, pow_succ]; ring

/-- C100: RLS against any fixed weight vector. -/
theorem C100_rls_regret (o : Obj (rls K n)) (hmu : 0 < o.core.mu) (heps : 0 < o.core.ext.eps)
    (hR : ∀ i j, o.core.ext.R i j = if i = j then 1 / o.core.ext.eps else 0)
    {S : ℕ → Core K n (RlsExt K n)} (h : Runs (rls K n) o d x y e S) (u : Vec K n) (N : ℕ) :
    ∑ k ∈ range N, o.core.mu ^ (N - 1 - k)
          * (o.core.mu / (o.core.mu + ∑ i, ∑ j, x k i * (S k).ext.R i j * x k j) * e k ^ 2)
      ≤ (∑ k ∈ range N, o.core.mu ^ (N - 1 - k) * (d k - ∑ i, u i * x k i) ^ 2)
        + o.core.mu ^ N * o.core.ext.eps * ∑ i, (u i - o.core.w i) ^ 2 := by
  rw [← C100_rls_identity o hmu heps hR h N]
  by_cases hu : u = (S N).w
  · rw [hu]; exact le_refl _
  · exact (C25_least_squares o hmu heps hR h N u hu).le

end field

section real
variable {n : ℕ} {d : ℕ → ℝ} {x : ℕ → Vec ℝ n} {y e : ℕ → ℝ}

/-- the determinant grows by the factor `1 + x R x` -/
theorem corr_det_succ {eps : ℝ} (x : ℕ → Vec ℝ n) (k : ℕ) (R : Matrix (Fin n) (Fin n) ℝ)
    (h1 : corrM 1 eps x k * R = 1) :
    (corrM 1 eps x (k + 1)).det = (corrM 1 eps x k).det * (1 + ∑ i, ∑ j, x k i * R i j * x k j) := by
  have h3 : R * corrM 1 eps x k = 1 := mul_eq_one_comm.mp h1
  have h2 : corrM 1 eps x (k + 1) = corrM 1 eps x k * (1 + replicateCol Unit (R *ᵥ x k) * replicateRow Unit (x k)) := by
    rw [corrM_succ, one_smul, mul_add, mul_one, ← Matrix.mul_assoc, ← replicateCol_mulVec, mulVec_mulVec, h1, one_mulVec,
      vecMulVec_eq Unit]
  rw [h2, det_mul, det_one_add_replicateCol_mul_replicateRow, quad_dot']
where
  quad_dot' : (1 : ℝ) + x k ⬝ᵥ R *ᵥ x k = 1 + ∑ i, ∑ j, x k i * R i j * x k j := by rw [quad_dot]

theorem corr_posDef {eps : ℝ} (heps : 0 < eps) (x : ℕ → Vec ℝ n) (k : ℕ) : (corrM 1 eps x k).PosDef := by
  refine Matrix.PosDef.of_dotProduct_mulVec_pos (by
    rw [Matrix.IsHermitian, conjTranspose_eq_transpose_of_trivial]; exact corrM_symm _ _ _ _) fun v hv => ?_
  rw [star_trivial, quad_dot]
  exact rlsCorr_quad_pos one_pos heps x k hv

theorem log_det_le {A : Matrix (Fin n) (Fin n) ℝ} (hA : A.PosDef) (hn : 0 < n) :
    Real.log A.det ≤ n * Real.log (A.trace / n) := by
  have hn' : (0 : ℝ) < n := by exact_mod_cast hn
  have hpos : ∀ i, 0 < hA.1.eigenvalues i := hA.eigenvalues_pos
  have htr : A.trace = ∑ i, hA.1.eigenvalues i := by
    have := hA.1.trace_eq_sum_eigenvalues
    simpa using this
  have hdet : A.det = ∏ i, hA.1.eigenvalues i := by
    have := hA.1.det_eq_prod_eigenvalues
    simpa using this
  have : Nonempty (Fin n) := ⟨⟨0, hn⟩⟩
  have hc : 0 < A.trace / n := by
    rw [htr]; exact div_pos (sum_pos (fun i _ => hpos i) univ_nonempty) hn'
  rw [hdet, Real.log_prod (fun i _ => (hpos i).ne')]
  set c := A.trace / n with hcd
  have h1 : ∀ i, Real.log (hA.1.eigenvalues i) ≤ hA.1.eigenvalues i / c - 1 + Real.log c := by
    intro i
    have := Real.log_le_sub_one_of_pos (div_pos (hpos i) hc)
    rw [Real.log_div (hpos i).ne' hc.ne'] at this
    linarith
  calc ∑ i, Real.log (hA.1.eigenvalues i) ≤ ∑ i, (hA.1.eigenvalues i / c - 1 + Real.log c) := sum_le_sum fun i _ => h1 i
    _ = A.trace / c - n + n * Real.log c := by
        rw [sum_add_distrib, sum_sub_distrib, ← sum_div, ← htr]; simp
    _ = n * Real.log c := by
        have : A.trace / c = n := by
          rw [hcd]
          have ht : A.trace ≠ 0 := by
            intro h0; rw [hcd, h0, zero_div] at hc; exact lt_irrefl _ hc
          field_simp
        rw [this]; ring

theorem corr_trace (eps : ℝ) (x : ℕ → Vec ℝ n) (N : ℕ) :
    (corrM 1 eps x N).trace = n * eps + ∑ k ∈ range N, ∑ i, x k i ^ 2 := by
  simp only [Matrix.trace, Matrix.diag, corrM, Matrix.of_apply, rlsCorr, one_pow, one_mul, if_true, mul_one, sum_add_distrib]
  rw [sum_comm]
  simp only [sum_const, card_univ, Fintype.card_fin, nsmul_eq_mul, pow_two]

/-- C100: RLS without forgetting (`mu = 1`): if the errors are bounded by `E`, the total squared error of the run exceeds the regularised total squared error of the BEST
fixed weight vector by at most `E^2 n log(1 + sum |x|^2 / (n eps))`: logarithmic in the number of samples. -/
theorem C100_rls_log_regret (o : Obj (rls ℝ n)) (hmu : o.core.mu = 1) (heps : 0 < o.core.ext.eps)
    (hR : ∀ i j, o.core.ext.R i j = if i = j then 1 / o.core.ext.eps else 0)
    {S : ℕ → Core ℝ n (RlsExt ℝ n)} (h : Runs (rls ℝ n) o d x y e S) (hn : 0 < n) (N : ℕ) {E : ℝ} (hE : ∀ k < N, |e k| ≤ E)
    (u : Vec ℝ n) :
    ∑ k ∈ range N, e k ^ 2
      ≤ (∑ k ∈ range N, (d k - ∑ i, u i * x k i) ^ 2) + o.core.ext.eps * ∑ i, (u i - o.core.w i) ^ 2
        + E ^ 2 * (n * Real.log (1 + (∑ k ∈ range N, ∑ i, x k i ^ 2) / (n * o.core.ext.eps))) := by
  have hmu0 : 0 < o.core.mu := by rw [hmu]; exact one_pos
  have hn' : (0 : ℝ) < n := by exact_mod_cast hn
  have h1 := C100_rls_regret o hmu0 heps hR h u N
  simp only [hmu, one_pow, one_mul] at h1
  set q : ℕ → ℝ := fun k => ∑ i, ∑ j, x k i * (S k).ext.R i j * x k j with hq
  have hq0 : ∀ k, 0 ≤ q k := fun k => by
    have := (rls_inv hmu0 heps hR h k).2 (x k)
    rw [quad_dot] at this
    exact this
  have hdet : ∀ k, Real.log (corrM 1 o.core.ext.eps x k).det
      = n * Real.log o.core.ext.eps + ∑ m ∈ range k, Real.log (1 + q m) := by
    intro k
    induction k with
    | zero =>
      have : corrM 1 o.core.ext.eps x 0 = o.core.ext.eps • (1 : Matrix (Fin n) (Fin n) ℝ) := by
        ext i j
        simp [corrM, rlsCorr, Matrix.one_apply]
      rw [this, det_smul]
      simp [Real.log_pow]
    | succ k ih =>
      have hinv := (rls_inv hmu0 heps hR h k).1
      rw [hmu] at hinv
      have hd := corr_det_succ x k _ hinv
      have hp := (corr_posDef heps x k).det_pos
      rw [hd, Real.log_mul hp.ne' (by have := hq0 k; show (1 + q k) ≠ 0; linarith), ih, sum_range_succ, add_assoc]
      rfl
  have hlog : ∑ m ∈ range N, Real.log (1 + q m) ≤ n * Real.log (1 + (∑ k ∈ range N, ∑ i, x k i ^ 2) / (n * o.core.ext.eps)) := by
    have h2 := log_det_le (corr_posDef heps x N) hn
    rw [hdet, corr_trace] at h2
    have hne : (0 : ℝ) < n * o.core.ext.eps := mul_pos hn' heps
    have hs : 0 ≤ ∑ k ∈ range N, ∑ i, x k i ^ 2 := sum_nonneg fun _ _ => sum_nonneg fun _ _ => sq_nonneg _
    have h3 : (n * o.core.ext.eps + ∑ k ∈ range N, ∑ i, x k i ^ 2) / n
        = o.core.ext.eps * (1 + (∑ k ∈ range N, ∑ i, x k i ^ 2) / (n * o.core.ext.eps)) := by
      field_simp
    rw [h3, Real.log_mul heps.ne' (by positivity)] at h2
    linarith
  have hterm : ∀ k ∈ range N, e k ^ 2 ≤ 1 / (1 + q k) * e k ^ 2 + E ^ 2 * Real.log (1 + q k) := by
    intro k hk
    have hk := hE k (mem_range.mp hk)
    have h2 : e k ^ 2 ≤ E ^ 2 := by rw [← sq_abs]; exact pow_le_pow_left₀ (abs_nonneg _) hk 2
    have hp : 0 < 1 + q k := by have := hq0 k; linarith
    have h3 : 1 - (1 + q k)⁻¹ ≤ Real.log (1 + q k) := Real.one_sub_inv_le_log_of_pos hp
    have h4 : 0 ≤ 1 - (1 + q k)⁻¹ := by
      have : (1 + q k)⁻¹ ≤ 1 := inv_le_one_of_one_le₀ (by have := hq0 k; linarith)
      linarith
    have h5 : e k ^ 2 * (1 - (1 + q k)⁻¹) ≤ E ^ 2 * Real.log (1 + q k) := mul_le_mul h2 h3 h4 (sq_nonneg _)
    rw [one_div]
    linarith
  have h6 := sum_le_sum hterm
  rw [sum_add_distrib, ← mul_sum] at h6
  have h7 := mul_le_mul_of_nonneg_left hlog (sq_nonneg E)
  linarith

/-- `log cosh` lies above its tangents -/
theorem logcosh_tangent (a b : ℝ) : Real.log (Real.cosh a) + Real.tanh a * (b - a) ≤ Real.log (Real.cosh b) := by
  have hca := Real.cosh_pos a
  have hcb := Real.cosh_pos b
  have hp : 0 < Real.exp a / (2 * Real.cosh a) := by positivity
  have hp' : 0 < Real.exp (-a) / (2 * Real.cosh a) := by positivity
  have hsum : Real.exp a / (2 * Real.cosh a) + Real.exp (-a) / (2 * Real.cosh a) = 1 := by
    rw [← add_div, Real.cosh_eq]; field_simp
  have hconv := convexOn_exp.2 (Set.mem_univ (b - a)) (Set.mem_univ (-(b - a))) hp.le hp'.le hsum
  simp only [smul_eq_mul] at hconv
  have h1 : Real.exp a / (2 * Real.cosh a) * (b - a) + Real.exp (-a) / (2 * Real.cosh a) * (-(b - a)) = Real.tanh a * (b - a) := by
    rw [Real.tanh_eq_sinh_div_cosh, Real.sinh_eq]; field_simp
    ring
  have h2 : Real.exp a / (2 * Real.cosh a) * Real.exp (b - a) + Real.exp (-a) / (2 * Real.cosh a) * Real.exp (-(b - a))
      = Real.cosh b / Real.cosh a := by
    have e1 : Real.exp a * Real.exp (b - a) = Real.exp b := by rw [← Real.exp_add]; congr 1; ring
    have e2 : Real.exp (-a) * Real.exp (-(b - a)) = Real.exp (-b) := by rw [← Real.exp_add]; congr 1; ring
    rw [div_mul_eq_mul_div, div_mul_eq_mul_div, e1, e2, ← add_div, Real.cosh_eq b]
    field_simp
  rw [h1, h2] at hconv
  have h3 := Real.log_le_log (Real.exp_pos _) hconv
  rw [Real.log_exp, Real.log_div hcb.ne' hca.ne'] at h3
  linarith

/-- C100: Llncosh (`mu, lambd > 0`): the total `log cosh(lambd e) / lambd` cost of the run exceeds that of any fixed weight vector by at most
`|w(0)-u|^2 / (2 mu) + mu/2 sum |x(k)|^2`, for arbitrary data - errors of any size included. -/
theorem C100_llncosh_regret (o : Obj (llncosh ℝ n)) {S : ℕ → Core ℝ n (LlncoshExt ℝ)} (h : Runs (llncosh ℝ n) o d x y e S)
    (hmu : 0 < o.core.mu) (hl : 0 < o.core.ext.lambd) (u : Vec ℝ n) (N : ℕ) :
    ∑ k ∈ range N, Real.log (Real.cosh (o.core.ext.lambd * e k)) / o.core.ext.lambd
      ≤ (∑ k ∈ range N, Real.log (Real.cosh (o.core.ext.lambd * (d k - ∑ i, u i * x k i))) / o.core.ext.lambd)
        + (∑ i, (o.core.w i - u i) ^ 2) / (2 * o.core.mu) + o.core.mu / 2 * ∑ k ∈ range N, ∑ i, x k i ^ 2 := by
  have key : sqn (fun i => (S N).w i - u i)
      + 2 * o.core.mu * ∑ k ∈ range N, Real.log (Real.cosh (o.core.ext.lambd * e k)) / o.core.ext.lambd
      ≤ 2 * o.core.mu * (∑ k ∈ range N, Real.log (Real.cosh (o.core.ext.lambd * (d k - ∑ i, u i * x k i))) / o.core.ext.lambd)
        + sqn (fun i => o.core.w i - u i) + o.core.mu ^ 2 * ∑ k ∈ range N, sqn (x k) := by
    induction N with
    | zero => rw [h.1]; simp
    | succ N ih =>
      obtain ⟨h1, h1', hy, he, hw⟩ := llncosh_runs h N
      have h2 := comparator_gain (w := (S N).w) (x := x N) (u := u) (g := o.core.mu * Real.tanh (o.core.ext.lambd * e N))
        (show e N = d N - dot (S N).w (x N) by rw [he, hy])
      have h3 : (fun i => (S (N + 1)).w i - u i)
          = fun i => ((S N).w i + o.core.mu * Real.tanh (o.core.ext.lambd * e N) * x N i) - u i := by
        rw [hw, h1, h1']; rfl
      rw [sum_range_succ, sum_range_succ, sum_range_succ, h3, h2]
      set v := d N - ∑ i, u i * x N i
      have h4 := logcosh_tangent (o.core.ext.lambd * e N) (o.core.ext.lambd * v)
      have h5 : Real.log (Real.cosh (o.core.ext.lambd * e N)) / o.core.ext.lambd + Real.tanh (o.core.ext.lambd * e N) * (v - e N)
          ≤ Real.log (Real.cosh (o.core.ext.lambd * v)) / o.core.ext.lambd := by
        rw [le_div_iff₀ hl]
        calc _ = Real.log (Real.cosh (o.core.ext.lambd * e N))
              + Real.tanh (o.core.ext.lambd * e N) * (o.core.ext.lambd * v - o.core.ext.lambd * e N) := by field_simp
          _ ≤ _ := h4
      have h6 : Real.tanh (o.core.ext.lambd * e N) ^ 2 ≤ 1 := (Real.tanh_sq_lt_one _).le
      have h7 : (o.core.mu * Real.tanh (o.core.ext.lambd * e N)) ^ 2 * sqn (x N) ≤ o.core.mu ^ 2 * sqn (x N) := by
        refine mul_le_mul_of_nonneg_right ?_ (sqn_nonneg _)
        rw [mul_pow]
        exact mul_le_of_le_one_right (sq_nonneg _) h6
      have h8 := mul_le_mul_of_nonneg_left h5 (by linarith : (0 : ℝ) ≤ 2 * o.core.mu)
      nlinarith
  have h0 := sqn_nonneg (fun i => (S N).w i - u i)
  have hm2 : 0 < 2 * o.core.mu := by linarith
  refine le_of_mul_le_mul_left ?_ hm2
  rw [mul_add, mul_add, mul_div_cancel₀ _ hm2.ne']
  have e1 : 2 * o.core.mu * (o.core.mu / 2 * ∑ k ∈ range N, ∑ i, x k i ^ 2) = o.core.mu ^ 2 * ∑ k ∈ range N, sqn (x k) := by
    unfold sqn; ring
  rw [e1]
  unfold sqn at key h0 ⊢
  linarith

/-! ### the hypotheses are met -/

example : ∃ (o : Obj (lms ℝ 2)) (d : ℕ → ℝ) (y e : ℕ → ℝ) (S : ℕ → Core ℝ 2 Unit),
    Runs (lms ℝ 2) o d turns y e S ∧ 0 < o.core.mu ∧ ∀ k, o.core.mu * ∑ i, turns k i ^ 2 ≤ (1 / 2 : ℝ) := by
  refine ⟨⟨⟨fun _ => 0, 2, 1 / 2, ()⟩, []⟩, fun k => k, _, _, _, runs_of_safe lms_safe _ trivial _ _, by norm_num, fun k => ?_⟩
  have := turns_sqn k
  show (1 / 2 : ℝ) * _ ≤ _
  linarith

end real

example : ∃ (o : Obj (nlms ℝ 2)) (d : ℕ → ℝ) (y e : ℕ → ℝ) (S : ℕ → Core ℝ 2 (EpsExt ℝ)),
    Runs (nlms ℝ 2) o d turns y e S ∧ 0 < o.core.mu ∧ 0 < o.core.ext.eps :=
  ⟨⟨⟨fun _ => 0, 2, 1 / 2, (⟨1⟩ : EpsExt ℝ)⟩, []⟩, fun k => k, _, _, _, runs_of_safe nlms_safe _ trivial _ _, by norm_num, one_pos⟩

example : ∃ (o : Obj (rls ℝ 2)) (d : ℕ → ℝ) (y e : ℕ → ℝ) (S : ℕ → Core ℝ 2 (RlsExt ℝ 2)) (E : ℝ),
    Runs (rls ℝ 2) o d turns y e S ∧ o.core.mu = 1 ∧ 0 < o.core.ext.eps ∧
    (∀ i j, o.core.ext.R i j = if i = j then 1 / o.core.ext.eps else 0) ∧ ∀ k < 1, |e k| ≤ E :=
  ⟨⟨⟨fun _ => 0, 2, 1, (⟨1, fun i j => if i = j then 1 / 1 else 0⟩ : RlsExt ℝ 2)⟩, []⟩, fun k => k + 1, _, _, _, _,
    runs_of_safe rls_safe _ (by simp [Scalar.eqz]) _ _, rfl, one_pos, fun _ _ => rfl, fun k hk => by
      cases Nat.lt_one_iff.1 hk
      exact le_refl _⟩

example : ∃ (o : Obj (llncosh ℝ 2)) (d : ℕ → ℝ) (y e : ℕ → ℝ) (S : ℕ → Core ℝ 2 (LlncoshExt ℝ)),
    Runs (llncosh ℝ 2) o d turns y e S ∧ 0 < o.core.mu ∧ 0 < o.core.ext.lambd :=
  ⟨⟨⟨fun _ => 0, 2, 1 / 2, (⟨3⟩ : LlncoshExt ℝ)⟩, []⟩, fun k => k, _, _, _, runs_of_safe llncosh_safe _ trivial _ _, by norm_num, by norm_num⟩

end Padasip
