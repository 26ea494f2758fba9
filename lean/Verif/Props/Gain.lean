import Verif.Props.Excitation
import Verif.Props.Posteriori

/-!
# C120: how eager RLS is

The gain of RLS in a direction `v` after `k` samples is `v^T R(k) v`.  Without excitation of `v` it winds up like `mu^-k`; under persistent
excitation it is bounded above; with bounded inputs and `mu < 1` it never vanishes; with `mu = 1` and persistent excitation it vanishes.
-/

set_option linter.unusedSectionVars false
set_option linter.unusedVariables false
set_option linter.unusedSimpArgs false

namespace Padasip

open Finset Matrix

section field
variable {K : Type} [Field K] [LinearOrder K] [IsStrictOrderedRing K] {n : ℕ}
variable {d : ℕ → K} {x : ℕ → Vec K n} {y e : ℕ → K}

/-- `R v` for a matrix `R` with inverse `A`: lengths and gain -/
theorem gain_upper {A R : Matrix (Fin n) (Fin n) K} (h : A * R = 1) {c : K} (hc : 0 < c)
    (hA : ∀ z : Vec K n, c * ∑ i, z i ^ 2 ≤ ∑ i, ∑ j, z i * A i j * z j) (v : Vec K n) :
    ∑ i, ∑ j, v i * R i j * v j ≤ (∑ i, v i ^ 2) / c ∧ ∑ i, (∑ j, R i j * v j) ^ 2 ≤ (∑ i, v i ^ 2) / c ^ 2 := by
  set u : Vec K n := R *ᵥ v with hu
  have hui : ∀ i, ∑ j, R i j * v j = u i := fun i => rfl
  have hAu : A *ᵥ u = v := by rw [hu, mulVec_mulVec, h, one_mulVec]
  have hg : ∑ i, ∑ j, v i * R i j * v j = ∑ i, v i * u i := by
    refine sum_congr rfl fun i _ => ?_
    rw [← hui, mul_sum]; exact sum_congr rfl fun j _ => by ring
  have hq : ∑ i, ∑ j, u i * A i j * u j = ∑ i, v i * u i := by
    refine sum_congr rfl fun i _ => ?_
    have : ∑ j, A i j * u j = v i := congrFun hAu i
    rw [← this, sum_mul]; exact sum_congr rfl fun j _ => by ring
  have h1 := hA u
  rw [hq] at h1
  have h2 := Finset.sum_mul_sq_le_sq_mul_sq univ v u
  simp only [hui]
  rw [hg]
  have hv0 : 0 ≤ ∑ i, v i ^ 2 := sum_nonneg fun _ _ => sq_nonneg _
  have hu0 : 0 ≤ ∑ i, u i ^ 2 := sum_nonneg fun _ _ => sq_nonneg _
  generalize ∑ i, v i ^ 2 = V at *
  generalize ∑ i, u i ^ 2 = U at *
  generalize ∑ i, v i * u i = q at *
  have hq0 : 0 ≤ q := (mul_nonneg hc.le hu0).trans h1
  constructor
  · rw [le_div_iff₀ hc]
    rcases hq0.eq_or_lt with h3 | h3
    · rw [← h3]; simpa using hv0
    · refine le_of_mul_le_mul_left ?_ h3
      nlinarith [mul_le_mul_of_nonneg_left h1 hv0]
  · rw [le_div_iff₀ (by positivity)]
    rcases hu0.eq_or_lt with h3 | h3
    · rw [← h3]; simpa using hv0
    · refine le_of_mul_le_mul_left ?_ h3
      have := pow_le_pow_left₀ (mul_nonneg hc.le hu0) h1 2
      nlinarith

theorem gain_lower {A R : Matrix (Fin n) (Fin n) K} (h : A * R = 1) (hsym : Aᵀ = A) {C : K} (hC : 0 < C)
    (hpos : ∀ z : Vec K n, 0 ≤ ∑ i, ∑ j, z i * A i j * z j) (v : Vec K n)
    (hA : ∑ i, ∑ j, v i * A i j * v j ≤ C * ∑ i, v i ^ 2) :
    (∑ i, v i ^ 2) / C ≤ ∑ i, ∑ j, v i * R i j * v j := by
  set u : Vec K n := R *ᵥ v with hu
  have hAu : A *ᵥ u = v := by rw [hu, mulVec_mulVec, h, one_mulVec]
  have hg : ∑ i, ∑ j, v i * R i j * v j = v ⬝ᵥ u := (quad_dot R v).symm
  have key : ∀ t : K, v ⬝ᵥ A *ᵥ v - 2 * t * (v ⬝ᵥ v) + t ^ 2 * (v ⬝ᵥ u) = (v - t • u) ⬝ᵥ A *ᵥ (v - t • u) := by
    intro t
    rw [mulVec_sub, mulVec_smul, hAu, sub_dotProduct, dotProduct_sub, dotProduct_sub, smul_dotProduct, smul_dotProduct, dotProduct_smul,
      dotProduct_smul]
    have : u ⬝ᵥ A *ᵥ v = v ⬝ᵥ v := by
      rw [dotProduct_mulVec, ← mulVec_transpose, hsym, hAu]
    rw [this, dotProduct_comm u v]
    simp only [smul_eq_mul]
    ring
  have h1 : ∀ t : K, 0 ≤ v ⬝ᵥ A *ᵥ v - 2 * t * (v ⬝ᵥ v) + t ^ 2 * (v ⬝ᵥ u) := by
    intro t
    rw [key, quad_dot]
    exact hpos _
  rw [hg]
  rw [← quad_dot] at hA
  have hV : v ⬝ᵥ v = ∑ i, v i ^ 2 := by simp [dotProduct, sq]
  rw [hV] at h1
  have hv0 : 0 ≤ ∑ i, v i ^ 2 := sum_nonneg fun _ _ => sq_nonneg _
  generalize ∑ i, v i ^ 2 = V at *
  generalize v ⬝ᵥ A *ᵥ v = a at *
  generalize v ⬝ᵥ u = q at *
  have h2 := h1 C
  rw [div_le_iff₀ hC]
  refine le_of_mul_le_mul_left ?_ hC
  nlinarith

variable {o : Obj (rls K n)} {S : ℕ → Core K n (RlsExt K n)}

/-- C120, wind-up: if all inputs so far were orthogonal to `v`, then `R v = v / (mu^k eps)`: in a direction without excitation the gain of RLS
is multiplied by `1/mu` at every sample. -/
theorem C120_windup (hmu : 0 < o.core.mu) (heps : 0 < o.core.ext.eps)
    (hR : ∀ i j, o.core.ext.R i j = if i = j then 1 / o.core.ext.eps else 0)
    (h : Runs (rls K n) o d x y e S) (k : ℕ) (v : Vec K n) (hv : ∀ m < k, ∑ i, v i * x m i = 0) (i : Fin n) :
    ∑ j, (S k).ext.R i j * v j = v i / (o.core.mu ^ k * o.core.ext.eps) := by
  have hq : 0 < o.core.mu ^ k * o.core.ext.eps := mul_pos (pow_pos hmu k) heps
  have h1 := (rls_inv hmu heps hR h k).1
  have h3 : (Matrix.of (S k).ext.R : Matrix (Fin n) (Fin n) K)
      * corrM o.core.mu o.core.ext.eps x k = 1 := mul_eq_one_comm.mp h1
  have hA : corrM o.core.mu o.core.ext.eps x k *ᵥ v = (o.core.mu ^ k * o.core.ext.eps) • v := by
    funext a
    show ∑ b, rlsCorr o.core.mu o.core.ext.eps x k a b * v b = o.core.mu ^ k * o.core.ext.eps * v a
    unfold rlsCorr
    simp only [add_mul, sum_add_distrib]
    have : ∑ b, (∑ m ∈ range k, o.core.mu ^ (k - 1 - m) * x m a * x m b) * v b = 0 := by
      simp only [sum_mul]
      rw [sum_comm]
      refine sum_eq_zero fun m hm => ?_
      have h4 := hv m (mem_range.1 hm)
      calc _ = o.core.mu ^ (k - 1 - m) * x m a * ∑ b, v b * x m b := by
            rw [mul_sum]; exact sum_congr rfl fun b _ => by ring
        _ = 0 := by rw [h4, mul_zero]
    rw [this, add_zero]
    simp
  have h5 : (Matrix.of (S k).ext.R : Matrix (Fin n) (Fin n) K) *ᵥ (corrM o.core.mu o.core.ext.eps x k *ᵥ v) = v := by
    rw [mulVec_mulVec, h3, one_mulVec]
  rw [hA, mulVec_smul] at h5
  have h6 := congrFun h5 i
  have h7 : o.core.mu ^ k * o.core.ext.eps * ∑ j, (S k).ext.R i j * v j = v i := h6
  rw [eq_div_iff hq.ne', ← h7]
  ring

/-- C120, silence: `k` zero inputs leave the weights as they are and turn `R = I/eps` into `I / (mu^k eps)`. -/
theorem C120_silence (hmu : 0 < o.core.mu) (heps : 0 < o.core.ext.eps)
    (hR : ∀ i j, o.core.ext.R i j = if i = j then 1 / o.core.ext.eps else 0)
    (h : Runs (rls K n) o d x y e S) (k : ℕ) (hx : ∀ m < k, ∀ i, x m i = 0) :
    (S k).w = o.core.w ∧ ∀ i j, (S k).ext.R i j = if i = j then 1 / (o.core.mu ^ k * o.core.ext.eps) else 0 := by
  have hz : Scalar.eqz o.core.mu = false := by
    show decide (o.core.mu = 0) = false
    simp [hmu.ne']
  constructor
  · induction k with
    | zero => rw [h.1]; rfl
    | succ k ih =>
      rw [← ih fun m hm => hx m (by omega)]
      obtain ⟨-, -, -, -, hw, -⟩ := rls_runs hz h k
      rw [hw]
      funext i
      have : matVec (rlsR (S k).mu (S k).ext.R (x k)) (x k) i = 0 := by
        rw [matVec_eq]; exact sum_eq_zero fun j _ => by rw [hx k (by omega), mul_zero]
      rw [this]; simp
  · intro i j
    have := C120_windup hmu heps hR h k (fun a => if a = j then 1 else 0) (fun m hm => sum_eq_zero fun a _ => by rw [hx m hm, mul_zero]) i
    simp only [mul_ite, mul_one, mul_zero, sum_ite_eq', mem_univ, if_true] at this
    rw [this]
    split <;> simp

/-- C120, after a silence: the first sample in a direction `v` that no earlier input excited is learned with the gain `1 / (mu^(k+1) eps + |v|^2)`;
of its error only the fraction `mu^(k+1) eps / (mu^(k+1) eps + |v|^2)` remains. -/
theorem C120_after_silence (hmu : 0 < o.core.mu) (heps : 0 < o.core.ext.eps)
    (hR : ∀ i j, o.core.ext.R i j = if i = j then 1 / o.core.ext.eps else 0)
    (h : Runs (rls K n) o d x y e S) (k : ℕ) (hv : ∀ m < k, ∑ i, x k i * x m i = 0) :
    (∀ i, (S (k + 1)).w i = (S k).w i + e k * x k i / (o.core.mu ^ (k + 1) * o.core.ext.eps + ∑ i, x k i ^ 2)) ∧
    d k - ∑ i, (S (k + 1)).w i * x k i
      = o.core.mu ^ (k + 1) * o.core.ext.eps / (o.core.mu ^ (k + 1) * o.core.ext.eps + ∑ i, x k i ^ 2) * e k := by
  have hz : Scalar.eqz o.core.mu = false := by
    show decide (o.core.mu = 0) = false
    simp [hmu.ne']
  have hq : 0 < o.core.mu ^ k * o.core.ext.eps := mul_pos (pow_pos hmu k) heps
  have hs : 0 ≤ ∑ i, x k i ^ 2 := sum_nonneg fun _ _ => sq_nonneg _
  obtain ⟨h1, -, hy, he, hw, -⟩ := rls_runs hz h k
  obtain ⟨-, -, -, -, hQ⟩ := C24_inverse_correlation o hmu heps hR h k
  have hRv := C120_windup hmu heps hR h k (x k) hv
  have hquad : ∑ i, ∑ j, x k i * (S k).ext.R i j * x k j = (∑ i, x k i ^ 2) / (o.core.mu ^ k * o.core.ext.eps) := by
    rw [sum_div]
    refine sum_congr rfl fun i _ => ?_
    rw [sq, mul_div_assoc, ← hRv i, mul_sum]
    exact sum_congr rfl fun j _ => by ring
  have hg : ∀ i, matVec (rlsR (S k).mu (S k).ext.R (x k)) (x k) i
      = x k i / (o.core.mu ^ (k + 1) * o.core.ext.eps + ∑ i, x k i ^ 2) := fun i => by
    rw [h1, rls_gain _ hmu.ne' _ _ hQ.ne' i, hRv, hquad, div_div, pow_succ]
    congr 1
    field_simp
  have hw' : ∀ i, (S (k + 1)).w i = (S k).w i + e k * x k i / (o.core.mu ^ (k + 1) * o.core.ext.eps + ∑ i, x k i ^ 2) := fun i => by
    rw [hw]
    simp only [hg]
    ring
  refine ⟨hw', ?_⟩
  have hD : o.core.mu ^ (k + 1) * o.core.ext.eps + ∑ i, x k i ^ 2 ≠ 0 :=
    (add_pos_of_pos_of_nonneg (mul_pos (pow_pos hmu _) heps) hs).ne'
  have h5 : ∑ i, (S (k + 1)).w i * x k i
      = y k + e k / (o.core.mu ^ (k + 1) * o.core.ext.eps + ∑ i, x k i ^ 2) * ∑ i, x k i ^ 2 := by
    rw [hy, dot_eq, mul_sum, ← sum_add_distrib]
    exact sum_congr rfl fun i _ => by rw [hw']; ring
  rw [h5, he]
  generalize ∑ i, x k i ^ 2 = s at *
  field_simp
  ring

/-- C120: whatever the inputs, the gain is at most `|v|^2 / (mu^k eps)`. -/
theorem C120_gain_le (hmu : 0 < o.core.mu) (heps : 0 < o.core.ext.eps)
    (hR : ∀ i j, o.core.ext.R i j = if i = j then 1 / o.core.ext.eps else 0)
    (h : Runs (rls K n) o d x y e S) (k : ℕ) (v : Vec K n) :
    ∑ i, ∑ j, v i * (S k).ext.R i j * v j ≤ (∑ i, v i ^ 2) / (o.core.mu ^ k * o.core.ext.eps) := by
  refine (gain_upper (rls_inv hmu heps hR h k).1 (mul_pos (pow_pos hmu k) heps) (fun z => ?_) v).1
  show _ ≤ ∑ i, ∑ j, z i * rlsCorr o.core.mu o.core.ext.eps x k i j * z j
  rw [rlsCorr_quad]
  have : 0 ≤ ∑ m ∈ range k, o.core.mu ^ (k - 1 - m) * (∑ i, z i * x m i) ^ 2 :=
    sum_nonneg fun m _ => mul_nonneg (pow_pos hmu _).le (sq_nonneg _)
  linarith

/-- C120: under persistent excitation and with `mu <= 1` the gain is bounded: from sample `T` on it is at most `|v|^2 / (mu^(T-1) α)`. -/
theorem C120_gain_bounded (hmu : 0 < o.core.mu) (hmu1 : o.core.mu ≤ 1) (heps : 0 < o.core.ext.eps)
    (hR : ∀ i j, o.core.ext.R i j = if i = j then 1 / o.core.ext.eps else 0)
    (h : Runs (rls K n) o d x y e S) {T : ℕ} {α : K} (hα : 0 < α) (hpe : Exciting x T α) (k : ℕ) (hk : T ≤ k) (v : Vec K n) :
    ∑ i, ∑ j, v i * (S k).ext.R i j * v j ≤ (∑ i, v i ^ 2) / (o.core.mu ^ (T - 1) * α) := by
  refine (gain_upper (rls_inv hmu heps hR h k).1 (mul_pos (pow_pos hmu _) hα) (fun z => ?_) v).1
  show _ ≤ ∑ i, ∑ j, z i * rlsCorr o.core.mu o.core.ext.eps x k i j * z j
  rw [rlsCorr_quad]
  have hq : 0 ≤ o.core.mu ^ k * o.core.ext.eps * ∑ i, z i ^ 2 := mul_nonneg (mul_pos (pow_pos hmu k) heps).le (sum_nonneg fun _ _ => sq_nonneg _)
  obtain ⟨m, rfl⟩ := Nat.exists_eq_add_of_le' hk
  rw [sum_range_add]
  have h0 : 0 ≤ ∑ t ∈ range m, o.core.mu ^ (m + T - 1 - t) * (∑ i, z i * x t i) ^ 2 :=
    sum_nonneg fun t _ => mul_nonneg (pow_pos hmu _).le (sq_nonneg _)
  have h1 : o.core.mu ^ (T - 1) * ∑ j ∈ range T, (∑ i, z i * x (m + j) i) ^ 2
      ≤ ∑ j ∈ range T, o.core.mu ^ (m + T - 1 - (m + j)) * (∑ i, z i * x (m + j) i) ^ 2 := by
    rw [mul_sum]
    exact sum_le_sum fun j _ => mul_le_mul_of_nonneg_right
      (pow_le_pow_of_le_one hmu.le hmu1 (by omega)) (sq_nonneg _)
  have h2 := mul_le_mul_of_nonneg_left (hpe m z) (pow_pos hmu (T - 1)).le
  linarith

/-- C120: with `mu < 1` and bounded inputs RLS stays alert for ever: its gain is at least `|v|^2 / (eps + B / (1 - mu))`. -/
theorem C120_never_off (hmu : 0 < o.core.mu) (hmu1 : o.core.mu < 1) (heps : 0 < o.core.ext.eps)
    (hR : ∀ i j, o.core.ext.R i j = if i = j then 1 / o.core.ext.eps else 0)
    (h : Runs (rls K n) o d x y e S) {B : K} (hx : ∀ k, ∑ i, x k i ^ 2 ≤ B) (k : ℕ) (v : Vec K n) :
    (∑ i, v i ^ 2) / (o.core.ext.eps + B / (1 - o.core.mu)) ≤ ∑ i, ∑ j, v i * (S k).ext.R i j * v j := by
  have hB : 0 ≤ B := (sum_nonneg fun _ _ => sq_nonneg _).trans (hx 0)
  have h1 : 0 < 1 - o.core.mu := by linarith
  refine gain_lower (rls_inv hmu heps hR h k).1 (corrM_symm _ _ _ _) (by positivity) (rlsCorr_quad_nonneg hmu heps x k) v ?_
  show ∑ i, ∑ j, v i * rlsCorr o.core.mu o.core.ext.eps x k i j * v j ≤ _
  rw [rlsCorr_quad]
  have hv0 : 0 ≤ ∑ i, v i ^ 2 := sum_nonneg fun _ _ => sq_nonneg _
  have h2 : ∑ m ∈ range k, o.core.mu ^ (k - 1 - m) * (∑ i, v i * x m i) ^ 2
      ≤ ∑ m ∈ range k, o.core.mu ^ (k - 1 - m) * ((∑ i, v i ^ 2) * B) := by
    refine sum_le_sum fun m _ => mul_le_mul_of_nonneg_left ?_ (pow_pos hmu _).le
    exact (Finset.sum_mul_sq_le_sq_mul_sq univ v (x m)).trans (mul_le_mul_of_nonneg_left (hx m) hv0)
  have h3 : ∑ m ∈ range k, o.core.mu ^ (k - 1 - m) ≤ 1 / (1 - o.core.mu) := by
    rw [sum_range_reflect (fun m => o.core.mu ^ m) k, le_div_iff₀ h1, geom_sum_mul_neg]
    have := pow_pos hmu k
    linarith
  rw [← sum_mul] at h2
  have h4 := mul_le_mul_of_nonneg_right h3 (mul_nonneg hv0 hB)
  have h5 : o.core.mu ^ k * o.core.ext.eps * ∑ i, v i ^ 2 ≤ o.core.ext.eps * ∑ i, v i ^ 2 := by
    refine mul_le_mul_of_nonneg_right ?_ hv0
    exact mul_le_of_le_one_left heps.le (pow_le_one₀ hmu.le hmu1.le)
  rw [add_mul]
  have h6 : 1 / (1 - o.core.mu) * ((∑ i, v i ^ 2) * B) = B / (1 - o.core.mu) * ∑ i, v i ^ 2 := by ring
  linarith

/-- C120: with `mu = 1` RLS switches itself off under persistent excitation: after `k` samples the gain is at most
`|v|^2 / (eps + α floor(k/T))`, and the step made at the sample before is at most `|e| |x| / (eps + α floor(k/T))`. -/
theorem C120_switches_off (hmu : o.core.mu = 1) (heps : 0 < o.core.ext.eps)
    (hR : ∀ i j, o.core.ext.R i j = if i = j then 1 / o.core.ext.eps else 0)
    (h : Runs (rls K n) o d x y e S) {T : ℕ} {α : K} (hα : 0 ≤ α) (hpe : Exciting x T α) (k : ℕ) :
    (∀ v : Vec K n, ∑ i, ∑ j, v i * (S k).ext.R i j * v j ≤ (∑ i, v i ^ 2) / (o.core.ext.eps + α * (k / T : ℕ))) ∧
    ∑ i, ((S (k + 1)).w i - (S k).w i) ^ 2 ≤ e k ^ 2 * (∑ i, x k i ^ 2) / (o.core.ext.eps + α * ((k + 1) / T : ℕ)) ^ 2 := by
  have hmu0 : 0 < o.core.mu := by rw [hmu]; exact one_pos
  have hz : Scalar.eqz o.core.mu = false := by
    show decide (o.core.mu = 0) = false
    simp [hmu]
  have hA : ∀ k, ∀ z : Vec K n, (o.core.ext.eps + α * (k / T : ℕ)) * ∑ i, z i ^ 2
      ≤ ∑ i, ∑ j, z i * rlsCorr o.core.mu o.core.ext.eps x k i j * z j := by
    intro k z
    rw [rlsCorr_quad]
    simp only [hmu, one_pow, one_mul]
    have h1 := blocks_excite hpe z (k / T)
    have h2 : ∑ m ∈ range (k / T * T), (∑ i, z i * x m i) ^ 2 ≤ ∑ m ∈ range k, (∑ i, z i * x m i) ^ 2 :=
      sum_le_sum_of_subset_of_nonneg (range_subset_range.mpr (Nat.div_mul_le_self k T)) fun _ _ _ => sq_nonneg _
    linarith
  have hc : ∀ k : ℕ, 0 < o.core.ext.eps + α * (k / T : ℕ) := fun k =>
    add_pos_of_pos_of_nonneg heps (mul_nonneg hα (Nat.cast_nonneg _))
  refine ⟨fun v => (gain_upper (rls_inv hmu0 heps hR h k).1 (hc k) (hA k) v).1, ?_⟩
  have h2 := (gain_upper (rls_inv hmu0 heps hR h (k + 1)).1 (hc (k + 1)) (hA (k + 1)) (x k)).2
  obtain ⟨-, -, -, -, hw, hR'⟩ := rls_runs hz h k
  have h3 : ∀ i, (S (k + 1)).w i - (S k).w i = e k * ∑ j, (S (k + 1)).ext.R i j * x k j := by
    intro i
    rw [hw, hR']
    simp only [matVec_eq]
    ring
  simp only [h3, mul_pow, ← mul_sum]
  rw [mul_div_assoc]
  exact mul_le_mul_of_nonneg_left h2 (sq_nonneg _)

end field

section real
variable {n : ℕ} {d : ℕ → ℝ} {x : ℕ → Vec ℝ n} {y e : ℕ → ℝ} {o : Obj (rls ℝ n)} {S : ℕ → Core ℝ n (RlsExt ℝ n)}

/-- C120: with `mu < 1` the gain in a direction that is never excited exceeds every bound. -/
theorem C120_windup_limit (hmu : 0 < o.core.mu) (hmu1 : o.core.mu < 1) (heps : 0 < o.core.ext.eps)
    (hR : ∀ i j, o.core.ext.R i j = if i = j then 1 / o.core.ext.eps else 0)
    (h : Runs (rls ℝ n) o d x y e S) (v : Vec ℝ n) (hv0 : v ≠ 0) (hv : ∀ m, ∑ i, v i * x m i = 0) :
    (∀ k, ∑ i, ∑ j, v i * (S k).ext.R i j * v j = (∑ i, v i ^ 2) / (o.core.mu ^ k * o.core.ext.eps)) ∧
    Filter.Tendsto (fun k => ∑ i, ∑ j, v i * (S k).ext.R i j * v j) Filter.atTop Filter.atTop := by
  have key : ∀ k, ∑ i, ∑ j, v i * (S k).ext.R i j * v j = (∑ i, v i ^ 2) / (o.core.mu ^ k * o.core.ext.eps) := by
    intro k
    rw [sum_div]
    refine sum_congr rfl fun i _ => ?_
    rw [sq, mul_div_assoc, ← C120_windup hmu heps hR h k v (fun m _ => hv m) i, mul_sum]
    exact sum_congr rfl fun j _ => by ring
  refine ⟨key, ?_⟩
  have hs : 0 < ∑ i, v i ^ 2 := by
    obtain ⟨i, hi⟩ := Function.ne_iff.mp hv0
    exact sum_pos' (fun _ _ => sq_nonneg _) ⟨i, mem_univ _, pow_pos (abs_pos.2 hi) 2 |>.trans_eq (sq_abs _)⟩
  have h1 : (fun k => ∑ i, ∑ j, v i * (S k).ext.R i j * v j) = fun k => (∑ i, v i ^ 2) / o.core.ext.eps * (o.core.mu⁻¹) ^ k := by
    funext k
    rw [key, inv_pow, div_mul_eq_div_div_swap, div_eq_mul_inv _ (o.core.mu ^ k)]
  rw [h1]
  exact (tendsto_pow_atTop_atTop_of_one_lt ((one_lt_inv₀ hmu).2 hmu1)).const_mul_atTop (div_pos hs heps)

/-- the hypotheses of C120 are met: an RLS filter of two weights whose second input is always 0 -/
example : ∃ (o : Obj (rls ℝ 2)) (y e : ℕ → ℝ) (S : ℕ → Core ℝ 2 (RlsExt ℝ 2)),
    0 < o.core.mu ∧ o.core.mu < 1 ∧ 0 < o.core.ext.eps ∧ (∀ i j, o.core.ext.R i j = if i = j then 1 / o.core.ext.eps else 0) ∧
    Runs (rls ℝ 2) o (fun k => k) (fun k => ![(k : ℝ) + 1, 0]) y e S ∧ (![0, 1] : Vec ℝ 2) ≠ 0 ∧
    ∀ m : ℕ, ∑ i, (![0, 1] : Vec ℝ 2) i * (![(m : ℝ) + 1, 0] : Vec ℝ 2) i = 0 := by
  refine ⟨⟨⟨fun _ => 0, 2, 1 / 2, (⟨1 / 10, fun i j => if i = j then 1 / (1 / 10) else 0⟩ : RlsExt ℝ 2)⟩, []⟩, _, _, _,
    by norm_num, by norm_num, by norm_num, fun _ _ => rfl, runs_of_safe rls_safe _ ?_ _ _, ?_, ?_⟩
  · show decide ((1 / 2 : ℝ) = 0) = false
    norm_num
  · intro h0
    have := congrFun h0 1
    simp at this
  · intro m
    simp [Fin.sum_univ_two]

/-- an exciting, bounded stream, with `mu = 1` and with `mu < 1` -/
example (m : ℝ) (hm : m ≠ 0) : ∃ (o : Obj (rls ℝ 2)) (y e : ℕ → ℝ) (S : ℕ → Core ℝ 2 (RlsExt ℝ 2)),
    o.core.mu = m ∧ 0 < o.core.ext.eps ∧ (∀ i j, o.core.ext.R i j = if i = j then 1 / o.core.ext.eps else 0) ∧
    Runs (rls ℝ 2) o (fun k => k) turns y e S ∧ Exciting turns 2 1 ∧ ∀ k, ∑ i, turns k i ^ 2 ≤ 1 := by
  refine ⟨⟨⟨fun _ => 0, 2, m, (⟨1 / 10, fun i j => if i = j then 1 / (1 / 10) else 0⟩ : RlsExt ℝ 2)⟩, []⟩, _, _, _,
    rfl, by norm_num, fun _ _ => rfl, runs_of_safe rls_safe _ ?_ _ _, turns_exciting, turns_sqn⟩
  show decide (m = 0) = false
  simp [hm]

end real

end Padasip
