import Verif.Props.Tracking
import Verif.Props.Posteriori
import Verif.Props.Optimal

/-!
# C113: noise robustness of RLS and AP

`d(k) = <ws, x(k)> + v(k)` with arbitrary noise `v`: no statistics, no smallness, no excitation.  (LMS: C23, NLMS: C85.)
-/

set_option linter.unusedSectionVars false
set_option linter.unusedVariables false

namespace Padasip

open Finset

section field
variable {K : Type} [Field K] [LinearOrder K] [IsStrictOrderedRing K] {n : ℕ}
variable {d : ℕ → K} {x : ℕ → Vec K n} {y e : ℕ → K}

/-- C85: NLMS with `0 <= mu <= 1`: the final misalignment is at most the initial one plus `mu / eps` times the energy of the noise, for inputs of any size. -/
theorem C85_misalignment (o : Obj (nlms K n)) {S : ℕ → Core K n (EpsExt K)} (h : Runs (nlms K n) o d x y e S)
    (ws : Vec K n) (v : ℕ → K) (hd : ∀ k, d k = (∑ i, ws i * x k i) + v k) (heps : 0 < o.core.ext.eps)
    (hmu : 0 ≤ o.core.mu) (hmu1 : o.core.mu ≤ 1) (N : ℕ) :
    ∑ i, ((S N).w i - ws i) ^ 2 ≤ (∑ i, (o.core.w i - ws i) ^ 2) + o.core.mu / o.core.ext.eps * ∑ k ∈ range N, v k ^ 2 := by
  have h1 := C85_robust o h ws v hd hmu hmu1 heps N
  have hp : ∀ k, 0 ≤ ∑ i, x k i ^ 2 := fun k => sum_nonneg fun _ _ => sq_nonneg _
  have h2 : 0 ≤ o.core.mu * (∑ k ∈ range N, (e k - v k) ^ 2 / (o.core.ext.eps + ∑ i, x k i ^ 2)) :=
    mul_nonneg hmu (sum_nonneg fun k _ => div_nonneg (sq_nonneg _) (by linarith [hp k]))
  have h3 : o.core.mu * ∑ k ∈ range N, v k ^ 2 / (o.core.ext.eps + ∑ i, x k i ^ 2)
      ≤ o.core.mu / o.core.ext.eps * ∑ k ∈ range N, v k ^ 2 := by
    rw [div_mul_eq_mul_div, mul_div_assoc, sum_div]
    exact mul_le_mul_of_nonneg_left (sum_le_sum fun k _ =>
      div_le_div_of_nonneg_left (sq_nonneg _) heps (by linarith [hp k])) hmu
  linarith

/-- C113: a new RLS filter with forgetting factor `mu > 0`, `eps > 0` and arbitrary noise: the weighted misalignment (regularisation plus the weighted errors of the current
weights on the noise-free past) is at most its initial value, forgotten, plus the weighted energy of the noise. -/
theorem C113_rls_robust (o : Obj (rls K n)) (hmu : 0 < o.core.mu) (heps : 0 < o.core.ext.eps)
    (hR : ∀ i j, o.core.ext.R i j = if i = j then 1 / o.core.ext.eps else 0)
    {S : ℕ → Core K n (RlsExt K n)} (h : Runs (rls K n) o d x y e S) (ws : Vec K n) (v : ℕ → K)
    (hd : ∀ k, d k = (∑ i, ws i * x k i) + v k) (k : ℕ) :
    o.core.mu ^ k * o.core.ext.eps * ∑ i, ((S k).w i - ws i) ^ 2
        + ∑ m ∈ range k, o.core.mu ^ (k - 1 - m) * (∑ i, ((S k).w i - ws i) * x m i) ^ 2
      ≤ o.core.mu ^ k * o.core.ext.eps * ∑ i, (o.core.w i - ws i) ^ 2 + ∑ m ∈ range k, o.core.mu ^ (k - 1 - m) * v m ^ 2 := by
  set u : Vec K n := fun i => (S k).w i - ws i with hu
  set u0 : Vec K n := fun i => o.core.w i - ws i with hu0
  set q := o.core.mu ^ k * o.core.ext.eps with hq
  have hq0 : 0 < q := mul_pos (pow_pos hmu k) heps
  have h1 := rlsCorr_quad o.core.mu o.core.ext.eps x k u
  have h2 : ∑ i, ∑ j, u i * rlsCorr o.core.mu o.core.ext.eps x k i j * u j
      = q * (∑ i, u i * u0 i) + ∑ m ∈ range k, o.core.mu ^ (k - 1 - m) * (v m * ∑ i, u i * x m i) := by
    have h3 : ∀ i, ∑ j, u i * rlsCorr o.core.mu o.core.ext.eps x k i j * u j
        = q * (u i * u0 i) + ∑ m ∈ range k, o.core.mu ^ (k - 1 - m) * (v m * (u i * x m i)) := by
      intro i
      have := rls_normal hmu heps hR h ws k i
      calc _ = u i * ∑ j, rlsCorr o.core.mu o.core.ext.eps x k i j * ((S k).w j - ws j) := by
            rw [mul_sum]; exact sum_congr rfl fun j _ => by simp only [hu]; ring
        _ = _ := by
          rw [this, mul_add, mul_sum]
          congr 1
          · simp only [hu0]; ring
          · exact sum_congr rfl fun m _ => by rw [hd]; ring
    rw [sum_congr rfl fun i _ => h3 i, sum_add_distrib, mul_sum]
    congr 1
    rw [sum_comm]
    exact sum_congr rfl fun m _ => by rw [← mul_sum, ← mul_sum]
  rw [h2] at h1
  have h4 : ∑ i, u i * u0 i ≤ (∑ i, u i ^ 2 + ∑ i, u0 i ^ 2) / 2 := by
    rw [← sum_add_distrib, sum_div]
    exact sum_le_sum fun i _ => by linarith [two_mul_le_add_sq (u i) (u0 i)]
  have h5 : ∑ m ∈ range k, o.core.mu ^ (k - 1 - m) * (v m * ∑ i, u i * x m i)
      ≤ (∑ m ∈ range k, o.core.mu ^ (k - 1 - m) * v m ^ 2 + ∑ m ∈ range k, o.core.mu ^ (k - 1 - m) * (∑ i, u i * x m i) ^ 2) / 2 := by
    rw [← sum_add_distrib, sum_div]
    refine sum_le_sum fun m _ => ?_
    rw [← mul_add, mul_div_assoc]
    exact mul_le_mul_of_nonneg_left (by linarith [two_mul_le_add_sq (v m) (∑ i, u i * x m i)]) (pow_pos hmu _).le
  have h6 := mul_le_mul_of_nonneg_left h4 hq0.le
  rw [mul_div_assoc', mul_add] at h6
  linarith

/-- C113: with excitation of strength `β` (weighted like the cost), the plain misalignment of RLS is bounded by `(mu^k eps |w0 - ws|^2 + weighted noise energy) / (mu^k eps + β)`. -/
theorem C113_rls_excited (o : Obj (rls K n)) (hmu : 0 < o.core.mu) (heps : 0 < o.core.ext.eps)
    (hR : ∀ i j, o.core.ext.R i j = if i = j then 1 / o.core.ext.eps else 0)
    {S : ℕ → Core K n (RlsExt K n)} (h : Runs (rls K n) o d x y e S) (ws : Vec K n) (v : ℕ → K)
    (hd : ∀ k, d k = (∑ i, ws i * x k i) + v k) (k : ℕ) {β : K}
    (hex : ∀ v : Vec K n, β * ∑ i, v i ^ 2 ≤ ∑ m ∈ range k, o.core.mu ^ (k - 1 - m) * (∑ i, v i * x m i) ^ 2) :
    (o.core.mu ^ k * o.core.ext.eps + β) * ∑ i, ((S k).w i - ws i) ^ 2
      ≤ o.core.mu ^ k * o.core.ext.eps * ∑ i, (o.core.w i - ws i) ^ 2 + ∑ m ∈ range k, o.core.mu ^ (k - 1 - m) * v m ^ 2 := by
  have h1 := C113_rls_robust o hmu heps hR h ws v hd k
  have h2 := hex fun i => (S k).w i - ws i
  rw [add_mul]
  linarith

theorem geom_le {mu : K} (hmu : 0 < mu) (hmu1 : mu < 1) (k : ℕ) : (∑ m ∈ range k, mu ^ (k - 1 - m)) * (1 - mu) ≤ 1 := by
  rw [sum_range_reflect (fun m => mu ^ m) k]
  have := geom_sum_mul_neg mu k
  rw [this]
  linarith [pow_pos hmu k]

/-- C113: RLS with a forgetting factor `0 < mu < 1`, noise bounded by `V`, persistently exciting inputs: from sample `T` on the squared misalignment is at most
`(mu^k eps |w0 - ws|^2 + V^2 / (1 - mu)) / (mu^(T-1) α)`: the initial weights are forgotten, a level proportional to the noise remains. -/
theorem C113_rls_steady_state (o : Obj (rls K n)) (hmu : 0 < o.core.mu) (hmu1 : o.core.mu < 1) (heps : 0 < o.core.ext.eps)
    (hR : ∀ i j, o.core.ext.R i j = if i = j then 1 / o.core.ext.eps else 0)
    {S : ℕ → Core K n (RlsExt K n)} (h : Runs (rls K n) o d x y e S) (ws : Vec K n) (v : ℕ → K)
    (hd : ∀ k, d k = (∑ i, ws i * x k i) + v k) {V : K} (hV : ∀ k, |v k| ≤ V)
    {T : ℕ} {α : K} (hα : 0 < α) (hpe : Exciting x T α) (k : ℕ) (hk : T ≤ k) :
    ∑ i, ((S k).w i - ws i) ^ 2
      ≤ (o.core.mu ^ k * o.core.ext.eps * (∑ i, (o.core.w i - ws i) ^ 2) + V ^ 2 / (1 - o.core.mu)) / (o.core.mu ^ (T - 1) * α) := by
  have hb : 0 < o.core.mu ^ (T - 1) * α := mul_pos (pow_pos hmu _) hα
  have h1 := C113_rls_excited o hmu heps hR h ws v hd k (β := o.core.mu ^ (T - 1) * α) (by
      intro v
      obtain ⟨m, rfl⟩ := Nat.exists_eq_add_of_le' hk
      rw [sum_range_add]
      have h0 : 0 ≤ ∑ t ∈ range m, o.core.mu ^ (m + T - 1 - t) * (∑ i, v i * x t i) ^ 2 :=
        sum_nonneg fun t _ => mul_nonneg (pow_pos hmu _).le (sq_nonneg _)
      have h1 : o.core.mu ^ (T - 1) * ∑ j ∈ range T, (∑ i, v i * x (m + j) i) ^ 2
          ≤ ∑ j ∈ range T, o.core.mu ^ (m + T - 1 - (m + j)) * (∑ i, v i * x (m + j) i) ^ 2 := by
        rw [mul_sum]
        exact sum_le_sum fun j _ => mul_le_mul_of_nonneg_right
          (pow_le_pow_of_le_one hmu.le hmu1.le (by omega)) (sq_nonneg _)
      have h2 := mul_le_mul_of_nonneg_left (hpe m v) (pow_pos hmu (T - 1)).le
      linarith)
  have h2 : ∑ m ∈ range k, o.core.mu ^ (k - 1 - m) * v m ^ 2 ≤ V ^ 2 / (1 - o.core.mu) := by
    rw [le_div_iff₀ (by linarith)]
    have h3 : ∑ m ∈ range k, o.core.mu ^ (k - 1 - m) * v m ^ 2 ≤ ∑ m ∈ range k, o.core.mu ^ (k - 1 - m) * V ^ 2 :=
      sum_le_sum fun m _ => mul_le_mul_of_nonneg_left (sq_le_sq' (by linarith [abs_le.mp (hV m)]) (abs_le.mp (hV m)).2) (pow_pos hmu _).le
    rw [← sum_mul] at h3
    have h4 := mul_le_mul_of_nonneg_right (geom_le hmu hmu1 k) (sq_nonneg V)
    have h5 := mul_le_mul_of_nonneg_right h3 (by linarith : 0 ≤ 1 - o.core.mu)
    nlinarith
  have h3 : 0 ≤ o.core.mu ^ k * o.core.ext.eps * ∑ i, ((S k).w i - ws i) ^ 2 :=
    mul_nonneg (mul_nonneg (pow_pos hmu k).le heps.le) (sum_nonneg fun _ _ => sq_nonneg _)
  rw [le_div_iff₀ hb]
  rw [add_mul] at h1
  linarith

/-! ### AP -/

variable {order : ℕ}

/-- the noise in the memory of AP: what the remembered targets differ from the noise-free ones -/
theorem ap_noise_runs (solve : Solver K) (ho : 0 < order) {o : Obj (ap K n solve order)}
    (hsol : ∀ X : Mat K n order, ∃ P, solve order (apGram o.core.ext.ifc X) (eye order) = .ok P)
    {S : ℕ → Core K n (ApExt K n order)} (h : Runs (ap K n solve order) o d x y e S) (ws : Vec K n) (v : ℕ → K)
    (hfit : ∀ j, o.core.ext.dMem j = ∑ i, ws i * o.core.ext.xMem i j)
    (hd : ∀ k, d k = (∑ i, ws i * x k i) + v k) (k : ℕ) :
    ∀ j : Fin order, apD (S k) (d k) j = (∑ i, ws i * apX (S k) (x k) i j) + newest 0 v k j.val := by
  induction k with
  | zero =>
    intro j
    by_cases hj : j.val = 0
    · simp [apD, apX, newest, hj, hd]
    · have : ¬ j.val ≤ 0 := by omega
      simp only [apD, apX, newest, hj, this, if_false, shiftVec, shiftCols, h.1, add_zero]
      exact hfit _
  | succ k ih =>
    obtain ⟨-, -, P, -, -, -, -, h1, h2, -⟩ := ap_runs ho hsol h k
    intro j
    by_cases hj : j.val = 0
    · simp [apD, apX, newest, hj, hd]
    · rw [apD_of_ne _ _ _ hj, h2, ih]
      congr 1
      · exact sum_congr rfl fun i _ => by rw [apX_of_ne _ _ _ _ hj, h1]
      · unfold newest
        by_cases hk : j.val ≤ k + 1
        · rw [if_pos hk, if_pos (by omega : j.val - 1 ≤ k), show k + 1 - j.val = k - (j.val - 1) by omega]
        · rw [if_neg hk, if_neg (by omega : ¬ j.val - 1 ≤ k)]

/-- one step of AP with noise `nz` in the memory -/
theorem ap_energy_noise (X : Mat K n order) (c mu : K) (hc : 0 < c) (hmu : 0 ≤ mu) (hmu2 : mu ≤ 2) (P : Mat K order order)
    (hP : matMul (apGram c X) P = eye order) (u : Vec K n) (er nz : Vec K order) (her : ∀ j, er j = nz j - ∑ i, X i j * u i) :
    sqn (fun i => u i + mu * dot (X i) (matVec P er)) ≤ sqn u + mu / (2 * c) * sqn nz := by
  set g : Vec K order := matVec P er with hg
  have h1 : ∀ a, (∑ i, X i a * dot (X i) g) + c * g a = er a := fun a => gram_solution X c P hP er a
  -- the inner product of the step with `u`
  have h2 : ∑ i, u i * dot (X i) g = (∑ a, nz a * g a) - sqn (fun i => dot (X i) g) - c * sqn g := by
    have e1 : ∑ i, u i * dot (X i) g = ∑ a, (∑ i, X i a * u i) * g a := by
      simp only [dot_eq, mul_sum, sum_mul]
      rw [sum_comm]
      exact sum_congr rfl fun a _ => sum_congr rfl fun i _ => by ring
    have e2 : ∀ a, (∑ i, X i a * u i) * g a = nz a * g a - (∑ i, X i a * dot (X i) g) * g a - c * g a ^ 2 := by
      intro a
      have : ∑ i, X i a * u i = nz a - er a := by rw [her]; ring
      rw [this, ← h1]; ring
    have e3 : ∑ a, (∑ i, X i a * dot (X i) g) * g a = sqn (fun i => dot (X i) g) := by
      have : ∀ i, dot (X i) g ^ 2 = ∑ a, X i a * dot (X i) g * g a := by
        intro i
        conv_lhs => rw [pow_two]; lhs; rw [dot_eq]
        rw [sum_mul]
        exact sum_congr rfl fun a _ => by ring
      simp only [sqn, this, sum_mul]
      rw [sum_comm]
    rw [e1, sum_congr rfl fun a _ => e2 a, sum_sub_distrib, sum_sub_distrib, e3, ← mul_sum]
    rfl
  have h3 : ∑ a, nz a * g a ≤ c * sqn g + sqn nz / (4 * c) := by
    simp only [sqn, mul_sum, sum_div, ← sum_add_distrib]
    refine sum_le_sum fun a _ => ?_
    have : 0 ≤ (2 * c * g a - nz a) ^ 2 / (4 * c) := div_nonneg (sq_nonneg _) (by linarith)
    have e : (2 * c * g a - nz a) ^ 2 / (4 * c) = c * g a ^ 2 + nz a ^ 2 / (4 * c) - nz a * g a := by
      field_simp; ring
    linarith
  have h4 := sqn_add_smul u (fun i => dot (X i) g) mu
  rw [h4, h2]
  have h5 := sqn_nonneg fun i => dot (X i) g
  have h6 : mu / (2 * c) * sqn nz = 2 * mu * (sqn nz / (4 * c)) := by field_simp; ring
  rw [h6]
  have h7 := mul_le_mul_of_nonneg_left h3 (by linarith : 0 ≤ 2 * mu)
  have h8 := mul_nonneg (mul_nonneg hmu (sub_nonneg.mpr hmu2)) h5
  nlinarith

theorem newest_energy (v : ℕ → K) (order N : ℕ) :
    ∑ k ∈ range N, ∑ j ∈ range order, newest 0 v k j ^ 2 ≤ order * ∑ k ∈ range N, v k ^ 2 := by
  have h1 : ∀ j, ∑ k ∈ range N, newest 0 v k j ^ 2 ≤ ∑ k ∈ range N, v k ^ 2 := by
    intro j
    have h2 : ∑ k ∈ range N, newest 0 v k j ^ 2 = ∑ k ∈ range (N - j), v k ^ 2 := by
      rcases le_total j N with hj | hj
      · obtain ⟨m, rfl⟩ := Nat.exists_eq_add_of_le hj
        rw [sum_range_add, sum_eq_zero, zero_add, Nat.add_sub_cancel_left]
        · exact sum_congr rfl fun k _ => by simp [newest]
        · intro k hk
          have := mem_range.mp hk
          simp [newest, not_le.mpr this]
      · rw [Nat.sub_eq_zero_of_le hj, sum_range_zero, sum_eq_zero]
        intro k hk
        have := mem_range.mp hk
        simp [newest, not_le.mpr (lt_of_lt_of_le this hj)]
    rw [h2]
    exact sum_le_sum_of_subset_of_nonneg (range_subset_range.mpr (Nat.sub_le _ _)) fun _ _ _ => sq_nonneg _
  rw [sum_comm]
  refine (sum_le_sum fun j _ => h1 j).trans ?_
  rw [sum_const, card_range, nsmul_eq_mul]

/-- C113: AP of any order with `ifc > 0`, `0 <= mu <= 2` and arbitrary noise (noise-free initial memory, e.g. that of a new filter): the misalignment is at most the initial one plus
`mu order / (2 ifc)` times the energy of the noise, for inputs of any size. -/
theorem C113_ap_robust (solve : Solver K) (hs : SolveSpec solve) (ho : 0 < order)
    (o : Obj (ap K n solve order)) (hc : 0 < o.core.ext.ifc) (hmu : 0 ≤ o.core.mu) (hmu2 : o.core.mu ≤ 2) (ws : Vec K n) (v : ℕ → K)
    (hfit : ∀ j, o.core.ext.dMem j = ∑ i, ws i * o.core.ext.xMem i j) (hd : ∀ k, d k = (∑ i, ws i * x k i) + v k)
    {S : ℕ → Core K n (ApExt K n order)} (h : Runs (ap K n solve order) o d x y e S) (N : ℕ) :
    ∑ i, ((S N).w i - ws i) ^ 2
      ≤ (∑ i, (o.core.w i - ws i) ^ 2) + o.core.mu * order / (2 * o.core.ext.ifc) * ∑ k ∈ range N, v k ^ 2 := by
  have hsol : ∀ X : Mat K n order, ∃ P, solve order (apGram o.core.ext.ifc X) (eye order) = .ok P :=
    fun X => (gram_solvable hs hc X).imp fun _ h => h.1
  have main : ∑ i, ((S N).w i - ws i) ^ 2 ≤ (∑ i, (o.core.w i - ws i) ^ 2)
      + o.core.mu / (2 * o.core.ext.ifc) * ∑ k ∈ range N, ∑ j ∈ range order, newest 0 v k j ^ 2 := by
    induction N with
    | zero => rw [h.1]; simp
    | succ k ih =>
      obtain ⟨m1, i1, P, hP, hy, he, hwk, -⟩ := ap_runs ho hsol h k
      obtain ⟨P', hP', hG⟩ := gram_solvable hs hc (apX (S k) (x k))
      rw [hP] at hP'
      obtain rfl : P = P' := by simpa using hP'
      have hf := ap_noise_runs solve ho hsol h ws v hfit hd k
      have hen := ap_energy_noise (apX (S k) (x k)) o.core.ext.ifc o.core.mu hc hmu hmu2 P hG (fun i => (S k).w i - ws i)
        (apE (S k) (d k) (x k)) (fun j => newest 0 v k j.val) (by
          intro j
          show apD (S k) (d k) j - dot (fun i => apX (S k) (x k) i j) (S k).w = _
          rw [hf, dot_eq]
          have : ∑ i, apX (S k) (x k) i j * ((S k).w i - ws i)
              = ∑ i, apX (S k) (x k) i j * (S k).w i - ∑ i, ws i * apX (S k) (x k) i j := by
            rw [← sum_sub_distrib]; exact sum_congr rfl fun i _ => by ring
          rw [this]; ring)
      have e1 : ∑ i, ((S (k + 1)).w i - ws i) ^ 2
          = sqn (fun i => (S k).w i - ws i + o.core.mu * dot (apX (S k) (x k) i) (matVec P (apE (S k) (d k) (x k)))) := by
        rw [hwk, m1]
        unfold sqn
        exact sum_congr rfl fun i _ => by ring
      have e2 : sqn (fun j : Fin order => newest 0 v k j.val) = ∑ j ∈ range order, newest 0 v k j ^ 2 :=
        Fin.sum_univ_eq_sum_range (fun j => newest 0 v k j ^ 2) order
      rw [e2] at hen
      rw [e1, sum_range_succ, mul_add]
      have e3 : sqn (fun i => (S k).w i - ws i) = ∑ i, ((S k).w i - ws i) ^ 2 := rfl
      rw [e3] at hen
      linarith
  refine main.trans (add_le_add le_rfl ?_)
  calc _ ≤ o.core.mu / (2 * o.core.ext.ifc) * (order * ∑ k ∈ range N, v k ^ 2) :=
        mul_le_mul_of_nonneg_left (newest_energy v order N) (div_nonneg hmu (by linarith))
    _ = _ := by ring

end field

section examples

/-- the hypotheses of the NLMS theorems, with noise 1 -/
example : ∃ (o : Obj (nlms ℝ 2)) (ws : Vec ℝ 2) (d : ℕ → ℝ) (y e : ℕ → ℝ) (S : ℕ → Core ℝ 2 (EpsExt ℝ)),
    Runs (nlms ℝ 2) o d turns y e S ∧ (∀ k, d k = (∑ i, ws i * turns k i) + (fun _ => 1 : ℕ → ℝ) k) ∧ 0 < o.core.ext.eps ∧
    0 ≤ o.core.mu ∧ o.core.mu ≤ 1 :=
  ⟨⟨⟨fun _ => 0, 2, 1, (⟨1⟩ : EpsExt ℝ)⟩, []⟩, fun _ => 1, _, _, _, _, runs_of_safe nlms_safe _ trivial _ _, fun _ => rfl,
    one_pos, zero_le_one, le_rfl⟩

/-- ... of the RLS theorems -/
example : ∃ (o : Obj (rls ℝ 2)) (ws : Vec ℝ 2) (d : ℕ → ℝ) (y e : ℕ → ℝ) (S : ℕ → Core ℝ 2 (RlsExt ℝ 2)),
    Runs (rls ℝ 2) o d turns y e S ∧ (∀ k, d k = (∑ i, ws i * turns k i) + (fun _ => 1 : ℕ → ℝ) k) ∧ 0 < o.core.ext.eps ∧
    0 < o.core.mu ∧ o.core.mu < 1 ∧ (∀ i j, o.core.ext.R i j = if i = j then 1 / o.core.ext.eps else 0) ∧ Exciting turns 2 1 :=
  ⟨⟨⟨fun _ => 0, 2, 1 / 2, (⟨1, fun i j => if i = j then 1 / 1 else 0⟩ : RlsExt ℝ 2)⟩, []⟩, fun _ => 1, _, _, _, _,
    runs_of_safe rls_safe _ (by simp [Scalar.eqz]) _ _, fun _ => rfl,
    one_pos, by norm_num, by norm_num, fun _ _ => rfl, turns_exciting⟩

/-- ... of the AP theorem -/
example : ∃ (o : Obj (ap ℝ 2 exactSolve 2)) (ws : Vec ℝ 2) (d : ℕ → ℝ) (y e : ℕ → ℝ) (S : ℕ → Core ℝ 2 (ApExt ℝ 2 2)),
    Runs (ap ℝ 2 exactSolve 2) o d turns y e S ∧ 0 < o.core.ext.ifc ∧ 0 ≤ o.core.mu ∧ o.core.mu ≤ 2 ∧
    (∀ j, o.core.ext.dMem j = ∑ i, ws i * o.core.ext.xMem i j) ∧ (∀ k, d k = (∑ i, ws i * turns k i) + (fun _ => 1 : ℕ → ℝ) k) :=
  ⟨⟨⟨fun _ => 0, 2, 1, (⟨1, fun _ _ => 0, fun _ => 0, fun _ => 0, fun _ => 0⟩ : ApExt ℝ 2 2)⟩, []⟩, fun _ => 1, _, _, _, _,
   runs_of_safe (ap_safe _ (by norm_num) 1 fun X => (gram_solvable exactSolve_spec one_pos X).imp fun _ h => h.1) _ rfl _ _,
   one_pos, zero_le_one, one_le_two, fun j => by simp, fun k => rfl⟩

end examples

end Padasip
