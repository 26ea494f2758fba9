import Verif.Props.Posteriori
import Mathlib.Analysis.SpecificLimits.Normed

/-!
# C84-C87: what the updates optimise; robustness of NLMS; order of the samples in RLS; one sample repeated
-/

set_option linter.unusedSectionVars false
set_option linter.unusedSimpArgs false
set_option linter.unusedVariables false

namespace Padasip

open Finset

section field
variable {K : Type} [Field K] [LinearOrder K] [IsStrictOrderedRing K] {n : ℕ}
variable {d : ℕ → K} {x : ℕ → Vec K n} {y e : ℕ → K}

/-! ## C84 -/

/-- **Specification**: the cost `c |v - w|^2 + sum_j (D_j - <v, X_j>)^2`: change of the weights, plus the errors on the samples `(D_j, X_j)`, `j < m`. -/
def proxCost (c : K) (w : Vec K n) (m : ℕ) (D : ℕ → K) (X : ℕ → Vec K n) (v : Vec K n) : K :=
  c * (∑ i, (v i - w i) ^ 2) + ∑ j ∈ range m, (D j - ∑ i, v i * X j i) ^ 2

/-- if `w' = w + sum_j u_j X_j` with `c u_j = D_j - <w', X_j>` then `w'` is the minimiser -/
theorem prox_min (c : K) (w : Vec K n) (m : ℕ) (D : ℕ → K) (X : ℕ → Vec K n) (u : ℕ → K) (w' : Vec K n)
    (hw : ∀ i, w' i = w i + ∑ j ∈ range m, u j * X j i) (hu : ∀ j ∈ range m, c * u j = D j - ∑ i, w' i * X j i) (v : Vec K n) :
    proxCost c w m D X v = proxCost c w m D X w' + c * (∑ i, (v i - w' i) ^ 2) + ∑ j ∈ range m, (∑ i, (v i - w' i) * X j i) ^ 2 := by
  have h1 : ∑ i, (v i - w i) ^ 2 = (∑ i, (w' i - w i) ^ 2) + (∑ i, (v i - w' i) ^ 2) + 2 * ∑ i, (v i - w' i) * (w' i - w i) := by
    rw [mul_sum, ← sum_add_distrib, ← sum_add_distrib]
    exact sum_congr rfl fun i _ => by ring
  have h2 : ∑ i, (v i - w' i) * (w' i - w i) = ∑ j ∈ range m, u j * ∑ i, (v i - w' i) * X j i := by
    simp only [hw, add_sub_cancel_left, mul_sum]
    rw [sum_comm]
    exact sum_congr rfl fun j _ => sum_congr rfl fun i _ => by ring
  have h3 : ∀ j ∈ range m, (D j - ∑ i, v i * X j i) ^ 2
      = (D j - ∑ i, w' i * X j i) ^ 2 - 2 * (c * (u j * ∑ i, (v i - w' i) * X j i)) + (∑ i, (v i - w' i) * X j i) ^ 2 := by
    intro j hj
    have h4 : ∑ i, (v i - w' i) * X j i = (∑ i, v i * X j i) - ∑ i, w' i * X j i := by
      rw [← sum_sub_distrib]; exact sum_congr rfl fun i _ => by ring
    rw [← mul_assoc c, hu j hj, h4]
    ring
  unfold proxCost
  rw [sum_congr rfl h3, sum_add_distrib, sum_sub_distrib, h1, h2, ← mul_sum, ← mul_sum]
  ring

/-- C84: NLMS with `mu = 1` and `eps > 0` moves the weights to the unique minimiser of `eps |v - w|^2 + (d - <v, x>)^2`: the best trade-off between a small change and a
small error on the new sample. -/
theorem C84_nlms (o : Obj (nlms K n)) (hmu : o.core.mu = 1) (heps : 0 < o.core.ext.eps) {S : ℕ → Core K n (EpsExt K)}
    (h : Runs (nlms K n) o d x y e S) (k : ℕ) (v : Vec K n) (hv : v ≠ (S (k + 1)).w) :
    proxCost o.core.ext.eps (S k).w 1 (fun _ => d k) (fun _ => x k) (S (k + 1)).w
      < proxCost o.core.ext.eps (S k).w 1 (fun _ => d k) (fun _ => x k) v := by
  obtain ⟨h1, h0, hy, he, hw⟩ := nlms_runs h k
  rw [hmu] at h1
  have hq : 0 < o.core.ext.eps + ∑ i, x k i ^ 2 := by
    have : 0 ≤ ∑ i, x k i ^ 2 := sum_nonneg fun _ _ => sq_nonneg _
    linarith
  have hg : ∀ i, (S (k + 1)).w i = (S k).w i + 1 / (o.core.ext.eps + ∑ i, x k i ^ 2) * e k * x k i := fun i => by
    rw [hw, h1, h0, sqn_eq_dot]
    unfold sqn
    ring
  rw [prox_min o.core.ext.eps (S k).w 1 (fun _ => d k) (fun _ => x k) (fun _ => 1 / (o.core.ext.eps + ∑ i, x k i ^ 2) * e k) (S (k + 1)).w
    (fun i => by rw [sum_range_one]; exact hg i) (fun j _ => ?_) v]
  · have h2 : 0 < ∑ i, (v i - (S (k + 1)).w i) ^ 2 := by
      obtain ⟨i, hi⟩ : ∃ i, v i ≠ (S (k + 1)).w i := Function.ne_iff.mp hv
      exact sum_pos' (fun _ _ => sq_nonneg _) ⟨i, mem_univ i, by have := sub_ne_zero.mpr hi; positivity⟩
    have h3 := mul_pos heps h2
    have h4 : 0 ≤ ∑ j ∈ range 1, (∑ i, (v i - (S (k + 1)).w i) * x k i) ^ 2 := sum_nonneg fun _ _ => sq_nonneg _
    linarith
  · have h2 : ∑ i, (S (k + 1)).w i * x k i = y k + 1 / (o.core.ext.eps + ∑ i, x k i ^ 2) * e k * ∑ i, x k i ^ 2 := by
      rw [hy, dot_eq, mul_sum, ← sum_add_distrib]
      exact sum_congr rfl fun i _ => by rw [hg i]; ring
    simp only [h2]
    rw [he]
    generalize ∑ i, x k i ^ 2 = q at hq ⊢
    have := hq.ne'
    field_simp
    ring

/-- C84: NLMS with `mu = 1` and `eps = 0` makes the error on the new (non-zero) sample zero, and among all weights that do so takes the ones closest to the old ones. -/
theorem C84_nlms_minimal_change (o : Obj (nlms K n)) (hmu : o.core.mu = 1) (heps : o.core.ext.eps = 0) {S : ℕ → Core K n (EpsExt K)}
    (h : Runs (nlms K n) o d x y e S) (k : ℕ) (hx : x k ≠ 0) :
    ∑ i, (S (k + 1)).w i * x k i = d k ∧
    ∀ v : Vec K n, ∑ i, v i * x k i = d k → v ≠ (S (k + 1)).w → ∑ i, ((S (k + 1)).w i - (S k).w i) ^ 2 < ∑ i, (v i - (S k).w i) ^ 2 := by
  obtain ⟨h1, h0, hy, he, hw⟩ := nlms_runs h k
  rw [hmu] at h1
  have hq : 0 < ∑ i, x k i ^ 2 := by
    obtain ⟨i, hi⟩ : ∃ i, x k i ≠ 0 := Function.ne_iff.mp hx
    exact sum_pos' (fun _ _ => sq_nonneg _) ⟨i, mem_univ i, by positivity⟩
  have hg : ∀ i, (S (k + 1)).w i = (S k).w i + 1 / (∑ i, x k i ^ 2) * e k * x k i := fun i => by
    rw [hw, h1, h0, sqn_eq_dot, heps, zero_add]
    unfold sqn
    ring
  have h2 : ∑ i, (S (k + 1)).w i * x k i = d k := by
    have : ∑ i, (S (k + 1)).w i * x k i = y k + 1 / (∑ i, x k i ^ 2) * e k * ∑ i, x k i ^ 2 := by
      rw [hy, dot_eq, mul_sum, ← sum_add_distrib]
      exact sum_congr rfl fun i _ => by rw [hg i]; ring
    rw [this, he]
    have := hq.ne'
    field_simp
    ring
  refine ⟨h2, fun v hv hne => ?_⟩
  have h3 : ∑ i, (v i - (S k).w i) ^ 2 = (∑ i, ((S (k + 1)).w i - (S k).w i) ^ 2) + ∑ i, (v i - (S (k + 1)).w i) ^ 2 := by
    have h4 : ∑ i, (v i - (S k).w i) ^ 2 = (∑ i, ((S (k + 1)).w i - (S k).w i) ^ 2) + (∑ i, (v i - (S (k + 1)).w i) ^ 2)
        + 2 * ∑ i, (v i - (S (k + 1)).w i) * ((S (k + 1)).w i - (S k).w i) := by
      rw [mul_sum, ← sum_add_distrib, ← sum_add_distrib]
      exact sum_congr rfl fun i _ => by ring
    have h5 : ∑ i, (v i - (S (k + 1)).w i) * ((S (k + 1)).w i - (S k).w i) = 0 := by
      have h6 : ∀ i, (v i - (S (k + 1)).w i) * ((S (k + 1)).w i - (S k).w i)
          = 1 / (∑ i, x k i ^ 2) * e k * (v i * x k i - (S (k + 1)).w i * x k i) := fun i => by
        rw [show (S (k + 1)).w i - (S k).w i = 1 / (∑ i, x k i ^ 2) * e k * x k i by rw [hg i]; ring]
        ring
      rw [sum_congr rfl fun i _ => h6 i, ← mul_sum, sum_sub_distrib, hv, h2, sub_self, mul_zero]
    rw [h4, h5]; ring
  rw [h3]
  have : 0 < ∑ i, (v i - (S (k + 1)).w i) ^ 2 := by
    obtain ⟨i, hi⟩ : ∃ i, v i ≠ (S (k + 1)).w i := Function.ne_iff.mp hne
    exact sum_pos' (fun _ _ => sq_nonneg _) ⟨i, mem_univ i, by have := sub_ne_zero.mpr hi; positivity⟩
  linarith

/-- C84: AP with `mu = 1` and `ifc > 0` (fresh) moves the weights to the unique minimiser of `ifc |v - w|^2` plus the squared errors on the last `order` samples. -/
theorem C84_ap {order : ℕ} (solve : Solver K) (hs : SolveSpec solve) (ho : 0 < order) (o : Obj (ap K n solve order)) (hc : 0 < o.core.ext.ifc)
    (hmu : o.core.mu = 1) (hx0 : ∀ i j, o.core.ext.xMem i j = 0) (hd0 : ∀ j, o.core.ext.dMem j = 0)
    {S : ℕ → Core K n (ApExt K n order)} (h : Runs (ap K n solve order) o d x y e S) (k : ℕ) (v : Vec K n) (hv : v ≠ (S (k + 1)).w) :
    proxCost o.core.ext.ifc (S k).w order (newest 0 d k) (newest (fun _ => 0) x k) (S (k + 1)).w
      < proxCost o.core.ext.ifc (S k).w order (newest 0 d k) (newest (fun _ => 0) x k) v := by
  have hsol : ∀ X : Mat K n order, ∃ P, solve order (apGram o.core.ext.ifc X) (eye order) = .ok P :=
    fun X => (gram_solvable hs hc X).imp fun _ h => h.1
  obtain ⟨m1, i1, P, hP, hy, he, hwk, -⟩ := ap_runs ho hsol h k
  rw [hmu] at m1
  obtain ⟨P', hP', hG⟩ := gram_solvable hs hc (apX (S k) (x k))
  rw [hP] at hP'
  obtain rfl : P = P' := by simpa using hP'
  obtain ⟨hX, hD⟩ := ap_mem_runs solve ho hsol hx0 hd0 h k
  have hgs := gram_solution (apX (S k) (x k)) o.core.ext.ifc P hG (apE (S k) (d k) (x k))
  set g := matVec P (apE (S k) (d k) (x k)) with hg
  let u : ℕ → K := fun j => if hj : j < order then g ⟨j, hj⟩ else 0
  have hu : ∀ j : Fin order, u j.val = g j := fun j => by simp [u]
  have hw' : ∀ i, (S (k + 1)).w i = (S k).w i + ∑ j ∈ range order, u j * newest (fun _ => 0) x k j i := by
    intro i
    rw [hwk, m1]
    beta_reduce
    rw [one_mul, ← Fin.sum_univ_eq_sum_range (fun j => u j * newest (fun _ => 0) x k j i), dot_eq]
    congr 1
    exact sum_congr rfl fun j _ => by rw [hu, ← hX]; ring
  rw [prox_min o.core.ext.ifc (S k).w order _ _ u (S (k + 1)).w hw' (fun j hj => ?_) v]
  · have h2 : 0 < ∑ i, (v i - (S (k + 1)).w i) ^ 2 := by
      obtain ⟨i, hi⟩ : ∃ i, v i ≠ (S (k + 1)).w i := Function.ne_iff.mp hv
      exact sum_pos' (fun _ _ => sq_nonneg _) ⟨i, mem_univ i, by have := sub_ne_zero.mpr hi; positivity⟩
    have h3 := mul_pos hc h2
    have h4 : 0 ≤ ∑ j ∈ range order, (∑ i, (v i - (S (k + 1)).w i) * newest (fun _ => 0) x k j i) ^ 2 := sum_nonneg fun _ _ => sq_nonneg _
    linarith
  · have hj' : j < order := mem_range.mp hj
    have h5 := hgs ⟨j, hj'⟩
    have h6 : u j = g ⟨j, hj'⟩ := hu ⟨j, hj'⟩
    have h7 : apE (S k) (d k) (x k) ⟨j, hj'⟩ = newest 0 d k j - ∑ i, (S k).w i * newest (fun _ => 0) x k j i := by
      rw [apE, apY, hD, dot_eq]
      congr 1
      exact sum_congr rfl fun i _ => by rw [hX, mul_comm]
    have h8 : ∑ i, (S (k + 1)).w i * newest (fun _ => 0) x k j i
        = (∑ i, (S k).w i * newest (fun _ => 0) x k j i) + ∑ i, apX (S k) (x k) i ⟨j, hj'⟩ * dot (apX (S k) (x k) i) g := by
      rw [← sum_add_distrib]
      exact sum_congr rfl fun i _ => by rw [hwk, m1, hX]; ring
    rw [h6, h8]
    rw [h7] at h5
    linear_combination h5

/-! ## C85 -/

/-- C85: NLMS is robust against arbitrary noise `v`: for `0 <= mu <= 1`, `eps > 0` the normalised energy of the undisturbed error plus the final misalignment is
bounded by the initial misalignment plus the normalised energy of the noise, for every input. -/
theorem C85_robust (o : Obj (nlms K n)) {S : ℕ → Core K n (EpsExt K)} (h : Runs (nlms K n) o d x y e S)
    (ws : Vec K n) (v : ℕ → K) (hd : ∀ k, d k = (∑ i, ws i * x k i) + v k) (hmu : 0 ≤ o.core.mu) (hmu1 : o.core.mu ≤ 1)
    (heps : 0 < o.core.ext.eps) (N : ℕ) :
    o.core.mu * (∑ k ∈ range N, (e k - v k) ^ 2 / (o.core.ext.eps + ∑ i, x k i ^ 2)) + ∑ i, ((S N).w i - ws i) ^ 2
      ≤ (∑ i, (o.core.w i - ws i) ^ 2) + o.core.mu * ∑ k ∈ range N, v k ^ 2 / (o.core.ext.eps + ∑ i, x k i ^ 2) := by
  induction N with
  | zero => rw [h.1]; simp
  | succ N ih =>
    obtain ⟨h1, h0, hy, he, hw⟩ := nlms_runs h N
    have h3 : ∑ i, ((S N).w i - ws i) * x N i = v N - e N := by
      rw [he, hy, hd, dot_eq]
      simp only [sub_mul, sum_sub_distrib]; ring
    have hs : 0 ≤ ∑ i, x N i ^ 2 := sum_nonneg fun _ _ => sq_nonneg _
    generalize hq : o.core.ext.eps + ∑ i, x N i ^ 2 = q
    have hqp : 0 < q := by rw [← hq]; linarith
    have h4 : ∑ i, ((S (N + 1)).w i - ws i) ^ 2 = (∑ i, ((S N).w i - ws i) ^ 2)
        + 2 * (o.core.mu / q * e N) * (v N - e N) + (o.core.mu / q * e N) ^ 2 * ∑ i, x N i ^ 2 := by
      rw [← h3]
      have h2 : ∀ i, (S (N + 1)).w i - ws i = ((S N).w i - ws i) + (o.core.mu / q * e N) * x N i := by
        intro i
        rw [hw, h1, h0, sqn_eq_dot]
        unfold sqn
        rw [hq]
        ring
      simp only [h2]
      exact sqn_add_smul (fun i => (S N).w i - ws i) (x N) _
    rw [sum_range_succ, sum_range_succ, h4, mul_add, mul_add, hq]
    have h5 : (∑ i, x N i ^ 2) ≤ q := by rw [← hq]; linarith
    have h6 : (o.core.mu / q * e N) ^ 2 * (∑ i, x N i ^ 2) ≤ (o.core.mu / q * e N) ^ 2 * q := mul_le_mul_of_nonneg_left h5 (sq_nonneg _)
    have h7 : (o.core.mu / q * e N) ^ 2 * q = o.core.mu * (o.core.mu * e N ^ 2 / q) := by field_simp
    have h8 : o.core.mu * (o.core.mu * e N ^ 2 / q) ≤ o.core.mu * (e N ^ 2 / q) := by
      refine mul_le_mul_of_nonneg_left ?_ hmu
      refine div_le_div_of_nonneg_right ?_ hqp.le
      have := sq_nonneg (e N)
      nlinarith
    have h9 : 2 * (o.core.mu / q * e N) * (v N - e N) + o.core.mu * (e N ^ 2 / q)
        = o.core.mu * (v N ^ 2 / q) - o.core.mu * ((e N - v N) ^ 2 / q) := by field_simp; ring
    linarith

/-- the hypotheses of `C84_nlms` and `C85_robust` are met by NLMS with any data -/
example (d : ℕ → ℝ) (x : ℕ → Vec ℝ 2) : ∃ (o : Obj (nlms ℝ 2)) (y e : ℕ → ℝ) (S : ℕ → Core ℝ 2 (EpsExt ℝ)), Runs (nlms ℝ 2) o d x y e S ∧
    o.core.mu = 1 ∧ 0 < o.core.ext.eps :=
  ⟨⟨⟨fun _ => 0, 2, 1, (⟨1⟩ : EpsExt ℝ)⟩, []⟩, _, _, _, runs_of_safe nlms_safe _ trivial _ _, rfl, one_pos⟩

/-- ... those of `C84_nlms_minimal_change` by NLMS with `eps = 0` -/
example (d : ℕ → ℝ) : ∃ (o : Obj (nlms ℝ 2)) (x : ℕ → Vec ℝ 2) (y e : ℕ → ℝ) (S : ℕ → Core ℝ 2 (EpsExt ℝ)), Runs (nlms ℝ 2) o d x y e S ∧
    o.core.mu = 1 ∧ o.core.ext.eps = 0 ∧ ∀ k, x k ≠ 0 :=
  ⟨⟨⟨fun _ => 0, 2, 1, (⟨0⟩ : EpsExt ℝ)⟩, []⟩, fun _ _ => 1, _, _, _, runs_of_safe nlms_safe _ trivial _ _, rfl, rfl,
    fun _ h => one_ne_zero (congrFun h 0)⟩

/-- ... those of `C84_ap` by a fresh AP filter -/
example (d : ℕ → ℝ) (x : ℕ → Vec ℝ 2) : ∃ (o : Obj (ap ℝ 2 exactSolve 3)) (y e : ℕ → ℝ) (S : ℕ → Core ℝ 2 (ApExt ℝ 2 3)),
    Runs (ap ℝ 2 exactSolve 3) o d x y e S ∧ 0 < o.core.ext.ifc ∧ o.core.mu = 1 ∧
    (∀ i j, o.core.ext.xMem i j = 0) ∧ ∀ j, o.core.ext.dMem j = 0 :=
  ⟨⟨⟨fun _ => 0, 2, 1, (⟨1, fun _ _ => 0, fun _ => 0, fun _ => 0, fun _ => 0⟩ : ApExt ℝ 2 3)⟩, []⟩, _, _, _,
   runs_of_safe (ap_safe _ (by norm_num) 1 fun X => (gram_solvable exactSolve_spec one_pos X).imp fun _ h => h.1) _ rfl _ _,
   one_pos, rfl, fun _ _ => rfl, fun _ => rfl⟩

/-! ## C86 -/

/-- C86: a fresh RLS filter with forgetting factor 1 ends in the same state whatever the order in which it is given its samples: if the first `N` samples of the second
run are those of the first run in another order, the two filters have the same weights and the same `R` after `N` samples. -/
theorem C86_rls_order (o : Obj (rls K n)) (hmu : o.core.mu = 1) (heps : 0 < o.core.ext.eps)
    (hR : ∀ i j, o.core.ext.R i j = if i = j then 1 / o.core.ext.eps else 0)
    {S S' : ℕ → Core K n (RlsExt K n)} {d' : ℕ → K} {x' : ℕ → Vec K n} {y' e' : ℕ → K}
    (h : Runs (rls K n) o d x y e S) (h' : Runs (rls K n) o d' x' y' e' S')
    (N : ℕ) (p : Equiv.Perm (Fin N)) (hd : ∀ k, d' k.val = d (p k).val) (hx : ∀ k, x' k.val = x (p k).val) :
    (S' N).w = (S N).w ∧ (S' N).ext.R = (S N).ext.R := by
  have hpos : 0 < o.core.mu := by rw [hmu]; exact one_pos
  have key : ∀ (f f' : ℕ → K), (∀ k : Fin N, f' k.val = f (p k).val) → ∑ m ∈ range N, f' m = ∑ m ∈ range N, f m := by
    intro f f' hf
    rw [← Fin.sum_univ_eq_sum_range, ← Fin.sum_univ_eq_sum_range, ← Equiv.sum_comp p (fun k : Fin N => f k.val)]
    exact sum_congr rfl fun k _ => hf k
  have hcost : rlsCost o.core.mu o.core.ext.eps d' x' o.core.w N = rlsCost o.core.mu o.core.ext.eps d x o.core.w N := by
    funext v
    unfold rlsCost
    rw [hmu]
    simp only [one_pow, one_mul]
    rw [key (fun m => (d m - ∑ i, v i * x m i) ^ 2) _ fun k => by rw [hd, hx]]
  have hcorr : corrM o.core.mu o.core.ext.eps x' N = corrM o.core.mu o.core.ext.eps x N := by
    ext i j
    simp only [corrM, Matrix.of_apply, rlsCorr]
    rw [hmu]
    simp only [one_pow, one_mul]
    rw [key (fun m => x m i * x m j) _ fun k => by rw [hx]]
  constructor
  · by_contra hne
    have h1 := C25_least_squares o hpos heps hR h N _ hne
    have h2 := C25_least_squares o hpos heps hR h' N _ (Ne.symm hne)
    rw [hcost] at h2
    exact lt_asymm h1 h2
  · have h1 := (rls_inv hpos heps hR h N).1
    have h2 := (rls_inv hpos heps hR h' N).1
    rw [hcorr] at h2
    have h3 := mul_eq_one_comm.mp h1
    have : (Matrix.of (S' N).ext.R : Matrix (Fin n) (Fin n) K) = Matrix.of (S N).ext.R := by
      calc (Matrix.of (S' N).ext.R : Matrix (Fin n) (Fin n) K)
          = (Matrix.of (S N).ext.R * corrM o.core.mu o.core.ext.eps x N) * Matrix.of (S' N).ext.R := by rw [h3, Matrix.one_mul]
        _ = Matrix.of (S N).ext.R := by rw [Matrix.mul_assoc, h2, Matrix.mul_one]
    exact this

/-! ## C87 -/

/-- C87: LMS given the same sample again and again has errors in geometric progression. -/
theorem C87_lms (o : Obj (lms K n)) {S : ℕ → Core K n Unit} (c : K) (v : Vec K n)
    (h : Runs (lms K n) o (fun _ => c) (fun _ => v) y e S) (k : ℕ) :
    e k = (1 - o.core.mu * ∑ i, v i ^ 2) ^ k * (c - ∑ i, o.core.w i * v i) := by
  induction k with
  | zero =>
    obtain ⟨-, -, hy, he, -⟩ := lms_runs h 0
    rw [he, hy, h.1, dot_eq, pow_zero, one_mul]
    rfl
  | succ k ih =>
    obtain ⟨h1, -, hy, he, hw⟩ := lms_runs h k
    obtain ⟨-, -, hy', he', -⟩ := lms_runs h (k + 1)
    have : (fun i => (S k).w i + (S k).mu * v i * e k) = fun i => (S k).w i + ((S k).mu * e k) * v i := by funext i; ring
    rw [he', hy', hw, this, dot_step, ← hy, h1]
    have h3 : y k = c - e k := by rw [he]; ring
    rw [h3, pow_succ]
    linear_combination (1 - o.core.mu * ∑ i, v i ^ 2) * ih

/-- C87: so does NLMS. -/
theorem C87_nlms (o : Obj (nlms K n)) {S : ℕ → Core K n (EpsExt K)} (c : K) (v : Vec K n)
    (h : Runs (nlms K n) o (fun _ => c) (fun _ => v) y e S) (k : ℕ) :
    e k = (1 - o.core.mu * (∑ i, v i ^ 2) / (o.core.ext.eps + ∑ i, v i ^ 2)) ^ k * (c - ∑ i, o.core.w i * v i) := by
  induction k with
  | zero =>
    obtain ⟨-, -, hy, he, -⟩ := nlms_runs h 0
    rw [he, hy, h.1, dot_eq, pow_zero, one_mul]
    rfl
  | succ k ih =>
    obtain ⟨h1, h0, hy, he, hw⟩ := nlms_runs h k
    obtain ⟨-, -, hy', he', -⟩ := nlms_runs h (k + 1)
    have : (fun i => (S k).w i + (S k).mu / ((S k).ext.eps + dot v v) * v i * e k)
        = fun i => (S k).w i + ((S k).mu / ((S k).ext.eps + dot v v) * e k) * v i := by funext i; ring
    rw [he', hy', hw, this, dot_step, ← hy, h1, h0]
    rw [sqn_eq_dot v]
    unfold sqn
    have h3 : y k = c - e k := by rw [he]; ring
    rw [h3, pow_succ]
    linear_combination (1 - o.core.mu * (∑ i, v i ^ 2) / (o.core.ext.eps + ∑ i, v i ^ 2)) * ih

end field

section real
variable {n : ℕ} {y e : ℕ → ℝ}

/-- C86: for LMS the order matters: the same two samples in the two orders leave different weights. -/
theorem C86_lms_order_matters : ∃ (o : Obj (lms ℝ 1)) (d d' : ℕ → ℝ) (x : ℕ → Vec ℝ 1) (y e y' e' : ℕ → ℝ) (S S' : ℕ → Core ℝ 1 Unit),
    Runs (lms ℝ 1) o d x y e S ∧ Runs (lms ℝ 1) o d' x y' e' S' ∧ (∀ k : Fin 2, d' k.val = d (1 - k.val)) ∧ (∀ k l, x k = x l) ∧ (S' 2).w ≠ (S 2).w := by
  let o : Obj (lms ℝ 1) := ⟨⟨fun _ => 0, 1, 1 / 2, ()⟩, []⟩
  let d : ℕ → ℝ := fun k => if k = 0 then 1 else 0
  let d' : ℕ → ℝ := fun k => if k = 1 then 1 else 0
  have h : ∀ d, ∃ y e S, Runs (lms ℝ 1) o d (fun _ _ => 1) y e S := fun d => ⟨_, _, _, runs_of_safe lms_safe o trivial d (fun _ _ => 1)⟩
  obtain ⟨y, e, S, h1⟩ := h d
  obtain ⟨y', e', S', h2⟩ := h d'
  refine ⟨o, d, d', fun _ _ => 1, y, e, y', e', S, S', h1, h2, fun k => by fin_cases k <;> simp [d, d'], fun _ _ => rfl, fun hw => ?_⟩
  have key : ∀ {d : ℕ → ℝ} {y e : ℕ → ℝ} {S : ℕ → Core ℝ 1 Unit}, Runs (lms ℝ 1) o d (fun _ _ => 1) y e S → (S 2).w 0 = d 0 / 4 + d 1 / 2 := by
    intro d y e S h
    obtain ⟨m0, -, hy0, he0, hw0⟩ := lms_runs h 0
    obtain ⟨m1, -, hy1, he1, hw1⟩ := lms_runs h 1
    have hz : (S 0).w = fun _ => 0 := by rw [h.1]; rfl
    have hm : o.core.mu = 1 / 2 := rfl
    have d0 : dot (S 0).w (fun _ => 1) = 0 := by rw [dot_eq, hz]; simp
    have w1 : (S 1).w 0 = d 0 / 2 := by
      rw [hw0, hz, m0, hm, he0, hy0, d0]; ring
    have d1 : dot (S 1).w (fun _ => 1) = d 0 / 2 := by rw [dot_eq]; simp [w1]
    have : (S 2).w 0 = (S 1).w 0 + 1 / 2 * 1 * e 1 := by rw [hw1, m1, hm]
    rw [this, w1, he1, hy1, d1]; ring
  have := congrFun hw 0
  rw [key h1, key h2] at this
  norm_num [d, d'] at this

theorem geometric_iff {a b : ℝ} (hb : b ≠ 0) : Filter.Tendsto (fun k : ℕ => a ^ k * b) Filter.atTop (nhds 0) ↔ -1 < a ∧ a < 1 := by
  rw [← abs_lt, ← tendsto_pow_atTop_nhds_zero_iff]
  constructor
  · intro h
    have := h.mul_const b⁻¹
    simpa [mul_assoc, hb] using this
  · intro h
    have := h.mul_const b
    simpa using this

/-- C87: LMS learns a repeated sample iff `0 < mu |x|^2 < 2` (when the first error is not 0). -/
theorem C87_lms_converges (o : Obj (lms ℝ n)) {S : ℕ → Core ℝ n Unit} (c : ℝ) (v : Vec ℝ n)
    (h : Runs (lms ℝ n) o (fun _ => c) (fun _ => v) y e S) (h0 : ∑ i, o.core.w i * v i ≠ c) :
    Filter.Tendsto e Filter.atTop (nhds 0) ↔ 0 < o.core.mu * ∑ i, v i ^ 2 ∧ o.core.mu * ∑ i, v i ^ 2 < 2 := by
  rw [show e = fun k => (1 - o.core.mu * ∑ i, v i ^ 2) ^ k * (c - ∑ i, o.core.w i * v i) from funext (C87_lms o c v h)]
  rw [geometric_iff (sub_ne_zero.mpr (Ne.symm h0))]
  constructor
  · intro h; constructor <;> linarith [h.1, h.2]
  · intro h; constructor <;> linarith [h.1, h.2]

/-- C87: NLMS with `eps > 0` learns a repeated non-zero sample for every step size `0 < mu < 2`, whatever the scale of the input. -/
theorem C87_nlms_converges (o : Obj (nlms ℝ n)) {S : ℕ → Core ℝ n (EpsExt ℝ)} (c : ℝ) (v : Vec ℝ n)
    (h : Runs (nlms ℝ n) o (fun _ => c) (fun _ => v) y e S) (heps : 0 < o.core.ext.eps) (hmu : 0 < o.core.mu) (hmu2 : o.core.mu < 2) (hv : v ≠ 0) :
    Filter.Tendsto e Filter.atTop (nhds 0) := by
  have hq : 0 < ∑ i, v i ^ 2 := by
    obtain ⟨i, hi⟩ : ∃ i, v i ≠ 0 := Function.ne_iff.mp hv
    exact sum_pos' (fun _ _ => sq_nonneg _) ⟨i, mem_univ i, by positivity⟩
  rw [show e = fun k => _ from funext (C87_nlms o c v h)]
  generalize ∑ i, v i ^ 2 = q at hq ⊢
  have hqe : 0 < o.core.ext.eps + q := by linarith
  have h1 : 0 < o.core.mu * q / (o.core.ext.eps + q) := by positivity
  have h2 : o.core.mu * q / (o.core.ext.eps + q) < 2 := by
    rw [div_lt_iff₀ hqe]
    nlinarith [mul_pos hmu heps]
  rw [← zero_mul (c - ∑ i, o.core.w i * v i)]
  exact (tendsto_pow_atTop_nhds_zero_iff.mpr (abs_lt.mpr ⟨by linarith, by linarith⟩)).mul_const _

example (c : ℝ) (v : Vec ℝ 2) : ∃ (o : Obj (lms ℝ 2)) (y e : ℕ → ℝ) (S : ℕ → Core ℝ 2 Unit), Runs (lms ℝ 2) o (fun _ => c) (fun _ => v) y e S :=
  ⟨⟨⟨fun _ => 0, 2, 1 / 2, ()⟩, []⟩, _, _, _, runs_of_safe lms_safe _ trivial _ _⟩

example (c : ℝ) (v : Vec ℝ 2) : ∃ (o : Obj (nlms ℝ 2)) (y e : ℕ → ℝ) (S : ℕ → Core ℝ 2 (EpsExt ℝ)), Runs (nlms ℝ 2) o (fun _ => c) (fun _ => v) y e S ∧
    0 < o.core.ext.eps ∧ 0 < o.core.mu ∧ o.core.mu < 2 :=
  ⟨⟨⟨fun _ => 0, 2, 1, (⟨1⟩ : EpsExt ℝ)⟩, []⟩, _, _, _, runs_of_safe nlms_safe _ trivial _ _, one_pos, one_pos, one_lt_two⟩

end real
end Padasip
