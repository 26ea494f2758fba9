import Verif.Lemmas.Steps
import Verif.Lemmas.Field
import Verif.Spec.Example
import Mathlib.Topology.Algebra.InfiniteSum.Real
import Mathlib.Analysis.Normed.Order.Lattice
import Mathlib.Topology.Algebra.Order.LiminfLimsup
import Mathlib.Analysis.SpecificLimits.Basic

/-!
# C20-C23: stability of LMS and NLMS

`sqn v` is the squared Euclidean norm.
-/

set_option linter.unusedSectionVars false

namespace Padasip

open Finset

section field
variable {K : Type} [Field K] [LinearOrder K] [IsStrictOrderedRing K] {n : ℕ}

/-- squared Euclidean norm -/
def sqn (v : Vec K n) : K := ∑ i, v i ^ 2

theorem sqn_eq_dot (v : Vec K n) : dot v v = sqn v := by
  rw [dot_eq]; exact sum_congr rfl fun i _ => (pow_two _).symm

theorem sqn_nonneg (v : Vec K n) : 0 ≤ sqn v := sum_nonneg fun _ _ => sq_nonneg _

theorem sqn_add_smul (v x : Vec K n) (a : K) :
    sqn (fun i => v i + a * x i) = sqn v + 2 * a * (∑ i, v i * x i) + a ^ 2 * sqn x := by
  simp only [sqn, mul_sum, ← sum_add_distrib]
  exact sum_congr rfl fun i _ => by ring

/-! ## C20 -/

/-- C20: after LMS has adapted to a sample, its error on the same sample is `(1 - mu |x|^2) e`. -/
theorem C20_a_posteriori_error (o : Obj (lms K n)) (d : K) (x : Vec K n) :
    ∃ o' y y', predict (lms K n) (List.ofFn x) o = (.ok y, o) ∧
      adapt (lms K n) d (List.ofFn x) o = (.ok (), o') ∧
      predict (lms K n) (List.ofFn x) o' = (.ok y', o') ∧
      d - y' = (1 - o.core.mu * ∑ i, x i ^ 2) * (d - y) := by
  refine ⟨_, _, _, liftM_ok (basePredict_ofFn o.core x),
    liftM_eq (C := lms K n) (adapt_mkBase basePredict lmsRule d _ o.core (lms_body o.core d x)),
    liftM_ok (basePredict_ofFn _ x), ?_⟩
  simp only [dot_eq]
  have : ∀ i, (o.core.w i + o.core.mu * x i * (d - ∑ j, o.core.w j * x j)) * x i
      = o.core.w i * x i + o.core.mu * (d - ∑ j, o.core.w j * x j) * x i ^ 2 := fun i => by ring
  rw [sum_congr rfl fun i _ => this i, sum_add_distrib, ← mul_sum]
  ring

/-- C20: the error on the sample just processed does not grow iff `|1 - mu |x|^2| <= 1` or the error was zero: the documented
stability criterion is exact. -/
theorem C20_criterion (o : Obj (lms K n)) (d : K) (x : Vec K n) :
    ∃ o' y y', predict (lms K n) (List.ofFn x) o = (.ok y, o) ∧
      adapt (lms K n) d (List.ofFn x) o = (.ok (), o') ∧
      predict (lms K n) (List.ofFn x) o' = (.ok y', o') ∧
      (|d - y'| ≤ |d - y| ↔ |1 - o.core.mu * ∑ i, x i ^ 2| ≤ 1 ∨ d - y = 0) := by
  obtain ⟨o', y, y', h1, h2, h3, h4⟩ := C20_a_posteriori_error o d x
  refine ⟨o', y, y', h1, h2, h3, ?_⟩
  rw [h4, abs_mul]
  by_cases he : d - y = 0
  · simp [he]
  · have : 0 < |d - y| := abs_pos.mpr he
    simp only [he, or_false]
    exact mul_le_iff_le_one_left this

/-! ## C21 -/

variable {d : ℕ → K} {x : ℕ → Vec K n} {y e : ℕ → K}

/-- one LMS step: change of the misalignment, target `<ws, x> + v` -/
theorem lms_energy {o : Obj (lms K n)} {S : ℕ → Core K n Unit} (h : Runs (lms K n) o d x y e S)
    (ws : Vec K n) (v : ℕ → K) (hd : ∀ k, d k = (∑ i, ws i * x k i) + v k) (k : ℕ) :
    sqn (fun i => (S (k + 1)).w i - ws i)
      = sqn (fun i => (S k).w i - ws i) - 2 * o.core.mu * e k * (e k - v k)
        + o.core.mu ^ 2 * e k ^ 2 * sqn (x k) := by
  obtain ⟨h1, -, hy, he, hw⟩ := lms_runs h k
  have h3 : ∑ i, ((S k).w i - ws i) * x k i = v k - e k := by
    rw [he, hy, hd, dot_eq]
    simp only [sub_mul, sum_sub_distrib]; ring
  have h2 : (fun i => (S (k + 1)).w i - ws i)
      = fun i => ((S k).w i - ws i) + (o.core.mu * e k) * x k i := by
    funext i; rw [hw, h1]; ring
  rw [h2, sqn_add_smul, h3]; ring

/-- C21: on noise-free data the LMS misalignment `|w(k) - w*|` never grows under `0 <= mu |x(k)|^2 <= 2`, `mu >= 0`. -/
theorem C21_monotone (o : Obj (lms K n)) {S : ℕ → Core K n Unit} (h : Runs (lms K n) o d x y e S)
    (ws : Vec K n) (hd : ∀ k, d k = ∑ i, ws i * x k i) (hmu : 0 ≤ o.core.mu)
    (hx : ∀ k, o.core.mu * sqn (x k) ≤ 2) (k : ℕ) :
    sqn (fun i => (S (k + 1)).w i - ws i) ≤ sqn (fun i => (S k).w i - ws i) := by
  rw [lms_energy h ws (fun _ => 0) (by simpa using hd) k]
  have h1 : 0 ≤ o.core.mu * e k ^ 2 := mul_nonneg hmu (sq_nonneg _)
  nlinarith [mul_nonneg h1 (sub_nonneg.mpr (hx k))]

/-- C21: energy bound over any number `N` of samples. -/
theorem C21_energy (o : Obj (lms K n)) {S : ℕ → Core K n Unit} (h : Runs (lms K n) o d x y e S)
    (ws : Vec K n) (hd : ∀ k, d k = ∑ i, ws i * x k i) (N : ℕ) :
    sqn (fun i => (S N).w i - ws i)
        + ∑ k ∈ range N, o.core.mu * (2 - o.core.mu * sqn (x k)) * e k ^ 2
      = sqn (fun i => o.core.w i - ws i) := by
  induction N with
  | zero => rw [h.1]; simp
  | succ N ih =>
    rw [sum_range_succ, lms_energy h ws (fun _ => 0) (by simpa using hd) N, ← ih]; ring

/-! ## C23 -/

/-- C23: for arbitrary noise `v`, if `mu >= 0` and `mu |x(k)|^2 <= 1`, the energy of the undisturbed error plus the final misalignment is
bounded by the initial misalignment plus the energy of the noise. -/
theorem C23_robust (o : Obj (lms K n)) {S : ℕ → Core K n Unit} (h : Runs (lms K n) o d x y e S)
    (ws : Vec K n) (v : ℕ → K) (hd : ∀ k, d k = (∑ i, ws i * x k i) + v k) (hmu : 0 ≤ o.core.mu)
    (hx : ∀ k, o.core.mu * sqn (x k) ≤ 1) (N : ℕ) :
    o.core.mu * (∑ k ∈ range N, (e k - v k) ^ 2) + sqn (fun i => (S N).w i - ws i)
      ≤ sqn (fun i => o.core.w i - ws i) + o.core.mu * ∑ k ∈ range N, v k ^ 2 := by
  induction N with
  | zero => rw [h.1]; simp
  | succ N ih =>
    rw [sum_range_succ, sum_range_succ, lms_energy h ws v hd N]
    have h1 : 0 ≤ o.core.mu * e N ^ 2 * (1 - o.core.mu * sqn (x N)) :=
      mul_nonneg (mul_nonneg hmu (sq_nonneg _)) (sub_nonneg.mpr (hx N))
    nlinarith

/-! ## C22 -/

theorem nlms_energy {o : Obj (nlms K n)} {S : ℕ → Core K n (EpsExt K)}
    (h : Runs (nlms K n) o d x y e S)
    (ws : Vec K n) (hd : ∀ k, d k = ∑ i, ws i * x k i) (k : ℕ) :
    sqn (fun i => (S (k + 1)).w i - ws i)
      = sqn (fun i => (S k).w i - ws i)
        - o.core.mu / (o.core.ext.eps + sqn (x k))
          * (2 - o.core.mu / (o.core.ext.eps + sqn (x k)) * sqn (x k)) * e k ^ 2 := by
  obtain ⟨h1, h0, hy, he, hw⟩ := nlms_runs h k
  have h3 : ∑ i, ((S k).w i - ws i) * x k i = - e k := by
    rw [he, hy, hd, dot_eq]
    simp only [sub_mul, sum_sub_distrib]; ring
  have h2 : (fun i => (S (k + 1)).w i - ws i)
      = fun i => ((S k).w i - ws i)
        + (o.core.mu / (o.core.ext.eps + sqn (x k)) * e k) * x k i := by
    funext i; rw [hw, h1, h0, sqn_eq_dot]; ring
  rw [h2, sqn_add_smul, h3]; ring

theorem nlms_gain {mu eps s : K} (he : 0 < eps) (hmu : 0 ≤ mu) (hs : 0 ≤ s) :
    mu / (eps + s) * s ≤ mu := by
  have h : 0 < eps + s := by linarith
  rw [div_mul_eq_mul_div, div_le_iff₀ h]
  nlinarith

/-- C22: on noise-free data the NLMS misalignment never grows for `0 <= mu <= 2`, `eps > 0`, whatever the inputs. -/
theorem C22_monotone (o : Obj (nlms K n)) {S : ℕ → Core K n (EpsExt K)}
    (h : Runs (nlms K n) o d x y e S) (ws : Vec K n) (hd : ∀ k, d k = ∑ i, ws i * x k i)
    (heps : 0 < o.core.ext.eps) (hmu : 0 ≤ o.core.mu) (hmu2 : o.core.mu ≤ 2) (k : ℕ) :
    sqn (fun i => (S (k + 1)).w i - ws i) ≤ sqn (fun i => (S k).w i - ws i) := by
  rw [nlms_energy h ws hd k]
  have hs := sqn_nonneg (x k)
  have h1 : 0 ≤ o.core.mu / (o.core.ext.eps + sqn (x k)) := div_nonneg hmu (by linarith)
  have h2 := nlms_gain heps hmu hs
  have h3 : 0 ≤ 2 - o.core.mu / (o.core.ext.eps + sqn (x k)) * sqn (x k) := by linarith
  have := mul_nonneg (mul_nonneg h1 h3) (sq_nonneg (e k))
  linarith

/-- C22: energy bound over any number of samples. -/
theorem C22_energy (o : Obj (nlms K n)) {S : ℕ → Core K n (EpsExt K)}
    (h : Runs (nlms K n) o d x y e S) (ws : Vec K n) (hd : ∀ k, d k = ∑ i, ws i * x k i)
    (heps : 0 < o.core.ext.eps) (hmu : 0 ≤ o.core.mu) (N : ℕ) :
    sqn (fun i => (S N).w i - ws i)
        + ∑ k ∈ range N, o.core.mu * (2 - o.core.mu) * e k ^ 2 / (o.core.ext.eps + sqn (x k))
      ≤ sqn (fun i => o.core.w i - ws i) := by
  induction N with
  | zero => rw [h.1]; simp
  | succ N ih =>
    rw [sum_range_succ, nlms_energy h ws hd N]
    have hs := sqn_nonneg (x N)
    have h0 : 0 < o.core.ext.eps + sqn (x N) := by linarith
    have h1 : 0 ≤ o.core.mu / (o.core.ext.eps + sqn (x N)) := div_nonneg hmu h0.le
    have h2 := nlms_gain heps hmu hs
    have h3 : o.core.mu * (2 - o.core.mu) * e N ^ 2 / (o.core.ext.eps + sqn (x N))
        = o.core.mu / (o.core.ext.eps + sqn (x N)) * (2 - o.core.mu) * e N ^ 2 := by ring
    rw [h3]
    have := mul_nonneg (mul_nonneg h1 (sub_nonneg.mpr h2)) (sq_nonneg (e N))
    nlinarith

/-- C22: the documented bound `0 <= mu <= 2 + 2 eps / |x|^2` is exactly the condition under which the error on the sample just
processed does not grow (`eps > 0`, `x` not 0, error not 0). -/
theorem C22_criterion (o : Obj (nlms K n)) (heps : 0 < o.core.ext.eps) (d : K) (x : Vec K n)
    (hx : sqn x ≠ 0) :
    ∃ o' y y', predict (nlms K n) (List.ofFn x) o = (.ok y, o) ∧
      adapt (nlms K n) d (List.ofFn x) o = (.ok (), o') ∧
      predict (nlms K n) (List.ofFn x) o' = (.ok y', o') ∧
      (d - y ≠ 0 → (|d - y'| ≤ |d - y| ↔
        0 ≤ o.core.mu ∧ o.core.mu ≤ 2 + 2 * o.core.ext.eps / sqn x)) := by
  refine ⟨_, _, _, liftM_ok (basePredict_ofFn o.core x),
    liftM_eq (C := nlms K n) (adapt_mkBase basePredict nlmsRule d _ o.core (nlms_body o.core d x)),
    liftM_ok (basePredict_ofFn _ x), ?_⟩
  intro he
  have hxp : 0 < sqn x := lt_of_le_of_ne (sqn_nonneg x) (Ne.symm hx)
  have hs : 0 < o.core.ext.eps + sqn x := by linarith
  have key : d - dot (fun i => o.core.w i + o.core.mu / (o.core.ext.eps + dot x x) * x i
      * (d - dot o.core.w x)) x
      = (1 - o.core.mu / (o.core.ext.eps + sqn x) * sqn x) * (d - dot o.core.w x) := by
    have h1 : ∀ i, (o.core.w i + o.core.mu / (o.core.ext.eps + dot x x) * x i
      * (d - dot o.core.w x)) * x i = o.core.w i * x i
        + o.core.mu / (o.core.ext.eps + dot x x) * (d - dot o.core.w x) * x i ^ 2 := fun i => by ring
    rw [dot_eq, sum_congr rfl fun i _ => h1 i, sum_add_distrib, ← mul_sum, ← dot_eq, sqn_eq_dot]
    unfold sqn
    ring
  rw [key, abs_mul, mul_le_iff_le_one_left (abs_pos.mpr he), abs_le]
  have h2 : o.core.mu / (o.core.ext.eps + sqn x) * sqn x
      = o.core.mu * sqn x / (o.core.ext.eps + sqn x) := by ring
  rw [h2]
  constructor
  · rintro ⟨h3, h4⟩
    have h5 : 0 ≤ o.core.mu * sqn x / (o.core.ext.eps + sqn x) := by linarith
    have h6 : o.core.mu * sqn x / (o.core.ext.eps + sqn x) ≤ 2 := by linarith
    rw [div_le_iff₀ hs] at h6
    have h7 : 0 ≤ o.core.mu * sqn x := by
      have := mul_nonneg h5 hs.le
      rwa [div_mul_cancel₀ _ hs.ne'] at this
    refine ⟨nonneg_of_mul_nonneg_left h7 hxp, ?_⟩
    have h8 : 2 + 2 * o.core.ext.eps / sqn x = 2 * (o.core.ext.eps + sqn x) / sqn x := by
      field_simp; ring
    rw [h8, le_div_iff₀ hxp]; exact h6
  · rintro ⟨h3, h4⟩
    have h8 : 2 + 2 * o.core.ext.eps / sqn x = 2 * (o.core.ext.eps + sqn x) / sqn x := by
      field_simp; ring
    rw [h8, le_div_iff₀ hxp] at h4
    have h5 : 0 ≤ o.core.mu * sqn x / (o.core.ext.eps + sqn x) :=
      div_nonneg (mul_nonneg h3 hxp.le) hs.le
    have h6 : o.core.mu * sqn x / (o.core.ext.eps + sqn x) ≤ 2 := by
      rw [div_le_iff₀ hs]; exact h4
    constructor <;> linarith

end field

section real
variable {n : ℕ} {d : ℕ → ℝ} {x : ℕ → Vec ℝ n} {y e : ℕ → ℝ}

theorem tendsto_zero_of_energy {B c : ℝ} (hc : 0 < c)
    (hB : ∀ N, ∑ k ∈ range N, c * e k ^ 2 ≤ B) : Filter.Tendsto e Filter.atTop (nhds 0) := by
  have hs : Summable fun k => c * e k ^ 2 :=
    summable_of_sum_range_le (fun k => mul_nonneg hc.le (sq_nonneg _)) hB
  have h1 := hs.tendsto_atTop_zero
  have h2 : Filter.Tendsto (fun k => e k ^ 2) Filter.atTop (nhds 0) := by
    have := h1.const_mul c⁻¹
    simpa [← mul_assoc, inv_mul_cancel₀ hc.ne'] using this
  have h3 := h2.sqrt
  rw [Real.sqrt_zero] at h3
  simp only [Real.sqrt_sq_eq_abs] at h3
  exact (tendsto_zero_iff_abs_tendsto_zero e).mpr h3

/-- C21: on noise-free data the LMS error tends to 0 if `mu > 0` and `mu |x(k)|^2` is bounded away from 2. -/
theorem C21_error_vanishes (o : Obj (lms ℝ n)) {S : ℕ → Core ℝ n Unit}
    (h : Runs (lms ℝ n) o d x y e S) (ws : Vec ℝ n) (hd : ∀ k, d k = ∑ i, ws i * x k i)
    (hmu : 0 < o.core.mu) {c : ℝ} (hc : c < 2) (hx : ∀ k, o.core.mu * sqn (x k) ≤ c) :
    Filter.Tendsto e Filter.atTop (nhds 0) := by
  refine tendsto_zero_of_energy (B := sqn fun i => o.core.w i - ws i)
    (mul_pos hmu (sub_pos.mpr hc)) fun N => ?_
  have h1 := C21_energy o h ws hd N
  have h2 := sqn_nonneg fun i => (S N).w i - ws i
  have h3 : ∑ k ∈ range N, o.core.mu * (2 - c) * e k ^ 2
      ≤ ∑ k ∈ range N, o.core.mu * (2 - o.core.mu * sqn (x k)) * e k ^ 2 := by
    refine sum_le_sum fun k _ => mul_le_mul_of_nonneg_right ?_ (sq_nonneg _)
    exact mul_le_mul_of_nonneg_left (by linarith [hx k]) hmu.le
  linarith

/-- C22: on bounded noise-free data the NLMS error tends to 0 for `0 < mu < 2`, `eps > 0`. -/
theorem C22_error_vanishes (o : Obj (nlms ℝ n)) {S : ℕ → Core ℝ n (EpsExt ℝ)}
    (h : Runs (nlms ℝ n) o d x y e S) (ws : Vec ℝ n) (hd : ∀ k, d k = ∑ i, ws i * x k i)
    (heps : 0 < o.core.ext.eps) (hmu : 0 < o.core.mu) (hmu2 : o.core.mu < 2)
    {B : ℝ} (hB : ∀ k, sqn (x k) ≤ B) :
    Filter.Tendsto e Filter.atTop (nhds 0) := by
  have hB0 : 0 ≤ B := (sqn_nonneg _).trans (hB 0)
  refine tendsto_zero_of_energy (B := sqn fun i => o.core.w i - ws i)
    (c := o.core.mu * (2 - o.core.mu) / (o.core.ext.eps + B))
    (div_pos (mul_pos hmu (sub_pos.mpr hmu2)) (by linarith)) fun N => ?_
  have h1 := C22_energy o h ws hd heps hmu.le N
  have h2 := sqn_nonneg fun i => (S N).w i - ws i
  have h3 : ∑ k ∈ range N, o.core.mu * (2 - o.core.mu) / (o.core.ext.eps + B) * e k ^ 2
      ≤ ∑ k ∈ range N, o.core.mu * (2 - o.core.mu) * e k ^ 2 / (o.core.ext.eps + sqn (x k)) := by
    refine sum_le_sum fun k _ => ?_
    rw [div_mul_eq_mul_div]
    have hs := sqn_nonneg (x k)
    refine div_le_div_of_nonneg_left ?_ (by linarith) (by linarith [hB k])
    exact mul_nonneg (mul_nonneg hmu.le (by linarith)) (sq_nonneg _)
  linarith

/-- the hypotheses of C21-C23: a constant input of norm 1 and `mu = 1/2` -/
example : ∃ (o : Obj (lms ℝ 1)) (ws : Vec ℝ 1) (d : ℕ → ℝ) (x : ℕ → Vec ℝ 1) (y e : ℕ → ℝ)
    (S : ℕ → Core ℝ 1 Unit), Runs (lms ℝ 1) o d x y e S ∧ (∀ k, d k = ∑ i, ws i * x k i) ∧
    0 < o.core.mu ∧ (∀ k, o.core.mu * sqn (x k) ≤ 1) ∧ o.core.w ≠ ws := by
  refine ⟨⟨⟨fun _ => 0, 1, 1 / 2, ()⟩, []⟩, fun _ => 1, fun _ => 1, fun _ _ => 1, _, _, _,
    runs_of_safe lms_safe _ trivial _ _, ?_, ?_, ?_, ?_⟩
  · simp
  · norm_num
  · intro k; simp [sqn]; norm_num
  · intro h; have := congrFun h 0; norm_num at this

end real

/-- ... and for NLMS, with a step size above 1 and inputs that change in size -/
example : ∃ (o : Obj (nlms ℝ 2)) (ws : Vec ℝ 2) (d : ℕ → ℝ) (x : ℕ → Vec ℝ 2) (y e : ℕ → ℝ) (S : ℕ → Core ℝ 2 (EpsExt ℝ)),
    Runs (nlms ℝ 2) o d x y e S ∧ (∀ k, d k = ∑ i, ws i * x k i) ∧ 0 < o.core.ext.eps ∧ 0 < o.core.mu ∧ o.core.mu < 2 ∧
    (∀ k, sqn (x k) ≤ 5) ∧ x 0 ≠ x 1 ∧ o.core.w ≠ ws := by
  refine ⟨⟨⟨fun _ => 0, 2, 3 / 2, (⟨1⟩ : EpsExt ℝ)⟩, []⟩, fun _ => 1, _, fun k => ![(-1) ^ k, 2], _, _, _,
    runs_of_safe nlms_safe _ trivial _ _, fun k => rfl, one_pos, by norm_num, by norm_num, fun k => ?_, fun h => ?_, fun h => ?_⟩
  · simp [sqn, Fin.sum_univ_two, ← pow_mul, mul_comm k 2]; norm_num
  · have := congrFun h 0; norm_num at this
  · have := congrFun h 0; norm_num at this

end Padasip
