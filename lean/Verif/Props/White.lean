import Verif.Props.Stochastic
import Mathlib.MeasureTheory.Integral.Pi
import Mathlib.Probability.Distributions.Gaussian.Real

/-!
# C123 continued: inputs with independent identically distributed components, in particular the Gaussian inputs of the documented example
-/

set_option linter.unusedSectionVars false
set_option linter.unusedSimpArgs false
set_option linter.unusedVariables false

namespace Padasip

open Finset MeasureTheory ProbabilityTheory

section moments
variable {n : ℕ} {ν : Measure ℝ} [IsProbabilityMeasure ν]

theorem mono_eq (p : Fin n → ℕ) (i j l : Fin n) (hp : ∀ m, p m = (if m = i then 1 else 0) + (if m = j then 1 else 0) + (if m = l then 2 else 0)) (a : Vec ℝ n) :
    a i * a j * a l ^ 2 = ∏ m, a m ^ p m := by
  simp only [hp, pow_add, prod_mul_distrib, pow_ite, pow_one, pow_zero, prod_ite_eq', mem_univ, if_true]

theorem mono_eq2 (p : Fin n → ℕ) (i j : Fin n) (hp : ∀ m, p m = (if m = i then 1 else 0) + (if m = j then 1 else 0)) (a : Vec ℝ n) :
    a i * a j = ∏ m, a m ^ p m := by
  simp only [hp, pow_add, prod_mul_distrib, pow_ite, pow_one, pow_zero, prod_ite_eq', mem_univ, if_true]

theorem pow_le_four {k : ℕ} (hk : k ≤ 4) (h4 : Integrable (fun t : ℝ => t ^ 4) ν) : Integrable (fun t : ℝ => t ^ k) ν := by
  refine ((integrable_const (1 : ℝ)).add h4).mono' (by fun_prop) (Filter.Eventually.of_forall fun t => ?_)
  show ‖t ^ k‖ ≤ 1 + t ^ 4
  rw [norm_pow, Real.norm_eq_abs]
  have h0 := abs_nonneg t
  have h44 : t ^ 4 = |t| ^ 4 := by rw [show (4:ℕ) = 2 * 2 from rfl, pow_mul, pow_mul, sq_abs]
  rcases le_or_gt |t| 1 with h | h
  · have := pow_le_one₀ (n := k) h0 h
    have := pow_nonneg h0 4
    rw [h44]; linarith
  · have := pow_le_pow_right₀ h.le hk
    rw [h44]; linarith

theorem mono_integrable (h4 : Integrable (fun t : ℝ => t ^ 4) ν) (p : Fin n → ℕ) (hp : ∀ m, p m ≤ 4) :
    Integrable (fun a : Vec ℝ n => ∏ m, a m ^ p m) (Measure.pi fun _ => ν) :=
  Integrable.fintype_prod (f := fun m t => t ^ p m) fun m => pow_le_four (hp m) h4

theorem mono_integral (p : Fin n → ℕ) :
    ∫ a : Vec ℝ n, ∏ m, a m ^ p m ∂(Measure.pi fun _ => ν) = ∏ m, ∫ t, t ^ p m ∂ν :=
  integral_fintype_prod_eq_prod (f := fun m t => t ^ p m)

/-- second moments of independent zero mean components -/
theorem white_second (h4 : Integrable (fun t : ℝ => t ^ 4) ν) (h1 : ∫ t, t ∂ν = 0) (i j : Fin n) :
    Integrable (fun a : Vec ℝ n => a i * a j) (Measure.pi fun _ => ν) ∧
    ∫ a : Vec ℝ n, a i * a j ∂(Measure.pi fun _ => ν) = if i = j then ∫ t, t ^ 2 ∂ν else 0 := by
  let p : Fin n → ℕ := fun m => (if m = i then 1 else 0) + (if m = j then 1 else 0)
  have e : (fun a : Vec ℝ n => a i * a j) = fun a => ∏ m, a m ^ p m := funext fun a => mono_eq2 p i j (fun _ => rfl) a
  have hp : ∀ m, p m ≤ 4 := fun m => by simp only [p]; split <;> split <;> omega
  rw [e]
  refine ⟨mono_integrable h4 p hp, ?_⟩
  rw [mono_integral]
  split_ifs with hij
  · subst hij
    rw [prod_eq_single i]
    · simp [p]
    · intro m _ hm; simp [p, hm]
    · simp
  · refine prod_eq_zero (mem_univ i) ?_
    simp [p, hij, h1]

/-- fourth moments of independent zero mean components -/
theorem white_fourth (h4 : Integrable (fun t : ℝ => t ^ 4) ν) (h1 : ∫ t, t ∂ν = 0) (i j l : Fin n) :
    Integrable (fun a : Vec ℝ n => a i * a j * a l ^ 2) (Measure.pi fun _ => ν) ∧
    ∫ a : Vec ℝ n, a i * a j * a l ^ 2 ∂(Measure.pi fun _ => ν)
      = if i = j then (if l = i then ∫ t, t ^ 4 ∂ν else (∫ t, t ^ 2 ∂ν) ^ 2) else 0 := by
  let p : Fin n → ℕ := fun m => (if m = i then 1 else 0) + (if m = j then 1 else 0) + (if m = l then 2 else 0)
  have e : (fun a : Vec ℝ n => a i * a j * a l ^ 2) = fun a => ∏ m, a m ^ p m := funext fun a => mono_eq p i j l (fun _ => rfl) a
  have hp : ∀ m, p m ≤ 4 := fun m => by simp only [p]; split <;> split <;> split <;> omega
  rw [e]
  refine ⟨mono_integrable h4 p hp, ?_⟩
  rw [mono_integral]
  split_ifs with hij hli
  · subst hij; subst hli
    rw [prod_eq_single l]
    · simp [p]
    · intro m _ hm; simp [p, hm]
    · simp
  · subst hij
    rw [← mul_prod_erase _ _ (mem_univ i), ← mul_prod_erase _ _ (mem_erase.2 ⟨hli, mem_univ l⟩), prod_eq_one]
    · have h3 : p i = 2 := by simp [p, Ne.symm hli]
      have h4 : p l = 2 := by simp [p, hli]
      rw [h3, h4]; ring
    · intro m hm
      rw [mem_erase, mem_erase] at hm
      have : p m = 0 := by simp only [p]; rw [if_neg hm.2.1, if_neg hm.1]
      simp [this]
  · by_cases hli : l = i
    · refine prod_eq_zero (mem_univ j) ?_
      have : p j = 1 := by simp [p, Ne.symm hij, hli]
      simp [this, h1]
    · refine prod_eq_zero (mem_univ i) ?_
      have : p i = 1 := by simp [p, hij, Ne.symm hli]
      simp [this, h1]

end moments

/-! ## moments of the standard normal distribution -/

theorem gauss_moments : ∫ t, t ∂gaussianReal 0 1 = 0 ∧ ∫ t, t ^ 2 ∂gaussianReal 0 1 = 1 ∧ ∫ t, t ^ 4 ∂gaussianReal 0 1 = 3 ∧
    Integrable (fun t : ℝ => t ^ 4) (gaussianReal 0 1) := by
  have hm : ∀ k : ℕ, ∫ t, t ^ k ∂gaussianReal 0 1 = iteratedDeriv k (fun t : ℝ => Real.exp (t ^ 2 / 2)) 0 := by
    intro k
    have h := iteratedDeriv_mgf_zero (X := fun t : ℝ => t) (μ := gaussianReal 0 1) (by simp) k
    rw [mgf_fun_id_gaussianReal] at h
    simp only [zero_mul, zero_add, NNReal.coe_one, one_mul] at h
    rw [h]
    rfl
  have hE : ∀ t : ℝ, HasDerivAt (fun t : ℝ => Real.exp (t ^ 2 / 2)) (t * Real.exp (t ^ 2 / 2)) t := by
    intro t
    have h1 : HasDerivAt (fun t : ℝ => t ^ 2 / 2) t t := by
      have := (hasDerivAt_pow 2 t).div_const 2
      simpa using this
    have := h1.exp
    rwa [mul_comm] at this
  have d1 : deriv (fun t : ℝ => Real.exp (t ^ 2 / 2)) = fun t => t * Real.exp (t ^ 2 / 2) := funext fun t => (hE t).deriv
  have dp : ∀ (q q' : ℝ → ℝ), (∀ t, HasDerivAt q (q' t) t) → deriv (fun t : ℝ => q t * Real.exp (t ^ 2 / 2)) = fun t => (q' t + t * q t) * Real.exp (t ^ 2 / 2) := by
    intro q q' hq
    funext t
    exact (((hq t).mul (hE t)).congr_deriv (by ring)).deriv
  have d2 := dp (fun t => t) (fun _ => 1) (fun t => hasDerivAt_id t)
  have d3 := dp (fun t => 1 + t * t) (fun t => 2 * t) (fun t =>
    (((hasDerivAt_id' t).mul (hasDerivAt_id' t)).const_add 1).congr_deriv (by ring))
  have d4 := dp (fun t => 2 * t + t * (1 + t * t)) (fun t => 3 + 3 * (t * t)) (fun t =>
    (((hasDerivAt_id' t).const_mul 2).add ((hasDerivAt_id' t).mul (((hasDerivAt_id' t).mul (hasDerivAt_id' t)).const_add 1))).congr_deriv (by
      simp only [Pi.mul_apply]; ring))
  refine ⟨integral_id_gaussianReal, ?_, ?_, ?_⟩
  · rw [hm, iteratedDeriv_succ, iteratedDeriv_one, d1, d2]
    simp
  · rw [hm, iteratedDeriv_succ, iteratedDeriv_succ, iteratedDeriv_succ, iteratedDeriv_one, d1, d2, d3, d4]
    simp
  · have := (memLp_id_gaussianReal (μ := 0) (v := 1) 4).integrable_norm_pow (by norm_num)
    refine this.congr (Filter.Eventually.of_forall fun t => ?_)
    show ‖t‖ ^ 4 = t ^ 4
    rw [Real.norm_eq_abs, show (4:ℕ) = 2 * 2 from rfl, pow_mul, pow_mul, sq_abs]

/-! ## The exact mean square deviation of LMS -/

section user
variable {Ω : Type} {mΩ : MeasurableSpace Ω} {P : Measure Ω} [IsProbabilityMeasure P] {n : ℕ} {x : ℕ → Ω → Vec ℝ n} {v : ℕ → Ω → ℝ}
  {y e : Ω → ℕ → ℝ} {ν : Measure ℝ} [IsProbabilityMeasure ν]

theorem white_transfer {k : ℕ} (mx : Measurable (x k)) (hx : P.map (x k) = Measure.pi fun _ => ν) {f : Vec ℝ n → ℝ} {c : ℝ} (hf : Measurable f)
    (h : Integrable f (Measure.pi fun _ => ν) ∧ ∫ a, f a ∂(Measure.pi fun _ => ν) = c) :
    Integrable (fun ω => f (x k ω)) P ∧ ∫ ω, f (x k ω) ∂P = c := by
  rw [← hx] at h
  refine ⟨(integrable_map_measure hf.aestronglyMeasurable mx.aemeasurable).1 h.1, ?_⟩
  rw [← h.2, integral_map mx.aemeasurable hf.aestronglyMeasurable]

/-- C123: LMS on inputs whose components are independent with a common zero mean distribution `ν` of second moment `s` and fourth moment `m4`, and zero mean noise of variance `s2`
independent of the input.  The mean square deviation of the weights from `ws` obeys exactly
`E|w(k+1) - ws|^2 = (1 - 2 mu s + mu^2 (m4 + (n - 1) s^2)) E|w(k) - ws|^2 + mu^2 n s s2`. -/
theorem C123_lms_white (o : Ω → Obj (lms ℝ n)) (hs : IndepSamples P x v fun ω => (o ω).core.w) {mu : ℝ} (ho : ∀ ω, (o ω).core.mu = mu)
    {S : Ω → ℕ → Core ℝ n Unit} (ws : Vec ℝ n) (hw0 : ∀ i, MemLp (fun ω => (o ω).core.w i) 2 P)
    (h : ∀ ω, Runs (lms ℝ n) (o ω) (fun k => (∑ i, ws i * x k ω i) + v k ω) (fun k => x k ω) (y ω) (e ω) (S ω))
    (hx : ∀ k, P.map (x k) = Measure.pi fun _ => ν) (h4 : Integrable (fun t : ℝ => t ^ 4) ν) (h1 : ∫ t, t ∂ν = 0) {s m4 s2 : ℝ}
    (hs' : ∫ t, t ^ 2 ∂ν = s) (hm4 : ∫ t, t ^ 4 ∂ν = m4)
    (hxv : ∀ k, IndepFun (x k) (v k) P) (hv : ∀ k, MemLp (v k) 2 P) (hv0 : ∀ k, ∫ ω, v k ω ∂P = 0) (hs2 : ∀ k, ∫ ω, v k ω ^ 2 ∂P = s2) (k : ℕ) :
    (∀ i, Integrable (fun ω => ((S ω k).w i - ws i) ^ 2) P) ∧
    ∫ ω, ∑ i, ((S ω (k + 1)).w i - ws i) ^ 2 ∂P
      = (1 - 2 * mu * s + mu ^ 2 * (m4 + (n - 1) * s ^ 2)) * ∫ ω, ∑ i, ((S ω k).w i - ws i) ^ 2 ∂P + mu ^ 2 * n * s * s2 := by
  have hp := lms_process o hs ho ws h
  have mx : ∀ k i, Measurable fun ω => x k ω i := fun k i => (measurable_pi_apply i).comp (hs.x_measurable k)
  have w2 : ∀ k i j, Integrable (fun ω => x k ω i * x k ω j) P ∧ ∫ ω, x k ω i * x k ω j ∂P = if i = j then s else 0 := fun k i j => by
    have := white_transfer (hs.x_measurable k) (hx k) ((measurable_pi_apply i).mul (measurable_pi_apply j)) (white_second h4 h1 i j)
    rw [hs'] at this
    exact this
  have w4 : ∀ k i j l, Integrable (fun ω => x k ω i * x k ω j * x k ω l ^ 2) P ∧
      ∫ ω, x k ω i * x k ω j * x k ω l ^ 2 ∂P = if i = j then (if l = i then m4 else s ^ 2) else 0 := fun k i j l => by
    have := white_transfer (hs.x_measurable k) (hx k) (((measurable_pi_apply i).mul (measurable_pi_apply j)).mul ((measurable_pi_apply l).pow_const 2))
      (white_fourth h4 h1 i j l)
    rw [hs', hm4] at this
    exact this
  have hc : ∀ i, MemLp (fun ω => (o ω).core.w i - ws i) 2 P := fun i => (hw0 i).sub (memLp_const _)
  have m1 : ∀ k i, MemLp (fun ω => mu * x k ω i) 2 P := fun k i => by
    refine MemLp.const_mul ?_ _
    rw [memLp_two_iff_integrable_sq (mx k i).aestronglyMeasurable]
    refine (w2 k i i).1.congr (Filter.Eventually.of_forall fun ω => ?_)
    show x k ω i * x k ω i = x k ω i ^ 2
    ring
  have m2 : ∀ k i j, MemLp (fun ω => mu * x k ω i * x k ω j) 2 P := fun k i j => by
    have hm : Measurable fun ω => mu * x k ω i * x k ω j := ((mx k i).const_mul mu).mul (mx k j)
    rw [memLp_two_iff_integrable_sq hm.aestronglyMeasurable]
    refine ((w4 k i i j).1.const_mul (mu ^ 2)).congr (Filter.Eventually.of_forall fun ω => ?_)
    show mu ^ 2 * (x k ω i * x k ω i * x k ω j ^ 2) = (mu * x k ω i * x k ω j) ^ 2
    ring
  have hm := hp.meanSq hc m1 m2 hxv hv hv0 k
  refine ⟨fun i => (hm.1 i).integrable_sq, ?_⟩
  rw [hm.2, hs2]
  have hT : ∫ ω, mu ^ 2 * ∑ i, x k ω i ^ 2 ∂P = mu ^ 2 * (n * s) := by
    rw [integral_const_mul, integral_finsetSum _ fun i _ => by
      refine (w2 k i i).1.congr (Filter.Eventually.of_forall fun ω => ?_)
      show x k ω i * x k ω i = x k ω i ^ 2
      ring]
    have : ∀ i, ∫ ω, x k ω i ^ 2 ∂P = s := fun i => by
      have := (w2 k i i).2
      rw [if_pos rfl] at this
      rw [← this]; congr 1; funext ω; ring
    simp [this]
  have hcoef : ∀ i j, ∫ ω, (2 * mu - mu ^ 2 * ∑ l, x k ω l ^ 2) * x k ω i * x k ω j ∂P
      = if i = j then 2 * mu * s - mu ^ 2 * (m4 + (n - 1) * s ^ 2) else 0 := by
    intro i j
    have e1 : (fun ω => (2 * mu - mu ^ 2 * ∑ l, x k ω l ^ 2) * x k ω i * x k ω j)
        = fun ω => 2 * mu * (x k ω i * x k ω j) - mu ^ 2 * ∑ l, x k ω i * x k ω j * x k ω l ^ 2 := by
      funext ω; rw [← mul_sum]; ring
    rw [e1, integral_sub ((w2 k i j).1.const_mul _) ((integrable_finsetSum _ fun l _ => (w4 k i j l).1).const_mul _), integral_const_mul, integral_const_mul,
      integral_finsetSum _ fun l _ => (w4 k i j l).1, (w2 k i j).2, sum_congr rfl fun l _ => (w4 k i j l).2]
    split_ifs with hij
    · have : ∑ l, (if l = i then m4 else s ^ 2) = m4 + (n - 1) * s ^ 2 := by
        rw [← add_sum_erase _ _ (mem_univ i), if_pos rfl, sum_congr rfl fun l hl => if_neg (mem_erase.1 hl).1, sum_const, card_erase_of_mem (mem_univ i),
          card_univ, Fintype.card_fin, nsmul_eq_mul, Nat.cast_sub (Nat.one_le_of_lt i.2), Nat.cast_one]
      rw [this]
    · simp
  have hq : ∀ ω, ∑ i, ∑ j, ((S ω k).w i - ws i) * ((S ω k).w j - ws j) * ∫ ω', (2 * mu - mu ^ 2 * ∑ l, x k ω' l ^ 2) * x k ω' i * x k ω' j ∂P
      = (2 * mu * s - mu ^ 2 * (m4 + (n - 1) * s ^ 2)) * ∑ i, ((S ω k).w i - ws i) ^ 2 := by
    intro ω
    rw [mul_sum]
    refine sum_congr rfl fun i _ => ?_
    rw [sum_congr rfl fun j _ => by rw [hcoef i j]]
    simp only [mul_ite, mul_zero, sum_ite_eq, mem_univ, if_true]
    ring
  simp only [hq]
  rw [integral_const_mul, hT]
  ring

theorem affine_rec {a : ℕ → ℝ} {r b : ℝ} (hr : r ≠ 1) (h : ∀ k, a (k + 1) = r * a k + b) (k : ℕ) : a k = r ^ k * (a 0 - b / (1 - r)) + b / (1 - r) := by
  have h1 : 1 - r ≠ 0 := sub_ne_zero.2 (Ne.symm hr)
  induction k with
  | zero => simp
  | succ k ih =>
    rw [h, ih]
    field_simp
    ring

/-- C123: ... so for `0 < mu` and `mu (m4 + (n - 1) s^2) < 2 s` the mean square deviation converges, and its limit is `mu n s s2 / (2 s - mu (m4 + (n - 1) s^2))`. -/
theorem C123_lms_white_converges (o : Ω → Obj (lms ℝ n)) (hs : IndepSamples P x v fun ω => (o ω).core.w) {mu : ℝ} (ho : ∀ ω, (o ω).core.mu = mu)
    {S : Ω → ℕ → Core ℝ n Unit} (ws : Vec ℝ n) (hw0 : ∀ i, MemLp (fun ω => (o ω).core.w i) 2 P)
    (h : ∀ ω, Runs (lms ℝ n) (o ω) (fun k => (∑ i, ws i * x k ω i) + v k ω) (fun k => x k ω) (y ω) (e ω) (S ω))
    (hx : ∀ k, P.map (x k) = Measure.pi fun _ => ν) (h4 : Integrable (fun t : ℝ => t ^ 4) ν) (h1 : ∫ t, t ∂ν = 0) {s m4 s2 : ℝ}
    (hs' : ∫ t, t ^ 2 ∂ν = s) (hm4 : ∫ t, t ^ 4 ∂ν = m4) (hn : 0 < n)
    (hxv : ∀ k, IndepFun (x k) (v k) P) (hv : ∀ k, MemLp (v k) 2 P) (hv0 : ∀ k, ∫ ω, v k ω ∂P = 0) (hs2 : ∀ k, ∫ ω, v k ω ^ 2 ∂P = s2)
    (hmu : 0 < mu) (hmu2 : mu * (m4 + (n - 1) * s ^ 2) < 2 * s) :
    Filter.Tendsto (fun k => ∫ ω, ∑ i, ((S ω k).w i - ws i) ^ 2 ∂P) Filter.atTop (nhds (mu * n * s * s2 / (2 * s - mu * (m4 + (n - 1) * s ^ 2)))) := by
  have hrec := fun k => (C123_lms_white o hs ho ws hw0 h hx h4 h1 hs' hm4 hxv hv hv0 hs2 k).2
  set r := 1 - 2 * mu * s + mu ^ 2 * (m4 + (n - 1) * s ^ 2) with hr
  have hr1 : r < 1 := by
    have := mul_lt_mul_of_pos_left hmu2 hmu
    rw [hr]; nlinarith
  -- r >= 0: the fourth moment is at least the square of the second
  have hvar : s ^ 2 ≤ m4 := by
    have i2 := pow_le_four (ν := ν) (k := 2) (by norm_num) h4
    have hnn : 0 ≤ ∫ t, (t ^ 2 - s) ^ 2 ∂ν := integral_nonneg fun t => sq_nonneg _
    have e1 : (fun t : ℝ => (t ^ 2 - s) ^ 2) = fun t => t ^ 4 - 2 * s * t ^ 2 + s ^ 2 := by funext t; ring
    have i42 : Integrable (fun t : ℝ => t ^ 4 - 2 * s * t ^ 2) ν := h4.sub (i2.const_mul _)
    rw [e1, integral_add i42 (integrable_const _), integral_sub h4 (i2.const_mul _), integral_const_mul, hs', hm4, integral_const, probReal_univ, one_smul] at hnn
    nlinarith
  have hn1 : (1 : ℝ) ≤ n := by exact_mod_cast hn
  have hr0 : 0 ≤ r := by
    have h5 : s ^ 2 ≤ m4 + (n - 1) * s ^ 2 := by nlinarith [mul_nonneg (sub_nonneg.2 hn1) (sq_nonneg s)]
    have := mul_le_mul_of_nonneg_left h5 (sq_nonneg mu)
    rw [hr]; nlinarith [sq_nonneg (1 - mu * s)]
  have ht := ((tendsto_pow_atTop_nhds_zero_of_lt_one hr0 hr1).mul_const (∫ ω, ∑ i, ((S ω 0).w i - ws i) ^ 2 ∂P - mu ^ 2 * n * s * s2 / (1 - r))).add_const
    (mu ^ 2 * n * s * s2 / (1 - r))
  have e1 : (fun k => ∫ ω, ∑ i, ((S ω k).w i - ws i) ^ 2 ∂P) = fun k => r ^ k * (∫ ω, ∑ i, ((S ω 0).w i - ws i) ^ 2 ∂P - mu ^ 2 * n * s * s2 / (1 - r))
      + mu ^ 2 * n * s * s2 / (1 - r) := funext fun k => affine_rec (a := fun k => ∫ ω, ∑ i, ((S ω k).w i - ws i) ^ 2 ∂P) hr1.ne hrec k
  have e2 : mu * n * s * s2 / (2 * s - mu * (m4 + (n - 1) * s ^ 2)) = 0 * (∫ ω, ∑ i, ((S ω 0).w i - ws i) ^ 2 ∂P - mu ^ 2 * n * s * s2 / (1 - r))
      + mu ^ 2 * n * s * s2 / (1 - r) := by
    have h6 : 1 - r = mu * (2 * s - mu * (m4 + (n - 1) * s ^ 2)) := by rw [hr]; ring
    have h7 : 2 * s - mu * (m4 + (n - 1) * s ^ 2) ≠ 0 := by linarith
    rw [h6, zero_mul, zero_add]
    field_simp
  rw [e1, e2]
  exact ht

/-- C123: the condition is sharp: with `mu (m4 + (n - 1) s^2) > 2 s` the mean square deviation grows without bound, unless the weights are `ws` from the start. -/
theorem C123_lms_white_diverges (o : Ω → Obj (lms ℝ n)) (hs : IndepSamples P x v fun ω => (o ω).core.w) {mu : ℝ} (ho : ∀ ω, (o ω).core.mu = mu)
    {S : Ω → ℕ → Core ℝ n Unit} (ws : Vec ℝ n) (hw0 : ∀ i, MemLp (fun ω => (o ω).core.w i) 2 P)
    (h : ∀ ω, Runs (lms ℝ n) (o ω) (fun k => (∑ i, ws i * x k ω i) + v k ω) (fun k => x k ω) (y ω) (e ω) (S ω))
    (hx : ∀ k, P.map (x k) = Measure.pi fun _ => ν) (h4 : Integrable (fun t : ℝ => t ^ 4) ν) (h1 : ∫ t, t ∂ν = 0) {s m4 s2 : ℝ}
    (hs' : ∫ t, t ^ 2 ∂ν = s) (hm4 : ∫ t, t ^ 4 ∂ν = m4)
    (hxv : ∀ k, IndepFun (x k) (v k) P) (hv : ∀ k, MemLp (v k) 2 P) (hv0 : ∀ k, ∫ ω, v k ω ∂P = 0) (hs2 : ∀ k, ∫ ω, v k ω ^ 2 ∂P = s2)
    (hmu : 0 < mu) (hmu2 : 2 * s < mu * (m4 + (n - 1) * s ^ 2)) (hstart : 0 < ∫ ω, ∑ i, ((o ω).core.w i - ws i) ^ 2 ∂P) :
    Filter.Tendsto (fun k => ∫ ω, ∑ i, ((S ω k).w i - ws i) ^ 2 ∂P) Filter.atTop Filter.atTop := by
  have hrec := fun k => (C123_lms_white o hs ho ws hw0 h hx h4 h1 hs' hm4 hxv hv hv0 hs2 k).2
  set r := 1 - 2 * mu * s + mu ^ 2 * (m4 + (n - 1) * s ^ 2) with hr
  have hr1 : 1 < r := by
    have := mul_lt_mul_of_pos_left hmu2 hmu
    rw [hr]; nlinarith
  have s20 : 0 ≤ s2 := by rw [← hs2 0]; exact integral_nonneg fun ω => sq_nonneg _
  have s0 : 0 ≤ s := by rw [← hs']; exact integral_nonneg fun ω => sq_nonneg _
  have hb : 0 ≤ mu ^ 2 * n * s * s2 := by positivity
  have h0 : ∫ ω, ∑ i, ((S ω 0).w i - ws i) ^ 2 ∂P = ∫ ω, ∑ i, ((o ω).core.w i - ws i) ^ 2 ∂P := by
    congr 1; funext ω; rw [(h ω).1]; rfl
  have hge : ∀ k, r ^ k * ∫ ω, ∑ i, ((S ω 0).w i - ws i) ^ 2 ∂P ≤ ∫ ω, ∑ i, ((S ω k).w i - ws i) ^ 2 ∂P := by
    intro k
    induction k with
    | zero => simp
    | succ k ih =>
      rw [hrec, pow_succ', mul_assoc]
      have := mul_le_mul_of_nonneg_left ih (by linarith : 0 ≤ r)
      linarith
  refine Filter.tendsto_atTop_mono hge ?_
  rw [h0]
  exact (tendsto_pow_atTop_atTop_of_one_lt hr1).atTop_mul_const hstart

/-- C123: the example in the documentation (`/repo/padasip/filters/lms.py`, lines 80-87): four standard normal inputs, noise of standard deviation `0.1`,
`FilterLMS(n=4, mu=0.1)`.  Whatever (square integrable) weights it starts from, the mean square deviation of the weights from the true ones follows
`E|w(k+1) - ws|^2 = 0.86 E|w(k) - ws|^2 + 0.0004` and converges to `1 / 350`. -/
theorem C123_documented_example (o : Ω → Obj (lms ℝ 4)) {x : ℕ → Ω → Vec ℝ 4} (hs : IndepSamples P x v fun ω => (o ω).core.w) (ho : ∀ ω, (o ω).core.mu = 1 / 10)
    {S : Ω → ℕ → Core ℝ 4 Unit} (hw0 : ∀ i, MemLp (fun ω => (o ω).core.w i) 2 P)
    (h : ∀ ω, Runs (lms ℝ 4) (o ω) (fun k => (2 * x k ω 0 + 1 / 10 * x k ω 1 - 4 * x k ω 2 + 1 / 2 * x k ω 3) + v k ω) (fun k => x k ω) (y ω) (e ω) (S ω))
    (hx : ∀ k, P.map (x k) = Measure.pi fun _ => gaussianReal 0 1) (hxv : ∀ k, IndepFun (x k) (v k) P) (hv : ∀ k, P.map (v k) = gaussianReal 0 (1 / 100)) :
    let dev := fun k => ∫ ω, (((S ω k).w 0 - 2) ^ 2 + ((S ω k).w 1 - 1 / 10) ^ 2 + ((S ω k).w 2 + 4) ^ 2 + ((S ω k).w 3 - 1 / 2) ^ 2) ∂P
    (∀ k, dev (k + 1) = 86 / 100 * dev k + 4 / 10000) ∧ Filter.Tendsto dev Filter.atTop (nhds (1 / 350)) := by
  intro dev
  have h' : ∀ ω, Runs (lms ℝ 4) (o ω) (fun k => (∑ i, (![2, 1 / 10, -4, 1 / 2] : Vec ℝ 4) i * x k ω i) + v k ω) (fun k => x k ω) (y ω) (e ω) (S ω) := by
    intro ω
    have : (fun k => (∑ i, (![2, 1 / 10, -4, 1 / 2] : Vec ℝ 4) i * x k ω i) + v k ω)
        = fun k => (2 * x k ω 0 + 1 / 10 * x k ω 1 - 4 * x k ω 2 + 1 / 2 * x k ω 3) + v k ω := by
      funext k
      rw [Fin.sum_univ_four]
      simp
      ring
    rw [this]
    exact h ω
  have hdev : dev = fun k => ∫ ω, ∑ i, ((S ω k).w i - (![2, 1 / 10, -4, 1 / 2] : Vec ℝ 4) i) ^ 2 ∂P := by
    funext k
    show ∫ ω, _ ∂P = ∫ ω, _ ∂P
    congr 1
    funext ω
    rw [Fin.sum_univ_four]
    simp
  obtain ⟨g1, g2, g4, gi⟩ := gauss_moments
  have mv := hs.v_measurable
  have v2 : ∀ k, MemLp (v k) 2 P := fun k => by
    have hm : MemLp id 2 (P.map (v k)) := by rw [hv k]; exact memLp_id_gaussianReal 2
    exact (memLp_map_measure_iff (by fun_prop) (mv k).aemeasurable).1 hm
  have v0 : ∀ k, ∫ ω, v k ω ∂P = 0 := fun k => by
    have := integral_map (μ := P) (mv k).aemeasurable (f := fun t : ℝ => t) (by fun_prop)
    rw [hv k, integral_id_gaussianReal] at this
    exact this.symm
  have vv : ∀ k, ∫ ω, v k ω ^ 2 ∂P = 1 / 100 := fun k => by
    have h2 := integral_map (μ := P) (mv k).aemeasurable (f := fun t : ℝ => t ^ 2) (by fun_prop)
    rw [← h2, hv k]
    have h3 := variance_fun_id_gaussianReal (μ := 0) (v := 1 / 100)
    rw [variance_eq_integral (by fun_prop)] at h3
    simp only [integral_id_gaussianReal, sub_zero] at h3
    rw [h3]
    simp
  rw [hdev]
  constructor
  · intro k
    have := (C123_lms_white o hs ho _ hw0 h' hx gi g1 g2 g4 hxv v2 v0 vv k).2
    beta_reduce
    rw [this]
    norm_num
  · have := C123_lms_white_converges o hs ho _ hw0 h' hx gi g1 g2 g4 (by norm_num) hxv v2 v0 vv (by norm_num) (by norm_num)
    norm_num at this
    norm_num
    exact this

end user

/-! ## The random data of the theorems exists -/

/-- For all distributions `W` of the start, `X` of the inputs and `V` of the noise there is a probability space with independent samples of these distributions. -/
theorem samples_exist {n : ℕ} (W X : Measure (Vec ℝ n)) (V : Measure ℝ) [IsProbabilityMeasure W] [IsProbabilityMeasure X] [IsProbabilityMeasure V] :
    ∃ (Ω : Type) (mΩ : MeasurableSpace Ω) (P : Measure Ω) (_ : IsProbabilityMeasure P) (x : ℕ → Ω → Vec ℝ n) (v : ℕ → Ω → ℝ) (w : Ω → Vec ℝ n),
      IndepSamples P x v w ∧ (∀ k, IndepFun (x k) (v k) P) ∧ (∀ k, P.map (x k) = X) ∧ (∀ k, P.map (v k) = V) ∧ P.map w = W := by
  let Q : Measure (ℕ → Vec ℝ n × ℝ) := Measure.infinitePi fun _ => X.prod V
  refine ⟨Vec ℝ n × (ℕ → Vec ℝ n × ℝ), inferInstance, W.prod Q, inferInstance, fun k ω => (ω.2 k).1, fun k ω => (ω.2 k).2, fun ω => ω.1, ?_⟩
  have msnd : ∀ k, Measurable fun ω : Vec ℝ n × (ℕ → Vec ℝ n × ℝ) => ω.2 k := fun k => (measurable_pi_apply k).comp measurable_snd
  have hsnd : (W.prod Q).map (fun ω => ω.2) = Q := by
    have := Measure.snd_prod (μ := W) (ν := Q)
    exact this
  have hk : ∀ k, (W.prod Q).map (fun ω => ω.2 k) = X.prod V := by
    intro k
    have e : (fun ω : Vec ℝ n × (ℕ → Vec ℝ n × ℝ) => ω.2 k) = (fun q : ℕ → Vec ℝ n × ℝ => q k) ∘ fun ω => ω.2 := rfl
    rw [e, ← Measure.map_map (measurable_pi_apply k) measurable_snd, hsnd]
    exact Measure.infinitePi_map_eval (fun _ => X.prod V) k
  have hx : ∀ k, (W.prod Q).map (fun ω => (ω.2 k).1) = X := by
    intro k
    have e : (fun ω : Vec ℝ n × (ℕ → Vec ℝ n × ℝ) => (ω.2 k).1) = Prod.fst ∘ fun ω => ω.2 k := rfl
    rw [e, ← Measure.map_map measurable_fst (msnd k), hk]
    exact Measure.fst_prod
  have hv : ∀ k, (W.prod Q).map (fun ω => (ω.2 k).2) = V := by
    intro k
    have e : (fun ω : Vec ℝ n × (ℕ → Vec ℝ n × ℝ) => (ω.2 k).2) = Prod.snd ∘ fun ω => ω.2 k := rfl
    rw [e, ← Measure.map_map measurable_snd (msnd k), hk]
    exact Measure.snd_prod
  refine ⟨⟨fun k => measurable_fst.comp (msnd k), fun k => measurable_snd.comp (msnd k), measurable_fst, ?_, ?_⟩, fun k => ?_, hx, hv, Measure.fst_prod⟩
  · show iIndepFun (fun k (ω : Vec ℝ n × (ℕ → Vec ℝ n × ℝ)) => ω.2 k) (W.prod Q)
    rw [iIndepFun_iff_map_fun_eq_infinitePi_map msnd]
    simp only [hk]
    exact hsnd
  · exact indepFun_prod (X := fun w : Vec ℝ n => w) (Y := fun q : ℕ → Vec ℝ n × ℝ => q) measurable_id measurable_id
  · refine (indepFun_iff_map_prod_eq_prod_map_map (measurable_fst.comp (msnd k)).aemeasurable (measurable_snd.comp (msnd k)).aemeasurable).2 ?_
    refine Eq.trans (hk k) ?_
    exact (congrArg₂ Measure.prod (hx k) (hv k)).symm

/-- the setting of `C123_documented_example`, with the weights drawn from a normal distribution of standard deviation `0.5` (`w="random"`) -/
example : ∃ (Ω : Type) (mΩ : MeasurableSpace Ω) (P : Measure Ω) (_ : IsProbabilityMeasure P) (x : ℕ → Ω → Vec ℝ 4) (v : ℕ → Ω → ℝ) (o : Ω → Obj (lms ℝ 4))
    (y e : Ω → ℕ → ℝ) (S : Ω → ℕ → Core ℝ 4 Unit),
    IndepSamples P x v (fun ω => (o ω).core.w) ∧ (∀ ω, (o ω).core.mu = 1 / 10) ∧ (∀ i, MemLp (fun ω => (o ω).core.w i) 2 P) ∧
    (∀ ω, Runs (lms ℝ 4) (o ω) (fun k => (2 * x k ω 0 + 1 / 10 * x k ω 1 - 4 * x k ω 2 + 1 / 2 * x k ω 3) + v k ω) (fun k => x k ω) (y ω) (e ω) (S ω)) ∧
    (∀ k, P.map (x k) = Measure.pi fun _ => gaussianReal 0 1) ∧ (∀ k, IndepFun (x k) (v k) P) ∧ (∀ k, P.map (v k) = gaussianReal 0 (1 / 100)) := by
  obtain ⟨Ω, mΩ, P, hP, x, v, w, hs, hxv, hx, hv, hw⟩ := samples_exist (Measure.pi fun _ : Fin 4 => gaussianReal 0 (1 / 4))
    (Measure.pi fun _ : Fin 4 => gaussianReal 0 1) (gaussianReal 0 (1 / 100))
  refine ⟨Ω, mΩ, P, hP, x, v, fun ω => ⟨⟨w ω, 4, 1 / 10, ()⟩, []⟩, _, _, _, hs, fun _ => rfl, fun i => ?_,
    fun ω => runs_of_safe lms_safe _ trivial _ _, hx, hxv, hv⟩
  show MemLp (fun ω => w ω i) 2 P
  have hwi : P.map (fun ω => w ω i) = gaussianReal 0 (1 / 4) := by
    have e : (fun ω => w ω i) = Function.eval i ∘ w := rfl
    rw [e, ← Measure.map_map (measurable_pi_apply i) hs.w_measurable, hw]
    exact (measurePreserving_eval (fun _ : Fin 4 => gaussianReal 0 (1 / 4)) i).map_eq
  have hm : MemLp id 2 (P.map (fun ω => w ω i)) := by rw [hwi]; exact memLp_id_gaussianReal 2
  exact (memLp_map_measure_iff (by fun_prop) ((measurable_pi_apply i).comp hs.w_measurable).aemeasurable).1 hm

end Padasip
