import Verif.Props.RandomConv
import Verif.Props.White
import Verif.Props.MiscLaws
import Mathlib.Analysis.Asymptotics.SpecificAsymptotics

/-!
# C139: the learning curve, the mean square of the error `e(k)` returned by `run` on random data

The setting is the one of C122 and C123 (`Verif.Props.Stochastic`): the samples `(x(k), v(k))` are independent, the desired value is `ws . x(k) + v(k)`,
the noise `v(k)` has zero mean, finite variance, and is independent of `x(k)`.
-/

set_option linter.unusedSectionVars false
set_option linter.unusedSimpArgs false
set_option linter.unusedVariables false

namespace Padasip

open Finset MeasureTheory ProbabilityTheory

section process
variable {Ω : Type} {mΩ : MeasurableSpace Ω} {P : Measure Ω} [IsProbabilityMeasure P] {n : ℕ}
  {g : Vec ℝ n → ℝ} {x : ℕ → Ω → Vec ℝ n} {v : ℕ → Ω → ℝ} {c : Ω → Vec ℝ n} {D : ℕ → Ω → Vec ℝ n}

/-- the mean square of `v(k) - D(k).x(k)` -/
theorem Process.errSq (h : Process P g x v c D) (k : ℕ) (hD : ∀ i, MemLp (fun ω => D k ω i) 2 P) (hx2 : ∀ i, MemLp (fun ω => x k ω i) 2 P)
    (hxv : IndepFun (x k) (v k) P) (hv : MemLp (v k) 2 P) (hv0 : ∫ ω, v k ω ∂P = 0) :
    Integrable (fun ω => (v k ω - ∑ i, D k ω i * x k ω i) ^ 2) P ∧
    ∫ ω, (v k ω - ∑ i, D k ω i * x k ω i) ^ 2 ∂P
      = ∫ ω, v k ω ^ 2 ∂P + ∫ ω, ∑ i, ∑ j, D k ω i * D k ω j * ∫ ω', x k ω' i * x k ω' j ∂P ∂P := by
  have iv : Integrable (v k) P := hv.integrable one_le_two
  have iDD : ∀ i j, Integrable (fun ω => D k ω i * D k ω j) P := fun i j => (hD i).integrable_mul (hD j)
  have ixx : ∀ i j, Integrable (fun ω => x k ω i * x k ω j) P := fun i j => (hx2 i).integrable_mul (hx2 j)
  have sB : ∀ i j, Integrable (fun ω => D k ω i * D k ω j * (x k ω i * x k ω j)) P ∧
      ∫ ω, D k ω i * D k ω j * (x k ω i * x k ω j) ∂P = (∫ ω, D k ω i * D k ω j ∂P) * ∫ ω, x k ω i * x k ω j ∂P := fun i j =>
    h.split k (a := fun u => u i * u j) (b := fun q => q.1 i * q.1 j) ((measurable_pi_apply i).mul (measurable_pi_apply j))
      ((comp_measurable i).mul (comp_measurable j)) (iDD i j) (ixx i j)
  have ixv : ∀ i, Integrable (fun ω => x k ω i * v k ω) P ∧ ∫ ω, x k ω i * v k ω ∂P = 0 := by
    intro i
    have mi : Measurable fun a : Vec ℝ n => a i := measurable_pi_apply i
    have hi := hxv.comp mi measurable_id
    refine ⟨hi.integrable_mul ((hx2 i).integrable one_le_two) iv, ?_⟩
    refine (hi.integral_fun_mul_eq_mul_integral ((hx2 i).integrable one_le_two).aestronglyMeasurable iv.aestronglyMeasurable).trans ?_
    show _ * ∫ ω, v k ω ∂P = 0
    rw [hv0, mul_zero]
  have sG : ∀ i, Integrable (fun ω => D k ω i * (x k ω i * v k ω)) P ∧ ∫ ω, D k ω i * (x k ω i * v k ω) ∂P = 0 := by
    intro i
    have := h.split k (a := fun u => u i) (b := fun q => q.1 i * q.2) (measurable_pi_apply i) ((comp_measurable i).mul measurable_snd)
      ((hD i).integrable one_le_two) (ixv i).1
    exact ⟨this.1, this.2.trans (by rw [(ixv i).2, mul_zero])⟩
  have e : (fun ω => (v k ω - ∑ i, D k ω i * x k ω i) ^ 2)
      = fun ω => (v k ω ^ 2 - 2 * ∑ i, D k ω i * (x k ω i * v k ω)) + ∑ i, ∑ j, D k ω i * D k ω j * (x k ω i * x k ω j) := by
    funext ω
    have hB : ∑ i, ∑ j, D k ω i * D k ω j * (x k ω i * x k ω j) = (∑ j, D k ω j * x k ω j) ^ 2 := by
      rw [pow_two (∑ j, D k ω j * x k ω j), sum_mul_sum]
      exact sum_congr rfl fun i _ => sum_congr rfl fun j _ => by ring
    have hG : ∑ i, D k ω i * (x k ω i * v k ω) = (∑ j, D k ω j * x k ω j) * v k ω := by
      rw [sum_mul]
      exact sum_congr rfl fun i _ => by ring
    rw [hB, hG]
    ring
  have iG : Integrable (fun ω => 2 * ∑ i, D k ω i * (x k ω i * v k ω)) P := (integrable_finsetSum _ fun i _ => (sG i).1).const_mul 2
  have iB : Integrable (fun ω => ∑ i, ∑ j, D k ω i * D k ω j * (x k ω i * x k ω j)) P :=
    integrable_finsetSum _ fun i _ => integrable_finsetSum _ fun j _ => (sB i j).1
  have i12 : Integrable (fun ω => v k ω ^ 2 - 2 * ∑ i, D k ω i * (x k ω i * v k ω)) P := hv.integrable_sq.sub iG
  rw [e]
  refine ⟨i12.add iB, ?_⟩
  rw [integral_add i12 iB, integral_sub hv.integrable_sq iG, integral_const_mul, integral_finsetSum _ fun i _ => (sG i).1,
    sum_eq_zero fun i _ => (sG i).2, mul_zero, sub_zero]
  congr 1
  rw [integral_finsetSum _ fun i _ => integrable_finsetSum _ fun j _ => (sB i j).1,
    integral_finsetSum _ fun i _ => integrable_finsetSum _ fun j _ => (iDD i j).mul_const _]
  refine sum_congr rfl fun i _ => ?_
  rw [integral_finsetSum _ fun j _ => (sB i j).1, integral_finsetSum _ fun j _ => (iDD i j).mul_const _]
  refine sum_congr rfl fun j _ => ?_
  rw [(sB i j).2, integral_mul_const]

/-- bounds for the quadratic form of the second moments -/
theorem quad_bounds {a : Ω → Vec ℝ n} (hx2 : ∀ i, MemLp (fun ω => a ω i) 2 P) {U : Ω → Vec ℝ n} (hU : ∀ i, MemLp (fun ω => U ω i) 2 P) {lam Lam : ℝ}
    (hlo : ∀ u : Vec ℝ n, lam * ∑ i, u i ^ 2 ≤ ∫ ω, (∑ i, u i * a ω i) ^ 2 ∂P)
    (hhi : ∀ u : Vec ℝ n, ∫ ω, (∑ i, u i * a ω i) ^ 2 ∂P ≤ Lam * ∑ i, u i ^ 2) :
    lam * ∫ ω, ∑ i, U ω i ^ 2 ∂P ≤ ∫ ω, ∑ i, ∑ j, U ω i * U ω j * ∫ ω', a ω' i * a ω' j ∂P ∂P ∧
    ∫ ω, ∑ i, ∑ j, U ω i * U ω j * ∫ ω', a ω' i * a ω' j ∂P ∂P ≤ Lam * ∫ ω, ∑ i, U ω i ^ 2 ∂P := by
  have iS : Integrable (fun ω => ∑ i, U ω i ^ 2) P := integrable_finsetSum _ fun i _ => (hU i).integrable_sq
  have iB : Integrable (fun ω => ∑ i, ∑ j, U ω i * U ω j * ∫ ω', a ω' i * a ω' j ∂P) P :=
    integrable_finsetSum _ fun i _ => integrable_finsetSum _ fun j _ => ((hU i).integrable_mul (hU j)).mul_const _
  have hq : ∀ u : Vec ℝ n, ∑ i, ∑ j, u i * u j * ∫ ω', a ω' i * a ω' j ∂P = ∫ ω, (∑ i, u i * a ω i) ^ 2 ∂P := fun u => by
    have := (quadC (P := P) (f := fun _ => (1 : ℝ)) (z := a) (fun i j => by simp only [one_mul]; exact (hx2 i).integrable_mul (hx2 j)) u).2
    simpa using this
  rw [← integral_const_mul, ← integral_const_mul]
  refine ⟨integral_mono (iS.const_mul _) iB fun ω => ?_, integral_mono iB (iS.const_mul _) fun ω => ?_⟩
  · show lam * ∑ i, U ω i ^ 2 ≤ _
    rw [hq]; exact hlo _
  · show _ ≤ Lam * ∑ i, U ω i ^ 2
    rw [hq]; exact hhi _

theorem quad_nonneg {a : Ω → Vec ℝ n} (hx2 : ∀ i, MemLp (fun ω => a ω i) 2 P) (U : Ω → Vec ℝ n) :
    0 ≤ ∫ ω, ∑ i, ∑ j, U ω i * U ω j * ∫ ω', a ω' i * a ω' j ∂P ∂P := by
  refine integral_nonneg fun ω => ?_
  have := (quadC (P := P) (f := fun _ => (1 : ℝ)) (z := a) (fun i j => by simp only [one_mul]; exact (hx2 i).integrable_mul (hx2 j)) (U ω)).2
  simp only [one_mul] at this
  show 0 ≤ ∑ i, ∑ j, U ω i * U ω j * ∫ ω', a ω' i * a ω' j ∂P
  rw [this]
  exact integral_nonneg fun ω => sq_nonneg _

/-- Markov's inequality for a square -/
theorem markov_sq {f : Ω → ℝ} (hf : Integrable (fun ω => f ω ^ 2) P) {δ : ℝ} (hδ : 0 < δ) :
    P.real {ω | δ ≤ |f ω|} ≤ (∫ ω, f ω ^ 2 ∂P) / δ ^ 2 := by
  have h := mul_meas_ge_le_integral_of_nonneg (μ := P) (f := fun ω => f ω ^ 2) (Filter.Eventually.of_forall fun ω => sq_nonneg _) hf (δ ^ 2)
  have e : {ω | δ ^ 2 ≤ f ω ^ 2} = {ω | δ ≤ |f ω|} := by
    ext ω
    show δ ^ 2 ≤ f ω ^ 2 ↔ δ ≤ |f ω|
    rw [← sq_abs (f ω)]
    exact pow_le_pow_iff_left₀ hδ.le (abs_nonneg _) two_ne_zero
  rw [e] at h
  rw [le_div_iff₀ (by positivity), mul_comm]
  exact h

end process

section user
variable {Ω : Type} {mΩ : MeasurableSpace Ω} {P : Measure Ω} [IsProbabilityMeasure P] {n : ℕ} {x : ℕ → Ω → Vec ℝ n} {v : ℕ → Ω → ℝ}
  {y e : Ω → ℕ → ℝ}

/-- moments of an input with finite fourth moments -/
theorem fourth_moments {a : Ω → Vec ℝ n} (ma : Measurable a) (hx4 : ∀ i, Integrable (fun ω => a ω i ^ 4) P) :
    (∀ i, MemLp (fun ω => a ω i) 2 P) ∧ ∀ i j, MemLp (fun ω => a ω i * a ω j) 2 P := by
  have mx : ∀ i, Measurable fun ω => a ω i := fun i => (measurable_pi_apply i).comp ma
  have hsq : ∀ i, MemLp (fun ω => a ω i ^ 2) 2 P := fun i => by
    rw [memLp_two_iff_integrable_sq ((mx i).pow_const 2).aestronglyMeasurable]
    refine (hx4 i).congr (Filter.Eventually.of_forall fun ω => ?_)
    show a ω i ^ 4 = (a ω i ^ 2) ^ 2
    ring
  refine ⟨fun i => ?_, fun i j => ?_⟩
  · rw [memLp_two_iff_integrable_sq (mx i).aestronglyMeasurable]
    exact (hsq i).integrable one_le_two
  · have hm : Measurable fun ω => a ω i * a ω j := (mx i).mul (mx j)
    rw [memLp_two_iff_integrable_sq hm.aestronglyMeasurable]
    refine ((hsq i).integrable_mul (hsq j)).congr (Filter.Eventually.of_forall fun ω => ?_)
    show a ω i ^ 2 * a ω j ^ 2 = (a ω i * a ω j) ^ 2
    ring

/-- the deviation of the LMS weights is square integrable -/
theorem lms_dev (o : Ω → Obj (lms ℝ n)) (hs : IndepSamples P x v fun ω => (o ω).core.w) {mu : ℝ} (ho : ∀ ω, (o ω).core.mu = mu)
    {S : Ω → ℕ → Core ℝ n Unit} (ws : Vec ℝ n) (hw0 : ∀ i, MemLp (fun ω => (o ω).core.w i) 2 P)
    (h : ∀ ω, Runs (lms ℝ n) (o ω) (fun k => (∑ i, ws i * x k ω i) + v k ω) (fun k => x k ω) (y ω) (e ω) (S ω))
    (hx4 : ∀ k i, Integrable (fun ω => x k ω i ^ 4) P)
    (hxv : ∀ k, IndepFun (x k) (v k) P) (hv : ∀ k, MemLp (v k) 2 P) (hv0 : ∀ k, ∫ ω, v k ω ∂P = 0) (k : ℕ) (i : Fin n) :
    MemLp (fun ω => (S ω k).w i - ws i) 2 P := by
  refine ((lms_process o hs ho ws h).meanSq (fun i => (hw0 i).sub (memLp_const _)) (fun k i => ?_) (fun k i j => ?_) hxv hv hv0 k).1 i
  · exact ((fourth_moments (hs.x_measurable k) (hx4 k)).1 i).const_mul mu
  · have := ((fourth_moments (hs.x_measurable k) (hx4 k)).2 i j).const_mul mu
    have e1 : (fun ω => mu * x k ω i * x k ω j) = fun ω => mu * (x k ω i * x k ω j) := by funext ω; ring
    rw [e1]; exact this

/-- the deviation of the NLMS weights is square integrable -/
theorem nlms_dev (o : Ω → Obj (nlms ℝ n)) (hs : IndepSamples P x v fun ω => (o ω).core.w) {mu eps : ℝ}
    (ho : ∀ ω, (o ω).core.mu = mu ∧ (o ω).core.ext.eps = eps) {S : Ω → ℕ → Core ℝ n (EpsExt ℝ)} (ws : Vec ℝ n)
    (hw0 : ∀ i, MemLp (fun ω => (o ω).core.w i) 2 P)
    (h : ∀ ω, Runs (nlms ℝ n) (o ω) (fun k => (∑ i, ws i * x k ω i) + v k ω) (fun k => x k ω) (y ω) (e ω) (S ω)) (heps : 0 < eps)
    (hxv : ∀ k, IndepFun (x k) (v k) P) (hv : ∀ k, MemLp (v k) 2 P) (hv0 : ∀ k, ∫ ω, v k ω ∂P = 0) (k : ℕ) (i : Fin n) :
    MemLp (fun ω => (S ω k).w i - ws i) 2 P :=
  ((nlms_process o hs ho ws h).meanSq (fun i => (hw0 i).sub (memLp_const _)) (fun k i => (nlms_integrable (P := P) hs.x_measurable mu heps k i i).2)
    (fun k i j => (nlms_integrable (P := P) hs.x_measurable mu heps k i j).1) hxv hv hv0 k).1 i

/-- the error in terms of the deviation -/
theorem err_dev {d ysum : ℝ} {w ws a : Vec ℝ n} {noise : ℝ} (hy : ysum = dot w a) (he : d = ((∑ i, ws i * a i) + noise) - ysum) :
    d = noise - ∑ i, (w i - ws i) * a i := by
  have : ∑ j, (w j - ws j) * a j = ∑ j, w j * a j - ∑ j, ws j * a j := by
    rw [← sum_sub_distrib]; exact sum_congr rfl fun j _ => by ring
  rw [he, hy, dot_eq, this]
  ring

/-- C139: the learning curve of LMS.  The mean square error at sample `k` is the noise power plus the mean over the weights before the sample of the quadratic form of their
deviation from `ws` with the second moments of the input; so it is never below the noise power. -/
theorem C139_lms (o : Ω → Obj (lms ℝ n)) (hs : IndepSamples P x v fun ω => (o ω).core.w) {mu : ℝ} (ho : ∀ ω, (o ω).core.mu = mu)
    {S : Ω → ℕ → Core ℝ n Unit} (ws : Vec ℝ n) (hw0 : ∀ i, MemLp (fun ω => (o ω).core.w i) 2 P)
    (h : ∀ ω, Runs (lms ℝ n) (o ω) (fun k => (∑ i, ws i * x k ω i) + v k ω) (fun k => x k ω) (y ω) (e ω) (S ω))
    (hx4 : ∀ k i, Integrable (fun ω => x k ω i ^ 4) P)
    (hxv : ∀ k, IndepFun (x k) (v k) P) (hv : ∀ k, MemLp (v k) 2 P) (hv0 : ∀ k, ∫ ω, v k ω ∂P = 0) (k : ℕ) :
    Integrable (fun ω => e ω k ^ 2) P ∧
    ∫ ω, e ω k ^ 2 ∂P = ∫ ω, v k ω ^ 2 ∂P
      + ∫ ω, ∑ i, ∑ j, ((S ω k).w i - ws i) * ((S ω k).w j - ws j) * ∫ ω', x k ω' i * x k ω' j ∂P ∂P ∧
    ∫ ω, v k ω ^ 2 ∂P ≤ ∫ ω, e ω k ^ 2 ∂P := by
  have he : ∀ ω, e ω k = v k ω - ∑ i, ((S ω k).w i - ws i) * x k ω i := fun ω => by
    obtain ⟨-, -, hy, he, -⟩ := lms_runs (h ω) k
    exact err_dev hy he
  have hx2 := (fourth_moments (hs.x_measurable k) (hx4 k)).1
  have hm := (lms_process o hs ho ws h).errSq k (lms_dev o hs ho ws hw0 h hx4 hxv hv hv0 k) hx2 (hxv k) (hv k) (hv0 k)
  simp only [he]
  refine ⟨hm.1, hm.2, ?_⟩
  rw [hm.2]
  have := quad_nonneg hx2 (fun ω i => (S ω k).w i - ws i)
  linarith

/-- C139: the learning curve of NLMS, with inputs of finite power. -/
theorem C139_nlms (o : Ω → Obj (nlms ℝ n)) (hs : IndepSamples P x v fun ω => (o ω).core.w) {mu eps : ℝ}
    (ho : ∀ ω, (o ω).core.mu = mu ∧ (o ω).core.ext.eps = eps) {S : Ω → ℕ → Core ℝ n (EpsExt ℝ)} (ws : Vec ℝ n)
    (hw0 : ∀ i, MemLp (fun ω => (o ω).core.w i) 2 P)
    (h : ∀ ω, Runs (nlms ℝ n) (o ω) (fun k => (∑ i, ws i * x k ω i) + v k ω) (fun k => x k ω) (y ω) (e ω) (S ω)) (heps : 0 < eps)
    (hx2 : ∀ k i, MemLp (fun ω => x k ω i) 2 P)
    (hxv : ∀ k, IndepFun (x k) (v k) P) (hv : ∀ k, MemLp (v k) 2 P) (hv0 : ∀ k, ∫ ω, v k ω ∂P = 0) (k : ℕ) :
    Integrable (fun ω => e ω k ^ 2) P ∧
    ∫ ω, e ω k ^ 2 ∂P = ∫ ω, v k ω ^ 2 ∂P
      + ∫ ω, ∑ i, ∑ j, ((S ω k).w i - ws i) * ((S ω k).w j - ws j) * ∫ ω', x k ω' i * x k ω' j ∂P ∂P ∧
    ∫ ω, v k ω ^ 2 ∂P ≤ ∫ ω, e ω k ^ 2 ∂P := by
  have he : ∀ ω, e ω k = v k ω - ∑ i, ((S ω k).w i - ws i) * x k ω i := fun ω => by
    obtain ⟨-, -, hy, he, -⟩ := nlms_runs (h ω) k
    exact err_dev hy he
  have hm := (nlms_process o hs ho ws h).errSq k (nlms_dev o hs ho ws hw0 h heps hxv hv hv0 k) (hx2 k) (hxv k) (hv k) (hv0 k)
  simp only [he]
  refine ⟨hm.1, hm.2, ?_⟩
  rw [hm.2]
  have := quad_nonneg (hx2 k) (fun ω i => (S ω k).w i - ws i)
  linarith

/-- C139: in the setting of `C123_lms`, with moreover `E (u.x)^2 <= Lam |u|^2`, the mean square error of LMS decays geometrically to the noise power plus a floor proportional to the
noise variance. -/
theorem C139_lms_bound (o : Ω → Obj (lms ℝ n)) (hs : IndepSamples P x v fun ω => (o ω).core.w) {mu : ℝ} (ho : ∀ ω, (o ω).core.mu = mu)
    {S : Ω → ℕ → Core ℝ n Unit} (ws : Vec ℝ n) (hw0 : ∀ i, MemLp (fun ω => (o ω).core.w i) 2 P)
    (h : ∀ ω, Runs (lms ℝ n) (o ω) (fun k => (∑ i, ws i * x k ω i) + v k ω) (fun k => x k ω) (y ω) (e ω) (S ω)) (hn : 0 < n)
    (hx4 : ∀ k i, Integrable (fun ω => x k ω i ^ 4) P) {lam Lam B T s2 : ℝ} (hlam : 0 < lam)
    (hex : ∀ k (u : Vec ℝ n), lam * ∑ i, u i ^ 2 ≤ ∫ ω, (∑ i, u i * x k ω i) ^ 2 ∂P)
    (hLam : ∀ k (u : Vec ℝ n), ∫ ω, (∑ i, u i * x k ω i) ^ 2 ∂P ≤ Lam * ∑ i, u i ^ 2)
    (hB : ∀ k (u : Vec ℝ n), ∫ ω, (∑ i, x k ω i ^ 2) * (∑ i, u i * x k ω i) ^ 2 ∂P ≤ B * ∫ ω, (∑ i, u i * x k ω i) ^ 2 ∂P)
    (hT : ∀ k, ∫ ω, ∑ i, x k ω i ^ 2 ∂P ≤ T)
    (hxv : ∀ k, IndepFun (x k) (v k) P) (hv : ∀ k, MemLp (v k) 2 P) (hv0 : ∀ k, ∫ ω, v k ω ∂P = 0) (hs2 : ∀ k, ∫ ω, v k ω ^ 2 ∂P ≤ s2)
    (hmu : 0 < mu) (hmu2 : mu * B < 2) (k : ℕ) :
    ∫ ω, e ω k ^ 2 ∂P ≤ ∫ ω, v k ω ^ 2 ∂P + Lam * ((1 - mu * (2 - mu * B) * lam) ^ k * (∫ ω, ∑ i, ((o ω).core.w i - ws i) ^ 2 ∂P)
      + mu * s2 * T / ((2 - mu * B) * lam)) := by
  have hx2 := (fourth_moments (hs.x_measurable k) (hx4 k)).1
  have hLam0 : 0 ≤ Lam := by
    have h1 := (hex k (fun i => if i = ⟨0, hn⟩ then 1 else 0)).trans (hLam k _)
    simp at h1
    linarith
  rw [(C139_lms o hs ho ws hw0 h hx4 hxv hv hv0 k).2.1]
  have h1 := (quad_bounds hx2 (lms_dev o hs ho ws hw0 h hx4 hxv hv hv0 k) (hex k) (hLam k)).2
  have h2 := (C123_lms o hs ho ws hw0 h hn hx4 hlam hex hB hT hxv hv hv0 hs2 hmu hmu2 k).2
  have h3 := mul_le_mul_of_nonneg_left h2 hLam0
  linarith

/-- C139: in the setting of `C123_nlms`, with moreover `E (u.x)^2 <= Lam |u|^2`, the mean square error of NLMS decays geometrically to the noise power plus a floor proportional to the
noise variance. -/
theorem C139_nlms_bound (o : Ω → Obj (nlms ℝ n)) (hs : IndepSamples P x v fun ω => (o ω).core.w) {mu eps : ℝ}
    (ho : ∀ ω, (o ω).core.mu = mu ∧ (o ω).core.ext.eps = eps) {S : Ω → ℕ → Core ℝ n (EpsExt ℝ)} (ws : Vec ℝ n)
    (hw0 : ∀ i, MemLp (fun ω => (o ω).core.w i) 2 P)
    (h : ∀ ω, Runs (nlms ℝ n) (o ω) (fun k => (∑ i, ws i * x k ω i) + v k ω) (fun k => x k ω) (y ω) (e ω) (S ω)) (hn : 0 < n)
    (heps : 0 < eps) (hx2 : ∀ k i, MemLp (fun ω => x k ω i) 2 P) {lam Lam s2 : ℝ} (hlam : 0 < lam)
    (hex : ∀ k (u : Vec ℝ n), lam * ∑ i, u i ^ 2 ≤ ∫ ω, (∑ i, u i * x k ω i) ^ 2 / (eps + ∑ i, x k ω i ^ 2) ∂P)
    (hLam : ∀ k (u : Vec ℝ n), ∫ ω, (∑ i, u i * x k ω i) ^ 2 ∂P ≤ Lam * ∑ i, u i ^ 2)
    (hxv : ∀ k, IndepFun (x k) (v k) P) (hv : ∀ k, MemLp (v k) 2 P) (hv0 : ∀ k, ∫ ω, v k ω ∂P = 0) (hs2 : ∀ k, ∫ ω, v k ω ^ 2 ∂P ≤ s2)
    (hmu : 0 < mu) (hmu2 : mu < 2) (k : ℕ) :
    ∫ ω, e ω k ^ 2 ∂P ≤ ∫ ω, v k ω ^ 2 ∂P + Lam * ((1 - mu * (2 - mu) * lam) ^ k * (∫ ω, ∑ i, ((o ω).core.w i - ws i) ^ 2 ∂P)
      + mu * s2 / (4 * eps * (2 - mu) * lam)) := by
  have hLam0 : 0 ≤ Lam := by
    have h1 := hLam k (fun i => if i = ⟨0, hn⟩ then 1 else 0)
    have h2 : 0 ≤ ∫ ω, (∑ i, (if i = ⟨0, hn⟩ then 1 else 0) * x k ω i) ^ 2 ∂P := integral_nonneg fun ω => sq_nonneg _
    simp at h1 h2
    linarith
  rw [(C139_nlms o hs ho ws hw0 h heps hx2 hxv hv hv0 k).2.1]
  have h1 := (quad_bounds (lam := 0) (hx2 k) (nlms_dev o hs ho ws hw0 h heps hxv hv hv0 k)
    (fun u => by rw [zero_mul]; exact integral_nonneg fun ω => sq_nonneg _) (hLam k)).2
  have h2 := (C123_nlms o hs ho ws hw0 h hn heps hlam hex hxv hv hv0 hs2 hmu hmu2 k).2
  have h3 := mul_le_mul_of_nonneg_left h2 hLam0
  linarith

/-- C139: how probable a large error is: `P(|e(k)| >= δ) <= E e(k)^2 / δ^2`, with the mean square given by `C139_lms`. -/
theorem C139_lms_probability (o : Ω → Obj (lms ℝ n)) (hs : IndepSamples P x v fun ω => (o ω).core.w) {mu : ℝ} (ho : ∀ ω, (o ω).core.mu = mu)
    {S : Ω → ℕ → Core ℝ n Unit} (ws : Vec ℝ n) (hw0 : ∀ i, MemLp (fun ω => (o ω).core.w i) 2 P)
    (h : ∀ ω, Runs (lms ℝ n) (o ω) (fun k => (∑ i, ws i * x k ω i) + v k ω) (fun k => x k ω) (y ω) (e ω) (S ω)) (hn : 0 < n)
    (hx4 : ∀ k i, Integrable (fun ω => x k ω i ^ 4) P) {lam B T s2 : ℝ} (hlam : 0 < lam)
    (hex : ∀ k (u : Vec ℝ n), lam * ∑ i, u i ^ 2 ≤ ∫ ω, (∑ i, u i * x k ω i) ^ 2 ∂P)
    (hB : ∀ k (u : Vec ℝ n), ∫ ω, (∑ i, x k ω i ^ 2) * (∑ i, u i * x k ω i) ^ 2 ∂P ≤ B * ∫ ω, (∑ i, u i * x k ω i) ^ 2 ∂P)
    (hT : ∀ k, ∫ ω, ∑ i, x k ω i ^ 2 ∂P ≤ T)
    (hxv : ∀ k, IndepFun (x k) (v k) P) (hv : ∀ k, MemLp (v k) 2 P) (hv0 : ∀ k, ∫ ω, v k ω ∂P = 0) (hs2 : ∀ k, ∫ ω, v k ω ^ 2 ∂P ≤ s2)
    (hmu : 0 < mu) (hmu2 : mu * B < 2) (k : ℕ) (i : Fin n) {δ : ℝ} (hδ : 0 < δ) :
    P.real {ω | δ ≤ |e ω k|} ≤ (∫ ω, e ω k ^ 2 ∂P) / δ ^ 2 ∧
    P.real {ω | δ ≤ |(S ω k).w i - ws i|} ≤ ((1 - mu * (2 - mu * B) * lam) ^ k * (∫ ω, ∑ i, ((o ω).core.w i - ws i) ^ 2 ∂P)
      + mu * s2 * T / ((2 - mu * B) * lam)) / δ ^ 2 := by
  have h1 := C123_lms o hs ho ws hw0 h hn hx4 hlam hex hB hT hxv hv hv0 hs2 hmu hmu2 k
  refine ⟨markov_sq (C139_lms o hs ho ws hw0 h hx4 hxv hv hv0 k).1 hδ, (markov_sq (h1.1 i) hδ).trans ?_⟩
  refine div_le_div_of_nonneg_right (le_trans ?_ h1.2) (sq_nonneg δ)
  exact integral_mono (h1.1 i) (integrable_finsetSum _ fun i _ => h1.1 i) fun ω =>
    single_le_sum (f := fun i => ((S ω k).w i - ws i) ^ 2) (fun j _ => sq_nonneg _) (mem_univ i)

/-- C139: the same for NLMS. -/
theorem C139_nlms_probability (o : Ω → Obj (nlms ℝ n)) (hs : IndepSamples P x v fun ω => (o ω).core.w) {mu eps : ℝ}
    (ho : ∀ ω, (o ω).core.mu = mu ∧ (o ω).core.ext.eps = eps) {S : Ω → ℕ → Core ℝ n (EpsExt ℝ)} (ws : Vec ℝ n)
    (hw0 : ∀ i, MemLp (fun ω => (o ω).core.w i) 2 P)
    (h : ∀ ω, Runs (nlms ℝ n) (o ω) (fun k => (∑ i, ws i * x k ω i) + v k ω) (fun k => x k ω) (y ω) (e ω) (S ω)) (hn : 0 < n)
    (heps : 0 < eps) {lam s2 : ℝ} (hlam : 0 < lam)
    (hex : ∀ k (u : Vec ℝ n), lam * ∑ i, u i ^ 2 ≤ ∫ ω, (∑ i, u i * x k ω i) ^ 2 / (eps + ∑ i, x k ω i ^ 2) ∂P)
    (hxv : ∀ k, IndepFun (x k) (v k) P) (hv : ∀ k, MemLp (v k) 2 P) (hv0 : ∀ k, ∫ ω, v k ω ∂P = 0) (hs2 : ∀ k, ∫ ω, v k ω ^ 2 ∂P ≤ s2)
    (hmu : 0 < mu) (hmu2 : mu < 2) (k : ℕ) (i : Fin n) {δ : ℝ} (hδ : 0 < δ) :
    P.real {ω | δ ≤ |(S ω k).w i - ws i|} ≤ ((1 - mu * (2 - mu) * lam) ^ k * (∫ ω, ∑ i, ((o ω).core.w i - ws i) ^ 2 ∂P)
      + mu * s2 / (4 * eps * (2 - mu) * lam)) / δ ^ 2 := by
  have h1 := C123_nlms o hs ho ws hw0 h hn heps hlam hex hxv hv hv0 hs2 hmu hmu2 k
  refine (markov_sq (h1.1 i) hδ).trans ?_
  refine div_le_div_of_nonneg_right (le_trans ?_ h1.2) (sq_nonneg δ)
  exact integral_mono (h1.1 i) (integrable_finsetSum _ fun i _ => h1.1 i) fun ω =>
    single_le_sum (f := fun i => ((S ω k).w i - ws i) ^ 2) (fun j _ => sq_nonneg _) (mem_univ i)

/-! ## Inputs with independent identically distributed components -/

variable {ν : Measure ℝ} [IsProbabilityMeasure ν]

/-- C139: LMS on inputs with independent components of common zero mean distribution of second moment `s`: the mean square error is exactly
`s2 + s E|w(k) - ws|^2`, and for `0 < mu`, `mu (m4 + (n - 1) s^2) < 2 s` it converges to `s2 + mu n s^2 s2 / (2 s - mu (m4 + (n - 1) s^2))`. -/
theorem C139_lms_white (o : Ω → Obj (lms ℝ n)) (hs : IndepSamples P x v fun ω => (o ω).core.w) {mu : ℝ} (ho : ∀ ω, (o ω).core.mu = mu)
    {S : Ω → ℕ → Core ℝ n Unit} (ws : Vec ℝ n) (hw0 : ∀ i, MemLp (fun ω => (o ω).core.w i) 2 P)
    (h : ∀ ω, Runs (lms ℝ n) (o ω) (fun k => (∑ i, ws i * x k ω i) + v k ω) (fun k => x k ω) (y ω) (e ω) (S ω))
    (hx : ∀ k, P.map (x k) = Measure.pi fun _ => ν) (h4 : Integrable (fun t : ℝ => t ^ 4) ν) (h1 : ∫ t, t ∂ν = 0) {s m4 s2 : ℝ}
    (hs' : ∫ t, t ^ 2 ∂ν = s) (hm4 : ∫ t, t ^ 4 ∂ν = m4) (hn : 0 < n)
    (hxv : ∀ k, IndepFun (x k) (v k) P) (hv : ∀ k, MemLp (v k) 2 P) (hv0 : ∀ k, ∫ ω, v k ω ∂P = 0) (hs2 : ∀ k, ∫ ω, v k ω ^ 2 ∂P = s2) :
    (∀ k, Integrable (fun ω => e ω k ^ 2) P ∧ ∫ ω, e ω k ^ 2 ∂P = s2 + s * ∫ ω, ∑ i, ((S ω k).w i - ws i) ^ 2 ∂P) ∧
    (0 < mu → mu * (m4 + (n - 1) * s ^ 2) < 2 * s →
      Filter.Tendsto (fun k => ∫ ω, e ω k ^ 2 ∂P) Filter.atTop (nhds (s2 + mu * n * s ^ 2 * s2 / (2 * s - mu * (m4 + (n - 1) * s ^ 2))))) := by
  have hx4 : ∀ k i, Integrable (fun ω => x k ω i ^ 4) P := fun k i => by
    have hm := white_fourth (n := n) h4 h1 i i i
    have := (white_transfer (hs.x_measurable k) (hx k) (((measurable_pi_apply i).mul (measurable_pi_apply i)).mul ((measurable_pi_apply i).pow_const 2)) hm).1
    refine this.congr (Filter.Eventually.of_forall fun ω => ?_)
    show x k ω i * x k ω i * x k ω i ^ 2 = x k ω i ^ 4
    ring
  have w2 : ∀ k i j, ∫ ω, x k ω i * x k ω j ∂P = if i = j then s else 0 := fun k i j => by
    have := (white_transfer (hs.x_measurable k) (hx k) ((measurable_pi_apply i).mul (measurable_pi_apply j)) (white_second h4 h1 i j)).2
    rw [hs'] at this
    exact this
  have hval : ∀ k, Integrable (fun ω => e ω k ^ 2) P ∧ ∫ ω, e ω k ^ 2 ∂P = s2 + s * ∫ ω, ∑ i, ((S ω k).w i - ws i) ^ 2 ∂P := fun k => by
    have hm := C139_lms o hs ho ws hw0 h hx4 hxv hv hv0 k
    refine ⟨hm.1, ?_⟩
    rw [hm.2.1, hs2, ← integral_const_mul]
    congr 2
    funext ω
    rw [mul_sum]
    refine sum_congr rfl fun i _ => ?_
    simp only [w2, mul_ite, mul_zero, sum_ite_eq, mem_univ, if_true]
    ring
  refine ⟨hval, fun hmu hmu2 => ?_⟩
  have ht := C123_lms_white_converges o hs ho ws hw0 h hx h4 h1 hs' hm4 hn hxv hv hv0 hs2 hmu hmu2
  have e1 : (fun k => ∫ ω, e ω k ^ 2 ∂P) = fun k => s2 + s * ∫ ω, ∑ i, ((S ω k).w i - ws i) ^ 2 ∂P := funext fun k => (hval k).2
  rw [e1]
  have := (ht.const_mul s).const_add s2
  have e2 : s * (mu * n * s * s2 / (2 * s - mu * (m4 + (n - 1) * s ^ 2))) = mu * n * s ^ 2 * s2 / (2 * s - mu * (m4 + (n - 1) * s ^ 2)) := by ring
  rw [e2] at this
  exact this

/-- the mean of `MSE` of the first `N` errors -/
theorem mean_MSE (hi : ∀ k, Integrable (fun ω => e ω k ^ 2) P) {m : ℕ → Ω → ℝ} (hm : ∀ N ω, MSE (series (e ω) N) none = .ok (m N ω)) (N : ℕ) :
    ∫ ω, m N ω ∂P = (N : ℝ)⁻¹ * ∑ k ∈ range N, ∫ ω, e ω k ^ 2 ∂P := by
  have e1 : (fun ω => m N ω) = fun ω => (N : ℝ)⁻¹ * ∑ k ∈ range N, e ω k ^ 2 := by
    funext ω
    have h1 := hm N ω
    rw [MSE_list] at h1
    have h2 := Except.ok.inj h1
    rw [← h2]
    unfold series
    rw [List.map_map, List.length_map, List.length_range, div_eq_inv_mul]
    congr 1
  rw [e1, integral_const_mul, integral_finsetSum _ fun k _ => hi k]

/-- C139: the mean of the `MSE` (`padasip.misc.MSE`) of the errors of a run over `N` samples converges, as `N` grows, to the limit of the learning curve. -/
theorem C139_lms_MSE (o : Ω → Obj (lms ℝ n)) (hs : IndepSamples P x v fun ω => (o ω).core.w) {mu : ℝ} (ho : ∀ ω, (o ω).core.mu = mu)
    {S : Ω → ℕ → Core ℝ n Unit} (ws : Vec ℝ n) (hw0 : ∀ i, MemLp (fun ω => (o ω).core.w i) 2 P)
    (h : ∀ ω, Runs (lms ℝ n) (o ω) (fun k => (∑ i, ws i * x k ω i) + v k ω) (fun k => x k ω) (y ω) (e ω) (S ω))
    (hx : ∀ k, P.map (x k) = Measure.pi fun _ => ν) (h4 : Integrable (fun t : ℝ => t ^ 4) ν) (h1 : ∫ t, t ∂ν = 0) {s m4 s2 : ℝ}
    (hs' : ∫ t, t ^ 2 ∂ν = s) (hm4 : ∫ t, t ^ 4 ∂ν = m4) (hn : 0 < n)
    (hxv : ∀ k, IndepFun (x k) (v k) P) (hv : ∀ k, MemLp (v k) 2 P) (hv0 : ∀ k, ∫ ω, v k ω ∂P = 0) (hs2 : ∀ k, ∫ ω, v k ω ^ 2 ∂P = s2)
    (hmu : 0 < mu) (hmu2 : mu * (m4 + (n - 1) * s ^ 2) < 2 * s) {m : ℕ → Ω → ℝ} (hm : ∀ N ω, MSE (series (e ω) N) none = .ok (m N ω)) :
    Filter.Tendsto (fun N => ∫ ω, m N ω ∂P) Filter.atTop (nhds (s2 + mu * n * s ^ 2 * s2 / (2 * s - mu * (m4 + (n - 1) * s ^ 2)))) := by
  have hc := C139_lms_white o hs ho ws hw0 h hx h4 h1 hs' hm4 hn hxv hv hv0 hs2
  have e1 : (fun N => ∫ ω, m N ω ∂P) = fun N : ℕ => (N : ℝ)⁻¹ * ∑ k ∈ range N, ∫ ω, e ω k ^ 2 ∂P := funext fun N => mean_MSE (fun k => (hc.1 k).1) hm N
  rw [e1]
  exact (hc.2 hmu hmu2).cesaro

/-- C139: the documented example (`/repo/padasip/filters/lms.py`, lines 80-87): four standard normal inputs, noise of standard deviation `0.1`, `FilterLMS(n=4, mu=0.1)`.  The mean
square error converges to `0.01 + 1/350`, `2/7` above the noise power, and so does the mean of the `MSE` of a run. -/
theorem C139_documented_example (o : Ω → Obj (lms ℝ 4)) {x : ℕ → Ω → Vec ℝ 4} (hs : IndepSamples P x v fun ω => (o ω).core.w) (ho : ∀ ω, (o ω).core.mu = 1 / 10)
    {S : Ω → ℕ → Core ℝ 4 Unit} (hw0 : ∀ i, MemLp (fun ω => (o ω).core.w i) 2 P)
    (h : ∀ ω, Runs (lms ℝ 4) (o ω) (fun k => (2 * x k ω 0 + 1 / 10 * x k ω 1 - 4 * x k ω 2 + 1 / 2 * x k ω 3) + v k ω) (fun k => x k ω) (y ω) (e ω) (S ω))
    (hx : ∀ k, P.map (x k) = Measure.pi fun _ => gaussianReal 0 1) (hxv : ∀ k, IndepFun (x k) (v k) P) (hv : ∀ k, P.map (v k) = gaussianReal 0 (1 / 100))
    {m : ℕ → Ω → ℝ} (hm : ∀ N ω, MSE (series (e ω) N) none = .ok (m N ω)) :
    Filter.Tendsto (fun k => ∫ ω, e ω k ^ 2 ∂P) Filter.atTop (nhds (1 / 100 + 1 / 350)) ∧
    Filter.Tendsto (fun N => ∫ ω, m N ω ∂P) Filter.atTop (nhds (1 / 100 + 1 / 350)) := by
  have h' : ∀ ω, Runs (lms ℝ 4) (o ω) (fun k => (∑ i, (![2, 1 / 10, -4, 1 / 2] : Vec ℝ 4) i * x k ω i) + v k ω) (fun k => x k ω) (y ω) (e ω) (S ω) := by
    intro ω
    have : (fun k => (∑ i, (![2, 1 / 10, -4, 1 / 2] : Vec ℝ 4) i * x k ω i) + v k ω)
        = fun k => (2 * x k ω 0 + 1 / 10 * x k ω 1 - 4 * x k ω 2 + 1 / 2 * x k ω 3) + v k ω := by
      funext k
      rw [Fin.sum_univ_four]
      simp
      ring
    rw [this]
    exact h ω
  obtain ⟨g1, g2, g4, gi⟩ := gauss_moments
  have mv := hs.v_measurable
  have v2 : ∀ k, MemLp (v k) 2 P := fun k => by
    have hm : MemLp id 2 (P.map (v k)) := by rw [hv k]; exact memLp_id_gaussianReal 2
    exact (memLp_map_measure_iff (by fun_prop) (mv k).aemeasurable).1 hm
  have v0 : ∀ k, ∫ ω, v k ω ∂P = 0 := fun k => by
    have := integral_map (μ := P) (mv k).aemeasurable (f := fun t : ℝ => t) (by fun_prop)
    rw [hv k, integral_id_gaussianReal] at this
    exact this.symm
  have vv : ∀ k, ∫ ω, v k ω ^ 2 ∂P = 1 / 100 := fun k => by
    have h2 := integral_map (μ := P) (mv k).aemeasurable (f := fun t : ℝ => t ^ 2) (by fun_prop)
    rw [← h2, hv k]
    have h3 := variance_fun_id_gaussianReal (μ := 0) (v := 1 / 100)
    rw [variance_eq_integral (by fun_prop)] at h3
    simp only [integral_id_gaussianReal, sub_zero] at h3
    rw [h3]
    simp
  have a1 := (C139_lms_white o hs ho _ hw0 h' hx gi g1 g2 g4 (by norm_num) hxv v2 v0 vv).2 (by norm_num) (by norm_num)
  have a2 := C139_lms_MSE o hs ho _ hw0 h' hx gi g1 g2 g4 (by norm_num) hxv v2 v0 vv (by norm_num) (by norm_num) hm
  have e1 : (1 / 100 + 1 / 10 * ((4 : ℕ) : ℝ) * 1 ^ 2 * (1 / 100) / (2 * 1 - 1 / 10 * (3 + (((4 : ℕ) : ℝ) - 1) * 1 ^ 2)) : ℝ) = 1 / 100 + 1 / 350 := by norm_num
  rw [e1] at a1 a2
  exact ⟨a1, a2⟩

end user

/-- the setting of `C139_documented_example`, and with it of `C139_lms_white`, `C139_lms_MSE` and `C139_lms` -/
example : ∃ (Ω : Type) (mΩ : MeasurableSpace Ω) (P : Measure Ω) (_ : IsProbabilityMeasure P) (x : ℕ → Ω → Vec ℝ 4) (v : ℕ → Ω → ℝ) (o : Ω → Obj (lms ℝ 4))
    (y e : Ω → ℕ → ℝ) (S : Ω → ℕ → Core ℝ 4 Unit) (m : ℕ → Ω → ℝ),
    IndepSamples P x v (fun ω => (o ω).core.w) ∧ (∀ ω, (o ω).core.mu = 1 / 10) ∧ (∀ i, MemLp (fun ω => (o ω).core.w i) 2 P) ∧
    (∀ ω, Runs (lms ℝ 4) (o ω) (fun k => (2 * x k ω 0 + 1 / 10 * x k ω 1 - 4 * x k ω 2 + 1 / 2 * x k ω 3) + v k ω) (fun k => x k ω) (y ω) (e ω) (S ω)) ∧
    (∀ k, P.map (x k) = Measure.pi fun _ => gaussianReal 0 1) ∧ (∀ k, IndepFun (x k) (v k) P) ∧ (∀ k, P.map (v k) = gaussianReal 0 (1 / 100)) ∧
    (∀ N ω, MSE (series (e ω) N) none = .ok (m N ω)) ∧
    Filter.Tendsto (fun k => ∫ ω, e ω k ^ 2 ∂P) Filter.atTop (nhds (1 / 100 + 1 / 350)) := by
  obtain ⟨Ω, mΩ, P, hP, x, v, w, hs, hxv, hx, hv, hw⟩ := samples_exist (Measure.dirac (0 : Vec ℝ 4))
    (Measure.pi fun _ : Fin 4 => gaussianReal 0 1) (gaussianReal 0 (1 / 100))
  have hw0 : ∀ i, MemLp (fun ω => w ω i) 2 P := fun i => by
    have hm : MemLp (fun a : Vec ℝ 4 => a i) 2 (P.map w) := by
      rw [hw]
      refine (memLp_const (0 : ℝ)).ae_eq ?_
      exact (ae_dirac_iff (measurableSet_eq_fun measurable_const (measurable_pi_apply i))).2 rfl
    exact (memLp_map_measure_iff (measurable_pi_apply i).aestronglyMeasurable hs.w_measurable.aemeasurable).1 hm
  let o : Ω → Obj (lms ℝ 4) := fun ω => ⟨⟨w ω, 4, 1 / 10, ()⟩, []⟩
  have hr := fun ω => runs_of_safe lms_safe (o ω) trivial (fun k => (2 * x k ω 0 + 1 / 10 * x k ω 1 - 4 * x k ω 2 + 1 / 2 * x k ω 3) + v k ω) (fun k => x k ω)
  have hm : ∀ (f : Ω → ℕ → ℝ) N ω, MSE (series (f ω) N) none = .ok (((series (f ω) N).map fun a => a ^ 2).sum / (series (f ω) N).length) := fun f N ω => MSE_list _
  exact ⟨Ω, mΩ, P, hP, x, v, o, _, _, _, _, hs, fun _ => rfl, hw0, hr, hx, hxv, hv, hm _,
    (C139_documented_example o hs (fun _ => rfl) hw0 hr hx hxv hv (hm _)).1⟩

/-- the hypotheses of `C139_nlms`, `C139_nlms_bound` and `C139_nlms_probability`: three standard normal inputs, unit noise, `mu = 1/2`, `eps = 0.001` -/
example : ∃ (Ω : Type) (mΩ : MeasurableSpace Ω) (P : Measure Ω) (_ : IsProbabilityMeasure P) (x : ℕ → Ω → Vec ℝ 3) (v : ℕ → Ω → ℝ) (o : Ω → Obj (nlms ℝ 3))
    (y e : Ω → ℕ → ℝ) (S : Ω → ℕ → Core ℝ 3 (EpsExt ℝ)) (lam : ℝ),
    IndepSamples P x v (fun ω => (o ω).core.w) ∧ (∀ ω, (o ω).core.mu = 1 / 2 ∧ (o ω).core.ext.eps = 1 / 1000) ∧ (∀ i, MemLp (fun ω => (o ω).core.w i) 2 P) ∧
    (∀ ω, Runs (nlms ℝ 3) (o ω) (fun k => (∑ i, (![2, 1, -4] : Vec ℝ 3) i * x k ω i) + v k ω) (fun k => x k ω) (y ω) (e ω) (S ω)) ∧
    (∀ k i, MemLp (fun ω => x k ω i) 2 P) ∧ 0 < lam ∧
    (∀ k (u : Vec ℝ 3), lam * ∑ i, u i ^ 2 ≤ ∫ ω, (∑ i, u i * x k ω i) ^ 2 / (1 / 1000 + ∑ i, x k ω i ^ 2) ∂P) ∧
    (∀ k (u : Vec ℝ 3), ∫ ω, (∑ i, u i * x k ω i) ^ 2 ∂P ≤ 1 * ∑ i, u i ^ 2) ∧
    (∀ k, IndepFun (x k) (v k) P) ∧ (∀ k, MemLp (v k) 2 P) ∧ (∀ k, ∫ ω, v k ω ∂P = 0) ∧ (∀ k, ∫ ω, v k ω ^ 2 ∂P ≤ 1) := by
  obtain ⟨Ω, mΩ, P, hP, x, v, w, hs, hxv, hx, hv, hw⟩ := gauss_data 3
  have mx := hs.x_measurable
  have hid : ∀ k, IdentDistrib (x k) (x 0) P P := fun k => ⟨(mx k).aemeasurable, (mx 0).aemeasurable, by rw [hx k, hx 0]⟩
  obtain ⟨lam, hlam, hex⟩ := nlms_excited (P := P) (mx 0) (eps := 1 / 1000) (by norm_num) (gauss_plane (mx 0) (hx 0))
  exact ⟨Ω, mΩ, P, hP, x, v, fun ω => ⟨⟨w ω, 3, 1 / 2, ⟨1 / 1000⟩⟩, []⟩, _, _, _, lam, hs, fun _ => ⟨rfl, rfl⟩, hw,
    fun ω => runs_of_safe nlms_safe _ trivial _ _, fun k => (fourth_moments (mx k) (gauss_fourth (mx k) (hx k)).1).1, hlam,
    fun k u => (hex u).trans (le_of_eq (excited_ident (hid k) _ u)), fun k u => by rw [gauss_quad (mx k) (hx k), one_mul], hxv, fun k => (hv k).1,
    fun k => (hv k).2.1, fun k => (hv k).2.2.le⟩

/-! The hypotheses of `C139_lms_bound` and `C139_lms_probability` are those of `C123_lms`, met by the first example of `Verif.Props.RandomConv`; `Lam = 1` there,
by `gauss_quad`. -/

end Padasip
