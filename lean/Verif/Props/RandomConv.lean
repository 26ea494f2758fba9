import Verif.Props.White

/-!
# C123 continued: NLMS on identically distributed inputs; almost sure convergence without noise
-/

set_option linter.unusedSectionVars false
set_option linter.unusedSimpArgs false
set_option linter.unusedVariables false

namespace Padasip

open Finset MeasureTheory ProbabilityTheory

section
variable {Ω : Type} {mΩ : MeasurableSpace Ω} {P : Measure Ω} [IsProbabilityMeasure P] {n : ℕ}

/-- a positive quadratic form is bounded below by a multiple of the square of the norm -/
theorem quad_lower (q : Vec ℝ n → ℝ) (hc : Continuous q) (hh : ∀ (t : ℝ) u, q (fun i => t * u i) = t ^ 2 * q u) (hp : ∀ u, u ≠ 0 → 0 < q u) :
    ∃ lam > 0, ∀ u, lam * ∑ i, u i ^ 2 ≤ q u := by
  let s : Set (Vec ℝ n) := {u | ∑ i, u i ^ 2 = 1}
  have hcn : Continuous fun u : Vec ℝ n => ∑ i, u i ^ 2 := continuous_finsetSum _ fun i _ => (continuous_apply i).pow 2
  have hs : IsCompact s := by
    refine Metric.isCompact_of_isClosed_isBounded (isClosed_eq hcn continuous_const) ?_
    refine (Metric.isBounded_closedBall (x := (0 : Vec ℝ n)) (r := 1)).subset fun u hu => ?_
    rw [Metric.mem_closedBall, dist_zero_right, pi_norm_le_iff_of_nonneg zero_le_one]
    intro i
    rw [Real.norm_eq_abs, abs_le_one_iff_mul_self_le_one]
    have : u i ^ 2 ≤ ∑ l, u l ^ 2 := single_le_sum (f := fun l => u l ^ 2) (fun _ _ => sq_nonneg _) (mem_univ i)
    have h1 : ∑ i, u i ^ 2 = 1 := hu
    nlinarith
  have hscale : ∀ {lam : ℝ}, (∀ u ∈ s, lam ≤ q u) → ∀ u, lam * ∑ i, u i ^ 2 ≤ q u := by
    intro lam hl u
    have h0 : 0 ≤ ∑ i, u i ^ 2 := sum_nonneg fun _ _ => sq_nonneg _
    rcases h0.eq_or_lt with h | h
    · have hu : u = 0 := by
        funext i
        have := (sum_eq_zero_iff_of_nonneg fun i _ => sq_nonneg (u i)).1 h.symm i (mem_univ i)
        exact pow_eq_zero_iff two_ne_zero |>.1 this
      have := hh 0 u
      have e : (fun i => 0 * u i) = u := by rw [hu]; funext i; simp
      rw [e] at this
      rw [← h, this]; simp
    · set c := Real.sqrt (∑ i, u i ^ 2) with hcdef
      have hc2 : c ^ 2 = ∑ i, u i ^ 2 := Real.sq_sqrt h0
      have hcpos : 0 < c := Real.sqrt_pos.2 h
      have hm : (fun i => c⁻¹ * u i) ∈ s := by
        show ∑ i, (c⁻¹ * u i) ^ 2 = 1
        simp only [mul_pow]
        rw [← mul_sum, ← hc2]
        field_simp
      have h1 := hl _ hm
      rw [hh, inv_pow, hc2, le_inv_mul_iff₀ h] at h1
      linarith
  rcases s.eq_empty_or_nonempty with he | hne
  · exact ⟨1, one_pos, hscale fun u hu => by rw [he] at hu; exact absurd hu (Set.notMem_empty u)⟩
  · obtain ⟨u0, hu0, hmin⟩ := hs.exists_isMinOn hne hc.continuousOn
    refine ⟨q u0, hp u0 ?_, hscale fun u hu => hmin hu⟩
    rintro rfl
    have : ∑ i : Fin n, (0 : Vec ℝ n) i ^ 2 = 1 := hu0
    simp at this

/-- inputs that are not confined to a hyperplane excite NLMS -/
theorem nlms_excited {a : Ω → Vec ℝ n} (ma : Measurable a) {eps : ℝ} (heps : 0 < eps) (hplane : ∀ u : Vec ℝ n, (∀ᵐ ω ∂P, ∑ i, u i * a ω i = 0) → u = 0) :
    ∃ lam > 0, ∀ u : Vec ℝ n, lam * ∑ i, u i ^ 2 ≤ ∫ ω, (∑ i, u i * a ω i) ^ 2 / (eps + ∑ i, a ω i ^ 2) ∂P := by
  have hint : ∀ i j, Integrable (fun ω => 1 / (eps + ∑ l, a ω l ^ 2) * a ω i * a ω j) P := fun i j =>
    (nlms_integrable (P := P) (x := fun _ => a) (fun _ => ma) 1 heps 0 i j).1.integrable one_le_two
  have e : ∀ u : Vec ℝ n, (fun ω => (∑ i, u i * a ω i) ^ 2 / (eps + ∑ i, a ω i ^ 2)) = fun ω => 1 / (eps + ∑ i, a ω i ^ 2) * (∑ i, u i * a ω i) ^ 2 := fun u => by
    funext ω; ring
  refine quad_lower (fun u => ∫ ω, (∑ i, u i * a ω i) ^ 2 / (eps + ∑ i, a ω i ^ 2) ∂P) ?_ (fun t u => ?_) fun u hu => ?_
  · have : (fun u : Vec ℝ n => ∫ ω, (∑ i, u i * a ω i) ^ 2 / (eps + ∑ i, a ω i ^ 2) ∂P)
        = fun u => ∑ i, ∑ j, u i * u j * ∫ ω, 1 / (eps + ∑ l, a ω l ^ 2) * a ω i * a ω j ∂P := funext fun u => by
      rw [(quadC hint u).2, e]
    rw [this]
    exact continuous_finsetSum _ fun i _ => continuous_finsetSum _ fun j _ => ((continuous_apply i).mul (continuous_apply j)).mul_const _
  · beta_reduce
    rw [← integral_const_mul]
    congr 1
    funext ω
    rw [sum_congr rfl fun i _ => mul_assoc t (u i) (a ω i), ← mul_sum]
    ring
  · have hpos : ∀ ω, 0 < eps + ∑ i, a ω i ^ 2 := fun ω => by
      have : 0 ≤ ∑ i, a ω i ^ 2 := sum_nonneg fun _ _ => sq_nonneg _
      linarith
    have hnn : ∀ ω, 0 ≤ (∑ i, u i * a ω i) ^ 2 / (eps + ∑ i, a ω i ^ 2) := fun ω => div_nonneg (sq_nonneg _) (hpos ω).le
    refine lt_of_le_of_ne (integral_nonneg hnn) fun h0 => hu (hplane u ?_)
    have hi : Integrable (fun ω => (∑ i, u i * a ω i) ^ 2 / (eps + ∑ i, a ω i ^ 2)) P := by rw [e]; exact (quadC hint u).1
    refine ((integral_eq_zero_iff_of_nonneg hnn hi).1 h0.symm).mono fun ω hω => ?_
    have h1 : (∑ i, u i * a ω i) ^ 2 / (eps + ∑ i, a ω i ^ 2) = 0 := hω
    rw [div_eq_zero_iff] at h1
    exact pow_eq_zero_iff two_ne_zero |>.1 (h1.resolve_right (hpos ω).ne')

/-- the excitation is the same for identically distributed inputs -/
theorem excited_ident {a b : Ω → Vec ℝ n} (hid : IdentDistrib a b P P) (eps : ℝ) (u : Vec ℝ n) :
    ∫ ω, (∑ i, u i * b ω i) ^ 2 / (eps + ∑ i, b ω i ^ 2) ∂P = ∫ ω, (∑ i, u i * a ω i) ^ 2 / (eps + ∑ i, a ω i ^ 2) ∂P := by
  have m1 : ∀ l, Measurable fun a : Vec ℝ n => u l * a l := fun l => measurable_const.mul (measurable_pi_apply l)
  have mf : Measurable fun a : Vec ℝ n => (∑ i, u i * a i) ^ 2 / (eps + ∑ i, a i ^ 2) :=
    ((Finset.measurable_sum _ fun l _ => m1 l).pow_const 2).div
      (measurable_const.add (Finset.measurable_sum _ fun l _ => (measurable_pi_apply l).pow_const 2))
  exact (hid.comp mf).integral_eq.symm

theorem indep_zero (a : Ω → Vec ℝ n) : IndepFun a (fun _ => (0 : ℝ)) P :=
  indepFun_const_right a 0

/-- a geometric bound on the means gives almost sure convergence -/
theorem ae_tendsto_of_geometric {f : ℕ → Ω → ℝ} (hi : ∀ k, Integrable (f k) P) (h0 : ∀ k ω, 0 ≤ f k ω) {r C : ℝ} (hr0 : 0 ≤ r) (hr : r < 1)
    (h : ∀ k, ∫ ω, f k ω ∂P ≤ r ^ k * C) : ∀ᵐ ω ∂P, Filter.Tendsto (fun k => f k ω) Filter.atTop (nhds 0) := by
  have hle : ∫⁻ ω, ∑' k, ENNReal.ofReal (f k ω) ∂P ≠ ⊤ := by
    rw [lintegral_tsum fun k => (hi k).aestronglyMeasurable.aemeasurable.ennreal_ofReal]
    have h1 : ∀ k, ∫⁻ ω, ENNReal.ofReal (f k ω) ∂P ≤ ENNReal.ofReal (r ^ k * C) := fun k => by
      rw [← ofReal_integral_eq_lintegral_ofReal (hi k) (Filter.Eventually.of_forall (h0 k))]
      exact ENNReal.ofReal_le_ofReal (h k)
    have hC : ∀ k : ℕ, 0 ≤ r ^ k * C := fun k => le_trans (integral_nonneg (h0 k)) (h k)
    have hsum : Summable fun k : ℕ => r ^ k * C := (summable_geometric_of_lt_one hr0 hr).mul_right C
    refine ne_top_of_le_ne_top ?_ (ENNReal.tsum_le_tsum h1)
    rw [← ENNReal.ofReal_tsum_of_nonneg hC hsum]
    exact ENNReal.ofReal_ne_top
  have hm : AEMeasurable (fun ω => ∑' k, ENNReal.ofReal (f k ω)) P :=
    AEMeasurable.tsum fun k => (hi k).aestronglyMeasurable.aemeasurable.ennreal_ofReal
  refine (ae_lt_top' hm hle).mono fun ω hω => ?_
  have ht := ENNReal.tendsto_atTop_zero_of_tsum_ne_top hω.ne
  have := (ENNReal.tendsto_toReal ENNReal.zero_ne_top).comp ht
  refine this.congr fun k => ?_
  exact ENNReal.toReal_ofReal (h0 k ω)

theorem tendsto_of_sq {w : ℕ → Vec ℝ n} {ws : Vec ℝ n} (h : Filter.Tendsto (fun k => ∑ i, (w k i - ws i) ^ 2) Filter.atTop (nhds 0)) (i : Fin n) :
    Filter.Tendsto (fun k => w k i) Filter.atTop (nhds (ws i)) := by
  have h1 : Filter.Tendsto (fun k => (w k i - ws i) ^ 2) Filter.atTop (nhds 0) :=
    squeeze_zero (fun k => sq_nonneg _) (fun k => single_le_sum (f := fun i => (w k i - ws i) ^ 2) (fun _ _ => sq_nonneg _) (mem_univ i)) h
  have h2 : Filter.Tendsto (fun k => |w k i - ws i|) Filter.atTop (nhds 0) := by
    have := h1.sqrt
    simpa [Real.sqrt_sq_eq_abs] using this
  have h3 := (tendsto_zero_iff_abs_tendsto_zero _).2 h2
  simpa using h3.add_const (ws i)

end

section user
variable {Ω : Type} {mΩ : MeasurableSpace Ω} {P : Measure Ω} [IsProbabilityMeasure P] {n : ℕ} {x : ℕ → Ω → Vec ℝ n} {v : ℕ → Ω → ℝ}
  {y e : Ω → ℕ → ℝ}

/-- C123: NLMS on independent, identically distributed inputs that are not confined to a hyperplane: for every `0 < mu < 2` the mean square deviation of the weights from `ws` decays
geometrically to a floor proportional to the noise variance, whatever the distribution of the inputs. -/
theorem C123_nlms_iid (o : Ω → Obj (nlms ℝ n)) (hs : IndepSamples P x v fun ω => (o ω).core.w) {mu eps : ℝ}
    (ho : ∀ ω, (o ω).core.mu = mu ∧ (o ω).core.ext.eps = eps) {S : Ω → ℕ → Core ℝ n (EpsExt ℝ)} (ws : Vec ℝ n) (hw0 : ∀ i, MemLp (fun ω => (o ω).core.w i) 2 P)
    (h : ∀ ω, Runs (nlms ℝ n) (o ω) (fun k => (∑ i, ws i * x k ω i) + v k ω) (fun k => x k ω) (y ω) (e ω) (S ω)) (hn : 0 < n)
    (heps : 0 < eps) (hid : ∀ k, IdentDistrib (x k) (x 0) P P) (hplane : ∀ u : Vec ℝ n, (∀ᵐ ω ∂P, ∑ i, u i * x 0 ω i = 0) → u = 0)
    (hxv : ∀ k, IndepFun (x k) (v k) P) (hv : ∀ k, MemLp (v k) 2 P) (hv0 : ∀ k, ∫ ω, v k ω ∂P = 0) {s2 : ℝ} (hs2 : ∀ k, ∫ ω, v k ω ^ 2 ∂P ≤ s2)
    (hmu : 0 < mu) (hmu2 : mu < 2) :
    ∃ lam > 0, (∀ u : Vec ℝ n, lam * ∑ i, u i ^ 2 ≤ ∫ ω, (∑ i, u i * x 0 ω i) ^ 2 / (eps + ∑ i, x 0 ω i ^ 2) ∂P) ∧ ∀ k,
      ∫ ω, ∑ i, ((S ω k).w i - ws i) ^ 2 ∂P ≤ (1 - mu * (2 - mu) * lam) ^ k * (∫ ω, ∑ i, ((o ω).core.w i - ws i) ^ 2 ∂P)
        + mu * s2 / (4 * eps * (2 - mu) * lam) := by
  obtain ⟨lam, hlam, hex⟩ := nlms_excited (hs.x_measurable 0) heps hplane
  refine ⟨lam, hlam, hex, fun k => (C123_nlms o hs ho ws hw0 h hn heps hlam (fun k u => (hex u).trans (le_of_eq (excited_ident (hid k) eps u))) hxv hv hv0 hs2 hmu hmu2 k).2⟩

/-- the rates of the bounds are between 0 and 1 -/
theorem nlms_rate {a : Ω → Vec ℝ n} (ma : Measurable a) {eps lam mu : ℝ} (heps : 0 < eps) (hn : 0 < n) (hmu : 0 < mu) (hmu2 : mu < 2) (hlam : 0 < lam)
    (hex : ∀ u : Vec ℝ n, lam * ∑ i, u i ^ 2 ≤ ∫ ω, (∑ i, u i * a ω i) ^ 2 / (eps + ∑ i, a ω i ^ 2) ∂P) :
    0 ≤ 1 - mu * (2 - mu) * lam ∧ 1 - mu * (2 - mu) * lam < 1 := by
  have hl : lam ≤ 1 := by
    have h1 := hex (fun i => if i = ⟨0, hn⟩ then 1 else 0)
    have h2 : ∫ ω, (∑ i, (if i = ⟨0, hn⟩ then 1 else 0) * a ω i) ^ 2 / (eps + ∑ i, a ω i ^ 2) ∂P ≤ ∫ ω, (1 : ℝ) ∂P := by
      refine integral_mono_of_nonneg (Filter.Eventually.of_forall fun ω => ?_) (integrable_const _) (Filter.Eventually.of_forall fun ω => ?_)
      · have := (nlms_gain_bound heps (a ω) ⟨0, hn⟩ ⟨0, hn⟩).2.2
        exact div_nonneg (sq_nonneg _) this.le
      · have := (nlms_gain_bound heps (a ω) ⟨0, hn⟩ ⟨0, hn⟩).1
        simp only [ite_mul, one_mul, zero_mul, sum_ite_eq', mem_univ, if_true]
        rw [← pow_two] at this
        exact (le_abs_self _).trans this
    simp at h1 h2
    linarith
  have h2 : 0 < mu * (2 - mu) := mul_pos hmu (by linarith)
  have h3 : mu * (2 - mu) ≤ 1 := by nlinarith [sq_nonneg (1 - mu)]
  constructor
  · nlinarith [mul_le_mul h3 hl hlam.le zero_le_one]
  · nlinarith [mul_pos h2 hlam]

/-- C123: without noise the NLMS weights converge to `ws` with probability one, for every `0 < mu < 2` and every distribution of the inputs not confined to a hyperplane. -/
theorem C123_nlms_almost_surely (o : Ω → Obj (nlms ℝ n)) (hs : IndepSamples P x (fun _ _ => 0) fun ω => (o ω).core.w) {mu eps : ℝ}
    (ho : ∀ ω, (o ω).core.mu = mu ∧ (o ω).core.ext.eps = eps) {S : Ω → ℕ → Core ℝ n (EpsExt ℝ)} (ws : Vec ℝ n) (hw0 : ∀ i, MemLp (fun ω => (o ω).core.w i) 2 P)
    (h : ∀ ω, Runs (nlms ℝ n) (o ω) (fun k => ∑ i, ws i * x k ω i) (fun k => x k ω) (y ω) (e ω) (S ω)) (hn : 0 < n)
    (heps : 0 < eps) (hid : ∀ k, IdentDistrib (x k) (x 0) P P) (hplane : ∀ u : Vec ℝ n, (∀ᵐ ω ∂P, ∑ i, u i * x 0 ω i = 0) → u = 0)
    (hmu : 0 < mu) (hmu2 : mu < 2) :
    ∀ᵐ ω ∂P, ∀ i, Filter.Tendsto (fun k => (S ω k).w i) Filter.atTop (nhds (ws i)) := by
  have h' : ∀ ω, Runs (nlms ℝ n) (o ω) (fun k => (∑ i, ws i * x k ω i) + 0) (fun k => x k ω) (y ω) (e ω) (S ω) := fun ω => by
    simpa only [add_zero] using h ω
  obtain ⟨lam, hlam, hex, hb⟩ := C123_nlms_iid (v := fun _ _ => (0 : ℝ)) o hs ho ws hw0 h' hn heps hid hplane (fun k => indep_zero _) (fun k => memLp_const 0)
    (fun k => by simp) (s2 := 0) (fun k => by simp) hmu hmu2
  have hbound := fun k => C123_nlms (v := fun _ _ => (0 : ℝ)) o hs ho ws hw0 h' hn heps hlam (fun k u => (hex u).trans (le_of_eq (excited_ident (hid k) eps u))) (fun k => indep_zero _) (fun k => memLp_const 0) (fun k => by simp) (s2 := 0) (fun k => by simp) hmu hmu2 k
  obtain ⟨hr0, hr1⟩ := nlms_rate (hs.x_measurable 0) heps hn hmu hmu2 hlam hex
  refine (ae_tendsto_of_geometric (fun k => integrable_finsetSum _ fun i _ => (hbound k).1 i) (fun k ω => sum_nonneg fun _ _ => sq_nonneg _) hr0 hr1 (fun k => by
    simpa using (hbound k).2)).mono fun ω hω i => ?_
  exact tendsto_of_sq (w := fun k => (S ω k).w) hω i

/-- C123: without noise the LMS weights converge to `ws` with probability one, in the setting of `C123_lms`. -/
theorem C123_lms_almost_surely (o : Ω → Obj (lms ℝ n)) (hs : IndepSamples P x (fun _ _ => 0) fun ω => (o ω).core.w) {mu : ℝ} (ho : ∀ ω, (o ω).core.mu = mu)
    {S : Ω → ℕ → Core ℝ n Unit} (ws : Vec ℝ n) (hw0 : ∀ i, MemLp (fun ω => (o ω).core.w i) 2 P)
    (h : ∀ ω, Runs (lms ℝ n) (o ω) (fun k => ∑ i, ws i * x k ω i) (fun k => x k ω) (y ω) (e ω) (S ω)) (hn : 0 < n)
    (hx4 : ∀ k i, Integrable (fun ω => x k ω i ^ 4) P) {lam B T : ℝ} (hlam : 0 < lam)
    (hex : ∀ k (u : Vec ℝ n), lam * ∑ i, u i ^ 2 ≤ ∫ ω, (∑ i, u i * x k ω i) ^ 2 ∂P)
    (hB : ∀ k (u : Vec ℝ n), ∫ ω, (∑ i, x k ω i ^ 2) * (∑ i, u i * x k ω i) ^ 2 ∂P ≤ B * ∫ ω, (∑ i, u i * x k ω i) ^ 2 ∂P)
    (hT : ∀ k, ∫ ω, ∑ i, x k ω i ^ 2 ∂P ≤ T) (hmu : 0 < mu) (hmu2 : mu * B < 2) :
    ∀ᵐ ω ∂P, ∀ i, Filter.Tendsto (fun k => (S ω k).w i) Filter.atTop (nhds (ws i)) := by
  have h' : ∀ ω, Runs (lms ℝ n) (o ω) (fun k => (∑ i, ws i * x k ω i) + 0) (fun k => x k ω) (y ω) (e ω) (S ω) := fun ω => by
    simpa only [add_zero] using h ω
  have hbound := fun k => C123_lms (v := fun _ _ => (0 : ℝ)) o hs ho ws hw0 h' hn hx4 hlam hex hB hT (fun k => indep_zero _) (fun k => memLp_const 0)
    (fun k => by simp) (s2 := 0) (fun k => by simp) hmu hmu2 k
  set r := 1 - mu * (2 - mu * B) * lam with hr
  have hr1 : r < 1 := by
    have := mul_pos (mul_pos hmu (by linarith : 0 < 2 - mu * B)) hlam
    rw [hr]; linarith
  -- a bound with a rate that is not negative
  have hb : ∀ k, ∫ ω, ∑ i, ((S ω k).w i - ws i) ^ 2 ∂P ≤ |r| ^ k * (∫ ω, ∑ i, ((o ω).core.w i - ws i) ^ 2 ∂P) := fun k => by
    have h1 := (hbound k).2
    simp only [mul_zero, zero_mul, zero_div, add_zero] at h1
    refine h1.trans (mul_le_mul_of_nonneg_right ?_ (integral_nonneg fun ω => sum_nonneg fun _ _ => sq_nonneg _))
    rw [← abs_pow]
    exact le_abs_self _
  have hrm : -1 < r := by
    -- `lam <= B`, by Cauchy-Schwarz, so `mu (2 - mu B) lam <= mu B (2 - mu B) <= 1`
    have h1 := hex 0 (fun i => if i = ⟨0, hn⟩ then 1 else 0)
    have h2 := hB 0 (fun i => if i = ⟨0, hn⟩ then 1 else 0)
    simp only [ite_mul, one_mul, zero_mul, sum_ite_eq', mem_univ, if_true, ite_pow, one_pow, ne_eq, OfNat.ofNat_ne_zero, not_false_eq_true, zero_pow, mul_one] at h1 h2
    have i4 := hx4 0 ⟨0, hn⟩
    have mx : Measurable fun ω => x 0 ω ⟨0, hn⟩ := (measurable_pi_apply (⟨0, hn⟩ : Fin n)).comp (hs.x_measurable 0)
    have hsq : MemLp (fun ω => x 0 ω ⟨0, hn⟩ ^ 2) 2 P := by
      rw [memLp_two_iff_integrable_sq (mx.pow_const 2).aestronglyMeasurable]
      refine i4.congr (Filter.Eventually.of_forall fun ω => ?_)
      show x 0 ω ⟨0, hn⟩ ^ 4 = (x 0 ω ⟨0, hn⟩ ^ 2) ^ 2
      ring
    have i2 := hsq.integrable one_le_two
    set m := ∫ ω, x 0 ω ⟨0, hn⟩ ^ 2 ∂P with hm
    have h3 : m ^ 2 ≤ ∫ ω, (∑ i, x 0 ω i ^ 2) * x 0 ω ⟨0, hn⟩ ^ 2 ∂P := by
      have hnn : 0 ≤ ∫ ω, (x 0 ω ⟨0, hn⟩ ^ 2 - m) ^ 2 ∂P := integral_nonneg fun ω => sq_nonneg _
      have e1 : (fun ω => (x 0 ω ⟨0, hn⟩ ^ 2 - m) ^ 2) = fun ω => x 0 ω ⟨0, hn⟩ ^ 4 - 2 * m * x 0 ω ⟨0, hn⟩ ^ 2 + m ^ 2 := by funext ω; ring
      have i42 : Integrable (fun ω => x 0 ω ⟨0, hn⟩ ^ 4 - 2 * m * x 0 ω ⟨0, hn⟩ ^ 2) P := i4.sub (i2.const_mul _)
      rw [e1, integral_add i42 (integrable_const _), integral_sub i4 (i2.const_mul _), integral_const_mul, integral_const, probReal_univ, one_smul, ← hm] at hnn
      have h5 : ∫ ω, x 0 ω ⟨0, hn⟩ ^ 4 ∂P ≤ ∫ ω, (∑ i, x 0 ω i ^ 2) * x 0 ω ⟨0, hn⟩ ^ 2 ∂P := by
        refine integral_mono i4 ?_ fun ω => ?_
        · have e2 : (fun ω => (∑ i, x 0 ω i ^ 2) * x 0 ω ⟨0, hn⟩ ^ 2) = fun ω => ∑ i, x 0 ω i ^ 2 * x 0 ω ⟨0, hn⟩ ^ 2 := by funext ω; rw [sum_mul]
          rw [e2]
          refine integrable_finsetSum _ fun i _ => MemLp.integrable_mul (p := 2) (q := 2) ?_ hsq
          have mxi : Measurable fun ω => x 0 ω i := (measurable_pi_apply i).comp (hs.x_measurable 0)
          rw [memLp_two_iff_integrable_sq (mxi.pow_const 2).aestronglyMeasurable]
          refine (hx4 0 i).congr (Filter.Eventually.of_forall fun ω => ?_)
          show x 0 ω i ^ 4 = (x 0 ω i ^ 2) ^ 2
          ring
        · show x 0 ω ⟨0, hn⟩ ^ 4 ≤ (∑ i, x 0 ω i ^ 2) * x 0 ω ⟨0, hn⟩ ^ 2
          have : x 0 ω ⟨0, hn⟩ ^ 2 ≤ ∑ l, x 0 ω l ^ 2 := single_le_sum (f := fun l => x 0 ω l ^ 2) (fun _ _ => sq_nonneg _) (mem_univ _)
          nlinarith [sq_nonneg (x 0 ω ⟨0, hn⟩)]
      nlinarith
    have hmpos : 0 < m := lt_of_lt_of_le hlam h1
    have hBm : m ≤ B := by
      have h6 : m * m ≤ B * m := by nlinarith
      exact le_of_mul_le_mul_right h6 hmpos
    have hlB : lam ≤ B := h1.trans hBm
    have hp : 0 < mu * (2 - mu * B) := mul_pos hmu (by linarith)
    have h7 := mul_le_mul_of_nonneg_left hlB hp.le
    rw [hr]
    nlinarith [sq_nonneg (1 - mu * B)]
  refine (ae_tendsto_of_geometric (fun k => integrable_finsetSum _ fun i _ => (hbound k).1 i) (fun k ω => sum_nonneg fun _ _ => sq_nonneg _) (abs_nonneg r)
    (abs_lt.2 ⟨hrm, hr1⟩) hb).mono fun ω hω i => ?_
  exact tendsto_of_sq (w := fun k => (S ω k).w) hω i

end user

/-! ## The hypotheses are met by standard normal inputs -/

section witness
variable {Ω : Type} {mΩ : MeasurableSpace Ω} {P : Measure Ω} [IsProbabilityMeasure P] {n : ℕ} {x : ℕ → Ω → Vec ℝ n} {v : ℕ → Ω → ℝ} {w : Ω → Vec ℝ n}

theorem gauss_second {k : ℕ} (mx : Measurable (x k)) (hx : P.map (x k) = Measure.pi fun _ => gaussianReal 0 1) (i j : Fin n) :
    Integrable (fun ω => x k ω i * x k ω j) P ∧ ∫ ω, x k ω i * x k ω j ∂P = if i = j then 1 else 0 := by
  obtain ⟨g1, g2, g4, gi⟩ := gauss_moments
  have := white_transfer mx hx ((measurable_pi_apply i).mul (measurable_pi_apply j)) (white_second gi g1 i j)
  rw [g2] at this
  exact this

theorem gauss_quad {k : ℕ} (mx : Measurable (x k)) (hx : P.map (x k) = Measure.pi fun _ => gaussianReal 0 1) (u : Vec ℝ n) :
    ∫ ω, (∑ i, u i * x k ω i) ^ 2 ∂P = ∑ i, u i ^ 2 := by
  have hq := (quadC (f := fun _ => (1 : ℝ)) (z := x k) (P := P) (fun i j => by simpa using (gauss_second mx hx i j).1) u).2
  simp only [one_mul] at hq
  rw [← hq]
  refine sum_congr rfl fun i _ => ?_
  rw [sum_congr rfl fun j _ => by rw [(gauss_second mx hx i j).2]]
  simp only [mul_ite, mul_one, mul_zero, sum_ite_eq, mem_univ, if_true]
  ring

theorem gauss_plane {k : ℕ} (mx : Measurable (x k)) (hx : P.map (x k) = Measure.pi fun _ => gaussianReal 0 1) (u : Vec ℝ n)
    (h : ∀ᵐ ω ∂P, ∑ i, u i * x k ω i = 0) : u = 0 := by
  have h1 := gauss_quad mx hx u
  have h2 : ∫ ω, (∑ i, u i * x k ω i) ^ 2 ∂P = ∫ ω, (0 : ℝ) ∂P := integral_congr_ae (h.mono fun ω hω => by simp only [hω]; simp)
  rw [h2, integral_zero] at h1
  funext i
  have := (sum_eq_zero_iff_of_nonneg fun i _ => sq_nonneg (u i)).1 h1.symm i (mem_univ i)
  exact pow_eq_zero_iff two_ne_zero |>.1 this

theorem gauss_fourth {k : ℕ} (mx : Measurable (x k)) (hx : P.map (x k) = Measure.pi fun _ => gaussianReal 0 1) :
    (∀ i, Integrable (fun ω => x k ω i ^ 4) P) ∧
    ∀ u : Vec ℝ n, ∫ ω, (∑ i, x k ω i ^ 2) * (∑ i, u i * x k ω i) ^ 2 ∂P = (n + 2) * ∫ ω, (∑ i, u i * x k ω i) ^ 2 ∂P := by
  obtain ⟨g1, g2, g4, gi⟩ := gauss_moments
  have w4 : ∀ i j l, Integrable (fun ω => x k ω i * x k ω j * x k ω l ^ 2) P ∧
      ∫ ω, x k ω i * x k ω j * x k ω l ^ 2 ∂P = if i = j then (if l = i then 3 else 1) else 0 := fun i j l => by
    have := white_transfer mx hx (((measurable_pi_apply i).mul (measurable_pi_apply j)).mul ((measurable_pi_apply l).pow_const 2))
      (white_fourth gi g1 i j l)
    rw [g2, g4, one_pow] at this
    exact this
  refine ⟨fun i => (w4 i i i).1.congr (Filter.Eventually.of_forall fun ω => by show x k ω i * x k ω i * x k ω i ^ 2 = x k ω i ^ 4; ring), fun u => ?_⟩
  have e1 : ∀ i j, (fun ω => (∑ l, x k ω l ^ 2) * x k ω i * x k ω j) = fun ω => ∑ l, x k ω i * x k ω j * x k ω l ^ 2 := fun i j => by
    funext ω; rw [← mul_sum]; ring
  have hq := (quadC (f := fun ω => ∑ l, x k ω l ^ 2) (z := x k) (P := P) (fun i j => by
    rw [e1]; exact integrable_finsetSum _ fun l _ => (w4 i j l).1) u).2
  rw [← hq, gauss_quad mx hx, mul_sum]
  refine sum_congr rfl fun i _ => ?_
  have h3 : ∀ j, ∫ ω, (∑ l, x k ω l ^ 2) * x k ω i * x k ω j ∂P = if i = j then (n + 2 : ℝ) else 0 := fun j => by
    rw [e1, integral_finsetSum _ fun l _ => (w4 i j l).1, sum_congr rfl fun l _ => (w4 i j l).2]
    split_ifs with hij
    · rw [← add_sum_erase _ _ (mem_univ i), if_pos rfl, sum_congr rfl fun l hl => if_neg (mem_erase.1 hl).1, sum_const, card_erase_of_mem (mem_univ i),
        card_univ, Fintype.card_fin, nsmul_eq_mul, Nat.cast_sub (Nat.one_le_of_lt i.2), Nat.cast_one]
      ring
    · simp
  rw [sum_congr rfl fun j _ => by rw [h3 j]]
  simp only [mul_ite, mul_zero, sum_ite_eq, mem_univ, if_true]
  ring

theorem IndepSamples.quiet (hs : IndepSamples P x v w) : IndepSamples P x (fun _ _ => 0) w where
  x_measurable := hs.x_measurable
  v_measurable := fun _ => measurable_const
  w_measurable := hs.w_measurable
  independent := hs.independent.comp (fun _ q => (q.1, (0 : ℝ))) fun _ => measurable_fst.prodMk measurable_const
  start := hs.start.comp (φ := id) (ψ := fun q : ℕ → Vec ℝ n × ℝ => fun k => ((q k).1, (0 : ℝ))) measurable_id
    (measurable_pi_lambda _ fun k => (measurable_fst.comp (measurable_pi_apply k)).prodMk measurable_const)

/-- the random data used below: standard normal inputs, standard normal noise, a random start -/
theorem gauss_data (n : ℕ) : ∃ (Ω : Type) (mΩ : MeasurableSpace Ω) (P : Measure Ω) (_ : IsProbabilityMeasure P) (x : ℕ → Ω → Vec ℝ n) (v : ℕ → Ω → ℝ)
    (w : Ω → Vec ℝ n), IndepSamples P x v w ∧ (∀ k, IndepFun (x k) (v k) P) ∧ (∀ k, P.map (x k) = Measure.pi fun _ => gaussianReal 0 1) ∧
      (∀ k, MemLp (v k) 2 P ∧ ∫ ω, v k ω ∂P = 0 ∧ ∫ ω, v k ω ^ 2 ∂P = 1) ∧ ∀ i, MemLp (fun ω => w ω i) 2 P := by
  obtain ⟨Ω, mΩ, P, hP, x, v, w, hs, hxv, hx, hv, hw⟩ := samples_exist (Measure.pi fun _ : Fin n => gaussianReal 0 1)
    (Measure.pi fun _ : Fin n => gaussianReal 0 1) (gaussianReal 0 1)
  refine ⟨Ω, mΩ, P, hP, x, v, w, hs, hxv, hx, fun k => ⟨?_, ?_, ?_⟩, fun i => ?_⟩
  · have hm : MemLp id 2 (P.map (v k)) := by rw [hv k]; exact memLp_id_gaussianReal 2
    exact (memLp_map_measure_iff (by fun_prop) (hs.v_measurable k).aemeasurable).1 hm
  · have := integral_map (μ := P) (hs.v_measurable k).aemeasurable (f := fun t : ℝ => t) (by fun_prop)
    rw [hv k, integral_id_gaussianReal] at this
    exact this.symm
  · have h2 := integral_map (μ := P) (hs.v_measurable k).aemeasurable (f := fun t : ℝ => t ^ 2) (by fun_prop)
    rw [← h2, hv k, gauss_moments.2.1]
  · have hwi : P.map (fun ω => w ω i) = gaussianReal 0 1 := by
      have e : (fun ω => w ω i) = Function.eval i ∘ w := rfl
      rw [e, ← Measure.map_map (measurable_pi_apply i) hs.w_measurable, hw]
      exact (measurePreserving_eval (fun _ : Fin n => gaussianReal 0 1) i).map_eq
    have hm : MemLp id 2 (P.map (fun ω => w ω i)) := by rw [hwi]; exact memLp_id_gaussianReal 2
    exact (memLp_map_measure_iff (by fun_prop) ((measurable_pi_apply i).comp hs.w_measurable).aemeasurable).1 hm

/-- the hypotheses of `C122_lms_mean`, `C122_lms_mean_converges`, `C123_lms` and `C123_lms_almost_surely`: three standard normal inputs, `mu = 1/4`, `R = 1`, `B = 5`, `T = 3` -/
example : ∃ (Ω : Type) (mΩ : MeasurableSpace Ω) (P : Measure Ω) (_ : IsProbabilityMeasure P) (x : ℕ → Ω → Vec ℝ 3) (v : ℕ → Ω → ℝ) (o : Ω → Obj (lms ℝ 3))
    (y e : Ω → ℕ → ℝ) (S : Ω → ℕ → Core ℝ 3 Unit),
    IndepSamples P x v (fun ω => (o ω).core.w) ∧ IndepSamples P x (fun _ _ => 0) (fun ω => (o ω).core.w) ∧ (∀ ω, (o ω).core.mu = 1 / 4) ∧
    (∀ i, MemLp (fun ω => (o ω).core.w i) 2 P) ∧
    (∀ ω, Runs (lms ℝ 3) (o ω) (fun k => (∑ i, (![2, 1, -4] : Vec ℝ 3) i * x k ω i) + v k ω) (fun k => x k ω) (y ω) (e ω) (S ω)) ∧
    (∀ k i j, Integrable (fun ω => x k ω i * x k ω j) P) ∧ (∀ k i j, ∫ ω, x k ω i * x k ω j ∂P = (1 : Matrix (Fin 3) (Fin 3) ℝ) i j) ∧
    (∀ k i, Integrable (fun ω => x k ω i * v k ω) P ∧ ∫ ω, x k ω i * v k ω ∂P = 0) ∧
    (∀ (lam : ℝ) (u : Vec ℝ 3), u ≠ 0 → (∀ i, ∑ j, (1 : Matrix (Fin 3) (Fin 3) ℝ) i j * u j = lam * u i) → 0 < 1 / 4 * lam ∧ 1 / 4 * lam < 2) ∧
    (∀ k i, Integrable (fun ω => x k ω i ^ 4) P) ∧ (∀ k (u : Vec ℝ 3), 1 * ∑ i, u i ^ 2 ≤ ∫ ω, (∑ i, u i * x k ω i) ^ 2 ∂P) ∧
    (∀ k (u : Vec ℝ 3), ∫ ω, (∑ i, x k ω i ^ 2) * (∑ i, u i * x k ω i) ^ 2 ∂P ≤ 5 * ∫ ω, (∑ i, u i * x k ω i) ^ 2 ∂P) ∧
    (∀ k, ∫ ω, ∑ i, x k ω i ^ 2 ∂P ≤ 3) ∧ (∀ k, IndepFun (x k) (v k) P) ∧ (∀ k, MemLp (v k) 2 P) ∧ (∀ k, ∫ ω, v k ω ∂P = 0) ∧
    (∀ k, ∫ ω, v k ω ^ 2 ∂P ≤ 1) ∧ (1 / 4 : ℝ) * 5 < 2 := by
  obtain ⟨Ω, mΩ, P, hP, x, v, w, hs, hxv, hx, hv, hw⟩ := gauss_data 3
  have mx := hs.x_measurable
  refine ⟨Ω, mΩ, P, hP, x, v, fun ω => ⟨⟨w ω, 3, 1 / 4, ()⟩, []⟩, _, _, _, hs, hs.quiet, fun _ => rfl, hw, fun ω => runs_of_safe lms_safe _ trivial _ _,
    fun k i j => (gauss_second (mx k) (hx k) i j).1, fun k i j => ?_, fun k i => ?_, fun lam u hu hl => ?_, fun k i => (gauss_fourth (mx k) (hx k)).1 i,
    fun k u => by rw [gauss_quad (mx k) (hx k), one_mul], fun k u => le_of_eq ?_, fun k => ?_, hxv, fun k => (hv k).1, fun k => (hv k).2.1,
    fun k => (hv k).2.2.le, by norm_num⟩
  · rw [(gauss_second (mx k) (hx k) i j).2, Matrix.one_apply]
  · have hi := (hxv k).comp (measurable_pi_apply i) measurable_id
    have ix : Integrable (fun ω => x k ω i) P := by
      have mxi : Measurable fun ω => x k ω i := (measurable_pi_apply i).comp (mx k)
      refine MemLp.integrable (q := 2) one_le_two ?_
      rw [memLp_two_iff_integrable_sq mxi.aestronglyMeasurable]
      refine (gauss_second (mx k) (hx k) i i).1.congr (Filter.Eventually.of_forall fun ω => ?_)
      show x k ω i * x k ω i = x k ω i ^ 2
      ring
    have iv := (hv k).1.integrable one_le_two
    refine ⟨hi.integrable_mul ix iv, (hi.integral_fun_mul_eq_mul_integral ix.aestronglyMeasurable iv.aestronglyMeasurable).trans ?_⟩
    show _ * ∫ ω, v k ω ∂P = 0
    rw [(hv k).2.1, mul_zero]
  · obtain ⟨j, hj⟩ := Function.ne_iff.1 hu
    have h1 := hl j
    simp only [Matrix.one_apply, ite_mul, one_mul, zero_mul, sum_ite_eq, mem_univ, if_true] at h1
    have hj' : u j ≠ 0 := hj
    have h2 : lam = 1 := by
      have h3 : (lam - 1) * u j = 0 := by linarith
      rcases mul_eq_zero.1 h3 with h4 | h4
      · linarith
      · exact absurd h4 hj'
    rw [h2]; norm_num
  · rw [(gauss_fourth (mx k) (hx k)).2 u]; norm_num
  · rw [integral_finsetSum _ fun i _ => by
      refine (gauss_second (mx k) (hx k) i i).1.congr (Filter.Eventually.of_forall fun ω => ?_)
      show x k ω i * x k ω i = x k ω i ^ 2
      ring]
    have : ∀ i, ∫ ω, x k ω i ^ 2 ∂P = 1 := fun i => by
      have := (gauss_second (mx k) (hx k) i i).2
      rw [if_pos rfl] at this
      rw [← this]; congr 1; funext ω; ring
    simp [this]

/-- the hypotheses of `C122_nlms_mean_converges`, `C123_nlms_iid` and `C123_nlms_almost_surely` -/
example : ∃ (Ω : Type) (mΩ : MeasurableSpace Ω) (P : Measure Ω) (_ : IsProbabilityMeasure P) (x : ℕ → Ω → Vec ℝ 3) (v : ℕ → Ω → ℝ) (o : Ω → Obj (nlms ℝ 3))
    (y e : Ω → ℕ → ℝ) (S : Ω → ℕ → Core ℝ 3 (EpsExt ℝ)),
    IndepSamples P x v (fun ω => (o ω).core.w) ∧ IndepSamples P x (fun _ _ => 0) (fun ω => (o ω).core.w) ∧
    (∀ ω, (o ω).core.mu = 1 / 2 ∧ (o ω).core.ext.eps = 1 / 1000) ∧ (∀ i, MemLp (fun ω => (o ω).core.w i) 2 P) ∧
    (∀ ω, Runs (nlms ℝ 3) (o ω) (fun k => (∑ i, (![2, 1, -4] : Vec ℝ 3) i * x k ω i) + v k ω) (fun k => x k ω) (y ω) (e ω) (S ω)) ∧
    (∀ k, IdentDistrib (x k) (x 0) P P) ∧ (∀ u : Vec ℝ 3, (∀ᵐ ω ∂P, ∑ i, u i * x 0 ω i = 0) → u = 0) ∧
    (∀ k, IndepFun (x k) (v k) P) ∧ (∀ k, MemLp (v k) 2 P) ∧ (∀ k, ∫ ω, v k ω ∂P = 0) ∧ (∀ k, ∫ ω, v k ω ^ 2 ∂P ≤ 1) := by
  obtain ⟨Ω, mΩ, P, hP, x, v, w, hs, hxv, hx, hv, hw⟩ := gauss_data 3
  have mx := hs.x_measurable
  exact ⟨Ω, mΩ, P, hP, x, v, fun ω => ⟨⟨w ω, 3, 1 / 2, ⟨1 / 1000⟩⟩, []⟩, _, _, _, hs, hs.quiet, fun _ => ⟨rfl, rfl⟩, hw,
    fun ω => runs_of_safe nlms_safe _ trivial _ _,
    fun k => ⟨(mx k).aemeasurable, (mx 0).aemeasurable, by rw [hx k, hx 0]⟩, gauss_plane (mx 0) (hx 0), hxv, fun k => (hv k).1, fun k => (hv k).2.1,
    fun k => (hv k).2.2.le⟩

/-- the hypotheses of `C122_lms_mean_diverges` and `C123_lms_white_diverges`: two standard normal inputs, `mu = 2`, started at `(1, 0)` with `ws = 0` -/
example : ∃ (Ω : Type) (mΩ : MeasurableSpace Ω) (P : Measure Ω) (_ : IsProbabilityMeasure P) (x : ℕ → Ω → Vec ℝ 2) (v : ℕ → Ω → ℝ) (o : Ω → Obj (lms ℝ 2))
    (y e : Ω → ℕ → ℝ) (S : Ω → ℕ → Core ℝ 2 Unit),
    IndepSamples P x v (fun ω => (o ω).core.w) ∧ (∀ ω, (o ω).core.mu = 2) ∧ (∀ i, MemLp (fun ω => (o ω).core.w i) 2 P) ∧
    (∀ ω, Runs (lms ℝ 2) (o ω) (fun k => (∑ i, (fun _ => 0 : Vec ℝ 2) i * x k ω i) + v k ω) (fun k => x k ω) (y ω) (e ω) (S ω)) ∧
    (∀ k, P.map (x k) = Measure.pi fun _ => gaussianReal 0 1) ∧
    (∀ k i j, ∫ ω, x k ω i * x k ω j ∂P = (1 : Matrix (Fin 2) (Fin 2) ℝ) i j) ∧ (∀ k, IndepFun (x k) (v k) P) ∧ (∀ k, MemLp (v k) 2 P) ∧
    (∀ k, ∫ ω, v k ω ∂P = 0) ∧ (∀ i, ∑ j, (1 : Matrix (Fin 2) (Fin 2) ℝ) i j * (![1, 0] : Vec ℝ 2) j = 1 * (![1, 0] : Vec ℝ 2) i) ∧
    ¬ (0 < (2 : ℝ) * 1 ∧ (2 : ℝ) * 1 < 2) ∧ (∀ i, ∫ ω, (o ω).core.w i ∂P = 0 + (![1, 0] : Vec ℝ 2) i) ∧
    2 * (1 : ℝ) < 2 * (3 + ((2 : ℕ) - 1) * 1 ^ 2) ∧ 0 < ∫ ω, ∑ i, ((o ω).core.w i - 0) ^ 2 ∂P := by
  obtain ⟨Ω, mΩ, P, hP, x, v, w, hs, hxv, hx, hv, hw⟩ := gauss_data 2
  have mx := hs.x_measurable
  refine ⟨Ω, mΩ, P, hP, x, v, fun ω => ⟨⟨![1, 0], 2, 2, ()⟩, []⟩, _, _, _,
    ⟨mx, hs.v_measurable, measurable_const, hs.independent, indepFun_const_left _ _⟩, fun _ => rfl, fun i => memLp_const _,
    fun ω => runs_of_safe lms_safe _ trivial _ _, hx, fun k i j => ?_, hxv, fun k => (hv k).1, fun k => (hv k).2.1, fun i => ?_, by norm_num, fun i => ?_,
    by norm_num, ?_⟩
  · rw [(gauss_second (mx k) (hx k) i j).2, Matrix.one_apply]
  · simp [Matrix.one_apply]
  · simp
  · simp

end witness

end Padasip
