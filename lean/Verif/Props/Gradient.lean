import Verif.Props.Recursion
import Mathlib.Analysis.SpecialFunctions.Log.Deriv
import Mathlib.Analysis.SpecialFunctions.Trigonometric.DerivHyp
import Mathlib.Analysis.SpecialFunctions.Pow.Deriv
import Mathlib.Analysis.Calculus.Deriv.Pow

/-!
# C18: the update of a sample is a gradient step

`errAt d x w` is the error `d - <w, x>` as a function of the weights; a partial derivative is the derivative of
`t ↦ J (w with w_i replaced by t)` at `w_i`.
-/

set_option linter.unusedSectionVars false

namespace Padasip

open Finset

variable {n : ℕ}

/-- the error of the weights `w` on the sample `(d, x)` -/
def errAt (d : ℝ) (x w : Vec ℝ n) : ℝ := d - ∑ j, w j * x j

/-- `g` is the partial derivative of `J` with respect to weight `i` at `w` -/
def HasPartial (J : Vec ℝ n → ℝ) (g : ℝ) (w : Vec ℝ n) (i : Fin n) : Prop :=
  HasDerivAt (fun t => J (Function.update w i t)) g (w i)

theorem err_deriv (d : ℝ) (x w : Vec ℝ n) (i : Fin n) :
    HasPartial (errAt d x) (-x i) w i := by
  have h : ∀ t, errAt d x (Function.update w i t) = errAt d x w - (t - w i) * x i := by
    intro t
    have h2 : ∑ j, Function.update w i t j * x j = ∑ j, w j * x j + (t - w i) * x i := by
      have h3 : ∀ j, Function.update w i t j * x j = w j * x j + if j = i then (t - w i) * x i else 0 := by
        intro j
        by_cases hj : j = i
        · subst hj; simp; ring
        · simp [hj]
      rw [sum_congr rfl fun j _ => h3 j, sum_add_distrib]
      simp
    simp only [errAt, h2]; ring
  unfold HasPartial
  simp only [h]
  have := (((hasDerivAt_id (w i)).sub_const (w i)).mul_const (x i)).const_sub (errAt d x w)
  simpa using this

theorem partial_comp {f : ℝ → ℝ} {f' : ℝ} (d : ℝ) (x w : Vec ℝ n) (i : Fin n)
    (hf : HasDerivAt f f' (errAt d x w)) :
    HasPartial (fun v => f (errAt d x v)) (f' * -x i) w i := by
  have h0 : errAt d x (Function.update w i (w i)) = errAt d x w := by rw [Function.update_eq_self]
  exact HasDerivAt.comp (h₂ := f) (w i) (by rw [h0]; exact hf) (err_deriv d x w i)

/-- `adapt` of a filter built on the base class, from the loop body -/
theorem adapt_base {X : Type} {pr : List ℝ → M (Core ℝ n X) ℝ}
    {lr : ℝ → List ℝ → M (Core ℝ n X) (Vec ℝ n)} (o : Obj (mkBase X pr lr)) {d : ℝ} {x : List ℝ}
    {p : ℝ × ℝ} {s' : Core ℝ n X} (h : (mkBase X pr lr).body d x o.core = (.ok p, s')) :
    adapt (mkBase X pr lr) d x o = (.ok (), { o with core := s' }) :=
  liftM_eq (C := mkBase X pr lr) (adapt_mkBase pr lr d x o.core h)

/-- C18, LMS: `adapt` subtracts `mu` times the gradient of `e^2 / 2`. -/
theorem C18_lms (o : Obj (lms ℝ n)) (d : ℝ) (x : Vec ℝ n) :
    ∃ o', adapt (lms ℝ n) d (List.ofFn x) o = (.ok (), o') ∧
      ∀ i, ∃ g, HasPartial (fun w => errAt d x w ^ 2 / 2) g o.core.w i ∧
        o'.core.w i = o.core.w i - o.core.mu * g := by
  refine ⟨_, adapt_base o (lms_body o.core d x), fun i => ?_⟩
  refine ⟨_, partial_comp (f := fun t => t ^ 2 / 2) d x o.core.w i
    ((hasDerivAt_pow 2 _).div_const 2), ?_⟩
  simp only [errAt, dot_eq]
  norm_num
  ring

/-- C18, LMF: `adapt` subtracts `mu` times the gradient of `e^4 / 4`. -/
theorem C18_lmf (o : Obj (lmf ℝ n)) (d : ℝ) (x : Vec ℝ n) :
    ∃ o', adapt (lmf ℝ n) d (List.ofFn x) o = (.ok (), o') ∧
      ∀ i, ∃ g, HasPartial (fun w => errAt d x w ^ 4 / 4) g o.core.w i ∧
        o'.core.w i = o.core.w i - o.core.mu * g := by
  refine ⟨_, adapt_base o (lmf_body o.core d x), fun i => ?_⟩
  refine ⟨_, partial_comp (f := fun t => t ^ 4 / 4) d x o.core.w i
    ((hasDerivAt_pow 4 _).div_const 4), ?_⟩
  simp only [errAt, dot_eq]
  norm_num
  ring

/-- C18, documentation of LMS: the documented `1/2 mu d(e^2)/dw` is *minus* the increment. -/
theorem C18_lms_documented_sign (o : Obj (lms ℝ n)) (d : ℝ) (x : Vec ℝ n) :
    ∃ o', adapt (lms ℝ n) d (List.ofFn x) o = (.ok (), o') ∧
      ∀ i, ∃ g, HasPartial (fun w => errAt d x w ^ 2) g o.core.w i ∧
        o'.core.w i - o.core.w i = -(1 / 2 * o.core.mu * g) := by
  refine ⟨_, adapt_base o (lms_body o.core d x), fun i => ?_⟩
  refine ⟨_, partial_comp (f := fun t => t ^ 2) d x o.core.w i (hasDerivAt_pow 2 _), ?_⟩
  simp only [errAt, dot_eq]
  norm_num
  ring

/-- C18, documentation of LMF: the documented `1/2 mu d(e^4)/dw` is *minus twice* the increment. -/
theorem C18_lmf_documented_factor (o : Obj (lmf ℝ n)) (d : ℝ) (x : Vec ℝ n) :
    ∃ o', adapt (lmf ℝ n) d (List.ofFn x) o = (.ok (), o') ∧
      ∀ i, ∃ g, HasPartial (fun w => errAt d x w ^ 4) g o.core.w i ∧
        1 / 2 * o.core.mu * g = -2 * (o'.core.w i - o.core.w i) := by
  refine ⟨_, adapt_base o (lmf_body o.core d x), fun i => ?_⟩
  refine ⟨_, partial_comp (f := fun t => t ^ 4) d x o.core.w i (hasDerivAt_pow 4 _), ?_⟩
  simp only [errAt, dot_eq]
  norm_num
  ring

/-- C18, Llncosh: `adapt` subtracts `mu` times the gradient of `ln(cosh(lambd e)) / lambd`. -/
theorem C18_llncosh (o : Obj (llncosh ℝ n)) (hl : o.core.ext.lambd ≠ 0) (d : ℝ) (x : Vec ℝ n) :
    ∃ o', adapt (llncosh ℝ n) d (List.ofFn x) o = (.ok (), o') ∧
      ∀ i, ∃ g, HasPartial
        (fun w => Real.log (Real.cosh (o.core.ext.lambd * errAt d x w)) / o.core.ext.lambd)
        g o.core.w i ∧ o'.core.w i = o.core.w i - o.core.mu * g := by
  refine ⟨_, adapt_base o (llncosh_body o.core d x), fun i => ?_⟩
  have hd : ∀ t, HasDerivAt (fun t => Real.log (Real.cosh (o.core.ext.lambd * t)) / o.core.ext.lambd)
      (Real.tanh (o.core.ext.lambd * t)) t := by
    intro t
    have h1 : HasDerivAt (fun t => o.core.ext.lambd * t) o.core.ext.lambd t := by
      simpa using (hasDerivAt_id t).const_mul o.core.ext.lambd
    have h2 := ((h1.cosh).log (Real.cosh_pos _).ne').div_const o.core.ext.lambd
    have h3 : Real.sinh (o.core.ext.lambd * t) * o.core.ext.lambd / Real.cosh (o.core.ext.lambd * t)
        / o.core.ext.lambd = Real.tanh (o.core.ext.lambd * t) := by
      rw [Real.tanh_eq_sinh_div_cosh]
      field_simp
    rw [h3] at h2
    exact h2
  refine ⟨_, partial_comp d x o.core.w i (hd _), ?_⟩
  have e1 : errAt d x o.core.w = d - dot o.core.w x := by rw [dot_eq]; rfl
  rw [e1]
  show _ + _ * Real.tanh _ * _ = _
  ring

theorem abs_rpow_deriv (a e : ℝ) (h : e ≠ 0 ∨ 1 < a) :
    HasDerivAt (fun t : ℝ => |t| ^ a) (a * |e| ^ (a - 1) * Scalar.sgn e) e := by
  rw [sgn_eq]
  rcases lt_trichotomy e 0 with he | he | he
  · have h1 : HasDerivAt (fun t : ℝ => (-t) ^ a) (-1 * a * (-e) ^ (a - 1)) e :=
      (hasDerivAt_neg e).rpow_const (Or.inl (by linarith))
    have h2 : HasDerivAt (fun t : ℝ => |t| ^ a) (-1 * a * (-e) ^ (a - 1)) e := by
      refine h1.congr_of_eventuallyEq ?_
      filter_upwards [gt_mem_nhds he] with t ht
      rw [abs_of_neg ht]
    convert h2 using 1
    rw [abs_of_neg he, sign_neg he]
    simp
  · subst he
    have ha : 1 < a := by simpa using h
    simp only [sign_zero, SignType.coe_zero, mul_zero]
    rw [hasDerivAt_iff_isLittleO_nhds_zero]
    have h0 : |(0 : ℝ)| ^ a = 0 := by rw [abs_zero, Real.zero_rpow (by linarith)]
    simp only [zero_add, h0, sub_zero, smul_zero]
    rw [Asymptotics.isLittleO_iff]
    intro c hc
    have hcont : Filter.Tendsto (fun t : ℝ => |t| ^ (a - 1)) (nhds 0) (nhds 0) := by
      have h3 : ContinuousAt (fun t : ℝ => |t| ^ (a - 1)) 0 :=
        continuous_abs.continuousAt.rpow_const (Or.inr (by linarith))
      have := h3.tendsto
      rwa [abs_zero, Real.zero_rpow (by linarith)] at this
    filter_upwards [hcont.eventually (gt_mem_nhds hc)] with t ht
    rw [Real.norm_eq_abs, Real.norm_eq_abs, abs_of_nonneg (Real.rpow_nonneg (abs_nonneg _) _)]
    by_cases h0 : t = 0
    · subst h0; rw [abs_zero, Real.zero_rpow (by linarith)]; simp
    · have hp : 0 < |t| := abs_pos.mpr h0
      have : |t| ^ a = |t| ^ (a - 1) * |t| := by
        rw [← Real.rpow_add_one hp.ne']; ring_nf
      rw [this]
      exact mul_le_mul_of_nonneg_right ht.le hp.le
  · have h1 : HasDerivAt (fun t : ℝ => t ^ a) (1 * a * e ^ (a - 1)) e :=
      (hasDerivAt_id e).rpow_const (Or.inl he.ne')
    have h2 : HasDerivAt (fun t : ℝ => |t| ^ a) (1 * a * e ^ (a - 1)) e := by
      refine h1.congr_of_eventuallyEq ?_
      filter_upwards [lt_mem_nhds he] with t ht
      rw [abs_of_pos ht]
    convert h2 using 1
    rw [abs_of_pos he, sign_pos he]
    simp

/-- C18, GMCC: `adapt` subtracts `mu` times the gradient of `-exp(-lambd |e|^alpha)`, if `alpha > 1` or the error is not 0. -/
theorem C18_gmcc (o : Obj (gmcc ℝ n)) (d : ℝ) (x : Vec ℝ n)
    (h : errAt d x o.core.w ≠ 0 ∨ 1 < o.core.ext.alpha) :
    ∃ o', adapt (gmcc ℝ n) d (List.ofFn x) o = (.ok (), o') ∧
      ∀ i, ∃ g, HasPartial
        (fun w => -Real.exp (-(o.core.ext.lambd * |errAt d x w| ^ o.core.ext.alpha)))
        g o.core.w i ∧ o'.core.w i = o.core.w i - o.core.mu * g := by
  refine ⟨_, adapt_base o (gmcc_body o.core d x), fun i => ?_⟩
  have hd : HasDerivAt (fun t : ℝ => -Real.exp (-(o.core.ext.lambd * |t| ^ o.core.ext.alpha)))
      (-(Real.exp (-(o.core.ext.lambd * |errAt d x o.core.w| ^ o.core.ext.alpha))
        * -(o.core.ext.lambd * (o.core.ext.alpha * |errAt d x o.core.w| ^ (o.core.ext.alpha - 1)
          * Scalar.sgn (errAt d x o.core.w))))) (errAt d x o.core.w) :=
    ((((abs_rpow_deriv _ _ h).const_mul o.core.ext.lambd).neg).exp).neg
  refine ⟨_, partial_comp d x o.core.w i hd, ?_⟩
  have e1 : errAt d x o.core.w = d - dot o.core.w x := by rw [dot_eq]; rfl
  rw [e1]
  simp only [Transc.exp, Transc.pow, Scalar.abs]
  rw [neg_mul o.core.ext.lambd]
  ring

/-- the hypotheses of C18: the default parameters of GMCC and Llncosh -/
example : errAt 1 (fun _ : Fin 2 => (0 : ℝ)) (fun _ => 0) ≠ 0 ∨ (1 : ℝ) < 2 := Or.inr (by norm_num)

end Padasip
