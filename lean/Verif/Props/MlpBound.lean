import Verif.Props.MlpDescent
import Mathlib.Analysis.Calculus.MeanValue

/-!
# C104: bounds on the output of a network and on its sensitivity to the input
-/

set_option linter.unusedSectionVars false
set_option linter.unusedSimpArgs false
set_option linter.unusedVariables false

namespace Padasip

open Finset

variable {nin m q p : ℕ}

theorem abs_actSpec_lt_one (f : Act) (t : ℝ) : |actSpec f t| < 1 := by
  obtain ⟨h1, h2, h3, h4⟩ := C73_range t
  rw [← C73_activation]
  cases f
  · rw [abs_lt]; exact ⟨by linarith, h2⟩
  · rw [abs_lt]; exact ⟨h3, h4⟩

/-- the outputs of the last hidden layer -/
theorem hidden_out_lt {nin m : ℕ} (h : Hidden ℝ nin m) (hb : h.BiasOne) (x : Vec ℝ nin) (i : Fin m) : |(h.predict x).2 i| < 1 := by
  cases h with
  | one l =>
    show |(l.predict x).y i| < 1
    rw [layer_predict_y l hb]
    exact abs_actSpec_lt_one _ _
  | snoc h l =>
    show |(l.predict (h.predict x).2).y i| < 1
    rw [layer_predict_y l hb.2]
    exact abs_actSpec_lt_one _ _

theorem net_out (n : Net ℝ nin m p) (hb : n.BiasOne) (x : Vec ℝ nin) (k : Fin p) : (n.predictV x).2 k = affine n.w (n.hidden.predict x).2 k := by
  show @vsum ℝ realTransc.toScalar (m + 1) (fun j => n.w k j * setTail n.x (n.hidden.predict x).2 j) = _
  exact affine_setTail _ _ hb.2 _ _

/-- C104: whatever the input and the depth of the network, output `k` differs from the bias of that output by at most the sum of the absolute values of its other weights. -/
theorem C104_bounded (n : Net ℝ nin m p) (hb : n.BiasOne) (x : Vec ℝ nin) (k : Fin p) :
    |(n.predictV x).2 k - n.w k 0| ≤ ∑ i, |n.w k (Fin.succ i)| ∧ |(n.predictV x).2 k| ≤ ∑ j, |n.w k j| := by
  have h1 : |∑ i, n.w k (Fin.succ i) * (n.hidden.predict x).2 i| ≤ ∑ i, |n.w k (Fin.succ i)| := by
    refine (abs_sum_le_sum_abs _ _).trans (sum_le_sum fun i _ => ?_)
    rw [abs_mul]
    exact mul_le_of_le_one_right (abs_nonneg _) (hidden_out_lt n.hidden hb.1 x i).le
  rw [net_out n hb]
  unfold affine
  refine ⟨by rw [add_sub_cancel_left]; exact h1, ?_⟩
  rw [Fin.sum_univ_succ]
  exact (abs_add_le _ _).trans (add_le_add le_rfl h1)

/-- C104: hence a target further away than that is never reached, whatever the input: the error of `test` stays at least the difference. -/
theorem C104_unreachable (n : Net ℝ nin m p) (hb : n.BiasOne) (x : Vec ℝ nin) (d : Vec ℝ p) (k : Fin p) :
    |d k| - ∑ j, |n.w k j| ≤ |d k - (n.predictV x).2 k| := by
  have h1 := (C104_bounded n hb x k).2
  have h2 := abs_sub_abs_le_abs_sub (d k) ((n.predictV x).2 k)
  linarith

/-- largest slope of the activation functions -/
noncomputable def slope : Act → ℝ
  | .sigmoid => 1 / 4
  | .tanh => 1

theorem slope_nonneg (f : Act) : 0 ≤ slope f := by cases f <;> norm_num [slope]

theorem act_lipschitz (f : Act) (a b : ℝ) : |actSpec f a - actSpec f b| ≤ slope f * |a - b| := by
  have hd : ∀ t, HasDerivAt (actSpec f) (activation f true (actSpec f t)) t := by
    intro t
    have := C73_derivative f t
    rwa [C73_activation] at this
  have hbound : ∀ t, ‖activation f true (actSpec f t)‖ ≤ slope f := by
    intro t
    have ha := abs_actSpec_lt_one f t
    rw [abs_lt] at ha
    obtain ⟨h1, h2, h3, h4⟩ := C73_range t
    rw [Real.norm_eq_abs, abs_le]
    cases f
    · rw [C73_activation] at h1 h2
      show -(1 / 4) ≤ actSpec .sigmoid t * (1 - actSpec .sigmoid t) ∧ actSpec .sigmoid t * (1 - actSpec .sigmoid t) ≤ 1 / 4
      constructor <;> nlinarith [sq_nonneg (actSpec .sigmoid t - 1 / 2)]
    · show -1 ≤ 1 - actSpec .tanh t * actSpec .tanh t ∧ 1 - actSpec .tanh t * actSpec .tanh t ≤ 1
      constructor <;> nlinarith [sq_nonneg (actSpec .tanh t)]
  have := Convex.norm_image_sub_le_of_norm_hasDerivWithin_le (f := actSpec f) (s := Set.univ) (x := b) (y := a) (C := slope f)
    (fun t _ => (hd t).hasDerivWithinAt) (fun t _ => hbound t) convex_univ (Set.mem_univ _) (Set.mem_univ _)
  simpa [Real.norm_eq_abs] using this

/-- bound on the change of the outputs of the hidden layers when input `j` changes by at most `δ j` -/
noncomputable def Hidden.sens {nin m : ℕ} : Hidden ℝ nin m → Vec ℝ nin → Vec ℝ m
  | .one l, δ => fun i => slope l.f * ∑ j, |l.w i j.succ| * δ j
  | .snoc h l, δ => fun i => slope l.f * ∑ j, |l.w i j.succ| * h.sens δ j

theorem affine_diff {n m : ℕ} (W : Mat ℝ m (n + 1)) (a b δ : Vec ℝ n) (h : ∀ j, |a j - b j| ≤ δ j) (i : Fin m) :
    |affine W a i - affine W b i| ≤ ∑ j, |W i j.succ| * δ j := by
  have e : affine W a i - affine W b i = ∑ j, W i (Fin.succ j) * (a j - b j) := by
    unfold affine
    rw [add_sub_add_left_eq_sub, ← sum_sub_distrib]
    exact sum_congr rfl fun j _ => by ring
  rw [e]
  refine (abs_sum_le_sum_abs _ _).trans (sum_le_sum fun j _ => ?_)
  rw [abs_mul]
  exact mul_le_mul_of_nonneg_left (h j) (abs_nonneg _)

theorem hidden_diff {nin m : ℕ} (h : Hidden ℝ nin m) (hb : h.BiasOne) (a b δ : Vec ℝ nin) (hd : ∀ j, |a j - b j| ≤ δ j) (i : Fin m) :
    |(h.predict a).2 i - (h.predict b).2 i| ≤ h.sens δ i := by
  induction h with
  | one l =>
    show |(l.predict a).y i - (l.predict b).y i| ≤ slope l.f * _
    rw [layer_predict_y l hb, layer_predict_y l hb]
    refine (act_lipschitz l.f _ _).trans (mul_le_mul_of_nonneg_left ?_ (slope_nonneg _))
    exact affine_diff l.w a b δ hd i
  | snoc h l ih =>
    show |(l.predict (h.predict a).2).y i - (l.predict (h.predict b).2).y i| ≤ slope l.f * _
    rw [layer_predict_y l hb.2, layer_predict_y l hb.2]
    refine (act_lipschitz l.f _ _).trans (mul_le_mul_of_nonneg_left ?_ (slope_nonneg _))
    exact affine_diff l.w _ _ _ (fun j => ih hb.1 j) i

/-- C104: sensitivity to the input.  If two inputs differ by at most `δ j` in component `j`, the outputs differ by at most the product of the absolute weights along the
paths through the network, times the slope of the activation (1/4 for sigmoid, 1 for tanh) for every hidden layer on the path, times `δ`. -/
theorem C104_sensitivity (n : Net ℝ nin m p) (hb : n.BiasOne) (a b δ : Vec ℝ nin) (hd : ∀ j, |a j - b j| ≤ δ j) (k : Fin p) :
    |(n.predictV a).2 k - (n.predictV b).2 k| ≤ ∑ i, |n.w k (Fin.succ i)| * n.hidden.sens δ i := by
  rw [net_out n hb, net_out n hb]
  exact affine_diff n.w _ _ _ (fun j => hidden_diff n.hidden hb.1 a b δ hd j) k

/-- C104: the bound for one hidden layer, written out. -/
theorem C104_sensitivity_one (f : Act) (w : Mat ℝ m (nin + 1)) (v : Mat ℝ p (m + 1)) (mu1 mu : ℝ) (a b δ : Vec ℝ nin) (hd : ∀ j, |a j - b j| ≤ δ j) (k : Fin p) :
    |(Net.predictV (mkNet (.one (mkLayer w f mu1)) v mu) a).2 k - (Net.predictV (mkNet (.one (mkLayer w f mu1)) v mu) b).2 k| ≤
      ∑ i, |v k (Fin.succ i)| * ((match f with | .sigmoid => 1 / 4 | .tanh => 1) * ∑ j, |w i (Fin.succ j)| * δ j) := by
  have h := C104_sensitivity (mkNet (.one (mkLayer w f mu1)) v mu) ⟨rfl, rfl⟩ a b δ hd k
  cases f <;> exact h

/-- C104: an input whose weights in the first hidden layer are all zero has no influence on the output, whatever the depth. -/
theorem C104_ignored_input (n : Net ℝ nin m p) (hb : n.BiasOne) (j0 : Fin nin)
    (hz : ∀ W ∈ n.hidden.weights.head?, ∀ r ∈ W, r.getD (j0.val + 1) 0 = (0 : ℝ)) (a b : Vec ℝ nin) (hab : ∀ j, j ≠ j0 → a j = b j) :
    (n.predictV a).2 = (n.predictV b).2 := by
  have key : ∀ {m : ℕ} (h : Hidden ℝ nin m), h.BiasOne → (∀ W ∈ h.weights.head?, ∀ r ∈ W, r.getD (j0.val + 1) 0 = (0 : ℝ)) → (h.predict a).2 = (h.predict b).2 := by
    intro m h hb hz
    induction h with
    | one l =>
      have hz' : ∀ i, l.w i j0.succ = 0 := by
        intro i
        have h1 := hz (List.ofFn fun i => List.ofFn (l.w i)) rfl (List.ofFn (l.w i)) (List.mem_ofFn.2 ⟨i, rfl⟩)
        have h2 : (List.ofFn (l.w i)).getD (j0.val + 1) 0 = l.w i j0.succ := by
          have : j0.val + 1 < nin + 1 := by omega
          rw [List.getD_eq_getElem?_getD, List.getElem?_ofFn]
          simp [this]
          rfl
        rw [← h2]; exact h1
      show (l.predict a).y = (l.predict b).y
      rw [layer_predict_y l hb, layer_predict_y l hb]
      funext i
      show actSpec l.f (affine l.w a i) = actSpec l.f (affine l.w b i)
      congr 1
      unfold affine
      congr 1
      refine sum_congr rfl fun j _ => ?_
      by_cases hj : j = j0
      · rw [hj, hz']; ring
      · rw [hab j hj]
    | snoc h l ih =>
      have hne : h.weights ≠ [] := by cases h <;> simp [Hidden.weights]
      show (l.predict (h.predict a).2).y = (l.predict (h.predict b).2).y
      rw [ih hb.1 (fun W hW => hz W (by
        rw [Hidden.weights, List.head?_append_of_ne_nil _ hne]; exact hW))]
  funext k
  rw [net_out n hb, net_out n hb, key n.hidden hb.1 hz]

/-- not vacuous: a tanh network with weights 1, two inputs -/
example : |(Net.predictV (mkNet (.one (mkLayer (fun _ : Fin 2 => fun _ : Fin 3 => (1 : ℝ)) .tanh 1)) (fun _ : Fin 1 => fun _ => 1) 1) ![7, -9]).2 0| ≤ 3 := by
  refine (C104_bounded (mkNet (.one (mkLayer (fun _ : Fin 2 => fun _ : Fin 3 => (1 : ℝ)) .tanh 1)) (fun _ : Fin 1 => fun _ => 1) 1) ⟨rfl, rfl⟩ _ 0).2.trans ?_
  show ∑ j : Fin 3, |(1 : ℝ)| ≤ 3
  simp

end Padasip
