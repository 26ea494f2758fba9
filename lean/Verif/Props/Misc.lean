import Verif.Model.Misc
import Verif.Model.Real
import Mathlib.Algebra.Order.Chebyshev
import Mathlib.Analysis.InnerProductSpace.PiL2
import Mathlib.Algebra.BigOperators.Ring.Finset

/-!
# C45-C50: the error measures on float data
-/

set_option linter.unusedSectionVars false
set_option linter.unusedSimpArgs false

namespace Padasip

/-! ## C45 -/

section c45
variable {K : Type} [Transc K]

/-- C45: series of different length raise `ValueError` in every measure. -/
theorem C45_lengths (x1 x2 : List K) (h : x1.length ≠ x2.length) (f : String) :
    MSE x1 (some x2) = .error .valueError ∧ MAE x1 (some x2) = .error .valueError ∧
    RMSE x1 (some x2) = .error .valueError ∧ logSE x1 (some x2) = .error .valueError ∧
    getMeanError x1 (some x2) f = .error .valueError := by
  have : getValidError x1 (some x2) = .error .valueError := by simp [getValidError, h]
  simp only [MSE, MAE, RMSE, logSE, getMeanError, this]
  refine ⟨trivial, trivial, trivial, trivial, ?_⟩
  split_ifs <;> rfl

/-- C45: on two series of equal length every measure is the measure of their difference. -/
theorem C45_difference (x1 x2 : List K) (h : x1.length = x2.length) (f : String) :
    let e := List.zipWith (· - ·) x1 x2
    MSE x1 (some x2) = MSE e none ∧ MAE x1 (some x2) = MAE e none ∧ RMSE x1 (some x2) = RMSE e none ∧
    logSE x1 (some x2) = logSE e none ∧ getMeanError x1 (some x2) f = getMeanError e none f := by
  simp [MSE, MAE, RMSE, logSE, getMeanError, getValidError, h]

/-- C45: with equal lengths, or one series, no measure raises. -/
theorem C45_total (x1 : List K) (x2 : Option (List K)) (h : ∀ l ∈ x2, x1.length = l.length) :
    (∃ a, MSE x1 x2 = .ok a) ∧ (∃ a, MAE x1 x2 = .ok a) ∧ (∃ a, RMSE x1 x2 = .ok a) ∧
    ∃ l, logSE x1 x2 = .ok l ∧ l.length = x1.length := by
  cases x2 with
  | none => simp [MSE, MAE, RMSE, logSE, getValidError]
  | some x2 =>
    have := h x2 rfl
    simp [MSE, MAE, RMSE, logSE, getValidError, this]

end c45

section field
variable {K : Type} [Field K] [LinearOrder K] [IsStrictOrderedRing K]

theorem zipWith_sub_comm (x1 x2 : List K) :
    List.zipWith (· - ·) x2 x1 = (List.zipWith (· - ·) x1 x2).map fun a => -a := by
  induction x1 generalizing x2 with
  | nil => simp
  | cons a t ih => cases x2 with
    | nil => simp
    | cons b u => simp [ih u]

theorem zipWith_sub_add (x1 x2 : List K) (c : K) :
    List.zipWith (· - ·) (x1.map (· + c)) (x2.map (· + c)) = List.zipWith (· - ·) x1 x2 := by
  induction x1 generalizing x2 with
  | nil => simp
  | cons a t ih => cases x2 with
    | nil => simp
    | cons b u =>
      simp only [List.map_cons, List.zipWith_cons_cons, ih u, add_sub_add_right_eq_sub]

end field

section real

/-- C45: the measures are symmetric. -/
theorem C45_symmetric (x1 x2 : List ℝ) (f : String) :
    MSE x1 (some x2) = MSE x2 (some x1) ∧ MAE x1 (some x2) = MAE x2 (some x1) ∧
    RMSE x1 (some x2) = RMSE x2 (some x1) ∧ logSE x1 (some x2) = logSE x2 (some x1) ∧
    getMeanError x1 (some x2) f = getMeanError x2 (some x1) f := by
  by_cases h : x1.length = x2.length
  · have h1 : getValidError x1 (some x2) = .ok (List.zipWith (· - ·) x1 x2) := by simp [getValidError, h]
    have h2 : getValidError x2 (some x1) = .ok ((List.zipWith (· - ·) x1 x2).map fun a => -a) := by
      simp [getValidError, h, zipWith_sub_comm x1 x2]
    have hd : dotSelf ((List.zipWith (· - ·) x1 x2).map fun a => -a) = dotSelf (List.zipWith (· - ·) x1 x2) := by
      unfold dotSelf
      rw [List.map_map]
      congr 1
      exact List.map_congr_left fun a _ => neg_mul_neg a a
    have ha : ((List.zipWith (· - ·) x1 x2).map fun a : ℝ => -a).map Scalar.abs
        = (List.zipWith (· - ·) x1 x2).map Scalar.abs := by
      rw [List.map_map]
      congr 1
      funext a
      exact abs_neg a
    have k1 : MSE x1 (some x2) = MSE x2 (some x1) := by
      simp only [MSE, h1, h2, hd, List.length_map]
    have k2 : MAE x1 (some x2) = MAE x2 (some x1) := by
      simp only [MAE, h1, h2, ha, List.length_map]
    have k3 : RMSE x1 (some x2) = RMSE x2 (some x1) := by
      simp only [RMSE, h1, h2, hd, List.length_map]
    refine ⟨k1, k2, k3, ?_, by simp only [getMeanError, k1, k2, k3]⟩
    simp only [logSE, h1, h2, List.map_map, Function.comp_def, neg_mul_neg]
  · have h' := C45_lengths x1 x2 h f
    have h'' := C45_lengths x2 x1 (Ne.symm h) f
    rw [h'.1, h'.2.1, h'.2.2.1, h'.2.2.2.1, h'.2.2.2.2, h''.1, h''.2.1, h''.2.2.1, h''.2.2.2.1, h''.2.2.2.2]
    simp

/-- C45: adding the same constant to both series changes nothing. -/
theorem C45_shift (x1 x2 : List ℝ) (c : ℝ) (f : String) :
    MSE (x1.map (· + c)) (some (x2.map (· + c))) = MSE x1 (some x2) ∧
    MAE (x1.map (· + c)) (some (x2.map (· + c))) = MAE x1 (some x2) ∧
    RMSE (x1.map (· + c)) (some (x2.map (· + c))) = RMSE x1 (some x2) ∧
    logSE (x1.map (· + c)) (some (x2.map (· + c))) = logSE x1 (some x2) ∧
    getMeanError (x1.map (· + c)) (some (x2.map (· + c))) f = getMeanError x1 (some x2) f := by
  have : getValidError (x1.map (· + c)) (some (x2.map (· + c))) = getValidError x1 (some x2) := by
    simp [getValidError, zipWith_sub_add]
  simp only [MSE, MAE, RMSE, logSE, getMeanError, this]
  exact ⟨trivial, trivial, trivial, trivial, trivial⟩

/-! ## Specification: the measures as sums over the index -/

theorem exists_ofFn {α : Type} (l : List α) : ∃ (N : ℕ) (f : Fin N → α), l = List.ofFn f ∧ l.length = N :=
  ⟨l.length, fun i => l[i], by simp [List.ofFn_getElem], rfl⟩

theorem MSE_ofFn {N : ℕ} (e : Fin N → ℝ) : MSE (List.ofFn e) none = .ok ((∑ i, e i ^ 2) / N) := by
  simp [MSE, getValidError, dotSelf, List.map_ofFn, List.sum_ofFn, Scalar.nat, pow_two]

theorem MAE_ofFn {N : ℕ} (e : Fin N → ℝ) : MAE (List.ofFn e) none = .ok ((∑ i, |e i|) / N) := by
  simp [MAE, getValidError, List.map_ofFn, List.sum_ofFn, Scalar.nat, Scalar.abs]

theorem RMSE_ofFn {N : ℕ} (e : Fin N → ℝ) : RMSE (List.ofFn e) none = .ok (Real.sqrt ((∑ i, e i ^ 2) / N)) := by
  simp [RMSE, getValidError, dotSelf, List.map_ofFn, List.sum_ofFn, Scalar.nat, pow_two, Transc.sqrt]

/-! ## C46 -/

/-- C46: the squared and absolute measures are non-negative. -/
theorem C46_nonneg (x1 : List ℝ) (x2 : Option (List ℝ)) (a : ℝ) :
    (MSE x1 x2 = .ok a → 0 ≤ a) ∧ (MAE x1 x2 = .ok a → 0 ≤ a) ∧ (RMSE x1 x2 = .ok a → 0 ≤ a) := by
  unfold MSE MAE RMSE
  cases getValidError x1 x2 with
  | error e => simp
  | ok e =>
    obtain ⟨N, f, rfl, hN⟩ := exists_ofFn e
    have h1 := MSE_ofFn f
    have h2 := MAE_ofFn f
    have h3 := RMSE_ofFn f
    simp only [MSE, MAE, RMSE, getValidError] at h1 h2 h3
    simp only [h1, h2, h3, Except.ok.injEq]
    refine ⟨?_, ?_, ?_⟩ <;> rintro rfl <;> positivity

/-- C46: for a non-empty error series each measure is 0 exactly if every error is 0. -/
theorem C46_definite (e : List ℝ) (hne : e ≠ []) :
    (MSE e none = .ok 0 ↔ ∀ a ∈ e, a = 0) ∧ (MAE e none = .ok 0 ↔ ∀ a ∈ e, a = 0) ∧
    (RMSE e none = .ok 0 ↔ ∀ a ∈ e, a = 0) := by
  obtain ⟨N, f, rfl, hN⟩ := exists_ofFn e
  have hN0 : (N : ℝ) ≠ 0 := by
    intro h
    have : N = 0 := by exact_mod_cast h
    subst this
    exact hne rfl
  have hmem : (∀ a ∈ List.ofFn f, a = 0) ↔ ∀ i, f i = 0 := by simp [List.mem_ofFn]
  have hsq : (∑ i, f i ^ 2) / N = 0 ↔ ∀ i, f i = 0 := by
    rw [div_eq_zero_iff, or_iff_left hN0, Finset.sum_eq_zero_iff_of_nonneg (fun i _ => sq_nonneg _)]
    simp
  rw [hmem, MSE_ofFn, MAE_ofFn, RMSE_ofFn]
  refine ⟨by simpa using hsq, ?_, ?_⟩
  · rw [Except.ok.injEq, div_eq_zero_iff, or_iff_left hN0,
      Finset.sum_eq_zero_iff_of_nonneg (fun i _ => abs_nonneg _)]
    simp
  · rw [Except.ok.injEq, Real.sqrt_eq_zero (by positivity), hsq]

/-- C46: on two series: each measure is 0 exactly if the series are equal. -/
theorem C46_zero_iff_equal (x1 x2 : List ℝ) (h : x1.length = x2.length) (hne : x1 ≠ []) :
    (MSE x1 (some x2) = .ok 0 ↔ x1 = x2) ∧ (MAE x1 (some x2) = .ok 0 ↔ x1 = x2) ∧ (RMSE x1 (some x2) = .ok 0 ↔ x1 = x2) := by
  obtain ⟨h1, h2, h3, -, -⟩ := C45_difference x1 x2 h "MSE"
  have hz : List.zipWith (· - ·) x1 x2 ≠ [] := by
    intro hc
    have := congrArg List.length hc
    rw [List.length_zipWith, ← h, Nat.min_self] at this
    exact hne (List.length_eq_zero_iff.mp this)
  obtain ⟨k1, k2, k3⟩ := C46_definite _ hz
  have : (∀ a ∈ List.zipWith (· - ·) x1 x2, a = 0) ↔ x1 = x2 := by
    clear h1 h2 h3 hz k1 k2 k3 hne
    induction x1 generalizing x2 with
    | nil => cases x2 with
      | nil => simp
      | cons b u => simp at h
    | cons a t ih => cases x2 with
      | nil => simp at h
      | cons b u =>
        have := ih u (by simpa using h)
        simp [sub_eq_zero, this]
  rw [h1, h2, h3, k1, k2, k3, this]
  exact ⟨Iff.rfl, Iff.rfl, Iff.rfl⟩

/-- C46: multiplying all errors by `c` multiplies MSE by `c^2`, MAE and RMSE by `|c|`. -/
theorem C46_scale (e : List ℝ) (c m a r : ℝ) (hm : MSE e none = .ok m) (ha : MAE e none = .ok a)
    (hr : RMSE e none = .ok r) :
    MSE (e.map (c * ·)) none = .ok (c ^ 2 * m) ∧ MAE (e.map (c * ·)) none = .ok (|c| * a) ∧
    RMSE (e.map (c * ·)) none = .ok (|c| * r) := by
  obtain ⟨N, f, rfl, hN⟩ := exists_ofFn e
  rw [MSE_ofFn, Except.ok.injEq] at hm
  rw [MAE_ofFn, Except.ok.injEq] at ha
  rw [RMSE_ofFn, Except.ok.injEq] at hr
  subst hm ha hr
  rw [List.map_ofFn, MSE_ofFn, MAE_ofFn, RMSE_ofFn]
  have hs : (∑ i, ((c * ·) ∘ f) i ^ 2) / (N : ℝ) = c ^ 2 * ((∑ i, f i ^ 2) / N) := by
    simp only [Function.comp_apply, mul_pow, ← Finset.mul_sum, mul_div_assoc]
  refine ⟨by rw [hs], ?_, ?_⟩
  · simp only [Function.comp_apply, abs_mul, ← Finset.mul_sum, mul_div_assoc]
  · rw [hs, Real.sqrt_mul (sq_nonneg c), Real.sqrt_sq_eq_abs]

/-! ## C47 -/

/-- C47: `RMSE^2 = MSE`. -/
theorem C47_square (x1 : List ℝ) (x2 : Option (List ℝ)) (r : ℝ) (hr : RMSE x1 x2 = .ok r) : MSE x1 x2 = .ok (r ^ 2) := by
  unfold RMSE at hr
  unfold MSE
  cases h : getValidError x1 x2 with
  | error e => rw [h] at hr; cases hr
  | ok e =>
    rw [h] at hr
    simp only [Except.ok.injEq] at hr ⊢
    subst hr
    refine (Real.sq_sqrt ?_).symm
    refine div_nonneg (List.sum_nonneg ?_) (Nat.cast_nonneg _)
    intro a ha
    obtain ⟨b, -, rfl⟩ := List.mem_map.mp ha
    exact mul_self_nonneg b

/-- C47: `MAE <= RMSE`, `RMSE <= M` for every bound `M` of the absolute errors, and every absolute error is `<= sqrt(N) RMSE`. -/
theorem C47_order (e : List ℝ) (hne : e ≠ []) (a r : ℝ) (ha : MAE e none = .ok a) (hr : RMSE e none = .ok r) :
    a ≤ r ∧ (∀ M, (∀ x ∈ e, |x| ≤ M) → r ≤ M) ∧ ∀ x ∈ e, |x| ≤ Real.sqrt e.length * r := by
  obtain ⟨N, f, rfl, hN⟩ := exists_ofFn e
  have hN1 : 0 < N := by
    rcases Nat.eq_zero_or_pos N with h | h
    · subst h; exact absurd rfl hne
    · exact h
  have hN0 : (0 : ℝ) < N := by exact_mod_cast hN1
  rw [MAE_ofFn, Except.ok.injEq] at ha
  rw [RMSE_ofFn, Except.ok.injEq] at hr
  subst ha hr
  refine ⟨?_, ?_, ?_⟩
  · apply Real.le_sqrt_of_sq_le
    rw [div_pow, div_le_div_iff₀ (by positivity) hN0]
    have := sq_sum_le_card_mul_sum_sq (s := Finset.univ) (f := fun i => |f i|)
    simp only [Finset.card_univ, Fintype.card_fin, sq_abs] at this
    nlinarith [this]
  · intro M hM
    have hM0 : 0 ≤ M := (abs_nonneg _).trans (hM (f ⟨0, hN1⟩) (List.mem_ofFn.mpr ⟨_, rfl⟩))
    apply Real.sqrt_le_iff.mpr ⟨hM0, ?_⟩
    rw [div_le_iff₀ hN0]
    calc ∑ i, f i ^ 2 ≤ ∑ _i : Fin N, M ^ 2 := by
          refine Finset.sum_le_sum fun i _ => ?_
          rw [← sq_abs]
          exact pow_le_pow_left₀ (abs_nonneg _) (hM _ (List.mem_ofFn.mpr ⟨i, rfl⟩)) 2
      _ = M ^ 2 * N := by simp [mul_comm]
  · intro x hx
    obtain ⟨i, rfl⟩ := List.mem_ofFn.mp hx
    rw [List.length_ofFn, ← Real.sqrt_mul (Nat.cast_nonneg N), mul_div_cancel₀ _ hN0.ne']
    apply Real.abs_le_sqrt
    exact Finset.single_le_sum (f := fun i => f i ^ 2) (fun j _ => sq_nonneg _) (Finset.mem_univ i)

/-! ## C48 -/

/-- C48: triangle inequality for RMSE and MAE. -/
theorem C48_triangle (x y z : List ℝ) (hxy : x.length = y.length) (hyz : y.length = z.length) :
    (∃ a b c, RMSE x (some z) = .ok a ∧ RMSE x (some y) = .ok b ∧ RMSE y (some z) = .ok c ∧ a ≤ b + c) ∧
    (∃ a b c, MAE x (some z) = .ok a ∧ MAE x (some y) = .ok b ∧ MAE y (some z) = .ok c ∧ a ≤ b + c) := by
  obtain ⟨N, f, rfl, hN⟩ := exists_ofFn x
  obtain ⟨N', g, rfl, hN'⟩ := exists_ofFn y
  obtain ⟨N'', h, rfl, hN''⟩ := exists_ofFn z
  rw [List.length_ofFn, List.length_ofFn] at hxy hyz
  subst hxy hyz
  have hz : ∀ u v : Fin N → ℝ, List.zipWith (· - ·) (List.ofFn u) (List.ofFn v) = List.ofFn fun i => u i - v i := by
    intro u v; apply List.ext_getElem <;> simp
  have hR : ∀ u v : Fin N → ℝ, RMSE (List.ofFn u) (some (List.ofFn v)) = .ok (Real.sqrt ((∑ i, (u i - v i) ^ 2) / N)) := by
    intro u v
    rw [(C45_difference _ _ (by simp) "").2.2.1, hz, RMSE_ofFn]
  have hA : ∀ u v : Fin N → ℝ, MAE (List.ofFn u) (some (List.ofFn v)) = .ok ((∑ i, |u i - v i|) / N) := by
    intro u v
    rw [(C45_difference _ _ (by simp) "").2.1, hz, MAE_ofFn]
  refine ⟨⟨_, _, _, hR _ _, hR _ _, hR _ _, ?_⟩, ⟨_, _, _, hA _ _, hA _ _, hA _ _, ?_⟩⟩
  · rw [Real.sqrt_div' _ (Nat.cast_nonneg N), Real.sqrt_div' _ (Nat.cast_nonneg N),
      Real.sqrt_div' _ (Nat.cast_nonneg N), ← add_div]
    refine div_le_div_of_nonneg_right ?_ (Real.sqrt_nonneg _)
    have key : ∀ u v : Fin N → ℝ, Real.sqrt (∑ i, (u i - v i) ^ 2) = dist (WithLp.toLp 2 u : EuclideanSpace ℝ (Fin N)) (WithLp.toLp 2 v) := by
      intro u v
      rw [EuclideanSpace.dist_eq]
      simp [Real.dist_eq]
    rw [key, key, key]
    exact dist_triangle _ _ _
  · rw [← add_div]
    refine div_le_div_of_nonneg_right ?_ (Nat.cast_nonneg N)
    rw [← Finset.sum_add_distrib]
    exact Finset.sum_le_sum fun i _ => abs_sub_le _ _ _

/-- the hypotheses of C46-C48 are met -/
example : ([3, -4] : List ℝ) ≠ [] ∧ MAE ([3, -4] : List ℝ) none = .ok (7 / 2) ∧
    RMSE ([3, -4] : List ℝ) none = .ok (Real.sqrt (25 / 2)) := by
  refine ⟨by simp, ?_, ?_⟩
  · simp [MAE, getValidError, Scalar.abs, Scalar.nat]; norm_num
  · simp [RMSE, getValidError, dotSelf, Scalar.nat, Transc.sqrt]; norm_num

end real

/-! ## C49 -/

/-- C49: `get_mean_error` is MSE, MAE, RMSE for exactly these three names and raises `ValueError` for every other name. -/
theorem C49_dispatch {K : Type} [Transc K] (x1 : List K) (x2 : Option (List K)) :
    getMeanError x1 x2 "MSE" = MSE x1 x2 ∧ getMeanError x1 x2 "MAE" = MAE x1 x2 ∧
    getMeanError x1 x2 "RMSE" = RMSE x1 x2 ∧
    ∀ f, f ∉ ["MSE", "MAE", "RMSE"] → getMeanError x1 x2 f = .error .valueError := by
  refine ⟨by simp [getMeanError], by simp [getMeanError], by simp [getMeanError], fun f hf => ?_⟩
  simp only [List.mem_cons, not_or] at hf
  simp [getMeanError, hf.1, hf.2.1, hf.2.2.1]

/-- C49: in particular lower case names and `logSE` are rejected, even for equal lengths. -/
theorem C49_rejected {K : Type} [Transc K] (x1 : List K) (x2 : Option (List K)) :
    getMeanError x1 x2 "logSE" = .error .valueError ∧ getMeanError x1 x2 "mse" = .error .valueError :=
  ⟨(C49_dispatch x1 x2).2.2.2 _ (by decide), (C49_dispatch x1 x2).2.2.2 _ (by decide)⟩

/-! ## C50 -/

/-- C50: in extended real arithmetic (`np.log10(0) = -inf`) the entry of `logSE` for the error `a` is `20 log10 |a|` if `a != 0` and
`-inf` if `a = 0`. -/
theorem C50_value (e : List ℝ) :
    logSE (e.map Real.toEReal) none
      = .ok (e.map fun a => if a = 0 then ⊥ else ((20 * (Real.log |a| / Real.log 10) : ℝ) : EReal)) := by
  simp only [logSE, getValidError, List.map_map, Except.ok.injEq]
  refine List.map_congr_left fun a _ => ?_
  simp only [Function.comp_apply, Scalar.nat, Transc.log10]
  by_cases h : a = 0
  · subst h
    have : ((10 : ℕ) : ℝ) = 10 := by norm_num
    rw [if_pos (by simp), if_pos rfl, this]
    exact EReal.coe_mul_bot_of_pos (by norm_num)
  · have h1 : (a : EReal) * a = ((a * a : ℝ) : EReal) := (EReal.coe_mul a a).symm
    rw [h1, if_neg, if_neg (EReal.coe_ne_top _), if_neg h, EReal.toReal_coe, ← EReal.coe_mul]
    · congr 1
      have : Real.log (a * a) = 2 * Real.log |a| := by
        rw [Real.log_abs, Real.log_mul h h]; ring
      rw [this]; push_cast; ring
    · rw [← EReal.coe_zero, EReal.coe_eq_coe_iff]
      exact mul_self_ne_zero.mpr h

/-- C50: multiplying the errors by 10 adds 20 dB to every entry (also to `-inf`). -/
theorem C50_twenty_db (e : List ℝ) (l : List EReal) (h : logSE (e.map Real.toEReal) none = .ok l) :
    logSE ((e.map fun a => 10 * a).map Real.toEReal) none = .ok (l.map (· + ((20 : ℝ) : EReal))) := by
  rw [C50_value, Except.ok.injEq] at h
  subst h
  rw [C50_value, List.map_map, List.map_map, Except.ok.injEq]
  refine List.map_congr_left fun a _ => ?_
  simp only [Function.comp_apply]
  by_cases h : a = 0
  · simp [h]
  · rw [if_neg (by simp [h]), if_neg h, ← EReal.coe_add, EReal.coe_eq_coe_iff, abs_mul,
      Real.log_mul (by norm_num) (by simpa using h), abs_of_pos (by norm_num : (0 : ℝ) < 10)]
    have : Real.log 10 ≠ 0 := (Real.log_pos (by norm_num)).ne'
    field_simp
    ring

end Padasip
