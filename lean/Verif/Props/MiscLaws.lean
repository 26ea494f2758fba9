import Verif.Model.MiscArg
import Verif.Props.Misc

/-!
# C115, C116: laws of the error measures; numbers as arguments
-/

set_option linter.unusedSectionVars false
set_option linter.unusedSimpArgs false
set_option linter.unusedVariables false

namespace Padasip

open Finset

/-! ## C115 -/

theorem MSE_list (e : List ℝ) : MSE e none = .ok ((e.map fun a => a ^ 2).sum / e.length) := by
  simp [MSE, getValidError, dotSelf, Scalar.nat, pow_two]

theorem MAE_list (e : List ℝ) : MAE e none = .ok ((e.map fun a => |a|).sum / e.length) := by
  simp [MAE, getValidError, Scalar.nat]; rfl

theorem RMSE_list (e : List ℝ) : RMSE e none = .ok (Real.sqrt ((e.map fun a => a ^ 2).sum / e.length)) := by
  simp [RMSE, getValidError, dotSelf, Scalar.nat, pow_two, -Real.sqrt_div', -Nat.cast_nonneg]; rfl

/-- C115: evaluating two pieces of a series and combining the results weighted by length equals evaluating the whole (squares and absolute values; for `RMSE` the squares combine). -/
theorem C115_concat (x x' y y' : List ℝ) (h : x.length = y.length) (h' : x'.length = y'.length) (hx : x ≠ []) (hx' : x' ≠ []) :
    ∃ m m' a a' r r' : ℝ,
      MSE x (some y) = .ok m ∧ MSE x' (some y') = .ok m' ∧
      MSE (x ++ x') (some (y ++ y')) = .ok ((x.length * m + x'.length * m') / (x.length + x'.length)) ∧
      MAE x (some y) = .ok a ∧ MAE x' (some y') = .ok a' ∧
      MAE (x ++ x') (some (y ++ y')) = .ok ((x.length * a + x'.length * a') / (x.length + x'.length)) ∧
      RMSE x (some y) = .ok r ∧ RMSE x' (some y') = .ok r' ∧
      RMSE (x ++ x') (some (y ++ y')) = .ok (Real.sqrt ((x.length * r ^ 2 + x'.length * r' ^ 2) / (x.length + x'.length))) := by
  have hl : (x ++ x').length = (y ++ y').length := by simp [h, h']
  obtain ⟨d1, d2, d3, -, -⟩ := C45_difference x y h "MSE"
  obtain ⟨d1', d2', d3', -, -⟩ := C45_difference x' y' h' "MSE"
  obtain ⟨c1, c2, c3, -, -⟩ := C45_difference (x ++ x') (y ++ y') hl "MSE"
  rw [d1, d2, d3, d1', d2', d3', c1, c2, c3, List.zipWith_append h]
  have hn : (0 : ℝ) < x.length := by exact_mod_cast List.length_pos_iff.mpr hx
  have hn' : (0 : ℝ) < x'.length := by exact_mod_cast List.length_pos_iff.mpr hx'
  set e := List.zipWith (fun a b : ℝ => a - b) x y with he
  set e' := List.zipWith (fun a b : ℝ => a - b) x' y' with he'
  have hle : e.length = x.length := by simp [he, h]
  have hle' : e'.length = x'.length := by simp [he', h']
  have hpos : ∀ l : List ℝ, 0 ≤ (l.map fun a => a ^ 2).sum := fun l => List.sum_nonneg (by
    intro b hb; simp only [List.mem_map] at hb; obtain ⟨c, -, rfl⟩ := hb; positivity)
  simp only [MSE_list, MAE_list, RMSE_list, List.map_append, List.sum_append, List.length_append, hle, hle']
  refine ⟨_, _, _, _, _, _, rfl, rfl, ?_, rfl, rfl, ?_, rfl, rfl, ?_⟩
  · congr 1; push_cast; field_simp
  · congr 1; push_cast; field_simp
  · rw [Real.sq_sqrt (div_nonneg (hpos _) hn.le), Real.sq_sqrt (div_nonneg (hpos _) hn'.le)]
    congr 2; push_cast; field_simp

/-- C115: the measures do not depend on the order of the samples: pairing the same values in another order gives the same results. -/
theorem C115_permute (x x' y y' : List ℝ) (h : x.length = y.length) (h' : x'.length = y'.length) (hp : (x.zip y).Perm (x'.zip y')) (f : String) :
    MSE x (some y) = MSE x' (some y') ∧ MAE x (some y) = MAE x' (some y') ∧ RMSE x (some y) = RMSE x' (some y') ∧
    getMeanError x (some y) f = getMeanError x' (some y') f := by
  obtain ⟨d1, d2, d3, -, d4⟩ := C45_difference x y h f
  obtain ⟨d1', d2', d3', -, d4'⟩ := C45_difference x' y' h' f
  have hz : ∀ x y : List ℝ, List.zipWith (fun a b : ℝ => a - b) x y = (x.zip y).map fun p => p.1 - p.2 := by
    intro x y; rw [List.zip, List.map_zipWith]
  have he : (List.zipWith (fun a b : ℝ => a - b) x y).Perm (List.zipWith (fun a b : ℝ => a - b) x' y') := by
    rw [hz, hz]; exact hp.map _
  have e1 : MSE x (some y) = MSE x' (some y') := by
    rw [d1, d1', MSE_list, MSE_list, (he.map _).sum_eq, he.length_eq]
  have e2 : MAE x (some y) = MAE x' (some y') := by
    rw [d2, d2', MAE_list, MAE_list, (he.map _).sum_eq, he.length_eq]
  have e3 : RMSE x (some y) = RMSE x' (some y') := by
    rw [d3, d3', RMSE_list, RMSE_list, (he.map _).sum_eq, he.length_eq]
  refine ⟨e1, e2, e3, ?_⟩
  unfold getMeanError
  rw [e1, e2, e3]

theorem MSE_pair {N : ℕ} (a b : Fin N → ℝ) : MSE (List.ofFn a) (some (List.ofFn b)) = .ok ((∑ i, (a i - b i) ^ 2) / N) := by
  have hz : List.zipWith (fun a b : ℝ => a - b) (List.ofFn a) (List.ofFn b) = List.ofFn fun i => a i - b i := by
    apply List.ext_getElem
    · simp
    · intro m h1 h2; simp
  rw [(C45_difference (List.ofFn a) (List.ofFn b) (by simp) "MSE").1, hz, MSE_ofFn]

theorem MAE_pair {N : ℕ} (a b : Fin N → ℝ) : MAE (List.ofFn a) (some (List.ofFn b)) = .ok ((∑ i, |a i - b i|) / N) := by
  have hz : List.zipWith (fun a b : ℝ => a - b) (List.ofFn a) (List.ofFn b) = List.ofFn fun i => a i - b i := by
    apply List.ext_getElem
    · simp
    · intro m h1 h2; simp
  rw [(C45_difference (List.ofFn a) (List.ofFn b) (by simp) "MSE").2.1, hz, MAE_ofFn]

/-- C115: decomposition into bias and variance: `MSE(a, b)` is the square of the mean error plus the mean squared deviation of the errors from their mean. -/
theorem C115_bias_variance {N : ℕ} (hN : 0 < N) (a b : Fin N → ℝ) :
    ∃ m, m = (∑ i, (a i - b i)) / N ∧
      MSE (List.ofFn a) (some (List.ofFn b)) = .ok (m ^ 2 + (∑ i, ((a i - b i) - m) ^ 2) / N) := by
  have hN' : (N : ℝ) ≠ 0 := by exact_mod_cast hN.ne'
  refine ⟨_, rfl, ?_⟩
  rw [MSE_pair]
  congr 1
  set m := (∑ i, (a i - b i)) / N with hm
  have h1 : ∑ i, (a i - b i) = m * N := by rw [hm]; field_simp
  have h2 : ∑ i, ((a i - b i) - m) ^ 2 = ∑ i, (a i - b i) ^ 2 - 2 * m * ∑ i, (a i - b i) + N * m ^ 2 := by
    have : ∀ i, ((a i - b i) - m) ^ 2 = (a i - b i) ^ 2 - 2 * m * (a i - b i) + m ^ 2 := fun i => by ring
    rw [sum_congr rfl fun i _ => this i, sum_add_distrib, sum_sub_distrib, ← mul_sum]
    simp
  rw [h2, h1]
  field_simp
  ring

/-- C115: the constant prediction with the smallest `MSE` is the mean of the series, and no other. -/
theorem C115_best_constant_mse {N : ℕ} (hN : 0 < N) (a : Fin N → ℝ) (c : ℝ) :
    ∃ v w, MSE (List.ofFn a) (some (List.replicate N c)) = .ok v ∧
      MSE (List.ofFn a) (some (List.replicate N ((∑ i, a i) / N))) = .ok w ∧ w ≤ v ∧ (v = w ↔ c = (∑ i, a i) / N) := by
  have hN' : (0 : ℝ) < N := by exact_mod_cast hN
  have hr : ∀ t : ℝ, List.replicate N t = List.ofFn fun _ : Fin N => t := fun t => (List.ofFn_const N t).symm
  rw [hr, hr, MSE_pair, MSE_pair]
  refine ⟨_, _, rfl, rfl, ?_⟩
  set m := (∑ i, a i) / N with hm
  have h1 : ∑ i, a i = m * N := by rw [hm]; field_simp
  have h2 : ∀ t, ∑ i, (a i - t) ^ 2 = ∑ i, (a i - m) ^ 2 + N * (t - m) ^ 2 := by
    intro t
    have h3 : ∀ s : ℝ, ∑ i, (a i - s) ^ 2 = ∑ i, a i ^ 2 - 2 * s * (m * N) + N * s ^ 2 := by
      intro s
      have : ∀ i, (a i - s) ^ 2 = a i ^ 2 - 2 * s * a i + s ^ 2 := fun i => by ring
      rw [sum_congr rfl fun i _ => this i, sum_add_distrib, sum_sub_distrib, ← mul_sum, h1]
      simp
    rw [h3, h3]; ring
  rw [h2 c]
  have h4 : (∑ i, (a i - m) ^ 2 + N * (c - m) ^ 2) / N = (∑ i, (a i - m) ^ 2) / N + (c - m) ^ 2 := by
    field_simp
  rw [h4]
  refine ⟨by linarith [sq_nonneg (c - m)], ?_, ?_⟩
  · intro h
    have : (c - m) ^ 2 = 0 := by linarith
    have := pow_eq_zero_iff (two_ne_zero) |>.mp this
    linarith
  · intro h; rw [h]; ring

/-- C115: a constant `c` such that at most half of the values are below and at most half above it (a median) has the smallest `MAE` of all constant predictions. -/
theorem C115_best_constant_mae {N : ℕ} (hN : 0 < N) (a : Fin N → ℝ) (c : ℝ)
    (hlo : 2 * (univ.filter fun i => a i < c).card ≤ N) (hhi : 2 * (univ.filter fun i => c < a i).card ≤ N) (t : ℝ) :
    ∃ v w, MAE (List.ofFn a) (some (List.replicate N t)) = .ok v ∧ MAE (List.ofFn a) (some (List.replicate N c)) = .ok w ∧ w ≤ v := by
  have hN' : (0 : ℝ) < N := by exact_mod_cast hN
  have hr : ∀ t : ℝ, List.replicate N t = List.ofFn fun _ : Fin N => t := fun t => (List.ofFn_const N t).symm
  rw [hr, hr, MAE_pair, MAE_pair]
  refine ⟨_, _, rfl, rfl, ?_⟩
  refine div_le_div_of_nonneg_right ?_ hN'.le
  -- `|a - t| >= |a - c| + s (t - c)` with `s = 1` for values not above `c` (if `t >= c`), `-1` for the others
  rcases le_total c t with hct | hct
  · have h1 : ∀ i, |a i - c| + (if c < a i then -(t - c) else (t - c)) ≤ |a i - t| := by
      intro i
      split
      · rename_i h
        rw [abs_of_pos (by linarith : 0 < a i - c)]
        linarith [le_abs_self (a i - t)]
      · rename_i h
        rw [not_lt] at h
        rw [abs_of_nonpos (by linarith : a i - c ≤ 0)]
        linarith [neg_le_abs (a i - t)]
    have h2 := sum_le_sum fun i (_ : i ∈ univ) => h1 i
    rw [sum_add_distrib] at h2
    have h3 : 0 ≤ ∑ i, (if c < a i then -(t - c) else (t - c)) := by
      rw [sum_ite, sum_const, sum_const, nsmul_eq_mul, nsmul_eq_mul]
      have hcard : (univ.filter fun i => c < a i).card + (univ.filter fun i => ¬ c < a i).card = N := by
        rw [card_filter_add_card_filter_not]; simp
      have : ((univ.filter fun i => c < a i).card : ℝ) ≤ (univ.filter fun i => ¬ c < a i).card := by
        exact_mod_cast (by omega : (univ.filter fun i => c < a i).card ≤ (univ.filter fun i => ¬ c < a i).card)
      nlinarith
    linarith
  · have h1 : ∀ i, |a i - c| + (if a i < c then -(c - t) else (c - t)) ≤ |a i - t| := by
      intro i
      split
      · rename_i h
        rw [abs_of_neg (by linarith : a i - c < 0)]
        linarith [neg_le_abs (a i - t)]
      · rename_i h
        rw [not_lt] at h
        rw [abs_of_nonneg (by linarith : 0 ≤ a i - c)]
        linarith [le_abs_self (a i - t)]
    have h2 := sum_le_sum fun i (_ : i ∈ univ) => h1 i
    rw [sum_add_distrib] at h2
    have h3 : 0 ≤ ∑ i, (if a i < c then -(c - t) else (c - t)) := by
      rw [sum_ite, sum_const, sum_const, nsmul_eq_mul, nsmul_eq_mul]
      have hcard : (univ.filter fun i => a i < c).card + (univ.filter fun i => ¬ a i < c).card = N := by
        rw [card_filter_add_card_filter_not]; simp
      have : ((univ.filter fun i => a i < c).card : ℝ) ≤ (univ.filter fun i => ¬ a i < c).card := by
        exact_mod_cast (by omega : (univ.filter fun i => a i < c).card ≤ (univ.filter fun i => ¬ a i < c).card)
      nlinarith
    linarith

/-- the median condition is met: the median of 1, 2, 10 is 2 -/
example : 2 * ((univ : Finset (Fin 3)).filter fun i => (![1, 2, 10] : Fin 3 → ℚ) i < 2).card ≤ 3 ∧
    2 * ((univ : Finset (Fin 3)).filter fun i => (2 : ℚ) < (![1, 2, 10] : Fin 3 → ℚ) i).card ≤ 3 := by decide +kernel

/-! ## C116 -/

section arg
variable {K : Type} [Transc K]

/-- C116: get_valid_error called with one argument returns it as it is, a series or a number (`.inr`: an array without dimensions). -/
theorem C116_valid_error (a : List K) (c : K) (z : ℤ) :
    getValidErrorArg (.series a) = .ok (.inl a) ∧ getValidErrorArg (K := K) (.number c) = .ok (.inr ()) ∧
    getValidErrorArg (K := K) (.int z) = .ok (.inr ()) := ⟨rfl, rfl, rfl⟩

/-- C116: on series the functions are the ones of C45 to C48, with or without the second series. -/
theorem C116_series (a b : List K) :
    MSEarg (.series a) (.series b) = MSE a (some b) ∧ MAEarg (.series a) (.series b) = MAE a (some b) ∧ RMSEarg (.series a) (.series b) = RMSE a (some b) ∧
    MSEarg (.series a) = MSE a none ∧ MAEarg (.series a) = MAE a none ∧ RMSEarg (.series a) = RMSE a none := by
  have h : getValidErrorArg (.series a) (.series b) = (getValidError a (some b)).map Sum.inl := by
    simp only [getValidErrorArg, getValidError]
    split <;> rfl
  refine ⟨?_, ?_, ?_, rfl, rfl, rfl⟩
  · unfold MSEarg meanOf MSE; rw [h]; cases getValidError a (some b) <;> rfl
  · unfold MAEarg meanOf MAE; rw [h]; cases getValidError a (some b) <;> rfl
  · unfold RMSEarg meanOf RMSE; rw [h]; cases getValidError a (some b) <;> rfl

/-- C116: a Python integer as second argument: -1 is taken for "no second series", so `MSE(x, -1)` is `MSE(x)` and not the error with respect to -1; any other integer, and every other
number (also `-1.0`), raises `TypeError`. -/
theorem C116_number (a : List K) (z : ℤ) (c : K) :
    (MSEarg (.series a) (.int (-1)) = MSE a none ∧ MAEarg (.series a) (.int (-1)) = MAE a none ∧ RMSEarg (.series a) (.int (-1)) = RMSE a none) ∧
    (z ≠ -1 → MSEarg (.series a) (.int z) = .error .typeError ∧ MAEarg (.series a) (.int z) = .error .typeError ∧
      RMSEarg (.series a) (.int z) = .error .typeError) ∧
    MSEarg (.series a) (.number c) = .error .typeError ∧ MAEarg (.series a) (.number c) = .error .typeError ∧
    RMSEarg (.series a) (.number c) = .error .typeError := by
  refine ⟨⟨rfl, rfl, rfl⟩, fun hz => ?_, rfl, rfl, rfl⟩
  have h : getValidErrorArg (.series a) (.int z) = .error .typeError := by
    unfold getValidErrorArg
    split
    · rename_i h; cases h; exact absurd rfl hz
    · rename_i h; cases h
    · rfl
  exact ⟨by unfold MSEarg meanOf; rw [h], by unfold MAEarg meanOf; rw [h], by unfold RMSEarg meanOf; rw [h]⟩

/-- C116: a number as first argument is always a `TypeError`, whatever the second one. -/
theorem C116_first (x1 x2 : SeriesArg K) (h : ∀ l, x1 ≠ .series l) :
    MSEarg x1 x2 = .error .typeError ∧ MAEarg x1 x2 = .error .typeError ∧ RMSEarg x1 x2 = .error .typeError := by
  have key : ∀ f : List K → K, meanOf f x1 x2 = .error .typeError := by
    intro f
    have : getValidErrorArg x1 x2 = .ok (.inr ()) ∨ getValidErrorArg x1 x2 = .error .typeError := by
      unfold getValidErrorArg
      split
      · split
        · exact absurd rfl (h _)
        · exact Or.inl rfl
      · split
        · exact absurd rfl (h _)
        · exact Or.inr rfl
      · exact Or.inr rfl
    unfold meanOf
    rcases this with h | h <;> rw [h]
  exact ⟨key _, key _, key _⟩

end arg

/-- C116: the wrong value: the error of the series 1, 3 with respect to -1 would be 10, `MSE([1, 3], -1)` returns 5. -/
theorem C116_trap : MSEarg (K := ℝ) (.series [1, 3]) (.int (-1)) = .ok 5 ∧ MSEarg (K := ℝ) (.series [1, 3]) (.series [-1, -1]) = .ok 10 := by
  constructor
  · rw [(C116_number (K := ℝ) [1, 3] 0 0).1.1, MSE_list]; norm_num
  · rw [(C116_series (K := ℝ) [1, 3] [-1, -1]).1, (C45_difference (K := ℝ) [1, 3] [-1, -1] rfl "MSE").1]
    show MSE [1 - -1, 3 - -1] none = _
    rw [MSE_list]; norm_num

end Padasip
