import Verif.Model.Preprocess
import Verif.Model.Real
import Mathlib.Algebra.BigOperators.Ring.Finset

/-!
# C53-C56: sliding windows and standardisation
-/

set_option linter.unusedSectionVars false
set_option linter.unusedSimpArgs false

namespace Padasip

/-! ## C53 -/

section c53
variable {K : Type} [Scalar K]

/-- Specification: `rows` is the sliding-window matrix of `a` with windows of length `n`. -/
def IsWindows (a : List K) (n : ℕ) (rows : List (List K)) : Prop :=
  rows.length = a.length - n + 1 ∧ (∀ r ∈ rows, r.length = n) ∧
  ∀ i j, i < a.length - n + 1 → j < n → (rows[i]?.bind fun r => r[j]?) = a[i + j]?

theorem ifh_windows (a : List K) (n : ℕ) (h2 : n ≤ a.length) :
    IsWindows a n ((List.range (a.length - n + 1)).map fun i => (a.drop i).take n) := by
  refine ⟨by simp, ?_, ?_⟩
  · intro r hr
    obtain ⟨i, hi, rfl⟩ := List.mem_map.mp hr
    rw [List.mem_range] at hi
    rw [List.length_take, List.length_drop]
    omega
  · intro i j hi hj
    rw [List.getElem?_map, List.getElem?_range hi]
    simp only [Option.map_some, Option.bind_some]
    rw [List.getElem?_take_of_lt hj, List.getElem?_drop]

/-- C53: for `1 <= n <= len(a)` the result is the 2-d array with `n` columns whose rows are the `len(a)-n+1` windows
`a[i], ..., a[i+n-1]`; with `bias` a last column of ones is appended and nothing else changes. -/
theorem C53_windows (a : List K) (n : ℕ) (h1 : 1 ≤ n) (h2 : n ≤ a.length) :
    ∃ rows, IsWindows a n rows ∧
      inputFromHistory a (.int n) false = .ok (.two n rows) ∧
      inputFromHistory a (.int n) true = .ok (.two (n + 1) (rows.map fun r => r ++ [1])) := by
  refine ⟨_, ifh_windows a n h2, ?_⟩
  have hc : ((a.length : ℤ) - n + 1).toNat = (a.length - n) + 1 := by omega
  have hr : ∀ f : ℕ → List K, arrayOfRows n ((List.range (a.length - n + 1)).map f)
      = .two n ((List.range (a.length - n + 1)).map f) := by
    intro f
    rw [List.range_succ_eq_map]
    rfl
  have hpos : (n : ℤ) > 0 := by omega
  simp only [inputFromHistory, hpos, not_true_eq_false, if_false, hc, Int.toNat_natCast, hr, appendOnes, if_true,
    Bool.false_eq_true]
  exact ⟨trivial, trivial⟩

/-- the windows determine the series: its first window, then the last entry of each further window -/
theorem windows_reconstruct {a : List K} {n : ℕ} {rows : List (List K)} (h : IsWindows a n rows) (h1 : 1 ≤ n)
    (h2 : n ≤ a.length) (i : ℕ) (hi : i < a.length) :
    a[i]? = if i < n then rows[0]?.bind fun r => r[i]? else rows[i + 1 - n]?.bind fun r => r[n - 1]? := by
  split
  · rw [h.2.2 0 i (by omega) (by assumption), Nat.zero_add]
  · rw [h.2.2 (i + 1 - n) (n - 1) (by omega) (by omega)]
    congr 1; omega

/-- C53: the series can be reconstructed from the matrix: two series of equal length with the same matrix are equal. -/
theorem C53_injective (a a' : List K) (n : ℕ) (bias : Bool) (hl : a.length = a'.length) (h1 : 1 ≤ n) (h2 : n ≤ a.length)
    (h : inputFromHistory a (.int n) bias = inputFromHistory a' (.int n) bias) : a = a' := by
  obtain ⟨r, hr, e1, e2⟩ := C53_windows a n h1 h2
  obtain ⟨r', hr', e1', e2'⟩ := C53_windows a' n h1 (hl ▸ h2)
  have hrr : r = r' := by
    cases bias
    · rw [e1, e1'] at h
      cases h; rfl
    · rw [e2, e2'] at h
      have h3 := (NArr.two.inj (Except.ok.inj h)).2
      exact List.map_injective_iff.mpr (fun u v huv => (List.append_left_inj _).mp huv) h3
  subst hrr
  apply List.ext_getElem?
  intro i
  by_cases hi : i < a.length
  · rw [windows_reconstruct hr h1 h2 i hi, windows_reconstruct hr' h1 (hl ▸ h2) i (hl ▸ hi)]
  · rw [List.getElem?_eq_none (by omega), List.getElem?_eq_none (by omega)]

/-- C53: consecutive rows overlap in `n-1` entries: row `i+1` is row `i` without its first entry, plus one new entry. -/
theorem C53_overlap {a : List K} {n : ℕ} {rows : List (List K)} (h : IsWindows a n rows) (i j : ℕ)
    (hi : i + 1 < a.length - n + 1) (hj : j + 1 < n) :
    (rows[i + 1]?.bind fun r => r[j]?) = (rows[i]?.bind fun r => r[j + 1]?) := by
  rw [h.2.2 (i + 1) j hi (by omega), h.2.2 i (j + 1) (by omega) hj]
  congr 1; omega

/-- C53: the last column is `a[n-1:]`. -/
theorem C53_last_column {a : List K} {n : ℕ} {rows : List (List K)} (h : IsWindows a n rows) (h1 : 1 ≤ n)
    (h2 : n ≤ a.length) : (rows.map fun r => r[n - 1]?) = (a.drop (n - 1)).map some := by
  apply List.ext_getElem?
  intro i
  rw [List.getElem?_map, List.getElem?_map, List.getElem?_drop]
  by_cases hi : i < a.length - n + 1
  · have h3 := h.2.2 i (n - 1) hi (by omega)
    rw [Nat.add_comm (n - 1) i, ← h3]
    have hi' : i < rows.length := h.1 ▸ hi
    rw [List.getElem?_eq_getElem hi']
    simp only [Option.map_some, Option.bind_some]
    have : n - 1 < rows[i].length := by
      rw [h.2.1 _ (List.getElem_mem hi')]; omega
    rw [List.getElem?_eq_getElem this, Option.map_some]
  · rw [List.getElem?_eq_none (by rw [h.1]; omega), List.getElem?_eq_none (by omega)]
    rfl

example : (1 ≤ 2 ∧ 2 ≤ ([7, 8, 9] : List ℚ).length) ∧
    inputFromHistory ([7, 8, 9] : List ℚ) (.int 2) true = .ok (.two 3 [[7, 8, 1], [8, 9, 1]]) := by
  decide +kernel

/-! ## C54 -/

/-- C54: an `n` that is not an `int`, or is not positive, raises `ValueError`. -/
theorem C54_invalid (a : List K) (bias : Bool) :
    inputFromHistory a .other bias = .error .valueError ∧
    ∀ n : ℤ, n ≤ 0 → inputFromHistory a (.int n) bias = .error .valueError := by
  refine ⟨rfl, fun n hn => ?_⟩
  simp [inputFromHistory, hn]

/-- C54: a window longer than the series gives an empty 1-d array; with bias an array of shape `(0, 2)`, whatever `n` is. -/
theorem C54_too_long (a : List K) (n : ℕ) (h : a.length < n) :
    inputFromHistory a (.int n) false = .ok (.one []) ∧ inputFromHistory a (.int n) true = .ok (.two 2 []) := by
  have hc : ((a.length : ℤ) - n + 1).toNat = 0 := by omega
  have hpos : (n : ℤ) > 0 := by omega
  have hn : ¬ n = 0 := by omega
  simp [inputFromHistory, hpos, hc, arrayOfRows, appendOnes, hn]

/-- C54: these are the only outcomes: a valid `n` never raises. -/
theorem C54_total (a : List K) (n : ℤ) (bias : Bool) :
    (∃ x, inputFromHistory a (.int n) bias = .ok x) ↔ 0 < n := by
  by_cases h : n > 0 <;> simp [inputFromHistory, h]

end c53

/-! ## C55 -/

section c55
variable (x : List ℝ)

/-- C55: `standardize_back` undoes `standardize` with the same offset and scale. -/
theorem C55_back_of_standardize (a b : ℝ) (hb : b ≠ 0) :
    standardizeBack (standardize x (some a) (some b)) a b = x := by
  unfold standardizeBack standardize
  simp only [Option.getD_some, List.map_map]
  conv_rhs => rw [← List.map_id x]
  refine List.map_congr_left fun t _ => ?_
  simp only [Function.comp_apply, id]
  field_simp
  ring

/-- C55: `standardize` undoes `standardize_back` with the same offset and scale. -/
theorem C55_standardize_of_back (a b : ℝ) (hb : b ≠ 0) :
    standardize (standardizeBack x a b) (some a) (some b) = x := by
  unfold standardizeBack standardize
  simp only [Option.getD_some, List.map_map]
  conv_rhs => rw [← List.map_id x]
  refine List.map_congr_left fun t _ => ?_
  simp only [Function.comp_apply, id]
  field_simp
  ring

/-- C55: with the defaults, the inverse takes the mean and the standard deviation of the original series. -/
theorem C55_defaults (hs : stdL x ≠ 0) : standardizeBack (standardize x none none) (meanL x) (stdL x) = x :=
  C55_back_of_standardize x (meanL x) (stdL x) hs

/-- C55: both keep the length. -/
theorem C55_length (a b : Option ℝ) (o s : ℝ) :
    (standardize x a b).length = x.length ∧ (standardizeBack x o s).length = x.length := by
  simp [standardize, standardizeBack]

/-! ## C56 -/

theorem sum_affine (c o : ℝ) : ((x.map fun a => c * a + o).sum) = c * x.sum + x.length * o := by
  induction x with
  | nil => simp
  | cons a t ih => simp [ih]; ring

theorem mean_affine (hne : x ≠ []) (c o : ℝ) : meanL (x.map fun a => c * a + o) = c * meanL x + o := by
  have : (x.length : ℝ) ≠ 0 := by simpa [List.length_eq_zero_iff] using hne
  unfold meanL
  rw [sum_affine, List.length_map]
  show (c * x.sum + x.length * o) / (x.length : ℝ) = c * (x.sum / (x.length : ℝ)) + o
  field_simp

theorem std_affine (hne : x ≠ []) (c o : ℝ) : stdL (x.map fun a => c * a + o) = |c| * stdL x := by
  unfold stdL
  rw [mean_affine x hne, List.map_map]
  have : (x.map ((fun a => (a - (c * meanL x + o)) * (a - (c * meanL x + o))) ∘ fun a => c * a + o))
      = (x.map fun a => (a - meanL x) * (a - meanL x)).map fun a => c ^ 2 * a + 0 := by
    rw [List.map_map]
    refine List.map_congr_left fun a _ => ?_
    simp only [Function.comp_apply]; ring
  rw [this, mean_affine _ (by simpa using hne), add_zero]
  show Real.sqrt _ = |c| * Real.sqrt _
  rw [Real.sqrt_mul (sq_nonneg c), Real.sqrt_sq_eq_abs]

/-- C56: the standard deviation is 0 exactly if the series is constant (so only then is the default scale a division by zero). -/
theorem C56_std_zero_iff (hne : x ≠ []) : stdL x = 0 ↔ ∀ a ∈ x, ∀ b ∈ x, a = b := by
  have hN : (0 : ℝ) < x.length := by exact_mod_cast List.length_pos_iff.mpr hne
  have h1 : stdL x = 0 ↔ ∀ a ∈ x, a = meanL x := by
    have hnn : ∀ t ∈ x.map (fun a => (a - meanL x) * (a - meanL x)), (0 : ℝ) ≤ t := by
      intro t ht
      obtain ⟨a, -, rfl⟩ := List.mem_map.mp ht
      exact mul_self_nonneg _
    show Real.sqrt ((x.map fun a => (a - meanL x) * (a - meanL x)).sum
      / (((x.map fun a => (a - meanL x) * (a - meanL x)).length : ℕ) : ℝ)) = 0 ↔ _
    rw [Real.sqrt_eq_zero (div_nonneg (List.sum_nonneg hnn) (Nat.cast_nonneg _)), div_eq_zero_iff]
    rw [List.length_map]
    have : ¬ ((x.length : ℕ) : ℝ) = 0 := hN.ne'
    rw [or_iff_left this]
    constructor
    · intro hs a ha
      have := List.all_zero_of_le_zero_le_of_sum_eq_zero hnn hs (List.mem_map.mpr ⟨a, ha, rfl⟩)
      exact sub_eq_zero.mp (mul_self_eq_zero.mp this)
    · intro h
      apply List.sum_eq_zero
      intro t ht
      obtain ⟨a, ha, rfl⟩ := List.mem_map.mp ht
      simp [h a ha]
  rw [h1]
  constructor
  · intro h a ha b hb; rw [h a ha, h b hb]
  · intro h a ha
    have : x = List.replicate x.length a := List.eq_replicate_of_mem fun b hb => h b hb a ha
    have hm : meanL x = a := by
      rw [this]
      unfold meanL
      rw [List.sum_replicate, List.length_replicate]
      show x.length • a / (x.length : ℝ) = a
      rw [nsmul_eq_mul, mul_div_cancel_left₀ _ hN.ne']
    exact hm.symm

theorem standardize_eq_affine (hs : stdL x ≠ 0) :
    standardize x none none = x.map fun a => (stdL x)⁻¹ * a + -(meanL x / stdL x) := by
  unfold standardize
  refine List.map_congr_left fun a _ => ?_
  simp only [Option.getD_none]
  field_simp
  ring

/-- C56: for every non-constant series the default standardisation has mean 0 and standard deviation 1. -/
theorem C56_zero_mean_unit_std (a b : ℝ) (ha : a ∈ x) (hb : b ∈ x) (hab : a ≠ b) :
    meanL (standardize x none none) = 0 ∧ stdL (standardize x none none) = 1 := by
  have hne : x ≠ [] := List.ne_nil_of_mem ha
  have hs : stdL x ≠ 0 := fun h => hab ((C56_std_zero_iff x hne).mp h a ha b hb)
  have hpos : 0 < stdL x := lt_of_le_of_ne (Real.sqrt_nonneg _) (Ne.symm hs)
  rw [standardize_eq_affine x hs, mean_affine x hne, std_affine x hne, abs_of_pos (inv_pos.mpr hpos)]
  constructor
  · field_simp; ring
  · exact inv_mul_cancel₀ hs

/-- C56: standardising twice is standardising once. -/
theorem C56_idempotent (a b : ℝ) (ha : a ∈ x) (hb : b ∈ x) (hab : a ≠ b) :
    standardize (standardize x none none) none none = standardize x none none := by
  obtain ⟨h1, h2⟩ := C56_zero_mean_unit_std x a b ha hb hab
  conv_lhs => unfold standardize
  simp only [Option.getD_none]
  rw [show meanL (x.map fun a => (a - meanL x) / stdL x) = 0 from h1,
    show stdL (x.map fun a => (a - meanL x) / stdL x) = 1 from h2]
  simp [standardize]

/-- C56: the default standardisation does not see the unit and offset of the data; a negative unit flips the sign. -/
theorem C56_affine_invariant (c o : ℝ) (hne : x ≠ []) :
    (0 < c → standardize (x.map fun a => c * a + o) none none = standardize x none none) ∧
    (c < 0 → standardize (x.map fun a => c * a + o) none none = (standardize x none none).map fun a => -a) := by
  have key : ∀ a, (c * a + o - (c * meanL x + o)) = c * (a - meanL x) := fun a => by ring
  unfold standardize
  simp only [Option.getD_none, mean_affine x hne, std_affine x hne, List.map_map]
  constructor
  · intro hc
    refine List.map_congr_left fun a _ => ?_
    simp only [Function.comp_apply]
    rw [key, abs_of_pos hc, mul_div_mul_left _ _ hc.ne']
  · intro hc
    refine List.map_congr_left fun a _ => ?_
    simp only [Function.comp_apply]
    rw [key, abs_of_neg hc, neg_mul, div_neg, mul_div_mul_left _ _ hc.ne]

/-- C56: for a constant series the code computes `0/0` in every entry: in any arithmetic where `a - a = 0`, and the mean and
deviation of the series come out as `a` and `0`, every entry is the value of `0/0` (NaN in numpy). -/
theorem C56_constant {K : Type} [Transc K] (a : K) (N : ℕ) (hm : meanL (List.replicate N a) = a)
    (hs : stdL (List.replicate N a) = 0) (hz : a - a = 0) :
    standardize (List.replicate N a) none none = List.replicate N (0 / 0) := by
  simp [standardize, hm, hs, hz]

/-- the hypotheses of `C56_constant` are met in exact arithmetic -/
example : meanL (List.replicate 3 (5 : ℝ)) = 5 ∧ stdL (List.replicate 3 (5 : ℝ)) = 0 ∧ (5 : ℝ) - 5 = 0 := by
  refine ⟨?_, ?_, by norm_num⟩
  · simp [meanL, Scalar.nat]
    norm_num
  · rw [C56_std_zero_iff _ (by simp)]
    simp +contextual [List.mem_replicate]

/-- the hypotheses of C56 are met -/
example : (1 : ℝ) ∈ [1, 2] ∧ (2 : ℝ) ∈ [(1 : ℝ), 2] ∧ (1 : ℝ) ≠ 2 := by norm_num

end c55
end Padasip
