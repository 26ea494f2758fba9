import Verif.Spec.Le
import Verif.Model.Real
import Verif.Lemmas.Field
import Mathlib.Algebra.Group.ForwardDiff

/-!
# C63-C67: learning entropy
-/

set_option linter.unusedSectionVars false
set_option linter.unusedSimpArgs false

namespace Padasip

section structural
variable {K : Type} [Scalar K] {n : ℕ}

theorem histAt_of_lt (w : List (Vec K n)) (k : ℕ) (hk : k < w.length) (i : Fin n) : histAt w k i = w[k] i := by
  unfold histAt
  rw [List.getElem?_eq_getElem hk]

theorem diffN_succ (p : ℕ) (a : List (Vec K n)) : diffN (p + 1) a = diff1 (diffN p a) := by
  induction p generalizing a with
  | zero => rfl
  | succ p ih => exact ih (diff1 a)

theorem diff1_length' (a : List (Vec K n)) : (diff1 a).length = a.length - 1 := by
  unfold diff1; simp

theorem diffN_length (p : ℕ) (a : List (Vec K n)) : (diffN p a).length = a.length - p := by
  induction p with
  | zero => rfl
  | succ p ih => rw [diffN_succ, diff1_length', ih]; omega

theorem histAt_diff1 (a : List (Vec K n)) (k : ℕ) (hk : k + 1 < a.length) (i : Fin n) :
    histAt (diff1 a) k i = histAt a (k + 1) i - histAt a k i := by
  rw [histAt_of_lt _ _ (by rw [diff1_length']; omega), histAt_of_lt a _ hk, histAt_of_lt a k (by omega)]
  have e : diff1 a = List.zipWith (fun r s i => r i - s i) (a.drop 1) a := rfl
  rw [List.getElem_of_eq e, List.getElem_zipWith, List.getElem_drop]
  have h2 : a[1 + k] = a[k + 1] := getElem_congr_idx (Nat.add_comm 1 k)
  rw [h2]

theorem histAt_diffN (a : List (Vec K n)) (p k : ℕ) (hk : k + p < a.length) (i : Fin n) :
    histAt (diffN p a) k i = incr (fun k => histAt a k i) p (k + p) := by
  induction p generalizing k with
  | zero => rfl
  | succ p ih =>
    rw [diffN_succ, histAt_diff1 _ _ (by rw [diffN_length]; omega), ih (k + 1) (by omega), ih k (by omega)]
    show _ = incr _ p (k + (p + 1)) - incr _ p (k + (p + 1) - 1)
    congr 2; omega

theorem leDw_length (order : ℕ) (w : List (Vec K n)) : (leDw order w).length = w.length := by
  unfold leDw
  rw [List.length_append, List.length_take, List.length_map, diffN_length]
  omega

theorem histAt_leDw (order : ℕ) (w : List (Vec K n)) (k : ℕ) (hk : k < w.length) (i : Fin n) :
    histAt (leDw order w) k i = leInc order w k i := by
  unfold leInc
  by_cases h : k < order
  · rw [if_pos h, histAt_of_lt _ _ (by rw [leDw_length]; exact hk), histAt_of_lt w k hk]
    unfold leDw
    rw [List.getElem_append_left (by rw [List.length_take]; omega), List.getElem_take]
  · rw [if_neg h]
    have hp := histAt_diffN w order (k - order) (by omega) i
    rw [Nat.sub_add_cancel (not_lt.mp h)] at hp
    rw [← hp, histAt_of_lt _ _ (by rw [leDw_length]; exact hk), histAt_of_lt _ _ (by rw [diffN_length]; omega)]
    have e : leDw order w = w.take order ++ (diffN order w).map absRow := rfl
    have hi : k - (w.take order).length = k - order := by rw [List.length_take]; omega
    rw [List.getElem_of_eq e, List.getElem_append_right (by rw [List.length_take]; omega), List.getElem_map]
    exact congrArg Scalar.abs (congrFun (getElem_congr_idx hi) i)

theorem leWindow_col (m order k : ℕ) (w : List (Vec K n)) (i : Fin n) (hm : m ≤ k) (hk : k ≤ w.length) :
    (leWindow m k (leDw order w)).map (fun r => r i) = lePast m order w k i := by
  unfold leWindow lePast
  apply List.ext_getElem
  · simp [leDw_length]; omega
  · intro t h1 h2
    have ht : t < m := by simpa using h2
    rw [List.getElem_map, List.getElem_map, List.getElem_take, List.getElem_drop, List.getElem_range,
      ← histAt_leDw order w (k - m + t) (by omega) i, histAt_of_lt _ _ (by rw [leDw_length]; omega)]

theorem zipIdx_map_eq {α β : Type} (l : List α) (f : α → ℕ → β) (g : ℕ → β)
    (h : ∀ k (hk : k < l.length), f l[k] k = g k) : l.zipIdx.map (fun p => f p.1 p.2) = (List.range l.length).map g := by
  apply List.ext_getElem
  · simp
  · intro k h1 h2
    have hk : k < l.length := by simpa using h2
    simp [h k hk]

theorem fillFirst_range {α : Type} (m N : ℕ) (c : α) (g : ℕ → α) :
    fillFirst m c ((List.range N).map g) = (List.range N).map fun k => if k < m then c else g k := by
  unfold fillFirst
  apply List.ext_getElem
  · simp; omega
  · intro k h1 h2
    have hk : k < N := by simpa using h2
    by_cases h : k < m
    · rw [List.getElem_append_left (by simp; omega)]
      simp [h]
    · rw [List.getElem_append_right (by simp; omega)]
      simp [h]
      congr 1; omega

/-- the multiscale learning entropy, sample by sample -/
theorem leMulti_eq (w : List (Vec K n)) (m order : ℕ) (alphas : List K) :
    leMulti w m order alphas = (List.range w.length).map fun k =>
      if k < m then 0 else Scalar.nat (leCount m order w alphas k) / Scalar.nat (n * alphas.length) := by
  have h1 : (leDw order w).zipIdx.map (fun (row, k) =>
      (alphas.map fun a => ((List.finRange n).filter fun i => Scalar.lt (leMean m (leDw order w) k i * a) (row i)).length).sum)
      = (List.range w.length).map fun k =>
        (alphas.map fun a => ((List.finRange n).filter fun i =>
          Scalar.lt (leMean m (leDw order w) k i * a) (leInc order w k i)).length).sum := by
    rw [← leDw_length order w]
    refine zipIdx_map_eq (leDw order w) (fun row k => (alphas.map fun a => ((List.finRange n).filter fun i =>
      Scalar.lt (leMean m (leDw order w) k i * a) (row i)).length).sum) _ fun k hk => ?_
    have : ∀ i, (leDw order w)[k] i = leInc order w k i := fun i => by
      rw [← histAt_leDw order w k (by rwa [leDw_length] at hk) i, histAt_of_lt _ _ hk]
    simp only [this]
  unfold leMulti
  simp only [h1, List.map_map]
  rw [fillFirst_range]
  apply List.map_congr_left
  intro k hk
  rw [List.mem_range] at hk
  split
  · rfl
  · rename_i hkm
    simp only [Function.comp, leCount]
    have : ∀ i, leMean m (leDw order w) k i = meanL (lePast m order w k i) := fun i => by
      unfold leMean
      rw [if_neg hkm, leWindow_col m order k w i (by omega) (by omega)]
    simp only [this]

/-- the increments at `k` and before depend on a window of rows only -/
theorem incr_congr {f g : ℕ → K} (p k : ℕ) (h : ∀ j, k - p ≤ j → j ≤ k → f j = g j) : incr f p k = incr g p k := by
  induction p generalizing k with
  | zero => exact h k (by omega) (by omega)
  | succ p ih =>
    show incr f p k - incr f p (k - 1) = incr g p k - incr g p (k - 1)
    rw [ih k fun j h1 h2 => h j (by omega) h2, ih (k - 1) fun j h1 h2 => h j (by omega) (by omega)]

theorem leInc_congr {w w' : List (Vec K n)} (order k : ℕ) (i : Fin n)
    (h : ∀ j, k - order ≤ j → j ≤ k → histAt w j i = histAt w' j i) : leInc order w k i = leInc order w' k i := by
  unfold leInc
  split
  · exact h k (by omega) (by omega)
  · rw [incr_congr order k h]

/-- the two histories have the same rows `lo .. hi` -/
def SameRows (lo hi : ℕ) (w w' : List (Vec K n)) : Prop := ∀ j, lo ≤ j → j ≤ hi → w[j]? = w'[j]?

theorem SameRows.at {lo hi : ℕ} {w w' : List (Vec K n)} (h : SameRows lo hi w w') {j : ℕ} (h1 : lo ≤ j) (h2 : j ≤ hi) (i : Fin n) :
    histAt w j i = histAt w' j i := by
  unfold Padasip.histAt; rw [h j h1 h2]

theorem lePast_congr {w w' : List (Vec K n)} (m order k : ℕ) (hk : m ≤ k) (h : SameRows (k - m - order) k w w') (i : Fin n) :
    lePast m order w k i = lePast m order w' k i := by
  unfold lePast
  apply List.map_congr_left
  intro t ht
  rw [List.mem_range] at ht
  exact leInc_congr order _ i fun j h1 h2 => h.at (by omega) (by omega) i

theorem getElem?_rangeMap {α : Type} (N : ℕ) (g : ℕ → α) (k : ℕ) :
    ((List.range N).map g)[k]? = if k < N then some (g k) else none := by
  split
  · rename_i h; simp [h]
  · rename_i h; simp at h; simp [h]

/-- C65: the multiscale value of sample `k` depends only on rows `k-m-order .. k` of the history: two histories (of any lengths) that
agree there have the same value (or both have no sample `k`). -/
theorem C65_multiscale (w w' : List (Vec K n)) (m order k : ℕ) (alphas : List K) (h : SameRows (k - m - order) k w w') :
    (leMulti w m order alphas)[k]? = (leMulti w' m order alphas)[k]? := by
  have hl : k < w.length ↔ k < w'.length := by
    have := h k (by omega) le_rfl
    constructor
    · intro h1
      rw [List.getElem?_eq_getElem h1] at this
      exact (List.getElem?_eq_some_iff.mp this.symm).1
    · intro h1
      rw [List.getElem?_eq_getElem h1] at this
      exact (List.getElem?_eq_some_iff.mp this).1
  rw [leMulti_eq, leMulti_eq, getElem?_rangeMap, getElem?_rangeMap]
  by_cases hk : k < w.length
  · rw [if_pos hk, if_pos (hl.mp hk)]
    by_cases hkm : k < m
    · simp [hkm]
    · simp only [hkm, if_false]
      have h1 : ∀ i, lePast m order w k i = lePast m order w' k i := lePast_congr m order k (by omega) h
      have h2 : ∀ i, leInc order w k i = leInc order w' k i := fun i =>
        leInc_congr order k i fun j a b => h.at (by omega) b i
      unfold leCount
      simp only [h1, h2]
  · rw [if_neg hk, if_neg fun h => hk (hl.mpr h)]

end structural

section direct
variable {K : Type} [Transc K] {n : ℕ}

/-- the direct learning entropy, sample by sample -/
theorem leDirect_eq (w : List (Vec K n)) (m order : ℕ) :
    leDirect w m order = (List.range w.length).map fun k => fun i =>
      if k < m then 0 else (leInc order w k i - meanL (lePast m order w k i))
        / (stdL (lePast m order w k i) + 1 / Scalar.nat (10 ^ 10)) := by
  have h1 : (leDw order w).zipIdx.map (fun (row, k) => fun i =>
      (row i - leMean m (leDw order w) k i) / (leStd m (leDw order w) k i + 1 / Scalar.nat (10 ^ 10)))
      = (List.range w.length).map fun k => fun i =>
        (leInc order w k i - leMean m (leDw order w) k i) / (leStd m (leDw order w) k i + 1 / Scalar.nat (10 ^ 10)) := by
    rw [← leDw_length order w]
    refine zipIdx_map_eq (leDw order w) (fun row k => fun i =>
      (row i - leMean m (leDw order w) k i) / (leStd m (leDw order w) k i + 1 / Scalar.nat (10 ^ 10))) _ fun k hk => ?_
    have : ∀ i, (leDw order w)[k] i = leInc order w k i := fun i => by
      rw [← histAt_leDw order w k (by rwa [leDw_length] at hk) i, histAt_of_lt _ _ hk]
    simp only [this]
  unfold leDirect
  simp only [h1]
  rw [fillFirst_range]
  apply List.map_congr_left
  intro k hk
  rw [List.mem_range] at hk
  split
  · rename_i hkm
    funext i
    rfl
  · rename_i hkm
    funext i
    unfold leMean leStd
    rw [if_neg hkm, if_neg hkm, leWindow_col m order k w i (by omega) (by omega)]

/-- C64: without sensitivities the result is a matrix with one row of `n` values per sample (not one value per sample): 0 for `k < m`,
otherwise the deviation of the increment from the mean of the `m` previous ones, divided by their standard deviation plus `1e-10`. -/
theorem C64_direct (w : List (Vec K n)) (m order : ℕ) :
    ∃ rows : List (Vec K n), learningEntropy w m order none = .ok (.rows rows) ∧
      learningEntropy w m order (some []) = .ok (.rows rows) ∧ rows.length = w.length ∧
      ∀ k, k < w.length → ∀ i, histAt rows k i = if k < m then 0 else
        (leInc order w k i - meanL (lePast m order w k i)) / (stdL (lePast m order w k i) + 1 / Scalar.nat (10 ^ 10)) := by
  refine ⟨leDirect w m order, ?_, ?_, ?_, ?_⟩
  · simp [learningEntropy]
  · simp [learningEntropy]
  · rw [leDirect_eq]; simp
  · intro k hk i
    have hl : k < (leDirect w m order).length := by rw [leDirect_eq]; simpa using hk
    rw [histAt_of_lt _ _ hl, List.getElem_of_eq (leDirect_eq w m order), List.getElem_map, List.getElem_range]

/-- C65: the direct value of sample `k` depends only on rows `k-m-order .. k` of the history. -/
theorem C65_direct (w w' : List (Vec K n)) (m order k : ℕ) (h : SameRows (k - m - order) k w w') :
    (leDirect w m order)[k]? = (leDirect w' m order)[k]? := by
  have hl : k < w.length ↔ k < w'.length := by
    have := h k (by omega) le_rfl
    constructor
    · intro h1
      rw [List.getElem?_eq_getElem h1] at this
      exact (List.getElem?_eq_some_iff.mp this.symm).1
    · intro h1
      rw [List.getElem?_eq_getElem h1] at this
      exact (List.getElem?_eq_some_iff.mp this).1
  rw [leDirect_eq, leDirect_eq, getElem?_rangeMap, getElem?_rangeMap]
  by_cases hk : k < w.length
  · rw [if_pos hk, if_pos (hl.mp hk)]
    by_cases hkm : k < m
    · simp [hkm]
    · simp only [hkm, if_false]
      have h1 : ∀ i, lePast m order w k i = lePast m order w' k i := lePast_congr m order k (by omega) h
      have h2 : ∀ i, leInc order w k i = leInc order w' k i := fun i =>
        leInc_congr order k i fun j a b => h.at (by omega) b i
      simp only [h1, h2]
  · rw [if_neg hk, if_neg fun h => hk (hl.mpr h)]

/-- C63/C64: a negative order raises `ValueError`. -/
theorem C64_negative_order (w : List (Vec K n)) (m : ℕ) (order : ℤ) (h : order < 0) (alpha : Option (List K)) :
    learningEntropy w m order alpha = .error .valueError := by
  unfold learningEntropy; rw [if_pos h]

end direct

section field
variable {K : Type} [Field K] [LinearOrder K] [IsStrictOrderedRing K] {n : ℕ}

open Finset

/-- C63: the increment of order `p` is the alternating binomial sum of the last `p+1` weights. -/
theorem C63_increment (order : ℕ) (w : List (Vec K n)) (k : ℕ) (hk : order ≤ k) (i : Fin n) :
    leInc order w k i = |∑ j ∈ range (order + 1), (-1) ^ (order - j) * (order.choose j : K) * histAt w (k - order + j) i| := by
  have h : ∀ (f : ℕ → K) (p y : ℕ), incr f p (y + p) = (fwdDiff 1)^[p] f y := by
    intro f p
    induction p with
    | zero => intro y; rfl
    | succ p ih =>
      intro y
      rw [Function.iterate_succ_apply']
      show incr f p (y + (p + 1)) - incr f p (y + (p + 1) - 1) = (fwdDiff 1)^[p] f (y + 1) - (fwdDiff 1)^[p] f y
      rw [← ih, ← ih]
      congr 2; omega
  unfold leInc
  rw [if_neg (by omega)]
  show |incr _ order k| = _
  have h2 := h (fun k => histAt w k i) order (k - order)
  rw [Nat.sub_add_cancel hk] at h2
  rw [h2, fwdDiff_iter_eq_sum_shift]
  congr 1
  refine sum_congr rfl fun j _ => ?_
  simp

theorem leCount_eq (m order : ℕ) (w : List (Vec K n)) (al : List K) (k : ℕ) :
    leCount m order w al k = #{p : Fin n × Fin al.length |
      (meanL (lePast m order w k p.1)) * al[p.2] < leInc order w k p.1} := by
  unfold leCount
  have h1 : ∀ a, ((List.finRange n).filter fun i => Scalar.lt (meanL (lePast m order w k i) * a) (leInc order w k i)).length
      = ∑ i : Fin n, if meanL (lePast m order w k i) * a < leInc order w k i then 1 else 0 := by
    intro a
    rw [← card_filter]
    rw [← List.toFinset_card_of_nodup ((List.nodup_finRange n).filter _)]
    congr 1
    ext i
    simp only [List.mem_toFinset, List.mem_filter, List.mem_finRange, true_and, mem_filter, mem_univ]
    exact decide_eq_true_iff
  simp only [h1]
  rw [card_filter, Fintype.sum_prod_type_right]
  have h2 : al = List.ofFn fun s : Fin al.length => al[s] := by simp
  conv_lhs => rw [h2]
  rw [List.map_ofFn, List.sum_ofFn]
  rfl

theorem meanL_range (m : ℕ) (f : ℕ → K) : meanL ((List.range m).map f) = (∑ t ∈ range m, f t) / m := by
  unfold meanL
  rw [List.length_map, List.length_range]
  congr 1

theorem leMulti_get (w : List (Vec K n)) (m order : ℕ) (al : List K) (k : ℕ) (v : K) (h : (leMulti w m order al)[k]? = some v) :
    k < w.length ∧ v = if k < m then 0 else (leCount m order w al k : K) / ((n * al.length : ℕ) : K) := by
  rw [leMulti_eq, getElem?_rangeMap] at h
  split at h
  · rename_i hk
    exact ⟨hk, (Option.some.inj h).symm⟩
  · cases h

theorem leCount_le (m order : ℕ) (w : List (Vec K n)) (al : List K) (k : ℕ) : leCount m order w al k ≤ n * al.length := by
  rw [leCount_eq]
  refine (card_le_univ _).trans ?_
  simp

/-- C63, in any ordered field: the multiscale value lies in [0,1], is 0 for `k < m`, and for `k >= m >= 1` is the fraction of the pairs
(weight, sensitivity) for which the increment exceeds the sensitivity times the mean of the `m` previous increments.  (For `m = 0` the mean
is that of an empty array, a NaN in numpy, and no comparison holds: C127.) -/
theorem C63_fraction (w : List (Vec K n)) (m order : ℕ) (al : List K) :
    (leMulti w m order al).length = w.length ∧
    ∀ k v, (leMulti w m order al)[k]? = some v → 0 ≤ v ∧ v ≤ 1 ∧ (k < m → v = 0) ∧
      (1 ≤ m → m ≤ k → v = (#{p : Fin n × Fin al.length |
          (∑ t ∈ range m, leInc order w (k - m + t) p.1) / m * al[p.2] < leInc order w k p.1} : K) / ((n * al.length : ℕ) : K)) := by
  refine ⟨by rw [leMulti_eq]; simp, fun k v h => ?_⟩
  obtain ⟨hk, hv⟩ := leMulti_get w m order al k v h
  have hb : (0 : K) ≤ (leCount m order w al k : K) / ((n * al.length : ℕ) : K) ∧
      (leCount m order w al k : K) / ((n * al.length : ℕ) : K) ≤ 1 :=
    ⟨div_nonneg (Nat.cast_nonneg _) (Nat.cast_nonneg _),
      div_le_one_of_le₀ (Nat.cast_le.mpr (leCount_le m order w al k)) (Nat.cast_nonneg _)⟩
  refine ⟨?_, ?_, ?_, ?_⟩
  · rw [hv]; split
    · exact le_rfl
    · exact hb.1
  · rw [hv]; split
    · exact zero_le_one
    · exact hb.2
  · intro hkm; rw [hv, if_pos hkm]
  · intro _ hkm
    rw [hv, if_neg (by omega), leCount_eq]
    simp only [lePast, meanL_range]

theorem leInc_nonneg (order : ℕ) (w : List (Vec K n)) (k : ℕ) (hk : order ≤ k) (i : Fin n) : 0 ≤ leInc order w k i := by
  unfold leInc
  rw [if_neg (by omega)]
  exact abs_nonneg _

/-- C63: for `k >= m + order` raising sensitivities does not raise the value. -/
theorem C63_antitone (w : List (Vec K n)) (m order : ℕ) (al al' : List K) (h : List.Forall₂ (· ≤ ·) al al') (k : ℕ) (hk : m + order ≤ k)
    (v v' : K) (h1 : (leMulti w m order al)[k]? = some v) (h2 : (leMulti w m order al')[k]? = some v') : v' ≤ v := by
  obtain ⟨hkl, hv⟩ := leMulti_get w m order al k v h1
  obtain ⟨_, hv'⟩ := leMulti_get w m order al' k v' h2
  have hl : al.length = al'.length := h.length_eq
  rw [hv, hv', if_neg (by omega), if_neg (by omega), ← hl]
  refine div_le_div_of_nonneg_right ?_ (Nat.cast_nonneg _)
  rw [Nat.cast_le, leCount_eq, leCount_eq]
  refine card_le_card_of_injOn (fun p => (p.1, Fin.cast hl.symm p.2)) ?_ ?_
  · intro p hp
    simp only [coe_filter, mem_univ, true_and, Set.mem_ofPred_eq] at hp ⊢
    refine lt_of_le_of_lt (mul_le_mul_of_nonneg_left ?_ ?_) hp
    · have := (List.forall₂_iff_get.mp h).2 p.2.val (by rw [hl]; exact p.2.isLt) p.2.isLt
      simpa using this
    · rw [lePast, meanL_range]
      exact div_nonneg (sum_nonneg fun t _ => leInc_nonneg order w _ (by omega) _) (Nat.cast_nonneg _)
  · intro p _ q _ hpq
    simp only [Prod.mk.injEq, Fin.cast_inj] at hpq
    exact Prod.ext hpq.1 hpq.2

/-- C63: the claim of `C63_antitone` fails in the warm-up zone `m <= k < m + order`, where the mean can be negative. -/
theorem C63_antitone_fails_early :
    ∃ (w : List (Vec ℚ 1)), leMulti w 1 2 [1] = [0, 0] ∧ leMulti w 1 2 [2] = [0, 1] :=
  ⟨[![-2], ![-3]], by decide +kernel, by decide +kernel⟩

/-! ## C66, C67 -/

theorem histAt_map (w : List (Vec K n)) (g : Vec K n → Vec K n) (k : ℕ) (hk : k < w.length) (i : Fin n) :
    histAt (w.map g) k i = g w[k] i := by
  rw [histAt_of_lt _ _ (by simpa using hk), List.getElem_map]

theorem incr_const (f : ℕ → K) (c : K) (p k : ℕ) (hp : 1 ≤ p) : incr (fun j => f j + c) p k = incr f p k := by
  induction p generalizing k with
  | zero => omega
  | succ p ih =>
    show incr _ p k - incr _ p (k - 1) = incr f p k - incr f p (k - 1)
    by_cases h0 : p = 0
    · subst h0
      show f k + c - (f (k - 1) + c) = f k - f (k - 1)
      ring
    · rw [ih k (by omega), ih (k - 1) (by omega)]

theorem incr_smul (f : ℕ → K) (c : K) (p k : ℕ) : incr (fun j => c * f j) p k = c * incr f p k := by
  induction p generalizing k with
  | zero => rfl
  | succ p ih =>
    show incr _ p k - incr _ p (k - 1) = c * (incr f p k - incr f p (k - 1))
    rw [ih, ih]; ring

/-- `w` with the vector `c` added to every row -/
def shiftRows (c : Vec K n) (w : List (Vec K n)) : List (Vec K n) := w.map fun r i => r i + c i

theorem leInc_shift (c : Vec K n) (w : List (Vec K n)) (order k : ℕ) (h1 : 1 ≤ order) (h2 : order ≤ k) (hk : k < w.length) (i : Fin n) :
    leInc order (shiftRows c w) k i = leInc order w k i := by
  unfold leInc
  rw [if_neg (by omega), if_neg (by omega)]
  congr 1
  rw [← incr_const (fun k => histAt w k i) (c i) order k h1]
  refine incr_congr order k fun j _ hj => ?_
  rw [shiftRows, histAt_map _ _ _ (by omega), histAt_of_lt _ _ (by omega)]

theorem lePast_shift (c : Vec K n) (w : List (Vec K n)) (m order k : ℕ) (h1 : 1 ≤ order) (h2 : m + order ≤ k) (hk : k < w.length)
    (i : Fin n) : lePast m order (shiftRows c w) k i = lePast m order w k i := by
  unfold lePast
  apply List.map_congr_left
  intro t ht
  rw [List.mem_range] at ht
  exact leInc_shift c w order _ h1 (by omega) (by omega) i

/-- C66: from sample `m + order` on, the multiscale value does not change when a constant vector is added to every row of the history. -/
theorem C66_shift (c : Vec K n) (w : List (Vec K n)) (m order k : ℕ) (al : List K) (h1 : 1 ≤ order) (h2 : m + order ≤ k) :
    (leMulti (shiftRows c w) m order al)[k]? = (leMulti w m order al)[k]? := by
  have hl : (shiftRows c w).length = w.length := by simp [shiftRows]
  rw [leMulti_eq, leMulti_eq, getElem?_rangeMap, getElem?_rangeMap, hl]
  by_cases hk : k < w.length
  · rw [if_pos hk, if_pos hk]
    unfold leCount
    simp only [lePast_shift c w m order k h1 h2 hk, leInc_shift c w order k h1 (by omega) hk]
  · rw [if_neg hk, if_neg hk]

/-- C66: in the zone `m <= k < m + order` it does change: adding 5 to every weight turns a detection into none. -/
theorem C66_early_rows_use_raw_weights :
    ∃ w : List (Vec ℚ 1), leMulti w 1 1 [2] = [0, 1] ∧ leMulti (shiftRows ![5] w) 1 1 [2] = [0, 0] :=
  ⟨[![0], ![1]], by decide +kernel, by decide +kernel⟩

example : (1 ≤ 1 ∧ 1 + 1 ≤ 2) ∧ leMulti ([![0], ![1], ![5]] : List (Vec ℚ 1)) 1 1 [2] = [0, 1, 1] ∧
    leMulti (shiftRows ![5] [![0], ![1], ![5]] : List (Vec ℚ 1)) 1 1 [2] = [0, 0, 1] := by decide +kernel

/-- `w` multiplied by a number -/
def scaleRows (c : K) (w : List (Vec K n)) : List (Vec K n) := w.map fun r i => c * r i

theorem leInc_scale {c : K} (hc : 0 < c) (w : List (Vec K n)) (order k : ℕ) (hk : k < w.length) (i : Fin n) :
    leInc order (scaleRows c w) k i = c * leInc order w k i := by
  have hat : ∀ j, j ≤ k → histAt (scaleRows c w) j i = c * histAt w j i := by
    intro j hj
    rw [scaleRows, histAt_map _ _ _ (by omega), histAt_of_lt _ _ (by omega)]
  unfold leInc
  split
  · exact hat k le_rfl
  · rw [incr_congr (g := fun j => c * histAt w j i) order k fun j _ hj => hat j hj, incr_smul]
    show |c * _| = c * |_|
    rw [abs_mul, abs_of_pos hc]

/-- C67: multiplying the history by any positive number leaves the multiscale learning entropy unchanged (at every sample). -/
theorem C67_scale {c : K} (hc : 0 < c) (w : List (Vec K n)) (m order : ℕ) (al : List K) :
    leMulti (scaleRows c w) m order al = leMulti w m order al := by
  have hl : (scaleRows c w).length = w.length := by simp [scaleRows]
  rw [leMulti_eq, leMulti_eq, hl]
  apply List.map_congr_left
  intro k hk
  rw [List.mem_range] at hk
  split
  · rfl
  · rename_i hkm
    have h1 : ∀ i, leInc order (scaleRows c w) k i = c * leInc order w k i := leInc_scale hc w order k hk
    have h2 : ∀ i, meanL (lePast m order (scaleRows c w) k i) = c * meanL (lePast m order w k i) := by
      intro i
      rw [lePast, lePast, meanL_range, meanL_range, mul_div_assoc', mul_sum]
      congr 1
      refine sum_congr rfl fun t ht => ?_
      rw [mem_range] at ht
      exact leInc_scale hc w order _ (by omega) i
    congr 2
    rw [leCount_eq, leCount_eq]
    congr 1
    ext p
    simp only [mem_filter, mem_univ, true_and, h1, h2]
    rw [mul_assoc, mul_lt_mul_iff_right₀ hc]

example : leMulti (scaleRows 3 [![0], ![1], ![5], ![6]] : List (Vec ℚ 1)) 2 1 [2, 1] = [0, 0, 1, 0] := by decide +kernel

end field

/-- C63: the API function with a non-empty list of sensitivities returns these values, one per sample. -/
theorem C63_api (n : ℕ) (w : List (Vec ℝ n)) (m order : ℕ) (a : ℝ) (t : List ℝ) :
    learningEntropy w m order (some (a :: t)) = .ok (.flat (leMulti w m order (a :: t))) := by
  simp [learningEntropy]

/-- C66: the direct approach has the same invariance. -/
theorem C66_shift_direct {n : ℕ} (c : Vec ℝ n) (w : List (Vec ℝ n)) (m order k : ℕ) (h1 : 1 ≤ order) (h2 : m + order ≤ k) :
    (leDirect (shiftRows c w) m order)[k]? = (leDirect w m order)[k]? := by
  have hl : (shiftRows c w).length = w.length := by simp [shiftRows]
  rw [leDirect_eq, leDirect_eq, getElem?_rangeMap, getElem?_rangeMap, hl]
  by_cases hk : k < w.length
  · rw [if_pos hk, if_pos hk]
    have e1 := lePast_shift c w m order k h1 h2 hk
    have e2 := leInc_shift c w order k h1 (by omega) hk
    have e3 : ∀ i, (@lePast ℝ realTransc.toScalar n m order (shiftRows c w) k i) = @lePast ℝ realTransc.toScalar n m order w k i := e1
    have e4 : ∀ i, (@leInc ℝ realTransc.toScalar n order (shiftRows c w) k i) = @leInc ℝ realTransc.toScalar n order w k i := e2
    simp only [e3, e4]
  · rw [if_neg hk, if_neg hk]

/-- the hypotheses of the theorems about shifts and thresholds: window 2, order 1, row 3; thresholds increased one by one -/
example : 1 ≤ 1 ∧ 2 + 1 ≤ 3 ∧ List.Forall₂ (fun x1 x2 : ℝ => x1 ≤ x2) [1, 2] [1, 5 / 2] := by
  refine ⟨le_refl _, le_refl _, ?_⟩
  simp only [List.forall₂_cons, List.Forall₂.nil, and_true]
  norm_num

end Padasip
