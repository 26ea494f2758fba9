import Verif.Props.Excitation
import Verif.Props.Fixpoint
import Verif.Props.Preprocess
import Verif.Props.Reject

/-!
# C96: the documented workflow - `input_from_history` followed by `run`

`input_from_history(u, n)` followed by `run` is how the documentation identifies an FIR system or predicts a series.  These theorems compose the
two: which target belongs to which row, that the untrimmed target is rejected, and what the filter finds.
-/

set_option linter.unusedSectionVars false
set_option linter.unusedVariables false

namespace Padasip

open Finset

/-- row `k` of the history matrix: `u(k), u(k+1), ..., u(k+n-1)`, oldest first -/
def histRow {K : Type} (n : ℕ) (u : ℕ → K) (k : ℕ) : Vec K n := fun i => u (k + i.val)

/-- the same with a constant 1 appended -/
def histRow1 {K : Type} [One K] (n : ℕ) (u : ℕ → K) (k : ℕ) : Vec K (n + 1) :=
  fun i => if h : i.val < n then u (k + i.val) else 1

section any
variable {K : Type} [Scalar K]

theorem ofFn_histRow (n : ℕ) (u : ℕ → K) (k N : ℕ) (hk : k < N) :
    List.take n (List.drop k (series u (N + n - 1))) = List.ofFn (histRow n u k) := by
  apply List.ext_getElem
  · simp; omega
  · intro i h1 h2
    simp [series, histRow]

/-- C96: the history matrix of the first `N + n - 1` samples of `u` has the `N` rows `u(k), ..., u(k+n-1)`: a data set of `N`
samples for a filter of size `n`; with `bias` a data set for a filter of size `n + 1` whose last input is 1. -/
theorem C96_history_is_data (u : ℕ → K) (n N : ℕ) (hn : 1 ≤ n) (hN : 1 ≤ N) :
    inputFromHistory (series u (N + n - 1)) (.int n) false = .ok (.two n (rows (histRow n u) N)) ∧
    inputFromHistory (series u (N + n - 1)) (.int n) true = .ok (.two (n + 1) (rows (histRow1 n u) N)) := by
  have hr : (List.range ((series u (N + n - 1)).length - n + 1)).map
      (fun i => ((series u (N + n - 1)).drop i).take n) = rows (histRow n u) N := by
    have : (series u (N + n - 1)).length - n + 1 = N := by rw [length_series]; omega
    rw [this]
    unfold rows
    refine List.map_congr_left fun k hk => ?_
    exact ofFn_histRow n u k N (List.mem_range.mp hk)
  have hc : (((series u (N + n - 1)).length : ℤ) - n + 1).toNat = (series u (N + n - 1)).length - n + 1 := by
    rw [length_series]; omega
  have hpos : (n : ℤ) > 0 := by omega
  have hrows : arrayOfRows n (rows (histRow n u) N) = .two n (rows (histRow n u) N) := by
    obtain ⟨M, rfl⟩ : ∃ M, N = M + 1 := ⟨N - 1, by omega⟩
    unfold rows
    rw [List.range_succ_eq_map]
    rfl
  have hb : (rows (histRow n u) N).map (fun r => r ++ [1]) = rows (histRow1 n u) N := by
    unfold rows
    rw [List.map_map]
    refine List.map_congr_left fun k _ => ?_
    apply List.ext_getElem
    · simp
    · intro i h1 h2
      simp only [Function.comp_apply, List.getElem_append, List.length_ofFn, List.getElem_ofFn, histRow1, histRow,
        List.getElem_singleton]
  simp only [inputFromHistory, hpos, not_true_eq_false, if_false, hc, Int.toNat_natCast, hr, hrows, appendOnes, if_true,
    Bool.false_eq_true, hb]
  exact ⟨trivial, trivial⟩

/-- the hypotheses are met: 5 samples, windows of 3 -/
example : inputFromHistory (series (fun k => (k : ℚ)) (3 + 3 - 1)) (.int 3) false
    = .ok (.two 3 [[0, 1, 2], [1, 2, 3], [2, 3, 4]]) := by decide +kernel

end any

section reject
variable {K : Type} [Transc K] {n : ℕ}

/-- C96: the history matrix has `n - 1` rows fewer than the series has samples: `run` with the whole target series raises `ValueError`
(for `n >= 2`) and changes nothing - the target has to be cut to the last `N` samples. -/
theorem C96_untrimmed_target_rejected (solve : Solver K) (kd : Kind) (o : Obj (classOf (n := n) solve kd)) (u d : ℕ → K)
    (N : ℕ) (hn : 2 ≤ n) (hN : 1 ≤ N) :
    ∃ X, inputFromHistory (series u (N + n - 1)) (.int n) false = .ok (.two n X) ∧
      run (classOf solve kd) (series d (N + n - 1)) X o = (.error .valueError, o) :=
  ⟨_, (C96_history_is_data u n N (by omega) hN).1, C07_length_mismatch solve kd o _ _ (by simp; omega)⟩

/-- C96: a series shorter than the window gives no rows, and `run` raises `IndexError` on it. -/
theorem C96_too_short (solve : Solver K) (kd : Kind) (o : Obj (classOf (n := n) solve kd)) (a : List K)
    (h : a.length < n) : inputFromHistory a (.int n) false = .ok (.one []) ∧
      run (classOf solve kd) [] [] o = (.error .indexError, o) := by
  refine ⟨?_, rfl⟩
  have hpos : (n : ℤ) > 0 := by omega
  have hc : ((a.length : ℤ) - n + 1).toNat = 0 := by omega
  simp [inputFromHistory, hc, arrayOfRows]
  omega

end reject

/-! ## FIR systems -/

section field
variable {K : Type} [Field K] [LinearOrder K] [IsStrictOrderedRing K] {n : ℕ}

/-- output at time `t` of the FIR system with impulse response `h(0), ..., h(n-1)` -/
def fir (h : Vec K n) (u : ℕ → K) (t : ℕ) : K := ∑ j : Fin n, h j * u (t - j.val)

/-- C96: the output of the FIR system at time `k + n - 1` is the product of row `k` of the history matrix with the reversed impulse
response. -/
theorem C96_fir_is_linear (h : Vec K n) (u : ℕ → K) (k : ℕ) :
    fir h u (k + n - 1) = ∑ i, h i.rev * histRow n u k i := by
  unfold fir histRow
  refine Fintype.sum_equiv Fin.revPerm _ _ fun j => ?_
  simp only [Fin.revPerm_apply, Fin.rev_rev, Fin.val_rev]
  congr 2
  omega

/-- C96: ... and only this alignment works: if for every series the target at time `t0 + k` is a fixed combination of row `k`, with a non-zero first
and last tap, then `t0 = n - 1`. -/
theorem C96_alignment (h ws : Vec K n) (hn : 0 < n) (t0 : ℕ) (hfirst : h ⟨0, hn⟩ ≠ 0) (hlast : h ⟨n - 1, by omega⟩ ≠ 0)
    (ht : ∀ (u : ℕ → K) (k : ℕ), n ≤ k → fir h u (t0 + k) = ∑ i, ws i * histRow n u k i) : t0 = n - 1 := by
  have hpick : ∀ (s t : ℕ), n ≤ t → fir h (fun m => if m = s then 1 else 0) t
      = if hs : s ≤ t ∧ t - s < n then h ⟨t - s, hs.2⟩ else 0 := by
    intro s t hnt
    unfold fir
    by_cases hs : s ≤ t ∧ t - s < n
    · rw [dif_pos hs, Finset.sum_eq_single ⟨t - s, hs.2⟩]
      · have : t - (t - s) = s := by omega
        simp [this]
      · intro j _ hj
        have : ¬ t - j.val = s := by
          intro hh; exact hj (Fin.ext (by have := j.isLt; simp only; omega))
        simp [this]
      · simp
    · rw [dif_neg hs]
      refine Finset.sum_eq_zero fun j _ => ?_
      have : ¬ t - j.val = s := by
        intro hh; have := j.isLt; omega
      simp [this]
  have hrow : ∀ (s k : ℕ), (s < k ∨ k + n ≤ s) →
      ∑ i, ws i * histRow n (fun m => if m = s then (1 : K) else 0) k i = 0 := by
    intro s k hs
    refine Finset.sum_eq_zero fun i _ => ?_
    have : ¬ k + i.val = s := by have := i.isLt; omega
    simp [histRow, this]
  by_contra hne
  rcases Nat.lt_or_gt_of_ne hne with hlt | hgt
  · -- the oldest sample of the FIR window is before row `k`
    have h1 := ht (fun m => if m = t0 + n - (n - 1) then (1 : K) else 0) n le_rfl
    rw [hrow _ _ (by omega), hpick _ _ (by omega), dif_pos (by omega)] at h1
    refine hlast ?_
    rw [← h1]
    congr 1
    apply Fin.ext
    simp only
    omega
  · have h1 := ht (fun m => if m = t0 + n then (1 : K) else 0) n le_rfl
    rw [hrow _ _ (by omega), hpick _ _ (by omega), dif_pos (by omega)] at h1
    refine hfirst ?_
    rw [← h1]
    congr 1
    apply Fin.ext
    simp

/-- C96: with `bias` the affine system `FIR + b` is linear in the rows. -/
theorem C96_bias_is_affine (h : Vec K n) (b : K) (u : ℕ → K) (k : ℕ) :
    fir h u (k + n - 1) + b
      = ∑ i : Fin (n + 1), (if hi : i.val < n then h (Fin.rev ⟨i.val, hi⟩) else b) * histRow1 n u k i := by
  rw [C96_fir_is_linear, Fin.sum_univ_castSucc]
  congr 1
  · refine sum_congr rfl fun i _ => ?_
    simp [histRow1, histRow]
  · simp [histRow1]

/-- C96: NLMS on the history of `u` with the correctly aligned output of an FIR system: the misalignment to the reversed impulse
response never grows, and the squared errors sum up to at most the initial misalignment (scaled). -/
theorem C96_nlms_fir (o : Obj (nlms K n)) (hr : Vec K n) (u : ℕ → K) (hn : 1 ≤ n)
    (heps : 0 < o.core.ext.eps) (hmu : 0 ≤ o.core.mu) (hmu2 : o.core.mu ≤ 2) (N : ℕ) (hN : 1 ≤ N) :
    ∃ (X : List (List K)) (y e : ℕ → K) (w : ℕ → Vec K n) (o' : Obj (nlms K n)),
      inputFromHistory (series u (N + n - 1)) (.int n) false = .ok (.two n X) ∧
      run (nlms K n) (series (fun k => fir hr u (k + n - 1)) N) X o
        = (.ok (series y N, series e N, series (fun k => List.ofFn (w k)) N), o') ∧
      w 0 = o.core.w ∧ o'.core.w = w N ∧
      (∀ k < N, ∑ i, (w (k + 1) i - hr i.rev) ^ 2 ≤ ∑ i, (w k i - hr i.rev) ^ 2) ∧
      ∑ k ∈ range N, o.core.mu * (2 - o.core.mu) * e k ^ 2 / (o.core.ext.eps + ∑ i : Fin n, u (k + i.val) ^ 2)
        ≤ ∑ i : Fin n, (o.core.w i - hr i.rev) ^ 2 := by
  have R := runs_of_safe nlms_safe o trivial (fun k => fir hr u (k + n - 1)) (histRow n u)
  have hd : ∀ k, fir hr u (k + n - 1) = ∑ i, (fun i : Fin n => hr i.rev) i * histRow n u k i :=
    fun k => C96_fir_is_linear hr u k
  refine ⟨_, _, _, fun k => (traj (nlms K n) (o.core.withN n) _ _ k).w, _, (C96_history_is_data u n N hn hN).1,
    R.2 N (by omega), rfl, rfl, fun k _ => C22_monotone o R _ hd heps hmu hmu2 k, ?_⟩
  have h1 := C22_energy o R _ hd heps hmu N
  have h2 := sqn_nonneg fun i => (traj (nlms K n) (o.core.withN n) (fun k => fir hr u (k + n - 1)) (histRow n u) N).w i - hr i.rev
  exact le_trans (le_add_of_nonneg_left h2) h1

example : ∃ (o : Obj (nlms ℚ 2)) (hr : Vec ℚ 2), 0 < o.core.ext.eps ∧ 0 ≤ o.core.mu ∧ o.core.mu ≤ 2 ∧
    o.core.w ≠ fun i => hr i.rev :=
  ⟨⟨⟨fun _ => 0, 2, 1, (⟨1⟩ : EpsExt ℚ)⟩, []⟩, fun _ => 1, one_pos, by norm_num, by norm_num,
    fun h => zero_ne_one (congrFun h 0)⟩

end field

section real
variable {n : ℕ}

/-- C96: every filter but OCNLMS whose weights are the reversed impulse response reproduces the output of the FIR system: all errors
are 0 and the weights stay. -/
theorem C96_perfect (solve : Solver ℝ) (kd : Kind) (hk : kd ≠ .ocnlms)
    (o : Obj (classOf (n := n) solve kd)) (ho : Ready solve kd o.core) (hden : DenOk solve kd o.core)
    (hap : ApFits solve o.core.w kd o.core) (hr : Vec ℝ n) (hw : ∀ i, o.core.w i = hr i.rev) (u : ℕ → ℝ)
    (y e : ℕ → ℝ) (S : ℕ → Core ℝ n (classOf (n := n) solve kd).Ext)
    (h : Runs (classOf solve kd) o (fun k => fir hr u (k + n - 1)) (histRow n u) y e S) :
    ∀ j, e j = 0 ∧ y j = fir hr u (j + n - 1) ∧ (S j).w = o.core.w :=
  C19_perfect_prediction solve kd hk o ho hden hap _ _
    (fun j => by rw [C96_fir_is_linear]; exact sum_congr rfl fun i _ => by rw [hw]) y e S h

/-- a train of impulses, one every `n` samples -/
def impulses (n : ℕ) (t : ℕ) : ℝ := if t % n = 0 then 1 else 0

/-- C96: the history of an impulse train is persistently exciting: every window of `n` rows shows every tap once. -/
theorem impulses_exciting (hn : 0 < n) : Exciting (histRow n (impulses n)) n 1 := by
  intro k v
  -- row `k + j` is the unit vector of the position `(-(k + j)) mod n`
  have hrow : ∀ m, ∑ i, v i * histRow n (impulses n) m i
      = v ⟨(n - m % n) % n, Nat.mod_lt _ hn⟩ := by
    intro m
    rw [Finset.sum_eq_single ⟨(n - m % n) % n, Nat.mod_lt _ hn⟩]
    · have : (m + (n - m % n) % n) % n = 0 := by
        rw [Nat.add_mod, Nat.mod_mod]
        have h1 := Nat.mod_lt m hn
        rcases Nat.eq_zero_or_pos (m % n) with h0 | h0
        · simp [h0]
        · rw [Nat.mod_eq_of_lt (show n - m % n < n by omega), Nat.add_sub_cancel' h1.le, Nat.mod_self]
      simp [histRow, impulses, this]
    · intro i _ hi
      have : ¬ (m + i.val) % n = 0 := by
        intro h0
        apply hi
        apply Fin.ext
        simp only
        have hil := i.isLt
        have h1 := Nat.mod_lt m hn
        rw [Nat.add_mod, Nat.mod_eq_of_lt hil] at h0
        rcases Nat.eq_zero_or_pos (m % n) with h2 | h2
        · rw [h2, Nat.zero_add, Nat.mod_eq_of_lt hil] at h0
          simp [h2, h0]
        · have h3 : m % n + i.val = n := by
            rcases Nat.lt_or_ge (m % n + i.val) n with h4 | h4
            · rw [Nat.mod_eq_of_lt h4] at h0; omega
            · rw [Nat.mod_eq_sub_mod h4, Nat.mod_eq_of_lt (by omega)] at h0; omega
          rw [Nat.mod_eq_of_lt (by omega)]; omega
      simp [histRow, impulses, this]
    · simp
  rw [one_mul]
  simp only [hrow]
  -- the positions seen in a window are all of them
  have hsub : (univ : Finset (Fin n)).image (fun i => i)
      ⊆ (range n).image fun j => (⟨(n - (k + j) % n) % n, Nat.mod_lt _ hn⟩ : Fin n) := by
    intro i _
    rw [mem_image]
    refine ⟨(n - (i.val + k) % n) % n, mem_range.mpr (Nat.mod_lt _ hn), ?_⟩
    apply Fin.ext
    simp only
    have hil := i.isLt
    have h1 := Nat.mod_lt (i.val + k) hn
    have h2 : (k + (n - (i.val + k) % n) % n + i.val) % n = 0 := by
      have : k + (n - (i.val + k) % n) % n + i.val = (i.val + k) + (n - (i.val + k) % n) % n := by ring
      rw [this, Nat.add_mod, Nat.mod_mod]
      rcases Nat.eq_zero_or_pos ((i.val + k) % n) with h0 | h0
      · simp [h0]
      · rw [Nat.mod_eq_of_lt (show n - (i.val + k) % n < n by omega), Nat.add_sub_cancel' h1.le, Nat.mod_self]
    generalize k + (n - (i.val + k) % n) % n = a at h2
    have h3 := Nat.mod_lt a hn
    rw [Nat.add_mod, Nat.mod_eq_of_lt hil] at h2
    rcases Nat.eq_zero_or_pos (a % n) with h4 | h4
    · rw [h4, Nat.zero_add, Nat.mod_eq_of_lt hil] at h2
      simp [h4, h2]
    · have h5 : a % n + i.val = n := by
        rcases Nat.lt_or_ge (a % n + i.val) n with h6 | h6
        · rw [Nat.mod_eq_of_lt h6] at h2; omega
        · rw [Nat.mod_eq_sub_mod h6, Nat.mod_eq_of_lt (by omega)] at h2; omega
      rw [Nat.mod_eq_of_lt (by omega)]; omega
  rw [image_id'] at hsub
  calc ∑ i, v i ^ 2
      ≤ ∑ i ∈ (range n).image fun j => (⟨(n - (k + j) % n) % n, Nat.mod_lt _ hn⟩ : Fin n), v i ^ 2 :=
        sum_le_sum_of_subset_of_nonneg hsub fun _ _ _ => sq_nonneg _
    _ ≤ _ := sum_image_le (f := fun i => v i ^ 2) fun _ => sq_nonneg _
where
  sum_image_le {g : ℕ → Fin n} {f : Fin n → ℝ} (hf : ∀ i, 0 ≤ f i) :
      ∑ i ∈ (range n).image g, f i ≤ ∑ j ∈ range n, f (g j) := by
    rw [Finset.sum_comp f g]
    refine sum_le_sum fun i hi => ?_
    have h1 : 1 ≤ #{a ∈ range n | g a = i} := by
      obtain ⟨a, ha, rfl⟩ := mem_image.mp hi
      exact card_pos.mpr ⟨a, by simp [mem_range.mp ha]⟩
    have h2 : (1 : ℝ) ≤ (#{a ∈ range n | g a = i} : ℝ) := by exact_mod_cast h1
    rw [nsmul_eq_mul]
    nlinarith [hf i]

/-- C96: an FIR system excited by an impulse train is identified by NLMS through `input_from_history`. -/
theorem C96_nlms_identifies (hn : 0 < n) (o : Obj (nlms ℝ n)) (hr : Vec ℝ n)
    (heps : 0 < o.core.ext.eps) (hmu : 0 < o.core.mu) (hmu2 : o.core.mu < 2) {y e : ℕ → ℝ} {S : ℕ → Core ℝ n (EpsExt ℝ)}
    (h : Runs (nlms ℝ n) o (fun k => fir hr (impulses n) (k + n - 1)) (histRow n (impulses n)) y e S) (i : Fin n) :
    Filter.Tendsto (fun k => (S k).w i) Filter.atTop (nhds (hr i.rev)) := by
  refine C94_nlms_identifies o h (fun i => hr i.rev) (fun k => C96_fir_is_linear hr _ k) heps hmu hmu2
    (B := n) (fun k => ?_) hn one_pos (impulses_exciting hn) i
  calc _ ≤ ∑ _i : Fin n, (1 : ℝ) := sum_le_sum fun i _ => by
        unfold histRow impulses; split <;> simp
    _ = n := by simp

example : ∃ (o : Obj (nlms ℝ 3)) (hr : Vec ℝ 3) (y e : ℕ → ℝ) (S : ℕ → Core ℝ 3 (EpsExt ℝ)),
    0 < o.core.ext.eps ∧ 0 < o.core.mu ∧ o.core.mu < 2 ∧
    Runs (nlms ℝ 3) o (fun k => fir hr (impulses 3) (k + 3 - 1)) (histRow 3 (impulses 3)) y e S ∧ o.core.w ≠ fun i => hr i.rev :=
  ⟨⟨⟨fun _ => 0, 2, 1, (⟨1⟩ : EpsExt ℝ)⟩, []⟩, fun _ => 1, _, _, _, one_pos, one_pos, by norm_num,
    runs_of_safe nlms_safe _ trivial _ _, fun h => zero_ne_one (congrFun h 0)⟩

end real

end Padasip
