import Verif.Props.PcaOpt
import Verif.Props.LdaOpt
import Mathlib.LinearAlgebra.Matrix.Rank
import Mathlib.Data.Complex.BigOperators

/-!
# C129: how many columns PCA needs; the eigenproblems of PCA and LDA are real
-/

set_option linter.unusedSectionVars false
set_option linter.unusedSimpArgs false

namespace Padasip

open Finset

variable {K L : Type} [Field K] [LinearOrder K] [IsStrictOrderedRing K] {N c : ℕ}

/-- dimension of a data set: of the space spanned by the differences of its samples (0: all samples equal, 1: on a line, 2: in a plane ...) -/
noncomputable def dataDim (x : Mat K N c) : ℕ := Module.finrank K (Submodule.span K (Set.range fun p : Fin N × Fin N => x p.1 - x p.2))

/-- the samples minus their mean -/
def centred (x : Mat K N c) : Matrix (Fin N) (Fin c) K := Matrix.of fun k i => x k i - (∑ k, x k i) / N

theorem span_centred (hN : N ≠ 0) (x : Mat K N c) :
    Submodule.span K (Set.range (centred x).row) = Submodule.span K (Set.range fun p : Fin N × Fin N => x p.1 - x p.2) := by
  have hN' : (N : K) ≠ 0 := Nat.cast_ne_zero.mpr hN
  apply le_antisymm
  · rw [Submodule.span_le]
    rintro _ ⟨k, rfl⟩
    have : (centred x).row k = (N : K)⁻¹ • ∑ l, (x k - x l) := by
      funext i
      have e : ∑ l, (x k i - x l i) = N * x k i - ∑ l, x l i := by simp
      show x k i - (∑ k, x k i) / N = (N : K)⁻¹ * (∑ l, (x k - x l)) i
      rw [Finset.sum_apply]
      simp only [Pi.sub_apply]
      rw [e]
      field_simp
    rw [this]
    exact Submodule.smul_mem _ _ (Submodule.sum_mem _ fun l _ => Submodule.subset_span ⟨(k, l), rfl⟩)
  · rw [Submodule.span_le]
    rintro _ ⟨⟨k, l⟩, rfl⟩
    have : (fun p : Fin N × Fin N => x p.1 - x p.2) (k, l) = (centred x).row k - (centred x).row l := by
      funext i
      simp [centred, Matrix.row]
    rw [this]
    exact Submodule.sub_mem _ (Submodule.subset_span ⟨k, rfl⟩) (Submodule.subset_span ⟨l, rfl⟩)

theorem rank_covMat (hN : 2 ≤ N) (x : Mat K N c) : (Matrix.of (covMat x)).rank = dataDim x := by
  have h1 : Matrix.of (covMat x) = (((N - 1 : ℕ) : K)⁻¹) • ((centred x).transpose * centred x) := by
    ext a b
    rw [Matrix.of_apply, covMat_eq, Matrix.smul_apply, Matrix.mul_apply, smul_eq_mul, div_eq_inv_mul]
    rfl
  have hne : (((N - 1 : ℕ) : K)⁻¹) ≠ 0 := inv_ne_zero (Nat.cast_ne_zero.mpr (by omega))
  rw [h1, Matrix.rank_smul_of_mem_nonZeroDivisors _ (mem_nonZeroDivisors_of_ne_zero hne), Matrix.rank_transpose_mul_self,
    Matrix.rank_eq_finrank_span_row, span_centred (by omega)]
  rfl

theorem rank_of_eig {A : Mat K c c} {vals : Vec K c} {vecs : Mat K c c} (hE : IsEig A vals vecs) (hO : OrthoCols vecs) :
    (Matrix.of A).rank = #{j | vals j ≠ 0} := by
  have hV : (Matrix.of vecs).transpose * Matrix.of vecs = 1 := by
    ext a b
    simp only [Matrix.mul_apply, Matrix.transpose_apply, Matrix.of_apply, Matrix.one_apply]
    exact hO a b
  have hdet : (Matrix.of vecs).det ≠ 0 := by
    intro h
    have := congrArg Matrix.det hV
    rw [Matrix.det_mul, h, mul_zero, Matrix.det_one] at this
    exact zero_ne_one this
  have hM : Matrix.of A * Matrix.of vecs = Matrix.of vecs * Matrix.diagonal vals := by
    ext i j
    rw [Matrix.mul_diagonal, Matrix.mul_apply]
    simp only [Matrix.of_apply]
    rw [hE i j, mul_comm]
  have h1 : (Matrix.of A * Matrix.of vecs).rank = (Matrix.of A).rank := Matrix.rank_mul_eq_left_of_det_ne_zero _ _ hdet
  have h2 : (Matrix.of vecs * Matrix.diagonal vals).rank = (Matrix.diagonal vals).rank := Matrix.rank_mul_eq_right_of_det_ne_zero _ _ hdet
  rw [← h1, hM, h2, Matrix.rank_diagonal, Fintype.card_subtype]

/-- C129: the number of non-zero entries of `PCA_components(x)` is the dimension of the data. -/
theorem C129_dimension {env : LinEnv K L} (ha : ArgsortSpec env.argsort) (x : Mat K N c) (hN : 2 ≤ N) (hc : c ≠ 1)
    {vals : Vec K c} {vecs : Mat K c c} (he : env.eig c (covMat x) = .ok (vals, vecs))
    (hE : IsEig (covMat x) vals vecs) (hO : OrthoCols vecs) :
    ∃ comps, pcaComponents env x = .ok comps ∧ (comps.filter (· ≠ 0)).length = dataDim x := by
  obtain ⟨l, h1, h2, _⟩ := C57_components ha x hc hN he
  refine ⟨l, h1, ?_⟩
  rw [(h2.filter _).length_eq, ← rank_covMat hN x, rank_of_eig hE hO, List.ofFn_eq_map, List.filter_map, List.length_map]
  rw [← List.toFinset_card_of_nodup ((List.nodup_finRange c).filter _)]
  congr 1
  ext j
  simp

/-- C129: `N` samples have at most `N - 1` non-zero components. -/
theorem C129_few_samples {env : LinEnv K L} (ha : ArgsortSpec env.argsort) (x : Mat K N c) (hN : 2 ≤ N) (hc : c ≠ 1)
    {vals : Vec K c} {vecs : Mat K c c} (he : env.eig c (covMat x) = .ok (vals, vecs))
    (hE : IsEig (covMat x) vals vecs) (hO : OrthoCols vecs) :
    ∃ comps, pcaComponents env x = .ok comps ∧ (comps.filter (· ≠ 0)).length + 1 ≤ N := by
  obtain ⟨l, h1, h2⟩ := C129_dimension ha x hN hc he hE hO
  refine ⟨l, h1, ?_⟩
  rw [h2]
  obtain ⟨M, rfl⟩ : ∃ M, N = M + 1 := ⟨N - 1, by omega⟩
  have hle : Submodule.span K (Set.range fun p : Fin (M + 1) × Fin (M + 1) => x p.1 - x p.2)
      ≤ Submodule.span K (Set.range fun k : Fin M => x k.succ - x 0) := by
    have h0 : ∀ k : Fin (M + 1), x k - x 0 ∈ Submodule.span K (Set.range fun k : Fin M => x k.succ - x 0) := by
      intro k
      refine Fin.cases ?_ (fun k => ?_) k
      · rw [sub_self]; exact Submodule.zero_mem _
      · exact Submodule.subset_span ⟨k, rfl⟩
    rw [Submodule.span_le]
    rintro _ ⟨⟨k, l⟩, rfl⟩
    have := Submodule.sub_mem _ (h0 k) (h0 l)
    simpa using this
  have h3 := Submodule.finrank_mono hle
  have h4 := finrank_range_le_card (R := K) fun k : Fin M => x k.succ - x 0
  rw [Fintype.card_fin] at h4
  unfold Set.finrank at h4
  unfold dataDim
  omega

/-- a direction has variance zero exactly if the samples do not differ along it -/
theorem dir_const (hN : 2 ≤ N) (x : Mat K N c) (u : Vec K c) :
    sampleVar (fun k => ∑ i, u i * x k i) = 0 ↔ ∀ k l, ∑ i, u i * (x k i - x l i) = 0 := by
  have hne : ((N - 1 : ℕ) : K) ≠ 0 := Nat.cast_ne_zero.mpr (by omega)
  have hN' : (N : K) ≠ 0 := Nat.cast_ne_zero.mpr (by omega)
  unfold sampleVar
  rw [div_eq_zero_iff, or_iff_left hne, sum_eq_zero_iff_of_nonneg fun k _ => sq_nonneg _]
  constructor
  · intro h k l
    have hk := sub_eq_zero.mp (pow_eq_zero_iff two_ne_zero |>.mp (h k (mem_univ _)))
    have hl := sub_eq_zero.mp (pow_eq_zero_iff two_ne_zero |>.mp (h l (mem_univ _)))
    simp only [mul_sub, sum_sub_distrib]
    exact sub_eq_zero.mpr (hk.trans hl.symm)
  · intro h k _
    have : ∀ l, ∑ i, u i * x l i = ∑ i, u i * x k i := by
      intro l
      have := h l k
      simp only [mul_sub, sum_sub_distrib] at this
      exact sub_eq_zero.mp this
    simp only [this, sum_const, card_univ, Fintype.card_fin, nsmul_eq_mul]
    rw [mul_div_cancel_left₀ _ hN']
    ring

/-- C129: `PCA(x, n)` never moves two samples apart, and it keeps all distances exactly if `n` is at least the dimension of the data. -/
theorem C129_distances {env : LinEnv K L} (ha : ArgsortSpec env.argsort) (x : Mat K N c) (n : ℕ) (h1 : 1 ≤ n) (h2 : n < c)
    (hN : 2 ≤ N) {vals : Vec K c} {vecs : Mat K c c} (he : env.eig c (covMat x) = .ok (vals, vecs))
    (hE : IsEig (covMat x) vals vecs) (hO : OrthoCols vecs) :
    ∃ P : Mat K N n, pca env x n = .ok (List.ofFn fun k => List.ofFn (P k)) ∧
      (∀ k l, ∑ j, (P k j - P l j) ^ 2 ≤ ∑ i, (x k i - x l i) ^ 2) ∧
      ((∀ k l, ∑ j, (P k j - P l j) ^ 2 = ∑ i, (x k i - x l i) ^ 2) ↔ dataDim x ≤ n) := by
  obtain ⟨σ, hσ, hP⟩ := C57_projection ha x n h1 h2 hN he
  refine ⟨_, hP, ?_, ?_⟩
  · intro k l
    have := bessel (orthoDirs_cols hO h2.le σ) fun i => x k i - x l i
    simpa [mul_sub, sum_sub_distrib] using this
  · have hpar : ∀ k l, ∑ i, (x k i - x l i) ^ 2 = ∑ j, (∑ i, vecs i (σ j) * (x k i - x l i)) ^ 2 := by
      intro k l
      rw [(quad_eigen hE hO fun i => x k i - x l i).2]
      exact (Equiv.sum_comp σ fun j => (∑ i, vecs i j * (x k i - x l i)) ^ 2).symm
    have hcol : ∀ (k l : Fin N) (j : Fin n), (∑ i, vecs i (σ (Fin.castLE h2.le j)) * x k i) - (∑ i, vecs i (σ (Fin.castLE h2.le j)) * x l i)
        = ∑ i, vecs i (σ (Fin.castLE h2.le j)) * (x k i - x l i) := by
      intro k l j; simp only [mul_sub, sum_sub_distrib]
    simp only [hcol, hpar]
    have hval : ∀ j, vals j = sampleVar fun k => ∑ i, vecs i j * x k i := by
      intro j
      rw [sampleVar_dir]
      have h3 : ∀ i, ∑ b, covMat x i b * vecs b j = vals j * vecs i j := fun i => hE i j
      simp only [h3]
      have : ∑ i, vecs i j * (vals j * vecs i j) = vals j * ∑ i, vecs i j * vecs i j := by
        rw [mul_sum]; exact sum_congr rfl fun i _ => by ring
      rw [this, hO j j, if_pos rfl, mul_one]
    have hnn : ∀ j, 0 ≤ vals j := by
      intro j; rw [hval]; unfold sampleVar
      exact div_nonneg (sum_nonneg fun _ _ => sq_nonneg _) (Nat.cast_nonneg _)
    -- equality means that nothing varies along the discarded directions
    have hsplit : ∀ f : Fin c → K, (∀ j, 0 ≤ f j) → (∑ j : Fin n, f (Fin.castLE h2.le j) = ∑ j, f j ↔ ∀ j : Fin c, n ≤ j.val → f j = 0) := by
      intro f hf
      obtain ⟨m, rfl⟩ := Nat.exists_eq_add_of_le h2.le
      rw [Fin.sum_univ_add]
      have e1 : ∑ j : Fin n, f (Fin.castLE h2.le j) = ∑ j : Fin n, f (Fin.castAdd m j) := rfl
      rw [e1]
      constructor
      · intro h j hj
        have h0 : ∑ i, f (Fin.natAdd n i) = 0 := by linarith
        rw [sum_eq_zero_iff_of_nonneg fun i _ => hf _] at h0
        have := h0 ⟨j.val - n, by omega⟩ (mem_univ _)
        rw [← this]; congr 1; ext; simp; omega
      · intro h
        rw [sum_eq_zero fun i _ => h (Fin.natAdd n i) (by simp), add_zero]
    have hL : (∀ k l, ∑ j : Fin n, (∑ i, vecs i (σ (Fin.castLE h2.le j)) * (x k i - x l i)) ^ 2
        = ∑ j, (∑ i, vecs i (σ j) * (x k i - x l i)) ^ 2) ↔ ∀ j : Fin c, n ≤ j.val → vals (σ j) = 0 := by
      have : ∀ k l, (∑ j : Fin n, (∑ i, vecs i (σ (Fin.castLE h2.le j)) * (x k i - x l i)) ^ 2
        = ∑ j, (∑ i, vecs i (σ j) * (x k i - x l i)) ^ 2) ↔ ∀ j : Fin c, n ≤ j.val → (∑ i, vecs i (σ j) * (x k i - x l i)) ^ 2 = 0 := fun k l =>
        hsplit (fun j => (∑ i, vecs i (σ j) * (x k i - x l i)) ^ 2) fun j => sq_nonneg _
      simp only [this]
      constructor
      · intro h j hj
        rw [hval, dir_const hN]
        intro k l
        exact pow_eq_zero_iff two_ne_zero |>.mp (h k l j hj)
      · intro h k l j hj
        have := h j hj
        rw [hval, dir_const hN] at this
        rw [this k l]; ring
    rw [hL, ← rank_covMat hN x, rank_of_eig hE hO]
    have hcard : #{j | vals j ≠ 0} = #{j | vals (σ j) ≠ 0} := by
      refine (card_bij (fun j _ => σ j) (fun j hj => by simpa using hj) (fun _ _ _ _ h => σ.injective h) fun j hj => ?_).symm
      exact ⟨σ.symm j, by simpa using hj, by simp⟩
    rw [hcard]
    constructor
    · intro h
      calc #{j | vals (σ j) ≠ 0} ≤ #{j : Fin c | j.val < n} := by
            apply card_le_card
            intro j hj
            simp only [mem_filter, mem_univ, true_and] at hj ⊢
            by_contra hlt
            exact hj (h j (by omega))
        _ ≤ n := by
            rw [Fin.card_filter_val_lt]; omega
    · intro h j hj
      by_contra hne
      have hpos : ∀ i : Fin c, i.val ≤ j.val → vals (σ i) ≠ 0 := by
        intro i hi
        have := hσ i j hi
        have h5 := lt_of_le_of_ne (hnn (σ j)) (Ne.symm hne)
        exact (lt_of_lt_of_le h5 this).ne'
      have : j.val + 1 ≤ #{j | vals (σ j) ≠ 0} := by
        calc j.val + 1 = #{i : Fin c | i.val < j.val + 1} := by
              rw [Fin.card_filter_val_lt]; omega
          _ ≤ _ := by
            apply card_le_card
            intro i hi
            simp only [mem_filter, mem_univ, true_and] at hi ⊢
            exact hpos i (by omega)
      omega

/-- three samples with three attributes, on a line along the first axis: one component is not zero, one column is enough -/
def lineEx : Mat ℚ 3 3 := ![![1, 5, 2], ![2, 5, 2], ![6, 5, 2]]

/-- the hypotheses of the theorems above hold for `lineEx`, which has dimension 1 -/
example : ArgsortSpec (sortEnv eigDiag).argsort ∧
    (∃ vals vecs, (sortEnv eigDiag).eig 3 (covMat lineEx) = .ok (vals, vecs) ∧ IsEig (covMat lineEx) vals vecs ∧ OrthoCols vecs) ∧ dataDim lineEx = 1 := by
  have hE : IsEig (covMat lineEx) (fun i => covMat lineEx i i) (eye 3) := by unfold IsEig; decide +kernel
  have hO : OrthoCols (K := ℚ) (eye 3) := by unfold OrthoCols; decide +kernel
  refine ⟨argsortSpec_sort, ⟨_, _, rfl, hE, hO⟩, ?_⟩
  rw [← rank_covMat (by norm_num), rank_of_eig hE hO]
  decide +kernel

/-! ## The eigenproblems are real -/

section real

theorem dot_symm {S : Matrix (Fin c) (Fin c) ℝ} (h : S.transpose = S) (u v : Fin c → ℝ) : u ⬝ᵥ S.mulVec v = v ⬝ᵥ S.mulVec u := by
  rw [Matrix.dotProduct_mulVec, ← Matrix.mulVec_transpose, h, dotProduct_comm]

/-- `B z = lam A z` with `A`, `B` symmetric, `A` positive semidefinite, has a solution with a non-real `lam` only if `A z = 0` -/
theorem pencil_real {A B : Matrix (Fin c) (Fin c) ℝ} (hA : A.transpose = A) (hB : B.transpose = B) (hp : ∀ u, 0 ≤ u ⬝ᵥ A.mulVec u)
    (hk : ∀ u, u ⬝ᵥ A.mulVec u = 0 → A.mulVec u = 0) {a b : ℝ} {u v : Fin c → ℝ} (h1 : B.mulVec u = a • A.mulVec u - b • A.mulVec v)
    (h2 : B.mulVec v = a • A.mulVec v + b • A.mulVec u) : b = 0 ∨ (A.mulVec u = 0 ∧ A.mulVec v = 0) := by
  have e1 := dot_symm hB u v
  rw [h1, h2, dotProduct_add, dotProduct_sub, dotProduct_smul, dotProduct_smul, dotProduct_smul, dotProduct_smul, dot_symm hA u v] at e1
  simp only [smul_eq_mul] at e1
  have e2 : b * (u ⬝ᵥ A.mulVec u + v ⬝ᵥ A.mulVec v) = 0 := by linarith
  rcases mul_eq_zero.mp e2 with h | h
  · exact Or.inl h
  · have hu := hp u
    have hv := hp v
    exact Or.inr ⟨hk u (by linarith), hk v (by linarith)⟩

theorem cplx_split {M : Matrix (Fin c) (Fin c) ℝ} {z : Fin c → ℂ} {lam : ℂ} (h : ∀ i, ∑ b, (M i b : ℂ) * z b = lam * z i) :
    M.mulVec (fun i => (z i).re) = lam.re • (fun i => (z i).re) - lam.im • (fun i => (z i).im) ∧
    M.mulVec (fun i => (z i).im) = lam.re • (fun i => (z i).im) + lam.im • (fun i => (z i).re) := by
  constructor <;> funext i
  · have := congrArg Complex.re (h i)
    rw [Complex.re_sum] at this
    simpa [Matrix.mulVec, dotProduct] using this
  · have := congrArg Complex.im (h i)
    rw [Complex.im_sum] at this
    simpa [Matrix.mulVec, dotProduct] using this

theorem cplx_ne_zero {z : Fin c → ℂ} (hz : z ≠ 0) : ¬ ((fun i => (z i).re) = 0 ∧ (fun i => (z i).im) = 0) := by
  rintro ⟨h1, h2⟩
  exact hz (funext fun i => Complex.ext (congrFun h1 i) (congrFun h2 i))

/-- C129: the matrix whose eigenvalues `PCA_components` lists has no eigenvalue in the complex numbers that is not a non-negative real number
(so a complex or negative entry can only come from rounding). -/
theorem C129_pca_real (x : Mat ℝ N c) (z : Fin c → ℂ) (hz : z ≠ 0) (lam : ℂ)
    (h : ∀ i, ∑ b, ((covMat x i b : ℝ) : ℂ) * z b = lam * z i) : lam.im = 0 ∧ 0 ≤ lam.re := by
  have hB : (Matrix.of (covMat x)).transpose = Matrix.of (covMat x) := by ext a b; exact covMat_symm x b a
  have hpos : ∀ u : Fin c → ℝ, 0 ≤ u ⬝ᵥ (Matrix.of (covMat x)).mulVec u := by
    intro u
    have := sampleVar_dir x u
    have h0 : 0 ≤ sampleVar fun k => ∑ i, u i * x k i := by
      unfold sampleVar; exact div_nonneg (sum_nonneg fun _ _ => sq_nonneg _) (Nat.cast_nonneg _)
    rw [this] at h0
    exact h0
  obtain ⟨e1, e2⟩ := cplx_split (M := Matrix.of (covMat x)) h
  have him : lam.im = 0 := by
    rcases pencil_real (A := 1) (B := Matrix.of (covMat x)) (by simp) hB (fun u => by
        rw [Matrix.one_mulVec]; exact sum_nonneg fun i _ => mul_self_nonneg _)
      (fun u hu => by rw [Matrix.one_mulVec] at hu ⊢; exact dotProduct_self_eq_zero.mp hu)
      (a := lam.re) (b := lam.im) (u := fun i => (z i).re) (v := fun i => (z i).im) (by simpa using e1) (by simpa using e2) with h | ⟨h1, h2⟩
    · exact h
    · rw [Matrix.one_mulVec] at h1 h2
      exact absurd ⟨h1, h2⟩ (cplx_ne_zero hz)
  refine ⟨him, ?_⟩
  rw [him, zero_smul] at e1 e2
  rw [sub_zero] at e1
  rw [add_zero] at e2
  have p1 := hpos fun i => (z i).re
  have p2 := hpos fun i => (z i).im
  rw [e1, dotProduct_smul, smul_eq_mul] at p1
  rw [e2, dotProduct_smul, smul_eq_mul] at p2
  have q1 : 0 ≤ (fun i => (z i).re) ⬝ᵥ (fun i => (z i).re) := sum_nonneg fun i _ => mul_self_nonneg _
  have q2 : 0 ≤ (fun i => (z i).im) ⬝ᵥ (fun i => (z i).im) := sum_nonneg fun i _ => mul_self_nonneg _
  by_contra hneg
  rw [not_le] at hneg
  have r1 : (fun i => (z i).re) ⬝ᵥ (fun i => (z i).re) = 0 := by nlinarith
  have r2 : (fun i => (z i).im) ⬝ᵥ (fun i => (z i).im) = 0 := by nlinarith
  exact cplx_ne_zero hz ⟨dotProduct_self_eq_zero.mp r1, dotProduct_self_eq_zero.mp r2⟩

variable [DecidableEq L]

/-- C129: the matrix whose eigenvalues `LDA_discriminants` lists is not symmetric, but it too has no eigenvalue in the complex numbers that is not a
non-negative real number. -/
theorem C129_lda_real (x : Mat ℝ N c) {labels : Fin N → L} {classes : List L} (hc : ClassList labels classes) {W : Mat ℝ c c}
    (hI : IsInv (scatterWithin x labels classes) W) (z : Fin c → ℂ) (hz : z ≠ 0) (lam : ℂ)
    (h : ∀ i, ∑ b, ((matMul W (scatterBetween x labels classes) i b : ℝ) : ℂ) * z b = lam * z i) : lam.im = 0 ∧ 0 ≤ lam.re := by
  generalize hSw : scatterWithin x labels classes = Sw at hI
  generalize hSb : scatterBetween x labels classes = Sb at h
  have hA : (Matrix.of Sw).transpose = Matrix.of Sw := by rw [← hSw]; ext a b; exact (C59_symmetric x hc b a).1
  have hB : (Matrix.of Sb).transpose = Matrix.of Sb := by rw [← hSb]; ext a b; exact (C59_symmetric x hc b a).2
  have hp : ∀ u : Fin c → ℝ, 0 ≤ u ⬝ᵥ (Matrix.of Sw).mulVec u := by
    intro u; rw [← hSw, dot_mulVec_eq]; exact (C59_semidefinite x hc u).1
  have hq : ∀ u : Fin c → ℝ, 0 ≤ u ⬝ᵥ (Matrix.of Sb).mulVec u := by
    intro u; rw [← hSb, dot_mulVec_eq]; exact (C59_semidefinite x hc u).2
  have hk : ∀ u : Fin c → ℝ, u ⬝ᵥ (Matrix.of Sw).mulVec u = 0 → (Matrix.of Sw).mulVec u = 0 := by
    intro u hu
    rw [dot_mulVec_eq, ← hSw] at hu
    funext a
    have := within_kernel x hc u hu a
    rw [hSw] at this
    simpa [Matrix.mulVec, dotProduct] using this
  have hM : Matrix.of Sw * Matrix.of W = 1 := by
    ext a b
    simp only [Matrix.mul_apply, Matrix.of_apply, Matrix.one_apply]
    exact hI a b
  have hM' := mul_eq_one_comm.mp hM
  have hz0 : ∀ u : Fin c → ℝ, (Matrix.of Sw).mulVec u = 0 → u = 0 := by
    intro u hu
    have : (Matrix.of W * Matrix.of Sw).mulVec u = 0 := by rw [← Matrix.mulVec_mulVec, hu, Matrix.mulVec_zero]
    rwa [hM', Matrix.one_mulVec] at this
  have hmat : Matrix.of (matMul W Sb) = Matrix.of W * Matrix.of Sb := by
    ext a b; simp [matMul_eq, Matrix.mul_apply]
  obtain ⟨e1, e2⟩ := cplx_split (M := Matrix.of (matMul W Sb)) h
  have push : ∀ u w : Fin c → ℝ, (Matrix.of (matMul W Sb)).mulVec u = w → (Matrix.of Sb).mulVec u = (Matrix.of Sw).mulVec w := by
    intro u w hw
    rw [← hw, hmat, Matrix.mulVec_mulVec, ← Matrix.mul_assoc, hM, Matrix.one_mul]
  have g1 := push _ _ e1
  have g2 := push _ _ e2
  rw [Matrix.mulVec_sub, Matrix.mulVec_smul, Matrix.mulVec_smul] at g1
  rw [Matrix.mulVec_add, Matrix.mulVec_smul, Matrix.mulVec_smul] at g2
  have him : lam.im = 0 := by
    rcases pencil_real hA hB hp hk g1 g2 with h | ⟨h1, h2⟩
    · exact h
    · exact absurd ⟨hz0 _ h1, hz0 _ h2⟩ (cplx_ne_zero hz)
  refine ⟨him, ?_⟩
  rw [him, zero_smul] at g1 g2
  rw [sub_zero] at g1
  rw [add_zero] at g2
  have p1 := hq fun i => (z i).re
  have p2 := hq fun i => (z i).im
  rw [g1, dotProduct_smul, smul_eq_mul] at p1
  rw [g2, dotProduct_smul, smul_eq_mul] at p2
  have q1 := hp fun i => (z i).re
  have q2 := hp fun i => (z i).im
  by_contra hneg
  rw [not_le] at hneg
  have r1 : (fun i => (z i).re) ⬝ᵥ (Matrix.of Sw).mulVec (fun i => (z i).re) = 0 := by nlinarith
  have r2 : (fun i => (z i).im) ⬝ᵥ (Matrix.of Sw).mulVec (fun i => (z i).im) = 0 := by nlinarith
  exact cplx_ne_zero hz ⟨hz0 _ (hk _ r1), hz0 _ (hk _ r2)⟩

/-- the hypotheses of `C129_lda_real`: two classes with scatter in both directions -/
example : ∃ (x : Mat ℝ 4 2) (labels : Fin 4 → ℕ) (classes : List ℕ) (W : Mat ℝ 2 2), ClassList labels classes ∧ IsInv (scatterWithin x labels classes) W := by
  refine ⟨![![1, 1], ![3, -1], ![-1, 1], ![-3, -1]], ![7, 7, 3, 3], [7, 3], ![![1 / 4, 0], ![0, 1 / 4]], ?_, ?_⟩
  · refine ⟨by decide, fun a => ⟨fun h => ?_, ?_⟩⟩
    · have h' : a = 7 ∨ a = 3 := by simpa using h
      rcases h' with rfl | rfl
      · exact ⟨0, rfl⟩
      · exact ⟨2, rfl⟩
    · rintro ⟨k, rfl⟩
      revert k; decide
  · have h1 : rowsOf (![7, 7, 3, 3] : Fin 4 → ℕ) 7 = [0, 1] := by decide
    have h2 : rowsOf (![7, 7, 3, 3] : Fin 4 → ℕ) 3 = [2, 3] := by decide
    intro i j
    fin_cases i <;> fin_cases j <;>
      simp [Fin.sum_univ_two, scatterWithin, matSum, classMean, outer, h1, h2, Scalar.nat] <;> norm_num

end real

end Padasip
