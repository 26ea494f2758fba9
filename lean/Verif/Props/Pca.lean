import Verif.Spec.Linalg
import Verif.Lemmas.Field
import Mathlib.Data.Fin.Tuple.Sort
import Mathlib.Analysis.Matrix.Spectrum
import Mathlib.LinearAlgebra.Matrix.NonsingularInverse

/-!
# C57-C60: PCA and LDA
-/

set_option linter.unusedSectionVars false
set_option linter.unusedSimpArgs false

namespace Padasip

open Finset

variable {K L : Type} [Field K] [LinearOrder K] [IsStrictOrderedRing K] {N c : ℕ}

/-- the order in which the eigenvectors are used: a permutation along which the eigenvalues do not increase -/
noncomputable def eigOrder {argsort : (c : ℕ) → Vec K c → Fin c → Fin c} (h : ArgsortSpec argsort) (vals : Vec K c) :
    Equiv.Perm (Fin c) := Equiv.ofBijective _ (h c fun i => -vals i).1

theorem eigOrder_anti {argsort : (c : ℕ) → Vec K c → Fin c → Fin c} (h : ArgsortSpec argsort) (vals : Vec K c)
    (i j : Fin c) (hij : i ≤ j) : vals (eigOrder h vals j) ≤ vals (eigOrder h vals i) := by
  have := (h c fun i => -vals i).2 i j hij
  exact neg_le_neg_iff.mp this

theorem take_ofFn' {α : Type} (f : Fin c → α) (n : ℕ) (hn : n ≤ c) :
    (List.ofFn f).take n = List.ofFn fun j : Fin n => f (Fin.castLE hn j) := by
  apply List.ext_getElem
  · simp [hn]
  · intro i h1 h2
    simp

theorem project_eq {env : LinEnv K L} (ha : ArgsortSpec env.argsort) (vals : Vec K c) (vecs : Mat K c c) (x : Mat K N c)
    (n : ℤ) (m : ℕ) (hm : m ≤ c) (hn : n = m ∨ (n < 0 ∧ n + c = m) ∨ (n < 0 ∧ n + c < 0 ∧ m = 0)) :
    project env vals vecs x n = List.ofFn fun k => List.ofFn fun j : Fin m =>
      ∑ i, vecs i (eigOrder ha vals (Fin.castLE hm j)) * x k i := by
  have h1 : pySliceTo (List.ofFn (env.argsort c fun i => -vals i)) n
      = List.ofFn fun j : Fin m => env.argsort c (fun i => -vals i) (Fin.castLE hm j) := by
    rw [← take_ofFn' _ m hm]
    unfold pySliceTo
    rw [List.length_ofFn]
    split
    · congr 1; omega
    · congr 1; omega
  unfold project
  simp only [h1]
  congr 1; funext k
  rw [List.map_ofFn]
  congr 1; funext j
  exact dot_eq _ _

/-! ## C57 -/

/-- C57: for `1 <= n < columns`, `PCA(x, n)` has one row per sample and `n` columns, and column `j` is the projection of the samples on the
eigenvector of the `j`-th largest eigenvalue of the covariance matrix (for whatever `np.linalg.eig` returned). -/
theorem C57_projection {env : LinEnv K L} (ha : ArgsortSpec env.argsort) (x : Mat K N c) (n : ℕ) (h1 : 1 ≤ n) (h2 : n < c)
    (hN : 2 ≤ N) {vals : Vec K c} {vecs : Mat K c c} (he : env.eig c (covMat x) = .ok (vals, vecs)) :
    ∃ order : Equiv.Perm (Fin c), (∀ i j, i ≤ j → vals (order j) ≤ vals (order i)) ∧
      pca env x n = .ok (List.ofFn fun k => List.ofFn fun j : Fin n => ∑ i, vecs i (order (Fin.castLE h2.le j)) * x k i) := by
  refine ⟨eigOrder ha vals, eigOrder_anti ha vals, ?_⟩
  have e1 : eigCov env x = .ok (vals, vecs) := by
    unfold eigCov
    rw [if_neg (by omega), he]
  unfold pca
  have hn0 : (n : ℤ) ≠ 0 := by omega
  simp only [hn0, if_false, e1]
  rw [if_neg (by push Not; exact_mod_cast h2), project_eq ha vals vecs x n n h2.le (Or.inl rfl)]

/-- C57: `n` omitted (or 0) means `columns - 1`. -/
theorem C57_default (env : LinEnv K L) (x : Mat K N c) : pca env x 0 = pca env x ((c : ℤ) - 1) := by
  unfold pca
  by_cases h : (c : ℤ) - 1 = 0
  · simp [h]
  · simp [h]

/-- C57: `n >= columns` (for a positive `n`) raises `AssertionError`, whatever the data. -/
theorem C57_too_many (env : LinEnv K L) (x : Mat K N c) (n : ℤ) (h1 : 0 < n) (h2 : c ≤ n) :
    pca env x n = .error .assertionError := by
  unfold pca
  simp only [h1.ne', if_false]
  rw [if_pos (by omega)]

/-- C57: a negative `n` is accepted and counts from the end: the result has `columns - |n|` columns (none if `|n| >= columns`). -/
theorem C57_negative {env : LinEnv K L} (ha : ArgsortSpec env.argsort) (x : Mat K N c) (n : ℕ) (h1 : 1 ≤ n) (hc : 2 ≤ c)
    (hN : 2 ≤ N) {vals : Vec K c} {vecs : Mat K c c} (he : env.eig c (covMat x) = .ok (vals, vecs)) :
    ∃ rows, pca env x (-(n : ℤ)) = .ok rows ∧ rows.length = N ∧ ∀ r ∈ rows, r.length = c - n := by
  have e1 : eigCov env x = .ok (vals, vecs) := by
    unfold eigCov
    rw [if_neg (by omega), he]
  unfold pca
  have hn0 : -(n : ℤ) ≠ 0 := by omega
  simp only [hn0, if_false, e1]
  rw [if_neg (by omega), project_eq ha vals vecs x (-(n : ℤ)) (c - n) (by omega) (by omega)]
  refine ⟨_, rfl, by simp, ?_⟩
  intro r hr
  obtain ⟨k, rfl⟩ := List.mem_ofFn.mp hr
  simp

/-- C57: one column, or fewer than two samples: `LinAlgError`. -/
theorem C57_degenerate (env : LinEnv K L) (x : Mat K N c) (h : c = 1 ∨ (N ≤ 1 ∧ c ≠ 0)) (n : ℤ) (hn : n < c) :
    pca env x n = .error .linAlgError ∧ pcaComponents env x = .error .linAlgError := by
  have e1 : eigCov env x = .error .linAlgError := if_pos h
  have hlt : ((if n = 0 then (c : ℤ) - 1 else n) : ℤ) < c := by split <;> omega
  refine ⟨?_, ?_⟩
  · unfold pca
    simp only [e1]
    rw [if_neg (by push Not; exact hlt)]
  · unfold pcaComponents
    rw [e1]

theorem sorted_ofFn_anti (f : Fin c → K) (h : ∀ i j, i ≤ j → f j ≤ f i) : (List.ofFn f).Pairwise (· ≥ ·) := by
  rw [List.pairwise_ofFn]
  intro i j hij
  exact h i j hij.le

/-- C57: `PCA_components(x)` is the decreasing rearrangement of the eigenvalues of the covariance matrix. -/
theorem C57_components {env : LinEnv K L} (ha : ArgsortSpec env.argsort) (x : Mat K N c) (hc : c ≠ 1) (hN : 2 ≤ N)
    {vals : Vec K c} {vecs : Mat K c c} (he : env.eig c (covMat x) = .ok (vals, vecs)) :
    ∃ l, pcaComponents env x = .ok l ∧ l.Perm (List.ofFn vals) ∧ l.Pairwise (· ≥ ·) := by
  have e1 : eigCov env x = .ok (vals, vecs) := by
    unfold eigCov
    rw [if_neg (by omega), he]
  unfold pcaComponents
  rw [e1]
  refine ⟨_, rfl, ?_, sorted_ofFn_anti _ (eigOrder_anti ha vals)⟩
  exact Equiv.Perm.ofFn_comp_perm (eigOrder ha vals) vals

/-- `np.linalg.eig`, `inv`, `argsort` as exact functions, for the examples: `argsort` is mathlib's stable sort. -/
def sortEnv (eig : (c : ℕ) → Mat ℚ c c → Except Err (Vec ℚ c × Mat ℚ c c)) : LinEnv ℚ ℕ where
  eig := eig
  inv := fun _ _ => .error .linAlgError
  argsort := fun _ v => Tuple.sort v
  setOrder := List.dedup

theorem argsortSpec_sort : ArgsortSpec (K := K) fun _ v => Tuple.sort v := fun _ v =>
  ⟨(Tuple.sort v).bijective, fun _ _ h => Tuple.monotone_sort v h⟩

/-- example data: four points, covariance matrix `diag (16/3, 4/3)` -/
def pcaEx : Mat ℚ 4 2 := ![![2, 1], ![-2, 1], ![2, -1], ![-2, -1]]

/-- an `eig` that is right on diagonal matrices -/
def eigDiag (c : ℕ) (A : Mat ℚ c c) : Except Err (Vec ℚ c × Mat ℚ c c) := .ok (fun i => A i i, eye c)

example : (1 ≤ 1 ∧ 1 < 2 ∧ 2 ≤ 4) ∧ ArgsortSpec (sortEnv eigDiag).argsort ∧
    ∃ vals vecs, (sortEnv eigDiag).eig 2 (covMat pcaEx) = .ok (vals, vecs) ∧
      IsEig (covMat pcaEx) vals vecs ∧ OrthoCols vecs ∧ vals = ![16 / 3, 4 / 3] :=
  ⟨by decide, argsortSpec_sort, _, _, rfl, by unfold IsEig; decide +kernel, by unfold OrthoCols; decide +kernel,
    by decide +kernel⟩

/-! ## C58 -/

theorem covMat_eq (x : Mat K N c) (a b : Fin c) :
    covMat x a b = (∑ k, (x k a - (∑ k, x k a) / N) * (x k b - (∑ k, x k b) / N)) / ((N - 1 : ℕ) : K) := by
  unfold covMat colMean
  simp only [vsum_eq]
  rfl

theorem covMat_symm (x : Mat K N c) (a b : Fin c) : covMat x a b = covMat x b a := by
  simp only [covMat_eq]
  congr 1
  exact sum_congr rfl fun k _ => mul_comm _ _

/-- the covariance of two linear functions of the data -/
theorem covMat_proj {m : ℕ} (x : Mat K N c) (V : Fin m → Fin c → K) (a b : Fin m) :
    covMat (fun k j => ∑ i, V j i * x k i) a b = ∑ i, V a i * ∑ j, covMat x i j * V b j := by
  have hdev : ∀ (j : Fin m) (k : Fin N), (∑ i, V j i * x k i) - (∑ k, ∑ i, V j i * x k i) / N
      = ∑ i, V j i * (x k i - (∑ k, x k i) / N) := by
    intro j k
    simp only [mul_sub, sum_sub_distrib]
    congr 1
    rw [sum_comm, sum_div]
    exact sum_congr rfl fun i _ => by rw [← mul_sum, mul_div_assoc]
  rw [covMat_eq]
  simp only [hdev, covMat_eq]
  generalize hD : (fun k i => x k i - (∑ k, x k i) / (N : K)) = D
  have hD' : ∀ k i, x k i - (∑ k, x k i) / (N : K) = D k i := fun k i => congrFun (congrFun hD k) i
  simp only [hD']
  have hr : ∀ i, V a i * ∑ j, (∑ k, D k i * D k j) / ((N - 1 : ℕ) : K) * V b j
      = ∑ j, ∑ k, V a i * D k i * (V b j * D k j) / ((N - 1 : ℕ) : K) := by
    intro i
    rw [mul_sum]
    refine sum_congr rfl fun j _ => ?_
    rw [sum_div, sum_mul, mul_sum]
    exact sum_congr rfl fun k _ => by ring
  simp only [hr]
  have hl : ∀ k, (∑ i, V a i * D k i) * (∑ j, V b j * D k j) = ∑ i, ∑ j, V a i * D k i * (V b j * D k j) := fun k =>
    sum_mul_sum _ _ _ _
  simp only [hl, sum_div]
  rw [sum_comm]
  exact sum_congr rfl fun i _ => sum_comm

/-- C58: if `np.linalg.eig` returns orthonormal eigenvectors of the covariance matrix, the columns of `PCA(x, n)` are uncorrelated and
their variances are the `n` largest eigenvalues in decreasing order, i.e. the first `n` entries of `PCA_components(x)`. -/
theorem C58_uncorrelated {env : LinEnv K L} (ha : ArgsortSpec env.argsort) (x : Mat K N c) (n : ℕ) (h1 : 1 ≤ n) (h2 : n < c)
    (hN : 2 ≤ N) {vals : Vec K c} {vecs : Mat K c c} (he : env.eig c (covMat x) = .ok (vals, vecs))
    (hE : IsEig (covMat x) vals vecs) (hO : OrthoCols vecs) :
    ∃ (P : Mat K N n) (comps : List K), pca env x n = .ok (List.ofFn fun k => List.ofFn (P k)) ∧
      pcaComponents env x = .ok comps ∧
      ∀ a b : Fin n, some (covMat P a b) = if a = b then comps[a.val]? else some 0 := by
  have e1 : eigCov env x = .ok (vals, vecs) := by
    unfold eigCov
    rw [if_neg (by omega), he]
  refine ⟨fun k j => ∑ i, vecs i (eigOrder ha vals (Fin.castLE h2.le j)) * x k i,
    List.ofFn fun j => vals (eigOrder ha vals j), ?_, ?_, ?_⟩
  · unfold pca
    have hn0 : (n : ℤ) ≠ 0 := by omega
    simp only [hn0, if_false, e1]
    rw [if_neg (by push Not; exact_mod_cast h2), project_eq ha vals vecs x n n h2.le (Or.inl rfl)]
  · unfold pcaComponents
    rw [e1]
    rfl
  · intro a b
    rw [covMat_proj x (fun j i => vecs i (eigOrder ha vals (Fin.castLE h2.le j))) a b]
    have h3 : ∀ i, ∑ j, covMat x i j * vecs j (eigOrder ha vals (Fin.castLE h2.le b))
        = vals (eigOrder ha vals (Fin.castLE h2.le b)) * vecs i (eigOrder ha vals (Fin.castLE h2.le b)) := fun i => hE i _
    simp only [h3]
    have h4 : ∑ i, vecs i (eigOrder ha vals (Fin.castLE h2.le a)) *
        (vals (eigOrder ha vals (Fin.castLE h2.le b)) * vecs i (eigOrder ha vals (Fin.castLE h2.le b)))
        = vals (eigOrder ha vals (Fin.castLE h2.le b)) * ∑ i, vecs i (eigOrder ha vals (Fin.castLE h2.le a)) *
          vecs i (eigOrder ha vals (Fin.castLE h2.le b)) := by
      rw [mul_sum]; exact sum_congr rfl fun i _ => by ring
    rw [h4, hO]
    by_cases hab : a = b
    · subst hab
      have hlt : a.val < c := lt_trans a.isLt h2
      simp [hlt]
      rfl
    · have : ¬ eigOrder ha vals (Fin.castLE h2.le a) = eigOrder ha vals (Fin.castLE h2.le b) := by
        intro h
        have := (eigOrder ha vals).injective h
        exact hab (Fin.ext (by simpa [Fin.ext_iff] using this))
      rw [if_neg this, if_neg hab, mul_zero]

theorem orthoRows {vecs : Mat K c c} (hO : OrthoCols vecs) (i k : Fin c) :
    ∑ j, vecs i j * vecs k j = if i = k then 1 else 0 := by
  have h1 : (Matrix.of vecs).transpose * Matrix.of vecs = 1 := by
    ext a b
    simp only [Matrix.mul_apply, Matrix.transpose_apply, Matrix.of_apply, Matrix.one_apply]
    exact hO a b
  have h2 := mul_eq_one_comm.mp h1
  have h3 := congrFun (congrFun h2 i) k
  simpa [Matrix.mul_apply, Matrix.one_apply] using h3

/-- the quadratic form in an orthonormal eigenbasis -/
theorem quad_eigen {A : Mat K c c} {vals : Vec K c} {vecs : Mat K c c} (hE : IsEig A vals vecs) (hO : OrthoCols vecs)
    (u : Vec K c) :
    (∑ i, u i * ∑ j, A i j * u j) = ∑ l, vals l * (∑ i, vecs i l * u i) ^ 2 ∧ (∑ i, u i ^ 2) = ∑ l, (∑ i, vecs i l * u i) ^ 2 := by
  have hexp : ∀ j, u j = ∑ l, vecs j l * ∑ i, vecs i l * u i := by
    intro j
    have : ∑ l, vecs j l * ∑ i, vecs i l * u i = ∑ i, (∑ l, vecs j l * vecs i l) * u i := by
      simp only [mul_sum, sum_mul]
      rw [sum_comm]
      exact sum_congr rfl fun i _ => sum_congr rfl fun l _ => by ring
    rw [this]
    simp [orthoRows hO]
  have hA : ∀ i, ∑ j, A i j * u j = ∑ l, vals l * vecs i l * ∑ k, vecs k l * u k := by
    intro i
    have : ∑ j, A i j * u j = ∑ j, A i j * ∑ l, vecs j l * ∑ k, vecs k l * u k :=
      sum_congr rfl fun j _ => by rw [← hexp j]
    rw [this]
    have h2 : ∀ j, A i j * ∑ l, vecs j l * ∑ k, vecs k l * u k = ∑ l, (A i j * vecs j l) * ∑ k, vecs k l * u k := by
      intro j; rw [mul_sum]; exact sum_congr rfl fun l _ => by ring
    simp only [h2]
    rw [sum_comm]
    refine sum_congr rfl fun l _ => ?_
    rw [← sum_mul, hE i l]
  refine ⟨?_, ?_⟩
  · have h3 : ∀ i, u i * ∑ j, A i j * u j = ∑ l, (vals l * ∑ k, vecs k l * u k) * (vecs i l * u i) := by
      intro i
      rw [hA, mul_sum]
      exact sum_congr rfl fun l _ => by ring
    simp only [h3]
    rw [sum_comm]
    refine sum_congr rfl fun l _ => ?_
    rw [← mul_sum]
    ring
  · have h3 : ∀ i, u i ^ 2 = ∑ l, (∑ k, vecs k l * u k) * (vecs i l * u i) := by
      intro i
      have h4 : u i ^ 2 = u i * ∑ l, vecs i l * ∑ k, vecs k l * u k := by rw [← hexp i, sq]
      rw [h4, mul_sum]
      exact sum_congr rfl fun l _ => by ring
    simp only [h3]
    rw [sum_comm]
    refine sum_congr rfl fun l _ => ?_
    rw [← mul_sum]
    ring

/-- the sample variance of the projections of the data on a direction `u` -/
theorem var_dir (x : Mat K N c) (u : Vec K c) :
    covMat (fun k (_ : Fin 1) => ∑ i, u i * x k i) 0 0 = ∑ i, u i * ∑ j, covMat x i j * u j :=
  covMat_proj x (fun _ : Fin 1 => u) 0 0

/-- C58: among all unit directions orthogonal to the eigenvectors of the `j` first components, none has a larger sample variance than
component `j`.  (`order` is the order of the eigenvectors in the output; `j = 0`: among all unit directions.) -/
theorem C58_maximal {env : LinEnv K L} (ha : ArgsortSpec env.argsort) (x : Mat K N c) (hN : 2 ≤ N) (hc : 2 ≤ c)
    {vals : Vec K c} {vecs : Mat K c c} (he : env.eig c (covMat x) = .ok (vals, vecs))
    (hE : IsEig (covMat x) vals vecs) (hO : OrthoCols vecs) :
    ∃ (order : Equiv.Perm (Fin c)) (comps : List K), pcaComponents env x = .ok comps ∧
      (∀ n : ℕ, (h1 : 1 ≤ n) → (h2 : n < c) → pca env x n
        = .ok (List.ofFn fun k => List.ofFn fun j : Fin n => ∑ i, vecs i (order (Fin.castLE h2.le j)) * x k i)) ∧
      ∀ (j : Fin c) (u : Vec K c), ∑ i, u i ^ 2 = 1 → (∀ l < j, ∑ i, vecs i (order l) * u i = 0) →
        ∃ v, comps[j.val]? = some v ∧ covMat (fun k (_ : Fin 1) => ∑ i, u i * x k i) 0 0 ≤ v := by
  have e1 : eigCov env x = .ok (vals, vecs) := by
    unfold eigCov
    rw [if_neg (by omega), he]
  refine ⟨eigOrder ha vals, List.ofFn fun j => vals (eigOrder ha vals j), ?_, ?_, ?_⟩
  · unfold pcaComponents
    rw [e1]
    rfl
  · intro n h1 h2
    unfold pca
    have hn0 : (n : ℤ) ≠ 0 := by omega
    simp only [hn0, if_false, e1]
    rw [if_neg (by push Not; exact_mod_cast h2), project_eq ha vals vecs x n n h2.le (Or.inl rfl)]
  · intro j u hu horth
    refine ⟨vals (eigOrder ha vals j), by simp, ?_⟩
    rw [var_dir, (quad_eigen hE hO u).1]
    have hu2 := (quad_eigen hE hO u).2
    rw [hu] at hu2
    calc ∑ l, vals l * (∑ i, vecs i l * u i) ^ 2
        = ∑ l, vals (eigOrder ha vals l) * (∑ i, vecs i (eigOrder ha vals l) * u i) ^ 2 :=
          (Equiv.sum_comp (eigOrder ha vals) fun l => vals l * (∑ i, vecs i l * u i) ^ 2).symm
      _ ≤ ∑ l, vals (eigOrder ha vals j) * (∑ i, vecs i (eigOrder ha vals l) * u i) ^ 2 := by
          refine sum_le_sum fun l _ => ?_
          rcases lt_or_ge l j with hl | hl
          · rw [horth l hl]; simp
          · exact mul_le_mul_of_nonneg_right (eigOrder_anti ha vals j l hl) (sq_nonneg _)
      _ = vals (eigOrder ha vals j) := by
          rw [← mul_sum, Equiv.sum_comp (eigOrder ha vals) fun l => (∑ i, vecs i l * u i) ^ 2, ← hu2, mul_one]

theorem vals_nonneg (x : Mat K N c)
    {vals : Vec K c} {vecs : Mat K c c} (hE : IsEig (covMat x) vals vecs) (hO : OrthoCols vecs) (j : Fin c) : 0 ≤ vals j := by
  have h1 : ∑ i, vecs i j * ∑ l, covMat x i l * vecs l j = vals j := by
    have : ∀ i, ∑ l, covMat x i l * vecs l j = vals j * vecs i j := fun i => hE i j
    simp only [this]
    have h2 : ∑ i, vecs i j * (vals j * vecs i j) = vals j * ∑ i, vecs i j * vecs i j := by
      rw [mul_sum]; exact sum_congr rfl fun i _ => by ring
    rw [h2, hO, if_pos rfl, mul_one]
  rw [← h1, ← var_dir x fun i => vecs i j, covMat_eq]
  exact div_nonneg (sum_nonneg fun k _ => mul_self_nonneg _) (Nat.cast_nonneg _)

/-- C58: the values of `PCA_components(x)` are not negative. -/
theorem C58_nonneg {env : LinEnv K L} (ha : ArgsortSpec env.argsort) (x : Mat K N c) (hN : 2 ≤ N) (hc : 2 ≤ c)
    {vals : Vec K c} {vecs : Mat K c c} (he : env.eig c (covMat x) = .ok (vals, vecs))
    (hE : IsEig (covMat x) vals vecs) (hO : OrthoCols vecs) :
    ∃ comps, pcaComponents env x = .ok comps ∧ ∀ v ∈ comps, 0 ≤ v := by
  obtain ⟨l, h1, h2, _⟩ := C57_components ha x (by omega) hN he
  refine ⟨l, h1, fun v hv => ?_⟩
  obtain ⟨j, rfl⟩ := List.mem_ofFn.mp (h2.mem_iff.mp hv)
  exact vals_nonneg x hE hO j

/-- C58: eigenvectors of length one belonging to pairwise different eigenvalues are orthonormal, because the covariance matrix is symmetric;
so the hypothesis of `C58_uncorrelated` only excludes a careless choice inside a multiple eigenvalue. -/
theorem C58_orthonormal_of_distinct (x : Mat K N c) {vals : Vec K c} {vecs : Mat K c c} (hE : IsEig (covMat x) vals vecs)
    (hd : Function.Injective vals) (h1 : ∀ j, ∑ i, vecs i j ^ 2 = 1) : OrthoCols vecs := by
  intro j l
  by_cases hjl : j = l
  · subst hjl
    rw [if_pos rfl, ← h1 j]
    exact sum_congr rfl fun i _ => by ring
  · rw [if_neg hjl]
    have e1 : ∑ i, vecs i j * ∑ b, covMat x i b * vecs b l = vals l * ∑ i, vecs i j * vecs i l := by
      have : ∀ i, ∑ b, covMat x i b * vecs b l = vals l * vecs i l := fun i => hE i l
      simp only [this, mul_sum]
      exact sum_congr rfl fun i _ => by ring
    have e2 : ∑ i, vecs i j * ∑ b, covMat x i b * vecs b l = vals j * ∑ i, vecs i j * vecs i l := by
      have h2 : ∑ i, vecs i j * ∑ b, covMat x i b * vecs b l = ∑ b, (∑ i, covMat x b i * vecs i j) * vecs b l := by
        simp only [mul_sum, sum_mul]
        rw [sum_comm]
        refine sum_congr rfl fun b _ => sum_congr rfl fun i _ => ?_
        rw [covMat_symm x i b]; ring
      have : ∀ b, ∑ i, covMat x b i * vecs i j = vals j * vecs b j := fun b => hE b j
      rw [h2]
      simp only [this, mul_sum]
      exact sum_congr rfl fun i _ => by ring
    have h3 : (vals l - vals j) * ∑ i, vecs i j * vecs i l = 0 := by
      rw [sub_mul, ← e1, ← e2, sub_self]
    rcases mul_eq_zero.mp h3 with h | h
    · exact absurd (hd (sub_eq_zero.mp h)).symm hjl
    · exact h

theorem colMean_proj {m : ℕ} (x : Mat K N c) (V : Fin m → Fin c → K) (j : Fin m) :
    colMean (fun k j => ∑ i, V j i * x k i) j = ∑ i, V j i * colMean x i := by
  unfold colMean
  simp only [vsum_eq]
  show (∑ k, ∑ i, V j i * x k i) / (N : K) = ∑ i, V j i * ((∑ k, x k i) / (N : K))
  rw [sum_comm, sum_div]
  exact sum_congr rfl fun i _ => by rw [← mul_sum, mul_div_assoc]

/-- C58: PCA does not centre the data: the column means of the result are the projections of the column means of `x`. -/
theorem C58_not_centred {env : LinEnv K L} (ha : ArgsortSpec env.argsort) (x : Mat K N c) (n : ℕ) (h1 : 1 ≤ n) (h2 : n < c)
    (hN : 2 ≤ N) {vals : Vec K c} {vecs : Mat K c c} (he : env.eig c (covMat x) = .ok (vals, vecs)) :
    ∃ (order : Equiv.Perm (Fin c)) (P : Mat K N n), pca env x n = .ok (List.ofFn fun k => List.ofFn (P k)) ∧
      ∀ j, (∑ k, P k j) / N = ∑ i, vecs i (order (Fin.castLE h2.le j)) * ((∑ k, x k i) / N) := by
  obtain ⟨order, _, h⟩ := C57_projection ha x n h1 h2 hN he
  refine ⟨order, _, h, fun j => ?_⟩
  have := colMean_proj x (fun j i => vecs i (order (Fin.castLE h2.le j))) j
  unfold colMean at this
  simp only [vsum_eq] at this
  exact this

/-- C58: over the reals every covariance matrix has a result that meets the contract (spectral theorem), so the theorems are not vacuous
for any data set. -/
theorem C58_contract_satisfiable (x : Mat ℝ N c) : ∃ vals vecs, IsEig (covMat x) vals vecs ∧ OrthoCols vecs := by
  have hH : (Matrix.of (covMat x)).IsHermitian := by
    ext a b
    simp only [Matrix.conjTranspose_apply, Matrix.of_apply, star_trivial]
    exact covMat_symm x b a
  refine ⟨hH.eigenvalues, fun i j => hH.eigenvectorBasis j i, ?_, ?_⟩
  · intro i j
    have := congrFun (hH.mulVec_eigenvectorBasis j) i
    simpa [Matrix.mulVec, dotProduct] using this
  · intro j l
    have := orthonormal_iff_ite.mp hH.eigenvectorBasis.orthonormal l j
    simp only [PiLp.inner_apply, RCLike.inner_apply, conj_trivial] at this
    rw [this]
    simp [eq_comm]

/-! ## C59 -/

section lda
variable [DecidableEq L]

/-- `classes` lists the labels that occur, each once (what iterating over `set(labels)` gives). -/
def ClassList {L : Type} (labels : Fin N → L) (classes : List L) : Prop :=
  classes.Nodup ∧ ∀ a, a ∈ classes ↔ ∃ k, labels k = a

theorem rowsOf_sum {α : Type} [AddCommMonoid α] (labels : Fin N → L) (cl : L) (f : Fin N → α) :
    ((rowsOf labels cl).map f).sum = ∑ k with labels k = cl, f k := by
  unfold rowsOf
  rw [← List.sum_toFinset _ ((List.nodup_finRange N).filter _)]
  congr 1
  ext k
  simp

theorem rowsOf_length (labels : Fin N → L) (cl : L) : (rowsOf labels cl).length = #{k | labels k = cl} := by
  have := rowsOf_sum labels cl fun _ => (1 : ℕ)
  simpa using this

theorem classes_sum {α : Type} [AddCommMonoid α] {classes : List L} {labels : Fin N → L} (h : ClassList labels classes) (f : L → α) :
    (classes.map f).sum = ∑ cl ∈ univ.image labels, f cl := by
  rw [← List.sum_toFinset _ h.1]
  congr 1
  ext a
  simp [h.2]

/-- the number of samples with label `cl` -/
def cnt (labels : Fin N → L) (cl : L) : K := (#{k | labels k = cl} : ℕ)

theorem classMean_eq (x : Mat K N c) (labels : Fin N → L) (cl : L) (a : Fin c) :
    classMean x labels cl a = (∑ k with labels k = cl, x k a) / cnt labels cl := by
  unfold classMean cnt
  rw [rowsOf_sum, rowsOf_length]
  rfl

theorem colMean_eq (x : Mat K N c) (a : Fin c) : colMean x a = (∑ k, x k a) / N := by
  unfold colMean; rw [vsum_eq]; rfl

theorem scatterWithin_eq (x : Mat K N c) {labels : Fin N → L} {classes : List L} (h : ClassList labels classes) (a b : Fin c) :
    scatterWithin x labels classes a b = ∑ cl ∈ univ.image labels, ∑ k with labels k = cl,
      (x k a - classMean x labels cl a) * (x k b - classMean x labels cl b) := by
  unfold scatterWithin matSum
  rw [List.map_map, classes_sum h]
  refine sum_congr rfl fun cl _ => ?_
  simp only [Function.comp]
  rw [List.map_map, rowsOf_sum]
  rfl

theorem scatterBetween_eq (x : Mat K N c) {labels : Fin N → L} {classes : List L} (h : ClassList labels classes) (a b : Fin c) :
    scatterBetween x labels classes a b = ∑ cl ∈ univ.image labels, cnt labels cl *
      ((classMean x labels cl a - colMean x a) * (classMean x labels cl b - colMean x b)) := by
  unfold scatterBetween matSum cnt
  rw [List.map_map, classes_sum h]
  refine sum_congr rfl fun cl _ => ?_
  simp only [Function.comp, rowsOf_length]
  rfl

theorem cnt_pos {labels : Fin N → L} {cl : L} (h : cl ∈ univ.image labels) : (0 : K) < cnt labels cl := by
  unfold cnt
  obtain ⟨k, _, hk⟩ := mem_image.mp h
  have : 0 < #{k | labels k = cl} := card_pos.mpr ⟨k, by simpa using hk⟩
  exact_mod_cast this

theorem fibre_sum (labels : Fin N → L) (f : Fin N → K) : ∑ cl ∈ univ.image labels, ∑ k with labels k = cl, f k = ∑ k, f k :=
  sum_fiberwise_of_maps_to (fun k _ => mem_image_of_mem _ (mem_univ k)) f

/-- C59: within-class scatter + between-class scatter = total scatter of the data about its mean. -/
theorem C59_decomposition (x : Mat K N c) {labels : Fin N → L} {classes : List L} (h : ClassList labels classes) (a b : Fin c) :
    scatterWithin x labels classes a b + scatterBetween x labels classes a b
      = ∑ k, (x k a - (∑ k, x k a) / N) * (x k b - (∑ k, x k b) / N) := by
  rw [scatterWithin_eq x h, scatterBetween_eq x h, ← sum_add_distrib, ← fibre_sum labels]
  refine sum_congr rfl fun cl hcl => ?_
  have hp := cnt_pos (K := K) hcl
  have hs : ∀ a, ∑ k with labels k = cl, x k a = cnt labels cl * classMean x labels cl a := fun a => by
    rw [classMean_eq]; field_simp
  simp only [colMean_eq]
  generalize (∑ k, x k a) / (N : K) = ma
  generalize (∑ k, x k b) / (N : K) = mb
  have hcs : ∀ r : K, ∑ k with labels k = cl, r = cnt labels cl * r := fun r => by
    rw [sum_const, nsmul_eq_mul]; rfl
  have e1 : ∀ u v : K, ∑ k with labels k = cl, (x k a - u) * (x k b - v)
      = ∑ k with labels k = cl, x k a * x k b - u * ∑ k with labels k = cl, x k b - v * ∑ k with labels k = cl, x k a
        + cnt labels cl * (u * v) := by
    intro u v
    rw [← hcs, mul_sum, mul_sum, ← sum_sub_distrib, ← sum_sub_distrib, ← sum_add_distrib]
    exact sum_congr rfl fun k _ => by ring
  rw [e1, e1, hs, hs]
  ring

/-- C59: both scatter matrices are symmetric. -/
theorem C59_symmetric (x : Mat K N c) {labels : Fin N → L} {classes : List L} (h : ClassList labels classes) (a b : Fin c) :
    scatterWithin x labels classes a b = scatterWithin x labels classes b a ∧
    scatterBetween x labels classes a b = scatterBetween x labels classes b a := by
  simp only [scatterWithin_eq x h, scatterBetween_eq x h]
  refine ⟨sum_congr rfl fun cl _ => sum_congr rfl fun k _ => mul_comm _ _, sum_congr rfl fun cl _ => ?_⟩
  ring

theorem quad_outer (u d : Vec K c) : ∑ a, ∑ b, u a * (d a * d b) * u b = (∑ a, u a * d a) ^ 2 := by
  rw [sq, sum_mul_sum]
  exact sum_congr rfl fun a _ => sum_congr rfl fun b _ => by ring

theorem quad_within (x : Mat K N c) {labels : Fin N → L} {classes : List L} (h : ClassList labels classes) (u : Vec K c) :
    ∑ a, ∑ b, u a * scatterWithin x labels classes a b * u b
      = ∑ cl ∈ univ.image labels, ∑ k with labels k = cl, (∑ a, u a * (x k a - classMean x labels cl a)) ^ 2 := by
  simp only [scatterWithin_eq x h, ← quad_outer, mul_sum, sum_mul]
  rw [sum_comm_cycle]
  refine sum_congr rfl fun cl _ => ?_
  rw [sum_comm_cycle]

theorem quad_between (x : Mat K N c) {labels : Fin N → L} {classes : List L} (h : ClassList labels classes) (u : Vec K c) :
    ∑ a, ∑ b, u a * scatterBetween x labels classes a b * u b
      = ∑ cl ∈ univ.image labels, cnt labels cl * (∑ a, u a * (classMean x labels cl a - colMean x a)) ^ 2 := by
  simp only [scatterBetween_eq x h, ← quad_outer, mul_sum, sum_mul]
  rw [sum_comm_cycle]
  refine sum_congr rfl fun cl _ => sum_congr rfl fun a _ => sum_congr rfl fun b _ => ?_
  ring

/-- C59: both scatter matrices are positive semidefinite. -/
theorem C59_semidefinite (x : Mat K N c) {labels : Fin N → L} {classes : List L} (h : ClassList labels classes) (u : Vec K c) :
    0 ≤ ∑ a, ∑ b, u a * scatterWithin x labels classes a b * u b ∧
    0 ≤ ∑ a, ∑ b, u a * scatterBetween x labels classes a b * u b := by
  rw [quad_within x h, quad_between x h]
  exact ⟨sum_nonneg fun cl _ => sum_nonneg fun k _ => sq_nonneg _,
    sum_nonneg fun cl hcl => mul_nonneg (cnt_pos hcl).le (sq_nonneg _)⟩

/-- C59: the scatter matrices do not depend on the order in which Python iterates over the set of labels. -/
theorem C59_class_order (x : Mat K N c) {labels : Fin N → L} {classes classes' : List L} (h : ClassList labels classes)
    (h' : ClassList labels classes') :
    scatterWithin x labels classes = scatterWithin x labels classes' ∧
    scatterBetween x labels classes = scatterBetween x labels classes' := by
  refine ⟨?_, ?_⟩ <;> funext a b
  · rw [scatterWithin_eq x h, scatterWithin_eq x h']
  · rw [scatterBetween_eq x h, scatterBetween_eq x h']

theorem classList_setOrder {env : LinEnv K L} (hs : SetOrderSpec env.setOrder) (labels : Fin N → L) :
    ClassList labels (env.setOrder (List.ofFn labels)) :=
  ⟨(hs _).1, fun a => by rw [(hs _).2, List.mem_ofFn]⟩

/-- C59: `LDA` and `LDA_discriminants` do not depend on the iteration order of the set. -/
theorem C59_hash_independent {env env' : LinEnv K L} (hs : SetOrderSpec env.setOrder) (hs' : SetOrderSpec env'.setOrder)
    (h1 : env.eig = env'.eig) (h2 : env.inv = env'.inv) (h3 : env.argsort = env'.argsort) (x : Mat K N c) (labels : Fin N → L) (n : ℤ) :
    lda env x labels n = lda env' x labels n ∧ ldaDiscriminants env x labels = ldaDiscriminants env' x labels := by
  obtain ⟨e1, e2⟩ := C59_class_order x (classList_setOrder hs labels) (classList_setOrder hs' labels)
  have : ldaBase env x labels = ldaBase env' x labels := by
    unfold ldaBase
    simp only [e1, e2, h1, h2]
  unfold lda ldaDiscriminants project
  simp only [this, h3, true_and]

/-- C59: permuting the samples together with their labels, and renaming the labels injectively, changes neither scatter matrix. -/
theorem C59_permute_rename {L' : Type} [DecidableEq L'] (x : Mat K N c) {labels : Fin N → L} {classes : List L} {classes' : List L'}
    (σ : Equiv.Perm (Fin N)) (ρ : L → L') (hρ : Function.Injective ρ) (h : ClassList labels classes)
    (h' : ClassList (fun k => ρ (labels (σ k))) classes') :
    scatterWithin (fun k => x (σ k)) (fun k => ρ (labels (σ k))) classes' = scatterWithin x labels classes ∧
    scatterBetween (fun k => x (σ k)) (fun k => ρ (labels (σ k))) classes' = scatterBetween x labels classes := by
  have him : univ.image (fun k => ρ (labels (σ k))) = (univ.image labels).image ρ := by
    ext a
    simp only [mem_image, mem_univ, true_and, exists_exists_eq_and]
    exact ⟨fun ⟨k, hk⟩ => ⟨σ k, hk⟩, fun ⟨k, hk⟩ => ⟨σ.symm k, by simpa using hk⟩⟩
  have hfil : ∀ (cl : L) (f : Fin N → K), ∑ k with ρ (labels (σ k)) = ρ cl, f (σ k) = ∑ k with labels k = cl, f k := by
    intro cl f
    simp only [hρ.eq_iff, sum_filter]
    exact Equiv.sum_comp σ fun k => if labels k = cl then f k else 0
  have hcnt : ∀ cl, (cnt (fun k => ρ (labels (σ k))) (ρ cl) : K) = cnt labels cl := by
    intro cl
    have := hfil cl fun _ => 1
    simpa [cnt] using this
  have hcm : ∀ cl a, classMean (fun k => x (σ k)) (fun k => ρ (labels (σ k))) (ρ cl) a = classMean x labels cl a := by
    intro cl a
    rw [classMean_eq, classMean_eq, hcnt, hfil cl fun k => x k a]
  have hm : ∀ a, colMean (fun k => x (σ k)) a = colMean x a := by
    intro a
    rw [colMean_eq, colMean_eq, Equiv.sum_comp σ fun k => x k a]
  refine ⟨?_, ?_⟩ <;> funext a b
  · rw [scatterWithin_eq _ h', scatterWithin_eq x h, him, sum_image fun _ _ _ _ h => hρ h]
    refine sum_congr rfl fun cl _ => ?_
    simp only [hcm]
    exact hfil cl fun k => (x k a - classMean x labels cl a) * (x k b - classMean x labels cl b)
  · rw [scatterBetween_eq _ h', scatterBetween_eq x h, him, sum_image fun _ _ _ _ h => hρ h]
    refine sum_congr rfl fun cl _ => ?_
    simp only [hcm, hcnt, hm]

/-- C59: ... and the LDA result is the same up to the order of its rows. -/
theorem C59_lda_permute_rename {L' : Type} [DecidableEq L'] {env : LinEnv K L} {env' : LinEnv K L'} (hs : SetOrderSpec env.setOrder)
    (hs' : SetOrderSpec env'.setOrder) (h1 : env.eig = env'.eig) (h2 : env.inv = env'.inv) (h3 : env.argsort = env'.argsort)
    (x : Mat K N c) (labels : Fin N → L) (n : ℤ) (σ : Equiv.Perm (Fin N)) (ρ : L → L') (hρ : Function.Injective ρ)
    {R : Fin N → List K} (h : lda env x labels n = .ok (List.ofFn R)) :
    lda env' (fun k => x (σ k)) (fun k => ρ (labels (σ k))) n = .ok (List.ofFn fun k => R (σ k)) ∧
    ldaDiscriminants env' (fun k => x (σ k)) (fun k => ρ (labels (σ k))) = ldaDiscriminants env x labels := by
  obtain ⟨e1, e2⟩ := C59_permute_rename x σ ρ hρ (classList_setOrder hs labels)
    (classList_setOrder hs' fun k => ρ (labels (σ k)))
  have hb : ldaBase env' (fun k => x (σ k)) (fun k => ρ (labels (σ k))) = ldaBase env x labels := by
    unfold ldaBase
    simp only [e1, e2, h1, h2]
  refine ⟨?_, by unfold ldaDiscriminants; rw [hb, h3]⟩
  unfold lda project at h ⊢
  rw [hb]
  by_cases hc : (c : ℤ) > if n = 0 then (c : ℤ) - 1 else n
  · simp only [hc, not_true_eq_false, if_false] at h ⊢
    rcases hl : ldaBase env x labels with e | ⟨vals, vecs⟩
    · rw [hl] at h; cases h
    · rw [hl] at h
      simp only [Except.ok.injEq] at h ⊢
      have h4 := List.ofFn_injective h
      rw [← h3, ← h4]
  · simp only [hc, not_false_eq_true, if_true] at h
    cases h

/-! ## C60 -/

theorem lda_projection {env : LinEnv K L} (ha : ArgsortSpec env.argsort) (x : Mat K N c) (labels : Fin N → L) (n : ℕ) (h1 : 1 ≤ n)
    (h2 : n < c) {vals : Vec K c} {vecs : Mat K c c} (he : ldaBase env x labels = .ok (vals, vecs)) :
    ∃ order : Equiv.Perm (Fin c), (∀ i j, i ≤ j → vals (order j) ≤ vals (order i)) ∧
      lda env x labels n
        = .ok (List.ofFn fun k => List.ofFn fun j : Fin n => ∑ i, vecs i (order (Fin.castLE h2.le j)) * x k i) := by
  refine ⟨eigOrder ha vals, eigOrder_anti ha vals, ?_⟩
  unfold lda
  have hn0 : (n : ℤ) ≠ 0 := by omega
  simp only [hn0, if_false, he]
  rw [if_neg (by push Not; exact_mod_cast h2), project_eq ha vals vecs x n n h2.le (Or.inl rfl)]

/-- C60: for `1 <= n < columns`, `LDA(x, labels, n)` has one row per sample and `n` columns, and column `j` is the projection of the samples on
the eigenvector of the `j`-th largest eigenvalue of `W S_B`, where `W` is the returned inverse of the within-class scatter `S_W` and
`S_B` is the between-class scatter (for whatever `np.linalg.eig` returned). -/
theorem C60_projection {env : LinEnv K L} (ha : ArgsortSpec env.argsort) (x : Mat K N c) (labels : Fin N → L) (n : ℕ) (h1 : 1 ≤ n)
    (h2 : n < c) {W : Mat K c c} {vals : Vec K c} {vecs : Mat K c c}
    (hi : env.inv c (scatterWithin x labels (env.setOrder (List.ofFn labels))) = .ok W)
    (he : env.eig c (matMul W (scatterBetween x labels (env.setOrder (List.ofFn labels)))) = .ok (vals, vecs)) :
    ∃ order : Equiv.Perm (Fin c), (∀ i j, i ≤ j → vals (order j) ≤ vals (order i)) ∧
      lda env x labels n
        = .ok (List.ofFn fun k => List.ofFn fun j : Fin n => ∑ i, vecs i (order (Fin.castLE h2.le j)) * x k i) :=
  lda_projection ha x labels n h1 h2 (by unfold ldaBase; simp only [hi, he])

/-- C60: `n` omitted (or 0) means `columns - 1`; `n >= columns` raises `AssertionError` before anything is computed. -/
theorem C60_default (env : LinEnv K L) (x : Mat K N c) (labels : Fin N → L) :
    lda env x labels 0 = lda env x labels ((c : ℤ) - 1) ∧
    ∀ n : ℤ, 0 < n → c ≤ n → lda env x labels n = .error .assertionError := by
  refine ⟨?_, fun n h1 h2 => ?_⟩
  · unfold lda
    by_cases h : (c : ℤ) - 1 = 0
    · simp [h]
    · simp [h]
  · unfold lda
    simp only [h1.ne', if_false]
    rw [if_pos (by omega)]

theorem lda_discriminants {env : LinEnv K L} (ha : ArgsortSpec env.argsort) (x : Mat K N c) (labels : Fin N → L)
    {vals : Vec K c} {vecs : Mat K c c} (he : ldaBase env x labels = .ok (vals, vecs)) :
    ∃ l, ldaDiscriminants env x labels = .ok l ∧ l.Perm (List.ofFn vals) ∧ l.Pairwise (· ≥ ·) := by
  unfold ldaDiscriminants
  rw [he]
  refine ⟨_, rfl, ?_, sorted_ofFn_anti _ (eigOrder_anti ha vals)⟩
  exact Equiv.Perm.ofFn_comp_perm (eigOrder ha vals) vals

/-- C60: `LDA_discriminants` is the decreasing rearrangement of the eigenvalues of `W S_B`, `W` the returned inverse of `S_W`. -/
theorem C60_discriminants {env : LinEnv K L} (ha : ArgsortSpec env.argsort) (x : Mat K N c) (labels : Fin N → L)
    {W : Mat K c c} {vals : Vec K c} {vecs : Mat K c c}
    (hi : env.inv c (scatterWithin x labels (env.setOrder (List.ofFn labels))) = .ok W)
    (he : env.eig c (matMul W (scatterBetween x labels (env.setOrder (List.ofFn labels)))) = .ok (vals, vecs)) :
    ∃ l, ldaDiscriminants env x labels = .ok l ∧ l.Perm (List.ofFn vals) ∧ l.Pairwise (· ≥ ·) :=
  lda_discriminants ha x labels (vecs := vecs) (by unfold ldaBase; simp only [hi, he])

/-- C60: an error of `np.linalg.inv` (singular within-class scatter) is passed on. -/
theorem C60_singular {env : LinEnv K L} (x : Mat K N c) (labels : Fin N → L) (n : ℤ) (hn : n < c) {err : Err}
    (h : env.inv c (scatterWithin x labels (env.setOrder (List.ofFn labels))) = .error err) :
    lda env x labels n = .error err ∧ ldaDiscriminants env x labels = .error err := by
  have hb : ldaBase env x labels = .error err := by
    unfold ldaBase; simp only [h]
  have hlt : ((if n = 0 then (c : ℤ) - 1 else n) : ℤ) < c := by split <;> omega
  refine ⟨?_, by unfold ldaDiscriminants; rw [hb]⟩
  unfold lda
  simp only [hb]
  rw [if_neg (by push Not; exact hlt)]

/-- a direction in which the within-class scatter vanishes is in its kernel -/
theorem within_kernel (x : Mat K N c) {labels : Fin N → L} {classes : List L} (h : ClassList labels classes) (u : Vec K c)
    (h0 : ∑ a, ∑ b, u a * scatterWithin x labels classes a b * u b = 0) (a : Fin c) :
    ∑ b, scatterWithin x labels classes a b * u b = 0 := by
  rw [quad_within x h, sum_eq_zero_iff_of_nonneg fun cl _ => sum_nonneg fun k _ => sq_nonneg _] at h0
  have hz : ∀ cl ∈ univ.image labels, ∀ k, labels k = cl → ∑ a, u a * (x k a - classMean x labels cl a) = 0 := by
    intro cl hcl k hk
    have h1 := h0 cl hcl
    rw [sum_eq_zero_iff_of_nonneg fun k _ => sq_nonneg _] at h1
    exact pow_eq_zero_iff (two_ne_zero) |>.mp (h1 k (by simpa using hk))
  have e : ∑ b, scatterWithin x labels classes a b * u b = ∑ cl ∈ univ.image labels, ∑ k with labels k = cl,
      (x k a - classMean x labels cl a) * ∑ b, u b * (x k b - classMean x labels cl b) := by
    simp only [scatterWithin_eq x h, sum_mul, mul_sum]
    rw [sum_comm]
    refine sum_congr rfl fun cl _ => ?_
    rw [sum_comm]
    exact sum_congr rfl fun k _ => sum_congr rfl fun b _ => by ring
  rw [e]
  refine sum_eq_zero fun cl hcl => sum_eq_zero fun k hk => ?_
  rw [hz cl hcl k (by simpa using hk), mul_zero]

theorem gen_eig_nonneg (x : Mat K N c) {labels : Fin N → L} {classes : List L} (h : ClassList labels classes) {W : Mat K c c}
    (hI : IsInv (scatterWithin x labels classes) W) {vals : Vec K c} {vecs : Mat K c c}
    (hE : IsEig (matMul W (scatterBetween x labels classes)) vals vecs) {j : Fin c} (h0 : ∃ i, vecs i j ≠ 0) : 0 ≤ vals j := by
  generalize hSw : scatterWithin x labels classes = Sw at hI
  generalize hSb : scatterBetween x labels classes = Sb at hE
  have hM : Matrix.of Sw * Matrix.of W = 1 := by
    ext a b
    simp only [Matrix.mul_apply, Matrix.of_apply, Matrix.one_apply]
    exact hI a b
  have hM' := mul_eq_one_comm.mp hM
  have hv : (Matrix.of W * Matrix.of Sb).mulVec (fun i => vecs i j) = vals j • fun i => vecs i j := by
    funext i
    have := hE i j
    simp only [matMul_eq] at this
    simpa [Matrix.mulVec, dotProduct, Matrix.mul_apply] using this
  have hgen : (Matrix.of Sb).mulVec (fun i => vecs i j) = vals j • (Matrix.of Sw).mulVec (fun i => vecs i j) := by
    rw [← Matrix.mulVec_smul, ← hv, Matrix.mulVec_mulVec, ← Matrix.mul_assoc, hM, Matrix.one_mul]
  have hq : ∀ S : Mat K c c, ∑ a, ∑ b, vecs a j * S a b * vecs b j = ∑ a, vecs a j * (Matrix.of S).mulVec (fun i => vecs i j) a := by
    intro S
    refine sum_congr rfl fun a _ => ?_
    simp only [Matrix.mulVec, dotProduct, Matrix.of_apply, mul_sum]
    exact sum_congr rfl fun b _ => by ring
  obtain ⟨p1, p2⟩ := C59_semidefinite x h fun i => vecs i j
  have hk := within_kernel x h fun i => vecs i j
  rw [hSw] at p1 hk
  rw [hSb] at p2
  have e2 : ∑ a, ∑ b, vecs a j * Sb a b * vecs b j = vals j * ∑ a, ∑ b, vecs a j * Sw a b * vecs b j := by
    rw [hq, hq, hgen, mul_sum]
    exact sum_congr rfl fun a _ => by simp only [Pi.smul_apply, smul_eq_mul]; ring
  rw [e2] at p2
  by_contra hneg
  rw [not_le] at hneg
  have hz : ∑ a, ∑ b, vecs a j * Sw a b * vecs b j = 0 := by
    rcases p1.lt_or_eq with hlt | heq
    · exact absurd p2 (not_le.mpr (mul_neg_of_neg_of_pos hneg hlt))
    · exact heq.symm
  have hk0 : (Matrix.of Sw).mulVec (fun i => vecs i j) = 0 := by
    funext a
    have := hk hz a
    simpa [Matrix.mulVec, dotProduct] using this
  obtain ⟨i, hi⟩ := h0
  apply hi
  have h5 : (Matrix.of W * Matrix.of Sw).mulVec (fun i => vecs i j) = 0 := by
    rw [← Matrix.mulVec_mulVec, hk0, Matrix.mulVec_zero]
  rw [hM', Matrix.one_mulVec] at h5
  exact congrFun h5 i

/-- C60: with a correct inverse and correct eigenvectors no discriminant is negative. -/
theorem C60_nonneg {env : LinEnv K L} (ha : ArgsortSpec env.argsort) (hs : SetOrderSpec env.setOrder) (x : Mat K N c)
    (labels : Fin N → L) {W : Mat K c c} {vals : Vec K c} {vecs : Mat K c c}
    (hi : env.inv c (scatterWithin x labels (env.setOrder (List.ofFn labels))) = .ok W)
    (hI : IsInv (scatterWithin x labels (env.setOrder (List.ofFn labels))) W)
    (he : env.eig c (matMul W (scatterBetween x labels (env.setOrder (List.ofFn labels)))) = .ok (vals, vecs))
    (hE : IsEig (matMul W (scatterBetween x labels (env.setOrder (List.ofFn labels)))) vals vecs)
    (h0 : ∀ j, ∃ i, vecs i j ≠ 0) :
    ∃ l, ldaDiscriminants env x labels = .ok l ∧ ∀ v ∈ l, 0 ≤ v := by
  have hb : ldaBase env x labels = .ok (vals, vecs) := by
    unfold ldaBase; simp only [hi, he]
  obtain ⟨l, h1, h2, _⟩ := lda_discriminants ha x labels hb
  refine ⟨l, h1, fun v hv => ?_⟩
  obtain ⟨j, rfl⟩ := List.mem_ofFn.mp (h2.mem_iff.mp hv)
  exact gen_eig_nonneg x (classList_setOrder hs labels) hI hE (h0 j)

/-- example: two classes in the plane, within-class scatter `diag (4, 4)`, between-class scatter `diag (16, 0)` -/
def ldaX : Mat ℚ 4 2 := ![![1, 1], ![3, -1], ![-1, 1], ![-3, -1]]
def ldaY : Fin 4 → ℕ := ![7, 7, 3, 3]

/-- an `inv` that is right on 2 x 2 matrices -/
def inv2 (c : ℕ) (A : Mat ℚ c c) : Except Err (Mat ℚ c c) :=
  match c, A with
  | 2, A => let d := A 0 0 * A 1 1 - A 0 1 * A 1 0
    if d = 0 then .error .linAlgError else .ok ![![A 1 1 / d, -(A 0 1) / d], ![-(A 1 0) / d, A 0 0 / d]]
  | _, _ => .error .linAlgError

example : scatterWithin ldaX ldaY [7, 3] = ![![4, 0], ![0, 4]] ∧ scatterBetween ldaX ldaY [7, 3] = ![![16, 0], ![0, 0]] := by
  decide +kernel

theorem setOrderSpec_dedup : SetOrderSpec (List.dedup : List ℕ → List ℕ) := fun l =>
  ⟨List.nodup_dedup l, fun _ => List.mem_dedup⟩

def ldaEnv : LinEnv ℚ ℕ := { sortEnv eigDiag with inv := inv2 }

/-- the hypotheses of C59 and C60 hold for the example -/
example : ArgsortSpec ldaEnv.argsort ∧ SetOrderSpec ldaEnv.setOrder ∧ ClassList ldaY [7, 3] ∧
    ∃ W vals vecs, ldaEnv.inv 2 (scatterWithin ldaX ldaY (ldaEnv.setOrder (List.ofFn ldaY))) = .ok W ∧
      IsInv (scatterWithin ldaX ldaY (ldaEnv.setOrder (List.ofFn ldaY))) W ∧
      ldaEnv.eig 2 (matMul W (scatterBetween ldaX ldaY (ldaEnv.setOrder (List.ofFn ldaY)))) = .ok (vals, vecs) ∧
      ldaBase ldaEnv ldaX ldaY = .ok (vals, vecs) ∧
      IsEig (matMul W (scatterBetween ldaX ldaY (ldaEnv.setOrder (List.ofFn ldaY)))) vals vecs ∧
      (∀ j, ∃ i, vecs i j ≠ 0) ∧ vals = ![4, 0] := by
  have hM : matMul ![![1 / 4, 0], ![0, 1 / 4]] (scatterBetween ldaX ldaY (ldaEnv.setOrder (List.ofFn ldaY)))
      = ![![4, 0], ![0, 0]] := by decide +kernel
  have hW : ldaEnv.inv 2 (scatterWithin ldaX ldaY (ldaEnv.setOrder (List.ofFn ldaY)))
      = .ok ![![1 / 4, 0], ![0, 1 / 4]] := by decide +kernel
  have hE : ldaEnv.eig 2 (matMul ![![1 / 4, 0], ![0, 1 / 4]] (scatterBetween ldaX ldaY (ldaEnv.setOrder (List.ofFn ldaY))))
      = .ok (![4, 0], eye 2) := by
    rw [hM]
    show Except.ok _ = _
    congr 2
    funext i
    fin_cases i <;> rfl
  refine ⟨argsortSpec_sort, setOrderSpec_dedup, ⟨by decide, fun a => ?_⟩,
    ![![1 / 4, 0], ![0, 1 / 4]], ![4, 0], eye 2, ?_, ?_, ?_, ?_, ?_, ?_, rfl⟩
  · constructor
    · intro h
      have h' : a = 7 ∨ a = 3 := by simpa using h
      rcases h' with rfl | rfl
      · exact ⟨0, rfl⟩
      · exact ⟨2, rfl⟩
    · rintro ⟨k, rfl⟩
      revert k; decide
  · exact hW
  · unfold IsInv; decide +kernel
  · exact hE
  · unfold ldaBase
    simp only [hW, hE]
  · rw [hM]; unfold IsEig; decide +kernel
  · decide +kernel

end lda

end Padasip
