import Verif.Props.Pca
import Mathlib.LinearAlgebra.Matrix.Charpoly.Basic
import Mathlib.LinearAlgebra.Matrix.Charpoly.Coeff
import Mathlib.LinearAlgebra.Matrix.Charpoly.Eigs

/-!
# C107: PCA keeps as much variance as any projection to the same dimension, and its numbers do not depend on the eigen-solver
-/

set_option linter.unusedSectionVars false
set_option linter.unusedSimpArgs false

namespace Padasip

open Finset

variable {K L : Type} [Field K] [LinearOrder K] [IsStrictOrderedRing K] {N c : ℕ}

/-- `n` directions in the space of `c` attributes that are orthonormal. -/
def OrthoDirs {n : ℕ} (U : Fin n → Vec K c) : Prop := ∀ a b, ∑ i, U a i * U b i = if a = b then 1 else 0

/-- the part of `v` orthogonal to orthonormal directions, squared -/
theorem residual_sq {n : ℕ} {U : Fin n → Vec K c} (hU : OrthoDirs U) (v : Vec K c) :
    ∑ i, (v i - ∑ a, (∑ j, U a j * v j) * U a i) ^ 2 = ∑ i, v i ^ 2 - ∑ a, (∑ j, U a j * v j) ^ 2 := by
  generalize hp : (fun a => ∑ j, U a j * v j) = p
  have hp' : ∀ a, ∑ j, U a j * v j = p a := fun a => congrFun hp a
  simp only [hp']
  have h1 : ∀ i, (v i - ∑ a, p a * U a i) ^ 2
      = v i ^ 2 - 2 * (∑ a, p a * (U a i * v i)) + ∑ a, ∑ b, p a * p b * (U a i * U b i) := by
    intro i
    have e1 : ∑ a, p a * (U a i * v i) = (∑ a, p a * U a i) * v i := by
      rw [sum_mul]; exact sum_congr rfl fun a _ => by ring
    have e2 : ∑ a, ∑ b, p a * p b * (U a i * U b i) = (∑ a, p a * U a i) * ∑ b, p b * U b i := by
      rw [sum_mul_sum]; exact sum_congr rfl fun a _ => sum_congr rfl fun b _ => by ring
    rw [e1, e2]; ring
  simp only [h1, sum_add_distrib, sum_sub_distrib, ← mul_sum]
  have e3 : ∑ i, ∑ a, p a * (U a i * v i) = ∑ a, p a ^ 2 := by
    rw [sum_comm]
    refine sum_congr rfl fun a _ => ?_
    rw [← mul_sum, hp', sq]
  have e4 : ∑ i, ∑ a, ∑ b, p a * p b * (U a i * U b i) = ∑ a, p a ^ 2 := by
    rw [sum_comm]
    refine sum_congr rfl fun a _ => ?_
    rw [sum_comm]
    simp only [← mul_sum, hU a, mul_ite, mul_one, mul_zero, sum_ite_eq, mem_univ, if_true, sq]
  rw [e3, e4]; ring

/-- Bessel's inequality -/
theorem bessel {n : ℕ} {U : Fin n → Vec K c} (hU : OrthoDirs U) (v : Vec K c) :
    ∑ a, (∑ j, U a j * v j) ^ 2 ≤ ∑ i, v i ^ 2 := by
  have h := residual_sq hU v
  have : 0 ≤ ∑ i, (v i - ∑ a, (∑ j, U a j * v j) * U a i) ^ 2 := sum_nonneg fun i _ => sq_nonneg _
  linarith

/-- a decreasing sequence with weights in [0, 1] of total `n`: the best is to put weight 1 on the first `n` -/
theorem weight_first {n : ℕ} (hn : n ≤ c) (g t : Fin c → K) (hg : ∀ i j, i ≤ j → g j ≤ g i) (h0 : ∀ l, 0 ≤ t l) (h1 : ∀ l, t l ≤ 1)
    (hs : ∑ l, t l = n) : ∑ l, g l * t l ≤ ∑ j : Fin n, g (Fin.castLE hn j) := by
  obtain ⟨m, rfl⟩ := Nat.exists_eq_add_of_le hn
  rcases Nat.eq_zero_or_pos n with hz | hp
  · subst hz
    have ht : ∀ l, t l = 0 := fun l => (sum_eq_zero_iff_of_nonneg fun l _ => h0 l).mp (by simpa using hs) l (mem_univ l)
    simp [ht]
  · let μ := g ⟨n - 1, by omega⟩
    have key : ∑ l, (g l - μ) * t l ≤ ∑ j : Fin n, (g (Fin.castLE hn j) - μ) := by
      rw [Fin.sum_univ_add]
      have a1 : ∑ i : Fin n, (g (Fin.castAdd m i) - μ) * t (Fin.castAdd m i) ≤ ∑ j : Fin n, (g (Fin.castLE hn j) - μ) := by
        refine sum_le_sum fun i _ => ?_
        have : μ ≤ g (Fin.castAdd m i) := hg _ _ (by rw [Fin.le_def]; simp; omega)
        have h2 := h1 (Fin.castAdd m i)
        have e : g (Fin.castLE hn i) = g (Fin.castAdd m i) := rfl
        rw [e]
        nlinarith
      have a2 : ∑ i : Fin m, (g (Fin.natAdd n i) - μ) * t (Fin.natAdd n i) ≤ 0 := by
        refine sum_nonpos fun i _ => ?_
        have : g (Fin.natAdd n i) ≤ μ := hg _ _ (by rw [Fin.le_def]; simp; omega)
        have h2 := h0 (Fin.natAdd n i)
        nlinarith
      linarith
    simp only [sub_mul, sum_sub_distrib, ← mul_sum, hs, sum_const, card_univ, Fintype.card_fin, nsmul_eq_mul] at key
    linarith

/-- Ky Fan: no orthonormal directions collect more of a quadratic form than the eigenvectors of the largest eigenvalues -/
theorem ky_fan {n : ℕ} (hn : n ≤ c) {A : Mat K c c} {vals : Vec K c} {vecs : Mat K c c} (hE : IsEig A vals vecs) (hO : OrthoCols vecs)
    (σ : Equiv.Perm (Fin c)) (hσ : ∀ i j, i ≤ j → vals (σ j) ≤ vals (σ i)) {U : Fin n → Vec K c} (hU : OrthoDirs U) :
    ∑ a, ∑ i, U a i * ∑ j, A i j * U a j ≤ ∑ j : Fin n, vals (σ (Fin.castLE hn j)) := by
  have h1 : ∑ a, ∑ i, U a i * ∑ j, A i j * U a j = ∑ l, vals (σ l) * ∑ a, (∑ i, vecs i (σ l) * U a i) ^ 2 := by
    have : ∀ a, ∑ i, U a i * ∑ j, A i j * U a j = ∑ l, vals l * (∑ i, vecs i l * U a i) ^ 2 := fun a => (quad_eigen hE hO (U a)).1
    simp only [this]
    rw [sum_comm]
    simp only [← mul_sum]
    exact (Equiv.sum_comp σ fun l => vals l * ∑ a, (∑ i, vecs i l * U a i) ^ 2).symm
  rw [h1]
  refine weight_first hn (fun l => vals (σ l)) _ hσ (fun l => sum_nonneg fun a _ => sq_nonneg _) (fun l => ?_) ?_
  · have hb := bessel hU fun i => vecs i (σ l)
    have h2 : ∑ i, vecs i (σ l) ^ 2 = 1 := by
      have := hO (σ l) (σ l)
      rw [if_pos rfl] at this
      rw [← this]
      exact sum_congr rfl fun i _ => sq _
    rw [h2] at hb
    refine le_trans (le_of_eq ?_) hb
    exact sum_congr rfl fun a _ => by congr 1; exact sum_congr rfl fun i _ => mul_comm _ _
  · rw [sum_comm]
    have h2 : ∀ a, ∑ l, (∑ i, vecs i (σ l) * U a i) ^ 2 = 1 := by
      intro a
      rw [Equiv.sum_comp σ fun l => (∑ i, vecs i l * U a i) ^ 2, ← (quad_eigen hE hO (U a)).2]
      have := hU a a
      rw [if_pos rfl] at this
      rw [← this]
      exact sum_congr rfl fun i _ => sq _
    simp [h2]

theorem orthoDirs_cols {vecs : Mat K c c} (hO : OrthoCols vecs) {n : ℕ} (hn : n ≤ c) (σ : Equiv.Perm (Fin c)) :
    OrthoDirs fun (a : Fin n) i => vecs i (σ (Fin.castLE hn a)) := by
  intro a b
  rw [hO]
  by_cases h : a = b
  · subst h; simp
  · rw [if_neg h, if_neg]
    intro h2
    exact h (Fin.castLE_injective hn (σ.injective h2))

/-- the quadratic form summed over the chosen eigenvectors -/
theorem quad_cols {n : ℕ} (hn : n ≤ c) {A : Mat K c c} {vals : Vec K c} {vecs : Mat K c c} (hE : IsEig A vals vecs) (hO : OrthoCols vecs)
    (σ : Equiv.Perm (Fin c)) : ∑ a : Fin n, ∑ i, vecs i (σ (Fin.castLE hn a)) * ∑ j, A i j * vecs j (σ (Fin.castLE hn a))
      = ∑ j : Fin n, vals (σ (Fin.castLE hn j)) := by
  refine sum_congr rfl fun a _ => ?_
  have h3 : ∀ i, ∑ j, A i j * vecs j (σ (Fin.castLE hn a)) = vals (σ (Fin.castLE hn a)) * vecs i (σ (Fin.castLE hn a)) := fun i => hE i _
  simp only [h3]
  have h4 : ∑ i, vecs i (σ (Fin.castLE hn a)) * (vals (σ (Fin.castLE hn a)) * vecs i (σ (Fin.castLE hn a)))
      = vals (σ (Fin.castLE hn a)) * ∑ i, vecs i (σ (Fin.castLE hn a)) * vecs i (σ (Fin.castLE hn a)) := by
    rw [mul_sum]; exact sum_congr rfl fun i _ => by ring
  rw [h4, hO, if_pos rfl, mul_one]

/-! ## The claims -/

/-- the sample variance (divisor `N - 1`) of a list of numbers -/
def sampleVar (p : Fin N → K) : K := (∑ k, (p k - (∑ k, p k) / N) ^ 2) / ((N - 1 : ℕ) : K)

theorem sampleVar_dir (x : Mat K N c) (u : Vec K c) : sampleVar (fun k => ∑ i, u i * x k i) = ∑ i, u i * ∑ j, covMat x i j * u j := by
  rw [← var_dir, covMat_eq]
  unfold sampleVar
  congr 1
  exact sum_congr rfl fun k _ => sq _

/-- C107: `PCA(x, n)` keeps at least as much variance (summed over its columns) as the coordinates of the samples along any `n`
orthonormal directions. -/
theorem C107_most_variance {env : LinEnv K L} (ha : ArgsortSpec env.argsort) (x : Mat K N c) (n : ℕ) (h1 : 1 ≤ n) (h2 : n < c)
    (hN : 2 ≤ N) {vals : Vec K c} {vecs : Mat K c c} (he : env.eig c (covMat x) = .ok (vals, vecs))
    (hE : IsEig (covMat x) vals vecs) (hO : OrthoCols vecs) :
    ∃ P : Mat K N n, pca env x n = .ok (List.ofFn fun k => List.ofFn (P k)) ∧
      ∀ U : Fin n → Vec K c, OrthoDirs U →
        ∑ j, sampleVar (fun k => ∑ i, U j i * x k i) ≤ ∑ j, sampleVar (fun k => P k j) := by
  obtain ⟨σ, hσ, hp⟩ := C57_projection ha x n h1 h2 hN he
  refine ⟨_, hp, fun U hU => ?_⟩
  simp only [sampleVar_dir]
  have e := quad_cols h2.le hE hO σ
  have := ky_fan h2.le hE hO σ hσ hU
  rw [← e] at this
  exact this

/-- the squared distance of the centred samples from the space spanned by the orthonormal directions `U`, summed over the samples -/
def reconError {n : ℕ} (x : Mat K N c) (U : Fin n → Vec K c) : K :=
  ∑ k, ∑ i, ((x k i - (∑ k, x k i) / N) - ∑ a, (∑ j, U a j * (x k j - (∑ k, x k j) / N)) * U a i) ^ 2

theorem reconError_eq {n : ℕ} (hN : 2 ≤ N) (x : Mat K N c) {U : Fin n → Vec K c} (hU : OrthoDirs U) :
    reconError x U = ∑ k, ∑ i, (x k i - (∑ k, x k i) / N) ^ 2
      - ((N - 1 : ℕ) : K) * ∑ a, sampleVar (fun k => ∑ i, U a i * x k i) := by
  unfold reconError sampleVar
  have h := fun k => residual_sq hU fun i => x k i - (∑ k, x k i) / (N : K)
  simp only [h, sum_sub_distrib]
  congr 1
  rw [← sum_div, mul_div_cancel₀ _ (by have : 0 < N - 1 := by omega
                                       exact_mod_cast this.ne'), sum_comm]
  refine sum_congr rfl fun a _ => sum_congr rfl fun k _ => ?_
  congr 1
  simp only [mul_sub, sum_sub_distrib]
  congr 1
  rw [sum_comm, sum_div]
  exact sum_congr rfl fun i _ => by rw [← mul_sum, mul_div_assoc]

/-- C107: equivalently, the directions used by `PCA(x, n)` lose least: replacing every (centred) sample by its orthogonal projection on the
space of these directions makes the smallest possible total squared error among all `n`-dimensional spaces. -/
theorem C107_least_loss {env : LinEnv K L} (ha : ArgsortSpec env.argsort) (x : Mat K N c) (n : ℕ) (h1 : 1 ≤ n) (h2 : n < c)
    (hN : 2 ≤ N) {vals : Vec K c} {vecs : Mat K c c} (he : env.eig c (covMat x) = .ok (vals, vecs))
    (hE : IsEig (covMat x) vals vecs) (hO : OrthoCols vecs) :
    ∃ D : Fin n → Vec K c, OrthoDirs D ∧ pca env x n = .ok (List.ofFn fun k => List.ofFn fun j => ∑ i, D j i * x k i) ∧
      ∀ U : Fin n → Vec K c, OrthoDirs U → reconError x D ≤ reconError x U := by
  obtain ⟨σ, hσ, hp⟩ := C57_projection ha x n h1 h2 hN he
  have hD := orthoDirs_cols hO h2.le σ
  refine ⟨_, hD, hp, fun U hU => ?_⟩
  rw [reconError_eq hN x hD, reconError_eq hN x hU]
  have hpos : (0 : K) ≤ ((N - 1 : ℕ) : K) := Nat.cast_nonneg _
  have : ∑ j, sampleVar (fun k => ∑ i, U j i * x k i)
      ≤ ∑ j : Fin n, sampleVar (fun k => ∑ i, vecs i (σ (Fin.castLE h2.le j)) * x k i) := by
    simp only [sampleVar_dir]
    have e := quad_cols h2.le hE hO σ
    have := ky_fan h2.le hE hO σ hσ hU
    rw [← e] at this
    exact this
  have := mul_le_mul_of_nonneg_left this hpos
  linarith

/-- C107: the numbers of `PCA_components(x)` sum to the total variance of the attributes. -/
theorem C107_total {env : LinEnv K L} (ha : ArgsortSpec env.argsort) (x : Mat K N c) (hN : 2 ≤ N) (hc : c ≠ 1)
    {vals : Vec K c} {vecs : Mat K c c} (he : env.eig c (covMat x) = .ok (vals, vecs))
    (hE : IsEig (covMat x) vals vecs) (hO : OrthoCols vecs) :
    ∃ comps, pcaComponents env x = .ok comps ∧ comps.sum = ∑ i, sampleVar (fun k => x k i) := by
  obtain ⟨l, h1, h2, _⟩ := C57_components ha x hc hN he
  refine ⟨l, h1, ?_⟩
  rw [h2.sum_eq, List.sum_ofFn]
  have h3 : ∀ i, sampleVar (fun k => x k i) = ∑ l, vals l * vecs i l ^ 2 := by
    intro i
    have e1 : (fun k => x k i) = fun k => ∑ j, (if j = i then (1 : K) else 0) * x k j := by
      funext k; simp
    rw [e1, sampleVar_dir, (quad_eigen hE hO _).1]
    exact sum_congr rfl fun l _ => by simp
  simp only [h3]
  rw [sum_comm]
  refine sum_congr rfl fun l _ => ?_
  rw [← mul_sum]
  have := hO l l
  rw [if_pos rfl] at this
  simp only [sq, this, mul_one]

/-! ## The components do not depend on the solver -/

/-- the eigenvalues that a correct solver returns are determined by the matrix -/
theorem eig_unique {A : Mat K c c} {vals vals' : Vec K c} {vecs vecs' V V' : Mat K c c} (hE : IsEig A vals vecs) (hV : IsInv vecs V)
    (hE' : IsEig A vals' vecs') (hV' : IsInv vecs' V') : (List.ofFn vals).Perm (List.ofFn vals') := by
  have key : ∀ {vals : Vec K c} {vecs V : Mat K c c}, IsEig A vals vecs → IsInv vecs V →
      (Matrix.of A).charpoly.roots = (List.ofFn vals : Multiset K) := by
    intro vals vecs V hE hV
    have hM : Matrix.of vecs * Matrix.of V = 1 := by
      ext a b
      simp only [Matrix.mul_apply, Matrix.of_apply, Matrix.one_apply]
      exact hV a b
    have hM' := mul_eq_one_comm.mp hM
    have hA : Matrix.of A * Matrix.of vecs = Matrix.of vecs * Matrix.diagonal vals := by
      ext a b
      rw [Matrix.mul_diagonal]
      simp only [Matrix.mul_apply, Matrix.of_apply]
      rw [hE a b, mul_comm]
    let u : (Matrix (Fin c) (Fin c) K)ˣ := ⟨Matrix.of vecs, Matrix.of V, hM, hM'⟩
    have hA2 : Matrix.of A = u.val * Matrix.diagonal vals * u⁻¹.val := by
      show Matrix.of A = Matrix.of vecs * Matrix.diagonal vals * Matrix.of V
      rw [← hA, Matrix.mul_assoc, hM, Matrix.mul_one]
    rw [hA2, Matrix.coe_units_inv, Matrix.charpoly_units_conj,
      Matrix.charpoly_of_isUpperTriangular _ (Matrix.blockTriangular_diagonal vals)]
    simp only [Matrix.diagonal_apply_eq]
    have e : ∏ i, (Polynomial.X - Polynomial.C (vals i))
        = (((List.ofFn vals : List K) : Multiset K).map fun a => Polynomial.X - Polynomial.C a).prod := by
      rw [Multiset.map_coe, Multiset.prod_coe, List.map_ofFn, List.prod_ofFn]
      rfl
    rw [e, Polynomial.roots_multiset_prod_X_sub_C]
  have h1 := key hE hV
  rw [key hE' hV'] at h1
  exact (Multiset.coe_eq_coe.mp h1).symm

theorem isInv_of_ortho {vecs : Mat K c c} (hO : OrthoCols vecs) : IsInv vecs fun i j => vecs j i := fun i j => orthoRows hO i j

theorem components_of {env : LinEnv K L} (ha : ArgsortSpec env.argsort) (x : Mat K N c) (hN : 2 ≤ N) (hc : c ≠ 1)
    {vals : Vec K c} {vecs : Mat K c c} (he : env.eig c (covMat x) = .ok (vals, vecs)) {l : List K}
    (h1 : l.Perm (List.ofFn vals)) (h2 : l.Pairwise (· ≥ ·)) : pcaComponents env x = .ok l := by
  obtain ⟨l', e1, e2, e3⟩ := C57_components ha x hc hN he
  rw [e1, (e2.trans h1.symm).eq_of_pairwise' e3 h2]

/-- C107: `PCA_components(x)` is determined by the data: two eigen-solvers (and two sorting routines) that both keep their contract give the
same list, whatever eigenvectors they choose and in whatever order they return them. -/
theorem C107_solver_independent {L' : Type} {env : LinEnv K L} {env' : LinEnv K L'} (ha : ArgsortSpec env.argsort)
    (ha' : ArgsortSpec env'.argsort) (x : Mat K N c) (hN : 2 ≤ N) (hc : c ≠ 1)
    {vals vals' : Vec K c} {vecs vecs' : Mat K c c} (he : env.eig c (covMat x) = .ok (vals, vecs))
    (hE : IsEig (covMat x) vals vecs) (hO : OrthoCols vecs) (he' : env'.eig c (covMat x) = .ok (vals', vecs'))
    (hE' : IsEig (covMat x) vals' vecs') (hO' : OrthoCols vecs') : pcaComponents env x = pcaComponents env' x := by
  obtain ⟨l, e1, e2, e3⟩ := C57_components ha x hc hN he
  rw [e1]
  exact (components_of ha' x hN hc he' (e2.trans (eig_unique hE (isInv_of_ortho hO) hE' (isInv_of_ortho hO'))) e3).symm

theorem covMat_shift (hN : N ≠ 0) (x : Mat K N c) (t : Vec K c) : covMat (fun k a => x k a + t a) = covMat x := by
  funext a b
  have hN' : (N : K) ≠ 0 := Nat.cast_ne_zero.mpr hN
  have h : ∀ a, (∑ k, (x k a + t a)) / (N : K) = (∑ k, x k a) / N + t a := by
    intro a
    rw [sum_add_distrib, sum_const, card_univ, Fintype.card_fin, nsmul_eq_mul, add_div, mul_div_cancel_left₀ _ hN']
  simp only [covMat_eq, h]
  congr 1
  exact sum_congr rfl fun k _ => by ring

/-- C107: the components are invariant under a change of the coordinate system: moving the origin, rotating or reflecting the axes changes
nothing, and a change of the common unit by the factor `s` multiplies every component by `s ^ 2`. -/
theorem C107_similarity {L' : Type} {env : LinEnv K L} {env' : LinEnv K L'} (ha : ArgsortSpec env.argsort)
    (ha' : ArgsortSpec env'.argsort) (x : Mat K N c) (hN : 2 ≤ N) (hc : c ≠ 1) (s : K) (Q : Mat K c c) (hQ : OrthoCols Q) (t : Vec K c)
    {vals vals' : Vec K c} {vecs vecs' : Mat K c c} (he : env.eig c (covMat x) = .ok (vals, vecs))
    (hE : IsEig (covMat x) vals vecs) (hO : OrthoCols vecs)
    (he' : env'.eig c (covMat fun k a => s * (∑ b, Q a b * x k b) + t a) = .ok (vals', vecs'))
    (hE' : IsEig (covMat fun k a => s * (∑ b, Q a b * x k b) + t a) vals' vecs') (hO' : OrthoCols vecs') :
    ∃ comps, pcaComponents env x = .ok comps ∧
      pcaComponents env' (fun k a => s * (∑ b, Q a b * x k b) + t a) = .ok (comps.map (s ^ 2 * ·)) := by
  obtain ⟨l, e1, e2, e3⟩ := C57_components ha x hc hN he
  refine ⟨l, e1, components_of ha' _ hN hc he' ?_ (List.pairwise_map.mpr (e3.imp fun h => mul_le_mul_of_nonneg_left h (sq_nonneg s)))⟩
  refine (e2.map _).trans ?_
  rw [List.map_ofFn]
  have hcov : (covMat fun k a => s * (∑ b, Q a b * x k b) + t a) = fun a b => ∑ i, s * Q a i * ∑ j, covMat x i j * (s * Q b j) := by
    rw [covMat_shift (by omega) (fun k a => s * ∑ b, Q a b * x k b) t]
    funext a b
    rw [← covMat_proj x (fun a i => s * Q a i) a b]
    congr 1
    funext k a
    rw [mul_sum]
    exact sum_congr rfl fun i _ => by ring
  have hQV : OrthoCols fun i j => ∑ b, Q i b * vecs b j := by
    intro j l
    have : ∀ i, (∑ b, Q i b * vecs b j) * (∑ b, Q i b * vecs b l) = ∑ b, ∑ d, (Q i b * Q i d) * (vecs b j * vecs d l) := by
      intro i
      rw [sum_mul_sum]
      exact sum_congr rfl fun b _ => sum_congr rfl fun d _ => by ring
    simp only [this]
    rw [sum_comm]
    rw [← hO j l]
    refine sum_congr rfl fun b _ => ?_
    rw [sum_comm]
    simp only [← sum_mul, hQ b]
    simp
  refine eig_unique (vecs := fun i j => ∑ b, Q i b * vecs b j) ?_ (isInv_of_ortho hQV) hE' (isInv_of_ortho hO')
  rw [hcov]
  intro i j
  have h1 : ∀ l, ∑ d, Q d l * ∑ b, Q d b * vecs b j = vecs l j := by
    intro l
    simp only [mul_sum]
    rw [sum_comm]
    have : ∀ b, ∑ d, Q d l * (Q d b * vecs b j) = (∑ d, Q d l * Q d b) * vecs b j := by
      intro b; rw [sum_mul]; exact sum_congr rfl fun d _ => by ring
    simp only [this, hQ l]
    simp
  have h2 : ∑ d, (∑ i', s * Q i i' * ∑ l, covMat x i' l * (s * Q d l)) * ∑ b, Q d b * vecs b j
      = s ^ 2 * ∑ i', Q i i' * ∑ l, covMat x i' l * ∑ d, Q d l * ∑ b, Q d b * vecs b j := by
    generalize hg : (fun d => ∑ b, Q d b * vecs b j) = g
    have hg' : ∀ d, ∑ b, Q d b * vecs b j = g d := fun d => congrFun hg d
    simp only [hg', sum_mul, mul_sum]
    rw [sum_comm]
    refine sum_congr rfl fun i' _ => ?_
    rw [sum_comm]
    exact sum_congr rfl fun l _ => sum_congr rfl fun d _ => by ring
  rw [h2]
  simp only [h1]
  have h3 : ∀ i', ∑ l, covMat x i' l * vecs l j = vals j * vecs i' j := fun i' => hE i' j
  simp only [h3, Function.comp, mul_sum]
  exact sum_congr rfl fun b _ => by ring

/-- C107: adding the same vector to every sample leaves `PCA_components` unchanged and adds one and the same row to every row of `PCA`
(for the same solver, also when it fails). -/
theorem C107_shift (env : LinEnv K L) (hN : N ≠ 0) (x : Mat K N c) (t : Vec K c) (n : ℤ) :
    pcaComponents env (fun k a => x k a + t a) = pcaComponents env x ∧
    ∃ r : List K, pca env (fun k a => x k a + t a) n = (pca env x n).map (·.map fun row => List.zipWith (· + ·) row r) := by
  have h : eigCov env (fun k a => x k a + t a) = eigCov env x := by
    unfold eigCov; rw [covMat_shift hN]
  refine ⟨by unfold pcaComponents; rw [h], ?_⟩
  unfold pca
  simp only [h]
  generalize (if n = 0 then (c : ℤ) - 1 else n) = m
  split
  · exact ⟨[], rfl⟩
  · rcases eigCov env x with e | ⟨vals, vecs⟩
    · exact ⟨[], rfl⟩
    · refine ⟨(pySliceTo (List.ofFn (env.argsort c fun i => -vals i)) m).map fun j =>
        ∑ i, vecs i j * t i, ?_⟩
      simp only [Except.map, project, List.map_ofFn]
      congr 2
      funext k
      simp only [Function.comp, List.zipWith_map, List.zipWith_self]
      refine List.map_congr_left fun j _ => ?_
      rw [dot_eq, dot_eq, ← sum_add_distrib]
      exact sum_congr rfl fun i _ => by ring

/-- C107: reordering the samples leaves `PCA_components` unchanged and reorders the rows of `PCA` in the same way (same solver). -/
theorem C107_reorder (env : LinEnv K L) (x : Mat K N c) (σ : Equiv.Perm (Fin N)) (n : ℤ) :
    pcaComponents env (fun k => x (σ k)) = pcaComponents env x ∧
    ((∃ e, pca env (fun k => x (σ k)) n = .error e ∧ pca env x n = .error e) ∨
     ∃ R : Fin N → List K, pca env x n = .ok (List.ofFn R) ∧ pca env (fun k => x (σ k)) n = .ok (List.ofFn fun k => R (σ k))) := by
  have h : eigCov env (fun k => x (σ k)) = eigCov env x := by
    unfold eigCov
    have : covMat (fun k => x (σ k)) = covMat x := by
      funext a b
      simp only [covMat_eq, Equiv.sum_comp σ fun k => x k a, Equiv.sum_comp σ fun k => x k b]
      congr 1
      exact Equiv.sum_comp σ fun k => (x k a - (∑ k, x k a) / N) * (x k b - (∑ k, x k b) / N)
    rw [this]
  refine ⟨by unfold pcaComponents; rw [h], ?_⟩
  unfold pca
  simp only [h]
  generalize (if n = 0 then (c : ℤ) - 1 else n) = m
  split
  · exact Or.inl ⟨_, rfl, rfl⟩
  · rcases eigCov env x with e | ⟨vals, vecs⟩
    · exact Or.inl ⟨_, rfl, rfl⟩
    · exact Or.inr ⟨_, rfl, rfl⟩

/-- the hypotheses of C107 hold for the example of C58 and for a copy of it with another origin, turned by 90 degrees and three times as large -/
example : ArgsortSpec (sortEnv eigDiag).argsort ∧ OrthoCols (K := ℚ) ![![0, -1], ![1, 0]] ∧
    OrthoDirs (K := ℚ) (c := 2) ![![3/5, 4/5]] ∧
    (∃ vals vecs, (sortEnv eigDiag).eig 2 (covMat pcaEx) = .ok (vals, vecs) ∧ IsEig (covMat pcaEx) vals vecs ∧ OrthoCols vecs) ∧
    (∃ vals vecs, (sortEnv eigDiag).eig 2 (covMat fun k a => 3 * (∑ b, (![![0, -1], ![1, 0]] : Mat ℚ 2 2) a b * pcaEx k b) + ![5, 7] a)
        = .ok (vals, vecs) ∧
      IsEig (covMat fun k a => 3 * (∑ b, (![![0, -1], ![1, 0]] : Mat ℚ 2 2) a b * pcaEx k b) + ![5, 7] a) vals vecs ∧ OrthoCols vecs) ∧
    pcaComponents (sortEnv eigDiag) pcaEx = .ok [16/3, 4/3] :=
  ⟨argsortSpec_sort, by unfold OrthoCols; decide +kernel, by unfold OrthoDirs; decide +kernel,
    ⟨_, _, rfl, by unfold IsEig; decide +kernel, by unfold OrthoCols; decide +kernel⟩,
    ⟨_, _, rfl, by unfold IsEig; decide +kernel, by unfold OrthoCols; decide +kernel⟩,
    components_of argsortSpec_sort pcaEx (by decide) (by decide) rfl (by decide +kernel) (by decide +kernel)⟩

end Padasip
