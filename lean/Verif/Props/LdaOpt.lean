import Verif.Props.PcaOpt
import Mathlib.LinearAlgebra.Dimension.Constructions
import Mathlib.LinearAlgebra.FiniteDimensional.Basic
import Mathlib.Analysis.Matrix.PosDef

/-!
# C108: LDA maximises Fisher's criterion
-/

set_option linter.unusedSectionVars false
set_option linter.unusedSimpArgs false

namespace Padasip

open Finset Matrix

variable {K L : Type} [Field K] [LinearOrder K] [IsStrictOrderedRing K] {N c : ℕ} [DecidableEq L]

/-! ## Specification -/

/-- the mean of the numbers `p` over the samples with label `cl` -/
def groupMean (labels : Fin N → L) (p : Fin N → K) (cl : L) : K := (∑ k with labels k = cl, p k) / (#{k | labels k = cl} : ℕ)

/-- scatter of two lists of numbers inside the classes: deviations from the means of the class, multiplied and summed over all samples -/
def within (labels : Fin N → L) (p q : Fin N → K) : K :=
  ∑ k, (p k - groupMean labels p (labels k)) * (q k - groupMean labels q (labels k))

/-- scatter between the classes: deviation of the mean of the class of a sample from the mean of all samples, squared and summed over all samples -/
def between (labels : Fin N → L) (p : Fin N → K) : K := ∑ k, (groupMean labels p (labels k) - (∑ k, p k) / N) ^ 2

/-- `LDA(x, labels)` gets through: `np.linalg.inv` returns an inverse of the within-class scatter matrix, and `np.linalg.eig` returns a basis of
eigenvectors. -/
structure LdaSolved (env : LinEnv K L) (x : Mat K N c) (labels : Fin N → L) (vals : Vec K c) (vecs : Mat K c c) : Prop where
  argsort : ArgsortSpec env.argsort
  setOrder : SetOrderSpec env.setOrder
  solved : ∃ W V : Mat K c c, env.inv c (scatterWithin x labels (env.setOrder (List.ofFn labels))) = .ok W ∧
    IsInv (scatterWithin x labels (env.setOrder (List.ofFn labels))) W ∧
    env.eig c (matMul W (scatterBetween x labels (env.setOrder (List.ofFn labels)))) = .ok (vals, vecs) ∧
    IsEig (matMul W (scatterBetween x labels (env.setOrder (List.ofFn labels)))) vals vecs ∧ IsInv vecs V

/-! ## Lemmas -/

theorem groupMean_dir (x : Mat K N c) (labels : Fin N → L) (u : Vec K c) (cl : L) :
    groupMean labels (fun k => ∑ i, u i * x k i) cl = ∑ i, u i * classMean x labels cl i := by
  unfold groupMean
  simp only [classMean_eq, cnt]
  rw [sum_comm, sum_div]
  exact sum_congr rfl fun i _ => by rw [← mul_sum, mul_div_assoc]

theorem within_dir (x : Mat K N c) {labels : Fin N → L} {classes : List L} (h : ClassList labels classes) (u v : Vec K c) :
    within labels (fun k => ∑ i, u i * x k i) (fun k => ∑ i, v i * x k i)
      = u ⬝ᵥ (Matrix.of (scatterWithin x labels classes) *ᵥ v) := by
  unfold within
  simp only [groupMean_dir]
  rw [← fibre_sum labels]
  simp only [dotProduct, mulVec, Matrix.of_apply, scatterWithin_eq x h]
  have e1 : ∀ (w : Vec K c) (k : Fin N) (cl : L), (∑ i, w i * x k i) - ∑ i, w i * classMean x labels cl i
      = ∑ i, w i * (x k i - classMean x labels cl i) := by
    intro w k cl
    rw [← sum_sub_distrib]; exact sum_congr rfl fun i _ => by ring
  have e2 : ∀ cl, ∑ k with labels k = cl, ((∑ i, u i * x k i) - ∑ i, u i * classMean x labels (labels k) i) *
      ((∑ i, v i * x k i) - ∑ i, v i * classMean x labels (labels k) i)
      = ∑ k with labels k = cl, ∑ a, ∑ b, u a * ((x k a - classMean x labels cl a) * (x k b - classMean x labels cl b) * v b) := by
    intro cl
    refine sum_congr rfl fun k hk => ?_
    rw [(mem_filter.mp hk).2, e1, e1, sum_mul_sum]
    exact sum_congr rfl fun a _ => sum_congr rfl fun b _ => by ring
  simp only [e2, sum_mul, mul_sum]
  rw [sum_comm_cycle]
  refine sum_congr rfl fun a _ => ?_
  exact sum_comm_cycle.symm

theorem between_dir (x : Mat K N c) {labels : Fin N → L} {classes : List L} (h : ClassList labels classes) (u : Vec K c) :
    between labels (fun k => ∑ i, u i * x k i) = u ⬝ᵥ (Matrix.of (scatterBetween x labels classes) *ᵥ u) := by
  have h1 : u ⬝ᵥ (Matrix.of (scatterBetween x labels classes) *ᵥ u) = ∑ a, ∑ b, u a * scatterBetween x labels classes a b * u b := by
    simp only [dotProduct, mulVec, Matrix.of_apply, mul_sum, mul_assoc]
  rw [h1, quad_between x h]
  unfold between
  simp only [groupMean_dir]
  rw [← fibre_sum labels]
  refine sum_congr rfl fun cl _ => ?_
  have e : ∑ k with labels k = cl, ((∑ i, u i * classMean x labels (labels k) i) - (∑ k, ∑ i, u i * x k i) / N) ^ 2
      = ∑ k with labels k = cl, (∑ a, u a * (classMean x labels cl a - colMean x a)) ^ 2 := by
    refine sum_congr rfl fun k hk => ?_
    rw [(mem_filter.mp hk).2]
    congr 1
    simp only [mul_sub, sum_sub_distrib, colMean_eq]
    congr 1
    rw [sum_comm, sum_div]
    exact sum_congr rfl fun i _ => by rw [← mul_sum, mul_div_assoc]
  rw [e, sum_const, nsmul_eq_mul]
  rfl

/-- a symmetric form that pairs only vectors of equal weight stays positive semidefinite when weighted -/
theorem weighted_nonneg {n : ℕ} (G : Fin n → Fin n → K) (μ α : Fin n → K) (hμ : ∀ i, 0 ≤ μ i) (hG : ∀ i j, μ i ≠ μ j → G i j = 0)
    (hpsd : ∀ β : Fin n → K, 0 ≤ ∑ i, ∑ j, β i * β j * G i j) : 0 ≤ ∑ i, ∑ j, α i * α j * (μ j * G i j) := by
  have h1 : ∑ i, ∑ j, α i * α j * (μ j * G i j)
      = ∑ m ∈ univ.image μ, m * ∑ i, ∑ j, (if μ i = m then α i else 0) * (if μ j = m then α j else 0) * G i j := by
    simp only [mul_sum]
    rw [← sum_comm_cycle]
    refine sum_congr rfl fun i _ => sum_congr rfl fun j _ => ?_
    rw [sum_eq_single (μ j)]
    · by_cases hij : μ i = μ j
      · rw [if_pos hij, if_pos rfl]; ring
      · rw [hG i j hij]; ring
    · intro z _ hz
      rw [if_neg fun h : μ j = z => hz h.symm]; ring
    · intro h
      exact absurd (mem_image_of_mem μ (mem_univ j)) h
  rw [h1]
  refine sum_nonneg fun m hm => mul_nonneg ?_ (hpsd _)
  obtain ⟨i, _, rfl⟩ := mem_image.mp hm
  exact hμ i

/-- everything the solver contract gives, in matrix form -/
structure GenEig (Sw Sb : Matrix (Fin c) (Fin c) K) (vals : Vec K c) (v : Fin c → Vec K c) : Prop where
  symW : Sw.transpose = Sw
  symB : Sb.transpose = Sb
  psd : ∀ u, 0 ≤ u ⬝ᵥ (Sw *ᵥ u)
  pd : ∀ u, u ⬝ᵥ (Sw *ᵥ u) = 0 → u = 0
  gen : ∀ j, Sb *ᵥ v j = vals j • (Sw *ᵥ v j)
  span : ∀ u, ∃ α : Fin c → K, u = ∑ j, α j • v j
  indep : LinearIndependent K v

theorem GenEig.comm {Sw Sb : Matrix (Fin c) (Fin c) K} {vals : Vec K c} {v : Fin c → Vec K c} (h : GenEig Sw Sb vals v)
    (u w : Vec K c) : u ⬝ᵥ (Sw *ᵥ w) = w ⬝ᵥ (Sw *ᵥ u) := by
  rw [dotProduct_mulVec, ← mulVec_transpose, h.symW, dotProduct_comm]

theorem GenEig.commB {Sw Sb : Matrix (Fin c) (Fin c) K} {vals : Vec K c} {v : Fin c → Vec K c} (h : GenEig Sw Sb vals v)
    (u w : Vec K c) : u ⬝ᵥ (Sb *ᵥ w) = w ⬝ᵥ (Sb *ᵥ u) := by
  rw [dotProduct_mulVec, ← mulVec_transpose, h.symB, dotProduct_comm]

theorem GenEig.orth {Sw Sb : Matrix (Fin c) (Fin c) K} {vals : Vec K c} {v : Fin c → Vec K c} (h : GenEig Sw Sb vals v)
    (i j : Fin c) (hij : vals i ≠ vals j) : v i ⬝ᵥ (Sw *ᵥ v j) = 0 := by
  have h1 : v i ⬝ᵥ (Sb *ᵥ v j) = vals j * (v i ⬝ᵥ (Sw *ᵥ v j)) := by rw [h.gen, dotProduct_smul, smul_eq_mul]
  have h2 : v i ⬝ᵥ (Sb *ᵥ v j) = vals i * (v i ⬝ᵥ (Sw *ᵥ v j)) := by
    rw [h.commB, h.gen, dotProduct_smul, smul_eq_mul, h.comm]
  have h3 : (vals i - vals j) * (v i ⬝ᵥ (Sw *ᵥ v j)) = 0 := by rw [sub_mul, ← h1, ← h2, sub_self]
  exact (mul_eq_zero.mp h3).resolve_left (sub_ne_zero.mpr hij)

/-- the generalised Rayleigh quotient -/
theorem GenEig.rayleigh {Sw Sb : Matrix (Fin c) (Fin c) K} {vals : Vec K c} {v : Fin c → Vec K c} (h : GenEig Sw Sb vals v)
    (r : K) (u : Vec K c) (hu : ∀ j, r < vals j → u ⬝ᵥ (Sw *ᵥ v j) = 0) : u ⬝ᵥ (Sb *ᵥ u) ≤ r * (u ⬝ᵥ (Sw *ᵥ u)) := by
  obtain ⟨α, hα⟩ := h.span u
  have e1 : u ⬝ᵥ (Sw *ᵥ u) = ∑ j, α j * (u ⬝ᵥ (Sw *ᵥ v j)) := by
    have : Sw *ᵥ u = ∑ j, α j • (Sw *ᵥ v j) := by
      conv_lhs => rw [hα, mulVec_sum]
      exact sum_congr rfl fun j _ => mulVec_smul _ _ _
    rw [this, dotProduct_sum]
    exact sum_congr rfl fun j _ => by rw [dotProduct_smul, smul_eq_mul]
  have e2 : u ⬝ᵥ (Sb *ᵥ u) = ∑ j, α j * (vals j * (u ⬝ᵥ (Sw *ᵥ v j))) := by
    have : Sb *ᵥ u = ∑ j, α j • vals j • (Sw *ᵥ v j) := by
      conv_lhs => rw [hα, mulVec_sum]
      exact sum_congr rfl fun j _ => by rw [mulVec_smul, h.gen]
    rw [this, dotProduct_sum]
    exact sum_congr rfl fun j _ => by rw [dotProduct_smul, dotProduct_smul, smul_eq_mul, smul_eq_mul]
  have e3 : ∀ j, u ⬝ᵥ (Sw *ᵥ v j) = ∑ i, α i * (v i ⬝ᵥ (Sw *ᵥ v j)) := by
    intro j
    conv_lhs => rw [hα]
    rw [sum_dotProduct]
    exact sum_congr rfl fun i _ => by rw [smul_dotProduct, smul_eq_mul]
  have e4 : r * (u ⬝ᵥ (Sw *ᵥ u)) - u ⬝ᵥ (Sb *ᵥ u) = ∑ i, ∑ j, α i * α j * (max (r - vals j) 0 * (v i ⬝ᵥ (Sw *ᵥ v j))) := by
    rw [e1, e2, mul_sum, ← sum_sub_distrib, sum_comm]
    refine sum_congr rfl fun j _ => ?_
    have : r * (α j * (u ⬝ᵥ (Sw *ᵥ v j))) - α j * (vals j * (u ⬝ᵥ (Sw *ᵥ v j))) = α j * max (r - vals j) 0 * (u ⬝ᵥ (Sw *ᵥ v j)) := by
      rcases lt_or_ge r (vals j) with hlt | hge
      · rw [hu j hlt]; ring
      · rw [max_eq_left (sub_nonneg.mpr hge)]; ring
    rw [this, e3, mul_sum]
    exact sum_congr rfl fun i _ => by ring
  have e5 := weighted_nonneg (fun i j => v i ⬝ᵥ (Sw *ᵥ v j)) (fun j => max (r - vals j) 0) α (fun j => le_max_right _ _)
    (fun i j hij => h.orth i j fun he => hij (by rw [he])) (fun β => by
      have := h.psd (∑ j, β j • v j)
      refine le_of_le_of_eq this ?_
      rw [sum_dotProduct]
      refine sum_congr rfl fun i _ => ?_
      rw [mulVec_sum, dotProduct_sum]
      exact sum_congr rfl fun j _ => by rw [mulVec_smul, smul_dotProduct, dotProduct_smul, smul_eq_mul, smul_eq_mul]; ring)
  linarith

theorem dot_mulVec_eq (S : Mat K c c) (u : Vec K c) : u ⬝ᵥ (Matrix.of S *ᵥ u) = ∑ a, ∑ b, u a * S a b * u b := by
  simp only [dotProduct, mulVec, Matrix.of_apply, mul_sum, mul_assoc]

theorem sum_cols (vecs : Mat K c c) (α : Fin c → K) : ∑ j, α j • (fun i => vecs i j) = Matrix.of vecs *ᵥ α := by
  funext i
  simp only [Finset.sum_apply, Pi.smul_apply, smul_eq_mul, mulVec, dotProduct, Matrix.of_apply]
  exact sum_congr rfl fun j _ => mul_comm _ _

theorem LdaSolved.genEig {env : LinEnv K L} {x : Mat K N c} {labels : Fin N → L} {vals : Vec K c} {vecs : Mat K c c}
    (h : LdaSolved env x labels vals vecs) :
    GenEig (Matrix.of (scatterWithin x labels (env.setOrder (List.ofFn labels))))
      (Matrix.of (scatterBetween x labels (env.setOrder (List.ofFn labels)))) vals fun j i => vecs i j := by
  obtain ⟨W, V, _, hI, _, hE, hV⟩ := h.solved
  have hc := classList_setOrder h.setOrder labels
  generalize hcl : env.setOrder (List.ofFn labels) = classes at *
  have hM : Matrix.of (scatterWithin x labels classes) * Matrix.of W = 1 := by
    ext a b
    simp only [Matrix.mul_apply, Matrix.of_apply, Matrix.one_apply]
    exact hI a b
  have hM' := mul_eq_one_comm.mp hM
  have hVM : Matrix.of vecs * Matrix.of V = 1 := by
    ext a b
    simp only [Matrix.mul_apply, Matrix.of_apply, Matrix.one_apply]
    exact hV a b
  have hVM' := mul_eq_one_comm.mp hVM
  refine ⟨?_, ?_, ?_, ?_, ?_, ?_, ?_⟩
  · ext a b; exact (C59_symmetric x hc b a).1
  · ext a b; exact (C59_symmetric x hc b a).2
  · intro u; rw [dot_mulVec_eq]; exact (C59_semidefinite x hc u).1
  · intro u hu
    rw [dot_mulVec_eq] at hu
    have h0 : Matrix.of (scatterWithin x labels classes) *ᵥ u = 0 := by
      funext a
      exact within_kernel x hc u hu a
    have : Matrix.of W *ᵥ (Matrix.of (scatterWithin x labels classes) *ᵥ u) = u := by
      rw [mulVec_mulVec, hM', one_mulVec]
    rw [← this, h0, mulVec_zero]
  · intro j
    have hv : (Matrix.of W * Matrix.of (scatterBetween x labels classes)) *ᵥ (fun i => vecs i j) = vals j • fun i => vecs i j := by
      funext i
      have := hE i j
      simp only [matMul_eq] at this
      simpa [Matrix.mulVec, dotProduct, Matrix.mul_apply] using this
    rw [← Matrix.mulVec_smul, ← hv, Matrix.mulVec_mulVec, ← Matrix.mul_assoc, hM, Matrix.one_mul]
  · intro u
    refine ⟨Matrix.of V *ᵥ u, ?_⟩
    rw [sum_cols, mulVec_mulVec, hVM, one_mulVec]
  · rw [Fintype.linearIndependent_iff]
    intro g hg j
    rw [sum_cols] at hg
    have : Matrix.of V *ᵥ (Matrix.of vecs *ᵥ g) = g := by rw [mulVec_mulVec, hVM', one_mulVec]
    rw [← this, hg, mulVec_zero]; rfl

theorem LdaSolved.base {env : LinEnv K L} {x : Mat K N c} {labels : Fin N → L} {vals : Vec K c} {vecs : Mat K c c}
    (h : LdaSolved env x labels vals vecs) : ldaBase env x labels = .ok (vals, vecs) := by
  obtain ⟨W, V, hi, _, he, _, _⟩ := h.solved
  unfold ldaBase; simp only [hi, he]

/-! ## The claims -/

/-- C108: `LDA(x, labels, n)` has `n` columns; for each column the scatter between the classes is the scatter within the classes times the
corresponding entry of `LDA_discriminants`, and the scatter within is positive. -/
theorem C108_ratio {env : LinEnv K L} {x : Mat K N c} {labels : Fin N → L} {vals : Vec K c} {vecs : Mat K c c}
    (h : LdaSolved env x labels vals vecs) (n : ℕ) (h1 : 1 ≤ n) (h2 : n < c) :
    ∃ (P : Mat K N n) (disc : List K), lda env x labels n = .ok (List.ofFn fun k => List.ofFn (P k)) ∧
      ldaDiscriminants env x labels = .ok disc ∧
      ∀ j : Fin n, 0 < within labels (fun k => P k j) (fun k => P k j) ∧
        ∃ d, disc[j.val]? = some d ∧ between labels (fun k => P k j) = d * within labels (fun k => P k j) (fun k => P k j) := by
  have hc := classList_setOrder h.setOrder labels
  have hb := h.base
  have hg := h.genEig
  refine ⟨fun k j => ∑ i, vecs i (eigOrder h.argsort vals (Fin.castLE h2.le j)) * x k i, List.ofFn fun j => vals (eigOrder h.argsort vals j),
    ?_, ?_, fun j => ?_⟩
  · unfold lda
    have hn0 : (n : ℤ) ≠ 0 := by omega
    simp only [hn0, if_false, hb]
    rw [if_neg (by push Not; exact_mod_cast h2), project_eq h.argsort vals vecs x n n h2.le (Or.inl rfl)]
  · unfold ldaDiscriminants; rw [hb]; rfl
  · have hlt : j.val < c := lt_trans j.isLt h2
    simp only [within_dir x hc (fun i => vecs i (eigOrder h.argsort vals (Fin.castLE h2.le j))),
      between_dir x hc (fun i => vecs i (eigOrder h.argsort vals (Fin.castLE h2.le j)))]
    refine ⟨lt_of_le_of_ne (hg.psd _) fun h0 => ?_, vals (eigOrder h.argsort vals (Fin.castLE h2.le j)), ?_, ?_⟩
    · have := hg.pd _ h0.symm
      exact hg.indep.ne_zero _ this
    · simp [hlt]; rfl
    · rw [hg.gen, dotProduct_smul, smul_eq_mul]

/-- C108: Fisher's criterion.  No linear function of the attributes has a larger ratio of scatter between to scatter within the classes than
the first column of `LDA`; and none whose within-class scatter with the columns `0 .. j-1` is zero has a larger ratio than column `j`. -/
theorem C108_fisher {env : LinEnv K L} {x : Mat K N c} {labels : Fin N → L} {vals : Vec K c} {vecs : Mat K c c}
    (h : LdaSolved env x labels vals vecs) (n : ℕ) (h1 : 1 ≤ n) (h2 : n < c) :
    ∃ (P : Mat K N n) (disc : List K), lda env x labels n = .ok (List.ofFn fun k => List.ofFn (P k)) ∧
      ldaDiscriminants env x labels = .ok disc ∧
      ∀ (j : Fin n) (u : Vec K c), (∀ l < j, within labels (fun k => ∑ i, u i * x k i) (fun k => P k l) = 0) →
        ∃ d, disc[j.val]? = some d ∧ between labels (fun k => ∑ i, u i * x k i)
          ≤ d * within labels (fun k => ∑ i, u i * x k i) (fun k => ∑ i, u i * x k i) := by
  have hc := classList_setOrder h.setOrder labels
  have hb := h.base
  have hg := h.genEig
  refine ⟨fun k j => ∑ i, vecs i (eigOrder h.argsort vals (Fin.castLE h2.le j)) * x k i, List.ofFn fun j => vals (eigOrder h.argsort vals j),
    ?_, ?_, fun j u hu => ?_⟩
  · unfold lda
    have hn0 : (n : ℤ) ≠ 0 := by omega
    simp only [hn0, if_false, hb]
    rw [if_neg (by push Not; exact_mod_cast h2), project_eq h.argsort vals vecs x n n h2.le (Or.inl rfl)]
  · unfold ldaDiscriminants; rw [hb]; rfl
  · have hlt : j.val < c := lt_trans j.isLt h2
    refine ⟨vals (eigOrder h.argsort vals (Fin.castLE h2.le j)), by simp [hlt]; rfl, ?_⟩
    rw [between_dir x hc u, within_dir x hc u u]
    refine hg.rayleigh _ u fun i hi => ?_
    obtain ⟨m, rfl⟩ := (eigOrder h.argsort vals).surjective i
    have hm : m < Fin.castLE h2.le j := by
      by_contra hcon
      exact absurd (eigOrder_anti h.argsort vals _ _ (not_lt.mp hcon)) (not_le.mpr hi)
    have hmn : m.val < n := lt_trans (Fin.lt_def.mp hm) j.isLt
    have := hu ⟨m.val, hmn⟩ (Fin.lt_def.mpr (Fin.lt_def.mp hm))
    rw [within_dir x hc u fun i => vecs i (eigOrder h.argsort vals (Fin.castLE h2.le ⟨m.val, hmn⟩))] at this
    exact this

/-- C108: two columns of `LDA` with different discriminants are uncorrelated within the classes. -/
theorem C108_uncorrelated {env : LinEnv K L} {x : Mat K N c} {labels : Fin N → L} {vals : Vec K c} {vecs : Mat K c c}
    (h : LdaSolved env x labels vals vecs) (n : ℕ) (h1 : 1 ≤ n) (h2 : n < c) :
    ∃ (P : Mat K N n) (disc : List K), lda env x labels n = .ok (List.ofFn fun k => List.ofFn (P k)) ∧
      ldaDiscriminants env x labels = .ok disc ∧
      ∀ j l : Fin n, disc[j.val]? ≠ disc[l.val]? → within labels (fun k => P k j) (fun k => P k l) = 0 := by
  have hc := classList_setOrder h.setOrder labels
  have hb := h.base
  have hg := h.genEig
  refine ⟨fun k j => ∑ i, vecs i (eigOrder h.argsort vals (Fin.castLE h2.le j)) * x k i, List.ofFn fun j => vals (eigOrder h.argsort vals j),
    ?_, ?_, fun j l hjl => ?_⟩
  · unfold lda
    have hn0 : (n : ℤ) ≠ 0 := by omega
    simp only [hn0, if_false, hb]
    rw [if_neg (by push Not; exact_mod_cast h2), project_eq h.argsort vals vecs x n n h2.le (Or.inl rfl)]
  · unfold ldaDiscriminants; rw [hb]; rfl
  · have hlt : j.val < c := lt_trans j.isLt h2
    have hlt' : l.val < c := lt_trans l.isLt h2
    rw [within_dir x hc (fun i => vecs i (eigOrder h.argsort vals (Fin.castLE h2.le j))) fun i =>
      vecs i (eigOrder h.argsort vals (Fin.castLE h2.le l))]
    refine hg.orth _ _ fun he => hjl ?_
    simp only [List.getElem?_ofFn, hlt, hlt', dif_pos]
    exact congrArg some he

theorem between_mulVec (x : Mat K N c) {labels : Fin N → L} {classes : List L} (h : ClassList labels classes) (u : Vec K c) :
    Matrix.of (scatterBetween x labels classes) *ᵥ u = ∑ cl ∈ univ.image labels,
      (cnt labels cl * ∑ b, (classMean x labels cl b - colMean x b) * u b) • fun a => classMean x labels cl a - colMean x a := by
  funext a
  simp only [mulVec, dotProduct, Matrix.of_apply, scatterBetween_eq x h, Finset.sum_apply, Pi.smul_apply, smul_eq_mul, sum_mul]
  rw [sum_comm]
  refine sum_congr rfl fun cl _ => ?_
  rw [mul_sum, sum_mul]
  exact sum_congr rfl fun b _ => by ring

theorem class_dev_sum (x : Mat K N c) (labels : Fin N → L) :
    ∑ cl ∈ univ.image labels, (cnt labels cl : K) • (fun a => classMean x labels cl a - colMean x a) = (0 : Vec K c) := by
  funext a
  simp only [Finset.sum_apply, Pi.smul_apply, smul_eq_mul, Pi.zero_apply]
  have h1 : ∀ cl ∈ univ.image labels, cnt labels cl * (classMean x labels cl a - colMean x a)
      = ∑ k with labels k = cl, (x k a - colMean x a) := by
    intro cl hcl
    have hp := cnt_pos (K := K) hcl
    rw [sum_sub_distrib, mul_sub, classMean_eq, mul_div_cancel₀ _ hp.ne', sum_const, nsmul_eq_mul]
    rfl
  rw [sum_congr rfl h1, fibre_sum, sum_sub_distrib, colMean_eq, sum_const, card_univ, Fintype.card_fin, nsmul_eq_mul]
  rcases Nat.eq_zero_or_pos N with hz | hp
  · subst hz; simp
  · rw [mul_div_cancel₀ _ (Nat.cast_ne_zero.mpr hp.ne'), sub_self]

/-- C108: with `q` different labels at most `q - 1` entries of `LDA_discriminants` are not zero: the entries from number `q - 1` on (counted
from 0) are zero, i.e. by `C108_ratio` these columns of `LDA` do not separate the classes at all. -/
theorem C108_rank {env : LinEnv K L} {x : Mat K N c} {labels : Fin N → L} {vals : Vec K c} {vecs : Mat K c c}
    (h : LdaSolved env x labels vals vecs) (hN : N ≠ 0) :
    ∃ disc, ldaDiscriminants env x labels = .ok disc ∧
      (disc.filter (· ≠ 0)).length + 1 ≤ #(univ.image labels) ∧ ∀ j, #(univ.image labels) ≤ j + 1 → j < c → disc[j]? = some 0 := by
  have hc := classList_setOrder h.setOrder labels
  have hb := h.base
  have hg := h.genEig
  obtain ⟨l, e1, e2, e3⟩ := lda_discriminants h.argsort x labels hb
  have hnn : ∀ v ∈ l, 0 ≤ v := by
    intro v hv
    obtain ⟨j, rfl⟩ := List.mem_ofFn.mp (e2.mem_iff.mp hv)
    have h4 : (0 : K) ≤ (fun i => vecs i j) ⬝ᵥ (Matrix.of (scatterBetween x labels (env.setOrder (List.ofFn labels))) *ᵥ fun i => vecs i j) := by
      rw [dot_mulVec_eq]; exact (C59_semidefinite x hc _).2
    rw [hg.gen, dotProduct_smul, smul_eq_mul] at h4
    have h5 : (0 : K) < (fun i => vecs i j) ⬝ᵥ (Matrix.of (scatterWithin x labels (env.setOrder (List.ofFn labels))) *ᵥ fun i => vecs i j) :=
      lt_of_le_of_ne (hg.psd _) fun h0 => hg.indep.ne_zero j (hg.pd _ h0.symm)
    exact nonneg_of_mul_nonneg_left h4 h5
  have hcount : (l.filter (· ≠ 0)).length + 1 ≤ #(univ.image labels) := by
    have h3 : (l.filter (· ≠ 0)).length = Fintype.card {j // vals j ≠ 0} := by
      rw [(e2.filter _).length_eq, List.ofFn_eq_map, List.filter_map, List.length_map, Fintype.card_subtype,
        ← List.toFinset_card_of_nodup ((List.nodup_finRange c).filter _)]
      congr 1
      ext j
      simp
    rw [h3]
    let d : L → Vec K c := fun cl a => classMean x labels cl a - colMean x a
    let l0 := labels ⟨0, Nat.pos_of_ne_zero hN⟩
    have hl0 : l0 ∈ univ.image labels := mem_image_of_mem _ (mem_univ _)
    let D : Finset (Vec K c) := ((univ.image labels).erase l0).image d
    have hd : ∀ cl ∈ univ.image labels, d cl ∈ Submodule.span K (D : Set (Vec K c)) := by
      have hne : ∀ cl ∈ (univ.image labels).erase l0, d cl ∈ Submodule.span K (D : Set (Vec K c)) := fun cl hcl =>
        Submodule.subset_span (mem_image_of_mem d hcl)
      intro cl hcl
      by_cases hcl0 : cl = l0
      · subst hcl0
        have hs : ∑ cl ∈ univ.image labels, (cnt labels cl : K) • d cl = 0 := class_dev_sum x labels
        rw [← add_sum_erase _ _ hcl] at hs
        have hp := cnt_pos (K := K) hcl
        have h6 : d l0 = (cnt labels l0 : K)⁻¹ • -∑ cl ∈ (univ.image labels).erase l0, (cnt labels cl : K) • d cl := by
          rw [← eq_neg_of_add_eq_zero_left hs, smul_smul, inv_mul_cancel₀ hp.ne', one_smul]
        rw [h6]
        exact Submodule.smul_mem _ _ (Submodule.neg_mem _ (Submodule.sum_mem _ fun cl hcl => Submodule.smul_mem _ _ (hne cl hcl)))
      · exact hne cl (mem_erase.mpr ⟨hcl0, hcl⟩)
    have hSb : ∀ u, Matrix.of (scatterBetween x labels (env.setOrder (List.ofFn labels))) *ᵥ u ∈ Submodule.span K (D : Set (Vec K c)) := by
      intro u
      rw [between_mulVec x hc]
      exact Submodule.sum_mem _ fun cl hcl => Submodule.smul_mem _ _ (hd cl hcl)
    let b : {j // vals j ≠ 0} → Vec K c := fun j =>
      (Matrix.of (scatterWithin x labels (env.setOrder (List.ofFn labels)))).mulVecLin fun i => vecs i j
    have hli : LinearIndependent K b := by
      have := (hg.indep.comp (fun j : {j // vals j ≠ 0} => j.val) Subtype.val_injective).map'
        (Matrix.of (scatterWithin x labels (env.setOrder (List.ofFn labels)))).mulVecLin (by
          rw [LinearMap.ker_eq_bot']
          intro u hu
          rw [mulVecLin_apply] at hu
          exact hg.pd u (by rw [hu, dotProduct_zero]))
      exact this
    have hle : Submodule.span K (Set.range b) ≤ Submodule.span K (D : Set (Vec K c)) := by
      rw [Submodule.span_le]
      rintro _ ⟨j, rfl⟩
      have h7 : b j = (vals j)⁻¹ • (Matrix.of (scatterBetween x labels (env.setOrder (List.ofFn labels))) *ᵥ fun i => vecs i j) := by
        rw [hg.gen, smul_smul, inv_mul_cancel₀ j.2, one_smul]; rfl
      rw [h7]
      exact Submodule.smul_mem _ _ (hSb _)
    have h8 := Submodule.finrank_mono hle
    rw [finrank_span_eq_card hli] at h8
    have h9 : Module.finrank K (Submodule.span K (D : Set (Vec K c))) ≤ #D := finrank_span_finset_le_card (R := K) D
    have h10 : #D ≤ #(univ.image labels) - 1 := le_trans card_image_le (by rw [card_erase_of_mem hl0])
    have h11 : 0 < #(univ.image labels) := card_pos.mpr ⟨l0, hl0⟩
    omega
  refine ⟨l, e1, hcount, fun j hj hjc => ?_⟩
  have hlen : l.length = c := by rw [e2.length_eq, List.length_ofFn]
  have hjl : j < l.length := by rw [hlen]; exact hjc
  rw [List.getElem?_eq_getElem hjl]
  congr 1
  by_contra hv
  have hpos : ∀ v ∈ l.take (j + 1), v ≠ 0 := by
    intro v hm
    obtain ⟨i, hi, rfl⟩ := List.mem_take_iff_getElem.mp hm
    have hij : i ≤ j := by omega
    have hle : l[j] ≤ l[i] := by
      rcases hij.lt_or_eq with hlt | heq
      · exact List.pairwise_iff_getElem.mp e3 i j (by omega) hjl hlt
      · subst heq; exact le_refl _
    have := lt_of_le_of_ne (hnn _ (List.getElem_mem hjl)) (Ne.symm hv)
    exact (lt_of_lt_of_le this hle).ne'
  have h12 : (l.take (j + 1)).filter (· ≠ 0) = l.take (j + 1) := List.filter_eq_self.mpr fun v hm => by simpa using hpos v hm
  have h13 := ((List.take_sublist (j + 1) l).filter (· ≠ 0)).length_le
  rw [h12, List.length_take] at h13
  omega

/-- every symmetric real matrix has an orthonormal basis of eigenvectors -/
theorem sym_eig (A : Matrix (Fin c) (Fin c) ℝ) (h : A.transpose = A) : ∃ (vals : Fin c → ℝ) (E : Matrix (Fin c) (Fin c) ℝ),
    A * E = E * Matrix.diagonal vals ∧ E.transpose * E = 1 := by
  have hH : A.IsHermitian := by
    rw [Matrix.IsHermitian, Matrix.conjTranspose_eq_transpose_of_trivial, h]
  refine ⟨hH.eigenvalues, Matrix.of fun i j => hH.eigenvectorBasis j i, ?_, ?_⟩
  · ext i j
    have := congrFun (hH.mulVec_eigenvectorBasis j) i
    rw [Matrix.mul_diagonal]
    simp only [Matrix.mulVec, dotProduct, Pi.smul_apply, smul_eq_mul] at this
    simp only [Matrix.mul_apply, Matrix.of_apply]
    rw [mul_comm (hH.eigenvectorBasis j i)]
    exact this
  · ext j l
    have := orthonormal_iff_ite.mp hH.eigenvectorBasis.orthonormal l j
    simp only [PiLp.inner_apply, RCLike.inner_apply, conj_trivial] at this
    simp only [Matrix.mul_apply, Matrix.transpose_apply, Matrix.of_apply, Matrix.one_apply]
    rw [this]
    simp [eq_comm]

/-- C108: the theorems are not vacuous for any real data set whose classes spread in every direction: then the within-class scatter matrix is
invertible and a basis of eigenvectors exists, so exact solvers get through. -/
theorem C108_contract_satisfiable (x : Mat ℝ N c) {labels : Fin N → L} {classes : List L} (h : ClassList labels classes)
    (hspread : ∀ u : Vec ℝ c, u ≠ 0 → within labels (fun k => ∑ i, u i * x k i) (fun k => ∑ i, u i * x k i) ≠ 0) :
    ∃ (W V vecs : Mat ℝ c c) (vals : Vec ℝ c), IsInv (scatterWithin x labels classes) W ∧
      IsEig (matMul W (scatterBetween x labels classes)) vals vecs ∧ IsInv vecs V := by
  generalize hSw : Matrix.of (scatterWithin x labels classes) = Sw
  generalize hSb : Matrix.of (scatterBetween x labels classes) = Sb
  have symW : Sw.transpose = Sw := by
    rw [← hSw]; ext a b; exact (C59_symmetric x h b a).1
  have symB : Sb.transpose = Sb := by
    rw [← hSb]; ext a b; exact (C59_symmetric x h b a).2
  have hpd : ∀ u : Vec ℝ c, u ≠ 0 → 0 < u ⬝ᵥ (Sw *ᵥ u) := by
    intro u hu
    refine lt_of_le_of_ne ?_ ?_
    · rw [← hSw, dot_mulVec_eq]; exact (C59_semidefinite x h u).1
    · rw [← hSw, ← within_dir x h u u]; exact (hspread u hu).symm
  obtain ⟨d, Q, hQ, hQQ⟩ := sym_eig Sw symW
  have hQQ' := mul_eq_one_comm.mp hQQ
  have hD : Q.transpose * Sw * Q = Matrix.diagonal d := by
    rw [Matrix.mul_assoc, hQ, ← Matrix.mul_assoc, hQQ, Matrix.one_mul]
  have hdpos : ∀ j, 0 < d j := by
    intro j
    have h1 := congrFun (congrFun hD j) j
    rw [Matrix.diagonal_apply_eq] at h1
    have hne : (fun i => Q i j) ≠ 0 := by
      intro h0
      have h2 := congrFun (congrFun hQQ j) j
      have h3 : ∀ i, Q i j = 0 := fun i => congrFun h0 i
      simp [Matrix.mul_apply, h3] at h2
    have := hpd _ hne
    rw [← h1]
    refine lt_of_lt_of_eq this ?_
    simp only [dotProduct, mulVec, Matrix.mul_apply, Matrix.transpose_apply, mul_sum, sum_mul]
    rw [sum_comm]
    exact sum_congr rfl fun a _ => sum_congr rfl fun b _ => by ring
  let R : Matrix (Fin c) (Fin c) ℝ := Q * Matrix.diagonal fun j => (Real.sqrt (d j))⁻¹
  have hR : R.transpose * Sw * R = 1 := by
    have : R.transpose * Sw * R = Matrix.diagonal (fun j => (Real.sqrt (d j))⁻¹) * (Q.transpose * Sw * Q) *
        Matrix.diagonal fun j => (Real.sqrt (d j))⁻¹ := by
      show (Q * Matrix.diagonal fun j => (Real.sqrt (d j))⁻¹).transpose * Sw * (Q * _) = _
      rw [Matrix.transpose_mul, Matrix.diagonal_transpose]
      simp only [Matrix.mul_assoc]
    rw [this, hD, Matrix.diagonal_mul_diagonal, Matrix.diagonal_mul_diagonal]
    rw [← Matrix.diagonal_one]
    congr 1
    funext j
    have hs := Real.sqrt_pos.mpr (hdpos j)
    have := Real.mul_self_sqrt (hdpos j).le
    field_simp
    rw [sq]; exact this.symm
  clear_value R
  have hR1 : R * (R.transpose * Sw) = 1 := mul_eq_one_comm.mp hR
  have hW : Sw * (R * R.transpose) = 1 := by
    rw [mul_eq_one_comm, Matrix.mul_assoc]; exact hR1
  obtain ⟨vals, E, hE, hEE⟩ := sym_eig (R.transpose * Sb * R) (by
    rw [Matrix.transpose_mul, Matrix.transpose_mul, Matrix.transpose_transpose, symB, Matrix.mul_assoc])
  refine ⟨fun i j => (R * R.transpose) i j, fun i j => (E.transpose * (R.transpose * Sw)) i j, fun i j => (R * E) i j, vals, ?_, ?_, ?_⟩
  · intro i j
    have := congrFun (congrFun hW i) j
    rw [← hSw] at this
    simpa [Matrix.mul_apply, Matrix.one_apply] using this
  · have h1 : (R * R.transpose * Sb) * (R * E) = R * E * Matrix.diagonal vals := by
      rw [Matrix.mul_assoc R E, ← hE]
      simp only [Matrix.mul_assoc]
    intro i j
    have h2 := congrFun (congrFun h1 i) j
    rw [Matrix.mul_diagonal, ← hSb] at h2
    simp only [matMul_eq]
    rw [mul_comm (vals j)]
    refine Eq.trans ?_ h2
    rw [Matrix.mul_apply]
    exact sum_congr rfl fun b _ => by rw [Matrix.mul_apply]; rfl
  · have h1 : (R * E) * (E.transpose * (R.transpose * Sw)) = 1 := by
      rw [Matrix.mul_assoc, ← Matrix.mul_assoc E, mul_eq_one_comm.mp hEE, Matrix.one_mul, hR1]
    intro i j
    have := congrFun (congrFun h1 i) j
    rw [Matrix.mul_apply, Matrix.one_apply] at this
    exact this

/-- the hypotheses of C108 hold for the example of C60 -/
theorem ldaSolved_ex : LdaSolved ldaEnv ldaX ldaY ![4, 0] (eye 2) := by
  have hM : matMul ![![1 / 4, 0], ![0, 1 / 4]] (scatterBetween ldaX ldaY (ldaEnv.setOrder (List.ofFn ldaY)))
      = ![![4, 0], ![0, 0]] := by decide +kernel
  have hW : ldaEnv.inv 2 (scatterWithin ldaX ldaY (ldaEnv.setOrder (List.ofFn ldaY)))
      = .ok ![![1 / 4, 0], ![0, 1 / 4]] := by decide +kernel
  have hE : ldaEnv.eig 2 (matMul ![![1 / 4, 0], ![0, 1 / 4]] (scatterBetween ldaX ldaY (ldaEnv.setOrder (List.ofFn ldaY))))
      = .ok (![4, 0], eye 2) := by
    rw [hM]
    show Except.ok _ = _
    congr 2
    funext i
    fin_cases i <;> rfl
  refine ⟨argsortSpec_sort, setOrderSpec_dedup, ![![1 / 4, 0], ![0, 1 / 4]], eye 2, hW, by unfold IsInv; decide +kernel, hE,
    by rw [hM]; unfold IsEig; decide +kernel, by unfold IsInv; decide +kernel⟩

/-- ... and its classes are separated by the first attribute only: the discriminants are 4 and 0, with two labels. -/
example : (∃ P disc, lda ldaEnv ldaX ldaY 1 = .ok P ∧ ldaDiscriminants ldaEnv ldaX ldaY = .ok disc) ∧ #(univ.image ldaY) = 2 := by
  obtain ⟨P, disc, h1, h2, _⟩ := C108_ratio ldaSolved_ex 1 (by decide) (by decide)
  exact ⟨⟨_, _, h1, h2⟩, by decide⟩

end Padasip
