import Verif.Props.LdaOpt

/-!
# C109: the LDA discriminants do not depend on the units, the origin or the mixing of the attributes, nor on the solver
-/

set_option linter.unusedSectionVars false
set_option linter.unusedSimpArgs false

namespace Padasip

open Finset Matrix

variable {K L : Type} [Field K] [LinearOrder K] [IsStrictOrderedRing K] {N c : ℕ} [DecidableEq L]

theorem isInv_mul {A B : Mat K c c} (h : IsInv A B) : Matrix.of A * Matrix.of B = 1 := by
  ext a b
  simp only [Matrix.mul_apply, Matrix.of_apply, Matrix.one_apply]
  exact h a b

theorem classMean_affine (x : Mat K N c) (labels : Fin N → L) (T : Mat K c c) (t : Vec K c) {cl : L} (hcl : cl ∈ univ.image labels)
    (a : Fin c) : classMean (fun k a => (∑ b, T a b * x k b) + t a) labels cl a = (∑ b, T a b * classMean x labels cl b) + t a := by
  have hp := cnt_pos (K := K) hcl
  simp only [classMean_eq, sum_add_distrib, sum_const, nsmul_eq_mul]
  rw [add_div]
  congr 1
  · rw [sum_comm, sum_div]
    exact sum_congr rfl fun i _ => by rw [← mul_sum, mul_div_assoc]
  · exact mul_div_cancel_left₀ _ hp.ne'

theorem colMean_affine (hN : N ≠ 0) (x : Mat K N c) (T : Mat K c c) (t : Vec K c) (a : Fin c) :
    colMean (fun k a => (∑ b, T a b * x k b) + t a) a = (∑ b, T a b * colMean x b) + t a := by
  simp only [colMean_eq, sum_add_distrib, sum_const, nsmul_eq_mul, card_univ, Fintype.card_fin]
  rw [add_div]
  congr 1
  · rw [sum_comm, sum_div]
    exact sum_congr rfl fun i _ => by rw [← mul_sum, mul_div_assoc]
  · exact mul_div_cancel_left₀ _ (Nat.cast_ne_zero.mpr hN)

theorem outer_affine (T : Mat K c c) (d : Vec K c) (a b : Fin c) :
    (∑ i, T a i * d i) * (∑ j, T b j * d j) = ∑ j, ∑ i, T a i * (d i * d j) * T b j := by
  rw [sum_mul_sum, sum_comm]
  exact sum_congr rfl fun j _ => sum_congr rfl fun i _ => by ring

theorem affine_sub (r p q : Vec K c) (s : K) : ((∑ b, r b * p b) + s) - ((∑ b, r b * q b) + s) = ∑ b, r b * (p b - q b) := by
  simp only [mul_sub, sum_sub_distrib]
  ring

theorem scatterWithin_affine (x : Mat K N c) {labels : Fin N → L} {classes : List L} (h : ClassList labels classes)
    (T : Mat K c c) (t : Vec K c) : Matrix.of (scatterWithin (fun k a => (∑ b, T a b * x k b) + t a) labels classes)
      = Matrix.of T * Matrix.of (scatterWithin x labels classes) * (Matrix.of T).transpose := by
  ext a b
  simp only [Matrix.mul_apply, Matrix.of_apply, Matrix.transpose_apply, scatterWithin_eq _ h, mul_sum, sum_mul]
  have e : ∀ cl ∈ univ.image labels, ∀ k, (((∑ b, T a b * x k b) + t a) - classMean (fun k a => (∑ b, T a b * x k b) + t a) labels cl a) *
      (((∑ b', T b b' * x k b') + t b) - classMean (fun k a => (∑ b, T a b * x k b) + t a) labels cl b)
      = ∑ j, ∑ i, T a i * ((x k i - classMean x labels cl i) * (x k j - classMean x labels cl j)) * T b j := by
    intro cl hcl k
    rw [classMean_affine x labels T t hcl, classMean_affine x labels T t hcl]
    rw [affine_sub, affine_sub]
    exact outer_affine T (fun i => x k i - classMean x labels cl i) a b
  rw [sum_congr rfl fun cl hcl => sum_congr rfl fun k _ => e cl hcl k]
  symm
  rw [sum_comm_cycle]
  refine sum_congr rfl fun cl _ => ?_
  rw [sum_comm_cycle]

theorem scatterBetween_affine (hN : N ≠ 0) (x : Mat K N c) {labels : Fin N → L} {classes : List L} (h : ClassList labels classes)
    (T : Mat K c c) (t : Vec K c) : Matrix.of (scatterBetween (fun k a => (∑ b, T a b * x k b) + t a) labels classes)
      = Matrix.of T * Matrix.of (scatterBetween x labels classes) * (Matrix.of T).transpose := by
  ext a b
  simp only [Matrix.mul_apply, Matrix.of_apply, Matrix.transpose_apply, scatterBetween_eq _ h, mul_sum, sum_mul]
  have e : ∀ cl ∈ univ.image labels, cnt labels cl *
      ((classMean (fun k a => (∑ b, T a b * x k b) + t a) labels cl a - colMean (fun k a => (∑ b, T a b * x k b) + t a) a) *
      (classMean (fun k a => (∑ b, T a b * x k b) + t a) labels cl b - colMean (fun k a => (∑ b, T a b * x k b) + t a) b))
      = ∑ j, ∑ i, T a i * (cnt labels cl * ((classMean x labels cl i - colMean x i) * (classMean x labels cl j - colMean x j))) * T b j := by
    intro cl hcl
    rw [classMean_affine x labels T t hcl, classMean_affine x labels T t hcl, colMean_affine hN, colMean_affine hN]
    rw [affine_sub, affine_sub, outer_affine T (fun i => classMean x labels cl i - colMean x i) a b, mul_sum]
    refine sum_congr rfl fun j _ => ?_
    rw [mul_sum]
    exact sum_congr rfl fun i _ => by ring
  rw [sum_congr rfl e]
  symm
  rw [sum_comm_cycle]

/-! ## The claims -/

/-- C109: `LDA_discriminants` is invariant under every invertible affine change of the attributes: other units and origins for each
attribute, rotations, arbitrary invertible mixing; and it does not depend on which (correct) solvers are used. -/
theorem C109_affine {env env' : LinEnv K L} {x : Mat K N c} {labels : Fin N → L} (hN : N ≠ 0) (T T' : Mat K c c) (hT : IsInv T T')
    (t : Vec K c) {vals vals' : Vec K c} {vecs vecs' : Mat K c c} (h : LdaSolved env x labels vals vecs)
    (h' : LdaSolved env' (fun k a => (∑ b, T a b * x k b) + t a) labels vals' vecs') :
    ldaDiscriminants env' (fun k a => (∑ b, T a b * x k b) + t a) labels = ldaDiscriminants env x labels := by
  obtain ⟨l, e1, e2, e3⟩ := lda_discriminants h.argsort x labels h.base
  obtain ⟨l', e1', e2', e3'⟩ := lda_discriminants h'.argsort _ labels h'.base
  rw [e1, e1']
  congr 1
  refine List.Perm.eq_of_pairwise' e3' e3 ((e2'.trans ?_).trans e2.symm)
  have hg := h.genEig
  have hc := classList_setOrder h.setOrder labels
  have hc' := classList_setOrder h'.setOrder labels
  obtain ⟨W', V', _, hI', _, hE', hV'⟩ := h'.solved
  obtain ⟨W, V, _, _, _, _, hV⟩ := h.solved
  rw [← (C59_class_order x hc' hc).1, ← (C59_class_order x hc' hc).2] at hg
  have a1 := scatterWithin_affine x hc' T t
  have a2 := scatterBetween_affine hN x hc' T t
  have mI := mul_eq_one_comm.mp (isInv_mul hI')
  have mT := isInv_mul hT
  have mT' := mul_eq_one_comm.mp mT
  have mV := isInv_mul hV
  generalize hSw : Matrix.of (scatterWithin x labels (env'.setOrder (List.ofFn labels))) = Sw at *
  generalize hSb : Matrix.of (scatterBetween x labels (env'.setOrder (List.ofFn labels))) = Sb at *
  have tT : (Matrix.of T).transpose * (Matrix.of T').transpose = 1 := by
    rw [← Matrix.transpose_mul, mT', Matrix.transpose_one]
  have key : ∀ j, (Matrix.of W' * Matrix.of (scatterBetween (fun k a => (∑ b, T a b * x k b) + t a) labels
      (env'.setOrder (List.ofFn labels)))) *ᵥ ((Matrix.of T').transpose *ᵥ fun i => vecs i j)
      = vals j • ((Matrix.of T').transpose *ᵥ fun i => vecs i j) := by
    intro j
    have b1 : Matrix.of (scatterBetween (fun k a => (∑ b, T a b * x k b) + t a) labels (env'.setOrder (List.ofFn labels))) *ᵥ
        ((Matrix.of T').transpose *ᵥ fun i => vecs i j) = Matrix.of T *ᵥ (Sb *ᵥ fun i => vecs i j) := by
      rw [a2, mulVec_mulVec, mulVec_mulVec, Matrix.mul_assoc _ (Matrix.of T).transpose, tT, Matrix.mul_one]
    have b2 : Matrix.of (scatterWithin (fun k a => (∑ b, T a b * x k b) + t a) labels (env'.setOrder (List.ofFn labels))) *ᵥ
        ((Matrix.of T').transpose *ᵥ fun i => vecs i j) = Matrix.of T *ᵥ (Sw *ᵥ fun i => vecs i j) := by
      rw [a1, mulVec_mulVec, mulVec_mulVec, Matrix.mul_assoc _ (Matrix.of T).transpose, tT, Matrix.mul_one]
    rw [← mulVec_mulVec, b1, hg.gen, mulVec_smul, ← b2, mulVec_smul, mulVec_mulVec, mI, one_mulVec]
  refine (eig_unique (vecs := fun i j => ((Matrix.of T').transpose *ᵥ fun i => vecs i j) i)
    (V := fun i j => (Matrix.of V * (Matrix.of T).transpose) i j) (fun i j => ?_) (fun i j => ?_) hE' hV').symm
  · have := congrFun (key j) i
    simp only [matMul_eq]
    simpa [Matrix.mulVec, dotProduct, Matrix.mul_apply] using this
  · have h1 : (Matrix.of T').transpose * Matrix.of vecs * (Matrix.of V * (Matrix.of T).transpose) = 1 := by
      rw [Matrix.mul_assoc, ← Matrix.mul_assoc (Matrix.of vecs), mV, Matrix.one_mul, mul_eq_one_comm.mp tT]
    have := congrFun (congrFun h1 i) j
    rw [Matrix.mul_apply, Matrix.one_apply] at this
    exact this

/-- C109: in particular the discriminants are determined by the data and the labels. -/
theorem C109_solver_independent {env env' : LinEnv K L} {x : Mat K N c} {labels : Fin N → L} (hN : N ≠ 0)
    {vals vals' : Vec K c} {vecs vecs' : Mat K c c} (h : LdaSolved env x labels vals vecs) (h' : LdaSolved env' x labels vals' vecs') :
    ldaDiscriminants env' x labels = ldaDiscriminants env x labels := by
  have e : (fun k a => (∑ b, (if a = b then (1 : K) else 0) * x k b) + (0 : Vec K c) a) = x := by
    funext k a; simp
  have := C109_affine hN (fun a b => if a = b then (1 : K) else 0) (fun a b => if a = b then (1 : K) else 0)
    (fun i j => by simp) 0 h (by rw [e]; exact h')
  rwa [e] at this

/-- C109: adding the same vector to every sample leaves `LDA_discriminants` unchanged and adds one and the same row to every row of `LDA`
(for the same solvers, also when they fail). -/
theorem C109_shift {env : LinEnv K L} (hs : SetOrderSpec env.setOrder) (hN : N ≠ 0) (x : Mat K N c) (labels : Fin N → L) (t : Vec K c)
    (n : ℤ) : ldaDiscriminants env (fun k a => x k a + t a) labels = ldaDiscriminants env x labels ∧
    ∃ r : List K, lda env (fun k a => x k a + t a) labels n = (lda env x labels n).map (·.map fun row => List.zipWith (· + ·) row r) := by
  have hc := classList_setOrder hs labels
  have e : (fun k a => (∑ b, (if a = b then (1 : K) else 0) * x k b) + t a) = fun k a => x k a + t a := by
    funext k a; simp
  have h1 := scatterWithin_affine x hc (fun a b => if a = b then (1 : K) else 0) t
  have h2 := scatterBetween_affine hN x hc (fun a b => if a = b then (1 : K) else 0) t
  have hone : Matrix.of (fun a b : Fin c => if a = b then (1 : K) else 0) = 1 := by
    ext a b; simp [Matrix.one_apply]
  rw [e, hone, Matrix.transpose_one, Matrix.one_mul, Matrix.mul_one] at h1 h2
  have h : ldaBase env (fun k a => x k a + t a) labels = ldaBase env x labels := by
    unfold ldaBase
    have h1' : scatterWithin (fun k a => x k a + t a) labels (env.setOrder (List.ofFn labels))
      = scatterWithin x labels (env.setOrder (List.ofFn labels)) := h1
    have h2' : scatterBetween (fun k a => x k a + t a) labels (env.setOrder (List.ofFn labels))
      = scatterBetween x labels (env.setOrder (List.ofFn labels)) := h2
    simp only [h1', h2']
  refine ⟨by unfold ldaDiscriminants; rw [h], ?_⟩
  unfold lda
  simp only [h]
  generalize (if n = 0 then (c : ℤ) - 1 else n) = m
  split
  · exact ⟨[], rfl⟩
  · rcases ldaBase env x labels with e | ⟨vals, vecs⟩
    · exact ⟨[], rfl⟩
    · refine ⟨(pySliceTo (List.ofFn (env.argsort c fun i => -vals i)) m).map fun j => ∑ i, vecs i j * t i, ?_⟩
      simp only [Except.map, project, List.map_ofFn]
      congr 2
      funext k
      simp only [Function.comp, List.zipWith_map, List.zipWith_self]
      refine List.map_congr_left fun j _ => ?_
      rw [dot_eq, dot_eq, ← sum_add_distrib]
      exact sum_congr rfl fun i _ => by ring

/-- the hypotheses of C109 hold for the example of C60 and a copy of it with the first attribute doubled, the second subtracted from the
origin and the origin moved -/
example : IsInv (K := ℚ) ![![2, 0], ![0, -1]] ![![1/2, 0], ![0, -1]] ∧ LdaSolved ldaEnv ldaX ldaY ![4, 0] (eye 2) ∧
    LdaSolved ldaEnv (fun k a => (∑ b, (![![2, 0], ![0, -1]] : Mat ℚ 2 2) a b * ldaX k b) + ![5, 7] a) ldaY ![4, 0] (eye 2) := by
  refine ⟨by unfold IsInv; decide +kernel, ldaSolved_ex, argsortSpec_sort, setOrderSpec_dedup, ![![1 / 16, 0], ![0, 1 / 4]], eye 2, ?_, ?_, ?_, ?_, ?_⟩
  · decide +kernel
  · unfold IsInv; decide +kernel
  · have hM : matMul ![![1 / 16, 0], ![0, 1 / 4]] (scatterBetween (fun k a => (∑ b, (![![2, 0], ![0, -1]] : Mat ℚ 2 2) a b * ldaX k b) + ![5, 7] a)
        ldaY (ldaEnv.setOrder (List.ofFn ldaY))) = ![![4, 0], ![0, 0]] := by decide +kernel
    rw [hM]
    show Except.ok _ = _
    congr 2
    funext i
    fin_cases i <;> rfl
  · unfold IsEig; decide +kernel
  · unfold IsInv; decide +kernel

end Padasip
