import Verif.Props.Recursion

/-! # C19: a filter that predicts perfectly never changes -/

set_option linter.unusedSectionVars false
set_option linter.unusedVariables false

namespace Padasip

open Finset

variable {n : ℕ}

/-- No denominator of the filter can vanish (the model divides by 0 without `nan`, numpy does not): positive `eps` for
the normalised filters, a positive semidefinite `R` and positive `mu` for RLS. -/
def DenOk (solve : Solver ℝ) : (k : Kind) → Core ℝ n (classOf (n := n) solve k).Ext → Prop
  | .nlms, s => 0 < (show EpsExt ℝ from s.ext).eps
  | .nlmf, s => 0 < (show EpsExt ℝ from s.ext).eps
  | .nsslms, s => 0 < (show EpsExt ℝ from s.ext).eps
  | .gngd, s => 0 < (show GngdExt ℝ n from s.ext).eps
  | .rls, s => 0 < s.mu ∧ ∀ v : Vec ℝ n, 0 ≤ ∑ i, ∑ j, v i * (show RlsExt ℝ n from s.ext).R i j * v j
  | _, _ => True

/-- What the memory of an AP filter contains so far is predicted perfectly by `ws` (true for a fresh filter, whose memory is zero). -/
def ApFits (solve : Solver ℝ) (ws : Vec ℝ n) :
    (k : Kind) → Core ℝ n (classOf (n := n) solve k).Ext → Prop
  | .ap order, s => let q : ApExt ℝ n order := s.ext
    ∀ j, q.dMem j = ∑ i, ws i * q.xMem i j
  | _, _ => True

theorem dot_real (u v : Vec ℝ n) : dot u v = ∑ i, u i * v i := dot_eq u v

theorem sgn_zero_real : Scalar.sgn (0 : ℝ) = 0 := by
  show (if 0 < (0 : ℝ) then (1 : ℝ) else if (0 : ℝ) < 0 then -1 else 0) = 0
  simp

theorem ap_err_zero {solve : Solver ℝ} {order : ℕ} (s : Core ℝ n (ApExt ℝ n order))
    (hf : ∀ j, s.ext.dMem j = ∑ i, s.w i * s.ext.xMem i j) (d : ℝ) (x : Vec ℝ n)
    (hd : d = ∑ i, s.w i * x i) :
    (∀ j, apD s d j = ∑ i, s.w i * apX s x i j) ∧ (∀ j, apE s d x j = 0) := by
  have h1 : ∀ j, apD s d j = ∑ i, s.w i * apX s x i j := by
    intro j
    unfold apD apX
    by_cases hj : j.val = 0
    · simp [hj, hd]
    · simp only [hj, if_false, shiftVec, shiftCols]
      exact hf _
  refine ⟨h1, fun j => ?_⟩
  unfold apE apY
  rw [h1, dot_real]
  have : ∑ i, apX s x i j * s.w i = ∑ i, s.w i * apX s x i j :=
    sum_congr rfl fun i _ => mul_comm _ _
  rw [this, sub_self]

theorem matVec_zero {m p : ℕ} (P : Mat ℝ m p) (v : Vec ℝ p) (hv : ∀ j, v j = 0) (i : Fin m) :
    matVec P v i = 0 := by
  rw [matVec_eq]; simp [hv]

/-- C19: if the current weights `ws` explain all the data (`d(k) = <ws, x(k)>`), `run` reports zero errors, outputs equal to the
targets, and weights that never change; every filter but OCNLMS. -/
theorem C19_perfect_prediction (solve : Solver ℝ) (k : Kind) (hk : k ≠ .ocnlms)
    (o : Obj (classOf (n := n) solve k)) (ho : Ready solve k o.core) (hden : DenOk solve k o.core)
    (hap : ApFits solve o.core.w k o.core) (d : ℕ → ℝ) (x : ℕ → Vec ℝ n)
    (hd : ∀ j, d j = ∑ i, o.core.w i * x j i) (y e : ℕ → ℝ)
    (S : ℕ → Core ℝ n (classOf (n := n) solve k).Ext) (h : Runs (classOf solve k) o d x y e S) :
    ∀ j, e j = 0 ∧ y j = d j ∧ (S j).w = o.core.w := by
  -- one step, for a state with the right weights
  have one : ∀ (s : Core ℝ n (classOf (n := n) solve k).Ext), Ready solve k s → s.nAttr = n →
      s.w = o.core.w → ApFits solve o.core.w k s → ∀ (dj : ℝ) (xj : Vec ℝ n),
      dj = ∑ i, o.core.w i * xj i →
      ∃ s', (classOf solve k).body dj (List.ofFn xj) s = (.ok (dj, 0), s') ∧ s'.w = o.core.w ∧
        ApFits solve o.core.w k s' := by
    intro s hs hn hw hf dj xj hdj
    have hy : dot s.w xj = dj := by rw [dot_real, hw, hdj]
    have hy0 : dot o.core.w xj = dj := by rw [dot_real, hdj]
    have fin : ∀ (p : ℝ × ℝ) (s' : Core ℝ n (classOf (n := n) solve k).Ext),
        (classOf solve k).body dj (List.ofFn xj) s = (.ok p, s') → p = (dj, 0) → s'.w = o.core.w →
        ApFits solve o.core.w k s' →
        ∃ s', (classOf solve k).body dj (List.ofFn xj) s = (.ok (dj, 0), s') ∧ s'.w = o.core.w ∧
        ApFits solve o.core.w k s' := by
      intro p s' h1 h2 h3 h4
      exact ⟨s', by rw [h1, h2], h3, h4⟩
    have pe : (dot s.w xj, dj - dot s.w xj) = (dj, 0) := by rw [hy, sub_self]
    cases k
    case ocnlms => exact absurd rfl hk
    case ap order =>
      obtain ⟨P, hP⟩ := hs.2 (apX s xj)
      have hz := ap_err_zero (solve := solve) s (by rw [hw]; exact hf) dj xj (by rw [hw]; exact hdj)
      refine fin _ _ (ap_body solve hs.1 s dj xj P hP) ?_ ?_ ?_
      · have h0 := hz.2 ⟨0, hs.1⟩
        have hy0 : apY s xj ⟨0, hs.1⟩ = dj := by
          have : apE s dj xj ⟨0, hs.1⟩ = dj - apY s xj ⟨0, hs.1⟩ := rfl
          rw [this] at h0; linarith
        rw [h0, hy0]
      · funext i
        show s.w i + s.mu * dot (apX s xj i) (matVec P (apE s dj xj)) = _
        rw [dot_real, hw]
        simp [matVec_zero P _ hz.2]
      · intro j
        have := hz.1 j
        rw [hw] at this
        exact this
    case lms => exact fin _ _ (lms_body s dj xj) pe (by funext i; simp [hy0, hw]) trivial
    case lmf => exact fin _ _ (lmf_body s dj xj) pe (by funext i; simp [hy0, hw]) trivial
    case sslms =>
      exact fin _ _ (sslms_body s dj xj) pe (by funext i; simp [hy0, hw, sgn_zero_real]) trivial
    case nlms => exact fin _ _ (nlms_body s dj xj) pe (by funext i; simp [hy0, hw]) trivial
    case nlmf => exact fin _ _ (nlmf_body s dj xj) pe (by funext i; simp [hy0, hw]) trivial
    case nsslms =>
      exact fin _ _ (nsslms_body s dj xj) pe (by funext i; simp [hy0, hw, sgn_zero_real]) trivial
    case gngd => exact fin _ _ (gngd_body s dj xj) pe (by funext i; simp [hy0, hw]) trivial
    case mathews => exact fin _ _ (mathews_body s dj xj) pe (by funext i; simp [hy0, hw]) trivial
    case ang => exact fin _ _ (ang_body s dj xj) pe (by funext i; simp [hy0, hw]) trivial
    case benveniste =>
      exact fin _ _ (benveniste_body s hn dj xj) pe (by funext i; simp [hy0, hw]) trivial
    case gmcc =>
      exact fin _ _ (gmcc_body s dj xj) pe (by funext i; simp [hy0, hw, sgn_zero_real]) trivial
    case llncosh =>
      refine fin _ _ (llncosh_body s dj xj) pe ?_ trivial
      funext i
      have : Transc.tanh (0 : ℝ) = 0 := Real.tanh_zero
      simp [hy0, hw, this]
    case rls => exact fin _ _ (rls_body s hs dj xj) pe (by funext i; simp [hy0, hw]) trivial
  have hP : Ready solve k (o.core.withN n) := (ready_keeps solve k).withN _ n ho
  have inv : ∀ j, (S j).w = o.core.w ∧ ApFits solve o.core.w k (S j) := by
    intro j
    induction j with
    | zero =>
      rw [h.1]
      refine ⟨rfl, ?_⟩
      cases k <;> trivial
    | succ j ih =>
      obtain ⟨h1, h2, h3⟩ := h.step (ready_safe solve k) hP j
      obtain ⟨s', h4, h5, h6⟩ := one (S j) h2 h3 ih.1 ih.2 (d j) (x j) (hd j)
      rw [h4] at h1
      have := (Prod.mk.inj h1).2
      rw [← this]
      exact ⟨h5, h6⟩
  intro j
  obtain ⟨h1, h2, h3⟩ := h.step (ready_safe solve k) hP j
  obtain ⟨s', h4, h5, h6⟩ := one (S j) h2 h3 (inv j).1 (inv j).2 (d j) (x j) (hd j)
  rw [h4] at h1
  have := (Prod.mk.inj (Except.ok.inj (Prod.mk.inj h1).1))
  exact ⟨this.2.symm, this.1.symm, (inv j).1⟩

/-- the hypotheses of C19 are met by a fresh NLMS filter with weights `(1, 2)` -/
example : ∃ (o : Obj (classOf (n := 2) exEnv.solve .nlms)), Ready exEnv.solve .nlms o.core ∧
    DenOk exEnv.solve .nlms o.core ∧ ApFits exEnv.solve o.core.w .nlms o.core ∧ o.core.w 1 = 2 :=
  ⟨⟨⟨fun i => if i = 0 then 1 else 2, 2, 1, (⟨1⟩ : EpsExt ℝ)⟩, []⟩, trivial,
    (by norm_num : (0 : ℝ) < 1), trivial, by simp⟩

/-- ... and by a fresh AP filter of order 3 -/
example : ApFits exEnv.solve (fun _ : Fin 2 => (1 : ℝ)) (.ap 3)
    ⟨fun _ => 1, 2, 1, (⟨1, fun _ _ => 0, fun _ => 0, fun _ => 0, fun _ => 0⟩ : ApExt ℝ 2 3)⟩ := by
  intro j; simp

end Padasip
