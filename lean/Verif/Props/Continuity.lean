import Verif.Props.Consistency
import Verif.Props.Ap
import Verif.Props.Rls
import Verif.Props.Fixpoint
import Mathlib.Topology.Instances.Matrix
import Mathlib.Analysis.SpecialFunctions.Pow.Continuity
import Mathlib.Analysis.SpecialFunctions.Trigonometric.Deriv

/-!
# C145: the result of run depends continuously on the data and the parameters

The data, initial weights and parameters depend on `t` in a topological space (for instance, `t` is the whole tuple of them); if they do so
continuously, so does every number `run` returns.  The sign filters, and GMCC with `alpha = 1`, are the exceptions.
-/

set_option linter.unusedSectionVars false
set_option linter.unusedVariables false
set_option linter.unusedSimpArgs false

namespace Padasip

open Finset Filter Topology

/-! ### the recursions over a field -/

section field
variable {K : Type} [Field K] [LinearOrder K] [IsStrictOrderedRing K] {n : ℕ}
variable {d : ℕ → K} {x : ℕ → Vec K n} {y e : ℕ → K}

theorem lms_rec {o : Obj (lms K n)} {S : ℕ → Core K n Unit} (h : Runs (lms K n) o d x y e S) (k : ℕ) :
    y k = ∑ i, (S k).w i * x k i ∧ e k = d k - y k ∧
    ∀ i, (S (k + 1)).w i = (S k).w i + o.core.mu * x k i * e k := by
  obtain ⟨hm, -, hy, he, hw⟩ := lms_runs h k
  exact ⟨hy.trans (dot_eq _ _), he, fun i => by rw [hw, hm]⟩

theorem lmf_rec {o : Obj (lmf K n)} {S : ℕ → Core K n Unit} (h : Runs (lmf K n) o d x y e S) (k : ℕ) :
    y k = ∑ i, (S k).w i * x k i ∧ e k = d k - y k ∧
    ∀ i, (S (k + 1)).w i = (S k).w i + o.core.mu * x k i * (e k * e k * e k) := by
  obtain ⟨hm, -, hy, he, hw⟩ := lmf_runs h k
  exact ⟨hy.trans (dot_eq _ _), he, fun i => by rw [hw, hm]⟩

theorem nlms_rec {o : Obj (nlms K n)} {S : ℕ → Core K n (EpsExt K)} (h : Runs (nlms K n) o d x y e S) (k : ℕ) :
    y k = ∑ i, (S k).w i * x k i ∧ e k = d k - y k ∧
    ∀ i, (S (k + 1)).w i = (S k).w i + o.core.mu / (o.core.ext.eps + ∑ l, x k l * x k l) * x k i * e k := by
  obtain ⟨hm, hx, hy, he, hw⟩ := nlms_runs h k
  exact ⟨hy.trans (dot_eq _ _), he, fun i => by rw [hw, hm, hx, dot_eq]⟩

theorem nlmf_rec {o : Obj (nlmf K n)} {S : ℕ → Core K n (EpsExt K)} (h : Runs (nlmf K n) o d x y e S) (k : ℕ) :
    y k = ∑ i, (S k).w i * x k i ∧ e k = d k - y k ∧
    ∀ i, (S (k + 1)).w i = (S k).w i + o.core.mu / (o.core.ext.eps + ∑ l, x k l * x k l) * x k i * (e k * e k * e k) := by
  obtain ⟨hm, hx, hy, he, hw⟩ := nlmf_runs h k
  exact ⟨hy.trans (dot_eq _ _), he, fun i => by rw [hw, hm, hx, dot_eq]⟩

theorem gngd_rec {o : Obj (gngd K n)} {S : ℕ → Core K n (GngdExt K n)} (h : Runs (gngd K n) o d x y e S) (k : ℕ) :
    y k = ∑ i, (S k).w i * x k i ∧ e k = d k - y k ∧
    (∀ i, (S (k + 1)).w i = (S k).w i + o.core.mu / ((S (k + 1)).ext.eps + ∑ l, x k l * x k l) * e k * x k i) ∧
    (S (k + 1)).ext.eps = (S k).ext.eps - o.core.ext.ro * o.core.mu * e k * (S k).ext.lastE * (∑ l, x k l * (S k).ext.lastX l)
      / (((∑ l, (S k).ext.lastX l * (S k).ext.lastX l) + (S k).ext.eps) * ((∑ l, (S k).ext.lastX l * (S k).ext.lastX l) + (S k).ext.eps)) ∧
    (S (k + 1)).ext.lastE = e k ∧ (S (k + 1)).ext.lastX = x k := by
  obtain ⟨hm, hr, hy, he, hw, h1, h2, h3⟩ := gngd_runs h k
  refine ⟨hy.trans (dot_eq _ _), he, fun i => by rw [hw, h1, hm, dot_eq], ?_, h2, h3⟩
  rw [h1, gngdEps, hm, hr, dot_eq, dot_eq]

theorem mathews_rec {o : Obj (mathews K n)} {S : ℕ → Core K n (MathewsExt K n)} (h : Runs (mathews K n) o d x y e S) (k : ℕ) :
    y k = ∑ i, (S k).w i * x k i ∧ e k = d k - y k ∧
    (∀ i, (S (k + 1)).w i = (S k).w i + (S (k + 1)).ext.lastMu * e k * x k i) ∧
    (S (k + 1)).ext.lastMu = (S k).ext.lastMu + o.core.ext.ro * e k * (S k).ext.lastE * ∑ l, (S k).ext.lastX l * x k l ∧
    (S (k + 1)).ext.lastE = e k ∧ (S (k + 1)).ext.lastX = x k := by
  obtain ⟨hm, hr, hy, he, hw, h1, h2, h3⟩ := mathews_runs h k
  refine ⟨hy.trans (dot_eq _ _), he, fun i => by rw [hw, h1], ?_, h2, h3⟩
  rw [h1, mathewsMu, hr, dot_eq]

theorem ang_rec {o : Obj (ang K n)} {S : ℕ → Core K n (AngExt K n)} (h : Runs (ang K n) o d x y e S) (k : ℕ) :
    y k = ∑ i, (S k).w i * x k i ∧ e k = d k - y k ∧
    (∀ i, (S (k + 1)).w i = (S k).w i + (S (k + 1)).ext.lastMu * e k * x k i) ∧
    (S (k + 1)).ext.lastMu = (S k).ext.lastMu + o.core.ext.ro * e k * ∑ l, (S k).ext.lastX l * (S (k + 1)).ext.lastFi l ∧
    (∀ i, (S (k + 1)).ext.lastFi i = o.core.ext.a * (S k).ext.lastFi i + (S k).ext.lastE * (S k).ext.lastX i) ∧
    (S (k + 1)).ext.lastE = e k ∧ (S (k + 1)).ext.lastX = x k := by
  obtain ⟨hm, hr, ha, hy, he, hw, h1, h2, h3, h4⟩ := ang_runs h k
  refine ⟨hy.trans (dot_eq _ _), he, fun i => by rw [hw, h1], ?_, fun i => ?_, h2, h3⟩
  · rw [h1, angMu, hr, dot_eq, h4]
  · rw [h4, angFi, ha]

theorem ben_rec {o : Obj (benveniste K n)} {S : ℕ → Core K n (BenExt K n)} (h : Runs (benveniste K n) o d x y e S) (k : ℕ) :
    y k = ∑ i, (S k).w i * x k i ∧ e k = d k - y k ∧
    (∀ i, (S (k + 1)).w i = (S k).w i + (S (k + 1)).ext.lastMu * e k * x k i) ∧
    (S (k + 1)).ext.lastMu = (S k).ext.lastMu + o.core.ext.ro * e k * ∑ l, (S k).ext.lastX l * (S (k + 1)).ext.lastFi l ∧
    (∀ i, (S (k + 1)).ext.lastFi i = (∑ j, (eye n i j - (S k).ext.lastMu * ((S k).ext.lastX i * (S k).ext.lastX j)) * (S k).ext.lastFi j)
      + (S k).ext.lastE * (S k).ext.lastX i) ∧
    (S (k + 1)).ext.lastE = e k ∧ (S (k + 1)).ext.lastX = x k := by
  obtain ⟨hm, hr, hy, he, hw, h1, h2, h3, h4⟩ := benveniste_runs h k
  refine ⟨hy.trans (dot_eq _ _), he, fun i => by rw [hw, h1], ?_, fun i => ?_, h2, h3⟩
  · rw [h1, benMu, hr, dot_eq, h4]
  · rw [h4, benFi, matVec_eq]; rfl

theorem rls_rec {o : Obj (rls K n)} (hmu : 0 < o.core.mu) (heps : 0 < o.core.ext.eps)
    (hR : ∀ i j, o.core.ext.R i j = if i = j then 1 / o.core.ext.eps else 0)
    {S : ℕ → Core K n (RlsExt K n)} (h : Runs (rls K n) o d x y e S) (k : ℕ) :
    y k = ∑ i, (S k).w i * x k i ∧ e k = d k - y k ∧
    (∀ i, (S (k + 1)).w i = (S k).w i + (∑ j, (S (k + 1)).ext.R i j * x k j) * e k) ∧
    corrM o.core.mu o.core.ext.eps x k * (Matrix.of (S k).ext.R : Matrix (Fin n) (Fin n) K) = 1 := by
  have hz : Scalar.eqz o.core.mu = false := by
    show decide (o.core.mu = 0) = false
    simp [hmu.ne']
  obtain ⟨-, -, hy, he, hw, hRk⟩ := rls_runs hz h k
  refine ⟨hy.trans (dot_eq _ _), he, fun i => by rw [hw, hRk]; simp only [matVec_eq], (rls_inv hmu heps hR h k).1⟩

theorem ap_rec {solve : Solver K} (hs : SolveSpec solve) {order : ℕ} (ho : 0 < order) {o : Obj (ap K n solve order)}
    (hc : 0 < (show ApExt K n order from o.core.ext).ifc) {S : ℕ → Core K n (ApExt K n order)} (h : Runs (ap K n solve order) o d x y e S) (k : ℕ) :
    y k = ∑ i, (S k).w i * x k i ∧ e k = d k - y k ∧
    (∀ i j, (S (k + 1)).ext.xMem i j = if j.val = 0 then x k i else (S k).ext.xMem i ⟨j.val - 1, by omega⟩) ∧
    (∀ j, (S (k + 1)).ext.dMem j = if j.val = 0 then d k else (S k).ext.dMem ⟨j.val - 1, by omega⟩) ∧
    ∃ P : Matrix (Fin order) (Fin order) K,
      (Matrix.of (apGram (show ApExt K n order from o.core.ext).ifc (S (k + 1)).ext.xMem) : Matrix (Fin order) (Fin order) K) * P = 1 ∧
      ∀ i, (S (k + 1)).w i = (S k).w i + o.core.mu * ∑ a, (S (k + 1)).ext.xMem i a *
        ∑ b, P a b * ((S (k + 1)).ext.dMem b - ∑ l, (S (k + 1)).ext.xMem l b * (S k).w l) := by
  have hsol : ∀ X : Mat K n order, ∃ P, solve order (apGram (show ApExt K n order from o.core.ext).ifc X) (eye order) = .ok P :=
    fun X => (gram_solvable hs hc X).imp fun _ h => h.1
  obtain ⟨hm, hi, P, hP, hy, he, hw, hX, hD, -⟩ := ap_runs ho hsol h k
  refine ⟨?_, he, fun i j => ?_, fun j => ?_, P, ?_, fun i => ?_⟩
  · rw [hy, apY, dot_eq]
    refine sum_congr rfl fun i _ => ?_
    rw [mul_comm]; rfl
  · rw [hX]
    simp only [apX, shiftCols]
    split <;> rfl
  · rw [hD]
    simp only [apD, shiftVec]
    split <;> rfl
  · rw [hX]
    obtain ⟨P', hP', hg⟩ := gram_solvable hs hc (apX (S k) (x k))
    rw [hP] at hP'
    cases hP'
    ext a b
    have := congrFun (congrFun hg a) b
    rw [matMul_eq] at this
    refine Matrix.mul_apply.trans (this.trans ?_)
    rw [Matrix.one_apply]; rfl
  · rw [hw, hm, hX, hD]
    simp only [matVec_eq, apE, apY, dot_eq]

theorem gram_entry {order : ℕ} (c : K) (X : Mat K n order) (a b : Fin order) :
    (Matrix.of (apGram c X) : Matrix (Fin order) (Fin order) K) a b = (∑ i, X i a * X i b) + c * (if a = b then 1 else 0) := by
  show apGram c X a b = _
  rw [apGram, dot_eq]; rfl

end field

/-! ### continuity -/

section real
variable {T : Type} [TopologicalSpace T] {n : ℕ}

/-- every target and every entry of the input matrix depends continuously on `t` -/
def ContData (d : T → ℕ → ℝ) (x : T → ℕ → Vec ℝ n) : Prop :=
  (∀ k, Continuous fun t => d t k) ∧ ∀ k i, Continuous fun t => x t k i

/-- every output, error and weight (before sample `k`, that is also: after `k` samples) depends continuously on `t` -/
def ContResult {X : Type} (y e : T → ℕ → ℝ) (S : T → ℕ → Core ℝ n X) : Prop :=
  ∀ k, (Continuous fun t => y t k) ∧ (Continuous fun t => e t k) ∧ ∀ i, Continuous fun t => (S t k).w i

variable {d : T → ℕ → ℝ} {x : T → ℕ → Vec ℝ n} {y e : T → ℕ → ℝ}

/-- induction over the samples; `Q k` collects what else is continuous at sample `k` -/
theorem cont_gen {X : Type} {S : T → ℕ → Core ℝ n X} (hD : ContData d x)
    (hy : ∀ t k, y t k = ∑ i, (S t k).w i * x t k i) (he : ∀ t k, e t k = d t k - y t k)
    (hw0 : ∀ i, Continuous fun t => (S t 0).w i) (Q : ℕ → Prop) (hQ : Q 0)
    (step : ∀ k, Q k → (∀ i, Continuous fun t => (S t k).w i) → (Continuous fun t => e t k) →
      Q (k + 1) ∧ ∀ i, Continuous fun t => (S t (k + 1)).w i) : ContResult y e S := by
  have hyk : ∀ k, (∀ i, Continuous fun t => (S t k).w i) → Continuous fun t => y t k := fun k hw =>
    (continuous_congr fun t => hy t k).2 (continuous_finsetSum _ fun i _ => (hw i).mul (hD.2 k i))
  have hek : ∀ k, (∀ i, Continuous fun t => (S t k).w i) → Continuous fun t => e t k := fun k hw =>
    (continuous_congr fun t => he t k).2 ((hD.1 k).sub (hyk k hw))
  have key : ∀ k, Q k ∧ ∀ i, Continuous fun t => (S t k).w i := by
    intro k
    induction k with
    | zero => exact ⟨hQ, hw0⟩
    | succ k ih => exact step k ih.1 ih.2 (hek k ih.2)
  exact fun k => ⟨hyk k (key k).2, hek k (key k).2, (key k).2⟩

theorem cont_dot {f g : Fin n → T → ℝ} (hf : ∀ i, Continuous (f i)) (hg : ∀ i, Continuous (g i)) :
    Continuous fun t => ∑ i, f i t * g i t :=
  continuous_finsetSum _ fun i _ => (hf i).mul (hg i)

theorem cont_inv {m : ℕ} {A P : T → Matrix (Fin m) (Fin m) ℝ} (h : ∀ t, A t * P t = 1) (hA : ∀ i j, Continuous fun t => A t i j) (i j : Fin m) :
    Continuous fun t => P t i j := by
  have hAc : Continuous A := continuous_matrix hA
  have hdet : ∀ t, (A t).det ≠ 0 := fun t h0 => by
    have := congrArg Matrix.det (h t)
    rw [Matrix.det_mul, h0, zero_mul, Matrix.det_one] at this
    exact zero_ne_one this
  have hP : ∀ t, P t i j = (A t).det⁻¹ * (A t).adjugate i j := fun t => by
    rw [← Matrix.inv_eq_right_inv (h t), Matrix.inv_def, Matrix.smul_apply, Ring.inverse_eq_inv', smul_eq_mul]
  refine (continuous_congr hP).2 ((Continuous.inv₀ hAc.matrix_det hdet).mul ?_)
  exact hAc.matrix_adjugate.matrix_elem i j

theorem C145_lms (o : T → Obj (lms ℝ n)) {S : T → ℕ → Core ℝ n Unit} (h : ∀ t, Runs (lms ℝ n) (o t) (d t) (x t) (y t) (e t) (S t))
    (hD : ContData d x) (hw : ∀ i, Continuous fun t => (o t).core.w i) (hmu : Continuous fun t => (o t).core.mu) : ContResult y e S := by
  refine cont_gen hD (fun t k => (lms_rec (h t) k).1) (fun t k => (lms_rec (h t) k).2.1) (fun i => ?_) (fun _ => True) trivial fun k _ hwk he =>
    ⟨trivial, fun i => ?_⟩
  · exact (continuous_congr fun t => by rw [(h t).1]; rfl).2 (hw i)
  · exact (continuous_congr fun t => (lms_rec (h t) k).2.2 i).2 ((hwk i).add ((hmu.mul (hD.2 k i)).mul he))

theorem C145_lmf (o : T → Obj (lmf ℝ n)) {S : T → ℕ → Core ℝ n Unit} (h : ∀ t, Runs (lmf ℝ n) (o t) (d t) (x t) (y t) (e t) (S t))
    (hD : ContData d x) (hw : ∀ i, Continuous fun t => (o t).core.w i) (hmu : Continuous fun t => (o t).core.mu) : ContResult y e S := by
  refine cont_gen hD (fun t k => (lmf_rec (h t) k).1) (fun t k => (lmf_rec (h t) k).2.1) (fun i => ?_) (fun _ => True) trivial fun k _ hwk he =>
    ⟨trivial, fun i => ?_⟩
  · exact (continuous_congr fun t => by rw [(h t).1]; rfl).2 (hw i)
  · exact (continuous_congr fun t => (lmf_rec (h t) k).2.2 i).2 ((hwk i).add ((hmu.mul (hD.2 k i)).mul ((he.mul he).mul he)))

/-- NLMS: the normalisation must not vanish (`eps > 0` is enough) -/
theorem C145_nlms (o : T → Obj (nlms ℝ n)) {S : T → ℕ → Core ℝ n (EpsExt ℝ)}
    (h : ∀ t, Runs (nlms ℝ n) (o t) (d t) (x t) (y t) (e t) (S t))
    (hD : ContData d x) (hw : ∀ i, Continuous fun t => (o t).core.w i) (hmu : Continuous fun t => (o t).core.mu)
    (heps : Continuous fun t => (o t).core.ext.eps) (hden : ∀ t k, (o t).core.ext.eps + ∑ l, x t k l * x t k l ≠ 0) : ContResult y e S := by
  refine cont_gen hD (fun t k => (nlms_rec (h t) k).1) (fun t k => (nlms_rec (h t) k).2.1) (fun i => ?_) (fun _ => True) trivial fun k _ hwk he =>
    ⟨trivial, fun i => ?_⟩
  · exact (continuous_congr fun t => by rw [(h t).1]; rfl).2 (hw i)
  · exact (continuous_congr fun t => (nlms_rec (h t) k).2.2 i).2 ((hwk i).add
      (((hmu.div (heps.add (cont_dot (hD.2 k) (hD.2 k))) fun t => hden t k).mul (hD.2 k i)).mul he))

theorem C145_nlmf (o : T → Obj (nlmf ℝ n)) {S : T → ℕ → Core ℝ n (EpsExt ℝ)}
    (h : ∀ t, Runs (nlmf ℝ n) (o t) (d t) (x t) (y t) (e t) (S t))
    (hD : ContData d x) (hw : ∀ i, Continuous fun t => (o t).core.w i) (hmu : Continuous fun t => (o t).core.mu)
    (heps : Continuous fun t => (o t).core.ext.eps) (hden : ∀ t k, (o t).core.ext.eps + ∑ l, x t k l * x t k l ≠ 0) : ContResult y e S := by
  refine cont_gen hD (fun t k => (nlmf_rec (h t) k).1) (fun t k => (nlmf_rec (h t) k).2.1) (fun i => ?_) (fun _ => True) trivial fun k _ hwk he =>
    ⟨trivial, fun i => ?_⟩
  · exact (continuous_congr fun t => by rw [(h t).1]; rfl).2 (hw i)
  · exact (continuous_congr fun t => (nlmf_rec (h t) k).2.2 i).2 ((hwk i).add
      (((hmu.div (heps.add (cont_dot (hD.2 k) (hD.2 k))) fun t => hden t k).mul (hD.2 k i)).mul ((he.mul he).mul he)))

/-- GNGD: no denominator of the run may vanish (the compensation term can lose its sign, C39) -/
theorem C145_gngd (o : T → Obj (gngd ℝ n)) {S : T → ℕ → Core ℝ n (GngdExt ℝ n)}
    (h : ∀ t, Runs (gngd ℝ n) (o t) (d t) (x t) (y t) (e t) (S t))
    (hD : ContData d x) (hw : ∀ i, Continuous fun t => (o t).core.w i) (hmu : Continuous fun t => (o t).core.mu)
    (hro : Continuous fun t => (o t).core.ext.ro) (heps : Continuous fun t => (o t).core.ext.eps)
    (hle : Continuous fun t => (o t).core.ext.lastE) (hlx : ∀ i, Continuous fun t => (o t).core.ext.lastX i)
    (hden0 : ∀ t, (∑ l, (o t).core.ext.lastX l * (o t).core.ext.lastX l) + (o t).core.ext.eps ≠ 0)
    (hden : ∀ t k, (S t (k + 1)).ext.eps + ∑ l, x t k l * x t k l ≠ 0) : ContResult y e S := by
  refine cont_gen hD (fun t k => (gngd_rec (h t) k).1) (fun t k => (gngd_rec (h t) k).2.1) (fun i => ?_)
    (fun k => (Continuous fun t => (S t k).ext.eps) ∧ (Continuous fun t => (S t k).ext.lastE) ∧
      (∀ i, Continuous fun t => (S t k).ext.lastX i) ∧ ∀ t, (∑ l, (S t k).ext.lastX l * (S t k).ext.lastX l) + (S t k).ext.eps ≠ 0)
    ⟨?_, ?_, fun i => ?_, fun t => ?_⟩ fun k hQ hwk he => ?_
  · exact (continuous_congr fun t => by rw [(h t).1]; rfl).2 (hw i)
  · exact (continuous_congr fun t => by rw [(h t).1]; rfl).2 heps
  · exact (continuous_congr fun t => by rw [(h t).1]; rfl).2 hle
  · exact (continuous_congr fun t => by rw [(h t).1]; rfl).2 (hlx i)
  · rw [(h t).1]; exact hden0 t
  · obtain ⟨q1, q2, q3, q4⟩ := hQ
    have hden1 := (cont_dot q3 q3).add q1
    have c1 : Continuous fun t => (S t (k + 1)).ext.eps :=
      (continuous_congr fun t => (gngd_rec (h t) k).2.2.2.1).2 (q1.sub
        (((((hro.mul hmu).mul he).mul q2).mul (cont_dot (hD.2 k) q3)).div (hden1.mul hden1) fun t => mul_ne_zero (q4 t) (q4 t)))
    refine ⟨⟨c1, (continuous_congr fun t => (gngd_rec (h t) k).2.2.2.2.1).2 he, fun i => ?_, fun t => ?_⟩, fun i => ?_⟩
    · exact (continuous_congr fun t => by rw [(gngd_rec (h t) k).2.2.2.2.2]).2 (hD.2 k i)
    · rw [(gngd_rec (h t) k).2.2.2.2.2, add_comm]; exact hden t k
    · exact (continuous_congr fun t => (gngd_rec (h t) k).2.2.1 i).2 ((hwk i).add
        (((hmu.div (c1.add (cont_dot (hD.2 k) (hD.2 k))) fun t => hden t k).mul he).mul (hD.2 k i)))

theorem C145_mathews (o : T → Obj (mathews ℝ n)) {S : T → ℕ → Core ℝ n (MathewsExt ℝ n)}
    (h : ∀ t, Runs (mathews ℝ n) (o t) (d t) (x t) (y t) (e t) (S t))
    (hD : ContData d x) (hw : ∀ i, Continuous fun t => (o t).core.w i) (hro : Continuous fun t => (o t).core.ext.ro)
    (hle : Continuous fun t => (o t).core.ext.lastE) (hlx : ∀ i, Continuous fun t => (o t).core.ext.lastX i)
    (hlm : Continuous fun t => (o t).core.ext.lastMu) : ContResult y e S := by
  refine cont_gen hD (fun t k => (mathews_rec (h t) k).1) (fun t k => (mathews_rec (h t) k).2.1) (fun i => ?_)
    (fun k => (Continuous fun t => (S t k).ext.lastMu) ∧ (Continuous fun t => (S t k).ext.lastE) ∧
      (∀ i, Continuous fun t => (S t k).ext.lastX i))
    ⟨?_, ?_, fun i => ?_⟩ fun k hQ hwk he => ?_
  · exact (continuous_congr fun t => by rw [(h t).1]; rfl).2 (hw i)
  · exact (continuous_congr fun t => by rw [(h t).1]; rfl).2 hlm
  · exact (continuous_congr fun t => by rw [(h t).1]; rfl).2 hle
  · exact (continuous_congr fun t => by rw [(h t).1]; rfl).2 (hlx i)
  · obtain ⟨q1, q2, q3⟩ := hQ
    have c1 : Continuous fun t => (S t (k + 1)).ext.lastMu :=
      (continuous_congr fun t => (mathews_rec (h t) k).2.2.2.1).2 (q1.add (((hro.mul he).mul q2).mul (cont_dot q3 (hD.2 k))))
    refine ⟨⟨c1, (continuous_congr fun t => (mathews_rec (h t) k).2.2.2.2.1).2 he, fun i => ?_⟩, fun i => ?_⟩
    · exact (continuous_congr fun t => by rw [(mathews_rec (h t) k).2.2.2.2.2]).2 (hD.2 k i)
    · exact (continuous_congr fun t => (mathews_rec (h t) k).2.2.1 i).2 ((hwk i).add ((c1.mul he).mul (hD.2 k i)))

theorem C145_ang (o : T → Obj (ang ℝ n)) {S : T → ℕ → Core ℝ n (AngExt ℝ n)}
    (h : ∀ t, Runs (ang ℝ n) (o t) (d t) (x t) (y t) (e t) (S t))
    (hD : ContData d x) (hw : ∀ i, Continuous fun t => (o t).core.w i) (hro : Continuous fun t => (o t).core.ext.ro)
    (ha : Continuous fun t => (o t).core.ext.a)
    (hle : Continuous fun t => (o t).core.ext.lastE) (hlx : ∀ i, Continuous fun t => (o t).core.ext.lastX i)
    (hlf : ∀ i, Continuous fun t => (o t).core.ext.lastFi i) (hlm : Continuous fun t => (o t).core.ext.lastMu) : ContResult y e S := by
  refine cont_gen hD (fun t k => (ang_rec (h t) k).1) (fun t k => (ang_rec (h t) k).2.1) (fun i => ?_)
    (fun k => (Continuous fun t => (S t k).ext.lastMu) ∧ (Continuous fun t => (S t k).ext.lastE) ∧
      (∀ i, Continuous fun t => (S t k).ext.lastX i) ∧ ∀ i, Continuous fun t => (S t k).ext.lastFi i)
    ⟨?_, ?_, fun i => ?_, fun i => ?_⟩ fun k hQ hwk he => ?_
  · exact (continuous_congr fun t => by rw [(h t).1]; rfl).2 (hw i)
  · exact (continuous_congr fun t => by rw [(h t).1]; rfl).2 hlm
  · exact (continuous_congr fun t => by rw [(h t).1]; rfl).2 hle
  · exact (continuous_congr fun t => by rw [(h t).1]; rfl).2 (hlx i)
  · exact (continuous_congr fun t => by rw [(h t).1]; rfl).2 (hlf i)
  · obtain ⟨q1, q2, q3, q4⟩ := hQ
    have c2 : ∀ i, Continuous fun t => (S t (k + 1)).ext.lastFi i := fun i =>
      (continuous_congr fun t => (ang_rec (h t) k).2.2.2.2.1 i).2 ((ha.mul (q4 i)).add (q2.mul (q3 i)))
    have c1 : Continuous fun t => (S t (k + 1)).ext.lastMu :=
      (continuous_congr fun t => (ang_rec (h t) k).2.2.2.1).2 (q1.add ((hro.mul he).mul (cont_dot q3 c2)))
    refine ⟨⟨c1, (continuous_congr fun t => (ang_rec (h t) k).2.2.2.2.2.1).2 he, fun i => ?_, c2⟩, fun i => ?_⟩
    · exact (continuous_congr fun t => by rw [(ang_rec (h t) k).2.2.2.2.2.2]).2 (hD.2 k i)
    · exact (continuous_congr fun t => (ang_rec (h t) k).2.2.1 i).2 ((hwk i).add ((c1.mul he).mul (hD.2 k i)))

theorem C145_benveniste (o : T → Obj (benveniste ℝ n)) {S : T → ℕ → Core ℝ n (BenExt ℝ n)}
    (h : ∀ t, Runs (benveniste ℝ n) (o t) (d t) (x t) (y t) (e t) (S t))
    (hD : ContData d x) (hw : ∀ i, Continuous fun t => (o t).core.w i) (hro : Continuous fun t => (o t).core.ext.ro)
    (hle : Continuous fun t => (o t).core.ext.lastE) (hlx : ∀ i, Continuous fun t => (o t).core.ext.lastX i)
    (hlf : ∀ i, Continuous fun t => (o t).core.ext.lastFi i) (hlm : Continuous fun t => (o t).core.ext.lastMu) : ContResult y e S := by
  refine cont_gen hD (fun t k => (ben_rec (h t) k).1) (fun t k => (ben_rec (h t) k).2.1) (fun i => ?_)
    (fun k => (Continuous fun t => (S t k).ext.lastMu) ∧ (Continuous fun t => (S t k).ext.lastE) ∧
      (∀ i, Continuous fun t => (S t k).ext.lastX i) ∧ ∀ i, Continuous fun t => (S t k).ext.lastFi i)
    ⟨?_, ?_, fun i => ?_, fun i => ?_⟩ fun k hQ hwk he => ?_
  · exact (continuous_congr fun t => by rw [(h t).1]; rfl).2 (hw i)
  · exact (continuous_congr fun t => by rw [(h t).1]; rfl).2 hlm
  · exact (continuous_congr fun t => by rw [(h t).1]; rfl).2 hle
  · exact (continuous_congr fun t => by rw [(h t).1]; rfl).2 (hlx i)
  · exact (continuous_congr fun t => by rw [(h t).1]; rfl).2 (hlf i)
  · obtain ⟨q1, q2, q3, q4⟩ := hQ
    have c2 : ∀ i, Continuous fun t => (S t (k + 1)).ext.lastFi i := fun i =>
      (continuous_congr fun t => (ben_rec (h t) k).2.2.2.2.1 i).2
        ((cont_dot (fun j => continuous_const.sub (q1.mul ((q3 i).mul (q3 j)))) q4).add (q2.mul (q3 i)))
    have c1 : Continuous fun t => (S t (k + 1)).ext.lastMu :=
      (continuous_congr fun t => (ben_rec (h t) k).2.2.2.1).2 (q1.add ((hro.mul he).mul (cont_dot q3 c2)))
    refine ⟨⟨c1, (continuous_congr fun t => (ben_rec (h t) k).2.2.2.2.2.1).2 he, fun i => ?_, c2⟩, fun i => ?_⟩
    · exact (continuous_congr fun t => by rw [(ben_rec (h t) k).2.2.2.2.2.2]).2 (hD.2 k i)
    · exact (continuous_congr fun t => (ben_rec (h t) k).2.2.1 i).2 ((hwk i).add ((c1.mul he).mul (hD.2 k i)))

theorem C145_llncosh (o : T → Obj (llncosh ℝ n)) {S : T → ℕ → Core ℝ n (LlncoshExt ℝ)}
    (h : ∀ t, Runs (llncosh ℝ n) (o t) (d t) (x t) (y t) (e t) (S t))
    (hD : ContData d x) (hw : ∀ i, Continuous fun t => (o t).core.w i) (hmu : Continuous fun t => (o t).core.mu)
    (hl : Continuous fun t => (o t).core.ext.lambd) : ContResult y e S := by
  refine cont_gen hD (fun t k => ?_) (fun t k => (llncosh_runs (h t) k).2.2.2.1) (fun i => ?_) (fun _ => True) trivial fun k _ hwk he =>
    ⟨trivial, fun i => ?_⟩
  · exact (llncosh_runs (h t) k).2.2.1.trans (dot_real _ _)
  · exact (continuous_congr fun t => by rw [(h t).1]; rfl).2 (hw i)
  · have e1 : ∀ t, (S t (k + 1)).w i = (S t k).w i + (o t).core.mu * Real.tanh ((o t).core.ext.lambd * e t k) * x t k i := fun t => by
      obtain ⟨hm, hx, -, -, hw⟩ := llncosh_runs (h t) k
      rw [hw, hm, hx]; rfl
    have htanh : Continuous Real.tanh := by
      have : Real.tanh = fun u => Real.sinh u / Real.cosh u := funext Real.tanh_eq_sinh_div_cosh
      rw [this]
      exact Real.continuous_sinh.div Real.continuous_cosh fun u => (Real.cosh_pos u).ne'
    exact (continuous_congr e1).2 ((hwk i).add ((hmu.mul (htanh.comp (hl.mul he))).mul (hD.2 k i)))

theorem cont_pow_sgn {f a : T → ℝ} (hf : Continuous f) (ha : Continuous a) (h1 : ∀ t, 0 < a t) :
    Continuous fun t => |f t| ^ a t * Scalar.sgn (f t) := by
  have hp : Continuous fun t => |f t| ^ a t := hf.abs.rpow ha fun t => Or.inr (h1 t)
  have hs : ∀ u : ℝ, Scalar.sgn u = if 0 < u then (1 : ℝ) else if u < 0 then -1 else 0 := fun u => rfl
  have hs1 : ∀ u : ℝ, |Scalar.sgn u| ≤ (1 : ℝ) := fun u => by
    rw [hs]; split_ifs <;> simp
  rw [continuous_iff_continuousAt]
  intro t0
  by_cases h0 : f t0 = 0
  · have hv : |f t0| ^ a t0 * Scalar.sgn (f t0) = 0 := by
      rw [h0, abs_zero, Real.zero_rpow (h1 t0).ne', zero_mul]
    show Tendsto _ _ (𝓝 (|f t0| ^ a t0 * Scalar.sgn (f t0)))
    rw [hv]
    have hp0 : Tendsto (fun t => |f t| ^ a t) (𝓝 t0) (𝓝 0) := by
      have := hp.tendsto t0
      rwa [h0, abs_zero, Real.zero_rpow (h1 t0).ne'] at this
    refine squeeze_zero_norm (fun t => ?_) hp0
    rw [Real.norm_eq_abs, abs_mul, abs_of_nonneg (Real.rpow_nonneg (abs_nonneg _) _)]
    exact mul_le_of_le_one_right (Real.rpow_nonneg (abs_nonneg _) _) (hs1 _)
  · have hloc : ∀ᶠ t in 𝓝 t0, Scalar.sgn (f t) = Scalar.sgn (f t0) := by
      rcases lt_or_gt_of_ne h0 with hn | hp'
      · filter_upwards [hf.tendsto t0 |>.eventually (gt_mem_nhds hn)] with t ht
        rw [hs, hs, if_neg (not_lt.2 ht.le), if_pos ht, if_neg (not_lt.2 hn.le), if_pos hn]
      · filter_upwards [hf.tendsto t0 |>.eventually (lt_mem_nhds hp')] with t ht
        rw [hs, hs, if_pos ht, if_pos hp']
    refine ContinuousAt.congr (f := fun t => |f t| ^ a t * Scalar.sgn (f t0)) (hp.continuousAt.mul continuousAt_const) ?_
    filter_upwards [hloc] with t ht
    rw [ht]

/-- GMCC with `alpha > 1` -/
theorem C145_gmcc (o : T → Obj (gmcc ℝ n)) {S : T → ℕ → Core ℝ n (GmccExt ℝ)}
    (h : ∀ t, Runs (gmcc ℝ n) (o t) (d t) (x t) (y t) (e t) (S t))
    (hD : ContData d x) (hw : ∀ i, Continuous fun t => (o t).core.w i) (hmu : Continuous fun t => (o t).core.mu)
    (hl : Continuous fun t => (o t).core.ext.lambd) (ha : Continuous fun t => (o t).core.ext.alpha)
    (ha1 : ∀ t, 1 < (o t).core.ext.alpha) : ContResult y e S := by
  refine cont_gen hD (fun t k => ?_) (fun t k => (gmcc_runs (h t) k).2.2.2.1) (fun i => ?_) (fun _ => True) trivial fun k _ hwk he =>
    ⟨trivial, fun i => ?_⟩
  · exact (gmcc_runs (h t) k).2.2.1.trans (dot_real _ _)
  · exact (continuous_congr fun t => by rw [(h t).1]; rfl).2 (hw i)
  · have e1 : ∀ t, (S t (k + 1)).w i = (S t k).w i + (o t).core.mu * (o t).core.ext.lambd * (o t).core.ext.alpha *
        Real.exp (-(o t).core.ext.lambd * |e t k| ^ (o t).core.ext.alpha) *
        (|e t k| ^ ((o t).core.ext.alpha - 1) * Scalar.sgn (e t k)) * x t k i := fun t => by
      obtain ⟨hm, hx, -, -, hw⟩ := gmcc_runs (h t) k
      rw [hw, hm, hx]
      have assoc : ∀ a b c u v : ℝ, a + b * c * u * v = a + b * (c * u) * v := fun a b c u v => by ring
      exact assoc _ _ _ _ _
    refine (continuous_congr e1).2 ((hwk i).add (Continuous.mul (Continuous.mul (((hmu.mul hl).mul ha).mul ?_) ?_) (hD.2 k i)))
    · exact Real.continuous_exp.comp (hl.neg.mul (he.abs.rpow ha fun t => Or.inr (by linarith [ha1 t])))
    · exact cont_pow_sgn he (ha.sub continuous_const) fun t => by linarith [ha1 t]

/-- a fresh RLS filter with `mu > 0`, `eps > 0` -/
theorem C145_rls (o : T → Obj (rls ℝ n)) {S : T → ℕ → Core ℝ n (RlsExt ℝ n)}
    (h : ∀ t, Runs (rls ℝ n) (o t) (d t) (x t) (y t) (e t) (S t))
    (hD : ContData d x) (hw : ∀ i, Continuous fun t => (o t).core.w i) (hmu : Continuous fun t => (o t).core.mu)
    (heps : Continuous fun t => (o t).core.ext.eps) (hmu0 : ∀ t, 0 < (o t).core.mu) (heps0 : ∀ t, 0 < (o t).core.ext.eps)
    (hR : ∀ t i j, (o t).core.ext.R i j = if i = j then 1 / (o t).core.ext.eps else 0) : ContResult y e S := by
  have hrec := fun t k => rls_rec (hmu0 t) (heps0 t) (hR t) (h t) k
  have hA : ∀ k i j, Continuous fun t => corrM (o t).core.mu (o t).core.ext.eps (x t) k i j := by
    intro k i j
    show Continuous fun t => rlsCorr (o t).core.mu (o t).core.ext.eps (x t) k i j
    unfold rlsCorr
    exact (((hmu.pow k).mul heps).mul continuous_const).add
      (continuous_finsetSum _ fun m _ => ((hmu.pow _).mul (hD.2 m i)).mul (hD.2 m j))
  have hRc : ∀ k i j, Continuous fun t => (S t k).ext.R i j := fun k i j =>
    cont_inv (P := fun t => Matrix.of (S t k).ext.R) (fun t => (hrec t k).2.2.2) (hA k) i j
  refine cont_gen hD (fun t k => (hrec t k).1) (fun t k => (hrec t k).2.1) (fun i => ?_) (fun _ => True) trivial fun k _ hwk he =>
    ⟨trivial, fun i => ?_⟩
  · exact (continuous_congr fun t => by rw [(h t).1]; rfl).2 (hw i)
  · exact (continuous_congr fun t => (hrec t k).2.2.1 i).2 ((hwk i).add ((cont_dot (hRc (k + 1) i) (hD.2 k)).mul he))

/-- AP with `ifc > 0`, of any order, with any solver meeting the contract -/
theorem C145_ap {solve : Solver ℝ} (hs : SolveSpec solve) {order : ℕ} (ho : 0 < order) (o : T → Obj (ap ℝ n solve order))
    {S : T → ℕ → Core ℝ n (ApExt ℝ n order)} (h : ∀ t, Runs (ap ℝ n solve order) (o t) (d t) (x t) (y t) (e t) (S t))
    (hD : ContData d x) (hw : ∀ i, Continuous fun t => (o t).core.w i) (hmu : Continuous fun t => (o t).core.mu)
    (hc : Continuous fun t => (show ApExt ℝ n order from (o t).core.ext).ifc)
    (hc0 : ∀ t, 0 < (show ApExt ℝ n order from (o t).core.ext).ifc)
    (hX : ∀ i j, Continuous fun t => (show ApExt ℝ n order from (o t).core.ext).xMem i j)
    (hd : ∀ j, Continuous fun t => (show ApExt ℝ n order from (o t).core.ext).dMem j) : ContResult y e S := by
  have hrec := fun t k => ap_rec hs ho (hc0 t) (h t) k
  refine cont_gen hD (fun t k => (hrec t k).1) (fun t k => (hrec t k).2.1) (fun i => ?_)
    (fun k => (∀ i j, Continuous fun t => (S t k).ext.xMem i j) ∧ ∀ j, Continuous fun t => (S t k).ext.dMem j)
    ⟨fun i j => ?_, fun j => ?_⟩ fun k hQ hwk he => ?_
  · exact (continuous_congr fun t => by rw [(h t).1]; rfl).2 (hw i)
  · exact (continuous_congr fun t => by rw [(h t).1]; rfl).2 (hX i j)
  · exact (continuous_congr fun t => by rw [(h t).1]; rfl).2 (hd j)
  · have c1 : ∀ i j, Continuous fun t => (S t (k + 1)).ext.xMem i j := fun i j => by
      refine (continuous_congr fun t => (hrec t k).2.2.1 i j).2 ?_
      by_cases hj : j.val = 0
      · simpa only [hj, if_true] using hD.2 k i
      · simpa only [hj, if_false] using hQ.1 i ⟨j.val - 1, by omega⟩
    have c2 : ∀ j, Continuous fun t => (S t (k + 1)).ext.dMem j := fun j => by
      refine (continuous_congr fun t => (hrec t k).2.2.2.1 j).2 ?_
      by_cases hj : j.val = 0
      · simpa only [hj, if_true] using hD.1 k
      · simpa only [hj, if_false] using hQ.2 ⟨j.val - 1, by omega⟩
    choose P hP hwP using fun t => (hrec t k).2.2.2.2
    have c3 : ∀ a b, Continuous fun t => P t a b := cont_inv hP fun a b => by
      refine (continuous_congr fun t => ?_).2 ((cont_dot (fun i => c1 i a) fun i => c1 i b).add (hc.mul (continuous_const (y := if a = b then (1 : ℝ) else 0))))
      exact gram_entry _ _ a b
    refine ⟨⟨c1, c2⟩, fun i => (continuous_congr fun t => hwP t i).2 ?_⟩
    exact (hwk i).add (hmu.mul (cont_dot (c1 i) fun a => cont_dot (c3 a) fun b => (c2 b).sub (cont_dot (fun l => c1 l b) hwk)))

/-! ### OCNLMS -/

/-- the memory of OCNLMS: a fixed position, and contents depending continuously on `t` -/
structure OcCont (q : T → OcExt ℝ n) (idx : ℕ) (b : Bool) (Lx : List (T → Vec ℝ n)) (Ld : List (T → ℝ)) : Prop where
  hidx : ∀ t, (q t).memIdx = idx
  hemp : ∀ t, (q t).memEmpty = b
  hx : ∀ t, (q t).memX = Lx.map fun f => f t
  hd : ∀ t, (q t).memD = Ld.map fun f => f t
  cx : ∀ f ∈ Lx, ∀ i, Continuous fun t => f t i
  cd : ∀ f ∈ Ld, Continuous f
  eps : Continuous fun t => (q t).eps

theorem cont_meanL (L : List (T → ℝ)) (h : ∀ f ∈ L, Continuous f) : Continuous fun t => meanL (L.map fun f => f t) := by
  have e1 : ∀ t, meanL (L.map fun f => f t) = (L.map fun f => f t).sum / (L.length : ℝ) := fun t => by
    show _ / Scalar.nat (L.map fun f => f t).length = _
    rw [List.length_map]; rfl
  refine (continuous_congr e1).2 (Continuous.div_const ?_ _)
  clear e1
  induction L with
  | nil => simpa using continuous_const
  | cons f L ih =>
    simp only [List.map_cons, List.sum_cons]
    exact (h f (by simp)).add (ih fun g hg => h g (by simp [hg]))

theorem cont_meanRows (L : List (T → Vec ℝ n)) (h : ∀ f ∈ L, ∀ i, Continuous fun t => f t i) (i : Fin n) :
    Continuous fun t => meanRows (L.map fun f => f t) i := by
  have := cont_meanL (L.map fun f t => f t i) (by
    intro g hg
    obtain ⟨f, hf, rfl⟩ := List.mem_map.1 hg
    exact h f hf i)
  refine (continuous_congr fun t => ?_).2 this
  simp only [meanRows, List.map_map]
  rfl

theorem OcCont.mx {q : T → OcExt ℝ n} {idx b Lx Ld} (h : OcCont q idx b Lx Ld) (i : Fin n) : Continuous fun t => ocMx (q t) i := by
  have e1 : ∀ t, ocMx (q t) i = if b then (if idx = 0 then 0 else meanRows ((Lx.take (idx + 1)).map fun f => f t) i)
      else meanRows (Lx.map fun f => f t) i := fun t => by
    rw [ocMx, h.hemp, h.hidx, h.hx, ← List.map_take]
    split <;> [split; skip] <;> rfl
  refine (continuous_congr e1).2 ?_
  split
  · split
    · exact continuous_const
    · exact cont_meanRows _ (fun f hf => h.cx f (List.mem_of_mem_take hf)) i
  · exact cont_meanRows _ h.cx i

theorem OcCont.md {q : T → OcExt ℝ n} {idx b Lx Ld} (h : OcCont q idx b Lx Ld) : Continuous fun t => ocMd (q t) := by
  have e1 : ∀ t, ocMd (q t) = if b then (if idx = 0 then 0 else meanL ((Ld.take idx).map fun f => f t))
      else if idx < Ld.length then meanL ((Ld.eraseIdx idx).map fun f => f t) else 0 := fun t => by
    rw [ocMd, ocCenterD, h.hemp, h.hidx, h.hd, ← List.map_take, List.length_map, ← List.eraseIdx_map]
    split <;> rename_i heq <;> split_ifs at heq <;> simp_all
  refine (continuous_congr e1).2 ?_
  split
  · split
    · exact continuous_const
    · exact cont_meanL _ fun f hf => h.cd f (List.mem_of_mem_take hf)
  · split
    · exact cont_meanL _ fun f hf => h.cd f (List.mem_of_mem_eraseIdx hf)
    · exact continuous_const

theorem OcCont.adv {q : T → OcExt ℝ n} {idx b Lx Ld} (h : OcCont q idx b Lx Ld) :
    ∃ idx' b', OcCont (fun t => ocAdvance (q t)) idx' b' Lx Ld := by
  have hl : ∀ t, (q t).memX.length = Lx.length := fun t => by rw [h.hx, List.length_map]
  by_cases hc : Lx.length ≤ idx + 1
  · have e1 : ∀ t, ocAdvance (q t) = { q t with memIdx := 0, memEmpty := false } := fun t => by
      rw [ocAdvance, hl, h.hidx, if_pos hc]
    refine ⟨0, false, ⟨fun t => ?_, fun t => ?_, fun t => ?_, fun t => ?_, h.cx, h.cd, (continuous_congr fun t => ?_).2 h.eps⟩⟩ <;> rw [e1]
    exacts [h.hx t, h.hd t]
  · have e1 : ∀ t, ocAdvance (q t) = { q t with memIdx := (q t).memIdx + 1 } := fun t => by
      rw [ocAdvance, hl, h.hidx, if_neg hc]
    refine ⟨idx + 1, b, ⟨fun t => ?_, fun t => ?_, fun t => ?_, fun t => ?_, h.cx, h.cd, (continuous_congr fun t => ?_).2 h.eps⟩⟩ <;> rw [e1]
    exacts [congrArg (· + 1) (h.hidx t), h.hemp t, h.hx t, h.hd t]

theorem OcCont.storeX {q : T → OcExt ℝ n} {idx b Lx Ld} (h : OcCont q idx b Lx Ld) {v : T → Vec ℝ n} (hv : ∀ i, Continuous fun t => v t i) :
    OcCont (fun t => ocStoreX (q t) (v t)) idx b (Lx.set idx v) Ld := by
  refine ⟨h.hidx, h.hemp, fun t => ?_, h.hd, fun f hf => ?_, h.cd, h.eps⟩
  · show (q t).memX.set (q t).memIdx (v t) = _
    rw [h.hx, h.hidx, List.map_set]
  · rcases List.mem_or_eq_of_mem_set hf with hf | rfl
    exacts [h.cx f hf, hv]

theorem OcCont.storeD {q : T → OcExt ℝ n} {idx b Lx Ld} (h : OcCont q idx b Lx Ld) {v : T → ℝ} (hv : Continuous v) :
    ∃ Ld', OcCont (fun t => ocStoreD (q t) (v t)) idx b Lx Ld' := by
  refine ⟨Ld.set (if idx = 0 then Ld.length - 1 else idx - 1) v, h.hidx, h.hemp, h.hx, fun t => ?_, h.cx, fun f hf => ?_, h.eps⟩
  · show (q t).memD.set (if (q t).memIdx = 0 then (q t).memD.length - 1 else (q t).memIdx - 1) (v t) = _
    rw [h.hd, h.hidx, List.map_set, List.length_map]
  · rcases List.mem_or_eq_of_mem_set hf with hf | rfl
    exacts [h.cd f hf, hv]

/-- OCNLMS with `eps > 0` and a memory of at least two samples; the position in the memory does not depend on `t` (a fresh filter: it is 0) -/
theorem C145_ocnlms (o : T → Obj (ocnlms ℝ n)) {S : T → ℕ → Core ℝ n (OcExt ℝ n)}
    (h : ∀ t, Runs (ocnlms ℝ n) (o t) (d t) (x t) (y t) (e t) (S t))
    (hD : ContData d x) (hw : ∀ i, Continuous fun t => (o t).core.w i) (hmu : Continuous fun t => (o t).core.mu)
    (heps0 : ∀ t, 0 < (ocExtOf (o t)).eps) (ho : ∀ t, OcOk (ocExtOf (o t))) (idx : ℕ) (b : Bool) (Lx : List (T → Vec ℝ n)) (Ld : List (T → ℝ))
    (hmem : 2 ≤ Lx.length) (hq : OcCont (fun t => ocExtOf (o t)) idx b Lx Ld) : ContResult y e S := by
  have hrec := fun t k => oc_runs_full (h t) (ho t) k
  have heps : ∀ t k, (S t k).ext.eps = (ocExtOf (o t)).eps := by
    intro t k
    induction k with
    | zero => rw [(h t).1]; rfl
    | succ k ih =>
      rw [(hrec t k).2.2.2.2.2.2, ← ih]
      have he : ∀ q : OcExt ℝ n, (ocAdvance q).eps = q.eps := by intro q; unfold ocAdvance; split <;> rfl
      show (ocAdvance (ocStoreX (ocAdvance (S t k).ext) (x t k))).eps = _
      rw [he]; exact he _
  have hyk : ∀ k, (∃ idx b Lx Ld, OcCont (fun t => (S t k).ext) idx b Lx Ld) → (∀ i, Continuous fun t => (S t k).w i) →
      Continuous fun t => y t k := by
    rintro k ⟨idx, b, Lx, Ld, hk⟩ hwk
    refine (continuous_congr fun t => (hrec t k).2.2.2.1.trans ?_).2
      ((cont_dot hwk fun i => (hD.2 k i).sub (hk.mx i)).add hk.md)
    rw [ocY, dot_real]
    rfl
  have key : ∀ k, (∃ idx b Lx Ld, OcCont (fun t => (S t k).ext) idx b Lx Ld) ∧ ∀ i, Continuous fun t => (S t k).w i := by
    intro k
    induction k with
    | zero =>
      refine ⟨⟨idx, b, Lx, Ld, ?_⟩, fun i => (continuous_congr fun t => by rw [(h t).1]; rfl).2 (hw i)⟩
      have : (fun t => (S t 0).ext) = fun t => ocExtOf (o t) := funext fun t => by rw [(h t).1]; rfl
      rw [this]; exact hq
    | succ k ih =>
      have hy := hyk k ih.1 ih.2
      have he : Continuous fun t => e t k := (continuous_congr fun t => (hrec t k).2.2.2.2.1).2 ((hD.1 k).sub hy)
      obtain ⟨⟨idx, b, Lx, Ld, hk⟩, hwk⟩ := ih
      obtain ⟨i1, b1, h1⟩ := hk.adv
      have h2 := h1.storeX (hD.2 k)
      have hc : ∀ i, Continuous fun t => x t k i - ocMx (ocStoreX (ocAdvance (S t k).ext) (x t k)) i := fun i => (hD.2 k i).sub (h2.mx i)
      obtain ⟨i3, b3, h3⟩ := h2.adv
      have hwc : Continuous fun t => e t k + ((∑ i, (S t k).w i * (x t k i - ocMx (ocStoreX (ocAdvance (S t k).ext) (x t k)) i))
          + ocMd (ocStoreX (ocAdvance (S t k).ext) (x t k))) := he.add ((cont_dot hwk hc).add h2.md)
      obtain ⟨Ld4, h4⟩ := h3.storeD hwc
      refine ⟨⟨i3, b3, Lx.set i1 fun t => x t k, Ld4, ?_⟩, fun i => ?_⟩
      · have : (fun t => (S t (k + 1)).ext) = _ := funext fun t => (hrec t k).2.2.2.2.2.2
        rw [this]
        simp only [dot_real]
        exact h4
      · refine (continuous_congr fun t => ?_).2 ((hwk i).add (((hmu.div (hk.eps.add (cont_dot hc hc)) fun t => ?_).mul he).mul (hc i)))
        · rw [(hrec t k).2.2.2.2.2.1, (hrec t k).2.2.1]
          simp only [dot_real]
          rfl
        · show (S t k).ext.eps + _ ≠ 0
          rw [heps]
          exact (add_pos_of_pos_of_nonneg (heps0 t) (sum_nonneg fun i _ => mul_self_nonneg _)).ne'
  exact fun k => ⟨hyk k (key k).1 (key k).2, (continuous_congr fun t => (hrec t k).2.2.2.2.1).2 ((hD.1 k).sub (hyk k (key k).1 (key k).2)), (key k).2⟩

/-! ### exceptions, and the hypotheses can be met -/

theorem not_cont_jump {g : ℝ → ℝ} (c : ℝ) (hc : 0 < c) (h0 : g 0 = 0) (hp : ∀ t, 0 < t → t < 1 → c ≤ g t) : ¬ Continuous g := by
  intro hg
  have h1 : Tendsto g (𝓝[>] 0) (𝓝 0) := by
    have := hg.tendsto 0
    rw [h0] at this
    exact this.mono_left nhdsWithin_le_nhds
  have h2 : ∀ᶠ t in 𝓝[>] (0 : ℝ), c ≤ g t := by
    filter_upwards [Ioo_mem_nhdsGT (show (0 : ℝ) < 1 by norm_num)] with t ht
    exact hp t ht.1 ht.2
  have := ge_of_tendsto h1 h2
  linarith

theorem sgn_pos_real {u : ℝ} (h : 0 < u) : Scalar.sgn u = (1 : ℝ) := by
  show (if 0 < u then (1 : ℝ) else if u < 0 then -1 else 0) = 1
  rw [if_pos h]

/-- C145, the exceptions: whatever the initial weights, the weights of SSLMS after the first sample jump when the target of that sample passes the
value the filter predicts. -/
theorem C145_sslms_jump (o : Obj (sslms ℝ n)) (hmu : o.core.mu ≠ 0) (x : ℕ → Vec ℝ n) (i : Fin n) (hx : x 0 i ≠ 0) {y e : ℝ → ℕ → ℝ}
    {S : ℝ → ℕ → Core ℝ n Unit} (h : ∀ t : ℝ, Runs (sslms ℝ n) o (fun _ => t) x (y t) (e t) (S t)) :
    ¬ Continuous fun t => (S t 1).w i := by
  intro hc
  set c := ∑ l, o.core.w l * x 0 l with hcdef
  have e1 : ∀ t, (S t 1).w i = o.core.w i + o.core.mu * Scalar.sgn (x 0 i) * Scalar.sgn (t - c) := fun t => by
    obtain ⟨hm, -, hy, he, hw⟩ := sslms_runs (h t) 0
    rw [hw, hm, he, hy, dot_real, (h t).1]; rfl
  have hs : Scalar.sgn (x 0 i) ≠ (0 : ℝ) := by
    show (if 0 < x 0 i then (1 : ℝ) else if x 0 i < 0 then -1 else 0) ≠ 0
    rcases lt_or_gt_of_ne hx with h | h
    · rw [if_neg (not_lt.2 h.le), if_pos h]; norm_num
    · rw [if_pos h]; norm_num
  have key : ∀ (a m s u g : ℝ), m ≠ 0 → s ≠ 0 → g = a + m * s * u → (g - a) / (m * s) = u := fun a m s u g hm hs h => by
    rw [h, add_sub_cancel_left, mul_div_cancel_left₀ _ (mul_ne_zero hm hs)]
  refine not_cont_jump (g := fun t => ((S (t + c) 1).w i - o.core.w i) / (o.core.mu * Scalar.sgn (x 0 i))) 1 one_pos ?_ (fun t ht _ => ?_) ?_
  · show _ / _ = (0 : ℝ)
    rw [key _ _ _ _ _ hmu hs (e1 (0 + c)), zero_add, sub_self]
    exact sgn_zero_real
  · show 1 ≤ _ / _
    rw [key _ _ _ _ _ hmu hs (e1 (t + c)), add_sub_cancel_right, sgn_pos_real ht]
  · exact ((hc.comp (continuous_id.add continuous_const)).sub continuous_const).div_const _

/-- C145, the exceptions: the same for NSSLMS. -/
theorem C145_nsslms_jump (o : Obj (nsslms ℝ n)) (hmu : o.core.mu ≠ 0) (x : ℕ → Vec ℝ n) (i : Fin n) (hx : x 0 i ≠ 0)
    (hden : o.core.ext.eps + ∑ l, x 0 l * x 0 l ≠ 0) {y e : ℝ → ℕ → ℝ}
    {S : ℝ → ℕ → Core ℝ n (EpsExt ℝ)} (h : ∀ t : ℝ, Runs (nsslms ℝ n) o (fun _ => t) x (y t) (e t) (S t)) :
    ¬ Continuous fun t => (S t 1).w i := by
  intro hc
  set c := ∑ l, o.core.w l * x 0 l with hcdef
  have e1 : ∀ t, (S t 1).w i = o.core.w i + o.core.mu / (o.core.ext.eps + ∑ l, x 0 l * x 0 l) * Scalar.sgn (x 0 i) * Scalar.sgn (t - c) := fun t => by
    obtain ⟨hm, hx, hy, he, hw⟩ := nsslms_runs (h t) 0
    rw [hw, hm, hx, he, hy, dot_real, dot_real, (h t).1]; rfl
  have hs : Scalar.sgn (x 0 i) ≠ (0 : ℝ) := by
    show (if 0 < x 0 i then (1 : ℝ) else if x 0 i < 0 then -1 else 0) ≠ 0
    rcases lt_or_gt_of_ne hx with h | h
    · rw [if_neg (not_lt.2 h.le), if_pos h]; norm_num
    · rw [if_pos h]; norm_num
  have key : ∀ (a m s u g : ℝ), m ≠ 0 → s ≠ 0 → g = a + m * s * u → (g - a) / (m * s) = u := fun a m s u g hm hs h => by
    rw [h, add_sub_cancel_left, mul_div_cancel_left₀ _ (mul_ne_zero hm hs)]
  have hm' := div_ne_zero hmu hden
  refine not_cont_jump (g := fun t => ((S (t + c) 1).w i - o.core.w i) / (o.core.mu / (o.core.ext.eps + ∑ l, x 0 l * x 0 l) * Scalar.sgn (x 0 i)))
    1 one_pos ?_ (fun t ht _ => ?_) ?_
  · show _ / _ = (0 : ℝ)
    rw [key _ _ _ _ _ hm' hs (e1 (0 + c)), zero_add, sub_self]
    exact sgn_zero_real
  · show 1 ≤ _ / _
    rw [key _ _ _ _ _ hm' hs (e1 (t + c)), add_sub_cancel_right, sgn_pos_real ht]
  · exact ((hc.comp (continuous_id.add continuous_const)).sub continuous_const).div_const _

/-- C145, the exceptions: the same for GMCC with `alpha = 1`. -/
theorem C145_gmcc_jump (o : Obj (gmcc ℝ n)) (hmu : o.core.mu ≠ 0) (hl : o.core.ext.lambd ≠ 0) (ha : o.core.ext.alpha = 1) (x : ℕ → Vec ℝ n)
    (i : Fin n) (hx : x 0 i ≠ 0) {y e : ℝ → ℕ → ℝ}
    {S : ℝ → ℕ → Core ℝ n (GmccExt ℝ)} (h : ∀ t : ℝ, Runs (gmcc ℝ n) o (fun _ => t) x (y t) (e t) (S t)) :
    ¬ Continuous fun t => (S t 1).w i := by
  intro hc
  set c := ∑ l, o.core.w l * x 0 l with hcdef
  have e1 : ∀ t, (S t 1).w i = o.core.w i + o.core.mu * o.core.ext.lambd * x 0 i *
      (Real.exp (-o.core.ext.lambd * |t - c|) * Scalar.sgn (t - c)) := fun t => by
    obtain ⟨hm, hx, hy, he, hw⟩ := gmcc_runs (h t) 0
    rw [hw, hm, hx, he, hy, dot_real, ha, (h t).1]
    have key : ∀ (w m l E s X a b : ℝ), a = |E| → b = 1 →
        w + m * l * 1 * Real.exp (-l * a) * b * s * X = w + m * l * X * (Real.exp (-l * |E|) * s) := by
      intro w m l E s X a b h1 h2; rw [h1, h2]; ring
    refine key _ _ _ _ _ _ _ _ ?_ ?_
    · exact Real.rpow_one _
    · show _ ^ ((1 : ℝ) - 1) = (1 : ℝ)
      rw [sub_self, Real.rpow_zero]
  have key : ∀ (a m s X u g : ℝ), m ≠ 0 → s ≠ 0 → X ≠ 0 → g = a + m * s * X * u → (g - a) / (m * s * X) = u := fun a m s X u g hm hs hX h => by
    rw [h, add_sub_cancel_left, mul_div_cancel_left₀ _ (mul_ne_zero (mul_ne_zero hm hs) hX)]
  refine not_cont_jump (g := fun t => ((S (t + c) 1).w i - o.core.w i) / (o.core.mu * o.core.ext.lambd * x 0 i))
    (Real.exp (-|o.core.ext.lambd|)) (Real.exp_pos _) ?_ (fun t ht ht1 => ?_) ?_
  · show _ / _ = (0 : ℝ)
    rw [key _ _ _ _ _ _ hmu hl hx (e1 (0 + c)), zero_add, sub_self, sgn_zero_real, mul_zero]
  · show _ ≤ _ / _
    rw [key _ _ _ _ _ _ hmu hl hx (e1 (t + c)), add_sub_cancel_right, sgn_pos_real ht, mul_one, abs_of_pos ht]
    refine Real.exp_le_exp.2 ?_
    have h1 := le_abs_self o.core.ext.lambd
    have h2 := abs_nonneg o.core.ext.lambd
    nlinarith
  · exact ((hc.comp (continuous_id.add continuous_const)).sub continuous_const).div_const _

/-- the hypotheses of `C145_lms` can be met with the whole data set, the initial weights and the step size as parameter -/
example : ∃ (o : (ℕ → ℝ) × (ℕ → Vec ℝ 2) × Vec ℝ 2 × ℝ → Obj (lms ℝ 2)) (y e : (ℕ → ℝ) × (ℕ → Vec ℝ 2) × Vec ℝ 2 × ℝ → ℕ → ℝ)
    (S : (ℕ → ℝ) × (ℕ → Vec ℝ 2) × Vec ℝ 2 × ℝ → ℕ → Core ℝ 2 Unit),
    (∀ t, (o t).core.w = t.2.2.1 ∧ (o t).core.mu = t.2.2.2) ∧ (∀ t, Runs (lms ℝ 2) (o t) t.1 t.2.1 (y t) (e t) (S t)) ∧
    ContData (fun t : (ℕ → ℝ) × (ℕ → Vec ℝ 2) × Vec ℝ 2 × ℝ => t.1) (fun t => t.2.1) ∧
    (∀ i, Continuous fun t => (o t).core.w i) ∧ Continuous fun t => (o t).core.mu :=
  ⟨fun t => ⟨⟨t.2.2.1, 2, t.2.2.2, ()⟩, []⟩, _, _, _, fun t => ⟨rfl, rfl⟩, fun t => runs_of_safe lms_safe _ trivial _ _,
    ⟨fun k => (continuous_apply k).comp continuous_fst,
      fun k i => (continuous_apply i).comp ((continuous_apply k).comp (continuous_fst.comp continuous_snd))⟩,
    fun i => (continuous_apply i).comp (continuous_fst.comp (continuous_snd.comp continuous_snd)),
    continuous_snd.comp (continuous_snd.comp continuous_snd)⟩

/-- the hypotheses of `C145_ocnlms`: fresh filters with memory 4, targets depending on `t` -/
example : ∃ (o : ℝ → Obj (ocnlms ℝ 2)) (y e : ℝ → ℕ → ℝ) (S : ℝ → ℕ → Core ℝ 2 (OcExt ℝ 2)) (Lx : List (ℝ → Vec ℝ 2)) (Ld : List (ℝ → ℝ)),
    (∀ t, Runs (ocnlms ℝ 2) (o t) (fun _ => t) (fun k _ => t * k) (y t) (e t) (S t)) ∧ (∀ t, 0 < (ocExtOf (o t)).eps) ∧
    (∀ t, OcOk (ocExtOf (o t))) ∧ 2 ≤ Lx.length ∧ OcCont (fun t => ocExtOf (o t)) 0 true Lx Ld := by
  refine ⟨fun t => ⟨⟨fun _ => 0, 2, 1, ocClear 4 ⟨1, true, [], [], 0⟩⟩, []⟩, _, _, _, List.replicate 4 fun _ => zeros 2, List.replicate 4 fun _ => 0,
    fun t => runs_of_safe ocnlms_safe _ (by exact ⟨by simp [ocClear, Core.withN], by simp [ocClear, Core.withN]⟩) _ _, fun t => one_pos,
    fun t => ⟨by simp [ocExtOf, ocClear], by simp [ocExtOf, ocClear]⟩, by simp, ⟨fun t => rfl, fun t => rfl, fun t => ?_, fun t => ?_, ?_, ?_, continuous_const⟩⟩
  · show List.replicate 4 (zeros 2) = _
    simp
  · show List.replicate 4 (0 : ℝ) = _
    simp
  · intro f hf i
    rw [List.eq_of_mem_replicate hf]; exact continuous_const
  · intro f hf
    rw [List.eq_of_mem_replicate hf]; exact continuous_const

/-- the hypotheses of `C145_rls`: forgetting factor, data and initial weights depending on `t` -/
example : ∃ (o : ℝ → Obj (rls ℝ 2)) (y e : ℝ → ℕ → ℝ) (S : ℝ → ℕ → Core ℝ 2 (RlsExt ℝ 2)),
    (∀ t, Runs (rls ℝ 2) (o t) (fun _ => t) (fun k _ => t * k) (y t) (e t) (S t)) ∧ (Continuous fun t => (o t).core.mu) ∧
    (∀ t, 0 < (o t).core.mu) ∧ (∀ t, 0 < (o t).core.ext.eps) ∧
    ∀ t i j, (o t).core.ext.R i j = if i = j then 1 / (o t).core.ext.eps else 0 :=
  ⟨fun t => ⟨⟨fun _ => t, 2, 1 + |t|, (⟨1, fun i j => if i = j then 1 / 1 else 0⟩ : RlsExt ℝ 2)⟩, []⟩, _, _, _,
    fun t => runs_of_safe rls_safe _ (by
      have : (1 : ℝ) + |t| ≠ 0 := by positivity
      simpa [Scalar.eqz, Core.withN] using this) _ _,
    continuous_const.add continuous_abs, fun t => by show (0 : ℝ) < 1 + |t|; positivity, fun t => one_pos, fun t i j => rfl⟩

/-- the hypotheses of `C145_ap` -/
example : ∃ (o : ℝ → Obj (ap ℝ 2 exactSolve 3)) (y e : ℝ → ℕ → ℝ) (S : ℝ → ℕ → Core ℝ 2 (ApExt ℝ 2 3)),
    (∀ t, Runs (ap ℝ 2 exactSolve 3) (o t) (fun _ => t) (fun k _ => t * k) (y t) (e t) (S t)) ∧
    (∀ t, 0 < (show ApExt ℝ 2 3 from (o t).core.ext).ifc) ∧
    (∀ i j, Continuous fun t => (show ApExt ℝ 2 3 from (o t).core.ext).xMem i j) ∧
    ∀ j, Continuous fun t => (show ApExt ℝ 2 3 from (o t).core.ext).dMem j :=
  ⟨fun t => ⟨⟨fun _ => 0, 2, 1, (⟨1, fun _ _ => t, fun _ => t, fun _ => 0, fun _ => 0⟩ : ApExt ℝ 2 3)⟩, []⟩, _, _, _,
    fun t => runs_of_safe (ap_safe _ (by norm_num) 1 fun X => (gram_solvable exactSolve_spec one_pos X).imp fun _ h => h.1) _ rfl _ _,
    fun t => one_pos, fun i j => continuous_id, fun j => continuous_id⟩

end real

end Padasip
