import Verif.Props.Stability
import Mathlib.Probability.Independence.Integration
import Mathlib.Probability.Independence.InfinitePi
import Mathlib.Probability.IdentDistrib
import Mathlib.MeasureTheory.Function.L2Space
import Mathlib.Analysis.Matrix.Spectrum

/-!
# C122, C123: random data (the setting of the examples in the documentation)

`d(k) = <ws, x(k)> + v(k)` with inputs and noise drawn at random, the samples independent of each other.
-/

set_option linter.unusedSectionVars false
set_option linter.unusedSimpArgs false
set_option linter.unusedVariables false

namespace Padasip

open Finset MeasureTheory ProbabilityTheory

section indep
variable {Ω : Type} {mΩ : MeasurableSpace Ω} {P : Measure Ω}

/-- `c` independent of `(A, Z)` and `A` independent of `Z`: then `(c, A)` is independent of `Z` -/
theorem indep_assoc [IsProbabilityMeasure P] {α β γ : Type} [MeasurableSpace α] [MeasurableSpace β] [MeasurableSpace γ] {c : Ω → α} {A : Ω → β} {Z : Ω → γ}
    (mc : Measurable c) (mA : Measurable A) (mZ : Measurable Z) (h1 : IndepFun c (fun ω => (A ω, Z ω)) P) (h2 : IndepFun A Z P) :
    IndepFun (fun ω => (c ω, A ω)) Z P := by
  have h3 : IndepFun c A P := h1.comp measurable_id measurable_fst
  rw [indepFun_iff_map_prod_eq_prod_map_map mc.aemeasurable (mA.prodMk mZ).aemeasurable] at h1
  rw [indepFun_iff_map_prod_eq_prod_map_map mA.aemeasurable mZ.aemeasurable] at h2
  rw [indepFun_iff_map_prod_eq_prod_map_map mc.aemeasurable mA.aemeasurable] at h3
  rw [indepFun_iff_map_prod_eq_prod_map_map (mc.prodMk mA).aemeasurable mZ.aemeasurable]
  have := Measure.isProbabilityMeasure_map (μ := P) mc.aemeasurable
  have := Measure.isProbabilityMeasure_map (μ := P) mA.aemeasurable
  have := Measure.isProbabilityMeasure_map (μ := P) mZ.aemeasurable
  have e : (fun ω => ((c ω, A ω), Z ω)) = MeasurableEquiv.prodAssoc.symm ∘ fun ω => (c ω, (A ω, Z ω)) := rfl
  rw [e, ← Measure.map_map MeasurableEquiv.prodAssoc.symm.measurable (mc.prodMk (mA.prodMk mZ)), h1, h2, h3]
  rw [← Measure.prodAssoc_prod, MeasurableEquiv.map_symm_map]

/-- what is computed from the start and the first `k` samples is independent of sample `k` -/
theorem indep_state [IsProbabilityMeasure P] {β σ : Type} [mβ : MeasurableSpace β] [MeasurableSpace σ] {Z : ℕ → Ω → β} {W : ℕ → Ω → σ} (hZ : iIndepFun Z P)
    (hm : ∀ k, Measurable (Z k)) (F : σ × β → σ) (hF : Measurable F) {c : Ω → σ} (mc : Measurable c) (ic : IndepFun c (fun ω k => Z k ω) P)
    (h0 : ∀ ω, W 0 ω = c ω) (hs : ∀ k ω, W (k + 1) ω = F (W k ω, Z k ω)) (k : ℕ) : IndepFun (W k) (Z k) P ∧ Measurable (W k) := by
  -- the state as a function of the start and the samples so far
  have key : ∀ k, ∃ G : σ × (Finset.range k → β) → σ, Measurable G ∧ ∀ ω, W k ω = G (c ω, fun i => Z i ω) := by
    intro k
    induction k with
    | zero => exact ⟨Prod.fst, measurable_fst, h0⟩
    | succ k ih =>
      obtain ⟨G, hG, he⟩ := ih
      refine ⟨fun q => F (G (q.1, fun i => q.2 ⟨i, Finset.mem_range.2 ((Finset.mem_range.1 i.2).trans (Nat.lt_succ_self k))⟩),
        q.2 ⟨k, Finset.mem_range.2 (Nat.lt_succ_self k)⟩), ?_, fun ω => ?_⟩
      · refine hF.comp ((hG.comp (measurable_fst.prodMk (measurable_pi_lambda _ fun i => ?_))).prodMk ?_)
        · exact (measurable_pi_apply _).comp measurable_snd
        · exact (measurable_pi_apply _).comp measurable_snd
      · rw [hs, he]
  obtain ⟨G, hG, he⟩ := key k
  have mA : Measurable fun ω (i : Finset.range k) => Z i ω := measurable_pi_lambda _ fun i => hm i
  have h2 : IndepFun (fun ω (i : Finset.range k) => Z i ω) (Z k) P := by
    have := hZ.indepFun_finset (Finset.range k) {k} (by simp) hm
    exact this.comp (φ := id) (ψ := fun q : ({k} : Finset ℕ) → β => q ⟨k, Finset.mem_singleton_self k⟩) measurable_id (measurable_pi_apply _)
  have h1 : IndepFun c (fun ω => ((fun i : Finset.range k => Z i ω), Z k ω)) P :=
    ic.comp (φ := id) (ψ := fun q : ℕ → β => ((fun i : Finset.range k => q i), q k)) measurable_id
      ((measurable_pi_lambda _ fun i => measurable_pi_apply _).prodMk (measurable_pi_apply _))
  have hW : W k = fun ω => G (c ω, fun i => Z i ω) := funext he
  rw [hW]
  exact ⟨(indep_assoc mc mA (hm k) h1 h2).comp hG measurable_id, hG.comp (mc.prodMk mA)⟩

/-- The deviation `D(k)` of the weights from `ws`, driven by the input `x(k)` and the noise `v(k)` with gain `g(x(k))`. -/
structure Process {n : ℕ} (P : Measure Ω) (g : Vec ℝ n → ℝ) (x : ℕ → Ω → Vec ℝ n) (v : ℕ → Ω → ℝ) (c : Ω → Vec ℝ n) (D : ℕ → Ω → Vec ℝ n) : Prop where
  hg : Measurable g
  mx : ∀ k, Measurable (x k)
  mv : ∀ k, Measurable (v k)
  ind : iIndepFun (fun k ω => (x k ω, v k ω)) P
  mc : Measurable c
  ic : IndepFun c (fun ω k => (x k ω, v k ω)) P
  zero : ∀ ω, D 0 ω = c ω
  step : ∀ k ω i, D (k + 1) ω i = D k ω i + g (x k ω) * x k ω i * (v k ω - ∑ j, D k ω j * x k ω j)

variable {n : ℕ} {g : Vec ℝ n → ℝ} {x : ℕ → Ω → Vec ℝ n} {v : ℕ → Ω → ℝ} {c : Ω → Vec ℝ n} {D : ℕ → Ω → Vec ℝ n}

theorem Process.indep [IsProbabilityMeasure P] (h : Process P g x v c D) (k : ℕ) : IndepFun (D k) (fun ω => (x k ω, v k ω)) P ∧ Measurable (D k) := by
  refine indep_state (Z := fun k ω => (x k ω, v k ω)) h.ind (fun k => (h.mx k).prodMk (h.mv k))
    (fun q : Vec ℝ n × (Vec ℝ n × ℝ) => fun i => q.1 i + g q.2.1 * q.2.1 i * (q.2.2 - ∑ j, q.1 j * q.2.1 j)) ?_ h.mc h.ic h.zero
    (fun k ω => funext fun i => h.step k ω i) k
  refine measurable_pi_lambda _ fun i => ?_
  have m1 : ∀ j, Measurable fun q : Vec ℝ n × (Vec ℝ n × ℝ) => q.1 j := fun j => (measurable_pi_apply j).comp measurable_fst
  have m2 : ∀ j, Measurable fun q : Vec ℝ n × (Vec ℝ n × ℝ) => q.2.1 j := fun j => (measurable_pi_apply j).comp (measurable_fst.comp measurable_snd)
  have m3 : Measurable fun q : Vec ℝ n × (Vec ℝ n × ℝ) => q.2.2 := measurable_snd.comp measurable_snd
  have m4 : Measurable fun q : Vec ℝ n × (Vec ℝ n × ℝ) => g q.2.1 := h.hg.comp (measurable_fst.comp measurable_snd)
  exact (m1 i).add ((m4.mul (m2 i)).mul (m3.sub (Finset.measurable_sum _ fun j _ => (m1 j).mul (m2 j))))

/-- a function of the deviation and a function of the sample are independent -/
theorem Process.split [IsProbabilityMeasure P] (h : Process P g x v c D) (k : ℕ) {a : Vec ℝ n → ℝ} {b : Vec ℝ n × ℝ → ℝ} (ha : Measurable a) (hb : Measurable b)
    (ia : Integrable (fun ω => a (D k ω)) P) (ib : Integrable (fun ω => b (x k ω, v k ω)) P) :
    Integrable (fun ω => a (D k ω) * b (x k ω, v k ω)) P ∧
      ∫ ω, a (D k ω) * b (x k ω, v k ω) ∂P = (∫ ω, a (D k ω) ∂P) * ∫ ω, b (x k ω, v k ω) ∂P := by
  have hi := (h.indep k).1.comp ha hb
  exact ⟨hi.integrable_mul ia ib, hi.integral_fun_mul_eq_mul_integral ia.aestronglyMeasurable ib.aestronglyMeasurable⟩

theorem comp_measurable (i : Fin n) : Measurable fun q : Vec ℝ n × ℝ => q.1 i := (measurable_pi_apply i).comp measurable_fst

/-- the mean of the deviation -/
theorem Process.mean [IsProbabilityMeasure P] (h : Process P g x v c D) (hc : ∀ i, Integrable (fun ω => c ω i) P) (hx : ∀ k i j, Integrable (fun ω => g (x k ω) * x k ω i * x k ω j) P)
    (hv : ∀ k i, Integrable (fun ω => g (x k ω) * x k ω i * v k ω) P) (hv0 : ∀ k i, ∫ ω, g (x k ω) * x k ω i * v k ω ∂P = 0) (k : ℕ) :
    (∀ i, Integrable (fun ω => D k ω i) P) ∧
    ∀ i, ∫ ω, D (k + 1) ω i ∂P = ∫ ω, D k ω i ∂P - ∑ j, (∫ ω, g (x k ω) * x k ω i * x k ω j ∂P) * ∫ ω, D k ω j ∂P := by
  have hb : ∀ i j, Measurable fun q : Vec ℝ n × ℝ => g q.1 * q.1 i * q.1 j := fun i j =>
    ((h.hg.comp measurable_fst).mul (comp_measurable i)).mul (comp_measurable j)
  have e : ∀ k i, (fun ω => D (k + 1) ω i) = fun ω => D k ω i + g (x k ω) * x k ω i * v k ω - ∑ j, D k ω j * (g (x k ω) * x k ω i * x k ω j) := by
    intro k i
    funext ω
    rw [h.step, mul_sub, mul_sum]
    rw [sum_congr rfl fun j _ => show g (x k ω) * x k ω i * (D k ω j * x k ω j) = D k ω j * (g (x k ω) * x k ω i * x k ω j) by ring]
    ring
  have hint : ∀ k i, Integrable (fun ω => D k ω i) P := by
    intro k
    induction k with
    | zero => intro i; simp only [h.zero]; exact hc i
    | succ k ih =>
      intro i
      rw [e k i]
      exact ((ih i).add (hv k i)).sub (integrable_finsetSum _ fun j _ => (h.split k (measurable_pi_apply j) (hb i j) (ih j) (hx k i j)).1)
  refine ⟨hint k, fun i => ?_⟩
  have hs : ∀ j, Integrable (fun ω => D k ω j * (g (x k ω) * x k ω i * x k ω j)) P := fun j =>
    (h.split k (measurable_pi_apply j) (hb i j) (hint k j) (hx k i j)).1
  have h12 : Integrable (fun ω => D k ω i + g (x k ω) * x k ω i * v k ω) P := (hint k i).add (hv k i)
  rw [e k i, integral_sub h12 (integrable_finsetSum _ fun j _ => hs j), integral_add (hint k i) (hv k i), hv0,
    integral_finsetSum _ fun j _ => hs j, add_zero]
  congr 1
  refine sum_congr rfl fun j _ => ?_
  rw [(h.split k (measurable_pi_apply j) (hb i j) (hint k j) (hx k i j)).2, mul_comm]

/-- the mean square of the deviation -/
theorem Process.meanSq [IsProbabilityMeasure P] (h : Process P g x v c D) (hc : ∀ i, MemLp (fun ω => c ω i) 2 P) (h1 : ∀ k i, MemLp (fun ω => g (x k ω) * x k ω i) 2 P)
    (h2 : ∀ k i j, MemLp (fun ω => g (x k ω) * x k ω i * x k ω j) 2 P) (hxv : ∀ k, IndepFun (x k) (v k) P) (hv : ∀ k, MemLp (v k) 2 P)
    (hv0 : ∀ k, ∫ ω, v k ω ∂P = 0) (k : ℕ) :
    (∀ i, MemLp (fun ω => D k ω i) 2 P) ∧
    ∫ ω, ∑ i, D (k + 1) ω i ^ 2 ∂P = ∫ ω, ∑ i, D k ω i ^ 2 ∂P
      - ∫ ω, ∑ i, ∑ j, D k ω i * D k ω j * ∫ ω', (2 * g (x k ω') - g (x k ω') ^ 2 * ∑ l, x k ω' l ^ 2) * x k ω' i * x k ω' j ∂P ∂P
      + (∫ ω, v k ω ^ 2 ∂P) * ∫ ω, g (x k ω) ^ 2 * ∑ i, x k ω i ^ 2 ∂P := by
  have mD : ∀ k i, Measurable fun ω => D k ω i := fun k i => (measurable_pi_apply i).comp (h.indep k).2
  have mgx : ∀ i, Measurable fun q : Vec ℝ n × ℝ => g q.1 * q.1 i := fun i => (h.hg.comp measurable_fst).mul (comp_measurable i)
  have mgxx : ∀ i j, Measurable fun q : Vec ℝ n × ℝ => g q.1 * q.1 i * q.1 j := fun i j => (mgx i).mul (comp_measurable j)
  -- products with independent factors are in L2
  have hgv : ∀ k i, MemLp (fun ω => g (x k ω) * x k ω i * v k ω) 2 P := by
    intro k i
    have m0 : Measurable fun a : Vec ℝ n => g a * a i := h.hg.mul (measurable_pi_apply i)
    have hm : Measurable fun ω => g (x k ω) * x k ω i * v k ω := (m0.comp (h.mx k)).mul (h.mv k)
    rw [memLp_two_iff_integrable_sq hm.aestronglyMeasurable]
    have hi := (hxv k).comp (φ := fun a => (g a * a i) ^ 2) (ψ := fun b : ℝ => b ^ 2) (m0.pow_const 2) (measurable_id.pow_const 2)
    have := hi.integrable_mul (h1 k i).integrable_sq (hv k).integrable_sq
    refine this.congr (Filter.Eventually.of_forall fun ω => ?_)
    show (g (x k ω) * x k ω i) ^ 2 * v k ω ^ 2 = _
    ring
  have hD2 : ∀ k i, MemLp (fun ω => D k ω i) 2 P := by
    intro k
    induction k with
    | zero => intro i; simp only [h.zero]; exact hc i
    | succ k ih =>
      intro i
      have e : (fun ω => D (k + 1) ω i) = fun ω => D k ω i + g (x k ω) * x k ω i * v k ω - ∑ j, D k ω j * (g (x k ω) * x k ω i * x k ω j) := by
        funext ω
        rw [h.step, mul_sub, mul_sum]
        rw [sum_congr rfl fun j _ => show g (x k ω) * x k ω i * (D k ω j * x k ω j) = D k ω j * (g (x k ω) * x k ω i * x k ω j) by ring]
        ring
      rw [e]
      refine ((ih i).add (hgv k i)).sub (memLp_finsetSum _ fun j _ => ?_)
      have hm : Measurable fun ω => D k ω j * (g (x k ω) * x k ω i * x k ω j) :=
        (mD k j).mul ((mgxx i j).comp ((h.mx k).prodMk (h.mv k)))
      rw [memLp_two_iff_integrable_sq hm.aestronglyMeasurable]
      have := (h.split k (a := fun u => u j ^ 2) (b := fun q => (g q.1 * q.1 i * q.1 j) ^ 2) ((measurable_pi_apply j).pow_const 2)
        ((mgxx i j).pow_const 2) (ih j).integrable_sq (h2 k i j).integrable_sq).1
      refine this.congr (Filter.Eventually.of_forall fun ω => ?_)
      show D k ω j ^ 2 * (g (x k ω) * x k ω i * x k ω j) ^ 2 = _
      ring
  refine ⟨hD2 k, ?_⟩
  -- the coefficients
  let B : Fin n → Fin n → Vec ℝ n × ℝ → ℝ := fun i j q => (2 * g q.1 - g q.1 ^ 2 * ∑ l, q.1 l ^ 2) * q.1 i * q.1 j
  let G : Fin n → Vec ℝ n → ℝ := fun i a => (2 * g a - 2 * (g a ^ 2 * ∑ l, a l ^ 2)) * a i
  have mq : Measurable fun a : Vec ℝ n => ∑ l, a l ^ 2 := Finset.measurable_sum _ fun l _ => (measurable_pi_apply l).pow_const 2
  have mB : ∀ i j, Measurable (B i j) := fun i j =>
    ((((h.hg.const_mul 2).sub ((h.hg.pow_const 2).mul mq)).comp measurable_fst).mul (comp_measurable i)).mul (comp_measurable j)
  have mG : ∀ i, Measurable (G i) := fun i => ((h.hg.const_mul 2).sub (((h.hg.pow_const 2).mul mq).const_mul 2)).mul (measurable_pi_apply i)
  have iB : ∀ i j, Integrable (fun ω => B i j (x k ω, v k ω)) P := by
    intro i j
    have e : (fun ω => B i j (x k ω, v k ω)) = fun ω => 2 * (g (x k ω) * x k ω i * x k ω j)
        - ∑ l, (g (x k ω) * x k ω i * x k ω l) * (g (x k ω) * x k ω j * x k ω l) := by
      funext ω
      show (2 * g (x k ω) - g (x k ω) ^ 2 * ∑ l, x k ω l ^ 2) * x k ω i * x k ω j = _
      rw [sum_congr rfl fun l _ => show (g (x k ω) * x k ω i * x k ω l) * (g (x k ω) * x k ω j * x k ω l)
        = g (x k ω) ^ 2 * x k ω i * x k ω j * x k ω l ^ 2 by ring, ← mul_sum]
      ring
    rw [e]
    exact (((h2 k i j).integrable one_le_two).const_mul 2).sub (integrable_finsetSum _ fun l _ => (h2 k i l).integrable_mul (h2 k j l))
  have iG : ∀ i, Integrable (fun ω => G i (x k ω)) P := by
    intro i
    have e : (fun ω => G i (x k ω)) = fun ω => 2 * (g (x k ω) * x k ω i) - 2 * ∑ l, (g (x k ω) * x k ω l) * (g (x k ω) * x k ω i * x k ω l) := by
      funext ω
      show (2 * g (x k ω) - 2 * (g (x k ω) ^ 2 * ∑ l, x k ω l ^ 2)) * x k ω i = _
      rw [sum_congr rfl fun l _ => show (g (x k ω) * x k ω l) * (g (x k ω) * x k ω i * x k ω l)
        = g (x k ω) ^ 2 * x k ω i * x k ω l ^ 2 by ring, ← mul_sum]
      ring
    rw [e]
    exact (((h1 k i).integrable one_le_two).const_mul 2).sub ((integrable_finsetSum _ fun l _ => (h1 k l).integrable_mul (h2 k i l)).const_mul 2)
  have iv : Integrable (v k) P := (hv k).integrable one_le_two
  have iGv : ∀ i, Integrable (fun ω => G i (x k ω) * v k ω) P ∧ ∫ ω, G i (x k ω) * v k ω ∂P = 0 := by
    intro i
    have hi := (hxv k).comp (mG i) measurable_id
    refine ⟨hi.integrable_mul (iG i) iv, ?_⟩
    have := hi.integral_fun_mul_eq_mul_integral (iG i).aestronglyMeasurable iv.aestronglyMeasurable
    refine this.trans ?_
    show _ * ∫ ω, v k ω ∂P = 0
    rw [hv0, mul_zero]
  have iN : Integrable (fun ω => v k ω ^ 2 * (g (x k ω) ^ 2 * ∑ i, x k ω i ^ 2)) P ∧
      ∫ ω, v k ω ^ 2 * (g (x k ω) ^ 2 * ∑ i, x k ω i ^ 2) ∂P = (∫ ω, v k ω ^ 2 ∂P) * ∫ ω, g (x k ω) ^ 2 * ∑ i, x k ω i ^ 2 ∂P := by
    have hi := (hxv k).symm.comp (φ := fun b : ℝ => b ^ 2) (ψ := fun a => g a ^ 2 * ∑ l, a l ^ 2) (measurable_id.pow_const 2) ((h.hg.pow_const 2).mul mq)
    have ig : Integrable (fun ω => g (x k ω) ^ 2 * ∑ i, x k ω i ^ 2) P := by
      have e : (fun ω => g (x k ω) ^ 2 * ∑ i, x k ω i ^ 2) = fun ω => ∑ i, (g (x k ω) * x k ω i) ^ 2 := by
        funext ω
        rw [mul_sum]
        exact sum_congr rfl fun i _ => by ring
      rw [e]
      exact integrable_finsetSum _ fun i _ => (h1 k i).integrable_sq
    exact ⟨hi.integrable_mul (hv k).integrable_sq ig, hi.integral_fun_mul_eq_mul_integral (hv k).integrable_sq.aestronglyMeasurable ig.aestronglyMeasurable⟩
  have iDD : ∀ i j, Integrable (fun ω => D k ω i * D k ω j) P := fun i j => (hD2 k i).integrable_mul (hD2 k j)
  have sB : ∀ i j, Integrable (fun ω => D k ω i * D k ω j * B i j (x k ω, v k ω)) P ∧
      ∫ ω, D k ω i * D k ω j * B i j (x k ω, v k ω) ∂P = (∫ ω, D k ω i * D k ω j ∂P) * ∫ ω, B i j (x k ω, v k ω) ∂P := fun i j =>
    h.split k (a := fun u => u i * u j) ((measurable_pi_apply i).mul (measurable_pi_apply j)) (mB i j) (iDD i j) (iB i j)
  have sG : ∀ i, Integrable (fun ω => D k ω i * (G i (x k ω) * v k ω)) P ∧ ∫ ω, D k ω i * (G i (x k ω) * v k ω) ∂P = 0 := by
    intro i
    have := h.split k (a := fun u => u i) (b := fun q => G i q.1 * q.2) (measurable_pi_apply i) (((mG i).comp measurable_fst).mul measurable_snd)
      ((hD2 k i).integrable one_le_two) (iGv i).1
    exact ⟨this.1, this.2.trans (by rw [(iGv i).2, mul_zero])⟩
  have e : (fun ω => ∑ i, D (k + 1) ω i ^ 2) = fun ω => ((∑ i, D k ω i ^ 2) - (∑ i, ∑ j, D k ω i * D k ω j * B i j (x k ω, v k ω)))
      + (∑ i, D k ω i * (G i (x k ω) * v k ω)) + v k ω ^ 2 * (g (x k ω) ^ 2 * ∑ i, x k ω i ^ 2) := by
    funext ω
    simp only [h.step]
    have hsq := sqn_add_smul (D k ω) (x k ω) (g (x k ω) * (v k ω - ∑ j, D k ω j * x k ω j))
    have e1 : (fun i => D k ω i + g (x k ω) * x k ω i * (v k ω - ∑ j, D k ω j * x k ω j))
        = fun i => D k ω i + g (x k ω) * (v k ω - ∑ j, D k ω j * x k ω j) * x k ω i := by funext i; ring
    have hL : ∑ i, (D k ω i + g (x k ω) * x k ω i * (v k ω - ∑ j, D k ω j * x k ω j)) ^ 2
        = sqn (fun i => D k ω i + g (x k ω) * (v k ω - ∑ j, D k ω j * x k ω j) * x k ω i) := by rw [← e1]; rfl
    rw [hL, hsq]
    have hB : ∑ i, ∑ j, D k ω i * D k ω j * B i j (x k ω, v k ω)
        = (2 * g (x k ω) - g (x k ω) ^ 2 * ∑ l, x k ω l ^ 2) * (∑ j, D k ω j * x k ω j) ^ 2 := by
      rw [pow_two (∑ j, D k ω j * x k ω j), sum_mul_sum, mul_sum]
      refine sum_congr rfl fun i _ => ?_
      rw [mul_sum]
      refine sum_congr rfl fun j _ => ?_
      show D k ω i * D k ω j * ((2 * g (x k ω) - g (x k ω) ^ 2 * ∑ l, x k ω l ^ 2) * x k ω i * x k ω j) = _
      ring
    have hG : ∑ i, D k ω i * (G i (x k ω) * v k ω)
        = (2 * g (x k ω) - 2 * (g (x k ω) ^ 2 * ∑ l, x k ω l ^ 2)) * v k ω * ∑ j, D k ω j * x k ω j := by
      rw [mul_sum]
      refine sum_congr rfl fun i _ => ?_
      show D k ω i * ((2 * g (x k ω) - 2 * (g (x k ω) ^ 2 * ∑ l, x k ω l ^ 2)) * x k ω i * v k ω) = _
      ring
    rw [hB, hG]
    unfold sqn
    ring
  have iS : Integrable (fun ω => ∑ i, D k ω i ^ 2) P := integrable_finsetSum _ fun i _ => (hD2 k i).integrable_sq
  have iBB : Integrable (fun ω => ∑ i, ∑ j, D k ω i * D k ω j * B i j (x k ω, v k ω)) P :=
    integrable_finsetSum _ fun i _ => integrable_finsetSum _ fun j _ => (sB i j).1
  have iGG : Integrable (fun ω => ∑ i, D k ω i * (G i (x k ω) * v k ω)) P := integrable_finsetSum _ fun i _ => (sG i).1
  have i12 : Integrable (fun ω => (∑ i, D k ω i ^ 2) - (∑ i, ∑ j, D k ω i * D k ω j * B i j (x k ω, v k ω))) P := iS.sub iBB
  have i123 : Integrable (fun ω => ((∑ i, D k ω i ^ 2) - (∑ i, ∑ j, D k ω i * D k ω j * B i j (x k ω, v k ω)))
      + (∑ i, D k ω i * (G i (x k ω) * v k ω))) P := i12.add iGG
  rw [e, integral_add i123 iN.1, integral_add i12 iGG, integral_sub iS iBB, iN.2, integral_finsetSum _ fun i _ => (sG i).1,
    sum_eq_zero fun i _ => (sG i).2, add_zero]
  congr 2
  rw [integral_finsetSum _ fun i _ => integrable_finsetSum _ fun j _ => (sB i j).1,
    integral_finsetSum _ fun i _ => integrable_finsetSum _ fun j _ => (iDD i j).mul_const _]
  refine sum_congr rfl fun i _ => ?_
  rw [integral_finsetSum _ fun j _ => (sB i j).1, integral_finsetSum _ fun j _ => (iDD i j).mul_const _]
  refine sum_congr rfl fun j _ => ?_
  rw [(sB i j).2, integral_mul_const]

/-- the quadratic form of the coefficients -/
theorem quadC {γ : Type} [Fintype γ] {f : Ω → ℝ} {z : Ω → γ → ℝ} (hi : ∀ i j, Integrable (fun ω => f ω * z ω i * z ω j) P) (u : γ → ℝ) :
    Integrable (fun ω => f ω * (∑ i, u i * z ω i) ^ 2) P ∧
    ∑ i, ∑ j, u i * u j * ∫ ω, f ω * z ω i * z ω j ∂P = ∫ ω, f ω * (∑ i, u i * z ω i) ^ 2 ∂P := by
  have e : (fun ω => f ω * (∑ i, u i * z ω i) ^ 2) = fun ω => ∑ i, ∑ j, u i * u j * (f ω * z ω i * z ω j) := by
    funext ω
    rw [pow_two, sum_mul_sum, mul_sum]
    refine sum_congr rfl fun i _ => ?_
    rw [mul_sum]
    exact sum_congr rfl fun j _ => by ring
  have hij : ∀ i j, Integrable (fun ω => u i * u j * (f ω * z ω i * z ω j)) P := fun i j => (hi i j).const_mul _
  rw [e]
  refine ⟨integrable_finsetSum _ fun i _ => integrable_finsetSum _ fun j _ => hij i j, ?_⟩
  rw [integral_finsetSum _ fun i _ => integrable_finsetSum _ fun j _ => hij i j]
  refine sum_congr rfl fun i _ => ?_
  rw [integral_finsetSum _ fun j _ => hij i j]
  refine sum_congr rfl fun j _ => ?_
  rw [integral_const_mul]

/-- solving the recursion `a(k+1) <= (1 - ρ) a(k) + b` -/
theorem solve_rec {a : ℕ → ℝ} {ρ b : ℝ} (hρ : 0 < ρ) (hρ1 : ρ ≤ 1) (hb : 0 ≤ b) (h : ∀ k, a (k + 1) ≤ (1 - ρ) * a k + b) (k : ℕ) :
    a k ≤ (1 - ρ) ^ k * a 0 + b / ρ := by
  induction k with
  | zero => simp; positivity
  | succ k ih =>
    refine (h k).trans ?_
    have h1 := mul_le_mul_of_nonneg_left ih (sub_nonneg.2 hρ1)
    have h2 : (1 - ρ) * ((1 - ρ) ^ k * a 0 + b / ρ) + b = (1 - ρ) ^ (k + 1) * a 0 + b / ρ := by
      field_simp
      ring
    linarith

/-- pointwise: the decrease is at most the whole -/
theorem gain_le_one (γ : ℝ) (u a : Vec ℝ n) : (2 * γ - γ ^ 2 * ∑ l, a l ^ 2) * (∑ i, u i * a i) ^ 2 ≤ ∑ i, u i ^ 2 := by
  have hcs : (∑ i, u i * a i) ^ 2 ≤ (∑ i, u i ^ 2) * ∑ i, a i ^ 2 := sum_mul_sq_le_sq_mul_sq _ _ _
  have hu : 0 ≤ ∑ i, u i ^ 2 := sum_nonneg fun _ _ => sq_nonneg _
  have ha : 0 ≤ ∑ i, a i ^ 2 := sum_nonneg fun _ _ => sq_nonneg _
  set q := ∑ l, a l ^ 2
  set p := (∑ i, u i * a i) ^ 2 with hp
  have hp0 : 0 ≤ p := sq_nonneg _
  rcases le_or_gt (2 * γ - γ ^ 2 * q) 0 with h | h
  · nlinarith
  · have h1 : (2 * γ - γ ^ 2 * q) * p ≤ (2 * γ - γ ^ 2 * q) * ((∑ i, u i ^ 2) * q) := mul_le_mul_of_nonneg_left hcs h.le
    have h2 : (2 * γ - γ ^ 2 * q) * q ≤ 1 := by nlinarith [sq_nonneg (1 - γ * q)]
    nlinarith

/-- the mean square deviation under a uniform excitation -/
theorem Process.bound [IsProbabilityMeasure P] (h : Process P g x v c D) (hc : ∀ i, MemLp (fun ω => c ω i) 2 P) (h1 : ∀ k i, MemLp (fun ω => g (x k ω) * x k ω i) 2 P)
    (h2 : ∀ k i j, MemLp (fun ω => g (x k ω) * x k ω i * x k ω j) 2 P) (hxv : ∀ k, IndepFun (x k) (v k) P) (hv : ∀ k, MemLp (v k) 2 P)
    (hv0 : ∀ k, ∫ ω, v k ω ∂P = 0) {ρ s2 q : ℝ} (hn : 0 < n) (hρ : 0 < ρ)
    (hex : ∀ k (u : Vec ℝ n), ρ * ∑ i, u i ^ 2 ≤ ∫ ω, (2 * g (x k ω) - g (x k ω) ^ 2 * ∑ l, x k ω l ^ 2) * (∑ i, u i * x k ω i) ^ 2 ∂P)
    (hs2 : ∀ k, ∫ ω, v k ω ^ 2 ∂P ≤ s2) (hq : ∀ k, ∫ ω, g (x k ω) ^ 2 * ∑ i, x k ω i ^ 2 ∂P ≤ q) (k : ℕ) :
    ∫ ω, ∑ i, D k ω i ^ 2 ∂P ≤ (1 - ρ) ^ k * (∫ ω, ∑ i, c ω i ^ 2 ∂P) + s2 * q / ρ := by
  have iB : ∀ k i j, Integrable (fun ω => (2 * g (x k ω) - g (x k ω) ^ 2 * ∑ l, x k ω l ^ 2) * x k ω i * x k ω j) P := by
    intro k i j
    have e : (fun ω => (2 * g (x k ω) - g (x k ω) ^ 2 * ∑ l, x k ω l ^ 2) * x k ω i * x k ω j) = fun ω => 2 * (g (x k ω) * x k ω i * x k ω j)
        - ∑ l, (g (x k ω) * x k ω i * x k ω l) * (g (x k ω) * x k ω j * x k ω l) := by
      funext ω
      rw [sum_congr rfl fun l _ => show (g (x k ω) * x k ω i * x k ω l) * (g (x k ω) * x k ω j * x k ω l)
        = g (x k ω) ^ 2 * x k ω i * x k ω j * x k ω l ^ 2 by ring, ← mul_sum]
      ring
    rw [e]
    exact (((h2 k i j).integrable one_le_two).const_mul 2).sub (integrable_finsetSum _ fun l _ => (h2 k i l).integrable_mul (h2 k j l))
  have hρ1 : ρ ≤ 1 := by
    have := hex 0 (fun i => if i = ⟨0, hn⟩ then 1 else 0)
    have h3 : ∫ ω, (2 * g (x 0 ω) - g (x 0 ω) ^ 2 * ∑ l, x 0 ω l ^ 2) * (∑ i, (if i = ⟨0, hn⟩ then 1 else 0) * x 0 ω i) ^ 2 ∂P
        ≤ ∫ ω, (1 : ℝ) ∂P := by
      refine integral_mono (quadC (iB 0) _).1 (integrable_const _) fun ω => ?_
      refine (gain_le_one _ _ _).trans ?_
      simp
    simp at this h3
    linarith
  have h0 : ∫ ω, ∑ i, D 0 ω i ^ 2 ∂P = ∫ ω, ∑ i, c ω i ^ 2 ∂P := by simp only [h.zero]
  rw [← h0]
  have s20 : 0 ≤ s2 := le_trans (integral_nonneg fun ω => sq_nonneg _) (hs2 0)
  have q0 : 0 ≤ q := le_trans (integral_nonneg fun ω => mul_nonneg (sq_nonneg _) (sum_nonneg fun _ _ => sq_nonneg _)) (hq 0)
  refine solve_rec (a := fun k => ∫ ω, ∑ i, D k ω i ^ 2 ∂P) hρ hρ1 (mul_nonneg s20 q0) (fun k => ?_) k
  obtain ⟨hD, he⟩ := h.meanSq hc h1 h2 hxv hv hv0 k
  show ∫ ω, ∑ i, D (k + 1) ω i ^ 2 ∂P ≤ _
  rw [he]
  have hn : (∫ ω, v k ω ^ 2 ∂P) * ∫ ω, g (x k ω) ^ 2 * ∑ i, x k ω i ^ 2 ∂P ≤ s2 * q :=
    mul_le_mul (hs2 k) (hq k) (integral_nonneg fun ω => mul_nonneg (sq_nonneg _) (sum_nonneg fun _ _ => sq_nonneg _)) s20
  have hex' : ρ * ∫ ω, ∑ i, D k ω i ^ 2 ∂P
      ≤ ∫ ω, ∑ i, ∑ j, D k ω i * D k ω j * ∫ ω', (2 * g (x k ω') - g (x k ω') ^ 2 * ∑ l, x k ω' l ^ 2) * x k ω' i * x k ω' j ∂P ∂P := by
    rw [← integral_const_mul]
    refine integral_mono ((integrable_finsetSum _ fun i _ => (hD i).integrable_sq).const_mul ρ)
      (integrable_finsetSum _ fun i _ => integrable_finsetSum _ fun j _ => ((hD i).integrable_mul (hD j)).mul_const _) fun ω => ?_
    show ρ * ∑ i, D k ω i ^ 2 ≤ ∑ i, ∑ j, D k ω i * D k ω j * _
    rw [(quadC (iB k) (D k ω)).2]
    exact hex k (D k ω)
  linarith

end indep

/-! ## Matrices -/

section matrix
variable {n : ℕ}

theorem mean_pow {A : Matrix (Fin n) (Fin n) ℝ} {m : ℕ → Vec ℝ n} (h : ∀ k i, m (k + 1) i = m k i - ∑ j, A i j * m k j) (k : ℕ) (i : Fin n) :
    m k i = ∑ j, ((1 - A) ^ k) i j * m 0 j := by
  have hm : ∀ k, m k = ((1 - A) ^ k).mulVec (m 0) := by
    intro k
    induction k with
    | zero => simp
    | succ k ih =>
      rw [pow_succ', ← Matrix.mulVec_mulVec, ← ih, Matrix.sub_mulVec, Matrix.one_mulVec]
      funext i
      exact h k i
  rw [hm k]
  rfl

theorem eig_pow {A : Matrix (Fin n) (Fin n) ℝ} {u : Vec ℝ n} {lam : ℝ} (h : ∀ i, ∑ j, A i j * u j = lam * u i) (k : ℕ) (i : Fin n) :
    ∑ j, ((1 - A) ^ k) i j * u j = (1 - lam) ^ k * u i := by
  have h' : A.mulVec u = lam • u := funext h
  have hm : ((1 - A) ^ k).mulVec u = (1 - lam) ^ k • u := by
    induction k with
    | zero => simp
    | succ k ih =>
      rw [pow_succ, ← Matrix.mulVec_mulVec, Matrix.sub_mulVec, Matrix.one_mulVec, h', Matrix.mulVec_sub, Matrix.mulVec_smul, ih, pow_succ]
      module
  exact congrFun hm i

theorem sym_pow_tendsto {A : Matrix (Fin n) (Fin n) ℝ} (hA : ∀ i j, A i j = A j i)
    (heig : ∀ (lam : ℝ) (u : Vec ℝ n), u ≠ 0 → (∀ i, ∑ j, A i j * u j = lam * u i) → |1 - lam| < 1) (u : Vec ℝ n) (i : Fin n) :
    Filter.Tendsto (fun k : ℕ => ∑ j, ((1 - A) ^ k) i j * u j) Filter.atTop (nhds 0) := by
  have hH : A.IsHermitian := by
    ext a b
    simp only [Matrix.conjTranspose_apply, star_trivial]
    exact hA b a
  have hev : ∀ l i, ∑ j, A i j * hH.eigenvectorBasis l j = hH.eigenvalues l * hH.eigenvectorBasis l i := by
    intro l i
    have := congrFun (hH.mulVec_eigenvectorBasis l) i
    simpa [Matrix.mulVec, dotProduct] using this
  have hne : ∀ l, (fun i => hH.eigenvectorBasis l i) ≠ (0 : Vec ℝ n) := by
    intro l h0
    have h1 := hH.eigenvectorBasis.orthonormal.ne_zero l
    refine h1 ?_
    ext i
    exact congrFun h0 i
  obtain ⟨c, hc⟩ : ∃ c : Fin n → ℝ, ∀ j, u j = ∑ l, c l * hH.eigenvectorBasis l j := by
    refine ⟨fun l => hH.eigenvectorBasis.repr (WithLp.toLp 2 u) l, fun j => ?_⟩
    have := congrArg (fun z : EuclideanSpace ℝ (Fin n) => z j) (hH.eigenvectorBasis.sum_repr (WithLp.toLp 2 u))
    simp only [WithLp.ofLp_sum, Finset.sum_apply, WithLp.ofLp_smul, Pi.smul_apply, smul_eq_mul] at this
    exact this.symm
  have e : ∀ k : ℕ, ∑ j, ((1 - A) ^ k) i j * u j = ∑ l, c l * ((1 - hH.eigenvalues l) ^ k * hH.eigenvectorBasis l i) := by
    intro k
    have : ∀ j, ((1 - A) ^ k) i j * u j = ∑ l, c l * (((1 - A) ^ k) i j * hH.eigenvectorBasis l j) := by
      intro j
      rw [hc j, mul_sum]
      exact sum_congr rfl fun l _ => by ring
    rw [sum_congr rfl fun j _ => this j, sum_comm]
    refine sum_congr rfl fun l _ => ?_
    rw [← mul_sum, eig_pow (hev l) k i]
  simp only [e]
  have h0 : (0 : ℝ) = ∑ l : Fin n, c l * (0 * hH.eigenvectorBasis l i) := by simp
  rw [h0]
  refine tendsto_finsetSum _ fun l _ => ((tendsto_pow_atTop_nhds_zero_of_abs_lt_one ?_).mul_const _).const_mul _
  exact heig _ _ (hne l) (hev l)

end matrix

/-! ## C122: the mean of the weights -/

/-- The samples `(x(k), v(k))`, `k = 0, 1, ...`, are independent random variables, and the start `w` is independent of all of them. -/
structure IndepSamples {Ω : Type} {mΩ : MeasurableSpace Ω} {n : ℕ} (P : Measure Ω) (x : ℕ → Ω → Vec ℝ n) (v : ℕ → Ω → ℝ) (w : Ω → Vec ℝ n) : Prop where
  x_measurable : ∀ k, Measurable (x k)
  v_measurable : ∀ k, Measurable (v k)
  w_measurable : Measurable w
  independent : iIndepFun (fun k ω => (x k ω, v k ω)) P
  start : IndepFun w (fun ω k => (x k ω, v k ω)) P

section user
variable {Ω : Type} {mΩ : MeasurableSpace Ω} {P : Measure Ω} [IsProbabilityMeasure P] {n : ℕ} {x : ℕ → Ω → Vec ℝ n} {v : ℕ → Ω → ℝ}
  {y e : Ω → ℕ → ℝ}

theorem lms_process (o : Ω → Obj (lms ℝ n)) (hs : IndepSamples P x v fun ω => (o ω).core.w) {mu : ℝ} (ho : ∀ ω, (o ω).core.mu = mu) {S : Ω → ℕ → Core ℝ n Unit} (ws : Vec ℝ n)
    (h : ∀ ω, Runs (lms ℝ n) (o ω) (fun k => (∑ i, ws i * x k ω i) + v k ω) (fun k => x k ω) (y ω) (e ω) (S ω)) :
    Process P (fun _ => mu) x v (fun ω i => (o ω).core.w i - ws i) (fun k ω i => (S ω k).w i - ws i) where
  hg := measurable_const
  mx := hs.x_measurable
  mv := hs.v_measurable
  ind := hs.independent
  mc := measurable_pi_lambda _ fun i => ((measurable_pi_apply i).comp hs.w_measurable).sub_const _
  ic := hs.start.comp (φ := fun (w : Vec ℝ n) i => w i - ws i) (ψ := id) (measurable_pi_lambda _ fun i => (measurable_pi_apply i).sub_const _) measurable_id
  zero := fun ω => by simp only [(h ω).1]; rfl
  step := fun k ω i => by
    obtain ⟨hmu, -, hy, he, hw⟩ := lms_runs (h ω) k
    rw [hw, he, hy, hmu, ho, dot_eq]
    have : ∑ j, ((S ω k).w j - ws j) * x k ω j = ∑ j, (S ω k).w j * x k ω j - ∑ j, ws j * x k ω j := by
      rw [← sum_sub_distrib]; exact sum_congr rfl fun j _ => by ring
    rw [this]
    ring

theorem nlms_process (o : Ω → Obj (nlms ℝ n)) (hs : IndepSamples P x v fun ω => (o ω).core.w) {mu eps : ℝ}
    (ho : ∀ ω, (o ω).core.mu = mu ∧ (o ω).core.ext.eps = eps) {S : Ω → ℕ → Core ℝ n (EpsExt ℝ)} (ws : Vec ℝ n)
    (h : ∀ ω, Runs (nlms ℝ n) (o ω) (fun k => (∑ i, ws i * x k ω i) + v k ω) (fun k => x k ω) (y ω) (e ω) (S ω)) :
    Process P (fun a => mu / (eps + ∑ i, a i ^ 2)) x v (fun ω i => (o ω).core.w i - ws i) (fun k ω i => (S ω k).w i - ws i) where
  hg := measurable_const.div (measurable_const.add (Finset.measurable_sum _ fun l _ => (measurable_pi_apply l).pow_const 2))
  mx := hs.x_measurable
  mv := hs.v_measurable
  ind := hs.independent
  mc := measurable_pi_lambda _ fun i => ((measurable_pi_apply i).comp hs.w_measurable).sub_const _
  ic := hs.start.comp (φ := fun (w : Vec ℝ n) i => w i - ws i) (ψ := id) (measurable_pi_lambda _ fun i => (measurable_pi_apply i).sub_const _) measurable_id
  zero := fun ω => by simp only [(h ω).1]; rfl
  step := fun k ω i => by
    obtain ⟨hmu, hext, hy, he, hw⟩ := nlms_runs (h ω) k
    rw [hw, he, hy, hmu, hext, (ho ω).1, (ho ω).2, sqn_eq_dot, dot_eq]
    have : ∑ j, ((S ω k).w j - ws j) * x k ω j = ∑ j, (S ω k).w j * x k ω j - ∑ j, ws j * x k ω j := by
      rw [← sum_sub_distrib]; exact sum_congr rfl fun j _ => by ring
    rw [this]
    unfold sqn
    ring

theorem Process.mean_eq {g : Vec ℝ n → ℝ} {c : Ω → Vec ℝ n} {D : ℕ → Ω → Vec ℝ n} (h : Process P g x v c D) (hc : ∀ i, Integrable (fun ω => c ω i) P)
    (hx : ∀ k i j, Integrable (fun ω => g (x k ω) * x k ω i * x k ω j) P)
    (hv : ∀ k i, Integrable (fun ω => g (x k ω) * x k ω i * v k ω) P) (hv0 : ∀ k i, ∫ ω, g (x k ω) * x k ω i * v k ω ∂P = 0)
    {A : Matrix (Fin n) (Fin n) ℝ} (hA : ∀ k i j, ∫ ω, g (x k ω) * x k ω i * x k ω j ∂P = A i j) (k : ℕ) (i : Fin n) :
    Integrable (fun ω => D k ω i) P ∧ ∫ ω, D k ω i ∂P = ∑ j, ((1 - A) ^ k) i j * ∫ ω, c ω j ∂P := by
  have hm := h.mean hc hx hv hv0
  refine ⟨(hm k).1 i, ?_⟩
  have hpow := mean_pow (A := A) (m := fun k i => ∫ ω, D k ω i ∂P) (fun k i => by
    rw [(hm k).2 i]
    congr 1
    exact sum_congr rfl fun j _ => by rw [hA]) k i
  have h0 : ∀ j, ∫ ω, D 0 ω j ∂P = ∫ ω, c ω j ∂P := fun j => by simp only [h.zero]
  simp only [h0] at hpow
  exact hpow

theorem mean_unshift {w w0 : Ω → Vec ℝ n} {ws : Vec ℝ n} {M : Matrix (Fin n) (Fin n) ℝ} (hw0 : ∀ i, Integrable (fun ω => w0 ω i) P) {i : Fin n}
    (h : Integrable (fun ω => w ω i - ws i) P ∧ ∫ ω, w ω i - ws i ∂P = ∑ j, M i j * ∫ ω, w0 ω j - ws j ∂P) :
    Integrable (fun ω => w ω i) P ∧ ∫ ω, w ω i ∂P = ws i + ∑ j, M i j * (∫ ω, w0 ω j ∂P - ws j) := by
  have hi : Integrable (fun ω => w ω i) P := by
    refine (h.1.add (integrable_const (ws i))).congr (Filter.Eventually.of_forall fun ω => ?_)
    show w ω i - ws i + ws i = _
    ring
  refine ⟨hi, ?_⟩
  have := h.2
  rw [integral_sub hi (integrable_const _), integral_const, probReal_univ, one_smul,
    sum_congr rfl fun j _ => show M i j * ∫ ω, w0 ω j - ws j ∂P = M i j * (∫ ω, w0 ω j ∂P - ws j) by
      rw [integral_sub (hw0 j) (integrable_const _), integral_const, probReal_univ, one_smul]] at this
  linarith

/-- C122: LMS on random data.  The samples are independent, the inputs have the (same) matrix `R` of second moments, the noise is not correlated with the input.  Then the
mean of the weights before sample `k` is `ws + (I - mu R)^k (w(0) - ws)`. -/
theorem C122_lms_mean (o : Ω → Obj (lms ℝ n)) (hs : IndepSamples P x v fun ω => (o ω).core.w) {mu : ℝ} (ho : ∀ ω, (o ω).core.mu = mu) {S : Ω → ℕ → Core ℝ n Unit} (ws : Vec ℝ n)
    (hw0 : ∀ i, Integrable (fun ω => (o ω).core.w i) P)
    (h : ∀ ω, Runs (lms ℝ n) (o ω) (fun k => (∑ i, ws i * x k ω i) + v k ω) (fun k => x k ω) (y ω) (e ω) (S ω))
    (R : Matrix (Fin n) (Fin n) ℝ) (hx : ∀ k i j, Integrable (fun ω => x k ω i * x k ω j) P) (hR : ∀ k i j, ∫ ω, x k ω i * x k ω j ∂P = R i j)
    (hv : ∀ k i, Integrable (fun ω => x k ω i * v k ω) P) (hv0 : ∀ k i, ∫ ω, x k ω i * v k ω ∂P = 0) (k : ℕ) (i : Fin n) :
    Integrable (fun ω => (S ω k).w i) P ∧
      ∫ ω, (S ω k).w i ∂P = ws i + ∑ j, ((1 - mu • R) ^ k) i j * (∫ ω, (o ω).core.w j ∂P - ws j) := by
  have hp := lms_process o hs ho ws h
  have e1 : ∀ k i j, (fun ω => mu * x k ω i * x k ω j) = fun ω => mu * (x k ω i * x k ω j) := fun k i j => by funext ω; ring
  have e2 : ∀ k i, (fun ω => mu * x k ω i * v k ω) = fun ω => mu * (x k ω i * v k ω) := fun k i => by funext ω; ring
  exact mean_unshift (w := fun ω => (S ω k).w) hw0 (hp.mean_eq (fun i => (hw0 i).sub (integrable_const _))
    (fun k i j => by rw [e1]; exact (hx k i j).const_mul _) (fun k i => by rw [e2]; exact (hv k i).const_mul _)
    (fun k i => by rw [e2, integral_const_mul, hv0, mul_zero]) (A := mu • R)
    (fun k i j => by rw [e1, integral_const_mul, hR]; rfl) k i)

/-- C122: ... and it converges to `ws` when every eigenvalue `lam` of `R` satisfies `0 < mu * lam < 2`. -/
theorem C122_lms_mean_converges (o : Ω → Obj (lms ℝ n)) (hs : IndepSamples P x v fun ω => (o ω).core.w) {mu : ℝ} (ho : ∀ ω, (o ω).core.mu = mu) {S : Ω → ℕ → Core ℝ n Unit} (ws : Vec ℝ n)
    (hw0 : ∀ i, Integrable (fun ω => (o ω).core.w i) P)
    (h : ∀ ω, Runs (lms ℝ n) (o ω) (fun k => (∑ i, ws i * x k ω i) + v k ω) (fun k => x k ω) (y ω) (e ω) (S ω))
    (R : Matrix (Fin n) (Fin n) ℝ) (hx : ∀ k i j, Integrable (fun ω => x k ω i * x k ω j) P) (hR : ∀ k i j, ∫ ω, x k ω i * x k ω j ∂P = R i j)
    (hv : ∀ k i, Integrable (fun ω => x k ω i * v k ω) P) (hv0 : ∀ k i, ∫ ω, x k ω i * v k ω ∂P = 0)
    (hmu : ∀ (lam : ℝ) (u : Vec ℝ n), u ≠ 0 → (∀ i, ∑ j, R i j * u j = lam * u i) → 0 < mu * lam ∧ mu * lam < 2) (i : Fin n) :
    Filter.Tendsto (fun k => ∫ ω, (S ω k).w i ∂P) Filter.atTop (nhds (ws i)) := by
  have hR' : ∀ i j, R i j = R j i := fun i j => by
    rw [← hR 0 i j, ← hR 0 j i]; congr 1; funext ω; ring
  have ht := sym_pow_tendsto (A := mu • R) (fun i j => by rw [Matrix.smul_apply, Matrix.smul_apply, hR']) (fun lam u hu he => by
    rcases eq_or_ne mu 0 with h0 | h0
    · -- with mu = 0 the hypothesis on the eigenvalues cannot hold
      exfalso
      have hH : R.IsHermitian := by
        ext a b
        simp only [Matrix.conjTranspose_apply, star_trivial]
        exact hR' b a
      have hev : ∀ i', ∑ j, R i' j * hH.eigenvectorBasis i j = hH.eigenvalues i * hH.eigenvectorBasis i i' := by
        intro i'
        have := congrFun (hH.mulVec_eigenvectorBasis i) i'
        simpa [Matrix.mulVec, dotProduct] using this
      have hne : (fun i' => hH.eigenvectorBasis i i') ≠ (0 : Vec ℝ n) := by
        intro h1
        refine hH.eigenvectorBasis.orthonormal.ne_zero i ?_
        ext i'
        exact congrFun h1 i'
      have := (hmu _ _ hne hev).1
      rw [h0, zero_mul] at this
      exact lt_irrefl _ this
    · have he' : ∀ i, ∑ j, R i j * u j = (lam / mu) * u i := by
        intro i
        have := he i
        simp only [Matrix.smul_apply, smul_eq_mul, mul_assoc, ← mul_sum] at this
        field_simp
        linarith
      have := hmu _ u hu he'
      rw [mul_div_cancel₀ _ h0] at this
      rw [abs_lt]
      constructor <;> linarith) (fun j => ∫ ω, (o ω).core.w j ∂P - ws j) i
  have e1 : (fun k => ∫ ω, (S ω k).w i ∂P) = fun k => ws i + ∑ j, ((1 - mu • R) ^ k) i j * (∫ ω, (o ω).core.w j ∂P - ws j) :=
    funext fun k => (C122_lms_mean o hs ho ws hw0 h R hx hR hv hv0 k i).2
  rw [e1]
  simpa using ht.const_add (ws i)

/-- C122: the condition is sharp: started at `ws + u` with `u` an eigenvector whose eigenvalue does not satisfy `0 < mu * lam < 2`, the mean does not converge to `ws`. -/
theorem C122_lms_mean_diverges (o : Ω → Obj (lms ℝ n)) (hs : IndepSamples P x v fun ω => (o ω).core.w) {mu : ℝ} (ho : ∀ ω, (o ω).core.mu = mu) {S : Ω → ℕ → Core ℝ n Unit} (ws u : Vec ℝ n) (lam : ℝ)
    (hw0 : ∀ i, Integrable (fun ω => (o ω).core.w i) P)
    (h : ∀ ω, Runs (lms ℝ n) (o ω) (fun k => (∑ i, ws i * x k ω i) + v k ω) (fun k => x k ω) (y ω) (e ω) (S ω))
    (R : Matrix (Fin n) (Fin n) ℝ) (hx : ∀ k i j, Integrable (fun ω => x k ω i * x k ω j) P) (hR : ∀ k i j, ∫ ω, x k ω i * x k ω j ∂P = R i j)
    (hv : ∀ k i, Integrable (fun ω => x k ω i * v k ω) P) (hv0 : ∀ k i, ∫ ω, x k ω i * v k ω ∂P = 0)
    (hu : u ≠ 0) (hlam : ∀ i, ∑ j, R i j * u j = lam * u i) (hmu : ¬ (0 < mu * lam ∧ mu * lam < 2))
    (hw : ∀ i, ∫ ω, (o ω).core.w i ∂P = ws i + u i) :
    ∃ i, ¬ Filter.Tendsto (fun k => ∫ ω, (S ω k).w i ∂P) Filter.atTop (nhds (ws i)) := by
  obtain ⟨i, hi⟩ := Function.ne_iff.1 hu
  refine ⟨i, fun ht => ?_⟩
  have e1 : (fun k => ∫ ω, (S ω k).w i ∂P) = fun k => ws i + (1 - mu * lam) ^ k * u i := by
    funext k
    rw [(C122_lms_mean o hs ho ws hw0 h R hx hR hv hv0 k i).2]
    congr 1
    rw [sum_congr rfl fun j _ => show ((1 - mu • R) ^ k) i j * (∫ ω, (o ω).core.w j ∂P - ws j) = ((1 - mu • R) ^ k) i j * u j by rw [hw]; ring]
    refine eig_pow (fun i => ?_) k i
    simp only [Matrix.smul_apply, smul_eq_mul, mul_assoc, ← mul_sum, hlam]
  rw [e1] at ht
  have h1 : Filter.Tendsto (fun k : ℕ => (1 - mu * lam) ^ k * u i) Filter.atTop (nhds 0) := by
    simpa using ht.sub_const (ws i)
  have h2 : Filter.Tendsto (fun k : ℕ => (1 - mu * lam) ^ k) Filter.atTop (nhds 0) := by
    have := h1.div_const (u i)
    have hi' : u i ≠ 0 := hi
    simpa [hi'] using this
  rw [tendsto_pow_atTop_nhds_zero_iff, abs_lt] at h2
  exact hmu ⟨by linarith, by linarith⟩

/-- bounded integrands built from the normalised gain -/
theorem nlms_gain_bound {eps : ℝ} (he : 0 < eps) (a : Vec ℝ n) (i j : Fin n) :
    |a i * a j / (eps + ∑ l, a l ^ 2)| ≤ 1 ∧ |a i / (eps + ∑ l, a l ^ 2)| ≤ 1 + 1 / eps ∧ 0 < eps + ∑ l, a l ^ 2 := by
  have hq : ∀ i, a i ^ 2 ≤ ∑ l, a l ^ 2 := fun i => single_le_sum (f := fun l => a l ^ 2) (fun _ _ => sq_nonneg _) (mem_univ i)
  have h0 : 0 ≤ ∑ l, a l ^ 2 := sum_nonneg fun _ _ => sq_nonneg _
  have hp : 0 < eps + ∑ l, a l ^ 2 := by linarith
  refine ⟨?_, ?_, hp⟩
  · rw [abs_div, abs_of_pos hp, div_le_one hp, abs_le]
    constructor <;> nlinarith [hq i, hq j, sq_nonneg (a i + a j), sq_nonneg (a i - a j)]
  · rw [abs_div, abs_of_pos hp, div_le_iff₀ hp]
    have h1 : |a i| ≤ 1 + a i ^ 2 := by
      rw [← sq_abs (a i)]; nlinarith [sq_nonneg (|a i| - 1), abs_nonneg (a i)]
    have h2 : (1 + 1 / eps) * (eps + ∑ l, a l ^ 2) = eps + 1 + ∑ l, a l ^ 2 + (∑ l, a l ^ 2) / eps := by field_simp; ring
    have h3 : 0 ≤ (∑ l, a l ^ 2) / eps := by positivity
    rw [h2]
    linarith [hq i]

theorem nlms_integrable (hs : ∀ k, Measurable (x k)) {eps : ℝ} (mu : ℝ) (he : 0 < eps) (k : ℕ) (i j : Fin n) :
    MemLp (fun ω => mu / (eps + ∑ l, x k ω l ^ 2) * x k ω i * x k ω j) 2 P ∧ MemLp (fun ω => mu / (eps + ∑ l, x k ω l ^ 2) * x k ω i) 2 P := by
  have mg : Measurable fun ω => mu / (eps + ∑ l, x k ω l ^ 2) :=
    measurable_const.div (measurable_const.add (Finset.measurable_sum _ fun l _ => ((measurable_pi_apply l).comp (hs k)).pow_const 2))
  have mx : ∀ i, Measurable fun ω => x k ω i := fun i => (measurable_pi_apply i).comp (hs k)
  constructor
  · refine MemLp.of_bound ((mg.mul (mx i)).mul (mx j)).aestronglyMeasurable |mu| (Filter.Eventually.of_forall fun ω => ?_)
    have := (nlms_gain_bound he (x k ω) i j).1
    rw [Real.norm_eq_abs, show mu / (eps + ∑ l, x k ω l ^ 2) * x k ω i * x k ω j = mu * (x k ω i * x k ω j / (eps + ∑ l, x k ω l ^ 2)) by ring, abs_mul]
    exact mul_le_of_le_one_right (abs_nonneg _) this
  · refine MemLp.of_bound (mg.mul (mx i)).aestronglyMeasurable (|mu| * (1 + 1 / eps)) (Filter.Eventually.of_forall fun ω => ?_)
    have := (nlms_gain_bound he (x k ω) i i).2.1
    rw [Real.norm_eq_abs, show mu / (eps + ∑ l, x k ω l ^ 2) * x k ω i = mu * (x k ω i / (eps + ∑ l, x k ω l ^ 2)) by ring, abs_mul]
    exact mul_le_mul_of_nonneg_left this (abs_nonneg _)

/-- C122: NLMS on random data.  The mean of the weights is `ws + (I - mu R)^k (w(0) - ws)` with `R` the mean of `x x^T / (eps + |x|^2)`; nothing is assumed of the
moments of the inputs.  The noise has mean zero and is independent of the input of the same sample. -/
theorem C122_nlms_mean (o : Ω → Obj (nlms ℝ n)) (hs : IndepSamples P x v fun ω => (o ω).core.w) {mu eps : ℝ}
    (ho : ∀ ω, (o ω).core.mu = mu ∧ (o ω).core.ext.eps = eps) {S : Ω → ℕ → Core ℝ n (EpsExt ℝ)} (ws : Vec ℝ n)
    (hw0 : ∀ i, Integrable (fun ω => (o ω).core.w i) P)
    (h : ∀ ω, Runs (nlms ℝ n) (o ω) (fun k => (∑ i, ws i * x k ω i) + v k ω) (fun k => x k ω) (y ω) (e ω) (S ω))
    (heps : 0 < eps) (R : Matrix (Fin n) (Fin n) ℝ)
    (hR : ∀ k i j, ∫ ω, x k ω i * x k ω j / (eps + ∑ l, x k ω l ^ 2) ∂P = R i j)
    (hxv : ∀ k, IndepFun (x k) (v k) P) (hv : ∀ k, Integrable (v k) P) (hv0 : ∀ k, ∫ ω, v k ω ∂P = 0) (k : ℕ) (i : Fin n) :
    Integrable (fun ω => (S ω k).w i) P ∧
      ∫ ω, (S ω k).w i ∂P = ws i + ∑ j, ((1 - mu • R) ^ k) i j * (∫ ω, (o ω).core.w j ∂P - ws j) := by
  have hp := nlms_process o hs ho ws h
  have mg : ∀ i, Measurable fun a : Vec ℝ n => mu / (eps + ∑ i, a i ^ 2) * a i := fun i => hp.hg.mul (measurable_pi_apply i)
  have hgv : ∀ k i, Integrable (fun ω => mu / (eps + ∑ i, x k ω i ^ 2) * x k ω i * v k ω) P ∧
      ∫ ω, mu / (eps + ∑ i, x k ω i ^ 2) * x k ω i * v k ω ∂P = 0 := by
    intro k i
    have hi := (hxv k).comp (mg i) measurable_id
    have ig := (nlms_integrable (P := P) hs.x_measurable mu heps k i i).2.integrable one_le_two
    refine ⟨hi.integrable_mul ig (hv k), (hi.integral_fun_mul_eq_mul_integral ig.aestronglyMeasurable (hv k).aestronglyMeasurable).trans ?_⟩
    show _ * ∫ ω, v k ω ∂P = 0
    rw [hv0, mul_zero]
  exact mean_unshift (w := fun ω => (S ω k).w) hw0 (hp.mean_eq (fun i => (hw0 i).sub (integrable_const _))
    (fun k i j => (nlms_integrable (P := P) hs.x_measurable mu heps k i j).1.integrable one_le_two) (fun k i => (hgv k i).1)
    (fun k i => (hgv k i).2) (A := mu • R) (fun k i j => by
      rw [Matrix.smul_apply, smul_eq_mul, ← hR k i j, ← integral_const_mul]
      congr 1; funext ω; ring) k i)

/-- C122: with `0 < mu < 2` and inputs that are not confined to a hyperplane, the mean of the NLMS weights converges to `ws`, whatever the distribution of the inputs. -/
theorem C122_nlms_mean_converges (o : Ω → Obj (nlms ℝ n)) (hs : IndepSamples P x v fun ω => (o ω).core.w) {mu eps : ℝ}
    (ho : ∀ ω, (o ω).core.mu = mu ∧ (o ω).core.ext.eps = eps) {S : Ω → ℕ → Core ℝ n (EpsExt ℝ)} (ws : Vec ℝ n)
    (hw0 : ∀ i, Integrable (fun ω => (o ω).core.w i) P)
    (h : ∀ ω, Runs (nlms ℝ n) (o ω) (fun k => (∑ i, ws i * x k ω i) + v k ω) (fun k => x k ω) (y ω) (e ω) (S ω))
    (heps : 0 < eps) (hmu : 0 < mu) (hmu2 : mu < 2) (hid : ∀ k, IdentDistrib (x k) (x 0) P P)
    (hplane : ∀ u : Vec ℝ n, (∀ᵐ ω ∂P, ∑ i, u i * x 0 ω i = 0) → u = 0)
    (hxv : ∀ k, IndepFun (x k) (v k) P) (hv : ∀ k, Integrable (v k) P) (hv0 : ∀ k, ∫ ω, v k ω ∂P = 0) (i : Fin n) :
    Filter.Tendsto (fun k => ∫ ω, (S ω k).w i ∂P) Filter.atTop (nhds (ws i)) := by
  let R : Matrix (Fin n) (Fin n) ℝ := fun i j => ∫ ω, x 0 ω i * x 0 ω j / (eps + ∑ l, x 0 ω l ^ 2) ∂P
  have hR : ∀ k i j, ∫ ω, x k ω i * x k ω j / (eps + ∑ l, x k ω l ^ 2) ∂P = R i j := by
    intro k i j
    have mf : Measurable fun a : Vec ℝ n => a i * a j / (eps + ∑ l, a l ^ 2) :=
      ((measurable_pi_apply i).mul (measurable_pi_apply j)).div
        (measurable_const.add (Finset.measurable_sum _ fun l _ => (measurable_pi_apply l).pow_const 2))
    exact ((hid k).comp mf).integral_eq
  have hR' : ∀ i j, R i j = R j i := fun i j => by
    show ∫ ω, _ ∂P = ∫ ω, _ ∂P; congr 1; funext ω; ring
  have hint : ∀ i j, Integrable (fun ω => 1 / (eps + ∑ l, x 0 ω l ^ 2) * x 0 ω i * x 0 ω j) P := fun i j =>
    (nlms_integrable (P := P) hs.x_measurable 1 heps 0 i j).1.integrable one_le_two
  have hRe : ∀ i j, R i j = ∫ ω, 1 / (eps + ∑ l, x 0 ω l ^ 2) * x 0 ω i * x 0 ω j ∂P := fun i j => by
    show ∫ ω, _ ∂P = ∫ ω, _ ∂P; congr 1; funext ω; ring
  have ht := sym_pow_tendsto (A := mu • R) (fun i j => by rw [Matrix.smul_apply, Matrix.smul_apply, hR']) (fun lam u hu hlam => by
    have hq := quadC hint u
    have hquad : mu * ∫ ω, 1 / (eps + ∑ l, x 0 ω l ^ 2) * (∑ i, u i * x 0 ω i) ^ 2 ∂P = lam * ∑ i, u i ^ 2 := by
      rw [← hq.2, mul_sum, mul_sum]
      refine sum_congr rfl fun i _ => ?_
      have := hlam i
      simp only [Matrix.smul_apply, smul_eq_mul] at this
      rw [show lam * u i ^ 2 = u i * (lam * u i) by ring, ← this, mul_sum, mul_sum]
      exact sum_congr rfl fun j _ => by rw [hRe]; ring
    have hupos : 0 < ∑ i, u i ^ 2 := by
      obtain ⟨j, hj⟩ := Function.ne_iff.1 hu
      exact sum_pos' (fun _ _ => sq_nonneg _) ⟨j, mem_univ _, by have : u j ≠ 0 := hj; positivity⟩
    have hle : ∫ ω, 1 / (eps + ∑ l, x 0 ω l ^ 2) * (∑ i, u i * x 0 ω i) ^ 2 ∂P ≤ ∑ i, u i ^ 2 := by
      have h1 : ∫ ω, 1 / (eps + ∑ l, x 0 ω l ^ 2) * (∑ i, u i * x 0 ω i) ^ 2 ∂P ≤ ∫ ω, (∑ i, u i ^ 2) ∂P := by
        refine integral_mono hq.1 (integrable_const _) fun ω => ?_
        have hcs : (∑ i, u i * x 0 ω i) ^ 2 ≤ (∑ i, u i ^ 2) * ∑ i, x 0 ω i ^ 2 := sum_mul_sq_le_sq_mul_sq _ _ _
        have hp : 0 < eps + ∑ l, x 0 ω l ^ 2 := by
          have : 0 ≤ ∑ l, x 0 ω l ^ 2 := sum_nonneg fun _ _ => sq_nonneg _
          linarith
        show 1 / (eps + ∑ l, x 0 ω l ^ 2) * (∑ i, u i * x 0 ω i) ^ 2 ≤ ∑ i, u i ^ 2
        rw [one_div, inv_mul_le_iff₀ hp]
        nlinarith
      simpa using h1
    have hpos : 0 < ∫ ω, 1 / (eps + ∑ l, x 0 ω l ^ 2) * (∑ i, u i * x 0 ω i) ^ 2 ∂P := by
      have hnn : ∀ ω, 0 ≤ 1 / (eps + ∑ l, x 0 ω l ^ 2) * (∑ i, u i * x 0 ω i) ^ 2 := fun ω => by
        have : 0 ≤ ∑ l, x 0 ω l ^ 2 := sum_nonneg fun _ _ => sq_nonneg _
        positivity
      refine lt_of_le_of_ne (integral_nonneg hnn) fun h0 => hu (hplane u ?_)
      have := (integral_eq_zero_iff_of_nonneg hnn hq.1).1 h0.symm
      refine this.mono fun ω hω => ?_
      have h1 : 1 / (eps + ∑ l, x 0 ω l ^ 2) * (∑ i, u i * x 0 ω i) ^ 2 = 0 := hω
      have hp : 0 < eps + ∑ l, x 0 ω l ^ 2 := by
        have : 0 ≤ ∑ l, x 0 ω l ^ 2 := sum_nonneg fun _ _ => sq_nonneg _
        linarith
      rcases mul_eq_zero.1 h1 with h2 | h2
      · exact absurd h2 (by positivity)
      · exact pow_eq_zero_iff (two_ne_zero) |>.1 h2
    have l1 : 0 < lam := by
      by_contra hc
      have : lam * ∑ i, u i ^ 2 ≤ 0 := mul_nonpos_of_nonpos_of_nonneg (not_lt.1 hc) hupos.le
      have := mul_pos hmu hpos
      linarith
    have l2 : lam < 2 := by
      by_contra hc
      have h2 : 2 * ∑ i, u i ^ 2 ≤ lam * ∑ i, u i ^ 2 := mul_le_mul_of_nonneg_right (not_lt.1 hc) hupos.le
      have h3 := mul_le_mul_of_nonneg_left hle hmu.le
      have h4 := mul_lt_mul_of_pos_right hmu2 hupos
      linarith
    rw [abs_lt]
    constructor <;> linarith) (fun j => ∫ ω, (o ω).core.w j ∂P - ws j) i
  have e1 : (fun k => ∫ ω, (S ω k).w i ∂P) = fun k => ws i + ∑ j, ((1 - mu • R) ^ k) i j * (∫ ω, (o ω).core.w j ∂P - ws j) :=
    funext fun k => (C122_nlms_mean o hs ho ws hw0 h heps R hR hxv hv hv0 k i).2
  rw [e1]
  simpa using ht.const_add (ws i)

/-! ## C123: the mean square of the deviation -/

/-- C123: LMS on random data, in mean square.  With inputs of finite fourth moment such that `E (u.x)^2 >= lam |u|^2` and `E |x|^2 (u.x)^2 <= B E (u.x)^2`, zero mean noise of
variance at most `s2` independent of the input, and `0 < mu < 2 / B`, the mean square deviation of the weights from `ws` decays geometrically to a floor that is
proportional to the noise variance. -/
theorem C123_lms (o : Ω → Obj (lms ℝ n)) (hs : IndepSamples P x v fun ω => (o ω).core.w) {mu : ℝ} (ho : ∀ ω, (o ω).core.mu = mu) {S : Ω → ℕ → Core ℝ n Unit} (ws : Vec ℝ n)
    (hw0 : ∀ i, MemLp (fun ω => (o ω).core.w i) 2 P)
    (h : ∀ ω, Runs (lms ℝ n) (o ω) (fun k => (∑ i, ws i * x k ω i) + v k ω) (fun k => x k ω) (y ω) (e ω) (S ω)) (hn : 0 < n)
    (hx4 : ∀ k i, Integrable (fun ω => x k ω i ^ 4) P) {lam B T s2 : ℝ} (hlam : 0 < lam)
    (hex : ∀ k (u : Vec ℝ n), lam * ∑ i, u i ^ 2 ≤ ∫ ω, (∑ i, u i * x k ω i) ^ 2 ∂P)
    (hB : ∀ k (u : Vec ℝ n), ∫ ω, (∑ i, x k ω i ^ 2) * (∑ i, u i * x k ω i) ^ 2 ∂P ≤ B * ∫ ω, (∑ i, u i * x k ω i) ^ 2 ∂P)
    (hT : ∀ k, ∫ ω, ∑ i, x k ω i ^ 2 ∂P ≤ T)
    (hxv : ∀ k, IndepFun (x k) (v k) P) (hv : ∀ k, MemLp (v k) 2 P) (hv0 : ∀ k, ∫ ω, v k ω ∂P = 0) (hs2 : ∀ k, ∫ ω, v k ω ^ 2 ∂P ≤ s2)
    (hmu : 0 < mu) (hmu2 : mu * B < 2) (k : ℕ) :
    (∀ i, Integrable (fun ω => ((S ω k).w i - ws i) ^ 2) P) ∧
    ∫ ω, ∑ i, ((S ω k).w i - ws i) ^ 2 ∂P ≤ (1 - mu * (2 - mu * B) * lam) ^ k * (∫ ω, ∑ i, ((o ω).core.w i - ws i) ^ 2 ∂P)
      + mu * s2 * T / ((2 - mu * B) * lam) := by
  have hp := lms_process o hs ho ws h
  have mx : ∀ k i, Measurable fun ω => x k ω i := fun k i => (measurable_pi_apply i).comp (hs.x_measurable k)
  have hsq : ∀ k i, MemLp (fun ω => x k ω i ^ 2) 2 P := fun k i => by
    rw [memLp_two_iff_integrable_sq ((mx k i).pow_const 2).aestronglyMeasurable]
    refine (hx4 k i).congr (Filter.Eventually.of_forall fun ω => ?_)
    show x k ω i ^ 4 = (x k ω i ^ 2) ^ 2
    ring
  have hx2 : ∀ k i, MemLp (fun ω => x k ω i) 2 P := fun k i => by
    rw [memLp_two_iff_integrable_sq (mx k i).aestronglyMeasurable]
    exact (hsq k i).integrable one_le_two
  have hxx : ∀ k i j, MemLp (fun ω => x k ω i * x k ω j) 2 P := fun k i j => by
    have hm : Measurable fun ω => x k ω i * x k ω j := (mx k i).mul (mx k j)
    rw [memLp_two_iff_integrable_sq hm.aestronglyMeasurable]
    refine ((hsq k i).integrable_mul (hsq k j)).congr (Filter.Eventually.of_forall fun ω => ?_)
    show x k ω i ^ 2 * x k ω j ^ 2 = (x k ω i * x k ω j) ^ 2
    ring
  have h1 : ∀ k i, MemLp (fun ω => mu * x k ω i) 2 P := fun k i => (hx2 k i).const_mul _
  have h2 : ∀ k i j, MemLp (fun ω => mu * x k ω i * x k ω j) 2 P := fun k i j => by
    have := (hxx k i j).const_mul mu
    have e1 : (fun ω => mu * x k ω i * x k ω j) = fun ω => mu * (x k ω i * x k ω j) := by funext ω; ring
    rw [e1]; exact this
  have hc : ∀ i, MemLp (fun ω => (o ω).core.w i - ws i) 2 P := fun i => (hw0 i).sub (memLp_const _)
  refine ⟨fun i => ((hp.meanSq hc h1 h2 hxv hv hv0 k).1 i).integrable_sq, ?_⟩
  have hpos : 0 < 2 - mu * B := by linarith
  have hb := hp.bound hc h1 h2 hxv hv hv0 (ρ := mu * (2 - mu * B) * lam) (s2 := s2) (q := mu ^ 2 * T) hn (by positivity) (fun k u => by
    have i1 : Integrable (fun ω => (∑ i, u i * x k ω i) ^ 2) P := by
      have := (quadC (f := fun _ => (1 : ℝ)) (z := x k) (P := P) (fun i j => by simpa using (hxx k i j).integrable one_le_two) u).1
      simpa using this
    have i2 : Integrable (fun ω => (∑ i, x k ω i ^ 2) * (∑ i, u i * x k ω i) ^ 2) P := by
      refine (quadC (f := fun ω => ∑ i, x k ω i ^ 2) (z := x k) (P := P) (fun i j => ?_) u).1
      have e1 : (fun ω => (∑ i, x k ω i ^ 2) * x k ω i * x k ω j) = fun ω => ∑ l, x k ω l ^ 2 * (x k ω i * x k ω j) := by
        funext ω; rw [mul_assoc, sum_mul]
      rw [e1]
      exact integrable_finsetSum _ fun l _ => (hsq k l).integrable_mul (hxx k i j)
    have e1 : (fun ω => (2 * mu - mu ^ 2 * ∑ l, x k ω l ^ 2) * (∑ i, u i * x k ω i) ^ 2)
        = fun ω => 2 * mu * (∑ i, u i * x k ω i) ^ 2 - mu ^ 2 * ((∑ i, x k ω i ^ 2) * (∑ i, u i * x k ω i) ^ 2) := by
      funext ω; ring
    rw [e1, integral_sub (i1.const_mul _) (i2.const_mul _), integral_const_mul, integral_const_mul]
    have a1 := mul_le_mul_of_nonneg_left (hB k u) (sq_nonneg mu)
    have a2 := mul_le_mul_of_nonneg_left (hex k u) (mul_pos hmu hpos).le
    nlinarith) hs2 (fun k => by rw [integral_const_mul]; exact mul_le_mul_of_nonneg_left (hT k) (sq_nonneg _)) k
  refine hb.trans (le_of_eq ?_)
  congr 1
  field_simp

/-- C123: NLMS on random data, in mean square: with `eps > 0`, `0 < mu < 2` and `E (u.x)^2 / (eps + |x|^2) >= lam |u|^2` the mean square deviation of the weights from `ws`
decays geometrically to a floor that is proportional to the noise variance, whatever the moments of the inputs. -/
theorem C123_nlms (o : Ω → Obj (nlms ℝ n)) (hs : IndepSamples P x v fun ω => (o ω).core.w) {mu eps : ℝ}
    (ho : ∀ ω, (o ω).core.mu = mu ∧ (o ω).core.ext.eps = eps) {S : Ω → ℕ → Core ℝ n (EpsExt ℝ)} (ws : Vec ℝ n)
    (hw0 : ∀ i, MemLp (fun ω => (o ω).core.w i) 2 P)
    (h : ∀ ω, Runs (nlms ℝ n) (o ω) (fun k => (∑ i, ws i * x k ω i) + v k ω) (fun k => x k ω) (y ω) (e ω) (S ω)) (hn : 0 < n)
    (heps : 0 < eps) {lam s2 : ℝ} (hlam : 0 < lam)
    (hex : ∀ k (u : Vec ℝ n), lam * ∑ i, u i ^ 2 ≤ ∫ ω, (∑ i, u i * x k ω i) ^ 2 / (eps + ∑ i, x k ω i ^ 2) ∂P)
    (hxv : ∀ k, IndepFun (x k) (v k) P) (hv : ∀ k, MemLp (v k) 2 P) (hv0 : ∀ k, ∫ ω, v k ω ∂P = 0) (hs2 : ∀ k, ∫ ω, v k ω ^ 2 ∂P ≤ s2)
    (hmu : 0 < mu) (hmu2 : mu < 2) (k : ℕ) :
    (∀ i, Integrable (fun ω => ((S ω k).w i - ws i) ^ 2) P) ∧
    ∫ ω, ∑ i, ((S ω k).w i - ws i) ^ 2 ∂P ≤ (1 - mu * (2 - mu) * lam) ^ k * (∫ ω, ∑ i, ((o ω).core.w i - ws i) ^ 2 ∂P)
      + mu * s2 / (4 * eps * (2 - mu) * lam) := by
  have hp := nlms_process o hs ho ws h
  have h1 := fun k i => (nlms_integrable (P := P) hs.x_measurable mu heps k i i).2
  have h2 := fun k i j => (nlms_integrable (P := P) hs.x_measurable mu heps k i j).1
  have hc : ∀ i, MemLp (fun ω => (o ω).core.w i - ws i) 2 P := fun i => (hw0 i).sub (memLp_const _)
  refine ⟨fun i => ((hp.meanSq hc h1 h2 hxv hv hv0 k).1 i).integrable_sq, ?_⟩
  have hpos : 0 < 2 - mu := by linarith
  have hb := hp.bound hc h1 h2 hxv hv hv0 (ρ := mu * (2 - mu) * lam) (s2 := s2) (q := mu ^ 2 / (4 * eps)) hn (by positivity)
    (fun k u => by
      have hi1 : ∀ i j, Integrable (fun ω => 1 / (eps + ∑ l, x k ω l ^ 2) * x k ω i * x k ω j) P := fun i j =>
        (nlms_integrable (P := P) hs.x_measurable 1 heps k i j).1.integrable one_le_two
      have i1 := (quadC hi1 u).1
      have iB : ∀ i j, Integrable (fun ω => (2 * (mu / (eps + ∑ l, x k ω l ^ 2))
          - (mu / (eps + ∑ l, x k ω l ^ 2)) ^ 2 * ∑ l, x k ω l ^ 2) * x k ω i * x k ω j) P := by
        intro i j
        have e : (fun ω => (2 * (mu / (eps + ∑ l, x k ω l ^ 2))
          - (mu / (eps + ∑ l, x k ω l ^ 2)) ^ 2 * ∑ l, x k ω l ^ 2) * x k ω i * x k ω j)
            = fun ω => 2 * (mu / (eps + ∑ l, x k ω l ^ 2) * x k ω i * x k ω j)
            - ∑ m, (mu / (eps + ∑ l, x k ω l ^ 2) * x k ω i * x k ω m) * (mu / (eps + ∑ l, x k ω l ^ 2) * x k ω j * x k ω m) := by
          funext ω
          rw [sum_congr rfl fun m _ => show (mu / (eps + ∑ l, x k ω l ^ 2) * x k ω i * x k ω m) * (mu / (eps + ∑ l, x k ω l ^ 2) * x k ω j * x k ω m)
            = (mu / (eps + ∑ l, x k ω l ^ 2)) ^ 2 * x k ω i * x k ω j * x k ω m ^ 2 by ring, ← mul_sum]
          ring
        rw [e]
        exact (((h2 k i j).integrable one_le_two).const_mul 2).sub (integrable_finsetSum _ fun l _ => (h2 k i l).integrable_mul (h2 k j l))
      have e0 : ∫ ω, (∑ i, u i * x k ω i) ^ 2 / (eps + ∑ i, x k ω i ^ 2) ∂P
          = ∫ ω, 1 / (eps + ∑ l, x k ω l ^ 2) * (∑ i, u i * x k ω i) ^ 2 ∂P := by congr 1; funext ω; ring
      have a1 := hex k u
      rw [e0] at a1
      have a2 := mul_le_mul_of_nonneg_left a1 (mul_pos hmu hpos).le
      rw [← integral_const_mul] at a2
      have a3 : ∫ ω, mu * (2 - mu) * (1 / (eps + ∑ l, x k ω l ^ 2) * (∑ i, u i * x k ω i) ^ 2) ∂P
          ≤ ∫ ω, (2 * (mu / (eps + ∑ l, x k ω l ^ 2))
          - (mu / (eps + ∑ l, x k ω l ^ 2)) ^ 2 * ∑ l, x k ω l ^ 2) * (∑ i, u i * x k ω i) ^ 2 ∂P := by
        refine integral_mono (i1.const_mul _) (quadC iB u).1 fun ω => ?_
        show mu * (2 - mu) * (1 / (eps + ∑ l, x k ω l ^ 2) * (∑ i, u i * x k ω i) ^ 2)
          ≤ (2 * (mu / (eps + ∑ l, x k ω l ^ 2))
          - (mu / (eps + ∑ l, x k ω l ^ 2)) ^ 2 * ∑ l, x k ω l ^ 2) * (∑ i, u i * x k ω i) ^ 2
        have hq0 : 0 ≤ ∑ l, x k ω l ^ 2 := sum_nonneg fun _ _ => sq_nonneg _
        rw [← mul_assoc]
        refine mul_le_mul_of_nonneg_right ?_ (sq_nonneg _)
        generalize ∑ l, x k ω l ^ 2 = q at hq0
        have hp' : 0 < eps + q := by linarith
        have : 2 * (mu / (eps + q)) - (mu / (eps + q)) ^ 2 * q
            - mu * (2 - mu) * (1 / (eps + q)) = mu ^ 2 * eps / (eps + q) ^ 2 := by
          field_simp; ring
        have h0 : 0 ≤ mu ^ 2 * eps / (eps + q) ^ 2 := by positivity
        linarith
      linarith) hs2 (fun k => by
      have : ∫ ω, (mu / (eps + ∑ i, x k ω i ^ 2)) ^ 2 * ∑ i, x k ω i ^ 2 ∂P ≤ ∫ ω, mu ^ 2 / (4 * eps) ∂P := by
        refine integral_mono_of_nonneg (Filter.Eventually.of_forall fun ω => mul_nonneg (sq_nonneg _) (sum_nonneg fun _ _ => sq_nonneg _))
          (integrable_const _) (Filter.Eventually.of_forall fun ω => ?_)
        show (mu / (eps + ∑ i, x k ω i ^ 2)) ^ 2 * ∑ i, x k ω i ^ 2 ≤ mu ^ 2 / (4 * eps)
        have hq0 : 0 ≤ ∑ l, x k ω l ^ 2 := sum_nonneg fun _ _ => sq_nonneg _
        generalize ∑ l, x k ω l ^ 2 = q at hq0
        have hp' : 0 < eps + q := by linarith
        rw [div_pow, div_mul_eq_mul_div, div_le_div_iff₀ (by positivity) (by positivity)]
        nlinarith [sq_nonneg (eps - q), sq_nonneg mu, mul_nonneg (sq_nonneg mu) (sq_nonneg (eps - q))]
      simpa using this) k
  refine hb.trans (le_of_eq ?_)
  congr 1
  field_simp

/-! Concrete data meeting the hypotheses of all theorems of this file (independent Gaussian inputs and noise, random initial weights) are in the examples
at the end of `Verif.Props.RandomConv` and `Verif.Props.White`. -/

end user

end Padasip
