import Verif.Props.Divergence
import Verif.Props.Recursion

/-!
# C99: when the misalignment can grow - the filters with a nonlinear or variable step

For every filter whose update is a multiple of the input, on noise-free data `d(k) = <ws, x(k)>`, the distance of the weights from the unknown system `ws` is
compared before and after sample `k`.
-/

set_option linter.unusedSectionVars false
set_option linter.unusedVariables false
set_option linter.unusedSimpArgs false

namespace Padasip

open Finset

section field
variable {K : Type} [Field K] [LinearOrder K] [IsStrictOrderedRing K] {n : ℕ}

theorem misalign_gain {w x ws : Vec K n} {d e g : K} (hd : d = ∑ i, ws i * x i) (he : e = d - dot w x) :
    sqn (fun i => (w i + g * x i) - ws i) = sqn (fun i => w i - ws i) - 2 * g * e + g ^ 2 * sqn x := by
  have h2 : (fun i => (w i + g * x i) - ws i) = fun i => (w i - ws i) + g * x i := funext fun i => by ring
  have h3 : ∑ i, (w i - ws i) * x i = - e := by
    rw [he, hd, dot_eq]; simp only [sub_mul, sum_sub_distrib]; ring
  rw [h2, sqn_add_smul, h3]; ring

/-- with the step written as `m * e` -/
theorem misalign_iff {w w' x ws : Vec K n} {d e m : K} (hd : d = ∑ i, ws i * x i) (he : e = d - dot w x)
    (hw : w' = fun i => w i + m * e * x i) (h0 : e ≠ 0) :
    ∑ i, (w' i - ws i) ^ 2 ≤ ∑ i, (w i - ws i) ^ 2 ↔ 0 ≤ m ∧ m * ∑ i, x i ^ 2 ≤ 2 := by
  have h1 := misalign_gain (g := m * e) hd he
  have hs : 0 ≤ sqn x := sqn_nonneg x
  have he2 : 0 < e ^ 2 := by positivity
  rw [hw]
  show sqn (fun i => (w i + m * e * x i) - ws i) ≤ sqn (fun i => w i - ws i) ↔ 0 ≤ m ∧ m * sqn x ≤ 2
  have h2 : sqn (fun i => (w i + m * e * x i) - ws i) - sqn (fun i => w i - ws i) = (m * (m * sqn x - 2)) * e ^ 2 := by
    rw [h1]; ring
  rw [← sub_nonpos, h2]
  constructor
  · intro h
    have h3 : m * (m * sqn x - 2) ≤ 0 := by
      by_contra hc
      exact absurd (mul_pos (not_le.mp hc) he2) (not_lt.mpr h)
    have hm : 0 ≤ m := by
      by_contra hc
      have hc := not_le.mp hc
      have : m * sqn x ≤ 0 := mul_nonpos_of_nonpos_of_nonneg hc.le hs
      have := mul_pos_of_neg_of_neg hc (show m * sqn x - 2 < 0 by linarith)
      linarith
    refine ⟨hm, ?_⟩
    by_contra hc
    have hc := not_le.mp hc
    have hm' : 0 < m := by
      rcases hm.lt_or_eq with h' | h'
      · exact h'
      · rw [← h', zero_mul] at hc; linarith
    have := mul_pos hm' (show 0 < m * sqn x - 2 by linarith)
    linarith
  · rintro ⟨hm, h3⟩
    exact mul_nonpos_of_nonpos_of_nonneg (mul_nonpos_of_nonneg_of_nonpos hm (by linarith)) he2.le

variable {d : ℕ → K} {x : ℕ → Vec K n} {y e : ℕ → K}

/-- C99: GNGD.  The misalignment does not grow at sample `k` iff the effective step `m = mu / (eps(k) + |x(k)|^2)` - `eps(k)` the compensation term after its
update by sample `k`, which may have become negative (C39) - satisfies `0 <= m` and `m |x(k)|^2 <= 2`. -/
theorem C99_gngd (o : Obj (gngd K n)) {S : ℕ → Core K n (GngdExt K n)} (h : Runs (gngd K n) o d x y e S) (ws : Vec K n)
    (hd : ∀ k, d k = ∑ i, ws i * x k i) (k : ℕ) (he : e k ≠ 0) :
    ∑ i, ((S (k + 1)).w i - ws i) ^ 2 ≤ ∑ i, ((S k).w i - ws i) ^ 2 ↔
      0 ≤ o.core.mu / ((S (k + 1)).ext.eps + ∑ i, x k i ^ 2) ∧
      o.core.mu / ((S (k + 1)).ext.eps + ∑ i, x k i ^ 2) * ∑ i, x k i ^ 2 ≤ 2 := by
  obtain ⟨h1, -, hy, he', hw, heps, -⟩ := gngd_runs h k
  refine misalign_iff (hd k) (by rw [he', hy]) ?_ he
  rw [hw, heps, h1, sqn_eq_dot]; rfl

/-- C99: GNGD: as long as the compensation term is positive, `0 <= mu <= 2` suffices, whatever the inputs. -/
theorem C99_gngd_monotone (o : Obj (gngd K n)) {S : ℕ → Core K n (GngdExt K n)} (h : Runs (gngd K n) o d x y e S) (ws : Vec K n)
    (hd : ∀ k, d k = ∑ i, ws i * x k i) (hmu : 0 ≤ o.core.mu) (hmu2 : o.core.mu ≤ 2) (k : ℕ) (heps : 0 < (S (k + 1)).ext.eps) :
    ∑ i, ((S (k + 1)).w i - ws i) ^ 2 ≤ ∑ i, ((S k).w i - ws i) ^ 2 := by
  by_cases he : e k = 0
  · obtain ⟨-, -, -, -, hw, -⟩ := gngd_runs h k
    rw [hw, he]; simp
  · have hs := sqn_nonneg (x k)
    refine (C99_gngd o h ws hd k he).mpr ⟨div_nonneg hmu (by unfold sqn at hs; linarith), ?_⟩
    exact (nlms_gain heps hmu hs).trans hmu2

/-- C99: VSLMS with Mathews' adaptation: iff the step `mu(k)` used for sample `k` (kept by the filter as its last step size) satisfies `0 <= mu(k)` and
`mu(k) |x(k)|^2 <= 2`. -/
theorem C99_vslms_mathews (o : Obj (mathews K n)) {S : ℕ → Core K n (MathewsExt K n)} (h : Runs (mathews K n) o d x y e S) (ws : Vec K n)
    (hd : ∀ k, d k = ∑ i, ws i * x k i) (k : ℕ) (he : e k ≠ 0) :
    ∑ i, ((S (k + 1)).w i - ws i) ^ 2 ≤ ∑ i, ((S k).w i - ws i) ^ 2 ↔
      0 ≤ (S (k + 1)).ext.lastMu ∧ (S (k + 1)).ext.lastMu * ∑ i, x k i ^ 2 ≤ 2 := by
  obtain ⟨h1, -, hy, he', hw, hm, -⟩ := mathews_runs h k
  exact misalign_iff (hd k) (by rw [he', hy]) (by rw [hw, hm]) he

/-- C99: VSLMS with Ang's adaptation: the same criterion. -/
theorem C99_vslms_ang (o : Obj (ang K n)) {S : ℕ → Core K n (AngExt K n)} (h : Runs (ang K n) o d x y e S) (ws : Vec K n)
    (hd : ∀ k, d k = ∑ i, ws i * x k i) (k : ℕ) (he : e k ≠ 0) :
    ∑ i, ((S (k + 1)).w i - ws i) ^ 2 ≤ ∑ i, ((S k).w i - ws i) ^ 2 ↔
      0 ≤ (S (k + 1)).ext.lastMu ∧ (S (k + 1)).ext.lastMu * ∑ i, x k i ^ 2 ≤ 2 := by
  obtain ⟨h1, -, -, hy, he', hw, hm, -⟩ := ang_runs h k
  exact misalign_iff (hd k) (by rw [he', hy]) (by rw [hw, hm]) he

/-- C99: VSLMS with Benveniste's adaptation: the same criterion. -/
theorem C99_vslms_benveniste (o : Obj (benveniste K n)) {S : ℕ → Core K n (BenExt K n)} (h : Runs (benveniste K n) o d x y e S) (ws : Vec K n)
    (hd : ∀ k, d k = ∑ i, ws i * x k i) (k : ℕ) (he : e k ≠ 0) :
    ∑ i, ((S (k + 1)).w i - ws i) ^ 2 ≤ ∑ i, ((S k).w i - ws i) ^ 2 ↔
      0 ≤ (S (k + 1)).ext.lastMu ∧ (S (k + 1)).ext.lastMu * ∑ i, x k i ^ 2 ≤ 2 := by
  obtain ⟨h1, -, hy, he', hw, hm, -⟩ := benveniste_runs h k
  exact misalign_iff (hd k) (by rw [he', hy]) (by rw [hw, hm]) he

/-- C99: LMF: iff `0 <= mu` and `mu e(k)^2 |x(k)|^2 <= 2`: the larger the error, the smaller the safe step. -/
theorem C99_lmf (o : Obj (lmf K n)) {S : ℕ → Core K n Unit} (h : Runs (lmf K n) o d x y e S) (ws : Vec K n)
    (hd : ∀ k, d k = ∑ i, ws i * x k i) (k : ℕ) (he : e k ≠ 0) :
    ∑ i, ((S (k + 1)).w i - ws i) ^ 2 ≤ ∑ i, ((S k).w i - ws i) ^ 2 ↔
      0 ≤ o.core.mu ∧ o.core.mu * e k ^ 2 * ∑ i, x k i ^ 2 ≤ 2 := by
  obtain ⟨h1, -, hy, he', hw⟩ := lmf_runs h k
  have he2 : 0 < e k ^ 2 := by positivity
  rw [misalign_iff (m := o.core.mu * e k ^ 2) (hd k) (by rw [he', hy])
    (by rw [hw, h1]; exact funext fun i => by ring) he, mul_nonneg_iff_left_nonneg_of_pos he2]

/-- C99: NLMF: iff `0 <= m` and `m e(k)^2 |x(k)|^2 <= 2` with `m = mu / (eps + |x(k)|^2)`. -/
theorem C99_nlmf (o : Obj (nlmf K n)) {S : ℕ → Core K n (EpsExt K)} (h : Runs (nlmf K n) o d x y e S) (ws : Vec K n)
    (hd : ∀ k, d k = ∑ i, ws i * x k i) (k : ℕ) (he : e k ≠ 0) :
    ∑ i, ((S (k + 1)).w i - ws i) ^ 2 ≤ ∑ i, ((S k).w i - ws i) ^ 2 ↔
      0 ≤ o.core.mu / (o.core.ext.eps + ∑ i, x k i ^ 2) ∧
      o.core.mu / (o.core.ext.eps + ∑ i, x k i ^ 2) * e k ^ 2 * ∑ i, x k i ^ 2 ≤ 2 := by
  obtain ⟨h1, h2, hy, he', hw⟩ := nlmf_runs h k
  have he2 : 0 < e k ^ 2 := by positivity
  rw [misalign_iff (m := o.core.mu / (o.core.ext.eps + ∑ i, x k i ^ 2) * e k ^ 2) (hd k) (by rw [he', hy])
    (by rw [hw, h1, h2, sqn_eq_dot]; exact funext fun i => by unfold sqn; ring) he, mul_nonneg_iff_left_nonneg_of_pos he2]

/-- C99: NLMS, for comparison: iff `0 <= m` and `m |x(k)|^2 <= 2` - the size of the error plays no role. -/
theorem C99_nlms (o : Obj (nlms K n)) {S : ℕ → Core K n (EpsExt K)} (h : Runs (nlms K n) o d x y e S) (ws : Vec K n)
    (hd : ∀ k, d k = ∑ i, ws i * x k i) (k : ℕ) (he : e k ≠ 0) :
    ∑ i, ((S (k + 1)).w i - ws i) ^ 2 ≤ ∑ i, ((S k).w i - ws i) ^ 2 ↔
      0 ≤ o.core.mu / (o.core.ext.eps + ∑ i, x k i ^ 2) ∧
      o.core.mu / (o.core.ext.eps + ∑ i, x k i ^ 2) * ∑ i, x k i ^ 2 ≤ 2 := by
  obtain ⟨h1, h2, hy, he', hw⟩ := nlms_runs h k
  refine misalign_iff (hd k) (by rw [he', hy]) ?_ he
  rw [hw, h1, h2, sqn_eq_dot]; exact funext fun i => by unfold sqn; ring

/-- C99: LMS: iff `0 <= mu` and `mu |x(k)|^2 <= 2`: the documented criterion is exact for the misalignment too. -/
theorem C99_lms (o : Obj (lms K n)) {S : ℕ → Core K n Unit} (h : Runs (lms K n) o d x y e S) (ws : Vec K n)
    (hd : ∀ k, d k = ∑ i, ws i * x k i) (k : ℕ) (he : e k ≠ 0) :
    ∑ i, ((S (k + 1)).w i - ws i) ^ 2 ≤ ∑ i, ((S k).w i - ws i) ^ 2 ↔
      0 ≤ o.core.mu ∧ o.core.mu * ∑ i, x k i ^ 2 ≤ 2 := by
  obtain ⟨h1, -, hy, he', hw⟩ := lms_runs h k
  exact misalign_iff (hd k) (by rw [he', hy]) (by rw [hw, h1]; exact funext fun i => by ring) he

end field

section real
variable {n : ℕ} {d : ℕ → ℝ} {x : ℕ → Vec ℝ n} {y e : ℕ → ℝ}

theorem div_one_add_le_tanh {z : ℝ} (hz : 0 ≤ z) : z / (1 + z) ≤ Real.tanh z := by
  have h1 : 2 * z + 1 ≤ Real.exp (2 * z) := Real.add_one_le_exp _
  have hp : 0 < Real.exp z := Real.exp_pos z
  have hq : 0 < Real.exp (-z) := Real.exp_pos _
  have h2 : Real.exp (2 * z) * Real.exp (-z) = Real.exp z := by rw [← Real.exp_add]; congr 1; ring
  have h3 : (2 * z + 1) * Real.exp (-z) ≤ Real.exp z := by
    rw [← h2]; exact mul_le_mul_of_nonneg_right h1 hq.le
  rw [Real.tanh_eq_sinh_div_cosh, Real.sinh_eq, Real.cosh_eq, div_le_div_iff₀ (by linarith) (by positivity)]
  nlinarith

theorem tanh_odd_mul (l t : ℝ) : Real.tanh (l * t) * t = Real.tanh (l * |t|) * |t| := by
  rcases abs_choice t with h | h <;> rw [h]
  rw [mul_neg l, Real.tanh_neg]; ring

theorem tanh_sq_le {l t : ℝ} (hl : 0 ≤ l) : Real.tanh (l * t) ^ 2 ≤ l * (Real.tanh (l * t) * t) := by
  have h0 : 0 ≤ l * |t| := mul_nonneg hl (abs_nonneg _)
  have h1 : Real.tanh (l * t) ^ 2 = Real.tanh (l * |t|) ^ 2 := by
    rcases abs_choice t with h | h <;> rw [h]
    rw [mul_neg l, Real.tanh_neg, neg_sq]
  rw [h1, tanh_odd_mul]
  have h2 := tanh_le_self h0
  have h3 := tanh_nonneg' h0
  nlinarith

theorem llncosh_energy {o : Obj (llncosh ℝ n)} {S : ℕ → Core ℝ n (LlncoshExt ℝ)} (h : Runs (llncosh ℝ n) o d x y e S) (ws : Vec ℝ n)
    (hd : ∀ k, d k = ∑ i, ws i * x k i) (k : ℕ) :
    sqn (fun i => (S (k + 1)).w i - ws i)
      = sqn (fun i => (S k).w i - ws i) - 2 * o.core.mu * (Real.tanh (o.core.ext.lambd * e k) * e k)
        + o.core.mu ^ 2 * Real.tanh (o.core.ext.lambd * e k) ^ 2 * sqn (x k) := by
  obtain ⟨h1, h2, hy, he, hw⟩ := llncosh_runs h k
  have := misalign_gain (w := (S k).w) (x := x k) (ws := ws) (g := o.core.mu * Real.tanh (o.core.ext.lambd * e k)) (hd k)
    (show e k = d k - dot (S k).w (x k) by rw [he, hy])
  rw [hw, h1, h2]
  refine Eq.trans ?_ (this.trans (by ring))
  rfl

/-- C99: Llncosh: for `mu, lambd >= 0` and `mu lambd |x(k)|^2 <= 2` the misalignment never grows - whatever the size of the error. -/
theorem C99_llncosh_monotone (o : Obj (llncosh ℝ n)) {S : ℕ → Core ℝ n (LlncoshExt ℝ)} (h : Runs (llncosh ℝ n) o d x y e S) (ws : Vec ℝ n)
    (hd : ∀ k, d k = ∑ i, ws i * x k i) (hmu : 0 ≤ o.core.mu) (hl : 0 ≤ o.core.ext.lambd)
    (k : ℕ) (hx : o.core.mu * o.core.ext.lambd * ∑ i, x k i ^ 2 ≤ 2) :
    ∑ i, ((S (k + 1)).w i - ws i) ^ 2 ≤ ∑ i, ((S k).w i - ws i) ^ 2 := by
  show sqn (fun i => (S (k + 1)).w i - ws i) ≤ sqn (fun i => (S k).w i - ws i)
  rw [llncosh_energy h ws hd k]
  have h1 := tanh_sq_le (t := e k) hl
  have h0 : 0 ≤ Real.tanh (o.core.ext.lambd * e k) * e k := by
    rw [tanh_odd_mul]; exact mul_nonneg (tanh_nonneg' (mul_nonneg hl (abs_nonneg _))) (abs_nonneg _)
  have hs := sqn_nonneg (x k)
  have h2 : o.core.mu ^ 2 * Real.tanh (o.core.ext.lambd * e k) ^ 2 * sqn (x k)
      ≤ o.core.mu ^ 2 * (o.core.ext.lambd * (Real.tanh (o.core.ext.lambd * e k) * e k)) * sqn (x k) :=
    mul_le_mul_of_nonneg_right (mul_le_mul_of_nonneg_left h1 (sq_nonneg _)) hs
  have h3 : 0 ≤ o.core.mu * (Real.tanh (o.core.ext.lambd * e k) * e k) * (2 - o.core.mu * o.core.ext.lambd * sqn (x k)) :=
    mul_nonneg (mul_nonneg hmu h0) (sub_nonneg.mpr hx)
  nlinarith

/-- C99: Llncosh: with `mu, lambd > 0`, bounded inputs `|x(k)|^2 <= B` and `mu lambd B < 2` the error vanishes on noise-free data, from any initial weights. -/
theorem C99_llncosh_error_vanishes (o : Obj (llncosh ℝ n)) {S : ℕ → Core ℝ n (LlncoshExt ℝ)} (h : Runs (llncosh ℝ n) o d x y e S)
    (ws : Vec ℝ n) (hd : ∀ k, d k = ∑ i, ws i * x k i) (hmu : 0 < o.core.mu) (hl : 0 < o.core.ext.lambd) {B : ℝ}
    (hx : ∀ k, ∑ i, x k i ^ 2 ≤ B) (hB : o.core.mu * o.core.ext.lambd * B < 2) :
    Filter.Tendsto e Filter.atTop (nhds 0) := by
  have hB0 : 0 ≤ B := (sqn_nonneg (x 0)).trans (hx 0)
  have hml := mul_pos hmu hl
  have hmon : ∀ k, sqn (fun i => (S k).w i - ws i) ≤ sqn (fun i => o.core.w i - ws i) := by
    intro k
    induction k with
    | zero => rw [h.1]; exact le_refl _
    | succ k ih =>
      exact (C99_llncosh_monotone o h ws hd hmu.le hl.le k
        ((mul_le_mul_of_nonneg_left (hx k) hml.le).trans hB.le)).trans ih
  set M := sqn (fun i => o.core.w i - ws i) with hM
  have hM0 : 0 ≤ M := sqn_nonneg _
  have hE : ∀ k, |e k| ≤ 1 + B * M := by
    intro k
    obtain ⟨-, -, hy, he, -⟩ := llncosh_runs h k
    have h1 := err_sq_le (hd k) (show e k = d k - ∑ i, (S k).w i * x k i by rw [he, hy]; exact congrArg _ (dot_eq _ _)) (hx k)
    have h2 : e k ^ 2 ≤ B * M := h1.trans (mul_le_mul_of_nonneg_left (hmon k) hB0)
    have h3 : |e k| ^ 2 ≤ B * M := by rwa [sq_abs]
    nlinarith [sq_nonneg (|e k| - 1)]
  set E := 1 + B * M with hEdef
  have hE0 : 0 < E := by positivity
  refine tendsto_zero_of_energy (B := M)
    (c := o.core.mu * (2 - o.core.mu * o.core.ext.lambd * B) * (o.core.ext.lambd / (1 + o.core.ext.lambd * E)))
    (mul_pos (mul_pos hmu (by linarith)) (div_pos hl (by positivity))) fun N => ?_
  have key : sqn (fun i => (S N).w i - ws i) + ∑ k ∈ range N,
      o.core.mu * (2 - o.core.mu * o.core.ext.lambd * B) * (o.core.ext.lambd / (1 + o.core.ext.lambd * E)) * e k ^ 2 ≤ M := by
    induction N with
    | zero => rw [h.1]; simp only [range_zero, sum_empty, add_zero]; exact le_refl _
    | succ N ih =>
      rw [sum_range_succ, llncosh_energy h ws hd N]
      have h1 := tanh_sq_le (t := e N) hl.le
      have hs := sqn_nonneg (x N)
      have h2 : o.core.mu ^ 2 * Real.tanh (o.core.ext.lambd * e N) ^ 2 * sqn (x N)
          ≤ o.core.mu ^ 2 * (o.core.ext.lambd * (Real.tanh (o.core.ext.lambd * e N) * e N)) * B := by
        have h0 : 0 ≤ o.core.mu ^ 2 * Real.tanh (o.core.ext.lambd * e N) ^ 2 := by positivity
        exact mul_le_mul (mul_le_mul_of_nonneg_left h1 (sq_nonneg _)) (hx N) hs
          (mul_nonneg (sq_nonneg _) ((sq_nonneg _).trans h1))
      have h4 : o.core.ext.lambd / (1 + o.core.ext.lambd * E) * e N ^ 2 ≤ Real.tanh (o.core.ext.lambd * e N) * e N := by
        rw [tanh_odd_mul]
        have h5 := div_one_add_le_tanh (mul_nonneg hl.le (abs_nonneg (e N)))
        have h6 : o.core.ext.lambd * |e N| / (1 + o.core.ext.lambd * E) ≤ o.core.ext.lambd * |e N| / (1 + o.core.ext.lambd * |e N|) := by
          refine div_le_div_of_nonneg_left (by positivity) (by positivity) ?_
          have := mul_le_mul_of_nonneg_left (hE N) hl.le
          linarith
        calc o.core.ext.lambd / (1 + o.core.ext.lambd * E) * e N ^ 2
            = o.core.ext.lambd * |e N| / (1 + o.core.ext.lambd * E) * |e N| := by rw [← sq_abs (e N)]; ring
          _ ≤ _ := mul_le_mul_of_nonneg_right (h6.trans h5) (abs_nonneg _)
      have h7 : 0 ≤ o.core.mu * (2 - o.core.mu * o.core.ext.lambd * B) := mul_nonneg hmu.le (by linarith)
      have h8 := mul_le_mul_of_nonneg_left h4 h7
      nlinarith
  linarith [sqn_nonneg fun i => (S N).w i - ws i]

theorem gmcc_two_energy {o : Obj (gmcc ℝ n)} (ha : o.core.ext.alpha = 2) {S : ℕ → Core ℝ n (GmccExt ℝ)} (h : Runs (gmcc ℝ n) o d x y e S)
    (ws : Vec ℝ n) (hd : ∀ k, d k = ∑ i, ws i * x k i) (k : ℕ) :
    sqn (fun i => (S (k + 1)).w i - ws i)
      = sqn (fun i => (S k).w i - ws i)
        - 2 * (2 * o.core.mu * o.core.ext.lambd * Real.exp (-o.core.ext.lambd * e k ^ 2)) * e k ^ 2
        + (2 * o.core.mu * o.core.ext.lambd * Real.exp (-o.core.ext.lambd * e k ^ 2)) ^ 2 * e k ^ 2 * sqn (x k) := by
  obtain ⟨h1, h2, hy, he, hw⟩ := gmcc_runs h k
  have := misalign_gain (w := (S k).w) (x := x k) (ws := ws)
    (g := 2 * o.core.mu * o.core.ext.lambd * Real.exp (-o.core.ext.lambd * e k ^ 2) * e k) (hd k)
    (show e k = d k - dot (S k).w (x k) by rw [he, hy])
  rw [hw, h1, h2, ha]
  refine Eq.trans ?_ (this.trans (by ring))
  congr 1
  funext i
  have hs : |e k| * Scalar.sgn (e k) = e k := by
    rw [sgn_eq, mul_comm]; exact sign_mul_abs _
  have hp : Transc.pow (Scalar.abs (e k)) (2 : ℝ) = e k ^ 2 := by
    show |e k| ^ (2 : ℝ) = _
    rw [Real.rpow_two, sq_abs]
  have hp1 : Transc.pow (Scalar.abs (e k)) ((2 : ℝ) - 1) = |e k| := by
    show |e k| ^ ((2 : ℝ) - 1) = _
    rw [show (2 : ℝ) - 1 = 1 by norm_num, Real.rpow_one]
  rw [hp, hp1]
  show (S k).w i + o.core.mu * o.core.ext.lambd * 2 * Real.exp (-o.core.ext.lambd * e k ^ 2) * |e k| * Scalar.sgn (e k) * x k i - ws i = _
  have : o.core.mu * o.core.ext.lambd * 2 * Real.exp (-o.core.ext.lambd * e k ^ 2) * |e k| * Scalar.sgn (e k) * x k i
     = o.core.mu * o.core.ext.lambd * 2 * Real.exp (-o.core.ext.lambd * e k ^ 2) * (|e k| * Scalar.sgn (e k)) * x k i := by ring
  rw [this, hs]; ring

/-- C99: GMCC with `alpha = 2`: for `mu, lambd >= 0` and `mu lambd |x(k)|^2 <= 1` the misalignment never grows. -/
theorem C99_gmcc_monotone (o : Obj (gmcc ℝ n)) (ha : o.core.ext.alpha = 2) {S : ℕ → Core ℝ n (GmccExt ℝ)} (h : Runs (gmcc ℝ n) o d x y e S)
    (ws : Vec ℝ n) (hd : ∀ k, d k = ∑ i, ws i * x k i) (hmu : 0 ≤ o.core.mu) (hl : 0 ≤ o.core.ext.lambd)
    (k : ℕ) (hx : o.core.mu * o.core.ext.lambd * ∑ i, x k i ^ 2 ≤ 1) :
    ∑ i, ((S (k + 1)).w i - ws i) ^ 2 ≤ ∑ i, ((S k).w i - ws i) ^ 2 := by
  show sqn (fun i => (S (k + 1)).w i - ws i) ≤ sqn (fun i => (S k).w i - ws i)
  rw [gmcc_two_energy ha h ws hd k]
  have hexp : Real.exp (-o.core.ext.lambd * e k ^ 2) ≤ 1 := by
    rw [Real.exp_le_one_iff]; nlinarith [sq_nonneg (e k)]
  have hp := Real.exp_pos (-o.core.ext.lambd * e k ^ 2)
  have hml := mul_nonneg hmu hl
  set E := Real.exp (-o.core.ext.lambd * e k ^ 2)
  have hg : 0 ≤ 2 * o.core.mu * o.core.ext.lambd * E := by positivity
  have h1 : 2 * o.core.mu * o.core.ext.lambd * E * sqn (x k) ≤ 2 := by
    have h2 : o.core.mu * o.core.ext.lambd * sqn (x k) * E ≤ 1 * 1 :=
      mul_le_mul hx hexp hp.le zero_le_one
    nlinarith
  have h3 := mul_nonneg (mul_nonneg hg (sq_nonneg (e k))) (sub_nonneg.mpr h1)
  nlinarith

/-- C99: GMCC with `alpha = 2`, `mu, lambd > 0`, `|x(k)|^2 <= B`, `mu lambd B < 1`: the error vanishes on noise-free data, from any initial weights. -/
theorem C99_gmcc_error_vanishes (o : Obj (gmcc ℝ n)) (ha : o.core.ext.alpha = 2) {S : ℕ → Core ℝ n (GmccExt ℝ)} (h : Runs (gmcc ℝ n) o d x y e S)
    (ws : Vec ℝ n) (hd : ∀ k, d k = ∑ i, ws i * x k i) (hmu : 0 < o.core.mu) (hl : 0 < o.core.ext.lambd) {B : ℝ}
    (hx : ∀ k, ∑ i, x k i ^ 2 ≤ B) (hB : o.core.mu * o.core.ext.lambd * B < 1) :
    Filter.Tendsto e Filter.atTop (nhds 0) := by
  have hB0 : 0 ≤ B := (sqn_nonneg (x 0)).trans (hx 0)
  have hml := mul_pos hmu hl
  have hmon : ∀ k, sqn (fun i => (S k).w i - ws i) ≤ sqn (fun i => o.core.w i - ws i) := by
    intro k
    induction k with
    | zero => rw [h.1]; exact le_refl _
    | succ k ih =>
      exact (C99_gmcc_monotone o ha h ws hd hmu.le hl.le k
        ((mul_le_mul_of_nonneg_left (hx k) hml.le).trans hB.le)).trans ih
  set M := sqn (fun i => o.core.w i - ws i) with hM
  have hM0 : 0 ≤ M := sqn_nonneg _
  have hE : ∀ k, e k ^ 2 ≤ B * M := by
    intro k
    obtain ⟨-, -, hy, he, -⟩ := gmcc_runs h k
    have h1 := err_sq_le (hd k) (show e k = d k - ∑ i, (S k).w i * x k i by rw [he, hy]; exact congrArg _ (dot_eq _ _)) (hx k)
    exact h1.trans (mul_le_mul_of_nonneg_left (hmon k) hB0)
  set q := Real.exp (-o.core.ext.lambd * (B * M)) with hq
  have hq0 : 0 < q := Real.exp_pos _
  refine tendsto_zero_of_energy (B := M)
    (c := 2 * o.core.mu * o.core.ext.lambd * q * (2 - 2 * (o.core.mu * o.core.ext.lambd * B)))
    (mul_pos (by positivity) (by linarith)) fun N => ?_
  have key : sqn (fun i => (S N).w i - ws i) + ∑ k ∈ range N,
      2 * o.core.mu * o.core.ext.lambd * q * (2 - 2 * (o.core.mu * o.core.ext.lambd * B)) * e k ^ 2 ≤ M := by
    induction N with
    | zero => rw [h.1]; simp only [range_zero, sum_empty, add_zero]; exact le_refl _
    | succ N ih =>
      rw [sum_range_succ, gmcc_two_energy ha h ws hd N]
      have hexp : Real.exp (-o.core.ext.lambd * e N ^ 2) ≤ 1 := by
        rw [Real.exp_le_one_iff]; nlinarith [sq_nonneg (e N)]
      have hqe : q ≤ Real.exp (-o.core.ext.lambd * e N ^ 2) := by
        rw [hq, Real.exp_le_exp]; nlinarith [hE N]
      set E := Real.exp (-o.core.ext.lambd * e N ^ 2)
      have hE0 : 0 < E := lt_of_lt_of_le hq0 hqe
      have h1 : 2 * o.core.mu * o.core.ext.lambd * E * sqn (x N) ≤ 2 * (o.core.mu * o.core.ext.lambd * B) := by
        have h2 : o.core.mu * o.core.ext.lambd * sqn (x N) * E ≤ (o.core.mu * o.core.ext.lambd * B) * 1 :=
          mul_le_mul (mul_le_mul_of_nonneg_left (hx N) hml.le) hexp hE0.le (by positivity)
        linarith
      have h3 : 2 * o.core.mu * o.core.ext.lambd * q * (2 - 2 * (o.core.mu * o.core.ext.lambd * B))
          ≤ 2 * o.core.mu * o.core.ext.lambd * E * (2 - 2 * o.core.mu * o.core.ext.lambd * E * sqn (x N)) := by
        refine mul_le_mul (mul_le_mul_of_nonneg_left hqe (by positivity)) (by linarith) (by linarith) (by positivity)
      have h4 := mul_le_mul_of_nonneg_right h3 (sq_nonneg (e N))
      nlinarith
  linarith [sqn_nonneg fun i => (S N).w i - ws i]

/-- C99: LMF inside its safe region (C98), strictly: the error vanishes. -/
theorem C99_lmf_error_vanishes (o : Obj (lmf ℝ n)) {S : ℕ → Core ℝ n Unit} (h : Runs (lmf ℝ n) o d x y e S)
    (ws : Vec ℝ n) (hd : ∀ k, d k = ∑ i, ws i * x k i) (hmu : 0 < o.core.mu) {B : ℝ}
    (hx : ∀ k, ∑ i, x k i ^ 2 ≤ B) (h0 : o.core.mu * B ^ 2 * ∑ i, (o.core.w i - ws i) ^ 2 < 2) :
    Filter.Tendsto e Filter.atTop (nhds 0) := by
  have hB0 : 0 ≤ B := (sqn_nonneg (x 0)).trans (hx 0)
  have hmon : ∀ k, sqn (fun i => (S k).w i - ws i) ≤ sqn (fun i => o.core.w i - ws i) := by
    intro k
    induction k with
    | zero => rw [h.1]; exact le_refl _
    | succ k ih => exact (C98_lmf_safe_region o h ws hd hmu.le hx h0.le k).1.trans ih
  set M := sqn (fun i => o.core.w i - ws i) with hM
  have h0' : o.core.mu * B ^ 2 * M < 2 := h0
  have hq : Filter.Tendsto (fun k => e k ^ 2) Filter.atTop (nhds 0) := by
    refine tendsto_zero_of_energy (B := M) (c := o.core.mu * (2 - o.core.mu * B ^ 2 * M)) (mul_pos hmu (by linarith)) fun N => ?_
    have key : sqn (fun i => (S N).w i - ws i) + ∑ k ∈ range N, o.core.mu * (2 - o.core.mu * B ^ 2 * M) * (e k ^ 2) ^ 2 ≤ M := by
      induction N with
      | zero => rw [h.1]; simp only [range_zero, sum_empty, add_zero]; exact le_refl _
      | succ N ih =>
        obtain ⟨h1, -, hy, he, hw⟩ := lmf_runs h N
        have he' : e N = d N - dot (S N).w (x N) := by rw [he, hy]
        have hs : sqn (fun i => (S (N + 1)).w i - ws i)
            = sqn (fun i => (S N).w i - ws i) - 2 * (o.core.mu * e N ^ 3) * e N + (o.core.mu * e N ^ 3) ^ 2 * sqn (x N) := by
          rw [← misalign_gain (hd N) he', hw, h1]
          exact sum_congr rfl fun i _ => by ring
        rw [sum_range_succ, hs]
        have h2 : e N ^ 2 ≤ B * M :=
          (err_sq_le (hd N) (he'.trans (congrArg _ (dot_eq _ _))) (hx N)).trans (mul_le_mul_of_nonneg_left (hmon N) hB0)
        have h3 : o.core.mu * e N ^ 2 * sqn (x N) ≤ o.core.mu * B ^ 2 * M := by
          calc o.core.mu * e N ^ 2 * sqn (x N) ≤ o.core.mu * (B * M) * B :=
                mul_le_mul (mul_le_mul_of_nonneg_left h2 hmu.le) (hx N) (sqn_nonneg _)
                  (mul_nonneg hmu.le (mul_nonneg hB0 (sqn_nonneg _)))
            _ = _ := by ring
        have h4 : 0 ≤ o.core.mu * (e N ^ 2) ^ 2 * (o.core.mu * B ^ 2 * M - o.core.mu * e N ^ 2 * sqn (x N)) :=
          mul_nonneg (mul_nonneg hmu.le (sq_nonneg _)) (by linarith)
        nlinarith
    linarith [sqn_nonneg fun i => (S N).w i - ws i]
  have h3 := hq.sqrt
  rw [Real.sqrt_zero] at h3
  simp only [Real.sqrt_sq_eq_abs] at h3
  exact (tendsto_zero_iff_abs_tendsto_zero e).mpr h3

/-! ### the hypotheses are met -/

example : ∃ (o : Obj (llncosh ℝ 2)) (ws : Vec ℝ 2) (y e : ℕ → ℝ) (S : ℕ → Core ℝ 2 (LlncoshExt ℝ)),
    Runs (llncosh ℝ 2) o (fun k => ∑ i, ws i * turns k i) turns y e S ∧ o.core.w ≠ ws ∧
    0 < o.core.mu ∧ 0 < o.core.ext.lambd ∧ (∀ k, ∑ i, turns k i ^ 2 ≤ (1 : ℝ)) ∧ o.core.mu * o.core.ext.lambd * 1 < 2 := by
  refine ⟨⟨⟨fun _ => 0, 2, 1, ⟨1⟩⟩, []⟩, fun _ => 1, _, _, _, runs_of_safe llncosh_safe _ trivial _ _, ?_, by norm_num, by norm_num,
    turns_sqn, by norm_num⟩
  intro h; exact one_ne_zero (congrFun h 0).symm

example : ∃ (o : Obj (gmcc ℝ 2)) (ws : Vec ℝ 2) (y e : ℕ → ℝ) (S : ℕ → Core ℝ 2 (GmccExt ℝ)),
    Runs (gmcc ℝ 2) o (fun k => ∑ i, ws i * turns k i) turns y e S ∧ o.core.w ≠ ws ∧ o.core.ext.alpha = 2 ∧
    0 < o.core.mu ∧ 0 < o.core.ext.lambd ∧ (∀ k, ∑ i, turns k i ^ 2 ≤ (1 : ℝ)) ∧ o.core.mu * o.core.ext.lambd * 1 < 1 := by
  refine ⟨⟨⟨fun _ => 0, 2, 1 / 2, ⟨1, 2⟩⟩, []⟩, fun _ => 1, _, _, _, runs_of_safe gmcc_safe _ trivial _ _, ?_, rfl, by norm_num, by norm_num,
    turns_sqn, by norm_num⟩
  intro h; exact one_ne_zero (congrFun h 0).symm

example : ∃ (o : Obj (lmf ℝ 2)) (ws : Vec ℝ 2) (y e : ℕ → ℝ) (S : ℕ → Core ℝ 2 Unit),
    Runs (lmf ℝ 2) o (fun k => ∑ i, ws i * turns k i) turns y e S ∧ o.core.w ≠ ws ∧
    0 < o.core.mu ∧ (∀ k, ∑ i, turns k i ^ 2 ≤ (1 : ℝ)) ∧ o.core.mu * 1 ^ 2 * ∑ i, (o.core.w i - ws i) ^ 2 < 2 := by
  refine ⟨⟨⟨fun _ => 0, 2, 1 / 2, ()⟩, []⟩, fun _ => 1, _, _, _, runs_of_safe lmf_safe _ trivial _ _, ?_, by norm_num,
    turns_sqn, by norm_num⟩
  intro h; exact one_ne_zero (congrFun h 0).symm

end real

/-- a run of GNGD whose first error is not zero and whose first `eps` is positive -/
example : ∃ (o : Obj (gngd ℝ 2)) (ws : Vec ℝ 2) (y e : ℕ → ℝ) (S : ℕ → Core ℝ 2 (GngdExt ℝ 2)),
    Runs (gngd ℝ 2) o (fun k => ∑ i, ws i * turns k i) turns y e S ∧ e 0 ≠ 0 ∧ 0 ≤ o.core.mu ∧ o.core.mu ≤ 2 ∧ 0 < (S 1).ext.eps := by
  have hr := runs_of_safe (gngd_safe (K := ℝ) (n := 2)) ⟨⟨fun _ => 0, 2, 1, (⟨1, 1 / 10, 0, fun _ => 0⟩ : GngdExt ℝ 2)⟩, []⟩ trivial
    (fun k => ∑ i, (fun _ => 1 : Vec ℝ 2) i * turns k i) turns
  obtain ⟨h0, h1, h2⟩ := C15_gngd _ hr
  obtain ⟨hy, he, hp, _⟩ := h2 0
  refine ⟨_, fun _ => 1, _, _, _, hr, ?_, zero_le_one, one_le_two, ?_⟩
  · rw [he, hy, h0]
    norm_num [Fin.sum_univ_two, turns]
  · rw [hp, h1]
    norm_num [prev]

end Padasip
