import Verif.Lemmas.Steps
import Verif.Lemmas.Field
import Verif.Spec.Example
import Mathlib.Data.Sign.Basic
import Mathlib.Algebra.BigOperators.Intervals

/-!
# C13-C17: the documented recursions

`Runs C o d x y e S` (`Spec/Runs.lean`) says that `run` on the first `N` samples of the streams `d`, `x` returns the outputs `y`, the errors `e` and the
weights `(S k).w`, for every `N`.  The theorems say which equations these satisfy, at every sample `k`, in exact arithmetic.
(Where a denominator is 0 both sides divide by 0; numpy gives `inf`/`nan` there.)
-/

set_option linter.unusedSectionVars false

namespace Padasip

open Finset

section field
variable {K : Type} [Field K] [LinearOrder K] [IsStrictOrderedRing K] {n : ℕ}
variable {d : ℕ → K} {x : ℕ → Vec K n} {y e : ℕ → K}

theorem sgn_eq (a : K) : Scalar.sgn a = ((SignType.sign a : SignType) : K) := by
  show (if 0 < a then (1 : K) else if a < 0 then -1 else 0) = _
  rcases lt_trichotomy a 0 with h | h | h
  · simp [sign_neg h, h, not_lt.mpr h.le]
  · simp [h]
  · simp [sign_pos h, h]

/-! ## C13 -/

/-- C13, LMS: `w(k+1) = w(k) + mu e(k) x(k)`. -/
theorem C13_lms (o : Obj (lms K n)) {S : ℕ → Core K n Unit} (h : Runs (lms K n) o d x y e S) :
    (S 0).w = o.core.w ∧ ∀ k, y k = ∑ i, (S k).w i * x k i ∧ e k = d k - y k ∧
      ∀ i, (S (k + 1)).w i = (S k).w i + o.core.mu * e k * x k i := by
  refine ⟨by rw [h.1]; rfl, fun k => ?_⟩
  obtain ⟨h1, -, hy, he, hw⟩ := lms_runs h k
  refine ⟨by rw [hy, dot_eq], he, fun i => ?_⟩
  rw [hw, h1]; ring

/-- C13, LMF: `w(k+1) = w(k) + mu e(k)^3 x(k)`. -/
theorem C13_lmf (o : Obj (lmf K n)) {S : ℕ → Core K n Unit} (h : Runs (lmf K n) o d x y e S) :
    (S 0).w = o.core.w ∧ ∀ k, y k = ∑ i, (S k).w i * x k i ∧ e k = d k - y k ∧
      ∀ i, (S (k + 1)).w i = (S k).w i + o.core.mu * e k ^ 3 * x k i := by
  refine ⟨by rw [h.1]; rfl, fun k => ?_⟩
  obtain ⟨h1, -, hy, he, hw⟩ := lmf_runs h k
  refine ⟨by rw [hy, dot_eq], he, fun i => ?_⟩
  rw [hw, h1]; ring

/-- C13, SSLMS: `w(k+1) = w(k) + mu sgn(e(k)) sgn(x(k))`. -/
theorem C13_sslms (o : Obj (sslms K n)) {S : ℕ → Core K n Unit}
    (h : Runs (sslms K n) o d x y e S) :
    (S 0).w = o.core.w ∧ ∀ k, y k = ∑ i, (S k).w i * x k i ∧ e k = d k - y k ∧
      ∀ i, (S (k + 1)).w i
        = (S k).w i + o.core.mu * (SignType.sign (e k) : K) * (SignType.sign (x k i) : K) := by
  refine ⟨by rw [h.1]; rfl, fun k => ?_⟩
  obtain ⟨h1, -, hy, he, hw⟩ := sslms_runs h k
  refine ⟨by rw [hy, dot_eq], he, fun i => ?_⟩
  rw [hw, h1, ← sgn_eq, ← sgn_eq]; ring

/-- every LMS/LMF/SSLMS object has such streams, for all data -/
example (o : Obj (lms ℝ 3)) (d : ℕ → ℝ) (x : ℕ → Vec ℝ 3) : ∃ y e S, Runs (lms ℝ 3) o d x y e S :=
  ⟨_, _, _, runs_of_safe lms_safe o trivial d x⟩

/-! ## C14 -/

/-- C14, NLMS: `w(k+1) = w(k) + mu / (eps + |x(k)|^2) e(k) x(k)`. -/
theorem C14_nlms (o : Obj (nlms K n)) {S : ℕ → Core K n (EpsExt K)}
    (h : Runs (nlms K n) o d x y e S) :
    (S 0).w = o.core.w ∧ ∀ k, y k = ∑ i, (S k).w i * x k i ∧ e k = d k - y k ∧
      ∀ i, (S (k + 1)).w i
        = (S k).w i + o.core.mu / (o.core.ext.eps + ∑ j, x k j ^ 2) * e k * x k i := by
  refine ⟨by rw [h.1]; rfl, fun k => ?_⟩
  obtain ⟨h1, h2, hy, he, hw⟩ := nlms_runs h k
  refine ⟨by rw [hy, dot_eq], he, fun i => ?_⟩
  rw [hw, h1, h2, dot_eq]; simp only [pow_two]; ring

/-- C14, NLMF: `w(k+1) = w(k) + mu / (eps + |x(k)|^2) e(k)^3 x(k)`. -/
theorem C14_nlmf (o : Obj (nlmf K n)) {S : ℕ → Core K n (EpsExt K)}
    (h : Runs (nlmf K n) o d x y e S) :
    (S 0).w = o.core.w ∧ ∀ k, y k = ∑ i, (S k).w i * x k i ∧ e k = d k - y k ∧
      ∀ i, (S (k + 1)).w i
        = (S k).w i + o.core.mu / (o.core.ext.eps + ∑ j, x k j ^ 2) * e k ^ 3 * x k i := by
  refine ⟨by rw [h.1]; rfl, fun k => ?_⟩
  obtain ⟨h1, h2, hy, he, hw⟩ := nlmf_runs h k
  refine ⟨by rw [hy, dot_eq], he, fun i => ?_⟩
  rw [hw, h1, h2, dot_eq]; simp only [pow_two]; ring

/-- C14, NSSLMS: `w(k+1) = w(k) + mu / (eps + |x(k)|^2) sgn(e(k)) sgn(x(k))`. -/
theorem C14_nsslms (o : Obj (nsslms K n)) {S : ℕ → Core K n (EpsExt K)}
    (h : Runs (nsslms K n) o d x y e S) :
    (S 0).w = o.core.w ∧ ∀ k, y k = ∑ i, (S k).w i * x k i ∧ e k = d k - y k ∧
      ∀ i, (S (k + 1)).w i
        = (S k).w i + o.core.mu / (o.core.ext.eps + ∑ j, x k j ^ 2)
            * (SignType.sign (e k) : K) * (SignType.sign (x k i) : K) := by
  refine ⟨by rw [h.1]; rfl, fun k => ?_⟩
  obtain ⟨h1, h2, hy, he, hw⟩ := nsslms_runs h k
  refine ⟨by rw [hy, dot_eq], he, fun i => ?_⟩
  rw [hw, h1, h2, dot_eq, ← sgn_eq, ← sgn_eq]; simp only [pow_two]; ring

example (o : Obj (nlms ℝ 3)) (d : ℕ → ℝ) (x : ℕ → Vec ℝ 3) : ∃ y e S, Runs (nlms ℝ 3) o d x y e S :=
  ⟨_, _, _, runs_of_safe nlms_safe o trivial d x⟩

/-! ## C15 -/

/-- C15, GNGD: the recursion of the weights and of the compensation term `eps`; `prev a f k` is `f (k-1)`, and the attribute
`a` of the object for `k = 0` (zero for a fresh filter, see `C15_fresh`). -/
theorem C15_gngd (o : Obj (gngd K n)) {S : ℕ → Core K n (GngdExt K n)}
    (h : Runs (gngd K n) o d x y e S) :
    (S 0).w = o.core.w ∧ (S 0).ext.eps = o.core.ext.eps ∧
    ∀ k, y k = ∑ i, (S k).w i * x k i ∧ e k = d k - y k ∧
      (S (k + 1)).ext.eps = (S k).ext.eps
        - o.core.ext.ro * o.core.mu * e k * prev o.core.ext.lastE e k
            * (∑ i, x k i * prev o.core.ext.lastX x k i)
          / ((∑ i, prev o.core.ext.lastX x k i ^ 2) + (S k).ext.eps) ^ 2 ∧
      ∀ i, (S (k + 1)).w i
        = (S k).w i + o.core.mu / ((S (k + 1)).ext.eps + ∑ j, x k j ^ 2) * e k * x k i := by
  have hp : ∀ k, (S k).ext.lastE = prev o.core.ext.lastE e k ∧
      (S k).ext.lastX = prev o.core.ext.lastX x k := by
    intro k
    cases k with
    | zero => rw [h.1]; exact ⟨rfl, rfl⟩
    | succ k =>
      obtain ⟨-, -, -, -, -, -, h7, h8⟩ := gngd_runs h k
      exact ⟨h7, h8⟩
  refine ⟨by rw [h.1]; rfl, by rw [h.1]; rfl, fun k => ?_⟩
  obtain ⟨h1, h2, hy, he, hw, heps, -, -⟩ := gngd_runs h k
  refine ⟨by rw [hy, dot_eq], he, ?_, fun i => ?_⟩
  · rw [heps, gngdEps, dot_eq, dot_eq, (hp k).1, (hp k).2, h1, h2]
    simp only [pow_two]
  · rw [hw, heps, h1, dot_eq]; simp only [pow_two]

/-- a fresh filter starts with `e(-1) = 0`, `x(-1) = 0` -/
theorem C15_fresh (env : Env ℝ) (w : Vec ℝ n) (mu eps ro : ℝ) :
    construct env .gngd { n := some n, mu := some mu, w := some (.arr (List.ofFn w)), eps := some eps, ro := some ro }
      = .ok ⟨n, .gngd, ⟨⟨w, n, mu, (⟨eps, ro, 0, fun _ => 0⟩ : GngdExt ℝ n)⟩, []⟩⟩ := by
  simp [construct, badKeyword, initWeights, initExt, Except.bind]
  rfl

example (o : Obj (gngd ℝ 3)) (d : ℕ → ℝ) (x : ℕ → Vec ℝ 3) : ∃ y e S, Runs (gngd ℝ 3) o d x y e S :=
  ⟨_, _, _, runs_of_safe gngd_safe o trivial d x⟩

/-! ## C16 -/

/-- C16, VSLMS_Mathews; `(S k).ext.lastMu` is the step size after `k` samples. -/
theorem C16_mathews (o : Obj (mathews K n)) {S : ℕ → Core K n (MathewsExt K n)}
    (h : Runs (mathews K n) o d x y e S) :
    (S 0).w = o.core.w ∧ (S 0).ext.lastMu = o.core.ext.lastMu ∧
    ∀ k, y k = ∑ i, (S k).w i * x k i ∧ e k = d k - y k ∧
      (S (k + 1)).ext.lastMu = (S k).ext.lastMu
        + o.core.ext.ro * e k * prev o.core.ext.lastE e k * ∑ i, prev o.core.ext.lastX x k i * x k i ∧
      ∀ i, (S (k + 1)).w i = (S k).w i + (S (k + 1)).ext.lastMu * e k * x k i := by
  have hp : ∀ k, (S k).ext.lastE = prev o.core.ext.lastE e k ∧
      (S k).ext.lastX = prev o.core.ext.lastX x k := by
    intro k
    cases k with
    | zero => rw [h.1]; exact ⟨rfl, rfl⟩
    | succ k =>
      obtain ⟨-, -, -, -, -, -, h7, h8⟩ := mathews_runs h k
      exact ⟨h7, h8⟩
  refine ⟨by rw [h.1]; rfl, by rw [h.1]; rfl, fun k => ?_⟩
  obtain ⟨h1, h2, hy, he, hw, hmu, -, -⟩ := mathews_runs h k
  refine ⟨by rw [hy, dot_eq], he, ?_, fun i => ?_⟩
  · rw [hmu, mathewsMu, dot_eq, (hp k).1, (hp k).2, h2]
  · rw [hw, hmu]

/-- C16, VSLMS_Mathews: the step size after `N` samples is the initial one plus `ro` times the accumulated correlation. -/
theorem C16_mathews_sum (o : Obj (mathews K n)) {S : ℕ → Core K n (MathewsExt K n)}
    (h : Runs (mathews K n) o d x y e S) (N : ℕ) :
    (S N).ext.lastMu = o.core.ext.lastMu + o.core.ext.ro *
      ∑ k ∈ range N, e k * prev o.core.ext.lastE e k * ∑ i, prev o.core.ext.lastX x k i * x k i := by
  obtain ⟨-, h0, hk⟩ := C16_mathews o h
  induction N with
  | zero => simp [h0]
  | succ N ih => rw [(hk N).2.2.1, ih, sum_range_succ]; ring

/-- C16, VSLMS_Ang; `(S k).ext.lastFi` is the gradient filter state `phi` after `k` samples. -/
theorem C16_ang (o : Obj (ang K n)) {S : ℕ → Core K n (AngExt K n)}
    (h : Runs (ang K n) o d x y e S) :
    (S 0).w = o.core.w ∧ (S 0).ext.lastMu = o.core.ext.lastMu ∧ (S 0).ext.lastFi = o.core.ext.lastFi ∧
    ∀ k, y k = ∑ i, (S k).w i * x k i ∧ e k = d k - y k ∧
      (∀ i, (S (k + 1)).ext.lastFi i = o.core.ext.a * (S k).ext.lastFi i
        + prev o.core.ext.lastE e k * prev o.core.ext.lastX x k i) ∧
      (S (k + 1)).ext.lastMu = (S k).ext.lastMu
        + o.core.ext.ro * e k * ∑ i, prev o.core.ext.lastX x k i * (S (k + 1)).ext.lastFi i ∧
      ∀ i, (S (k + 1)).w i = (S k).w i + (S (k + 1)).ext.lastMu * e k * x k i := by
  have hp : ∀ k, (S k).ext.lastE = prev o.core.ext.lastE e k ∧
      (S k).ext.lastX = prev o.core.ext.lastX x k := by
    intro k
    cases k with
    | zero => rw [h.1]; exact ⟨rfl, rfl⟩
    | succ k =>
      obtain ⟨-, -, -, -, -, -, -, h7, h8, -⟩ := ang_runs h k
      exact ⟨h7, h8⟩
  refine ⟨by rw [h.1]; rfl, by rw [h.1]; rfl, by rw [h.1]; rfl, fun k => ?_⟩
  obtain ⟨h1, h2, h3, hy, he, hw, hmu, -, -, hfi⟩ := ang_runs h k
  refine ⟨by rw [hy, dot_eq], he, fun i => ?_, ?_, fun i => ?_⟩
  · rw [hfi, angFi, (hp k).1, (hp k).2, h3]
  · rw [hmu, angMu, dot_eq, (hp k).2, h2, hfi]
  · rw [hw, hmu]

/-- C16, VSLMS_Benveniste: `phi(k) = (I - mu(k-1) x(k-1) x(k-1)^T) phi(k-1) + e(k-1) x(k-1)`. -/
theorem C16_benveniste (o : Obj (benveniste K n)) {S : ℕ → Core K n (BenExt K n)}
    (h : Runs (benveniste K n) o d x y e S) :
    (S 0).w = o.core.w ∧ (S 0).ext.lastMu = o.core.ext.lastMu ∧ (S 0).ext.lastFi = o.core.ext.lastFi ∧
    ∀ k, y k = ∑ i, (S k).w i * x k i ∧ e k = d k - y k ∧
      (∀ i, (S (k + 1)).ext.lastFi i = (S k).ext.lastFi i
        - (S k).ext.lastMu * prev o.core.ext.lastX x k i
            * (∑ j, prev o.core.ext.lastX x k j * (S k).ext.lastFi j)
        + prev o.core.ext.lastE e k * prev o.core.ext.lastX x k i) ∧
      (S (k + 1)).ext.lastMu = (S k).ext.lastMu
        + o.core.ext.ro * e k * ∑ i, prev o.core.ext.lastX x k i * (S (k + 1)).ext.lastFi i ∧
      ∀ i, (S (k + 1)).w i = (S k).w i + (S (k + 1)).ext.lastMu * e k * x k i := by
  have hp : ∀ k, (S k).ext.lastE = prev o.core.ext.lastE e k ∧
      (S k).ext.lastX = prev o.core.ext.lastX x k := by
    intro k
    cases k with
    | zero => rw [h.1]; exact ⟨rfl, rfl⟩
    | succ k =>
      obtain ⟨-, -, -, -, -, -, h7, h8, -⟩ := benveniste_runs h k
      exact ⟨h7, h8⟩
  refine ⟨by rw [h.1]; rfl, by rw [h.1]; rfl, by rw [h.1]; rfl, fun k => ?_⟩
  obtain ⟨h1, h2, hy, he, hw, hmu, -, -, hfi⟩ := benveniste_runs h k
  refine ⟨by rw [hy, dot_eq], he, fun i => ?_, ?_, fun i => ?_⟩
  · rw [hfi, benFi, matVec_eq, (hp k).1, (hp k).2]
    congr 1
    have : ∀ j, (eye n i j - (S k).ext.lastMu *
        outer (prev o.core.ext.lastX x k) (prev o.core.ext.lastX x k) i j) * (S k).ext.lastFi j
        = eye n i j * (S k).ext.lastFi j - (S k).ext.lastMu * prev o.core.ext.lastX x k i *
          (prev o.core.ext.lastX x k j * (S k).ext.lastFi j) := by
      intro j; simp only [outer]; ring
    rw [sum_congr rfl fun j _ => this j, sum_sub_distrib, ← mul_sum]
    congr 1
    simp [eye]
  · rw [hmu, benMu, dot_eq, (hp k).2, h2, hfi]
  · rw [hw, hmu]

/-- C16, VSLMS_Ang: the step size after `N` samples is the initial one plus `ro` times the accumulated sum. -/
theorem C16_ang_sum (o : Obj (ang K n)) {S : ℕ → Core K n (AngExt K n)}
    (h : Runs (ang K n) o d x y e S) (N : ℕ) :
    (S N).ext.lastMu = o.core.ext.lastMu + o.core.ext.ro *
      ∑ k ∈ range N, e k * ∑ i, prev o.core.ext.lastX x k i * (S (k + 1)).ext.lastFi i := by
  obtain ⟨-, h0, -, hk⟩ := C16_ang o h
  induction N with
  | zero => simp [h0]
  | succ N ih => rw [(hk N).2.2.2.1, ih, sum_range_succ]; ring

/-- C16, VSLMS_Benveniste: the same. -/
theorem C16_benveniste_sum (o : Obj (benveniste K n)) {S : ℕ → Core K n (BenExt K n)}
    (h : Runs (benveniste K n) o d x y e S) (N : ℕ) :
    (S N).ext.lastMu = o.core.ext.lastMu + o.core.ext.ro *
      ∑ k ∈ range N, e k * ∑ i, prev o.core.ext.lastX x k i * (S (k + 1)).ext.lastFi i := by
  obtain ⟨-, h0, -, hk⟩ := C16_benveniste o h
  induction N with
  | zero => simp [h0]
  | succ N ih => rw [(hk N).2.2.2.1, ih, sum_range_succ]; ring

example (o : Obj (mathews ℝ 3)) (d : ℕ → ℝ) (x : ℕ → Vec ℝ 3) :
    ∃ y e S, Runs (mathews ℝ 3) o d x y e S := ⟨_, _, _, runs_of_safe mathews_safe o trivial d x⟩
example (o : Obj (ang ℝ 3)) (d : ℕ → ℝ) (x : ℕ → Vec ℝ 3) :
    ∃ y e S, Runs (ang ℝ 3) o d x y e S := ⟨_, _, _, runs_of_safe ang_safe o trivial d x⟩
example (o : Obj (benveniste ℝ 3)) (d : ℕ → ℝ) (x : ℕ → Vec ℝ 3) :
    ∃ y e S, Runs (benveniste ℝ 3) o d x y e S :=
  ⟨_, _, _, runs_of_safe benveniste_safe o trivial d x⟩

/-- C16: a fresh VSLMS filter starts with `phi = 0`, `e(-1) = 0`, `x(-1) = 0` and step size `mu`. -/
theorem C16_fresh (env : Env ℝ) (w : Vec ℝ n) (mu ro a : ℝ) :
    construct env .vslmsMathews { n := some n, mu := some mu, w := some (.arr (List.ofFn w)), ro := some ro }
      = .ok ⟨n, .mathews, ⟨⟨w, n, mu, (⟨ro, 0, fun _ => 0, mu⟩ : MathewsExt ℝ n)⟩, []⟩⟩ ∧
    construct env .vslmsAng { n := some n, mu := some mu, w := some (.arr (List.ofFn w)), ro := some ro, a := some a }
      = .ok ⟨n, .ang, ⟨⟨w, n, mu, (⟨ro, a, 0, fun _ => 0, fun _ => 0, mu⟩ : AngExt ℝ n)⟩, []⟩⟩ ∧
    construct env .vslmsBenveniste { n := some n, mu := some mu, w := some (.arr (List.ofFn w)), ro := some ro }
      = .ok ⟨n, .benveniste, ⟨⟨w, n, mu, (⟨ro, 0, fun _ => 0, fun _ => 0, mu⟩ : BenExt ℝ n)⟩, []⟩⟩ := by
  refine ⟨?_, ?_, ?_⟩ <;>
  simp [construct, badKeyword, initWeights, initExt, Except.bind] <;> rfl

end field

/-! ## C17 -/

section real
variable {n : ℕ} {d : ℕ → ℝ} {x : ℕ → Vec ℝ n} {y e : ℕ → ℝ}

/-- C17, GMCC. -/
theorem C17_gmcc (o : Obj (gmcc ℝ n)) {S : ℕ → Core ℝ n (GmccExt ℝ)}
    (h : Runs (gmcc ℝ n) o d x y e S) :
    (S 0).w = o.core.w ∧ ∀ k, y k = ∑ i, (S k).w i * x k i ∧ e k = d k - y k ∧
      ∀ i, (S (k + 1)).w i = (S k).w i
        + o.core.mu * (o.core.ext.lambd * o.core.ext.alpha
          * Real.exp (-(o.core.ext.lambd * |e k| ^ o.core.ext.alpha))
          * |e k| ^ (o.core.ext.alpha - 1) * (SignType.sign (e k) : ℝ)) * x k i := by
  refine ⟨by rw [h.1]; rfl, fun k => ?_⟩
  obtain ⟨h1, h2, hy, he, hw⟩ := gmcc_runs h k
  refine ⟨by rw [hy]; exact dot_eq _ _, he, fun i => ?_⟩
  rw [hw, h1, h2, ← sgn_eq, ← neg_mul]
  simp only [Transc.exp, Transc.pow, Scalar.abs]
  ring

/-- C17, Llncosh. -/
theorem C17_llncosh (o : Obj (llncosh ℝ n)) {S : ℕ → Core ℝ n (LlncoshExt ℝ)}
    (h : Runs (llncosh ℝ n) o d x y e S) :
    (S 0).w = o.core.w ∧ ∀ k, y k = ∑ i, (S k).w i * x k i ∧ e k = d k - y k ∧
      ∀ i, (S (k + 1)).w i = (S k).w i
        + o.core.mu * Real.tanh (o.core.ext.lambd * e k) * x k i := by
  refine ⟨by rw [h.1]; rfl, fun k => ?_⟩
  obtain ⟨h1, h2, hy, he, hw⟩ := llncosh_runs h k
  refine ⟨by rw [hy]; exact dot_eq _ _, he, fun i => ?_⟩
  rw [hw, h1, h2]
  simp only [Transc.tanh]

example (o : Obj (gmcc ℝ 3)) (d : ℕ → ℝ) (x : ℕ → Vec ℝ 3) :
    ∃ y e S, Runs (gmcc ℝ 3) o d x y e S := ⟨_, _, _, runs_of_safe gmcc_safe o trivial d x⟩
example (o : Obj (llncosh ℝ 3)) (d : ℕ → ℝ) (x : ℕ → Vec ℝ 3) :
    ∃ y e S, Runs (llncosh ℝ 3) o d x y e S := ⟨_, _, _, runs_of_safe llncosh_safe o trivial d x⟩

end real

end Padasip
