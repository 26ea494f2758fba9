import Verif.Props.Consistency
import Verif.Props.Ap
import Verif.Props.Rls
import Mathlib.LinearAlgebra.Dual.Lemmas

/-!
# C95: the weights move only within the span of the inputs seen so far

Every filter but SSLMS and NSSLMS adds to its weights multiples of input vectors, so a direction that no input excites is never learned
and never disturbed: the component of the weights orthogonal to all inputs keeps its initial value.
-/

set_option linter.unusedSectionVars false
set_option linter.unusedVariables false
set_option linter.unusedSimpArgs false

namespace Padasip

open Finset

section field
variable {K : Type} [Field K] [LinearOrder K] [IsStrictOrderedRing K] {n : ℕ}
variable {d : ℕ → K} {x : ℕ → Vec K n} {y e : ℕ → K}

theorem span_of_steps {K : Type} [Field K] {n : ℕ} {w x : ℕ → Vec K n} (h : ∀ k, ∃ a : K, ∀ i, w (k + 1) i = w k i + a * x k i) :
    ∃ c : ℕ → K, ∀ k i, w k i = w 0 i + ∑ m ∈ range k, c m * x m i := by
  choose c hc using h
  refine ⟨c, fun k i => ?_⟩
  induction k with
  | zero => simp
  | succ k ih => rw [hc, ih, sum_range_succ]; ring

/-- a vector orthogonal to the inputs is orthogonal to what was added -/
theorem orth_of_span {K : Type} [Field K] {n : ℕ} {w0 w : Vec K n} {x : ℕ → Vec K n} {c : ℕ → K} {k : ℕ}
    (h : ∀ i, w i = w0 i + ∑ m ∈ range k, c m * x m i) (u : Vec K n) (hu : ∀ m < k, ∑ i, u i * x m i = 0) :
    ∑ i, u i * w i = ∑ i, u i * w0 i := by
  have h1 : ∑ i, u i * w i = (∑ i, u i * w0 i) + ∑ m ∈ range k, c m * ∑ i, u i * x m i := by
    simp only [h, mul_add, sum_add_distrib, mul_sum]
    rw [sum_comm]
    congr 1
    exact sum_congr rfl fun m _ => sum_congr rfl fun i _ => by ring
  rw [h1, sum_eq_zero (s := range k), add_zero]
  intro m hm
  rw [hu m (mem_range.mp hm), mul_zero]

/-- C95 for LMS: before sample `k` the weights are the initial ones plus a combination of the first `k` inputs (whose coefficients
do not depend on `k`). -/
theorem C95_lms_span (o : Obj (lms K n)) {S : ℕ → Core K n (Unit)} (h : Runs (lms K n) o d x y e S) :
    ∃ c : ℕ → K, ∀ k i, (S k).w i = o.core.w i + ∑ m ∈ range k, c m * x m i := by
  have h0 : (S 0).w = o.core.w := by rw [h.1]; rfl
  have := span_of_steps (w := fun k => (S k).w) (x := x) fun k => by
    obtain ⟨h1, -, -, -, hw⟩ := lms_runs h k
    exact ⟨(S k).mu * e k, fun i => by rw [hw]; ring⟩
  rwa [h0] at this

/-- C95 for LMS: a direction orthogonal to every input so far was not touched. -/
theorem C95_lms_orthogonal (o : Obj (lms K n)) {S : ℕ → Core K n (Unit)} (h : Runs (lms K n) o d x y e S)
    (k : ℕ) (u : Vec K n) (hu : ∀ m < k, ∑ i, u i * x m i = 0) :
    ∑ i, u i * (S k).w i = ∑ i, u i * o.core.w i := by
  obtain ⟨c, hc⟩ := C95_lms_span o h
  exact orth_of_span (hc k) u hu

example : ∃ (o : Obj (lms ℚ 2)) (d : ℕ → ℚ) (x : ℕ → Vec ℚ 2) (u : Vec ℚ 2) (y e : ℕ → ℚ) (S : ℕ → Core ℚ 2 (lms ℚ 2).Ext),
    Runs (lms ℚ 2) o d x y e S ∧ u ≠ 0 ∧ ∀ m, ∑ i, u i * x m i = 0 :=
  ⟨⟨⟨fun _ => 0, 2, 1, ()⟩, []⟩, fun _ => 1, fun _ i => if i = 0 then 2 else 1, fun i => if i = 0 then 1 else -2, _, _, _,
    runs_of_safe lms_safe _ trivial _ _, fun h => by have := congrFun h 0; simp at this, fun m => by simp [Fin.sum_univ_two]⟩

/-- C95 for LMF: before sample `k` the weights are the initial ones plus a combination of the first `k` inputs (whose coefficients
do not depend on `k`). -/
theorem C95_lmf_span (o : Obj (lmf K n)) {S : ℕ → Core K n (Unit)} (h : Runs (lmf K n) o d x y e S) :
    ∃ c : ℕ → K, ∀ k i, (S k).w i = o.core.w i + ∑ m ∈ range k, c m * x m i := by
  have h0 : (S 0).w = o.core.w := by rw [h.1]; rfl
  have := span_of_steps (w := fun k => (S k).w) (x := x) fun k => by
    obtain ⟨h1, -, -, -, hw⟩ := lmf_runs h k
    exact ⟨(S k).mu * (e k * e k * e k), fun i => by rw [hw]; ring⟩
  rwa [h0] at this

/-- C95 for LMF: a direction orthogonal to every input so far was not touched. -/
theorem C95_lmf_orthogonal (o : Obj (lmf K n)) {S : ℕ → Core K n (Unit)} (h : Runs (lmf K n) o d x y e S)
    (k : ℕ) (u : Vec K n) (hu : ∀ m < k, ∑ i, u i * x m i = 0) :
    ∑ i, u i * (S k).w i = ∑ i, u i * o.core.w i := by
  obtain ⟨c, hc⟩ := C95_lmf_span o h
  exact orth_of_span (hc k) u hu

example : ∃ (o : Obj (lmf ℚ 2)) (d : ℕ → ℚ) (x : ℕ → Vec ℚ 2) (u : Vec ℚ 2) (y e : ℕ → ℚ) (S : ℕ → Core ℚ 2 (lmf ℚ 2).Ext),
    Runs (lmf ℚ 2) o d x y e S ∧ u ≠ 0 ∧ ∀ m, ∑ i, u i * x m i = 0 :=
  ⟨⟨⟨fun _ => 0, 2, 1, ()⟩, []⟩, fun _ => 1, fun _ i => if i = 0 then 2 else 1, fun i => if i = 0 then 1 else -2, _, _, _,
    runs_of_safe lmf_safe _ trivial _ _, fun h => by have := congrFun h 0; simp at this, fun m => by simp [Fin.sum_univ_two]⟩

/-- C95 for NLMS: before sample `k` the weights are the initial ones plus a combination of the first `k` inputs (whose coefficients
do not depend on `k`). -/
theorem C95_nlms_span (o : Obj (nlms K n)) {S : ℕ → Core K n (EpsExt K)} (h : Runs (nlms K n) o d x y e S) :
    ∃ c : ℕ → K, ∀ k i, (S k).w i = o.core.w i + ∑ m ∈ range k, c m * x m i := by
  have h0 : (S 0).w = o.core.w := by rw [h.1]; rfl
  have := span_of_steps (w := fun k => (S k).w) (x := x) fun k => by
    obtain ⟨h1, -, -, -, hw⟩ := nlms_runs h k
    exact ⟨(S k).mu / ((S k).ext.eps + dot (x k) (x k)) * e k, fun i => by rw [hw]; ring⟩
  rwa [h0] at this

/-- C95 for NLMS: a direction orthogonal to every input so far was not touched. -/
theorem C95_nlms_orthogonal (o : Obj (nlms K n)) {S : ℕ → Core K n (EpsExt K)} (h : Runs (nlms K n) o d x y e S)
    (k : ℕ) (u : Vec K n) (hu : ∀ m < k, ∑ i, u i * x m i = 0) :
    ∑ i, u i * (S k).w i = ∑ i, u i * o.core.w i := by
  obtain ⟨c, hc⟩ := C95_nlms_span o h
  exact orth_of_span (hc k) u hu

example : ∃ (o : Obj (nlms ℚ 2)) (d : ℕ → ℚ) (x : ℕ → Vec ℚ 2) (u : Vec ℚ 2) (y e : ℕ → ℚ) (S : ℕ → Core ℚ 2 (nlms ℚ 2).Ext),
    Runs (nlms ℚ 2) o d x y e S ∧ u ≠ 0 ∧ ∀ m, ∑ i, u i * x m i = 0 :=
  ⟨⟨⟨fun _ => 0, 2, 1, (⟨1⟩ : EpsExt ℚ)⟩, []⟩, fun _ => 1, fun _ i => if i = 0 then 2 else 1, fun i => if i = 0 then 1 else -2, _, _, _,
    runs_of_safe nlms_safe _ trivial _ _, fun h => by have := congrFun h 0; simp at this, fun m => by simp [Fin.sum_univ_two]⟩

/-- C95 for NLMF: before sample `k` the weights are the initial ones plus a combination of the first `k` inputs (whose coefficients
do not depend on `k`). -/
theorem C95_nlmf_span (o : Obj (nlmf K n)) {S : ℕ → Core K n (EpsExt K)} (h : Runs (nlmf K n) o d x y e S) :
    ∃ c : ℕ → K, ∀ k i, (S k).w i = o.core.w i + ∑ m ∈ range k, c m * x m i := by
  have h0 : (S 0).w = o.core.w := by rw [h.1]; rfl
  have := span_of_steps (w := fun k => (S k).w) (x := x) fun k => by
    obtain ⟨h1, -, -, -, hw⟩ := nlmf_runs h k
    exact ⟨(S k).mu / ((S k).ext.eps + dot (x k) (x k)) * (e k * e k * e k), fun i => by rw [hw]; ring⟩
  rwa [h0] at this

/-- C95 for NLMF: a direction orthogonal to every input so far was not touched. -/
theorem C95_nlmf_orthogonal (o : Obj (nlmf K n)) {S : ℕ → Core K n (EpsExt K)} (h : Runs (nlmf K n) o d x y e S)
    (k : ℕ) (u : Vec K n) (hu : ∀ m < k, ∑ i, u i * x m i = 0) :
    ∑ i, u i * (S k).w i = ∑ i, u i * o.core.w i := by
  obtain ⟨c, hc⟩ := C95_nlmf_span o h
  exact orth_of_span (hc k) u hu

example : ∃ (o : Obj (nlmf ℚ 2)) (d : ℕ → ℚ) (x : ℕ → Vec ℚ 2) (u : Vec ℚ 2) (y e : ℕ → ℚ) (S : ℕ → Core ℚ 2 (nlmf ℚ 2).Ext),
    Runs (nlmf ℚ 2) o d x y e S ∧ u ≠ 0 ∧ ∀ m, ∑ i, u i * x m i = 0 :=
  ⟨⟨⟨fun _ => 0, 2, 1, (⟨1⟩ : EpsExt ℚ)⟩, []⟩, fun _ => 1, fun _ i => if i = 0 then 2 else 1, fun i => if i = 0 then 1 else -2, _, _, _,
    runs_of_safe nlmf_safe _ trivial _ _, fun h => by have := congrFun h 0; simp at this, fun m => by simp [Fin.sum_univ_two]⟩

/-- C95 for GNGD: before sample `k` the weights are the initial ones plus a combination of the first `k` inputs (whose coefficients
do not depend on `k`). -/
theorem C95_gngd_span (o : Obj (gngd K n)) {S : ℕ → Core K n (GngdExt K n)} (h : Runs (gngd K n) o d x y e S) :
    ∃ c : ℕ → K, ∀ k i, (S k).w i = o.core.w i + ∑ m ∈ range k, c m * x m i := by
  have h0 : (S 0).w = o.core.w := by rw [h.1]; rfl
  have := span_of_steps (w := fun k => (S k).w) (x := x) fun k => by
    obtain ⟨h1, -, -, -, hw, -⟩ := gngd_runs h k
    exact ⟨(S k).mu / (gngdEps (S k) (e k) (x k) + dot (x k) (x k)) * e k, fun i => by rw [hw]⟩
  rwa [h0] at this

/-- C95 for GNGD: a direction orthogonal to every input so far was not touched. -/
theorem C95_gngd_orthogonal (o : Obj (gngd K n)) {S : ℕ → Core K n (GngdExt K n)} (h : Runs (gngd K n) o d x y e S)
    (k : ℕ) (u : Vec K n) (hu : ∀ m < k, ∑ i, u i * x m i = 0) :
    ∑ i, u i * (S k).w i = ∑ i, u i * o.core.w i := by
  obtain ⟨c, hc⟩ := C95_gngd_span o h
  exact orth_of_span (hc k) u hu

example : ∃ (o : Obj (gngd ℚ 2)) (d : ℕ → ℚ) (x : ℕ → Vec ℚ 2) (u : Vec ℚ 2) (y e : ℕ → ℚ) (S : ℕ → Core ℚ 2 (gngd ℚ 2).Ext),
    Runs (gngd ℚ 2) o d x y e S ∧ u ≠ 0 ∧ ∀ m, ∑ i, u i * x m i = 0 :=
  ⟨⟨⟨fun _ => 0, 2, 1, (⟨1, 1, 0, fun _ => 0⟩ : GngdExt ℚ 2)⟩, []⟩, fun _ => 1, fun _ i => if i = 0 then 2 else 1, fun i => if i = 0 then 1 else -2, _, _, _,
    runs_of_safe gngd_safe _ trivial _ _, fun h => by have := congrFun h 0; simp at this, fun m => by simp [Fin.sum_univ_two]⟩

/-- C95 for VSLMS (Mathews): before sample `k` the weights are the initial ones plus a combination of the first `k` inputs (whose coefficients
do not depend on `k`). -/
theorem C95_mathews_span (o : Obj (mathews K n)) {S : ℕ → Core K n (MathewsExt K n)} (h : Runs (mathews K n) o d x y e S) :
    ∃ c : ℕ → K, ∀ k i, (S k).w i = o.core.w i + ∑ m ∈ range k, c m * x m i := by
  have h0 : (S 0).w = o.core.w := by rw [h.1]; rfl
  have := span_of_steps (w := fun k => (S k).w) (x := x) fun k => by
    obtain ⟨h1, -, -, -, hw, -⟩ := mathews_runs h k
    exact ⟨mathewsMu (S k) (e k) (x k) * e k, fun i => by rw [hw]⟩
  rwa [h0] at this

/-- C95 for VSLMS (Mathews): a direction orthogonal to every input so far was not touched. -/
theorem C95_mathews_orthogonal (o : Obj (mathews K n)) {S : ℕ → Core K n (MathewsExt K n)} (h : Runs (mathews K n) o d x y e S)
    (k : ℕ) (u : Vec K n) (hu : ∀ m < k, ∑ i, u i * x m i = 0) :
    ∑ i, u i * (S k).w i = ∑ i, u i * o.core.w i := by
  obtain ⟨c, hc⟩ := C95_mathews_span o h
  exact orth_of_span (hc k) u hu

example : ∃ (o : Obj (mathews ℚ 2)) (d : ℕ → ℚ) (x : ℕ → Vec ℚ 2) (u : Vec ℚ 2) (y e : ℕ → ℚ) (S : ℕ → Core ℚ 2 (mathews ℚ 2).Ext),
    Runs (mathews ℚ 2) o d x y e S ∧ u ≠ 0 ∧ ∀ m, ∑ i, u i * x m i = 0 :=
  ⟨⟨⟨fun _ => 0, 2, 1, (⟨1, 0, fun _ => 0, 1⟩ : MathewsExt ℚ 2)⟩, []⟩, fun _ => 1, fun _ i => if i = 0 then 2 else 1, fun i => if i = 0 then 1 else -2, _, _, _,
    runs_of_safe mathews_safe _ trivial _ _, fun h => by have := congrFun h 0; simp at this, fun m => by simp [Fin.sum_univ_two]⟩

/-- C95 for VSLMS (Ang): before sample `k` the weights are the initial ones plus a combination of the first `k` inputs (whose coefficients
do not depend on `k`). -/
theorem C95_ang_span (o : Obj (ang K n)) {S : ℕ → Core K n (AngExt K n)} (h : Runs (ang K n) o d x y e S) :
    ∃ c : ℕ → K, ∀ k i, (S k).w i = o.core.w i + ∑ m ∈ range k, c m * x m i := by
  have h0 : (S 0).w = o.core.w := by rw [h.1]; rfl
  have := span_of_steps (w := fun k => (S k).w) (x := x) fun k => by
    obtain ⟨h1, -, -, -, -, hw, -⟩ := ang_runs h k
    exact ⟨angMu (S k) (e k) * e k, fun i => by rw [hw]⟩
  rwa [h0] at this

/-- C95 for VSLMS (Ang): a direction orthogonal to every input so far was not touched. -/
theorem C95_ang_orthogonal (o : Obj (ang K n)) {S : ℕ → Core K n (AngExt K n)} (h : Runs (ang K n) o d x y e S)
    (k : ℕ) (u : Vec K n) (hu : ∀ m < k, ∑ i, u i * x m i = 0) :
    ∑ i, u i * (S k).w i = ∑ i, u i * o.core.w i := by
  obtain ⟨c, hc⟩ := C95_ang_span o h
  exact orth_of_span (hc k) u hu

example : ∃ (o : Obj (ang ℚ 2)) (d : ℕ → ℚ) (x : ℕ → Vec ℚ 2) (u : Vec ℚ 2) (y e : ℕ → ℚ) (S : ℕ → Core ℚ 2 (ang ℚ 2).Ext),
    Runs (ang ℚ 2) o d x y e S ∧ u ≠ 0 ∧ ∀ m, ∑ i, u i * x m i = 0 :=
  ⟨⟨⟨fun _ => 0, 2, 1, (⟨1, 1, 0, fun _ => 0, fun _ => 0, 1⟩ : AngExt ℚ 2)⟩, []⟩, fun _ => 1, fun _ i => if i = 0 then 2 else 1, fun i => if i = 0 then 1 else -2, _, _, _,
    runs_of_safe ang_safe _ trivial _ _, fun h => by have := congrFun h 0; simp at this, fun m => by simp [Fin.sum_univ_two]⟩

/-- C95 for VSLMS (Benveniste): before sample `k` the weights are the initial ones plus a combination of the first `k` inputs (whose coefficients
do not depend on `k`). -/
theorem C95_benveniste_span (o : Obj (benveniste K n)) {S : ℕ → Core K n (BenExt K n)} (h : Runs (benveniste K n) o d x y e S) :
    ∃ c : ℕ → K, ∀ k i, (S k).w i = o.core.w i + ∑ m ∈ range k, c m * x m i := by
  have h0 : (S 0).w = o.core.w := by rw [h.1]; rfl
  have := span_of_steps (w := fun k => (S k).w) (x := x) fun k => by
    obtain ⟨h1, -, -, -, hw, -⟩ := benveniste_runs h k
    exact ⟨benMu (S k) (e k) * e k, fun i => by rw [hw]⟩
  rwa [h0] at this

/-- C95 for VSLMS (Benveniste): a direction orthogonal to every input so far was not touched. -/
theorem C95_benveniste_orthogonal (o : Obj (benveniste K n)) {S : ℕ → Core K n (BenExt K n)} (h : Runs (benveniste K n) o d x y e S)
    (k : ℕ) (u : Vec K n) (hu : ∀ m < k, ∑ i, u i * x m i = 0) :
    ∑ i, u i * (S k).w i = ∑ i, u i * o.core.w i := by
  obtain ⟨c, hc⟩ := C95_benveniste_span o h
  exact orth_of_span (hc k) u hu

example : ∃ (o : Obj (benveniste ℚ 2)) (d : ℕ → ℚ) (x : ℕ → Vec ℚ 2) (u : Vec ℚ 2) (y e : ℕ → ℚ) (S : ℕ → Core ℚ 2 (benveniste ℚ 2).Ext),
    Runs (benveniste ℚ 2) o d x y e S ∧ u ≠ 0 ∧ ∀ m, ∑ i, u i * x m i = 0 :=
  ⟨⟨⟨fun _ => 0, 2, 1, (⟨1, 0, fun _ => 0, fun _ => 0, 1⟩ : BenExt ℚ 2)⟩, []⟩, fun _ => 1, fun _ i => if i = 0 then 2 else 1, fun i => if i = 0 then 1 else -2, _, _, _,
    runs_of_safe benveniste_safe _ trivial _ _, fun h => by have := congrFun h 0; simp at this, fun m => by simp [Fin.sum_univ_two]⟩

/-- C95 for RLS (started with `R = I / eps`): the weights stay in the span of the inputs seen so far (here the coefficients are
recomputed at every sample). -/
theorem C95_rls_span (o : Obj (rls K n)) (hmu : 0 < o.core.mu) (heps : 0 < o.core.ext.eps)
    (hR : ∀ i j, o.core.ext.R i j = if i = j then 1 / o.core.ext.eps else 0)
    {S : ℕ → Core K n (RlsExt K n)} (h : Runs (rls K n) o d x y e S) (k : ℕ) :
    ∃ c : ℕ → K, ∀ i, (S k).w i = o.core.w i + ∑ m ∈ range k, c m * x m i := by
  have hq : 0 < o.core.mu ^ k * o.core.ext.eps := mul_pos (pow_pos hmu k) heps
  refine ⟨fun m => (o.core.mu ^ k * o.core.ext.eps)⁻¹ * (o.core.mu ^ (k - 1 - m)
    * ((d m - ∑ j, o.core.w j * x m j) - ∑ j, x m j * ((S k).w j - o.core.w j))), fun i => ?_⟩
  have h1 := rls_normal hmu heps hR h o.core.w k i
  rw [sub_self, mul_zero, zero_add] at h1
  have h2 : ∑ j, rlsCorr o.core.mu o.core.ext.eps x k i j * ((S k).w j - o.core.w j)
      = o.core.mu ^ k * o.core.ext.eps * ((S k).w i - o.core.w i)
        + ∑ m ∈ range k, o.core.mu ^ (k - 1 - m) * x m i * ∑ j, x m j * ((S k).w j - o.core.w j) := by
    unfold rlsCorr
    simp only [add_mul, sum_add_distrib]
    congr 1
    · simp
    · simp only [sum_mul, mul_sum]
      rw [sum_comm]
      exact sum_congr rfl fun m _ => sum_congr rfl fun j _ => by ring
  rw [h2] at h1
  have h3 : o.core.mu ^ k * o.core.ext.eps * ((S k).w i - o.core.w i)
      = ∑ m ∈ range k, o.core.mu ^ (k - 1 - m)
        * ((d m - ∑ j, o.core.w j * x m j) - ∑ j, x m j * ((S k).w j - o.core.w j)) * x m i := by
    rw [eq_sub_of_add_eq h1, ← sum_sub_distrib]
    exact sum_congr rfl fun m _ => by ring
  have h4 : ∑ m ∈ range k, (o.core.mu ^ k * o.core.ext.eps)⁻¹ * (o.core.mu ^ (k - 1 - m)
        * ((d m - ∑ j, o.core.w j * x m j) - ∑ j, x m j * ((S k).w j - o.core.w j))) * x m i
      = (o.core.mu ^ k * o.core.ext.eps)⁻¹ * (o.core.mu ^ k * o.core.ext.eps * ((S k).w i - o.core.w i)) := by
    rw [h3, mul_sum]
    exact sum_congr rfl fun m _ => by ring
  rw [h4, inv_mul_cancel_left₀ hq.ne']
  ring

/-- C95 for RLS: a direction orthogonal to every input so far was not touched. -/
theorem C95_rls_orthogonal (o : Obj (rls K n)) (hmu : 0 < o.core.mu) (heps : 0 < o.core.ext.eps)
    (hR : ∀ i j, o.core.ext.R i j = if i = j then 1 / o.core.ext.eps else 0)
    {S : ℕ → Core K n (RlsExt K n)} (h : Runs (rls K n) o d x y e S) (k : ℕ) (u : Vec K n)
    (hu : ∀ m < k, ∑ i, u i * x m i = 0) : ∑ i, u i * (S k).w i = ∑ i, u i * o.core.w i := by
  obtain ⟨c, hc⟩ := C95_rls_span o hmu heps hR h k
  exact orth_of_span hc u hu

/-- C95 for AP of any order: a direction orthogonal to every input so far (and to the initial memory, e.g. a fresh, zero one) was not
touched. -/
theorem C95_ap_orthogonal {order : ℕ} (solve : Solver K) (hs : SolveSpec solve) (ho : 0 < order)
    (o : Obj (ap K n solve order)) (hc : 0 < o.core.ext.ifc)
    {S : ℕ → Core K n (ApExt K n order)} (h : Runs (ap K n solve order) o d x y e S) (u : Vec K n)
    (h0 : ∀ j, ∑ i, u i * o.core.ext.xMem i j = 0) (k : ℕ)
    (hu : ∀ m < k, ∑ i, u i * x m i = 0) : ∑ i, u i * (S k).w i = ∑ i, u i * o.core.w i := by
  have hsol : ∀ X : Mat K n order, ∃ P, solve order (apGram o.core.ext.ifc X) (eye order) = .ok P :=
    fun X => (gram_solvable hs hc X).imp fun _ h => h.1
  have hX : ∀ k, (∀ j, ∑ i, u i * (S k).ext.xMem i j = 0) → (∑ i, u i * x k i = 0) →
      ∀ j, ∑ i, u i * apX (S k) (x k) i j = 0 := by
    intro k hk hx j
    unfold apX
    by_cases hj : j.val = 0
    · simp only [hj, if_true]; exact hx
    · simp only [hj, if_false, shiftCols]; exact hk _
  suffices H : (∀ j, ∑ i, u i * (S k).ext.xMem i j = 0) ∧ ∑ i, u i * (S k).w i = ∑ i, u i * o.core.w i from H.2
  induction k with
  | zero => rw [h.1]; exact ⟨h0, rfl⟩
  | succ k ih =>
    obtain ⟨i1, i2⟩ := ih fun m hm => hu m (by omega)
    obtain ⟨-, -, P, -, -, -, hw, hxm, -⟩ := ap_runs ho hsol h k
    have h1 := hX k i1 (hu k (by omega))
    refine ⟨by rw [hxm]; exact h1, ?_⟩
    rw [hw]
    simp only [mul_add, sum_add_distrib, i2, dot_eq]
    have h2 : ∑ i, u i * ((S k).mu * ∑ j, apX (S k) (x k) i j * matVec P (apE (S k) (d k) (x k)) j)
        = (S k).mu * ∑ j, matVec P (apE (S k) (d k) (x k)) j * ∑ i, u i * apX (S k) (x k) i j := by
      simp only [mul_sum]
      rw [sum_comm]
      exact sum_congr rfl fun j _ => sum_congr rfl fun i _ => by ring
    rw [h2]
    simp [h1]

theorem meanRows_orth (u : Vec K n) (rows : List (Vec K n)) (h : ∀ r ∈ rows, ∑ i, u i * r i = 0) :
    ∑ i, u i * meanRows rows i = 0 := by
  have h1 : ∑ i, u i * (rows.map fun r => r i).sum = 0 := by
    induction rows with
    | nil => simp [show ([] : List K).sum = 0 from rfl]
    | cons r rows ih =>
      have h2 : ∀ i, ((r :: rows).map fun r => r i).sum = r i + (rows.map fun r => r i).sum := fun i => rfl
      simp only [h2, mul_add, sum_add_distrib]
      rw [h r (by simp), ih fun r hr => h r (by simp [hr]), add_zero]
  show ∑ i, u i * ((rows.map fun r => r i).sum / _) = 0
  simp only [List.length_map, mul_div_assoc', ← sum_div]
  rw [h1, zero_div]

/-- C95 for OCNLMS: a direction orthogonal to every input so far (and to the initial memory, e.g. a fresh, zero one) was not touched. -/
theorem C95_ocnlms_orthogonal (o : Obj (ocnlms K n)) (ho : OcOk (ocExtOf o))
    {S : ℕ → Core K n (OcExt K n)} (h : Runs (ocnlms K n) o d x y e S) (u : Vec K n)
    (h0 : ∀ r ∈ (ocExtOf o).memX, ∑ i, u i * r i = 0) (k : ℕ)
    (hu : ∀ m < k, ∑ i, u i * x m i = 0) : ∑ i, u i * (S k).w i = ∑ i, u i * o.core.w i := by
  suffices H : (∀ r ∈ (S k).ext.memX, ∑ i, u i * r i = 0) ∧ ∑ i, u i * (S k).w i = ∑ i, u i * o.core.w i from H.2
  have hadv : ∀ q : OcExt K n, (ocAdvance q).memX = q.memX := by
    intro q; unfold ocAdvance; split <;> rfl
  induction k with
  | zero => rw [h.1]; exact ⟨h0, rfl⟩
  | succ k ih =>
    obtain ⟨i1, i2⟩ := ih fun m hm => hu m (by omega)
    obtain ⟨hok, -, -, -, -, hw, hx⟩ := oc_runs_full h ho k
    have hxk := hu k (by omega)
    have hm : ∀ r ∈ (ocStoreX (ocAdvance (S k).ext) (x k)).memX, ∑ i, u i * r i = 0 := by
      intro r hr
      rcases List.mem_or_eq_of_mem_set hr with hr | rfl
      · rw [hadv] at hr; exact i1 r hr
      · exact hxk
    refine ⟨?_, ?_⟩
    · rw [hx]
      show ∀ r ∈ (ocAdvance (ocStoreX (ocAdvance (S k).ext) (x k))).memX, _
      rw [hadv]; exact hm
    · rw [hw]
      have hmx : ∑ i, u i * ocMx (ocStoreX (ocAdvance (S k).ext) (x k)) i = 0 := by
        unfold ocMx
        split
        · split
          · simp [zeros]
          · exact meanRows_orth u _ fun r hr => hm r (List.mem_of_mem_take hr)
        · exact meanRows_orth u _ hm
      simp only [mul_add, sum_add_distrib, i2]
      have h2 : ∀ (a : K) (c : Vec K n), ∑ i, u i * (a * c i) = a * ∑ i, u i * c i := by
        intro a c; rw [mul_sum]; exact sum_congr rfl fun i _ => by ring
      rw [h2]
      simp only [mul_sub, sum_sub_distrib, hxk, hmx, sub_zero, mul_zero, add_zero]

/-- what every direction orthogonal to `x 0, ..., x (k-1)` does not see is a combination of them -/
theorem span_of_orth {v : Vec K n} {x : ℕ → Vec K n} {k : ℕ} (h : ∀ u : Vec K n, (∀ m < k, ∑ i, u i * x m i = 0) → ∑ i, u i * v i = 0) :
    ∃ c : ℕ → K, ∀ i, v i = ∑ m ∈ range k, c m * x m i := by
  have hv : v ∈ Submodule.span K ((fun m => x m) '' (range k : Set ℕ)) := by
    rw [← Subspace.forall_mem_dualAnnihilator_apply_eq_zero_iff]
    intro φ hφ
    have hφ' : ∀ a : Fin n → K, φ a = ∑ i, φ (Pi.single i 1) * a i := by
      intro a
      conv_lhs => rw [pi_eq_sum_univ' a]
      rw [map_sum]
      exact sum_congr rfl fun i _ => by rw [map_smul, smul_eq_mul, mul_comm]
    rw [hφ']
    refine h _ fun m hm => ?_
    rw [← hφ']
    exact (Submodule.mem_dualAnnihilator φ).1 hφ _ (Submodule.subset_span ⟨m, by simpa using hm, rfl⟩)
  rw [Submodule.mem_span_image_finset_iff_exists_fun'] at hv
  obtain ⟨c, hc⟩ := hv
  refine ⟨c, fun i => ?_⟩
  rw [← hc, Finset.sum_apply]
  exact sum_congr rfl fun m _ => rfl

/-- C95 for AP of any order with an input memory of zeros (a new filter, or one that has seen only zeros): the weights are the initial ones plus a combination of the inputs
seen so far. -/
theorem C95_ap_span {order : ℕ} (solve : Solver K) (hs : SolveSpec solve) (ho : 0 < order)
    (o : Obj (ap K n solve order)) (hc : 0 < o.core.ext.ifc)
    {S : ℕ → Core K n (ApExt K n order)} (h : Runs (ap K n solve order) o d x y e S)
    (h0 : ∀ i j, o.core.ext.xMem i j = 0) (k : ℕ) :
    ∃ c : ℕ → K, ∀ i, (S k).w i = o.core.w i + ∑ m ∈ range k, c m * x m i := by
  obtain ⟨c, hc'⟩ := span_of_orth (v := fun i => (S k).w i - o.core.w i) (x := x) (k := k) fun u hu => by
    have := C95_ap_orthogonal solve hs ho o hc h u (fun j => by simp [h0]) k hu
    simp only [mul_sub, sum_sub_distrib, this, sub_self]
  exact ⟨c, fun i => by rw [← hc' i]; ring⟩

/-- C95 for OCNLMS with a memory of zeros (a new filter): the weights are the initial ones plus a combination of the inputs seen so far. -/
theorem C95_ocnlms_span (o : Obj (ocnlms K n)) (ho : OcOk (ocExtOf o))
    {S : ℕ → Core K n (OcExt K n)} (h : Runs (ocnlms K n) o d x y e S)
    (h0 : ∀ r ∈ (ocExtOf o).memX, ∀ i, r i = 0) (k : ℕ) :
    ∃ c : ℕ → K, ∀ i, (S k).w i = o.core.w i + ∑ m ∈ range k, c m * x m i := by
  obtain ⟨c, hc'⟩ := span_of_orth (v := fun i => (S k).w i - o.core.w i) (x := x) (k := k) fun u hu => by
    have := C95_ocnlms_orthogonal o ho h u (fun r hr => by simp [h0 r hr]) k hu
    simp only [mul_sub, sum_sub_distrib, this, sub_self]
  exact ⟨c, fun i => by rw [← hc' i]; ring⟩

/-- C95, the exception: the sign-sign filters adapt along `sign(x)`, not `x`, so a direction orthogonal to the input is disturbed. -/
theorem C95_sslms_leaves_span : ∃ (o : Obj (sslms ℚ 2)) (d : ℕ → ℚ) (x : ℕ → Vec ℚ 2) (u : Vec ℚ 2)
    (y e : ℕ → ℚ) (S : ℕ → Core ℚ 2 Unit), Runs (sslms ℚ 2) o d x y e S ∧ (∀ m, ∑ i, u i * x m i = 0) ∧
    ∑ i, u i * (S 1).w i ≠ ∑ i, u i * o.core.w i := by
  refine ⟨⟨⟨fun _ => 0, 2, 1, ()⟩, []⟩, fun _ => 1, fun _ i => if i = 0 then 2 else 1, fun i => if i = 0 then 1 else -2, _, _, _,
    runs_of_safe sslms_safe _ trivial _ _, fun m => by simp [Fin.sum_univ_two], ?_⟩
  decide +kernel

theorem C95_nsslms_leaves_span : ∃ (o : Obj (nsslms ℚ 2)) (d : ℕ → ℚ) (x : ℕ → Vec ℚ 2) (u : Vec ℚ 2)
    (y e : ℕ → ℚ) (S : ℕ → Core ℚ 2 (EpsExt ℚ)), Runs (nsslms ℚ 2) o d x y e S ∧ (∀ m, ∑ i, u i * x m i = 0) ∧
    ∑ i, u i * (S 1).w i ≠ ∑ i, u i * o.core.w i := by
  refine ⟨⟨⟨fun _ => 0, 2, 1, (⟨1⟩ : EpsExt ℚ)⟩, []⟩, fun _ => 1, fun _ i => if i = 0 then 2 else 1, fun i => if i = 0 then 1 else -2, _, _, _,
    runs_of_safe nsslms_safe _ trivial _ _, fun m => by simp [Fin.sum_univ_two], ?_⟩
  decide +kernel

/-- C95: what does hold for the sign-sign filters: the weight of an input component that is always 0 never changes. -/
theorem C95_sslms_dead_component (o : Obj (sslms K n)) {S : ℕ → Core K n Unit} (h : Runs (sslms K n) o d x y e S)
    (i : Fin n) (k : ℕ) (hi : ∀ m < k, x m i = 0) : (S k).w i = o.core.w i := by
  induction k with
  | zero => rw [h.1]; rfl
  | succ k ih =>
    obtain ⟨-, -, -, -, hw⟩ := sslms_runs h k
    rw [hw]
    have : Scalar.sgn (x k i) = (0 : K) := by
      rw [hi k (by omega)]; show (if (0 : K) < 0 then (1 : K) else if (0 : K) < 0 then -1 else 0) = 0; simp
    simp only [this, mul_zero, zero_mul, add_zero]
    exact ih fun m hm => hi m (by omega)

theorem C95_nsslms_dead_component (o : Obj (nsslms K n)) {S : ℕ → Core K n (EpsExt K)} (h : Runs (nsslms K n) o d x y e S)
    (i : Fin n) (k : ℕ) (hi : ∀ m < k, x m i = 0) : (S k).w i = o.core.w i := by
  induction k with
  | zero => rw [h.1]; rfl
  | succ k ih =>
    obtain ⟨-, -, -, -, hw⟩ := nsslms_runs h k
    rw [hw]
    have : Scalar.sgn (x k i) = (0 : K) := by
      rw [hi k (by omega)]; show (if (0 : K) < 0 then (1 : K) else if (0 : K) < 0 then -1 else 0) = 0; simp
    simp only [this, mul_zero, zero_mul, add_zero]
    exact ih fun m hm => hi m (by omega)

end field

section real
variable {n : ℕ} {d : ℕ → ℝ} {x : ℕ → Vec ℝ n} {y e : ℕ → ℝ}

/-- C95 for GMCC: before sample `k` the weights are the initial ones plus a combination of the first `k` inputs (whose coefficients
do not depend on `k`). -/
theorem C95_gmcc_span (o : Obj (gmcc ℝ n)) {S : ℕ → Core ℝ n (GmccExt ℝ)} (h : Runs (gmcc ℝ n) o d x y e S) :
    ∃ c : ℕ → ℝ, ∀ k i, (S k).w i = o.core.w i + ∑ m ∈ range k, c m * x m i := by
  have h0 : (S 0).w = o.core.w := by rw [h.1]; rfl
  have := span_of_steps (w := fun k => (S k).w) (x := x) fun k => by
    obtain ⟨h1, -, -, -, hw⟩ := gmcc_runs h k
    exact ⟨(S k).mu * (S k).ext.lambd * (S k).ext.alpha * Transc.exp (-(S k).ext.lambd * Transc.pow (Scalar.abs (e k)) (S k).ext.alpha) * Transc.pow (Scalar.abs (e k)) ((S k).ext.alpha - 1) * Scalar.sgn (e k), fun i => by rw [hw]⟩
  rwa [h0] at this

/-- C95 for GMCC: a direction orthogonal to every input so far was not touched. -/
theorem C95_gmcc_orthogonal (o : Obj (gmcc ℝ n)) {S : ℕ → Core ℝ n (GmccExt ℝ)} (h : Runs (gmcc ℝ n) o d x y e S)
    (k : ℕ) (u : Vec ℝ n) (hu : ∀ m < k, ∑ i, u i * x m i = 0) :
    ∑ i, u i * (S k).w i = ∑ i, u i * o.core.w i := by
  obtain ⟨c, hc⟩ := C95_gmcc_span o h
  exact orth_of_span (hc k) u hu

example : ∃ (o : Obj (gmcc ℝ 2)) (d : ℕ → ℝ) (x : ℕ → Vec ℝ 2) (u : Vec ℝ 2) (y e : ℕ → ℝ) (S : ℕ → Core ℝ 2 (gmcc ℝ 2).Ext),
    Runs (gmcc ℝ 2) o d x y e S ∧ u ≠ 0 ∧ ∀ m, ∑ i, u i * x m i = 0 :=
  ⟨⟨⟨fun _ => 0, 2, 1, (⟨1, 2⟩ : GmccExt ℝ)⟩, []⟩, fun _ => 1, fun _ i => if i = 0 then 2 else 1, fun i => if i = 0 then 1 else -2, _, _, _,
    runs_of_safe gmcc_safe _ trivial _ _, fun h => by have := congrFun h 0; simp at this, fun m => by simp [Fin.sum_univ_two]⟩

/-- C95 for Llncosh: before sample `k` the weights are the initial ones plus a combination of the first `k` inputs (whose coefficients
do not depend on `k`). -/
theorem C95_llncosh_span (o : Obj (llncosh ℝ n)) {S : ℕ → Core ℝ n (LlncoshExt ℝ)} (h : Runs (llncosh ℝ n) o d x y e S) :
    ∃ c : ℕ → ℝ, ∀ k i, (S k).w i = o.core.w i + ∑ m ∈ range k, c m * x m i := by
  have h0 : (S 0).w = o.core.w := by rw [h.1]; rfl
  have := span_of_steps (w := fun k => (S k).w) (x := x) fun k => by
    obtain ⟨h1, -, -, -, hw⟩ := llncosh_runs h k
    exact ⟨(S k).mu * Transc.tanh ((S k).ext.lambd * e k), fun i => by rw [hw]⟩
  rwa [h0] at this

/-- C95 for Llncosh: a direction orthogonal to every input so far was not touched. -/
theorem C95_llncosh_orthogonal (o : Obj (llncosh ℝ n)) {S : ℕ → Core ℝ n (LlncoshExt ℝ)} (h : Runs (llncosh ℝ n) o d x y e S)
    (k : ℕ) (u : Vec ℝ n) (hu : ∀ m < k, ∑ i, u i * x m i = 0) :
    ∑ i, u i * (S k).w i = ∑ i, u i * o.core.w i := by
  obtain ⟨c, hc⟩ := C95_llncosh_span o h
  exact orth_of_span (hc k) u hu

example : ∃ (o : Obj (llncosh ℝ 2)) (d : ℕ → ℝ) (x : ℕ → Vec ℝ 2) (u : Vec ℝ 2) (y e : ℕ → ℝ) (S : ℕ → Core ℝ 2 (llncosh ℝ 2).Ext),
    Runs (llncosh ℝ 2) o d x y e S ∧ u ≠ 0 ∧ ∀ m, ∑ i, u i * x m i = 0 :=
  ⟨⟨⟨fun _ => 0, 2, 1, (⟨1⟩ : LlncoshExt ℝ)⟩, []⟩, fun _ => 1, fun _ i => if i = 0 then 2 else 1, fun i => if i = 0 then 1 else -2, _, _, _,
    runs_of_safe llncosh_safe _ trivial _ _, fun h => by have := congrFun h 0; simp at this, fun m => by simp [Fin.sum_univ_two]⟩

/-- the hypotheses for RLS, AP and OCNLMS: inputs along `(2, 1)`, `u = (1, -2)` -/
example : ∃ (o : Obj (rls ℝ 2)) (d : ℕ → ℝ) (x : ℕ → Vec ℝ 2) (u : Vec ℝ 2) (y e : ℕ → ℝ) (S : ℕ → Core ℝ 2 (RlsExt ℝ 2)),
    Runs (rls ℝ 2) o d x y e S ∧ 0 < o.core.mu ∧ 0 < o.core.ext.eps ∧
    (∀ i j, o.core.ext.R i j = if i = j then 1 / o.core.ext.eps else 0) ∧ u ≠ 0 ∧ ∀ m, ∑ i, u i * x m i = 0 :=
  ⟨⟨⟨fun _ => 0, 2, 1, (⟨1, fun i j => if i = j then 1 / 1 else 0⟩ : RlsExt ℝ 2)⟩, []⟩, fun _ => 1,
    fun _ i => if i = 0 then 2 else 1, fun i => if i = 0 then 1 else -2, _, _, _,
    runs_of_safe rls_safe _ (by simp [Scalar.eqz]) _ _, one_pos, one_pos, fun _ _ => rfl,
    fun h => by have := congrFun h 0; simp at this, fun m => by simp [Fin.sum_univ_two]⟩

example : ∃ (o : Obj (ap ℝ 2 exactSolve 3)) (d : ℕ → ℝ) (x : ℕ → Vec ℝ 2) (u : Vec ℝ 2) (y e : ℕ → ℝ) (S : ℕ → Core ℝ 2 (ApExt ℝ 2 3)),
    Runs (ap ℝ 2 exactSolve 3) o d x y e S ∧ 0 < o.core.ext.ifc ∧ (∀ j, ∑ i, u i * o.core.ext.xMem i j = 0) ∧
    u ≠ 0 ∧ ∀ m, ∑ i, u i * x m i = 0 :=
  ⟨⟨⟨fun _ => 0, 2, 1, (⟨1, fun _ _ => 0, fun _ => 0, fun _ => 0, fun _ => 0⟩ : ApExt ℝ 2 3)⟩, []⟩, fun _ => 1,
    fun _ i => if i = 0 then 2 else 1, fun i => if i = 0 then 1 else -2, _, _, _,
    runs_of_safe (ap_safe _ (by norm_num) 1 fun X => (gram_solvable exactSolve_spec one_pos X).imp fun _ h => h.1) _ rfl _ _,
    one_pos, fun j => by simp, fun h => by have := congrFun h 0; simp at this, fun m => by simp [Fin.sum_univ_two]⟩

example : ∃ (o : Obj (ocnlms ℚ 2)) (d : ℕ → ℚ) (x : ℕ → Vec ℚ 2) (u : Vec ℚ 2) (y e : ℕ → ℚ) (S : ℕ → Core ℚ 2 (OcExt ℚ 2)),
    Runs (ocnlms ℚ 2) o d x y e S ∧ OcOk (ocExtOf o) ∧ (∀ r ∈ (ocExtOf o).memX, ∑ i, u i * r i = 0) ∧
    u ≠ 0 ∧ ∀ m, ∑ i, u i * x m i = 0 :=
  ⟨⟨⟨fun _ => 0, 2, 1, ocClear 100 ⟨1, true, [], [], 0⟩⟩, []⟩, fun _ => 1,
    fun _ i => if i = 0 then 2 else 1, fun i => if i = 0 then 1 else -2, _, _, _,
    runs_of_safe ocnlms_safe _ (by exact ⟨by simp [ocClear, Core.withN], by simp [ocClear, Core.withN]⟩) _ _,
    by exact ⟨by simp [ocClear, ocExtOf], by simp [ocClear, ocExtOf]⟩,
    fun r hr => by
      have : r = zeros 2 := by simpa [ocClear, ocExtOf] using hr
      simp [this, zeros],
    fun h => by have := congrFun h 0; simp at this, fun m => by simp [Fin.sum_univ_two]⟩

end real

end Padasip
