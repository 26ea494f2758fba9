import Verif.Props.Robust
import Verif.Props.Linear
import Mathlib.Analysis.SpecialFunctions.Trigonometric.DerivHyp

/-!
# C112: the initial weights are forgotten; C114: the effect of corrupted targets

Two objects of the same filter with the same parameters are run on the same inputs.  C112: their initial weights differ (the targets are the same, and need not
come from any linear system).  C114: also the targets differ.
-/

set_option linter.unusedSectionVars false
set_option linter.unusedVariables false

namespace Padasip

open Finset

section field
variable {K : Type} [Field K] [LinearOrder K] [IsStrictOrderedRing K] {n : ℕ}
variable {d d' : ℕ → K} {x : ℕ → Vec K n} {y e y' e' : ℕ → K}

/-! ## the difference of two runs is a run -/

theorem lms_diff {o o' : Obj (lms K n)} {S S' : ℕ → Core K n Unit} (h : Runs (lms K n) o d x y e S) (h' : Runs (lms K n) o' d' x y' e' S')
    (hmu : o'.core.mu = o.core.mu) :
    ∃ (o3 : Obj (lms K n)) (y3 e3 : ℕ → K) (S3 : ℕ → Core K n Unit), Runs (lms K n) o3 (fun k => d k - d' k) x y3 e3 S3 ∧ o3.core.mu = o.core.mu ∧
      (∀ i, o3.core.w i = o.core.w i - o'.core.w i) ∧
      ∀ k, y3 k = y k - y' k ∧ e3 k = e k - e' k ∧ ∀ i, (S3 k).w i = (S k).w i - (S' k).w i := by
  have h3 := runs_of_safe lms_safe (⟨⟨fun i => o.core.w i - o'.core.w i, n, o.core.mu, ()⟩, []⟩ : Obj (lms K n)) trivial (fun k => d k - d' k) x
  refine ⟨_, _, _, _, h3, rfl, fun _ => rfl, fun k => ?_⟩
  have e0 : (fun k => d k - d' k) = fun k => 1 * d k + (-1) * d' k := funext fun k => by ring
  rw [e0] at h3
  obtain ⟨a1, a2, a3⟩ := C37_lms h h' h3 hmu rfl (fun i => by ring) k
  refine ⟨?_, ?_, fun i => ?_⟩
  · rw [e0, a1]; ring
  · rw [e0, a2]; ring
  · rw [e0, a3]; ring

theorem nlms_diff {o o' : Obj (nlms K n)} {S S' : ℕ → Core K n (EpsExt K)} (h : Runs (nlms K n) o d x y e S) (h' : Runs (nlms K n) o' d' x y' e' S')
    (hmu : o'.core.mu = o.core.mu) (heps : 0 < o.core.ext.eps) (hext : o'.core.ext = o.core.ext) :
    ∃ (o3 : Obj (nlms K n)) (y3 e3 : ℕ → K) (S3 : ℕ → Core K n (EpsExt K)), Runs (nlms K n) o3 (fun k => d k - d' k) x y3 e3 S3 ∧ o3.core.mu = o.core.mu ∧
      o3.core.ext = o.core.ext ∧ (∀ i, o3.core.w i = o.core.w i - o'.core.w i) ∧
      ∀ k, y3 k = y k - y' k ∧ e3 k = e k - e' k ∧ ∀ i, (S3 k).w i = (S k).w i - (S' k).w i := by
  have h3 := runs_of_safe nlms_safe (⟨⟨fun i => o.core.w i - o'.core.w i, n, o.core.mu, o.core.ext⟩, []⟩ : Obj (nlms K n)) trivial (fun k => d k - d' k) x
  refine ⟨_, _, _, _, h3, rfl, rfl, fun _ => rfl, fun k => ?_⟩
  have e0 : (fun k => d k - d' k) = fun k => 1 * d k + (-1) * d' k := funext fun k => by ring
  rw [e0] at h3
  obtain ⟨a1, a2, a3⟩ := C37_nlms h h' h3 heps hmu rfl (by rw [hext]) rfl (fun i => by ring) k
  refine ⟨?_, ?_, fun i => ?_⟩
  · rw [e0, a1]; ring
  · rw [e0, a2]; ring
  · rw [e0, a3]; ring

theorem rls_diff {o o' : Obj (rls K n)} {S S' : ℕ → Core K n (RlsExt K n)} (h : Runs (rls K n) o d x y e S) (h' : Runs (rls K n) o' d' x y' e' S')
    (hmu0 : 0 < o.core.mu) (heps : 0 < o.core.ext.eps) (hR : ∀ i j, o.core.ext.R i j = if i = j then 1 / o.core.ext.eps else 0)
    (hmu : o'.core.mu = o.core.mu) (hext : o'.core.ext = o.core.ext) :
    ∃ (o3 : Obj (rls K n)) (y3 e3 : ℕ → K) (S3 : ℕ → Core K n (RlsExt K n)), Runs (rls K n) o3 (fun k => d k - d' k) x y3 e3 S3 ∧ o3.core.mu = o.core.mu ∧
      o3.core.ext = o.core.ext ∧ (∀ i, o3.core.w i = o.core.w i - o'.core.w i) ∧
      ∀ k, y3 k = y k - y' k ∧ e3 k = e k - e' k ∧ ∀ i, (S3 k).w i = (S k).w i - (S' k).w i := by
  have h3 := runs_of_safe rls_safe (⟨⟨fun i => o.core.w i - o'.core.w i, n, o.core.mu, o.core.ext⟩, []⟩ : Obj (rls K n))
    (decide_eq_false hmu0.ne') (fun k => d k - d' k) x
  refine ⟨_, _, _, _, h3, rfl, rfl, fun _ => rfl, fun k => ?_⟩
  have e0 : (fun k => d k - d' k) = fun k => 1 * d k + (-1) * d' k := funext fun k => by ring
  rw [e0] at h3
  obtain ⟨a1, a2, a3⟩ := C37_rls h h' h3 hmu0 heps hR hmu rfl (by rw [hext]) rfl (fun i => by ring) k
  refine ⟨?_, ?_, fun i => ?_⟩
  · rw [e0, a1]; ring
  · rw [e0, a2]; ring
  · rw [e0, a3]; ring

theorem ap_diff {solve : Solver K} {order : ℕ} (ho : 0 < order) (hs : SolveSpec solve) {o o' : Obj (ap K n solve order)}
    {S S' : ℕ → Core K n (ApExt K n order)} (h : Runs (ap K n solve order) o d x y e S) (h' : Runs (ap K n solve order) o' d' x y' e' S')
    (hc : 0 < o.core.ext.ifc) (hmu : o'.core.mu = o.core.mu) (hifc : o'.core.ext.ifc = o.core.ext.ifc)
    (hx : o'.core.ext.xMem = o.core.ext.xMem) (hd : o'.core.ext.dMem = o.core.ext.dMem) :
    ∃ (o3 : Obj (ap K n solve order)) (y3 e3 : ℕ → K) (S3 : ℕ → Core K n (ApExt K n order)),
      Runs (ap K n solve order) o3 (fun k => d k - d' k) x y3 e3 S3 ∧ o3.core.mu = o.core.mu ∧
      o3.core.ext.ifc = o.core.ext.ifc ∧ o3.core.ext.xMem = o.core.ext.xMem ∧ (∀ j, o3.core.ext.dMem j = 0) ∧
      (∀ i, o3.core.w i = o.core.w i - o'.core.w i) ∧
      ∀ k, y3 k = y k - y' k ∧ e3 k = e k - e' k ∧ ∀ i, (S3 k).w i = (S k).w i - (S' k).w i := by
  have h3 := runs_of_safe (ap_safe solve ho o.core.ext.ifc fun X => (gram_solvable hs hc X).imp fun _ h => h.1)
    (⟨⟨fun i => o.core.w i - o'.core.w i, n, o.core.mu, (⟨o.core.ext.ifc, o.core.ext.xMem, fun _ => 0, fun _ => 0, fun _ => 0⟩ : ApExt K n order)⟩, []⟩ :
      Obj (ap K n solve order)) rfl (fun k => d k - d' k) x
  refine ⟨_, _, _, _, h3, rfl, rfl, rfl, fun _ => rfl, fun _ => rfl, fun k => ?_⟩
  have e0 : (fun k => d k - d' k) = fun k => 1 * d k + (-1) * d' k := funext fun k => by ring
  rw [e0] at h3
  obtain ⟨a1, a2, a3⟩ := C37_ap ho hs hc h h' h3 rfl hifc rfl rfl hmu rfl hx rfl
    (fun j => by rw [hd]; show (0 : K) = _; ring) (fun i => by ring) k
  refine ⟨?_, ?_, fun i => ?_⟩
  · rw [e0, a1]; ring
  · rw [e0, a2]; ring
  · rw [e0, a3]; ring

/-! ## C112 LMS -/

/-- C112: two LMS filters with different initial weights on the same data, `mu >= 0`, `mu |x(k)|^2 <= 2`: every sample brings their weights closer together (or leaves the
distance as it is). -/
theorem C112_lms_closer {o o' : Obj (lms K n)} {S S' : ℕ → Core K n Unit} (h : Runs (lms K n) o d x y e S) (h' : Runs (lms K n) o' d x y' e' S')
    (hmu' : o'.core.mu = o.core.mu) (hmu : 0 ≤ o.core.mu) (hx : ∀ k, o.core.mu * ∑ i, x k i ^ 2 ≤ 2) (k : ℕ) :
    ∑ i, ((S (k + 1)).w i - (S' (k + 1)).w i) ^ 2 ≤ ∑ i, ((S k).w i - (S' k).w i) ^ 2 := by
  obtain ⟨o3, y3, e3, S3, h3, m3, -, r⟩ := lms_diff h h' hmu'
  have := C21_monotone o3 h3 (fun _ => 0) (by simp) (by rw [m3]; exact hmu) (by rw [m3]; exact hx) k
  simpa only [sqn, (r _).2.2, sub_zero] using this

/-- C112: ... and the total squared difference of their outputs, weighted with `mu (2 - mu |x(k)|^2)`, is exactly what the distance loses. -/
theorem C112_lms_outputs {o o' : Obj (lms K n)} {S S' : ℕ → Core K n Unit} (h : Runs (lms K n) o d x y e S) (h' : Runs (lms K n) o' d x y' e' S')
    (hmu' : o'.core.mu = o.core.mu) (N : ℕ) :
    ∑ i, ((S N).w i - (S' N).w i) ^ 2 + ∑ k ∈ range N, o.core.mu * (2 - o.core.mu * ∑ i, x k i ^ 2) * (y k - y' k) ^ 2
      = ∑ i, (o.core.w i - o'.core.w i) ^ 2 := by
  obtain ⟨o3, y3, e3, S3, h3, m3, w3, r⟩ := lms_diff h h' hmu'
  have h1 := C21_energy o3 h3 (fun _ => 0) (by simp) N
  have h2 : ∀ k, (e k - e' k) ^ 2 = (y k - y' k) ^ 2 := fun k => by
    rw [(lms_runs h k).2.2.2.1, (lms_runs h' k).2.2.2.1]; ring
  simp only [sqn, (r _).2.2, (r _).2.1, sub_zero, m3, w3, h2] at h1
  exact h1

/-- C112: with persistently exciting bounded inputs the distance shrinks geometrically, window by window, whatever the targets. -/
theorem C112_lms_rate {o o' : Obj (lms K n)} {S S' : ℕ → Core K n Unit} (h : Runs (lms K n) o d x y e S) (h' : Runs (lms K n) o' d x y' e' S')
    (hmu' : o'.core.mu = o.core.mu) (hmu : 0 < o.core.mu) {B α : K} {T : ℕ} (hx : ∀ k, ∑ i, x k i ^ 2 ≤ B) (hB : o.core.mu * B ≤ 2) (hT : 0 < T)
    (hpe : Exciting x T α) (k : ℕ) :
    ∑ i, ((S (k + T)).w i - (S' (k + T)).w i) ^ 2
      ≤ (1 - o.core.mu * (2 - o.core.mu * B) * α / ((T : K) ^ 2 * (1 + o.core.mu * B) ^ 2)) * ∑ i, ((S k).w i - (S' k).w i) ^ 2 := by
  obtain ⟨o3, y3, e3, S3, h3, m3, w3, r⟩ := lms_diff h h' hmu'
  have h1 := C94_lms_rate o3 h3 (fun _ => 0) (by simp) (by rw [m3]; exact hmu) hx (by rw [m3]; exact hB) hT hpe k
  simpa only [(r _).2.2, sub_zero, m3] using h1

/-! ## C112 NLMS -/

/-- C112: two NLMS filters, `0 <= mu <= 2`, `eps > 0`, any inputs. -/
theorem C112_nlms_closer {o o' : Obj (nlms K n)} {S S' : ℕ → Core K n (EpsExt K)} (h : Runs (nlms K n) o d x y e S) (h' : Runs (nlms K n) o' d x y' e' S')
    (hmu' : o'.core.mu = o.core.mu) (hext : o'.core.ext = o.core.ext) (heps : 0 < o.core.ext.eps) (hmu : 0 ≤ o.core.mu) (hmu2 : o.core.mu ≤ 2) (k : ℕ) :
    ∑ i, ((S (k + 1)).w i - (S' (k + 1)).w i) ^ 2 ≤ ∑ i, ((S k).w i - (S' k).w i) ^ 2 := by
  obtain ⟨o3, y3, e3, S3, h3, m3, x3, -, r⟩ := nlms_diff h h' hmu' heps hext
  have := C22_monotone o3 h3 (fun _ => 0) (by simp) (by rw [x3]; exact heps) (by rw [m3]; exact hmu) (by rw [m3]; exact hmu2) k
  simpa only [sqn, (r _).2.2, sub_zero] using this

/-- C112: the total squared difference of the outputs of two NLMS filters, each divided by `eps + |x(k)|^2`, is bounded by the initial distance. -/
theorem C112_nlms_outputs {o o' : Obj (nlms K n)} {S S' : ℕ → Core K n (EpsExt K)} (h : Runs (nlms K n) o d x y e S) (h' : Runs (nlms K n) o' d x y' e' S')
    (hmu' : o'.core.mu = o.core.mu) (hext : o'.core.ext = o.core.ext) (heps : 0 < o.core.ext.eps) (hmu : 0 ≤ o.core.mu) (N : ℕ) :
    ∑ i, ((S N).w i - (S' N).w i) ^ 2 + ∑ k ∈ range N, o.core.mu * (2 - o.core.mu) * (y k - y' k) ^ 2 / (o.core.ext.eps + ∑ i, x k i ^ 2)
      ≤ ∑ i, (o.core.w i - o'.core.w i) ^ 2 := by
  obtain ⟨o3, y3, e3, S3, h3, m3, x3, w3, r⟩ := nlms_diff h h' hmu' heps hext
  have h1 := C22_energy o3 h3 (fun _ => 0) (by simp) (by rw [x3]; exact heps) (by rw [m3]; exact hmu) N
  have h2 : ∀ k, (e k - e' k) ^ 2 = (y k - y' k) ^ 2 := fun k => by
    rw [(nlms_runs h k).2.2.2.1, (nlms_runs h' k).2.2.2.1]; ring
  simp only [sqn, (r _).2.2, (r _).2.1, sub_zero, m3, w3, h2] at h1
  rw [x3] at h1
  exact h1

/-- C112: geometric forgetting of NLMS with persistently exciting bounded inputs. -/
theorem C112_nlms_rate {o o' : Obj (nlms K n)} {S S' : ℕ → Core K n (EpsExt K)} (h : Runs (nlms K n) o d x y e S) (h' : Runs (nlms K n) o' d x y' e' S')
    (hmu' : o'.core.mu = o.core.mu) (hext : o'.core.ext = o.core.ext) (heps : 0 < o.core.ext.eps) (hmu : 0 < o.core.mu) (hmu2 : o.core.mu ≤ 2)
    {B α : K} {T : ℕ} (hx : ∀ k, ∑ i, x k i ^ 2 ≤ B) (hT : 0 < T) (hpe : Exciting x T α) (k : ℕ) :
    ∑ i, ((S (k + T)).w i - (S' (k + T)).w i) ^ 2
      ≤ (1 - o.core.mu * (2 - o.core.mu) / (o.core.ext.eps + B) * α / ((T : K) ^ 2 * (1 + o.core.mu / o.core.ext.eps * B) ^ 2))
        * ∑ i, ((S k).w i - (S' k).w i) ^ 2 := by
  obtain ⟨o3, y3, e3, S3, h3, m3, x3, w3, r⟩ := nlms_diff h h' hmu' heps hext
  have h1 := C94_nlms_rate o3 h3 (fun _ => 0) (by simp) (by rw [x3]; exact heps) (by rw [m3]; exact hmu) (by rw [m3]; exact hmu2) hx hT hpe k
  rw [x3] at h1
  simpa only [(r _).2.2, sub_zero, m3] using h1

/-! ## C112 RLS -/

/-- C112: two new RLS filters with the same `mu > 0` and `eps > 0`: the difference of the weights solves `A(k) (w(k) - w'(k)) = mu^k eps (w(0) - w'(0))` with the correlation
matrix `A(k) = mu^k eps I + sum mu^(k-1-m) x(m) x(m)^T`, whatever the targets. -/
theorem C112_rls_difference {o o' : Obj (rls K n)} {S S' : ℕ → Core K n (RlsExt K n)} (h : Runs (rls K n) o d x y e S) (h' : Runs (rls K n) o' d x y' e' S')
    (hmu : 0 < o.core.mu) (heps : 0 < o.core.ext.eps) (hR : ∀ i j, o.core.ext.R i j = if i = j then 1 / o.core.ext.eps else 0)
    (hmu' : o'.core.mu = o.core.mu) (hext : o'.core.ext = o.core.ext) (k : ℕ) (i : Fin n) :
    ∑ j, rlsCorr o.core.mu o.core.ext.eps x k i j * ((S k).w j - (S' k).w j) = o.core.mu ^ k * o.core.ext.eps * (o.core.w i - o'.core.w i) := by
  obtain ⟨o3, y3, e3, S3, h3, m3, x3, w3, r⟩ := rls_diff h h' hmu heps hR hmu' hext
  have h1 := C26_noise_free o3 (by rw [m3]; exact hmu) (by rw [x3]; exact heps) (by rw [x3]; exact hR) h3 (fun _ => 0) (by simp) k i
  rw [x3] at h1
  simpa only [(r _).2.2, sub_zero, m3, w3] using h1

/-- C112: with persistently exciting inputs (of any size) the distance is at most `eps / (eps + α floor(k/T))` times the initial one, for `0 < mu <= 1`. -/
theorem C112_rls_rate {o o' : Obj (rls K n)} {S S' : ℕ → Core K n (RlsExt K n)} (h : Runs (rls K n) o d x y e S) (h' : Runs (rls K n) o' d x y' e' S')
    (hmu : 0 < o.core.mu) (hmu1 : o.core.mu ≤ 1) (heps : 0 < o.core.ext.eps) (hR : ∀ i j, o.core.ext.R i j = if i = j then 1 / o.core.ext.eps else 0)
    (hmu' : o'.core.mu = o.core.mu) (hext : o'.core.ext = o.core.ext) {T : ℕ} {α : K} (hα : 0 ≤ α) (hpe : Exciting x T α) (k : ℕ) :
    (o.core.ext.eps + α * (k / T : ℕ)) ^ 2 * ∑ i, ((S k).w i - (S' k).w i) ^ 2 ≤ o.core.ext.eps ^ 2 * ∑ i, (o.core.w i - o'.core.w i) ^ 2 := by
  obtain ⟨o3, y3, e3, S3, h3, m3, x3, w3, r⟩ := rls_diff h h' hmu heps hR hmu' hext
  have h1 := C94_rls_rate o3 (by rw [m3]; exact hmu) (by rw [m3]; exact hmu1) (by rw [x3]; exact heps) (by rw [x3]; exact hR) h3 (fun _ => 0) (by simp) hα hpe k
  rw [x3] at h1
  simpa only [(r _).2.2, sub_zero, m3, w3] using h1

/-- C112: ... and exponentially small, at most `mu^k eps / (mu^(T-1) α)` times the initial one from sample `T` on. -/
theorem C112_rls_forgetting {o o' : Obj (rls K n)} {S S' : ℕ → Core K n (RlsExt K n)} (h : Runs (rls K n) o d x y e S) (h' : Runs (rls K n) o' d x y' e' S')
    (hmu : 0 < o.core.mu) (hmu1 : o.core.mu ≤ 1) (heps : 0 < o.core.ext.eps) (hR : ∀ i j, o.core.ext.R i j = if i = j then 1 / o.core.ext.eps else 0)
    (hmu' : o'.core.mu = o.core.mu) (hext : o'.core.ext = o.core.ext) {T : ℕ} {α : K} (hα : 0 < α) (hpe : Exciting x T α) (k : ℕ) (hk : T ≤ k) :
    ∑ i, ((S k).w i - (S' k).w i) ^ 2
      ≤ (o.core.mu ^ k * o.core.ext.eps / (o.core.mu ^ (T - 1) * α)) ^ 2 * ∑ i, (o.core.w i - o'.core.w i) ^ 2 := by
  obtain ⟨o3, y3, e3, S3, h3, m3, x3, w3, r⟩ := rls_diff h h' hmu heps hR hmu' hext
  have h1 := C94_rls_forgetting o3 (by rw [m3]; exact hmu) (by rw [m3]; exact hmu1) (by rw [x3]; exact heps) (by rw [x3]; exact hR) h3 (fun _ => 0) (by simp) hα hpe k hk
  rw [x3] at h1
  simpa only [(r _).2.2, sub_zero, m3, w3] using h1

/-! ## C112 AP -/

variable {order : ℕ}

/-- C112: two AP filters with the same memory, `ifc > 0`, `0 <= mu <= 2`, any inputs. -/
theorem C112_ap_closer {solve : Solver K} (ho : 0 < order) (hs : SolveSpec solve) {o o' : Obj (ap K n solve order)}
    {S S' : ℕ → Core K n (ApExt K n order)} (h : Runs (ap K n solve order) o d x y e S) (h' : Runs (ap K n solve order) o' d x y' e' S')
    (hc : 0 < o.core.ext.ifc) (hmu0 : 0 ≤ o.core.mu) (hmu2 : o.core.mu ≤ 2) (hmu : o'.core.mu = o.core.mu) (hifc : o'.core.ext.ifc = o.core.ext.ifc)
    (hx : o'.core.ext.xMem = o.core.ext.xMem) (hd : o'.core.ext.dMem = o.core.ext.dMem) (k : ℕ) :
    ∑ i, ((S (k + 1)).w i - (S' (k + 1)).w i) ^ 2 ≤ ∑ i, ((S k).w i - (S' k).w i) ^ 2 := by
  obtain ⟨o3, y3, e3, S3, h3, m3, c3, x3, d3, w3, r⟩ := ap_diff ho hs h h' hc hmu hifc hx hd
  have := C30_monotone solve hs ho o3 (by rw [c3]; exact hc) (by rw [m3]; exact hmu0) (by rw [m3]; exact hmu2) (fun _ => 0) (by simp [d3]) (by simp) h3 k
  simpa only [(r _).2.2, sub_zero] using this

/-! ## C114 corrupted targets -/

/-- C114: LMS, `mu >= 0`, `mu |x(k)|^2 <= 1`: two runs whose targets differ. The squared differences of outputs and final weights are paid for by those of the initial weights
and of the targets. -/
theorem C114_lms {o o' : Obj (lms K n)} {S S' : ℕ → Core K n Unit} (h : Runs (lms K n) o d x y e S) (h' : Runs (lms K n) o' d' x y' e' S')
    (hmu' : o'.core.mu = o.core.mu) (hmu : 0 ≤ o.core.mu) (hx : ∀ k, o.core.mu * ∑ i, x k i ^ 2 ≤ 1) (N : ℕ) :
    o.core.mu * (∑ k ∈ range N, (y k - y' k) ^ 2) + ∑ i, ((S N).w i - (S' N).w i) ^ 2
      ≤ ∑ i, (o.core.w i - o'.core.w i) ^ 2 + o.core.mu * ∑ k ∈ range N, (d k - d' k) ^ 2 := by
  obtain ⟨o3, y3, e3, S3, h3, m3, w3, r⟩ := lms_diff h h' hmu'
  have h1 := C23_robust o3 h3 (fun _ => 0) (fun k => d k - d' k) (by simp) (by rw [m3]; exact hmu) (by rw [m3]; exact hx) N
  have h2 : ∀ k, (e k - e' k - (d k - d' k)) ^ 2 = (y k - y' k) ^ 2 := fun k => by
    rw [(lms_runs h k).2.2.2.1, (lms_runs h' k).2.2.2.1]; ring
  simp only [sqn, (r _).2.2, (r _).2.1, sub_zero, m3, w3, h2] at h1
  exact h1

/-- C114: NLMS, `0 <= mu <= 1`, `eps > 0`, inputs of any size. -/
theorem C114_nlms {o o' : Obj (nlms K n)} {S S' : ℕ → Core K n (EpsExt K)} (h : Runs (nlms K n) o d x y e S) (h' : Runs (nlms K n) o' d' x y' e' S')
    (hmu' : o'.core.mu = o.core.mu) (hext : o'.core.ext = o.core.ext) (heps : 0 < o.core.ext.eps) (hmu : 0 ≤ o.core.mu) (hmu1 : o.core.mu ≤ 1) (N : ℕ) :
    o.core.mu * (∑ k ∈ range N, (y k - y' k) ^ 2 / (o.core.ext.eps + ∑ i, x k i ^ 2)) + ∑ i, ((S N).w i - (S' N).w i) ^ 2
      ≤ ∑ i, (o.core.w i - o'.core.w i) ^ 2 + o.core.mu * ∑ k ∈ range N, (d k - d' k) ^ 2 / (o.core.ext.eps + ∑ i, x k i ^ 2) := by
  obtain ⟨o3, y3, e3, S3, h3, m3, x3, w3, r⟩ := nlms_diff h h' hmu' heps hext
  have h1 := C85_robust o3 h3 (fun _ => 0) (fun k => d k - d' k) (by simp) (by rw [m3]; exact hmu) (by rw [m3]; exact hmu1) (by rw [x3]; exact heps) N
  have h2 : ∀ k, (e k - e' k - (d k - d' k)) ^ 2 = (y k - y' k) ^ 2 := fun k => by
    rw [(nlms_runs h k).2.2.2.1, (nlms_runs h' k).2.2.2.1]; ring
  rw [x3] at h1
  simp only [(r _).2.2, (r _).2.1, sub_zero, m3, w3, h2] at h1
  exact h1

/-- C114: RLS (new filters), `mu > 0`, `eps > 0`: the weights differ, on every past input and with the weights of the cost, by no more than initial weights and targets do. -/
theorem C114_rls {o o' : Obj (rls K n)} {S S' : ℕ → Core K n (RlsExt K n)} (h : Runs (rls K n) o d x y e S) (h' : Runs (rls K n) o' d' x y' e' S')
    (hmu : 0 < o.core.mu) (heps : 0 < o.core.ext.eps) (hR : ∀ i j, o.core.ext.R i j = if i = j then 1 / o.core.ext.eps else 0)
    (hmu' : o'.core.mu = o.core.mu) (hext : o'.core.ext = o.core.ext) (k : ℕ) :
    o.core.mu ^ k * o.core.ext.eps * ∑ i, ((S k).w i - (S' k).w i) ^ 2
        + ∑ m ∈ range k, o.core.mu ^ (k - 1 - m) * (∑ i, ((S k).w i - (S' k).w i) * x m i) ^ 2
      ≤ o.core.mu ^ k * o.core.ext.eps * ∑ i, (o.core.w i - o'.core.w i) ^ 2 + ∑ m ∈ range k, o.core.mu ^ (k - 1 - m) * (d m - d' m) ^ 2 := by
  obtain ⟨o3, y3, e3, S3, h3, m3, x3, w3, r⟩ := rls_diff h h' hmu heps hR hmu' hext
  have h1 := C113_rls_robust o3 (by rw [m3]; exact hmu) (by rw [x3]; exact heps) (by rw [x3]; exact hR) h3 (fun _ => 0) (fun k => d k - d' k) (by simp) k
  rw [x3] at h1
  simpa only [(r _).2.2, sub_zero, m3, w3] using h1

/-- C114: AP of any order, `ifc > 0`, `0 <= mu <= 2`, the same memory, inputs of any size. -/
theorem C114_ap {solve : Solver K} (ho : 0 < order) (hs : SolveSpec solve) {o o' : Obj (ap K n solve order)}
    {S S' : ℕ → Core K n (ApExt K n order)} (h : Runs (ap K n solve order) o d x y e S) (h' : Runs (ap K n solve order) o' d' x y' e' S')
    (hc : 0 < o.core.ext.ifc) (hmu0 : 0 ≤ o.core.mu) (hmu2 : o.core.mu ≤ 2) (hmu : o'.core.mu = o.core.mu) (hifc : o'.core.ext.ifc = o.core.ext.ifc)
    (hx : o'.core.ext.xMem = o.core.ext.xMem) (hd : o'.core.ext.dMem = o.core.ext.dMem) (N : ℕ) :
    ∑ i, ((S N).w i - (S' N).w i) ^ 2
      ≤ ∑ i, (o.core.w i - o'.core.w i) ^ 2 + o.core.mu * order / (2 * o.core.ext.ifc) * ∑ k ∈ range N, (d k - d' k) ^ 2 := by
  obtain ⟨o3, y3, e3, S3, h3, m3, c3, x3, d3, w3, r⟩ := ap_diff ho hs h h' hc hmu hifc hx hd
  have := C113_ap_robust solve hs ho o3 (by rw [c3]; exact hc) (by rw [m3]; exact hmu0) (by rw [m3]; exact hmu2) (fun _ => 0) (fun k => d k - d' k) (by simp [d3]) (by simp) h3 N
  rw [c3] at this
  simpa only [(r _).2.2, sub_zero, m3, w3] using this

end field

section real
variable {n : ℕ} {d : ℕ → ℝ} {x : ℕ → Vec ℝ n} {y e y' e' : ℕ → ℝ}

theorem tendsto_diff {u u' : ℕ → ℝ} {w : ℕ → ℝ} (hw : Filter.Tendsto w Filter.atTop (nhds 0)) (h : ∀ k, w k = u k - u' k) :
    Filter.Tendsto (fun k => u k - u' k) Filter.atTop (nhds 0) := hw.congr h

/-- C112: LMS forgets its initial weights: on persistently exciting bounded inputs the weights of the two filters have the same limit behaviour. -/
theorem C112_lms_forgets {o o' : Obj (lms ℝ n)} {S S' : ℕ → Core ℝ n Unit} (h : Runs (lms ℝ n) o d x y e S) (h' : Runs (lms ℝ n) o' d x y' e' S')
    (hmu' : o'.core.mu = o.core.mu) (hmu : 0 < o.core.mu) {B α : ℝ} {T : ℕ} (hx : ∀ k, ∑ i, x k i ^ 2 ≤ B) (hB : o.core.mu * B < 2) (hT : 0 < T)
    (hα : 0 < α) (hpe : Exciting x T α) (i : Fin n) :
    Filter.Tendsto (fun k => (S k).w i - (S' k).w i) Filter.atTop (nhds 0) := by
  obtain ⟨o3, y3, e3, S3, h3, m3, w3, r⟩ := lms_diff h h' hmu'
  exact tendsto_diff (C94_lms_identifies o3 h3 (fun _ => 0) (by simp) (by rw [m3]; exact hmu) hx (by rw [m3]; exact hB) hT hα hpe i) fun k => (r k).2.2 i

/-- C112: without any excitation the outputs of the two LMS filters still approach each other. -/
theorem C112_lms_same_outputs {o o' : Obj (lms ℝ n)} {S S' : ℕ → Core ℝ n Unit} (h : Runs (lms ℝ n) o d x y e S) (h' : Runs (lms ℝ n) o' d x y' e' S')
    (hmu' : o'.core.mu = o.core.mu) (hmu : 0 < o.core.mu) {c : ℝ} (hc : c < 2) (hx : ∀ k, o.core.mu * ∑ i, x k i ^ 2 ≤ c) :
    Filter.Tendsto (fun k => y k - y' k) Filter.atTop (nhds 0) := by
  obtain ⟨o3, y3, e3, S3, h3, m3, w3, r⟩ := lms_diff h h' hmu'
  have h1 := (C21_error_vanishes o3 h3 (fun _ => 0) (by simp) (by rw [m3]; exact hmu) hc (by rw [m3]; exact hx)).neg
  rw [neg_zero] at h1
  refine tendsto_diff h1 fun k => ?_
  rw [(r k).2.1, (lms_runs h k).2.2.2.1, (lms_runs h' k).2.2.2.1]; ring

/-- C112: NLMS forgets its initial weights, `0 < mu < 2`. -/
theorem C112_nlms_forgets {o o' : Obj (nlms ℝ n)} {S S' : ℕ → Core ℝ n (EpsExt ℝ)} (h : Runs (nlms ℝ n) o d x y e S) (h' : Runs (nlms ℝ n) o' d x y' e' S')
    (hmu' : o'.core.mu = o.core.mu) (hext : o'.core.ext = o.core.ext) (heps : 0 < o.core.ext.eps) (hmu : 0 < o.core.mu) (hmu2 : o.core.mu < 2)
    {B α : ℝ} {T : ℕ} (hx : ∀ k, ∑ i, x k i ^ 2 ≤ B) (hT : 0 < T) (hα : 0 < α) (hpe : Exciting x T α) (i : Fin n) :
    Filter.Tendsto (fun k => (S k).w i - (S' k).w i) Filter.atTop (nhds 0) := by
  obtain ⟨o3, y3, e3, S3, h3, m3, x3, w3, r⟩ := nlms_diff h h' hmu' heps hext
  exact tendsto_diff (C94_nlms_identifies o3 h3 (fun _ => 0) (by simp) (by rw [x3]; exact heps) (by rw [m3]; exact hmu) (by rw [m3]; exact hmu2) hx hT hα hpe i)
    fun k => (r k).2.2 i

/-- C112: the outputs of two NLMS filters approach each other on bounded inputs, without excitation. -/
theorem C112_nlms_same_outputs {o o' : Obj (nlms ℝ n)} {S S' : ℕ → Core ℝ n (EpsExt ℝ)} (h : Runs (nlms ℝ n) o d x y e S) (h' : Runs (nlms ℝ n) o' d x y' e' S')
    (hmu' : o'.core.mu = o.core.mu) (hext : o'.core.ext = o.core.ext) (heps : 0 < o.core.ext.eps) (hmu : 0 < o.core.mu) (hmu2 : o.core.mu < 2)
    {B : ℝ} (hx : ∀ k, ∑ i, x k i ^ 2 ≤ B) :
    Filter.Tendsto (fun k => y k - y' k) Filter.atTop (nhds 0) := by
  obtain ⟨o3, y3, e3, S3, h3, m3, x3, w3, r⟩ := nlms_diff h h' hmu' heps hext
  have h1 := (C22_error_vanishes o3 h3 (fun _ => 0) (by simp) (by rw [x3]; exact heps) (by rw [m3]; exact hmu) (by rw [m3]; exact hmu2) hx).neg
  rw [neg_zero] at h1
  refine tendsto_diff h1 fun k => ?_
  rw [(r k).2.1, (nlms_runs h k).2.2.2.1, (nlms_runs h' k).2.2.2.1]; ring

/-- C112: RLS forgets its initial weights, `0 < mu <= 1`; the inputs may be unbounded. -/
theorem C112_rls_forgets {o o' : Obj (rls ℝ n)} {S S' : ℕ → Core ℝ n (RlsExt ℝ n)} (h : Runs (rls ℝ n) o d x y e S) (h' : Runs (rls ℝ n) o' d x y' e' S')
    (hmu : 0 < o.core.mu) (hmu1 : o.core.mu ≤ 1) (heps : 0 < o.core.ext.eps) (hR : ∀ i j, o.core.ext.R i j = if i = j then 1 / o.core.ext.eps else 0)
    (hmu' : o'.core.mu = o.core.mu) (hext : o'.core.ext = o.core.ext) {T : ℕ} {α : ℝ} (hT : 0 < T) (hα : 0 < α) (hpe : Exciting x T α) (i : Fin n) :
    Filter.Tendsto (fun k => (S k).w i - (S' k).w i) Filter.atTop (nhds 0) := by
  obtain ⟨o3, y3, e3, S3, h3, m3, x3, w3, r⟩ := rls_diff h h' hmu heps hR hmu' hext
  exact tendsto_diff (C94_rls_identifies o3 (by rw [m3]; exact hmu) (by rw [m3]; exact hmu1) (by rw [x3]; exact heps) (by rw [x3]; exact hR) h3
    (fun _ => 0) (by simp) hT hα hpe i) fun k => (r k).2.2 i

/-- C112: AP forgets its initial weights. -/
theorem C112_ap_forgets {order : ℕ} {solve : Solver ℝ} (ho : 0 < order) (hs : SolveSpec solve) {o o' : Obj (ap ℝ n solve order)}
    {S S' : ℕ → Core ℝ n (ApExt ℝ n order)} (h : Runs (ap ℝ n solve order) o d x y e S) (h' : Runs (ap ℝ n solve order) o' d x y' e' S')
    (hc : 0 < o.core.ext.ifc) (hmu0 : 0 < o.core.mu) (hmu2 : o.core.mu ≤ 2) (hmu : o'.core.mu = o.core.mu) (hifc : o'.core.ext.ifc = o.core.ext.ifc)
    (hxm : o'.core.ext.xMem = o.core.ext.xMem) (hdm : o'.core.ext.dMem = o.core.ext.dMem)
    {M α : ℝ} {T : ℕ} (hx : ∀ k i, |x k i| ≤ M) (hα : 0 < α) (hpe : Exciting x T α) (i : Fin n) :
    Filter.Tendsto (fun k => (S k).w i - (S' k).w i) Filter.atTop (nhds 0) := by
  obtain ⟨o3, y3, e3, S3, h3, m3, c3, x3, d3, w3, r⟩ := ap_diff ho hs h h' hc hmu hifc hxm hdm
  exact tendsto_diff (C94_ap_identifies solve hs ho o3 (by rw [c3]; exact hc) (by rw [m3]; exact hmu0) (by rw [m3]; exact hmu2) (fun _ => 0)
    (by simp [d3]) (by simp) h3 hx hα hpe i) fun k => (r k).2.2 i

/-! ## Llncosh: a nonlinear rule -/

theorem hasDerivAt_tanh' (t : ℝ) : HasDerivAt Real.tanh (1 / Real.cosh t ^ 2) t := by
  have h1 := (Real.hasDerivAt_sinh t).div (Real.hasDerivAt_cosh t) (Real.cosh_pos t).ne'
  have h2 : Real.tanh = fun t => Real.sinh t / Real.cosh t := funext Real.tanh_eq_sinh_div_cosh
  rw [h2]
  refine h1.congr_deriv ?_
  congr 1
  nlinarith [Real.cosh_sq t]

theorem tanh_mono : Monotone Real.tanh :=
  monotone_of_deriv_nonneg (fun t => (hasDerivAt_tanh' t).differentiableAt) fun t => by
    rw [(hasDerivAt_tanh' t).deriv]; positivity

theorem id_sub_tanh_mono : Monotone fun t => t - Real.tanh t :=
  monotone_of_deriv_nonneg (fun t => ((hasDerivAt_id t).sub (hasDerivAt_tanh' t)).differentiableAt) fun t => by
    have h : HasDerivAt (fun t => t - Real.tanh t) (1 - 1 / Real.cosh t ^ 2) t := (hasDerivAt_id t).sub (hasDerivAt_tanh' t)
    rw [h.deriv]
    have h1 := Real.one_le_cosh t
    have h2 : 1 / Real.cosh t ^ 2 ≤ 1 := by
      rw [div_le_one (by positivity)]; nlinarith
    linarith

/-- `tanh` is monotone and does not expand differences -/
theorem tanh_coercive (a b : ℝ) : (Real.tanh a - Real.tanh b) ^ 2 ≤ (Real.tanh a - Real.tanh b) * (a - b) := by
  rcases le_total a b with h | h
  · have h1 := tanh_mono h
    have h2 := id_sub_tanh_mono h
    simp only at h2
    nlinarith
  · have h1 := tanh_mono h
    have h2 := id_sub_tanh_mono h
    simp only at h2
    nlinarith

/-- C112: two Llncosh filters with different initial weights on the same data, `mu, lambd >= 0`, `mu lambd |x(k)|^2 <= 2`: every sample brings their weights closer together
(or leaves the distance as it is), whatever the targets. -/
theorem C112_llncosh_closer {o o' : Obj (llncosh ℝ n)} {S S' : ℕ → Core ℝ n (LlncoshExt ℝ)} (h : Runs (llncosh ℝ n) o d x y e S)
    (h' : Runs (llncosh ℝ n) o' d x y' e' S') (hmu' : o'.core.mu = o.core.mu) (hext : o'.core.ext = o.core.ext) (hmu : 0 ≤ o.core.mu)
    (hl : 0 ≤ o.core.ext.lambd) (hx : ∀ k, o.core.mu * o.core.ext.lambd * ∑ i, x k i ^ 2 ≤ 2) (k : ℕ) :
    ∑ i, ((S (k + 1)).w i - (S' (k + 1)).w i) ^ 2 ≤ ∑ i, ((S k).w i - (S' k).w i) ^ 2 := by
  obtain ⟨m1, x1, hy, he, hw⟩ := llncosh_runs h k
  obtain ⟨m1', x1', hy', he', hw'⟩ := llncosh_runs h' k
  rw [m1, x1] at hw
  rw [m1', x1', hmu', hext] at hw'
  set mu := o.core.mu
  obtain ⟨l, hl'⟩ : ∃ l, o.core.ext.lambd = l := ⟨_, rfl⟩
  rw [hl'] at hl hx
  set t := Real.tanh (l * e k) with ht
  set t' := Real.tanh (l * e' k) with ht'
  have hw1 : (S (k + 1)).w = fun i => (S k).w i + mu * t * x k i := by rw [hw, hl']; rfl
  have hw2 : (S' (k + 1)).w = fun i => (S' k).w i + mu * t' * x k i := by rw [hw', hl']; rfl
  have h1 : ∑ i, ((S k).w i - (S' k).w i) * x k i = -(e k - e' k) := by
    rw [he, he', hy, hy', dot_eq, dot_eq]
    simp only [sub_mul, sum_sub_distrib]; ring
  have h2 := sqn_add_smul (fun i => (S k).w i - (S' k).w i) (x k) (mu * (t - t'))
  rw [h1] at h2
  have h3 : ∑ i, ((S (k + 1)).w i - (S' (k + 1)).w i) ^ 2 = sqn fun i => ((S k).w i - (S' k).w i) + mu * (t - t') * x k i := by
    rw [hw1, hw2]
    exact sum_congr rfl fun i _ => by ring
  rw [h3, h2]
  have h4 := tanh_coercive (l * e k) (l * e' k)
  rw [← ht, ← ht', ← mul_sub] at h4
  have h5 : sqn (fun i => (S k).w i - (S' k).w i) = ∑ i, ((S k).w i - (S' k).w i) ^ 2 := rfl
  rw [h5]
  -- `(t - t') (e - e') >= 0` and `(t - t')^2 <= l (t - t') (e - e')`
  have h6 : 0 ≤ (t - t') * (e k - e' k) := by
    rcases hl.eq_or_lt with h0 | h0
    · rw [ht, ht', ← h0]; simp
    · have : 0 ≤ l * ((t - t') * (e k - e' k)) := by nlinarith [sq_nonneg (t - t')]
      exact nonneg_of_mul_nonneg_right this h0
  have h7 : mu ^ 2 * (t - t') ^ 2 * sqn (x k) ≤ 2 * mu * ((t - t') * (e k - e' k)) := by
    calc mu ^ 2 * (t - t') ^ 2 * sqn (x k) = mu ^ 2 * sqn (x k) * (t - t') ^ 2 := by ring
      _ ≤ mu ^ 2 * sqn (x k) * ((t - t') * (l * (e k - e' k))) :=
        mul_le_mul_of_nonneg_left h4 (mul_nonneg (sq_nonneg _) (sqn_nonneg _))
      _ = mu * (mu * l * sqn (x k)) * ((t - t') * (e k - e' k)) := by ring
      _ ≤ mu * 2 * ((t - t') * (e k - e' k)) :=
        mul_le_mul_of_nonneg_right (mul_le_mul_of_nonneg_left (hx k) hmu) h6
      _ = _ := by ring
  nlinarith

end real

section examples

/-- two LMS filters with different weights, arbitrary (noisy, non-linear) targets, exciting inputs: the hypotheses of the LMS theorems of C112, C114 -/
example : ∃ (o o' : Obj (lms ℝ 2)) (y e y' e' : ℕ → ℝ) (S S' : ℕ → Core ℝ 2 Unit),
    Runs (lms ℝ 2) o (fun k => (k : ℝ) ^ 2) turns y e S ∧ Runs (lms ℝ 2) o' (fun k => (k : ℝ) ^ 2) turns y' e' S' ∧ o'.core.mu = o.core.mu ∧
    0 < o.core.mu ∧ (∀ k, ∑ i, turns k i ^ 2 ≤ (1 : ℝ)) ∧ o.core.mu * 1 ≤ 1 ∧ Exciting turns 2 1 ∧ o.core.w ≠ o'.core.w :=
  ⟨⟨⟨fun _ => 0, 2, 1 / 2, ()⟩, []⟩, ⟨⟨fun _ => 1, 2, 1 / 2, ()⟩, []⟩, _, _, _, _, _, _, runs_of_safe lms_safe _ trivial _ _,
    runs_of_safe lms_safe _ trivial _ _, rfl, by norm_num, turns_sqn, by norm_num, turns_exciting, fun h => zero_ne_one (congrFun h 0)⟩

/-- ... NLMS -/
example : ∃ (o o' : Obj (nlms ℝ 2)) (y e y' e' : ℕ → ℝ) (S S' : ℕ → Core ℝ 2 (EpsExt ℝ)),
    Runs (nlms ℝ 2) o (fun k => (k : ℝ) ^ 2) turns y e S ∧ Runs (nlms ℝ 2) o' (fun k => (k : ℝ) ^ 2) turns y' e' S' ∧ o'.core.mu = o.core.mu ∧
    o'.core.ext = o.core.ext ∧ 0 < o.core.ext.eps ∧ 0 < o.core.mu ∧ o.core.mu ≤ 1 ∧ o.core.w ≠ o'.core.w :=
  ⟨⟨⟨fun _ => 0, 2, 1 / 2, (⟨1⟩ : EpsExt ℝ)⟩, []⟩, ⟨⟨fun _ => 1, 2, 1 / 2, (⟨1⟩ : EpsExt ℝ)⟩, []⟩, _, _, _, _, _, _, runs_of_safe nlms_safe _ trivial _ _,
    runs_of_safe nlms_safe _ trivial _ _, rfl, rfl, one_pos, by norm_num, by norm_num, fun h => zero_ne_one (congrFun h 0)⟩

/-- ... RLS -/
example : ∃ (o o' : Obj (rls ℝ 2)) (y e y' e' : ℕ → ℝ) (S S' : ℕ → Core ℝ 2 (RlsExt ℝ 2)),
    Runs (rls ℝ 2) o (fun k => (k : ℝ) ^ 2) turns y e S ∧ Runs (rls ℝ 2) o' (fun k => (k : ℝ) ^ 2) turns y' e' S' ∧ o'.core.mu = o.core.mu ∧
    o'.core.ext = o.core.ext ∧ 0 < o.core.ext.eps ∧ 0 < o.core.mu ∧ o.core.mu ≤ 1 ∧
    (∀ i j, o.core.ext.R i j = if i = j then 1 / o.core.ext.eps else 0) ∧ o.core.w ≠ o'.core.w :=
  ⟨⟨⟨fun _ => 0, 2, 1 / 2, (⟨1, fun i j => if i = j then 1 / 1 else 0⟩ : RlsExt ℝ 2)⟩, []⟩,
    ⟨⟨fun _ => 1, 2, 1 / 2, (⟨1, fun i j => if i = j then 1 / 1 else 0⟩ : RlsExt ℝ 2)⟩, []⟩, _, _, _, _, _, _,
    runs_of_safe rls_safe _ (by simp [Scalar.eqz]) _ _, runs_of_safe rls_safe _ (by simp [Scalar.eqz]) _ _, rfl, rfl, one_pos, by norm_num, by norm_num,
    fun _ _ => rfl, fun h => zero_ne_one (congrFun h 0)⟩

/-- ... AP -/
example : ∃ (o o' : Obj (ap ℝ 2 exactSolve 2)) (y e y' e' : ℕ → ℝ) (S S' : ℕ → Core ℝ 2 (ApExt ℝ 2 2)),
    Runs (ap ℝ 2 exactSolve 2) o (fun k => (k : ℝ) ^ 2) turns y e S ∧ Runs (ap ℝ 2 exactSolve 2) o' (fun k => (k : ℝ) ^ 2) turns y' e' S' ∧
    0 < o.core.ext.ifc ∧ 0 < o.core.mu ∧ o.core.mu ≤ 2 ∧ o'.core.mu = o.core.mu ∧ o'.core.ext.ifc = o.core.ext.ifc ∧
    o'.core.ext.xMem = o.core.ext.xMem ∧ o'.core.ext.dMem = o.core.ext.dMem ∧ o.core.w ≠ o'.core.w :=
  ⟨⟨⟨fun _ => 0, 2, 1, (⟨1, fun _ _ => 0, fun _ => 0, fun _ => 0, fun _ => 0⟩ : ApExt ℝ 2 2)⟩, []⟩,
   ⟨⟨fun _ => 1, 2, 1, (⟨1, fun _ _ => 0, fun _ => 0, fun _ => 0, fun _ => 0⟩ : ApExt ℝ 2 2)⟩, []⟩, _, _, _, _, _, _,
   runs_of_safe (ap_safe _ (by norm_num) 1 fun X => (gram_solvable exactSolve_spec one_pos X).imp fun _ h => h.1) _ rfl _ _,
   runs_of_safe (ap_safe _ (by norm_num) 1 fun X => (gram_solvable exactSolve_spec one_pos X).imp fun _ h => h.1) _ rfl _ _,
   one_pos, one_pos, one_le_two, rfl, rfl, rfl, rfl, fun h => zero_ne_one (congrFun h 0)⟩

/-- ... Llncosh -/
example : ∃ (o o' : Obj (llncosh ℝ 2)) (y e y' e' : ℕ → ℝ) (S S' : ℕ → Core ℝ 2 (LlncoshExt ℝ)),
    Runs (llncosh ℝ 2) o (fun k => (k : ℝ) ^ 2) turns y e S ∧ Runs (llncosh ℝ 2) o' (fun k => (k : ℝ) ^ 2) turns y' e' S' ∧ o'.core.mu = o.core.mu ∧
    o'.core.ext = o.core.ext ∧ 0 ≤ o.core.mu ∧ 0 ≤ o.core.ext.lambd ∧ (∀ k, o.core.mu * o.core.ext.lambd * ∑ i, turns k i ^ 2 ≤ 2) ∧ o.core.w ≠ o'.core.w :=
  ⟨⟨⟨fun _ => 0, 2, 1, (⟨1⟩ : LlncoshExt ℝ)⟩, []⟩, ⟨⟨fun _ => 1, 2, 1, (⟨1⟩ : LlncoshExt ℝ)⟩, []⟩, _, _, _, _, _, _, runs_of_safe llncosh_safe _ trivial _ _,
    runs_of_safe llncosh_safe _ trivial _ _, rfl, rfl, zero_le_one, zero_le_one, fun k => by
      have := turns_sqn k
      show (1 : ℝ) * 1 * _ ≤ 2
      linarith, fun h => zero_ne_one (congrFun h 0)⟩

end examples

end Padasip
