import Verif.Props.Excitation
import Verif.Props.Posteriori

/-!
# C97-C98: filters that diverge on data without noise

C97: sign-sign filters (SSLMS, NSSLMS) diverge for EVERY positive step size on a bounded, persistently exciting, perfectly predictable stream that LMS learns.
C98: the fourth-power filters (LMF, NLMF) diverge for every positive step size when the target is large enough, and converge when it is small
enough: there is no step size that is safe for all data.
-/

set_option linter.unusedSectionVars false
set_option linter.unusedVariables false
set_option linter.unusedSimpArgs false
set_option linter.unusedTactic false
set_option linter.unreachableTactic false
set_option linter.unnecessarySeqFocus false

namespace Padasip

open Finset

/-- the input rows `(1, 1, -3)`, `(1, -3, 1)`, `(-3, 1, 1)`, repeated for ever -/
def carousel {K : Type} [Field K] (k : ℕ) : Vec K 3 := fun i => if (k + i.val) % 3 = 2 then -3 else 1

section field
variable {K : Type} [Field K] [LinearOrder K] [IsStrictOrderedRing K]

theorem carousel_zero (k : ℕ) : (carousel (3 * k) : Vec K 3) = ![1, 1, -3] := by
  funext i
  fin_cases i <;> simp [carousel] <;> omega

theorem carousel_one (k : ℕ) : (carousel (3 * k + 1) : Vec K 3) = ![1, -3, 1] := by
  funext i
  fin_cases i <;> simp [carousel] <;> omega

theorem carousel_two (k : ℕ) : (carousel (3 * k + 2) : Vec K 3) = ![-3, 1, 1] := by
  funext i
  fin_cases i <;> simp [carousel] <;> omega

theorem carousel_sqn (k : ℕ) : sqn (carousel k : Vec K 3) = 11 := by
  obtain ⟨q, h | h | h⟩ : ∃ q, k = 3 * q ∨ k = 3 * q + 1 ∨ k = 3 * q + 2 := ⟨k / 3, by omega⟩
  · rw [h, carousel_zero]; simp [sqn, Fin.sum_univ_three]; norm_num
  · rw [h, carousel_one]; simp [sqn, Fin.sum_univ_three]; norm_num
  · rw [h, carousel_two]; simp [sqn, Fin.sum_univ_three]; norm_num

/-- the constant target 1 is perfectly predictable from the carousel: by the weights `(-1, -1, -1)` -/
theorem carousel_target (k : ℕ) : (1 : K) = ∑ i, (-1) * (carousel k : Vec K 3) i := by
  obtain ⟨q, h | h | h⟩ : ∃ q, k = 3 * q ∨ k = 3 * q + 1 ∨ k = 3 * q + 2 := ⟨k / 3, by omega⟩
  · rw [h, carousel_zero]; simp [Fin.sum_univ_three]; norm_num
  · rw [h, carousel_one]; simp [Fin.sum_univ_three]; norm_num
  · rw [h, carousel_two]; simp [Fin.sum_univ_three]; norm_num

theorem sgn_pos' {a : K} (h : 0 < a) : Scalar.sgn a = (1 : K) := by
  show (if 0 < a then (1 : K) else _) = 1
  rw [if_pos h]

theorem sgn_neg' {a : K} (h : a < 0) : Scalar.sgn a = (-1 : K) := by
  show (if 0 < a then (1 : K) else if a < 0 then -1 else 0) = -1
  rw [if_neg h.le.not_gt, if_pos h]

/-- three steps of a sign-sign update with gain `g` along the carousel, target 1 -/
theorem carousel_round {g : K} (hg : 0 < g) {w : ℕ → Vec K 3} {e : ℕ → K}
    (he : ∀ k, e k = 1 - dot (w k) (carousel k))
    (hw : ∀ k, w (k + 1) = fun i => w k i + g * Scalar.sgn (carousel k i : K) * Scalar.sgn (e k))
    (h0 : w 0 = fun _ => 0) (k : ℕ) :
    (w (3 * k) = fun _ => k * g) ∧ e (3 * k) = 1 + k * g ∧ e (3 * k + 1) = 1 + k * g + 3 * g ∧
      e (3 * k + 2) = 1 + k * g + 6 * g := by
  have s1 : Scalar.sgn (1 : K) = 1 := sgn_pos' one_pos
  have s3 : Scalar.sgn (-3 : K) = -1 := sgn_neg' (by norm_num)
  have step : ∀ k : ℕ, (w (3 * k) = fun _ => k * g) → (w (3 * (k + 1)) = fun _ => ((k + 1 : ℕ) : K) * g) ∧
      e (3 * k) = 1 + k * g ∧ e (3 * k + 1) = 1 + k * g + 3 * g ∧ e (3 * k + 2) = 1 + k * g + 6 * g := by
    intro k h
    have hk : (0 : K) ≤ k * g := mul_nonneg (Nat.cast_nonneg _) hg.le
    have e0 : e (3 * k) = 1 + k * g := by
      rw [he, h, carousel_zero, dot_eq]; simp [Fin.sum_univ_three]; ring
    have w1 : w (3 * k + 1) = ![k * g + g, k * g + g, k * g - g] := by
      rw [hw, h, carousel_zero, e0, sgn_pos' (by linarith : 0 < 1 + k * g)]
      funext i; fin_cases i <;> simp [s1, s3] <;> ring
    have e1 : e (3 * k + 1) = 1 + k * g + 3 * g := by
      rw [he, w1, carousel_one, dot_eq]; simp [Fin.sum_univ_three]; ring
    have w2 : w (3 * k + 2) = ![k * g + 2 * g, k * g, k * g] := by
      rw [hw, w1, carousel_one, e1, sgn_pos' (by linarith : 0 < 1 + k * g + 3 * g)]
      funext i; fin_cases i <;> simp [s1, s3] <;> ring
    have e2 : e (3 * k + 2) = 1 + k * g + 6 * g := by
      rw [he, w2, carousel_two, dot_eq]; simp [Fin.sum_univ_three]; ring
    refine ⟨?_, e0, e1, e2⟩
    rw [show 3 * (k + 1) = 3 * k + 2 + 1 from by ring, hw, w2, carousel_two, e2,
      sgn_pos' (by linarith : 0 < 1 + k * g + 6 * g)]
    funext i; fin_cases i <;> simp [s1, s3] <;> ring
  have all : ∀ k : ℕ, w (3 * k) = fun _ => k * g := by
    intro k
    induction k with
    | zero => rw [Nat.mul_zero, h0]; simp
    | succ k ih => exact (step k ih).1
  exact ⟨all k, (step k (all k)).2⟩

/-- C97: SSLMS started with zero weights on the carousel with the constant, perfectly predictable target 1: whatever the step size `mu > 0`, after `k` rounds every weight
is `+k mu` - moving away from the solution `-1` - and the error is `1 + k mu`. -/
theorem C97_sslms_diverges (o : Obj (sslms K 3)) {S : ℕ → Core K 3 Unit} {y e : ℕ → K}
    (h : Runs (sslms K 3) o (fun _ => 1) carousel y e S) (hw : o.core.w = fun _ => 0) (hmu : 0 < o.core.mu) (k : ℕ) :
    ((S (3 * k)).w = fun _ => k * o.core.mu) ∧ e (3 * k) = 1 + k * o.core.mu ∧
      e (3 * k + 1) = 1 + k * o.core.mu + 3 * o.core.mu ∧ e (3 * k + 2) = 1 + k * o.core.mu + 6 * o.core.mu := by
  refine carousel_round (w := fun k => (S k).w) hmu (fun k => ?_) (fun k => ?_) (by rw [h.1]; exact hw) k
  · obtain ⟨-, -, hy, he, -⟩ := sslms_runs h k
    rw [he, hy]
  · obtain ⟨h1, -, -, -, hs⟩ := sslms_runs h k
    simp only [hs, h1]

/-- C97: NSSLMS on the same data: the normalisation does not help, the effective step is `mu / (eps + 11)`. -/
theorem C97_nsslms_diverges (o : Obj (nsslms K 3)) {S : ℕ → Core K 3 (EpsExt K)} {y e : ℕ → K}
    (h : Runs (nsslms K 3) o (fun _ => 1) carousel y e S) (hw : o.core.w = fun _ => 0) (hmu : 0 < o.core.mu)
    (heps : 0 ≤ o.core.ext.eps) (k : ℕ) :
    ((S (3 * k)).w = fun _ => k * (o.core.mu / (o.core.ext.eps + 11))) ∧
      e (3 * k) = 1 + k * (o.core.mu / (o.core.ext.eps + 11)) ∧
      e (3 * k + 1) = 1 + k * (o.core.mu / (o.core.ext.eps + 11)) + 3 * (o.core.mu / (o.core.ext.eps + 11)) ∧
      e (3 * k + 2) = 1 + k * (o.core.mu / (o.core.ext.eps + 11)) + 6 * (o.core.mu / (o.core.ext.eps + 11)) := by
  have hg : 0 < o.core.mu / (o.core.ext.eps + 11) := div_pos hmu (by linarith)
  exact carousel_round (w := fun k => (S k).w) (e := e) hg (fun k => by
      obtain ⟨-, -, hy, he, -⟩ := nsslms_runs h k
      rw [he, hy]) (fun k => by
      obtain ⟨h1, h2, -, -, hs⟩ := nsslms_runs h k
      have := carousel_sqn (K := K) k
      simp only [hs, h1, h2, sqn_eq_dot, this]) (by rw [h.1]; exact hw) k

/-- the carousel is persistently exciting -/
theorem carousel_exciting : Exciting (carousel : ℕ → Vec K 3) 3 1 := by
  intro k v
  have key : ∀ a b c : K, (a ^ 2 + b ^ 2 + c ^ 2 : K) ≤ (a + b - 3 * c) ^ 2 + (a - 3 * b + c) ^ 2 + (-3 * a + b + c) ^ 2 := by
    intro a b c
    nlinarith [sq_nonneg (a + b + c), sq_nonneg (a - b), sq_nonneg (b - c), sq_nonneg (a - c)]
  have hk := key (v 0) (v 1) (v 2)
  obtain ⟨q, h | h | h⟩ : ∃ q, k = 3 * q ∨ k = 3 * q + 1 ∨ k = 3 * q + 2 := ⟨k / 3, by omega⟩
  all_goals
    subst h
    simp only [sum_range_succ, sum_range_zero, Fin.sum_univ_three]
  · rw [show 3 * q + 0 = 3 * q from rfl, carousel_zero, carousel_one, carousel_two]
    simp; nlinarith
  · rw [show 3 * q + 1 + 0 = 3 * q + 1 from rfl, show 3 * q + 1 + 1 = 3 * q + 2 from rfl,
      show 3 * q + 1 + 2 = 3 * (q + 1) from by ring, carousel_zero, carousel_one, carousel_two]
    simp; nlinarith
  · rw [show 3 * q + 2 + 0 = 3 * q + 2 from rfl, show 3 * q + 2 + 1 = 3 * (q + 1) from by ring,
      show 3 * q + 2 + 2 = 3 * (q + 1) + 1 from by ring, carousel_zero, carousel_one, carousel_two]
    simp; nlinarith

end field

section real

theorem unbounded_of_thirds {e : ℕ → ℝ} {g : ℝ} (hg : 0 < g)
    (h : ∀ k : ℕ, 1 + k * g ≤ e (3 * k) ∧ 1 + k * g ≤ e (3 * k + 1) ∧ 1 + k * g ≤ e (3 * k + 2)) :
    Filter.Tendsto e Filter.atTop Filter.atTop := by
  refine Filter.tendsto_atTop.mpr fun B => ?_
  obtain ⟨N, hN⟩ := exists_nat_gt (B / g)
  refine Filter.eventually_atTop.mpr ⟨3 * N, fun k hk => ?_⟩
  have hB : B < N * g := (div_lt_iff₀ hg).mp hN
  have hq : N ≤ k / 3 := by omega
  have hq' : (N : ℝ) * g ≤ (k / 3 : ℕ) * g := mul_le_mul_of_nonneg_right (Nat.cast_le.mpr hq) hg.le
  obtain ⟨h0, h1, h2⟩ := h (k / 3)
  rcases (by omega : k = 3 * (k / 3) ∨ k = 3 * (k / 3) + 1 ∨ k = 3 * (k / 3) + 2) with e | e | e <;> rw [e] <;> linarith

/-- C97: the SSLMS errors tend to infinity, for every step size `mu > 0`... -/
theorem C97_sslms_error_explodes (o : Obj (sslms ℝ 3)) {S : ℕ → Core ℝ 3 Unit} {y e : ℕ → ℝ}
    (h : Runs (sslms ℝ 3) o (fun _ => 1) carousel y e S) (hw : o.core.w = fun _ => 0) (hmu : 0 < o.core.mu) :
    Filter.Tendsto e Filter.atTop Filter.atTop := by
  refine unbounded_of_thirds hmu fun k => ?_
  obtain ⟨-, h0, h1, h2⟩ := C97_sslms_diverges o h hw hmu k
  rw [h0, h1, h2]
  exact ⟨le_refl _, by linarith, by linarith⟩

/-- C97: ... and so do the NSSLMS errors. -/
theorem C97_nsslms_error_explodes (o : Obj (nsslms ℝ 3)) {S : ℕ → Core ℝ 3 (EpsExt ℝ)} {y e : ℕ → ℝ}
    (h : Runs (nsslms ℝ 3) o (fun _ => 1) carousel y e S) (hw : o.core.w = fun _ => 0) (hmu : 0 < o.core.mu)
    (heps : 0 ≤ o.core.ext.eps) :
    Filter.Tendsto e Filter.atTop Filter.atTop := by
  have hg : 0 < o.core.mu / (o.core.ext.eps + 11) := div_pos hmu (by linarith)
  refine unbounded_of_thirds hg fun k => ?_
  obtain ⟨-, h0, h1, h2⟩ := C97_nsslms_diverges o h hw hmu heps k
  rw [h0, h1, h2]
  exact ⟨le_refl _, by linarith, by linarith⟩

/-- C97: ... while on the very same data LMS with any `0 < mu < 2/11` finds the solution `(-1, -1, -1)`, from any initial weights... -/
theorem C97_lms_learns (o : Obj (lms ℝ 3)) {S : ℕ → Core ℝ 3 Unit} {y e : ℕ → ℝ}
    (h : Runs (lms ℝ 3) o (fun _ => 1) carousel y e S) (hmu : 0 < o.core.mu) (hmu2 : o.core.mu < 2 / 11) :
    Filter.Tendsto e Filter.atTop (nhds 0) ∧ ∀ i, Filter.Tendsto (fun k => (S k).w i) Filter.atTop (nhds (-1)) := by
  have hm : o.core.mu * 11 < 2 := by linarith
  exact ⟨C21_error_vanishes o h (fun _ => -1) carousel_target hmu hm fun k => by rw [carousel_sqn],
    C94_lms_identifies o h (fun _ => -1) carousel_target hmu (B := 11) (fun k => (carousel_sqn k).le) hm (by norm_num)
      one_pos carousel_exciting⟩

/-- C97: ... and NLMS with any `0 < mu < 2`. -/
theorem C97_nlms_learns (o : Obj (nlms ℝ 3)) {S : ℕ → Core ℝ 3 (EpsExt ℝ)} {y e : ℕ → ℝ}
    (h : Runs (nlms ℝ 3) o (fun _ => 1) carousel y e S) (heps : 0 < o.core.ext.eps) (hmu : 0 < o.core.mu) (hmu2 : o.core.mu < 2) :
    Filter.Tendsto e Filter.atTop (nhds 0) ∧ ∀ i, Filter.Tendsto (fun k => (S k).w i) Filter.atTop (nhds (-1)) :=
  ⟨C22_error_vanishes o h (fun _ => -1) carousel_target heps hmu hmu2 fun k => (carousel_sqn k).le,
    C94_nlms_identifies o h (fun _ => -1) carousel_target heps hmu hmu2 (B := 11) (fun k => (carousel_sqn k).le) (by norm_num)
      one_pos carousel_exciting⟩

/-- the C97 runs exist -/
example : ∃ (o : Obj (sslms ℝ 3)) (y e : ℕ → ℝ) (S : ℕ → Core ℝ 3 Unit),
    Runs (sslms ℝ 3) o (fun _ => 1) carousel y e S ∧ o.core.w = (fun _ => 0) ∧ 0 < o.core.mu :=
  ⟨⟨⟨fun _ => 0, 3, 1 / 1000, ()⟩, []⟩, _, _, _, runs_of_safe sslms_safe _ trivial _ _, rfl, by norm_num⟩

example : ∃ (o : Obj (nsslms ℝ 3)) (y e : ℕ → ℝ) (S : ℕ → Core ℝ 3 (EpsExt ℝ)),
    Runs (nsslms ℝ 3) o (fun _ => 1) carousel y e S ∧ o.core.w = (fun _ => 0) ∧ 0 < o.core.mu ∧ 0 ≤ o.core.ext.eps :=
  ⟨⟨⟨fun _ => 0, 3, 1 / 1000, ⟨1⟩⟩, []⟩, _, _, _, runs_of_safe nsslms_safe _ trivial _ _, rfl, by norm_num, by norm_num⟩

end real

/-! ## C98 -/

section cubic

/-- the scalar recursion of a fourth-power filter on one repeated sample -/
theorem cubic_sq {e : ℕ → ℝ} {a : ℝ} (he : ∀ k, e (k + 1) = e k - a * e k ^ 3) (k : ℕ) :
    a * e (k + 1) ^ 2 = a * e k ^ 2 - (a * e k ^ 2) ^ 2 * (2 - a * e k ^ 2) := by
  rw [he]; ring

theorem cubic_small {e : ℕ → ℝ} {a : ℝ} (ha : 0 < a) (he : ∀ k, e (k + 1) = e k - a * e k ^ 3) (h0 : a * e 0 ^ 2 < 2) :
    Filter.Tendsto e Filter.atTop (nhds 0) := by
  have nn : ∀ k, 0 ≤ a * e k ^ 2 := fun k => mul_nonneg ha.le (sq_nonneg _)
  have le0 : ∀ k, a * e k ^ 2 ≤ a * e 0 ^ 2 := by
    intro k
    induction k with
    | zero => exact le_refl _
    | succ k ih =>
      rw [cubic_sq he]
      have : 0 ≤ (a * e k ^ 2) ^ 2 * (2 - a * e k ^ 2) := mul_nonneg (sq_nonneg _) (by linarith)
      linarith
  have hq : Filter.Tendsto (fun k => a * e k ^ 2) Filter.atTop (nhds 0) := by
    refine tendsto_zero_of_energy (B := a * e 0 ^ 2) (c := 2 - a * e 0 ^ 2) (by linarith) fun N => ?_
    have key : a * e N ^ 2 + ∑ k ∈ range N, (2 - a * e 0 ^ 2) * (a * e k ^ 2) ^ 2 ≤ a * e 0 ^ 2 := by
      induction N with
      | zero => simp
      | succ N ih =>
        rw [sum_range_succ, cubic_sq he]
        have h1 := mul_le_mul_of_nonneg_right (sub_le_sub_left (le0 N) 2) (sq_nonneg (a * e N ^ 2))
        linarith
    linarith [nn N]
  have h2 : Filter.Tendsto (fun k => e k ^ 2) Filter.atTop (nhds 0) := by
    have := hq.const_mul a⁻¹
    simpa [← mul_assoc, inv_mul_cancel₀ ha.ne'] using this
  have h3 := h2.sqrt
  rw [Real.sqrt_zero] at h3
  simp only [Real.sqrt_sq_eq_abs] at h3
  exact (tendsto_zero_iff_abs_tendsto_zero e).mpr h3

theorem cubic_grow {e : ℕ → ℝ} {a : ℝ} (ha : 0 < a) (he : ∀ k, e (k + 1) = e k - a * e k ^ 3) (h0 : 2 ≤ a * e 0 ^ 2) (k : ℕ) :
    a * e 0 ^ 2 * ((1 - a * e 0 ^ 2) ^ 2) ^ k ≤ a * e k ^ 2 := by
  have h1 : 1 ≤ (1 - a * e 0 ^ 2) ^ 2 := by nlinarith
  induction k with
  | zero => simp
  | succ k ih =>
    have h2 : a * e 0 ^ 2 ≤ a * e k ^ 2 := by
      refine le_trans ?_ ih
      exact le_mul_of_one_le_right (by linarith) (one_le_pow₀ h1)
    have h3 : a * e (k + 1) ^ 2 = a * e k ^ 2 * (1 - a * e k ^ 2) ^ 2 := by rw [he]; ring
    rw [h3, show a * e 0 ^ 2 * ((1 - a * e 0 ^ 2) ^ 2) ^ (k + 1)
      = (a * e 0 ^ 2 * ((1 - a * e 0 ^ 2) ^ 2) ^ k) * (1 - a * e 0 ^ 2) ^ 2 from by ring]
    refine mul_le_mul ih ?_ (sq_nonneg _) (by linarith)
    nlinarith

theorem cubic_large {e : ℕ → ℝ} {a : ℝ} (ha : 0 < a) (he : ∀ k, e (k + 1) = e k - a * e k ^ 3) (h0 : 2 < a * e 0 ^ 2) :
    Filter.Tendsto (fun k => |e k|) Filter.atTop Filter.atTop := by
  have h1 : 1 < (1 - a * e 0 ^ 2) ^ 2 := by nlinarith
  have h2 : Filter.Tendsto (fun k => a * e k ^ 2) Filter.atTop Filter.atTop :=
    Filter.tendsto_atTop_mono (cubic_grow ha he h0.le)
      ((tendsto_pow_atTop_atTop_of_one_lt h1).const_mul_atTop (by linarith))
  have h3 : Filter.Tendsto (fun k => e k ^ 2) Filter.atTop Filter.atTop := by
    have := h2.const_mul_atTop (inv_pos.mpr ha)
    refine this.congr fun k => ?_
    rw [← mul_assoc, inv_mul_cancel₀ ha.ne', one_mul]
  have h4 := Real.tendsto_sqrt_atTop.comp h3
  refine h4.congr fun k => ?_
  exact Real.sqrt_sq_eq_abs _

theorem cubic_iff {e : ℕ → ℝ} {a : ℝ} (ha : 0 < a) (he : ∀ k, e (k + 1) = e k - a * e k ^ 3) :
    Filter.Tendsto e Filter.atTop (nhds 0) ↔ a * e 0 ^ 2 < 2 := by
  refine ⟨fun h => ?_, cubic_small ha he⟩
  by_contra hc
  have hc : 2 ≤ a * e 0 ^ 2 := not_lt.mp hc
  have h1 : ∀ k, 2 ≤ a * e k ^ 2 := fun k => by
    refine le_trans ?_ (cubic_grow ha he hc k)
    have : 1 ≤ (1 - a * e 0 ^ 2) ^ 2 := by nlinarith
    exact hc.trans (le_mul_of_one_le_right (by linarith) (one_le_pow₀ this))
  have h2 : Filter.Tendsto (fun k => a * e k ^ 2) Filter.atTop (nhds 0) := by
    simpa using (h.pow 2).const_mul a
  have := ge_of_tendsto' h2 h1
  linarith

variable {n : ℕ}

theorem lmf_repeat {o : Obj (lmf ℝ n)} {S : ℕ → Core ℝ n Unit} {y e : ℕ → ℝ} {c : ℝ} {v : Vec ℝ n}
    (h : Runs (lmf ℝ n) o (fun _ => c) (fun _ => v) y e S) (k : ℕ) :
    e (k + 1) = e k - (o.core.mu * sqn v) * e k ^ 3 := by
  obtain ⟨h1, -, hy, he, hw⟩ := lmf_runs h k
  obtain ⟨-, -, hy', he', -⟩ := lmf_runs h (k + 1)
  rw [he', hy', hw, h1, show (fun i => (S k).w i + o.core.mu * v i * (e k * e k * e k))
    = fun i => (S k).w i + (o.core.mu * e k ^ 3) * v i from funext fun i => by ring, dot_step, ← hy]
  rw [show c - (y k + o.core.mu * e k ^ 3 * ∑ i, v i ^ 2) = (c - y k) - (o.core.mu * sqn v) * e k ^ 3 from by
    unfold sqn; ring, ← he]

theorem nlmf_repeat {o : Obj (nlmf ℝ n)} {S : ℕ → Core ℝ n (EpsExt ℝ)} {y e : ℕ → ℝ} {c : ℝ} {v : Vec ℝ n}
    (h : Runs (nlmf ℝ n) o (fun _ => c) (fun _ => v) y e S) (k : ℕ) :
    e (k + 1) = e k - (o.core.mu / (o.core.ext.eps + sqn v) * sqn v) * e k ^ 3 := by
  obtain ⟨h1, h2, hy, he, hw⟩ := nlmf_runs h k
  obtain ⟨-, -, hy', he', -⟩ := nlmf_runs h (k + 1)
  rw [he', hy', hw, h1, h2, show (fun i => (S k).w i + o.core.mu / (o.core.ext.eps + dot v v) * v i * (e k * e k * e k))
    = fun i => (S k).w i + (o.core.mu / (o.core.ext.eps + dot v v) * e k ^ 3) * v i from funext fun i => by ring, dot_step, ← hy]
  rw [sqn_eq_dot]
  rw [show c - (y k + o.core.mu / (o.core.ext.eps + sqn v) * e k ^ 3 * ∑ i, v i ^ 2)
    = (c - y k) - (o.core.mu / (o.core.ext.eps + sqn v) * sqn v) * e k ^ 3 from by
    unfold sqn; ring, ← he]

/-- C98: LMF learns one repeated sample `(v, c)` if and only if `mu |v|^2 e(0)^2 < 2`, where `e(0) = c - <w(0), v>` is its first error. -/
theorem C98_lmf_learns_iff (o : Obj (lmf ℝ n)) {S : ℕ → Core ℝ n Unit} {y e : ℕ → ℝ} {c : ℝ} {v : Vec ℝ n}
    (h : Runs (lmf ℝ n) o (fun _ => c) (fun _ => v) y e S) (hmu : 0 < o.core.mu) (hv : 0 < ∑ i, v i ^ 2) :
    Filter.Tendsto e Filter.atTop (nhds 0) ↔ o.core.mu * (∑ i, v i ^ 2) * (c - ∑ i, o.core.w i * v i) ^ 2 < 2 := by
  have h0 : e 0 = c - ∑ i, o.core.w i * v i := by
    obtain ⟨-, -, hy, he, -⟩ := lmf_runs h 0
    rw [he, hy, h.1, dot_eq]; rfl
  rw [← h0]
  exact cubic_iff (mul_pos hmu hv) (lmf_repeat h)

/-- C98: and if `mu |v|^2 e(0)^2 > 2`, its error tends to infinity. -/
theorem C98_lmf_explodes (o : Obj (lmf ℝ n)) {S : ℕ → Core ℝ n Unit} {y e : ℕ → ℝ} {c : ℝ} {v : Vec ℝ n}
    (h : Runs (lmf ℝ n) o (fun _ => c) (fun _ => v) y e S) (hmu : 0 < o.core.mu) (hv : 0 < ∑ i, v i ^ 2)
    (hc : 2 < o.core.mu * (∑ i, v i ^ 2) * (c - ∑ i, o.core.w i * v i) ^ 2) :
    Filter.Tendsto (fun k => |e k|) Filter.atTop Filter.atTop := by
  have h0 : e 0 = c - ∑ i, o.core.w i * v i := by
    obtain ⟨-, -, hy, he, -⟩ := lmf_runs h 0
    rw [he, hy, h.1, dot_eq]; rfl
  rw [← h0] at hc
  exact cubic_large (mul_pos hmu hv) (lmf_repeat h) hc

/-- C98: no step size is safe for LMF: whatever the filter (`mu > 0`) and the input `v` (not 0), every target large enough makes the
error tend to infinity. -/
theorem C98_lmf_no_safe_step (o : Obj (lmf ℝ n)) (v : Vec ℝ n) (hmu : 0 < o.core.mu) (hv : 0 < ∑ i, v i ^ 2) :
    ∃ C : ℝ, ∀ c, C < c → ∀ (S : ℕ → Core ℝ n Unit) (y e : ℕ → ℝ), Runs (lmf ℝ n) o (fun _ => c) (fun _ => v) y e S →
      Filter.Tendsto (fun k => |e k|) Filter.atTop Filter.atTop := by
  have hp := mul_pos hmu hv
  refine ⟨(∑ i, o.core.w i * v i) + (1 + 2 / (o.core.mu * ∑ i, v i ^ 2)), fun c hc S y e h => C98_lmf_explodes o h hmu hv ?_⟩
  have h1 : 1 + 2 / (o.core.mu * ∑ i, v i ^ 2) < c - ∑ i, o.core.w i * v i := by linarith
  have h2 : 0 < 2 / (o.core.mu * ∑ i, v i ^ 2) := by positivity
  have h3 : 2 / (o.core.mu * ∑ i, v i ^ 2) < (c - ∑ i, o.core.w i * v i) ^ 2 := by nlinarith
  rwa [div_lt_iff₀ hp, mul_comm] at h3

/-- C98: NLMF: the normalisation does not remove the limit; the criterion is `mu |v|^2 / (eps + |v|^2) e(0)^2 < 2`. -/
theorem C98_nlmf_learns_iff (o : Obj (nlmf ℝ n)) {S : ℕ → Core ℝ n (EpsExt ℝ)} {y e : ℕ → ℝ} {c : ℝ} {v : Vec ℝ n}
    (h : Runs (nlmf ℝ n) o (fun _ => c) (fun _ => v) y e S) (hmu : 0 < o.core.mu) (heps : 0 < o.core.ext.eps)
    (hv : 0 < ∑ i, v i ^ 2) :
    Filter.Tendsto e Filter.atTop (nhds 0) ↔
      o.core.mu / (o.core.ext.eps + ∑ i, v i ^ 2) * (∑ i, v i ^ 2) * (c - ∑ i, o.core.w i * v i) ^ 2 < 2 := by
  have h0 : e 0 = c - ∑ i, o.core.w i * v i := by
    obtain ⟨-, -, hy, he, -⟩ := nlmf_runs h 0
    rw [he, hy, h.1, dot_eq]; rfl
  rw [← h0]
  exact cubic_iff (mul_pos (div_pos hmu (by positivity)) hv) (nlmf_repeat h)

theorem C98_nlmf_explodes (o : Obj (nlmf ℝ n)) {S : ℕ → Core ℝ n (EpsExt ℝ)} {y e : ℕ → ℝ} {c : ℝ} {v : Vec ℝ n}
    (h : Runs (nlmf ℝ n) o (fun _ => c) (fun _ => v) y e S) (hmu : 0 < o.core.mu) (heps : 0 < o.core.ext.eps)
    (hv : 0 < ∑ i, v i ^ 2)
    (hc : 2 < o.core.mu / (o.core.ext.eps + ∑ i, v i ^ 2) * (∑ i, v i ^ 2) * (c - ∑ i, o.core.w i * v i) ^ 2) :
    Filter.Tendsto (fun k => |e k|) Filter.atTop Filter.atTop := by
  have h0 : e 0 = c - ∑ i, o.core.w i * v i := by
    obtain ⟨-, -, hy, he, -⟩ := nlmf_runs h 0
    rw [he, hy, h.1, dot_eq]; rfl
  rw [← h0] at hc
  exact cubic_large (mul_pos (div_pos hmu (by positivity)) hv) (nlmf_repeat h) hc

/-! ### a region in which the fourth-power filters are safe, for any stream of inputs -/

theorem misalign_step {w x ws : Vec ℝ n} {d e g : ℝ} (hd : d = ∑ i, ws i * x i) (he : e = d - ∑ i, w i * x i) :
    sqn (fun i => (w i + g * x i) - ws i) = sqn (fun i => w i - ws i) - 2 * g * e + g ^ 2 * sqn x := by
  have h2 : (fun i => (w i + g * x i) - ws i) = fun i => (w i - ws i) + g * x i := funext fun i => by ring
  have h3 : ∑ i, (w i - ws i) * x i = - e := by
    rw [he, hd]; simp only [sub_mul, sum_sub_distrib]; ring
  rw [h2, sqn_add_smul, h3]; ring

theorem err_sq_le {w x ws : Vec ℝ n} {d e B : ℝ} (hd : d = ∑ i, ws i * x i) (he : e = d - ∑ i, w i * x i) (hB : sqn x ≤ B) :
    e ^ 2 ≤ B * sqn (fun i => w i - ws i) := by
  have h3 : e = - ∑ i, (w i - ws i) * x i := by
    rw [he, hd]; simp only [sub_mul, sum_sub_distrib]; ring
  rw [h3, neg_sq]
  refine (Finset.sum_mul_sq_le_sq_mul_sq univ (fun i => w i - ws i) x).trans ?_
  rw [mul_comm]
  exact mul_le_mul_of_nonneg_right hB (sqn_nonneg _)

/-- C98: on noise-free data with `|x(k)|^2 <= B`, if the initial misalignment is small enough, `mu B^2 |w(0) - ws|^2 <= 2`, LMF never increases it. -/
theorem C98_lmf_safe_region (o : Obj (lmf ℝ n)) {d : ℕ → ℝ} {x : ℕ → Vec ℝ n} {y e : ℕ → ℝ} {S : ℕ → Core ℝ n Unit}
    (h : Runs (lmf ℝ n) o d x y e S) (ws : Vec ℝ n) (hd : ∀ k, d k = ∑ i, ws i * x k i) (hmu : 0 ≤ o.core.mu) {B : ℝ}
    (hx : ∀ k, ∑ i, x k i ^ 2 ≤ B) (h0 : o.core.mu * B ^ 2 * ∑ i, (o.core.w i - ws i) ^ 2 ≤ 2) (k : ℕ) :
    (∑ i, ((S (k + 1)).w i - ws i) ^ 2 ≤ ∑ i, ((S k).w i - ws i) ^ 2) ∧
    o.core.mu * B ^ 2 * ∑ i, ((S k).w i - ws i) ^ 2 ≤ 2 := by
  have hB : 0 ≤ B := (sqn_nonneg (x 0)).trans (hx 0)
  have step : ∀ k, o.core.mu * B ^ 2 * (∑ i, ((S k).w i - ws i) ^ 2) ≤ 2 →
      ∑ i, ((S (k + 1)).w i - ws i) ^ 2 ≤ ∑ i, ((S k).w i - ws i) ^ 2 := by
    intro k hk
    obtain ⟨h1, -, hy, he, hw⟩ := lmf_runs h k
    have he' : e k = d k - ∑ i, (S k).w i * x k i := by rw [he, hy, dot_eq]
    have hs : ∑ i, ((S (k + 1)).w i - ws i) ^ 2
        = sqn (fun i => (S k).w i - ws i) - 2 * (o.core.mu * e k ^ 3) * e k + (o.core.mu * e k ^ 3) ^ 2 * sqn (x k) := by
      rw [← misalign_step (hd k) he', hw, h1]
      exact sum_congr rfl fun i _ => by ring
    rw [hs]
    show _ ≤ sqn (fun i => (S k).w i - ws i)
    have h2 := err_sq_le (hd k) he' (hx k)
    have h3 : o.core.mu * e k ^ 2 * sqn (x k) ≤ 2 := by
      refine le_trans ?_ hk
      calc o.core.mu * e k ^ 2 * sqn (x k) ≤ o.core.mu * (B * sqn (fun i => (S k).w i - ws i)) * B :=
            mul_le_mul (mul_le_mul_of_nonneg_left h2 hmu) (hx k) (sqn_nonneg _)
              (mul_nonneg hmu (mul_nonneg hB (sqn_nonneg _)))
        _ = _ := by unfold sqn; ring
    have h4 : 0 ≤ o.core.mu * (e k ^ 2) ^ 2 * (2 - o.core.mu * e k ^ 2 * sqn (x k)) :=
      mul_nonneg (mul_nonneg hmu (sq_nonneg _)) (by linarith)
    nlinarith
  have all : ∀ k, o.core.mu * B ^ 2 * (∑ i, ((S k).w i - ws i) ^ 2) ≤ 2 := by
    intro k
    induction k with
    | zero => rw [h.1]; exact h0
    | succ k ih => exact (mul_le_mul_of_nonneg_left (step k ih) (mul_nonneg hmu (sq_nonneg _))).trans ih
  exact ⟨step k (all k), all k⟩

/-- C98: NLMF: a larger region, `mu B |w(0) - ws|^2 <= 2`. -/
theorem C98_nlmf_safe_region (o : Obj (nlmf ℝ n)) {d : ℕ → ℝ} {x : ℕ → Vec ℝ n} {y e : ℕ → ℝ} {S : ℕ → Core ℝ n (EpsExt ℝ)}
    (h : Runs (nlmf ℝ n) o d x y e S) (ws : Vec ℝ n) (hd : ∀ k, d k = ∑ i, ws i * x k i) (hmu : 0 ≤ o.core.mu)
    (heps : 0 < o.core.ext.eps) {B : ℝ}
    (hx : ∀ k, ∑ i, x k i ^ 2 ≤ B) (h0 : o.core.mu * B * ∑ i, (o.core.w i - ws i) ^ 2 ≤ 2) (k : ℕ) :
    (∑ i, ((S (k + 1)).w i - ws i) ^ 2 ≤ ∑ i, ((S k).w i - ws i) ^ 2) ∧
    o.core.mu * B * ∑ i, ((S k).w i - ws i) ^ 2 ≤ 2 := by
  have hB : 0 ≤ B := (sqn_nonneg (x 0)).trans (hx 0)
  have step : ∀ k, o.core.mu * B * (∑ i, ((S k).w i - ws i) ^ 2) ≤ 2 →
      ∑ i, ((S (k + 1)).w i - ws i) ^ 2 ≤ ∑ i, ((S k).w i - ws i) ^ 2 := by
    intro k hk
    obtain ⟨h1, h1', hy, he, hw⟩ := nlmf_runs h k
    have he' : e k = d k - ∑ i, (S k).w i * x k i := by rw [he, hy, dot_eq]
    have hs0 := sqn_nonneg (x k)
    have hq : 0 < o.core.ext.eps + sqn (x k) := by linarith
    have hr : 0 ≤ o.core.mu / (o.core.ext.eps + sqn (x k)) := div_nonneg hmu hq.le
    have hg := nlms_gain heps hmu hs0
    have hs : ∑ i, ((S (k + 1)).w i - ws i) ^ 2
        = sqn (fun i => (S k).w i - ws i) - 2 * (o.core.mu / (o.core.ext.eps + sqn (x k)) * e k ^ 3) * e k
          + (o.core.mu / (o.core.ext.eps + sqn (x k)) * e k ^ 3) ^ 2 * sqn (x k) := by
      rw [← misalign_step (hd k) he', hw, h1, h1', sqn_eq_dot]
      exact sum_congr rfl fun i _ => by ring
    rw [hs]
    show _ ≤ sqn (fun i => (S k).w i - ws i)
    have h2 := err_sq_le (hd k) he' (hx k)
    have h3 : o.core.mu / (o.core.ext.eps + sqn (x k)) * sqn (x k) * e k ^ 2 ≤ 2 := by
      refine le_trans ?_ hk
      calc o.core.mu / (o.core.ext.eps + sqn (x k)) * sqn (x k) * e k ^ 2 ≤ o.core.mu * (B * sqn (fun i => (S k).w i - ws i)) :=
            mul_le_mul hg h2 (sq_nonneg _) hmu
        _ = _ := by unfold sqn; ring
    have h4 : 0 ≤ o.core.mu / (o.core.ext.eps + sqn (x k)) * (e k ^ 2) ^ 2
        * (2 - o.core.mu / (o.core.ext.eps + sqn (x k)) * sqn (x k) * e k ^ 2) :=
      mul_nonneg (mul_nonneg hr (sq_nonneg _)) (by linarith)
    nlinarith
  have all : ∀ k, o.core.mu * B * (∑ i, ((S k).w i - ws i) ^ 2) ≤ 2 := by
    intro k
    induction k with
    | zero => rw [h.1]; exact h0
    | succ k ih => exact (mul_le_mul_of_nonneg_left (step k ih) (mul_nonneg hmu hB)).trans ih
  exact ⟨step k (all k), all k⟩

/-- the hypotheses of the C98 theorems are met: a run that learns and a run that explodes, with the same filter and the same input -/
example : ∃ (o : Obj (lmf ℝ 1)) (v : Vec ℝ 1) (y e y' e' : ℕ → ℝ) (S S' : ℕ → Core ℝ 1 Unit),
    0 < o.core.mu ∧ 0 < ∑ i, v i ^ 2 ∧
    Runs (lmf ℝ 1) o (fun _ => 1) (fun _ => v) y e S ∧ o.core.mu * (∑ i, v i ^ 2) * (1 - ∑ i, o.core.w i * v i) ^ 2 < 2 ∧
    Runs (lmf ℝ 1) o (fun _ => 5) (fun _ => v) y' e' S' ∧ 2 < o.core.mu * (∑ i, v i ^ 2) * (5 - ∑ i, o.core.w i * v i) ^ 2 := by
  refine ⟨⟨⟨fun _ => 0, 1, 1 / 10, ()⟩, []⟩, fun _ => 1, _, _, _, _, _, _, by norm_num, by norm_num,
    runs_of_safe lmf_safe _ trivial _ _, ?_, runs_of_safe lmf_safe _ trivial _ _, ?_⟩ <;> norm_num

example : ∃ (o : Obj (nlmf ℝ 1)) (v : Vec ℝ 1) (y e y' e' : ℕ → ℝ) (S S' : ℕ → Core ℝ 1 (EpsExt ℝ)),
    0 < o.core.mu ∧ 0 < o.core.ext.eps ∧ 0 < ∑ i, v i ^ 2 ∧
    Runs (nlmf ℝ 1) o (fun _ => 1) (fun _ => v) y e S ∧
    o.core.mu / (o.core.ext.eps + ∑ i, v i ^ 2) * (∑ i, v i ^ 2) * (1 - ∑ i, o.core.w i * v i) ^ 2 < 2 ∧
    Runs (nlmf ℝ 1) o (fun _ => 7) (fun _ => v) y' e' S' ∧
    2 < o.core.mu / (o.core.ext.eps + ∑ i, v i ^ 2) * (∑ i, v i ^ 2) * (7 - ∑ i, o.core.w i * v i) ^ 2 := by
  refine ⟨⟨⟨fun _ => 0, 1, 1 / 10, ⟨1⟩⟩, []⟩, fun _ => 1, _, _, _, _, _, _, by norm_num, by norm_num, by norm_num,
    runs_of_safe nlmf_safe _ trivial _ _, ?_, runs_of_safe nlmf_safe _ trivial _ _, ?_⟩ <;> norm_num

end cubic

/-- the safe regions of C98 contain runs that start away from the solution -/
example : ∃ (o : Obj (lmf ℝ 2)) (ws : Vec ℝ 2) (d : ℕ → ℝ) (x : ℕ → Vec ℝ 2) (y e : ℕ → ℝ) (S : ℕ → Core ℝ 2 Unit),
    Runs (lmf ℝ 2) o d x y e S ∧ (∀ k, d k = ∑ i, ws i * x k i) ∧ 0 ≤ o.core.mu ∧ (∀ k, ∑ i, x k i ^ 2 ≤ (2 : ℝ)) ∧
    o.core.mu * 2 ^ 2 * ∑ i, (o.core.w i - ws i) ^ 2 ≤ 2 ∧ o.core.w ≠ ws :=
  ⟨⟨⟨fun _ => 0, 2, 1 / 4, ()⟩, []⟩, fun _ => 1, fun _ => ∑ i : Fin 2, 1 * 1, fun _ _ => 1, _, _, _, runs_of_safe lmf_safe _ trivial _ _, fun k => rfl,
    by norm_num, fun k => by norm_num [Fin.sum_univ_two], by norm_num [Fin.sum_univ_two], fun h => by have := congrFun h 0; norm_num at this⟩

example : ∃ (o : Obj (nlmf ℝ 2)) (ws : Vec ℝ 2) (d : ℕ → ℝ) (x : ℕ → Vec ℝ 2) (y e : ℕ → ℝ) (S : ℕ → Core ℝ 2 (EpsExt ℝ)),
    Runs (nlmf ℝ 2) o d x y e S ∧ (∀ k, d k = ∑ i, ws i * x k i) ∧ 0 ≤ o.core.mu ∧ 0 < o.core.ext.eps ∧ (∀ k, ∑ i, x k i ^ 2 ≤ (2 : ℝ)) ∧
    o.core.mu * 2 * ∑ i, (o.core.w i - ws i) ^ 2 ≤ 2 ∧ o.core.w ≠ ws :=
  ⟨⟨⟨fun _ => 0, 2, 1 / 4, (⟨1⟩ : EpsExt ℝ)⟩, []⟩, fun _ => 1, fun _ => ∑ i : Fin 2, 1 * 1, fun _ _ => 1, _, _, _, runs_of_safe nlmf_safe _ trivial _ _, fun k => rfl,
    by norm_num, one_pos, fun k => by norm_num [Fin.sum_univ_two], by norm_num [Fin.sum_univ_two], fun h => by have := congrFun h 0; norm_num at this⟩

/-- LMS and NLMS on the data of C97 -/
example : (∃ (o : Obj (lms ℝ 3)) (y e : ℕ → ℝ) (S : ℕ → Core ℝ 3 Unit), Runs (lms ℝ 3) o (fun _ => 1) carousel y e S ∧ 0 < o.core.mu ∧ o.core.mu < 2 / 11) ∧
    ∃ (o : Obj (nlms ℝ 3)) (y e : ℕ → ℝ) (S : ℕ → Core ℝ 3 (EpsExt ℝ)), Runs (nlms ℝ 3) o (fun _ => 1) carousel y e S ∧ 0 < o.core.ext.eps ∧ 0 < o.core.mu ∧ o.core.mu < 2 :=
  ⟨⟨⟨⟨fun _ => 0, 3, 1 / 10, ()⟩, []⟩, _, _, _, runs_of_safe lms_safe _ trivial _ _, by norm_num, by norm_num⟩,
    ⟨⟨⟨fun _ => 0, 3, 1 / 10, (⟨1⟩ : EpsExt ℝ)⟩, []⟩, _, _, _, runs_of_safe nlms_safe _ trivial _ _, one_pos, by norm_num, by norm_num⟩⟩

end Padasip
