import Verif.Props.Excitation
import Mathlib.Analysis.InnerProductSpace.PiL2

/-!
# C101: bounded disturbances - noise and a drifting system

`d(k) = <ws(k), x(k)> + v(k)` with bounded noise `|v(k)| <= V` and an unknown system that moves by at most `D` per sample.  On persistently exciting bounded inputs
the misalignment of LMS and NLMS is a geometrically forgotten initial misalignment plus a constant proportional to `V` and `D`.
-/

set_option linter.unusedSectionVars false
set_option linter.unusedVariables false

namespace Padasip

open Finset

variable {n : ℕ}

/-- Euclidean norm -/
noncomputable def nrm (v : Vec ℝ n) : ℝ := Real.sqrt (∑ i, v i ^ 2)

theorem nrm_eq (v : Vec ℝ n) : nrm v = ‖(WithLp.toLp 2 v : EuclideanSpace ℝ (Fin n))‖ := by
  rw [EuclideanSpace.norm_eq]
  simp [nrm]

theorem nrm_nonneg (v : Vec ℝ n) : 0 ≤ nrm v := Real.sqrt_nonneg _

theorem nrm_add (a b : Vec ℝ n) : nrm (fun i => a i + b i) ≤ nrm a + nrm b := by
  rw [nrm_eq, nrm_eq, nrm_eq]
  exact norm_add_le (WithLp.toLp 2 a : EuclideanSpace ℝ (Fin n)) (WithLp.toLp 2 b)

theorem nrm_smul (c : ℝ) (a : Vec ℝ n) : nrm (fun i => c * a i) = |c| * nrm a := by
  rw [nrm_eq, nrm_eq, ← Real.norm_eq_abs]
  exact norm_smul c (WithLp.toLp 2 a : EuclideanSpace ℝ (Fin n))

theorem nrm_sq (v : Vec ℝ n) : nrm v ^ 2 = sqn v := Real.sq_sqrt (sqn_nonneg v)

theorem nrm_le_of_sqn {a b : Vec ℝ n} (h : sqn a ≤ sqn b) : nrm a ≤ nrm b := Real.sqrt_le_sqrt h

/-- the undisturbed recursion, started from `m0` -/
noncomputable def undisturbed (x : ℕ → Vec ℝ n) (g : ℕ → ℝ) (m0 : Vec ℝ n) : ℕ → Vec ℝ n
  | 0 => m0
  | k + 1 => fun i => undisturbed x g m0 k i - g k * (∑ j, undisturbed x g m0 k j * x k j) * x k i

theorem step_nonexp {m x : Vec ℝ n} {g c : ℝ} (hg : c ≤ g * (2 - g * sqn x)) :
    sqn (fun i => m i - g * (∑ j, m j * x j) * x i) ≤ sqn m - c * (∑ j, m j * x j) ^ 2 := by
  have h1 : (fun i => m i - g * (∑ j, m j * x j) * x i) = fun i => m i + (-(g * (∑ j, m j * x j))) * x i := funext fun i => by ring
  rw [h1, sqn_add_smul]
  have := mul_le_mul_of_nonneg_right hg (sq_nonneg (∑ j, m j * x j))
  nlinarith

/-- the disturbed recursion stays close to the undisturbed one -/
theorem disturbed_close {x m r : ℕ → Vec ℝ n} {g : ℕ → ℝ} {δ : ℝ} (hg : ∀ k, 0 ≤ g k * (2 - g k * sqn (x k)))
    (hm : ∀ k, m (k + 1) = fun i => (m k i - g k * (∑ j, m k j * x k j) * x k i) + r k i) (hr : ∀ k, nrm (r k) ≤ δ) (j : ℕ) :
    nrm (fun i => m j i - undisturbed x g (m 0) j i) ≤ j * δ := by
  induction j with
  | zero => simp [undisturbed, nrm]
  | succ j ih =>
    set h := undisturbed x g (m 0) j with hh
    set q : Vec ℝ n := fun i => m j i - h i with hq
    have h1 : (fun i => m (j + 1) i - undisturbed x g (m 0) (j + 1) i)
        = fun i => (q i - g j * (∑ l, q l * x j l) * x j i) + r j i := by
      funext i
      simp only [hm, undisturbed, hq, ← hh, sub_mul, sum_sub_distrib]
      ring
    rw [h1]
    refine (nrm_add _ _).trans ?_
    have h2 : nrm (fun i => q i - g j * (∑ l, q l * x j l) * x j i) ≤ nrm q := by
      refine nrm_le_of_sqn ((step_nonexp (hg j)).trans ?_)
      linarith
    push_cast
    linarith [hr j]

/-- the guaranteed contraction of the misalignment over a window of `T` samples: the square root of `1 - c α / (T (1 + G B))^2` -/
noncomputable def windowRate (c α G B : ℝ) (T : ℕ) : ℝ := Real.sqrt (1 - c * α / ((T : ℝ) ^ 2 * (1 + G * B) ^ 2))

theorem windowRate_nonneg (c α G B : ℝ) (T : ℕ) : 0 ≤ windowRate c α G B T := Real.sqrt_nonneg _

theorem windowRate_lt_one {c α G B : ℝ} {T : ℕ} (hc : 0 < c) (hα : 0 < α) (hG : 0 ≤ G) (hB : 0 ≤ B) (hT : 0 < T) :
    windowRate c α G B T < 1 := by
  have hT' : (0 : ℝ) < T := by exact_mod_cast hT
  have : 0 < 1 + G * B := by positivity
  rw [windowRate, Real.sqrt_lt' one_pos]
  have : 0 < c * α / ((T : ℝ) ^ 2 * (1 + G * B) ^ 2) := by positivity
  linarith

theorem disturbed_window {x m r : ℕ → Vec ℝ n} {g : ℕ → ℝ} {δ c G B α : ℝ} {T : ℕ} (hc : 0 ≤ c) (hG : 0 ≤ G) (hB : 0 ≤ B) (hT : 0 < T)
    (hg : ∀ k, c ≤ g k * (2 - g k * sqn (x k))) (hgG : ∀ k, |g k| ≤ G) (hx : ∀ k, sqn (x k) ≤ B) (hpe : Exciting x T α)
    (hm : ∀ k, m (k + 1) = fun i => (m k i - g k * (∑ j, m k j * x k j) * x k i) + r k i) (hr : ∀ k, nrm (r k) ≤ δ) :
    nrm (m T) ≤ windowRate c α G B T * nrm (m 0) + T * δ := by
  have h1 := window_contract (v := undisturbed x g (m 0)) (x := x)
    (a := fun k => -(g k * ∑ j, undisturbed x g (m 0) k j * x k j)) (e := fun k => -∑ j, undisturbed x g (m 0) k j * x k j)
    hG hB hc hT (fun k i => by simp only [undisturbed]; ring) (fun k => rfl)
    (fun k => by
      rw [abs_neg, abs_neg, abs_mul]
      exact mul_le_mul_of_nonneg_right (hgG k) (abs_nonneg _)) hx
    (fun k => by rw [neg_sq]; exact step_nonexp (hg k)) hpe 0
  rw [Nat.zero_add] at h1
  have h2 : nrm (undisturbed x g (m 0) T) ≤ windowRate c α G B T * nrm (m 0) := by
    have := Real.sqrt_le_sqrt h1
    rw [Real.sqrt_mul' _ (sqn_nonneg _)] at this
    exact this
  have h3 := disturbed_close (fun k => hc.trans (hg k)) hm hr T
  have h4 : nrm (m T) ≤ nrm (fun i => m T i - undisturbed x g (m 0) T i) + nrm (undisturbed x g (m 0) T) := by
    refine le_trans (le_of_eq ?_) (nrm_add _ _)
    congr 1; funext i; ring
  linarith

theorem exciting_shift {x : ℕ → Vec ℝ n} {T : ℕ} {α : ℝ} (h : Exciting x T α) (s : ℕ) : Exciting (fun k => x (s + k)) T α := by
  intro k v
  have := h (s + k) v
  simpa only [add_assoc] using this

/-- the abstract tracking bound -/
theorem disturbed_bound {x m r : ℕ → Vec ℝ n} {g : ℕ → ℝ} {δ c G B α : ℝ} {T : ℕ} (hc : 0 < c) (hG : 0 ≤ G) (hB : 0 ≤ B) (hT : 0 < T)
    (hα : 0 < α)
    (hg : ∀ k, c ≤ g k * (2 - g k * sqn (x k))) (hgG : ∀ k, |g k| ≤ G) (hx : ∀ k, sqn (x k) ≤ B) (hpe : Exciting x T α)
    (hm : ∀ k, m (k + 1) = fun i => (m k i - g k * (∑ j, m k j * x k j) * x k i) + r k i) (hr : ∀ k, nrm (r k) ≤ δ) (k : ℕ) :
    nrm (m k) ≤ windowRate c α G B T ^ (k / T) * nrm (m 0) + (T * δ) * (1 + 1 / (1 - windowRate c α G B T)) := by
  set ρ := windowRate c α G B T with hρ
  have hρ0 : 0 ≤ ρ := windowRate_nonneg _ _ _ _ _
  have hρ1 : ρ < 1 := windowRate_lt_one hc hα hG hB hT
  have hδ : 0 ≤ δ := (nrm_nonneg _).trans (hr 0)
  have hTδ : 0 ≤ T * δ := mul_nonneg (Nat.cast_nonneg _) hδ
  have win : ∀ s, nrm (m (s + T)) ≤ ρ * nrm (m s) + T * δ := fun s =>
    disturbed_window (x := fun k => x (s + k)) (m := fun k => m (s + k)) (r := fun k => r (s + k)) (g := fun k => g (s + k))
      hc.le hG hB hT (fun k => hg _) (fun k => hgG _) (fun k => hx _) (exciting_shift hpe s) (fun k => hm _) (fun k => hr _)
  have one : ∀ s, nrm (m (s + 1)) ≤ nrm (m s) + δ := by
    intro s
    rw [hm]
    refine (nrm_add _ _).trans (add_le_add (nrm_le_of_sqn ((step_nonexp (hc.le.trans (hg s))).trans ?_)) (hr s))
    linarith
  have few : ∀ s j, nrm (m (s + j)) ≤ nrm (m s) + j * δ := by
    intro s j
    induction j with
    | zero => simp
    | succ j ih =>
      have := one (s + j)
      rw [← add_assoc]
      push_cast
      linarith
  have blocks : ∀ q, nrm (m (T * q)) ≤ ρ ^ q * nrm (m 0) + (T * δ) * (1 / (1 - ρ)) := by
    intro q
    induction q with
    | zero =>
      simp only [Nat.mul_zero, pow_zero, one_mul]
      have : 0 ≤ (T * δ) * (1 / (1 - ρ)) := mul_nonneg hTδ (by have : 0 < 1 - ρ := by linarith
                                                               positivity)
      linarith
    | succ q ih =>
      rw [Nat.mul_succ]
      have h1 := mul_le_mul_of_nonneg_left ih hρ0
      have h2 : ρ * ((T * δ) * (1 / (1 - ρ))) + T * δ = (T * δ) * (1 / (1 - ρ)) := by
        have : 1 - ρ ≠ 0 := by linarith
        field_simp
        ring
      calc _ ≤ ρ * nrm (m (T * q)) + T * δ := win _
        _ ≤ ρ * (ρ ^ q * nrm (m 0) + (T * δ) * (1 / (1 - ρ))) + T * δ := by linarith
        _ = ρ ^ (q + 1) * nrm (m 0) + (ρ * ((T * δ) * (1 / (1 - ρ))) + T * δ) := by ring
        _ = _ := by rw [h2]
  have hk : k = T * (k / T) + k % T := (Nat.div_add_mod k T).symm
  have h1 := few (T * (k / T)) (k % T)
  rw [← hk] at h1
  have h2 : ((k % T : ℕ) : ℝ) * δ ≤ T * δ :=
    mul_le_mul_of_nonneg_right (Nat.cast_le.mpr (Nat.mod_lt _ hT).le) hδ
  have h3 := blocks (k / T)
  rw [mul_add, mul_one]
  linarith

/-- ... and in the limit -/
theorem disturbed_eventually {f : ℕ → ℝ} {ρ a b : ℝ} {T : ℕ} (hT : 0 < T) (hρ : 0 ≤ ρ) (hρ1 : ρ < 1)
    (h : ∀ k, f k ≤ ρ ^ (k / T) * a + b) (η : ℝ) (hη : 0 < η) : ∃ N, ∀ k, N ≤ k → f k ≤ b + η := by
  have h1 : Filter.Tendsto (fun k : ℕ => ρ ^ (k / T) * a) Filter.atTop (nhds 0) := by
    have h2 : Filter.Tendsto (fun q : ℕ => ρ ^ q * a) Filter.atTop (nhds 0) := by
      simpa using (tendsto_pow_atTop_nhds_zero_of_lt_one hρ hρ1).mul_const a
    exact h2.comp (Nat.tendsto_div_const_atTop hT.ne')
  obtain ⟨N, hN⟩ := Filter.eventually_atTop.mp (h1.eventually (gt_mem_nhds hη))
  exact ⟨N, fun k hk => by linarith [h k, hN k hk]⟩

variable {d : ℕ → ℝ} {x : ℕ → Vec ℝ n} {y e : ℕ → ℝ}

theorem misalign_rec {w x ws ws' : Vec ℝ n} {d e v g : ℝ} (hd : d = (∑ i, ws i * x i) + v) (he : e = d - dot w x) :
    (fun i => (w i + g * e * x i) - ws' i)
      = fun i => ((w i - ws i) - g * (∑ j, (w j - ws j) * x j) * x i) + ((g * v) * x i + (ws i - ws' i)) := by
  have h1 : e = v - ∑ j, (w j - ws j) * x j := by
    rw [he, hd, dot_eq]
    simp only [sub_mul, sum_sub_distrib]; ring
  funext i
  rw [h1]; ring

/-- C101: LMS with noise and drift, `mu > 0`, `|x(k)|^2 <= B`, `mu B < 2`, persistently exciting inputs. -/
theorem C101_lms_tracking (o : Obj (lms ℝ n)) {S : ℕ → Core ℝ n Unit} (h : Runs (lms ℝ n) o d x y e S)
    (ws : ℕ → Vec ℝ n) (v : ℕ → ℝ) (hd : ∀ k, d k = (∑ i, ws k i * x k i) + v k) (hmu : 0 < o.core.mu) {B α V D : ℝ} {T : ℕ}
    (hx : ∀ k, ∑ i, x k i ^ 2 ≤ B) (hB : o.core.mu * B < 2) (hT : 0 < T) (hα : 0 < α) (hpe : Exciting x T α)
    (hV : ∀ k, |v k| ≤ V) (hD : ∀ k, Real.sqrt (∑ i, (ws k i - ws (k + 1) i) ^ 2) ≤ D) (k : ℕ) :
    Real.sqrt (∑ i, ((S k).w i - ws k i) ^ 2)
      ≤ windowRate (o.core.mu * (2 - o.core.mu * B)) α o.core.mu B T ^ (k / T) * Real.sqrt (∑ i, (o.core.w i - ws 0 i) ^ 2)
        + (T * (o.core.mu * V * Real.sqrt B + D)) * (1 + 1 / (1 - windowRate (o.core.mu * (2 - o.core.mu * B)) α o.core.mu B T)) := by
  have hB0 : 0 ≤ B := (sqn_nonneg (x 0)).trans (hx 0)
  have hV0 : 0 ≤ V := (abs_nonneg _).trans (hV 0)
  have main := disturbed_bound (x := x) (m := fun k i => (S k).w i - ws k i) (g := fun _ => o.core.mu)
    (r := fun k i => (o.core.mu * v k) * x k i + (ws k i - ws (k + 1) i)) (δ := o.core.mu * V * Real.sqrt B + D)
    (c := o.core.mu * (2 - o.core.mu * B)) (G := o.core.mu) (mul_pos hmu (by linarith)) hmu.le hB0 hT hα
    (fun k => mul_le_mul_of_nonneg_left (by
      have := mul_le_mul_of_nonneg_left (hx k) hmu.le
      show 2 - o.core.mu * B ≤ 2 - o.core.mu * sqn (x k)
      unfold sqn; linarith) hmu.le)
    (fun k => (abs_of_pos hmu).le) hx hpe
    (fun k => by
      obtain ⟨h1, -, hy, he, hw⟩ := lms_runs h k
      rw [← misalign_rec (hd k) (show e k = d k - dot (S k).w (x k) by rw [he, hy]), hw, h1]
      exact funext fun i => by ring)
    (fun k => by
      refine (nrm_add _ _).trans (add_le_add ?_ (hD k))
      rw [nrm_smul, abs_mul, abs_of_pos hmu]
      exact mul_le_mul (mul_le_mul_of_nonneg_left (hV k) hmu.le) (Real.sqrt_le_sqrt (hx k)) (nrm_nonneg _) (by positivity)) k
  rw [h.1] at main
  exact main

/-- C101: in the long run the misalignment of LMS is at most the constant (up to any `η > 0`), whatever the initial weights. -/
theorem C101_lms_steady_state (o : Obj (lms ℝ n)) {S : ℕ → Core ℝ n Unit} (h : Runs (lms ℝ n) o d x y e S)
    (ws : ℕ → Vec ℝ n) (v : ℕ → ℝ) (hd : ∀ k, d k = (∑ i, ws k i * x k i) + v k) (hmu : 0 < o.core.mu) {B α V D : ℝ} {T : ℕ}
    (hx : ∀ k, ∑ i, x k i ^ 2 ≤ B) (hB : o.core.mu * B < 2) (hT : 0 < T) (hα : 0 < α) (hpe : Exciting x T α)
    (hV : ∀ k, |v k| ≤ V) (hD : ∀ k, Real.sqrt (∑ i, (ws k i - ws (k + 1) i) ^ 2) ≤ D) (η : ℝ) (hη : 0 < η) :
    ∃ N, ∀ k, N ≤ k → Real.sqrt (∑ i, ((S k).w i - ws k i) ^ 2)
      ≤ (T * (o.core.mu * V * Real.sqrt B + D)) * (1 + 1 / (1 - windowRate (o.core.mu * (2 - o.core.mu * B)) α o.core.mu B T)) + η :=
  have hB0 : 0 ≤ B := (sqn_nonneg (x 0)).trans (hx 0)
  disturbed_eventually hT (windowRate_nonneg _ _ _ _ _)
    (windowRate_lt_one (mul_pos hmu (by linarith)) hα hmu.le hB0 hT)
    (C101_lms_tracking o h ws v hd hmu hx hB hT hα hpe hV hD) η hη

theorem nlms_noise_gain {mu eps s : ℝ} (heps : 0 < eps) (hmu : 0 ≤ mu) (hs : 0 ≤ s) :
    mu / (eps + s) * Real.sqrt s ≤ mu / (2 * Real.sqrt eps) := by
  have h1 : 2 * Real.sqrt eps * Real.sqrt s ≤ eps + s := by
    have := sq_nonneg (Real.sqrt eps - Real.sqrt s)
    nlinarith [Real.sq_sqrt heps.le, Real.sq_sqrt hs]
  have hp : 0 < Real.sqrt eps := Real.sqrt_pos.mpr heps
  rw [div_mul_eq_mul_div, div_le_div_iff₀ (by linarith) (by positivity)]
  nlinarith [mul_le_mul_of_nonneg_left h1 hmu]

/-- C101: NLMS with noise and drift, `0 < mu < 2`, `eps > 0`: the noise enters with the factor `mu / (2 sqrt eps)`, whatever the size of the inputs. -/
theorem C101_nlms_tracking (o : Obj (nlms ℝ n)) {S : ℕ → Core ℝ n (EpsExt ℝ)} (h : Runs (nlms ℝ n) o d x y e S)
    (ws : ℕ → Vec ℝ n) (v : ℕ → ℝ) (hd : ∀ k, d k = (∑ i, ws k i * x k i) + v k) (heps : 0 < o.core.ext.eps)
    (hmu : 0 < o.core.mu) (hmu2 : o.core.mu < 2) {B α V D : ℝ} {T : ℕ}
    (hx : ∀ k, ∑ i, x k i ^ 2 ≤ B) (hT : 0 < T) (hα : 0 < α) (hpe : Exciting x T α)
    (hV : ∀ k, |v k| ≤ V) (hD : ∀ k, Real.sqrt (∑ i, (ws k i - ws (k + 1) i) ^ 2) ≤ D) (k : ℕ) :
    Real.sqrt (∑ i, ((S k).w i - ws k i) ^ 2)
      ≤ windowRate (o.core.mu * (2 - o.core.mu) / (o.core.ext.eps + B)) α (o.core.mu / o.core.ext.eps) B T ^ (k / T)
          * Real.sqrt (∑ i, (o.core.w i - ws 0 i) ^ 2)
        + (T * (o.core.mu / (2 * Real.sqrt o.core.ext.eps) * V + D))
          * (1 + 1 / (1 - windowRate (o.core.mu * (2 - o.core.mu) / (o.core.ext.eps + B)) α (o.core.mu / o.core.ext.eps) B T)) := by
  have hB0 : 0 ≤ B := (sqn_nonneg (x 0)).trans (hx 0)
  have hV0 : 0 ≤ V := (abs_nonneg _).trans (hV 0)
  have hp : ∀ k, 0 < o.core.ext.eps + sqn (x k) := fun k => by linarith [sqn_nonneg (x k)]
  have main := disturbed_bound (x := x) (m := fun k i => (S k).w i - ws k i) (g := fun k => o.core.mu / (o.core.ext.eps + sqn (x k)))
    (r := fun k i => (o.core.mu / (o.core.ext.eps + sqn (x k)) * v k) * x k i + (ws k i - ws (k + 1) i))
    (δ := o.core.mu / (2 * Real.sqrt o.core.ext.eps) * V + D) (c := o.core.mu * (2 - o.core.mu) / (o.core.ext.eps + B))
    (G := o.core.mu / o.core.ext.eps)
    (div_pos (mul_pos hmu (by linarith)) (by linarith)) (div_nonneg hmu.le heps.le) hB0 hT hα
    (fun k => by
      have h2 := nlms_gain heps hmu.le (sqn_nonneg (x k))
      calc _ ≤ o.core.mu * (2 - o.core.mu) / (o.core.ext.eps + sqn (x k)) :=
            div_le_div_of_nonneg_left (mul_nonneg hmu.le (by linarith)) (hp k) (by linarith [hx k, show sqn (x k) ≤ B from hx k])
        _ = o.core.mu / (o.core.ext.eps + sqn (x k)) * (2 - o.core.mu) := by ring
        _ ≤ _ := mul_le_mul_of_nonneg_left (by linarith) (div_nonneg hmu.le (hp k).le))
    (fun k => by
      rw [abs_of_nonneg (div_nonneg hmu.le (hp k).le)]
      exact div_le_div_of_nonneg_left hmu.le heps (by linarith [sqn_nonneg (x k)])) hx hpe
    (fun k => by
      obtain ⟨h1, h1', hy, he, hw⟩ := nlms_runs h k
      rw [← misalign_rec (hd k) (show e k = d k - dot (S k).w (x k) by rw [he, hy]), hw, h1, h1', sqn_eq_dot]
      exact funext fun i => by ring)
    (fun k => by
      refine (nrm_add _ _).trans (add_le_add ?_ (hD k))
      have hg : 0 ≤ o.core.mu / (o.core.ext.eps + sqn (x k)) := div_nonneg hmu.le (hp k).le
      rw [nrm_smul, abs_mul, abs_of_nonneg hg]
      have h3 : o.core.mu / (o.core.ext.eps + sqn (x k)) * nrm (x k) ≤ o.core.mu / (2 * Real.sqrt o.core.ext.eps) :=
        nlms_noise_gain heps hmu.le (sqn_nonneg (x k))
      calc o.core.mu / (o.core.ext.eps + sqn (x k)) * |v k| * nrm (x k)
          = o.core.mu / (o.core.ext.eps + sqn (x k)) * nrm (x k) * |v k| := by ring
        _ ≤ _ := mul_le_mul h3 (hV k) (abs_nonneg _) (by positivity)) k
  rw [h.1] at main
  exact main

/-- C101: in the long run the misalignment of NLMS is at most the constant (up to any `η > 0`), whatever the initial weights. -/
theorem C101_nlms_steady_state (o : Obj (nlms ℝ n)) {S : ℕ → Core ℝ n (EpsExt ℝ)} (h : Runs (nlms ℝ n) o d x y e S)
    (ws : ℕ → Vec ℝ n) (v : ℕ → ℝ) (hd : ∀ k, d k = (∑ i, ws k i * x k i) + v k) (heps : 0 < o.core.ext.eps)
    (hmu : 0 < o.core.mu) (hmu2 : o.core.mu < 2) {B α V D : ℝ} {T : ℕ}
    (hx : ∀ k, ∑ i, x k i ^ 2 ≤ B) (hT : 0 < T) (hα : 0 < α) (hpe : Exciting x T α)
    (hV : ∀ k, |v k| ≤ V) (hD : ∀ k, Real.sqrt (∑ i, (ws k i - ws (k + 1) i) ^ 2) ≤ D) (η : ℝ) (hη : 0 < η) :
    ∃ N, ∀ k, N ≤ k → Real.sqrt (∑ i, ((S k).w i - ws k i) ^ 2)
      ≤ (T * (o.core.mu / (2 * Real.sqrt o.core.ext.eps) * V + D))
          * (1 + 1 / (1 - windowRate (o.core.mu * (2 - o.core.mu) / (o.core.ext.eps + B)) α (o.core.mu / o.core.ext.eps) B T)) + η :=
  have hB0 : 0 ≤ B := (sqn_nonneg (x 0)).trans (hx 0)
  disturbed_eventually hT (windowRate_nonneg _ _ _ _ _)
    (windowRate_lt_one (div_pos (mul_pos hmu (by linarith)) (by linarith)) hα (div_nonneg hmu.le heps.le) hB0 hT)
    (C101_nlms_tracking o h ws v hd heps hmu hmu2 hx hT hα hpe hV hD) η hη

/-- the rate is really smaller than 1 -/
theorem C101_rate (mu B α : ℝ) (T : ℕ) (hmu : 0 < mu) (hB0 : 0 ≤ B) (hB : mu * B < 2) (hT : 0 < T) (hα : 0 < α) :
    0 ≤ windowRate (mu * (2 - mu * B)) α mu B T ∧ windowRate (mu * (2 - mu * B)) α mu B T < 1 :=
  ⟨windowRate_nonneg _ _ _ _ _, windowRate_lt_one (mul_pos hmu (by linarith)) hα hmu.le hB0 hT⟩

/-- inputs that fade as the weight grows -/
noncomputable def fading (mu : ℝ) : ℕ → ℝ
  | 0 => 0
  | k + 1 => fading mu k + mu / (1 + fading mu k) ^ 2

theorem fading_nonneg {mu : ℝ} (hmu : 0 < mu) (k : ℕ) : 0 ≤ fading mu k := by
  induction k with
  | zero => exact le_refl _
  | succ k ih => rw [fading]; positivity

theorem fading_tendsto {mu : ℝ} (hmu : 0 < mu) : Filter.Tendsto (fading mu) Filter.atTop Filter.atTop := by
  have mono : Monotone (fading mu) := monotone_nat_of_le_succ fun k => by
    have := fading_nonneg hmu k
    rw [fading]
    have : 0 < mu / (1 + fading mu k) ^ 2 := by positivity
    linarith
  refine Filter.tendsto_atTop_atTop_of_monotone mono fun b => ?_
  by_contra hc
  have hc : ∀ k, fading mu k < b := fun k => not_le.mp fun h => hc ⟨k, h⟩
  have hb : 0 < b := hc 0
  have h1 : ∀ k : ℕ, k * (mu / (1 + b) ^ 2) ≤ fading mu k := by
    intro k
    induction k with
    | zero => simp [fading]
    | succ k ih =>
      have h0 := fading_nonneg hmu k
      have h2 : mu / (1 + b) ^ 2 ≤ mu / (1 + fading mu k) ^ 2 := by
        refine div_le_div_of_nonneg_left hmu.le (by positivity) ?_
        exact pow_le_pow_left₀ (by linarith) (by linarith [hc k]) 2
      rw [fading]
      push_cast
      linarith
  have hq : 0 < mu / (1 + b) ^ 2 := by positivity
  obtain ⟨N, hN⟩ := exists_nat_gt (b / (mu / (1 + b) ^ 2))
  rw [div_lt_iff₀ hq] at hN
  linarith [h1 N, hc N]

/-- C101: the excitation is needed: for every step size `mu > 0` there is a stream of inputs with `0 < x(k) <= 1` on which LMS, estimating the zero system from
the constant disturbance 1, lets its weight grow without bound. -/
theorem C101_drift_without_excitation (mu : ℝ) (hmu : 0 < mu) :
    ∃ x : ℕ → Vec ℝ 1, (∀ k, 0 < x k 0 ∧ x k 0 ≤ 1) ∧
      ∀ (o : Obj (lms ℝ 1)) (y e : ℕ → ℝ) (S : ℕ → Core ℝ 1 Unit), o.core.mu = mu → o.core.w = (fun _ => 0) →
        Runs (lms ℝ 1) o (fun _ => 1) x y e S →
        Filter.Tendsto (fun k => (S k).w 0) Filter.atTop Filter.atTop := by
  refine ⟨fun k _ => 1 / (1 + fading mu k), fun k => ?_, fun o y e S hm hw h => ?_⟩
  · have := fading_nonneg hmu k
    refine ⟨by positivity, ?_⟩
    rw [div_le_one (by linarith)]
    linarith
  · have hS : ∀ k, (S k).w 0 = fading mu k := by
      intro k
      induction k with
      | zero => rw [h.1]; show o.core.w 0 = _; rw [hw]; rfl
      | succ k ih =>
        obtain ⟨h1, -, hy, he, hs⟩ := lms_runs h k
        have h0 := fading_nonneg hmu k
        have hp : (1 + fading mu k) ≠ 0 := by positivity
        rw [hs, h1, hm, he, hy, dot_eq]
        simp only [Fin.sum_univ_one, ih, fading]
        field_simp
        ring
    rw [show (fun k => (S k).w 0) = fading mu from funext hS]
    exact fading_tendsto hmu

/-- the hypotheses are met: noise and a drifting system on the alternating unit vectors -/
example : ∃ (o : Obj (lms ℝ 2)) (ws : ℕ → Vec ℝ 2) (v : ℕ → ℝ) (y e : ℕ → ℝ) (S : ℕ → Core ℝ 2 Unit),
    Runs (lms ℝ 2) o (fun k => (∑ i, ws k i * turns k i) + v k) turns y e S ∧ 0 < o.core.mu ∧
    (∀ k, ∑ i, turns k i ^ 2 ≤ (1 : ℝ)) ∧ o.core.mu * 1 < 2 ∧ Exciting (turns : ℕ → Vec ℝ 2) 2 1 ∧ (∀ k, |v k| ≤ 1 / 10) ∧
    (∀ k, Real.sqrt (∑ i, (ws k i - ws (k + 1) i) ^ 2) ≤ 2) ∧ ws 0 ≠ ws 1 := by
  refine ⟨⟨⟨fun _ => 0, 2, 1, ()⟩, []⟩, fun k _ => k, fun k => (-1) ^ k / 10, _, _, _, runs_of_safe lms_safe _ trivial _ _,
    by norm_num, turns_sqn, by norm_num, turns_exciting, fun k => ?_, fun k => ?_, ?_⟩
  · rw [abs_div, abs_pow]; norm_num
  · have : ∑ i : Fin 2, ((k : ℝ) - ((k + 1 : ℕ) : ℝ)) ^ 2 = 2 := by
      push_cast; simp
    show Real.sqrt (∑ i : Fin 2, ((k : ℝ) - ((k + 1 : ℕ) : ℝ)) ^ 2) ≤ 2
    rw [this, Real.sqrt_le_left (by norm_num)]
    norm_num
  · intro h
    have := congrFun h 0
    norm_num at this

/-- ... and for NLMS -/
example : ∃ (o : Obj (nlms ℝ 2)) (ws : ℕ → Vec ℝ 2) (v : ℕ → ℝ) (y e : ℕ → ℝ) (S : ℕ → Core ℝ 2 (EpsExt ℝ)),
    Runs (nlms ℝ 2) o (fun k => (∑ i, ws k i * turns k i) + v k) turns y e S ∧ 0 < o.core.ext.eps ∧ 0 < o.core.mu ∧ o.core.mu < 2 ∧
    (∀ k, ∑ i, turns k i ^ 2 ≤ (1 : ℝ)) ∧ Exciting (turns : ℕ → Vec ℝ 2) 2 1 ∧ (∀ k, |v k| ≤ 1 / 10) :=
  ⟨⟨⟨fun _ => 0, 2, 1, (⟨1⟩ : EpsExt ℝ)⟩, []⟩, fun k _ => k, fun k => (-1) ^ k / 10, _, _, _, runs_of_safe nlms_safe _ trivial _ _,
    one_pos, one_pos, one_lt_two, turns_sqn, turns_exciting, fun k => by rw [abs_div, abs_pow]; norm_num⟩

end Padasip
