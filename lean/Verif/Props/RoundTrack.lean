import Verif.Props.RoundDrift

/-!
# C159: LMS and NLMS track in finite precision
-/

set_option linter.unusedSectionVars false
set_option linter.unusedVariables false
set_option linter.unusedSimpArgs false

namespace Padasip

open Finset

variable {F : Rounding} {n : ℕ}

theorem gamma_nonneg {u : ℝ} {K : ℕ} (h0 : 0 ≤ u) (h : (K : ℕ) * u < 1) : 0 ≤ gamma u K :=
  div_nonneg (mul_nonneg (Nat.cast_nonneg _) h0) (by linarith)

section abstract
variable {x m r : ℕ → Vec ℝ n} {g : ℕ → ℝ} {γ δ c G B α ρ C : ℝ} {T : ℕ} (hγ : 0 ≤ γ) (hδ : 0 ≤ δ) (hc : 0 < c) (hG : 0 ≤ G) (hB : 0 ≤ B) (hT : 0 < T) (hα : 0 < α)
    (hg : ∀ k, c ≤ g k * (2 - g k * sqn (x k))) (hgG : ∀ k, |g k| ≤ G) (hx : ∀ k, sqn (x k) ≤ B) (hpe : Exciting x T α)
    (hm : ∀ k, m (k + 1) = fun i => (m k i - g k * (∑ j, m k j * x k j) * x k i) + r k i) (hr : ∀ k, nrm (r k) ≤ δ + γ * (3 * nrm (m k)))
    (hρ : ρ = windowRate c α G B T) (hC : C = T * (1 + 1 / (1 - ρ))) (hsmall : 3 * C * γ < 1)
include hγ hδ hc hG hB hT hα hg hgG hx hpe hm hr hρ hC hsmall

theorem gain_nonneg : 0 ≤ C := by
  have hρ1 : ρ < 1 := hρ ▸ windowRate_lt_one hc hα hG hB hT
  have : 0 < 1 - ρ := by linarith
  rw [hC]; positivity

/-- relative and absolute disturbances: bounded for ever -/
theorem relative_bound (k : ℕ) : nrm (m k) ≤ (nrm (m 0) + C * δ) / (1 - 3 * C * γ) := by
  have hC0 : 0 ≤ C := gain_nonneg hγ hδ hc hG hB hT hα hg hgG hx hpe hm hr hρ hC hsmall
  have hρ0 : 0 ≤ ρ := hρ ▸ windowRate_nonneg _ _ _ _ _
  have hρ1 : ρ < 1 := hρ ▸ windowRate_lt_one hc hα hG hB hT
  have hq : 0 < 1 - 3 * C * γ := by linarith
  have hm0 := nrm_nonneg (m 0)
  set M := (nrm (m 0) + C * δ) / (1 - 3 * C * γ) with hM
  have hM0 : 0 ≤ M := div_nonneg (by positivity) hq.le
  have hfix : nrm (m 0) + C * δ = M * (1 - 3 * C * γ) := by rw [hM, div_mul_cancel₀ _ hq.ne']
  induction k using Nat.strong_induction_on with
  | _ k ih =>
    have hd := disturbed_bound (x := x) (m := cutOff x g m k) (r := fun j => if j < k then r j else fun _ => 0) (g := g) (δ := δ + γ * (3 * M)) hc hG hB hT hα hg hgG hx hpe
      (fun j => by
        by_cases hj : j < k
        · simp only [cutOff, if_pos hj]
          rw [hm j, cutOff_le x g m k j hj.le]
        · simp only [cutOff, if_neg hj, add_zero])
      (fun j => by
        by_cases hj : j < k
        · simp only [if_pos hj]
          have := mul_le_mul_of_nonneg_left (ih j hj) hγ
          linarith [hr j]
        · simp only [if_neg hj]
          have : nrm (fun _ : Fin n => (0 : ℝ)) = 0 := by simp [nrm]
          rw [this]; positivity) k
    rw [cutOff_le x g m k k le_rfl, cutOff_le x g m k 0 (Nat.zero_le _), ← hρ] at hd
    refine hd.trans ?_
    have h1 : ρ ^ (k / T) * nrm (m 0) ≤ nrm (m 0) := mul_le_of_le_one_left hm0 (pow_le_one₀ hρ0 hρ1.le)
    have e1 : (T : ℝ) * (δ + γ * (3 * M)) * (1 + 1 / (1 - ρ)) = C * δ + 3 * C * γ * M := by rw [hC]; ring
    rw [e1]
    linarith

/-- ... and in the end below a bound that does not depend on the start -/
theorem relative_eventually (η : ℝ) (hη : 0 < η) : ∃ N, ∀ k, N ≤ k → nrm (m k) ≤ C * δ / (1 - 3 * C * γ) + η := by
  have hC0 : 0 ≤ C := gain_nonneg hγ hδ hc hG hB hT hα hg hgG hx hpe hm hr hρ hC hsmall
  have hρ0 : 0 ≤ ρ := hρ ▸ windowRate_nonneg _ _ _ _ _
  have hρ1 : ρ < 1 := hρ ▸ windowRate_lt_one hc hα hG hB hT
  have hq : 0 < 1 - 3 * C * γ := by linarith
  have hq0 : 0 ≤ 3 * C * γ := by positivity
  set L := C * δ / (1 - 3 * C * γ) with hL
  have hL0 : 0 ≤ L := div_nonneg (by positivity) hq.le
  have hfix : C * δ = L * (1 - 3 * C * γ) := by rw [hL, div_mul_cancel₀ _ hq.ne']
  have step : ∀ a : ℝ, 0 ≤ a → (∃ N, ∀ k, N ≤ k → nrm (m k) ≤ L + η / 2 + a) → ∃ N, ∀ k, N ≤ k → nrm (m k) ≤ L + η / 2 + 3 * C * γ * a := by
    rintro a ha ⟨N, hN⟩
    have hd := disturbed_bound (x := fun k => x (N + k)) (m := fun k => m (N + k)) (r := fun k => r (N + k)) (g := fun k => g (N + k)) (δ := δ + γ * (3 * (L + η / 2 + a)))
      hc hG hB hT hα (fun k => hg _) (fun k => hgG _) (fun k => hx _) (exciting_shift hpe N) (fun k => hm (N + k))
      (fun k => by
        have := mul_le_mul_of_nonneg_left (hN (N + k) (Nat.le_add_right _ _)) hγ
        linarith [hr (N + k)])
    rw [← hρ] at hd
    obtain ⟨N', hN'⟩ := disturbed_eventually hT hρ0 hρ1 hd (η / 2 * (1 - 3 * C * γ)) (by positivity)
    refine ⟨N + N', fun k hk => ?_⟩
    have h1 := hN' (k - N) (by omega)
    rw [show N + (k - N) = k by omega] at h1
    have e1 : (T : ℝ) * (δ + γ * (3 * (L + η / 2 + a))) * (1 + 1 / (1 - ρ)) = C * δ + 3 * C * γ * (L + η / 2 + a) := by rw [hC]; ring
    rw [e1, hfix] at h1
    linarith
  have hm0 := nrm_nonneg (m 0)
  set a0 := nrm (m 0) / (1 - 3 * C * γ) with ha0
  have ha00 : 0 ≤ a0 := div_nonneg hm0 hq.le
  have all : ∀ i : ℕ, ∃ N, ∀ k, N ≤ k → nrm (m k) ≤ L + η / 2 + (3 * C * γ) ^ i * a0 := by
    intro i
    induction i with
    | zero =>
      refine ⟨0, fun k _ => (relative_bound hγ hδ hc hG hB hT hα hg hgG hx hpe hm hr hρ hC hsmall k).trans ?_⟩
      rw [add_div]
      linarith
    | succ i ih =>
      obtain ⟨N, hN⟩ := step _ (mul_nonneg (pow_nonneg hq0 i) ha00) ih
      exact ⟨N, fun k hk => by rw [pow_succ']; linarith [hN k hk]⟩
  have hlim : Filter.Tendsto (fun i : ℕ => (3 * C * γ) ^ i * a0) Filter.atTop (nhds 0) := by
    simpa using (tendsto_pow_atTop_nhds_zero_of_lt_one hq0 hsmall).mul_const a0
  obtain ⟨i, hi⟩ := (hlim.eventually (gt_mem_nhds (half_pos hη))).exists
  obtain ⟨N, hN⟩ := all i
  exact ⟨N, fun k hk => by linarith [hN k hk]⟩

end abstract

/-- the misalignment of a rounded filter: the exact recursion with an additional disturbance -/
theorem rounded_misalign {K : ℕ} {w w1 : Vec (Fl F) n} {x ws ws' : Vec ℝ n} {d g v W V D b : ℝ} (hu : (K : ℕ) * F.u < 1) (hg : 0 ≤ g) (hgx : g * sqn x ≤ 2)
    (hloc : ∀ i, Acc F.u K (w1 i).val ((w i).val + g * x i * (d - ∑ j, (w j).val * x j)) (|(w i).val| + g * |x i| * (|d| + ∑ j, |(w j).val| * |x j|)))
    (hd : d = (∑ i, ws i * x i) + v) (hW : nrm ws ≤ W) (hV : |v| ≤ V) (hD : nrm (fun i => ws i - ws' i) ≤ D) (hb : g * nrm x ≤ b) :
    ∃ r : Vec ℝ n, (fun i => (w1 i).val - ws' i) = (fun i => (((w i).val - ws i) - g * (∑ j, ((w j).val - ws j) * x j) * x i) + r i) ∧
      nrm r ≤ (b * V + D + gamma F.u K * (5 * W + b * V)) + gamma F.u K * (3 * nrm (fun i => (w i).val - ws i)) := by
  set a : Vec ℝ n := fun i => (w i).val with ha
  have hγ : phi F.u K - 1 ≤ gamma F.u K := phi_sub_one_le_gamma F.u_nonneg F.u_lt _ hu
  have hγ0 : 0 ≤ phi F.u K - 1 := by have := one_le_phi F.u_nonneg F.u_lt K; linarith
  have hx0 := nrm_nonneg x
  have hW0 : 0 ≤ W := (nrm_nonneg _).trans hW
  have hV0 : 0 ≤ V := (abs_nonneg _).trans hV
  set l : Vec ℝ n := fun i => (w1 i).val - ((w i).val + g * x i * (d - ∑ j, (w j).val * x j)) with hl
  have hlb : nrm l ≤ (phi F.u K - 1) * (3 * nrm a + g * |d| * nrm x) := local_err hg hgx hloc
  refine ⟨fun i => (g * v * x i + (ws i - ws' i)) + l i, ?_, ?_⟩
  · funext i
    have e1 : d - ∑ j, (w j).val * x j = v - ∑ j, ((w j).val - ws j) * x j := by
      rw [hd]; simp only [sub_mul, sum_sub_distrib]; ring
    simp only [hl, e1]
    ring
  · have hax : nrm a ≤ nrm (fun i => a i - ws i) + W := by
      refine le_trans (le_of_eq ?_) ((nrm_add (fun i => a i - ws i) ws).trans (by linarith))
      congr 1; funext i; ring
    have hdx : |d| ≤ W * nrm x + V := by
      rw [hd]
      refine (abs_add_le _ _).trans (add_le_add ?_ hV)
      refine (abs_sum_le_sum_abs _ _).trans ?_
      refine le_trans (le_of_eq (sum_congr rfl fun i _ => abs_mul _ _)) ((sum_abs_mul_le ws x).trans (mul_le_mul_of_nonneg_right hW hx0))
    have hgd : g * |d| * nrm x ≤ 2 * W + b * V := by
      have h1 : g * |d| * nrm x ≤ g * (W * nrm x + V) * nrm x := mul_le_mul_of_nonneg_right (mul_le_mul_of_nonneg_left hdx hg) hx0
      have h2 : g * (W * nrm x + V) * nrm x = (g * sqn x) * W + (g * nrm x) * V := by rw [← nrm_sq]; ring
      rw [h2] at h1
      exact h1.trans (add_le_add (mul_le_mul_of_nonneg_right hgx hW0) (mul_le_mul_of_nonneg_right hb hV0))
    have h3 : nrm (fun i => g * v * x i + (ws i - ws' i)) ≤ b * V + D := by
      refine (nrm_add _ _).trans (add_le_add ?_ hD)
      rw [nrm_smul, abs_mul, abs_of_nonneg hg]
      calc g * |v| * nrm x = (g * nrm x) * |v| := by ring
        _ ≤ b * V := mul_le_mul hb hV (abs_nonneg _) ((mul_nonneg hg hx0).trans hb)
    refine (nrm_add _ _).trans ?_
    have h4 : nrm l ≤ gamma F.u K * (3 * (nrm (fun i => a i - ws i) + W) + (2 * W + b * V)) := by
      refine hlb.trans ((mul_le_mul_of_nonneg_left (show _ ≤ 3 * (nrm (fun i => a i - ws i) + W) + (2 * W + b * V) by linarith) hγ0).trans (mul_le_mul_of_nonneg_right hγ ?_))
      have := nrm_nonneg (fun i => a i - ws i)
      have := (mul_nonneg (mul_nonneg hg (abs_nonneg d)) hx0).trans hgd
      linarith
    have e5 : gamma F.u K * (3 * (nrm (fun i => a i - ws i) + W) + (2 * W + b * V)) = gamma F.u K * (5 * W + b * V) + gamma F.u K * (3 * nrm (fun i => a i - ws i)) := by ring
    linarith

section lms
variable (o : Obj (lms (Fl F) n)) {d : ℕ → ℝ} {x : ℕ → Vec ℝ n} {y e : ℕ → Fl F} {S : ℕ → Core (Fl F) n Unit}
  (h : Runs (lms (Fl F) n) o (fun k => ⟨d k⟩) (fun k => (x k).fl F) y e S)
  (ws : ℕ → Vec ℝ n) (v : ℕ → ℝ) (hd : ∀ k, d k = (∑ i, ws k i * x k i) + v k) (hmu : 0 < o.core.mu.val) {B α V D W C : ℝ} {T : ℕ}
  (hu : (n + 5 : ℕ) * F.u < 1) (hx : ∀ k, ∑ i, x k i ^ 2 ≤ B) (hB : o.core.mu.val * B < 2) (hT : 0 < T) (hα : 0 < α) (hpe : Exciting x T α)
  (hV : ∀ k, |v k| ≤ V) (hD : ∀ k, Real.sqrt (∑ i, (ws k i - ws (k + 1) i) ^ 2) ≤ D) (hW : ∀ k, Real.sqrt (∑ i, ws k i ^ 2) ≤ W)
  (hC : C = T * (1 + 1 / (1 - windowRate (o.core.mu.val * (2 - o.core.mu.val * B)) α o.core.mu.val B T))) (hsmall : 3 * C * gamma F.u (n + 5) < 1)
include h hd hmu hu hx hB hT hα hpe hV hD hW hC hsmall

theorem lms_rounded_rec : ∃ r : ℕ → Vec ℝ n, ∀ k,
    (fun i => ((S (k + 1)).w i).val - ws (k + 1) i) = (fun i => ((((S k).w i).val - ws k i) - o.core.mu.val * (∑ j, (((S k).w j).val - ws k j) * x k j) * x k i) + r k i) ∧
      nrm (r k) ≤ (o.core.mu.val * Real.sqrt B * V + D + gamma F.u (n + 5) * (5 * W + o.core.mu.val * Real.sqrt B * V)) + gamma F.u (n + 5) * (3 * nrm (fun i => ((S k).w i).val - ws k i)) := by
  have : ∀ k, ∃ r : Vec ℝ n, _ := fun k => rounded_misalign (F := F) (K := n + 5) (w := (S k).w) (w1 := (S (k + 1)).w) (x := x k) (ws := ws k) (ws' := ws (k + 1)) (d := d k) (g := o.core.mu.val) (v := v k)
    (W := W) (V := V) (D := D) (b := o.core.mu.val * Real.sqrt B) hu hmu.le ((mul_le_mul_of_nonneg_left (hx k) hmu.le).trans hB.le)
    (lms_local o ⟨⟨fun _ => 0, 0, o.core.mu.val, ()⟩, []⟩ d x rfl hmu.le h k) (hd k) (hW k) (hV k) (hD k) (mul_le_mul_of_nonneg_left (Real.sqrt_le_sqrt (hx k)) hmu.le)
  choose r hr using this
  exact ⟨r, hr⟩

/-- C159: C101 for LMS in finite precision. The estimated system `ws` may drift (by at most `D` per sample, staying below `W`), the targets may be noisy (`|v| <= V`), the inputs are
persistently exciting. With `γ = gamma_(n+5)`, `C` the gain of C101 and `3 C γ < 1`, the weights stay within `(|w(0) - ws(0)| + C δ) / (1 - 3 C γ)` of the system,
`δ = mu √B V + D + γ (5 W + mu √B V)`. -/
theorem C159_lms_tracking (k : ℕ) :
    Real.sqrt (∑ i, (((S k).w i).val - ws k i) ^ 2) ≤ (Real.sqrt (∑ i, ((o.core.w i).val - ws 0 i) ^ 2)
      + C * (o.core.mu.val * Real.sqrt B * V + D + gamma F.u (n + 5) * (5 * W + o.core.mu.val * Real.sqrt B * V))) / (1 - 3 * C * gamma F.u (n + 5)) := by
  obtain ⟨r, hr⟩ := lms_rounded_rec o h ws v hd hmu hu hx hB hT hα hpe hV hD hW hC hsmall
  have hB0 : 0 ≤ B := (sqn_nonneg (x 0)).trans (hx 0)
  have hle : ∀ k, o.core.mu.val * sqn (x k) ≤ o.core.mu.val * B := fun k => mul_le_mul_of_nonneg_left (hx k) hmu.le
  have hγ : 0 ≤ gamma F.u (n + 5) := gamma_nonneg F.u_nonneg hu
  have hV0 := (abs_nonneg _).trans (hV 0)
  have hD0 := (Real.sqrt_nonneg _).trans (hD 0)
  have hW0 := (Real.sqrt_nonneg _).trans (hW 0)
  have := relative_bound (x := x) (m := fun k i => ((S k).w i).val - ws k i) (r := r) (g := fun _ => o.core.mu.val) hγ (by positivity) (mul_pos hmu (by linarith)) hmu.le hB0 hT hα
    (fun k => mul_le_mul_of_nonneg_left (by linarith [hle k]) hmu.le) (fun k => (abs_of_pos hmu).le) hx hpe (fun k => (hr k).1) (fun k => (hr k).2) rfl hC hsmall k
  rw [h.1] at this
  exact this

/-- C159: ... and in the end within `C δ / (1 - 3 C γ)`, wherever the filter was started. -/
theorem C159_lms_steady_state (η : ℝ) (hη : 0 < η) : ∃ N, ∀ k, N ≤ k →
    Real.sqrt (∑ i, (((S k).w i).val - ws k i) ^ 2) ≤
      C * (o.core.mu.val * Real.sqrt B * V + D + gamma F.u (n + 5) * (5 * W + o.core.mu.val * Real.sqrt B * V)) / (1 - 3 * C * gamma F.u (n + 5)) + η := by
  obtain ⟨r, hr⟩ := lms_rounded_rec o h ws v hd hmu hu hx hB hT hα hpe hV hD hW hC hsmall
  have hB0 : 0 ≤ B := (sqn_nonneg (x 0)).trans (hx 0)
  have hle : ∀ k, o.core.mu.val * sqn (x k) ≤ o.core.mu.val * B := fun k => mul_le_mul_of_nonneg_left (hx k) hmu.le
  have hγ : 0 ≤ gamma F.u (n + 5) := gamma_nonneg F.u_nonneg hu
  have hV0 := (abs_nonneg _).trans (hV 0)
  have hD0 := (Real.sqrt_nonneg _).trans (hD 0)
  have hW0 := (Real.sqrt_nonneg _).trans (hW 0)
  exact relative_eventually (x := x) (m := fun k i => ((S k).w i).val - ws k i) (r := r) (g := fun _ => o.core.mu.val) hγ (by positivity) (mul_pos hmu (by linarith)) hmu.le hB0 hT hα
    (fun k => mul_le_mul_of_nonneg_left (by linarith [hle k]) hmu.le) (fun k => (abs_of_pos hmu).le) hx hpe (fun k => (hr k).1) (fun k => (hr k).2) rfl hC hsmall η hη

end lms

section nlms
variable (o : Obj (nlms (Fl F) n)) {d : ℕ → ℝ} {x : ℕ → Vec ℝ n} {y e : ℕ → Fl F} {S : ℕ → Core (Fl F) n (EpsExt (Fl F))}
  (h : Runs (nlms (Fl F) n) o (fun k => ⟨d k⟩) (fun k => (x k).fl F) y e S)
  (ws : ℕ → Vec ℝ n) (v : ℕ → ℝ) (hd : ∀ k, d k = (∑ i, ws k i * x k i) + v k) (heps : 0 < o.core.ext.eps.val) (hmu : 0 < o.core.mu.val) (hmu2 : o.core.mu.val < 2) {B α V D W C : ℝ} {T : ℕ}
  (hu : (2 * n + 8 : ℕ) * F.u < 1) (hx : ∀ k, ∑ i, x k i ^ 2 ≤ B) (hT : 0 < T) (hα : 0 < α) (hpe : Exciting x T α)
  (hV : ∀ k, |v k| ≤ V) (hD : ∀ k, Real.sqrt (∑ i, (ws k i - ws (k + 1) i) ^ 2) ≤ D) (hW : ∀ k, Real.sqrt (∑ i, ws k i ^ 2) ≤ W)
  (hC : C = T * (1 + 1 / (1 - windowRate (o.core.mu.val * (2 - o.core.mu.val) / (o.core.ext.eps.val + B)) α (o.core.mu.val / o.core.ext.eps.val) B T)))
  (hsmall : 3 * C * gamma F.u (2 * n + 8) < 1)
include h hd heps hmu hmu2 hu hx hT hα hpe hV hD hW hC hsmall

theorem nlms_rounded_rec : ∃ r : ℕ → Vec ℝ n, ∀ k,
    (fun i => ((S (k + 1)).w i).val - ws (k + 1) i) = (fun i => ((((S k).w i).val - ws k i)
      - o.core.mu.val / (o.core.ext.eps.val + ∑ j, x k j ^ 2) * (∑ j, (((S k).w j).val - ws k j) * x k j) * x k i) + r k i) ∧
      nrm (r k) ≤ (o.core.mu.val / (2 * Real.sqrt o.core.ext.eps.val) * V + D + gamma F.u (2 * n + 8) * (5 * W + o.core.mu.val / (2 * Real.sqrt o.core.ext.eps.val) * V))
        + gamma F.u (2 * n + 8) * (3 * nrm (fun i => ((S k).w i).val - ws k i)) := by
  have hp : ∀ k, 0 < o.core.ext.eps.val + sqn (x k) := fun k => by linarith [sqn_nonneg (x k)]
  have : ∀ k, ∃ r : Vec ℝ n, _ := fun k => rounded_misalign (F := F) (K := 2 * n + 8) (w := (S k).w) (w1 := (S (k + 1)).w) (x := x k) (ws := ws k) (ws' := ws (k + 1)) (d := d k)
    (g := o.core.mu.val / (o.core.ext.eps.val + ∑ j, x k j ^ 2)) (v := v k) (W := W) (V := V) (D := D) (b := o.core.mu.val / (2 * Real.sqrt o.core.ext.eps.val)) hu
    (div_nonneg hmu.le (hp k).le) ((nlms_gain heps hmu.le (sqn_nonneg (x k))).trans hmu2.le)
    (nlms_local o ⟨⟨fun _ => 0, 0, o.core.mu.val, ⟨o.core.ext.eps.val⟩⟩, []⟩ d x rfl rfl heps hmu.le h k) (hd k) (hW k) (hV k) (hD k) (nlms_noise_gain heps hmu.le (sqn_nonneg (x k)))
  choose r hr using this
  exact ⟨r, hr⟩

/-- the hypotheses of the abstract bounds -/
theorem nlms_gain_bounds : (∀ k, o.core.mu.val * (2 - o.core.mu.val) / (o.core.ext.eps.val + B) ≤
      o.core.mu.val / (o.core.ext.eps.val + ∑ j, x k j ^ 2) * (2 - o.core.mu.val / (o.core.ext.eps.val + ∑ j, x k j ^ 2) * sqn (x k))) ∧
    ∀ k, |o.core.mu.val / (o.core.ext.eps.val + ∑ j, x k j ^ 2)| ≤ o.core.mu.val / o.core.ext.eps.val := by
  have hp : ∀ k, 0 < o.core.ext.eps.val + sqn (x k) := fun k => by linarith [sqn_nonneg (x k)]
  refine ⟨fun k => ?_, fun k => ?_⟩
  · have h4 := nlms_gain heps hmu.le (sqn_nonneg (x k))
    calc _ ≤ o.core.mu.val * (2 - o.core.mu.val) / (o.core.ext.eps.val + sqn (x k)) :=
          div_le_div_of_nonneg_left (mul_nonneg hmu.le (by linarith)) (hp k) (by linarith [hx k, show sqn (x k) ≤ B from hx k])
      _ = o.core.mu.val / (o.core.ext.eps.val + sqn (x k)) * (2 - o.core.mu.val) := by ring
      _ ≤ _ := mul_le_mul_of_nonneg_left (by unfold sqn at h4 ⊢; linarith) (div_nonneg hmu.le (hp k).le)
  · show |o.core.mu.val / (o.core.ext.eps.val + sqn (x k))| ≤ _
    rw [abs_of_nonneg (div_nonneg hmu.le (hp k).le)]
    exact div_le_div_of_nonneg_left hmu.le heps (by linarith [sqn_nonneg (x k)])

/-- C159: C101 for NLMS in finite precision, `0 < mu < 2`, `eps > 0`. -/
theorem C159_nlms_tracking (k : ℕ) :
    Real.sqrt (∑ i, (((S k).w i).val - ws k i) ^ 2) ≤ (Real.sqrt (∑ i, ((o.core.w i).val - ws 0 i) ^ 2)
      + C * (o.core.mu.val / (2 * Real.sqrt o.core.ext.eps.val) * V + D + gamma F.u (2 * n + 8) * (5 * W + o.core.mu.val / (2 * Real.sqrt o.core.ext.eps.val) * V)))
        / (1 - 3 * C * gamma F.u (2 * n + 8)) := by
  obtain ⟨r, hr⟩ := nlms_rounded_rec o h ws v hd heps hmu hmu2 hu hx hT hα hpe hV hD hW hC hsmall
  obtain ⟨h1, h2⟩ := nlms_gain_bounds o h ws v hd heps hmu hmu2 hu hx hT hα hpe hV hD hW hC hsmall
  have hB0 : 0 ≤ B := (sqn_nonneg (x 0)).trans (hx 0)
  have hγ : 0 ≤ gamma F.u (2 * n + 8) := gamma_nonneg F.u_nonneg hu
  have hV0 := (abs_nonneg _).trans (hV 0)
  have hD0 := (Real.sqrt_nonneg _).trans (hD 0)
  have hW0 := (Real.sqrt_nonneg _).trans (hW 0)
  have := relative_bound (x := x) (m := fun k i => ((S k).w i).val - ws k i) (r := r) (g := fun k => o.core.mu.val / (o.core.ext.eps.val + ∑ j, x k j ^ 2)) hγ (by positivity)
    (div_pos (mul_pos hmu (by linarith)) (by linarith)) (div_nonneg hmu.le heps.le) hB0 hT hα h1 h2 hx hpe (fun k => (hr k).1) (fun k => (hr k).2) rfl hC hsmall k
  rw [h.1] at this
  exact this

/-- C159: ... and in the end, wherever the filter was started. -/
theorem C159_nlms_steady_state (η : ℝ) (hη : 0 < η) : ∃ N, ∀ k, N ≤ k →
    Real.sqrt (∑ i, (((S k).w i).val - ws k i) ^ 2) ≤
      C * (o.core.mu.val / (2 * Real.sqrt o.core.ext.eps.val) * V + D + gamma F.u (2 * n + 8) * (5 * W + o.core.mu.val / (2 * Real.sqrt o.core.ext.eps.val) * V))
        / (1 - 3 * C * gamma F.u (2 * n + 8)) + η := by
  obtain ⟨r, hr⟩ := nlms_rounded_rec o h ws v hd heps hmu hmu2 hu hx hT hα hpe hV hD hW hC hsmall
  obtain ⟨h1, h2⟩ := nlms_gain_bounds o h ws v hd heps hmu hmu2 hu hx hT hα hpe hV hD hW hC hsmall
  have hB0 : 0 ≤ B := (sqn_nonneg (x 0)).trans (hx 0)
  have hγ : 0 ≤ gamma F.u (2 * n + 8) := gamma_nonneg F.u_nonneg hu
  have hV0 := (abs_nonneg _).trans (hV 0)
  have hD0 := (Real.sqrt_nonneg _).trans (hD 0)
  have hW0 := (Real.sqrt_nonneg _).trans (hW 0)
  exact relative_eventually (x := x) (m := fun k i => ((S k).w i).val - ws k i) (r := r) (g := fun k => o.core.mu.val / (o.core.ext.eps.val + ∑ j, x k j ^ 2)) hγ (by positivity)
    (div_pos (mul_pos hmu (by linarith)) (by linarith)) (div_nonneg hmu.le heps.le) hB0 hT hα h1 h2 hx hpe (fun k => (hr k).1) (fun k => (hr k).2) rfl hC hsmall η hη

end nlms

/-- the hypotheses of `C159_lms_tracking` are met: double precision, an oscillating system, noisy targets, the alternating unit vectors -/
example : ∃ (o : Obj (lms (Fl (binary 53 (by norm_num))) 2)) (ws : ℕ → Vec ℝ 2) (v : ℕ → ℝ) (y e : ℕ → Fl (binary 53 (by norm_num))) (S : ℕ → Core _ 2 Unit),
    Runs (lms (Fl (binary 53 (by norm_num))) 2) o (fun k => ⟨(∑ i, ws k i * turns k i) + v k⟩) (fun k => Vec.fl _ (turns k)) y e S ∧ o.core.mu.val = 1 / 2 ∧
    ((2 + 5 : ℕ) : ℝ) * (binary 53 (by norm_num)).u < 1 ∧ (∀ k, ∑ i, turns k i ^ 2 ≤ (1 : ℝ)) ∧ o.core.mu.val * 1 < 2 ∧ Exciting (turns : ℕ → Vec ℝ 2) 2 1 ∧
    (∀ k, |v k| ≤ 1 / 10) ∧ (∀ k, Real.sqrt (∑ i, (ws k i - ws (k + 1) i) ^ 2) ≤ 3) ∧ (∀ k, Real.sqrt (∑ i, ws k i ^ 2) ≤ 2) ∧ ws 0 ≠ ws 1 ∧
    3 * ((2 : ℕ) * (1 + 1 / (1 - windowRate (o.core.mu.val * (2 - o.core.mu.val * 1)) 1 o.core.mu.val 1 2))) * gamma (binary 53 (by norm_num)).u (2 + 5) < 1 := by
  have hu : (binary 53 (by norm_num)).u = (1 / 2) ^ 53 := rfl
  refine ⟨⟨⟨fun _ => ⟨0⟩, 2, ⟨1 / 2⟩, ()⟩, []⟩, fun k _ => (-1) ^ k, fun k => (-1) ^ k / 10, _, _, _, runs_of_safe lms_safe _ trivial _ _, rfl,
    ?_, turns_sqn, by norm_num, turns_exciting, fun k => ?_, fun k => ?_, fun k => ?_, ?_, ?_⟩
  · rw [hu]; norm_num
  · rw [abs_div, abs_pow]; norm_num
  · show Real.sqrt (∑ i : Fin 2, ((-1 : ℝ) ^ k - (-1) ^ (k + 1)) ^ 2) ≤ 3
    rw [Real.sqrt_le_left (by norm_num), Fin.sum_univ_two, pow_succ (-1 : ℝ) k]
    rcases neg_one_pow_eq_or ℝ k with hk | hk <;> rw [hk] <;> norm_num
  · show Real.sqrt (∑ i : Fin 2, ((-1 : ℝ) ^ k) ^ 2) ≤ 2
    rw [Real.sqrt_le_left (by norm_num), Fin.sum_univ_two]
    rcases neg_one_pow_eq_or ℝ k with hk | hk <;> rw [hk] <;> norm_num
  · intro h
    have := congrFun h 0
    norm_num at this
  · have h1 : windowRate ((1 : ℝ) / 2 * (2 - 1 / 2 * 1)) 1 (1 / 2) 1 2 ≤ 47 / 48 := by
      unfold windowRate
      rw [Real.sqrt_le_left (by norm_num)]
      norm_num
    have h2 : 1 / (1 - windowRate ((1 : ℝ) / 2 * (2 - 1 / 2 * 1)) 1 (1 / 2) 1 2) ≤ 48 := by
      rw [div_le_iff₀ (by linarith)]
      linarith
    have h3 : gamma (binary 53 (by norm_num)).u (2 + 5) ≤ 1 / 1000 := by
      rw [hu]; unfold gamma; norm_num
    have h4 : 0 ≤ gamma (binary 53 (by norm_num)).u (2 + 5) := by
      rw [hu]; unfold gamma; norm_num
    show 3 * ((2 : ℕ) * (1 + 1 / (1 - windowRate ((1 : ℝ) / 2 * (2 - 1 / 2 * 1)) 1 (1 / 2) 1 2))) * gamma (binary 53 (by norm_num)).u (2 + 5) < 1
    push_cast
    nlinarith [mul_le_mul_of_nonneg_right h2 h4]

end Padasip
