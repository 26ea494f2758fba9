import Verif.Props.RoundMore
import Verif.Props.Tracking

/-!
# C158: rounding errors of LMS and NLMS are not amplified
-/

set_option linter.unusedSectionVars false
set_option linter.unusedVariables false
set_option linter.unusedSimpArgs false

namespace Padasip

open Finset

variable {F : Rounding} {n : ℕ}

theorem nrm_mono {a b : Vec ℝ n} (h : ∀ i, |a i| ≤ b i) : nrm a ≤ nrm b := by
  refine Real.sqrt_le_sqrt (sum_le_sum fun i _ => ?_)
  exact sq_le_sq' (by linarith [(abs_le.1 (h i)).1]) ((le_abs_self _).trans (h i))

theorem nrm_abs (a : Vec ℝ n) : nrm (fun i => |a i|) = nrm a := by simp [nrm]

theorem sum_abs_mul_le (a b : Vec ℝ n) : ∑ j, |a j| * |b j| ≤ nrm a * nrm b := by
  have h := Real.sum_mul_le_sqrt_mul_sqrt univ (fun j => |a j|) (fun j => |b j|)
  simpa [nrm] using h

/-- the local error of one rounded step with the gain `g`: `w1` is computed from `w` -/
theorem local_err {K : ℕ} {w w1 : Vec (Fl F) n} {x : Vec ℝ n} {d g : ℝ} (hg : 0 ≤ g) (hgx : g * sqn x ≤ 2)
    (h : ∀ i, Acc F.u K (w1 i).val ((w i).val + g * x i * (d - ∑ j, (w j).val * x j)) (|(w i).val| + g * |x i| * (|d| + ∑ j, |(w j).val| * |x j|))) :
    nrm (fun i => (w1 i).val - ((w i).val + g * x i * (d - ∑ j, (w j).val * x j))) ≤ (phi F.u K - 1) * (3 * nrm (fun i => (w i).val) + g * |d| * nrm x) := by
  have hγ : 0 ≤ phi F.u K - 1 := by have := one_le_phi F.u_nonneg F.u_lt K; linarith
  set a : Vec ℝ n := fun i => (w i).val with ha
  refine (nrm_mono fun i => (h i).1).trans ?_
  rw [nrm_smul, abs_of_nonneg hγ]
  refine mul_le_mul_of_nonneg_left ?_ hγ
  refine (nrm_add _ _).trans ?_
  have h1 : nrm (fun i => |(w i).val|) = nrm a := nrm_abs a
  have h2 : nrm (fun i => g * |x i| * (|d| + ∑ j, |(w j).val| * |x j|)) = (g * (|d| + ∑ j, |a j| * |x j|)) * nrm x := by
    have hs : 0 ≤ |d| + ∑ j, |a j| * |x j| := add_nonneg (abs_nonneg _) (sum_nonneg fun j _ => mul_nonneg (abs_nonneg _) (abs_nonneg _))
    have h5 := nrm_smul (g * (|d| + ∑ j, |a j| * |x j|)) (fun i => |x i|)
    rw [abs_of_nonneg (mul_nonneg hg hs), nrm_abs] at h5
    rw [← h5]
    congr 1; funext i
    show g * |x i| * (|d| + ∑ j, |a j| * |x j|) = _
    ring
  rw [h1, h2]
  have h3 : g * (∑ j, |a j| * |x j|) * nrm x ≤ 2 * nrm a := by
    have e1 := mul_le_mul_of_nonneg_right (mul_le_mul_of_nonneg_left (sum_abs_mul_le a x) hg) (nrm_nonneg x)
    have e2 := mul_le_mul_of_nonneg_right hgx (nrm_nonneg a)
    rw [← nrm_sq] at e2
    calc _ ≤ g * (nrm a * nrm x) * nrm x := e1
      _ = g * nrm x ^ 2 * nrm a := by ring
      _ ≤ _ := e2
  have h4 : g * (|d| + ∑ j, |a j| * |x j|) * nrm x = g * |d| * nrm x + g * (∑ j, |a j| * |x j|) * nrm x := by ring
  rw [h4]
  linarith

/-- the difference of the two runs obeys the disturbed recursion -/
theorem diff_rec {a a1 b x : Vec ℝ n} {d g : ℝ} :
    (fun i => a1 i - (b i + g * x i * (d - ∑ j, b j * x j))) =
      fun i => ((a i - b i) - g * (∑ j, (a j - b j) * x j) * x i) + (a1 i - (a i + g * x i * (d - ∑ j, a j * x j))) := by
  funext i
  simp only [sub_mul, sum_sub_distrib]
  ring

/-! ## abstract bounds -/

/-- a recursion with relative disturbances: they add up, they are not amplified -/
theorem drift_bound {x m r : ℕ → Vec ℝ n} {g : ℕ → ℝ} {γ W D : ℝ} {N : ℕ} (hγ : 0 ≤ γ) (hg : ∀ k < N, 0 ≤ g k * (2 - g k * sqn (x k))) (h0 : nrm (m 0) = 0)
    (hm : ∀ k, m (k + 1) = fun i => (m k i - g k * (∑ j, m k j * x k j) * x k i) + r k i) (hr : ∀ k < N, nrm (r k) ≤ γ * (3 * nrm (m k) + 3 * W + D)) :
    ∀ k ≤ N, nrm (m k) ≤ ((1 + 3 * γ) ^ k - 1) * (W + D / 3) := by
  intro k
  induction k with
  | zero => intro _; rw [h0]; simp
  | succ k ih =>
    intro hk
    have ih := ih (by omega)
    rw [hm]
    refine (nrm_add _ _).trans ?_
    have h2 : nrm (fun i => m k i - g k * (∑ l, m k l * x k l) * x k i) ≤ nrm (m k) := nrm_le_of_sqn ((step_nonexp (hg k (by omega))).trans (by linarith))
    have h3 := hr k (by omega)
    have h4 := mul_le_mul_of_nonneg_left ih (show 0 ≤ 1 + 3 * γ by linarith)
    rw [pow_succ]
    nlinarith

/-- the recursion continued without disturbances after `N` steps -/
noncomputable def cutOff (x : ℕ → Vec ℝ n) (g : ℕ → ℝ) (m : ℕ → Vec ℝ n) (N : ℕ) : ℕ → Vec ℝ n
  | 0 => m 0
  | k + 1 => if k < N then m (k + 1) else fun i => cutOff x g m N k i - g k * (∑ j, cutOff x g m N k j * x k j) * x k i

theorem cutOff_le (x : ℕ → Vec ℝ n) (g : ℕ → ℝ) (m : ℕ → Vec ℝ n) (N k : ℕ) (hk : k ≤ N) : cutOff x g m N k = m k := by
  cases k with
  | zero => rfl
  | succ k => rw [cutOff, if_pos (by omega)]

/-- with persistent excitation relative disturbances stay bounded for ever -/
theorem drift_excited {x m r : ℕ → Vec ℝ n} {g : ℕ → ℝ} {γ W D c G B α : ℝ} {T : ℕ} (hγ : 0 ≤ γ) (hW : 0 ≤ W) (hD : 0 ≤ D) (hc : 0 < c) (hG : 0 ≤ G) (hB : 0 ≤ B) (hT : 0 < T) (hα : 0 < α)
    (hg : ∀ k, c ≤ g k * (2 - g k * sqn (x k))) (hgG : ∀ k, |g k| ≤ G) (hx : ∀ k, sqn (x k) ≤ B) (hpe : Exciting x T α) (h0 : nrm (m 0) = 0)
    (hm : ∀ k, m (k + 1) = fun i => (m k i - g k * (∑ j, m k j * x k j) * x k i) + r k i) (hr : ∀ k, nrm (r k) ≤ γ * (3 * nrm (m k) + 3 * W + D))
    (hsmall : 6 * (T * (1 + 1 / (1 - windowRate c α G B T))) * γ ≤ 1) (k : ℕ) :
    nrm (m k) ≤ 2 * (T * (1 + 1 / (1 - windowRate c α G B T))) * γ * (3 * W + D) := by
  set ρ := windowRate c α G B T with hρ
  have hρ1 : ρ < 1 := windowRate_lt_one hc hα hG hB hT
  set C : ℝ := T * (1 + 1 / (1 - ρ)) with hC
  have hC0 : 0 ≤ C := by
    have : 0 < 1 - ρ := by linarith
    positivity
  set M := 2 * C * γ * (3 * W + D) with hM
  have hM0 : 0 ≤ M := by positivity
  induction k using Nat.strong_induction_on with
  | _ k ih =>
    have hd := disturbed_bound (x := x) (m := cutOff x g m k) (r := fun j => if j < k then r j else fun _ => 0) (g := g) (δ := γ * (3 * M + 3 * W + D)) hc hG hB hT hα hg hgG hx hpe
      (fun j => by
        by_cases hj : j < k
        · simp only [cutOff, if_pos hj]
          rw [hm j, cutOff_le x g m k j hj.le]
        · simp only [cutOff, if_neg hj, add_zero])
      (fun j => by
        by_cases hj : j < k
        · simp only [if_pos hj]
          refine (hr j).trans (mul_le_mul_of_nonneg_left ?_ hγ)
          have := ih j hj
          linarith
        · simp only [if_neg hj]
          have : nrm (fun _ : Fin n => (0 : ℝ)) = 0 := by simp [nrm]
          rw [this]; positivity) k
    rw [cutOff_le x g m k k le_rfl] at hd
    have h00 : nrm (cutOff x g m k 0) = 0 := h0
    rw [h00, mul_zero, zero_add] at hd
    refine hd.trans ?_
    have e1 : (T : ℝ) * (γ * (3 * M + 3 * W + D)) * (1 + 1 / (1 - ρ)) = (6 * C * γ) * (M / 2) + C * γ * (3 * W + D) := by rw [hC]; ring
    have e2 := mul_le_mul_of_nonneg_right hsmall (show 0 ≤ M / 2 by linarith)
    rw [e1]
    have e3 : C * γ * (3 * W + D) = M / 2 := by rw [hM]; ring
    rw [e3]; linarith

theorem start_nrm {a b : Vec ℝ n} (h : a = b) : nrm (fun i => a i - b i) = 0 := by subst h; simp [nrm]

section generic
variable {K : ℕ} {w : ℕ → Vec (Fl F) n} {w' x : ℕ → Vec ℝ n} {d g : ℕ → ℝ} (hu : (K : ℕ) * F.u < 1) (hstart : ∀ i, (w 0 i).val = w' 0 i) (hg : ∀ k, 0 ≤ g k)
  (hloc : ∀ k i, Acc F.u K (w (k + 1) i).val ((w k i).val + g k * x k i * (d k - ∑ j, (w k j).val * x k j)) (|(w k i).val| + g k * |x k i| * (|d k| + ∑ j, |(w k j).val| * |x k j|)))
  (hex : ∀ k, w' (k + 1) = fun i => w' k i + g k * x k i * (d k - ∑ j, w' k j * x k j))
include hu hstart hg hloc hex

theorem generic_rec (k : ℕ) : (fun i => (w (k + 1) i).val - w' (k + 1) i) = fun i => (((w k i).val - w' k i) - g k * (∑ j, ((w k j).val - w' k j) * x k j) * x k i) +
    ((w (k + 1) i).val - ((w k i).val + g k * x k i * (d k - ∑ j, (w k j).val * x k j))) := by
  rw [hex]
  exact diff_rec (a := fun i => (w k i).val) (a1 := fun i => (w (k + 1) i).val)

theorem generic_local {W D : ℝ} (k : ℕ) (hx : g k * sqn (x k) ≤ 2) (hW : nrm (w' k) ≤ W) (hD : g k * |d k| * nrm (x k) ≤ D) :
    nrm (fun i => (w (k + 1) i).val - ((w k i).val + g k * x k i * (d k - ∑ j, (w k j).val * x k j))) ≤ gamma F.u K * (3 * nrm (fun i => (w k i).val - w' k i) + 3 * W + D) := by
  have hγ : phi F.u K - 1 ≤ gamma F.u K := phi_sub_one_le_gamma F.u_nonneg F.u_lt _ hu
  have hγ0 : 0 ≤ phi F.u K - 1 := by have := one_le_phi F.u_nonneg F.u_lt K; linarith
  refine (local_err (hg k) hx (hloc k)).trans ?_
  have t : nrm (fun i => (w k i).val) ≤ nrm (fun i => (w k i).val - w' k i) + nrm (w' k) := by
    refine le_trans (le_of_eq ?_) (nrm_add _ _)
    congr 1; funext i; ring
  have hp : 0 ≤ 3 * nrm (fun i => (w k i).val) + g k * |d k| * nrm (x k) :=
    add_nonneg (mul_nonneg (by norm_num) (nrm_nonneg _)) (mul_nonneg (mul_nonneg (hg k) (abs_nonneg _)) (nrm_nonneg _))
  exact (mul_le_mul_of_nonneg_right hγ hp).trans (mul_le_mul_of_nonneg_left (by linarith) (hγ0.trans hγ))

theorem generic_gamma : 0 ≤ gamma F.u K := by
  have hγ : phi F.u K - 1 ≤ gamma F.u K := phi_sub_one_le_gamma F.u_nonneg F.u_lt _ hu
  have := one_le_phi F.u_nonneg F.u_lt K
  linarith

theorem generic_drift (k : ℕ) {W D : ℝ} (hx : ∀ j < k, g j * sqn (x j) ≤ 2) (hW : ∀ j < k, nrm (w' j) ≤ W) (hD : ∀ j < k, g j * |d j| * nrm (x j) ≤ D) :
    nrm (fun i => (w k i).val - w' k i) ≤ ((1 + 3 * gamma F.u K) ^ k - 1) * (W + D / 3) :=
  drift_bound (x := x) (m := fun k i => (w k i).val - w' k i) (g := g)
    (r := fun k i => (w (k + 1) i).val - ((w k i).val + g k * x k i * (d k - ∑ j, (w k j).val * x k j))) (γ := gamma F.u K) (W := W) (D := D) (N := k)
    (generic_gamma hu hstart hg hloc hex) (fun j hj => mul_nonneg (hg j) (by have := hx j hj; linarith)) (start_nrm (funext hstart))
    (generic_rec hu hstart hg hloc hex) (fun j hj => generic_local hu hstart hg hloc hex j (hx j hj) (hW j hj) (hD j hj)) k le_rfl

theorem generic_excited {W D c G B α : ℝ} {T : ℕ} (hc : 0 < c) (hG : 0 ≤ G) (hB : 0 ≤ B) (hT : 0 < T) (hα : 0 < α) (hgc : ∀ k, c ≤ g k * (2 - g k * sqn (x k))) (hgG : ∀ k, |g k| ≤ G)
    (hx : ∀ k, sqn (x k) ≤ B) (hpe : Exciting x T α) (hgx : ∀ k, g k * sqn (x k) ≤ 2) (hW : ∀ j, nrm (w' j) ≤ W) (hD : ∀ j, g j * |d j| * nrm (x j) ≤ D)
    (hsmall : 6 * (T * (1 + 1 / (1 - windowRate c α G B T))) * gamma F.u K ≤ 1) (k : ℕ) :
    nrm (fun i => (w k i).val - w' k i) ≤ 2 * (T * (1 + 1 / (1 - windowRate c α G B T))) * gamma F.u K * (3 * W + D) :=
  drift_excited (x := x) (m := fun k i => (w k i).val - w' k i) (g := g)
    (r := fun k i => (w (k + 1) i).val - ((w k i).val + g k * x k i * (d k - ∑ j, (w k j).val * x k j))) (γ := gamma F.u K) (W := W) (D := D)
    (generic_gamma hu hstart hg hloc hex) ((nrm_nonneg _).trans (hW 0)) ((mul_nonneg (mul_nonneg (hg 0) (abs_nonneg _)) (nrm_nonneg _)).trans (hD 0)) hc hG hB hT hα hgc hgG hx hpe
    (start_nrm (funext hstart)) (generic_rec hu hstart hg hloc hex) (fun j => generic_local hu hstart hg hloc hex j (hgx j) (hW j) (hD j)) hsmall k

end generic

/-! ## LMS -/

section lms
variable (o : Obj (lms (Fl F) n)) (o' : Obj (lms ℝ n)) (hw : o.core.w = o'.core.w.fl F) (hmu : o.core.mu = ⟨o'.core.mu⟩)
  (d : ℕ → ℝ) (x : ℕ → Vec ℝ n) {y e : ℕ → Fl F} {y' e' : ℕ → ℝ} {S : ℕ → Core (Fl F) n Unit} {S' : ℕ → Core ℝ n Unit}
  (h : Runs (lms (Fl F) n) o (fun k => ⟨d k⟩) (fun k => (x k).fl F) y e S) (h' : Runs (lms ℝ n) o' d x y' e' S')

theorem lms_local (hmu : o.core.mu = ⟨o'.core.mu⟩) (h2 : 0 ≤ o'.core.mu) (h : Runs (lms (Fl F) n) o (fun k => ⟨d k⟩) (fun k => (x k).fl F) y e S) (k : ℕ) (i : Fin n) :
    Acc F.u (n + 5) ((S (k + 1)).w i).val (((S k).w i).val + o'.core.mu * x k i * (d k - ∑ j, ((S k).w j).val * x k j))
      (|((S k).w i).val| + o'.core.mu * |x k i| * (|d k| + ∑ j, |((S k).w j).val| * |x k j|)) := by
  have h0 := F.u_nonneg
  have h1 := F.u_lt
  obtain ⟨m1, -, hy, he, hwk⟩ := lms_runs h k
  have ae := (ye_acc (F := F) (c := 0) (w := (S k).w) (w' := fun i => ((S k).w i).val) (B := fun i => |((S k).w i).val|) (x := x k) (d := d k) (fun i => acc_exact h0 h1 _) hy he rfl rfl).2
  rw [hwk, m1, hmu]
  have a1 := Acc.flmul (F := F) (a := ⟨o'.core.mu⟩) (c := ⟨x k i⟩) (acc_exact h0 h1 _) (acc_exact h0 h1 _)
  have a2 := Acc.flmul a1 ae
  have a3 := Acc.fladd ((acc_exact (u := F.u) h0 h1 ((S k).w i).val).mono h0 h1 (Nat.zero_le (0 + 0 + 1 + (0 + n + 2) + 1))) a2
  rw [show n + 5 = 0 + 0 + 1 + (0 + n + 2) + 1 + 1 by ring]
  rw [dot_eq] at a3
  refine a3.weaken h0 h1 (le_of_eq ?_)
  show _ + |o'.core.mu| * _ * _ = _
  rw [abs_of_nonneg h2]

theorem lms_exact (h' : Runs (lms ℝ n) o' d x y' e' S') (k : ℕ) : (S' (k + 1)).w = fun i => (S' k).w i + o'.core.mu * x k i * (d k - ∑ j, (S' k).w j * x k j) := by
  obtain ⟨m2, -, hy', he', hwk'⟩ := lms_runs h' k
  rw [hwk', m2, he', hy', dot_eq]

include hw hmu h h'

/-- C158: LMS on any data with `mu |x(j)|^2 <= 2`. If the exact weights stay below `W` (Euclidean norm) and `mu |d(j)| |x(j)| <= D`, then after `k` samples the weights of the rounded run
differ from the exact ones by at most `((1 + 3 gamma_(n+5))^k - 1) (W + D/3)`, i.e. about `k (n+5) u (3 W + D)`: rounding errors add up, but are not amplified. -/
theorem C158_lms (h2 : 0 ≤ o'.core.mu) (hu : (n + 5 : ℕ) * F.u < 1) (k : ℕ) {W D : ℝ}
    (hx : ∀ j < k, o'.core.mu * ∑ i, x j i ^ 2 ≤ 2) (hW : ∀ j < k, Real.sqrt (∑ i, (S' j).w i ^ 2) ≤ W) (hD : ∀ j < k, o'.core.mu * |d j| * Real.sqrt (∑ i, x j i ^ 2) ≤ D) :
    Real.sqrt (∑ i, (((S k).w i).val - (S' k).w i) ^ 2) ≤ ((1 + 3 * gamma F.u (n + 5)) ^ k - 1) * (W + D / 3) :=
  generic_drift (F := F) (w := fun k => (S k).w) (w' := fun k => (S' k).w) (g := fun _ => o'.core.mu) hu
    (fun i => by rw [h.1, h'.1]; show (o.core.w i).val = o'.core.w i; rw [hw]; rfl) (fun _ => h2) (lms_local o o' d x hmu h2 h) (lms_exact o' d x h') k hx hW hD

/-- C158: LMS on persistently exciting inputs (`|x(k)|^2 <= B`, `mu B < 2`): with precise enough arithmetic the rounded weights stay close to the exact ones *for ever*:
at most `2 C gamma_(n+5) (3 W + D)`, where `C` is the gain of the exact filter for disturbances (as in C101), provided `6 C gamma_(n+5) <= 1`. -/
theorem C158_lms_for_ever (h2 : 0 < o'.core.mu) (hu : (n + 5 : ℕ) * F.u < 1) {B α W D C : ℝ} {T : ℕ}
    (hx : ∀ k, ∑ i, x k i ^ 2 ≤ B) (hB : o'.core.mu * B < 2) (hT : 0 < T) (hα : 0 < α) (hpe : Exciting x T α)
    (hW : ∀ j, Real.sqrt (∑ i, (S' j).w i ^ 2) ≤ W) (hD : ∀ j, o'.core.mu * |d j| * Real.sqrt (∑ i, x j i ^ 2) ≤ D)
    (hC : C = T * (1 + 1 / (1 - windowRate (o'.core.mu * (2 - o'.core.mu * B)) α o'.core.mu B T))) (hsmall : 6 * C * gamma F.u (n + 5) ≤ 1) (k : ℕ) :
    Real.sqrt (∑ i, (((S k).w i).val - (S' k).w i) ^ 2) ≤ 2 * C * gamma F.u (n + 5) * (3 * W + D) := by
  have hB0 : 0 ≤ B := (sqn_nonneg (x 0)).trans (hx 0)
  have hle : ∀ k, o'.core.mu * sqn (x k) ≤ o'.core.mu * B := fun k => mul_le_mul_of_nonneg_left (hx k) h2.le
  subst hC
  exact generic_excited (F := F) (w := fun k => (S k).w) (w' := fun k => (S' k).w) (g := fun _ => o'.core.mu) hu
    (fun i => by rw [h.1, h'.1]; show (o.core.w i).val = o'.core.w i; rw [hw]; rfl) (fun _ => h2.le) (lms_local o o' d x hmu h2.le h) (lms_exact o' d x h')
    (mul_pos h2 (by linarith)) h2.le hB0 hT hα (fun k => mul_le_mul_of_nonneg_left (by linarith [hle k]) h2.le) (fun k => (abs_of_pos h2).le) hx hpe (fun k => by linarith [hle k]) hW hD hsmall k

end lms

/-! ## NLMS -/

section nlms
variable (o : Obj (nlms (Fl F) n)) (o' : Obj (nlms ℝ n)) (hw : o.core.w = o'.core.w.fl F) (hmu : o.core.mu = ⟨o'.core.mu⟩)
  (heps : o.core.ext.eps = ⟨o'.core.ext.eps⟩) (hpos : 0 < o'.core.ext.eps)
  (d : ℕ → ℝ) (x : ℕ → Vec ℝ n) {y e : ℕ → Fl F} {y' e' : ℕ → ℝ} {S : ℕ → Core (Fl F) n (EpsExt (Fl F))} {S' : ℕ → Core ℝ n (EpsExt ℝ)}
  (h : Runs (nlms (Fl F) n) o (fun k => ⟨d k⟩) (fun k => (x k).fl F) y e S) (h' : Runs (nlms ℝ n) o' d x y' e' S')

theorem nlms_local (hmu : o.core.mu = ⟨o'.core.mu⟩) (heps : o.core.ext.eps = ⟨o'.core.ext.eps⟩) (hpos : 0 < o'.core.ext.eps) (h2 : 0 ≤ o'.core.mu)
    (h : Runs (nlms (Fl F) n) o (fun k => ⟨d k⟩) (fun k => (x k).fl F) y e S) (k : ℕ) (i : Fin n) :
    Acc F.u (2 * n + 8) ((S (k + 1)).w i).val (((S k).w i).val + o'.core.mu / (o'.core.ext.eps + ∑ j, x k j ^ 2) * x k i * (d k - ∑ j, ((S k).w j).val * x k j))
      (|((S k).w i).val| + o'.core.mu / (o'.core.ext.eps + ∑ j, x k j ^ 2) * |x k i| * (|d k| + ∑ j, |((S k).w j).val| * |x k j|)) := by
  have h0 := F.u_nonneg
  have h1 := F.u_lt
  obtain ⟨m1, e1, hy, he, hwk⟩ := nlms_runs h k
  have ae := (ye_acc (F := F) (c := 0) (w := (S k).w) (w' := fun i => ((S k).w i).val) (B := fun i => |((S k).w i).val|) (x := x k) (d := d k) (fun i => acc_exact h0 h1 _) hy he rfl rfl).2
  rw [hwk, m1, e1, hmu, heps]
  have hdot : dot (x k) (x k) = ∑ j, x k j ^ 2 := by rw [dot_eq]; exact sum_congr rfl fun j _ => by ring
  have a0 := norm_acc (F := F) o'.core.mu _ hpos (x k)
  rw [hdot] at a0
  have a1 := Acc.flmul (F := F) (c := ⟨x k i⟩) a0 (acc_exact h0 h1 _)
  have a2 := Acc.flmul a1 ae
  have a3 := Acc.fladd ((acc_exact (u := F.u) h0 h1 ((S k).w i).val).mono h0 h1 (Nat.zero_le (n + 3 + 0 + 1 + (0 + n + 2) + 1))) a2
  rw [show 2 * n + 8 = n + 3 + 0 + 1 + (0 + n + 2) + 1 + 1 by ring]
  rw [dot_eq (K := ℝ) (fun i => ((S k).w i).val)] at a3
  refine a3.weaken h0 h1 (le_of_eq ?_)
  rw [abs_of_nonneg h2]

theorem nlms_exact (h' : Runs (nlms ℝ n) o' d x y' e' S') (k : ℕ) :
    (S' (k + 1)).w = fun i => (S' k).w i + o'.core.mu / (o'.core.ext.eps + ∑ j, x k j ^ 2) * x k i * (d k - ∑ j, (S' k).w j * x k j) := by
  obtain ⟨m2, e2, hy', he', hwk'⟩ := nlms_runs h' k
  have hdot : dot (x k) (x k) = ∑ j, x k j ^ 2 := by rw [dot_eq]; exact sum_congr rfl fun j _ => by ring
  rw [hwk', m2, e2, he', hy', hdot, dot_eq]

include hw hmu heps hpos h h'

/-- C158: NLMS with `0 <= mu <= 2`, `eps > 0`, on any data. If the exact weights stay below `W` and `mu |d(j)| |x(j)| / (eps + |x(j)|^2) <= D`, then after `k` samples the rounded weights
differ from the exact ones by at most `((1 + 3 gamma_(2n+8))^k - 1) (W + D/3)`. -/
theorem C158_nlms (h2 : 0 ≤ o'.core.mu) (h3 : o'.core.mu ≤ 2) (hu : (2 * n + 8 : ℕ) * F.u < 1) (k : ℕ) {W D : ℝ}
    (hW : ∀ j < k, Real.sqrt (∑ i, (S' j).w i ^ 2) ≤ W) (hD : ∀ j < k, o'.core.mu / (o'.core.ext.eps + ∑ i, x j i ^ 2) * |d j| * Real.sqrt (∑ i, x j i ^ 2) ≤ D) :
    Real.sqrt (∑ i, (((S k).w i).val - (S' k).w i) ^ 2) ≤ ((1 + 3 * gamma F.u (2 * n + 8)) ^ k - 1) * (W + D / 3) := by
  have hp : ∀ k, 0 < o'.core.ext.eps + sqn (x k) := fun k => by linarith [sqn_nonneg (x k)]
  exact generic_drift (F := F) (w := fun k => (S k).w) (w' := fun k => (S' k).w) (g := fun k => o'.core.mu / (o'.core.ext.eps + ∑ j, x k j ^ 2)) hu
    (fun i => by rw [h.1, h'.1]; show (o.core.w i).val = o'.core.w i; rw [hw]; rfl) (fun k => div_nonneg h2 (hp k).le)
    (nlms_local o o' d x hmu heps hpos h2 h) (nlms_exact o' d x h') k (fun j _ => (nlms_gain hpos h2 (sqn_nonneg (x j))).trans h3) hW hD

/-- C158: NLMS with `0 < mu < 2` on persistently exciting inputs, for ever. -/
theorem C158_nlms_for_ever (h2 : 0 < o'.core.mu) (h3 : o'.core.mu < 2) (hu : (2 * n + 8 : ℕ) * F.u < 1) {B α W D C : ℝ} {T : ℕ}
    (hx : ∀ k, ∑ i, x k i ^ 2 ≤ B) (hT : 0 < T) (hα : 0 < α) (hpe : Exciting x T α)
    (hW : ∀ j, Real.sqrt (∑ i, (S' j).w i ^ 2) ≤ W) (hD : ∀ j, o'.core.mu / (o'.core.ext.eps + ∑ i, x j i ^ 2) * |d j| * Real.sqrt (∑ i, x j i ^ 2) ≤ D)
    (hC : C = T * (1 + 1 / (1 - windowRate (o'.core.mu * (2 - o'.core.mu) / (o'.core.ext.eps + B)) α (o'.core.mu / o'.core.ext.eps) B T)))
    (hsmall : 6 * C * gamma F.u (2 * n + 8) ≤ 1) (k : ℕ) :
    Real.sqrt (∑ i, (((S k).w i).val - (S' k).w i) ^ 2) ≤ 2 * C * gamma F.u (2 * n + 8) * (3 * W + D) := by
  have hB0 : 0 ≤ B := (sqn_nonneg (x 0)).trans (hx 0)
  have hp : ∀ k, 0 < o'.core.ext.eps + sqn (x k) := fun k => by linarith [sqn_nonneg (x k)]
  subst hC
  refine generic_excited (F := F) (w := fun k => (S k).w) (w' := fun k => (S' k).w) (g := fun k => o'.core.mu / (o'.core.ext.eps + ∑ j, x k j ^ 2)) hu
    (fun i => by rw [h.1, h'.1]; show (o.core.w i).val = o'.core.w i; rw [hw]; rfl) (fun k => div_nonneg h2.le (hp k).le)
    (nlms_local o o' d x hmu heps hpos h2.le h) (nlms_exact o' d x h') (div_pos (mul_pos h2 (by linarith)) (by linarith)) (div_nonneg h2.le hpos.le) hB0 hT hα (fun k => ?_) (fun k => ?_) hx hpe
    (fun k => (nlms_gain hpos h2.le (sqn_nonneg (x k))).trans h3.le) hW hD hsmall k
  · have h4 := nlms_gain hpos h2.le (sqn_nonneg (x k))
    calc _ ≤ o'.core.mu * (2 - o'.core.mu) / (o'.core.ext.eps + sqn (x k)) :=
          div_le_div_of_nonneg_left (mul_nonneg h2.le (by linarith)) (hp k) (by linarith [hx k, show sqn (x k) ≤ B from hx k])
      _ = o'.core.mu / (o'.core.ext.eps + sqn (x k)) * (2 - o'.core.mu) := by ring
      _ ≤ _ := mul_le_mul_of_nonneg_left (by unfold sqn at h4 ⊢; linarith) (div_nonneg h2.le (hp k).le)
  · show |o'.core.mu / (o'.core.ext.eps + sqn (x k))| ≤ _
    rw [abs_of_nonneg (div_nonneg h2.le (hp k).le)]
    exact div_le_div_of_nonneg_left h2.le hpos (by linarith [sqn_nonneg (x k), show sqn (x k) = ∑ j, x k j ^ 2 from rfl])

end nlms

/-- the hypotheses of `C158_lms_for_ever` are met: double precision, weights (3, 4) forgotten on the alternating unit vectors -/
example : ∃ (o : Obj (lms (Fl (binary 53 (by norm_num))) 2)) (o' : Obj (lms ℝ 2)) (y e : ℕ → Fl (binary 53 (by norm_num))) (y' e' : ℕ → ℝ)
    (S : ℕ → Core _ 2 Unit) (S' : ℕ → Core ℝ 2 Unit),
    o.core.w = o'.core.w.fl _ ∧ o.core.mu = ⟨o'.core.mu⟩ ∧ o'.core.w 0 = 3 ∧ o'.core.mu = 1 / 2 ∧
    Runs (lms (Fl (binary 53 (by norm_num))) 2) o (fun _ => ⟨0⟩) (fun k => Vec.fl _ (turns k)) y e S ∧ Runs (lms ℝ 2) o' (fun _ => 0) turns y' e' S' ∧
    ((2 + 5 : ℕ) : ℝ) * (binary 53 (by norm_num)).u < 1 ∧ (∀ k, ∑ i, turns k i ^ 2 ≤ (1 : ℝ)) ∧ Exciting (turns : ℕ → Vec ℝ 2) 2 1 ∧
    (∀ j, Real.sqrt (∑ i, (S' j).w i ^ 2) ≤ 5) ∧ (∀ j, o'.core.mu * |(0 : ℝ)| * Real.sqrt (∑ i, turns j i ^ 2) ≤ 0) ∧
    6 * ((2 : ℕ) * (1 + 1 / (1 - windowRate (o'.core.mu * (2 - o'.core.mu * 1)) 1 o'.core.mu 1 2))) * gamma (binary 53 (by norm_num)).u (2 + 5) ≤ 1 := by
  have hu : (binary 53 (by norm_num)).u = (1 / 2) ^ 53 := rfl
  obtain ⟨y', e', TT, h'⟩ : ∃ y' e' TT, Runs (lms ℝ 2) ⟨⟨![3, 4], 2, 1 / 2, ()⟩, []⟩ (fun _ => 0) turns y' e' TT :=
    ⟨_, _, _, runs_of_safe lms_safe _ trivial _ _⟩
  refine ⟨⟨⟨Vec.fl _ ![3, 4], 2, ⟨1 / 2⟩, ()⟩, []⟩, ⟨⟨![3, 4], 2, 1 / 2, ()⟩, []⟩, _, _, _, _, _, _, rfl, rfl, rfl, rfl, runs_of_safe lms_safe _ trivial _ _, h',
    ?_, turns_sqn, turns_exciting, ?_, ?_, ?_⟩
  · rw [hu]; norm_num
  · intro j
    rw [Real.sqrt_le_left (by norm_num)]
    induction j with
    | zero =>
      rw [h'.1]
      show ∑ i : Fin 2, (![3, 4] : Vec ℝ 2) i ^ 2 ≤ _
      rw [Fin.sum_univ_two]
      norm_num
    | succ j ih =>
      refine le_trans ?_ ih
      rw [lms_exact _ _ _ h' j, Fin.sum_univ_two, Fin.sum_univ_two, Fin.sum_univ_two]
      rcases Nat.mod_two_eq_zero_or_one j with hj | hj
      all_goals simp [turns, hj]
      all_goals nlinarith [sq_nonneg ((TT j).w 0), sq_nonneg ((TT j).w 1)]
  · intro j; simp
  · have h1 : windowRate ((1 : ℝ) / 2 * (2 - 1 / 2 * 1)) 1 (1 / 2) 1 2 ≤ 47 / 48 := by
      unfold windowRate
      rw [Real.sqrt_le_left (by norm_num)]
      norm_num
    have h2 : 1 / (1 - windowRate ((1 : ℝ) / 2 * (2 - 1 / 2 * 1)) 1 (1 / 2) 1 2) ≤ 48 := by
      rw [div_le_iff₀ (by linarith)]
      linarith
    have h3 : gamma (binary 53 (by norm_num)).u (2 + 5) ≤ 1 / 1000 := by
      rw [hu]; unfold gamma; norm_num
    have h4 : 0 ≤ gamma (binary 53 (by norm_num)).u (2 + 5) := by
      rw [hu]; unfold gamma; norm_num
    show 6 * ((2 : ℕ) * (1 + 1 / (1 - windowRate ((1 : ℝ) / 2 * (2 - 1 / 2 * 1)) 1 (1 / 2) 1 2))) * gamma (binary 53 (by norm_num)).u (2 + 5) ≤ 1
    push_cast
    nlinarith [mul_le_mul_of_nonneg_right h2 h4]

/-- ... and those of `C158_nlms` on any data -/
example (d : ℕ → ℝ) (x : ℕ → Vec ℝ 2) : ∃ (o : Obj (nlms (Fl (binary 53 (by norm_num))) 2)) (o' : Obj (nlms ℝ 2)) (y e : ℕ → Fl (binary 53 (by norm_num))) (y' e' : ℕ → ℝ)
    (S : ℕ → Core _ 2 (EpsExt (Fl (binary 53 (by norm_num))))) (S' : ℕ → Core ℝ 2 (EpsExt ℝ)),
    o.core.w = o'.core.w.fl _ ∧ o.core.mu = ⟨o'.core.mu⟩ ∧ o.core.ext.eps = ⟨o'.core.ext.eps⟩ ∧ 0 < o'.core.ext.eps ∧ o'.core.w 0 = 3 ∧ o'.core.mu = 1 / 2 ∧
    Runs (nlms (Fl (binary 53 (by norm_num))) 2) o (fun k => ⟨d k⟩) (fun k => (x k).fl _) y e S ∧ Runs (nlms ℝ 2) o' d x y' e' S' ∧
    ((2 * 2 + 8 : ℕ) : ℝ) * (binary 53 (by norm_num)).u < 1 := by
  have hu : (binary 53 (by norm_num)).u = (1 / 2) ^ 53 := rfl
  refine ⟨⟨⟨Vec.fl _ ![3, 4], 2, ⟨1 / 2⟩, ⟨⟨1 / 1000⟩⟩⟩, []⟩, ⟨⟨![3, 4], 2, 1 / 2, ⟨1 / 1000⟩⟩, []⟩, _, _, _, _, _, _, rfl, rfl, rfl, by norm_num, rfl, rfl,
    runs_of_safe nlms_safe _ trivial _ _, runs_of_safe nlms_safe _ trivial _ _, ?_⟩
  rw [hu]; norm_num

end Padasip
