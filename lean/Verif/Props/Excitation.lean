import Verif.Spec.Excite
import Verif.Props.Ap
import Verif.Props.Rls
import Mathlib.Algebra.Order.BigOperators.Ring.Finset
import Mathlib.Algebra.Order.Chebyshev

/-!
# C94: identification under persistent excitation

On noise-free data `d(k) = <ws, x(k)>` whose inputs are persistently exciting (`Exciting`), the filters do not only make small errors, they find
the unknown system: the weights tend to `ws`, for LMS and NLMS geometrically with an explicit rate.
-/

set_option linter.unusedSectionVars false
set_option linter.unusedVariables false

namespace Padasip

open Finset

section field
variable {K : Type} [Field K] [LinearOrder K] [IsStrictOrderedRing K] {n : ℕ}

theorem inner_le {B : K} {a b : Vec K n} (hB : 0 ≤ B) (ha : sqn a ≤ B) (hb : sqn b ≤ B) :
    |∑ i, a i * b i| ≤ B := by
  have h := Finset.sum_mul_sq_le_sq_mul_sq univ a b
  have h1 : (∑ i, a i * b i) ^ 2 ≤ B ^ 2 := by
    refine h.trans ?_
    rw [pow_two]
    exact mul_le_mul ha hb (sqn_nonneg b) hB
  exact abs_le_of_sq_le_sq h1 hB

/-- the direction of the window start is seen through the errors made in the window -/
theorem window_inner {v : ℕ → Vec K n} {x : ℕ → Vec K n} {a e : ℕ → K} {G B : K} (hG : 0 ≤ G) (hB : 0 ≤ B)
    (hv : ∀ k i, v (k + 1) i = v k i + a k * x k i) (he : ∀ k, e k = -∑ i, v k i * x k i)
    (ha : ∀ k, |a k| ≤ G * |e k|) (hx : ∀ k, sqn (x k) ≤ B) (k j m : ℕ) :
    |(∑ i, v k i * x m i) - ∑ i, v (k + j) i * x m i| ≤ G * B * ∑ l ∈ range j, |e (k + l)| := by
  induction j with
  | zero => simp
  | succ j ih =>
    have h1 : ∑ i, v (k + (j + 1)) i * x m i
        = (∑ i, v (k + j) i * x m i) + a (k + j) * ∑ i, x (k + j) i * x m i := by
      rw [mul_sum, ← sum_add_distrib]
      refine sum_congr rfl fun i _ => ?_
      rw [← add_assoc, hv]; ring
    have h2 : |a (k + j) * ∑ i, x (k + j) i * x m i| ≤ G * B * |e (k + j)| := by
      rw [abs_mul]
      calc _ ≤ (G * |e (k + j)|) * B :=
            mul_le_mul (ha _) (inner_le hB (hx _) (hx _)) (abs_nonneg _) (mul_nonneg hG (abs_nonneg _))
        _ = _ := by ring
    rw [h1, sum_range_succ, mul_add]
    calc _ = |((∑ i, v k i * x m i) - ∑ i, v (k + j) i * x m i)
              - a (k + j) * ∑ i, x (k + j) i * x m i| := by congr 1; ring
      _ ≤ _ := (abs_sub _ _).trans (add_le_add ih h2)

/-- contraction over one window -/
theorem window_contract {v : ℕ → Vec K n} {x : ℕ → Vec K n} {a e : ℕ → K} {G B c α : K} {T : ℕ}
    (hG : 0 ≤ G) (hB : 0 ≤ B) (hc : 0 ≤ c) (hT : 0 < T)
    (hv : ∀ k i, v (k + 1) i = v k i + a k * x k i) (he : ∀ k, e k = -∑ i, v k i * x k i)
    (ha : ∀ k, |a k| ≤ G * |e k|) (hx : ∀ k, sqn (x k) ≤ B)
    (hen : ∀ k, sqn (v (k + 1)) ≤ sqn (v k) - c * e k ^ 2) (hpe : Exciting x T α) (k : ℕ) :
    sqn (v (k + T)) ≤ (1 - c * α / ((T : K) ^ 2 * (1 + G * B) ^ 2)) * sqn (v k) := by
  have hGB : 0 ≤ G * B := mul_nonneg hG hB
  have hsum : ∀ T, sqn (v (k + T)) ≤ sqn (v k) - c * ∑ j ∈ range T, e (k + j) ^ 2 := by
    intro T
    induction T with
    | zero => simp
    | succ T ih =>
      have := hen (k + T)
      rw [sum_range_succ, mul_add, ← add_assoc]
      linarith
  set A : K := ∑ l ∈ range T, |e (k + l)| with hA
  have hA0 : 0 ≤ A := sum_nonneg fun _ _ => abs_nonneg _
  have h1 : ∀ j ∈ range T, (∑ i, v k i * x (k + j) i) ^ 2 ≤ ((1 + G * B) * A) ^ 2 := by
    intro j hj
    have hj := mem_range.mp hj
    have h2 := window_inner hG hB hv he ha hx k j (k + j)
    have h3 : ∑ i, v (k + j) i * x (k + j) i = - e (k + j) := by rw [he]; ring
    rw [h3] at h2
    have h4 : ∑ l ∈ range j, |e (k + l)| ≤ A :=
      sum_le_sum_of_subset_of_nonneg (range_subset_range.mpr hj.le) fun _ _ _ => abs_nonneg _
    have h5 : |e (k + j)| ≤ A :=
      single_le_sum (f := fun l => |e (k + l)|) (fun _ _ => abs_nonneg _) (mem_range.mpr hj)
    have h6 : |∑ i, v k i * x (k + j) i| ≤ (1 + G * B) * A := by
      calc |∑ i, v k i * x (k + j) i| = |((∑ i, v k i * x (k + j) i) - - e (k + j)) + - e (k + j)| := by
            congr 1; ring
        _ ≤ |(∑ i, v k i * x (k + j) i) - - e (k + j)| + |- e (k + j)| := abs_add_le _ _
        _ ≤ G * B * A + A := by
            rw [abs_neg]
            exact add_le_add (h2.trans (mul_le_mul_of_nonneg_left h4 hGB)) h5
        _ = _ := by ring
    exact sq_le_sq' (by linarith [neg_abs_le (∑ i, v k i * x (k + j) i)]) ((le_abs_self _).trans h6)
  have h7 : α * sqn (v k) ≤ T * ((1 + G * B) * A) ^ 2 := by
    refine (hpe k (v k)).trans ((sum_le_sum h1).trans ?_)
    simp
  have h8 : A ^ 2 ≤ T * ∑ j ∈ range T, e (k + j) ^ 2 := by
    have := sq_sum_le_card_mul_sum_sq (s := range T) (f := fun l => |e (k + l)|)
    simpa using this
  have hT' : (0 : K) < T := by exact_mod_cast hT
  have hD : 0 < (T : K) ^ 2 * (1 + G * B) ^ 2 := by positivity
  have h9 : α * sqn (v k) ≤ (T : K) ^ 2 * (1 + G * B) ^ 2 * ∑ j ∈ range T, e (k + j) ^ 2 := by
    refine h7.trans ?_
    have : (T : K) * ((1 + G * B) * A) ^ 2 = T * (1 + G * B) ^ 2 * A ^ 2 := by ring
    rw [this]
    calc _ ≤ T * (1 + G * B) ^ 2 * (T * ∑ j ∈ range T, e (k + j) ^ 2) :=
          mul_le_mul_of_nonneg_left h8 (by positivity)
      _ = _ := by ring
  refine (hsum T).trans ?_
  have h10 : c * α / ((T : K) ^ 2 * (1 + G * B) ^ 2) * sqn (v k) ≤ c * ∑ j ∈ range T, e (k + j) ^ 2 := by
    rw [div_mul_eq_mul_div, div_le_iff₀ hD]
    nlinarith
  linarith

variable {d : ℕ → K} {x : ℕ → Vec K n} {y e : ℕ → K}

/-- C94: LMS on noise-free persistently exciting data, `mu > 0`, `|x(k)|^2 <= B`, `mu B < 2`: over every window of `T` samples the
squared misalignment shrinks at least by the factor `1 - mu (2 - mu B) α / (T (1 + mu B))^2`. -/
theorem C94_lms_rate (o : Obj (lms K n)) {S : ℕ → Core K n Unit} (h : Runs (lms K n) o d x y e S)
    (ws : Vec K n) (hd : ∀ k, d k = ∑ i, ws i * x k i) (hmu : 0 < o.core.mu) {B α : K} {T : ℕ}
    (hx : ∀ k, ∑ i, x k i ^ 2 ≤ B) (hB : o.core.mu * B ≤ 2) (hT : 0 < T) (hpe : Exciting x T α) (k : ℕ) :
    ∑ i, ((S (k + T)).w i - ws i) ^ 2
      ≤ (1 - o.core.mu * (2 - o.core.mu * B) * α / ((T : K) ^ 2 * (1 + o.core.mu * B) ^ 2))
        * ∑ i, ((S k).w i - ws i) ^ 2 := by
  have hB0 : 0 ≤ B := (sqn_nonneg (x 0)).trans (hx 0)
  refine window_contract (v := fun k i => (S k).w i - ws i) (a := fun k => o.core.mu * e k) (e := e)
    hmu.le hB0 (mul_nonneg hmu.le (by linarith)) hT ?_ ?_ ?_ hx ?_ hpe k
  · intro k i
    obtain ⟨h1, -, -, -, hw⟩ := lms_runs h k
    simp only [hw, h1]; ring
  · intro k
    obtain ⟨h1, -, hy, he, hw⟩ := lms_runs h k
    rw [he, hy, hd, dot_eq]
    simp only [sub_mul, sum_sub_distrib]; ring
  · intro k
    rw [abs_mul, abs_of_pos hmu]
  · intro k
    rw [lms_energy h ws (fun _ => 0) (by simpa using hd) k]
    have : o.core.mu ^ 2 * e k ^ 2 * sqn (x k) ≤ o.core.mu ^ 2 * e k ^ 2 * B :=
      mul_le_mul_of_nonneg_left (hx k) (by positivity)
    linarith

/-- C94: NLMS on noise-free persistently exciting data, `0 < mu <= 2`, `eps > 0`, `|x(k)|^2 <= B`: over every window of `T` samples the
squared misalignment shrinks at least by the factor `1 - mu (2 - mu) / (eps + B) α / (T (1 + mu B / eps))^2`. -/
theorem C94_nlms_rate (o : Obj (nlms K n)) {S : ℕ → Core K n (EpsExt K)} (h : Runs (nlms K n) o d x y e S)
    (ws : Vec K n) (hd : ∀ k, d k = ∑ i, ws i * x k i) (heps : 0 < o.core.ext.eps)
    (hmu : 0 < o.core.mu) (hmu2 : o.core.mu ≤ 2) {B α : K} {T : ℕ}
    (hx : ∀ k, ∑ i, x k i ^ 2 ≤ B) (hT : 0 < T) (hpe : Exciting x T α) (k : ℕ) :
    ∑ i, ((S (k + T)).w i - ws i) ^ 2
      ≤ (1 - o.core.mu * (2 - o.core.mu) / (o.core.ext.eps + B) * α
            / ((T : K) ^ 2 * (1 + o.core.mu / o.core.ext.eps * B) ^ 2))
        * ∑ i, ((S k).w i - ws i) ^ 2 := by
  have hB0 : 0 ≤ B := (sqn_nonneg (x 0)).trans (hx 0)
  have hp : ∀ k, 0 < o.core.ext.eps + sqn (x k) := fun k => by linarith [sqn_nonneg (x k)]
  refine window_contract (v := fun k i => (S k).w i - ws i)
    (a := fun k => o.core.mu / (o.core.ext.eps + sqn (x k)) * e k) (e := e)
    (div_nonneg hmu.le heps.le) hB0 (div_nonneg (mul_nonneg hmu.le (by linarith)) (by linarith)) hT ?_ ?_ ?_ hx ?_ hpe k
  · intro k i
    obtain ⟨h1, h0, -, -, hw⟩ := nlms_runs h k
    simp only [hw, h1, h0, sqn_eq_dot]; ring
  · intro k
    obtain ⟨h1, -, hy, he, hw⟩ := nlms_runs h k
    rw [he, hy, hd, dot_eq]
    simp only [sub_mul, sum_sub_distrib]; ring
  · intro k
    rw [abs_mul, abs_of_nonneg (div_nonneg hmu.le (hp k).le)]
    refine mul_le_mul_of_nonneg_right ?_ (abs_nonneg _)
    exact div_le_div_of_nonneg_left hmu.le heps (by linarith [sqn_nonneg (x k)])
  · intro k
    rw [nlms_energy h ws hd k]
    have h2 := nlms_gain heps hmu.le (sqn_nonneg (x k))
    have h1 : o.core.mu * (2 - o.core.mu) / (o.core.ext.eps + B)
        ≤ o.core.mu / (o.core.ext.eps + sqn (x k))
          * (2 - o.core.mu / (o.core.ext.eps + sqn (x k)) * sqn (x k)) := by
      calc _ ≤ o.core.mu * (2 - o.core.mu) / (o.core.ext.eps + sqn (x k)) :=
            div_le_div_of_nonneg_left (mul_nonneg hmu.le (by linarith)) (hp k) (by linarith [hx k, show sqn (x k) ≤ B from hx k])
        _ = o.core.mu / (o.core.ext.eps + sqn (x k)) * (2 - o.core.mu) := by ring
        _ ≤ _ := mul_le_mul_of_nonneg_left (by linarith) (div_nonneg hmu.le (hp k).le)
    have := mul_le_mul_of_nonneg_right h1 (sq_nonneg (e k))
    linarith

/-- C94: RLS on noise-free data: if the (weighted) inputs seen so far excite every direction with energy at least `β`, the misalignment is at most
`mu^k eps / (mu^k eps + β)` times the initial one. -/
theorem C94_rls_bound (o : Obj (rls K n)) (hmu : 0 < o.core.mu) (heps : 0 < o.core.ext.eps)
    (hR : ∀ i j, o.core.ext.R i j = if i = j then 1 / o.core.ext.eps else 0)
    {S : ℕ → Core K n (RlsExt K n)} (h : Runs (rls K n) o d x y e S) (ws : Vec K n)
    (hd : ∀ k, d k = ∑ i, ws i * x k i) (k : ℕ) {β : K} (hβ : 0 ≤ β)
    (hex : ∀ v : Vec K n, β * ∑ i, v i ^ 2
      ≤ ∑ m ∈ range k, o.core.mu ^ (k - 1 - m) * (∑ i, v i * x m i) ^ 2) :
    (o.core.mu ^ k * o.core.ext.eps + β) ^ 2 * ∑ i, ((S k).w i - ws i) ^ 2
      ≤ (o.core.mu ^ k * o.core.ext.eps) ^ 2 * ∑ i, (o.core.w i - ws i) ^ 2 := by
  set v : Vec K n := fun i => (S k).w i - ws i with hv
  set v0 : Vec K n := fun i => o.core.w i - ws i with hv0
  set q := o.core.mu ^ k * o.core.ext.eps with hq
  have hq0 : 0 < q := mul_pos (pow_pos hmu k) heps
  have h1 := rlsCorr_quad o.core.mu o.core.ext.eps x k v
  have h2 : ∑ i, ∑ j, v i * rlsCorr o.core.mu o.core.ext.eps x k i j * v j = q * ∑ i, v i * v0 i := by
    rw [mul_sum]
    refine sum_congr rfl fun i _ => ?_
    have := C26_noise_free o hmu heps hR h ws hd k i
    calc _ = v i * ∑ j, rlsCorr o.core.mu o.core.ext.eps x k i j * ((S k).w j - ws j) := by
          rw [mul_sum]; exact sum_congr rfl fun j _ => by simp only [hv]; ring
      _ = _ := by rw [this]; ring
  rw [h2] at h1
  have h3 : (q + β) * sqn v ≤ q * ∑ i, v i * v0 i := by
    have := hex v
    rw [h1, add_mul]
    exact add_le_add le_rfl this
  have h4 := Finset.sum_mul_sq_le_sq_mul_sq univ v v0
  have hs0 : 0 ≤ sqn v := sqn_nonneg v
  have hs1 : 0 ≤ sqn v0 := sqn_nonneg v0
  show (q + β) ^ 2 * sqn v ≤ q ^ 2 * sqn v0
  rcases hs0.eq_or_lt with h5 | h5
  · rw [← h5]; simp; positivity
  · have h6 : ((q + β) * sqn v) ^ 2 ≤ q ^ 2 * (sqn v * sqn v0) := by
      calc _ ≤ (q * ∑ i, v i * v0 i) ^ 2 :=
            pow_le_pow_left₀ (mul_nonneg (by linarith) hs0) h3 2
        _ = q ^ 2 * (∑ i, v i * v0 i) ^ 2 := by ring
        _ ≤ _ := mul_le_mul_of_nonneg_left h4 (sq_nonneg _)
    have h7 : sqn v * ((q + β) ^ 2 * sqn v) ≤ sqn v * (q ^ 2 * sqn v0) := by
      calc _ = ((q + β) * sqn v) ^ 2 := by ring
        _ ≤ _ := h6
        _ = _ := by ring
    exact le_of_mul_le_mul_left h7 h5

theorem blocks_excite {T : ℕ} {α : K} (hpe : Exciting x T α) (v : Vec K n) (q : ℕ) :
    q * α * ∑ i, v i ^ 2 ≤ ∑ m ∈ range (q * T), (∑ i, v i * x m i) ^ 2 := by
  induction q with
  | zero => simp
  | succ q ih =>
    rw [Nat.succ_mul, sum_range_add]
    have := hpe (q * T) v
    push_cast
    linarith

/-- C94: RLS with forgetting factor `0 < mu <= 1` on noise-free persistently exciting data: after `k` samples the misalignment is at most
`eps / (eps + α floor(k / T))` times the initial one. -/
theorem C94_rls_rate (o : Obj (rls K n)) (hmu : 0 < o.core.mu) (hmu1 : o.core.mu ≤ 1)
    (heps : 0 < o.core.ext.eps)
    (hR : ∀ i j, o.core.ext.R i j = if i = j then 1 / o.core.ext.eps else 0)
    {S : ℕ → Core K n (RlsExt K n)} (h : Runs (rls K n) o d x y e S) (ws : Vec K n)
    (hd : ∀ k, d k = ∑ i, ws i * x k i) {T : ℕ} {α : K} (hα : 0 ≤ α) (hpe : Exciting x T α) (k : ℕ) :
    (o.core.ext.eps + α * (k / T : ℕ)) ^ 2 * ∑ i, ((S k).w i - ws i) ^ 2
      ≤ o.core.ext.eps ^ 2 * ∑ i, (o.core.w i - ws i) ^ 2 := by
  have hp := pow_pos hmu k
  have hq : (0 : K) ≤ ((k / T : ℕ) : K) := Nat.cast_nonneg _
  have := C94_rls_bound o hmu heps hR h ws hd k (β := o.core.mu ^ k * (α * (k / T : ℕ)))
    (mul_nonneg hp.le (mul_nonneg hα hq)) (by
      intro v
      have h1 := blocks_excite hpe v (k / T)
      have h2 : ∑ m ∈ range (k / T * T), (∑ i, v i * x m i) ^ 2 ≤ ∑ m ∈ range k, (∑ i, v i * x m i) ^ 2 :=
        sum_le_sum_of_subset_of_nonneg (range_subset_range.mpr (Nat.div_mul_le_self k T)) fun _ _ _ => sq_nonneg _
      have h3 : o.core.mu ^ k * ∑ m ∈ range k, (∑ i, v i * x m i) ^ 2
          ≤ ∑ m ∈ range k, o.core.mu ^ (k - 1 - m) * (∑ i, v i * x m i) ^ 2 := by
        rw [mul_sum]
        exact sum_le_sum fun m _ => mul_le_mul_of_nonneg_right
          (pow_le_pow_of_le_one hmu.le hmu1 (by omega)) (sq_nonneg _)
      refine le_trans ?_ h3
      rw [mul_assoc]
      refine mul_le_mul_of_nonneg_left ?_ hp.le
      linarith)
  have h1 : (o.core.mu ^ k * o.core.ext.eps + o.core.mu ^ k * (α * (k / T : ℕ))) ^ 2
      = (o.core.mu ^ k) ^ 2 * (o.core.ext.eps + α * (k / T : ℕ)) ^ 2 := by ring
  rw [h1, mul_pow, mul_assoc, mul_assoc] at this
  exact le_of_mul_le_mul_left this (by positivity)

/-- C94: RLS with a forgetting factor on noise-free persistently exciting data forgets the initial misalignment exponentially:
it is at most `mu^k eps / (mu^(T-1) α)` times the initial one from sample `T` on. -/
theorem C94_rls_forgetting (o : Obj (rls K n)) (hmu : 0 < o.core.mu) (hmu1 : o.core.mu ≤ 1)
    (heps : 0 < o.core.ext.eps)
    (hR : ∀ i j, o.core.ext.R i j = if i = j then 1 / o.core.ext.eps else 0)
    {S : ℕ → Core K n (RlsExt K n)} (h : Runs (rls K n) o d x y e S) (ws : Vec K n)
    (hd : ∀ k, d k = ∑ i, ws i * x k i) {T : ℕ} {α : K} (hα : 0 < α) (hpe : Exciting x T α) (k : ℕ)
    (hk : T ≤ k) :
    ∑ i, ((S k).w i - ws i) ^ 2
      ≤ (o.core.mu ^ k * o.core.ext.eps / (o.core.mu ^ (T - 1) * α)) ^ 2 * ∑ i, (o.core.w i - ws i) ^ 2 := by
  have hb : 0 < o.core.mu ^ (T - 1) * α := mul_pos (pow_pos hmu _) hα
  have := C94_rls_bound o hmu heps hR h ws hd k (β := o.core.mu ^ (T - 1) * α) hb.le (by
      intro v
      obtain ⟨m, rfl⟩ := Nat.exists_eq_add_of_le' hk
      rw [sum_range_add]
      have h0 : 0 ≤ ∑ t ∈ range m, o.core.mu ^ (m + T - 1 - t) * (∑ i, v i * x t i) ^ 2 :=
        sum_nonneg fun t _ => mul_nonneg (pow_pos hmu _).le (sq_nonneg _)
      have h1 : o.core.mu ^ (T - 1) * ∑ j ∈ range T, (∑ i, v i * x (m + j) i) ^ 2
          ≤ ∑ j ∈ range T, o.core.mu ^ (m + T - 1 - (m + j)) * (∑ i, v i * x (m + j) i) ^ 2 := by
        rw [mul_sum]
        exact sum_le_sum fun j _ => mul_le_mul_of_nonneg_right
          (pow_le_pow_of_le_one hmu.le hmu1 (by omega)) (sq_nonneg _)
      have h2 := mul_le_mul_of_nonneg_left (hpe m v) (pow_pos hmu (T - 1)).le
      linarith)
  have hq : 0 < o.core.mu ^ k * o.core.ext.eps := mul_pos (pow_pos hmu k) heps
  have h3 : (o.core.mu ^ (T - 1) * α) ^ 2 * ∑ i, ((S k).w i - ws i) ^ 2
      ≤ (o.core.mu ^ k * o.core.ext.eps) ^ 2 * ∑ i, (o.core.w i - ws i) ^ 2 := by
    refine le_trans (mul_le_mul_of_nonneg_right ?_ (sqn_nonneg fun i => (S k).w i - ws i)) this
    exact pow_le_pow_left₀ hb.le (by linarith) 2
  rw [div_pow, div_mul_eq_mul_div, le_div_iff₀ (by positivity)]
  linarith

end field

section real
variable {n : ℕ} {d : ℕ → ℝ} {x : ℕ → Vec ℝ n} {y e : ℕ → ℝ}

theorem comp_of_sqn {v : ℕ → Vec ℝ n} (h : Filter.Tendsto (fun k => sqn (v k)) Filter.atTop (nhds 0)) (i : Fin n) :
    Filter.Tendsto (fun k => v k i) Filter.atTop (nhds 0) := by
  have h1 : Filter.Tendsto (fun k => v k i ^ 2) Filter.atTop (nhds 0) :=
    squeeze_zero (fun k => sq_nonneg _)
      (fun k => single_le_sum (f := fun i => v k i ^ 2) (fun _ _ => sq_nonneg _) (mem_univ i)) h
  have h3 := h1.sqrt
  rw [Real.sqrt_zero] at h3
  simp only [Real.sqrt_sq_eq_abs] at h3
  exact (tendsto_zero_iff_abs_tendsto_zero _).mpr h3

theorem weights_of_sqn {w : ℕ → Vec ℝ n} {ws : Vec ℝ n}
    (h : Filter.Tendsto (fun k => ∑ i, (w k i - ws i) ^ 2) Filter.atTop (nhds 0)) (i : Fin n) :
    Filter.Tendsto (fun k => w k i) Filter.atTop (nhds (ws i)) := by
  have := comp_of_sqn (v := fun k i => w k i - ws i) h i
  have := this.add_const (ws i)
  simpa using this

theorem tendsto_of_contract {f : ℕ → ℝ} {T : ℕ} {t : ℝ} (hT : 0 < T) (ht : 0 < t) (hf : ∀ k, 0 ≤ f k)
    (hm : ∀ k, f (k + 1) ≤ f k) (hc : ∀ k, f (k + T) ≤ (1 - t) * f k) :
    Filter.Tendsto f Filter.atTop (nhds 0) := by
  have hr : ∀ k, f (k + T) ≤ (1 + t)⁻¹ * f k := by
    intro k
    refine (hc k).trans (mul_le_mul_of_nonneg_right ?_ (hf k))
    rw [← one_div, le_div_iff₀ (by linarith)]
    nlinarith
  have hanti : Antitone f := antitone_nat_of_succ_le hm
  have hpow : ∀ q, f (T * q) ≤ (1 + t)⁻¹ ^ q * f 0 := by
    intro q
    induction q with
    | zero => simp
    | succ q ih =>
      rw [Nat.mul_succ, pow_succ]
      have h0 : 0 ≤ (1 + t)⁻¹ := by positivity
      calc _ ≤ (1 + t)⁻¹ * f (T * q) := hr _
        _ ≤ (1 + t)⁻¹ * ((1 + t)⁻¹ ^ q * f 0) := mul_le_mul_of_nonneg_left ih h0
        _ = _ := by ring
  refine squeeze_zero hf (fun k => (hanti (Nat.mul_div_le k T)).trans (hpow (k / T))) ?_
  have h1 : Filter.Tendsto (fun q : ℕ => (1 + t)⁻¹ ^ q * f 0) Filter.atTop (nhds 0) := by
    have := (tendsto_pow_atTop_nhds_zero_of_lt_one (r := (1 + t)⁻¹) (by positivity)
      (inv_lt_one_of_one_lt₀ (by linarith))).mul_const (f 0)
    simpa using this
  exact h1.comp (Nat.tendsto_div_const_atTop hT.ne')

/-- C94: the LMS weights converge to the unknown system. -/
theorem C94_lms_identifies (o : Obj (lms ℝ n)) {S : ℕ → Core ℝ n Unit} (h : Runs (lms ℝ n) o d x y e S)
    (ws : Vec ℝ n) (hd : ∀ k, d k = ∑ i, ws i * x k i) (hmu : 0 < o.core.mu) {B α : ℝ} {T : ℕ}
    (hx : ∀ k, ∑ i, x k i ^ 2 ≤ B) (hB : o.core.mu * B < 2) (hT : 0 < T) (hα : 0 < α)
    (hpe : Exciting x T α) (i : Fin n) :
    Filter.Tendsto (fun k => (S k).w i) Filter.atTop (nhds (ws i)) := by
  have hB0 : 0 ≤ B := (sqn_nonneg (x 0)).trans (hx 0)
  have hT' : (0 : ℝ) < T := by exact_mod_cast hT
  refine weights_of_sqn (w := fun k => (S k).w) (tendsto_of_contract hT ?_ (fun k => sum_nonneg fun _ _ => sq_nonneg _)
    (fun k => C21_monotone o h ws hd hmu.le
      (fun k => (mul_le_mul_of_nonneg_left (hx k) hmu.le).trans hB.le) k)
    fun k => C94_lms_rate o h ws hd hmu hx hB.le hT hpe k) i
  have : 0 < 1 + o.core.mu * B := by positivity
  exact div_pos (mul_pos (mul_pos hmu (by linarith)) hα) (by positivity)

/-- C94: the NLMS weights converge to the unknown system for `0 < mu < 2`. -/
theorem C94_nlms_identifies (o : Obj (nlms ℝ n)) {S : ℕ → Core ℝ n (EpsExt ℝ)} (h : Runs (nlms ℝ n) o d x y e S)
    (ws : Vec ℝ n) (hd : ∀ k, d k = ∑ i, ws i * x k i) (heps : 0 < o.core.ext.eps)
    (hmu : 0 < o.core.mu) (hmu2 : o.core.mu < 2) {B α : ℝ} {T : ℕ}
    (hx : ∀ k, ∑ i, x k i ^ 2 ≤ B) (hT : 0 < T) (hα : 0 < α) (hpe : Exciting x T α) (i : Fin n) :
    Filter.Tendsto (fun k => (S k).w i) Filter.atTop (nhds (ws i)) := by
  have hB0 : 0 ≤ B := (sqn_nonneg (x 0)).trans (hx 0)
  have hT' : (0 : ℝ) < T := by exact_mod_cast hT
  refine weights_of_sqn (w := fun k => (S k).w) (tendsto_of_contract hT ?_ (fun k => sum_nonneg fun _ _ => sq_nonneg _)
    (fun k => C22_monotone o h ws hd heps hmu.le hmu2.le k)
    fun k => C94_nlms_rate o h ws hd heps hmu hmu2.le hx hT hpe k) i
  have : 0 < 1 + o.core.mu / o.core.ext.eps * B := by positivity
  exact div_pos (mul_pos (div_pos (mul_pos hmu (by linarith)) (by positivity)) hα) (by positivity)

/-- C94: the RLS weights converge to the unknown system for `0 < mu <= 1`; the inputs may be unbounded. -/
theorem C94_rls_identifies (o : Obj (rls ℝ n)) (hmu : 0 < o.core.mu) (hmu1 : o.core.mu ≤ 1)
    (heps : 0 < o.core.ext.eps)
    (hR : ∀ i j, o.core.ext.R i j = if i = j then 1 / o.core.ext.eps else 0)
    {S : ℕ → Core ℝ n (RlsExt ℝ n)} (h : Runs (rls ℝ n) o d x y e S) (ws : Vec ℝ n)
    (hd : ∀ k, d k = ∑ i, ws i * x k i) {T : ℕ} {α : ℝ} (hT : 0 < T) (hα : 0 < α) (hpe : Exciting x T α)
    (i : Fin n) : Filter.Tendsto (fun k => (S k).w i) Filter.atTop (nhds (ws i)) := by
  refine weights_of_sqn (w := fun k => (S k).w) ?_ i
  have hb : ∀ k, ∑ i, ((S k).w i - ws i) ^ 2
      ≤ (o.core.ext.eps ^ 2 * ∑ i, (o.core.w i - ws i) ^ 2) * ((o.core.ext.eps + α * (k / T : ℕ)) ^ 2)⁻¹ := by
    intro k
    have h1 : 0 < o.core.ext.eps + α * (k / T : ℕ) := by
      have : (0 : ℝ) ≤ ((k / T : ℕ) : ℝ) := Nat.cast_nonneg _
      have := mul_nonneg hα.le this
      linarith
    rw [← div_eq_mul_inv, le_div_iff₀ (by positivity)]
    linarith [C94_rls_rate o hmu hmu1 heps hR h ws hd hα.le hpe k]
  refine squeeze_zero (fun k => sum_nonneg fun _ _ => sq_nonneg _) hb ?_
  have h2 : Filter.Tendsto (fun k : ℕ => o.core.ext.eps + α * ((k / T : ℕ) : ℝ)) Filter.atTop Filter.atTop := by
    refine Filter.tendsto_atTop_add_const_left _ _ (Filter.Tendsto.const_mul_atTop hα ?_)
    exact tendsto_natCast_atTop_atTop.comp (Nat.tendsto_div_const_atTop hT.ne')
  have h3 := ((Filter.tendsto_pow_atTop (two_ne_zero)).comp h2).inv_tendsto_atTop
  have h4 := h3.const_mul (o.core.ext.eps ^ 2 * ∑ i, (o.core.w i - ws i) ^ 2)
  simpa using h4

/-- a sequence whose increments vanish and which is asymptotically orthogonal to a bounded exciting input vanishes -/
theorem excited_vanishes {v x : ℕ → Vec ℝ n} {M α : ℝ} {T : ℕ} (hx : ∀ k i, |x k i| ≤ M) (hα : 0 < α)
    (hpe : Exciting x T α)
    (hinc : ∀ i, Filter.Tendsto (fun k => v (k + 1) i - v k i) Filter.atTop (nhds 0))
    (horth : Filter.Tendsto (fun k => ∑ i, v k i * x k i) Filter.atTop (nhds 0)) :
    Filter.Tendsto (fun k => ∑ i, v k i ^ 2) Filter.atTop (nhds 0) := by
  have hbd : ∀ {f : ℕ → ℝ} (i : Fin n) (j : ℕ), Filter.Tendsto f Filter.atTop (nhds 0) →
      Filter.Tendsto (fun k => f k * x (k + j) i) Filter.atTop (nhds 0) := by
    intro f i j hf
    have h1 : Filter.Tendsto (fun k => |f k| * M) Filter.atTop (nhds 0) := by
      simpa using (hf.abs.mul_const M)
    refine squeeze_zero_norm (fun k => ?_) h1
    rw [Real.norm_eq_abs, abs_mul]
    exact mul_le_mul_of_nonneg_left (hx _ _) (abs_nonneg _)
  have hdiff : ∀ (j : ℕ) i, Filter.Tendsto (fun k => v (k + j) i - v k i) Filter.atTop (nhds 0) := by
    intro j i
    induction j with
    | zero => simp
    | succ j ih =>
      have h1 := ((hinc i).comp (Filter.tendsto_add_atTop_nat j)).add ih
      simp only [Function.comp_def, add_zero] at h1
      refine h1.congr fun k => ?_
      rw [← add_assoc]; ring
  have hin : ∀ j : ℕ, Filter.Tendsto (fun k => (∑ i, v k i * x (k + j) i) ^ 2) Filter.atTop (nhds 0) := by
    intro j
    have h1 : Filter.Tendsto (fun k => ∑ i, (v (k + j) i - v k i) * x (k + j) i) Filter.atTop (nhds 0) := by
      have := tendsto_finsetSum (univ : Finset (Fin n)) fun i _ => hbd i j (hdiff j i)
      simpa using this
    have h2 := ((horth.comp (Filter.tendsto_add_atTop_nat j)).sub h1).pow 2
    simp only [Function.comp_def, sub_zero, ne_eq, OfNat.ofNat_ne_zero, not_false_eq_true, zero_pow] at h2
    refine h2.congr fun k => ?_
    rw [← sum_sub_distrib]
    congr 1
    exact sum_congr rfl fun i _ => by ring
  have hsum : Filter.Tendsto (fun k => ∑ j ∈ range T, (∑ i, v k i * x (k + j) i) ^ 2) Filter.atTop (nhds 0) := by
    have := tendsto_finsetSum (range T) fun j _ => hin j
    simpa using this
  have h3 := hsum.const_mul α⁻¹
  rw [mul_zero] at h3
  refine squeeze_zero (fun k => sum_nonneg fun _ _ => sq_nonneg _) (fun k => ?_) h3
  rw [← div_eq_inv_mul, le_div_iff₀ hα]
  linarith [hpe k (v k)]

/-- C94: the weights of AP of any order converge to the unknown system on bounded persistently exciting noise-free data, for
`0 < mu <= 2` and `ifc > 0`. -/
theorem C94_ap_identifies {order : ℕ} (solve : Solver ℝ) (hs : SolveSpec solve) (ho : 0 < order)
    (o : Obj (ap ℝ n solve order)) (hc : 0 < o.core.ext.ifc) (hmu : 0 < o.core.mu)
    (hmu2 : o.core.mu ≤ 2) (ws : Vec ℝ n)
    (hfit : ∀ j, o.core.ext.dMem j = ∑ i, ws i * o.core.ext.xMem i j)
    (hd : ∀ k, d k = ∑ i, ws i * x k i)
    {S : ℕ → Core ℝ n (ApExt ℝ n order)} (h : Runs (ap ℝ n solve order) o d x y e S)
    {M α : ℝ} {T : ℕ} (hx : ∀ k i, |x k i| ≤ M) (hα : 0 < α) (hpe : Exciting x T α) (i : Fin n) :
    Filter.Tendsto (fun k => (S k).w i) Filter.atTop (nhds (ws i)) := by
  have hsol : ∀ X : Mat ℝ n order, ∃ P, solve order (apGram o.core.ext.ifc X) (eye order) = .ok P :=
    fun X => (gram_solvable hs hc X).imp fun _ h => h.1
  -- the memory stays bounded
  obtain ⟨M0, hM0⟩ : ∃ M0, ∀ i j, |o.core.ext.xMem i j| ≤ M0 := by
    refine ⟨∑ i, ∑ j, |o.core.ext.xMem i j|, fun i j => ?_⟩
    exact (single_le_sum (f := fun j => |o.core.ext.xMem i j|) (fun _ _ => abs_nonneg _) (mem_univ j)).trans
      (single_le_sum (f := fun i => ∑ j, |o.core.ext.xMem i j|)
        (fun _ _ => sum_nonneg fun _ _ => abs_nonneg _) (mem_univ i))
  set L : ℝ := max M M0 with hL
  have hXs : ∀ k, (∀ i j, |(S k).ext.xMem i j| ≤ L) → ∀ i j, |apX (S k) (x k) i j| ≤ L := by
    intro k hk i j
    unfold apX
    by_cases hj : j.val = 0
    · simp only [hj, if_true]; exact (hx k i).trans (le_max_left _ _)
    · simp only [hj, if_false, shiftCols]; exact hk _ _
  have hmem : ∀ k i j, |(S k).ext.xMem i j| ≤ L := by
    intro k
    induction k with
    | zero => intro i j; rw [h.1]; exact (hM0 i j).trans (le_max_right _ _)
    | succ k ih =>
      obtain ⟨-, -, P, -, -, -, -, h1, -⟩ := ap_runs ho hsol h k
      rw [h1]; exact hXs k ih
  have hL0 : 0 ≤ L := (abs_nonneg _).trans (hXs 0 (hmem 0) i ⟨0, ho⟩)
  -- one step
  have step : ∀ k, ∃ g : Vec ℝ order,
      (∀ i, (S (k + 1)).w i - ws i = ((S k).w i - ws i) + o.core.mu * ∑ j, apX (S k) (x k) i j * g j) ∧
      (∑ i, ((S k).w i - ws i) * x k i
        = -(∑ i, apX (S k) (x k) i ⟨0, ho⟩ * ∑ j, apX (S k) (x k) i j * g j) - o.core.ext.ifc * g ⟨0, ho⟩) ∧
      sqn (fun i => (S (k + 1)).w i - ws i)
        ≤ sqn (fun i => (S k).w i - ws i) - 2 * o.core.mu * o.core.ext.ifc * sqn g := by
    intro k
    obtain ⟨m1, i1, P, hP, hy, he, hwk, -⟩ := ap_runs ho hsol h k
    obtain ⟨P', hP', hG⟩ := gram_solvable hs hc (apX (S k) (x k))
    rw [hP] at hP'
    obtain rfl : P = P' := by simpa using hP'
    have hf := (ap_fits_runs solve ho hsol h ws hfit hd k).2
    have her : ∀ j, apE (S k) (d k) (x k) j
        = -∑ i, apX (S k) (x k) i j * ((S k).w i - ws i) := by
      intro j
      show apD (S k) (d k) j - dot (fun i => apX (S k) (x k) i j) (S k).w = _
      rw [hf, dot_eq, ← sum_sub_distrib, ← sum_neg_distrib]
      exact sum_congr rfl fun i _ => by ring
    set er := apE (S k) (d k) (x k) with her'
    set X := apX (S k) (x k) with hX
    have hen := ap_energy X o.core.ext.ifc (S k).mu P hG (fun i => (S k).w i - ws i) er her
    refine ⟨matVec P er, ?_, ?_, ?_⟩
    · intro i
      rw [hwk]
      simp only [dot_eq, m1]; ring
    · have h1 : ∑ b, apGram o.core.ext.ifc X ⟨0, ho⟩ b * matVec P er b = er ⟨0, ho⟩ := by
        calc ∑ b, apGram o.core.ext.ifc X ⟨0, ho⟩ b * matVec P er b
            = ∑ b, apGram o.core.ext.ifc X ⟨0, ho⟩ b * ∑ j, P b j * er j := by
              exact sum_congr rfl fun b _ => by rw [matVec_eq]
          _ = ∑ j, (∑ b, apGram o.core.ext.ifc X ⟨0, ho⟩ b * P b j) * er j := by
              simp only [mul_sum, sum_mul]
              rw [sum_comm]
              exact sum_congr rfl fun j _ => sum_congr rfl fun b _ => by ring
          _ = ∑ j, eye order ⟨0, ho⟩ j * er j := by
              refine sum_congr rfl fun j _ => ?_
              rw [← matMul_eq, hG]
          _ = er ⟨0, ho⟩ := eye_mulVec er _
      have h2 : ∑ b, apGram o.core.ext.ifc X ⟨0, ho⟩ b * matVec P er b
          = (∑ i, X i ⟨0, ho⟩ * ∑ j, X i j * matVec P er j) + o.core.ext.ifc * matVec P er ⟨0, ho⟩ := by
        have h3 : ∑ b, o.core.ext.ifc * eye order ⟨0, ho⟩ b * matVec P er b
            = o.core.ext.ifc * matVec P er ⟨0, ho⟩ := by
          rw [← eye_mulVec (matVec P er) ⟨0, ho⟩, mul_sum]
          exact sum_congr rfl fun b _ => by ring
        simp only [apGram, dot_eq, add_mul, sum_add_distrib]
        rw [h3]
        congr 1
        simp only [sum_mul, mul_sum]
        rw [sum_comm]
        exact sum_congr rfl fun j _ => sum_congr rfl fun b _ => by ring
      have h4 : ∑ i, ((S k).w i - ws i) * x k i = - er ⟨0, ho⟩ := by
        rw [her, neg_neg]
        refine sum_congr rfl fun i _ => ?_
        rw [hX, apX]; simp only [if_true]; ring
      rw [h4, ← h1, h2]; ring
    · have e1 : sqn (fun i => (S (k + 1)).w i - ws i)
          = sqn (fun i => (S k).w i - ws i + (S k).mu * dot (X i) (matVec P er)) := by
        rw [hwk]
        unfold sqn
        exact sum_congr rfl fun i _ => by ring
      rw [e1, hen, m1]
      have a1 := mul_nonneg (mul_nonneg hmu.le (sub_nonneg.mpr hmu2))
        (sqn_nonneg fun i => dot (X i) (matVec P er))
      linarith
  choose g hg1 hg2 hg3 using step
  -- the coefficients vanish
  have hgs : Filter.Tendsto (fun k => sqn (g k)) Filter.atTop (nhds 0) := by
    have hpos : 0 < 2 * o.core.mu * o.core.ext.ifc := by positivity
    have hB : ∀ N, ∑ k ∈ range N, 2 * o.core.mu * o.core.ext.ifc * sqn (g k)
        ≤ sqn (fun i => (S 0).w i - ws i) := by
      intro N
      have : ∀ N, sqn (fun i => (S N).w i - ws i)
          + ∑ k ∈ range N, 2 * o.core.mu * o.core.ext.ifc * sqn (g k) ≤ sqn (fun i => (S 0).w i - ws i) := by
        intro N
        induction N with
        | zero => simp
        | succ N ih => rw [sum_range_succ]; linarith [hg3 N]
      linarith [this N, sqn_nonneg fun i => (S N).w i - ws i]
    have hsm := (summable_of_sum_range_le (fun k => mul_nonneg hpos.le (sqn_nonneg (g k))) hB).tendsto_atTop_zero
    have := hsm.const_mul (2 * o.core.mu * o.core.ext.ifc)⁻¹
    rw [mul_zero] at this
    refine this.congr fun k => ?_
    rw [← mul_assoc, inv_mul_cancel₀ hpos.ne', one_mul]
  have hgc := comp_of_sqn hgs
  have hXg : ∀ i, Filter.Tendsto (fun k => ∑ j, apX (S k) (x k) i j * g k j) Filter.atTop (nhds 0) := by
    intro i
    have := tendsto_finsetSum (f := fun j k => apX (S k) (x k) i j * g k j) (a := fun _ => (0 : ℝ)) (univ : Finset (Fin order))
      fun j _ => by
        have h1 : Filter.Tendsto (fun k => L * |g k j|) Filter.atTop (nhds 0) := by
          simpa using ((hgc j).abs.const_mul L)
        refine squeeze_zero_norm (fun k => ?_) h1
        rw [Real.norm_eq_abs, abs_mul]
        exact mul_le_mul_of_nonneg_right (hXs k (hmem k) i j) (abs_nonneg _)
    simpa using this
  refine weights_of_sqn (w := fun k => (S k).w) (excited_vanishes (v := fun k i => (S k).w i - ws i) hx hα hpe ?_ ?_) i
  · intro i
    have := (hXg i).const_mul o.core.mu
    rw [mul_zero] at this
    refine this.congr fun k => ?_
    show _ = (S (k + 1)).w i - ws i - ((S k).w i - ws i)
    rw [hg1]; ring
  · have h1 : Filter.Tendsto (fun k => ∑ i, apX (S k) (x k) i ⟨0, ho⟩ * ∑ j, apX (S k) (x k) i j * g k j)
        Filter.atTop (nhds 0) := by
      have := tendsto_finsetSum (f := fun i k => apX (S k) (x k) i ⟨0, ho⟩ * ∑ j, apX (S k) (x k) i j * g k j)
        (a := fun _ => (0 : ℝ)) (univ : Finset (Fin n))
        fun i _ => by
          have h1 : Filter.Tendsto (fun k => L * |∑ j, apX (S k) (x k) i j * g k j|) Filter.atTop (nhds 0) := by
            simpa using ((hXg i).abs.const_mul L)
          refine squeeze_zero_norm (fun k => ?_) h1
          rw [Real.norm_eq_abs, abs_mul]
          exact mul_le_mul_of_nonneg_right (hXs k (hmem k) i _) (abs_nonneg _)
      simpa using this
    have h2 := h1.neg.sub ((hgc ⟨0, ho⟩).const_mul o.core.ext.ifc)
    rw [neg_zero, mul_zero, sub_zero] at h2
    exact h2.congr fun k => (hg2 k).symm

/-- an exciting stream: the two unit vectors in turn, window 2, level 1 -/
def turns (k : ℕ) (i : Fin 2) : ℝ := if k % 2 = i.val then 1 else 0

theorem turns_exciting : Exciting turns 2 1 := by
  intro k v
  rcases Nat.mod_two_eq_zero_or_one k with hk | hk
  · have h1 : (k + 1) % 2 = 1 := by omega
    simp [turns, sum_range_succ, Fin.sum_univ_two, hk, h1]
  · have h1 : (k + 1) % 2 = 0 := by omega
    simp [turns, sum_range_succ, Fin.sum_univ_two, hk, h1, add_comm]

theorem turns_sqn (k : ℕ) : ∑ i, turns k i ^ 2 ≤ 1 := by
  rw [Fin.sum_univ_two]
  rcases Nat.mod_two_eq_zero_or_one k with hk | hk <;> simp [turns, hk]

theorem turns_abs (k : ℕ) (i : Fin 2) : |turns k i| ≤ 1 := by
  unfold turns; split <;> simp

/-- The hypotheses of the C94 theorems for LMS, met by a concrete stream. -/
example : ∃ (o : Obj (lms ℝ 2)) (ws : Vec ℝ 2) (d : ℕ → ℝ) (y e : ℕ → ℝ) (S : ℕ → Core ℝ 2 Unit),
    Runs (lms ℝ 2) o d turns y e S ∧ (∀ k, d k = ∑ i, ws i * turns k i) ∧ 0 < o.core.mu ∧
    (∀ k, ∑ i, turns k i ^ 2 ≤ (1 : ℝ)) ∧ o.core.mu * 1 < 2 ∧ Exciting turns 2 1 ∧ o.core.w ≠ ws :=
  ⟨⟨⟨fun _ => 0, 2, 1 / 2, ()⟩, []⟩, fun _ => 1, _, _, _, _, runs_of_safe lms_safe _ trivial _ _, fun _ => rfl,
    by norm_num, turns_sqn, by norm_num, turns_exciting, fun h => zero_ne_one (congrFun h 0)⟩

/-- ... for NLMS -/
example : ∃ (o : Obj (nlms ℝ 2)) (ws : Vec ℝ 2) (d : ℕ → ℝ) (y e : ℕ → ℝ) (S : ℕ → Core ℝ 2 (EpsExt ℝ)),
    Runs (nlms ℝ 2) o d turns y e S ∧ (∀ k, d k = ∑ i, ws i * turns k i) ∧ 0 < o.core.ext.eps ∧
    0 < o.core.mu ∧ o.core.mu < 2 ∧ o.core.w ≠ ws :=
  ⟨⟨⟨fun _ => 0, 2, 1, (⟨1⟩ : EpsExt ℝ)⟩, []⟩, fun _ => 1, _, _, _, _, runs_of_safe nlms_safe _ trivial _ _, fun _ => rfl,
    one_pos, one_pos, by norm_num, fun h => zero_ne_one (congrFun h 0)⟩

/-- ... for RLS -/
example : ∃ (o : Obj (rls ℝ 2)) (ws : Vec ℝ 2) (d : ℕ → ℝ) (y e : ℕ → ℝ) (S : ℕ → Core ℝ 2 (RlsExt ℝ 2)),
    Runs (rls ℝ 2) o d turns y e S ∧ (∀ k, d k = ∑ i, ws i * turns k i) ∧ 0 < o.core.ext.eps ∧
    0 < o.core.mu ∧ o.core.mu ≤ 1 ∧ (∀ i j, o.core.ext.R i j = if i = j then 1 / o.core.ext.eps else 0) ∧
    o.core.w ≠ ws :=
  ⟨⟨⟨fun _ => 0, 2, 1, (⟨1, fun i j => if i = j then 1 / 1 else 0⟩ : RlsExt ℝ 2)⟩, []⟩, fun _ => 1, _, _, _, _,
    runs_of_safe rls_safe _ (by simp [Scalar.eqz]) _ _, fun _ => rfl,
    one_pos, one_pos, le_rfl, fun _ _ => rfl, fun h => zero_ne_one (congrFun h 0)⟩

/-- ... for AP of order 2 -/
example : ∃ (o : Obj (ap ℝ 2 exactSolve 2)) (ws : Vec ℝ 2) (d : ℕ → ℝ) (y e : ℕ → ℝ) (S : ℕ → Core ℝ 2 (ApExt ℝ 2 2)),
    Runs (ap ℝ 2 exactSolve 2) o d turns y e S ∧ 0 < o.core.ext.ifc ∧ 0 < o.core.mu ∧ o.core.mu ≤ 2 ∧
    (∀ j, o.core.ext.dMem j = ∑ i, ws i * o.core.ext.xMem i j) ∧ (∀ k, d k = ∑ i, ws i * turns k i) ∧
    (∀ k i, |turns k i| ≤ (1 : ℝ)) ∧ o.core.w ≠ ws :=
  ⟨⟨⟨fun _ => 0, 2, 1, (⟨1, fun _ _ => 0, fun _ => 0, fun _ => 0, fun _ => 0⟩ : ApExt ℝ 2 2)⟩, []⟩, fun _ => 1, _, _, _, _,
   runs_of_safe (ap_safe _ (by norm_num) 1 fun X => (gram_solvable exactSolve_spec one_pos X).imp fun _ h => h.1) _ rfl _ _,
   one_pos, one_pos, one_le_two, fun j => by simp, fun k => rfl, turns_abs,
   fun h => zero_ne_one (congrFun h 0)⟩

end real

end Padasip
