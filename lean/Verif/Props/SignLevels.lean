import Verif.Props.Divergence
import Verif.Props.Regret

/-!
# C134: when the sign-sign filters learn

On general inputs SSLMS and NSSLMS can diverge (C97).  On inputs of two levels (all entries `c` or `-c`, for instance a binary or pulse-shaped signal) they are subgradient descent for
the absolute error, with a guarantee against any fixed filter; with one weight they work on every input.
-/

set_option linter.unusedSectionVars false
set_option linter.unusedVariables false
set_option linter.unusedSimpArgs false

namespace Padasip

open Finset

section field
variable {K : Type} [Field K] [LinearOrder K] [IsStrictOrderedRing K] {n : ℕ}
variable {d : ℕ → K} {x : ℕ → Vec K n} {y e : ℕ → K}

theorem sgn_zero' : Scalar.sgn (0 : K) = 0 := by
  simp [Scalar.sgn]

theorem abs_sgn_le_one (a : K) : |(Scalar.sgn a : K)| ≤ 1 := by
  rcases lt_trichotomy a 0 with h | h | h
  · rw [sgn_neg' h]; simp
  · subst h; rw [sgn_zero']; simp
  · rw [sgn_pos' h]; simp

theorem sgn_level {c a : K} (hc : 0 < c) (h : a = c ∨ a = 0 ∨ a = -c) : (Scalar.sgn a : K) = a / c := by
  rcases h with rfl | rfl | rfl
  · rw [sgn_pos' hc, div_self hc.ne']
  · rw [sgn_zero', zero_div]
  · rw [sgn_neg' (by linarith), neg_div, div_self hc.ne']

/-- one step of a sign-sign filter with the effective step `g` on an input of levels `c`, `0`, `-c` -/
theorem sign_step {w w' x u : Vec K n} {d e g c : K} (hc : 0 < c) (hg : 0 ≤ g) (hx : ∀ i, x i = c ∨ x i = 0 ∨ x i = -c)
    (he : e = d - dot w x) (hw : w' = fun i => w i + g * Scalar.sgn (x i) * Scalar.sgn e) :
    2 * g / c * |e| + sqn (fun i => w' i - u i) ≤ sqn (fun i => w i - u i) + 2 * g / c * |d - ∑ i, u i * x i| + g ^ 2 * n := by
  have h1 : w' = fun i => w i + (g / c * Scalar.sgn e) * x i := by
    rw [hw]; funext i; rw [sgn_level hc (hx i)]; ring
  rw [h1, comparator_gain he]
  have h2 : Scalar.sgn e * (d - ∑ i, u i * x i) ≤ |d - ∑ i, u i * x i| := by
    calc _ ≤ |Scalar.sgn e * (d - ∑ i, u i * x i)| := le_abs_self _
      _ = |(Scalar.sgn e : K)| * |d - ∑ i, u i * x i| := abs_mul _ _
      _ ≤ 1 * |d - ∑ i, u i * x i| := mul_le_mul_of_nonneg_right (abs_sgn_le_one e) (abs_nonneg _)
      _ = _ := one_mul _
  have h3 : sqn x ≤ c ^ 2 * n := by
    have : ∀ i ∈ (univ : Finset (Fin n)), x i ^ 2 ≤ c ^ 2 := fun i _ => by
      rcases hx i with h | h | h <;> rw [h]
      · simpa using sq_nonneg c
      · rw [neg_sq]
    refine (sum_le_sum this).trans ?_
    simp [mul_comm]
  have h4 : (Scalar.sgn e : K) ^ 2 ≤ 1 := by
    rw [← sq_abs]; exact pow_le_one₀ (abs_nonneg _) (abs_sgn_le_one e)
  have h5 : (g / c * Scalar.sgn e) ^ 2 * sqn x ≤ g ^ 2 * n := by
    calc (g / c * Scalar.sgn e) ^ 2 * sqn x = (g / c) ^ 2 * ((Scalar.sgn e : K) ^ 2 * sqn x) := by ring
      _ ≤ (g / c) ^ 2 * (1 * (c ^ 2 * n)) := by
        gcongr
        exact sqn_nonneg x
      _ = g ^ 2 * n := by field_simp
  have h6 : 2 * (g / c * Scalar.sgn e) * ((d - ∑ i, u i * x i) - e) ≤ 2 * g / c * |d - ∑ i, u i * x i| - 2 * g / c * |e| := by
    have := mul_le_mul_of_nonneg_left h2 (show 0 ≤ 2 * g / c by positivity)
    have h7 : 2 * (g / c * Scalar.sgn e) * ((d - ∑ i, u i * x i) - e)
        = 2 * g / c * (Scalar.sgn e * (d - ∑ i, u i * x i)) - 2 * g / c * (Scalar.sgn e * e) := by ring
    rw [h7, sgn_mul_self]
    linarith
  linarith

theorem sign_sum {w : ℕ → Vec K n} {u : Vec K n} {g c : K} (hc : 0 < c) (hg : 0 < g) (hx : ∀ k i, x k i = c ∨ x k i = 0 ∨ x k i = -c)
    (he : ∀ k, e k = d k - dot (w k) (x k)) (hw : ∀ k, w (k + 1) = fun i => w k i + g * Scalar.sgn (x k i) * Scalar.sgn (e k)) (N : ℕ) :
    ∑ k ∈ range N, |e k| + c / (2 * g) * ∑ i, (w N i - u i) ^ 2
      ≤ ∑ k ∈ range N, |d k - ∑ i, u i * x k i| + c / (2 * g) * ∑ i, (w 0 i - u i) ^ 2 + N * (g * c * n / 2) := by
  induction N with
  | zero => simp
  | succ N ih =>
    have := sign_step (u := u) hc hg.le (hx N) (he N) (hw N)
    have h2 := mul_le_mul_of_nonneg_left this (show 0 ≤ c / (2 * g) by positivity)
    have e1 : c / (2 * g) * (2 * g / c * |e N| + sqn fun i => w (N + 1) i - u i) = |e N| + c / (2 * g) * sqn fun i => w (N + 1) i - u i := by
      field_simp
    have e2 : c / (2 * g) * (sqn (fun i => w N i - u i) + 2 * g / c * |d N - ∑ i, u i * x N i| + g ^ 2 * n)
        = c / (2 * g) * sqn (fun i => w N i - u i) + |d N - ∑ i, u i * x N i| + g * c * n / 2 := by
      field_simp
    rw [e1, e2] at h2
    simp only [sqn] at h2
    rw [sum_range_succ, sum_range_succ]
    push_cast
    linarith

/-- C134: SSLMS on inputs whose entries are `c`, `0` or `-c`: for arbitrary targets the total absolute error of the run exceeds that of ANY fixed weight vector `u`
by at most `c |w(0)-u|^2 / (2 mu)` plus `mu c n / 2` per sample. -/
theorem C134_sslms_regret (o : Obj (sslms K n)) {S : ℕ → Core K n Unit} (h : Runs (sslms K n) o d x y e S) (hmu : 0 < o.core.mu) {c : K} (hc : 0 < c)
    (hx : ∀ k i, x k i = c ∨ x k i = 0 ∨ x k i = -c) (u : Vec K n) (N : ℕ) :
    ∑ k ∈ range N, |e k| + c / (2 * o.core.mu) * ∑ i, ((S N).w i - u i) ^ 2
      ≤ ∑ k ∈ range N, |d k - ∑ i, u i * x k i| + c / (2 * o.core.mu) * ∑ i, (o.core.w i - u i) ^ 2 + N * (o.core.mu * c * n / 2) := by
  have := sign_sum (w := fun k => (S k).w) (e := e) (d := d) (u := u) hc hmu hx (fun k => by rw [(sslms_runs h k).2.2.2.1, (sslms_runs h k).2.2.1])
    (fun k => by rw [(sslms_runs h k).2.2.2.2, (sslms_runs h k).1]) N
  have h0 : (S 0).w = o.core.w := by rw [h.1]; rfl
  simp only [h0] at this
  exact this

/-- C134: NSSLMS on inputs whose entries are `c` or `-c`: the same with the effective step `mu / (eps + n c^2)`. -/
theorem C134_nsslms_regret (o : Obj (nsslms K n)) {S : ℕ → Core K n (EpsExt K)} (h : Runs (nsslms K n) o d x y e S) (hmu : 0 < o.core.mu) {c : K} (hc : 0 < c)
    (heps : 0 < o.core.ext.eps) (hx : ∀ k i, x k i = c ∨ x k i = -c) (u : Vec K n) (N : ℕ) :
    ∑ k ∈ range N, |e k| + c / (2 * (o.core.mu / (o.core.ext.eps + n * c ^ 2))) * ∑ i, ((S N).w i - u i) ^ 2
      ≤ ∑ k ∈ range N, |d k - ∑ i, u i * x k i| + c / (2 * (o.core.mu / (o.core.ext.eps + n * c ^ 2))) * ∑ i, (o.core.w i - u i) ^ 2
        + N * (o.core.mu / (o.core.ext.eps + n * c ^ 2) * c * n / 2) := by
  have hd : ∀ k, dot (x k) (x k) = n * c ^ 2 := by
    intro k
    rw [sqn_eq_dot]
    have : ∀ i ∈ (univ : Finset (Fin n)), x k i ^ 2 = c ^ 2 := fun i _ => by
      rcases hx k i with h | h <;> rw [h]
      rw [neg_sq]
    rw [sqn, sum_congr rfl this]
    simp
  have hg : 0 < o.core.mu / (o.core.ext.eps + n * c ^ 2) := by positivity
  have := sign_sum (w := fun k => (S k).w) (e := e) (d := d) (u := u) hc hg (fun k i => (hx k i).imp_right Or.inr)
    (fun k => by rw [(nsslms_runs h k).2.2.2.1, (nsslms_runs h k).2.2.1])
    (fun k => by rw [(nsslms_runs h k).2.2.2.2, (nsslms_runs h k).1, (nsslms_runs h k).2.1, hd]) N
  have h0 : (S 0).w = o.core.w := by rw [h.1]; rfl
  simp only [h0] at this
  exact this

/-- C134: so on data `d = <ws, x> + v` with such inputs, whatever the noise `v` (also single huge values), the mean absolute error of SSLMS over `N` samples is at most the mean of `|v|`
plus `c |w(0)-ws|^2 / (2 mu N)` plus `mu c n / 2`. -/
theorem C134_sslms_mean_error (o : Obj (sslms K n)) {S : ℕ → Core K n Unit} (h : Runs (sslms K n) o d x y e S) (hmu : 0 < o.core.mu) {c : K} (hc : 0 < c)
    (hx : ∀ k i, x k i = c ∨ x k i = 0 ∨ x k i = -c) (ws : Vec K n) (v : ℕ → K) (hd : ∀ k, d k = (∑ i, ws i * x k i) + v k) (N : ℕ) (hN : 0 < N) :
    (∑ k ∈ range N, |e k|) / N ≤ (∑ k ∈ range N, |v k|) / N + c * (∑ i, (o.core.w i - ws i) ^ 2) / (2 * o.core.mu * N) + o.core.mu * c * n / 2 := by
  have := C134_sslms_regret o h hmu hc hx ws N
  have hv : ∀ k, d k - ∑ i, ws i * x k i = v k := fun k => by rw [hd]; ring
  simp only [hv] at this
  have h2 : 0 ≤ c / (2 * o.core.mu) * ∑ i, ((S N).w i - ws i) ^ 2 := mul_nonneg (by positivity) (sum_nonneg fun _ _ => sq_nonneg _)
  have hN' : (0 : K) < N := by exact_mod_cast hN
  have h3 : (∑ k ∈ range N, |v k|) / N + c * (∑ i, (o.core.w i - ws i) ^ 2) / (2 * o.core.mu * N) + o.core.mu * c * n / 2
      = ((∑ k ∈ range N, |v k|) + c / (2 * o.core.mu) * (∑ i, (o.core.w i - ws i) ^ 2) + N * (o.core.mu * c * n / 2)) / N := by
    field_simp
  rw [h3]
  gcongr
  linarith

/-! ### one weight -/

theorem one_weight_bound {v g : ℕ → K} {lo hi : K} (hlo : 0 ≤ lo) (hg : ∀ k, lo ≤ g k ∧ g k ≤ hi) (hv : ∀ k, v (k + 1) = v k - g k * Scalar.sgn (v k)) (k : ℕ) :
    |v k| ≤ max (|v 0| - k * lo) hi := by
  induction k with
  | zero => simp
  | succ k ih =>
    obtain ⟨h1, h2⟩ := hg k
    have step : |v (k + 1)| ≤ max (|v k| - g k) (g k) := by
      rw [hv]
      rcases lt_trichotomy (v k) 0 with h | h | h
      · rw [sgn_neg' h, abs_of_neg h, abs_le]
        constructor
        · have := le_max_left (-v k - g k) (g k); linarith
        · have := le_max_right (-v k - g k) (g k); linarith
      · rw [h, sgn_zero']; simp
        right; linarith
      · rw [sgn_pos' h, abs_of_pos h, abs_le]
        constructor
        · have := le_max_right (v k - g k) (g k); linarith
        · have := le_max_left (v k - g k) (g k); linarith
    push_cast
    rcases le_max_iff.1 ih with h | h
    · refine step.trans (max_le ((le_max_left _ _).trans' ?_) ((le_max_right _ _).trans' h2))
      linarith
    · refine step.trans (max_le ((le_max_right _ _).trans' ?_) ((le_max_right _ _).trans' h2))
      linarith

theorem sgn_mul (a b : K) : (Scalar.sgn (a * b) : K) = Scalar.sgn a * Scalar.sgn b := by
  rcases lt_trichotomy a 0 with h | h | h <;> rcases lt_trichotomy b 0 with h' | h' | h'
  · rw [sgn_pos' (mul_pos_of_neg_of_neg h h'), sgn_neg' h, sgn_neg' h']; ring
  · subst h'; rw [mul_zero, sgn_zero', mul_zero]
  · rw [sgn_neg' (mul_neg_of_neg_of_pos h h'), sgn_neg' h, sgn_pos' h']; ring
  · subst h; rw [zero_mul, sgn_zero', zero_mul]
  · subst h; rw [zero_mul, sgn_zero', zero_mul]
  · subst h; rw [zero_mul, sgn_zero', zero_mul]
  · rw [sgn_neg' (mul_neg_of_pos_of_neg h h'), sgn_pos' h, sgn_neg' h']; ring
  · subst h'; rw [mul_zero, sgn_zero', mul_zero]
  · rw [sgn_pos' (mul_pos h h'), sgn_pos' h, sgn_pos' h']; ring

/-- with one weight the two signs of a sign-sign filter together are the sign of the misalignment -/
theorem one_weight_sign {w ws x : K} (hx : x ≠ 0) : (Scalar.sgn x * Scalar.sgn (ws * x - w * x) : K) = - Scalar.sgn (w - ws) := by
  have : ws * x - w * x = (-1) * ((w - ws) * x) := by ring
  rw [this, sgn_mul, sgn_mul, sgn_neg' (show (-1 : K) < 0 by norm_num)]
  have h1 : (Scalar.sgn x * Scalar.sgn x : K) = 1 := by
    rcases lt_or_gt_of_ne hx with h | h
    · rw [sgn_neg' h]; ring
    · rw [sgn_pos' h]; ring
  linear_combination (-Scalar.sgn (w - ws)) * h1

/-- C134: SSLMS with one weight on noise-free data with non-zero inputs of any size: the weight approaches `ws` by `mu` per sample and then stays within `mu` of it. -/
theorem C134_sslms_one_weight {x : ℕ → Vec K 1} (o : Obj (sslms K 1)) {S : ℕ → Core K 1 Unit} (h : Runs (sslms K 1) o d x y e S) (hmu : 0 ≤ o.core.mu) (ws : K)
    (hd : ∀ k, d k = ws * x k 0) (hx : ∀ k, x k 0 ≠ 0) (k : ℕ) : |(S k).w 0 - ws| ≤ max (|o.core.w 0 - ws| - k * o.core.mu) o.core.mu := by
  have hv : ∀ k, (S (k + 1)).w 0 - ws = ((S k).w 0 - ws) - o.core.mu * Scalar.sgn ((S k).w 0 - ws) := by
    intro k
    obtain ⟨h1, -, h3, h4, h5⟩ := sslms_runs h k
    have he : e k = ws * x k 0 - (S k).w 0 * x k 0 := by rw [h4, h3, hd, dot_eq]; simp
    rw [h5, h1, he]
    have := one_weight_sign (w := (S k).w 0) (ws := ws) (hx k)
    linear_combination o.core.mu * this
  have := one_weight_bound (v := fun k => (S k).w 0 - ws) (g := fun _ => o.core.mu) hmu (fun _ => ⟨le_rfl, le_rfl⟩) hv k
  rw [show (S 0).w = o.core.w by rw [h.1]; rfl] at this
  exact this

/-- C134: NSSLMS with one weight: the same for inputs bounded by `X`; the weight approaches `ws` by at least `mu / (eps + X^2)` per sample and then stays within `mu / eps` of it. -/
theorem C134_nsslms_one_weight {x : ℕ → Vec K 1} (o : Obj (nsslms K 1)) {S : ℕ → Core K 1 (EpsExt K)} (h : Runs (nsslms K 1) o d x y e S) (hmu : 0 ≤ o.core.mu)
    (heps : 0 < o.core.ext.eps) (ws X : K) (hd : ∀ k, d k = ws * x k 0) (hx : ∀ k, x k 0 ≠ 0) (hX : ∀ k, |x k 0| ≤ X) (k : ℕ) :
    |(S k).w 0 - ws| ≤ max (|o.core.w 0 - ws| - k * (o.core.mu / (o.core.ext.eps + X ^ 2))) (o.core.mu / o.core.ext.eps) := by
  have hv : ∀ k, (S (k + 1)).w 0 - ws = ((S k).w 0 - ws) - o.core.mu / (o.core.ext.eps + x k 0 ^ 2) * Scalar.sgn ((S k).w 0 - ws) := by
    intro k
    obtain ⟨h1, h2, h3, h4, h5⟩ := nsslms_runs h k
    have he : e k = ws * x k 0 - (S k).w 0 * x k 0 := by rw [h4, h3, hd, dot_eq]; simp
    have hxx : dot (x k) (x k) = x k 0 ^ 2 := by rw [dot_eq]; simp [pow_two]
    rw [h5, h1, h2, he, hxx]
    have := one_weight_sign (w := (S k).w 0) (ws := ws) (hx k)
    linear_combination (o.core.mu / (o.core.ext.eps + x k 0 ^ 2)) * this
  have hsq : ∀ k, x k 0 ^ 2 ≤ X ^ 2 := fun k => by
    rw [← sq_abs]; exact pow_le_pow_left₀ (abs_nonneg _) (hX k) 2
  have := one_weight_bound (v := fun k => (S k).w 0 - ws) (g := fun k => o.core.mu / (o.core.ext.eps + x k 0 ^ 2)) (lo := o.core.mu / (o.core.ext.eps + X ^ 2))
    (hi := o.core.mu / o.core.ext.eps) (by positivity)
    (fun k => ⟨div_le_div_of_nonneg_left hmu (by positivity) (by linarith [hsq k]), div_le_div_of_nonneg_left hmu heps (by linarith [sq_nonneg (x k 0)])⟩) hv k
  rw [show (S 0).w = o.core.w by rw [h.1]; rfl] at this
  exact this

/-- the runs of C134 exist: three weights, inputs with entries 1 and -1 -/
example : ∃ S y e, Runs (sslms ℚ 3) ⟨⟨fun _ => 0, 3, 1 / 10, ()⟩, []⟩ (fun k => if k = 7 then 1000 else 1) (fun k i => if (k + i) % 2 = 0 then 1 else -1) y e S ∧
    ∀ k (i : Fin 3), (if (k + i : ℕ) % 2 = 0 then (1 : ℚ) else -1) = 1 ∨ (if (k + i : ℕ) % 2 = 0 then (1 : ℚ) else -1) = 0 ∨ (if (k + i : ℕ) % 2 = 0 then (1 : ℚ) else -1) = -1 :=
  ⟨_, _, _, runs_of_safe sslms_safe _ trivial _ _, fun k i => by split_ifs <;> simp⟩

example : ∃ S y e, Runs (nsslms ℚ 1) ⟨⟨fun _ => 5, 1, 1 / 10, ⟨1⟩⟩, []⟩ (fun k => 2 * (k % 5 + 1 : ℕ)) (fun k _ => ((k % 5 + 1 : ℕ) : ℚ)) y e S :=
  ⟨_, _, _, runs_of_safe nsslms_safe _ trivial _ _⟩

end field

end Padasip
