import Verif.Props.Stall
import Verif.Model.FlSub

/-!
# C162: underflow
-/

set_option linter.unusedSectionVars false
set_option linter.unusedVariables false
set_option linter.unusedSimpArgs false

namespace Padasip

open Finset

variable {p : ℕ} {E : ℤ} {n : ℕ}

/-- `a` is a number of the arithmetic: at most `p` bits, a multiple of `2^E` -/
def StoredSub (p : ℕ) (E : ℤ) (a : ℝ) : Prop := ∃ m e : ℤ, |m| ≤ 2 ^ p ∧ E ≤ e ∧ a = m * 2 ^ e

theorem sub_err_half (p : ℕ) (E : ℤ) (x : ℝ) : |roundSub p E x - x| ≤ 2 ^ (lastPlace p E x) / 2 := by
  have hq : (0 : ℝ) < 2 ^ lastPlace p E x := by positivity
  have h := abs_sub_round (x / 2 ^ lastPlace p E x)
  have e : roundSub p E x - x = -((x / 2 ^ lastPlace p E x - round (x / 2 ^ lastPlace p E x)) * 2 ^ lastPlace p E x) := by
    unfold roundSub; rw [sub_mul, div_mul_cancel₀ _ hq.ne']; ring
  rw [e, abs_neg, abs_mul, abs_of_pos hq]
  have := mul_le_mul_of_nonneg_right h hq.le
  linarith

/-- C162: each operation is off by at most `2^-p` of the result or half the smallest number, whichever is larger -/
theorem C162_error (p : ℕ) (E : ℤ) (x : ℝ) : |roundSub p E x - x| ≤ max ((1 / 2) ^ p * |x|) (2 ^ E / 2) := by
  rcases eq_or_ne x 0 with rfl | hx
  · have : roundSub p E 0 = 0 := by simp [roundSub]
    rw [this, sub_zero, abs_zero]
    exact le_max_of_le_right (by positivity)
  refine (sub_err_half p E x).trans ?_
  unfold lastPlace
  rcases le_total (Int.log 2 |x| - ((p : ℤ) - 1)) E with h | h
  · rw [max_eq_right h]; exact le_max_right _ _
  · rw [max_eq_left h]
    refine le_max_of_le_left ?_
    have h7 := (log_bounds hx).1
    have e : (2 : ℝ) ^ (Int.log 2 |x| - ((p : ℤ) - 1)) / 2 = (1 / 2) ^ p * 2 ^ Int.log 2 |x| := by
      rw [zpow_sub₀ two_ne_zero, zpow_sub₀ two_ne_zero, zpow_natCast, one_div, inv_pow]
      field_simp
    rw [e]
    exact mul_le_mul_of_nonneg_left h7 (by positivity)

theorem sub_err_add (p : ℕ) (E : ℤ) (x : ℝ) : |roundSub p E x - x| ≤ (1 / 2) ^ p * |x| + 2 ^ E / 2 :=
  (C162_error p E x).trans (max_le (le_add_of_nonneg_right (by positivity)) (le_add_of_nonneg_left (by positivity)))

/-- C162: results below half the smallest number become 0 -/
theorem C162_underflow {x : ℝ} (h : |x| < 2 ^ E / 2) : roundSub p E x = 0 := by
  have hq : (2 : ℝ) ^ E ≤ 2 ^ lastPlace p E x := zpow_le_zpow_right₀ (by norm_num) (le_max_right _ _)
  have hq0 : (0 : ℝ) < 2 ^ lastPlace p E x := by positivity
  have : round (x / 2 ^ lastPlace p E x) = 0 := by
    rw [round_eq_zero_iff]
    have h1 : |x / 2 ^ lastPlace p E x| < 1 / 2 := by
      rw [abs_div, abs_of_pos hq0, div_lt_iff₀ hq0]; linarith
    obtain ⟨h3, h4⟩ := abs_lt.1 h1
    constructor <;> linarith
  simp [roundSub, this]

theorem sub_zero_round : roundSub p E 0 = 0 := by simp [roundSub]

/-- rounding gives a number of the arithmetic -/
theorem storedSub_round (hp : 0 < p) (x : ℝ) : StoredSub p E (roundSub p E x) := by
  refine ⟨round (x / 2 ^ lastPlace p E x), lastPlace p E x, ?_, le_max_right _ _, rfl⟩
  rcases eq_or_ne x 0 with rfl | hx
  · simp
  set q := lastPlace p E x with hq
  have hq0 : (0 : ℝ) < 2 ^ q := by positivity
  have h3 : |x / 2 ^ q| < 2 ^ p := by
    rw [abs_div, abs_of_pos hq0, div_lt_iff₀ hq0]
    refine (log_bounds hx).2.trans_le ?_
    rw [← zpow_natCast, ← zpow_add₀ two_ne_zero]
    refine zpow_le_zpow_right₀ (by norm_num) ?_
    have : Int.log 2 |x| - ((p : ℤ) - 1) ≤ q := le_max_left _ _
    omega
  have h4 := abs_sub_round (x / 2 ^ q)
  have h5 : |(round (x / 2 ^ q) : ℝ)| < 2 ^ p + 1 := by
    have := abs_sub_abs_le_abs_sub (round (x / 2 ^ q) : ℝ) (x / 2 ^ q)
    rw [abs_sub_comm] at h4
    linarith
  have h6 : |round (x / 2 ^ q)| < 2 ^ p + 1 := by exact_mod_cast h5
  omega

/-- and does not change them -/
theorem storedSub_keep (hp : 0 < p) {w : ℝ} (hw : StoredSub p E w) : roundSub p E w = w := by
  rcases eq_or_ne w 0 with rfl | hw0
  · exact sub_zero_round
  obtain ⟨m, e, hm, he, hwe⟩ := hw
  set q := lastPlace p E w with hq
  have hq0 : (0 : ℝ) < 2 ^ q := by positivity
  have hint : ∃ z : ℤ, w / 2 ^ q = z := by
    have hd : w / 2 ^ q = m * 2 ^ (e - q) := by rw [hwe, zpow_sub₀ two_ne_zero]; ring
    rcases le_or_gt q e with h | h
    · refine ⟨m * 2 ^ (e - q).toNat, ?_⟩
      rw [hd]
      push_cast
      rw [← zpow_natCast, Int.toNat_of_nonneg (by omega)]
    · have hwabs : |w| = |(m : ℝ)| * 2 ^ e := by rw [hwe, abs_mul, abs_of_pos (show (0 : ℝ) < 2 ^ e by positivity)]
      have h1 := (log_bounds hw0).1
      have hqm : q = max (Int.log 2 |w| - ((p : ℤ) - 1)) E := rfl
      obtain ⟨L, hLdef⟩ : ∃ L, L = Int.log 2 |w| := ⟨_, rfl⟩
      rw [← hLdef] at h1 hqm
      have hqL : q = L - ((p : ℤ) - 1) := by omega
      rw [hwabs, ← div_le_iff₀ (by positivity), ← zpow_sub₀ two_ne_zero] at h1
      have hmR : |(m : ℝ)| ≤ 2 ^ p := by exact_mod_cast hm
      have h2 : (2 : ℝ) ^ (L - e) ≤ 2 ^ (p : ℤ) := by rw [zpow_natCast]; exact h1.trans hmR
      have h3 : L - e ≤ p := (zpow_le_zpow_iff_right₀ (by norm_num : (1 : ℝ) < 2)).1 h2
      have h4 : L - e = p := by omega
      rw [h4, zpow_natCast] at h1
      have h5 : |(m : ℝ)| = 2 ^ p := le_antisymm hmR h1
      have h6 : |m| = 2 ^ p := by exact_mod_cast h5
      obtain ⟨z, hz⟩ : (2 : ℤ) ∣ m := by rw [← dvd_abs, h6]; exact dvd_pow_self 2 hp.ne'
      refine ⟨z, ?_⟩
      rw [hd, show e - q = -1 by omega, hz]
      push_cast
      norm_num
      ring
  obtain ⟨z, hz⟩ := hint
  show (round (w / 2 ^ q) : ℝ) * 2 ^ q = w
  rw [hz, round_intCast, ← hz, div_mul_cancel₀ _ hq0.ne']

/-! ## predict -/

theorem abs_sum_products (l : List (ℝ × ℝ)) : |(l.map fun q => q.1 * q.2).sum| ≤ (l.map fun q => |q.1 * q.2|).sum := by
  induction l with
  | nil => simp
  | cons a t ih => simp only [List.map_cons, List.sum_cons]; exact (abs_add_le _ _).trans (by linarith)

/-- the sum of rounded products, with underflow -/
theorem sum_underflow (f : List (ℝ × ℝ)) : |((f.map fun q => (⟨q.1⟩ * ⟨q.2⟩ : Sf p E)).sum).val - (f.map fun q => q.1 * q.2).sum| ≤
    ((1 + (1 / 2) ^ p) ^ (f.length + 1) - 1) * (f.map fun q => |q.1 * q.2|).sum + 2 * f.length * (1 + (1 / 2) ^ p) ^ f.length * (2 ^ E / 2) := by
  set u : ℝ := (1 / 2) ^ p with hu
  set η : ℝ := 2 ^ E / 2 with hη
  have hu0 : 0 < u := by positivity
  have hη0 : 0 < η := by positivity
  induction f with
  | nil => simp; rfl
  | cons q t ih =>
    simp only [List.map_cons, List.sum_cons, List.length_cons]
    set s' := ((t.map fun q => (⟨q.1⟩ * ⟨q.2⟩ : Sf p E)).sum).val with hs'
    set S' := (t.map fun q => q.1 * q.2).sum with hS'
    set G' := (t.map fun q => |q.1 * q.2|).sum with hG'
    set g := q.1 * q.2 with hg
    set L := t.length with hL
    have hSG : |S'| ≤ G' := abs_sum_products t
    have hG0 : 0 ≤ G' := (abs_nonneg _).trans hSG
    have hg0 := abs_nonneg g
    have a1 : (1 : ℝ) ≤ 1 + u := by linarith
    have aL : (1 + u) ≤ (1 + u) ^ (L + 1) := by
      simpa using pow_le_pow_right₀ a1 (show 1 ≤ L + 1 by omega)
    set A := (1 + u) ^ (L + 1) with hA
    have hAL : (1 + u) ^ L * (1 + u) = A := (pow_succ _ _).symm
    have h1 : |roundSub p E g - g| ≤ u * |g| + η := sub_err_add p E g
    set r := roundSub p E g with hr
    have h2 : |roundSub p E (r + s') - (r + s')| ≤ u * |r + s'| + η := sub_err_add p E _
    have hval : ((⟨q.1⟩ * ⟨q.2⟩ + (t.map fun q => (⟨q.1⟩ * ⟨q.2⟩ : Sf p E)).sum : Sf p E)).val = roundSub p E (r + s') := rfl
    rw [hval]
    set D := u * |g| + η + ((A - 1) * G' + 2 * L * (1 + u) ^ L * η) with hD
    have h3 : |r + s' - (g + S')| ≤ D := by
      have : r + s' - (g + S') = (r - g) + (s' - S') := by ring
      rw [this]; exact (abs_add_le _ _).trans (add_le_add h1 ih)
    have h4 : |r + s'| ≤ |g| + G' + D := by
      have : r + s' = (r + s' - (g + S')) + (g + S') := by ring
      rw [this]
      refine (abs_add_le _ _).trans ?_
      have := abs_add_le g S'
      linarith
    have h5 : |roundSub p E (r + s') - (g + S')| ≤ u * (|g| + G' + D) + η + D := by
      have : roundSub p E (r + s') - (g + S') = (roundSub p E (r + s') - (r + s')) + (r + s' - (g + S')) := by ring
      rw [this]
      refine (abs_add_le _ _).trans (add_le_add (h2.trans ?_) h3)
      have := mul_le_mul_of_nonneg_left h4 hu0.le
      linarith
    refine h5.trans ?_
    have e1 : u * (|g| + G' + D) + η + D = ((1 + u) * (1 + u) - 1) * |g| + (A * (1 + u) - 1) * G' + (1 + (1 + u) + 2 * L * A) * η := by
      rw [hD, ← hAL]; ring
    rw [e1, pow_succ _ (L + 1), ← hA]
    push_cast
    have i1 : ((1 + u) * (1 + u) - 1) * |g| ≤ (A * (1 + u) - 1) * |g| := mul_le_mul_of_nonneg_right (by nlinarith) hg0
    have i2 : (1 + (1 + u) + 2 * L * A) * η ≤ 2 * (L + 1) * A * η := mul_le_mul_of_nonneg_right (by nlinarith) hη0.le
    nlinarith

/-- C162: accuracy of predict with gradual underflow -/
theorem C162_predict (o : Obj (lms (Sf p E) n)) (x : Vec ℝ n) :
    |(dot o.core.w fun i => (⟨x i⟩ : Sf p E)).val - ∑ i, (o.core.w i).val * x i| ≤
      ((1 + (1 / 2) ^ p) ^ (n + 1) - 1) * ∑ i, |(o.core.w i).val * x i| + 2 * n * (1 + (1 / 2) ^ p) ^ n * (2 ^ E / 2) := by
  have h := sum_underflow (p := p) (E := E) (List.ofFn fun i => ((o.core.w i).val, x i))
  simp only [List.map_ofFn, List.length_ofFn, List.sum_ofFn, Function.comp_def] at h
  exact h

section lms
variable (o : Obj (lms (Sf p E) n)) {d : ℕ → Sf p E} {x : ℕ → Vec (Sf p E) n} {y e : ℕ → Sf p E} {S : ℕ → Core (Sf p E) n Unit} (h : Runs (lms (Sf p E) n) o d x y e S)
include h

/-- C162: LMS: where `mu x_i` underflows, the weight does not change, whatever the error is -/
theorem C162_lms (hp : 0 < p) (k : ℕ) (i : Fin n) (hs : StoredSub p E ((S k).w i).val) (hsmall : |o.core.mu.val * (x k i).val| < 2 ^ E / 2) : (S (k + 1)).w i = (S k).w i := by
  obtain ⟨hm, -, -, -, hw⟩ := lms_runs h k
  rw [hw, hm]
  apply Sf.ext
  show roundSub p E (((S k).w i).val + roundSub p E (roundSub p E (o.core.mu.val * (x k i).val) * (e k).val)) = _
  rw [C162_underflow hsmall, zero_mul, sub_zero_round, add_zero, storedSub_keep hp hs]

/-- C162: accuracy of one LMS step with gradual underflow: the new weight is the exact `w_i + mu x_i e` (for the error as computed) up to relative rounding errors and at most
about `2 + |e|` halves of the smallest number -/
theorem C162_lms_step (k : ℕ) (i : Fin n) :
    |((S (k + 1)).w i).val - (((S k).w i).val + o.core.mu.val * (x k i).val * (e k).val)| ≤
      (1 / 2) ^ p * |((S k).w i).val| + ((1 + (1 / 2) ^ p) ^ 3 - 1) * |o.core.mu.val * (x k i).val * (e k).val| + ((1 + (1 / 2) ^ p) ^ 2 * |(e k).val| + (2 + (1 / 2) ^ p)) * (2 ^ E / 2) := by
  obtain ⟨hm, -, -, -, hw⟩ := lms_runs h k
  have hval : ((S (k + 1)).w i).val = roundSub p E (((S k).w i).val + roundSub p E (roundSub p E (o.core.mu.val * (x k i).val) * (e k).val)) := by rw [hw, hm]; rfl
  rw [hval]
  set w := ((S k).w i).val
  set a := o.core.mu.val * (x k i).val
  set b := (e k).val
  set u : ℝ := (1 / 2) ^ p with hu
  set η : ℝ := 2 ^ E / 2 with hη
  have hu0 : 0 < u := by positivity
  have h1 : |roundSub p E a - a| ≤ u * |a| + η := sub_err_add p E a
  set r1 := roundSub p E a
  have h2 : |roundSub p E (r1 * b) - r1 * b| ≤ u * |r1 * b| + η := sub_err_add p E _
  set r2 := roundSub p E (r1 * b)
  have h3 : |roundSub p E (w + r2) - (w + r2)| ≤ u * |w + r2| + η := sub_err_add p E _
  have d1 : |r1 * b - a * b| ≤ u * |a * b| + η * |b| := by
    rw [← sub_mul, abs_mul, abs_mul]
    have := mul_le_mul_of_nonneg_right h1 (abs_nonneg b)
    linarith
  have n1 : |r1 * b| ≤ |a * b| + (u * |a * b| + η * |b|) := by
    have := abs_sub_abs_le_abs_sub (r1 * b) (a * b)
    linarith
  have d2 : |r2 - a * b| ≤ u * (|a * b| + (u * |a * b| + η * |b|)) + η + (u * |a * b| + η * |b|) := by
    have := abs_sub_le r2 (r1 * b) (a * b)
    have := mul_le_mul_of_nonneg_left n1 hu0.le
    linarith
  have n2 : |w + r2| ≤ |w| + |a * b| + |r2 - a * b| := by
    have := abs_add_le w r2
    have := abs_sub_abs_le_abs_sub r2 (a * b)
    linarith
  have d3 : |roundSub p E (w + r2) - (w + a * b)| ≤ u * (|w| + |a * b| + |r2 - a * b|) + η + |r2 - a * b| := by
    have e1 := abs_sub_le (roundSub p E (w + r2)) (w + r2) (w + a * b)
    rw [show w + r2 - (w + a * b) = r2 - a * b by ring] at e1
    have := mul_le_mul_of_nonneg_left n2 hu0.le
    linarith
  refine d3.trans ?_
  have := mul_le_mul_of_nonneg_left d2 (show (0 : ℝ) ≤ 1 + u by linarith)
  refine le_trans (b := u * |w| + u * |a * b| + η + (1 + u) * (u * (|a * b| + (u * |a * b| + η * |b|)) + η + (u * |a * b| + η * |b|))) (by linarith) (le_of_eq ?_)
  ring

/-- C162: if `mu x_i` underflows for all samples, the filter keeps its initial weights for ever -/
theorem C162_lms_for_ever (hp : 0 < p) (hs : ∀ i, StoredSub p E (o.core.w i).val) (hsmall : ∀ k i, |o.core.mu.val * (x k i).val| < 2 ^ E / 2) (k : ℕ) : (S k).w = o.core.w := by
  induction k with
  | zero => rw [h.1]; rfl
  | succ k ih =>
    funext i
    rw [C162_lms o h hp k i (by rw [ih]; exact hs i) (hsmall k i), ih]

end lms

section lmf
variable (o : Obj (lmf (Sf p E) n)) {d : ℕ → Sf p E} {x : ℕ → Vec (Sf p E) n} {y e : ℕ → Sf p E} {S : ℕ → Core (Sf p E) n Unit} (h : Runs (lmf (Sf p E) n) o d x y e S)
include h

/-- C162: LMF: once the square of the error underflows (double precision: `|e| < 2^-537`), nothing is learned -/
theorem C162_lmf (hp : 0 < p) (k : ℕ) (hs : ∀ i, StoredSub p E ((S k).w i).val) (hsmall : (e k).val ^ 2 < 2 ^ E / 2) : (S (k + 1)).w = (S k).w := by
  obtain ⟨hm, -, -, -, hw⟩ := lmf_runs h k
  have h0 : roundSub p E ((e k).val * (e k).val) = 0 := C162_underflow (by rw [← pow_two, abs_of_nonneg (sq_nonneg _)]; exact hsmall)
  funext i
  rw [hw, hm]
  apply Sf.ext
  show roundSub p E (((S k).w i).val + roundSub p E (roundSub p E (o.core.mu.val * (x k i).val) * roundSub p E (roundSub p E ((e k).val * (e k).val) * (e k).val))) = _
  rw [h0, zero_mul, sub_zero_round, mul_zero, sub_zero_round, add_zero, storedSub_keep hp (hs i)]

end lmf

theorem round_normal {a : ℝ} (ha : (2 : ℝ) ^ (E + p - 1) ≤ a) : (1 - (1 / 2) ^ p) * a ≤ roundSub p E a := by
  have ha0 : 0 < a := lt_of_lt_of_le (by positivity) ha
  have h := C162_error p E a
  rw [abs_of_pos ha0] at h
  have h1 : (2 : ℝ) ^ E / 2 ≤ (1 / 2) ^ p * a := by
    have := mul_le_mul_of_nonneg_left ha (show (0 : ℝ) ≤ (1 / 2) ^ p by positivity)
    refine le_trans (le_of_eq ?_) this
    rw [show E + (p : ℤ) - 1 = E - 1 + p by ring, zpow_add₀ two_ne_zero, zpow_natCast, zpow_sub₀ two_ne_zero, mul_left_comm, ← mul_pow]
    norm_num
  rw [max_eq_left h1] at h
  have := (abs_le.1 h).1
  linarith

section gmcc
variable (o : Obj (gmcc (Sf p E) n)) {d : ℕ → Sf p E} {x : ℕ → Vec (Sf p E) n} {y e : ℕ → Sf p E} {S : ℕ → Core (Sf p E) n (GmccExt (Sf p E))} (h : Runs (gmcc (Sf p E) n) o d x y e S)
include h

theorem C162_gmcc_stored (hp : 0 < p) (k : ℕ) (i : Fin n) : StoredSub p E ((S (k + 1)).w i).val := by
  obtain ⟨-, -, -, -, hw⟩ := gmcc_runs h k
  rw [hw]; exact storedSub_round hp _

/-- C162: GMCC ignores outliers completely: when `lambd |e|^alpha` exceeds `(1-E) log 2` (double precision: 745.2) by the relative rounding error, the exponential underflows and
no weight changes at all. In exact arithmetic they change a little (C17, C34). -/
theorem C162_gmcc_outlier (hp : 0 < p) (hE : E + p - 1 ≤ 0) (k : ℕ) (hl : 0 < o.core.ext.lambd.val) (hs : ∀ i, StoredSub p E ((S k).w i).val)
    (hnorm : (2 : ℝ) ^ (E + p - 1) ≤ |(e k).val| ^ o.core.ext.alpha.val) (hnorm2 : (2 : ℝ) ^ (E + p - 1) ≤ (1 - (1 / 2) ^ p) * (o.core.ext.lambd.val * |(e k).val| ^ o.core.ext.alpha.val))
    (hout : (1 - E) * Real.log 2 < (1 - (1 / 2) ^ p) ^ 2 * (o.core.ext.lambd.val * |(e k).val| ^ o.core.ext.alpha.val)) : (S (k + 1)).w = (S k).w := by
  obtain ⟨hm, hx, -, -, hw⟩ := gmcc_runs h k
  rw [hw, hm, hx]
  set a := |(e k).val| ^ o.core.ext.alpha.val with ha
  set l := o.core.ext.lambd.val with hl'
  have h1 := round_normal (p := p) (E := E) hnorm
  have h2 : (1 - (1 / 2) ^ p) * (l * a) ≤ l * roundSub p E a := by
    have := mul_le_mul_of_nonneg_left h1 hl.le
    linarith
  have h3 := round_normal (p := p) (E := E) (hnorm2.trans h2)
  have hneg : ∀ b : ℝ, 0 ≤ b → (1 - E) * Real.log 2 < -roundSub p E (-b) → roundSub p E (Real.exp (roundSub p E (-b))) = 0 := by
    intro b hb hlt
    apply C162_underflow
    rw [abs_of_pos (Real.exp_pos _)]
    calc Real.exp (roundSub p E (-b)) < Real.exp (-((1 - E) * Real.log 2)) := Real.exp_lt_exp.2 (by linarith)
      _ = 2 ^ E / 2 := by
        rw [← neg_mul, show -(1 - (E : ℝ)) = ((E - 1 : ℤ) : ℝ) by push_cast; ring, ← Real.log_zpow, Real.exp_log (by positivity), zpow_sub₀ two_ne_zero, zpow_one]
  have h4 : roundSub p E (Real.exp (roundSub p E (-(l * roundSub p E a)))) = 0 := by
    have hb : 0 < l * roundSub p E a := lt_of_lt_of_le (by positivity) (hnorm2.trans h2)
    refine hneg _ hb.le ?_
    have herr := C162_error p E (-(l * roundSub p E a))
    rw [abs_neg, abs_of_pos hb, max_eq_left ?_] at herr
    · have h5 := (abs_le.1 herr).2
      have hu1 : (0 : ℝ) ≤ 1 - (1 / 2) ^ p := by
        have : ((1 : ℝ) / 2) ^ p ≤ 1 := pow_le_one₀ (by norm_num) (by norm_num)
        linarith
      have h6 := mul_le_mul_of_nonneg_left h2 hu1
      rw [← mul_assoc, ← pow_two] at h6
      linarith
    · have := mul_le_mul_of_nonneg_left (hnorm2.trans h2) (show (0 : ℝ) ≤ (1 / 2) ^ p by positivity)
      refine le_trans (le_of_eq ?_) this
      rw [show E + (p : ℤ) - 1 = E - 1 + p by ring, zpow_add₀ two_ne_zero, zpow_natCast, zpow_sub₀ two_ne_zero, mul_left_comm, ← mul_pow]
      norm_num
  have h5 : (Transc.exp (-o.core.ext.lambd * Transc.pow (Scalar.abs (e k)) o.core.ext.alpha) : Sf p E) = ⟨0⟩ := by
    apply Sf.ext
    show roundSub p E (Real.exp (roundSub p E (-l * roundSub p E a))) = 0
    rw [neg_mul, h4]
  have z1 : ∀ b : Sf p E, b * ⟨0⟩ = ⟨0⟩ := fun b => Sf.ext (by show roundSub p E (b.val * 0) = 0; rw [mul_zero, sub_zero_round])
  have z2 : ∀ b : Sf p E, (⟨0⟩ : Sf p E) * b = ⟨0⟩ := fun b => Sf.ext (by show roundSub p E (0 * b.val) = 0; rw [zero_mul, sub_zero_round])
  funext i
  rw [h5, z1, z2, z2, z2]
  exact Sf.ext (by show roundSub p E (((S k).w i).val + 0) = _; rw [add_zero, storedSub_keep hp (hs i)])

end gmcc

/-- double precision, `mu = 2^-1000`, `x = 2^-100`: `C162_lms_for_ever` applies for any targets -/
example (d : ℕ → Sf 53 (-1074)) : ∃ (o : Obj (lms (Sf 53 (-1074)) 1)) (y e : ℕ → Sf 53 (-1074)) (S : ℕ → Core (Sf 53 (-1074)) 1 Unit),
    Runs (lms (Sf 53 (-1074)) 1) o d (fun _ _ => ⟨2 ^ (-100 : ℤ)⟩) y e S ∧ o.core.mu.val ≠ 0 ∧ (∀ i, StoredSub 53 (-1074) (o.core.w i).val) ∧ |o.core.mu.val * 2 ^ (-100 : ℤ)| < 2 ^ (-1074 : ℤ) / 2 := by
  refine ⟨⟨⟨fun _ => ⟨1⟩, 1, ⟨2 ^ (-1000 : ℤ)⟩, ()⟩, []⟩, _, _, _, runs_of_safe lms_safe _ trivial _ _, by positivity, fun i => ⟨1, 0, by norm_num, by norm_num, ?_⟩, ?_⟩
  · show (1 : ℝ) = _; simp
  · show |(2 : ℝ) ^ (-1000 : ℤ) * 2 ^ (-100 : ℤ)| < _
    rw [← zpow_add₀ two_ne_zero, abs_of_pos (by positivity), show (2 : ℝ) ^ (-1074 : ℤ) / 2 = 2 ^ (-1075 : ℤ) from by rw [show (-1075 : ℤ) = -1074 - 1 by norm_num, zpow_sub₀ two_ne_zero, zpow_one]]
    exact zpow_lt_zpow_right₀ (by norm_num) (by norm_num)

/-- double precision, default `lambd = 1`, `alpha = 2`, an error of 1000: `C162_gmcc_outlier` applies -/
example : ∃ (o : Obj (gmcc (Sf 53 (-1074)) 1)) (y e : ℕ → Sf 53 (-1074)) (S : ℕ → Core (Sf 53 (-1074)) 1 (GmccExt (Sf 53 (-1074)))),
    Runs (gmcc (Sf 53 (-1074)) 1) o (fun _ => ⟨1001⟩) (fun _ _ => ⟨1⟩) y e S ∧ (e 0).val = 1000 ∧ o.core.mu.val = 1 ∧ (∀ i, StoredSub 53 (-1074) ((S 0).w i).val) ∧ 0 < o.core.ext.lambd.val ∧
    (2 : ℝ) ^ (-1074 + 53 - 1 : ℤ) ≤ |(e 0).val| ^ o.core.ext.alpha.val ∧ (2 : ℝ) ^ (-1074 + 53 - 1 : ℤ) ≤ (1 - (1 / 2) ^ 53) * (o.core.ext.lambd.val * |(e 0).val| ^ o.core.ext.alpha.val) ∧
    (1 - ((-1074 : ℤ) : ℝ)) * Real.log 2 < (1 - (1 / 2) ^ 53) ^ 2 * (o.core.ext.lambd.val * |(e 0).val| ^ o.core.ext.alpha.val) := by
  obtain ⟨y, e, S, h⟩ : ∃ y e S, Runs (gmcc (Sf 53 (-1074)) 1) ⟨⟨fun _ => ⟨1⟩, 1, ⟨1⟩, ⟨⟨1⟩, ⟨2⟩⟩⟩, []⟩ (fun _ => ⟨1001⟩) (fun _ _ => ⟨1⟩) y e S :=
    ⟨_, _, _, runs_of_safe gmcc_safe _ trivial _ _⟩
  have h00 : (S 0).w 0 = ⟨1⟩ := by rw [h.1]; rfl
  have h1 : roundSub 53 (-1074) 1 = 1 := storedSub_keep (by norm_num) ⟨1, 0, by norm_num, by norm_num, by simp⟩
  have he : (e 0).val = 1000 := by
    obtain ⟨-, -, hy, he, -⟩ := gmcc_runs h 0
    have h2 : (dot (S 0).w (fun _ : Fin 1 => (⟨1⟩ : Sf 53 (-1074)))).val = roundSub 53 (-1074) (roundSub 53 (-1074) (((S 0).w 0).val * 1) + 0) := by
      rfl
    have h3 : (e 0).val = roundSub 53 (-1074) (1001 - (y 0).val) := by rw [he]; rfl
    rw [h3, hy, h2, h00, mul_one, h1, add_zero, h1, show (1001 : ℝ) - 1 = 1000 by norm_num]
    exact storedSub_keep (by norm_num) ⟨1000, 0, by norm_num, by norm_num, by simp⟩
  have hz : (2 : ℝ) ^ (-1074 + 53 - 1 : ℤ) ≤ 1 := zpow_le_one_of_nonpos₀ (by norm_num) (by norm_num)
  have hpow : |(e 0).val| ^ (2 : ℝ) = 1000000 := by rw [he]; norm_num
  refine ⟨⟨⟨fun _ => ⟨1⟩, 1, ⟨1⟩, ⟨⟨1⟩, ⟨2⟩⟩⟩, []⟩, y, e, S, h, he, rfl, fun i => ?_, ?_, ?_, ?_, ?_⟩
  · rw [Subsingleton.elim i 0, h00]; exact ⟨1, 0, by norm_num, by norm_num, by simp⟩
  · show (0 : ℝ) < 1; norm_num
  · show _ ≤ |(e 0).val| ^ (2 : ℝ)
    rw [hpow]; exact hz.trans (by norm_num)
  · show _ ≤ (1 - (1 / 2) ^ 53) * (1 * |(e 0).val| ^ (2 : ℝ))
    rw [hpow]; exact hz.trans (by norm_num)
  · show _ < (1 - (1 / 2) ^ 53) ^ 2 * (1 * |(e 0).val| ^ (2 : ℝ))
    rw [hpow]
    have := Real.log_le_sub_one_of_pos (show (0 : ℝ) < 2 by norm_num)
    norm_num
    linarith

/-- double precision, zero weights, a target of `2^-600`: `C162_lmf` applies to the first sample -/
example : ∃ (o : Obj (lmf (Sf 53 (-1074)) 1)) (y e : ℕ → Sf 53 (-1074)) (S : ℕ → Core (Sf 53 (-1074)) 1 Unit), Runs (lmf (Sf 53 (-1074)) 1) o (fun _ => ⟨2 ^ (-600 : ℤ)⟩) (fun _ _ => ⟨1⟩) y e S ∧
    o.core.mu.val = 1 ∧ (e 0).val ≠ 0 ∧ (∀ i, StoredSub 53 (-1074) ((S 0).w i).val) ∧ (e 0).val ^ 2 < 2 ^ (-1074 : ℤ) / 2 := by
  obtain ⟨y, e, S, h⟩ : ∃ y e S, Runs (lmf (Sf 53 (-1074)) 1) ⟨⟨fun _ => ⟨0⟩, 1, ⟨1⟩, ()⟩, []⟩ (fun _ => ⟨2 ^ (-600 : ℤ)⟩) (fun _ _ => ⟨1⟩) y e S := ⟨_, _, _, runs_of_safe lmf_safe _ trivial _ _⟩
  have h00 : (S 0).w 0 = ⟨0⟩ := by rw [h.1]; rfl
  have he : (e 0).val = 2 ^ (-600 : ℤ) := by
    obtain ⟨-, -, hy, he, -⟩ := lmf_runs h 0
    have h2 : (dot (S 0).w (fun _ : Fin 1 => (⟨1⟩ : Sf 53 (-1074)))).val = roundSub 53 (-1074) (roundSub 53 (-1074) (((S 0).w 0).val * 1) + 0) := by
      rfl
    have h3 : (e 0).val = roundSub 53 (-1074) (2 ^ (-600 : ℤ) - (y 0).val) := by rw [he]; rfl
    rw [h3, hy, h2, h00, mul_one, sub_zero_round, add_zero, sub_zero_round, sub_zero]
    exact storedSub_keep (by norm_num) ⟨1, -600, by norm_num, by norm_num, by simp⟩
  refine ⟨⟨⟨fun _ => ⟨0⟩, 1, ⟨1⟩, ()⟩, []⟩, y, e, S, h, rfl, ?_, fun i => ?_, ?_⟩
  · rw [he]; positivity
  · rw [Subsingleton.elim i 0, h00]; exact ⟨0, 0, by norm_num, by norm_num, by simp⟩
  · rw [he, ← zpow_natCast, ← zpow_mul, show (2 : ℝ) ^ (-1074 : ℤ) / 2 = 2 ^ (-1075 : ℤ) from by rw [show (-1075 : ℤ) = -1074 - 1 by norm_num, zpow_sub₀ two_ne_zero, zpow_one]]
    exact zpow_lt_zpow_right₀ (by norm_num) (by norm_num)

end Padasip
