import Verif.Props.RoundDrift

/-!
# C160: finite precision: small updates are lost
-/

set_option linter.unusedSectionVars false
set_option linter.unusedVariables false
set_option linter.unusedSimpArgs false

namespace Padasip

open Finset

variable {n : ℕ}

/-- `a` can be stored with a `p`-bit significand. -/
def Stored (p : ℕ) (a : ℝ) : Prop := ∃ m e : ℤ, |m| ≤ 2 ^ p ∧ a = m * 2 ^ e

theorem log_bounds {a : ℝ} (ha : a ≠ 0) : (2 : ℝ) ^ Int.log 2 |a| ≤ |a| ∧ |a| < (2 : ℝ) ^ (Int.log 2 |a| + 1) :=
  ⟨by exact_mod_cast Int.zpow_log_le_self (b := 2) one_lt_two (abs_pos.2 ha), by exact_mod_cast Int.lt_zpow_succ_log_self (b := 2) one_lt_two |a|⟩

/-- rounding gives a number that can be stored -/
theorem stored_round {p : ℕ} (hp : 0 < p) (a : ℝ) : Stored p (roundBits p a) := by
  rcases eq_or_ne a 0 with rfl | ha
  · exact ⟨0, 0, by simp, by simp [roundBits]⟩
  refine ⟨round (a * 2 ^ ((p : ℤ) - 1 - Int.log 2 |a|)), Int.log 2 |a| - (p - 1), ?_, rfl⟩
  obtain ⟨-, h2⟩ := log_bounds ha
  set L := Int.log 2 |a|
  have hs : (0 : ℝ) < 2 ^ ((p : ℤ) - 1 - L) := by positivity
  have h3 : |a * 2 ^ ((p : ℤ) - 1 - L)| < 2 ^ p := by
    rw [abs_mul, abs_of_pos hs]
    calc _ < (2 : ℝ) ^ (L + 1) * 2 ^ ((p : ℤ) - 1 - L) := mul_lt_mul_of_pos_right h2 hs
      _ = 2 ^ p := by rw [← zpow_add₀ two_ne_zero, show L + 1 + ((p : ℤ) - 1 - L) = p by ring, zpow_natCast]
  have h4 := abs_sub_round (a * 2 ^ ((p : ℤ) - 1 - L))
  have h5 : |(round (a * 2 ^ ((p : ℤ) - 1 - L)) : ℝ)| < 2 ^ p + 1 := by
    have := abs_sub_abs_le_abs_sub (round (a * 2 ^ ((p : ℤ) - 1 - L)) : ℝ) (a * 2 ^ ((p : ℤ) - 1 - L))
    rw [abs_sub_comm] at h4
    linarith
  have h6 : |round (a * 2 ^ ((p : ℤ) - 1 - L))| < 2 ^ p + 1 := by exact_mod_cast h5
  omega

/-- C160: adding less than `2^-(p+2)` of a stored number does not change it. -/
theorem C160_absorbed {p : ℕ} (hp : 0 < p) {w δ : ℝ} (hw : Stored p w) (hδ : |δ| ≤ (1 / 2) ^ (p + 2) * |w|) : roundBits p (w + δ) = w := by
  rcases eq_or_ne w 0 with rfl | hw0
  · have : δ = 0 := by simpa using hδ
    subst this; simp [roundBits]
  have hwp : 0 < |w| := abs_pos.2 hw0
  have hp2 : ((1 : ℝ) / 2) ^ (p + 2) ≤ 1 / 8 := by
    rw [pow_add]
    have : ((1 : ℝ) / 2) ^ p ≤ 1 / 2 := by
      simpa using pow_le_pow_of_le_one (by norm_num : (0 : ℝ) ≤ 1 / 2) (by norm_num) (show 1 ≤ p by omega)
    linarith
  have hδ' : |δ| ≤ 1 / 8 * |w| := hδ.trans (mul_le_mul_of_nonneg_right hp2 hwp.le)
  have hlow : |w| ≤ |w + δ| + |δ| := by
    have := abs_add_le (w + δ) (-δ); rw [abs_neg, add_neg_cancel_right] at this; exact this
  have hy : w + δ ≠ 0 := by
    rintro h; rw [h, abs_zero] at hlow; linarith
  obtain ⟨h1, h2⟩ := log_bounds hy
  set L := Int.log 2 |w + δ| with hL
  set s : ℝ := 2 ^ ((p : ℤ) - 1 - L) with hs
  have hs0 : 0 < s := by positivity
  -- the scaled increment is small
  have hLs : (2 : ℝ) ^ (L + 1) * s = 2 ^ p := by rw [hs, ← zpow_add₀ two_ne_zero, show L + 1 + ((p : ℤ) - 1 - L) = p by ring, zpow_natCast]
  have hLs' : (2 : ℝ) ^ L * s * 2 = 2 ^ p := by rw [← hLs, zpow_add₀ two_ne_zero]; ring
  have h12 : ((1 : ℝ) / 2) ^ (p + 2) * 2 ^ p = 1 / 4 := by rw [pow_add, mul_right_comm, ← mul_pow]; norm_num
  have hwL : |w| * s < 4 / 3 * 2 ^ p := by
    have : |w| * 7 / 8 < 2 ^ (L + 1) := by linarith
    have := mul_lt_mul_of_pos_right this hs0
    rw [hLs] at this
    have : (0 : ℝ) < 2 ^ p := by positivity
    linarith
  have hsm : |δ * s| < 1 / 3 + 1 / 100 := by
    rw [abs_mul, abs_of_pos hs0]
    have h3 : |δ| * s ≤ (1 / 2) ^ (p + 2) * |w| * s := mul_le_mul_of_nonneg_right hδ hs0.le
    have h4 := mul_lt_mul_of_pos_left hwL (show (0 : ℝ) < (1 / 2) ^ (p + 2) by positivity)
    have h5 : ((1 : ℝ) / 2) ^ (p + 2) * (4 / 3 * 2 ^ p) = 1 / 3 := by rw [mul_left_comm, h12]; norm_num
    rw [h5] at h4
    linarith
  -- the scaled weight is an integer
  obtain ⟨m, e, hm, hwe⟩ := hw
  have hint : ∃ z : ℤ, w * s = z := by
    have hws : w * s = m * 2 ^ (e + ((p : ℤ) - 1 - L)) := by rw [hwe, hs, mul_assoc, ← zpow_add₀ two_ne_zero]
    have hbig : (2 : ℝ) ^ p / 2 - (1 / 3 + 1 / 100) < |m| * 2 ^ (e + ((p : ℤ) - 1 - L)) := by
      have h5 : |w * s| = |(m : ℝ)| * 2 ^ (e + ((p : ℤ) - 1 - L)) := by rw [hws, abs_mul, abs_of_pos (show (0 : ℝ) < 2 ^ (e + ((p : ℤ) - 1 - L)) by positivity)]
      have h6 : (2 : ℝ) ^ p / 2 ≤ |w + δ| * s := by
        have := mul_le_mul_of_nonneg_right h1 hs0.le; linarith
      have h7 : |w + δ| * s ≤ |w * s| + |δ * s| := by
        rw [← abs_of_pos hs0, ← abs_mul, abs_of_pos hs0, add_mul]; exact abs_add_le _ _
      push_cast
      rw [← h5]; linarith
    set e' := e + ((p : ℤ) - 1 - L) with he'
    have hmR : (|m| : ℝ) ≤ 2 ^ p := by exact_mod_cast hm
    have h2p : (2 : ℝ) ≤ 2 ^ p := by
      simpa using pow_le_pow_right₀ (by norm_num : (1 : ℝ) ≤ 2) (show 1 ≤ p by omega)
    rcases lt_trichotomy e' (-1) with h8 | h8 | h8
    · exfalso
      have h9 : (2 : ℝ) ^ e' ≤ 1 / 4 := by
        calc (2 : ℝ) ^ e' ≤ 2 ^ (-2 : ℤ) := zpow_le_zpow_right₀ (by norm_num) (by omega)
          _ = 1 / 4 := by norm_num
      have h10 : (|m| : ℝ) * 2 ^ e' ≤ 2 ^ p * (1 / 4) := mul_le_mul hmR h9 (by positivity) (by positivity)
      push_cast at hbig
      linarith
    · rw [h8] at hbig hws
      have h9 : (2 : ℝ) ^ p - 1 < |m| := by
        push_cast at hbig ⊢
        norm_num at hbig
        linarith
      have h10 : (2 : ℤ) ^ p - 1 < |m| := by exact_mod_cast h9
      have h11 : |m| = 2 ^ p := by omega
      obtain ⟨q, hq⟩ : (2 : ℤ) ∣ m := by
        rw [← dvd_abs, h11]; exact dvd_pow_self 2 hp.ne'
      refine ⟨q, ?_⟩
      rw [hws, hq]
      push_cast
      norm_num
      ring
    · refine ⟨m * 2 ^ e'.toNat, ?_⟩
      rw [hws]
      push_cast
      rw [← zpow_natCast, Int.toNat_of_nonneg (by omega)]
  obtain ⟨z, hz⟩ := hint
  have hr : round ((w + δ) * s) = z := by
    rw [add_mul, hz, add_comm, round_add_intCast]
    have : round (δ * s) = 0 := by
      rw [round_eq_zero_iff]
      obtain ⟨h3, h4⟩ := abs_lt.1 hsm
      constructor <;> linarith
    rw [this, zero_add]
  show (round ((w + δ) * s) : ℝ) * 2 ^ (L - ((p : ℤ) - 1)) = w
  rw [hr, ← hz, hs, mul_assoc, ← zpow_add₀ two_ne_zero]
  simp

section filters
variable {p : ℕ} {hp : 0 < p}

theorem phi_le_two {u : ℝ} {k : ℕ} (h0 : 0 ≤ u) (h1 : u < 1) (hk : (k : ℕ) * u ≤ 1 / 2) : phi u k ≤ 2 := by
  have h := phi_sub_one_le_gamma h0 h1 k (by linarith)
  have : gamma u k ≤ 1 := by
    unfold gamma
    rw [div_le_one (by linarith)]; linarith
  linarith

theorem absorbed_fl {w δ : Fl (binary p hp)} (hw : Stored p w.val) (hδ : |δ.val| ≤ (1 / 2) ^ (p + 2) * |w.val|) : w + δ = w :=
  Fl.ext (C160_absorbed hp hw hδ)

/-- a computed increment, at most twice the exact one, that is too small -/
theorem absorbed_acc {w δ : Fl (binary p hp)} {k : ℕ} {b B : ℝ} (hw : Stored p w.val) (h : Acc (binary p hp).u k δ.val b B) (hk : (k : ℕ) * (binary p hp).u ≤ 1 / 2)
    (hB : B ≤ (1 / 2) ^ (p + 3) * |w.val|) : w + δ = w := by
  refine absorbed_fl hw ((h.abs_le (binary p hp).u_nonneg (binary p hp).u_lt).trans ?_)
  have h2 := phi_le_two (binary p hp).u_nonneg (binary p hp).u_lt hk
  calc phi (binary p hp).u k * B ≤ 2 * B := mul_le_mul_of_nonneg_right h2 (h.nonneg (binary p hp).u_nonneg (binary p hp).u_lt)
    _ ≤ 2 * ((1 / 2) ^ (p + 3) * |w.val|) := by linarith
    _ = _ := by rw [pow_succ (1 / 2 : ℝ) (p + 2)]; ring

section lms
variable (o : Obj (lms (Fl (binary p hp)) n)) {d : ℕ → Fl (binary p hp)} {x : ℕ → Vec (Fl (binary p hp)) n} {y e : ℕ → Fl (binary p hp)} {S : ℕ → Core (Fl (binary p hp)) n Unit}
  (h : Runs (lms (Fl (binary p hp)) n) o d x y e S)
include h

/-- C160: after one sample all weights are stored `p`-bit numbers. -/
theorem C160_lms_stored (k : ℕ) (i : Fin n) : Stored p ((S (k + 1)).w i).val := by
  obtain ⟨-, -, -, -, hw⟩ := lms_runs h k
  rw [hw]; exact stored_round hp _

/-- C160: LMS with `p`-bit numbers does not change a weight when `|mu x_i e| <= 2^-(p+3) |w_i|`. -/
theorem C160_lms_lost (hp2 : 2 ≤ p) (k : ℕ) (i : Fin n) (hs : Stored p ((S k).w i).val) (hsmall : |o.core.mu.val * (x k i).val * (e k).val| ≤ (1 / 2) ^ (p + 3) * |((S k).w i).val|) :
    (S (k + 1)).w i = (S k).w i := by
  obtain ⟨hm, -, -, -, hw⟩ := lms_runs h k
  have h0 := (binary p hp).u_nonneg
  have h1 := (binary p hp).u_lt
  rw [hw, hm]
  refine absorbed_acc hs (Acc.flmul (Acc.flmul (acc_exact h0 h1 o.core.mu.val) (acc_exact h0 h1 (x k i).val)) (acc_exact h0 h1 (e k).val)) ?_ ?_
  · have : (binary p hp).u ≤ (1 / 2) ^ 2 := pow_le_pow_of_le_one (by norm_num) (by norm_num) hp2
    norm_num at this ⊢
    linarith
  · rw [← abs_mul, ← abs_mul]; exact hsmall

/-- C160: if that holds for all weights and the same sample is presented again and again, the filter has stopped for ever, whatever its error is. -/
theorem C160_lms_stalled (hp2 : 2 ≤ p) (k : ℕ) (hd : ∀ j, d (k + j) = d k) (hx : ∀ j, x (k + j) = x k) (hs : ∀ i, Stored p ((S k).w i).val)
    (hsmall : ∀ i, |o.core.mu.val * (x k i).val * (e k).val| ≤ (1 / 2) ^ (p + 3) * |((S k).w i).val|) (j : ℕ) : (S (k + j)).w = (S k).w ∧ e (k + j) = e k := by
  have err : ∀ j, (S (k + j)).w = (S k).w → e (k + j) = e k := fun j hj => by
    obtain ⟨-, -, hy, he, -⟩ := lms_runs h (k + j)
    obtain ⟨-, -, hy', he', -⟩ := lms_runs h k
    rw [he, he', hy, hy', hj, hd, hx]
  have main : ∀ j, (S (k + j)).w = (S k).w := by
    intro j
    induction j with
    | zero => rfl
    | succ j ih =>
      funext i
      rw [show k + (j + 1) = k + j + 1 by ring, C160_lms_lost o h hp2 (k + j) i (by rw [ih]; exact hs i) (by rw [hx, err j ih, ih]; exact hsmall i), ih]
  exact ⟨main j, err j (main j)⟩

end lms

section nlms
variable (o : Obj (nlms (Fl (binary p hp)) n)) {d : ℕ → Fl (binary p hp)} {x : ℕ → Vec ℝ n} {y e : ℕ → Fl (binary p hp)} {S : ℕ → Core (Fl (binary p hp)) n (EpsExt (Fl (binary p hp)))}
  (h : Runs (nlms (Fl (binary p hp)) n) o d (fun k => (x k).fl _) y e S)
include h

theorem C160_nlms_stored (k : ℕ) (i : Fin n) : Stored p ((S (k + 1)).w i).val := by
  obtain ⟨-, -, -, -, hw⟩ := nlms_runs h k
  rw [hw]; exact stored_round hp _

/-- C160: NLMS with `eps > 0` does not change a weight when `|mu x_i e| / (eps + |x|^2) <= 2^-(p+3) |w_i|`. -/
theorem C160_nlms_lost (heps : 0 < o.core.ext.eps.val) (hu : (n + 5 : ℕ) * ((1 : ℝ) / 2) ^ p ≤ 1 / 2) (k : ℕ) (i : Fin n) (hs : Stored p ((S k).w i).val)
    (hsmall : |o.core.mu.val * x k i * (e k).val| / (o.core.ext.eps.val + ∑ j, x k j ^ 2) ≤ (1 / 2) ^ (p + 3) * |((S k).w i).val|) :
    (S (k + 1)).w i = (S k).w i := by
  obtain ⟨hm, he, -, -, hw⟩ := nlms_runs h k
  have h0 := (binary p hp).u_nonneg
  have h1 := (binary p hp).u_lt
  have hdot : dot (x k) (x k) = ∑ j, x k j ^ 2 := by rw [dot_eq]; exact sum_congr rfl fun j _ => by ring
  have hpos : 0 < o.core.ext.eps.val + ∑ j, x k j ^ 2 := by
    have : 0 ≤ ∑ j, x k j ^ 2 := sum_nonneg fun j _ => sq_nonneg _
    linarith
  rw [hw, hm, he]
  have a0 := norm_acc (F := binary p hp) o.core.mu.val _ heps (x k)
  rw [hdot] at a0
  refine absorbed_acc hs (Acc.flmul (Acc.flmul (c := ⟨x k i⟩) a0 (acc_exact h0 h1 _)) (acc_exact h0 h1 (e k).val)) hu ?_
  refine le_trans (le_of_eq ?_) hsmall
  rw [abs_mul, abs_mul]
  ring

end nlms

section sslms
variable (o : Obj (sslms (Fl (binary p hp)) n)) {d : ℕ → Fl (binary p hp)} {x : ℕ → Vec (Fl (binary p hp)) n} {y e : ℕ → Fl (binary p hp)} {S : ℕ → Core (Fl (binary p hp)) n Unit}
  (h : Runs (sslms (Fl (binary p hp)) n) o d x y e S)
include h

theorem C160_sslms_stored (k : ℕ) (i : Fin n) : Stored p ((S (k + 1)).w i).val := by
  obtain ⟨-, -, -, -, hw⟩ := sslms_runs h k
  rw [hw]; exact stored_round hp _

/-- C160: in `p`-bit arithmetic a weight of SSLMS that has grown to `2^(p+3) |mu|` is frozen: it never changes again, on any data. -/
theorem C160_sslms_frozen (hp2 : 2 ≤ p) (k : ℕ) (i : Fin n) (hs : Stored p ((S k).w i).val) (hbig : 2 ^ (p + 3) * |o.core.mu.val| ≤ |((S k).w i).val|) (j : ℕ) :
    (S (k + j)).w i = (S k).w i := by
  induction j with
  | zero => rfl
  | succ j ih =>
    obtain ⟨hm, -, -, -, hw⟩ := sslms_runs h (k + j)
    have h0 := (binary p hp).u_nonneg
    have h1 := (binary p hp).u_lt
    rw [show k + (j + 1) = k + j + 1 by ring, hw, hm]
    show (S (k + j)).w i + _ = _
    rw [ih]
    refine absorbed_acc hs (Acc.flmul (Acc.flmul (acc_exact h0 h1 o.core.mu.val) (acc_exact h0 h1 (Scalar.sgn (x (k + j) i) : Fl (binary p hp)).val)) (acc_exact h0 h1 (Scalar.sgn (e (k + j)) : Fl (binary p hp)).val)) ?_ ?_
    · have : (binary p hp).u ≤ (1 / 2) ^ 2 := pow_le_pow_of_le_one (by norm_num) (by norm_num) hp2
      norm_num at this ⊢
      linarith
    · have hsg : ∀ a : Fl (binary p hp), |(Scalar.sgn a : Fl (binary p hp)).val| ≤ 1 := fun a => by
        show |(if 0 < a.val then (1 : ℝ) else if a.val < 0 then -1 else 0)| ≤ 1
        split_ifs <;> simp
      have h3 : |o.core.mu.val| * |(Scalar.sgn (x (k + j) i) : Fl (binary p hp)).val| * |(Scalar.sgn (e (k + j)) : Fl (binary p hp)).val| ≤ |o.core.mu.val| :=
        (mul_le_of_le_one_right (by positivity) (hsg _)).trans (mul_le_of_le_one_right (abs_nonneg _) (hsg _))
      refine h3.trans ?_
      have h4 := mul_le_mul_of_nonneg_left hbig (show (0 : ℝ) ≤ (1 / 2) ^ (p + 3) by positivity)
      rw [← mul_assoc, ← mul_pow] at h4
      norm_num at h4 ⊢
      exact h4

/-- C160: so in finite precision the weights of SSLMS are bounded, on any data: by `2^(p+4) |mu|`, or by their start. (In exact arithmetic they need not be: C97.) -/
theorem C160_sslms_bounded (hp3 : 3 ≤ p) (hs : ∀ i, Stored p ((o.core.w i)).val) (k : ℕ) (i : Fin n) :
    |((S k).w i).val| ≤ max |(o.core.w i).val| (2 ^ (p + 4) * |o.core.mu.val|) := by
  have hst : ∀ k, Stored p ((S k).w i).val := by
    intro k
    cases k with
    | zero => rw [h.1]; exact hs i
    | succ k => exact C160_sslms_stored o h k i
  induction k with
  | zero => rw [h.1]; exact le_max_left _ _
  | succ k ih =>
    rcases le_total (2 ^ (p + 3) * |o.core.mu.val|) |((S k).w i).val| with hb | hb
    · rw [C160_sslms_frozen o h (by omega) k i (hst k) hb 1]; exact ih
    · refine le_trans ?_ (le_max_right _ _)
      obtain ⟨hm, -, -, -, hw⟩ := sslms_runs h k
      have h0 := (binary p hp).u_nonneg
      have h1 := (binary p hp).u_lt
      have hu : (binary p hp).u ≤ (1 / 2) ^ 3 := pow_le_pow_of_le_one (by norm_num) (by norm_num) hp3
      have a := Acc.fladd ((acc_exact h0 h1 ((S k).w i).val).mono h0 h1 (Nat.zero_le (0 + 0 + 1 + 0 + 1)))
        (Acc.flmul (Acc.flmul (acc_exact h0 h1 o.core.mu.val) (acc_exact h0 h1 (Scalar.sgn (x k i) : Fl (binary p hp)).val)) (acc_exact h0 h1 (Scalar.sgn (e k) : Fl (binary p hp)).val))
      have hsg : ∀ a : Fl (binary p hp), |(Scalar.sgn a : Fl (binary p hp)).val| ≤ 1 := fun a => by
        show |(if 0 < a.val then (1 : ℝ) else if a.val < 0 then -1 else 0)| ≤ 1
        split_ifs <;> simp
      have h3 : |o.core.mu.val| * |(Scalar.sgn (x k i) : Fl (binary p hp)).val| * |(Scalar.sgn (e k) : Fl (binary p hp)).val| ≤ |o.core.mu.val| :=
        (mul_le_of_le_one_right (by positivity) (hsg _)).trans (mul_le_of_le_one_right (abs_nonneg _) (hsg _))
      rw [hw, hm]
      refine (a.abs_le h0 h1).trans ?_
      have h4 : phi (binary p hp).u 3 ≤ 8 / 5 := by
        have h5 := phi_sub_one_le_gamma h0 h1 3 (by norm_num at hu ⊢; linarith)
        have h6 : gamma (binary p hp).u 3 ≤ 3 / 5 := by
          unfold gamma
          rw [div_le_iff₀ (by norm_num at hu ⊢; linarith)]
          norm_num at hu ⊢; linarith
        linarith
      have h7 : (4 : ℝ) ≤ 2 ^ (p + 3) := by
        calc (4 : ℝ) = 2 ^ 2 := by norm_num
          _ ≤ 2 ^ (p + 3) := pow_le_pow_right₀ (by norm_num) (by omega)
      have h8 := abs_nonneg o.core.mu.val
      show phi (binary p hp).u 3 * (|((S k).w i).val| + |o.core.mu.val| * |(Scalar.sgn (x k i) : Fl (binary p hp)).val| * |(Scalar.sgn (e k) : Fl (binary p hp)).val|) ≤ _
      calc _ ≤ 8 / 5 * (2 ^ (p + 3) * |o.core.mu.val| + |o.core.mu.val|) := mul_le_mul h4 (add_le_add hb h3) (by positivity) (by norm_num)
        _ ≤ _ := by rw [pow_succ (2 : ℝ) (p + 3)]; nlinarith [mul_le_mul_of_nonneg_right h7 h8]

end sslms

end filters

/-- C160: double precision LMS with `mu = 2^-60`, started from weight 1, presented with `x = 1`, `d = 2`: its weight stays 1 and its error 1 for ever.
In exact arithmetic it learns (C87). -/
theorem C160_never_learns : ∃ (o : Obj (lms (Fl (binary 53 (by norm_num))) 1)) (y e : ℕ → Fl (binary 53 (by norm_num))) (S : ℕ → Core (Fl (binary 53 (by norm_num))) 1 Unit),
    Runs (lms (Fl (binary 53 (by norm_num))) 1) o (fun _ => ⟨2⟩) (fun _ _ => ⟨1⟩) y e S ∧ o.core.mu.val = (1 / 2) ^ 60 ∧ ∀ k, ((S k).w 0).val = 1 ∧ (e k).val = 1 := by
  obtain ⟨y, e, S, h⟩ : ∃ y e S, Runs (lms (Fl (binary 53 (by norm_num))) 1) ⟨⟨fun _ => ⟨1⟩, 1, ⟨(1 / 2) ^ 60⟩, ()⟩, []⟩ (fun _ => ⟨2⟩) (fun _ _ => ⟨1⟩) y e S := ⟨_, _, _, runs_of_safe lms_safe _ trivial _ _⟩
  have hst : ∀ a : ℤ, |a| ≤ 2 ^ 53 → roundBits 53 (a : ℝ) = a := fun a ha => by
    have := C160_absorbed (p := 53) (by norm_num) (w := a) (δ := 0) ⟨a, 0, ha, by simp⟩ (by rw [abs_zero]; positivity)
    rwa [add_zero] at this
  have h00 : (S 0).w 0 = ⟨1⟩ := by rw [h.1]; rfl
  have he0 : (e 0).val = 1 := by
    obtain ⟨-, -, hy, he, -⟩ := lms_runs h 0
    have h1 : (y 0).val = 1 := by
      rw [hy]
      have h2 : (dot (S 0).w fun _ => (⟨1⟩ : Fl (binary 53 (by norm_num)))).val = roundBits 53 (roundBits 53 (((S 0).w 0).val * 1) + 0) := by
        simp only [dot, vsum, List.ofFn_succ, List.ofFn_zero, List.sum_cons, List.sum_nil]; rfl
      rw [h2, h00]
      have := hst 1 (by norm_num)
      push_cast at this
      simp only [mul_one, add_zero, this]
    rw [he]
    show roundBits 53 (2 - (y 0).val) = 1
    rw [h1]
    have := hst 1 (by norm_num)
    push_cast at this
    rw [show (2 : ℝ) - 1 = 1 by norm_num, this]
  refine ⟨_, y, e, S, h, rfl, fun k => ?_⟩
  obtain ⟨h1, h2⟩ := C160_lms_stalled _ h (by norm_num) 0 (fun _ => rfl) (fun _ => rfl)
    (fun i => ⟨1, 0, by norm_num, by rw [h.1]; simp⟩)
    (fun i => by
      rw [he0, h.1]
      show |(1 / 2 : ℝ) ^ 60 * 1 * 1| ≤ (1 / 2) ^ (53 + 3) * |(1 : ℝ)|
      norm_num) k
  rw [zero_add] at h1 h2
  rw [h1, h2, h00, he0]
  exact ⟨rfl, rfl⟩

/-- the hypotheses of `C160_nlms_lost` can be met, with a non-zero error -/
example : ∃ (o : Obj (nlms (Fl (binary 53 (by norm_num))) 1)) (y e : ℕ → Fl (binary 53 (by norm_num))) (S : ℕ → Core (Fl (binary 53 (by norm_num))) 1 (EpsExt (Fl (binary 53 (by norm_num))))),
    Runs (nlms (Fl (binary 53 (by norm_num))) 1) o (fun _ => ⟨2⟩) (fun _ => Vec.fl _ fun _ => 1) y e S ∧ 0 < o.core.ext.eps.val ∧ (e 0).val = 1 ∧
    ((1 + 5 : ℕ) : ℝ) * (1 / 2) ^ 53 ≤ 1 / 2 ∧ Stored 53 ((S 0).w 0).val ∧
    |o.core.mu.val * 1 * (e 0).val| / (o.core.ext.eps.val + ∑ j : Fin 1, (1 : ℝ) ^ 2) ≤ (1 / 2) ^ (53 + 3) * |((S 0).w 0).val| := by
  obtain ⟨y, e, S, h⟩ : ∃ y e S, Runs (nlms (Fl (binary 53 (by norm_num))) 1) ⟨⟨fun _ => ⟨1⟩, 1, ⟨(1 / 2) ^ 60⟩, ⟨⟨1⟩⟩⟩, []⟩ (fun _ => ⟨2⟩) (fun _ => Vec.fl _ fun _ => 1) y e S :=
    ⟨_, _, _, runs_of_safe nlms_safe _ trivial _ _⟩
  have h1 : roundBits 53 (1 : ℝ) = 1 := by
    have := C160_absorbed (p := 53) (by norm_num) (w := 1) (δ := 0) ⟨1, 0, by norm_num, by simp⟩ (by rw [abs_zero]; positivity)
    rwa [add_zero] at this
  have h00 : (S 0).w 0 = ⟨1⟩ := by rw [h.1]; rfl
  have he0 : (e 0).val = 1 := by
    obtain ⟨-, -, hy, he, -⟩ := nlms_runs h 0
    have h2 : (dot (S 0).w (Vec.fl (binary 53 (by norm_num)) fun _ : Fin 1 => 1)).val = roundBits 53 (roundBits 53 (((S 0).w 0).val * 1) + 0) := by
      simp only [dot, vsum, List.ofFn_succ, List.ofFn_zero, List.sum_cons, List.sum_nil]; rfl
    rw [he]
    show roundBits 53 (2 - (y 0).val) = 1
    rw [hy, h2, h00]
    simp only [mul_one, add_zero, h1]
    rw [show (2 : ℝ) - 1 = 1 by norm_num, h1]
  refine ⟨_, y, e, S, h, one_pos, he0, by norm_num, ?_, ?_⟩
  · rw [h00]; exact ⟨1, 0, by norm_num, by simp⟩
  · rw [he0, h00]
    show |(1 / 2 : ℝ) ^ 60 * 1 * 1| / ((1 : ℝ) + ∑ j : Fin 1, (1 : ℝ) ^ 2) ≤ (1 / 2) ^ (53 + 3) * |(1 : ℝ)|
    norm_num

/-- ... and those of `C160_sslms_frozen` -/
example : ∃ (o : Obj (sslms (Fl (binary 53 (by norm_num))) 1)) (y e : ℕ → Fl (binary 53 (by norm_num))) (S : ℕ → Core (Fl (binary 53 (by norm_num))) 1 Unit),
    Runs (sslms (Fl (binary 53 (by norm_num))) 1) o (fun _ => ⟨2⟩) (fun _ _ => ⟨1⟩) y e S ∧ 0 < o.core.mu.val ∧ Stored 53 ((S 0).w 0).val ∧ 2 ^ (53 + 3) * |o.core.mu.val| ≤ |((S 0).w 0).val| := by
  refine ⟨⟨⟨fun _ => ⟨1⟩, 1, ⟨(1 / 2) ^ 60⟩, ()⟩, []⟩, _, _, _, runs_of_safe sslms_safe _ trivial _ _, by positivity, ⟨1, 0, by norm_num, ?_⟩, ?_⟩
  · show (1 : ℝ) = _; simp
  · show (2 : ℝ) ^ (53 + 3) * |(1 / 2 : ℝ) ^ 60| ≤ |(1 : ℝ)|; norm_num

end Padasip
