import Verif.Props.Divergence
import Verif.Props.Recursion

/-!
# C119: no parameters are safe for the variable-step filters

On one repeated sample `(v, c)` a fresh VSLMS filter whose first step does not happen to hit the target exactly diverges as soon as the
first error is large enough, whatever `mu`, `ro` (not 0) and `a` are: the step size is adapted without any bound.
-/

set_option linter.unusedSectionVars false
set_option linter.unusedVariables false
set_option linter.unusedSimpArgs false

namespace Padasip

open Finset

section seq

/-- from some index on the sequence at least doubles: it tends to infinity -/
theorem tendsto_of_doubling {e : ℕ → ℝ} {m : ℕ} (h0 : 0 < |e m|) (h : ∀ k, m ≤ k → 2 * |e k| ≤ |e (k + 1)|) :
    Filter.Tendsto (fun k => |e k|) Filter.atTop Filter.atTop := by
  have hk : ∀ k, 2 ^ k * |e m| ≤ |e (k + m)| := by
    intro k
    induction k with
    | zero => simp
    | succ k ih =>
      have h1 := h (k + m) (by omega)
      rw [show k + 1 + m = k + m + 1 by omega, pow_succ]
      nlinarith
  rw [← Filter.tendsto_add_atTop_iff_nat m]
  refine Filter.tendsto_atTop_mono hk ?_
  exact (tendsto_pow_atTop_atTop_of_one_lt (by norm_num : (1 : ℝ) < 2)).atTop_mul_const h0

theorem abs_one_sub_ge (z : ℝ) : |z| - 1 ≤ |1 - z| := by
  have := abs_sub_abs_le_abs_sub z 1
  rw [abs_one, abs_sub_comm] at this
  exact this

variable {e b f : ℕ → ℝ} {q a : ℝ}

theorem mathews_seq (he : ∀ k, e (k + 1) = b k * e k) (hb : ∀ k, b (k + 1) = b k * (1 - q * e k ^ 2))
    (h1 : 3 ≤ |q| * (b 0 * e 0) ^ 2) (h2 : 2 ≤ |b 0| * (|q| * e 0 ^ 2 - 1)) :
    Filter.Tendsto (fun k => |e k|) Filter.atTop Filter.atTop := by
  have step : ∀ k, |b k| * (|q| * e k ^ 2 - 1) ≤ |b (k + 1)| := by
    intro k
    rw [hb, abs_mul]
    refine mul_le_mul_of_nonneg_left ?_ (abs_nonneg _)
    have := abs_one_sub_ge (q * e k ^ 2)
    rwa [abs_mul, abs_of_nonneg (sq_nonneg (e k))] at this
  have inv : ∀ k, 3 ≤ |q| * e (k + 1) ^ 2 ∧ 2 ≤ |b (k + 1)| := by
    intro k
    induction k with
    | zero => exact ⟨by rw [he]; exact h1, h2.trans (step 0)⟩
    | succ k ih =>
      have h3 := step (k + 1)
      refine ⟨?_, ?_⟩
      · rw [he (k + 1), mul_pow, ← sq_abs (b (k + 1))]
        have : 1 ≤ |b (k + 1)| ^ 2 := by nlinarith [ih.2]
        nlinarith [mul_nonneg (abs_nonneg q) (sq_nonneg (e (k + 1)))]
      · nlinarith [ih.1, ih.2]
  refine tendsto_of_doubling (m := 1) ?_ fun k hk => ?_
  · rcases eq_or_ne (e 1) 0 with h | h
    · have := (inv 0).1
      simp [h] at this
      linarith
    · exact abs_pos.2 h
  · obtain ⟨j, rfl⟩ : ∃ j, k = j + 1 := ⟨k - 1, by omega⟩
    rw [he (j + 1), abs_mul]
    exact mul_le_mul_of_nonneg_right (inv j).2 (abs_nonneg _)

theorem ben_seq (he : ∀ k, e (k + 1) = b k * e k) (hb : ∀ k, b (k + 1) = b k * (1 - q * (e k * f (k + 1))))
    (hf : ∀ k, f (k + 1) = b k * f k + e k) (hf0 : f 0 = 0)
    (h1 : 3 ≤ |q| * (b 0 * e 0) ^ 2) (h2 : 2 ≤ |b 0| * (|q| * e 0 ^ 2 - 1)) (h3 : 3 ≤ |q| * e 0 ^ 2) :
    Filter.Tendsto (fun k => |e k|) Filter.atTop Filter.atTop := by
  have step : ∀ k, |b k| * (|q| * (|e k| * |f (k + 1)|) - 1) ≤ |b (k + 1)| := by
    intro k
    rw [hb, abs_mul]
    refine mul_le_mul_of_nonneg_left ?_ (abs_nonneg _)
    have := abs_one_sub_ge (q * (e k * f (k + 1)))
    rwa [abs_mul, abs_mul] at this
  have inv : ∀ k, 3 ≤ |q| * e (k + 1) ^ 2 ∧ 2 ≤ |b (k + 1)| ∧ 2 * |e (k + 1)| ≤ |f (k + 1)| * |b (k + 1)| := by
    intro k
    induction k with
    | zero =>
      have hf1 : f 1 = e 0 := by rw [hf 0, hf0]; ring
      have hs := step 0
      rw [zero_add, hf1, ← sq, sq_abs] at hs
      refine ⟨by rw [he]; exact h1, h2.trans hs, ?_⟩
      rw [he 0, zero_add, hf1, abs_mul]
      have : 2 * |b 0| ≤ |b 1| := by nlinarith [abs_nonneg (b 0)]
      nlinarith [abs_nonneg (e 0)]
    | succ k ih =>
      obtain ⟨i1, i2, i3⟩ := ih
      have hs := step (k + 1)
      have hF : |e (k + 1)| ≤ |f (k + 1 + 1)| := by
        have := abs_sub_abs_le_abs_sub (b (k + 1) * f (k + 1)) (-(e (k + 1)))
        rw [sub_neg_eq_add, ← hf (k + 1), abs_neg, abs_mul] at this
        nlinarith
      have hB : 2 * |b (k + 1)| ≤ |b (k + 1 + 1)| := by
        have : |q| * e (k + 1) ^ 2 ≤ |q| * (|e (k + 1)| * |f (k + 1 + 1)|) := by
          rw [← sq_abs, sq]
          exact mul_le_mul_of_nonneg_left (mul_le_mul_of_nonneg_left hF (abs_nonneg _)) (abs_nonneg _)
        nlinarith
      refine ⟨?_, by linarith, ?_⟩
      · rw [he (k + 1), mul_pow, ← sq_abs (b (k + 1))]
        have : 1 ≤ |b (k + 1)| ^ 2 := by nlinarith
        nlinarith [mul_nonneg (abs_nonneg q) (sq_nonneg (e (k + 1)))]
      · rw [he (k + 1), abs_mul]
        calc 2 * (|b (k + 1)| * |e (k + 1)|) = |e (k + 1)| * (2 * |b (k + 1)|) := by ring
          _ ≤ |f (k + 1 + 1)| * |b (k + 1 + 1)| := mul_le_mul hF hB (by positivity) (abs_nonneg _)
  refine tendsto_of_doubling (m := 1) ?_ fun k hk => ?_
  · rcases eq_or_ne (e 1) 0 with h | h
    · have := (inv 0).1
      simp [h] at this
      linarith
    · exact abs_pos.2 h
  · obtain ⟨j, rfl⟩ : ∃ j, k = j + 1 := ⟨k - 1, by omega⟩
    rw [he (j + 1), abs_mul]
    exact mul_le_mul_of_nonneg_right (inv j).2.1 (abs_nonneg _)

/-- Ang: from index 2 on -/
theorem ang_seq {A : ℝ} (hA : 1 ≤ A) (haA : |a| ≤ A) (he : ∀ k, e (k + 1) = b k * e k)
    (hb : ∀ k, b (k + 1) = b k * (1 - q * (e k * f (k + 1)))) (hf : ∀ k, f (k + 1) = a * f k + e k)
    (h1 : 4 ≤ |q| * e 2 ^ 2) (h2 : 3 * A ≤ |b 2|) (h3 : 2 * A * |f 2| ≤ |e 2|) :
    Filter.Tendsto (fun k => |e k|) Filter.atTop Filter.atTop := by
  have step : ∀ k, |b k| * (|q| * (|e k| * |f (k + 1)|) - 1) ≤ |b (k + 1)| := by
    intro k
    rw [hb, abs_mul]
    refine mul_le_mul_of_nonneg_left ?_ (abs_nonneg _)
    have := abs_one_sub_ge (q * (e k * f (k + 1)))
    rwa [abs_mul, abs_mul] at this
  have inv : ∀ k, 4 ≤ |q| * e (k + 2) ^ 2 ∧ 3 * A ≤ |b (k + 2)| ∧ 2 * A * |f (k + 2)| ≤ |e (k + 2)| := by
    intro k
    induction k with
    | zero => exact ⟨h1, h2, h3⟩
    | succ k ih =>
      obtain ⟨i1, i2, i3⟩ := ih
      have hs := step (k + 2)
      rw [show k + 1 + 2 = k + 2 + 1 by omega]
      have haf : |a * f (k + 2)| ≤ |e (k + 2)| / 2 := by
        rw [abs_mul]
        nlinarith [abs_nonneg (f (k + 2))]
      have hlo : |e (k + 2)| / 2 ≤ |f (k + 2 + 1)| := by
        have := abs_sub_abs_le_abs_sub (e (k + 2)) (-(a * f (k + 2)))
        rw [sub_neg_eq_add, add_comm (e (k + 2)), ← hf (k + 2), abs_neg] at this
        linarith
      have hhi : |f (k + 2 + 1)| ≤ 3 / 2 * |e (k + 2)| := by
        rw [hf (k + 2)]
        have := abs_add_le (a * f (k + 2)) (e (k + 2))
        linarith
      have hB : |b (k + 2)| ≤ |b (k + 2 + 1)| := by
        have : |q| * e (k + 2) ^ 2 / 2 ≤ |q| * (|e (k + 2)| * |f (k + 2 + 1)|) := by
          rw [← sq_abs, sq, mul_div_assoc, mul_div_assoc]
          exact mul_le_mul_of_nonneg_left (mul_le_mul_of_nonneg_left hlo (abs_nonneg _)) (abs_nonneg _)
        nlinarith [abs_nonneg (b (k + 2))]
      refine ⟨?_, by linarith, ?_⟩
      · rw [he (k + 2), mul_pow, ← sq_abs (b (k + 2))]
        have : 1 ≤ |b (k + 2)| ^ 2 := by nlinarith
        nlinarith [mul_nonneg (abs_nonneg q) (sq_nonneg (e (k + 2)))]
      · rw [he (k + 2), abs_mul]
        nlinarith [abs_nonneg (e (k + 2)), abs_nonneg (f (k + 2 + 1))]
  refine tendsto_of_doubling (m := 2) ?_ fun k hk => ?_
  · rcases eq_or_ne (e 2) 0 with h | h
    · have := (inv 0).1
      simp [h] at this
      linarith
    · exact abs_pos.2 h
  · obtain ⟨j, rfl⟩ : ∃ j, k = j + 2 := ⟨k - 2, by omega⟩
    rw [he (j + 2), abs_mul]
    exact mul_le_mul_of_nonneg_right (by nlinarith [(inv j).2.1]) (abs_nonneg _)

/-- `C t >= D` for all large errors -/
theorem large_sq {C : ℝ} (hC : 0 < C) (D : ℝ) : ∀ᶠ t : ℝ in Filter.atTop, D ≤ C * t ^ 2 := by
  have h := ((Filter.tendsto_pow_atTop (α := ℝ) (n := 2) (by norm_num)).const_mul_atTop hC)
  exact h.eventually_ge_atTop D

theorem ang_large (q a b0 : ℝ) (hq : q ≠ 0) (hb0 : b0 ≠ 0) : ∃ E : ℝ, ∀ e b f : ℕ → ℝ, b 0 = b0 → f 0 = 0 → E ≤ |e 0| →
    (∀ k, e (k + 1) = b k * e k) → (∀ k, b (k + 1) = b k * (1 - q * (e k * f (k + 1)))) → (∀ k, f (k + 1) = a * f k + e k) →
    Filter.Tendsto (fun k => |e k|) Filter.atTop Filter.atTop := by
  have hq' := abs_pos.2 hq
  have hb' := abs_pos.2 hb0
  set A := max 1 |a| with hA
  have hA1 : 1 ≤ A := le_max_left _ _
  have hev := (large_sq (mul_pos hb' hq') (3 * A + |b0|)).and ((large_sq (mul_pos (mul_pos hb' hb') hq') (2 * A * |a + b0| + |b0| * |b0|)).and
    ((large_sq (mul_pos hq' (mul_pos hb' hb')) 4).and (show ∀ᶠ t : ℝ in Filter.atTop, 1 ≤ |1 - q * (b0 * (a + b0)) * t ^ 2| from by
      rcases eq_or_ne (a + b0) 0 with h | h
      · simp [h]
      · filter_upwards [large_sq (mul_pos hq' (mul_pos hb' (abs_pos.2 h))) 2] with t ht
        have := abs_one_sub_ge (q * (b0 * (a + b0)) * t ^ 2)
        rw [abs_mul, abs_mul, abs_mul, abs_of_nonneg (sq_nonneg t)] at this
        linarith)))
  obtain ⟨E, hE⟩ := Filter.eventually_atTop.1 hev
  refine ⟨E, fun e b f hb_0 hf0 h0 he hb hf => ?_⟩
  obtain ⟨c1, c2, c3, c4⟩ := hE _ h0
  rw [sq_abs] at c1 c2 c3 c4
  have hf1 : f 1 = e 0 := by rw [hf 0, hf0]; ring
  have he1 : e 1 = b0 * e 0 := by rw [he 0, hb_0]
  have hb1 : b 1 = b0 * (1 - q * e 0 ^ 2) := by rw [hb 0, hb_0, zero_add, hf1]; ring
  have hf2 : f 2 = (a + b0) * e 0 := by rw [hf 1, hf1, he1]; ring
  have he2 : e 2 = b 1 * (b0 * e 0) := by rw [he 1, he1]
  have hb2 : b 2 = b 1 * (1 - q * (b0 * (a + b0)) * e 0 ^ 2) := by rw [hb 1, he1, hf2]; ring
  have hB1 : |b0| * (|q| * e 0 ^ 2 - 1) ≤ |b 1| := by
    rw [hb1, abs_mul]
    refine mul_le_mul_of_nonneg_left ?_ (abs_nonneg _)
    have := abs_one_sub_ge (q * e 0 ^ 2)
    rwa [abs_mul, abs_of_nonneg (sq_nonneg (e 0))] at this
  have hB1' : 3 * A ≤ |b 1| := by nlinarith
  refine ang_seq hA1 (le_max_right _ _) he hb hf ?_ ?_ ?_
  · rw [he2, mul_pow, mul_pow, ← sq_abs (b 1), ← sq_abs b0]
    have : 1 ≤ |b 1| ^ 2 := by nlinarith
    nlinarith [mul_nonneg (abs_nonneg q) (mul_nonneg (sq_nonneg |b0|) (sq_nonneg (e 0)))]
  · rw [hb2, abs_mul]
    nlinarith [abs_nonneg (b 1)]
  · rw [hf2, he2, abs_mul, abs_mul, abs_mul]
    have : 2 * A * |a + b0| ≤ |b 1| * |b0| := by nlinarith
    nlinarith [abs_nonneg (e 0)]

end seq

section runs

variable {n : ℕ} {S : Type}

/-- what a repeated sample makes of the error -/
theorem repeat_err {v w w' : Vec ℝ n} {c m e e' : ℝ} (he : e = c - ∑ i, w i * v i) (hw : ∀ i, w' i = w i + m * e * v i)
    (he' : e' = c - ∑ i, w' i * v i) : e' = (1 - m * ∑ i, v i ^ 2) * e := by
  have : ∑ i, w' i * v i = ∑ i, w i * v i + m * e * ∑ i, v i ^ 2 := by
    rw [mul_sum, ← sum_add_distrib]
    exact sum_congr rfl fun i _ => by rw [hw]; ring
  rw [he', this, he]; ring

/-- what the user can say about VSLMS_Mathews on one repeated sample -/
theorem mathews_repeat (o : Obj (mathews ℝ n)) {S : ℕ → Core ℝ n (MathewsExt ℝ n)} {y e : ℕ → ℝ} {c : ℝ} {v : Vec ℝ n}
    (h : Runs (mathews ℝ n) o (fun _ => c) (fun _ => v) y e S) :
    (∀ k, e (k + 1) = (1 - (S (k + 1)).ext.lastMu * ∑ i, v i ^ 2) * e k) ∧
    (∀ k, 1 - (S (k + 1 + 1)).ext.lastMu * (∑ i, v i ^ 2)
      = (1 - (S (k + 1)).ext.lastMu * ∑ i, v i ^ 2) * (1 - o.core.ext.ro * (∑ i, v i ^ 2) ^ 2 * e k ^ 2)) ∧
    e 0 = c - ∑ i, o.core.w i * v i ∧ (o.core.ext.lastE = 0 → (S 1).ext.lastMu = o.core.ext.lastMu) := by
  obtain ⟨hw0, hm0, hk⟩ := C16_mathews o h
  have h1 : ∀ k, e (k + 1) = (1 - (S (k + 1)).ext.lastMu * ∑ i, v i ^ 2) * e k := fun k =>
    repeat_err (by rw [← (hk k).1]; exact (hk k).2.1) (hk k).2.2.2 (by rw [← (hk (k + 1)).1]; exact (hk (k + 1)).2.1)
  refine ⟨h1, fun k => ?_, by rw [(hk 0).2.1, (hk 0).1, hw0], fun h0 => ?_⟩
  · rw [(hk (k + 1)).2.2.1]
    simp only [prev]
    rw [h1 k, show ∑ i, v i * v i = ∑ i, v i ^ 2 from sum_congr rfl fun i _ => (sq _).symm]
    ring
  · rw [(hk 0).2.2.1, hm0]
    simp [prev, h0]

theorem ang_repeat (o : Obj (ang ℝ n)) {S : ℕ → Core ℝ n (AngExt ℝ n)} {y e : ℕ → ℝ} {c : ℝ} {v : Vec ℝ n}
    (h : Runs (ang ℝ n) o (fun _ => c) (fun _ => v) y e S) (hv : 0 < ∑ i, v i ^ 2) :
    ∃ f : ℕ → ℝ, (∀ k, e (k + 1) = (1 - (S (k + 1)).ext.lastMu * ∑ i, v i ^ 2) * e k) ∧
    (∀ k, 1 - (S (k + 1 + 1)).ext.lastMu * (∑ i, v i ^ 2)
      = (1 - (S (k + 1)).ext.lastMu * ∑ i, v i ^ 2) * (1 - o.core.ext.ro * (∑ i, v i ^ 2) ^ 2 * (e k * f (k + 1)))) ∧
    (∀ k, f (k + 1) = o.core.ext.a * f k + e k) ∧
    e 0 = c - ∑ i, o.core.w i * v i ∧ (o.core.ext.lastE = 0 → o.core.ext.lastX = (fun _ => 0) → o.core.ext.lastFi = (fun _ => 0) →
      (S 1).ext.lastMu = o.core.ext.lastMu ∧ f 0 = 0) := by
  obtain ⟨hw0, hm0, hf0, hk⟩ := C16_ang o h
  have h1 : ∀ k, e (k + 1) = (1 - (S (k + 1)).ext.lastMu * ∑ i, v i ^ 2) * e k := fun k =>
    repeat_err (by rw [← (hk k).1]; exact (hk k).2.1) (hk k).2.2.2.2 (by rw [← (hk (k + 1)).1]; exact (hk (k + 1)).2.1)
  refine ⟨fun k => (∑ i, v i * (S (k + 1)).ext.lastFi i) / ∑ i, v i ^ 2, h1, fun k => ?_, fun k => ?_,
    by rw [(hk 0).2.1, (hk 0).1, hw0], fun a1 a2 a3 => ⟨?_, ?_⟩⟩
  · rw [(hk (k + 1)).2.2.2.1, h1 k]
    simp only [prev]
    field_simp
    ring
  · beta_reduce
    rw [show ∑ i, v i * (S (k + 1 + 1)).ext.lastFi i = o.core.ext.a * (∑ i, v i * (S (k + 1)).ext.lastFi i) + e k * ∑ i, v i ^ 2 from by
      rw [mul_sum, mul_sum, ← sum_add_distrib]
      refine sum_congr rfl fun i _ => ?_
      rw [(hk (k + 1)).2.2.1 i]
      simp only [prev]
      ring]
    field_simp
  · rw [(hk 0).2.2.2.1, hm0]
    simp [prev, a2]
  · have : ∀ i, (S 1).ext.lastFi i = 0 := fun i => by rw [(hk 0).2.2.1 i, hf0]; simp [prev, a1, a3]
    simp [this]

theorem benveniste_repeat (o : Obj (benveniste ℝ n)) {S : ℕ → Core ℝ n (BenExt ℝ n)} {y e : ℕ → ℝ} {c : ℝ} {v : Vec ℝ n}
    (h : Runs (benveniste ℝ n) o (fun _ => c) (fun _ => v) y e S) (hv : 0 < ∑ i, v i ^ 2) :
    ∃ f : ℕ → ℝ, (∀ k, e (k + 1) = (1 - (S (k + 1)).ext.lastMu * ∑ i, v i ^ 2) * e k) ∧
    (∀ k, 1 - (S (k + 1 + 1)).ext.lastMu * (∑ i, v i ^ 2)
      = (1 - (S (k + 1)).ext.lastMu * ∑ i, v i ^ 2) * (1 - o.core.ext.ro * (∑ i, v i ^ 2) ^ 2 * (e k * f (k + 1)))) ∧
    (∀ k, f (k + 1) = (1 - (S (k + 1)).ext.lastMu * ∑ i, v i ^ 2) * f k + e k) ∧
    e 0 = c - ∑ i, o.core.w i * v i ∧ (o.core.ext.lastE = 0 → o.core.ext.lastX = (fun _ => 0) → o.core.ext.lastFi = (fun _ => 0) →
      (S 1).ext.lastMu = o.core.ext.lastMu ∧ f 0 = 0) := by
  obtain ⟨hw0, hm0, hf0, hk⟩ := C16_benveniste o h
  have h1 : ∀ k, e (k + 1) = (1 - (S (k + 1)).ext.lastMu * ∑ i, v i ^ 2) * e k := fun k =>
    repeat_err (by rw [← (hk k).1]; exact (hk k).2.1) (hk k).2.2.2.2 (by rw [← (hk (k + 1)).1]; exact (hk (k + 1)).2.1)
  refine ⟨fun k => (∑ i, v i * (S (k + 1)).ext.lastFi i) / ∑ i, v i ^ 2, h1, fun k => ?_, fun k => ?_,
    by rw [(hk 0).2.1, (hk 0).1, hw0], fun a1 a2 a3 => ⟨?_, ?_⟩⟩
  · rw [(hk (k + 1)).2.2.2.1, h1 k]
    simp only [prev]
    field_simp
    ring
  · beta_reduce
    rw [show ∑ i, v i * (S (k + 1 + 1)).ext.lastFi i = (∑ i, v i * (S (k + 1)).ext.lastFi i)
        - (S (k + 1)).ext.lastMu * (∑ i, v i * (S (k + 1)).ext.lastFi i) * (∑ i, v i ^ 2) + e k * ∑ i, v i ^ 2 from by
      rw [mul_sum univ _ ((S (k + 1)).ext.lastMu * ∑ i, v i * (S (k + 1)).ext.lastFi i), mul_sum univ _ (e k), ← sum_sub_distrib, ← sum_add_distrib]
      refine sum_congr rfl fun i _ => ?_
      rw [(hk (k + 1)).2.2.1 i]
      simp only [prev]
      ring]
    field_simp
  · rw [(hk 0).2.2.2.1, hm0]
    simp [prev, a2]
  · have : ∀ i, (S 1).ext.lastFi i = 0 := fun i => by rw [(hk 0).2.2.1 i, hf0]; simp [prev, a1, a2, a3]
    simp [this]

/-- C119: VSLMS_Mathews with an explicit threshold. `s = |v|^2`; `o` is fresh (its remembered error is 0); `b = 1 - mu s` is what its first
step leaves of the first error `e0`. -/
theorem C119_mathews_explodes (o : Obj (mathews ℝ n)) {S : ℕ → Core ℝ n (MathewsExt ℝ n)} {y e : ℕ → ℝ} {c : ℝ} {v : Vec ℝ n}
    (h : Runs (mathews ℝ n) o (fun _ => c) (fun _ => v) y e S) (hfresh : o.core.ext.lastE = 0)
    {s b e0 : ℝ} (hs : s = ∑ i, v i ^ 2) (hb : b = 1 - o.core.ext.lastMu * s) (he0 : e0 = c - ∑ i, o.core.w i * v i)
    (h1 : 3 ≤ |o.core.ext.ro| * s ^ 2 * (b * e0) ^ 2) (h2 : 2 ≤ |b| * (|o.core.ext.ro| * s ^ 2 * e0 ^ 2 - 1)) :
    Filter.Tendsto (fun k => |e k|) Filter.atTop Filter.atTop := by
  obtain ⟨r1, r2, r3, r4⟩ := mathews_repeat o h
  rw [← hs] at r1 r2
  refine mathews_seq (b := fun k => 1 - (S (k + 1)).ext.lastMu * s) (q := o.core.ext.ro * s ^ 2) r1 r2 ?_ ?_
  all_goals simp only [zero_add]; rw [r3, r4 hfresh, ← he0, ← hb, abs_mul, abs_of_nonneg (sq_nonneg s)]; assumption

/-- C119: VSLMS_Benveniste, the same threshold. -/
theorem C119_benveniste_explodes (o : Obj (benveniste ℝ n)) {S : ℕ → Core ℝ n (BenExt ℝ n)} {y e : ℕ → ℝ} {c : ℝ} {v : Vec ℝ n}
    (h : Runs (benveniste ℝ n) o (fun _ => c) (fun _ => v) y e S)
    (hfresh : o.core.ext.lastE = 0 ∧ o.core.ext.lastX = (fun _ => 0) ∧ o.core.ext.lastFi = (fun _ => 0))
    {s b e0 : ℝ} (hv : 0 < s) (hs : s = ∑ i, v i ^ 2) (hb : b = 1 - o.core.ext.lastMu * s) (he0 : e0 = c - ∑ i, o.core.w i * v i)
    (h1 : 3 ≤ |o.core.ext.ro| * s ^ 2 * (b * e0) ^ 2) (h2 : 2 ≤ |b| * (|o.core.ext.ro| * s ^ 2 * e0 ^ 2 - 1))
    (h3 : 3 ≤ |o.core.ext.ro| * s ^ 2 * e0 ^ 2) :
    Filter.Tendsto (fun k => |e k|) Filter.atTop Filter.atTop := by
  obtain ⟨f, r1, r2, r5, r3, r4⟩ := benveniste_repeat o h (hs ▸ hv)
  rw [← hs] at r1 r2 r5
  obtain ⟨m0, f0⟩ := r4 hfresh.1 hfresh.2.1 hfresh.2.2
  have hb0 : 1 - (S (0 + 1)).ext.lastMu * s = b := by rw [hb, ← m0]
  have hq : |o.core.ext.ro * s ^ 2| = |o.core.ext.ro| * s ^ 2 := by rw [abs_mul, abs_of_nonneg (sq_nonneg s)]
  refine ben_seq (b := fun k => 1 - (S (k + 1)).ext.lastMu * s) (q := o.core.ext.ro * s ^ 2) r1 r2 r5 f0 ?_ ?_ ?_
  · rw [hb0, r3, ← he0, hq]; exact h1
  · rw [hb0, r3, ← he0, hq]; exact h2
  · rw [r3, ← he0, hq]; exact h3

theorem threshold {q b : ℝ} (hq : q ≠ 0) (hb : b ≠ 0) :
    ∃ E : ℝ, ∀ e0, E ≤ |e0| → 3 ≤ |q| * (b * e0) ^ 2 ∧ 2 ≤ |b| * (|q| * e0 ^ 2 - 1) ∧ 3 ≤ |q| * e0 ^ 2 := by
  have hq' := abs_pos.2 hq
  have hb' := abs_pos.2 hb
  obtain ⟨E, hE⟩ := Filter.eventually_atTop.1 ((large_sq (mul_pos hq' (mul_pos hb' hb')) 3).and
    ((large_sq (mul_pos hb' hq') (2 + |b|)).and (large_sq hq' 3)))
  refine ⟨E, fun e0 h0 => ?_⟩
  obtain ⟨c1, c2, c3⟩ := hE _ h0
  rw [sq_abs] at c1 c2 c3
  refine ⟨?_, by linarith, c3⟩
  rw [mul_pow, ← sq_abs b]; linarith

/-- C119: no parameters are safe for VSLMS_Mathews: for every fresh filter with `ro ≠ 0` and every input `v ≠ 0` (except the one length for
which the first step hits the target exactly) all targets far enough from the first output make the error tend to infinity. -/
theorem C119_mathews (o : Obj (mathews ℝ n)) (v : Vec ℝ n) (hv : 0 < ∑ i, v i ^ 2) (hro : o.core.ext.ro ≠ 0)
    (hmu : o.core.ext.lastMu * ∑ i, v i ^ 2 ≠ 1) (hfresh : o.core.ext.lastE = 0) :
    ∃ E : ℝ, ∀ c, E ≤ |c - ∑ i, o.core.w i * v i| → ∀ (S : ℕ → Core ℝ n (MathewsExt ℝ n)) (y e : ℕ → ℝ),
      Runs (mathews ℝ n) o (fun _ => c) (fun _ => v) y e S → Filter.Tendsto (fun k => |e k|) Filter.atTop Filter.atTop := by
  obtain ⟨E, hE⟩ := threshold (q := o.core.ext.ro * (∑ i, v i ^ 2) ^ 2) (b := 1 - o.core.ext.lastMu * ∑ i, v i ^ 2)
    (mul_ne_zero hro (pow_ne_zero _ hv.ne')) (sub_ne_zero.2 (Ne.symm hmu))
  refine ⟨E, fun c hc S y e h => ?_⟩
  obtain ⟨c1, c2, c3⟩ := hE _ hc
  rw [abs_mul, abs_of_nonneg (sq_nonneg (∑ i, v i ^ 2))] at c1 c2 c3
  exact C119_mathews_explodes o h hfresh rfl rfl rfl c1 c2

/-- C119: VSLMS_Benveniste. -/
theorem C119_benveniste (o : Obj (benveniste ℝ n)) (v : Vec ℝ n) (hv : 0 < ∑ i, v i ^ 2) (hro : o.core.ext.ro ≠ 0)
    (hmu : o.core.ext.lastMu * ∑ i, v i ^ 2 ≠ 1)
    (hfresh : o.core.ext.lastE = 0 ∧ o.core.ext.lastX = (fun _ => 0) ∧ o.core.ext.lastFi = (fun _ => 0)) :
    ∃ E : ℝ, ∀ c, E ≤ |c - ∑ i, o.core.w i * v i| → ∀ (S : ℕ → Core ℝ n (BenExt ℝ n)) (y e : ℕ → ℝ),
      Runs (benveniste ℝ n) o (fun _ => c) (fun _ => v) y e S → Filter.Tendsto (fun k => |e k|) Filter.atTop Filter.atTop := by
  obtain ⟨E, hE⟩ := threshold (q := o.core.ext.ro * (∑ i, v i ^ 2) ^ 2) (b := 1 - o.core.ext.lastMu * ∑ i, v i ^ 2)
    (mul_ne_zero hro (pow_ne_zero _ hv.ne')) (sub_ne_zero.2 (Ne.symm hmu))
  refine ⟨E, fun c hc S y e h => ?_⟩
  obtain ⟨c1, c2, c3⟩ := hE _ hc
  rw [abs_mul, abs_of_nonneg (sq_nonneg (∑ i, v i ^ 2))] at c1 c2 c3
  exact C119_benveniste_explodes o h hfresh hv rfl rfl rfl c1 c2 c3

/-- C119: VSLMS_Ang, for every value of its parameter `a`. -/
theorem C119_ang (o : Obj (ang ℝ n)) (v : Vec ℝ n) (hv : 0 < ∑ i, v i ^ 2) (hro : o.core.ext.ro ≠ 0)
    (hmu : o.core.ext.lastMu * ∑ i, v i ^ 2 ≠ 1)
    (hfresh : o.core.ext.lastE = 0 ∧ o.core.ext.lastX = (fun _ => 0) ∧ o.core.ext.lastFi = (fun _ => 0)) :
    ∃ E : ℝ, ∀ c, E ≤ |c - ∑ i, o.core.w i * v i| → ∀ (S : ℕ → Core ℝ n (AngExt ℝ n)) (y e : ℕ → ℝ),
      Runs (ang ℝ n) o (fun _ => c) (fun _ => v) y e S → Filter.Tendsto (fun k => |e k|) Filter.atTop Filter.atTop := by
  obtain ⟨E, hE⟩ := ang_large (o.core.ext.ro * (∑ i, v i ^ 2) ^ 2) o.core.ext.a (1 - o.core.ext.lastMu * ∑ i, v i ^ 2)
    (mul_ne_zero hro (pow_ne_zero _ hv.ne')) (sub_ne_zero.2 (Ne.symm hmu))
  refine ⟨E, fun c hc S y e h => ?_⟩
  obtain ⟨f, r1, r2, r5, r3, r4⟩ := ang_repeat o h hv
  obtain ⟨m0, f0⟩ := r4 hfresh.1 hfresh.2.1 hfresh.2.2
  rw [← r3] at hc
  exact hE e (fun k => 1 - (S (k + 1)).ext.lastMu * ∑ i, v i ^ 2) f (by simp only [zero_add]; rw [m0]) f0 hc r1 r2 r5

/-- C119: near the target VSLMS_Mathews is at least as fast as LMS: with `ro >= 0`, `|1 - mu s| < 1` and `ro s^2 e0^2 <= 2` the errors are
bounded by `|1 - mu s|^k |e0|`, so they tend to 0. -/
theorem C119_mathews_learns (o : Obj (mathews ℝ n)) {S : ℕ → Core ℝ n (MathewsExt ℝ n)} {y e : ℕ → ℝ} {c : ℝ} {v : Vec ℝ n}
    (h : Runs (mathews ℝ n) o (fun _ => c) (fun _ => v) y e S) (hfresh : o.core.ext.lastE = 0) (hro : 0 ≤ o.core.ext.ro)
    {s b e0 : ℝ} (hs : s = ∑ i, v i ^ 2) (hb : b = 1 - o.core.ext.lastMu * s) (he0 : e0 = c - ∑ i, o.core.w i * v i)
    (h1 : |b| < 1) (h2 : o.core.ext.ro * s ^ 2 * e0 ^ 2 ≤ 2) :
    (∀ k, |e k| ≤ |b| ^ k * |e0|) ∧ Filter.Tendsto e Filter.atTop (nhds 0) := by
  obtain ⟨r1, r2, r3, r4⟩ := mathews_repeat o h
  rw [← hs] at r1 r2
  rw [← he0] at r3
  have hq : 0 ≤ o.core.ext.ro * s ^ 2 := by positivity
  have inv : ∀ k, |e k| ≤ |b| ^ k * |e0| ∧ |1 - (S (k + 1)).ext.lastMu * s| ≤ |b| := by
    intro k
    induction k with
    | zero =>
      refine ⟨by rw [r3]; simp, ?_⟩
      rw [zero_add, r4 hfresh, ← hb]
    | succ k ih =>
      obtain ⟨i1, i2⟩ := ih
      have hle : |e k| ≤ |e0| := i1.trans (mul_le_of_le_one_left (abs_nonneg _) (pow_le_one₀ (abs_nonneg _) h1.le))
      refine ⟨?_, ?_⟩
      · rw [r1 k, abs_mul, pow_succ]
        calc _ ≤ |b| * (|b| ^ k * |e0|) := mul_le_mul i2 i1 (abs_nonneg _) (abs_nonneg _)
          _ = _ := by ring
      · rw [r2 k, abs_mul]
        refine (mul_le_of_le_one_right (abs_nonneg _) ?_).trans i2
        have h3 : e k ^ 2 ≤ e0 ^ 2 := sq_le_sq.2 hle
        have h4 : o.core.ext.ro * s ^ 2 * e k ^ 2 ≤ 2 := (mul_le_mul_of_nonneg_left h3 hq).trans h2
        have h5 : 0 ≤ o.core.ext.ro * s ^ 2 * e k ^ 2 := mul_nonneg hq (sq_nonneg _)
        rw [abs_le]
        constructor <;> linarith
  refine ⟨fun k => (inv k).1, ?_⟩
  have h6 : Filter.Tendsto (fun k => |b| ^ k * |e0|) Filter.atTop (nhds 0) := by
    simpa using (tendsto_pow_atTop_nhds_zero_of_lt_one (abs_nonneg b) h1).mul_const |e0|
  exact squeeze_zero_norm (fun k => by rw [Real.norm_eq_abs]; exact (inv k).1) h6

/-- C119: the step size of VSLMS_Mathews becomes negative after two samples when `mu s > 1`, `ro > 0` and the first error is large. -/
theorem C119_mathews_negative_step (o : Obj (mathews ℝ n)) {S : ℕ → Core ℝ n (MathewsExt ℝ n)} {y e : ℕ → ℝ} {c : ℝ} {v : Vec ℝ n}
    (h : Runs (mathews ℝ n) o (fun _ => c) (fun _ => v) y e S) (hfresh : o.core.ext.lastE = 0)
    {s e0 : ℝ} (hs : s = ∑ i, v i ^ 2) (he0 : e0 = c - ∑ i, o.core.w i * v i) :
    (S 2).ext.lastMu = o.core.ext.lastMu - o.core.ext.ro * s * (o.core.ext.lastMu * s - 1) * e0 ^ 2 ∧
    (o.core.ext.lastMu < o.core.ext.ro * s * (o.core.ext.lastMu * s - 1) * e0 ^ 2 → (S 2).ext.lastMu < 0) := by
  obtain ⟨-, -, hk⟩ := C16_mathews o h
  obtain ⟨r1, r2, r3, r4⟩ := mathews_repeat o h
  have key : (S 2).ext.lastMu = o.core.ext.lastMu - o.core.ext.ro * s * (o.core.ext.lastMu * s - 1) * e0 ^ 2 := by
    rw [(hk 1).2.2.1, r4 hfresh, r1 0]
    simp only [prev, zero_add]
    rw [r3, r4 hfresh, ← he0, show ∑ i, v i * v i = s from by rw [hs]; exact sum_congr rfl fun i _ => (sq _).symm, ← hs]
    ring
  exact ⟨key, fun hlt => by rw [key]; linarith⟩

/-- the hypotheses of the C119 theorems are met, with the default parameters `mu = 1`, `ro = 0.1` (Ang: `ro = 0.0002`, `a = 0.95`): the same fresh filter
explodes on the target 100 -/
example : ∃ (o : Obj (mathews ℝ 2)) (v : Vec ℝ 2) (y e : ℕ → ℝ) (S : ℕ → Core ℝ 2 (MathewsExt ℝ 2)),
    Runs (mathews ℝ 2) o (fun _ => 100) (fun _ => v) y e S ∧ o.core.ext.lastE = 0 ∧
    3 ≤ |o.core.ext.ro| * (∑ i, v i ^ 2) ^ 2 * ((1 - o.core.ext.lastMu * ∑ i, v i ^ 2) * (100 - ∑ i, o.core.w i * v i)) ^ 2 ∧
    2 ≤ |1 - o.core.ext.lastMu * ∑ i, v i ^ 2| * (|o.core.ext.ro| * (∑ i, v i ^ 2) ^ 2 * (100 - ∑ i, o.core.w i * v i) ^ 2 - 1) := by
  refine ⟨⟨⟨fun _ => 0, 2, 1, (⟨1 / 10, 0, fun _ => 0, 1⟩ : MathewsExt ℝ 2)⟩, []⟩, fun _ => 1, _, _, _,
    runs_of_safe mathews_safe _ trivial _ _, rfl, ?_, ?_⟩ <;> norm_num

/-- and learns the target 1 (from `mu = 1/4`) -/
example : ∃ (o : Obj (mathews ℝ 2)) (v : Vec ℝ 2) (y e : ℕ → ℝ) (S : ℕ → Core ℝ 2 (MathewsExt ℝ 2)),
    Runs (mathews ℝ 2) o (fun _ => 1) (fun _ => v) y e S ∧ o.core.ext.lastE = 0 ∧ 0 ≤ o.core.ext.ro ∧
    |1 - o.core.ext.lastMu * ∑ i, v i ^ 2| < 1 ∧ o.core.ext.ro * (∑ i, v i ^ 2) ^ 2 * (1 - ∑ i, o.core.w i * v i) ^ 2 ≤ 2 := by
  refine ⟨⟨⟨fun _ => 0, 2, 1 / 4, (⟨1 / 10, 0, fun _ => 0, 1 / 4⟩ : MathewsExt ℝ 2)⟩, []⟩, fun _ => 1, _, _, _,
    runs_of_safe mathews_safe _ trivial _ _, rfl, ?_, ?_, ?_⟩ <;> norm_num [abs_lt]

example : ∃ (o : Obj (benveniste ℝ 2)) (v : Vec ℝ 2) (y e : ℕ → ℝ) (S : ℕ → Core ℝ 2 (BenExt ℝ 2)),
    Runs (benveniste ℝ 2) o (fun _ => 100) (fun _ => v) y e S ∧
    (o.core.ext.lastE = 0 ∧ o.core.ext.lastX = (fun _ => 0) ∧ o.core.ext.lastFi = (fun _ => 0)) ∧ 0 < ∑ i, v i ^ 2 ∧
    o.core.ext.ro ≠ 0 ∧ o.core.ext.lastMu * ∑ i, v i ^ 2 ≠ 1 ∧
    3 ≤ |o.core.ext.ro| * (∑ i, v i ^ 2) ^ 2 * ((1 - o.core.ext.lastMu * ∑ i, v i ^ 2) * (100 - ∑ i, o.core.w i * v i)) ^ 2 ∧
    2 ≤ |1 - o.core.ext.lastMu * ∑ i, v i ^ 2| * (|o.core.ext.ro| * (∑ i, v i ^ 2) ^ 2 * (100 - ∑ i, o.core.w i * v i) ^ 2 - 1) ∧
    3 ≤ |o.core.ext.ro| * (∑ i, v i ^ 2) ^ 2 * (100 - ∑ i, o.core.w i * v i) ^ 2 := by
  refine ⟨⟨⟨fun _ => 0, 2, 1, (⟨1 / 10, 0, fun _ => 0, fun _ => 0, 1⟩ : BenExt ℝ 2)⟩, []⟩, fun _ => 1, _, _, _,
    runs_of_safe benveniste_safe _ trivial _ _, ⟨rfl, rfl, rfl⟩, ?_, ?_, ?_, ?_, ?_, ?_⟩ <;> norm_num

example : ∃ (o : Obj (ang ℝ 2)) (v : Vec ℝ 2), (∀ c, ∃ y e S, Runs (ang ℝ 2) o (fun _ => c) (fun _ => v) y e S) ∧
    (o.core.ext.lastE = 0 ∧ o.core.ext.lastX = (fun _ => 0) ∧ o.core.ext.lastFi = (fun _ => 0)) ∧ 0 < ∑ i, v i ^ 2 ∧
    o.core.ext.ro ≠ 0 ∧ o.core.ext.lastMu * ∑ i, v i ^ 2 ≠ 1 := by
  refine ⟨⟨⟨fun _ => 0, 2, 1, (⟨1 / 5000, 95 / 100, 0, fun _ => 0, fun _ => 0, 1⟩ : AngExt ℝ 2)⟩, []⟩, fun _ => 1,
    fun c => ⟨_, _, _, runs_of_safe ang_safe _ trivial _ _⟩, ⟨rfl, rfl, rfl⟩, ?_, ?_, ?_⟩ <;> norm_num

end runs

end Padasip
