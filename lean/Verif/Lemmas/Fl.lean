import Verif.Model.Fl
import Verif.Model.Filters

/-!
# Calculus of rounding errors

`Acc u k a b B`: the computed number `a` differs from the exact `b` by at most `((1-u)^-k - 1) B`, where `B >= |b|`; `k` counts roundings.
-/

set_option linter.unusedSectionVars false
set_option linter.unusedVariables false

namespace Padasip

open Finset

/-- `(1-u)^-k` -/
noncomputable def phi (u : ℝ) (k : ℕ) : ℝ := ((1 - u) ^ k)⁻¹

/-- the usual constant `gamma_k = k u / (1 - k u)` of rounding-error analysis -/
noncomputable def gamma (u : ℝ) (k : ℕ) : ℝ := k * u / (1 - k * u)

variable {u : ℝ}

theorem phi_zero : phi u 0 = 1 := by simp [phi]

theorem phi_add (k l : ℕ) : phi u (k + l) = phi u k * phi u l := by simp [phi, pow_add, mul_comm]

theorem one_le_phi (h0 : 0 ≤ u) (h1 : u < 1) (k : ℕ) : 1 ≤ phi u k := by
  refine (one_le_inv₀ (pow_pos (by linarith) k)).mpr (pow_le_one₀ (by linarith) (by linarith))

theorem phi_mono (h0 : 0 ≤ u) (h1 : u < 1) {k l : ℕ} (h : k ≤ l) : phi u k ≤ phi u l := by
  obtain ⟨m, rfl⟩ := Nat.exists_eq_add_of_le h
  rw [phi_add]
  exact le_mul_of_one_le_right (by linarith [one_le_phi h0 h1 k]) (one_le_phi h0 h1 m)

theorem one_add_le_phi (h0 : 0 ≤ u) (h1 : u < 1) : 1 + u ≤ phi u 1 := by
  rw [phi, pow_one, ← one_div, le_div_iff₀ (by linarith)]
  nlinarith

theorem phi_sub_one_le_gamma (h0 : 0 ≤ u) (h1 : u < 1) (k : ℕ) (hk : k * u < 1) : phi u k - 1 ≤ gamma u k := by
  have h2 : 1 - k * u ≤ (1 - u) ^ k := by
    have := one_add_mul_le_pow (a := -u) (by linarith) k
    have h3 : (1 + -u) = 1 - u := by ring
    rw [h3] at this
    linarith
  have h3 : 0 < 1 - k * u := by linarith
  have h4 : phi u k ≤ (1 - k * u)⁻¹ := inv_anti₀ h3 h2
  have h5 : (1 - k * u)⁻¹ - 1 = gamma u k := by unfold gamma; field_simp; ring
  linarith

/-! ## absolute errors -/

/-- the computed `a` approximates `b`, whose sum of absolute values is `B`, after `k` roundings -/
def Acc (u : ℝ) (k : ℕ) (a b B : ℝ) : Prop := |a - b| ≤ (phi u k - 1) * B ∧ |b| ≤ B

section
variable (h0 : 0 ≤ u) (h1 : u < 1) {k l : ℕ} {a b c d B C : ℝ}
include h0 h1

theorem Acc.nonneg (h : Acc u k a b B) : 0 ≤ B := le_trans (abs_nonneg _) h.2

theorem Acc.abs_le (h : Acc u k a b B) : |a| ≤ phi u k * B := by
  have : |a| ≤ |a - b| + |b| := by simpa using abs_add_le (a - b) b
  have := h.1; have := h.2
  linarith

theorem acc_exact (a : ℝ) : Acc u 0 a a |a| := by simp [Acc, phi_zero]

theorem Acc.mono (h : Acc u k a b B) (hkl : k ≤ l) : Acc u l a b B :=
  ⟨h.1.trans (mul_le_mul_of_nonneg_right (by linarith [phi_mono h0 h1 hkl]) (h.nonneg h0 h1)), h.2⟩

theorem Acc.weaken (h : Acc u k a b B) (hB : B ≤ C) : Acc u k a b C :=
  ⟨h.1.trans (mul_le_mul_of_nonneg_left hB (by linarith [one_le_phi h0 h1 k])), h.2.trans hB⟩

/-- one more rounding -/
theorem Acc.round (h : Acc u k a b B) (hc : |c - a| ≤ u * |a|) : Acc u (k + 1) c b B := by
  refine ⟨?_, h.2⟩
  have h2 := h.abs_le h0 h1
  have h3 : |c - b| ≤ |c - a| + |a - b| := by simpa using abs_add_le (c - a) (a - b)
  have h4 := mul_le_mul_of_nonneg_left h2 h0
  have h5 := h.1
  have hB := h.nonneg h0 h1
  have h6 : phi u k * (1 + u) * B ≤ phi u (k + 1) * B := by
    rw [phi_add]
    exact mul_le_mul_of_nonneg_right (mul_le_mul_of_nonneg_left (one_add_le_phi h0 h1) (by linarith [one_le_phi h0 h1 k])) hB
  nlinarith

theorem Acc.add (h : Acc u k a b B) (h' : Acc u k c d C) : Acc u k (a + c) (b + d) (B + C) := by
  refine ⟨?_, (abs_add_le _ _).trans (add_le_add h.2 h'.2)⟩
  have : a + c - (b + d) = (a - b) + (c - d) := by ring
  rw [this, mul_add]
  exact (abs_add_le _ _).trans (add_le_add h.1 h'.1)

theorem Acc.neg (h : Acc u k a b B) : Acc u k (-a) (-b) B := by
  refine ⟨?_, by rw [abs_neg]; exact h.2⟩
  rw [show -a - -b = -(a - b) by ring, abs_neg]; exact h.1

theorem Acc.sub (h : Acc u k a b B) (h' : Acc u k c d C) : Acc u k (a - c) (b - d) (B + C) := by
  rw [sub_eq_add_neg, sub_eq_add_neg]; exact h.add h0 h1 (h'.neg h0 h1)

theorem Acc.mul (h : Acc u k a b B) (h' : Acc u l c d C) : Acc u (k + l) (a * c) (b * d) (B * C) := by
  have hB := h.nonneg h0 h1
  have hC := h'.nonneg h0 h1
  refine ⟨?_, by rw [abs_mul]; exact mul_le_mul h.2 h'.2 (abs_nonneg _) hB⟩
  have : a * c - b * d = (a - b) * c + b * (c - d) := by ring
  rw [this]
  have h2 : |(a - b) * c| ≤ (phi u k - 1) * B * (phi u l * C) := by
    rw [abs_mul]
    exact mul_le_mul h.1 (h'.abs_le h0 h1) (abs_nonneg _) (mul_nonneg (by linarith [one_le_phi h0 h1 k]) hB)
  have h3 : |b * (c - d)| ≤ B * ((phi u l - 1) * C) := by
    rw [abs_mul]
    exact mul_le_mul h.2 h'.1 (abs_nonneg _) hB
  refine (abs_add_le _ _).trans ((add_le_add h2 h3).trans (le_of_eq ?_))
  rw [phi_add]; ring

theorem Acc.gamma_le (h : Acc u k a b B) (hk : k * u < 1) : |a - b| ≤ gamma u k * B :=
  h.1.trans (mul_le_mul_of_nonneg_right (phi_sub_one_le_gamma h0 h1 k hk) (h.nonneg h0 h1))

/-! ## relative errors of positive quantities -/

omit h0 h1 in
/-- the computed `a` approximates `b >= 0` with a relative error of `k` roundings: `(1-u)^k b <= a <= (1-u)^-k b` -/
def Rel (u : ℝ) (k : ℕ) (a b : ℝ) : Prop := 0 ≤ b ∧ b ≤ phi u k * a ∧ a ≤ phi u k * b

omit h0 h1 in
theorem rel_exact (h : 0 ≤ a) : Rel u 0 a a := by simp [Rel, phi_zero, h]

theorem Rel.nonneg (h : Rel u k a b) : 0 ≤ a := by
  have h2 := one_le_phi h0 h1 k
  by_contra hn
  have : phi u k * a < 0 := mul_neg_of_pos_of_neg (by linarith) (by linarith)
  linarith [h.1, h.2.1]

theorem Rel.mono (h : Rel u k a b) (hkl : k ≤ l) : Rel u l a b :=
  ⟨h.1, h.2.1.trans (mul_le_mul_of_nonneg_right (phi_mono h0 h1 hkl) (h.nonneg h0 h1)), h.2.2.trans (mul_le_mul_of_nonneg_right (phi_mono h0 h1 hkl) h.1)⟩

theorem Rel.round (h : Rel u k a b) (hc : |c - a| ≤ u * |a|) : Rel u (k + 1) c b := by
  have ha := h.nonneg h0 h1
  rw [abs_of_nonneg ha] at hc
  obtain ⟨h2, h3⟩ := abs_le.mp hc
  have hp := one_le_phi h0 h1 k
  refine ⟨h.1, ?_, ?_⟩
  · have : a ≤ phi u 1 * c := by
      rw [phi, pow_one, ← div_eq_inv_mul, le_div_iff₀ (by linarith)]; nlinarith
    rw [phi_add, mul_assoc]
    exact h.2.1.trans (mul_le_mul_of_nonneg_left this (by linarith))
  · have : c ≤ phi u 1 * a := by
      have := mul_le_mul_of_nonneg_right (one_add_le_phi h0 h1) ha
      linarith
    rw [phi_add, mul_comm (phi u k), mul_assoc]
    exact this.trans (mul_le_mul_of_nonneg_left h.2.2 (by linarith [one_le_phi h0 h1 1]))

theorem Rel.add (h : Rel u k a b) (h' : Rel u k c d) : Rel u k (a + c) (b + d) :=
  ⟨add_nonneg h.1 h'.1, by rw [mul_add]; exact add_le_add h.2.1 h'.2.1, by rw [mul_add]; exact add_le_add h.2.2 h'.2.2⟩

theorem Rel.mul (h : Rel u k a b) (h' : Rel u l c d) : Rel u (k + l) (a * c) (b * d) := by
  have p1 := one_le_phi h0 h1 k
  have p2 := one_le_phi h0 h1 l
  have ha := h.nonneg h0 h1
  have hc := h'.nonneg h0 h1
  refine ⟨mul_nonneg h.1 h'.1, ?_, ?_⟩
  · calc b * d ≤ (phi u k * a) * (phi u l * c) := mul_le_mul h.2.1 h'.2.1 h'.1 (mul_nonneg (by linarith) ha)
      _ = _ := by rw [phi_add]; ring
  · calc a * c ≤ (phi u k * b) * (phi u l * d) := mul_le_mul h.2.2 h'.2.2 hc (mul_nonneg (by linarith) h.1)
      _ = _ := by rw [phi_add]; ring

theorem Rel.inv (h : Rel u k a b) : Rel u k a⁻¹ b⁻¹ := by
  have p1 := one_le_phi h0 h1 k
  have ha := h.nonneg h0 h1
  rcases eq_or_lt_of_le h.1 with hb | hb
  · have : a = 0 := le_antisymm (by simpa [← hb] using h.2.2) ha
    subst this; subst hb
    simp [Rel]
  · have ha' : 0 < a := by
      by_contra hn
      have : a = 0 := le_antisymm (by linarith) ha
      have := h.2.1
      subst_vars
      simp at this
      linarith
    refine ⟨by positivity, ?_, ?_⟩
    · have := h.2.2
      rw [← div_eq_mul_inv, le_div_iff₀ ha', ← div_eq_inv_mul, div_le_iff₀ hb]; exact this
    · have := h.2.1
      rw [← div_eq_mul_inv, le_div_iff₀ hb, ← div_eq_inv_mul, div_le_iff₀ ha']; exact this

theorem Rel.sqrt (h : Rel u k a b) : Rel u k (Real.sqrt a) (Real.sqrt b) := by
  have p1 := one_le_phi h0 h1 k
  have p0 : 0 ≤ phi u k := by linarith
  have ha := h.nonneg h0 h1
  have hs : Real.sqrt (phi u k) ≤ phi u k := by
    rw [Real.sqrt_le_left p0]; nlinarith
  refine ⟨Real.sqrt_nonneg _, ?_, ?_⟩
  · calc Real.sqrt b ≤ Real.sqrt (phi u k * a) := Real.sqrt_le_sqrt h.2.1
      _ = Real.sqrt (phi u k) * Real.sqrt a := Real.sqrt_mul p0 _
      _ ≤ _ := mul_le_mul_of_nonneg_right hs (Real.sqrt_nonneg _)
  · calc Real.sqrt a ≤ Real.sqrt (phi u k * b) := Real.sqrt_le_sqrt h.2.2
      _ = Real.sqrt (phi u k) * Real.sqrt b := Real.sqrt_mul p0 _
      _ ≤ _ := mul_le_mul_of_nonneg_right hs (Real.sqrt_nonneg _)

theorem Rel.acc (h : Rel u k a b) : Acc u k a b b := by
  have p1 := one_le_phi h0 h1 k
  refine ⟨abs_le.mpr ⟨?_, by linarith [h.2.2]⟩, by rw [abs_of_nonneg h.1]⟩
  have h2 := h.2.1
  -- `a >= b/phi >= (2 - phi) b`
  by_cases hp : phi u k ≤ 2
  · have h3 : (2 - phi u k) * b ≤ (2 - phi u k) * (phi u k * a) := mul_le_mul_of_nonneg_left h2 (by linarith)
    have h4 : (2 - phi u k) * phi u k ≤ 1 := by nlinarith [sq_nonneg (phi u k - 1)]
    have h5 := mul_le_mul_of_nonneg_right h4 (h.nonneg h0 h1)
    nlinarith
  · have := h.nonneg h0 h1
    have : 0 ≤ (phi u k - 2) * b := mul_nonneg (by linarith) h.1
    nlinarith

end

/-! ## the operations of `Fl F` -/

section ops
variable {F : Rounding} {k l : ℕ} {a c : Fl F} {b d B C : ℝ}

theorem Acc.fladd (h : Acc F.u k a.val b B) (h' : Acc F.u k c.val d C) : Acc F.u (k + 1) (a + c).val (b + d) (B + C) :=
  (h.add F.u_nonneg F.u_lt h').round F.u_nonneg F.u_lt (F.add_err _ _)

theorem Acc.flsub (h : Acc F.u k a.val b B) (h' : Acc F.u k c.val d C) : Acc F.u (k + 1) (a - c).val (b - d) (B + C) :=
  (h.sub F.u_nonneg F.u_lt h').round F.u_nonneg F.u_lt (F.sub_err _ _)

theorem Acc.flmul (h : Acc F.u k a.val b B) (h' : Acc F.u l c.val d C) : Acc F.u (k + l + 1) (a * c).val (b * d) (B * C) :=
  (h.mul F.u_nonneg F.u_lt h').round F.u_nonneg F.u_lt (F.mul_err _ _)

theorem Rel.fladd (h : Rel F.u k a.val b) (h' : Rel F.u k c.val d) : Rel F.u (k + 1) (a + c).val (b + d) :=
  (h.add F.u_nonneg F.u_lt h').round F.u_nonneg F.u_lt (F.add_err _ _)

theorem Rel.flmul (h : Rel F.u k a.val b) (h' : Rel F.u l c.val d) : Rel F.u (k + l + 1) (a * c).val (b * d) :=
  (h.mul F.u_nonneg F.u_lt h').round F.u_nonneg F.u_lt (F.mul_err _ _)

theorem Rel.flsqrt (h : Rel F.u k a.val b) : Rel F.u (k + 1) (Transc.sqrt a : Fl F).val (Real.sqrt b) :=
  (h.sqrt F.u_nonneg F.u_lt).round F.u_nonneg F.u_lt (F.sqrt_err _)

theorem Rel.ne_zero (h : Rel F.u k c.val d) (hd : d ≠ 0) : c.val ≠ 0 := by
  intro h0
  have h2 := h.2.1
  rw [h0, mul_zero] at h2
  exact hd (le_antisymm h2 h.1)

theorem Rel.fldiv (h : Rel F.u k a.val b) (h' : Rel F.u l c.val d) (hd : d ≠ 0) : Rel F.u (k + l + 1) (a / c).val (b / d) := by
  have h2 := h.mul F.u_nonneg F.u_lt (h'.inv F.u_nonneg F.u_lt)
  rw [← div_eq_mul_inv, ← div_eq_mul_inv] at h2
  exact h2.round F.u_nonneg F.u_lt (F.div_err _ _ (h'.ne_zero hd))

theorem Acc.fldiv (h : Acc F.u k a.val b B) (h' : Rel F.u l c.val d) (hd : d ≠ 0) : Acc F.u (k + l + 1) (a / c).val (b / d) (B / d) := by
  have h2 := h.mul F.u_nonneg F.u_lt ((h'.inv F.u_nonneg F.u_lt).acc F.u_nonneg F.u_lt)
  rw [← div_eq_mul_inv, ← div_eq_mul_inv, ← div_eq_mul_inv] at h2
  exact h2.round F.u_nonneg F.u_lt (F.div_err _ _ (h'.ne_zero hd))

theorem fl_zero : (0 : Fl F).val = 0 := rfl

theorem Acc.fllist {k : ℕ} (fs : List (Fl F)) (gs Gs : List ℝ) (hlen : fs.length = gs.length) (hlen' : fs.length = Gs.length)
    (h : ∀ i (h1 : i < fs.length) (h2 : i < gs.length) (h3 : i < Gs.length), Acc F.u k (fs[i]).val gs[i] Gs[i]) :
    Acc F.u (k + fs.length) fs.sum.val gs.sum Gs.sum := by
  induction fs generalizing gs Gs with
  | nil =>
    obtain rfl : gs = [] := List.length_eq_zero_iff.mp hlen.symm
    obtain rfl : Gs = [] := List.length_eq_zero_iff.mp hlen'.symm
    refine ⟨?_, by simp⟩
    show |(0 : ℝ) - 0| ≤ _ * 0
    simp
  | cons f fs ih =>
    cases gs with
    | nil => simp at hlen
    | cons g gs => cases Gs with
      | nil => simp at hlen'
      | cons G Gs =>
        have h2 := ih gs Gs (by simpa using hlen) (by simpa using hlen') fun i h1 h2 h3 => by
          have := h (i + 1) (by simpa using h1) (by simpa using h2) (by simpa using h3)
          simpa using this
        have h3 := h 0 (by simp) (by simp) (by simp)
        simp only [List.getElem_cons_zero] at h3
        have h4 := (h3.mono F.u_nonneg F.u_lt (Nat.le_add_right k fs.length)).fladd h2
        simpa [← Nat.add_assoc] using h4

theorem Rel.fllist {k : ℕ} (fs : List (Fl F)) (gs : List ℝ) (hlen : fs.length = gs.length)
    (h : ∀ i (h1 : i < fs.length) (h2 : i < gs.length), Rel F.u k (fs[i]).val gs[i]) :
    Rel F.u (k + fs.length) fs.sum.val gs.sum := by
  induction fs generalizing gs with
  | nil =>
    obtain rfl : gs = [] := List.length_eq_zero_iff.mp hlen.symm
    show Rel F.u _ 0 0
    simp [Rel]
  | cons f fs ih =>
    cases gs with
    | nil => simp at hlen
    | cons g gs =>
      have h2 := ih gs (by simpa using hlen) fun i h1 h2 => by
        have := h (i + 1) (by simpa using h1) (by simpa using h2)
        simpa using this
      have h3 := h 0 (by simp) (by simp)
      simp only [List.getElem_cons_zero] at h3
      have h4 := (h3.mono F.u_nonneg F.u_lt (Nat.le_add_right k fs.length)).fladd h2
      simpa [← Nat.add_assoc] using h4

variable {n : ℕ}

theorem Acc.flvsum {k : ℕ} (f : Vec (Fl F) n) (g G : Vec ℝ n) (h : ∀ i, Acc F.u k (f i).val (g i) (G i)) :
    Acc F.u (k + n) (vsum f).val (∑ i, g i) (∑ i, G i) := by
  have := Acc.fllist (F := F) (k := k) (List.ofFn f) (List.ofFn g) (List.ofFn G) (by simp) (by simp) fun i h1 h2 h3 => by
    simpa using h ⟨i, by simpa using h1⟩
  simpa [List.sum_ofFn, vsum] using this

theorem Rel.flvsum {k : ℕ} (f : Vec (Fl F) n) (g : Vec ℝ n) (h : ∀ i, Rel F.u k (f i).val (g i)) :
    Rel F.u (k + n) (vsum f).val (∑ i, g i) := by
  have := Rel.fllist (F := F) (k := k) (List.ofFn f) (List.ofFn g) (by simp) fun i h1 h2 => by
    simpa using h ⟨i, by simpa using h1⟩
  simpa [List.sum_ofFn, vsum] using this

theorem Acc.fldot {k l : ℕ} (f f' : Vec (Fl F) n) (g g' G G' : Vec ℝ n) (h : ∀ i, Acc F.u k (f i).val (g i) (G i))
    (h' : ∀ i, Acc F.u l (f' i).val (g' i) (G' i)) : Acc F.u (k + l + 1 + n) (dot f f').val (∑ i, g i * g' i) (∑ i, G i * G' i) :=
  Acc.flvsum _ _ _ fun i => (h i).flmul (h' i)

end ops

end Padasip
