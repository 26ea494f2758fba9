import Verif.Props.Stability
import Verif.Props.Rls
import Mathlib.Topology.Algebra.Module.FiniteDimension
import Mathlib.Analysis.SpecificLimits.Basic
import Mathlib.LinearAlgebra.Span.Defs

/-!
# C140: training on the same data again and again (`pretrained_run`, or `run` called once per epoch)
-/

set_option linter.unusedSectionVars false
set_option linter.unusedSimpArgs false
set_option linter.unusedVariables false

namespace Padasip

open Finset

section abstract
variable {n : ℕ}

/-- the recursion of LMS and NLMS with gain `g(k)` at sample `k` -/
def Descends (g : ℕ → ℝ) (x : ℕ → Vec ℝ n) (d : ℕ → ℝ) (W : ℕ → Vec ℝ n) : Prop :=
  ∀ k i, W (k + 1) i = W k i + g k * x k i * (d k - ∑ j, W k j * x k j)

/-- the trajectory from a start -/
def descent (g : ℕ → ℝ) (x : ℕ → Vec ℝ n) (d : ℕ → ℝ) (w : Vec ℝ n) : ℕ → Vec ℝ n
  | 0 => w
  | k + 1 => fun i => descent g x d w k i + g k * x k i * (d k - ∑ j, descent g x d w k j * x k j)

theorem descent_descends (g : ℕ → ℝ) (x : ℕ → Vec ℝ n) (d : ℕ → ℝ) (w : Vec ℝ n) : Descends g x d (descent g x d w) := fun _ _ => rfl

variable {g : ℕ → ℝ} {x : ℕ → Vec ℝ n} {d d' : ℕ → ℝ} {W W' : ℕ → Vec ℝ n} {T : ℕ}

theorem Descends.unique (h : Descends g x d W) (h' : Descends g x d W') (h0 : W 0 = W' 0) (k : ℕ) : W k = W' k := by
  induction k with
  | zero => exact h0
  | succ k ih => funext i; rw [h k i, h' k i, ih]

theorem Descends.sub (h : Descends g x d W) (h' : Descends g x d' W') : Descends g x (fun k => d k - d' k) (fun k i => W k i - W' k i) := by
  intro k i
  show W (k + 1) i - W' (k + 1) i = _
  rw [h k i, h' k i]
  have : ∑ j, (W k j - W' k j) * x k j = ∑ j, W k j * x k j - ∑ j, W' k j * x k j := by
    rw [← sum_sub_distrib]; exact sum_congr rfl fun j _ => by ring
  rw [this]; ring

theorem Descends.shift (h : Descends g x d W) (hg : ∀ k, g (k + T) = g k) (hx : ∀ k, x (k + T) = x k) (hd : ∀ k, d (k + T) = d k) :
    Descends g x d (fun k => W (k + T)) := by
  intro k i
  show W (k + 1 + T) i = _
  have := h (k + T) i
  rw [hg, hx, hd] at this
  rw [show k + 1 + T = k + T + 1 by omega, this]

/-- the increments are in the span of the inputs -/
theorem Descends.span (h : Descends g x d W) (k : ℕ) : (fun i => W k i - W 0 i) ∈ Submodule.span ℝ (Set.range x) := by
  induction k with
  | zero => have : (fun i => W 0 i - W 0 i) = 0 := by funext i; simp
            rw [this]; exact Submodule.zero_mem _
  | succ k ih =>
    have e : (fun i => W (k + 1) i - W 0 i) = (fun i => W k i - W 0 i) + (g k * (d k - ∑ j, W k j * x k j)) • x k := by
      funext i
      show W (k + 1) i - W 0 i = W k i - W 0 i + g k * (d k - ∑ j, W k j * x k j) * x k i
      rw [h k i]; ring
    rw [e]
    exact Submodule.add_mem _ ih (Submodule.smul_mem _ _ (Submodule.subset_span ⟨k, rfl⟩))

/-- a homogeneous trajectory stays in the span -/
theorem Descends.mem (h : Descends g x d W) (h0 : W 0 ∈ Submodule.span ℝ (Set.range x)) (k : ℕ) : W k ∈ Submodule.span ℝ (Set.range x) := by
  have e : W k = (fun i => W k i - W 0 i) + W 0 := by funext i; show W k i = W k i - W 0 i + W 0 i; ring
  rw [e]
  exact Submodule.add_mem _ (h.span k) h0

/-- the energy balance of a homogeneous trajectory -/
theorem Descends.energy (h : Descends g x (fun _ => 0) W) (N : ℕ) :
    ∑ i, W N i ^ 2 + ∑ k ∈ range N, g k * (2 - g k * ∑ i, x k i ^ 2) * (∑ j, W k j * x k j) ^ 2 = ∑ i, W 0 i ^ 2 := by
  induction N with
  | zero => simp
  | succ N ih =>
    have hs := sqn_add_smul (W N) (x N) (-(g N * ∑ j, W N j * x N j))
    have e : (fun i => W N i + -(g N * ∑ j, W N j * x N j) * x N i) = W (N + 1) := by
      funext i; rw [h N i]; ring
    rw [e] at hs
    unfold sqn at hs
    rw [sum_range_succ, ← ih, hs]
    ring

theorem Descends.antitone (h : Descends g x (fun _ => 0) W) (hg : ∀ k, 0 ≤ g k) (hb : ∀ k, g k * ∑ i, x k i ^ 2 ≤ 2) (k m : ℕ) :
    ∑ i, W (k + m) i ^ 2 ≤ ∑ i, W k i ^ 2 := by
  induction m with
  | zero => exact le_rfl
  | succ m ih =>
    refine le_trans ?_ ih
    have h1 := h.energy (k + m)
    have h2 := h.energy (k + m + 1)
    rw [sum_range_succ] at h2
    have h3 : 0 ≤ g (k + m) * (2 - g (k + m) * ∑ i, x (k + m) i ^ 2) * (∑ j, W (k + m) j * x (k + m) j) ^ 2 :=
      mul_nonneg (mul_nonneg (hg _) (by linarith [hb (k + m)])) (sq_nonneg _)
    show ∑ i, W (k + m + 1) i ^ 2 ≤ _
    linarith

/-- no energy lost in a period: the trajectory does not move, and is orthogonal to the inputs -/
theorem Descends.lossless (h : Descends g x (fun _ => 0) W) (hg : ∀ k, 0 < g k) (hb : ∀ k, g k * ∑ i, x k i ^ 2 < 2)
    (he : ∑ i, W 0 i ^ 2 ≤ ∑ i, W T i ^ 2) (k : ℕ) (hk : k < T) : W k = W 0 ∧ ∑ j, W 0 j * x k j = 0 := by
  have h1 := h.energy T
  have hnn : ∀ k ∈ range T, 0 ≤ g k * (2 - g k * ∑ i, x k i ^ 2) * (∑ j, W k j * x k j) ^ 2 := fun k _ =>
    mul_nonneg (mul_nonneg (hg k).le (by linarith [hb k])) (sq_nonneg _)
  have hz : ∑ k ∈ range T, g k * (2 - g k * ∑ i, x k i ^ 2) * (∑ j, W k j * x k j) ^ 2 = 0 :=
    le_antisymm (by linarith) (sum_nonneg hnn)
  have hk0 : ∀ k < T, ∑ j, W k j * x k j = 0 := fun k hk => by
    have h2 := (sum_eq_zero_iff_of_nonneg hnn).1 hz k (mem_range.2 hk)
    have h3 : g k * (2 - g k * ∑ i, x k i ^ 2) ≠ 0 := (mul_pos (hg k) (by linarith [hb k])).ne'
    exact pow_eq_zero_iff two_ne_zero |>.1 ((mul_eq_zero.1 h2).resolve_left h3)
  have hc : ∀ k, k ≤ T → W k = W 0 := by
    intro k
    induction k with
    | zero => intro _; rfl
    | succ k ih =>
      intro hk
      funext i
      rw [h k i, hk0 k (by omega), ih (by omega)]
      ring
  refine ⟨hc k hk.le, ?_⟩
  have := hk0 k hk
  rwa [hc k hk.le] at this

theorem periodic_mod {α : Type} {f : ℕ → α} (hf : ∀ k, f (k + T) = f k) (k : ℕ) : f k = f (k % T) := by
  have h1 : ∀ m r, f (r + m * T) = f r := by
    intro m
    induction m with
    | zero => intro r; simp
    | succ m ih => intro r; rw [Nat.succ_mul, ← Nat.add_assoc, hf, ih]
  have h2 := h1 (k / T) (k % T)
  rw [Nat.mod_add_div'] at h2
  exact h2

/-- a vector of the span orthogonal to all the inputs is zero -/
theorem span_orthogonal {u : Vec ℝ n} (hu : u ∈ Submodule.span ℝ (Set.range x)) {v : Vec ℝ n} (h : ∀ k, ∑ j, v j * x k j = 0) : ∑ j, v j * u j = 0 := by
  induction hu using Submodule.span_induction with
  | mem a ha => obtain ⟨k, rfl⟩ := ha; exact h k
  | zero => simp
  | add a b _ _ ha hb =>
    have : ∑ j, v j * (a + b) j = ∑ j, v j * a j + ∑ j, v j * b j := by
      rw [← sum_add_distrib]; exact sum_congr rfl fun j _ => by rw [Pi.add_apply]; ring
    rw [this, ha, hb, add_zero]
  | smul c a _ ha =>
    have : ∑ j, v j * (c • a) j = c * ∑ j, v j * a j := by
      rw [mul_sum]; exact sum_congr rfl fun j _ => by rw [Pi.smul_apply, smul_eq_mul]; ring
    rw [this, ha, mul_zero]

theorem descent_continuous (g : ℕ → ℝ) (x : ℕ → Vec ℝ n) (d : ℕ → ℝ) (k : ℕ) (i : Fin n) : Continuous fun w => descent g x d w k i := by
  induction k generalizing i with
  | zero => exact continuous_apply i
  | succ k ih =>
    show Continuous fun w => descent g x d w k i + g k * x k i * (d k - ∑ j, descent g x d w k j * x k j)
    exact (ih i).add (continuous_const.mul (continuous_const.sub (continuous_finsetSum _ fun j _ => (ih j).mul continuous_const)))

/-- the homogeneous recursion is homogeneous -/
theorem descent_scale (g : ℕ → ℝ) (x : ℕ → Vec ℝ n) (c : ℝ) (w : Vec ℝ n) (k : ℕ) :
    descent g x (fun _ => 0) (fun i => c * w i) k = fun i => c * descent g x (fun _ => 0) w k i := by
  refine (descent_descends g x _ _).unique (W' := fun k i => c * descent g x (fun _ => 0) w k i) (fun k i => ?_) rfl k
  show c * descent g x (fun _ => 0) w (k + 1) i = _
  rw [descent_descends g x _ w k i]
  have : ∑ j, c * descent g x (fun _ => 0) w k j * x k j = c * ∑ j, descent g x (fun _ => 0) w k j * x k j := by
    rw [mul_sum]; exact sum_congr rfl fun j _ => by ring
  simp only [this]
  ring

/-- one period contracts the span of the inputs by a common factor -/
theorem period_contracts (hT : 0 < T) (hg : ∀ k, 0 < g k) (hb : ∀ k, g k * ∑ i, x k i ^ 2 < 2) (hx : ∀ k, x (k + T) = x k) :
    ∃ r : ℝ, 0 ≤ r ∧ r < 1 ∧ ∀ W, Descends g x (fun _ => 0) W → W 0 ∈ Submodule.span ℝ (Set.range x) → ∑ i, W T i ^ 2 ≤ r * ∑ i, W 0 i ^ 2 := by
  let q : Vec ℝ n → ℝ := fun u => ∑ i, descent g x (fun _ => 0) u T i ^ 2
  let V := Submodule.span ℝ (Set.range x)
  let s : Set (Vec ℝ n) := {u | u ∈ V ∧ ∑ i, u i ^ 2 = 1}
  have hqc : Continuous q := continuous_finsetSum _ fun i _ => (descent_continuous g x _ T i).pow 2
  have hcn : Continuous fun u : Vec ℝ n => ∑ i, u i ^ 2 := continuous_finsetSum _ fun i _ => (continuous_apply i).pow 2
  have hq0 : ∀ u, 0 ≤ q u := fun u => sum_nonneg fun _ _ => sq_nonneg _
  have hs : IsCompact s := by
    refine Metric.isCompact_of_isClosed_isBounded ((Submodule.closed_of_finiteDimensional V).inter (isClosed_eq hcn continuous_const)) ?_
    refine (Metric.isBounded_closedBall (x := (0 : Vec ℝ n)) (r := 1)).subset fun u hu => ?_
    rw [Metric.mem_closedBall, dist_zero_right, pi_norm_le_iff_of_nonneg zero_le_one]
    intro i
    rw [Real.norm_eq_abs, abs_le_one_iff_mul_self_le_one]
    have : u i ^ 2 ≤ ∑ l, u l ^ 2 := single_le_sum (f := fun l => u l ^ 2) (fun _ _ => sq_nonneg _) (mem_univ i)
    have h1 : ∑ i, u i ^ 2 = 1 := hu.2
    nlinarith
  have hscale : ∀ {r : ℝ}, (∀ u ∈ s, q u ≤ r) → ∀ u ∈ V, q u ≤ r * ∑ i, u i ^ 2 := by
    intro r hl u hu
    have h0 : 0 ≤ ∑ i, u i ^ 2 := sum_nonneg fun _ _ => sq_nonneg _
    have hh : ∀ c : ℝ, q (fun i => c * u i) = c ^ 2 * q u := fun c => by
      show ∑ i, descent g x (fun _ => 0) (fun i => c * u i) T i ^ 2 = c ^ 2 * ∑ i, descent g x (fun _ => 0) u T i ^ 2
      rw [descent_scale, mul_sum]
      exact sum_congr rfl fun i _ => by ring
    rcases h0.eq_or_lt with h | h
    · have hu0 : u = 0 := by
        funext i
        have := (sum_eq_zero_iff_of_nonneg fun i _ => sq_nonneg (u i)).1 h.symm i (mem_univ i)
        exact pow_eq_zero_iff two_ne_zero |>.1 this
      have := hh 0
      have e : (fun i => 0 * u i) = u := by rw [hu0]; funext i; simp
      rw [e] at this
      rw [← h, this]; simp
    · set c := Real.sqrt (∑ i, u i ^ 2) with hcdef
      have hc2 : c ^ 2 = ∑ i, u i ^ 2 := Real.sq_sqrt h0
      have hcpos : 0 < c := Real.sqrt_pos.2 h
      have hm : (fun i => c⁻¹ * u i) ∈ s := by
        refine ⟨V.smul_mem c⁻¹ hu, ?_⟩
        show ∑ i, (c⁻¹ * u i) ^ 2 = 1
        simp only [mul_pow]
        rw [← mul_sum, ← hc2]
        field_simp
      have h1 := hl _ hm
      rw [hh, inv_pow, hc2, inv_mul_le_iff₀ h] at h1
      linarith
  have hfin : ∀ {r : ℝ}, (∀ u ∈ V, q u ≤ r * ∑ i, u i ^ 2) → ∀ W, Descends g x (fun _ => 0) W → W 0 ∈ V → ∑ i, W T i ^ 2 ≤ r * ∑ i, W 0 i ^ 2 := by
    intro r hr W hW h0
    have := hr (W 0) h0
    rw [hW.unique (descent_descends g x _ (W 0)) rfl T]
    exact this
  rcases s.eq_empty_or_nonempty with he | hne
  · exact ⟨0, le_rfl, one_pos, hfin (hscale fun u hu => by rw [he] at hu; exact absurd hu (Set.notMem_empty u))⟩
  · obtain ⟨u0, hu0, hmax⟩ := hs.exists_isMaxOn hne hqc.continuousOn
    refine ⟨q u0, hq0 u0, ?_, hfin (hscale fun u hu => hmax hu)⟩
    by_contra hcon
    have hl := (descent_descends g x (fun _ => 0) u0).lossless (T := T) hg hb (by
      show ∑ i, u0 i ^ 2 ≤ q u0
      rw [hu0.2]; exact not_lt.1 hcon)
    have horth : ∀ k, ∑ j, u0 j * x k j = 0 := fun k => by
      rw [periodic_mod hx k]
      exact (hl (k % T) (Nat.mod_lt _ hT)).2
    have h1 := span_orthogonal hu0.1 horth
    have h2 : ∑ j, u0 j * u0 j = 1 := by rw [← hu0.2]; exact sum_congr rfl fun j _ => by ring
    linarith

/-- the energy of a homogeneous trajectory in the span after `k` samples -/
theorem period_rate (hg : ∀ k, 0 < g k) (hb : ∀ k, g k * ∑ i, x k i ^ 2 < 2) (hgp : ∀ k, g (k + T) = g k) (hx : ∀ k, x (k + T) = x k) {r : ℝ}
    (hr0 : 0 ≤ r) (hr : ∀ W, Descends g x (fun _ => 0) W → W 0 ∈ Submodule.span ℝ (Set.range x) → ∑ i, W T i ^ 2 ≤ r * ∑ i, W 0 i ^ 2)
    (hW : Descends g x (fun _ => 0) W) (h0 : W 0 ∈ Submodule.span ℝ (Set.range x)) (k : ℕ) :
    ∑ i, W k i ^ 2 ≤ r ^ (k / T) * ∑ i, W 0 i ^ 2 := by
  have h1 : ∀ E, ∑ i, W (E * T) i ^ 2 ≤ r ^ E * ∑ i, W 0 i ^ 2 := by
    intro E
    induction E with
    | zero => simp
    | succ E ih =>
      have hsh : ∀ E, Descends g x (fun _ => 0) (fun k => W (k + E * T)) := by
        intro E
        induction E with
        | zero => simpa using hW
        | succ E ihE =>
          have := ihE.shift hgp hx (fun _ => rfl)
          have e : (fun k => W (k + (E + 1) * T)) = fun k => W (k + T + E * T) := by funext k; congr 1; ring
          rw [e]; exact this
      have h2 := hr _ (hsh E) (by simpa using hW.mem h0 (E * T))
      simp only [Nat.zero_add] at h2
      rw [Nat.succ_mul, Nat.add_comm, pow_succ', mul_assoc]
      exact h2.trans (mul_le_mul_of_nonneg_left ih hr0)
  have h3 := hW.antitone (fun k => (hg k).le) (fun k => (hb k).le) (k / T * T) (k % T)
  rw [Nat.div_add_mod'] at h3
  exact h3.trans (h1 _)

/-- the trajectory on periodic data approaches a periodic trajectory -/
theorem periodic_limit (hT : 0 < T) (hg : ∀ k, 0 < g k) (hb : ∀ k, g k * ∑ i, x k i ^ 2 < 2) (hgp : ∀ k, g (k + T) = g k) (hx : ∀ k, x (k + T) = x k) {r : ℝ}
    (hr0 : 0 ≤ r) (hr1 : r < 1) (hr : ∀ W, Descends g x (fun _ => 0) W → W 0 ∈ Submodule.span ℝ (Set.range x) → ∑ i, W T i ^ 2 ≤ r * ∑ i, W 0 i ^ 2)
    (hd : ∀ k, d (k + T) = d k) (hW : Descends g x d W) :
    ∃ w : Vec ℝ n, (fun i => w i - W 0 i) ∈ Submodule.span ℝ (Set.range x) ∧ (∀ k, descent g x d w (k + T) = descent g x d w k) ∧
      ∀ k, ∑ i, (W k i - descent g x d w k i) ^ 2 ≤ r ^ (k / T) * ∑ i, (W 0 i - w i) ^ 2 := by
  have hU : Descends g x (fun _ => 0) (fun k i => W (k + T) i - W k i) := by
    have := (hW.shift hgp hx hd).sub hW
    simpa using this
  have hU0 : (fun i => W (0 + T) i - W 0 i) ∈ Submodule.span ℝ (Set.range x) := by rw [Nat.zero_add]; exact hW.span T
  have hrate := fun E => period_rate hg hb hgp hx hr0 hr hU hU0 (E * T)
  set C := ∑ i, (W (0 + T) i - W 0 i) ^ 2 with hC
  have hC0 : 0 ≤ C := sum_nonneg fun _ _ => sq_nonneg _
  set ρ := Real.sqrt r with hρ
  have hρ0 : 0 ≤ ρ := Real.sqrt_nonneg _
  have hρ1 : ρ < 1 := by rw [hρ, Real.sqrt_lt' one_pos]; simpa using hr1
  have hstep : ∀ i E, dist (W (E * T) i) (W ((E + 1) * T) i) ≤ Real.sqrt C * ρ ^ E := by
    intro i E
    rw [Real.dist_eq, abs_sub_comm]
    refine abs_le_of_sq_le_sq ?_ (by positivity)
    have h1 : (W (E * T + T) i - W (E * T) i) ^ 2 ≤ ∑ l, (W (E * T + T) l - W (E * T) l) ^ 2 :=
      single_le_sum (f := fun l => (W (E * T + T) l - W (E * T) l) ^ 2) (fun _ _ => sq_nonneg _) (mem_univ i)
    have h2 := hrate E
    rw [Nat.mul_div_cancel _ hT] at h2
    have h3 : (Real.sqrt C * ρ ^ E) ^ 2 = r ^ E * C := by
      rw [mul_pow, Real.sq_sqrt hC0, ← pow_mul, mul_comm E 2, pow_mul, Real.sq_sqrt hr0]; ring
    rw [Nat.succ_mul, h3]
    exact h1.trans h2
  have hlim : ∀ i, ∃ l, Filter.Tendsto (fun E => W (E * T) i) Filter.atTop (nhds l) := fun i =>
    cauchySeq_tendsto_of_complete (cauchySeq_of_le_geometric ρ (Real.sqrt C) hρ1 (hstep i))
  choose w hw using hlim
  have hwt : Filter.Tendsto (fun E => W (E * T)) Filter.atTop (nhds w) := tendsto_pi_nhds.2 hw
  have hmem : (fun i => w i - W 0 i) ∈ Submodule.span ℝ (Set.range x) := by
    have hcl := Submodule.closed_of_finiteDimensional (Submodule.span ℝ (Set.range x))
    have ht : Filter.Tendsto (fun E i => W (E * T) i - W 0 i) Filter.atTop (nhds fun i => w i - W 0 i) :=
      tendsto_pi_nhds.2 fun i => (hw i).sub_const _
    exact hcl.mem_of_tendsto ht (Filter.Eventually.of_forall fun E => hW.span (E * T))
  -- the limit is a fixed point of the map of one period
  have hsh : ∀ E k, descent g x d (W (E * T)) k = W (k + E * T) := by
    intro E
    have : Descends g x d (fun k => W (k + E * T)) := by
      induction E with
      | zero => simpa using hW
      | succ E ihE =>
        have := ihE.shift hgp hx hd
        have e : (fun k => W (k + (E + 1) * T)) = fun k => W (k + T + E * T) := by funext k; congr 1; ring
        rw [e]; exact this
    intro k
    exact (descent_descends g x d _).unique this (by simp [descent]) k
  have hfix : descent g x d w T = w := by
    funext i
    have h1 : Filter.Tendsto (fun E => descent g x d (W (E * T)) T i) Filter.atTop (nhds (descent g x d w T i)) :=
      ((descent_continuous g x d T i).tendsto w).comp hwt
    have h2 : Filter.Tendsto (fun E => descent g x d (W (E * T)) T i) Filter.atTop (nhds (w i)) := by
      have e : (fun E => descent g x d (W (E * T)) T i) = fun E => W ((E + 1) * T) i := by
        funext E; rw [hsh, Nat.succ_mul, Nat.add_comm]
      rw [e]
      exact (Filter.tendsto_add_atTop_iff_nat (f := fun E => W (E * T) i) 1).2 (hw i)
    exact tendsto_nhds_unique h1 h2
  refine ⟨w, hmem, fun k => ?_, fun k => ?_⟩
  · exact (((descent_descends g x d w).shift hgp hx hd).unique (descent_descends g x d w) (by show descent g x d w (0 + T) = _; rw [Nat.zero_add, hfix]; rfl) k)
  · have hDd : Descends g x (fun _ => 0) (fun k i => W k i - descent g x d w k i) := by
      have := hW.sub (descent_descends g x d w)
      simpa using this
    refine period_rate hg hb hgp hx hr0 hr hDd ?_ k
    have e : (fun i => W 0 i - descent g x d w 0 i) = -(fun i => w i - W 0 i) := by
      funext i; show W 0 i - w i = -(w i - W 0 i); ring
    rw [e]
    exact Submodule.neg_mem _ hmem

/-- consistent data: the limit does not move, solves every equation, and is the solution closest to the start -/
theorem consistent_limit (hT : 0 < T) (hg : ∀ k, 0 < g k) (hb : ∀ k, g k * ∑ i, x k i ^ 2 < 2) (hx : ∀ k, x (k + T) = x k)
    {w w0 ws : Vec ℝ n} (hws : ∀ k, d k = ∑ i, ws i * x k i) (hmem : (fun i => w i - w0 i) ∈ Submodule.span ℝ (Set.range x))
    (hper : ∀ k, descent g x d w (k + T) = descent g x d w k) :
    (∀ k, d k = ∑ i, w i * x k i) ∧ (∀ k, descent g x d w k = w) ∧
    ∀ u : Vec ℝ n, (∀ k, d k = ∑ i, u i * x k i) → ∑ i, (u i - w0 i) ^ 2 = ∑ i, (u i - w i) ^ 2 + ∑ i, (w i - w0 i) ^ 2 := by
  have hconst : Descends g x d (fun _ => ws) := fun k i => by rw [hws k]; ring
  have hD : Descends g x (fun _ => 0) (fun k i => descent g x d w k i - ws i) := by
    have := (descent_descends g x d w).sub hconst
    simpa using this
  have hl := hD.lossless (T := T) hg hb (le_of_eq (by have := hper 0; rw [Nat.zero_add] at this; rw [this]))
  have hsol : ∀ k, d k = ∑ i, w i * x k i := fun k => by
    have h1 := (hl (k % T) (Nat.mod_lt _ hT)).2
    rw [← periodic_mod hx k] at h1
    have h2 : ∑ j, (w j - ws j) * x k j = ∑ j, w j * x k j - ∑ j, ws j * x k j := by
      rw [← sum_sub_distrib]; exact sum_congr rfl fun j _ => by ring
    have h3 : ∑ j, (w j - ws j) * x k j = 0 := h1
    rw [hws k]; linarith
  refine ⟨hsol, fun k => ?_, fun u hu => ?_⟩
  · have hc : Descends g x d (fun _ => w) := fun k i => by rw [hsol k]; ring
    exact (descent_descends g x d w).unique hc rfl k
  · have horth : ∀ k, ∑ j, (u j - w j) * x k j = 0 := fun k => by
      have h2 : ∑ j, (u j - w j) * x k j = ∑ j, u j * x k j - ∑ j, w j * x k j := by
        rw [← sum_sub_distrib]; exact sum_congr rfl fun j _ => by ring
      rw [h2, ← hu k, ← hsol k, sub_self]
    have h0 := span_orthogonal hmem horth
    have e : ∑ i, (u i - w0 i) ^ 2 = ∑ i, (u i - w i) ^ 2 + ∑ i, (w i - w0 i) ^ 2 + 2 * ∑ i, (u i - w i) * (w i - w0 i) := by
      rw [mul_sum, ← sum_add_distrib, ← sum_add_distrib]
      exact sum_congr rfl fun i _ => by ring
    rw [e, h0]; ring

end abstract

/-! ## LMS and NLMS -/

section user
variable {n : ℕ} {d : ℕ → ℝ} {x : ℕ → Vec ℝ n} {y e : ℕ → ℝ}

theorem lms_descends {o : Obj (lms ℝ n)} {S : ℕ → Core ℝ n Unit} (h : Runs (lms ℝ n) o d x y e S) :
    Descends (fun _ => o.core.mu) x d (fun k => (S k).w) ∧ (S 0).w = o.core.w ∧ ∀ k, y k = ∑ i, (S k).w i * x k i ∧ e k = d k - ∑ i, (S k).w i * x k i := by
  refine ⟨fun k i => ?_, by rw [h.1]; rfl, fun k => ?_⟩
  · obtain ⟨hmu, -, hy, he, hw⟩ := lms_runs h k
    beta_reduce
    rw [hw, he, hy, hmu, dot_eq]
  · obtain ⟨hmu, -, hy, he, hw⟩ := lms_runs h k
    rw [he, hy, dot_eq]
    exact ⟨rfl, rfl⟩

theorem nlms_descends {o : Obj (nlms ℝ n)} {S : ℕ → Core ℝ n (EpsExt ℝ)} (h : Runs (nlms ℝ n) o d x y e S) :
    Descends (fun k => o.core.mu / (o.core.ext.eps + ∑ i, x k i ^ 2)) x d (fun k => (S k).w) ∧ (S 0).w = o.core.w ∧
      ∀ k, y k = ∑ i, (S k).w i * x k i ∧ e k = d k - ∑ i, (S k).w i * x k i := by
  refine ⟨fun k i => ?_, by rw [h.1]; rfl, fun k => ?_⟩
  · obtain ⟨hmu, hext, hy, he, hw⟩ := nlms_runs h k
    beta_reduce
    rw [hw, he, hy, hmu, hext, sqn_eq_dot, dot_eq]
    rfl
  · obtain ⟨hmu, -, hy, he, hw⟩ := nlms_runs h k
    rw [he, hy, dot_eq]
    exact ⟨rfl, rfl⟩

theorem nlms_gain_range {mu eps : ℝ} (hmu : 0 < mu) (hmu2 : mu < 2) (heps : 0 < eps) (a : Vec ℝ n) :
    0 < mu / (eps + ∑ i, a i ^ 2) ∧ mu / (eps + ∑ i, a i ^ 2) * ∑ i, a i ^ 2 < 2 := by
  have h0 : 0 ≤ ∑ i, a i ^ 2 := sum_nonneg fun _ _ => sq_nonneg _
  have hp : 0 < eps + ∑ i, a i ^ 2 := by linarith
  refine ⟨div_pos hmu hp, ?_⟩
  rw [div_mul_eq_mul_div, div_lt_iff₀ hp]
  nlinarith

/-- the errors of two trajectories -/
theorem err_close {w w' a : Vec ℝ n} {dd : ℝ} : ((dd - ∑ i, w i * a i) - (dd - ∑ i, w' i * a i)) ^ 2 ≤ (∑ i, a i ^ 2) * ∑ i, (w i - w' i) ^ 2 := by
  have h1 : (dd - ∑ i, w i * a i) - (dd - ∑ i, w' i * a i) = -∑ i, (w i - w' i) * a i := by
    have : ∑ i, (w i - w' i) * a i = ∑ i, w i * a i - ∑ i, w' i * a i := by
      rw [← sum_sub_distrib]; exact sum_congr rfl fun j _ => by ring
    rw [this]; ring
  rw [h1, neg_sq, mul_comm]
  exact sum_mul_sq_le_sq_mul_sq _ _ _

theorem span_period {T : ℕ} (hT : 0 < T) (hx : ∀ k, x (k + T) = x k) {u : Vec ℝ n} (hu : u ∈ Submodule.span ℝ (Set.range x)) :
    ∃ c : ℕ → ℝ, ∀ i, u i = ∑ k ∈ range T, c k * x k i := by
  induction hu using Submodule.span_induction with
  | mem a ha =>
    obtain ⟨k, rfl⟩ := ha
    refine ⟨fun j => if j = k % T then 1 else 0, fun i => ?_⟩
    simp only [ite_mul, one_mul, zero_mul, sum_ite_eq', mem_range, Nat.mod_lt k hT, if_true]
    rw [← periodic_mod hx k]
  | zero => exact ⟨fun _ => 0, fun i => by simp⟩
  | add a b _ _ ha hb =>
    obtain ⟨c, hc⟩ := ha
    obtain ⟨c', hc'⟩ := hb
    refine ⟨fun k => c k + c' k, fun i => ?_⟩
    rw [Pi.add_apply, hc, hc', ← sum_add_distrib]
    exact sum_congr rfl fun k _ => by ring
  | smul t a _ ha =>
    obtain ⟨c, hc⟩ := ha
    refine ⟨fun k => t * c k, fun i => ?_⟩
    rw [Pi.smul_apply, smul_eq_mul, hc, mul_sum]
    exact sum_congr rfl fun k _ => by ring

/-- C140: LMS trained again and again on the same `T` samples (targets arbitrary), `mu > 0` and `mu |x(k)|^2 < 2`: whatever the targets and the initial weights, the run approaches
a run that repeats itself every epoch, at a geometric rate that depends only on the inputs and `mu`.  The repeating run differs from the given one by a
combination of the inputs. -/
theorem C140_lms {mu : ℝ} {T : ℕ} (hT : 0 < T) (hx : ∀ k, x (k + T) = x k) (hmu : 0 < mu) (hb : ∀ k, mu * ∑ i, x k i ^ 2 < 2) :
    ∃ r : ℝ, 0 ≤ r ∧ r < 1 ∧ ∀ (o : Obj (lms ℝ n)) (d : ℕ → ℝ) (y e : ℕ → ℝ) (S : ℕ → Core ℝ n Unit), o.core.mu = mu → (∀ k, d (k + T) = d k) →
      Runs (lms ℝ n) o d x y e S →
      ∃ (o' : Obj (lms ℝ n)) (y' e' : ℕ → ℝ) (S' : ℕ → Core ℝ n Unit), o'.core.mu = mu ∧ Runs (lms ℝ n) o' d x y' e' S' ∧
        (∀ k, (S' (k + T)).w = (S' k).w ∧ y' (k + T) = y' k ∧ e' (k + T) = e' k) ∧
        (∃ c : ℕ → ℝ, ∀ i, o'.core.w i - o.core.w i = ∑ k ∈ range T, c k * x k i) ∧
        ∀ k, ∑ i, ((S k).w i - (S' k).w i) ^ 2 ≤ r ^ (k / T) * ∑ i, (o.core.w i - o'.core.w i) ^ 2 ∧
          (e k - e' k) ^ 2 ≤ 2 / mu * (r ^ (k / T) * ∑ i, (o.core.w i - o'.core.w i) ^ 2) := by
  obtain ⟨r, hr0, hr1, hr⟩ := period_contracts (g := fun _ => mu) hT (fun _ => hmu) hb hx
  refine ⟨r, hr0, hr1, fun o d y e S ho hd h => ?_⟩
  obtain ⟨hS, hS0, hSe⟩ := lms_descends h
  rw [ho] at hS
  obtain ⟨w, hmem, hper, hrate⟩ := periodic_limit (g := fun _ => mu) hT (fun _ => hmu) hb (fun _ => rfl) hx hr0 hr1 hr hd hS
  rw [hS0] at hrate hmem
  let o' : Obj (lms ℝ n) := ⟨⟨w, n, mu, ()⟩, []⟩
  have h' := runs_of_safe lms_safe o' trivial d x
  obtain ⟨hS', hS0', hSe'⟩ := lms_descends h'
  set S' := traj (lms ℝ n) (o'.core.withN n) d x with hS'def
  have hw' : ∀ k, (S' k).w = descent (fun _ => mu) x d w k := fun k => hS'.unique (descent_descends _ x d w) hS0' k
  refine ⟨o', _, _, S', rfl, h', fun k => ?_, span_period hT hx hmem, fun k => ?_⟩
  · have hp : (S' (k + T)).w = (S' k).w := by rw [hw', hw', hper]
    refine ⟨hp, ?_, ?_⟩
    · rw [(hSe' (k + T)).1, (hSe' k).1, hp, hx]
    · rw [(hSe' (k + T)).2, (hSe' k).2, hp, hx, hd]
  · have h1 : ∑ i, ((S k).w i - (S' k).w i) ^ 2 ≤ r ^ (k / T) * ∑ i, (o.core.w i - o'.core.w i) ^ 2 := by rw [hw' k]; exact hrate k
    refine ⟨h1, ?_⟩
    rw [(hSe k).2, (hSe' k).2]
    refine err_close.trans ?_
    have h2 : ∑ i, x k i ^ 2 ≤ 2 / mu := by rw [le_div_iff₀ hmu, mul_comm]; exact (hb k).le
    exact mul_le_mul h2 h1 (sum_nonneg fun _ _ => sq_nonneg _) (by positivity)

/-- C140: the same for NLMS, for every `0 < mu < 2` and `eps > 0`, whatever the inputs. -/
theorem C140_nlms {mu eps : ℝ} {T : ℕ} (hT : 0 < T) (hx : ∀ k, x (k + T) = x k) (hmu : 0 < mu) (hmu2 : mu < 2) (heps : 0 < eps) :
    ∃ r : ℝ, 0 ≤ r ∧ r < 1 ∧ ∀ (o : Obj (nlms ℝ n)) (d : ℕ → ℝ) (y e : ℕ → ℝ) (S : ℕ → Core ℝ n (EpsExt ℝ)), o.core.mu = mu → o.core.ext.eps = eps →
      (∀ k, d (k + T) = d k) → Runs (nlms ℝ n) o d x y e S →
      ∃ (o' : Obj (nlms ℝ n)) (y' e' : ℕ → ℝ) (S' : ℕ → Core ℝ n (EpsExt ℝ)), o'.core.mu = mu ∧ o'.core.ext.eps = eps ∧ Runs (nlms ℝ n) o' d x y' e' S' ∧
        (∀ k, (S' (k + T)).w = (S' k).w ∧ y' (k + T) = y' k ∧ e' (k + T) = e' k) ∧
        (∃ c : ℕ → ℝ, ∀ i, o'.core.w i - o.core.w i = ∑ k ∈ range T, c k * x k i) ∧
        ∀ k, ∑ i, ((S k).w i - (S' k).w i) ^ 2 ≤ r ^ (k / T) * ∑ i, (o.core.w i - o'.core.w i) ^ 2 ∧
          (e k - e' k) ^ 2 ≤ (∑ i, x k i ^ 2) * (r ^ (k / T) * ∑ i, (o.core.w i - o'.core.w i) ^ 2) := by
  let g : ℕ → ℝ := fun k => mu / (eps + ∑ i, x k i ^ 2)
  have hg : ∀ k, 0 < g k := fun k => (nlms_gain_range hmu hmu2 heps (x k)).1
  have hb : ∀ k, g k * ∑ i, x k i ^ 2 < 2 := fun k => (nlms_gain_range hmu hmu2 heps (x k)).2
  have hgp : ∀ k, g (k + T) = g k := fun k => by show mu / (eps + ∑ i, x (k + T) i ^ 2) = _; rw [hx]
  obtain ⟨r, hr0, hr1, hr⟩ := period_contracts hT hg hb hx
  refine ⟨r, hr0, hr1, fun o d y e S ho hoe hd h => ?_⟩
  obtain ⟨hS, hS0, hSe⟩ := nlms_descends h
  rw [ho, hoe] at hS
  obtain ⟨w, hmem, hper, hrate⟩ := periodic_limit hT hg hb hgp hx hr0 hr1 hr hd hS
  rw [hS0] at hrate hmem
  let o' : Obj (nlms ℝ n) := ⟨⟨w, n, mu, ⟨eps⟩⟩, []⟩
  have h' := runs_of_safe nlms_safe o' trivial d x
  obtain ⟨hS', hS0', hSe'⟩ := nlms_descends h'
  set S' := traj (nlms ℝ n) (o'.core.withN n) d x with hS'def
  have hw' : ∀ k, (S' k).w = descent g x d w k := fun k => hS'.unique (descent_descends _ x d w) hS0' k
  refine ⟨o', _, _, S', rfl, rfl, h', fun k => ?_, span_period hT hx hmem, fun k => ?_⟩
  · have hp : (S' (k + T)).w = (S' k).w := by rw [hw', hw', hper]
    refine ⟨hp, ?_, ?_⟩
    · rw [(hSe' (k + T)).1, (hSe' k).1, hp, hx]
    · rw [(hSe' (k + T)).2, (hSe' k).2, hp, hx, hd]
  · have h1 : ∑ i, ((S k).w i - (S' k).w i) ^ 2 ≤ r ^ (k / T) * ∑ i, (o.core.w i - o'.core.w i) ^ 2 := by rw [hw' k]; exact hrate k
    refine ⟨h1, ?_⟩
    rw [(hSe k).2, (hSe' k).2]
    exact err_close.trans (mul_le_mul_of_nonneg_left h1 (sum_nonneg fun _ _ => sq_nonneg _))

/-- C140: consistent data (some `ws` predicts every training sample exactly; there may be many such).  LMS trained again and again converges geometrically to the solution closest to
the initial weights: it solves every training equation, and every other solution `u` satisfies `|u - w0|^2 = |u - w|^2 + |w - w0|^2`. -/
theorem C140_lms_consistent {o : Obj (lms ℝ n)} {S : ℕ → Core ℝ n Unit} {T : ℕ} {ws : Vec ℝ n} (h : Runs (lms ℝ n) o d x y e S) (hT : 0 < T) (hx : ∀ k, x (k + T) = x k)
    (hws : ∀ k, d k = ∑ i, ws i * x k i) (hmu : 0 < o.core.mu) (hb : ∀ k, o.core.mu * ∑ i, x k i ^ 2 < 2) :
    ∃ w : Vec ℝ n, (∀ k, d k = ∑ i, w i * x k i) ∧
      (∀ u : Vec ℝ n, (∀ k, d k = ∑ i, u i * x k i) → ∑ i, (u i - o.core.w i) ^ 2 = ∑ i, (u i - w i) ^ 2 + ∑ i, (w i - o.core.w i) ^ 2) ∧
      ∃ r : ℝ, 0 ≤ r ∧ r < 1 ∧ ∀ k, ∑ i, ((S k).w i - w i) ^ 2 ≤ r ^ (k / T) * ∑ i, (o.core.w i - w i) ^ 2 ∧
        e k ^ 2 ≤ 2 / o.core.mu * (r ^ (k / T) * ∑ i, (o.core.w i - w i) ^ 2) := by
  obtain ⟨r, hr0, hr1, hr⟩ := period_contracts (g := fun _ => o.core.mu) hT (fun _ => hmu) hb hx
  have hd : ∀ k, d (k + T) = d k := fun k => by rw [hws, hws, hx]
  obtain ⟨hS, hS0, hSe⟩ := lms_descends h
  obtain ⟨w, hmem, hper, hrate⟩ := periodic_limit (g := fun _ => o.core.mu) hT (fun _ => hmu) hb (fun _ => rfl) hx hr0 hr1 hr hd hS
  rw [hS0] at hrate hmem
  obtain ⟨hsol, hconst, hpy⟩ := consistent_limit hT (fun _ => hmu) hb hx hws hmem hper
  refine ⟨w, hsol, hpy, r, hr0, hr1, fun k => ?_⟩
  have h1 := hrate k
  rw [hconst k] at h1
  refine ⟨h1, ?_⟩
  have h2 : e k ^ 2 = ((d k - ∑ i, (S k).w i * x k i) - (d k - ∑ i, w i * x k i)) ^ 2 := by rw [(hSe k).2, ← hsol k]; ring
  rw [h2]
  refine err_close.trans ?_
  have h3 : ∑ i, x k i ^ 2 ≤ 2 / o.core.mu := by rw [le_div_iff₀ hmu, mul_comm]; exact (hb k).le
  exact mul_le_mul h3 h1 (sum_nonneg fun _ _ => sq_nonneg _) (by positivity)

/-- C140: the same for NLMS, `0 < mu < 2`, `eps > 0`. -/
theorem C140_nlms_consistent {o : Obj (nlms ℝ n)} {S : ℕ → Core ℝ n (EpsExt ℝ)} {T : ℕ} {ws : Vec ℝ n} (h : Runs (nlms ℝ n) o d x y e S) (hT : 0 < T)
    (hx : ∀ k, x (k + T) = x k) (hws : ∀ k, d k = ∑ i, ws i * x k i) (hmu : 0 < o.core.mu) (hmu2 : o.core.mu < 2) (heps : 0 < o.core.ext.eps) :
    ∃ w : Vec ℝ n, (∀ k, d k = ∑ i, w i * x k i) ∧
      (∀ u : Vec ℝ n, (∀ k, d k = ∑ i, u i * x k i) → ∑ i, (u i - o.core.w i) ^ 2 = ∑ i, (u i - w i) ^ 2 + ∑ i, (w i - o.core.w i) ^ 2) ∧
      ∃ r : ℝ, 0 ≤ r ∧ r < 1 ∧ ∀ k, ∑ i, ((S k).w i - w i) ^ 2 ≤ r ^ (k / T) * ∑ i, (o.core.w i - w i) ^ 2 ∧
        e k ^ 2 ≤ (∑ i, x k i ^ 2) * (r ^ (k / T) * ∑ i, (o.core.w i - w i) ^ 2) := by
  let g : ℕ → ℝ := fun k => o.core.mu / (o.core.ext.eps + ∑ i, x k i ^ 2)
  have hg : ∀ k, 0 < g k := fun k => (nlms_gain_range hmu hmu2 heps (x k)).1
  have hb : ∀ k, g k * ∑ i, x k i ^ 2 < 2 := fun k => (nlms_gain_range hmu hmu2 heps (x k)).2
  have hgp : ∀ k, g (k + T) = g k := fun k => by show o.core.mu / (o.core.ext.eps + ∑ i, x (k + T) i ^ 2) = _; rw [hx]
  obtain ⟨r, hr0, hr1, hr⟩ := period_contracts hT hg hb hx
  have hd : ∀ k, d (k + T) = d k := fun k => by rw [hws, hws, hx]
  obtain ⟨hS, hS0, hSe⟩ := nlms_descends h
  obtain ⟨w, hmem, hper, hrate⟩ := periodic_limit hT hg hb hgp hx hr0 hr1 hr hd hS
  rw [hS0] at hrate hmem
  obtain ⟨hsol, hconst, hpy⟩ := consistent_limit hT hg hb hx hws hmem hper
  refine ⟨w, hsol, hpy, r, hr0, hr1, fun k => ?_⟩
  have h1 := hrate k
  rw [hconst k] at h1
  refine ⟨h1, ?_⟩
  have h2 : e k ^ 2 = ((d k - ∑ i, (S k).w i * x k i) - (d k - ∑ i, w i * x k i)) ^ 2 := by rw [(hSe k).2, ← hsol k]; ring
  rw [h2]
  exact err_close.trans (mul_le_mul_of_nonneg_left h1 (sum_nonneg fun _ _ => sq_nonneg _))

/-- C140: if the data is not consistent the limit of the training is in general not the least squares solution, whatever the (fixed) step size: one input equal to `1`, targets
`0, 1, 0, 1, ...`.  At the ends of the epochs the weight tends to `1 / (2 - mu)`; the least squares solution is `1 / 2`. -/
theorem C140_not_least_squares {o : Obj (lms ℝ 1)} {S : ℕ → Core ℝ 1 Unit} (h : Runs (lms ℝ 1) o (fun k => if k % 2 = 0 then 0 else 1) (fun _ _ => 1) y e S)
    (hmu : 0 < o.core.mu) (hmu2 : o.core.mu < 2) :
    Filter.Tendsto (fun E => (S (E * 2)).w 0) Filter.atTop (nhds (1 / (2 - o.core.mu))) ∧ 1 / (2 - o.core.mu) ≠ 1 / 2 ∧
    ∀ u : ℝ, (0 - 1 / 2 * 1) ^ 2 + (1 - 1 / 2 * 1) ^ 2 ≤ (0 - u * 1) ^ 2 + (1 - u * 1 : ℝ) ^ 2 := by
  set mu := o.core.mu with hmudef
  have h2 : (2 - mu) ≠ 0 := by linarith
  have hstep : ∀ E, (S ((E + 1) * 2)).w 0 - 1 / (2 - mu) = (1 - mu) ^ 2 * ((S (E * 2)).w 0 - 1 / (2 - mu)) := by
    intro E
    have hD := (lms_descends h).1
    have a1 := hD (E * 2) 0
    have a2 := hD (E * 2 + 1) 0
    have e1 : (E * 2) % 2 = 0 := by omega
    have e2 : ¬ (E * 2 + 1) % 2 = 0 := by omega
    rw [← hmudef] at a1 a2
    simp only [e1, e2, if_true, if_false, Fin.sum_univ_one, mul_one] at a1 a2
    have e3 : (E + 1) * 2 = E * 2 + 1 + 1 := by ring
    rw [e3, a2, a1]
    field_simp
    ring
  have hclosed : ∀ E, (S (E * 2)).w 0 = 1 / (2 - mu) + ((1 - mu) ^ 2) ^ E * ((S 0).w 0 - 1 / (2 - mu)) := by
    intro E
    induction E with
    | zero => simp
    | succ E ih =>
      have := hstep E
      rw [ih] at this
      rw [pow_succ]
      linarith
  refine ⟨?_, ?_, fun u => by nlinarith [sq_nonneg (u - 1 / 2)]⟩
  · have hr : (1 - mu) ^ 2 < 1 := by nlinarith
    have ht := ((tendsto_pow_atTop_nhds_zero_of_lt_one (sq_nonneg (1 - mu)) hr).mul_const ((S 0).w 0 - 1 / (2 - mu))).const_add (1 / (2 - mu))
    rw [zero_mul, add_zero] at ht
    exact ht.congr fun E => (hclosed E).symm
  · intro hc
    have : 2 - mu = 2 := by
      have := congrArg (fun t : ℝ => 1 / t) hc
      simpa using this
    linarith

/-! ## RLS without forgetting -/

/-- C140: RLS with `mu = 1`, newly created, trained `E` times on the same `T` samples.  For every least squares solution `wls` of the training data (`sum x(k) (d(k) - wls.x(k)) = 0`):
`(eps I + E sum x(k) x(k)^T) (w - wls) = eps (w0 - wls)`; with `sum (u.x(k))^2 >= α |u|^2` the distance to the least squares solution is at most `eps / (eps + E α)` times the
initial one. -/
theorem C140_rls {o : Obj (rls ℝ n)} {S : ℕ → Core ℝ n (RlsExt ℝ n)} {T : ℕ} (h : Runs (rls ℝ n) o d x y e S) (hx : ∀ k, x (k + T) = x k) (hd : ∀ k, d (k + T) = d k)
    (hmu : o.core.mu = 1) (heps : 0 < o.core.ext.eps) (hR : ∀ i j, o.core.ext.R i j = if i = j then 1 / o.core.ext.eps else 0) (wls : Vec ℝ n)
    (hls : ∀ i, ∑ k ∈ range T, x k i * (d k - ∑ j, wls j * x k j) = 0) (E : ℕ) :
    (∀ i, o.core.ext.eps * ((S (E * T)).w i - wls i) + E * ∑ k ∈ range T, x k i * ∑ j, ((S (E * T)).w j - wls j) * x k j = o.core.ext.eps * (o.core.w i - wls i)) ∧
    ∀ α : ℝ, 0 ≤ α → (∀ u : Vec ℝ n, α * ∑ i, u i ^ 2 ≤ ∑ k ∈ range T, (∑ i, u i * x k i) ^ 2) →
      (o.core.ext.eps + E * α) ^ 2 * ∑ i, ((S (E * T)).w i - wls i) ^ 2 ≤ o.core.ext.eps ^ 2 * ∑ i, (o.core.w i - wls i) ^ 2 := by
  have hsum : ∀ (f : ℕ → ℝ), (∀ k, f (k + T) = f k) → ∀ E : ℕ, ∑ m ∈ range (E * T), f m = E * ∑ m ∈ range T, f m := by
    intro f hf E
    induction E with
    | zero => simp
    | succ E ih =>
      rw [Nat.succ_mul, sum_range_add, ih]
      have : ∀ m, f (E * T + m) = f m := fun m => by
        rw [periodic_mod hf (E * T + m), periodic_mod hf m]
        congr 1
        rw [Nat.add_comm, Nat.add_mul_mod_self_right]
      rw [sum_congr rfl fun m _ => this m]
      push_cast; ring
  have hn := rls_normal (by rw [hmu]; exact one_pos) heps hR h wls (E * T)
  set u : Vec ℝ n := fun i => (S (E * T)).w i - wls i with hu
  have hkey : ∀ i, o.core.ext.eps * u i + E * ∑ k ∈ range T, x k i * ∑ j, u j * x k j = o.core.ext.eps * (o.core.w i - wls i) := by
    intro i
    have h1 := hn i
    unfold rlsCorr at h1
    simp only [hmu, one_pow, one_mul] at h1
    have e1 : ∑ j, (o.core.ext.eps * (if i = j then 1 else 0) + ∑ m ∈ range (E * T), x m i * x m j) * ((S (E * T)).w j - wls j)
        = o.core.ext.eps * u i + ∑ m ∈ range (E * T), x m i * ∑ j, u j * x m j := by
      simp only [add_mul, sum_add_distrib]
      congr 1
      · simp [hu]
      · simp only [sum_mul]
        rw [sum_comm]
        refine sum_congr rfl fun m _ => ?_
        rw [mul_sum]
        exact sum_congr rfl fun j _ => by simp only [hu]; ring
    have e2 : ∑ m ∈ range (E * T), (d m - ∑ j, wls j * x m j) * x m i = 0 := by
      rw [hsum (fun m => (d m - ∑ j, wls j * x m j) * x m i) (fun k => by rw [hd, hx])]
      rw [sum_congr rfl fun m _ => show (d m - ∑ j, wls j * x m j) * x m i = x m i * (d m - ∑ j, wls j * x m j) by ring, hls, mul_zero]
    rw [e1, e2, add_zero, hsum (fun m => x m i * ∑ j, u j * x m j) (fun k => by rw [hx])] at h1
    exact h1
  refine ⟨hkey, fun α hα hα' => ?_⟩
  -- scalar product with u
  have h1 : o.core.ext.eps * ∑ i, u i ^ 2 + E * ∑ k ∈ range T, (∑ i, u i * x k i) ^ 2 = o.core.ext.eps * ∑ i, u i * (o.core.w i - wls i) := by
    have e1 : ∑ i, u i * (o.core.ext.eps * u i + E * ∑ k ∈ range T, x k i * ∑ j, u j * x k j) = ∑ i, u i * (o.core.ext.eps * (o.core.w i - wls i)) :=
      sum_congr rfl fun i _ => by rw [hkey i]
    have e2 : ∑ i, u i * (o.core.ext.eps * u i + E * ∑ k ∈ range T, x k i * ∑ j, u j * x k j)
        = o.core.ext.eps * ∑ i, u i ^ 2 + E * ∑ k ∈ range T, (∑ i, u i * x k i) ^ 2 := by
      simp only [mul_add, sum_add_distrib, mul_sum (range T), mul_sum univ, pow_two, sum_mul]
      congr 1
      · exact sum_congr rfl fun i _ => by ring
      · rw [sum_comm]
        refine sum_congr rfl fun k _ => sum_congr rfl fun i _ => ?_
        exact sum_congr rfl fun j _ => by ring
    rw [← e2, e1, mul_sum]
    exact sum_congr rfl fun i _ => by ring
  have hcs := sum_mul_sq_le_sq_mul_sq univ u (fun i => o.core.w i - wls i)
  set a := ∑ i, u i ^ 2 with ha
  set b := ∑ i, (o.core.w i - wls i) ^ 2 with hb
  set c := ∑ i, u i * (o.core.w i - wls i) with hc
  have ha0 : 0 ≤ a := sum_nonneg fun _ _ => sq_nonneg _
  have hb0 : 0 ≤ b := sum_nonneg fun _ _ => sq_nonneg _
  have hE : (0 : ℝ) ≤ E := Nat.cast_nonneg E
  have h2 : (o.core.ext.eps + E * α) * a ≤ o.core.ext.eps * c := by
    have := mul_le_mul_of_nonneg_left (hα' u) hE
    nlinarith
  show (o.core.ext.eps + E * α) ^ 2 * a ≤ o.core.ext.eps ^ 2 * b
  rcases ha0.eq_or_lt with h0 | h0
  · rw [← h0, mul_zero]; positivity
  · have h3 : ((o.core.ext.eps + E * α) * a) ^ 2 ≤ (o.core.ext.eps * c) ^ 2 := pow_le_pow_left₀ (by positivity) h2 2
    have h4 : (o.core.ext.eps * c) ^ 2 ≤ o.core.ext.eps ^ 2 * (a * b) := by
      rw [mul_pow]; exact mul_le_mul_of_nonneg_left hcs (sq_nonneg _)
    have h5 : (o.core.ext.eps + E * α) ^ 2 * a * a ≤ o.core.ext.eps ^ 2 * b * a := by nlinarith
    exact le_of_mul_le_mul_right h5 h0

end user

end Padasip
