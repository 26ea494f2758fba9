import Verif.Props.Epochs
import Verif.Props.Reject
import Verif.Props.Reject2

/-!
# C140 continued: `pretrained_run` with more and more epochs
-/

set_option linter.unusedSectionVars false
set_option linter.unusedSimpArgs false
set_option linter.unusedVariables false

namespace Padasip

open Finset

variable {n : ℕ}

/-- a filter class whose `run` is the recursion with a gain that depends on the step size, the other attributes and the input -/
def Gained (C : FilterClass ℝ n) (gain : ℝ → C.Ext → Vec ℝ n → ℝ) : Prop :=
  ∀ (o : Obj C) (d : ℕ → ℝ) (x : ℕ → Vec ℝ n) (N : ℕ), 0 < N → ∃ log,
    run C (series d N) (rows x N) o
      = (.ok (series (fun k => ∑ i, descent (fun k => gain o.core.mu o.core.ext (x k)) x d o.core.w k i * x k i) N,
          series (fun k => d k - ∑ i, descent (fun k => gain o.core.mu o.core.ext (x k)) x d o.core.w k i * x k i) N,
          series (fun k => List.ofFn (descent (fun k => gain o.core.mu o.core.ext (x k)) x d o.core.w k)) N),
        ⟨⟨descent (fun k => gain o.core.mu o.core.ext (x k)) x d o.core.w N, n, o.core.mu, o.core.ext⟩, log⟩)

theorem gained_of_runs {C : FilterClass ℝ n} {gain : ℝ → C.Ext → Vec ℝ n → ℝ}
    (h : ∀ (o : Obj C) (d : ℕ → ℝ) (x : ℕ → Vec ℝ n), ∃ y e S, Runs C o d x y e S ∧ (∀ k, (S k).nAttr = n ∧ (S k).mu = o.core.mu ∧ (S k).ext = o.core.ext) ∧
      Descends (fun k => gain o.core.mu o.core.ext (x k)) x d (fun k => (S k).w) ∧ (S 0).w = o.core.w ∧
      ∀ k, y k = ∑ i, (S k).w i * x k i ∧ e k = d k - ∑ i, (S k).w i * x k i) : Gained C gain := by
  intro o d x N hN
  obtain ⟨y, e, S, hr, hS, hD, h0, hye⟩ := h o d x
  have hw : ∀ k, (S k).w = descent (fun k => gain o.core.mu o.core.ext (x k)) x d o.core.w k := fun k => hD.unique (descent_descends _ x d o.core.w) h0 k
  refine ⟨series (fun k => List.ofFn (S k).w) N, ?_⟩
  rw [hr.2 N hN]
  have e1 : y = fun k => ∑ i, descent (fun k => gain o.core.mu o.core.ext (x k)) x d o.core.w k i * x k i := by funext k; rw [(hye k).1, hw]
  have e2 : e = fun k => d k - ∑ i, descent (fun k => gain o.core.mu o.core.ext (x k)) x d o.core.w k i * x k i := by funext k; rw [(hye k).2, hw]
  have e3 : S N = ⟨descent (fun k => gain o.core.mu o.core.ext (x k)) x d o.core.w N, n, o.core.mu, o.core.ext⟩ := by
    obtain ⟨a, b, c⟩ := hS N
    have := hw N
    revert a b c this
    generalize S N = s
    intro a b c hw
    cases s
    simp only at a b c hw
    rw [a, b, c, hw]
  have e4 : (fun k => List.ofFn (S k).w) = fun k => List.ofFn (descent (fun k => gain o.core.mu o.core.ext (x k)) x d o.core.w k) := by funext k; rw [hw]
  rw [e3, e4, e1, e2]

theorem lms_gained : Gained (lms ℝ n) (fun mu _ _ => mu) :=
  gained_of_runs fun o d x => by
    have h := runs_of_safe lms_safe o trivial d x
    obtain ⟨h1, h2, h3⟩ := lms_descends h
    exact ⟨_, _, _, h, fun k => ⟨(h.step lms_safe trivial k).2.2, (lms_runs h k).1, (lms_runs h k).2.1⟩, h1, h2, h3⟩

theorem nlms_gained : Gained (nlms ℝ n) (fun mu ext a => mu / (ext.eps + ∑ i, a i ^ 2)) :=
  gained_of_runs fun o d x => by
    have h := runs_of_safe nlms_safe o trivial d x
    obtain ⟨h1, h2, h3⟩ := nlms_descends h
    exact ⟨_, _, _, h, fun k => ⟨(h.step nlms_safe trivial k).2.2, (nlms_runs h k).1, (nlms_runs h k).2.1⟩, h1, h2, h3⟩

theorem series_take {α : Type} (f : ℕ → α) {N T : ℕ} (h : T ≤ N) : (series f N).take T = series f T := by
  unfold series
  rw [← List.map_take, List.take_range, Nat.min_eq_left h]

theorem series_drop {α : Type} (f : ℕ → α) (N T : ℕ) : (series f N).drop T = series (fun k => f (T + k)) (N - T) := by
  apply List.ext_getElem
  · simp [series]
  · intro k h1 h2
    simp [series]

theorem rows_series (x : ℕ → Vec ℝ n) (N : ℕ) : rows x N = series (fun k => List.ofFn (x k)) N := rfl

theorem descent_congr {g g' : ℕ → ℝ} {x x' : ℕ → Vec ℝ n} {d d' : ℕ → ℝ} (w : Vec ℝ n) {T : ℕ} (h : ∀ k < T, g k = g' k ∧ x k = x' k ∧ d k = d' k) :
    ∀ k, k ≤ T → descent g x d w k = descent g' x' d' w k := by
  intro k
  induction k with
  | zero => intro _; rfl
  | succ k ih =>
    intro hk
    obtain ⟨a, b, c⟩ := h k (by omega)
    show (fun i => descent g x d w k i + g k * x k i * (d k - ∑ j, descent g x d w k j * x k j)) = _
    rw [ih (by omega), a, b, c]
    rfl

/-- the limit of `pretrained_run` for a class of this form -/
theorem pretrained_limit {C : FilterClass ℝ n} {gain : ℝ → C.Ext → Vec ℝ n → ℝ} (hC : Gained C gain) (o : Obj C) (d : ℕ → ℝ) (x : ℕ → Vec ℝ n) (N T : ℕ) (ntrain : ℚ)
    (hpre : ∀ E, pretrainedRun C (series d N) (rows x N) ntrain E o
      = run C ((series d N).drop T) ((rows x N).drop T) ((fun o => (run C ((series d N).take T) ((rows x N).take T) o).2)^[E] o))
    (h0 : 0 < T) (h1 : T < N) (hg : ∀ k < T, 0 < gain o.core.mu o.core.ext (x k)) (hb : ∀ k < T, gain o.core.mu o.core.ext (x k) * ∑ i, x k i ^ 2 < 2) :
    ∃ (w : Vec ℝ n) (Y Er : ℕ → ℝ) (Wt : ℕ → Vec ℝ n) (yE eE : ℕ → ℕ → ℝ) (WE : ℕ → ℕ → Vec ℝ n) (r : ℝ),
      (run C (series d T) (rows x T) ⟨⟨w, n, o.core.mu, o.core.ext⟩, []⟩).2.core.w = w ∧
      (∃ c : ℕ → ℝ, ∀ i, w i - o.core.w i = ∑ k ∈ range T, c k * x k i) ∧
      (∃ o', run C (series (fun k => d (T + k)) (N - T)) (rows (fun k => x (T + k)) (N - T)) ⟨⟨w, n, o.core.mu, o.core.ext⟩, []⟩
        = (.ok (series Y (N - T), series Er (N - T), series (fun k => List.ofFn (Wt k)) (N - T)), o')) ∧
      (∀ E, ∃ oE, pretrainedRun C (series d N) (rows x N) ntrain E o
        = (.ok (series (yE E) (N - T), series (eE E) (N - T), series (fun k => List.ofFn (WE E k)) (N - T)), oE)) ∧
      0 ≤ r ∧ r < 1 ∧ (∀ E, ∑ i, (WE E 0 i - w i) ^ 2 ≤ r ^ E * ∑ i, (o.core.w i - w i) ^ 2) ∧
      ∀ k, Filter.Tendsto (fun E => yE E k) Filter.atTop (nhds (Y k)) ∧ Filter.Tendsto (fun E => eE E k) Filter.atTop (nhds (Er k)) ∧
        ∀ i, Filter.Tendsto (fun E => WE E k i) Filter.atTop (nhds (Wt k i)) := by
  let xx : ℕ → Vec ℝ n := fun k => x (k % T)
  let dd : ℕ → ℝ := fun k => d (k % T)
  let g : ℕ → ℝ := fun k => gain o.core.mu o.core.ext (xx k)
  let G : ℕ → ℝ := fun k => gain o.core.mu o.core.ext (x (T + k))
  have hxp : ∀ k, xx (k + T) = xx k := fun k => by show x ((k + T) % T) = _; rw [Nat.add_mod_right]
  have hdp : ∀ k, dd (k + T) = dd k := fun k => by show d ((k + T) % T) = _; rw [Nat.add_mod_right]
  have hgp : ∀ k, g (k + T) = g k := fun k => by show gain _ _ (xx (k + T)) = _; rw [hxp]
  have hg' : ∀ k, 0 < g k := fun k => hg _ (Nat.mod_lt _ h0)
  have hb' : ∀ k, g k * ∑ i, xx k i ^ 2 < 2 := fun k => hb _ (Nat.mod_lt _ h0)
  have hin : ∀ k < T, g k = gain o.core.mu o.core.ext (x k) ∧ xx k = x k ∧ dd k = d k := fun k hk => by
    have : k % T = k := Nat.mod_eq_of_lt hk
    exact ⟨by show gain _ _ (x (k % T)) = _; rw [this], by show x (k % T) = _; rw [this], by show d (k % T) = _; rw [this]⟩
  -- one epoch
  have hepoch : ∀ q : Obj C, q.core.mu = o.core.mu → q.core.ext = o.core.ext →
      (run C (series d T) (rows x T) q).2.core.w = descent g xx dd q.core.w T ∧ (run C (series d T) (rows x T) q).2.core.mu = o.core.mu ∧
      (run C (series d T) (rows x T) q).2.core.ext = o.core.ext := by
    intro q hq1 hq2
    obtain ⟨log, hl⟩ := hC q d x T h0
    rw [hl, hq1, hq2]
    refine ⟨?_, rfl, rfl⟩
    exact (descent_congr q.core.w hin T le_rfl).symm
  have hshift : ∀ E k w, descent g xx dd (descent g xx dd w (E * T)) k = descent g xx dd w (k + E * T) := by
    intro E k w
    have hD : Descends g xx dd (fun k => descent g xx dd w (k + E * T)) := by
      induction E with
      | zero => simpa using descent_descends g xx dd w
      | succ E ihE =>
        have := ihE.shift hgp hxp hdp
        have e : (fun k => descent g xx dd w (k + (E + 1) * T)) = fun k => descent g xx dd w (k + T + E * T) := by funext k; congr 1; ring
        rw [e]; exact this
    exact (descent_descends g xx dd _).unique hD (by simp [descent]) k
  have hiter : ∀ E, ((fun o => (run C ((series d N).take T) ((rows x N).take T) o).2)^[E] o).core.w = descent g xx dd o.core.w (E * T) ∧
      ((fun o => (run C ((series d N).take T) ((rows x N).take T) o).2)^[E] o).core.mu = o.core.mu ∧
      ((fun o => (run C ((series d N).take T) ((rows x N).take T) o).2)^[E] o).core.ext = o.core.ext := by
    intro E
    rw [rows_series, series_take _ h1.le, series_take _ h1.le, ← rows_series]
    induction E with
    | zero => simp [descent]
    | succ E ih =>
      rw [Function.iterate_succ_apply']
      obtain ⟨a, b, c⟩ := hepoch _ ih.2.1 ih.2.2
      refine ⟨?_, b, c⟩
      rw [a, ih.1, hshift, Nat.succ_mul, Nat.add_comm]
  -- the tail
  have htail : ∀ q : Obj C, q.core.mu = o.core.mu → q.core.ext = o.core.ext → ∃ o',
      run C (series (fun k => d (T + k)) (N - T)) (rows (fun k => x (T + k)) (N - T)) q
        = (.ok (series (fun k => ∑ i, descent G (fun k => x (T + k)) (fun k => d (T + k)) q.core.w k i * x (T + k) i) (N - T),
          series (fun k => d (T + k) - ∑ i, descent G (fun k => x (T + k)) (fun k => d (T + k)) q.core.w k i * x (T + k) i) (N - T),
          series (fun k => List.ofFn (descent G (fun k => x (T + k)) (fun k => d (T + k)) q.core.w k)) (N - T)), o') := by
    intro q hq1 hq2
    obtain ⟨log, hl⟩ := hC q (fun k => d (T + k)) (fun k => x (T + k)) (N - T) (by omega)
    rw [hq1, hq2] at hl
    exact ⟨_, hl⟩
  obtain ⟨r, hr0, hr1, hr⟩ := period_contracts h0 hg' hb' hxp
  obtain ⟨w, hmem, hper, hrate⟩ := periodic_limit h0 hg' hb' hgp hxp hr0 hr1 hr hdp (descent_descends g xx dd o.core.w)
  have hrate' : ∀ E, ∑ i, (descent g xx dd o.core.w (E * T) i - w i) ^ 2 ≤ r ^ E * ∑ i, (o.core.w i - w i) ^ 2 := by
    intro E
    have := hrate (E * T)
    rw [Nat.mul_div_cancel _ h0] at this
    have e : descent g xx dd w (E * T) = w := by
      have := periodic_mod hper (E * T)
      rw [Nat.mul_mod_left] at this
      exact this
    rw [e] at this
    exact this
  have hlim : ∀ i, Filter.Tendsto (fun E => descent g xx dd o.core.w (E * T) i) Filter.atTop (nhds (w i)) := by
    intro i
    have h2 : Filter.Tendsto (fun E => (descent g xx dd o.core.w (E * T) i - w i) ^ 2) Filter.atTop (nhds 0) := by
      refine squeeze_zero (fun E => sq_nonneg _) (fun E => le_trans ?_ (hrate' E)) ?_
      · exact single_le_sum (f := fun i => (descent g xx dd o.core.w (E * T) i - w i) ^ 2) (fun _ _ => sq_nonneg _) (mem_univ i)
      · have := (tendsto_pow_atTop_nhds_zero_of_lt_one hr0 hr1).mul_const (∑ i, (o.core.w i - w i) ^ 2)
        rwa [zero_mul] at this
    have h3 : Filter.Tendsto (fun E => |descent g xx dd o.core.w (E * T) i - w i|) Filter.atTop (nhds 0) := by
      have := h2.sqrt
      simpa [Real.sqrt_sq_eq_abs] using this
    have h4 := (tendsto_zero_iff_abs_tendsto_zero _).2 h3
    simpa using h4.add_const (w i)
  have hlimv : Filter.Tendsto (fun E => descent g xx dd o.core.w (E * T)) Filter.atTop (nhds w) := tendsto_pi_nhds.2 hlim
  have hWlim : ∀ k i, Filter.Tendsto (fun E => descent G (fun k => x (T + k)) (fun k => d (T + k)) (descent g xx dd o.core.w (E * T)) k i) Filter.atTop
      (nhds (descent G (fun k => x (T + k)) (fun k => d (T + k)) w k i)) := fun k i => ((descent_continuous G _ _ k i).tendsto w).comp hlimv
  have hYlim : ∀ k, Filter.Tendsto (fun E => ∑ i, descent G (fun k => x (T + k)) (fun k => d (T + k)) (descent g xx dd o.core.w (E * T)) k i * x (T + k) i) Filter.atTop
      (nhds (∑ i, descent G (fun k => x (T + k)) (fun k => d (T + k)) w k i * x (T + k) i)) := fun k =>
    tendsto_finsetSum _ fun i _ => (hWlim k i).mul_const _
  refine ⟨w, _, _, _, fun E k => ∑ i, descent G (fun k => x (T + k)) (fun k => d (T + k)) (descent g xx dd o.core.w (E * T)) k i * x (T + k) i,
    fun E k => d (T + k) - ∑ i, descent G (fun k => x (T + k)) (fun k => d (T + k)) (descent g xx dd o.core.w (E * T)) k i * x (T + k) i,
    fun E k => descent G (fun k => x (T + k)) (fun k => d (T + k)) (descent g xx dd o.core.w (E * T)) k, r, ?_, ?_, htail ⟨⟨w, n, o.core.mu, o.core.ext⟩, []⟩ rfl rfl,
    fun E => ?_, hr0, hr1, hrate', fun k => ⟨hYlim k, (hYlim k).const_sub _, hWlim k⟩⟩
  · rw [(hepoch ⟨⟨w, n, o.core.mu, o.core.ext⟩, []⟩ rfl rfl).1]
    have := hper 0
    rw [Nat.zero_add] at this
    exact this
  · obtain ⟨c, hc⟩ := span_period h0 hxp hmem
    refine ⟨c, fun i => (hc i).trans (sum_congr rfl fun k hk => ?_)⟩
    rw [(hin k (mem_range.1 hk)).2.1]
  · obtain ⟨a, b, c⟩ := hiter E
    obtain ⟨o', ho'⟩ := htail _ b c
    refine ⟨o', ?_⟩
    rw [hpre E, rows_series, series_drop, series_drop, ← rows_series (fun k => x (T + k))]
    rw [a] at ho'
    exact ho'

/-- C140: `pretrained_run` of LMS with more and more epochs.  Let `0 < T < N`, `T = int(N*ntrain)` be the number of training samples, `mu > 0` and `mu |x(k)|^2 < 2` on the training samples
(the targets are arbitrary).  There are weights `w`, reproduced by one training epoch and reachable from the initial weights by a combination of the training inputs, such that the
weights after `E` epochs converge to `w` geometrically, and every output, error and reported weight of the test part converges to the one of a filter started with `w`. -/
theorem C140_lms_pretrained (o : Obj (lms ℝ n)) (d : ℕ → ℝ) (x : ℕ → Vec ℝ n) (N T : ℕ) (ntrain : ℚ) (hT : (T : ℚ) ≤ N * ntrain) (hT' : N * ntrain < T + 1)
    (h0 : 0 < T) (h1 : T < N) (hmu : 0 < o.core.mu) (hb : ∀ k < T, o.core.mu * ∑ i, x k i ^ 2 < 2) :
    ∃ (w : Vec ℝ n) (Y Er : ℕ → ℝ) (Wt : ℕ → Vec ℝ n) (yE eE : ℕ → ℕ → ℝ) (WE : ℕ → ℕ → Vec ℝ n) (r : ℝ),
      (run (lms ℝ n) (series d T) (rows x T) ⟨⟨w, n, o.core.mu, o.core.ext⟩, []⟩).2.core.w = w ∧
      (∃ c : ℕ → ℝ, ∀ i, w i - o.core.w i = ∑ k ∈ range T, c k * x k i) ∧
      (∃ o', run (lms ℝ n) (series (fun k => d (T + k)) (N - T)) (rows (fun k => x (T + k)) (N - T)) ⟨⟨w, n, o.core.mu, o.core.ext⟩, []⟩
        = (.ok (series Y (N - T), series Er (N - T), series (fun k => List.ofFn (Wt k)) (N - T)), o')) ∧
      (∀ E, ∃ oE, pretrainedRun (lms ℝ n) (series d N) (rows x N) ntrain E o
        = (.ok (series (yE E) (N - T), series (eE E) (N - T), series (fun k => List.ofFn (WE E k)) (N - T)), oE)) ∧
      0 ≤ r ∧ r < 1 ∧ (∀ E, ∑ i, (WE E 0 i - w i) ^ 2 ≤ r ^ E * ∑ i, (o.core.w i - w i) ^ 2) ∧
      ∀ k, Filter.Tendsto (fun E => yE E k) Filter.atTop (nhds (Y k)) ∧ Filter.Tendsto (fun E => eE E k) Filter.atTop (nhds (Er k)) ∧
        ∀ i, Filter.Tendsto (fun E => WE E k i) Filter.atTop (nhds (Wt k i)) := by
  have hlen : (series d N).length = N := length_series d N
  exact pretrained_limit lms_gained o d x N T ntrain (fun E =>
    (C10_pretrained (fun _ _ _ => .error .valueError) Kind.lms o trivial (series d N) (rows x N) (by simp)
      (fun r hr => by obtain ⟨k, -, rfl⟩ := List.mem_map.1 hr; simp) ntrain E T (by rw [hlen]; exact hT) (by rw [hlen]; exact hT') h0 (by rw [hlen]; exact h1)).1)
    h0 h1 (fun _ _ => hmu) hb

/-- C140: the same for NLMS, `0 < mu < 2`, `eps > 0`, whatever the data. -/
theorem C140_nlms_pretrained (o : Obj (nlms ℝ n)) (d : ℕ → ℝ) (x : ℕ → Vec ℝ n) (N T : ℕ) (ntrain : ℚ) (hT : (T : ℚ) ≤ N * ntrain) (hT' : N * ntrain < T + 1)
    (h0 : 0 < T) (h1 : T < N) (hmu : 0 < o.core.mu) (hmu2 : o.core.mu < 2) (heps : 0 < o.core.ext.eps) :
    ∃ (w : Vec ℝ n) (Y Er : ℕ → ℝ) (Wt : ℕ → Vec ℝ n) (yE eE : ℕ → ℕ → ℝ) (WE : ℕ → ℕ → Vec ℝ n) (r : ℝ),
      (run (nlms ℝ n) (series d T) (rows x T) ⟨⟨w, n, o.core.mu, o.core.ext⟩, []⟩).2.core.w = w ∧
      (∃ c : ℕ → ℝ, ∀ i, w i - o.core.w i = ∑ k ∈ range T, c k * x k i) ∧
      (∃ o', run (nlms ℝ n) (series (fun k => d (T + k)) (N - T)) (rows (fun k => x (T + k)) (N - T)) ⟨⟨w, n, o.core.mu, o.core.ext⟩, []⟩
        = (.ok (series Y (N - T), series Er (N - T), series (fun k => List.ofFn (Wt k)) (N - T)), o')) ∧
      (∀ E, ∃ oE, pretrainedRun (nlms ℝ n) (series d N) (rows x N) ntrain E o
        = (.ok (series (yE E) (N - T), series (eE E) (N - T), series (fun k => List.ofFn (WE E k)) (N - T)), oE)) ∧
      0 ≤ r ∧ r < 1 ∧ (∀ E, ∑ i, (WE E 0 i - w i) ^ 2 ≤ r ^ E * ∑ i, (o.core.w i - w i) ^ 2) ∧
      ∀ k, Filter.Tendsto (fun E => yE E k) Filter.atTop (nhds (Y k)) ∧ Filter.Tendsto (fun E => eE E k) Filter.atTop (nhds (Er k)) ∧
        ∀ i, Filter.Tendsto (fun E => WE E k i) Filter.atTop (nhds (Wt k i)) := by
  have hlen : (series d N).length = N := length_series d N
  exact pretrained_limit nlms_gained o d x N T ntrain (fun E =>
    (C10_pretrained (fun _ _ _ => .error .valueError) Kind.nlms o trivial (series d N) (rows x N) (by simp)
      (fun r hr => by obtain ⟨k, -, rfl⟩ := List.mem_map.1 hr; simp) ntrain E T (by rw [hlen]; exact hT) (by rw [hlen]; exact hT') h0 (by rw [hlen]; exact h1)).1)
    h0 h1 (fun k _ => (nlms_gain_range hmu hmu2 heps (x k)).1) (fun k _ => (nlms_gain_range hmu hmu2 heps (x k)).2)

/-! ## The hypotheses are met -/

/-- `C140_lms`, `C140_lms_consistent`: three samples in the plane, two of them parallel; `mu = 1/4` -/
example : ∃ (o : Obj (lms ℝ 2)) (x : ℕ → Vec ℝ 2) (y e : ℕ → ℝ) (S : ℕ → Core ℝ 2 Unit), o.core.mu = 1 / 4 ∧ 0 < o.core.mu ∧ (∀ k, x (k + 3) = x k) ∧
    (∀ k, 1 / 4 * ∑ i, x k i ^ 2 < 2) ∧ Runs (lms ℝ 2) o (fun k => ∑ i, (![1, -1] : Vec ℝ 2) i * x k i) x y e S ∧ x 0 ≠ x 1 := by
  refine ⟨⟨⟨![5, 7], 2, 1 / 4, ()⟩, []⟩, fun k => ![((k % 3 : ℕ) : ℝ), 0], _, _, _, rfl, by norm_num, fun k => by simp, fun k => ?_, runs_of_safe lms_safe _ trivial _ _, ?_⟩
  · have h3 : k % 3 < 3 := Nat.mod_lt _ (by norm_num)
    have : ((k % 3 : ℕ) : ℝ) ≤ 2 := by exact_mod_cast Nat.lt_succ_iff.1 h3
    have h0 : (0 : ℝ) ≤ ((k % 3 : ℕ) : ℝ) := Nat.cast_nonneg _
    simp [Fin.sum_univ_two]
    nlinarith
  · intro h
    have := congrFun h 0
    norm_num at this

/-- `C140_nlms`, `C140_nlms_consistent` -/
example : ∃ (o : Obj (nlms ℝ 2)) (x : ℕ → Vec ℝ 2) (y e : ℕ → ℝ) (S : ℕ → Core ℝ 2 (EpsExt ℝ)), o.core.mu = 3 / 2 ∧ o.core.ext.eps = 1 / 1000 ∧ (∀ k, x (k + 3) = x k) ∧
    Runs (nlms ℝ 2) o (fun k => ∑ i, (![1, -1] : Vec ℝ 2) i * x k i) x y e S :=
  ⟨⟨⟨![5, 7], 2, 3 / 2, ⟨1 / 1000⟩⟩, []⟩, fun k => ![((k % 3 : ℕ) : ℝ), 1], _, _, _, rfl, rfl, fun k => by simp, runs_of_safe nlms_safe _ trivial _ _⟩

/-- `C140_not_least_squares` -/
example : ∃ (o : Obj (lms ℝ 1)) (y e : ℕ → ℝ) (S : ℕ → Core ℝ 1 Unit), Runs (lms ℝ 1) o (fun k => if k % 2 = 0 then 0 else 1) (fun _ _ => 1) y e S ∧
    0 < o.core.mu ∧ o.core.mu < 2 :=
  ⟨⟨⟨![0], 1, 1, ()⟩, []⟩, _, _, _, runs_of_safe lms_safe _ trivial _ _, by norm_num, by norm_num⟩

/-- `C140_rls`: one input equal to `1`, targets `0, 1, 0, 1, ...`, least squares solution `1/2`, `α = 2` -/
example : ∃ (o : Obj (rls ℝ 1)) (y e : ℕ → ℝ) (S : ℕ → Core ℝ 1 (RlsExt ℝ 1)),
    Runs (rls ℝ 1) o (fun k => if k % 2 = 0 then 0 else 1) (fun _ _ => 1) y e S ∧ o.core.mu = 1 ∧ 0 < o.core.ext.eps ∧
    (∀ i j, o.core.ext.R i j = if i = j then 1 / o.core.ext.eps else 0) ∧
    (∀ i : Fin 1, ∑ k ∈ range 2, (1 : ℝ) * ((if k % 2 = 0 then 0 else 1) - ∑ j : Fin 1, (1 / 2 : ℝ) * 1) = 0) ∧
    ∀ u : Vec ℝ 1, 2 * ∑ i, u i ^ 2 ≤ ∑ k ∈ range 2, (∑ i, u i * (1 : ℝ)) ^ 2 := by
  refine ⟨⟨⟨![0], 1, 1, ⟨1 / 10, fun i j => if i = j then 10 else 0⟩⟩, []⟩, _, _, _, runs_of_safe rls_safe _ (by show decide ((1 : ℝ) = 0) = false; simp) _ _, rfl, by norm_num,
    fun i j => by norm_num, fun i => ?_, fun u => ?_⟩
  · simp [sum_range_succ]
  · simp [sum_range_succ]

/-- `C140_lms_pretrained`: ten samples, half of them for training -/
example (o : Obj (lms ℝ 1)) (hmu : o.core.mu = 1 / 10) : ((5 : ℕ) : ℚ) ≤ (10 : ℕ) * (1 / 2) ∧ ((10 : ℕ) : ℚ) * (1 / 2) < (5 : ℕ) + 1 ∧ 0 < o.core.mu ∧
    ∀ k < 5, o.core.mu * ∑ i : Fin 1, ((fun j _ => (j : ℝ)) : ℕ → Vec ℝ 1) k i ^ 2 < 2 := by
  refine ⟨by norm_num, by norm_num, by rw [hmu]; norm_num, fun k hk => ?_⟩
  have h4 : (k : ℝ) ≤ 4 := by exact_mod_cast Nat.lt_succ_iff.1 hk
  have h0 : (0 : ℝ) ≤ k := Nat.cast_nonneg _
  simp only [hmu, Fin.sum_univ_one]
  nlinarith

end Padasip
