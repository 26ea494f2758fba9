import Verif.Props.Rounding
import Verif.Props.Rls
import Verif.Lemmas.Gram
import Verif.Props.Oc
import Verif.Spec.Solve
import Mathlib.Topology.Algebra.Order.Field
import Mathlib.Topology.Instances.Matrix
import Mathlib.Analysis.SpecialFunctions.Pow.Continuity
import Mathlib.Analysis.SpecialFunctions.Trigonometric.DerivHyp

/-!
# C91: finite precision converges to exact arithmetic

A family of rounded arithmetics `F 0, F 1, ...` with relative errors tending to 0. For every filter, what `run` reports in these arithmetics tends to what it reports in
exact arithmetic, sample by sample - except for the sign filters when an error is exactly zero, where it may not.
-/

set_option linter.unusedSectionVars false
set_option linter.unusedVariables false
set_option linter.unusedSimpArgs false

namespace Padasip

open Finset Filter

/-- numbers of the arithmetics `F m`, tending to the real number `L` -/
def T {F : ℕ → Rounding} (a : (m : ℕ) → Fl (F m)) (L : ℝ) : Prop := Tendsto (fun m => (a m).val) atTop (nhds L)

section calculus
variable {F : ℕ → Rounding} (hF : Tendsto (fun m => (F m).u) atTop (nhds 0)) {a b : (m : ℕ) → Fl (F m)} {L M : ℝ}

theorem T.const (L : ℝ) : T (F := F) (fun m => ⟨L⟩) L := tendsto_const_nhds

include hF

theorem tendsto_round {z c : ℕ → ℝ} (hz : Tendsto z atTop (nhds L)) (hc : ∀ᶠ m in atTop, |c m - z m| ≤ (F m).u * |z m|) : Tendsto c atTop (nhds L) := by
  have h1 : Tendsto (fun m => (F m).u * |z m|) atTop (nhds 0) := by
    have := hF.mul hz.abs
    rwa [zero_mul] at this
  have h2 : Tendsto (fun m => c m - z m) atTop (nhds 0) := squeeze_zero_norm' (by simpa using hc) h1
  have h3 := h2.add hz
  simpa using h3

theorem T.add (ha : T a L) (hb : T b M) : T (fun m => a m + b m) (L + M) :=
  tendsto_round hF (Tendsto.add ha hb) (.of_forall fun m => (F m).add_err _ _)

theorem T.sub (ha : T a L) (hb : T b M) : T (fun m => a m - b m) (L - M) :=
  tendsto_round hF (Tendsto.sub ha hb) (.of_forall fun m => (F m).sub_err _ _)

theorem T.mul (ha : T a L) (hb : T b M) : T (fun m => a m * b m) (L * M) :=
  tendsto_round hF (Tendsto.mul ha hb) (.of_forall fun m => (F m).mul_err _ _)

theorem T.div (ha : T a L) (hb : T b M) (hM : M ≠ 0) : T (fun m => a m / b m) (L / M) :=
  tendsto_round hF (Tendsto.div ha hb hM) ((hb.eventually_ne hM).mono fun m h => (F m).div_err _ _ h)

omit hF in
theorem T.neg (ha : T a L) : T (fun m => -a m) (-L) := Tendsto.neg ha

omit hF in
theorem T.abs (ha : T a L) : T (fun m => Scalar.abs (a m)) |L| := Tendsto.abs ha

omit hF in
theorem T.sgn (ha : T a L) (hL : L ≠ 0) : T (fun m => Scalar.sgn (a m)) (Scalar.sgn L) := by
  refine tendsto_const_nhds.congr' ?_
  rcases lt_or_gt_of_ne hL with h | h
  · refine (Tendsto.eventually_lt_const h ha).mono fun m hm => ?_
    show (if 0 < L then (1 : ℝ) else if L < 0 then -1 else 0) = if 0 < (a m).val then 1 else if (a m).val < 0 then -1 else 0
    rw [if_neg (not_lt.mpr h.le), if_pos h, if_neg (not_lt.mpr hm.le), if_pos hm]
  · refine (Tendsto.eventually_const_lt h ha).mono fun m hm => ?_
    show (if 0 < L then (1 : ℝ) else if L < 0 then -1 else 0) = if 0 < (a m).val then 1 else if (a m).val < 0 then -1 else 0
    rw [if_pos h, if_pos hm]

theorem T.mul_sgn (ha : T a 0) : T (fun m => a m * Scalar.sgn (b m)) 0 := by
  have h1 : Tendsto (fun m => (a m).val * (Scalar.sgn (b m) : Fl (F m)).val) atTop (nhds 0) := by
    refine squeeze_zero_norm (a := fun m => |(a m).val|) (fun m => ?_) (by have h0 : T (fun m => Scalar.abs (a m)) |(0 : ℝ)| := ha.abs; rw [abs_zero] at h0; exact h0)
    rw [Real.norm_eq_abs, abs_mul]
    have : |(Scalar.sgn (b m) : Fl (F m)).val| ≤ 1 := by
      show |if 0 < (b m).val then (1 : ℝ) else if (b m).val < 0 then -1 else 0| ≤ 1
      split
      · simp
      · split <;> simp
    exact mul_le_of_le_one_right (abs_nonneg _) this
  exact tendsto_round hF h1 (.of_forall fun m => (F m).mul_err _ _)

theorem T.exp (ha : T a L) : T (fun m => Transc.exp (a m)) (Real.exp L) :=
  tendsto_round hF ((Real.continuous_exp.tendsto L).comp ha) (.of_forall fun m => (F m).exp_err _)

theorem T.tanh (ha : T a L) : T (fun m => Transc.tanh (a m)) (Real.tanh L) := by
  have hc : Continuous Real.tanh := by
    have : Real.tanh = fun x => Real.sinh x / Real.cosh x := funext Real.tanh_eq_sinh_div_cosh
    rw [this]
    exact Real.continuous_sinh.div Real.continuous_cosh fun x => (Real.cosh_pos x).ne'
  exact tendsto_round hF ((hc.tendsto L).comp ha) (.of_forall fun m => (F m).tanh_err _)

theorem T.pow (ha : T a L) (hb : T b M) (hL : L ≠ 0 ∨ 0 < M) : T (fun m => Transc.pow (a m) (b m)) (L ^ M) :=
  tendsto_round hF (Tendsto.rpow ha hb hL) (.of_forall fun m => (F m).pow_err _ _)

theorem T.listSum {N : ℕ} (f : (m : ℕ) → Fin N → Fl (F m)) (g : Fin N → ℝ) (h : ∀ i, T (fun m => f m i) (g i)) :
    T (fun m => (List.ofFn (f m)).sum) (∑ i, g i) := by
  induction N with
  | zero => exact T.const (F := F) 0
  | succ N ih =>
    rw [Fin.sum_univ_succ]
    have := (h 0).add hF (ih (fun m i => f m i.succ) (fun i => g i.succ) fun i => h i.succ)
    simpa [List.ofFn_succ] using this

variable {n : ℕ}

theorem T.vsum (f : (m : ℕ) → Vec (Fl (F m)) n) (g : Vec ℝ n) (h : ∀ i, T (fun m => f m i) (g i)) : T (fun m => vsum (f m)) (∑ i, g i) :=
  T.listSum hF f g h

theorem T.dot (f f' : (m : ℕ) → Vec (Fl (F m)) n) (g g' : Vec ℝ n) (h : ∀ i, T (fun m => f m i) (g i)) (h' : ∀ i, T (fun m => f' m i) (g' i)) :
    T (fun m => dot (f m) (f' m)) (Padasip.dot g g') := by
  rw [dot_eq]
  exact T.vsum hF _ _ fun i => (h i).mul hF (h' i)

end calculus

/-- one step of a run of OCNLMS, in any arithmetic -/
theorem oc_runs_full {K : Type} [Scalar K] {n : ℕ} {d : ℕ → K} {x : ℕ → Vec K n} {y e : ℕ → K} {o : Obj (ocnlms K n)} {S : ℕ → Core K n (OcExt K n)}
    (h : Runs (ocnlms K n) o d x y e S) (ho : OcOk (ocExtOf o)) (k : ℕ) :
    OcOk (S k).ext ∧ (S k).nAttr = n ∧ (S k).mu = o.core.mu ∧ y k = ocY (S k) (x k) ∧ e k = d k - y k ∧
    (let q1 := ocStoreX (ocAdvance (S k).ext) (x k)
     let c : Vec K n := fun i => x k i - ocMx q1 i
     (S (k + 1)).w = (fun i => (S k).w i + (S k).mu / ((S k).ext.eps + dot c c) * e k * c i) ∧
     (S (k + 1)).ext = ocStoreD (ocAdvance q1) (e k + (dot (S k).w c + ocMd q1))) := by
  have st : ∀ k, OcOk (S k).ext ∧ (S k).nAttr = n ∧ y k = ocY (S k) (x k) ∧ e k = d k - y k ∧ S (k + 1) = 
      (let q1 := ocStoreX (ocAdvance (S k).ext) (x k)
       let c : Vec K n := fun i => x k i - ocMx q1 i
       { S k with
         w := fun i => (S k).w i + (S k).mu / ((S k).ext.eps + dot c c) * e k * c i
         ext := ocStoreD (ocAdvance q1) (e k + (dot (S k).w c + ocMd q1)) }) := by
    intro k
    obtain ⟨h1, h2, h3⟩ := h.step ocnlms_safe ho k
    rw [oc_body (s := S k) h2 h3] at h1
    have h4 := Prod.mk.inj (Except.ok.inj (Prod.mk.inj h1).1)
    have h5 := (Prod.mk.inj h1).2
    refine ⟨h2, h3, h4.1.symm, by rw [← h4.1, ← h4.2], ?_⟩
    rw [← h5, ← h4.2]
    rfl
  obtain ⟨s1, s2, s3, s4, s5⟩ := st k
  have hmu : ∀ k, (S k).mu = o.core.mu := by
    intro k
    induction k with
    | zero => rw [h.1]; rfl
    | succ k ih => rw [(st k).2.2.2.2]; exact ih
  exact ⟨s1, s2, hmu k, s3, s4, by rw [s5], by rw [s5]⟩

/-! ## the filters -/

variable {F : ℕ → Rounding} {n : ℕ}

/-- **Specification**: two families of runs of a filter class, `m`-th one in the arithmetic `F m`, and a run in exact arithmetic, such that the outputs, errors and weights of
the former tend to those of the latter, at every sample. -/
def Consistent (F : ℕ → Rounding) (y e : (m : ℕ) → ℕ → Fl (F m)) (w : (m : ℕ) → ℕ → Vec (Fl (F m)) n) (y' e' : ℕ → ℝ) (w' : ℕ → Vec ℝ n) : Prop :=
  ∀ k, Tendsto (fun m => (y m k).val) atTop (nhds (y' k)) ∧ Tendsto (fun m => (e m k).val) atTop (nhds (e' k)) ∧
    ∀ i, Tendsto (fun m => (w m k i).val) atTop (nhds (w' k i))

section filters
variable (hF : Tendsto (fun m => (F m).u) atTop (nhds 0)) (d : ℕ → ℝ) (x : ℕ → Vec ℝ n)
variable {y e : (m : ℕ) → ℕ → Fl (F m)} {y' e' : ℕ → ℝ} (w0 : Vec ℝ n) (mu : ℝ)
include hF

/-- output and error, given the weights -/
theorem tends_ye {w : (m : ℕ) → Vec (Fl (F m)) n} {w' : Vec ℝ n} {yk ek : (m : ℕ) → Fl (F m)} {k : ℕ} (hw : ∀ i, T (fun m => w m i) (w' i)) {yk' ek' : ℝ}
    (hy : ∀ m, yk m = dot (w m) ((x k).fl (F m))) (he : ∀ m, ek m = ⟨d k⟩ - yk m) (hy' : yk' = dot w' (x k)) (he' : ek' = d k - yk') :
    T yk yk' ∧ T ek ek' := by
  have h1 : T yk yk' := by
    rw [funext hy, hy']
    exact T.dot hF _ _ _ _ hw fun i => T.const _
  refine ⟨h1, ?_⟩
  rw [funext he, he']
  exact (T.const (d k)).sub hF h1

/-- C91 for LMS. -/
theorem C91_lms {S : (m : ℕ) → ℕ → Core (Fl (F m)) n Unit} {S' : ℕ → Core ℝ n Unit}
    (h : ∀ m, Runs (lms (Fl (F m)) n) ⟨⟨w0.fl (F m), n, ⟨mu⟩, ()⟩, []⟩ (fun k => ⟨d k⟩) (fun k => (x k).fl (F m)) (y m) (e m) (S m))
    (h' : Runs (lms ℝ n) ⟨⟨w0, n, mu, ()⟩, []⟩ d x y' e' S') :
    Consistent F y e (fun m k => (S m k).w) y' e' (fun k => (S' k).w) := by
  have step : ∀ k, (∀ i, T (fun m => (S m k).w i) ((S' k).w i)) → T (fun m => y m k) (y' k) ∧ T (fun m => e m k) (e' k) := fun k hk =>
    tends_ye hF d x hk (fun m => (lms_runs (h m) k).2.2.1) (fun m => (lms_runs (h m) k).2.2.2.1) (lms_runs h' k).2.2.1 (lms_runs h' k).2.2.2.1
  have key : ∀ k i, T (fun m => (S m k).w i) ((S' k).w i) := by
    intro k
    induction k with
    | zero => intro i; simp only [fun m => (h m).1, h'.1]; exact T.const _
    | succ k ih =>
      intro i
      obtain ⟨m2, -, -, -, hw'⟩ := lms_runs h' k
      simp only [fun m => (lms_runs (h m) k).2.2.2.2, fun m => (lms_runs (h m) k).1, hw', m2]
      exact (ih i).add hF (((T.const mu).mul hF (T.const (x k i))).mul hF (step k ih).2)
  exact fun k => ⟨(step k (key k)).1, (step k (key k)).2, key k⟩


/-- C91 for LMF. -/
theorem C91_lmf {S : (m : ℕ) → ℕ → Core (Fl (F m)) n (Unit)} {S' : ℕ → Core ℝ n (Unit)}
    (h : ∀ m, Runs (lmf (Fl (F m)) n) ⟨⟨w0.fl (F m), n, ⟨mu⟩, ()⟩, []⟩ (fun k => ⟨d k⟩) (fun k => (x k).fl (F m)) (y m) (e m) (S m))
    (h' : Runs (lmf ℝ n) ⟨⟨w0, n, mu, ()⟩, []⟩ d x y' e' S') :
    Consistent F y e (fun m k => (S m k).w) y' e' (fun k => (S' k).w) := by
  have step : ∀ k, (∀ i, T (fun m => (S m k).w i) ((S' k).w i)) → T (fun m => y m k) (y' k) ∧ T (fun m => e m k) (e' k) := fun k hk =>
    tends_ye hF d x hk (fun m => (lmf_runs (h m) k).2.2.1) (fun m => (lmf_runs (h m) k).2.2.2.1) (lmf_runs h' k).2.2.1 (lmf_runs h' k).2.2.2.1
  have key : ∀ k i, T (fun m => (S m k).w i) ((S' k).w i) := by
    intro k
    induction k with
    | zero => intro i; simp only [fun m => (h m).1, h'.1]; exact T.const _
    | succ k ih =>
      intro i
      obtain ⟨m2, e2, -, -, hw'⟩ := lmf_runs h' k
      have se := (step k ih).2
      simp only [fun m => (lmf_runs (h m) k).2.2.2.2, fun m => (lmf_runs (h m) k).1, fun m => (lmf_runs (h m) k).2.1, hw', m2, e2]
      exact (ih i).add hF (((T.const mu).mul hF (T.const (x k i))).mul hF ((se.mul hF se).mul hF se))
  exact fun k => ⟨(step k (key k)).1, (step k (key k)).2, key k⟩

/-- C91 for NLMS with `eps > 0`. -/
theorem C91_nlms (eps : ℝ) (heps : 0 < eps) {S : (m : ℕ) → ℕ → Core (Fl (F m)) n (EpsExt (Fl (F m)))} {S' : ℕ → Core ℝ n (EpsExt ℝ)}
    (h : ∀ m, Runs (nlms (Fl (F m)) n) ⟨⟨w0.fl (F m), n, ⟨mu⟩, ⟨⟨eps⟩⟩⟩, []⟩ (fun k => ⟨d k⟩) (fun k => (x k).fl (F m)) (y m) (e m) (S m))
    (h' : Runs (nlms ℝ n) ⟨⟨w0, n, mu, ⟨eps⟩⟩, []⟩ d x y' e' S') :
    Consistent F y e (fun m k => (S m k).w) y' e' (fun k => (S' k).w) := by
  have step : ∀ k, (∀ i, T (fun m => (S m k).w i) ((S' k).w i)) → T (fun m => y m k) (y' k) ∧ T (fun m => e m k) (e' k) := fun k hk =>
    tends_ye hF d x hk (fun m => (nlms_runs (h m) k).2.2.1) (fun m => (nlms_runs (h m) k).2.2.2.1) (nlms_runs h' k).2.2.1 (nlms_runs h' k).2.2.2.1
  have key : ∀ k i, T (fun m => (S m k).w i) ((S' k).w i) := by
    intro k
    induction k with
    | zero => intro i; simp only [fun m => (h m).1, h'.1]; exact T.const _
    | succ k ih =>
      intro i
      obtain ⟨m2, e2, -, -, hw'⟩ := nlms_runs h' k
      have se := (step k ih).2
      simp only [fun m => (nlms_runs (h m) k).2.2.2.2, fun m => (nlms_runs (h m) k).1, fun m => (nlms_runs (h m) k).2.1, hw', m2, e2]
      have hq : eps + dot (x k) (x k) ≠ 0 := by
        rw [dot_eq]
        have : 0 ≤ ∑ j, x k j * x k j := sum_nonneg fun _ _ => mul_self_nonneg _
        linarith
      have hg := (T.const (F := F) mu).div hF ((T.const eps).add hF (T.dot hF (fun m => (x k).fl (F m)) (fun m => (x k).fl (F m)) (x k) (x k)
        (fun j => T.const _) (fun j => T.const _))) hq
      exact (ih i).add hF ((hg.mul hF (T.const (x k i))).mul hF se)
  exact fun k => ⟨(step k (key k)).1, (step k (key k)).2, key k⟩

/-- C91 for NLMF with `eps > 0`. -/
theorem C91_nlmf (eps : ℝ) (heps : 0 < eps) {S : (m : ℕ) → ℕ → Core (Fl (F m)) n (EpsExt (Fl (F m)))} {S' : ℕ → Core ℝ n (EpsExt ℝ)}
    (h : ∀ m, Runs (nlmf (Fl (F m)) n) ⟨⟨w0.fl (F m), n, ⟨mu⟩, ⟨⟨eps⟩⟩⟩, []⟩ (fun k => ⟨d k⟩) (fun k => (x k).fl (F m)) (y m) (e m) (S m))
    (h' : Runs (nlmf ℝ n) ⟨⟨w0, n, mu, ⟨eps⟩⟩, []⟩ d x y' e' S') :
    Consistent F y e (fun m k => (S m k).w) y' e' (fun k => (S' k).w) := by
  have step : ∀ k, (∀ i, T (fun m => (S m k).w i) ((S' k).w i)) → T (fun m => y m k) (y' k) ∧ T (fun m => e m k) (e' k) := fun k hk =>
    tends_ye hF d x hk (fun m => (nlmf_runs (h m) k).2.2.1) (fun m => (nlmf_runs (h m) k).2.2.2.1) (nlmf_runs h' k).2.2.1 (nlmf_runs h' k).2.2.2.1
  have key : ∀ k i, T (fun m => (S m k).w i) ((S' k).w i) := by
    intro k
    induction k with
    | zero => intro i; simp only [fun m => (h m).1, h'.1]; exact T.const _
    | succ k ih =>
      intro i
      obtain ⟨m2, e2, -, -, hw'⟩ := nlmf_runs h' k
      have se := (step k ih).2
      simp only [fun m => (nlmf_runs (h m) k).2.2.2.2, fun m => (nlmf_runs (h m) k).1, fun m => (nlmf_runs (h m) k).2.1, hw', m2, e2]
      have hq : eps + dot (x k) (x k) ≠ 0 := by
        rw [dot_eq]
        have : 0 ≤ ∑ j, x k j * x k j := sum_nonneg fun _ _ => mul_self_nonneg _
        linarith
      have hg := (T.const (F := F) mu).div hF ((T.const eps).add hF (T.dot hF (fun m => (x k).fl (F m)) (fun m => (x k).fl (F m)) (x k) (x k)
        (fun j => T.const _) (fun j => T.const _))) hq
      exact (ih i).add hF ((hg.mul hF (T.const (x k i))).mul hF ((se.mul hF se).mul hF se))
  exact fun k => ⟨(step k (key k)).1, (step k (key k)).2, key k⟩

/-- C91 for SSLMS, if no error of the exact run is exactly 0. -/
theorem C91_sslms {S : (m : ℕ) → ℕ → Core (Fl (F m)) n (Unit)} {S' : ℕ → Core ℝ n (Unit)}
    (h : ∀ m, Runs (sslms (Fl (F m)) n) ⟨⟨w0.fl (F m), n, ⟨mu⟩, ()⟩, []⟩ (fun k => ⟨d k⟩) (fun k => (x k).fl (F m)) (y m) (e m) (S m))
    (h' : Runs (sslms ℝ n) ⟨⟨w0, n, mu, ()⟩, []⟩ d x y' e' S') (hne : ∀ k, e' k ≠ 0) :
    Consistent F y e (fun m k => (S m k).w) y' e' (fun k => (S' k).w) := by
  have step : ∀ k, (∀ i, T (fun m => (S m k).w i) ((S' k).w i)) → T (fun m => y m k) (y' k) ∧ T (fun m => e m k) (e' k) := fun k hk =>
    tends_ye hF d x hk (fun m => (sslms_runs (h m) k).2.2.1) (fun m => (sslms_runs (h m) k).2.2.2.1) (sslms_runs h' k).2.2.1 (sslms_runs h' k).2.2.2.1
  have key : ∀ k i, T (fun m => (S m k).w i) ((S' k).w i) := by
    intro k
    induction k with
    | zero => intro i; simp only [fun m => (h m).1, h'.1]; exact T.const _
    | succ k ih =>
      intro i
      obtain ⟨m2, e2, -, -, hw'⟩ := sslms_runs h' k
      have se := (step k ih).2
      simp only [fun m => (sslms_runs (h m) k).2.2.2.2, fun m => (sslms_runs (h m) k).1, fun m => (sslms_runs (h m) k).2.1, hw', m2, e2]
      exact (ih i).add hF (((T.const mu).mul hF (T.const (Scalar.sgn (x k i)))).mul hF (se.sgn (hne k)))
  exact fun k => ⟨(step k (key k)).1, (step k (key k)).2, key k⟩

/-- C91 for NSSLMS with `eps > 0`, if no error of the exact run is exactly 0. -/
theorem C91_nsslms (eps : ℝ) (heps : 0 < eps) {S : (m : ℕ) → ℕ → Core (Fl (F m)) n (EpsExt (Fl (F m)))} {S' : ℕ → Core ℝ n (EpsExt ℝ)}
    (h : ∀ m, Runs (nsslms (Fl (F m)) n) ⟨⟨w0.fl (F m), n, ⟨mu⟩, ⟨⟨eps⟩⟩⟩, []⟩ (fun k => ⟨d k⟩) (fun k => (x k).fl (F m)) (y m) (e m) (S m))
    (h' : Runs (nsslms ℝ n) ⟨⟨w0, n, mu, ⟨eps⟩⟩, []⟩ d x y' e' S') (hne : ∀ k, e' k ≠ 0) :
    Consistent F y e (fun m k => (S m k).w) y' e' (fun k => (S' k).w) := by
  have step : ∀ k, (∀ i, T (fun m => (S m k).w i) ((S' k).w i)) → T (fun m => y m k) (y' k) ∧ T (fun m => e m k) (e' k) := fun k hk =>
    tends_ye hF d x hk (fun m => (nsslms_runs (h m) k).2.2.1) (fun m => (nsslms_runs (h m) k).2.2.2.1) (nsslms_runs h' k).2.2.1 (nsslms_runs h' k).2.2.2.1
  have key : ∀ k i, T (fun m => (S m k).w i) ((S' k).w i) := by
    intro k
    induction k with
    | zero => intro i; simp only [fun m => (h m).1, h'.1]; exact T.const _
    | succ k ih =>
      intro i
      obtain ⟨m2, e2, -, -, hw'⟩ := nsslms_runs h' k
      have se := (step k ih).2
      simp only [fun m => (nsslms_runs (h m) k).2.2.2.2, fun m => (nsslms_runs (h m) k).1, fun m => (nsslms_runs (h m) k).2.1, hw', m2, e2]
      have hq : eps + dot (x k) (x k) ≠ 0 := by
        rw [dot_eq]
        have : 0 ≤ ∑ j, x k j * x k j := sum_nonneg fun _ _ => mul_self_nonneg _
        linarith
      have hg := (T.const (F := F) mu).div hF ((T.const eps).add hF (T.dot hF (fun m => (x k).fl (F m)) (fun m => (x k).fl (F m)) (x k) (x k)
        (fun j => T.const _) (fun j => T.const _))) hq
      exact (ih i).add hF ((hg.mul hF (T.const (Scalar.sgn (x k i)))).mul hF (se.sgn (hne k)))
  exact fun k => ⟨(step k (key k)).1, (step k (key k)).2, key k⟩

/-- C91 for Llncosh. -/
theorem C91_llncosh (lambd : ℝ) {S : (m : ℕ) → ℕ → Core (Fl (F m)) n (LlncoshExt (Fl (F m)))} {S' : ℕ → Core ℝ n (LlncoshExt ℝ)}
    (h : ∀ m, Runs (llncosh (Fl (F m)) n) ⟨⟨w0.fl (F m), n, ⟨mu⟩, ⟨⟨lambd⟩⟩⟩, []⟩ (fun k => ⟨d k⟩) (fun k => (x k).fl (F m)) (y m) (e m) (S m))
    (h' : Runs (llncosh ℝ n) ⟨⟨w0, n, mu, ⟨lambd⟩⟩, []⟩ d x y' e' S') :
    Consistent F y e (fun m k => (S m k).w) y' e' (fun k => (S' k).w) := by
  have step : ∀ k, (∀ i, T (fun m => (S m k).w i) ((S' k).w i)) → T (fun m => y m k) (y' k) ∧ T (fun m => e m k) (e' k) := fun k hk =>
    tends_ye hF d x hk (fun m => (llncosh_runs (h m) k).2.2.1) (fun m => (llncosh_runs (h m) k).2.2.2.1) (llncosh_runs h' k).2.2.1 (llncosh_runs h' k).2.2.2.1
  have key : ∀ k i, T (fun m => (S m k).w i) ((S' k).w i) := by
    intro k
    induction k with
    | zero => intro i; simp only [fun m => (h m).1, h'.1]; exact T.const _
    | succ k ih =>
      intro i
      obtain ⟨m2, e2, -, -, hw'⟩ := llncosh_runs h' k
      have se := (step k ih).2
      simp only [fun m => (llncosh_runs (h m) k).2.2.2.2, fun m => (llncosh_runs (h m) k).1, fun m => (llncosh_runs (h m) k).2.1, hw', m2, e2]
      exact (ih i).add hF (((T.const mu).mul hF (((T.const lambd).mul hF se).tanh hF)).mul hF (T.const (x k i)))
  exact fun k => ⟨(step k (key k)).1, (step k (key k)).2, key k⟩

/-- C91 for GMCC with `alpha > 1` (or if no error of the exact run is exactly 0). -/
theorem C91_gmcc (lambd alpha : ℝ) {S : (m : ℕ) → ℕ → Core (Fl (F m)) n (GmccExt (Fl (F m)))} {S' : ℕ → Core ℝ n (GmccExt ℝ)}
    (h : ∀ m, Runs (gmcc (Fl (F m)) n) ⟨⟨w0.fl (F m), n, ⟨mu⟩, ⟨⟨lambd⟩, ⟨alpha⟩⟩⟩, []⟩ (fun k => ⟨d k⟩) (fun k => (x k).fl (F m)) (y m) (e m) (S m))
    (h' : Runs (gmcc ℝ n) ⟨⟨w0, n, mu, ⟨lambd, alpha⟩⟩, []⟩ d x y' e' S') (hne : 1 < alpha ∨ ∀ k, e' k ≠ 0) :
    Consistent F y e (fun m k => (S m k).w) y' e' (fun k => (S' k).w) := by
  have step : ∀ k, (∀ i, T (fun m => (S m k).w i) ((S' k).w i)) → T (fun m => y m k) (y' k) ∧ T (fun m => e m k) (e' k) := fun k hk =>
    tends_ye hF d x hk (fun m => (gmcc_runs (h m) k).2.2.1) (fun m => (gmcc_runs (h m) k).2.2.2.1) (gmcc_runs h' k).2.2.1 (gmcc_runs h' k).2.2.2.1
  have key : ∀ k i, T (fun m => (S m k).w i) ((S' k).w i) := by
    intro k
    induction k with
    | zero => intro i; simp only [fun m => (h m).1, h'.1]; exact T.const _
    | succ k ih =>
      intro i
      obtain ⟨m2, e2, -, -, hw'⟩ := gmcc_runs h' k
      have se := (step k ih).2
      simp only [fun m => (gmcc_runs (h m) k).2.2.2.2, fun m => (gmcc_runs (h m) k).1, fun m => (gmcc_runs (h m) k).2.1, hw', m2, e2]
      have c1 : |e' k| ≠ 0 ∨ 0 < alpha := hne.elim (fun h => Or.inr (by linarith)) fun h => Or.inl (abs_ne_zero.mpr (h k))
      have c2 : |e' k| ≠ 0 ∨ 0 < alpha - 1 := hne.elim (fun h => Or.inr (by linarith)) fun h => Or.inl (abs_ne_zero.mpr (h k))
      have h1 : T (F := F) (fun m => -⟨lambd⟩) (-lambd) := (T.const lambd).neg
      have h2 := (((T.const (F := F) mu).mul hF (T.const lambd)).mul hF (T.const alpha)).mul hF ((h1.mul hF (se.abs.pow hF (T.const alpha) c1)).exp hF)
      have h3 : T (F := F) (fun m => (⟨alpha⟩ : Fl (F m)) - 1) (alpha - 1) := (T.const alpha).sub hF (T.const 1)
      have h4 := h2.mul hF (se.abs.pow hF h3 c2)
      refine (ih i).add hF (T.mul hF ?_ (T.const (x k i)))
      by_cases hz : e' k = 0
      · have h5 : (0 : ℝ) ^ (alpha - 1) = 0 := Real.zero_rpow (by
          rcases c2 with h | h
          · exact absurd (by rw [hz, abs_zero]) h
          · exact h.ne')
        have h6 : |e' k| ^ (alpha - 1) = 0 := by rw [hz, abs_zero, h5]
        rw [h6, mul_zero] at h4
        have h7 : mu * lambd * alpha * Real.exp (-lambd * |e' k| ^ alpha) * |e' k| ^ (alpha - 1) * Scalar.sgn (e' k) = 0 := by rw [h6]; ring
        rw [show (mu * lambd * alpha * Transc.exp (-lambd * Transc.pow (Scalar.abs (e' k)) alpha) * Transc.pow (Scalar.abs (e' k)) (alpha - 1) * Scalar.sgn (e' k) : ℝ) = 0
          from h7]
        exact h4.mul_sgn hF
      · exact h4.mul hF (se.sgn hz)
  exact fun k => ⟨(step k (key k)).1, (step k (key k)).2, key k⟩

/-- C91 for GNGD, if no denominator of the exact run is 0. -/
theorem C91_gngd (eps ro : ℝ) (heps : eps ≠ 0) {S : (m : ℕ) → ℕ → Core (Fl (F m)) n (GngdExt (Fl (F m)) n)} {S' : ℕ → Core ℝ n (GngdExt ℝ n)}
    (h : ∀ m, Runs (gngd (Fl (F m)) n) ⟨⟨w0.fl (F m), n, ⟨mu⟩, ⟨⟨eps⟩, ⟨ro⟩, ⟨0⟩, fun _ => ⟨0⟩⟩⟩, []⟩ (fun k => ⟨d k⟩) (fun k => (x k).fl (F m)) (y m) (e m) (S m))
    (h' : Runs (gngd ℝ n) ⟨⟨w0, n, mu, ⟨eps, ro, 0, fun _ => 0⟩⟩, []⟩ d x y' e' S')
    (hden : ∀ k, (S' (k + 1)).ext.eps + ∑ i, x k i ^ 2 ≠ 0) :
    Consistent F y e (fun m k => (S m k).w) y' e' (fun k => (S' k).w) := by
  have step : ∀ k, (∀ i, T (fun m => (S m k).w i) ((S' k).w i)) → T (fun m => y m k) (y' k) ∧ T (fun m => e m k) (e' k) := fun k hk =>
    tends_ye hF d x hk (fun m => (gngd_runs (h m) k).2.2.1) (fun m => (gngd_runs (h m) k).2.2.2.1) (gngd_runs h' k).2.2.1 (gngd_runs h' k).2.2.2.1
  have hsq : ∀ v : Vec ℝ n, dot v v = ∑ i, v i ^ 2 := fun v => by rw [dot_eq]; exact sum_congr rfl fun i _ => by ring
  have hden' : ∀ k, dot (S' k).ext.lastX (S' k).ext.lastX + (S' k).ext.eps ≠ 0 := by
    intro k
    cases k with
    | zero => rw [h'.1, dot_eq]; simpa using heps
    | succ k => rw [(gngd_runs h' k).2.2.2.2.2.2.2, hsq, add_comm]; exact hden k
  have key : ∀ k, (∀ i, T (fun m => (S m k).w i) ((S' k).w i)) ∧ T (fun m => (S m k).ext.eps) (S' k).ext.eps ∧ T (fun m => (S m k).ext.lastE) (S' k).ext.lastE ∧
      ∀ i, T (fun m => (S m k).ext.lastX i) ((S' k).ext.lastX i) := by
    intro k
    induction k with
    | zero =>
      simp only [fun m => (h m).1, h'.1]
      exact ⟨fun i => T.const _, T.const _, T.const _, fun i => T.const _⟩
    | succ k ih =>
      obtain ⟨iw, ie, il, ix⟩ := ih
      have se := (step k iw).2
      obtain ⟨m2, r2, -, -, hw', he', hl', hx'⟩ := gngd_runs h' k
      have nE : T (fun m => (S m (k + 1)).ext.eps) (S' (k + 1)).ext.eps := by
        simp only [fun m => (gngd_runs (h m) k).2.2.2.2.2.1, he', gngdEps, fun m => (gngd_runs (h m) k).1, fun m => (gngd_runs (h m) k).2.1, m2, r2]
        have hd := (T.dot hF _ _ _ _ ix ix).add hF ie
        refine ie.sub hF (T.div hF ?_ (hd.mul hF hd) (mul_ne_zero (hden' k) (hden' k)))
        exact ((((T.const ro).mul hF (T.const mu)).mul hF se).mul hF il).mul hF (T.dot hF _ _ _ _ (fun i => T.const _) ix)
      refine ⟨fun i => ?_, nE, ?_, fun i => ?_⟩
      · simp only [fun m => (gngd_runs (h m) k).2.2.2.2.1, hw', fun m => (gngd_runs (h m) k).1, m2]
        simp only [← fun m => (gngd_runs (h m) k).2.2.2.2.2.1, ← he']
        refine (iw i).add hF (((T.const mu).div hF (nE.add hF (T.dot hF _ _ _ _ (fun i => T.const _) (fun i => T.const _))) ?_ |>.mul hF se).mul hF (T.const (x k i)))
        rw [hsq]; exact hden k
      · simp only [fun m => (gngd_runs (h m) k).2.2.2.2.2.2.1, hl']; exact se
      · simp only [fun m => (gngd_runs (h m) k).2.2.2.2.2.2.2, hx']; exact T.const _
  exact fun k => ⟨(step k (key k).1).1, (step k (key k).1).2, (key k).1⟩

/-- C91 for VSLMS (Mathews). -/
theorem C91_mathews (ro : ℝ) {S : (m : ℕ) → ℕ → Core (Fl (F m)) n (MathewsExt (Fl (F m)) n)} {S' : ℕ → Core ℝ n (MathewsExt ℝ n)}
    (h : ∀ m, Runs (mathews (Fl (F m)) n) ⟨⟨w0.fl (F m), n, ⟨mu⟩, ⟨⟨ro⟩, ⟨0⟩, fun _ => ⟨0⟩, ⟨mu⟩⟩⟩, []⟩ (fun k => ⟨d k⟩) (fun k => (x k).fl (F m)) (y m) (e m) (S m))
    (h' : Runs (mathews ℝ n) ⟨⟨w0, n, mu, ⟨ro, 0, fun _ => 0, mu⟩⟩, []⟩ d x y' e' S') :
    Consistent F y e (fun m k => (S m k).w) y' e' (fun k => (S' k).w) := by
  have step : ∀ k, (∀ i, T (fun m => (S m k).w i) ((S' k).w i)) → T (fun m => y m k) (y' k) ∧ T (fun m => e m k) (e' k) := fun k hk =>
    tends_ye hF d x hk (fun m => (mathews_runs (h m) k).2.2.1) (fun m => (mathews_runs (h m) k).2.2.2.1) (mathews_runs h' k).2.2.1 (mathews_runs h' k).2.2.2.1
  have key : ∀ k, (∀ i, T (fun m => (S m k).w i) ((S' k).w i)) ∧ T (fun m => (S m k).ext.lastMu) (S' k).ext.lastMu ∧ T (fun m => (S m k).ext.lastE) (S' k).ext.lastE ∧
      ∀ i, T (fun m => (S m k).ext.lastX i) ((S' k).ext.lastX i) := by
    intro k
    induction k with
    | zero =>
      simp only [fun m => (h m).1, h'.1]
      exact ⟨fun i => T.const _, T.const _, T.const _, fun i => T.const _⟩
    | succ k ih =>
      obtain ⟨iw, im, il, ix⟩ := ih
      have se := (step k iw).2
      obtain ⟨-, r2, -, -, hw', hm', hl', hx'⟩ := mathews_runs h' k
      have nM : T (fun m => (S m (k + 1)).ext.lastMu) (S' (k + 1)).ext.lastMu := by
        simp only [fun m => (mathews_runs (h m) k).2.2.2.2.2.1, hm', mathewsMu, fun m => (mathews_runs (h m) k).2.1, r2]
        exact im.add hF ((((T.const ro).mul hF se).mul hF il).mul hF (T.dot hF _ _ _ _ ix (fun i => T.const _)))
      refine ⟨fun i => ?_, nM, ?_, fun i => ?_⟩
      · simp only [fun m => (mathews_runs (h m) k).2.2.2.2.1, hw']
        simp only [← fun m => (mathews_runs (h m) k).2.2.2.2.2.1, ← hm']
        exact (iw i).add hF ((nM.mul hF se).mul hF (T.const (x k i)))
      · simp only [fun m => (mathews_runs (h m) k).2.2.2.2.2.2.1, hl']; exact se
      · simp only [fun m => (mathews_runs (h m) k).2.2.2.2.2.2.2, hx']; exact T.const _
  exact fun k => ⟨(step k (key k).1).1, (step k (key k).1).2, (key k).1⟩

/-- C91 for VSLMS (Ang). -/
theorem C91_ang (ro a : ℝ) {S : (m : ℕ) → ℕ → Core (Fl (F m)) n (AngExt (Fl (F m)) n)} {S' : ℕ → Core ℝ n (AngExt ℝ n)}
    (h : ∀ m, Runs (ang (Fl (F m)) n) ⟨⟨w0.fl (F m), n, ⟨mu⟩, ⟨⟨ro⟩, ⟨a⟩, ⟨0⟩, fun _ => ⟨0⟩, fun _ => ⟨0⟩, ⟨mu⟩⟩⟩, []⟩ (fun k => ⟨d k⟩) (fun k => (x k).fl (F m))
      (y m) (e m) (S m))
    (h' : Runs (ang ℝ n) ⟨⟨w0, n, mu, ⟨ro, a, 0, fun _ => 0, fun _ => 0, mu⟩⟩, []⟩ d x y' e' S') :
    Consistent F y e (fun m k => (S m k).w) y' e' (fun k => (S' k).w) := by
  have step : ∀ k, (∀ i, T (fun m => (S m k).w i) ((S' k).w i)) → T (fun m => y m k) (y' k) ∧ T (fun m => e m k) (e' k) := fun k hk =>
    tends_ye hF d x hk (fun m => (ang_runs (h m) k).2.2.2.1) (fun m => (ang_runs (h m) k).2.2.2.2.1) (ang_runs h' k).2.2.2.1 (ang_runs h' k).2.2.2.2.1
  have key : ∀ k, (∀ i, T (fun m => (S m k).w i) ((S' k).w i)) ∧ T (fun m => (S m k).ext.lastMu) (S' k).ext.lastMu ∧ T (fun m => (S m k).ext.lastE) (S' k).ext.lastE ∧
      (∀ i, T (fun m => (S m k).ext.lastX i) ((S' k).ext.lastX i)) ∧ ∀ i, T (fun m => (S m k).ext.lastFi i) ((S' k).ext.lastFi i) := by
    intro k
    induction k with
    | zero =>
      simp only [fun m => (h m).1, h'.1]
      exact ⟨fun i => T.const _, T.const _, T.const _, fun i => T.const _, fun i => T.const _⟩
    | succ k ih =>
      obtain ⟨iw, im, il, ix, ifi⟩ := ih
      have se := (step k iw).2
      obtain ⟨-, r2, a2, -, -, hw', hm', hl', hx', hf'⟩ := ang_runs h' k
      have nF : ∀ i, T (fun m => (S m (k + 1)).ext.lastFi i) ((S' (k + 1)).ext.lastFi i) := fun i => by
        simp only [fun m => (ang_runs (h m) k).2.2.2.2.2.2.2.2.2, hf', angFi, fun m => (ang_runs (h m) k).2.2.1, a2]
        exact ((T.const a).mul hF (ifi i)).add hF (il.mul hF (ix i))
      have nM : T (fun m => (S m (k + 1)).ext.lastMu) (S' (k + 1)).ext.lastMu := by
        simp only [fun m => (ang_runs (h m) k).2.2.2.2.2.2.1, hm', angMu, fun m => (ang_runs (h m) k).2.1, r2]
        simp only [← fun m => (ang_runs (h m) k).2.2.2.2.2.2.2.2.2, ← hf']
        exact im.add hF (((T.const ro).mul hF se).mul hF (T.dot hF _ _ _ _ ix nF))
      refine ⟨fun i => ?_, nM, ?_, fun i => ?_, nF⟩
      · simp only [fun m => (ang_runs (h m) k).2.2.2.2.2.1, hw']
        simp only [← fun m => (ang_runs (h m) k).2.2.2.2.2.2.1, ← hm']
        exact (iw i).add hF ((nM.mul hF se).mul hF (T.const (x k i)))
      · simp only [fun m => (ang_runs (h m) k).2.2.2.2.2.2.2.1, hl']; exact se
      · simp only [fun m => (ang_runs (h m) k).2.2.2.2.2.2.2.2.1, hx']; exact T.const _
  exact fun k => ⟨(step k (key k).1).1, (step k (key k).1).2, (key k).1⟩

omit hF in
theorem T.eye (i j : Fin n) : T (F := F) (fun m => eye n i j) (Padasip.eye n i j) := by
  unfold Padasip.eye
  split <;> exact T.const _

/-- C91 for VSLMS (Benveniste). -/
theorem C91_benveniste (ro : ℝ) {S : (m : ℕ) → ℕ → Core (Fl (F m)) n (BenExt (Fl (F m)) n)} {S' : ℕ → Core ℝ n (BenExt ℝ n)}
    (h : ∀ m, Runs (benveniste (Fl (F m)) n) ⟨⟨w0.fl (F m), n, ⟨mu⟩, ⟨⟨ro⟩, ⟨0⟩, fun _ => ⟨0⟩, fun _ => ⟨0⟩, ⟨mu⟩⟩⟩, []⟩ (fun k => ⟨d k⟩) (fun k => (x k).fl (F m))
      (y m) (e m) (S m))
    (h' : Runs (benveniste ℝ n) ⟨⟨w0, n, mu, ⟨ro, 0, fun _ => 0, fun _ => 0, mu⟩⟩, []⟩ d x y' e' S') :
    Consistent F y e (fun m k => (S m k).w) y' e' (fun k => (S' k).w) := by
  have step : ∀ k, (∀ i, T (fun m => (S m k).w i) ((S' k).w i)) → T (fun m => y m k) (y' k) ∧ T (fun m => e m k) (e' k) := fun k hk =>
    tends_ye hF d x hk (fun m => (benveniste_runs (h m) k).2.2.1) (fun m => (benveniste_runs (h m) k).2.2.2.1) (benveniste_runs h' k).2.2.1
      (benveniste_runs h' k).2.2.2.1
  have key : ∀ k, (∀ i, T (fun m => (S m k).w i) ((S' k).w i)) ∧ T (fun m => (S m k).ext.lastMu) (S' k).ext.lastMu ∧ T (fun m => (S m k).ext.lastE) (S' k).ext.lastE ∧
      (∀ i, T (fun m => (S m k).ext.lastX i) ((S' k).ext.lastX i)) ∧ ∀ i, T (fun m => (S m k).ext.lastFi i) ((S' k).ext.lastFi i) := by
    intro k
    induction k with
    | zero =>
      simp only [fun m => (h m).1, h'.1]
      exact ⟨fun i => T.const _, T.const _, T.const _, fun i => T.const _, fun i => T.const _⟩
    | succ k ih =>
      obtain ⟨iw, im, il, ix, ifi⟩ := ih
      have se := (step k iw).2
      obtain ⟨-, r2, -, -, hw', hm', hl', hx', hf'⟩ := benveniste_runs h' k
      have nF : ∀ i, T (fun m => (S m (k + 1)).ext.lastFi i) ((S' (k + 1)).ext.lastFi i) := fun i => by
        simp only [fun m => (benveniste_runs (h m) k).2.2.2.2.2.2.2.2, hf', benFi, matVec, outer]
        exact (T.dot hF _ _ _ _ (fun j => (T.eye i j).sub hF (im.mul hF ((ix i).mul hF (ix j)))) ifi).add hF (il.mul hF (ix i))
      have nM : T (fun m => (S m (k + 1)).ext.lastMu) (S' (k + 1)).ext.lastMu := by
        simp only [fun m => (benveniste_runs (h m) k).2.2.2.2.2.1, hm', benMu, fun m => (benveniste_runs (h m) k).2.1, r2]
        simp only [← fun m => (benveniste_runs (h m) k).2.2.2.2.2.2.2.2, ← hf']
        exact im.add hF (((T.const ro).mul hF se).mul hF (T.dot hF _ _ _ _ ix nF))
      refine ⟨fun i => ?_, nM, ?_, fun i => ?_, nF⟩
      · simp only [fun m => (benveniste_runs (h m) k).2.2.2.2.1, hw']
        simp only [← fun m => (benveniste_runs (h m) k).2.2.2.2.2.1, ← hm']
        exact (iw i).add hF ((nM.mul hF se).mul hF (T.const (x k i)))
      · simp only [fun m => (benveniste_runs (h m) k).2.2.2.2.2.2.1, hl']; exact se
      · simp only [fun m => (benveniste_runs (h m) k).2.2.2.2.2.2.2.1, hx']; exact T.const _
  exact fun k => ⟨(step k (key k).1).1, (step k (key k).1).2, (key k).1⟩

/-- C91 for RLS with `mu > 0` and `eps > 0`. -/
theorem C91_rls (eps : ℝ) (hmu : 0 < mu) (heps : 0 < eps) {S : (m : ℕ) → ℕ → Core (Fl (F m)) n (RlsExt (Fl (F m)) n)} {S' : ℕ → Core ℝ n (RlsExt ℝ n)}
    (h : ∀ m, Runs (rls (Fl (F m)) n) ⟨⟨w0.fl (F m), n, ⟨mu⟩, ⟨⟨eps⟩, fun i j => 1 / ⟨eps⟩ * eye n i j⟩⟩, []⟩ (fun k => ⟨d k⟩) (fun k => (x k).fl (F m))
      (y m) (e m) (S m))
    (h' : Runs (rls ℝ n) ⟨⟨w0, n, mu, ⟨eps, fun i j => if i = j then 1 / eps else 0⟩⟩, []⟩ d x y' e' S') :
    Consistent F y e (fun m k => (S m k).w) y' e' (fun k => (S' k).w) := by
  have hz : ∀ m, Scalar.eqz (⟨mu⟩ : Fl (F m)) = false := fun m => by
    show decide (mu = 0) = false
    simp [hmu.ne']
  have hz' : Scalar.eqz mu = false := by
    show decide (mu = 0) = false
    simp [hmu.ne']
  have step : ∀ k, (∀ i, T (fun m => (S m k).w i) ((S' k).w i)) → T (fun m => y m k) (y' k) ∧ T (fun m => e m k) (e' k) := fun k hk =>
    tends_ye hF d x hk (fun m => (rls_runs (hz m) (h m) k).2.2.1) (fun m => (rls_runs (hz m) (h m) k).2.2.2.1) (rls_runs hz' h' k).2.2.1 (rls_runs hz' h' k).2.2.2.1
  have key : ∀ k, (∀ i, T (fun m => (S m k).w i) ((S' k).w i)) ∧ ∀ i j, T (fun m => (S m k).ext.R i j) ((S' k).ext.R i j) := by
    intro k
    induction k with
    | zero =>
      simp only [fun m => (h m).1, h'.1]
      refine ⟨fun i => T.const _, fun i j => ?_⟩
      have h1 := ((T.const (F := F) 1).div hF (T.const eps) heps.ne').mul hF (T.eye i j)
      have h2 : 1 / eps * Padasip.eye n i j = if i = j then 1 / eps else 0 := by unfold Padasip.eye; split <;> simp
      rw [h2] at h1
      exact h1
    | succ k ih =>
      obtain ⟨iw, ir⟩ := ih
      have se := (step k iw).2
      obtain ⟨m2, -, -, -, hw', hR'⟩ := rls_runs hz' h' k
      have hpos := (C24_inverse_correlation _ hmu heps (fun i j => rfl) h' k).2.2.2.2
      have hq : mu + dot (vecMat (x k) (S' k).ext.R) (x k) ≠ 0 := by
        have : dot (vecMat (x k) (S' k).ext.R) (x k) = ∑ i, ∑ j, x k i * (S' k).ext.R i j * x k j := by
          rw [dot_eq, sum_comm]
          exact sum_congr rfl fun j _ => by rw [vecMat_eq, sum_mul]
        rw [this]
        exact ne_of_gt hpos
      have nR : ∀ i j, T (fun m => (S m (k + 1)).ext.R i j) ((S' (k + 1)).ext.R i j) := fun i j => by
        simp only [fun m => (rls_runs (hz m) (h m) k).2.2.2.2.2, hR', rlsR, fun m => (rls_runs (hz m) (h m) k).1, m2]
        refine ((T.const 1).div hF (T.const mu) hmu.ne').mul hF ((ir i j).sub hF (T.div hF ?_ ((T.const mu).add hF ?_) hq))
        · unfold matMul
          refine T.dot hF _ (fun m l => (S m k).ext.R l j) _ (fun l => (S' k).ext.R l j) (fun l => ?_) fun l => ir l j
          exact T.dot hF _ (fun m l' => outer ((x k).fl (F m)) ((x k).fl (F m)) l' l) _ (fun l' => outer (x k) (x k) l' l) (fun l' => ir i l') fun l' =>
            (T.const (x k l')).mul hF (T.const (x k l))
        · refine T.dot hF _ _ _ _ (fun l => ?_) fun l => T.const _
          exact T.dot hF _ (fun m l' => (S m k).ext.R l' l) _ (fun l' => (S' k).ext.R l' l) (fun l' => T.const _) fun l' => ir l' l
      refine ⟨fun i => ?_, nR⟩
      simp only [fun m => (rls_runs (hz m) (h m) k).2.2.2.2.1, hw']
      simp only [← fun m => (rls_runs (hz m) (h m) k).2.2.2.2.2, ← hR']
      exact (iw i).add hF ((T.dot hF _ _ _ _ (fun j => nR i j) fun j => T.const _).mul hF se)
  exact fun k => ⟨(step k (key k).1).1, (step k (key k).1).2, (key k).1⟩

/-- **Specification**: what is required of `np.linalg.solve` in the arithmetics `F m`: it succeeds on the matrices AP gives it, and when the matrices tend to an invertible
matrix its solutions of `A X = I` tend to the inverse. -/
structure SolveConsistent (F : ℕ → Rounding) (solve : (m : ℕ) → Solver (Fl (F m))) (n order : ℕ) (ifc : ℝ) : Prop where
  total : ∀ m (X : Mat (Fl (F m)) n order), ∃ P, solve m order (apGram ⟨ifc⟩ X) (eye order) = .ok P
  limit : ∀ (A : (m : ℕ) → Mat (Fl (F m)) order order) (A' P' : Mat ℝ order order) (P : (m : ℕ) → Mat (Fl (F m)) order order),
    (∀ i j, T (fun m => A m i j) (A' i j)) → matMul A' P' = eye order → (∀ m, solve m order (A m) (eye order) = .ok (P m)) → ∀ i j, T (fun m => P m i j) (P' i j)

/-- C91 for AP with `ifc > 0`. -/
theorem C91_ap {order : ℕ} (ho : 0 < order) (ifc : ℝ) (hc : 0 < ifc) (solve : (m : ℕ) → Solver (Fl (F m))) (hsol : SolveConsistent F solve n order ifc)
    (solve' : Solver ℝ) (hs' : SolveSpec solve')
    {S : (m : ℕ) → ℕ → Core (Fl (F m)) n (ApExt (Fl (F m)) n order)} {S' : ℕ → Core ℝ n (ApExt ℝ n order)}
    (h : ∀ m, Runs (ap (Fl (F m)) n (solve m) order)
      ⟨⟨w0.fl (F m), n, ⟨mu⟩, (⟨⟨ifc⟩, fun _ _ => ⟨0⟩, fun _ => ⟨0⟩, fun _ => ⟨0⟩, fun _ => ⟨0⟩⟩ : ApExt (Fl (F m)) n order)⟩, []⟩
      (fun k => ⟨d k⟩) (fun k => (x k).fl (F m)) (y m) (e m) (S m))
    (h' : Runs (ap ℝ n solve' order) ⟨⟨w0, n, mu, (⟨ifc, fun _ _ => 0, fun _ => 0, fun _ => 0, fun _ => 0⟩ : ApExt ℝ n order)⟩, []⟩ d x y' e' S') :
    Consistent F y e (fun m k => (S m k).w) y' e' (fun k => (S' k).w) := by
  have hsx : ∀ X : Mat ℝ n order, ∃ P, solve' order (apGram ifc X) (eye order) = .ok P := fun X => (gram_solvable hs' hc X).imp fun _ h => h.1
  have rf := fun m k => ap_runs ho (hsol.total m) (h m) k
  have re := fun k => ap_runs ho hsx h' k
  have mem : ∀ k, (∀ i, T (fun m => (S m k).w i) ((S' k).w i)) → (∀ i j, T (fun m => (S m k).ext.xMem i j) ((S' k).ext.xMem i j)) →
      (∀ j, T (fun m => (S m k).ext.dMem j) ((S' k).ext.dMem j)) →
      (∀ i j, T (fun m => apX (S m k) ((x k).fl (F m)) i j) (apX (S' k) (x k) i j)) ∧
      (∀ j, T (fun m => apD (S m k) ⟨d k⟩ j) (apD (S' k) (d k) j)) ∧
      (∀ j, T (fun m => apY (S m k) ((x k).fl (F m)) j) (apY (S' k) (x k) j)) ∧
      (∀ j, T (fun m => apE (S m k) ⟨d k⟩ ((x k).fl (F m)) j) (apE (S' k) (d k) (x k) j)) := by
    intro k hw hx hd
    have h1 : ∀ i j, T (fun m => apX (S m k) ((x k).fl (F m)) i j) (apX (S' k) (x k) i j) := fun i j => by
      unfold apX shiftCols
      by_cases hj : j.val = 0
      · simp only [if_pos hj]; exact T.const _
      · simp only [if_neg hj, dif_neg hj]; exact hx _ _
    have h2 : ∀ j, T (fun m => apD (S m k) ⟨d k⟩ j) (apD (S' k) (d k) j) := fun j => by
      unfold apD shiftVec
      by_cases hj : j.val = 0
      · simp only [if_pos hj]; exact T.const _
      · simp only [if_neg hj, dif_neg hj]; exact hd _
    have h3 : ∀ j, T (fun m => apY (S m k) ((x k).fl (F m)) j) (apY (S' k) (x k) j) := fun j =>
      T.dot hF (fun m i => apX (S m k) ((x k).fl (F m)) i j) _ (fun i => apX (S' k) (x k) i j) _ (fun i => h1 i j) hw
    exact ⟨h1, h2, h3, fun j => (h2 j).sub hF (h3 j)⟩
  have key : ∀ k, (∀ i, T (fun m => (S m k).w i) ((S' k).w i)) ∧ (∀ i j, T (fun m => (S m k).ext.xMem i j) ((S' k).ext.xMem i j)) ∧
      ∀ j, T (fun m => (S m k).ext.dMem j) ((S' k).ext.dMem j) := by
    intro k
    induction k with
    | zero =>
      simp only [fun m => (h m).1, h'.1]
      exact ⟨fun i => T.const _, fun i j => T.const _, fun j => T.const _⟩
    | succ k ih =>
      obtain ⟨iw, ix, id⟩ := ih
      obtain ⟨hX, hD, hY, hE⟩ := mem k iw ix id
      choose mF iF P hP hyF heF hwF hxF hdF _ using fun m => rf m k
      obtain ⟨m2, i2, P', hP', -, -, hw', hx', hd', -⟩ := re k
      have hG : ∀ i j, T (fun m => apGram ⟨ifc⟩ (apX (S m k) ((x k).fl (F m))) i j) (apGram ifc (apX (S' k) (x k)) i j) := fun i j =>
        (T.dot hF (fun m l => apX (S m k) ((x k).fl (F m)) l i) (fun m l => apX (S m k) ((x k).fl (F m)) l j) _ _ (fun l => hX l i) (fun l => hX l j)).add hF
          ((T.const ifc).mul hF (T.eye i j))
      have hinv : matMul (apGram ifc (apX (S' k) (x k))) P' = eye order := by
        obtain ⟨Q, hQ, hQ'⟩ := gram_solvable hs' hc (apX (S' k) (x k))
        rw [hP'] at hQ
        obtain rfl : P' = Q := by simpa using hQ
        exact hQ'
      have hPt := hsol.limit _ _ P' P hG hinv hP
      refine ⟨fun i => ?_, fun i j => ?_, fun j => ?_⟩
      · simp only [hwF, hw', mF, m2]
        refine (iw i).add hF ((T.const mu).mul hF (T.dot hF _ _ _ _ (hX i) fun j => ?_))
        exact T.dot hF _ _ _ _ (fun l => hPt j l) hE
      · simp only [hxF, hx']; exact hX i j
      · simp only [hdF, hd']; exact hD j
  intro k
  obtain ⟨iw, ix, id⟩ := key k
  obtain ⟨hX, hD, hY, hE⟩ := mem k iw ix id
  choose _ _ P hP hyF heF _ _ _ _ using fun m => rf m k
  obtain ⟨-, -, P', hP', hy', he', -⟩ := re k
  have ty : T (fun m => y m k) (y' k) := by rw [funext hyF, hy']; exact hY _
  refine ⟨ty, ?_, iw⟩
  have : T (fun m => e m k) (e' k) := by rw [funext heF, he']; exact (T.const (d k)).sub hF ty
  exact this

/-! ### OCNLMS -/

/-- lists of the arithmetics `F m`, of the same length as `g` and entrywise tending to it -/
def LT {F : ℕ → Rounding} (l : (m : ℕ) → List (Fl (F m))) (g : List ℝ) : Prop :=
  (∀ m, (l m).length = g.length) ∧ ∀ j : ℕ, T (fun m => ((l m)[j]?).getD ⟨0⟩) ((g[j]?).getD 0)

omit hF in
theorem LT.set {l : (m : ℕ) → List (Fl (F m))} {g : List ℝ} (h : LT l g) (i : ℕ) {a : (m : ℕ) → Fl (F m)} {b : ℝ} (hab : T a b) :
    LT (fun m => (l m).set i (a m)) (g.set i b) := by
  refine ⟨fun m => by simp [h.1 m], fun j => ?_⟩
  by_cases hij : i = j
  · subst hij
    by_cases hl : i < g.length
    · have h2 : ∀ m, i < (l m).length := fun m => by rw [h.1 m]; exact hl
      simpa [List.getElem?_set, hl, h2] using hab
    · have h2 : ∀ m, ¬ i < (l m).length := fun m => by rw [h.1 m]; exact hl
      simpa [List.getElem?_set, hl, h2] using T.const 0
  · simpa [List.getElem?_set, hij] using h.2 j

omit hF in
theorem LT.take {l : (m : ℕ) → List (Fl (F m))} {g : List ℝ} (h : LT l g) (i : ℕ) : LT (fun m => (l m).take i) (g.take i) := by
  refine ⟨fun m => by simp [h.1 m], fun j => ?_⟩
  by_cases hij : j < i
  · simpa [List.getElem?_take, hij] using h.2 j
  · simpa [List.getElem?_take, hij] using T.const 0

omit hF in
theorem LT.eraseIdx {l : (m : ℕ) → List (Fl (F m))} {g : List ℝ} (h : LT l g) (i : ℕ) : LT (fun m => (l m).eraseIdx i) (g.eraseIdx i) := by
  refine ⟨fun m => by simp [List.length_eraseIdx, h.1 m], fun j => ?_⟩
  by_cases hij : j < i
  · simpa [List.getElem?_eraseIdx, hij] using h.2 j
  · simpa [List.getElem?_eraseIdx, hij] using h.2 (j + 1)

theorem LT.sum {g : List ℝ} : ∀ {l : (m : ℕ) → List (Fl (F m))}, LT l g → T (fun m => (l m).sum) g.sum := by
  induction g with
  | nil =>
    intro l h
    have : ∀ m, l m = [] := fun m => List.length_eq_zero_iff.mp (h.1 m)
    simp only [this]
    exact T.const 0
  | cons b g ih =>
    intro l h
    have h1 : ∀ m, l m = (((l m)[0]?).getD ⟨0⟩) :: (l m).tail := fun m => by
      have := h.1 m
      rcases hl : l m with _ | ⟨a, t⟩
      · rw [hl] at this; simp at this
      · simp
    have h2 : LT (fun m => (l m).tail) g := ⟨fun m => by simp [h.1 m], fun j => by simpa using h.2 (j + 1)⟩
    have h3 : ∀ m, (l m).sum = (((l m)[0]?).getD ⟨0⟩) + (l m).tail.sum := fun m => (congrArg List.sum (h1 m)).trans rfl
    simp only [h3]
    exact (h.2 0).add hF (ih h2)

theorem LT.mean {g : List ℝ} {l : (m : ℕ) → List (Fl (F m))} (h : LT l g) (hg : g ≠ []) : T (fun m => meanL (l m)) (meanL g) := by
  unfold meanL
  have h2 : T (F := F) (fun m => Scalar.nat (l m).length) (Scalar.nat g.length : ℝ) := by
    simp only [h.1]; exact T.const _
  have h3 : (Scalar.nat g.length : ℝ) ≠ 0 := by
    show ((g.length : ℕ) : ℝ) ≠ 0
    exact_mod_cast fun h => hg (List.length_eq_zero_iff.mp h)
  exact (h.sum hF).div hF h2 h3

/-- memories of OCNLMS filters in the arithmetics `F m`, tending to a memory of an exact filter -/
structure OcT (q : (m : ℕ) → OcExt (Fl (F m)) n) (q' : OcExt ℝ n) : Prop where
  eps : ∀ m, (q m).eps = ⟨q'.eps⟩
  empty : ∀ m, (q m).memEmpty = q'.memEmpty
  idx : ∀ m, (q m).memIdx = q'.memIdx
  lenX : ∀ m, (q m).memX.length = q'.memX.length
  x : ∀ i, LT (fun m => (q m).memX.map (· i)) (q'.memX.map (· i))
  d : LT (fun m => (q m).memD) q'.memD

omit hF in
theorem OcT.advance {q : (m : ℕ) → OcExt (Fl (F m)) n} {q' : OcExt ℝ n} (h : OcT q q') : OcT (fun m => ocAdvance (q m)) (ocAdvance q') := by
  by_cases hc : q'.memX.length ≤ q'.memIdx + 1
  · have : ∀ m, (q m).memX.length ≤ (q m).memIdx + 1 := fun m => by rw [h.lenX, h.idx]; exact hc
    simp only [ocAdvance, if_pos hc, if_pos (this _)]
    exact ⟨h.eps, fun _ => rfl, fun _ => rfl, h.lenX, h.x, h.d⟩
  · have : ∀ m, ¬ (q m).memX.length ≤ (q m).memIdx + 1 := fun m => by rw [h.lenX, h.idx]; exact hc
    simp only [ocAdvance, if_neg hc, if_neg (this _)]
    exact ⟨h.eps, h.empty, fun m => by simp only [h.idx], h.lenX, h.x, h.d⟩

omit hF in
theorem OcT.storeX {q : (m : ℕ) → OcExt (Fl (F m)) n} {q' : OcExt ℝ n} (h : OcT q q') (v : Vec ℝ n) :
    OcT (fun m => ocStoreX (q m) (v.fl (F m))) (ocStoreX q' v) where
  eps := h.eps
  empty := h.empty
  idx := h.idx
  lenX m := by simp [ocStoreX, h.lenX]
  x i := by
    simp only [ocStoreX, List.map_set, h.idx]
    exact (h.x i).set _ (T.const _)
  d := h.d

omit hF in
theorem OcT.storeD {q : (m : ℕ) → OcExt (Fl (F m)) n} {q' : OcExt ℝ n} (h : OcT q q') {a : (m : ℕ) → Fl (F m)} {b : ℝ} (hab : T a b) :
    OcT (fun m => ocStoreD (q m) (a m)) (ocStoreD q' b) where
  eps := h.eps
  empty := h.empty
  idx := h.idx
  lenX := h.lenX
  x := h.x
  d := by
    simp only [ocStoreD, h.idx, h.d.1]
    exact h.d.set _ hab

theorem OcT.mx {q : (m : ℕ) → OcExt (Fl (F m)) n} {q' : OcExt ℝ n} (h : OcT q q') (ho : OcOk q') (i : Fin n) :
    T (fun m => ocMx (q m) i) (ocMx q' i) := by
  have hne : q'.memX ≠ [] := fun hx => by have := ho.2; simp [hx] at this
  unfold ocMx
  cases he : q'.memEmpty
  · simp only [h.empty, he]
    exact (h.x i).mean hF (by simpa using hne)
  · simp only [h.empty, he, h.idx, if_true]
    by_cases h0 : q'.memIdx = 0
    · simp only [if_pos h0]; exact T.const 0
    · simp only [if_neg h0]
      have := ((h.x i).take (q'.memIdx + 1)).mean hF (by simpa using hne)
      simp only [← List.map_take] at this
      exact this

theorem OcT.md {q : (m : ℕ) → OcExt (Fl (F m)) n} {q' : OcExt ℝ n} (h : OcT q q') (ho : OcOk q') (hm : 2 ≤ q'.memX.length) :
    T (fun m => ocMd (q m)) (ocMd q') := by
  have hl := ho.1
  unfold ocMd ocCenterD
  cases he : q'.memEmpty
  · have hi : q'.memIdx < q'.memD.length := by rw [hl]; exact ho.2
    have hi' : ∀ m, q'.memIdx < (q m).memD.length := fun m => by rw [h.d.1]; exact hi
    simp only [h.empty, he, h.idx, if_pos hi, if_pos (hi' _), Bool.false_eq_true, if_false]
    refine (h.d.eraseIdx _).mean hF fun hx => ?_
    have := congrArg List.length hx
    rw [List.length_eraseIdx_of_lt hi] at this
    simp at this
    omega
  · simp only [h.empty, he, h.idx, if_true]
    by_cases h0 : q'.memIdx = 0
    · simp only [if_pos h0]; exact T.const 0
    · simp only [if_neg h0]
      refine (h.d.take _).mean hF fun hx => ?_
      have := congrArg List.length hx
      rw [List.length_take, List.length_nil] at this
      omega

/-- C91 for OCNLMS with `eps > 0` and a memory of at least two samples (with `mem = 1` the mean of an empty slice is taken). -/
theorem C91_ocnlms (eps : ℝ) (heps : 0 < eps) (mem : ℕ) (hm : 2 ≤ mem) {S : (m : ℕ) → ℕ → Core (Fl (F m)) n (OcExt (Fl (F m)) n)} {S' : ℕ → Core ℝ n (OcExt ℝ n)}
    (h : ∀ m, Runs (ocnlms (Fl (F m)) n)
      ⟨⟨w0.fl (F m), n, ⟨mu⟩, (⟨⟨eps⟩, true, List.replicate mem fun _ => ⟨0⟩, List.replicate mem ⟨0⟩, 0⟩ : OcExt (Fl (F m)) n)⟩, []⟩
      (fun k => ⟨d k⟩) (fun k => (x k).fl (F m)) (y m) (e m) (S m))
    (h' : Runs (ocnlms ℝ n) ⟨⟨w0, n, mu, (⟨eps, true, List.replicate mem fun _ => 0, List.replicate mem 0, 0⟩ : OcExt ℝ n)⟩, []⟩ d x y' e' S') :
    Consistent F y e (fun m k => (S m k).w) y' e' (fun k => (S' k).w) := by
  have hokF : ∀ m, OcOk (⟨⟨eps⟩, true, List.replicate mem fun _ => ⟨0⟩, List.replicate mem ⟨0⟩, 0⟩ : OcExt (Fl (F m)) n) := fun m => ⟨by simp, by simpa using by omega⟩
  have hok : OcOk (⟨eps, true, List.replicate mem fun _ => 0, List.replicate mem 0, 0⟩ : OcExt ℝ n) := ⟨by simp, by simpa using by omega⟩
  have bF := fun m k => oc_runs_full (h m) (hokF m) k
  have b' := fun k => oc_runs_full h' hok k
  have ye : ∀ k, OcT (fun m => (S m k).ext) (S' k).ext → (∀ i, T (fun m => (S m k).w i) ((S' k).w i)) → (S' k).ext.memX.length = mem →
      T (fun m => y m k) (y' k) ∧ T (fun m => e m k) (e' k) := by
    intro k hq hw hl
    obtain ⟨ok', -, -, hy', he', -⟩ := b' k
    have h1 : T (fun m => y m k) (y' k) := by
      simp only [fun m => (bF m k).2.2.2.1, hy', ocY]
      exact (T.dot hF _ _ _ _ hw fun i => (T.const (x k i)).sub hF (hq.mx hF ok' i)).add hF (hq.md hF ok' (by omega))
    refine ⟨h1, ?_⟩
    simp only [fun m => (bF m k).2.2.2.2.1, he']
    exact (T.const (d k)).sub hF h1
  have key : ∀ k, OcT (fun m => (S m k).ext) (S' k).ext ∧ (∀ i, T (fun m => (S m k).w i) ((S' k).w i)) ∧ (S' k).ext.memX.length = mem ∧ (S' k).ext.eps = eps := by
    intro k
    induction k with
    | zero =>
      simp only [fun m => (h m).1, h'.1]
      refine ⟨⟨fun m => rfl, fun m => rfl, fun m => rfl, fun m => by simp [Core.withN], fun i => ?_, ?_⟩, fun i => T.const _, by simp [Core.withN], rfl⟩
      · refine ⟨fun m => by simp [Core.withN], fun j => ?_⟩
        by_cases hj : j < mem
        · simpa [Core.withN, List.getElem?_replicate, hj] using T.const 0
        · simpa [Core.withN, List.getElem?_replicate, hj] using T.const 0
      · refine ⟨fun m => by simp [Core.withN], fun j => ?_⟩
        by_cases hj : j < mem
        · simpa [Core.withN, List.getElem?_replicate, hj] using T.const 0
        · simpa [Core.withN, List.getElem?_replicate, hj] using T.const 0
    | succ k ih =>
      obtain ⟨iq, iw, il, ie⟩ := ih
      obtain ⟨-, te⟩ := ye k iq iw il
      obtain ⟨ok', -, m', hy', he', hw', hx'⟩ := b' k
      have q1 : OcT (fun m => ocStoreX (ocAdvance (S m k).ext) ((x k).fl (F m))) (ocStoreX (ocAdvance (S' k).ext) (x k)) := iq.advance.storeX _
      have ok1 : OcOk (ocStoreX (ocAdvance (S' k).ext) (x k)) := OcOk_storeX (OcOk_advance ok') _
      have la : ∀ q : OcExt ℝ n, (ocAdvance q).memX.length = q.memX.length := fun q => by unfold ocAdvance; split <;> rfl
      have ea : ∀ q : OcExt ℝ n, (ocAdvance q).eps = q.eps := fun q => by unfold ocAdvance; split <;> rfl
      have l1 : (ocStoreX (ocAdvance (S' k).ext) (x k)).memX.length = mem := by simp [ocStoreX, la, il]
      have tc : ∀ i, T (fun m => ((x k).fl (F m)) i - ocMx (ocStoreX (ocAdvance (S m k).ext) ((x k).fl (F m))) i)
          (x k i - ocMx (ocStoreX (ocAdvance (S' k).ext) (x k)) i) := fun i => (T.const (x k i)).sub hF (q1.mx hF ok1 i)
      refine ⟨?_, fun i => ?_, ?_, ?_⟩
      · simp only [fun m => (bF m k).2.2.2.2.2.2, hx']
        exact q1.advance.storeD (te.add hF ((T.dot hF _ _ _ _ iw tc).add hF (q1.md hF ok1 (by omega))))
      · simp only [fun m => (bF m k).2.2.2.2.2.1, hw', fun m => (bF m k).2.2.1, m', iq.eps, ie]
        refine (iw i).add hF ((((T.const mu).div hF ((T.const eps).add hF (T.dot hF _ _ _ _ tc tc)) ?_).mul hF te).mul hF (tc i))
        have : 0 ≤ ∑ i, (x k i - ocMx (ocStoreX (ocAdvance (S' k).ext) (x k)) i) * (x k i - ocMx (ocStoreX (ocAdvance (S' k).ext) (x k)) i) :=
          Finset.sum_nonneg fun i _ => mul_self_nonneg _
        rw [← dot_eq] at this
        positivity
      · rw [hx']
        show (ocAdvance _).memX.length = mem
        rw [la, l1]
      · rw [hx']
        show (ocAdvance _).eps = eps
        rw [ea]
        show (ocAdvance _).eps = eps
        rw [ea, ie]
  exact fun k => ⟨(ye k (key k).1 (key k).2.1 (key k).2.2.1).1, (ye k (key k).1 (key k).2.1 (key k).2.2.1).2, (key k).2.1⟩

end filters

/-! ## Non-vacuity and the exception -/

/-- arithmetic of growing precision: `float` with `m + 1` bits -/
theorem tendsto_binary : Tendsto (fun m => (binary (m + 1) (Nat.succ_pos m)).u) atTop (nhds 0) :=
  (tendsto_pow_atTop_nhds_zero_of_lt_one (by norm_num) (by norm_num : (1 / 2 : ℝ) < 1)).comp (tendsto_add_atTop_nat 1)

/-- the hypotheses of `C91_rls` are met for any data by RLS in binary arithmetic with growing precision -/
example (d : ℕ → ℝ) (x : ℕ → Vec ℝ 2) : ∃ (y e : (m : ℕ) → ℕ → Fl (binary (m + 1) (Nat.succ_pos m))) (S : (m : ℕ) → ℕ → Core (Fl (binary (m + 1) (Nat.succ_pos m))) 2 (RlsExt _ 2))
    (y' e' : ℕ → ℝ) (S' : ℕ → Core ℝ 2 (RlsExt ℝ 2)),
    (∀ m, Runs (rls (Fl (binary (m + 1) (Nat.succ_pos m))) 2) ⟨⟨Vec.fl _ fun _ => 0, 2, ⟨1 / 2⟩, ⟨⟨1⟩, fun i j => 1 / ⟨1⟩ * eye 2 i j⟩⟩, []⟩ (fun k => ⟨d k⟩) (fun k => (x k).fl _)
      (y m) (e m) (S m)) ∧
    Runs (rls ℝ 2) ⟨⟨fun _ => 0, 2, 1 / 2, ⟨1, fun i j => if i = j then 1 / 1 else 0⟩⟩, []⟩ d x y' e' S' :=
  ⟨_, _, _, _, _, _, fun m => runs_of_safe rls_safe _ (by show decide ((1 / 2 : ℝ) = 0) = false; simp) _ _,
    runs_of_safe rls_safe _ (by show decide ((1 / 2 : ℝ) = 0) = false; simp) _ _⟩

/-- what `C91_ap` asks of `np.linalg.solve` can be met: by a solver which is exact on the numbers it is given -/
example (n order : ℕ) (ifc : ℝ) : SolveConsistent F (fun m => fun N A _ => .ok fun i j => ⟨((Matrix.of fun i j => (A i j).val)⁻¹ : Matrix (Fin N) (Fin N) ℝ) i j⟩) n order ifc := by
  refine ⟨fun m X => ⟨_, rfl⟩, fun A A' P' P hA hP hs i j => ?_⟩
  have h1 : Matrix.of A' * Matrix.of P' = 1 := by
    ext i j
    have := congrFun (congrFun hP i) j
    rw [Matrix.mul_apply]
    refine Eq.trans (List.sum_ofFn).symm (this.trans ?_)
    simp only [eye, Matrix.one_apply]
  have h2 : (Matrix.of A')⁻¹ = Matrix.of P' := Matrix.inv_eq_right_inv h1
  have h3 : ∀ m, P m = fun i j => ⟨((Matrix.of fun i j => (A m i j).val)⁻¹ : Matrix (Fin order) (Fin order) ℝ) i j⟩ := fun m => (Except.ok.inj (hs m)).symm
  have h4 : (Matrix.of A').det ≠ 0 := fun h0 => by
    have := congrArg Matrix.det h1
    rw [Matrix.det_mul, h0, zero_mul, Matrix.det_one] at this
    exact zero_ne_one this
  have h5 : Tendsto (fun m => (Matrix.of fun i j => (A m i j).val : Matrix (Fin order) (Fin order) ℝ)) atTop (nhds (Matrix.of A')) :=
    tendsto_pi_nhds.mpr fun i => tendsto_pi_nhds.mpr fun j => hA i j
  have h6 : Tendsto (fun m => ((Matrix.of fun i j => (A m i j).val : Matrix (Fin order) (Fin order) ℝ)⁻¹)) atTop (nhds (Matrix.of A')⁻¹) := by
    simp only [Matrix.inv_def, Ring.inverse_eq_inv']
    exact ((((continuous_id.matrix_det).tendsto _).comp h5).inv₀ h4).smul (((continuous_id.matrix_adjugate).tendsto _).comp h5)
  rw [h2] at h6
  have h7 := (tendsto_pi_nhds.mp (tendsto_pi_nhds.mp h6 i)) j
  unfold T
  simp only [h3]
  exact h7

theorem infl_err {u : ℝ} (h0 : 0 ≤ u) (z : ℝ) : |z * (1 + u) - z| = u * |z| := by
  rw [show z * (1 + u) - z = u * z by ring, abs_mul, abs_of_nonneg h0]

/-- an arithmetic in which every result is too large by the factor `1 + u` -/
noncomputable def inflate (u : ℝ) (h0 : 0 ≤ u) (h1 : u < 1) : Rounding where
  u := u
  u_nonneg := h0
  u_lt := h1
  add a b := (a + b) * (1 + u)
  sub a b := (a - b) * (1 + u)
  mul a b := (a * b) * (1 + u)
  div a b := (a / b) * (1 + u)
  sqrt a := Real.sqrt a * (1 + u)
  exp a := Real.exp a * (1 + u)
  tanh a := Real.tanh a * (1 + u)
  log10 a := Real.logb 10 a * (1 + u)
  pow a b := a ^ b * (1 + u)
  add_err a b := (infl_err h0 _).le
  sub_err a b := (infl_err h0 _).le
  mul_err a b := (infl_err h0 _).le
  div_err a b _ := (infl_err h0 _).le
  sqrt_err a := (infl_err h0 _).le
  exp_err a := (infl_err h0 _).le
  tanh_err a := (infl_err h0 _).le
  log10_err a := (infl_err h0 _).le
  pow_err a b := (infl_err h0 _).le

/-- arithmetics of this kind with errors tending to 0 -/
noncomputable def inflating (m : ℕ) : Rounding :=
  inflate (1 / (m + 2)) (by positivity) (by rw [div_lt_one (by positivity)]; linarith [(Nat.cast_nonneg m : (0 : ℝ) ≤ m)])

/-- C91, the exception: SSLMS started at the solution (`w = 1`, `x = 1`, `d = 1`) keeps its weight 1 in exact arithmetic, because the error is exactly zero; in arithmetics of any
precision the weight after one sample can be below 1 by about the full step `mu`: it tends to `1 - mu`, not to 1. -/
theorem C91_sslms_exception (mu : ℝ)
    {y e : (m : ℕ) → ℕ → Fl (inflating m)} {S : (m : ℕ) → ℕ → Core (Fl (inflating m)) 1 (Unit)} {y' e' : ℕ → ℝ} {S' : ℕ → Core ℝ 1 (Unit)}
    (h : ∀ m, Runs (sslms (Fl (inflating m)) 1) ⟨⟨Vec.fl _ fun _ => 1, 1, ⟨mu⟩, ()⟩, []⟩ (fun k => ⟨1⟩) (fun k => Vec.fl _ fun _ => 1) (y m) (e m) (S m))
    (h' : Runs (sslms ℝ 1) ⟨⟨fun _ => 1, 1, mu, ()⟩, []⟩ (fun _ => 1) (fun _ _ => 1) y' e' S') :
    Tendsto (fun m => (inflating m).u) atTop (nhds 0) ∧ (S' 1).w 0 = 1 ∧ Tendsto (fun m => ((S m 1).w 0).val) atTop (nhds (1 - mu)) := by
  have hu : Tendsto (fun m => (inflating m).u) atTop (nhds 0) := by
    show Tendsto (fun m : ℕ => (1 : ℝ) / (m + 2)) atTop (nhds 0)
    have := (tendsto_const_div_atTop_nhds_zero_nat (1 : ℝ)).comp (tendsto_add_atTop_nat 2)
    refine this.congr fun m => ?_
    simp
  refine ⟨hu, ?_, ?_⟩
  · obtain ⟨-, -, hy, he, hw⟩ := sslms_runs h' 0
    have e0 : e' 0 = 0 := by
      rw [he, hy, h'.1]
      simp [dot_eq, Core.withN]
    rw [hw, h'.1, e0]
    simp [Core.withN, Scalar.sgn]
  · have r := fun m => sslms_runs (h m) 0
    have pos : ∀ m, 0 < (inflating m).u := fun m => by show (0 : ℝ) < 1 / (m + 2); positivity
    have e0 : ∀ m, (e m 0).val < 0 := fun m => by
      obtain ⟨-, -, hy, he, -⟩ := r m
      have p := pos m
      have : (e m 0).val = (1 - (1 * 1 * (1 + (inflating m).u) + 0) * (1 + (inflating m).u)) * (1 + (inflating m).u) := by
        rw [he, hy, (h m).1]
        rfl
      rw [this]
      have : 1 - (1 * 1 * (1 + (inflating m).u) + 0) * (1 + (inflating m).u) < 0 := by nlinarith
      nlinarith
    have e1 : ∀ m, Scalar.sgn (e m 0) = (⟨-1⟩ : Fl (inflating m)) := fun m => by
      show (⟨if 0 < (e m 0).val then 1 else if (e m 0).val < 0 then -1 else 0⟩ : Fl (inflating m)) = _
      rw [if_neg (not_lt.mpr (e0 m).le), if_pos (e0 m)]
    have key : T (fun m => (S m 1).w 0) (1 + mu * 1 * (-1)) := by
      have : ∀ m, (S m 1).w 0 = ⟨1⟩ + ⟨mu⟩ * Scalar.sgn ⟨1⟩ * (⟨-1⟩ : Fl (inflating m)) := fun m => by
        rw [(r m).2.2.2.2, (h m).1, e1 m]
        rfl
      simp only [this]
      refine (T.const 1).add hu (((T.const mu).mul hu ?_).mul hu (T.const (-1)))
      have : ∀ m, Scalar.sgn (⟨1⟩ : Fl (inflating m)) = ⟨1⟩ := fun m => by
        show (⟨if (0 : ℝ) < 1 then 1 else _⟩ : Fl (inflating m)) = _
        rw [if_pos one_pos]
      simp only [this]
      exact T.const 1
    have e2 : 1 + mu * 1 * (-1) = 1 - mu := by ring
    rw [e2] at key
    exact key

example (mu : ℝ) : ∃ (y e : (m : ℕ) → ℕ → Fl (inflating m)) (S : (m : ℕ) → ℕ → Core (Fl (inflating m)) 1 (Unit)) (y' e' : ℕ → ℝ) (S' : ℕ → Core ℝ 1 (Unit)),
    (∀ m, Runs (sslms (Fl (inflating m)) 1) ⟨⟨Vec.fl _ fun _ => 1, 1, ⟨mu⟩, ()⟩, []⟩ (fun k => ⟨1⟩) (fun k => Vec.fl _ fun _ => 1) (y m) (e m) (S m)) ∧
    Runs (sslms ℝ 1) ⟨⟨fun _ => 1, 1, mu, ()⟩, []⟩ (fun _ => 1) (fun _ _ => 1) y' e' S' :=
  ⟨_, _, _, _, _, _, fun m => runs_of_safe sslms_safe _ trivial _ _, runs_of_safe sslms_safe _ trivial _ _⟩

end Padasip
