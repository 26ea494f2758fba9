import Verif.Props.Special
import Verif.Props.SignLevels
import Verif.Props.Rls
import Verif.Props.Monotone
import Verif.Props.Initial
import Mathlib.Analysis.SpecialFunctions.Trigonometric.DerivHyp
import Mathlib.Analysis.SpecialFunctions.Pow.Asymptotics
import Mathlib.Analysis.SpecialFunctions.Pow.Continuity

/-!
# C135: the influence of one wrong target

The data are those of a run in which the target of sample `j` is replaced by a number `D`; what happens as `D` grows?
-/

set_option linter.unusedSectionVars false
set_option linter.unusedVariables false
set_option linter.unusedSimpArgs false

namespace Padasip

open Finset Filter Topology

/-- the data without sample `j` -/
def skip {α : Type} (j : ℕ) (f : ℕ → α) : ℕ → α := fun k => if k < j then f k else f (k + 1)

variable {n : ℕ}

/-- one value of a stream tends to a limit of the update: so does everything after it -/
theorem outlier_tendsto {l : Filter ℝ} {F : ℝ → Vec ℝ n → Vec ℝ n → Vec ℝ n} (hF : ∀ d x, Continuous (F d x)) {d : ℕ → ℝ} {x : ℕ → Vec ℝ n} {j : ℕ}
    {w : ℝ → ℕ → Vec ℝ n} {w0 : Vec ℝ n} (h0 : ∀ D, w D 0 = w0) (hw : ∀ D k, w D (k + 1) = F (Function.update d j D k) (x k) (w D k))
    {w' : ℕ → Vec ℝ n} (h0' : Tendsto (fun D => F D (x j) (w 0 j)) l (𝓝 (w' 0))) (hw' : ∀ k, w' (k + 1) = F (d (j + 1 + k)) (x (j + 1 + k)) (w' k)) (k : ℕ) :
    (∀ D D', ∀ i ≤ j, w D i = w D' i) ∧ Tendsto (fun D => w D (j + 1 + k)) l (𝓝 (w' k)) := by
  have pre : ∀ D D', ∀ i ≤ j, w D i = w D' i := by
    intro D D' i
    induction i with
    | zero => intro _; rw [h0, h0]
    | succ i ih =>
      intro hi
      rw [hw, hw, ih (by omega), Function.update_of_ne (by omega), Function.update_of_ne (by omega)]
  refine ⟨pre, ?_⟩
  induction k with
  | zero =>
    refine h0'.congr fun D => ?_
    rw [add_zero, hw, Function.update_self, pre D 0 j le_rfl]
  | succ k ih =>
    rw [hw']
    refine (((hF _ _).tendsto _).comp ih).congr fun D => ?_
    show _ = w D (j + 1 + k + 1)
    rw [hw, Function.update_of_ne (by omega)]
    rfl

/-! ### GMCC -/

theorem sgn_real (a : ℝ) : (Scalar.sgn a : ℝ) = if 0 < a then 1 else if a < 0 then -1 else 0 := rfl

/-- the factor of the input in the update of GMCC -/
noncomputable def gmccGain (mu l a e : ℝ) : ℝ := mu * l * a * Real.exp (-l * |e| ^ a) * |e| ^ (a - 1) * Scalar.sgn e

theorem gmccGain_continuous (mu l : ℝ) {a : ℝ} (ha : 1 < a) : Continuous (gmccGain mu l a) := by
  have h1 : Continuous fun e : ℝ => |e| ^ (a - 1) * (Scalar.sgn e : ℝ) := by
    have : (fun e : ℝ => |e| ^ (a - 1) * (Scalar.sgn e : ℝ)) = fun e => if 0 ≤ e then |e| ^ (a - 1) else -|e| ^ (a - 1) := by
      funext e
      rw [sgn_real]
      rcases lt_trichotomy e 0 with h | h | h
      · simp [h, not_le.2 h, not_lt.2 h.le]
      · subst h; simp [Real.zero_rpow (show a - 1 ≠ 0 by linarith)]
      · simp [h, h.le]
    rw [this]
    have hp : Continuous fun e : ℝ => |e| ^ (a - 1) := continuous_abs.rpow_const fun _ => Or.inr (by linarith)
    refine Continuous.if_le hp hp.neg continuous_const continuous_id fun e he => ?_
    subst he
    simp [Real.zero_rpow (show a - 1 ≠ 0 by linarith)]
  have h2 : Continuous fun e : ℝ => mu * l * a * Real.exp (-l * |e| ^ a) :=
    continuous_const.mul (Real.continuous_exp.comp (continuous_const.mul (continuous_abs.rpow_const fun _ => Or.inr (by linarith))))
  refine (h2.mul h1).congr fun e => ?_
  show (mu * l * a * Real.exp (-l * |e| ^ a)) * (|e| ^ (a - 1) * (Scalar.sgn e : ℝ)) = _
  unfold gmccGain
  ring

theorem gmccGain_vanishes (mu : ℝ) {l a : ℝ} (hl : 0 < l) (ha : 0 < a) {f : Filter ℝ} {e : ℝ → ℝ} (he : Tendsto (fun D => |e D|) f atTop) :
    Tendsto (fun D => gmccGain mu l a (e D)) f (𝓝 0) := by
  have h1 : Tendsto (fun t : ℝ => t ^ ((a - 1) / a) * Real.exp (-l * t)) atTop (𝓝 0) := tendsto_rpow_mul_exp_neg_mul_atTop_nhds_zero _ _ hl
  have h2 : Tendsto (fun t : ℝ => (t ^ a) ^ ((a - 1) / a) * Real.exp (-l * t ^ a)) atTop (𝓝 0) := h1.comp (tendsto_rpow_atTop ha)
  have h3 : Tendsto (fun D => (|e D| ^ a) ^ ((a - 1) / a) * Real.exp (-l * |e D| ^ a)) f (𝓝 0) := h2.comp he
  have h4 : ∀ D, (|e D| ^ a) ^ ((a - 1) / a) = |e D| ^ (a - 1) := fun D => by
    rw [← Real.rpow_mul (abs_nonneg _)]; congr 1; field_simp
  simp only [h4] at h3
  have h5 : Tendsto (fun D => |mu * l * a| * (|e D| ^ (a - 1) * Real.exp (-l * |e D| ^ a))) f (𝓝 0) := by
    simpa using h3.const_mul |mu * l * a|
  refine squeeze_zero_norm (fun D => ?_) h5
  unfold gmccGain
  rw [Real.norm_eq_abs, abs_mul, abs_mul, abs_mul]
  have hs : |(Scalar.sgn (e D) : ℝ)| ≤ 1 := abs_sgn_le_one _
  have h6 : |Real.exp (-l * |e D| ^ a)| = Real.exp (-l * |e D| ^ a) := abs_of_pos (Real.exp_pos _)
  have h7 : |(|e D| ^ (a - 1))| = |e D| ^ (a - 1) := abs_of_nonneg (Real.rpow_nonneg (abs_nonneg _) _)
  rw [h6, h7]
  calc _ ≤ |mu * l * a| * Real.exp (-l * |e D| ^ a) * |e D| ^ (a - 1) * 1 := by
        gcongr
    _ = _ := by ring

theorem gmcc_next {o : Obj (gmcc ℝ n)} {d : ℕ → ℝ} {x : ℕ → Vec ℝ n} {y e : ℕ → ℝ} {S : ℕ → Core ℝ n (GmccExt ℝ)} (h : Runs (gmcc ℝ n) o d x y e S) (k : ℕ) :
    y k = ∑ i, (S k).w i * x k i ∧
    (S (k + 1)).w = fun i => (S k).w i + gmccGain o.core.mu o.core.ext.lambd o.core.ext.alpha (d k - ∑ i, (S k).w i * x k i) * x k i := by
  obtain ⟨h1, h2, h3, h4, h5⟩ := gmcc_runs h k
  rw [h5, h1, h2, h4, h3, dot_eq]
  exact ⟨rfl, rfl⟩

/-- the weights of the two runs agree before sample `j`, and after it the run with a limit weight vector is the limit -/
theorem skip_tendsto {l : Filter ℝ} {F : ℝ → Vec ℝ n → Vec ℝ n → Vec ℝ n} (hF : ∀ d x, Continuous (F d x)) {d : ℕ → ℝ} {x : ℕ → Vec ℝ n} {j : ℕ}
    {w : ℝ → ℕ → Vec ℝ n} {w0 : Vec ℝ n} (h0 : ∀ D, w D 0 = w0) (hw : ∀ D k, w D (k + 1) = F (Function.update d j D k) (x k) (w D k))
    (hlim : ∀ v, Tendsto (fun D => F D (x j) v) l (𝓝 v)) {w' : ℕ → Vec ℝ n} (h0' : w' 0 = w0)
    (hw' : ∀ k, w' (k + 1) = F (skip j d k) (skip j x k) (w' k)) (k : ℕ) (hk : j ≤ k) : Tendsto (fun D => w D (k + 1)) l (𝓝 (w' k)) := by
  have pre : ∀ i ≤ j, w 0 i = w' i := by
    intro i
    induction i with
    | zero => intro _; rw [h0, h0']
    | succ i ih =>
      intro hi
      have : i < j := by omega
      rw [hw, hw', ih (by omega), Function.update_of_ne (by omega)]
      simp [skip, this]
  obtain ⟨m, rfl⟩ := Nat.exists_eq_add_of_le hk
  have := (outlier_tendsto (l := l) hF h0 hw (w' := fun k => w' (j + k)) (by rw [pre j le_rfl]; exact hlim _)
    (fun k => by
      show w' (j + k + 1) = _
      rw [hw']
      have h : ¬ j + k < j := by omega
      simp only [skip, h, if_false]
      rw [show j + k + 1 = j + 1 + k by omega]) m).2
  rw [show j + m + 1 = j + 1 + m by omega]
  exact this

/-- C135: GMCC (`lambd > 0`, `alpha > 1`) ignores gross outliers: as the wrong target `D` of sample `j` goes to plus or minus infinity, all weights and outputs of the rest of the run tend to those
of the run on the data without sample `j`. -/
theorem C135_gmcc (o : Obj (gmcc ℝ n)) (hl : 0 < o.core.ext.lambd) (ha : 1 < o.core.ext.alpha) {d : ℕ → ℝ} {x : ℕ → Vec ℝ n} (j : ℕ)
    {y e : ℝ → ℕ → ℝ} {S : ℝ → ℕ → Core ℝ n (GmccExt ℝ)} (h : ∀ D, Runs (gmcc ℝ n) o (Function.update d j D) x (y D) (e D) (S D))
    {y' e' : ℕ → ℝ} {S' : ℕ → Core ℝ n (GmccExt ℝ)} (h' : Runs (gmcc ℝ n) o (skip j d) (skip j x) y' e' S') (k : ℕ) (hk : j ≤ k) :
    (Tendsto (fun D => (S D (k + 1)).w) atTop (𝓝 (S' k).w) ∧ Tendsto (fun D => y D (k + 1)) atTop (𝓝 (y' k))) ∧
    (Tendsto (fun D => (S D (k + 1)).w) atBot (𝓝 (S' k).w) ∧ Tendsto (fun D => y D (k + 1)) atBot (𝓝 (y' k))) := by
  have key : ∀ l : Filter ℝ, Tendsto (fun D : ℝ => |D|) l atTop →
      Tendsto (fun D => (S D (k + 1)).w) l (𝓝 (S' k).w) ∧ Tendsto (fun D => y D (k + 1)) l (𝓝 (y' k)) := by
    intro l hlD
    have hS : Tendsto (fun D => (S D (k + 1)).w) l (𝓝 (S' k).w) := by
      refine skip_tendsto (F := fun D x v => fun i => v i + gmccGain o.core.mu o.core.ext.lambd o.core.ext.alpha (D - ∑ i, v i * x i) * x i)
        (d := d) (x := x) (j := j) (w := fun D k => (S D k).w) (w' := fun k => (S' k).w) (w0 := o.core.w) ?_ ?_ ?_ ?_ ?_ ?_ k hk
      · intro d x
        refine continuous_pi fun i => (continuous_apply i).add (Continuous.mul ?_ continuous_const)
        exact (gmccGain_continuous _ _ ha).comp (continuous_const.sub (continuous_finsetSum _ fun i _ => (continuous_apply i).mul continuous_const))
      · intro D; rw [(h D).1]; rfl
      · intro D k; exact (gmcc_next (h D) k).2
      · intro v
        refine tendsto_pi_nhds.2 fun i => ?_
        have h1 : Tendsto (fun D : ℝ => |D - ∑ i, v i * x j i|) l atTop := by
          refine tendsto_atTop_mono (fun D => abs_sub_abs_le_abs_sub D _) ?_
          exact tendsto_atTop_add_const_right _ _ hlD
        have h2 := (gmccGain_vanishes o.core.mu hl (by linarith) h1).mul_const (x j i)
        simpa using h2.const_add (v i)
      · rw [h'.1]; rfl
      · intro k; exact (gmcc_next h' k).2
    refine ⟨hS, ?_⟩
    rw [(gmcc_next h' k).1]
    have hx : skip j x k = x (k + 1) := by simp [skip, not_lt.2 hk]
    rw [hx]
    have h1 : ∀ D, y D (k + 1) = ∑ i, (S D (k + 1)).w i * x (k + 1) i := fun D => (gmcc_next (h D) (k + 1)).1
    simp only [h1]
    exact tendsto_finsetSum _ fun i _ => (tendsto_pi_nhds.1 hS i).mul_const _
  exact ⟨key atTop tendsto_abs_atTop_atTop, key atBot tendsto_abs_atBot_atTop⟩

/-! ### Llncosh -/

theorem tanh_continuous' : Continuous Real.tanh := continuous_iff_continuousAt.2 fun t => (hasDerivAt_tanh' t).continuousAt

theorem tanh_atTop : Tendsto Real.tanh atTop (𝓝 1) := by
  have h1 : Tendsto (fun z : ℝ => 1 - (1 + z)⁻¹) atTop (𝓝 1) := by
    simpa using (tendsto_inv_atTop_zero.comp (tendsto_atTop_add_const_left atTop (1 : ℝ) tendsto_id)).const_sub (1 : ℝ)
  refine tendsto_of_tendsto_of_tendsto_of_le_of_le' h1 tendsto_const_nhds ?_ (Eventually.of_forall fun z => (abs_le.1 (abs_tanh_le z)).2)
  filter_upwards [eventually_ge_atTop (0 : ℝ)] with z hz
  refine le_trans (le_of_eq ?_) (div_one_add_le_tanh hz)
  have : (1 + z) ≠ 0 := by positivity
  field_simp
  ring

theorem tanh_atBot : Tendsto Real.tanh atBot (𝓝 (-1)) := by
  have h := (tanh_atTop.comp tendsto_neg_atBot_atTop).neg
  refine h.congr fun z => ?_
  show -Real.tanh (-z) = _
  rw [Real.tanh_neg, neg_neg]

theorem llncosh_next {o : Obj (llncosh ℝ n)} {d : ℕ → ℝ} {x : ℕ → Vec ℝ n} {y e : ℕ → ℝ} {S : ℕ → Core ℝ n (LlncoshExt ℝ)} (h : Runs (llncosh ℝ n) o d x y e S) (k : ℕ) :
    y k = ∑ i, (S k).w i * x k i ∧
    (S (k + 1)).w = fun i => (S k).w i + o.core.mu * Real.tanh (o.core.ext.lambd * (d k - ∑ i, (S k).w i * x k i)) * x k i := by
  obtain ⟨h1, h2, h3, h4, h5⟩ := llncosh_runs h k
  rw [h5, h1, h2, h4, h3, dot_eq]
  exact ⟨rfl, rfl⟩

/-- C135: Llncosh (`lambd > 0`) bounds gross outliers: let `v` be the weights before sample `j` (they do not depend on `D`). As the wrong target `D` of sample `j` goes to plus infinity, the rest of
the run tends to the run of an object with the weights `v + mu * x(j)` on the remaining data; for minus infinity with the weights `v - mu * x(j)`. -/
theorem C135_llncosh (o : Obj (llncosh ℝ n)) (hl : 0 < o.core.ext.lambd) {d : ℕ → ℝ} {x : ℕ → Vec ℝ n} (j : ℕ)
    {y e : ℝ → ℕ → ℝ} {S : ℝ → ℕ → Core ℝ n (LlncoshExt ℝ)} (h : ∀ D, Runs (llncosh ℝ n) o (Function.update d j D) x (y D) (e D) (S D)) :
    ∃ v : Vec ℝ n, (∀ D, (S D j).w = v) ∧ ∀ (c : ℝ) (l : Filter ℝ), (c = 1 ∧ l = atTop ∨ c = -1 ∧ l = atBot) →
      ∀ (o' : Obj (llncosh ℝ n)), o'.core.mu = o.core.mu → o'.core.ext = o.core.ext → (∀ i, o'.core.w i = v i + c * (o.core.mu * x j i)) →
      ∀ {y' e' : ℕ → ℝ} {S' : ℕ → Core ℝ n (LlncoshExt ℝ)}, Runs (llncosh ℝ n) o' (fun k => d (j + 1 + k)) (fun k => x (j + 1 + k)) y' e' S' → ∀ k,
        Tendsto (fun D => (S D (j + 1 + k)).w) l (𝓝 (S' k).w) ∧ Tendsto (fun D => y D (j + 1 + k)) l (𝓝 (y' k)) := by
  let F : ℝ → Vec ℝ n → Vec ℝ n → Vec ℝ n := fun D x v => fun i => v i + o.core.mu * Real.tanh (o.core.ext.lambd * (D - ∑ i, v i * x i)) * x i
  have hF : ∀ d x, Continuous (F d x) := by
    intro d x
    refine continuous_pi fun i => (continuous_apply i).add (Continuous.mul (continuous_const.mul ?_) continuous_const)
    exact tanh_continuous'.comp (continuous_const.mul (continuous_const.sub (continuous_finsetSum _ fun i _ => (continuous_apply i).mul continuous_const)))
  have h0 : ∀ D, (S D 0).w = o.core.w := fun D => by rw [(h D).1]; rfl
  have hw : ∀ D k, (S D (k + 1)).w = F (Function.update d j D k) (x k) (S D k).w := fun D k => (llncosh_next (h D) k).2
  have pre : ∀ D, (S D j).w = (S 0 j).w := by
    intro D
    have : ∀ i ≤ j, (S D i).w = (S 0 i).w := by
      intro i
      induction i with
      | zero => intro _; rw [h0, h0]
      | succ i ih =>
        intro hi
        rw [hw, hw, ih (by omega), Function.update_of_ne (by omega), Function.update_of_ne (by omega)]
    exact this j le_rfl
  refine ⟨(S 0 j).w, pre, fun c l hcl o' hmu hext hw0 y' e' S' h' k => ?_⟩
  have hlim : Tendsto (fun D => F D (x j) (S 0 j).w) l (𝓝 (S' 0).w) := by
    have hS0 : (S' 0).w = o'.core.w := by rw [h'.1]; rfl
    rw [hS0]
    refine tendsto_pi_nhds.2 fun i => ?_
    rw [hw0 i]
    have ht : Tendsto (fun D : ℝ => Real.tanh (o.core.ext.lambd * (D - ∑ i, (S 0 j).w i * x j i))) l (𝓝 c) := by
      rcases hcl with ⟨rfl, rfl⟩ | ⟨rfl, rfl⟩
      · exact tanh_atTop.comp ((tendsto_atTop_add_const_right atTop (-∑ i, (S 0 j).w i * x j i) tendsto_id).const_mul_atTop hl)
      · exact tanh_atBot.comp ((tendsto_atBot_add_const_right atBot (-∑ i, (S 0 j).w i * x j i) tendsto_id).const_mul_atBot hl)
    have := ((ht.const_mul o.core.mu).mul_const (x j i)).const_add ((S 0 j).w i)
    rwa [show o.core.mu * c * x j i = c * (o.core.mu * x j i) by ring] at this
  have hS : ∀ k, Tendsto (fun D => (S D (j + 1 + k)).w) l (𝓝 (S' k).w) := fun k =>
    (outlier_tendsto (l := l) hF (d := d) (x := x) (j := j) (w := fun D k => (S D k).w) h0 hw (w' := fun k => (S' k).w) hlim
      (fun k => by
        have := (llncosh_next h' k).2
        rw [hmu, hext] at this
        exact this) k).2
  refine ⟨hS k, ?_⟩
  rw [(llncosh_next h' k).1]
  have h1 : ∀ D, y D (j + 1 + k) = ∑ i, (S D (j + 1 + k)).w i * x (j + 1 + k) i := fun D => (llncosh_next (h D) _).1
  simp only [h1]
  exact tendsto_finsetSum _ fun i _ => (tendsto_pi_nhds.1 (hS k) i).mul_const _

/-- the hypotheses are met: runs with every value of the wrong target exist, and so do the limit runs -/
example (o : Obj (gmcc ℝ 2)) (d : ℕ → ℝ) (x : ℕ → Vec ℝ 2) (j : ℕ) :
    (∀ D, ∃ y e S, Runs (gmcc ℝ 2) o (Function.update d j D) x y e S) ∧ ∃ y e S, Runs (gmcc ℝ 2) o (skip j d) (skip j x) y e S :=
  ⟨fun D => ⟨_, _, _, runs_of_safe gmcc_safe o trivial _ _⟩, ⟨_, _, _, runs_of_safe gmcc_safe o trivial _ _⟩⟩

example (o o' : Obj (llncosh ℝ 2)) (d : ℕ → ℝ) (x : ℕ → Vec ℝ 2) (j : ℕ) :
    (∀ D, ∃ y e S, Runs (llncosh ℝ 2) o (Function.update d j D) x y e S) ∧
    ∃ y e S, Runs (llncosh ℝ 2) o' (fun k => d (j + 1 + k)) (fun k => x (j + 1 + k)) y e S :=
  ⟨fun D => ⟨_, _, _, runs_of_safe llncosh_safe o trivial _ _⟩, ⟨_, _, _, runs_of_safe llncosh_safe o' trivial _ _⟩⟩

/-! ### the sign-sign filters -/

section Signs

variable {K : Type} [Field K] [LinearOrder K] [IsStrictOrderedRing K]

/-- C135: SSLMS does not see the size of an error: if two targets of sample `j` lie on the same side of the output of the filter at `j`, the two runs are the same (but for the error reported at `j`):
all weights, all outputs and all other errors. -/
theorem C135_sslms (o : Obj (sslms K n)) {d d' : ℕ → K} {x : ℕ → Vec K n} (j : ℕ) (hd : ∀ k, k ≠ j → d k = d' k)
    {y e y' e' : ℕ → K} {S S' : ℕ → Core K n Unit} (h : Runs (sslms K n) o d x y e S) (h' : Runs (sslms K n) o d' x y' e' S')
    (hj : y j < d j ∧ y' j < d' j ∨ d j < y j ∧ d' j < y' j) (k : ℕ) : (S k).w = (S' k).w ∧ y k = y' k ∧ (k ≠ j → e k = e' k) := by
  have hw : ∀ k, (S k).w = (S' k).w := by
    intro k
    induction k with
    | zero => rw [h.1, h'.1]
    | succ k ih =>
      obtain ⟨h1, h2, h3, h4, h5⟩ := sslms_runs h k
      obtain ⟨g1, g2, g3, g4, g5⟩ := sslms_runs h' k
      have hs : (Scalar.sgn (e k) : K) = Scalar.sgn (e' k) := by
        by_cases hk : k = j
        · subst hk
          rcases hj with ⟨a, b⟩ | ⟨a, b⟩
          · rw [sgn_pos' (by rw [h4]; linarith), sgn_pos' (by rw [g4]; linarith)]
          · rw [sgn_neg' (by rw [h4]; linarith), sgn_neg' (by rw [g4]; linarith)]
        · rw [h4, g4, h3, g3, ih, hd k hk]
      rw [h5, g5, ih, h1, g1, hs]
  have hy : y k = y' k := by rw [(sslms_runs h k).2.2.1, (sslms_runs h' k).2.2.1, hw k]
  exact ⟨hw k, hy, fun hk => by rw [(sslms_runs h k).2.2.2.1, (sslms_runs h' k).2.2.2.1, hy, hd k hk]⟩

/-- C135: NSSLMS: the same. -/
theorem C135_nsslms (o : Obj (nsslms K n)) {d d' : ℕ → K} {x : ℕ → Vec K n} (j : ℕ) (hd : ∀ k, k ≠ j → d k = d' k)
    {y e y' e' : ℕ → K} {S S' : ℕ → Core K n (EpsExt K)} (h : Runs (nsslms K n) o d x y e S) (h' : Runs (nsslms K n) o d' x y' e' S')
    (hj : y j < d j ∧ y' j < d' j ∨ d j < y j ∧ d' j < y' j) (k : ℕ) : (S k).w = (S' k).w ∧ y k = y' k ∧ (k ≠ j → e k = e' k) := by
  have hw : ∀ k, (S k).w = (S' k).w := by
    intro k
    induction k with
    | zero => rw [h.1, h'.1]
    | succ k ih =>
      obtain ⟨h1, h2, h3, h4, h5⟩ := nsslms_runs h k
      obtain ⟨g1, g2, g3, g4, g5⟩ := nsslms_runs h' k
      have hs : (Scalar.sgn (e k) : K) = Scalar.sgn (e' k) := by
        by_cases hk : k = j
        · subst hk
          rcases hj with ⟨a, b⟩ | ⟨a, b⟩
          · rw [sgn_pos' (by rw [h4]; linarith), sgn_pos' (by rw [g4]; linarith)]
          · rw [sgn_neg' (by rw [h4]; linarith), sgn_neg' (by rw [g4]; linarith)]
        · rw [h4, g4, h3, g3, ih, hd k hk]
      rw [h5, g5, ih, h1, g1, h2, g2, hs]
  have hy : y k = y' k := by rw [(nsslms_runs h k).2.2.1, (nsslms_runs h' k).2.2.1, hw k]
  exact ⟨hw k, hy, fun hk => by rw [(nsslms_runs h k).2.2.2.1, (nsslms_runs h' k).2.2.2.1, hy, hd k hk]⟩

/-- the hypotheses of `C135_sslms` are met: zero weights, targets 1 and 1000 at the first sample -/
example : ∃ (o : Obj (sslms ℚ 1)) (d d' : ℕ → ℚ) (x : ℕ → Vec ℚ 1) (y e y' e' : ℕ → ℚ) (S S' : ℕ → Core ℚ 1 Unit),
    (∀ k, k ≠ 0 → d k = d' k) ∧ Runs (sslms ℚ 1) o d x y e S ∧ Runs (sslms ℚ 1) o d' x y' e' S' ∧ y 0 < d 0 ∧ y' 0 < d' 0 ∧ d 0 ≠ d' 0 := by
  let o : Obj (sslms ℚ 1) := ⟨⟨fun _ => 0, 1, 1, ()⟩, []⟩
  have r1 := runs_of_safe sslms_safe o trivial (Function.update (fun _ => 3) 0 1) (fun _ _ => 1)
  have r2 := runs_of_safe sslms_safe o trivial (Function.update (fun _ => 3) 0 1000) (fun _ _ => 1)
  refine ⟨o, _, _, _, _, _, _, _, _, _, fun k hk => ?_, r1, r2, ?_, ?_, ?_⟩
  · rw [Function.update_of_ne hk, Function.update_of_ne hk]
  · rw [(sslms_runs r1 0).2.2.1, r1.1, dot_eq]; simp [Core.withN, o]
  · rw [(sslms_runs r2 0).2.2.1, r2.1, dot_eq]; simp [Core.withN, o]
  · simp

/-! ### the filters with an unbounded reaction -/

theorem blows_up {w c y : K} (hc : c ≠ 0) {f : K → K} (hf : ∀ t, 1 ≤ t → t ≤ f t) (hodd : ∀ t, |f t| = f |t|) (B : K) : ∃ T, ∀ D, T < |D| → B < |w + c * f (D - y)| := by
  refine ⟨|y| + 1 + (|B| + |w| + 1) / |c|, fun D hD => ?_⟩
  have hcp : 0 < |c| := abs_pos.2 hc
  have h1 : |D| ≤ |D - y| + |y| := by simpa using abs_add_le (D - y) y
  have h0 : 0 ≤ (|B| + |w| + 1) / |c| := by positivity
  have h2 : (|B| + |w| + 1) / |c| < f |D - y| := lt_of_lt_of_le (by linarith) (hf _ (by linarith))
  rw [div_lt_iff₀ hcp] at h2
  have h3 : |c * f (D - y)| ≤ |w + c * f (D - y)| + |w| := by
    have := abs_sub (w + c * f (D - y)) w
    simpa using this
  rw [abs_mul, hodd] at h3
  have := le_abs_self B
  linarith [mul_comm |c| (f |D - y|)]

theorem cube_ge {t : K} (h : 1 ≤ t) : t ≤ t * t * t := by nlinarith [mul_le_mul h h zero_le_one (by linarith)]

theorem before_eq {F : K → Vec K n → Vec K n → Vec K n} {d : ℕ → K} {x : ℕ → Vec K n} {j : ℕ} {w : K → ℕ → Vec K n} {w0 : Vec K n} (h0 : ∀ D, w D 0 = w0)
    (hw : ∀ D k, w D (k + 1) = F (Function.update d j D k) (x k) (w D k)) (D : K) : w D j = w 0 j ∧ w D (j + 1) = F D (x j) (w 0 j) := by
  have : ∀ i ≤ j, w D i = w 0 i := by
    intro i
    induction i with
    | zero => intro _; rw [h0, h0]
    | succ i ih =>
      intro hi
      rw [hw, hw, ih (by omega), Function.update_of_ne (by omega), Function.update_of_ne (by omega)]
  exact ⟨this j le_rfl, by rw [hw, Function.update_self, this j le_rfl]⟩

/-- C135: LMS (`mu` not 0): one wrong target can do any damage: every weight whose input at sample `j` is not 0 exceeds any bound after sample `j` once the target is large enough. -/
theorem C135_lms (o : Obj (lms K n)) (hmu : o.core.mu ≠ 0) {d : ℕ → K} {x : ℕ → Vec K n} (j : ℕ) (i : Fin n) (hx : x j i ≠ 0)
    {y e : K → ℕ → K} {S : K → ℕ → Core K n Unit} (h : ∀ D, Runs (lms K n) o (Function.update d j D) x (y D) (e D) (S D)) (B : K) :
    ∃ T, ∀ D, T < |D| → B < |(S D (j + 1)).w i| := by
  obtain ⟨T, hT⟩ := blows_up (w := (S 0 j).w i) (y := ∑ i, (S 0 j).w i * x j i) (mul_ne_zero hmu hx) (f := fun t => t) (fun t _ => le_rfl) (fun t => rfl) B
  refine ⟨T, fun D hD => ?_⟩
  have := (before_eq (F := fun D x v => fun i => v i + o.core.mu * x i * (D - ∑ i, v i * x i)) (d := d) (x := x) (j := j) (w := fun D k => (S D k).w) (w0 := o.core.w)
    (fun D => by rw [(h D).1]; rfl) (fun D k => by
      obtain ⟨h1, h2, h3, h4, h5⟩ := lms_runs (h D) k
      rw [h5, h1, h4, h3, dot_eq]) D).2
  have h2 := hT D hD
  rwa [← congrFun this i] at h2

/-- C135: LMF: the same. -/
theorem C135_lmf (o : Obj (lmf K n)) (hmu : o.core.mu ≠ 0) {d : ℕ → K} {x : ℕ → Vec K n} (j : ℕ) (i : Fin n) (hx : x j i ≠ 0)
    {y e : K → ℕ → K} {S : K → ℕ → Core K n Unit} (h : ∀ D, Runs (lmf K n) o (Function.update d j D) x (y D) (e D) (S D)) (B : K) :
    ∃ T, ∀ D, T < |D| → B < |(S D (j + 1)).w i| := by
  obtain ⟨T, hT⟩ := blows_up (w := (S 0 j).w i) (y := ∑ i, (S 0 j).w i * x j i) (mul_ne_zero hmu hx) (f := fun t => t * t * t) (fun t => cube_ge)
    (fun t => by rw [abs_mul, abs_mul]) B
  refine ⟨T, fun D hD => ?_⟩
  have := (before_eq (F := fun D x v => fun i => v i + o.core.mu * x i * ((D - ∑ i, v i * x i) * (D - ∑ i, v i * x i) * (D - ∑ i, v i * x i))) (d := d) (x := x) (j := j)
    (w := fun D k => (S D k).w) (w0 := o.core.w)
    (fun D => by rw [(h D).1]; rfl) (fun D k => by
      obtain ⟨h1, h2, h3, h4, h5⟩ := lmf_runs (h D) k
      rw [h5, h1, h4, h3, dot_eq]) D).2
  have h2 := hT D hD
  rwa [← congrFun this i] at h2

/-- C135: NLMS (`mu` not 0, `eps > 0`): the same, normalisation or not. -/
theorem C135_nlms (o : Obj (nlms K n)) (hmu : o.core.mu ≠ 0) (heps : 0 < o.core.ext.eps) {d : ℕ → K} {x : ℕ → Vec K n} (j : ℕ) (i : Fin n) (hx : x j i ≠ 0)
    {y e : K → ℕ → K} {S : K → ℕ → Core K n (EpsExt K)} (h : ∀ D, Runs (nlms K n) o (Function.update d j D) x (y D) (e D) (S D)) (B : K) :
    ∃ T, ∀ D, T < |D| → B < |(S D (j + 1)).w i| := by
  have hden : o.core.ext.eps + ∑ i, x j i * x j i ≠ 0 := (add_pos_of_pos_of_nonneg heps (Finset.sum_nonneg fun _ _ => mul_self_nonneg _)).ne'
  obtain ⟨T, hT⟩ := blows_up (w := (S 0 j).w i) (y := ∑ i, (S 0 j).w i * x j i) (mul_ne_zero (div_ne_zero hmu hden) hx) (f := fun t => t) (fun t _ => le_rfl) (fun t => rfl) B
  refine ⟨T, fun D hD => ?_⟩
  have := (before_eq (F := fun D x v => fun i => v i + o.core.mu / (o.core.ext.eps + ∑ i, x i * x i) * x i * (D - ∑ i, v i * x i)) (d := d) (x := x) (j := j)
    (w := fun D k => (S D k).w) (w0 := o.core.w)
    (fun D => by rw [(h D).1]; rfl) (fun D k => by
      obtain ⟨h1, h2, h3, h4, h5⟩ := nlms_runs (h D) k
      rw [h5, h1, h2, h4, h3, dot_eq, dot_eq]) D).2
  have h2 := hT D hD
  rwa [← congrFun this i] at h2

/-- C135: NLMF: the same. -/
theorem C135_nlmf (o : Obj (nlmf K n)) (hmu : o.core.mu ≠ 0) (heps : 0 < o.core.ext.eps) {d : ℕ → K} {x : ℕ → Vec K n} (j : ℕ) (i : Fin n) (hx : x j i ≠ 0)
    {y e : K → ℕ → K} {S : K → ℕ → Core K n (EpsExt K)} (h : ∀ D, Runs (nlmf K n) o (Function.update d j D) x (y D) (e D) (S D)) (B : K) :
    ∃ T, ∀ D, T < |D| → B < |(S D (j + 1)).w i| := by
  have hden : o.core.ext.eps + ∑ i, x j i * x j i ≠ 0 := (add_pos_of_pos_of_nonneg heps (Finset.sum_nonneg fun _ _ => mul_self_nonneg _)).ne'
  obtain ⟨T, hT⟩ := blows_up (w := (S 0 j).w i) (y := ∑ i, (S 0 j).w i * x j i) (mul_ne_zero (div_ne_zero hmu hden) hx) (f := fun t => t * t * t) (fun t => cube_ge)
    (fun t => by rw [abs_mul, abs_mul]) B
  refine ⟨T, fun D hD => ?_⟩
  have := (before_eq (F := fun D x v => fun i => v i + o.core.mu / (o.core.ext.eps + ∑ i, x i * x i) * x i * ((D - ∑ i, v i * x i) * (D - ∑ i, v i * x i) * (D - ∑ i, v i * x i)))
    (d := d) (x := x) (j := j) (w := fun D k => (S D k).w) (w0 := o.core.w)
    (fun D => by rw [(h D).1]; rfl) (fun D k => by
      obtain ⟨h1, h2, h3, h4, h5⟩ := nlmf_runs (h D) k
      rw [h5, h1, h2, h4, h3, dot_eq, dot_eq]) D).2
  have h2 := hT D hD
  rwa [← congrFun this i] at h2

/-- C135: RLS (`mu` not 0): the gain matrices do not depend on the targets; with `R` the one after sample `j`, every weight whose entry of `R x(j)` is not 0 exceeds any bound after sample `j` once
the target is large enough. -/
theorem C135_rls (o : Obj (rls K n)) (hmu : o.core.mu ≠ 0) {d : ℕ → K} {x : ℕ → Vec K n} (j : ℕ)
    {y e : K → ℕ → K} {S : K → ℕ → Core K n (RlsExt K n)} (h : ∀ D, Runs (rls K n) o (Function.update d j D) x (y D) (e D) (S D)) :
    ∃ R : Mat K n n, (∀ D, (S D (j + 1)).ext.R = R) ∧ ∀ i, ∑ l, R i l * x j l ≠ 0 → ∀ B : K, ∃ T, ∀ D, T < |D| → B < |(S D (j + 1)).w i| := by
  have hm : Scalar.eqz o.core.mu = false := by simpa [Scalar.eqz] using hmu
  have hR : ∀ k D, (S D k).ext.R = (S 0 k).ext.R := by
    intro k
    induction k with
    | zero => intro D; rw [(h D).1, (h 0).1]
    | succ k ih =>
      intro D
      obtain ⟨h1, -, -, -, -, h6⟩ := rls_runs hm (h D) k
      obtain ⟨g1, -, -, -, -, g6⟩ := rls_runs hm (h 0) k
      rw [h6, g6, ih D, h1, g1]
  refine ⟨(S 0 (j + 1)).ext.R, fun D => hR _ D, fun i hi B => ?_⟩
  have hw : ∀ D k, (S D (k + 1)).w = fun i => (S D k).w i + (∑ l, (S 0 (k + 1)).ext.R i l * x k l) * (Function.update d j D k - ∑ i, (S D k).w i * x k i) := by
    intro D k
    obtain ⟨h1, h2, h3, h4, h5, h6⟩ := rls_runs hm (h D) k
    rw [h5, ← h6, h4, h3, hR (k + 1) D, dot_eq]
    funext i
    rw [matVec_eq]
  have pre : ∀ D, ∀ i ≤ j, (S D i).w = (S 0 i).w := by
    intro D i
    induction i with
    | zero => intro _; rw [(h D).1, (h 0).1]
    | succ i ih =>
      intro hi
      rw [hw, hw, ih (by omega), Function.update_of_ne (by omega), Function.update_of_ne (by omega)]
  obtain ⟨T, hT⟩ := blows_up (w := (S 0 j).w i) (y := ∑ i, (S 0 j).w i * x j i) hi (f := fun t => t) (fun t _ => le_rfl) (fun t => rfl) B
  refine ⟨T, fun D hD => ?_⟩
  have h2 := hT D hD
  rw [hw, Function.update_self, pre D j le_rfl]
  exact h2

end Signs

example (o : Obj (lms ℚ 2)) (d : ℕ → ℚ) (x : ℕ → Vec ℚ 2) (j : ℕ) : ∀ D, ∃ y e S, Runs (lms ℚ 2) o (Function.update d j D) x y e S :=
  fun D => ⟨_, _, _, runs_of_safe lms_safe o trivial _ _⟩

example (o : Obj (rls ℚ 2)) (hmu : o.core.mu ≠ 0) (d : ℕ → ℚ) (x : ℕ → Vec ℚ 2) (j : ℕ) : ∀ D, ∃ y e S, Runs (rls ℚ 2) o (Function.update d j D) x y e S :=
  fun D => ⟨_, _, _, runs_of_safe rls_safe o (by show decide (o.core.mu = 0) = false; exact decide_eq_false hmu) _ _⟩

end Padasip
