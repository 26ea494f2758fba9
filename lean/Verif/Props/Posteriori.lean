import Verif.Props.Stability
import Verif.Props.Rls
import Verif.Props.Ap
import Mathlib.Analysis.SpecialFunctions.Trigonometric.DerivHyp
import Mathlib.Analysis.Calculus.Deriv.MeanValue

/-!
# C83-C85: the error on a sample after it has been learned; minimal change; robustness of NLMS
-/

set_option linter.unusedSectionVars false
set_option linter.unusedSimpArgs false
set_option linter.unusedVariables false

namespace Padasip

open Finset

/-! ## C83 -/

/-- **Specification**: `y = predict(x)`, then `adapt(d, x)`, then `y' = predict(x)` again: `e = d - y` and `e' = d - y'` are the errors on the sample before and
after it has been learned, `o'` is the filter afterwards. -/
def Relearn {K : Type} [Scalar K] {n : ℕ} (C : FilterClass K n) (o : Obj C) (d : K) (x : Vec K n) (e e' : K) (o' : Obj C) : Prop :=
  ∃ y y', predict C (List.ofFn x) o = (.ok y, o) ∧ adapt C d (List.ofFn x) o = (.ok (), o') ∧
    predict C (List.ofFn x) o' = (.ok y', o') ∧ e = d - y ∧ e' = d - y'

section field
variable {K : Type} [Field K] [LinearOrder K] [IsStrictOrderedRing K] {n : ℕ}

theorem relearn_mk {X : Type} {lr : K → List K → M (Core K n X) (Vec K n)} (o : Obj (mkBase X basePredict lr)) (d : K) (x : Vec K n)
    {p : K × K} {s' : Core K n X} (h : baseBody basePredict lr d (List.ofFn x) o.core = (.ok p, s')) :
    Relearn (mkBase X basePredict lr) o d x (d - dot o.core.w x) (d - dot s'.w x) ⟨s', o.wHist⟩ :=
  ⟨_, _, liftM_ok (basePredict_ofFn o.core x), liftM_eq (C := mkBase X basePredict lr) (adapt_mkBase basePredict lr d _ o.core h),
    liftM_ok (basePredict_ofFn _ x), rfl, rfl⟩

theorem dot_step (w x : Vec K n) (g : K) : dot (fun i => w i + g * x i) x = dot w x + g * ∑ i, x i ^ 2 := by
  simp only [dot_eq, add_mul, sum_add_distrib, mul_sum]
  congr 1
  exact sum_congr rfl fun i _ => by ring

/-- C83 for LMF: the factor depends on the error itself. -/
theorem C83_lmf (o : Obj (lmf K n)) (d : K) (x : Vec K n) : ∃ e e' o', Relearn (lmf K n) o d x e e' o' ∧
    e' = (1 - o.core.mu * (∑ i, x i ^ 2) * e ^ 2) * e := by
  refine ⟨_, _, _, relearn_mk o d x (lmf_body o.core d x), ?_⟩
  have : (fun i => o.core.w i + o.core.mu * x i * ((d - dot o.core.w x) * (d - dot o.core.w x) * (d - dot o.core.w x)))
      = fun i => o.core.w i + (o.core.mu * (d - dot o.core.w x) ^ 3) * x i := by funext i; ring
  simp only [this, dot_step]
  ring

theorem factor_iff {a e : K} (he : e ≠ 0) : |(1 - a) * e| ≤ |e| ↔ 0 ≤ a ∧ a ≤ 2 := by
  rw [abs_mul, mul_le_iff_le_one_left (abs_pos.mpr he), abs_le]
  constructor <;> rintro ⟨h1, h2⟩ <;> constructor <;> linarith

/-- C83: consequently LMF makes the error on the sample worse exactly when `mu |x|^2 e^2` is negative or above 2: for every step size there are errors (large ones)
for which it diverges. -/
theorem C83_lmf_criterion (o : Obj (lmf K n)) (d : K) (x : Vec K n) : ∃ e e' o', Relearn (lmf K n) o d x e e' o' ∧
    (e ≠ 0 → (|e'| ≤ |e| ↔ 0 ≤ o.core.mu * (∑ i, x i ^ 2) * e ^ 2 ∧ o.core.mu * (∑ i, x i ^ 2) * e ^ 2 ≤ 2)) := by
  obtain ⟨e, e', o', h1, h2⟩ := C83_lmf o d x
  exact ⟨e, e', o', h1, fun he => by rw [h2]; exact factor_iff he⟩

/-- C83 for NLMF. -/
theorem C83_nlmf (o : Obj (nlmf K n)) (d : K) (x : Vec K n) : ∃ e e' o', Relearn (nlmf K n) o d x e e' o' ∧
    e' = (1 - o.core.mu * (∑ i, x i ^ 2) / (o.core.ext.eps + ∑ i, x i ^ 2) * e ^ 2) * e := by
  refine ⟨_, _, _, relearn_mk o d x (nlmf_body o.core d x), ?_⟩
  have : (fun i => o.core.w i + o.core.mu / (o.core.ext.eps + dot x x) * x i * ((d - dot o.core.w x) * (d - dot o.core.w x) * (d - dot o.core.w x)))
      = fun i => o.core.w i + (o.core.mu / (o.core.ext.eps + dot x x) * (d - dot o.core.w x) ^ 3) * x i := by funext i; ring
  simp only [this, dot_step]
  rw [sqn_eq_dot x]
  unfold sqn
  ring

/-- C83 for NLMS. -/
theorem C83_nlms (o : Obj (nlms K n)) (d : K) (x : Vec K n) : ∃ e e' o', Relearn (nlms K n) o d x e e' o' ∧
    e' = (1 - o.core.mu * (∑ i, x i ^ 2) / (o.core.ext.eps + ∑ i, x i ^ 2)) * e := by
  refine ⟨_, _, _, relearn_mk o d x (nlms_body o.core d x), ?_⟩
  have : (fun i => o.core.w i + o.core.mu / (o.core.ext.eps + dot x x) * x i * (d - dot o.core.w x))
      = fun i => o.core.w i + (o.core.mu / (o.core.ext.eps + dot x x) * (d - dot o.core.w x)) * x i := by funext i; ring
  simp only [this, dot_step]
  rw [sqn_eq_dot x]
  unfold sqn
  ring

/-- C83 for GNGD: as NLMS, with the compensation term the call has just computed. -/
theorem C83_gngd (o : Obj (gngd K n)) (d : K) (x : Vec K n) : ∃ e e' o', Relearn (gngd K n) o d x e e' o' ∧
    e' = (1 - o.core.mu * (∑ i, x i ^ 2) / (o'.core.ext.eps + ∑ i, x i ^ 2)) * e := by
  refine ⟨_, _, _, relearn_mk o d x (gngd_body o.core d x), ?_⟩
  simp only [dot_step, sqn_eq_dot x]
  unfold sqn
  ring

/-- C83 for the variable step-size filters: as LMS, with the step size the call has just computed. -/
theorem C83_vslms_mathews (o : Obj (mathews K n)) (d : K) (x : Vec K n) : ∃ e e' o', Relearn (mathews K n) o d x e e' o' ∧
    e' = (1 - o'.core.ext.lastMu * ∑ i, x i ^ 2) * e := by
  refine ⟨_, _, _, relearn_mk o d x (mathews_body o.core d x), ?_⟩
  simp only [dot_step]
  ring

/-- C83, Ang. -/
theorem C83_vslms_ang (o : Obj (ang K n)) (d : K) (x : Vec K n) : ∃ e e' o', Relearn (ang K n) o d x e e' o' ∧
    e' = (1 - o'.core.ext.lastMu * ∑ i, x i ^ 2) * e := by
  refine ⟨_, _, _, relearn_mk o d x (ang_body o.core d x), ?_⟩
  simp only [dot_step]
  ring

/-- C83, Benveniste (`self.n` intact). -/
theorem C83_vslms_benveniste (o : Obj (benveniste K n)) (hn : o.core.nAttr = n) (d : K) (x : Vec K n) :
    ∃ e e' o', Relearn (benveniste K n) o d x e e' o' ∧ e' = (1 - o'.core.ext.lastMu * ∑ i, x i ^ 2) * e := by
  refine ⟨_, _, _, relearn_mk o d x (benveniste_body o.core hn d x), ?_⟩
  simp only [dot_step]
  ring

theorem sgn_mul_self (t : K) : Scalar.sgn t * t = |t| := by
  show (if 0 < t then (1 : K) else if t < 0 then -1 else 0) * t = |t|
  split_ifs with h1 h2
  · rw [abs_of_pos h1, one_mul]
  · rw [abs_of_neg h2]; ring
  · rw [le_antisymm (not_lt.mp h1) (not_lt.mp h2)]; simp

theorem dot_sgn_step (w x : Vec K n) (g : K) : dot (fun i => w i + g * Scalar.sgn (x i)) x = dot w x + g * ∑ i, |x i| := by
  simp only [dot_eq, add_mul, sum_add_distrib, mul_sum]
  congr 1
  exact sum_congr rfl fun i _ => by rw [mul_assoc, sgn_mul_self]

/-- C83 for SSLMS: the error moves by the fixed amount `mu |x|_1` towards (or past) zero. -/
theorem C83_sslms (o : Obj (sslms K n)) (d : K) (x : Vec K n) : ∃ e e' o', Relearn (sslms K n) o d x e e' o' ∧
    e' = e - o.core.mu * (∑ i, |x i|) * Scalar.sgn e := by
  refine ⟨_, _, _, relearn_mk o d x (sslms_body o.core d x), ?_⟩
  have : (fun i => o.core.w i + o.core.mu * Scalar.sgn (x i) * Scalar.sgn (d - dot o.core.w x))
      = fun i => o.core.w i + (o.core.mu * Scalar.sgn (d - dot o.core.w x)) * Scalar.sgn (x i) := by funext i; ring
  simp only [this, dot_sgn_step]
  ring

theorem sub_sgn_iff {a e : K} (ha : 0 ≤ a) (he : e ≠ 0) : |e - a * Scalar.sgn e| ≤ |e| ↔ a ≤ 2 * |e| := by
  show |e - a * (if 0 < e then (1 : K) else if e < 0 then -1 else 0)| ≤ |e| ↔ _
  rcases lt_or_gt_of_ne he with h | h
  · rw [if_neg (not_lt.mpr h.le), if_pos h, abs_of_neg h, abs_le]
    constructor
    · rintro ⟨h1, h2⟩; linarith
    · intro h1; constructor <;> linarith
  · rw [if_pos h, abs_of_pos h, abs_le]
    constructor
    · rintro ⟨h1, h2⟩; linarith
    · intro h1; constructor <;> linarith

/-- C83: SSLMS makes the error on the sample worse exactly when it is smaller than half the step: it cannot settle. -/
theorem C83_sslms_criterion (o : Obj (sslms K n)) (hmu : 0 ≤ o.core.mu) (d : K) (x : Vec K n) : ∃ e e' o', Relearn (sslms K n) o d x e e' o' ∧
    (e ≠ 0 → (|e'| ≤ |e| ↔ o.core.mu * (∑ i, |x i|) ≤ 2 * |e|)) := by
  obtain ⟨e, e', o', h1, h2⟩ := C83_sslms o d x
  refine ⟨e, e', o', h1, fun he => ?_⟩
  rw [h2]
  exact sub_sgn_iff (mul_nonneg hmu (sum_nonneg fun i _ => abs_nonneg _)) he

/-- C83 for NSSLMS. -/
theorem C83_nsslms (o : Obj (nsslms K n)) (d : K) (x : Vec K n) : ∃ e e' o', Relearn (nsslms K n) o d x e e' o' ∧
    e' = e - o.core.mu / (o.core.ext.eps + ∑ i, x i ^ 2) * (∑ i, |x i|) * Scalar.sgn e := by
  refine ⟨_, _, _, relearn_mk o d x (nsslms_body o.core d x), ?_⟩
  have : (fun i => o.core.w i + o.core.mu / (o.core.ext.eps + dot x x) * Scalar.sgn (x i) * Scalar.sgn (d - dot o.core.w x))
      = fun i => o.core.w i + (o.core.mu / (o.core.ext.eps + dot x x) * Scalar.sgn (d - dot o.core.w x)) * Scalar.sgn (x i) := by funext i; ring
  simp only [this, dot_sgn_step]
  rw [sqn_eq_dot x]
  unfold sqn
  ring

variable {d : ℕ → K} {x : ℕ → Vec K n} {y e : ℕ → K}

theorem rls_gain (mu : K) (hmu : mu ≠ 0) (R : Mat K n n) (x : Vec K n) (hq : mu + ∑ i, ∑ j, x i * R i j * x j ≠ 0) (i : Fin n) :
    matVec (rlsR mu R x) x i = (∑ j, R i j * x j) / (mu + ∑ i, ∑ j, x i * R i j * x j) := by
  have h2 : dot (vecMat x R) x = ∑ i, ∑ j, x i * R i j * x j := by
    simp only [dot_eq, vecMat_eq, sum_mul]
    rw [sum_comm]
  have h1 : ∀ j, matMul (matMul R (outer x x)) R i j = (∑ k, R i k * x k) * ∑ l, x l * R l j := by
    intro j
    simp only [matMul_eq, outer, sum_mul, mul_sum]
    exact sum_congr rfl fun k _ => sum_congr rfl fun l _ => by ring
  simp only [matVec_eq, rlsR, h1, h2]
  generalize hQ : mu + ∑ i, ∑ j, x i * R i j * x j = Q at hq ⊢
  generalize hb : ∑ k, R i k * x k = b
  have h3 : ∑ j, (∑ l, x l * R l j) * x j = Q - mu := by
    rw [← hQ, add_sub_cancel_left]
    simp only [sum_mul]
    rw [sum_comm]
  calc ∑ j, 1 / mu * (R i j - b * (∑ l, x l * R l j) / Q) * x j
      = 1 / mu * (∑ j, R i j * x j - b / Q * ∑ j, (∑ l, x l * R l j) * x j) := by
        rw [mul_sum (a := b / Q), ← sum_sub_distrib, mul_sum]
        exact sum_congr rfl fun j _ => by ring
    _ = b / Q := by
        rw [hb, h3]
        field_simp
        ring

/-- C83 for RLS (fresh, `mu > 0`, `eps > 0`): after any number of samples the error on the sample just learned is the error made before, times
`mu / (mu + x R x)`, a factor in (0, 1]: RLS never makes it worse and never overshoots. -/
theorem C83_rls (o : Obj (rls K n)) (hmu : 0 < o.core.mu) (heps : 0 < o.core.ext.eps)
    (hR : ∀ i j, o.core.ext.R i j = if i = j then 1 / o.core.ext.eps else 0)
    {S : ℕ → Core K n (RlsExt K n)} (h : Runs (rls K n) o d x y e S) (k : ℕ) :
    ∃ r, 0 < r ∧ r ≤ 1 ∧ r = o.core.mu / (o.core.mu + ∑ i, ∑ j, x k i * (S k).ext.R i j * x k j) ∧
      d k - ∑ i, (S (k + 1)).w i * x k i = r * e k := by
  have hz : Scalar.eqz o.core.mu = false := by
    show decide (o.core.mu = 0) = false
    simp [hmu.ne']
  obtain ⟨h1, -, hy, he, hw, -⟩ := rls_runs hz h k
  have hnn : 0 ≤ ∑ i, ∑ j, x k i * (S k).ext.R i j * x k j := by
    have := (rls_inv hmu heps hR h k).2 (x k)
    rw [quad_dot] at this
    exact this
  obtain ⟨-, -, -, -, hq⟩ := C24_inverse_correlation o hmu heps hR h k
  refine ⟨_, div_pos hmu hq, ?_, rfl, ?_⟩
  · rw [div_le_one hq]; linarith
  · have hg : ∀ i, matVec (rlsR (S k).mu (S k).ext.R (x k)) (x k) i
        = (∑ j, (S k).ext.R i j * x k j) / (o.core.mu + ∑ i, ∑ j, x k i * (S k).ext.R i j * x k j) := fun i => by
      rw [h1]; exact rls_gain _ hmu.ne' _ _ hq.ne' i
    have hs : ∑ i, (S (k + 1)).w i * x k i = y k + (∑ i, ∑ j, x k i * (S k).ext.R i j * x k j)
        / (o.core.mu + ∑ i, ∑ j, x k i * (S k).ext.R i j * x k j) * e k := by
      rw [hw]
      simp only [hg, add_mul, sum_add_distrib]
      rw [hy, dot_eq]
      congr 1
      generalize o.core.mu + ∑ i, ∑ j, x k i * (S k).ext.R i j * x k j = Q
      rw [sum_div, sum_mul]
      refine sum_congr rfl fun i _ => ?_
      have : ∑ j, x k i * (S k).ext.R i j * x k j = x k i * ∑ j, (S k).ext.R i j * x k j := by
        rw [mul_sum]; exact sum_congr rfl fun j _ => by ring
      rw [this]
      ring
    rw [hs, he]
    generalize (∑ i, ∑ j, x k i * (S k).ext.R i j * x k j) = q at hq ⊢
    have := hq.ne'
    field_simp
    ring

/-! ### AP: the whole memory -/

/-- **Specification**: the `j`-th newest sample after `k + 1` samples have been processed by a fresh filter (zero before the first one). -/
def newest {α : Type} (zero : α) (f : ℕ → α) (k j : ℕ) : α := if j ≤ k then f (k - j) else zero

variable {order : ℕ}

theorem apX_of_ne (s : Core K n (ApExt K n order)) (v : Vec K n) (i : Fin n) (j : Fin order) (hj : ¬ j.val = 0) :
    apX s v i j = s.ext.xMem i ⟨j.val - 1, by omega⟩ := by
  simp only [apX, hj, if_false, shiftCols, dite_false]

theorem apD_of_ne (s : Core K n (ApExt K n order)) (v : K) (j : Fin order) (hj : ¬ j.val = 0) :
    apD s v j = s.ext.dMem ⟨j.val - 1, by omega⟩ := by
  simp only [apD, hj, if_false, shiftVec, dite_false]

theorem ap_mem_runs (solve : Solver K) (ho : 0 < order) {o : Obj (ap K n solve order)}
    (hsol : ∀ X : Mat K n order, ∃ P, solve order (apGram o.core.ext.ifc X) (eye order) = .ok P)
    (hx0 : ∀ i j, o.core.ext.xMem i j = 0) (hd0 : ∀ j, o.core.ext.dMem j = 0)
    {S : ℕ → Core K n (ApExt K n order)} (h : Runs (ap K n solve order) o d x y e S) (k : ℕ) :
    (∀ i j, apX (S k) (x k) i j = newest (fun _ => 0) x k j.val i) ∧ ∀ j, apD (S k) (d k) j = newest 0 d k j.val := by
  induction k with
  | zero =>
    constructor
    · intro i j
      by_cases hj : j.val = 0
      · simp [apX, newest, hj]
      · have : ¬ j.val ≤ 0 := by omega
        simp only [apX, newest, hj, this, if_false, shiftCols, h.1]
        exact hx0 _ _
    · intro j
      by_cases hj : j.val = 0
      · simp [apD, newest, hj]
      · have : ¬ j.val ≤ 0 := by omega
        simp only [apD, newest, hj, this, if_false, shiftVec, h.1]
        exact hd0 _
  | succ k ih =>
    obtain ⟨-, -, P, -, -, -, -, h1, h2, -⟩ := ap_runs ho hsol h k
    constructor
    · intro i j
      by_cases hj : j.val = 0
      · simp [apX, newest, hj]
      · rw [apX_of_ne _ _ _ _ hj, h1, ih.1]
        unfold newest
        by_cases hk : j.val ≤ k + 1
        · rw [if_pos hk, if_pos (by omega : j.val - 1 ≤ k), show k + 1 - j.val = k - (j.val - 1) by omega]
        · rw [if_neg hk, if_neg (by omega : ¬ j.val - 1 ≤ k)]
    · intro j
      by_cases hj : j.val = 0
      · simp [apD, newest, hj]
      · rw [apD_of_ne _ _ _ hj, h2, ih.2]
        unfold newest
        by_cases hk : j.val ≤ k + 1
        · rw [if_pos hk, if_pos (by omega : j.val - 1 ≤ k), show k + 1 - j.val = k - (j.val - 1) by omega]
        · rw [if_neg hk, if_neg (by omega : ¬ j.val - 1 ≤ k)]

/-- `u` solves `(X'X + c I) u = er` -/
theorem gram_solution (X : Mat K n order) (c : K) (P : Mat K order order) (hP : matMul (apGram c X) P = eye order) (er : Vec K order) (a : Fin order) :
    (∑ i, X i a * dot (X i) (matVec P er)) + c * matVec P er a = er a := by
  set g : Vec K order := matVec P er with hg
  have h1 : ∑ b, apGram c X a b * g b = er a := by
    calc ∑ b, apGram c X a b * g b
        = ∑ b, apGram c X a b * ∑ j, P b j * er j := by
          exact sum_congr rfl fun b _ => by rw [hg, matVec_eq]
      _ = ∑ j, (∑ b, apGram c X a b * P b j) * er j := by
          simp only [mul_sum, sum_mul]
          rw [sum_comm]
          exact sum_congr rfl fun j _ => sum_congr rfl fun b _ => by ring
      _ = ∑ j, eye order a j * er j := by
          refine sum_congr rfl fun j _ => ?_
          rw [← matMul_eq, hP]
      _ = er a := eye_mulVec er a
  rw [← h1]
  simp only [apGram, dot_eq, add_mul, sum_add_distrib, sum_mul, mul_sum]
  congr 1
  · rw [sum_comm]
    exact sum_congr rfl fun b _ => sum_congr rfl fun i _ => by ring
  · have := eye_mulVec (fun b => c * g b) a
    rw [← this]
    exact sum_congr rfl fun b _ => by ring

/-- change of the errors over the memory in one AP step -/
theorem ap_memory_energy (X : Mat K n order) (c mu : K) (P : Mat K order order) (hP : matMul (apGram c X) P = eye order) (er : Vec K order) :
    sqn (fun a => er a - mu * ∑ i, X i a * dot (X i) (matVec P er))
      = sqn er - mu * (2 - mu) * sqn (fun a => ∑ i, X i a * dot (X i) (matVec P er)) - 2 * mu * c * sqn (fun i => dot (X i) (matVec P er)) := by
  have h1 := gram_solution X c P hP er
  set u := matVec P er with hu
  set g0 : Vec K order := fun a => ∑ i, X i a * dot (X i) u with hg0
  have h2 : ∑ a, u a * g0 a = sqn fun i => dot (X i) u := by
    simp only [hg0, sqn, mul_sum]
    rw [sum_comm]
    refine sum_congr rfl fun i _ => ?_
    rw [pow_two]
    conv_rhs => rw [dot_eq (X i) u, sum_mul]
    exact sum_congr rfl fun a _ => by rw [dot_eq]; ring
  have h3 : ∑ a, er a * g0 a = sqn g0 + c * sqn fun i => dot (X i) u := by
    rw [← h2, mul_sum, sqn, ← sum_add_distrib]
    exact sum_congr rfl fun a _ => by rw [← h1 a]; simp only [hg0]; ring
  have h4 : sqn (fun a => er a - mu * g0 a) = sqn er + 2 * (-mu) * (∑ a, er a * g0 a) + (-mu) ^ 2 * sqn g0 := by
    rw [← sqn_add_smul]
    unfold sqn
    exact sum_congr rfl fun a _ => by ring
  rw [h4, h3]
  ring

/-- C83 for AP (fresh, `ifc > 0`, `0 <= mu <= 2`): after any number of samples, the sum of the squared errors over the last `order` samples, computed with the new
weights, does not exceed the sum computed with the weights before the update. -/
theorem C83_ap (solve : Solver K) (hs : SolveSpec solve) (ho : 0 < order) (o : Obj (ap K n solve order)) (hc : 0 < o.core.ext.ifc)
    (hmu : 0 ≤ o.core.mu) (hmu2 : o.core.mu ≤ 2) (hx0 : ∀ i j, o.core.ext.xMem i j = 0) (hd0 : ∀ j, o.core.ext.dMem j = 0)
    {S : ℕ → Core K n (ApExt K n order)} (h : Runs (ap K n solve order) o d x y e S) (k : ℕ) :
    ∑ j ∈ range order, (newest 0 d k j - ∑ i, (S (k + 1)).w i * newest (fun _ => 0) x k j i) ^ 2
      ≤ ∑ j ∈ range order, (newest 0 d k j - ∑ i, (S k).w i * newest (fun _ => 0) x k j i) ^ 2 := by
  have hsol : ∀ X : Mat K n order, ∃ P, solve order (apGram o.core.ext.ifc X) (eye order) = .ok P :=
    fun X => (gram_solvable hs hc X).imp fun _ h => h.1
  obtain ⟨m1, i1, P, hP, hy, he, hwk, -⟩ := ap_runs ho hsol h k
  obtain ⟨P', hP', hG⟩ := gram_solvable hs hc (apX (S k) (x k))
  rw [hP] at hP'
  obtain rfl : P = P' := by simpa using hP'
  obtain ⟨hX, hD⟩ := ap_mem_runs solve ho hsol hx0 hd0 h k
  have hen := ap_memory_energy (apX (S k) (x k)) o.core.ext.ifc (S k).mu P hG (apE (S k) (d k) (x k))
  have e1 : ∀ j : Fin order, newest 0 d k j.val - ∑ i, (S k).w i * newest (fun _ => 0) x k j.val i = apE (S k) (d k) (x k) j := by
    intro j
    rw [apE, apY, hD, dot_eq]
    congr 1
    exact sum_congr rfl fun i _ => by rw [hX, mul_comm]
  have e2 : ∀ j : Fin order, newest 0 d k j.val - ∑ i, (S (k + 1)).w i * newest (fun _ => 0) x k j.val i
      = apE (S k) (d k) (x k) j - (S k).mu * ∑ i, apX (S k) (x k) i j * dot (apX (S k) (x k) i) (matVec P (apE (S k) (d k) (x k))) := by
    intro j
    rw [← e1, hwk, mul_sum, sub_sub, ← sum_add_distrib]
    congr 1
    exact sum_congr rfl fun i _ => by rw [← hX]; ring
  rw [← Fin.sum_univ_eq_sum_range (fun j => (newest 0 d k j - ∑ i, (S (k + 1)).w i * newest (fun _ => 0) x k j i) ^ 2),
    ← Fin.sum_univ_eq_sum_range (fun j => (newest 0 d k j - ∑ i, (S k).w i * newest (fun _ => 0) x k j i) ^ 2)]
  simp only [e1, e2]
  have e3 : sqn (fun a => apE (S k) (d k) (x k) a) = ∑ j, apE (S k) (d k) (x k) j ^ 2 := rfl
  show sqn (fun a => apE (S k) (d k) (x k) a - (S k).mu * ∑ i, apX (S k) (x k) i a * dot (apX (S k) (x k) i) (matVec P (apE (S k) (d k) (x k)))) ≤ sqn _
  rw [hen, m1]
  have a1 := mul_nonneg (mul_nonneg hmu (sub_nonneg.mpr hmu2))
    (sqn_nonneg fun a => ∑ i, apX (S k) (x k) i a * dot (apX (S k) (x k) i) (matVec P (apE (S k) (d k) (x k))))
  have a2 := mul_nonneg (mul_nonneg (mul_nonneg (by norm_num : (0 : K) ≤ 2) hmu) hc.le)
    (sqn_nonneg fun i => dot (apX (S k) (x k) i) (matVec P (apE (S k) (d k) (x k))))
  linarith

/-- the hypotheses of `C83_ap` are met by a fresh AP filter of order 3 on arbitrary data -/
example (d : ℕ → ℝ) (x : ℕ → Vec ℝ 2) : ∃ (o : Obj (ap ℝ 2 exactSolve 3)) (y e : ℕ → ℝ) (S : ℕ → Core ℝ 2 (ApExt ℝ 2 3)),
    Runs (ap ℝ 2 exactSolve 3) o d x y e S ∧ 0 < o.core.ext.ifc ∧ 0 ≤ o.core.mu ∧ o.core.mu ≤ 2 ∧
    (∀ i j, o.core.ext.xMem i j = 0) ∧ ∀ j, o.core.ext.dMem j = 0 :=
  ⟨⟨⟨fun _ => 0, 2, 1, (⟨1, fun _ _ => 0, fun _ => 0, fun _ => 0, fun _ => 0⟩ : ApExt ℝ 2 3)⟩, []⟩, _, _, _,
   runs_of_safe (ap_safe _ (by norm_num) 1 fun X => (gram_solvable exactSolve_spec one_pos X).imp fun _ h => h.1) _ rfl _ _,
   one_pos, zero_le_one, one_le_two, fun _ _ => rfl, fun _ => rfl⟩

/-- ... those of `C83_rls` by a fresh RLS filter -/
example (d : ℕ → ℝ) (x : ℕ → Vec ℝ 2) : ∃ (o : Obj (rls ℝ 2)) (y e : ℕ → ℝ) (S : ℕ → Core ℝ 2 (RlsExt ℝ 2)), Runs (rls ℝ 2) o d x y e S ∧
    0 < o.core.mu ∧ 0 < o.core.ext.eps ∧ ∀ i j, o.core.ext.R i j = if i = j then 1 / o.core.ext.eps else 0 :=
  ⟨⟨⟨fun _ => 0, 2, 1 / 2, (⟨1, fun i j => if i = j then 1 / 1 else 0⟩ : RlsExt ℝ 2)⟩, []⟩, _, _, _,
    runs_of_safe rls_safe _ (by show decide ((1 / 2 : ℝ) = 0) = false; simp) _ _,
    by norm_num, one_pos, fun _ _ => rfl⟩

end field
section real
variable {n : ℕ}

theorem sinh_le_mul_cosh {z : ℝ} (hz : 0 ≤ z) : Real.sinh z ≤ z * Real.cosh z := by
  have hd : ∀ t : ℝ, HasDerivAt (fun t => t * Real.cosh t - Real.sinh t) (t * Real.sinh t) t := fun t => by
    refine (((hasDerivAt_id t).mul (Real.hasDerivAt_cosh t)).sub (Real.hasDerivAt_sinh t)).congr_deriv ?_
    simp
  have hm : MonotoneOn (fun t => t * Real.cosh t - Real.sinh t) (Set.Ici 0) := by
    refine monotoneOn_of_deriv_nonneg (convex_Ici 0) (fun t _ => (hd t).continuousAt.continuousWithinAt)
      (fun t _ => (hd t).differentiableAt.differentiableWithinAt) fun t ht => ?_
    rw [(hd t).deriv]
    rw [interior_Ici] at ht
    exact mul_nonneg (Set.mem_Ioi.mp ht).le (Real.sinh_nonneg_iff.mpr (Set.mem_Ioi.mp ht).le)
  have := hm Set.self_mem_Ici (Set.mem_Ici.mpr hz) hz
  simp at this
  linarith

theorem tanh_le_self {z : ℝ} (hz : 0 ≤ z) : Real.tanh z ≤ z := by
  rw [Real.tanh_eq_sinh_div_cosh, div_le_iff₀ (Real.cosh_pos z)]
  exact sinh_le_mul_cosh hz

theorem tanh_nonneg' {z : ℝ} (hz : 0 ≤ z) : 0 ≤ Real.tanh z := by
  rw [Real.tanh_eq_sinh_div_cosh]
  exact div_nonneg (Real.sinh_nonneg_iff.mpr hz) (Real.cosh_pos z).le

/-- C83 for Llncosh. -/
theorem C83_llncosh (o : Obj (llncosh ℝ n)) (d : ℝ) (x : Vec ℝ n) : ∃ e e' o', Relearn (llncosh ℝ n) o d x e e' o' ∧
    e' = e - o.core.mu * Real.tanh (o.core.ext.lambd * e) * ∑ i, x i ^ 2 := by
  refine ⟨_, _, _, relearn_mk o d x (llncosh_body o.core d x), ?_⟩
  simp only [dot_step]
  exact (sub_sub _ _ _).symm

/-- C83: Llncosh with `mu, lambd >= 0` and `mu lambd |x|^2 <= 2` never makes the error on the sample worse. -/
theorem C83_llncosh_criterion (o : Obj (llncosh ℝ n)) (hmu : 0 ≤ o.core.mu) (hl : 0 ≤ o.core.ext.lambd) (d : ℝ) (x : Vec ℝ n)
    (hx : o.core.mu * o.core.ext.lambd * (∑ i, x i ^ 2) ≤ 2) : ∃ e e' o', Relearn (llncosh ℝ n) o d x e e' o' ∧ |e'| ≤ |e| := by
  obtain ⟨e, e', o', h1, h2⟩ := C83_llncosh o d x
  refine ⟨e, e', o', h1, ?_⟩
  have hs : 0 ≤ ∑ i, x i ^ 2 := sum_nonneg fun _ _ => sq_nonneg _
  have key : ∀ t : ℝ, 0 ≤ t → |t - o.core.mu * Real.tanh (o.core.ext.lambd * t) * ∑ i, x i ^ 2| ≤ t := by
    intro t ht
    have h3 := tanh_le_self (mul_nonneg hl ht)
    have h4 := tanh_nonneg' (mul_nonneg hl ht)
    have h5 : o.core.mu * Real.tanh (o.core.ext.lambd * t) * ∑ i, x i ^ 2 ≤ o.core.mu * (o.core.ext.lambd * t) * ∑ i, x i ^ 2 :=
      mul_le_mul_of_nonneg_right (mul_le_mul_of_nonneg_left h3 hmu) hs
    have h6 : 0 ≤ o.core.mu * Real.tanh (o.core.ext.lambd * t) * ∑ i, x i ^ 2 := mul_nonneg (mul_nonneg hmu h4) hs
    have h7 : (o.core.mu * (o.core.ext.lambd * t) * ∑ i, x i ^ 2) ≤ 2 * t := by
      have := mul_le_mul_of_nonneg_right hx ht
      linarith [show o.core.mu * o.core.ext.lambd * (∑ i, x i ^ 2) * t = o.core.mu * (o.core.ext.lambd * t) * ∑ i, x i ^ 2 by ring]
    rw [abs_le]
    constructor <;> linarith
  rw [h2]
  rcases le_total 0 e with he | he
  · rw [abs_of_nonneg he]; exact key e he
  · have := key (-e) (by linarith)
    rw [mul_neg, Real.tanh_neg] at this
    rw [abs_of_nonpos he, ← abs_neg]
    refine le_trans (le_of_eq ?_) this
    congr 1
    ring

/-- C83 for GMCC with the default `alpha = 2`. -/
theorem C83_gmcc_two (o : Obj (gmcc ℝ n)) (ha : o.core.ext.alpha = 2) (d : ℝ) (x : Vec ℝ n) : ∃ e e' o', Relearn (gmcc ℝ n) o d x e e' o' ∧
    e' = (1 - 2 * o.core.mu * o.core.ext.lambd * Real.exp (-o.core.ext.lambd * e ^ 2) * ∑ i, x i ^ 2) * e := by
  refine ⟨_, _, _, relearn_mk o d x (gmcc_body o.core d x), ?_⟩
  simp only [dot_step, ha]
  rw [← sub_sub]
  generalize d - dot o.core.w x = e
  have h1 : |e| ^ (2 : ℝ) = e ^ 2 := by rw [Real.rpow_two, sq_abs]
  have h2 : |e| ^ ((2 : ℝ) - 1) = |e| := by norm_num
  have h3 : |e| * Scalar.sgn e = e := by
    rw [mul_comm]
    show (if 0 < e then (1 : ℝ) else if e < 0 then -1 else 0) * |e| = e
    split_ifs with h4 h5
    · rw [abs_of_pos h4, one_mul]
    · rw [abs_of_neg h5]; ring
    · rw [le_antisymm (not_lt.mp h4) (not_lt.mp h5)]; simp
  show e - o.core.mu * o.core.ext.lambd * 2 * Real.exp (-o.core.ext.lambd * |e| ^ (2 : ℝ)) * |e| ^ ((2 : ℝ) - 1) * Scalar.sgn e * (∑ i, x i ^ 2) = _
  rw [h1, h2, mul_assoc _ |e|, h3]
  ring

/-- C83: GMCC with `alpha = 2`, `mu, lambd >= 0` and `mu lambd |x|^2 <= 1` never makes the error on the sample worse. -/
theorem C83_gmcc_criterion (o : Obj (gmcc ℝ n)) (ha : o.core.ext.alpha = 2) (hmu : 0 ≤ o.core.mu) (hl : 0 ≤ o.core.ext.lambd) (d : ℝ) (x : Vec ℝ n)
    (hx : o.core.mu * o.core.ext.lambd * (∑ i, x i ^ 2) ≤ 1) : ∃ e e' o', Relearn (gmcc ℝ n) o d x e e' o' ∧ |e'| ≤ |e| := by
  obtain ⟨e, e', o', h1, h2⟩ := C83_gmcc_two o ha d x
  refine ⟨e, e', o', h1, ?_⟩
  have hs : 0 ≤ ∑ i, x i ^ 2 := sum_nonneg fun _ _ => sq_nonneg _
  have h3 : Real.exp (-o.core.ext.lambd * e ^ 2) ≤ 1 := by
    rw [Real.exp_le_one_iff, neg_mul]
    exact neg_nonpos.mpr (mul_nonneg hl (sq_nonneg e))
  have h4 : 0 ≤ o.core.mu * o.core.ext.lambd * ∑ i, x i ^ 2 := mul_nonneg (mul_nonneg hmu hl) hs
  have h5 : 2 * o.core.mu * o.core.ext.lambd * Real.exp (-o.core.ext.lambd * e ^ 2) * (∑ i, x i ^ 2)
      = 2 * (o.core.mu * o.core.ext.lambd * ∑ i, x i ^ 2) * Real.exp (-o.core.ext.lambd * e ^ 2) := by ring
  have h6 := (Real.exp_pos (-o.core.ext.lambd * e ^ 2)).le
  have h7 : (o.core.mu * o.core.ext.lambd * ∑ i, x i ^ 2) * Real.exp (-o.core.ext.lambd * e ^ 2) ≤ 1 := by
    calc _ ≤ (1 : ℝ) * 1 := mul_le_mul hx h3 h6 zero_le_one
      _ = 1 := one_mul 1
  have h8 := mul_nonneg h4 h6
  rw [h2, h5]
  calc |(1 - 2 * (o.core.mu * o.core.ext.lambd * ∑ i, x i ^ 2) * Real.exp (-o.core.ext.lambd * e ^ 2)) * e|
      = |1 - 2 * (o.core.mu * o.core.ext.lambd * ∑ i, x i ^ 2) * Real.exp (-o.core.ext.lambd * e ^ 2)| * |e| := abs_mul _ _
    _ ≤ 1 * |e| := by
        refine mul_le_mul_of_nonneg_right ?_ (abs_nonneg e)
        rw [abs_le]
        constructor <;> nlinarith
    _ = |e| := one_mul _

/-- the hypotheses of the two criteria, for an input with `sum x^2 = 5` and an error of 7 -/
example : ∃ (o : Obj (llncosh ℝ 2)) (x : Vec ℝ 2), 0 ≤ o.core.mu ∧ 0 ≤ o.core.ext.lambd ∧ o.core.mu * o.core.ext.lambd * (∑ i, x i ^ 2) ≤ 2 ∧
    ∃ e e' o', Relearn (llncosh ℝ 2) o 7 x e e' o' ∧ |e'| ≤ |e| :=
  ⟨⟨⟨fun _ => 0, 2, 1 / 10, (⟨3⟩ : LlncoshExt ℝ)⟩, []⟩, ![1, 2], by norm_num, by norm_num, by norm_num [Fin.sum_univ_two],
    C83_llncosh_criterion _ (by norm_num) (by norm_num) 7 _ (by norm_num [Fin.sum_univ_two])⟩

example : ∃ (o : Obj (gmcc ℝ 2)) (x : Vec ℝ 2), o.core.ext.alpha = 2 ∧ 0 ≤ o.core.mu ∧ 0 ≤ o.core.ext.lambd ∧ o.core.mu * o.core.ext.lambd * (∑ i, x i ^ 2) ≤ 1 ∧
    ∃ e e' o', Relearn (gmcc ℝ 2) o 7 x e e' o' ∧ |e'| ≤ |e| :=
  ⟨⟨⟨fun _ => 0, 2, 1 / 10, (⟨1, 2⟩ : GmccExt ℝ)⟩, []⟩, ![1, 2], rfl, by norm_num, by norm_num, by norm_num [Fin.sum_univ_two],
    C83_gmcc_criterion _ rfl (by norm_num) (by norm_num) 7 _ (by norm_num [Fin.sum_univ_two])⟩

end real
/-- C83 (witness): with `mu = 1/2`, `x = (1)`, `d = 4` presented again and again, the LMF errors are 4, -28, 10948, ...; with `d = 1` they are 1, 1/2, 7/16, ... -/
theorem C83_lmf_diverges :
    ((run (lmf ℚ 1) [4, 4, 4] [[1], [1], [1]] ⟨⟨zeros 1, 1, 1 / 2, ()⟩, []⟩).1.map fun r => r.2.1) = .ok [4, -28, 10948] ∧
    ((run (lmf ℚ 1) [1, 1, 1] [[1], [1], [1]] ⟨⟨zeros 1, 1, 1 / 2, ()⟩, []⟩).1.map fun r => r.2.1) = .ok [1, 1 / 2, 7 / 16] := by
  decide +kernel

/-- C83 (witness): SSLMS with `mu = 1` on `x = (1)`, `d = 1/4` oscillates: errors 1/4, -3/4, 1/4, -3/4, ... -/
theorem C83_sslms_oscillates :
    ((run (sslms ℚ 1) [1 / 4, 1 / 4, 1 / 4, 1 / 4] [[1], [1], [1], [1]] ⟨⟨zeros 1, 1, 1, ()⟩, []⟩).1.map fun r => r.2.1)
      = .ok [1 / 4, -3 / 4, 1 / 4, -3 / 4] := by
  decide +kernel

end Padasip
