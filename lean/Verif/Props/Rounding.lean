import Verif.Lemmas.Fl
import Verif.Lemmas.Log
import Verif.Lemmas.Steps
import Verif.Lemmas.Field
import Verif.Props.Misc

/-!
# C88-C90: rounding errors

The model's own functions, run in rounded arithmetic (`Fl F`, see `Model/Fl.lean`), compared with the same functions in exact arithmetic, on the same inputs.
`gamma u k = k u / (1 - k u)`, about `k * 1.1e-16` for `float64`.
-/

set_option linter.unusedSectionVars false
set_option linter.unusedVariables false

namespace Padasip

open Finset

/-- a vector of numbers, given to the rounded arithmetic -/
def Vec.fl (F : Rounding) {n : ℕ} (v : Vec ℝ n) : Vec (Fl F) n := fun i => ⟨v i⟩

variable {F : Rounding} {n : ℕ}

/-! ## C88 -/

/-- C88: `predict` of every filter (but OCNLMS) in rounded arithmetic: the error is at most `gamma_(n+1) * sum |w_i x_i|`. -/
theorem C88_predict (solve : Solver (Fl F)) (k : Kind) (hk : k ≠ .ocnlms) (o : Obj (classOf (n := n) solve k)) (w x : Vec ℝ n)
    (hw : o.core.w = w.fl F) (hu : (n + 1 : ℕ) * F.u < 1) :
    ∃ y, predict (classOf solve k) (List.ofFn (x.fl F)) o = (.ok y, o) ∧
      |y.val - ∑ i, w i * x i| ≤ gamma F.u (n + 1) * ∑ i, |w i * x i| := by
  refine ⟨_, liftM_ok (predict_pure hk o.core (x.fl F)), ?_⟩
  rw [hw]
  have h := Acc.fldot (F := F) (k := 0) (l := 0) (w.fl F) (x.fl F) w x (fun i => |w i|) (fun i => |x i|)
    (fun i => acc_exact F.u_nonneg F.u_lt _) (fun i => acc_exact F.u_nonneg F.u_lt _)
  simp only [Nat.zero_add, ← abs_mul] at h
  rw [Nat.add_comm 1 n] at h
  exact h.gamma_le F.u_nonneg F.u_lt hu

/-- **Specification**: `s` is a sum of the numbers `l` in rounded arithmetic, computed with `m` additions in any order and with any bracketing (numpy and BLAS choose their
own: pairwise, unrolled, blocked). -/
inductive SumsTo (F : Rounding) : List ℝ → ℕ → ℝ → Prop
  | zero : SumsTo F [] 0 0
  | one (a : ℝ) : SumsTo F [a] 0 a
  | add {l l' m m' s s'} : SumsTo F l m s → SumsTo F l' m' s' → SumsTo F (l ++ l') (m + m' + 1) (F.add s s')
  | perm {l l' m s} : l.Perm l' → SumsTo F l m s → SumsTo F l' m s

theorem sumsTo_acc {l : List ℝ} {m : ℕ} {s : ℝ} (h : SumsTo F l m s) : Acc F.u m s l.sum (l.map fun a => |a|).sum := by
  have h0 := F.u_nonneg
  have h1 := F.u_lt
  induction h with
  | zero => simp [Acc]
  | one a => simpa using acc_exact h0 h1 a
  | @add l l' m m' s s' _ _ ih1 ih2 =>
    have h2 := (ih1.mono h0 h1 (Nat.le_add_right m m')).add h0 h1 (ih2.mono h0 h1 (Nat.le_add_left m' m))
    rw [List.sum_append, List.map_append, List.sum_append]
    exact h2.round h0 h1 (F.add_err _ _)
  | perm hp _ ih => rw [← hp.sum_eq, ← (hp.map _).sum_eq]; exact ih

/-- C88: the bound does not depend on the order of summation: whatever order `np.dot` uses to add the `n` rounded products, with `m` additions, the error is at most
`gamma_(m+1) * sum |w_i x_i|`. -/
theorem C88_any_order (w x : Vec ℝ n) (m : ℕ) (y : ℝ) (h : SumsTo F (List.ofFn fun i => F.mul (w i) (x i)) m y) (hu : (m + 1 : ℕ) * F.u < 1) :
    |y - ∑ i, w i * x i| ≤ gamma F.u (m + 1) * ∑ i, |w i * x i| := by
  have h0 := F.u_nonneg
  have h1 := F.u_lt
  obtain ⟨h2, -⟩ := sumsTo_acc h
  rw [List.map_ofFn, List.sum_ofFn, List.sum_ofFn] at h2
  simp only [Function.comp] at h2
  set P := ∑ i, |w i * x i| with hP
  have hPn : 0 ≤ P := sum_nonneg fun _ _ => abs_nonneg _
  have h3 : ∑ i, |F.mul (w i) (x i)| ≤ (1 + F.u) * P := by
    rw [hP, mul_sum]
    refine sum_le_sum fun i _ => ?_
    have h4 := F.mul_err (w i) (x i)
    have h5 : |F.mul (w i) (x i)| ≤ |F.mul (w i) (x i) - w i * x i| + |w i * x i| := by simpa using abs_add_le (F.mul (w i) (x i) - w i * x i) (w i * x i)
    linarith
  have h4 : |(∑ i, F.mul (w i) (x i)) - ∑ i, w i * x i| ≤ F.u * P := by
    rw [← sum_sub_distrib, hP, mul_sum]
    exact (abs_sum_le_sum_abs _ _).trans (sum_le_sum fun i _ => F.mul_err _ _)
  have h5 : |y - ∑ i, w i * x i| ≤ |y - ∑ i, F.mul (w i) (x i)| + |(∑ i, F.mul (w i) (x i)) - ∑ i, w i * x i| := by
    simpa using abs_add_le (y - ∑ i, F.mul (w i) (x i)) ((∑ i, F.mul (w i) (x i)) - ∑ i, w i * x i)
  have p1 := one_le_phi h0 h1 m
  have h6 : (phi F.u m - 1) * (∑ i, |F.mul (w i) (x i)|) ≤ (phi F.u m - 1) * ((1 + F.u) * P) := mul_le_mul_of_nonneg_left h3 (by linarith)
  have h7 : phi F.u m * (1 + F.u) ≤ phi F.u (m + 1) := by
    rw [phi_add]; exact mul_le_mul_of_nonneg_left (one_add_le_phi h0 h1) (by linarith)
  have h8 := phi_sub_one_le_gamma h0 h1 (m + 1) hu
  have h9 : (phi F.u m * (1 + F.u) - 1) * P ≤ gamma F.u (m + 1) * P := mul_le_mul_of_nonneg_right (by linarith) hPn
  nlinarith

/-- C88: for `float64` (`p = 53`) and fewer than `2^50` weights the constant is below `(n+1) * 2^-52`. -/
theorem C88_double (n : ℕ) (hn : n + 1 ≤ 2 ^ 50) : ((n + 1 : ℕ) : ℝ) * (binary 53 (by norm_num)).u < 1 ∧
    gamma (binary 53 (by norm_num)).u (n + 1) ≤ (n + 1) * (1 / 2) ^ 52 := by
  have hu : (binary 53 (by norm_num)).u = (1 / 2 : ℝ) ^ 53 := rfl
  have h1 : ((n + 1 : ℕ) : ℝ) ≤ 2 ^ 50 := by exact_mod_cast hn
  rw [hu]
  have h2 : ((n + 1 : ℕ) : ℝ) * (1 / 2) ^ 53 ≤ 1 / 8 := by
    calc ((n + 1 : ℕ) : ℝ) * (1 / 2) ^ 53 ≤ 2 ^ 50 * (1 / 2) ^ 53 := mul_le_mul_of_nonneg_right h1 (by positivity)
      _ = 1 / 8 := by norm_num
  refine ⟨by linarith, ?_⟩
  unfold gamma
  rw [div_le_iff₀ (by linarith)]
  push_cast at h2 ⊢
  have h3 : (0 : ℝ) ≤ (n + 1) * (1 / 2) ^ 53 := by positivity
  have h4 : ((n : ℝ) + 1) * (1 / 2) ^ 52 = 2 * ((n + 1) * (1 / 2) ^ 53) := by ring
  rw [h4]
  nlinarith

/-- the hypotheses of `C88_predict` are met by a filter with three weights in `float64` -/
example (solve : Solver (Fl (binary 53 (by norm_num)))) (w : Vec ℝ 3) : ∃ o : Obj (classOf (n := 3) solve .lms), o.core.w = w.fl _ ∧
    ((3 + 1 : ℕ) : ℝ) * (binary 53 (by norm_num)).u < 1 :=
  ⟨⟨⟨w.fl _, 3, 1, ()⟩, []⟩, rfl, (C88_double 3 (by norm_num)).1⟩

/-- the orders of summation include pairwise summation, `(a + b) + (c + d)`, and its value differs from left-to-right summation in general -/
example (a b c d : ℝ) : SumsTo F [a, b, c, d] 3 (F.add (F.add a b) (F.add c d)) ∧ SumsTo F [a, b, c, d] 3 (F.add (F.add (F.add a b) c) d) :=
  ⟨((SumsTo.one a).add (.one b)).add ((SumsTo.one c).add (.one d)), ((((SumsTo.one a).add (.one b)).add (.one c))).add (.one d)⟩

/-! ## C89 -/

theorem rel_natdiv {k : ℕ} {a : Fl F} {b : ℝ} (h : Rel F.u k a.val b) (N : ℕ) (hN : N ≠ 0) : Rel F.u (k + 1) (a / Scalar.nat N : Fl F).val (b / (N : ℝ)) :=
  h.fldiv (l := 0) (rel_exact (Nat.cast_nonneg N)) (by exact_mod_cast hN)

theorem Rel.gamma_le {k : ℕ} {a b : ℝ} (h : Rel F.u k a b) (hk : k * F.u < 1) : |a - b| ≤ gamma F.u k * b :=
  (h.acc F.u_nonneg F.u_lt).gamma_le F.u_nonneg F.u_lt hk

/-- sums of squares and of absolute values of a series whose entries are accurate to `j` roundings -/
theorem rel_measures {j : ℕ} (fs : List (Fl F)) (gs : List ℝ) (hlen : fs.length = gs.length)
    (h : ∀ i (h1 : i < fs.length) (h2 : i < gs.length), Rel F.u j |(fs[i]).val| |gs[i]|) :
    Rel F.u (j + j + 1 + fs.length) (dotSelf fs).val (dotSelf gs) ∧ Rel F.u (j + fs.length) (fs.map Scalar.abs).sum.val (gs.map Scalar.abs).sum := by
  constructor
  · have := Rel.fllist (F := F) (k := j + j + 1) (fs.map fun a => a * a) (gs.map fun a => a * a) (by simpa using hlen) fun i h1 h2 => by
      rw [List.getElem_map, List.getElem_map]
      have h3 := h i (by simpa using h1) (by simpa using h2)
      have h4 := h3.mul F.u_nonneg F.u_lt h3
      rw [abs_mul_abs_self, abs_mul_abs_self] at h4
      exact h4.round F.u_nonneg F.u_lt (F.mul_err _ _)
    simpa [dotSelf] using this
  · have := Rel.fllist (F := F) (k := j) (fs.map Scalar.abs) (gs.map Scalar.abs) (by simpa using hlen) fun i h1 h2 => by
      rw [List.getElem_map, List.getElem_map]
      exact h i (by simpa using h1) (by simpa using h2)
    simpa using this

/-- C89: `MSE`, `MAE` and `RMSE` of a non-empty error series in rounded arithmetic have a small *relative* error: `gamma_(N+2)`, `gamma_(N+1)`, `gamma_(N+3)`. -/
theorem C89_series (e : List ℝ) (hne : e ≠ []) (hu : (e.length + 3 : ℕ) * F.u < 1) :
    (∃ a b, MSE (e.map Fl.mk : List (Fl F)) none = .ok a ∧ MSE e none = .ok b ∧ |a.val - b| ≤ gamma F.u (e.length + 2) * b) ∧
    (∃ a b, MAE (e.map Fl.mk : List (Fl F)) none = .ok a ∧ MAE e none = .ok b ∧ |a.val - b| ≤ gamma F.u (e.length + 1) * b) ∧
    (∃ a b, RMSE (e.map Fl.mk : List (Fl F)) none = .ok a ∧ RMSE e none = .ok b ∧ |a.val - b| ≤ gamma F.u (e.length + 3) * b) := by
  have hN : e.length ≠ 0 := by simpa using hne
  have hlt : ∀ m : ℕ, m ≤ e.length + 3 → (m : ℝ) * F.u < 1 := fun m hm =>
    lt_of_le_of_lt (mul_le_mul_of_nonneg_right (by exact_mod_cast hm) F.u_nonneg) hu
  obtain ⟨h1, h2⟩ := rel_measures (F := F) (j := 0) (e.map Fl.mk) e (by simp) fun i h1 h2 => by
    rw [List.getElem_map]; exact rel_exact (abs_nonneg _)
  rw [List.length_map] at h1 h2
  have h3 := rel_natdiv h1 e.length hN
  have h4 := rel_natdiv h2 e.length hN
  have h5 := h3.flsqrt
  refine ⟨⟨_, _, rfl, rfl, ?_⟩, ⟨_, _, rfl, rfl, ?_⟩, ⟨_, _, rfl, rfl, ?_⟩⟩
  · rw [show e.length + 2 = 0 + 0 + 1 + e.length + 1 by ring]
    have := h3.gamma_le (hlt _ (by omega))
    rw [List.length_map]; exact this
  · rw [show e.length + 1 = 0 + e.length + 1 by ring]
    have := h4.gamma_le (hlt _ (by omega))
    rw [List.length_map]; exact this
  · rw [show e.length + 3 = 0 + 0 + 1 + e.length + 1 + 1 by ring]
    have := h5.gamma_le (hlt _ (by omega))
    rw [List.length_map]; exact this

/-- C89: the same for two series of equal length, whose differences are rounded too: `gamma_(N+4)`, `gamma_(N+2)`, `gamma_(N+5)`. However close the two series are, no
accuracy is lost in the subtraction. -/
theorem C89_two_series (x1 x2 : List ℝ) (hl : x1.length = x2.length) (hne : x1 ≠ []) (hu : (x1.length + 5 : ℕ) * F.u < 1) :
    (∃ a b, MSE (x1.map Fl.mk : List (Fl F)) (some (x2.map Fl.mk)) = .ok a ∧ MSE x1 (some x2) = .ok b ∧ |a.val - b| ≤ gamma F.u (x1.length + 4) * b) ∧
    (∃ a b, MAE (x1.map Fl.mk : List (Fl F)) (some (x2.map Fl.mk)) = .ok a ∧ MAE x1 (some x2) = .ok b ∧ |a.val - b| ≤ gamma F.u (x1.length + 2) * b) ∧
    (∃ a b, RMSE (x1.map Fl.mk : List (Fl F)) (some (x2.map Fl.mk)) = .ok a ∧ RMSE x1 (some x2) = .ok b ∧ |a.val - b| ≤ gamma F.u (x1.length + 5) * b) := by
  have hN : x1.length ≠ 0 := by simpa using hne
  have hlt : ∀ m : ℕ, m ≤ x1.length + 5 → (m : ℝ) * F.u < 1 := fun m hm =>
    lt_of_le_of_lt (mul_le_mul_of_nonneg_right (by exact_mod_cast hm) F.u_nonneg) hu
  have hf : getValidError (x1.map Fl.mk : List (Fl F)) (some (x2.map Fl.mk)) = .ok (List.zipWith (· - ·) (x1.map Fl.mk) (x2.map Fl.mk)) := by
    simp [getValidError, hl]
  have hg : getValidError x1 (some x2) = .ok (List.zipWith (· - ·) x1 x2) := by
    simp [getValidError, hl]
  set fs : List (Fl F) := List.zipWith (· - ·) (x1.map Fl.mk) (x2.map Fl.mk) with hfs
  set gs : List ℝ := List.zipWith (· - ·) x1 x2 with hgs
  have lf : fs.length = x1.length := by simp [hfs, hl]
  have lg : gs.length = x1.length := by simp [hgs, hl]
  obtain ⟨h1, h2⟩ := rel_measures (F := F) (j := 1) fs gs (by rw [lf, lg]) fun i h1 h2 => by
    simp only [hfs, hgs, List.getElem_zipWith, List.getElem_map]
    have h3 : Rel F.u 0 |x1[i] - x2[i]| |x1[i] - x2[i]| := rel_exact (abs_nonneg _)
    refine h3.round F.u_nonneg F.u_lt ?_
    rw [abs_abs]
    exact (abs_abs_sub_abs_le _ _).trans (F.sub_err _ _)
  rw [lf] at h1 h2
  have h3 := rel_natdiv h1 x1.length hN
  have h4 := rel_natdiv h2 x1.length hN
  have h5 := h3.flsqrt
  refine ⟨⟨dotSelf fs / Scalar.nat fs.length, dotSelf gs / Scalar.nat gs.length, by rw [MSE, hf], by rw [MSE, hg], ?_⟩,
    ⟨(fs.map Scalar.abs).sum / Scalar.nat fs.length, (gs.map Scalar.abs).sum / Scalar.nat gs.length, by rw [MAE, hf], by rw [MAE, hg], ?_⟩,
    ⟨Transc.sqrt (dotSelf fs / Scalar.nat fs.length), Real.sqrt (dotSelf gs / Scalar.nat gs.length), by rw [RMSE, hf], by rw [RMSE, hg]; rfl, ?_⟩⟩
  · rw [show x1.length + 4 = 1 + 1 + 1 + x1.length + 1 by ring, lf, lg]
    exact h3.gamma_le (hlt _ (by omega))
  · rw [show x1.length + 2 = 1 + x1.length + 1 by ring, lf, lg]
    exact h4.gamma_le (hlt _ (by omega))
  · rw [show x1.length + 5 = 1 + 1 + 1 + x1.length + 1 + 1 by ring, lf, lg]
    exact h5.gamma_le (hlt _ (by omega))

/-! ## C90 -/

/-- **Specification**: the majorant of LMS: the same recursion with every number replaced by its absolute value and no cancellation. -/
noncomputable def lmsMajorant (mu : ℝ) (w0 : Vec ℝ n) (d : ℕ → ℝ) (x : ℕ → Vec ℝ n) : ℕ → Vec ℝ n
  | 0 => fun i => |w0 i|
  | k + 1 => fun i => lmsMajorant mu w0 d x k i + |mu| * |x k i| * (|d k| + ∑ j, lmsMajorant mu w0 d x k j * |x k j|)

/-- C90: a whole run of LMS in rounded arithmetic (`o`, reporting `y`, `e`, weights `S`) against the exact run (`o'`, `y'`, `e'`, `S'`) on the same data: after `k` samples
the weights differ by at most `gamma_(k(n+5))` times the majorant; outputs and errors likewise. -/
theorem C90_lms (o : Obj (lms (Fl F) n)) (o' : Obj (lms ℝ n)) (hw : o.core.w = o'.core.w.fl F) (hmu : o.core.mu = ⟨o'.core.mu⟩)
    (d : ℕ → ℝ) (x : ℕ → Vec ℝ n) {y e : ℕ → Fl F} {y' e' : ℕ → ℝ} {S : ℕ → Core (Fl F) n Unit} {S' : ℕ → Core ℝ n Unit}
    (h : Runs (lms (Fl F) n) o (fun k => ⟨d k⟩) (fun k => (x k).fl F) y e S) (h' : Runs (lms ℝ n) o' d x y' e' S') (k : ℕ) :
    let B := lmsMajorant o'.core.mu o'.core.w d x k
    ((k * (n + 5) : ℕ) * F.u < 1 → ∀ i, |((S k).w i).val - (S' k).w i| ≤ gamma F.u (k * (n + 5)) * B i) ∧
    ((k * (n + 5) + n + 1 : ℕ) * F.u < 1 → |(y k).val - y' k| ≤ gamma F.u (k * (n + 5) + n + 1) * ∑ j, B j * |x k j|) ∧
    ((k * (n + 5) + n + 2 : ℕ) * F.u < 1 → |(e k).val - e' k| ≤ gamma F.u (k * (n + 5) + n + 2) * (|d k| + ∑ j, B j * |x k j|)) := by
  have h0 := F.u_nonneg
  have h1 := F.u_lt
  have step : ∀ k, (∀ i, Acc F.u (k * (n + 5)) ((S k).w i).val ((S' k).w i) (lmsMajorant o'.core.mu o'.core.w d x k i)) →
      Acc F.u (k * (n + 5) + n + 1) (y k).val (y' k) (∑ j, lmsMajorant o'.core.mu o'.core.w d x k j * |x k j|) ∧
      Acc F.u (k * (n + 5) + n + 2) (e k).val (e' k) (|d k| + ∑ j, lmsMajorant o'.core.mu o'.core.w d x k j * |x k j|) := by
    intro k hk
    obtain ⟨-, -, hy, he, -⟩ := lms_runs h k
    obtain ⟨-, -, hy', he', -⟩ := lms_runs h' k
    have ay := Acc.fldot (F := F) (l := 0) (S k).w ((x k).fl F) (S' k).w (x k) _ (fun i => |x k i|) hk (fun i => acc_exact h0 h1 _)
    rw [← hy, ← dot_eq, ← hy', show k * (n + 5) + 0 + 1 + n = k * (n + 5) + n + 1 by ring] at ay
    refine ⟨ay, ?_⟩
    have ae := Acc.flsub (F := F) (a := ⟨d k⟩) ((acc_exact h0 h1 (d k)).mono h0 h1 (Nat.zero_le _)) ay
    rwa [← he, ← he'] at ae
  have key : ∀ k i, Acc F.u (k * (n + 5)) ((S k).w i).val ((S' k).w i) (lmsMajorant o'.core.mu o'.core.w d x k i) := by
    intro k
    induction k with
    | zero =>
      intro i
      rw [h.1, h'.1, Nat.zero_mul]
      show Acc F.u 0 (o.core.w i).val (o'.core.w i) |o'.core.w i|
      rw [hw]
      exact acc_exact h0 h1 _
    | succ k ih =>
      intro i
      obtain ⟨m1, -, -, -, hwk⟩ := lms_runs h k
      obtain ⟨m2, -, -, -, hwk'⟩ := lms_runs h' k
      have ae := (step k ih).2
      rw [hwk, hwk', m1, m2, hmu]
      have a1 := Acc.flmul (F := F) (a := ⟨o'.core.mu⟩) (c := ⟨x k i⟩) (acc_exact h0 h1 _) (acc_exact h0 h1 _)
      have a2 := Acc.flmul a1 ae
      have a3 := Acc.fladd ((ih i).mono h0 h1 (show _ ≤ 0 + 0 + 1 + (k * (n + 5) + n + 2) + 1 by omega)) a2
      rw [show (k + 1) * (n + 5) = 0 + 0 + 1 + (k * (n + 5) + n + 2) + 1 + 1 by ring]
      exact a3
  exact ⟨fun hu i => (key k i).gamma_le h0 h1 hu, fun hu => (step k (key k)).1.gamma_le h0 h1 hu, fun hu => (step k (key k)).2.gamma_le h0 h1 hu⟩

/-- **Specification**: the majorant of NLMS. -/
noncomputable def nlmsMajorant (mu eps : ℝ) (w0 : Vec ℝ n) (d : ℕ → ℝ) (x : ℕ → Vec ℝ n) : ℕ → Vec ℝ n
  | 0 => fun i => |w0 i|
  | k + 1 => fun i => nlmsMajorant mu eps w0 d x k i
      + |mu| / (eps + ∑ j, x k j ^ 2) * |x k i| * (|d k| + ∑ j, nlmsMajorant mu eps w0 d x k j * |x k j|)

/-- C90: the same for NLMS with `eps > 0`: `gamma_(k(2n+8))` times the majorant. The division is harmless because its denominator is a sum of positive numbers. -/
theorem C90_nlms (o : Obj (nlms (Fl F) n)) (o' : Obj (nlms ℝ n)) (hw : o.core.w = o'.core.w.fl F) (hmu : o.core.mu = ⟨o'.core.mu⟩)
    (heps : o.core.ext.eps = ⟨o'.core.ext.eps⟩) (hpos : 0 < o'.core.ext.eps)
    (d : ℕ → ℝ) (x : ℕ → Vec ℝ n) {y e : ℕ → Fl F} {y' e' : ℕ → ℝ} {S : ℕ → Core (Fl F) n (EpsExt (Fl F))} {S' : ℕ → Core ℝ n (EpsExt ℝ)}
    (h : Runs (nlms (Fl F) n) o (fun k => ⟨d k⟩) (fun k => (x k).fl F) y e S) (h' : Runs (nlms ℝ n) o' d x y' e' S') (k : ℕ) :
    let B := nlmsMajorant o'.core.mu o'.core.ext.eps o'.core.w d x k
    ((k * (2 * n + 8) : ℕ) * F.u < 1 → ∀ i, |((S k).w i).val - (S' k).w i| ≤ gamma F.u (k * (2 * n + 8)) * B i) ∧
    ((k * (2 * n + 8) + n + 1 : ℕ) * F.u < 1 → |(y k).val - y' k| ≤ gamma F.u (k * (2 * n + 8) + n + 1) * ∑ j, B j * |x k j|) ∧
    ((k * (2 * n + 8) + n + 2 : ℕ) * F.u < 1 → |(e k).val - e' k| ≤ gamma F.u (k * (2 * n + 8) + n + 2) * (|d k| + ∑ j, B j * |x k j|)) := by
  have h0 := F.u_nonneg
  have h1 := F.u_lt
  set B := nlmsMajorant o'.core.mu o'.core.ext.eps o'.core.w d x with hB
  have step : ∀ k, (∀ i, Acc F.u (k * (2 * n + 8)) ((S k).w i).val ((S' k).w i) (B k i)) →
      Acc F.u (k * (2 * n + 8) + n + 1) (y k).val (y' k) (∑ j, B k j * |x k j|) ∧
      Acc F.u (k * (2 * n + 8) + n + 2) (e k).val (e' k) (|d k| + ∑ j, B k j * |x k j|) := by
    intro k hk
    obtain ⟨-, -, hy, he, -⟩ := nlms_runs h k
    obtain ⟨-, -, hy', he', -⟩ := nlms_runs h' k
    have ay := Acc.fldot (F := F) (l := 0) (S k).w ((x k).fl F) (S' k).w (x k) _ (fun i => |x k i|) hk (fun i => acc_exact h0 h1 _)
    rw [← hy, ← dot_eq, ← hy', show k * (2 * n + 8) + 0 + 1 + n = k * (2 * n + 8) + n + 1 by ring] at ay
    refine ⟨ay, ?_⟩
    have ae := Acc.flsub (F := F) (a := ⟨d k⟩) ((acc_exact h0 h1 (d k)).mono h0 h1 (Nat.zero_le _)) ay
    rwa [← he, ← he'] at ae
  have key : ∀ k i, Acc F.u (k * (2 * n + 8)) ((S k).w i).val ((S' k).w i) (B k i) := by
    intro k
    induction k with
    | zero =>
      intro i
      rw [h.1, h'.1, Nat.zero_mul]
      show Acc F.u 0 (o.core.w i).val (o'.core.w i) |o'.core.w i|
      rw [hw]
      exact acc_exact h0 h1 _
    | succ k ih =>
      intro i
      obtain ⟨m1, e1, -, -, hwk⟩ := nlms_runs h k
      obtain ⟨m2, e2, -, -, hwk'⟩ := nlms_runs h' k
      have ae := (step k ih).2
      rw [hwk, hwk', m1, m2, e1, e2, hmu, heps]
      have r1 : Rel F.u (1 + n) (dot ((x k).fl F) ((x k).fl F)).val (∑ j, x k j ^ 2) := Rel.flvsum _ _ fun j => by
        have h3 : Rel F.u 0 (x k j * x k j) (x k j ^ 2) := by rw [pow_two]; exact rel_exact (mul_self_nonneg _)
        exact h3.round h0 h1 (F.mul_err _ _)
      have r2 := Rel.fladd (F := F) (a := ⟨o'.core.ext.eps⟩) ((rel_exact hpos.le).mono h0 h1 (Nat.zero_le (1 + n))) r1
      have hq : o'.core.ext.eps + ∑ j, x k j ^ 2 ≠ 0 := by
        have : 0 ≤ ∑ j, x k j ^ 2 := sum_nonneg fun _ _ => sq_nonneg _
        linarith
      have a0 := Acc.fldiv (F := F) (a := ⟨o'.core.mu⟩) (acc_exact h0 h1 _) r2 hq
      have a1 := Acc.flmul (F := F) (c := ⟨x k i⟩) a0 (acc_exact h0 h1 _)
      have a2 := Acc.flmul a1 ae
      have a3 := Acc.fladd ((ih i).mono h0 h1 (show _ ≤ 0 + (1 + n + 1) + 1 + 0 + 1 + (k * (2 * n + 8) + n + 2) + 1 by omega)) a2
      rw [show (k + 1) * (2 * n + 8) = 0 + (1 + n + 1) + 1 + 0 + 1 + (k * (2 * n + 8) + n + 2) + 1 + 1 by ring]
      have hdot : dot (x k) (x k) = ∑ j, x k j ^ 2 := by rw [dot_eq]; exact sum_congr rfl fun j _ => by ring
      rw [← hdot] at a3
      refine a3.weaken h0 h1 (le_of_eq ?_)
      rw [hdot]
      rfl
  exact ⟨fun hu i => (key k i).gamma_le h0 h1 hu, fun hu => (step k (key k)).1.gamma_le h0 h1 hu, fun hu => (step k (key k)).2.gamma_le h0 h1 hu⟩

/-- the hypotheses of `C90_nlms` are met for any data -/
example (d : ℕ → ℝ) (x : ℕ → Vec ℝ 2) : ∃ (o : Obj (nlms (Fl (binary 53 (by norm_num))) 2)) (o' : Obj (nlms ℝ 2)) (y e : ℕ → Fl (binary 53 (by norm_num))) (y' e' : ℕ → ℝ)
    (S : ℕ → Core _ 2 (EpsExt (Fl (binary 53 (by norm_num))))) (S' : ℕ → Core ℝ 2 (EpsExt ℝ)),
    o.core.w = o'.core.w.fl _ ∧ o.core.mu = ⟨o'.core.mu⟩ ∧ o.core.ext.eps = ⟨o'.core.ext.eps⟩ ∧ 0 < o'.core.ext.eps ∧
    Runs (nlms (Fl (binary 53 (by norm_num))) 2) o (fun k => ⟨d k⟩) (fun k => (x k).fl _) y e S ∧ Runs (nlms ℝ 2) o' d x y' e' S' :=
  ⟨⟨⟨fun _ => ⟨1⟩, 2, ⟨1⟩, (⟨⟨1⟩⟩ : EpsExt _)⟩, []⟩, ⟨⟨fun _ => 1, 2, 1, (⟨1⟩ : EpsExt ℝ)⟩, []⟩, _, _, _, _, _, _, rfl, rfl, rfl, one_pos,
    runs_of_safe nlms_safe _ trivial _ _, runs_of_safe nlms_safe _ trivial _ _⟩

end Padasip
