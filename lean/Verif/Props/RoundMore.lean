import Verif.Props.Rounding
import Verif.Props.Initial

/-!
# C156: rounding errors of whole runs of Llncosh, LMF, NLMF, SSLMS and NSSLMS
-/

set_option linter.unusedSectionVars false
set_option linter.unusedVariables false
set_option linter.unusedSimpArgs false

namespace Padasip

open Finset

variable {F : Rounding} {n : ℕ}

/-- outputs and errors of one step, from the weights before it -/
theorem ye_acc {c : ℕ} {w : Vec (Fl F) n} {w' B x : Vec ℝ n} {d y' e' : ℝ} {y e : Fl F} (hk : ∀ i, Acc F.u c (w i).val (w' i) (B i))
    (hy : y = dot w (x.fl F)) (he : e = ⟨d⟩ - y) (hy' : y' = dot w' x) (he' : e' = d - y') :
    Acc F.u (c + n + 1) y.val y' (∑ j, B j * |x j|) ∧ Acc F.u (c + n + 2) e.val e' (|d| + ∑ j, B j * |x j|) := by
  have h0 := F.u_nonneg
  have h1 := F.u_lt
  have ay := Acc.fldot (F := F) (l := 0) w (x.fl F) w' x _ (fun i => |x i|) hk (fun i => acc_exact h0 h1 _)
  rw [← hy, ← dot_eq, ← hy', show c + 0 + 1 + n = c + n + 1 by ring] at ay
  refine ⟨ay, ?_⟩
  have ae := Acc.flsub (F := F) (a := ⟨d⟩) ((acc_exact h0 h1 d).mono h0 h1 (Nat.zero_le _)) ay
  rwa [← he, ← he'] at ae

/-! ## Llncosh -/

theorem tanh_lip (a b : ℝ) : |Real.tanh a - Real.tanh b| ≤ |a - b| := by
  have h := tanh_coercive a b
  rcases eq_or_ne (Real.tanh a - Real.tanh b) 0 with h2 | h2
  · rw [h2, abs_zero]; exact abs_nonneg _
  · have h3 : |Real.tanh a - Real.tanh b| * |Real.tanh a - Real.tanh b| ≤ |Real.tanh a - Real.tanh b| * |a - b| := by
      rw [← abs_mul, ← abs_mul, ← pow_two, abs_of_nonneg (sq_nonneg _)]
      exact h.trans (le_abs_self _)
    exact le_of_mul_le_mul_left h3 (abs_pos.2 h2)

/-- `tanh` is a contraction, so it keeps accuracies -/
theorem Acc.fltanh {k : ℕ} {a : Fl F} {b B : ℝ} (h : Acc F.u k a.val b B) : Acc F.u (k + 1) (Transc.tanh a : Fl F).val (Real.tanh b) B := by
  have h2 : Acc F.u k (Real.tanh a.val) (Real.tanh b) B := by
    refine ⟨(tanh_lip _ _).trans h.1, ?_⟩
    have := tanh_lip b 0
    rw [Real.tanh_zero, sub_zero, sub_zero] at this
    exact this.trans h.2
  exact h2.round F.u_nonneg F.u_lt (F.tanh_err _)

/-- **Specification**: the majorant of Llncosh: the LMS majorant with step size `|mu lambd|`. -/
noncomputable def llncoshMajorant (mu lambd : ℝ) (w0 : Vec ℝ n) (d : ℕ → ℝ) (x : ℕ → Vec ℝ n) : ℕ → Vec ℝ n
  | 0 => fun i => |w0 i|
  | k + 1 => fun i => llncoshMajorant mu lambd w0 d x k i + |mu| * |lambd| * |x k i| * (|d k| + ∑ j, llncoshMajorant mu lambd w0 d x k j * |x k j|)

/-- C156: a whole run of Llncosh in rounded arithmetic against the exact run on the same data: after `k` samples the weights differ by at most `gamma_(k(n+7))` times the majorant;
outputs and errors likewise. -/
theorem C156_llncosh (o : Obj (llncosh (Fl F) n)) (o' : Obj (llncosh ℝ n)) (hw : o.core.w = o'.core.w.fl F) (hmu : o.core.mu = ⟨o'.core.mu⟩)
    (hl : o.core.ext.lambd = ⟨o'.core.ext.lambd⟩)
    (d : ℕ → ℝ) (x : ℕ → Vec ℝ n) {y e : ℕ → Fl F} {y' e' : ℕ → ℝ} {S : ℕ → Core (Fl F) n (LlncoshExt (Fl F))} {S' : ℕ → Core ℝ n (LlncoshExt ℝ)}
    (h : Runs (llncosh (Fl F) n) o (fun k => ⟨d k⟩) (fun k => (x k).fl F) y e S) (h' : Runs (llncosh ℝ n) o' d x y' e' S') (k : ℕ) :
    let B := llncoshMajorant o'.core.mu o'.core.ext.lambd o'.core.w d x k
    ((k * (n + 7) : ℕ) * F.u < 1 → ∀ i, |((S k).w i).val - (S' k).w i| ≤ gamma F.u (k * (n + 7)) * B i) ∧
    ((k * (n + 7) + n + 1 : ℕ) * F.u < 1 → |(y k).val - y' k| ≤ gamma F.u (k * (n + 7) + n + 1) * ∑ j, B j * |x k j|) ∧
    ((k * (n + 7) + n + 2 : ℕ) * F.u < 1 → |(e k).val - e' k| ≤ gamma F.u (k * (n + 7) + n + 2) * (|d k| + ∑ j, B j * |x k j|)) := by
  have h0 := F.u_nonneg
  have h1 := F.u_lt
  set B := llncoshMajorant o'.core.mu o'.core.ext.lambd o'.core.w d x with hB
  have step : ∀ k, (∀ i, Acc F.u (k * (n + 7)) ((S k).w i).val ((S' k).w i) (B k i)) →
      Acc F.u (k * (n + 7) + n + 1) (y k).val (y' k) (∑ j, B k j * |x k j|) ∧ Acc F.u (k * (n + 7) + n + 2) (e k).val (e' k) (|d k| + ∑ j, B k j * |x k j|) := fun k hk =>
    ye_acc hk (llncosh_runs h k).2.2.1 (llncosh_runs h k).2.2.2.1 (llncosh_runs h' k).2.2.1 (llncosh_runs h' k).2.2.2.1
  have key : ∀ k i, Acc F.u (k * (n + 7)) ((S k).w i).val ((S' k).w i) (B k i) := by
    intro k
    induction k with
    | zero =>
      intro i
      rw [h.1, h'.1, Nat.zero_mul]
      show Acc F.u 0 (o.core.w i).val (o'.core.w i) |o'.core.w i|
      rw [hw]
      exact acc_exact h0 h1 _
    | succ k ih =>
      intro i
      obtain ⟨m1, e1, -, -, hwk⟩ := llncosh_runs h k
      obtain ⟨m2, e2, -, -, hwk'⟩ := llncosh_runs h' k
      have ae := (step k ih).2
      rw [hwk, hwk', m1, m2, e1, e2, hmu, hl]
      have a1 := Acc.fltanh (Acc.flmul (F := F) (a := ⟨o'.core.ext.lambd⟩) (acc_exact h0 h1 _) ae)
      have a2 := Acc.flmul (F := F) (a := ⟨o'.core.mu⟩) (acc_exact h0 h1 _) a1
      have a3 := Acc.flmul (F := F) (c := ⟨x k i⟩) a2 (acc_exact h0 h1 _)
      have a4 := Acc.fladd ((ih i).mono h0 h1 (show _ ≤ 0 + (0 + (k * (n + 7) + n + 2) + 1 + 1) + 1 + 0 + 1 by omega)) a3
      rw [show (k + 1) * (n + 7) = 0 + (0 + (k * (n + 7) + n + 2) + 1 + 1) + 1 + 0 + 1 + 1 by ring]
      refine a4.weaken h0 h1 (le_of_eq ?_)
      rw [hB]
      simp only [llncoshMajorant]
      ring
  exact ⟨fun hu i => (key k i).gamma_le h0 h1 hu, fun hu => (step k (key k)).1.gamma_le h0 h1 hu, fun hu => (step k (key k)).2.gamma_le h0 h1 hu⟩

/-- the hypotheses of `C156_llncosh` are met for any data -/
example (d : ℕ → ℝ) (x : ℕ → Vec ℝ 2) : ∃ (o : Obj (llncosh (Fl (binary 53 (by norm_num))) 2)) (o' : Obj (llncosh ℝ 2)) (y e : ℕ → Fl (binary 53 (by norm_num))) (y' e' : ℕ → ℝ)
    (S : ℕ → Core _ 2 (LlncoshExt (Fl (binary 53 (by norm_num))))) (S' : ℕ → Core ℝ 2 (LlncoshExt ℝ)),
    o.core.w = o'.core.w.fl _ ∧ o.core.mu = ⟨o'.core.mu⟩ ∧ o.core.ext.lambd = ⟨o'.core.ext.lambd⟩ ∧
    Runs (llncosh (Fl (binary 53 (by norm_num))) 2) o (fun k => ⟨d k⟩) (fun k => (x k).fl _) y e S ∧ Runs (llncosh ℝ 2) o' d x y' e' S' :=
  ⟨⟨⟨fun _ => ⟨1⟩, 2, ⟨1⟩, (⟨⟨3⟩⟩ : LlncoshExt _)⟩, []⟩, ⟨⟨fun _ => 1, 2, 1, (⟨3⟩ : LlncoshExt ℝ)⟩, []⟩, _, _, _, _, _, _, rfl, rfl, rfl,
    runs_of_safe llncosh_safe _ trivial _ _, runs_of_safe llncosh_safe _ trivial _ _⟩

/-! ## LMF and NLMF: cubes multiply the relative errors, so the number of roundings grows like `3^k` -/

/-- **Specification**: roundings that can influence a weight after `k` samples; `extra` roundings per sample outside the error -/
def cubeCount (n extra : ℕ) : ℕ → ℕ
  | 0 => 0
  | k + 1 => 3 * (cubeCount n extra k + n + 2) + extra

/-- **Specification**: the majorant for the step sizes `g k` -/
noncomputable def cubeMajorant (g : ℕ → ℝ) (w0 : Vec ℝ n) (d : ℕ → ℝ) (x : ℕ → Vec ℝ n) : ℕ → Vec ℝ n
  | 0 => fun i => |w0 i|
  | k + 1 => fun i => cubeMajorant g w0 d x k i + g k * |x k i| * (|d k| + ∑ j, cubeMajorant g w0 d x k j * |x k j|) ^ 3

/-- `n` inputs after 0, 1, 2 samples: 0, `3n+11`, `12n+44` roundings for LMF: exponential growth -/
theorem cubeCount_lt (n extra k : ℕ) : 3 ^ k ≤ cubeCount n extra (k + 1) := by
  induction k with
  | zero => simp [cubeCount]; omega
  | succ k ih => rw [cubeCount, pow_succ]; omega

/-- C156: LMF -/
theorem C156_lmf (o : Obj (lmf (Fl F) n)) (o' : Obj (lmf ℝ n)) (hw : o.core.w = o'.core.w.fl F) (hmu : o.core.mu = ⟨o'.core.mu⟩)
    (d : ℕ → ℝ) (x : ℕ → Vec ℝ n) {y e : ℕ → Fl F} {y' e' : ℕ → ℝ} {S : ℕ → Core (Fl F) n Unit} {S' : ℕ → Core ℝ n Unit}
    (h : Runs (lmf (Fl F) n) o (fun k => ⟨d k⟩) (fun k => (x k).fl F) y e S) (h' : Runs (lmf ℝ n) o' d x y' e' S') (k : ℕ) :
    let B := cubeMajorant (fun _ => |o'.core.mu|) o'.core.w d x k
    let c := cubeCount n 5 k
    ((c : ℕ) * F.u < 1 → ∀ i, |((S k).w i).val - (S' k).w i| ≤ gamma F.u c * B i) ∧
    ((c + n + 1 : ℕ) * F.u < 1 → |(y k).val - y' k| ≤ gamma F.u (c + n + 1) * ∑ j, B j * |x k j|) ∧
    ((c + n + 2 : ℕ) * F.u < 1 → |(e k).val - e' k| ≤ gamma F.u (c + n + 2) * (|d k| + ∑ j, B j * |x k j|)) := by
  have h0 := F.u_nonneg
  have h1 := F.u_lt
  set B := cubeMajorant (fun _ => |o'.core.mu|) o'.core.w d x with hB
  have step : ∀ k, (∀ i, Acc F.u (cubeCount n 5 k) ((S k).w i).val ((S' k).w i) (B k i)) →
      Acc F.u (cubeCount n 5 k + n + 1) (y k).val (y' k) (∑ j, B k j * |x k j|) ∧ Acc F.u (cubeCount n 5 k + n + 2) (e k).val (e' k) (|d k| + ∑ j, B k j * |x k j|) := fun k hk =>
    ye_acc hk (lmf_runs h k).2.2.1 (lmf_runs h k).2.2.2.1 (lmf_runs h' k).2.2.1 (lmf_runs h' k).2.2.2.1
  have key : ∀ k i, Acc F.u (cubeCount n 5 k) ((S k).w i).val ((S' k).w i) (B k i) := by
    intro k
    induction k with
    | zero =>
      intro i
      rw [h.1, h'.1]
      show Acc F.u 0 (o.core.w i).val (o'.core.w i) |o'.core.w i|
      rw [hw]
      exact acc_exact h0 h1 _
    | succ k ih =>
      intro i
      obtain ⟨m1, -, -, -, hwk⟩ := lmf_runs h k
      obtain ⟨m2, -, -, -, hwk'⟩ := lmf_runs h' k
      have ae := (step k ih).2
      rw [hwk, hwk', m1, m2, hmu]
      have a1 := Acc.flmul (F := F) (a := ⟨o'.core.mu⟩) (c := ⟨x k i⟩) (acc_exact h0 h1 _) (acc_exact h0 h1 _)
      have a2 := Acc.flmul a1 (Acc.flmul (Acc.flmul ae ae) ae)
      generalize hc : cubeCount n 5 k = c at *
      have a3 := Acc.fladd ((ih i).mono h0 h1 (show c ≤ 0 + 0 + 1 + (c + n + 2 + (c + n + 2) + 1 + (c + n + 2) + 1) + 1 by omega)) a2
      rw [show cubeCount n 5 (k + 1) = 0 + 0 + 1 + (c + n + 2 + (c + n + 2) + 1 + (c + n + 2) + 1) + 1 + 1 by rw [cubeCount, hc]; ring]
      refine a3.weaken h0 h1 (le_of_eq ?_)
      rw [hB]
      simp only [cubeMajorant]
      ring
  exact ⟨fun hu i => (key k i).gamma_le h0 h1 hu, fun hu => (step k (key k)).1.gamma_le h0 h1 hu, fun hu => (step k (key k)).2.gamma_le h0 h1 hu⟩

/-- the step size of the normalised filters, in rounded arithmetic -/
theorem norm_acc (mu eps : ℝ) (hpos : 0 < eps) (x : Vec ℝ n) :
    Acc F.u (n + 3) ((⟨mu⟩ : Fl F) / (⟨eps⟩ + dot (x.fl F) (x.fl F))).val (mu / (eps + dot x x)) (|mu| / (eps + ∑ j, x j ^ 2)) := by
  have h0 := F.u_nonneg
  have h1 := F.u_lt
  have r1 : Rel F.u (1 + n) (dot (x.fl F) (x.fl F)).val (∑ j, x j ^ 2) := Rel.flvsum _ _ fun j => by
    have h3 : Rel F.u 0 (x j * x j) (x j ^ 2) := by rw [pow_two]; exact rel_exact (mul_self_nonneg _)
    exact h3.round h0 h1 (F.mul_err _ _)
  have r2 := Rel.fladd (F := F) (a := ⟨eps⟩) ((rel_exact hpos.le).mono h0 h1 (Nat.zero_le (1 + n))) r1
  have hq : eps + ∑ j, x j ^ 2 ≠ 0 := by
    have : 0 ≤ ∑ j, x j ^ 2 := sum_nonneg fun _ _ => sq_nonneg _
    linarith
  have a0 := Acc.fldiv (F := F) (a := ⟨mu⟩) (acc_exact h0 h1 _) r2 hq
  have hdot : dot x x = ∑ j, x j ^ 2 := by rw [dot_eq]; exact sum_congr rfl fun j _ => by ring
  rw [hdot]
  rw [show n + 3 = 0 + (1 + n + 1) + 1 by ring]
  exact a0

/-- C156: NLMF with `eps > 0` -/
theorem C156_nlmf (o : Obj (nlmf (Fl F) n)) (o' : Obj (nlmf ℝ n)) (hw : o.core.w = o'.core.w.fl F) (hmu : o.core.mu = ⟨o'.core.mu⟩)
    (heps : o.core.ext.eps = ⟨o'.core.ext.eps⟩) (hpos : 0 < o'.core.ext.eps)
    (d : ℕ → ℝ) (x : ℕ → Vec ℝ n) {y e : ℕ → Fl F} {y' e' : ℕ → ℝ} {S : ℕ → Core (Fl F) n (EpsExt (Fl F))} {S' : ℕ → Core ℝ n (EpsExt ℝ)}
    (h : Runs (nlmf (Fl F) n) o (fun k => ⟨d k⟩) (fun k => (x k).fl F) y e S) (h' : Runs (nlmf ℝ n) o' d x y' e' S') (k : ℕ) :
    let B := cubeMajorant (fun j => |o'.core.mu| / (o'.core.ext.eps + ∑ i, x j i ^ 2)) o'.core.w d x k
    let c := cubeCount n (n + 8) k
    ((c : ℕ) * F.u < 1 → ∀ i, |((S k).w i).val - (S' k).w i| ≤ gamma F.u c * B i) ∧
    ((c + n + 1 : ℕ) * F.u < 1 → |(y k).val - y' k| ≤ gamma F.u (c + n + 1) * ∑ j, B j * |x k j|) ∧
    ((c + n + 2 : ℕ) * F.u < 1 → |(e k).val - e' k| ≤ gamma F.u (c + n + 2) * (|d k| + ∑ j, B j * |x k j|)) := by
  have h0 := F.u_nonneg
  have h1 := F.u_lt
  set B := cubeMajorant (fun j => |o'.core.mu| / (o'.core.ext.eps + ∑ i, x j i ^ 2)) o'.core.w d x with hB
  have step : ∀ k, (∀ i, Acc F.u (cubeCount n (n + 8) k) ((S k).w i).val ((S' k).w i) (B k i)) →
      Acc F.u (cubeCount n (n + 8) k + n + 1) (y k).val (y' k) (∑ j, B k j * |x k j|) ∧
      Acc F.u (cubeCount n (n + 8) k + n + 2) (e k).val (e' k) (|d k| + ∑ j, B k j * |x k j|) := fun k hk =>
    ye_acc hk (nlmf_runs h k).2.2.1 (nlmf_runs h k).2.2.2.1 (nlmf_runs h' k).2.2.1 (nlmf_runs h' k).2.2.2.1
  have key : ∀ k i, Acc F.u (cubeCount n (n + 8) k) ((S k).w i).val ((S' k).w i) (B k i) := by
    intro k
    induction k with
    | zero =>
      intro i
      rw [h.1, h'.1]
      show Acc F.u 0 (o.core.w i).val (o'.core.w i) |o'.core.w i|
      rw [hw]
      exact acc_exact h0 h1 _
    | succ k ih =>
      intro i
      obtain ⟨m1, e1, -, -, hwk⟩ := nlmf_runs h k
      obtain ⟨m2, e2, -, -, hwk'⟩ := nlmf_runs h' k
      have ae := (step k ih).2
      rw [hwk, hwk', m1, m2, e1, e2, hmu, heps]
      have a1 := Acc.flmul (F := F) (c := ⟨x k i⟩) (norm_acc o'.core.mu _ hpos (x k)) (acc_exact h0 h1 _)
      have a2 := Acc.flmul a1 (Acc.flmul (Acc.flmul ae ae) ae)
      generalize hc : cubeCount n (n + 8) k = c at *
      have a3 := Acc.fladd ((ih i).mono h0 h1 (show c ≤ n + 3 + 0 + 1 + (c + n + 2 + (c + n + 2) + 1 + (c + n + 2) + 1) + 1 by omega)) a2
      rw [show cubeCount n (n + 8) (k + 1) = n + 3 + 0 + 1 + (c + n + 2 + (c + n + 2) + 1 + (c + n + 2) + 1) + 1 + 1 by rw [cubeCount, hc]; ring]
      refine a3.weaken h0 h1 (le_of_eq ?_)
      rw [hB]
      simp only [cubeMajorant]
      ring
  exact ⟨fun hu i => (key k i).gamma_le h0 h1 hu, fun hu => (step k (key k)).1.gamma_le h0 h1 hu, fun hu => (step k (key k)).2.gamma_le h0 h1 hu⟩

/-! ## SSLMS and NSSLMS: exact as long as no error is within its own rounding error of 0 -/

theorem sgn_of_close {a b : ℝ} (h : |a - b| < |b|) : (if 0 < a then (1 : ℝ) else if a < 0 then -1 else 0) = if 0 < b then 1 else if b < 0 then -1 else 0 := by
  rcases lt_trichotomy b 0 with hb | hb | hb
  · rw [abs_of_neg hb, abs_lt] at h
    rw [if_neg (by linarith), if_pos (by linarith), if_neg (by linarith), if_pos hb]
  · rw [hb, abs_zero] at h; exact absurd h (not_lt.2 (abs_nonneg _))
  · rw [abs_of_pos hb, abs_lt] at h
    rw [if_pos (by linarith), if_pos hb]

theorem abs_ite_sgn_le (a : ℝ) : |(if 0 < a then (1 : ℝ) else if a < 0 then -1 else 0)| ≤ 1 := by split_ifs <;> simp

/-- the exact sign of a real as a rounded number -/
theorem sgn_acc (a : Fl F) (b : ℝ) (h : (Scalar.sgn a : Fl F).val = Scalar.sgn b) : Acc F.u 0 (Scalar.sgn a : Fl F).val (Scalar.sgn b) 1 := by
  rw [h]
  exact (acc_exact F.u_nonneg F.u_lt _).weaken F.u_nonneg F.u_lt (abs_ite_sgn_le b)

/-- C156: SSLMS. If no error `e' j` of the exact run, `j < k`, is smaller than its own error bound `gamma_(j+n+4) (|d j| + sum_i (|w0 i| + j |mu|) |x j i|)`, then the rounded run
made the same decisions (signs) all along, and after `k` samples its weights differ from the exact ones by at most `gamma_(k+2) (|w0 i| + k |mu|)`, outputs and errors likewise. -/
theorem C156_sslms (o : Obj (sslms (Fl F) n)) (o' : Obj (sslms ℝ n)) (hw : o.core.w = o'.core.w.fl F) (hmu : o.core.mu = ⟨o'.core.mu⟩)
    (d : ℕ → ℝ) (x : ℕ → Vec ℝ n) {y e : ℕ → Fl F} {y' e' : ℕ → ℝ} {S : ℕ → Core (Fl F) n Unit} {S' : ℕ → Core ℝ n Unit}
    (h : Runs (sslms (Fl F) n) o (fun k => ⟨d k⟩) (fun k => (x k).fl F) y e S) (h' : Runs (sslms ℝ n) o' d x y' e' S') (k : ℕ)
    (hu : (k + n + 4 : ℕ) * F.u < 1)
    (hclear : ∀ j < k, gamma F.u (j + n + 4) * (|d j| + ∑ i, (|o'.core.w i| + j * |o'.core.mu|) * |x j i|) < |e' j|) :
    (∀ j < k, SignType.sign (e j).val = SignType.sign (e' j)) ∧
    (∀ i, |((S k).w i).val - (S' k).w i| ≤ gamma F.u (k + 2) * (|o'.core.w i| + k * |o'.core.mu|)) ∧
    |(y k).val - y' k| ≤ gamma F.u (k + n + 3) * ∑ i, (|o'.core.w i| + k * |o'.core.mu|) * |x k i| ∧
    |(e k).val - e' k| ≤ gamma F.u (k + n + 4) * (|d k| + ∑ i, (|o'.core.w i| + k * |o'.core.mu|) * |x k i|) := by
  have h0 := F.u_nonneg
  have h1 := F.u_lt
  have lt1 : ∀ m ≤ k + n + 4, (m : ℕ) * F.u < 1 := fun m hm =>
    lt_of_le_of_lt (mul_le_mul_of_nonneg_right (by exact_mod_cast hm) h0) hu
  have step : ∀ j, (∀ i, Acc F.u (j + 2) ((S j).w i).val ((S' j).w i) (|o'.core.w i| + j * |o'.core.mu|)) →
      Acc F.u (j + n + 3) (y j).val (y' j) (∑ i, (|o'.core.w i| + j * |o'.core.mu|) * |x j i|) ∧
      Acc F.u (j + n + 4) (e j).val (e' j) (|d j| + ∑ i, (|o'.core.w i| + j * |o'.core.mu|) * |x j i|) := fun j hj =>
    by
    have := ye_acc hj (sslms_runs h j).2.2.1 (sslms_runs h j).2.2.2.1 (sslms_runs h' j).2.2.1 (sslms_runs h' j).2.2.2.1
    rwa [show j + 2 + n + 1 = j + n + 3 by ring, show j + 2 + n + 2 = j + n + 4 by ring] at this
  have close : ∀ j < k, (∀ i, Acc F.u (j + 2) ((S j).w i).val ((S' j).w i) (|o'.core.w i| + j * |o'.core.mu|)) → |(e j).val - e' j| < |e' j| := fun j hj hk =>
    ((step j hk).2.gamma_le h0 h1 (lt1 _ (by omega))).trans_lt (hclear j hj)
  have key : ∀ j ≤ k, ∀ i, Acc F.u (j + 2) ((S j).w i).val ((S' j).w i) (|o'.core.w i| + j * |o'.core.mu|) := by
    intro j
    induction j with
    | zero =>
      intro _ i
      rw [h.1, h'.1]
      show Acc F.u (0 + 2) (o.core.w i).val (o'.core.w i) _
      rw [hw]
      exact ((acc_exact h0 h1 _).weaken h0 h1 (by simp [Vec.fl])).mono h0 h1 (Nat.zero_le _)
    | succ j ih =>
      intro hj i
      have ih := ih (by omega)
      obtain ⟨m1, -, -, -, hwk⟩ := sslms_runs h j
      obtain ⟨m2, -, -, -, hwk'⟩ := sslms_runs h' j
      rw [hwk, hwk', m1, m2, hmu]
      have a1 := Acc.flmul (F := F) (a := ⟨o'.core.mu⟩) (acc_exact h0 h1 _) (sgn_acc (F := F) ⟨x j i⟩ (x j i) rfl)
      have a2 := Acc.flmul a1 (sgn_acc (F := F) (e j) (e' j) (sgn_of_close (close j (by omega) ih)))
      have a3 := Acc.fladd ((ih i).mono h0 h1 le_rfl) (a2.mono h0 h1 (show 0 + 0 + 1 + 0 + 1 ≤ j + 2 by omega))
      rw [show j + 1 + 2 = j + 2 + 1 by ring]
      refine a3.weaken h0 h1 (le_of_eq ?_)
      push_cast
      ring
  refine ⟨fun j hj => ?_, fun i => (key k le_rfl i).gamma_le h0 h1 (lt1 _ (by omega)), (step k (key k le_rfl)).1.gamma_le h0 h1 (lt1 _ (by omega)),
    (step k (key k le_rfl)).2.gamma_le h0 h1 (lt1 _ (by omega))⟩
  have hc := close j hj (key j hj.le)
  rcases lt_trichotomy (e' j) 0 with hb | hb | hb
  · rw [abs_of_neg hb, abs_lt] at hc
    rw [sign_neg hb, sign_neg (by linarith)]
  · rw [hb, abs_zero] at hc; exact absurd hc (not_lt.2 (abs_nonneg _))
  · rw [abs_of_pos hb, abs_lt] at hc
    rw [sign_pos hb, sign_pos (by linarith)]

/-- C156: the same for NSSLMS with `eps > 0`: step sizes `|mu| / (eps + |x|^2)`, at most `k + n + 5` roundings after `k` samples. -/
theorem C156_nsslms (o : Obj (nsslms (Fl F) n)) (o' : Obj (nsslms ℝ n)) (hw : o.core.w = o'.core.w.fl F) (hmu : o.core.mu = ⟨o'.core.mu⟩)
    (heps : o.core.ext.eps = ⟨o'.core.ext.eps⟩) (hpos : 0 < o'.core.ext.eps)
    (d : ℕ → ℝ) (x : ℕ → Vec ℝ n) {y e : ℕ → Fl F} {y' e' : ℕ → ℝ} {S : ℕ → Core (Fl F) n (EpsExt (Fl F))} {S' : ℕ → Core ℝ n (EpsExt ℝ)}
    (h : Runs (nsslms (Fl F) n) o (fun k => ⟨d k⟩) (fun k => (x k).fl F) y e S) (h' : Runs (nsslms ℝ n) o' d x y' e' S') (k : ℕ)
    (G : ℕ → ℝ) (hG : ∀ j, G j = ∑ t ∈ range j, |o'.core.mu| / (o'.core.ext.eps + ∑ i, x t i ^ 2))
    (hu : (k + 2 * n + 7 : ℕ) * F.u < 1)
    (hclear : ∀ j < k, gamma F.u (j + 2 * n + 7) * (|d j| + ∑ i, (|o'.core.w i| + G j) * |x j i|) < |e' j|) :
    (∀ j < k, SignType.sign (e j).val = SignType.sign (e' j)) ∧
    (∀ i, |((S k).w i).val - (S' k).w i| ≤ gamma F.u (k + n + 5) * (|o'.core.w i| + G k)) ∧
    |(y k).val - y' k| ≤ gamma F.u (k + 2 * n + 6) * ∑ i, (|o'.core.w i| + G k) * |x k i| ∧
    |(e k).val - e' k| ≤ gamma F.u (k + 2 * n + 7) * (|d k| + ∑ i, (|o'.core.w i| + G k) * |x k i|) := by
  have h0 := F.u_nonneg
  have h1 := F.u_lt
  have lt1 : ∀ m ≤ k + 2 * n + 7, (m : ℕ) * F.u < 1 := fun m hm =>
    lt_of_le_of_lt (mul_le_mul_of_nonneg_right (by exact_mod_cast hm) h0) hu
  have step : ∀ j, (∀ i, Acc F.u (j + n + 5) ((S j).w i).val ((S' j).w i) (|o'.core.w i| + G j)) →
      Acc F.u (j + 2 * n + 6) (y j).val (y' j) (∑ i, (|o'.core.w i| + G j) * |x j i|) ∧
      Acc F.u (j + 2 * n + 7) (e j).val (e' j) (|d j| + ∑ i, (|o'.core.w i| + G j) * |x j i|) := fun j hj =>
    by
    have := ye_acc hj (nsslms_runs h j).2.2.1 (nsslms_runs h j).2.2.2.1 (nsslms_runs h' j).2.2.1 (nsslms_runs h' j).2.2.2.1
    rwa [show j + n + 5 + n + 1 = j + 2 * n + 6 by ring, show j + n + 5 + n + 2 = j + 2 * n + 7 by ring] at this
  have close : ∀ j < k, (∀ i, Acc F.u (j + n + 5) ((S j).w i).val ((S' j).w i) (|o'.core.w i| + G j)) → |(e j).val - e' j| < |e' j| := fun j hj hk =>
    ((step j hk).2.gamma_le h0 h1 (lt1 _ (by omega))).trans_lt (hclear j hj)
  have key : ∀ j ≤ k, ∀ i, Acc F.u (j + n + 5) ((S j).w i).val ((S' j).w i) (|o'.core.w i| + G j) := by
    intro j
    induction j with
    | zero =>
      intro _ i
      rw [h.1, h'.1, hG]
      show Acc F.u (0 + n + 5) (o.core.w i).val (o'.core.w i) _
      rw [hw]
      exact ((acc_exact h0 h1 _).weaken h0 h1 (by simp [Vec.fl])).mono h0 h1 (Nat.zero_le _)
    | succ j ih =>
      intro hj i
      have ih := ih (by omega)
      obtain ⟨m1, e1, -, -, hwk⟩ := nsslms_runs h j
      obtain ⟨m2, e2, -, -, hwk'⟩ := nsslms_runs h' j
      rw [hwk, hwk', m1, m2, e1, e2, hmu, heps]
      have a1 := Acc.flmul (F := F) (norm_acc o'.core.mu _ hpos (x j)) (sgn_acc (F := F) ⟨x j i⟩ (x j i) rfl)
      have a2 := Acc.flmul a1 (sgn_acc (F := F) (e j) (e' j) (sgn_of_close (close j (by omega) ih)))
      have a3 := Acc.fladd ((ih i).mono h0 h1 le_rfl) (a2.mono h0 h1 (show n + 3 + 0 + 1 + 0 + 1 ≤ j + n + 5 by omega))
      rw [show j + 1 + n + 5 = j + n + 5 + 1 by ring]
      refine a3.weaken h0 h1 (le_of_eq ?_)
      rw [hG (j + 1), sum_range_succ, ← hG j]
      ring
  refine ⟨fun j hj => ?_, fun i => (key k le_rfl i).gamma_le h0 h1 (lt1 _ (by omega)), (step k (key k le_rfl)).1.gamma_le h0 h1 (lt1 _ (by omega)),
    (step k (key k le_rfl)).2.gamma_le h0 h1 (lt1 _ (by omega))⟩
  have hc := close j hj (key j hj.le)
  rcases lt_trichotomy (e' j) 0 with hb | hb | hb
  · rw [abs_of_neg hb, abs_lt] at hc
    rw [sign_neg hb, sign_neg (by linarith)]
  · rw [hb, abs_zero] at hc; exact absurd hc (not_lt.2 (abs_nonneg _))
  · rw [abs_of_pos hb, abs_lt] at hc
    rw [sign_pos hb, sign_pos (by linarith)]

theorem sslms_clear_example {y' e' : ℕ → ℝ} {S' : ℕ → Core ℝ 1 Unit} (h' : Runs (sslms ℝ 1) ⟨⟨fun _ => 0, 1, 1, ()⟩, []⟩ (fun _ => 1000) (fun _ _ => 1) y' e' S') (j : ℕ) :
    1000 - (j : ℝ) ≤ |e' j| := by
  have hw : |(S' j).w 0| ≤ j := by
    induction j with
    | zero => rw [h'.1]; simp [Core.withN]
    | succ j ih =>
      obtain ⟨m, -, -, -, hw⟩ := sslms_runs h' j
      rw [hw, m]
      refine (abs_add_le _ _).trans ?_
      push_cast
      refine add_le_add ih ?_
      have h1 := abs_ite_sgn_le (1 : ℝ)
      have h2 := abs_ite_sgn_le (e' j)
      show |1 * (if (0 : ℝ) < 1 then (1 : ℝ) else if (1 : ℝ) < 0 then -1 else 0) * (if 0 < e' j then (1 : ℝ) else if e' j < 0 then -1 else 0)| ≤ 1
      rw [one_mul, abs_mul]
      exact mul_le_one₀ h1 (abs_nonneg _) h2
  obtain ⟨-, -, hy, he, -⟩ := sslms_runs h' j
  rw [dot_eq, Fin.sum_univ_one, mul_one] at hy
  rw [he, hy]
  have := (abs_le.1 hw).2
  exact le_trans (by linarith) (le_abs_self _)

/-- the hypotheses of `C156_sslms` are met: 100 samples in double precision, one weight, target 1000, input 1 -/
example : ∃ (o : Obj (sslms (Fl (binary 53 (by norm_num))) 1)) (o' : Obj (sslms ℝ 1)) (y e : ℕ → Fl (binary 53 (by norm_num))) (y' e' : ℕ → ℝ)
    (S : ℕ → Core _ 1 Unit) (S' : ℕ → Core ℝ 1 Unit),
    o.core.w = o'.core.w.fl _ ∧ o.core.mu = ⟨o'.core.mu⟩ ∧ o'.core.mu = 1 ∧
    Runs (sslms (Fl (binary 53 (by norm_num))) 1) o (fun _ => ⟨1000⟩) (fun _ => Vec.fl _ fun _ => 1) y e S ∧ Runs (sslms ℝ 1) o' (fun _ => 1000) (fun _ _ => 1) y' e' S' ∧
    ((100 + 1 + 4 : ℕ) : ℝ) * (binary 53 (by norm_num)).u < 1 ∧
    ∀ j < 100, gamma (binary 53 (by norm_num)).u (j + 1 + 4) * (|(1000 : ℝ)| + ∑ i, (|o'.core.w i| + j * |o'.core.mu|) * |(1 : ℝ)|) < |e' j| := by
  have hu : (binary 53 (by norm_num)).u = (1 / 2) ^ 53 := rfl
  have h' := runs_of_safe sslms_safe (⟨⟨fun _ => 0, 1, 1, ()⟩, []⟩ : Obj (sslms ℝ 1)) trivial (fun _ => 1000) (fun _ _ => 1)
  refine ⟨⟨⟨fun _ => ⟨0⟩, 1, ⟨1⟩, ()⟩, []⟩, ⟨⟨fun _ => 0, 1, 1, ()⟩, []⟩, _, _, _, _, _, _, rfl, rfl, rfl, runs_of_safe sslms_safe _ trivial _ _, h', ?_, ?_⟩
  · rw [hu]; norm_num
  · intro j hj
    refine lt_of_lt_of_le ?_ (sslms_clear_example h' j)
    rw [hu]
    have hj' : (j : ℝ) ≤ 100 := by exact_mod_cast hj.le
    have hj0 : (0 : ℝ) ≤ j := Nat.cast_nonneg j
    have hg : gamma ((1 / 2) ^ 53) (j + 1 + 4) ≤ 1 / 2 := by
      unfold gamma
      push_cast
      rw [div_le_iff₀ (by norm_num; linarith)]
      norm_num
      linarith
    have h3 : (|(1000 : ℝ)| + ∑ i : Fin 1, (|(0 : ℝ)| + j * |(1 : ℝ)|) * |(1 : ℝ)|) = 1000 + j := by simp
    show gamma ((1 / 2) ^ 53) (j + 1 + 4) * (|(1000 : ℝ)| + ∑ i : Fin 1, (|(0 : ℝ)| + j * |(1 : ℝ)|) * |(1 : ℝ)|) < 1000 - j
    rw [h3]
    have := mul_le_mul_of_nonneg_right hg (show (0 : ℝ) ≤ 1000 + j by linarith)
    linarith

end Padasip
