import Verif.Lemmas.Steps
import Verif.Lemmas.Field
import Verif.Props.Ap

/-!
# C37: superposition for LMS, NLMS, RLS and AP
-/

set_option linter.unusedSectionVars false
set_option linter.unusedSimpArgs false

namespace Padasip

open Finset

section
variable {K : Type} [Field K] [LinearOrder K] [IsStrictOrderedRing K] {n : ℕ}
variable {d1 d2 : ℕ → K} {x : ℕ → Vec K n} {y1 e1 y2 e2 y3 e3 : ℕ → K} {a b : K}

/-- `u` is the combination `a u1 + b u2` -/
def Comb (a b : K) {A : Type} (u1 u2 u : A → K) : Prop := ∀ i, u i = a * u1 i + b * u2 i

theorem Comb.dot {a b : K} {u1 u2 u : Vec K n} (h : Comb a b u1 u2 u) (v : Vec K n) :
    dot u v = a * Padasip.dot u1 v + b * Padasip.dot u2 v := by
  simp only [dot_eq, h _, mul_sum, ← sum_add_distrib]
  exact sum_congr rfl fun i _ => by ring

/-- the generic argument: weights combine before the first sample and one sample keeps them combined -/
theorem superpose {C : FilterClass K n} {S1 S2 S3 : ℕ → Core K n C.Ext}
    (h0 : Comb a b (S1 0).w (S2 0).w (S3 0).w)
    (hy1 : ∀ k, y1 k = dot (S1 k).w (x k)) (hy2 : ∀ k, y2 k = dot (S2 k).w (x k))
    (hy3 : ∀ k, y3 k = dot (S3 k).w (x k))
    (he1 : ∀ k, e1 k = d1 k - y1 k) (he2 : ∀ k, e2 k = d2 k - y2 k)
    (he3 : ∀ k, e3 k = a * d1 k + b * d2 k - y3 k) (g : ℕ → Vec K n)
    (hw1 : ∀ k i, (S1 (k + 1)).w i = (S1 k).w i + g k i * e1 k)
    (hw2 : ∀ k i, (S2 (k + 1)).w i = (S2 k).w i + g k i * e2 k)
    (hw3 : ∀ k i, (S3 (k + 1)).w i = (S3 k).w i + g k i * e3 k) (k : ℕ) :
    y3 k = a * y1 k + b * y2 k ∧ e3 k = a * e1 k + b * e2 k ∧
      ∀ i, (S3 k).w i = a * (S1 k).w i + b * (S2 k).w i := by
  have hw : ∀ k, Comb a b (S1 k).w (S2 k).w (S3 k).w := by
    intro k
    induction k with
    | zero => exact h0
    | succ k ih =>
      intro i
      rw [hw1, hw2, hw3, ih i, he1, he2, he3, hy1, hy2, hy3, ih.dot]
      ring
  refine ⟨?_, ?_, hw k⟩
  · rw [hy3, hy1, hy2, (hw k).dot]
  · rw [he3, he1, he2, hy3, hy1, hy2, (hw k).dot]; ring

/-- C37 (LMS): for the same inputs and step size, `run` on the combination `a (w1, d1) + b (w2, d2)` of initial weights and
desired signals reports the same combination of outputs, errors and weights. -/
theorem C37_lms {o1 o2 o3 : Obj (lms K n)} {S1 S2 S3 : ℕ → Core K n Unit}
    (h1 : Runs (lms K n) o1 d1 x y1 e1 S1) (h2 : Runs (lms K n) o2 d2 x y2 e2 S2)
    (h3 : Runs (lms K n) o3 (fun k => a * d1 k + b * d2 k) x y3 e3 S3)
    (hmu2 : o2.core.mu = o1.core.mu) (hmu3 : o3.core.mu = o1.core.mu)
    (hw : ∀ i, o3.core.w i = a * o1.core.w i + b * o2.core.w i) (k : ℕ) :
    y3 k = a * y1 k + b * y2 k ∧ e3 k = a * e1 k + b * e2 k ∧
      ∀ i, (S3 k).w i = a * (S1 k).w i + b * (S2 k).w i := by
  have r1 := lms_runs h1
  have r2 := lms_runs h2
  have r3 := lms_runs h3
  refine superpose (C := lms K n) (d1 := d1) (d2 := d2) (x := x) ?_ (fun k => (r1 k).2.2.1) (fun k => (r2 k).2.2.1)
    (fun k => (r3 k).2.2.1) (fun k => (r1 k).2.2.2.1) (fun k => (r2 k).2.2.2.1) (fun k => (r3 k).2.2.2.1)
    (fun k i => o1.core.mu * x k i) ?_ ?_ ?_ k
  · intro i; rw [h1.1, h2.1, h3.1]; exact hw i
  · intro k i; rw [(r1 k).2.2.2.2, (r1 k).1]
  · intro k i; rw [(r2 k).2.2.2.2, (r2 k).1, hmu2]
  · intro k i; rw [(r3 k).2.2.2.2, (r3 k).1, hmu3]

example : ∃ (o1 o2 o3 : Obj (lms ℚ 2)) (y1 e1 y2 e2 y3 e3 : ℕ → ℚ) (S1 S2 S3 : ℕ → Core ℚ 2 Unit),
    Runs (lms ℚ 2) o1 (fun k => k) (fun k _ => k + 1) y1 e1 S1 ∧
    Runs (lms ℚ 2) o2 (fun _ => 7) (fun k _ => k + 1) y2 e2 S2 ∧
    Runs (lms ℚ 2) o3 (fun k => 2 * k + 3 * 7) (fun k _ => k + 1) y3 e3 S3 ∧
    o2.core.mu = o1.core.mu ∧ o3.core.mu = o1.core.mu ∧
    (∀ i, o3.core.w i = 2 * o1.core.w i + 3 * o2.core.w i) ∧ o3.core.w 0 = 7 :=
  ⟨⟨⟨fun _ => 2, 2, 1, ()⟩, []⟩, ⟨⟨fun _ => 1, 2, 1, ()⟩, []⟩, ⟨⟨fun _ => 7, 2, 1, ()⟩, []⟩, _, _, _, _, _, _, _, _, _,
    runs_of_safe lms_safe _ trivial _ _, runs_of_safe lms_safe _ trivial _ _,
    runs_of_safe lms_safe _ trivial _ _, rfl, rfl, fun _ => by norm_num, rfl⟩

/-- C37 (NLMS): superposition (`0 < eps` keeps the denominator `eps + |x|^2` positive). -/
theorem C37_nlms {o1 o2 o3 : Obj (nlms K n)} {S1 S2 S3 : ℕ → Core K n (EpsExt K)}
    (h1 : Runs (nlms K n) o1 d1 x y1 e1 S1) (h2 : Runs (nlms K n) o2 d2 x y2 e2 S2)
    (h3 : Runs (nlms K n) o3 (fun k => a * d1 k + b * d2 k) x y3 e3 S3)
    (_heps : 0 < o1.core.ext.eps)
    (hmu2 : o2.core.mu = o1.core.mu) (hmu3 : o3.core.mu = o1.core.mu)
    (heps2 : o2.core.ext.eps = o1.core.ext.eps) (heps3 : o3.core.ext.eps = o1.core.ext.eps)
    (hw : ∀ i, o3.core.w i = a * o1.core.w i + b * o2.core.w i) (k : ℕ) :
    y3 k = a * y1 k + b * y2 k ∧ e3 k = a * e1 k + b * e2 k ∧
      ∀ i, (S3 k).w i = a * (S1 k).w i + b * (S2 k).w i := by
  have r1 := nlms_runs h1
  have r2 := nlms_runs h2
  have r3 := nlms_runs h3
  refine superpose (C := nlms K n) (d1 := d1) (d2 := d2) (x := x) ?_ (fun k => (r1 k).2.2.1) (fun k => (r2 k).2.2.1)
    (fun k => (r3 k).2.2.1) (fun k => (r1 k).2.2.2.1) (fun k => (r2 k).2.2.2.1) (fun k => (r3 k).2.2.2.1)
    (fun k i => o1.core.mu / (o1.core.ext.eps + dot (x k) (x k)) * x k i) ?_ ?_ ?_ k
  · intro i; rw [h1.1, h2.1, h3.1]; exact hw i
  · intro k i; rw [(r1 k).2.2.2.2, (r1 k).1, (r1 k).2.1]
  · intro k i; rw [(r2 k).2.2.2.2, (r2 k).1, (r2 k).2.1, hmu2, heps2]
  · intro k i; rw [(r3 k).2.2.2.2, (r3 k).1, (r3 k).2.1, hmu3, heps3]

example : ∃ (o1 o2 o3 : Obj (nlms ℚ 2)) (y1 e1 y2 e2 y3 e3 : ℕ → ℚ) (S1 S2 S3 : ℕ → Core ℚ 2 (EpsExt ℚ)),
    Runs (nlms ℚ 2) o1 (fun k => k) (fun k _ => k + 1) y1 e1 S1 ∧
    Runs (nlms ℚ 2) o2 (fun _ => 7) (fun k _ => k + 1) y2 e2 S2 ∧
    Runs (nlms ℚ 2) o3 (fun k => 2 * k + 3 * 7) (fun k _ => k + 1) y3 e3 S3 ∧ 0 < o1.core.ext.eps ∧
    (∀ i, o3.core.w i = 2 * o1.core.w i + 3 * o2.core.w i) ∧ o3.core.w 0 = 7 :=
  ⟨⟨⟨fun _ => 2, 2, 1, (⟨1⟩ : EpsExt ℚ)⟩, []⟩, ⟨⟨fun _ => 1, 2, 1, (⟨1⟩ : EpsExt ℚ)⟩, []⟩,
    ⟨⟨fun _ => 7, 2, 1, (⟨1⟩ : EpsExt ℚ)⟩, []⟩, _, _, _, _, _, _, _, _, _,
    runs_of_safe nlms_safe _ trivial _ _, runs_of_safe nlms_safe _ trivial _ _,
    runs_of_safe nlms_safe _ trivial _ _, one_pos, fun _ => by norm_num, rfl⟩

/-- C37 (RLS): superposition for new filters with the same forgetting factor and the same `eps`.
(`0 < mu`, `0 < eps` keep the denominator `mu + x^T R x` positive, see C24; a numpy division by zero is not modelled by the field.) -/
theorem C37_rls {o1 o2 o3 : Obj (rls K n)} {S1 S2 S3 : ℕ → Core K n (RlsExt K n)}
    (h1 : Runs (rls K n) o1 d1 x y1 e1 S1) (h2 : Runs (rls K n) o2 d2 x y2 e2 S2)
    (h3 : Runs (rls K n) o3 (fun k => a * d1 k + b * d2 k) x y3 e3 S3)
    (hmu : 0 < o1.core.mu) (_heps : 0 < o1.core.ext.eps)
    (_hR : ∀ i j, o1.core.ext.R i j = if i = j then 1 / o1.core.ext.eps else 0)
    (hmu2 : o2.core.mu = o1.core.mu) (hmu3 : o3.core.mu = o1.core.mu)
    (hR2 : o2.core.ext.R = o1.core.ext.R) (hR3 : o3.core.ext.R = o1.core.ext.R)
    (hw : ∀ i, o3.core.w i = a * o1.core.w i + b * o2.core.w i) (k : ℕ) :
    y3 k = a * y1 k + b * y2 k ∧ e3 k = a * e1 k + b * e2 k ∧
      ∀ i, (S3 k).w i = a * (S1 k).w i + b * (S2 k).w i := by
  have m1 : Scalar.eqz o1.core.mu = false := decide_eq_false hmu.ne'
  have r1 := rls_runs m1 h1
  have r2 := rls_runs (by rw [hmu2]; exact m1) h2
  have r3 := rls_runs (by rw [hmu3]; exact m1) h3
  have hR : ∀ k, (S2 k).ext.R = (S1 k).ext.R ∧ (S3 k).ext.R = (S1 k).ext.R := by
    intro k
    induction k with
    | zero => rw [h1.1, h2.1, h3.1]; exact ⟨hR2, hR3⟩
    | succ k ih =>
      rw [(r1 k).2.2.2.2.2, (r2 k).2.2.2.2.2, (r3 k).2.2.2.2.2, ih.1, ih.2, (r1 k).1, (r2 k).1, (r3 k).1, hmu2, hmu3]
      exact ⟨rfl, rfl⟩
  refine superpose (C := rls K n) (d1 := d1) (d2 := d2) (x := x) ?_ (fun k => (r1 k).2.2.1) (fun k => (r2 k).2.2.1)
    (fun k => (r3 k).2.2.1) (fun k => (r1 k).2.2.2.1) (fun k => (r2 k).2.2.2.1) (fun k => (r3 k).2.2.2.1)
    (fun k i => matVec (rlsR o1.core.mu (S1 k).ext.R (x k)) (x k) i) ?_ ?_ ?_ k
  · intro i; rw [h1.1, h2.1, h3.1]; exact hw i
  · intro k i; rw [(r1 k).2.2.2.2.1, (r1 k).1]
  · intro k i; rw [(r2 k).2.2.2.2.1, (r2 k).1, hmu2, (hR k).1]
  · intro k i; rw [(r3 k).2.2.2.2.1, (r3 k).1, hmu3, (hR k).2]

example : ∃ (o1 o2 o3 : Obj (rls ℚ 1)) (y1 e1 y2 e2 y3 e3 : ℕ → ℚ) (S1 S2 S3 : ℕ → Core ℚ 1 (RlsExt ℚ 1)),
    Runs (rls ℚ 1) o1 (fun k => k) (fun k _ => k + 1) y1 e1 S1 ∧
    Runs (rls ℚ 1) o2 (fun _ => 7) (fun k _ => k + 1) y2 e2 S2 ∧
    Runs (rls ℚ 1) o3 (fun k => 2 * k + 3 * 7) (fun k _ => k + 1) y3 e3 S3 ∧ 0 < o1.core.mu ∧ 0 < o1.core.ext.eps ∧
    (∀ i j, o1.core.ext.R i j = if i = j then 1 / o1.core.ext.eps else 0) ∧
    (∀ i, o3.core.w i = 2 * o1.core.w i + 3 * o2.core.w i) ∧ o3.core.w 0 = 7 :=
  ⟨⟨⟨fun _ => 2, 1, 1 / 2, (⟨1, fun _ _ => 1⟩ : RlsExt ℚ 1)⟩, []⟩, ⟨⟨fun _ => 1, 1, 1 / 2, (⟨1, fun _ _ => 1⟩ : RlsExt ℚ 1)⟩, []⟩,
    ⟨⟨fun _ => 7, 1, 1 / 2, (⟨1, fun _ _ => 1⟩ : RlsExt ℚ 1)⟩, []⟩, _, _, _, _, _, _, _, _, _,
    runs_of_safe rls_safe _ (by decide +kernel) _ _, runs_of_safe rls_safe _ (by decide +kernel) _ _,
    runs_of_safe rls_safe _ (by decide +kernel) _ _, by norm_num, one_pos,
    fun i j => by simp [Subsingleton.elim i j], fun _ => by norm_num, rfl⟩

/-- C37 (AP): superposition (same inputs in the memory; remembered targets combine as well - for new filters all are 0). -/
theorem C37_ap {solve : Solver K} {order : ℕ} (ho : 0 < order) {o1 o2 o3 : Obj (ap K n solve order)}
    {S1 S2 S3 : ℕ → Core K n (ApExt K n order)} {c mu : K} (hsolve : SolveSpec solve) (hc : 0 < c)
    (h1 : Runs (ap K n solve order) o1 d1 x y1 e1 S1) (h2 : Runs (ap K n solve order) o2 d2 x y2 e2 S2)
    (h3 : Runs (ap K n solve order) o3 (fun k => a * d1 k + b * d2 k) x y3 e3 S3)
    (hc1 : o1.core.ext.ifc = c) (hc2 : o2.core.ext.ifc = c) (hc3 : o3.core.ext.ifc = c)
    (hmu1 : o1.core.mu = mu) (hmu2 : o2.core.mu = mu) (hmu3 : o3.core.mu = mu)
    (hx2 : o2.core.ext.xMem = o1.core.ext.xMem) (hx3 : o3.core.ext.xMem = o1.core.ext.xMem)
    (hd : ∀ j, o3.core.ext.dMem j = a * o1.core.ext.dMem j + b * o2.core.ext.dMem j)
    (hw : ∀ i, o3.core.w i = a * o1.core.w i + b * o2.core.w i) (k : ℕ) :
    y3 k = a * y1 k + b * y2 k ∧ e3 k = a * e1 k + b * e2 k ∧
      ∀ i, (S3 k).w i = a * (S1 k).w i + b * (S2 k).w i := by
  have sol : ∀ X : Mat K n order, ∃ P, solve order (apGram c X) (eye order) = .ok P :=
    fun X => (gram_solvable hsolve hc X).imp fun _ h => h.1
  have r1 := ap_runs ho (by rw [hc1]; exact sol) h1
  have r2 := ap_runs ho (by rw [hc2]; exact sol) h2
  have r3 := ap_runs ho (by rw [hc3]; exact sol) h3
  rw [hc1, hmu1] at r1
  rw [hc2, hmu2] at r2
  rw [hc3, hmu3] at r3
  have yc : ∀ k, (S2 k).ext.xMem = (S1 k).ext.xMem → (S3 k).ext.xMem = (S1 k).ext.xMem →
      Comb a b (S1 k).w (S2 k).w (S3 k).w →
      apX (S2 k) (x k) = apX (S1 k) (x k) ∧ apX (S3 k) (x k) = apX (S1 k) (x k) ∧
      ∀ j, apY (S3 k) (x k) j = a * apY (S1 k) (x k) j + b * apY (S2 k) (x k) j := by
    intro k hx2 hx3 hw
    have e2 : apX (S2 k) (x k) = apX (S1 k) (x k) := by unfold apX; rw [hx2]
    have e3 : apX (S3 k) (x k) = apX (S1 k) (x k) := by unfold apX; rw [hx3]
    refine ⟨e2, e3, fun j => ?_⟩
    unfold apY
    rw [e2, e3, dot_comm _ (S3 k).w, dot_comm _ (S1 k).w, dot_comm _ (S2 k).w, hw.dot]
  have ec : ∀ k, (S2 k).ext.xMem = (S1 k).ext.xMem → (S3 k).ext.xMem = (S1 k).ext.xMem →
      Comb a b (S1 k).w (S2 k).w (S3 k).w → Comb a b (S1 k).ext.dMem (S2 k).ext.dMem (S3 k).ext.dMem →
      Comb a b (apD (S1 k) (d1 k)) (apD (S2 k) (d2 k)) (apD (S3 k) (a * d1 k + b * d2 k)) ∧
      Comb a b (apE (S1 k) (d1 k) (x k)) (apE (S2 k) (d2 k) (x k)) (apE (S3 k) (a * d1 k + b * d2 k) (x k)) := by
    intro k hx2 hx3 hw hd
    have hD : Comb a b (apD (S1 k) (d1 k)) (apD (S2 k) (d2 k)) (apD (S3 k) (a * d1 k + b * d2 k)) := by
      intro j
      unfold apD shiftVec
      split_ifs
      · rfl
      · exact hd _
    refine ⟨hD, fun j => ?_⟩
    unfold apE
    rw [hD j, (yc k hx2 hx3 hw).2.2 j]
    ring
  have inv : ∀ k, (S2 k).ext.xMem = (S1 k).ext.xMem ∧ (S3 k).ext.xMem = (S1 k).ext.xMem ∧
      Comb a b (S1 k).w (S2 k).w (S3 k).w ∧ Comb a b (S1 k).ext.dMem (S2 k).ext.dMem (S3 k).ext.dMem := by
    intro k
    induction k with
    | zero => rw [h1.1, h2.1, h3.1]; exact ⟨hx2, hx3, hw, hd⟩
    | succ k ih =>
      obtain ⟨ix2, ix3, iw, id'⟩ := ih
      obtain ⟨e2, e3, -⟩ := yc k ix2 ix3 iw
      obtain ⟨hD, hE⟩ := ec k ix2 ix3 iw id'
      obtain ⟨m1, -, P1, p1, -, -, w1, x1, dm1, -⟩ := r1 k
      obtain ⟨m2, -, P2, p2, -, -, w2, x2, dm2, -⟩ := r2 k
      obtain ⟨m3, -, P3, p3, -, -, w3, x3, dm3, -⟩ := r3 k
      rw [e2, p1] at p2
      rw [e3, p1] at p3
      obtain rfl := Except.ok.inj p2
      obtain rfl := Except.ok.inj p3
      refine ⟨by rw [x1, x2, e2], by rw [x1, x3, e3], ?_, by rw [dm1, dm2, dm3]; exact hD⟩
      intro i
      rw [w1, w2, w3, m1, m2, m3, e2, e3]
      have hP : Comb a b (matVec P1 (apE (S1 k) (d1 k) (x k))) (matVec P1 (apE (S2 k) (d2 k) (x k)))
          (matVec P1 (apE (S3 k) (a * d1 k + b * d2 k) (x k))) := by
        intro j
        unfold matVec
        rw [dot_comm (P1 j), dot_comm (P1 j), dot_comm (P1 j), hE.dot]
      simp only [iw i]
      rw [dot_comm (apX (S1 k) (x k) i), dot_comm (apX (S1 k) (x k) i), dot_comm (apX (S1 k) (x k) i), hP.dot]
      ring
  obtain ⟨ix2, ix3, iw, -⟩ := inv k
  obtain ⟨-, -, hy⟩ := yc k ix2 ix3 iw
  obtain ⟨-, -, P1, -, q1, f1, -⟩ := r1 k
  obtain ⟨-, -, P2, -, q2, f2, -⟩ := r2 k
  obtain ⟨-, -, P3, -, q3, f3, -⟩ := r3 k
  have hyk : y3 k = a * y1 k + b * y2 k := by rw [q1, q2, q3, hy]
  refine ⟨hyk, ?_, iw⟩
  rw [f1, f2, f3, hyk]; ring

example : ∃ (o1 o2 o3 : Obj (ap ℝ 2 exactSolve 3)) (y1 e1 y2 e2 y3 e3 : ℕ → ℝ) (S1 S2 S3 : ℕ → Core ℝ 2 (ApExt ℝ 2 3)),
    Runs (ap ℝ 2 exactSolve 3) o1 (fun k => k) (fun k _ => k + 1) y1 e1 S1 ∧
    Runs (ap ℝ 2 exactSolve 3) o2 (fun _ => 7) (fun k _ => k + 1) y2 e2 S2 ∧
    Runs (ap ℝ 2 exactSolve 3) o3 (fun k => 2 * k + 3 * 7) (fun k _ => k + 1) y3 e3 S3 ∧
    (∀ j, o3.core.ext.dMem j = 2 * o1.core.ext.dMem j + 3 * o2.core.ext.dMem j) ∧
    (∀ i, o3.core.w i = 2 * o1.core.w i + 3 * o2.core.w i) ∧ o3.core.w 0 = 7 :=
  have safe := ap_safe (exactSolve (K := ℝ)) (order := 3) (n := 2) (by norm_num) 1
    fun X => (gram_solvable exactSolve_spec one_pos X).imp fun _ h => h.1
  ⟨⟨⟨fun _ => 2, 2, 1, (⟨1, fun _ _ => 0, fun _ => 0, fun _ => 0, fun _ => 0⟩ : ApExt ℝ 2 3)⟩, []⟩,
   ⟨⟨fun _ => 1, 2, 1, (⟨1, fun _ _ => 0, fun _ => 0, fun _ => 0, fun _ => 0⟩ : ApExt ℝ 2 3)⟩, []⟩,
   ⟨⟨fun _ => 7, 2, 1, (⟨1, fun _ _ => 0, fun _ => 0, fun _ => 0, fun _ => 0⟩ : ApExt ℝ 2 3)⟩, []⟩,
    _, _, _, _, _, _, _, _, _, runs_of_safe safe _ rfl _ _, runs_of_safe safe _ rfl _ _,
    runs_of_safe safe _ rfl _ _, fun _ => by simp, fun _ => by norm_num, rfl⟩

end
end Padasip
