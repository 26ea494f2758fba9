import Verif.Props.Consistency
import Verif.Props.Ap
import Verif.Props.Rls
import Verif.Spec.Example
import Mathlib.Order.Monotone.Basic

/-!
# C144: samples with zero input

A sample whose input vector is zero carries no information about the weights.  LMS, LMF, SSLMS, NLMS, NLMF, NSSLMS, GMCC, Llncosh and RLS
without forgetting ignore it entirely: a data set with such samples removed (or inserted) anywhere gives the same outputs, errors and
weights at all other samples.  The other filters do not.
-/

set_option linter.unusedSectionVars false
set_option linter.unusedVariables false
set_option linter.unusedSimpArgs false

namespace Padasip

open Finset

section general
variable {K : Type} [Scalar K] {n : ℕ}

/-- a state in which a sample with zero input changes nothing, a property that is kept -/
def Ignores (C : FilterClass K n) (P : Core K n C.Ext → Prop) : Prop :=
  (∀ s, P s → ∀ d : K, C.body d (List.ofFn fun _ : Fin n => (0 : K)) s = (.ok (0, d), s)) ∧
  ∀ s, P s → ∀ (d : K) (x : Vec K n), P (C.body d (List.ofFn x) s).2

theorem ignores_runs {C : FilterClass K n} {P Q : Core K n C.Ext → Prop} (hC : Ignores C P) (hsafe : Safe C Q) {o : Obj C} {d : ℕ → K} {x : ℕ → Vec K n}
    {y e : ℕ → K} {S : ℕ → Core K n C.Ext} (h : Runs C o d x y e S) (hQ : Q (o.core.withN n)) (hP : P (o.core.withN n)) (k : ℕ) : P (S k) := by
  induction k with
  | zero => rw [h.1]; exact hP
  | succ k ih =>
    have := hC.2 _ ih (d k) (x k)
    rwa [(Runs.step hsafe hQ h k).1] at this

theorem ignores_embed {C : FilterClass K n} {P Q : Core K n C.Ext → Prop} (hC : Ignores C P) (hsafe : Safe C Q) {o : Obj C} {d : ℕ → K} {x : ℕ → Vec K n}
    {y e : ℕ → K} {S : ℕ → Core K n C.Ext} (h : Runs C o d x y e S)
    {d' : ℕ → K} {x' : ℕ → Vec K n} {y' e' : ℕ → K} {S' : ℕ → Core K n C.Ext} (h' : Runs C o d' x' y' e' S')
    (hQ : Q (o.core.withN n)) (hP : P (o.core.withN n)) (σ : ℕ → ℕ) (hσ : StrictMono σ) (hd : ∀ j, d' j = d (σ j)) (hx : ∀ j, x' j = x (σ j))
    (h0 : ∀ k, (∀ j, σ j ≠ k) → ∀ i, x k i = 0) :
    (∀ N m, (∀ j, σ j < N ↔ j < m) → S N = S' m) ∧
    (∀ j, y' j = y (σ j) ∧ e' j = e (σ j) ∧ S' j = S (σ j)) ∧
    ∀ k, (∀ j, σ j ≠ k) → y k = 0 ∧ e k = d k ∧ S (k + 1) = S k := by
  have hz : ∀ k, (∀ j, σ j ≠ k) → y k = 0 ∧ e k = d k ∧ S (k + 1) = S k := by
    intro k hk
    have h1 := (Runs.step hsafe hQ h k).1
    have hx0 : x k = fun _ => 0 := funext (h0 k hk)
    rw [hx0, hC.1 _ (ignores_runs hC hsafe h hQ hP k)] at h1
    simp only [Prod.mk.injEq, Except.ok.injEq] at h1
    exact ⟨h1.1.1.symm, h1.1.2.symm, h1.2.symm⟩
  have hS : ∀ N m, (∀ j, σ j < N ↔ j < m) → S N = S' m := by
    intro N
    induction N with
    | zero =>
      intro m hm
      have : m = 0 := by
        by_contra h
        have := (hm 0).2 (by omega)
        omega
      subst this
      rw [h.1, h'.1]
    | succ N ih =>
      intro m hm
      by_cases hj : ∃ j, σ j = N
      · obtain ⟨j, rfl⟩ := hj
        have hjm : m = j + 1 := by
          have a := (hm j).1 (by omega)
          have b : ¬ j + 1 < m := fun hb => by
            have := (hm (j + 1)).2 hb
            have := hσ (show j < j + 1 by omega)
            omega
          omega
        subst hjm
        have e1 := ih j (fun i => hσ.lt_iff_lt)
        have h1 := (Runs.step hsafe hQ h (σ j)).1
        have h2 := (Runs.step hsafe hQ h' j).1
        rw [hd, hx, ← e1, h1] at h2
        simp only [Prod.mk.injEq] at h2
        exact h2.2
      · rw [(hz N (fun j hj' => hj ⟨j, hj'⟩)).2.2]
        refine ih m fun j => ?_
        rw [← hm j]
        have : σ j ≠ N := fun hj' => hj ⟨j, hj'⟩
        omega
  refine ⟨hS, fun j => ?_, hz⟩
  have e1 : S (σ j) = S' j := hS (σ j) j (fun i => hσ.lt_iff_lt)
  have h1 := (Runs.step hsafe hQ h (σ j)).1
  have h2 := (Runs.step hsafe hQ h' j).1
  rw [hd, hx, ← e1, h1] at h2
  simp only [Prod.mk.injEq, Except.ok.injEq] at h2
  exact ⟨h2.1.1.symm, h2.1.2.symm, e1.symm⟩

end general

section field
variable {K : Type} [Field K] [LinearOrder K] [IsStrictOrderedRing K] {n : ℕ}

theorem dot_zero_right' (w : Vec K n) : dot w (fun _ => (0 : K)) = 0 := by
  rw [dot_eq]; simp

theorem sgn_zero_sil : Scalar.sgn (0 : K) = (0 : K) := by
  show (if (0 : K) < 0 then (1 : K) else if (0 : K) < 0 then -1 else 0) = 0; simp

theorem lms_ignores : Ignores (lms K n) fun _ => True := by
  refine ⟨fun s _ d => ?_, fun _ _ _ _ => trivial⟩
  refine (lms_body s d _).trans ?_
  simp only [dot_zero_right', mul_zero, zero_mul, add_zero, sub_zero]

theorem lmf_ignores : Ignores (lmf K n) fun _ => True := by
  refine ⟨fun s _ d => ?_, fun _ _ _ _ => trivial⟩
  refine (lmf_body s d _).trans ?_
  simp only [dot_zero_right', mul_zero, zero_mul, add_zero, sub_zero]

theorem sslms_ignores : Ignores (sslms K n) fun _ => True := by
  refine ⟨fun s _ d => ?_, fun _ _ _ _ => trivial⟩
  refine (sslms_body s d _).trans ?_
  simp only [dot_zero_right', sgn_zero_sil, mul_zero, zero_mul, add_zero, sub_zero]

theorem nlms_silent (s : Core K n (EpsExt K)) (d : K) :
    (nlms K n).body d (List.ofFn fun _ : Fin n => (0 : K)) s = (.ok (0, d), s) := by
  refine (nlms_body s d _).trans ?_
  simp only [dot_zero_right', mul_zero, zero_mul, add_zero, sub_zero]
  rfl

theorem nlmf_silent (s : Core K n (EpsExt K)) (d : K) :
    (nlmf K n).body d (List.ofFn fun _ : Fin n => (0 : K)) s = (.ok (0, d), s) := by
  refine (nlmf_body s d _).trans ?_
  simp only [dot_zero_right', mul_zero, zero_mul, add_zero, sub_zero]
  rfl

theorem nsslms_silent (s : Core K n (EpsExt K)) (d : K) :
    (nsslms K n).body d (List.ofFn fun _ : Fin n => (0 : K)) s = (.ok (0, d), s) := by
  refine (nsslms_body s d _).trans ?_
  simp only [dot_zero_right', sgn_zero_sil, mul_zero, zero_mul, add_zero, sub_zero]
  rfl

theorem nlms_ignores : Ignores (nlms K n) fun s => (show EpsExt K from s.ext).eps ≠ 0 := by
  refine ⟨fun s _ d => ?_, fun s hs d x => ?_⟩
  · exact nlms_silent s d
  · rw [nlms_body s d x]; exact hs

theorem nlmf_ignores : Ignores (nlmf K n) fun s => (show EpsExt K from s.ext).eps ≠ 0 := by
  refine ⟨fun s _ d => ?_, fun s hs d x => ?_⟩
  · exact nlmf_silent s d
  · rw [nlmf_body s d x]; exact hs

theorem nsslms_ignores : Ignores (nsslms K n) fun s => (show EpsExt K from s.ext).eps ≠ 0 := by
  refine ⟨fun s _ d => ?_, fun s hs d x => ?_⟩
  · exact nsslms_silent s d
  · rw [nsslms_body s d x]; exact hs

theorem rlsR_zero (mu : K) (R : Mat K n n) : rlsR mu R (fun _ => 0) = fun i j => 1 / mu * R i j := by
  funext i j
  simp only [rlsR]
  have : matVec R (fun _ : Fin n => (0 : K)) = fun _ => 0 := by
    funext i; rw [matVec_eq]; simp
  simp [outer, vecMat_eq, matMul_eq, matVec_eq, dot_eq]

theorem rls_silent (s : Core K n (RlsExt K n)) (hm : s.mu ≠ 0) (d : K) :
    (rls K n).body d (List.ofFn fun _ : Fin n => (0 : K)) s
      = (.ok (0, d), { s with ext := { s.ext with R := fun i j => 1 / s.mu * s.ext.R i j } }) := by
  rw [rls_body s (by simpa [Scalar.eqz] using hm) d _]
  have hv : ∀ A : Mat K n n, matVec A (fun _ : Fin n => (0 : K)) = fun _ => 0 := by
    intro A; funext i; rw [matVec_eq]; simp
  simp only [dot_zero_right', hv, rlsR_zero, mul_zero, zero_mul, add_zero, sub_zero]

theorem rls_ignores : Ignores (rls K n) fun s => s.mu = 1 := by
  refine ⟨fun s hs d => ?_, fun s hs d x => ?_⟩
  · have hs' : s.mu = 1 := hs
    refine (rls_silent s (by rw [hs']; exact one_ne_zero) d).trans ?_
    rw [hs']
    simp only [div_one, one_mul]
    obtain ⟨w, nA, mu, ext⟩ := s
    subst hs'
    rfl
  · have hm : Scalar.eqz s.mu = false := by rw [show s.mu = 1 from hs]; simp [Scalar.eqz]
    rw [rls_body s hm d x]; exact hs

theorem gngd_silent (s : Core K n (GngdExt K n)) (d : K) :
    (gngd K n).body d (List.ofFn fun _ : Fin n => (0 : K)) s
      = (.ok (0, d), { s with ext := { s.ext with eps := s.ext.eps, lastE := d, lastX := fun _ => 0 } }) := by
  rw [gngd_body s d _]
  have h : gngdEps s d (fun _ => 0) = s.ext.eps := by
    simp [gngdEps, dot_eq]
  simp only [dot_zero_right', h, mul_zero, zero_mul, add_zero, sub_zero]

theorem mathews_silent (s : Core K n (MathewsExt K n)) (d : K) :
    (mathews K n).body d (List.ofFn fun _ : Fin n => (0 : K)) s
      = (.ok (0, d), { s with ext := { s.ext with lastE := d, lastX := fun _ => 0 } }) := by
  rw [mathews_body s d _]
  have h : mathewsMu s d (fun _ => 0) = s.ext.lastMu := by
    simp [mathewsMu, dot_eq]
  simp only [dot_zero_right', h, mul_zero, zero_mul, add_zero, sub_zero]

theorem ang_silent (s : Core K n (AngExt K n)) (d : K) :
    (ang K n).body d (List.ofFn fun _ : Fin n => (0 : K)) s
      = (.ok (0, d), { s with ext := { s.ext with lastE := d, lastMu := angMu s d, lastX := fun _ => 0, lastFi := angFi s } }) := by
  rw [ang_body s d _]
  simp only [dot_zero_right', mul_zero, zero_mul, add_zero, sub_zero]

theorem benveniste_silent (s : Core K n (BenExt K n)) (hn : s.nAttr = n) (d : K) :
    (benveniste K n).body d (List.ofFn fun _ : Fin n => (0 : K)) s
      = (.ok (0, d), { s with ext := { s.ext with lastE := d, lastMu := benMu s d, lastX := fun _ => 0, lastFi := benFi s } }) := by
  rw [benveniste_body s hn d _]
  simp only [dot_zero_right', mul_zero, zero_mul, add_zero, sub_zero]

/-! ### pauses of GNGD and VSLMS-Mathews -/

/-- two states that differ at most in the last error, and in that only if the last input is zero -/
def GngdAlike (s s' : Core K n (GngdExt K n)) : Prop :=
  s = s' ∨ s.ext.lastX = (fun _ => 0) ∧ s'.ext.lastX = (fun _ => 0) ∧ s.w = s'.w ∧ s.nAttr = s'.nAttr ∧ s.mu = s'.mu ∧
    s.ext.ro = s'.ext.ro ∧ s.ext.eps = s'.ext.eps

theorem gngd_alike {s s' : Core K n (GngdExt K n)} (h : GngdAlike s s') (d : K) (x : Vec K n) :
    (gngd K n).body d (List.ofFn x) s = (gngd K n).body d (List.ofFn x) s' := by
  rcases h with rfl | ⟨h1, h2, hw, hn, hm, hr, he⟩
  · rfl
  obtain ⟨w, nA, mu, ⟨eps, ro, le, lx⟩⟩ := s
  obtain ⟨w', nA', mu', ⟨eps', ro', le', lx'⟩⟩ := s'
  simp only at h1 h2 hw hn hm hr he
  subst h1 h2 hw hn hm hr he
  rw [gngd_body, gngd_body]
  simp only [gngdEps, dot_zero_right', mul_zero, zero_div]

/-- two states that differ at most in the last error, and in that only if the last input is zero -/
def MathewsAlike (s s' : Core K n (MathewsExt K n)) : Prop :=
  s = s' ∨ s.ext.lastX = (fun _ => 0) ∧ s'.ext.lastX = (fun _ => 0) ∧ s.w = s'.w ∧ s.nAttr = s'.nAttr ∧ s.mu = s'.mu ∧
    s.ext.ro = s'.ext.ro ∧ s.ext.lastMu = s'.ext.lastMu

theorem mathews_alike {s s' : Core K n (MathewsExt K n)} (h : MathewsAlike s s') (d : K) (x : Vec K n) :
    (mathews K n).body d (List.ofFn x) s = (mathews K n).body d (List.ofFn x) s' := by
  rcases h with rfl | ⟨h1, h2, hw, hn, hm, hr, he⟩
  · rfl
  obtain ⟨w, nA, mu, ⟨ro, le, lm, lx⟩⟩ := s
  obtain ⟨w', nA', mu', ⟨ro', le', lm', lx'⟩⟩ := s'
  simp only at h1 h2 hw hn hm hr he
  subst h1 h2 hw hn hm hr he
  rw [mathews_body, mathews_body]
  simp only [mathewsMu, dot_comm (fun _ => (0 : K)) x, dot_zero_right', mul_zero, zero_div]

/-- after the same state and the same samples, the same trajectory -/
theorem runs_same_tail {C : FilterClass K n} {P : Core K n C.Ext → Prop} (hC : Safe C P) {o : Obj C} (hP : P (o.core.withN n))
    {d d' : ℕ → K} {x x' : ℕ → Vec K n} {y e y' e' : ℕ → K} {S S' : ℕ → Core K n C.Ext} (h : Runs C o d x y e S)
    (h' : Runs C o d' x' y' e' S') (a b : ℕ)
    (hs : ∀ (c : K) (v : Vec K n), C.body c (List.ofFn v) (S a) = C.body c (List.ofFn v) (S' b))
    (hd : ∀ j, d (a + j) = d' (b + j)) (hx : ∀ j, x (a + j) = x' (b + j)) (j : ℕ) :
    y (a + j) = y' (b + j) ∧ e (a + j) = e' (b + j) ∧ S (a + j + 1) = S' (b + j + 1) := by
  have key : ∀ j, (∀ (c : K) (v : Vec K n), C.body c (List.ofFn v) (S (a + j)) = C.body c (List.ofFn v) (S' (b + j))) →
      y (a + j) = y' (b + j) ∧ e (a + j) = e' (b + j) ∧ S (a + j + 1) = S' (b + j + 1) := by
    intro j hj
    have h1 := (Runs.step hC hP h (a + j)).1
    have h2 := (Runs.step hC hP h' (b + j)).1
    rw [hd, hx, hj, h2] at h1
    simp only [Prod.mk.injEq, Except.ok.injEq] at h1
    exact ⟨h1.1.1.symm, h1.1.2.symm, h1.2.symm⟩
  induction j with
  | zero => exact key 0 hs
  | succ j ih =>
    refine key (j + 1) fun c v => ?_
    rw [show a + (j + 1) = a + j + 1 by omega, ih.2.2]; rfl

theorem runs_same_head {C : FilterClass K n} {P : Core K n C.Ext → Prop} (hC : Safe C P) {o : Obj C} (hP : P (o.core.withN n))
    {d d' : ℕ → K} {x x' : ℕ → Vec K n} {y e y' e' : ℕ → K} {S S' : ℕ → Core K n C.Ext} (h : Runs C o d x y e S)
    (h' : Runs C o d' x' y' e' S') (p : ℕ) (hd : ∀ j < p, d j = d' j) (hx : ∀ j < p, x j = x' j) : S p = S' p := by
  induction p with
  | zero => rw [h.1, h'.1]
  | succ p ih =>
    have h1 := (Runs.step hC hP h p).1
    have h2 := (Runs.step hC hP h' p).1
    rw [hd p (by omega), hx p (by omega), ih (fun j hj => hd j (by omega)) (fun j hj => hx j (by omega)), h2] at h1
    simp only [Prod.mk.injEq] at h1
    exact h1.2.symm

/-- C144 for GNGD: the length of a pause and the targets during it do not matter for what follows (only whether there was one, see
`C144_pause_matters`; `hden`: no division by zero during the pause).  Two data sets agree before sample `p`, then have `r + 1` and `r' + 1` samples with zero input, then agree again. -/
theorem C144_gngd_pause_length (o : Obj (gngd K n)) {d d' : ℕ → K} {x x' : ℕ → Vec K n} {y e y' e' : ℕ → K}
    {S S' : ℕ → Core K n (GngdExt K n)} (h : Runs (gngd K n) o d x y e S) (h' : Runs (gngd K n) o d' x' y' e' S') (p r r' : ℕ)
    (hden : (S p).ext.eps ≠ 0 ∧ (∑ l, (S p).ext.lastX l ^ 2) + (S p).ext.eps ≠ 0)
    (hd : ∀ j < p, d j = d' j) (hx : ∀ j < p, x j = x' j)
    (h0 : ∀ k, p ≤ k → k ≤ p + r → ∀ i, x k i = 0) (h0' : ∀ k, p ≤ k → k ≤ p + r' → ∀ i, x' k i = 0)
    (hd1 : ∀ j, d (p + r + 1 + j) = d' (p + r' + 1 + j)) (hx1 : ∀ j, x (p + r + 1 + j) = x' (p + r' + 1 + j)) (j : ℕ) :
    y (p + r + 1 + j) = y' (p + r' + 1 + j) ∧ e (p + r + 1 + j) = e' (p + r' + 1 + j) ∧
    (S (p + r + 1 + j)).w = (S' (p + r' + 1 + j)).w := by
  have hp := runs_same_head gngd_safe trivial h h' p hd hx
  have pause : ∀ {d : ℕ → K} {x : ℕ → Vec K n} {y e : ℕ → K} {S : ℕ → Core K n (GngdExt K n)} (h : Runs (gngd K n) o d x y e S)
      (r : ℕ) (h0 : ∀ k, p ≤ k → k ≤ p + r → ∀ i, x k i = 0),
      (S (p + r + 1)).ext.lastX = (fun _ => 0) ∧ (S (p + r + 1)).w = (S p).w ∧ (S (p + r + 1)).nAttr = (S p).nAttr ∧
      (S (p + r + 1)).mu = (S p).mu ∧ (S (p + r + 1)).ext.ro = (S p).ext.ro ∧ (S (p + r + 1)).ext.eps = (S p).ext.eps := by
    intro d x y e S h r h0
    have st : ∀ k, (∀ i, x k i = 0) → S (k + 1) = { S k with ext := { (S k).ext with eps := (S k).ext.eps, lastE := d k, lastX := fun _ => 0 } } := by
      intro k hk
      have h1 := (Runs.step gngd_safe trivial h k).1
      rw [show x k = fun _ => 0 from funext hk] at h1
      have := (gngd_silent (S k) (d k)).symm.trans h1
      exact (congrArg Prod.snd this).symm
    induction r with
    | zero =>
      rw [show p + 0 + 1 = p + 1 by omega, st p (h0 p le_rfl le_rfl)]
      exact ⟨rfl, rfl, rfl, rfl, rfl, rfl⟩
    | succ r ih =>
      have := ih fun k h1 h2 => h0 k h1 (by omega)
      rw [show p + (r + 1) + 1 = (p + r + 1) + 1 by omega, st (p + r + 1) (h0 _ (by omega) (by omega))]
      exact ⟨rfl, this.2⟩
  have a1 := pause h r h0
  have a2 := pause h' r' h0'
  have al : GngdAlike (S (p + r + 1)) (S' (p + r' + 1)) := by
    refine Or.inr ⟨a1.1, a2.1, ?_, ?_, ?_, ?_, ?_⟩
    · rw [a1.2.1, a2.2.1, hp]
    · rw [a1.2.2.1, a2.2.2.1, hp]
    · rw [a1.2.2.2.1, a2.2.2.2.1, hp]
    · rw [a1.2.2.2.2.1, a2.2.2.2.2.1, hp]
    · rw [a1.2.2.2.2.2, a2.2.2.2.2.2, hp]
  have tail := runs_same_tail gngd_safe trivial h h' (p + r + 1) (p + r' + 1) (gngd_alike al) hd1 hx1
  refine ⟨(tail j).1, (tail j).2.1, ?_⟩
  cases j with
  | zero => show (S (p + r + 1)).w = (S' (p + r' + 1)).w; rw [a1.2.1, a2.2.1, hp]
  | succ j => exact congrArg Core.w (tail j).2.2

/-- C144 for VSLMS-Mathews: the length of a pause and the targets during it do not matter for what follows. -/
theorem C144_mathews_pause_length (o : Obj (mathews K n)) {d d' : ℕ → K} {x x' : ℕ → Vec K n} {y e y' e' : ℕ → K}
    {S S' : ℕ → Core K n (MathewsExt K n)} (h : Runs (mathews K n) o d x y e S) (h' : Runs (mathews K n) o d' x' y' e' S') (p r r' : ℕ)
    (hd : ∀ j < p, d j = d' j) (hx : ∀ j < p, x j = x' j)
    (h0 : ∀ k, p ≤ k → k ≤ p + r → ∀ i, x k i = 0) (h0' : ∀ k, p ≤ k → k ≤ p + r' → ∀ i, x' k i = 0)
    (hd1 : ∀ j, d (p + r + 1 + j) = d' (p + r' + 1 + j)) (hx1 : ∀ j, x (p + r + 1 + j) = x' (p + r' + 1 + j)) (j : ℕ) :
    y (p + r + 1 + j) = y' (p + r' + 1 + j) ∧ e (p + r + 1 + j) = e' (p + r' + 1 + j) ∧
    (S (p + r + 1 + j)).w = (S' (p + r' + 1 + j)).w := by
  have hp := runs_same_head mathews_safe trivial h h' p hd hx
  have pause : ∀ {d : ℕ → K} {x : ℕ → Vec K n} {y e : ℕ → K} {S : ℕ → Core K n (MathewsExt K n)} (h : Runs (mathews K n) o d x y e S)
      (r : ℕ) (h0 : ∀ k, p ≤ k → k ≤ p + r → ∀ i, x k i = 0),
      (S (p + r + 1)).ext.lastX = (fun _ => 0) ∧ (S (p + r + 1)).w = (S p).w ∧ (S (p + r + 1)).nAttr = (S p).nAttr ∧
      (S (p + r + 1)).mu = (S p).mu ∧ (S (p + r + 1)).ext.ro = (S p).ext.ro ∧ (S (p + r + 1)).ext.lastMu = (S p).ext.lastMu := by
    intro d x y e S h r h0
    have st : ∀ k, (∀ i, x k i = 0) → S (k + 1) = { S k with ext := { (S k).ext with lastE := d k, lastX := fun _ => 0 } } := by
      intro k hk
      have h1 := (Runs.step mathews_safe trivial h k).1
      rw [show x k = fun _ => 0 from funext hk] at h1
      have := (mathews_silent (S k) (d k)).symm.trans h1
      exact (congrArg Prod.snd this).symm
    induction r with
    | zero =>
      rw [show p + 0 + 1 = p + 1 by omega, st p (h0 p le_rfl le_rfl)]
      exact ⟨rfl, rfl, rfl, rfl, rfl, rfl⟩
    | succ r ih =>
      have := ih fun k h1 h2 => h0 k h1 (by omega)
      rw [show p + (r + 1) + 1 = (p + r + 1) + 1 by omega, st (p + r + 1) (h0 _ (by omega) (by omega))]
      exact ⟨rfl, this.2⟩
  have a1 := pause h r h0
  have a2 := pause h' r' h0'
  have al : MathewsAlike (S (p + r + 1)) (S' (p + r' + 1)) := by
    refine Or.inr ⟨a1.1, a2.1, ?_, ?_, ?_, ?_, ?_⟩
    · rw [a1.2.1, a2.2.1, hp]
    · rw [a1.2.2.1, a2.2.2.1, hp]
    · rw [a1.2.2.2.1, a2.2.2.2.1, hp]
    · rw [a1.2.2.2.2.1, a2.2.2.2.2.1, hp]
    · rw [a1.2.2.2.2.2, a2.2.2.2.2.2, hp]
  have tail := runs_same_tail mathews_safe trivial h h' (p + r + 1) (p + r' + 1) (mathews_alike al) hd1 hx1
  refine ⟨(tail j).1, (tail j).2.1, ?_⟩
  cases j with
  | zero => show (S (p + r + 1)).w = (S' (p + r' + 1)).w; rw [a1.2.1, a2.2.1, hp]
  | succ j => exact congrArg Core.w (tail j).2.2

end field

section real
variable {n : ℕ}

/-- the filters that ignore samples with zero input, with what they need for it -/
def IgnoresSilence (solve : Solver ℝ) : (k : Kind) → Core ℝ n (classOf (n := n) solve k).Ext → Prop
  | .lms, _ | .lmf, _ | .sslms, _ | .gmcc, _ | .llncosh, _ => True
  | .nlms, s | .nlmf, s | .nsslms, s => (show EpsExt ℝ from s.ext).eps ≠ 0
  | .rls, s => s.mu = 1
  | _, _ => False

theorem gmcc_ignores : Ignores (gmcc ℝ n) fun _ => True := by
  refine ⟨fun s _ d => ?_, fun _ _ _ _ => trivial⟩
  refine (gmcc_body s d _).trans ?_
  simp only [dot_zero_right', mul_zero, zero_mul, add_zero, sub_zero]

theorem llncosh_ignores : Ignores (llncosh ℝ n) fun _ => True := by
  refine ⟨fun s _ d => ?_, fun _ _ _ _ => trivial⟩
  refine (llncosh_body s d _).trans ?_
  simp only [dot_zero_right', mul_zero, zero_mul, add_zero, sub_zero]

/-- C144: two runs of the same filter, the second on data in which samples with zero input were left out (`σ j` is the place in the first
data set of the `j`-th sample of the second; the samples left out may have any targets).  Outputs, errors, weights and all other
attributes agree at the common samples, and at the end: after `N` samples of the first the state is that after the `m` samples of the second
among them.  At a sample left out the output is 0, the error the target, and no attribute changes. -/
theorem C144_silence_removable (solve : Solver ℝ) (k : Kind) (o : Obj (classOf (n := n) solve k)) (hk : IgnoresSilence solve k o.core)
    {d d' : ℕ → ℝ} {x x' : ℕ → Vec ℝ n} {y e y' e' : ℕ → ℝ} {S S' : ℕ → Core ℝ n (classOf (n := n) solve k).Ext}
    (h : Runs (classOf solve k) o d x y e S) (h' : Runs (classOf solve k) o d' x' y' e' S')
    (σ : ℕ → ℕ) (hσ : StrictMono σ) (hd : ∀ j, d' j = d (σ j)) (hx : ∀ j, x' j = x (σ j))
    (h0 : ∀ i, (∀ j, σ j ≠ i) → ∀ l, x i l = 0) :
    (∀ j, y' j = y (σ j) ∧ e' j = e (σ j) ∧ S' j = S (σ j)) ∧
    (∀ N m, (∀ j, σ j < N ↔ j < m) → S N = S' m) ∧
    ∀ i, (∀ j, σ j ≠ i) → y i = 0 ∧ e i = d i ∧ S (i + 1) = S i := by
  have fin : ∀ {A B C : Prop}, A ∧ B ∧ C → B ∧ A ∧ C := fun h => ⟨h.2.1, h.1, h.2.2⟩
  cases k
  case lms => exact fin (ignores_embed lms_ignores lms_safe h h' trivial trivial σ hσ hd hx h0)
  case lmf => exact fin (ignores_embed lmf_ignores lmf_safe h h' trivial trivial σ hσ hd hx h0)
  case sslms => exact fin (ignores_embed sslms_ignores sslms_safe h h' trivial trivial σ hσ hd hx h0)
  case nlms => exact fin (ignores_embed nlms_ignores nlms_safe h h' trivial hk σ hσ hd hx h0)
  case nlmf => exact fin (ignores_embed nlmf_ignores nlmf_safe h h' trivial hk σ hσ hd hx h0)
  case nsslms => exact fin (ignores_embed nsslms_ignores nsslms_safe h h' trivial hk σ hσ hd hx h0)
  case gmcc => exact fin (ignores_embed gmcc_ignores gmcc_safe h h' trivial trivial σ hσ hd hx h0)
  case llncosh => exact fin (ignores_embed llncosh_ignores llncosh_safe h h' trivial trivial σ hσ hd hx h0)
  case rls =>
    have hm : o.core.mu = 1 := hk
    exact fin (ignores_embed rls_ignores rls_safe h h' (by show Scalar.eqz o.core.mu = false; rw [hm]; simp [Scalar.eqz]) hm σ hσ hd hx h0)
  all_goals exact absurd hk id

/-- no division by zero at a sample with zero input (numpy would compute `0/0`, the totalised division of the model would not notice) -/
def SilentDenOk (solve : Solver ℝ) : (k : Kind) → Core ℝ n (classOf (n := n) solve k).Ext → Prop
  | .nlms, s | .nlmf, s | .nsslms, s => (show EpsExt ℝ from s.ext).eps ≠ 0
  | .gngd, s => (show GngdExt ℝ n from s.ext).eps ≠ 0 ∧
      (∑ l, (show GngdExt ℝ n from s.ext).lastX l ^ 2) + (show GngdExt ℝ n from s.ext).eps ≠ 0
  | _, _ => True

/-- C144: at a sample with zero input every filter but AP and OCNLMS outputs 0, reports the target as error and leaves its weights alone. -/
theorem C144_silent_sample (solve : Solver ℝ) (k : Kind) (hap : ∀ q, k ≠ .ap q) (hoc : k ≠ .ocnlms)
    (o : Obj (classOf (n := n) solve k)) (hr : Ready solve k (o.core.withN n))
    {d : ℕ → ℝ} {x : ℕ → Vec ℝ n} {y e : ℕ → ℝ} {S : ℕ → Core ℝ n (classOf (n := n) solve k).Ext}
    (h : Runs (classOf solve k) o d x y e S) (i : ℕ) (hi : ∀ l, x i l = 0) (hden : SilentDenOk solve k (S i)) :
    y i = 0 ∧ e i = d i ∧ (S (i + 1)).w = (S i).w := by
  obtain ⟨h1, h2, hn⟩ := Runs.step (ready_safe solve k) hr h i
  rw [show x i = fun _ => 0 from funext hi] at h1
  have key : ∀ {X : Type} (T T' S' : Core ℝ n X) (y e d : ℝ), ((Except.ok (0, d), T) : Except Err (ℝ × ℝ) × Core ℝ n X) = (Except.ok (y, e), S') → T.w = T'.w →
      y = 0 ∧ e = d ∧ S'.w = T'.w := by
    intro X T T' S' y e d h hw
    simp only [Prod.mk.injEq, Except.ok.injEq] at h
    exact ⟨h.1.1.symm, h.1.2.symm, by rw [← h.2, hw]⟩
  cases k
  case lms => exact key _ _ _ _ _ _ ((lms_ignores.1 (S i) trivial (d i)).symm.trans h1) rfl
  case lmf => exact key _ _ _ _ _ _ ((lmf_ignores.1 (S i) trivial (d i)).symm.trans h1) rfl
  case sslms => exact key _ _ _ _ _ _ ((sslms_ignores.1 (S i) trivial (d i)).symm.trans h1) rfl
  case nlms => exact key _ _ _ _ _ _ ((nlms_silent (S i) (d i)).symm.trans h1) rfl
  case nlmf => exact key _ _ _ _ _ _ ((nlmf_silent (S i) (d i)).symm.trans h1) rfl
  case nsslms => exact key _ _ _ _ _ _ ((nsslms_silent (S i) (d i)).symm.trans h1) rfl
  case gmcc => exact key _ _ _ _ _ _ ((gmcc_ignores.1 (S i) trivial (d i)).symm.trans h1) rfl
  case llncosh => exact key _ _ _ _ _ _ ((llncosh_ignores.1 (S i) trivial (d i)).symm.trans h1) rfl
  case gngd => exact key _ _ _ _ _ _ ((gngd_silent (S i) (d i)).symm.trans h1) rfl
  case mathews => exact key _ _ _ _ _ _ ((mathews_silent (S i) (d i)).symm.trans h1) rfl
  case ang => exact key _ _ _ _ _ _ ((ang_silent (S i) (d i)).symm.trans h1) rfl
  case benveniste => exact key _ _ _ _ _ _ ((benveniste_silent (S i) hn (d i)).symm.trans h1) rfl
  case rls =>
    have hm : (S i).mu ≠ 0 := by
      have : Scalar.eqz (S i).mu = false := h2
      simpa [Scalar.eqz] using this
    exact key _ _ _ _ _ _ ((rls_silent (S i) hm (d i)).symm.trans h1) rfl
  case ocnlms => exact absurd rfl hoc
  case ap q => exact absurd rfl (hap q)

end real

/-! ### what the other filters do with a pause -/

/-- the hypotheses of `C144_silence_removable`: every second sample of the first data set has zero input (zero-stuffing) -/
example : ∃ (o : Obj (nlms ℝ 2)) (d d' : ℕ → ℝ) (x x' : ℕ → Vec ℝ 2) (y e y' e' : ℕ → ℝ) (S S' : ℕ → Core ℝ 2 (nlms ℝ 2).Ext) (σ : ℕ → ℕ),
    IgnoresSilence exactSolve .nlms o.core ∧ Runs (nlms ℝ 2) o d x y e S ∧ Runs (nlms ℝ 2) o d' x' y' e' S' ∧ StrictMono σ ∧
    (∀ j, d' j = d (σ j)) ∧ (∀ j, x' j = x (σ j)) ∧ (∀ i, (∀ j, σ j ≠ i) → ∀ l, x i l = 0) ∧ x 0 ≠ 0 ∧ ∃ i, ∀ j, σ j ≠ i :=
  ⟨⟨⟨fun _ => 0, 2, 1, (⟨1⟩ : EpsExt ℝ)⟩, []⟩, fun k => k, fun k => ((2 * k : ℕ) : ℝ),
    fun k _ => if k % 2 = 0 then 1 else 0, fun _ _ => 1, _, _, _, _, _, _, fun j => 2 * j,
    one_ne_zero, runs_of_safe nlms_safe _ trivial _ _, runs_of_safe nlms_safe _ trivial _ _,
    fun a b h => by show 2 * a < 2 * b; omega, fun j => rfl, fun j => by funext l; simp,
    fun i hi l => by
      have : i % 2 ≠ 0 := fun h => hi (i / 2) (by show 2 * (i / 2) = i; omega)
      simp [this],
    fun h => by have := congrFun h 0; simp at this, 1, fun j => by show 2 * j ≠ 1; omega⟩

/-- last weight of a run with one weight -/
def lastW (r : Except Err (List ℚ × List ℚ × List (List ℚ))) : Option (List ℚ) :=
  match r with
  | .ok (_, _, H) => H.getLast?
  | .error _ => none

/-- C144: for the filters with an adaptive step (or adaptive regularisation) a pause matters although the weights do not move during it:
the same samples without and with one zero-input sample in between give different weights afterwards. -/
theorem C144_pause_matters :
    (let o : Obj (gngd ℚ 1) := ⟨⟨fun _ => 0, 1, 1, (⟨1, 1, 0, fun _ => 0⟩ : GngdExt ℚ 1)⟩, []⟩
     lastW (run (gngd ℚ 1) [1, 1, 1] [[1], [1], [1]] o).1 ≠ lastW (run (gngd ℚ 1) [1, 0, 1, 1] [[1], [0], [1], [1]] o).1) ∧
    (let o : Obj (mathews ℚ 1) := ⟨⟨fun _ => 0, 1, 1, (⟨1, 0, fun _ => 0, 1 / 2⟩ : MathewsExt ℚ 1)⟩, []⟩
     lastW (run (mathews ℚ 1) [1, 1, 1] [[1], [1], [1]] o).1 ≠ lastW (run (mathews ℚ 1) [1, 0, 1, 1] [[1], [0], [1], [1]] o).1) ∧
    (let o : Obj (ang ℚ 1) := ⟨⟨fun _ => 0, 1, 1, (⟨1, 1, 0, fun _ => 0, fun _ => 0, 1 / 2⟩ : AngExt ℚ 1)⟩, []⟩
     lastW (run (ang ℚ 1) [1, 1, 1] [[1], [1], [1]] o).1 ≠ lastW (run (ang ℚ 1) [1, 0, 1, 1] [[1], [0], [1], [1]] o).1) ∧
    (let o : Obj (benveniste ℚ 1) := ⟨⟨fun _ => 0, 1, 1, (⟨1, 0, fun _ => 0, fun _ => 0, 1 / 2⟩ : BenExt ℚ 1)⟩, []⟩
     lastW (run (benveniste ℚ 1) [1, 1, 1] [[1], [1], [1]] o).1
      ≠ lastW (run (benveniste ℚ 1) [1, 0, 1, 1] [[1], [0], [1], [1]] o).1) ∧
    (let o : Obj (rls ℚ 1) := ⟨⟨fun _ => 0, 1, 1 / 2, (⟨1, fun _ _ => 1⟩ : RlsExt ℚ 1)⟩, []⟩
     lastW (run (rls ℚ 1) [1, 1, 1] [[1], [1], [1]] o).1 ≠ lastW (run (rls ℚ 1) [1, 0, 1, 1] [[1], [0], [1], [1]] o).1) := by
  decide +kernel

/-- C144: AP (order 2) and OCNLMS even move their weights at a sample with zero input, because of the samples they remember; OCNLMS does not
output 0 there.  (The matrices AP has to invert here are diagonal, where `ratSolve` is exact.) -/
theorem C144_memory_filters_move :
    (let o : Obj (ap ℚ 1 ratSolve 2) := ⟨⟨fun _ => 0, 1, 1, (⟨1, fun _ _ => 0, fun _ => 0, fun _ => 0, fun _ => 0⟩ : ApExt ℚ 1 2)⟩, []⟩
     (run (ap ℚ 1 ratSolve 2) [1, 0, 0] [[1], [0], [0]] o).1 = .ok ([0, 0, 0], [1, 0, 0], [[0], [1 / 2], [3 / 4]])) ∧
    (run (ocnlms ℚ 1) [1, 0, 0] [[1], [0], [0]] (ocFresh 4)).1
      = .ok ([0, 11 / 30, 128 / 765], [1, -11 / 30, -128 / 765], [[0], [2 / 5], [124 / 255]]) := by
  decide +kernel

/-- the hypotheses of `C144_gngd_pause_length`: a pause of two samples and one of three, with different targets -/
example : ∃ (o : Obj (gngd ℚ 1)) (d d' : ℕ → ℚ) (x x' : ℕ → Vec ℚ 1) (y e y' e' : ℕ → ℚ) (S S' : ℕ → Core ℚ 1 (GngdExt ℚ 1)),
    Runs (gngd ℚ 1) o d x y e S ∧ Runs (gngd ℚ 1) o d' x' y' e' S' ∧
    ((S 1).ext.eps ≠ 0 ∧ (∑ l, (S 1).ext.lastX l ^ 2) + (S 1).ext.eps ≠ 0) ∧
    (∀ j < 1, d j = d' j) ∧ (∀ j < 1, x j = x' j) ∧ (∀ k, 1 ≤ k → k ≤ 1 + 1 → ∀ i, x k i = 0) ∧
    (∀ k, 1 ≤ k → k ≤ 1 + 2 → ∀ i, x' k i = 0) ∧ (∀ j, d (1 + 1 + 1 + j) = d' (1 + 2 + 1 + j)) ∧
    (∀ j, x (1 + 1 + 1 + j) = x' (1 + 2 + 1 + j)) ∧ d 1 ≠ d' 1 := by
  refine ⟨⟨⟨fun _ => 0, 1, 1, (⟨1, 1, 0, fun _ => 0⟩ : GngdExt ℚ 1)⟩, []⟩, fun k => if k = 1 then 5 else 1, fun k => 1,
    fun k _ => if 1 ≤ k ∧ k ≤ 2 then 0 else 1, fun k _ => if 1 ≤ k ∧ k ≤ 3 then 0 else 1, _, _, _, _, _, _,
    runs_of_safe gngd_safe _ trivial _ _, runs_of_safe gngd_safe _ trivial _ _, by decide +kernel, by decide, ?_, ?_, ?_, ?_, ?_, by norm_num⟩
  · intro j hj; funext l; rw [show j = 0 by omega]; rfl
  · intro k h1 h2 i; exact if_pos ⟨h1, h2⟩
  · intro k h1 h2 i; exact if_pos ⟨h1, h2⟩
  · intro j; exact if_neg (by omega)
  · intro j; funext l; simp only; rw [if_neg (by omega), if_neg (by omega)]

end Padasip
