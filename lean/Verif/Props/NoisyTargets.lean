import Verif.Props.Linear
import Verif.Props.Rls
import Verif.Props.Stability
import Verif.Props.RandomConv
import Verif.Props.Excitation
import Mathlib.MeasureTheory.Function.L2Space

/-!
# C124: given inputs, random targets
-/

set_option linter.unusedSectionVars false
set_option linter.unusedSimpArgs false
set_option linter.unusedVariables false

namespace Padasip

open Finset MeasureTheory

section mean
variable {Ω : Type} {mΩ : MeasurableSpace Ω} {P : Measure Ω} [IsProbabilityMeasure P]

/-- `f` is a random quantity with mean `a`. -/
def HasMean (P : Measure Ω) (f : Ω → ℝ) (a : ℝ) : Prop := Integrable f P ∧ ∫ ω, f ω ∂P = a

theorem HasMean.add {f g : Ω → ℝ} {a b : ℝ} (hf : HasMean P f a) (hg : HasMean P g b) : HasMean P (fun ω => f ω + g ω) (a + b) :=
  ⟨hf.1.add hg.1, by rw [integral_add hf.1 hg.1, hf.2, hg.2]⟩

theorem HasMean.sub {f g : Ω → ℝ} {a b : ℝ} (hf : HasMean P f a) (hg : HasMean P g b) : HasMean P (fun ω => f ω - g ω) (a - b) :=
  ⟨hf.1.sub hg.1, by rw [integral_sub hf.1 hg.1, hf.2, hg.2]⟩

theorem HasMean.const_mul {f : Ω → ℝ} {a : ℝ} (hf : HasMean P f a) (c : ℝ) : HasMean P (fun ω => c * f ω) (c * a) :=
  ⟨hf.1.const_mul c, by rw [integral_const_mul, hf.2]⟩

theorem HasMean.mul_const {f : Ω → ℝ} {a : ℝ} (hf : HasMean P f a) (c : ℝ) : HasMean P (fun ω => f ω * c) (a * c) :=
  ⟨hf.1.mul_const c, by rw [integral_mul_const, hf.2]⟩

theorem HasMean.sum {ι : Type} {s : Finset ι} {f : ι → Ω → ℝ} {a : ι → ℝ} (hf : ∀ i ∈ s, HasMean P (f i) (a i)) :
    HasMean P (fun ω => ∑ i ∈ s, f i ω) (∑ i ∈ s, a i) :=
  ⟨integrable_finsetSum _ fun i hi => (hf i hi).1, by rw [integral_finsetSum _ fun i hi => (hf i hi).1]; exact sum_congr rfl fun i hi => (hf i hi).2⟩

theorem HasMean.dot {n : ℕ} {f : Ω → Vec ℝ n} {a : Vec ℝ n} (hf : ∀ i, HasMean P (fun ω => f ω i) (a i)) (c : Vec ℝ n) :
    HasMean P (fun ω => Padasip.dot (f ω) c) (Padasip.dot a c) := by
  simp only [dot_eq]
  exact HasMean.sum fun i _ => (hf i).mul_const (c i)

theorem HasMean.dot' {n : ℕ} {f : Ω → Vec ℝ n} {a : Vec ℝ n} (hf : ∀ i, HasMean P (fun ω => f ω i) (a i)) (c : Vec ℝ n) :
    HasMean P (fun ω => Padasip.dot c (f ω)) (Padasip.dot c a) := by
  simp only [dot_eq]
  exact HasMean.sum fun i _ => (hf i).const_mul (c i)

variable {n : ℕ} {d : Ω → ℕ → ℝ} {db : ℕ → ℝ} {x : ℕ → Vec ℝ n} {y e : Ω → ℕ → ℝ} {yb eb : ℕ → ℝ}

/-- C124 (LMS): for given inputs, the means of the reported outputs, errors and weights of a run on random targets from a random start are the outputs, errors and weights of
the run on the mean targets from the mean start.  Nothing is assumed about the dependence of the targets on each other and on the start. -/
theorem C124_mean_lms {o : Ω → Obj (lms ℝ n)} {ob : Obj (lms ℝ n)} {S : Ω → ℕ → Core ℝ n Unit} {Sb : ℕ → Core ℝ n Unit}
    (h : ∀ ω, Runs (lms ℝ n) (o ω) (d ω) x (y ω) (e ω) (S ω)) (hb : Runs (lms ℝ n) ob db x yb eb Sb)
    (hmu : ∀ ω, (o ω).core.mu = ob.core.mu) (hw : ∀ i, HasMean P (fun ω => (o ω).core.w i) (ob.core.w i))
    (hd : ∀ k, HasMean P (fun ω => d ω k) (db k)) (k : ℕ) :
    HasMean P (fun ω => y ω k) (yb k) ∧ HasMean P (fun ω => e ω k) (eb k) ∧ ∀ i, HasMean P (fun ω => (S ω k).w i) ((Sb k).w i) := by
  have step : ∀ k, (∀ i, HasMean P (fun ω => (S ω k).w i) ((Sb k).w i)) → HasMean P (fun ω => y ω k) (yb k) ∧ HasMean P (fun ω => e ω k) (eb k) := by
    intro k hk
    have hy : HasMean P (fun ω => y ω k) (yb k) := by
      rw [(lms_runs hb k).2.2.1, show (fun ω => y ω k) = fun ω => dot (S ω k).w (x k) from funext fun ω => (lms_runs (h ω) k).2.2.1]
      exact HasMean.dot hk (x k)
    refine ⟨hy, ?_⟩
    rw [(lms_runs hb k).2.2.2.1, show (fun ω => e ω k) = fun ω => d ω k - y ω k from funext fun ω => (lms_runs (h ω) k).2.2.2.1]
    exact (hd k).sub hy
  have inv : ∀ k i, HasMean P (fun ω => (S ω k).w i) ((Sb k).w i) := by
    intro k
    induction k with
    | zero =>
      intro i
      rw [hb.1]
      simp only [(h _).1]
      exact hw i
    | succ k ih =>
      intro i
      obtain ⟨m1, -, -, -, w1⟩ := lms_runs hb k
      rw [w1, show (fun ω => (S ω (k + 1)).w i) = fun ω => (S ω k).w i + ob.core.mu * x k i * e ω k from funext fun ω => by
        obtain ⟨m2, -, -, -, w2⟩ := lms_runs (h ω) k
        rw [w2, m2, hmu]]
      rw [m1]
      exact (ih i).add ((step k ih).2.const_mul _)
  exact ⟨(step k (inv k)).1, (step k (inv k)).2, inv k⟩

/-- C124 (NLMS). -/
theorem C124_mean_nlms {o : Ω → Obj (nlms ℝ n)} {ob : Obj (nlms ℝ n)} {S : Ω → ℕ → Core ℝ n (EpsExt ℝ)} {Sb : ℕ → Core ℝ n (EpsExt ℝ)}
    (h : ∀ ω, Runs (nlms ℝ n) (o ω) (d ω) x (y ω) (e ω) (S ω)) (hb : Runs (nlms ℝ n) ob db x yb eb Sb) (_heps : 0 < ob.core.ext.eps)
    (hmu : ∀ ω, (o ω).core.mu = ob.core.mu ∧ (o ω).core.ext.eps = ob.core.ext.eps) (hw : ∀ i, HasMean P (fun ω => (o ω).core.w i) (ob.core.w i))
    (hd : ∀ k, HasMean P (fun ω => d ω k) (db k)) (k : ℕ) :
    HasMean P (fun ω => y ω k) (yb k) ∧ HasMean P (fun ω => e ω k) (eb k) ∧ ∀ i, HasMean P (fun ω => (S ω k).w i) ((Sb k).w i) := by
  have step : ∀ k, (∀ i, HasMean P (fun ω => (S ω k).w i) ((Sb k).w i)) → HasMean P (fun ω => y ω k) (yb k) ∧ HasMean P (fun ω => e ω k) (eb k) := by
    intro k hk
    have hy : HasMean P (fun ω => y ω k) (yb k) := by
      rw [(nlms_runs hb k).2.2.1, show (fun ω => y ω k) = fun ω => dot (S ω k).w (x k) from funext fun ω => (nlms_runs (h ω) k).2.2.1]
      exact HasMean.dot hk (x k)
    refine ⟨hy, ?_⟩
    rw [(nlms_runs hb k).2.2.2.1, show (fun ω => e ω k) = fun ω => d ω k - y ω k from funext fun ω => (nlms_runs (h ω) k).2.2.2.1]
    exact (hd k).sub hy
  have inv : ∀ k i, HasMean P (fun ω => (S ω k).w i) ((Sb k).w i) := by
    intro k
    induction k with
    | zero =>
      intro i
      rw [hb.1]
      simp only [(h _).1]
      exact hw i
    | succ k ih =>
      intro i
      obtain ⟨m1, x1, -, -, w1⟩ := nlms_runs hb k
      rw [w1, show (fun ω => (S ω (k + 1)).w i) = fun ω => (S ω k).w i + ob.core.mu / (ob.core.ext.eps + dot (x k) (x k)) * x k i * e ω k from funext fun ω => by
        obtain ⟨m2, x2, -, -, w2⟩ := nlms_runs (h ω) k
        rw [w2, m2, x2, (hmu ω).1, (hmu ω).2]]
      rw [m1, x1]
      exact (ih i).add ((step k ih).2.const_mul _)
  exact ⟨(step k (inv k)).1, (step k (inv k)).2, inv k⟩

/-- C124 (RLS), for filters with the same `mu > 0` and the same matrix `R`. -/
theorem C124_mean_rls {o : Ω → Obj (rls ℝ n)} {ob : Obj (rls ℝ n)} {S : Ω → ℕ → Core ℝ n (RlsExt ℝ n)} {Sb : ℕ → Core ℝ n (RlsExt ℝ n)}
    (h : ∀ ω, Runs (rls ℝ n) (o ω) (d ω) x (y ω) (e ω) (S ω)) (hb : Runs (rls ℝ n) ob db x yb eb Sb) (hmu0 : 0 < ob.core.mu) (_heps : 0 < ob.core.ext.eps)
    (_hR : ∀ i j, ob.core.ext.R i j = if i = j then 1 / ob.core.ext.eps else 0)
    (hmu : ∀ ω, (o ω).core.mu = ob.core.mu ∧ (o ω).core.ext.R = ob.core.ext.R) (hw : ∀ i, HasMean P (fun ω => (o ω).core.w i) (ob.core.w i))
    (hd : ∀ k, HasMean P (fun ω => d ω k) (db k)) (k : ℕ) :
    HasMean P (fun ω => y ω k) (yb k) ∧ HasMean P (fun ω => e ω k) (eb k) ∧ (∀ i, HasMean P (fun ω => (S ω k).w i) ((Sb k).w i)) ∧
      ∀ ω, (S ω k).ext.R = (Sb k).ext.R := by
  have hz : Scalar.eqz ob.core.mu = false := by
    show decide (ob.core.mu = 0) = false
    simp [hmu0.ne']
  have hz' : ∀ ω, Scalar.eqz (o ω).core.mu = false := fun ω => by rw [(hmu ω).1]; exact hz
  have hRk : ∀ k ω, (S ω k).ext.R = (Sb k).ext.R := by
    intro k ω
    induction k with
    | zero => rw [(h ω).1, hb.1]; exact (hmu ω).2
    | succ k ih =>
      obtain ⟨m1, -, -, -, -, r1⟩ := rls_runs hz hb k
      obtain ⟨m2, -, -, -, -, r2⟩ := rls_runs (hz' ω) (h ω) k
      rw [r1, r2, m1, m2, ih, (hmu ω).1]
  have step : ∀ k, (∀ i, HasMean P (fun ω => (S ω k).w i) ((Sb k).w i)) → HasMean P (fun ω => y ω k) (yb k) ∧ HasMean P (fun ω => e ω k) (eb k) := by
    intro k hk
    have hy : HasMean P (fun ω => y ω k) (yb k) := by
      rw [(rls_runs hz hb k).2.2.1, show (fun ω => y ω k) = fun ω => dot (S ω k).w (x k) from funext fun ω => (rls_runs (hz' ω) (h ω) k).2.2.1]
      exact HasMean.dot hk (x k)
    refine ⟨hy, ?_⟩
    rw [(rls_runs hz hb k).2.2.2.1, show (fun ω => e ω k) = fun ω => d ω k - y ω k from funext fun ω => (rls_runs (hz' ω) (h ω) k).2.2.2.1]
    exact (hd k).sub hy
  have inv : ∀ k i, HasMean P (fun ω => (S ω k).w i) ((Sb k).w i) := by
    intro k
    induction k with
    | zero =>
      intro i
      rw [hb.1]
      simp only [(h _).1]
      exact hw i
    | succ k ih =>
      intro i
      obtain ⟨m1, -, -, -, w1, -⟩ := rls_runs hz hb k
      rw [w1, show (fun ω => (S ω (k + 1)).w i) = fun ω => (S ω k).w i + matVec (rlsR (Sb k).mu (Sb k).ext.R (x k)) (x k) i * e ω k from funext fun ω => by
        obtain ⟨m2, -, -, -, w2, -⟩ := rls_runs (hz' ω) (h ω) k
        rw [w2, m2, hRk, m1, (hmu ω).1]]
      exact (ih i).add ((step k ih).2.const_mul _)
  exact ⟨(step k (inv k)).1, (step k (inv k)).2, inv k, hRk k⟩

/-- C124 (AP), for filters with the same `mu`, the same `ifc > 0`, the same remembered inputs. -/
theorem C124_mean_ap {solve : Solver ℝ} {order : ℕ} (hor : 0 < order) (hsolve : SolveSpec solve) {o : Ω → Obj (ap ℝ n solve order)} {ob : Obj (ap ℝ n solve order)}
    {S : Ω → ℕ → Core ℝ n (ApExt ℝ n order)} {Sb : ℕ → Core ℝ n (ApExt ℝ n order)}
    (h : ∀ ω, Runs (ap ℝ n solve order) (o ω) (d ω) x (y ω) (e ω) (S ω)) (hb : Runs (ap ℝ n solve order) ob db x yb eb Sb) (hifc : 0 < ob.core.ext.ifc)
    (hmu : ∀ ω, (o ω).core.mu = ob.core.mu ∧ (o ω).core.ext.ifc = ob.core.ext.ifc ∧ (o ω).core.ext.xMem = ob.core.ext.xMem)
    (hw : ∀ i, HasMean P (fun ω => (o ω).core.w i) (ob.core.w i)) (hdm : ∀ j, HasMean P (fun ω => (o ω).core.ext.dMem j) (ob.core.ext.dMem j))
    (hd : ∀ k, HasMean P (fun ω => d ω k) (db k)) (k : ℕ) :
    HasMean P (fun ω => y ω k) (yb k) ∧ HasMean P (fun ω => e ω k) (eb k) ∧ ∀ i, HasMean P (fun ω => (S ω k).w i) ((Sb k).w i) := by
  have sol : ∀ X : Mat ℝ n order, ∃ Q, solve order (apGram ob.core.ext.ifc X) (eye order) = .ok Q :=
    fun X => (gram_solvable hsolve hifc X).imp fun _ h => h.1
  have rb := ap_runs hor sol hb
  have r := fun ω => ap_runs hor (by rw [(hmu ω).2.1]; exact sol) (h ω)
  have hX : ∀ k ω, (S ω k).ext.xMem = (Sb k).ext.xMem := by
    intro k ω
    induction k with
    | zero => rw [(h ω).1, hb.1]; exact (hmu ω).2.2
    | succ k ih =>
      obtain ⟨-, -, P1, -, -, -, -, x1, -, -⟩ := rb k
      obtain ⟨-, -, P2, -, -, -, -, x2, -, -⟩ := r ω k
      rw [x1, x2]; unfold apX; rw [ih]
  have hapX : ∀ k ω, apX (S ω k) (x k) = apX (Sb k) (x k) := fun k ω => by unfold apX; rw [hX]
  have hyj : ∀ k, (∀ i, HasMean P (fun ω => (S ω k).w i) ((Sb k).w i)) → ∀ j, HasMean P (fun ω => apY (S ω k) (x k) j) (apY (Sb k) (x k) j) := by
    intro k hk j
    unfold apY
    simp only [hapX]
    exact HasMean.dot' hk _
  have hDj : ∀ k, (∀ j, HasMean P (fun ω => (S ω k).ext.dMem j) ((Sb k).ext.dMem j)) → ∀ j, HasMean P (fun ω => apD (S ω k) (d ω k) j) (apD (Sb k) (db k) j) := by
    intro k hk j
    unfold apD shiftVec
    split_ifs
    · exact hd k
    · exact hk _
  have inv : ∀ k, (∀ i, HasMean P (fun ω => (S ω k).w i) ((Sb k).w i)) ∧ ∀ j, HasMean P (fun ω => (S ω k).ext.dMem j) ((Sb k).ext.dMem j) := by
    intro k
    induction k with
    | zero =>
      rw [hb.1]
      simp only [(h _).1]
      exact ⟨hw, hdm⟩
    | succ k ih =>
      obtain ⟨iw, id'⟩ := ih
      obtain ⟨m1, -, P1, p1, -, -, w1, -, dm1, -⟩ := rb k
      have hE : ∀ j, HasMean P (fun ω => apE (S ω k) (d ω k) (x k) j) (apE (Sb k) (db k) (x k) j) := fun j => by
        unfold apE
        exact (hDj k id' j).sub (hyj k iw j)
      constructor
      · intro i
        rw [w1, show (fun ω => (S ω (k + 1)).w i) = fun ω => (S ω k).w i + (Sb k).mu * dot (apX (Sb k) (x k) i) (matVec P1 (apE (S ω k) (d ω k) (x k))) from
          funext fun ω => by
            obtain ⟨m2, -, P2, p2, -, -, w2, -, -, -⟩ := r ω k
            rw [hapX, (hmu ω).2.1, p1] at p2
            obtain rfl := Except.ok.inj p2
            rw [w2, m2, hapX, m1, (hmu ω).1]]
        refine (iw i).add (HasMean.const_mul (HasMean.dot' (fun l => ?_) _) _)
        exact HasMean.dot' hE (P1 l)
      · intro j
        rw [dm1, show (fun ω => (S ω (k + 1)).ext.dMem j) = fun ω => apD (S ω k) (d ω k) j from funext fun ω => by
          obtain ⟨-, -, P2, -, -, -, -, -, dm2, -⟩ := r ω k
          rw [dm2]]
        exact hDj k id' j
  have hy : HasMean P (fun ω => y ω k) (yb k) := by
    obtain ⟨-, -, P1, -, q1, -⟩ := rb k
    rw [q1, show (fun ω => y ω k) = fun ω => apY (S ω k) (x k) ⟨0, hor⟩ from funext fun ω => by
      obtain ⟨-, -, P2, -, q2, -⟩ := r ω k
      exact q2]
    exact hyj k (inv k).1 _
  refine ⟨hy, ?_, (inv k).1⟩
  obtain ⟨-, -, P1, -, -, f1, -⟩ := rb k
  rw [f1, show (fun ω => e ω k) = fun ω => d ω k - y ω k from funext fun ω => by
    obtain ⟨-, -, P2, -, -, f2, -⟩ := r ω k
    exact f2]
  exact (hd k).sub hy

end mean

/-! ## The matrix `R` of RLS bounds the covariance of the weights -/

section rls
variable {Ω : Type} {mΩ : MeasurableSpace Ω} {P : Measure Ω} [IsProbabilityMeasure P] {n : ℕ} {v : ℕ → Ω → ℝ} {x : ℕ → Vec ℝ n} {y e : Ω → ℕ → ℝ}

/-- Zero mean noise of variance `s2`, uncorrelated in time. -/
structure WhiteNoise (P : Measure Ω) (v : ℕ → Ω → ℝ) (s2 : ℝ) : Prop where
  square : ∀ k, MemLp (v k) 2 P
  mean : ∀ k, ∫ ω, v k ω ∂P = 0
  variance : ∀ k, ∫ ω, v k ω ^ 2 ∂P = s2
  uncorrelated : ∀ j k, j ≠ k → ∫ ω, v j ω * v k ω ∂P = 0

theorem WhiteNoise.combination {s2 : ℝ} (hv : WhiteNoise P v s2) (s : Finset ℕ) (c : ℕ → ℝ) :
    HasMean P (fun ω => ∑ m ∈ s, c m * v m ω) 0 ∧ HasMean P (fun ω => (∑ m ∈ s, c m * v m ω) ^ 2) (s2 * ∑ m ∈ s, c m ^ 2) := by
  have i1 : ∀ m, HasMean P (fun ω => v m ω) 0 := fun m => ⟨(hv.square m).integrable one_le_two, hv.mean m⟩
  constructor
  · have := HasMean.sum (P := P) (s := s) (f := fun m ω => c m * v m ω) (a := fun m => c m * 0) fun m _ => (i1 m).const_mul (c m)
    simpa using this
  · have i2 : ∀ m l, HasMean P (fun ω => v m ω * v l ω) (if m = l then s2 else 0) := fun m l => by
      refine ⟨(hv.square m).integrable_mul (hv.square l), ?_⟩
      split_ifs with hml
      · rw [hml, ← hv.variance l]; congr 1; funext ω; ring
      · exact hv.uncorrelated m l hml
    have e1 : (fun ω => (∑ m ∈ s, c m * v m ω) ^ 2) = fun ω => ∑ m ∈ s, ∑ l ∈ s, c m * c l * (v m ω * v l ω) := by
      funext ω
      rw [pow_two, sum_mul_sum]
      exact sum_congr rfl fun m _ => sum_congr rfl fun l _ => by ring
    rw [e1]
    have := HasMean.sum (P := P) (s := s) (f := fun m ω => ∑ l ∈ s, c m * c l * (v m ω * v l ω)) (a := fun m => ∑ l ∈ s, c m * c l * (if m = l then s2 else 0))
      fun m _ => HasMean.sum fun l _ => (i2 m l).const_mul (c m * c l)
    convert this using 1
    rw [mul_sum]
    refine sum_congr rfl fun m hm => ?_
    simp only [mul_ite, mul_zero, sum_ite_eq, hm, if_true]
    ring

/-- a linear functional of the weights, as a function of the noise -/
theorem rls_functional {o : Obj (rls ℝ n)} (hmu : 0 < o.core.mu) (heps : 0 < o.core.ext.eps)
    (hR : ∀ i j, o.core.ext.R i j = if i = j then 1 / o.core.ext.eps else 0) {d y e : ℕ → ℝ}
    {S : ℕ → Core ℝ n (RlsExt ℝ n)} (h : Runs (rls ℝ n) o d x y e S) (ws u : Vec ℝ n) (k : ℕ) :
    let z : Vec ℝ n := fun i => ∑ j, (S k).ext.R i j * u j
    (∑ i, u i * ((S k).w i - ws i) = o.core.mu ^ k * o.core.ext.eps * (∑ i, z i * (o.core.w i - ws i))
      + ∑ m ∈ range k, o.core.mu ^ (k - 1 - m) * (∑ i, z i * x m i) * (d m - ∑ j, ws j * x m j)) ∧
    (∑ i, u i * z i = o.core.mu ^ k * o.core.ext.eps * (∑ i, z i ^ 2) + ∑ m ∈ range k, o.core.mu ^ (k - 1 - m) * (∑ i, z i * x m i) ^ 2) := by
  intro z
  obtain ⟨a1, a2, a3, -⟩ := C24_inverse_correlation o hmu heps hR h k
  -- u = A z
  have hu : ∀ i, u i = ∑ j, rlsCorr o.core.mu o.core.ext.eps x k i j * z j := by
    intro i
    have e1 : ∀ j, rlsCorr o.core.mu o.core.ext.eps x k i j * z j = ∑ l, rlsCorr o.core.mu o.core.ext.eps x k i j * (S k).ext.R j l * u l := by
      intro j; show _ * ∑ l, _ = _; rw [mul_sum]; exact sum_congr rfl fun l _ => by ring
    rw [sum_congr rfl fun j _ => e1 j, sum_comm]
    simp only [← sum_mul]
    rw [sum_congr rfl fun l _ => by rw [a1 i l]]
    simp
  have swap : ∀ b : Vec ℝ n, ∑ i, u i * b i = ∑ i, z i * ∑ j, rlsCorr o.core.mu o.core.ext.eps x k i j * b j := by
    intro b
    have e1 : ∀ i, u i * b i = ∑ j, z j * (rlsCorr o.core.mu o.core.ext.eps x k j i * b i) := by
      intro i
      rw [hu i, sum_mul]
      exact sum_congr rfl fun j _ => by rw [rlsCorr_symm o.core.mu o.core.ext.eps x k i j]; ring
    rw [sum_congr rfl fun i _ => e1 i, sum_comm]
    exact sum_congr rfl fun i _ => by rw [mul_sum]
  constructor
  · rw [swap (fun i => (S k).w i - ws i)]
    rw [sum_congr rfl fun i _ => by rw [rls_normal hmu heps hR h ws k i, mul_add], sum_add_distrib]
    congr 1
    · rw [mul_sum]; exact sum_congr rfl fun i _ => by ring
    · simp only [mul_sum]
      rw [sum_comm]
      refine sum_congr rfl fun m _ => ?_
      rw [sum_mul]
      exact sum_congr rfl fun i _ => by ring
  · rw [swap z]
    have := rlsCorr_quad o.core.mu o.core.ext.eps x k z
    simp only [mul_sum] at this ⊢
    rw [← sum_congr rfl fun i _ => sum_congr rfl fun j _ => mul_assoc (z i) _ (z j)]
    exact this

/-- C124 (RLS): a new filter with `0 < mu <= 1`, `eps > 0`, targets `<ws, x(k)> + v(k)` with given inputs and zero mean noise of variance `s2`, uncorrelated in time.
For every direction `u`, with `R` the matrix the filter keeps (it does not depend on the noise):
the mean of `u . (w(k) - ws)` is `mu^k eps u^T R (w(0) - ws)`, and its variance is at most `s2 u^T R u`. -/
theorem C124_rls_covariance (o : Obj (rls ℝ n)) (hmu : 0 < o.core.mu) (hmu1 : o.core.mu ≤ 1) (heps : 0 < o.core.ext.eps)
    (hR : ∀ i j, o.core.ext.R i j = if i = j then 1 / o.core.ext.eps else 0) {S : Ω → ℕ → Core ℝ n (RlsExt ℝ n)} (ws : Vec ℝ n)
    (h : ∀ ω, Runs (rls ℝ n) o (fun k => (∑ i, ws i * x k i) + v k ω) x (y ω) (e ω) (S ω)) {s2 : ℝ} (hv : WhiteNoise P v s2) (k : ℕ) :
    ∃ R : Mat ℝ n n, (∀ ω, (S ω k).ext.R = R) ∧ ∀ u : Vec ℝ n, ∃ b V : ℝ,
      b = o.core.mu ^ k * o.core.ext.eps * ∑ i, ∑ j, u i * R i j * (o.core.w j - ws j) ∧
      HasMean P (fun ω => ∑ i, u i * ((S ω k).w i - ws i)) b ∧ HasMean P (fun ω => (∑ i, u i * ((S ω k).w i - ws i) - b) ^ 2) V ∧
      HasMean P (fun ω => (∑ i, u i * ((S ω k).w i - ws i)) ^ 2) (b ^ 2 + V) ∧
      V ≤ s2 * ∑ i, ∑ j, u i * R i j * u j ∧
      (o.core.mu = 1 → V = s2 * ((∑ i, ∑ j, u i * R i j * u j) - o.core.ext.eps * ∑ i, (∑ j, R i j * u j) ^ 2)) := by
  have hz : Scalar.eqz o.core.mu = false := by
    show decide (o.core.mu = 0) = false
    simp [hmu.ne']
  obtain ⟨ω0⟩ : Nonempty Ω := nonempty_of_isProbabilityMeasure P
  have hRk : ∀ k ω, (S ω k).ext.R = (S ω0 k).ext.R := by
    intro k ω
    induction k with
    | zero => rw [(h ω).1, (h ω0).1]
    | succ k ih =>
      obtain ⟨m1, -, -, -, -, r1⟩ := rls_runs hz (h ω) k
      obtain ⟨m2, -, -, -, -, r2⟩ := rls_runs hz (h ω0) k
      rw [r1, r2, m1, m2, ih]
  refine ⟨(S ω0 k).ext.R, hRk k, fun u => ?_⟩
  set R := (S ω0 k).ext.R with hRdef
  have hsym : ∀ i j, R i j = R j i := (C24_inverse_correlation o hmu heps hR (h ω0) k).2.2.1
  set z : Vec ℝ n := fun i => ∑ j, R i j * u j with hzdef
  have hf : ∀ ω, ∑ i, u i * ((S ω k).w i - ws i) = o.core.mu ^ k * o.core.ext.eps * (∑ i, z i * (o.core.w i - ws i))
      + ∑ m ∈ range k, o.core.mu ^ (k - 1 - m) * (∑ i, z i * x m i) * v m ω := by
    intro ω
    have := (rls_functional hmu heps hR (h ω) ws u k).1
    simp only [hRk k ω] at this
    rw [this]
    congr 1
    refine sum_congr rfl fun m _ => ?_
    congr 1
    ring
  have hquad := (rls_functional hmu heps hR (h ω0) ws u k).2
  have hb : o.core.mu ^ k * o.core.ext.eps * ∑ i, ∑ j, u i * R i j * (o.core.w j - ws j)
      = o.core.mu ^ k * o.core.ext.eps * (∑ i, z i * (o.core.w i - ws i)) := by
    congr 1
    rw [sum_comm]
    refine sum_congr rfl fun j _ => ?_
    show _ = (∑ i, R j i * u i) * _
    rw [sum_mul]
    exact sum_congr rfl fun i _ => by rw [hsym j i]; ring
  have hq : ∑ i, ∑ j, u i * R i j * u j = ∑ i, u i * z i := by
    refine sum_congr rfl fun i _ => ?_
    show _ = u i * ∑ j, R i j * u j
    rw [mul_sum]
    exact sum_congr rfl fun j _ => by ring
  obtain ⟨c1, c2⟩ := hv.combination (range k) (fun m => o.core.mu ^ (k - 1 - m) * ∑ i, z i * x m i)
  set b := o.core.mu ^ k * o.core.ext.eps * (∑ i, z i * (o.core.w i - ws i)) with hbdef
  set V := s2 * ∑ m ∈ range k, (o.core.mu ^ (k - 1 - m) * ∑ i, z i * x m i) ^ 2 with hV
  have hbm : HasMean P (fun _ => b) b := ⟨integrable_const _, by simp⟩
  refine ⟨b, V, hb.symm, ?_, ?_, ?_, ?_, ?_⟩
  · simp only [hf]
    have := hbm.add c1
    rwa [add_zero] at this
  · simp only [hf, add_sub_cancel_left]
    exact c2
  · simp only [hf]
    have hb2 : HasMean P (fun _ => b ^ 2) (b ^ 2) := ⟨integrable_const _, by simp⟩
    have := (hb2.add (c1.const_mul (2 * b))).add c2
    simp only [mul_zero, add_zero] at this
    convert this using 1
    funext ω
    ring
  · rw [hq, hquad, hV]
    have s20 : 0 ≤ s2 := by rw [← hv.variance 0]; exact integral_nonneg fun ω => sq_nonneg _
    refine mul_le_mul_of_nonneg_left ?_ s20
    have h1 : ∑ m ∈ range k, (o.core.mu ^ (k - 1 - m) * ∑ i, z i * x m i) ^ 2 ≤ ∑ m ∈ range k, o.core.mu ^ (k - 1 - m) * (∑ i, z i * x m i) ^ 2 := by
      refine sum_le_sum fun m _ => ?_
      rw [mul_pow]
      refine mul_le_mul_of_nonneg_right ?_ (sq_nonneg _)
      have p0 : 0 ≤ o.core.mu ^ (k - 1 - m) := pow_nonneg hmu.le _
      have p1 : o.core.mu ^ (k - 1 - m) ≤ 1 := pow_le_one₀ hmu.le hmu1
      nlinarith
    have h2 : 0 ≤ o.core.mu ^ k * o.core.ext.eps * ∑ i, z i ^ 2 := by
      have : 0 ≤ ∑ i, z i ^ 2 := sum_nonneg fun _ _ => sq_nonneg _
      positivity
    have h3 : ∀ i, (∑ j, (S ω0 k).ext.R i j * u j) = z i := fun i => rfl
    simp only [h3]
    linarith
  · intro h1
    rw [hq, hquad, hV]
    have h3 : ∀ i, (∑ j, (S ω0 k).ext.R i j * u j) = z i := fun i => rfl
    have h4 : ∀ i, (∑ j, R i j * u j) = z i := fun i => rfl
    simp only [h3, h4, h1, one_pow, one_mul]
    ring

/-- C124 (RLS): if moreover the inputs satisfy `sum_m mu^(k-1-m) (u.x(m))^2 >= lam |u|^2`, then
`E|w(k) - ws|^2 <= (mu^k eps / (mu^k eps + lam))^2 |w(0) - ws|^2 + n s2 / (mu^k eps + lam)`. -/
theorem C124_rls_mean_square (o : Obj (rls ℝ n)) (hmu : 0 < o.core.mu) (hmu1 : o.core.mu ≤ 1) (heps : 0 < o.core.ext.eps)
    (hR : ∀ i j, o.core.ext.R i j = if i = j then 1 / o.core.ext.eps else 0) {S : Ω → ℕ → Core ℝ n (RlsExt ℝ n)} (ws : Vec ℝ n)
    (h : ∀ ω, Runs (rls ℝ n) o (fun k => (∑ i, ws i * x k i) + v k ω) x (y ω) (e ω) (S ω)) {s2 : ℝ} (hv : WhiteNoise P v s2) (k : ℕ) {lam : ℝ} (hlam : 0 ≤ lam)
    (hex : ∀ u : Vec ℝ n, lam * ∑ i, u i ^ 2 ≤ ∑ m ∈ range k, o.core.mu ^ (k - 1 - m) * (∑ i, u i * x m i) ^ 2) :
    ∃ M, HasMean P (fun ω => ∑ i, ((S ω k).w i - ws i) ^ 2) M ∧
      M ≤ (o.core.mu ^ k * o.core.ext.eps / (o.core.mu ^ k * o.core.ext.eps + lam)) ^ 2 * (∑ i, (o.core.w i - ws i) ^ 2)
        + n * s2 / (o.core.mu ^ k * o.core.ext.eps + lam) := by
  obtain ⟨R, hRk, hcov⟩ := C124_rls_covariance o hmu hmu1 heps hR ws h hv k
  obtain ⟨ω0⟩ : Nonempty Ω := nonempty_of_isProbabilityMeasure P
  have s20 : 0 ≤ s2 := by rw [← hv.variance 0]; exact integral_nonneg fun ω => sq_nonneg _
  set c := o.core.mu ^ k * o.core.ext.eps with hc
  have hc0 : 0 < c := by positivity
  set A := c + lam with hA
  have hA0 : 0 < A := by linarith
  -- R is at most 1 / A
  have hz : ∀ u : Vec ℝ n, A * ∑ i, (∑ j, R i j * u j) ^ 2 ≤ ∑ i, u i * ∑ j, R i j * u j := by
    intro u
    have h2 := (rls_functional hmu heps hR (h ω0) ws u k).2
    simp only [hRk ω0] at h2
    have h3 := hex (fun i => ∑ j, R i j * u j)
    rw [h2, hA, ← hc]
    linarith
  have hz2 : ∀ u : Vec ℝ n, A ^ 2 * ∑ i, (∑ j, R i j * u j) ^ 2 ≤ ∑ i, u i ^ 2 := by
    intro u
    have h1 := hz u
    have h2 : 0 ≤ ∑ i, (u i - A * ∑ j, R i j * u j) ^ 2 := sum_nonneg fun _ _ => sq_nonneg _
    have e1 : ∑ i, (u i - A * ∑ j, R i j * u j) ^ 2 = ∑ i, u i ^ 2 - 2 * A * (∑ i, u i * ∑ j, R i j * u j) + A ^ 2 * ∑ i, (∑ j, R i j * u j) ^ 2 := by
      rw [mul_sum, mul_sum, ← sum_sub_distrib, ← sum_add_distrib]
      exact sum_congr rfl fun i _ => by ring
    have hcs : (∑ i, u i * ∑ j, R i j * u j) ^ 2 ≤ (∑ i, u i ^ 2) * ∑ i, (∑ j, R i j * u j) ^ 2 := sum_mul_sq_le_sq_mul_sq _ _ _
    set a := ∑ i, u i * ∑ j, R i j * u j
    set b := ∑ i, (∑ j, R i j * u j) ^ 2
    set U := ∑ i, u i ^ 2
    have hb : 0 ≤ b := sum_nonneg fun _ _ => sq_nonneg _
    have hU : 0 ≤ U := sum_nonneg fun _ _ => sq_nonneg _
    rcases hb.eq_or_lt with hb0 | hb0
    · rw [← hb0]; simpa using hU
    · have h4 : (A * b) ^ 2 ≤ U * b := le_trans (pow_le_pow_left₀ (by positivity) h1 2) hcs
      have h5 : A ^ 2 * b * b ≤ U * b := by nlinarith
      exact le_of_mul_le_mul_right h5 hb0
  have hz3 : ∀ u : Vec ℝ n, A * ∑ i, u i * (∑ j, R i j * u j) ≤ ∑ i, u i ^ 2 := by
    intro u
    have h1 := hz2 u
    have hcs : (∑ i, u i * ∑ j, R i j * u j) ^ 2 ≤ (∑ i, u i ^ 2) * ∑ i, (∑ j, R i j * u j) ^ 2 := sum_mul_sq_le_sq_mul_sq _ _ _
    set a := ∑ i, u i * ∑ j, R i j * u j
    set b := ∑ i, (∑ j, R i j * u j) ^ 2
    set U := ∑ i, u i ^ 2
    have hU : 0 ≤ U := sum_nonneg fun _ _ => sq_nonneg _
    have h4 : (A * a) ^ 2 ≤ U ^ 2 := by
      have := mul_le_mul_of_nonneg_left h1 hU
      have := mul_le_mul_of_nonneg_left hcs (sq_nonneg A)
      nlinarith
    exact (abs_le_of_sq_le_sq' h4 hU).2
  choose b V hb hmean hvar hsq hV hV1 using fun i : Fin n => hcov (fun j => if j = i then 1 else 0)
  simp only [ite_mul, one_mul, zero_mul, mul_ite, mul_one, mul_zero, sum_ite_eq', sum_ite_irrel, sum_const_zero, mem_univ, if_true] at hb hsq hV
  refine ⟨∑ i, (b i ^ 2 + V i), HasMean.sum fun i _ => hsq i, ?_⟩
  rw [sum_add_distrib]
  refine add_le_add ?_ ?_
  · simp only [hb, mul_pow]
    rw [← mul_sum, div_pow, div_mul_eq_mul_div, le_div_iff₀ (by positivity)]
    have := mul_le_mul_of_nonneg_left (hz2 fun j => o.core.w j - ws j) (sq_nonneg c)
    nlinarith
  · have : ∀ i, V i ≤ s2 / A := fun i => by
      refine (hV i).trans ?_
      rw [le_div_iff₀ hA0]
      have h1 := hz3 (fun j => if j = i then 1 else 0)
      simp only [ite_mul, one_mul, zero_mul, mul_ite, mul_one, mul_zero, sum_ite_eq', mem_univ, if_true, ite_pow, one_pow, ne_eq, OfNat.ofNat_ne_zero,
        not_false_eq_true, zero_pow] at h1
      nlinarith
    refine (sum_le_sum fun i _ => this i).trans (le_of_eq ?_)
    simp
    ring

/-- C124 (RLS): with forgetting factor 1 and inputs whose excitation grows without bound, RLS is consistent: `E|w(k) - ws|^2` tends to 0 although the noise does not. -/
theorem C124_rls_consistent (o : Obj (rls ℝ n)) (hmu : o.core.mu = 1) (heps : 0 < o.core.ext.eps)
    (hR : ∀ i j, o.core.ext.R i j = if i = j then 1 / o.core.ext.eps else 0) {S : Ω → ℕ → Core ℝ n (RlsExt ℝ n)} (ws : Vec ℝ n)
    (h : ∀ ω, Runs (rls ℝ n) o (fun k => (∑ i, ws i * x k i) + v k ω) x (y ω) (e ω) (S ω)) {s2 : ℝ} (hv : WhiteNoise P v s2) {lam : ℕ → ℝ} (hlam : ∀ k, 0 ≤ lam k)
    (hgrow : Filter.Tendsto lam Filter.atTop Filter.atTop) (hex : ∀ k (u : Vec ℝ n), lam k * ∑ i, u i ^ 2 ≤ ∑ m ∈ range k, (∑ i, u i * x m i) ^ 2) :
    Filter.Tendsto (fun k => ∫ ω, ∑ i, ((S ω k).w i - ws i) ^ 2 ∂P) Filter.atTop (nhds 0) := by
  choose M hM hle using fun k => C124_rls_mean_square o (by rw [hmu]; exact one_pos) hmu.le heps hR ws h hv k (hlam k) (by
    simpa only [hmu, one_pow, one_mul] using hex k)
  have e1 : (fun k => ∫ ω, ∑ i, ((S ω k).w i - ws i) ^ 2 ∂P) = M := funext fun k => (hM k).2
  rw [e1]
  have h0 : ∀ k, 0 ≤ M k := fun k => by rw [← (hM k).2]; exact integral_nonneg fun ω => sum_nonneg fun _ _ => sq_nonneg _
  simp only [hmu, one_pow, one_mul] at hle
  have ht : Filter.Tendsto (fun k => o.core.ext.eps + lam k) Filter.atTop Filter.atTop := Filter.tendsto_atTop_add_const_left _ _ hgrow
  have h1 : Filter.Tendsto (fun k => (o.core.ext.eps / (o.core.ext.eps + lam k)) ^ 2 * (∑ i, (o.core.w i - ws i) ^ 2) + n * s2 / (o.core.ext.eps + lam k))
      Filter.atTop (nhds (0 ^ 2 * (∑ i, (o.core.w i - ws i) ^ 2) + 0)) :=
    (((Filter.Tendsto.const_div_atTop ht _).pow 2).mul_const _).add (Filter.Tendsto.const_div_atTop ht _)
  simp only [ne_eq, OfNat.ofNat_ne_zero, not_false_eq_true, zero_pow, zero_mul, add_zero] at h1
  exact squeeze_zero h0 hle h1

end rls

/-! ## Concrete cases meeting the hypotheses -/

theorem IndepSamples.whiteNoise {Ω : Type} {mΩ : MeasurableSpace Ω} {P : Measure Ω} [IsProbabilityMeasure P] {n : ℕ} {x : ℕ → Ω → Vec ℝ n} {v : ℕ → Ω → ℝ} {w : Ω → Vec ℝ n}
    (hs : IndepSamples P x v w) {s2 : ℝ} (hv : ∀ k, MemLp (v k) 2 P ∧ ∫ ω, v k ω ∂P = 0 ∧ ∫ ω, v k ω ^ 2 ∂P = s2) : WhiteNoise P v s2 where
  square := fun k => (hv k).1
  mean := fun k => (hv k).2.1
  variance := fun k => (hv k).2.2
  uncorrelated := fun j k hjk => by
    have h1 := (hs.independent.indepFun hjk).comp (φ := Prod.snd) (ψ := Prod.snd) measurable_snd measurable_snd
    have h2 := h1.integral_fun_mul_eq_mul_integral ((hv j).1.integrable one_le_two).aestronglyMeasurable ((hv k).1.integrable one_le_two).aestronglyMeasurable
    refine h2.trans ?_
    show (∫ ω, v j ω ∂P) * _ = 0
    rw [(hv j).2.1, zero_mul]

theorem turns_grow (k : ℕ) (u : Vec ℝ 2) : (((k : ℝ) - 1) / 2) * ∑ i, u i ^ 2 ≤ ∑ m ∈ range k, (∑ i, u i * turns m i) ^ 2 := by
  have key : ∀ k, (∑ m ∈ range (2 * k), (∑ i, u i * turns m i) ^ 2) = k * ∑ i, u i ^ 2 := by
    intro k
    induction k with
    | zero => simp
    | succ k ih =>
      rw [show 2 * (k + 1) = 2 * k + 1 + 1 by ring, sum_range_succ, sum_range_succ, ih]
      have h1 : (2 * k + 1) % 2 = 1 := by omega
      simp [turns, Fin.sum_univ_two, h1]
      ring
  have hU : 0 ≤ ∑ i, u i ^ 2 := sum_nonneg fun _ _ => sq_nonneg _
  rcases Nat.even_or_odd' k with ⟨c, rfl | rfl⟩
  · rw [key]; push_cast; nlinarith
  · rw [sum_range_succ, key]; push_cast
    have := sq_nonneg (∑ i, u i * turns (2 * c) i)
    nlinarith

/-- the hypotheses of `C124_mean_lms`, `C124_mean_nlms`, `C124_mean_rls` and `C124_mean_ap`: standard normal starting weights, targets `2 + v(k)` with `v` standard normal -/
example : ∃ (Ω : Type) (mΩ : MeasurableSpace Ω) (P : Measure Ω) (_ : IsProbabilityMeasure P) (v : ℕ → Ω → ℝ) (w : Ω → Vec ℝ 2),
    (∀ i, HasMean P (fun ω => w ω i) 0) ∧ (∀ k, HasMean P (fun ω => 2 + v k ω) 2) ∧
    (∃ (y e : Ω → ℕ → ℝ) (S : Ω → ℕ → Core ℝ 2 Unit) (yb eb : ℕ → ℝ) (Sb : ℕ → Core ℝ 2 Unit),
      (∀ ω, Runs (lms ℝ 2) ⟨⟨w ω, 2, 1 / 4, ()⟩, []⟩ (fun k => 2 + v k ω) turns (y ω) (e ω) (S ω)) ∧
      Runs (lms ℝ 2) ⟨⟨fun _ => 0, 2, 1 / 4, ()⟩, []⟩ (fun _ => 2) turns yb eb Sb) ∧
    (∃ (y e : Ω → ℕ → ℝ) (S : Ω → ℕ → Core ℝ 2 (EpsExt ℝ)) (yb eb : ℕ → ℝ) (Sb : ℕ → Core ℝ 2 (EpsExt ℝ)),
      (∀ ω, Runs (nlms ℝ 2) ⟨⟨w ω, 2, 1 / 4, ⟨1⟩⟩, []⟩ (fun k => 2 + v k ω) turns (y ω) (e ω) (S ω)) ∧
      Runs (nlms ℝ 2) ⟨⟨fun _ => 0, 2, 1 / 4, ⟨1⟩⟩, []⟩ (fun _ => 2) turns yb eb Sb) ∧
    (∃ (y e : Ω → ℕ → ℝ) (S : Ω → ℕ → Core ℝ 2 (RlsExt ℝ 2)) (yb eb : ℕ → ℝ) (Sb : ℕ → Core ℝ 2 (RlsExt ℝ 2)),
      (∀ ω, Runs (rls ℝ 2) ⟨⟨w ω, 2, 1 / 2, ⟨1, fun i j => if i = j then 1 / 1 else 0⟩⟩, []⟩ (fun k => 2 + v k ω) turns (y ω) (e ω) (S ω)) ∧
      Runs (rls ℝ 2) ⟨⟨fun _ => 0, 2, 1 / 2, ⟨1, fun i j => if i = j then 1 / 1 else 0⟩⟩, []⟩ (fun _ => 2) turns yb eb Sb) ∧
    (∃ (y e : Ω → ℕ → ℝ) (S : Ω → ℕ → Core ℝ 2 (ApExt ℝ 2 3)) (yb eb : ℕ → ℝ) (Sb : ℕ → Core ℝ 2 (ApExt ℝ 2 3)),
      (∀ ω, Runs (ap ℝ 2 exactSolve 3) ⟨⟨w ω, 2, 1 / 2, ⟨1, fun _ _ => 0, fun _ => 0, fun _ => 0, fun _ => 0⟩⟩, []⟩ (fun k => 2 + v k ω) turns (y ω) (e ω) (S ω)) ∧
      Runs (ap ℝ 2 exactSolve 3) ⟨⟨fun _ => 0, 2, 1 / 2, ⟨1, fun _ _ => 0, fun _ => 0, fun _ => 0, fun _ => 0⟩⟩, []⟩ (fun _ => 2) turns yb eb Sb) := by
  obtain ⟨Ω, mΩ, P, hP, x, v, w, hs, hxv, hx, hv, hw⟩ := gauss_data 2
  refine ⟨Ω, mΩ, P, hP, v, fun ω i => w ω i - ∫ ω, w ω i ∂P, fun i => ⟨((hw i).integrable one_le_two).sub (integrable_const _), ?_⟩,
    fun k => ⟨(integrable_const _).add ((hv k).1.integrable one_le_two), ?_⟩,
    ⟨_, _, _, _, _, _, fun ω => runs_of_safe lms_safe _ trivial _ _, runs_of_safe lms_safe _ trivial _ _⟩,
    ⟨_, _, _, _, _, _, fun ω => runs_of_safe nlms_safe _ trivial _ _, runs_of_safe nlms_safe _ trivial _ _⟩,
    ⟨_, _, _, _, _, _, fun ω => runs_of_safe rls_safe _ (by simp [Scalar.eqz]) _ _, runs_of_safe rls_safe _ (by simp [Scalar.eqz]) _ _⟩,
    ⟨_, _, _, _, _, _, fun ω => runs_of_safe (ap_safe _ (by norm_num) 1 fun X => (gram_solvable exactSolve_spec one_pos X).imp fun _ h => h.1) _ rfl _ _,
      runs_of_safe (ap_safe _ (by norm_num) 1 fun X => (gram_solvable exactSolve_spec one_pos X).imp fun _ h => h.1) _ rfl _ _⟩⟩
  · rw [integral_sub ((hw i).integrable one_le_two) (integrable_const _)]; simp
  · rw [integral_add (integrable_const _) ((hv k).1.integrable one_le_two), (hv k).2.1]; simp

/-- the hypotheses of `C124_rls_covariance`, `C124_rls_mean_square` and `C124_rls_consistent`: `mu = 1`, `eps = 1/10`, `ws = (2, -3)`, standard normal noise -/
example : ∃ (Ω : Type) (mΩ : MeasurableSpace Ω) (P : Measure Ω) (_ : IsProbabilityMeasure P) (v : ℕ → Ω → ℝ) (o : Obj (rls ℝ 2))
    (y e : Ω → ℕ → ℝ) (S : Ω → ℕ → Core ℝ 2 (RlsExt ℝ 2)) (lam : ℕ → ℝ),
    o.core.mu = 1 ∧ 0 < o.core.ext.eps ∧ (∀ i j, o.core.ext.R i j = if i = j then 1 / o.core.ext.eps else 0) ∧
    (∀ ω, Runs (rls ℝ 2) o (fun k => (∑ i, (![2, -3] : Vec ℝ 2) i * turns k i) + v k ω) turns (y ω) (e ω) (S ω)) ∧ WhiteNoise P v 1 ∧ (∀ k, 0 ≤ lam k) ∧
    Filter.Tendsto lam Filter.atTop Filter.atTop ∧ (∀ k (u : Vec ℝ 2), lam k * ∑ i, u i ^ 2 ≤ ∑ m ∈ range k, (∑ i, u i * turns m i) ^ 2) := by
  obtain ⟨Ω, mΩ, P, hP, x, v, w, hs, hxv, hx, hv, hw⟩ := gauss_data 2
  refine ⟨Ω, mΩ, P, hP, v, ⟨⟨fun _ => 0, 2, 1, ⟨1 / 10, fun i j => if i = j then 1 / (1 / 10) else 0⟩⟩, []⟩, _, _, _, fun k => max 0 (((k : ℝ) - 1) / 2), rfl,
    by norm_num, fun _ _ => rfl, fun ω => runs_of_safe rls_safe _ (by simp [Scalar.eqz]) _ _, hs.whiteNoise hv, fun k => le_max_left _ _, ?_, fun k u => ?_⟩
  · refine Filter.tendsto_atTop_mono (fun k => le_max_right _ _) ?_
    exact (Filter.tendsto_atTop_add_const_right _ (-1) tendsto_natCast_atTop_atTop).atTop_div_const two_pos
  · beta_reduce
    rcases max_choice (0 : ℝ) (((k : ℝ) - 1) / 2) with h | h
    · rw [h, zero_mul]; exact sum_nonneg fun _ _ => sq_nonneg _
    · rw [h]; exact turns_grow k u

end Padasip
