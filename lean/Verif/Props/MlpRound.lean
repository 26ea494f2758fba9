import Verif.Props.Rounding
import Verif.Props.MlpBound

/-!
# C155: rounding errors in the outputs of a network
-/

set_option linter.unusedSectionVars false
set_option linter.unusedVariables false
set_option linter.unusedSimpArgs false

namespace Padasip

open Finset

variable {F : Rounding} {nin m p : ℕ}

/-! ## the same network in rounded arithmetic -/

/-- the layer with the same numbers, computing in rounded arithmetic -/
def Layer.fl (F : Rounding) {nin m : ℕ} (l : Layer ℝ nin m) : Layer (Fl F) nin m :=
  { w := fun i j => ⟨l.w i j⟩, x := fun j => ⟨l.x j⟩, y := fun i => ⟨l.y i⟩, mu := ⟨l.mu⟩, f := l.f }

def Hidden.fl (F : Rounding) {nin m : ℕ} : Hidden ℝ nin m → Hidden (Fl F) nin m
  | .one l => .one (l.fl F)
  | .snoc h l => .snoc (h.fl F) (l.fl F)

/-- the network with the same numbers, computing in rounded arithmetic -/
def Net.fl (F : Rounding) (n : Net ℝ nin m p) : Net (Fl F) nin m p :=
  { hidden := n.hidden.fl F, w := fun i j => ⟨n.w i j⟩, x := fun j => ⟨n.x j⟩, y := fun i => ⟨n.y i⟩, mu := ⟨n.mu⟩ }

/-! ## **Specification**: the bound, layer by layer -/

/-- rounding error of the activation function itself, for an argument of absolute value at most `Z` (`phi u k = (1-u)^-k`, so `phi u k - 1` is about `k u`) -/
noncomputable def actErr (u : ℝ) : Act → ℝ → ℝ
  | .sigmoid, _ => phi u 3 - 1
  | .tanh, Z => 2 * (phi u 5 - 1) + (phi u 2 - 1) * Z

/-- no cancellation: the weighted sum of a node with absolute values (`w 0` is the bias), inputs up to `X j + E j` -/
def absSum {n : ℕ} (w : Vec ℝ (n + 1)) (X E : Vec ℝ n) : ℝ := |w 0| + ∑ j, |w (Fin.succ j)| * (X j + E j)

/-- error of the weighted sum of a node whose inputs are bounded by `X` and wrong by at most `E` -/
noncomputable def sumErr (u : ℝ) {n : ℕ} (w : Vec ℝ (n + 1)) (X E : Vec ℝ n) : ℝ :=
  ∑ j, |w (Fin.succ j)| * E j + (phi u (n + 2) - 1) * absSum w X E

/-- error of the output of a hidden node -/
noncomputable def nodeErr (u : ℝ) (f : Act) {n : ℕ} (w : Vec ℝ (n + 1)) (X E : Vec ℝ n) : ℝ :=
  actErr u f (phi u (n + 2) * absSum w X E) + slope f * sumErr u w X E

/-- errors of the outputs of the hidden layers for inputs bounded by `X`; from the second layer on the inputs are bounded by 1 -/
noncomputable def Hidden.err (u : ℝ) {nin m : ℕ} : Hidden ℝ nin m → Vec ℝ nin → Vec ℝ m
  | .one l, X => fun i => nodeErr u l.f (l.w i) X (fun _ => 0)
  | .snoc h l, X => fun i => nodeErr u l.f (l.w i) (fun _ => 1) (h.err u X)

/-! ## proof -/

theorem rel_abs_le {u : ℝ} {k : ℕ} {a b : ℝ} (h0 : 0 ≤ u) (h1 : u < 1) (h : Rel u k a b) : |a - b| ≤ (phi u k - 1) * b := (h.acc h0 h1).1

theorem fl_sigmoid (z : ℝ) : |(activation .sigmoid false (⟨z⟩ : Fl F)).val - actSpec .sigmoid z| ≤ phi F.u 3 - 1 := by
  have h0 := F.u_nonneg
  have h1 := F.u_lt
  have r1 : Rel F.u 1 (Transc.exp (-(⟨z⟩ : Fl F)) : Fl F).val (Real.exp (-z)) :=
    (rel_exact (u := F.u) (Real.exp_pos (-z)).le).round h0 h1 (F.exp_err (-z))
  have r0 : Rel F.u 1 (1 : Fl F).val 1 := (rel_exact (u := F.u) zero_le_one).mono h0 h1 (Nat.zero_le 1)
  have r2 := r0.fladd r1
  have r3 := (rel_exact (u := F.u) (zero_le_one (α := ℝ))).fldiv (a := (1 : Fl F)) r2 (by positivity)
  have h2 : (0 : ℝ) < Real.exp (-z) := Real.exp_pos _
  have h3 := rel_abs_le h0 h1 r3
  simp only [Nat.zero_add] at h3
  have h4 : (1 : ℝ) / (1 + Real.exp (-z)) ≤ 1 := by rw [div_le_one (by linarith)]; linarith
  refine le_trans h3 ?_
  have := one_le_phi h0 h1 3
  exact mul_le_of_le_one_right (by linarith) h4

theorem fl_tanh (z Z : ℝ) (hZ : |z| ≤ Z) : |(activation .tanh false (⟨z⟩ : Fl F)).val - actSpec .tanh z| ≤ 2 * (phi F.u 5 - 1) + (phi F.u 2 - 1) * Z := by
  have h0 := F.u_nonneg
  have h1 := F.u_lt
  have rone : Rel F.u 0 (1 : Fl F).val 1 := rel_exact (u := F.u) zero_le_one
  have rtwo : Rel F.u 1 (1 + 1 : Fl F).val (1 + 1) := rone.fladd rone
  -- the argument of `exp`
  have at1 := Acc.flmul (F := F) (a := -(1 + 1 : Fl F)) (c := (⟨z⟩ : Fl F)) ((rtwo.acc h0 h1).neg h0 h1) (acc_exact h0 h1 z)
  obtain ⟨h2, -⟩ := at1
  generalize ht : (-(1 + 1 : Fl F) * (⟨z⟩ : Fl F)) = t at h2
  have e1 : |actSpec .tanh (-t.val / 2) - actSpec .tanh z| ≤ (phi F.u 2 - 1) * Z := by
    refine (act_lipschitz .tanh _ _).trans ?_
    have h3 : |(-t.val / 2) - z| = |t.val - -(1 + 1) * z| / 2 := by
      rw [show (-t.val / 2) - z = -((t.val - -(1 + 1) * z) / 2) by ring, abs_neg, abs_div, abs_of_pos (by norm_num : (0 : ℝ) < 2)]
    have h4 : (0 : ℝ) ≤ phi F.u 2 - 1 := by have := one_le_phi h0 h1 2; linarith
    have h5 : |t.val - -(1 + 1) * z| ≤ (phi F.u 2 - 1) * ((1 + 1) * |z|) := h2
    rw [h3]
    simp only [slope, one_mul]
    have h6 := mul_le_mul_of_nonneg_left hZ h4
    have h7 : (phi F.u 2 - 1) * ((1 + 1) * |z|) = 2 * ((phi F.u 2 - 1) * |z|) := by ring
    rw [h7] at h5
    generalize |t.val - -(1 + 1) * z| = y at h5 ⊢
    linarith
  -- the rest, at the argument `t`
  have r1 : Rel F.u 1 (Transc.exp t : Fl F).val (Real.exp t.val) := (rel_exact (u := F.u) (Real.exp_pos t.val).le).round h0 h1 (F.exp_err t.val)
  have r2 := (rone.mono h0 h1 (Nat.zero_le 1)).fladd r1
  have hpos : (0 : ℝ) < Real.exp t.val := Real.exp_pos _
  have r3 := rtwo.fldiv r2 (by positivity)
  have h3 := rel_abs_le h0 h1 r3
  generalize hc : (1 + 1 : Fl F) / (1 + Transc.exp t) = c at h3
  have hq : (1 + 1 : ℝ) / (1 + Real.exp t.val) ≤ 2 := by rw [div_le_iff₀ (by linarith)]; linarith
  have hq0 : (0 : ℝ) < (1 + 1 : ℝ) / (1 + Real.exp t.val) := by positivity
  have hg : actSpec .tanh (-t.val / 2) = (1 + 1) / (1 + Real.exp t.val) - 1 := by
    rw [← C73_activation]
    show (1 + 1) / (1 + Real.exp (-(1 + 1) * (-t.val / 2))) - 1 = _
    rw [show -(1 + 1) * (-t.val / 2) = t.val by ring]
  generalize (1 + 1 : ℝ) / (1 + Real.exp t.val) = q at h3 hq hq0 hg
  have h4 : (0 : ℝ) ≤ phi F.u 4 - 1 := by have := one_le_phi h0 h1 4; linarith
  have h5 : |c.val - q| ≤ 2 * (phi F.u 4 - 1) := by
    have : |c.val - q| ≤ (phi F.u 4 - 1) * q := h3
    nlinarith [mul_le_mul_of_nonneg_left hq h4]
  have h6 := F.sub_err c.val 1
  have h7 : |c.val - 1| ≤ 1 + 2 * (phi F.u 4 - 1) := by
    rw [abs_le] at h5 ⊢
    constructor <;> linarith [h5.1, h5.2]
  have h8 : phi F.u 4 * (1 + F.u) ≤ phi F.u 5 := by
    rw [show (5 : ℕ) = 4 + 1 from rfl, phi_add]
    exact mul_le_mul_of_nonneg_left (one_add_le_phi h0 h1) (by linarith)
  have e2 : |F.sub c.val 1 - actSpec .tanh (-t.val / 2)| ≤ 2 * (phi F.u 5 - 1) := by
    rw [hg]
    have h9 : |F.sub c.val 1 - (q - 1)| ≤ |F.sub c.val 1 - (c.val - 1)| + |c.val - q| := by
      rw [show F.sub c.val 1 - (q - 1) = (F.sub c.val 1 - (c.val - 1)) + (c.val - q) by ring]; exact abs_add_le _ _
    have h10 := mul_le_mul_of_nonneg_left h7 h0
    nlinarith
  have e3 : (activation .tanh false (⟨z⟩ : Fl F)).val = F.sub ((1 + 1 : Fl F) / (1 + Transc.exp (-(1 + 1 : Fl F) * (⟨z⟩ : Fl F))) : Fl F).val 1 := rfl
  rw [e3, ht, hc]
  rw [show F.sub c.val 1 - actSpec .tanh z = (F.sub c.val 1 - actSpec .tanh (-t.val / 2)) + (actSpec .tanh (-t.val / 2) - actSpec .tanh z) by ring]
  exact (abs_add_le _ _).trans (add_le_add e2 e1)

theorem fl_act (f : Act) (z Z : ℝ) (hZ : |z| ≤ Z) : |(activation f false (⟨z⟩ : Fl F)).val - actSpec f z| ≤ actErr F.u f Z := by
  cases f
  · exact fl_sigmoid z
  · exact fl_tanh z Z hZ

/-- the weighted sum of a node -/
theorem fl_sum {n : ℕ} (w old : Vec ℝ (n + 1)) (hold : old 0 = 1) (v : Vec (Fl F) n) (x X E : Vec ℝ n) (hx : ∀ j, |x j| ≤ X j) (hE : ∀ j, |(v j).val - x j| ≤ E j) :
    |(vsum fun j => (⟨w j⟩ : Fl F) * setTail (fun j => (⟨old j⟩ : Fl F)) v j).val - (w 0 + ∑ j, w (Fin.succ j) * x j)| ≤ sumErr F.u w X E ∧
    |(vsum fun j => (⟨w j⟩ : Fl F) * setTail (fun j => (⟨old j⟩ : Fl F)) v j).val| ≤ phi F.u (n + 2) * absSum w X E := by
  have h0 := F.u_nonneg
  have h1 := F.u_lt
  have ha := Acc.fldot (F := F) (k := 0) (l := 0) (fun j => (⟨w j⟩ : Fl F)) (setTail (fun j => (⟨old j⟩ : Fl F)) v) w
    (fun j => (setTail (fun j => (⟨old j⟩ : Fl F)) v j).val) (fun j => |w j|) (fun j => |(setTail (fun j => (⟨old j⟩ : Fl F)) v j).val|)
    (fun j => acc_exact h0 h1 _) (fun j => acc_exact h0 h1 _)
  rw [show 0 + 0 + 1 + (n + 1) = n + 2 by omega] at ha
  change Acc F.u _ (vsum fun j => (⟨w j⟩ : Fl F) * setTail (fun j => (⟨old j⟩ : Fl F)) v j).val _ _ at ha
  generalize (vsum fun j => (⟨w j⟩ : Fl F) * setTail (fun j => (⟨old j⟩ : Fl F)) v j) = z at ha ⊢
  rw [Fin.sum_univ_succ, Fin.sum_univ_succ] at ha
  simp only [setTail, Fin.cons_zero, Fin.cons_succ, hold, abs_one, mul_one] at ha
  have hS : |w 0| + ∑ j, |w (Fin.succ j)| * |(v j).val| ≤ absSum w X E := by
    unfold absSum
    refine add_le_add le_rfl (sum_le_sum fun j _ => mul_le_mul_of_nonneg_left ?_ (abs_nonneg _))
    calc |(v j).val| = |x j + ((v j).val - x j)| := by ring_nf
      _ ≤ |x j| + |(v j).val - x j| := abs_add_le _ _
      _ ≤ X j + E j := add_le_add (hx j) (hE j)
  have hb := ha.weaken h0 h1 hS
  refine ⟨?_, hb.abs_le h0 h1⟩
  have hd : |(w 0 + ∑ j, w (Fin.succ j) * (v j).val) - (w 0 + ∑ j, w (Fin.succ j) * x j)| ≤ ∑ j, |w (Fin.succ j)| * E j := by
    rw [add_sub_add_left_eq_sub, ← sum_sub_distrib]
    refine (abs_sum_le_sum_abs _ _).trans (sum_le_sum fun j _ => ?_)
    rw [← mul_sub, abs_mul]
    exact mul_le_mul_of_nonneg_left (hE j) (abs_nonneg _)
  unfold sumErr
  have h2 := hb.1
  refine le_trans (abs_sub_le _ (w 0 + ∑ j, w (Fin.succ j) * (v j).val) _) ?_
  rw [add_comm]
  exact add_le_add hd h2

/-- one layer -/
theorem fl_layer (l : Layer ℝ nin m) (hb : l.x 0 = 1) (v : Vec (Fl F) nin) (x X E : Vec ℝ nin) (hx : ∀ j, |x j| ≤ X j) (hE : ∀ j, |(v j).val - x j| ≤ E j) (i : Fin m) :
    |(((l.fl F).predict v).y i).val - (l.predict x).y i| ≤ nodeErr F.u l.f (l.w i) X E := by
  obtain ⟨h2, h3⟩ := fl_sum (F := F) (l.w i) l.x hb v x X E hx hE
  rw [layer_predict_y l hb]
  show |(activation l.f false (vsum fun j => (⟨l.w i j⟩ : Fl F) * setTail (fun j => (⟨l.x j⟩ : Fl F)) v j)).val - actSpec l.f (affine l.w x i)| ≤ _
  generalize (vsum fun j => (⟨l.w i j⟩ : Fl F) * setTail (fun j => (⟨l.x j⟩ : Fl F)) v j) = z at h2 h3
  have h4 := fl_act (F := F) l.f z.val _ h3
  have h5 := (act_lipschitz l.f z.val (affine l.w x i)).trans (mul_le_mul_of_nonneg_left h2 (slope_nonneg _))
  unfold nodeErr
  exact (abs_sub_le _ (actSpec l.f z.val) _).trans (add_le_add h4 h5)

theorem fl_hidden : ∀ {nin m : ℕ} (h : Hidden ℝ nin m) (hb : h.BiasOne) (x X : Vec ℝ nin) (hx : ∀ j, |x j| ≤ X j) (i : Fin m),
    |(((h.fl F).predict (x.fl F)).2 i).val - (h.predict x).2 i| ≤ h.err F.u X i
  | _, _, .one l, hb, x, X, hx, i => fl_layer l hb (x.fl F) x X (fun _ => 0) hx (fun j => by simp [Vec.fl]) i
  | _, _, .snoc h l, hb, x, X, hx, i =>
    fl_layer l hb.2 ((h.fl F).predict (x.fl F)).2 (h.predict x).2 (fun _ => 1) (h.err F.u X) (fun j => (hidden_out_lt h hb.1 x j).le) (fl_hidden h hb.1 x X hx) i

/-- C155: `predict` of a network of any depth, with either activation, in rounded arithmetic, for an input with `|x j| <= X j`: output `k` differs from the exact one by at most
`sumErr` of the output weights and the errors of the last hidden layer, which follow layer by layer from the weights alone. -/
theorem C155_predict (n : Net ℝ nin m p) (hb : n.BiasOne) (x X : Vec ℝ nin) (hx : ∀ j, |x j| ≤ X j) (k : Fin p) :
    |(((n.fl F).predictV (x.fl F)).2 k).val - (n.predictV x).2 k| ≤ sumErr F.u (n.w k) (fun _ => 1) (n.hidden.err F.u X) := by
  rw [net_out n hb]
  exact (fl_sum (F := F) (n.w k) n.x hb.2 ((n.hidden.fl F).predict (x.fl F)).2 (n.hidden.predict x).2 (fun _ => 1) (n.hidden.err F.u X)
    (fun j => (hidden_out_lt n.hidden hb.1 x j).le) (fl_hidden n.hidden hb.1 x X hx)).1

/-! ## the bound vanishes with the unit roundoff -/

theorem phi_tendsto (k : ℕ) : Filter.Tendsto (fun u => phi u k) (nhds 0) (nhds 1) := by
  have h : ContinuousAt (fun u => phi u k) 0 := by
    unfold phi
    have : ContinuousAt (fun u : ℝ => (1 - u)) 0 := by fun_prop
    exact (this.pow k).inv₀ (by norm_num)
  have h2 : phi 0 k = 1 := by simp [phi]
  simpa [ContinuousAt, h2] using h

theorem absSum_tendsto {n : ℕ} (w : Vec ℝ (n + 1)) (X : Vec ℝ n) (E : ℝ → Vec ℝ n) (h : ∀ j, Filter.Tendsto (fun u => E u j) (nhds 0) (nhds 0)) :
    Filter.Tendsto (fun u => absSum w X (E u)) (nhds 0) (nhds (absSum w X (fun _ => 0))) := by
  unfold absSum
  exact tendsto_const_nhds.add (tendsto_finsetSum _ fun j _ => tendsto_const_nhds.mul (tendsto_const_nhds.add (h j)))

theorem sumErr_tendsto {n : ℕ} (w : Vec ℝ (n + 1)) (X : Vec ℝ n) (E : ℝ → Vec ℝ n) (h : ∀ j, Filter.Tendsto (fun u => E u j) (nhds 0) (nhds 0)) :
    Filter.Tendsto (fun u => sumErr u w X (E u)) (nhds 0) (nhds 0) := by
  have h1 : Filter.Tendsto (fun u => ∑ j, |w (Fin.succ j)| * E u j) (nhds 0) (nhds (∑ j : Fin n, |w (Fin.succ j)| * 0)) :=
    tendsto_finsetSum _ fun j _ => tendsto_const_nhds.mul (h j)
  have h2 := h1.add ((((phi_tendsto (n + 2)).sub_const 1)).mul (absSum_tendsto w X E h))
  simpa [sumErr] using h2

theorem nodeErr_tendsto (f : Act) {n : ℕ} (w : Vec ℝ (n + 1)) (X : Vec ℝ n) (E : ℝ → Vec ℝ n) (h : ∀ j, Filter.Tendsto (fun u => E u j) (nhds 0) (nhds 0)) :
    Filter.Tendsto (fun u => nodeErr u f w X (E u)) (nhds 0) (nhds 0) := by
  have h1 := (sumErr_tendsto w X E h).const_mul (slope f)
  have h2 : Filter.Tendsto (fun u => actErr u f (phi u (n + 2) * absSum w X (E u))) (nhds 0) (nhds 0) := by
    cases f
    · simpa [actErr] using (phi_tendsto 3).sub_const 1
    · have h3 := (((phi_tendsto 5).sub_const 1).const_mul 2).add (((phi_tendsto 2).sub_const 1).mul ((phi_tendsto (n + 2)).mul (absSum_tendsto w X E h)))
      simpa [actErr] using h3
  simpa [nodeErr] using h2.add h1

theorem err_tendsto : ∀ {nin m : ℕ} (h : Hidden ℝ nin m) (X : Vec ℝ nin) (i : Fin m), Filter.Tendsto (fun u => h.err u X i) (nhds 0) (nhds 0)
  | _, _, .one l, X, i => nodeErr_tendsto l.f (l.w i) X (fun _ _ => 0) (fun _ => tendsto_const_nhds)
  | _, _, .snoc h l, X, i => nodeErr_tendsto l.f (l.w i) (fun _ => 1) (fun u => h.err u X) (err_tendsto h X)

/-- C155: the bound of `C155_predict` goes to 0 with the unit roundoff, for every network: more precise arithmetic gives the outputs of the network as accurately as wanted,
for all inputs in the box `|x j| <= X j` at once. -/
theorem C155_vanishes (n : Net ℝ nin m p) (hb : n.BiasOne) (X : Vec ℝ nin) (ε : ℝ) (hε : 0 < ε) :
    ∃ u0 > 0, ∀ F : Rounding, F.u < u0 → ∀ x : Vec ℝ nin, (∀ j, |x j| ≤ X j) → ∀ k : Fin p, |(((n.fl F).predictV (x.fl F)).2 k).val - (n.predictV x).2 k| < ε := by
  have h : ∀ᶠ u in nhds (0 : ℝ), ∀ k : Fin p, sumErr u (n.w k) (fun _ => 1) (n.hidden.err u X) < ε := by
    rw [Filter.eventually_all]
    intro k
    exact (sumErr_tendsto (n.w k) (fun _ => 1) (fun u => n.hidden.err u X) (err_tendsto n.hidden X)).eventually (gt_mem_nhds hε)
  obtain ⟨u0, hu0, h⟩ := Metric.eventually_nhds_iff.1 h
  refine ⟨u0, hu0, fun F hF x hx k => (C155_predict n hb x X hx k).trans_lt (h ?_ k)⟩
  rw [Real.dist_eq, sub_zero, abs_of_nonneg F.u_nonneg]
  exact hF

/-! ## depth -/

/-- **Specification**: every hidden layer is a sigmoid layer with at most `N` inputs per node, whose weights add up (in absolute value) to at most `R` without and `S` with the bias -/
def Hidden.Tame (N : ℕ) (R S : ℝ) : {nin m : ℕ} → Hidden ℝ nin m → Prop
  | nin, _, .one l => l.f = .sigmoid ∧ nin ≤ N ∧ ∀ i, (∑ j, |l.w i (Fin.succ j)| ≤ R) ∧ |l.w i 0| + ∑ j, |l.w i (Fin.succ j)| ≤ S
  | _, _, .snoc (m := k) h l => h.Tame N R S ∧ l.f = .sigmoid ∧ k ≤ N ∧ ∀ i, (∑ j, |l.w i (Fin.succ j)| ≤ R) ∧ |l.w i 0| + ∑ j, |l.w i (Fin.succ j)| ≤ S

theorem nodeErr_tame {u : ℝ} (h0 : 0 ≤ u) (h1 : u < 1) {n N : ℕ} (hn : n ≤ N) (w : Vec ℝ (n + 1)) (R S a : ℝ) (hR : ∑ j, |w (Fin.succ j)| ≤ R) (hS : |w 0| + ∑ j, |w (Fin.succ j)| ≤ S)
    (X E : Vec ℝ n) (hX : ∀ j, X j ≤ 1) (ha : 0 ≤ a) (hE : ∀ j, E j ≤ a) (hc : R * phi u (N + 2) ≤ 2) :
    nodeErr u .sigmoid w X E ≤ (phi u 3 - 1) + (phi u (N + 2) - 1) * S / 4 + a / 2 := by
  have hr0 : 0 ≤ ∑ j, |w (Fin.succ j)| := sum_nonneg fun j _ => abs_nonneg _
  have e1 : ∑ j, |w (Fin.succ j)| * E j ≤ R * a := by
    refine (sum_le_sum fun j _ => mul_le_mul_of_nonneg_left (hE j) (abs_nonneg _)).trans ?_
    rw [← sum_mul]
    exact mul_le_mul_of_nonneg_right hR ha
  have e2 : absSum w X E ≤ S + R * a := by
    unfold absSum
    have : ∑ j, |w (Fin.succ j)| * (X j + E j) ≤ ∑ j, |w (Fin.succ j)| + R * a := by
      refine le_trans ?_ (add_le_add le_rfl e1)
      rw [← sum_add_distrib]
      refine sum_le_sum fun j _ => ?_
      rw [mul_add]
      exact add_le_add (mul_le_of_le_one_right (abs_nonneg _) (hX j)) le_rfl
    linarith
  have p1 := one_le_phi h0 h1 (n + 2)
  have p2 := phi_mono h0 h1 (show n + 2 ≤ N + 2 by omega)
  have hSR : 0 ≤ S + R * a := by
    have : 0 ≤ R * a := mul_nonneg (hr0.trans hR) ha
    linarith [abs_nonneg (w 0)]
  have e3 : (phi u (n + 2) - 1) * absSum w X E ≤ (phi u (N + 2) - 1) * (S + R * a) :=
    (mul_le_mul_of_nonneg_left e2 (by linarith)).trans (mul_le_mul_of_nonneg_right (by linarith) hSR)
  have e4 := mul_le_mul_of_nonneg_right hc ha
  simp only [nodeErr, actErr, slope, sumErr]
  nlinarith

/-- C155: deep sigmoid networks. If the weights of every node (without the bias) add up to a bit less than 2, the rounding errors do not pile up with the depth: whatever the number of layers,
the hidden outputs are accurate to `2 (phi u 3 - 1) + (phi u (N+2) - 1) S / 2`, about `(6 + (N+2) S / 2) u`. -/
theorem C155_depth {N : ℕ} {R S : ℝ} (hc : R * phi F.u (N + 2) ≤ 2) (hS0 : 0 ≤ S) : ∀ {nin m : ℕ} (h : Hidden ℝ nin m), h.BiasOne → h.Tame N R S → ∀ (x : Vec ℝ nin), (∀ j, |x j| ≤ 1) → ∀ i : Fin m,
    |(((h.fl F).predict (x.fl F)).2 i).val - (h.predict x).2 i| ≤ 2 * (phi F.u 3 - 1) + (phi F.u (N + 2) - 1) * S / 2 := by
  have h0 := F.u_nonneg
  have h1 := F.u_lt
  have p1 := one_le_phi h0 h1 3
  have p2 := one_le_phi h0 h1 (N + 2)
  have p3 : 0 ≤ (phi F.u (N + 2) - 1) * S := mul_nonneg (by linarith) hS0
  have key : ∀ {nin m : ℕ} (h : Hidden ℝ nin m), h.Tame N R S → ∀ i : Fin m, h.err F.u (fun _ => 1) i ≤ 2 * (phi F.u 3 - 1) + (phi F.u (N + 2) - 1) * S / 2 := by
    intro nin m h
    induction h with
    | one l =>
      intro ht i
      simp only [Hidden.Tame] at ht
      obtain ⟨hf, hn, hw⟩ := ht
      have := nodeErr_tame h0 h1 hn (l.w i) R S 0 (hw i).1 (hw i).2 (fun _ => 1) (fun _ => 0) (fun _ => le_rfl) le_rfl (fun _ => le_rfl) hc
      simp only [Hidden.err, hf]
      linarith
    | snoc h l ih =>
      intro ht i
      simp only [Hidden.Tame] at ht
      obtain ⟨ht, hf, hn, hw⟩ := ht
      have := nodeErr_tame h0 h1 hn (l.w i) R S (2 * (phi F.u 3 - 1) + (phi F.u (N + 2) - 1) * S / 2) (hw i).1 (hw i).2 (fun _ => 1) (h.err F.u (fun _ => 1)) (fun _ => le_rfl) (by linarith) (ih ht) hc
      simp only [Hidden.err, hf]
      linarith
  exact fun {_ _} h hb ht x hx i => (fl_hidden h hb x (fun _ => 1) hx i).trans (key h ht i)

/-- a net with two sigmoid layers meets the hypotheses, in double precision -/
example (h : Hidden ℝ 2 2) (hh : h = .snoc (.one (mkLayer (fun (_ : Fin 2) _ => (1 / 2 : ℝ)) .sigmoid 1)) (mkLayer (fun _ _ => 1 / 2) .sigmoid 1)) (i : Fin 2) :
    |(((h.fl (binary 53 (by norm_num))).predict (Vec.fl _ ![1, -1])).2 i).val - (h.predict ![1, -1]).2 i| ≤
      2 * (phi ((1 / 2) ^ 53) 3 - 1) + (phi ((1 / 2) ^ 53) 4 - 1) * (3 / 2) / 2 := by
  refine C155_depth (F := binary 53 (by norm_num)) (N := 2) (R := 1) (S := 3 / 2) ?_ (by norm_num) h ?_ ?_ ![1, -1] ?_ i
  · show 1 * phi ((1 / 2) ^ 53) 4 ≤ 2
    norm_num [phi]
  · subst hh; exact ⟨rfl, rfl⟩
  · subst hh
    simp only [Hidden.Tame]
    refine ⟨⟨rfl, le_rfl, fun i => ?_⟩, rfl, le_rfl, fun i => ?_⟩ <;> simp [mkLayer, Fin.sum_univ_two, abs_of_pos] <;> norm_num
  · intro j; fin_cases j <;> simp

end Padasip
