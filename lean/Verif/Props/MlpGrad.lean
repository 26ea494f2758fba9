import Verif.Props.Mlp
import Verif.Spec.Mlp
import Mathlib.Analysis.Calculus.Deriv.Add
import Mathlib.Analysis.Calculus.Deriv.Mul
import Mathlib.Analysis.Calculus.Deriv.Pow
import Mathlib.Analysis.SpecialFunctions.Trigonometric.DerivHyp

/-!
# C73, C74, C75: activation functions, and the updates of the multi-layer perceptron compared with the gradient of the loss
-/

set_option linter.unusedSectionVars false
set_option linter.unusedSimpArgs false

namespace Padasip

open Finset

/-! ## C73 -/

theorem activation_sigmoid (t : ℝ) : activation .sigmoid false t = 1 / (1 + Real.exp (-t)) := rfl

theorem activation_tanh (t : ℝ) : activation .tanh false t = (1 + 1) / (1 + Real.exp (-(1 + 1) * t)) - 1 := rfl

/-- C73: `activation` computes the documented functions: `"tanh"` is the hyperbolic tangent. -/
theorem C73_activation (f : Act) (t : ℝ) : activation f false t = actSpec f t := by
  cases f
  · rfl
  · rw [activation_tanh]
    show _ = Real.tanh t
    rw [Real.tanh_eq_sinh_div_cosh, Real.sinh_eq, Real.cosh_eq]
    have h1 : Real.exp (-(1 + 1) * t) = Real.exp (-t) * Real.exp (-t) := by rw [← Real.exp_add]; congr 1; ring
    have h2 : Real.exp t * Real.exp (-t) = 1 := by rw [← Real.exp_add]; simp
    have h3 : 0 < Real.exp t := Real.exp_pos _
    have h4 : 0 < Real.exp (-t) := Real.exp_pos _
    rw [h1]
    have h5 : 1 + Real.exp (-t) * Real.exp (-t) ≠ 0 := by positivity
    have h6 : (Real.exp t + Real.exp (-t)) / 2 ≠ 0 := by positivity
    field_simp
    generalize Real.exp t = a at *
    generalize Real.exp (-t) = b at *
    linear_combination (-2 * b) * h2

/-- C73: ranges. -/
theorem C73_range (t : ℝ) : 0 < activation .sigmoid false t ∧ activation .sigmoid false t < 1 ∧
    -1 < activation .tanh false t ∧ activation .tanh false t < 1 := by
  have h1 : 0 < Real.exp (-t) := Real.exp_pos _
  have h2 : 0 < Real.exp (-(1 + 1) * t) := Real.exp_pos _
  rw [activation_sigmoid, activation_tanh]
  refine ⟨by positivity, ?_, ?_, ?_⟩
  · rw [div_lt_one (by positivity)]; linarith
  · have : 0 < (1 + 1) / (1 + Real.exp (-(1 + 1) * t)) := by positivity
    linarith
  · have : (1 + 1) / (1 + Real.exp (-(1 + 1) * t)) < 2 := by
      rw [div_lt_iff₀ (by positivity)]; linarith
    linarith

/-- C73: `der=True`, applied to the *output* of the activation, is the derivative of the activation at the input. -/
theorem C73_derivative (f : Act) (t : ℝ) : HasDerivAt (actSpec f) (activation f true (activation f false t)) t := by
  cases f
  · have h1 : HasDerivAt (fun t : ℝ => 1 + Real.exp (-t)) (-Real.exp (-t)) t := by
      exact (((hasDerivAt_neg t).exp).const_add 1).congr_deriv (by ring)
    have h2 : (1 + Real.exp (-t)) ≠ 0 := by positivity
    have h3 := (hasDerivAt_const t (1 : ℝ)).div h1 h2
    have e : activation .sigmoid true (activation .sigmoid false t) = (1 / (1 + Real.exp (-t))) * (1 - 1 / (1 + Real.exp (-t))) := rfl
    rw [e]
    refine h3.congr_deriv ?_
    field_simp
    ring
  · rw [C73_activation]
    have e : activation .tanh true (actSpec .tanh t) = 1 - Real.tanh t * Real.tanh t := rfl
    rw [e]
    have hc : Real.cosh t ≠ 0 := (Real.cosh_pos t).ne'
    have h := (Real.hasDerivAt_sinh t).div (Real.hasDerivAt_cosh t) hc
    have e2 : (actSpec .tanh) = fun t => Real.sinh t / Real.cosh t := by
      funext s; exact Real.tanh_eq_sinh_div_cosh s
    rw [e2]
    refine h.congr_deriv ?_
    rw [Real.tanh_eq_sinh_div_cosh]
    field_simp

/-! ## The network computes the specification -/

section
variable {nin m q p : ℕ}

/-- the first entry of every stored input is the constant 1 of the bias -/
def Hidden.BiasOne {nin m : ℕ} : Hidden ℝ nin m → Prop
  | .one l => l.x 0 = 1
  | .snoc h l => h.BiasOne ∧ l.x 0 = 1

/-- the bias inputs of all layers are 1 (constructed networks satisfy this and all methods keep it, see below) -/
def Net.BiasOne (n : Net ℝ nin m p) : Prop := n.hidden.BiasOne ∧ n.x 0 = 1

theorem Hidden.BiasOne.predict {nin m : ℕ} {h : Hidden ℝ nin m} (hb : h.BiasOne) (x : Vec ℝ nin) : (h.predict x).1.BiasOne := by
  induction h with
  | one l => exact hb
  | snoc h l ih => exact ⟨ih hb.1, hb.2⟩

theorem Hidden.BiasOne.updateMat {nin m p : ℕ} {h : Hidden ℝ nin m} (hb : h.BiasOne) (w : Mat ℝ p m) (e : Vec ℝ p) : (h.updateMat w e).BiasOne := by
  induction h generalizing p with
  | one l => exact hb
  | snoc h l ih => exact ⟨ih hb.1 _ _, hb.2⟩

theorem Hidden.BiasOne.updateFlat {nin m : ℕ} {h : Hidden ℝ nin m} (hb : h.BiasOne) (w : Vec ℝ m) (e : ℝ) : (h.updateFlat w e).BiasOne := by
  cases h with
  | one l => exact hb
  | snoc h l => exact ⟨hb.1.updateMat _ _, hb.2⟩

/-- C74: `predict` and `update` keep the bias inputs at 1, so every network obtained from the constructor satisfies the hypothesis of the
theorems below. -/
theorem C74_bias (n : Net ℝ nin m p) (h : n.BiasOne) (x : Vec ℝ nin) (d : Vec ℝ p) : (n.predictV x).1.BiasOne ∧ (n.update d).1.BiasOne := by
  refine ⟨⟨h.1.predict x, h.2⟩, ⟨?_, h.2⟩⟩
  show Hidden.BiasOne (if h : p = 1 then _ else _)
  split
  · exact h.1.updateFlat _ _
  · exact h.1.updateMat _ _

/-- C74: a constructed network satisfies it. -/
theorem C74_bias_init (h : Hidden ℝ nin m) (hh : h.IsNew) (w : Mat ℝ p (m + 1)) (mu : ℝ) : (mkNet h w mu).BiasOne := by
  refine ⟨?_, rfl⟩
  show h.BiasOne
  clear w
  induction h with
  | one l => obtain ⟨w, f, mu, rfl⟩ := hh; rfl
  | snoc h l ih =>
    obtain ⟨h1, w, f, mu, rfl⟩ := hh
    exact ⟨ih h1, rfl⟩

example : (mkNet (.snoc (.one (mkLayer (fun _ => ![1, 2]) .tanh 1)) (mkLayer (fun _ : Fin 3 => ![1, -1]) .tanh 1) : Hidden ℝ 1 3)
    (fun _ : Fin 1 => fun _ => 1) 1).BiasOne := by
  refine C74_bias_init _ ?_ _ _
  exact ⟨⟨_, _, _, rfl⟩, _, _, _, rfl⟩

theorem rvsum {n : ℕ} (f : Vec ℝ n) : @vsum ℝ realTransc.toScalar n f = ∑ i, f i := vsum_eq f

theorem affine_setTail {n m : ℕ} (w : Mat ℝ m (n + 1)) (old : Vec ℝ (n + 1)) (h : old 0 = 1) (x : Vec ℝ n) (i : Fin m) :
    @vsum ℝ realTransc.toScalar (n + 1) (fun j => w i j * setTail old x j) = affine w x i := by
  rw [rvsum, Fin.sum_univ_succ]
  unfold setTail affine
  simp [h]

theorem layer_predict_y (l : Layer ℝ nin m) (h : l.x 0 = 1) (x : Vec ℝ nin) : (l.predict x).y = nodes (actSpec l.f) l.w x := by
  funext i
  show activation l.f false (@vsum ℝ realTransc.toScalar (nin + 1) fun j => l.w i j * setTail l.x x j) = _
  rw [affine_setTail _ _ h, C73_activation]
  rfl

theorem layer_predict_x (l : Layer ℝ nin m) (h : l.x 0 = 1) (x : Vec ℝ nin) : (l.predict x).x = Fin.cons 1 x := by
  show setTail l.x x = _
  unfold setTail; rw [h]

/-- C74: with one hidden layer the prediction is the textbook network output. -/
theorem C74_output1 (l : Layer ℝ nin m) (w : Mat ℝ p (m + 1)) (x0 : Vec ℝ (m + 1)) (y0 : Vec ℝ p) (mu : ℝ) (h1 : l.x 0 = 1) (h2 : x0 0 = 1)
    (x : Vec ℝ nin) : (Net.predictV ⟨.one l, w, x0, y0, mu⟩ x).2 = affine w (nodes (actSpec l.f) l.w x) := by
  funext k
  show @vsum ℝ realTransc.toScalar (m + 1) (fun j => w k j * setTail x0 (l.predict x).y j) = _
  rw [affine_setTail _ _ h2, layer_predict_y l h1]

/-- C75: the same with two hidden layers. -/
theorem C75_output2 (l1 : Layer ℝ nin m) (l2 : Layer ℝ m q) (w : Mat ℝ p (q + 1)) (x0 : Vec ℝ (q + 1)) (y0 : Vec ℝ p) (mu : ℝ) (h1 : l1.x 0 = 1)
    (h2 : l2.x 0 = 1) (h3 : x0 0 = 1) (x : Vec ℝ nin) :
    (Net.predictV ⟨.snoc (.one l1) l2, w, x0, y0, mu⟩ x).2 = affine w (nodes (actSpec l2.f) l2.w (nodes (actSpec l1.f) l1.w x)) := by
  funext k
  show @vsum ℝ realTransc.toScalar (q + 1) (fun j => w k j * setTail x0 (l2.predict (l1.predict x).y).y j) = _
  rw [affine_setTail _ _ h3, layer_predict_y l2 h2, layer_predict_y l1 h1]

/-! ## Partial derivatives of the specification -/

theorem setEntry_self {m n : ℕ} (W : Mat ℝ m n) (i : Fin m) (j : Fin n) : setEntry W i j (W i j) = W := by
  funext a b
  unfold setEntry
  split
  · rename_i h; rw [h.1, h.2]
  · rfl

theorem affine_setEntry {n m : ℕ} (W : Mat ℝ m (n + 1)) (x : Vec ℝ n) (i a : Fin m) (j : Fin (n + 1)) (t : ℝ) :
    affine (setEntry W i j t) x a = affine W x a + if a = i then (t - W i j) * (Fin.cons 1 x : Vec ℝ (n + 1)) j else 0 := by
  by_cases ha : a = i
  · subst ha
    rw [if_pos rfl]
    have e : ∀ (W : Mat ℝ m (n + 1)), affine W x a = ∑ b, W a b * (Fin.cons 1 x : Vec ℝ (n + 1)) b := by
      intro W; rw [Fin.sum_univ_succ]; simp [affine]
    rw [e, e, ← sub_eq_iff_eq_add', ← sum_sub_distrib]
    rw [sum_eq_single j]
    · unfold setEntry; rw [if_pos ⟨rfl, rfl⟩]; ring
    · intro b _ hb
      unfold setEntry
      rw [if_neg (fun h => hb h.2)]; ring
    · intro h; exact absurd (mem_univ j) h
  · rw [if_neg ha, add_zero]
    unfold affine setEntry
    simp [ha]

theorem deriv_affine_weight {n m : ℕ} (W : Mat ℝ m (n + 1)) (x : Vec ℝ n) (i a : Fin m) (j : Fin (n + 1)) :
    HasDerivAt (fun t => affine (setEntry W i j t) x a) (if a = i then (Fin.cons 1 x : Vec ℝ (n + 1)) j else 0) (W i j) := by
  simp only [affine_setEntry]
  split
  · have := (((hasDerivAt_id (W i j)).sub_const (W i j)).mul_const ((Fin.cons 1 x : Vec ℝ (n + 1)) j)).const_add (affine W x a)
    simpa using this
  · simpa using hasDerivAt_const (W i j) (affine W x a)

theorem deriv_affine_input {n m : ℕ} (V : Mat ℝ m (n + 1)) (z : ℝ → Vec ℝ n) (z' : Vec ℝ n) (t : ℝ) (h : ∀ i, HasDerivAt (fun s => z s i) (z' i) t) (k : Fin m) :
    HasDerivAt (fun s => affine V (z s) k) (∑ i, V k i.succ * z' i) t := by
  unfold affine
  refine HasDerivAt.const_add _ ?_
  exact HasDerivAt.fun_sum (u := univ) (A := fun i s => V k (Fin.succ i) * z s i) (A' := fun i => V k i.succ * z' i) (x := t)
    fun i _ => (h i).const_mul _

theorem deriv_act (f : Act) (a : ℝ → ℝ) (a' t : ℝ) (h : HasDerivAt a a' t) :
    HasDerivAt (fun s => actSpec f (a s)) (activation f true (actSpec f (a t)) * a') t := by
  have := C73_derivative f (a t)
  rw [C73_activation] at this
  exact this.comp t h

theorem deriv_halfSq {p : ℕ} (d : Vec ℝ p) (o : ℝ → Vec ℝ p) (o' : Vec ℝ p) (t : ℝ) (h : ∀ k, HasDerivAt (fun s => o s k) (o' k) t) :
    HasDerivAt (fun s => halfSq d (o s)) (∑ k, -(d k - o t k) * o' k) t := by
  unfold halfSq
  exact HasDerivAt.fun_sum (u := univ) (A := fun k s => (d k - o s k) ^ 2 / 2) (A' := fun k => -(d k - o t k) * o' k) (x := t) fun k _ =>
    ((((h k).const_sub (d k)).fun_pow 2).div_const 2).congr_deriv (by simp; ring)

/-- partial derivative with respect to an output weight, for any inner layers -/
theorem isPartial_out {n p : ℕ} (z : Vec ℝ n) (V : Mat ℝ p (n + 1)) (d : Vec ℝ p) (k : Fin p) (j : Fin (n + 1)) :
    IsPartial (fun V => halfSq d (affine V z)) V k j (-((d k - affine V z k) * (Fin.cons 1 z : Vec ℝ (n + 1)) j)) := by
  have h := deriv_halfSq d (fun t => affine (setEntry V k j t) z) (fun a => if a = k then (Fin.cons 1 z : Vec ℝ (n + 1)) j else 0) (V k j)
    fun a => deriv_affine_weight V z k a j
  refine h.congr_deriv ?_
  rw [setEntry_self]
  simp
  ring

/-- partial derivative with respect to a weight of the last hidden layer -/
theorem isPartial_last {n m p : ℕ} (f : Act) (W : Mat ℝ m (n + 1)) (V : Mat ℝ p (m + 1)) (x : Vec ℝ n) (d : Vec ℝ p) (i : Fin m) (j : Fin (n + 1)) :
    IsPartial (fun W => loss1 (actSpec f) W V x d) W i j
      (-(activation f true (nodes (actSpec f) W x i) * (∑ k, (d k - affine V (nodes (actSpec f) W x) k) * V k i.succ) *
        (Fin.cons 1 x : Vec ℝ (n + 1)) j)) := by
  have h1 : ∀ a, HasDerivAt (fun t => nodes (actSpec f) (setEntry W i j t) x a)
      (activation f true (nodes (actSpec f) W x a) * if a = i then (Fin.cons 1 x : Vec ℝ (n + 1)) j else 0) (W i j) := by
    intro a
    have := deriv_act f _ _ _ (deriv_affine_weight W x i a j)
    rw [setEntry_self] at this
    exact this
  have h2 := fun k => deriv_affine_input V (fun t => nodes (actSpec f) (setEntry W i j t) x) _ (W i j) h1 k
  have h3 := deriv_halfSq d _ _ _ h2
  refine h3.congr_deriv ?_
  rw [setEntry_self, mul_sum, sum_mul, ← sum_neg_distrib]
  refine sum_congr rfl fun k _ => ?_
  rw [sum_eq_single i (fun a _ ha => by rw [if_neg ha]; ring) (fun h => absurd (mem_univ i) h), if_pos rfl]
  ring

/-- partial derivative with respect to a weight of the first of two hidden layers -/
theorem isPartial_first {n m q p : ℕ} (f : Act) (W1 : Mat ℝ m (n + 1)) (W2 : Mat ℝ q (m + 1)) (V : Mat ℝ p (q + 1)) (x : Vec ℝ n) (d : Vec ℝ p)
    (i : Fin m) (j : Fin (n + 1)) :
    IsPartial (fun W1 => loss2 (actSpec f) W1 W2 V x d) W1 i j
      (-(activation f true (nodes (actSpec f) W1 x i) *
          (∑ a, activation f true (nodes (actSpec f) W2 (nodes (actSpec f) W1 x) a) *
            (∑ k, (d k - affine V (nodes (actSpec f) W2 (nodes (actSpec f) W1 x)) k) * V k a.succ) * W2 a i.succ) *
        (Fin.cons 1 x : Vec ℝ (n + 1)) j)) := by
  have h1 : ∀ a, HasDerivAt (fun t => nodes (actSpec f) (setEntry W1 i j t) x a)
      (activation f true (nodes (actSpec f) W1 x a) * if a = i then (Fin.cons 1 x : Vec ℝ (n + 1)) j else 0) (W1 i j) := by
    intro a
    have := deriv_act f _ _ _ (deriv_affine_weight W1 x i a j)
    rw [setEntry_self] at this
    exact this
  have h2 : ∀ a, HasDerivAt (fun t => nodes (actSpec f) W2 (nodes (actSpec f) (setEntry W1 i j t) x) a)
      (activation f true (nodes (actSpec f) W2 (nodes (actSpec f) W1 x) a) *
        (W2 a i.succ * (activation f true (nodes (actSpec f) W1 x i) * (Fin.cons 1 x : Vec ℝ (n + 1)) j))) (W1 i j) := by
    intro a
    have := deriv_act f _ _ _ (deriv_affine_input W2 (fun t => nodes (actSpec f) (setEntry W1 i j t) x) _ (W1 i j) h1 a)
    rw [setEntry_self] at this
    refine this.congr_deriv ?_
    rw [sum_eq_single i (fun a _ ha => by rw [if_neg ha]; ring) (fun h => absurd (mem_univ i) h), if_pos rfl]
    rfl
  have h3 := fun k => deriv_affine_input V (fun t => nodes (actSpec f) W2 (nodes (actSpec f) (setEntry W1 i j t) x)) _ (W1 i j) h2 k
  have h4 := deriv_halfSq d _ _ _ h3
  refine h4.congr_deriv ?_
  rw [setEntry_self]
  simp only [mul_sum, sum_mul, ← sum_neg_distrib]
  rw [sum_comm]
  exact sum_congr rfl fun a _ => sum_congr rfl fun k _ => by ring

/-! ## C74 -/

/-- C74: with one hidden layer and one output, `predict(x)` followed by `update(d)` moves **every** weight by minus the learning rate (of its layer)
times the partial derivative of `(d - y)^2 / 2` at the old weights; the returned error is the target minus the prediction. -/
theorem C74_gradient (l : Layer ℝ nin m) (v : Mat ℝ 1 (m + 1)) (x0 : Vec ℝ (m + 1)) (y0 : Vec ℝ 1) (mu : ℝ) (h1 : l.x 0 = 1) (h2 : x0 0 = 1)
    (x : Vec ℝ nin) (d : Vec ℝ 1) :
    ∃ l' v' x1 y1 e, (Net.predictV ⟨.one l, v, x0, y0, mu⟩ x).1.update d = (⟨.one l', v', x1, y1, mu⟩, e) ∧
      (∀ k, e k = d k - affine v (nodes (actSpec l.f) l.w x) k) ∧
      (∀ k j, ∃ g, IsPartial (fun V => loss1 (actSpec l.f) l.w V x d) v k j g ∧ v' k j = v k j - mu * g) ∧
      (∀ i j, ∃ g, IsPartial (fun W => loss1 (actSpec l.f) W v x d) l.w i j g ∧ l'.w i j = l.w i j - l.mu * g) := by
  have hy := C74_output1 l v x0 y0 mu h1 h2 x
  have hy' : ∀ k, (Net.predictV ⟨.one l, v, x0, y0, mu⟩ x).1.y k = affine v (nodes (actSpec l.f) l.w x) k := fun k => congrFun hy k
  have hx : ∀ j, (Net.predictV ⟨.one l, v, x0, y0, mu⟩ x).1.x j = (Fin.cons 1 (nodes (actSpec l.f) l.w x) : Vec ℝ (m + 1)) j := by
    intro j
    show setTail x0 (l.predict x).y j = _
    rw [layer_predict_y l h1]; unfold setTail; rw [h2]
  refine ⟨_, _, _, _, _, rfl, ?_, ?_, ?_⟩
  · intro k
    show d k - (Net.predictV ⟨.one l, v, x0, y0, mu⟩ x).1.y k = _
    rw [hy']
  · intro k j
    refine ⟨_, isPartial_out (nodes (actSpec l.f) l.w x) v d k j, ?_⟩
    show v k j + mu * (d k - (Net.predictV ⟨.one l, v, x0, y0, mu⟩ x).1.y k) * (Net.predictV ⟨.one l, v, x0, y0, mu⟩ x).1.x j = _
    rw [hy', hx]; ring
  · intro i j
    refine ⟨_, isPartial_last l.f l.w v x d i j, ?_⟩
    show l.w i j + l.mu * (activation l.f true ((l.predict x).y i) * (d 0 - (Net.predictV ⟨.one l, v, x0, y0, mu⟩ x).1.y 0) * v 0 i.succ * (l.predict x).x j) = _
    rw [hy', layer_predict_y l h1, layer_predict_x l h1]
    simp only [univ_unique, Fin.default_eq_zero, sum_singleton]
    ring

/-! ## C75 -/

/-- C75: with one hidden layer and several outputs the output weights follow the gradient, but every weight of hidden node `i` moves by
`1 - y_i` times the gradient step, `y_i` the output of that node. -/
theorem C75_several_outputs (hp : p ≠ 1) (l : Layer ℝ nin m) (v : Mat ℝ p (m + 1)) (x0 : Vec ℝ (m + 1)) (y0 : Vec ℝ p) (mu : ℝ) (h1 : l.x 0 = 1)
    (h2 : x0 0 = 1) (x : Vec ℝ nin) (d : Vec ℝ p) :
    ∃ l' v' x1 y1 e, (Net.predictV ⟨.one l, v, x0, y0, mu⟩ x).1.update d = (⟨.one l', v', x1, y1, mu⟩, e) ∧
      (∀ k, e k = d k - affine v (nodes (actSpec l.f) l.w x) k) ∧
      (∀ k j, ∃ g, IsPartial (fun V => loss1 (actSpec l.f) l.w V x d) v k j g ∧ v' k j = v k j - mu * g) ∧
      (∀ i j, ∃ g, IsPartial (fun W => loss1 (actSpec l.f) W v x d) l.w i j g ∧
        l'.w i j = l.w i j - l.mu * ((1 - nodes (actSpec l.f) l.w x i) * g)) := by
  have hy := C74_output1 l v x0 y0 mu h1 h2 x
  have hy' : ∀ k, (Net.predictV ⟨.one l, v, x0, y0, mu⟩ x).1.y k = affine v (nodes (actSpec l.f) l.w x) k := fun k => congrFun hy k
  have hx : ∀ j, (Net.predictV ⟨.one l, v, x0, y0, mu⟩ x).1.x j = (Fin.cons 1 (nodes (actSpec l.f) l.w x) : Vec ℝ (m + 1)) j := by
    intro j
    show setTail x0 (l.predict x).y j = _
    rw [layer_predict_y l h1]; unfold setTail; rw [h2]
  have hu : ∀ (n : Net ℝ nin m p), n.update d = (⟨n.hidden.updateMat (dropBias n.w) (fun k => d k - n.y k),
      fun k j => n.w k j + n.mu * ((d k - n.y k) * n.x j), n.x, n.y, n.mu⟩, fun k => d k - n.y k) := by
    intro n
    unfold Net.update
    simp only [hp, dif_neg, if_false, not_false_eq_true]
  rw [hu]
  refine ⟨_, _, _, _, _, rfl, ?_, ?_, ?_⟩
  · intro k; rw [hy']
  · intro k j
    refine ⟨_, isPartial_out (nodes (actSpec l.f) l.w x) v d k j, ?_⟩
    show v k j + mu * ((d k - (Net.predictV ⟨.one l, v, x0, y0, mu⟩ x).1.y k) * (Net.predictV ⟨.one l, v, x0, y0, mu⟩ x).1.x j) = _
    rw [hy', hx]; ring
  · intro i j
    refine ⟨_, isPartial_last l.f l.w v x d i j, ?_⟩
    show l.w i j + l.mu * (activation l.f true ((l.predict x).y i) * (1 - (l.predict x).y i) *
      (@vsum ℝ realTransc.toScalar p fun k => (d k - (Net.predictV ⟨.one l, v, x0, y0, mu⟩ x).1.y k) * v k i.succ) * (l.predict x).x j) = _
    rw [rvsum, layer_predict_y l h1, layer_predict_x l h1]
    simp only [hy']
    ring

/-- C75: with two hidden layers (both with the activation `f`) and one output, the output weights and the second hidden layer follow the gradient.
The first hidden layer does not: its step is `1 - y_i` times the gradient step, and contains a further term because it is computed with
the already updated weights of the second layer (`δ a` is the back-propagated error of node `a` of the second layer). -/
theorem C75_two_layers (l1 : Layer ℝ nin m) (l2 : Layer ℝ m q) (hf : l2.f = l1.f) (v : Mat ℝ 1 (q + 1)) (x0 : Vec ℝ (q + 1)) (y0 : Vec ℝ 1) (mu : ℝ)
    (h1 : l1.x 0 = 1) (h2 : l2.x 0 = 1) (h3 : x0 0 = 1) (x : Vec ℝ nin) (d : Vec ℝ 1) :
    ∃ l1' l2' v' x1 y1 e, (Net.predictV ⟨.snoc (.one l1) l2, v, x0, y0, mu⟩ x).1.update d = (⟨.snoc (.one l1') l2', v', x1, y1, mu⟩, e) ∧
      (∀ k j, ∃ g, IsPartial (fun V => loss2 (actSpec l1.f) l1.w l2.w V x d) v k j g ∧ v' k j = v k j - mu * g) ∧
      (∀ i j, ∃ g, IsPartial (fun W => loss2 (actSpec l1.f) l1.w W v x d) l2.w i j g ∧ l2'.w i j = l2.w i j - l2.mu * g) ∧
      (∀ i j, ∃ g, IsPartial (fun W => loss2 (actSpec l1.f) W l2.w v x d) l1.w i j g ∧
        l1'.w i j = l1.w i j - l1.mu * ((1 - nodes (actSpec l1.f) l1.w x i) *
          (g - l2.mu * (activation l1.f true (nodes (actSpec l1.f) l1.w x i) * nodes (actSpec l1.f) l1.w x i *
            (∑ a, (activation l1.f true (nodes (actSpec l1.f) l2.w (nodes (actSpec l1.f) l1.w x) a) *
              ((d 0 - affine v (nodes (actSpec l1.f) l2.w (nodes (actSpec l1.f) l1.w x)) 0) * v 0 a.succ)) ^ 2) *
            (Fin.cons 1 x : Vec ℝ (nin + 1)) j)))) := by
  have hy := C75_output2 l1 l2 v x0 y0 mu h1 h2 h3 x
  rw [hf] at hy
  have hy' : ∀ k, (Net.predictV ⟨.snoc (.one l1) l2, v, x0, y0, mu⟩ x).1.y k = affine v (nodes (actSpec l1.f) l2.w (nodes (actSpec l1.f) l1.w x)) k :=
    fun k => congrFun hy k
  have hz1 := layer_predict_y l1 h1 x
  have hz2 : (l2.predict (l1.predict x).y).y = nodes (actSpec l1.f) l2.w (nodes (actSpec l1.f) l1.w x) := by rw [layer_predict_y l2 h2, hz1, hf]
  have hx2 : (l2.predict (l1.predict x).y).x = Fin.cons 1 (nodes (actSpec l1.f) l1.w x) := by rw [layer_predict_x l2 h2, hz1]
  have hx1 := layer_predict_x l1 h1 x
  have hx : ∀ j, (Net.predictV ⟨.snoc (.one l1) l2, v, x0, y0, mu⟩ x).1.x j =
      (Fin.cons 1 (nodes (actSpec l1.f) l2.w (nodes (actSpec l1.f) l1.w x)) : Vec ℝ (q + 1)) j := by
    intro j
    show setTail x0 (l2.predict (l1.predict x).y).y j = _
    rw [hz2]; unfold setTail; rw [h3]
  refine ⟨_, _, _, _, _, _, rfl, ?_, ?_, ?_⟩
  · intro k j
    refine ⟨_, isPartial_out (nodes (actSpec l1.f) l2.w (nodes (actSpec l1.f) l1.w x)) v d k j, ?_⟩
    show v k j + mu * (d k - (Net.predictV ⟨.snoc (.one l1) l2, v, x0, y0, mu⟩ x).1.y k) * (Net.predictV ⟨.snoc (.one l1) l2, v, x0, y0, mu⟩ x).1.x j = _
    rw [hy', hx]; ring
  · intro i j
    refine ⟨_, isPartial_last l1.f l2.w v (nodes (actSpec l1.f) l1.w x) d i j, ?_⟩
    show l2.w i j + l2.mu * (activation l2.f true ((l2.predict (l1.predict x).y).y i) *
      (d 0 - (Net.predictV ⟨.snoc (.one l1) l2, v, x0, y0, mu⟩ x).1.y 0) * v 0 i.succ * (l2.predict (l1.predict x).y).x j) = _
    rw [hy', hz2, hx2, hf]
    simp only [univ_unique, Fin.default_eq_zero, sum_singleton]
    ring
  · intro i j
    refine ⟨_, isPartial_first l1.f l1.w l2.w v x d i j, ?_⟩
    show l1.w i j + l1.mu * (activation l1.f true ((l1.predict x).y i) * (1 - (l1.predict x).y i) *
      (@vsum ℝ realTransc.toScalar q fun a => (activation l2.f true ((l2.predict (l1.predict x).y).y a) *
          (d 0 - (Net.predictV ⟨.snoc (.one l1) l2, v, x0, y0, mu⟩ x).1.y 0) * v 0 a.succ) *
        (l2.w a i.succ + l2.mu * ((activation l2.f true ((l2.predict (l1.predict x).y).y a) *
          (d 0 - (Net.predictV ⟨.snoc (.one l1) l2, v, x0, y0, mu⟩ x).1.y 0) * v 0 a.succ) * (l2.predict (l1.predict x).y).x i.succ))) *
      (l1.predict x).x j) = _
    rw [rvsum, hy', hz2, hx2, hz1, hx1, hf]
    simp only [univ_unique, Fin.default_eq_zero, sum_singleton, Fin.cons_succ]
    rw [sub_eq_add_neg]
    congr 1
    generalize (d 0 - affine v (nodes (actSpec l1.f) l2.w (nodes (actSpec l1.f) l1.w x)) 0) = e
    generalize nodes (actSpec l1.f) l2.w (nodes (actSpec l1.f) l1.w x) = z2
    generalize nodes (actSpec l1.f) l1.w x = z1
    generalize (Fin.cons 1 x : Vec ℝ (nin + 1)) j = xj
    have e1 : ∑ a, activation l1.f true (z2 a) * e * v 0 a.succ *
          (l2.w a i.succ + l2.mu * (activation l1.f true (z2 a) * e * v 0 a.succ * z1 i)) =
        (∑ a, activation l1.f true (z2 a) * (e * v 0 a.succ) * l2.w a i.succ) +
          l2.mu * z1 i * ∑ a, (activation l1.f true (z2 a) * (e * v 0 a.succ)) ^ 2 := by
      rw [mul_sum, ← sum_add_distrib]
      exact sum_congr rfl fun a _ => by ring
    rw [e1]
    ring

/-- C75: consequence for the sigmoid: with several outputs a step of a hidden weight still has the descent direction, but it is the gradient step only
where the partial derivative vanishes. -/
theorem C75_several_outputs_never (hp : p ≠ 1) (l : Layer ℝ nin m) (hf : l.f = .sigmoid) (hmu : 0 < l.mu) (v : Mat ℝ p (m + 1)) (x0 : Vec ℝ (m + 1))
    (y0 : Vec ℝ p) (mu : ℝ) (h1 : l.x 0 = 1) (h2 : x0 0 = 1) (x : Vec ℝ nin) (d : Vec ℝ p) (i : Fin m) (j : Fin (nin + 1)) :
    ∃ l' v' x1 y1 e, (Net.predictV ⟨.one l, v, x0, y0, mu⟩ x).1.update d = (⟨.one l', v', x1, y1, mu⟩, e) ∧
      ∀ g, IsPartial (fun W => loss1 (actSpec l.f) W v x d) l.w i j g →
        (l'.w i j - l.w i j) * g ≤ 0 ∧ ((l'.w i j - l.w i j) * g = 0 ↔ g = 0) ∧ (l'.w i j = l.w i j - l.mu * g ↔ g = 0) := by
  obtain ⟨l', v', x1, y1, e, a, _, _, b⟩ := C75_several_outputs hp l v x0 y0 mu h1 h2 x d
  refine ⟨l', v', x1, y1, e, a, fun g hg => ?_⟩
  obtain ⟨g', hg', hs⟩ := b i j
  have hgg : g = g' := HasDerivAt.unique hg hg'
  subst hgg
  obtain ⟨r1, r2, _, _⟩ := C73_range (affine l.w x i)
  rw [C73_activation] at r1 r2
  have e1 : nodes (actSpec l.f) l.w x i = actSpec .sigmoid (affine l.w x i) := by rw [hf]; rfl
  rw [← e1] at r1 r2
  rw [hs]
  generalize nodes (actSpec l.f) l.w x i = y at *
  have hc : 0 < l.mu * (1 - y) := mul_pos hmu (by linarith)
  have e2 : (l.w i j - l.mu * ((1 - y) * g) - l.w i j) * g = -(l.mu * (1 - y) * (g * g)) := by ring
  rw [e2]
  refine ⟨by nlinarith [mul_nonneg hc.le (mul_self_nonneg g)], ?_, ?_⟩
  · rw [neg_eq_zero, mul_eq_zero, mul_self_eq_zero]
    exact ⟨fun h => h.resolve_left hc.ne', Or.inr⟩
  · constructor
    · intro h
      have : l.mu * y * g = 0 := by linarith
      rcases mul_eq_zero.mp this with h | h
      · rcases mul_eq_zero.mp h with h | h
        · exact absurd h hmu.ne'
        · exact absurd h r1.ne'
      · exact h
    · intro h; rw [h]; ring

/-- a hidden layer with one node, one input, sigmoid, bias weight `b` and weight `a` -/
noncomputable def wLayer (b a : ℝ) : Layer ℝ 1 1 := mkLayer (fun _ => ![b, a]) .sigmoid 1

theorem sig_zero : actSpec .sigmoid 0 = 1 / 2 := by
  unfold actSpec
  norm_num

/-- witness for C75 (several outputs): the hypotheses are satisfiable with a nonzero partial derivative, so the step is not the gradient step. -/
theorem C75_several_outputs_witness : ∃ (l : Layer ℝ 1 1) (v : Mat ℝ 2 2) (x0 : Vec ℝ 2) (x : Vec ℝ 1) (d : Vec ℝ 2), l.x 0 = 1 ∧ x0 0 = 1 ∧
    ∃ l' v' x1 y1 e, (Net.predictV ⟨.one l, v, x0, fun _ => 0, 1⟩ x).1.update d = (⟨.one l', v', x1, y1, 1⟩, e) ∧
      ∀ g, IsPartial (fun W => loss1 (actSpec l.f) W v x d) l.w 0 0 g → l'.w 0 0 ≠ l.w 0 0 - l.mu * g := by
  refine ⟨wLayer 0 0, fun _ => ![0, 1], fun _ => 1, fun _ => 1, fun _ => 3 / 2, rfl, rfl, ?_⟩
  obtain ⟨l', v', x1, y1, e, a, b⟩ := C75_several_outputs_never (p := 2) (by norm_num) (wLayer 0 0) rfl (by show (0 : ℝ) < 1; norm_num)
    (fun _ => ![0, 1]) (fun _ => 1) (fun _ => 0) 1 rfl rfl (fun _ => 1) (fun _ => 3 / 2) 0 0
  refine ⟨l', v', x1, y1, e, a, fun g hg => ?_⟩
  rw [Ne, (b g hg).2.2]
  have hz : nodes (actSpec .sigmoid) (wLayer 0 0).w (fun _ => (1 : ℝ)) = fun _ => 1 / 2 := by
    funext i
    show actSpec .sigmoid (affine _ _ i) = _
    rw [show affine (wLayer 0 0).w (fun _ => (1 : ℝ)) i = 0 by unfold affine wLayer mkLayer; simp]
    exact sig_zero
  have h := isPartial_last .sigmoid (wLayer 0 0).w (fun _ : Fin 2 => (![0, 1] : Vec ℝ 2)) (fun _ => 1) (fun _ => 3 / 2) 0 0
  have e1 : g = _ := HasDerivAt.unique hg h
  rw [e1, hz]
  unfold affine activation
  norm_num

/-- witness for C75 (two hidden layers): two sigmoid layers of one node, all learning rates 1; the bias weight of the first layer does not follow the
gradient. -/
theorem C75_two_layers_witness : ∃ (l1 l2 : Layer ℝ 1 1) (v : Mat ℝ 1 2) (x0 : Vec ℝ 2) (x d : Vec ℝ 1), l1.x 0 = 1 ∧ l2.x 0 = 1 ∧ x0 0 = 1 ∧
    l2.f = l1.f ∧
    ∃ (l1' l2' : Layer ℝ 1 1) (v' : Mat ℝ 1 2) (x1 : Vec ℝ 2) (y1 e : Vec ℝ 1), (Net.predictV ⟨.snoc (.one l1) l2, v, x0, fun _ => 0, 1⟩ x).1.update d = (⟨.snoc (.one l1') l2', v', x1, y1, 1⟩, e) ∧
      ∀ g, IsPartial (fun W => loss2 (actSpec l1.f) W l2.w v x d) l1.w 0 0 g → l1'.w 0 0 ≠ l1.w 0 0 - l1.mu * g := by
  refine ⟨wLayer 0 0, wLayer (-1 / 2) 1, fun _ => ![0, 1], fun _ => 1, fun _ => 1, fun _ => 3 / 2, rfl, rfl, rfl, rfl, ?_⟩
  obtain ⟨l1', l2', v', x1, y1, e, a, _, _, b⟩ := C75_two_layers (wLayer 0 0) (wLayer (-1 / 2) 1) rfl
    (fun _ => ![0, 1]) (fun _ => 1) (fun _ => 0) 1 rfl rfl rfl (fun _ => 1) (fun _ => 3 / 2)
  refine ⟨l1', l2', v', x1, y1, e, a, fun g hg => ?_⟩
  obtain ⟨g', hg', hs⟩ := b 0 0
  have hgg : g = g' := HasDerivAt.unique hg hg'
  subst hgg
  have hz : nodes (actSpec .sigmoid) (wLayer 0 0).w (fun _ => (1 : ℝ)) = fun _ => 1 / 2 := by
    funext i
    show actSpec .sigmoid (affine _ _ i) = _
    rw [show affine (wLayer 0 0).w (fun _ => (1 : ℝ)) i = 0 by unfold affine wLayer mkLayer; simp]
    exact sig_zero
  have hz2 : nodes (actSpec .sigmoid) (wLayer (-1 / 2) 1).w (fun _ => (1 / 2 : ℝ)) = fun _ => 1 / 2 := by
    funext i
    show actSpec .sigmoid (affine _ _ i) = _
    rw [show affine (wLayer (-1 / 2) 1).w (fun _ => (1 / 2 : ℝ)) i = 0 by unfold affine wLayer mkLayer; simp; norm_num]
    exact sig_zero
  have h := isPartial_first .sigmoid (wLayer 0 0).w (wLayer (-1 / 2) 1).w (fun _ : Fin 1 => (![0, 1] : Vec ℝ 2)) (fun _ => 1) (fun _ => 3 / 2) 0 0
  have e1 : g = _ := HasDerivAt.unique hg h
  rw [hs]
  have ef : (wLayer 0 0).f = .sigmoid := rfl
  rw [ef, hz, hz2]
  rw [hz, hz2] at e1
  rw [e1]
  unfold affine activation wLayer mkLayer
  norm_num

end

/-- the hypotheses of C74 and C75: new layers with two and three nodes and any weights (see also the witnesses above) -/
example (W : Mat ℝ 2 4) (V : Mat ℝ 3 3) : ∃ (l1 : Layer ℝ 3 2) (l2 : Layer ℝ 2 3) (x0 : Vec ℝ 4), l2.f = l1.f ∧ l1.x 0 = 1 ∧ l2.x 0 = 1 ∧ x0 0 = 1 ∧ 0 < l1.mu ∧
    l1.w = W ∧ l2.w = V :=
  ⟨mkLayer W .sigmoid (1 / 2), mkLayer V .sigmoid (1 / 2), fun _ => 1, rfl, rfl, rfl, rfl, by show (0 : ℝ) < 1 / 2; norm_num, rfl, rfl⟩

end Padasip
