import Verif.Props.MlpGrad

/-!
# C103: an update with a small enough learning rate reduces the error on its sample
-/

set_option linter.unusedSectionVars false
set_option linter.unusedSimpArgs false
set_option linter.unusedVariables false

namespace Padasip

open Finset

variable {nin m q p : ℕ}

/-- the input of a layer with the leading 1 of the bias -/
def biased {n : ℕ} (x : Vec ℝ n) : Vec ℝ (n + 1) := Fin.cons 1 x

/-- the squared length of the biased input is at least 1 -/
theorem one_le_biased {n : ℕ} (x : Vec ℝ n) : 1 ≤ ∑ j, biased x j * biased x j := by
  rw [Fin.sum_univ_succ]
  have : 0 ≤ ∑ i : Fin n, biased x i.succ * biased x i.succ := sum_nonneg fun i _ => mul_self_nonneg _
  have h0 : biased x 0 = 1 := rfl
  rw [h0]; linarith

theorem affine_biased {n m : ℕ} (W : Mat ℝ m (n + 1)) (x : Vec ℝ n) (i : Fin m) : affine W x i = ∑ j, W i j * biased x j := by
  rw [Fin.sum_univ_succ]
  unfold affine biased
  simp

/-- weights and input of an affine map move -/
theorem deriv_affine_both {n m : ℕ} (W : ℝ → Mat ℝ m (n + 1)) (W' : Mat ℝ m (n + 1)) (z : ℝ → Vec ℝ n) (z' : Vec ℝ n) (t : ℝ)
    (hW : ∀ i j, HasDerivAt (fun s => W s i j) (W' i j) t) (hz : ∀ i, HasDerivAt (fun s => z s i) (z' i) t) (k : Fin m) :
    HasDerivAt (fun s => affine (W s) (z s) k) ((∑ j, W' k j * biased (z t) j) + ∑ i, W t k i.succ * z' i) t := by
  have h1 : HasDerivAt (fun s => ∑ i, W s k (Fin.succ i) * z s i) (∑ i, (W' k (Fin.succ i) * z t i + W t k (Fin.succ i) * z' i)) t :=
    HasDerivAt.fun_sum (u := univ) (A := fun i s => W s k (Fin.succ i) * z s i) (A' := fun i => W' k (Fin.succ i) * z t i + W t k (Fin.succ i) * z' i) (x := t)
      fun i _ => (hW k i.succ).mul (hz i)
  have h2 := (hW k 0).add h1
  unfold affine
  refine h2.congr_deriv ?_
  rw [sum_add_distrib, Fin.sum_univ_succ (fun j => W' k j * biased (z t) j)]
  unfold biased
  simp
  ring

/-- ... through the activation -/
theorem deriv_nodes_both {n m : ℕ} (f : Act) (W : ℝ → Mat ℝ m (n + 1)) (W' : Mat ℝ m (n + 1)) (z : ℝ → Vec ℝ n) (z' : Vec ℝ n) (t : ℝ)
    (hW : ∀ i j, HasDerivAt (fun s => W s i j) (W' i j) t) (hz : ∀ i, HasDerivAt (fun s => z s i) (z' i) t) (k : Fin m) :
    HasDerivAt (fun s => nodes (actSpec f) (W s) (z s) k)
      (activation f true (nodes (actSpec f) (W t) (z t) k) * ((∑ j, W' k j * biased (z t) j) + ∑ i, W t k i.succ * z' i)) t :=
  deriv_act f _ _ _ (deriv_affine_both W W' z z' t hW hz k)

/-- a function with a negative derivative at 0 takes smaller values just after 0 -/
theorem eventually_smaller {L : ℝ → ℝ} {g : ℝ} (h : HasDerivAt L g 0) (hg : g < 0) : ∃ η0 > 0, ∀ η, 0 < η → η < η0 → L η < L 0 := by
  have h1 := h.tendsto_slope_zero_right
  have h2 := h1.eventually (gt_mem_nhds hg)
  rw [eventually_nhdsWithin_iff, Metric.eventually_nhds_iff] at h2
  obtain ⟨ε, hε, h3⟩ := h2
  refine ⟨ε, hε, fun η h0 hη => ?_⟩
  have h4 := h3 (y := η) (by rw [Real.dist_eq, sub_zero, abs_of_pos h0]; exact hη) h0
  simp only [zero_add, smul_eq_mul] at h4
  have h5 : L η - L 0 < 0 := by
    by_contra hc
    push Not at hc
    exact absurd h4 (not_lt.2 (mul_nonneg (inv_nonneg.2 h0.le) hc))
  linarith

/-! ## One hidden layer -/

/-- the factor by which the code multiplies the back-propagated error of a node with output `z` in a network with `p` outputs -/
noncomputable def stepFactor (p : ℕ) (z : ℝ) : ℝ := if p = 1 then 1 else 1 - z

theorem actSpec_lt_one (f : Act) (t : ℝ) : actSpec f t < 1 := by
  obtain ⟨h1, h2, h3, h4⟩ := C73_range t
  cases f
  · rw [← C73_activation]; exact h2
  · rw [← C73_activation]; exact h4

theorem stepFactor_nonneg (p : ℕ) (f : Act) (W : Mat ℝ m (nin + 1)) (x : Vec ℝ nin) (i : Fin m) : 0 ≤ stepFactor p (nodes (actSpec f) W x i) := by
  unfold stepFactor
  split
  · norm_num
  · have := actSpec_lt_one f (affine W x i)
    show 0 ≤ 1 - actSpec f (affine W x i)
    linarith

/-- the network after `predict(x)` and `update(d)`, one hidden layer -/
theorem update1_explicit (l : Layer ℝ nin m) (v : Mat ℝ p (m + 1)) (x0 : Vec ℝ (m + 1)) (y0 : Vec ℝ p) (mu : ℝ) (h1 : l.x 0 = 1) (h2 : x0 0 = 1)
    (x : Vec ℝ nin) (d : Vec ℝ p) :
    ∃ l' v' x1 y1, ((Net.predictV ⟨.one l, v, x0, y0, mu⟩ x).1.update d).1 = ⟨.one l', v', x1, y1, mu⟩ ∧ l'.f = l.f ∧ l'.x 0 = 1 ∧ x1 0 = 1 ∧
      (∀ k j, v' k j = v k j + mu * ((d k - affine v (nodes (actSpec l.f) l.w x) k) * biased (nodes (actSpec l.f) l.w x) j)) ∧
      (∀ i j, l'.w i j = l.w i j + l.mu * (stepFactor p (nodes (actSpec l.f) l.w x i) * (activation l.f true (nodes (actSpec l.f) l.w x i) *
        ∑ k, (d k - affine v (nodes (actSpec l.f) l.w x) k) * v k i.succ) * biased x j)) := by
  have hy := C74_output1 l v x0 y0 mu h1 h2 x
  have hy' : ∀ k, (Net.predictV ⟨.one l, v, x0, y0, mu⟩ x).1.y k = affine v (nodes (actSpec l.f) l.w x) k := fun k => congrFun hy k
  have hx : ∀ j, (Net.predictV ⟨.one l, v, x0, y0, mu⟩ x).1.x j = biased (nodes (actSpec l.f) l.w x) j := by
    intro j
    show setTail x0 (l.predict x).y j = _
    rw [layer_predict_y l h1]; unfold setTail biased; rw [h2]
  have hlx := layer_predict_x l h1 x
  have hly := layer_predict_y l h1 x
  by_cases hp : p = 1
  · subst hp
    refine ⟨_, _, _, _, rfl, rfl, ?_, ?_, ?_, ?_⟩
    · show (l.predict x).x 0 = 1
      rw [hlx]; rfl
    · rw [hx]; rfl
    · intro k j
      show v k j + mu * (d k - (Net.predictV ⟨.one l, v, x0, y0, mu⟩ x).1.y k) * (Net.predictV ⟨.one l, v, x0, y0, mu⟩ x).1.x j = _
      rw [hy', hx]; ring
    · intro i j
      show l.w i j + l.mu * (activation l.f true ((l.predict x).y i) * (d 0 - (Net.predictV ⟨.one l, v, x0, y0, mu⟩ x).1.y 0) * v 0 i.succ * (l.predict x).x j) = _
      rw [hy', hly, hlx]
      simp only [univ_unique, Fin.default_eq_zero, sum_singleton]
      show _ = l.w i j + l.mu * (stepFactor 1 _ * _ * (Fin.cons 1 x : Vec ℝ (nin + 1)) j)
      unfold stepFactor
      simp only [if_true]
      ring
  · have hu : ((Net.predictV ⟨.one l, v, x0, y0, mu⟩ x).1.update d).1 =
        ⟨.one ((l.predict x).apply ((l.predict x).errMat (dropBias v) fun k => d k - (Net.predictV ⟨.one l, v, x0, y0, mu⟩ x).1.y k)),
          fun k j => v k j + mu * ((d k - (Net.predictV ⟨.one l, v, x0, y0, mu⟩ x).1.y k) * (Net.predictV ⟨.one l, v, x0, y0, mu⟩ x).1.x j),
          (Net.predictV ⟨.one l, v, x0, y0, mu⟩ x).1.x, (Net.predictV ⟨.one l, v, x0, y0, mu⟩ x).1.y, mu⟩ := by
      unfold Net.update
      simp only [hp, dif_neg, if_false, not_false_eq_true]
      rfl
    refine ⟨_, _, _, _, hu, rfl, ?_, ?_, ?_, ?_⟩
    · show (l.predict x).x 0 = 1
      rw [hlx]; rfl
    · rw [hx]; rfl
    · intro k j
      show v k j + mu * ((d k - (Net.predictV ⟨.one l, v, x0, y0, mu⟩ x).1.y k) * (Net.predictV ⟨.one l, v, x0, y0, mu⟩ x).1.x j) = _
      rw [hy', hx]
    · intro i j
      show l.w i j + l.mu * (activation l.f true ((l.predict x).y i) * (1 - (l.predict x).y i) *
        (@vsum ℝ realTransc.toScalar p fun k => (d k - (Net.predictV ⟨.one l, v, x0, y0, mu⟩ x).1.y k) * v k i.succ) * (l.predict x).x j) = _
      rw [rvsum, hly, hlx]
      simp only [hy']
      show _ = l.w i j + l.mu * (stepFactor p _ * _ * (Fin.cons 1 x : Vec ℝ (nin + 1)) j)
      unfold stepFactor
      simp only [hp, if_false]
      ring

/-- C103: one hidden layer, any number of outputs, sigmoid or tanh.  If the network makes an error on the sample `(x, d)`, then for every small enough learning rate
(used in both layers, as the constructor does for a number), `predict(x)` followed by `update(d)` makes the squared error of the next `predict(x)` smaller.  This holds
although with several outputs the steps of the hidden weights are not the gradient (C75). -/
theorem C103_descent (f : Act) (w : Mat ℝ m (nin + 1)) (v : Mat ℝ p (m + 1)) (x : Vec ℝ nin) (d : Vec ℝ p)
    (he : ∃ k, d k ≠ (Net.predictV (mkNet (.one (mkLayer w f 0)) v 0) x).2 k) :
    ∃ η0 > 0, ∀ η, 0 < η → η < η0 →
      halfSq d (((Net.predictV (mkNet (.one (mkLayer w f η)) v η) x).1.update d).1.predictV x).2 <
        halfSq d (Net.predictV (mkNet (.one (mkLayer w f η)) v η) x).2 := by
  obtain ⟨z, hz⟩ : ∃ z, z = nodes (actSpec f) w x := ⟨_, rfl⟩
  obtain ⟨e, hed⟩ : ∃ e : Vec ℝ p, e = fun k => d k - affine v z k := ⟨_, rfl⟩
  have hout : ∀ η, (Net.predictV (mkNet (.one (mkLayer w f η)) v η) x).2 = affine v z := by
    intro η
    rw [hz]; exact C74_output1 (mkLayer w f η) v _ _ η rfl rfl x
  have he' : ∃ k, e k ≠ 0 := by
    obtain ⟨k, hk⟩ := he
    refine ⟨k, ?_⟩
    rw [hout] at hk
    rw [hed]
    exact sub_ne_zero.2 hk
  -- the moving weights
  let δ : Vec ℝ m := fun i => activation f true (z i) * ∑ k, e k * v k i.succ
  let W' : Mat ℝ m (nin + 1) := fun i j => stepFactor p (z i) * δ i * biased x j
  let V' : Mat ℝ p (m + 1) := fun k j => e k * biased z j
  let W : ℝ → Mat ℝ m (nin + 1) := fun t i j => w i j + t * W' i j
  let V : ℝ → Mat ℝ p (m + 1) := fun t k j => v k j + t * V' k j
  let L : ℝ → ℝ := fun t => halfSq d (affine (V t) (nodes (actSpec f) (W t) x))
  have hW0 : W 0 = w := by funext i j; show w i j + 0 * _ = _; ring
  have hV0 : V 0 = v := by funext i j; show v i j + 0 * _ = _; ring
  have hL0 : L 0 = halfSq d (affine v z) := by
    show halfSq d (affine (V 0) (nodes (actSpec f) (W 0) x)) = _
    rw [hW0, hV0, hz]
  have hLη : ∀ η, halfSq d (((Net.predictV (mkNet (.one (mkLayer w f η)) v η) x).1.update d).1.predictV x).2 = L η := by
    intro η
    obtain ⟨l', v', x1, y1, hu, hf', hb1, hb2, hv, hw⟩ := update1_explicit (mkLayer w f η) v (fun _ => 1) (fun _ => 0) η rfl rfl x d
    have hu' : ((Net.predictV (mkNet (.one (mkLayer w f η)) v η) x).1.update d).1 = ⟨.one l', v', x1, y1, η⟩ := hu
    rw [hu', C74_output1 l' v' x1 y1 η hb1 hb2 x]
    have e1 : v' = V η := by
      funext k j
      rw [hv]
      show v k j + η * ((d k - affine v (nodes (actSpec f) w x) k) * biased (nodes (actSpec f) w x) j) = v k j + η * (e k * biased z j)
      rw [hed, hz]
    have e2 : l'.w = W η := by
      funext i j
      rw [hw]
      show w i j + η * (stepFactor p (nodes (actSpec f) w x i) * (activation f true (nodes (actSpec f) w x i) *
        ∑ k, (d k - affine v (nodes (actSpec f) w x) k) * v k i.succ) * biased x j) = w i j + η * (stepFactor p (z i) * (activation f true (z i) * ∑ k, e k * v k i.succ) * biased x j)
      rw [hed, hz]
    rw [e1, e2, hf']
    rfl
  -- the derivative at 0
  have dW : ∀ i j, HasDerivAt (fun s => W s i j) (W' i j) 0 := fun i j => by
    exact (((hasDerivAt_id (0 : ℝ)).mul_const (W' i j)).const_add (w i j)).congr_deriv (by ring)
  have dV : ∀ i j, HasDerivAt (fun s => V s i j) (V' i j) 0 := fun i j => by
    exact (((hasDerivAt_id (0 : ℝ)).mul_const (V' i j)).const_add (v i j)).congr_deriv (by ring)
  have dz := deriv_nodes_both f W W' (fun _ => x) (fun _ => 0) 0 dW (fun i => hasDerivAt_const 0 (x i))
  have dy := deriv_affine_both V V' (fun s => nodes (actSpec f) (W s) x) _ 0 dV dz
  have dL := deriv_halfSq d _ _ 0 dy
  rw [hV0, hW0, ← hz] at dL
  simp only [mul_zero, sum_const_zero, add_zero] at dL
  have hneg : (∑ k, -(d k - affine v z k) * ((∑ j, V' k j * biased z j) + ∑ i, v k i.succ * (activation f true (z i) * ∑ j, W' i j * biased x j))) < 0 := by
    have e1 : ∀ k, -(d k - affine v z k) * ((∑ j, V' k j * biased z j) + ∑ i, v k i.succ * (activation f true (z i) * ∑ j, W' i j * biased x j)) =
        -(e k * e k * ∑ j, biased z j * biased z j) - ∑ i, e k * v k i.succ * activation f true (z i) * (stepFactor p (z i) * δ i * ∑ j, biased x j * biased x j) := by
      intro k
      have a1 : ∑ j, V' k j * biased z j = e k * ∑ j, biased z j * biased z j := by
        rw [mul_sum]; exact sum_congr rfl fun j _ => by show e k * biased z j * biased z j = _; ring
      have a2 : ∀ i, ∑ j, W' i j * biased x j = stepFactor p (z i) * δ i * ∑ j, biased x j * biased x j := by
        intro i
        rw [mul_sum]; exact sum_congr rfl fun j _ => by show stepFactor p (z i) * δ i * biased x j * biased x j = _; ring
      have a3 : d k - affine v z k = e k := by rw [hed]
      rw [a1, a3]
      simp only [a2]
      rw [mul_add, mul_sum (s := univ (α := Fin m)), sub_eq_add_neg, ← sum_neg_distrib]
      congr 1
      · ring
      · exact sum_congr rfl fun i _ => by ring
    rw [sum_congr rfl fun k _ => e1 k, sum_sub_distrib, sum_comm (s := univ (α := Fin p)) (t := univ (α := Fin m))]
    have b1 : ∑ k, -(e k * e k * ∑ j, biased z j * biased z j) < 0 := by
      rw [sum_neg_distrib, ← sum_mul, neg_lt_zero]
      refine mul_pos ?_ (by linarith [one_le_biased z])
      obtain ⟨k, hk⟩ := he'
      exact sum_pos' (fun i _ => mul_self_nonneg _) ⟨k, mem_univ k, mul_self_pos.2 hk⟩
    have b2 : 0 ≤ ∑ i, ∑ k, e k * v k i.succ * activation f true (z i) * (stepFactor p (z i) * δ i * ∑ j, biased x j * biased x j) := by
      refine sum_nonneg fun i _ => ?_
      have c1 : ∑ k, e k * v k i.succ * activation f true (z i) * (stepFactor p (z i) * δ i * ∑ j, biased x j * biased x j) =
          stepFactor p (z i) * (δ i * δ i) * ∑ j, biased x j * biased x j := by
        rw [← sum_mul, ← sum_mul]
        show (∑ k, e k * v k i.succ) * activation f true (z i) * (stepFactor p (z i) * δ i * _) = _
        have : δ i = activation f true (z i) * ∑ k, e k * v k i.succ := rfl
        rw [this]; ring
      rw [c1]
      refine mul_nonneg (mul_nonneg ?_ (mul_self_nonneg _)) (by linarith [one_le_biased x])
      rw [hz]; exact stepFactor_nonneg p f w x i
    linarith
  obtain ⟨η0, h0, hη⟩ := eventually_smaller (L := L) dL hneg
  refine ⟨η0, h0, fun η h1 h2 => ?_⟩
  rw [hLη, hout, ← hL0]
  exact hη η h1 h2

/-! ## Two hidden layers -/

/-- the network after `predict(x)` and `update(d)`, two hidden layers with the same activation and one output -/
theorem update2_explicit (l1 : Layer ℝ nin m) (l2 : Layer ℝ m q) (hf : l2.f = l1.f) (v : Mat ℝ 1 (q + 1)) (x0 : Vec ℝ (q + 1)) (y0 : Vec ℝ 1) (mu : ℝ)
    (h1 : l1.x 0 = 1) (h2 : l2.x 0 = 1) (h3 : x0 0 = 1) (x : Vec ℝ nin) (d : Vec ℝ 1) (z1 : Vec ℝ m) (z2 : Vec ℝ q) (e : ℝ)
    (hz1 : z1 = nodes (actSpec l1.f) l1.w x) (hz2 : z2 = nodes (actSpec l1.f) l2.w z1) (he : e = d 0 - affine v z2 0) :
    ∃ l1' l2' v' x1 y1, ((Net.predictV ⟨.snoc (.one l1) l2, v, x0, y0, mu⟩ x).1.update d).1 = ⟨.snoc (.one l1') l2', v', x1, y1, mu⟩ ∧
      l1'.f = l1.f ∧ l2'.f = l1.f ∧ l1'.x 0 = 1 ∧ l2'.x 0 = 1 ∧ x1 0 = 1 ∧
      (∀ k j, v' k j = v k j + mu * (e * biased z2 j)) ∧
      (∀ a j, l2'.w a j = l2.w a j + l2.mu * (activation l1.f true (z2 a) * (e * v 0 a.succ) * biased z1 j)) ∧
      (∀ i j, l1'.w i j = l1.w i j + l1.mu * ((1 - z1 i) * (activation l1.f true (z1 i) *
        ∑ a, activation l1.f true (z2 a) * (e * v 0 a.succ) * (l2.w a i.succ + l2.mu * (activation l1.f true (z2 a) * (e * v 0 a.succ) * z1 i))) * biased x j)) := by
  have hy := C75_output2 l1 l2 v x0 y0 mu h1 h2 h3 x
  rw [hf, ← hz1, ← hz2] at hy
  have hy' : ∀ k, (Net.predictV ⟨.snoc (.one l1) l2, v, x0, y0, mu⟩ x).1.y k = affine v z2 k := fun k => congrFun hy k
  have g1 : (l1.predict x).y = z1 := by rw [hz1]; exact layer_predict_y l1 h1 x
  have g2 : (l2.predict (l1.predict x).y).y = z2 := by rw [layer_predict_y l2 h2, g1, hf, hz2]
  have hx2 : (l2.predict (l1.predict x).y).x = biased z1 := by rw [layer_predict_x l2 h2, g1]; rfl
  have hx1 : (l1.predict x).x = biased x := layer_predict_x l1 h1 x
  have hx : ∀ j, (Net.predictV ⟨.snoc (.one l1) l2, v, x0, y0, mu⟩ x).1.x j = biased z2 j := by
    intro j
    show setTail x0 (l2.predict (l1.predict x).y).y j = _
    rw [g2]; unfold setTail biased; rw [h3]
  refine ⟨_, _, _, _, _, rfl, rfl, hf, ?_, ?_, ?_, ?_, ?_, ?_⟩
  · show (l1.predict x).x 0 = 1
    rw [hx1]; rfl
  · show (l2.predict (l1.predict x).y).x 0 = 1
    rw [hx2]; rfl
  · rw [hx]; rfl
  · intro k j
    show v k j + mu * (d k - (Net.predictV ⟨.snoc (.one l1) l2, v, x0, y0, mu⟩ x).1.y k) * (Net.predictV ⟨.snoc (.one l1) l2, v, x0, y0, mu⟩ x).1.x j = _
    rw [hy', hx, he, Subsingleton.elim k 0]; ring
  · intro i j
    show l2.w i j + l2.mu * (activation l2.f true ((l2.predict (l1.predict x).y).y i) *
      (d 0 - (Net.predictV ⟨.snoc (.one l1) l2, v, x0, y0, mu⟩ x).1.y 0) * v 0 i.succ * (l2.predict (l1.predict x).y).x j) = _
    rw [hy', g2, hx2, hf, he]
    ring
  · intro i j
    show l1.w i j + l1.mu * (activation l1.f true ((l1.predict x).y i) * (1 - (l1.predict x).y i) *
      (@vsum ℝ realTransc.toScalar q fun a => (activation l2.f true ((l2.predict (l1.predict x).y).y a) *
          (d 0 - (Net.predictV ⟨.snoc (.one l1) l2, v, x0, y0, mu⟩ x).1.y 0) * v 0 a.succ) *
        (l2.w a i.succ + l2.mu * ((activation l2.f true ((l2.predict (l1.predict x).y).y a) *
          (d 0 - (Net.predictV ⟨.snoc (.one l1) l2, v, x0, y0, mu⟩ x).1.y 0) * v 0 a.succ) * (l2.predict (l1.predict x).y).x i.succ))) *
      (l1.predict x).x j) = _
    rw [rvsum, hy', g2, hx2, hx1, g1, hf, ← he]
    have e1 : biased z1 i.succ = z1 i := rfl
    rw [e1]
    simp only [mul_assoc]
    ring

/-- C103: two hidden layers, one output: the same, although the first layer does not follow the gradient (C75). -/
theorem C103_descent_two_layers (f : Act) (w1 : Mat ℝ m (nin + 1)) (w2 : Mat ℝ q (m + 1)) (v : Mat ℝ 1 (q + 1)) (x : Vec ℝ nin) (d : Vec ℝ 1)
    (he : d 0 ≠ (Net.predictV (mkNet (.snoc (.one (mkLayer w1 f 0)) (mkLayer w2 f 0)) v 0) x).2 0) :
    ∃ η0 > 0, ∀ η, 0 < η → η < η0 →
      halfSq d (((Net.predictV (mkNet (.snoc (.one (mkLayer w1 f η)) (mkLayer w2 f η)) v η) x).1.update d).1.predictV x).2 <
        halfSq d (Net.predictV (mkNet (.snoc (.one (mkLayer w1 f η)) (mkLayer w2 f η)) v η) x).2 := by
  obtain ⟨z1, hz1⟩ : ∃ z1, z1 = nodes (actSpec f) w1 x := ⟨_, rfl⟩
  obtain ⟨z2, hz2⟩ : ∃ z2, z2 = nodes (actSpec f) w2 z1 := ⟨_, rfl⟩
  obtain ⟨e, hed⟩ : ∃ e : ℝ, e = d 0 - affine v z2 0 := ⟨_, rfl⟩
  have hout : ∀ η, (Net.predictV (mkNet (.snoc (.one (mkLayer w1 f η)) (mkLayer w2 f η)) v η) x).2 = affine v z2 := by
    intro η
    rw [hz2, hz1]; exact C75_output2 (mkLayer w1 f η) (mkLayer w2 f η) v _ _ η rfl rfl rfl x
  have he' : e ≠ 0 := by
    rw [hout] at he
    rw [hed]
    exact sub_ne_zero.2 he
  let δ : Vec ℝ q := fun a => activation f true (z2 a) * (e * v 0 a.succ)
  let s : Vec ℝ m := fun i => activation f true (z1 i) * ∑ a, δ a * w2 a i.succ
  let A : Mat ℝ m (nin + 1) := fun i j => (1 - z1 i) * s i * biased x j
  let B : Mat ℝ m (nin + 1) := fun i j => (1 - z1 i) * (activation f true (z1 i) * ∑ a, δ a * (δ a * z1 i)) * biased x j
  let W2' : Mat ℝ q (m + 1) := fun a j => δ a * biased z1 j
  let V' : Mat ℝ 1 (q + 1) := fun k j => e * biased z2 j
  let W1 : ℝ → Mat ℝ m (nin + 1) := fun t i j => w1 i j + (t * A i j + t * t * B i j)
  let W2 : ℝ → Mat ℝ q (m + 1) := fun t a j => w2 a j + t * W2' a j
  let V : ℝ → Mat ℝ 1 (q + 1) := fun t k j => v k j + t * V' k j
  let L : ℝ → ℝ := fun t => halfSq d (affine (V t) (nodes (actSpec f) (W2 t) (nodes (actSpec f) (W1 t) x)))
  have hW10 : W1 0 = w1 := by funext i j; show w1 i j + (0 * _ + 0 * 0 * _) = _; ring
  have hW20 : W2 0 = w2 := by funext i j; show w2 i j + 0 * _ = _; ring
  have hV0 : V 0 = v := by funext i j; show v i j + 0 * _ = _; ring
  have hL0 : L 0 = halfSq d (affine v z2) := by
    show halfSq d (affine (V 0) (nodes (actSpec f) (W2 0) (nodes (actSpec f) (W1 0) x))) = _
    rw [hW10, hW20, hV0, ← hz1, ← hz2]
  have hLη : ∀ η, halfSq d (((Net.predictV (mkNet (.snoc (.one (mkLayer w1 f η)) (mkLayer w2 f η)) v η) x).1.update d).1.predictV x).2 = L η := by
    intro η
    obtain ⟨l1', l2', v', x1, y1, hu, hf1, hf2, hb1, hb2, hb3, hv, hw2, hw1⟩ := update2_explicit (mkLayer w1 f η) (mkLayer w2 f η) rfl v (fun _ => 1) (fun _ => 0) η
      rfl rfl rfl x d z1 z2 e hz1 hz2 hed
    have hu' : ((Net.predictV (mkNet (.snoc (.one (mkLayer w1 f η)) (mkLayer w2 f η)) v η) x).1.update d).1 = ⟨.snoc (.one l1') l2', v', x1, y1, η⟩ := hu
    rw [hu', C75_output2 l1' l2' v' x1 y1 η hb1 hb2 hb3 x]
    have e1 : v' = V η := by funext k j; exact hv k j
    have e2 : l2'.w = W2 η := by funext a j; exact hw2 a j
    have e3 : l1'.w = W1 η := by
      funext i j
      rw [hw1]
      show w1 i j + η * ((1 - z1 i) * (activation f true (z1 i) * ∑ a, δ a * (w2 a i.succ + η * (δ a * z1 i))) * biased x j) =
        w1 i j + (η * ((1 - z1 i) * (activation f true (z1 i) * ∑ a, δ a * w2 a i.succ) * biased x j) +
          η * η * ((1 - z1 i) * (activation f true (z1 i) * ∑ a, δ a * (δ a * z1 i)) * biased x j))
      have : ∑ a, δ a * (w2 a i.succ + η * (δ a * z1 i)) = (∑ a, δ a * w2 a i.succ) + η * ∑ a, δ a * (δ a * z1 i) := by
        rw [mul_sum, ← sum_add_distrib]; exact sum_congr rfl fun a _ => by ring
      rw [this]; ring
    rw [e1, e2, e3, hf1, hf2]
    rfl
  have dW1 : ∀ i j, HasDerivAt (fun t => W1 t i j) (A i j) 0 := fun i j => by
    exact ((((hasDerivAt_id (0 : ℝ)).mul_const (A i j)).add (((hasDerivAt_id (0 : ℝ)).mul (hasDerivAt_id (0 : ℝ))).mul_const (B i j))).const_add (w1 i j)).congr_deriv
      (by simp)
  have dW2 : ∀ i j, HasDerivAt (fun t => W2 t i j) (W2' i j) 0 := fun i j => by
    exact (((hasDerivAt_id (0 : ℝ)).mul_const (W2' i j)).const_add (w2 i j)).congr_deriv (by ring)
  have dV : ∀ i j, HasDerivAt (fun t => V t i j) (V' i j) 0 := fun i j => by
    exact (((hasDerivAt_id (0 : ℝ)).mul_const (V' i j)).const_add (v i j)).congr_deriv (by ring)
  have dz1 := deriv_nodes_both f W1 A (fun _ => x) (fun _ => 0) 0 dW1 (fun i => hasDerivAt_const 0 (x i))
  have dz2 := deriv_nodes_both f W2 W2' (fun t => nodes (actSpec f) (W1 t) x) _ 0 dW2 dz1
  have dy := deriv_affine_both V V' (fun t => nodes (actSpec f) (W2 t) (nodes (actSpec f) (W1 t) x)) _ 0 dV dz2
  have dL := deriv_halfSq d _ _ 0 dy
  rw [hV0, hW20, hW10, ← hz1, ← hz2] at dL
  simp only [mul_zero, sum_const_zero, add_zero, univ_unique, Fin.default_eq_zero, sum_singleton, ← hed] at dL
  have a1 : ∑ j, V' 0 j * biased z2 j = e * ∑ j, biased z2 j * biased z2 j := by
    rw [mul_sum]; exact sum_congr rfl fun j _ => by show e * biased z2 j * biased z2 j = _; ring
  have a2 : ∀ a, ∑ j, W2' a j * biased z1 j = δ a * ∑ j, biased z1 j * biased z1 j := by
    intro a
    rw [mul_sum]; exact sum_congr rfl fun j _ => by show δ a * biased z1 j * biased z1 j = _; ring
  have a3 : ∀ i, ∑ j, A i j * biased x j = (1 - z1 i) * s i * ∑ j, biased x j * biased x j := by
    intro i
    rw [mul_sum]; exact sum_congr rfl fun j _ => by show (1 - z1 i) * s i * biased x j * biased x j = _; ring
  rw [a1] at dL
  simp only [a2, a3] at dL
  have hneg : -e * (e * (∑ j, biased z2 j * biased z2 j) + ∑ a, v 0 a.succ * (activation f true (z2 a) * (δ a * (∑ j, biased z1 j * biased z1 j) +
      ∑ i, w2 a i.succ * (activation f true (z1 i) * ((1 - z1 i) * s i * ∑ j, biased x j * biased x j))))) < 0 := by
    have e1 : e * ∑ a, v 0 a.succ * (activation f true (z2 a) * (δ a * (∑ j, biased z1 j * biased z1 j) +
        ∑ i, w2 a i.succ * (activation f true (z1 i) * ((1 - z1 i) * s i * ∑ j, biased x j * biased x j)))) =
        (∑ a, δ a * δ a) * (∑ j, biased z1 j * biased z1 j) + ∑ i, (1 - z1 i) * (s i * s i) * ∑ j, biased x j * biased x j := by
      have : ∀ a, e * (v 0 a.succ * (activation f true (z2 a) * (δ a * (∑ j, biased z1 j * biased z1 j) +
          ∑ i, w2 a i.succ * (activation f true (z1 i) * ((1 - z1 i) * s i * ∑ j, biased x j * biased x j))))) =
          δ a * δ a * (∑ j, biased z1 j * biased z1 j) + ∑ i, δ a * w2 a i.succ * (activation f true (z1 i) * ((1 - z1 i) * s i * ∑ j, biased x j * biased x j)) := by
        intro a
        have c : δ a = activation f true (z2 a) * (e * v 0 a.succ) := rfl
        have c2 : ∑ i, δ a * w2 a i.succ * (activation f true (z1 i) * ((1 - z1 i) * s i * ∑ j, biased x j * biased x j)) =
            δ a * ∑ i, w2 a i.succ * (activation f true (z1 i) * ((1 - z1 i) * s i * ∑ j, biased x j * biased x j)) := by
          rw [mul_sum]; exact sum_congr rfl fun i _ => by ring
        rw [c2]
        generalize (∑ i, w2 a i.succ * (activation f true (z1 i) * ((1 - z1 i) * s i * ∑ j, biased x j * biased x j))) = S
        generalize (∑ j, biased z1 j * biased z1 j) = Z
        rw [show e * (v 0 a.succ * (activation f true (z2 a) * (δ a * Z + S))) = (activation f true (z2 a) * (e * v 0 a.succ)) * (δ a * Z + S) by ring, ← c]
        ring
      rw [mul_sum, sum_congr rfl fun a _ => this a, sum_add_distrib, ← sum_mul, sum_comm (s := univ (α := Fin q)) (t := univ (α := Fin m))]
      congr 1
      refine sum_congr rfl fun i _ => ?_
      rw [← sum_mul]
      have c : s i = activation f true (z1 i) * ∑ a, δ a * w2 a i.succ := rfl
      generalize (∑ j, biased x j * biased x j) = Z
      rw [show (∑ a, δ a * w2 a i.succ) * (activation f true (z1 i) * ((1 - z1 i) * s i * Z)) = (activation f true (z1 i) * ∑ a, δ a * w2 a i.succ) * ((1 - z1 i) * s i * Z) by ring, ← c]
      ring
    have b1 : 0 < e * e * ∑ j, biased z2 j * biased z2 j := mul_pos (mul_self_pos.2 he') (by linarith [one_le_biased z2])
    have b2 : 0 ≤ (∑ a, δ a * δ a) * (∑ j, biased z1 j * biased z1 j) :=
      mul_nonneg (sum_nonneg fun a _ => mul_self_nonneg _) (by linarith [one_le_biased z1])
    have b3 : 0 ≤ ∑ i, (1 - z1 i) * (s i * s i) * ∑ j, biased x j * biased x j := by
      refine sum_nonneg fun i _ => mul_nonneg (mul_nonneg ?_ (mul_self_nonneg _)) (by linarith [one_le_biased x])
      have := actSpec_lt_one f (affine w1 x i)
      rw [hz1]
      show 0 ≤ 1 - actSpec f (affine w1 x i)
      linarith
    rw [mul_add, neg_mul e (Finset.sum _ _), e1]
    nlinarith
  obtain ⟨η0, h0, hη⟩ := eventually_smaller (L := L) dL hneg
  refine ⟨η0, h0, fun η h1 h2 => ?_⟩
  rw [hLη, hout, ← hL0]
  exact hη η h1 h2

/-! ## "Small enough" cannot be dropped -/

/-- C103: with output weights zero and one hidden layer, the error after the update is exactly `(1 - mu |z|^2)` times the error before, `z` the outputs of the hidden
nodes with the leading 1; so the squared error of the sample shrinks iff `0 < mu |z|^2 < 2` (`mu` the learning rate of the output layer). -/
theorem C103_first_step (f : Act) (w : Mat ℝ m (nin + 1)) (mu1 mu : ℝ) (x : Vec ℝ nin) (d : Vec ℝ p) (k : Fin p) :
    (Net.predictV (mkNet (.one (mkLayer w f mu1)) (fun _ _ => (0 : ℝ)) mu) x).2 k = (0 : ℝ) ∧
    d k - (((Net.predictV (mkNet (.one (mkLayer w f mu1)) (fun _ _ => (0 : ℝ)) mu) x).1.update d).1.predictV x).2 k =
      (1 - mu * (1 + ∑ i, nodes (actSpec f) w x i * nodes (actSpec f) w x i)) * d k := by
  have hzero : ∀ z : Vec ℝ m, affine (fun (_ : Fin p) (_ : Fin (m + 1)) => (0 : ℝ)) z = fun _ => 0 := by
    intro z; funext k; unfold affine; simp
  have hout : (Net.predictV (mkNet (.one (mkLayer w f mu1)) (fun _ _ => (0 : ℝ)) mu) x).2 = fun _ : Fin p => (0 : ℝ) := by
    have := C74_output1 (p := p) (mkLayer w f mu1) (fun _ _ => (0 : ℝ)) (fun _ => 1) (fun _ => 0) mu rfl rfl x
    rw [hzero] at this
    exact this
  refine ⟨congrFun hout k, ?_⟩
  obtain ⟨l', v', x1, y1, hu, hf', hb1, hb2, hv, hw⟩ := update1_explicit (mkLayer w f mu1) (fun (_ : Fin p) _ => (0 : ℝ)) (fun _ => 1) (fun _ => 0) mu rfl rfl x d
  have hu' : ((Net.predictV (mkNet (.one (mkLayer w f mu1)) (fun (_ : Fin p) _ => (0 : ℝ)) mu) x).1.update d).1 = ⟨.one l', v', x1, y1, mu⟩ := hu
  rw [hu', C74_output1 l' v' x1 y1 mu hb1 hb2 x, hf']
  have e2 : l'.w = w := by
    funext i j
    rw [hw]
    simp [mkLayer]
  rw [e2, affine_biased]
  have e3 : ∀ j, v' k j * biased (nodes (actSpec (mkLayer w f mu1).f) w x) j =
      mu * d k * (biased (nodes (actSpec f) w x) j * biased (nodes (actSpec f) w x) j) := by
    intro j
    rw [hv, hzero]
    show (0 + mu * ((d k - 0) * biased (nodes (actSpec f) w x) j)) * biased (nodes (actSpec f) w x) j = _
    ring
  rw [sum_congr rfl fun j _ => e3 j, ← mul_sum, Fin.sum_univ_succ]
  show d k - mu * d k * (1 * 1 + ∑ i, nodes (actSpec f) w x i * nodes (actSpec f) w x i) = _
  ring

theorem act_near_one (f : Act) {r : ℝ} (hr : r < 1) : ∃ b, r < actSpec f b := by
  cases f
  · have h : Filter.Tendsto (fun t : ℝ => 1 / (1 + Real.exp (-t))) Filter.atTop (nhds (1 / (1 + 0))) :=
      tendsto_const_nhds.div (tendsto_const_nhds.add (Real.tendsto_exp_neg_atTop_nhds_zero)) (by norm_num)
    have h2 := h.eventually (lt_mem_nhds (show r < 1 / (1 + 0) by simpa using hr))
    obtain ⟨b, hb⟩ := h2.exists
    exact ⟨b, hb⟩
  · have h : Filter.Tendsto (fun t : ℝ => (1 + 1) / (1 + Real.exp (-(1 + 1) * t)) - 1) Filter.atTop (nhds ((1 + 1) / (1 + 0) - 1)) := by
      have h0 : Filter.Tendsto (fun t : ℝ => Real.exp (-(1 + 1) * t)) Filter.atTop (nhds 0) :=
        Real.tendsto_exp_atBot.comp (Filter.tendsto_id.const_mul_atTop_of_neg (by norm_num))
      exact (tendsto_const_nhds.div (tendsto_const_nhds.add h0) (by norm_num)).sub tendsto_const_nhds
    have h2 := h.eventually (lt_mem_nhds (show r < (1 + 1) / (1 + 0) - 1 by norm_num; exact hr))
    obtain ⟨b, hb⟩ := h2.exists
    refine ⟨b, ?_⟩
    rw [← C73_activation, activation_tanh]
    exact hb

/-- C103: the learning rate chosen by `mu="auto"`, `1/sqrt(m)` for the output layer (C102), is not always small enough: for every size `m >= 2` of the hidden layer
there are weights such that the very first update makes the error of every sample with a non-zero target larger. -/
theorem C103_auto_not_safe (f : Act) (nin m p : ℕ) (hm : 2 ≤ m) (mu1 : ℝ) :
    ∃ w : Mat ℝ m (nin + 1), ∀ (x : Vec ℝ nin) (d : Vec ℝ p) (k : Fin p), d k ≠ 0 →
      |d k - (Net.predictV (mkNet (.one (mkLayer w f mu1)) (fun _ _ => (0 : ℝ)) (1 / Real.sqrt m)) x).2 k| <
        |d k - (((Net.predictV (mkNet (.one (mkLayer w f mu1)) (fun _ _ => (0 : ℝ)) (1 / Real.sqrt m)) x).1.update d).1.predictV x).2 k| := by
  have hm0 : (2 : ℝ) ≤ m := by exact_mod_cast hm
  obtain ⟨s, hs⟩ : ∃ s, s = Real.sqrt m := ⟨_, rfl⟩
  have hss : s * s = m := by rw [hs]; exact Real.mul_self_sqrt (by linarith)
  have hs1 : 1 < s := by
    rw [hs]; exact Real.lt_sqrt_of_sq_lt (by linarith)
  -- a node output z with 1 + m z^2 > 2 s
  have hr : (2 * s - 1) / (s * s) < 1 := by
    rw [div_lt_one (by positivity)]; nlinarith [sq_nonneg (s - 1), mul_pos (sub_pos.2 hs1) (sub_pos.2 hs1)]
  have hr0 : 0 ≤ (2 * s - 1) / (s * s) := div_nonneg (by linarith) (by positivity)
  obtain ⟨b, hb⟩ := act_near_one f (r := Real.sqrt ((2 * s - 1) / (s * s))) (by rw [Real.sqrt_lt' one_pos]; simpa using hr)
  have hb2 : (2 * s - 1) / (s * s) < actSpec f b * actSpec f b := by
    have := Real.sqrt_nonneg ((2 * s - 1) / (s * s))
    calc (2 * s - 1) / (s * s) = Real.sqrt ((2 * s - 1) / (s * s)) * Real.sqrt ((2 * s - 1) / (s * s)) := (Real.mul_self_sqrt hr0).symm
      _ < _ := by nlinarith
  refine ⟨fun _ => Fin.cons b fun _ => 0, fun x d k hd => ?_⟩
  obtain ⟨h1, h2⟩ := C103_first_step f (fun _ : Fin m => (Fin.cons b fun _ => 0 : Vec ℝ (nin + 1))) mu1 (1 / Real.sqrt m) x d k
  rw [h1, h2, sub_zero, abs_mul]
  have hn : ∀ i : Fin m, nodes (actSpec f) (fun _ : Fin m => (Fin.cons b fun _ => 0 : Vec ℝ (nin + 1))) x i = actSpec f b := by
    intro i
    unfold nodes affine; simp
  simp only [hn, sum_const, card_univ, Fintype.card_fin, nsmul_eq_mul]
  rw [← hs, ← hss]
  have hpos : 0 < |d k| := abs_pos.2 hd
  have hgt : 1 < |1 - 1 / s * (1 + s * s * (actSpec f b * actSpec f b))| := by
    rw [div_lt_iff₀ (by positivity)] at hb2
    have h3 : 2 < 1 / s * (1 + s * s * (actSpec f b * actSpec f b)) := by
      rw [one_div, ← div_eq_inv_mul, lt_div_iff₀ (by linarith)]
      nlinarith
    rw [abs_of_neg (by linarith)]; linarith
  nlinarith

/-- the hypothesis of the descent theorems is met: a tanh network with weights 1, input 1 and target 5 (the output is at most 2) -/
example : ∃ η0 > 0, ∀ η, 0 < η → η < η0 →
    halfSq (fun _ => 5) (((Net.predictV (mkNet (.one (mkLayer (fun _ : Fin 1 => fun _ : Fin 2 => (1 : ℝ)) .tanh η)) (fun _ : Fin 1 => fun _ => 1) η) (fun _ => 1)).1.update
        (fun _ => 5)).1.predictV (fun _ => 1)).2 <
      halfSq (fun _ => 5) (Net.predictV (mkNet (.one (mkLayer (fun _ : Fin 1 => fun _ : Fin 2 => (1 : ℝ)) .tanh η)) (fun _ : Fin 1 => fun _ => 1) η) (fun _ => 1)).2 := by
  refine C103_descent .tanh _ _ _ _ ⟨0, ?_⟩
  have h := C74_output1 (mkLayer (fun _ : Fin 1 => fun _ : Fin 2 => (1 : ℝ)) .tanh 0) (fun _ : Fin 1 => fun _ => 1) (fun _ => 1) (fun _ => 0) 0 rfl rfl (fun _ => 1)
  have h' : (Net.predictV (mkNet (.one (mkLayer (fun _ : Fin 1 => fun _ : Fin 2 => (1 : ℝ)) .tanh 0)) (fun _ : Fin 1 => fun _ => 1) 0) (fun _ => 1)).2 = _ := h
  rw [h']
  have := actSpec_lt_one .tanh (affine (fun _ : Fin 1 => fun _ : Fin 2 => (1 : ℝ)) (fun _ => 1) 0)
  unfold affine nodes
  simp only [univ_unique, Fin.default_eq_zero, sum_singleton]
  intro hc
  have h5 : (5 : ℝ) = 1 + 1 * actSpec .tanh (affine (fun _ : Fin 1 => fun _ : Fin 2 => (1 : ℝ)) (fun _ => 1) 0) := hc
  linarith

end Padasip
