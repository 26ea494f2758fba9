import Verif.Spec.Deep
import Verif.Props.MlpDescent

/-!
# C132: one update of a network of any depth
-/

set_option linter.unusedSectionVars false
set_option linter.unusedSimpArgs false
set_option linter.unusedVariables false
set_option linter.unnecessarySeqFocus false

namespace Padasip

open Finset

variable {nin m q p : ℕ}

theorem activation_der (f : Act) (z : ℝ) : activation f true z = actDer f z := by
  cases f
  · rfl
  · show 1 - z * z = 1 - z ^ 2
    ring

theorem sizeOf1_eq {n : ℕ} (x : Vec ℝ n) : ∑ j, biased x j * biased x j = sizeOf1 x := by
  rw [Fin.sum_univ_succ]
  unfold biased sizeOf1
  simp [pow_two]

/-- hidden layers with the weights `D`, activation `f`, learning rate `η`, ready for `predict` -/
inductive Rep (f : Act) (η : ℝ) : {nin m : ℕ} → Deep nin m → Hidden ℝ nin m → Prop
  | one {nin m : ℕ} {w : Mat ℝ m (nin + 1)} {l : Layer ℝ nin m} (hw : l.w = w) (hf : l.f = f) (hm : l.mu = η) (hx : l.x 0 = 1) : Rep f η (.one w) (.one l)
  | snoc {nin m q : ℕ} {D : Deep nin m} {h : Hidden ℝ nin m} {w : Mat ℝ q (m + 1)} {l : Layer ℝ m q} (hD : Rep f η D h) (hw : l.w = w) (hf : l.f = f) (hm : l.mu = η)
      (hx : l.x 0 = 1) : Rep f η (.snoc D w) (.snoc h l)

/-- the same after `predict(x)` -/
inductive Fwd (f : Act) (η : ℝ) : {nin m : ℕ} → Vec ℝ nin → Deep nin m → Hidden ℝ nin m → Prop
  | one {nin m : ℕ} {x : Vec ℝ nin} {w : Mat ℝ m (nin + 1)} {l : Layer ℝ nin m} (hw : l.w = w) (hf : l.f = f) (hm : l.mu = η) (hx : l.x = biased x)
      (hy : l.y = nodes (actSpec f) w x) : Fwd f η x (.one w) (.one l)
  | snoc {nin m q : ℕ} {x : Vec ℝ nin} {D : Deep nin m} {h : Hidden ℝ nin m} {w : Mat ℝ q (m + 1)} {l : Layer ℝ m q} (hD : Fwd f η x D h) (hw : l.w = w) (hf : l.f = f)
      (hm : l.mu = η) (hx : l.x = biased (D.out f x)) (hy : l.y = nodes (actSpec f) w (D.out f x)) : Fwd f η x (.snoc D w) (.snoc h l)

theorem rep_new (f : Act) (η : ℝ) (D : Deep nin m) : Rep f η D (D.hidden f η) := by
  induction D with
  | one w => exact .one rfl rfl rfl rfl
  | snoc D w ih => exact .snoc ih rfl rfl rfl rfl

theorem rep_predict {f : Act} {η : ℝ} {D : Deep nin m} {h : Hidden ℝ nin m} (H : Rep f η D h) (x : Vec ℝ nin) :
    Fwd f η x D (h.predict x).1 ∧ (h.predict x).2 = D.out f x := by
  induction H with
  | one hw hf hm hx =>
    rename_i w l
    have h1 : (l.predict x).y = nodes (actSpec f) w x := by rw [layer_predict_y l hx, hf, hw]
    exact ⟨.one hw hf hm (layer_predict_x l hx x) h1, h1⟩
  | snoc hD hw hf hm hx ih =>
    rename_i D h w l
    obtain ⟨i1, i2⟩ := ih
    have h1 : (l.predict (h.predict x).2).y = nodes (actSpec f) w (D.out f x) := by rw [layer_predict_y l hx, hf, hw, i2]
    have h2 : (l.predict (h.predict x).2).x = biased (D.out f x) := by rw [layer_predict_x l hx, i2]; rfl
    exact ⟨.snoc i1 hw hf hm h2 h1, h1⟩

/-- the weights after the step of the code with learning rate `η`, when the last hidden layer receives the signals `c` -/
noncomputable def Deep.step (f : Act) (η : ℝ) {nin m : ℕ} (x : Vec ℝ nin) : Bool → Deep nin m → Vec ℝ m → Deep nin m
  | last, .one w, c =>
    .one fun i j => w i j + η * (actDer f (nodes (actSpec f) w x i) * codeFactor last (nodes (actSpec f) w x i) * c i * biased x j)
  | last, .snoc D w, c =>
    let z := nodes (actSpec f) w (D.out f x)
    let δ' : Vec ℝ _ := fun i => actDer f (z i) * codeFactor last (z i) * c i
    let w' : Mat ℝ _ _ := fun i j => w i j + η * (δ' i * biased (D.out f x) j)
    .snoc (D.step f η x false fun j => ∑ i, δ' i * w' i j.succ) w'

theorem biased_zero {n : ℕ} (x : Vec ℝ n) : biased x 0 = 1 := rfl

theorem fwd_updateMat {f : Act} {η : ℝ} {x : Vec ℝ nin} {D : Deep nin m} {h : Hidden ℝ nin m} (H : Fwd f η x D h) {p : ℕ} (w : Mat ℝ p m) (e : Vec ℝ p) :
    Rep f η (D.step f η x false fun i => ∑ k, e k * w k i) (h.updateMat w e) := by
  induction H generalizing p with
  | one hw hf hm hx hy =>
    rename_i w0 l
    refine .one ?_ hf hm ?_
    · funext i j
      show l.w i j + l.mu * (activation l.f true (l.y i) * (1 - l.y i) * (@vsum ℝ realTransc.toScalar p fun k => e k * w k i) * l.x j) = _
      rw [rvsum, hw, hf, hm, hx, hy, activation_der]
      rfl
    · show l.x 0 = 1
      rw [hx]; rfl
  | snoc hD hw hf hm hx hy ih =>
    rename_i x D h w0 l
    have hδ : l.errMat w e = fun i => actDer f (nodes (actSpec f) w0 (D.out f x) i) * codeFactor false (nodes (actSpec f) w0 (D.out f x) i) * ∑ k, e k * w k i := by
      funext i
      show activation l.f true (l.y i) * (1 - l.y i) * (@vsum ℝ realTransc.toScalar p fun k => e k * w k i) = _
      rw [rvsum, hf, hy, activation_der]
      rfl
    have hw' : (l.apply (l.errMat w e)).w = fun i j => w0 i j + η * ((actDer f (nodes (actSpec f) w0 (D.out f x) i) * codeFactor false (nodes (actSpec f) w0 (D.out f x) i) *
        ∑ k, e k * w k i) * biased (D.out f x) j) := by
      funext i j
      show l.w i j + l.mu * (l.errMat w e i * l.x j) = _
      rw [hδ, hw, hm, hx]
    refine .snoc ?_ hw' hf hm ?_
    · have := ih (dropBias (l.apply (l.errMat w e)).w) (l.errMat w e)
      have hc : (fun i => ∑ k, l.errMat w e k * dropBias (l.apply (l.errMat w e)).w k i) = fun j => ∑ i, l.errMat w e i * (l.apply (l.errMat w e)).w i j.succ := rfl
      rw [hc, hw', hδ] at this
      rw [hw', hδ]
      exact this
    · show l.x 0 = 1
      rw [hx]; rfl

theorem fwd_updateFlat {f : Act} {η : ℝ} {x : Vec ℝ nin} {D : Deep nin m} {h : Hidden ℝ nin m} (H : Fwd f η x D h) (w : Vec ℝ m) (e : ℝ) :
    Rep f η (D.step f η x true fun i => e * w i) (h.updateFlat w e) := by
  cases H with
  | one hw hf hm hx hy =>
    rename_i w0 l
    refine .one ?_ hf hm ?_
    · funext i j
      show l.w i j + l.mu * (activation l.f true (l.y i) * e * w i * l.x j) = w0 i j + η * (actDer f (nodes (actSpec f) w0 x i) * 1 * (e * w i) * biased x j)
      rw [hw, hf, hm, hx, hy, activation_der]
      ring
    · show l.x 0 = 1
      rw [hx]; rfl
  | snoc hD hw hf hm hx hy =>
    rename_i D h w0 l
    have hδ : l.errFlat w e = fun i => actDer f (nodes (actSpec f) w0 (D.out f x) i) * codeFactor true (nodes (actSpec f) w0 (D.out f x) i) * (e * w i) := by
      funext i
      show activation l.f true (l.y i) * e * w i = actDer f (nodes (actSpec f) w0 (D.out f x) i) * 1 * (e * w i)
      rw [hf, hy, activation_der]
      ring
    have hw' : (l.apply (l.errFlat w e)).w = fun i j => w0 i j + η * ((actDer f (nodes (actSpec f) w0 (D.out f x) i) * codeFactor true (nodes (actSpec f) w0 (D.out f x) i) *
        (e * w i)) * biased (D.out f x) j) := by
      funext i j
      show l.w i j + l.mu * (l.errFlat w e i * l.x j) = _
      rw [hδ, hw, hm, hx]
    refine .snoc ?_ hw' hf hm ?_
    · have := fwd_updateMat hD (dropBias (l.apply (l.errFlat w e)).w) (l.errFlat w e)
      have hc : (fun i => ∑ k, l.errFlat w e k * dropBias (l.apply (l.errFlat w e)).w k i) = fun j => ∑ i, l.errFlat w e i * (l.apply (l.errFlat w e)).w i j.succ := rfl
      rw [hc, hw', hδ] at this
      rw [hw', hδ]
      exact this
    · show l.x 0 = 1
      rw [hx]; rfl

/-- `t * h t` at 0 for a continuous `h` -/
theorem deriv_mul_cont {h : ℝ → ℝ} (hc : ContinuousAt h 0) : HasDerivAt (fun t => t * h t) (h 0) 0 := by
  rw [hasDerivAt_iff_tendsto_slope_zero]
  have : Filter.Tendsto h (nhdsWithin 0 {0}ᶜ) (nhds (h 0)) := hc.tendsto.mono_left nhdsWithin_le_nhds
  refine this.congr' ?_
  filter_upwards [self_mem_nhdsWithin] with t ht
  have ht' : t ≠ 0 := ht
  simp only [zero_add, zero_mul, sub_zero, smul_eq_mul]
  field_simp

theorem deriv_moving {w0 b : ℝ} {h : ℝ → ℝ} (hc : ContinuousAt h 0) : HasDerivAt (fun t => w0 + t * (h t * b)) (h 0 * b) 0 :=
  (deriv_mul_cont (h := fun t => h t * b) (hc.mul continuousAt_const)).const_add w0

theorem step_zero (f : Act) (x : Vec ℝ nin) (last : Bool) (D : Deep nin m) (c : Vec ℝ m) : D.step f 0 x last c = D := by
  induction D generalizing last with
  | one w => simp [Deep.step]
  | snoc D w ih =>
    simp only [Deep.step, zero_mul, add_zero]
    rw [ih]

/-- the outputs of the last hidden layer after the step, as a function of the learning rate -/
theorem deriv_out (f : Act) (x : Vec ℝ nin) (last : Bool) (D : Deep nin m) (c : ℝ → Vec ℝ m) (hc : ∀ i, ContinuousAt (fun t => c t i) 0) :
    ∃ dz : Vec ℝ m, (∀ i, HasDerivAt (fun t => (D.step f t x last (c t)).out f x i) (dz i) 0) ∧
      ∀ g : Vec ℝ m, ∑ i, g i * dz i = D.slope f x last g (c 0) := by
  induction D generalizing last with
  | one w =>
    have hW := fun i j => deriv_moving (w0 := w i j) (b := biased x j)
      (h := fun t => actDer f (nodes (actSpec f) w x i) * codeFactor last (nodes (actSpec f) w x i) * c t i) (continuousAt_const.mul (hc i))
    refine ⟨_, deriv_nodes_both f _ _ (fun _ => x) (fun _ => 0) 0 hW (fun i => hasDerivAt_const 0 (x i)), fun g => ?_⟩
    simp only [zero_mul, add_zero, mul_zero, sum_const_zero, Deep.slope]
    refine sum_congr rfl fun i _ => ?_
    rw [← sizeOf1_eq, activation_der]
    have : (fun i j => w i j) = w := rfl
    rw [this]
    simp only [mul_assoc]
    rw [← mul_sum, ← mul_sum, ← mul_sum]
    ring
  | snoc D w ih =>
    let z := nodes (actSpec f) w (D.out f x)
    let δ' : ℝ → Vec ℝ _ := fun t i => actDer f (z i) * codeFactor last (z i) * c t i
    let W : ℝ → Mat ℝ _ _ := fun t i j => w i j + t * (δ' t i * biased (D.out f x) j)
    have hδ : ∀ i, ContinuousAt (fun t => δ' t i) 0 := fun i => continuousAt_const.mul (hc i)
    have hW : ∀ i j, HasDerivAt (fun t => W t i j) (δ' 0 i * biased (D.out f x) j) 0 := fun i j => deriv_moving (h := fun t => δ' t i) (hδ i)
    obtain ⟨dz, i1, i2⟩ := ih false (fun t j => ∑ i, δ' t i * W t i j.succ)
      (fun j => tendsto_finsetSum _ fun i _ => (hδ i).mul (hW i j.succ).continuousAt)
    have hW0 : W 0 = w := by funext i j; show w i j + 0 * _ = _; ring
    refine ⟨_, deriv_nodes_both f W _ (fun t => (D.step f t x false fun j => ∑ i, δ' t i * W t i j.succ).out f x) dz 0 hW i1, fun g => ?_⟩
    rw [hW0, step_zero]
    simp only [Deep.slope]
    have e1 : ∀ i, (∑ j, δ' 0 i * biased (D.out f x) j * biased (D.out f x) j) = δ' 0 i * sizeOf1 (D.out f x) := by
      intro i
      rw [← sizeOf1_eq, mul_sum]
      exact sum_congr rfl fun j _ => by ring
    have e2 := i2 fun j => ∑ i, actDer f (z i) * g i * w i j.succ
    rw [hW0] at e2
    have e3 : (∑ j, (∑ i, actDer f (z i) * g i * w i j.succ) * dz j) = ∑ i, actDer f (z i) * g i * ∑ j, w i j.succ * dz j := by
      simp only [sum_mul, mul_sum]
      rw [sum_comm]
      exact sum_congr rfl fun i _ => sum_congr rfl fun j _ => by ring
    rw [← e2, e3, ← sum_add_distrib]
    refine sum_congr rfl fun i _ => ?_
    rw [e1, activation_der]
    show g i * (actDer f (z i) * (δ' 0 i * sizeOf1 (D.out f x) + ∑ j, w i j.succ * dz j)) = actDer f (z i) * g i * δ' 0 i * sizeOf1 (D.out f x) + _
    ring

/-- what `predict(x)` returns, any depth -/
theorem deep_predict {f : Act} {η : ℝ} {D : Deep nin m} {h : Hidden ℝ nin m} (H : Rep f η D h) (v : Mat ℝ p (m + 1)) (x0 : Vec ℝ (m + 1)) (h0 : x0 0 = 1) (y0 : Vec ℝ p) (mu : ℝ)
    (x : Vec ℝ nin) : (Net.predictV ⟨h, v, x0, y0, mu⟩ x).2 = affine v (D.out f x) := by
  funext k
  show @vsum ℝ realTransc.toScalar (m + 1) (fun j => v k j * setTail x0 (h.predict x).2 j) = _
  rw [affine_setTail _ _ h0, (rep_predict H x).2]

/-- the output of `predict(x)` after `predict(x)` and `update(d)`, any depth -/
theorem deep_update {f : Act} {η : ℝ} {D : Deep nin m} {h : Hidden ℝ nin m} (H : Rep f η D h) (v : Mat ℝ p (m + 1)) (x0 : Vec ℝ (m + 1)) (h0 : x0 0 = 1) (y0 : Vec ℝ p) (mu : ℝ)
    (x : Vec ℝ nin) (d : Vec ℝ p) :
    (((Net.predictV ⟨h, v, x0, y0, mu⟩ x).1.update d).1.predictV x).2 =
      affine (fun k j => v k j + mu * ((d k - affine v (D.out f x) k) * biased (D.out f x) j))
        ((D.step f η x (decide (p = 1)) fun i => ∑ k, (d k - affine v (D.out f x) k) * v k i.succ).out f x) := by
  obtain ⟨g1, g2⟩ := rep_predict H x
  have hy : ∀ k, (Net.predictV ⟨h, v, x0, y0, mu⟩ x).1.y k = affine v (D.out f x) k := fun k => congrFun (deep_predict H v x0 h0 y0 mu x) k
  have hx : ∀ j, (Net.predictV ⟨h, v, x0, y0, mu⟩ x).1.x j = biased (D.out f x) j := by
    intro j
    show setTail x0 (h.predict x).2 j = _
    rw [g2]; unfold setTail biased; rw [h0]
  by_cases hp : p = 1
  · subst hp
    have hu : ((Net.predictV ⟨h, v, x0, y0, mu⟩ x).1.update d).1 =
        ⟨(h.predict x).1.updateFlat (dropBias v 0) (d 0 - (Net.predictV ⟨h, v, x0, y0, mu⟩ x).1.y 0),
          fun k j => v k j + mu * (d k - (Net.predictV ⟨h, v, x0, y0, mu⟩ x).1.y k) * (Net.predictV ⟨h, v, x0, y0, mu⟩ x).1.x j,
          (Net.predictV ⟨h, v, x0, y0, mu⟩ x).1.x, (Net.predictV ⟨h, v, x0, y0, mu⟩ x).1.y, mu⟩ := rfl
    rw [hu, deep_predict (fwd_updateFlat g1 _ _) _ _ (by rw [hx]; rfl), hy]
    have e1 : (fun k j => v k j + mu * (d k - (Net.predictV ⟨h, v, x0, y0, mu⟩ x).1.y k) * (Net.predictV ⟨h, v, x0, y0, mu⟩ x).1.x j) =
        fun k j => v k j + mu * ((d k - affine v (D.out f x) k) * biased (D.out f x) j) := by
      funext k j
      rw [hy, hx]; ring
    rw [e1]
    congr 2
    simp only [univ_unique, Fin.default_eq_zero, sum_singleton]
    rfl
  · have hu : ((Net.predictV ⟨h, v, x0, y0, mu⟩ x).1.update d).1 =
        ⟨(h.predict x).1.updateMat (dropBias v) (fun k => d k - (Net.predictV ⟨h, v, x0, y0, mu⟩ x).1.y k),
          fun k j => v k j + mu * ((d k - (Net.predictV ⟨h, v, x0, y0, mu⟩ x).1.y k) * (Net.predictV ⟨h, v, x0, y0, mu⟩ x).1.x j),
          (Net.predictV ⟨h, v, x0, y0, mu⟩ x).1.x, (Net.predictV ⟨h, v, x0, y0, mu⟩ x).1.y, mu⟩ := by
      unfold Net.update
      simp only [hp, dif_neg, if_false, not_false_eq_true]
      rfl
    rw [hu, deep_predict (fwd_updateMat g1 _ _) _ _ (by rw [hx]; rfl)]
    simp only [hy, hx, hp, decide_false]
    rfl

/-- C132: the slope of the error of the sample `(x, d)` in the learning rate `η` of the update, at `η = 0`, for a network of any depth and size: minus the squared error times
`1 + |z|^2`, `z` the outputs of the last hidden layer, minus `Deep.slope` of the hidden layers with `g = c = V^T e`. -/
theorem C132_slope (f : Act) (D : Deep nin m) (v : Mat ℝ p (m + 1)) (x : Vec ℝ nin) (d : Vec ℝ p) (e : Vec ℝ p) (he : ∀ k, e k = d k - affine v (D.out f x) k) :
    (∀ η, (Net.predictV (mkNet (D.hidden f η) v η) x).2 = affine v (D.out f x)) ∧
    halfSq d (((Net.predictV (mkNet (D.hidden f 0) v 0) x).1.update d).1.predictV x).2 = halfSq d (affine v (D.out f x)) ∧
    HasDerivAt (fun η => halfSq d (((Net.predictV (mkNet (D.hidden f η) v η) x).1.update d).1.predictV x).2)
      (-((∑ k, e k ^ 2) * sizeOf1 (D.out f x) +
        D.slope f x (decide (p = 1)) (fun i => ∑ k, e k * v k i.succ) (fun i => ∑ k, e k * v k i.succ))) 0 := by
  have hupd := fun η => deep_update (rep_new f η D) v (fun _ => 1) rfl (fun _ => 0) η x d
  simp only [← he] at hupd
  refine ⟨fun η => deep_predict (rep_new f η D) v (fun _ => 1) rfl (fun _ => 0) η x, ?_, ?_⟩
  · refine (congrArg (halfSq d) (hupd 0)).trans ?_
    rw [step_zero]
    simp
  · obtain ⟨dz, i1, i2⟩ := deriv_out f x (decide (p = 1)) D (fun _ i => ∑ k, e k * v k i.succ) (fun i => continuousAt_const)
    have dV : ∀ k j, HasDerivAt (fun t => v k j + t * (e k * biased (D.out f x) j)) (e k * biased (D.out f x) j) 0 :=
      fun k j => deriv_moving (h := fun _ => e k) continuousAt_const
    have dy := deriv_affine_both (fun t k j => v k j + t * (e k * biased (D.out f x) j)) (fun k j => e k * biased (D.out f x) j)
      (fun t => (D.step f t x (decide (p = 1)) fun i => ∑ k, e k * v k i.succ).out f x) dz 0 dV i1
    have dL := deriv_halfSq d _ _ 0 dy
    have hfun : (fun η => halfSq d (((Net.predictV (mkNet (D.hidden f η) v η) x).1.update d).1.predictV x).2) =
        fun t => halfSq d (affine (fun k j => v k j + t * (e k * biased (D.out f x) j)) ((D.step f t x (decide (p = 1)) fun i => ∑ k, e k * v k i.succ).out f x)) :=
      funext fun η => congrArg (halfSq d) (hupd η)
    rw [hfun]
    refine dL.congr_deriv ?_
    simp only [step_zero, zero_mul, add_zero]
    have h1 : (fun k j => v k j) = v := rfl
    rw [h1]
    simp only [← he]
    have h2 := i2 fun i => ∑ k, e k * v k i.succ
    rw [← h2, sum_mul]
    have h3 : ∀ k, ∑ j, e k * biased (D.out f x) j * biased (D.out f x) j = e k * sizeOf1 (D.out f x) := by
      intro k
      rw [← sizeOf1_eq, mul_sum]
      exact sum_congr rfl fun j _ => by ring
    simp only [h3]
    have h4 : (∑ i, (∑ k, e k * v k i.succ) * dz i) = ∑ k, e k * ∑ i, v k i.succ * dz i := by
      simp only [sum_mul, mul_sum]
      rw [sum_comm]
      exact sum_congr rfl fun k _ => sum_congr rfl fun i _ => by ring
    rw [h4, ← sum_add_distrib, ← sum_neg_distrib]
    exact sum_congr rfl fun k _ => by ring

/-- C132: so the sign of the sum decides what a small enough learning rate does to the error of the sample. -/
theorem C132_sign (f : Act) (D : Deep nin m) (v : Mat ℝ p (m + 1)) (x : Vec ℝ nin) (d : Vec ℝ p) (e : Vec ℝ p) (he : ∀ k, e k = d k - affine v (D.out f x) k) :
    (0 < (∑ k, e k ^ 2) * sizeOf1 (D.out f x) + D.slope f x (decide (p = 1)) (fun i => ∑ k, e k * v k i.succ) (fun i => ∑ k, e k * v k i.succ) →
      ∃ η0 > 0, ∀ η, 0 < η → η < η0 → halfSq d (((Net.predictV (mkNet (D.hidden f η) v η) x).1.update d).1.predictV x).2 <
        halfSq d (Net.predictV (mkNet (D.hidden f η) v η) x).2) ∧
    ((∑ k, e k ^ 2) * sizeOf1 (D.out f x) + D.slope f x (decide (p = 1)) (fun i => ∑ k, e k * v k i.succ) (fun i => ∑ k, e k * v k i.succ) < 0 →
      ∃ η0 > 0, ∀ η, 0 < η → η < η0 → halfSq d (Net.predictV (mkNet (D.hidden f η) v η) x).2 <
        halfSq d (((Net.predictV (mkNet (D.hidden f η) v η) x).1.update d).1.predictV x).2) := by
  obtain ⟨h1, h2, h3⟩ := C132_slope f D v x d e he
  refine ⟨fun h => ?_, fun h => ?_⟩
  · obtain ⟨η0, h0, hη⟩ := eventually_smaller h3 (by linarith)
    refine ⟨η0, h0, fun η a b => ?_⟩
    rw [h1, ← h2]
    exact hη η a b
  · obtain ⟨η0, h0, hη⟩ := eventually_smaller h3.neg (by linarith)
    refine ⟨η0, h0, fun η a b => ?_⟩
    rw [h1, ← h2]
    exact neg_lt_neg_iff.mp (hη η a b)

theorem codeFactor_nonneg (last : Bool) (f : Act) (W : Mat ℝ m (nin + 1)) (x : Vec ℝ nin) (i : Fin m) : 0 ≤ codeFactor last (nodes (actSpec f) W x i) := by
  cases last
  · have := actSpec_lt_one f (affine W x i)
    show 0 ≤ 1 - actSpec f (affine W x i)
    linarith
  · exact zero_le_one

theorem sizeOf1_pos {n : ℕ} (x : Vec ℝ n) : 0 < sizeOf1 x := by
  have := one_le_biased x
  rw [sizeOf1_eq] at this
  linarith

theorem deepSlope_nonneg (f : Act) (x : Vec ℝ nin) (last : Bool) (D : Deep nin m) (hD : if last then D.UniformBelow f x else D.Uniform f x) (g : Vec ℝ m) (κ : ℝ) (hκ : 0 ≤ κ) :
    0 ≤ D.slope f x last g (fun i => κ * g i) := by
  induction D generalizing last κ with
  | one w =>
    refine sum_nonneg fun i _ => mul_nonneg ?_ (sizeOf1_pos x).le
    have := mul_nonneg (mul_nonneg (codeFactor_nonneg last f w x i) hκ) (mul_self_nonneg (actDer f (nodes (actSpec f) w x i) * g i))
    refine this.trans_eq ?_
    ring
  | snoc D w ih =>
    simp only [Deep.slope]
    refine add_nonneg (sum_nonneg fun i _ => mul_nonneg ?_ (sizeOf1_pos _).le) ?_
    · have := mul_nonneg (mul_nonneg (codeFactor_nonneg last f w (D.out f x) i) hκ) (mul_self_nonneg (actDer f (nodes (actSpec f) w (D.out f x) i) * g i))
      refine this.trans_eq ?_
      ring
    · have hU : D.Uniform f x := by
        cases last
        · exact hD.2
        · exact hD
      obtain ⟨t, ht, hti⟩ : ∃ t, 0 ≤ t ∧ ∀ i, codeFactor last (nodes (actSpec f) w (D.out f x) i) = t := by
        cases last
        · rename_i q
          rcases Nat.eq_zero_or_pos q with h | h
          · subst h
            exact ⟨0, le_rfl, fun i => i.elim0⟩
          · exact ⟨_, codeFactor_nonneg false f w (D.out f x) ⟨0, h⟩, fun i => congrArg _ (hD.1 i ⟨0, h⟩)⟩
        · exact ⟨1, zero_le_one, fun i => rfl⟩
      have := ih false hU (fun j => ∑ i, actDer f (nodes (actSpec f) w (D.out f x) i) * g i * w i j.succ) (t * κ) (mul_nonneg ht hκ)
      refine this.trans_eq (congrArg _ ?_)
      funext j
      rw [mul_sum]
      refine sum_congr rfl fun i _ => ?_
      rw [hti]
      ring

/-- C132 (descent): any depth, sigmoid or tanh.  If for the input `x` all nodes of a layer give the same output, in every hidden layer but the first (and, with one output, but the last),
and the network errs on `(x, d)`, then every small enough learning rate makes the error of the sample smaller.  In particular if these layers have one node each, and always with one
hidden layer or with two hidden layers and one output (C103). -/
theorem C132_descent (f : Act) (D : Deep nin m) (v : Mat ℝ p (m + 1)) (x : Vec ℝ nin) (d : Vec ℝ p)
    (hD : if p = 1 then D.UniformBelow f x else D.Uniform f x) (he : ∃ k, d k ≠ (Net.predictV (mkNet (D.hidden f 0) v 0) x).2 k) :
    ∃ η0 > 0, ∀ η, 0 < η → η < η0 → halfSq d (((Net.predictV (mkNet (D.hidden f η) v η) x).1.update d).1.predictV x).2 <
      halfSq d (Net.predictV (mkNet (D.hidden f η) v η) x).2 := by
  refine (C132_sign f D v x d (fun k => d k - affine v (D.out f x) k) fun k => rfl).1 ?_
  refine add_pos_of_pos_of_nonneg (mul_pos ?_ (sizeOf1_pos _)) ?_
  · obtain ⟨k, hk⟩ := he
    rw [(C132_slope f D v x d _ fun k => rfl).1] at hk
    exact sum_pos' (fun k _ => sq_nonneg _) ⟨k, mem_univ k, by
      have : d k - affine v (D.out f x) k ≠ 0 := sub_ne_zero.2 hk
      positivity⟩
  · have := deepSlope_nonneg f x (decide (p = 1)) D (by simpa using hD) (fun i => ∑ k, (d k - affine v (D.out f x) k) * v k i.succ) 1 zero_le_one
    simpa using this

/-! ## Deeper networks: the error can grow for every small learning rate -/

/-- sigmoid network with hidden layers of 1 and 2 nodes -/
noncomputable def climb2 : Deep 1 2 := .snoc (.one fun _ _ => 0) ![![-2, 4], ![Real.log 3 + 4, -8]]

theorem climb2_first (x : Vec ℝ 1) : (Deep.one (nin := 1) (m := 1) fun _ _ => 0).out .sigmoid x = fun _ => 1 / 2 := by
  funext i
  simp [Deep.out, nodes, affine, actSpec]
  norm_num

theorem sigmoid_log3 : actSpec .sigmoid (Real.log 3) = 3 / 4 := by
  simp only [actSpec]
  rw [Real.exp_neg, Real.exp_log (by norm_num)]
  norm_num

theorem climb2_second : nodes (actSpec .sigmoid) (![![-2, 4], ![Real.log 3 + 4, -8]] : Mat ℝ 2 2) (fun _ => 1 / 2) = ![1 / 2, 3 / 4] := by
  funext i
  have h1 : affine (![![-2, 4], ![Real.log 3 + 4, -8]] : Mat ℝ 2 2) (fun _ => 1 / 2) = ![0, Real.log 3] := by
    funext i
    fin_cases i
    · simp [affine]; norm_num
    · simp [affine]; norm_num
  simp only [nodes, h1]
  fin_cases i
  · show actSpec .sigmoid 0 = 1 / 2
    simp [actSpec]; norm_num
  · exact sigmoid_log3

/-- C132 (two hidden layers, several outputs): there are a network with hidden layers `[1, 2]` and two outputs and a sample on which it errs such that the update makes the error of
the sample larger, for every small enough learning rate. -/
theorem C132_climbs : ∃ (D : Deep 1 2) (v : Mat ℝ 2 3) (x : Vec ℝ 1) (d : Vec ℝ 2), ∃ η0 > 0, ∀ η, 0 < η → η < η0 →
    halfSq d (Net.predictV (mkNet (D.hidden .sigmoid η) v η) x).2 <
      halfSq d (((Net.predictV (mkNet (D.hidden .sigmoid η) v η) x).1.update d).1.predictV x).2 := by
  have hout : ∀ x, climb2.out .sigmoid x = ![1 / 2, 3 / 4] := by
    intro x
    show nodes _ _ ((Deep.one fun _ _ => 0).out .sigmoid x) = _
    rw [climb2_first, climb2_second]
  refine ⟨climb2, ![![0, 1, 0], ![0, 0, 1]], fun _ => 50, ![3 / 2, 7 / 4], ?_⟩
  refine (C132_sign .sigmoid climb2 _ _ _ (fun _ => 1) ?_).2 ?_
  · intro k
    rw [hout]
    fin_cases k <;> simp [affine, Fin.sum_univ_succ] <;> norm_num
  · rw [hout]
    have hc : (fun i : Fin 2 => ∑ k : Fin 2, (1 : ℝ) * (![![0, 1, 0], ![0, 0, 1]] : Mat ℝ 2 3) k i.succ) = fun _ => 1 := by
      funext i
      fin_cases i <;> simp [Fin.sum_univ_succ]
    have hp : decide ((2 : ℕ) = 1) = false := rfl
    rw [hc, hp]
    unfold climb2
    simp only [Deep.slope]
    rw [climb2_first, climb2_second]
    have h1 := climb2_first fun _ => 50
    simp only [Deep.out] at h1
    rw [h1]
    simp [Fin.sum_univ_succ, sizeOf1, actDer, codeFactor]
    norm_num

/-- C132 (three hidden layers, one output): the same with hidden layers `[1, 2, 1]` and one output. -/
theorem C132_climbs_three : ∃ (D : Deep 1 1) (v : Mat ℝ 1 2) (x : Vec ℝ 1) (d : Vec ℝ 1), ∃ η0 > 0, ∀ η, 0 < η → η < η0 →
    halfSq d (Net.predictV (mkNet (D.hidden .sigmoid η) v η) x).2 <
      halfSq d (((Net.predictV (mkNet (D.hidden .sigmoid η) v η) x).1.update d).1.predictV x).2 := by
  have hout2 : ∀ x, climb2.out .sigmoid x = ![1 / 2, 3 / 4] := by
    intro x
    show nodes _ _ ((Deep.one fun _ _ => 0).out .sigmoid x) = _
    rw [climb2_first, climb2_second]
  have hout3 : nodes (actSpec .sigmoid) (![![-5 / 4, 1, 1]] : Mat ℝ 1 3) ![1 / 2, 3 / 4] = fun _ => 1 / 2 := by
    funext i
    have h1 : affine (![![-5 / 4, 1, 1]] : Mat ℝ 1 3) ![1 / 2, 3 / 4] i = 0 := by
      fin_cases i
      simp [affine, Fin.sum_univ_succ]; norm_num
    simp only [nodes, h1]
    simp [actSpec]; norm_num
  have hout : ∀ x, (Deep.snoc climb2 ![![-5 / 4, 1, 1]]).out .sigmoid x = fun _ => 1 / 2 := by
    intro x
    show nodes _ _ (climb2.out .sigmoid x) = _
    rw [hout2, hout3]
  refine ⟨.snoc climb2 ![![-5 / 4, 1, 1]], ![![0, 1]], fun _ => 150, ![3 / 2], ?_⟩
  refine (C132_sign .sigmoid (.snoc climb2 ![![-5 / 4, 1, 1]]) _ _ _ (fun _ => 1) ?_).2 ?_
  · intro k
    rw [hout]
    fin_cases k
    simp [affine, Fin.sum_univ_succ]; norm_num
  · rw [hout]
    have hc : (fun i : Fin 1 => ∑ k : Fin 1, (1 : ℝ) * (![![0, 1]] : Mat ℝ 1 2) k i.succ) = fun _ => 1 := by
      funext i
      fin_cases i; simp
    have hp : decide ((1 : ℕ) = 1) = true := rfl
    rw [hc, hp]
    simp only [Deep.slope]
    rw [hout2, hout3]
    unfold climb2
    simp only [Deep.slope]
    rw [climb2_first, climb2_second]
    have h1 := climb2_first fun _ => 150
    simp only [Deep.out] at h1
    rw [h1]
    simp [Fin.sum_univ_succ, sizeOf1, actDer, codeFactor]
    norm_num

/-- C132 (tanh): two hidden layers `[1, 2]` and two outputs with the activation tanh. -/
theorem C132_climbs_tanh : ∃ (D : Deep 1 2) (v : Mat ℝ 2 3) (x : Vec ℝ 1) (d : Vec ℝ 2), ∃ η0 > 0, ∀ η, 0 < η → η < η0 →
    halfSq d (Net.predictV (mkNet (D.hidden .tanh η) v η) x).2 <
      halfSq d (((Net.predictV (mkNet (D.hidden .tanh η) v η) x).1.update d).1.predictV x).2 := by
  have hfirst : ∀ x, nodes (actSpec .tanh) (fun (_ : Fin 1) (_ : Fin 2) => (0 : ℝ)) x = fun _ => 0 := by
    intro x
    funext i
    simp [nodes, affine, actSpec]
  have hlog : actSpec .tanh (Real.log 2) = 3 / 5 := by
    simp only [actSpec]
    rw [Real.tanh_eq_sinh_div_cosh, Real.sinh_eq, Real.cosh_eq, Real.exp_neg, Real.exp_log (by norm_num)]
    norm_num
  have hsecond : nodes (actSpec .tanh) (![![0, 1], ![Real.log 2, -75 / 32]] : Mat ℝ 2 2) (fun _ => 0) = ![0, 3 / 5] := by
    funext i
    fin_cases i
    · simp [nodes, affine, actSpec]
    · simpa [nodes, affine] using hlog
  have hout : ∀ x, (Deep.snoc (.one (nin := 1) fun (_ : Fin 1) _ => 0) ![![0, 1], ![Real.log 2, -75 / 32]]).out .tanh x = ![0, 3 / 5] := by
    intro x
    simp only [Deep.out]
    rw [hfirst, hsecond]
  refine ⟨.snoc (.one fun _ _ => 0) ![![0, 1], ![Real.log 2, -75 / 32]], ![![0, 1, 0], ![0, 0, 1]], fun _ => 5, ![1, 8 / 5], ?_⟩
  refine (C132_sign .tanh _ _ _ _ (fun _ => 1) ?_).2 ?_
  · intro k
    rw [hout]
    fin_cases k <;> simp [affine, Fin.sum_univ_succ] <;> norm_num
  · rw [hout]
    have hc : (fun i : Fin 2 => ∑ k : Fin 2, (1 : ℝ) * (![![0, 1, 0], ![0, 0, 1]] : Mat ℝ 2 3) k i.succ) = fun _ => 1 := by
      funext i
      fin_cases i <;> simp [Fin.sum_univ_succ]
    have hp : decide ((2 : ℕ) = 1) = false := rfl
    rw [hc, hp]
    simp only [Deep.slope, Deep.out]
    rw [hfirst, hsecond]
    simp [Fin.sum_univ_succ, sizeOf1, actDer, codeFactor]
    norm_num

/-- C132 (first step): with output weights zero, whatever the depth, the error after the update is `1 - mu (1 + |z|^2)` times the error before, `z` the outputs of the last hidden layer. -/
theorem C132_first_step (f : Act) (D : Deep nin m) (η mu : ℝ) (x : Vec ℝ nin) (d : Vec ℝ p) (k : Fin p) :
    d k - (((Net.predictV (mkNet (D.hidden f η) (fun _ _ => (0 : ℝ)) mu) x).1.update d).1.predictV x).2 k = (1 - mu * sizeOf1 (D.out f x)) * d k := by
  have hz : ∀ z : Vec ℝ m, affine (fun (_ : Fin p) (_ : Fin (m + 1)) => (0 : ℝ)) z = fun _ => 0 := by
    intro z; funext k; unfold affine; simp
  have h := deep_update (rep_new f η D) (fun (_ : Fin p) _ => (0 : ℝ)) (fun _ => 1) rfl (fun _ => 0) mu x d
  simp only [hz, mul_zero, sum_const_zero, zero_add, sub_zero] at h
  have hs : ∀ (last : Bool) {m : ℕ} (D : Deep nin m), D.step f η x last (fun _ => 0) = D := by
    intro last m D
    induction D generalizing last with
    | one w => simp [Deep.step]
    | snoc D w ih => simp [Deep.step, ih]
  rw [hs] at h
  refine (congrArg (fun y => d k - y k) h).trans ?_
  rw [affine_biased, ← sizeOf1_eq]
  have : ∀ j, mu * (d k * biased (D.out f x) j) * biased (D.out f x) j = mu * d k * (biased (D.out f x) j * biased (D.out f x) j) := fun j => by ring
  simp only [this, ← mul_sum]
  ring

/-- the hypotheses of `C132_descent`: three hidden layers `[2, 1, 3]`, one output -/
example : ∃ (D : Deep 2 3) (v : Mat ℝ 1 4) (x : Vec ℝ 2) (d : Vec ℝ 1), (if (1 : ℕ) = 1 then D.UniformBelow .sigmoid x else D.Uniform .sigmoid x) ∧
    ∃ k, d k ≠ (Net.predictV (mkNet (D.hidden .sigmoid 0) v 0) x).2 k := by
  refine ⟨.snoc (m := 1) (.snoc (m := 2) (.one fun i j => i.val + j.val) fun _ j => (j.val : ℝ) - 1) fun i j => i.val - j.val, fun _ _ => 0, fun _ => 1, fun _ => 1, ?_, 0, ?_⟩
  · rw [if_pos rfl]
    exact ⟨fun i j => by rw [Subsingleton.elim i j], trivial⟩
  · rw [(C132_slope .sigmoid _ _ _ (fun _ => 0) _ fun k => rfl).1]
    simp [affine]

end Padasip
