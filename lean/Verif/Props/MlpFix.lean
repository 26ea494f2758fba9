import Verif.Props.MlpBound
import Verif.Props.Mlp

/-!
# C106: when training a network changes nothing
-/

set_option linter.unusedSectionVars false
set_option linter.unusedSimpArgs false
set_option linter.unusedVariables false

namespace Padasip

open Finset

variable {nin m q p : ℕ}

/-- the learning rates of the hidden layers are all zero -/
def Hidden.MuZero {nin m : ℕ} : Hidden ℝ nin m → Prop
  | .one l => l.mu = 0
  | .snoc h l => h.MuZero ∧ l.mu = 0

theorem layer_apply_same (l : Layer ℝ nin m) (e : Vec ℝ m) (he : l.mu = 0 ∨ ∀ i, e i = 0) : l.apply e = l := by
  have : (l.apply e).w = l.w := by
    funext i j
    show l.w i j + l.mu * (e i * l.x j) = l.w i j
    rcases he with he | he
    · rw [he]; ring
    · rw [he i]; ring
  cases l with
  | mk w x y mu f => exact congrArg (fun w => Layer.mk w x y mu f) this

theorem errMat_zero (l : Layer ℝ nin m) (w : Mat ℝ p m) (e : Vec ℝ p) (he : ∀ k, e k = 0) (i : Fin m) : l.errMat w e i = 0 := by
  show activation l.f true (l.y i) * (1 - l.y i) * (@vsum ℝ realTransc.toScalar p fun k => e k * w k i) = 0
  rw [rvsum]
  simp [he]

theorem errFlat_zero (l : Layer ℝ nin m) (w : Vec ℝ m) (i : Fin m) : l.errFlat w 0 i = 0 := by
  show activation l.f true (l.y i) * 0 * w i = 0
  ring

theorem updateMat_same {nin m p : ℕ} (h : Hidden ℝ nin m) (w : Mat ℝ p m) (e : Vec ℝ p) (he : h.MuZero ∨ ∀ k, e k = 0) : h.updateMat w e = h := by
  induction h generalizing p with
  | one l =>
    show Hidden.one _ = Hidden.one l
    rw [layer_apply_same l _ (he.imp id fun he => errMat_zero l w e he)]
  | snoc h l ih =>
    show Hidden.snoc _ _ = Hidden.snoc h l
    rw [ih _ _ (he.imp And.left fun he => errMat_zero l w e he), layer_apply_same l _ (he.imp And.right fun he => errMat_zero l w e he)]

theorem updateFlat_same {nin m : ℕ} (h : Hidden ℝ nin m) (w : Vec ℝ m) (e : ℝ) (he : h.MuZero ∨ e = 0) : h.updateFlat w e = h := by
  cases h with
  | one l =>
    show Hidden.one _ = Hidden.one l
    rw [layer_apply_same l _ (he.imp id fun he => by rw [he]; exact errFlat_zero l w)]
  | snoc h l =>
    show Hidden.snoc _ _ = Hidden.snoc h l
    rw [updateMat_same h _ _ (he.imp And.left fun he => by rw [he]; exact errFlat_zero l w),
      layer_apply_same l _ (he.imp And.right fun he => by rw [he]; exact errFlat_zero l w)]

theorem net_update_same (n : Net ℝ nin m p) (d : Vec ℝ p) (h : (n.mu = 0 ∧ n.hidden.MuZero) ∨ ∀ k, d k = n.y k) : (n.update d).1 = n := by
  have hw : (n.update d).1.w = n.w := by
    funext k j
    show n.w k j + (if p = 1 then n.mu * (d k - n.y k) * n.x j else n.mu * ((d k - n.y k) * n.x j)) = n.w k j
    rcases h with h | h
    · rw [h.1]; split <;> ring
    · rw [h k]; split <;> ring
  have hh : (n.update d).1.hidden = n.hidden := by
    unfold Net.update
    by_cases hp : p = 1
    · subst hp
      simp only [dif_pos]
      exact updateFlat_same _ _ _ (h.imp And.right fun h => sub_eq_zero.2 (h 0))
    · simp only [hp, dif_neg, not_false_eq_true]
      exact updateMat_same _ _ _ (h.imp And.right fun h k => sub_eq_zero.2 (h k))
  have hx : (n.update d).1 = { n with hidden := (n.update d).1.hidden, w := (n.update d).1.w } := rfl
  rw [hx, hh, hw]

/-- C106: `predict(x)` and then `update(d)` leaves all weights unchanged exactly if there is no error (or, for the output layer, the learning rate is 0): with a
learning rate `mu` different from 0 an unchanged bias weight of output `k` means that output `k` was right. -/
theorem C106_update_iff (n : Net ℝ nin m p) (hb : n.BiasOne) (hmu : n.mu ≠ 0) (x : Vec ℝ nin) (d : Vec ℝ p) :
    ((n.predictV x).1.update d).1.weights = n.weights ↔ d = (n.predictV x).2 := by
  constructor
  · intro h
    have h1 : ((n.predictV x).1.update d).1.weights.getLast? = n.weights.getLast? := by rw [h]
    unfold Net.weights at h1
    rw [List.getLast?_append, List.getLast?_append] at h1
    simp only [List.getLast?_singleton, Option.or_some, Option.some_or, Option.some.injEq] at h1
    have h2 := List.ofFn_injective h1
    funext k
    have h3 := List.ofFn_injective (congrFun h2 k)
    have h4 := congrFun h3 0
    have h5 : (n.predictV x).1.x 0 = 1 := hb.2
    have h6 : n.w k 0 + (if p = 1 then n.mu * (d k - (n.predictV x).2 k) * (n.predictV x).1.x 0 else n.mu * ((d k - (n.predictV x).2 k) * (n.predictV x).1.x 0)) = n.w k 0 := h4
    rw [h5] at h6
    have h7 : n.mu * (d k - (n.predictV x).2 k) = 0 := by
      split at h6 <;> linarith
    exact sub_eq_zero.1 ((mul_eq_zero.1 h7).resolve_left hmu)
  · rintro rfl
    rw [net_update_same (n.predictV x).1 (n.predictV x).2 (Or.inr fun k => rfl)]
    exact Net.predictV_weights n x

/-- the network fits the samples: the prediction is the target -/
def Net.Fits (n : Net ℝ nin m p) (data : List (Vec ℝ nin × Vec ℝ p)) : Prop := ∀ q ∈ data, (n.predictV q.1).2 = q.2

theorem epoch_fits (data : List (Vec ℝ nin × Vec ℝ p)) : ∀ n : Net ℝ nin m p, n.Fits data →
    (n.epoch data).1.weights = n.weights ∧ (∀ a, (n.epoch data).1.predictV a = n.predictV a) ∧ (n.epoch data).2 = data.map fun _ _ => 0 := by
  induction data with
  | nil => intro n h; exact ⟨rfl, fun _ => rfl, rfl⟩
  | cons q t ih =>
    intro n h
    obtain ⟨x, d⟩ := q
    have hd : (n.predictV x).2 = d := h (x, d) (by simp)
    have hsame : ((n.predictV x).1.update d).1 = (n.predictV x).1 := net_update_same _ _ (Or.inr fun k => by rw [← hd]; rfl)
    have herr : ((n.predictV x).1.update d).2 = fun _ => 0 := by
      funext k
      show d k - (n.predictV x).2 k = 0
      rw [hd, sub_self]
    have hfit : (n.predictV x).1.Fits t := by
      intro q hq
      rw [Net.predictV_predictV]
      exact h q (by simp [hq])
    obtain ⟨i1, i2, i3⟩ := ih (n.predictV x).1 hfit
    have he : n.epoch ((x, d) :: t) = (((n.predictV x).1.epoch t).1, (fun _ => 0) :: ((n.predictV x).1.epoch t).2) := by
      show ((((n.predictV x).1.update d).1.epoch t).1, ((n.predictV x).1.update d).2 :: (((n.predictV x).1.update d).1.epoch t).2) = _
      rw [hsame, herr]
    rw [he]
    refine ⟨i1.trans (Net.predictV_weights n x), fun a => (i2 a).trans (Net.predictV_predictV n x a), ?_⟩
    show _ :: _ = _ :: _
    rw [i3]

theorem trainLoop_fits (data : List (Vec ℝ nin × Vec ℝ p)) (k : ℕ) : ∀ n : Net ℝ nin m p, n.Fits data →
    (n.trainLoop data k).1.weights = n.weights ∧ (∀ e ∈ (n.trainLoop data k).2.1, e = fun _ => 0) ∧ ∀ s ∈ (n.trainLoop data k).2.2, s = 0 := by
  induction k with
  | zero =>
    intro n h
    refine ⟨rfl, fun e he => ?_, fun e he => ?_⟩
    · exact absurd he (List.not_mem_nil)
    · exact absurd he (List.not_mem_nil)
  | succ k ih =>
    intro n h
    obtain ⟨h1, h2, h3⟩ := epoch_fits data n h
    obtain ⟨i1, i2, i3⟩ := ih (n.epoch data).1 (fun q hq => by rw [h2]; exact h q hq)
    refine ⟨i1.trans h1, ?_, ?_⟩
    · intro e he
      have he' : e ∈ (n.epoch data).2 ++ ((n.epoch data).1.trainLoop data k).2.1 := he
      rcases List.mem_append.1 he' with he | he
      · rw [h3] at he
        obtain ⟨_, _, rfl⟩ := List.mem_map.1 he
        rfl
      · exact i2 e he
    · intro s hs
      have hs' : s ∈ epochMse (n.epoch data).2 :: ((n.epoch data).1.trainLoop data k).2.2 := hs
      rcases List.mem_cons.1 hs' with rfl | hs
      · rw [epochMse_real]
        have hz : (((n.epoch data).2).dropLast.map errSq).sum = 0 := by
          refine List.sum_eq_zero fun a ha => ?_
          obtain ⟨v, hv, rfl⟩ := List.mem_map.1 ha
          have := List.mem_of_mem_dropLast hv
          rw [h3] at this
          obtain ⟨_, _, rfl⟩ := List.mem_map.1 this
          simp [errSq]
        rw [hz, zero_div]
      · exact i3 s hs

/-- C106: training a network on data it already fits, for any number of epochs, shuffled or not, changes no weight; all returned errors and all returned MSE are 0. -/
theorem C106_fits (n : Net ℝ nin m p) (rand : List ℕ) (x : List (List ℝ)) (d : NArr ℝ) (epochs : ℕ) (shuffle : Bool) {data : List (Vec ℝ nin × Vec ℝ p)}
    (hc : mlpCheck nin p x d = .ok data) (hfit : ∀ q ∈ data, (n.predictV q.1).2 = q.2) :
    ∃ es ms, (n.train rand x d epochs shuffle).1 = .ok (es, ms) ∧ (n.train rand x d epochs shuffle).2.weights = n.weights ∧
      (∀ e ∈ es, e = fun _ => 0) ∧ ∀ s ∈ ms, s = 0 := by
  have hf : n.Fits (if shuffle then takeRows rand data else data) := by
    intro q hq
    split at hq
    · refine hfit q ?_
      unfold takeRows at hq
      obtain ⟨i, -, hi⟩ := List.mem_filterMap.1 hq
      exact List.mem_of_getElem? hi
    · exact hfit q hq
  obtain ⟨h1, h2, h3⟩ := trainLoop_fits _ epochs n hf
  unfold Net.train
  rw [hc]
  exact ⟨_, _, rfl, h1, h2, h3⟩

/-- the networks that have the same hidden layers up to the stored inputs and outputs -/
theorem epoch_mu_zero (data : List (Vec ℝ nin × Vec ℝ p)) : ∀ n : Net ℝ nin m p, n.mu = 0 → n.hidden.MuZero →
    (n.epoch data).1.mu = 0 ∧ (n.epoch data).1.hidden.MuZero ∧ (n.epoch data).1.weights = n.weights ∧ (∀ a, (n.epoch data).1.predictV a = n.predictV a) ∧
      (n.epoch data).2 = data.map fun q k => q.2 k - (n.predictV q.1).2 k := by
  have hpz : ∀ {m : ℕ} (h : Hidden ℝ nin m) (x : Vec ℝ nin), h.MuZero → (h.predict x).1.MuZero := by
    intro m h x hz
    induction h with
    | one l => exact hz
    | snoc h l ih => exact ⟨ih hz.1, hz.2⟩
  induction data with
  | nil => intro n h1 h2; exact ⟨h1, h2, rfl, fun _ => rfl, rfl⟩
  | cons q t ih =>
    intro n h1 h2
    obtain ⟨x, d⟩ := q
    have hz : (n.predictV x).1.hidden.MuZero := hpz _ _ h2
    have hsame : ((n.predictV x).1.update d).1 = (n.predictV x).1 := net_update_same _ _ (Or.inl ⟨h1, hz⟩)
    obtain ⟨i1, i2, i3, i4, i5⟩ := ih (n.predictV x).1 h1 hz
    have he : n.epoch ((x, d) :: t) = (((n.predictV x).1.epoch t).1, ((n.predictV x).1.update d).2 :: ((n.predictV x).1.epoch t).2) := by
      show ((((n.predictV x).1.update d).1.epoch t).1, ((n.predictV x).1.update d).2 :: (((n.predictV x).1.update d).1.epoch t).2) = _
      rw [hsame]
    rw [he]
    refine ⟨i1, i2, i3.trans (Net.predictV_weights n x), fun a => (i4 a).trans (Net.predictV_predictV n x a), ?_⟩
    show _ :: _ = _ :: _
    rw [i5]
    congr 1
    refine List.map_congr_left fun q _ => ?_
    rw [Net.predictV_predictV]

/-- C106: with the learning rate 0 (in all layers) an unshuffled training changes no weight and every epoch returns the errors that `test` returns. -/
theorem C106_mu_zero (n : Net ℝ nin m p) (h1 : n.mu = 0) (h2 : n.hidden.MuZero) (rand : List ℕ) (x : List (List ℝ)) (d : NArr ℝ) (epochs : ℕ) {es : List (Vec ℝ p)}
    (ht : (n.test x d).1 = .ok es) :
    ∃ ms, (n.train rand x d epochs false).1 = .ok ((List.replicate epochs es).flatten, ms) ∧ (n.train rand x d epochs false).2.weights = n.weights := by
  unfold Net.test at ht
  unfold Net.train
  cases hc : mlpCheck nin p x d with
  | error e => rw [hc] at ht; simp at ht
  | ok data =>
    rw [hc] at ht
    have hes : es = data.map fun q k => q.2 k - (n.predictV q.1).2 k := by
      have := (testLoop_eq n data).2
      simp only [Except.ok.injEq] at ht
      rw [← ht]; exact this
    have key : ∀ (k : ℕ) (n' : Net ℝ nin m p), n'.mu = 0 → n'.hidden.MuZero → n'.weights = n.weights → (∀ a, n'.predictV a = n.predictV a) →
        (n'.trainLoop data k).2.1 = (List.replicate k es).flatten ∧ (n'.trainLoop data k).1.weights = n.weights := by
      intro k
      induction k with
      | zero => intro n' a1 a2 a3 a4; exact ⟨rfl, a3⟩
      | succ k ih =>
        intro n' a1 a2 a3 a4
        obtain ⟨b1, b2, b3, b4, b5⟩ := epoch_mu_zero data n' a1 a2
        obtain ⟨c1, c2⟩ := ih (n'.epoch data).1 b1 b2 (b3.trans a3) (fun a => (b4 a).trans (a4 a))
        refine ⟨?_, c2⟩
        show (n'.epoch data).2 ++ ((n'.epoch data).1.trainLoop data k).2.1 = _
        rw [c1, b5, List.replicate_succ, List.flatten_cons, hes]
        congr 1
        refine List.map_congr_left fun q _ => ?_
        rw [a4]
    obtain ⟨k1, k2⟩ := key epochs n h1 h2 rfl fun _ => rfl
    refine ⟨(n.trainLoop data epochs).2.2, ?_, k2⟩
    show Except.ok ((n.trainLoop data epochs).2.1, (n.trainLoop data epochs).2.2) = _
    rw [k1]

/-- C106: with output weights zero the first update leaves all hidden weights unchanged, whatever the depth: nothing is propagated back. -/
theorem C106_zero_output_weights (n : Net ℝ nin m p) (hw : ∀ k i, n.w k (Fin.succ i) = 0) (x : Vec ℝ nin) (d : Vec ℝ p) :
    ((n.predictV x).1.update d).1.hidden.weights = n.hidden.weights := by
  have hz : ((n.predictV x).1.update d).1.hidden = (n.predictV x).1.hidden := by
    have key1 : ∀ {m : ℕ} (h : Hidden ℝ nin m) (w : Mat ℝ p m) (e : Vec ℝ p), (∀ k i, w k i = 0) → h.updateMat w e = h := by
      intro m h w e hw
      have hz : ∀ {a b : ℕ} (l : Layer ℝ a b) (w : Mat ℝ p b), (∀ k i, w k i = 0) → ∀ i, l.errMat w e i = 0 := by
        intro a b l w hw i
        show activation l.f true (l.y i) * (1 - l.y i) * (@vsum ℝ realTransc.toScalar p fun k => e k * w k i) = 0
        rw [rvsum]; simp [hw]
      cases h with
      | one l => show Hidden.one _ = Hidden.one l; rw [layer_apply_same l _ (Or.inr (hz l w hw))]
      | snoc h l =>
        show Hidden.snoc _ _ = Hidden.snoc h l
        rw [updateMat_same h _ _ (Or.inr (hz l w hw)), layer_apply_same l _ (Or.inr (hz l w hw))]
    have key2 : ∀ {m : ℕ} (h : Hidden ℝ nin m) (w : Vec ℝ m) (e : ℝ), (∀ i, w i = 0) → h.updateFlat w e = h := by
      intro m h w e hw
      have hz : ∀ {a b : ℕ} (l : Layer ℝ a b) (w : Vec ℝ b), (∀ i, w i = 0) → ∀ i, l.errFlat w e i = 0 := by
        intro a b l w hw i
        show activation l.f true (l.y i) * e * w i = 0
        rw [hw]; ring
      cases h with
      | one l => show Hidden.one _ = Hidden.one l; rw [layer_apply_same l _ (Or.inr (hz l w hw))]
      | snoc h l =>
        show Hidden.snoc _ _ = Hidden.snoc h l
        rw [updateMat_same h _ _ (Or.inr (hz l w hw)), layer_apply_same l _ (Or.inr (hz l w hw))]
    unfold Net.update
    by_cases hp : p = 1
    · subst hp
      simp only [dif_pos]
      exact key2 _ _ _ fun i => hw 0 i
    · simp only [hp, dif_neg, not_false_eq_true]
      exact key1 _ _ _ fun k i => hw k i
  rw [hz]
  exact Hidden.predict_weights n.hidden x

/-- not vacuous: a network with zero weights fits the target 0 -/
example : ∃ data, mlpCheck 1 1 [[3], [4]] (.one [0, 0] : NArr ℝ) = .ok data ∧
    ∀ q ∈ data, (Net.predictV (mkNet (.one (mkLayer (fun _ : Fin 2 => fun _ => 0) .tanh 1)) (fun _ : Fin 1 => fun _ => 0) 1 : Net ℝ 1 2 1) q.1).2 = q.2 := by
  refine ⟨[(fun _ => 3, fun _ => 0), (fun _ => 4, fun _ => 0)], ?_, ?_⟩
  · rw [C77_accepted_iff]
    simp [NArr.len]
  · intro q hq
    have hout : ∀ a, (Net.predictV (mkNet (.one (mkLayer (fun _ : Fin 2 => fun _ => 0) .tanh 1)) (fun _ : Fin 1 => fun _ => 0) 1 : Net ℝ 1 2 1) a).2 = fun _ => 0 := by
      intro a
      funext k
      exact (C103_first_step .tanh (fun _ : Fin 2 => fun _ => 0) 1 1 a (fun _ => 0) k).1
    rw [hout]
    simp at hq
    rcases hq with rfl | rfl <;> rfl

end Padasip
