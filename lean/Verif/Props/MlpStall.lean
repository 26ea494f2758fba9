import Verif.Props.Stall
import Verif.Props.MlpRound

/-!
# C161: in finite precision saturated nodes of a multi-layer perceptron stop learning
-/

set_option linter.unusedSectionVars false
set_option linter.unusedVariables false
set_option linter.unusedSimpArgs false

namespace Padasip

variable {P : ℕ} {hP : 0 < P} {nin m p : ℕ}

/-- the (computed) weighted sum of node `i` when the layer is given the input `x` -/
noncomputable def Layer.nodeSum {F : Rounding} (l : Layer (Fl F) nin m) (x : Vec (Fl F) nin) (i : Fin m) : ℝ := (vsum fun j => l.w i j * setTail l.x x j).val

/-- node `i` is saturated at the input `x`: its sum is at least `(P+6) log 2` (double precision: 41), or for tanh at most minus that -/
def Layer.SaturatedAt (P : ℕ) {F : Rounding} (l : Layer (Fl F) nin m) (x : Vec (Fl F) nin) (i : Fin m) : Prop :=
  (P + 6) * Real.log 2 ≤ l.nodeSum x i ∨ l.f = .tanh ∧ l.nodeSum x i ≤ -((P + 6) * Real.log 2)

/-- all nodes of the last hidden layer are saturated when the network is given `x` -/
def Hidden.TopSaturated (P : ℕ) {F : Rounding} {nin m : ℕ} : Hidden (Fl F) nin m → Vec (Fl F) nin → Prop
  | .one l, x => ∀ i, l.SaturatedAt P x i
  | .snoc h l, x => ∀ i, l.SaturatedAt P (h.predict x).2 i

/-- the weights are numbers of the arithmetic -/
def Hidden.StoredW (P : ℕ) {F : Rounding} {nin m : ℕ} : Hidden (Fl F) nin m → Prop
  | .one l => ∀ i j, Stored P (l.w i j).val
  | .snoc h l => h.StoredW P ∧ ∀ i j, Stored P (l.w i j).val

theorem stored_keep {w : ℝ} (hw : Stored P w) (hP : 0 < P) : roundBits P w = w := by
  have := C160_absorbed hP hw (δ := 0) (by rw [abs_zero]; positivity)
  rwa [add_zero] at this

theorem stored_int (a : ℤ) (ha : |a| ≤ 2 ^ P) : Stored P (a : ℝ) := ⟨a, 0, ha, by simp⟩

theorem stored_one : Stored P 1 := by simpa using stored_int (P := P) 1 (by rw [abs_one]; exact one_le_pow₀ (by norm_num))

theorem stored_two (hP : 0 < P) : Stored P 2 := by
  have := stored_int (P := P) 2 (by rw [abs_of_pos (by norm_num)]; calc (2 : ℤ) = 2 ^ 1 := by norm_num
    _ ≤ 2 ^ P := pow_le_pow_right₀ (by norm_num) hP)
  simpa using this

theorem stored_neg_one : Stored P (-1) := by simpa using stored_int (P := P) (-1) (by rw [abs_neg, abs_one]; exact one_le_pow₀ (by norm_num))

theorem roundBits_zero : roundBits P 0 = 0 := by simp [roundBits]

theorem roundBits_le (hP : 0 < P) {a : ℝ} (ha : 0 ≤ a) : roundBits P a ≤ 2 * a ∧ a / 2 ≤ roundBits P a := by
  have h := roundBits_err P a
  have h1 : ((1 : ℝ) / 2) ^ P ≤ 1 / 2 := by simpa using pow_le_pow_of_le_one (by norm_num : (0 : ℝ) ≤ 1 / 2) (by norm_num) (show 1 ≤ P by omega)
  rw [abs_of_nonneg ha] at h
  have h2 := h.trans (mul_le_mul_of_nonneg_right h1 ha)
  obtain ⟨h3, h4⟩ := abs_le.1 h2
  constructor <;> linarith

theorem exp_threshold (t : ℕ) : Real.exp (-((P + t) * Real.log 2)) = (1 / 2) ^ (P + t) := by
  have h : (P + t) * Real.log 2 = ((P + t : ℕ) : ℝ) * Real.log 2 := by push_cast; ring
  rw [h, ← mul_neg, Real.exp_nat_mul, Real.exp_neg, Real.exp_log two_pos, one_div]

/-- C161: a saturated sigmoid is exactly 1 -/
theorem C161_sigmoid (s : Fl (binary P hP)) (hs : (P + 6) * Real.log 2 ≤ s.val) : activation .sigmoid false s = ⟨1⟩ := by
  have hl := Real.log_pos one_lt_two
  have e1 : roundBits P (Real.exp (-s.val)) ≤ (1 / 2) ^ (P + 2) := by
    refine (roundBits_le hP (Real.exp_pos _).le).1.trans ?_
    have := Real.exp_le_exp.2 (neg_le_neg hs)
    have h6 := exp_threshold (P := P) 6
    push_cast at h6
    rw [h6] at this
    rw [pow_add] at this ⊢
    have : (0 : ℝ) < (1 / 2) ^ P := by positivity
    linarith
  have e2 : 0 ≤ roundBits P (Real.exp (-s.val)) := le_trans (by have := Real.exp_pos (-s.val); linarith) (roundBits_le hP (Real.exp_pos _).le).2
  have e3 : roundBits P (1 + roundBits P (Real.exp (-s.val))) = 1 := C160_absorbed hP stored_one (by rw [abs_of_nonneg e2, abs_one, mul_one]; exact e1)
  apply Fl.ext
  show roundBits P (1 / roundBits P (1 + roundBits P (Real.exp (-s.val)))) = 1
  rw [e3, div_one, stored_keep stored_one hP]

/-- C161: a saturated tanh is exactly 1 or -1 -/
theorem C161_tanh (s : Fl (binary P hP)) : ((P + 6) * Real.log 2 ≤ s.val → activation .tanh false s = ⟨1⟩) ∧ (s.val ≤ -((P + 6) * Real.log 2) → activation .tanh false s = ⟨-1⟩) := by
  have hl := Real.log_pos one_lt_two
  have hP0 : (0 : ℝ) ≤ P := Nat.cast_nonneg P
  have two : roundBits P (1 + 1) = 2 := by rw [show (1 : ℝ) + 1 = 2 by norm_num, stored_keep (stored_two hP) hP]
  have val : (activation .tanh false s).val = roundBits P (roundBits P (2 / roundBits P (1 + roundBits P (Real.exp (roundBits P (-2 * s.val))))) - 1) := by
    show roundBits P (roundBits P (roundBits P (1 + 1) / roundBits P (1 + roundBits P (Real.exp (roundBits P (-(roundBits P (1 + 1)) * s.val))))) - 1) = _
    rw [two]
  have hneg : ∀ a : ℝ, |roundBits P a - a| ≤ 1 / 2 * |a| := fun a => by
    have h1 : ((1 : ℝ) / 2) ^ P ≤ 1 / 2 := by simpa using pow_le_pow_of_le_one (by norm_num : (0 : ℝ) ≤ 1 / 2) (by norm_num) (show 1 ≤ P by omega)
    exact (roundBits_err P a).trans (mul_le_mul_of_nonneg_right h1 (abs_nonneg a))
  have h6 := exp_threshold (P := P) 6
  push_cast at h6
  have hh : (0 : ℝ) < (1 / 2) ^ P := by positivity
  set z := roundBits P (-2 * s.val) with hz
  have hzz := abs_le.1 (hneg (-2 * s.val))
  constructor
  · intro hs
    have hs0 : 0 ≤ s.val := le_trans (by positivity) hs
    have hz1 : z ≤ -s.val := by
      have := hzz.2
      rw [abs_of_nonpos (by linarith)] at this
      linarith
    have e1 : roundBits P (Real.exp z) ≤ (1 / 2) ^ (P + 2) := by
      refine (roundBits_le hP (Real.exp_pos _).le).1.trans ?_
      have := Real.exp_le_exp.2 (hz1.trans (neg_le_neg hs))
      rw [h6, pow_add] at this
      rw [pow_add]
      linarith
    have e2 : 0 ≤ roundBits P (Real.exp z) := le_trans (by have := Real.exp_pos z; linarith) (roundBits_le hP (Real.exp_pos _).le).2
    have e3 : roundBits P (1 + roundBits P (Real.exp z)) = 1 := C160_absorbed hP stored_one (by rw [abs_of_nonneg e2, abs_one, mul_one]; exact e1)
    apply Fl.ext
    rw [val, e3, div_one, stored_keep (stored_two hP) hP, show (2 : ℝ) - 1 = 1 by norm_num, stored_keep stored_one hP]
  · intro hs
    have hs0 : s.val ≤ 0 := hs.trans (neg_nonpos.2 (by positivity))
    have hz1 : -s.val ≤ z := by
      have := hzz.1
      rw [abs_of_nonneg (by linarith)] at this
      linarith
    have e0 : (2 : ℝ) ^ (P + 6) ≤ Real.exp z := by
      have := Real.exp_le_exp.2 (show (P + 6) * Real.log 2 ≤ z by linarith)
      refine le_trans (le_of_eq ?_) this
      rw [← neg_neg ((P + 6) * Real.log 2), Real.exp_neg, h6, one_div, inv_pow, inv_inv]
    have e1 : (2 : ℝ) ^ (P + 5) ≤ roundBits P (Real.exp z) := by
      refine le_trans ?_ (roundBits_le hP (Real.exp_pos _).le).2
      rw [pow_succ] at e0; linarith
    have e2 : (2 : ℝ) ^ (P + 4) ≤ roundBits P (1 + roundBits P (Real.exp z)) := by
      have hp5 : (0 : ℝ) < 2 ^ (P + 5) := by positivity
      refine le_trans ?_ (roundBits_le hP (by linarith)).2
      rw [pow_succ] at e1; linarith
    have hp4 : (0 : ℝ) < 2 ^ (P + 4) := by positivity
    set q := roundBits P (1 + roundBits P (Real.exp z)) with hq
    have hq0 : 0 < q := hp4.trans_le e2
    have e3 : 2 / q ≤ (1 / 2) ^ (P + 3) := by
      rw [div_le_iff₀ hq0]
      have := mul_le_mul_of_nonneg_left e2 (show (0 : ℝ) ≤ (1 / 2) ^ (P + 3) by positivity)
      rw [pow_succ (2 : ℝ), ← mul_assoc, ← mul_pow] at this
      norm_num at this ⊢
      exact this
    have hd0 : 0 ≤ 2 / q := by positivity
    have e4 : roundBits P (2 / q) ≤ (1 / 2) ^ (P + 2) := by
      refine (roundBits_le hP hd0).1.trans ?_
      rw [pow_succ] at e3; linarith
    have e5 : 0 ≤ roundBits P (2 / q) := le_trans (by linarith) (roundBits_le hP hd0).2
    apply Fl.ext
    rw [val, sub_eq_add_neg, add_comm]
    exact C160_absorbed hP stored_neg_one (by rw [abs_of_nonneg e5, abs_neg, abs_one, mul_one]; exact e4)

theorem fl_zero_mul (a : Fl (binary P hP)) : (⟨0⟩ : Fl (binary P hP)) * a = ⟨0⟩ := Fl.ext (by show roundBits P (0 * a.val) = 0; rw [zero_mul, roundBits_zero])

theorem fl_mul_zero (a : Fl (binary P hP)) : a * (⟨0⟩ : Fl (binary P hP)) = ⟨0⟩ := Fl.ext (by show roundBits P (a.val * 0) = 0; rw [mul_zero, roundBits_zero])

theorem fl_vsum_zero (k : ℕ) : (vsum fun _ : Fin k => (⟨0⟩ : Fl (binary P hP))) = ⟨0⟩ := by
  have : ∀ l : List (Fl (binary P hP)), (∀ a ∈ l, a = ⟨0⟩) → l.sum = ⟨0⟩ := by
    intro l
    induction l with
    | nil => intro _; rfl
    | cons a t ih =>
      intro h
      rw [List.sum_cons, ih fun b hb => h b (List.mem_cons_of_mem _ hb), h a (List.mem_cons_self ..)]
      exact Fl.ext (by show roundBits P (0 + 0) = 0; rw [add_zero, roundBits_zero])
  refine this _ fun a ha => ?_
  obtain ⟨_, rfl⟩ := (List.mem_ofFn' _ _).1 ha
  rfl

/-- C161: a saturated node answers exactly 1 (tanh: 1 or -1), and the derivative that training uses is exactly 0 -/
theorem C161_node (l : Layer (Fl (binary P hP)) nin m) (x : Vec (Fl (binary P hP)) nin) (i : Fin m) (h : l.SaturatedAt P x i) :
    ((l.predict x).y i = ⟨1⟩ ∨ l.f = .tanh ∧ (l.predict x).y i = ⟨-1⟩) ∧ activation l.f true ((l.predict x).y i) = ⟨0⟩ := by
  have hy : (l.predict x).y i = activation l.f false (vsum fun j => l.w i j * setTail l.x x j) := rfl
  have one : (l.predict x).y i = ⟨1⟩ ∨ l.f = .tanh ∧ (l.predict x).y i = ⟨-1⟩ := by
    rw [hy]
    rcases h with h | ⟨hf, h⟩
    · left
      cases hf : l.f with
      | sigmoid => exact C161_sigmoid _ h
      | tanh => exact (C161_tanh _).1 h
    · right
      rw [hf]
      exact ⟨rfl, (C161_tanh _).2 h⟩
  refine ⟨one, ?_⟩
  have k1 : roundBits P (1 * 1) = 1 := by rw [one_mul, stored_keep stored_one hP]
  rcases one with h1 | ⟨hf, h1⟩
  · rw [h1]
    cases hf : l.f with
    | sigmoid => exact Fl.ext (by show roundBits P (1 * roundBits P (1 - 1)) = 0; rw [sub_self, roundBits_zero, mul_zero, roundBits_zero])
    | tanh => exact Fl.ext (by show roundBits P (1 - roundBits P (1 * 1)) = 0; rw [k1, sub_self, roundBits_zero])
  · rw [h1, hf]
    exact Fl.ext (by show roundBits P (1 - roundBits P (-1 * -1)) = 0; rw [neg_mul_neg, k1, sub_self, roundBits_zero])

theorem errMat_saturated (l : Layer (Fl (binary P hP)) nin m) (x : Vec (Fl (binary P hP)) nin) (i : Fin m) (h : l.SaturatedAt P x i) (w : Mat (Fl (binary P hP)) p m) (e : Vec (Fl (binary P hP)) p) :
    (l.predict x).errMat w e i = ⟨0⟩ := by
  show activation l.f true ((l.predict x).y i) * (1 - (l.predict x).y i) * _ = _
  rw [(C161_node l x i h).2, fl_zero_mul, fl_zero_mul]

theorem errFlat_saturated (l : Layer (Fl (binary P hP)) nin m) (x : Vec (Fl (binary P hP)) nin) (i : Fin m) (h : l.SaturatedAt P x i) (w : Vec (Fl (binary P hP)) m) (e : Fl (binary P hP)) :
    (l.predict x).errFlat w e i = ⟨0⟩ := by
  show activation l.f true ((l.predict x).y i) * e * w i = _
  rw [(C161_node l x i h).2, fl_zero_mul, fl_zero_mul]

theorem apply_row (l : Layer (Fl (binary P hP)) nin m) (e : Vec (Fl (binary P hP)) m) (i : Fin m) (he : e i = ⟨0⟩) (hs : ∀ j, Stored P (l.w i j).val) : (l.apply e).w i = l.w i := by
  funext j
  show l.w i j + l.mu * (e i * l.x j) = l.w i j
  rw [he, fl_zero_mul, fl_mul_zero]
  exact Fl.ext (by show roundBits P ((l.w i j).val + 0) = _; rw [add_zero, stored_keep (hs j) hP])

/-- C161: the weights of a saturated node are not changed by the update, whatever error comes from the layer above (`w`, `e`) -/
theorem C161_row (l : Layer (Fl (binary P hP)) nin m) (x : Vec (Fl (binary P hP)) nin) (i : Fin m) (h : l.SaturatedAt P x i) (hs : ∀ j, Stored P (l.w i j).val) :
    (∀ (w : Mat (Fl (binary P hP)) p m) (e : Vec (Fl (binary P hP)) p), ((l.predict x).apply ((l.predict x).errMat w e)).w i = l.w i) ∧
    ∀ (w : Vec (Fl (binary P hP)) m) (e : Fl (binary P hP)), ((l.predict x).apply ((l.predict x).errFlat w e)).w i = l.w i :=
  ⟨fun w e => apply_row (l.predict x) _ i (errMat_saturated l x i h w e) hs, fun w e => apply_row (l.predict x) _ i (errFlat_saturated l x i h w e) hs⟩

theorem apply_all (l : Layer (Fl (binary P hP)) nin m) (e : Vec (Fl (binary P hP)) m) (he : ∀ i, e i = ⟨0⟩) (hs : ∀ i j, Stored P (l.w i j).val) : l.apply e = l := by
  have : (l.apply e).w = l.w := funext fun i => apply_row l e i (he i) (hs i)
  show { l with w := (l.apply e).w } = l
  rw [this]

theorem updateMat_nothing {nin m p : ℕ} (h : Hidden (Fl (binary P hP)) nin m) (w : Mat (Fl (binary P hP)) p m) (e : Vec (Fl (binary P hP)) p) (he : ∀ k, e k = ⟨0⟩) (hs : h.StoredW P) : h.updateMat w e = h := by
  have err : ∀ {nin m p : ℕ} (l : Layer (Fl (binary P hP)) nin m) (w : Mat (Fl (binary P hP)) p m) (e : Vec (Fl (binary P hP)) p), (∀ k, e k = ⟨0⟩) → ∀ i, l.errMat w e i = ⟨0⟩ := by
    intro nin m p l w e he i
    show _ * (vsum fun k => e k * w k i) = _
    have : (fun k => e k * w k i) = fun _ => ⟨0⟩ := funext fun k => by rw [he k, fl_zero_mul]
    rw [this, fl_vsum_zero, fl_mul_zero]
  induction h generalizing p with
  | one l => show Hidden.one _ = Hidden.one l; rw [apply_all l _ (err l w e he) hs]
  | snoc h l ih =>
    show Hidden.snoc _ _ = Hidden.snoc h l
    rw [apply_all l _ (err l w e he) hs.2, ih _ _ (err l w e he) hs.1]

theorem storedW_predict {F : Rounding} {nin m : ℕ} (h : Hidden (Fl F) nin m) (x : Vec (Fl F) nin) (hs : h.StoredW P) : (h.predict x).1.StoredW P := by
  revert x
  induction h with
  | one l => exact fun x => hs
  | snoc h l ih => intro x; exact ⟨ih hs.1 x, hs.2⟩

theorem topSaturated_predict {F : Rounding} {nin m : ℕ} (h : Hidden (Fl F) nin m) (x a : Vec (Fl F) nin) : (h.predict x).1.TopSaturated P a ↔ h.TopSaturated P a := by
  cases h with
  | one l => exact Iff.rfl
  | snoc h l =>
    show (∀ i, (l.predict (h.predict x).2).SaturatedAt P ((h.predict x).1.predict a).2 i) ↔ ∀ i, l.SaturatedAt P (h.predict a).2 i
    rw [Hidden.predict_predict]
    exact Iff.rfl

/-- the update of the hidden layers does nothing when the last one is saturated -/
theorem hidden_nothing {nin m : ℕ} (h : Hidden (Fl (binary P hP)) nin m) (x : Vec (Fl (binary P hP)) nin) (hs : h.StoredW P) (ht : h.TopSaturated P x) :
    (∀ {p : ℕ} (w : Mat (Fl (binary P hP)) p m) (e : Vec (Fl (binary P hP)) p), (h.predict x).1.updateMat w e = (h.predict x).1) ∧
      ∀ (w : Vec (Fl (binary P hP)) m) (e : Fl (binary P hP)), (h.predict x).1.updateFlat w e = (h.predict x).1 := by
  cases h with
  | one l =>
    refine ⟨fun w e => ?_, fun w e => ?_⟩
    · show Hidden.one _ = Hidden.one (l.predict x)
      rw [apply_all (l.predict x) _ (fun i => errMat_saturated l x i (ht i) w e) hs]
    · show Hidden.one _ = Hidden.one (l.predict x)
      rw [apply_all (l.predict x) _ (fun i => errFlat_saturated l x i (ht i) w e) hs]
  | snoc h l =>
    refine ⟨fun w e => ?_, fun w e => ?_⟩
    · show Hidden.snoc _ _ = Hidden.snoc (h.predict x).1 (l.predict (h.predict x).2)
      rw [apply_all (l.predict (h.predict x).2) _ (fun i => errMat_saturated l _ i (ht i) w e) hs.2,
        updateMat_nothing _ _ _ (fun i => errMat_saturated l _ i (ht i) w e) (storedW_predict h x hs.1)]
    · show Hidden.snoc _ _ = Hidden.snoc (h.predict x).1 (l.predict (h.predict x).2)
      rw [apply_all (l.predict (h.predict x).2) _ (fun i => errFlat_saturated l _ i (ht i) w e) hs.2,
        updateMat_nothing _ _ _ (fun i => errFlat_saturated l _ i (ht i) w e) (storedW_predict h x hs.1)]

theorem step_nothing (n : Net (Fl (binary P hP)) nin m p) (x : Vec (Fl (binary P hP)) nin) (d : Vec (Fl (binary P hP)) p) (hs : n.hidden.StoredW P) (ht : n.hidden.TopSaturated P x) :
    ((n.predictV x).1.update d).1.hidden = (n.hidden.predict x).1 := by
  obtain ⟨h1, h2⟩ := hidden_nothing n.hidden x hs ht
  show (if h : p = 1 then (n.hidden.predict x).1.updateFlat _ _ else (n.hidden.predict x).1.updateMat _ _) = _
  split
  · exact h2 _ _
  · exact h1 _ _

theorem epoch_nothing (data : List (Vec (Fl (binary P hP)) nin × Vec (Fl (binary P hP)) p)) : ∀ n : Net (Fl (binary P hP)) nin m p, n.hidden.StoredW P → (∀ q ∈ data, n.hidden.TopSaturated P q.1) →
    (n.epoch data).1.hidden.weights = n.hidden.weights ∧ (∀ a, (n.epoch data).1.hidden.predict a = n.hidden.predict a) ∧ (n.epoch data).1.hidden.StoredW P ∧
      ∀ a, (n.epoch data).1.hidden.TopSaturated P a ↔ n.hidden.TopSaturated P a := by
  induction data with
  | nil => intro n hs ht; exact ⟨rfl, fun _ => rfl, hs, fun _ => Iff.rfl⟩
  | cons q t ih =>
    intro n hs ht
    obtain ⟨x, d⟩ := q
    have h1 := step_nothing n x d hs (ht _ (List.mem_cons_self ..))
    obtain ⟨i1, i2, i3, i4⟩ := ih ((n.predictV x).1.update d).1 (by rw [h1]; exact storedW_predict _ x hs)
      (fun q hq => by rw [h1, topSaturated_predict]; exact ht q (List.mem_cons_of_mem _ hq))
    rw [h1] at i1 i2 i4
    exact ⟨i1.trans (Hidden.predict_weights _ x), fun a => (i2 a).trans (Hidden.predict_predict _ x a), i3, fun a => (i4 a).trans (topSaturated_predict _ x a)⟩

theorem trainLoop_nothing (data : List (Vec (Fl (binary P hP)) nin × Vec (Fl (binary P hP)) p)) (k : ℕ) : ∀ n : Net (Fl (binary P hP)) nin m p, n.hidden.StoredW P → (∀ q ∈ data, n.hidden.TopSaturated P q.1) →
    (n.trainLoop data k).1.hidden.weights = n.hidden.weights ∧ ∀ a, (n.trainLoop data k).1.hidden.predict a = n.hidden.predict a := by
  induction k with
  | zero => intro n _ _; exact ⟨rfl, fun _ => rfl⟩
  | succ k ih =>
    intro n hs ht
    obtain ⟨h1, h2, h3, h4⟩ := epoch_nothing data n hs ht
    obtain ⟨i1, i2⟩ := ih (n.epoch data).1 h3 (fun q hq => (h4 _).2 (ht q hq))
    exact ⟨i1.trans h1, fun a => (i2 a).trans (h2 a)⟩

/-- C161: train on data for which all nodes of the last hidden layer are saturated changes no weight of any hidden layer, for any number of epochs, targets, order of the samples and any
depth of the network: only the output layer learns. -/
theorem C161_train (n : Net (Fl (binary P hP)) nin m p) (rand : List ℕ) (x : List (List (Fl (binary P hP)))) (d : NArr (Fl (binary P hP))) (epochs : ℕ) (shuffle : Bool)
    {data : List (Vec (Fl (binary P hP)) nin × Vec (Fl (binary P hP)) p)} (hc : mlpCheck nin p x d = .ok data) (hs : n.hidden.StoredW P) (ht : ∀ q ∈ data, n.hidden.TopSaturated P q.1) :
    (n.train rand x d epochs shuffle).2.hidden.weights = n.hidden.weights ∧ ∀ a, (n.train rand x d epochs shuffle).2.hidden.predict a = n.hidden.predict a := by
  have hsub : ∀ q ∈ (if shuffle then takeRows rand data else data), n.hidden.TopSaturated P q.1 := by
    intro q hq
    split at hq
    · obtain ⟨i, -, hi⟩ := List.mem_filterMap.1 hq
      exact ht q (List.mem_of_getElem? hi)
    · exact ht q hq
  unfold Net.train
  rw [hc]
  exact trainLoop_nothing _ epochs n hs hsub

/-- the hypotheses are met: one sigmoid node with weights (50, 0), double precision, one sample -/
example (a b : Fl (binary 53 (by norm_num))) : ∃ (n : Net (Fl (binary 53 (by norm_num))) 1 1 1) (data : List (Vec (Fl (binary 53 (by norm_num))) 1 × Vec (Fl (binary 53 (by norm_num))) 1)),
    mlpCheck 1 1 [[a]] (.one [b]) = .ok data ∧ n.hidden.StoredW 53 ∧ ∀ q ∈ data, n.hidden.TopSaturated 53 q.1 := by
  refine ⟨mkNet (.one (mkLayer (fun _ => Fin.cons ⟨50⟩ fun _ => ⟨0⟩) .sigmoid ⟨1⟩)) (fun _ _ => ⟨1⟩) ⟨1⟩, _, rfl, ?_, ?_⟩
  · intro i j
    refine Fin.cases ?_ (fun j => ?_) j
    · show Stored 53 (50 : ℝ); simpa using stored_int (P := 53) 50 (by norm_num)
    · show Stored 53 (0 : ℝ); simpa using stored_int (P := 53) 0 (by norm_num)
  · intro q hq i
    left
    have h50 : roundBits 53 50 = 50 := stored_keep (by simpa using stored_int (P := 53) 50 (by norm_num)) (by norm_num)
    have hsum : Layer.nodeSum (mkLayer (fun (_ : Fin 1) => (Fin.cons ⟨50⟩ fun _ => ⟨0⟩ : Vec (Fl (binary 53 (by norm_num))) 2)) .sigmoid ⟨1⟩) q.1 i = 50 := by
      unfold Layer.nodeSum
      simp only [vsum, List.ofFn_succ, List.ofFn_zero, List.sum_cons, List.sum_nil]
      show roundBits 53 (roundBits 53 (50 * 1) + roundBits 53 (roundBits 53 (0 * _) + 0)) = 50
      rw [zero_mul, roundBits_zero, add_zero, roundBits_zero, add_zero, mul_one, h50, h50]
    show _ ≤ Layer.nodeSum _ q.1 i
    rw [hsum]
    have := Real.log_le_sub_one_of_pos (show (0 : ℝ) < 4 / 3 by norm_num)
    have h2 := Real.log_le_sub_one_of_pos (show (0 : ℝ) < 3 / 2 by norm_num)
    have h3 : Real.log 2 = Real.log (4 / 3) + Real.log (3 / 2) := by rw [← Real.log_mul (by norm_num) (by norm_num)]; norm_num
    norm_num
    linarith

end Padasip
