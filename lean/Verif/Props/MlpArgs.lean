import Verif.Model.MlpArgs
import Verif.Props.NanMlp
import Verif.Lemmas.Engine
import Verif.Lemmas.Reject

/-!
# C128: arguments of the multi-layer perceptron outside the documented forms
-/

set_option linter.unusedSectionVars false
set_option linter.unusedSimpArgs false
set_option linter.unusedVariables false

namespace Padasip

section
variable {K : Type} [Transc K] {nin m p : ℕ}

/-! ## `update` -/

theorem bcastVec_single {q : ℕ} (a : K) : bcastVec q [a] = .ok fun _ => a := by
  have : bcast q [a] = .ok (List.ofFn fun _ : Fin q => a) := by
    unfold bcast
    split
    · rename_i h
      have hq : q = 1 := by simpa using h.symm
      subst hq
      rfl
    · simp
  unfold bcastVec
  rw [this]
  exact asVec_ofFn _

theorem updateOne_long (n : Net K nin m 1) (hm : 0 < m) (l : List K) (hl : l.length = m + 1) :
    n.updateOne (.list l) = (.error .valueError, { n with w := fun k j => n.w k j + n.mu * (l[j.val]'(by omega) - n.y 0) * n.x j }) := by
  match l, hl with
  | [], h => simp at h
  | [a], h => simp at h; omega
  | a :: b :: t, h => exact dif_pos h

/-- C128 (several outputs): `update` accepts a list exactly if it has one value per output, or one value, which is then the target of every output; so does a number.
Anything else is a `ValueError` and changes nothing. -/
theorem C128_update_many (n : Net K nin m p) (hp : p ≠ 1) :
    (∀ v : Vec K p, n.updateMany (.list (List.ofFn v)) = (.ok (n.update v).2, (n.update v).1)) ∧
    (∀ a, n.updateMany (.list [a]) = (.ok (n.update fun _ => a).2, (n.update fun _ => a).1)) ∧
    (∀ a, n.updateMany (.scalar a) = (.ok (n.update fun _ => a).2, (n.update fun _ => a).1)) ∧
    ∀ l : List K, l.length ≠ p → l.length ≠ 1 → n.updateMany (.list l) = (.error .valueError, n) := by
  refine ⟨fun v => ?_, fun a => ?_, fun a => rfl, fun l h1 h2 => ?_⟩
  · unfold Net.updateMany
    dsimp only
    rw [bcastVec_ofFn]
  · unfold Net.updateMany
    dsimp only
    rw [bcastVec_single]
  · unfold Net.updateMany
    dsimp only
    rw [bcastVec_wrong l h1 h2]

/-- C128 (one output): a number or a list of one value is accepted.  A list of `m + 1` values, one more than the last hidden layer has nodes, raises `ValueError`, but only
after every output weight has been changed, each with a target of its own; the hidden layers keep their weights.  Any other list is a `ValueError` and changes nothing. -/
theorem C128_update_one (n : Net K nin m 1) (hm : 0 < m) :
    (∀ a, n.updateOne (.scalar a) = (.ok [(n.update fun _ => a).2 0], (n.update fun _ => a).1) ∧ n.updateOne (.list [a]) = n.updateOne (.scalar a)) ∧
    (∀ v : Vec K (m + 1), ∃ n', n.updateOne (.list (List.ofFn v)) = (.error .valueError, n') ∧ n'.hidden = n.hidden ∧ ∀ j, n'.w 0 j = n.w 0 j + n.mu * (v j - n.y 0) * n.x j) ∧
    ∀ l : List K, l.length ≠ 1 → l.length ≠ m + 1 → n.updateOne (.list l) = (.error .valueError, n) := by
  refine ⟨fun a => ⟨rfl, rfl⟩, fun v => ?_, fun l h1 h2 => ?_⟩
  · exact ⟨_, updateOne_long n hm (List.ofFn v) List.length_ofFn, rfl, fun j => by simp only [List.getElem_ofFn]⟩
  · unfold Net.updateOne
    match l, h1, h2 with
    | [], _, h2 => exact dif_neg h2
    | [a], h1, _ => simp at h1
    | a :: b :: t, _, h2 => exact dif_neg h2

/-! ## `train` -/

/-- C128: a negative number of epochs is a `ValueError` on accepted data (the exception of the check otherwise) and changes nothing; for the others `trainZ` is the `train` of C71, C72. -/
theorem C128_epochs (n : Net K nin m p) (rand : List ℕ) (x : List (List K)) (d : NArr K) (shuffle : Bool) :
    (∀ epochs : ℤ, epochs < 0 → (∃ data, mlpCheck nin p x d = .ok data) → n.trainZ rand x d epochs shuffle = (.error .valueError, n)) ∧
    (∀ (epochs : ℤ) e, epochs < 0 → mlpCheck nin p x d = .error e → n.trainZ rand x d epochs shuffle = (.error e, n)) ∧
    ∀ epochs : ℕ, n.trainZ rand x d epochs shuffle = n.train rand x d epochs shuffle := by
  refine ⟨fun ep h hd => ?_, fun ep e h hd => ?_, fun ep => ?_⟩
  · obtain ⟨data, hd⟩ := hd
    unfold Net.trainZ
    rw [if_pos h, hd]
  · unfold Net.trainZ
    rw [if_pos h, hd]
  · unfold Net.trainZ
    rw [if_neg (by omega), show ((ep : ℤ).toNat) = ep by omega]

/-! ## Unknown activation -/

variable {nan : K → Prop}

theorem predictOther_weights (ν : K) {nin m : ℕ} (h : Hidden K nin m) (x : Vec K nin) : (h.predictOther ν x).weights = h.weights := by
  induction h with
  | one l => rfl
  | snoc h l ih => simp only [Hidden.predictOther, Hidden.weights, ih]

/-- C128 (unknown activation): every prediction, of every input, is NaN in every output; the weights do not change. -/
theorem C128_activation_predict (L : NanCmp nan) (ν : K) (hν : nan ν) (n : Net K nin m p) (hm : 0 < m) (x : Vec K nin) :
    (∀ k, nan ((n.predictOther ν x).2 k)) ∧ (n.predictOther ν x).1.weights = n.weights := by
  refine ⟨fun k => nan_vsum L.toNanLaws ⟨Fin.succ ⟨0, hm⟩, L.mul_right _ _ (by rw [setTail, Fin.cons_succ]; exact hν)⟩, ?_⟩
  simp only [Net.weights, Net.predictOther, predictOther_weights]

/-- C128 (unknown activation): `run` succeeds and returns NaN only. -/
theorem C128_activation_run (L : NanCmp nan) (ν : K) (hν : nan ν) (n : Net K nin m p) (hm : 0 < m) (xs : List (Vec K nin)) :
    (n.runOther ν xs).2.length = xs.length ∧ ∀ y ∈ (n.runOther ν xs).2, ∀ k, nan (y k) := by
  induction xs generalizing n with
  | nil => exact ⟨rfl, fun y hy => by cases hy⟩
  | cons x t ih =>
    obtain ⟨h1, h2⟩ := ih (n.predictOther ν x).1
    refine ⟨by simp [Net.runOther, h1], fun y hy => ?_⟩
    rcases List.mem_cons.1 hy with rfl | hy
    · exact (C128_activation_predict L ν hν n hm x).1
    · exact h2 y hy

/-- C128 (unknown activation): `update` after a prediction raises `TypeError`; by then every output weight is NaN (the hidden weights are unchanged). -/
theorem C128_activation_update (L : NanCmp nan) (ν : K) (hν : nan ν) (n : Net K nin m p) (hm : 0 < m) (x : Vec K nin) (d : Vec K p) :
    ∃ n', (n.predictOther ν x).1.updateOther d = (.error .typeError, n') ∧ n'.hidden.weights = n.hidden.weights ∧ ∀ k j, nan (n'.w k j) := by
  refine ⟨_, rfl, predictOther_weights ν n.hidden x, fun k j => ?_⟩
  have hy := L.sub_right (d k) _ ((C128_activation_predict L ν hν n hm x).1 k)
  refine L.add_right _ _ ?_
  split
  · exact L.mul_left _ _ (L.mul_right _ _ hy)
  · exact L.mul_right _ _ (L.mul_left _ _ hy)

/-- C128 (unknown activation): with no epoch `train` returns two empty results and changes nothing (on accepted data; otherwise it raises as usual). -/
theorem C128_activation_no_epoch (ν : K) (n : Net K nin m p) (rand : List ℕ) (x : List (List K)) (d : NArr K) (shuffle : Bool) :
    n.trainOther ν rand x d 0 shuffle = match mlpCheck nin p x d with
      | .error e => (.error e, n)
      | .ok _ => (.ok ([], []), n) := by
  unfold Net.trainOther
  cases mlpCheck nin p x d <;> rfl

/-- C128 (unknown activation): `train` with at least one epoch on accepted data raises `TypeError`; by then every output weight is NaN (the hidden weights are unchanged).
Only with no epoch it returns. -/
theorem C128_activation_train (L : NanCmp nan) (ν : K) (hν : nan ν) (n : Net K nin m p) (hm : 0 < m) (rand : List ℕ) (x : List (List K)) (d : NArr K) (epochs : ℕ) (shuffle : Bool)
    {data : List (Vec K nin × Vec K p)} (hc : mlpCheck nin p x d = .ok data) (hr : rand.Perm (List.range data.length)) (he : 1 ≤ epochs) :
    ∃ n', n.trainOther ν rand x d epochs shuffle = (.error .typeError, n') ∧ n'.hidden.weights = n.hidden.weights ∧ ∀ k j, nan (n'.w k j) := by
  obtain ⟨hne, -, -, hdx, -⟩ := (C77_accepted_iff x d data).1 hc
  obtain ⟨order, hord, hperm⟩ : ∃ order, order = (if shuffle then takeRows rand data else data) ∧ order.Perm data := ⟨_, rfl, by
    cases shuffle
    · exact List.Perm.refl _
    · exact takeRows_perm rand data hr⟩
  have hdne : data ≠ [] := by
    rintro rfl
    exact hne hdx.symm
  obtain ⟨q, t, rfl⟩ := List.exists_cons_of_ne_nil (show order ≠ [] from fun h => hdne (by rw [h] at hperm; exact hperm.symm.eq_nil))
  obtain ⟨k, rfl⟩ : ∃ k, epochs = k + 1 := ⟨epochs - 1, by omega⟩
  obtain ⟨x0, d0⟩ := q
  obtain ⟨n', h1, h2, h3⟩ := C128_activation_update L ν hν n hm x0 d0
  refine ⟨n', ?_, h2, h3⟩
  unfold Net.trainOther
  rw [hc]
  dsimp only
  rw [← hord]
  exact congrArg (fun r => (Except.error Err.typeError, r)) (congrArg Prod.snd h1)

end

/-! ## Concrete cases -/

/-- the network and the data of `C128_activation_train`; a list of three values for a network with one output and two hidden nodes -/
example : NanCmp (fun a : NanRat => a = none) ∧ (∃ data, mlpCheck 2 1 ([[some (1 : ℚ), some (2 : ℚ)], [some (3 : ℚ), some (0 : ℚ)]] : List (List NanRat))
      (.one [some (1 : ℚ), some (0 : ℚ)]) = .ok data ∧ [1, 0].Perm (List.range data.length)) ∧
    (nanNet.updateOne (.list [some (1 : ℚ), some (2 : ℚ), some (3 : ℚ)])).1 = .error .valueError ∧
    (nanNet.updateOne (.list [some (1 : ℚ), some (2 : ℚ), some (3 : ℚ)])).2.w 0 1 = (some (3 : ℚ) : NanRat) ∧ nanNet.w 0 1 = (some (1 : ℚ) : NanRat) := by
  refine ⟨NanRat.cmp, ⟨_, rfl, by decide⟩, rfl, ?_, rfl⟩
  rw [updateOne_long nanNet (by norm_num) _ rfl]
  show (some ((1 : ℚ) + 1 * (2 - 0) * 1) : Option ℚ) = some 3
  norm_num

end Padasip
