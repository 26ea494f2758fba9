import Verif.Props.NanTools
import Verif.Props.Mlp

/-!
# C126: NaN in the training data of a multi-layer perceptron
-/

set_option linter.unusedSectionVars false
set_option linter.unusedSimpArgs false
set_option linter.unusedVariables false

namespace Padasip

/-! ## Specification -/

section spec
variable {K : Type} {nin m p : ℕ}

/-- every weight of every hidden layer satisfies `P` -/
def Hidden.AllW (P : K → Prop) {nin m : ℕ} (h : Hidden K nin m) : Prop := ∀ W ∈ h.weights, ∀ row ∈ W, ∀ a ∈ row, P a

/-- every hidden layer has a node -/
def Hidden.Wide {nin m : ℕ} (h : Hidden K nin m) : Prop := ∀ W ∈ h.weights, W ≠ []

theorem Hidden.allW_one (P : K → Prop) (l : Layer K nin m) : (Hidden.one l).AllW P ↔ ∀ i j, P (l.w i j) := by
  simp only [Hidden.AllW, Hidden.weights, List.mem_singleton, forall_eq, List.forall_mem_ofFn_iff]

theorem Hidden.allW_snoc (P : K → Prop) {q : ℕ} (h : Hidden K nin m) (l : Layer K m q) :
    (Hidden.snoc h l).AllW P ↔ h.AllW P ∧ ∀ i j, P (l.w i j) := by
  simp only [Hidden.AllW, Hidden.weights, List.mem_append, List.mem_singleton, or_imp, forall_and, forall_eq, List.forall_mem_ofFn_iff]

theorem ofFn_ne_nil_iff {α : Type} {q : ℕ} (f : Fin q → α) : List.ofFn f ≠ [] ↔ 0 < q := by
  rw [← List.length_pos_iff_ne_nil, List.length_ofFn]

theorem Hidden.wide_one (l : Layer K nin m) : (Hidden.one l).Wide ↔ 0 < m := by
  simp only [Hidden.Wide, Hidden.weights, List.mem_singleton, forall_eq, ofFn_ne_nil_iff]

theorem Hidden.wide_snoc {q : ℕ} (h : Hidden K nin m) (l : Layer K m q) : (Hidden.snoc h l).Wide ↔ h.Wide ∧ 0 < q := by
  simp only [Hidden.Wide, Hidden.weights, List.mem_append, List.mem_singleton, or_imp, forall_and, forall_eq, ofFn_ne_nil_iff]

theorem Hidden.Wide.pos {h : Hidden K nin m} (hw : h.Wide) : 0 < m := by
  cases h with
  | one l => exact (Hidden.wide_one l).1 hw
  | snoc h l => exact ((Hidden.wide_snoc h l).1 hw).2

/-- sample with a NaN in the input or in the target -/
def NanSample (nan : K → Prop) (q : Vec K nin × Vec K p) : Prop := (∃ j, nan (q.1 j)) ∨ ∃ k, nan (q.2 k)

/-- the public methods of `NetworkMLP`, mlp.py l. 261-461 -/
inductive NetCall (K : Type) (p : ℕ) where
  | predict (x : List K)
  | update (d : Vec K p)
  | train (rand : List ℕ) (x : List (List K)) (d : NArr K) (epochs : ℕ) (shuffle : Bool)
  | run (x : List (List K))
  | test (x : List (List K)) (d : NArr K)

/-- the network after a call, successful or not -/
def Net.exec [Transc K] (n : Net K nin m p) : NetCall K p → Net K nin m p
  | .predict x => (n.predict x).2
  | .update d => (n.update d).1
  | .train rand x d epochs shuffle => (n.train rand x d epochs shuffle).2
  | .run x => (n.run x).2
  | .test x d => (n.test x d).2

/-- ... after a sequence of calls -/
def Net.execAll [Transc K] (n : Net K nin m p) (calls : List (NetCall K p)) : Net K nin m p := calls.foldl Net.exec n

end spec

section
variable {K : Type} [Transc K] {nan : K → Prop} {nin m p : ℕ}

/-! ## One sample -/

theorem nan_activation (L : NanCmp nan) (f : Act) (der : Bool) (x : K) (h : nan x) : nan (activation f der x) := by
  cases f <;> cases der
  · exact L.div_right _ _ (L.add_right _ _ (L.exp _ ((L.neg _).2 h)))
  · exact L.mul_left _ _ h
  · exact L.sub_left _ _ (L.div_right _ _ (L.add_right _ _ (L.exp _ (L.mul_right _ _ h))))
  · exact L.sub_right _ _ (L.mul_left _ _ h)

theorem nan_layer (L : NanCmp nan) (l : Layer K nin m) (x : Vec K nin) (i : Fin m) (h : (∃ j, nan (x j)) ∨ ∀ j, nan (l.w i j)) :
    nan ((l.predict x).y i) := by
  refine nan_activation L _ _ _ (nan_vsum L.toNanLaws ?_)
  rcases h with ⟨j, hj⟩ | h
  · exact ⟨j.succ, L.mul_right _ _ (by rw [setTail, Fin.cons_succ]; exact hj)⟩
  · exact ⟨0, L.mul_left _ _ (h 0)⟩

theorem nan_hidden_input (L : NanCmp nan) (h : Hidden K nin m) (hw : h.Wide) (x : Vec K nin) (hx : ∃ j, nan (x j)) : ∀ i, nan ((h.predict x).2 i) := by
  induction h with
  | one l => exact fun i => nan_layer L l x i (Or.inl hx)
  | snoc h l ih =>
    rw [Hidden.wide_snoc] at hw
    exact fun i => nan_layer L l _ i (Or.inl ⟨⟨0, hw.1.pos⟩, ih hw.1 _⟩)

theorem nan_hidden_weights (L : NanCmp nan) (h : Hidden K nin m) (ha : h.AllW nan) (x : Vec K nin) : ∀ i, nan ((h.predict x).2 i) := by
  cases h with
  | one l => exact fun i => nan_layer L l x i (Or.inr ((Hidden.allW_one _ _).1 ha i))
  | snoc h l => exact fun i => nan_layer L l _ i (Or.inr (((Hidden.allW_snoc _ _ _).1 ha).2 i))

theorem nan_out (L : NanCmp nan) (n : Net K nin m p) (x : Vec K nin) (hm : 0 < m) (h : ∀ i, nan ((n.hidden.predict x).2 i)) :
    ∀ k, nan ((n.predictV x).2 k) := fun k =>
  nan_vsum L.toNanLaws ⟨Fin.succ ⟨0, hm⟩, L.mul_right _ _ (by rw [setTail, Fin.cons_succ]; exact h _)⟩

theorem nan_apply (L : NanCmp nan) (l : Layer K nin m) (e : Vec K m) (h : ∀ i, nan (e i)) : ∀ i j, nan ((l.apply e).w i j) := fun i j =>
  L.add_right _ _ (L.mul_right _ _ (L.mul_left _ _ (h i)))

theorem nan_errMat (L : NanCmp nan) {q : ℕ} (l : Layer K nin m) (w : Mat K q m) (e : Vec K q) (h : ∃ k, nan (e k)) : ∀ i, nan (l.errMat w e i) := fun i =>
  L.mul_right _ _ (nan_vsum L.toNanLaws (h.imp fun k hk => L.mul_left _ _ hk))

theorem nan_updateMat (L : NanCmp nan) {q : ℕ} (h : Hidden K nin m) (hw : h.Wide) (w : Mat K q m) (e : Vec K q) (he : ∃ k, nan (e k)) : (h.updateMat w e).AllW nan := by
  induction h generalizing q with
  | one l => exact (Hidden.allW_one _ _).2 (nan_apply L l _ (nan_errMat L l w e he))
  | snoc h l ih =>
    rw [Hidden.wide_snoc] at hw
    exact (Hidden.allW_snoc _ _ _).2 ⟨ih hw.1 _ _ ⟨⟨0, hw.2⟩, nan_errMat L l w e he _⟩, nan_apply L l _ (nan_errMat L l w e he)⟩

theorem nan_updateFlat (L : NanCmp nan) (h : Hidden K nin m) (hw : h.Wide) (w : Vec K m) (e : K) (he : nan e) : (h.updateFlat w e).AllW nan := by
  have hf : ∀ {a b : ℕ} (l : Layer K a b) (w : Vec K b) i, nan (l.errFlat w e i) := fun l w i => L.mul_left _ _ (L.mul_right _ _ he)
  cases h with
  | one l => exact (Hidden.allW_one _ _).2 (nan_apply L l _ (hf l w))
  | snoc h l =>
    rw [Hidden.wide_snoc] at hw
    exact (Hidden.allW_snoc _ _ _).2 ⟨nan_updateMat L h hw.1 _ _ ⟨⟨0, hw.2⟩, hf l w _⟩, nan_apply L l _ (hf l w)⟩

/-- one NaN error component: all hidden weights, and the weights of that output -/
theorem nan_update (L : NanCmp nan) (n : Net K nin m p) (hw : n.hidden.Wide) (d : Vec K p) (k : Fin p) (hk : nan (d k) ∨ nan (n.y k)) :
    nan ((n.update d).2 k) ∧ (n.update d).1.hidden.AllW nan ∧ ∀ j, nan ((n.update d).1.w k j) := by
  have he : nan (d k - n.y k) := hk.elim (L.sub_left _ _) (L.sub_right _ _)
  refine ⟨he, ?_, fun j => L.add_right _ _ ?_⟩
  · show Hidden.AllW nan (if h : p = 1 then n.hidden.updateFlat (dropBias n.w (h ▸ 0)) (d (h ▸ 0) - n.y (h ▸ 0)) else n.hidden.updateMat (dropBias n.w) fun k => d k - n.y k)
    split
    · rename_i hp
      subst hp
      refine nan_updateFlat L _ hw _ _ ?_
      rw [show k = 0 from Subsingleton.elim _ _] at he
      exact he
    · exact nan_updateMat L _ hw _ _ ⟨k, he⟩
  · split
    · exact L.mul_left _ _ (L.mul_right _ _ he)
    · exact L.mul_right _ _ (L.mul_left _ _ he)

theorem wide_of_weights {h h' : Hidden K nin m} (e : h.weights.map List.length = h'.weights.map List.length) (hw : h.Wide) : h'.Wide := by
  intro W hW h0
  have : W.length ∈ h'.weights.map List.length := List.mem_map.2 ⟨W, hW, rfl⟩
  rw [← e] at this
  obtain ⟨V, hV, hl⟩ := List.mem_map.1 this
  exact hw V hV (List.eq_nil_of_length_eq_zero (by rw [hl, h0]; rfl))

theorem predict_wide (h : Hidden K nin m) (x : Vec K nin) : (h.predict x).1.Wide ↔ h.Wide := by
  unfold Hidden.Wide
  rw [Hidden.predict_weights]

theorem predict_allW (P : K → Prop) (h : Hidden K nin m) (x : Vec K nin) : (h.predict x).1.AllW P ↔ h.AllW P := by
  unfold Hidden.AllW
  rw [Hidden.predict_weights]

theorem updateMat_wide {q : ℕ} (h : Hidden K nin m) (w : Mat K q m) (e : Vec K q) : (h.updateMat w e).Wide ↔ h.Wide := by
  induction h generalizing q with
  | one l => rw [Hidden.updateMat, Hidden.wide_one, Hidden.wide_one]
  | snoc h l ih => rw [Hidden.updateMat, Hidden.wide_snoc, Hidden.wide_snoc, ih]

theorem updateFlat_wide (h : Hidden K nin m) (w : Vec K m) (e : K) : (h.updateFlat w e).Wide ↔ h.Wide := by
  cases h with
  | one l => rw [Hidden.updateFlat, Hidden.wide_one, Hidden.wide_one]
  | snoc h l => rw [Hidden.updateFlat, Hidden.wide_snoc, Hidden.wide_snoc, updateMat_wide]

theorem update_wide (n : Net K nin m p) (d : Vec K p) : (n.update d).1.hidden.Wide ↔ n.hidden.Wide := by
  show Hidden.Wide (if h : p = 1 then n.hidden.updateFlat (dropBias n.w (h ▸ 0)) (d (h ▸ 0) - n.y (h ▸ 0)) else n.hidden.updateMat (dropBias n.w) fun k => d k - n.y k) ↔ _
  split
  · exact updateFlat_wide _ _ _
  · exact updateMat_wide _ _ _

theorem apply_allW (L : NanCmp nan) (l : Layer K nin m) (e : Vec K m) (h : ∀ i j, nan (l.w i j)) : ∀ i j, nan ((l.apply e).w i j) := fun i j =>
  L.add_left _ _ (h i j)

theorem updateMat_allW (L : NanCmp nan) {q : ℕ} (h : Hidden K nin m) (w : Mat K q m) (e : Vec K q) (ha : h.AllW nan) : (h.updateMat w e).AllW nan := by
  induction h generalizing q with
  | one l => exact (Hidden.allW_one _ _).2 (apply_allW L l _ ((Hidden.allW_one _ _).1 ha))
  | snoc h l ih =>
    obtain ⟨h1, h2⟩ := (Hidden.allW_snoc _ _ _).1 ha
    exact (Hidden.allW_snoc _ _ _).2 ⟨ih _ _ h1, apply_allW L l _ h2⟩

theorem updateFlat_allW (L : NanCmp nan) (h : Hidden K nin m) (w : Vec K m) (e : K) (ha : h.AllW nan) : (h.updateFlat w e).AllW nan := by
  cases h with
  | one l => exact (Hidden.allW_one _ _).2 (apply_allW L l _ ((Hidden.allW_one _ _).1 ha))
  | snoc h l =>
    obtain ⟨h1, h2⟩ := (Hidden.allW_snoc _ _ _).1 ha
    exact (Hidden.allW_snoc _ _ _).2 ⟨updateMat_allW L h _ _ h1, apply_allW L l _ h2⟩

theorem update_allW (L : NanCmp nan) (n : Net K nin m p) (d : Vec K p) (ha : n.hidden.AllW nan) : (n.update d).1.hidden.AllW nan := by
  show Hidden.AllW nan (if h : p = 1 then n.hidden.updateFlat (dropBias n.w (h ▸ 0)) (d (h ▸ 0) - n.y (h ▸ 0)) else n.hidden.updateMat (dropBias n.w) fun k => d k - n.y k)
  split
  · exact updateFlat_allW L _ _ _ ha
  · exact updateMat_allW L _ _ _ ha

/-- C126 (one sample): predicting and updating on a sample with a NaN in the input makes every output, every error and every weight of the network a NaN. -/
theorem C126_input (L : NanCmp nan) (n : Net K nin m p) (hw : n.hidden.Wide) (hp : 0 < p) (x : Vec K nin) (d : Vec K p) (hx : ∃ j, nan (x j)) :
    (∀ k, nan ((n.predictV x).2 k)) ∧ (∀ k, nan (((n.predictV x).1.update d).2 k)) ∧
    ∀ W ∈ ((n.predictV x).1.update d).1.weights, ∀ row ∈ W, ∀ a ∈ row, nan a := by
  have h1 := nan_out L n x hw.pos (nan_hidden_input L _ hw x hx)
  have h2 : ∀ k, _ := fun k => nan_update L (n.predictV x).1 ((predict_wide _ _).2 hw) d k (Or.inr (h1 k))
  refine ⟨h1, fun k => (h2 k).1, fun W hW => ?_⟩
  rcases List.mem_append.1 hW with h | h
  · exact (h2 ⟨0, hp⟩).2.1 W h
  · rw [List.mem_singleton.1 h]
    simp only [List.forall_mem_ofFn_iff]
    exact fun k j => (h2 k).2.2 j

/-- C126 (one sample): with a NaN in component `k` of the target the error of output `k`, every weight of every hidden layer and the weights of output `k` become NaN. -/
theorem C126_target (L : NanCmp nan) (n : Net K nin m p) (hw : n.hidden.Wide) (x : Vec K nin) (d : Vec K p) (k : Fin p) (hk : nan (d k)) :
    nan (((n.predictV x).1.update d).2 k) ∧ ((n.predictV x).1.update d).1.hidden.AllW nan ∧ ∀ j, nan (((n.predictV x).1.update d).1.w k j) :=
  nan_update L (n.predictV x).1 ((predict_wide _ _).2 hw) d k (Or.inl hk)

/-- C126: when all hidden weights are NaN, every prediction on every input is NaN ... -/
theorem C126_predict (L : NanCmp nan) (n : Net K nin m p) (hm : 0 < m) (ha : n.hidden.AllW nan) (x : List K) (y : Vec K p) (h : (n.predict x).1 = .ok y) :
    ∀ k, nan (y k) := by
  unfold Net.predict at h
  rcases hb : bcastVec nin x with e | v
  · rw [hb] at h; cases h
  · rw [hb] at h
    have : (n.predictV v).2 = y := Except.ok.inj h
    rw [← this]
    exact nan_out L n v hm (nan_hidden_weights L _ ha v)

theorem epoch_allW (L : NanCmp nan) (n : Net K nin m p) (data : List (Vec K nin × Vec K p)) (ha : n.hidden.AllW nan) : (n.epoch data).1.hidden.AllW nan := by
  induction data generalizing n with
  | nil => exact ha
  | cons q t ih =>
    obtain ⟨x, d⟩ := q
    exact ih _ (update_allW L _ _ ((predict_allW _ _ _).2 ha))

theorem epoch_wide (n : Net K nin m p) (data : List (Vec K nin × Vec K p)) : (n.epoch data).1.hidden.Wide ↔ n.hidden.Wide := by
  induction data generalizing n with
  | nil => exact Iff.rfl
  | cons q t ih =>
    obtain ⟨x, d⟩ := q
    refine (ih _).trans ((update_wide _ _).trans (predict_wide _ _))

theorem exec_allW (L : NanCmp nan) (n : Net K nin m p) (c : NetCall K p) (ha : n.hidden.AllW nan) : (n.exec c).hidden.AllW nan := by
  have hweights : ∀ n' : Net K nin m p, n'.weights = n.weights → n'.hidden.AllW nan := by
    intro n' e W hW
    have : n'.hidden.weights = n.hidden.weights := (List.append_inj' e rfl).1
    exact ha W (this ▸ hW)
  cases c with
  | predict x => exact hweights _ (C76_predict n x)
  | update d => exact update_allW L n d ha
  | train rand x d epochs shuffle =>
    show (n.train rand x d epochs shuffle).2.hidden.AllW nan
    unfold Net.train
    rcases mlpCheck nin p x d with e | data
    · exact ha
    · dsimp only
      rw [(trainLoop_flat n _ epochs).1]
      exact epoch_allW L n _ ha
  | run x => exact hweights _ (C76_run_weights n x)
  | test x d =>
    refine hweights _ ?_
    show (n.test x d).2.weights = _
    unfold Net.test
    rcases mlpCheck nin p x d with e | data
    · rfl
    · dsimp only
      induction data generalizing n with
      | nil => rfl
      | cons q t ih =>
        obtain ⟨a, b⟩ := q
        refine Eq.trans (ih (n.predictV a).1 ((predict_allW _ _ _).2 ha) ?_) (Net.predictV_weights n a)
        intro n' e W hW
        refine hweights n' (e.trans (Net.predictV_weights n a)) W hW

/-- C126: ... and this remains so for ever, whatever is done with the network: no further training repairs it. -/
theorem C126_for_ever (L : NanCmp nan) (n : Net K nin m p) (hm : 0 < m) (ha : n.hidden.AllW nan) (calls : List (NetCall K p)) (x : List K) (y : Vec K p)
    (h : ((n.execAll calls).predict x).1 = .ok y) : ∀ k, nan (y k) := by
  refine C126_predict L _ hm ?_ x y h
  unfold Net.execAll
  induction calls generalizing n with
  | nil => exact ha
  | cons c t ih => exact ih _ (exec_allW L n c ha) h

/-! ## Training -/

theorem nan_sample (L : NanCmp nan) (n : Net K nin m p) (hw : n.hidden.Wide) (hp : 0 < p) (q : Vec K nin × Vec K p) (hq : NanSample nan q) :
    (∃ k, nan (((n.predictV q.1).1.update q.2).2 k)) ∧ ((n.predictV q.1).1.update q.2).1.hidden.AllW nan := by
  rcases hq with hx | ⟨k, hk⟩
  · obtain ⟨-, h2, h3⟩ := C126_input L n hw hp q.1 q.2 hx
    exact ⟨⟨⟨0, hp⟩, h2 _⟩, fun W hW => h3 W (List.mem_append_left _ hW)⟩
  · obtain ⟨h1, h2, -⟩ := C126_target L n hw q.1 q.2 k hk
    exact ⟨⟨k, h1⟩, h2⟩

/-- `epoch` on data whose sample `t` has a NaN -/
theorem nan_epoch (L : NanCmp nan) (n : Net K nin m p) (hw : n.hidden.Wide) (hp : 0 < p) (l : List (Vec K nin × Vec K p)) (t : ℕ) (q : Vec K nin × Vec K p) (hq : l[t]? = some q)
    (hn : NanSample nan q) : (n.epoch l).1.hidden.AllW nan ∧ ∀ i e, t ≤ i → (n.epoch l).2[i]? = some e → (∃ k, nan (e k)) ∧ (t < i → ∀ k, nan (e k)) := by
  have hpre : ∀ i, t < i → i ≤ l.length → (n.epoch (l.take i)).1.hidden.AllW nan := by
    intro i hi hil
    induction i, hi using Nat.le_induction with
    | base =>
      rw [(epoch_take n l t q hq).1]
      exact (nan_sample L _ ((epoch_wide n _).2 hw) hp q hn).2
    | succ i hi ih =>
      obtain ⟨q', hq'⟩ : ∃ q', l[i]? = some q' := ⟨_, List.getElem?_eq_getElem (by omega)⟩
      rw [(epoch_take n l i q' hq').1]
      exact update_allW L _ _ ((predict_allW _ _ _).2 (ih (by omega)))
  have ht : t < l.length := by
    by_contra h
    rw [List.getElem?_eq_none (not_lt.1 h)] at hq
    cases hq
  refine ⟨by have := hpre l.length ht le_rfl; rwa [List.take_length] at this, fun i e hi he => ?_⟩
  have hil : i < l.length := by
    by_contra h
    rw [List.getElem?_eq_none (by rw [epoch_length]; exact not_lt.1 h)] at he
    cases he
  obtain ⟨q', hq'⟩ : ∃ q', l[i]? = some q' := ⟨_, List.getElem?_eq_getElem hil⟩
  have e1 := (epoch_take n l i q' hq').2
  rw [he] at e1
  have e2 := Option.some.inj e1
  rw [e2]
  by_cases hti : t < i
  · have hall : ∀ k, nan ((((n.epoch (l.take i)).1.predictV q'.1).1.update q'.2).2 k) := fun k =>
      L.sub_right _ _ (nan_out L _ _ hw.pos (nan_hidden_weights L _ (hpre i hti hil.le) _) k)
    exact ⟨⟨⟨0, hp⟩, hall _⟩, fun _ => hall⟩
  · have hti : i = t := by omega
    subst hti
    rw [hq] at hq'
    cases hq'
    exact ⟨(nan_sample L _ ((epoch_wide n _).2 hw) hp q hn).1, fun h => absurd h (lt_irrefl _)⟩

theorem trainLoop_ms (n : Net K nin m p) (data : List (Vec K nin × Vec K p)) (epochs r : ℕ) (hr : r < epochs) :
    (n.trainLoop data epochs).2.2[r]? = some (epochMse (((n.trainLoop data epochs).2.1.drop (r * data.length)).take data.length)) := by
  induction epochs generalizing n r with
  | zero => omega
  | succ k ih =>
    have hl := epoch_length n data
    show (epochMse (n.epoch data).2 :: ((n.epoch data).1.trainLoop data k).2.2)[r]? =
      some (epochMse ((((n.epoch data).2 ++ ((n.epoch data).1.trainLoop data k).2.1).drop (r * data.length)).take data.length))
    cases r with
    | zero => rw [Nat.zero_mul, List.drop_zero, List.take_left' hl]; rfl
    | succ r =>
      rw [List.getElem?_cons_succ, ih _ r (by omega), Nat.succ_mul, Nat.add_comm (r * data.length), ← List.drop_drop, List.drop_left' hl]

theorem trainLoop_ms_length (n : Net K nin m p) (data : List (Vec K nin × Vec K p)) (epochs : ℕ) : (n.trainLoop data epochs).2.2.length = epochs := by
  induction epochs generalizing n with
  | zero => rfl
  | succ k ih =>
    show (_ :: ((n.epoch data).1.trainLoop data k).2.2).length = _
    rw [List.length_cons, ih]

theorem nan_epochMse (L : NanCmp nan) (es : List (Vec K p)) (i : ℕ) (hi : i + 1 < es.length) (h : ∃ k, nan (es[i] k)) : nan (epochMse es) := by
  refine L.div_left _ _ (nan_sum L.toNanLaws ⟨_, List.mem_map.2 ⟨es[i], ?_, rfl⟩, nan_vsum L.toNanLaws (h.imp fun k hk => L.mul_left _ _ hk)⟩)
  have : i < es.dropLast.length := by rw [List.length_dropLast]; omega
  have h2 := List.getElem_mem this
  rwa [List.getElem_dropLast] at h2

/-- C126 (`train`): if the accepted data contain a sample with a NaN and at least one epoch is made, then `train` reports no problem (it returns), and afterwards all hidden
weights are NaN: every later prediction on every input is NaN, whatever calls are made in between, further training with clean data included.  In the returned errors the
NaN sample (number `t` of the order used) has a NaN in the first epoch, and every error of every later sample, of this and the following epochs, is a NaN in every component.
The reported MSE of every epoch after the first is NaN if there are at least two samples; that of the first only if the NaN sample is not the last one of the order. -/
theorem C126_train (L : NanCmp nan) (n : Net K nin m p) (hw : n.hidden.Wide) (hp : 0 < p) (rand : List ℕ) (x : List (List K)) (d : NArr K) (epochs : ℕ) (shuffle : Bool)
    {data : List (Vec K nin × Vec K p)} (hc : mlpCheck nin p x d = .ok data) (hr : rand.Perm (List.range data.length)) (hn : ∃ q ∈ data, NanSample nan q) (he : 1 ≤ epochs) :
    ∃ es ms n' t, n.train rand x d epochs shuffle = (.ok (es, ms), n') ∧ n'.hidden.AllW nan ∧
      (∀ calls x y, ((n'.execAll calls).predict x).1 = .ok y → ∀ k, nan (y k)) ∧
      t < data.length ∧ es.length = epochs * data.length ∧ (∀ e, es[t]? = some e → ∃ k, nan (e k)) ∧ (∀ i e, t < i → es[i]? = some e → ∀ k, nan (e k)) ∧
      ms.length = epochs ∧ ∀ r v, ms[r]? = some v → (1 ≤ r ∧ 2 ≤ data.length) ∨ (r = 0 ∧ t + 1 < data.length) → nan v := by
  obtain ⟨order, hord, hperm⟩ : ∃ order, order = (if shuffle then takeRows rand data else data) ∧ order.Perm data := ⟨_, rfl, by
    cases shuffle
    · exact List.Perm.refl _
    · exact takeRows_perm rand data hr⟩
  obtain ⟨q, hq, hqn⟩ := hn
  obtain ⟨t, ht, hqt⟩ := List.getElem_of_mem (hperm.mem_iff.2 hq)
  have hlen : order.length = data.length := hperm.length_eq
  obtain ⟨h1, h2⟩ := trainLoop_flat n order epochs
  have hget : (List.replicate epochs order).flatten[t]? = some q := by
    rw [flatten_replicate_get order epochs t (lt_of_lt_of_le ht (Nat.le_mul_of_pos_left _ he)), Nat.mod_eq_of_lt ht, List.getElem?_eq_getElem ht, hqt]
  obtain ⟨h3, h4⟩ := nan_epoch L n hw hp _ t q hget hqn
  refine ⟨(n.trainLoop order epochs).2.1, (n.trainLoop order epochs).2.2, (n.trainLoop order epochs).1, t, ?_, ?_, ?_, by omega, ?_, ?_, ?_, ?_, ?_⟩
  · rw [hord]
    unfold Net.train
    rw [hc]
  · rw [h1]; exact h3
  · rw [h1]
    exact fun calls x y h => C126_for_ever L _ hw.pos h3 calls x y h
  · rw [h2, epoch_length]; simp [hlen]
  · rw [h2]; exact fun e he => (h4 t e le_rfl he).1
  · rw [h2]; exact fun i e hi he => (h4 i e hi.le he).2 hi
  · exact trainLoop_ms_length n order epochs
  · intro r v hv hrt
    have hre : r < epochs := by
      by_contra h
      rw [List.getElem?_eq_none (by rw [trainLoop_ms_length]; exact not_lt.1 h)] at hv
      cases hv
    rw [trainLoop_ms n order epochs r hre] at hv
    have hes : (n.trainLoop order epochs).2.1.length = epochs * order.length := by rw [h2, epoch_length]; simp
    have hmul : r * order.length + order.length ≤ epochs * order.length := by
      rw [← Nat.succ_mul]; exact Nat.mul_le_mul_right _ hre
    rw [← Option.some.inj hv]
    have hl : (((n.trainLoop order epochs).2.1.drop (r * order.length)).take order.length).length = order.length := by
      rw [List.length_take, List.length_drop, hes]; omega
    obtain ⟨i, hi1, hi2⟩ : ∃ i, i + 1 < order.length ∧ t ≤ r * order.length + i := by
      rcases hrt with ⟨a, b⟩ | ⟨a, b⟩
      · refine ⟨0, by omega, ?_⟩
        have : order.length ≤ r * order.length := Nat.le_mul_of_pos_left _ a
        omega
      · exact ⟨t, by omega, by omega⟩
    refine nan_epochMse L _ i (by rw [hl]; exact hi1) ?_
    rw [List.getElem_take, List.getElem_drop]
    refine (h4 (r * order.length + i) _ hi2 ?_).1
    rw [← h2, List.getElem?_eq_getElem (by rw [hes]; omega)]

/-- C126: with a single sample the reported MSE is always 0 / 1, whatever happens. -/
theorem C126_mse_one (n : Net K nin m p) (rand : List ℕ) (x : List (List K)) (d : NArr K) (epochs : ℕ) (shuffle : Bool) {es : List (Vec K p)} {ms : List K} {n' : Net K nin m p}
    (h : n.train rand x d epochs shuffle = (.ok (es, ms), n')) (hx : x.length = 1) (hr : rand.Perm (List.range x.length)) : ∀ v ∈ ms, v = 0 / Scalar.nat 1 := by
  unfold Net.train at h
  rcases hc : mlpCheck nin p x d with e | data
  · rw [hc] at h; cases h
  rw [hc] at h
  obtain ⟨-, -, -, hdx, -⟩ := (C77_accepted_iff x d data).1 hc
  have hdl : data.length = 1 := by rw [← hx, ← hdx, List.length_map]
  have ho : (if shuffle then takeRows rand data else data).length = 1 := by
    cases shuffle
    · exact hdl
    · exact (takeRows_perm rand data (by rw [hdl, ← hx]; exact hr)).length_eq.trans hdl
  dsimp only at h
  generalize (if shuffle then takeRows rand data else data) = order at h ho
  have hms : ms = (n.trainLoop order epochs).2.2 := by cases h; rfl
  intro v hv
  rw [hms] at hv
  obtain ⟨r, hr1, rfl⟩ := List.getElem_of_mem hv
  have hre : r < epochs := by rwa [trainLoop_ms_length] at hr1
  have h1 := trainLoop_ms n order epochs r hre
  rw [List.getElem?_eq_getElem hr1] at h1
  rw [Option.some.inj h1, ho]
  have h2 := (trainLoop_flat n order epochs).2
  have hes : (n.trainLoop order epochs).2.1.length = epochs := by rw [h2, epoch_length]; simp [ho]
  obtain ⟨e, he⟩ : ∃ e, ((n.trainLoop order epochs).2.1.drop (r * 1)).take 1 = [e] := by
    apply List.length_eq_one_iff.1
    rw [List.length_take, List.length_drop, hes]; omega
  rw [he]
  rfl

end

/-! ## A concrete case -/

/-- two inputs, one hidden layer of two nodes, one output -/
def nanNet : Net NanRat 2 2 1 := mkNet (.one (mkLayer (fun _ _ => some (1 : ℚ)) .tanh (some (1 : ℚ)))) (fun _ _ => some (1 : ℚ)) (some (1 : ℚ))

/-- three samples, the second with a NaN: the hypotheses of `C126_train` -/
example : nanNet.hidden.Wide ∧
    ∃ data, mlpCheck 2 1 ([[some (1 : ℚ), some (2 : ℚ)], [some (3 : ℚ), none], [some (0 : ℚ), some (1 : ℚ)]] : List (List NanRat))
        (.one [some (1 : ℚ), some (0 : ℚ), some (2 : ℚ)]) = .ok data ∧
      [2, 0, 1].Perm (List.range data.length) ∧ ∃ q ∈ data, NanSample (fun a : NanRat => a = none) q := by
  refine ⟨(Hidden.wide_one _).2 (by norm_num), _, rfl, by decide, _, List.mem_cons_of_mem _ List.mem_cons_self, Or.inl ⟨1, rfl⟩⟩

end Padasip
