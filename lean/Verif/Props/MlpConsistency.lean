import Verif.Props.Consistency
import Verif.Props.MlpRound

/-!
# C157: training a network in finite precision converges to training it in exact arithmetic
-/

set_option linter.unusedSectionVars false
set_option linter.unusedVariables false
set_option linter.unusedSimpArgs false

namespace Padasip

open Finset Filter

variable {F : ℕ → Rounding} {nin q p : ℕ}

/-! ## **Specification** -/

/-- vectors of the arithmetics `F m` tending to `v`, entry by entry -/
def VecTends {n : ℕ} (a : (m : ℕ) → Vec (Fl (F m)) n) (v : Vec ℝ n) : Prop := ∀ i, Tendsto (fun m => (a m i).val) atTop (nhds (v i))

/-- layers of the arithmetics `F m` with the same activation and with weights, last inputs, last outputs and learning rates tending to those of `l'` -/
def LayerTends (l : (m : ℕ) → Layer (Fl (F m)) nin q) (l' : Layer ℝ nin q) : Prop :=
  (∀ i, VecTends (fun m => (l m).w i) (l'.w i)) ∧ VecTends (fun m => (l m).x) l'.x ∧ VecTends (fun m => (l m).y) l'.y ∧
  Tendsto (fun m => (l m).mu.val) atTop (nhds l'.mu) ∧ ∀ m, (l m).f = l'.f

inductive HiddenTends : {nin q : ℕ} → ((m : ℕ) → Hidden (Fl (F m)) nin q) → Hidden ℝ nin q → Prop
  | one {nin q : ℕ} {l : (m : ℕ) → Layer (Fl (F m)) nin q} {l' : Layer ℝ nin q} (h : LayerTends l l') : HiddenTends (fun m => .one (l m)) (.one l')
  | snoc {nin q r : ℕ} {h : (m : ℕ) → Hidden (Fl (F m)) nin q} {h' : Hidden ℝ nin q} {l : (m : ℕ) → Layer (Fl (F m)) q r} {l' : Layer ℝ q r}
      (hh : HiddenTends h h') (hl : LayerTends l l') : HiddenTends (fun m => .snoc (h m) (l m)) (.snoc h' l')

/-- networks of the arithmetics `F m` tending to the network `n'`: all attributes of all layers -/
def NetTends (n : (m : ℕ) → Net (Fl (F m)) nin q p) (n' : Net ℝ nin q p) : Prop :=
  HiddenTends (fun m => (n m).hidden) n'.hidden ∧ (∀ i, VecTends (fun m => (n m).w i) (n'.w i)) ∧ VecTends (fun m => (n m).x) n'.x ∧
  VecTends (fun m => (n m).y) n'.y ∧ Tendsto (fun m => (n m).mu.val) atTop (nhds n'.mu)

/-- lists of vectors of the same length, tending to each other row by row -/
def RowsTend (l : (m : ℕ) → List (Vec (Fl (F m)) p)) (g : List (Vec ℝ p)) : Prop :=
  (∀ m, (l m).length = g.length) ∧ ∀ j, VecTends (fun m => (l m).getD j fun _ => ⟨0⟩) (g.getD j fun _ => 0)

/-- lists of numbers of the same length, tending to each other entry by entry -/
def NumsTend (l : (m : ℕ) → List (Fl (F m))) (g : List ℝ) : Prop :=
  (∀ m, (l m).length = g.length) ∧ ∀ j, Tendsto (fun m => ((l m).getD j ⟨0⟩).val) atTop (nhds (g.getD j 0))

/-- the samples, stored in the arithmetic `F` -/
def flSamples (F : Rounding) (data : List (Vec ℝ nin × Vec ℝ p)) : List (Vec (Fl F) nin × Vec (Fl F) p) := data.map fun s => (s.1.fl F, s.2.fl F)

/-! ## proof -/

/-- the network with the same numbers -/
theorem hiddenTends_fl : ∀ {nin q : ℕ} (h : Hidden ℝ nin q), HiddenTends (fun m => h.fl (F m)) h
  | _, _, .one l => .one ⟨fun _ _ => tendsto_const_nhds, fun _ => tendsto_const_nhds, fun _ => tendsto_const_nhds, tendsto_const_nhds, fun _ => rfl⟩
  | _, _, .snoc h l => .snoc (hiddenTends_fl h) ⟨fun _ _ => tendsto_const_nhds, fun _ => tendsto_const_nhds, fun _ => tendsto_const_nhds, tendsto_const_nhds, fun _ => rfl⟩

theorem netTends_fl (n : Net ℝ nin q p) : NetTends (fun m => n.fl (F m)) n :=
  ⟨hiddenTends_fl n.hidden, fun _ _ => tendsto_const_nhds, fun _ => tendsto_const_nhds, fun _ => tendsto_const_nhds, tendsto_const_nhds⟩

theorem setTail_tends {k : ℕ} {old : (m : ℕ) → Vec (Fl (F m)) (k + 1)} {old' : Vec ℝ (k + 1)} {v : (m : ℕ) → Vec (Fl (F m)) k} {v' : Vec ℝ k}
    (h : VecTends old old') (hv : VecTends v v') : VecTends (fun m => setTail (old m) (v m)) (setTail old' v') := by
  intro i
  refine Fin.cases ?_ (fun i => ?_) i
  · exact h 0
  · exact hv i

variable (hF : Tendsto (fun m => (F m).u) atTop (nhds 0))
include hF

theorem T.activation (f : Act) {a : (m : ℕ) → Fl (F m)} {L : ℝ} (ha : T a L) : T (fun m => activation f false (a m)) (activation f false L) := by
  have one : T (F := F) (fun _ => 1) 1 := T.const 1
  have two : T (F := F) (fun _ => 1 + 1) (1 + 1) := one.add hF one
  cases f
  · show T (fun m => (1 : Fl (F m)) / (1 + Transc.exp (-(a m)))) (1 / (1 + Real.exp (-L)))
    exact one.div hF (one.add hF (T.exp hF ha.neg)) (by have := Real.exp_pos (-L); positivity)
  · show T (fun m => (1 + 1 : Fl (F m)) / (1 + Transc.exp (-(1 + 1) * (a m))) - 1) ((1 + 1) / (1 + Real.exp (-(1 + 1) * L)) - 1)
    exact (two.div hF (one.add hF (T.exp hF (two.neg.mul hF ha))) (by have := Real.exp_pos (-(1 + 1) * L); positivity)).sub hF one

theorem T.activationDer (f : Act) {a : (m : ℕ) → Fl (F m)} {L : ℝ} (ha : T a L) : T (fun m => Padasip.activation f true (a m)) (Padasip.activation f true L) := by
  have one : T (F := F) (fun _ => 1) 1 := T.const 1
  cases f
  · exact ha.mul hF (one.sub hF ha)
  · exact one.sub hF (ha.mul hF ha)

theorem T.vsum' {n : ℕ} (f : (m : ℕ) → Vec (Fl (F m)) n) (g : Vec ℝ n) (h : ∀ i, T (fun m => f m i) (g i)) : T (fun m => Padasip.vsum (f m)) (Padasip.vsum g) := by
  rw [vsum_eq]; exact T.vsum hF f g h

theorem layerTends_predict {l : (m : ℕ) → Layer (Fl (F m)) nin q} {l' : Layer ℝ nin q} (h : LayerTends l l') {v : (m : ℕ) → Vec (Fl (F m)) nin} {v' : Vec ℝ nin}
    (hv : VecTends v v') : LayerTends (fun m => (l m).predict (v m)) (l'.predict v') := by
  obtain ⟨hw, hx, hy, hm, hf⟩ := h
  have ht := setTail_tends hx hv
  refine ⟨hw, ht, fun i => ?_, hm, hf⟩
  show T (fun m => Padasip.activation (l m).f false (Padasip.vsum fun j => (l m).w i j * setTail (l m).x (v m) j)) _
  simp only [hf]
  exact T.activation hF _ (T.vsum' hF _ _ fun j => T.mul hF (hw i j) (ht j))

theorem hiddenTends_predict {nin q : ℕ} {h : (m : ℕ) → Hidden (Fl (F m)) nin q} {h' : Hidden ℝ nin q} (hh : HiddenTends h h') {v : (m : ℕ) → Vec (Fl (F m)) nin} {v' : Vec ℝ nin}
    (hv : VecTends v v') : HiddenTends (fun m => ((h m).predict (v m)).1) (h'.predict v').1 ∧ VecTends (fun m => ((h m).predict (v m)).2) (h'.predict v').2 := by
  induction hh with
  | one hl => exact ⟨.one (layerTends_predict hF hl hv), (layerTends_predict hF hl hv).2.2.1⟩
  | snoc hh hl ih =>
    have ih := ih
    have h2 := layerTends_predict hF hl ih.2
    exact ⟨.snoc ih.1 h2, h2.2.2.1⟩

theorem netTends_predict {n : (m : ℕ) → Net (Fl (F m)) nin q p} {n' : Net ℝ nin q p} (h : NetTends n n') {v : (m : ℕ) → Vec (Fl (F m)) nin} {v' : Vec ℝ nin}
    (hv : VecTends v v') : NetTends (fun m => ((n m).predictV (v m)).1) (n'.predictV v').1 ∧ VecTends (fun m => ((n m).predictV (v m)).2) (n'.predictV v').2 := by
  obtain ⟨hh, hw, hx, hy, hm⟩ := h
  have h1 := hiddenTends_predict hF hh hv
  have ht := setTail_tends hx h1.2
  have h2 : VecTends (fun m => ((n m).predictV (v m)).2) (n'.predictV v').2 := fun i => T.vsum' hF _ _ fun j => T.mul hF (hw i j) (ht j)
  exact ⟨⟨h1.1, hw, ht, h2, hm⟩, h2⟩

theorem layerTends_apply {l : (m : ℕ) → Layer (Fl (F m)) nin q} {l' : Layer ℝ nin q} (h : LayerTends l l') {e : (m : ℕ) → Vec (Fl (F m)) q} {e' : Vec ℝ q}
    (he : VecTends e e') : LayerTends (fun m => (l m).apply (e m)) (l'.apply e') := by
  obtain ⟨hw, hx, hy, hm, hf⟩ := h
  exact ⟨fun i j => T.add hF (hw i j) (T.mul hF hm (T.mul hF (he i) (hx j))), hx, hy, hm, hf⟩

theorem errMat_tends {l : (m : ℕ) → Layer (Fl (F m)) nin q} {l' : Layer ℝ nin q} (h : LayerTends l l') {w : (m : ℕ) → Mat (Fl (F m)) p q} {w' : Mat ℝ p q} (hw : ∀ i, VecTends (fun m => w m i) (w' i))
    {e : (m : ℕ) → Vec (Fl (F m)) p} {e' : Vec ℝ p} (he : VecTends e e') : VecTends (fun m => (l m).errMat (w m) (e m)) (l'.errMat w' e') := by
  obtain ⟨-, hx, hy, hm, hf⟩ := h
  intro i
  show T (fun m => Padasip.activation (l m).f true ((l m).y i) * (1 - (l m).y i) * Padasip.vsum fun k => e m k * w m k i) _
  simp only [hf]
  exact T.mul hF (T.mul hF (T.activationDer hF _ (hy i)) (T.sub hF (T.const (F := F) 1) (hy i))) (T.vsum' hF _ _ fun k => T.mul hF (he k) (hw k i))

theorem errFlat_tends {l : (m : ℕ) → Layer (Fl (F m)) nin q} {l' : Layer ℝ nin q} (h : LayerTends l l') {w : (m : ℕ) → Vec (Fl (F m)) q} {w' : Vec ℝ q} (hw : VecTends w w')
    {e : (m : ℕ) → Fl (F m)} {e' : ℝ} (he : T e e') : VecTends (fun m => (l m).errFlat (w m) (e m)) (l'.errFlat w' e') := by
  obtain ⟨-, hx, hy, hm, hf⟩ := h
  intro i
  show T (fun m => Padasip.activation (l m).f true ((l m).y i) * e m * w m i) _
  simp only [hf]
  exact T.mul hF (T.mul hF (T.activationDer hF _ (hy i)) he) (hw i)

theorem hiddenTends_updateMat {nin q : ℕ} {h : (m : ℕ) → Hidden (Fl (F m)) nin q} {h' : Hidden ℝ nin q} (hh : HiddenTends h h') :
    ∀ {p : ℕ} {w : (m : ℕ) → Mat (Fl (F m)) p q} {w' : Mat ℝ p q} (hw : ∀ i, VecTends (fun m => w m i) (w' i))
    {e : (m : ℕ) → Vec (Fl (F m)) p} {e' : Vec ℝ p} (he : VecTends e e'), HiddenTends (fun m => (h m).updateMat (w m) (e m)) (h'.updateMat w' e') := by
  induction hh with
  | one hl => exact fun {_ _ _} hw {_ _} he => .one (layerTends_apply hF hl (errMat_tends hF hl hw he))
  | snoc hh hl ih =>
    intro p w w' hw e e' he
    have h1 := errMat_tends hF hl hw he
    have h2 := layerTends_apply hF hl h1
    exact .snoc (ih (fun i j => h2.1 i j.succ) h1) h2

theorem hiddenTends_updateFlat {nin q : ℕ} {h : (m : ℕ) → Hidden (Fl (F m)) nin q} {h' : Hidden ℝ nin q} (hh : HiddenTends h h')
    {w : (m : ℕ) → Vec (Fl (F m)) q} {w' : Vec ℝ q} (hw : VecTends w w')
    {e : (m : ℕ) → Fl (F m)} {e' : ℝ} (he : T e e') : HiddenTends (fun m => (h m).updateFlat (w m) (e m)) (h'.updateFlat w' e') := by
  cases hh with
  | one hl => exact .one (layerTends_apply hF hl (errFlat_tends hF hl hw he))
  | snoc hh hl =>
    have h1 := errFlat_tends hF hl hw he
    have h2 := layerTends_apply hF hl h1
    exact .snoc (hiddenTends_updateMat hF hh (fun i j => h2.1 i j.succ) h1) h2

theorem netTends_update {n : (m : ℕ) → Net (Fl (F m)) nin q p} {n' : Net ℝ nin q p} (h : NetTends n n') {d : (m : ℕ) → Vec (Fl (F m)) p} {d' : Vec ℝ p}
    (hd : VecTends d d') : NetTends (fun m => ((n m).update (d m)).1) (n'.update d').1 ∧ VecTends (fun m => ((n m).update (d m)).2) (n'.update d').2 := by
  obtain ⟨hh, hw, hx, hy, hm⟩ := h
  have he : VecTends (fun m => ((n m).update (d m)).2) (n'.update d').2 := fun i => T.sub hF (hd i) (hy i)
  refine ⟨⟨?_, fun i j => ?_, hx, hy, hm⟩, he⟩
  · by_cases hp : p = 1
    · subst hp
      exact hiddenTends_updateFlat hF hh (fun j => hw 0 j.succ) (he 0)
    · simp only [Net.update, dif_neg hp]
      exact hiddenTends_updateMat hF hh (fun i j => hw i j.succ) he
  · by_cases hp : p = 1
    · simp only [Net.update, if_pos hp]
      exact T.add hF (hw i j) (T.mul hF (T.mul hF hm (he i)) (hx j))
    · simp only [Net.update, if_neg hp]
      exact T.add hF (hw i j) (T.mul hF hm (T.mul hF (he i) (hx j)))

omit hF in
theorem rowsTend_nil : RowsTend (F := F) (p := p) (fun _ => []) [] := ⟨fun _ => rfl, fun j i => by simp⟩

omit hF in
theorem rowsTend_cons {a : (m : ℕ) → Vec (Fl (F m)) p} {b : Vec ℝ p} {l : (m : ℕ) → List (Vec (Fl (F m)) p)} {g : List (Vec ℝ p)} (h : VecTends a b) (hl : RowsTend l g) :
    RowsTend (fun m => a m :: l m) (b :: g) := by
  refine ⟨fun m => by simp [hl.1 m], fun j => ?_⟩
  cases j with
  | zero => exact h
  | succ j => simpa using hl.2 j

omit hF in
theorem rowsTend_uncons {b : Vec ℝ p} {l : (m : ℕ) → List (Vec (Fl (F m)) p)} {g : List (Vec ℝ p)} (hl : RowsTend l (b :: g)) :
    ∃ (a : (m : ℕ) → Vec (Fl (F m)) p) (t : (m : ℕ) → List (Vec (Fl (F m)) p)), (l = fun m => a m :: t m) ∧ VecTends a b ∧ RowsTend t g := by
  have h : ∀ m, ∃ a t, l m = a :: t := fun m => by
    have := hl.1 m
    cases hm : l m with
    | nil => rw [hm] at this; simp at this
    | cons a t => exact ⟨a, t, rfl⟩
  choose a t hat using h
  have he : l = fun m => a m :: t m := funext hat
  subst he
  refine ⟨a, t, rfl, by simpa using hl.2 0, fun m => by have := hl.1 m; simpa using this, fun j => by simpa using hl.2 (j + 1)⟩

omit hF in
theorem rowsTend_append {g : List (Vec ℝ p)} : ∀ {l k : (m : ℕ) → List (Vec (Fl (F m)) p)} {g' : List (Vec ℝ p)}, RowsTend l g → RowsTend k g' → RowsTend (fun m => l m ++ k m) (g ++ g') := by
  induction g with
  | nil =>
    intro l k g' hl hk
    have : l = fun _ => [] := funext fun m => List.eq_nil_of_length_eq_zero (hl.1 m)
    subst this
    exact hk
  | cons b g ih =>
    intro l k g' hl hk
    obtain ⟨a, t, rfl, ha, ht⟩ := rowsTend_uncons hl
    exact rowsTend_cons ha (ih ht hk)

omit hF in
theorem rowsTend_dropLast {g : List (Vec ℝ p)} {l : (m : ℕ) → List (Vec (Fl (F m)) p)} (hl : RowsTend l g) : RowsTend (fun m => (l m).dropLast) g.dropLast := by
  refine ⟨fun m => by simp [hl.1 m], fun j => ?_⟩
  by_cases hj : j < g.length - 1
  · have h2 : ∀ m, j < (l m).length - 1 := fun m => by rw [hl.1 m]; exact hj
    have h3 : ∀ m, ((l m).dropLast.getD j fun _ => ⟨0⟩) = (l m).getD j fun _ => ⟨0⟩ := fun m => by
      rw [List.getD_eq_getElem?_getD, List.getD_eq_getElem?_getD, List.getElem?_dropLast, if_pos (h2 m)]
    have h4 : (g.dropLast.getD j fun _ => (0 : ℝ)) = g.getD j fun _ => 0 := by
      rw [List.getD_eq_getElem?_getD, List.getD_eq_getElem?_getD, List.getElem?_dropLast, if_pos hj]
    rw [funext h3, h4]
    exact hl.2 j
  · have h2 : ∀ m, ¬ j < (l m).length - 1 := fun m => by rw [hl.1 m]; exact hj
    intro i
    simp [List.getD_eq_getElem?_getD, List.getElem?_dropLast, hj, h2]

theorem sumSq_tends {g : List (Vec ℝ p)} : ∀ {l : (m : ℕ) → List (Vec (Fl (F m)) p)}, RowsTend l g →
    T (fun m => ((l m).map fun e => Padasip.vsum fun k => e k * e k).sum) ((g.map fun e => Padasip.vsum fun k => e k * e k).sum) := by
  induction g with
  | nil =>
    intro l hl
    have : l = fun _ => [] := funext fun m => List.eq_nil_of_length_eq_zero (hl.1 m)
    subst this
    exact T.const (F := F) 0
  | cons b g ih =>
    intro l hl
    obtain ⟨a, t, rfl, ha, ht⟩ := rowsTend_uncons hl
    simp only [List.map_cons, List.sum_cons]
    exact T.add hF (T.vsum' hF _ _ fun k => T.mul hF (ha k) (ha k)) (ih ht)

theorem mse_tends {g : List (Vec ℝ p)} {l : (m : ℕ) → List (Vec (Fl (F m)) p)} (hl : RowsTend l g) (hg : g ≠ []) : T (fun m => epochMse (l m)) (epochMse g) := by
  have h1 := sumSq_tends hF (rowsTend_dropLast hl)
  have h2 : T (fun m => (Scalar.nat (l m).length : Fl (F m))) (g.length : ℝ) := by
    simp only [hl.1]
    exact T.const _
  have h3 : (g.length : ℝ) ≠ 0 := by
    have := List.length_pos_of_ne_nil hg
    positivity
  exact T.div hF h1 h2 h3

theorem epoch_tends (data : List (Vec ℝ nin × Vec ℝ p)) : ∀ {n : (m : ℕ) → Net (Fl (F m)) nin q p} {n' : Net ℝ nin q p}, NetTends n n' →
    NetTends (fun m => ((n m).epoch (flSamples (F m) data)).1) (n'.epoch data).1 ∧ RowsTend (fun m => ((n m).epoch (flSamples (F m) data)).2) (n'.epoch data).2 := by
  induction data with
  | nil => exact fun h => ⟨h, rowsTend_nil⟩
  | cons s t ih =>
    intro n n' h
    have h1 := netTends_predict hF h (v := fun m => s.1.fl (F m)) (v' := s.1) (fun i => tendsto_const_nhds)
    have h2 := netTends_update hF h1.1 (d := fun m => s.2.fl (F m)) (d' := s.2) (fun i => tendsto_const_nhds)
    have h3 := ih h2.1
    exact ⟨h3.1, rowsTend_cons h2.2 h3.2⟩

theorem epoch_len {K : Type} [Transc K] (n : Net K nin q p) (data : List (Vec K nin × Vec K p)) : (n.epoch data).2.length = data.length := by
  induction data generalizing n with
  | nil => rfl
  | cons s t ih => simp only [Net.epoch, List.length_cons, ih]

/-- C157: `epochs` passes over the samples in the order `data`, with the same start weights, in the arithmetics `F m`: all attributes of the trained network, all reported errors and
the mean squared errors per epoch tend to those of exact arithmetic when the unit roundoffs `u_m` tend to 0. -/
theorem C157_train (n : Net ℝ nin q p) (data : List (Vec ℝ nin × Vec ℝ p)) (hd : data ≠ []) (epochs : ℕ) :
    NetTends (fun m => ((n.fl (F m)).trainLoop (flSamples (F m) data) epochs).1) (n.trainLoop data epochs).1 ∧
    RowsTend (fun m => ((n.fl (F m)).trainLoop (flSamples (F m) data) epochs).2.1) (n.trainLoop data epochs).2.1 ∧
    NumsTend (fun m => ((n.fl (F m)).trainLoop (flSamples (F m) data) epochs).2.2) (n.trainLoop data epochs).2.2 := by
  have key : ∀ epochs {n : (m : ℕ) → Net (Fl (F m)) nin q p} {n' : Net ℝ nin q p}, NetTends n n' →
      NetTends (fun m => ((n m).trainLoop (flSamples (F m) data) epochs).1) (n'.trainLoop data epochs).1 ∧
      RowsTend (fun m => ((n m).trainLoop (flSamples (F m) data) epochs).2.1) (n'.trainLoop data epochs).2.1 ∧
      NumsTend (fun m => ((n m).trainLoop (flSamples (F m) data) epochs).2.2) (n'.trainLoop data epochs).2.2 := by
    intro epochs
    induction epochs with
    | zero => exact fun h => ⟨h, rowsTend_nil, fun _ => rfl, fun j => by simp [Net.trainLoop]⟩
    | succ k ih =>
      intro n n' h
      have h1 := epoch_tends hF data h
      have h2 := ih h1.1
      refine ⟨h2.1, rowsTend_append h1.2 h2.2.1, fun m => ?_, fun j => ?_⟩
      · have := h2.2.2.1 m
        simp only [Net.trainLoop, List.length_cons, this]
      · cases j with
        | zero =>
          refine mse_tends hF h1.2 ?_
          intro hnil
          have := epoch_len hF n' data
          rw [hnil] at this
          exact hd (List.eq_nil_of_length_eq_zero this.symm)
        | succ j => simpa [Net.trainLoop] using h2.2.2.2 j
  exact key epochs (netTends_fl n)

/-! ## the method itself -/

/-- the same numbers, stored in the arithmetic `F` -/
def NArr.fl (F : Rounding) : NArr ℝ → NArr (Fl F)
  | .one l => .one (l.map fun a => ⟨a⟩)
  | .two c rows => .two c (rows.map fun r => r.map fun a => ⟨a⟩)

omit hF in
theorem mlpCheck_fl (G : Rounding) {x : List (List ℝ)} {d : NArr ℝ} {data : List (Vec ℝ nin × Vec ℝ p)} (h : mlpCheck nin p x d = .ok data) :
    mlpCheck nin p (x.map fun r => r.map fun a => (⟨a⟩ : Fl G)) (d.fl G) = .ok (flSamples G data) := by
  obtain ⟨h1, h2, h3, h4, h5⟩ := (C77_accepted_iff x d data).1 h
  have m1 : (flSamples G data).map (fun q => List.ofFn q.1) = x.map fun r => r.map fun a => (⟨a⟩ : Fl G) := by
    rw [← h4]; simp only [flSamples, List.map_map]
    refine List.map_congr_left fun q _ => ?_
    simp only [Function.comp, List.map_ofFn]; rfl
  have m2 : (flSamples G data).map (fun q => List.ofFn q.2) = (data.map fun q => List.ofFn q.2).map fun r => r.map fun a => (⟨a⟩ : Fl G) := by
    simp only [flSamples, List.map_map]
    refine List.map_congr_left fun q _ => ?_
    simp only [Function.comp, List.map_ofFn]; rfl
  refine (C77_accepted_iff _ _ _).2 ⟨by simpa using h1, ?_, ?_, m1, ?_⟩
  · rw [List.length_map, ← h2]; cases d <;> simp [NArr.fl, NArr.len]
  · intro r hr
    obtain ⟨r', hr', rfl⟩ := List.mem_map.1 hr
    rw [List.length_map]; exact h3 r' hr'
  · rcases h5 with ⟨hp, l, rfl, hl⟩ | ⟨hp, rows, rfl, hr, hl⟩
    · refine Or.inl ⟨hp, _, rfl, ?_⟩
      rw [m2, hl]; simp
    · refine Or.inr ⟨hp, _, rfl, ?_, ?_⟩
      · intro r hr'
        obtain ⟨r', hr'', rfl⟩ := List.mem_map.1 hr'
        rw [List.length_map]; exact hr r' hr''
      · rw [m2, hl]

/-- C157: the method `train` on data it accepts, with the same numbers, the same drawn order and the same network in all arithmetics: all calls succeed, and network, errors and
mean squared errors tend to those of exact arithmetic. -/
theorem C157_train_call (n : Net ℝ nin q p) (rand : List ℕ) (x : List (List ℝ)) (d : NArr ℝ) (epochs : ℕ) (shuffle : Bool) {data : List (Vec ℝ nin × Vec ℝ p)}
    (hc : mlpCheck nin p x d = .ok data) (hr : rand.Perm (List.range data.length)) :
    ∃ (es : (m : ℕ) → List (Vec (Fl (F m)) p)) (ms : (m : ℕ) → List (Fl (F m))) (N : (m : ℕ) → Net (Fl (F m)) nin q p) (es' : List (Vec ℝ p)) (ms' : List ℝ) (N' : Net ℝ nin q p),
      (∀ m, (n.fl (F m)).train rand (x.map fun r => r.map fun a => ⟨a⟩) (d.fl (F m)) epochs shuffle = (.ok (es m, ms m), N m)) ∧
      n.train rand x d epochs shuffle = (.ok (es', ms'), N') ∧
      NetTends N N' ∧ RowsTend es es' ∧ NumsTend ms ms' := by
  have hne : data ≠ [] := by
    obtain ⟨h1, -, -, h4, -⟩ := (C77_accepted_iff x d data).1 hc
    rintro rfl
    exact h1 h4.symm
  set order := if shuffle then takeRows rand data else data with ho
  have hord : order ≠ [] := by
    cases shuffle
    · exact hne
    · intro h0
      have hp := takeRows_perm rand data hr
      rw [show takeRows rand data = [] from h0] at hp
      exact hne hp.nil_eq.symm
  have hfl : ∀ m, (if shuffle then takeRows rand (flSamples (F m) data) else flSamples (F m) data) = flSamples (F m) order := by
    intro m
    cases shuffle
    · rfl
    · simp only [ho, if_true, flSamples, takeRows, List.map_filterMap, List.getElem?_map]
  obtain ⟨h1, h2, h3⟩ := C157_train hF n order hord epochs
  refine ⟨_, _, _, _, _, _, fun m => ?_, ?_, h1, h2, h3⟩
  · unfold Net.train
    rw [mlpCheck_fl (F m) hc]
    simp only [hfl]
  · unfold Net.train
    rw [hc]

/-- the hypotheses are met: a family of binary arithmetics with more and more bits, two samples in swapped order -/
example : Tendsto (fun m => (binary (m + 1) (Nat.succ_pos m)).u) atTop (nhds 0) ∧
    mlpCheck 2 1 [[1, 2], [3, 4]] (NArr.one [5, 6] : NArr ℝ) = .ok [(![1, 2], ![5]), (![3, 4], ![6])] ∧ [1, 0].Perm (List.range 2) := by
  refine ⟨?_, ?_, by decide⟩
  · exact (tendsto_pow_atTop_nhds_zero_of_lt_one (by norm_num : (0 : ℝ) ≤ 1 / 2) (by norm_num)).comp (tendsto_add_atTop_nat 1)
  · rw [C77_accepted_iff]
    refine ⟨by simp, rfl, by simp, by simp, Or.inl ⟨rfl, _, rfl, by simp⟩⟩

end Padasip
