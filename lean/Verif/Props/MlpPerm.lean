import Verif.Props.MlpGrad
import Verif.Props.Mlp
import Verif.Model.MlpNew

/-!
# C105: the numbering of the hidden nodes does not matter, and symmetric nodes stay symmetric
-/

set_option linter.unusedSectionVars false
set_option linter.unusedSimpArgs false
set_option linter.unusedVariables false

namespace Padasip

open Finset

variable {nin m q p : ℕ}

/-- `l'` is the layer `l` with its inputs renumbered by `τ` and its nodes renumbered by `σ` (the bias is not renumbered) -/
structure Layer.Renum {nin m : ℕ} (τ : Equiv.Perm (Fin nin)) (σ : Equiv.Perm (Fin m)) (l l' : Layer ℝ nin m) : Prop where
  f : l'.f = l.f
  mu : l'.mu = l.mu
  x0 : l'.x 0 = l.x 0
  x : ∀ j, l'.x (τ j).succ = l.x j.succ
  y : ∀ i, l'.y (σ i) = l.y i
  w0 : ∀ i, l'.w (σ i) 0 = l.w i 0
  w : ∀ i j, l'.w (σ i) (τ j).succ = l.w i j.succ

/-- number of the last hidden layer, counted from 0 -/
def Hidden.last {nin m : ℕ} : Hidden ℝ nin m → ℕ
  | .one _ => 0
  | .snoc h _ => h.last + 1

/-- the hidden layers `h'` are the layers `h` (the last of which has number `L`) with the nodes of every layer renumbered, those of layer `l` of size `m` by the permutation
`P l m`; the inputs of the network are not renumbered -/
inductive Hidden.Renum (P : ℕ → ∀ m, Equiv.Perm (Fin m)) {nin : ℕ} : {m : ℕ} → ℕ → Hidden ℝ nin m → Hidden ℝ nin m → Prop
  | one {m : ℕ} {l l' : Layer ℝ nin m} : l.Renum (Equiv.refl _) (P 0 m) l' → Hidden.Renum P 0 (.one l) (.one l')
  | snoc {m q L : ℕ} {h h' : Hidden ℝ nin m} {l l' : Layer ℝ m q} :
      Hidden.Renum P L h h' → l.Renum (P L m) (P (L + 1) q) l' → Hidden.Renum P (L + 1) (.snoc h l) (.snoc h' l')

/-- the network `n'` is the network `n` with the hidden nodes renumbered, those of layer `l` by `P l m` (`L` is the number of the last hidden layer) -/
structure Net.Renum (P : ℕ → ∀ m, Equiv.Perm (Fin m)) (L : ℕ) (n n' : Net ℝ nin m p) : Prop where
  hidden : n.hidden.Renum P L n'.hidden
  mu : n'.mu = n.mu
  w0 : ∀ k, n'.w k 0 = n.w k 0
  w : ∀ k i, n'.w k (P L m i).succ = n.w k i.succ
  x0 : n'.x 0 = n.x 0
  x : ∀ i, n'.x (P L m i).succ = n.x i.succ
  y : n'.y = n.y

theorem sum_renum {n : ℕ} (τ : Equiv.Perm (Fin n)) (f g : Vec ℝ (n + 1)) (h0 : g 0 = f 0) (h : ∀ j, g (τ j).succ = f j.succ) : ∑ j, g j = ∑ j, f j := by
  rw [Fin.sum_univ_succ, Fin.sum_univ_succ, h0, ← Equiv.sum_comp τ (fun j => g j.succ)]
  congr 1
  exact sum_congr rfl fun j _ => h j

theorem Layer.Renum.predict {τ : Equiv.Perm (Fin nin)} {σ : Equiv.Perm (Fin m)} {l l' : Layer ℝ nin m} (h : l.Renum τ σ l') {a a' : Vec ℝ nin}
    (ha : ∀ j, a' (τ j) = a j) : (l.predict a).Renum τ σ (l'.predict a') := by
  refine ⟨h.f, h.mu, ?_, ?_, ?_, h.w0, h.w⟩
  · exact h.x0
  · intro j; exact ha j
  · intro i
    show activation l'.f false (@vsum ℝ realTransc.toScalar (nin + 1) fun j => l'.w (σ i) j * setTail l'.x a' j) =
      activation l.f false (@vsum ℝ realTransc.toScalar (nin + 1) fun j => l.w i j * setTail l.x a j)
    rw [rvsum, rvsum, h.f]
    congr 1
    refine sum_renum τ _ _ ?_ ?_
    · show l'.w (σ i) 0 * l'.x 0 = l.w i 0 * l.x 0
      rw [h.w0, h.x0]
    · intro j
      show l'.w (σ i) (τ j).succ * a' (τ j) = l.w i j.succ * a j
      rw [h.w, ha]

theorem Hidden.Renum.predict {nin m : ℕ} {P : ℕ → ∀ m, Equiv.Perm (Fin m)} {L : ℕ} {h h' : Hidden ℝ nin m} (r : h.Renum P L h') (a : Vec ℝ nin) :
    (h.predict a).1.Renum P L (h'.predict a).1 ∧ ∀ i, (h'.predict a).2 (P L m i) = (h.predict a).2 i := by
  induction r with
  | one hl =>
    have := hl.predict (a := a) (a' := a) fun j => rfl
    exact ⟨.one this, this.y⟩
  | snoc hr hl ih =>
    have := hl.predict (a := (Hidden.predict _ a).2) (a' := (Hidden.predict _ a).2) ih.2
    exact ⟨.snoc ih.1 this, this.y⟩

theorem Net.Renum.predictV {P : ℕ → ∀ m, Equiv.Perm (Fin m)} {L : ℕ} {n n' : Net ℝ nin m p} (r : n.Renum P L n') (a : Vec ℝ nin) :
    (n.predictV a).1.Renum P L (n'.predictV a).1 ∧ (n'.predictV a).2 = (n.predictV a).2 := by
  obtain ⟨h1, h2⟩ := r.hidden.predict a
  have hy : (n'.predictV a).2 = (n.predictV a).2 := by
    funext k
    show @vsum ℝ realTransc.toScalar (m + 1) (fun j => n'.w k j * setTail n'.x (n'.hidden.predict a).2 j) =
      @vsum ℝ realTransc.toScalar (m + 1) (fun j => n.w k j * setTail n.x (n.hidden.predict a).2 j)
    rw [rvsum, rvsum]
    refine sum_renum (P L m) _ _ ?_ ?_
    · show n'.w k 0 * n'.x 0 = n.w k 0 * n.x 0
      rw [r.w0, r.x0]
    · intro j
      show n'.w k (P L m j).succ * (n'.hidden.predict a).2 (P L m j) = n.w k j.succ * (n.hidden.predict a).2 j
      rw [r.w, h2]
  exact ⟨⟨h1, r.mu, r.w0, r.w, r.x0, h2, hy⟩, hy⟩

theorem Layer.Renum.apply {τ : Equiv.Perm (Fin nin)} {σ : Equiv.Perm (Fin m)} {l l' : Layer ℝ nin m} (h : l.Renum τ σ l') {e e' : Vec ℝ m}
    (he : ∀ i, e' (σ i) = e i) : (l.apply e).Renum τ σ (l'.apply e') := by
  refine ⟨h.f, h.mu, h.x0, h.x, h.y, ?_, ?_⟩
  · intro i
    show l'.w (σ i) 0 + l'.mu * (e' (σ i) * l'.x 0) = l.w i 0 + l.mu * (e i * l.x 0)
    rw [h.w0, h.mu, he, h.x0]
  · intro i j
    show l'.w (σ i) (τ j).succ + l'.mu * (e' (σ i) * l'.x (τ j).succ) = l.w i j.succ + l.mu * (e i * l.x j.succ)
    rw [h.w, h.mu, he, h.x]

theorem Layer.Renum.errMat {τ : Equiv.Perm (Fin nin)} {σ : Equiv.Perm (Fin m)} {ρ : Equiv.Perm (Fin p)} {l l' : Layer ℝ nin m} (h : l.Renum τ σ l') {w w' : Mat ℝ p m}
    {e e' : Vec ℝ p} (hw : ∀ k i, w' (ρ k) (σ i) = w k i) (he : ∀ k, e' (ρ k) = e k) (i : Fin m) : l'.errMat w' e' (σ i) = l.errMat w e i := by
  show activation l'.f true (l'.y (σ i)) * (1 - l'.y (σ i)) * (@vsum ℝ realTransc.toScalar p fun k => e' k * w' k (σ i)) =
    activation l.f true (l.y i) * (1 - l.y i) * (@vsum ℝ realTransc.toScalar p fun k => e k * w k i)
  rw [rvsum, rvsum, h.f, h.y, ← Equiv.sum_comp ρ (fun k => e' k * w' k (σ i))]
  congr 1
  exact sum_congr rfl fun k _ => by rw [he, hw]

theorem Layer.Renum.errFlat {τ : Equiv.Perm (Fin nin)} {σ : Equiv.Perm (Fin m)} {l l' : Layer ℝ nin m} (h : l.Renum τ σ l') {w w' : Vec ℝ m}
    (e : ℝ) (hw : ∀ i, w' (σ i) = w i) (i : Fin m) : l'.errFlat w' e (σ i) = l.errFlat w e i := by
  show activation l'.f true (l'.y (σ i)) * e * w' (σ i) = activation l.f true (l.y i) * e * w i
  rw [h.f, h.y, hw]

theorem Hidden.Renum.updateMat {nin m : ℕ} {P : ℕ → ∀ m, Equiv.Perm (Fin m)} {L : ℕ} {h h' : Hidden ℝ nin m} (r : h.Renum P L h') {p : ℕ} {ρ : Equiv.Perm (Fin p)} {w w' : Mat ℝ p m}
    {e e' : Vec ℝ p} (hw : ∀ k i, w' (ρ k) (P L m i) = w k i) (he : ∀ k, e' (ρ k) = e k) : (h.updateMat w e).Renum P L (h'.updateMat w' e') := by
  induction r generalizing p with
  | one hl => exact .one (hl.apply (hl.errMat hw he))
  | snoc hr hl ih =>
    have h1 := hl.errMat hw he
    have h2 := hl.apply h1
    exact .snoc (ih h2.w h1) h2

theorem Hidden.Renum.updateFlat {nin m : ℕ} {P : ℕ → ∀ m, Equiv.Perm (Fin m)} {L : ℕ} {h h' : Hidden ℝ nin m} (r : h.Renum P L h') {w w' : Vec ℝ m}
    (e : ℝ) (hw : ∀ i, w' (P L m i) = w i) : (h.updateFlat w e).Renum P L (h'.updateFlat w' e) := by
  cases r with
  | one hl => exact .one (hl.apply (hl.errFlat e hw))
  | snoc hr hl =>
    have h1 := hl.errFlat e hw
    have h2 := hl.apply h1
    exact .snoc (hr.updateMat h2.w h1) h2

theorem Net.Renum.update {P : ℕ → ∀ m, Equiv.Perm (Fin m)} {L : ℕ} {n n' : Net ℝ nin m p} (r : n.Renum P L n') (d : Vec ℝ p) :
    (n.update d).1.Renum P L (n'.update d).1 ∧ (n'.update d).2 = (n.update d).2 := by
  have he : (n'.update d).2 = (n.update d).2 := by
    funext k
    show d k - n'.y k = d k - n.y k
    rw [r.y]
  refine ⟨⟨?_, r.mu, ?_, ?_, r.x0, r.x, r.y⟩, he⟩
  · unfold Net.update
    by_cases hp : p = 1
    · subst hp
      simp only [dif_pos, r.y]
      exact r.hidden.updateFlat _ fun i => r.w 0 i
    · simp only [hp, dif_neg, not_false_eq_true, r.y]
      exact r.hidden.updateMat (ρ := Equiv.refl _) (fun k i => r.w k i) (fun k => rfl)
  · intro k
    show n'.w k 0 + (if p = 1 then n'.mu * (d k - n'.y k) * n'.x 0 else n'.mu * ((d k - n'.y k) * n'.x 0)) =
      n.w k 0 + (if p = 1 then n.mu * (d k - n.y k) * n.x 0 else n.mu * ((d k - n.y k) * n.x 0))
    rw [r.w0, r.mu, r.x0, r.y]
  · intro k i
    show n'.w k (P L m i).succ + (if p = 1 then n'.mu * (d k - n'.y k) * n'.x (P L m i).succ else n'.mu * ((d k - n'.y k) * n'.x (P L m i).succ)) =
      n.w k i.succ + (if p = 1 then n.mu * (d k - n.y k) * n.x i.succ else n.mu * ((d k - n.y k) * n.x i.succ))
    rw [r.w, r.mu, r.x, r.y]

theorem Net.Renum.epoch {P : ℕ → ∀ m, Equiv.Perm (Fin m)} {L : ℕ} (data : List (Vec ℝ nin × Vec ℝ p)) : ∀ {n n' : Net ℝ nin m p}, n.Renum P L n' →
    (n.epoch data).1.Renum P L (n'.epoch data).1 ∧ (n'.epoch data).2 = (n.epoch data).2 := by
  induction data with
  | nil => intro n n' r; exact ⟨r, rfl⟩
  | cons q t ih =>
    intro n n' r
    obtain ⟨x, d⟩ := q
    have h1 := (r.predictV x).1.update d
    have h2 := ih h1.1
    refine ⟨h2.1, ?_⟩
    show (((n'.predictV x).1.update d).2 :: (((n'.predictV x).1.update d).1.epoch t).2) = _
    rw [h1.2, h2.2]
    rfl

theorem Net.Renum.trainLoop {P : ℕ → ∀ m, Equiv.Perm (Fin m)} {L : ℕ} (data : List (Vec ℝ nin × Vec ℝ p)) (k : ℕ) : ∀ {n n' : Net ℝ nin m p}, n.Renum P L n' →
    (n.trainLoop data k).1.Renum P L (n'.trainLoop data k).1 ∧ (n'.trainLoop data k).2 = (n.trainLoop data k).2 := by
  induction k with
  | zero => intro n n' r; exact ⟨r, rfl⟩
  | succ k ih =>
    intro n n' r
    have h1 := r.epoch data
    have h2 := ih h1.1
    refine ⟨h2.1, ?_⟩
    show ((n'.epoch data).2 ++ ((n'.epoch data).1.trainLoop data k).2.1, epochMse (n'.epoch data).2 :: ((n'.epoch data).1.trainLoop data k).2.2) = _
    rw [h1.2, h2.2]
    rfl

/-- C105: renumbering the hidden nodes (of any of the layers) changes no result of `predict` and `update`, and the networks stay renumberings of each other. -/
theorem C105_step {P : ℕ → ∀ m, Equiv.Perm (Fin m)} {L : ℕ} {n n' : Net ℝ nin m p} (r : n.Renum P L n') :
    (∀ x, (n.predict x).2.Renum P L (n'.predict x).2 ∧ (n'.predict x).1 = (n.predict x).1) ∧
    (∀ d, (n.update d).1.Renum P L (n'.update d).1 ∧ (n'.update d).2 = (n.update d).2) := by
  refine ⟨fun x => ?_, fun d => r.update d⟩
  unfold Net.predict
  cases bcastVec nin x with
  | error e => exact ⟨r, rfl⟩
  | ok v =>
    refine ⟨(r.predictV v).1, ?_⟩
    show Except.ok _ = Except.ok _
    rw [(r.predictV v).2]

/-- C105: the same for a whole training: same errors, same MSE (or the same exception). -/
theorem C105_train {P : ℕ → ∀ m, Equiv.Perm (Fin m)} {L : ℕ} {n n' : Net ℝ nin m p} (r : n.Renum P L n') (rand : List ℕ) (x : List (List ℝ)) (d : NArr ℝ) (epochs : ℕ) (shuffle : Bool) :
    (n.train rand x d epochs shuffle).2.Renum P L (n'.train rand x d epochs shuffle).2 ∧
      (n'.train rand x d epochs shuffle).1 = (n.train rand x d epochs shuffle).1 := by
  unfold Net.train
  cases mlpCheck nin p x d with
  | error e => exact ⟨r, rfl⟩
  | ok data =>
    have h := r.trainLoop (if shuffle then takeRows rand data else data) epochs
    refine ⟨h.1, ?_⟩
    show Except.ok ((n'.trainLoop _ epochs).2.1, (n'.trainLoop _ epochs).2.2) = Except.ok _
    rw [h.2]

/-- C105: and for `run` and `test`. -/
theorem C105_run_test {P : ℕ → ∀ m, Equiv.Perm (Fin m)} {L : ℕ} {n n' : Net ℝ nin m p} (r : n.Renum P L n') :
    (∀ x, (n'.run x).1 = (n.run x).1) ∧ (∀ x d, (n'.test x d).1 = (n.test x d).1) := by
  refine ⟨fun x => ?_, fun x d => ?_⟩
  · rw [C76_run, C76_run]
    have : (fun r => (n'.predict r).1) = fun r => (n.predict r).1 := by
      funext a; exact ((C105_step r).1 a).2
    rw [this]
  · unfold Net.test
    cases mlpCheck nin p x d with
    | error e => rfl
    | ok data =>
      show Except.ok _ = Except.ok _
      rw [(testLoop_eq _ data).2, (testLoop_eq _ data).2]
      have : ∀ a, (n'.predictV a).2 = (n.predictV a).2 := fun a => (r.predictV a).2
      simp only [this]

/-- C105: freshly constructed layers are renumberings of each other as soon as their weights are. -/
theorem C105_new {τ : Equiv.Perm (Fin nin)} {σ : Equiv.Perm (Fin m)} (w w' : Mat ℝ m (nin + 1)) (f : Act) (mu : ℝ) (h0 : ∀ i, w' (σ i) 0 = w i 0)
    (h : ∀ i j, w' (σ i) (τ j).succ = w i j.succ) : (mkLayer w f mu).Renum τ σ (mkLayer w' f mu) :=
  ⟨rfl, rfl, rfl, fun _ => rfl, fun _ => rfl, h0, h⟩

/-- Nodes `a` and `b` of layer `L` are twins in the weights `W` (one matrix per layer, the last one of the output layer; one row per node, bias first): they have the same
incoming weights, and every node of the next layer gives them the same weight. -/
def Twins (W : List (List (List ℝ))) (L a b : ℕ) : Prop :=
  (∃ M, W[L]? = some M ∧ ∃ r, M[a]? = some r ∧ M[b]? = some r) ∧ ∃ M, W[L + 1]? = some M ∧ ∀ r ∈ M, r[a + 1]? = r[b + 1]?

/-- exchanges nodes `a` and `b` in layer `L` -/
def swapIn (L a b : ℕ) (l m : ℕ) : Equiv.Perm (Fin m) :=
  if h : l = L ∧ a < m ∧ b < m then Equiv.swap ⟨a, h.2.1⟩ ⟨b, h.2.2⟩ else Equiv.refl _

theorem swapIn_ne {L a b l m : ℕ} (h : l ≠ L) : swapIn L a b l m = Equiv.refl _ := dif_neg fun h' => h h'.1

theorem swapIn_inv {β : Type} {L a b l m : ℕ} (g : Fin m → β) (h : l = L → ∀ (ha : a < m) (hb : b < m), g ⟨a, ha⟩ = g ⟨b, hb⟩) (i : Fin m) :
    g (swapIn L a b l m i) = g i := by
  unfold swapIn
  split
  · next h' =>
    have hg := h h'.1 h'.2.1 h'.2.2
    by_cases h1 : i = ⟨a, h'.2.1⟩
    · rw [h1, Equiv.swap_apply_left, hg]
    · by_cases h2 : i = ⟨b, h'.2.2⟩
      · rw [h2, Equiv.swap_apply_right, hg]
      · rw [Equiv.swap_apply_of_ne_of_ne h1 h2]
  · rfl

theorem swapIn_eq {β : Type} {L a b m : ℕ} (g : Fin m → β) (h : ∀ i, g (swapIn L a b L m i) = g i) (ha : a < m) (hb : b < m) : g ⟨a, ha⟩ = g ⟨b, hb⟩ := by
  have := h ⟨b, hb⟩
  unfold swapIn at this
  rwa [dif_pos ⟨rfl, ha, hb⟩, Equiv.swap_apply_right] at this

/-- rows `a` and `b` are equal -/
def RowTw (w : Mat ℝ m q) (a b : ℕ) : Prop := ∀ (ha : a < m) (hb : b < m), w ⟨a, ha⟩ = w ⟨b, hb⟩

/-- columns `a + 1` and `b + 1` are equal -/
def ColTw (w : Mat ℝ m (q + 1)) (a b : ℕ) : Prop := ∀ i, ∀ (ha : a < q) (hb : b < q), w i (Fin.succ ⟨a, ha⟩) = w i (Fin.succ ⟨b, hb⟩)

theorem rowTw_iff (w : Mat ℝ m q) (a b : ℕ) (ha : a < m) (hb : b < m) :
    (∃ r, (List.ofFn fun i => List.ofFn (w i))[a]? = some r ∧ (List.ofFn fun i => List.ofFn (w i))[b]? = some r) ↔ RowTw w a b := by
  simp only [List.getElem?_ofFn, ha, hb, dif_pos, Option.some.injEq]
  refine ⟨?_, fun h => ⟨_, rfl, by rw [h ha hb]⟩⟩
  rintro ⟨r, rfl, h⟩ _ _
  exact (List.ofFn_injective h).symm

theorem colTw_iff (w : Mat ℝ m (q + 1)) (a b : ℕ) (ha : a < q) (hb : b < q) :
    (∀ r ∈ (List.ofFn fun i => List.ofFn (w i)), r[a + 1]? = r[b + 1]?) ↔ ColTw w a b := by
  rw [List.forall_mem_ofFn_iff]
  simp only [List.getElem?_ofFn, Nat.add_lt_add_iff_right, ha, hb, dif_pos, Option.some.injEq]
  exact ⟨fun h i _ _ => h i, fun h i => h i ha hb⟩

/-- the layers `0 .. last` keep nodes `a`, `b` of layer `L` twins -/
def Hidden.Tw (L a b : ℕ) {nin m : ℕ} : Hidden ℝ nin m → Prop
  | .one l => L = 0 → RowTw l.w a b
  | .snoc h l => h.Tw L a b ∧ (L = h.last → ColTw l.w a b) ∧ (L = h.last + 1 → RowTw l.w a b)

theorem renum_self_iff {L a b : ℕ} {nin m : ℕ} (h : Hidden ℝ nin m) (hh : h.IsNew) (ht : h.Tw L a b) : h.Renum (swapIn L a b) h.last h := by
  induction h with
  | one l =>
    obtain ⟨w, f, mu, rfl⟩ := hh
    refine .one (C105_new w w f mu ?_ ?_)
    · exact fun i => swapIn_inv (fun i => w i 0) (fun h ha hb => congrFun (ht h.symm ha hb) 0) i
    · exact fun i j => swapIn_inv (fun i => w i j.succ) (fun h ha hb => congrFun (ht h.symm ha hb) j.succ) i
  | snoc h l ih =>
    obtain ⟨h1, w, f, mu, rfl⟩ := hh
    refine .snoc (ih h1 ht.1) (C105_new w w f mu ?_ ?_)
    · exact fun i => swapIn_inv (fun i => w i 0) (fun h ha hb => congrFun (ht.2.2 h.symm ha hb) 0) i
    · intro i j
      by_cases hL : L = h.last
      · rw [swapIn_ne (show h.last + 1 ≠ L by omega)]
        exact swapIn_inv (fun j => w i j.succ) (fun _ ha hb => ht.2.1 hL i ha hb) j
      · rw [swapIn_ne (show h.last ≠ L from fun h => hL h.symm)]
        exact swapIn_inv (fun i => w i j.succ) (fun h ha hb => congrFun (ht.2.2 h.symm ha hb) j.succ) i

theorem Layer.Renum.rows {L a b : ℕ} {τ : Equiv.Perm (Fin nin)} {l : Layer ℝ nin m} (hτ : τ = Equiv.refl _) (h : l.Renum τ (swapIn L a b L m) l) : RowTw l.w a b := by
  subst hτ
  intro ha hb
  funext j
  refine Fin.cases ?_ (fun j => ?_) j
  · exact swapIn_eq (fun i => l.w i 0) (fun i => h.w0 i) ha hb
  · exact swapIn_eq (fun i => l.w i j.succ) (fun i => h.w i j) ha hb

theorem Layer.Renum.cols {L a b : ℕ} {l : Layer ℝ nin m} (h : l.Renum (swapIn L a b L nin) (Equiv.refl _) l) : ColTw l.w a b :=
  fun i ha hb => swapIn_eq (fun j => l.w i j.succ) (fun j => h.w i j) ha hb

theorem tw_of_renum {L a b N : ℕ} {nin m : ℕ} {h h' : Hidden ℝ nin m} (r : h.Renum (swapIn L a b) N h') (e : h = h') : N = h.last ∧ h.Tw L a b := by
  induction r with
  | one hl =>
    obtain rfl := Hidden.one.inj e
    refine ⟨rfl, ?_⟩
    rintro rfl
    exact hl.rows rfl
  | snoc hr hl ih =>
    obtain ⟨-, e1, e2⟩ := Hidden.snoc.inj e
    obtain rfl := eq_of_heq e1
    obtain rfl := eq_of_heq e2
    obtain ⟨hN, ht⟩ := ih rfl
    refine ⟨congrArg (· + 1) hN, ht, ?_, ?_⟩
    · intro hL
      rw [← hN] at hL
      subst hL
      rw [swapIn_ne (Nat.succ_ne_self _)] at hl
      exact hl.cols
    · intro hL
      rw [← hN] at hL
      subst hL
      exact hl.rows (swapIn_ne (Nat.succ_ne_self _).symm)

/-- numbers of nodes of the hidden layers -/
def Hidden.dims {nin m : ℕ} : Hidden ℝ nin m → List ℕ
  | .one _ => [m]
  | @Hidden.snoc _ _ _ q h _ => h.dims ++ [q]

theorem Hidden.dims_length {nin m : ℕ} (h : Hidden ℝ nin m) : h.dims.length = h.last + 1 := by
  induction h with
  | one l => rfl
  | snoc h l ih => simp [Hidden.dims, Hidden.last, ih]

theorem Hidden.weights_length {nin m : ℕ} (h : Hidden ℝ nin m) : h.weights.length = h.last + 1 := by
  induction h with
  | one l => rfl
  | snoc h l ih => simp [Hidden.weights, Hidden.last, ih]

theorem Hidden.dims_last {nin m : ℕ} (h : Hidden ℝ nin m) : h.dims[h.last]? = some m := by
  cases h with
  | one l => rfl
  | snoc h l => simp [Hidden.dims, Hidden.last, ← h.dims_length]

theorem Hidden.tw_of_gt {nin m L a b : ℕ} (h : Hidden ℝ nin m) (hL : h.last < L) : h.Tw L a b := by
  induction h with
  | one l => exact fun h0 => absurd h0 (Nat.pos_iff_ne_zero.1 hL)
  | snoc h l ih =>
    have hL : h.last + 1 < L := hL
    exact ⟨ih (by omega), fun h => by omega, fun h => by omega⟩

theorem Hidden.tw_list {nin m L a b d : ℕ} (h : Hidden ℝ nin m) (hd : h.dims[L]? = some d) (ha : a < d) (hb : b < d) :
    h.Tw L a b ↔ (∃ M, h.weights[L]? = some M ∧ ∃ r, M[a]? = some r ∧ M[b]? = some r) ∧
      ∀ M, h.weights[L + 1]? = some M → ∀ r ∈ M, r[a + 1]? = r[b + 1]? := by
  induction h with
  | one l =>
    have hL : L = 0 := by
      by_contra h0
      rw [List.getElem?_eq_none (by simp [Hidden.dims]; omega)] at hd
      cases hd
    subst hL
    obtain rfl : _ = d := Option.some.inj hd
    show (0 = 0 → _) ↔ _
    rw [← rowTw_iff _ a b ha hb]
    refine ⟨fun h => ⟨⟨_, rfl, h rfl⟩, fun M hM => by simp [Hidden.weights] at hM⟩, ?_⟩
    rintro ⟨⟨M, hM, h⟩, -⟩ -
    obtain rfl := Option.some.inj hM
    exact h
  | snoc h l ih =>
    have hdl := h.dims_length
    have hwl := h.weights_length
    show (h.Tw L a b ∧ (L = h.last → ColTw l.w a b) ∧ (L = h.last + 1 → RowTw l.w a b)) ↔ _
    have hw : (Hidden.snoc h l).weights = h.weights ++ [List.ofFn fun i => List.ofFn (l.w i)] := rfl
    have hd' : (h.dims ++ [_])[L]? = some d := hd
    rcases lt_trichotomy L (h.last + 1) with hL | hL | hL
    · rw [List.getElem?_append_left (by omega)] at hd'
      rw [hw, List.getElem?_append_left (by omega), ih hd']
      by_cases hL' : L = h.last
      · subst hL'
        rw [h.dims_last] at hd'
        obtain rfl := Option.some.inj hd'
        rw [← colTw_iff l.w a b ha hb]
        constructor
        · rintro ⟨⟨h1, -⟩, h2, -⟩
          refine ⟨h1, fun M hM => ?_⟩
          rw [List.getElem?_append_right (by omega), hwl, Nat.sub_self] at hM
          obtain rfl := Option.some.inj hM
          exact h2 rfl
        · rintro ⟨h1, h2⟩
          refine ⟨⟨h1, fun M hM => ?_⟩, fun _ => h2 _ ?_, fun h => by omega⟩
          · rw [List.getElem?_eq_none (by omega)] at hM; cases hM
          · rw [List.getElem?_append_right (by omega), hwl, Nat.sub_self]; rfl
      · rw [List.getElem?_append_left (by omega)]
        exact ⟨fun h => h.1, fun h => ⟨h, fun h' => absurd h' hL', fun h' => by omega⟩⟩
    · subst hL
      rw [List.getElem?_append_right (by omega), hdl, Nat.sub_self] at hd'
      obtain rfl : _ = d := Option.some.inj hd'
      rw [hw, List.getElem?_append_right (by omega), hwl, Nat.sub_self, ← rowTw_iff l.w a b ha hb]
      constructor
      · rintro ⟨-, -, h2⟩
        exact ⟨⟨_, rfl, h2 rfl⟩, fun M hM => by rw [List.getElem?_eq_none (by simp; omega)] at hM; cases hM⟩
      · rintro ⟨⟨M, hM, h2⟩, -⟩
        obtain rfl := Option.some.inj hM
        exact ⟨h.tw_of_gt (by omega), fun h => by omega, fun _ => h2⟩
    · rw [List.getElem?_eq_none (by simp; omega)] at hd'
      cases hd'

theorem Net.twins_list {L a b d : ℕ} (n : Net ℝ nin m p) (hd : n.hidden.dims[L]? = some d) (ha : a < d) (hb : b < d) :
    Twins n.weights L a b ↔ n.hidden.Tw L a b ∧ (L = n.hidden.last → ColTw n.w a b) := by
  have hdl := n.hidden.dims_length
  have hwl := n.hidden.weights_length
  have hL : L < n.hidden.last + 1 := by
    by_contra h
    rw [List.getElem?_eq_none (by omega)] at hd
    cases hd
  rw [n.hidden.tw_list hd ha hb]
  unfold Twins Net.weights
  rw [List.getElem?_append_left (by omega)]
  by_cases hL' : L = n.hidden.last
  · subst hL'
    rw [n.hidden.dims_last] at hd
    obtain rfl := Option.some.inj hd
    rw [← colTw_iff n.w a b ha hb, List.getElem?_append_right (by omega), hwl, Nat.sub_self]
    constructor
    · rintro ⟨h1, M, hM, h2⟩
      obtain rfl := Option.some.inj hM
      exact ⟨⟨h1, fun M hM => by rw [List.getElem?_eq_none (by omega)] at hM; cases hM⟩, fun _ => h2⟩
    · rintro ⟨⟨h1, -⟩, h2⟩
      exact ⟨h1, _, rfl, h2 rfl⟩
  · rw [List.getElem?_append_left (by omega)]
    constructor
    · rintro ⟨h1, M, hM, h2⟩
      refine ⟨⟨h1, fun M' hM' => ?_⟩, fun h => absurd h hL'⟩
      rw [hM] at hM'
      obtain rfl := Option.some.inj hM'
      exact h2
    · rintro ⟨⟨h1, h2⟩, -⟩
      refine ⟨h1, _, List.getElem?_eq_getElem (by omega), h2 _ (List.getElem?_eq_getElem (by omega))⟩

/-- twins have numbers below the size of their layer -/
theorem Twins.range {L a b : ℕ} {n : Net ℝ nin m p} (h : Twins n.weights L a b) : ∃ d, n.hidden.dims[L]? = some d ∧ a < d ∧ b < d := by
  obtain ⟨⟨M, hM, r, h1, h2⟩, M', hM', -⟩ := h
  have hL : L < n.hidden.last + 1 := by
    by_contra hc
    rw [List.getElem?_eq_none (by simp [Net.weights, n.hidden.weights_length]; omega)] at hM'
    cases hM'
  unfold Net.weights at hM
  rw [List.getElem?_append_left (by rw [n.hidden.weights_length]; exact hL)] at hM
  have key : ∀ {nin m : ℕ} (h : Hidden ℝ nin m) (L : ℕ) (M : List (List ℝ)), h.weights[L]? = some M → h.dims[L]? = some M.length := by
    intro nin m h
    induction h with
    | one l =>
      intro L M hM
      cases L with
      | zero => obtain rfl := Option.some.inj hM; simp [Hidden.dims]
      | succ L => simp [Hidden.weights] at hM
    | snoc h l ih =>
      intro L M hM
      have hM' : (h.weights ++ [List.ofFn fun i => List.ofFn (l.w i)])[L]? = some M := hM
      show (h.dims ++ [_])[L]? = _
      rw [List.getElem?_append] at hM' ⊢
      rw [h.dims_length]
      rw [h.weights_length] at hM'
      split at hM'
      · next hlt => rw [if_pos hlt]; exact ih L M hM'
      · next hlt =>
        rw [if_neg hlt]
        rw [List.getElem?_singleton] at hM' ⊢
        split at hM'
        · next h0 => rw [if_pos h0]; obtain rfl := Option.some.inj hM'; simp
        · cases hM'
  refine ⟨M.length, key _ _ _ hM, ?_, ?_⟩
  · exact (List.getElem?_eq_some_iff.1 h1).1
  · exact (List.getElem?_eq_some_iff.1 h2).1

theorem dims_predict {nin m : ℕ} (h : Hidden ℝ nin m) (a : Vec ℝ nin) : (h.predict a).1.dims = h.dims ∧ (h.predict a).1.last = h.last := by
  induction h with
  | one l => exact ⟨rfl, rfl⟩
  | snoc h l ih =>
    obtain ⟨h1, h2⟩ := ih
    exact ⟨congrArg (· ++ [_]) h1, congrArg (· + 1) h2⟩

theorem dims_updateMat {nin m : ℕ} (h : Hidden ℝ nin m) : ∀ {p : ℕ} (w : Mat ℝ p m) (e : Vec ℝ p), (h.updateMat w e).dims = h.dims ∧ (h.updateMat w e).last = h.last := by
  induction h with
  | one l => exact fun w e => ⟨rfl, rfl⟩
  | snoc h l ih =>
    intro p w e
    obtain ⟨h1, h2⟩ := ih (dropBias (l.apply (l.errMat w e)).w) (l.errMat w e)
    exact ⟨congrArg (· ++ [_]) h1, congrArg (· + 1) h2⟩

theorem dims_step (n : Net ℝ nin m p) (x : Vec ℝ nin) (d : Vec ℝ p) :
    ((n.predictV x).1.update d).1.hidden.dims = n.hidden.dims ∧ ((n.predictV x).1.update d).1.hidden.last = n.hidden.last := by
  have h0 := dims_predict n.hidden x
  obtain ⟨h1, e1⟩ : ∃ h1, h1 = (n.predictV x).1.hidden := ⟨_, rfl⟩
  have h0' : h1.dims = n.hidden.dims ∧ h1.last = n.hidden.last := e1 ▸ h0
  unfold Net.update
  by_cases hp : p = 1
  · subst hp
    simp only [dif_pos, ← e1]
    cases h1 with
    | one l => exact h0'
    | snoc h l =>
      rw [← h0'.1, ← h0'.2]
      obtain ⟨h2, h3⟩ := dims_updateMat h (dropBias (l.apply (l.errFlat _ _)).w) (l.errFlat _ _)
      exact ⟨congrArg (· ++ [_]) h2, congrArg (· + 1) h3⟩
  · simp only [hp, dif_neg, not_false_eq_true, ← e1]
    rw [← h0'.1, ← h0'.2]
    exact dims_updateMat _ _ _

theorem dims_epoch (data : List (Vec ℝ nin × Vec ℝ p)) : ∀ n : Net ℝ nin m p,
    (n.epoch data).1.hidden.dims = n.hidden.dims ∧ (n.epoch data).1.hidden.last = n.hidden.last := by
  induction data with
  | nil => exact fun n => ⟨rfl, rfl⟩
  | cons q t ih =>
    intro n
    obtain ⟨h1, h2⟩ := ih ((n.predictV q.1).1.update q.2).1
    obtain ⟨h3, h4⟩ := dims_step n q.1 q.2
    exact ⟨h1.trans h3, h2.trans h4⟩

theorem dims_trainLoop (data : List (Vec ℝ nin × Vec ℝ p)) (k : ℕ) : ∀ n : Net ℝ nin m p,
    (n.trainLoop data k).1.hidden.dims = n.hidden.dims ∧ (n.trainLoop data k).1.hidden.last = n.hidden.last := by
  induction k with
  | zero => exact fun n => ⟨rfl, rfl⟩
  | succ k ih =>
    intro n
    obtain ⟨h1, h2⟩ := ih (n.epoch data).1
    obtain ⟨h3, h4⟩ := dims_epoch data n
    exact ⟨h1.trans h3, h2.trans h4⟩

/-- C105: twin nodes.  If two nodes `a`, `b` of hidden layer `L` of a new network start with the same weights and have the same weights in every node of the next layer (or
in every output), the same holds after any training: a network constructed with equal weights can never learn to tell its nodes apart. -/
theorem C105_twins (h : Hidden ℝ nin m) (hh : h.IsNew) (v : Mat ℝ p (m + 1)) (mu : ℝ) (L a b : ℕ) (ht : Twins (mkNet h v mu).weights L a b)
    (rand : List ℕ) (x : List (List ℝ)) (d : NArr ℝ) (epochs : ℕ) (shuffle : Bool) :
    Twins ((mkNet h v mu).train rand x d epochs shuffle).2.weights L a b := by
  obtain ⟨s, hs, ha, hb⟩ := ht.range
  obtain ⟨t1, t2⟩ := ((mkNet h v mu).twins_list hs ha hb).1 ht
  have r0 : (mkNet h v mu).Renum (swapIn L a b) h.last (mkNet h v mu) :=
    ⟨renum_self_iff h hh t1, rfl, fun _ => rfl,
      fun k i => swapIn_inv (fun i => v k i.succ) (fun hL ha hb => t2 hL.symm k ha hb) i, rfl, fun _ => rfl, rfl⟩
  have r1 := (C105_train r0 rand x d epochs shuffle).1
  have hdim : ((mkNet h v mu).train rand x d epochs shuffle).2.hidden.dims = h.dims ∧ ((mkNet h v mu).train rand x d epochs shuffle).2.hidden.last = h.last := by
    unfold Net.train
    cases mlpCheck nin p x d with
    | error e => exact ⟨rfl, rfl⟩
    | ok data => exact dims_trainLoop _ _ _
  refine (Net.twins_list _ (by rw [hdim.1]; exact hs) ha hb).2 ⟨(tw_of_renum r1.hidden rfl).2, ?_⟩
  intro hL k ha hb
  have hw := r1.w k
  rw [← hdim.2, ← hL] at hw
  exact swapIn_eq (fun i : Fin m => ((mkNet h v mu).train rand x d epochs shuffle).2.w k i.succ) (fun i => hw i) ha hb

/-- not vacuous: the two nodes of the first of two hidden layers start as twins -/
example : Twins (mkNet (.snoc (.one (mkLayer ![![1, 2], ![1, 2]] .sigmoid 1)) (mkLayer ![![5, 6, 6], ![3, 4, 4]] .sigmoid 1)) (fun _ : Fin 1 => ![8, 9, 7]) 1 : Net ℝ 1 2 1).weights 0 0 1 := by
  refine ⟨⟨_, rfl, [1, 2], by simp [mkLayer], by simp [mkLayer]⟩, _, rfl, ?_⟩
  intro r hr
  simp [mkLayer] at hr
  rcases hr with rfl | rfl <;> rfl

/-- not vacuous: two layers; the nodes of the first are exchanged -/
example : (mkNet (.snoc (.one (mkLayer ![![1, 2], ![3, 4]] .sigmoid 1)) (mkLayer ![![5, 6, 7]] .sigmoid 1)) (fun _ : Fin 1 => ![8, 9]) 1 : Net ℝ 1 1 1).Renum
    (fun l m => if h : l = 0 ∧ 2 ≤ m then Equiv.swap ⟨0, by omega⟩ ⟨1, by omega⟩ else Equiv.refl _) 1
    (mkNet (.snoc (.one (mkLayer ![![3, 4], ![1, 2]] .sigmoid 1)) (mkLayer ![![5, 7, 6]] .sigmoid 1)) (fun _ : Fin 1 => ![8, 9]) 1) := by
  refine ⟨.snoc (.one (C105_new _ _ _ _ ?_ ?_)) (C105_new _ _ _ _ ?_ ?_), rfl, fun _ => rfl, fun _ _ => rfl, rfl, fun _ => rfl, rfl⟩
  · intro i; fin_cases i <;> rfl
  · intro i j; fin_cases i <;> fin_cases j <;> rfl
  · intro i; fin_cases i; rfl
  · intro i j; fin_cases i; fin_cases j <;> rfl

end Padasip
