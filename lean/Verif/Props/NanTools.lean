import Verif.Props.Nan
import Verif.Props.Elbnd
import Verif.Props.Ese
import Verif.Model.Misc

/-!
# C125: NaN in the detection tools, the error measures and `standardize`
-/

set_option linter.unusedSectionVars false
set_option linter.unusedSimpArgs false
set_option linter.unusedVariables false

namespace Padasip

/-- What the functions below need besides `NanLaws`: the unary functions propagate a NaN, a comparison with a NaN is false, `isnan` recognises NaN. -/
structure NanCmp {K : Type} [Transc K] (nan : K → Prop) : Prop extends NanLaws nan where
  neg : ∀ a, nan (-a) ↔ nan a
  abs : ∀ a, nan a → nan (Scalar.abs a)
  exp : ∀ a, nan a → nan (Transc.exp a)
  sqrt : ∀ a, nan a → nan (Transc.sqrt a)
  log10 : ∀ a, nan a → nan (Transc.log10 a)
  lt_left : ∀ a b, nan a → Scalar.lt a b = false
  lt_right : ∀ a b, nan b → Scalar.lt a b = false
  isnan : ∀ a, Scalar.isnan a = true ↔ nan a

/-- the rationals with a NaN satisfy the laws -/
theorem NanRat.cmp : NanCmp (fun a : NanRat => a = none) where
  toNanLaws := NanRat.laws
  neg a := by cases a <;> simp [Neg.neg, NanRat.lift1]
  abs a h := by subst h; rfl
  exp a h := h
  sqrt a h := h
  log10 a h := h
  lt_left a b h := by subst h; rfl
  lt_right a b h := by subst h; cases a <;> rfl
  isnan a := by
    cases a
    · exact ⟨fun _ => rfl, fun _ => rfl⟩
    · exact ⟨(fun h => by cases h), (fun h => by cases h)⟩

section
variable {K : Type} [Transc K] {nan : K → Prop} {n : ℕ}

theorem nan_sum (L : NanLaws nan) {l : List K} (h : ∃ a ∈ l, nan a) : nan l.sum := by
  induction l with
  | nil => obtain ⟨a, ha, -⟩ := h; cases ha
  | cons b t ih =>
    rw [List.sum_cons]
    obtain ⟨a, ha, hn⟩ := h
    rcases List.mem_cons.1 ha with rfl | ha
    · exact L.add_left _ _ hn
    · exact L.add_right _ _ (ih ⟨a, ha, hn⟩)

theorem nan_meanL (L : NanLaws nan) {l : List K} (h : ∃ a ∈ l, nan a) : nan (meanL l) := L.div_left _ _ (nan_sum L h)

theorem nan_stdL (L : NanCmp nan) {l : List K} (h : ∃ a ∈ l, nan a) : nan (stdL l) := by
  refine L.sqrt _ (nan_meanL L.toNanLaws ?_)
  obtain ⟨a, ha, hn⟩ := h
  exact ⟨_, List.mem_map.2 ⟨a, ha, rfl⟩, L.mul_left _ _ (L.sub_left _ _ hn)⟩

/-! ## Error measures -/

theorem nan_zip (L : NanLaws nan) {x1 x2 : List K} (hl : x1.length = x2.length) (k : ℕ) (h1 : k < x1.length) (h2 : k < x2.length) (hn : nan x1[k] ∨ nan x2[k]) :
    ∃ hk : k < (List.zipWith (· - ·) x1 x2).length, nan (List.zipWith (· - ·) x1 x2)[k] := by
  refine ⟨by simp [h1, h2], ?_⟩
  rw [List.getElem_zipWith]
  exact hn.elim (L.sub_left _ _) (L.sub_right _ _)

/-- C125 (error measures): if one of two series of the same length contains a NaN, then MAE, MSE and RMSE are NaN, and so is the value of logSE at that sample. -/
theorem C125_metrics (L : NanCmp nan) {x1 x2 : List K} (hl : x1.length = x2.length) (k : ℕ) (h1 : k < x1.length) (h2 : k < x2.length) (hn : nan x1[k] ∨ nan x2[k]) :
    (∀ f, f = "MSE" ∨ f = "MAE" ∨ f = "RMSE" → ∃ v, getMeanError x1 (some x2) f = .ok v ∧ nan v) ∧
    ∃ l, logSE x1 (some x2) = .ok l ∧ l.length = x1.length ∧ ∀ hk : k < l.length, nan l[k] := by
  obtain ⟨hk, hz⟩ := nan_zip L.toNanLaws hl k h1 h2 hn
  have hv : getValidError x1 (some x2) = .ok (List.zipWith (· - ·) x1 x2) := by
    unfold getValidError
    dsimp only
    rw [if_neg (not_not.2 hl)]
  have hm := List.getElem_mem hk
  have hd : nan (dotSelf (List.zipWith (· - ·) x1 x2)) :=
    nan_sum L.toNanLaws ⟨_, List.mem_map.2 ⟨_, hm, rfl⟩, L.mul_left _ _ hz⟩
  constructor
  · rintro f (rfl | rfl | rfl)
    · exact ⟨_, by rw [getMeanError, if_pos rfl, MSE, hv], L.div_left _ _ hd⟩
    · exact ⟨_, by rw [getMeanError, if_neg (by decide), if_pos rfl, MAE, hv], L.div_left _ _ (nan_sum L.toNanLaws ⟨_, List.mem_map.2 ⟨_, hm, rfl⟩, L.abs _ hz⟩)⟩
    · exact ⟨_, by rw [getMeanError, if_neg (by decide), if_neg (by decide), if_pos rfl, RMSE, hv], L.sqrt _ (L.div_left _ _ hd)⟩
  · refine ⟨_, by rw [logSE, hv], by simp [hl], fun hk' => ?_⟩
    rw [List.getElem_map]
    exact L.mul_right _ _ (L.log10 _ (L.mul_left _ _ hz))

/-- C125 (error measures of one series) -/
theorem C125_metrics_one (L : NanCmp nan) {x1 : List K} (k : ℕ) (h1 : k < x1.length) (hn : nan x1[k]) :
    (∀ f, f = "MSE" ∨ f = "MAE" ∨ f = "RMSE" → ∃ v, getMeanError x1 none f = .ok v ∧ nan v) ∧
    ∃ l, logSE x1 none = .ok l ∧ l.length = x1.length ∧ ∀ hk : k < l.length, nan l[k] := by
  have hm := List.getElem_mem h1
  have hd : nan (dotSelf x1) := nan_sum L.toNanLaws ⟨_, List.mem_map.2 ⟨_, hm, rfl⟩, L.mul_left _ _ hn⟩
  constructor
  · rintro f (rfl | rfl | rfl)
    · exact ⟨_, by rw [getMeanError, if_pos rfl, MSE]; rfl, L.div_left _ _ hd⟩
    · exact ⟨_, by rw [getMeanError, if_neg (by decide), if_pos rfl, MAE]; rfl, L.div_left _ _ (nan_sum L.toNanLaws ⟨_, List.mem_map.2 ⟨_, hm, rfl⟩, L.abs _ hn⟩)⟩
    · exact ⟨_, by rw [getMeanError, if_neg (by decide), if_neg (by decide), if_pos rfl, RMSE]; rfl, L.sqrt _ (L.div_left _ _ hd)⟩
  · refine ⟨_, by rw [logSE]; rfl, by simp, fun hk' => ?_⟩
    rw [List.getElem_map]
    exact L.mul_right _ _ (L.log10 _ (L.mul_left _ _ hn))

/-- C125 (`standardize`): one NaN in the series makes every value of the result a NaN when the offset or the scale is estimated from the series;
with both given it stays where it is. -/
theorem C125_standardize (L : NanCmp nan) (x : List K) (offset scale : Option K) (h : ∃ a ∈ x, nan a) :
    (standardize x offset scale).length = x.length ∧
    (offset = none ∨ scale = none → ∀ v ∈ standardize x offset scale, nan v) ∧
    ∀ k (hk : k < x.length) (hk' : k < (standardize x offset scale).length), nan x[k] → nan (standardize x offset scale)[k] := by
  refine ⟨by simp [standardize], ?_, ?_⟩
  · rintro hos v hv
    obtain ⟨a, -, rfl⟩ := List.mem_map.1 hv
    rcases hos with rfl | rfl
    · exact L.div_left _ _ (L.sub_right _ _ (nan_meanL L.toNanLaws h))
    · exact L.div_right _ _ (nan_stdL L h)
  · intro k hk hk' hn
    simp only [standardize, List.getElem_map]
    exact L.div_left _ _ (L.sub_left _ _ hn)

/-! ## ELBND -/

theorem smax_nan (L : NanCmp nan) (a b : K) (h : nan a ∨ nan b) : nan (smax a b) := by
  unfold smax
  by_cases ha : nan a
  · rw [(L.isnan a).2 ha, Bool.true_or, if_pos rfl]; exact ha
  · have hb := h.resolve_left ha
    have ha' : Scalar.isnan a = false := by
      rcases hh : Scalar.isnan a with _ | _
      · rfl
      · exact absurd ((L.isnan a).1 hh) ha
    rw [ha', (L.isnan b).2 hb, Bool.or_true]
    simpa using hb

theorem foldl_smax_nan (L : NanCmp nan) (t : List K) (a : K) (h : nan a ∨ ∃ b ∈ t, nan b) : nan (t.foldl smax a) := by
  induction t generalizing a with
  | nil => exact h.resolve_right (by simp)
  | cons b t ih =>
    rw [List.foldl_cons]
    apply ih
    rcases h with h | ⟨c, hc, hn⟩
    · exact Or.inl (smax_nan L a b (Or.inl h))
    · rcases List.mem_cons.1 hc with rfl | hc
      · exact Or.inl (smax_nan L a c (Or.inr hn))
      · exact Or.inr ⟨c, hc, hn⟩

/-- C125 (ELBND): for `len(e) = len(w)`, with "max" and with "sum", the value of sample `k` is a NaN when `e[k]` is one, and (except for the last sample) when a weight
of sample `k` or `k+1` is one. -/
theorem C125_elbnd (L : NanCmp nan) (w : List (Vec K n)) (e : List K) (f : String) (hf : f = "max" ∨ f = "sum") (h : e.length = w.length) (hn : 0 < n) :
    ∃ l, elbnd w e f = .ok l ∧ l.length = w.length ∧
      ∀ k (hk : k < w.length) (he : k < e.length) (hl : k < l.length),
        (nan e[k] ∨ ∃ (h1 : k + 1 < w.length) (i : Fin n), nan (w[k] i) ∨ nan (w[k + 1] i)) → nan l[k] := by
  have hp : elbndProd (elbndDw w) e = .ok (List.zipWith (fun r b i => r i * b) (elbndDw w) e) := elbndProd_same _ _ (by rw [elbndDw_length, h])
  set p := List.zipWith (fun (r : Vec K n) b i => r i * b) (elbndDw w) e with hpdef
  have hpl : p.length = w.length := by simp [hpdef, elbndDw_length, h]
  -- the entries of a row of the product
  have key : ∀ k (hk : k < w.length) (he : k < e.length) (hl : k < p.length),
      (nan e[k] ∨ ∃ (h1 : k + 1 < w.length) (i : Fin n), nan (w[k] i) ∨ nan (w[k + 1] i)) → ∃ i, nan (absRow p[k] i) := by
    intro k hk he hl hnan
    have e1 : ∀ i, absRow p[k] i = Scalar.abs ((if h : k + 1 < w.length then Scalar.abs (w[k + 1] i - w[k] i) else 0) * e[k]) := by
      intro i
      rw [← elbndDw_get w k hk i]
      unfold absRow
      rw [List.getElem_of_eq hpdef, List.getElem_zipWith]
    rcases hnan with hnan | ⟨h1, i, hi⟩
    · exact ⟨⟨0, hn⟩, by rw [e1]; exact L.abs _ (L.mul_right _ _ hnan)⟩
    · refine ⟨i, ?_⟩
      rw [e1, dif_pos h1]
      exact L.abs _ (L.mul_left _ _ (L.abs _ (hi.elim (L.sub_right _ _) (L.sub_left _ _))))
  rw [elbnd_unfold w e f hf, hp]
  dsimp only
  rcases hf with rfl | rfl
  · rw [if_pos rfl, rowMax, if_neg (by rintro ⟨h0, -⟩; omega)]
    refine ⟨_, rfl, by simp [hpl], fun k hk he hl hnan => ?_⟩
    obtain ⟨i, hi⟩ := key k hk he (by rw [hpl]; exact hk) hnan
    simp only [List.getElem_map]
    have hm : absRow p[k] i ∈ List.ofFn (absRow p[k]) := List.mem_ofFn.2 ⟨i, rfl⟩
    split
    · rename_i h0; rw [h0] at hm; cases hm
    · rename_i a t h0
      rw [h0] at hm
      refine foldl_smax_nan L _ _ ?_
      rcases List.mem_cons.1 hm with h2 | h2
      · exact Or.inl (h2 ▸ hi)
      · exact Or.inr ⟨_, h2, hi⟩
  · rw [if_neg (by decide)]
    refine ⟨_, rfl, by simp [hpl], fun k hk he hl hnan => ?_⟩
    simp only [List.getElem_map]
    exact nan_vsum L.toNanLaws (key k hk he (by rw [hpl]; exact hk) hnan)

/-! ## Learning entropy -/

theorem nan_incr (L : NanLaws nan) {f : ℕ → K} (p k j : ℕ) (hp : p ≤ k) (h1 : k - p ≤ j) (h2 : j ≤ k) (h : nan (f j)) : nan (incr f p k) := by
  induction p generalizing k with
  | zero => rw [show j = k by omega] at h; exact h
  | succ p ih =>
    show nan (incr f p k - incr f p (k - 1))
    by_cases hj : k - p ≤ j
    · exact L.sub_left _ _ (ih k (by omega) hj h2)
    · exact L.sub_right _ _ (ih (k - 1) (by omega) (by omega) (by omega))

/-- weight `i` has a NaN among the rows that the value of sample `k` is computed from: rows `k-m .. k`, and after the start (`k >= m + order`) rows `k-m-order .. k` -/
def NanSeen (nan : K → Prop) (w : List (Vec K n)) (m order k : ℕ) (i : Fin n) : Prop :=
  ∃ j, j ≤ k ∧ (k ≤ j + m ∨ (m + order ≤ k ∧ k ≤ j + m + order)) ∧ nan (histAt w j i)

theorem nan_leInc (L : NanCmp nan) (w : List (Vec K n)) (order t j : ℕ) (i : Fin n) (h1 : j ≤ t) (h2 : j = t ∨ (order ≤ t ∧ t ≤ j + order)) (h : nan (histAt w j i)) :
    nan (leInc order w t i) := by
  unfold leInc
  split
  · rename_i hlt
    rcases h2 with rfl | h2
    · exact h
    · omega
  · refine L.abs _ (nan_incr L.toNanLaws order t j (by omega) ?_ h1 h)
    rcases h2 with rfl | h2 <;> omega

theorem nanSeen_cases (L : NanCmp nan) (w : List (Vec K n)) (m order k : ℕ) (hm : m ≤ k) (i : Fin n) (h : NanSeen nan w m order k i) :
    nan (leInc order w k i) ∨ ∃ a ∈ lePast m order w k i, nan a := by
  obtain ⟨j, hj, hc, hn⟩ := h
  by_cases hk : j = k
  · exact Or.inl (nan_leInc L w order k j i hj (Or.inl hk) hn)
  · by_cases hw : k ≤ j + m
    · refine Or.inr ⟨leInc order w j i, List.mem_map.2 ⟨j - (k - m), List.mem_range.2 (by omega), ?_⟩, nan_leInc L w order j j i le_rfl (Or.inl rfl) hn⟩
      congr 1
      omega
    · obtain ⟨h1, h2⟩ := hc.resolve_left hw
      -- the increment at `k - m` (or at `k` itself when `m = 0`) contains row `j`
      have hn' : nan (leInc order w (k - m) i) := nan_leInc L w order (k - m) j i (by omega) (Or.inr ⟨by omega, by omega⟩) hn
      rcases Nat.eq_zero_or_pos m with rfl | hpos
      · exact Or.inl hn'
      · exact Or.inr ⟨_, List.mem_map.2 ⟨0, List.mem_range.2 hpos, rfl⟩, by simpa using hn'⟩

/-- C125 (learning entropy, multiscale): a weight with a NaN among the rows that the value of sample `k` is computed from never counts as unusual.
So when this holds for every weight - for all samples after a filter has diverged (C38), and for the `m + order` samples after a single NaN row -
the value is `0 / (n * len(alphas))`: the detector is silent. -/
theorem C125_le_multiscale (L : NanCmp nan) (w : List (Vec K n)) (m order k : ℕ) (alphas : List K) (hm : m ≤ k) (hk : k < w.length) :
    ∃ c : K → Fin n → Bool, (∀ a i, NanSeen nan w m order k i → c a i = false) ∧
      (leMulti w m order alphas)[k]? = some (Scalar.nat (alphas.map fun a => ((List.finRange n).filter fun i => c a i).length).sum / Scalar.nat (n * alphas.length)) := by
  refine ⟨fun a i => Scalar.lt (meanL (lePast m order w k i) * a) (leInc order w k i), fun a i h => ?_, ?_⟩
  · rcases nanSeen_cases L w m order k hm i h with h | h
    · exact L.lt_right _ _ h
    · exact L.lt_left _ _ (L.mul_left _ _ (nan_meanL L.toNanLaws h))
  · rw [leMulti_eq, getElem?_rangeMap, if_pos hk, if_neg (by omega)]
    rfl

theorem C125_le_silent (L : NanCmp nan) (w : List (Vec K n)) (m order k : ℕ) (alphas : List K) (hm : m ≤ k) (hk : k < w.length) (h : ∀ i, NanSeen nan w m order k i) :
    (leMulti w m order alphas)[k]? = some (Scalar.nat 0 / Scalar.nat (n * alphas.length)) := by
  obtain ⟨c, hc, hv⟩ := C125_le_multiscale L w m order k alphas hm hk
  rw [hv]
  have : (alphas.map fun a => ((List.finRange n).filter fun i => c a i).length).sum = 0 := by
    apply List.sum_eq_zero
    intro v hv
    obtain ⟨a, -, rfl⟩ := List.mem_map.1 hv
    simp [hc a _ (h _)]
  rw [this]

/-- C125 (learning entropy, direct): the value of a weight with a NaN among the rows that sample `k` is computed from is a NaN. -/
theorem C125_le_direct (L : NanCmp nan) (w : List (Vec K n)) (m order k : ℕ) (hm : m ≤ k) (hk : k < w.length) (i : Fin n) (h : NanSeen nan w m order k i) :
    ∃ row : Vec K n, (leDirect w m order)[k]? = some row ∧ nan (row i) := by
  rw [leDirect_eq, getElem?_rangeMap, if_pos hk]
  refine ⟨_, rfl, ?_⟩
  rw [if_neg (show ¬ k < m by omega)]
  rcases nanSeen_cases L w m order k hm i h with h | h
  · exact L.div_left _ _ (L.sub_left _ _ h)
  · exact L.div_left _ _ (L.sub_right _ _ (nan_meanL L.toNanLaws h))

/-! ## ESE -/

/-- C125 (ESE): a weight whose increment at sample `k` is a NaN is not surprising (its probability is 1): when this holds for every weight, as it does for all samples after
a filter has diverged, the value of the sample is `-log10` of a product of ones. -/
theorem C125_ese_silent (L : NanCmp nan) (env : EseEnv K) (w : List (Vec K n)) (window k : ℕ) (method : String) {l : List K} {v : K}
    (hl : ese env w window method = .ok l) (hk : window ≤ k) (hk0 : 1 ≤ k) (hv : l[k]? = some v) (h : ∀ i, nan (histAt w k i) ∨ nan (histAt w (k - 1) i)) :
    v = -Transc.log10 (List.replicate n (1 : K)).prod := by
  obtain ⟨-, -, -, h4⟩ := (ese_ok_iff env w window method l).1 hl
  have h5 := h4 k v hk hv
  unfold eseAt at h5
  have hcur : ∀ j, nan (leInc 1 w k j) := fun j => (h j).elim (fun hn => nan_leInc L w 1 k k j le_rfl (Or.inl rfl) hn)
    fun hn => nan_leInc L w 1 k (k - 1) j (by omega) (Or.inr ⟨hk0, by omega⟩) hn
  have hone : ∀ j b, eseEntry env method (lePast window 1 w k j) (leInc 1 w k j) = .ok b → b = 1 := by
    intro j b hb
    unfold eseEntry at hb
    split at hb
    · cases hb
    · split at hb
      · cases hb
      · rw [if_neg (by rw [L.lt_right _ _ (hcur j)]; simp)] at hb
        exact (Except.ok.inj hb).symm
  rcases hm : (List.finRange n).mapM fun j => eseEntry env method (lePast window 1 w k j) (leInc 1 w k j) with e | r
  · rw [hm] at h5; cases h5
  · rw [hm] at h5
    have hf := (mapM_ok_iff _ _ _).1 hm
    have hr : r = List.replicate n 1 := by
      rw [List.eq_replicate_iff]
      refine ⟨by rw [← hf.length_eq, List.length_finRange], fun b hb => ?_⟩
      obtain ⟨t, ht, rfl⟩ := List.getElem_of_mem hb
      have := (List.forall₂_iff_get.1 hf).2 t (by rw [hf.length_eq]; exact ht) ht
      exact hone _ _ this
    rw [← hr]
    exact (Except.ok.inj h5).symm

theorem pot_nonempty {env : EseEnv K} (hb : PotBounds env) (data : List K) (hd : data ≠ []) (method : String) (hm : method ∈ ["10%", "35%", "sqrt", "log10"]) :
    ∃ p, pot env data method = .ok p ∧ p ≠ [] := by
  have hn : 1 ≤ data.length := List.length_pos_of_ne_nil hd
  have hc : ∃ k : ℕ, 1 ≤ k ∧ k ≤ data.length ∧ potCount env data.length method = .ok (k : ℤ) := by
    have aux : ∀ v : ℤ, v ≤ data.length → ∃ k : ℕ, 1 ≤ k ∧ k ≤ data.length ∧ max v 1 = (k : ℤ) := fun v hv =>
      ⟨(max v 1).toNat, by omega, by omega, by omega⟩
    simp only [List.mem_cons, List.not_mem_nil, or_false] at hm
    rcases hm with rfl | rfl | rfl | rfl
    · obtain ⟨v, h1, h2⟩ := hb.k10 _ hn
      obtain ⟨k, a, b, c⟩ := aux v h2
      exact ⟨k, a, b, by unfold potCount; simp [h1, c]⟩
    · obtain ⟨v, h1, h2⟩ := hb.k35 _ hn
      obtain ⟨k, a, b, c⟩ := aux v h2
      exact ⟨k, a, b, by unfold potCount; simp [h1, c]⟩
    · obtain ⟨v, h1, h2⟩ := hb.ksqrt _ hn
      obtain ⟨k, a, b, c⟩ := aux v h2
      exact ⟨k, a, b, by unfold potCount; simp [h1, c]⟩
    · obtain ⟨v, h1, h2⟩ := hb.klog _ hn
      obtain ⟨k, a, b, c⟩ := aux v h2
      exact ⟨k, a, b, by unfold potCount; simp [h1, c]⟩
  obtain ⟨k, h1, h2, h3⟩ := hc
  refine ⟨pySliceTo (sortDesc data) k, by unfold pot; rw [h3], fun h => ?_⟩
  have hl : (sortDesc data).length = data.length := by simp [sortDesc]
  have e1 : pySliceTo (sortDesc data) (k : ℤ) = (sortDesc data).take k := by simp [pySliceTo]
  have := congrArg List.length (e1.symm.trans h)
  rw [List.length_take, hl, List.length_nil] at this
  omega

/-- order laws of floats that are not NaN: `<` is a strict weak order, reversed by negation -/
structure NanOrder (nan : K → Prop) : Prop where
  asymm : ∀ a b, ¬ nan a → ¬ nan b → Scalar.lt a b = true → Scalar.lt b a = false
  cotrans : ∀ a b c, ¬ nan a → ¬ nan b → ¬ nan c → Scalar.lt a c = true → Scalar.lt a b = true ∨ Scalar.lt b c = true
  neg : ∀ a b, ¬ nan a → ¬ nan b → Scalar.lt (-a) (-b) = Scalar.lt b a
  neg_neg : ∀ a : K, - -a = a

/-- C125 (`pot`): the data in decreasing order with the NaN at the end; so a NaN is taken for an extreme value only if there are fewer numbers than values to be taken. -/
theorem C125_pot (L : NanCmp nan) (O : NanOrder nan) (env : EseEnv K) (data : List K) (method : String) (p : List K) (h : pot env data method = .ok p) :
    ∃ (k : ℤ) (q : List K), potCount env data.length method = .ok k ∧ p = pySliceTo q k ∧ q.Perm data ∧
      q.Pairwise fun a b => nan b ∨ (¬ nan a ∧ ¬ nan b ∧ Scalar.lt a b = false) := by
  unfold pot at h
  rcases hc : potCount env data.length method with e | k
  · rw [hc] at h; cases h
  rw [hc] at h
  refine ⟨k, sortDesc data, rfl, (Except.ok.inj h).symm, ?_, ?_⟩
  · unfold sortDesc
    refine ((List.mergeSort_perm _ _).map _).trans ?_
    rw [List.map_map]
    have : ((fun a : K => -a) ∘ fun a => -a) = id := by funext a; exact O.neg_neg a
    rw [this, List.map_id]
  · have hi : ∀ a : K, (Scalar.isnan a = true) = nan a := fun a => propext (L.isnan a)
    have hi' : ∀ a : K, (Scalar.isnan a = false) = ¬ nan a := fun a => by rw [← hi]; simp
    have hle : ∀ a b : K, (!(Scalar.lt b a || (Scalar.isnan a && !Scalar.isnan b))) = true ↔ nan b ∨ (¬ nan a ∧ ¬ nan b ∧ Scalar.lt b a = false) := by
      intro a b
      by_cases ha : nan a <;> by_cases hb : nan b <;> simp [hi, hi', ha, hb, (L.isnan a).2, (L.isnan b).2, L.lt_left, L.lt_right]
    have h1 := List.pairwise_mergeSort (le := fun a b : K => !(Scalar.lt b a || (Scalar.isnan a && !Scalar.isnan b)))
      (fun a b c hab hbc => by
        rw [hle] at *
        by_cases hc : nan c
        · exact Or.inl hc
        · obtain ⟨hb, -, hbc⟩ := hbc.resolve_left hc
          obtain ⟨ha, -, hab⟩ := hab.resolve_left hb
          refine Or.inr ⟨ha, hc, ?_⟩
          rcases hh : Scalar.lt c a with _ | _
          · rfl
          · rcases O.cotrans c b a hc hb ha hh with h | h
            · rw [hbc] at h; cases h
            · rw [hab] at h; cases h)
      (fun a b => by
        rw [Bool.or_eq_true, hle, hle]
        by_cases ha : nan a
        · exact Or.inr (Or.inl ha)
        · by_cases hb : nan b
          · exact Or.inl (Or.inl hb)
          · rcases hh : Scalar.lt b a with _ | _
            · exact Or.inl (Or.inr ⟨ha, hb, rfl⟩)
            · exact Or.inr (Or.inr ⟨hb, ha, O.asymm b a hb ha hh⟩)) (data.map fun a => -a)
    unfold sortDesc
    refine List.Pairwise.map _ (fun a b hab => ?_) h1
    rw [hle] at hab
    rw [L.neg, L.neg]
    rcases hab with hb | ⟨ha, hb, hlt⟩
    · exact Or.inl hb
    · exact Or.inr ⟨ha, hb, by rw [O.neg a b ha hb]; exact hlt⟩

/-- if the smallest value returned by `pot` is a number, all of them are -/
theorem pot_no_nan (L : NanCmp nan) (O : NanOrder nan) (env : EseEnv K) (data : List K) (method : String) (p : List K) (h : pot env data method = .ok p)
    (hp : p ≠ []) (hlast : ¬ nan (p.getLast hp)) : ∀ a ∈ p, ¬ nan a := by
  obtain ⟨k, q, -, rfl, -, hq⟩ := C125_pot L O env data method p h
  have hpw : (pySliceTo q k).Pairwise fun a b => nan b ∨ (¬ nan a ∧ ¬ nan b ∧ Scalar.lt a b = false) := by
    unfold pySliceTo
    split
    · exact hq.sublist (List.take_sublist _ _)
    · exact hq.sublist (List.take_sublist _ _)
  intro a ha
  rw [← List.dropLast_append_getLast hp] at ha hpw
  rcases List.mem_append.1 ha with h1 | h1
  · have := (List.pairwise_append.1 hpw).2.2 a h1 _ (List.mem_singleton.2 rfl)
    exact (this.resolve_left hlast).1
  · rw [List.mem_singleton.1 h1]; exact hlast

/-- C125 (ESE): whatever NaN the history contains, the call succeeds: the fitting routine (which refuses data with a NaN) is never given one. For the methods '10%', '35%', 'sqrt', 'log10' and every
window from 1 up to the length of the history. -/
theorem C125_ese_succeeds (L : NanCmp nan) (O : NanOrder nan) {env : EseEnv K} (hb : PotBounds env) (hfit : ∀ p, (∀ a ∈ p, ¬ nan a) → ∃ r, env.fit p = .ok r) (w : List (Vec K n)) (window : ℕ)
    (h1 : 1 ≤ window) (h2 : window ≤ w.length) (method : String) (hm : method ∈ ["10%", "35%", "sqrt", "log10"]) :
    ∃ l, ese env w window method = .ok l ∧ l.length = w.length := by
  have hentry : ∀ (past : List K) (cur : K), past ≠ [] → ∃ v, eseEntry env method past cur = .ok v := by
    intro past cur hne
    obtain ⟨p, hp, hpne⟩ := pot_nonempty hb past hne method hm
    unfold eseEntry
    rw [hp]
    dsimp only
    rw [List.getLast?_eq_getLast_of_ne_nil hpne]
    dsimp only
    split
    · rename_i hlt
      have hthr : ¬ nan (p.getLast hpne) := fun hn => by rw [L.lt_left _ _ hn] at hlt; cases hlt
      obtain ⟨⟨c, loc, sc⟩, hr⟩ := hfit p (pot_no_nan L O env past method p hp hpne hthr)
      rw [hr]
      dsimp only
      split
      · exact ⟨_, rfl⟩
      · exact ⟨_, rfl⟩
    · exact ⟨_, rfl⟩
  have hat : ∀ k, ∃ v, eseAt env method w window k = .ok v := by
    intro k
    obtain ⟨r, hr⟩ := mapM_ok_of_forall (fun j => eseEntry env method (lePast window 1 w k j) (leInc 1 w k j)) (List.finRange n)
      (fun j _ => hentry _ _ (by
        intro h
        have := congrArg List.length h
        simp [lePast] at this
        omega))
    unfold eseAt
    rw [hr]
    exact ⟨_, rfl⟩
  obtain ⟨r, hr⟩ := mapM_ok_of_forall (fun t => eseAt env method w window (window + t)) (List.range (w.length - window))
    (fun t _ => hat _)
  have : ∃ l, ese env w window method = .ok l := by
    rw [ese_eq, if_neg (by omega), hr]
    exact ⟨_, rfl⟩
  exact this.imp fun l hl => ⟨hl, (C68_length env w window method l hl).1⟩

end

/-! ## Concrete cases meeting the hypotheses -/

/-- the rationals with a NaN satisfy the order laws -/
theorem NanRat.order : NanOrder (fun a : NanRat => a = none) where
  asymm a b ha hb := by
    obtain ⟨a, rfl⟩ := Option.ne_none_iff_exists'.1 ha
    obtain ⟨b, rfl⟩ := Option.ne_none_iff_exists'.1 hb
    show decide (a < b) = true → decide (b < a) = false
    simp only [decide_eq_true_eq, decide_eq_false_iff_not, not_lt]
    exact fun h => h.le
  cotrans a b c ha hb hc := by
    obtain ⟨a, rfl⟩ := Option.ne_none_iff_exists'.1 ha
    obtain ⟨b, rfl⟩ := Option.ne_none_iff_exists'.1 hb
    obtain ⟨c, rfl⟩ := Option.ne_none_iff_exists'.1 hc
    show decide (a < c) = true → decide (a < b) = true ∨ decide (b < c) = true
    simp only [decide_eq_true_eq]
    exact fun h => (lt_or_ge a b).imp_right fun h2 => h2.trans_lt h
  neg a b ha hb := by
    obtain ⟨a, rfl⟩ := Option.ne_none_iff_exists'.1 ha
    obtain ⟨b, rfl⟩ := Option.ne_none_iff_exists'.1 hb
    show decide (-a < -b) = decide (b < a)
    simp only [neg_lt_neg_iff]
  neg_neg a := by
    rcases a with _ | a
    · rfl
    · show some (- -a) = some a
      rw [neg_neg]

/-- two weights, five samples, the third row NaN -/
def nanHist : List (Vec NanRat 2) := [fun _ => some (1 : ℚ), fun _ => some (3 : ℚ), fun _ => none, fun _ => some (4 : ℚ), fun _ => some (9 : ℚ)]

/-- the hypotheses of the theorems above -/
example : NanCmp (fun a : NanRat => a = none) ∧ NanOrder (fun a : NanRat => a = none) ∧ nanHist.length = 5 ∧
    (∀ i, NanSeen (fun a : NanRat => a = none) nanHist 1 1 4 i) ∧ (∀ i, NanSeen (fun a : NanRat => a = none) nanHist 2 1 3 i) ∧
    ¬ (histAt nanHist 4 0 = none) ∧ (∀ i, histAt nanHist 3 i = none ∨ histAt nanHist (3 - 1) i = none) :=
  ⟨NanRat.cmp, NanRat.order, rfl, fun i => ⟨2, by norm_num, Or.inr ⟨by norm_num, by norm_num⟩, rfl⟩, fun i => ⟨2, by norm_num, Or.inl (by norm_num), rfl⟩,
    (fun h => by cases h), fun i => Or.inr rfl⟩

/-- ... and a successful call of ESE on it, to whose value of sample 3 `C125_ese_silent` applies -/
example : ∃ (env : EseEnv NanRat) (l : List NanRat) (v : NanRat), ese env nanHist 2 "10%" = .ok l ∧ l[3]? = some v := by
  obtain ⟨l, hl, hlen⟩ := C125_ese_succeeds NanRat.cmp NanRat.order (env := (⟨fun _ => .ok 1, fun _ => .ok 1, fun _ => .ok 1, fun _ => .ok 1, fun _ => .ok 1, fun p => if p.any Scalar.isnan then .error .valueError else .ok (1, 1, 1),
    fun _ _ _ _ => 0⟩ : EseEnv NanRat)) ⟨fun n hn => ⟨1, rfl, by exact_mod_cast hn⟩, fun n hn => ⟨1, rfl, by exact_mod_cast hn⟩, fun n hn => ⟨1, rfl, by exact_mod_cast hn⟩,
    fun n hn => ⟨1, rfl, by exact_mod_cast hn⟩⟩ (fun p hp => by
    have : p.any Scalar.isnan = false := by
      rw [List.any_eq_false]
      exact fun a ha h => hp a ha ((NanRat.cmp.isnan a).1 h)
    exact ⟨_, if_neg (by rw [this]; simp)⟩) nanHist 2 (by norm_num) (by decide) "10%" (by simp)
  have h3 : 3 < l.length := by rw [hlen]; decide
  exact ⟨_, l, l[3], hl, List.getElem?_eq_getElem h3⟩

end Padasip
