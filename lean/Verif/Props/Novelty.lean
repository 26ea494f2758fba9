import Verif.Props.Le
import Verif.Props.Elbnd
import Verif.Props.Ese
import Verif.Props.Fixpoint
import Verif.Props.Engine

/-!
# C142: novelty detection on the history returned by `run`

The detection functions take the weight history (and, for ELBND, the errors) that `run` returns.  Here the two are put together: `H` is the
history returned by `run`, row by row.
-/

set_option linter.unusedSectionVars false
set_option linter.unusedSimpArgs false
set_option linter.unusedVariables false

namespace Padasip

open Finset

section structural
variable {K : Type} [Transc K] {n : ℕ}

theorem map_ofFn_inj {H H' : List (Vec K n)} (h : H.map List.ofFn = H'.map List.ofFn) : H = H' :=
  List.map_injective_iff.mpr List.ofFn_injective h

/-- the history and the errors of a run, in terms of the trajectory -/
theorem nov_hist (solve : Solver K) (k : Kind) (o : Obj (classOf (n := n) solve k)) (ho : Ready solve k o.core)
    (d : ℕ → K) (x : ℕ → Vec K n) (N : ℕ) (hN : 0 < N) (y e : List K) (H : List (Vec K n)) (o1)
    (h : run (classOf solve k) (series d N) (rows x N) o = (.ok (y, e, H.map List.ofFn), o1)) :
    H = series (wAt (classOf solve k) (o.core.withN n) d x) N ∧
    e = series (fun k' => (outAt (classOf solve k) (o.core.withN n) d x k').2) N := by
  have hr := run_traj (ready_safe solve k) o ((ready_keeps solve k).withN _ n ho) d x N hN
  rw [h] at hr
  obtain ⟨h1, h2⟩ := Prod.mk.inj (Except.ok.inj (Prod.mk.inj hr).1)
  obtain ⟨h2, h3⟩ := Prod.mk.inj h2
  refine ⟨map_ofFn_inj ?_, h2⟩
  rw [h3]
  simp [series, List.map_map, Function.comp_def]

/-- every run of a filter that can process data returns a history of this form -/
theorem nov_exists (solve : Solver K) (k : Kind) (o : Obj (classOf (n := n) solve k)) (ho : Ready solve k o.core)
    (d : ℕ → K) (x : ℕ → Vec K n) (N : ℕ) (hN : 0 < N) :
    ∃ (y e : List K) (H : List (Vec K n)) (o1 : Obj (classOf (n := n) solve k)),
      run (classOf solve k) (series d N) (rows x N) o = (.ok (y, e, H.map List.ofFn), o1) := by
  refine ⟨series (fun k' => (outAt (classOf solve k) (o.core.withN n) d x k').1) N,
    series (fun k' => (outAt (classOf solve k) (o.core.withN n) d x k').2) N,
    series (wAt (classOf solve k) (o.core.withN n) d x) N,
    ⟨traj (classOf solve k) (o.core.withN n) d x N, series (fun j => List.ofFn (wAt (classOf solve k) (o.core.withN n) d x j)) N⟩, ?_⟩
  rw [show ∀ f : ℕ → Vec K n, (series f N).map List.ofFn = series (fun k => List.ofFn (f k)) N from fun f => by
      simp [series, List.map_map, Function.comp_def]]
  exact run_traj (ready_safe solve k) o ((ready_keeps solve k).withN _ n ho) d x N hN

theorem series_get? {α : Type} (f : ℕ → α) (N i : ℕ) (h : i < N) : (series f N)[i]? = some (f i) := by
  simp [series, h]

theorem nov_sameRows (solve : Solver K) (k : Kind) (o : Obj (classOf (n := n) solve k)) (d d' : ℕ → K) (x x' : ℕ → Vec K n)
    (N N' j : ℕ) (hj : j < N) (hj' : j < N') (hd : ∀ i < j, d i = d' i) (hx : ∀ i < j, x i = x' i) (lo i : ℕ) (hi : i ≤ j) :
    SameRows lo i (series (wAt (classOf solve k) (o.core.withN n) d x) N)
      (series (wAt (classOf solve k) (o.core.withN n) d' x') N') := by
  intro a _ ha
  rw [series_get? _ _ _ (by omega), series_get? _ _ _ (by omega)]
  unfold wAt
  rw [traj_congr (classOf solve k) (o.core.withN n) (d := d) (d' := d') (x := x) (x' := x')
    (fun b hb => hd b (by omega)) (fun b hb => hx b (by omega))]

/-- C142: learning entropy and ESE, computed from the history of a run, lag one sample behind: if two data sets agree in all samples before
sample `j` (in target and input), then all values up to and including that of sample `j` are the same - whatever the samples `j`, `j+1`, ...
are.  So the value of sample `j` cannot depend on sample `j` itself.  All filters, any arithmetic, both forms of the learning entropy. -/
theorem C142_delay (solve : Solver K) (k : Kind) (o : Obj (classOf (n := n) solve k)) (ho : Ready solve k o.core)
    (d d' : ℕ → K) (x x' : ℕ → Vec K n) (N N' j : ℕ) (hj : j < N) (hj' : j < N')
    (hd : ∀ i < j, d i = d' i) (hx : ∀ i < j, x i = x' i)
    (y e y' e' : List K) (H H' : List (Vec K n)) (o1 o2)
    (h1 : run (classOf solve k) (series d N) (rows x N) o = (.ok (y, e, H.map List.ofFn), o1))
    (h2 : run (classOf solve k) (series d' N') (rows x' N') o = (.ok (y', e', H'.map List.ofFn), o2)) :
    (∀ (m : ℕ) (order : ℤ) (al : List K) (l l' : List K), learningEntropy H m order (some al) = .ok (.flat l) →
      learningEntropy H' m order (some al) = .ok (.flat l') → ∀ i ≤ j, l[i]? = l'[i]?) ∧
    (∀ (m : ℕ) (order : ℤ) (l l' : List (Vec K n)), learningEntropy H m order none = .ok (.rows l) →
      learningEntropy H' m order none = .ok (.rows l') → ∀ i ≤ j, l[i]? = l'[i]?) ∧
    (∀ (env : EseEnv K) (window : ℕ) (method : String) (l l' : List K), ese env H window method = .ok l →
      ese env H' window method = .ok l' → ∀ i ≤ j, l[i]? = l'[i]?) := by
  obtain ⟨rfl, -⟩ := nov_hist solve k o ho d x N (by omega) y e H o1 h1
  obtain ⟨rfl, -⟩ := nov_hist solve k o ho d' x' N' (by omega) y' e' H' o2 h2
  have hs := nov_sameRows solve k o d d' x x' N N' j hj hj' hd hx
  refine ⟨fun m order al l l' a b i hi => ?_, fun m order l l' a b i hi => ?_, fun env window method l l' a b i hi => ?_⟩
  · unfold learningEntropy at a b
    by_cases hor : order < 0
    · rw [if_pos hor] at a; cases a
    · rw [if_neg hor] at a b
      cases al with
      | nil => cases a
      | cons c t =>
        cases a; cases b
        exact C65_multiscale _ _ m order.toNat i _ (hs _ i hi)
  · unfold learningEntropy at a b
    by_cases hor : order < 0
    · rw [if_pos hor] at a; cases a
    · rw [if_neg hor] at a b
      cases a; cases b
      exact C65_direct _ _ m order.toNat i (hs _ i hi)
  · exact C80_causal env _ _ window i method a b (hs _ i hi)

end structural

section field
variable {K : Type} [Field K] [LinearOrder K] [IsStrictOrderedRing K] {n : ℕ}

theorem series_get {α : Type} (f : ℕ → α) (N k : ℕ) (h : k < (series f N).length) : (series f N)[k] = f k := by
  simp only [series, List.getElem_map, List.getElem_range]

theorem elbndTerm_series (W : ℕ → Vec K n) (ee : ℕ → K) (N k : ℕ) (hk he) (i : Fin n) :
    elbndTerm (series W N) (series ee N) k hk he i = if k + 1 < N then |W (k + 1) i - W k i| * |ee k| else 0 := by
  unfold elbndTerm
  by_cases h : k + 1 < N
  · rw [dif_pos (by simpa using h), if_pos h, series_get, series_get, series_get]
  · rw [dif_neg (by simpa using h), if_neg h]

/-- ELBND of a history and errors given as streams -/
theorem elbnd_series_sum (W : ℕ → Vec K n) (ee : ℕ → K) (N : ℕ) :
    elbnd (series W N) (series ee N) "sum"
      = .ok (series (fun k => if k + 1 < N then ∑ i, |W (k + 1) i - W k i| * |ee k| else 0) N) := by
  rw [C61_sum _ _ (by simp)]
  congr 1
  apply List.ext_getElem
  · simp
  · intro k h1 h2
    have hk : k < N := by simpa using h2
    rw [List.getElem_ofFn]
    rw [series_get]
    simp only [elbndTerm_series]
    split <;> simp

theorem elbnd_series_max (W : ℕ → Vec K n) (ee : ℕ → K) (N : ℕ) (hn : n ≠ 0) :
    ∃ v : ℕ → K, elbnd (series W N) (series ee N) "max" = .ok (series v N) ∧
      ∀ k < N, (k + 1 < N → IsGreatest (Set.range fun i => |W (k + 1) i - W k i| * |ee k|) (v k)) ∧ (k + 1 = N → v k = 0) := by
  obtain ⟨v, h1, h2⟩ := C61_max (series W N) (series ee N) (by simp) hn
  refine ⟨fun k => if h : k < (series W N).length then v ⟨k, h⟩ else 0, ?_, fun k hk => ?_⟩
  · rw [h1]
    congr 1
    apply List.ext_getElem
    · simp
    · intro k a b
      have hk : k < N := by simpa using b
      rw [List.getElem_ofFn]
      simp [series, hk]
  · have hl : k < (series W N).length := by simpa using hk
    have h3 := h2 ⟨k, hl⟩
    simp only [hl, dif_pos]
    refine ⟨fun hk1 => ?_, fun hk1 => ?_⟩
    · have e1 : elbndTerm (series W N) (series ee N) (⟨k, hl⟩ : Fin (series W N).length) hl (by simpa using hk)
          = fun i => |W (k + 1) i - W k i| * |ee k| := by
        funext i
        rw [elbndTerm_series, if_pos hk1]
      rw [← e1]; exact h3
    · obtain ⟨i, hi⟩ := h3.1
      rw [← hi]
      rw [elbndTerm_series, if_neg (by show ¬ k + 1 < N; omega)]

theorem nov_runs {C : FilterClass K n} {o : Obj C} {d : ℕ → K} {x : ℕ → Vec K n} {yy ee : ℕ → K} {S : ℕ → Core K n C.Ext}
    (hR : Runs C o d x yy ee S) {N : ℕ} (hN : 0 < N) {y e : List K} {H : List (Vec K n)} {o1}
    (h : run C (series d N) (rows x N) o = (.ok (y, e, H.map List.ofFn), o1)) :
    e = series ee N ∧ H = series (fun k => (S k).w) N := by
  have hr := hR.2 N hN
  rw [h] at hr
  obtain ⟨h1, h2⟩ := Prod.mk.inj (Except.ok.inj (Prod.mk.inj hr).1)
  obtain ⟨h2, h3⟩ := Prod.mk.inj h2
  refine ⟨h2, List.map_injective_iff.mpr List.ofFn_injective ?_⟩
  rw [h3]
  simp [series, List.map_map, Function.comp_def]

/-- if the step of sample `k` times the error has size `G k i` for weight `i`, this is what ELBND reports -/
theorem nov_elbnd {C : FilterClass K n} {o : Obj C} {d : ℕ → K} {x : ℕ → Vec K n} {yy ee : ℕ → K} {S : ℕ → Core K n C.Ext}
    (hR : Runs C o d x yy ee S) {N : ℕ} (hN : 0 < N) {y e : List K} {H : List (Vec K n)} {o1}
    (h : run C (series d N) (rows x N) o = (.ok (y, e, H.map List.ofFn), o1)) (G : K → Vec K n → Fin n → K)
    (hG : ∀ k i, |(S (k + 1)).w i - (S k).w i| * |ee k| = G (ee k) (x k) i) :
    ∃ ee : ℕ → K, e = series ee N ∧
      elbnd H e "sum" = .ok (series (fun k => if k + 1 < N then ∑ i, G (ee k) (x k) i else 0) N) ∧
      (n ≠ 0 → ∃ v : ℕ → K, elbnd H e "max" = .ok (series v N) ∧
        (∀ k, k + 1 < N → IsGreatest (Set.range (G (ee k) (x k))) (v k)) ∧ v (N - 1) = 0) := by
  obtain ⟨rfl, rfl⟩ := nov_runs hR hN h
  refine ⟨ee, rfl, ?_, fun hn => ?_⟩
  · rw [elbnd_series_sum]
    simp only [hG]
  · obtain ⟨v, h1, h2⟩ := elbnd_series_max (fun k => (S k).w) ee N hn
    refine ⟨v, h1, fun k hk => ?_, (h2 (N - 1) (by omega)).2 (by omega)⟩
    have := (h2 k (by omega)).1 hk
    simp only [hG] at this
    exact this

/-- C142: what ELBND reports for LMS: `|mu| e[k]^2` times the sum (the greatest) of the `|x[k, i]|`; 0 for the last sample. -/
theorem C142_elbnd_lms (o : Obj (lms K n)) (d : ℕ → K) (x : ℕ → Vec K n) (N : ℕ) (hN : 0 < N) (y e : List K)
    (H : List (Vec K n)) (o1) (h : run (lms K n) (series d N) (rows x N) o = (.ok (y, e, H.map List.ofFn), o1)) :
    ∃ ee : ℕ → K, e = series ee N ∧
      elbnd H e "sum" = .ok (series (fun k => if k + 1 < N then ∑ i, |o.core.mu| * ee k ^ 2 * |x k i| else 0) N) ∧
      (n ≠ 0 → ∃ v : ℕ → K, elbnd H e "max" = .ok (series v N) ∧
        (∀ k, k + 1 < N → IsGreatest (Set.range fun i => |o.core.mu| * ee k ^ 2 * |x k i|) (v k)) ∧ v (N - 1) = 0) := by
  have hR := runs_of_safe lms_safe o trivial d x
  refine nov_elbnd hR hN h (fun e x i => |o.core.mu| * e ^ 2 * |x i|) fun k i => ?_
  obtain ⟨h1, -, -, -, h5⟩ := lms_runs hR k
  rw [h5, h1, add_sub_cancel_left, abs_mul, abs_mul, ← sq_abs]
  ring

/-- C142: what ELBND reports for NLMS: `|mu| / |eps + x[k].x[k]| e[k]^2` times the sum (the greatest) of the `|x[k, i]|`; 0 for the last
sample. -/
theorem C142_elbnd_nlms (o : Obj (nlms K n)) (d : ℕ → K) (x : ℕ → Vec K n) (N : ℕ) (hN : 0 < N) (y e : List K)
    (H : List (Vec K n)) (o1) (h : run (nlms K n) (series d N) (rows x N) o = (.ok (y, e, H.map List.ofFn), o1)) :
    ∃ ee : ℕ → K, e = series ee N ∧
      elbnd H e "sum" = .ok (series (fun k => if k + 1 < N then
        ∑ i, |o.core.mu| / |o.core.ext.eps + ∑ j, x k j * x k j| * ee k ^ 2 * |x k i| else 0) N) ∧
      (n ≠ 0 → ∃ v : ℕ → K, elbnd H e "max" = .ok (series v N) ∧
        (∀ k, k + 1 < N → IsGreatest (Set.range fun i =>
          |o.core.mu| / |o.core.ext.eps + ∑ j, x k j * x k j| * ee k ^ 2 * |x k i|) (v k)) ∧ v (N - 1) = 0) := by
  have hR := runs_of_safe nlms_safe o trivial d x
  refine nov_elbnd hR hN h (fun e x i => |o.core.mu| / |o.core.ext.eps + ∑ j, x j * x j| * e ^ 2 * |x i|) fun k i => ?_
  obtain ⟨h1, h2, -, -, h5⟩ := nlms_runs hR k
  rw [h5, h1, h2, add_sub_cancel_left, abs_mul, abs_mul, abs_div, dot_eq, ← sq_abs]
  ring

/-- C142: what ELBND reports for SSLMS: `|mu| |e[k]|` times the number of the nonzero inputs (or times one, if there is any); 0 for the last
sample. -/
theorem C142_elbnd_sslms (o : Obj (sslms K n)) (d : ℕ → K) (x : ℕ → Vec K n) (N : ℕ) (hN : 0 < N) (y e : List K)
    (H : List (Vec K n)) (o1) (h : run (sslms K n) (series d N) (rows x N) o = (.ok (y, e, H.map List.ofFn), o1)) :
    ∃ ee : ℕ → K, e = series ee N ∧
      elbnd H e "sum" = .ok (series (fun k => if k + 1 < N then
        ∑ i, (if x k i = 0 then 0 else |o.core.mu| * |ee k|) else 0) N) ∧
      (n ≠ 0 → ∃ v : ℕ → K, elbnd H e "max" = .ok (series v N) ∧
        (∀ k, k + 1 < N → IsGreatest (Set.range fun i => if x k i = 0 then 0 else |o.core.mu| * |ee k|) (v k)) ∧ v (N - 1) = 0) := by
  have hR := runs_of_safe sslms_safe o trivial d x
  refine nov_elbnd hR hN h (fun e x i => if x i = 0 then 0 else |o.core.mu| * |e|) fun k i => ?_
  obtain ⟨h1, -, -, -, h5⟩ := sslms_runs hR k
  have hs : ∀ a : K, |Scalar.sgn a| = if a = 0 then 0 else 1 := by
    intro a
    show |if 0 < a then (1 : K) else if a < 0 then -1 else 0| = _
    rcases lt_trichotomy a 0 with h | h | h
    · rw [if_neg (by linarith), if_pos h, if_neg h.ne]; simp
    · simp [h]
    · rw [if_pos h, if_neg h.ne']; simp
  rw [h5, h1, add_sub_cancel_left, abs_mul, abs_mul, hs, hs]
  split
  · simp
  · split
    · rename_i h0; rw [h0]; simp
    · simp

/-! ## One disturbed sample -/

theorem incr_const_seq (f : ℕ → K) (c : K) (r k : ℕ) (hr : 0 < r) (h : ∀ j, k - r ≤ j → j ≤ k → f j = c) : incr f r k = 0 := by
  induction r, hr using Nat.le_induction generalizing k with
  | base =>
    show f k - f (k - 1) = 0
    rw [h k (by omega) le_rfl, h (k - 1) (by omega) (by omega), sub_self]
  | succ r _ ih =>
    show incr f r k - incr f r (k - 1) = 0
    rw [ih k fun j h1 h2 => h j (by omega) h2, ih (k - 1) fun j h1 h2 => h j (by omega) (by omega), sub_self]

theorem incr_jump (f : ℕ → K) (c : K) (r k : ℕ) (hr : 0 < r) (hk : r ≤ k) (h : ∀ j, k - r ≤ j → j < k → f j = c) :
    incr f r k = f k - c := by
  induction r, hr using Nat.le_induction with
  | base =>
    show f k - f (k - 1) = _
    rw [h (k - 1) (by omega) (by omega)]
  | succ r hr ih =>
    show incr f r k - incr f r (k - 1) = _
    rw [ih (by omega) fun j h1 h2 => h j (by omega) h2,
      incr_const_seq f c r (k - 1) hr fun j h1 h2 => h j (by omega) (by omega), sub_zero]

theorem leInc_flat (H : List (Vec K n)) (w : Vec K n) (p r k : ℕ) (hr : 0 < r) (hH : ∀ j ≤ p, ∀ i, histAt H j i = w i)
    (h1 : r ≤ k) (h2 : k ≤ p) (i : Fin n) : leInc r H k i = 0 := by
  unfold leInc
  rw [if_neg (by omega), incr_const_seq _ (w i) r k hr fun j _ hj => hH j (by omega) i]
  exact abs_zero

theorem lePast_flat (H : List (Vec K n)) (w : Vec K n) (p m r k : ℕ) (hr : 0 < r) (hH : ∀ j ≤ p, ∀ i, histAt H j i = w i)
    (h1 : m + r ≤ k) (h2 : k ≤ p + 1) (i : Fin n) : lePast m r H k i = List.replicate m 0 := by
  unfold lePast
  apply List.ext_getElem
  · simp
  · intro t a b
    have ht : t < m := by simpa using b
    rw [List.getElem_map, List.getElem_range, List.getElem_replicate]
    exact leInc_flat H w p r _ hr hH (by omega) (by omega) i

theorem leInc_jump (H : List (Vec K n)) (w : Vec K n) (p r : ℕ) (hr : 0 < r) (hH : ∀ j ≤ p, ∀ i, histAt H j i = w i)
    (h1 : r ≤ p + 1) (i : Fin n) : leInc r H (p + 1) i = |histAt H (p + 1) i - w i| := by
  unfold leInc
  rw [if_neg (by omega), incr_jump _ (w i) r (p + 1) hr h1 fun j _ hj => hH j (by omega) i]
  rfl

theorem meanL_zeros (m : ℕ) : meanL (List.replicate m (0 : K)) = 0 := by
  unfold meanL
  rw [List.sum_replicate]
  simp

/-- a history that is constant up to row `p`: the multiscale learning entropy is 0 up to sample `p` -/
theorem leMulti_flat (H : List (Vec K n)) (w : Vec K n) (p m r : ℕ) (al : List K) (hr : 0 < r)
    (hH : ∀ j ≤ p, ∀ i, histAt H j i = w i) (k : ℕ) (hk : k < H.length) (h1 : k < m ∨ m + r ≤ k) (h2 : k ≤ p) :
    (leMulti H m r al)[k]? = some 0 := by
  rw [leMulti_eq, getElem?_rangeMap, if_pos hk]
  congr 1
  by_cases hkm : k < m
  · rw [if_pos hkm]
  · have h1 : m + r ≤ k := h1.resolve_left hkm
    rw [if_neg hkm]
    have : leCount m r H al k = 0 := by
      rw [leCount_eq]
      simp only [lePast_flat H w p m r k hr hH h1 (by omega), meanL_zeros, leInc_flat H w p r k hr hH (by omega) h2, zero_mul]
      simp
    rw [this]
    show ((0 : ℕ) : K) / _ = 0
    simp

/-- ... and at sample `p+1` it is the share of the weights that have moved -/
theorem leMulti_jump (H : List (Vec K n)) (w : Vec K n) (p m r : ℕ) (al : List K) (hr : 0 < r) (hal : al ≠ [])
    (hH : ∀ j ≤ p, ∀ i, histAt H j i = w i) (hp : p + 1 < H.length) (hm : m + r ≤ p + 1) :
    (leMulti H m r al)[p + 1]? = some ((#{i : Fin n | histAt H (p + 1) i ≠ w i} : K) / (n : K)) := by
  rw [leMulti_eq, getElem?_rangeMap, if_pos hp, if_neg (by omega), leCount_eq]
  congr 1
  simp only [lePast_flat H w p m r (p + 1) hr hH hm le_rfl, meanL_zeros, leInc_jump H w p r hr hH (by omega), zero_mul,
    abs_pos, sub_ne_zero]
  have hc : #{q : Fin n × Fin al.length | histAt H (p + 1) q.1 ≠ w q.1} = #{i : Fin n | histAt H (p + 1) i ≠ w i} * al.length := by
    have : ({q : Fin n × Fin al.length | histAt H (p + 1) q.1 ≠ w q.1} : Finset _)
        = ({i : Fin n | histAt H (p + 1) i ≠ w i} : Finset _) ×ˢ (Finset.univ : Finset (Fin al.length)) := by
      ext q; simp
    rw [this, card_product, card_univ, Fintype.card_fin]
  rw [hc]
  show ((_ * _ : ℕ) : K) / ((_ * _ : ℕ) : K) = _
  have : (al.length : K) ≠ 0 := by
    simpa using hal
  push_cast
  rw [mul_div_mul_right _ _ this]

end field

section real
variable {n : ℕ}

theorem stdL_zeros (m : ℕ) : stdL (List.replicate m (0 : ℝ)) = 0 := by
  have h : (List.replicate m (0 : ℝ)).map (fun a => (a - meanL (List.replicate m (0 : ℝ))) * (a - meanL (List.replicate m (0 : ℝ))))
      = List.replicate m 0 := by
    rw [meanL_zeros, List.map_replicate]; simp
  unfold stdL
  rw [h, meanL_zeros]
  exact Real.sqrt_zero

theorem leDirect_flat (H : List (Vec ℝ n)) (w : Vec ℝ n) (p m r : ℕ) (hr : 0 < r)
    (hH : ∀ j ≤ p, ∀ i, histAt H j i = w i) (k : ℕ) (hk : k < H.length) (h1 : k < m ∨ m + r ≤ k) (h2 : k ≤ p) :
    (leDirect H m r)[k]? = some fun _ => 0 := by
  rw [leDirect_eq, getElem?_rangeMap, if_pos hk]
  congr 1
  funext i
  by_cases hkm : k < m
  · rw [if_pos hkm]
  · have h1 : m + r ≤ k := h1.resolve_left hkm
    rw [if_neg hkm, lePast_flat H w p m r k hr hH h1 (by omega), leInc_flat H w p r k hr hH (by omega) h2, meanL_zeros, sub_zero,
      zero_div]

theorem leDirect_jump (H : List (Vec ℝ n)) (w : Vec ℝ n) (p m r : ℕ) (hr : 0 < r)
    (hH : ∀ j ≤ p, ∀ i, histAt H j i = w i) (hp : p + 1 < H.length) (hm : m + r ≤ p + 1) :
    (leDirect H m r)[p + 1]? = some fun i => 10 ^ 10 * |histAt H (p + 1) i - w i| := by
  rw [leDirect_eq, getElem?_rangeMap, if_pos hp]
  congr 1
  funext i
  rw [if_neg (by omega), lePast_flat H w p m r (p + 1) hr hH hm le_rfl, leInc_jump H w p r hr hH (by omega), meanL_zeros, stdL_zeros]
  show (|histAt H (p + 1) i - w i| - 0) / (0 + 1 / ((10 ^ 10 : ℕ) : ℝ)) = _
  push_cast
  rw [sub_zero, zero_add, div_div_eq_mul_div, div_one, mul_comm]
  norm_num

/-- C142: ELBND, computed from the history and the errors of a run, does not lag: if two data sets agree in the samples up to and including
sample `j`, and both go on after it, then the values up to that of sample `j` are the same.  For the last sample it is always 0. -/
theorem C142_elbnd_prompt (solve : Solver ℝ) (k : Kind) (o : Obj (classOf (n := n) solve k)) (ho : Ready solve k o.core)
    (d d' : ℕ → ℝ) (x x' : ℕ → Vec ℝ n) (N N' j : ℕ) (hj : j + 1 < N) (hj' : j + 1 < N')
    (hd : ∀ i ≤ j, d i = d' i) (hx : ∀ i ≤ j, x i = x' i)
    (y e y' e' : List ℝ) (H H' : List (Vec ℝ n)) (o1 o2)
    (h1 : run (classOf solve k) (series d N) (rows x N) o = (.ok (y, e, H.map List.ofFn), o1))
    (h2 : run (classOf solve k) (series d' N') (rows x' N') o = (.ok (y', e', H'.map List.ofFn), o2))
    (f : String) (l l' : List ℝ) (hl : elbnd H e f = .ok l) (hl' : elbnd H' e' f = .ok l') :
    (∀ i ≤ j, l[i]? = l'[i]?) ∧ l.length = N ∧ l[N - 1]? = some 0 := by
  obtain ⟨rfl, rfl⟩ := nov_hist solve k o ho d x N (by omega) y e H o1 h1
  obtain ⟨rfl, rfl⟩ := nov_hist solve k o ho d' x' N' (by omega) y' e' H' o2 h2
  have ht : ∀ i ≤ j + 1, traj (classOf solve k) (o.core.withN n) d x i = traj (classOf solve k) (o.core.withN n) d' x' i :=
    fun i hi => traj_congr _ _ (fun b hb => hd b (by omega)) (fun b hb => hx b (by omega))
  have hw : ∀ i ≤ j + 1, wAt (classOf solve k) (o.core.withN n) d x i = wAt (classOf solve k) (o.core.withN n) d' x' i :=
    fun i hi => congrArg Core.w (ht i hi)
  have ho : ∀ i ≤ j, outAt (classOf solve k) (o.core.withN n) d x i = outAt (classOf solve k) (o.core.withN n) d' x' i := fun i hi => by
    unfold outAt
    rw [ht i (by omega), hd i hi, hx i hi]
  have hf : f = "sum" ∨ f = "max" := by
    by_contra hc
    rw [not_or] at hc
    rw [C61_unknown_function _ _ f hc.2 hc.1] at hl
    cases hl
  rcases hf with rfl | rfl
  · rw [elbnd_series_sum] at hl hl'
    cases hl; cases hl'
    refine ⟨fun i hi => ?_, by simp, ?_⟩
    · rw [series_get? _ _ _ (by omega), series_get? _ _ _ (by omega), if_pos (by omega), if_pos (by omega), hw i (by omega),
        hw (i + 1) (by omega), ho i hi]
    · rw [series_get? _ _ _ (by omega), if_neg (by omega)]
  · have hn : n ≠ 0 := by
      rintro rfl
      rw [elbnd_unfold _ _ _ (Or.inl rfl), elbndProd_same _ _ (by rw [elbndDw_length]; simp)] at hl
      dsimp only at hl
      rw [if_pos rfl] at hl
      unfold rowMax at hl
      rw [if_pos ⟨rfl, by
        intro hc
        have := congrArg List.length hc
        simp [elbndDw_length] at this
        omega⟩] at hl
      cases hl
    obtain ⟨v, a1, a2⟩ := elbnd_series_max (wAt (classOf solve k) (o.core.withN n) d x)
      (fun j => (outAt (classOf solve k) (o.core.withN n) d x j).2) N hn
    obtain ⟨v', b1, b2⟩ := elbnd_series_max (wAt (classOf solve k) (o.core.withN n) d' x')
      (fun j => (outAt (classOf solve k) (o.core.withN n) d' x' j).2) N' hn
    rw [a1] at hl
    rw [b1] at hl'
    cases hl; cases hl'
    refine ⟨fun i hi => ?_, by simp, ?_⟩
    · rw [series_get? _ _ _ (by omega), series_get? _ _ _ (by omega)]
      have c1 := (a2 i (by omega)).1 (by omega)
      have c2 := (b2 i (by omega)).1 (by omega)
      beta_reduce at c1 c2
      rw [hw i (by omega), hw (i + 1) (by omega), ho i hi] at c1
      rw [c1.unique c2]
    · rw [series_get? _ _ _ (by omega), (a2 (N - 1) (by omega)).2 (by omega)]

/-- before the first sample with a deviating target, the weights do not move -/
theorem nov_still (solve : Solver ℝ) (k : Kind) (hk : k ≠ .ocnlms)
    (o : Obj (classOf (n := n) solve k)) (ho : Ready solve k o.core) (hden : DenOk solve k o.core)
    (hap : ApFits solve o.core.w k o.core) (d : ℕ → ℝ) (x : ℕ → Vec ℝ n) (p : ℕ)
    (hd : ∀ j < p, d j = ∑ i, o.core.w i * x j i) :
    ∀ j ≤ p, wAt (classOf solve k) (o.core.withN n) d x j = o.core.w := by
  intro j hj
  have hP := (ready_keeps solve k).withN _ n ho
  have h1 := C19_perfect_prediction solve k hk o ho hden hap (fun j => ∑ i, o.core.w i * x j i) x (fun _ => rfl) _ _ _
    (runs_of_safe (ready_safe solve k) o hP _ x) j
  rw [← h1.2.2]
  unfold wAt
  rw [traj_congr (classOf solve k) (o.core.withN n) (fun b hb => hd b (by omega)) (fun b _ => rfl)]

/-- C142: a filter whose weights explain the data meets one sample that they do not explain.  Let `w` be the initial weights and suppose
`d[j] = w . x[j]` for all samples `j` before sample `p`; sample `p` (and everything after it) is arbitrary.  For every filter but OCNLMS:

* the weights and the errors do not move before: history rows `0..p` are `w`, errors `0..p-1` are 0, the error of sample `p` is the deviation;
* ELBND is 0 before sample `p` and reports the disturbance *at* sample `p`: the sum (the greatest) of the weight changes times the deviation;
* the learning entropy of every order `r > 0` and window `m` is 0 up to and including sample `p` and reports it one sample later, at `p+1`:
  the multiscale value is the share of the weights that have moved, for every choice of sensitivities; the direct value of weight `i` is
  `10^10` times its change. -/
theorem C142_disturbance (solve : Solver ℝ) (k : Kind) (hk : k ≠ .ocnlms)
    (o : Obj (classOf (n := n) solve k)) (ho : Ready solve k o.core) (hden : DenOk solve k o.core)
    (hap : ApFits solve o.core.w k o.core) (d : ℕ → ℝ) (x : ℕ → Vec ℝ n) (N p : ℕ) (hp : p + 1 < N)
    (hd : ∀ j < p, d j = ∑ i, o.core.w i * x j i) (y e : List ℝ) (H : List (Vec ℝ n)) (o1)
    (h : run (classOf solve k) (series d N) (rows x N) o = (.ok (y, e, H.map List.ofFn), o1)) :
    (∀ j ≤ p, H[j]? = some o.core.w) ∧ (∀ j < p, e[j]? = some 0) ∧ e[p]? = some (d p - ∑ i, o.core.w i * x p i) ∧
    (∃ l, elbnd H e "sum" = .ok l ∧ (∀ j < p, l[j]? = some 0) ∧
      l[p]? = some (∑ i, |histAt H (p + 1) i - o.core.w i| * |d p - ∑ i, o.core.w i * x p i|)) ∧
    (n ≠ 0 → ∃ l v, elbnd H e "max" = .ok l ∧ (∀ j < p, l[j]? = some 0) ∧ l[p]? = some v ∧
      IsGreatest (Set.range fun i => |histAt H (p + 1) i - o.core.w i| * |d p - ∑ i, o.core.w i * x p i|) v) ∧
    (∀ (m r : ℕ) (a : ℝ) (t : List ℝ), 0 < m → 0 < r → m + r ≤ p + 1 →
      ∃ l, learningEntropy H m r (some (a :: t)) = .ok (.flat l) ∧
        (∀ j, (j < m ∨ m + r ≤ j) → j ≤ p → l[j]? = some 0) ∧
        l[p + 1]? = some ((#{i : Fin n | histAt H (p + 1) i ≠ o.core.w i} : ℝ) / (n : ℝ))) ∧
    (∀ (m r : ℕ), 0 < m → 0 < r → m + r ≤ p + 1 →
      ∃ l, learningEntropy H m r none = .ok (.rows l) ∧
        (∀ j, (j < m ∨ m + r ≤ j) → j ≤ p → l[j]? = some fun _ => 0) ∧
        l[p + 1]? = some fun i => 10 ^ 10 * |histAt H (p + 1) i - o.core.w i|) := by
  have hstill := nov_still solve k hk o ho hden hap d x p hd
  obtain ⟨hH, -⟩ := nov_hist solve k o ho d x N (by omega) y e H o1 h
  obtain ⟨W, o', hW⟩ := C02_output_is_row_times_input (fun a b => mul_comm a b) solve k hk o ho d x N (by omega)
  have hlen : H.length = N := by rw [hH]; simp
  have hWw : ∀ j < N, W j = wAt (classOf solve k) (o.core.withN n) d x j := by
    rw [h] at hW
    have h1 := (Prod.mk.inj (Prod.mk.inj (Except.ok.inj (Prod.mk.inj hW).1)).2).2
    intro j hj
    have h2 := congrArg (fun l => l[j]?) h1
    have h3 : (rows W N)[j]? = some (List.ofFn (W j)) := by simp [rows, hj]
    have h4 : (H.map List.ofFn)[j]? = some (List.ofFn (wAt (classOf solve k) (o.core.withN n) d x j)) := by
      rw [hH, List.getElem?_map, series_get? _ _ _ hj]; rfl
    have h5 : some (List.ofFn (wAt (classOf solve k) (o.core.withN n) d x j)) = some (List.ofFn (W j)) :=
      h4.symm.trans (h2.trans h3)
    exact (List.ofFn_injective (Option.some.inj h5)).symm
  have he : e = series (fun j => d j - dot (W j) (x j)) N := by
    rw [h] at hW
    exact (Prod.mk.inj (Prod.mk.inj (Except.ok.inj (Prod.mk.inj hW).1)).2).1
  have hrow : ∀ j ≤ p, H[j]? = some o.core.w := fun j hj => by
    rw [hH, series_get? _ _ _ (by omega), hstill j hj]
  have hHat : ∀ j ≤ p, ∀ i, histAt H j i = o.core.w i := fun j hj i => by
    unfold histAt; rw [hrow j hj]
  have hnext : ∀ i, histAt H (p + 1) i = wAt (classOf solve k) (o.core.withN n) d x (p + 1) i := fun i => by
    unfold histAt; rw [hH, series_get? _ _ _ hp]
  have hee : ∀ j ≤ p, d j - dot (W j) (x j) = d j - ∑ i, o.core.w i * x j i := fun j hj => by
    rw [hWw j (by omega), hstill j hj, dot_real]
  refine ⟨hrow, fun j hj => ?_, ?_, ?_, fun hn => ?_, fun m r a t hm hr hmr => ?_, fun m r hm hr hmr => ?_⟩
  · rw [he, series_get? _ _ _ (by omega), hee j hj.le, ← hd j hj, sub_self]
  · rw [he, series_get? _ _ _ (by omega), hee p le_rfl]
  · refine ⟨_, by rw [he, hH]; exact elbnd_series_sum _ _ N, fun j hj => ?_, ?_⟩
    · rw [series_get? _ _ _ (by omega), if_pos (by omega), hstill j hj.le, hstill (j + 1) hj]
      simp
    · rw [series_get? _ _ _ (by omega), if_pos hp, hstill p le_rfl, hee p le_rfl]
      simp only [hnext]
  · obtain ⟨v, h1, h2⟩ := elbnd_series_max (wAt (classOf solve k) (o.core.withN n) d x) (fun j => d j - dot (W j) (x j)) N hn
    refine ⟨_, v p, by rw [he, hH]; exact h1, fun j hj => ?_, series_get? _ _ _ (by omega), ?_⟩
    · rw [series_get? _ _ _ (by omega)]
      obtain ⟨i, hi⟩ := ((h2 j (by omega)).1 (by omega)).1
      rw [← hi]
      simp [hstill j hj.le, hstill (j + 1) hj]
    · have := (h2 p (by omega)).1 hp
      rw [hstill p le_rfl, hee p le_rfl] at this
      simp only [hnext]
      exact this
  · refine ⟨leMulti H m r (a :: t), ?_, fun j h1 h2 => ?_, ?_⟩
    · unfold learningEntropy
      rw [if_neg (by omega)]
      rfl
    · exact leMulti_flat H o.core.w p m r _ hr hHat j (by omega) h1 h2
    · exact leMulti_jump H o.core.w p m r _ hr (by simp) hHat (by omega) hmr
  · refine ⟨leDirect H m r, ?_, fun j h1 h2 => ?_, ?_⟩
    · unfold learningEntropy
      rw [if_neg (by omega)]
      rfl
    · exact leDirect_flat H o.core.w p m r hr hHat j (by omega) h1 h2
    · exact leDirect_jump H o.core.w p m r hr hHat (by omega) hmr

/-- the multiscale value one sample after the disturbance, when it is known which weights the update moves -/
theorem nov_share (solve : Solver ℝ) (k : Kind) (hk : k ≠ .ocnlms)
    (o : Obj (classOf (n := n) solve k)) (ho : Ready solve k o.core) (hden : DenOk solve k o.core)
    (hap : ApFits solve o.core.w k o.core) (d : ℕ → ℝ) (x : ℕ → Vec ℝ n) (N p : ℕ) (hp : p + 1 < N)
    (hd : ∀ j < p, d j = ∑ i, o.core.w i * x j i) (hdp : d p ≠ ∑ i, o.core.w i * x p i) (y e : List ℝ) (H : List (Vec ℝ n)) (o1)
    (h : run (classOf solve k) (series d N) (rows x N) o = (.ok (y, e, H.map List.ofFn), o1))
    (hmove : d p - ∑ i, o.core.w i * x p i ≠ 0 → (traj (classOf solve k) (o.core.withN n) d x p).w = o.core.w →
      (outAt (classOf solve k) (o.core.withN n) d x p).2 = d p - ∑ i, o.core.w i * x p i →
      ∀ i, (traj (classOf solve k) (o.core.withN n) d x (p + 1)).w i ≠ o.core.w i ↔ x p i ≠ 0)
    (m r : ℕ) (a : ℝ) (t : List ℝ) (hm : 0 < m) (hr : 0 < r) (hmr : m + r ≤ p + 1) :
    ∃ l, learningEntropy H m r (some (a :: t)) = .ok (.flat l) ∧
      (∀ j, (j < m ∨ m + r ≤ j) → j ≤ p → l[j]? = some 0) ∧ l[p + 1]? = some ((#{i : Fin n | x p i ≠ 0} : ℝ) / (n : ℝ)) := by
  obtain ⟨h1, h2, h3, -, -, h4, -⟩ := C142_disturbance solve k hk o ho hden hap d x N p hp hd y e H o1 h
  obtain ⟨l, l1, l2, l3⟩ := h4 m r a t hm hr hmr
  refine ⟨l, l1, l2, ?_⟩
  obtain ⟨hH, he⟩ := nov_hist solve k o ho d x N (by omega) y e H o1 h
  have hS : (traj (classOf solve k) (o.core.withN n) d x p).w = o.core.w := by
    have := h1 p le_rfl
    rw [hH, series_get? _ _ _ (by omega)] at this
    exact Option.some.inj this
  have hE : (outAt (classOf solve k) (o.core.withN n) d x p).2 = d p - ∑ i, o.core.w i * x p i := by
    rw [he, series_get? _ _ _ (by omega)] at h3
    exact Option.some.inj h3
  have key := hmove (sub_ne_zero.mpr hdp) hS hE
  have hi : ∀ i, histAt H (p + 1) i = (traj (classOf solve k) (o.core.withN n) d x (p + 1)).w i := fun i => by
    unfold histAt; rw [hH, series_get? _ _ _ hp]; rfl
  rw [l3]
  simp only [hi, key]

/-- C142: for LMS, NLMS and SSLMS with a nonzero step the multiscale learning entropy one sample after the disturbed sample is exactly the
share of the inputs of that sample that are not zero - however large or small the deviation, the step and the sensitivities are. -/
theorem C142_share_of_active_inputs (solve : Solver ℝ) (k : Kind) (hk : k = .lms ∨ k = .nlms ∨ k = .sslms)
    (o : Obj (classOf (n := n) solve k)) (hden : DenOk solve k o.core) (hmu : o.core.mu ≠ 0)
    (d : ℕ → ℝ) (x : ℕ → Vec ℝ n) (N p : ℕ) (hp : p + 1 < N)
    (hd : ∀ j < p, d j = ∑ i, o.core.w i * x j i) (hdp : d p ≠ ∑ i, o.core.w i * x p i) (y e : List ℝ) (H : List (Vec ℝ n)) (o1)
    (h : run (classOf solve k) (series d N) (rows x N) o = (.ok (y, e, H.map List.ofFn), o1))
    (m r : ℕ) (a : ℝ) (t : List ℝ) (hm : 0 < m) (hr : 0 < r) (hmr : m + r ≤ p + 1) :
    ∃ l, learningEntropy H m r (some (a :: t)) = .ok (.flat l) ∧
      (∀ j, (j < m ∨ m + r ≤ j) → j ≤ p → l[j]? = some 0) ∧ l[p + 1]? = some ((#{i : Fin n | x p i ≠ 0} : ℝ) / (n : ℝ)) := by
  rcases hk with rfl | rfl | rfl
  · refine nov_share solve .lms (by simp) o trivial hden trivial d x N p hp hd hdp y e H o1 h (fun hne hS hE i => ?_) m r a t hm hr hmr
    obtain ⟨h1, -, -, -, h5⟩ := lms_runs (runs_of_safe lms_safe (K := ℝ) (C := lms ℝ n) o trivial d x) p
    have key : ∀ T1 T0 w0 M mu E δ X : ℝ, T1 = T0 + M * X * E → M = mu → T0 = w0 → E = δ → mu ≠ 0 → δ ≠ 0 → (T1 ≠ w0 ↔ X ≠ 0) := by
      rintro T1 T0 w0 M mu E δ X rfl rfl rfl rfl a b
      simp [a, b]
    exact key _ _ _ _ _ _ _ _ (congrFun h5 i) h1 (congrFun hS i) hE hmu hne
  · refine nov_share solve .nlms (by simp) o trivial hden trivial d x N p hp hd hdp y e H o1 h (fun hne hS hE i => ?_) m r a t hm hr hmr
    obtain ⟨h1, h2, -, -, h5⟩ := nlms_runs (runs_of_safe nlms_safe (K := ℝ) (C := nlms ℝ n) o trivial d x) p
    have hpos : ∀ s : EpsExt ℝ, s = o.core.ext → (0 : ℝ) < s.eps + dot (x p) (x p) := by
      rintro s rfl
      rw [dot_real]
      exact add_pos_of_pos_of_nonneg hden (Finset.sum_nonneg fun j _ => mul_self_nonneg _)
    have key : ∀ T1 T0 w0 M mu E δ X D : ℝ, T1 = T0 + M / D * X * E → M = mu → T0 = w0 → E = δ → mu ≠ 0 → δ ≠ 0 → 0 < D →
        (T1 ≠ w0 ↔ X ≠ 0) := by
      rintro T1 T0 w0 M mu E δ X D rfl rfl rfl rfl a b c
      simp [a, b, c.ne']
    exact key _ _ _ _ _ _ _ _ _ (congrFun h5 i) h1 (congrFun hS i) hE hmu hne (hpos _ h2)
  · refine nov_share solve .sslms (by simp) o trivial hden trivial d x N p hp hd hdp y e H o1 h (fun hne hS hE i => ?_) m r a t hm hr hmr
    obtain ⟨h1, -, -, -, h5⟩ := sslms_runs (runs_of_safe sslms_safe (K := ℝ) (C := sslms ℝ n) o trivial d x) p
    have hs : ∀ a : ℝ, Scalar.sgn a = 0 ↔ a = 0 := by
      intro a
      show (if 0 < a then (1 : ℝ) else if a < 0 then -1 else 0) = 0 ↔ a = 0
      rcases lt_trichotomy a 0 with h | h | h
      · rw [if_neg (by linarith), if_pos h]; simp [h.ne]
      · simp [h]
      · rw [if_pos h]; simp [h.ne']
    have key : ∀ T1 T0 w0 M mu E δ X : ℝ, T1 = T0 + M * Scalar.sgn X * Scalar.sgn E → M = mu → T0 = w0 → E = δ → mu ≠ 0 → δ ≠ 0 →
        (T1 ≠ w0 ↔ X ≠ 0) := by
      rintro T1 T0 w0 M mu E δ X rfl rfl rfl rfl a b
      rw [not_iff_not, add_eq_left, mul_eq_zero, mul_eq_zero, hs, hs]
      tauto
    exact key _ _ _ _ _ _ _ _ (congrFun h5 i) h1 (congrFun hS i) hE hmu hne

/-- the hypotheses of `C142_disturbance` and `C142_share_of_active_inputs` are met: an NLMS filter with the weights `(1, 2)`, inputs `(1, 0)`,
targets 1 except for sample 4 -/
example : ∃ (o : Obj (classOf (n := 2) exEnv.solve .nlms)) (d : ℕ → ℝ) (x : ℕ → Vec ℝ 2) (y e : List ℝ) (H : List (Vec ℝ 2)) (o1 : Obj _),
    DenOk exEnv.solve .nlms o.core ∧ o.core.mu ≠ 0 ∧ (∀ j < 4, d j = ∑ i, o.core.w i * x j i) ∧ d 4 ≠ ∑ i, o.core.w i * x 4 i ∧
    run (classOf exEnv.solve .nlms) (series d 6) (rows x 6) o = (.ok (y, e, H.map List.ofFn), o1) := by
  obtain ⟨y, e, H, o1, h⟩ := nov_exists exEnv.solve .nlms
    (⟨⟨fun i => if i = 0 then 1 else 2, 2, 1, (⟨1⟩ : EpsExt ℝ)⟩, []⟩ : Obj (classOf (n := 2) exEnv.solve .nlms)) trivial
    (fun j => if j = 4 then 7 else 1) (fun _ i => if i = 0 then 1 else 0) 6 (by norm_num)
  refine ⟨⟨⟨fun i => if i = 0 then 1 else 2, 2, 1, (⟨1⟩ : EpsExt ℝ)⟩, []⟩, fun j => if j = 4 then 7 else 1,
    fun _ i => if i = 0 then 1 else 0, y, e, H, o1, (by norm_num : (0 : ℝ) < 1), one_ne_zero, fun j hj => ?_, ?_, h⟩
  · simp [Fin.sum_univ_two]; omega
  · simp [Fin.sum_univ_two]

end real

end Padasip
