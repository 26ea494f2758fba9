import Verif.Model.Nd
import Verif.Props.Reject
import Verif.Props.Misc
import Verif.Props.Engine

/-!
# C110, C111: a target stored as a two-dimensional array
-/

set_option linter.unusedSectionVars false
set_option linter.unusedSimpArgs false
set_option linter.unusedVariables false

namespace Padasip

/-! ## C110: `run` -/

section run
variable {K : Type} [Transc K] {n : ℕ}

theorem nd_body_single (solve : Solver K) (k : Kind) (a : K) (x : List K) :
    (ndOf (n := n) solve k).body [a] x = (classOf solve k).body a x := by
  cases k <;> rfl

theorem runLoopNd_column (solve : Solver K) (k : Kind) (l : List (K × List K)) : ∀ j : ℕ,
    runLoopNd (ndOf (n := n) solve k) j (l.map fun p => ([p.1], p.2)) = runLoop (classOf solve k) j l := by
  induction l with
  | nil => intro j; rfl
  | cons p l ih =>
    intro j
    simp only [List.map_cons, runLoopNd, runLoop, nd_body_single, ih]

/-- C110: a target given as a column (shape `(N, 1)`) is processed exactly like the series of its entries: same result or exception, same
object afterwards, for every filter. -/
theorem C110_column (solve : Solver K) (k : Kind) (d : List K) (x : List (List K)) :
    runNd (ndOf (n := n) solve k) (d.map fun a => [a]) x = run (classOf solve k) d x := by
  unfold runNd run
  rw [List.length_map]
  split
  · rfl
  · rename_i hlen
    cases x with
    | nil => rfl
    | cons x0 t =>
      have h1 : (d.map fun a => [a]).any (fun r => decide (r.length ≠ ((d.map fun a => [a]).headD []).length)) = false := by
        cases d with
        | nil => rfl
        | cons d0 dt => simp [List.any_eq_false]
      have h2 : (d.map fun a => [a]).zip (x0 :: t) = (d.zip (x0 :: t)).map fun p => ([p.1], p.2) := by
        rw [List.zip_map_left]; rfl
      simp only [h1, Bool.or_false, h2, runLoopNd_column]

theorem runNd_first_error {C : FilterClass K n} (A : NdClass C) (o : Obj C) (d : List (List K)) (c : ℕ) (x : List (Vec K n)) (hx : x ≠ [])
    (hlen : d.length = x.length) (hd : ∀ r ∈ d, r.length = c) {s' : Core K n C.Ext} {err : Err}
    (hbody : ∀ x0 ∈ x.head?, ∀ d0 ∈ d.head?, A.body d0 (List.ofFn x0) (o.core.withN n) = (.error err, s')) :
    (runNd A d (x.map List.ofFn) o).1 = .error err ∧ (runNd A d (x.map List.ofFn) o).2.core = s' := by
  cases x with
  | nil => exact absurd rfl hx
  | cons x0 t =>
    cases d with
    | nil => simp at hlen
    | cons d0 dt =>
      have hb := hbody x0 rfl d0 rfl
      have h1 : ((x0 :: t).map List.ofFn).any (fun r => decide (r.length ≠ (List.ofFn x0).length)) = false := by
        rw [List.any_eq_false]
        intro r hr
        obtain ⟨v, _, rfl⟩ := List.mem_map.mp hr
        simp
      have h2 : (d0 :: dt).any (fun r => decide (r.length ≠ ((d0 :: dt).headD []).length)) = false := by
        rw [List.any_eq_false]
        intro r hr
        have e1 := hd r hr
        have e2 := hd d0 (by simp)
        simp [e1, e2]
      unfold runNd
      rw [if_neg (by simpa using hlen)]
      simp only [List.map_cons] at h1 ⊢
      simp only [h1, h2, Bool.or_false, List.length_ofFn, M.modify_bind, List.zip_cons_cons, runLoopNd, M.bind_assoc']
      simp only [List.length_ofFn] at *
      simp only [h1, Bool.false_eq_true, if_false, M.modify_bind]
      have h3 : ∀ o' : Obj C, o'.core = o.core.withN n →
          histWrite (C := C) 0 o' = (.ok (), ⟨o.core.withN n, o'.wHist.set 0 (List.ofFn o.core.w)⟩) := by
        intro o' ho'
        obtain ⟨c', H⟩ := o'
        subst ho'
        simp [histWrite, Core.withN, M.bind_apply]
      have h4 : ∀ H, Obj.liftM (C := C) (A.body d0 (List.ofFn x0)) ⟨o.core.withN n, H⟩ = (.error err, ⟨s', H⟩) := by
        intro H
        unfold Obj.liftM
        simp only [hb]
      rw [M.bind_ok (h3 _ rfl), M.bind_error (h4 _)]
      exact ⟨rfl, rfl⟩

theorem base_wide {X : Type} (lr : K → List K → M (Core K n X) (Vec K n)) (s : Core K n X) (d0 : List K) (x0 : Vec K n) (h0 : d0.length ≠ 1) :
    baseBodyNd basePredict lr d0 (List.ofFn x0) s = (.error .valueError, s) := by
  unfold baseBodyNd
  rw [M.bind_ok (basePredict_ofFn s x0)]
  match d0, h0 with
  | [], _ => rfl
  | [a], h => exact absurd rfl h
  | _ :: _ :: _, _ => rfl

theorem oc_wide (s : Core K n (OcExt K n)) (hs : OcOk s.ext) (hn : s.nAttr = n) (d0 : List K) (x0 : Vec K n) (h0 : d0.length ≠ 1) :
    baseBodyNd ocPredict ocRule d0 (List.ofFn x0) s = (.error .valueError, { s with ext := ocAdvance s.ext }) := by
  unfold baseBodyNd
  rw [M.bind_ok (oc_predict hs hn x0)]
  match d0, h0 with
  | [], _ => rfl
  | [a], h => exact absurd rfl h
  | _ :: _ :: _, _ => rfl

theorem ap_wide (solve : Solver K) {order : ℕ} (h : 0 < order) (s : Core K n (ApExt K n order)) (d0 : List K) (x0 : Vec K n) (h0 : d0.length ≠ 1) :
    (apNd solve order).body d0 (List.ofFn x0) s = (.error .valueError, { s with ext := { s.ext with
      xMem := fun i j => if j.val = 0 then x0 i else shiftCols s.ext.xMem i j
      dMem := shiftVec s.ext.dMem } }) := by
  have hp : apPushNd d0 (List.ofFn x0) s = (.error .valueError, { s with ext := { s.ext with
      xMem := fun i j => if j.val = 0 then x0 i else shiftCols s.ext.xMem i j
      dMem := shiftVec s.ext.dMem } }) := by
    have h0' : order ≠ 0 := Nat.pos_iff_ne_zero.mp h
    simp only [apPushNd, M.modify_bind, if_neg h0', bcastVec_ofFn, M.lift_ok_bind]
    match d0, h0 with
    | [], _ => rfl
    | [a], h => exact absurd rfl h
    | _ :: _ :: _, _ => rfl
  unfold apNd
  simp only [dif_pos h]
  exact M.bind_error hp

/-- C110: a target with two or more (or no) values per sample is rejected with `ValueError` at the first sample.  Filters other than OCNLMS and
AP are unchanged except for the attribute `n` (the length of the input rows) and the zeroed weight history. -/
theorem C110_wide (solve : Solver K) (k : Kind) (hk : k ≠ .ocnlms) (hk' : ∀ p, k ≠ .ap p) (o : Obj (classOf (n := n) solve k))
    (d : List (List K)) (c : ℕ) (hc : c ≠ 1) (hd : ∀ r ∈ d, r.length = c) (x : List (Vec K n)) (hx : x ≠ []) (hlen : d.length = x.length) :
    (runNd (ndOf solve k) d (x.map List.ofFn) o).1 = .error .valueError ∧
    (runNd (ndOf solve k) d (x.map List.ofFn) o).2.core = { o.core with nAttr := n } := by
  have hd0 : ∀ d0 ∈ d.head?, d0.length ≠ 1 := by
    intro d0 h0
    rw [hd d0 (List.mem_of_mem_head? h0)]; exact hc
  cases k
  case ocnlms => exact absurd rfl hk
  case ap p => exact absurd rfl (hk' p)
  all_goals
    exact runNd_first_error (ndOf solve _) o d c x hx hlen hd (s' := o.core.withN n) (err := .valueError)
      (fun x0 _ d0 h0 => base_wide _ _ _ _ (hd0 d0 h0))

/-- C110 (OCNLMS): the same `ValueError`; the weights and the stored samples are unchanged, but the write position of the memory has moved one
slot on without anything having been stored there. -/
theorem C110_wide_ocnlms (solve : Solver K) (o : Obj (classOf (n := n) solve .ocnlms)) (ho : Ready solve .ocnlms o.core)
    (d : List (List K)) (c : ℕ) (hc : c ≠ 1) (hd : ∀ r ∈ d, r.length = c) (x : List (Vec K n)) (hx : x ≠ []) (hlen : d.length = x.length) :
    (runNd (ndOf solve .ocnlms) d (x.map List.ofFn) o).1 = .error .valueError ∧
    (let o' := (runNd (ndOf solve .ocnlms) d (x.map List.ofFn) o).2
     let q : OcExt K n := o.core.ext
     let q' : OcExt K n := o'.core.ext
     o'.core.w = o.core.w ∧ o'.core.mu = o.core.mu ∧ q'.memX = q.memX ∧ q'.memD = q.memD ∧
       q'.memIdx = (if q.memIdx + 1 = q.memX.length then 0 else q.memIdx + 1) ∧
       (q'.memEmpty = true ↔ q.memEmpty = true ∧ q.memIdx + 1 < q.memX.length)) := by
  have hd0 : ∀ d0 ∈ d.head?, d0.length ≠ 1 := by
    intro d0 h0
    rw [hd d0 (List.mem_of_mem_head? h0)]; exact hc
  have hq : OcOk (o.core.ext : OcExt K n) := ho
  obtain ⟨h1, h2⟩ := runNd_first_error (ndOf solve .ocnlms) o d c x hx hlen hd
    (s' := { o.core.withN n with ext := ocAdvance (o.core.ext : OcExt K n) }) (err := .valueError)
    (fun x0 _ d0 h0 => oc_wide (o.core.withN n) hq rfl d0 x0 (hd0 d0 h0))
  refine ⟨h1, ?_⟩
  simp only [h2]
  refine ⟨rfl, rfl, ?_⟩
  have hlt := hq.2
  unfold ocAdvance
  split
  · rename_i h
    have e : (o.core.ext : OcExt K n).memIdx + 1 = (o.core.ext : OcExt K n).memX.length := by omega
    simp [e]
  · rename_i h
    have e : (o.core.ext : OcExt K n).memIdx + 1 ≠ (o.core.ext : OcExt K n).memX.length := by omega
    have e' : (o.core.ext : OcExt K n).memIdx + 1 < (o.core.ext : OcExt K n).memX.length := by omega
    simp [e, e']

/-- C110 (AP): the same `ValueError` and unchanged weights, but the memories are left out of step: the new input has been pushed into the input
memory, while the target memory has been shifted and its newest entry is still the previous target. -/
theorem C110_wide_ap (solve : Solver K) (p : ℕ) (hp : 0 < p) (o : Obj (classOf (n := n) solve (.ap p)))
    (d : List (List K)) (c : ℕ) (hc : c ≠ 1) (hd : ∀ r ∈ d, r.length = c) (x0 : Vec K n) (x : List (Vec K n))
    (hlen : d.length = x.length + 1) :
    (runNd (ndOf solve (.ap p)) d ((x0 :: x).map List.ofFn) o).1 = .error .valueError ∧
    (let o' := (runNd (ndOf solve (.ap p)) d ((x0 :: x).map List.ofFn) o).2
     let q : ApExt K n p := o.core.ext
     let q' : ApExt K n p := o'.core.ext
     o'.core.w = o.core.w ∧ o'.core.mu = o.core.mu ∧
       (∀ i, q'.xMem i ⟨0, hp⟩ = x0 i) ∧ (∀ i (j : ℕ) (hj : j + 1 < p), q'.xMem i ⟨j + 1, hj⟩ = q.xMem i ⟨j, by omega⟩) ∧
       q'.dMem ⟨0, hp⟩ = q.dMem ⟨0, hp⟩ ∧ (∀ (j : ℕ) (hj : j + 1 < p), q'.dMem ⟨j + 1, hj⟩ = q.dMem ⟨j, by omega⟩)) := by
  have hd0 : ∀ d0 ∈ d.head?, d0.length ≠ 1 := by
    intro d0 h0
    rw [hd d0 (List.mem_of_mem_head? h0)]; exact hc
  obtain ⟨h1, h2⟩ := runNd_first_error (ndOf solve (.ap p)) o d c (x0 :: x) (by simp) (by simpa using hlen) hd
    (fun y hy d0 h0 => by
      have : x0 = y := by simpa using hy
      subst this
      exact ap_wide solve hp (o.core.withN n) d0 x0 (hd0 d0 h0))
  refine ⟨h1, ?_⟩
  simp only [h2]
  refine ⟨rfl, rfl, fun i => by simp, fun i j hj => ?_, ?_, fun j hj => ?_⟩
  · simp [shiftCols, Core.withN]
  · simp [shiftVec, Core.withN]
  · simp [shiftVec, Core.withN]

end run

/-! ## C111: the error measures -/

section measures

theorem eachRow_ok {α β : Type} {g : α → Except Err β} {f : α → β} (h : ∀ a, g a = .ok (f a)) (l : List α) :
    eachRow g l = .ok (l.map f) := by
  induction l with
  | nil => rfl
  | cons a t ih => simp only [eachRow, h, ih, List.map_cons]

theorem rowOp_single_left {K : Type} (f : K → K → K) (a : K) (b : List K) : rowOp f [a] b = .ok (b.map fun y => f a y) := by
  unfold rowOp
  split
  · rename_i h
    match b, h with
    | [y], _ => rfl
  · match b with
    | [] => rfl
    | [y] => rfl
    | _ :: _ :: _ => rfl

theorem rowOp_single_right {K : Type} (f : K → K → K) (a : List K) (b : K) : rowOp f a [b] = .ok (a.map fun x => f x b) := by
  unfold rowOp
  split
  · rename_i h
    match a, h with
    | [y], _ => rfl
  · match a with
    | [] => rfl
    | [y] => rfl
    | _ :: _ :: _ => rfl

theorem bcCols_one_left (b : ℕ) : bcCols 1 b = .ok b := by
  unfold bcCols
  split
  · simp_all
  · split <;> simp_all

theorem bcCols_one_right (a : ℕ) : bcCols a 1 = .ok a := by
  unfold bcCols
  split <;> simp_all

/-- C111: on one-dimensional series the functions are the ones of C43 to C47. -/
theorem C111_series {K : Type} [Transc K] (x1 : List K) (x2 : Option (List K)) :
    MAEnd (.one x1) (x2.map .one) = MAE x1 x2 ∧ MSEnd (.one x1) (x2.map .one) = (MSE x1 x2).map .num ∧
    RMSEnd (.one x1) (x2.map .one) = (RMSE x1 x2).map .num := by
  cases x2 with
  | none => exact ⟨rfl, rfl, rfl⟩
  | some x2 =>
    have key : getValidErrorNd (.one x1) (some (.one x2)) = (getValidError x1 (some x2)).map .one := by
      simp only [getValidErrorNd, getValidError, NArr.size0, ndSub]
      by_cases h : x1.length = x2.length
      · simp only [h, ne_eq, not_true, if_false]; rfl
      · simp only [h, ne_eq, not_false_eq_true, if_true]; rfl
    unfold MAEnd MSEnd RMSEnd MAE MSE RMSE
    rw [Option.map_some, key]
    cases getValidError x1 (some x2) <;> exact ⟨rfl, rfl, rfl⟩

theorem ndSub_column {K : Type} [Scalar K] {N : ℕ} (a b : Fin N → K) :
    getValidErrorNd (.two 1 (List.ofFn fun i => [a i])) (some (.one (List.ofFn b)))
      = .ok (.two N (List.ofFn fun i => List.ofFn fun j => a i - b j)) := by
  have h1 : ∀ r : Fin N, rowOp (fun x y : K => x - y) [a r] (List.ofFn b) = .ok (List.ofFn fun j => a r - b j) := by
    intro r; rw [rowOp_single_left, List.map_ofFn]; rfl
  have h2 : eachRow (fun r => rowOp (fun x y : K => x - y) r (List.ofFn b)) (List.ofFn fun i => [a i])
      = .ok (List.ofFn fun i => List.ofFn fun j => a i - b j) := by
    have : ∀ l : List (Fin N), eachRow (fun r => rowOp (fun x y : K => x - y) r (List.ofFn b)) (l.map fun i => [a i])
        = .ok (l.map fun i => List.ofFn fun j => a i - b j) := by
      intro l
      induction l with
      | nil => rfl
      | cons i t ih => simp only [List.map_cons, eachRow, h1, ih]
    simpa [List.map_ofFn, Function.comp_def, List.ofFn_eq_map] using this (List.finRange N)
  simp only [getValidErrorNd, NArr.size0, List.length_ofFn, ne_eq, not_true, if_false, ndSub, bcCols_one_left, h2]
  rfl

theorem ndSub_row {K : Type} [Scalar K] {N : ℕ} (a b : Fin N → K) :
    getValidErrorNd (.one (List.ofFn a)) (some (.two 1 (List.ofFn fun i => [b i])))
      = .ok (.two N (List.ofFn fun i => List.ofFn fun j => a j - b i)) := by
  have h1 : ∀ r : Fin N, rowOp (fun x y : K => x - y) (List.ofFn a) [b r] = .ok (List.ofFn fun j => a j - b r) := by
    intro r; rw [rowOp_single_right, List.map_ofFn]; rfl
  have h2 : eachRow (fun r => rowOp (fun x y : K => x - y) (List.ofFn a) r) (List.ofFn fun i => [b i])
      = .ok (List.ofFn fun i => List.ofFn fun j => a j - b i) := by
    have : ∀ l : List (Fin N), eachRow (fun r => rowOp (fun x y : K => x - y) (List.ofFn a) r) (l.map fun i => [b i])
        = .ok (l.map fun i => List.ofFn fun j => a j - b i) := by
      intro l
      induction l with
      | nil => rfl
      | cons i t ih => simp only [List.map_cons, eachRow, h1, ih]
    simpa [List.map_ofFn, Function.comp_def, List.ofFn_eq_map] using this (List.finRange N)
  simp only [getValidErrorNd, NArr.size0, List.length_ofFn, ne_eq, not_true, if_false, ndSub, bcCols_one_right, h2]
  rfl

theorem absSum_ofFn {N : ℕ} (f : Fin N → Fin N → ℝ) :
    ndAbsSum (.two N (List.ofFn fun i => List.ofFn fun j => f i j)) = ∑ i, ∑ j, |f i j| := by
  simp [ndAbsSum, List.map_ofFn, List.sum_ofFn, Scalar.abs, Function.comp_def]

/-- C111: `MAE` of a column against a series is accepted and compares every value with every value. -/
theorem C111_mae_column {N : ℕ} (hN : 0 < N) (a b : Fin N → ℝ) :
    MAEnd (.two 1 (List.ofFn fun i => [a i])) (some (.one (List.ofFn b))) = .ok ((∑ i, ∑ j, |a i - b j|) / N) ∧
    MAEnd (.one (List.ofFn a)) (some (.two 1 (List.ofFn fun i => [b i]))) = .ok ((∑ i, ∑ j, |a i - b j|) / N) := by
  constructor
  · unfold MAEnd
    rw [ndSub_column]
    show Except.ok _ = _
    rw [absSum_ofFn]
    simp [NArr.size0, Scalar.nat]
  · unfold MAEnd
    rw [ndSub_row]
    show Except.ok _ = _
    rw [absSum_ofFn, Finset.sum_comm]
    simp [NArr.size0, Scalar.nat]

/-- C111: that value is never below the mean absolute error of the two series, and for a perfect prediction it is zero only when the series is
constant. -/
theorem C111_mae_column_wrong {N : ℕ} (hN : 0 < N) (a b : Fin N → ℝ) (v : ℝ)
    (hv : MAEnd (.two 1 (List.ofFn fun i => [a i])) (some (.one (List.ofFn b))) = .ok v) :
    (∑ i, |a i - b i|) / N ≤ v ∧ (a = b → (v = 0 ↔ ∀ i j, a i = a j)) := by
  rw [(C111_mae_column hN a b).1] at hv
  obtain rfl := Except.ok.inj hv
  have hN' : (0 : ℝ) < N := by exact_mod_cast hN
  refine ⟨?_, ?_⟩
  · apply div_le_div_of_nonneg_right _ hN'.le
    apply Finset.sum_le_sum
    intro i _
    exact Finset.single_le_sum (f := fun j => |a i - b j|) (fun j _ => abs_nonneg _) (Finset.mem_univ i)
  · rintro rfl
    rw [div_eq_zero_iff, or_iff_left hN'.ne', Finset.sum_eq_zero_iff_of_nonneg (fun i _ => Finset.sum_nonneg fun j _ => abs_nonneg _)]
    simp only [Finset.mem_univ, true_imp_iff]
    refine forall_congr' fun i => ?_
    rw [Finset.sum_eq_zero_iff_of_nonneg (fun j _ => abs_nonneg _)]
    simp [sub_eq_zero]

theorem ndDot_ofFn {N : ℕ} (f : Fin N → Fin N → ℝ) :
    ndDot (.two N (List.ofFn fun i => List.ofFn fun j => f i j)) = .ok (.mat (List.ofFn fun i => List.ofFn fun j => ∑ k, f i k * f k j)) := by
  simp only [ndDot]
  rw [if_neg (by simp)]
  congr 2
  rw [List.map_ofFn]
  congr 1
  funext i
  apply List.ext_getElem
  · simp
  · intro j h1 h2
    have hj : j < N := by simpa using h1
    have hz : List.zipWith (fun (a : ℝ) s => a * entry s j) (List.ofFn fun k => f i k) (List.ofFn fun k => List.ofFn fun j => f k j)
        = List.ofFn fun k => f i k * f k ⟨j, hj⟩ := by
      apply List.ext_getElem
      · simp
      · intro m h1 h2; simp [entry, hj]
    simp only [Function.comp_apply, List.getElem_map, List.getElem_range, List.getElem_ofFn, hz]
    exact List.sum_ofFn

/-- C111: `MSE` of a column against a series returns a matrix; its entry `(i, j)` is the mean of `(a_i - b_k)(a_k - b_j)`. -/
theorem C111_mse_column {N : ℕ} (hN : 0 < N) (a b : Fin N → ℝ) :
    MSEnd (.two 1 (List.ofFn fun i => [a i])) (some (.one (List.ofFn b)))
      = .ok (.mat (List.ofFn fun i => List.ofFn fun j => (∑ k, (a i - b k) * (a k - b j)) / N)) := by
  unfold MSEnd
  rw [ndSub_column]
  show (do let v ← ndDot _; pure _ : Except Err (NVal ℝ)) = _
  rw [ndDot_ofFn]
  show Except.ok _ = _
  simp [NVal.map, NArr.size0, Scalar.nat, List.map_ofFn, Function.comp_def]

/-- C111: for a perfect prediction the diagonal of that matrix is minus the mean squared distance of a value from the others: not one entry
of the diagonal is positive, and all are negative unless the series is constant. -/
theorem C111_mse_column_negative {N : ℕ} (hN : 0 < N) (a : Fin N → ℝ) :
    ∃ A : Fin N → Fin N → ℝ,
      MSEnd (.two 1 (List.ofFn fun i => [a i])) (some (.one (List.ofFn a))) = .ok (.mat (List.ofFn fun i => List.ofFn (A i))) ∧
      (∀ i, A i i = -((∑ k, (a i - a k) ^ 2) / N)) ∧ ((∃ i j, a i ≠ a j) → ∀ i, A i i < 0) := by
  refine ⟨_, C111_mse_column hN a a, ?_, ?_⟩
  · intro i
    rw [← neg_div, ← Finset.sum_neg_distrib]
    congr 1
    exact Finset.sum_congr rfl fun k _ => by ring
  · rintro ⟨p, q, hpq⟩ i
    have hN' : (0 : ℝ) < N := by exact_mod_cast hN
    apply div_neg_of_neg_of_pos _ hN'
    have : ∑ k, (a i - a k) * (a k - a i) = -∑ k, (a i - a k) ^ 2 := by
      rw [← Finset.sum_neg_distrib]
      exact Finset.sum_congr rfl fun k _ => by ring
    rw [this, neg_lt_zero]
    have hex : ∃ k, a i ≠ a k := by
      by_contra hcon
      push Not at hcon
      exact hpq ((hcon p).symm.trans (hcon q))
    obtain ⟨k, hk⟩ := hex
    exact Finset.sum_pos' (fun k _ => sq_nonneg _) ⟨k, Finset.mem_univ k, by have := sub_ne_zero.mpr hk; positivity⟩

/-- C111: two columns (or one column with the error): `MAE` is the mean absolute error, `MSE` and `RMSE` raise `ValueError` unless there is
exactly one sample. -/
theorem C111_columns {N : ℕ} (hN : 0 < N) (a b : Fin N → ℝ) :
    MAEnd (.two 1 (List.ofFn fun i => [a i])) (some (.two 1 (List.ofFn fun i => [b i]))) = .ok ((∑ i, |a i - b i|) / N) ∧
    MAEnd (.two 1 (List.ofFn fun i => [a i])) none = .ok ((∑ i, |a i|) / N) ∧
    (N ≠ 1 →
      MSEnd (.two 1 (List.ofFn fun i => [a i])) (some (.two 1 (List.ofFn fun i => [b i]))) = .error .valueError ∧
      MSEnd (.two 1 (List.ofFn fun i => [a i])) none = .error .valueError ∧
      RMSEnd (.two 1 (List.ofFn fun i => [a i])) (some (.two 1 (List.ofFn fun i => [b i]))) = .error .valueError ∧
      RMSEnd (.two 1 (List.ofFn fun i => [a i])) none = .error .valueError) ∧
    (N = 1 → MSEnd (.two 1 (List.ofFn fun i => [a i])) (some (.two 1 (List.ofFn fun i => [b i])))
      = .ok (.mat [[(∑ i, (a i - b i) ^ 2) / N]])) := by
  have hsub : getValidErrorNd (.two 1 (List.ofFn fun i => [a i])) (some (.two 1 (List.ofFn fun i => [b i])))
      = .ok (.two 1 (List.ofFn fun i => [a i - b i])) := by
    have hz : (List.ofFn fun i => [a i]).zip (List.ofFn fun i => [b i]) = List.ofFn fun i => ([a i], [b i]) := by
      apply List.ext_getElem
      · simp
      · intro m h1 h2; simp
    have h2 : eachRow (fun p : List ℝ × List ℝ => rowOp (fun x y : ℝ => x - y) p.1 p.2) (List.ofFn fun i => ([a i], [b i]))
        = .ok (List.ofFn fun i => [a i - b i]) := by
      have : ∀ l : List (Fin N), eachRow (fun p : List ℝ × List ℝ => rowOp (fun x y : ℝ => x - y) p.1 p.2) (l.map fun i => ([a i], [b i]))
          = .ok (l.map fun i => [a i - b i]) := by
        intro l
        induction l with
        | nil => rfl
        | cons i t ih => simp only [List.map_cons, eachRow, rowOp_single_left, ih, List.map_nil]
      simpa [List.map_ofFn, Function.comp_def, List.ofFn_eq_map] using this (List.finRange N)
    simp only [getValidErrorNd, NArr.size0, List.length_ofFn, ne_eq, not_true, if_false, ndSub, bcCols_one_left, hz, h2]
    rfl
  have hab : ∀ c : Fin N → ℝ, ndAbsSum (.two 1 (List.ofFn fun i => [c i])) = ∑ i, |c i| := by
    intro c; simp [ndAbsSum, List.map_ofFn, List.sum_ofFn, Scalar.abs, Function.comp_def]
  have hdot : N ≠ 1 → ∀ c : Fin N → ℝ, ndDot (.two 1 (List.ofFn fun i => [c i])) = .error .valueError := by
    intro h c
    simp only [ndDot]
    rw [if_pos (by simpa using Ne.symm h)]
  refine ⟨?_, ?_, fun h => ⟨?_, ?_, ?_, ?_⟩, ?_⟩
  · unfold MAEnd
    rw [hsub]
    show Except.ok _ = _
    rw [hab]
    simp [NArr.size0, Scalar.nat]
  · show Except.ok _ = _
    rw [hab]
    simp [NArr.size0, Scalar.nat]
  · unfold MSEnd
    rw [hsub]
    show (do let v ← ndDot _; pure _ : Except Err (NVal ℝ)) = _
    rw [hdot h]; rfl
  · show (do let v ← ndDot _; pure _ : Except Err (NVal ℝ)) = _
    rw [hdot h]; rfl
  · unfold RMSEnd
    rw [hsub]
    show (do let v ← ndDot _; pure _ : Except Err (NVal ℝ)) = _
    rw [hdot h]; rfl
  · show (do let v ← ndDot _; pure _ : Except Err (NVal ℝ)) = _
    rw [hdot h]; rfl
  · rintro rfl
    unfold MSEnd
    rw [hsub]
    have h1 : ndDot (.two 1 (List.ofFn fun i : Fin 1 => [a i - b i])) = .ok (.mat [[(a 0 - b 0) * (a 0 - b 0)]]) := by
      simp [ndDot, entry]
    show (do let v ← ndDot (.two 1 (List.ofFn fun i : Fin 1 => [a i - b i])); pure _ : Except Err (NVal ℝ)) = _
    rw [h1]
    show Except.ok _ = _
    simp [NVal.map, NArr.size0, Scalar.nat, pow_two, entry]

/-- C111: tables with different numbers of columns, neither of them 1, are refused with `ValueError` by all three measures; so is a table against a series whose length is not the
number of columns (and no table of one column). -/
theorem C111_mismatch {N a b : ℕ} (ra rb : List (List ℝ)) (l : List ℝ) (ha : ra.length = N) (hb : rb.length = N) (hl : l.length = N)
    (h1 : a ≠ 1) :
    (a ≠ b → b ≠ 1 → MAEnd (.two a ra) (some (.two b rb)) = .error .valueError ∧ MSEnd (.two a ra) (some (.two b rb)) = .error .valueError ∧
      RMSEnd (.two a ra) (some (.two b rb)) = .error .valueError) ∧
    (a ≠ N → N ≠ 1 → MAEnd (.two a ra) (some (.one l)) = .error .valueError ∧ MSEnd (.two a ra) (some (.one l)) = .error .valueError ∧
      RMSEnd (.two a ra) (some (.one l)) = .error .valueError ∧ MAEnd (.one l) (some (.two a ra)) = .error .valueError ∧
      MSEnd (.one l) (some (.two a ra)) = .error .valueError ∧ RMSEnd (.one l) (some (.two a ra)) = .error .valueError) := by
  have e1 : ∀ p q : ℕ, p ≠ q → p ≠ 1 → q ≠ 1 → bcCols p q = .error .valueError := by
    intro p q h h' h''
    simp [bcCols, h, h', h'']
  constructor
  · intro h h2
    have hv : getValidErrorNd (K := ℝ) (.two a ra) (some (.two b rb)) = .error .valueError := by
      simp only [getValidErrorNd, NArr.size0, ha, hb, ne_eq, not_true, if_false, ndSub, e1 a b h h1 h2]
      rfl
    refine ⟨?_, ?_, ?_⟩
    · unfold MAEnd; rw [hv]; rfl
    · unfold MSEnd; rw [hv]; rfl
    · unfold RMSEnd; rw [hv]; rfl
  · intro h h2
    have hv : getValidErrorNd (K := ℝ) (.two a ra) (some (.one l)) = .error .valueError := by
      simp only [getValidErrorNd, NArr.size0, ha, hl, ne_eq, not_true, if_false, ndSub, e1 a N h h1 h2]
      rfl
    have hv' : getValidErrorNd (K := ℝ) (.one l) (some (.two a ra)) = .error .valueError := by
      simp only [getValidErrorNd, NArr.size0, ha, hl, ne_eq, not_true, if_false, ndSub, e1 N a (Ne.symm h) h2 h1]
      rfl
    refine ⟨?_, ?_, ?_, ?_, ?_, ?_⟩
    · unfold MAEnd; rw [hv]; rfl
    · unfold MSEnd; rw [hv]; rfl
    · unfold RMSEnd; rw [hv]; rfl
    · unfold MAEnd; rw [hv']; rfl
    · unfold MSEnd; rw [hv']; rfl
    · unfold RMSEnd; rw [hv']; rfl

/-- C111: two tables of the same shape `(N, c)`: `MAE` divides the sum over all entries by the number of rows, so it is `c` times the mean absolute error per entry; `MSE` and `RMSE`
raise `ValueError` unless the tables are square. -/
theorem C111_tables {N c : ℕ} (hN : 0 < N) (a b : Fin N → Fin c → ℝ) :
    MAEnd (.two c (List.ofFn fun i => List.ofFn (a i))) (some (.two c (List.ofFn fun i => List.ofFn (b i)))) = .ok ((∑ i, ∑ j, |a i j - b i j|) / N) ∧
    (c ≠ N → MSEnd (.two c (List.ofFn fun i => List.ofFn (a i))) (some (.two c (List.ofFn fun i => List.ofFn (b i)))) = .error .valueError ∧
      RMSEnd (.two c (List.ofFn fun i => List.ofFn (a i))) (some (.two c (List.ofFn fun i => List.ofFn (b i)))) = .error .valueError) := by
  have hrow : ∀ i, rowOp (fun x y : ℝ => x - y) (List.ofFn (a i)) (List.ofFn (b i)) = .ok (List.ofFn fun j => a i j - b i j) := by
    intro i
    unfold rowOp
    rw [if_pos (by simp)]
    congr 1
    apply List.ext_getElem
    · simp
    · intro m h1 h2; simp
  have hsub : getValidErrorNd (.two c (List.ofFn fun i => List.ofFn (a i))) (some (.two c (List.ofFn fun i => List.ofFn (b i))))
      = .ok (.two c (List.ofFn fun i => List.ofFn fun j => a i j - b i j)) := by
    have hz : (List.ofFn fun i => List.ofFn (a i)).zip (List.ofFn fun i => List.ofFn (b i)) = List.ofFn fun i => (List.ofFn (a i), List.ofFn (b i)) := by
      apply List.ext_getElem
      · simp
      · intro m h1 h2; simp
    have h2 : eachRow (fun p : List ℝ × List ℝ => rowOp (fun x y : ℝ => x - y) p.1 p.2) (List.ofFn fun i => (List.ofFn (a i), List.ofFn (b i)))
        = .ok (List.ofFn fun i => List.ofFn fun j => a i j - b i j) := by
      have : ∀ l : List (Fin N), eachRow (fun p : List ℝ × List ℝ => rowOp (fun x y : ℝ => x - y) p.1 p.2) (l.map fun i => (List.ofFn (a i), List.ofFn (b i)))
          = .ok (l.map fun i => List.ofFn fun j => a i j - b i j) := by
        intro l
        induction l with
        | nil => rfl
        | cons i t ih => simp only [List.map_cons, eachRow, hrow, ih]
      simpa [List.map_ofFn, Function.comp_def, List.ofFn_eq_map] using this (List.finRange N)
    simp only [getValidErrorNd, NArr.size0, List.length_ofFn, ne_eq, not_true, if_false, ndSub, hz, h2]
    simp [bcCols]
    rfl
  refine ⟨?_, fun h => ⟨?_, ?_⟩⟩
  · unfold MAEnd
    rw [hsub]
    show Except.ok _ = _
    simp [ndAbsSum, List.map_ofFn, List.sum_ofFn, Scalar.abs, Function.comp_def, NArr.size0, Scalar.nat]
  · unfold MSEnd
    rw [hsub]
    show (do let v ← ndDot _; pure _ : Except Err (NVal ℝ)) = _
    simp only [ndDot]
    rw [if_pos (by simpa using h)]; rfl
  · unfold RMSEnd
    rw [hsub]
    show (do let v ← ndDot _; pure _ : Except Err (NVal ℝ)) = _
    simp only [ndDot]
    rw [if_pos (by simpa using h)]; rfl

/-- Filter a column target with any filter, then evaluate: `run` gives the right errors, `MAE(e)` the right value, but `MAE(d, y)` with the
column `d` compares every target with every output. -/
theorem C111_trap {n N : ℕ} (hN : 0 < N) (solve : Solver ℝ) (k : Kind) (o : Obj (classOf (n := n) solve k)) (ho : Ready solve k o.core)
    (d : Fin N → ℝ) (x : Fin N → Vec ℝ n) :
    ∃ (y e : Fin N → ℝ) (W : List (List ℝ)),
      (runNd (ndOf (n := n) solve k) (List.ofFn fun i => [d i]) (List.ofFn fun i => List.ofFn (x i)) o).1
        = .ok (List.ofFn y, List.ofFn e, W) ∧
      (run (classOf solve k) (List.ofFn d) (List.ofFn fun i => List.ofFn (x i)) o).1 = .ok (List.ofFn y, List.ofFn e, W) ∧
      MAEnd (.two 1 (List.ofFn fun i => [d i])) (some (.one (List.ofFn y))) = .ok ((∑ i, ∑ j, |d i - y j|) / N) ∧
      MAE (List.ofFn d) (some (List.ofFn y)) = .ok ((∑ i, |d i - y i|) / N) := by
  have hm : (List.ofFn fun i => [d i]) = (List.ofFn d).map fun a => [a] := by rw [List.map_ofFn]; rfl
  obtain ⟨y, e, W, o', h1, h2, h3, -, -⟩ := C01_run_total solve k o ho (List.ofFn d) (List.ofFn fun i => List.ofFn (x i))
    (by simp) (by intro h; have := congrArg List.length h; simp at this; omega)
    (by intro r hr; simp only [List.mem_ofFn] at hr; obtain ⟨i, rfl⟩ := hr; simp)
  obtain ⟨N1, y, rfl, e1⟩ := exists_ofFn y
  obtain ⟨N2, e, rfl, e2⟩ := exists_ofFn e
  have hN1 : N1 = N := by simpa using h2
  have hN2 : N2 = N := by simpa using h3
  subst hN1
  subst hN2
  refine ⟨y, e, W, ?_, ?_, (C111_mae_column hN d y).1, ?_⟩
  · rw [hm, C110_column, h1]
  · rw [h1]
  have hz : List.zipWith (fun x y : ℝ => x - y) (List.ofFn d) (List.ofFn y) = List.ofFn fun i => d i - y i := by
    apply List.ext_getElem
    · simp
    · intro m h1 h2; simp
  unfold MAE getValidError
  simp only [List.length_ofFn, ne_eq, not_true, if_false]
  rw [hz]
  simp [List.map_ofFn, List.sum_ofFn, Scalar.nat, Scalar.abs, Function.comp_def]

/-! ### The hypotheses are met -/

/-- A two-column target, two samples: rejected. -/
example : ∃ (d : List (List ℚ)) (x : List (Vec ℚ 1)), (∀ r ∈ d, r.length = 2) ∧ x ≠ [] ∧ d.length = x.length :=
  ⟨[[1, 2], [3, 4]], [fun _ => 1, fun _ => 2], by decide, by simp, rfl⟩

/-- A perfectly predicted, non-constant series `(1, 2, 4)`: `MAE` of the column against the series is `4`, not `0`. -/
example : MAEnd (.two 1 (List.ofFn fun i => [(![1, 2, 4] : Fin 3 → ℝ) i])) (some (.one (List.ofFn (![1, 2, 4] : Fin 3 → ℝ)))) = .ok 4 := by
  rw [(C111_mae_column (by norm_num) _ _).1]
  congr 1
  simp [Fin.sum_univ_three]
  norm_num [abs_of_neg, abs_of_pos]

example : ∃ i j, (![1, 2, 4] : Fin 3 → ℝ) i ≠ (![1, 2, 4] : Fin 3 → ℝ) j := ⟨0, 1, by norm_num⟩

end measures

end Padasip
