import Verif.Props.Ap
import Mathlib.LinearAlgebra.Dimension.Finite
import Mathlib.LinearAlgebra.Dimension.Constructions
import Mathlib.LinearAlgebra.FiniteDimensional.Basic

/-!
# C143: the AP filter without regularisation (`ifc = 0`)

`np.linalg.solve` raises for a singular matrix, after the sample has been stored in the memory of the filter.  So the memory moves on although
`adapt` raised, and the filter may begin to work later.
-/

set_option linter.unusedSectionVars false
set_option linter.unusedSimpArgs false
set_option linter.unusedVariables false

namespace Padasip

open Finset

/-! ## A run that raises in the middle -/

section crash
variable {K : Type} [Scalar K] {n : ℕ}

/-- sample `j` is processed without an exception, by a filter whose attribute `n` is right -/
def OkAt (C : FilterClass K n) (s : Core K n C.Ext) (d : ℕ → K) (x : ℕ → Vec K n) (j : ℕ) : Prop :=
  (C.body (d j) (List.ofFn (x j)) (traj C s d x j)).1 = .ok (outAt C s d x j) ∧ (traj C s d x j).nAttr = n

theorem hist_step {C : FilterClass K n} {s : Core K n C.Ext} {d : ℕ → K} {x : ℕ → Vec K n} {k : ℕ} (h : (traj C s d x k).nAttr = n)
    (H : List (List K)) : histWrite (C := C) k ⟨traj C s d x k, H⟩
        = (.ok (), ⟨traj C s d x k, H.set k (List.ofFn (wAt C s d x k))⟩) := by
  simp [histWrite, h, wAt]

theorem take_set_succ {α : Type} (H : List α) (k : ℕ) (a : α) (hk : k < H.length) : (H.set k a).take (k + 1) = H.take k ++ [a] := by
  rw [List.take_add_one, List.take_set_of_le (by omega)]
  simp [hk]

/-- the loop, as long as no sample raises -/
theorem runLoop_ok {C : FilterClass K n} {s : Core K n C.Ext} (d : ℕ → K) (x : ℕ → Vec K n) (m : ℕ) :
    ∀ (k : ℕ) (H : List (List K)), k + m ≤ H.length → (∀ j, k ≤ j → j < k + m → OkAt C s d x j) →
    runLoop C k (series (fun j => (d (k + j), List.ofFn (x (k + j)))) m) ⟨traj C s d x k, H⟩
      = (.ok (series (fun j => (outAt C s d x (k + j)).1) m, series (fun j => (outAt C s d x (k + j)).2) m),
         ⟨traj C s d x (k + m), H.take k ++ series (fun j => List.ofFn (wAt C s d x (k + j))) m ++ H.drop (k + m)⟩) := by
  induction m with
  | zero => intro k H _ _; simp [runLoop]
  | succ m ih =>
    intro k H hH hok
    obtain ⟨hb, h2⟩ := hok k le_rfl (by omega)
    rw [series_succ]
    simp only [runLoop, Nat.add_zero]
    have hb' : C.body (d k) (List.ofFn (x k)) (traj C s d x k) = (.ok (outAt C s d x k), traj C s d x (k + 1)) := Prod.ext hb rfl
    rw [M.bind_ok (hist_step h2 H), M.bind_ok (liftM_ok (o := ⟨traj C s d x k, _⟩) hb')]
    have := ih (k + 1) (H.set k (List.ofFn (wAt C s d x k))) (by simp; omega) fun j h1 h2 => hok j (by omega) (by omega)
    have e1 : (fun j => (d (k + (j + 1)), List.ofFn (x (k + (j + 1)))))
        = fun j => (d (k + 1 + j), List.ofFn (x (k + 1 + j))) := by
      funext j; rw [Nat.add_right_comm, Nat.add_assoc]
    rw [e1, M.bind_ok this]
    simp only [M.pure_apply, series_succ, Nat.add_zero]
    have e2 : ∀ j, k + 1 + j = k + (j + 1) := by intro j; omega
    have e3 : k + 1 + m = k + (m + 1) := by omega
    simp only [e2, e3]
    congr 2
    rw [take_set_succ _ _ _ (by omega), List.drop_set_of_lt (by omega)]
    simp

/-- the loop, when sample `k+q` is the first to raise -/
theorem runLoop_crash {C : FilterClass K n} {s : Core K n C.Ext} (d : ℕ → K) (x : ℕ → Vec K n) (er : Err) (r q : ℕ) :
    ∀ (k : ℕ) (H : List (List K)), k + (q + 1) ≤ H.length → (∀ j, k ≤ j → j < k + q → OkAt C s d x j) →
    (C.body (d (k + q)) (List.ofFn (x (k + q))) (traj C s d x (k + q))).1 = .error er → (traj C s d x (k + q)).nAttr = n →
    runLoop C k (series (fun j => (d (k + j), List.ofFn (x (k + j)))) (q + 1 + r)) ⟨traj C s d x k, H⟩
      = (.error er,
         ⟨traj C s d x (k + q + 1), H.take k ++ series (fun j => List.ofFn (wAt C s d x (k + j))) (q + 1) ++ H.drop (k + q + 1)⟩) := by
  induction q with
  | zero =>
    intro k H hH _ hbad hn
    rw [show 0 + 1 + r = r + 1 by omega, series_succ]
    simp only [runLoop, Nat.add_zero] at hbad hn ⊢
    have hb' : C.body (d k) (List.ofFn (x k)) (traj C s d x k) = (.error er, traj C s d x (k + 1)) := Prod.ext hbad rfl
    rw [M.bind_ok (hist_step hn H), M.bind_error (liftM_eq (o := ⟨traj C s d x k, _⟩) hb')]
    congr 2
    rw [series_succ]
    apply List.ext_getElem?
    intro i
    simp only [series, List.range_zero, List.map_nil, Nat.add_zero, List.append_assoc, List.cons_append, List.nil_append]
    rw [List.set_eq_take_append_cons_drop, if_pos (by omega)]
  | succ q ih =>
    intro k H hH hok hbad hn
    obtain ⟨hb, h2⟩ := hok k le_rfl (by omega)
    rw [show q + 1 + 1 + r = (q + 1 + r) + 1 by omega, series_succ]
    simp only [runLoop, Nat.add_zero]
    have hb' : C.body (d k) (List.ofFn (x k)) (traj C s d x k) = (.ok (outAt C s d x k), traj C s d x (k + 1)) := Prod.ext hb rfl
    rw [M.bind_ok (hist_step h2 H), M.bind_ok (liftM_ok (o := ⟨traj C s d x k, _⟩) hb')]
    have e0 : k + (q + 1) = k + 1 + q := by omega
    rw [e0] at hbad hn
    have := ih (k + 1) (H.set k (List.ofFn (wAt C s d x k))) (by simp; omega) (fun j h1 h2 => hok j (by omega) (by omega)) hbad hn
    have e1 : (fun j => (d (k + (j + 1)), List.ofFn (x (k + (j + 1)))))
        = fun j => (d (k + 1 + j), List.ofFn (x (k + 1 + j))) := by
      funext j; rw [Nat.add_right_comm, Nat.add_assoc]
    rw [e1, M.bind_error this]
    have e2 : ∀ j, k + 1 + j = k + (j + 1) := by intro j; omega
    rw [series_succ (fun j => List.ofFn (wAt C s d x (k + j)))]
    simp only [e2, Nat.add_zero]
    congr 2
    rw [take_set_succ _ _ _ (by omega), List.drop_set_of_lt (by omega)]
    simp only [List.append_assoc, List.cons_append, List.nil_append]

theorem run_loop_eq {C : FilterClass K n} (o : Obj C) (d : ℕ → K) (x : ℕ → Vec K n) (N : ℕ) (hN : 0 < N) :
    run C (series d N) (rows x N) o
      = (runLoop C 0 (series (fun j => (d (0 + j), List.ofFn (x (0 + j)))) N) >>= fun p => M.get >>= fun o => pure (p.1, p.2, o.wHist))
        ⟨o.core.withN n, List.replicate N (List.replicate n 0)⟩ := by
  obtain ⟨N, rfl⟩ : ∃ M, N = M + 1 := ⟨N - 1, by omega⟩
  have hr : rows x (N + 1) = List.ofFn (x 0) :: rows (fun k => x (k + 1)) N := by
    rw [rows_eq_series, series_succ]; rfl
  have hz : (series d (N + 1)).zip (rows x (N + 1))
      = series (fun j => (d (0 + j), List.ofFn (x (0 + j)))) (N + 1) := by
    simp only [rows, series, Nat.zero_add]
    rw [List.zip_map']
  have hany : (rows x (N + 1)).any
      (fun r => decide (r.length ≠ (List.ofFn (x 0)).length)) = false := by
    rw [List.any_eq_false]
    intro r hr
    simp only [rows, List.mem_map] at hr
    obtain ⟨k, -, rfl⟩ := hr
    simp
  have hlen : (rows x (N + 1)).length = N + 1 := by simp
  rw [hr, run_cons, ← hr, if_neg (by simp), hany, if_neg (by simp), hz, hlen]
  simp

theorem run_ok_upto {C : FilterClass K n} (o : Obj C) (d : ℕ → K) (x : ℕ → Vec K n) (N : ℕ) (hN : 0 < N)
    (hok : ∀ j < N, OkAt C (o.core.withN n) d x j) :
    run C (series d N) (rows x N) o
      = (.ok (series (fun k => (outAt C (o.core.withN n) d x k).1) N,
            series (fun k => (outAt C (o.core.withN n) d x k).2) N,
            series (fun k => List.ofFn (wAt C (o.core.withN n) d x k)) N),
         ⟨traj C (o.core.withN n) d x N, series (fun k => List.ofFn (wAt C (o.core.withN n) d x k)) N⟩) := by
  rw [run_loop_eq o d x N hN]
  have := runLoop_ok (C := C) (s := o.core.withN n) d x N 0 (List.replicate N (List.replicate n 0)) (by simp)
    fun j _ hj => hok j (by omega)
  simp only [traj] at this
  rw [M.bind_ok this]
  simp [M.get_bind, traj]

/-- `run` when sample `p` is the first to raise: the exception leaves `run`, the filter is in the state in which the failing sample left it,
and the attribute `w_history` has the rows `0..p` filled, zeros in the others. -/
theorem run_crash {C : FilterClass K n} (o : Obj C) (d : ℕ → K) (x : ℕ → Vec K n) (N p : ℕ) (hp : p < N) (er : Err)
    (hok : ∀ j < p, OkAt C (o.core.withN n) d x j)
    (hbad : (C.body (d p) (List.ofFn (x p)) (traj C (o.core.withN n) d x p)).1 = .error er)
    (hn : (traj C (o.core.withN n) d x p).nAttr = n) :
    run C (series d N) (rows x N) o
      = (.error er, ⟨traj C (o.core.withN n) d x (p + 1),
          series (fun k => List.ofFn (wAt C (o.core.withN n) d x k)) (p + 1) ++ List.replicate (N - (p + 1)) (List.replicate n 0)⟩) := by
  rw [run_loop_eq o d x N (by omega)]
  have := runLoop_crash (C := C) (s := o.core.withN n) d x er (N - (p + 1)) p 0 (List.replicate N (List.replicate n 0)) (by simp; omega)
    (fun j _ hj => hok j (by omega)) (by simpa using hbad) (by simpa using hn)
  rw [show p + 1 + (N - (p + 1)) = N by omega] at this
  simp only [traj] at this
  rw [M.bind_error this]
  simp [traj]

end crash

variable {K : Type} [Field K] [LinearOrder K] [IsStrictOrderedRing K] {n order : ℕ}

/-- The filter after `for k in range(N): try: f.adapt(d[k], x[k]) except: pass`. -/
def afterAdapts (C : FilterClass K n) (o : Obj C) (d : ℕ → K) (x : ℕ → Vec K n) : ℕ → Obj C
  | 0 => o
  | k + 1 => (adapt C (d k) (List.ofFn (x k)) (afterAdapts C o d x k)).2

/-- The `j`-th newest input at sample `k`; before the first sample, what the memory contained (`X0`). -/
def winX (X0 : Mat K n order) (x : ℕ → Vec K n) (k : ℕ) (j : Fin order) : Vec K n := fun i =>
  if h : j.val ≤ k then x (k - j) i else X0 i ⟨j.val - (k + 1), by omega⟩

/-- The `j`-th newest target at sample `k`. -/
def winD (D0 : Vec K order) (d : ℕ → K) (k : ℕ) (j : Fin order) : K :=
  if h : j.val ≤ k then d (k - j) else D0 ⟨j.val - (k + 1), by omega⟩

/-- `X^T X` is regular exactly when the columns of `X` are linearly independent -/
theorem gram_det_iff (X : Mat K n order) :
    (Matrix.of (apGram 0 X)).det ≠ 0 ↔ LinearIndependent K (fun j : Fin order => fun i => X i j) := by
  rw [Fintype.linearIndependent_iff]
  have hX : ∀ v : Fin order → K, (∑ j, v j • (fun i => X i j) = (0 : Fin n → K)) ↔ ∀ i, dot (X i) v = 0 := by
    intro v
    rw [funext_iff]
    refine forall_congr' fun i => ?_
    rw [dot_eq]
    simp [Finset.sum_apply, mul_comm]
  constructor
  · intro hd v hv
    rw [hX] at hv
    by_contra hne
    apply hd
    apply Matrix.exists_mulVec_eq_zero_iff.mp
    refine ⟨v, fun h => hne fun j => congrFun h j, ?_⟩
    funext a
    show ∑ b, apGram 0 X a b * v b = 0
    have : ∀ b, apGram 0 X a b * v b = ∑ i, X i a * (X i b * v b) := by
      intro b
      simp only [apGram, dot_eq, zero_mul, add_zero, sum_mul]
      exact sum_congr rfl fun i _ => by ring
    simp only [this]
    rw [sum_comm]
    refine sum_eq_zero fun i _ => ?_
    rw [← mul_sum]
    have h2 := hv i
    rw [dot_eq] at h2
    rw [h2, mul_zero]
  · intro hi h0
    obtain ⟨v, hv, hv0⟩ := Matrix.exists_mulVec_eq_zero_iff.mpr h0
    apply hv
    have h1 : ∀ a, ∑ b, apGram 0 X a b * v b = 0 := fun a => by
      have := congrFun hv0 a
      simpa [Matrix.mulVec, dotProduct] using this
    have h2 := gram_quad 0 X v
    simp only [h1, mul_zero, sum_const_zero, zero_mul, add_zero] at h2
    funext j
    exact hi v ((hX v).mpr fun i => dot_self_eq_zero.mp h2.symm i) j

/-- the memory after storing one more sample is the next window -/
theorem apX_win (X0 : Mat K n order) (x : ℕ → Vec K n) (k : ℕ) (s : Core K n (ApExt K n order))
    (h : ∀ j i, s.ext.xMem i j = winX X0 x k j i) (i : Fin n) (j : Fin order) : apX s (x (k + 1)) i j = winX X0 x (k + 1) j i := by
  unfold apX
  by_cases hj : j.val = 0
  · rw [if_pos hj]
    simp [winX, hj]
  · rw [if_neg hj]
    unfold shiftCols
    rw [dif_neg hj, h]
    unfold winX
    by_cases hk : j.val ≤ k + 1
    · rw [dif_pos (by show j.val - 1 ≤ k; omega), dif_pos hk]
      have e : k - (j.val - 1) = k + 1 - j.val := by omega
      show x (k - (j.val - 1)) i = _
      rw [e]
    · rw [dif_neg (by show ¬ j.val - 1 ≤ k; omega), dif_neg hk]
      congr 2
      show j.val - 1 - (k + 1) = j.val - (k + 1 + 1)
      omega

theorem apX_win0 (x : ℕ → Vec K n) (s : Core K n (ApExt K n order)) (i : Fin n) (j : Fin order) :
    apX s (x 0) i j = winX s.ext.xMem x 0 j i := by
  unfold apX
  by_cases hj : j.val = 0
  · rw [if_pos hj]
    simp [winX, hj]
  · rw [if_neg hj]
    unfold shiftCols winX
    rw [dif_neg hj, dif_neg (by omega)]

theorem apD_win (D0 : Vec K order) (d : ℕ → K) (k : ℕ) (s : Core K n (ApExt K n order))
    (h : ∀ j, s.ext.dMem j = winD D0 d k j) (j : Fin order) : apD s (d (k + 1)) j = winD D0 d (k + 1) j := by
  unfold apD
  by_cases hj : j.val = 0
  · rw [if_pos hj]
    simp [winD, hj]
  · rw [if_neg hj]
    unfold shiftVec
    rw [dif_neg hj, h]
    unfold winD
    by_cases hk : j.val ≤ k + 1
    · rw [dif_pos (by show j.val - 1 ≤ k; omega), dif_pos hk]
      congr 1
      show k - (j.val - 1) = k + 1 - j.val
      omega
    · rw [dif_neg (by show ¬ j.val - 1 ≤ k; omega), dif_neg hk]
      congr 2
      show j.val - 1 - (k + 1) = j.val - (k + 1 + 1)
      omega

theorem apD_win0 (d : ℕ → K) (s : Core K n (ApExt K n order)) (j : Fin order) : apD s (d 0) j = winD s.ext.dMem d 0 j := by
  unfold apD
  by_cases hj : j.val = 0
  · rw [if_pos hj]
    simp [winD, hj]
  · rw [if_neg hj]
    unfold shiftVec winD
    rw [dif_neg hj, dif_neg (by omega)]

/-- the window as a matrix -/
def winM (X0 : Mat K n order) (x : ℕ → Vec K n) (k : ℕ) : Mat K n order := fun i j => winX X0 x k j i

/-- one call of `adapt`, raising or not -/
theorem bare_step (solve : Solver K) (hs : SolveSpec solve) (ho : 0 < order) (s : Core K n (ApExt K n order)) (hi : s.ext.ifc = 0)
    (d : K) (x : Vec K n) :
    (LinearIndependent K (fun j : Fin order => fun i => apX s x i j) → ∃ P, matMul (apGram 0 (apX s x)) P = eye order ∧
      (ap K n solve order).adapt d (List.ofFn x) s = (.ok (), { s with
           w := fun i => s.w i + s.mu * dot (apX s x i) (matVec P (apE s d x))
           ext := ⟨s.ext.ifc, apX s x, apD s d, apY s x, apE s d x⟩ })) ∧
    (¬ LinearIndependent K (fun j : Fin order => fun i => apX s x i j) →
      (ap K n solve order).adapt d (List.ofFn x) s = (.error .linAlgError, apPushed s d x)) := by
  refine ⟨fun h => ?_, fun h => ?_⟩
  · obtain ⟨P, h1, h2⟩ := hs.regular order (apGram 0 (apX s x)) (eye order) ((gram_det_iff _).mpr h)
    exact ⟨P, h2, ap_adapt solve ho s d x P (by rw [hi]; exact h1)⟩
  · refine ap_adapt_error solve ho s d x _ ?_
    rw [hi]
    refine hs.singular _ _ _ ?_
    by_contra hne
    exact h ((gram_det_iff _).mp hne)

/-- one iteration of the loop of `run`, raising or not -/
theorem bare_body (solve : Solver K) (hs : SolveSpec solve) (ho : 0 < order) (s : Core K n (ApExt K n order)) (hi : s.ext.ifc = 0)
    (d : K) (x : Vec K n) :
    (LinearIndependent K (fun j : Fin order => fun i => apX s x i j) → ∃ P, matMul (apGram 0 (apX s x)) P = eye order ∧
      (ap K n solve order).body d (List.ofFn x) s = (.ok (apY s x ⟨0, ho⟩, apE s d x ⟨0, ho⟩), { s with
           w := fun i => s.w i + s.mu * dot (apX s x i) (matVec P (apE s d x))
           ext := ⟨s.ext.ifc, apX s x, apD s d, apY s x, apE s d x⟩ })) ∧
    (¬ LinearIndependent K (fun j : Fin order => fun i => apX s x i j) →
      (ap K n solve order).body d (List.ofFn x) s = (.error .linAlgError, apPushed s d x)) := by
  refine ⟨fun h => ?_, fun h => ?_⟩
  · obtain ⟨P, h1, h2⟩ := hs.regular order (apGram 0 (apX s x)) (eye order) ((gram_det_iff _).mpr h)
    exact ⟨P, h2, ap_body solve ho s d x P (by rw [hi]; exact h1)⟩
  · refine ap_body_error solve ho s d x _ ?_
    rw [hi]
    refine hs.singular _ _ _ ?_
    by_contra hne
    exact h ((gram_det_iff _).mp hne)

/-- states whose memory takes up one sample per step contain the windows -/
theorem win_inv (S : ℕ → Core K n (ApExt K n order)) (d : ℕ → K) (x : ℕ → Vec K n)
    (hX : ∀ k, (S (k + 1)).ext.xMem = apX (S k) (x k)) (hD : ∀ k, (S (k + 1)).ext.dMem = apD (S k) (d k)) (k : ℕ) :
    (∀ i j, apX (S k) (x k) i j = winX (S 0).ext.xMem x k j i) ∧ ∀ j, apD (S k) (d k) j = winD (S 0).ext.dMem d k j := by
  induction k with
  | zero => exact ⟨fun i j => apX_win0 x (S 0) i j, fun j => apD_win0 d (S 0) j⟩
  | succ k ih =>
    refine ⟨fun i j => apX_win _ x k (S (k + 1)) (fun j i => ?_) i j, fun j => apD_win _ d k (S (k + 1)) (fun j => ?_) j⟩
    · rw [hX k, ih.1]
    · rw [hD k, ih.2]

/-- the effect of an accepted sample on the errors of the whole window, and on the weights -/
theorem bare_solve (s : Core K n (ApExt K n order)) (d : K) (x : Vec K n) (P : Mat K order order)
    (hP : matMul (apGram 0 (apX s x)) P = eye order) (w' : Vec K n)
    (hw : w' = fun i => s.w i + s.mu * dot (apX s x i) (matVec P (apE s d x))) :
    (∀ j, apD s d j - ∑ i, w' i * apX s x i j = (1 - s.mu) * (apD s d j - ∑ i, s.w i * apX s x i j)) ∧
    ∃ c : Vec K order, ∀ i, w' i - s.w i = ∑ j, c j * apX s x i j := by
  set v := matVec P (apE s d x) with hv
  have hGv : ∀ a, ∑ b, apGram 0 (apX s x) a b * v b = apE s d x a := by
    intro a
    have h1 : ∀ a c, ∑ b, apGram 0 (apX s x) a b * P b c = if a = c then 1 else 0 := fun a c => by
      have := congrFun (congrFun hP a) c
      rw [matMul_eq] at this
      exact this
    have h2 : ∀ b, v b = ∑ c, P b c * apE s d x c := fun b => by rw [hv, matVec_eq]
    simp only [h2, mul_sum]
    rw [sum_comm]
    have : ∀ c, ∑ b, apGram 0 (apX s x) a b * (P b c * apE s d x c) = (if a = c then 1 else 0) * apE s d x c := by
      intro c
      rw [← h1 a c, sum_mul]
      exact sum_congr rfl fun b _ => by ring
    simp only [this]
    simp
  have hE : ∀ j, apE s d x j = apD s d j - ∑ i, s.w i * apX s x i j := by
    intro j
    unfold apE apY
    rw [dot_eq]
    congr 1
    exact sum_congr rfl fun i _ => mul_comm _ _
  refine ⟨fun j => ?_, fun b => s.mu * v b, fun i => ?_⟩
  · have h1 : ∑ i, w' i * apX s x i j = (∑ i, s.w i * apX s x i j) + s.mu * ∑ b, apGram 0 (apX s x) j b * v b := by
      subst hw
      simp only [add_mul, sum_add_distrib, apGram, dot_eq, zero_mul, add_zero]
      congr 1
      rw [mul_sum]
      simp only [sum_mul, mul_sum]
      rw [sum_comm]
      exact sum_congr rfl fun b _ => sum_congr rfl fun i _ => by ring
    rw [h1, hGv, hE]
    ring
  · subst hw
    simp only [add_sub_cancel_left, dot_eq, mul_sum]
    exact sum_congr rfl fun b _ => by ring

/-! ## Feeding samples with `adapt` -/

section feed
variable (solve : Solver K) (hs : SolveSpec solve) (ho : 0 < order) (o : Obj (ap K n solve order)) (d : ℕ → K) (x : ℕ → Vec K n)

include hs ho in
/-- all there is to know about the `k`-th call -/
theorem bare_call (hi : o.core.ext.ifc = 0) (k : ℕ) :
    let S := fun k => (show Core K n (ApExt K n order) from (afterAdapts (ap K n solve order) o d x k).core)
    let r := adapt (ap K n solve order) (d k) (List.ofFn (x k)) (afterAdapts (ap K n solve order) o d x k)
    (S k).ext.ifc = 0 ∧ (S k).mu = o.core.mu ∧ (S (k + 1)).ext.xMem = apX (S k) (x k) ∧ (S (k + 1)).ext.dMem = apD (S k) (d k) ∧
    (LinearIndependent K (fun j : Fin order => fun i => apX (S k) (x k) i j) → r.1 = .ok () ∧
      ∃ P, matMul (apGram 0 (apX (S k) (x k))) P = eye order ∧
        (S (k + 1)).w = fun i => (S k).w i + (S k).mu * dot (apX (S k) (x k) i) (matVec P (apE (S k) (d k) (x k)))) ∧
    (¬ LinearIndependent K (fun j : Fin order => fun i => apX (S k) (x k) i j) → r.1 = .error .linAlgError ∧ (S (k + 1)).w = (S k).w) := by
  intro S r
  have one : ∀ k, (S k).ext.ifc = 0 →
      (S (k + 1)).ext.ifc = 0 ∧ (S (k + 1)).mu = (S k).mu ∧ (S (k + 1)).ext.xMem = apX (S k) (x k) ∧ (S (k + 1)).ext.dMem = apD (S k) (d k) ∧
    (LinearIndependent K (fun j : Fin order => fun i => apX (S k) (x k) i j) →
      (adapt (ap K n solve order) (d k) (List.ofFn (x k)) (afterAdapts (ap K n solve order) o d x k)).1 = .ok () ∧
      ∃ P, matMul (apGram 0 (apX (S k) (x k))) P = eye order ∧
        (S (k + 1)).w = fun i => (S k).w i + (S k).mu * dot (apX (S k) (x k) i) (matVec P (apE (S k) (d k) (x k)))) ∧
    (¬ LinearIndependent K (fun j : Fin order => fun i => apX (S k) (x k) i j) →
      (adapt (ap K n solve order) (d k) (List.ofFn (x k)) (afterAdapts (ap K n solve order) o d x k)).1 = .error .linAlgError ∧
      (S (k + 1)).w = (S k).w) := by
    intro k hk
    obtain ⟨h1, h2⟩ := bare_step solve hs ho (S k) hk (d k) (x k)
    by_cases hl : LinearIndependent K (fun j : Fin order => fun i => apX (S k) (x k) i j)
    · obtain ⟨P, p1, p2⟩ := h1 hl
      have h3 := liftM_eq (C := ap K n solve order) (o := afterAdapts (ap K n solve order) o d x k) p2
      have h4 : S (k + 1) = _ := congrArg (fun p : Except Err Unit × Obj (ap K n solve order) => p.2.core) h3
      have h5 := congrArg (fun p : Except Err Unit × Obj (ap K n solve order) => p.1) h3
      rw [h4]
      exact ⟨hk, rfl, rfl, rfl, fun _ => ⟨h5, P, p1, rfl⟩, fun h => absurd hl h⟩
    · have p2 := h2 hl
      have h3 := liftM_eq (C := ap K n solve order) (o := afterAdapts (ap K n solve order) o d x k) p2
      have h4 : S (k + 1) = _ := congrArg (fun p : Except Err Unit × Obj (ap K n solve order) => p.2.core) h3
      have h5 := congrArg (fun p : Except Err Unit × Obj (ap K n solve order) => p.1) h3
      rw [h4]
      exact ⟨hk, rfl, rfl, rfl, fun h => absurd h hl, fun _ => ⟨h5, rfl⟩⟩
  have inv : ∀ k, (S k).ext.ifc = 0 ∧ (S k).mu = o.core.mu := by
    intro k
    induction k with
    | zero => exact ⟨hi, rfl⟩
    | succ k ih =>
      obtain ⟨a, b, -⟩ := one k ih.1
      exact ⟨a, b.trans ih.2⟩
  obtain ⟨-, -, a, b, c, e⟩ := one k (inv k).1
  exact ⟨(inv k).1, (inv k).2, a, b, c, e⟩

include hs ho in
theorem bare_win (hi : o.core.ext.ifc = 0) (k : ℕ) :
    let S := fun k => (show Core K n (ApExt K n order) from (afterAdapts (ap K n solve order) o d x k).core)
    (∀ i j, apX (S k) (x k) i j = winX o.core.ext.xMem x k j i) ∧ ∀ j, apD (S k) (d k) j = winD o.core.ext.dMem d k j := by
  intro S
  exact win_inv S d x (fun k => (bare_call solve hs ho o d x hi k).2.2.1) (fun k => (bare_call solve hs ho o d x hi k).2.2.2.1) k

include hs ho in
/-- C143: samples are fed one by one with `adapt`, exceptions are caught.  Call number `k` succeeds exactly when the `order` newest inputs
(counting those of rejected calls, and what the memory contained before) are linearly independent; otherwise it raises `LinAlgError` and the
weights stay.  In both cases the sample is in the memory afterwards. -/
theorem C143_accepted_iff_independent (hi : o.core.ext.ifc = 0) (k : ℕ) :
    let r := adapt (ap K n solve order) (d k) (List.ofFn (x k)) (afterAdapts (ap K n solve order) o d x k)
    (LinearIndependent K (winX o.core.ext.xMem x k) → r.1 = .ok ()) ∧
    (¬ LinearIndependent K (winX o.core.ext.xMem x k) → r.1 = .error .linAlgError ∧
      r.2.core.w = (afterAdapts (ap K n solve order) o d x k).core.w) ∧
    (∀ i j, r.2.core.ext.xMem i j = winX o.core.ext.xMem x k j i) ∧ ∀ j, r.2.core.ext.dMem j = winD o.core.ext.dMem d k j := by
  intro r
  obtain ⟨-, -, h3, h4, h5, h6⟩ := bare_call solve hs ho o d x hi k
  obtain ⟨w1, w2⟩ := bare_win solve hs ho o d x hi k
  have hw : (fun j : Fin order => fun i => apX (show Core K n (ApExt K n order) from (afterAdapts (ap K n solve order) o d x k).core) (x k) i j)
      = winX o.core.ext.xMem x k := by
    funext j i; exact w1 i j
  refine ⟨fun h => (h5 (by rw [← hw] at h; exact h)).1, fun h => h6 (by rw [← hw] at h; exact h), fun i j => ?_, fun j => ?_⟩
  · exact (congrFun (congrFun h3 i) j).trans (w1 i j)
  · exact (congrFun h4 j).trans (w2 j)

include hs ho in
/-- C143: an accepted sample multiplies the errors of all `order` newest samples by `1 - mu`; with `mu = 1` the new weights reproduce the
`order` newest targets exactly.  The change of the weights is a combination of these inputs (so it is the smallest that does). -/
theorem C143_interpolates (hi : o.core.ext.ifc = 0) (k : ℕ) (hl : LinearIndependent K (winX o.core.ext.xMem x k)) :
    let w := (afterAdapts (ap K n solve order) o d x k).core.w
    let w' := (afterAdapts (ap K n solve order) o d x (k + 1)).core.w
    (∀ j, winD o.core.ext.dMem d k j - ∑ i, w' i * winX o.core.ext.xMem x k j i
      = (1 - o.core.mu) * (winD o.core.ext.dMem d k j - ∑ i, w i * winX o.core.ext.xMem x k j i)) ∧
    ∃ c : Vec K order, ∀ i, w' i - w i = ∑ j, c j * winX o.core.ext.xMem x k j i := by
  intro w w'
  obtain ⟨-, hmu, h3, h4, h5, h6⟩ := bare_call solve hs ho o d x hi k
  obtain ⟨w1, w2⟩ := bare_win solve hs ho o d x hi k
  have hw : (fun j : Fin order => fun i => apX (show Core K n (ApExt K n order) from (afterAdapts (ap K n solve order) o d x k).core) (x k) i j)
      = winX o.core.ext.xMem x k := by
    funext j i; exact w1 i j
  rw [← hw] at hl
  obtain ⟨-, P, p1, p2⟩ := h5 hl
  obtain ⟨q1, c, q2⟩ := bare_solve _ (d k) (x k) P p1 _ p2
  simp only [w1, w2] at q1 q2
  refine ⟨fun j => ?_, c, q2⟩
  have := q1 j
  have hmu' : (show Core K n (ApExt K n order) from (afterAdapts (ap K n solve order) o d x k).core).mu = o.core.mu := hmu
  rw [← hmu']
  exact this

include hs ho in
/-- C143: a fresh filter of order at least 2 rejects its first `order - 1` samples, whatever they are, and keeps its weights; a filter whose
order exceeds its size rejects every sample for ever. -/
theorem C143_warm_up (hi : o.core.ext.ifc = 0) (k : ℕ) (h : ((∀ i j, o.core.ext.xMem i j = 0) ∧ k + 1 < order) ∨ n < order) :
    (adapt (ap K n solve order) (d k) (List.ofFn (x k)) (afterAdapts (ap K n solve order) o d x k)).1 = .error .linAlgError ∧
    (afterAdapts (ap K n solve order) o d x (k + 1)).core.w = o.core.w := by
  have hdep : ∀ k, (((∀ i j, o.core.ext.xMem i j = 0) ∧ k + 1 < order) ∨ n < order) → ¬ LinearIndependent K (winX o.core.ext.xMem x k) := by
    rintro k (⟨h0, hk⟩ | h) hl
    · refine hl.ne_zero ⟨k + 1, hk⟩ ?_
      funext i
      simp [winX, h0]
    · have := hl.fintype_card_le_finrank
      simp at this
      omega
  refine ⟨((C143_accepted_iff_independent solve hs ho o d x hi k).2.1 (hdep k h)).1, ?_⟩
  induction k with
  | zero => exact ((C143_accepted_iff_independent solve hs ho o d x hi 0).2.1 (hdep 0 h)).2
  | succ k ih =>
    have h1 := ((C143_accepted_iff_independent solve hs ho o d x hi (k + 1)).2.1 (hdep (k + 1) h)).2
    refine Eq.trans ?_ (ih (h.imp (fun h => ⟨h.1, by omega⟩) id))
    exact h1

include hs ho in
/-- C143: a filter of order `n` (its size), `mu = 1`, fed with noise-free samples `d = ws . x`: with the first sample that is accepted the
weights are exactly `ws`, and stay so for ever, whether later samples are accepted or not. -/
theorem C143_exact_identification (hn : order = n) (hi : o.core.ext.ifc = 0) (hmu : o.core.mu = 1) (ws : Vec K n)
    (hmem : ∀ j, o.core.ext.dMem j = ∑ i, ws i * o.core.ext.xMem i j) (hd : ∀ k, d k = ∑ i, ws i * x k i)
    (k : ℕ) (hk : (adapt (ap K n solve order) (d k) (List.ofFn (x k)) (afterAdapts (ap K n solve order) o d x k)).1 = .ok ()) :
    ∀ m, k < m → (afterAdapts (ap K n solve order) o d x m).core.w = ws := by
  have hwin : ∀ k j, winD o.core.ext.dMem d k j = ∑ i, ws i * winX o.core.ext.xMem x k j i := by
    intro k j
    unfold winD winX
    by_cases hj : j.val ≤ k
    · simp only [hj, dif_pos]; exact hd _
    · simp only [hj, dif_neg, not_false_eq_true]; exact hmem _
  have acc : ∀ k, LinearIndependent K (winX o.core.ext.xMem x k) → (afterAdapts (ap K n solve order) o d x (k + 1)).core.w = ws := by
    intro k hl
    obtain ⟨h1, -⟩ := C143_interpolates solve hs ho o d x hi k hl
    have h2 : ∀ j, ∑ i, (ws i - (afterAdapts (ap K n solve order) o d x (k + 1)).core.w i) * winX o.core.ext.xMem x k j i = 0 := by
      intro j
      have := h1 j
      rw [hmu, sub_self, zero_mul, hwin] at this
      simp only [sub_mul, sum_sub_distrib]
      exact this
    -- the inputs of the window span the space
    have hspan : Submodule.span K (Set.range (winX o.core.ext.xMem x k)) = ⊤ := by
      apply hl.span_eq_top_of_card_eq_finrank'
      simp [hn]
    let z : Vec K n := fun i => ws i - (afterAdapts (ap K n solve order) o d x (k + 1)).core.w i
    have hz : ∀ u : Fin n → K, ∑ i, z i * u i = 0 := by
      intro u
      have hu : u ∈ Submodule.span K (Set.range (winX o.core.ext.xMem x k)) := by rw [hspan]; trivial
      induction hu using Submodule.span_induction with
      | mem u hu => obtain ⟨j, rfl⟩ := hu; exact h2 j
      | zero => simp
      | add a b _ _ ha hb => simp only [Pi.add_apply, mul_add, sum_add_distrib, ha, hb, add_zero]
      | smul c a _ ha =>
        have : ∑ i, z i * (c • a) i = c * ∑ i, z i * a i := by
          rw [mul_sum]; exact sum_congr rfl fun i _ => by simp only [Pi.smul_apply, smul_eq_mul]; ring
        rw [this, ha, mul_zero]
    funext i
    have h3 := hz (Pi.single i 1)
    simp [Pi.single_apply] at h3
    exact (sub_eq_zero.mp h3).symm
  have hk' : LinearIndependent K (winX o.core.ext.xMem x k) := by
    by_contra hc
    have := ((C143_accepted_iff_independent solve hs ho o d x hi k).2.1 hc).1
    rw [hk] at this
    cases this
  intro m hm
  obtain ⟨t, rfl⟩ : ∃ t, m = k + 1 + t := ⟨m - (k + 1), by omega⟩
  clear hm
  induction t with
  | zero => exact acc k hk'
  | succ t ih =>
    by_cases hl : LinearIndependent K (winX o.core.ext.xMem x (k + 1 + t))
    · exact acc _ hl
    · exact Eq.trans ((C143_accepted_iff_independent solve hs ho o d x hi (k + 1 + t)).2.1 hl).2 ih

end feed

/-! ## `run` -/

section run
variable (solve : Solver K) (hs : SolveSpec solve) (ho : 0 < order) (o : Obj (ap K n solve order)) (d : ℕ → K) (x : ℕ → Vec K n)

include hs ho in
theorem bare_traj (hi : o.core.ext.ifc = 0) (k : ℕ) :
    let S := fun k => (show Core K n (ApExt K n order) from traj (ap K n solve order) (o.core.withN n) d x k)
    (S k).ext.ifc = 0 ∧ (S k).nAttr = n ∧ (S (k + 1)).ext.xMem = apX (S k) (x k) ∧ (S (k + 1)).ext.dMem = apD (S k) (d k) ∧
    (LinearIndependent K (fun j : Fin order => fun i => apX (S k) (x k) i j) → OkAt (ap K n solve order) (o.core.withN n) d x k) ∧
    (¬ LinearIndependent K (fun j : Fin order => fun i => apX (S k) (x k) i j) →
      ((ap K n solve order).body (d k) (List.ofFn (x k)) (S k)).1 = .error .linAlgError ∧ (S (k + 1)).w = (S k).w) := by
  intro S
  have one : ∀ k, (S k).ext.ifc = 0 → (S k).nAttr = n →
      (S (k + 1)).ext.ifc = 0 ∧ (S (k + 1)).nAttr = n ∧ (S (k + 1)).ext.xMem = apX (S k) (x k) ∧ (S (k + 1)).ext.dMem = apD (S k) (d k) ∧
    (LinearIndependent K (fun j : Fin order => fun i => apX (S k) (x k) i j) → OkAt (ap K n solve order) (o.core.withN n) d x k) ∧
    (¬ LinearIndependent K (fun j : Fin order => fun i => apX (S k) (x k) i j) →
      ((ap K n solve order).body (d k) (List.ofFn (x k)) (S k)).1 = .error .linAlgError ∧ (S (k + 1)).w = (S k).w) := by
    intro k hk hN
    obtain ⟨h1, h2⟩ := bare_body solve hs ho (S k) hk (d k) (x k)
    have hS : S (k + 1) = ((ap K n solve order).body (d k) (List.ofFn (x k)) (S k)).2 := rfl
    by_cases hl : LinearIndependent K (fun j : Fin order => fun i => apX (S k) (x k) i j)
    · obtain ⟨P, p1, p2⟩ := h1 hl
      rw [hS, p2]
      refine ⟨hk, hN, rfl, rfl, fun _ => ⟨?_, hN⟩, fun h => absurd hl h⟩
      have p3 : ((ap K n solve order).body (d k) (List.ofFn (x k)) (traj (ap K n solve order) (o.core.withN n) d x k)).1
        = .ok (apY (S k) (x k) ⟨0, ho⟩, apE (S k) (d k) (x k) ⟨0, ho⟩) := congrArg Prod.fst p2
      unfold outAt
      rw [p3]
    · have p2 := h2 hl
      rw [hS, p2]
      exact ⟨hk, hN, rfl, rfl, fun h => absurd h hl, fun _ => ⟨rfl, rfl⟩⟩
  have inv : ∀ k, (S k).ext.ifc = 0 ∧ (S k).nAttr = n := by
    intro k
    induction k with
    | zero => exact ⟨hi, rfl⟩
    | succ k ih =>
      obtain ⟨a, b, -⟩ := one k ih.1 ih.2
      exact ⟨a, b⟩
  obtain ⟨-, -, a, b, c, e⟩ := one k (inv k).1 (inv k).2
  exact ⟨(inv k).1, (inv k).2, a, b, c, e⟩

include hs ho in
theorem bare_traj_win (hi : o.core.ext.ifc = 0) (k : ℕ) :
    let S := fun k => (show Core K n (ApExt K n order) from traj (ap K n solve order) (o.core.withN n) d x k)
    (fun j : Fin order => fun i => apX (S k) (x k) i j) = winX o.core.ext.xMem x k ∧
    (fun j : Fin order => fun i => (S (k + 1)).ext.xMem i j) = winX o.core.ext.xMem x k := by
  intro S
  have h := (win_inv S d x (fun k => (bare_traj solve hs ho o d x hi k).2.2.1) (fun k => (bare_traj solve hs ho o d x hi k).2.2.2.1) k).1
  have h2 := (bare_traj solve hs ho o d x hi k).2.2.1
  refine ⟨by funext j i; exact h i j, ?_⟩
  funext j i
  exact (congrFun (congrFun h2 i) j).trans (h i j)

include hs ho in
/-- C143: `run` returns if and only if the `order` newest inputs are linearly independent at every sample. -/
theorem C143_run_returns_iff (hi : o.core.ext.ifc = 0) (N : ℕ) (hN : 0 < N) :
    (∃ r o', run (ap K n solve order) (series d N) (rows x N) o = (.ok r, o')) ↔ ∀ k < N, LinearIndependent K (winX o.core.ext.xMem x k) := by
  constructor
  · rintro ⟨r, o', h⟩
    by_contra hc
    push Not at hc
    classical
    have hex : ∃ k, k < N ∧ ¬ LinearIndependent K (winX o.core.ext.xMem x k) := hc
    obtain ⟨h1, h2⟩ := Nat.find_spec hex
    set p := Nat.find hex with hp
    have hmin : ∀ j < p, LinearIndependent K (winX o.core.ext.xMem x j) := fun j hj => by
      by_contra hcj
      exact Nat.find_min hex hj ⟨by omega, hcj⟩
    rw [run_crash (C := ap K n solve order) o d x N p h1 .linAlgError
      (fun j hj => (bare_traj solve hs ho o d x hi j).2.2.2.2.1 (by rw [(bare_traj_win solve hs ho o d x hi j).1]; exact hmin j hj))
      ((bare_traj solve hs ho o d x hi p).2.2.2.2.2 (by rw [(bare_traj_win solve hs ho o d x hi p).1]; exact h2)).1
      (bare_traj solve hs ho o d x hi p).2.1] at h
    cases (Prod.mk.inj h).1
  · intro h
    exact ⟨_, _, run_ok_upto (C := ap K n solve order) o d x N hN fun j hj =>
      (bare_traj solve hs ho o d x hi j).2.2.2.2.1 (by rw [(bare_traj_win solve hs ho o d x hi j).1]; exact h j hj)⟩

include hs ho in
/-- C143: otherwise it raises `LinAlgError` at the first sample `p` where they are dependent: the weights are those before sample `p`, but the
sample is in the memory; the attribute `w_history` has the rows `0..p` filled (row `k`: the weights before sample `k`) and zeros below. -/
theorem C143_run_crash (hi : o.core.ext.ifc = 0) (N p : ℕ) (hp : p < N)
    (hok : ∀ k < p, LinearIndependent K (winX o.core.ext.xMem x k)) (hbad : ¬ LinearIndependent K (winX o.core.ext.xMem x p)) :
    ∃ (o' : Obj (ap K n solve order)) (W : ℕ → Vec K n), run (ap K n solve order) (series d N) (rows x N) o = (.error .linAlgError, o') ∧
      o'.wHist = rows W (p + 1) ++ List.replicate (N - (p + 1)) (List.replicate n 0) ∧ W 0 = o.core.w ∧ o'.core.w = W p ∧
      (∀ i j, o'.core.ext.xMem i j = winX o.core.ext.xMem x p j i) ∧
      (0 < p → ∃ y e o'', run (ap K n solve order) (series d p) (rows x p) o = (.ok (y, e, rows W p), o'') ∧ o''.core.w = W p) := by
  have hO : ∀ j < p, OkAt (ap K n solve order) (o.core.withN n) d x j := fun j hj =>
    (bare_traj solve hs ho o d x hi j).2.2.2.2.1 (by rw [(bare_traj_win solve hs ho o d x hi j).1]; exact hok j hj)
  have hB := (bare_traj solve hs ho o d x hi p).2.2.2.2.2 (by rw [(bare_traj_win solve hs ho o d x hi p).1]; exact hbad)
  refine ⟨_, wAt (ap K n solve order) (o.core.withN n) d x, run_crash (C := ap K n solve order) o d x N p hp .linAlgError hO hB.1
    (bare_traj solve hs ho o d x hi p).2.1, rfl, rfl, hB.2, fun i j => ?_, fun h0 => ?_⟩
  · exact congrFun (congrFun (bare_traj_win solve hs ho o d x hi p).2 j) i
  · exact ⟨_, _, _, run_ok_upto (C := ap K n solve order) o d x p h0 hO, rfl⟩

include hs ho in
/-- C143: with a fresh filter of order at least 2, calling `run` on the same data again after the exception never helps: every call raises
`LinAlgError` and the weights stay. -/
theorem C143_run_again (ho2 : 1 < order) (hi : o.core.ext.ifc = 0) (h0 : ∀ i j, o.core.ext.xMem i j = 0) (N m : ℕ) (hN : 0 < N) :
    let again := fun o => (run (ap K n solve order) (series d N) (rows x N) o).2
    (run (ap K n solve order) (series d N) (rows x N) (again^[m] o)).1 = .error .linAlgError ∧ (again^[m + 1] o).core.w = o.core.w := by
  intro again
  -- every column of the memory is zero or the first input
  have key : ∀ o' : Obj (ap K n solve order), o'.core.ext.ifc = 0 → (∀ j, (∀ i, o'.core.ext.xMem i j = 0) ∨ ∀ i, o'.core.ext.xMem i j = x 0 i) →
      (run (ap K n solve order) (series d N) (rows x N) o').1 = .error .linAlgError ∧ (again o').core.w = o'.core.w ∧
      (again o').core.ext.ifc = 0 ∧ ∀ j, (∀ i, (again o').core.ext.xMem i j = 0) ∨ ∀ i, (again o').core.ext.xMem i j = x 0 i := by
    intro o' hi' hm
    have hw : ∀ j : Fin order, (∀ i, winX o'.core.ext.xMem x 0 j i = 0) ∨ ∀ i, winX o'.core.ext.xMem x 0 j i = x 0 i := by
      intro j
      unfold winX
      by_cases hj : j.val ≤ 0
      · right; intro i; rw [dif_pos hj, show 0 - j.val = 0 by omega]
      · simp only [hj, dif_neg, not_false_eq_true]
        exact hm _
    have hw0 : ∀ i, winX o'.core.ext.xMem x 0 ⟨0, ho⟩ i = x 0 i := fun i => by simp [winX]
    have hbad : ¬ LinearIndependent K (winX o'.core.ext.xMem x 0) := by
      intro hl
      rcases hw ⟨1, ho2⟩ with h | h
      · exact hl.ne_zero ⟨1, ho2⟩ (funext h)
      · have := hl.injective (show winX o'.core.ext.xMem x 0 ⟨1, ho2⟩ = winX o'.core.ext.xMem x 0 ⟨0, ho⟩ by
          funext i; rw [h i, hw0 i])
        simp at this
    obtain ⟨o'', W, h1, -, h3, h4, h5, -⟩ := C143_run_crash solve hs ho o' d x hi' N 0 hN (by simp) hbad
    have ha : again o' = o'' := congrArg Prod.snd h1
    refine ⟨congrArg Prod.fst h1, ?_, ?_, fun j => ?_⟩
    · rw [ha, h4, h3]
    · have := (bare_traj solve hs ho o' d x hi' 1).1
      have h6 := run_crash (C := ap K n solve order) o' d x N 0 hN .linAlgError (by simp)
        ((bare_traj solve hs ho o' d x hi' 0).2.2.2.2.2 (by rw [(bare_traj_win solve hs ho o' d x hi' 0).1]; exact hbad)).1
        (bare_traj solve hs ho o' d x hi' 0).2.1
      have h7 : again o' = _ := congrArg Prod.snd h6
      rw [h7]
      exact this
    · rw [ha]
      simp only [h5]
      exact hw j
  have inv : ∀ m, (again^[m] o).core.w = o.core.w ∧ (again^[m] o).core.ext.ifc = 0 ∧
      ∀ j, (∀ i, (again^[m] o).core.ext.xMem i j = 0) ∨ ∀ i, (again^[m] o).core.ext.xMem i j = x 0 i := by
    intro m
    induction m with
    | zero => exact ⟨rfl, hi, fun j => Or.inl fun i => h0 i j⟩
    | succ m ih =>
      rw [Function.iterate_succ_apply']
      obtain ⟨-, k2, k3, k4⟩ := key _ ih.2.1 ih.2.2
      exact ⟨k2.trans ih.1, k3, k4⟩
  exact ⟨(key _ (inv m).2.1 (inv m).2.2).1, (inv (m + 1)).1⟩

end run

/-- a fresh AP filter of size and order 2, `mu = 1`, `ifc = 0` -/
noncomputable def bareEx : Obj (ap ℚ 2 exactSolve 2) :=
  ⟨⟨fun _ => 0, 2, 1, (⟨0, fun _ _ => 0, fun _ => 0, fun _ => 0, fun _ => 0⟩ : ApExt ℚ 2 2)⟩, []⟩

/-- inputs `(1, 0), (0, 1), (1, 0), ...` -/
def bareX (k : ℕ) : Vec ℚ 2 := fun i => if i.val = k % 2 then 1 else 0

theorem bare_indep : LinearIndependent ℚ (winX (order := 2) (fun _ _ => 0) bareX 1) := by
  rw [Fintype.linearIndependent_iff]
  intro g h
  have h0 := congrFun h 0
  have h1 := congrFun h 1
  simp [winX, bareX, Fin.sum_univ_two] at h0 h1
  intro i
  fin_cases i <;> simp_all

/-- the hypotheses of C143 are met: the first sample is rejected, the second is accepted and makes the filter exact -/
example : (adapt (ap ℚ 2 exactSolve 2) 3 (List.ofFn (bareX 0)) bareEx).1 = .error .linAlgError ∧
    (afterAdapts (ap ℚ 2 exactSolve 2) bareEx (fun k => ∑ i, (![3, 5] : Vec ℚ 2) i * bareX k i) bareX 2).core.w = ![3, 5] := by
  have hi : (show ApExt ℚ 2 2 from bareEx.core.ext).ifc = 0 := rfl
  have hx : ∀ i j, (show ApExt ℚ 2 2 from bareEx.core.ext).xMem i j = 0 := fun _ _ => rfl
  have hdm : ∀ j, (show ApExt ℚ 2 2 from bareEx.core.ext).dMem j = 0 := fun _ => rfl
  have hmu : bareEx.core.mu = 1 := rfl
  have hind : LinearIndependent ℚ (winX (show ApExt ℚ 2 2 from bareEx.core.ext).xMem bareX 1) := bare_indep
  have hS : SolveSpec (exactSolve (K := ℚ)) := exactSolve_spec
  generalize bareEx = o at *
  obtain ⟨d, hd⟩ : ∃ d : ℕ → ℚ, d = fun k => ∑ i, (![3, 5] : Vec ℚ 2) i * bareX k i := ⟨_, rfl⟩
  rw [← hd]
  have hacc := (C143_accepted_iff_independent exactSolve hS (by norm_num) o d bareX hi 1).1 hind
  have hw := (C143_warm_up exactSolve hS (by norm_num) o (fun _ => 3) bareX hi 0 (Or.inl ⟨hx, by norm_num⟩)).1
  have he := C143_exact_identification exactSolve hS (by norm_num) o d bareX rfl hi hmu ![3, 5]
      (fun j => (hdm j).trans (Finset.sum_eq_zero fun i _ => by
        have := hx i j
        exact mul_eq_zero_of_right _ this).symm)
      (fun k => congrFun hd k) 1 hacc 2 (by norm_num)
  exact ⟨hw, he⟩

end Padasip
