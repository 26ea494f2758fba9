import Verif.Props.Stability
import Verif.Lemmas.Gram
import Mathlib.LinearAlgebra.Matrix.ToLin
import Mathlib.LinearAlgebra.Matrix.Rank

/-!
# C27-C30: the affine projection filter
-/

set_option linter.unusedSectionVars false
set_option linter.unusedSimpArgs false

namespace Padasip

open Finset

/-! ## C27: the memory -/

section memory
variable {K : Type} [Scalar K] {n order : ℕ}

/-- A call that feeds an AP filter with well-shaped data (or only asks for a prediction). -/
inductive Feed (K : Type) (n : ℕ) where
  | predict (x : Vec K n)
  | adapt (d : K) (x : Vec K n)
  | run (data : List (K × Vec K n))

/-- the object after the call -/
def Feed.exec (C : FilterClass K n) (o : Obj C) : Feed K n → Obj C
  | .predict x => (Padasip.predict C (List.ofFn x) o).2
  | .adapt d x => (Padasip.adapt C d (List.ofFn x) o).2
  | .run data => (Padasip.run C (data.map Prod.fst) (data.map fun p => List.ofFn p.2) o).2

/-- the samples a call processes, in order -/
def Feed.samples : Feed K n → List (K × Vec K n)
  | .predict _ => []
  | .adapt d x => [(d, x)]
  | .run data => data

/-- one push into the memories -/
def memPush (m : Mat K n order × Vec K order) (p : K × Vec K n) : Mat K n order × Vec K order :=
  (fun i j => if j.val = 0 then p.2 i else shiftCols m.1 i j,
   fun j => if j.val = 0 then p.1 else shiftVec m.2 j)

theorem memPush_fold (m : Mat K n order × Vec K order) (l : List (K × Vec K n)) (j : Fin order) :
    (∀ h : j.val < l.length,
      (∀ i, (l.foldl memPush m).1 i j = (l[l.length - 1 - j.val]'(by omega)).2 i) ∧
      (l.foldl memPush m).2 j = (l[l.length - 1 - j.val]'(by omega)).1) ∧
    (∀ _ : l.length ≤ j.val,
      (∀ i, (l.foldl memPush m).1 i j = m.1 i ⟨j.val - l.length, by omega⟩) ∧
      (l.foldl memPush m).2 j = m.2 ⟨j.val - l.length, by omega⟩) := by
  induction l using List.reverseRecOn generalizing j with
  | nil => simp
  | append_singleton l p ih =>
    rw [List.foldl_append, List.foldl_cons, List.foldl_nil]
    by_cases hj : j.val = 0
    · refine ⟨fun h => ⟨fun i => ?_, ?_⟩, fun h => by simp at h; omega⟩ <;>
        simp [memPush, hj]
    · have := ih ⟨j.val - 1, by omega⟩
      refine ⟨fun h => ?_, fun h => ?_⟩
      · have h1 : j.val - 1 < l.length := by simp at h; omega
        obtain ⟨a, b⟩ := this.1 h1
        have e : (l ++ [p]).length - 1 - j.val = l.length - 1 - (j.val - 1) := by simp; omega
        have hlt : l.length - 1 - (j.val - 1) < l.length := by omega
        refine ⟨fun i => ?_, ?_⟩
        · simp only [memPush, hj, if_false, shiftCols, dif_neg, not_false_iff]
          rw [a i]; simp only [e, List.getElem_append_left hlt]
        · simp only [memPush, hj, if_false, shiftVec, dif_neg, not_false_iff]
          rw [b]; simp only [e, List.getElem_append_left hlt]
      · have h1 : l.length ≤ j.val - 1 := by simp at h; omega
        obtain ⟨a, b⟩ := this.2 h1
        have e : j.val - (l ++ [p]).length = j.val - 1 - l.length := by simp; omega
        refine ⟨fun i => ?_, ?_⟩
        · simp only [memPush, hj, if_false, shiftCols, dif_neg, not_false_iff]
          rw [a i]; simp only [e]
        · simp only [memPush, hj, if_false, shiftVec, dif_neg, not_false_iff]
          rw [b]; simp only [e]

theorem getD_lt {α : Type} {l : List α} {i : ℕ} (a : α) (h : i < l.length) : l.getD i a = l[i] := by
  simp [List.getD, h]

/-- the two memories of an AP filter -/
def memOf (s : Core K n (ApExt K n order)) : Mat K n order × Vec K order := (s.ext.xMem, s.ext.dMem)

theorem ap_feed (solve : Solver K) (ho : 0 < order) (o : Obj (ap K n solve order))
    (hs : ∀ X : Mat K n order, ∃ P, solve order (apGram o.core.ext.ifc X) (eye order) = .ok P)
    (f : Feed K n) :
    memOf (f.exec (ap K n solve order) o).core = f.samples.foldl memPush (memOf o.core) ∧
      (show ApExt K n order from (f.exec (ap K n solve order) o).core.ext).ifc = o.core.ext.ifc := by
  cases f with
  | predict x =>
    have : Padasip.predict (ap K n solve order) (List.ofFn x) o = (.ok _, o) :=
      (liftM_eq (C := ap K n solve order) (o := o) (basePredict_ofFn o.core x))
    simp only [Feed.exec, this]
    exact ⟨rfl, trivial⟩
  | adapt d x =>
    obtain ⟨P, hP⟩ := hs (apX o.core x)
    have := liftM_eq (C := ap K n solve order) (o := o) (ap_adapt solve ho o.core d x P hP)
    have h2 : Padasip.adapt (ap K n solve order) d (List.ofFn x) o = _ := this
    simp only [Feed.exec, h2]
    exact ⟨rfl, trivial⟩
  | run data =>
    by_cases hd : data = []
    · subst hd; exact ⟨rfl, rfl⟩
    have hN : 0 < data.length := List.length_pos_iff.mpr hd
    let def0 : K × Vec K n := data.head hd
    let d : ℕ → K := fun k => (data.getD k def0).1
    let x : ℕ → Vec K n := fun k => (data.getD k def0).2
    have e1 : data.map Prod.fst = series d data.length := by
      apply List.ext_getElem
      · simp
      · intro i h1 h2
        simp only [List.getElem_map, getElem_series, d]
        rw [getD_lt _ (by simpa using h1)]
    have e2 : (data.map fun p => List.ofFn p.2) = rows x data.length := by
      apply List.ext_getElem
      · simp
      · intro i h1 h2
        simp only [rows, List.getElem_map, List.getElem_range, x]
        rw [getD_lt _ (by simpa using h1)]
    have hr := runs_of_safe (ap_safe solve ho o.core.ext.ifc hs) o rfl d x
    have e3 : ∀ k, memOf (traj (ap K n solve order) (o.core.withN n) d x k)
        = (series (fun k => (d k, x k)) k).foldl memPush (memOf o.core) := by
      intro k
      induction k with
      | zero => rfl
      | succ k ih =>
        obtain ⟨-, -, P, -, -, -, -, h1, h2, -⟩ := ap_runs ho hs hr k
        rw [series_succ_last, List.foldl_append, ← ih]
        simp only [memOf]
        rw [h1, h2]
        rfl
    have e4 : data = series (fun k => (d k, x k)) data.length := by
      apply List.ext_getElem
      · simp
      · intro i h1 h2
        simp only [getElem_series, d, x]
        rw [getD_lt _ (by simpa using h1)]
    have e5 : Feed.exec (ap K n solve order) o (.run data)
        = ⟨traj (ap K n solve order) (o.core.withN n) d x data.length,
          series (fun k => List.ofFn (traj (ap K n solve order) (o.core.withN n) d x k).w) data.length⟩ := by
      simp only [Feed.exec]
      rw [e1, e2, hr.2 data.length hN]
    rw [e5]
    refine ⟨?_, (ap_runs ho hs hr data.length).2.1⟩
    show _ = data.foldl memPush _
    rw [e3]
    exact congrArg (fun l => List.foldl memPush (memOf o.core) l) e4.symm

/-- C27: after any sequence of `run`, `adapt` and `predict` calls that processed the samples `l` (all calls together, oldest first),
column `j` of the input memory is the `j`-th newest input and entry `j` of the target memory the `j`-th
newest target; where fewer than `j + 1` samples were processed the initial content is there, shifted. -/
theorem C27_memory_window (solve : Solver K) (ho : 0 < order) (o : Obj (ap K n solve order))
    (hs : ∀ X : Mat K n order, ∃ P, solve order (apGram o.core.ext.ifc X) (eye order) = .ok P)
    (calls : List (Feed K n)) (l : List (K × Vec K n)) (hl : l = (calls.map Feed.samples).flatten)
    (q : ApExt K n order) (hq : q = (calls.foldl (Feed.exec (ap K n solve order)) o).core.ext)
    (j : Fin order) :
    (∀ h : j.val < l.length,
      (∀ i, q.xMem i j = (l[l.length - 1 - j.val]'(by omega)).2 i) ∧
      q.dMem j = (l[l.length - 1 - j.val]'(by omega)).1) ∧
    (∀ _ : l.length ≤ j.val,
      (∀ i, q.xMem i j = o.core.ext.xMem i ⟨j.val - l.length, by omega⟩) ∧
      q.dMem j = o.core.ext.dMem ⟨j.val - l.length, by omega⟩) := by
  have main : ∀ (calls : List (Feed K n)) (o : Obj (ap K n solve order)),
      (∀ X : Mat K n order, ∃ P, solve order (apGram o.core.ext.ifc X) (eye order) = .ok P) →
      memOf (calls.foldl (Feed.exec (ap K n solve order)) o).core
        = (calls.map Feed.samples).flatten.foldl memPush (memOf o.core) := by
    intro calls
    induction calls with
    | nil => intro o _; rfl
    | cons f t ih =>
      intro o hs
      obtain ⟨h1, h2⟩ := ap_feed solve ho o hs f
      have h3 : ∀ X : Mat K n order, ∃ P,
          solve order (apGram (show ApExt K n order from (f.exec (ap K n solve order) o).core.ext).ifc X)
            (eye order) = .ok P := by
        rw [h2]; exact hs
      have := ih (f.exec (ap K n solve order) o) h3
      rw [List.foldl_cons, this, h1, List.map_cons, List.flatten_cons, List.foldl_append]
  have h1 := main calls o hs
  have h2 := memPush_fold (memOf o.core) l j
  rw [hl, ← h1] at h2
  subst hq
  subst hl
  exact h2

/-- A fresh order-3 filter over ℚ after `run` on two samples and `adapt` on two more: the memory holds the last three. -/
example :
    let C := ap ℚ 1 ratSolve 3
    let o : Obj C := ⟨⟨fun _ => 0, 1, 1, (⟨1, fun _ _ => 0, fun _ => 0, fun _ => 0, fun _ => 0⟩ : ApExt ℚ 1 3)⟩, []⟩
    let q : ApExt ℚ 1 3 := ([Feed.run [(10, fun _ => 1), (20, fun _ => 2)], .adapt 30 (fun _ => 3), .predict (fun _ => 9),
      .adapt 40 (fun _ => 4)].foldl (Feed.exec C) o).core.ext
    List.ofFn (q.xMem 0) = [4, 3, 2] ∧ List.ofFn q.dMem = [40, 30, 20] := by
  decide +kernel

end memory

/-! ## C28: solvability -/

section solvable
variable {K : Type} [Field K] [LinearOrder K] [IsStrictOrderedRing K] {n order : ℕ}

/-- C28: `X^T X + ifc I` is symmetric positive definite for every memory content `X` when `ifc > 0`. -/
theorem C28_positive_definite (c : K) (hc : 0 < c) (X : Mat K n order) :
    (∀ a b, apGram c X a b = (∑ i, X i a * X i b) + if a = b then c else 0) ∧
    (∀ a b, apGram c X a b = apGram c X b a) ∧
    ∀ v : Vec K order, v ≠ 0 → 0 < ∑ a, ∑ b, v a * apGram c X a b * v b := by
  have h1 : ∀ a b, apGram c X a b = (∑ i, X i a * X i b) + if a = b then c else 0 := by
    intro a b
    simp only [apGram, dot_eq, eye]
    by_cases h : a = b <;> simp [h]
  refine ⟨h1, fun a b => ?_, fun v hv => ?_⟩
  · rw [h1, h1]
    congr 1
    · exact sum_congr rfl fun i _ => mul_comm _ _
    · by_cases h : a = b
      · simp [h]
      · simp [h, Ne.symm h]
  · have h2 := gram_quad c X v
    have h3 : ∑ a, ∑ b, v a * apGram c X a b * v b = ∑ a, v a * ∑ b, apGram c X a b * v b := by
      refine sum_congr rfl fun a _ => ?_
      rw [mul_sum]
      exact sum_congr rfl fun b _ => by ring
    rw [h3, h2]
    have h4 := dot_self_nonneg (fun i => dot (X i) v)
    have h5 : 0 < dot v v := by
      refine lt_of_le_of_ne (dot_self_nonneg v) fun h => hv ?_
      funext a
      exact dot_self_eq_zero.mp h.symm a
    have := mul_pos hc h5
    linarith

/-- A column of zeros makes `X^T X` singular. -/
theorem gram_singular (X : Mat K n order) (a : Fin order) (ha : ∀ i, X i a = 0) :
    (Matrix.of (apGram 0 X)).det = 0 := by
  apply Matrix.det_eq_zero_of_row_eq_zero a
  intro b
  show apGram 0 X a b = 0
  simp [apGram, dot_eq, ha]

/-- More memory columns than weights make `X^T X` singular. -/
theorem gram_singular_wide (X : Mat K n order) (h : n < order) :
    (Matrix.of (apGram 0 X)).det = 0 := by
  have h1 : (Matrix.of (apGram 0 X)) = (Matrix.of X).transpose * Matrix.of X := by
    ext a b
    show apGram 0 X a b = _
    simp [apGram, dot_eq, Matrix.mul_apply]
  by_contra hdet
  have h2 := Matrix.rank_of_isUnit _ ((Matrix.isUnit_iff_isUnit_det _).mpr (isUnit_iff_ne_zero.mpr hdet))
  rw [h1, Fintype.card_fin] at h2
  have h3 := (Matrix.rank_mul_le_left (Matrix.of X).transpose (Matrix.of X)).trans
    (Matrix.rank_le_width (Matrix.of X).transpose)
  omega

/-- `run` of AP when `np.linalg.solve` fails on the first sample -/
theorem ap_body_error (solve : Solver K) (ho : 0 < order) (s : Core K n (ApExt K n order)) (d : K)
    (x : Vec K n) (er : Err) (h : solve order (apGram s.ext.ifc (apX s x)) (eye order) = .error er) :
    (ap K n solve order).body d (List.ofFn x) s = (.error er, apPushed s d x) := by
  simp only [ap, ho, dif_pos, apBody]
  rw [← M.bind_assoc', M.bind_ok (ap_push ho s d x), M.get_bind]
  simp only [apRule, apPushed, M.bind_assoc', M.get_bind, h, M.lift_error_bind]

theorem ap_adapt_error (solve : Solver K) (ho : 0 < order) (s : Core K n (ApExt K n order)) (d : K)
    (x : Vec K n) (er : Err) (h : solve order (apGram s.ext.ifc (apX s x)) (eye order) = .error er) :
    (ap K n solve order).adapt d (List.ofFn x) s = (.error er, apPushed s d x) := by
  simp only [ap, apAdapt]
  rw [← M.bind_assoc', M.bind_ok (ap_push ho s d x), M.get_bind]
  simp only [apPushed, h, M.lift_error_bind]

theorem run_first_error {C : FilterClass K n} (o : Obj C) (d : ℕ → K) (x : ℕ → Vec K n) (N : ℕ)
    (er : Err) (s' : Core K n C.Ext)
    (hb : C.body (d 0) (List.ofFn (x 0)) (o.core.withN n) = (.error er, s')) :
    ∃ H, run C (series d (N + 1)) (rows x (N + 1)) o = (.error er, ⟨s', H⟩) := by
  have hr : rows x (N + 1) = List.ofFn (x 0) :: rows (fun k => x (k + 1)) N := by
    rw [rows_eq_series, series_succ]; rfl
  have hany : (rows x (N + 1)).any
      (fun r => decide (r.length ≠ (List.ofFn (x 0)).length)) = false := by
    rw [List.any_eq_false]
    intro r hr
    simp only [rows, List.mem_map] at hr
    obtain ⟨k, -, rfl⟩ := hr
    simp
  rw [hr, run_cons, ← hr, if_neg (by simp), hany, if_neg (by simp), hr, series_succ, List.zip_cons_cons]
  simp only [runLoop, List.length_ofFn]
  have hw : histWrite (C := C) 0 ⟨o.core.withN n,
      List.replicate (List.ofFn (x 0) :: rows (fun k => x (k + 1)) N).length (List.replicate n 0)⟩
      = (.ok (), ⟨o.core.withN n, (List.replicate (List.ofFn (x 0) :: rows (fun k => x (k + 1)) N).length
          (List.replicate n 0)).set 0 (List.ofFn o.core.w)⟩) := by
    simp [histWrite]
  rw [M.bind_assoc', M.bind_ok hw, M.bind_assoc', M.bind_error (liftM_eq (o := ⟨o.core.withN n, _⟩) hb)]
  exact ⟨_, rfl⟩

/-- C28: with `ifc = 0` the first `run` or `adapt` of an AP filter raises `LinAlgError` whenever a memory column (after the new
sample has been stored) is zero, or the order exceeds the filter size.  The memory has been overwritten by
then; the weights have not changed. -/
theorem C28_singular (solve : Solver K) (hs : SolveSpec solve) (ho : 0 < order) (o : Obj (ap K n solve order))
    (hi : o.core.ext.ifc = 0) (d : ℕ → K) (x : ℕ → Vec K n)
    (hsing : n < order ∨ (∀ i, x 0 i = 0) ∨
      ∃ j : Fin order, j.val + 1 < order ∧ ∀ i, o.core.ext.xMem i j = 0) :
    (∀ N, ∃ H s, run (ap K n solve order) (series d (N + 1)) (rows x (N + 1)) o
        = (.error .linAlgError, ⟨s, H⟩) ∧ s.w = o.core.w ∧
        (∀ i, (show ApExt K n order from s.ext).xMem i ⟨0, ho⟩ = x 0 i) ∧
        (show ApExt K n order from s.ext).dMem ⟨0, ho⟩ = d 0) ∧
    ∃ s, adapt (ap K n solve order) (d 0) (List.ofFn (x 0)) o = (.error .linAlgError, ⟨s, o.wHist⟩) ∧
      s.w = o.core.w ∧ (∀ i, (show ApExt K n order from s.ext).xMem i ⟨0, ho⟩ = x 0 i) ∧
        (show ApExt K n order from s.ext).dMem ⟨0, ho⟩ = d 0 := by
  have key : ∀ s : Core K n (ApExt K n order), s.ext = o.core.ext →
      solve order (apGram s.ext.ifc (apX s (x 0))) (eye order) = .error .linAlgError := by
    intro s hse
    rw [hse, hi]
    apply hs.singular
    rcases hsing with h | h | ⟨j, hj, h⟩
    · exact gram_singular_wide _ h
    · exact gram_singular _ ⟨0, ho⟩ fun i => by simp [apX, h]
    · refine gram_singular _ ⟨j.val + 1, hj⟩ fun i => ?_
      simp only [apX, shiftCols, hse]
      simpa using h i
  refine ⟨fun N => ?_, ?_⟩
  · obtain ⟨H, h⟩ := run_first_error o d x N _ _
      (ap_body_error solve ho (o.core.withN n) (d 0) (x 0) _ (key _ rfl))
    refine ⟨H, _, h, rfl, fun i => ?_, ?_⟩ <;> simp [apPushed, apX, apD]
  · refine ⟨_, liftM_eq (C := ap K n solve order) (o := o)
      (ap_adapt_error solve ho o.core (d 0) (x 0) _ (key _ rfl)), rfl, fun i => ?_, ?_⟩ <;>
      simp [apPushed, apX, apD]

/-- C28: with `ifc > 0` and order >= 1, an AP filter in *any* state (any memory content, any weights) accepts any well-shaped sample and
any non-empty well-shaped data set. -/
theorem C28_never_singular (solve : Solver K) (hs : SolveSpec solve) (ho : 0 < order)
    (o : Obj (ap K n solve order)) (hi : 0 < o.core.ext.ifc) :
    (∀ (d : K) (x : Vec K n), (adapt (ap K n solve order) d (List.ofFn x) o).1 = .ok ()) ∧
    ∀ (d : ℕ → K) (x : ℕ → Vec K n) (N : ℕ), 0 < N →
      ∃ r, (run (ap K n solve order) (series d N) (rows x N) o).1 = .ok r := by
  have hsol : ∀ X : Mat K n order, ∃ P, solve order (apGram o.core.ext.ifc X) (eye order) = .ok P :=
    fun X => (gram_solvable hs hi X).imp fun _ h => h.1
  refine ⟨fun d x => ?_, fun d x N hN => ?_⟩
  · obtain ⟨P, hP⟩ := hsol (apX o.core x)
    exact congrArg Prod.fst
      (liftM_eq (C := ap K n solve order) (o := o) (ap_adapt solve ho o.core d x P hP))
  · have hr := runs_of_safe (ap_safe solve ho o.core.ext.ifc hsol) o rfl d x
    exact ⟨_, by rw [hr.2 N hN]⟩

end solvable

/-- C28: after *any* history of calls - well-shaped or not, succeeding or raising - on an AP filter with `ifc > 0`, well-shaped data are
still accepted. -/
theorem C28_never_singular_history {n order : ℕ} (solve : Solver ℝ) (hs : SolveSpec solve) (ho : 0 < order)
    (o : Obj (ap ℝ n solve order)) (hi : 0 < o.core.ext.ifc) (calls : List (Call ℝ)) :
    (∀ (d : ℝ) (x : Vec ℝ n),
      (adapt (ap ℝ n solve order) d (List.ofFn x) (execAll (ap ℝ n solve order) o calls)).1 = .ok ()) ∧
    ∀ (d : ℕ → ℝ) (x : ℕ → Vec ℝ n) (N : ℕ), 0 < N →
      ∃ r, (run (ap ℝ n solve order) (series d N) (rows x N) (execAll (ap ℝ n solve order) o calls)).1 = .ok r := by
  have h1 := (ap_keeps (n := n) solve order o.core.ext.ifc).execAll calls o rfl
  apply C28_never_singular solve hs ho
  have h2 : (show ApExt ℝ n order from (execAll (ap ℝ n solve order) o calls).core.ext).ifc
    = o.core.ext.ifc := h1
  exact lt_of_lt_of_eq hi h2.symm

/-- the contract of the solver can be met, and `ifc > 0` for the default parameters -/
example : SolveSpec (exactSolve (K := ℝ)) ∧ (0 : ℝ) < lit 1 1000 := by
  refine ⟨exactSolve_spec, ?_⟩
  show (0 : ℝ) < ((1 : ℕ) : ℝ) / ((1000 : ℕ) : ℝ)
  norm_num

/-- the singular case: a fresh filter of order 2 with `ifc = 0` -/
example (w : Vec ℝ 3) : ∃ j : Fin 2, j.val + 1 < 2 ∧ ∀ i,
    (⟨⟨w, 3, 1, (⟨0, fun _ _ => 0, fun _ => 0, fun _ => 0, fun _ => 0⟩ : ApExt ℝ 3 2)⟩, []⟩ :
      Obj (ap ℝ 3 exactSolve 2)).core.ext.xMem i j = 0 :=
  ⟨0, by decide, fun _ => rfl⟩

/-! ## C29: order 1 is NLMS -/

section relation
variable {K : Type} [Field K] [LinearOrder K] [IsStrictOrderedRing K] {n order : ℕ}
variable {d : ℕ → K} {x : ℕ → Vec K n} {y e : ℕ → K}

theorem ap_one_step (c mu : K) (X : Mat K n 1) (P : Mat K 1 1) (hG : matMul (apGram c X) P = eye 1)
    (E : Vec K 1) (i : Fin n) :
    mu * dot (X i) (matVec P E) = mu / (c + dot (fun i => X i 0) (fun i => X i 0)) * X i 0 * E 0 := by
  have g1 : (c + dot (fun i => X i 0) (fun i => X i 0)) * P 0 0 = 1 := by
    have := congrFun (congrFun hG 0) 0
    rw [matMul_eq] at this
    simp only [univ_unique, Fin.default_eq_zero, sum_singleton, apGram, eye, if_true] at this
    rw [← this, mul_one, add_comm]
  have g3 := eq_inv_of_mul_eq_one_right g1
  simp only [dot_eq (X i), univ_unique, Fin.default_eq_zero, sum_singleton, matVec_eq, g3]
  rw [div_eq_mul_inv]; ring

/-- C29: `FilterAP` of order 1 with `ifc = c > 0` and `FilterNLMS` with `eps = c`, started from the same weights and with the same `mu`,
report the same outputs, errors and weights at every sample - whatever the memory of the AP filter contained. -/
theorem C29_order_one_is_nlms (solve : Solver K) (hs : SolveSpec solve) (o : Obj (ap K n solve 1))
    (o' : Obj (nlms K n)) (hc : 0 < o.core.ext.ifc) (heps : o'.core.ext.eps = o.core.ext.ifc)
    (hmu : o'.core.mu = o.core.mu) (hw : o'.core.w = o.core.w)
    {S : ℕ → Core K n (ApExt K n 1)} (h : Runs (ap K n solve 1) o d x y e S)
    {y' e' : ℕ → K} {S' : ℕ → Core K n (EpsExt K)} (h' : Runs (nlms K n) o' d x y' e' S') (k : ℕ) :
    y' k = y k ∧ e' k = e k ∧ (S' k).w = (S k).w := by
  have hsol : ∀ X : Mat K n 1, ∃ P, solve 1 (apGram o.core.ext.ifc X) (eye 1) = .ok P :=
    fun X => (gram_solvable hs hc X).imp fun _ h => h.1
  have step : ∀ k, (S' k).w = (S k).w → y' k = y k ∧ e' k = e k ∧ (S' (k + 1)).w = (S (k + 1)).w := by
    intro k hk
    obtain ⟨m1, i1, P, hP, hy, he, hwk, -⟩ := ap_runs one_pos hsol h k
    obtain ⟨m2, i2, hy', he', hwk'⟩ := nlms_runs h' k
    have e1 : y' k = y k := by
      rw [hy', hy, hk]
      show dot (S k).w (x k) = dot (fun i => apX (S k) (x k) i 0) (S k).w
      rw [dot_comm]; rfl
    have e2 : e' k = e k := by rw [he', he, e1]
    refine ⟨e1, e2, ?_⟩
    obtain ⟨P', hP', hG⟩ := gram_solvable hs hc (apX (S k) (x k))
    rw [hP] at hP'
    obtain rfl : P = P' := by simpa using hP'
    have g4 : apE (S k) (d k) (x k) 0 = e k := by
      rw [he, hy]; rfl
    rw [hwk, hwk']
    funext i
    have g5 := ap_one_step o.core.ext.ifc (S k).mu _ P hG (apE (S k) (d k) (x k)) i
    rw [g5, g4, hk, e2, m2, i2, hmu, heps, m1]
    rfl
  have all : ∀ k, (S' k).w = (S k).w := by
    intro k
    induction k with
    | zero => rw [h.1, h'.1]; exact hw
    | succ k ih => exact (step k ih).2.2
  exact ⟨(step k (all k)).1, (step k (all k)).2.1, all k⟩

/-- Both runs exist: a non-trivial pair with a non-empty AP memory. -/
example : ∃ (o : Obj (ap ℝ 2 exactSolve 1)) (o' : Obj (nlms ℝ 2)) (y e y' e' : ℕ → ℝ)
    (S : ℕ → Core ℝ 2 (ApExt ℝ 2 1)) (S' : ℕ → Core ℝ 2 (EpsExt ℝ)),
    Runs (ap ℝ 2 exactSolve 1) o (fun k => k) (fun k _ => k + 1) y e S ∧
    Runs (nlms ℝ 2) o' (fun k => k) (fun k _ => k + 1) y' e' S' ∧
    0 < o.core.ext.ifc ∧ o'.core.ext.eps = o.core.ext.ifc ∧ o'.core.mu = o.core.mu ∧
    o'.core.w = o.core.w :=
  ⟨⟨⟨fun _ => 1, 2, 1, (⟨1, fun _ _ => 5, fun _ => 6, fun _ => 0, fun _ => 0⟩ : ApExt ℝ 2 1)⟩, []⟩,
   ⟨⟨fun _ => 1, 2, 1, (⟨1⟩ : EpsExt ℝ)⟩, []⟩, _, _, _, _, _, _,
   runs_of_safe (ap_safe _ one_pos 1 fun X => (gram_solvable exactSolve_spec one_pos X).imp fun _ h => h.1) _ rfl _ _,
   runs_of_safe nlms_safe _ trivial _ _, one_pos, rfl, rfl, rfl⟩

/-! ## C30: noise-free data -/

/-- one step of AP with the exact solution of the linear system, in terms of `v = w - ws` -/
theorem ap_energy (X : Mat K n order) (c mu : K) (P : Mat K order order)
    (hP : matMul (apGram c X) P = eye order) (v : Vec K n) (er : Vec K order)
    (her : ∀ j, er j = -∑ i, X i j * v i) :
    sqn (fun i => v i + mu * dot (X i) (matVec P er))
      = sqn v - mu * (2 - mu) * sqn (fun i => dot (X i) (matVec P er))
        - 2 * mu * c * sqn (matVec P er) := by
  set g : Vec K order := matVec P er with hg
  have h1 : ∀ a, ∑ b, apGram c X a b * g b = er a := by
    intro a
    calc ∑ b, apGram c X a b * g b
        = ∑ b, apGram c X a b * ∑ j, P b j * er j := by
          exact sum_congr rfl fun b _ => by rw [hg, matVec_eq]
      _ = ∑ j, (∑ b, apGram c X a b * P b j) * er j := by
          simp only [mul_sum, sum_mul]
          rw [sum_comm]
          exact sum_congr rfl fun j _ => sum_congr rfl fun b _ => by ring
      _ = ∑ j, eye order a j * er j := by
          refine sum_congr rfl fun j _ => ?_
          rw [← matMul_eq, hP]
      _ = er a := eye_mulVec er a
  have h2 := gram_quad c X g
  simp only [h1] at h2
  have h3 : ∑ a, g a * er a = -∑ i, v i * dot (X i) g := by
    simp only [her, mul_neg, sum_neg_distrib, dot_eq, mul_sum]
    rw [sum_comm]
    congr 1
    exact sum_congr rfl fun i _ => sum_congr rfl fun j _ => by ring
  have h4 : sqn (fun i => v i + mu * dot (X i) g)
      = sqn v + 2 * mu * (∑ i, v i * dot (X i) g) + mu ^ 2 * sqn (fun i => dot (X i) g) := by
    unfold sqn
    rw [mul_sum, mul_sum, ← sum_add_distrib, ← sum_add_distrib]
    exact sum_congr rfl fun i _ => by ring
  rw [sqn_eq_dot, sqn_eq_dot] at h2
  rw [h4]
  rw [h3] at h2
  linear_combination (-2 * mu) * h2

/-- the memory fits `ws` at every sample -/
theorem ap_fits_runs (solve : Solver K) (ho : 0 < order) {o : Obj (ap K n solve order)}
    (hsol : ∀ X : Mat K n order, ∃ P, solve order (apGram o.core.ext.ifc X) (eye order) = .ok P)
    {S : ℕ → Core K n (ApExt K n order)} (h : Runs (ap K n solve order) o d x y e S) (ws : Vec K n)
    (hfit : ∀ j, o.core.ext.dMem j = ∑ i, ws i * o.core.ext.xMem i j)
    (hd : ∀ k, d k = ∑ i, ws i * x k i) (k : ℕ) :
    (∀ j, (S k).ext.dMem j = ∑ i, ws i * (S k).ext.xMem i j) ∧
    ∀ j, apD (S k) (d k) j = ∑ i, ws i * apX (S k) (x k) i j := by
  have one : ∀ k, (∀ j, (S k).ext.dMem j = ∑ i, ws i * (S k).ext.xMem i j) →
      ∀ j, apD (S k) (d k) j = ∑ i, ws i * apX (S k) (x k) i j := by
    intro k hk j
    unfold apD apX
    by_cases hj : j.val = 0
    · simp [hj, hd]
    · simp only [hj, if_false, shiftVec, shiftCols]
      exact hk _
  have all : ∀ k, ∀ j, (S k).ext.dMem j = ∑ i, ws i * (S k).ext.xMem i j := by
    intro k
    induction k with
    | zero => rw [h.1]; exact hfit
    | succ k ih =>
      obtain ⟨-, -, P, -, -, -, -, h1, h2, -⟩ := ap_runs ho hsol h k
      rw [h1, h2]
      exact one k ih
  exact ⟨all k, one k (all k)⟩

/-- C30: if the targets are `d(k) = <ws, x(k)>` (and so are those in the initial memory, e.g. a fresh one), `ifc > 0` and
`0 <= mu <= 2`, the misalignment `|w(k) - ws|^2` never increases. -/
theorem C30_monotone (solve : Solver K) (hs : SolveSpec solve) (ho : 0 < order)
    (o : Obj (ap K n solve order)) (hc : 0 < o.core.ext.ifc) (hmu : 0 ≤ o.core.mu)
    (hmu2 : o.core.mu ≤ 2) (ws : Vec K n)
    (hfit : ∀ j, o.core.ext.dMem j = ∑ i, ws i * o.core.ext.xMem i j)
    (hd : ∀ k, d k = ∑ i, ws i * x k i)
    {S : ℕ → Core K n (ApExt K n order)} (h : Runs (ap K n solve order) o d x y e S) (k : ℕ) :
    ∑ i, ((S (k + 1)).w i - ws i) ^ 2 ≤ ∑ i, ((S k).w i - ws i) ^ 2 := by
  have hsol : ∀ X : Mat K n order, ∃ P, solve order (apGram o.core.ext.ifc X) (eye order) = .ok P :=
    fun X => (gram_solvable hs hc X).imp fun _ h => h.1
  obtain ⟨m1, i1, P, hP, hy, he, hwk, -⟩ := ap_runs ho hsol h k
  obtain ⟨P', hP', hG⟩ := gram_solvable hs hc (apX (S k) (x k))
  rw [hP] at hP'
  obtain rfl : P = P' := by simpa using hP'
  have hf := (ap_fits_runs solve ho hsol h ws hfit hd k).2
  have her : ∀ j, apE (S k) (d k) (x k) j
      = -∑ i, apX (S k) (x k) i j * ((S k).w i - ws i) := by
    intro j
    show apD (S k) (d k) j - dot (fun i => apX (S k) (x k) i j) (S k).w = _
    rw [hf, dot_eq, ← sum_sub_distrib, ← sum_neg_distrib]
    exact sum_congr rfl fun i _ => by ring
  have hen := ap_energy (apX (S k) (x k)) o.core.ext.ifc (S k).mu P hG
    (fun i => (S k).w i - ws i) (apE (S k) (d k) (x k)) her
  have e1 : ∑ i, ((S (k + 1)).w i - ws i) ^ 2
      = sqn (fun i => (S k).w i - ws i
        + (S k).mu * dot (apX (S k) (x k) i) (matVec P (apE (S k) (d k) (x k)))) := by
    rw [hwk]
    unfold sqn
    exact sum_congr rfl fun i _ => by ring
  rw [e1, hen, m1]
  have a1 := mul_nonneg (mul_nonneg hmu (sub_nonneg.mpr hmu2))
    (sqn_nonneg fun i => dot (apX (S k) (x k) i) (matVec P (apE (S k) (d k) (x k))))
  have a2 := mul_nonneg (mul_nonneg (mul_nonneg (by norm_num : (0 : K) ≤ 2) hmu) hc.le)
    (sqn_nonneg (matVec P (apE (S k) (d k) (x k))))
  have a3 : sqn (fun i => (S k).w i - ws i) = ∑ i, ((S k).w i - ws i) ^ 2 := rfl
  rw [a3]
  linarith

/-- The hypotheses of C30: a fresh AP filter of order 3 fits every `ws`. -/
example : ∃ (o : Obj (ap ℝ 2 exactSolve 3)) (y e : ℕ → ℝ) (S : ℕ → Core ℝ 2 (ApExt ℝ 2 3)) (ws : Vec ℝ 2)
    (d : ℕ → ℝ) (x : ℕ → Vec ℝ 2),
    Runs (ap ℝ 2 exactSolve 3) o d x y e S ∧ 0 < o.core.ext.ifc ∧ 0 ≤ o.core.mu ∧ o.core.mu ≤ 2 ∧
    (∀ j, o.core.ext.dMem j = ∑ i, ws i * o.core.ext.xMem i j) ∧ (∀ k, d k = ∑ i, ws i * x k i) ∧
    o.core.w ≠ ws :=
  ⟨⟨⟨fun _ => 0, 2, 1, (⟨1, fun _ _ => 0, fun _ => 0, fun _ => 0, fun _ => 0⟩ : ApExt ℝ 2 3)⟩, []⟩, _, _, _,
    fun _ => 1, _, fun k _ => k,
   runs_of_safe (ap_safe _ (by norm_num) 1 fun X => (gram_solvable exactSolve_spec one_pos X).imp fun _ h => h.1) _ rfl _ _,
   one_pos, zero_le_one, one_le_two, fun j => by simp, fun k => rfl,
   fun h => zero_ne_one (congrFun h 0)⟩

end relation

end Padasip
