import Verif.Lemmas.Log
import Verif.Lemmas.Gram
import Verif.Spec.Example
import Mathlib.Tactic.FinCases

/-!
# C01-C06: `run`, `adapt`, `predict` for every filter, in any arithmetic
-/

set_option linter.unusedSectionVars false
set_option linter.unusedSimpArgs false

namespace Padasip

variable {K : Type} [Transc K] {n : ℕ}

/-! ## C01 -/

/-- C01: `run` on a well-shaped data set returns, with arrays of the promised sizes. -/
theorem C01_run_total (solve : Solver K) (k : Kind) (o : Obj (classOf (n := n) solve k))
    (ho : Ready solve k o.core) (d : List K) (x : List (List K)) (hlen : d.length = x.length)
    (hne : x ≠ []) (hw : ∀ r ∈ x, r.length = n) :
    ∃ y e W o', run (classOf solve k) d x o = (.ok (y, e, W), o') ∧
      y.length = x.length ∧ e.length = x.length ∧ W.length = x.length ∧ ∀ r ∈ W, r.length = n := by
  obtain ⟨ds, xs, h1, h2⟩ := exists_stream x hw d hlen 0
  have hN : 0 < x.length := List.length_pos_iff.mpr hne
  have hr := run_traj (ready_safe solve k) o ((ready_keeps solve k).withN _ n ho) ds xs x.length hN
  rw [← h1, ← h2] at hr
  refine ⟨_, _, _, _, hr, by simp, by simp, by simp, ?_⟩
  intro r hr
  simp only [series, List.mem_map] at hr
  obtain ⟨j, -, rfl⟩ := hr
  simp

/-- C01 for objects obtained from the constructor after any history of calls, failed calls included. -/
theorem C01_run_total_history (env : Env K) (t : Tag) (kw : Kwargs K) (hp : ParamsOk env t kw)
    (f : AnyFilter K env) (hf : construct env t kw = .ok f) (calls : List (Call K))
    (d : List K) (x : List (List K)) (hlen : d.length = x.length)
    (hne : x ≠ []) (hw : ∀ r ∈ x, r.length = f.n) :
    ∃ y e W o', run (classOf env.solve f.kind) d x (execAll _ f.obj calls) = (.ok (y, e, W), o') ∧
      y.length = x.length ∧ e.length = x.length ∧ W.length = x.length ∧ ∀ r ∈ W, r.length = f.n :=
  C01_run_total env.solve f.kind _
    ((ready_keeps env.solve f.kind).execAll calls _ (construct_ready hp hf).1) d x hlen hne hw

/-- the hypotheses of `C01_run_total_history` are met by an AP filter of order 2 and size 3 -/
example : ParamsOk exEnv .ap { n := some 3, mu := some 1, order := some 2, ifc := some (1 / 10) } ∧
    ∃ f, construct exEnv .ap { n := some 3, mu := some 1, order := some 2, ifc := some (1 / 10) } = .ok f ∧
      f.n = 3 := by
  refine ⟨⟨by simp, by simp, fun _ => ⟨by simp, fun n X => ?_⟩⟩, ?_⟩
  · obtain ⟨P, hP, -⟩ := gram_solvable exactSolve_spec (K := ℝ) (c := 1 / 10) (by norm_num) X
    exact ⟨P, hP⟩
  · refine ⟨_, rfl, rfl⟩

/-- ... and by an RLS filter and an OCNLMS filter with the default parameters -/
example : ParamsOk exEnv .rls { n := some 2, w := some (.str "zeros") } ∧
    ParamsOk exEnv .ocnlms { n := some 2, w := some (.str "zeros") } := by
  constructor
  · refine ⟨fun _ m hm => ?_, by simp, by simp⟩
    simp [defaultMu] at hm
    subst hm
    simp [lit, Scalar.eqz, Scalar.nat]
  · refine ⟨by simp, fun _ => by simp, by simp⟩

/-- a data set: three samples for a filter of size 2 -/
example : ([1, 2, 3] : List ℝ).length = ([[1, 2], [3, 4], [5, 6]] : List (List ℝ)).length ∧
    ∀ r ∈ ([[1, 2], [3, 4], [5, 6]] : List (List ℝ)), r.length = 2 := by
  simp

/-! ## C02 -/

/-- C02: what `run` returns is the log of the adaptation: row `k` of the history is the weight vector with which
sample `k` was predicted, `e = d - y`, the next state is the one `adapt` produces; the weights left in the filter are
those after the last sample.  The only law of arithmetic used is commutativity of `*` (for AP, which multiplies
in the other order than `predict`). -/
theorem C02_run_is_log (hc : ∀ a b : K, a * b = b * a) (solve : Solver K) (k : Kind)
    (o : Obj (classOf (n := n) solve k)) (ho : Ready solve k o.core) (d : ℕ → K) (x : ℕ → Vec K n)
    (N : ℕ) (hN : 0 < N) :
    ∃ y e W o', run (classOf solve k) (series d N) (rows x N) o
        = (.ok (series y N, series e N, rows W N), o') ∧
      IsLog (classOf solve k) (o.core.withN n) d x N y e W o'.core ∧
      o'.wHist = rows W N ∧ W 0 = o.core.w := by
  have hP := (ready_keeps solve k).withN _ n ho
  exact ⟨_, _, _, _, run_traj (ready_safe solve k) o hP d x N hN,
    traj_isLog hc hP rfl d x N, rfl, rfl⟩

/-- C02, for the fourteen filters with a linear output: `y[k]` is the scalar product of history row `k` and `x[k]`. -/
theorem C02_output_is_row_times_input (hc : ∀ a b : K, a * b = b * a) (solve : Solver K) (k : Kind)
    (hk : k ≠ .ocnlms)
    (o : Obj (classOf (n := n) solve k)) (ho : Ready solve k o.core) (d : ℕ → K) (x : ℕ → Vec K n)
    (N : ℕ) (hN : 0 < N) :
    ∃ W o', run (classOf solve k) (series d N) (rows x N) o
        = (.ok (series (fun j => dot (W j) (x j)) N, series (fun j => d j - dot (W j) (x j)) N,
            rows W N), o') := by
  obtain ⟨y, e, W, o', h, ⟨σ, -, -, hσ⟩, -, -⟩ := C02_run_is_log hc solve k o ho d x N hN
  refine ⟨W, o', ?_⟩
  rw [h]
  have hy : ∀ j < N, y j = dot (W j) (x j) := by
    intro j hj
    obtain ⟨h1, h2, -, -⟩ := hσ j hj
    rw [predict_pure hk] at h2
    simp only [Except.ok.injEq] at h2
    rw [h1, h2]
  have he : ∀ j < N, e j = d j - dot (W j) (x j) := by
    intro j hj
    rw [(hσ j hj).2.2.1, hy j hj]
  rw [series_congr hy, series_congr he]

/-- the hypotheses of C02: a real AP filter of order 2 -/
example : ∃ o : Obj (classOf (K := ℝ) (n := 3) exEnv.solve (.ap 2)), Ready exEnv.solve (.ap 2) o.core ∧
    ∀ a b : ℝ, a * b = b * a := by
  refine ⟨⟨⟨fun _ => 0, 3, 1, (⟨1 / 10, fun _ _ => 0, fun _ => 0, fun _ => 0, fun _ => 0⟩ :
    ApExt ℝ 3 2)⟩, []⟩, ⟨by norm_num, fun X => ?_⟩, mul_comm⟩
  obtain ⟨P, hP, -⟩ := gram_solvable exactSolve_spec (K := ℝ) (c := 1 / 10) (by norm_num) X
  exact ⟨P, hP⟩

/-! ## C03 -/

/-- C03: `run` is causal.  If two data sets (of any lengths) agree on the samples before `j` and on the input of sample `j`, then the
outputs, errors and history rows before `j`, and output and history row `j`, agree. -/
theorem C03_causal (solve : Solver K) (k : Kind)
    (o : Obj (classOf (n := n) solve k)) (ho : Ready solve k o.core)
    (hc : ∀ a b : K, a * b = b * a)
    (d d' : ℕ → K) (x x' : ℕ → Vec K n) (N N' j : ℕ) (hj : j < N) (hj' : j < N')
    (hd : ∀ i < j, d i = d' i) (hx : ∀ i ≤ j, x i = x' i)
    (y e W y' e' W' o1 o2)
    (h1 : run (classOf solve k) (series d N) (rows x N) o = (.ok (y, e, W), o1))
    (h2 : run (classOf solve k) (series d' N') (rows x' N') o = (.ok (y', e', W'), o2)) :
    (∀ i ≤ j, y[i]? = y'[i]? ∧ W[i]? = W'[i]?) ∧ ∀ i < j, e[i]? = e'[i]? := by
  have hP := (ready_keeps solve k).withN _ n ho
  rw [run_traj (ready_safe solve k) o hP d x N (by omega)] at h1
  rw [run_traj (ready_safe solve k) o hP d' x' N' (by omega)] at h2
  simp only [Prod.mk.injEq, Except.ok.injEq] at h1 h2
  obtain ⟨⟨rfl, rfl, rfl⟩, -⟩ := h1
  obtain ⟨⟨rfl, rfl, rfl⟩, -⟩ := h2
  have ht : ∀ i ≤ j, traj (classOf solve k) (o.core.withN n) d x i
      = traj (classOf solve k) (o.core.withN n) d' x' i := fun i hi =>
    traj_congr _ _ (fun l hl => hd l (by omega)) (fun l hl => hx l (by omega))
  constructor
  · intro i hi
    have hi1 : i < N := by omega
    have hi2 : i < N' := by omega
    constructor
    · simp only [series, List.getElem?_map, List.getElem?_range hi1, List.getElem?_range hi2,
        Option.map_some, Option.some.injEq]
      have hr := traj_safe (ready_safe solve k) hP rfl d x i
      have b1 := (predict_of_body hc hr.1 (body_traj (ready_safe solve k) hP rfl d x i)).1
      have hr' := traj_safe (ready_safe solve k) hP rfl d' x' i
      have b2 := (predict_of_body hc hr'.1 (body_traj (ready_safe solve k) hP rfl d' x' i)).1
      rw [ht i hi, hx i hi] at b1
      exact Except.ok.inj (b1.symm.trans b2)
    · simp only [series, List.getElem?_map, List.getElem?_range hi1, List.getElem?_range hi2,
        Option.map_some, Option.some.injEq, wAt, ht i hi]
  · intro i hi
    have hi1 : i < N := by omega
    have hi2 : i < N' := by omega
    simp only [series, List.getElem?_map, List.getElem?_range hi1, List.getElem?_range hi2,
        Option.map_some, Option.some.injEq]
    rw [outAt_congr _ _ (fun l hl => hd l (by omega)) (fun l hl => hx l (by omega))]

/-- two data sets that differ from sample 1 on -/
example : (∀ i < 1, (fun _ => 1 : ℕ → ℝ) i = (fun i => if i = 0 then 1 else 7 : ℕ → ℝ) i) := by
  intro i hi; simp [show i = 0 by omega]

/-! ## C04 -/

/-- C04: filtering a data set in two consecutive calls gives the same outputs, errors, history and final attributes as
filtering it in one call. -/
theorem C04_chunks (solve : Solver K) (k : Kind) (o : Obj (classOf (n := n) solve k))
    (ho : Ready solve k o.core) (d1 d2 : List K) (x1 x2 : List (List K))
    (hl1 : d1.length = x1.length) (hl2 : d2.length = x2.length) (hne1 : x1 ≠ []) (hne2 : x2 ≠ [])
    (hw1 : ∀ r ∈ x1, r.length = n) (hw2 : ∀ r ∈ x2, r.length = n) :
    ∃ y1 e1 W1 o1 y2 e2 W2 o2 o12,
      run (classOf solve k) d1 x1 o = (.ok (y1, e1, W1), o1) ∧
      run (classOf solve k) d2 x2 o1 = (.ok (y2, e2, W2), o2) ∧
      run (classOf solve k) (d1 ++ d2) (x1 ++ x2) o
        = (.ok (y1 ++ y2, e1 ++ e2, W1 ++ W2), o12) ∧ o12.core = o2.core := by
  obtain ⟨d, x, hd, hx⟩ := exists_stream (x1 ++ x2) (n := n)
    (by intro r hr; rcases List.mem_append.mp hr with h | h; exacts [hw1 r h, hw2 r h])
    (d1 ++ d2) (by simp [hl1, hl2]) 0
  have hP := (ready_keeps solve k).withN _ n ho
  have p1 : 0 < x1.length := List.length_pos_iff.mpr hne1
  have p2 : 0 < x2.length := List.length_pos_iff.mpr hne2
  rw [List.length_append] at hd hx
  have hd' := hd
  have hx' := hx
  rw [series_add] at hd'
  rw [rows_eq_series, series_add, ← rows_eq_series] at hx'
  obtain ⟨hd1, hd2⟩ := List.append_inj hd' (by simp [hl1])
  obtain ⟨hx1, hx2⟩ := List.append_inj hx' (by simp)
  have r12 := run_traj (ready_safe solve k) o hP d x (x1.length + x2.length) (by omega)
  have r1 := run_traj (ready_safe solve k) o hP d x x1.length p1
  rw [← hd, ← hx, series_add, series_add, series_add] at r12
  rw [← hd1, ← hx1] at r1
  have ht := traj_safe (ready_safe solve k) hP rfl d x x1.length
  have r2 := run_traj (ready_safe solve k)
    ⟨traj (classOf solve k) (o.core.withN n) d x x1.length,
      series (fun k_1 => List.ofFn (wAt (classOf solve k) (o.core.withN n) d x k_1)) x1.length⟩
    ((ready_keeps solve k).withN _ n ht.1) (fun i => d (x1.length + i)) (fun i => x (x1.length + i))
    x2.length p2
  have hx2' : x2 = rows (fun i => x (x1.length + i)) x2.length := hx2
  rw [← hd2, ← hx2'] at r2
  simp only [Core.withN_self _ ht.2, wAt] at r2
  simp only [wAt, outAt_add, traj_add] at r12
  exact ⟨_, _, _, _, _, _, _, _, _, r1, r2, r12, rfl⟩

/-! ## C05 -/

/-- C05: an `adapt` loop leaves weights and every internal attribute exactly as `run` does (all filters; AP included). -/
theorem C05_adapt_loop (solve : Solver K) (k : Kind) (o : Obj (classOf (n := n) solve k))
    (ho : Ready solve k o.core) (hn : o.core.nAttr = n) (d : List K) (x : List (List K))
    (hlen : d.length = x.length) (hne : x ≠ []) (hw : ∀ r ∈ x, r.length = n) :
    (adaptAll (classOf solve k) (d.zip x) o).1 = .ok () ∧
    (adaptAll (classOf solve k) (d.zip x) o).2.core = (run (classOf solve k) d x o).2.core ∧
    (adaptAll (classOf solve k) (d.zip x) o).2.wHist = o.wHist := by
  obtain ⟨ds, xs, h1, h2⟩ := exists_stream x hw d hlen 0
  have hN : 0 < x.length := List.length_pos_iff.mpr hne
  have hr := run_traj (ready_safe solve k) o ((ready_keeps solve k).withN _ n ho) ds xs x.length hN
  rw [← h1, ← h2] at hr
  have hz : d.zip x = series (fun j => (ds (0 + j), List.ofFn (xs (0 + j)))) x.length := by
    have := zip_stream ds xs x.length
    rwa [← h1, ← h2] at this
  have ha := adaptAll_traj ho hn ds xs x.length o.wHist 0
  rw [← hz] at ha
  have ha' : adaptAll (classOf solve k) (d.zip x) o
      = (.ok (), ⟨traj _ o.core ds xs (0 + x.length), o.wHist⟩) := ha
  rw [ha', hr, Core.withN_self _ hn]
  simp

/-- the hypotheses of C04/C05: an OCNLMS filter of size 2 and memory 3, with two chunks -/
example : ∃ o : Obj (classOf (K := ℝ) (n := 2) exEnv.solve .ocnlms),
    Ready exEnv.solve .ocnlms o.core ∧ o.core.nAttr = 2 := by
  refine ⟨⟨⟨fun _ => 0, 2, 1, (⟨1, true, [fun _ => 0, fun _ => 0, fun _ => 0], [0, 0, 0], 0⟩ :
    OcExt ℝ 2)⟩, []⟩, ?_, rfl⟩
  exact ⟨rfl, by decide⟩

/-! ## C06 -/

/-- C06: except for OCNLMS, `predict` changes nothing, whatever its argument. -/
theorem C06_predict_pure (solve : Solver K) (k : Kind) (hk : k ≠ .ocnlms)
    (o : Obj (classOf (n := n) solve k)) (x : List K) :
    (predict (classOf solve k) x o).2 = o := by
  have key : ∀ {X : Type} (s : Core K n X), (basePredict x s).2 = s := by
    intro X s
    unfold basePredict
    rw [M.bind_apply]
    cases asVec n x <;> rfl
  have : ((classOf solve k).predict x o.core).2 = o.core := by
    cases k
    case ocnlms => exact absurd rfl hk
    all_goals exact key o.core
  unfold predict Obj.liftM
  cases o
  simp_all

/-- C06: except for OCNLMS, the documented protocol (predict, then adapt, per sample) yields the outputs of `run` and the same
filter. -/
theorem C06_real_time (hc : ∀ a b : K, a * b = b * a) (solve : Solver K) (k : Kind)
    (hk : k ≠ .ocnlms) (o : Obj (classOf (n := n) solve k))
    (ho : Ready solve k o.core) (hn : o.core.nAttr = n) (d : List K) (x : List (List K))
    (hlen : d.length = x.length) (hne : x ≠ []) (hw : ∀ r ∈ x, r.length = n) :
    ∃ y e W o' o'', realTime (classOf solve k) (d.zip x) o = (.ok y, o') ∧
      run (classOf solve k) d x o = (.ok (y, e, W), o'') ∧ o'.core = o''.core := by
  obtain ⟨ds, xs, h1, h2⟩ := exists_stream x hw d hlen 0
  have hN : 0 < x.length := List.length_pos_iff.mpr hne
  have hr := run_traj (ready_safe solve k) o ((ready_keeps solve k).withN _ n ho) ds xs x.length hN
  rw [← h1, ← h2] at hr
  have hz : d.zip x = series (fun j => (ds (0 + j), List.ofFn (xs (0 + j)))) x.length := by
    have := zip_stream ds xs x.length
    rwa [← h1, ← h2] at this
  have ha := realTime_traj hk hc ho hn ds xs x.length o.wHist 0
  rw [← hz] at ha
  have ha' : realTime (classOf solve k) (d.zip x) o
      = (.ok _, ⟨traj _ o.core ds xs (0 + x.length), o.wHist⟩) := ha
  rw [Core.withN_self _ hn] at hr
  simp only [Nat.zero_add] at ha'
  exact ⟨_, _, _, _, _, ha', hr, rfl⟩

/-- C06, the exception: for a fresh OCNLMS filter the documented protocol returns other outputs than `run` on the same two
samples, because `predict` advances the memory index. -/
theorem C06_ocnlms_protocol_differs :
    ∃ (d : List ℚ) (x : List (List ℚ)) (y y' : List ℚ),
      (realTime (ocnlms ℚ 1) (d.zip x) (ocFresh 3)).1 = .ok y ∧
      (∃ e W, (run (ocnlms ℚ 1) d x (ocFresh 3)).1 = .ok (y', e, W)) ∧ y ≠ y' :=
  ⟨[1, 2], [[1], [2]], [0, 33 / 26], [0, 7 / 6], by decide +kernel,
    ⟨[1, 5 / 6], [[0], [2 / 5]], by decide +kernel⟩, by decide +kernel⟩

/-- the hypotheses of C06: an RLS filter on two samples -/
example : ∃ (o : Obj (classOf (K := ℝ) (n := 2) exEnv.solve .rls)) (y e : List ℝ) (W : List (List ℝ)) (o' o'' : Obj (classOf (K := ℝ) (n := 2) exEnv.solve .rls)),
    Ready exEnv.solve .rls o.core ∧ realTime (classOf exEnv.solve .rls) ([1, 2].zip [[1, 2], [3, 4]]) o = (.ok y, o') ∧
      run (classOf exEnv.solve .rls) [1, 2] [[1, 2], [3, 4]] o = (.ok (y, e, W), o'') ∧ o'.core = o''.core := by
  have hr : Ready exEnv.solve .rls (⟨fun _ => 0, 2, 1 / 2, (⟨1, fun i j => if i = j then 1 else 0⟩ : RlsExt ℝ 2)⟩ : Core ℝ 2 (RlsExt ℝ 2)) := by
    show decide ((1 / 2 : ℝ) = 0) = false
    simp
  obtain ⟨y, e, W, o', o'', h1, h2, h3⟩ := C06_real_time mul_comm exEnv.solve .rls (fun h => by cases h)
    ⟨⟨fun _ => 0, 2, 1 / 2, (⟨1, fun i j => if i = j then 1 else 0⟩ : RlsExt ℝ 2)⟩, []⟩ hr rfl [1, 2] [[1, 2], [3, 4]] rfl (by simp) (by simp)
  exact ⟨_, y, e, W, o', o'', hr, h1, h2, h3⟩

end Padasip
