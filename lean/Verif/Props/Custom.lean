import Verif.Model.Custom
import Verif.Model.OcWidth
import Verif.Spec.Log
import Verif.Lemmas.Engine
import Verif.Lemmas.Field
import Verif.Lemmas.Reject
import Verif.Lemmas.Rules
import Verif.Lemmas.Runs
import Verif.Lemmas.Log

/-!
# C133: filters derived from the base classes
-/

set_option linter.unusedSectionVars false
set_option linter.unusedSimpArgs false
set_option linter.unusedVariables false

namespace Padasip

variable {K : Type} [Scalar K] {n order : ℕ} {X : Type}

/-! ### any class whose `adapt` is its loop body -/

/-- `adapt` does what the loop body does, and no body assigns `self.n` -/
structure PlainLoop (C : FilterClass K n) : Prop where
  adapt : ∀ d x s, C.adapt d x s = ((C.body d x s).1.map (fun _ => ()), (C.body d x s).2)
  keeps : ∀ d x s, (C.body d x s).2.nAttr = s.nAttr

/-- what the loop does, on the attributes other than the history: the attributes before every sample, the outputs and the errors -/
def trace (C : FilterClass K n) : List (K × List K) → M (Core K n C.Ext) (List (Core K n C.Ext) × List K × List K)
  | [] => fun s => (.ok ([], [], []), s)
  | (d, x) :: t => fun s => match C.body d x s with
    | (.error er, s') => (.error er, s')
    | (.ok (y, e), s') => match trace C t s' with
      | (.error er, s'') => (.error er, s'')
      | (.ok (l, ys, es), s'') => (.ok (s :: l, y :: ys, e :: es), s'')

theorem histWrite_ok {C : FilterClass K n} (k : ℕ) (o : Obj C) (h : o.core.nAttr = n) :
    histWrite k o = (.ok (), ⟨o.core, o.wHist.set k (List.ofFn o.core.w)⟩) := by
  have : bcast o.core.nAttr (List.ofFn o.core.w) = .ok (List.ofFn o.core.w) := by
    unfold bcast; rw [if_pos (by rw [List.length_ofFn, h])]
  unfold histWrite
  rw [M.get_bind, this]
  rfl

theorem liftM_apply {α : Type} {C : FilterClass K n} (m : M (Core K n C.Ext) α) (o : Obj C) :
    Obj.liftM m o = ((m o.core).1, ⟨(m o.core).2, o.wHist⟩) := rfl

theorem runLoop_trace {C : FilterClass K n} (hC : PlainLoop C) (l : List (K × List K)) : ∀ (k : ℕ) (o : Obj C), o.core.nAttr = n → o.wHist.length = k + l.length →
    (∀ er s, trace C l o.core = (.error er, s) → ∃ H, runLoop C k l o = (.error er, ⟨s, H⟩)) ∧
    ∀ L ys es s, trace C l o.core = (.ok (L, ys, es), s) →
      runLoop C k l o = (.ok (ys, es), ⟨s, o.wHist.take k ++ L.map fun c => List.ofFn c.w⟩) := by
  induction l with
  | nil =>
    intro k o hn hl
    refine ⟨fun er s h => by simp [trace] at h, fun L ys es s h => ?_⟩
    simp only [trace, Prod.mk.injEq, Except.ok.injEq] at h
    obtain ⟨⟨rfl, rfl, rfl⟩, rfl⟩ := h
    have : o.wHist.take k = o.wHist := List.take_of_length_le (by simp at hl; omega)
    show (_, o) = _
    rw [this]; simp
  | cons q t ih =>
    obtain ⟨d, x⟩ := q
    intro k o hn hl
    have hw := histWrite_ok k o hn
    have hstep : runLoop C k ((d, x) :: t) o
        = (Obj.liftM (C.body d x) >>= fun p => runLoop C (k + 1) t >>= fun r => pure (p.1 :: r.1, p.2 :: r.2))
          ⟨o.core, o.wHist.set k (List.ofFn o.core.w)⟩ := by
      show (histWrite k >>= fun _ => _) o = _
      rw [M.bind_ok hw]
    rw [hstep]
    rcases hb : C.body d x o.core with ⟨er0 | ⟨y, e⟩, s'⟩
    · -- the rule raised
      have h1 : (Obj.liftM (C.body d x) : M (Obj C) _) ⟨o.core, o.wHist.set k (List.ofFn o.core.w)⟩
          = (.error er0, ⟨s', o.wHist.set k (List.ofFn o.core.w)⟩) := by
        rw [liftM_apply, hb]
      rw [M.bind_error h1]
      simp only [trace, hb]
      refine ⟨fun er s h => ?_, fun L ys es s h => by simp at h⟩
      obtain ⟨h1, rfl⟩ := Prod.mk.inj h
      cases h1
      exact ⟨_, rfl⟩
    · have h1 : (Obj.liftM (C.body d x) : M (Obj C) _) ⟨o.core, o.wHist.set k (List.ofFn o.core.w)⟩
          = (.ok (y, e), ⟨s', o.wHist.set k (List.ofFn o.core.w)⟩) := by
        rw [liftM_apply, hb]
      rw [M.bind_ok h1]
      simp only [trace, hb]
      have hn' : s'.nAttr = n := by have := hC.keeps d x o.core; rw [hb] at this; exact this.trans hn
      have := ih (k + 1) ⟨s', o.wHist.set k (List.ofFn o.core.w)⟩ hn' (by simp at hl ⊢; omega)
      dsimp only at this
      rcases ht : trace C t s' with ⟨er1 | ⟨L, ys, es⟩, s''⟩
      · obtain ⟨H, hH⟩ := this.1 _ _ ht
        rw [M.bind_error hH]
        refine ⟨fun er s h => ?_, fun L ys es s h => by simp at h⟩
        obtain ⟨h1, rfl⟩ := Prod.mk.inj h
        cases h1
        exact ⟨_, rfl⟩
      · have h2 := this.2 _ _ _ _ ht
        rw [M.bind_ok h2]
        refine ⟨fun er s h => by simp at h, fun L' ys' es' s h => ?_⟩
        simp only [Prod.mk.injEq, Except.ok.injEq] at h
        obtain ⟨⟨rfl, rfl, rfl⟩, rfl⟩ := h
        have e1 : (o.wHist.set k (List.ofFn o.core.w)).take (k + 1) = o.wHist.take k ++ [List.ofFn o.core.w] := by
          have hk : k < o.wHist.length := by simp at hl; omega
          rw [List.take_succ_eq_append_getElem (by simpa using hk), List.take_set, List.set_eq_of_length_le (by simp)]
          simp
        show (_, _) = _
        rw [e1]
        simp

theorem adaptAll_trace {C : FilterClass K n} (hC : PlainLoop C) (l : List (K × List K)) : ∀ (o : Obj C),
    adaptAll C l o = ((trace C l o.core).1.map (fun _ => ()), ⟨(trace C l o.core).2, o.wHist⟩) := by
  induction l with
  | nil => intro o; rfl
  | cons q t ih =>
    obtain ⟨d, x⟩ := q
    intro o
    have hA := hC.adapt d x o.core
    show (adapt C d x >>= fun _ => adaptAll C t) o = _
    have h0 : adapt C d x o = ((C.adapt d x o.core).1, ⟨(C.adapt d x o.core).2, o.wHist⟩) := rfl
    rcases hb : C.body d x o.core with ⟨er0 | ⟨y, e⟩, s'⟩
    · rw [hA, hb] at h0
      rw [M.bind_error (e := er0) (s' := ⟨s', o.wHist⟩) h0]
      simp only [trace, hb, Except.map]
    · rw [hA, hb] at h0
      rw [M.bind_ok (a := ()) (s' := ⟨s', o.wHist⟩) h0, ih]
      simp only [trace, hb]
      rcases ht : trace C t s' with ⟨er1 | ⟨L, ys, es⟩, s''⟩ <;> rfl

/-- `run` on data of the right shape -/
theorem run_trace {C : FilterClass K n} (hC : PlainLoop C) (o : Obj C) (d : List K) (x : List (List K))
    (hlen : d.length = x.length) (hne : x ≠ []) (hw : ∀ r ∈ x, r.length = n) :
    (∀ er s, trace C (d.zip x) (o.core.withN n) = (.error er, s) → ∃ H, run C d x o = (.error er, ⟨s, H⟩)) ∧
    ∀ L ys es s, trace C (d.zip x) (o.core.withN n) = (.ok (L, ys, es), s) →
      run C d x o = (.ok (ys, es, L.map fun c => List.ofFn c.w), ⟨s, L.map fun c => List.ofFn c.w⟩) := by
  obtain _ | ⟨x0, t⟩ := x
  · exact absurd rfl hne
  have h0 : x0.length = n := hw x0 (by simp)
  have hany : (x0 :: t).any (fun r => decide (r.length ≠ x0.length)) = false := by
    rw [List.any_eq_false]
    intro r hr
    simp [hw r hr, h0]
  rw [run_cons, if_neg (by simpa using hlen), hany, h0]
  have hl : (d.zip (x0 :: t)).length = (x0 :: t).length := by simp [hlen]
  have := runLoop_trace hC (d.zip (x0 :: t)) 0 ⟨o.core.withN n, List.replicate (x0 :: t).length (List.replicate n 0)⟩ rfl (by simp [hl])
  dsimp only at this
  refine ⟨fun er s h => ?_, fun L ys es s h => ?_⟩
  · obtain ⟨H, hH⟩ := this.1 _ _ h
    exact ⟨H, by rw [if_neg (by simp)]; exact M.bind_error hH⟩
  · have hH := this.2 _ _ _ _ h
    rw [if_neg (by simp), M.bind_ok hH]
    rw [List.take_zero, List.nil_append]
    rfl

theorem trace_append {C : FilterClass K n} (a b : List (K × List K)) : ∀ s : Core K n C.Ext,
    trace C (a ++ b) s = match trace C a s with
      | (.error er, s') => (.error er, s')
      | (.ok (L, ys, es), s') => match trace C b s' with
        | (.error er, s'') => (.error er, s'')
        | (.ok (L', ys', es'), s'') => (.ok (L ++ L', ys ++ ys', es ++ es'), s'') := by
  induction a with
  | nil =>
    intro s
    show trace C b s = _
    simp only [trace]
    rcases trace C b s with ⟨er | ⟨L, ys, es⟩, s'⟩ <;> rfl
  | cons q t ih =>
    obtain ⟨d, x⟩ := q
    intro s
    simp only [List.cons_append, trace]
    rcases C.body d x s with ⟨er | ⟨y, e⟩, s'⟩
    · rfl
    · simp only [ih]
      rcases trace C t s' with ⟨er | ⟨L, ys, es⟩, s''⟩
      · rfl
      · simp only
        rcases trace C b s'' with ⟨er | ⟨L', ys', es'⟩, s3⟩ <;> rfl

theorem trace_nAttr {C : FilterClass K n} (hC : PlainLoop C) (l : List (K × List K)) : ∀ s : Core K n C.Ext, (trace C l s).2.nAttr = s.nAttr := by
  induction l with
  | nil => intro s; rfl
  | cons q t ih =>
    obtain ⟨d, x⟩ := q
    intro s
    have hk := hC.keeps d x s
    simp only [trace]
    rcases hb : C.body d x s with ⟨er | ⟨y, e⟩, s'⟩
    · rw [hb] at hk; exact hk
    · rw [hb] at hk
      have := ih s'
      simp only
      rcases ht : trace C t s' with ⟨er | ⟨L, ys, es⟩, s''⟩
      · rw [ht] at this; exact this.trans hk
      · rw [ht] at this; exact this.trans hk


/-! ### subclasses of `AdaptiveFilter` -/

theorem custom_adapt_body (rule : CustomRule K n X) (d : K) (x : List K) (s : Core K n X) :
    customAdapt rule d x s = ((customBody rule d x s).1.map (fun _ => ()), (customBody rule d x s).2) := by
  unfold customAdapt customBody
  rw [M.bind_apply, M.bind_apply]
  rcases basePredict x s with ⟨er | y, s1⟩
  · rfl
  · simp only
    rw [M.bind_apply, M.bind_apply]
    rcases callRule rule (d - y) x s1 with ⟨er | dw, s2⟩
    · rfl
    · simp only
      rw [M.bind_apply]
      rcases addWeights dw s2 with ⟨er | u, s3⟩ <;> rfl

theorem custom_predict_state (x : List K) (s : Core K n X) : (basePredict x s).2 = s := by
  unfold basePredict
  rw [M.bind_apply, M.lift_apply]
  rcases asVec n x with er | v <;> rfl

theorem addWeights_nAttr (dw : List K) (s : Core K n X) : (addWeights dw s).2.nAttr = s.nAttr := by
  unfold addWeights
  rw [M.bind_apply, M.lift_apply]
  rcases bcastVec n dw with er | v <;> rfl

theorem custom_keeps (rule : CustomRule K n X) (d : K) (x : List K) (s : Core K n X) : (customBody rule d x s).2.nAttr = s.nAttr := by
  have hp := custom_predict_state x s
  unfold customBody
  rw [M.bind_apply]
  rcases hb : basePredict x s with ⟨er | y, s1⟩ <;> rw [hb] at hp
  · obtain rfl : s1 = s := hp
    rfl
  · obtain rfl : s1 = s := hp
    simp only
    have hc : (callRule rule (d - y) x s1).2.nAttr = s1.nAttr := rfl
    rw [M.bind_apply]
    rcases hr : callRule rule (d - y) x s1 with ⟨er | dw, s2⟩ <;> rw [hr] at hc
    · exact hc
    · simp only
      have ha := addWeights_nAttr dw s2
      rw [M.bind_apply]
      rcases hq : addWeights dw s2 with ⟨er | u, s3⟩ <;> rw [hq] at ha <;> exact ha.trans hc

theorem custom_plain (rule : CustomRule K n X) : PlainLoop (custom rule) := ⟨custom_adapt_body rule, custom_keeps rule⟩

/-- C133: for every subclass of `AdaptiveFilter` - every `learning_rule`, which may keep attributes of its own, raise, or return an array of a wrong length - `run` leaves the same attributes as a
loop of `adapt`, and raises if and only if the loop raises, the same exception. -/
theorem C133_loop (rule : CustomRule K n X) (o : Obj (custom rule)) (hn : o.core.nAttr = n) (d : List K) (x : List (List K))
    (hlen : d.length = x.length) (hne : x ≠ []) (hw : ∀ r ∈ x, r.length = n) :
    raised (run (custom rule) d x o).1 = raised (adaptAll (custom rule) (d.zip x) o).1 ∧
    (run (custom rule) d x o).2.core = (adaptAll (custom rule) (d.zip x) o).2.core := by
  have hr := run_trace (custom_plain rule) o d x hlen hne hw
  rw [Core.withN_self _ hn] at hr
  rw [adaptAll_trace (custom_plain rule)]
  rcases ht : trace (custom rule) (d.zip x) o.core with ⟨er | ⟨L, ys, es⟩, s⟩
  · obtain ⟨H, h⟩ := hr.1 _ _ ht
    rw [h]
    exact ⟨rfl, rfl⟩
  · rw [hr.2 _ _ _ _ ht]
    exact ⟨rfl, rfl⟩

/-- a sample in the middle of a trace -/
theorem trace_at {C : FilterClass K n} (a b : List (K × List K)) (d : K) (x : List K) (s s' : Core K n C.Ext) (L : List (Core K n C.Ext)) (ys es : List K)
    (h : trace C (a ++ (d, x) :: b) s = (.ok (L, ys, es), s')) :
    ∃ La ysa esa sa y e, trace C a s = (.ok (La, ysa, esa), sa) ∧ La.length = a.length ∧ ysa.length = a.length ∧ esa.length = a.length ∧
      (∃ s1, C.body d x sa = (.ok (y, e), s1)) ∧ L[a.length]? = some sa ∧ ys[a.length]? = some y ∧ es[a.length]? = some e := by
  induction a generalizing s L ys es with
  | nil =>
    simp only [List.nil_append, trace] at h
    rcases hb : C.body d x s with ⟨er | ⟨y, e⟩, s1⟩
    · simp [hb] at h
    · simp only [hb] at h
      rcases ht : trace C b s1 with ⟨er | ⟨L', ys', es'⟩, s2⟩
      · simp [ht] at h
      · simp only [ht, Prod.mk.injEq, Except.ok.injEq] at h
        obtain ⟨⟨rfl, rfl, rfl⟩, rfl⟩ := h
        exact ⟨[], [], [], s, y, e, rfl, rfl, rfl, rfl, ⟨s1, hb⟩, rfl, rfl, rfl⟩
  | cons q t ih =>
    obtain ⟨d', x'⟩ := q
    simp only [List.cons_append, trace] at h ⊢
    rcases hb : C.body d' x' s with ⟨er | ⟨y, e⟩, s1⟩
    · simp [hb] at h
    · simp only [hb] at h ⊢
      rcases ht : trace C (t ++ (d, x) :: b) s1 with ⟨er | ⟨L', ys', es'⟩, s2⟩
      · simp [ht] at h
      · simp only [ht, Prod.mk.injEq, Except.ok.injEq] at h
        obtain ⟨⟨rfl, rfl, rfl⟩, rfl⟩ := h
        obtain ⟨La, ysa, esa, sa, y', e', h1, h2, h3, h4, h5, h6, h7, h8⟩ := ih s1 L' ys' es' ht
        simp only [h1]
        exact ⟨s :: La, y :: ysa, e :: esa, sa, y', e', rfl, by simp [h2], by simp [h3], by simp [h4], h5, by simpa using h6, by simpa using h7, by simpa using h8⟩

theorem trace_length {C : FilterClass K n} (l : List (K × List K)) : ∀ (s s' : Core K n C.Ext) (L : List (Core K n C.Ext)) (ys es : List K), trace C l s = (.ok (L, ys, es), s') →
    L.length = l.length ∧ ys.length = l.length ∧ es.length = l.length := by
  induction l with
  | nil =>
    intro s s' L ys es h
    simp only [trace, Prod.mk.injEq, Except.ok.injEq] at h
    obtain ⟨⟨rfl, rfl, rfl⟩, rfl⟩ := h
    exact ⟨rfl, rfl, rfl⟩
  | cons q t ih =>
    obtain ⟨d, x⟩ := q
    intro s s' L ys es h
    simp only [trace] at h
    rcases hb : C.body d x s with ⟨er | ⟨y, e⟩, s1⟩
    · simp [hb] at h
    · simp only [hb] at h
      rcases ht : trace C t s1 with ⟨er | ⟨L', ys', es'⟩, s2⟩
      · simp [ht] at h
      · simp only [ht, Prod.mk.injEq, Except.ok.injEq] at h
        obtain ⟨⟨rfl, rfl, rfl⟩, rfl⟩ := h
        obtain ⟨a, b, c⟩ := ih _ _ _ _ _ ht
        exact ⟨by simp [a], by simp [b], by simp [c]⟩

theorem custom_body_out (rule : CustomRule K n X) (d : K) (x : List K) (s s1 : Core K n X) (y e : K) (h : customBody rule d x s = (.ok (y, e), s1)) :
    (basePredict x s).1 = .ok y ∧ e = d - y := by
  have hp := custom_predict_state x s
  unfold customBody at h
  rw [M.bind_apply] at h
  rcases hb : basePredict x s with ⟨er | y', s2⟩ <;> rw [hb] at h
  · cases (Prod.mk.inj h).1
  · simp only at h
    rw [M.bind_apply] at h
    rcases hr : callRule rule (d - y') x s2 with ⟨er | dw, s3⟩ <;> rw [hr] at h
    · cases (Prod.mk.inj h).1
    · simp only at h
      rw [M.bind_apply] at h
      rcases hq : addWeights dw s3 with ⟨er | u, s4⟩ <;> rw [hq] at h
      · cases (Prod.mk.inj h).1
      · have := (Prod.mk.inj h).1
        simp only [Except.ok.injEq, Prod.mk.injEq] at this
        obtain ⟨rfl, rfl⟩ := this
        exact ⟨rfl, rfl⟩

/-- C133: and what `run` returns is the log of that loop: row `k` of the weight history, the output and the error of sample `k` are the weights, the prediction and its error after the first `k`
calls of `adapt` - so they do not depend on later samples. -/
theorem C133_log (rule : CustomRule K n X) (o o' : Obj (custom rule)) (hn : o.core.nAttr = n) (d : List K) (x : List (List K))
    (hlen : d.length = x.length) (hne : x ≠ []) (hw : ∀ r ∈ x, r.length = n) (y e : List K) (W : List (List K))
    (h : run (custom rule) d x o = (.ok (y, e, W), o')) :
    y.length = x.length ∧ e.length = x.length ∧ W.length = x.length ∧ o'.wHist = W ∧
    ∀ k dk xk, d[k]? = some dk → x[k]? = some xk →
      ∃ yk, W[k]? = some (List.ofFn (adaptAll (custom rule) ((d.take k).zip (x.take k)) o).2.core.w) ∧
        (predict (custom rule) xk (adaptAll (custom rule) ((d.take k).zip (x.take k)) o).2).1 = .ok yk ∧
        y[k]? = some yk ∧ e[k]? = some (dk - yk) := by
  have hr := run_trace (custom_plain rule) o d x hlen hne hw
  rw [Core.withN_self _ hn] at hr
  rcases ht : trace (custom rule) (d.zip x) o.core with ⟨er | ⟨L, ys, es⟩, s⟩
  · obtain ⟨H, h'⟩ := hr.1 _ _ ht
    rw [h'] at h
    cases (Prod.mk.inj h).1
  · rw [hr.2 _ _ _ _ ht] at h
    simp only [Prod.mk.injEq, Except.ok.injEq] at h
    obtain ⟨⟨rfl, rfl, rfl⟩, rfl⟩ := h
    obtain ⟨l1, l2, l3⟩ := trace_length _ _ _ _ _ _ ht
    have hz : (d.zip x).length = x.length := by simp [hlen]
    refine ⟨l2.trans hz, l3.trans hz, by rw [List.length_map]; exact l1.trans hz, rfl, fun k dk xk hd hx => ?_⟩
    have hkx : k < x.length := (List.getElem?_eq_some_iff.1 hx).1
    have hkd : k < d.length := by omega
    have hsplit : d.zip x = (d.take k).zip (x.take k) ++ (dk, xk) :: (d.drop (k + 1)).zip (x.drop (k + 1)) := by
      have e1 : d = d.take k ++ dk :: d.drop (k + 1) := by
        rw [← (List.getElem?_eq_some_iff.1 hd).2, ← List.drop_eq_getElem_cons hkd, List.take_append_drop]
      have e2 : x = x.take k ++ xk :: x.drop (k + 1) := by
        rw [← (List.getElem?_eq_some_iff.1 hx).2, ← List.drop_eq_getElem_cons hkx, List.take_append_drop]
      conv_lhs => rw [e1, e2]
      rw [List.zip_append (by simp; omega)]
      rfl
    have hla : ((d.take k).zip (x.take k)).length = k := by simp; omega
    rw [hsplit] at ht
    obtain ⟨La, ysa, esa, sa, yk, ek, h1, -, -, -, ⟨s1, h5⟩, h6, h7, h8⟩ := trace_at _ _ _ _ _ _ _ _ _ ht
    rw [hla] at h6 h7 h8
    have hs : (adaptAll (custom rule) ((d.take k).zip (x.take k)) o).2.core = sa := by
      rw [adaptAll_trace (custom_plain rule), h1]
    obtain ⟨p1, p2⟩ := custom_body_out rule dk xk sa s1 yk ek h5
    refine ⟨yk, ?_, ?_, h7, by rw [h8, p2]⟩
    · rw [List.getElem?_map, h6, hs]; rfl
    · show ((custom rule).predict xk _).1 = _
      rw [hs]; exact p1

/-- C133: a run over one data set and then over another is the run over both. -/
theorem C133_chunks (rule : CustomRule K n X) (o : Obj (custom rule)) (d1 d2 : List K) (x1 x2 : List (List K)) (hl1 : d1.length = x1.length) (hl2 : d2.length = x2.length)
    (h1 : x1 ≠ []) (h2 : x2 ≠ []) (hw1 : ∀ r ∈ x1, r.length = n) (hw2 : ∀ r ∈ x2, r.length = n) :
    let r1 := run (custom rule) d1 x1 o
    let r2 := run (custom rule) d2 x2 r1.2
    let r := run (custom rule) (d1 ++ d2) (x1 ++ x2) o
    (∀ er, r1.1 = .error er → r.1 = .error er ∧ r.2.core = r1.2.core) ∧
    ∀ y1 e1 W1, r1.1 = .ok (y1, e1, W1) →
      (∀ er, r2.1 = .error er → r.1 = .error er ∧ r.2.core = r2.2.core) ∧
      ∀ y2 e2 W2, r2.1 = .ok (y2, e2, W2) → r.1 = .ok (y1 ++ y2, e1 ++ e2, W1 ++ W2) ∧ r.2.core = r2.2.core := by
  intro r1 r2 r
  have a1 := run_trace (custom_plain rule) o d1 x1 hl1 h1 hw1
  have a2 := run_trace (custom_plain rule) r1.2 d2 x2 hl2 h2 hw2
  have a := run_trace (custom_plain rule) o (d1 ++ d2) (x1 ++ x2) (by simp [hl1, hl2]) (by simp [h1])
    (fun q hq => (List.mem_append.1 hq).elim (hw1 q) (hw2 q))
  rw [List.zip_append hl1, trace_append] at a
  have hn := trace_nAttr (custom_plain rule) (d1.zip x1) (o.core.withN n)
  rcases ht : trace (custom rule) (d1.zip x1) (o.core.withN n) with ⟨er | ⟨L, ys, es⟩, s⟩
  · obtain ⟨H, h⟩ := a1.1 _ _ ht
    have hr1 : r1 = (.error er, ⟨s, H⟩) := h
    simp only [ht] at a
    obtain ⟨H', h'⟩ := a.1 _ _ rfl
    have hr : r = (.error er, ⟨s, H'⟩) := h'
    refine ⟨fun er' he => ?_, fun y1 e1 W1 he => ?_⟩
    · rw [hr1] at he
      cases he
      rw [hr, hr1]
      exact ⟨rfl, rfl⟩
    · rw [hr1] at he
      cases he
  · have hr1 : r1 = (.ok (ys, es, L.map fun c => List.ofFn c.w), ⟨s, L.map fun c => List.ofFn c.w⟩) := a1.2 _ _ _ _ ht
    refine ⟨fun er' he => (by rw [hr1] at he; cases he), fun y1 e1 W1 he => ?_⟩
    rw [hr1] at he
    simp only [Except.ok.injEq, Prod.mk.injEq] at he
    obtain ⟨rfl, rfl, rfl⟩ := he
    have hs : s.nAttr = n := by rw [ht] at hn; exact hn
    have hc : r1.2.core.withN n = s := by rw [hr1]; exact Core.withN_self _ hs
    rw [hc] at a2
    simp only [ht] at a
    rcases ht2 : trace (custom rule) (d2.zip x2) s with ⟨er | ⟨L', ys', es'⟩, s'⟩
    · obtain ⟨H, h⟩ := a2.1 _ _ ht2
      have hr2 : r2 = (.error er, ⟨s', H⟩) := h
      simp only [ht2] at a
      obtain ⟨H', h'⟩ := a.1 _ _ rfl
      have hr : r = (.error er, ⟨s', H'⟩) := h'
      refine ⟨fun er' he => ?_, fun y2 e2 W2 he => (by rw [hr2] at he; cases he)⟩
      rw [hr2] at he
      cases he
      rw [hr, hr2]
      exact ⟨rfl, rfl⟩
    · have hr2 : r2 = (.ok (ys', es', L'.map fun c => List.ofFn c.w), ⟨s', L'.map fun c => List.ofFn c.w⟩) := a2.2 _ _ _ _ ht2
      simp only [ht2] at a
      have hr : r = _ := a.2 _ _ _ _ rfl
      refine ⟨fun er' he => (by rw [hr2] at he; cases he), fun y2 e2 W2 he => ?_⟩
      rw [hr2] at he
      simp only [Except.ok.injEq, Prod.mk.injEq] at he
      obtain ⟨rfl, rfl, rfl⟩ := he
      rw [hr, hr2, List.map_append]
      exact ⟨rfl, rfl⟩



theorem bcast_one (c : K) : bcastVec n [c] = .ok fun _ => c := by
  unfold bcastVec bcast
  split_ifs with h
  · show asVec n [c] = _
    unfold asVec
    rw [dif_pos h]
    congr 1
    funext i
    have : (i : ℕ) = 0 := by have := i.2; simp at h; omega
    simp [this]
  · show asVec n (List.replicate n c) = _
    unfold asVec
    rw [dif_pos (by simp)]
    simp

theorem bcast_wrong (x : List K) (h1 : x.length ≠ n) (h2 : x.length ≠ 1) : bcastVec n x = .error .valueError := by
  unfold bcastVec bcast
  rw [if_neg h1]
  match x, h2 with
  | [], _ => rfl
  | _ :: _ :: _, _ => rfl

theorem custom_predict_wrong (x : List K) (h : x.length ≠ n) (s : Core K n X) : basePredict x s = (.error .valueError, s) := by
  unfold basePredict
  rw [asVec_wrong x h, M.lift_error_bind]

theorem custom_adapt_call (rule : CustomRule K n X) (s : Core K n X) (d : K) (x : Vec K n) (r : Except Err (List K)) (mu' : K) (own' : X)
    (hr : rule s (d - dot s.w x) (List.ofFn x) = (r, (mu', own'))) :
    customAdapt rule d (List.ofFn x) s = match r.bind (bcastVec n) with
      | .ok v => (.ok (), ⟨fun i => s.w i + v i, s.nAttr, mu', own'⟩)
      | .error er => (.error er, ⟨s.w, s.nAttr, mu', own'⟩) := by
  have hc : callRule rule (d - dot s.w x) (List.ofFn x) s = (r, ⟨s.w, s.nAttr, mu', own'⟩) := by
    rw [callRule, hr]
  unfold customAdapt
  rw [M.bind_ok (basePredict_ofFn s x)]
  rcases r with er | dw
  · rw [M.bind_error hc]
    rfl
  · rw [M.bind_ok hc, addWeights]
    show _ = match bcastVec n dw with | .ok v => _ | .error er => _
    rcases bcastVec n dw with er | v
    · rw [M.lift_error_bind]
    · rw [M.lift_ok_bind]
      rfl

theorem custom_adapt_obj (rule : CustomRule K n X) (o : Obj (custom rule)) (d : K) (x : List K) (r : Except Err Unit) (s : Core K n X)
    (h : customAdapt rule d x o.core = (r, s)) : adapt (custom rule) d x o = (r, ⟨s, o.wHist⟩) := by
  show ((customAdapt rule d x o.core).1, (⟨(customAdapt rule d x o.core).2, o.wHist⟩ : Obj (custom rule))) = _
  exact congrArg (fun q : Except Err Unit × Core K n X => (q.1, (⟨q.2, o.wHist⟩ : Obj (custom rule)))) h

/-- C133: one `adapt` of a subclass whose rule returns an array `v` of the length of the weights: the weights move by `v`, and only the rule decides the other attributes. -/
theorem C133_step (rule : CustomRule K n X) (o : Obj (custom rule)) (d : K) (x v : Vec K n) (mu' : K) (own' : X)
    (hr : rule o.core (d - dot o.core.w x) (List.ofFn x) = (.ok (List.ofFn v), (mu', own'))) :
    adapt (custom rule) d (List.ofFn x) o = (.ok (), ⟨⟨fun i => o.core.w i + v i, o.core.nAttr, mu', own'⟩, o.wHist⟩) := by
  refine custom_adapt_obj rule o d _ _ _ ((custom_adapt_call rule o.core d x _ mu' own' hr).trans ?_)
  show (match bcastVec n (List.ofFn v) with | .ok v => _ | .error er => _) = _
  rw [bcastVec_ofFn]
  rfl

/-- C133: a rule that returns an array of one element: numpy repeats it, every weight moves by it, without an exception. -/
theorem C133_scalar (rule : CustomRule K n X) (o : Obj (custom rule)) (d : K) (x : Vec K n) (c : K) (mu' : K) (own' : X)
    (hr : rule o.core (d - dot o.core.w x) (List.ofFn x) = (.ok [c], (mu', own'))) :
    adapt (custom rule) d (List.ofFn x) o = (.ok (), ⟨⟨fun i => o.core.w i + c, o.core.nAttr, mu', own'⟩, o.wHist⟩) := by
  have hb : bcastVec n [c] = .ok fun _ => c := bcast_one c
  refine custom_adapt_obj rule o d _ _ _ ((custom_adapt_call rule o.core d x _ mu' own' hr).trans ?_)
  show (match bcastVec n [c] with | .ok v => _ | .error er => _) = _
  rw [hb]
  rfl

/-- C133: a rule that returns an array of any other length: `ValueError`; the weights are as before, but what the rule has assigned stays assigned. -/
theorem C133_wrong_length (rule : CustomRule K n X) (o : Obj (custom rule)) (d : K) (x : Vec K n) (dw : List K) (mu' : K) (own' : X)
    (h1 : dw.length ≠ n) (h2 : dw.length ≠ 1)
    (hr : rule o.core (d - dot o.core.w x) (List.ofFn x) = (.ok dw, (mu', own'))) :
    adapt (custom rule) d (List.ofFn x) o = (.error .valueError, ⟨⟨o.core.w, o.core.nAttr, mu', own'⟩, o.wHist⟩) := by
  refine custom_adapt_obj rule o d _ _ _ ((custom_adapt_call rule o.core d x _ mu' own' hr).trans ?_)
  show (match bcastVec n dw with | .ok v => _ | .error er => _) = _
  rw [bcast_wrong _ h1 h2]
  rfl

/-- C133: a rule that raises: its exception, the weights as before, and what the rule has assigned stays assigned. -/
theorem C133_raise (rule : CustomRule K n X) (o : Obj (custom rule)) (d : K) (x : Vec K n) (er : Err) (mu' : K) (own' : X)
    (hr : rule o.core (d - dot o.core.w x) (List.ofFn x) = (.error er, (mu', own'))) :
    adapt (custom rule) d (List.ofFn x) o = (.error er, ⟨⟨o.core.w, o.core.nAttr, mu', own'⟩, o.wHist⟩) := by
  exact custom_adapt_obj rule o d _ _ _ (custom_adapt_call rule o.core d x _ mu' own' hr)

/-- C133: a sample of a wrong size is refused before the rule is called: nothing changes. -/
theorem C133_wrong_sample (rule : CustomRule K n X) (o : Obj (custom rule)) (d : K) (x : List K) (hx : x.length ≠ n) :
    adapt (custom rule) d x o = (.error .valueError, o) := by
  have h : ∀ s : Core K n X, customAdapt rule d x s = (.error .valueError, s) := fun s => by
    rw [customAdapt, M.bind_error (custom_predict_wrong x hx s)]
  exact custom_adapt_obj rule o d x _ _ (h o.core)

/-- the rule of a filter of the library, as a `learning_rule` -/
def ofM (lr : K → List K → M (Core K n X) (Vec K n)) : CustomRule K n X := fun s e x =>
  (((lr e x s).1.map fun v => List.ofFn v), ((lr e x s).2.mu, (lr e x s).2.ext))

theorem custom_ofM (lr : K → List K → M (Core K n X) (Vec K n)) (hw : ∀ e x s, (lr e x s).2.w = s.w ∧ (lr e x s).2.nAttr = s.nAttr) :
    mkBase X basePredict lr = custom (ofM lr) := by
  have hc : ∀ e x s, callRule (ofM lr) e x s = ((lr e x s).1.map (fun v => List.ofFn v), (lr e x s).2) := by
    intro e x s
    obtain ⟨h1, h2⟩ := hw e x s
    unfold callRule ofM
    refine Prod.ext rfl ?_
    show (⟨s.w, s.nAttr, (lr e x s).2.mu, (lr e x s).2.ext⟩ : Core K n X) = _
    rw [← h1, ← h2]
  have hA : baseAdapt basePredict lr = customAdapt (ofM lr) := by
    funext d x s
    unfold baseAdapt customAdapt
    rw [M.bind_apply, M.bind_apply]
    rcases basePredict x s with ⟨er | y, s1⟩
    · rfl
    · simp only
      rw [M.bind_apply, M.bind_apply, hc]
      rcases lr (d - y) x s1 with ⟨er | v, s2⟩
      · rfl
      · simp only [Except.map]
        rw [addWeights, bcastVec_ofFn, M.lift_ok_bind]
  have hB : baseBody basePredict lr = customBody (ofM lr) := by
    funext d x s
    unfold baseBody customBody
    rw [M.bind_apply, M.bind_apply]
    rcases basePredict x s with ⟨er | y, s1⟩
    · rfl
    · simp only
      rw [M.bind_apply, M.bind_apply, hc]
      rcases lr (d - y) x s1 with ⟨er | v, s2⟩
      · rfl
      · simp only [Except.map]
        have h : (addWeights (List.ofFn v) : M (Core K n X) Unit) = M.modify fun s => { s with w := fun i => s.w i + v i } := by
          funext s
          rw [addWeights, bcastVec_ofFn, M.lift_ok_bind]
        rw [h]
  unfold mkBase custom
  rw [hA, hB]

/-- `FilterLMS` is such a subclass, with the rule `mu * x * e` -/
example : lms K n = custom (ofM lmsRule) := custom_ofM _ fun e x s => by
  unfold lmsRule
  rw [M.bind_apply, M.lift_apply]
  rcases asVec n x with er | v <;> exact ⟨rfl, rfl⟩

/-- and so is `FilterGNGD`, whose rule assigns attributes -/
example : gngd K n = custom (ofM gngdRule) := custom_ofM _ fun e x s => by
  unfold gngdRule
  rw [M.bind_apply, M.lift_apply]
  rcases asVec n x with er | v <;> exact ⟨rfl, rfl⟩


/-! ### subclasses of `AdaptiveFilterAP` -/

/-- the attributes that `AdaptiveFilterAP` knows -/
def apPart (s : Core K n (CustomApExt K n order X)) : Core K n (ApExt K n order) := ⟨s.w, s.nAttr, s.mu, s.ext.ap⟩

/-- C133: `adapt` of a subclass of `AdaptiveFilterAP` never calls its `learning_rule`: whatever the rule is, a loop of `adapt` does what it does for `FilterAP`,
and leaves the attributes of the subclass as they are. -/
theorem C133_ap_adapt (solve : Solver K) (rule : CustomApRule K n order X) (h : 0 < order) (l : List (K × List K)) : ∀ o : Obj (customAp solve rule h),
    (adaptAll (customAp solve rule h) l o).1 = (adaptAll (ap K n solve order) l ⟨apPart o.core, o.wHist⟩).1 ∧
    apPart (adaptAll (customAp solve rule h) l o).2.core = (adaptAll (ap K n solve order) l ⟨apPart o.core, o.wHist⟩).2.core ∧
    (adaptAll (customAp solve rule h) l o).2.core.ext.own = o.core.ext.own := by
  induction l with
  | nil => intro o; exact ⟨rfl, rfl, rfl⟩
  | cons q t ih =>
    obtain ⟨d, x⟩ := q
    intro o
    rcases hb : apAdapt solve d x (apPart o.core) with ⟨er | u, s'⟩
    · have h1 : adapt (customAp solve rule h) d x o = (.error er, ⟨⟨s'.w, s'.nAttr, s'.mu, ⟨s'.ext, o.core.ext.own⟩⟩, o.wHist⟩) :=
        congrArg (fun q : Except Err Unit × Core K n (ApExt K n order) =>
          (q.1, (⟨⟨q.2.w, q.2.nAttr, q.2.mu, ⟨q.2.ext, o.core.ext.own⟩⟩, o.wHist⟩ : Obj (customAp solve rule h)))) hb
      have h2 : adapt (ap K n solve order) d x ⟨apPart o.core, o.wHist⟩ = (.error er, ⟨s', o.wHist⟩) :=
        congrArg (fun q : Except Err Unit × Core K n (ApExt K n order) => (q.1, (⟨q.2, o.wHist⟩ : Obj (ap K n solve order)))) hb
      have e1 : adaptAll (customAp solve rule h) ((d, x) :: t) o = _ := M.bind_error h1
      have e2 : adaptAll (ap K n solve order) ((d, x) :: t) ⟨apPart o.core, o.wHist⟩ = _ := M.bind_error h2
      rw [e1, e2]
      exact ⟨rfl, rfl, rfl⟩
    · have h1 : adapt (customAp solve rule h) d x o = (.ok u, ⟨⟨s'.w, s'.nAttr, s'.mu, ⟨s'.ext, o.core.ext.own⟩⟩, o.wHist⟩) :=
        congrArg (fun q : Except Err Unit × Core K n (ApExt K n order) =>
          (q.1, (⟨⟨q.2.w, q.2.nAttr, q.2.mu, ⟨q.2.ext, o.core.ext.own⟩⟩, o.wHist⟩ : Obj (customAp solve rule h)))) hb
      have h2 : adapt (ap K n solve order) d x ⟨apPart o.core, o.wHist⟩ = (.ok u, ⟨s', o.wHist⟩) :=
        congrArg (fun q : Except Err Unit × Core K n (ApExt K n order) => (q.1, (⟨q.2, o.wHist⟩ : Obj (ap K n solve order)))) hb
      have e1 : adaptAll (customAp solve rule h) ((d, x) :: t) o = adaptAll (customAp solve rule h) t _ := M.bind_ok h1
      have e2 : adaptAll (ap K n solve order) ((d, x) :: t) ⟨apPart o.core, o.wHist⟩ = adaptAll (ap K n solve order) t _ := M.bind_ok h2
      rw [e1, e2]
      exact ih _

/-- `FilterAP.learning_rule` (ap.py l. 157-163) written as the rule of a subclass -/
def filterApRule (solve : Solver K) : CustomApRule K n order X := fun s e M =>
  ((solve order (apGram s.ext.ap.ifc M) (eye order)).map fun p2 => List.ofFn fun i => s.mu * dot (M i) (matVec p2 e), (s.mu, s.ext.own))

theorem customAp_body (rule : CustomApRule K n order X) (h : 0 < order) (s : Core K n (CustomApExt K n order X)) (d : K) (x : Vec K n) :
    customApBody rule h d (List.ofFn x) s =
      (callApRule rule >>= fun dw => addWeights dw >>= fun _ => pure (apY (apPart s) x ⟨0, h⟩, apE (apPart s) d x ⟨0, h⟩))
        ⟨s.w, s.nAttr, s.mu, ⟨⟨s.ext.ap.ifc, apX (apPart s) x, apD (apPart s) d, apY (apPart s) x, apE (apPart s) d x⟩, s.ext.own⟩⟩ := by
  have hp := ap_push h (apPart s) d x
  have : ((onAp (apPush d (List.ofFn x)) : M (Core K n (CustomApExt K n order X)) Unit) >>= fun _ => onAp apErr) s
      = (.ok (), ⟨s.w, s.nAttr, s.mu, ⟨⟨s.ext.ap.ifc, apX (apPart s) x, apD (apPart s) d, apY (apPart s) x, apE (apPart s) d x⟩, s.ext.own⟩⟩) := by
    rw [M.bind_apply] at hp ⊢
    have e1 : (onAp (apPush d (List.ofFn x)) : M (Core K n (CustomApExt K n order X)) Unit) s
      = ((apPush d (List.ofFn x) (apPart s)).1, ⟨(apPush d (List.ofFn x) (apPart s)).2.w, (apPush d (List.ofFn x) (apPart s)).2.nAttr, (apPush d (List.ofFn x) (apPart s)).2.mu,
          ⟨(apPush d (List.ofFn x) (apPart s)).2.ext, s.ext.own⟩⟩) := rfl
    rw [e1]
    rcases hq : apPush d (List.ofFn x) (apPart s) with ⟨er | u, s1⟩
    · rw [hq] at hp
      cases (Prod.mk.inj hp).1
    · rw [hq] at hp
      simp only at hp ⊢
      have e2 : (onAp apErr : M (Core K n (CustomApExt K n order X)) Unit) ⟨s1.w, s1.nAttr, s1.mu, ⟨s1.ext, s.ext.own⟩⟩
        = ((apErr s1).1, ⟨(apErr s1).2.w, (apErr s1).2.nAttr, (apErr s1).2.mu, ⟨(apErr s1).2.ext, s.ext.own⟩⟩) := rfl
      rw [e2, hp]
      rfl
  unfold customApBody
  rw [← M.bind_assoc', M.bind_ok this, M.get_bind]

/-- C133: a run of a subclass of `AdaptiveFilterAP` whose rule returns arrays of the length of the weights: at every sample the rule is called with the errors `E` and inputs `M` of the
last `order` samples; the weights move by what it returns, and `mu` and the attributes of the subclass are what it assigned. -/
theorem C133_ap_step (solve : Solver K) (rule : CustomApRule K n order X) (h : 0 < order) (hrule : ∀ s e M, ∃ (v : Vec K n) (mu' : K) (own' : X), rule s e M = (.ok (List.ofFn v), (mu', own')))
    (o : Obj (customAp solve rule h)) (d : ℕ → K) (x : ℕ → Vec K n) :
    ∃ y e S, Runs (customAp solve rule h) o d x y e S ∧ ∀ k, ∃ (M : Mat K n order) (D Y E : Vec K order) (v : Vec K n) (mu' : K) (own' : X),
      (∀ i j, M i j = if j.val = 0 then x k i else shiftCols (S k).ext.ap.xMem i j) ∧ (∀ j, D j = if j.val = 0 then d k else shiftVec (S k).ext.ap.dMem j) ∧
      (∀ j, Y j = dot (fun i => M i j) (S k).w) ∧ (∀ j, E j = D j - Y j) ∧ y k = Y ⟨0, h⟩ ∧ e k = E ⟨0, h⟩ ∧
      rule ⟨(S k).w, (S k).nAttr, (S k).mu, ⟨⟨(S k).ext.ap.ifc, M, D, Y, E⟩, (S k).ext.own⟩⟩ E M = (.ok (List.ofFn v), (mu', own')) ∧
      S (k + 1) = ⟨fun i => (S k).w i + v i, (S k).nAttr, mu', ⟨⟨(S k).ext.ap.ifc, M, D, Y, E⟩, own'⟩⟩ := by
  have body : ∀ (s : Core K n (CustomApExt K n order X)) (d : K) (x : Vec K n), ∃ (v : Vec K n) (mu' : K) (own' : X),
      rule ⟨s.w, s.nAttr, s.mu, ⟨⟨s.ext.ap.ifc, apX (apPart s) x, apD (apPart s) d, apY (apPart s) x, apE (apPart s) d x⟩, s.ext.own⟩⟩ (apE (apPart s) d x) (apX (apPart s) x)
        = (.ok (List.ofFn v), (mu', own')) ∧
      customApBody rule h d (List.ofFn x) s = (.ok (apY (apPart s) x ⟨0, h⟩, apE (apPart s) d x ⟨0, h⟩),
        ⟨fun i => s.w i + v i, s.nAttr, mu', ⟨⟨s.ext.ap.ifc, apX (apPart s) x, apD (apPart s) d, apY (apPart s) x, apE (apPart s) d x⟩, own'⟩⟩) := by
    intro s d x
    obtain ⟨v, mu', own', hr⟩ := hrule ⟨s.w, s.nAttr, s.mu, ⟨⟨s.ext.ap.ifc, apX (apPart s) x, apD (apPart s) d, apY (apPart s) x, apE (apPart s) d x⟩, s.ext.own⟩⟩
      (apE (apPart s) d x) (apX (apPart s) x)
    refine ⟨v, mu', own', hr, (customAp_body rule h s d x).trans ?_⟩
    have hc : callApRule rule ⟨s.w, s.nAttr, s.mu, ⟨⟨s.ext.ap.ifc, apX (apPart s) x, apD (apPart s) d, apY (apPart s) x, apE (apPart s) d x⟩, s.ext.own⟩⟩
        = (.ok (List.ofFn v), ⟨s.w, s.nAttr, mu', ⟨⟨s.ext.ap.ifc, apX (apPart s) x, apD (apPart s) d, apY (apPart s) x, apE (apPart s) d x⟩, own'⟩⟩) := by
      unfold callApRule
      dsimp only
      rw [hr]
    rw [M.bind_ok hc, addWeights, bcastVec_ofFn]
    rfl
  have safe : Safe (customAp solve rule h) fun _ => True := safe_of_body fun s hs d x => by
    obtain ⟨v, mu', own', -, hb⟩ := body s d x
    exact ⟨_, _, hb, hs⟩
  have hR := runs_of_safe safe o trivial d x
  refine ⟨_, _, _, hR, fun k => ?_⟩
  obtain ⟨v, mu', own', hr, hb⟩ := body (traj (customAp solve rule h) (o.core.withN n) d x k) (d k) (x k)
  have hst := hb.symm.trans (hR.step safe trivial k).1
  have h1 := Except.ok.inj (Prod.mk.inj hst).1
  have h2 := (Prod.mk.inj hst).2
  exact ⟨_, _, _, _, v, mu', own', fun _ _ => rfl, fun _ => rfl, fun _ => rfl, fun _ => rfl, (congrArg Prod.fst h1).symm, (congrArg Prod.snd h1).symm, hr, h2.symm⟩

/-- a rule that counts its calls and halves `mu` -/
example (s : Core ℚ 2 (CustomApExt ℚ 2 3 ℕ)) (e : Vec ℚ 3) (M : Mat ℚ 2 3) :
    ∃ (v : Vec ℚ 2) (mu' : ℚ) (own' : ℕ), (fun s e M => (.ok (List.ofFn fun i => s.mu * M i 0 * e 0), (s.mu / 2, s.ext.own + 1)) : CustomApRule ℚ 2 3 ℕ) s e M = (.ok (List.ofFn v), (mu', own')) :=
  ⟨_, _, _, rfl⟩

/-- an object of the subclass, from an object of `FilterAP` and the attributes of the subclass -/
def withOwn (own : X) (s : Core K n (ApExt K n order)) : Core K n (CustomApExt K n order X) := ⟨s.w, s.nAttr, s.mu, ⟨s.ext, own⟩⟩

theorem filterAp_body (solve : Solver K) (h : 0 < order) (s : Core K n (CustomApExt K n order X)) (d : K) (x : Vec K n) (P : Mat K order order)
    (hP : solve order (apGram s.ext.ap.ifc (apX (apPart s) x)) (eye order) = .ok P) :
    ∃ y e s', (ap K n solve order).body d (List.ofFn x) (apPart s) = (.ok (y, e), s') ∧ s'.ext.ifc = s.ext.ap.ifc ∧
      (customAp solve (filterApRule solve : CustomApRule K n order X) h).body d (List.ofFn x) s = (.ok (y, e), withOwn s.ext.own s') := by
  refine ⟨_, _, _, ap_body solve h (apPart s) d x P hP, rfl, ?_⟩
  refine (customAp_body (filterApRule solve : CustomApRule K n order X) h s d x).trans ?_
  rw [M.bind_ok (a := List.ofFn fun i => s.mu * dot (apX (apPart s) x i) (matVec P (apE (apPart s) d x)))
    (s' := ⟨s.w, s.nAttr, s.mu, ⟨⟨s.ext.ap.ifc, apX (apPart s) x, apD (apPart s) d, apY (apPart s) x, apE (apPart s) d x⟩, s.ext.own⟩⟩)]
  · rw [addWeights, bcastVec_ofFn]
    rfl
  · unfold callApRule filterApRule
    dsimp only
    rw [hP]
    rfl

/-- C133: a subclass of `AdaptiveFilterAP` whose `learning_rule` is that of `FilterAP` runs like `FilterAP`: the same outputs, errors, weights and memories on every data. -/
theorem C133_ap_same (solve : Solver K) (h : 0 < order) (own : X) (o : Obj (ap K n solve order))
    (hs : ∀ X : Mat K n order, ∃ P, solve order (apGram o.core.ext.ifc X) (eye order) = .ok P) (H : List (List K))
    (d : ℕ → K) (x : ℕ → Vec K n) (y e : ℕ → K) (S : ℕ → Core K n (ApExt K n order)) (hR : Runs (ap K n solve order) o d x y e S) :
    Runs (customAp solve (filterApRule solve : CustomApRule K n order X) h) ⟨withOwn own o.core, H⟩ d x y e fun k => withOwn own (S k) := by
  have safe : Safe (customAp solve (filterApRule solve : CustomApRule K n order X) h) fun s : Core K n (CustomApExt K n order X) => s.ext.ap.ifc = o.core.ext.ifc :=
    fun s hs' hn d x => by
      obtain ⟨P, hP⟩ := hs (apX (apPart (order := order) (X := X) s) x)
      obtain ⟨y, e, s', h0, h1, h2⟩ := filterAp_body (X := X) solve h s d x P (by rw [hs']; exact hP)
      have h3 := ap_body solve h (apPart (order := order) (X := X) s) d x P (by show solve order (apGram s.ext.ap.ifc _) _ = _; rw [hs']; exact hP)
      have h4 := (Prod.mk.inj (h0.symm.trans h3)).2
      exact ⟨_, _, h2, h1.trans hs', by rw [h4]; exact hn⟩
  have safe' := ap_safe (n := n) solve h o.core.ext.ifc hs
  have hC := runs_of_safe safe ⟨withOwn own o.core, H⟩ rfl d x
  have key : ∀ k, traj (customAp solve (filterApRule solve : CustomApRule K n order X) h) ((withOwn own o.core).withN n) d x k = withOwn own (S k) ∧
      outAt (customAp solve (filterApRule solve : CustomApRule K n order X) h) ((withOwn own o.core).withN n) d x k = (y k, e k) := by
    have step : ∀ k, traj (customAp solve (filterApRule solve : CustomApRule K n order X) h) ((withOwn own o.core).withN n) d x k = withOwn own (S k) →
        traj (customAp solve (filterApRule solve : CustomApRule K n order X) h) ((withOwn own o.core).withN n) d x (k + 1) = withOwn own (S (k + 1)) ∧
        outAt (customAp solve (filterApRule solve : CustomApRule K n order X) h) ((withOwn own o.core).withN n) d x k = (y k, e k) := by
      intro k ih
      have h1 := (hC.step safe rfl k).1
      obtain ⟨h2, h3, -⟩ := hR.step safe' rfl k
      obtain ⟨P, hP⟩ := hs (apX (S k) (x k))
      obtain ⟨y', e', s', g1, -, g2⟩ := filterAp_body solve h (withOwn own (S k)) (d k) (x k) P
        (by show solve order (apGram (S k).ext.ifc (apX (S k) (x k))) (eye order) = _; rw [h3]; exact hP)
      have g3 := g1.symm.trans h2
      have g4 : (customAp solve (filterApRule solve : CustomApRule K n order X) h).body (d k) (List.ofFn (x k)) (withOwn own (S k)) = _ := (congrArg _ ih.symm).trans h1
      have g5 := g2.symm.trans g4
      have a1 := Except.ok.inj (Prod.mk.inj g3).1
      have a2 := (Prod.mk.inj g3).2
      have b1 := Except.ok.inj (Prod.mk.inj g5).1
      have b2 := (Prod.mk.inj g5).2
      exact ⟨b2.symm.trans (congrArg (withOwn own) a2), b1.symm.trans a1⟩
    have all : ∀ k, traj (customAp solve (filterApRule solve : CustomApRule K n order X) h) ((withOwn own o.core).withN n) d x k = withOwn own (S k) := by
      intro k
      induction k with
      | zero => rw [hR.1]; rfl
      | succ k ih => exact (step k ih).1
    exact fun k => ⟨all k, (step k (all k)).2⟩
  have e1 : traj (customAp solve (filterApRule solve : CustomApRule K n order X) h) ((withOwn own o.core).withN n) d x = fun k => withOwn own (S k) := funext fun k => (key k).1
  have e2 : outAt (customAp solve (filterApRule solve : CustomApRule K n order X) h) ((withOwn own o.core).withN n) d x = fun k => (y k, e k) := funext fun k => (key k).2
  have hC' : Runs (customAp solve (filterApRule solve : CustomApRule K n order X) h) ⟨withOwn own o.core, H⟩ d x
    (fun k => (outAt (customAp solve (filterApRule solve : CustomApRule K n order X) h) ((withOwn own o.core).withN n) d x k).1)
    (fun k => (outAt (customAp solve (filterApRule solve : CustomApRule K n order X) h) ((withOwn own o.core).withN n) d x k).2)
    (traj (customAp solve (filterApRule solve : CustomApRule K n order X) h) ((withOwn own o.core).withN n) d x) := hC
  rw [e1, e2] at hC'
  exact hC'

section field
variable {F : Type} [Field F] [LinearOrder F] [IsStrictOrderedRing F]

theorem zero_body (s : Core F n X) (d : F) (x : Vec F n) : (custom (zeroRule : CustomRule F n X)).body d (List.ofFn x) s = (.ok (dot s.w x, d - dot s.w x), s) := by
  show customBody zeroRule d (List.ofFn x) s = _
  unfold customBody
  rw [M.bind_ok (basePredict_ofFn s x)]
  have hc : callRule zeroRule (d - dot s.w x) (List.ofFn x) s = (.ok (List.ofFn fun _ : Fin n => (0 : F)), s) := by
    unfold callRule zeroRule
    refine Prod.ext ?_ rfl
    show Except.ok (List.replicate (List.ofFn x).length (0 : F)) = _
    rw [List.length_ofFn, List.ofFn_const]
  have ha : addWeights (List.ofFn fun _ : Fin n => (0 : F)) s = (.ok (), s) := by
    rw [addWeights, bcastVec_ofFn, M.lift_ok_bind]
    refine Prod.ext rfl ?_
    show (⟨fun i => s.w i + 0, s.nAttr, s.mu, s.ext⟩ : Core F n X) = s
    simp
  have hb : (callRule zeroRule (d - dot s.w x) (List.ofFn x) >>= fun dw => addWeights dw >>= fun _ => pure (dot s.w x, d - dot s.w x)) s
      = (.ok (dot s.w x, d - dot s.w x), s) := by
    rw [M.bind_ok hc, M.bind_ok ha]
    rfl
  exact hb

/-- C133: the base class itself, `AdaptiveFilter`, has a working `run` that never learns: the weights stay the initial ones, the outputs are their dot products with the samples. -/
theorem C133_base (o : Obj (custom (zeroRule : CustomRule F n X))) (d : ℕ → F) (x : ℕ → Vec F n) :
    Runs (custom zeroRule) o d x (fun k => ∑ i, o.core.w i * x k i) (fun k => d k - ∑ i, o.core.w i * x k i) (fun _ => o.core.withN n) := by
  have safe : Safe (custom (zeroRule : CustomRule F n X)) fun _ => True := safe_of_body fun s hs d x => ⟨_, _, zero_body s d x, hs⟩
  have hR := runs_of_safe safe o trivial d x
  have hS : ∀ k, traj (custom zeroRule) (o.core.withN n) d x k = o.core.withN n := by
    intro k
    induction k with
    | zero => exact hR.1
    | succ k ih =>
      have := (zero_body (X := X) _ _ _).symm.trans (hR.step safe trivial k).1
      exact (Prod.mk.inj this).2.symm.trans ih
  have hO : ∀ k, outAt (custom zeroRule) (o.core.withN n) d x k = (∑ i, o.core.w i * x k i, d k - ∑ i, o.core.w i * x k i) := by
    intro k
    have h1 := (zero_body (X := X) _ _ _).symm.trans (hR.step safe trivial k).1
    have h2 := (Except.ok.inj (Prod.mk.inj h1).1).symm
    have h3 : dot (traj (custom zeroRule) (o.core.withN n) d x k).w (x k) = ∑ i, o.core.w i * x k i := by
      rw [dot_eq, hS]; rfl
    rw [h3] at h2
    exact h2
  simp only [hS, hO] at hR
  have : traj (custom zeroRule) (o.core.withN n) d x = fun _ => o.core.withN n := funext hS
  rw [this] at hR
  exact hR

theorem zeroAp_body (solve : Solver F) (h : 0 < order) (s : Core F n (CustomApExt F n order X)) (d : F) (x : Vec F n) :
    (customAp solve (zeroApRule : CustomApRule F n order X) h).body d (List.ofFn x) s =
      (.ok (apY (apPart s) x ⟨0, h⟩, apE (apPart s) d x ⟨0, h⟩),
        ⟨s.w, s.nAttr, s.mu, ⟨⟨s.ext.ap.ifc, apX (apPart s) x, apD (apPart s) d, apY (apPart s) x, apE (apPart s) d x⟩, s.ext.own⟩⟩) := by
  refine (customAp_body (zeroApRule : CustomApRule F n order X) h s d x).trans ?_
  have hc : ∀ s : Core F n (CustomApExt F n order X), callApRule zeroApRule s = (.ok (List.ofFn fun _ : Fin n => (0 : F)), s) := by
    intro s
    unfold callApRule zeroApRule
    refine Prod.ext ?_ rfl
    show Except.ok (List.replicate n (0 : F)) = _
    rw [List.ofFn_const]
  have ha : ∀ s : Core F n (CustomApExt F n order X), addWeights (List.ofFn fun _ : Fin n => (0 : F)) s = (.ok (), s) := by
    intro s
    rw [addWeights, bcastVec_ofFn, M.lift_ok_bind]
    refine Prod.ext rfl ?_
    show (⟨fun i => s.w i + 0, s.nAttr, s.mu, s.ext⟩ : Core F n _) = s
    simp
  rw [M.bind_ok (hc _), M.bind_ok (ha _)]
  rfl

/-- C133: `run` of the base class `AdaptiveFilterAP` never learns either (although its `adapt` does, see `C133_ap_adapt`). -/
theorem C133_ap_base (solve : Solver F) (h : 0 < order) (o : Obj (customAp solve (zeroApRule : CustomApRule F n order X) h)) (d : ℕ → F) (x : ℕ → Vec F n) :
    ∃ S, Runs (customAp solve zeroApRule h) o d x (fun k => ∑ i, o.core.w i * x k i) (fun k => d k - ∑ i, o.core.w i * x k i) S ∧
      ∀ k, (S k).w = o.core.w ∧ (S k).ext.own = o.core.ext.own := by
  have safe : Safe (customAp solve (zeroApRule : CustomApRule F n order X) h) fun _ => True := safe_of_body fun s hs d x => ⟨_, _, zeroAp_body solve h s d x, hs⟩
  have hR := runs_of_safe safe o trivial d x
  have hS : ∀ k, (traj (customAp solve zeroApRule h) (o.core.withN n) d x k).w = o.core.w ∧ (traj (customAp solve zeroApRule h) (o.core.withN n) d x k).ext.own = o.core.ext.own := by
    intro k
    induction k with
    | zero => rw [hR.1]; exact ⟨rfl, rfl⟩
    | succ k ih =>
      have := (zeroAp_body (X := X) solve h _ _ _).symm.trans (hR.step safe trivial k).1
      have h2 := (Prod.mk.inj this).2
      exact ⟨(congrArg Core.w h2).symm.trans ih.1, (congrArg (fun q : Core F n (CustomApExt F n order X) => q.ext.own) h2).symm.trans ih.2⟩
  have hO : ∀ k, outAt (customAp solve zeroApRule h) (o.core.withN n) d x k = (∑ i, o.core.w i * x k i, d k - ∑ i, o.core.w i * x k i) := by
    intro k
    have h1 := (zeroAp_body (X := X) solve h _ _ _).symm.trans (hR.step safe trivial k).1
    have h2 := (Except.ok.inj (Prod.mk.inj h1).1).symm
    have hy : apY (apPart (traj (customAp solve zeroApRule h) (o.core.withN n) d x k)) (x k) ⟨0, h⟩ = ∑ i, o.core.w i * x k i := by
      unfold apY
      rw [dot_eq]
      have := (hS k).1
      refine Finset.sum_congr rfl fun i _ => ?_
      show apX _ _ i ⟨0, h⟩ * (traj (customAp solve zeroApRule h) (o.core.withN n) d x k).w i = _
      rw [this]
      simp [apX, mul_comm]
    have he : apE (apPart (traj (customAp solve zeroApRule h) (o.core.withN n) d x k)) (d k) (x k) ⟨0, h⟩ = d k - ∑ i, o.core.w i * x k i := by
      unfold apE
      rw [hy]
      simp [apD]
    rw [hy, he] at h2
    exact h2
  simp only [hO] at hR
  exact ⟨_, hR, hS⟩

end field


/-! ### the hypotheses are met; a concrete case -/

/-- the right solver for systems of one equation -/
private def solve1 : Solver ℚ := fun _ A B => .ok fun i j => B i j / A i i

/-- a base `AdaptiveFilterAP` of order 1 with one weight 0, `mu = 1`, `ifc = 1` -/
private def apBase : Obj (customAp solve1 (zeroApRule : CustomApRule ℚ 1 1 Unit) one_pos) :=
  ⟨⟨fun _ => 0, 1, 1, ⟨⟨1, fun _ _ => 0, fun _ => 0, fun _ => 0, fun _ => 0⟩, ()⟩⟩, []⟩

/-- C133: so for the base class `AdaptiveFilterAP` `run` and a loop of `adapt` are not the same: one `adapt` moves the weight from 0 to 1, `run` over that sample leaves it at 0. -/
theorem C133_ap_differ : ∃ (solve : Solver ℚ) (o : Obj (customAp solve (zeroApRule : CustomApRule ℚ 1 1 Unit) one_pos)),
    (∀ A B : Mat ℚ 1 1, ∃ P, solve 1 A B = .ok P ∧ (A 0 0 ≠ 0 → A 0 0 * P 0 0 = B 0 0)) ∧
    (adaptAll (customAp solve zeroApRule one_pos) [(2, [1])] o).1 = .ok () ∧
    (adaptAll (customAp solve zeroApRule one_pos) [(2, [1])] o).2.core.w 0 = 1 ∧
    (run (customAp solve zeroApRule one_pos) [2] [[1]] o).1 = .ok ([0], [2], [[0]]) ∧
    (run (customAp solve zeroApRule one_pos) [2] [[1]] o).2.core.w 0 = 0 := by
  refine ⟨solve1, apBase, fun A B => ⟨_, rfl, fun h => ?_⟩, ?_, ?_, ?_, ?_⟩
  · show A 0 0 * (B 0 0 / A 0 0) = B 0 0
    field_simp
  · rfl
  · decide +kernel
  · have := (C133_ap_base solve1 one_pos apBase (fun _ => 2) (fun _ _ => 1))
    obtain ⟨S, hR, hS⟩ := this
    have := congrArg Prod.fst (hR.2 1 one_pos)
    refine Eq.trans (Eq.trans ?_ this) ?_
    · rfl
    · simp [series, hS, apBase]
  · decide +kernel

/-- an object of a subclass -/
private def objOf {n : ℕ} {X : Type} (rule : CustomRule ℚ n X) (w : Vec ℚ n) (own : X) : Obj (custom rule) := ⟨⟨w, n, 1, own⟩, []⟩

/-- a rule with an attribute of its own (the number of its calls) that returns two numbers: refused by a filter of three weights, after the count -/
private def countRule : CustomRule ℚ 3 ℕ := fun s e _ => (.ok [e, e], (s.mu, s.ext + 1))

example : adapt (custom countRule) 5 (List.ofFn ![1, 0, 0]) (objOf countRule (fun _ => 2) 7) = (.error .valueError, objOf countRule (fun _ => 2) 8) :=
  C133_wrong_length countRule (objOf countRule (fun _ => 2) 7) 5 ![1, 0, 0] [_, _] 1 8 (by decide) (by decide) rfl

/-- a rule that returns one number -/
private def oneRule : CustomRule ℚ 3 Unit := fun s e _ => (.ok [e], (s.mu, ()))

example : adapt (custom oneRule) 5 (List.ofFn ![1, 0, 0]) (objOf oneRule (fun _ => 2) ()) = (.ok (), objOf oneRule (fun _ => 5) ()) := by
  have := C133_scalar oneRule (objOf oneRule (fun _ => 2) ()) 5 ![1, 0, 0] _ 1 () rfl
  refine this.trans ?_
  have : (2 : ℚ) + (5 - dot (fun _ => 2) ![1, 0, 0]) = 5 := by rw [dot_eq]; simp [Fin.sum_univ_three]
  exact congrArg (fun c => ((.ok (), objOf oneRule (fun _ => c) ()) : Except Err Unit × Obj (custom oneRule))) this

/-- and a rule that raises on its second call: `run` stops there with the exception, having kept the first update and the count -/
private def onceRule : CustomRule ℚ 1 ℕ := fun s e x => (if s.ext = 0 then .ok (x.map (e * ·)) else .error .indexError, (s.mu, s.ext + 1))

example : raised (run (custom onceRule) [2, 3] [[1], [1]] (objOf onceRule (fun _ => 0) 0)).1 = some .indexError ∧
    (run (custom onceRule) [2, 3] [[1], [1]] (objOf onceRule (fun _ => 0) 0)).2.core.w 0 = 2 ∧
    (run (custom onceRule) [2, 3] [[1], [1]] (objOf onceRule (fun _ => 0) 0)).2.core.ext = (2 : ℕ) := by
  have h := C133_loop onceRule (objOf onceRule (fun _ => 0) 0) rfl [2, 3] [[1], [1]] rfl (by decide) (by simp)
  rw [h.1, h.2]
  exact ⟨rfl, by decide +kernel, rfl⟩

end Padasip
