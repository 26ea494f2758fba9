import Verif.Lemmas.Insens

/-! # Rejected data -/

set_option linter.unusedSectionVars false
set_option linter.unusedSimpArgs false

namespace Padasip

variable {K : Type} [Transc K] {n : ℕ}

/-- same attributes except `n` and `w_history` -/
def SameUpToN {C : FilterClass K n} (o o' : Obj C) : Prop := ∃ j, o'.core = o.core.withN j

theorem SameUpToN.refl {C : FilterClass K n} (o : Obj C) : SameUpToN o o := ⟨o.core.nAttr, rfl⟩

theorem liftM_same {C : FilterClass K n} {α : Type} {m : M (Core K n C.Ext) α} (hm : Insens m)
    {o o' : Obj C} (h : SameUpToN o o') :
    (Obj.liftM m o').1 = (Obj.liftM m o).1 ∧ SameUpToN (Obj.liftM m o).2 (Obj.liftM m o').2 := by
  obtain ⟨j, hj⟩ := h
  simp only [Obj.liftM, hj, hm o.core j]
  exact ⟨trivial, j, rfl⟩

theorem run_same {C : FilterClass K n} (d : List K) (x : List (List K)) {o o' : Obj C}
    (h : SameUpToN o o') :
    (run C d x o').1 = (run C d x o).1 ∧ SameUpToN (run C d x o).2 (run C d x o').2 := by
  cases x with
  | nil => unfold run; split <;> exact ⟨rfl, h⟩
  | cons x0 t =>
    rw [run_cons, run_cons]
    split
    · exact ⟨rfl, h⟩
    · obtain ⟨j, hj⟩ := h
      have : o'.core.withN x0.length = o.core.withN x0.length := by rw [hj]; rfl
      rw [this]
      split
      · exact ⟨rfl, SameUpToN.refl _⟩
      · exact ⟨rfl, SameUpToN.refl _⟩

theorem repeatM_run_same {C : FilterClass K n} (d : List K) (x : List (List K)) (m : ℕ) :
    ∀ {o o' : Obj C}, SameUpToN o o' →
    (repeatM (run C d x) m o').1 = (repeatM (run C d x) m o).1 ∧
      SameUpToN (repeatM (run C d x) m o).2 (repeatM (run C d x) m o').2 := by
  induction m with
  | zero => intro o o' h; exact ⟨rfl, h⟩
  | succ m ih =>
    intro o o' h
    have h1 := run_same d x h
    simp only [repeatM, M.bind_apply]
    rcases e : run C d x o with ⟨r, s⟩
    rcases e' : run C d x o' with ⟨r', s'⟩
    rw [e, e'] at h1
    obtain ⟨h2, h3⟩ := h1
    simp only at h2 h3
    subst h2
    cases r' with
    | error _ => exact ⟨rfl, h3⟩
    | ok _ => exact ih h3

theorem pretrained_same {C : FilterClass K n} (d : List K) (x : List (List K)) (q : ℚ) (m : ℕ)
    {o o' : Obj C} (h : SameUpToN o o') :
    (pretrainedRun C d x q m o').1 = (pretrainedRun C d x q m o).1 ∧
      SameUpToN (pretrainedRun C d x q m o).2 (pretrainedRun C d x q m o').2 := by
  unfold pretrainedRun
  simp only [M.bind_apply]
  have h1 := repeatM_run_same (pySliceTo d (truncRat ((d.length : ℚ) * q)))
    (pySliceTo x (truncRat ((d.length : ℚ) * q))) m h
  rcases e : repeatM (run C (pySliceTo d (truncRat ((d.length : ℚ) * q)))
    (pySliceTo x (truncRat ((d.length : ℚ) * q)))) m o with ⟨r, s⟩
  rcases e' : repeatM (run C (pySliceTo d (truncRat ((d.length : ℚ) * q)))
    (pySliceTo x (truncRat ((d.length : ℚ) * q)))) m o' with ⟨r', s'⟩
  rw [e, e'] at h1
  obtain ⟨h2, h3⟩ := h1
  simp only at h2 h3
  subst h2
  cases r' with
  | error _ => exact ⟨rfl, h3⟩
  | ok _ => exact run_same _ _ h3

theorem call_same {C : FilterClass K n} (hC : InsensAll C) (c : Call K) {o o' : Obj C}
    (h : SameUpToN o o') :
    c.outcome C o' = c.outcome C o ∧ SameUpToN (c.exec C o) (c.exec C o') := by
  cases c with
  | predict x =>
    have := liftM_same (hC.predict x) h
    refine ⟨?_, this.2⟩
    simp only [Call.outcome, predict]
    rw [this.1]
  | adapt d x =>
    have := liftM_same (hC.adapt d x) h
    refine ⟨?_, this.2⟩
    simp only [Call.outcome, adapt]
    rw [this.1]
  | run d x => exact run_same d x h
  | pretrainedRun d x q m => exact pretrained_same d x q m h

theorem outcomes_same {C : FilterClass K n} (hC : InsensAll C) (cs : List (Call K)) :
    ∀ {o o' : Obj C}, SameUpToN o o' → outcomes C o' cs = outcomes C o cs := by
  induction cs with
  | nil => intro o o' _; rfl
  | cons c cs ih =>
    intro o o' h
    have h1 := call_same hC c h
    simp only [outcomes, h1.1, ih h1.2]

/-- `run` on data of a uniform wrong width, filter of size other than 1 -/
theorem run_width_ne_one {C : FilterClass K n} (o : Obj C) (d : List K) (x0 : List K)
    (t : List (List K)) (hlen : d.length = (x0 :: t).length) (hu : ∀ r ∈ x0 :: t, r.length = x0.length)
    (hw : x0.length ≠ n) (hn : n ≠ 1) :
    (run C d (x0 :: t) o).1 = .error .valueError ∧
      (run C d (x0 :: t) o).2.core = o.core.withN x0.length := by
  have hany : (x0 :: t).any (fun r => decide (r.length ≠ x0.length)) = false := by
    rw [List.any_eq_false]; intro r hr; simp [hu r hr]
  rw [run_cons, if_neg (by simpa using hlen), hany, if_neg (by simp)]
  obtain ⟨d0, dt, rfl⟩ : ∃ a b, d = a :: b := by
    cases d with
    | nil => simp at hlen
    | cons a b => exact ⟨a, b, rfl⟩
  have hb : bcast x0.length (List.ofFn o.core.w) = .error .valueError := by
    unfold bcast
    rw [if_neg (by simpa using fun h => hw h.symm)]
    split
    · rename_i a h
      have := congrArg List.length h
      simp at this
      exact absurd this hn
    · rfl
  simp only [List.zip_cons_cons, runLoop, histWrite, M.bind_assoc', M.get_bind, Core.withN_w,
    Core.withN_nAttr, hb, M.lift_error_bind]
  exact ⟨trivial, trivial⟩

/-- `run` on data of a uniform wrong width, filter of size 1, when the first iteration raises -/
theorem run_width_one {C : FilterClass K n} (hn : n = 1) (o : Obj C) (d0 : K) (dt : List K)
    (x0 : List K)
    (t : List (List K)) (hlen : (d0 :: dt).length = (x0 :: t).length)
    (hu : ∀ r ∈ x0 :: t, r.length = x0.length) {e : Err} {s' : Core K n C.Ext}
    (hb : C.body d0 x0 (o.core.withN x0.length) = (.error e, s')) :
    (run C (d0 :: dt) (x0 :: t) o).1 = .error e ∧ (run C (d0 :: dt) (x0 :: t) o).2.core = s' := by
  have hany : (x0 :: t).any (fun r => decide (r.length ≠ x0.length)) = false := by
    rw [List.any_eq_false]; intro r hr; simp [hu r hr]
  rw [run_cons, if_neg (by simpa using hlen), hany, if_neg (by simp)]
  obtain ⟨row, hrow⟩ : ∃ row, bcast x0.length (List.ofFn o.core.w) = .ok row := by
    subst hn
    unfold bcast
    split
    · exact ⟨_, rfl⟩
    · simp
  have hw : ∀ H, histWrite (C := C) 0 ⟨o.core.withN x0.length, H⟩
      = (.ok (), ⟨o.core.withN x0.length, H.set 0 row⟩) := by
    intro H
    simp [histWrite, hrow]
  have hl : ∀ H, Obj.liftM (C.body d0 x0) (⟨o.core.withN x0.length, H⟩ : Obj C)
      = (.error e, ⟨s', H⟩) := by
    intro H
    simp [Obj.liftM, hb]
  rw [List.zip_cons_cons, M.bind_error]
  rotate_left
  · simp only [runLoop]
    rw [M.bind_ok (hw _), M.bind_error (hl _)]
  exact ⟨rfl, rfl⟩

theorem basePredict_wrong {X : Type} (x : List K) (hx : x.length ≠ n) (s : Core K n X) :
    basePredict x s = (.error .valueError, s) := by
  simp [basePredict, asVec_wrong x hx]

theorem baseBody_wrong {X : Type} (lr : K → List K → M (Core K n X) (Vec K n)) (d : K) (x : List K)
    (hx : x.length ≠ n) (s : Core K n X) :
    baseBody basePredict lr d x s = (.error .valueError, s) := by
  rw [baseBody, M.bind_error (basePredict_wrong x hx s)]

theorem baseAdapt_wrong {X : Type} (lr : K → List K → M (Core K n X) (Vec K n)) (d : K) (x : List K)
    (hx : x.length ≠ n) (s : Core K n X) :
    baseAdapt basePredict lr d x s = (.error .valueError, s) := by
  rw [baseAdapt, M.bind_error (basePredict_wrong x hx s)]

theorem bcastVec_wrong (x : List K) (h1 : x.length ≠ n) (h2 : x.length ≠ 1) :
    bcastVec n x = .error .valueError := by
  unfold bcastVec bcast
  rw [if_neg h1]
  split
  · simp at h2
  · rfl

/-- the state AP is left in by a rejected `adapt` -/
def apShifted {order : ℕ} (s : Core K n (ApExt K n order)) : Core K n (ApExt K n order) :=
  { s with ext := { s.ext with xMem := shiftCols s.ext.xMem } }

theorem apPush_wrong {order : ℕ} (ho : 0 < order) (d : K) (x : List K) (h1 : x.length ≠ n)
    (h2 : x.length ≠ 1) (s : Core K n (ApExt K n order)) :
    apPush d x s = (.error .valueError, apShifted s) := by
  have h0 : order ≠ 0 := by omega
  simp only [apPush, M.modify_bind, if_neg h0, bcastVec_wrong x h1 h2, M.lift_error_bind]
  rfl

theorem apBody_wrong {solve : Solver K} {order : ℕ} (ho : 0 < order) (d : K) (x : List K)
    (h1 : x.length ≠ n) (h2 : x.length ≠ 1) (s : Core K n (ApExt K n order)) :
    (ap K n solve order).body d x s = (.error .valueError, apShifted s) := by
  simp only [ap, ho, dif_pos, apBody]
  rw [M.bind_error (apPush_wrong ho d x h1 h2 s)]

theorem apAdapt_wrong {solve : Solver K} {order : ℕ} (ho : 0 < order) (d : K) (x : List K)
    (h1 : x.length ≠ n) (h2 : x.length ≠ 1) (s : Core K n (ApExt K n order)) :
    (ap K n solve order).adapt d x s = (.error .valueError, apShifted s) := by
  simp only [ap, apAdapt]
  rw [M.bind_error (apPush_wrong ho d x h1 h2 s)]

theorem length_bsub {x y l : List K} (h : bsub x y = .ok l) :
    l.length = if x.length = y.length then x.length
      else if y.length = 1 then x.length else y.length := by
  unfold bsub at h
  split at h
  · rename_i e
    simp at h
    subst h
    simp [e]
  · rename_i e
    rw [if_neg e]
    split at h
    · simp at h
      subst h
      simp
    · rename_i a y' hne
      simp at h
      subst h
      rw [if_neg]
      · simp
      · intro hl
        obtain ⟨b, rfl⟩ := List.length_eq_one_iff.mp hl
        exact hne b rfl
    · cases h

theorem bsub_error {x y : List K} {e : Err} (h : bsub x y = .error e) : e = .valueError := by
  unfold bsub at h
  split at h
  · cases h
  · split at h <;> cases h
    rfl

theorem bsub_wrong {x y : List K} (h1 : x.length ≠ y.length) (h2 : x.length ≠ 1)
    (h3 : y.length ≠ 1) : bsub x y = .error .valueError := by
  unfold bsub
  rw [if_neg h1]
  split
  · simp at h3
  · simp at h2
  · rfl

theorem length_ocCenter (m : ℕ) (q : OcExt K n) :
    (ocCenter m q).length = m ∨ (ocCenter m q).length = n := by
  unfold ocCenter
  split
  · split
    · left; simp
    · right; simp
  · right; simp

/-- `predict` of OCNLMS on an input of a wrong length -/
theorem ocPredict_wrong {s : Core K n (OcExt K n)} (h : OcOk s.ext) (x : List K)
    (h1 : x.length ≠ n) (h2 : x.length ≠ 1) (h3 : s.nAttr = n ∨ (n = 1 ∧ s.nAttr = x.length)) :
    ocPredict x s = (.error .valueError, { s with ext := ocAdvance s.ext }) := by
  unfold ocPredict
  rw [M.bind_ok (ocRead_ok h)]
  simp only
  rcases hb : bsub x (ocCenter s.nAttr s.ext) with e | c
  · rw [bsub_error hb]; rfl
  · rw [M.lift_ok_bind]
    have hl := length_bsub hb
    have hc : c.length ≠ n := by
      have := length_ocCenter s.nAttr s.ext
      rcases h3 with h3 | ⟨h3, h4⟩
      · have h5 : (ocCenter s.nAttr s.ext).length = n := by omega
        rw [h5, if_neg h1] at hl
        by_cases hn1 : n = 1
        · rw [if_pos hn1] at hl; omega
        · rw [bsub_wrong (by omega) h2 (by omega)] at hb
          cases hb
      · split at hl
        · omega
        · split at hl
          · omega
          · omega
    rw [asVec_wrong c hc]
    rfl

theorem ocBody_wrong {s : Core K n (OcExt K n)} (h : OcOk s.ext) (d : K) (x : List K)
    (h1 : x.length ≠ n) (h2 : x.length ≠ 1) (h3 : s.nAttr = n ∨ (n = 1 ∧ s.nAttr = x.length)) :
    (ocnlms K n).body d x s = (.error .valueError, { s with ext := ocAdvance s.ext }) :=
  M.bind_error (ocPredict_wrong h x h1 h2 h3)

theorem ocAdapt_wrong {s : Core K n (OcExt K n)} (h : OcOk s.ext) (d : K) (x : List K)
    (h1 : x.length ≠ n) (h2 : x.length ≠ 1) (h3 : s.nAttr = n ∨ (n = 1 ∧ s.nAttr = x.length)) :
    (ocnlms K n).adapt d x s = (.error .valueError, { s with ext := ocAdvance s.ext }) :=
  M.bind_error (ocPredict_wrong h x h1 h2 h3)

end Padasip
