import Verif.Lemmas.Reject
import Verif.Lemmas.Gram
import Verif.Spec.Example
import Mathlib.Data.Rat.Floor

/-!
# C07-C12: rejected calls, `pretrained_run`, initial weights
-/

set_option linter.unusedSectionVars false
set_option linter.unusedSimpArgs false

namespace Padasip

variable {K : Type} [Transc K] {n : ℕ}

/-! ## C07 -/

/-- C07: data and target of different lengths: `ValueError`, the object is unchanged. -/
theorem C07_length_mismatch (solve : Solver K) (k : Kind) (o : Obj (classOf (n := n) solve k))
    (d : List K) (x : List (List K)) (h : d.length ≠ x.length) :
    run (classOf solve k) d x o = (.error .valueError, o) := by
  unfold run; rw [if_pos h]; rfl

/-- C07: empty data: `IndexError`, the object is unchanged. -/
theorem C07_empty (solve : Solver K) (k : Kind) (o : Obj (classOf (n := n) solve k)) :
    run (classOf solve k) [] [] o = (.error .indexError, o) := rfl

example : ([1, 2] : List ℝ).length ≠ ([[1]] : List (List ℝ)).length := by decide

/-! ## C08 -/

/-- C08: `run` on data with a row of a wrong width (all rows wrong, or ragged rows) raises `ValueError` and leaves the weights
unchanged. -/
theorem C08_run_wrong_width (solve : Solver K) (k : Kind) (o : Obj (classOf (n := n) solve k))
    (ho : Ready solve k o.core) (d : List K) (x : List (List K)) (hlen : d.length = x.length)
    (hbad : ∃ r ∈ x, r.length ≠ n) :
    (run (classOf solve k) d x o).1 = .error .valueError ∧
      (run (classOf solve k) d x o).2.core.w = o.core.w := by
  cases x with
  | nil => simp at hbad
  | cons x0 t =>
    by_cases hu : ∀ r ∈ x0 :: t, r.length = x0.length
    · have hw : x0.length ≠ n := by
        obtain ⟨r, hr, hr'⟩ := hbad
        rw [← hu r hr]; exact hr'
      by_cases hn : n = 1
      · cases d with
        | nil => simp at hlen
        | cons d0 dt =>
          have base : ∀ {X : Type} (lr : K → List K → M (Core K n X) (Vec K n)) (s : Core K n X),
              baseBody basePredict lr d0 x0 s = (.error .valueError, s) :=
            fun lr s => baseBody_wrong lr d0 x0 hw s
          have fin : ∀ s', (classOf solve k).body d0 x0 (o.core.withN x0.length)
              = (.error .valueError, s') → s'.w = o.core.w →
              (run (classOf solve k) (d0 :: dt) (x0 :: t) o).1 = .error .valueError ∧
              (run (classOf solve k) (d0 :: dt) (x0 :: t) o).2.core.w = o.core.w := by
            intro s' h1 h2
            have := run_width_one hn o d0 dt x0 t hlen hu h1
            rw [this.2]
            exact ⟨this.1, h2⟩
          cases k
          case ocnlms =>
            have hp := ocBody_wrong (s := o.core.withN x0.length) ho d0 x0 hw (hn ▸ hw)
              (Or.inr ⟨hn, rfl⟩)
            exact fin _ hp rfl
          case ap order =>
            exact fin _ (apBody_wrong ho.1 d0 x0 hw (hn ▸ hw) _) rfl
          all_goals exact fin _ (base _ _) rfl
      · have := run_width_ne_one o d x0 t hlen hu hw hn
        rw [this.2]
        exact ⟨this.1, rfl⟩
    · have hany : (x0 :: t).any (fun r => decide (r.length ≠ x0.length)) = true := by
        rw [List.any_eq_true]
        push Not at hu
        obtain ⟨r, hr, hr'⟩ := hu
        exact ⟨r, hr, by simpa using hr'⟩
      rw [run_cons, if_neg (by simpa using hlen), hany, if_pos rfl]
      exact ⟨rfl, rfl⟩

/-- C08: `predict` with an input of a wrong length raises `ValueError` and leaves the weights unchanged (an OCNLMS filter accepts
length 1, see `C08_broadcast_*`). -/
theorem C08_predict_wrong_size (solve : Solver K) (k : Kind) (o : Obj (classOf (n := n) solve k))
    (ho : Ready solve k o.core) (hn : o.core.nAttr = n) (x : List K) (hx : x.length ≠ n)
    (h1 : k = .ocnlms → x.length ≠ 1) :
    (predict (classOf solve k) x o).1 = .error .valueError ∧
      (predict (classOf solve k) x o).2.core.w = o.core.w := by
  have fin : ∀ s', (classOf solve k).predict x o.core = (.error .valueError, s') →
      s'.w = o.core.w →
      (predict (classOf solve k) x o).1 = .error .valueError ∧
      (predict (classOf solve k) x o).2.core.w = o.core.w := by
    intro s' h1 h2
    simp only [predict, Obj.liftM, h1]
    exact ⟨trivial, h2⟩
  cases k
  case ocnlms => exact fin _ (ocPredict_wrong (s := o.core) ho x hx (h1 rfl) (Or.inl hn)) rfl
  all_goals exact fin _ (basePredict_wrong x hx o.core) rfl

/-- C08: `adapt` with an input of a wrong length raises `ValueError` and leaves the weights unchanged (OCNLMS and AP accept
length 1, see `C08_broadcast_*`). -/
theorem C08_adapt_wrong_size (solve : Solver K) (k : Kind) (o : Obj (classOf (n := n) solve k))
    (ho : Ready solve k o.core) (hn : o.core.nAttr = n) (d : K) (x : List K) (hx : x.length ≠ n)
    (h1 : (k = .ocnlms ∨ ∃ m, k = .ap m) → x.length ≠ 1) :
    (adapt (classOf solve k) d x o).1 = .error .valueError ∧
      (adapt (classOf solve k) d x o).2.core.w = o.core.w := by
  have fin : ∀ s', (classOf solve k).adapt d x o.core = (.error .valueError, s') →
      s'.w = o.core.w →
      (adapt (classOf solve k) d x o).1 = .error .valueError ∧
      (adapt (classOf solve k) d x o).2.core.w = o.core.w := by
    intro s' h1 h2
    simp only [adapt, Obj.liftM, h1]
    exact ⟨trivial, h2⟩
  cases k
  case ocnlms =>
    exact fin _ (ocAdapt_wrong (s := o.core) ho d x hx (h1 (Or.inl rfl)) (Or.inl hn)) rfl
  case ap order => exact fin _ (apAdapt_wrong ho.1 d x hx (h1 (Or.inr ⟨_, rfl⟩)) o.core) rfl
  all_goals exact fin _ (baseAdapt_wrong _ d x hx o.core) rfl

/-- C08: AP treats an input of length 1 as the constant vector. -/
theorem C08_broadcast_ap (solve : Solver K) (order : ℕ) (o : Obj (ap K n solve order)) (d a : K) :
    adapt (ap K n solve order) d [a] o = adapt (ap K n solve order) d (List.replicate n a) o := by
  have hb : bcastVec n [a] = bcastVec n (List.replicate n a) := by
    unfold bcastVec
    congr 1
    unfold bcast
    by_cases h : n = 1
    · subst h; rfl
    · have h1 : ¬ ([a] : List K).length = n := fun e => h e.symm
      rw [if_neg h1, if_pos (by simp)]
  have h1 : apPush (order := order) (n := n) d [a] = apPush d (List.replicate n a) := by
    simp only [apPush, hb]
  have h2 : (ap K n solve order).adapt d [a] = (ap K n solve order).adapt d (List.replicate n a) := by
    show apAdapt solve d [a] = apAdapt solve d (List.replicate n a)
    unfold apAdapt
    rw [h1]
  exact congrArg (fun m => Obj.liftM m o) h2

theorem bsub_single (a : K) (m : List K) : bsub [a] m = bsub (List.replicate m.length a) m := by
  have h : ∀ l : List K, List.zipWith (· - ·) (List.replicate l.length a) l = l.map (a - ·) := by
    intro l
    induction l with
    | nil => rfl
    | cons b l ih => simp [List.replicate_succ, ih]
  unfold bsub
  by_cases h1 : ([a] : List K).length = m.length
  · rw [if_pos h1, if_pos (by simp)]
    obtain ⟨b, rfl⟩ := List.length_eq_one_iff.mp h1.symm
    rfl
  · rw [if_neg h1, if_pos (by simp), h]
    match m, h1 with
    | [], _ => rfl
    | [b], h1 => simp at h1
    | _ :: _ :: _, _ => rfl

theorem ocPredict_single (s : Core K n (OcExt K n)) (hn : s.nAttr = n) (a : K) :
    ocPredict [a] s = ocPredict (List.replicate n a) s := by
  have hl : (ocCenter s.nAttr s.ext).length = n := by
    have := length_ocCenter s.nAttr s.ext; omega
  have hr : ocRead s = (match ocCenterD s.ext with
    | .ok md => (.ok (md, ocCenter s.nAttr s.ext), { s with ext := ocAdvance s.ext })
    | .error e => (.error e, s)) := by
    simp only [ocRead, M.get_bind]
    cases ocCenterD s.ext <;> rfl
  unfold ocPredict
  rw [M.bind_apply, M.bind_apply, hr]
  cases ocCenterD s.ext with
  | error e => rfl
  | ok md => simp only [bsub_single, hl]

/-- C08: OCNLMS treats an input of length 1 as the constant vector (prediction). -/
theorem C08_broadcast_ocnlms (o : Obj (ocnlms K n)) (hn : o.core.nAttr = n) (a : K) :
    predict (ocnlms K n) [a] o = predict (ocnlms K n) (List.replicate n a) o := by
  exact congrArg (fun r => (r.1, ({ o with core := r.2 } : Obj (ocnlms K n))))
    (ocPredict_single o.core hn a)

/-- the hypotheses of C08: a filter of size 2, rows of width 3 -/
example : (∃ r ∈ ([[1, 2, 3]] : List (List ℝ)), r.length ≠ 2) ∧
    Ready (n := 2) exEnv.solve .nlms ⟨fun _ => 0, 2, 1, (⟨1⟩ : EpsExt ℝ)⟩ := by
  constructor
  · exact ⟨[1, 2, 3], by simp, by simp⟩
  · trivial

/-! ## C09 -/

/-- C09: for every filter but VSLMS_Benveniste and OCNLMS (and AP of size 1), a `run` rejected because of the width of the
rows has no influence on what any later history of calls returns. -/
theorem C09_rejected_run_is_invisible (solve : Solver K) (k : Kind) (hb : k ≠ .benveniste)
    (hoc : k ≠ .ocnlms) (hap : (∃ m, k = .ap m) → n ≠ 1) (o : Obj (classOf (n := n) solve k))
    (d : List K) (x : List (List K)) (hlen : d.length = x.length) (hbad : ∃ r ∈ x, r.length ≠ n)
    (later : List (Call K)) :
    outcomes (classOf solve k) (run (classOf solve k) d x o).2 later
      = outcomes (classOf solve k) o later := by
  apply outcomes_same (insens_classOf solve k hb hoc)
  cases x with
  | nil => simp at hbad
  | cons x0 t =>
    refine ⟨x0.length, ?_⟩
    by_cases hu : ∀ r ∈ x0 :: t, r.length = x0.length
    · have hw : x0.length ≠ n := by
        obtain ⟨r, hr, hr'⟩ := hbad
        rw [← hu r hr]; exact hr'
      by_cases hn : n = 1
      · cases d with
        | nil => simp at hlen
        | cons d0 dt =>
          have fin : ∀ s', (classOf solve k).body d0 x0 (o.core.withN x0.length)
              = (.error .valueError, s') → s' = o.core.withN x0.length →
              (run (classOf solve k) (d0 :: dt) (x0 :: t) o).2.core = o.core.withN x0.length := by
            intro s' h1 h2
            have := run_width_one hn o d0 dt x0 t hlen hu h1
            rw [this.2, h2]
          have base : ∀ {X : Type} (lr : K → List K → M (Core K n X) (Vec K n)) (s : Core K n X),
              baseBody basePredict lr d0 x0 s = (.error .valueError, s) :=
            fun lr s => baseBody_wrong lr d0 x0 hw s
          cases k
          case ocnlms => exact absurd rfl hoc
          case benveniste => exact absurd rfl hb
          case ap order => exact absurd hn (hap ⟨_, rfl⟩)
          all_goals exact fin _ (base _ _) rfl
      · exact (run_width_ne_one o d x0 t hlen hu hw hn).2
    · have hany : (x0 :: t).any (fun r => decide (r.length ≠ x0.length)) = true := by
        rw [List.any_eq_true]
        push Not at hu
        obtain ⟨r, hr, hr'⟩ := hu
        exact ⟨r, hr, by simpa using hr'⟩
      rw [run_cons, if_neg (by simpa using hlen), hany, if_pos rfl]

/-- a concrete rejected call -/
example : ∃ r ∈ ([[1], [1, 2]] : List (List ℝ)), r.length ≠ 2 := ⟨[1], by simp, by simp⟩

/-- C09, Benveniste: after a `run` on rows of a uniform wrong width other than 1, the next `adapt` on a good sample raises
`ValueError`. -/
theorem C09_benveniste_adapt_raises (o : Obj (benveniste K n)) (d : List K) (x0 : List K)
    (t : List (List K)) (hlen : d.length = (x0 :: t).length)
    (hu : ∀ r ∈ x0 :: t, r.length = x0.length) (hw : x0.length ≠ n) (hw1 : x0.length ≠ 1)
    (d' : K) (x' : Vec K n) :
    (adapt (benveniste K n) d' (List.ofFn x') (run (benveniste K n) d (x0 :: t) o).2).1
      = .error .valueError := by
  have key : ∀ s : Core K n (BenExt K n), s.nAttr = x0.length →
      ((benveniste K n).adapt d' (List.ofFn x') s).1 = .error .valueError := by
    intro s hs
    have hf : benFiPart s.nAttr s.ext.lastMu s.ext.lastX = .error .valueError := by
      unfold benFiPart
      rw [if_neg (by omega), if_neg (by omega)]
    show (baseAdapt basePredict benvenisteRule d' (List.ofFn x') s).1 = _
    simp only [baseAdapt, M.bind_ok (basePredict_ofFn s x'), benvenisteRule, asVec_ofFn,
      M.bind_assoc', M.lift_ok_bind, M.get_bind, hf, M.lift_error_bind]
  have hcore : (run (benveniste K n) d (x0 :: t) o).2.core = o.core.withN x0.length := by
    by_cases hn : n = 1
    · cases d with
      | nil => simp at hlen
      | cons d0 dt =>
        exact (run_width_one hn o d0 dt x0 t hlen hu
          (baseBody_wrong benvenisteRule d0 x0 hw (o.core.withN x0.length))).2
    · exact (run_width_ne_one o d x0 t hlen hu hw hn).2
  have := key (run (benveniste K n) d (x0 :: t) o).2.core (by rw [hcore]; rfl)
  simp only [adapt, Obj.liftM]
  exact this

/-- a filter of size 2 given rows of width 3 -/
example : ([0, 0, 0] : List ℝ).length ≠ 2 ∧ ([0, 0, 0] : List ℝ).length ≠ 1 := by simp

/-- a Benveniste filter of size 2 after one sample (`mu = 1`, `ro = 1`) -/
def benEx : Obj (benveniste ℚ 2) :=
  ⟨⟨fun _ => 1, 2, 1, ⟨1, 1, fun i => if i = 0 then 1 else 2, fun i => if i = 0 then 1 else 0, 1⟩⟩, []⟩

/-- C09, Benveniste: after a rejected `run` on rows of width 1 the filter silently computes other weights. -/
theorem C09_benveniste_silent_change :
    List.ofFn (adapt (benveniste ℚ 2) 1 [1, 1] (run (benveniste ℚ 2) [0] [[5]] benEx).2).2.core.w
      ≠ List.ofFn (adapt (benveniste ℚ 2) 1 [1, 1] benEx).2.core.w ∧
    (adapt (benveniste ℚ 2) 1 [1, 1] (run (benveniste ℚ 2) [0] [[5]] benEx).2).1 = .ok () ∧
    (adapt (benveniste ℚ 2) 1 [1, 1] benEx).1 = .ok () ∧
    (run (benveniste ℚ 2) [0] [[5]] benEx).1 = .error .valueError := by
  decide +kernel

/-- a fresh OCNLMS filter of size 2 -/
def ocEx2 : Obj (ocnlms ℚ 2) :=
  ⟨⟨fun _ => 1, 2, 1, ocClear 3 ⟨1, true, [], [], 0⟩⟩, []⟩

/-- C09, OCNLMS: a fresh filter accepts the sample, but after a `run` rejected for its width 3 it raises `ValueError`. -/
theorem C09_ocnlms_adapt_raises :
    (adapt (ocnlms ℚ 2) 1 [1, 1] ocEx2).1 = .ok () ∧
    (run (ocnlms ℚ 2) [0] [[5, 5, 5]] ocEx2).1 = .error .valueError ∧
    (adapt (ocnlms ℚ 2) 1 [1, 1] (run (ocnlms ℚ 2) [0] [[5, 5, 5]] ocEx2).2).1
      = .error .valueError := by
  decide +kernel

/-! ## C10 -/

theorem truncRat_eq {q : ℚ} {T : ℕ} (h1 : (T : ℚ) ≤ q) (h2 : q < T + 1) : truncRat q = T := by
  unfold truncRat
  have h0 : (0 : ℚ) ≤ q := le_trans (by positivity) h1
  rw [if_pos h0]
  have : ⌊q⌋ = (T : ℤ) := by
    rw [Int.floor_eq_iff]
    exact ⟨by exact_mod_cast h1, by exact_mod_cast h2⟩
  rw [← this]
  rfl

theorem repeatM_ok {S α : Type} (m : M S α) (P : S → Prop)
    (h : ∀ s, P s → ∃ a, (m s).1 = .ok a ∧ P (m s).2) (k : ℕ) :
    ∀ s, P s → repeatM m k s = (.ok (), (fun s => (m s).2)^[k] s) ∧ P ((fun s => (m s).2)^[k] s) := by
  induction k with
  | zero => intro s hs; exact ⟨rfl, hs⟩
  | succ k ih =>
    intro s hs
    obtain ⟨a, h1, h2⟩ := h s hs
    have hm : m s = (.ok a, (m s).2) := by rw [← h1]
    rw [repeatM, M.bind_ok hm]
    exact ih _ h2

/-- C10: `pretrained_run` with a training part of `T = int(len(d)*ntrain)` samples, `0 < T < len(d)`: `epochs` times `run` on the
first `T` samples, then `run` on the rest, whose result is returned. -/
theorem C10_pretrained (solve : Solver K) (k : Kind) (o : Obj (classOf (n := n) solve k))
    (ho : Ready solve k o.core) (d : List K) (x : List (List K)) (hlen : d.length = x.length)
    (hw : ∀ r ∈ x, r.length = n) (ntrain : ℚ) (epochs T : ℕ)
    (hT : (T : ℚ) ≤ d.length * ntrain) (hT' : d.length * ntrain < T + 1) (h0 : 0 < T)
    (h1 : T < d.length) :
    pretrainedRun (classOf solve k) d x ntrain epochs o
      = run (classOf solve k) (d.drop T) (x.drop T)
          ((fun o => (run (classOf solve k) (d.take T) (x.take T) o).2)^[epochs] o) ∧
    ∃ y e W o', pretrainedRun (classOf solve k) d x ntrain epochs o = (.ok (y, e, W), o') ∧
      y.length = d.length - T ∧ e.length = d.length - T ∧ W.length = d.length - T := by
  have total : ∀ (o : Obj (classOf (n := n) solve k)), Ready solve k o.core → ∀ (d : List K)
      (x : List (List K)), d.length = x.length → x ≠ [] → (∀ r ∈ x, r.length = n) →
      ∃ y e W, (run (classOf solve k) d x o).1 = .ok (y, e, W) ∧ y.length = x.length ∧
        e.length = x.length ∧ W.length = x.length := by
    intro o ho d x hlen hne hw
    obtain ⟨ds, xs, h1, h2⟩ := exists_stream x hw d hlen 0
    have hN : 0 < x.length := List.length_pos_iff.mpr hne
    have hr := run_traj (ready_safe solve k) o ((ready_keeps solve k).withN _ n ho) ds xs
      x.length hN
    rw [← h1, ← h2] at hr
    exact ⟨_, _, _, congrArg Prod.fst hr, by simp, by simp, by simp⟩
  have htr : truncRat ((d.length : ℚ) * ntrain) = (T : ℤ) := truncRat_eq hT hT'
  have hrep := repeatM_ok (run (classOf (n := n) solve k) (d.take T) (x.take T))
    (fun o => Ready solve k o.core) (by
      intro o ho
      obtain ⟨y, e, W, hr, -⟩ := total o ho (d.take T) (x.take T) (by simp [hlen]) (by
        intro h
        have := congrArg List.length h
        rw [List.length_take] at this
        simp only [List.length_nil] at this
        omega) (fun r hr => hw r (List.mem_of_mem_take hr))
      exact ⟨_, hr, keeps_run (ready_keeps solve k).withN (ready_keeps solve k).body _ _ o ho⟩)
    epochs o ho
  have main : pretrainedRun (classOf solve k) d x ntrain epochs o
      = run (classOf solve k) (d.drop T) (x.drop T)
          ((fun o => (run (classOf solve k) (d.take T) (x.take T) o).2)^[epochs] o) := by
    unfold pretrainedRun
    simp only [htr, pySliceTo, pySliceFrom, Int.natCast_nonneg, if_true, Int.toNat_natCast]
    rw [M.bind_ok hrep.1]
  refine ⟨main, ?_⟩
  obtain ⟨y, e, W, hr, hy, he, hW⟩ := total _ hrep.2 (d.drop T) (x.drop T) (by simp [hlen]) (by
        intro h
        have := congrArg List.length h
        simp at this
        omega) (fun r hr => hw r (List.mem_of_mem_drop hr))
  refine ⟨y, e, W, (run (classOf solve k) (d.drop T) (x.drop T)
          ((fun o => (run (classOf solve k) (d.take T) (x.take T) o).2)^[epochs] o)).2, ?_, ?_, ?_, ?_⟩
  · rw [main, ← hr]
  · rw [hy]; simp [hlen]
  · rw [he]; simp [hlen]
  · rw [hW]; simp [hlen]

/-- the hypotheses of C10: 10 samples, `ntrain = 0.5` -/
example : ((5 : ℕ) : ℚ) ≤ (10 : ℕ) * (1 / 2) ∧ ((10 : ℕ) : ℚ) * (1 / 2) < (5 : ℕ) + 1 := by
  norm_num

/-- C10: no training sample (`int(len(d)*ntrain) == 0`) and at least one epoch: `IndexError`, nothing has changed. -/
theorem C10_no_training_data (solve : Solver K) (k : Kind) (o : Obj (classOf (n := n) solve k))
    (d : List K) (x : List (List K)) (ntrain : ℚ) (epochs : ℕ)
    (hT : 0 ≤ d.length * ntrain) (hT' : d.length * ntrain < 1) (he : 0 < epochs) :
    pretrainedRun (classOf solve k) d x ntrain epochs o = (.error .indexError, o) := by
  have htr : truncRat ((d.length : ℚ) * ntrain) = ((0 : ℕ) : ℤ) :=
    truncRat_eq (by simpa using hT) (by simpa using hT')
  obtain ⟨m, rfl⟩ : ∃ m, epochs = m + 1 := ⟨epochs - 1, by omega⟩
  unfold pretrainedRun
  simp only [htr, pySliceTo, Int.natCast_nonneg, if_true, Int.toNat_natCast, List.take_zero, repeatM,
    M.bind_assoc']
  rw [M.bind_error (m := run (classOf solve k) [] []) (s' := o) (e := .indexError) rfl]

/-- C10: everything is training data (`int(len(d)*ntrain) >= len(d)`): `IndexError`, but the filter has been trained. -/
theorem C10_no_test_data (solve : Solver K) (k : Kind) (o : Obj (classOf (n := n) solve k))
    (ho : Ready solve k o.core) (d : List K) (x : List (List K)) (hlen : d.length = x.length)
    (hne : x ≠ []) (hw : ∀ r ∈ x, r.length = n) (ntrain : ℚ) (hq : 1 ≤ ntrain) (epochs : ℕ) :
    pretrainedRun (classOf solve k) d x ntrain epochs o
      = (.error .indexError, (fun o => (run (classOf solve k) d x o).2)^[epochs] o) := by
  have total : ∀ (o : Obj (classOf (n := n) solve k)), Ready solve k o.core →
      ∃ a, (run (classOf solve k) d x o).1 = .ok a := by
    intro o ho
    obtain ⟨ds, xs, h1, h2⟩ := exists_stream x hw d hlen 0
    have hN : 0 < x.length := List.length_pos_iff.mpr hne
    have hr := run_traj (ready_safe solve k) o ((ready_keeps solve k).withN _ n ho) ds xs
      x.length hN
    rw [← h1, ← h2] at hr
    exact ⟨_, congrArg Prod.fst hr⟩
  have hrep := repeatM_ok (run (classOf (n := n) solve k) d x)
    (fun o => Ready solve k o.core) (by
      intro o ho
      obtain ⟨a, ha⟩ := total o ho
      exact ⟨_, ha, keeps_run (ready_keeps solve k).withN (ready_keeps solve k).body _ _ o ho⟩)
    epochs o ho
  have hT : (d.length : ℤ) ≤ truncRat ((d.length : ℚ) * ntrain) := by
    have h0 : (d.length : ℚ) ≤ d.length * ntrain := le_mul_of_one_le_right (by positivity) hq
    unfold truncRat
    rw [if_pos (le_trans (by positivity) h0)]
    have : (d.length : ℤ) ≤ ⌊(d.length : ℚ) * ntrain⌋ := Int.le_floor.mpr (by exact_mod_cast h0)
    exact this
  obtain ⟨t, hte⟩ : ∃ t : ℕ, truncRat ((d.length : ℚ) * ntrain) = t :=
    ⟨(truncRat ((d.length : ℚ) * ntrain)).toNat, by omega⟩
  rw [hte] at hT
  have ht : d.length ≤ t := by exact_mod_cast hT
  have main : (repeatM (run (classOf solve k) (pySliceTo d (t : ℤ)) (pySliceTo x (t : ℤ))) epochs
      >>= fun _ => run (classOf solve k) (pySliceFrom d (t : ℤ)) (pySliceFrom x (t : ℤ))) o
      = (.error .indexError, (fun o => (run (classOf solve k) d x o).2)^[epochs] o) := by
    simp only [pySliceTo, pySliceFrom, Int.natCast_nonneg, if_true, Int.toNat_natCast]
    rw [List.take_of_length_le ht, List.take_of_length_le (hlen ▸ ht), List.drop_eq_nil_of_le ht,
      List.drop_eq_nil_of_le (hlen ▸ ht), M.bind_ok hrep.1]
    rfl
  have hp : pretrainedRun (classOf (n := n) solve k) d x ntrain epochs
      = (repeatM (run (classOf solve k) (pySliceTo d (t : ℤ)) (pySliceTo x (t : ℤ))) epochs
      >>= fun _ => run (classOf solve k) (pySliceFrom d (t : ℤ)) (pySliceFrom x (t : ℤ))) := by
    unfold pretrainedRun
    rw [hte]
  rw [hp]
  exact main

/-! ## C11 -/

/-- C11: whatever `init_weights` returns has exactly `n` entries. -/
theorem C11_size (rand : (n : ℕ) → Vec K n) (selfN n : ℕ) (w : WArg K) (l : List K)
    (h : initWeights rand selfN w n = .ok l) : l.length = n := by
  have hn : ((n : ℤ) = -1) = False := by simp
  unfold initWeights at h
  simp only [hn, if_false] at h
  cases w with
  | str s =>
    simp only at h
    split at h
    · split at h
      · cases h
      · cases h; simp
    · split at h
      · split at h
        · cases h
        · cases h; simp
      · cases h
  | arr a =>
    simp only at h
    split at h
    · rename_i hl
      cases h
      exact_mod_cast hl
    · cases h

/-- C11: the complete behaviour of `init_weights` for a size `n >= 0`. -/
theorem C11_init_weights (rand : (n : ℕ) → Vec K n) (selfN n : ℕ) (w : WArg K) :
    initWeights rand selfN w n = match w with
      | .str s =>
        if s = "random" then .ok (List.ofFn (rand n))
        else if s = "zeros" then .ok (List.replicate n 0)
        else .error .valueError
      | .arr l => if l.length = n then .ok l else .error .valueError := by
  have hn : ((n : ℤ) = -1) = False := by simp
  unfold initWeights
  simp only [hn, if_false]
  cases w with
  | str s =>
    have : ¬ ((n : ℤ) < 0) := by omega
    simp [this]
  | arr l => simp

/-- C11: `n = -1` stands for the size of the filter. -/
theorem C11_default_size (rand : (n : ℕ) → Vec K n) (selfN : ℕ) (w : WArg K) :
    initWeights rand selfN w (-1) = initWeights rand selfN w selfN := by
  have hn : ((selfN : ℤ) = -1) = False := by simp
  unfold initWeights
  simp [hn]

/-- a non-trivial case of C11 -/
example : initWeights (fun _ _ => (1 : ℚ)) 0 (.arr [1, 2, 3]) (3 : ℕ) = .ok [1, 2, 3] ∧
    initWeights (fun _ _ => (1 : ℚ)) 0 (.arr [1, 2, 3]) (2 : ℕ) = .error .valueError := by
  decide +kernel

/-! ## C12 -/

/-- C12: `adapt` of AP on an input of a wrong length raises `ValueError`; the weights are unchanged but the newest column of the input
memory has been duplicated and the oldest one dropped. -/
theorem C12_rejected_adapt_corrupts_memory (solve : Solver K) {order : ℕ} (ho : 0 < order)
    (o : Obj (ap K n solve order)) (d : K) (x : List K) (h1 : x.length ≠ n) (h2 : x.length ≠ 1) :
    ∃ o', adapt (ap K n solve order) d x o = (.error .valueError, o') ∧ o'.core.w = o.core.w ∧
      (∀ i, o'.core.ext.xMem i ⟨0, ho⟩ = o.core.ext.xMem i ⟨0, ho⟩) ∧
      (∀ i (j : ℕ) (hj : j + 1 < order),
        o'.core.ext.xMem i ⟨j + 1, hj⟩ = o.core.ext.xMem i ⟨j, by omega⟩) ∧
      o'.core.ext.dMem = o.core.ext.dMem := by
  refine ⟨{ o with core := apShifted o.core }, ?_, rfl, ?_, ?_, rfl⟩
  · exact liftM_eq (apAdapt_wrong (solve := solve) ho d x h1 h2 o.core)
  · intro i
    simp [apShifted, shiftCols]
  · intro i j hj
    simp [apShifted, shiftCols]

/-- the hypotheses of C12: order 2, size 3, an input of length 2 -/
example : 0 < 2 ∧ ([1, 2] : List ℝ).length ≠ 3 ∧ ([1, 2] : List ℝ).length ≠ 1 := by simp

/-- C12: after the rejected call, the next accepted sample finds a misaligned memory: its column `j + 2` is the old column
`j` (without the rejected call: `j + 1`), while the target entry `j + 1` is the old entry `j` in both cases. -/
theorem C12_memory_after_next_sample {solve : Solver K} {order : ℕ} (ho : 0 < order)
    (o : Obj (ap K n solve order))
    (hs : ∀ X : Mat K n order, ∃ P, solve order (apGram o.core.ext.ifc X) (eye order) = .ok P)
    (d : K) (x : List K) (h1 : x.length ≠ n) (h2 : x.length ≠ 1) (d' : K) (x' : Vec K n)
    (i : Fin n) (j : ℕ) (hj : j + 2 < order) :
    let bad := (adapt (ap K n solve order) d' (List.ofFn x') (adapt (ap K n solve order) d x o).2)
    let good := (adapt (ap K n solve order) d' (List.ofFn x') o)
    bad.1 = .ok () ∧ good.1 = .ok () ∧
    bad.2.core.ext.xMem i ⟨j + 2, hj⟩ = o.core.ext.xMem i ⟨j, by omega⟩ ∧
    good.2.core.ext.xMem i ⟨j + 2, hj⟩ = o.core.ext.xMem i ⟨j + 1, by omega⟩ ∧
    bad.2.core.ext.dMem ⟨j + 1, by omega⟩ = o.core.ext.dMem ⟨j, by omega⟩ ∧
    good.2.core.ext.dMem ⟨j + 1, by omega⟩ = o.core.ext.dMem ⟨j, by omega⟩ := by
  have hrej : (adapt (ap K n solve order) d x o).2 = { o with core := apShifted o.core } := by
    exact congrArg Prod.snd (liftM_eq (C := ap K n solve order) (o := o)
      (apAdapt_wrong (solve := solve) ho d x h1 h2 o.core))
  obtain ⟨P1, hP1⟩ := hs (apX (apShifted o.core) x')
  obtain ⟨P2, hP2⟩ := hs (apX o.core x')
  have e1 := ap_adapt solve ho (apShifted o.core) d' x' P1 hP1
  have e2 := ap_adapt solve ho o.core d' x' P2 hP2
  have f1 : adapt (ap K n solve order) d' (List.ofFn x') { o with core := apShifted o.core } = _ :=
    liftM_eq e1
  have f2 : adapt (ap K n solve order) d' (List.ofFn x') o = _ := liftM_eq e2
  simp only [hrej, f1, f2]
  refine ⟨trivial, trivial, ?_, ?_, ?_, ?_⟩
  · simp [apX, shiftCols, apShifted]
  · simp [apX, shiftCols]
  · simp [apD, shiftVec, apShifted]
  · simp [apD, shiftVec]

/-- exact inverse of `v v^T + I` (Sherman-Morrison), i.e. of the AP matrix for filter size 1 and `ifc = 1` -/
def solveRank1 : Solver ℚ := fun m A _ =>
  .ok fun i j => eye m i j - (A i j - eye m i j) / (1 + vsum fun k => A k k - 1)

theorem solveRank1_exact (m : ℕ) (X : Mat ℚ 1 m) :
    ∃ P, solveRank1 m (apGram 1 X) (eye m) = .ok P ∧ matMul (apGram 1 X) P = eye m := by
  refine ⟨_, rfl, ?_⟩
  have hg : ∀ a b, apGram 1 X a b = X 0 a * X 0 b + eye m a b := by
    intro a b
    simp [apGram, dot_eq]
  have hs : vsum (fun k => apGram 1 X k k - 1) = ∑ k, X 0 k * X 0 k := by
    rw [vsum_eq]
    refine Finset.sum_congr rfl fun k _ => ?_
    rw [hg]
    simp [eye]
  funext a b
  rw [matMul_eq, hs]
  set S := ∑ k, X 0 k * X 0 k with hS
  have hpos : (0 : ℚ) < 1 + S := by
    have : 0 ≤ S := Finset.sum_nonneg fun k _ => mul_self_nonneg _
    linarith
  have h1 : ∀ c, apGram 1 X a c * (eye m c b - (apGram 1 X c b - eye m c b) / (1 + S))
      = X 0 a * (X 0 c * eye m c b) - X 0 a * X 0 b / (1 + S) * (X 0 c * X 0 c) + eye m a c * eye m c b
        - X 0 b / (1 + S) * (eye m a c * X 0 c) := by
    intro c
    rw [hg, hg]
    field_simp
    ring
  simp only [h1, Finset.sum_add_distrib, Finset.sum_sub_distrib, ← Finset.mul_sum]
  rw [← hS]
  have e1 : ∑ c, X 0 c * (eye m c b : ℚ) = X 0 b := by simp [eye]
  have e2 : ∑ c, (eye m a c : ℚ) * eye m c b = eye m a b := by simp [eye]
  have e3 : ∑ c, (eye m a c : ℚ) * X 0 c = X 0 a := by simp [eye]
  rw [e1, e2, e3]
  field_simp
  ring

/-- a fresh AP filter of order 3, size 1, `mu = 1`, `ifc = 1` -/
def apFresh3 : Obj (ap ℚ 1 solveRank1 3) :=
  ⟨⟨fun _ => 0, 1, 1, ⟨1, fun _ _ => 0, fun _ => 0, fun _ => 0, fun _ => 0⟩⟩, []⟩

/-- one AP step -/
def apStep (o : Obj (ap ℚ 1 solveRank1 3)) (d : ℚ) (x : List ℚ) : Obj (ap ℚ 1 solveRank1 3) :=
  (adapt (ap ℚ 1 solveRank1 3) d x o).2

/-- C12: a rejected call between two accepted ones changes the weights. -/
theorem C12_weights_differ :
    (adapt (ap ℚ 1 solveRank1 3) 7 [1, 1] (apStep apFresh3 1 [1])).1 = .error .valueError ∧
    List.ofFn (apStep (apStep (apStep apFresh3 1 [1]) 7 [1, 1]) 1 [1]).core.w
      ≠ List.ofFn (apStep (apStep apFresh3 1 [1]) 1 [1]).core.w := by
  decide +kernel

/-- the hypotheses of the C12 theorems: three weights, order 4, a call with two values, and a solver that always answers -/
example : ∃ (solve : Solver ℝ) (o : Obj (ap ℝ 3 solve 4)), 0 < 4 ∧ (∀ X : Mat ℝ 3 4, ∃ P, solve 4 (apGram o.core.ext.ifc X) (eye 4) = .ok P) ∧
    ([1, 2] : List ℝ).length ≠ 3 ∧ ([1, 2] : List ℝ).length ≠ 1 ∧ 1 + 2 < 4 :=
  ⟨fun _ A _ => .ok A, ⟨⟨fun _ => 0, 3, 1, (⟨1 / 10, fun _ _ => 0, fun _ => 0, fun _ => 0, fun _ => 0⟩ : ApExt ℝ 3 4)⟩, []⟩, by norm_num,
    fun X => ⟨_, rfl⟩, by simp, by simp, by norm_num⟩

end Padasip
