import Verif.Props.Reject
import Verif.Props.Engine

/-!
# C09, C10, C40 (supplements): the state after rejected calls, negative `ntrain`, `clear_memory`
-/

set_option linter.unusedSectionVars false
set_option linter.unusedSimpArgs false
set_option linter.unusedVariables false

namespace Padasip

variable {K : Type} [Transc K] {n : ℕ}

/-! ## C09 -/

theorem ben_adapt_one (s : Core K n (BenExt K n)) (hn : n ≠ 1) (hs : s.nAttr = 1) (d' : K) (x' : Vec K n) :
    baseAdapt basePredict benvenisteRule d' (List.ofFn x') s =
      (let q := s.ext
       let e := d' - dot s.w x'
       let phi : Vec K n := fun i => dot (fun j => 1 - q.lastMu * (q.lastX i * q.lastX j)) q.lastFi + q.lastE * q.lastX i
       let mu := q.lastMu + q.ro * e * dot q.lastX phi
       (.ok (), { s with
         w := fun i => s.w i + mu * e * x' i
         ext := { s.ext with lastE := e, lastMu := mu, lastX := x', lastFi := phi } })) := by
  have hf : benFiPart s.nAttr s.ext.lastMu s.ext.lastX
      = .ok fun i j => 1 - s.ext.lastMu * (s.ext.lastX i * s.ext.lastX j) := by
    unfold benFiPart
    rw [if_neg (by omega), if_pos hs]
    rfl
  unfold baseAdapt
  rw [M.bind_ok (basePredict_ofFn s x')]
  simp only [benvenisteRule, asVec_ofFn, M.bind_assoc', M.lift_ok_bind, M.get_bind, hf, M.modify_bind]
  rfl

/-- C09, Benveniste, exactly: after a `run` rejected for rows of width 1 the next `adapt` succeeds, but its recursion uses the all-ones
matrix in place of the identity: `phi_i = sum_j (1 - mu x_i x_j) phi_j + e x_i`. -/
theorem C09_benveniste_width_one (o : Obj (benveniste K n)) (hn : n ≠ 1) (d : List K) (x0 : List K) (t : List (List K))
    (hlen : d.length = (x0 :: t).length) (hu : ∀ r ∈ x0 :: t, r.length = 1) (d' : K) (x' : Vec K n) :
    let o1 := (run (benveniste K n) d (x0 :: t) o).2
    let r := adapt (benveniste K n) d' (List.ofFn x') o1
    let q := o.core.ext
    let e := d' - dot o.core.w x'
    let phi : Vec K n := fun i => dot (fun j => 1 - q.lastMu * (q.lastX i * q.lastX j)) q.lastFi + q.lastE * q.lastX i
    let mu := q.lastMu + q.ro * e * dot q.lastX phi
    (run (benveniste K n) d (x0 :: t) o).1 = .error .valueError ∧ r.1 = .ok () ∧
      r.2.core.w = (fun i => o.core.w i + mu * e * x' i) ∧ r.2.core.ext.lastMu = mu ∧ r.2.core.ext.lastFi = phi ∧
      r.2.core.ext.lastE = e ∧ r.2.core.ext.lastX = x' := by
  have h0 : x0.length = 1 := hu x0 (by simp)
  have hr := run_width_ne_one o d x0 t hlen (fun r hr => (hu r hr).trans h0.symm) (by omega) hn
  rw [h0] at hr
  obtain ⟨c, H⟩ : ∃ c H, (run (benveniste K n) d (x0 :: t) o).2 = ⟨c, H⟩ := ⟨_, _, rfl⟩
  obtain ⟨H, hH⟩ := H
  have hc : c = o.core.withN 1 := by rw [← hr.2, hH]
  have key := ben_adapt_one (o.core.withN 1) hn rfl d' x'
  have key' : (benveniste K n).adapt d' (List.ofFn x') (o.core.withN 1) = _ := key
  simp only [hH, hc, adapt, Obj.liftM, key', hr.1]
  and_intros <;> trivial

/-- a used filter of size 2 given a row of width 1 -/
example : (2 : ℕ) ≠ 1 ∧ ([0] : List ℚ).length = [[(5 : ℚ)]].length ∧ ∀ r ∈ [[(5 : ℚ)]], r.length = 1 := by simp

theorem adapt_of {C : FilterClass K n} (o : Obj C) {d : K} {x : List K} {r : Except Err Unit} {c : Core K n C.Ext}
    (h : C.adapt d x o.core = (r, c)) : adapt C d x o = (r, ⟨c, o.wHist⟩) := by
  simp only [adapt, Obj.liftM, h]

theorem predict_of {C : FilterClass K n} (o : Obj C) {x : List K} {r : Except Err K} {c : Core K n C.Ext}
    (h : C.predict x o.core = (r, c)) : predict C x o = (r, ⟨c, o.wHist⟩) := by
  simp only [predict, Obj.liftM, h]

theorem oc_fresh_predict (s : Core K n (OcExt K n)) (hok : OcOk s.ext) (hfr : s.ext.memEmpty = true ∧ s.ext.memIdx = 0) (x' : Vec K n)
    (hb : bsub (List.ofFn x') (List.replicate s.nAttr (0 : K)) = .error .valueError) :
    ocPredict (List.ofFn x') s = (.error .valueError, { s with ext := ocAdvance s.ext }) := by
  have hcen : ocCenter s.nAttr s.ext = List.replicate s.nAttr 0 := by
    unfold ocCenter
    rw [if_pos hfr.1, if_pos hfr.2]
  unfold ocPredict
  rw [M.bind_ok (ocRead_ok hok)]
  simp only [hcen, hb, M.lift_error_bind]

theorem ocCenter_used (a : ℕ) (q : OcExt K n) (h : ¬(q.memEmpty = true ∧ q.memIdx = 0)) : ocCenter a q = ocCenter n q := by
  unfold ocCenter
  by_cases h1 : q.memEmpty = true
  · have h2 : q.memIdx ≠ 0 := fun h2 => h ⟨h1, h2⟩
    simp [h1, h2]
  · simp [h1]

/-- the memory is not in its initial position any more once `read_memory` has run -/
theorem ocAdvance_used (q : OcExt K n) : ¬((ocAdvance q).memEmpty = true ∧ (ocAdvance q).memIdx = 0) := by
  unfold ocAdvance
  split <;> simp

theorem ocRead_used {s : Core K n (OcExt K n)} (h : ¬(s.ext.memEmpty = true ∧ s.ext.memIdx = 0)) (a : ℕ) :
    ocRead (s.withN a) = ((ocRead s).1, ((ocRead s).2).withN a) ∧
    ((ocRead s).2.nAttr = s.nAttr) := by
  unfold ocRead
  simp only [M.get_bind, Core.withN, ocCenter_used a _ h, ocCenter_used s.nAttr _ h]
  cases hmd : ocCenterD s.ext with
  | error e => exact ⟨rfl, rfl⟩
  | ok v => exact ⟨rfl, rfl⟩

/-- C09, OCNLMS: once the memory is in use, a `run` rejected for its width has no influence on the next prediction and on the next
adaptation: same outcome, same weights and memory. -/
theorem C09_ocnlms_used (o : Obj (ocnlms K n)) (hn : n ≠ 1) (ho : o.core.nAttr = n) (hok : o.core.ext.memD.length = o.core.ext.memX.length ∧ o.core.ext.memIdx < o.core.ext.memX.length)
    (hus : ¬(o.core.ext.memEmpty = true ∧ o.core.ext.memIdx = 0)) (d : List K) (x0 : List K) (t : List (List K))
    (hlen : d.length = (x0 :: t).length) (hu : ∀ r ∈ x0 :: t, r.length = x0.length) (hw : x0.length ≠ n) (d' : K) (x' : Vec K n) :
    let o1 := (run (ocnlms K n) d (x0 :: t) o).2
    (run (ocnlms K n) d (x0 :: t) o).1 = .error .valueError ∧
    (predict (ocnlms K n) (List.ofFn x') o1).1 = (predict (ocnlms K n) (List.ofFn x') o).1 ∧
    (predict (ocnlms K n) (List.ofFn x') o1).2.core.ext = (predict (ocnlms K n) (List.ofFn x') o).2.core.ext ∧
    (adapt (ocnlms K n) d' (List.ofFn x') o1).1 = .ok () ∧ (adapt (ocnlms K n) d' (List.ofFn x') o).1 = .ok () ∧
    (adapt (ocnlms K n) d' (List.ofFn x') o1).2.core.w = (adapt (ocnlms K n) d' (List.ofFn x') o).2.core.w ∧
    (adapt (ocnlms K n) d' (List.ofFn x') o1).2.core.ext = (adapt (ocnlms K n) d' (List.ofFn x') o).2.core.ext := by
  have hr := run_width_ne_one o d x0 t hlen hu hw hn
  obtain ⟨c, H, hH⟩ : ∃ c H, (run (ocnlms K n) d (x0 :: t) o).2 = ⟨c, H⟩ := ⟨_, _, rfl⟩
  have hc : c = o.core.withN x0.length := by rw [← hr.2, hH]
  -- `predict` and `learning_rule` for any value of the attribute `n`
  have hp : ∀ (s : Core K n (OcExt K n)), OcOk s.ext → ¬(s.ext.memEmpty = true ∧ s.ext.memIdx = 0) →
      ocPredict (List.ofFn x') s = (.ok (ocY s x'), { s with ext := ocAdvance s.ext }) := by
    intro s h1 h2
    simp [ocPredict, M.bind_ok (ocRead_ok h1), ocCenter_used s.nAttr _ h2, ocCenter_ofFn, bsub_ofFn, ocY]
  have hrule : ∀ (s : Core K n (OcExt K n)), OcOk s.ext → ¬(s.ext.memEmpty = true ∧ s.ext.memIdx = 0) → ∀ e : K,
      ocRule e (List.ofFn x') s
        = (let q1 := ocStoreX s.ext x'
           let c : Vec K n := fun i => x' i - ocMx q1 i
           (.ok fun i => s.mu / (s.ext.eps + dot c c) * e * c i,
            { s with ext := ocStoreD (ocAdvance q1) (e + (dot s.w c + ocMd q1)) })) := by
    intro s h1 h2 e
    have h := oc_rule (s := s.withN n) h1 rfl e x'
    have h1' : OcOk (ocStoreX s.ext x') := OcOk_storeX h1 x'
    have hlen : (ocAdvance (ocStoreX s.ext x')).memD.length ≠ 0 := by
      obtain ⟨h2, h3⟩ := OcOk_advance h1'
      omega
    have he : ∀ q : OcExt K n, (ocAdvance q).eps = q.eps := by
      intro q; unfold ocAdvance; split <;> rfl
    have hu' : ocUpdateX x' s = (.ok (), { s with ext := ocStoreX s.ext x' }) := by
      simp [ocUpdateX, h1.2, ocStoreX]
    have h2' : ¬((ocStoreX s.ext x').memEmpty = true ∧ (ocStoreX s.ext x').memIdx = 0) := h2
    have hd : ∀ v : K, ocUpdateD v { s with ext := ocAdvance (ocStoreX s.ext x') }
        = (.ok (), { s with ext := ocStoreD (ocAdvance (ocStoreX s.ext x')) v }) := by
      intro v
      simp only [ocUpdateD, M.get_bind, if_neg hlen]
      rfl
    simp only [ocRule, bcastVec_ofFn, M.lift_ok_bind, M.bind_ok hu']
    rw [M.bind_ok (ocRead_ok (s := { s with ext := ocStoreX s.ext x' }) h1')]
    simp only [ocCenter_used s.nAttr _ h2', ocCenter_ofFn, bsub_ofFn, M.lift_ok_bind, asVec_ofFn, M.get_bind]
    rw [M.bind_ok (hd _)]
    simp [he, ocStoreX]
  have had : ∀ s : Core K n (OcExt K n), OcOk s.ext → ¬(s.ext.memEmpty = true ∧ s.ext.memIdx = 0) → ∀ a : ℕ,
      ∃ w q, (ocnlms K n).adapt d' (List.ofFn x') s = (.ok (), { s with w := w, ext := q }) ∧
        (ocnlms K n).adapt d' (List.ofFn x') (s.withN a) = (.ok (), { s.withN a with w := w, ext := q }) := by
    intro s h1 h2 a
    have gen : ∀ s' : Core K n (OcExt K n), OcOk s'.ext → ¬(s'.ext.memEmpty = true ∧ s'.ext.memIdx = 0) →
        (ocnlms K n).adapt d' (List.ofFn x') s'
          = (let e := d' - ocY s' x'
             let q1 := ocStoreX (ocAdvance s'.ext) x'
             let c : Vec K n := fun i => x' i - ocMx q1 i
             (.ok (), { s' with
              w := fun i => s'.w i + s'.mu / ((ocAdvance s'.ext).eps + dot c c) * e * c i
              ext := ocStoreD (ocAdvance q1) (e + (dot s'.w c + ocMd q1)) })) := by
      intro s' h1 h2
      show baseAdapt ocPredict ocRule d' (List.ofFn x') s' = _
      unfold baseAdapt
      rw [M.bind_ok (hp s' h1 h2)]
      have := hrule { s' with ext := ocAdvance s'.ext } (OcOk_advance h1) (ocAdvance_used s'.ext) (d' - ocY s' x')
      rw [M.bind_ok this]
      rfl
    refine ⟨_, _, gen s h1 h2, ?_⟩
    exact gen (s.withN a) h1 h2
  refine ⟨hr.1, ?_⟩
  obtain ⟨w, q, g1, g2⟩ := had o.core hok hus x0.length
  have p1 := hp o.core hok hus
  have p2 := hp (o.core.withN x0.length) hok hus
  have e1 : (ocnlms K n).predict (List.ofFn x') = ocPredict (List.ofFn x') := rfl
  have hH' : (run (ocnlms K n) d (x0 :: t) o).2 = ⟨o.core.withN x0.length, H⟩ := by rw [hH, hc]
  have a1 := adapt_of o g1
  have a2 := adapt_of (⟨o.core.withN x0.length, H⟩ : Obj (ocnlms K n)) g2
  have b1 := predict_of o p1
  have b2 := predict_of (⟨o.core.withN x0.length, H⟩ : Obj (ocnlms K n)) p2
  show (predict _ _ (run (ocnlms K n) d (x0 :: t) o).2).1 = _ ∧ (predict _ _ (run (ocnlms K n) d (x0 :: t) o).2).2.core.ext = _ ∧
    (adapt _ _ _ (run (ocnlms K n) d (x0 :: t) o).2).1 = _ ∧ _ ∧ (adapt _ _ _ (run (ocnlms K n) d (x0 :: t) o).2).2.core.w = _ ∧
    (adapt _ _ _ (run (ocnlms K n) d (x0 :: t) o).2).2.core.ext = _
  rw [hH', a1, a2, b1, b2]
  exact ⟨rfl, rfl, rfl, rfl, rfl, rfl⟩

/-- a used memory: one of three slots written -/
example : let q : OcExt ℚ 2 := ⟨1, true, [fun _ => 5, fun _ => 0, fun _ => 0], [1, 0, 0], 1⟩
    (q.memD.length = q.memX.length ∧ q.memIdx < q.memX.length) ∧ ¬(q.memEmpty = true ∧ q.memIdx = 0) := by simp

/-- C09, OCNLMS: while the memory is in its initial position, after a `run` rejected for rows of width other than 1 the next `predict` on a
good input raises `ValueError`; the weights and stored samples are unchanged and the filter has recovered: the memory counts as used. -/
theorem C09_ocnlms_fresh (o : Obj (ocnlms K n)) (hn : n ≠ 1)
    (hok : o.core.ext.memD.length = o.core.ext.memX.length ∧ o.core.ext.memIdx < o.core.ext.memX.length)
    (hfr : o.core.ext.memEmpty = true ∧ o.core.ext.memIdx = 0) (d : List K) (x0 : List K) (t : List (List K))
    (hlen : d.length = (x0 :: t).length) (hu : ∀ r ∈ x0 :: t, r.length = x0.length) (hw : x0.length ≠ n) (hw1 : x0.length ≠ 1)
    (d' : K) (x' : Vec K n) :
    let o1 := (run (ocnlms K n) d (x0 :: t) o).2
    let o2 := (predict (ocnlms K n) (List.ofFn x') o1).2
    let o3 := (adapt (ocnlms K n) d' (List.ofFn x') o1).2
    (predict (ocnlms K n) (List.ofFn x') o1).1 = .error .valueError ∧ (adapt (ocnlms K n) d' (List.ofFn x') o1).1 = .error .valueError ∧
    o2 = o3 ∧ o2.core.w = o.core.w ∧ o2.core.ext.memX = o.core.ext.memX ∧ o2.core.ext.memD = o.core.ext.memD ∧
      ¬(o2.core.ext.memEmpty = true ∧ o2.core.ext.memIdx = 0) := by
  have hr := run_width_ne_one o d x0 t hlen hu hw hn
  obtain ⟨c, H, hH⟩ : ∃ c H, (run (ocnlms K n) d (x0 :: t) o).2 = ⟨c, H⟩ := ⟨_, _, rfl⟩
  have hc : c = o.core.withN x0.length := by rw [← hr.2, hH]
  have hb : bsub (List.ofFn x') (List.replicate x0.length (0 : K)) = .error .valueError := by
    unfold bsub
    rw [if_neg (by simpa using Ne.symm hw)]
    have l1 : (List.ofFn x').length ≠ 1 := by simpa using hn
    have l2 : (List.replicate x0.length (0 : K)).length ≠ 1 := by simpa using hw1
    generalize List.ofFn x' = a at *
    generalize List.replicate x0.length (0 : K) = b at *
    match a, b, l1, l2 with
    | [], [], _, _ => rfl
    | _ :: _ :: _, [], _, _ => rfl
    | [], _ :: _ :: _, _, _ => rfl
    | _ :: _ :: _, _ :: _ :: _, _, _ => rfl
  have hp := oc_fresh_predict (o.core.withN x0.length) hok hfr x' hb
  have ha : (ocnlms K n).adapt d' (List.ofFn x') (o.core.withN x0.length)
      = (.error .valueError, { o.core.withN x0.length with ext := ocAdvance o.core.ext }) := by
    exact M.bind_error hp
  have hH' : (run (ocnlms K n) d (x0 :: t) o).2 = ⟨o.core.withN x0.length, H⟩ := by rw [hH, hc]
  have a2 := adapt_of (⟨o.core.withN x0.length, H⟩ : Obj (ocnlms K n)) ha
  have b2 := predict_of (⟨o.core.withN x0.length, H⟩ : Obj (ocnlms K n)) hp
  intro o1 o2 o3
  have e2 : o2 = ⟨{ o.core.withN x0.length with ext := ocAdvance o.core.ext }, H⟩ := by
    show (predict _ _ (run (ocnlms K n) d (x0 :: t) o).2).2 = _
    rw [hH', b2]; rfl
  have e3 : o3 = ⟨{ o.core.withN x0.length with ext := ocAdvance o.core.ext }, H⟩ := by
    show (adapt _ _ _ (run (ocnlms K n) d (x0 :: t) o).2).2 = _
    rw [hH', a2]
  refine ⟨?_, ?_, e2.trans e3.symm, ?_⟩
  · show (predict _ _ (run (ocnlms K n) d (x0 :: t) o).2).1 = _
    rw [hH', b2]
  · show (adapt _ _ _ (run (ocnlms K n) d (x0 :: t) o).2).1 = _
    rw [hH', a2]
  rw [e2]
  refine ⟨rfl, ?_, ?_, ocAdvance_used _⟩
  · show (ocAdvance o.core.ext).memX = _
    unfold ocAdvance; split <;> rfl
  · show (ocAdvance o.core.ext).memD = _
    unfold ocAdvance; split <;> rfl

/-! ## C10: `ntrain < 0` -/

theorem pretrained_split (solve : Solver K) (k : Kind) (o : Obj (classOf (n := n) solve k))
    (ho : Ready solve k o.core) (d : List K) (x : List (List K)) (hlen : d.length = x.length)
    (hw : ∀ r ∈ x, r.length = n) (ntrain : ℚ) (epochs T : ℕ) (h0 : 0 < T) (h1 : T < d.length)
    (hs : pretrainedRun (classOf (n := n) solve k) d x ntrain epochs
      = (repeatM (run (classOf solve k) (d.take T) (x.take T)) epochs >>= fun _ => run (classOf solve k) (d.drop T) (x.drop T))) :
    pretrainedRun (classOf solve k) d x ntrain epochs o
      = run (classOf solve k) (d.drop T) (x.drop T)
          ((fun o => (run (classOf solve k) (d.take T) (x.take T) o).2)^[epochs] o) ∧
    ∃ y e W o', pretrainedRun (classOf solve k) d x ntrain epochs o = (.ok (y, e, W), o') ∧
      y.length = d.length - T ∧ e.length = d.length - T ∧ W.length = d.length - T := by
  have hrep := repeatM_ok (run (classOf (n := n) solve k) (d.take T) (x.take T))
    (fun o => Ready solve k o.core) (by
      intro o ho
      obtain ⟨y, e, W, o', hr, -⟩ := C01_run_total solve k o ho (d.take T) (x.take T) (by simp [hlen]) (by
        intro h
        have := congrArg List.length h
        rw [List.length_take] at this
        simp only [List.length_nil] at this
        omega) (fun r hr => hw r (List.mem_of_mem_take hr))
      exact ⟨_, congrArg Prod.fst hr, keeps_run (ready_keeps solve k).withN (ready_keeps solve k).body _ _ o ho⟩)
    epochs o ho
  have main : pretrainedRun (classOf solve k) d x ntrain epochs o
      = run (classOf solve k) (d.drop T) (x.drop T)
          ((fun o => (run (classOf solve k) (d.take T) (x.take T) o).2)^[epochs] o) := by
    rw [hs, M.bind_ok hrep.1]
  refine ⟨main, ?_⟩
  obtain ⟨y, e, W, o', hr, hy, he, hW, -⟩ := C01_run_total solve k _ hrep.2 (d.drop T) (x.drop T) (by simp [hlen]) (by
        intro h
        have := congrArg List.length h
        simp at this
        omega) (fun r hr => hw r (List.mem_of_mem_drop hr))
  refine ⟨y, e, W, o', ?_, ?_, ?_, ?_⟩
  · rw [main, hr]
  · rw [hy]; simp [hlen]
  · rw [he]; simp [hlen]
  · rw [hW]; simp [hlen]

theorem truncRat_neg {q : ℚ} {T : ℕ} (h1 : (T : ℚ) ≤ -q) (h2 : -q < T + 1) (h0 : 0 < T) : truncRat q = -(T : ℤ) := by
  unfold truncRat
  have hT : (0 : ℚ) < T := by exact_mod_cast h0
  rw [if_neg (by linarith)]
  have : ⌊-q⌋ = (T : ℤ) := by
    rw [Int.floor_eq_iff]
    exact ⟨by exact_mod_cast h1, by exact_mod_cast h2⟩
  rw [← this]
  rfl

/-- C10: a negative `ntrain` is not refused: with `T = int(len(d)*|ntrain|)`, `0 < T < len(d)`, the filter is trained on all but the last
`T` samples and tested on the last `T`. -/
theorem C10_negative (solve : Solver K) (k : Kind) (o : Obj (classOf (n := n) solve k))
    (ho : Ready solve k o.core) (d : List K) (x : List (List K)) (hlen : d.length = x.length)
    (hw : ∀ r ∈ x, r.length = n) (ntrain : ℚ) (epochs T : ℕ)
    (hT : (T : ℚ) ≤ d.length * (-ntrain)) (hT' : d.length * (-ntrain) < T + 1) (h0 : 0 < T)
    (h1 : T < d.length) :
    pretrainedRun (classOf solve k) d x ntrain epochs o
      = run (classOf solve k) (d.drop (d.length - T)) (x.drop (d.length - T))
          ((fun o => (run (classOf solve k) (d.take (d.length - T)) (x.take (d.length - T)) o).2)^[epochs] o) ∧
    ∃ y e W o', pretrainedRun (classOf solve k) d x ntrain epochs o = (.ok (y, e, W), o') ∧
      y.length = T ∧ e.length = T ∧ W.length = T := by
  have htr : truncRat ((d.length : ℚ) * ntrain) = -(T : ℤ) := truncRat_neg (by linarith) (by linarith) h0
  obtain ⟨m, y, e, W, o', g1, g2, g3, g4⟩ := pretrained_split solve k o ho d x hlen hw ntrain epochs (d.length - T) (by omega) (by omega) (by
    unfold pretrainedRun
    have hneg : ¬ (0 ≤ -(T : ℤ)) := by omega
    simp only [htr, pySliceTo, pySliceFrom, if_neg hneg, neg_neg, Int.toNat_natCast, ← hlen])
  exact ⟨m, y, e, W, o', g1, by omega, by omega, by omega⟩

/-- 10 samples, `ntrain = -0.3`: trained on 7, tested on 3 -/
example : ((3 : ℕ) : ℚ) ≤ (10 : ℕ) * -(-(3 / 10)) ∧ ((10 : ℕ) : ℚ) * -(-(3 / 10)) < (3 : ℕ) + 1 := by norm_num

/-- C10: `ntrain <= -1` leaves nothing to train on: `IndexError` if there is an epoch, nothing has changed; without epochs it is `run` on all
the data. -/
theorem C10_negative_all (solve : Solver K) (k : Kind) (o : Obj (classOf (n := n) solve k))
    (d : List K) (x : List (List K)) (hlen : d.length = x.length) (hne : x ≠ []) (ntrain : ℚ) (epochs : ℕ) (hq : ntrain ≤ -1) :
    pretrainedRun (classOf solve k) d x ntrain epochs o = if epochs = 0 then run (classOf solve k) d x o else (.error .indexError, o) := by
  have hN : 0 < d.length := by rw [hlen]; exact List.length_pos_iff.mpr hne
  have hNq : (0 : ℚ) < d.length := by exact_mod_cast hN
  have h0 : (d.length : ℚ) * ntrain ≤ -d.length := by nlinarith
  have hT : truncRat ((d.length : ℚ) * ntrain) ≤ -(d.length : ℤ) := by
    unfold truncRat
    rw [if_neg (by linarith)]
    have : (d.length : ℤ) ≤ ⌊-((d.length : ℚ) * ntrain)⌋ := Int.le_floor.mpr (by push_cast; linarith)
    have e : (-((d.length : ℚ) * ntrain)).floor = ⌊-((d.length : ℚ) * ntrain)⌋ := rfl
    rw [e]
    omega
  have hneg : ¬ (0 ≤ truncRat ((d.length : ℚ) * ntrain)) := by omega
  have z1 : d.length - (-truncRat ((d.length : ℚ) * ntrain)).toNat = 0 := by omega
  have z2 : x.length - (-truncRat ((d.length : ℚ) * ntrain)).toNat = 0 := by omega
  have hs : pretrainedRun (classOf (n := n) solve k) d x ntrain epochs
      = (repeatM (run (classOf solve k) [] []) epochs >>= fun _ => run (classOf solve k) d x) := by
    unfold pretrainedRun
    simp only [pySliceTo, pySliceFrom, if_neg hneg, z1, z2, List.take_zero, List.drop_zero]
  rw [hs]
  cases epochs with
  | zero => rfl
  | succ m =>
    simp only [repeatM, M.bind_assoc']
    rw [M.bind_error (m := run (classOf solve k) [] []) (s' := o) (e := .indexError) rfl]
    simp

/-! ## C40: `clear_memory` -/

/-- C40: after `clear_memory()`, whatever happened before, the filter is in exactly the state of a filter just constructed with the current
weights and the same `mu`, `eps` and `mem`. -/
theorem C40_clear_memory (env : Env K) (s : Core K n (OcExt K n)) (hn : s.nAttr = n) :
    (ocClearMemory s.ext.memX.length s).1 = .ok () ∧
    construct env .ocnlms { n := some n, mu := some s.mu, eps := some s.ext.eps, mem := some s.ext.memX.length, w := some (.arr (List.ofFn s.w)) }
      = .ok ⟨n, .ocnlms, ⟨(ocClearMemory s.ext.memX.length s).2, []⟩⟩ := by
  refine ⟨rfl, ?_⟩
  have hw : (initWeights env.rand 0 (.arr (List.ofFn s.w)) n).bind (asVec n) = .ok s.w := by
    simp [initWeights, Except.bind]
  have hs : (ocClearMemory s.ext.memX.length s).2 = ⟨s.w, n, s.mu, ocClear s.ext.memX.length ⟨s.ext.eps, true, [], [], 0⟩⟩ := by
    obtain ⟨w, a, mu, q⟩ := s
    have hn' : a = n := hn
    subst hn'
    rfl
  rw [hs]
  simp [construct, badKeyword, initExt]
  rw [hw]; rfl

/-- C40: so the next prediction is not centred: it is `w · x`. -/
theorem C40_clear_memory_predict {K : Type} [Field K] [LinearOrder K] [IsStrictOrderedRing K] (s : Core K n (OcExt K n)) (hn : s.nAttr = n) (hm : 0 < s.ext.memX.length) (x : Vec K n) :
    (ocPredict (List.ofFn x) (ocClearMemory s.ext.memX.length s).2).1 = .ok (∑ i, s.w i * x i) := by
  have hok : OcOk (ocClearMemory s.ext.memX.length s).2.ext := ⟨by simp [ocClearMemory, ocClear, M.modify], by simpa [ocClearMemory, ocClear, M.modify] using hm⟩
  rw [oc_predict hok hn x]
  have h1 : ocMx (ocClearMemory s.ext.memX.length s).2.ext = fun _ => 0 := by
    simp [ocMx, ocClearMemory, ocClear, M.modify]; rfl
  have h2 : ocMd (ocClearMemory s.ext.memX.length s).2.ext = 0 := by
    simp [ocMd, ocCenterD, ocClearMemory, ocClear, M.modify]
  have h3 : (ocClearMemory s.ext.memX.length s).2.w = s.w := rfl
  simp only [ocY, h1, h2, h3, sub_zero, add_zero, dot_eq]

/-- the hypotheses: a used filter with three weights, whose memory holds two samples -/
example : ∃ s : Core ℚ 3 (OcExt ℚ 3), s.nAttr = 3 ∧ 0 < s.ext.memX.length ∧ s.ext.memIdx = 1 ∧ s.w ≠ fun _ => 0 :=
  ⟨⟨fun _ => 1, 3, 1 / 10, ⟨1, false, [fun _ => 1, fun _ => 2], [1, 2], 1⟩⟩, rfl, by decide, rfl, fun h => by have := congrFun h 0; norm_num at this⟩

end Padasip
