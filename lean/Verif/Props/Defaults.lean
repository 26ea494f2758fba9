import Verif.Props.Factory
import Verif.Props.IntData
import Verif.Props.Oc
import Verif.Model.Real
import Verif.Lemmas.Reject

/-!
# C92, C93: default values of the parameters; sizes for which a filter can be created but not used
-/

set_option linter.unusedSectionVars false
set_option linter.unusedSimpArgs false
set_option linter.unusedVariables false

namespace Padasip

/-! ## C92 -/

/-- **Specification**: the parameter defaults of the signatures in the documentation, written as decimal numbers. A parameter which the class does not have is `none`. -/
structure Documented where
  mu : Option ℝ := none
  eps : Option ℝ := none
  ro : Option ℝ := none
  a : Option ℝ := none
  lambd : Option ℝ := none
  alpha : Option ℝ := none
  mem : Option ℕ := none
  order : Option ℕ := none
  ifc : Option ℝ := none

/-- the documented signatures -/
noncomputable def documented : Tag → Documented
  | .ap => { order := some 5, ifc := some 0.001 }
  | .gmcc => { mu := some 0.01, lambd := some 0.03, alpha := some 2 }
  | .gngd => { mu := some 1, eps := some 1, ro := some 0.1 }
  | .llncosh => { mu := some 0.01, lambd := some 3 }
  | .lmf => {}
  | .lms => {}
  | .nlmf => { mu := some 0.1, eps := some 0.001 }
  | .nlms => { mu := some 0.1, eps := some 0.001 }
  | .nsslms => { mu := some 0.1, eps := some 0.001 }
  | .ocnlms => { mu := some 0.1, eps := some 1, mem := some 100 }
  | .rls => { mu := some 0.1, eps := some 0.001 }
  | .sslms => {}
  | .vslmsAng => { mu := some 1, ro := some 0.0002, a := some 0.95 }
  | .vslmsBenveniste => { mu := some 1, ro := some 0.1 }
  | .vslmsMathews => { mu := some 1, ro := some 0.1 }

/-- the call with every omitted parameter written out with its documented default; the initial weights, if omitted, are `"random"` -/
noncomputable def writtenOut (t : Tag) (kw : Kwargs ℝ) : Kwargs ℝ :=
  { kw with
    mu := kw.mu <|> (documented t).mu
    w := some (kw.w.getD (.str "random"))
    eps := kw.eps <|> (documented t).eps
    ro := kw.ro <|> (documented t).ro
    a := kw.a <|> (documented t).a
    lambd := kw.lambd <|> (documented t).lambd
    alpha := kw.alpha <|> (documented t).alpha
    mem := kw.mem <|> (documented t).mem
    order := kw.order <|> (documented t).order
    ifc := kw.ifc <|> (documented t).ifc }

theorem nat_real (p : ℕ) : (Scalar.nat p : ℝ) = (p : ℝ) := rfl

theorem lit_real (p q : ℕ) : (lit p q : ℝ) = (p : ℝ) / q := rfl

/-- C92: omitting a parameter is the same as passing its documented default, for every class and every combination of given and omitted parameters, also when the call fails. -/
theorem C92_construct (env : Env ℝ) (t : Tag) (kw : Kwargs ℝ) : construct env t kw = construct env t (writtenOut t kw) := by
  have hn : ∀ {α : Type} (o : Option α), (o <|> none) = o := fun o => by cases o <;> rfl
  have hs : ∀ {α : Type} (o : Option α) (v : α), (o <|> some v) = some (o.getD v) := fun o v => by cases o <;> rfl
  have hb : badKeyword t (writtenOut t kw) = badKeyword t kw := by
    cases t <;> simp [badKeyword, writtenOut, documented, hn, hs]
  have hm : ((writtenOut t kw).mu <|> defaultMu t) = (kw.mu <|> defaultMu t) := by
    cases t <;> simp only [writtenOut, documented, hn, hs, defaultMu] <;> cases kw.mu <;> simp [lit_real] <;> norm_num
  have he : ∀ n mu w, initExt env n t (writtenOut t kw) mu w = initExt env n t kw mu w := by
    intro n mu w
    cases t <;> simp only [initExt, writtenOut, documented, hn, hs, Option.getD_some]
    case ap => rcases kw with ⟨_, _, _, _, _, _, _, _, _, _ | o, _, _⟩ <;> norm_num [lit_real] <;> exact HEq.rfl
    all_goals norm_num [lit_real, nat_real]
  unfold construct
  rw [hb, hm]
  simp only [he]
  rfl

/-- C92: the same for the two entry points, for a model name which denotes the class `t`. -/
theorem C92_entry_points (env : Env ℝ) {upper : String → String} (hu : UpperOk upper) (name : String) (t : Tag) (ht : upper name = t.key) (kw : Kwargs ℝ) (d : List ℝ)
    (x : List (List ℝ)) (cols : ℕ) :
    adaptiveFilter env upper name kw = adaptiveFilter env upper name (writtenOut t kw) ∧
    filterData env upper d x cols name kw = filterData env upper d x cols name (writtenOut t kw) := by
  have hd := (lookup_iff hu name t).mpr ht
  constructor
  · unfold adaptiveFilter
    simp only [hd]
    rw [C92_construct env t kw]
    rfl
  · unfold filterData
    simp only [hd]
    rw [C92_construct env t { kw with n := some cols }]
    rfl

/-- a call with defaults which succeeds -/
example : ∃ f, construct ⟨fun _ _ => 0, fun _ _ _ => .error .linAlgError⟩ .nlms ({ n := some 3 } : Kwargs ℝ) = .ok f ∧ f.n = 3 ∧ f.obj.core.mu = 0.1 :=
  ⟨_, rfl, rfl, by show (lit 1 10 : ℝ) = 0.1; norm_num [lit_real]⟩

/-! ## C93 -/

section c93
variable {K : Type} [Scalar K] {n : ℕ}

/-- `run` on rows of the right width when the first iteration raises -/
theorem run_first_raises {C : FilterClass K n} (o : Obj C) (d0 : K) (dt : List K) (x0 : List K) (t : List (List K)) (hlen : dt.length = t.length)
    (h0 : x0.length = n) (hu : ∀ r ∈ t, r.length = n) {e : Err} {s' : Core K n C.Ext} (hb : C.body d0 x0 (o.core.withN n) = (.error e, s')) :
    (run C (d0 :: dt) (x0 :: t) o).1 = .error e ∧ (run C (d0 :: dt) (x0 :: t) o).2.core = s' := by
  have hany : (x0 :: t).any (fun r => decide (r.length ≠ x0.length)) = false := by
    rw [List.any_eq_false]
    intro r hr
    rcases List.mem_cons.mp hr with rfl | hr
    · simp
    · simp [hu r hr, h0]
  rw [run_cons, if_neg (by simpa using hlen), hany, if_neg (by simp), h0]
  have hrow : bcast n (List.ofFn o.core.w) = .ok (List.ofFn o.core.w) := by simp [bcast]
  have hw : ∀ H, histWrite (C := C) 0 ⟨o.core.withN n, H⟩ = (.ok (), ⟨o.core.withN n, H.set 0 (List.ofFn o.core.w)⟩) := by
    intro H
    simp [histWrite, hrow]
  have hl : ∀ H, Obj.liftM (C.body d0 x0) (⟨o.core.withN n, H⟩ : Obj C) = (.error e, ⟨s', H⟩) := by
    intro H
    simp [Obj.liftM, hb]
  rw [List.zip_cons_cons, M.bind_error]
  rotate_left
  · simp only [runLoop]
    rw [M.bind_ok (hw _), M.bind_error (hl _)]
  exact ⟨rfl, rfl⟩

/-- C93: an AP filter of order 0 can be created (`C93_accepted`) and predicts, but every `adapt`, whatever its arguments, and every `run` on at least one sample of the right
width raises `IndexError` and leaves the weights as they are. -/
theorem C93_ap_order_zero (solve : Solver K) (o : Obj (ap K n solve 0)) :
    (∀ d x, (adapt (ap K n solve 0) d x o).1 = .error .indexError ∧ (adapt (ap K n solve 0) d x o).2.core.w = o.core.w) ∧
    (∀ d0 dt x0 t, dt.length = t.length → (∀ r ∈ x0 :: t, r.length = n) →
      (run (ap K n solve 0) (d0 :: dt) (x0 :: t) o).1 = .error .indexError ∧ (run (ap K n solve 0) (d0 :: dt) (x0 :: t) o).2.core.w = o.core.w) ∧
    ∀ x : Vec K n, predict (ap K n solve 0) (List.ofFn x) o = (.ok (dot o.core.w x), o) := by
  let sh : Core K n (ApExt K n 0) → Core K n (ApExt K n 0) := fun s => { s with ext := { s.ext with xMem := shiftCols s.ext.xMem } }
  have push : ∀ (d : K) (x : List K) (s : Core K n (ApExt K n 0)), apPush d x s = (.error .indexError, sh s) := fun d x s => rfl
  refine ⟨fun d x => ?_, fun d0 dt x0 t hl hr => ?_, fun x => ?_⟩
  · have h : apAdapt solve d x o.core = (.error .indexError, sh o.core) := M.bind_error (push d x _)
    have h2 : adapt (ap K n solve 0) d x o = _ := liftM_eq (C := ap K n solve 0) h
    rw [h2]
    exact ⟨rfl, rfl⟩
  · have hb : (ap K n solve 0).body d0 x0 (o.core.withN n) = (.error .indexError, sh (o.core.withN n)) := by
      simp only [ap, lt_irrefl, dite_false]
      exact M.bind_error (push d0 x0 _)
    obtain ⟨r1, r2⟩ := run_first_raises o d0 dt x0 t hl (hr x0 (by simp)) (fun r h => hr r (by simp [h])) hb
    exact ⟨r1, by rw [r2]; rfl⟩
  · have : basePredict (List.ofFn x) o.core = (.ok (dot o.core.w x), o.core) := by simp [basePredict]
    exact liftM_ok (C := ap K n solve 0) this

/-- C93: with `mem=0` the methods `update_memory_x` and `update_memory_d`, called directly, raise `IndexError` too and change nothing. -/
theorem C93_memory_methods (s : Core K n (OcExt K n)) (q : OcExt K n) (hs : s.ext = ocClear 0 q) (x : Vec K n) (d : K) :
    ocUpdateX x s = (.error .indexError, s) ∧ ocUpdateD d s = (.error .indexError, s) := by
  obtain ⟨w, na, mu, ext⟩ := s
  obtain rfl : ext = ocClear 0 q := hs
  constructor <;> simp [ocUpdateX, ocUpdateD, ocClear]

/-- C40: on a filter with a non-empty memory the direct call `update_memory_x(x)` replaces the row at the current index, and
`update_memory_d(d)` the target at the index before it (cyclically); nothing else changes. -/
theorem C40_update_memory (s : Core K n (OcExt K n)) (m : ℕ) (hx : s.ext.memX.length = m + 1) (hd : s.ext.memD.length = m + 1)
    (hi : s.ext.memIdx ≤ m) (x : Vec K n) (d : K) :
    (∃ X, ocUpdateX x s = (.ok (), { s with ext := { s.ext with memX := X } }) ∧ X.length = m + 1 ∧
      ∀ j, X[j]? = if j = s.ext.memIdx then some x else s.ext.memX[j]?) ∧
    ∃ D, ocUpdateD d s = (.ok (), { s with ext := { s.ext with memD := D } }) ∧ D.length = m + 1 ∧
      ∀ j, j ≤ m → D[j]? = if (j + 1) % (m + 1) = s.ext.memIdx then some d else s.ext.memD[j]? := by
  constructor
  · refine ⟨s.ext.memX.set s.ext.memIdx x, ?_, by simpa using hx, fun j => ?_⟩
    · simp [ocUpdateX, hx, Nat.lt_succ_of_le hi]
    · rw [List.getElem?_set]
      by_cases h : s.ext.memIdx = j
      · subst h
        simp [hx, Nat.lt_succ_of_le hi]
      · rw [if_neg h, if_neg (Ne.symm h)]
  · refine ⟨s.ext.memD.set (if s.ext.memIdx = 0 then s.ext.memD.length - 1 else s.ext.memIdx - 1) d, ?_, by simpa using hd, fun j hj => ?_⟩
    · simp only [ocUpdateD, M.get_bind, hd, Nat.add_one_ne_zero, if_false]
      rfl
    · rw [List.getElem?_set, hd]
      have hiff : (if s.ext.memIdx = 0 then m + 1 - 1 else s.ext.memIdx - 1) = j ↔ (j + 1) % (m + 1) = s.ext.memIdx := by
        by_cases hjm : j = m
        · subst hjm
          rw [Nat.mod_self]
          split <;> omega
        · rw [Nat.mod_eq_of_lt (by omega)]
          split <;> omega
      by_cases h : (if s.ext.memIdx = 0 then m + 1 - 1 else s.ext.memIdx - 1) = j
      · rw [if_pos h, if_pos (hiff.mp h), if_pos (by omega)]
      · rw [if_neg h, if_neg (fun h' => h (hiff.mpr h'))]

/-- the hypotheses of C93 and C40 on the memory: empty, or with two rows and the index at the last -/
example : (∃ (s : Core ℚ 3 (OcExt ℚ 3)) (q : OcExt ℚ 3), s.ext = ocClear 0 q ∧ s.nAttr = 3) ∧
    ∃ s : Core ℚ 3 (OcExt ℚ 3), s.ext.memX.length = 1 + 1 ∧ s.ext.memD.length = 1 + 1 ∧ s.ext.memIdx ≤ 1 :=
  ⟨⟨⟨fun _ => 0, 3, 1, ocClear 0 ⟨1, true, [], [], 0⟩⟩, ⟨1, true, [], [], 0⟩, rfl, rfl⟩,
    ⟨⟨fun _ => 1, 3, 1 / 10, ⟨1, false, [fun _ => 1, fun _ => 2], [1, 2], 1⟩⟩, rfl, rfl, le_refl _⟩⟩

/-- C93: an OCNLMS filter with `mem=0` can be created and predicts once, but the second `predict`, every `adapt` and every `run` on at least one sample of the right width raises
`IndexError`; the weights stay as they are. -/
theorem C93_ocnlms_mem_zero (o : Obj (ocnlms K n)) (q : OcExt K n) (ho : o.core.ext = ocClear 0 q) (hn : o.core.nAttr = n) :
    (∀ x : Vec K n, (predict (ocnlms K n) (List.ofFn x) o).1 = .ok (dot o.core.w (fun i => x i - 0) + 0) ∧
      ∀ x' : List K, (predict (ocnlms K n) x' (predict (ocnlms K n) (List.ofFn x) o).2).1 = .error .indexError) ∧
    (∀ d (x : Vec K n), (adapt (ocnlms K n) d (List.ofFn x) o).1 = .error .indexError ∧ (adapt (ocnlms K n) d (List.ofFn x) o).2.core.w = o.core.w) ∧
    ∀ d0 dt x0 t, dt.length = t.length → (∀ r ∈ x0 :: t, r.length = n) →
      (run (ocnlms K n) (d0 :: dt) (x0 :: t) o).1 = .error .indexError ∧ (run (ocnlms K n) (d0 :: dt) (x0 :: t) o).2.core.w = o.core.w := by
  obtain ⟨⟨w, na, mu, ext⟩, hist⟩ := o
  obtain rfl : na = n := hn
  obtain rfl : ext = ocClear 0 q := ho
  have hp : ∀ x : Vec K na, ocPredict (List.ofFn x) (⟨w, na, mu, ocClear 0 q⟩ : Core K na (OcExt K na))
      = (.ok (dot w (fun i => x i - 0) + 0), ⟨w, na, mu, { ocClear 0 q with memEmpty := false }⟩) := by
    intro x
    have hr : ocRead (⟨w, na, mu, ocClear 0 q⟩ : Core K na (OcExt K na))
        = (.ok (0, List.ofFn (n := na) fun _ => (0 : K)), ⟨w, na, mu, { ocClear 0 q with memEmpty := false }⟩) := by
      have : List.replicate na (0 : K) = List.ofFn (n := na) fun _ => (0 : K) := (List.ofFn_const na 0).symm
      rw [← this]
      simp [ocRead, ocCenter, ocCenterD, ocClear, ocAdvance]
    rw [ocPredict, M.bind_ok hr]
    simp only [bsub_ofFn, M.lift_ok_bind, asVec_ofFn, M.get_bind]
    rfl
  have hrule : ∀ (e : K) (x : Vec K na), ocRule e (List.ofFn x) (⟨w, na, mu, { ocClear 0 q with memEmpty := false }⟩ : Core K na (OcExt K na))
      = (.error .indexError, ⟨w, na, mu, { ocClear 0 q with memEmpty := false }⟩) := by
    intro e x
    have hu : ocUpdateX x (⟨w, na, mu, { ocClear 0 q with memEmpty := false }⟩ : Core K na (OcExt K na)) = (.error .indexError, ⟨w, na, mu, { ocClear 0 q with memEmpty := false }⟩) := by
      simp [ocUpdateX, ocClear]
    simp only [ocRule, bcastVec_ofFn, M.lift_ok_bind]
    rw [M.bind_error hu]
  refine ⟨fun x => ⟨?_, fun x' => ?_⟩, fun d x => ?_, fun d0 dt x0 t hl hr => ?_⟩
  · have h2 : predict (ocnlms K na) (List.ofFn x) ⟨⟨w, na, mu, ocClear 0 q⟩, hist⟩ = _ := liftM_eq (C := ocnlms K na) (hp x)
    rw [h2]
  · have h2 : predict (ocnlms K na) (List.ofFn x) ⟨⟨w, na, mu, ocClear 0 q⟩, hist⟩ = _ := liftM_eq (C := ocnlms K na) (hp x)
    rw [h2]
    have h3 : ocPredict x' (⟨w, na, mu, { ocClear 0 q with memEmpty := false }⟩ : Core K na (OcExt K na)) = (.error .indexError, ⟨w, na, mu, { ocClear 0 q with memEmpty := false }⟩) := by
      have hr : ocRead (⟨w, na, mu, { ocClear 0 q with memEmpty := false }⟩ : Core K na (OcExt K na)) = (.error .indexError, ⟨w, na, mu, { ocClear 0 q with memEmpty := false }⟩) := by
        simp [ocRead, ocCenterD, ocClear]
      rw [ocPredict, M.bind_error hr]
    have h4 : predict (ocnlms K na) x' ⟨⟨w, na, mu, { ocClear 0 q with memEmpty := false }⟩, hist⟩ = _ := liftM_eq (C := ocnlms K na) h3
    exact congrArg Prod.fst h4
  · have h : baseAdapt ocPredict ocRule d (List.ofFn x) (⟨w, na, mu, ocClear 0 q⟩ : Core K na (OcExt K na)) = (.error .indexError, ⟨w, na, mu, { ocClear 0 q with memEmpty := false }⟩) := by
      rw [baseAdapt, M.bind_ok (hp x), M.bind_error (hrule _ x)]
    have h2 : adapt (ocnlms K na) d (List.ofFn x) ⟨⟨w, na, mu, ocClear 0 q⟩, hist⟩ = _ := liftM_eq (C := ocnlms K na) h
    rw [h2]
    exact ⟨rfl, rfl⟩
  · have h0 := hr x0 (by simp)
    obtain ⟨x, rfl⟩ : ∃ x : Vec K na, x0 = List.ofFn x := ⟨fun i => x0[i.val]'(by omega), by apply List.ext_getElem <;> simp [h0]⟩
    have hb : (ocnlms K na).body d0 (List.ofFn x) ((⟨w, na, mu, ocClear 0 q⟩ : Core K na (OcExt K na)).withN na) = (.error .indexError, ⟨w, na, mu, { ocClear 0 q with memEmpty := false }⟩) := by
      show baseBody ocPredict ocRule d0 (List.ofFn x) (⟨w, na, mu, ocClear 0 q⟩ : Core K na (OcExt K na)) = _
      rw [baseBody, M.bind_ok (hp x), M.bind_error (hrule _ x)]
      rfl
    obtain ⟨r1, r2⟩ := run_first_raises (C := ocnlms K na) ⟨⟨w, na, mu, ocClear 0 q⟩, hist⟩ d0 dt _ t hl h0 (fun r h => hr r (by simp [h])) hb
    exact ⟨r1, by rw [r2]⟩

/-- C93: both are accepted by the constructors. -/
theorem C93_accepted {K : Type} [Transc K] (env : Env K) (n : ℕ) (mu : K) :
    (∃ o, construct env .ap ({ n := some n, mu := some mu, order := some 0 } : Kwargs K) = .ok ⟨n, .ap 0, o⟩) ∧
    ∃ o : Obj (ocnlms K n), construct env .ocnlms ({ n := some n, mu := some mu, mem := some 0 } : Kwargs K) = .ok ⟨n, .ocnlms, o⟩ ∧
      (∃ q : OcExt K n, o.core.ext = ocClear 0 q) ∧ o.core.nAttr = n := by
  have hw : (initWeights env.rand 0 (.str "random") (n : Int)).bind (asVec n) = .ok (env.rand n) := by
    have h : ¬ ((n : Int) = -1) := by omega
    have h' : ¬ ((n : Int) < 0) := by omega
    simp [initWeights, Except.bind, h, h']
  constructor
  · simp [construct, badKeyword, hw, initExt]
  · refine ⟨⟨⟨env.rand n, n, mu, ocClear 0 (⟨lit 1 1, true, [], [], 0⟩ : OcExt K n)⟩, []⟩, ?_, ⟨_, rfl⟩, rfl⟩
    simp [construct, badKeyword, hw, initExt]
    rfl

end c93

end Padasip
