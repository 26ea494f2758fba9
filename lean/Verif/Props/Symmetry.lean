import Verif.Lemmas.Hom
import Verif.Spec.Example
import Verif.Props.Fixpoint
import Verif.Lemmas.Gram

/-!
# C35, C36: sign symmetry and permutation of the inputs
-/

set_option linter.unusedSectionVars false
set_option linter.unusedSimpArgs false

namespace Padasip

open Finset

/-! ## C35 -/

section neg
variable {K : Type} [Field K] [LinearOrder K] [IsStrictOrderedRing K] {n : ℕ}

/-- the vector with all signs changed -/
def negV {m : ℕ} (v : Vec K m) : Vec K m := fun i => -v i

theorem negV_surj (v : Vec K n) : ∃ u, negV u = v := ⟨negV v, by funext i; simp [negV]⟩
theorem neg_surj (d : K) : ∃ a, -a = d := ⟨-d, neg_neg d⟩

theorem dot_negV_left (u v : Vec K n) : dot (negV u) v = -dot u v := by
  simp [dot_eq, negV]
theorem dot_negV_right (u v : Vec K n) : dot u (negV v) = -dot u v := by
  simp [dot_eq, negV]
theorem sgn_neg (a : K) : Scalar.sgn (-a) = -Scalar.sgn a := by
  simp only [sgn_eq, Left.sign_neg]
  cases SignType.sign a <;> simp

theorem err_neg (d : K) (w x : Vec K n) : -d - -dot w x = -(d - dot w x) := by ring

/-- same extra attributes, weights negated -/
def negW {X : Type} (s : Core K n X) : Core K n X := { s with w := negV s.w }

theorem neg_lms : BodyHom (lms K n) (lms K n) (fun _ => True) negW Neg.neg Neg.neg id negV where
  dSurj := neg_surj
  xSurj x := ⟨x, rfl⟩
  withN _ _ := rfl
  pWithN _ _ h := h
  nAttr _ := rfl
  w _ := rfl
  body s hs hn d x := by
    refine ⟨_, _, _, lms_body s d x, trivial, hn, ?_⟩
    refine (lms_body (negW s) _ _).trans ?_
    simp only [negW, dot_negV_left, err_neg, id]
    congr 2; funext i; simp only [negV]; ring

theorem neg_lmf : BodyHom (lmf K n) (lmf K n) (fun _ => True) negW Neg.neg Neg.neg id negV where
  dSurj := neg_surj
  xSurj x := ⟨x, rfl⟩
  withN _ _ := rfl
  pWithN _ _ h := h
  nAttr _ := rfl
  w _ := rfl
  body s hs hn d x := by
    refine ⟨_, _, _, lmf_body s d x, trivial, hn, ?_⟩
    refine (lmf_body (negW s) _ _).trans ?_
    simp only [negW, dot_negV_left, err_neg, id]
    congr 2; funext i; simp only [negV]; ring

theorem neg_nlms : BodyHom (nlms K n) (nlms K n) (fun _ => True) negW Neg.neg Neg.neg id negV where
  dSurj := neg_surj
  xSurj x := ⟨x, rfl⟩
  withN _ _ := rfl
  pWithN _ _ h := h
  nAttr _ := rfl
  w _ := rfl
  body s hs hn d x := by
    refine ⟨_, _, _, nlms_body s d x, trivial, hn, ?_⟩
    refine (nlms_body (negW s) _ _).trans ?_
    simp only [negW, dot_negV_left, err_neg, id]
    congr 2; funext i; simp only [negV]; ring

theorem neg_nlmf : BodyHom (nlmf K n) (nlmf K n) (fun _ => True) negW Neg.neg Neg.neg id negV where
  dSurj := neg_surj
  xSurj x := ⟨x, rfl⟩
  withN _ _ := rfl
  pWithN _ _ h := h
  nAttr _ := rfl
  w _ := rfl
  body s hs hn d x := by
    refine ⟨_, _, _, nlmf_body s d x, trivial, hn, ?_⟩
    refine (nlmf_body (negW s) _ _).trans ?_
    simp only [negW, dot_negV_left, err_neg, id]
    congr 2; funext i; simp only [negV]; ring

theorem neg_sslms : BodyHom (sslms K n) (sslms K n) (fun _ => True) negW Neg.neg Neg.neg id negV where
  dSurj := neg_surj
  xSurj x := ⟨x, rfl⟩
  withN _ _ := rfl
  pWithN _ _ h := h
  nAttr _ := rfl
  w _ := rfl
  body s hs hn d x := by
    refine ⟨_, _, _, sslms_body s d x, trivial, hn, ?_⟩
    refine (sslms_body (negW s) _ _).trans ?_
    simp only [negW, dot_negV_left, err_neg, id, sgn_neg]
    congr 2; funext i; simp only [negV]; ring

theorem neg_nsslms : BodyHom (nsslms K n) (nsslms K n) (fun _ => True) negW Neg.neg Neg.neg id negV where
  dSurj := neg_surj
  xSurj x := ⟨x, rfl⟩
  withN _ _ := rfl
  pWithN _ _ h := h
  nAttr _ := rfl
  w _ := rfl
  body s hs hn d x := by
    refine ⟨_, _, _, nsslms_body s d x, trivial, hn, ?_⟩
    refine (nsslms_body (negW s) _ _).trans ?_
    simp only [negW, dot_negV_left, err_neg, id, sgn_neg]
    congr 2; funext i; simp only [negV]; ring

/-- GNGD: the remembered error is negated as well -/
def negGngd (s : Core K n (GngdExt K n)) : Core K n (GngdExt K n) :=
  { s with w := negV s.w, ext := { s.ext with lastE := -s.ext.lastE } }

theorem gngdEps_neg (s : Core K n (GngdExt K n)) (e : K) (x : Vec K n) :
    gngdEps (negGngd s) (-e) x = gngdEps s e x := by
  simp only [gngdEps, negGngd]; ring

theorem neg_gngd : BodyHom (gngd K n) (gngd K n) (fun _ => True) negGngd Neg.neg Neg.neg id negV where
  dSurj := neg_surj
  xSurj x := ⟨x, rfl⟩
  withN _ _ := rfl
  pWithN _ _ h := h
  nAttr _ := rfl
  w _ := rfl
  body := fun (s : Core K n (GngdExt K n)) hs hn d x => by
    refine ⟨_, _, _, gngd_body s d x, trivial, hn, ?_⟩
    refine (gngd_body (negGngd s) _ _).trans ?_
    have h1 : dot (negGngd s).w (id x) = -dot s.w x := dot_negV_left _ _
    rw [h1, err_neg, id, gngdEps_neg]
    simp only [negGngd]
    congr 2; funext i; simp only [negV]; ring

/-- Mathews: the remembered error is negated as well -/
def negMathews (s : Core K n (MathewsExt K n)) : Core K n (MathewsExt K n) :=
  { s with w := negV s.w, ext := { s.ext with lastE := -s.ext.lastE } }

theorem mathewsMu_neg (s : Core K n (MathewsExt K n)) (e : K) (x : Vec K n) :
    mathewsMu (negMathews s) (-e) x = mathewsMu s e x := by
  simp only [mathewsMu, negMathews]; ring

theorem neg_mathews :
    BodyHom (mathews K n) (mathews K n) (fun _ => True) negMathews Neg.neg Neg.neg id negV where
  dSurj := neg_surj
  xSurj x := ⟨x, rfl⟩
  withN _ _ := rfl
  pWithN _ _ h := h
  nAttr _ := rfl
  w _ := rfl
  body := fun (s : Core K n (MathewsExt K n)) hs hn d x => by
    refine ⟨_, _, _, mathews_body s d x, trivial, hn, ?_⟩
    refine (mathews_body (negMathews s) _ _).trans ?_
    have h1 : dot (negMathews s).w (id x) = -dot s.w x := dot_negV_left _ _
    rw [h1, err_neg, id, mathewsMu_neg]
    simp only [negMathews]
    congr 2; funext i; simp only [negV]; ring

/-- Ang: the remembered error and gradient are negated as well -/
def negAng (s : Core K n (AngExt K n)) : Core K n (AngExt K n) :=
  { s with w := negV s.w, ext := { s.ext with lastE := -s.ext.lastE, lastFi := negV s.ext.lastFi } }

theorem angFi_neg (s : Core K n (AngExt K n)) : angFi (negAng s) = negV (angFi s) := by
  funext i; simp only [angFi, negAng, negV]; ring

theorem angMu_neg (s : Core K n (AngExt K n)) (e : K) : angMu (negAng s) (-e) = angMu s e := by
  unfold angMu
  rw [angFi_neg, dot_negV_right]
  simp only [negAng]; ring

theorem neg_ang : BodyHom (ang K n) (ang K n) (fun _ => True) negAng Neg.neg Neg.neg id negV where
  dSurj := neg_surj
  xSurj x := ⟨x, rfl⟩
  withN _ _ := rfl
  pWithN _ _ h := h
  nAttr _ := rfl
  w _ := rfl
  body := fun (s : Core K n (AngExt K n)) hs hn d x => by
    refine ⟨_, _, _, ang_body s d x, trivial, hn, ?_⟩
    refine (ang_body (negAng s) _ _).trans ?_
    have h1 : dot (negAng s).w (id x) = -dot s.w x := dot_negV_left _ _
    rw [h1, err_neg, id, angMu_neg, angFi_neg]
    simp only [negAng]
    congr 2; funext i; simp only [negV]; ring

/-- Benveniste: the remembered error and gradient are negated as well -/
def negBen (s : Core K n (BenExt K n)) : Core K n (BenExt K n) :=
  { s with w := negV s.w, ext := { s.ext with lastE := -s.ext.lastE, lastFi := negV s.ext.lastFi } }

theorem benFi_neg (s : Core K n (BenExt K n)) : benFi (negBen s) = negV (benFi s) := by
  funext i
  simp only [benFi, negBen, matVec_eq, negV, mul_neg, sum_neg_distrib]; ring

theorem benMu_neg (s : Core K n (BenExt K n)) (e : K) : benMu (negBen s) (-e) = benMu s e := by
  unfold benMu
  rw [benFi_neg, dot_negV_right]
  simp only [negBen]; ring

theorem neg_benveniste :
    BodyHom (benveniste K n) (benveniste K n) (fun _ => True) negBen Neg.neg Neg.neg id negV where
  dSurj := neg_surj
  xSurj x := ⟨x, rfl⟩
  withN _ _ := rfl
  pWithN _ _ h := h
  nAttr _ := rfl
  w _ := rfl
  body := fun (s : Core K n (BenExt K n)) hs hn d x => by
    refine ⟨_, _, _, benveniste_body s hn d x, trivial, hn, ?_⟩
    refine (benveniste_body (negBen s) hn _ _).trans ?_
    have h1 : dot (negBen s).w (id x) = -dot s.w x := dot_negV_left _ _
    rw [h1, err_neg, id, benMu_neg, benFi_neg]
    simp only [negBen]
    congr 2; funext i; simp only [negV]; ring

theorem neg_rls : BodyHom (rls K n) (rls K n) (fun s => Scalar.eqz s.mu = false) negW Neg.neg Neg.neg id negV where
  dSurj := neg_surj
  xSurj x := ⟨x, rfl⟩
  withN _ _ := rfl
  pWithN _ _ h := h
  nAttr _ := rfl
  w _ := rfl
  body := fun (s : Core K n (RlsExt K n)) hs hn d x => by
    refine ⟨_, _, _, rls_body s hs d x, hs, hn, ?_⟩
    refine (rls_body (negW s) hs _ _).trans ?_
    simp only [negW, dot_negV_left, err_neg, id]
    congr 2; funext i; simp only [negV]; ring

/-- OCNLMS: the remembered targets are negated as well -/
def negOcExt (q : OcExt K n) : OcExt K n := { q with memD := q.memD.map Neg.neg }
/-- OCNLMS: the remembered targets are negated as well -/
def negOc (s : Core K n (OcExt K n)) : Core K n (OcExt K n) :=
  { s with w := negV s.w, ext := negOcExt s.ext }

theorem meanL_neg (l : List K) : meanL (l.map Neg.neg) = -meanL l := by
  unfold meanL
  have : (l.map Neg.neg).sum = -l.sum := by
    induction l with
    | nil => exact neg_zero.symm
    | cons a t ih => rw [List.map_cons, List.sum_cons, List.sum_cons, ih]; exact (neg_add a t.sum).symm
  rw [this, List.length_map, neg_div]

theorem ocMd_neg (q : OcExt K n) : ocMd (negOcExt q) = -ocMd q := by
  unfold ocMd ocCenterD negOcExt
  simp only [List.length_map]
  split_ifs <;> simp [← List.map_take, meanL_neg, List.eraseIdx_map]

theorem ocAdvance_neg (q : OcExt K n) : ocAdvance (negOcExt q) = negOcExt (ocAdvance q) := by
  unfold ocAdvance negOcExt
  simp only
  split_ifs <;> rfl

theorem ocStoreX_neg (q : OcExt K n) (x : Vec K n) : ocStoreX (negOcExt q) x = negOcExt (ocStoreX q x) := rfl

theorem ocStoreD_neg (q : OcExt K n) (a : K) : ocStoreD (negOcExt q) (-a) = negOcExt (ocStoreD q a) := by
  unfold ocStoreD negOcExt
  simp only [List.length_map, List.map_set]

theorem ocMx_neg (q : OcExt K n) : ocMx (negOcExt q) = ocMx q := rfl

theorem OcOk_neg {q : OcExt K n} (h : OcOk q) : OcOk (negOcExt q) := by
  simpa [OcOk, negOcExt] using h

theorem ocY_neg (s : Core K n (OcExt K n)) (x : Vec K n) : ocY (negOc s) x = -ocY s x := by
  unfold ocY
  have : (negOc s).ext = negOcExt s.ext := rfl
  have h2 : (negOc s).w = negV s.w := rfl
  rw [this, h2, ocMx_neg, ocMd_neg, dot_negV_left]; ring

theorem neg_ocnlms : BodyHom (ocnlms K n) (ocnlms K n) (fun s : Core K n (OcExt K n) => OcOk s.ext) negOc
    Neg.neg Neg.neg id negV where
  dSurj := neg_surj
  xSurj x := ⟨x, rfl⟩
  withN _ _ := rfl
  pWithN _ _ h := h
  nAttr _ := rfl
  w _ := rfl
  body := fun (s : Core K n (OcExt K n)) hs hn d x => by
    refine ⟨_, _, _, oc_body hs hn d x,
      OcOk_storeD (OcOk_advance (OcOk_storeX (OcOk_advance hs) x)) _, hn, ?_⟩
    refine (oc_body (s := negOc s) (OcOk_neg hs) hn _ _).trans ?_
    have e1 : (negOc s).ext = negOcExt s.ext := rfl
    have e2 : (negOc s).w = negV s.w := rfl
    simp only [id, ocY_neg, e1, e2, ocAdvance_neg, ocStoreX_neg, ocMx_neg, ocMd_neg, dot_negV_left]
    have e3 : -d - -ocY s x = -(d - ocY s x) := by ring
    rw [e3]
    have e4 : ∀ a b c : K, -a + (-b + -c) = -(a + (b + c)) := by intros; ring
    rw [e4, ocStoreD_neg]
    simp only [negOc]
    congr 2; funext i; simp only [negV, negOcExt]; ring

/-- AP: the remembered targets, outputs and errors are negated as well -/
def negAp {order : ℕ} (s : Core K n (ApExt K n order)) : Core K n (ApExt K n order) :=
  { s with w := negV s.w, ext := { s.ext with
    dMem := negV s.ext.dMem, yMem := negV s.ext.yMem, eMem := negV s.ext.eMem } }

theorem neg_ap (solve : Solver K) {order : ℕ} (ho : 0 < order) (c : K)
    (hs : ∀ X : Mat K n order, ∃ P, solve order (apGram c X) (eye order) = .ok P) :
    BodyHom (ap K n solve order) (ap K n solve order) (fun s : Core K n (ApExt K n order) => s.ext.ifc = c)
      negAp Neg.neg Neg.neg id negV where
  dSurj := neg_surj
  xSurj x := ⟨x, rfl⟩
  withN _ _ := rfl
  pWithN _ _ h := h
  nAttr _ := rfl
  w _ := rfl
  body := fun (s : Core K n (ApExt K n order)) h hn d x => by
    subst h
    obtain ⟨P, hP⟩ := hs (apX s x)
    refine ⟨_, _, _, ap_body solve ho s d x P hP, rfl, hn, ?_⟩
    refine (ap_body solve ho (negAp s) (-d) x P hP).trans ?_
    have e1 : apX (negAp s) x = apX s x := rfl
    have e2 : apD (negAp s) (-d) = negV (apD s d) := by
      funext j
      simp only [apD, negAp, negV, shiftVec]
      split_ifs <;> rfl
    have e3 : apY (negAp s) x = negV (apY s x) := by
      funext j
      exact dot_negV_right _ _
    have e4 : apE (negAp s) (-d) x = negV (apE s d x) := by
      funext j
      simp only [apE, e2, e3, negV]; ring
    have e5 : ∀ v : Vec K order, matVec P (negV v) = negV (matVec P v) := by
      intro v; funext j; exact dot_negV_right _ _
    simp only [e1, e2, e3, e4, e5, dot_negV_right]
    simp only [negAp]
    congr 2; funext i; simp only [negV]; ring

end neg

section negReal
variable {n : ℕ}

theorem negV0 {m : ℕ} : negV (zeros m : Vec ℝ m) = zeros m := by
  funext i; simp [negV, zeros]

theorem neg_zeroR : -(Zero.zero : ℝ) = Zero.zero := neg_zero

theorem negGngd_init (w : Vec ℝ n) (mu eps ro : ℝ) :
    negGngd ⟨w, n, mu, ⟨eps, ro, 0, zeros n⟩⟩ = ⟨negV w, n, mu, ⟨eps, ro, 0, zeros n⟩⟩ := by
  simp [negGngd]

theorem negMathews_init (w : Vec ℝ n) (mu ro : ℝ) :
    negMathews ⟨w, n, mu, ⟨ro, 0, zeros n, mu⟩⟩ = ⟨negV w, n, mu, ⟨ro, 0, zeros n, mu⟩⟩ := by
  simp [negMathews]

theorem negAng_init (w : Vec ℝ n) (mu ro a : ℝ) :
    negAng ⟨w, n, mu, ⟨ro, a, 0, zeros n, zeros n, mu⟩⟩
      = ⟨negV w, n, mu, ⟨ro, a, 0, zeros n, zeros n, mu⟩⟩ := by
  simp [negAng, negV0]

theorem negBen_init (w : Vec ℝ n) (mu ro : ℝ) :
    negBen ⟨w, n, mu, ⟨ro, 0, zeros n, zeros n, mu⟩⟩
      = ⟨negV w, n, mu, ⟨ro, 0, zeros n, zeros n, mu⟩⟩ := by
  simp [negBen, negV0]

theorem neg_zero0 : -(0 : ℝ) = 0 := neg_zero

theorem abs_negR (a : ℝ) : Scalar.abs (-a) = Scalar.abs a := abs_neg a
theorem tanh_negR (a : ℝ) : Transc.tanh (-a) = -Transc.tanh a := Real.tanh_neg a

theorem neg_gmcc : BodyHom (gmcc ℝ n) (gmcc ℝ n) (fun _ => True) negW Neg.neg Neg.neg id negV where
  dSurj := neg_surj
  xSurj x := ⟨x, rfl⟩
  withN _ _ := rfl
  pWithN _ _ h := h
  nAttr _ := rfl
  w _ := rfl
  body := fun (s : Core ℝ n (GmccExt ℝ)) _ hn d x => by
    refine ⟨_, _, _, gmcc_body s d x, trivial, hn, ?_⟩
    refine (gmcc_body (negW s) _ _).trans ?_
    have h1 : dot (negW s).w (id x) = -dot s.w x := dot_negV_left _ _
    have h2 : -d - -dot s.w x = -(d - dot s.w x) := by ring
    have h3 : Scalar.sgn (-(d - dot s.w x)) = -Scalar.sgn (d - dot s.w x) := sgn_neg _
    rw [h1, h2, abs_negR, h3]
    simp only [negW, id]
    congr 2; funext i; simp only [negV]; ring

theorem neg_llncosh : BodyHom (llncosh ℝ n) (llncosh ℝ n) (fun _ => True) negW Neg.neg Neg.neg id negV where
  dSurj := neg_surj
  xSurj x := ⟨x, rfl⟩
  withN _ _ := rfl
  pWithN _ _ h := h
  nAttr _ := rfl
  w _ := rfl
  body := fun (s : Core ℝ n (LlncoshExt ℝ)) _ hn d x => by
    refine ⟨_, _, _, llncosh_body s d x, trivial, hn, ?_⟩
    refine (llncosh_body (negW s) _ _).trans ?_
    have h1 : dot (negW s).w (id x) = -dot s.w x := dot_negV_left _ _
    have h2 : -d - -dot s.w x = -(d - dot s.w x) := by ring
    rw [h1, h2, mul_neg, tanh_negR]
    simp only [negW, id]
    congr 2; funext i; simp only [negV]; ring

theorem negOf {C : FilterClass ℝ n} {P : Core ℝ n C.Ext → Prop} {f : Core ℝ n C.Ext → Core ℝ n C.Ext}
    (h : BodyHom C C P f Neg.neg Neg.neg id negV) (s s' : Core ℝ n C.Ext) (hs : P s) (he : f s = s')
    (d : List ℝ) (x : List (List ℝ)) (hx : ∀ r ∈ x, r.length = n) :
    (run C (d.map Neg.neg) x ⟨s', []⟩).1 = (run C d x ⟨s, []⟩).1.map fun r =>
      (r.1.map Neg.neg, r.2.1.map Neg.neg, r.2.2.map (List.map Neg.neg)) := by
  have := h.run ⟨s, []⟩ hs [] d x hx id (List.map Neg.neg) (fun v => rfl)
    (fun v => by rw [List.map_ofFn]; rfl)
  rw [List.map_id] at this
  rw [← he]
  exact this

/-- C35: for every filter, `filter_data` with the desired signal and the initial weights negated returns exactly the negated outputs,
errors and weight history (and raises the same exception otherwise). -/
theorem C35_sign_symmetry (env : Env ℝ) (upper : String → String) (model : String) (kw : Kwargs ℝ)
    (hp : ∀ t, getFilter upper model = .ok t → ParamsOk env t kw) (w : Vec ℝ n) (d : List ℝ)
    (x : List (List ℝ)) (hx : ∀ r ∈ x, r.length = n) :
    filterData env upper (d.map Neg.neg) x n model
        { kw with w := some (.arr (List.ofFn fun i => -w i)) }
      = (filterData env upper d x n model { kw with w := some (.arr (List.ofFn w)) }).map fun r =>
          (r.1.map Neg.neg, r.2.1.map Neg.neg, r.2.2.map (List.map Neg.neg)) := by
  refine filterData_congr env upper model kw w (negV w) d (d.map Neg.neg) x x _ ?_
  intro t mu ht hmu
  have hp := hp t ht
  cases t
  case lms => exact negOf neg_lms _ _ trivial (by rfl) d x hx
  case lmf => exact negOf neg_lmf _ _ trivial (by rfl) d x hx
  case sslms => exact negOf neg_sslms _ _ trivial (by rfl) d x hx
  case nlms => exact negOf neg_nlms _ _ trivial (by rfl) d x hx
  case nlmf => exact negOf neg_nlmf _ _ trivial (by rfl) d x hx
  case nsslms => exact negOf neg_nsslms _ _ trivial (by rfl) d x hx
  case gmcc => exact negOf neg_gmcc _ _ trivial (by rfl) d x hx
  case llncosh => exact negOf neg_llncosh _ _ trivial (by rfl) d x hx
  case gngd => exact negOf neg_gngd _ _ trivial (negGngd_init _ _ _ _) d x hx
  case vslmsMathews => exact negOf neg_mathews _ _ trivial (negMathews_init _ _ _) d x hx
  case vslmsAng => exact negOf neg_ang _ _ trivial (negAng_init _ _ _ _) d x hx
  case vslmsBenveniste => exact negOf neg_benveniste _ _ trivial (negBen_init _ _ _) d x hx
  case rls =>
    simp only [runNew, initExt]
    cases hr : rlsInit (n := n) (kw.eps.getD (lit 1 1000)) with
    | error e => rfl
    | ok q => exact negOf neg_rls _ _ (hp.1 rfl mu hmu) (by rfl) d x hx
  case ocnlms =>
    refine negOf neg_ocnlms _ _ ?_ ?_ d x hx
    · have := hp.2.1 rfl
      exact ⟨by simp [ocClear], by simp [ocClear]; omega⟩
    · simp only [negOc, negOcExt, ocClear, List.map_replicate, neg_zero0]; rfl
  case ap =>
    obtain ⟨h1, h2⟩ := hp.2.2 rfl
    exact negOf (neg_ap env.solve h1 _ (h2 n)) _ _ rfl (by simp only [negAp, negV0]; rfl) d x hx

/-- the parameters are met by, for instance, `filter_data(d, x, "RLS", w=...)` with the default parameters -/
example : getFilter (fun s => s) "RLS" = .ok .rls ∧
    ∀ t, getFilter (fun s => s) "RLS" = .ok t → ParamsOk exEnv t ({} : Kwargs ℝ) := by
  have h : getFilter (fun s => s) "RLS" = .ok .rls := by decide +kernel
  refine ⟨h, fun t ht => ?_⟩
  obtain rfl : Tag.rls = t := by rw [h] at ht; exact Except.ok.inj ht
  refine ⟨fun _ m hm => ?_, fun h => (nomatch h), fun h => (nomatch h)⟩
  obtain rfl : (lit 1 10 : ℝ) = m := Option.some.inj hm
  show decide ((((1 : ℕ) : ℝ) / ((10 : ℕ) : ℝ)) = 0) = false
  norm_num

end negReal
end Padasip
