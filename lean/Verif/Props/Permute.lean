import Verif.Lemmas.Hom
import Verif.Lemmas.Field
import Verif.Spec.Example
import Verif.Spec.Ready

/-!
# C36: permuting the input columns
-/

set_option linter.unusedSectionVars false
set_option linter.unusedSimpArgs false

namespace Padasip

open Finset

/-- the row `r` with its entries rearranged: entry `i` of the result is entry `σ i` of `r` -/
def permRow {K : Type} [Zero K] {n : ℕ} (σ : Equiv.Perm (Fin n)) (r : List K) : List K :=
  List.ofFn fun i => r.getD (σ i).val 0

section perm
variable {K : Type} [Field K] [LinearOrder K] {n : ℕ} (σ : Equiv.Perm (Fin n))

/-- the vector with its entries rearranged -/
def permV {A : Type} (v : Fin n → A) : Fin n → A := fun i => v (σ i)

theorem permV_surj {A : Type} (v : Fin n → A) : ∃ u, permV σ u = v :=
  ⟨fun i => v (σ.symm i), by funext i; simp [permV]⟩

theorem permRow_ofFn (v : Vec K n) : permRow σ (List.ofFn v) = List.ofFn (permV σ v) := by
  unfold permRow permV
  congr 1; funext i
  simp [List.getD]

theorem sum_perm (f : Fin n → K) : ∑ i, f (σ i) = ∑ i, f i := Equiv.sum_comp σ f

theorem dot_perm (u v : Vec K n) : dot (permV σ u) (permV σ v) = dot u v := by
  simp only [dot_eq, permV]
  exact Equiv.sum_comp σ fun i => u i * v i

/-- the weights are rearranged, the other attributes are kept -/
def permW {X : Type} (s : Core K n X) : Core K n X := { s with w := permV σ s.w }

theorem perm_lms :
    BodyHom (lms K n) (lms K n) (fun _ => True) (permW σ) id id (permV σ) (permV σ) where
  dSurj d := ⟨d, rfl⟩
  xSurj := permV_surj σ
  withN _ _ := rfl
  pWithN _ _ h := h
  nAttr _ := rfl
  w _ := rfl
  body := fun (s : Core K n Unit) hs hn d x => by
    refine ⟨_, _, _, lms_body s d x, trivial, hn, ?_⟩
    refine (lms_body (permW σ s) _ _).trans ?_
    have h1 : dot (permW σ s).w (permV σ x) = dot s.w x := dot_perm σ _ _
    simp only [id, h1, dot_perm]
    rfl

theorem perm_lmf :
    BodyHom (lmf K n) (lmf K n) (fun _ => True) (permW σ) id id (permV σ) (permV σ) where
  dSurj d := ⟨d, rfl⟩
  xSurj := permV_surj σ
  withN _ _ := rfl
  pWithN _ _ h := h
  nAttr _ := rfl
  w _ := rfl
  body := fun (s : Core K n Unit) hs hn d x => by
    refine ⟨_, _, _, lmf_body s d x, trivial, hn, ?_⟩
    refine (lmf_body (permW σ s) _ _).trans ?_
    have h1 : dot (permW σ s).w (permV σ x) = dot s.w x := dot_perm σ _ _
    simp only [id, h1, dot_perm]
    rfl

theorem perm_sslms :
    BodyHom (sslms K n) (sslms K n) (fun _ => True) (permW σ) id id (permV σ) (permV σ) where
  dSurj d := ⟨d, rfl⟩
  xSurj := permV_surj σ
  withN _ _ := rfl
  pWithN _ _ h := h
  nAttr _ := rfl
  w _ := rfl
  body := fun (s : Core K n Unit) hs hn d x => by
    refine ⟨_, _, _, sslms_body s d x, trivial, hn, ?_⟩
    refine (sslms_body (permW σ s) _ _).trans ?_
    have h1 : dot (permW σ s).w (permV σ x) = dot s.w x := dot_perm σ _ _
    simp only [id, h1, dot_perm]
    rfl

theorem perm_nlms :
    BodyHom (nlms K n) (nlms K n) (fun _ => True) (permW σ) id id (permV σ) (permV σ) where
  dSurj d := ⟨d, rfl⟩
  xSurj := permV_surj σ
  withN _ _ := rfl
  pWithN _ _ h := h
  nAttr _ := rfl
  w _ := rfl
  body := fun (s : Core K n (EpsExt K)) hs hn d x => by
    refine ⟨_, _, _, nlms_body s d x, trivial, hn, ?_⟩
    refine (nlms_body (permW σ s) _ _).trans ?_
    have h1 : dot (permW σ s).w (permV σ x) = dot s.w x := dot_perm σ _ _
    simp only [id, h1, dot_perm]
    rfl

theorem perm_nlmf :
    BodyHom (nlmf K n) (nlmf K n) (fun _ => True) (permW σ) id id (permV σ) (permV σ) where
  dSurj d := ⟨d, rfl⟩
  xSurj := permV_surj σ
  withN _ _ := rfl
  pWithN _ _ h := h
  nAttr _ := rfl
  w _ := rfl
  body := fun (s : Core K n (EpsExt K)) hs hn d x => by
    refine ⟨_, _, _, nlmf_body s d x, trivial, hn, ?_⟩
    refine (nlmf_body (permW σ s) _ _).trans ?_
    have h1 : dot (permW σ s).w (permV σ x) = dot s.w x := dot_perm σ _ _
    simp only [id, h1, dot_perm]
    rfl

theorem perm_nsslms :
    BodyHom (nsslms K n) (nsslms K n) (fun _ => True) (permW σ) id id (permV σ) (permV σ) where
  dSurj d := ⟨d, rfl⟩
  xSurj := permV_surj σ
  withN _ _ := rfl
  pWithN _ _ h := h
  nAttr _ := rfl
  w _ := rfl
  body := fun (s : Core K n (EpsExt K)) hs hn d x => by
    refine ⟨_, _, _, nsslms_body s d x, trivial, hn, ?_⟩
    refine (nsslms_body (permW σ s) _ _).trans ?_
    have h1 : dot (permW σ s).w (permV σ x) = dot s.w x := dot_perm σ _ _
    simp only [id, h1, dot_perm]
    rfl

/-- GNGD: the remembered input is rearranged as well -/
def permGngd (s : Core K n (GngdExt K n)) : Core K n (GngdExt K n) :=
  { s with w := permV σ s.w, ext := { s.ext with lastX := permV σ s.ext.lastX } }

theorem gngdEps_perm (s : Core K n (GngdExt K n)) (e : K) (x : Vec K n) :
    gngdEps (permGngd σ s) e (permV σ x) = gngdEps s e x := by
  simp only [gngdEps, permGngd, dot_perm]

theorem perm_gngd :
    BodyHom (gngd K n) (gngd K n) (fun _ => True) (permGngd σ) id id (permV σ) (permV σ) where
  dSurj d := ⟨d, rfl⟩
  xSurj := permV_surj σ
  withN _ _ := rfl
  pWithN _ _ h := h
  nAttr _ := rfl
  w _ := rfl
  body := fun (s : Core K n (GngdExt K n)) hs hn d x => by
    refine ⟨_, _, _, gngd_body s d x, trivial, hn, ?_⟩
    refine (gngd_body (permGngd σ s) _ _).trans ?_
    have h1 : dot (permGngd σ s).w (permV σ x) = dot s.w x := dot_perm σ _ _
    simp only [id, h1, dot_perm, gngdEps_perm]
    rfl

/-- Mathews: the remembered input is rearranged as well -/
def permMathews (s : Core K n (MathewsExt K n)) : Core K n (MathewsExt K n) :=
  { s with w := permV σ s.w, ext := { s.ext with lastX := permV σ s.ext.lastX } }

theorem mathewsMu_perm (s : Core K n (MathewsExt K n)) (e : K) (x : Vec K n) :
    mathewsMu (permMathews σ s) e (permV σ x) = mathewsMu s e x := by
  simp only [mathewsMu, permMathews, dot_perm]

theorem perm_mathews :
    BodyHom (mathews K n) (mathews K n) (fun _ => True) (permMathews σ) id id (permV σ) (permV σ) where
  dSurj d := ⟨d, rfl⟩
  xSurj := permV_surj σ
  withN _ _ := rfl
  pWithN _ _ h := h
  nAttr _ := rfl
  w _ := rfl
  body := fun (s : Core K n (MathewsExt K n)) hs hn d x => by
    refine ⟨_, _, _, mathews_body s d x, trivial, hn, ?_⟩
    refine (mathews_body (permMathews σ s) _ _).trans ?_
    have h1 : dot (permMathews σ s).w (permV σ x) = dot s.w x := dot_perm σ _ _
    simp only [id, h1, dot_perm, mathewsMu_perm]
    rfl

/-- Ang: the remembered input and gradient are rearranged as well -/
def permAng (s : Core K n (AngExt K n)) : Core K n (AngExt K n) :=
  { s with w := permV σ s.w, ext := { s.ext with lastX := permV σ s.ext.lastX, lastFi := permV σ s.ext.lastFi } }

theorem angFi_perm (s : Core K n (AngExt K n)) : angFi (permAng σ s) = permV σ (angFi s) := rfl

theorem angMu_perm (s : Core K n (AngExt K n)) (e : K) : angMu (permAng σ s) e = angMu s e := by
  unfold angMu
  rw [angFi_perm]
  simp only [permAng, dot_perm]

theorem perm_ang :
    BodyHom (ang K n) (ang K n) (fun _ => True) (permAng σ) id id (permV σ) (permV σ) where
  dSurj d := ⟨d, rfl⟩
  xSurj := permV_surj σ
  withN _ _ := rfl
  pWithN _ _ h := h
  nAttr _ := rfl
  w _ := rfl
  body := fun (s : Core K n (AngExt K n)) hs hn d x => by
    refine ⟨_, _, _, ang_body s d x, trivial, hn, ?_⟩
    refine (ang_body (permAng σ s) _ _).trans ?_
    have h1 : dot (permAng σ s).w (permV σ x) = dot s.w x := dot_perm σ _ _
    simp only [id, h1, dot_perm, angMu_perm, angFi_perm]
    rfl

/-- Benveniste: the remembered input and gradient are rearranged as well -/
def permBen (s : Core K n (BenExt K n)) : Core K n (BenExt K n) :=
  { s with w := permV σ s.w, ext := { s.ext with lastX := permV σ s.ext.lastX, lastFi := permV σ s.ext.lastFi } }

theorem benFi_perm (s : Core K n (BenExt K n)) : benFi (permBen σ s) = permV σ (benFi s) := by
  funext i
  simp only [benFi, permBen, permV, matVec_eq]
  congr 1
  refine Eq.trans ?_ (Equiv.sum_comp σ _)
  refine sum_congr rfl fun j _ => ?_
  simp only [outer, eye, σ.injective.eq_iff, permV]

theorem benMu_perm (s : Core K n (BenExt K n)) (e : K) : benMu (permBen σ s) e = benMu s e := by
  unfold benMu
  rw [benFi_perm]
  simp only [permBen, dot_perm]

theorem perm_benveniste :
    BodyHom (benveniste K n) (benveniste K n) (fun _ => True) (permBen σ) id id (permV σ) (permV σ) where
  dSurj d := ⟨d, rfl⟩
  xSurj := permV_surj σ
  withN _ _ := rfl
  pWithN _ _ h := h
  nAttr _ := rfl
  w _ := rfl
  body := fun (s : Core K n (BenExt K n)) hs hn d x => by
    refine ⟨_, _, _, benveniste_body s hn d x, trivial, hn, ?_⟩
    refine (benveniste_body (permBen σ s) hn _ _).trans ?_
    have h1 : dot (permBen σ s).w (permV σ x) = dot s.w x := dot_perm σ _ _
    simp only [id, h1, dot_perm, benMu_perm, benFi_perm]
    rfl

/-- RLS: rows and columns of the inverse correlation matrix are rearranged as well -/
def permRls (s : Core K n (RlsExt K n)) : Core K n (RlsExt K n) :=
  { s with w := permV σ s.w, ext := { s.ext with R := fun i j => s.ext.R (σ i) (σ j) } }

theorem rlsR_perm (mu : K) (R : Mat K n n) (x : Vec K n) :
    rlsR mu (fun i j => R (σ i) (σ j)) (permV σ x) = fun i j => rlsR mu R x (σ i) (σ j) := by
  funext i j
  simp only [rlsR, matMul_eq, dot_eq, vecMat_eq, outer, permV]
  congr 2
  congr 1
  · refine Eq.trans ?_ (Equiv.sum_comp σ _)
    refine sum_congr rfl fun k _ => ?_
    congr 1
    exact Equiv.sum_comp σ fun k' => R (σ i) k' * (x k' * x (σ k))
  · congr 1
    refine Eq.trans ?_ (Equiv.sum_comp σ _)
    refine sum_congr rfl fun k _ => ?_
    congr 1
    exact Equiv.sum_comp σ fun k' => x k' * R k' (σ k)

theorem perm_rls :
    BodyHom (rls K n) (rls K n) (fun s => Scalar.eqz s.mu = false) (permRls σ) id id (permV σ) (permV σ) where
  dSurj d := ⟨d, rfl⟩
  xSurj := permV_surj σ
  withN _ _ := rfl
  pWithN _ _ h := h
  nAttr _ := rfl
  w _ := rfl
  body := fun (s : Core K n (RlsExt K n)) hs hn d x => by
    refine ⟨_, _, _, rls_body s hs d x, hs, hn, ?_⟩
    refine (rls_body (permRls σ s) hs _ _).trans ?_
    have h1 : dot (permRls σ s).w (permV σ x) = dot s.w x := dot_perm σ _ _
    have h2 : rlsR (permRls σ s).mu (permRls σ s).ext.R (permV σ x)
        = fun i j => rlsR s.mu s.ext.R x (σ i) (σ j) := rlsR_perm σ s.mu s.ext.R x
    have h3 : ∀ i, matVec (fun i j => rlsR s.mu s.ext.R x (σ i) (σ j)) (permV σ x) i
        = matVec (rlsR s.mu s.ext.R x) x (σ i) := fun i => dot_perm σ (rlsR s.mu s.ext.R x (σ i)) x
    simp only [id, h1, h2, h3]
    rfl

/-- OCNLMS: the remembered inputs are rearranged as well -/
def permOcExt (q : OcExt K n) : OcExt K n := { q with memX := q.memX.map (permV σ) }
/-- OCNLMS: the remembered inputs are rearranged as well -/
def permOc (s : Core K n (OcExt K n)) : Core K n (OcExt K n) :=
  { s with w := permV σ s.w, ext := permOcExt σ s.ext }

theorem meanRows_perm (l : List (Vec K n)) : meanRows (l.map (permV σ)) = permV σ (meanRows l) := by
  funext i
  simp only [meanRows, permV, List.map_map]
  rfl

theorem ocMx_perm (q : OcExt K n) : ocMx (permOcExt σ q) = permV σ (ocMx q) := by
  unfold ocMx permOcExt
  simp only [← List.map_take, meanRows_perm]
  split_ifs <;> rfl

theorem ocMd_perm (q : OcExt K n) : ocMd (permOcExt σ q) = ocMd q := rfl

theorem ocAdvance_perm (q : OcExt K n) : ocAdvance (permOcExt σ q) = permOcExt σ (ocAdvance q) := by
  unfold ocAdvance permOcExt
  simp only [List.length_map]
  split_ifs <;> rfl

theorem ocStoreX_perm (q : OcExt K n) (x : Vec K n) :
    ocStoreX (permOcExt σ q) (permV σ x) = permOcExt σ (ocStoreX q x) := by
  unfold ocStoreX permOcExt
  simp only [List.map_set]

theorem ocStoreD_perm (q : OcExt K n) (a : K) : ocStoreD (permOcExt σ q) a = permOcExt σ (ocStoreD q a) := rfl

theorem OcOk_perm {q : OcExt K n} (h : OcOk q) : OcOk (permOcExt σ q) := by
  simpa [OcOk, permOcExt] using h

theorem ocY_perm (s : Core K n (OcExt K n)) (x : Vec K n) : ocY (permOc σ s) (permV σ x) = ocY s x := by
  unfold ocY
  have e1 : (permOc σ s).ext = permOcExt σ s.ext := rfl
  have e2 : (permOc σ s).w = permV σ s.w := rfl
  rw [e1, e2, ocMx_perm, ocMd_perm]
  congr 1
  exact dot_perm σ s.w fun i => x i - ocMx s.ext i

theorem perm_ocnlms : BodyHom (ocnlms K n) (ocnlms K n) (fun s : Core K n (OcExt K n) => OcOk s.ext)
    (permOc σ) id id (permV σ) (permV σ) where
  dSurj d := ⟨d, rfl⟩
  xSurj := permV_surj σ
  withN _ _ := rfl
  pWithN _ _ h := h
  nAttr _ := rfl
  w _ := rfl
  body := fun (s : Core K n (OcExt K n)) hs hn d x => by
    refine ⟨_, _, _, oc_body hs hn d x,
      OcOk_storeD (OcOk_advance (OcOk_storeX (OcOk_advance hs) x)) _, hn, ?_⟩
    refine (oc_body (s := permOc σ s) (OcOk_perm σ hs) hn _ _).trans ?_
    have e1 : (permOc σ s).ext = permOcExt σ s.ext := rfl
    have e2 : (permOc σ s).w = permV σ s.w := rfl
    have e3 : ∀ m : Vec K n, (fun i => permV σ x i - permV σ m i) = permV σ fun i => x i - m i := fun _ => rfl
    simp only [id, ocY_perm, e1, e2, ocAdvance_perm, ocStoreX_perm, ocMx_perm, ocMd_perm, e3, dot_perm,
      ocStoreD_perm]
    rfl

/-- AP: the remembered inputs are rearranged as well -/
def permAp {order : ℕ} (s : Core K n (ApExt K n order)) : Core K n (ApExt K n order) :=
  { s with w := permV σ s.w, ext := { s.ext with xMem := permV σ s.ext.xMem } }

theorem perm_ap (solve : Solver K) {order : ℕ} (ho : 0 < order) (c : K)
    (hs : ∀ X : Mat K n order, ∃ P, solve order (apGram c X) (eye order) = .ok P) :
    BodyHom (ap K n solve order) (ap K n solve order) (fun s : Core K n (ApExt K n order) => s.ext.ifc = c)
      (permAp σ) id id (permV σ) (permV σ) where
  dSurj d := ⟨d, rfl⟩
  xSurj := permV_surj σ
  withN _ _ := rfl
  pWithN _ _ h := h
  nAttr _ := rfl
  w _ := rfl
  body := fun (s : Core K n (ApExt K n order)) h hn d x => by
    subst h
    obtain ⟨P, hP⟩ := hs (apX s x)
    have e1 : apX (permAp σ s) (permV σ x) = permV σ (apX s x) := by
      funext i j
      simp only [apX, permAp, permV, shiftCols]
    have e0 : apGram s.ext.ifc (permV σ (apX s x)) = apGram s.ext.ifc (apX s x) := by
      funext a b
      simp only [apGram]
      congr 1
      exact dot_perm σ (fun i => apX s x i a) fun i => apX s x i b
    have hP' : solve order (apGram (permAp σ s).ext.ifc (apX (permAp σ s) (permV σ x))) (eye order) = .ok P := by
      rw [e1]; exact (congrArg (fun G => solve order G (eye order)) e0).trans hP
    refine ⟨_, _, _, ap_body solve ho s d x P hP, rfl, hn, ?_⟩
    refine (ap_body solve ho (permAp σ s) (id d) (permV σ x) P hP').trans ?_
    have e2 : apD (permAp σ s) (id d) = apD s d := rfl
    have e3 : apY (permAp σ s) (permV σ x) = apY s x := by
      funext j
      simp only [apY, e1]
      exact dot_perm σ (fun i => apX s x i j) s.w
    have e4 : apE (permAp σ s) (id d) (permV σ x) = apE s d x := by
      funext j
      simp only [apE, e2, e3]
    simp only [e1, e2, e3, e4]
    rfl

end perm

section permReal
variable {n : ℕ} (σ : Equiv.Perm (Fin n))

theorem perm_gmcc :
    BodyHom (gmcc ℝ n) (gmcc ℝ n) (fun _ => True) (permW σ) id id (permV σ) (permV σ) where
  dSurj d := ⟨d, rfl⟩
  xSurj := permV_surj σ
  withN _ _ := rfl
  pWithN _ _ h := h
  nAttr _ := rfl
  w _ := rfl
  body := fun (s : Core ℝ n (GmccExt ℝ)) hs hn d x => by
    refine ⟨_, _, _, gmcc_body s d x, trivial, hn, ?_⟩
    refine (gmcc_body (permW σ s) _ _).trans ?_
    have h1 : dot (permW σ s).w (permV σ x) = dot s.w x := dot_perm σ _ _
    simp only [id, h1, dot_perm]
    rfl

theorem perm_llncosh :
    BodyHom (llncosh ℝ n) (llncosh ℝ n) (fun _ => True) (permW σ) id id (permV σ) (permV σ) where
  dSurj d := ⟨d, rfl⟩
  xSurj := permV_surj σ
  withN _ _ := rfl
  pWithN _ _ h := h
  nAttr _ := rfl
  w _ := rfl
  body := fun (s : Core ℝ n (LlncoshExt ℝ)) hs hn d x => by
    refine ⟨_, _, _, llncosh_body s d x, trivial, hn, ?_⟩
    refine (llncosh_body (permW σ s) _ _).trans ?_
    have h1 : dot (permW σ s).w (permV σ x) = dot s.w x := dot_perm σ _ _
    simp only [id, h1, dot_perm]
    rfl

theorem permOf {C : FilterClass ℝ n} {P : Core ℝ n C.Ext → Prop} {f : Core ℝ n C.Ext → Core ℝ n C.Ext}
    (h : BodyHom C C P f id id (permV σ) (permV σ)) (s s' : Core ℝ n C.Ext) (hs : P s) (he : f s = s')
    (d : List ℝ) (x : List (List ℝ)) (hx : ∀ r ∈ x, r.length = n) :
    (run C d (x.map (permRow σ)) ⟨s', []⟩).1 = (run C d x ⟨s, []⟩).1.map fun r =>
      (r.1, r.2.1, r.2.2.map (permRow σ)) := by
  have := h.run ⟨s, []⟩ hs [] d x hx (permRow σ) (permRow σ) (permRow_ofFn σ) (permRow_ofFn σ)
  rw [List.map_id] at this
  rw [← he]
  refine this.trans ?_
  cases (run C d x ⟨s, []⟩).1 with
  | error e => rfl
  | ok r => simp [Except.map]

theorem permRls_init (w : Vec ℝ n) (mu eps : ℝ) (q : RlsExt ℝ n) (h : rlsInit eps = .ok q) :
    permRls σ ⟨w, n, mu, q⟩ = ⟨permV σ w, n, mu, q⟩ := by
  unfold rlsInit at h
  split at h
  · exact nomatch h
  · obtain rfl := Except.ok.inj h
    simp only [permRls, eye, σ.injective.eq_iff]

theorem permOc_init (w : Vec ℝ n) (mu eps : ℝ) (mem : ℕ) (b : Bool) (l : List (Vec ℝ n)) (l' : List ℝ) (k : ℕ) :
    permOc σ ⟨w, n, mu, ocClear mem ⟨eps, b, l, l', k⟩⟩ = ⟨permV σ w, n, mu, ocClear mem ⟨eps, b, l, l', k⟩⟩ := by
  simp only [permOc, permOcExt, ocClear, List.map_replicate]
  rfl

/-- C36: for every filter, `filter_data` with the columns of the input and the entries of the initial weights rearranged by the
same permutation returns the same outputs and errors, and the weight history with its columns rearranged likewise (and raises the
same exception otherwise). -/
theorem C36_column_permutation (env : Env ℝ) (upper : String → String) (model : String) (kw : Kwargs ℝ)
    (hp : ∀ t, getFilter upper model = .ok t → ParamsOk env t kw) (w : Vec ℝ n) (d : List ℝ)
    (x : List (List ℝ)) (hx : ∀ r ∈ x, r.length = n) :
    filterData env upper d (x.map (permRow σ)) n model
        { kw with w := some (.arr (List.ofFn fun i => w (σ i))) }
      = (filterData env upper d x n model { kw with w := some (.arr (List.ofFn w)) }).map fun r =>
          (r.1, r.2.1, r.2.2.map (permRow σ)) := by
  refine filterData_congr env upper model kw w (permV σ w) d d x (x.map (permRow σ)) _ ?_
  intro t mu ht hmu
  have hp := hp t ht
  cases t
  case lms => exact permOf σ (perm_lms σ) _ _ trivial (by rfl) d x hx
  case lmf => exact permOf σ (perm_lmf σ) _ _ trivial (by rfl) d x hx
  case sslms => exact permOf σ (perm_sslms σ) _ _ trivial (by rfl) d x hx
  case nlms => exact permOf σ (perm_nlms σ) _ _ trivial (by rfl) d x hx
  case nlmf => exact permOf σ (perm_nlmf σ) _ _ trivial (by rfl) d x hx
  case nsslms => exact permOf σ (perm_nsslms σ) _ _ trivial (by rfl) d x hx
  case gmcc => exact permOf σ (perm_gmcc σ) _ _ trivial (by rfl) d x hx
  case llncosh => exact permOf σ (perm_llncosh σ) _ _ trivial (by rfl) d x hx
  case gngd => exact permOf σ (perm_gngd σ) _ _ trivial (by rfl) d x hx
  case vslmsMathews => exact permOf σ (perm_mathews σ) _ _ trivial (by rfl) d x hx
  case vslmsAng => exact permOf σ (perm_ang σ) _ _ trivial (by rfl) d x hx
  case vslmsBenveniste => exact permOf σ (perm_benveniste σ) _ _ trivial (by rfl) d x hx
  case rls =>
    simp only [runNew, initExt]
    cases hr : rlsInit (n := n) (kw.eps.getD (lit 1 1000)) with
    | error e => rfl
    | ok q => exact permOf σ (perm_rls σ) _ _ (hp.1 rfl mu hmu) (permRls_init σ _ _ _ _ hr) d x hx
  case ocnlms =>
    refine permOf σ (perm_ocnlms σ) _ _ ?_ (permOc_init σ _ _ _ _ _ _ _ _) d x hx
    have := hp.2.1 rfl
    exact ⟨by simp [ocClear], by simp [ocClear]; omega⟩
  case ap =>
    obtain ⟨h1, h2⟩ := hp.2.2 rfl
    exact permOf σ (perm_ap σ env.solve h1 _ (h2 n)) _ _ rfl (by rfl) d x hx

/-- the parameters of an AP filter of order 3 with `ifc = 0` and a solver that never refuses meet the hypotheses -/
example : ParamsOk (K := ℝ) { rand := fun _ _ => 0, solve := fun _ _ B => .ok B } .ap
    { mu := some 1, order := some 3, ifc := some 0 } :=
  ⟨fun h => (nomatch h), fun h => (nomatch h), fun _ => ⟨by simp, fun _ _ => ⟨_, rfl⟩⟩⟩

end permReal
end Padasip
