import Verif.Lemmas.Engine
import Verif.Model.Factory

/-!
# What one loop iteration of `run` does, for each of the fifteen filters
-/

set_option linter.unusedSectionVars false
set_option linter.unusedSimpArgs false

namespace Padasip

variable {K : Type} {n : ℕ}

section scalar
variable [Scalar K]

theorem lms_body (s : Core K n Unit) (d : K) (x : Vec K n) :
    (lms K n).body d (List.ofFn x) s
      = (.ok (dot s.w x, d - dot s.w x),
         { s with w := fun i => s.w i + s.mu * x i * (d - dot s.w x) }) := by
  simp [lms, mkBase, baseBody, basePredict, lmsRule]

theorem lmf_body (s : Core K n Unit) (d : K) (x : Vec K n) :
    (lmf K n).body d (List.ofFn x) s
      = (.ok (dot s.w x, d - dot s.w x),
         { s with w := fun i => s.w i + s.mu * x i *
            ((d - dot s.w x) * (d - dot s.w x) * (d - dot s.w x)) }) := by
  simp [lmf, mkBase, baseBody, basePredict, lmfRule]

theorem sslms_body (s : Core K n Unit) (d : K) (x : Vec K n) :
    (sslms K n).body d (List.ofFn x) s
      = (.ok (dot s.w x, d - dot s.w x),
         { s with w := fun i => s.w i + s.mu * Scalar.sgn (x i) * Scalar.sgn (d - dot s.w x) }) := by
  simp [sslms, mkBase, baseBody, basePredict, sslmsRule]

theorem nlms_body (s : Core K n (EpsExt K)) (d : K) (x : Vec K n) :
    (nlms K n).body d (List.ofFn x) s
      = (.ok (dot s.w x, d - dot s.w x),
         { s with w := fun i => s.w i + s.mu / (s.ext.eps + dot x x) * x i * (d - dot s.w x) }) := by
  simp [nlms, mkBase, baseBody, basePredict, nlmsRule]

theorem nlmf_body (s : Core K n (EpsExt K)) (d : K) (x : Vec K n) :
    (nlmf K n).body d (List.ofFn x) s
      = (.ok (dot s.w x, d - dot s.w x),
         { s with w := fun i => s.w i + s.mu / (s.ext.eps + dot x x) * x i *
            ((d - dot s.w x) * (d - dot s.w x) * (d - dot s.w x)) }) := by
  simp [nlmf, mkBase, baseBody, basePredict, nlmfRule]

theorem nsslms_body (s : Core K n (EpsExt K)) (d : K) (x : Vec K n) :
    (nsslms K n).body d (List.ofFn x) s
      = (.ok (dot s.w x, d - dot s.w x),
         { s with w := fun i => s.w i + s.mu / (s.ext.eps + dot x x) * Scalar.sgn (x i)
            * Scalar.sgn (d - dot s.w x) }) := by
  simp [nsslms, mkBase, baseBody, basePredict, nsslmsRule]

/-- new `eps` of GNGD -/
def gngdEps (s : Core K n (GngdExt K n)) (e : K) (x : Vec K n) : K :=
  s.ext.eps - s.ext.ro * s.mu * e * s.ext.lastE * dot x s.ext.lastX
    / ((dot s.ext.lastX s.ext.lastX + s.ext.eps) * (dot s.ext.lastX s.ext.lastX + s.ext.eps))

theorem gngd_body (s : Core K n (GngdExt K n)) (d : K) (x : Vec K n) :
    (gngd K n).body d (List.ofFn x) s
      = (.ok (dot s.w x, d - dot s.w x),
         { s with
           w := fun i => s.w i
             + s.mu / (gngdEps s (d - dot s.w x) x + dot x x) * (d - dot s.w x) * x i
           ext := { s.ext with
             eps := gngdEps s (d - dot s.w x) x, lastE := d - dot s.w x, lastX := x } }) := by
  simp [gngd, mkBase, baseBody, basePredict, gngdRule, gngdEps]

/-- new step size of Mathews -/
def mathewsMu (s : Core K n (MathewsExt K n)) (e : K) (x : Vec K n) : K :=
  s.ext.lastMu + (s.ext.ro * e * s.ext.lastE * dot s.ext.lastX x)

theorem mathews_body (s : Core K n (MathewsExt K n)) (d : K) (x : Vec K n) :
    (mathews K n).body d (List.ofFn x) s
      = (.ok (dot s.w x, d - dot s.w x),
         { s with
           w := fun i => s.w i + mathewsMu s (d - dot s.w x) x * (d - dot s.w x) * x i
           ext := { s.ext with
             lastE := d - dot s.w x, lastMu := mathewsMu s (d - dot s.w x) x, lastX := x } }) := by
  simp [mathews, mkBase, baseBody, basePredict, mathewsRule, mathewsMu]

/-- new `fi` of Ang -/
def angFi (s : Core K n (AngExt K n)) : Vec K n := fun i =>
  (s.ext.a * s.ext.lastFi i) + (s.ext.lastE * s.ext.lastX i)
/-- new step size of Ang -/
def angMu (s : Core K n (AngExt K n)) (e : K) : K :=
  s.ext.lastMu + (s.ext.ro * e * dot s.ext.lastX (angFi s))

theorem ang_body (s : Core K n (AngExt K n)) (d : K) (x : Vec K n) :
    (ang K n).body d (List.ofFn x) s
      = (.ok (dot s.w x, d - dot s.w x),
         { s with
           w := fun i => s.w i + angMu s (d - dot s.w x) * (d - dot s.w x) * x i
           ext := { s.ext with
             lastE := d - dot s.w x, lastMu := angMu s (d - dot s.w x), lastX := x,
             lastFi := angFi s } }) := by
  simp [ang, mkBase, baseBody, basePredict, angRule, angMu, angFi]
  exact ⟨rfl, rfl, rfl⟩

/-- new `fi` of Benveniste (attribute `n` intact) -/
def benFi (s : Core K n (BenExt K n)) : Vec K n := fun i =>
  matVec (fun i j => eye n i j - s.ext.lastMu * outer s.ext.lastX s.ext.lastX i j) s.ext.lastFi i
    + (s.ext.lastE * s.ext.lastX i)
/-- new step size of Benveniste -/
def benMu (s : Core K n (BenExt K n)) (e : K) : K :=
  s.ext.lastMu + (s.ext.ro * e * dot s.ext.lastX (benFi s))

theorem benveniste_body (s : Core K n (BenExt K n)) (hn : s.nAttr = n) (d : K) (x : Vec K n) :
    (benveniste K n).body d (List.ofFn x) s
      = (.ok (dot s.w x, d - dot s.w x),
         { s with
           w := fun i => s.w i + benMu s (d - dot s.w x) * (d - dot s.w x) * x i
           ext := { s.ext with
             lastE := d - dot s.w x, lastMu := benMu s (d - dot s.w x), lastX := x,
             lastFi := benFi s } }) := by
  simp [benveniste, mkBase, baseBody, basePredict, benvenisteRule, benMu, benFi, benFiPart, hn]
  exact ⟨rfl, rfl, rfl⟩

/-- new `R` of RLS -/
def rlsR (mu : K) (R : Mat K n n) (x : Vec K n) : Mat K n n := fun i j =>
  1 / mu * (R i j - matMul (matMul R (outer x x)) R i j / (mu + dot (vecMat x R) x))

theorem rls_body (s : Core K n (RlsExt K n)) (hm : Scalar.eqz s.mu = false) (d : K) (x : Vec K n) :
    (rls K n).body d (List.ofFn x) s
      = (.ok (dot s.w x, d - dot s.w x),
         { s with
           w := fun i => s.w i + matVec (rlsR s.mu s.ext.R x) x i * (d - dot s.w x)
           ext := { s.ext with R := rlsR s.mu s.ext.R x } }) := by
  simp [rls, mkBase, baseBody, basePredict, rlsRule, hm, rlsR]
  exact ⟨rfl, rfl⟩

/-- AP memory after a sample -/
def apX {order : ℕ} (s : Core K n (ApExt K n order)) (x : Vec K n) : Mat K n order :=
  fun i j => if j.val = 0 then x i else shiftCols s.ext.xMem i j
/-- AP target memory after a sample -/
def apD {order : ℕ} (s : Core K n (ApExt K n order)) (d : K) : Vec K order :=
  fun j => if j.val = 0 then d else shiftVec s.ext.dMem j
/-- AP outputs over the memory -/
def apY {order : ℕ} (s : Core K n (ApExt K n order)) (x : Vec K n) : Vec K order :=
  fun j => dot (fun i => apX s x i j) s.w
/-- AP errors over the memory -/
def apE {order : ℕ} (s : Core K n (ApExt K n order)) (d : K) (x : Vec K n) : Vec K order :=
  fun j => apD s d j - apY s x j

/-- state of AP after the memory update and the error computation -/
def apPushed {order : ℕ} (s : Core K n (ApExt K n order)) (d : K) (x : Vec K n) :
    Core K n (ApExt K n order) :=
  { s with ext := ⟨s.ext.ifc, apX s x, apD s d, apY s x, apE s d x⟩ }

theorem ap_push {order : ℕ} (h : 0 < order) (s : Core K n (ApExt K n order)) (d : K) (x : Vec K n) :
    (apPush d (List.ofFn x) >>= fun _ => apErr) s = (.ok (), apPushed s d x) := by
  have h0 : order ≠ 0 := by omega
  simp only [apPush, M.bind_assoc', M.modify_bind, if_neg h0, bcastVec_ofFn, M.lift_ok_bind, apErr]
  rfl

theorem ap_body {order : ℕ} (solve : Solver K) (h : 0 < order) (s : Core K n (ApExt K n order))
    (d : K) (x : Vec K n) (P : Mat K order order)
    (hP : solve order (apGram s.ext.ifc (apX s x)) (eye order) = .ok P) :
    (ap K n solve order).body d (List.ofFn x) s
      = (.ok (apY s x ⟨0, h⟩, apE s d x ⟨0, h⟩),
         { s with
           w := fun i => s.w i + s.mu * dot (apX s x i) (matVec P (apE s d x))
           ext := ⟨s.ext.ifc, apX s x, apD s d, apY s x, apE s d x⟩ }) := by
  simp only [ap, h, dif_pos, apBody]
  rw [← M.bind_assoc', M.bind_ok (ap_push h s d x), M.get_bind]
  simp only [apRule, apPushed, M.bind_assoc', M.get_bind, hP, M.lift_ok_bind, M.pure_bind_apply,
    M.modify_bind, M.pure_apply]

theorem ap_adapt {order : ℕ} (solve : Solver K) (h : 0 < order) (s : Core K n (ApExt K n order))
    (d : K) (x : Vec K n) (P : Mat K order order)
    (hP : solve order (apGram s.ext.ifc (apX s x)) (eye order) = .ok P) :
    (ap K n solve order).adapt d (List.ofFn x) s
      = (.ok (),
         { s with
           w := fun i => s.w i + s.mu * dot (apX s x i) (matVec P (apE s d x))
           ext := ⟨s.ext.ifc, apX s x, apD s d, apY s x, apE s d x⟩ }) := by
  simp only [ap, apAdapt]
  rw [← M.bind_assoc', M.bind_ok (ap_push h s d x), M.get_bind]
  simp only [apPushed, hP, M.lift_ok_bind, M.modify_apply]

/-- OCNLMS memory is well formed -/
def OcOk (q : OcExt K n) : Prop :=
  q.memD.length = q.memX.length ∧ q.memIdx < q.memX.length

/-- the mean target as a value (`0` in the impossible case) -/
def ocMd (q : OcExt K n) : K := match ocCenterD q with | .ok a => a | .error _ => 0

theorem ocCenterD_ok {q : OcExt K n} (h : OcOk q) : ocCenterD q = .ok (ocMd q) := by
  unfold ocMd ocCenterD
  have := h.1; have := h.2
  split
  · split <;> rfl
  · rw [if_pos (by omega)]

theorem OcOk_advance {q : OcExt K n} (h : OcOk q) : OcOk (ocAdvance q) := by
  unfold ocAdvance OcOk
  obtain ⟨h1, h2⟩ := h
  split
  · refine ⟨h1, ?_⟩
    show 0 < q.memX.length
    omega
  · refine ⟨h1, ?_⟩
    show q.memIdx + 1 < q.memX.length
    omega

theorem ocRead_ok {s : Core K n (OcExt K n)} (h : OcOk s.ext) :
    ocRead s = (.ok (ocMd s.ext, ocCenter s.nAttr s.ext), { s with ext := ocAdvance s.ext }) := by
  simp [ocRead, ocCenterD_ok h]

/-- the mean input as a vector (attribute `n` intact) -/
def ocMx (q : OcExt K n) : Vec K n :=
  if q.memEmpty then
    if q.memIdx = 0 then zeros n else meanRows (q.memX.take (q.memIdx + 1))
  else meanRows q.memX

theorem ocCenter_ofFn (q : OcExt K n) : ocCenter n q = List.ofFn (ocMx q) := by
  unfold ocCenter ocMx
  split
  · split
    · show List.replicate n 0 = List.ofFn (fun _ : Fin n => (0 : K))
      rw [List.ofFn_const]
    · rfl
  · rfl

theorem zipWith_ofFn {α β γ : Type} (f : α → β → γ) (u : Fin n → α) (v : Fin n → β) :
    List.zipWith f (List.ofFn u) (List.ofFn v) = List.ofFn fun i => f (u i) (v i) := by
  apply List.ext_getElem <;> simp

theorem bsub_ofFn (u v : Vec K n) :
    bsub (List.ofFn u) (List.ofFn v) = .ok (List.ofFn fun i => u i - v i) := by
  simp [bsub, zipWith_ofFn]

/-- OCNLMS memory after storing `x`. -/
def ocStoreX (q : OcExt K n) (x : Vec K n) : OcExt K n :=
  { q with memX := q.memX.set q.memIdx x }
/-- OCNLMS memory after storing the target `d`. -/
def ocStoreD (q : OcExt K n) (d : K) : OcExt K n :=
  { q with memD := q.memD.set (if q.memIdx = 0 then q.memD.length - 1 else q.memIdx - 1) d }

theorem OcOk_storeX {q : OcExt K n} (h : OcOk q) (x : Vec K n) : OcOk (ocStoreX q x) := by
  simpa [OcOk, ocStoreX] using h

theorem OcOk_storeD {q : OcExt K n} (h : OcOk q) (d : K) : OcOk (ocStoreD q d) := by
  simpa [OcOk, ocStoreD] using h

/-- prediction of OCNLMS -/
def ocY (s : Core K n (OcExt K n)) (x : Vec K n) : K :=
  dot s.w (fun i => x i - ocMx s.ext i) + ocMd s.ext

theorem oc_predict {s : Core K n (OcExt K n)} (h : OcOk s.ext) (hn : s.nAttr = n) (x : Vec K n) :
    ocPredict (List.ofFn x) s = (.ok (ocY s x), { s with ext := ocAdvance s.ext }) := by
  simp [ocPredict, M.bind_ok (ocRead_ok h), hn, ocCenter_ofFn, bsub_ofFn, ocY]

/-- state of the OCNLMS memory in `learning_rule` after `update_memory_x` -/
def ocQ1 (q : OcExt K n) (x : Vec K n) : OcExt K n := ocStoreX (ocAdvance q) x

theorem oc_rule {s : Core K n (OcExt K n)} (h : OcOk s.ext) (hn : s.nAttr = n) (e : K)
    (x : Vec K n) :
    ocRule e (List.ofFn x) s
      = (let q1 := ocStoreX s.ext x
         let c : Vec K n := fun i => x i - ocMx q1 i
         (.ok fun i => s.mu / (s.ext.eps + dot c c) * e * c i,
          { s with ext := ocStoreD (ocAdvance q1) (e + (dot s.w c + ocMd q1)) })) := by
  have h1 : OcOk (ocStoreX s.ext x) := OcOk_storeX h x
  have hu : ocUpdateX x s = (.ok (), { s with ext := ocStoreX s.ext x }) := by
    simp [ocUpdateX, h.2, ocStoreX]
  have hlen : (ocAdvance (ocStoreX s.ext x)).memD.length ≠ 0 := by
    have := OcOk_advance h1
    obtain ⟨h2, h3⟩ := this
    omega
  have he : ∀ q : OcExt K n, (ocAdvance q).eps = q.eps := by
    intro q; unfold ocAdvance; split <;> rfl
  simp only [ocRule, bcastVec_ofFn, M.lift_ok_bind, M.bind_ok hu]
  rw [M.bind_ok (ocRead_ok (s := { s with ext := ocStoreX s.ext x }) h1)]
  have hd : ∀ v : K, ocUpdateD v { s with ext := ocAdvance (ocStoreX s.ext x) }
      = (.ok (), { s with ext := ocStoreD (ocAdvance (ocStoreX s.ext x)) v }) := by
    intro v
    simp only [ocUpdateD, M.get_bind, if_neg hlen]
    rfl
  simp only [hn, ocCenter_ofFn, bsub_ofFn, M.lift_ok_bind, asVec_ofFn, M.get_bind]
  rw [M.bind_ok (by simpa only [hn] using hd _)]
  simp [he, ocStoreX]

theorem oc_body {s : Core K n (OcExt K n)} (h : OcOk s.ext) (hn : s.nAttr = n) (d : K)
    (x : Vec K n) :
    (ocnlms K n).body d (List.ofFn x) s
      = (let y := ocY s x
         let e := d - y
         let q1 := ocStoreX (ocAdvance s.ext) x
         let c : Vec K n := fun i => x i - ocMx q1 i
         (.ok (y, e),
          { s with
            w := fun i => s.w i + s.mu / (s.ext.eps + dot c c) * e * c i
            ext := ocStoreD (ocAdvance q1) (e + (dot s.w c + ocMd q1)) })) := by
  have he : ∀ q : OcExt K n, (ocAdvance q).eps = q.eps := by
    intro q; unfold ocAdvance; split <;> rfl
  simp only [ocnlms, mkBase, baseBody, M.bind_ok (oc_predict h hn x)]
  rw [M.bind_ok (oc_rule (s := { s with ext := ocAdvance s.ext }) (OcOk_advance h) hn _ x)]
  simp [he]

end scalar

section transc
variable [Transc K]

theorem gmcc_body (s : Core K n (GmccExt K)) (d : K) (x : Vec K n) :
    (gmcc K n).body d (List.ofFn x) s
      = (.ok (dot s.w x, d - dot s.w x),
         { s with w := fun i => s.w i +
            (s.mu * s.ext.lambd * s.ext.alpha *
              Transc.exp (-s.ext.lambd * Transc.pow (Scalar.abs (d - dot s.w x)) s.ext.alpha) *
              Transc.pow (Scalar.abs (d - dot s.w x)) (s.ext.alpha - 1) * Scalar.sgn (d - dot s.w x)
              * x i) }) := by
  simp [gmcc, mkBase, baseBody, basePredict, gmccRule]

theorem llncosh_body (s : Core K n (LlncoshExt K)) (d : K) (x : Vec K n) :
    (llncosh K n).body d (List.ofFn x) s
      = (.ok (dot s.w x, d - dot s.w x),
         { s with w := fun i => s.w i +
            (s.mu * Transc.tanh (s.ext.lambd * (d - dot s.w x)) * x i) }) := by
  simp [llncosh, mkBase, baseBody, basePredict, llncoshRule]

end transc

end Padasip
