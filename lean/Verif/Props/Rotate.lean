import Verif.Lemmas.Hom
import Verif.Lemmas.Field
import Verif.Spec.Example
import Verif.Spec.Ready
import Mathlib.LinearAlgebra.UnitaryGroup

/-!
# C81: orthogonal transformations of the input space
-/

set_option linter.unusedSectionVars false
set_option linter.unusedSimpArgs false
set_option linter.unusedVariables false

namespace Padasip

open Finset

/-- the row `r` multiplied by the matrix `Q`: entry `i` of the result is `Q[i,0] r[0] + Q[i,1] r[1] + ...` -/
def rotRow {K : Type} [Field K] {n : ℕ} (Q : Fin n → Fin n → K) (r : List K) : List K :=
  List.ofFn fun i => ∑ j : Fin n, Q i j * r.getD j.val 0

/-- `Q` is orthogonal: its rows are orthonormal, and so are its columns -/
structure Orthogonal {K : Type} [Field K] {n : ℕ} (Q : Fin n → Fin n → K) : Prop where
  rows : ∀ i j, ∑ k, Q i k * Q j k = if i = j then 1 else 0
  cols : ∀ i j, ∑ k, Q k i * Q k j = if i = j then 1 else 0

section rot
variable {K : Type} [Field K] [LinearOrder K] {n : ℕ} {Q : Fin n → Fin n → K} (hQ : Orthogonal Q)

/-- the vector multiplied by `Q` -/
def rotV (Q : Fin n → Fin n → K) (v : Fin n → K) : Fin n → K := fun i => ∑ j, Q i j * v j

theorem rotV_add_mul (w x : Vec K n) (c : K) : (fun i => rotV Q w i + c * rotV Q x i) = rotV Q fun i => w i + c * x i := by
  funext i
  simp only [rotV, mul_add, sum_add_distrib, mul_sum]
  congr 1
  exact sum_congr rfl fun j _ => by ring

theorem rotV_mul (x : Vec K n) (c : K) : (fun i => c * rotV Q x i) = rotV Q fun i => c * x i := by
  funext i
  simp only [rotV, mul_sum]
  exact sum_congr rfl fun j _ => by ring

theorem rotV_sub (w x : Vec K n) : (fun i => rotV Q w i - rotV Q x i) = rotV Q fun i => w i - x i := by
  funext i
  simp only [rotV, mul_sub, sum_sub_distrib]

theorem rotV_add_mul_mul (w x : Vec K n) (c e : K) : (fun i => rotV Q w i + c * rotV Q x i * e) = rotV Q fun i => w i + c * x i * e := by
  have h1 : (fun i => w i + c * x i * e) = fun i => w i + (c * e) * x i := by funext i; ring
  have h2 : (fun i => rotV Q w i + c * rotV Q x i * e) = fun i => rotV Q w i + (c * e) * rotV Q x i := by funext i; ring
  rw [h1, h2, rotV_add_mul]

theorem rotV_zeros : rotV Q (zeros n) = zeros n := by
  funext i; simp only [rotV, zeros]; exact sum_eq_zero fun j _ => mul_zero _

include hQ in
theorem dot_rot (u v : Vec K n) : dot (rotV Q u) (rotV Q v) = dot u v := by
  simp only [dot_eq, rotV, sum_mul_sum]
  rw [sum_comm]
  have : ∀ a, ∑ i, ∑ b, Q i a * u a * (Q i b * v b) = u a * v a := by
    intro a
    rw [sum_comm]
    have h1 : ∀ b, ∑ i, Q i a * u a * (Q i b * v b) = (if a = b then 1 else 0) * (u a * v b) := by
      intro b
      rw [← hQ.cols a b, sum_mul]
      exact sum_congr rfl fun i _ => by ring
    simp only [h1, ite_mul, one_mul, zero_mul, sum_ite_eq, mem_univ, if_true]
  exact sum_congr rfl fun a _ => this a

include hQ in
theorem rotV_surj (v : Vec K n) : ∃ u, rotV Q u = v := by
  refine ⟨fun i => ∑ j, Q j i * v j, ?_⟩
  funext i
  simp only [rotV, mul_sum]
  rw [sum_comm]
  have : ∀ j, ∑ k, Q i k * (Q j k * v j) = (if i = j then 1 else 0) * v j := by
    intro j
    rw [← hQ.rows i j, sum_mul]
    exact sum_congr rfl fun k _ => by ring
  simp only [this, ite_mul, one_mul, zero_mul, sum_ite_eq, mem_univ, if_true]

theorem rotRow_ofFn (v : Vec K n) : rotRow Q (List.ofFn v) = List.ofFn (rotV Q v) := by
  unfold rotRow rotV
  congr 1; funext i
  exact sum_congr rfl fun j _ => by simp [List.getD]

/-- the weights are multiplied by `Q`, the other attributes are kept -/
def rotW (Q : Fin n → Fin n → K) {X : Type} (s : Core K n X) : Core K n X := { s with w := rotV Q s.w }

include hQ in
theorem rot_lms :
    BodyHom (lms K n) (lms K n) (fun _ => True) (rotW Q) id id (rotV Q) (rotV Q) where
  dSurj d := ⟨d, rfl⟩
  xSurj := rotV_surj hQ
  withN _ _ := rfl
  pWithN _ _ h := h
  nAttr _ := rfl
  w _ := rfl
  body := fun (s : Core K n Unit) hs hn d x => by
    refine ⟨_, _, _, lms_body s d x, trivial, hn, ?_⟩
    refine (lms_body (rotW Q s) _ _).trans ?_
    have h1 : dot (rotW Q s).w (rotV Q x) = dot s.w x := dot_rot hQ _ _
    have h2 : ∀ c e : K, (fun i => (rotW Q s).w i + c * rotV Q x i * e) = rotV Q fun i => s.w i + c * x i * e := fun c e => rotV_add_mul_mul _ _ _ _
    have h3 : ∀ c : K, (fun i => (rotW Q s).w i + c * rotV Q x i) = rotV Q fun i => s.w i + c * x i := fun c => rotV_add_mul _ _ _
    simp only [id, h1, dot_rot hQ, h2]
    rfl

include hQ in
theorem rot_lmf :
    BodyHom (lmf K n) (lmf K n) (fun _ => True) (rotW Q) id id (rotV Q) (rotV Q) where
  dSurj d := ⟨d, rfl⟩
  xSurj := rotV_surj hQ
  withN _ _ := rfl
  pWithN _ _ h := h
  nAttr _ := rfl
  w _ := rfl
  body := fun (s : Core K n Unit) hs hn d x => by
    refine ⟨_, _, _, lmf_body s d x, trivial, hn, ?_⟩
    refine (lmf_body (rotW Q s) _ _).trans ?_
    have h1 : dot (rotW Q s).w (rotV Q x) = dot s.w x := dot_rot hQ _ _
    have h2 : ∀ c e : K, (fun i => (rotW Q s).w i + c * rotV Q x i * e) = rotV Q fun i => s.w i + c * x i * e := fun c e => rotV_add_mul_mul _ _ _ _
    have h3 : ∀ c : K, (fun i => (rotW Q s).w i + c * rotV Q x i) = rotV Q fun i => s.w i + c * x i := fun c => rotV_add_mul _ _ _
    simp only [id, h1, dot_rot hQ, h2]
    rfl

include hQ in
theorem rot_nlms :
    BodyHom (nlms K n) (nlms K n) (fun _ => True) (rotW Q) id id (rotV Q) (rotV Q) where
  dSurj d := ⟨d, rfl⟩
  xSurj := rotV_surj hQ
  withN _ _ := rfl
  pWithN _ _ h := h
  nAttr _ := rfl
  w _ := rfl
  body := fun (s : Core K n (EpsExt K)) hs hn d x => by
    refine ⟨_, _, _, nlms_body s d x, trivial, hn, ?_⟩
    refine (nlms_body (rotW Q s) _ _).trans ?_
    have h1 : dot (rotW Q s).w (rotV Q x) = dot s.w x := dot_rot hQ _ _
    have h2 : ∀ c e : K, (fun i => (rotW Q s).w i + c * rotV Q x i * e) = rotV Q fun i => s.w i + c * x i * e := fun c e => rotV_add_mul_mul _ _ _ _
    have h3 : ∀ c : K, (fun i => (rotW Q s).w i + c * rotV Q x i) = rotV Q fun i => s.w i + c * x i := fun c => rotV_add_mul _ _ _
    simp only [id, h1, dot_rot hQ, h2]
    rfl

include hQ in
theorem rot_nlmf :
    BodyHom (nlmf K n) (nlmf K n) (fun _ => True) (rotW Q) id id (rotV Q) (rotV Q) where
  dSurj d := ⟨d, rfl⟩
  xSurj := rotV_surj hQ
  withN _ _ := rfl
  pWithN _ _ h := h
  nAttr _ := rfl
  w _ := rfl
  body := fun (s : Core K n (EpsExt K)) hs hn d x => by
    refine ⟨_, _, _, nlmf_body s d x, trivial, hn, ?_⟩
    refine (nlmf_body (rotW Q s) _ _).trans ?_
    have h1 : dot (rotW Q s).w (rotV Q x) = dot s.w x := dot_rot hQ _ _
    have h2 : ∀ c e : K, (fun i => (rotW Q s).w i + c * rotV Q x i * e) = rotV Q fun i => s.w i + c * x i * e := fun c e => rotV_add_mul_mul _ _ _ _
    have h3 : ∀ c : K, (fun i => (rotW Q s).w i + c * rotV Q x i) = rotV Q fun i => s.w i + c * x i := fun c => rotV_add_mul _ _ _
    simp only [id, h1, dot_rot hQ, h2]
    rfl

/-- GNGD: the remembered input is multiplied as well -/
def rotGngd (Q : Fin n → Fin n → K) (s : Core K n (GngdExt K n)) : Core K n (GngdExt K n) :=
  { s with w := rotV Q s.w, ext := { s.ext with lastX := rotV Q s.ext.lastX } }

include hQ in
theorem gngdEps_rot (s : Core K n (GngdExt K n)) (e : K) (x : Vec K n) :
    gngdEps (rotGngd Q s) e (rotV Q x) = gngdEps s e x := by
  simp only [gngdEps, rotGngd, dot_rot hQ]

include hQ in
theorem rot_gngd :
    BodyHom (gngd K n) (gngd K n) (fun _ => True) (rotGngd Q) id id (rotV Q) (rotV Q) where
  dSurj d := ⟨d, rfl⟩
  xSurj := rotV_surj hQ
  withN _ _ := rfl
  pWithN _ _ h := h
  nAttr _ := rfl
  w _ := rfl
  body := fun (s : Core K n (GngdExt K n)) hs hn d x => by
    refine ⟨_, _, _, gngd_body s d x, trivial, hn, ?_⟩
    refine (gngd_body (rotGngd Q s) _ _).trans ?_
    have h1 : dot (rotGngd Q s).w (rotV Q x) = dot s.w x := dot_rot hQ _ _
    have h2 : ∀ c e : K, (fun i => (rotGngd Q s).w i + c * rotV Q x i * e) = rotV Q fun i => s.w i + c * x i * e := fun c e => rotV_add_mul_mul _ _ _ _
    have h3 : ∀ c : K, (fun i => (rotGngd Q s).w i + c * rotV Q x i) = rotV Q fun i => s.w i + c * x i := fun c => rotV_add_mul _ _ _
    simp only [id, h1, dot_rot hQ, gngdEps_rot hQ, h3]
    rfl

/-- Mathews: the remembered input is multiplied as well -/
def rotMathews (Q : Fin n → Fin n → K) (s : Core K n (MathewsExt K n)) : Core K n (MathewsExt K n) :=
  { s with w := rotV Q s.w, ext := { s.ext with lastX := rotV Q s.ext.lastX } }

include hQ in
theorem mathewsMu_rot (s : Core K n (MathewsExt K n)) (e : K) (x : Vec K n) :
    mathewsMu (rotMathews Q s) e (rotV Q x) = mathewsMu s e x := by
  simp only [mathewsMu, rotMathews, dot_rot hQ]

include hQ in
theorem rot_mathews :
    BodyHom (mathews K n) (mathews K n) (fun _ => True) (rotMathews Q) id id (rotV Q) (rotV Q) where
  dSurj d := ⟨d, rfl⟩
  xSurj := rotV_surj hQ
  withN _ _ := rfl
  pWithN _ _ h := h
  nAttr _ := rfl
  w _ := rfl
  body := fun (s : Core K n (MathewsExt K n)) hs hn d x => by
    refine ⟨_, _, _, mathews_body s d x, trivial, hn, ?_⟩
    refine (mathews_body (rotMathews Q s) _ _).trans ?_
    have h1 : dot (rotMathews Q s).w (rotV Q x) = dot s.w x := dot_rot hQ _ _
    have h2 : ∀ c e : K, (fun i => (rotMathews Q s).w i + c * rotV Q x i * e) = rotV Q fun i => s.w i + c * x i * e := fun c e => rotV_add_mul_mul _ _ _ _
    have h3 : ∀ c : K, (fun i => (rotMathews Q s).w i + c * rotV Q x i) = rotV Q fun i => s.w i + c * x i := fun c => rotV_add_mul _ _ _
    simp only [id, h1, dot_rot hQ, mathewsMu_rot hQ, h3]
    rfl

/-- Ang: the remembered input and gradient are multiplied as well -/
def rotAng (Q : Fin n → Fin n → K) (s : Core K n (AngExt K n)) : Core K n (AngExt K n) :=
  { s with w := rotV Q s.w, ext := { s.ext with lastX := rotV Q s.ext.lastX, lastFi := rotV Q s.ext.lastFi } }

theorem angFi_rot (s : Core K n (AngExt K n)) : angFi (rotAng Q s) = rotV Q (angFi s) := by
  unfold angFi
  have := rotV_add_mul (Q := Q) (fun i => s.ext.a * s.ext.lastFi i) s.ext.lastX s.ext.lastE
  rw [← this, ← rotV_mul]
  rfl

include hQ in
theorem angMu_rot (s : Core K n (AngExt K n)) (e : K) : angMu (rotAng Q s) e = angMu s e := by
  unfold angMu
  rw [angFi_rot]
  simp only [rotAng, dot_rot hQ]

include hQ in
theorem rot_ang :
    BodyHom (ang K n) (ang K n) (fun _ => True) (rotAng Q) id id (rotV Q) (rotV Q) where
  dSurj d := ⟨d, rfl⟩
  xSurj := rotV_surj hQ
  withN _ _ := rfl
  pWithN _ _ h := h
  nAttr _ := rfl
  w _ := rfl
  body := fun (s : Core K n (AngExt K n)) hs hn d x => by
    refine ⟨_, _, _, ang_body s d x, trivial, hn, ?_⟩
    refine (ang_body (rotAng Q s) _ _).trans ?_
    have h1 : dot (rotAng Q s).w (rotV Q x) = dot s.w x := dot_rot hQ _ _
    have h2 : ∀ c e : K, (fun i => (rotAng Q s).w i + c * rotV Q x i * e) = rotV Q fun i => s.w i + c * x i * e := fun c e => rotV_add_mul_mul _ _ _ _
    have h3 : ∀ c : K, (fun i => (rotAng Q s).w i + c * rotV Q x i) = rotV Q fun i => s.w i + c * x i := fun c => rotV_add_mul _ _ _
    simp only [id, h1, dot_rot hQ, angMu_rot hQ, angFi_rot, h3]
    rfl

/-- Benveniste: the remembered input and gradient are multiplied as well -/
def rotBen (Q : Fin n → Fin n → K) (s : Core K n (BenExt K n)) : Core K n (BenExt K n) :=
  { s with w := rotV Q s.w, ext := { s.ext with lastX := rotV Q s.ext.lastX, lastFi := rotV Q s.ext.lastFi } }

theorem benFi_alt (s : Core K n (BenExt K n)) :
    benFi s = fun i => s.ext.lastFi i + (s.ext.lastE - s.ext.lastMu * dot s.ext.lastX s.ext.lastFi) * s.ext.lastX i := by
  funext i
  simp only [benFi, matVec_eq, outer, eye, sub_mul, ite_mul, one_mul, zero_mul, sum_sub_distrib, sum_ite_eq, mem_univ, if_true, dot_eq, mul_sum, sum_mul]
  rw [add_comm_sub]
  congr 2
  exact sum_congr rfl fun j _ => by ring

include hQ in
theorem benFi_rot (s : Core K n (BenExt K n)) : benFi (rotBen Q s) = rotV Q (benFi s) := by
  rw [benFi_alt, benFi_alt, ← rotV_add_mul]
  simp only [rotBen, dot_rot hQ]

include hQ in
theorem benMu_rot (s : Core K n (BenExt K n)) (e : K) : benMu (rotBen Q s) e = benMu s e := by
  unfold benMu
  rw [benFi_rot hQ]
  simp only [rotBen, dot_rot hQ]

include hQ in
theorem rot_benveniste :
    BodyHom (benveniste K n) (benveniste K n) (fun _ => True) (rotBen Q) id id (rotV Q) (rotV Q) where
  dSurj d := ⟨d, rfl⟩
  xSurj := rotV_surj hQ
  withN _ _ := rfl
  pWithN _ _ h := h
  nAttr _ := rfl
  w _ := rfl
  body := fun (s : Core K n (BenExt K n)) hs hn d x => by
    refine ⟨_, _, _, benveniste_body s hn d x, trivial, hn, ?_⟩
    refine (benveniste_body (rotBen Q s) hn _ _).trans ?_
    have h1 : dot (rotBen Q s).w (rotV Q x) = dot s.w x := dot_rot hQ _ _
    have h2 : ∀ c e : K, (fun i => (rotBen Q s).w i + c * rotV Q x i * e) = rotV Q fun i => s.w i + c * x i * e := fun c e => rotV_add_mul_mul _ _ _ _
    have h3 : ∀ c : K, (fun i => (rotBen Q s).w i + c * rotV Q x i) = rotV Q fun i => s.w i + c * x i := fun c => rotV_add_mul _ _ _
    simp only [id, h1, dot_rot hQ, benMu_rot hQ, benFi_rot hQ, h3]
    rfl

/-- `Q R Qᵀ` -/
def rotM (Q : Fin n → Fin n → K) (R : Mat K n n) : Mat K n n := fun i j => rotV Q (fun a => rotV Q (R a) j) i

/-- RLS: the inverse correlation matrix becomes `Q R Qᵀ` -/
def rotRls (Q : Fin n → Fin n → K) (s : Core K n (RlsExt K n)) : Core K n (RlsExt K n) :=
  { s with w := rotV Q s.w, ext := { s.ext with R := rotM Q s.ext.R } }

include hQ in
theorem matVec_rotM (R : Mat K n n) (x : Vec K n) : matVec (rotM Q R) (rotV Q x) = rotV Q (matVec R x) := by
  funext i
  have h : ∀ a, ∑ j, Q i a * rotV Q (R a) j * rotV Q x j = Q i a * matVec R x a := by
    intro a
    have := dot_rot hQ (R a) x
    rw [dot_eq] at this
    rw [show matVec R x a = dot (R a) x from rfl, ← this, mul_sum]
    exact sum_congr rfl fun j _ => by ring
  rw [matVec_eq]
  show ∑ j, (∑ a, Q i a * rotV Q (R a) j) * rotV Q x j = ∑ a, Q i a * matVec R x a
  simp only [sum_mul]
  rw [sum_comm]
  exact sum_congr rfl fun a _ => h a

include hQ in
theorem rotT_rot (x : Vec K n) (a : Fin n) : ∑ i, rotV Q x i * Q i a = x a := by
  simp only [rotV, sum_mul]
  rw [sum_comm]
  have : ∀ c, ∑ i, Q i c * x c * Q i a = (if c = a then 1 else 0) * x c := by
    intro c
    rw [← hQ.cols c a, sum_mul]
    exact sum_congr rfl fun k _ => by ring
  simp only [this, ite_mul, one_mul, zero_mul, sum_ite_eq', mem_univ, if_true]

include hQ in
theorem vecMat_rotM (R : Mat K n n) (x : Vec K n) : vecMat (rotV Q x) (rotM Q R) = rotV Q (vecMat x R) := by
  funext j
  rw [vecMat_eq]
  show ∑ i, rotV Q x i * (∑ a, Q i a * rotV Q (R a) j) = ∑ b, Q j b * vecMat x R b
  have h1 : ∑ i, rotV Q x i * (∑ a, Q i a * rotV Q (R a) j) = ∑ a, x a * rotV Q (R a) j := by
    simp only [mul_sum]
    rw [sum_comm]
    refine sum_congr rfl fun a _ => ?_
    rw [← rotT_rot hQ x a, sum_mul]
    exact sum_congr rfl fun i _ => by ring
  rw [h1]
  simp only [rotV, vecMat_eq, mul_sum]
  rw [sum_comm]
  exact sum_congr rfl fun b _ => sum_congr rfl fun a _ => by ring

theorem matMul_outer (R : Mat K n n) (x : Vec K n) (i j : Fin n) :
    matMul (matMul R (outer x x)) R i j = matVec R x i * vecMat x R j := by
  simp only [matMul_eq, outer, matVec_eq, vecMat_eq, sum_mul_sum]
  simp only [sum_mul]
  rw [sum_comm]
  exact sum_congr rfl fun a _ => sum_congr rfl fun b _ => by ring

include hQ in
theorem rlsR_rot (mu : K) (R : Mat K n n) (x : Vec K n) : rlsR mu (rotM Q R) (rotV Q x) = rotM Q (rlsR mu R x) := by
  funext i j
  have h : rlsR mu R x = fun a b => 1 / mu * (R a b - matVec R x a * vecMat x R b / (mu + dot (vecMat x R) x)) := by
    funext a b; rw [rlsR, matMul_outer]
  rw [h]
  simp only [rlsR, matMul_outer, matVec_rotM hQ, vecMat_rotM hQ, dot_rot hQ]
  generalize mu + dot (vecMat x R) x = c
  simp only [rotM, rotV, mul_sum, sum_mul, sum_div, mul_sub, sum_sub_distrib]
  congr 1
  · exact sum_congr rfl fun a _ => sum_congr rfl fun b _ => by ring
  · rw [sum_comm]
    exact sum_congr rfl fun a _ => sum_congr rfl fun b _ => by ring

include hQ in
theorem rot_rls :
    BodyHom (rls K n) (rls K n) (fun s => Scalar.eqz s.mu = false) (rotRls Q) id id (rotV Q) (rotV Q) where
  dSurj d := ⟨d, rfl⟩
  xSurj := rotV_surj hQ
  withN _ _ := rfl
  pWithN _ _ h := h
  nAttr _ := rfl
  w _ := rfl
  body := fun (s : Core K n (RlsExt K n)) hs hn d x => by
    refine ⟨_, _, _, rls_body s hs d x, hs, hn, ?_⟩
    refine (rls_body (rotRls Q s) hs _ _).trans ?_
    have h1 : dot (rotRls Q s).w (rotV Q x) = dot s.w x := dot_rot hQ _ _
    have h2 : rlsR (rotRls Q s).mu (rotRls Q s).ext.R (rotV Q x) = rotM Q (rlsR s.mu s.ext.R x) := rlsR_rot hQ s.mu s.ext.R x
    have h4 : ∀ (v : Vec K n) (e : K), (fun i => (rotRls Q s).w i + rotV Q v i * e) = rotV Q fun i => s.w i + v i * e := fun v e => by
      have := rotV_add_mul (Q := Q) s.w v e
      simp only [mul_comm e] at this
      exact this
    simp only [id, h1, h2, matVec_rotM hQ, h4]
    rfl

/-- OCNLMS: the remembered inputs are multiplied as well -/
def rotOcExt (Q : Fin n → Fin n → K) (q : OcExt K n) : OcExt K n := { q with memX := q.memX.map (rotV Q) }
/-- OCNLMS: the remembered inputs are multiplied as well -/
def rotOc (Q : Fin n → Fin n → K) (s : Core K n (OcExt K n)) : Core K n (OcExt K n) :=
  { s with w := rotV Q s.w, ext := rotOcExt Q s.ext }

theorem rot_list_sum (l : List (Vec K n)) (i : Fin n) :
    ((l.map (rotV Q)).map fun r => r i).sum = rotV Q (fun j => (l.map fun r => r j).sum) i := by
  induction l with
  | nil => simp only [List.map_nil, rotV]; exact (sum_eq_zero fun j _ => mul_zero _).symm
  | cons v t ih =>
    simp only [List.map_cons]
    rw [show ∀ (a : K) (l : List K), (a :: l).sum = a + l.sum from fun _ _ => rfl, ih]
    have : (fun j => (v j :: t.map fun r => r j).sum) = fun j => v j + 1 * (t.map fun r => r j).sum := by
      funext j; rw [one_mul]; rfl
    rw [this, ← rotV_add_mul]
    simp only [one_mul]

theorem meanRows_rot (l : List (Vec K n)) : meanRows (l.map (rotV Q)) = rotV Q (meanRows l) := by
  funext i
  simp only [meanRows, meanL, List.length_map, rot_list_sum]
  simp only [rotV, sum_div]
  exact sum_congr rfl fun j _ => by rw [mul_div_assoc, meanRows, meanL, List.length_map]

theorem ocMx_rot (q : OcExt K n) : ocMx (rotOcExt Q q) = rotV Q (ocMx q) := by
  unfold ocMx rotOcExt
  simp only [← List.map_take, meanRows_rot]
  split_ifs
  · exact rotV_zeros.symm
  · rfl
  · rfl

theorem ocMd_rot (q : OcExt K n) : ocMd (rotOcExt Q q) = ocMd q := rfl

theorem ocAdvance_rot (q : OcExt K n) : ocAdvance (rotOcExt Q q) = rotOcExt Q (ocAdvance q) := by
  unfold ocAdvance rotOcExt
  simp only [List.length_map]
  split_ifs <;> rfl

theorem ocStoreX_rot (q : OcExt K n) (x : Vec K n) :
    ocStoreX (rotOcExt Q q) (rotV Q x) = rotOcExt Q (ocStoreX q x) := by
  unfold ocStoreX rotOcExt
  simp only [List.map_set]

theorem ocStoreD_rot (q : OcExt K n) (a : K) : ocStoreD (rotOcExt Q q) a = rotOcExt Q (ocStoreD q a) := rfl

theorem OcOk_rot {q : OcExt K n} (h : OcOk q) : OcOk (rotOcExt Q q) := by
  simpa [OcOk, rotOcExt] using h

include hQ in
theorem ocY_rot (s : Core K n (OcExt K n)) (x : Vec K n) : ocY (rotOc Q s) (rotV Q x) = ocY s x := by
  unfold ocY
  have e1 : (rotOc Q s).ext = rotOcExt Q s.ext := rfl
  have e2 : (rotOc Q s).w = rotV Q s.w := rfl
  rw [e1, e2, ocMx_rot, ocMd_rot, rotV_sub, dot_rot hQ]

include hQ in
theorem rot_ocnlms : BodyHom (ocnlms K n) (ocnlms K n) (fun s : Core K n (OcExt K n) => OcOk s.ext)
    (rotOc Q) id id (rotV Q) (rotV Q) where
  dSurj d := ⟨d, rfl⟩
  xSurj := rotV_surj hQ
  withN _ _ := rfl
  pWithN _ _ h := h
  nAttr _ := rfl
  w _ := rfl
  body := fun (s : Core K n (OcExt K n)) hs hn d x => by
    refine ⟨_, _, _, oc_body hs hn d x,
      OcOk_storeD (OcOk_advance (OcOk_storeX (OcOk_advance hs) x)) _, hn, ?_⟩
    refine (oc_body (s := rotOc Q s) (OcOk_rot hs) hn _ _).trans ?_
    have e1 : (rotOc Q s).ext = rotOcExt Q s.ext := rfl
    have e2 : (rotOc Q s).w = rotV Q s.w := rfl
    have e3 : ∀ m : Vec K n, (fun i => rotV Q x i - rotV Q m i) = rotV Q fun i => x i - m i := fun _ => rotV_sub _ _
    have e4 : ∀ (m : Vec K n) (i : Fin n), rotV Q x i - rotV Q m i = rotV Q (fun i => x i - m i) i := fun m i => congrFun (e3 m) i
    simp only [id, ocY_rot hQ, e1, e2, ocAdvance_rot, ocStoreX_rot, ocMx_rot, ocMd_rot, e4, dot_rot hQ,
      ocStoreD_rot, rotV_add_mul]
    rfl

/-- the columns multiplied by `Q` -/
def rotCols (Q : Fin n → Fin n → K) {m : ℕ} (X : Mat K n m) : Mat K n m := fun i j => rotV Q (fun a => X a j) i

/-- AP: the remembered inputs are multiplied as well -/
def rotAp (Q : Fin n → Fin n → K) {order : ℕ} (s : Core K n (ApExt K n order)) : Core K n (ApExt K n order) :=
  { s with w := rotV Q s.w, ext := { s.ext with xMem := rotCols Q s.ext.xMem } }

include hQ in
theorem rot_ap (solve : Solver K) {order : ℕ} (ho : 0 < order) (c : K)
    (hs : ∀ X : Mat K n order, ∃ P, solve order (apGram c X) (eye order) = .ok P) :
    BodyHom (ap K n solve order) (ap K n solve order) (fun s : Core K n (ApExt K n order) => s.ext.ifc = c)
      (rotAp Q) id id (rotV Q) (rotV Q) where
  dSurj d := ⟨d, rfl⟩
  xSurj := rotV_surj hQ
  withN _ _ := rfl
  pWithN _ _ h := h
  nAttr _ := rfl
  w _ := rfl
  body := fun (s : Core K n (ApExt K n order)) h hn d x => by
    subst h
    obtain ⟨P, hP⟩ := hs (apX s x)
    have e1 : apX (rotAp Q s) (rotV Q x) = rotCols Q (apX s x) := by
      funext i j
      simp only [apX, rotAp, rotCols, shiftCols]
      by_cases h0 : j.val = 0
      · simp only [h0, if_true]
      · simp only [h0, if_false, dite_false]
    have e0 : apGram s.ext.ifc (rotCols Q (apX s x)) = apGram s.ext.ifc (apX s x) := by
      funext a b
      simp only [apGram]
      congr 1
      exact dot_rot hQ (fun i => apX s x i a) fun i => apX s x i b
    have hP' : solve order (apGram (rotAp Q s).ext.ifc (apX (rotAp Q s) (rotV Q x))) (eye order) = .ok P := by
      rw [e1]; exact (congrArg (fun G => solve order G (eye order)) e0).trans hP
    refine ⟨_, _, _, ap_body solve ho s d x P hP, rfl, hn, ?_⟩
    refine (ap_body solve ho (rotAp Q s) (id d) (rotV Q x) P hP').trans ?_
    have e2 : apD (rotAp Q s) (id d) = apD s d := rfl
    have e3 : apY (rotAp Q s) (rotV Q x) = apY s x := by
      funext j
      simp only [apY, e1]
      exact dot_rot hQ (fun i => apX s x i j) s.w
    have e4 : apE (rotAp Q s) (id d) (rotV Q x) = apE s d x := by
      funext j
      simp only [apE, e2, e3]
    have e5 : ∀ (X : Mat K n order) (u : Vec K order), (fun i => dot (rotCols Q X i) u) = rotV Q fun i => dot (X i) u := by
      intro X u
      funext i
      simp only [dot_eq, rotCols, rotV, sum_mul, mul_sum]
      rw [sum_comm]
      exact sum_congr rfl fun a _ => sum_congr rfl fun b _ => by ring
    have e6 : ∀ (X : Mat K n order) (u : Vec K order) (m : K),
        (fun i => (rotAp Q s).w i + m * dot (rotCols Q X i) u) = rotV Q fun i => s.w i + m * dot (X i) u := by
      intro X u m
      rw [← rotV_add_mul, ← e5]
      rfl
    simp only [e1, e2, e3, e4, e6]
    rfl

end rot

section rotReal
variable {n : ℕ} {Q : Fin n → Fin n → ℝ} (hQ : Orthogonal Q)

include hQ in
theorem rot_gmcc :
    BodyHom (gmcc ℝ n) (gmcc ℝ n) (fun _ => True) (rotW Q) id id (rotV Q) (rotV Q) where
  dSurj d := ⟨d, rfl⟩
  xSurj := rotV_surj hQ
  withN _ _ := rfl
  pWithN _ _ h := h
  nAttr _ := rfl
  w _ := rfl
  body := fun (s : Core ℝ n (GmccExt ℝ)) hs hn d x => by
    refine ⟨_, _, _, gmcc_body s d x, trivial, hn, ?_⟩
    refine (gmcc_body (rotW Q s) _ _).trans ?_
    have h1 : dot (rotW Q s).w (rotV Q x) = dot s.w x := dot_rot hQ _ _
    have h2 : ∀ c e : ℝ, (fun i => (rotW Q s).w i + c * rotV Q x i * e) = rotV Q fun i => s.w i + c * x i * e := fun c e => rotV_add_mul_mul _ _ _ _
    have h3 : ∀ c : ℝ, (fun i => (rotW Q s).w i + c * rotV Q x i) = rotV Q fun i => s.w i + c * x i := fun c => rotV_add_mul _ _ _
    simp only [id, h1, dot_rot hQ, h3]
    rfl

include hQ in
theorem rot_llncosh :
    BodyHom (llncosh ℝ n) (llncosh ℝ n) (fun _ => True) (rotW Q) id id (rotV Q) (rotV Q) where
  dSurj d := ⟨d, rfl⟩
  xSurj := rotV_surj hQ
  withN _ _ := rfl
  pWithN _ _ h := h
  nAttr _ := rfl
  w _ := rfl
  body := fun (s : Core ℝ n (LlncoshExt ℝ)) hs hn d x => by
    refine ⟨_, _, _, llncosh_body s d x, trivial, hn, ?_⟩
    refine (llncosh_body (rotW Q s) _ _).trans ?_
    have h1 : dot (rotW Q s).w (rotV Q x) = dot s.w x := dot_rot hQ _ _
    have h2 : ∀ c e : ℝ, (fun i => (rotW Q s).w i + c * rotV Q x i * e) = rotV Q fun i => s.w i + c * x i * e := fun c e => rotV_add_mul_mul _ _ _ _
    have h3 : ∀ c : ℝ, (fun i => (rotW Q s).w i + c * rotV Q x i) = rotV Q fun i => s.w i + c * x i := fun c => rotV_add_mul _ _ _
    simp only [id, h1, dot_rot hQ, h3]
    rfl

theorem rotOf {C : FilterClass ℝ n} {P : Core ℝ n C.Ext → Prop} {f : Core ℝ n C.Ext → Core ℝ n C.Ext}
    (h : BodyHom C C P f id id (rotV Q) (rotV Q)) (s s' : Core ℝ n C.Ext) (hs : P s) (he : f s = s')
    (d : List ℝ) (x : List (List ℝ)) (hx : ∀ r ∈ x, r.length = n) :
    (run C d (x.map (rotRow Q)) ⟨s', []⟩).1 = (run C d x ⟨s, []⟩).1.map fun r =>
      (r.1, r.2.1, r.2.2.map (rotRow Q)) := by
  have := h.run ⟨s, []⟩ hs [] d x hx (rotRow Q) (rotRow Q) rotRow_ofFn rotRow_ofFn
  rw [List.map_id] at this
  rw [← he]
  refine this.trans ?_
  cases (run C d x ⟨s, []⟩).1 with
  | error e => rfl
  | ok r => simp [Except.map]

include hQ in
theorem rotRls_init (w : Vec ℝ n) (mu eps : ℝ) (q : RlsExt ℝ n) (h : rlsInit eps = .ok q) :
    rotRls Q ⟨w, n, mu, q⟩ = ⟨rotV Q w, n, mu, q⟩ := by
  unfold rlsInit at h
  split at h
  · exact nomatch h
  · obtain rfl := Except.ok.inj h
    simp only [rotRls]
    congr 2
    funext i j
    simp only [rotM, rotV, eye, mul_sum, mul_ite, mul_one, mul_zero, sum_ite_eq, mem_univ, if_true]
    have := hQ.rows i j
    rw [show (∑ a, Q i a * (Q j a * (1 / eps))) = 1 / eps * ∑ a, Q i a * Q j a by
      rw [mul_sum]; exact sum_congr rfl fun a _ => by ring]
    rw [this]
    split_ifs <;> simp

theorem rotOc_init (w : Vec ℝ n) (mu eps : ℝ) (mem : ℕ) (b : Bool) (l : List (Vec ℝ n)) (l' : List ℝ) (k : ℕ) :
    rotOc Q ⟨w, n, mu, ocClear mem ⟨eps, b, l, l', k⟩⟩ = ⟨rotV Q w, n, mu, ocClear mem ⟨eps, b, l, l', k⟩⟩ := by
  simp only [rotOc, rotOcExt, ocClear, List.map_replicate, rotV_zeros]

/-- C81: for every filter except the sign filters SSLMS and NSSLMS, `filter_data` with every input row and the initial weights multiplied by the
same orthogonal matrix (a rotation, a reflection, ...) returns the same outputs and errors, and the weight history with its rows multiplied likewise
(and raises the same exception otherwise). -/
theorem C81_orthogonal (env : Env ℝ) (upper : String → String) (model : String) (kw : Kwargs ℝ)
    (hp : ∀ t, getFilter upper model = .ok t → ParamsOk env t kw) (hns : ∀ t, getFilter upper model = .ok t → t ≠ .sslms ∧ t ≠ .nsslms)
    (hQ : Orthogonal Q) (w : Vec ℝ n) (d : List ℝ) (x : List (List ℝ)) (hx : ∀ r ∈ x, r.length = n) :
    filterData env upper d (x.map (rotRow Q)) n model
        { kw with w := some (.arr (List.ofFn fun i => ∑ j, Q i j * w j)) }
      = (filterData env upper d x n model { kw with w := some (.arr (List.ofFn w)) }).map fun r =>
          (r.1, r.2.1, r.2.2.map (rotRow Q)) := by
  refine filterData_congr env upper model kw w (rotV Q w) d d x (x.map (rotRow Q)) _ ?_
  intro t mu ht hmu
  have hp := hp t ht
  have hns := hns t ht
  cases t
  case lms => exact rotOf (rot_lms hQ) _ _ trivial (by rfl) d x hx
  case lmf => exact rotOf (rot_lmf hQ) _ _ trivial (by rfl) d x hx
  case sslms => exact absurd rfl hns.1
  case nlms => exact rotOf (rot_nlms hQ) _ _ trivial (by rfl) d x hx
  case nlmf => exact rotOf (rot_nlmf hQ) _ _ trivial (by rfl) d x hx
  case nsslms => exact absurd rfl hns.2
  case gmcc => exact rotOf (rot_gmcc hQ) _ _ trivial (by rfl) d x hx
  case llncosh => exact rotOf (rot_llncosh hQ) _ _ trivial (by rfl) d x hx
  case gngd => exact rotOf (rot_gngd hQ) _ _ trivial (by simp only [rotGngd, rotV_zeros]; rfl) d x hx
  case vslmsMathews => exact rotOf (rot_mathews hQ) _ _ trivial (by simp only [rotMathews, rotV_zeros]; rfl) d x hx
  case vslmsAng => exact rotOf (rot_ang hQ) _ _ trivial (by simp only [rotAng, rotV_zeros]; rfl) d x hx
  case vslmsBenveniste => exact rotOf (rot_benveniste hQ) _ _ trivial (by simp only [rotBen, rotV_zeros]; rfl) d x hx
  case rls =>
    simp only [runNew, initExt]
    cases hr : rlsInit (n := n) (kw.eps.getD (lit 1 1000)) with
    | error e => rfl
    | ok q => exact rotOf (rot_rls hQ) _ _ (hp.1 rfl mu hmu) (rotRls_init hQ _ _ _ _ hr) d x hx
  case ocnlms =>
    refine rotOf (rot_ocnlms hQ) _ _ ?_ (rotOc_init _ _ _ _ _ _ _ _) d x hx
    have := hp.2.1 rfl
    exact ⟨by simp [ocClear], by simp [ocClear]; omega⟩
  case ap =>
    obtain ⟨h1, h2⟩ := hp.2.2 rfl
    refine rotOf (rot_ap hQ env.solve h1 _ (h2 n)) _ _ rfl ?_ d x hx
    have : rotCols Q (fun _ => zeros (kw.order.getD 5) : Mat ℝ n (kw.order.getD 5)) = fun _ => zeros _ := by
      funext i j
      exact congrFun (rotV_zeros (Q := Q)) i
    simp only [rotAp, this]
    rfl

/-- an orthogonal matrix that is neither a permutation nor a sign change -/
noncomputable def exQ : Fin 2 → Fin 2 → ℝ := ![![3 / 5, 4 / 5], ![-4 / 5, 3 / 5]]

example : Orthogonal exQ := by
  constructor <;> intro i j <;> fin_cases i <;> fin_cases j <;> simp [exQ, Fin.sum_univ_two] <;> norm_num

end rotReal

/-- the same rotation over `ℚ` -/
def exQr : Fin 2 → Fin 2 → ℚ := ![![3 / 5, 4 / 5], ![-4 / 5, 3 / 5]]

/-- C81 (witness): the sign filter SSLMS is not invariant. `x = (1, 1)`, `d = 1`, `mu = 1`: the prediction after one update of `w = 0` is 2, with rotated data
it is 8/5. -/
theorem C81_sslms_not_invariant :
    ((run (sslms ℚ 2) [1, 1] [[1, 1], [1, 1]] ⟨⟨zeros 2, 2, 1, ()⟩, []⟩).1.map fun r => r.1) = .ok [0, 2] ∧
    ((run (sslms ℚ 2) [1, 1] ([[1, 1], [1, 1]].map (rotRow exQr)) ⟨⟨zeros 2, 2, 1, ()⟩, []⟩).1.map fun r => r.1) = .ok [0, 8 / 5] := by
  decide +kernel

end Padasip
