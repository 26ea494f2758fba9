import Verif.Lemmas.Hom
import Verif.Lemmas.Field
import Verif.Lemmas.Gram
import Verif.Spec.Solve
import Verif.Spec.Example
import Verif.Props.Ap

/-!
# C82: changing the units of the input and of the desired signal

The input is measured in another unit (every entry multiplied by `c`), and so is the desired signal (multiplied by `a`).  For every filter there is a
change of its parameters after which it behaves exactly as before.
-/

set_option linter.unusedSectionVars false
set_option linter.unusedSimpArgs false
set_option linter.unusedVariables false

namespace Padasip

open Finset

/-- **Specification**: outputs and errors in the new unit of `d`, weights in the new unit (`a / c`). -/
def newUnits {K : Type} [Field K] (a c : K) (r : List K × List K × List (List K)) : List K × List K × List (List K) :=
  (r.1.map (a * ·), r.2.1.map (a * ·), r.2.2.map (List.map (a / c * ·)))

section units
variable {K : Type} [Field K] [LinearOrder K] {n : ℕ} {a c : K}

/-- a vector multiplied by a number -/
def mulV {m : ℕ} (b : K) (v : Vec K m) : Vec K m := fun i => b * v i

theorem dot_mulV (b b' : K) (u v : Vec K n) : dot (mulV b u) (mulV b' v) = b * b' * dot u v := by
  simp only [dot_eq, mulV, mul_sum]
  exact sum_congr rfl fun i _ => by ring

theorem dot_mulV_wx (hc : c ≠ 0) (u v : Vec K n) : dot (mulV (a / c) u) (mulV c v) = a * dot u v := by
  rw [dot_mulV, div_mul_cancel₀ a hc]

theorem mulV_surj {m : ℕ} {b : K} (hb : b ≠ 0) (v : Vec K m) : ∃ u, mulV b u = v :=
  ⟨fun i => v i / b, by funext i; exact mul_div_cancel₀ (v i) hb⟩

theorem mul_surj {b : K} (hb : b ≠ 0) (d : K) : ∃ d', b * d' = d := ⟨d / b, mul_div_cancel₀ d hb⟩

theorem map_ofFn_mulV (b : K) (v : Vec K n) : (List.ofFn v).map (b * ·) = List.ofFn (mulV b v) := by
  rw [List.map_ofFn]; rfl

/-- conclusion of a homomorphism for `run` -/
theorem unitsOf {C : FilterClass K n} {P : Core K n C.Ext → Prop} {f : Core K n C.Ext → Core K n C.Ext}
    (h : BodyHom C C P f (a * ·) (a * ·) (mulV c) (mulV (a / c))) (s s' : Core K n C.Ext) (hs : P s) (he : f s = s') (H H' : List (List K))
    (d : List K) (x : List (List K)) (hx : ∀ r ∈ x, r.length = n) :
    (run C (d.map (a * ·)) (x.map (List.map (c * ·))) ⟨s', H'⟩).1 = (run C d x ⟨s, H⟩).1.map (newUnits a c) := by
  have := h.run ⟨s, H⟩ hs H' d x hx (List.map (c * ·)) (List.map (a / c * ·)) (map_ofFn_mulV c) (map_ofFn_mulV (a / c))
  rw [← he]
  exact this

/-- attributes of LMS in the new units -/
def uLms (a c : K) (s : Core K n Unit) : Core K n Unit := { s with w := mulV (a / c) s.w, mu := s.mu / c ^ 2 }

theorem units_lms (ha : a ≠ 0) (hc : c ≠ 0) :
    BodyHom (lms K n) (lms K n) (fun _ => True) (uLms a c) (a * ·) (a * ·) (mulV c) (mulV (a / c)) where
  dSurj := mul_surj ha
  xSurj := mulV_surj hc
  withN _ _ := rfl
  pWithN _ _ h := h
  nAttr _ := rfl
  w _ := rfl
  body := fun (s : Core K n Unit) hs hn d x => by
    refine ⟨_, _, _, lms_body s d x, trivial, hn, ?_⟩
    refine (lms_body (uLms a c s) _ _).trans ?_
    have h1 : dot (uLms a c s).w (mulV c x) = a * dot s.w x := dot_mulV_wx hc _ _
    have h2 : a * d - a * dot s.w x = a * (d - dot s.w x) := by ring
    simp only [h1, h2]
    generalize d - dot s.w x = e
    congr 2
    funext i
    show a / c * s.w i + s.mu / c ^ 2 * (c * x i) * (a * e) = a / c * (s.w i + s.mu * x i * e)
    field_simp
/-- attributes of LMF in the new units -/
def uLmf (a c : K) (s : Core K n Unit) : Core K n Unit := { s with w := mulV (a / c) s.w, mu := s.mu / (a ^ 2 * c ^ 2) }

theorem units_lmf (ha : a ≠ 0) (hc : c ≠ 0) :
    BodyHom (lmf K n) (lmf K n) (fun _ => True) (uLmf a c) (a * ·) (a * ·) (mulV c) (mulV (a / c)) where
  dSurj := mul_surj ha
  xSurj := mulV_surj hc
  withN _ _ := rfl
  pWithN _ _ h := h
  nAttr _ := rfl
  w _ := rfl
  body := fun (s : Core K n Unit) hs hn d x => by
    refine ⟨_, _, _, lmf_body s d x, trivial, hn, ?_⟩
    refine (lmf_body (uLmf a c s) _ _).trans ?_
    have h1 : dot (uLmf a c s).w (mulV c x) = a * dot s.w x := dot_mulV_wx hc _ _
    have h2 : a * d - a * dot s.w x = a * (d - dot s.w x) := by ring
    simp only [h1, h2]
    generalize d - dot s.w x = e
    congr 2
    funext i
    show a / c * s.w i + s.mu / (a ^ 2 * c ^ 2) * (c * x i) * (a * e * (a * e) * (a * e)) = a / c * (s.w i + s.mu * x i * (e * e * e))
    field_simp
theorem norm_units (eps : K) (x : Vec K n) (m : K) : m / (c ^ 2 * eps + dot (mulV c x) (mulV c x)) = m / (eps + dot x x) / c ^ 2 := by
  rw [dot_mulV, show c ^ 2 * eps + c * c * dot x x = (eps + dot x x) * c ^ 2 by ring, div_mul_eq_div_div]

/-- attributes of NLMS in the new units -/
def uNlms (a c : K) (s : Core K n (EpsExt K)) : Core K n (EpsExt K) := { s with w := mulV (a / c) s.w, ext := ⟨c ^ 2 * s.ext.eps⟩ }

theorem units_nlms (ha : a ≠ 0) (hc : c ≠ 0) :
    BodyHom (nlms K n) (nlms K n) (fun _ => True) (uNlms a c) (a * ·) (a * ·) (mulV c) (mulV (a / c)) where
  dSurj := mul_surj ha
  xSurj := mulV_surj hc
  withN _ _ := rfl
  pWithN _ _ h := h
  nAttr _ := rfl
  w _ := rfl
  body := fun (s : Core K n (EpsExt K)) hs hn d x => by
    refine ⟨_, _, _, nlms_body s d x, trivial, hn, ?_⟩
    refine (nlms_body (uNlms a c s) _ _).trans ?_
    have h1 : dot (uNlms a c s).w (mulV c x) = a * dot s.w x := dot_mulV_wx hc _ _
    have h2 : a * d - a * dot s.w x = a * (d - dot s.w x) := by ring
    simp only [h1, h2]
    generalize d - dot s.w x = e
    congr 2
    funext i
    show a / c * s.w i + s.mu / (c ^ 2 * s.ext.eps + dot (mulV c x) (mulV c x)) * (c * x i) * (a * e)
      = a / c * (s.w i + s.mu / (s.ext.eps + dot x x) * x i * e)
    rw [norm_units]
    generalize s.mu / (s.ext.eps + dot x x) = g
    field_simp
/-- attributes of NLMF in the new units -/
def uNlmf (a c : K) (s : Core K n (EpsExt K)) : Core K n (EpsExt K) := { s with w := mulV (a / c) s.w, mu := s.mu / a ^ 2, ext := ⟨c ^ 2 * s.ext.eps⟩ }

theorem units_nlmf (ha : a ≠ 0) (hc : c ≠ 0) :
    BodyHom (nlmf K n) (nlmf K n) (fun _ => True) (uNlmf a c) (a * ·) (a * ·) (mulV c) (mulV (a / c)) where
  dSurj := mul_surj ha
  xSurj := mulV_surj hc
  withN _ _ := rfl
  pWithN _ _ h := h
  nAttr _ := rfl
  w _ := rfl
  body := fun (s : Core K n (EpsExt K)) hs hn d x => by
    refine ⟨_, _, _, nlmf_body s d x, trivial, hn, ?_⟩
    refine (nlmf_body (uNlmf a c s) _ _).trans ?_
    have h1 : dot (uNlmf a c s).w (mulV c x) = a * dot s.w x := dot_mulV_wx hc _ _
    have h2 : a * d - a * dot s.w x = a * (d - dot s.w x) := by ring
    simp only [h1, h2]
    generalize d - dot s.w x = e
    congr 2
    funext i
    show a / c * s.w i + s.mu / a ^ 2 / (c ^ 2 * s.ext.eps + dot (mulV c x) (mulV c x)) * (c * x i) * (a * e * (a * e) * (a * e))
      = a / c * (s.w i + s.mu / (s.ext.eps + dot x x) * x i * (e * e * e))
    rw [norm_units, div_right_comm s.mu]
    generalize s.mu / (s.ext.eps + dot x x) = g
    field_simp
theorem sgn_mul_pos [IsStrictOrderedRing K] {b : K} (hb : 0 < b) (t : K) : Scalar.sgn (b * t) = (Scalar.sgn t : K) := by
  show (if 0 < b * t then (1 : K) else if b * t < 0 then -1 else 0) = if 0 < t then 1 else if t < 0 then -1 else 0
  have h1 : 0 < b * t ↔ 0 < t := by constructor <;> intro h; · exact (mul_pos_iff_of_pos_left hb).mp h
                                    · exact mul_pos hb h
  have h2 : b * t < 0 ↔ t < 0 := by
    constructor
    · intro h; by_contra h3; exact absurd (mul_nonneg hb.le (not_lt.mp h3)) (not_le.mpr h)
    · intro h; exact mul_neg_of_pos_of_neg hb h
  simp only [h1, h2]

/-- attributes of SSLMS in the new units -/
def uSslms (a c : K) (s : Core K n Unit) : Core K n Unit := { s with w := mulV (a / c) s.w, mu := a / c * s.mu }

theorem units_sslms [IsStrictOrderedRing K] (hap : 0 < a) (hcp : 0 < c) (ha : a ≠ 0) (hc : c ≠ 0) :
    BodyHom (sslms K n) (sslms K n) (fun _ => True) (uSslms a c) (a * ·) (a * ·) (mulV c) (mulV (a / c)) where
  dSurj := mul_surj ha
  xSurj := mulV_surj hc
  withN _ _ := rfl
  pWithN _ _ h := h
  nAttr _ := rfl
  w _ := rfl
  body := fun (s : Core K n Unit) hs hn d x => by
    refine ⟨_, _, _, sslms_body s d x, trivial, hn, ?_⟩
    refine (sslms_body (uSslms a c s) _ _).trans ?_
    have h1 : dot (uSslms a c s).w (mulV c x) = a * dot s.w x := dot_mulV_wx hc _ _
    have h2 : a * d - a * dot s.w x = a * (d - dot s.w x) := by ring
    simp only [h1, h2]
    generalize d - dot s.w x = e
    congr 2
    funext i
    show a / c * s.w i + a / c * s.mu * Scalar.sgn (c * x i) * Scalar.sgn (a * e) = a / c * (s.w i + s.mu * Scalar.sgn (x i) * Scalar.sgn e)
    rw [sgn_mul_pos hap, sgn_mul_pos hcp]
    ring
/-- attributes of NSSLMS in the new units -/
def uNsslms (a c : K) (s : Core K n (EpsExt K)) : Core K n (EpsExt K) := { s with w := mulV (a / c) s.w, mu := a * c * s.mu, ext := ⟨c ^ 2 * s.ext.eps⟩ }

theorem units_nsslms [IsStrictOrderedRing K] (hap : 0 < a) (hcp : 0 < c) (ha : a ≠ 0) (hc : c ≠ 0) :
    BodyHom (nsslms K n) (nsslms K n) (fun _ => True) (uNsslms a c) (a * ·) (a * ·) (mulV c) (mulV (a / c)) where
  dSurj := mul_surj ha
  xSurj := mulV_surj hc
  withN _ _ := rfl
  pWithN _ _ h := h
  nAttr _ := rfl
  w _ := rfl
  body := fun (s : Core K n (EpsExt K)) hs hn d x => by
    refine ⟨_, _, _, nsslms_body s d x, trivial, hn, ?_⟩
    refine (nsslms_body (uNsslms a c s) _ _).trans ?_
    have h1 : dot (uNsslms a c s).w (mulV c x) = a * dot s.w x := dot_mulV_wx hc _ _
    have h2 : a * d - a * dot s.w x = a * (d - dot s.w x) := by ring
    simp only [h1, h2]
    generalize d - dot s.w x = e
    congr 2
    funext i
    show a / c * s.w i + a * c * s.mu / (c ^ 2 * s.ext.eps + dot (mulV c x) (mulV c x)) * Scalar.sgn (c * x i) * Scalar.sgn (a * e)
      = a / c * (s.w i + s.mu / (s.ext.eps + dot x x) * Scalar.sgn (x i) * Scalar.sgn e)
    rw [sgn_mul_pos hap, sgn_mul_pos hcp, norm_units, mul_div_assoc (a * c)]
    generalize s.mu / (s.ext.eps + dot x x) = g
    field_simp
/-- attributes of GNGD in the new units -/
def uGngd (a c : K) (s : Core K n (GngdExt K n)) : Core K n (GngdExt K n) :=
  { s with w := mulV (a / c) s.w, ext := ⟨c ^ 2 * s.ext.eps, c ^ 4 / a ^ 2 * s.ext.ro, a * s.ext.lastE, mulV c s.ext.lastX⟩ }

theorem gngdEps_units (ha : a ≠ 0) (hc : c ≠ 0) (s : Core K n (GngdExt K n)) (e : K) (x : Vec K n) :
    gngdEps (uGngd a c s) (a * e) (mulV c x) = c ^ 2 * gngdEps s e x := by
  simp only [gngdEps, uGngd, dot_mulV]
  rw [show c * c * dot s.ext.lastX s.ext.lastX + c ^ 2 * s.ext.eps = c ^ 2 * (dot s.ext.lastX s.ext.lastX + s.ext.eps) by ring]
  generalize dot s.ext.lastX s.ext.lastX + s.ext.eps = D
  rw [show c ^ 2 * D * (c ^ 2 * D) = c ^ 4 * (D * D) by ring, mul_sub]
  congr 1
  rw [show c ^ 4 / a ^ 2 * s.ext.ro * s.mu * (a * e) * (a * s.ext.lastE) * (c * c * dot x s.ext.lastX)
    = c ^ 4 * (c ^ 2 * (s.ext.ro * s.mu * e * s.ext.lastE * dot x s.ext.lastX)) by field_simp]
  rw [mul_div_mul_left _ _ (pow_ne_zero 4 hc), mul_div_assoc]

theorem units_gngd (ha : a ≠ 0) (hc : c ≠ 0) :
    BodyHom (gngd K n) (gngd K n) (fun _ => True) (uGngd a c) (a * ·) (a * ·) (mulV c) (mulV (a / c)) where
  dSurj := mul_surj ha
  xSurj := mulV_surj hc
  withN _ _ := rfl
  pWithN _ _ h := h
  nAttr _ := rfl
  w _ := rfl
  body := fun (s : Core K n (GngdExt K n)) hs hn d x => by
    refine ⟨_, _, _, gngd_body s d x, trivial, hn, ?_⟩
    refine (gngd_body (uGngd a c s) _ _).trans ?_
    have h1 : dot (uGngd a c s).w (mulV c x) = a * dot s.w x := dot_mulV_wx hc _ _
    have h2 : a * d - a * dot s.w x = a * (d - dot s.w x) := by ring
    simp only [h1, h2, gngdEps_units ha hc]
    generalize d - dot s.w x = e
    have h3 : (fun i => (uGngd a c s).w i + (uGngd a c s).mu / (c ^ 2 * gngdEps s e x + dot (mulV c x) (mulV c x)) * (a * e) * mulV c x i)
        = mulV (a / c) fun i => s.w i + s.mu / (gngdEps s e x + dot x x) * e * x i := by
      funext i
      show a / c * s.w i + s.mu / (c ^ 2 * gngdEps s e x + dot (mulV c x) (mulV c x)) * (a * e) * (c * x i)
        = a / c * (s.w i + s.mu / (gngdEps s e x + dot x x) * e * x i)
      rw [norm_units]
      generalize s.mu / (gngdEps s e x + dot x x) = g
      field_simp
    simp only [h3]
    rfl

/-- attributes of VSLMS (Mathews) in the new units -/
def uMathews (a c : K) (s : Core K n (MathewsExt K n)) : Core K n (MathewsExt K n) :=
  { s with w := mulV (a / c) s.w, mu := s.mu / c ^ 2, ext := ⟨s.ext.ro / (a ^ 2 * c ^ 4), a * s.ext.lastE, mulV c s.ext.lastX, s.ext.lastMu / c ^ 2⟩ }

theorem mathewsMu_units (ha : a ≠ 0) (hc : c ≠ 0) (s : Core K n (MathewsExt K n)) (e : K) (x : Vec K n) :
    mathewsMu (uMathews a c s) (a * e) (mulV c x) = mathewsMu s e x / c ^ 2 := by
  simp only [mathewsMu, uMathews, dot_mulV]
  field_simp

theorem step_units (hc : c ≠ 0) (w x : Vec K n) (m e : K) :
    (fun i => mulV (a / c) w i + m / c ^ 2 * (a * e) * mulV c x i) = mulV (a / c) fun i => w i + m * e * x i := by
  funext i
  simp only [mulV]
  field_simp

theorem units_mathews (ha : a ≠ 0) (hc : c ≠ 0) :
    BodyHom (mathews K n) (mathews K n) (fun _ => True) (uMathews a c) (a * ·) (a * ·) (mulV c) (mulV (a / c)) where
  dSurj := mul_surj ha
  xSurj := mulV_surj hc
  withN _ _ := rfl
  pWithN _ _ h := h
  nAttr _ := rfl
  w _ := rfl
  body := fun (s : Core K n (MathewsExt K n)) hs hn d x => by
    refine ⟨_, _, _, mathews_body s d x, trivial, hn, ?_⟩
    refine (mathews_body (uMathews a c s) _ _).trans ?_
    have h1 : dot (uMathews a c s).w (mulV c x) = a * dot s.w x := dot_mulV_wx hc _ _
    have h2 : a * d - a * dot s.w x = a * (d - dot s.w x) := by ring
    simp only [h1, h2, mathewsMu_units ha hc]
    have h3 := fun m e => step_units (a := a) hc s.w x m e
    have h4 : (uMathews a c s).w = mulV (a / c) s.w := rfl
    simp only [h4, h3]
    rfl

/-- attributes of VSLMS (Ang) in the new units -/
def uAng (a c : K) (s : Core K n (AngExt K n)) : Core K n (AngExt K n) :=
  { s with w := mulV (a / c) s.w, mu := s.mu / c ^ 2,
           ext := ⟨s.ext.ro / (a ^ 2 * c ^ 4), s.ext.a, a * s.ext.lastE, mulV c s.ext.lastX, mulV (a * c) s.ext.lastFi, s.ext.lastMu / c ^ 2⟩ }

theorem angFi_units (s : Core K n (AngExt K n)) : angFi (uAng a c s) = mulV (a * c) (angFi s) := by
  funext i
  simp only [angFi, uAng, mulV]
  ring

theorem angMu_units (ha : a ≠ 0) (hc : c ≠ 0) (s : Core K n (AngExt K n)) (e : K) :
    angMu (uAng a c s) (a * e) = angMu s e / c ^ 2 := by
  unfold angMu
  rw [angFi_units]
  simp only [uAng, dot_mulV]
  field_simp

theorem units_ang (ha : a ≠ 0) (hc : c ≠ 0) :
    BodyHom (ang K n) (ang K n) (fun _ => True) (uAng a c) (a * ·) (a * ·) (mulV c) (mulV (a / c)) where
  dSurj := mul_surj ha
  xSurj := mulV_surj hc
  withN _ _ := rfl
  pWithN _ _ h := h
  nAttr _ := rfl
  w _ := rfl
  body := fun (s : Core K n (AngExt K n)) hs hn d x => by
    refine ⟨_, _, _, ang_body s d x, trivial, hn, ?_⟩
    refine (ang_body (uAng a c s) _ _).trans ?_
    have h1 : dot (uAng a c s).w (mulV c x) = a * dot s.w x := dot_mulV_wx hc _ _
    have h2 : a * d - a * dot s.w x = a * (d - dot s.w x) := by ring
    simp only [h1, h2, angMu_units ha hc, angFi_units]
    have h3 := fun m e => step_units (a := a) hc s.w x m e
    have h4 : (uAng a c s).w = mulV (a / c) s.w := rfl
    simp only [h4, h3]
    rfl

/-- attributes of VSLMS (Benveniste) in the new units -/
def uBen (a c : K) (s : Core K n (BenExt K n)) : Core K n (BenExt K n) :=
  { s with w := mulV (a / c) s.w, mu := s.mu / c ^ 2,
           ext := ⟨s.ext.ro / (a ^ 2 * c ^ 4), a * s.ext.lastE, mulV c s.ext.lastX, mulV (a * c) s.ext.lastFi, s.ext.lastMu / c ^ 2⟩ }

theorem benFi_units (hc : c ≠ 0) (s : Core K n (BenExt K n)) : benFi (uBen a c s) = mulV (a * c) (benFi s) := by
  funext i
  simp only [benFi, uBen, mulV, matVec_eq, outer, mul_add, mul_sum]
  congr 1
  · refine sum_congr rfl fun j _ => ?_
    have : s.ext.lastMu / c ^ 2 * (c * s.ext.lastX i * (c * s.ext.lastX j)) = s.ext.lastMu * (s.ext.lastX i * s.ext.lastX j) := by field_simp
    rw [this]; ring
  · ring

theorem benMu_units (ha : a ≠ 0) (hc : c ≠ 0) (s : Core K n (BenExt K n)) (e : K) :
    benMu (uBen a c s) (a * e) = benMu s e / c ^ 2 := by
  unfold benMu
  rw [benFi_units hc]
  simp only [uBen, dot_mulV]
  field_simp

theorem units_benveniste (ha : a ≠ 0) (hc : c ≠ 0) :
    BodyHom (benveniste K n) (benveniste K n) (fun _ => True) (uBen a c) (a * ·) (a * ·) (mulV c) (mulV (a / c)) where
  dSurj := mul_surj ha
  xSurj := mulV_surj hc
  withN _ _ := rfl
  pWithN _ _ h := h
  nAttr _ := rfl
  w _ := rfl
  body := fun (s : Core K n (BenExt K n)) hs hn d x => by
    refine ⟨_, _, _, benveniste_body s hn d x, trivial, hn, ?_⟩
    refine (benveniste_body (uBen a c s) hn _ _).trans ?_
    have h1 : dot (uBen a c s).w (mulV c x) = a * dot s.w x := dot_mulV_wx hc _ _
    have h2 : a * d - a * dot s.w x = a * (d - dot s.w x) := by ring
    simp only [h1, h2, benMu_units ha hc, benFi_units hc]
    have h3 := fun m e => step_units (a := a) hc s.w x m e
    have h4 : (uBen a c s).w = mulV (a / c) s.w := rfl
    simp only [h4, h3]
    rfl

/-- attributes of RLS in the new units -/
def uRls (a c : K) (s : Core K n (RlsExt K n)) : Core K n (RlsExt K n) :=
  { s with w := mulV (a / c) s.w, ext := ⟨c ^ 2 * s.ext.eps, fun i j => s.ext.R i j / c ^ 2⟩ }

theorem rlsR_units (hc : c ≠ 0) (mu : K) (R : Mat K n n) (x : Vec K n) :
    rlsR mu (fun i j => R i j / c ^ 2) (mulV c x) = fun i j => rlsR mu R x i j / c ^ 2 := by
  funext i j
  have h1 : dot (vecMat (mulV c x) fun i j => R i j / c ^ 2) (mulV c x) = dot (vecMat x R) x := by
    simp only [dot_eq, vecMat_eq, mulV, sum_mul]
    exact sum_congr rfl fun k _ => sum_congr rfl fun l _ => by field_simp
  have h2 : matMul (matMul (fun i j => R i j / c ^ 2) (outer (mulV c x) (mulV c x))) (fun i j => R i j / c ^ 2) i j
      = matMul (matMul R (outer x x)) R i j / c ^ 2 := by
    simp only [matMul_eq, outer, mulV, sum_mul, sum_div]
    exact sum_congr rfl fun k _ => sum_congr rfl fun l _ => by field_simp
  simp only [rlsR, h1, h2]
  ring

theorem units_rls (ha : a ≠ 0) (hc : c ≠ 0) :
    BodyHom (rls K n) (rls K n) (fun s => Scalar.eqz s.mu = false) (uRls a c) (a * ·) (a * ·) (mulV c) (mulV (a / c)) where
  dSurj := mul_surj ha
  xSurj := mulV_surj hc
  withN _ _ := rfl
  pWithN _ _ h := h
  nAttr _ := rfl
  w _ := rfl
  body := fun (s : Core K n (RlsExt K n)) hs hn d x => by
    refine ⟨_, _, _, rls_body s hs d x, hs, hn, ?_⟩
    refine (rls_body (uRls a c s) hs _ _).trans ?_
    have h1 : dot (uRls a c s).w (mulV c x) = a * dot s.w x := dot_mulV_wx hc _ _
    have h2 : a * d - a * dot s.w x = a * (d - dot s.w x) := by ring
    have h3 : rlsR (uRls a c s).mu (uRls a c s).ext.R (mulV c x) = fun i j => rlsR s.mu s.ext.R x i j / c ^ 2 := rlsR_units hc s.mu s.ext.R x
    have h5 : ∀ i, matVec (fun i j => rlsR s.mu s.ext.R x i j / c ^ 2) (mulV c x) i = matVec (rlsR s.mu s.ext.R x) x i / c := fun i => by
      simp only [matVec_eq, mulV, sum_div]
      exact sum_congr rfl fun j _ => by field_simp
    simp only [h1, h2, h3, h5]
    generalize d - dot s.w x = e
    have h6 : (fun i => (uRls a c s).w i + matVec (rlsR s.mu s.ext.R x) x i / c * (a * e)) = mulV (a / c) fun i => s.w i + matVec (rlsR s.mu s.ext.R x) x i * e := by
      funext i
      show a / c * s.w i + _ = a / c * (s.w i + _)
      ring
    simp only [h6]
    rfl

/-- attributes of OCNLMS in the new units -/
def uOcExt (a c : K) (q : OcExt K n) : OcExt K n := { q with eps := c ^ 2 * q.eps, memX := q.memX.map (mulV c), memD := q.memD.map (a * ·) }
/-- attributes of OCNLMS in the new units -/
def uOc (a c : K) (s : Core K n (OcExt K n)) : Core K n (OcExt K n) := { s with w := mulV (a / c) s.w, ext := uOcExt a c s.ext }

theorem list_sum_mul (b : K) (l : List K) : (l.map (b * ·)).sum = b * l.sum := by
  induction l with
  | nil => exact (mul_zero b).symm
  | cons v t ih =>
    rw [List.map_cons, show ∀ (u : K) (l : List K), (u :: l).sum = u + l.sum from fun _ _ => rfl, ih]
    exact (mul_add b v t.sum).symm

theorem meanL_mul (b : K) (l : List K) : meanL (l.map (b * ·)) = b * meanL l := by
  unfold meanL
  rw [list_sum_mul, List.length_map, mul_div_assoc]

theorem meanRows_mul (l : List (Vec K n)) : meanRows (l.map (mulV c)) = mulV c (meanRows l) := by
  funext i
  simp only [meanRows, mulV]
  rw [← meanL_mul, List.map_map, List.map_map]
  rfl

theorem ocMx_units (q : OcExt K n) : ocMx (uOcExt a c q) = mulV c (ocMx q) := by
  unfold ocMx uOcExt
  simp only [← List.map_take, meanRows_mul]
  split_ifs
  · funext i; exact (mul_zero c).symm
  · rfl
  · rfl

theorem ocMd_units (q : OcExt K n) : ocMd (uOcExt a c q) = a * ocMd q := by
  unfold ocMd ocCenterD uOcExt
  simp only [List.length_map, ← List.map_take, meanL_mul]
  split_ifs
  · exact (mul_zero a).symm
  · rfl
  · show meanL ((q.memD.map (a * ·)).eraseIdx q.memIdx) = a * meanL (q.memD.eraseIdx q.memIdx)
    rw [← meanL_mul]
    congr 1
    exact (List.eraseIdx_map (a * ·) q.memD q.memIdx)
  · exact (mul_zero a).symm

theorem ocAdvance_units (q : OcExt K n) : ocAdvance (uOcExt a c q) = uOcExt a c (ocAdvance q) := by
  unfold ocAdvance uOcExt
  simp only [List.length_map]
  split_ifs <;> rfl

theorem ocStoreX_units (q : OcExt K n) (x : Vec K n) : ocStoreX (uOcExt a c q) (mulV c x) = uOcExt a c (ocStoreX q x) := by
  unfold ocStoreX uOcExt
  simp only [List.map_set]

theorem ocStoreD_units (q : OcExt K n) (b : K) : ocStoreD (uOcExt a c q) (a * b) = uOcExt a c (ocStoreD q b) := by
  unfold ocStoreD uOcExt
  simp only [List.map_set, List.length_map]

theorem OcOk_units {q : OcExt K n} (h : OcOk q) : OcOk (uOcExt a c q) := by
  simpa [OcOk, uOcExt] using h

theorem mulV_sub (u v : Vec K n) : (fun i => mulV c u i - mulV c v i) = mulV c fun i => u i - v i := by
  funext i; simp only [mulV]; ring

theorem ocY_units (hc : c ≠ 0) (s : Core K n (OcExt K n)) (x : Vec K n) : ocY (uOc a c s) (mulV c x) = a * ocY s x := by
  unfold ocY
  have e1 : (uOc a c s).ext = uOcExt a c s.ext := rfl
  have e2 : (uOc a c s).w = mulV (a / c) s.w := rfl
  rw [e1, e2, ocMx_units, ocMd_units, mulV_sub, dot_mulV_wx hc]
  ring

theorem units_ocnlms (ha : a ≠ 0) (hc : c ≠ 0) : BodyHom (ocnlms K n) (ocnlms K n) (fun s : Core K n (OcExt K n) => OcOk s.ext)
    (uOc a c) (a * ·) (a * ·) (mulV c) (mulV (a / c)) where
  dSurj := mul_surj ha
  xSurj := mulV_surj hc
  withN _ _ := rfl
  pWithN _ _ h := h
  nAttr _ := rfl
  w _ := rfl
  body := fun (s : Core K n (OcExt K n)) hs hn d x => by
    refine ⟨_, _, _, oc_body hs hn d x, OcOk_storeD (OcOk_advance (OcOk_storeX (OcOk_advance hs) x)) _, hn, ?_⟩
    refine (oc_body (s := uOc a c s) (OcOk_units hs) hn _ _).trans ?_
    have e1 : (uOc a c s).ext = uOcExt a c s.ext := rfl
    have e2 : (uOc a c s).w = mulV (a / c) s.w := rfl
    have e4 : ∀ (m : Vec K n) (i : Fin n), mulV c x i - mulV c m i = mulV c (fun i => x i - m i) i := fun m i => congrFun (mulV_sub x m) i
    simp only [ocY_units hc, e1, e2, ocAdvance_units, ocStoreX_units, ocMx_units, ocMd_units, e4, dot_mulV_wx hc]
    have h2 : ∀ y, a * d - a * y = a * (d - y) := fun y => by ring
    have h5 : ∀ u v t : K, a * u + (a * v + a * t) = a * (u + (v + t)) := fun u v t => by ring
    simp only [h2, h5, ocStoreD_units]
    refine Prod.ext rfl ?_
    simp only [uOc]
    congr 1
    funext i
    show a / c * s.w i + s.mu / (c ^ 2 * s.ext.eps + dot (mulV c _) (mulV c _)) * (a * (d - ocY s x)) * (c * _) = a / c * (s.w i + _ * (d - ocY s x) * _)
    rw [norm_units]
    field_simp

/-- attributes of AP in the new units -/
def uAp {order : ℕ} (a c : K) (s : Core K n (ApExt K n order)) : Core K n (ApExt K n order) :=
  { s with w := mulV (a / c) s.w, ext := ⟨c ^ 2 * s.ext.ifc, fun i => mulV c (s.ext.xMem i), mulV a s.ext.dMem, mulV a s.ext.yMem, mulV a s.ext.eMem⟩ }

/-- the solution for the matrix in the new units -/
theorem solve_units {solve : Solver K} (hsp : SolveSpec solve) (hc : c ≠ 0) {m : ℕ} (A A' P : Mat K m m)
    (hA : ∀ i j, A' i j = c ^ 2 * A i j) (hP : solve m A (eye m) = .ok P) : solve m A' (eye m) = .ok fun i j => P i j / c ^ 2 := by
  have hAm : Matrix.of A' = c ^ 2 • Matrix.of A := by
    ext i j; exact hA i j
  have hd : (Matrix.of A).det ≠ 0 := by
    intro h0
    rw [hsp.singular m A _ h0] at hP
    exact absurd hP (by simp)
  have hd' : (Matrix.of A').det ≠ 0 := by
    rw [hAm, Matrix.det_smul]
    exact mul_ne_zero (pow_ne_zero _ (pow_ne_zero 2 hc)) hd
  obtain ⟨P1, h1, h2⟩ := hsp.regular m A (eye m) hd
  obtain ⟨P2, h3, h4⟩ := hsp.regular m A' (eye m) hd'
  rw [hP] at h1
  cases h1
  rw [h3]
  congr 1
  have e1 : Matrix.of A * Matrix.of P = Matrix.of (eye m) := by
    ext i j
    rw [Matrix.mul_apply]
    exact ((matMul_eq A P i j).symm).trans (congrFun (congrFun h2 i) j)
  have e2 : Matrix.of A * (c ^ 2 • Matrix.of P2) = Matrix.of (eye m) := by
    rw [Matrix.mul_smul, ← Matrix.smul_mul, ← hAm]
    ext i j
    rw [Matrix.mul_apply]
    exact ((matMul_eq A' P2 i j).symm).trans (congrFun (congrFun h4 i) j)
  have hu : IsUnit (Matrix.of A).det := isUnit_iff_ne_zero.mpr hd
  have e3 : c ^ 2 • Matrix.of P2 = Matrix.of P := by
    have := congrArg (fun M => (Matrix.of A)⁻¹ * M) (e2.trans e1.symm)
    simpa only [← mul_assoc, Matrix.nonsing_inv_mul _ hu, one_mul] using this
  funext i j
  have : c ^ 2 * P2 i j = P i j := congrFun (congrFun e3 i) j
  rw [← this, mul_div_cancel_left₀ _ (pow_ne_zero 2 hc)]

theorem units_ap (solve : Solver K) (hsp : SolveSpec solve) {order : ℕ} (ho : 0 < order) (r : K)
    (hs : ∀ X : Mat K n order, ∃ P, solve order (apGram r X) (eye order) = .ok P) (ha : a ≠ 0) (hc : c ≠ 0) :
    BodyHom (ap K n solve order) (ap K n solve order) (fun s : Core K n (ApExt K n order) => s.ext.ifc = r)
      (uAp a c) (a * ·) (a * ·) (mulV c) (mulV (a / c)) where
  dSurj := mul_surj ha
  xSurj := mulV_surj hc
  withN _ _ := rfl
  pWithN _ _ h := h
  nAttr _ := rfl
  w _ := rfl
  body := fun (s : Core K n (ApExt K n order)) h hn d x => by
    subst h
    obtain ⟨P, hP⟩ := hs (apX s x)
    have e1 : apX (uAp a c s) (mulV c x) = fun i => mulV c (apX s x i) := by
      funext i j
      simp only [apX, uAp, mulV, shiftCols]
      by_cases h0 : j.val = 0
      · simp only [h0, if_true]
      · simp only [h0, if_false, dite_false]
    have e0 : ∀ p q, apGram (uAp a c s).ext.ifc (fun i => mulV c (apX s x i)) p q = c ^ 2 * apGram s.ext.ifc (apX s x) p q := by
      intro p q
      simp only [apGram]
      have : dot (fun i => mulV c (apX s x i) p) (fun i => mulV c (apX s x i) q) = c * c * dot (fun i => apX s x i p) fun i => apX s x i q :=
        dot_mulV c c (fun i => apX s x i p) fun i => apX s x i q
      rw [this]
      simp only [uAp]
      ring
    have hP' : solve order (apGram (uAp a c s).ext.ifc (apX (uAp a c s) (mulV c x))) (eye order) = .ok fun i j => P i j / c ^ 2 := by
      rw [e1]; exact solve_units hsp hc _ _ _ e0 hP
    refine ⟨_, _, _, ap_body solve ho s d x P hP, rfl, hn, ?_⟩
    refine (ap_body solve ho (uAp a c s) _ (mulV c x) _ hP').trans ?_
    have e2 : apD (uAp a c s) (a * d) = mulV a (apD s d) := by
      funext j
      simp only [apD, uAp, mulV, shiftVec]
      by_cases h0 : j.val = 0
      · simp only [h0, if_true]
      · simp only [h0, if_false, dite_false]
    have e3 : apY (uAp a c s) (mulV c x) = mulV a (apY s x) := by
      funext j
      simp only [apY, e1]
      have h5 := dot_mulV c (a / c) (fun i => apX s x i j) s.w
      rw [mul_div_cancel₀ a hc] at h5
      exact h5
    have e4 : apE (uAp a c s) (a * d) (mulV c x) = mulV a (apE s d x) := by
      funext j
      simp only [apE, e2, e3, mulV]
      ring
    have e6 : (fun i => (uAp a c s).w i + (uAp a c s).mu * dot (mulV c (apX s x i)) (matVec (fun i j => P i j / c ^ 2) (mulV a (apE s d x))))
        = mulV (a / c) fun i => s.w i + s.mu * dot (apX s x i) (matVec P (apE s d x)) := by
      funext i
      have h7 : matVec (fun i j => P i j / c ^ 2) (mulV a (apE s d x)) = mulV (a / c ^ 2) (matVec P (apE s d x)) := by
        funext k
        simp only [matVec_eq, mulV, mul_sum]
        exact sum_congr rfl fun l _ => by ring
      rw [h7, dot_mulV]
      show a / c * s.w i + s.mu * _ = a / c * (s.w i + s.mu * _)
      field_simp
    simp only [e1, e2, e3, e4, e6]
    rfl

end units

section unitsReal
variable {n : ℕ} {a c : ℝ}

/-- attributes of GMCC in the new units -/
noncomputable def uGmcc (a c : ℝ) (s : Core ℝ n (GmccExt ℝ)) : Core ℝ n (GmccExt ℝ) :=
  { s with w := mulV (a / c) s.w, mu := a ^ 2 / c ^ 2 * s.mu, ext := ⟨s.ext.lambd / a ^ s.ext.alpha, s.ext.alpha⟩ }

theorem units_gmcc (ha : 0 < a) (hc : c ≠ 0) :
    BodyHom (gmcc ℝ n) (gmcc ℝ n) (fun _ => True) (uGmcc a c) (a * ·) (a * ·) (mulV c) (mulV (a / c)) where
  dSurj := mul_surj ha.ne'
  xSurj := mulV_surj hc
  withN _ _ := rfl
  pWithN _ _ h := h
  nAttr _ := rfl
  w _ := rfl
  body := fun (s : Core ℝ n (GmccExt ℝ)) hs hn d x => by
    refine ⟨_, _, _, gmcc_body s d x, trivial, hn, ?_⟩
    refine (gmcc_body (uGmcc a c s) _ _).trans ?_
    have h1 : dot (uGmcc a c s).w (mulV c x) = a * dot s.w x := dot_mulV_wx hc _ _
    have h2 : a * d - a * dot s.w x = a * (d - dot s.w x) := by ring
    simp only [h1, h2]
    generalize d - dot s.w x = e
    congr 2
    funext i
    show a / c * s.w i + a ^ 2 / c ^ 2 * s.mu * (s.ext.lambd / a ^ s.ext.alpha) * s.ext.alpha
          * Real.exp (-(s.ext.lambd / a ^ s.ext.alpha) * |a * e| ^ s.ext.alpha) * |a * e| ^ (s.ext.alpha - 1) * Scalar.sgn (a * e) * (c * x i)
      = a / c * (s.w i + s.mu * s.ext.lambd * s.ext.alpha * Real.exp (-s.ext.lambd * |e| ^ s.ext.alpha) * |e| ^ (s.ext.alpha - 1) * Scalar.sgn e * x i)
    have hp : a ^ s.ext.alpha ≠ 0 := (Real.rpow_pos_of_pos ha _).ne'
    rw [sgn_mul_pos ha, abs_mul, abs_of_pos ha, Real.mul_rpow ha.le (abs_nonneg e), Real.mul_rpow ha.le (abs_nonneg e), Real.rpow_sub ha, Real.rpow_one,
      show -(s.ext.lambd / a ^ s.ext.alpha) * (a ^ s.ext.alpha * |e| ^ s.ext.alpha) = -s.ext.lambd * |e| ^ s.ext.alpha by field_simp]
    field_simp

/-- attributes of Llncosh in the new units -/
noncomputable def uLlncosh (a c : ℝ) (s : Core ℝ n (LlncoshExt ℝ)) : Core ℝ n (LlncoshExt ℝ) :=
  { s with w := mulV (a / c) s.w, mu := a / c ^ 2 * s.mu, ext := ⟨s.ext.lambd / a⟩ }

theorem units_llncosh (ha : a ≠ 0) (hc : c ≠ 0) :
    BodyHom (llncosh ℝ n) (llncosh ℝ n) (fun _ => True) (uLlncosh a c) (a * ·) (a * ·) (mulV c) (mulV (a / c)) where
  dSurj := mul_surj ha
  xSurj := mulV_surj hc
  withN _ _ := rfl
  pWithN _ _ h := h
  nAttr _ := rfl
  w _ := rfl
  body := fun (s : Core ℝ n (LlncoshExt ℝ)) hs hn d x => by
    refine ⟨_, _, _, llncosh_body s d x, trivial, hn, ?_⟩
    refine (llncosh_body (uLlncosh a c s) _ _).trans ?_
    have h1 : dot (uLlncosh a c s).w (mulV c x) = a * dot s.w x := dot_mulV_wx hc _ _
    have h2 : a * d - a * dot s.w x = a * (d - dot s.w x) := by ring
    simp only [h1, h2]
    generalize d - dot s.w x = e
    congr 2
    funext i
    show a / c * s.w i + a / c ^ 2 * s.mu * Real.tanh (s.ext.lambd / a * (a * e)) * (c * x i) = a / c * (s.w i + s.mu * Real.tanh (s.ext.lambd * e) * x i)
    rw [show s.ext.lambd / a * (a * e) = s.ext.lambd * e by field_simp]
    field_simp

/-- **Specification**: the keyword arguments of the filter in the new units (`a`: unit of `d`, `c`: unit of `x`); the numbers after `getD` are the
documented default values. -/
noncomputable def kwUnits (a c : ℝ) (kw : Kwargs ℝ) : Tag → Kwargs ℝ
  | .lms => { kw with mu := kw.mu.map (· / c ^ 2) }
  | .lmf => { kw with mu := kw.mu.map (· / (a ^ 2 * c ^ 2)) }
  | .sslms => { kw with mu := kw.mu.map (a / c * ·) }
  | .nlms => { kw with eps := some (c ^ 2 * kw.eps.getD 0.001) }
  | .nlmf => { kw with mu := some (kw.mu.getD 0.1 / a ^ 2), eps := some (c ^ 2 * kw.eps.getD 0.001) }
  | .nsslms => { kw with mu := some (a * c * kw.mu.getD 0.1), eps := some (c ^ 2 * kw.eps.getD 0.001) }
  | .gngd => { kw with eps := some (c ^ 2 * kw.eps.getD 1), ro := some (c ^ 4 / a ^ 2 * kw.ro.getD 0.1) }
  | .vslmsMathews => { kw with mu := some (kw.mu.getD 1 / c ^ 2), ro := some (kw.ro.getD 0.1 / (a ^ 2 * c ^ 4)) }
  | .vslmsAng => { kw with mu := some (kw.mu.getD 1 / c ^ 2), ro := some (kw.ro.getD 0.0002 / (a ^ 2 * c ^ 4)) }
  | .vslmsBenveniste => { kw with mu := some (kw.mu.getD 1 / c ^ 2), ro := some (kw.ro.getD 0.1 / (a ^ 2 * c ^ 4)) }
  | .gmcc => { kw with mu := some (a ^ 2 / c ^ 2 * kw.mu.getD 0.01), lambd := some (kw.lambd.getD 0.03 / a ^ kw.alpha.getD 2) }
  | .llncosh => { kw with mu := some (a / c ^ 2 * kw.mu.getD 0.01), lambd := some (kw.lambd.getD 3 / a) }
  | .rls => { kw with eps := some (c ^ 2 * kw.eps.getD 0.001) }
  | .ocnlms => { kw with eps := some (c ^ 2 * kw.eps.getD 1) }
  | .ap => { kw with ifc := some (c ^ 2 * kw.ifc.getD 0.001) }

theorem litR (p q : ℕ) : (lit p q : ℝ) = p / q := rfl

theorem kwUnits_bad (kw : Kwargs ℝ) (t : Tag) : badKeyword t (kwUnits a c kw t) = badKeyword t kw := by
  cases t <;> simp [kwUnits, badKeyword]

theorem filterData_kw (env : Env ℝ) (upper : String → String) (model : String) (t : Tag) (ht : getFilter upper model = .ok t) (kw kw' : Kwargs ℝ)
    (w w' : Vec ℝ n) (d d' : List ℝ) (x x' : List (List ℝ))
    (G : List ℝ × List ℝ × List (List ℝ) → List ℝ × List ℝ × List (List ℝ))
    (hb : badKeyword t kw' = badKeyword t kw)
    (h0 : (kw.mu <|> defaultMu t) = none → (kw'.mu <|> defaultMu t) = none)
    (h : ∀ mu, (kw.mu <|> defaultMu t) = some mu → ∃ mu', (kw'.mu <|> defaultMu t) = some mu' ∧
      runNew env n t kw' mu' w' d' x' = (runNew env n t kw mu w d x).map G) :
    filterData env upper d' x' n model { kw' with w := some (.arr (List.ofFn w')) }
      = (filterData env upper d x n model { kw with w := some (.arr (List.ofFn w)) }).map G := by
  rw [filterData_arr, filterData_arr]
  unfold getFilter at ht
  cases hd : dictGet (upper model) (filtersDict upper) with
  | none => rfl
  | some t' =>
    rw [hd] at ht
    cases ht
    simp only
    rw [hb]
    by_cases hb : badKeyword t kw = true
    · rw [if_pos hb, if_pos hb]; rfl
    · rw [if_neg hb, if_neg hb]
      cases hm : (kw.mu <|> defaultMu t) with
      | none => rw [h0 hm]; rfl
      | some mu =>
        obtain ⟨mu', h1, h2⟩ := h mu hm
        rw [h1]
        exact h2

theorem mulV_zeros {m : ℕ} (b : ℝ) : mulV b (zeros m : Vec ℝ m) = zeros m := by
  funext i; exact mul_zero b

theorem orElse_some {m : Option ℝ} {v mu : ℝ} (h : (m <|> some v) = some mu) : mu = m.getD v := by
  cases m with
  | none => exact (Option.some.inj h).symm
  | some u => exact (Option.some.inj h).symm

/-- C82: `filter_data` with the input measured in another unit (every entry of `x` multiplied by `c`), the desired signal measured in another unit
(multiplied by `a`), the weights multiplied by `a / c` and the parameters changed as in `kwUnits` returns the outputs and errors multiplied by `a` and the
weight history multiplied by `a / c` (and raises the same exception otherwise). -/
theorem C82_units (env : Env ℝ) (hsp : SolveSpec env.solve) (upper : String → String) (model : String) (t : Tag) (ht : getFilter upper model = .ok t)
    (kw : Kwargs ℝ) (hp : ParamsOk env t kw) (ha : a ≠ 0) (hc : c ≠ 0)
    (hpos : t = .sslms ∨ t = .nsslms → 0 < a ∧ 0 < c) (hpos' : t = .gmcc → 0 < a) (w : Vec ℝ n) (d : List ℝ) (x : List (List ℝ)) (hx : ∀ r ∈ x, r.length = n) :
    filterData env upper (d.map (a * ·)) (x.map (List.map (c * ·))) n model { kwUnits a c kw t with w := some (.arr (List.ofFn fun i => a / c * w i)) }
      = (filterData env upper d x n model { kw with w := some (.arr (List.ofFn w)) }).map (newUnits a c) := by
  refine filterData_kw env upper model t ht kw (kwUnits a c kw t) w (mulV (a / c) w) d _ x _ _ (kwUnits_bad kw t) ?_ ?_
  · cases t <;> simp [kwUnits, defaultMu]
  intro mu hmu
  cases t
  case lms =>
    refine ⟨mu / c ^ 2, by cases h : kw.mu <;> simp_all [kwUnits, defaultMu], ?_⟩
    exact unitsOf (units_lms ha hc) _ _ trivial (by rfl) _ _ d x hx
  case lmf =>
    refine ⟨mu / (a ^ 2 * c ^ 2), by cases h : kw.mu <;> simp_all [kwUnits, defaultMu], ?_⟩
    exact unitsOf (units_lmf ha hc) _ _ trivial (by rfl) _ _ d x hx
  case sslms =>
    obtain ⟨h1, h2⟩ := hpos (.inl rfl)
    refine ⟨a / c * mu, by cases h : kw.mu <;> simp_all [kwUnits, defaultMu], ?_⟩
    exact unitsOf (units_sslms h1 h2 ha hc) _ _ trivial (by rfl) _ _ d x hx
  case nlms =>
    refine ⟨mu, by rw [← hmu]; rfl, ?_⟩
    refine unitsOf (units_nlms ha hc) _ _ trivial ?_ _ _ d x hx
    simp only [uNlms, kwUnits, litR]; norm_num; rfl
  case nlmf =>
    have := orElse_some hmu
    refine ⟨_, rfl, ?_⟩
    refine unitsOf (units_nlmf ha hc) _ _ trivial ?_ _ _ d x hx
    simp only [uNlmf, kwUnits, litR, this]; norm_num; rfl
  case nsslms =>
    have := orElse_some hmu
    obtain ⟨h1, h2⟩ := hpos (.inr rfl)
    refine ⟨_, rfl, ?_⟩
    refine unitsOf (units_nsslms h1 h2 ha hc) _ _ trivial ?_ _ _ d x hx
    simp only [uNsslms, kwUnits, litR, this]; norm_num; rfl
  case gmcc =>
    have := orElse_some hmu
    refine ⟨_, rfl, ?_⟩
    refine unitsOf (units_gmcc (hpos' rfl) hc) _ _ trivial ?_ _ _ d x hx
    simp only [uGmcc, kwUnits, litR, this]; norm_num
    rfl
  case llncosh =>
    have := orElse_some hmu
    refine ⟨_, rfl, ?_⟩
    refine unitsOf (units_llncosh ha hc) _ _ trivial ?_ _ _ d x hx
    simp only [uLlncosh, kwUnits, litR, this]; norm_num
    rfl
  case gngd =>
    refine ⟨mu, by rw [← hmu]; rfl, ?_⟩
    refine unitsOf (units_gngd ha hc) _ _ trivial ?_ _ _ d x hx
    simp only [uGngd, kwUnits, litR, mulV_zeros, mul_zero]; norm_num; rfl
  case vslmsMathews =>
    have := orElse_some hmu
    refine ⟨_, rfl, ?_⟩
    refine unitsOf (units_mathews ha hc) _ _ trivial ?_ _ _ d x hx
    simp only [uMathews, kwUnits, litR, mulV_zeros, mul_zero, this]; norm_num; rfl
  case vslmsAng =>
    have := orElse_some hmu
    refine ⟨_, rfl, ?_⟩
    refine unitsOf (units_ang ha hc) _ _ trivial ?_ _ _ d x hx
    simp only [uAng, kwUnits, litR, mulV_zeros, mul_zero, this]; norm_num; rfl
  case vslmsBenveniste =>
    have := orElse_some hmu
    refine ⟨_, rfl, ?_⟩
    refine unitsOf (units_benveniste ha hc) _ _ trivial ?_ _ _ d x hx
    simp only [uBen, kwUnits, litR, mulV_zeros, mul_zero, this]; norm_num; rfl
  case rls =>
    refine ⟨mu, by rw [← hmu]; rfl, ?_⟩
    have hl : (lit 1 1000 : ℝ) = 0.001 := by rw [litR]; norm_num
    simp only [runNew, initExt, kwUnits, rlsInit, hl, Option.getD_some]
    by_cases h0 : kw.eps.getD 0.001 = 0
    · have e1 : Scalar.eqz (kw.eps.getD (0.001 : ℝ)) = true := decide_eq_true h0
      have e2 : Scalar.eqz (c ^ 2 * kw.eps.getD (0.001 : ℝ)) = true := decide_eq_true (by rw [h0, mul_zero])
      rw [if_pos e1, if_pos e2]; rfl
    · have e1 : ¬ Scalar.eqz (kw.eps.getD (0.001 : ℝ)) = true := fun h => h0 (of_decide_eq_true h)
      have e2 : ¬ Scalar.eqz (c ^ 2 * kw.eps.getD (0.001 : ℝ)) = true := fun h => (mul_ne_zero (pow_ne_zero 2 hc) h0) (of_decide_eq_true h)
      rw [if_neg e1, if_neg e2]
      refine unitsOf (units_rls ha hc) _ _ (hp.1 rfl mu hmu) ?_ _ _ d x hx
      simp only [uRls]
      congr 2
      funext i j
      rw [one_div, one_div, mul_inv]
      ring
  case ocnlms =>
    refine ⟨mu, by rw [← hmu]; rfl, ?_⟩
    refine unitsOf (units_ocnlms ha hc) _ _ ?_ ?_ _ _ d x hx
    · have := hp.2.1 rfl
      exact ⟨by simp [ocClear], by simp [ocClear]; omega⟩
    · simp only [uOc, uOcExt, kwUnits, ocClear, litR, List.map_replicate, mulV_zeros, mul_zero]; norm_num; rfl
  case ap =>
    obtain ⟨h1, h2⟩ := hp.2.2 rfl
    refine ⟨mu, by rw [← hmu]; rfl, ?_⟩
    refine unitsOf (units_ap env.solve hsp h1 _ (h2 n) ha hc) _ _ rfl ?_ _ _ d x hx
    simp only [uAp, kwUnits, litR, mulV_zeros]; norm_num; rfl

/-- the hypotheses of `C82_units` are met by an AP filter with the default `order` and `ifc`, centimetres and millivolts instead of metres and volts -/
example : SolveSpec exEnv.solve ∧ getFilter (fun s => s) "AP" = .ok .ap ∧ ParamsOk exEnv .ap { mu := some 1 } ∧ (1000 : ℝ) ≠ 0 ∧ (100 : ℝ) ≠ 0 := by
  refine ⟨exactSolve_spec, by decide +kernel, ⟨by simp, by simp, fun _ => ⟨by simp, fun n X => ?_⟩⟩, by norm_num, by norm_num⟩
  obtain ⟨P, hP, -⟩ := gram_solvable exactSolve_spec (K := ℝ) (c := lit 1 1000) (by rw [litR]; norm_num) X
  exact ⟨P, hP⟩

end unitsReal

/-- C82 (witness, and the theorem is not vacuous): without the change of the parameter the scaled problem behaves differently; NLMS with `eps = 1`, `mu = 1`,
`x = (1)`, `d = 1`: outputs 0, 1/2; scaled by 2 with `eps = 4` they are the same, with `eps = 1` they are 0, 4/5. -/
theorem C82_needs_parameters :
    ((run (nlms ℚ 1) [1, 1] [[1], [1]] ⟨⟨zeros 1, 1, 1, ⟨1⟩⟩, []⟩).1.map fun r => r.1) = .ok [0, 1 / 2] ∧
    ((run (nlms ℚ 1) [1, 1] [[2], [2]] ⟨⟨zeros 1, 1, 1, ⟨4⟩⟩, []⟩).1.map fun r => r.1) = .ok [0, 1 / 2] ∧
    ((run (nlms ℚ 1) [1, 1] [[2], [2]] ⟨⟨zeros 1, 1, 1, ⟨1⟩⟩, []⟩).1.map fun r => r.1) = .ok [0, 4 / 5] := by
  decide +kernel

end Padasip
