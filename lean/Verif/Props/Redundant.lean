import Verif.Props.Rotate

/-!
# C141: redundant input columns

If the input rows are `Q z` with orthonormal columns of `Q` (so `Q` may have more rows than columns), the filter with `n` weights behaves as the filter with `m` weights fed with `z`.
Zero columns, repeated columns and data confined to a subspace are special cases.
-/

set_option linter.unusedSectionVars false
set_option linter.unusedSimpArgs false
set_option linter.unusedVariables false

namespace Padasip

open Finset

/-- entry `i` of the result is `u[i] + Q[i,0] r[0] + Q[i,1] r[1] + ...` -/
def embRow {K : Type} [Field K] {m n : ℕ} (Q : Fin n → Fin m → K) (u : Fin n → K) (r : List K) : List K :=
  List.ofFn fun i => u i + ∑ j : Fin m, Q i j * r.getD j.val 0

/-- the columns of `Q` are orthonormal, and orthogonal to `u` -/
structure Redundant {K : Type} [Field K] {m n : ℕ} (Q : Fin n → Fin m → K) (u : Fin n → K) : Prop where
  cols : ∀ j l, ∑ i, Q i j * Q i l = if j = l then 1 else 0
  perp : ∀ j, ∑ i, u i * Q i j = 0

/-- every column of the data is zero or one of the original columns, possibly with the sign changed -/
def Copies {K : Type} [Field K] {m n : ℕ} (Q : Fin n → Fin m → K) : Prop :=
  ∀ i, (∀ j, Q i j = 0) ∨ ∃ j, (Q i j = 1 ∨ Q i j = -1) ∧ ∀ l, l ≠ j → Q i l = 0

section engine
variable {K : Type} [Scalar K] {m n : ℕ}

/-- a relation between the states of two filters of different size that is kept by the loop of `run` -/
structure BodyEmb (C : FilterClass K m) (C' : FilterClass K n) (P : Core K m C.Ext → Prop) (P' : Core K n C'.Ext → Prop)
    (R : Core K m C.Ext → Core K n C'.Ext → Prop) (gx gw : Vec K m → Vec K n) : Prop where
  safe' : Safe C' P'
  rP : ∀ s s', P s → R s s' → P' s'
  rN : ∀ s s', R s s' → R (s.withN m) (s'.withN n)
  pN : ∀ s, P s → P (s.withN m)
  w : ∀ s s', R s s' → s'.w = gw s.w
  body : ∀ s s', P s → R s s' → s.nAttr = m → s'.nAttr = n → ∀ (d : K) (x : Vec K m), ∃ y e t t',
    C.body d (List.ofFn x) s = (.ok (y, e), t) ∧ P t ∧ t.nAttr = m ∧
    C'.body d (List.ofFn (gx x)) s' = (.ok (y, e), t') ∧ R t t' ∧ t'.nAttr = n

variable {C : FilterClass K m} {C' : FilterClass K n} {P : Core K m C.Ext → Prop} {P' : Core K n C'.Ext → Prop}
  {R : Core K m C.Ext → Core K n C'.Ext → Prop} {gx gw : Vec K m → Vec K n}

theorem BodyEmb.safe (h : BodyEmb C C' P P' R gx gw) (hR : ∀ s, P s → ∃ s', R s s' ∧ s'.nAttr = n) : Safe C P := fun s hs hn d x => by
  obtain ⟨s', h1, h2⟩ := hR s hs
  obtain ⟨y, e, t, t', a, b, c, -⟩ := h.body s s' hs h1 hn h2 d x
  exact ⟨_, _, a, b, c⟩

theorem BodyEmb.traj (h : BodyEmb C C' P P' R gx gw) (s : Core K m C.Ext) (s' : Core K n C'.Ext) (hs : P s) (hR : R s s') (hn : s.nAttr = m) (hn' : s'.nAttr = n)
    (d : ℕ → K) (x : ℕ → Vec K m) (k : ℕ) :
    (P (Padasip.traj C s d x k) ∧ (Padasip.traj C s d x k).nAttr = m ∧
      R (Padasip.traj C s d x k) (Padasip.traj C' s' d (fun k => gx (x k)) k) ∧ (Padasip.traj C' s' d (fun k => gx (x k)) k).nAttr = n) ∧
    outAt C' s' d (fun k => gx (x k)) k = outAt C s d x k := by
  have h1 : P (Padasip.traj C s d x k) ∧ (Padasip.traj C s d x k).nAttr = m ∧
      R (Padasip.traj C s d x k) (Padasip.traj C' s' d (fun k => gx (x k)) k) ∧ (Padasip.traj C' s' d (fun k => gx (x k)) k).nAttr = n := by
    induction k with
    | zero => exact ⟨hs, hn, hR, hn'⟩
    | succ k ih =>
      obtain ⟨a, b, c, e⟩ := ih
      obtain ⟨y, er, t, t', h1, h2, h3, h4, h5, h6⟩ := h.body _ _ a c b e (d k) (x k)
      simp only [Padasip.traj]
      rw [h4, h1]
      exact ⟨h2, h3, h5, h6⟩
  refine ⟨h1, ?_⟩
  obtain ⟨a, b, c, e⟩ := h1
  obtain ⟨y, er, t, t', h1, h2, h3, h4, h5, h6⟩ := h.body _ _ a c b e (d k) (x k)
  simp only [outAt]
  rw [h4, h1]

theorem BodyEmb.run (h : BodyEmb C C' P P' R gx gw) (hC : Safe C P) (o : Obj C) (o' : Obj C') (ho : P o.core) (hR : R o.core o'.core) (d : List K)
    (x : List (List K)) (hx : ∀ r ∈ x, r.length = m) (gxl gwl : List K → List K)
    (hgx : ∀ v, gxl (List.ofFn v) = List.ofFn (gx v)) (hgw : ∀ v, gwl (List.ofFn v) = List.ofFn (gw v)) :
    (Padasip.run C' d (x.map gxl) o').1 = (Padasip.run C d x o).1.map fun r => (r.1, r.2.1, r.2.2.map gwl) := by
  by_cases hl : d.length = x.length
  swap
  · have e1 : Padasip.run C d x o = (.error .valueError, o) := by
      unfold Padasip.run; rw [if_pos hl]; rfl
    have e2 : Padasip.run C' d (x.map gxl) o' = (.error .valueError, o') := by
      unfold Padasip.run; rw [if_pos (by simpa using hl)]; rfl
    rw [e1, e2]; rfl
  by_cases he : x = []
  · subst he
    obtain rfl : d = [] := by simpa using hl
    rfl
  have hN : 0 < x.length := List.length_pos_iff.mpr he
  obtain ⟨ds, xs, h1, h2⟩ := exists_stream x hx d hl 0
  have hs0 : P (o.core.withN m) := h.pN _ ho
  have hR0 : R (o.core.withN m) (o'.core.withN n) := h.rN _ _ hR
  have r1 := run_traj hC o hs0 ds xs x.length hN
  rw [← h1, ← h2] at r1
  have r2 := run_traj h.safe' o' (h.rP _ _ hs0 hR0) ds (fun k => gx (xs k)) x.length hN
  have hx' : x.map gxl = rows (fun k => gx (xs k)) x.length := by
    conv_lhs => rw [h2]
    simp [rows, hgx]
  rw [← h1] at r2
  have ht := fun k => h.traj (o.core.withN m) (o'.core.withN n) hs0 hR0 rfl rfl ds xs k
  have hw : ∀ k, (Padasip.traj C' (o'.core.withN n) ds (fun k => gx (xs k)) k).w = gw (Padasip.traj C (o.core.withN m) ds xs k).w :=
    fun k => h.w _ _ (ht k).1.2.2.1
  rw [hx', r2, r1]
  simp only [Except.map, wAt, (ht _).2, hw]
  simp [series, hgw]

end engine

section emb
variable {K : Type} [Field K] [LinearOrder K] {m n : ℕ} {Q : Fin n → Fin m → K} {u : Fin n → K} (hQ : Redundant Q u)

/-- `Q v` -/
def embV (Q : Fin n → Fin m → K) (v : Fin m → K) : Fin n → K := fun i => ∑ j, Q i j * v j
/-- `u + Q v` -/
def embW (Q : Fin n → Fin m → K) (u : Fin n → K) (v : Fin m → K) : Fin n → K := fun i => u i + embV Q v i

theorem embV_add_mul (w x : Vec K m) (c : K) : (fun i => embV Q w i + c * embV Q x i) = embV Q fun i => w i + c * x i := by
  funext i
  simp only [embV, mul_sum, ← sum_add_distrib]
  exact sum_congr rfl fun j _ => by ring

theorem embV_mul (x : Vec K m) (c : K) : (fun i => c * embV Q x i) = embV Q fun i => c * x i := by
  funext i
  simp only [embV, mul_sum]
  exact sum_congr rfl fun j _ => by ring

theorem embV_sub (w x : Vec K m) : (fun i => embV Q w i - embV Q x i) = embV Q fun i => w i - x i := by
  have := embV_add_mul (Q := Q) w x (-1)
  simpa [← sub_eq_add_neg] using this

theorem embW_add_mul (w x : Vec K m) (c : K) : (fun i => embW Q u w i + c * embV Q x i) = embW Q u fun i => w i + c * x i := by
  have := embV_add_mul (Q := Q) w x c
  funext i
  have := congrFun this i
  simp only [embW, ← this]
  ring

theorem embW_add_mul_mul (w x : Vec K m) (c e : K) : (fun i => embW Q u w i + c * embV Q x i * e) = embW Q u fun i => w i + c * x i * e := by
  have := embW_add_mul (Q := Q) (u := u) w x (c * e)
  simpa only [mul_right_comm c e] using this

theorem embV_zeros : embV Q (zeros m) = zeros n := by
  funext i
  exact sum_eq_zero fun j _ => mul_zero _

include hQ in
theorem dot_emb (a b : Vec K m) : dot (embV Q a) (embV Q b) = dot a b := by
  simp only [dot_eq, embV, sum_mul_sum]
  rw [sum_comm]
  refine sum_congr rfl fun j _ => ?_
  rw [sum_comm]
  have : ∀ l, ∑ i, Q i j * a j * (Q i l * b l) = (if j = l then 1 else 0) * (a j * b l) := fun l => by
    rw [← hQ.cols j l, sum_mul]
    exact sum_congr rfl fun i _ => by ring
  simp only [this, ite_mul, one_mul, zero_mul, sum_ite_eq, mem_univ, if_true]

include hQ in
theorem dot_embW (a b : Vec K m) : dot (embW Q u a) (embV Q b) = dot a b := by
  rw [← dot_emb hQ a b]
  simp only [dot_eq, embW, add_mul, sum_add_distrib]
  have : ∑ i, u i * embV Q b i = 0 := by
    simp only [embV, mul_sum]
    rw [sum_comm]
    refine sum_eq_zero fun j _ => ?_
    rw [show ∑ i, u i * (Q i j * b j) = (∑ i, u i * Q i j) * b j by rw [sum_mul]; exact sum_congr rfl fun i _ => by ring, hQ.perp, zero_mul]
  rw [this, zero_add]

include hQ in
theorem dot_embW' (a b : Vec K m) : dot (embV Q b) (embW Q u a) = dot b a := by
  have := dot_embW hQ a b
  simp only [dot_eq] at *
  simpa only [mul_comm] using this

theorem embRow_ofFn (v : Vec K m) : embRow Q u (List.ofFn v) = List.ofFn (embW Q u v) := by
  unfold embRow
  congr 1; funext i
  exact congrArg (u i + ·) (sum_congr rfl fun j _ => by simp [List.getD])

theorem embRow_zero (v : Vec K m) : embRow Q (zeros n) (List.ofFn v) = List.ofFn (embV Q v) := by
  rw [embRow_ofFn]
  congr 1; funext i
  exact zero_add _

/-- the weights become `u + Q w`, the other attributes are kept -/
def embC (Q : Fin n → Fin m → K) (u : Fin n → K) {X : Type} (s : Core K m X) : Core K n X := ⟨embW Q u s.w, n, s.mu, s.ext⟩

include hQ in
theorem emb_lms :
    BodyEmb (lms K m) (lms K n) (fun _ => True) (fun _ => True) (fun s s' => s' = embC Q u s) (embV Q) (embW Q u) where
  safe' := lms_safe
  rP _ _ _ _ := trivial
  rN := by rintro s _ rfl; rfl
  pN _ _ := trivial
  w := by rintro s _ rfl; rfl
  body := fun (s : Core K m (Unit)) (s' : Core K n (Unit)) _ hR hn _ d x => by
    obtain rfl : s' = embC Q u s := hR
    refine ⟨_, _, _, _, lms_body s d x, trivial, hn, (lms_body (embC Q u s) d (embV Q x)).trans ?_, rfl, rfl⟩
    have h1 : dot (embC Q u s).w (embV Q x) = dot s.w x := dot_embW hQ _ _
    have h2 : ∀ (v : Vec K m) (c e : K), (fun i => (embC Q u s).w i + c * embV Q v i * e) = embW Q u fun i => s.w i + c * v i * e := fun v c e => embW_add_mul_mul _ _ _ _
    have h3 : ∀ c : K, (fun i => (embC Q u s).w i + c * embV Q x i) = embW Q u fun i => s.w i + c * x i := fun c => embW_add_mul _ _ _
    simp only [h1, dot_emb hQ, h2]
    rfl

include hQ in
theorem emb_lmf :
    BodyEmb (lmf K m) (lmf K n) (fun _ => True) (fun _ => True) (fun s s' => s' = embC Q u s) (embV Q) (embW Q u) where
  safe' := lmf_safe
  rP _ _ _ _ := trivial
  rN := by rintro s _ rfl; rfl
  pN _ _ := trivial
  w := by rintro s _ rfl; rfl
  body := fun (s : Core K m (Unit)) (s' : Core K n (Unit)) _ hR hn _ d x => by
    obtain rfl : s' = embC Q u s := hR
    refine ⟨_, _, _, _, lmf_body s d x, trivial, hn, (lmf_body (embC Q u s) d (embV Q x)).trans ?_, rfl, rfl⟩
    have h1 : dot (embC Q u s).w (embV Q x) = dot s.w x := dot_embW hQ _ _
    have h2 : ∀ (v : Vec K m) (c e : K), (fun i => (embC Q u s).w i + c * embV Q v i * e) = embW Q u fun i => s.w i + c * v i * e := fun v c e => embW_add_mul_mul _ _ _ _
    have h3 : ∀ c : K, (fun i => (embC Q u s).w i + c * embV Q x i) = embW Q u fun i => s.w i + c * x i := fun c => embW_add_mul _ _ _
    simp only [h1, dot_emb hQ, h2]
    rfl

include hQ in
theorem emb_nlms :
    BodyEmb (nlms K m) (nlms K n) (fun _ => True) (fun _ => True) (fun s s' => s' = embC Q u s) (embV Q) (embW Q u) where
  safe' := nlms_safe
  rP _ _ _ _ := trivial
  rN := by rintro s _ rfl; rfl
  pN _ _ := trivial
  w := by rintro s _ rfl; rfl
  body := fun (s : Core K m (EpsExt K)) (s' : Core K n (EpsExt K)) _ hR hn _ d x => by
    obtain rfl : s' = embC Q u s := hR
    refine ⟨_, _, _, _, nlms_body s d x, trivial, hn, (nlms_body (embC Q u s) d (embV Q x)).trans ?_, rfl, rfl⟩
    have h1 : dot (embC Q u s).w (embV Q x) = dot s.w x := dot_embW hQ _ _
    have h2 : ∀ (v : Vec K m) (c e : K), (fun i => (embC Q u s).w i + c * embV Q v i * e) = embW Q u fun i => s.w i + c * v i * e := fun v c e => embW_add_mul_mul _ _ _ _
    have h3 : ∀ c : K, (fun i => (embC Q u s).w i + c * embV Q x i) = embW Q u fun i => s.w i + c * x i := fun c => embW_add_mul _ _ _
    simp only [h1, dot_emb hQ, h2]
    rfl

include hQ in
theorem emb_nlmf :
    BodyEmb (nlmf K m) (nlmf K n) (fun _ => True) (fun _ => True) (fun s s' => s' = embC Q u s) (embV Q) (embW Q u) where
  safe' := nlmf_safe
  rP _ _ _ _ := trivial
  rN := by rintro s _ rfl; rfl
  pN _ _ := trivial
  w := by rintro s _ rfl; rfl
  body := fun (s : Core K m (EpsExt K)) (s' : Core K n (EpsExt K)) _ hR hn _ d x => by
    obtain rfl : s' = embC Q u s := hR
    refine ⟨_, _, _, _, nlmf_body s d x, trivial, hn, (nlmf_body (embC Q u s) d (embV Q x)).trans ?_, rfl, rfl⟩
    have h1 : dot (embC Q u s).w (embV Q x) = dot s.w x := dot_embW hQ _ _
    have h2 : ∀ (v : Vec K m) (c e : K), (fun i => (embC Q u s).w i + c * embV Q v i * e) = embW Q u fun i => s.w i + c * v i * e := fun v c e => embW_add_mul_mul _ _ _ _
    have h3 : ∀ c : K, (fun i => (embC Q u s).w i + c * embV Q x i) = embW Q u fun i => s.w i + c * x i := fun c => embW_add_mul _ _ _
    simp only [h1, dot_emb hQ, h2]
    rfl

/-- GNGD: the remembered input is embedded as well -/
def embGngd (Q : Fin n → Fin m → K) (u : Fin n → K) (s : Core K m (GngdExt K m)) : Core K n (GngdExt K n) :=
  ⟨embW Q u s.w, n, s.mu, ⟨s.ext.eps, s.ext.ro, s.ext.lastE, embV Q s.ext.lastX⟩⟩

include hQ in
theorem gngdEps_emb (s : Core K m (GngdExt K m)) (e : K) (x : Vec K m) : gngdEps (embGngd Q u s) e (embV Q x) = gngdEps s e x := by
  simp only [gngdEps, embGngd, dot_emb hQ]

include hQ in
theorem emb_gngd :
    BodyEmb (gngd K m) (gngd K n) (fun _ => True) (fun _ => True) (fun s s' => s' = embGngd Q u s) (embV Q) (embW Q u) where
  safe' := gngd_safe
  rP _ _ _ _ := trivial
  rN := by rintro s _ rfl; rfl
  pN _ _ := trivial
  w := by rintro s _ rfl; rfl
  body := fun (s : Core K m (GngdExt K m)) (s' : Core K n (GngdExt K n)) _ hR hn _ d x => by
    obtain rfl : s' = embGngd Q u s := hR
    refine ⟨_, _, _, _, gngd_body s d x, trivial, hn, (gngd_body (embGngd Q u s) d (embV Q x)).trans ?_, rfl, rfl⟩
    have h1 : dot (embGngd Q u s).w (embV Q x) = dot s.w x := dot_embW hQ _ _
    have h2 : ∀ (v : Vec K m) (c e : K), (fun i => (embGngd Q u s).w i + c * embV Q v i * e) = embW Q u fun i => s.w i + c * v i * e := fun v c e => embW_add_mul_mul _ _ _ _
    have h3 : ∀ c : K, (fun i => (embGngd Q u s).w i + c * embV Q x i) = embW Q u fun i => s.w i + c * x i := fun c => embW_add_mul _ _ _
    simp only [h1, dot_emb hQ, gngdEps_emb hQ, h3]
    rfl

/-- Mathews: the remembered input is embedded as well -/
def embMathews (Q : Fin n → Fin m → K) (u : Fin n → K) (s : Core K m (MathewsExt K m)) : Core K n (MathewsExt K n) :=
  ⟨embW Q u s.w, n, s.mu, ⟨s.ext.ro, s.ext.lastE, embV Q s.ext.lastX, s.ext.lastMu⟩⟩

include hQ in
theorem mathewsMu_emb (s : Core K m (MathewsExt K m)) (e : K) (x : Vec K m) : mathewsMu (embMathews Q u s) e (embV Q x) = mathewsMu s e x := by
  simp only [mathewsMu, embMathews, dot_emb hQ]

include hQ in
theorem emb_mathews :
    BodyEmb (mathews K m) (mathews K n) (fun _ => True) (fun _ => True) (fun s s' => s' = embMathews Q u s) (embV Q) (embW Q u) where
  safe' := mathews_safe
  rP _ _ _ _ := trivial
  rN := by rintro s _ rfl; rfl
  pN _ _ := trivial
  w := by rintro s _ rfl; rfl
  body := fun (s : Core K m (MathewsExt K m)) (s' : Core K n (MathewsExt K n)) _ hR hn _ d x => by
    obtain rfl : s' = embMathews Q u s := hR
    refine ⟨_, _, _, _, mathews_body s d x, trivial, hn, (mathews_body (embMathews Q u s) d (embV Q x)).trans ?_, rfl, rfl⟩
    have h1 : dot (embMathews Q u s).w (embV Q x) = dot s.w x := dot_embW hQ _ _
    have h2 : ∀ (v : Vec K m) (c e : K), (fun i => (embMathews Q u s).w i + c * embV Q v i * e) = embW Q u fun i => s.w i + c * v i * e := fun v c e => embW_add_mul_mul _ _ _ _
    have h3 : ∀ c : K, (fun i => (embMathews Q u s).w i + c * embV Q x i) = embW Q u fun i => s.w i + c * x i := fun c => embW_add_mul _ _ _
    simp only [h1, dot_emb hQ, mathewsMu_emb hQ, h3]
    rfl

/-- Ang: the remembered input and gradient are embedded as well -/
def embAng (Q : Fin n → Fin m → K) (u : Fin n → K) (s : Core K m (AngExt K m)) : Core K n (AngExt K n) :=
  ⟨embW Q u s.w, n, s.mu, ⟨s.ext.ro, s.ext.a, s.ext.lastE, embV Q s.ext.lastX, embV Q s.ext.lastFi, s.ext.lastMu⟩⟩

theorem angFi_emb (s : Core K m (AngExt K m)) : angFi (embAng Q u s) = embV Q (angFi s) := by
  unfold angFi
  have := embV_add_mul (Q := Q) (fun i => s.ext.a * s.ext.lastFi i) s.ext.lastX s.ext.lastE
  rw [← this, ← embV_mul]
  rfl

include hQ in
theorem angMu_emb (s : Core K m (AngExt K m)) (e : K) : angMu (embAng Q u s) e = angMu s e := by
  unfold angMu
  rw [angFi_emb]
  simp only [embAng, dot_emb hQ]

include hQ in
theorem emb_ang :
    BodyEmb (ang K m) (ang K n) (fun _ => True) (fun _ => True) (fun s s' => s' = embAng Q u s) (embV Q) (embW Q u) where
  safe' := ang_safe
  rP _ _ _ _ := trivial
  rN := by rintro s _ rfl; rfl
  pN _ _ := trivial
  w := by rintro s _ rfl; rfl
  body := fun (s : Core K m (AngExt K m)) (s' : Core K n (AngExt K n)) _ hR hn _ d x => by
    obtain rfl : s' = embAng Q u s := hR
    refine ⟨_, _, _, _, ang_body s d x, trivial, hn, (ang_body (embAng Q u s) d (embV Q x)).trans ?_, rfl, rfl⟩
    have h1 : dot (embAng Q u s).w (embV Q x) = dot s.w x := dot_embW hQ _ _
    have h2 : ∀ (v : Vec K m) (c e : K), (fun i => (embAng Q u s).w i + c * embV Q v i * e) = embW Q u fun i => s.w i + c * v i * e := fun v c e => embW_add_mul_mul _ _ _ _
    have h3 : ∀ c : K, (fun i => (embAng Q u s).w i + c * embV Q x i) = embW Q u fun i => s.w i + c * x i := fun c => embW_add_mul _ _ _
    simp only [h1, dot_emb hQ, angMu_emb hQ, angFi_emb, h3]
    rfl

/-- Benveniste: the remembered input and gradient are embedded as well -/
def embBen (Q : Fin n → Fin m → K) (u : Fin n → K) (s : Core K m (BenExt K m)) : Core K n (BenExt K n) :=
  ⟨embW Q u s.w, n, s.mu, ⟨s.ext.ro, s.ext.lastE, embV Q s.ext.lastX, embV Q s.ext.lastFi, s.ext.lastMu⟩⟩

include hQ in
theorem benFi_emb (s : Core K m (BenExt K m)) : benFi (embBen Q u s) = embV Q (benFi s) := by
  rw [benFi_alt, benFi_alt, ← embV_add_mul]
  simp only [embBen, dot_emb hQ]

include hQ in
theorem benMu_emb (s : Core K m (BenExt K m)) (e : K) : benMu (embBen Q u s) e = benMu s e := by
  unfold benMu
  rw [benFi_emb hQ]
  simp only [embBen, dot_emb hQ]

include hQ in
theorem emb_benveniste :
    BodyEmb (benveniste K m) (benveniste K n) (fun _ => True) (fun _ => True) (fun s s' => s' = embBen Q u s) (embV Q) (embW Q u) where
  safe' := benveniste_safe
  rP _ _ _ _ := trivial
  rN := by rintro s _ rfl; rfl
  pN _ _ := trivial
  w := by rintro s _ rfl; rfl
  body := fun (s : Core K m (BenExt K m)) (s' : Core K n (BenExt K n)) _ hR hn _ d x => by
    obtain rfl : s' = embBen Q u s := hR
    refine ⟨_, _, _, _, benveniste_body s hn d x, trivial, hn, (benveniste_body (embBen Q u s) rfl d (embV Q x)).trans ?_, rfl, rfl⟩
    have h1 : dot (embBen Q u s).w (embV Q x) = dot s.w x := dot_embW hQ _ _
    have h2 : ∀ (v : Vec K m) (c e : K), (fun i => (embBen Q u s).w i + c * embV Q v i * e) = embW Q u fun i => s.w i + c * v i * e := fun v c e => embW_add_mul_mul _ _ _ _
    have h3 : ∀ c : K, (fun i => (embBen Q u s).w i + c * embV Q x i) = embW Q u fun i => s.w i + c * x i := fun c => embW_add_mul _ _ _
    simp only [h1, dot_emb hQ, benMu_emb hQ, benFi_emb hQ, h3]
    rfl

/-- RLS: on the embedded inputs the big matrix acts as the small one -/
def EmbRls (Q : Fin n → Fin m → K) (u : Fin n → K) (s : Core K m (RlsExt K m)) (s' : Core K n (RlsExt K n)) : Prop :=
  s'.w = embW Q u s.w ∧ s'.mu = s.mu ∧ (∀ v, matVec s'.ext.R (embV Q v) = embV Q (matVec s.ext.R v)) ∧ ∀ v, vecMat (embV Q v) s'.ext.R = embV Q (vecMat v s.ext.R)

theorem rlsR_matVec {k : ℕ} (mu : K) (R : Mat K k k) (x v : Vec K k) :
    matVec (rlsR mu R x) v = fun i => 1 / mu * (matVec R v i + (-(dot (vecMat x R) v / (mu + dot (vecMat x R) x))) * matVec R x i) := by
  funext i
  rw [matVec_eq]
  simp only [rlsR, matMul_outer, matVec_eq R v, dot_eq (vecMat x R) v]
  simp only [sum_div, mul_add, mul_sum, neg_mul, sum_mul, ← sum_neg_distrib, ← sum_add_distrib]
  exact sum_congr rfl fun j _ => by ring

theorem rlsR_vecMat {k : ℕ} (mu : K) (R : Mat K k k) (x v : Vec K k) :
    vecMat v (rlsR mu R x) = fun i => 1 / mu * (vecMat v R i + (-(dot v (matVec R x) / (mu + dot (vecMat x R) x))) * vecMat x R i) := by
  funext i
  rw [vecMat_eq]
  simp only [rlsR, matMul_outer, vecMat_eq v R, dot_eq v]
  simp only [sum_div, mul_add, mul_sum, neg_mul, sum_mul, ← sum_neg_distrib, ← sum_add_distrib]
  exact sum_congr rfl fun j _ => by ring

include hQ in
theorem emb_rls : BodyEmb (rls K m) (rls K n) (fun s => Scalar.eqz s.mu = false) (fun s => Scalar.eqz s.mu = false) (EmbRls Q u) (embV Q) (embW Q u) where
  safe' := rls_safe
  rP := fun (s : Core K m (RlsExt K m)) (s' : Core K n (RlsExt K n)) h hR => by
    show Scalar.eqz s'.mu = false
    rw [hR.2.1]; exact h
  rN _ _ h := h
  pN _ h := h
  w _ _ h := h.1
  body := fun (s : Core K m (RlsExt K m)) (s' : Core K n (RlsExt K n)) hs hR hn hn' d x => by
    obtain ⟨hw, hmu, h1, h2⟩ := hR
    have hs' : Scalar.eqz s'.mu = false := by rw [hmu]; exact hs
    have hd : dot s'.w (embV Q x) = dot s.w x := by rw [hw]; exact dot_embW hQ _ _
    have hden : dot (vecMat (embV Q x) s'.ext.R) (embV Q x) = dot (vecMat x s.ext.R) x := by rw [h2, dot_emb hQ]
    have k1 : ∀ v, matVec (rlsR s'.mu s'.ext.R (embV Q x)) (embV Q v) = embV Q (matVec (rlsR s.mu s.ext.R x) v) := by
      intro v
      rw [rlsR_matVec, rlsR_matVec, hden, hmu, h2, h1, h1, dot_emb hQ]
      rw [← embV_mul, ← embV_add_mul]
    have k2 : ∀ v, vecMat (embV Q v) (rlsR s'.mu s'.ext.R (embV Q x)) = embV Q (vecMat v (rlsR s.mu s.ext.R x)) := by
      intro v
      rw [rlsR_vecMat, rlsR_vecMat, hden, hmu, h1, h2, h2, dot_emb hQ]
      rw [← embV_mul, ← embV_add_mul]
    let t' : Core K n (RlsExt K n) :=
      ⟨embW Q u (fun i => s.w i + matVec (rlsR s.mu s.ext.R x) x i * (d - dot s.w x)), s'.nAttr, s'.mu, { s'.ext with R := rlsR s'.mu s'.ext.R (embV Q x) }⟩
    refine ⟨_, _, _, t', rls_body s hs d x, hs, hn, (rls_body s' hs' d (embV Q x)).trans ?_, ?_, ?_⟩
    · rw [hd, k1]
      refine congrArg (Prod.mk _) ?_
      congr 1
      have := embW_add_mul (Q := Q) (u := u) s.w (matVec (rlsR s.mu s.ext.R x) x) (d - dot s.w x)
      rw [hw]
      simpa only [mul_comm (d - dot s.w x)] using this
    · exact ⟨rfl, hmu, k1, k2⟩
    · exact hn'

/-- OCNLMS: the remembered inputs are embedded as well -/
def embOcExt (Q : Fin n → Fin m → K) (q : OcExt K m) : OcExt K n := ⟨q.eps, q.memEmpty, q.memX.map (embV Q), q.memD, q.memIdx⟩
/-- OCNLMS: the remembered inputs are embedded as well -/
def embOc (Q : Fin n → Fin m → K) (u : Fin n → K) (s : Core K m (OcExt K m)) : Core K n (OcExt K n) :=
  ⟨embW Q u s.w, n, s.mu, embOcExt Q s.ext⟩

theorem emb_list_sum (l : List (Vec K m)) (i : Fin n) :
    ((l.map (embV Q)).map fun r => r i).sum = embV Q (fun j => (l.map fun r => r j).sum) i := by
  induction l with
  | nil => simp only [List.map_nil, embV]; exact (sum_eq_zero fun j _ => mul_zero _).symm
  | cons v t ih =>
    simp only [List.map_cons]
    rw [show ∀ (a : K) (l : List K), (a :: l).sum = a + l.sum from fun _ _ => rfl, ih]
    have : (fun j => (v j :: t.map fun r => r j).sum) = fun j => v j + 1 * (t.map fun r => r j).sum := by
      funext j; rw [one_mul]; rfl
    rw [this, ← embV_add_mul]
    simp only [one_mul]

theorem meanRows_emb (l : List (Vec K m)) : meanRows (l.map (embV Q)) = embV Q (meanRows l) := by
  funext i
  simp only [meanRows, meanL, List.length_map, emb_list_sum]
  simp only [embV, sum_div]
  exact sum_congr rfl fun j _ => by rw [mul_div_assoc, meanRows, meanL, List.length_map]

theorem ocMx_emb (q : OcExt K m) : ocMx (embOcExt Q q) = embV Q (ocMx q) := by
  unfold ocMx embOcExt
  simp only [← List.map_take, meanRows_emb]
  split_ifs
  · exact embV_zeros.symm
  · rfl
  · rfl

theorem ocMd_emb (q : OcExt K m) : ocMd (embOcExt Q q) = ocMd q := rfl

theorem ocAdvance_emb (q : OcExt K m) : ocAdvance (embOcExt Q q) = embOcExt Q (ocAdvance q) := by
  unfold ocAdvance embOcExt
  simp only [List.length_map]
  split_ifs <;> rfl

theorem ocStoreX_emb (q : OcExt K m) (x : Vec K m) : ocStoreX (embOcExt Q q) (embV Q x) = embOcExt Q (ocStoreX q x) := by
  unfold ocStoreX embOcExt
  simp only [List.map_set]

theorem ocStoreD_emb (q : OcExt K m) (a : K) : ocStoreD (embOcExt Q q) a = embOcExt Q (ocStoreD q a) := rfl

theorem OcOk_emb {q : OcExt K m} (h : OcOk q) : OcOk (embOcExt Q q) := by
  simpa [OcOk, embOcExt] using h

include hQ in
theorem ocY_emb (s : Core K m (OcExt K m)) (x : Vec K m) : ocY (embOc Q u s) (embV Q x) = ocY s x := by
  unfold ocY
  have e1 : (embOc Q u s).ext = embOcExt Q s.ext := rfl
  have e2 : (embOc Q u s).w = embW Q u s.w := rfl
  rw [e1, e2, ocMx_emb, ocMd_emb, embV_sub, dot_embW hQ]

include hQ in
theorem emb_ocnlms : BodyEmb (ocnlms K m) (ocnlms K n) (fun s : Core K m (OcExt K m) => OcOk s.ext) (fun s : Core K n (OcExt K n) => OcOk s.ext)
    (fun s s' => s' = embOc Q u s) (embV Q) (embW Q u) where
  safe' := ocnlms_safe
  rP := by rintro s _ h rfl; exact OcOk_emb h
  rN := by rintro s _ rfl; rfl
  pN _ h := h
  w := by rintro s _ rfl; rfl
  body := fun (s : Core K m (OcExt K m)) (s' : Core K n (OcExt K n)) hs hR hn _ d x => by
    obtain rfl : s' = embOc Q u s := hR
    refine ⟨_, _, _, _, oc_body hs hn d x, OcOk_storeD (OcOk_advance (OcOk_storeX (OcOk_advance hs) x)) _, hn,
      (oc_body (s := embOc Q u s) (OcOk_emb hs) rfl _ _).trans ?_, rfl, rfl⟩
    have e1 : (embOc Q u s).ext = embOcExt Q s.ext := rfl
    have e2 : (embOc Q u s).w = embW Q u s.w := rfl
    have e4 : ∀ (v : Vec K m) (i : Fin n), embV Q x i - embV Q v i = embV Q (fun i => x i - v i) i := fun v i => congrFun (embV_sub x v) i
    simp only [ocY_emb hQ, e1, e2, ocAdvance_emb, ocStoreX_emb, ocMx_emb, ocMd_emb, e4, dot_emb hQ, dot_embW hQ,
      ocStoreD_emb, embW_add_mul]
    rfl

/-- the columns embedded -/
def embCols (Q : Fin n → Fin m → K) {p : ℕ} (X : Mat K m p) : Mat K n p := fun i j => embV Q (fun a => X a j) i

/-- AP: the remembered inputs are embedded as well -/
def embAp (Q : Fin n → Fin m → K) (u : Fin n → K) {order : ℕ} (s : Core K m (ApExt K m order)) : Core K n (ApExt K n order) :=
  ⟨embW Q u s.w, n, s.mu, ⟨s.ext.ifc, embCols Q s.ext.xMem, s.ext.dMem, s.ext.yMem, s.ext.eMem⟩⟩

include hQ in
theorem emb_ap (solve : Solver K) {order : ℕ} (ho : 0 < order) (c : K)
    (hs : ∀ (k : ℕ) (X : Mat K k order), ∃ P, solve order (apGram c X) (eye order) = .ok P) :
    BodyEmb (ap K m solve order) (ap K n solve order) (fun s : Core K m (ApExt K m order) => s.ext.ifc = c) (fun s : Core K n (ApExt K n order) => s.ext.ifc = c)
      (fun s s' => s' = embAp Q u s) (embV Q) (embW Q u) where
  safe' := ap_safe solve ho c (hs n)
  rP := by rintro s _ h rfl; exact h
  rN := by rintro s _ rfl; rfl
  pN _ h := h
  w := by rintro s _ rfl; rfl
  body := fun (s : Core K m (ApExt K m order)) (s' : Core K n (ApExt K n order)) h hR hn _ d x => by
    obtain rfl : s' = embAp Q u s := hR
    subst h
    obtain ⟨P, hP⟩ := hs m (apX s x)
    have e1 : apX (embAp Q u s) (embV Q x) = embCols Q (apX s x) := by
      funext i j
      simp only [apX, embAp, embCols, shiftCols]
      by_cases h0 : j.val = 0
      · simp only [h0, if_true]
      · simp only [h0, if_false, dite_false]
    have e0 : apGram s.ext.ifc (embCols Q (apX s x)) = apGram s.ext.ifc (apX s x) := by
      funext a b
      simp only [apGram]
      congr 1
      exact dot_emb hQ (fun i => apX s x i a) fun i => apX s x i b
    have hP' : solve order (apGram (embAp Q u s).ext.ifc (apX (embAp Q u s) (embV Q x))) (eye order) = .ok P := by
      rw [e1]; exact (congrArg (fun G => solve order G (eye order)) e0).trans hP
    refine ⟨_, _, _, _, ap_body solve ho s d x P hP, rfl, hn, (ap_body solve ho (embAp Q u s) d (embV Q x) P hP').trans ?_, rfl, rfl⟩
    have e2 : apD (embAp Q u s) d = apD s d := rfl
    have e3 : apY (embAp Q u s) (embV Q x) = apY s x := by
      funext j
      simp only [apY, e1]
      exact dot_embW' hQ s.w (fun i => apX s x i j)
    have e4 : apE (embAp Q u s) d (embV Q x) = apE s d x := by
      funext j
      simp only [apE, e2, e3]
    have e5 : ∀ (X : Mat K m order) (v : Vec K order), (fun i => dot (embCols Q X i) v) = embV Q fun i => dot (X i) v := by
      intro X v
      funext i
      simp only [dot_eq, embCols, embV, sum_mul, mul_sum]
      rw [sum_comm]
      exact sum_congr rfl fun a _ => sum_congr rfl fun b _ => by ring
    have e6 : ∀ (X : Mat K m order) (v : Vec K order) (c : K),
        (fun i => (embAp Q u s).w i + c * dot (embCols Q X i) v) = embW Q u fun i => s.w i + c * dot (X i) v := by
      intro X v c
      rw [← embW_add_mul, ← e5]
      rfl
    simp only [e1, e2, e3, e4, e6]
    rfl

end emb

section embSign
variable {K : Type} [Field K] [LinearOrder K] [IsStrictOrderedRing K] {m n : ℕ} {Q : Fin n → Fin m → K} {u : Fin n → K} (hQ : Redundant Q u)

theorem sgn_emb (hC : Copies Q) (x : Vec K m) : (fun i => Scalar.sgn (embV Q x i)) = embV Q fun j => Scalar.sgn (x j) := by
  funext i
  rcases hC i with h0 | ⟨j, hj, h0⟩
  · simp only [embV, h0, zero_mul, sum_const_zero]
    simp [Scalar.sgn]
  · have hs : ∀ v : Vec K m, embV Q v i = Q i j * v j := fun v =>
      sum_eq_single j (fun l _ hl => by rw [h0 l hl, zero_mul]) (fun h => absurd (mem_univ _) h)
    rw [hs, hs]
    rcases hj with hj | hj
    · rw [hj, one_mul, one_mul]
    · rw [hj, neg_one_mul, neg_one_mul]
      simp only [Scalar.sgn, neg_pos, neg_neg_iff_pos]
      rcases lt_trichotomy (x j) 0 with h | h | h
      · simp [h, h.le, not_lt.2 h.le]
      · simp [h]
      · simp [h, not_lt.2 h.le]

include hQ in
theorem emb_sslms (hC : Copies Q) :
    BodyEmb (sslms K m) (sslms K n) (fun _ => True) (fun _ => True) (fun s s' => s' = embC Q u s) (embV Q) (embW Q u) where
  safe' := sslms_safe
  rP _ _ _ _ := trivial
  rN := by rintro s _ rfl; rfl
  pN _ _ := trivial
  w := by rintro s _ rfl; rfl
  body := fun (s : Core K m (Unit)) (s' : Core K n (Unit)) _ hR hn _ d x => by
    obtain rfl : s' = embC Q u s := hR
    refine ⟨_, _, _, _, sslms_body s d x, trivial, hn, (sslms_body (embC Q u s) d (embV Q x)).trans ?_, rfl, rfl⟩
    have h1 : dot (embC Q u s).w (embV Q x) = dot s.w x := dot_embW hQ _ _
    have h2 : ∀ (v : Vec K m) (c e : K), (fun i => (embC Q u s).w i + c * embV Q v i * e) = embW Q u fun i => s.w i + c * v i * e := fun v c e => embW_add_mul_mul _ _ _ _
    have h3 : ∀ c : K, (fun i => (embC Q u s).w i + c * embV Q x i) = embW Q u fun i => s.w i + c * x i := fun c => embW_add_mul _ _ _
    have h4 : ∀ i, Scalar.sgn (embV Q x i) = embV Q (fun j => Scalar.sgn (x j)) i := fun i => congrFun (sgn_emb hC x) i
    simp only [h1, dot_emb hQ, h4, h2]
    rfl

include hQ in
theorem emb_nsslms (hC : Copies Q) :
    BodyEmb (nsslms K m) (nsslms K n) (fun _ => True) (fun _ => True) (fun s s' => s' = embC Q u s) (embV Q) (embW Q u) where
  safe' := nsslms_safe
  rP _ _ _ _ := trivial
  rN := by rintro s _ rfl; rfl
  pN _ _ := trivial
  w := by rintro s _ rfl; rfl
  body := fun (s : Core K m (EpsExt K)) (s' : Core K n (EpsExt K)) _ hR hn _ d x => by
    obtain rfl : s' = embC Q u s := hR
    refine ⟨_, _, _, _, nsslms_body s d x, trivial, hn, (nsslms_body (embC Q u s) d (embV Q x)).trans ?_, rfl, rfl⟩
    have h1 : dot (embC Q u s).w (embV Q x) = dot s.w x := dot_embW hQ _ _
    have h2 : ∀ (v : Vec K m) (c e : K), (fun i => (embC Q u s).w i + c * embV Q v i * e) = embW Q u fun i => s.w i + c * v i * e := fun v c e => embW_add_mul_mul _ _ _ _
    have h3 : ∀ c : K, (fun i => (embC Q u s).w i + c * embV Q x i) = embW Q u fun i => s.w i + c * x i := fun c => embW_add_mul _ _ _
    have h4 : ∀ i, Scalar.sgn (embV Q x i) = embV Q (fun j => Scalar.sgn (x j)) i := fun i => congrFun (sgn_emb hC x) i
    simp only [h1, dot_emb hQ, h4, h2]
    rfl

end embSign

section place
variable {K : Type} [Field K] {m n : ℕ}

/-- entry `σ j` of the result is `r[j]`, the other entries are those of `c` -/
noncomputable def placeRow {K : Type} [Field K] {m n : ℕ} (σ : Fin m → Fin n) (c : Vec K n) (r : List K) : List K := List.ofFn (Function.extend σ (fun j => r.getD j 0) c)

/-- the matrix that places column `j` at position `σ j` -/
def placeQ {K : Type} [Field K] {m n : ℕ} (σ : Fin m → Fin n) : Fin n → Fin m → K := fun i j => if σ j = i then 1 else 0

theorem placeQ_sum {σ : Fin m → Fin n} (hσ : Function.Injective σ) (c : Vec K n) (v : Vec K m) (i : Fin n) :
    Function.extend σ (fun _ => 0) c i + ∑ j, placeQ σ i j * v j = Function.extend σ v c i := by
  by_cases h : ∃ j, σ j = i
  · obtain ⟨j, rfl⟩ := h
    rw [hσ.extend_apply, hσ.extend_apply, zero_add]
    simp only [placeQ, ite_mul, one_mul, zero_mul, hσ.eq_iff, sum_ite_eq', mem_univ, if_true]
  · rw [Function.extend_apply' _ _ _ h, Function.extend_apply' _ _ _ h]
    have : ∀ j, placeQ (K := K) σ i j = 0 := fun j => if_neg fun hj => h ⟨j, hj⟩
    simp only [this, zero_mul, sum_const_zero, add_zero]

theorem placeQ_redundant {σ : Fin m → Fin n} (hσ : Function.Injective σ) (c : Vec K n) : Redundant (placeQ (K := K) σ) (Function.extend σ (fun _ => 0) c) where
  cols j l := by
    have : ∀ i, placeQ (K := K) σ i j * placeQ σ i l = if σ j = i then (if j = l then 1 else 0) else 0 := fun i => by
      simp only [placeQ]
      by_cases h1 : σ j = i
      · subst h1
        by_cases h2 : l = j
        · simp [h2]
        · simp [h2, Ne.symm h2, hσ.eq_iff]
      · simp [h1]
    simp only [this, sum_ite_eq, mem_univ, if_true]
  perp j := by
    simp only [placeQ, mul_ite, mul_one, mul_zero, sum_ite_eq, mem_univ, if_true, hσ.extend_apply]

theorem placeQ_copies {σ : Fin m → Fin n} (hσ : Function.Injective σ) : Copies (placeQ (K := K) σ) := by
  intro i
  by_cases h : ∃ j, σ j = i
  · obtain ⟨j, rfl⟩ := h
    exact Or.inr ⟨j, Or.inl (if_pos rfl), fun l hl => if_neg fun e => hl (hσ e)⟩
  · exact Or.inl fun j => if_neg fun hj => h ⟨j, hj⟩

theorem placeRow_eq {σ : Fin m → Fin n} (hσ : Function.Injective σ) (c : Vec K n) : embRow (placeQ (K := K) σ) (Function.extend σ (fun _ => 0) c) = placeRow σ c := by
  funext r
  unfold embRow placeRow
  congr 1; funext i
  exact placeQ_sum hσ c (fun j => r.getD j 0) i

theorem placeRow_zero {σ : Fin m → Fin n} (hσ : Function.Injective σ) : (embRow (placeQ (K := K) σ) fun _ => 0) = placeRow σ fun _ => 0 := by
  rw [← placeRow_eq hσ]
  congr 1; funext i
  by_cases h : ∃ j, σ j = i
  · obtain ⟨j, rfl⟩ := h; exact (hσ.extend_apply (fun _ => (0 : K)) (fun _ => 0) j).symm
  · exact (Function.extend_apply' (fun _ => (0 : K)) (fun _ => 0) _ h).symm

/-- how often column `j` occurs -/
def copies {m n : ℕ} (π : Fin n → Fin m) (j : Fin m) : ℕ := (univ.filter fun i => π i = j).card

/-- the matrix that repeats columns, normalised -/
def repQ {K : Type} [Field K] {m n : ℕ} (π : Fin n → Fin m) (s : Vec K m) : Fin n → Fin m → K := fun i j => if π i = j then 1 / s j else 0

variable {π : Fin n → Fin m} {s : Vec K m}

theorem repQ_sum (v : Vec K m) (i : Fin n) : ∑ j, repQ π s i j * v j = v (π i) / s (π i) := by
  simp only [repQ, ite_mul, zero_mul, sum_ite_eq, mem_univ, if_true]
  rw [div_mul_eq_mul_div, one_mul]

theorem repQ_redundant (h0 : ∀ j, s j ≠ 0) (hs : ∀ j, s j * s j = copies π j) : Redundant (repQ π s) (fun _ => 0) := by
  constructor
  · intro j l
    by_cases hjl : j = l
    · subst hjl
      rw [if_pos rfl]
      have : ∀ i, repQ π s i j * repQ π s i j = if π i = j then 1 / (copies π j : K) else 0 := fun i => by
        simp only [repQ]
        split_ifs
        · rw [div_mul_div_comm, one_mul, hs]
        · exact zero_mul _
      simp only [this, sum_ite, sum_const_zero, add_zero, sum_const, nsmul_eq_mul]
      have h1 : (copies π j : K) ≠ 0 := by rw [← hs]; exact mul_ne_zero (h0 j) (h0 j)
      show (copies π j : K) * (1 / copies π j) = 1
      field_simp
    · rw [if_neg hjl]
      refine sum_eq_zero fun i _ => ?_
      simp only [repQ]
      by_cases h1 : π i = j
      · rw [if_neg (fun h2 : π i = l => hjl (h1.symm.trans h2)), mul_zero]
      · rw [if_neg h1, zero_mul]
  · intro j; simp

theorem repQ_data (h0 : ∀ j, s j ≠ 0) (x : List (List K)) :
    ((x.map fun r => List.ofFn fun j : Fin m => s j * r.getD j 0).map (embRow (repQ π s) fun _ => 0)) = x.map fun r => List.ofFn fun i => r.getD (π i) 0 := by
  rw [List.map_map]
  refine List.map_congr_left fun r _ => ?_
  unfold embRow
  simp only [Function.comp]
  congr 1; funext i
  have e : ∀ j : Fin m, (List.ofFn fun j : Fin m => s j * r.getD j 0).getD j 0 = s j * r.getD j 0 := fun j => by simp [List.getD]
  simp only [e]
  rw [repQ_sum (fun j : Fin m => s j * r.getD j 0), zero_add, mul_div_cancel_left₀ _ (h0 _)]

theorem repQ_weights (h0 : ∀ j, s j ≠ 0) (w : Vec K m) : (fun i => (0 : K) + ∑ j, repQ π s i j * (s j * w j)) = fun i => w (π i) := by
  funext i
  rw [repQ_sum (fun j => s j * w j), zero_add, mul_div_cancel_left₀ _ (h0 _)]

theorem repQ_row : embRow (repQ π s) (fun _ => 0) = fun v => List.ofFn fun i => v.getD (π i) 0 / s (π i) := by
  funext v
  unfold embRow
  congr 1; funext i
  rw [zero_add]
  exact repQ_sum (fun j => v.getD j 0) i

end place

section embReal
variable {m n : ℕ} {Q : Fin n → Fin m → ℝ} {u : Fin n → ℝ} (hQ : Redundant Q u)

include hQ in
theorem emb_gmcc :
    BodyEmb (gmcc ℝ m) (gmcc ℝ n) (fun _ => True) (fun _ => True) (fun s s' => s' = embC Q u s) (embV Q) (embW Q u) where
  safe' := gmcc_safe
  rP _ _ _ _ := trivial
  rN := by rintro s _ rfl; rfl
  pN _ _ := trivial
  w := by rintro s _ rfl; rfl
  body := fun (s : Core ℝ m (GmccExt ℝ)) (s' : Core ℝ n (GmccExt ℝ)) _ hR hn _ d x => by
    obtain rfl : s' = embC Q u s := hR
    refine ⟨_, _, _, _, gmcc_body s d x, trivial, hn, (gmcc_body (embC Q u s) d (embV Q x)).trans ?_, rfl, rfl⟩
    have h1 : dot (embC Q u s).w (embV Q x) = dot s.w x := dot_embW hQ _ _
    have h2 : ∀ (v : Vec ℝ m) (c e : ℝ), (fun i => (embC Q u s).w i + c * embV Q v i * e) = embW Q u fun i => s.w i + c * v i * e := fun v c e => embW_add_mul_mul _ _ _ _
    have h3 : ∀ c : ℝ, (fun i => (embC Q u s).w i + c * embV Q x i) = embW Q u fun i => s.w i + c * x i := fun c => embW_add_mul _ _ _
    simp only [h1, dot_emb hQ, h3]
    rfl

include hQ in
theorem emb_llncosh :
    BodyEmb (llncosh ℝ m) (llncosh ℝ n) (fun _ => True) (fun _ => True) (fun s s' => s' = embC Q u s) (embV Q) (embW Q u) where
  safe' := llncosh_safe
  rP _ _ _ _ := trivial
  rN := by rintro s _ rfl; rfl
  pN _ _ := trivial
  w := by rintro s _ rfl; rfl
  body := fun (s : Core ℝ m (LlncoshExt ℝ)) (s' : Core ℝ n (LlncoshExt ℝ)) _ hR hn _ d x => by
    obtain rfl : s' = embC Q u s := hR
    refine ⟨_, _, _, _, llncosh_body s d x, trivial, hn, (llncosh_body (embC Q u s) d (embV Q x)).trans ?_, rfl, rfl⟩
    have h1 : dot (embC Q u s).w (embV Q x) = dot s.w x := dot_embW hQ _ _
    have h2 : ∀ (v : Vec ℝ m) (c e : ℝ), (fun i => (embC Q u s).w i + c * embV Q v i * e) = embW Q u fun i => s.w i + c * v i * e := fun v c e => embW_add_mul_mul _ _ _ _
    have h3 : ∀ c : ℝ, (fun i => (embC Q u s).w i + c * embV Q x i) = embW Q u fun i => s.w i + c * x i := fun c => embW_add_mul _ _ _
    simp only [h1, dot_emb hQ, h3]
    rfl


theorem embOf {C : FilterClass ℝ m} {C' : FilterClass ℝ n} {P : Core ℝ m C.Ext → Prop} {P' : Core ℝ n C'.Ext → Prop} {R : Core ℝ m C.Ext → Core ℝ n C'.Ext → Prop}
    (h : BodyEmb C C' P P' R (embV Q) (embW Q u)) (hC : Safe C P) (s : Core ℝ m C.Ext) (s' : Core ℝ n C'.Ext) (hs : P s) (he : R s s')
    (d : List ℝ) (x : List (List ℝ)) (hx : ∀ r ∈ x, r.length = m) :
    (run C' d (x.map (embRow Q (zeros n))) ⟨s', []⟩).1 = (run C d x ⟨s, []⟩).1.map fun r => (r.1, r.2.1, r.2.2.map (embRow Q u)) :=
  h.run hC ⟨s, []⟩ ⟨s', []⟩ hs he d x hx _ _ embRow_zero embRow_ofFn

/-- a relation between two new objects of different size carries over to `filter_data` -/
theorem filterData_congr2 (env : Env ℝ) (upper : String → String) (model : String) (kw : Kwargs ℝ)
    (w : Vec ℝ m) (w' : Vec ℝ n) (d d' : List ℝ) (x x' : List (List ℝ))
    (G : List ℝ × List ℝ × List (List ℝ) → List ℝ × List ℝ × List (List ℝ))
    (h : ∀ t mu, getFilter upper model = .ok t → (kw.mu <|> defaultMu t) = some mu →
      runNew env n t kw mu w' d' x' = (runNew env m t kw mu w d x).map G) :
    filterData env upper d' x' n model { kw with w := some (.arr (List.ofFn w')) }
      = (filterData env upper d x m model { kw with w := some (.arr (List.ofFn w)) }).map G := by
  rw [filterData_arr, filterData_arr]
  unfold getFilter at h
  cases hd : dictGet (upper model) (filtersDict upper) with
  | none => rfl
  | some t =>
    rw [hd] at h
    simp only
    by_cases hb : badKeyword t kw = true
    · rw [if_pos hb, if_pos hb]; rfl
    · rw [if_neg hb, if_neg hb]
      cases hm : (kw.mu <|> defaultMu t) with
      | none => rfl
      | some mu => exact h t mu rfl hm

/-- C141: let `Q` (`n` rows, `m` columns) have orthonormal columns and let `u` be orthogonal to them.  For every filter except SSLMS and NSSLMS - and for these two if every row of `Q` is zero or
a unit vector up to sign - `filter_data` on the rows `Q z`, with initial weights `u + Q w`, returns the same outputs and errors as `filter_data` on the rows `z` with initial
weights `w`, and the weight history with every row `v` replaced by `u + Q v` (and raises the same exception otherwise). -/
theorem C141_embedding (env : Env ℝ) (upper : String → String) (model : String) (kw : Kwargs ℝ)
    (hp : ∀ t, getFilter upper model = .ok t → ParamsOk env t kw) (hns : ∀ t, getFilter upper model = .ok t → t = .sslms ∨ t = .nsslms → Copies Q)
    (hQ : Redundant Q u) (w : Vec ℝ m) (d : List ℝ) (x : List (List ℝ)) (hx : ∀ r ∈ x, r.length = m) :
    filterData env upper d (x.map (embRow Q fun _ => 0)) n model { kw with w := some (.arr (List.ofFn fun i => u i + ∑ j, Q i j * w j)) }
      = (filterData env upper d x m model { kw with w := some (.arr (List.ofFn w)) }).map fun r => (r.1, r.2.1, r.2.2.map (embRow Q u)) := by
  refine filterData_congr2 env upper model kw w (embW Q u w) d d x (x.map (embRow Q (zeros n))) _ ?_
  intro t mu ht hmu
  have hp := hp t ht
  have hns := hns t ht
  cases t
  case lms => exact embOf (emb_lms hQ) lms_safe _ _ trivial (by rfl) d x hx
  case lmf => exact embOf (emb_lmf hQ) lmf_safe _ _ trivial (by rfl) d x hx
  case sslms => exact embOf (emb_sslms hQ (hns (Or.inl rfl))) sslms_safe _ _ trivial (by rfl) d x hx
  case nlms => exact embOf (emb_nlms hQ) nlms_safe _ _ trivial (by rfl) d x hx
  case nlmf => exact embOf (emb_nlmf hQ) nlmf_safe _ _ trivial (by rfl) d x hx
  case nsslms => exact embOf (emb_nsslms hQ (hns (Or.inr rfl))) nsslms_safe _ _ trivial (by rfl) d x hx
  case gmcc => exact embOf (emb_gmcc hQ) gmcc_safe _ _ trivial (by rfl) d x hx
  case llncosh => exact embOf (emb_llncosh hQ) llncosh_safe _ _ trivial (by rfl) d x hx
  case gngd => exact embOf (emb_gngd hQ) gngd_safe _ _ trivial (by simp only [embGngd, embV_zeros]; rfl) d x hx
  case vslmsMathews => exact embOf (emb_mathews hQ) mathews_safe _ _ trivial (by simp only [embMathews, embV_zeros]; rfl) d x hx
  case vslmsAng => exact embOf (emb_ang hQ) ang_safe _ _ trivial (by simp only [embAng, embV_zeros]; rfl) d x hx
  case vslmsBenveniste => exact embOf (emb_benveniste hQ) benveniste_safe _ _ trivial (by simp only [embBen, embV_zeros]; rfl) d x hx
  case rls =>
    simp only [runNew, initExt]
    unfold rlsInit
    by_cases he : Scalar.eqz (kw.eps.getD (lit 1 1000) : ℝ) = true
    · simp only [he, if_true]; rfl
    · simp only [he, if_false]
      refine embOf (emb_rls hQ) rls_safe _ _ (hp.1 rfl mu hmu) ⟨rfl, rfl, fun v => ?_, fun v => ?_⟩ d x hx
      · funext i
        simp only [matVec_eq, eye, embV]
        simp [mul_sum, mul_comm, mul_left_comm, mul_assoc]
      · funext i
        simp only [vecMat_eq, eye, embV]
        simp [mul_sum, mul_comm, mul_left_comm, mul_assoc]
  case ocnlms =>
    refine embOf (emb_ocnlms hQ) ocnlms_safe _ _ ?_ ?_ d x hx
    · have := hp.2.1 rfl
      exact ⟨by simp [ocClear], by simp [ocClear]; omega⟩
    · simp only [embOc, embOcExt, ocClear, List.map_replicate, embV_zeros]; rfl
  case ap =>
    obtain ⟨h1, h2⟩ := hp.2.2 rfl
    refine embOf (emb_ap hQ env.solve h1 _ h2) (ap_safe env.solve h1 _ (h2 m)) _ _ rfl ?_ d x hx
    have : embCols Q (fun _ => zeros (kw.order.getD 5) : Mat ℝ m (kw.order.getD 5)) = fun _ => zeros _ := by
      funext i j
      exact congrFun (embV_zeros (Q := Q)) i
    simp only [embAp, this]
    rfl

/-- C141: columns of zeros change nothing, for all fifteen filters.  The columns of `x` are placed at the positions `σ 0, σ 1, ...`, the other columns of the data are zero: outputs and errors
are those of the data without the zero columns, the weights at the positions `σ j` are the weights of the smaller filter, and the weights of the zero columns keep their initial
values `c i`. -/
theorem C141_zero_columns (env : Env ℝ) (upper : String → String) (model : String) (kw : Kwargs ℝ)
    (hp : ∀ t, getFilter upper model = .ok t → ParamsOk env t kw) {σ : Fin m → Fin n} (hσ : Function.Injective σ) (c : Vec ℝ n) (w : Vec ℝ m) (d : List ℝ)
    (x : List (List ℝ)) (hx : ∀ r ∈ x, r.length = m) :
    filterData env upper d (x.map (placeRow σ fun _ => 0)) n model { kw with w := some (.arr (List.ofFn (Function.extend σ w c))) }
      = (filterData env upper d x m model { kw with w := some (.arr (List.ofFn w)) }).map fun r => (r.1, r.2.1, r.2.2.map (placeRow σ c)) := by
  have h := C141_embedding env upper model kw hp (fun _ _ _ => placeQ_copies hσ) (placeQ_redundant hσ c) w d x hx
  have e3 : (fun i => Function.extend σ (fun _ => 0) c i + ∑ j, placeQ σ i j * w j) = Function.extend σ w c := by
    funext i; exact placeQ_sum hσ c w i
  rw [placeRow_zero hσ, placeRow_eq hσ, e3] at h
  exact h

/-- C141: repeating a column `c` times is the same as multiplying it by `√c` (all filters but SSLMS and NSSLMS).  Column `i` of the data is column `π i` of `x`, and copies of one column start with the same
weight: outputs and errors are those of the filter on the columns `√(copies j) x_j`, started with the weights `√(copies j) w_j`; copies of a column always keep equal weights, namely the weight
of the smaller filter divided by `√(copies j)`. -/
theorem C141_repeated_columns (env : Env ℝ) (upper : String → String) (model : String) (kw : Kwargs ℝ)
    (hp : ∀ t, getFilter upper model = .ok t → ParamsOk env t kw) (hns : ∀ t, getFilter upper model = .ok t → t ≠ .sslms ∧ t ≠ .nsslms)
    {π : Fin n → Fin m} (hπ : Function.Surjective π) (w : Vec ℝ m) (d : List ℝ) (x : List (List ℝ)) (hx : ∀ r ∈ x, r.length = m) :
    filterData env upper d (x.map fun r => List.ofFn fun i => r.getD (π i) 0) n model { kw with w := some (.arr (List.ofFn fun i => w (π i))) }
      = (filterData env upper d (x.map fun r => List.ofFn fun j : Fin m => √(copies π j) * r.getD j 0) m model
          { kw with w := some (.arr (List.ofFn fun j => √(copies π j) * w j)) }).map fun r =>
        (r.1, r.2.1, r.2.2.map fun v => List.ofFn fun i => v.getD (π i) 0 / √(copies π (π i))) := by
  have hpos : ∀ j, (0 : ℝ) < √(copies π j) := fun j => by
    refine Real.sqrt_pos.2 (Nat.cast_pos.2 (card_pos.2 ?_))
    obtain ⟨i, hi⟩ := hπ j
    exact ⟨i, by simp [hi]⟩
  have h0 : ∀ j, √(copies π j : ℝ) ≠ 0 := fun j => (hpos j).ne'
  have h := C141_embedding env upper model kw hp (fun t ht h => by rcases h with h | h; exacts [absurd h (hns t ht).1, absurd h (hns t ht).2])
    (repQ_redundant (π := π) (s := fun j => √(copies π j : ℝ)) h0 fun j => Real.mul_self_sqrt (Nat.cast_nonneg _))
    (fun j => √(copies π j) * w j) d (x.map fun r => List.ofFn fun j : Fin m => √(copies π j) * r.getD j 0) (by
      intro r hr
      obtain ⟨r, -, rfl⟩ := List.mem_map.1 hr
      simp)
  rw [repQ_data (s := fun j => √(copies π j : ℝ)) h0, repQ_weights (s := fun j => √(copies π j : ℝ)) h0, repQ_row] at h
  exact h

/-! ## The hypotheses are met -/

/-- a plane in three-dimensional space, and a vector orthogonal to it -/
example : Redundant (![![3 / 5, 0], ![4 / 5, 0], ![0, 1]] : Fin 3 → Fin 2 → ℝ) ![4, -3, 0] := by
  constructor
  · intro j l; fin_cases j <;> fin_cases l <;> simp [Fin.sum_univ_three]
    all_goals norm_num
  · intro j; fin_cases j <;> simp [Fin.sum_univ_three]
    all_goals norm_num

example : Function.Injective (![2, 0] : Fin 2 → Fin 3) := by decide
example : Function.Surjective (![0, 1, 0] : Fin 3 → Fin 2) := by decide

end embReal

section witness

/-- C141: the sign filters do care about repeated columns: input `1`, target `1`, `mu = 1`, weights 0.  With four copies of the
column the second prediction is 4, with the column multiplied by `√4 = 2` it is 2. -/
theorem C141_sslms_repeated :
    ((run (sslms ℚ 1) [1, 1] [[2], [2]] ⟨⟨zeros 1, 1, 1, ()⟩, []⟩).1.map fun r => r.1) = .ok [0, 2] ∧
    ((run (sslms ℚ 4) [1, 1] [[1, 1, 1, 1], [1, 1, 1, 1]] ⟨⟨zeros 4, 4, 1, ()⟩, []⟩).1.map fun r => r.1) = .ok [0, 4] := by
  decide +kernel

end witness

end Padasip
