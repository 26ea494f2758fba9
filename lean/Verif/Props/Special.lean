import Verif.Lemmas.Hom
import Verif.Lemmas.Steps
import Verif.Lemmas.Field
import Verif.Props.Recursion
import Verif.Spec.Example
import Mathlib.Analysis.SpecialFunctions.Trigonometric.DerivHyp

/-!
# C31-C34: degenerate parameters, GMCC versus LMS, bounded increments
-/

set_option linter.unusedSectionVars false
set_option linter.unusedSimpArgs false

namespace Padasip

open Finset

/-! ## C31 -/

section c31
variable {K : Type} [Field K] [LinearOrder K] [IsStrictOrderedRing K] {n : ℕ}

/-- forget the attributes GNGD has in addition to NLMS -/
def gngdToNlms (s : Core K n (GngdExt K n)) : Core K n (EpsExt K) := ⟨s.w, s.nAttr, s.mu, ⟨s.ext.eps⟩⟩

theorem hom_gngd : BodyHom (gngd K n) (nlms K n) (fun s : Core K n (GngdExt K n) => s.ext.ro = 0)
    gngdToNlms id id id id where
  dSurj d := ⟨d, rfl⟩
  xSurj x := ⟨x, rfl⟩
  withN _ _ := rfl
  pWithN _ _ h := h
  nAttr _ := rfl
  w _ := rfl
  body := fun (s : Core K n (GngdExt K n)) hs hn d x => by
    refine ⟨_, _, _, gngd_body s d x, hs, hn, ?_⟩
    refine (nlms_body (gngdToNlms s) _ _).trans ?_
    have h : gngdEps s (d - dot s.w x) x = s.ext.eps := by
      unfold gngdEps; rw [hs]; ring
    simp only [id, h, gngdToNlms]
    congr 2; funext i; ring

/-- forget the attributes Mathews has in addition to LMS -/
def mathewsToLms (s : Core K n (MathewsExt K n)) : Core K n Unit := ⟨s.w, s.nAttr, s.mu, ()⟩

theorem hom_mathews : BodyHom (mathews K n) (lms K n)
    (fun s : Core K n (MathewsExt K n) => s.ext.ro = 0 ∧ s.ext.lastMu = s.mu) mathewsToLms id id id id where
  dSurj d := ⟨d, rfl⟩
  xSurj x := ⟨x, rfl⟩
  withN _ _ := rfl
  pWithN _ _ h := h
  nAttr _ := rfl
  w _ := rfl
  body := fun (s : Core K n (MathewsExt K n)) hs hn d x => by
    have h : mathewsMu s (d - dot s.w x) x = s.mu := by
      unfold mathewsMu; rw [hs.1, hs.2]; ring
    refine ⟨_, _, _, mathews_body s d x, ⟨hs.1, h⟩, hn, ?_⟩
    refine (lms_body (mathewsToLms s) _ _).trans ?_
    simp only [id, h, mathewsToLms]
    congr 2; funext i; ring

/-- forget the attributes Ang has in addition to LMS -/
def angToLms (s : Core K n (AngExt K n)) : Core K n Unit := ⟨s.w, s.nAttr, s.mu, ()⟩

theorem hom_ang : BodyHom (ang K n) (lms K n)
    (fun s : Core K n (AngExt K n) => s.ext.ro = 0 ∧ s.ext.lastMu = s.mu) angToLms id id id id where
  dSurj d := ⟨d, rfl⟩
  xSurj x := ⟨x, rfl⟩
  withN _ _ := rfl
  pWithN _ _ h := h
  nAttr _ := rfl
  w _ := rfl
  body := fun (s : Core K n (AngExt K n)) hs hn d x => by
    have h : angMu s (d - dot s.w x) = s.mu := by
      unfold angMu; rw [hs.1, hs.2]; ring
    refine ⟨_, _, _, ang_body s d x, ⟨hs.1, h⟩, hn, ?_⟩
    refine (lms_body (angToLms s) _ _).trans ?_
    simp only [id, h, angToLms]
    congr 2; funext i; ring

/-- forget the attributes Benveniste has in addition to LMS -/
def benToLms (s : Core K n (BenExt K n)) : Core K n Unit := ⟨s.w, s.nAttr, s.mu, ()⟩

theorem hom_benveniste : BodyHom (benveniste K n) (lms K n)
    (fun s : Core K n (BenExt K n) => s.ext.ro = 0 ∧ s.ext.lastMu = s.mu) benToLms id id id id where
  dSurj d := ⟨d, rfl⟩
  xSurj x := ⟨x, rfl⟩
  withN _ _ := rfl
  pWithN _ _ h := h
  nAttr _ := rfl
  w _ := rfl
  body := fun (s : Core K n (BenExt K n)) hs hn d x => by
    have h : benMu s (d - dot s.w x) = s.mu := by
      unfold benMu; rw [hs.1, hs.2]; ring
    refine ⟨_, _, _, benveniste_body s hn d x, ⟨hs.1, h⟩, hn, ?_⟩
    refine (lms_body (benToLms s) _ _).trans ?_
    simp only [id, h, benToLms]
    congr 2; funext i; ring

theorem same_run {C C' : FilterClass K n} {P : Core K n C.Ext → Prop}
    {f : Core K n C.Ext → Core K n C'.Ext} (h : BodyHom C C' P f id id id id) (s : Core K n C.Ext)
    (s' : Core K n C'.Ext) (hs : P s) (he : f s = s') (d : List K) (x : List (List K))
    (hx : ∀ r ∈ x, r.length = n) :
    (run C d x ⟨s, []⟩).1 = (run C' d x ⟨s', []⟩).1 := by
  have := h.run ⟨s, []⟩ hs [] d x hx id id (fun _ => rfl) (fun _ => rfl)
  rw [List.map_id, List.map_id] at this
  rw [← he]
  refine Eq.trans ?_ this.symm
  cases (run C d x ⟨s, []⟩).1 with
  | error e => rfl
  | ok r => simp [Except.map]

end c31

section c31api
variable {n : ℕ} (env : Env ℝ) (upper : String → String)

theorem filterData_fresh {m : String} {t : Tag} (hm : getFilter upper m = .ok t) (kw : Kwargs ℝ) (w : Vec ℝ n)
    (hb : badKeyword t kw = false) (mu : ℝ) (hmu : kw.mu = some mu) (d : List ℝ) (x : List (List ℝ)) :
    filterData env upper d x n m { kw with w := some (.arr (List.ofFn w)) } = runNew env n t kw mu w d x := by
  rw [filterData_arr]
  unfold getFilter at hm
  cases hd : dictGet (upper m) (filtersDict upper) with
  | none => rw [hd] at hm; exact nomatch hm
  | some t' =>
    rw [hd] at hm
    obtain rfl : t' = t := Except.ok.inj hm
    simp only [hb, hmu]
    rfl

/-- C31 (GNGD): `filter_data` with model GNGD and `ro=0` returns what NLMS with the same `mu`, `eps` and initial weights
returns.  (`0 < eps`: otherwise numpy may compute `0/0` in GNGD.) -/
theorem C31_gngd {mG mN : String} (hG : getFilter upper mG = .ok .gngd) (hN : getFilter upper mN = .ok .nlms)
    (mu eps : ℝ) (_heps : 0 < eps) (w : Vec ℝ n) (d : List ℝ) (x : List (List ℝ)) (hx : ∀ r ∈ x, r.length = n) :
    filterData env upper d x n mG
        { mu := some mu, eps := some eps, ro := some 0, w := some (.arr (List.ofFn w)) }
      = filterData env upper d x n mN { mu := some mu, eps := some eps, w := some (.arr (List.ofFn w)) } := by
  refine (filterData_fresh env upper hG { mu := some mu, eps := some eps, ro := some 0 } w rfl mu rfl d x).trans ?_
  refine Eq.trans ?_ (filterData_fresh env upper hN { mu := some mu, eps := some eps } w rfl mu rfl d x).symm
  exact same_run hom_gngd _ _ (by rfl) (by rfl) d x hx

/-- C31 (VSLMS): `filter_data` with any of the three VSLMS models and `ro=0` returns what LMS with the same `mu` and initial
weights returns. -/
theorem C31_vslms {mV mL : String} {t : Tag} (ht : t = .vslmsMathews ∨ t = .vslmsAng ∨ t = .vslmsBenveniste)
    (hV : getFilter upper mV = .ok t) (hL : getFilter upper mL = .ok .lms) (mu : ℝ) (w : Vec ℝ n)
    (d : List ℝ) (x : List (List ℝ)) (hx : ∀ r ∈ x, r.length = n) :
    filterData env upper d x n mV { mu := some mu, ro := some 0, w := some (.arr (List.ofFn w)) }
      = filterData env upper d x n mL { mu := some mu, w := some (.arr (List.ofFn w)) } := by
  have hb : badKeyword t ({ mu := some mu, ro := some 0 } : Kwargs ℝ) = false := by
    rcases ht with rfl | rfl | rfl <;> rfl
  refine (filterData_fresh env upper hV { mu := some mu, ro := some 0 } w hb mu rfl d x).trans ?_
  refine Eq.trans ?_ (filterData_fresh env upper hL { mu := some mu } w rfl mu rfl d x).symm
  rcases ht with rfl | rfl | rfl
  · exact same_run hom_mathews _ _ (by exact ⟨rfl, rfl⟩) (by rfl) d x hx
  · exact same_run hom_ang _ _ (by exact ⟨rfl, rfl⟩) (by rfl) d x hx
  · exact same_run hom_benveniste _ _ (by exact ⟨rfl, rfl⟩) (by rfl) d x hx

example : getFilter (fun s => s) "GNGD" = .ok .gngd ∧ getFilter (fun s => s) "NLMS" = .ok .nlms ∧
    getFilter (fun s => s) "VSLMS_Ang" = .ok .vslmsAng ∧ getFilter (fun s => s) "LMS" = .ok .lms := by
  decide +kernel

end c31api

/-! ## C32 -/

section c32
variable {n : ℕ} {d : ℕ → ℝ} {x : ℕ → Vec ℝ n} {y e : ℕ → ℝ}

/-- C32: with `alpha=2` the weight increment of GMCC is the LMS increment `mu e x_i` times `2 lambda exp(-lambda e^2)`. -/
theorem C32_increment (o : Obj (gmcc ℝ n)) (ha : o.core.ext.alpha = 2) {S : ℕ → Core ℝ n (GmccExt ℝ)}
    (h : Runs (gmcc ℝ n) o d x y e S) (k : ℕ) (i : Fin n) :
    (S (k + 1)).w i - (S k).w i
      = (2 * o.core.ext.lambd * Real.exp (-o.core.ext.lambd * (e k) ^ 2)) * (o.core.mu * e k * x k i) := by
  obtain ⟨h1, h2, -, -, h5⟩ := gmcc_runs h k
  rw [h5, h1, h2, ha]
  have p2 : Transc.pow (Scalar.abs (e k)) (2 : ℝ) = (e k) ^ 2 := by
    show |e k| ^ (2 : ℝ) = _
    rw [Real.rpow_two, sq_abs]
  have p1 : Transc.pow (Scalar.abs (e k)) ((2 : ℝ) - 1) = |e k| := by
    show |e k| ^ ((2 : ℝ) - 1) = _
    norm_num
  rw [p2, p1]
  have hs : |e k| * Scalar.sgn (e k) = e k := by
    rw [sgn_eq, mul_comm]; exact sign_mul_abs _
  show _ + o.core.mu * o.core.ext.lambd * 2 * Real.exp (-o.core.ext.lambd * e k ^ 2) * |e k| * Scalar.sgn (e k) * x k i - _ = _
  linear_combination (o.core.mu * o.core.ext.lambd * 2 * Real.exp (-o.core.ext.lambd * e k ^ 2) * x k i) * hs

/-- C32: whatever `lambda != 0` and `mu != 0`, GMCC with `alpha=2` is not an LMS filter: for every LMS step size `mu'` there are data of
two samples on which `filter_data` with the two models and the same initial weights returns different results. -/
theorem C32_not_lms (env : Env ℝ) (upper : String → String) {mG mL : String} (hG : getFilter upper mG = .ok .gmcc)
    (hL : getFilter upper mL = .ok .lms) (lambd mu mu' : ℝ) (hl : lambd ≠ 0) (hmu : mu ≠ 0) :
    ∃ d x, filterData env upper d x 1 mG
        { mu := some mu, lambd := some lambd, alpha := some 2, w := some (.arr [0]) }
      ≠ filterData env upper d x 1 mL { mu := some mu', w := some (.arr [0]) } := by
  by_contra hcon
  push Not at hcon
  have key : ∀ t : ℝ, t ≠ 0 → 2 * lambd * Real.exp (-lambd * t ^ 2) * mu = mu' := by
    intro t ht
    have h := hcon [t, 0] [[1], [1]]
    have e1 := filterData_fresh (n := 1) env upper hG { mu := some mu, lambd := some lambd, alpha := some 2 } (fun _ => 0) rfl mu rfl
      [t, 0] [[1], [1]]
    have e2 := filterData_fresh (n := 1) env upper hL { mu := some mu' } (fun _ => 0) rfl mu' rfl [t, 0] [[1], [1]]
    have h' : runNew env 1 .gmcc { mu := some mu, lambd := some lambd, alpha := some 2 } mu (fun _ => 0) [t, 0] [[1], [1]]
        = runNew env 1 .lms { mu := some mu' } mu' (fun _ => 0) [t, 0] [[1], [1]] :=
      e1.symm.trans (Eq.trans h e2)
    let oG : Obj (gmcc ℝ 1) := ⟨⟨fun _ => 0, 1, mu, ⟨lambd, 2⟩⟩, []⟩
    let oL : Obj (lms ℝ 1) := ⟨⟨fun _ => 0, 1, mu', ()⟩, []⟩
    let ds : ℕ → ℝ := fun k => if k = 0 then t else 0
    let xs : ℕ → Vec ℝ 1 := fun _ _ => 1
    have rG := runs_of_safe gmcc_safe oG trivial ds xs
    have rL := runs_of_safe lms_safe oL trivial ds xs
    have g := rG.2 2 (by norm_num)
    have l := rL.2 2 (by norm_num)
    have hd : series ds 2 = [t, 0] := by simp [series, ds, List.range_succ]
    have hx : rows xs 2 = [[1], [1]] := by simp [rows, xs, List.range_succ, List.ofFn_succ]
    rw [hd, hx] at g l
    have h'' : (run (gmcc ℝ 1) [t, 0] [[1], [1]] oG).1 = (run (lms ℝ 1) [t, 0] [[1], [1]] oL).1 := h'
    rw [g, l] at h''
    have hw := (Prod.mk.inj (Prod.mk.inj (Except.ok.inj h'')).2).2
    simp only [series, List.range_succ, List.range_zero, List.map_cons, List.map_nil, List.nil_append, List.map_append,
      List.cons_append] at hw
    have hw1 := (List.cons.inj (List.cons.inj hw).2).1
    have hw2 := congrFun (List.ofFn_injective hw1) 0
    have eG := C32_increment oG rfl rG 0 0
    have gG := gmcc_runs rG 0
    have lL := lms_runs rL 0
    have w0 : ∀ i, (Padasip.traj (gmcc ℝ 1) (oG.core.withN 1) ds xs 0).w i = 0 := fun _ => rfl
    have v0 : ∀ i, (Padasip.traj (lms ℝ 1) (oL.core.withN 1) ds xs 0).w i = 0 := fun _ => rfl
    have ge : (outAt (gmcc ℝ 1) (oG.core.withN 1) ds xs 0).2 = t := by
      rw [gG.2.2.2.1, gG.2.2.1, dot_eq]; simp [w0, ds]
    have le : (outAt (lms ℝ 1) (oL.core.withN 1) ds xs 0).2 = t := by
      rw [lL.2.2.2.1, lL.2.2.1, dot_eq]; simp [v0, ds]
    rw [ge, w0, sub_zero] at eG
    have eL := congrFun lL.2.2.2.2 0
    rw [le, v0, lL.1] at eL
    simp only [zero_add] at eG eL
    have h3 := eG.symm.trans (hw2.trans eL)
    simp only [oG, oL, xs, mul_one] at h3
    have : (2 * lambd * Real.exp (-lambd * t ^ 2) * mu) * t = mu' * t := by linear_combination h3
    exact mul_right_cancel₀ ht this
  have k1 := key 1 one_ne_zero
  have k2 := key 2 two_ne_zero
  have h1 : 2 * lambd * mu * (Real.exp (-lambd * 1 ^ 2) - Real.exp (-lambd * 2 ^ 2)) = 0 := by
    linear_combination k1 - k2
  have h2 : Real.exp (-lambd * 1 ^ 2) = Real.exp (-lambd * 2 ^ 2) := by
    have h3 : 2 * lambd * mu ≠ 0 := by positivity
    exact sub_eq_zero.mp ((mul_eq_zero.mp h1).resolve_left h3)
  have h3 := Real.exp_injective h2
  apply hl
  linarith

example : getFilter (fun s => s) "GMCC" = .ok .gmcc ∧ getFilter (fun s => s) "LMS" = .ok .lms := by
  decide +kernel

example : ∃ (o : Obj (gmcc ℝ 2)) (y e : ℕ → ℝ) (S : ℕ → Core ℝ 2 (GmccExt ℝ)),
    Runs (gmcc ℝ 2) o (fun k => k) (fun k _ => k + 1) y e S ∧ o.core.ext.alpha = 2 :=
  ⟨⟨⟨fun _ => 0, 2, 1, (⟨1, 2⟩ : GmccExt ℝ)⟩, []⟩, _, _, _, runs_of_safe gmcc_safe _ trivial _ _, rfl⟩

end c32

/-! ## C33 -/

section c33
variable {K : Type} [Field K] [LinearOrder K] [IsStrictOrderedRing K] {n : ℕ}
variable {d : ℕ → K} {x : ℕ → Vec K n} {y e : ℕ → K}

theorem abs_sgn_le (a : K) : |Scalar.sgn a| ≤ 1 := by
  show |if 0 < a then (1 : K) else if a < 0 then -1 else 0| ≤ 1
  split_ifs <;> simp

theorem abs_sgn_mul (m a b : K) : |m * Scalar.sgn a * Scalar.sgn b| ≤ |m| := by
  rw [abs_mul, abs_mul]
  have h1 := abs_sgn_le a
  have h2 := abs_sgn_le b
  calc |m| * |Scalar.sgn a| * |Scalar.sgn b| ≤ |m| * 1 * 1 := by gcongr
    _ = |m| := by ring

/-- C33 (SSLMS): one sample moves every weight by at most `|mu|`, `N` samples by at most `N |mu|`, whatever the data. -/
theorem C33_sslms (o : Obj (sslms K n)) {S : ℕ → Core K n Unit} (h : Runs (sslms K n) o d x y e S) (i : Fin n) :
    (∀ k, |(S (k + 1)).w i - (S k).w i| ≤ |o.core.mu|) ∧
    ∀ N, |(S N).w i - o.core.w i| ≤ N * |o.core.mu| := by
  have step : ∀ k, |(S (k + 1)).w i - (S k).w i| ≤ |o.core.mu| := by
    intro k
    obtain ⟨h1, -, -, -, h5⟩ := sslms_runs h k
    rw [h5, h1]
    simp only [add_sub_cancel_left]
    exact abs_sgn_mul _ _ _
  refine ⟨step, fun N => ?_⟩
  induction N with
  | zero => rw [h.1]; simp [Core.withN]
  | succ N ih =>
    have : (S (N + 1)).w i - o.core.w i = ((S (N + 1)).w i - (S N).w i) + ((S N).w i - o.core.w i) := by ring
    rw [this]
    refine (abs_add_le _ _).trans ?_
    push_cast
    have := step N
    linarith

/-- C33 (NSSLMS): one sample moves every weight by at most `|mu| / (eps + |x|^2) <= |mu| / eps`. -/
theorem C33_nsslms (o : Obj (nsslms K n)) (heps : 0 < o.core.ext.eps) {S : ℕ → Core K n (EpsExt K)}
    (h : Runs (nsslms K n) o d x y e S) (i : Fin n) :
    (∀ k, |(S (k + 1)).w i - (S k).w i| ≤ |o.core.mu| / (o.core.ext.eps + ∑ j, x k j * x k j)) ∧
    ∀ N, |(S N).w i - o.core.w i| ≤ ∑ k ∈ range N, |o.core.mu| / (o.core.ext.eps + ∑ j, x k j * x k j) := by
  have step : ∀ k, |(S (k + 1)).w i - (S k).w i| ≤ |o.core.mu| / (o.core.ext.eps + ∑ j, x k j * x k j) := by
    intro k
    obtain ⟨h1, h2, -, -, h5⟩ := nsslms_runs h k
    rw [h5, h1, h2]
    simp only [add_sub_cancel_left]
    refine (abs_sgn_mul _ _ _).trans ?_
    rw [abs_div, dot_eq]
    have : 0 < o.core.ext.eps + ∑ j, x k j * x k j :=
      add_pos_of_pos_of_nonneg heps (sum_nonneg fun j _ => mul_self_nonneg _)
    rw [abs_of_pos this]
  refine ⟨step, fun N => ?_⟩
  induction N with
  | zero => rw [h.1]; simp [Core.withN]
  | succ N ih =>
    have : (S (N + 1)).w i - o.core.w i = ((S (N + 1)).w i - (S N).w i) + ((S N).w i - o.core.w i) := by ring
    rw [this, sum_range_succ]
    refine (abs_add_le _ _).trans ?_
    have := step N
    linarith

example : ∃ (o : Obj (sslms ℚ 2)) (y e : ℕ → ℚ) (S : ℕ → Core ℚ 2 Unit),
    Runs (sslms ℚ 2) o (fun k => k) (fun k _ => k + 1) y e S :=
  ⟨⟨⟨fun _ => 0, 2, 1, ()⟩, []⟩, _, _, _, runs_of_safe sslms_safe _ trivial _ _⟩

example : ∃ (o : Obj (nsslms ℚ 2)) (y e : ℕ → ℚ) (S : ℕ → Core ℚ 2 (EpsExt ℚ)),
    Runs (nsslms ℚ 2) o (fun k => k) (fun k _ => k + 1) y e S ∧ 0 < o.core.ext.eps :=
  ⟨⟨⟨fun _ => 0, 2, 1, (⟨1⟩ : EpsExt ℚ)⟩, []⟩, _, _, _, runs_of_safe nsslms_safe _ trivial _ _, one_pos⟩

end c33

/-! ## C34 -/

section c34
variable {n : ℕ} {d : ℕ → ℝ} {x : ℕ → Vec ℝ n} {y e : ℕ → ℝ}

theorem abs_tanh_le (a : ℝ) : |Real.tanh a| ≤ 1 := (Real.abs_tanh_lt_one a).le

/-- C34 (Llncosh): the increment of a weight is at most `|mu| |x_i|`, whatever the error. -/
theorem C34_llncosh (o : Obj (llncosh ℝ n)) {S : ℕ → Core ℝ n (LlncoshExt ℝ)}
    (h : Runs (llncosh ℝ n) o d x y e S) (k : ℕ) (i : Fin n) :
    |(S (k + 1)).w i - (S k).w i| ≤ |o.core.mu| * |x k i| := by
  obtain ⟨h1, -, -, -, h5⟩ := llncosh_runs h k
  rw [h5, h1]
  simp only [add_sub_cancel_left]
  rw [abs_mul, abs_mul]
  have h := abs_tanh_le ((S k).ext.lambd * e k)
  have : |Transc.tanh ((S k).ext.lambd * e k)| ≤ 1 := h
  calc |o.core.mu| * |Transc.tanh ((S k).ext.lambd * e k)| * |x k i| ≤ |o.core.mu| * 1 * |x k i| := by gcongr
    _ = _ := by ring

/-- `u^c exp(-l u) <= (c / (l e))^c` -/
theorem rpow_mul_exp_le {c l u : ℝ} (hc : 0 ≤ c) (hl : 0 < l) (hu : 0 ≤ u) :
    u ^ c * Real.exp (-l * u) ≤ (c / (l * Real.exp 1)) ^ c := by
  rcases hc.eq_or_lt with rfl | hc
  · simp only [Real.rpow_zero, one_mul]
    exact Real.exp_le_one_iff.mpr (by nlinarith)
  have h1 : l * u / c ≤ Real.exp (l * u / c - 1) := by
    have := Real.add_one_le_exp (l * u / c - 1)
    linarith
  have h2 : (l * u / c) ^ c ≤ Real.exp (l * u - c) := by
    have h3 := Real.rpow_le_rpow (by positivity) h1 hc.le
    rw [← Real.exp_mul] at h3
    have h4 : (l * u / c - 1) * c = l * u - c := by field_simp
    rwa [h4] at h3
  have h5 : u ^ c = (l * u / c) ^ c * (c / l) ^ c := by
    rw [← Real.mul_rpow (by positivity) (by positivity)]
    congr 1; field_simp
  have h6 : (c / (l * Real.exp 1)) ^ c = (c / l) ^ c * Real.exp (-c) := by
    have : c / (l * Real.exp 1) = c / l * Real.exp (-1) := by rw [Real.exp_neg]; field_simp
    rw [this, Real.mul_rpow (by positivity) (by positivity), ← Real.exp_mul]
    congr 2; ring
  have h7 : Real.exp (l * u - c) * Real.exp (-l * u) = Real.exp (-c) := by
    rw [← Real.exp_add]; congr 1; ring
  rw [h5, h6]
  calc (l * u / c) ^ c * (c / l) ^ c * Real.exp (-l * u)
      ≤ Real.exp (l * u - c) * (c / l) ^ c * Real.exp (-l * u) := by gcongr
    _ = (c / l) ^ c * (Real.exp (l * u - c) * Real.exp (-l * u)) := by ring
    _ = _ := by rw [h7]

/-- C34 (GMCC): for `alpha >= 1`, `lambda > 0` the increment of a weight is at most
`|mu| |x_i| lambda alpha ((1 - 1/alpha) / (lambda e))^(1 - 1/alpha)`, whatever the error (`e` is Euler's number; this is the maximum of
`t^(alpha-1) exp(-lambda t^alpha)` over `t >= 0`). -/
theorem C34_gmcc (o : Obj (gmcc ℝ n)) (ha : 1 ≤ o.core.ext.alpha) (hl : 0 < o.core.ext.lambd)
    {S : ℕ → Core ℝ n (GmccExt ℝ)} (h : Runs (gmcc ℝ n) o d x y e S) (k : ℕ) (i : Fin n) :
    |(S (k + 1)).w i - (S k).w i| ≤ |o.core.mu| * |x k i| * (o.core.ext.lambd * o.core.ext.alpha *
      ((1 - 1 / o.core.ext.alpha) / (o.core.ext.lambd * Real.exp 1)) ^ (1 - 1 / o.core.ext.alpha)) := by
  obtain ⟨h1, h2, -, -, h5⟩ := gmcc_runs h k
  rw [h5, h1, h2]
  generalize o.core.ext.alpha = a at *
  generalize o.core.ext.lambd = l at *
  have ha0 : 0 < a := by linarith
  have hb := rpow_mul_exp_le (c := 1 - 1 / a) (l := l) (u := |e k| ^ a)
    (by rw [sub_nonneg, div_le_one ha0]; exact ha) hl (by positivity)
  have h6 : (|e k| ^ a) ^ (1 - 1 / a) = |e k| ^ (a - 1) := by
    rw [← Real.rpow_mul (abs_nonneg _)]
    congr 1; field_simp
  rw [h6] at hb
  show |_ + o.core.mu * l * a * Real.exp (-l * |e k| ^ a) * |e k| ^ (a - 1) * Scalar.sgn (e k) * x k i - _| ≤ _
  rw [add_sub_cancel_left]
  have h7 : o.core.mu * l * a * Real.exp (-l * |e k| ^ a) * |e k| ^ (a - 1) * Scalar.sgn (e k) * x k i
      = (o.core.mu * x k i) * (l * a * (|e k| ^ (a - 1) * Real.exp (-l * |e k| ^ a))) * Scalar.sgn (e k) := by ring
  rw [h7, abs_mul, abs_mul, abs_mul o.core.mu]
  have h8 : |l * a * (|e k| ^ (a - 1) * Real.exp (-l * |e k| ^ a))| = l * a * (|e k| ^ (a - 1) * Real.exp (-l * |e k| ^ a)) :=
    abs_of_nonneg (by positivity)
  rw [h8]
  have h9 := abs_sgn_le (e k)
  have h10 : 0 ≤ ((1 - 1 / a) / (l * Real.exp 1)) ^ (1 - 1 / a) := le_trans (by positivity) hb
  calc |o.core.mu| * |x k i| * (l * a * (|e k| ^ (a - 1) * Real.exp (-l * |e k| ^ a))) * |Scalar.sgn (e k)|
      ≤ |o.core.mu| * |x k i| * (l * a * ((1 - 1 / a) / (l * Real.exp 1)) ^ (1 - 1 / a)) * 1 := by gcongr
    _ = _ := by ring

/-- C34 (GMCC, `alpha=2`): the increment of a weight is at most `|mu| |x_i| sqrt(2 lambda / e)`. -/
theorem C34_gmcc_two (o : Obj (gmcc ℝ n)) (ha : o.core.ext.alpha = 2) (hl : 0 < o.core.ext.lambd)
    {S : ℕ → Core ℝ n (GmccExt ℝ)} (h : Runs (gmcc ℝ n) o d x y e S) (k : ℕ) (i : Fin n) :
    |(S (k + 1)).w i - (S k).w i| ≤ |o.core.mu| * |x k i| * Real.sqrt (2 * o.core.ext.lambd / Real.exp 1) := by
  refine (C34_gmcc o (by rw [ha]; norm_num) hl h k i).trans ?_
  rw [ha]
  generalize o.core.ext.lambd = l at *
  have h1 : (1 : ℝ) - 1 / 2 = 1 / 2 := by norm_num
  rw [h1, ← Real.sqrt_eq_rpow]
  have h2 : l * 2 * Real.sqrt (1 / 2 / (l * Real.exp 1)) = Real.sqrt (2 * l / Real.exp 1) := by
    symm
    rw [Real.sqrt_eq_iff_mul_self_eq (by positivity) (by positivity)]
    symm
    have := Real.mul_self_sqrt (show 0 ≤ 1 / 2 / (l * Real.exp 1) by positivity)
    calc l * 2 * Real.sqrt (1 / 2 / (l * Real.exp 1)) * (l * 2 * Real.sqrt (1 / 2 / (l * Real.exp 1)))
        = 4 * l * l * (Real.sqrt (1 / 2 / (l * Real.exp 1)) * Real.sqrt (1 / 2 / (l * Real.exp 1))) := by ring
      _ = _ := by rw [this]; field_simp; ring
  rw [h2]

/-- the hypotheses are met with the default parameters `lambda = 0.03`, `alpha = 2` -/
example : ∃ (o : Obj (gmcc ℝ 2)) (y e : ℕ → ℝ) (S : ℕ → Core ℝ 2 (GmccExt ℝ)),
    Runs (gmcc ℝ 2) o (fun k => k) (fun k _ => k + 1) y e S ∧ o.core.ext.alpha = 2 ∧ 0 < o.core.ext.lambd :=
  ⟨⟨⟨fun _ => 0, 2, 1, (⟨3 / 100, 2⟩ : GmccExt ℝ)⟩, []⟩, _, _, _, runs_of_safe gmcc_safe _ trivial _ _, rfl, by norm_num⟩

end c34
end Padasip
