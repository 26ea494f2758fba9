import Verif.Model.BoolData
import Verif.Lemmas.Steps
import Verif.Lemmas.Rules
import Verif.Props.Optimal
import Verif.Spec.Example

/-!
# C138: Boolean input data

The filters run on a Boolean input matrix, compared with the run on the same values as floats (`True` = 1, `False` = 0).
-/

set_option linter.unusedSectionVars false
set_option linter.unusedSimpArgs false
set_option linter.unusedVariables false

namespace Padasip

namespace BNum
variable {n : ℕ}

@[simp] theorem val_flt (r : ℝ) : (flt r).val = r := rfl
@[simp] theorem val_bool (a : Bool) : (bool a).val = if a then 1 else 0 := rfl

theorem flt_mul (r : ℝ) (p : BNum) : flt r * p = flt (r * p.val) := by cases p <;> rfl
theorem mul_flt (r : ℝ) (p : BNum) : p * flt r = flt (p.val * r) := by cases p <;> rfl
theorem flt_add (r : ℝ) (p : BNum) : flt r + p = flt (r + p.val) := by cases p <;> rfl
theorem add_flt (r : ℝ) (p : BNum) : p + flt r = flt (p.val + r) := by cases p <;> rfl
theorem flt_sub (r : ℝ) (p : BNum) : flt r - p = flt (r - p.val) := by cases p <;> rfl
theorem sub_flt (r : ℝ) (p : BNum) : p - flt r = flt (p.val - r) := by cases p <;> rfl
theorem div_eq (p q : BNum) : p / q = flt (p.val / q.val) := rfl
theorem neg_flt (r : ℝ) : -(flt r) = flt (-r) := rfl
theorem bool_mul (a c : Bool) : bool a * bool c = bool (a && c) := rfl
theorem bool_add (a c : Bool) : bool a + bool c = bool (a || c) := rfl
theorem one_eq : (1 : BNum) = flt 1 := rfl
theorem zero_eq : (0 : BNum) = bool false := rfl
@[simp] theorem val_one : (1 : BNum).val = 1 := rfl
@[simp] theorem val_zero : (0 : BNum).val = 0 := by rw [zero_eq]; simp
theorem sgn_flt (r : ℝ) : Scalar.sgn (flt r) = flt (Scalar.sgn r) := rfl
theorem abs_flt (r : ℝ) : Scalar.abs (flt r) = flt |r| := rfl
theorem eqz_flt (r : ℝ) : Scalar.eqz (flt r) = decide (r = 0) := by
  show (@decide _ _) = _
  congr

theorem sum_flt : ∀ l : List ℝ, l ≠ [] → (l.map flt).sum = flt l.sum
  | [], h => absurd rfl h
  | [a], _ => by
    simp only [List.map_cons, List.map_nil, List.sum_cons, List.sum_nil]
    rw [flt_add, val_zero]
  | a :: c :: l, _ => by
    have := sum_flt (c :: l) (by simp)
    rw [List.map_cons, List.sum_cons, this, flt_add, val_flt, List.sum_cons (a := a)]

theorem vsum_flt (hn : 0 < n) (f : Vec BNum n) (g : Vec ℝ n) (h : ∀ i, f i = flt (g i)) : vsum f = flt (vsum g) := by
  unfold vsum
  have : List.ofFn f = (List.ofFn g).map flt := by
    rw [List.map_ofFn]; congr 1; funext i; exact h i
  rw [this, sum_flt _ (by intro h0; have := congrArg List.length h0; simp at this; omega)]

/-- a dot product with a float array is a float dot product -/
theorem dot_flt (hn : 0 < n) (u : Vec ℝ n) (x : Vec BNum n) : dot (fun i => flt (u i)) x = flt (dot u fun i => (x i).val) := by
  unfold dot
  exact vsum_flt hn _ _ fun i => flt_mul _ _

theorem dot_flt' (hn : 0 < n) (u : Vec ℝ n) (x : Vec BNum n) : dot x (fun i => flt (u i)) = flt (dot (fun i => (x i).val) u) := by
  unfold dot
  exact vsum_flt hn _ _ fun i => mul_flt _ _

theorem sum_bool : ∀ l : List Bool, (l.map bool).sum = bool (l.any id)
  | [] => rfl
  | a :: l => by rw [List.map_cons, List.sum_cons, sum_bool l, bool_add]; rfl

end BNum

open BNum

variable {n : ℕ}

/-! ## Specification -/

/-- 1 if the two rows have a common `True`, else 0 -/
noncomputable def overlap (a c : Vec Bool n) : ℝ := by classical exact if ∃ i, a i = true ∧ c i = true then 1 else 0

/-- the row as floats -/
noncomputable def bval (a : Vec Bool n) : Vec ℝ n := fun i => if a i then 1 else 0

/-- the filter with the attributes of `s`, all of them floats -/
def Core.upB {X X' : Type} (f : X → X') (s : Core ℝ n X) : Core BNum n X' := ⟨fun i => flt (s.w i), s.nAttr, flt s.mu, f s.ext⟩
/-- attributes as floats -/
def EpsExt.upB (q : EpsExt ℝ) : EpsExt BNum := ⟨flt q.eps⟩
/-- attributes as floats -/
def GmccExt.upB (q : GmccExt ℝ) : GmccExt BNum := ⟨flt q.lambd, flt q.alpha⟩
/-- attributes as floats -/
def LlncoshExt.upB (q : LlncoshExt ℝ) : LlncoshExt BNum := ⟨flt q.lambd⟩
/-- attributes as floats -/
def GngdExt.upB (q : GngdExt ℝ n) : GngdExt BNum n := ⟨flt q.eps, flt q.ro, flt q.lastE, fun i => flt (q.lastX i)⟩
/-- attributes as floats -/
def MathewsExt.upB (q : MathewsExt ℝ n) : MathewsExt BNum n := ⟨flt q.ro, flt q.lastE, fun i => flt (q.lastX i), flt q.lastMu⟩
/-- attributes as floats -/
def AngExt.upB (q : AngExt ℝ n) : AngExt BNum n :=
  ⟨flt q.ro, flt q.a, flt q.lastE, fun i => flt (q.lastX i), fun i => flt (q.lastFi i), flt q.lastMu⟩
/-- attributes as floats -/
def BenExt.upB (q : BenExt ℝ n) : BenExt BNum n := ⟨flt q.ro, flt q.lastE, fun i => flt (q.lastX i), fun i => flt (q.lastFi i), flt q.lastMu⟩
/-- attributes as floats -/
def RlsExt.upB (q : RlsExt ℝ n) : RlsExt BNum n := ⟨flt q.eps, fun i j => flt (q.R i j)⟩

/-- The class `C'` on the Boolean rows `a` (targets `d` Boolean or floats), started with the attributes `up s`, reports the outputs, errors and weights (all of them floats) that the filter `C`,
started with the attributes `s`, reports on the same data as floats - for every `s` with `P`. -/
def BoolSame (C : FilterClass ℝ n) (C' : FilterClass BNum n) (up : Core ℝ n C.Ext → Core BNum n C'.Ext) (P : Core ℝ n C.Ext → Prop) (d : ℕ → BNum) (a : ℕ → Vec Bool n) : Prop :=
  ∀ (o : Obj C) (H : List (List BNum)) (y e : ℕ → ℝ) (S : ℕ → Core ℝ n C.Ext), P o.core →
    Runs C o (fun k => (d k).val) (fun k => bval (a k)) y e S →
    ∃ S' : ℕ → Core BNum n C'.Ext, Runs C' ⟨up o.core, H⟩ d (fun k i => bool (a k i)) (fun k => flt (y k)) (fun k => flt (e k)) S' ∧
      ∀ k i, (S' k).w i = flt ((S k).w i)

/-! ## Simulation -/

theorem dot_bool (a c : Vec Bool n) : (dot (fun i => bool (a i)) fun i => bool (c i)).val = overlap a c := by
  have : dot (fun i => bool (a i)) (fun i => bool (c i)) = bool ((List.ofFn fun i => a i && c i).any id) := by
    unfold dot vsum
    rw [← sum_bool, List.map_ofFn]
    rfl
  rw [this, val_bool]
  unfold overlap
  by_cases h : ∃ i, a i = true ∧ c i = true
  · rw [if_pos h, if_pos]
    obtain ⟨i, h1, h2⟩ := h
    exact List.any_eq_true.mpr ⟨a i && c i, List.mem_ofFn.mpr ⟨i, rfl⟩, by simp [h1, h2]⟩
  · rw [if_neg h, if_neg]
    intro h'
    obtain ⟨v, hv, h1⟩ := List.any_eq_true.mp h'
    obtain ⟨i, rfl⟩ := List.mem_ofFn.mp hv
    exact h ⟨i, by simpa using h1⟩

theorem bool_val (a : Vec Bool n) : (fun i => (bool (a i)).val) = bval a := rfl

theorem overlap_one {a c : Vec Bool n} (h : ∀ i j, a i = true → c i = true → a j = true → c j = true → i = j) : overlap a c = dot (bval a) (bval c) := by
  rw [dot_eq]
  unfold overlap bval
  by_cases he : ∃ i, a i = true ∧ c i = true
  · rw [if_pos he]
    obtain ⟨i, h1, h2⟩ := he
    rw [Finset.sum_eq_single i]
    · simp [h1, h2]
    · intro j _ hj
      by_cases h3 : a j = true
      · have : ¬ c j = true := fun h4 => hj (h j i h3 h4 h1 h2)
        simp [this]
      · simp [h3]
    · simp
  · rw [if_neg he]
    symm
    refine Finset.sum_eq_zero fun j _ => ?_
    by_cases h3 : a j = true
    · have : ¬ c j = true := fun h4 => he ⟨j, h3, h4⟩
      simp [this]
    · simp [h3]

theorem bool_of_sim {C : FilterClass ℝ n} {C' : FilterClass BNum n} {up : Core ℝ n C.Ext → Core BNum n C'.Ext}
    {P : Core ℝ n C.Ext → Prop} {P' : Core BNum n C'.Ext → Prop} (hC : Safe C P) (hC' : Safe C' P')
    (hP : ∀ s m, P s → P (s.withN m)) (hup : ∀ s m, (up s).withN m = up (s.withN m)) (hP' : ∀ s, P s → P' (up s))
    (R : ℕ → Core BNum n C'.Ext → Core ℝ n C.Ext → Prop) (hR : ∀ s, P s → R 0 (up s) s)
    (hw : ∀ k s' s, R k s' s → ∀ i, s'.w i = flt (s.w i)) (d : ℕ → BNum) (a : ℕ → Vec Bool n)
    (hbody : ∀ k s' s, R k s' s → s.nAttr = n → s'.nAttr = n → P s →
      ∃ y e t t', C.body (d k).val (List.ofFn (bval (a k))) s = (.ok (y, e), t) ∧
        C'.body (d k) (List.ofFn fun i => bool (a k i)) s' = (.ok (flt y, flt e), t') ∧ R (k + 1) t' t) : BoolSame C C' up P d a := by
  intro o H y e S ho h
  have hst := Runs.step hC (hP _ n ho) h
  have hs0 : S 0 = o.core.withN n := h.1
  have ho' : P' ((up o.core).withN n) := by rw [hup]; exact hP' _ (hP _ _ ho)
  have hkey : ∀ k, R k (traj C' ((up o.core).withN n) d (fun k i => bool (a k i)) k) (S k) ∧
      (outAt C' ((up o.core).withN n) d (fun k i => bool (a k i)) k) = (flt (y k), flt (e k)) := by
    have step : ∀ k, R k (traj C' ((up o.core).withN n) d (fun k i => bool (a k i)) k) (S k) →
        R (k + 1) (traj C' ((up o.core).withN n) d (fun k i => bool (a k i)) (k + 1)) (S (k + 1)) ∧
        (outAt C' ((up o.core).withN n) d (fun k i => bool (a k i)) k) = (flt (y k), flt (e k)) := by
      intro k hk
      obtain ⟨h1, h2, h3⟩ := hst k
      have h4 := (traj_safe hC' (s := (up o.core).withN n) ho' rfl d (fun k i => bool (a k i)) k).2
      obtain ⟨y', e', t, t', h0, h5, h6⟩ := hbody k _ _ hk h3 h4 h2
      obtain ⟨h10, h11⟩ := Prod.mk.inj (h0.symm.trans h1)
      obtain ⟨rfl, rfl⟩ := Prod.mk.inj (Except.ok.inj h10)
      subst h11
      have h7 := body_traj hC' (s := (up o.core).withN n) ho' rfl d (fun k i => bool (a k i)) k
      rw [h5] at h7
      have h8 : t' = traj C' ((up o.core).withN n) d (fun k i => bool (a k i)) (k + 1) := congrArg Prod.snd h7
      have h9 := Except.ok.inj (congrArg Prod.fst h7)
      exact ⟨h8 ▸ h6, h9.symm⟩
    intro k
    have : R k (traj C' ((up o.core).withN n) d (fun k i => bool (a k i)) k) (S k) := by
      induction k with
      | zero => rw [hs0]; show R 0 ((up o.core).withN n) _; rw [hup]; exact hR _ (hP _ _ ho)
      | succ k ih => exact (step k ih).1
    exact ⟨this, (step k this).2⟩
  refine ⟨traj C' ((up o.core).withN n) d (fun k i => bool (a k i)), ?_, fun k i => hw _ _ _ (hkey k).1 i⟩
  have := runs_of_safe hC' ⟨up o.core, H⟩ ho' d (fun k i => bool (a k i))
  have e1 : (fun k => (outAt C' ((up o.core).withN n) d (fun k i => bool (a k i)) k).1) = fun k => flt (y k) := by
    funext k; rw [(hkey k).2]
  have e2 : (fun k => (outAt C' ((up o.core).withN n) d (fun k i => bool (a k i)) k).2) = fun k => flt (e k) := by
    funext k; rw [(hkey k).2]
  rw [← e1, ← e2]
  exact this

/-- the state is exactly the float state -/
theorem bool_of_up {C : FilterClass ℝ n} {C' : FilterClass BNum n} {up : Core ℝ n C.Ext → Core BNum n C'.Ext}
    (hC : Safe C fun _ => True) (hC' : Safe C' fun _ => True) (hup : ∀ s m, (up s).withN m = up (s.withN m))
    (hw : ∀ s i, (up s).w i = flt (s.w i)) (d : ℕ → BNum) (a : ℕ → Vec Bool n)
    (hbody : ∀ s k, ∃ y e t, C.body (d k).val (List.ofFn (bval (a k))) s = (.ok (y, e), t) ∧
      C'.body (d k) (List.ofFn fun i => bool (a k i)) (up s) = (.ok (flt y, flt e), up t)) : BoolSame C C' up (fun _ => True) d a := by
  refine bool_of_sim hC hC' (fun _ _ h => h) hup (fun _ _ => trivial) (fun _ s' s => s' = up s) (fun _ _ => rfl)
    (fun _ s' s h i => by rw [h]; exact hw s i) d a ?_
  rintro k s' s rfl - - -
  obtain ⟨y', e', t', h1, h2⟩ := hbody s k
  exact ⟨_, _, _, _, h1, h2, rfl⟩

/-! ## Filters that are safe -/

/-- C138: LMS. -/
theorem C138_lms (hn : 0 < n) (d : ℕ → BNum) (a : ℕ → Vec Bool n) : BoolSame (lms ℝ n) (lms BNum n) (Core.upB id) (fun _ => True) d a := by
  refine bool_of_up lms_safe lms_safe (fun _ _ => rfl) (fun _ _ => rfl) d a fun s k => ⟨_, _, _, lms_body s _ _, (lms_body _ _ _).trans ?_⟩
  simp only [Core.upB, id_eq, dot_flt hn, sub_flt, flt_mul, flt_add, val_flt, bool_val]
  rfl

/-- C138: LMF. -/
theorem C138_lmf (hn : 0 < n) (d : ℕ → BNum) (a : ℕ → Vec Bool n) : BoolSame (lmf ℝ n) (lmf BNum n) (Core.upB id) (fun _ => True) d a := by
  refine bool_of_up lmf_safe lmf_safe (fun _ _ => rfl) (fun _ _ => rfl) d a fun s k => ⟨_, _, _, lmf_body s _ _, (lmf_body _ _ _).trans ?_⟩
  simp only [Core.upB, id_eq, dot_flt hn, sub_flt, flt_mul, flt_add, val_flt, bool_val]
  rfl

/-- C138: GMCC. -/
theorem C138_gmcc (hn : 0 < n) (d : ℕ → BNum) (a : ℕ → Vec Bool n) : BoolSame (gmcc ℝ n) (gmcc BNum n) (Core.upB GmccExt.upB) (fun _ => True) d a := by
  refine bool_of_up gmcc_safe gmcc_safe (fun _ _ => rfl) (fun _ _ => rfl) d a fun s k => ⟨_, _, _, gmcc_body s _ _, (gmcc_body _ _ _).trans ?_⟩
  simp only [Core.upB, GmccExt.upB, dot_flt hn, sub_flt, flt_mul, flt_add, flt_sub, neg_flt, val_flt, sgn_flt, abs_flt, val_one, bool_val]
  rfl

/-- C138: Llncosh. -/
theorem C138_llncosh (hn : 0 < n) (d : ℕ → BNum) (a : ℕ → Vec Bool n) : BoolSame (llncosh ℝ n) (llncosh BNum n) (Core.upB LlncoshExt.upB) (fun _ => True) d a := by
  refine bool_of_up llncosh_safe llncosh_safe (fun _ _ => rfl) (fun _ _ => rfl) d a fun s k => ⟨_, _, _, llncosh_body s _ _, (llncosh_body _ _ _).trans ?_⟩
  simp only [Core.upB, LlncoshExt.upB, dot_flt hn, sub_flt, flt_mul, flt_add, flt_sub, neg_flt, val_flt, sgn_flt, abs_flt, val_one, bool_val]
  rfl

/-- a float array, or a Boolean array; its values are `u` -/
def BoolArr (u' : Vec BNum n) (u : Vec ℝ n) : Prop := (∀ i, (u' i).val = u i) ∧ ((u' = fun i => flt (u i)) ∨ ∃ a : Vec Bool n, u' = fun i => bool (a i))

theorem boolArr_flt (u : Vec ℝ n) : BoolArr (fun i => flt (u i)) u := ⟨fun _ => rfl, Or.inl rfl⟩
theorem boolArr_bool (a : Vec Bool n) : BoolArr (fun i => bool (a i)) (bval a) := ⟨fun _ => rfl, Or.inr ⟨a, rfl⟩⟩

theorem boolArr_mul {u' : Vec BNum n} {u : Vec ℝ n} (h : BoolArr u' u) (i j : Fin n) : (u' i * u' j).val = u i * u j := by
  obtain ⟨h1, rfl | ⟨a, rfl⟩⟩ := h
  · show (flt (u i) * flt (u j)).val = _
    rw [flt_mul]; rfl
  · show (bool (a i) * bool (a j)).val = _
    rw [bool_mul, val_bool, ← h1 i, ← h1 j, val_bool, val_bool]
    cases a i <;> cases a j <;> simp

/-- float attributes, except that `last_x` may be a Boolean array -/
def angRelB (s' : Core BNum n (AngExt BNum n)) (s : Core ℝ n (AngExt ℝ n)) : Prop :=
  ∃ u : Vec BNum n, BoolArr u s.ext.lastX ∧ s' = ⟨fun i => flt (s.w i), s.nAttr, flt s.mu,
    ⟨flt s.ext.ro, flt s.ext.a, flt s.ext.lastE, u, fun i => flt (s.ext.lastFi i), flt s.ext.lastMu⟩⟩

/-- C138: VSLMS_Ang. -/
theorem C138_ang (hn : 0 < n) (d : ℕ → BNum) (a : ℕ → Vec Bool n) : BoolSame (ang ℝ n) (ang BNum n) (Core.upB AngExt.upB) (fun _ => True) d a := by
  refine bool_of_sim (P' := fun _ => True) ang_safe ang_safe (fun _ _ h => h) (fun _ _ => rfl) (fun _ _ => trivial) (fun _ => angRelB)
    (fun _ _ => ⟨_, boolArr_flt _, rfl⟩) (fun _ s' s h i => by obtain ⟨u, -, rfl⟩ := h; rfl) d a ?_
  rintro k s' s ⟨u, h1, rfl⟩ - - -
  have hfi : angFi (⟨fun i => flt (s.w i), s.nAttr, flt s.mu,
    ⟨flt s.ext.ro, flt s.ext.a, flt s.ext.lastE, u, fun i => flt (s.ext.lastFi i), flt s.ext.lastMu⟩⟩ : Core BNum n (AngExt BNum n)) = fun i => flt (angFi s i) := by
    funext i
    simp only [angFi, flt_mul, flt_add, val_flt, h1.1]
  refine ⟨_, _, _, _, ang_body s _ _, (ang_body _ _ _).trans (Prod.ext ?_ rfl), _, boolArr_bool _, ?_⟩
  · simp only [dot_flt hn, sub_flt, bool_val]
  · simp only [dot_flt hn, sub_flt, angMu, hfi, dot_flt' hn, flt_mul, flt_add, val_flt, h1.1, bool_val]
    rfl

/-- float attributes, except that `last_x` may be a Boolean array -/
def benvenisteRelB (s' : Core BNum n (BenExt BNum n)) (s : Core ℝ n (BenExt ℝ n)) : Prop :=
  ∃ u : Vec BNum n, BoolArr u s.ext.lastX ∧ s' = ⟨fun i => flt (s.w i), s.nAttr, flt s.mu,
    ⟨flt s.ext.ro, flt s.ext.lastE, u, fun i => flt (s.ext.lastFi i), flt s.ext.lastMu⟩⟩

/-- C138: VSLMS_Benveniste. -/
theorem C138_benveniste (hn : 0 < n) (d : ℕ → BNum) (a : ℕ → Vec Bool n) : BoolSame (benveniste ℝ n) (benveniste BNum n) (Core.upB BenExt.upB) (fun _ => True) d a := by
  refine bool_of_sim (P' := fun _ => True) benveniste_safe benveniste_safe (fun _ _ h => h) (fun _ _ => rfl) (fun _ _ => trivial) (fun _ => benvenisteRelB)
    (fun _ _ => ⟨_, boolArr_flt _, rfl⟩) (fun _ s' s h i => by obtain ⟨u, -, rfl⟩ := h; rfl) d a ?_
  rintro k s' s ⟨u, hu, rfl⟩ hN - -
  have hfi : benFi (⟨fun i => flt (s.w i), s.nAttr, flt s.mu,
    ⟨flt s.ext.ro, flt s.ext.lastE, u, fun i => flt (s.ext.lastFi i), flt s.ext.lastMu⟩⟩ : Core BNum n (BenExt BNum n)) = fun i => flt (benFi s i) := by
    funext i
    have he : ∀ i j, (eye n i j : BNum).val = eye n i j := by
      intro i j
      unfold eye
      split
      · exact val_one
      · exact val_zero
    simp only [benFi, matVec, outer, flt_mul, sub_flt, he, boolArr_mul hu, dot_flt hn, flt_add, val_flt, hu.1]
  refine ⟨_, _, _, _, benveniste_body s hN _ _, (benveniste_body (K := BNum) ⟨_, s.nAttr, _, _⟩ hN _ _).trans (Prod.ext ?_ rfl), _, boolArr_bool _, ?_⟩
  · simp only [dot_flt hn, sub_flt, bool_val]
  · simp only [dot_flt hn, sub_flt, benMu, hfi, dot_flt' hn, flt_mul, flt_add, val_flt, hu.1, bool_val]
    rfl

/-- C138: RLS. -/
theorem C138_rls (hn : 0 < n) (d : ℕ → BNum) (a : ℕ → Vec Bool n) :
    BoolSame (rls ℝ n) (rls BNum n) (Core.upB RlsExt.upB) (fun s => Scalar.eqz s.mu = false) d a := by
  refine bool_of_sim (P' := fun s => Scalar.eqz s.mu = false) rls_safe rls_safe (fun _ _ h => h) (fun _ _ => rfl)
    (fun s h => (eqz_flt s.mu).trans h) (fun _ s' s => s' = s.upB RlsExt.upB) (fun _ _ => rfl) (fun _ s' s h i => by rw [h]; rfl) d a ?_
  rintro k s' s rfl - - hs
  let x : Vec BNum n := fun i => bool (a k i)
  have hx : BoolArr x (bval (a k)) := boolArr_bool _
  have hR : rlsR (flt s.mu) (fun i j => flt (s.ext.R i j)) x = fun i j => flt (rlsR s.mu s.ext.R (bval (a k)) i j) := by
    funext i j
    have h1 : matMul (matMul (fun i j => flt (s.ext.R i j)) (outer x x)) (fun i j => flt (s.ext.R i j)) i j
        = flt (matMul (matMul s.ext.R (outer (bval (a k)) (bval (a k)))) s.ext.R i j) :=
      vsum_flt hn _ _ fun m => by
        show vsum (fun l => flt (s.ext.R i l) * (x l * x m)) * _ = _
        rw [vsum_flt hn _ (fun l => s.ext.R i l * (bval (a k) l * bval (a k) m)) fun l => by rw [flt_mul, boolArr_mul hx], flt_mul]
        rfl
    have h3 : vecMat x (fun i j => flt (s.ext.R i j)) = fun k' => flt (vecMat (bval (a k)) s.ext.R k') :=
      funext fun k' => vsum_flt hn _ _ fun l => by rw [mul_flt]; rfl
    unfold rlsR
    rw [h1, h3, dot_flt hn]
    simp only [flt_add, val_flt, div_eq, flt_mul, flt_sub, val_one]
    rfl
  refine ⟨_, _, _, _, rls_body s hs _ _, (rls_body _ ((eqz_flt _).trans hs) _ x).trans (Prod.ext ?_ rfl), ?_⟩
  · simp only [Core.upB, dot_flt hn, sub_flt]; rfl
  · simp only [Core.upB, RlsExt.upB, hR, matVec, dot_flt hn, sub_flt, flt_mul, flt_add, val_flt]
    rfl

/-! ## The normalisation counts a row once, however many `True` it has -/

theorem overlap_self (a : Vec Bool n) (h : ∃ i, a i = true) : overlap a a = 1 := by
  unfold overlap
  rw [if_pos (by obtain ⟨i, hi⟩ := h; exact ⟨i, hi, hi⟩)]

theorem overlap_none (a : Vec Bool n) (h : ¬ ∃ i, a i = true) : bval a = 0 := by
  funext i
  have : ¬ a i = true := fun hi => h ⟨i, hi⟩
  simp [bval, this]

theorem bool_step (mu eps : ℝ) (a : Vec Bool n) (i : Fin n) : mu / (eps + overlap a a) * bval a i = mu / (eps + 1) * bval a i := by
  by_cases h : ∃ i, a i = true
  · rw [overlap_self a h]
  · rw [overlap_none a h]; simp

/-- C138: NLMS with the step size `mu` and the regularisation `eps` is LMS with the step size `mu / (eps + 1)`.  (The last hypotheses exclude divisions by zero.) -/
theorem C138_nlms (hn : 0 < n) (mu eps : ℝ) (d : ℕ → BNum) (a : ℕ → Vec Bool n) (h : eps ≠ 0 ∨ ∀ k, ∃ i, a k i = true) (h1 : eps ≠ -1) :
    BoolSame (lms ℝ n) (nlms BNum n) (fun s => ⟨fun i => flt (s.w i), s.nAttr, flt mu, ⟨flt eps⟩⟩) (fun s => s.mu = mu / (eps + 1)) d a := by
  have hs : Safe (lms ℝ n) fun s => s.mu = mu / (eps + 1) := fun s hs hN d x => ⟨_, _, lms_body s _ _, hs, hN⟩
  refine bool_of_sim (P' := fun _ => True) hs nlms_safe (fun _ _ h => h) (fun _ _ => rfl) (fun _ _ => trivial)
    (fun _ s' s => s.mu = mu / (eps + 1) ∧ s' = ⟨fun i => flt (s.w i), s.nAttr, flt mu, ⟨flt eps⟩⟩) (fun s h => ⟨h, rfl⟩) (fun _ s' s h i => by rw [h.2]) d a ?_
  rintro k s' s ⟨hmu, rfl⟩ - - -
  refine ⟨_, _, _, _, lms_body s _ _, (nlms_body _ _ _).trans (Prod.ext ?_ rfl), hmu, ?_⟩
  · simp only [dot_flt hn, sub_flt, bool_val]
  · simp only [dot_flt hn, sub_flt, flt_mul, flt_add, val_flt, div_eq, dot_bool, hmu, bool_val]
    congr 1
    funext i
    rw [← bool_step]
    rfl

/-- C138: NLMF with the step size `mu` and the regularisation `eps` is LMF with the step size `mu / (eps + 1)`. -/
theorem C138_nlmf (hn : 0 < n) (mu eps : ℝ) (d : ℕ → BNum) (a : ℕ → Vec Bool n) (h : eps ≠ 0 ∨ ∀ k, ∃ i, a k i = true) (h1 : eps ≠ -1) :
    BoolSame (lmf ℝ n) (nlmf BNum n) (fun s => ⟨fun i => flt (s.w i), s.nAttr, flt mu, ⟨flt eps⟩⟩) (fun s => s.mu = mu / (eps + 1)) d a := by
  have hs : Safe (lmf ℝ n) fun s => s.mu = mu / (eps + 1) := fun s hs hN d x => ⟨_, _, lmf_body s _ _, hs, hN⟩
  refine bool_of_sim (P' := fun _ => True) hs nlmf_safe (fun _ _ h => h) (fun _ _ => rfl) (fun _ _ => trivial)
    (fun _ s' s => s.mu = mu / (eps + 1) ∧ s' = ⟨fun i => flt (s.w i), s.nAttr, flt mu, ⟨flt eps⟩⟩) (fun s h => ⟨h, rfl⟩) (fun _ s' s h i => by rw [h.2]) d a ?_
  rintro k s' s ⟨hmu, rfl⟩ - - -
  refine ⟨_, _, _, _, lmf_body s _ _, (nlmf_body _ _ _).trans (Prod.ext ?_ rfl), hmu, ?_⟩
  · simp only [dot_flt hn, sub_flt, bool_val]
  · simp only [dot_flt hn, sub_flt, flt_mul, flt_add, val_flt, div_eq, dot_bool, hmu, bool_val]
    congr 1
    funext i
    rw [← bool_step]
    rfl

/-- at most one `True` -/
def OneHot (a : Vec Bool n) : Prop := ∀ i j, a i = true → a j = true → i = j

/-- C138: NLMS, NLMF and GNGD are safe if no row has two `True` ... -/
theorem C138_onehot_nlms (hn : 0 < n) (d : ℕ → BNum) (a : ℕ → Vec Bool n) (h : ∀ k, OneHot (a k)) :
    BoolSame (nlms ℝ n) (nlms BNum n) (Core.upB EpsExt.upB) (fun _ => True) d a := by
  refine bool_of_up nlms_safe nlms_safe (fun _ _ => rfl) (fun _ _ => rfl) d a fun s k => ⟨_, _, _, nlms_body s _ _, (nlms_body _ _ _).trans ?_⟩
  simp only [Core.upB, EpsExt.upB, dot_flt hn, sub_flt, flt_mul, flt_add, val_flt, div_eq, dot_bool, bool_val, overlap_one fun i j h1 _ h2 _ => h k i j h1 h2]
  rfl

theorem C138_onehot_nlmf (hn : 0 < n) (d : ℕ → BNum) (a : ℕ → Vec Bool n) (h : ∀ k, OneHot (a k)) :
    BoolSame (nlmf ℝ n) (nlmf BNum n) (Core.upB EpsExt.upB) (fun _ => True) d a := by
  refine bool_of_up nlmf_safe nlmf_safe (fun _ _ => rfl) (fun _ _ => rfl) d a fun s k => ⟨_, _, _, nlmf_body s _ _, (nlmf_body _ _ _).trans ?_⟩
  simp only [Core.upB, EpsExt.upB, dot_flt hn, sub_flt, flt_mul, flt_add, val_flt, div_eq, dot_bool, bool_val, overlap_one fun i j h1 _ h2 _ => h k i j h1 h2]
  rfl

/-- a float array, or a Boolean array with `Q`; its values are `u` -/
def BoolArrQ (Q : Vec Bool n → Prop) (u' : Vec BNum n) (u : Vec ℝ n) : Prop := (u' = fun i => flt (u i)) ∨ ∃ a : Vec Bool n, Q a ∧ (u' = fun i => bool (a i)) ∧ u = bval a

theorem boolArr_dot (hn : 0 < n) {Q Q' : Vec Bool n → Prop} {u' v' : Vec BNum n} {u v : Vec ℝ n} (hu : BoolArrQ Q u' u) (hv : BoolArrQ Q' v' v)
    (h : ∀ a c, Q a → Q' c → ∀ i j, a i = true → c i = true → a j = true → c j = true → i = j) : (dot u' v').val = dot u v := by
  obtain rfl | ⟨a, ha, rfl, rfl⟩ := hu
  · rw [dot_flt hn, val_flt]
    congr 1
    obtain rfl | ⟨c, -, rfl, rfl⟩ := hv <;> rfl
  · obtain rfl | ⟨c, hc, rfl, rfl⟩ := hv
    · rw [dot_flt' hn, val_flt]; rfl
    · rw [dot_bool, overlap_one (h a c ha hc)]

/-- float attributes, except that `last_x` may be a Boolean array with at most one `True` -/
def gngdRelB (s' : Core BNum n (GngdExt BNum n)) (s : Core ℝ n (GngdExt ℝ n)) : Prop :=
  ∃ u : Vec BNum n, BoolArrQ OneHot u s.ext.lastX ∧ s' = ⟨fun i => flt (s.w i), s.nAttr, flt s.mu, ⟨flt s.ext.eps, flt s.ext.ro, flt s.ext.lastE, u⟩⟩

theorem C138_onehot_gngd (hn : 0 < n) (d : ℕ → BNum) (a : ℕ → Vec Bool n) (h : ∀ k, OneHot (a k)) :
    BoolSame (gngd ℝ n) (gngd BNum n) (Core.upB GngdExt.upB) (fun _ => True) d a := by
  refine bool_of_sim (P' := fun _ => True) gngd_safe gngd_safe (fun _ _ h => h) (fun _ _ => rfl) (fun _ _ => trivial) (fun _ => gngdRelB)
    (fun _ _ => ⟨_, Or.inl rfl, rfl⟩) (fun _ s' s h i => by obtain ⟨u, -, rfl⟩ := h; rfl) d a ?_
  rintro k s' s ⟨u, hu, rfl⟩ - - -
  have hx : BoolArrQ OneHot (fun i => bool (a k i)) (bval (a k)) := Or.inr ⟨a k, h k, rfl, rfl⟩
  have hq : ∀ a c : Vec Bool n, OneHot a → OneHot c → ∀ i j, a i = true → c i = true → a j = true → c j = true → i = j := fun a c ha _ i j h1 _ h2 _ => ha i j h1 h2
  refine ⟨_, _, _, _, gngd_body s _ _, (gngd_body _ _ _).trans (Prod.ext ?_ rfl), _, hx, ?_⟩
  · simp only [dot_flt hn, sub_flt, bool_val]
  · simp only [dot_flt hn, sub_flt, gngdEps, flt_mul, flt_add, flt_sub, add_flt, div_eq, val_flt, boolArr_dot hn hu hu hq, boolArr_dot hn hx hu hq, boolArr_dot hn hx hx hq, bool_val]
    rfl

/-- float attributes, except that `last_x` is the row before -/
def mathewsRelB (a : ℕ → Vec Bool n) : ℕ → Core BNum n (MathewsExt BNum n) → Core ℝ n (MathewsExt ℝ n) → Prop
  | 0, s', s => s' = s.upB MathewsExt.upB
  | k + 1, s', s => s.ext.lastX = bval (a k) ∧ s' = ⟨fun i => flt (s.w i), s.nAttr, flt s.mu, ⟨flt s.ext.ro, flt s.ext.lastE, fun i => bool (a k i), flt s.ext.lastMu⟩⟩

/-- ... VSLMS_Mathews if no two successive rows have two `True` in common. -/
theorem C138_mathews (hn : 0 < n) (d : ℕ → BNum) (a : ℕ → Vec Bool n)
    (h : ∀ k i j, a k i = true → a (k + 1) i = true → a k j = true → a (k + 1) j = true → i = j) :
    BoolSame (mathews ℝ n) (mathews BNum n) (Core.upB MathewsExt.upB) (fun _ => True) d a := by
  refine bool_of_sim (P' := fun _ => True) mathews_safe mathews_safe (fun _ _ h => h) (fun _ _ => rfl) (fun _ _ => trivial) (mathewsRelB a)
    (fun _ _ => rfl) (fun k s' s h i => by cases k with | zero => rw [show s' = _ from h]; rfl | succ k => rw [h.2]) d a ?_
  intro k s' s hR _ _ _
  cases k with
  | zero =>
    obtain rfl : s' = _ := hR
    refine ⟨_, _, _, _, mathews_body s _ _, (mathews_body _ _ _).trans (Prod.ext ?_ rfl), rfl, ?_⟩
    · simp only [Core.upB, dot_flt hn, sub_flt, bool_val]
    · simp only [Core.upB, MathewsExt.upB, dot_flt hn, sub_flt, mathewsMu, flt_mul, flt_add, val_flt, bool_val]
      rfl
  | succ k =>
    obtain ⟨hl, rfl⟩ := hR
    refine ⟨_, _, _, _, mathews_body s _ _, (mathews_body _ _ _).trans (Prod.ext ?_ rfl), rfl, ?_⟩
    · simp only [dot_flt hn, sub_flt, bool_val]
    · simp only [dot_flt hn, sub_flt, mathewsMu, flt_mul, flt_add, val_flt, bool_val, dot_bool, overlap_one (h k), hl]
      rfl

/-! ## Divergence -/

/-- C138: so NLMS is not protected by `0 < mu < 2`: on rows of `n` times `True` the error is multiplied by `1 - n mu / (eps + 1)` with every sample, and grows beyond all bounds if `n mu > 2 (eps + 1)`
(`n = 3`, `mu = 1` is enough).  On the same data as floats the factor is `1 - n mu / (eps + n)` (C22: the error vanishes). -/
theorem C138_nlms_diverges (hn : 0 < n) (mu eps : ℝ) (heps : 0 < eps) (w : Vec ℝ n) (m : ℕ) (H : List (List BNum)) (D : ℝ) :
    ∃ (y e : ℕ → ℝ) (S : ℕ → Core BNum n (EpsExt BNum)),
      Runs (nlms BNum n) ⟨⟨fun i => flt (w i), m, flt mu, ⟨flt eps⟩⟩, H⟩ (fun _ => flt D) (fun _ _ => bool true) (fun k => flt (y k)) (fun k => flt (e k)) S ∧
      e 0 = D - ∑ i, w i ∧ (∀ k, e (k + 1) = (1 - n * mu / (eps + 1)) * e k) ∧
      (2 * (eps + 1) < n * mu → e 0 ≠ 0 → Filter.Tendsto (fun k => |e k|) Filter.atTop Filter.atTop) := by
  let o : Obj (lms ℝ n) := ⟨⟨w, m, mu / (eps + 1), ()⟩, []⟩
  have r := runs_of_safe lms_safe o trivial (fun _ => D) (fun _ => bval (n := n) fun _ => true)
  generalize hy : (fun k => (outAt (lms ℝ n) (o.core.withN n) (fun _ => D) (fun _ => bval (n := n) fun _ => true) k).1) = y at r
  generalize he : (fun k => (outAt (lms ℝ n) (o.core.withN n) (fun _ => D) (fun _ => bval (n := n) fun _ => true) k).2) = e at r
  obtain ⟨S', h1, -⟩ := C138_nlms hn mu eps (fun _ => flt D) (fun _ _ => true) (Or.inl heps.ne') (by linarith) o H y e _ rfl r
  have hE := C87_lms o D (bval fun _ => true) r
  have h2 : ∑ i : Fin n, (bval (n := n) (fun _ => true) i) ^ 2 = n := by simp [bval]
  have h3 : ∑ i : Fin n, o.core.w i * bval (n := n) (fun _ => true) i = ∑ i, w i := by simp [bval, o]
  have hf : 1 - o.core.mu * ∑ i : Fin n, (bval (n := n) (fun _ => true) i) ^ 2 = 1 - n * mu / (eps + 1) := by
    rw [h2]; show 1 - mu / (eps + 1) * n = _; ring
  rw [hf, h3] at hE
  have h0 : e 0 = D - ∑ i, w i := by rw [hE]; simp
  refine ⟨y, e, S', h1, h0, fun k => by rw [hE, hE, pow_succ]; ring, fun hbig hne => ?_⟩
  have h4 : 1 < |1 - n * mu / (eps + 1)| := by
    have : 2 < n * mu / (eps + 1) := by rw [lt_div_iff₀ (by linarith)]; exact hbig
    rw [abs_of_neg (by linarith)]; linarith
  have h5 : (fun k => |e k|) = fun k => |1 - n * mu / (eps + 1)| ^ k * |D - ∑ i, w i| := by
    funext k; rw [hE, abs_mul, abs_pow]
  rw [h5]
  exact (tendsto_pow_atTop_atTop_of_one_lt h4).atTop_mul_const (abs_pos.mpr (h0 ▸ hne))

/-! ## The sign filters -/

theorem checkSign_bool (hn : 0 < n) (a : Vec Bool n) : checkSign (List.ofFn fun i => bool (a i)) = .error .typeError := by
  unfold checkSign
  rw [if_pos]
  exact List.any_eq_true.mpr ⟨bool (a ⟨0, hn⟩), List.mem_ofFn.mpr ⟨_, rfl⟩, rfl⟩

theorem checkSign_flt (x : Vec ℝ n) : checkSign (List.ofFn fun i => flt (x i)) = .ok () := by
  unfold checkSign
  rw [if_neg]
  intro h
  obtain ⟨v, hv, h1⟩ := List.any_eq_true.mp h
  obtain ⟨i, rfl⟩ := List.mem_ofFn.mp hv
  exact absurd h1 (by simp [isBool])

theorem sign_calls (hn : 0 < n) (d : BNum) (a : Vec Bool n) :
    (∀ s, (sslmsB n).adapt d (List.ofFn fun i => bool (a i)) s = (.error .typeError, s)) ∧ (∀ s, (sslmsB n).body d (List.ofFn fun i => bool (a i)) s = (.error .typeError, s)) ∧
    (∀ s, (nsslmsB n).adapt d (List.ofFn fun i => bool (a i)) s = (.error .typeError, s)) ∧ (∀ s, (nsslmsB n).body d (List.ofFn fun i => bool (a i)) s = (.error .typeError, s)) := by
  have hp : ∀ {X : Type} (s : Core BNum n X), basePredict (List.ofFn fun i => bool (a i)) s = (.ok (dot s.w fun i => bool (a i)), s) := by intro X s; simp [basePredict]
  have h1 : ∀ e s, sslmsRuleB (n := n) e (List.ofFn fun i => bool (a i)) s = (.error .typeError, s) := by
    intro e s; unfold sslmsRuleB; rw [checkSign_bool hn]; rfl
  have h2 : ∀ e s, nsslmsRuleB (n := n) e (List.ofFn fun i => bool (a i)) s = (.error .typeError, s) := by
    intro e s; unfold nsslmsRuleB; rw [checkSign_bool hn]; rfl
  exact ⟨fun s => (M.bind_ok (hp s)).trans (M.bind_error (h1 _ s)), fun s => (M.bind_ok (hp s)).trans (M.bind_error (h1 _ s)),
    fun s => (M.bind_ok (hp s)).trans (M.bind_error (h2 _ s)), fun s => (M.bind_ok (hp s)).trans (M.bind_error (h2 _ s))⟩

theorem obj_liftM {C : FilterClass BNum n} {α : Type} {m : M (Core BNum n C.Ext) α} {o : Obj C} {r : Except Err α} {s : Core BNum n C.Ext} (h : m o.core = (r, s)) :
    Obj.liftM m o = (r, ⟨s, o.wHist⟩) :=
  congrArg (fun p : Except Err α × Core BNum n C.Ext => ((p.1, ⟨p.2, o.wHist⟩) : Except Err α × Obj C)) h

/-- C138: SSLMS and NSSLMS raise `TypeError` for a Boolean row; nothing changes ... -/
theorem C138_sign_adapt (hn : 0 < n) (d : BNum) (a : Vec Bool n) (o : Obj (sslmsB n)) (o' : Obj (nsslmsB n)) :
    adapt _ d (List.ofFn fun i => bool (a i)) o = (.error .typeError, o) ∧ adapt _ d (List.ofFn fun i => bool (a i)) o' = (.error .typeError, o') :=
  ⟨obj_liftM ((sign_calls hn d a).1 o.core), obj_liftM ((sign_calls hn d a).2.2.1 o'.core)⟩

theorem run_fails {C : FilterClass BNum n} (hn : 0 < n) (hb : ∀ (d : BNum) (a : Vec Bool n) s, C.body d (List.ofFn fun i => bool (a i)) s = (.error .typeError, s)) (d : List BNum) (a : List (Vec Bool n))
    (hd : d.length = a.length) (ha : a ≠ []) (o : Obj C) :
    ∃ H, run C d (a.map fun r => List.ofFn fun i => bool (r i)) o = (.error .typeError, ⟨o.core.withN n, H⟩) := by
  cases a with
  | nil => exact absurd rfl ha
  | cons a0 rest =>
    cases d with
    | nil => simp at hd
    | cons d0 drest =>
      refine ⟨(List.replicate (rest.length + 1) (List.replicate n 0)).set 0 (List.ofFn o.core.w), ?_⟩
      unfold run
      rw [if_neg (by simpa using hd)]
      refine (M.modify_bind ..).trans ?_
      rw [if_neg]
      · refine (M.modify_bind ..).trans (M.bind_error ?_)
        have hh : ∀ o : Obj C, o.core.nAttr = n → histWrite 0 o = (.ok (), ⟨o.core, o.wHist.set 0 (List.ofFn o.core.w)⟩) := by
          intro o ho
          unfold histWrite
          rw [M.get_bind, ho, bcast_self]
          rfl
        refine (M.bind_ok (hh _ (by show (List.ofFn _).length = n; simp))).trans (M.bind_error ?_)
        refine (obj_liftM (hb d0 a0 _)).trans ?_
        simp [Core.withN]
      · intro h
        obtain ⟨r, hr, h1⟩ := List.any_eq_true.mp h
        refine of_decide_eq_true h1 ?_
        rcases List.mem_cons.mp hr with rfl | hr
        · rfl
        · obtain ⟨v, -, rfl⟩ := List.mem_map.mp hr; simp

/-- ... `run` fails with the first row, so the weights and attributes are kept. -/
theorem C138_sign_run (hn : 0 < n) (d : List BNum) (a : List (Vec Bool n)) (hd : d.length = a.length) (ha : a ≠ []) (o : Obj (sslmsB n)) (o' : Obj (nsslmsB n)) :
    (∃ H, run _ d (a.map fun r => List.ofFn fun i => bool (r i)) o = (.error .typeError, ⟨o.core.withN n, H⟩)) ∧
    ∃ H, run _ d (a.map fun r => List.ofFn fun i => bool (r i)) o' = (.error .typeError, ⟨o'.core.withN n, H⟩) :=
  ⟨run_fails hn (fun d a => (sign_calls hn d a).2.1) d a hd ha o, run_fails hn (fun d a => (sign_calls hn d a).2.2.2) d a hd ha o'⟩

/-- On float rows they are the filters of Model/Filters. -/
theorem C138_sign_floats (d : BNum) (x : Vec ℝ n) (s : Core BNum n Unit) (s' : Core BNum n (EpsExt BNum)) :
    (sslmsB n).body d (List.ofFn fun i => flt (x i)) s = (sslms BNum n).body d (List.ofFn fun i => flt (x i)) s ∧
    (nsslmsB n).body d (List.ofFn fun i => flt (x i)) s' = (nsslms BNum n).body d (List.ofFn fun i => flt (x i)) s' := by
  have h1 : ∀ e, sslmsRuleB (n := n) e (List.ofFn fun i => flt (x i)) = sslmsRule e (List.ofFn fun i => flt (x i)) := by
    intro e; unfold sslmsRuleB; rw [checkSign_flt]; rfl
  have h2 : ∀ e, nsslmsRuleB (n := n) e (List.ofFn fun i => flt (x i)) = nsslmsRule e (List.ofFn fun i => flt (x i)) := by
    intro e; unfold nsslmsRuleB; rw [checkSign_flt]; rfl
  constructor
  · show baseBody basePredict sslmsRuleB d _ s = baseBody basePredict sslmsRule d _ s
    unfold baseBody; simp only [h1]
  · show baseBody basePredict nsslmsRuleB d _ s' = baseBody basePredict nsslmsRule d _ s'
    unfold baseBody; simp only [h2]

/-! ## Error measures -/

/-- C138: two Boolean series cannot be compared ... -/
theorem C138_two_series (f : List Bool → ℝ) (x1 x2 : List Bool) : measureB f x1 x2 = .error (if x1.length = x2.length then .typeError else .valueError) := by
  unfold measureB getValidErrorB
  by_cases h : x1.length = x2.length
  · rw [if_neg (by simpa using h), if_pos h]; rfl
  · rw [if_pos h, if_neg h]; rfl

/-- ... of one series, MAE is the fraction of `True`, as for floats, but MSE is `1 / N` as soon as there is one `True`, instead of the same fraction: the two agree only if at most one is `True`. -/
theorem C138_one_series (e : List Bool) (he : e ≠ []) :
    maeB e = (e.count true : ℝ) / e.length ∧ MAE (e.map fun b => if b then (1 : ℝ) else 0) none = .ok (maeB e) ∧
    mseB e = (if true ∈ e then 1 else 0) / e.length ∧ rmseB e ^ 2 = mseB e ∧
    MSE (e.map fun b => if b then (1 : ℝ) else 0) none = .ok ((e.count true : ℝ) / e.length) ∧
    (mseB e = (e.count true : ℝ) / e.length ↔ e.count true ≤ 1) := by
  have hl : (0 : ℝ) < e.length := by exact_mod_cast List.length_pos_iff.mpr he
  have hs : ∀ e : List Bool, (e.map fun b => if b then (1 : ℝ) else 0).sum = (e.count true : ℝ) := by
    intro e
    induction e with
    | nil => simp
    | cons b e ih => cases b <;> simp [ih, add_comm]
  have hany : ∀ e : List Bool, (e.any fun a => a && a) = decide (true ∈ e) := by
    intro e
    induction e with
    | nil => rfl
    | cons b e ih => rw [List.any_cons, ih]; cases b <;> simp
  have hm : mseB e = (if true ∈ e then 1 else 0) / e.length := by
    unfold mseB
    rw [hany, val_bool]
    by_cases h : true ∈ e <;> simp [h]
  have hc : true ∈ e ↔ 0 < e.count true := List.count_pos_iff.symm
  refine ⟨rfl, ?_, hm, ?_, ?_, ?_⟩
  · show Except.ok _ = _
    unfold maeB
    congr 1
    rw [← hs, List.map_map]
    have : (Scalar.abs ∘ fun b : Bool => if b then (1 : ℝ) else 0) = fun b => if b then (1 : ℝ) else 0 := by
      funext b; show |(if b = true then (1 : ℝ) else 0)| = _; cases b <;> simp
    rw [this]
    congr 1
    show ((e.map _).length : ℝ) = _
    simp
  · unfold rmseB
    refine Real.sq_sqrt ?_
    rw [hm]
    split <;> positivity
  · show Except.ok _ = _
    congr 1
    have : ((e.map fun b : Bool => if b then (1 : ℝ) else 0).map fun a => a * a) = e.map fun b => if b then (1 : ℝ) else 0 := by
      rw [List.map_map]
      refine List.map_congr_left fun b _ => ?_
      show (if b = true then (1 : ℝ) else 0) * (if b = true then (1 : ℝ) else 0) = _
      cases b <;> simp
    unfold dotSelf
    rw [this]
    refine congrArg₂ (· / ·) (hs e) ?_
    show ((e.map _).length : ℝ) = _
    simp
  · rw [hm, div_left_inj' hl.ne']
    by_cases h : true ∈ e
    · rw [if_pos h]
      have := hc.mp h
      constructor
      · intro h1; exact_mod_cast h1.symm.le
      · intro h1; exact_mod_cast (le_antisymm h1 this).symm
    · rw [if_neg h]
      have : e.count true = 0 := List.count_eq_zero.mpr h
      simp [this]

/-! ### Concrete cases -/

/-- a one-hot sequence of rows, and one with overlapping rows -/
example : (∀ k, OneHot (fun i : Fin 3 => decide (i.val = k % 3))) ∧ ¬ OneHot (fun _ : Fin 2 => true) :=
  ⟨fun k i j h1 h2 => Fin.ext ((of_decide_eq_true h1).trans (of_decide_eq_true h2).symm), fun h => absurd (h 0 1 rfl rfl) (by decide)⟩

/-- three inputs, `mu = 1`, the default `eps = 0.001`: the condition of divergence is met -/
example : (2 * ((0.001 : ℝ) + 1) < (3 : ℕ) * 1) := by norm_num

/-- the run that is compared with exists -/
example (o : Obj (lms ℝ 3)) (d : ℕ → BNum) (a : ℕ → Vec Bool 3) : ∃ y e S, Runs (lms ℝ 3) o (fun k => (d k).val) (fun k => bval (a k)) y e S :=
  ⟨_, _, _, runs_of_safe lms_safe o trivial _ _⟩

/-- MSE of `[True, True, False, False]` is 1/4, MAE is 1/2 -/
example : mseB [true, true, false, false] = 1 / 4 ∧ maeB [true, true, false, false] = 1 / 2 := by
  constructor
  · rw [(C138_one_series _ (by simp)).2.2.1]; norm_num
  · rw [(C138_one_series _ (by simp)).1]; norm_num [List.count, List.countP, List.countP.go]

end Padasip
