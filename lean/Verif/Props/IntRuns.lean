import Verif.Model.IntArith
import Verif.Props.IntData
import Verif.Lemmas.Steps

/-!
# C121: integer input data: which filters are safe

The filters run on an input matrix of `b`-bit integers, compared with the run on the same values as floats.
-/

set_option linter.unusedSectionVars false
set_option linter.unusedSimpArgs false
set_option linter.unusedVariables false

namespace Padasip

namespace Num
variable {b : ℕ} {sg : Bool} {n : ℕ}

@[simp] theorem val_flt (r : ℝ) : (flt r : Num b sg).val = r := rfl
@[simp] theorem val_int (a : BitVec b) : (int a : Num b sg).val = ((BitVec.value sg a : ℤ) : ℝ) := rfl

theorem flt_mul (r : ℝ) (p : Num b sg) : flt r * p = flt (r * p.val) := by cases p <;> rfl
theorem mul_flt (r : ℝ) (p : Num b sg) : p * flt r = flt (p.val * r) := by cases p <;> rfl
theorem flt_add (r : ℝ) (p : Num b sg) : flt r + p = flt (r + p.val) := by cases p <;> rfl
theorem add_flt (r : ℝ) (p : Num b sg) : p + flt r = flt (p.val + r) := by cases p <;> rfl
theorem flt_sub (r : ℝ) (p : Num b sg) : flt r - p = flt (r - p.val) := by cases p <;> rfl
theorem sub_flt (r : ℝ) (p : Num b sg) : p - flt r = flt (p.val - r) := by cases p <;> rfl
theorem div_eq (p q : Num b sg) : p / q = flt (p.val / q.val) := rfl
theorem neg_flt (r : ℝ) : -(flt r : Num b sg) = flt (-r) := rfl
theorem int_mul (a c : BitVec b) : (int a : Num b sg) * int c = int (a * c) := rfl
theorem int_add (a c : BitVec b) : (int a : Num b sg) + int c = int (a + c) := rfl
theorem one_eq : (1 : Num b sg) = flt 1 := rfl
theorem zero_eq : (0 : Num b sg) = int 0 := rfl
@[simp] theorem val_one : (1 : Num b sg).val = 1 := rfl
@[simp] theorem val_zero : (0 : Num b sg).val = 0 := by
  rw [zero_eq, val_int]
  have : BitVec.value sg (0 : BitVec b) = 0 := by unfold BitVec.value; cases sg <;> simp
  rw [this]; simp
theorem sgn_flt (r : ℝ) : Scalar.sgn (flt r : Num b sg) = flt (Scalar.sgn r) := rfl
theorem abs_flt (r : ℝ) : Scalar.abs (flt r : Num b sg) = flt |r| := rfl
theorem eqz_flt (r : ℝ) : Scalar.eqz (flt r : Num b sg) = decide (r = 0) := by
  show (@decide _ _) = _
  congr

/-- `np.sign` of an integer has the sign's value whenever `1` and `-1` are representable -/
theorem sgn_val (hb : 2 ≤ b) (p : Num b sg) : (Scalar.sgn p : Num b sg).val = Scalar.sgn p.val := by
  cases p with
  | flt r => rfl
  | int a =>
    show val (int _) = _
    rw [val_int, val_int]
    have h1 : BitVec.value sg (1 : BitVec b) = 1 := by
      have := value_cast (b := b) sg 1
      rw [Int.cast_one] at this
      rw [this, (wrapped_eq_iff sg (by omega) 1 (by norm_num)).mpr]
      split
      · exact one_lt_pow₀ (by norm_num) (by omega)
      · exact one_lt_pow₀ (by norm_num) (by omega)
    show _ = if (0:ℝ) < _ then (1:ℝ) else if _ < (0:ℝ) then -1 else 0
    by_cases h : 0 < BitVec.value sg a
    · rw [if_pos h, if_pos (by exact_mod_cast h), h1]; norm_num
    · rw [if_neg h, if_neg (show ¬ (0:ℝ) < ((BitVec.value sg a : ℤ) : ℝ) from by exact_mod_cast h)]
      by_cases h' : BitVec.value sg a < 0
      · rw [if_pos h', if_pos (by exact_mod_cast h')]
        cases sg with
        | false => exact absurd h' (by unfold BitVec.value; simp)
        | true =>
          have h2 : BitVec.value true (-1 : BitVec b) = -1 := by
            have := value_cast (b := b) true (-1)
            rw [Int.cast_neg, Int.cast_one] at this
            rw [this]
            obtain ⟨c, rfl⟩ : ∃ c, b = c + 2 := ⟨b - 2, by omega⟩
            unfold wrapped
            simp only [if_true]
            have : (0:ℤ) < 2 ^ c := by positivity
            apply Int.bmod_eq_of_le
            · push_cast; rw [pow_add]; omega
            · push_cast; rw [pow_add]; omega
          rw [h2]; norm_num
      · rw [if_neg h', if_neg (by exact_mod_cast h')]
        have : BitVec.value sg (0 : BitVec b) = 0 := by unfold BitVec.value; cases sg <;> simp
        rw [this]; norm_num

theorem sum_flt : ∀ l : List ℝ, l ≠ [] → (l.map (flt : ℝ → Num b sg)).sum = flt l.sum
  | [], h => absurd rfl h
  | [a], _ => by
    simp only [List.map_cons, List.map_nil, List.sum_cons, List.sum_nil]
    rw [flt_add, val_zero]
  | a :: c :: l, _ => by
    have := sum_flt (c :: l) (by simp)
    rw [List.map_cons, List.sum_cons, this, flt_add, val_flt, List.sum_cons (a := a)]

theorem vsum_flt (hn : 0 < n) (f : Vec (Num b sg) n) (g : Vec ℝ n) (h : ∀ i, f i = flt (g i)) :
    vsum f = flt (vsum g) := by
  unfold vsum
  have : List.ofFn f = (List.ofFn g).map flt := by
    rw [List.map_ofFn]; congr 1; funext i; exact h i
  rw [this, sum_flt _ (by intro h0; have := congrArg List.length h0; simp at this; omega)]

/-- a dot product with a float array is a float dot product -/
theorem dot_flt (hn : 0 < n) (u : Vec ℝ n) (x : Vec (Num b sg) n) :
    dot (fun i => flt (u i)) x = flt (dot u fun i => (x i).val) := by
  unfold dot
  exact vsum_flt hn _ _ fun i => flt_mul _ _

theorem dot_flt' (hn : 0 < n) (u : Vec ℝ n) (x : Vec (Num b sg) n) :
    dot x (fun i => flt (u i)) = flt (dot (fun i => (x i).val) u) := by
  unfold dot
  exact vsum_flt hn _ _ fun i => mul_flt _ _

theorem sum_int : ∀ l : List (BitVec b), (l.map (int : BitVec b → Num b sg)).sum = int l.sum
  | [] => rfl
  | a :: l => by rw [List.map_cons, List.sum_cons, sum_int l, int_add, List.sum_cons]

theorem dot_int' (a c : Vec (BitVec b) n) :
    dot (fun i => (int (a i) : Num b sg)) (fun i => int (c i)) = int (∑ i, a i * c i) := by
  rw [← List.sum_ofFn, ← sum_int, List.map_ofFn]
  rfl

/-- a dot product of two integer arrays is the true one, wrapped to `b` bits -/
theorem dot_int (a c : Vec (BitVec b) n) :
    (dot (fun i => (int (a i) : Num b sg)) (fun i => int (c i))).val
      = ((wrapped b sg (∑ i, BitVec.value sg (a i) * BitVec.value sg (c i)) : ℤ) : ℝ) := by
  have : dot (fun i => (int (a i) : Num b sg)) (fun i => int (c i)) = int (List.ofFn fun i => a i * c i).sum := by
    unfold dot vsum
    rw [← sum_int, List.map_ofFn]
    rfl
  rw [this, val_int, ← value_cast]
  congr 2
  rw [List.sum_ofFn]
  push_cast
  exact Finset.sum_congr rfl fun i _ => by rw [cast_value, cast_value]

end Num

open Num

variable {b : ℕ} {sg : Bool} {n : ℕ}

/-! ## Specification -/

/-- the first integer too large for the type -/
def intTop (b : ℕ) (sg : Bool) : ℤ := if sg then 2 ^ (b - 1) else 2 ^ b

/-- the filter with the attributes of `s`, all of them floats -/
def Core.up {X X' : Type} (f : X → X') (s : Core ℝ n X) : Core (Num b sg) n X' :=
  ⟨fun i => flt (s.w i), s.nAttr, flt s.mu, f s.ext⟩
/-- attributes as floats -/
def EpsExt.up (q : EpsExt ℝ) : EpsExt (Num b sg) := ⟨flt q.eps⟩
/-- attributes as floats -/
def GmccExt.up (q : GmccExt ℝ) : GmccExt (Num b sg) := ⟨flt q.lambd, flt q.alpha⟩
/-- attributes as floats -/
def LlncoshExt.up (q : LlncoshExt ℝ) : LlncoshExt (Num b sg) := ⟨flt q.lambd⟩
/-- attributes as floats -/
def GngdExt.up (q : GngdExt ℝ n) : GngdExt (Num b sg) n := ⟨flt q.eps, flt q.ro, flt q.lastE, fun i => flt (q.lastX i)⟩
/-- attributes as floats -/
def MathewsExt.up (q : MathewsExt ℝ n) : MathewsExt (Num b sg) n :=
  ⟨flt q.ro, flt q.lastE, fun i => flt (q.lastX i), flt q.lastMu⟩
/-- attributes as floats -/
def AngExt.up (q : AngExt ℝ n) : AngExt (Num b sg) n :=
  ⟨flt q.ro, flt q.a, flt q.lastE, fun i => flt (q.lastX i), fun i => flt (q.lastFi i), flt q.lastMu⟩
/-- attributes as floats -/
def BenExt.up (q : BenExt ℝ n) : BenExt (Num b sg) n :=
  ⟨flt q.ro, flt q.lastE, fun i => flt (q.lastX i), fun i => flt (q.lastFi i), flt q.lastMu⟩
/-- attributes as floats -/
def RlsExt.up (q : RlsExt ℝ n) : RlsExt (Num b sg) n := ⟨flt q.eps, fun i j => flt (q.R i j)⟩

/-- The filter `C`, written for numpy numbers as `C'`, started on the data `d`, `x` with the float attributes `up o.core`, reports the same
outputs, errors and weights (all of them floats) as on the values of the data - for every filter object with `P`. -/
def SameAsFloat (C : FilterClass ℝ n) (C' : FilterClass (Num b sg) n) (up : Core ℝ n C.Ext → Core (Num b sg) n C'.Ext)
    (P : Core ℝ n C.Ext → Prop) (d : ℕ → Num b sg) (x : ℕ → Vec (Num b sg) n) : Prop :=
  ∀ (o : Obj C) (H : List (List (Num b sg))) (y e : ℕ → ℝ) (S : ℕ → Core ℝ n C.Ext), P o.core →
    Runs C o (fun k => (d k).val) (fun k i => (x k i).val) y e S →
    ∃ S' : ℕ → Core (Num b sg) n C'.Ext, Runs C' ⟨up o.core, H⟩ d x (fun k => flt (y k)) (fun k => flt (e k)) S' ∧
      ∀ k i, (S' k).w i = flt ((S k).w i)

/-! ## Simulation -/

theorem same_of_sim {C : FilterClass ℝ n} {C' : FilterClass (Num b sg) n} {up : Core ℝ n C.Ext → Core (Num b sg) n C'.Ext}
    {P : Core ℝ n C.Ext → Prop} {P' : Core (Num b sg) n C'.Ext → Prop} (hC : Safe C P) (hC' : Safe C' P')
    (hP : ∀ s m, P s → P (s.withN m)) (hup : ∀ s m, (up s).withN m = up (s.withN m)) (hP' : ∀ s, P s → P' (up s))
    (R : Core (Num b sg) n C'.Ext → Core ℝ n C.Ext → Prop) (hR : ∀ s, R (up s) s)
    (hw : ∀ s' s, R s' s → ∀ i, s'.w i = flt (s.w i)) (Q : Vec (Num b sg) n → Prop)
    (hbody : ∀ s' s, R s' s → s.nAttr = n → s'.nAttr = n → P s → ∀ (d : Num b sg) (x : Vec (Num b sg) n), Q x →
      ∃ y e t t', C.body d.val (List.ofFn fun i => (x i).val) s = (.ok (y, e), t) ∧
        C'.body d (List.ofFn x) s' = (.ok (flt y, flt e), t') ∧ R t' t)
    (d : ℕ → Num b sg) (x : ℕ → Vec (Num b sg) n) (hQ : ∀ k, Q (x k)) : SameAsFloat C C' up P d x := by
  intro o H y e S ho h
  have hst := Runs.step hC (hP _ n ho) h
  have hs0 : S 0 = o.core.withN n := h.1
  have ho' : P' ((up o.core).withN n) := by rw [hup]; exact hP' _ (hP _ _ ho)
  have hkey : ∀ k, R (traj C' ((up o.core).withN n) d x k) (S k) ∧
      (outAt C' ((up o.core).withN n) d x k) = (flt (y k), flt (e k)) := by
    have step : ∀ k, R (traj C' ((up o.core).withN n) d x k) (S k) →
        R (traj C' ((up o.core).withN n) d x (k + 1)) (S (k + 1)) ∧
        (outAt C' ((up o.core).withN n) d x k) = (flt (y k), flt (e k)) := by
      intro k hk
      obtain ⟨h1, h2, h3⟩ := hst k
      have h4 := (traj_safe hC' (s := (up o.core).withN n) ho' rfl d x k).2
      obtain ⟨y', e', t, t', h0, h5, h6⟩ := hbody _ _ hk h3 h4 h2 (d k) (x k) (hQ k)
      obtain ⟨h10, h11⟩ := Prod.mk.inj (h0.symm.trans h1)
      obtain ⟨rfl, rfl⟩ := Prod.mk.inj (Except.ok.inj h10)
      subst h11
      have h7 := body_traj hC' (s := (up o.core).withN n) ho' rfl d x k
      rw [h5] at h7
      have h8 : t' = traj C' ((up o.core).withN n) d x (k + 1) := congrArg Prod.snd h7
      have h9 := Except.ok.inj (congrArg Prod.fst h7)
      exact ⟨h8 ▸ h6, h9.symm⟩
    intro k
    have : R (traj C' ((up o.core).withN n) d x k) (S k) := by
      induction k with
      | zero => rw [hs0]; show R ((up o.core).withN n) _; rw [hup]; exact hR _
      | succ k ih => exact (step k ih).1
    exact ⟨this, (step k this).2⟩
  refine ⟨traj C' ((up o.core).withN n) d x, ?_, fun k i => hw _ _ (hkey k).1 i⟩
  have := runs_of_safe hC' ⟨up o.core, H⟩ ho' d x
  have e1 : (fun k => (outAt C' ((up o.core).withN n) d x k).1) = fun k => flt (y k) := by
    funext k; rw [(hkey k).2]
  have e2 : (fun k => (outAt C' ((up o.core).withN n) d x k).2) = fun k => flt (e k) := by
    funext k; rw [(hkey k).2]
  rw [← e1, ← e2]
  exact this

/-- the state is exactly the float state -/
theorem same_of_up {C : FilterClass ℝ n} {C' : FilterClass (Num b sg) n} {up : Core ℝ n C.Ext → Core (Num b sg) n C'.Ext}
    (hC : Safe C fun _ => True) (hC' : Safe C' fun _ => True) (hup : ∀ s m, (up s).withN m = up (s.withN m))
    (hw : ∀ s i, (up s).w i = flt (s.w i)) (Q : Vec (Num b sg) n → Prop)
    (hbody : ∀ s (d : Num b sg) (x : Vec (Num b sg) n), Q x → ∃ y e t,
      C.body d.val (List.ofFn fun i => (x i).val) s = (.ok (y, e), t) ∧
      C'.body d (List.ofFn x) (up s) = (.ok (flt y, flt e), up t))
    (d : ℕ → Num b sg) (x : ℕ → Vec (Num b sg) n) (hQ : ∀ k, Q (x k)) : SameAsFloat C C' up (fun _ => True) d x := by
  refine same_of_sim hC hC' (fun _ _ h => h) hup (fun _ _ => trivial) (fun s' s => s' = up s) (fun _ => rfl)
    (fun s' s h i => by rw [h]; exact hw s i) Q ?_ d x hQ
  rintro s' s rfl - - - d x hx
  obtain ⟨y', e', t', h1, h2⟩ := hbody s d x hx
  exact ⟨_, _, _, _, h1, h2, rfl⟩

/-! ## Filters that are safe for every integer type -/

/-- C121: LMS. -/
theorem C121_lms (hn : 0 < n) (d : ℕ → Num b sg) (x : ℕ → Vec (Num b sg) n) :
    SameAsFloat (lms ℝ n) (lms (Num b sg) n) (Core.up id) (fun _ => True) d x := by
  refine same_of_up lms_safe lms_safe (fun _ _ => rfl) (fun _ _ => rfl) (fun _ => True) ?_ d x fun _ => trivial
  intro s d x _
  refine ⟨_, _, _, lms_body s _ _, ?_⟩
  refine (lms_body _ _ _).trans ?_
  simp only [Core.up, dot_flt hn, sub_flt, flt_mul, flt_add, val_flt]

/-- C121: LMF. -/
theorem C121_lmf (hn : 0 < n) (d : ℕ → Num b sg) (x : ℕ → Vec (Num b sg) n) :
    SameAsFloat (lmf ℝ n) (lmf (Num b sg) n) (Core.up id) (fun _ => True) d x := by
  refine same_of_up lmf_safe lmf_safe (fun _ _ => rfl) (fun _ _ => rfl) (fun _ => True) ?_ d x fun _ => trivial
  intro s d x _
  refine ⟨_, _, _, lmf_body s _ _, ?_⟩
  refine (lmf_body _ _ _).trans ?_
  simp only [Core.up, id_eq, dot_flt hn, sub_flt, flt_mul, flt_add, flt_sub, neg_flt, val_flt, sgn_flt, abs_flt, val_one]
  try rfl

/-- C121: GMCC. -/
theorem C121_gmcc (hn : 0 < n) (d : ℕ → Num b sg) (x : ℕ → Vec (Num b sg) n) :
    SameAsFloat (gmcc ℝ n) (gmcc (Num b sg) n) (Core.up GmccExt.up) (fun _ => True) d x := by
  refine same_of_up gmcc_safe gmcc_safe (fun _ _ => rfl) (fun _ _ => rfl) (fun _ => True) ?_ d x fun _ => trivial
  intro s d x _
  refine ⟨_, _, _, gmcc_body s _ _, ?_⟩
  refine (gmcc_body _ _ _).trans ?_
  simp only [Core.up, GmccExt.up, dot_flt hn, sub_flt, flt_mul, flt_add, flt_sub, neg_flt, val_flt, sgn_flt, abs_flt, val_one]
  try rfl

/-- C121: LLNCOSH. -/
theorem C121_llncosh (hn : 0 < n) (d : ℕ → Num b sg) (x : ℕ → Vec (Num b sg) n) :
    SameAsFloat (llncosh ℝ n) (llncosh (Num b sg) n) (Core.up LlncoshExt.up) (fun _ => True) d x := by
  refine same_of_up llncosh_safe llncosh_safe (fun _ _ => rfl) (fun _ _ => rfl) (fun _ => True) ?_ d x fun _ => trivial
  intro s d x _
  refine ⟨_, _, _, llncosh_body s _ _, ?_⟩
  refine (llncosh_body _ _ _).trans ?_
  simp only [Core.up, LlncoshExt.up, dot_flt hn, sub_flt, flt_mul, flt_add, flt_sub, neg_flt, val_flt, sgn_flt, abs_flt, val_one]
  try rfl

/-- C121: SSLMS. -/
theorem C121_sslms (hn : 0 < n) (hb : 2 ≤ b) (d : ℕ → Num b sg) (x : ℕ → Vec (Num b sg) n) :
    SameAsFloat (sslms ℝ n) (sslms (Num b sg) n) (Core.up id) (fun _ => True) d x := by
  refine same_of_up sslms_safe sslms_safe (fun _ _ => rfl) (fun _ _ => rfl) (fun _ => True) ?_ d x fun _ => trivial
  intro s d x _
  refine ⟨_, _, _, sslms_body s _ _, ?_⟩
  refine (sslms_body _ _ _).trans ?_
  simp only [Core.up, dot_flt hn, sub_flt, flt_mul, flt_add, val_flt, sgn_flt, sgn_val hb]

/-- float attributes, except that `last_x` may be an integer array -/
def angRel (s' : Core (Num b sg) n (AngExt (Num b sg) n)) (s : Core ℝ n (AngExt ℝ n)) : Prop :=
  ∃ u : Vec (Num b sg) n, (∀ i, (u i).val = s.ext.lastX i) ∧ s' = ⟨fun i => flt (s.w i), s.nAttr, flt s.mu,
    ⟨flt s.ext.ro, flt s.ext.a, flt s.ext.lastE, u, fun i => flt (s.ext.lastFi i), flt s.ext.lastMu⟩⟩

theorem ang_sim (hn : 0 < n) (s' : Core (Num b sg) n (AngExt (Num b sg) n)) (s : Core ℝ n (AngExt ℝ n)) (h : angRel s' s)
    (d : Num b sg) (x : Vec (Num b sg) n) : ∃ y e t t', (ang ℝ n).body d.val (List.ofFn fun i => (x i).val) s = (.ok (y, e), t) ∧
        (ang (Num b sg) n).body d (List.ofFn x) s' = (.ok (flt y, flt e), t') ∧ angRel t' t := by
  obtain ⟨u, h1, rfl⟩ := h
  have hfi : angFi (⟨fun i => flt (s.w i), s.nAttr, flt s.mu,
    ⟨flt s.ext.ro, flt s.ext.a, flt s.ext.lastE, u, fun i => flt (s.ext.lastFi i), flt s.ext.lastMu⟩⟩ :
      Core (Num b sg) n (AngExt (Num b sg) n)) = fun i => flt (angFi s i) := by
    funext i
    simp only [angFi, flt_mul, flt_add, val_flt, h1]
  refine ⟨_, _, _, _, ang_body s _ _, (ang_body _ d x).trans (Prod.ext ?_ rfl), x, fun _ => rfl, ?_⟩
  · simp only [dot_flt hn, sub_flt]
  · simp only [dot_flt hn, sub_flt, angMu, hfi, dot_flt' hn, flt_mul, flt_add, val_flt, h1]
    rfl

/-- C121: Ang. -/
theorem C121_ang (hn : 0 < n) (d : ℕ → Num b sg) (x : ℕ → Vec (Num b sg) n) :
    SameAsFloat (ang ℝ n) (ang (Num b sg) n) (Core.up AngExt.up) (fun _ => True) d x :=
  same_of_sim (P' := fun _ => True) ang_safe ang_safe (fun _ _ h => h) (fun _ _ => rfl) (fun _ _ => trivial) angRel
    (fun _ => ⟨_, fun _ => rfl, rfl⟩) (fun s' s h i => by obtain ⟨u, -, rfl⟩ := h; rfl) (fun _ => True)
    (fun s' s h _ _ _ d x _ => ang_sim hn s' s h d x) d x fun _ => trivial

/-! ## Filters that multiply inputs with inputs -/

theorem wrapped_small (hb : 0 < b) {z : ℤ} (h : |z| < intTop b sg) (h0 : sg = false → 0 ≤ z) : wrapped b sg z = z := by
  obtain ⟨c, rfl⟩ : ∃ c, b = c + 1 := ⟨b - 1, by omega⟩
  have hp : (0 : ℤ) < 2 ^ c := by positivity
  unfold intTop at h
  unfold wrapped
  cases sg
  · simp only [Bool.false_eq_true, if_false] at h ⊢
    have := h0 rfl
    rw [abs_of_nonneg this] at h
    exact Int.emod_eq_of_lt this h
  · simp only [if_true, Nat.add_sub_cancel] at h ⊢
    obtain ⟨h1, h2⟩ := abs_lt.mp h
    apply Int.bmod_eq_of_le
    · push_cast; rw [pow_succ]; omega
    · push_cast; rw [pow_succ]; omega

theorem value_unsigned (a : BitVec b) : 0 ≤ BitVec.value false a := by unfold BitVec.value; simp

/-- The filters NLMS, NLMF, NSSLMS on integer rows use the power wrapped to `b` bits. -/
theorem int_power (a : Vec (BitVec b) n) :
    (dot (fun i => (int (a i) : Num b sg)) fun i => int (a i)).val
      = ((wrapped b sg (∑ i, BitVec.value sg (a i) ^ 2) : ℤ) : ℝ) := by
  rw [dot_int]
  simp only [pow_two]

theorem int_power_fits (hb : 0 < b) (a : Vec (BitVec b) n) (h : ∑ i, BitVec.value sg (a i) ^ 2 < intTop b sg) :
    (dot (fun i => (int (a i) : Num b sg)) fun i => int (a i)).val
      = dot (fun i => (int (a i) : Num b sg).val) fun i => (int (a i) : Num b sg).val := by
  have h0 : 0 ≤ ∑ i, BitVec.value sg (a i) ^ 2 := Finset.sum_nonneg fun i _ => sq_nonneg _
  rw [int_power, wrapped_small hb (by rwa [abs_of_nonneg h0]) fun _ => h0, dot_eq]
  push_cast
  exact Finset.sum_congr rfl fun i _ => by rw [val_int, pow_two]

/-- C121: NLMS, if the power of every row fits into the type. -/
theorem C121_nlms (hn : 0 < n) (hb : 0 < b) (d : ℕ → Num b sg) (a : ℕ → Vec (BitVec b) n)
    (h : ∀ k, ∑ i, BitVec.value sg (a k i) ^ 2 < intTop b sg) :
    SameAsFloat (nlms ℝ n) (nlms (Num b sg) n) (Core.up EpsExt.up) (fun _ => True) d fun k i => int (a k i) := by
  refine same_of_up nlms_safe nlms_safe (fun _ _ => rfl) (fun _ _ => rfl)
    (fun x => ∃ k, x = fun i => int (a k i)) ?_ d _ fun k => ⟨k, rfl⟩
  rintro s d _ ⟨k, rfl⟩
  refine ⟨_, _, _, nlms_body s _ _, ?_⟩
  refine (nlms_body _ _ _).trans ?_
  simp only [Core.up, EpsExt.up, dot_flt hn, sub_flt, flt_mul, flt_add, val_flt, div_eq, int_power_fits hb _ (h k)]

/-- C121: NLMF, if the power of every row fits into the type. -/
theorem C121_nlmf (hn : 0 < n) (hb : 0 < b) (d : ℕ → Num b sg) (a : ℕ → Vec (BitVec b) n)
    (h : ∀ k, ∑ i, BitVec.value sg (a k i) ^ 2 < intTop b sg) :
    SameAsFloat (nlmf ℝ n) (nlmf (Num b sg) n) (Core.up EpsExt.up) (fun _ => True) d fun k i => int (a k i) := by
  refine same_of_up nlmf_safe nlmf_safe (fun _ _ => rfl) (fun _ _ => rfl)
    (fun x => ∃ k, x = fun i => int (a k i)) ?_ d _ fun k => ⟨k, rfl⟩
  rintro s d _ ⟨k, rfl⟩
  refine ⟨_, _, _, nlmf_body s _ _, ?_⟩
  refine (nlmf_body _ _ _).trans ?_
  simp only [Core.up, EpsExt.up, dot_flt hn, sub_flt, flt_mul, flt_add, val_flt, div_eq, int_power_fits hb _ (h k)]

/-- C121: NSSLMS, if the power of every row fits into the type. -/
theorem C121_nsslms (hn : 0 < n) (hb : 2 ≤ b) (d : ℕ → Num b sg) (a : ℕ → Vec (BitVec b) n)
    (h : ∀ k, ∑ i, BitVec.value sg (a k i) ^ 2 < intTop b sg) :
    SameAsFloat (nsslms ℝ n) (nsslms (Num b sg) n) (Core.up EpsExt.up) (fun _ => True) d fun k i => int (a k i) := by
  refine same_of_up nsslms_safe nsslms_safe (fun _ _ => rfl) (fun _ _ => rfl)
    (fun x => ∃ k, x = fun i => int (a k i)) ?_ d _ fun k => ⟨k, rfl⟩
  rintro s d _ ⟨k, rfl⟩
  refine ⟨_, _, _, nsslms_body s _ _, ?_⟩
  refine (nsslms_body _ _ _).trans ?_
  simp only [Core.up, EpsExt.up, dot_flt hn, sub_flt, flt_mul, flt_add, val_flt, div_eq, int_power_fits (by omega) _ (h k), sgn_flt, sgn_val hb]

/-- `u'` is a float array, or an integer array with entries of absolute value at most `B`; its values are `u` -/
def SmallArr (B : ℤ) (u' : Vec (Num b sg) n) (u : Vec ℝ n) : Prop :=
  (∀ i, (u' i).val = u i) ∧ ((u' = fun i => flt (u i)) ∨ ∃ a : Vec (BitVec b) n, (u' = fun i => int (a i)) ∧ ∀ i, |BitVec.value sg (a i)| ≤ B)

theorem small_dot (hn : 0 < n) (hb : 0 < b) {B : ℤ} (hB : n * B ^ 2 < intTop b sg) {u' v' : Vec (Num b sg) n} {u v : Vec ℝ n}
    (hu : SmallArr B u' u) (hv : SmallArr B v' v) : (dot u' v').val = dot u v := by
  obtain ⟨h1, rfl | ⟨a, rfl, ha⟩⟩ := hu
  · rw [dot_flt hn, val_flt]
    congr 1
    funext i
    exact hv.1 i
  obtain ⟨h2, rfl | ⟨c, rfl, hc⟩⟩ := hv
  · rw [dot_flt' hn, val_flt]
    congr 1
    funext i
    exact h1 i
  rw [dot_int]
  have hB0 : 0 ≤ B := (abs_nonneg _).trans (ha ⟨0, hn⟩)
  have hle : |∑ i, BitVec.value sg (a i) * BitVec.value sg (c i)| ≤ n * B ^ 2 := by
    refine (Finset.abs_sum_le_sum_abs _ _).trans ?_
    refine (Finset.sum_le_card_nsmul _ _ (B ^ 2) fun i _ => ?_).trans (le_of_eq ?_)
    · rw [abs_mul, pow_two]
      exact mul_le_mul (ha i) (hc i) (abs_nonneg _) hB0
    · simp
  rw [wrapped_small hb (hle.trans_lt hB) (by
    rintro rfl
    exact Finset.sum_nonneg fun i _ => mul_nonneg (value_unsigned _) (value_unsigned _)), dot_eq]
  push_cast
  exact Finset.sum_congr rfl fun i _ => by rw [← h1, ← h2]; rfl

theorem small_mul (hb : 0 < b) {B : ℤ} (hB : B ^ 2 < intTop b sg) {u' : Vec (Num b sg) n} {u : Vec ℝ n}
    (hu : SmallArr B u' u) (i j : Fin n) : (u' i * u' j).val = u i * u j := by
  obtain ⟨h1, rfl | ⟨a, rfl, ha⟩⟩ := hu
  · show (flt (u i) * flt (u j)).val = _
    rw [flt_mul]; rfl
  · show (int (a i) * int (a j)).val = _
    rw [int_mul, val_int, ← h1 i, ← h1 j]
    have hB0 : 0 ≤ B := (abs_nonneg _).trans (ha i)
    have : BitVec.value sg (a i * a j) = wrapped b sg (BitVec.value sg (a i) * BitVec.value sg (a j)) := by
      rw [← value_cast]; push_cast; rw [cast_value, cast_value]
    rw [this, wrapped_small hb]
    · push_cast; rfl
    · refine lt_of_le_of_lt ?_ hB
      rw [abs_mul, pow_two]
      exact mul_le_mul (ha i) (ha j) (abs_nonneg _) hB0
    · rintro rfl
      exact mul_nonneg (value_unsigned _) (value_unsigned _)

theorem small_int {B : ℤ} (a : Vec (BitVec b) n) (h : ∀ i, |BitVec.value sg (a i)| ≤ B) :
    SmallArr B (fun i => (int (a i) : Num b sg)) fun i => (int (a i) : Num b sg).val :=
  ⟨fun _ => rfl, Or.inr ⟨a, rfl, h⟩⟩

theorem small_flt (B : ℤ) (u : Vec ℝ n) : SmallArr B (fun i => (flt (u i) : Num b sg)) u := ⟨fun _ => rfl, Or.inl rfl⟩

/-- float attributes, except that `last_x` may be an integer array -/
def mathewsRel (B : ℤ) (s' : Core (Num b sg) n (MathewsExt (Num b sg) n)) (s : Core ℝ n (MathewsExt ℝ n)) : Prop :=
  ∃ u : Vec (Num b sg) n, SmallArr B u s.ext.lastX ∧ s' = ⟨fun i => flt (s.w i), s.nAttr, flt s.mu,
    ⟨flt s.ext.ro, flt s.ext.lastE, u, flt s.ext.lastMu⟩⟩

theorem mathews_sim (hn : 0 < n) (hb : 0 < b) {B : ℤ} (hB : n * B ^ 2 < intTop b sg) (s' : Core (Num b sg) n (MathewsExt (Num b sg) n))
    (s : Core ℝ n (MathewsExt ℝ n)) (h : mathewsRel B s' s) (d : Num b sg) (x : Vec (Num b sg) n)
    (hx : SmallArr B x fun i => (x i).val) : ∃ y e t t', (mathews ℝ n).body d.val (List.ofFn fun i => (x i).val) s = (.ok (y, e), t) ∧
        (mathews (Num b sg) n).body d (List.ofFn x) s' = (.ok (flt y, flt e), t') ∧ mathewsRel B t' t := by
  obtain ⟨u, hu, rfl⟩ := h
  refine ⟨_, _, _, _, mathews_body s _ _, (mathews_body _ d x).trans (Prod.ext ?_ rfl), x, hx, ?_⟩
  · simp only [dot_flt hn, sub_flt]
  · simp only [dot_flt hn, sub_flt, mathewsMu, flt_mul, flt_add, val_flt, small_dot hn hb hB hu hx]
    rfl

/-- C121: mathews, if `n` times the square of the largest input fits into the type. -/
theorem C121_mathews (hn : 0 < n) (hb : 0 < b) {B : ℤ} (hB : n * B ^ 2 < intTop b sg) (d : ℕ → Num b sg) (a : ℕ → Vec (BitVec b) n)
    (ha : ∀ k i, |BitVec.value sg (a k i)| ≤ B) :
    SameAsFloat (mathews ℝ n) (mathews (Num b sg) n) (Core.up MathewsExt.up) (fun _ => True) d fun k i => int (a k i) :=
  same_of_sim (P' := fun _ => True) mathews_safe mathews_safe (fun _ _ h => h) (fun _ _ => rfl) (fun _ _ => trivial) (mathewsRel B)
    (fun _ => ⟨_, small_flt B _, rfl⟩) (fun s' s h i => by obtain ⟨u, -, rfl⟩ := h; rfl) (fun x => SmallArr B x fun i => (x i).val)
    (fun s' s h _ _ _ d x hx => mathews_sim hn hb hB s' s h d x hx) d _ fun k => small_int _ (ha k)

/-- float attributes, except that `last_x` may be an integer array -/
def gngdRel (B : ℤ) (s' : Core (Num b sg) n (GngdExt (Num b sg) n)) (s : Core ℝ n (GngdExt ℝ n)) : Prop :=
  ∃ u : Vec (Num b sg) n, SmallArr B u s.ext.lastX ∧ s' = ⟨fun i => flt (s.w i), s.nAttr, flt s.mu,
    ⟨flt s.ext.eps, flt s.ext.ro, flt s.ext.lastE, u⟩⟩

theorem gngd_sim (hn : 0 < n) (hb : 0 < b) {B : ℤ} (hB : n * B ^ 2 < intTop b sg) (s' : Core (Num b sg) n (GngdExt (Num b sg) n))
    (s : Core ℝ n (GngdExt ℝ n)) (h : gngdRel B s' s) (d : Num b sg) (x : Vec (Num b sg) n)
    (hx : SmallArr B x fun i => (x i).val) : ∃ y e t t', (gngd ℝ n).body d.val (List.ofFn fun i => (x i).val) s = (.ok (y, e), t) ∧
        (gngd (Num b sg) n).body d (List.ofFn x) s' = (.ok (flt y, flt e), t') ∧ gngdRel B t' t := by
  obtain ⟨u, hu, rfl⟩ := h
  refine ⟨_, _, _, _, gngd_body s _ _, (gngd_body _ d x).trans (Prod.ext ?_ rfl), x, hx, ?_⟩
  · simp only [dot_flt hn, sub_flt]
  · simp only [dot_flt hn, sub_flt, gngdEps, flt_mul, flt_add, flt_sub, add_flt, div_eq, val_flt, small_dot hn hb hB hu hu,
      small_dot hn hb hB hx hu, small_dot hn hb hB hx hx]
    rfl

/-- C121: gngd, if `n` times the square of the largest input fits into the type. -/
theorem C121_gngd (hn : 0 < n) (hb : 0 < b) {B : ℤ} (hB : n * B ^ 2 < intTop b sg) (d : ℕ → Num b sg) (a : ℕ → Vec (BitVec b) n)
    (ha : ∀ k i, |BitVec.value sg (a k i)| ≤ B) :
    SameAsFloat (gngd ℝ n) (gngd (Num b sg) n) (Core.up GngdExt.up) (fun _ => True) d fun k i => int (a k i) :=
  same_of_sim (P' := fun _ => True) gngd_safe gngd_safe (fun _ _ h => h) (fun _ _ => rfl) (fun _ _ => trivial) (gngdRel B)
    (fun _ => ⟨_, small_flt B _, rfl⟩) (fun s' s h i => by obtain ⟨u, -, rfl⟩ := h; rfl) (fun x => SmallArr B x fun i => (x i).val)
    (fun s' s h _ _ _ d x hx => gngd_sim hn hb hB s' s h d x hx) d _ fun k => small_int _ (ha k)

/-- float attributes, except that `last_x` may be an integer array -/
def benvenisteRel (B : ℤ) (s' : Core (Num b sg) n (BenExt (Num b sg) n)) (s : Core ℝ n (BenExt ℝ n)) : Prop :=
  ∃ u : Vec (Num b sg) n, SmallArr B u s.ext.lastX ∧ s' = ⟨fun i => flt (s.w i), s.nAttr, flt s.mu,
    ⟨flt s.ext.ro, flt s.ext.lastE, u, fun i => flt (s.ext.lastFi i), flt s.ext.lastMu⟩⟩

theorem benveniste_sim (hn : 0 < n) (hb : 0 < b) {B : ℤ} (hB : n * B ^ 2 < intTop b sg) (s' : Core (Num b sg) n (BenExt (Num b sg) n))
    (s : Core ℝ n (BenExt ℝ n)) (h : benvenisteRel B s' s) (hN : s.nAttr = n) (d : Num b sg) (x : Vec (Num b sg) n)
    (hx : SmallArr B x fun i => (x i).val) : ∃ y e t t', (benveniste ℝ n).body d.val (List.ofFn fun i => (x i).val) s = (.ok (y, e), t) ∧
        (benveniste (Num b sg) n).body d (List.ofFn x) s' = (.ok (flt y, flt e), t') ∧ benvenisteRel B t' t := by
  obtain ⟨u, hu, rfl⟩ := h
  have hB1 : B ^ 2 < intTop b sg := by
    have h1 : (1 : ℤ) ≤ n := by exact_mod_cast hn
    nlinarith [sq_nonneg B]
  have hfi : benFi (⟨fun i => flt (s.w i), s.nAttr, flt s.mu,
    ⟨flt s.ext.ro, flt s.ext.lastE, u, fun i => flt (s.ext.lastFi i), flt s.ext.lastMu⟩⟩ :
      Core (Num b sg) n (BenExt (Num b sg) n)) = fun i => flt (benFi s i) := by
    funext i
    have he : ∀ i j, (eye n i j : Num b sg).val = eye n i j := by
      intro i j
      unfold eye
      split
      · exact val_one
      · exact val_zero
    simp only [benFi, matVec, outer, flt_mul, sub_flt, he, small_mul hb hB1 hu, dot_flt hn, flt_add, val_flt, hu.1]
  refine ⟨_, _, _, _, benveniste_body s hN _ _, (benveniste_body (K := Num b sg) ⟨_, s.nAttr, _, _⟩ hN d x).trans (Prod.ext ?_ rfl), x, hx, ?_⟩
  · simp only [dot_flt hn, sub_flt]
  · simp only [dot_flt hn, sub_flt, benMu, hfi, dot_flt' hn, flt_mul, flt_add, val_flt, hu.1]
    rfl

/-- C121: benveniste, if `n` times the square of the largest input fits into the type. -/
theorem C121_benveniste (hn : 0 < n) (hb : 0 < b) {B : ℤ} (hB : n * B ^ 2 < intTop b sg) (d : ℕ → Num b sg) (a : ℕ → Vec (BitVec b) n)
    (ha : ∀ k i, |BitVec.value sg (a k i)| ≤ B) :
    SameAsFloat (benveniste ℝ n) (benveniste (Num b sg) n) (Core.up BenExt.up) (fun _ => True) d fun k i => int (a k i) :=
  same_of_sim (P' := fun _ => True) benveniste_safe benveniste_safe (fun _ _ h => h) (fun _ _ => rfl) (fun _ _ => trivial) (benvenisteRel B)
    (fun _ => ⟨_, small_flt B _, rfl⟩) (fun s' s h i => by obtain ⟨u, -, rfl⟩ := h; rfl) (fun x => SmallArr B x fun i => (x i).val)
    (fun s' s h hN _ _ d x hx => benveniste_sim hn hb hB s' s h hN d x hx) d _ fun k => small_int _ (ha k)

theorem rls_sim (hn : 0 < n) (hb : 0 < b) {B : ℤ} (hB : B ^ 2 < intTop b sg) (s : Core ℝ n (RlsExt ℝ n)) (hs : Scalar.eqz s.mu = false)
    (d : Num b sg) (x : Vec (Num b sg) n) (hx : SmallArr B x fun i => (x i).val) :
    ∃ y e t t', (rls ℝ n).body d.val (List.ofFn fun i => (x i).val) s = (.ok (y, e), t) ∧
      (rls (Num b sg) n).body d (List.ofFn x) (s.up RlsExt.up) = (.ok (flt y, flt e), t') ∧ t' = t.up RlsExt.up := by
  have hR : rlsR (flt s.mu : Num b sg) (fun i j => flt (s.ext.R i j)) x = fun i j => flt (rlsR s.mu s.ext.R (fun i => (x i).val) i j) := by
    funext i j
    have h1 : matMul (matMul (fun i j => (flt (s.ext.R i j) : Num b sg)) (outer x x)) (fun i j => flt (s.ext.R i j)) i j
        = flt (matMul (matMul s.ext.R (outer (fun i => (x i).val) fun i => (x i).val)) s.ext.R i j) :=
      vsum_flt hn _ _ fun k => by
        show vsum (fun l => (flt (s.ext.R i l) : Num b sg) * (x l * x k)) * _ = _
        rw [vsum_flt hn _ (fun l => s.ext.R i l * ((x l).val * (x k).val)) fun l => by rw [flt_mul, small_mul hb hB hx], flt_mul]
        rfl
    have h3 : vecMat x (fun i j => (flt (s.ext.R i j) : Num b sg)) = fun k => flt (vecMat (fun i => (x i).val) s.ext.R k) :=
      funext fun k => vsum_flt hn _ _ fun l => by rw [mul_flt]
    unfold rlsR
    rw [h1, h3, dot_flt hn]
    simp only [flt_add, val_flt, div_eq, flt_mul, flt_sub, val_one]
  refine ⟨_, _, _, _, rls_body s hs _ _, (rls_body _ ((eqz_flt _).trans hs) d x).trans (Prod.ext ?_ rfl), ?_⟩
  · simp only [Core.up, dot_flt hn, sub_flt]
  · simp only [Core.up, RlsExt.up, hR, matVec, dot_flt hn, sub_flt, flt_mul, flt_add, val_flt]
    rfl

/-- C121: RLS, if the square of the largest input fits into the type. -/
theorem C121_rls (hn : 0 < n) (hb : 0 < b) {B : ℤ} (hB : B ^ 2 < intTop b sg) (d : ℕ → Num b sg) (a : ℕ → Vec (BitVec b) n)
    (ha : ∀ k i, |BitVec.value sg (a k i)| ≤ B) :
    SameAsFloat (rls ℝ n) (rls (Num b sg) n) (Core.up RlsExt.up) (fun s => Scalar.eqz s.mu = false) d fun k i => int (a k i) := by
  refine same_of_sim (P' := fun s => Scalar.eqz s.mu = false) rls_safe rls_safe (fun _ _ h => h) (fun _ _ => rfl)
    (fun s h => (eqz_flt s.mu).trans h) (fun s' s => s' = s.up RlsExt.up)
    (fun _ => rfl) (fun s' s h i => by rw [h]; rfl) (fun x => SmallArr B x fun i => (x i).val) ?_ d _ fun k => small_int _ (ha k)
  rintro s' s rfl - - hs d x hx
  exact rls_sim hn hb hB s hs d x hx

/-! ## What happens out of range -/

theorem nlms_int_body (hn : 0 < n) (s : Core ℝ n (EpsExt ℝ)) (d : Num b sg) (a : Vec (BitVec b) n) :
    (nlms (Num b sg) n).body d (List.ofFn fun i => int (a i)) (s.up EpsExt.up)
      = (.ok (flt (nlmsIntStep sg s.mu s.ext.eps s.w d.val a).1, flt (nlmsIntStep sg s.mu s.ext.eps s.w d.val a).2.1),
         ({ s with w := (nlmsIntStep sg s.mu s.ext.eps s.w d.val a).2.2 } : Core ℝ n (EpsExt ℝ)).up EpsExt.up) := by
  rw [C52_exact]
  refine (nlms_body _ _ _).trans ?_
  simp only [Core.up, EpsExt.up, dot_flt hn, sub_flt, flt_mul, flt_add, val_flt, div_eq, int_power, dot_eq]
  rfl

/-- C121: for integer rows of any size, `run` of NLMS (started with float attributes) performs the steps `nlmsIntStep` of C52, in which the
power is wrapped to `b` bits. -/
theorem C121_nlms_wraps (hn : 0 < n) (s : Core ℝ n (EpsExt ℝ)) (H : List (List (Num b sg))) (d : ℕ → Num b sg) (a : ℕ → Vec (BitVec b) n)
    {y e : ℕ → Num b sg} {S : ℕ → Core (Num b sg) n (EpsExt (Num b sg))}
    (h : Runs (nlms (Num b sg) n) ⟨s.up EpsExt.up, H⟩ d (fun k i => int (a k i)) y e S) :
    ∃ (w : ℕ → Vec ℝ n) (y' e' : ℕ → ℝ), w 0 = s.w ∧ ∀ k, (∀ i, (S k).w i = flt (w k i)) ∧ y k = flt (y' k) ∧ e k = flt (e' k) ∧
      nlmsIntStep sg s.mu s.ext.eps (w k) (d k).val (a k) = (y' k, e' k, w (k + 1)) := by
  have hst := fun k => (Runs.step nlms_safe trivial h k).1
  let w : ℕ → Vec ℝ n := fun k => Nat.rec s.w (fun k v => (nlmsIntStep sg s.mu s.ext.eps v (d k).val (a k)).2.2) k
  have hw : ∀ k, S k = (⟨w k, n, s.mu, s.ext⟩ : Core ℝ n (EpsExt ℝ)).up EpsExt.up := by
    intro k
    induction k with
    | zero => exact h.1
    | succ k ih =>
      have h1 := hst k
      rw [ih] at h1
      exact (congrArg Prod.snd ((nlms_int_body hn _ _ _).symm.trans h1)).symm
  refine ⟨w, fun k => (nlmsIntStep sg s.mu s.ext.eps (w k) (d k).val (a k)).1,
    fun k => (nlmsIntStep sg s.mu s.ext.eps (w k) (d k).val (a k)).2.1, rfl, fun k => ⟨fun i => by rw [hw k]; rfl, ?_, ?_, rfl⟩⟩ <;>
  · have h1 := hst k
    rw [hw k] at h1
    have h2 := Except.ok.inj (congrArg Prod.fst ((nlms_int_body hn _ _ _).symm.trans h1))
    first | exact (congrArg Prod.fst h2).symm | exact (congrArg Prod.snd h2).symm

theorem value16 : BitVec.value false (16#8) = 16 := by decide

theorem rls16_body (s : Core ℝ 1 (RlsExt ℝ 1)) (hs : s.mu ≠ 0) (d : Num 8 false) :
    (rls (Num 8 false) 1).body d (List.ofFn (n := 1) fun _ => int 16#8) (s.up RlsExt.up)
      = (.ok (flt (16 * s.w 0), flt (d.val - 16 * s.w 0)),
         (⟨fun _ => s.w 0 + s.ext.R 0 0 / s.mu * 16 * (d.val - 16 * s.w 0), s.nAttr, s.mu, ⟨s.ext.eps, fun _ _ => s.ext.R 0 0 / s.mu⟩⟩ :
           Core ℝ 1 (RlsExt ℝ 1)).up RlsExt.up) := by
  have hd : ∀ u v : Vec ℝ 1, dot u v = u 0 * v 0 := fun u v => by rw [dot_eq]; simp
  have h1 : matMul (matMul (fun i j => (flt (s.ext.R i j) : Num 8 false)) (outer (fun _ => int 16#8) fun _ => int 16#8))
      (fun i j => flt (s.ext.R i j)) = fun _ _ => flt 0 := by
    funext i j
    refine (vsum_flt one_pos _ (fun _ => 0) fun k => ?_).trans ?_
    · show vsum (fun l => (flt (s.ext.R i l) : Num 8 false) * (int 16#8 * int 16#8)) * _ = _
      rw [vsum_flt one_pos _ (fun _ => 0) fun l => ?_, flt_mul]
      · simp [vsum]
      · rw [flt_mul, int_mul, val_int]
        have : BitVec.value false (16#8 * 16#8) = 0 := by decide
        rw [this]; simp
    · simp [vsum]
  have h3 : vecMat (fun _ => int 16#8) (fun i j => (flt (s.ext.R i j) : Num 8 false)) = fun k => flt (16 * s.ext.R 0 k) :=
    funext fun k => (vsum_flt one_pos _ (fun l => 16 * s.ext.R l k) fun l => by rw [mul_flt, val_int, value16]; norm_num).trans
      (by simp [vsum])
  have hR : rlsR (flt s.mu : Num 8 false) (fun i j => flt (s.ext.R i j)) (fun _ => int 16#8) = fun _ _ => flt (s.ext.R 0 0 / s.mu) := by
    funext i j
    unfold rlsR
    rw [h1, h3, dot_flt one_pos]
    simp only [flt_add, val_flt, div_eq, flt_mul, flt_sub, val_one, zero_div, sub_zero, Subsingleton.elim i 0, Subsingleton.elim j 0]
    congr 1
    ring
  refine (rls_body _ ((eqz_flt _).trans (decide_eq_false hs)) d _).trans (Prod.ext ?_ ?_)
  · simp only [Core.up, dot_flt one_pos, sub_flt, hd, val_int, value16]
    norm_num [mul_comm]
  · simp only [Core.up, RlsExt.up, hR, matVec, dot_flt one_pos, sub_flt, hd, val_int, value16, flt_mul, flt_add, val_flt]
    congr 1
    funext i
    rw [Subsingleton.elim i 0]
    congr 1
    push_cast
    ring

/-- one float step of RLS on the wrapped input: the attributes `(w, R)` -/
noncomputable def rls16Step (mu D : ℝ) (p : ℝ × ℝ) : ℝ × ℝ := (p.1 + p.2 / mu * 16 * (D - 16 * p.1), p.2 / mu)

theorem rls16_runs (s : Core ℝ 1 (RlsExt ℝ 1)) (hs : s.mu ≠ 0) (H : List (List (Num 8 false))) (D : ℝ)
    {y e : ℕ → Num 8 false} {S : ℕ → Core (Num 8 false) 1 (RlsExt (Num 8 false) 1)}
    (h : Runs (rls (Num 8 false) 1) ⟨s.up RlsExt.up, H⟩ (fun _ => flt D) (fun _ _ => int 16#8) y e S) (k : ℕ) :
    S k = (⟨fun _ => ((rls16Step s.mu D)^[k] (s.w 0, s.ext.R 0 0)).1, 1, s.mu,
      ⟨s.ext.eps, fun _ _ => ((rls16Step s.mu D)^[k] (s.w 0, s.ext.R 0 0)).2⟩⟩ : Core ℝ 1 (RlsExt ℝ 1)).up RlsExt.up ∧
    e k = flt (D - 16 * ((rls16Step s.mu D)^[k] (s.w 0, s.ext.R 0 0)).1) := by
  have hst := fun k => (Runs.step rls_safe ((eqz_flt s.mu).trans (decide_eq_false hs)) h k).1
  have hw : S k = (⟨fun _ => ((rls16Step s.mu D)^[k] (s.w 0, s.ext.R 0 0)).1, 1, s.mu,
      ⟨s.ext.eps, fun _ _ => ((rls16Step s.mu D)^[k] (s.w 0, s.ext.R 0 0)).2⟩⟩ : Core ℝ 1 (RlsExt ℝ 1)).up RlsExt.up := by
    induction k with
    | zero =>
      refine h.1.trans ?_
      have e1 : s.w = fun _ => s.w 0 := by funext i; rw [Subsingleton.elim i 0]
      have e2 : s.ext.R = fun _ _ => s.ext.R 0 0 := by funext i j; rw [Subsingleton.elim i 0, Subsingleton.elim j 0]
      have e3 : s.withN 1 = ⟨fun _ => s.w 0, 1, s.mu, ⟨s.ext.eps, fun _ _ => s.ext.R 0 0⟩⟩ := by
        obtain ⟨w, m, mu, eps, R⟩ := s
        simp only at e1 e2
        rw [e1, e2]; rfl
      exact congrArg (Core.up RlsExt.up) e3
    | succ k ih =>
      have h1 := hst k
      rw [ih] at h1
      rw [Function.iterate_succ_apply']
      generalize (rls16Step s.mu D)^[k] (s.w 0, s.ext.R 0 0) = p at h1 ⊢
      have hb := rls16_body ⟨fun _ => p.1, 1, s.mu, ⟨s.ext.eps, fun _ _ => p.2⟩⟩ hs (flt D)
      exact (congrArg Prod.snd (hb.symm.trans h1)).symm
  refine ⟨hw, ?_⟩
  have h1 := hst k
  rw [hw] at h1
  generalize (rls16Step s.mu D)^[k] (s.w 0, s.ext.R 0 0) = p at h1 ⊢
  have hb := rls16_body ⟨fun _ => p.1, 1, s.mu, ⟨s.ext.eps, fun _ _ => p.2⟩⟩ hs (flt D)
  exact (congrArg Prod.snd (Except.ok.inj (congrArg Prod.fst (hb.symm.trans h1)))).symm

/-- C121: a run of RLS on the constant `uint8` input `[16]`, whose square `256` wraps to `0`: `R` is never reduced by the data, and the error is
multiplied by `1 - 256 R(0) / mu^(k+1)` at sample `k`. -/
theorem C121_rls_wraps (s : Core ℝ 1 (RlsExt ℝ 1)) (hs : s.mu ≠ 0) (H : List (List (Num 8 false))) (D : ℝ)
    {y e : ℕ → Num 8 false} {S : ℕ → Core (Num 8 false) 1 (RlsExt (Num 8 false) 1)}
    (h : Runs (rls (Num 8 false) 1) ⟨s.up RlsExt.up, H⟩ (fun _ => flt D) (fun _ _ => int 16#8) y e S) :
    ∃ e' : ℕ → ℝ, ∀ k, e k = flt (e' k) ∧ (S k).ext.R 0 0 = flt (s.ext.R 0 0 / s.mu ^ k) ∧
      e' (k + 1) = (1 - 256 * s.ext.R 0 0 / s.mu ^ (k + 1)) * e' k := by
  have hR : ∀ k, ((rls16Step s.mu D)^[k] (s.w 0, s.ext.R 0 0)).2 = s.ext.R 0 0 / s.mu ^ k := by
    intro k
    induction k with
    | zero => simp
    | succ k ih => rw [Function.iterate_succ_apply', rls16Step, ih, pow_succ, div_div]
  refine ⟨fun k => D - 16 * ((rls16Step s.mu D)^[k] (s.w 0, s.ext.R 0 0)).1, fun k => ⟨(rls16_runs s hs H D h k).2, ?_, ?_⟩⟩
  · rw [(rls16_runs s hs H D h k).1, ← hR k]; rfl
  · simp only [Function.iterate_succ_apply', rls16Step, hR, div_div, ← pow_succ]
    ring

/-- C121: with `0 < mu <= 1` this RLS filter diverges: the error grows at least by the factor `256 R(0) - 1` per sample (2559 with the default
`eps = 0.1`, `R(0) = 10`). -/
theorem C121_rls_diverges (s : Core ℝ 1 (RlsExt ℝ 1)) (h0 : 0 < s.mu) (h1 : s.mu ≤ 1) (hR : 1 ≤ 256 * s.ext.R 0 0) (H : List (List (Num 8 false)))
    (D : ℝ) {y e : ℕ → Num 8 false} {S : ℕ → Core (Num 8 false) 1 (RlsExt (Num 8 false) 1)}
    (h : Runs (rls (Num 8 false) 1) ⟨s.up RlsExt.up, H⟩ (fun _ => flt D) (fun _ _ => int 16#8) y e S) (k : ℕ) :
    (256 * s.ext.R 0 0 - 1) ^ k * |(e 0).val| ≤ |(e k).val| := by
  obtain ⟨e', he⟩ := C121_rls_wraps s h0.ne' H D h
  rw [(he 0).1, (he k).1, val_flt, val_flt]
  induction k with
  | zero => simp
  | succ k ih =>
    rw [(he k).2.2, abs_mul, pow_succ, mul_right_comm, mul_comm]
    refine mul_le_mul ?_ ih (by have := sub_nonneg.mpr hR; positivity) (abs_nonneg _)
    have hp : 0 < s.mu ^ (k + 1) := by positivity
    have hp1 : s.mu ^ (k + 1) ≤ 1 := pow_le_one₀ h0.le h1
    have : 256 * s.ext.R 0 0 ≤ 256 * s.ext.R 0 0 / s.mu ^ (k + 1) := by
      rw [le_div_iff₀ hp]
      nlinarith
    rw [abs_sub_comm]
    exact (by linarith : 256 * s.ext.R 0 0 - 1 ≤ 256 * s.ext.R 0 0 / s.mu ^ (k + 1) - 1).trans (le_abs_self _)

/-- C121: on 8-bit inputs that are all multiples of 16 every product of inputs wraps to 0, and the step size of a Mathews filter (whose
`last_x` starts as zeros) never changes. -/
theorem C121_mathews_stuck (hn : 0 < n) (s : Core ℝ n (MathewsExt ℝ n)) (hx : s.ext.lastX = fun _ => 0) (H : List (List (Num 8 sg)))
    (d : ℕ → Num 8 sg) (c : ℕ → Vec (BitVec 8) n) {y e : ℕ → Num 8 sg} {S : ℕ → Core (Num 8 sg) n (MathewsExt (Num 8 sg) n)}
    (h : Runs (mathews (Num 8 sg) n) ⟨s.up MathewsExt.up, H⟩ d (fun k i => int (16#8 * c k i)) y e S) (k : ℕ) :
    (S k).ext.lastMu = flt s.ext.lastMu := by
  have hst := fun k => (Runs.step mathews_safe trivial h k).1
  have hdot : ∀ a c : Vec (BitVec 8) n, (dot (fun i => (int (16#8 * a i) : Num 8 sg)) fun i => int (16#8 * c i)).val = 0 := by
    intro a c
    rw [dot_int', Finset.sum_eq_zero, val_int]
    · have : BitVec.value sg (0 : BitVec 8) = 0 := by unfold BitVec.value; cases sg <;> simp
      rw [this]; norm_num
    · intro i _
      rw [mul_mul_mul_comm, show (16#8 * 16#8) = 0#8 from by decide]
      exact BitVec.zero_mul
  have hinv : ∀ k, (S k).ext.lastMu = flt s.ext.lastMu ∧ (S k).ext.ro = flt s.ext.ro ∧
      ∀ c : Vec (BitVec 8) n, (dot (S k).ext.lastX fun i => int (16#8 * c i)).val = 0 := by
    intro k
    induction k with
    | zero =>
      rw [h.1]
      refine ⟨rfl, rfl, fun c => ?_⟩
      show (dot (fun i => (flt (s.ext.lastX i) : Num 8 sg)) _).val = 0
      rw [dot_flt hn, hx, val_flt, dot_eq]
      simp
    | succ k ih =>
      obtain ⟨h1, h2, h3⟩ := ih
      have h4 : _ = S (k + 1) := congrArg Prod.snd ((mathews_body _ _ _).symm.trans (hst k))
      rw [← h4]
      refine ⟨?_, h2, fun c' => hdot _ _⟩
      show mathewsMu _ _ _ = _
      unfold mathewsMu
      rw [h1, h2]
      simp only [flt_mul, flt_add, val_flt, h3 (c k), mul_zero, add_zero]
  exact (hinv k).1

/-! ## The hypotheses are met -/

/-- the runs exist, on integer data and on its values -/
example (s : Core ℝ 2 (GngdExt ℝ 2)) (H : List (List ℝ)) (H' : List (List (Num 8 true))) (d : ℕ → Num 8 true) (x : ℕ → Vec (Num 8 true) 2) :
    (∃ y e S, Runs (gngd ℝ 2) ⟨s, H⟩ (fun k => (d k).val) (fun k i => (x k i).val) y e S) ∧
    ∃ y e S, Runs (gngd (Num 8 true) 2) ⟨s.up GngdExt.up, H'⟩ d x y e S :=
  ⟨⟨_, _, _, runs_of_safe gngd_safe _ trivial _ _⟩, ⟨_, _, _, runs_of_safe gngd_safe _ trivial _ _⟩⟩

/-- `int8` rows of length 2 with entries up to 7 in absolute value are in range -/
example : (2 : ℕ) * (7 : ℤ) ^ 2 < intTop 8 true ∧ (7 : ℤ) ^ 2 < intTop 8 true ∧
    (∀ i, |BitVec.value true ((![7, -7] : Vec (BitVec 8) 2) i)| ≤ 7) ∧
    (∑ i, BitVec.value true ((![7, -7] : Vec (BitVec 8) 2) i) ^ 2) = 98 := by
  decide

/-- a run of RLS as in `C121_rls_diverges`: the default parameters, initial error 1 -/
example : ∃ (s : Core ℝ 1 (RlsExt ℝ 1)) (y e : ℕ → Num 8 false) (S : _), 0 < s.mu ∧ s.mu ≤ 1 ∧ 256 * s.ext.R 0 0 - 1 = 2559 ∧
    Runs (rls (Num 8 false) 1) ⟨s.up RlsExt.up, []⟩ (fun _ => flt 1) (fun _ _ => int 16#8) y e S ∧ (e 0).val = 1 := by
  have hm : (99 / 100 : ℝ) ≠ 0 := by norm_num
  have hr := runs_of_safe rls_safe (C := rls (Num 8 false) 1)
    ⟨(⟨fun _ => 0, 1, 99 / 100, ⟨1 / 10, fun _ _ => 10⟩⟩ : Core ℝ 1 (RlsExt ℝ 1)).up RlsExt.up, []⟩
    ((eqz_flt (99 / 100)).trans (decide_eq_false hm)) (fun _ => flt 1) (fun _ _ => int 16#8)
  refine ⟨⟨fun _ => 0, 1, 99 / 100, ⟨1 / 10, fun _ _ => 10⟩⟩, _, _, _, by norm_num, by norm_num, by norm_num, hr, ?_⟩
  rw [(rls16_runs ⟨fun _ => 0, 1, 99 / 100, ⟨1 / 10, fun _ _ => 10⟩⟩ hm [] 1 hr 0).2]
  simp

end Padasip
