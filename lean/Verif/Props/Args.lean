import Verif.Model.Args
import Verif.Props.Reject2
import Verif.Props.Factory

/-!
# C117, C118: an array as target of `adapt`; negative sizes.  Further parts of C07 and C10.
-/

set_option linter.unusedSectionVars false
set_option linter.unusedSimpArgs false
set_option linter.unusedVariables false

namespace Padasip

variable {K : Type} [Transc K] {n : ℕ}

/-! ## C117 -/

theorem bmul_ofFn (u v : Vec K n) : bmul (List.ofFn u) (List.ofFn v) = .ok (List.ofFn fun i => u i * v i) := by
  unfold bmul
  rw [if_pos (by simp), zipWith_ofFn]

theorem bmul_single_right (u : Vec K n) (a : K) : bmul (List.ofFn u) [a] = .ok (List.ofFn fun i => u i * a) := by
  unfold bmul
  split
  · rename_i h
    simp only [List.length_ofFn, List.length_cons, List.length_nil, Nat.zero_add] at h
    subst h; simp
  · simp only [List.map_ofFn]; rfl

theorem bmul_single_left (u : Vec K n) (a : K) : bmul [a] (List.ofFn u) = .ok (List.ofFn fun i => a * u i) := by
  unfold bmul
  split
  · rename_i h
    simp only [List.length_ofFn, List.length_cons, List.length_nil, Nat.zero_add] at h
    subst h; simp
  · rename_i h
    simp only [List.length_ofFn, List.length_cons, List.length_nil, Nat.zero_add] at h
    split
    · rename_i b hb
      have := congrArg List.length hb
      simp at this; omega
    · rename_i heq _
      simp only [List.cons.injEq, and_true] at heq
      subst heq
      simp only [List.map_ofFn]; rfl
    · rename_i h2 h3; exact (h2 a rfl).elim

/-- the product of an array of length `n` and an array of a length neither `n` nor 1 never fits into the weights -/
theorem bmul_wrong (u : Vec K n) (v : List K) (h1 : v.length ≠ n) (h2 : v.length ≠ 1) :
    (do let p ← bmul (List.ofFn u) v; bcastVec n p) = (.error .valueError : Except Err (Vec K n)) ∧
    (do let p ← bmul v (List.ofFn u); bcastVec n p) = (.error .valueError : Except Err (Vec K n)) := by
  constructor
  · have hb : bmul (List.ofFn u) v = .error .valueError ∨ ∃ p, bmul (List.ofFn u) v = .ok p ∧ p.length ≠ n ∧ p.length ≠ 1 := by
      unfold bmul
      rw [if_neg (by simpa using h1.symm)]
      split
      · simp at h2
      · rename_i a heq
        refine Or.inr ⟨_, rfl, ?_, ?_⟩ <;> simpa
      · exact Or.inl rfl
    rcases hb with h | ⟨p, h, h3, h4⟩ <;> rw [h]
    · rfl
    · exact bcastVec_wrong p h3 h4
  · have hb : bmul v (List.ofFn u) = .error .valueError ∨ ∃ p, bmul v (List.ofFn u) = .ok p ∧ p.length ≠ n ∧ p.length ≠ 1 := by
      unfold bmul
      rw [if_neg (by simpa using h1)]
      split
      · rename_i a heq
        refine Or.inr ⟨_, rfl, ?_, ?_⟩ <;> simpa
      · simp at h2
      · exact Or.inl rfl
    rcases hb with h | ⟨p, h, h3, h4⟩ <;> rw [h]
    · rfl
    · exact bcastVec_wrong p h3 h4

/-- the rule for arrays `rule` is the rule for numbers `lr`, elementwise -/
def Elementwise {X : Type} (rule : List K → List K → M (Core K n X) (List K)) (lr : K → List K → M (Core K n X) (Vec K n)) (s s' : Core K n X) (x : Vec K n) : Prop :=
  ∃ (f : K → Vec K n), s'.w = s.w ∧ (∀ e, lr e (List.ofFn x) s = (.ok (f e), s')) ∧
    (∀ e : Vec K n, rule (List.ofFn e) (List.ofFn x) s = (.ok (List.ofFn fun i => f (e i) i), s')) ∧
    (∀ a, rule [a] (List.ofFn x) s = (.ok (List.ofFn (f a)), s')) ∧
    ∀ v, v.length ≠ n → v.length ≠ 1 → (rule v (List.ofFn x) >>= fun dw => M.lift (bcastVec n dw)) s = (.error .valueError, s')

theorem bind_lift_wrong {S α β : Type} {a : Except Err α} {f : α → Except Err β} {s : S} (h : (do let p ← a; f p) = .error .valueError) :
    ((M.lift a : M S α) >>= fun p => M.lift (f p)) s = (.error .valueError, s) := by
  cases a with
  | error e => cases h; rfl
  | ok p => rw [M.lift_ok_bind, M.lift_apply, show f p = _ from h]

theorem lms_elem (s : Core K n Unit) (x : Vec K n) : Elementwise lmsRuleArr lmsRule s s x := by
  refine ⟨fun e i => s.mu * x i * e, rfl, fun e => by simp [lmsRule], fun e => by simp [lmsRuleArr, bmul_ofFn], fun a => by simp [lmsRuleArr, bmul_single_right], fun v h1 h2 => ?_⟩
  simp only [lmsRuleArr, asVec_ofFn, M.bind_assoc', M.lift_ok_bind, M.get_bind]
  exact bind_lift_wrong (bmul_wrong _ v h1 h2).1

theorem lmf_elem (s : Core K n Unit) (x : Vec K n) : Elementwise lmfRuleArr lmfRule s s x := by
  refine ⟨fun e i => s.mu * x i * (e * e * e), rfl, fun e => by simp [lmfRule], fun e => by simp [lmfRuleArr, List.map_ofFn, bmul_ofFn],
    fun a => by simp [lmfRuleArr, bmul_single_right], fun v h1 h2 => ?_⟩
  simp only [lmfRuleArr, asVec_ofFn, M.bind_assoc', M.lift_ok_bind, M.get_bind]
  exact bind_lift_wrong (bmul_wrong _ _ (by simpa using h1) (by simpa using h2)).1

theorem sslms_elem (s : Core K n Unit) (x : Vec K n) : Elementwise sslmsRuleArr sslmsRule s s x := by
  refine ⟨fun e i => s.mu * Scalar.sgn (x i) * Scalar.sgn e, rfl, fun e => by simp [sslmsRule], fun e => by simp [sslmsRuleArr, List.map_ofFn, bmul_ofFn],
    fun a => by simp [sslmsRuleArr, bmul_single_right], fun v h1 h2 => ?_⟩
  simp only [sslmsRuleArr, asVec_ofFn, M.bind_assoc', M.lift_ok_bind, M.get_bind]
  exact bind_lift_wrong (bmul_wrong _ _ (by simpa using h1) (by simpa using h2)).1

theorem nlms_elem (s : Core K n (EpsExt K)) (x : Vec K n) : Elementwise nlmsRuleArr nlmsRule s s x := by
  refine ⟨fun e i => s.mu / (s.ext.eps + dot x x) * x i * e, rfl, fun e => by simp [nlmsRule], fun e => by simp [nlmsRuleArr, List.map_ofFn, bmul_ofFn],
    fun a => by simp [nlmsRuleArr, bmul_single_right], fun v h1 h2 => ?_⟩
  simp only [nlmsRuleArr, asVec_ofFn, M.bind_assoc', M.lift_ok_bind, M.get_bind]
  exact bind_lift_wrong (bmul_wrong _ _ (by simpa using h1) (by simpa using h2)).1

theorem nlmf_elem (s : Core K n (EpsExt K)) (x : Vec K n) : Elementwise nlmfRuleArr nlmfRule s s x := by
  refine ⟨fun e i => s.mu / (s.ext.eps + dot x x) * x i * (e * e * e), rfl, fun e => by simp [nlmfRule], fun e => by simp [nlmfRuleArr, List.map_ofFn, bmul_ofFn],
    fun a => by simp [nlmfRuleArr, bmul_single_right], fun v h1 h2 => ?_⟩
  simp only [nlmfRuleArr, asVec_ofFn, M.bind_assoc', M.lift_ok_bind, M.get_bind]
  exact bind_lift_wrong (bmul_wrong _ _ (by simpa using h1) (by simpa using h2)).1

theorem nsslms_elem (s : Core K n (EpsExt K)) (x : Vec K n) : Elementwise nsslmsRuleArr nsslmsRule s s x := by
  refine ⟨fun e i => s.mu / (s.ext.eps + dot x x) * Scalar.sgn (x i) * Scalar.sgn e, rfl, fun e => by simp [nsslmsRule],
    fun e => by simp [nsslmsRuleArr, List.map_ofFn, bmul_ofFn], fun a => by simp [nsslmsRuleArr, bmul_single_right], fun v h1 h2 => ?_⟩
  simp only [nsslmsRuleArr, asVec_ofFn, M.bind_assoc', M.lift_ok_bind, M.get_bind]
  exact bind_lift_wrong (bmul_wrong _ _ (by simpa using h1) (by simpa using h2)).1

theorem gmcc_elem (s : Core K n (GmccExt K)) (x : Vec K n) : Elementwise gmccRuleArr gmccRule s s x := by
  refine ⟨fun e i => s.mu * s.ext.lambd * s.ext.alpha * Transc.exp (-s.ext.lambd * Transc.pow (Scalar.abs e) s.ext.alpha) *
      Transc.pow (Scalar.abs e) (s.ext.alpha - 1) * Scalar.sgn e * x i, rfl, fun e => by simp [gmccRule],
    fun e => by simp [gmccRuleArr, List.map_ofFn, bmul_ofFn], fun a => by simp [gmccRuleArr, bmul_single_left], fun v h1 h2 => ?_⟩
  simp only [gmccRuleArr, asVec_ofFn, M.bind_assoc', M.lift_ok_bind, M.get_bind]
  exact bind_lift_wrong (bmul_wrong x _ (by simpa using h1) (by simpa using h2)).2

theorem llncosh_elem (s : Core K n (LlncoshExt K)) (x : Vec K n) : Elementwise llncoshRuleArr llncoshRule s s x := by
  refine ⟨fun e i => s.mu * Transc.tanh (s.ext.lambd * e) * x i, rfl, fun e => by simp [llncoshRule],
    fun e => by simp [llncoshRuleArr, List.map_ofFn, bmul_ofFn], fun a => by simp [llncoshRuleArr, bmul_single_left], fun v h1 h2 => ?_⟩
  simp only [llncoshRuleArr, asVec_ofFn, M.bind_assoc', M.lift_ok_bind, M.get_bind]
  exact bind_lift_wrong (bmul_wrong x _ (by simpa using h1) (by simpa using h2)).2

theorem rls_elem (s : Core K n (RlsExt K n)) (hm : Scalar.eqz s.mu = false) (x : Vec K n) : Elementwise rlsRuleArr rlsRule s
    { s with ext := { s.ext with R := fun i j => 1 / s.mu * (s.ext.R i j - matMul (matMul s.ext.R (outer x x)) s.ext.R i j / (s.mu + dot (vecMat x s.ext.R) x)) } } x := by
  refine ⟨fun e i => matVec (fun i j => 1 / s.mu * (s.ext.R i j - matMul (matMul s.ext.R (outer x x)) s.ext.R i j / (s.mu + dot (vecMat x s.ext.R) x))) x i * e, rfl,
    fun e => by simp [rlsRule, hm], fun e => by simp [rlsRuleArr, hm, bmul_ofFn], fun a => by simp [rlsRuleArr, hm, bmul_single_right], fun v h1 h2 => ?_⟩
  simp only [rlsRuleArr, asVec_ofFn, M.bind_assoc', M.lift_ok_bind, M.get_bind, hm]
  exact bind_lift_wrong (bmul_wrong _ v h1 h2).1

/-- `adaptArr` on the attributes -/
def arrCore {X : Type} (rule : List K → List K → M (Core K n X) (List K)) (d x : List K) : M (Core K n X) Unit := do
  let y ← basePredict x
  let e := d.map (· - y)
  let dw ← rule e x
  let dw ← M.lift (bcastVec n dw)
  M.modify fun s => { s with w := fun i => s.w i + dw i }

theorem arrCore_ofFn {X : Type} {rule : List K → List K → M (Core K n X) (List K)} {lr : K → List K → M (Core K n X) (Vec K n)} {s s' : Core K n X} {x : Vec K n}
    (h : Elementwise rule lr s s' x) :
    ∃ (f : K → Vec K n), s'.w = s.w ∧
      (∀ D : Vec K n, arrCore rule (List.ofFn D) (List.ofFn x) s = (.ok (), { s' with w := fun i => s.w i + f (D i) i })) ∧
      (∀ a, arrCore rule [a] (List.ofFn x) s = (.ok (), { s' with w := fun i => s.w i + f a i })) ∧
      (∀ a, baseAdapt basePredict lr a (List.ofFn x) s = (.ok (), { s' with w := fun i => s.w i + f a i })) ∧
      ∀ v, v.length ≠ n → v.length ≠ 1 → arrCore rule v (List.ofFn x) s = (.error .valueError, s') := by
  obtain ⟨f, hw, h1, h2, h3, h4⟩ := h
  have hp : basePredict (List.ofFn x) s = (.ok (dot s.w x), s) := by simp [basePredict]
  refine ⟨fun a => f (a - dot s.w x), hw, fun D => ?_, fun a => ?_, fun a => ?_, fun v g1 g2 => ?_⟩
  · unfold arrCore
    rw [M.bind_ok hp]
    simp only [List.map_ofFn]
    rw [M.bind_ok (h2 _)]
    simp [hw]
  · unfold arrCore
    rw [M.bind_ok hp]
    simp only [List.map_cons, List.map_nil]
    rw [M.bind_ok (h3 _)]
    simp [hw]
  · unfold baseAdapt
    rw [M.bind_ok hp, M.bind_ok (h1 _)]
    simp [hw]
  · unfold arrCore
    rw [M.bind_ok hp]
    rw [← M.bind_assoc' (rule _ _)]
    exact M.bind_error (h4 _ (by simpa using g1) (by simpa using g2))

/-- the common content of C117, for every class -/
theorem plain_step (solve : Solver K) (p : Plain) (s : Core K n (classOf (n := n) solve p.kind).Ext) (hs : Ready solve p.kind s) (x : Vec K n) (h : List (List K)) :
    ∃ (s' : Core K n (classOf (n := n) solve p.kind).Ext) (f : K → Vec K n), s'.w = s.w ∧
      (∀ D, adaptArr solve p (List.ofFn D) (List.ofFn x) ⟨s, h⟩ = (.ok (), ⟨{ s' with w := fun i => s.w i + f (D i) i }, h⟩)) ∧
      (∀ a, adaptArr solve p [a] (List.ofFn x) ⟨s, h⟩ = (.ok (), ⟨{ s' with w := fun i => s.w i + f a i }, h⟩)) ∧
      (∀ a, adapt (classOf solve p.kind) a (List.ofFn x) ⟨s, h⟩ = (.ok (), ⟨{ s' with w := fun i => s.w i + f a i }, h⟩)) ∧
      (∀ v, v.length ≠ n → v.length ≠ 1 → adaptArr solve p v (List.ofFn x) ⟨s, h⟩ = (.error .valueError, ⟨s', h⟩)) ∧ (p ≠ .rls → s' = s) := by
  have lift : ∀ {C : FilterClass K n} {m : M (Core K n C.Ext) Unit} {r : Except Err Unit} {s t : Core K n C.Ext} (h : List (List K)),
      m s = (r, t) → Obj.liftM m (⟨s, h⟩ : Obj C) = (r, ⟨t, h⟩) := by
    intro C m r s t h hm
    unfold Obj.liftM
    simp only [hm]
  have fin : ∀ {X : Type} {rule : List K → List K → M (Core K n X) (List K)} {lr : K → List K → M (Core K n X) (Vec K n)} {s s' : Core K n X},
      Elementwise rule lr s s' x → ∀ h : List (List K),
      ∃ f : K → Vec K n, s'.w = s.w ∧
      (∀ D, Obj.liftM (C := mkBase X basePredict lr) (arrCore rule (List.ofFn D) (List.ofFn x)) ⟨s, h⟩ = (.ok (), ⟨{ s' with w := fun i => s.w i + f (D i) i }, h⟩)) ∧
      (∀ a, Obj.liftM (C := mkBase X basePredict lr) (arrCore rule [a] (List.ofFn x)) ⟨s, h⟩ = (.ok (), ⟨{ s' with w := fun i => s.w i + f a i }, h⟩)) ∧
      (∀ a, adapt (mkBase X basePredict lr) a (List.ofFn x) ⟨s, h⟩ = (.ok (), ⟨{ s' with w := fun i => s.w i + f a i }, h⟩)) ∧
      (∀ v, v.length ≠ n → v.length ≠ 1 → Obj.liftM (C := mkBase X basePredict lr) (arrCore rule v (List.ofFn x)) ⟨s, h⟩ = (.error .valueError, ⟨s', h⟩)) := by
    intro X rule lr s s' he h
    obtain ⟨f, g0, g1, g2, g3, g4⟩ := arrCore_ofFn he
    exact ⟨f, g0, fun D => lift h (g1 D), fun a => lift h (g2 a), fun a => lift h (g3 a), fun v a b => lift h (g4 v a b)⟩
  cases p
  · obtain ⟨f, g⟩ := fin (lms_elem s x) h; exact ⟨s, f, g.1, g.2.1, g.2.2.1, g.2.2.2.1, g.2.2.2.2, fun _ => rfl⟩
  · obtain ⟨f, g⟩ := fin (lmf_elem s x) h; exact ⟨s, f, g.1, g.2.1, g.2.2.1, g.2.2.2.1, g.2.2.2.2, fun _ => rfl⟩
  · obtain ⟨f, g⟩ := fin (sslms_elem s x) h; exact ⟨s, f, g.1, g.2.1, g.2.2.1, g.2.2.2.1, g.2.2.2.2, fun _ => rfl⟩
  · obtain ⟨f, g⟩ := fin (nlms_elem s x) h; exact ⟨s, f, g.1, g.2.1, g.2.2.1, g.2.2.2.1, g.2.2.2.2, fun _ => rfl⟩
  · obtain ⟨f, g⟩ := fin (nlmf_elem s x) h; exact ⟨s, f, g.1, g.2.1, g.2.2.1, g.2.2.2.1, g.2.2.2.2, fun _ => rfl⟩
  · obtain ⟨f, g⟩ := fin (nsslms_elem s x) h; exact ⟨s, f, g.1, g.2.1, g.2.2.1, g.2.2.2.1, g.2.2.2.2, fun _ => rfl⟩
  · obtain ⟨f, g⟩ := fin (gmcc_elem s x) h; exact ⟨s, f, g.1, g.2.1, g.2.2.1, g.2.2.2.1, g.2.2.2.2, fun _ => rfl⟩
  · obtain ⟨f, g⟩ := fin (llncosh_elem s x) h; exact ⟨s, f, g.1, g.2.1, g.2.2.1, g.2.2.2.1, g.2.2.2.2, fun _ => rfl⟩
  · obtain ⟨f, g⟩ := fin (rls_elem s hs x) h; exact ⟨_, f, g.1, g.2.1, g.2.2.1, g.2.2.2.1, g.2.2.2.2, fun c => absurd rfl c⟩

/-- C117: an array of `n` targets is accepted by `adapt` of nine filters: weight `i` moves as if the target had been the number `D[i]`; everything else of the filter is as for a number. -/
theorem C117_one_target_per_weight (solve : Solver K) (p : Plain) (o : Obj (classOf (n := n) solve p.kind)) (ho : Ready solve p.kind o.core) (D x : Vec K n) :
    ∃ o', adaptArr solve p (List.ofFn D) (List.ofFn x) o = (.ok (), o') ∧
      ∀ i, ∃ oi, adapt (classOf solve p.kind) (D i) (List.ofFn x) o = (.ok (), oi) ∧
        o'.core.w i = oi.core.w i ∧ o'.core.ext = oi.core.ext ∧ o'.core.mu = oi.core.mu ∧ o'.core.nAttr = oi.core.nAttr ∧ o'.wHist = oi.wHist := by
  obtain ⟨s', f, -, h1, -, h2, -⟩ := plain_step solve p o.core ho x o.wHist
  exact ⟨_, h1 D, fun i => ⟨_, h2 (D i), rfl, rfl, rfl, rfl, rfl⟩⟩

/-- C117: an array of one target is the same as the number. -/
theorem C117_one_element (solve : Solver K) (p : Plain) (o : Obj (classOf (n := n) solve p.kind)) (ho : Ready solve p.kind o.core) (a : K) (x : Vec K n) :
    adaptArr solve p [a] (List.ofFn x) o = adapt (classOf solve p.kind) a (List.ofFn x) o := by
  obtain ⟨s', f, -, -, h1, h2, -⟩ := plain_step solve p o.core ho x o.wHist
  exact (h1 a).trans (h2 a).symm

/-- C117: an array of any other length raises `ValueError`; nothing has changed, except that RLS has already updated its matrix as for an accepted sample. -/
theorem C117_wrong_length (solve : Solver K) (p : Plain) (o : Obj (classOf (n := n) solve p.kind)) (ho : Ready solve p.kind o.core) (v : List K)
    (h1 : v.length ≠ n) (h2 : v.length ≠ 1) (x : Vec K n) :
    ∃ o', adaptArr solve p v (List.ofFn x) o = (.error .valueError, o') ∧ o'.core.w = o.core.w ∧ (p ≠ .rls → o' = o) ∧
      ∀ a, ∃ oa, adapt (classOf solve p.kind) a (List.ofFn x) o = (.ok (), oa) ∧ o'.core.ext = oa.core.ext := by
  obtain ⟨s', f, hw, -, -, g2, g3, g4⟩ := plain_step solve p o.core ho x o.wHist
  refine ⟨_, g3 v h1 h2, hw, fun hp => ?_, fun a => ⟨_, g2 a, rfl⟩⟩
  rw [g4 hp]

/-- C117 is not vacuous: an LMS filter with weights 0, step 1 and input (1, 1) given the targets (1, 2) moves to (1, 2), which no single target reaches. -/
example : ∃ o' : Obj (lms ℚ 2), adaptArr (K := ℚ) ratSolve .lms [1, 2] [1, 1] (⟨⟨![0, 0], 2, 1, ()⟩, []⟩ : Obj (lms ℚ 2)) = (.ok (), o') ∧
    List.ofFn o'.core.w = [1, 2] := ⟨_, rfl, by decide +kernel⟩

/-! ## C07, `x` a plain series -/

/-- C07: a plain series of numbers in place of the input matrix: `TypeError` (`ValueError` if the lengths differ, `IndexError` if empty); the object is unchanged. -/
theorem C07_plain_series (solve : Solver K) (k : Kind) (o : Obj (classOf (n := n) solve k)) (d x : List K) :
    runFlat (classOf solve k) d x o = (if d.length ≠ x.length then .error .valueError else if x = [] then .error .indexError else .error .typeError, o) := by
  unfold runFlat
  split
  · rfl
  · cases x <;> rfl

/-! ## C118 -/

/-- C118: with non-negative sizes the constructors are those of C43. -/
theorem C118_sizes (env : Env K) (t : Tag) (kw : Kwargs K) (n : ℕ) (order mem : Option ℕ) :
    constructInt env t kw n (order.map Int.ofNat) (mem.map Int.ofNat) = some (construct env t { kw with n := some n, order := order, mem := mem }) := by
  have e1 : (order.map Int.ofNat).map Int.toNat = order := by cases order <;> rfl
  have e2 : (mem.map Int.ofNat).map Int.toNat = mem := by cases mem <;> rfl
  have e3 : ¬ ((order.map Int.ofNat).getD 0 < 0 ∨ (mem.map Int.ofNat).getD 0 < 0) := by
    cases order <;> cases mem <;> simp
  unfold constructInt
  simp only [e1, e2, Int.toNat_natCast]
  split
  · rename_i hb
    unfold construct; rw [if_pos hb]
  · rename_i hb
    split
    · rename_i hm
      unfold construct; rw [if_neg hb]; simp only [hm]
    · rename_i m hm
      rw [if_neg (by omega)]
      split
      · rename_i e he
        unfold construct; rw [if_neg hb]; simp only [hm, he]; rfl
      · rfl

/-- C118: which exception a wrong size raises, for a call with valid keywords: `n = -1` an `AttributeError` (`none`), whatever the weights; any other negative `n`, a negative
`order` and a negative `mem` a `ValueError`. -/
theorem C118_negative (env : Env K) (t : Tag) (kw : Kwargs K) (n : ℤ) (order mem : Option ℤ)
    (hk : ∀ k ∈ ({ kw with n := some n.toNat, order := order.map Int.toNat, mem := mem.map Int.toNat } : Kwargs K).keys, k ∈ t.signature)
    (hmu : kw.mu ≠ none ∨ ¬ t.muRequired) :
    (n = -1 → constructInt env t kw n order mem = none) ∧
    (n < -1 → constructInt env t kw n order mem = some (.error .valueError)) ∧
    (0 ≤ n → (∃ z < 0, order = some z ∨ mem = some z) → (kw.w = none ∨ kw.w = some (.str "zeros") ∨ kw.w = some (.str "random")) →
      constructInt env t kw n order mem = some (.error .valueError)) := by
  have hb : badKeyword t ({ kw with n := some n.toNat, order := order.map Int.toNat, mem := mem.map Int.toNat } : Kwargs K) = false := by
    rw [Bool.eq_false_iff]
    intro h
    obtain ⟨k, h1, h2⟩ := (badKeyword_iff _ _).mp h
    exact h2 (hk k h1)
  obtain ⟨m, hm⟩ : ∃ m, (kw.mu <|> defaultMu t) = some m := by
    cases h : kw.mu with
    | some m => exact ⟨m, rfl⟩
    | none =>
      have h1 : ¬ t.muRequired := by simpa [h] using hmu
      cases h2 : (defaultMu t : Option K) with
      | none => exact absurd ((defaultMu_none t).mp h2) h1
      | some m => exact ⟨m, rfl⟩
  unfold constructInt
  simp only [hb, hm, Bool.false_eq_true, if_false]
  refine ⟨fun h => by rw [if_pos h], fun h => ?_, fun h hz hw => ?_⟩
  · rw [if_neg (by omega)]
    have : initWeights env.rand 0 (kw.w.getD (.str "random")) n = (.error .valueError : Except Err (List K)) := by
      unfold initWeights
      simp only [if_neg (by omega : ¬ n = -1)]
      split
      · have h0 : n < 0 := by omega
        simp only [h0, if_true]
        split
        · rfl
        · split <;> rfl
      · rw [if_neg (by omega)]
    rw [this]
  · rw [if_neg (by omega)]
    have : ∃ l, initWeights env.rand 0 (kw.w.getD (.str "random")) n = (.ok l : Except Err (List K)) := by
      unfold initWeights
      simp only [if_neg (by omega : ¬ n = -1)]
      rcases hw with hw | hw | hw <;> rw [hw]
      · exact ⟨_, by simp only [Option.getD_none, if_true]; rw [if_neg (by omega)]⟩
      · exact ⟨_, by simp only [Option.getD_some]; rw [if_neg (by decide), if_pos trivial, if_neg (by omega)]⟩
      · exact ⟨_, by simp only [Option.getD_some, if_true]; rw [if_neg (by omega)]⟩
    obtain ⟨l, hl⟩ := this
    rw [hl]
    obtain ⟨z, hz, h | h⟩ := hz <;> subst h
    · simp [hz]
    · simp [hz]

/-- C118 is not vacuous: an AP filter of size 3 with order -2. -/
example (env : Env ℚ) : constructInt env .ap { mu := some 1 } 3 (some (-2)) none = some (.error .valueError) :=
  (C118_negative env .ap { mu := some 1 } 3 (some (-2)) none (by decide) (Or.inl (by simp))).2.2 (by norm_num) ⟨-2, by norm_num, Or.inl rfl⟩ (Or.inl rfl)

/-! ## C10, rounding -/

/-- C10: the training length is computed in floating point.  If rounding is monotone and exact on the integers (IEEE doubles up to `2^53`), the number `T` of training samples is the exact
product `len(d)*ntrain` rounded down or up to an integer (up only if it is not an integer), and for `0 < T < len(d)` the call is `epochs` times `run` on the first `T` samples, then `run` on the rest. -/
theorem C10_rounded (rnd : ℚ → ℚ) (hm : Monotone rnd) (hr : ∀ z : ℤ, rnd z = z) (C : FilterClass K n) (o : Obj C) (d : List K) (x : List (List K))
    (ntrain : ℚ) (hq : 0 ≤ ntrain) (epochs : ℕ) :
    ∃ T : ℕ, ((T : ℤ) = ⌊d.length * ntrain⌋ ∨ (T : ℤ) = ⌈d.length * ntrain⌉) ∧
      pretrainedRunRounded rnd C d x ntrain epochs o
        = (repeatM (run C (d.take T) (x.take T)) epochs >>= fun _ => run C (d.drop T) (x.drop T)) o := by
  set q : ℚ := d.length * ntrain with hqd
  have hq0 : 0 ≤ q := by positivity
  have h0 : 0 ≤ rnd q := by
    have := hm hq0
    have h2 := hr 0
    rw [Int.cast_zero] at h2
    linarith
  have h1 : (⌊q⌋ : ℚ) ≤ rnd q := by rw [← hr]; exact hm (Int.floor_le q)
  have h2 : rnd q ≤ (⌈q⌉ : ℚ) := by rw [← hr]; exact hm (Int.le_ceil q)
  have h3 : ⌊q⌋ ≤ ⌊rnd q⌋ := Int.le_floor.mpr h1
  have h4 : ⌊rnd q⌋ ≤ ⌈q⌉ := by
    have : (⌊rnd q⌋ : ℚ) ≤ ⌈q⌉ := (Int.floor_le _).trans h2
    exact_mod_cast this
  have h5 : ⌈q⌉ ≤ ⌊q⌋ + 1 := Int.ceil_le_floor_add_one q
  have h6 : 0 ≤ ⌊rnd q⌋ := Int.floor_nonneg.mpr h0
  have hT : truncRat (rnd q) = ((⌊rnd q⌋.toNat : ℕ) : ℤ) := by
    unfold truncRat
    rw [if_pos h0, Int.toNat_of_nonneg h6]; rfl
  refine ⟨⌊rnd q⌋.toNat, by omega, ?_⟩
  unfold pretrainedRunRounded
  simp only [← hqd, hT]
  have e1 : ∀ {α : Type} (l : List α) (T : ℕ), pySliceTo l (T : ℤ) = l.take T := fun l T => by simp [pySliceTo]
  have e2 : ∀ {α : Type} (l : List α) (T : ℕ), pySliceFrom l (T : ℤ) = l.drop T := fun l T => by simp [pySliceFrom]
  simp only [e1, e2]

/-- there are roundings other than the identity with these properties: rounding down to halves -/
example : Monotone (fun q : ℚ => (⌊2 * q⌋ : ℚ) / 2) ∧ ∀ z : ℤ, (⌊2 * (z : ℚ)⌋ : ℚ) / 2 = z := by
  constructor
  · intro a b h
    have : ⌊2 * a⌋ ≤ ⌊2 * b⌋ := Int.floor_le_floor (by linarith)
    have : (⌊2 * a⌋ : ℚ) ≤ ⌊2 * b⌋ := by exact_mod_cast this
    simp only; linarith
  · intro z
    have : (2 * (z : ℚ)) = ((2 * z : ℤ) : ℚ) := by push_cast; ring
    rw [this, Int.floor_intCast]; push_cast; ring

end Padasip
