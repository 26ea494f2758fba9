import Verif.Props.NdRest

set_option linter.unusedSectionVars false
set_option linter.unusedSimpArgs false
set_option linter.unusedVariables false

/-!
# C151: `adapt` of RLS with arguments of any shape
-/

namespace Padasip

variable {K : Type} {n : Nat}

/-- `a` is the square matrix `A` -/
def IsMat (a : Arr K) (A : Mat K n n) : Prop := a.shape = [n, n] ∧ ∀ i j : Fin n, a.entry [i.val, j.val] = A i j

theorem mat_matmul [Scalar K] {a b : Arr K} {A B : Mat K n n} (ha : IsMat a A) (hb : IsMat b B) :
    ∃ c, a.matmul b = .ok c ∧ IsMat c (matMul A B) := by
  have h : a.matmul b = .ok ⟨[n, n], fun idx => (List.ofFn fun k : Fin n =>
      a.entry (bidx [] (idx.take 0) ++ [(idx.drop 0).headD 0, k.val]) * b.entry (bidx [] (idx.take 0) ++ [k.val, (idx.drop 0).getLastD 0])).sum⟩ := by
    unfold Arr.matmul
    rw [ha.1, hb.1]
    show (if n = n then _ else _) = _
    rw [if_pos rfl]
    rfl
  refine ⟨_, h, rfl, fun i j => ?_⟩
  show (List.ofFn fun k : Fin n => a.entry [i.val, k.val] * b.entry [k.val, j.val]).sum = _
  simp only [ha.2, hb.2]; rfl

theorem vec_mat_dot [Scalar K] {x a : Arr K} {v : Vec K n} {A : Mat K n n} (hx : IsVec x v) (ha : IsMat a A) :
    ∃ c, x.dot a = .ok c ∧ IsVec c (vecMat v A) := by
  have h := dot_big (sb := []) hx.1 ha.1
  rw [if_pos rfl] at h
  refine ⟨_, h, rfl, fun i => ?_⟩
  show (List.ofFn fun k : Fin n => x.entry [k.val] * a.entry ([] ++ [k.val] ++ [i.val])).sum = _
  simp only [hx.2, List.nil_append, List.cons_append, ha.2]; rfl

theorem outer_zip [Scalar K] {x : Arr K} {v : Vec K n} (hx : IsVec x v) :
    ∃ c, x.newSecond.zip (· * ·) x.newFirst = .ok c ∧ IsMat c (outer v v) := by
  have hs1 : x.newSecond.shape = [n, 1] := by unfold Arr.newSecond; rw [hx.1]; rfl
  have hs2 : x.newFirst.shape = [1, n] := by unfold Arr.newFirst; rw [hx.1]
  have hb : bshape [n, 1] [1, n] = .ok [n, n] := by
    show Except.map _ (bshapeRev [1, n] [n, 1]) = _
    unfold bshapeRev
    by_cases h1 : n = 1
    · subst h1; rfl
    · rw [if_neg (by omega), if_pos rfl]
      unfold bshapeRev
      rw [if_pos (.inr rfl)]; rfl
  refine ⟨_, zip_ok (by rw [hs1, hs2]; exact hb), rfl, fun i j => ?_⟩
  show x.newSecond.entry (bidx x.newSecond.shape [i.val, j.val]) * x.newFirst.entry (bidx x.newFirst.shape [i.val, j.val]) = _
  have h1 : bidx [n, 1] [i.val, j.val] = [i.val, 0] := by
    have := bidx_self i.isLt; unfold bidx at this ⊢; simpa using this
  have h2 : bidx [1, n] [i.val, j.val] = [0, j.val] := by
    have := bidx_self j.isLt; unfold bidx at this ⊢; simpa using this
  rw [hs1, hs2, h1, h2]
  show x.entry [i.val] * x.entry [j.val] = _
  rw [hx.2, hx.2]; rfl

theorem mat_num_zip (f : K → K → K) {a b : Arr K} {A : Mat K n n} {u : K} (ha : IsMat a A) (hb : b.shape = []) (hu : b.entry [] = u) :
    ∃ c, a.zip f b = .ok c ∧ IsMat c (fun i j => f (A i j) u) := by
  refine ⟨_, zip_ok (by rw [hb, bshape_nil']), ha.1, fun i j => ?_⟩
  show f (a.entry (bidx a.shape [i.val, j.val])) (b.entry (bidx b.shape [i.val, j.val])) = _
  rw [ha.1, hb, bidx_mat i.isLt j.isLt, bidx_nil, ha.2, hu]

theorem transpose_vec {x : Arr K} {v : Vec K n} (hx : IsVec x v) : IsVec x.transpose v := by
  refine ⟨by unfold Arr.transpose; rw [hx.1]; rfl, fun i => hx.2 i⟩

/-- What the rule does to the matrix, and the gain times the error, for a vector `x`. -/
theorem rlsRule_vec [Scalar K] (o : RlsObj K n) (hm : Scalar.eqz o.mu = false) {A : Mat K n n} (hR : IsMat o.R A) {x : Arr K} {v : Vec K n} (hx : IsVec x v) (e : Arr K) :
    ∃ R g : Arr K, IsMat R (rlsR o.mu A v) ∧ IsVec g (matVec (rlsR o.mu A v) v) ∧ rlsRuleNd e x o = (g.zip (· * ·) e, { o with R := R }) := by
  obtain ⟨xx, h1, hxx⟩ := outer_zip hx
  obtain ⟨a, h2, ha⟩ := mat_matmul hR hxx
  obtain ⟨R1, h3, hR1⟩ := mat_matmul ha hR
  obtain ⟨b, h4, hb⟩ := vec_mat_dot hx hR
  obtain ⟨c, h5, -, hc1, hc2⟩ := vec_dot hb (transpose_vec hx)
  obtain ⟨q, h6, hq⟩ := mat_num_zip (u := o.mu + dot (vecMat v A) v) (· / ·) hR1 (b := c.map (o.mu + ·)) hc1 (by show o.mu + c.entry [] = _; rw [hc2])
  obtain ⟨D, h7, hD1, hD2⟩ := mat_mat_zip (· - ·) hR.1 hq.1
  have hR' : IsMat (D.map (1 / o.mu * ·)) (rlsR o.mu A v) := by
    refine ⟨hD1, fun i j => ?_⟩
    show 1 / o.mu * D.entry [i.val, j.val] = _
    rw [hD2, hR.2, hq.2]; rfl
  obtain ⟨g, h8, hg⟩ := mat_vec_dot hR'.1 (transpose_vec hx)
  have hg' : IsVec g (matVec (rlsR o.mu A v) v) := by
    refine ⟨hg.1, fun i => ?_⟩
    rw [hg.2]
    simp only [hR'.2]; rfl
  refine ⟨_, g, hR', hg', ?_⟩
  have hne : ¬ x.shape = [] := by rw [hx.1]; simp
  unfold rlsRuleNd
  simp only [M.get_bind, if_neg hne, h1, h2, h3, h4, h5, M.lift_ok_bind, hm, h6, h7, M.modify_bind, h8]
  simp only [Bool.false_eq_true, if_false, h6, h7, h8, M.lift_ok_bind, M.modify_bind]
  rfl

/-- C151: a healthy matrix, a vector of the right length and a number, one value or one value per weight as target: the update of the RLS filter. -/
theorem C151_accepted [Scalar K] (o : RlsObj K n) (hm : Scalar.eqz o.mu = false) {A : Mat K n n} (hR : IsMat o.R A) {d x : Arr K} {δ v : Vec K n}
    (hx : IsVec x v) (hd : Lane d δ) :
    ∃ R, IsMat R (rlsR o.mu A v) ∧
      rlsAdaptNd d x o = (.ok (), { o with w := fun i => o.w i + matVec (rlsR o.mu A v) v i * (δ i - dot o.w v), R := R }) := by
  obtain ⟨y, hy, hl, -⟩ := vec_dot (isVec_vec o.w) hx
  obtain ⟨e, he, hel, -⟩ := lane_zip (· - ·) hd hl
  obtain ⟨R, g, hR', hg, hr⟩ := rlsRule_vec o hm hR hx e
  obtain ⟨dw, hdw, hdl, -⟩ := lane_zip (· * ·) hg.lane hel
  refine ⟨R, hR', ?_⟩
  unfold rlsAdaptNd
  simp only [M.get_bind, hy, he, M.lift_ok_bind]
  refine (M.bind_ok (hr.trans (by rw [hdw]))).trans ?_
  rw [iadd_lane _ hdl]; rfl

/-- C151: a target of any other shape raises `ValueError` and the weights stay, but the matrix has been updated with the input. -/
theorem C151_bad_target [Scalar K] (o : RlsObj K n) (hm : Scalar.eqz o.mu = false) {A : Mat K n n} (hR : IsMat o.R A) {d x : Arr K} {v : Vec K n}
    (hx : IsVec x v) (hd : ¬ (d.shape = [] ∨ d.shape = [1] ∨ d.shape = [n])) :
    ∃ R, IsMat R (rlsR o.mu A v) ∧ rlsAdaptNd d x o = (.error .valueError, { o with R := R }) := by
  obtain ⟨y, hy, hl, hy1, -⟩ := vec_dot (isVec_vec o.w) hx
  have he : d.zip (· - ·) y = .ok _ := zip_ok (by rw [hy1, bshape_nil'])
  obtain ⟨R, g, hR', hg, hr⟩ := rlsRule_vec o hm hR hx ⟨d.shape, fun idx => d.entry (bidx d.shape idx) - y.entry (bidx y.shape idx)⟩
  refine ⟨R, hR', ?_⟩
  unfold rlsAdaptNd
  simp only [M.get_bind, hy, he, M.lift_ok_bind]
  rcases axes_zip (· * ·) g ⟨d.shape, fun idx => d.entry (bidx d.shape idx) - y.entry (bidx y.shape idx)⟩ with ⟨dw, hdw, hl⟩ | hdw
  · refine (M.bind_ok (hr.trans (by rw [hdw]))).trans ?_
    have hf : iadd o.w dw = .error .valueError := by
      rcases hs : d.shape with _ | ⟨m, _ | ⟨m', t⟩⟩
      · exact absurd (.inl hs) hd
      · have h1 : m ≠ 1 := fun h => hd (.inr (.inl (by rw [hs, h])))
        have h2 : m ≠ n := fun h => hd (.inr (.inr (by rw [hs, h])))
        refine bad_iadd h1 h2 o.w ?_
        rcases bad_zip h1 (· * ·) (a := g) (b := ⟨d.shape, fun idx => d.entry (bidx d.shape idx) - y.entry (bidx y.shape idx)⟩) (.inr ⟨[], hs⟩) with ⟨c, h3, h4⟩ | h3
        · rw [hdw] at h3; cases h3; exact h4
        · rw [hdw] at h3; cases h3
      · refine axes_iadd o.w ?_
        rw [hl, hs]; simp
    rw [hf]; rfl
  · exact M.bind_error (hr.trans (by rw [hdw]))

/-- C151: a forgetting factor 0 raises `ZeroDivisionError`, without any effect. -/
theorem C151_zero_mu [Scalar K] (o : RlsObj K n) (hm : Scalar.eqz o.mu = true) {A : Mat K n n} (hR : IsMat o.R A) {x : Arr K} {v : Vec K n} (d : Arr K) (hx : IsVec x v) :
    rlsAdaptNd d x o = (.error .zeroDivisionError, o) := by
  obtain ⟨y, hy, hl, hy1, -⟩ := vec_dot (isVec_vec o.w) hx
  have he : d.zip (· - ·) y = .ok _ := zip_ok (by rw [hy1, bshape_nil'])
  obtain ⟨xx, h1, hxx⟩ := outer_zip hx
  obtain ⟨a, h2, ha⟩ := mat_matmul hR hxx
  obtain ⟨R1, h3, hR1⟩ := mat_matmul ha hR
  obtain ⟨b, h4, hb⟩ := vec_mat_dot hx hR
  obtain ⟨c, h5, -, hc1, hc2⟩ := vec_dot hb (transpose_vec hx)
  have hne : ¬ x.shape = [] := by rw [hx.1]; simp
  have hr : ∀ e, rlsRuleNd e x o = (.error .zeroDivisionError, o) := by
    intro e
    unfold rlsRuleNd
    rw [M.get_bind, if_neg hne, h1, M.lift_ok_bind, h2, M.lift_ok_bind, h3, M.lift_ok_bind, h4, M.lift_ok_bind, h5, M.lift_ok_bind, if_pos hm]; rfl
  unfold rlsAdaptNd
  simp only [M.get_bind, hy, he, M.lift_ok_bind]
  exact M.bind_error (hr _)

/-- C151: a number as input raises `TypeError`, without any effect. -/
theorem C151_number [Scalar K] (o : RlsObj K n) {d x : Arr K} (hx : x.shape = []) (hd : d.shape = [] ∨ d.shape = [1] ∨ d.shape = [n]) :
    rlsAdaptNd d x o = (.error .typeError, o) := by
  have hy : (Arr.vec o.w).dot x = .ok _ := (dot_num (.inr hx)).trans (zip_ok (s := [n]) (by rw [hx, bshape_nil']; rfl))
  obtain ⟨e, he, -⟩ := bshape_lane (n := n) hd (.inr (.inr rfl) : [n] = [] ∨ _)
  have he' : d.zip (· - ·) ⟨[n], fun idx => (Arr.vec o.w).entry (bidx (Arr.vec o.w).shape idx) * x.entry (bidx x.shape idx)⟩ = .ok _ := zip_ok he
  have hr : ∀ e, rlsRuleNd e x o = (.error .typeError, o) := by
    intro e; unfold rlsRuleNd; rw [M.get_bind, if_pos hx]; rfl
  unfold rlsAdaptNd
  simp only [M.get_bind, hy, he', M.lift_ok_bind]
  exact M.bind_error (hr _)

/-! ## the matrix with more than two axes -/

theorem axes_matmul [Scalar K] (a b : Arr K) :
    (∃ c, a.matmul b = .ok c ∧ a.shape.length ≤ c.shape.length ∧ b.shape.length ≤ c.shape.length) ∨ a.matmul b = .error .valueError := by
  unfold Arr.matmul
  split
  · rename_i m r sa c m' sb h1 h2
    split
    · cases hb : bshape sa.reverse sb.reverse with
      | error e => rw [bshape_error hb]; exact .inr rfl
      | ok s =>
        refine .inl ⟨_, rfl, ?_, ?_⟩
        · have := bshape_length hb
          have h3 := congrArg List.length h1
          simp at h3 this ⊢; omega
        · have := bshape_length hb
          have h3 := congrArg List.length h2
          simp at h3 this ⊢; omega
    · exact .inr rfl
  · exact .inr rfl

theorem axes_dot [Scalar K] (a b : Arr K) (ha : a.shape ≠ []) (hb : b.shape ≠ []) :
    (∃ c, a.dot b = .ok c ∧ c.shape.length + 2 = a.shape.length + b.shape.length) ∨ a.dot b = .error .valueError := by
  unfold Arr.dot
  split
  · rename_i h; exact absurd (by simpa using h) ha
  · rename_i h _; exact absurd (by simpa using h) hb
  · rename_i m sa m' h1 h2
    split
    · refine .inl ⟨_, rfl, ?_⟩
      have h3 := congrArg List.length h1; have h4 := congrArg List.length h2
      simp at h3 h4 ⊢; omega
    · exact .inr rfl
  · rename_i m sa c m' sb h1 h2
    split
    · refine .inl ⟨_, rfl, ?_⟩
      have h3 := congrArg List.length h1; have h4 := congrArg List.length h2
      simp at h3 h4 ⊢; omega
    · exact .inr rfl

/-- The rule with a matrix with at least three axes, or with an input with at least two: an exception, or an increment with at least two axes; the weights stay; the matrix stays
(only with an exception) or has at least three axes. -/
theorem rlsRule_big [Scalar K] (o : RlsObj K n) (hR : 2 ≤ o.R.shape.length) (e x : Arr K) (h : 3 ≤ o.R.shape.length ∨ 2 ≤ x.shape.length) :
    ∃ r R, rlsRuleNd e x o = (r, { o with R := R }) ∧ ((R = o.R ∧ ∃ err, r = .error err) ∨ 3 ≤ R.shape.length) ∧
      ((∃ dw, r = .ok dw ∧ 2 ≤ dw.shape.length) ∨ ∃ err, r = .error err ∧ (Scalar.eqz o.mu = false → x.shape ≠ [] → err = .valueError)) := by
  have stay : ∀ err : Err, (Scalar.eqz o.mu = false → x.shape ≠ [] → err = .valueError) → rlsRuleNd e x o = (.error err, o) →
      ∃ r R, rlsRuleNd e x o = (r, { o with R := R }) ∧ ((R = o.R ∧ ∃ err, r = .error err) ∨ 3 ≤ R.shape.length) ∧
      ((∃ dw, r = .ok dw ∧ 2 ≤ dw.shape.length) ∨ ∃ err, r = .error err ∧ (Scalar.eqz o.mu = false → x.shape ≠ [] → err = .valueError)) :=
    fun err h1 h2 => ⟨_, o.R, h2, .inl ⟨rfl, err, rfl⟩, .inr ⟨err, rfl, h1⟩⟩
  by_cases hx : x.shape = []
  · refine stay .typeError (fun _ h => absurd hx h) ?_
    unfold rlsRuleNd; rw [M.get_bind, if_pos hx]; rfl
  have hxl : 1 ≤ x.shape.length := by
    rcases hs : x.shape with _ | ⟨m, t⟩
    · exact absurd hs hx
    · simp
  have hT : x.transpose.shape.length = x.shape.length := by unfold Arr.transpose; simp
  have hT0 : x.transpose.shape ≠ [] := by
    intro h0; rw [h0] at hT; simp at hT; omega
  have hR0 : o.R.shape ≠ [] := by intro h0; rw [h0] at hR; simp at hR
  have h2 : (∃ xx, x.newSecond.zip (· * ·) x.newFirst = .ok xx ∧ x.shape.length + 1 ≤ xx.shape.length) ∨ x.newSecond.zip (· * ·) x.newFirst = .error .valueError := by
    rcases axes_zip (· * ·) x.newSecond x.newFirst with ⟨xx, h1, h2⟩ | h1
    · refine .inl ⟨xx, h1, ?_⟩
      rw [h2]
      have : x.newFirst.shape.length = x.shape.length + 1 := by unfold Arr.newFirst; simp
      omega
    · exact .inr h1
  unfold rlsRuleNd at *
  simp only [M.get_bind, if_neg hx] at *
  rcases h2 with ⟨xx, h2, hxx⟩ | h2
  swap
  · exact stay .valueError (fun _ _ => rfl) (by rw [h2]; rfl)
  rcases axes_matmul o.R xx with ⟨a, h3, ha1, ha2⟩ | h3
  swap
  · exact stay .valueError (fun _ _ => rfl) (by rw [h2, M.lift_ok_bind, h3]; rfl)
  rcases axes_matmul a o.R with ⟨R1, h4, hb1, hb2⟩ | h4
  swap
  · exact stay .valueError (fun _ _ => rfl) (by rw [h2, M.lift_ok_bind, h3, M.lift_ok_bind, h4]; rfl)
  rcases axes_dot x o.R hx hR0 with ⟨b, h5, hb⟩ | h5
  swap
  · exact stay .valueError (fun _ _ => rfl) (by rw [h2, M.lift_ok_bind, h3, M.lift_ok_bind, h4, M.lift_ok_bind, h5]; rfl)
  rcases any_dot b x.transpose with ⟨c, h6, -⟩ | h6
  swap
  · exact stay .valueError (fun _ _ => rfl) (by rw [h2, M.lift_ok_bind, h3, M.lift_ok_bind, h4, M.lift_ok_bind, h5, M.lift_ok_bind, h6]; rfl)
  by_cases hm : Scalar.eqz o.mu = true
  · exact stay .zeroDivisionError (fun h0 => by rw [hm] at h0; cases h0)
      (by rw [h2, M.lift_ok_bind, h3, M.lift_ok_bind, h4, M.lift_ok_bind, h5, M.lift_ok_bind, h6, M.lift_ok_bind, if_pos hm]; rfl)
  rcases axes_zip (· / ·) R1 (c.map (o.mu + ·)) with ⟨q, h7, hq⟩ | h7
  swap
  · exact stay .valueError (fun _ _ => rfl)
      (by rw [h2, M.lift_ok_bind, h3, M.lift_ok_bind, h4, M.lift_ok_bind, h5, M.lift_ok_bind, h6, M.lift_ok_bind, if_neg hm, h7]; rfl)
  rcases axes_zip (· - ·) o.R q with ⟨D, h8, hD⟩ | h8
  swap
  · exact stay .valueError (fun _ _ => rfl)
      (by rw [h2, M.lift_ok_bind, h3, M.lift_ok_bind, h4, M.lift_ok_bind, h5, M.lift_ok_bind, h6, M.lift_ok_bind, if_neg hm, h7, M.lift_ok_bind, h8]; rfl)
  have hl : 3 ≤ (D.map (1 / o.mu * ·)).shape.length := by
    show 3 ≤ D.shape.length
    rcases h with h | h <;> omega
  have hne : (D.map (1 / o.mu * ·)).shape ≠ [] := by intro h0; rw [h0] at hl; simp at hl
  refine ⟨(((D.map (1 / o.mu * ·)).dot x.transpose).bind fun g => g.zip (· * ·) e), D.map (1 / o.mu * ·), ?_, .inr hl, ?_⟩
  · rw [h2, M.lift_ok_bind, h3, M.lift_ok_bind, h4, M.lift_ok_bind, h5, M.lift_ok_bind, h6, M.lift_ok_bind, if_neg hm, h7, M.lift_ok_bind, h8, M.lift_ok_bind, M.modify_bind]
    rcases axes_dot _ x.transpose hne hT0 with ⟨g, h9, -⟩ | h9
    · rw [h9]; rfl
    · rw [h9]; rfl
  · rcases axes_dot _ x.transpose hne hT0 with ⟨g, h9, hg⟩ | h9
    · rw [h9]
      show (∃ dw, g.zip (· * ·) e = .ok dw ∧ _) ∨ ∃ err, g.zip (· * ·) e = .error err ∧ _
      rcases axes_zip (· * ·) g e with ⟨dw, h10, hdw⟩ | h10
      · exact .inl ⟨dw, h10, by omega⟩
      · exact .inr ⟨_, h10, fun _ _ => rfl⟩
    · rw [h9]; exact .inr ⟨_, rfl, fun _ _ => rfl⟩

theorem rlsAdapt_big [Scalar K] (o : RlsObj K n) (hR : 2 ≤ o.R.shape.length) (d x : Arr K) (h : 3 ≤ o.R.shape.length ∨ 2 ≤ x.shape.length) :
    ∃ err R, rlsAdaptNd d x o = (.error err, { o with R := R }) ∧ (R = o.R ∨ 3 ≤ R.shape.length) ∧
      (Scalar.eqz o.mu = false → x.shape ≠ [] → err = .valueError) := by
  unfold rlsAdaptNd
  rw [M.get_bind]
  rcases any_dot (Arr.vec o.w) x with ⟨y, h1, -⟩ | h1
  swap
  · exact ⟨.valueError, o.R, by rw [h1]; rfl, .inl rfl, fun _ _ => rfl⟩
  rcases any_zip (· - ·) d y with ⟨e, h2, -⟩ | h2
  swap
  · exact ⟨.valueError, o.R, by rw [h1, M.lift_ok_bind, h2]; rfl, .inl rfl, fun _ _ => rfl⟩
  obtain ⟨r, R, h3, h4, h5⟩ := rlsRule_big o hR e x h
  have h4' : R = o.R ∨ 3 ≤ R.shape.length := h4.imp_left (·.1)
  rcases h5 with ⟨dw, rfl, h5⟩ | ⟨err, rfl, h5⟩
  · refine ⟨.valueError, R, ?_, h4', fun _ _ => rfl⟩
    rw [h1, M.lift_ok_bind, h2, M.lift_ok_bind]
    refine (M.bind_ok h3).trans ?_
    rw [axes_iadd _ h5]; rfl
  · refine ⟨err, R, ?_, h4', h5⟩
    rw [h1, M.lift_ok_bind, h2, M.lift_ok_bind]
    exact M.bind_error h3

/-- C151: an input with two or more axes raises an exception (`ValueError`, if the forgetting factor is not 0) and the weights stay; the matrix stays too or gets a third axis. -/
theorem C151_bad_input [Scalar K] (o : RlsObj K n) {A : Mat K n n} (hR : IsMat o.R A) (d : Arr K) {x : Arr K} (hx : 2 ≤ x.shape.length) :
    ∃ err R, rlsAdaptNd d x o = (.error err, { o with R := R }) ∧ (R = o.R ∨ 3 ≤ R.shape.length) ∧ (Scalar.eqz o.mu = false → err = .valueError) := by
  obtain ⟨err, R, h1, h2, h3⟩ := rlsAdapt_big o (by rw [hR.1]; simp) d x (.inr hx)
  exact ⟨err, R, h1, h2, fun h => h3 h (by intro h0; rw [h0] at hx; simp at hx)⟩

/-- C151: a vector of the wrong length raises `ValueError` and nothing changes. -/
theorem C151_wrong_length [Scalar K] (o : RlsObj K n) (d : Arr K) {x : Arr K} {m : Nat} (hx : x.shape = [m]) (hm : m ≠ n) :
    rlsAdaptNd d x o = (.error .valueError, o) := by
  have h : (Arr.vec o.w).dot x = .error .valueError := by
    rw [dot_vec (m := n) rfl hx, if_neg (Ne.symm hm)]
  unfold rlsAdaptNd
  rw [M.get_bind, h]; rfl

/-- C151: once the matrix has three or more axes, every sequence of `adapt` calls, whatever the arguments, leaves the weights as they are; each of them raises. -/
theorem C151_forever [Scalar K] (o : RlsObj K n) (hR : 3 ≤ o.R.shape.length) (S : List (Arr K × Arr K)) :
    (rlsAdaptsNd S o).w = o.w ∧ (rlsAdaptsNd S o).mu = o.mu ∧ 3 ≤ (rlsAdaptsNd S o).R.shape.length ∧
      ∀ d x, ∃ err, (rlsAdaptNd d x (rlsAdaptsNd S o)).1 = .error err ∧ (Scalar.eqz o.mu = false → x.shape ≠ [] → err = .valueError) := by
  have step : ∀ (o : RlsObj K n) (d x : Arr K), 3 ≤ o.R.shape.length → ∃ err R, rlsAdaptNd d x o = (.error err, { o with R := R }) ∧ 3 ≤ R.shape.length ∧
      (Scalar.eqz o.mu = false → x.shape ≠ [] → err = .valueError) := by
    intro o d x h
    obtain ⟨err, R, h1, h2, h3⟩ := rlsAdapt_big o (by omega) d x (.inl h)
    exact ⟨err, R, h1, by rcases h2 with rfl | h2 <;> assumption, h3⟩
  have hS : (rlsAdaptsNd S o).w = o.w ∧ (rlsAdaptsNd S o).mu = o.mu ∧ 3 ≤ (rlsAdaptsNd S o).R.shape.length := by
    induction S generalizing o with
    | nil => exact ⟨rfl, rfl, hR⟩
    | cons p S ih =>
      obtain ⟨err, R, h1, h2, -⟩ := step o p.1 p.2 hR
      have h3 : rlsAdaptsNd (p :: S) o = rlsAdaptsNd S { o with R := R } := by
        show rlsAdaptsNd S (rlsAdaptNd p.1 p.2 o).2 = _
        rw [h1]
      rw [h3]
      exact ih { o with R := R } h2
  refine ⟨hS.1, hS.2.1, hS.2.2, fun d x => ?_⟩
  obtain ⟨err, R, h1, -, h3⟩ := step (rlsAdaptsNd S o) d x hS.2.2
  exact ⟨err, by rw [h1], fun h => h3 (by rw [hS.2.1]; exact h)⟩

theorem matmul_shape [Scalar K] {a b : Arr K} {m r c : Nat} {sa sb s : List Nat} (ha : a.shape.reverse = m :: r :: sa) (hb : b.shape.reverse = c :: m :: sb)
    (hs : bshape sa.reverse sb.reverse = .ok s) : ∃ x, a.matmul b = .ok x ∧ x.shape = s ++ [r, c] := by
  have h : ∃ f, a.matmul b = .ok ⟨s ++ [r, c], f⟩ := by
    unfold Arr.matmul
    rw [ha, hb]
    show ∃ f, (if m = m then _ else _) = _
    rw [if_pos rfl, hs]
    exact ⟨_, rfl⟩
  obtain ⟨f, hf⟩ := h
  exact ⟨_, hf, rfl⟩

theorem dot_shape [Scalar K] {a b : Arr K} {m c : Nat} {sa sb : List Nat} (ha : a.shape.reverse = m :: sa) (hb : b.shape.reverse = c :: m :: sb) :
    ∃ x, a.dot b = .ok x ∧ x.shape = sa.reverse ++ sb.reverse ++ [c] := by
  have h : ∃ f, a.dot b = .ok ⟨sa.reverse ++ sb.reverse ++ [c], f⟩ := by
    unfold Arr.dot
    rw [ha, hb]
    show ∃ f, (if m = m then _ else _) = _
    rw [if_pos rfl]
    exact ⟨_, rfl⟩
  obtain ⟨f, hf⟩ := h
  exact ⟨_, hf, rfl⟩

/-- C151: a square table with the side of the filter size as input, with a target that can be subtracted from (a number, one value, one value per column): `ValueError`, and the
matrix now has three axes. -/
theorem C151_breaks [Scalar K] (o : RlsObj K n) (hm : Scalar.eqz o.mu = false) {A : Mat K n n} (hR : IsMat o.R A) {d x : Arr K} (hx : x.shape = [n, n])
    (hd : d.shape = [] ∨ d.shape = [1] ∨ d.shape = [n]) :
    ∃ R, rlsAdaptNd d x o = (.error .valueError, { o with R := R }) ∧ R.shape = [n, n, n] := by
  have hrev : ∀ l : List Nat, l = [n, n] → bshapeRev [n, n, n] l = .ok [n, n, n] := by
    rintro l rfl
    unfold bshapeRev; rw [if_pos (.inl rfl)]
    unfold bshapeRev; rw [if_pos (.inl rfl)]; rfl
  have hrev' : bshapeRev [n, n] [n, n, n] = .ok [n, n, n] := by
    unfold bshapeRev; rw [if_pos (.inl rfl)]
    unfold bshapeRev; rw [if_pos (.inl rfl)]; rfl
  have hxx : bshape x.newSecond.shape x.newFirst.shape = .ok [n, n, n] := by
    unfold Arr.newSecond Arr.newFirst
    rw [hx]
    show Except.map _ (bshapeRev [n, 1, n] [n, n, 1]) = _
    unfold bshapeRev; rw [if_pos (.inl rfl)]
    unfold bshapeRev
    by_cases h1 : n = 1
    · subst h1; rfl
    · rw [if_neg (by omega), if_pos rfl]
      unfold bshapeRev; rw [if_pos (.inr rfl)]; rfl
  have mm1 : ∀ a b : Arr K, a.shape = [n, n] → b.shape = [n, n, n] → ∃ c, a.matmul b = .ok c ∧ c.shape = [n, n, n] := fun a b ha hb =>
    matmul_shape (sa := []) (sb := [n]) (s := [n]) (by rw [ha]; rfl) (by rw [hb]; rfl) rfl
  have mm2 : ∀ a b : Arr K, a.shape = [n, n, n] → b.shape = [n, n] → ∃ c, a.matmul b = .ok c ∧ c.shape = [n, n, n] := fun a b ha hb =>
    matmul_shape (sa := [n]) (sb := []) (s := [n]) (by rw [ha]; rfl) (by rw [hb]; rfl) rfl
  have dd : ∀ a b : Arr K, a.shape = [n, n] → b.shape = [n, n] → ∃ c, a.dot b = .ok c ∧ c.shape = [n, n] := fun a b ha hb =>
    dot_shape (sa := [n]) (sb := []) (by rw [ha]; rfl) (by rw [hb]; rfl)
  have h1 := zip_ok (f := fun x1 x2 : K => x1 * x2) hxx
  obtain ⟨a, h2, ha⟩ := mm1 o.R _ hR.1 (rfl : (⟨[n, n, n], fun idx => x.newSecond.entry (bidx x.newSecond.shape idx) * x.newFirst.entry (bidx x.newFirst.shape idx)⟩ : Arr K).shape = _)
  obtain ⟨R1, h3, hR1⟩ := mm2 a o.R ha hR.1
  obtain ⟨b, h4, hb⟩ := dd x o.R hx hR.1
  have hT : x.transpose.shape = [n, n] := by unfold Arr.transpose; rw [hx]; rfl
  obtain ⟨c, h5, hc⟩ := dd b x.transpose hb hT
  have hq1 : bshape R1.shape (c.map (o.mu + ·)).shape = .ok [n, n, n] := by
    show bshape R1.shape c.shape = _
    rw [hR1, hc]
    show Except.map _ (bshapeRev [n, n, n] [n, n]) = _
    rw [hrev _ rfl]; rfl
  have h6 := zip_ok (f := fun x1 x2 : K => x1 / x2) hq1
  generalize hq : (⟨[n, n, n], fun idx => R1.entry (bidx R1.shape idx) / (c.map (o.mu + ·)).entry (bidx (c.map (o.mu + ·)).shape idx)⟩ : Arr K) = q at h6
  have hqs : q.shape = [n, n, n] := by rw [← hq]
  have hD1 : bshape o.R.shape q.shape = .ok [n, n, n] := by
    rw [hR.1, hqs]
    show Except.map _ (bshapeRev [n, n] [n, n, n]) = _
    rw [hrev']; rfl
  have h7 := zip_ok (f := fun x1 x2 : K => x1 - x2) hD1
  generalize hD : (⟨[n, n, n], fun idx => o.R.entry (bidx o.R.shape idx) - q.entry (bidx q.shape idx)⟩ : Arr K) = D at h7
  have hDs : (D.map (1 / o.mu * ·)).shape = [n, n, n] := by rw [← hD]; rfl
  have hne : ¬ x.shape = [] := by rw [hx]; simp
  have hrule : ∀ e : Arr K, rlsRuleNd e x o = ((((D.map (1 / o.mu * ·)).dot x.transpose).bind fun g => g.zip (· * ·) e), { o with R := D.map (1 / o.mu * ·) }) := by
    intro e
    unfold rlsRuleNd
    rw [M.get_bind, if_neg hne, h1, M.lift_ok_bind, h2, M.lift_ok_bind, h3, M.lift_ok_bind, h4, M.lift_ok_bind, h5, M.lift_ok_bind, if_neg (by rw [hm]; simp),
      h6, M.lift_ok_bind, h7, M.lift_ok_bind, M.modify_bind]
    rcases any_dot (D.map (1 / o.mu * ·)) x.transpose with ⟨g, h9, -⟩ | h9
    · rw [h9]; rfl
    · rw [h9]; rfl
  -- the call reaches the rule
  obtain ⟨y, hy, hys⟩ : ∃ y, (Arr.vec o.w).dot x = .ok y ∧ y.shape = [n] := by
    have h := dot_big (a := Arr.vec o.w) (sb := []) rfl hx
    rw [if_pos rfl] at h
    exact ⟨_, h, rfl⟩
  obtain ⟨e, he, -⟩ := bshape_lane (n := n) hd (.inr (.inr hys) : y.shape = [] ∨ _)
  have he' := zip_ok (f := fun x1 x2 : K => x1 - x2) he
  refine ⟨D.map (1 / o.mu * ·), ?_, hDs⟩
  unfold rlsAdaptNd
  rw [M.get_bind, hy, M.lift_ok_bind, he', M.lift_ok_bind]
  have hT0 : x.transpose.shape ≠ [] := by rw [hT]; simp
  have hne' : (D.map (1 / o.mu * ·)).shape ≠ [] := by rw [hDs]; simp
  generalize (⟨e, fun idx => d.entry (bidx d.shape idx) - y.entry (bidx y.shape idx)⟩ : Arr K) = e at *
  rcases axes_dot _ x.transpose hne' hT0 with ⟨g, h9, hg⟩ | h9
  · rcases axes_zip (· * ·) g e with ⟨dw, h10, hdw⟩ | h10
    · have hr : rlsRuleNd e x o = (.ok dw, { o with R := D.map (1 / o.mu * ·) }) := by
        rw [hrule, h9]; show (g.zip (· * ·) e, _) = _; rw [h10]
      refine (M.bind_ok hr).trans ?_
      rw [axes_iadd _ (by rw [hDs, hT] at hg; simp at hg; omega)]; rfl
    · have hr : rlsRuleNd e x o = (.error .valueError, { o with R := D.map (1 / o.mu * ·) }) := by
        rw [hrule, h9]; show (g.zip (· * ·) e, _) = _; rw [h10]
      exact M.bind_error hr
  · have hr : rlsRuleNd e x o = (.error .valueError, { o with R := D.map (1 / o.mu * ·) }) := by
      rw [hrule, h9]; rfl
    exact M.bind_error hr

/-! ## the same filter as with numbers -/

/-- `m` and `o` are the same RLS filter -/
def RlsRep [Scalar K] (m : RlsObj K n) (o : Obj (rls K n)) : Prop :=
  let q : RlsExt K n := o.core.ext
  m.w = o.core.w ∧ m.mu = o.core.mu ∧ IsMat m.R q.R

theorem C151_step [Scalar K] {m : RlsObj K n} {o : Obj (rls K n)} (h : RlsRep m o) (hmu : Scalar.eqz o.core.mu = false) {d x : Arr K} {δ : K} {v : Vec K n}
    (hx : IsVec x v) (hd : One d δ) :
    ∃ m' o', rlsAdaptNd d x m = (.ok (), m') ∧ adapt (rls K n) δ (List.ofFn v) o = (.ok (), o') ∧ RlsRep m' o' ∧ o'.core.mu = o.core.mu := by
  obtain ⟨h1, h2, h3⟩ := h
  obtain ⟨R, hR, hr⟩ := C151_accepted m (by rw [h2]; exact hmu) h3 hx (hd.lane (n := n))
  have hrule : rlsRule (δ - dot o.core.w v) (List.ofFn v) o.core = (.ok (fun i => matVec (rlsR o.core.mu (show RlsExt K n from o.core.ext).R v) v i * (δ - dot o.core.w v)),
      { (show Core K n (RlsExt K n) from o.core) with ext := { (show RlsExt K n from o.core.ext) with R := rlsR o.core.mu (show RlsExt K n from o.core.ext).R v } }) := by
    unfold rlsRule
    rw [asVec_ofFn]
    show (if Scalar.eqz o.core.mu then _ else _ : M _ _) _ = _
    rw [if_neg (by rw [hmu]; simp)]
    rfl
  have ha := mk_adapt' (X := RlsExt K n) rlsRule δ v _ o _ hrule
  refine ⟨_, _, hr, ha, ⟨?_, h2, ?_⟩, rfl⟩
  · show (fun i => m.w i + _) = fun i => o.core.w i + _
    rw [h1, h2]
  · show IsMat R (rlsR o.core.mu (show RlsExt K n from o.core.ext).R v)
    rw [← h2]; exact hR

/-- C151: a sequence of samples whose targets are numbers or arrays of one value: the filter is the one that gets the numbers. -/
theorem C151_same_as_numbers [Scalar K] {m : RlsObj K n} {o : Obj (rls K n)} (h : RlsRep m o) (hmu : Scalar.eqz o.core.mu = false) (S : List (Arr K × Arr K)) (T : List (K × Vec K n))
    (hST : List.Forall₂ (fun p t => One p.1 t.1 ∧ IsVec p.2 t.2) S T) :
    RlsRep (rlsAdaptsNd S m) (T.foldl (fun o t => (adapt (rls K n) t.1 (List.ofFn t.2) o).2) o) := by
  induction hST generalizing m o with
  | nil => exact h
  | cons hp hST ih =>
    obtain ⟨m', o', h1, h2, h3, h4⟩ := C151_step h hmu hp.2 hp.1
    have := ih h3 (by rw [h4]; exact hmu)
    simp only [rlsAdaptsNd, List.foldl_cons, h1, h2] at this ⊢
    exact this

/-! ## concrete cases -/

/-- `FilterRLS(2, mu=1, eps=1, w="zeros")` -/
def rls2 : RlsObj ℚ 2 := ⟨![0, 0], 1, Arr.table ![![1, 0], ![0, 1]]⟩

-- it is healthy, and is the filter with numbers
example : IsMat rls2.R ![![1, 0], ![0, 1]] ∧ Scalar.eqz rls2.mu = false ∧
    RlsRep rls2 (⟨⟨![0, 0], 2, 1, (⟨1, ![![1, 0], ![0, 1]]⟩ : RlsExt ℚ 2)⟩, []⟩ : Obj (rls ℚ 2)) := by
  have h : IsMat rls2.R ![![1, 0], ![0, 1]] := ⟨rfl, fun i j => by fin_cases i <;> fin_cases j <;> rfl⟩
  exact ⟨h, rfl, rfl, rfl, h⟩

-- a sample with one value per weight, one with a wrong target, one with a table; then a documented sample: only the first changes the weights
example : (rlsAdaptNd (Arr.vec ![1, 2]) (Arr.vec ![1, 1]) rls2).1 = .ok () ∧
    (rlsAdaptNd (Arr.vec ![1, 2, 3]) (Arr.vec ![1, 1]) rls2).1 = .error .valueError ∧
    (rlsAdaptNd (Arr.vec ![1, 2, 3]) (Arr.vec ![1, 1]) rls2).2.R.entry [0, 0] = 2 / 3 ∧
    (rlsAdaptNd (Arr.num 1) (Arr.table ![![1, 2], ![3, 4]]) rls2).1 = .error .valueError ∧
    (rlsAdaptNd (Arr.num 1) (Arr.table ![![1, 2], ![3, 4]]) rls2).2.R.shape = [2, 2, 2] ∧
    (rlsAdaptNd (Arr.num 1) (Arr.vec ![1, 1]) (rlsAdaptNd (Arr.num 1) (Arr.table ![![1, 2], ![3, 4]]) rls2).2).1 = .error .valueError := by decide +kernel

end Padasip
