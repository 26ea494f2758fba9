import Verif.Lemmas.Runs

/-!
# Maps between filters that commute with processing a sample

If a map of states commutes with the loop body of `run`, it commutes with `run` and with `filter_data`.
-/

set_option linter.unusedSectionVars false
set_option linter.unusedSimpArgs false

namespace Padasip

section
variable {K : Type} [Scalar K] {n : ℕ}

/-- The maps on data, outputs, weights and states commute with one iteration of the loop of `run`. -/
structure BodyHom (C C' : FilterClass K n) (P : Core K n C.Ext → Prop)
    (f : Core K n C.Ext → Core K n C'.Ext) (gd gy : K → K) (gx gw : Vec K n → Vec K n) : Prop where
  dSurj : ∀ d, ∃ d', gd d' = d
  xSurj : ∀ x, ∃ x', gx x' = x
  withN : ∀ s m, f (s.withN m) = (f s).withN m
  pWithN : ∀ s m, P s → P (s.withN m)
  nAttr : ∀ s, (f s).nAttr = s.nAttr
  w : ∀ s, (f s).w = gw s.w
  body : ∀ s, P s → s.nAttr = n → ∀ (d : K) (x : Vec K n), ∃ y e s',
    C.body d (List.ofFn x) s = (.ok (y, e), s') ∧ P s' ∧ s'.nAttr = n ∧
    C'.body (gd d) (List.ofFn (gx x)) (f s) = (.ok (gy y, gy e), f s')

theorem BodyHom.safe {C C' : FilterClass K n} {P : Core K n C.Ext → Prop}
    {f : Core K n C.Ext → Core K n C'.Ext} {gd gy : K → K} {gx gw : Vec K n → Vec K n}
    (h : BodyHom C C' P f gd gy gx gw) : Safe C P := fun s hs hn d x => by
  obtain ⟨y, e, s', h1, h2, h3, -⟩ := h.body s hs hn d x
  exact ⟨_, _, h1, h2, h3⟩

theorem BodyHom.traj {C C' : FilterClass K n} {P : Core K n C.Ext → Prop}
    {f : Core K n C.Ext → Core K n C'.Ext} {gd gy : K → K} {gx gw : Vec K n → Vec K n}
    (h : BodyHom C C' P f gd gy gx gw) (s : Core K n C.Ext) (hs : P s) (hn : s.nAttr = n) (d : ℕ → K)
    (x : ℕ → Vec K n) (k : ℕ) :
    Padasip.traj C' (f s) (fun k => gd (d k)) (fun k => gx (x k)) k = f (Padasip.traj C s d x k) ∧
    outAt C' (f s) (fun k => gd (d k)) (fun k => gx (x k)) k
      = (gy (outAt C s d x k).1, gy (outAt C s d x k).2) := by
  have h1 : Padasip.traj C' (f s) (fun k => gd (d k)) (fun k => gx (x k)) k
      = f (Padasip.traj C s d x k) := by
    induction k with
    | zero => rfl
    | succ k ih =>
      obtain ⟨a, b⟩ := traj_safe h.safe hs hn d x k
      obtain ⟨y, e, s', h1, h2, h3, h4⟩ := h.body _ a b (d k) (x k)
      simp only [Padasip.traj]
      rw [ih, h4, h1]
  refine ⟨h1, ?_⟩
  obtain ⟨a, b⟩ := traj_safe h.safe hs hn d x k
  obtain ⟨y, e, s', h2, -, -, h4⟩ := h.body _ a b (d k) (x k)
  simp only [outAt]
  rw [h1, h4, h2]

/-- The second class is safe on the image. -/
theorem BodyHom.safe' {C C' : FilterClass K n} {P : Core K n C.Ext → Prop}
    {f : Core K n C.Ext → Core K n C'.Ext} {gd gy : K → K} {gx gw : Vec K n → Vec K n}
    (h : BodyHom C C' P f gd gy gx gw) :
    Safe C' fun s' => ∃ s, P s ∧ s.nAttr = n ∧ s' = f s := by
  rintro _ ⟨s, hs, hn, rfl⟩ - d x
  obtain ⟨d, rfl⟩ := h.dSurj d
  obtain ⟨x, rfl⟩ := h.xSurj x
  obtain ⟨y, e, s', h1, h2, h3, h4⟩ := h.body s hs hn d x
  exact ⟨_, _, h4, ⟨s', h2, h3, rfl⟩, by rw [h.nAttr]; exact h3⟩

theorem BodyHom.run {C C' : FilterClass K n} {P : Core K n C.Ext → Prop}
    {f : Core K n C.Ext → Core K n C'.Ext} {gd gy : K → K} {gx gw : Vec K n → Vec K n}
    (h : BodyHom C C' P f gd gy gx gw) (o : Obj C) (ho : P o.core) (H' : List (List K)) (d : List K)
    (x : List (List K)) (hx : ∀ r ∈ x, r.length = n) (gxl gwl : List K → List K)
    (hgx : ∀ v, gxl (List.ofFn v) = List.ofFn (gx v)) (hgw : ∀ v, gwl (List.ofFn v) = List.ofFn (gw v)) :
    (Padasip.run C' (d.map gd) (x.map gxl) ⟨f o.core, H'⟩).1
      = (Padasip.run C d x o).1.map fun r =>
        (r.1.map gy, r.2.1.map gy, r.2.2.map gwl) := by
  by_cases hl : d.length = x.length
  swap
  · have e1 : Padasip.run C d x o = (.error .valueError, o) := by
      unfold Padasip.run; rw [if_pos hl]; rfl
    have e2 : Padasip.run C' (d.map gd) (x.map gxl) ⟨f o.core, H'⟩
        = (.error .valueError, ⟨f o.core, H'⟩) := by
      unfold Padasip.run; rw [if_pos (by simpa using hl)]; rfl
    rw [e1, e2]; rfl
  by_cases he : x = []
  · subst he
    obtain rfl : d = [] := by simpa using hl
    rfl
  have hN : 0 < x.length := List.length_pos_iff.mpr he
  obtain ⟨ds, xs, h1, h2⟩ := exists_stream x hx d hl 0
  have hs0 : P (o.core.withN n) := h.pWithN _ _ ho
  have r1 := run_traj h.safe o hs0 ds xs x.length hN
  rw [← h1, ← h2] at r1
  have r2 := run_traj h.safe' ⟨f o.core, H'⟩ ⟨o.core.withN n, hs0, rfl, (h.withN _ _).symm⟩
    (fun k => gd (ds k)) (fun k => gx (xs k)) x.length hN
  have hd' : d.map gd = series (fun k => gd (ds k)) x.length := by
    conv_lhs => rw [h1]
    simp [series]
  have hx' : x.map gxl = rows (fun k => gx (xs k)) x.length := by
    conv_lhs => rw [h2]
    simp [rows, hgx]
  have ht := fun k => h.traj (o.core.withN n) hs0 rfl ds xs k
  rw [hd', hx', r2, r1]
  simp only [Except.map, wAt, ← h.withN, (ht _).1, (ht _).2, h.w]
  simp [series, hgw]

end

section
variable {K : Type} [Transc K] {n : ℕ}

/-- a new object of class `t` with weights `w`, run once -/
def runNew (env : Env K) (n : ℕ) (t : Tag) (kw : Kwargs K) (mu : K) (w : Vec K n) (d : List K)
    (x : List (List K)) : Except Err (List K × List K × List (List K)) :=
  match initExt env n t kw mu w with
  | .error e => .error e
  | .ok f => (Padasip.run (classOf env.solve f.kind) d x f.obj).1

theorem initExt_kw (env : Env K) (t : Tag) (kw : Kwargs K) (mu : K) (w : Vec K n) (m : Option ℕ)
    (v : Option (WArg K)) :
    initExt env n t { kw with n := m, w := v } mu w = initExt env n t kw mu w := by
  cases t <;> rfl

theorem construct_arr (env : Env K) (t : Tag) (kw : Kwargs K) (w : Vec K n) :
    construct env t { kw with n := some n, w := some (.arr (List.ofFn w)) }
      = if badKeyword t kw then .error .typeError
        else match kw.mu <|> defaultMu t with
          | some mu => initExt env n t kw mu w
          | none => .error .typeError := by
  unfold construct
  have h1 : badKeyword t { kw with n := some n, w := some (.arr (List.ofFn w)) } = badKeyword t kw := rfl
  rw [h1]
  by_cases hb : badKeyword t kw = true
  · rw [if_pos hb, if_pos hb]
  · rw [if_neg hb, if_neg hb]
    simp only
    cases (kw.mu <|> defaultMu t) with
    | none => rfl
    | some mu =>
      have : (initWeights env.rand 0 (Option.getD (some (WArg.arr (List.ofFn w))) (.str "random")) (n : Int)).bind
          (asVec n) = .ok w := by
        have h : ¬ ((n : Int) = -1) := by omega
        simp [initWeights, Except.bind, h]
      simp only [this]
      exact initExt_kw env t kw mu w _ _

theorem filterData_arr (env : Env K) (upper : String → String) (d : List K) (x : List (List K))
    (model : String) (kw : Kwargs K) (w : Vec K n) :
    filterData env upper d x n model { kw with w := some (.arr (List.ofFn w)) }
      = match dictGet (upper model) (filtersDict upper) with
        | none => .error .valueError
        | some t => if badKeyword t kw then .error .typeError
          else match kw.mu <|> defaultMu t with
            | some mu => runNew env n t kw mu w d x
            | none => .error .typeError := by
  unfold filterData
  cases dictGet (upper model) (filtersDict upper) with
  | none => rfl
  | some t =>
    simp only
    rw [construct_arr]
    by_cases hb : badKeyword t kw = true
    · simp [if_pos hb]
    · rw [if_neg hb, if_neg hb]
      cases (kw.mu <|> defaultMu t) with
      | none => rfl
      | some mu => rfl

/-- a relation between two new objects carries over to `filter_data` -/
theorem filterData_congr (env : Env K) (upper : String → String) (model : String) (kw : Kwargs K)
    (w w' : Vec K n) (d d' : List K) (x x' : List (List K))
    (G : List K × List K × List (List K) → List K × List K × List (List K))
    (h : ∀ t mu, getFilter upper model = .ok t → (kw.mu <|> defaultMu t) = some mu →
      runNew env n t kw mu w' d' x' = (runNew env n t kw mu w d x).map G) :
    filterData env upper d' x' n model { kw with w := some (.arr (List.ofFn w')) }
      = (filterData env upper d x n model { kw with w := some (.arr (List.ofFn w)) }).map G := by
  rw [filterData_arr, filterData_arr]
  unfold getFilter at h
  cases hd : dictGet (upper model) (filtersDict upper) with
  | none => rfl
  | some t =>
    rw [hd] at h
    simp only
    by_cases hb : badKeyword t kw = true
    · rw [if_pos hb, if_pos hb]; rfl
    · rw [if_neg hb, if_neg hb]
      cases hm : (kw.mu <|> defaultMu t) with
      | none => rfl
      | some mu => exact h t mu rfl hm

end
end Padasip
