import Verif.Spec.Stream

/-!
# The state trajectory of a filter and the log produced by `run`
-/

set_option linter.unusedSectionVars false
set_option linter.unusedSimpArgs false

namespace Padasip

variable {K : Type} [Scalar K] {n : ℕ}

theorem series_succ {α : Type} (f : ℕ → α) (N : ℕ) :
    series f (N + 1) = f 0 :: series (fun k => f (k + 1)) N := by
  simp [series, List.range_succ_eq_map]

theorem series_succ_last {α : Type} (f : ℕ → α) (N : ℕ) :
    series f (N + 1) = series f N ++ [f N] := by
  simp [series, List.range_succ]

theorem series_add {α : Type} (f : ℕ → α) (N m : ℕ) :
    series f (N + m) = series f N ++ series (fun k => f (N + k)) m := by
  simp [series, List.range_add, Function.comp_def]

@[simp] theorem series_zero {α : Type} (f : ℕ → α) : series f 0 = [] := rfl

theorem getElem_series {α : Type} (f : ℕ → α) (N k : ℕ) (h : k < (series f N).length) :
    (series f N)[k] = f k := by simp [series]

theorem series_congr {α : Type} {f g : ℕ → α} {N : ℕ} (h : ∀ k < N, f k = g k) :
    series f N = series g N := by
  simp only [series]
  apply List.map_congr_left
  intro k hk
  exact h k (List.mem_range.mp hk)

theorem series_inj {α : Type} {f g : ℕ → α} {N : ℕ} (h : series f N = series g N) :
    ∀ k < N, f k = g k := by
  intro k hk
  have h1 : k < (series f N).length := by simpa
  have := getElem_series f N k h1
  rw [← this]
  simp only [h]
  exact getElem_series g N k _

theorem rows_eq_series (x : ℕ → Vec K n) (N : ℕ) :
    rows x N = series (fun k => List.ofFn (x k)) N := rfl

theorem zip_stream (d : ℕ → K) (x : ℕ → Vec K n) (N : ℕ) :
    (series d N).zip (rows x N) = series (fun j => (d (0 + j), List.ofFn (x (0 + j)))) N := by
  simp only [rows, series, Nat.zero_add]
  rw [List.zip_map']

@[simp] theorem asVec_ofFn {α : Type} (v : Fin n → α) : asVec n (List.ofFn v) = .ok v := by
  simp [asVec]

@[simp] theorem bcast_self {α : Type} (v : Fin n → α) : bcast n (List.ofFn v) = .ok (List.ofFn v) := by
  simp [bcast]

@[simp] theorem bcastVec_ofFn {α : Type} (v : Fin n → α) : bcastVec n (List.ofFn v) = .ok v := by
  simp [bcastVec, Except.bind]

theorem asVec_wrong {α : Type} (x : List α) (h : x.length ≠ n) : asVec n x = .error .valueError := by
  simp [asVec, h]

theorem asVec_ok {α : Type} {x : List α} (h : x.length = n) : ∃ v : Fin n → α, x = List.ofFn v := by
  subst h
  exact ⟨fun i => x[i], by simp⟩

/-- `body` never raises on well-shaped samples from states satisfying `P`, which it preserves. -/
def Safe (C : FilterClass K n) (P : Core K n C.Ext → Prop) : Prop :=
  ∀ s, P s → s.nAttr = n → ∀ (d : K) (x : Vec K n),
    ∃ p s', C.body d (List.ofFn x) s = (.ok p, s') ∧ P s' ∧ s'.nAttr = n

/-- state after the samples `0..k-1` -/
def traj (C : FilterClass K n) (s : Core K n C.Ext) (d : ℕ → K) (x : ℕ → Vec K n) :
    ℕ → Core K n C.Ext
  | 0 => s
  | k + 1 => (C.body (d k) (List.ofFn (x k)) (traj C s d x k)).2

/-- `(y[k], e[k])` -/
def outAt (C : FilterClass K n) (s : Core K n C.Ext) (d : ℕ → K) (x : ℕ → Vec K n) (k : ℕ) : K × K :=
  match (C.body (d k) (List.ofFn (x k)) (traj C s d x k)).1 with
  | .ok p => p
  | .error _ => (0, 0)

theorem traj_safe {C : FilterClass K n} {P : Core K n C.Ext → Prop} (hC : Safe C P)
    {s : Core K n C.Ext} (hs : P s) (hn : s.nAttr = n) (d : ℕ → K) (x : ℕ → Vec K n) (k : ℕ) :
    P (traj C s d x k) ∧ (traj C s d x k).nAttr = n := by
  induction k with
  | zero => exact ⟨hs, hn⟩
  | succ k ih =>
    obtain ⟨p, s', h, hp, hn'⟩ := hC _ ih.1 ih.2 (d k) (x k)
    simp only [traj, h]
    exact ⟨hp, hn'⟩

theorem body_traj {C : FilterClass K n} {P : Core K n C.Ext → Prop} (hC : Safe C P)
    {s : Core K n C.Ext} (hs : P s) (hn : s.nAttr = n) (d : ℕ → K) (x : ℕ → Vec K n) (k : ℕ) :
    C.body (d k) (List.ofFn (x k)) (traj C s d x k)
      = (.ok (outAt C s d x k), traj C s d x (k + 1)) := by
  obtain ⟨h1, h2⟩ := traj_safe hC hs hn d x k
  obtain ⟨p, s', h, -, -⟩ := hC _ h1 h2 (d k) (x k)
  simp [outAt, traj, h]

theorem traj_add (C : FilterClass K n) (s : Core K n C.Ext) (d : ℕ → K) (x : ℕ → Vec K n)
    (j k : ℕ) :
    traj C s d x (j + k)
      = traj C (traj C s d x j) (fun i => d (j + i)) (fun i => x (j + i)) k := by
  induction k with
  | zero => rfl
  | succ k ih =>
    show (C.body (d (j + k)) (List.ofFn (x (j + k))) (traj C s d x (j + k))).2 = _
    rw [ih]; rfl

theorem outAt_add (C : FilterClass K n) (s : Core K n C.Ext) (d : ℕ → K) (x : ℕ → Vec K n)
    (j k : ℕ) :
    outAt C s d x (j + k)
      = outAt C (traj C s d x j) (fun i => d (j + i)) (fun i => x (j + i)) k := by
  simp only [outAt, traj_add]

/-- The weights in use at sample `k`. -/
def wAt (C : FilterClass K n) (s : Core K n C.Ext) (d : ℕ → K) (x : ℕ → Vec K n) (k : ℕ) : Vec K n :=
  (traj C s d x k).w

theorem traj_congr (C : FilterClass K n) (s : Core K n C.Ext) {d d' : ℕ → K} {x x' : ℕ → Vec K n}
    {k : ℕ} (hd : ∀ j < k, d j = d' j) (hx : ∀ j < k, x j = x' j) :
    traj C s d x k = traj C s d' x' k := by
  induction k with
  | zero => rfl
  | succ k ih =>
    simp only [traj]
    rw [ih (fun j hj => hd j (by omega)) (fun j hj => hx j (by omega)), hd k (by omega),
      hx k (by omega)]

theorem outAt_congr (C : FilterClass K n) (s : Core K n C.Ext) {d d' : ℕ → K} {x x' : ℕ → Vec K n}
    {k : ℕ} (hd : ∀ j ≤ k, d j = d' j) (hx : ∀ j ≤ k, x j = x' j) :
    outAt C s d x k = outAt C s d' x' k := by
  simp only [outAt]
  rw [traj_congr C s (fun j hj => hd j (by omega)) (fun j hj => hx j (by omega)),
    hd k le_rfl, hx k le_rfl]

theorem liftM_ok {α : Type} {C : FilterClass K n} {m : M (Core K n C.Ext) α} {o : Obj C} {a : α}
    {c : Core K n C.Ext} (h : m o.core = (.ok a, c)) :
    Obj.liftM m o = (.ok a, { o with core := c }) := by
  simp [Obj.liftM, h]

theorem liftM_eq {α : Type} {C : FilterClass K n} {m : M (Core K n C.Ext) α} {o : Obj C}
    {r : Except Err α} {c : Core K n C.Ext} (h : m o.core = (r, c)) :
    Obj.liftM m o = (r, { o with core := c }) := by
  simp [Obj.liftM, h]

/-- The loop of `run` logs the trajectory. -/
theorem runLoop_traj {C : FilterClass K n} {P : Core K n C.Ext → Prop} (hC : Safe C P)
    {s : Core K n C.Ext} (hs : P s) (hn : s.nAttr = n) (d : ℕ → K) (x : ℕ → Vec K n) (m : ℕ) :
    ∀ (k : ℕ) (H : List (List K)), k + m ≤ H.length →
    runLoop C k (series (fun j => (d (k + j), List.ofFn (x (k + j)))) m)
        ⟨traj C s d x k, H⟩
      = (.ok (series (fun j => (outAt C s d x (k + j)).1) m,
            series (fun j => (outAt C s d x (k + j)).2) m),
         ⟨traj C s d x (k + m),
          H.take k ++ series (fun j => List.ofFn (wAt C s d x (k + j))) m ++ H.drop (k + m)⟩) := by
  induction m with
  | zero => intro k H _; simp [runLoop]
  | succ m ih =>
    intro k H hH
    obtain ⟨h1, h2⟩ := traj_safe hC hs hn d x k
    have hb := body_traj hC hs hn d x k
    rw [series_succ]
    simp only [runLoop, Nat.add_zero]
    have hw : histWrite (C := C) k ⟨traj C s d x k, H⟩
        = (.ok (), ⟨traj C s d x k, H.set k (List.ofFn (wAt C s d x k))⟩) := by
      simp [histWrite, h2, wAt]
    rw [M.bind_ok hw, M.bind_ok (liftM_ok (o := ⟨traj C s d x k, _⟩) hb)]
    have := ih (k + 1) (H.set k (List.ofFn (wAt C s d x k))) (by simp; omega)
    have e1 : (fun j => (d (k + (j + 1)), List.ofFn (x (k + (j + 1)))))
        = fun j => (d (k + 1 + j), List.ofFn (x (k + 1 + j))) := by
      funext j; rw [Nat.add_right_comm, Nat.add_assoc]
    rw [e1, M.bind_ok this]
    simp only [M.pure_apply, series_succ, Nat.add_zero]
    have e2 : ∀ j, k + 1 + j = k + (j + 1) := by intro j; omega
    have e3 : k + 1 + m = k + (m + 1) := by omega
    simp only [e2, e3]
    congr 2
    have hk : k < H.length := by omega
    have : List.take (k + 1) (H.set k (List.ofFn (wAt C s d x k)))
        = H.take k ++ [List.ofFn (wAt C s d x k)] := by
      rw [List.take_add_one, List.take_set_of_le (by omega)]
      simp [hk]
    rw [this, List.drop_set_of_lt (by omega)]
    simp

@[simp] theorem Core.withN_nAttr {X : Type} (s : Core K n X) (m : ℕ) : (s.withN m).nAttr = m := rfl
@[simp] theorem Core.withN_w {X : Type} (s : Core K n X) (m : ℕ) : (s.withN m).w = s.w := rfl
@[simp] theorem Core.withN_mu {X : Type} (s : Core K n X) (m : ℕ) : (s.withN m).mu = s.mu := rfl
@[simp] theorem Core.withN_ext {X : Type} (s : Core K n X) (m : ℕ) : (s.withN m).ext = s.ext := rfl
@[simp] theorem Core.withN_withN {X : Type} (s : Core K n X) (m m' : ℕ) :
    (s.withN m).withN m' = s.withN m' := rfl
theorem Core.withN_self {X : Type} (s : Core K n X) (h : s.nAttr = n) : s.withN n = s := by
  cases s; simp_all [Core.withN]

theorem run_cons (C : FilterClass K n) (d : List K) (x0 : List K) (t : List (List K)) (o : Obj C) :
    run C d (x0 :: t) o =
      if d.length ≠ (x0 :: t).length then (.error .valueError, o)
      else if (x0 :: t).any (fun r => decide (r.length ≠ x0.length)) then
        (.error .valueError, { o with core := o.core.withN x0.length })
      else (runLoop C 0 (d.zip (x0 :: t)) >>= fun p => M.get >>= fun o => pure (p.1, p.2, o.wHist))
        ⟨o.core.withN x0.length,
          List.replicate (x0 :: t).length (List.replicate x0.length 0)⟩ := by
  unfold run
  by_cases h1 : d.length ≠ (x0 :: t).length
  · rw [if_pos h1, if_pos h1]; rfl
  · rw [if_neg h1, if_neg h1]
    by_cases h2 : (x0 :: t).any (fun r => decide (r.length ≠ x0.length)) = true
    · simp only [h2, if_true]; rfl
    · simp only [h2]; rfl

/-- `run` on a well-shaped data set logs the trajectory that starts in the current state. -/
theorem run_traj {C : FilterClass K n} {P : Core K n C.Ext → Prop} (hC : Safe C P) (o : Obj C)
    (hP : P (o.core.withN n)) (d : ℕ → K) (x : ℕ → Vec K n) (N : ℕ) (hN : 0 < N) :
    run C (series d N) (rows x N) o
      = (.ok (series (fun k => (outAt C (o.core.withN n) d x k).1) N,
            series (fun k => (outAt C (o.core.withN n) d x k).2) N,
            series (fun k => List.ofFn (wAt C (o.core.withN n) d x k)) N),
         ⟨traj C (o.core.withN n) d x N,
          series (fun k => List.ofFn (wAt C (o.core.withN n) d x k)) N⟩) := by
  obtain ⟨N, rfl⟩ : ∃ M, N = M + 1 := ⟨N - 1, by omega⟩
  have hr : rows x (N + 1) = List.ofFn (x 0) :: rows (fun k => x (k + 1)) N := by
    rw [rows_eq_series, series_succ]; rfl
  have hz : (series d (N + 1)).zip (rows x (N + 1))
      = series (fun j => (d (0 + j), List.ofFn (x (0 + j)))) (N + 1) := by
    simp only [rows, series, Nat.zero_add]
    rw [List.zip_map']
  have hany : (rows x (N + 1)).any
      (fun r => decide (r.length ≠ (List.ofFn (x 0)).length)) = false := by
    rw [List.any_eq_false]
    intro r hr
    simp only [rows, List.mem_map] at hr
    obtain ⟨k, -, rfl⟩ := hr
    simp
  rw [hr, run_cons, ← hr, if_neg (by simp), hany, if_neg (by simp), hz]
  have := runLoop_traj hC (s := o.core.withN n) hP rfl d x (N + 1) 0
      (List.replicate (rows x (N + 1)).length (List.replicate n 0)) (by simp)
  simp only [List.length_ofFn]
  simp only [traj] at this
  rw [M.bind_ok this]
  simp [M.get_bind, traj]

end Padasip
