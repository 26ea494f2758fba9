import Verif.Spec.XReal
import Verif.Props.Nan
import Verif.Lemmas.Steps

/-!
# C131: infinities
-/

set_option linter.unusedSectionVars false
set_option linter.unusedSimpArgs false
set_option linter.unusedVariables false

namespace Padasip

/-- The filters in whose weight update the error is a factor: all but SSLMS, NSSLMS (only its sign is used), Llncosh (only `tanh(lambd*e)`) and GMCC. -/
def ErrorFactor : Kind → Prop
  | .sslms | .nsslms | .gmcc | .llncosh => False
  | _ => True

section general
variable {K : Type} [Transc K] {n : ℕ} {bad : K → Prop}

section lemmas
variable (L : AbsorbLaws bad)

include L in
theorem bad_vsum {f : Vec K n} (h : ∃ i, bad (f i)) : bad (vsum f) := by
  obtain ⟨i, hi⟩ := h
  unfold vsum
  have hm : f i ∈ List.ofFn f := List.mem_ofFn.mpr ⟨i, rfl⟩
  revert hm
  generalize List.ofFn f = l
  intro hm
  induction l with
  | nil => exact absurd hm (by simp)
  | cons a t ih =>
    rw [List.sum_cons]
    rcases List.mem_cons.mp hm with h | h
    · exact L.add_left _ _ (h ▸ hi)
    · exact L.add_right _ _ (ih h)

include L in
theorem bad_dot_left {u v : Vec K n} (h : ∃ i, bad (u i)) : bad (dot u v) :=
  bad_vsum L (h.imp fun _ h => L.mul_left _ _ h)

include L in
theorem bad_dot_right {u v : Vec K n} (h : ∃ i, bad (v i)) : bad (dot u v) :=
  bad_vsum L (h.imp fun _ h => L.mul_right _ _ h)

include L in
theorem bad_dot {w x : Vec K n} (h : Tainted bad w x) : bad (dot w x) :=
  h.elim (bad_dot_right L) (bad_dot_left L)

include L in
/-- one processed sample -/
theorem bad_step (solve : Solver K) (k : Kind) (hk : ErrorFactor k) (s : Core K n (classOf (n := n) solve k).Ext)
    (hs : Ready solve k s) (hn : s.nAttr = n) (d : K) (x : Vec K n) {y e : K} {s'}
    (hb : (classOf solve k).body d (List.ofFn x) s = (.ok (y, e), s')) :
    (Tainted bad s.w x → bad y) ∧ (bad d ∨ bad y → bad e) ∧ (bad e → ∀ i, bad (s'.w i)) := by
  have fin : ∀ (Y E : K) (s'' : Core K n (classOf (n := n) solve k).Ext),
      (classOf solve k).body d (List.ofFn x) s = (.ok (Y, E), s'') → E = d - Y →
      (Tainted bad s.w x → bad Y) → (bad E → ∀ i, bad (s''.w i)) →
      (Tainted bad s.w x → bad y) ∧ (bad d ∨ bad y → bad e) ∧ (bad e → ∀ i, bad (s'.w i)) := by
    intro Y E s'' h1 h2 h3 h4
    rw [hb] at h1
    have h5 := (Prod.mk.inj (Except.ok.inj (Prod.mk.inj h1).1))
    have h6 := (Prod.mk.inj h1).2
    rw [h5.1, h5.2, h6]
    refine ⟨h3, fun h => ?_, h4⟩
    rw [h2]
    exact h.elim (fun h => L.sub_left _ _ h) fun h => L.sub_right _ _ h
  cases k
  case lms =>
    exact fin _ _ _ (lms_body s d x) rfl (bad_dot L) fun h i => L.add_right _ _ (L.mul_right _ _ h)
  case lmf =>
    exact fin _ _ _ (lmf_body s d x) rfl (bad_dot L) fun h i =>
      L.add_right _ _ (L.mul_right _ _ (L.mul_right _ _ h))
  case nlms =>
    exact fin _ _ _ (nlms_body s d x) rfl (bad_dot L) fun h i => L.add_right _ _ (L.mul_right _ _ h)
  case nlmf =>
    exact fin _ _ _ (nlmf_body s d x) rfl (bad_dot L) fun h i =>
      L.add_right _ _ (L.mul_right _ _ (L.mul_right _ _ h))
  case gngd =>
    exact fin _ _ _ (gngd_body s d x) rfl (bad_dot L) fun h i =>
      L.add_right _ _ (L.mul_left _ _ (L.mul_right _ _ h))
  case mathews =>
    exact fin _ _ _ (mathews_body s d x) rfl (bad_dot L) fun h i =>
      L.add_right _ _ (L.mul_left _ _ (L.mul_right _ _ h))
  case ang =>
    exact fin _ _ _ (ang_body s d x) rfl (bad_dot L) fun h i =>
      L.add_right _ _ (L.mul_left _ _ (L.mul_right _ _ h))
  case benveniste =>
    exact fin _ _ _ (benveniste_body s hn d x) rfl (bad_dot L) fun h i =>
      L.add_right _ _ (L.mul_left _ _ (L.mul_right _ _ h))
  case rls =>
    exact fin _ _ _ (rls_body s hs d x) rfl (bad_dot L) fun h i => L.add_right _ _ (L.mul_right _ _ h)
  case ocnlms =>
    refine fin _ _ _ (oc_body (s := s) hs hn d x) rfl ?_ fun h i =>
      L.add_right _ _ (L.mul_left _ _ (L.mul_right _ _ h))
    intro h
    refine L.add_left _ _ (bad_dot L ?_)
    exact h.imp (fun h => h.imp fun _ h => L.sub_left _ _ h) id
  case ap order =>
    obtain ⟨P, hP⟩ := hs.2 (apX s x)
    refine fin _ _ _ (ap_body solve hs.1 s d x P hP) rfl ?_ fun h i => ?_
    · intro h
      show bad (dot (fun i => apX s x i ⟨0, hs.1⟩) s.w)
      rcases h with ⟨i, h⟩ | h
      · exact bad_dot_left L ⟨i, h⟩
      · exact bad_dot_right L h
    · refine L.add_right _ _ (L.mul_right _ _ (bad_dot_right L ⟨⟨0, hs.1⟩, ?_⟩))
      exact bad_dot_right L ⟨⟨0, hs.1⟩, h⟩
  all_goals exact hk.elim

end lemmas

/-- C131: let `bad` be the values that are not finite numbers, in any arithmetic in which they absorb.  During a `run` of any filter in whose update the error is a factor:
(a) if the target of a sample or a component of its input is not finite, its error is not finite; (b) if the error of a sample is not finite - because of (a) or because a
computation with finite data overflowed -, then every weight is not finite after it, and neither is any later output or error, whatever the later data. -/
theorem C131_run (L : AbsorbLaws bad) (solve : Solver K) (k : Kind) (hk : ErrorFactor k) (o : Obj (classOf (n := n) solve k))
    (ho : Ready solve k o.core) {d : ℕ → K} {x : ℕ → Vec K n} {y e : ℕ → K}
    {S : ℕ → Core K n (classOf (n := n) solve k).Ext} (h : Runs (classOf solve k) o d x y e S) (hn : 0 < n) (k0 : ℕ) :
    (bad (d k0) ∨ (∃ i, bad (x k0 i)) → bad (e k0)) ∧
    (bad (e k0) → ∀ j, k0 < j → (∀ i, bad ((S j).w i)) ∧ bad (y j) ∧ bad (e j)) := by
  have hP : Ready solve k (o.core.withN n) := (ready_keeps solve k).withN _ n ho
  have st : ∀ j, _ := fun j =>
    have q := h.step (ready_safe solve k) hP j
    bad_step L solve k hk (S j) q.2.1 q.2.2 (d j) (x j) q.1
  refine ⟨fun h => (st k0).2.1 (h.imp id fun h => (st k0).1 (.inl h)), fun h0 => ?_⟩
  have hw : ∀ m, (∀ i, bad ((S (k0 + 1 + m)).w i)) := by
    intro m
    induction m with
    | zero => exact (st k0).2.2 h0
    | succ m ih => exact (st (k0 + 1 + m)).2.2 ((st _).2.1 (.inr ((st _).1 (.inr ⟨⟨0, hn⟩, ih _⟩))))
  intro j hj
  obtain ⟨m, rfl⟩ : ∃ m, j = k0 + 1 + m := ⟨j - (k0 + 1), by omega⟩
  have t := (st (k0 + 1 + m)).1 (.inr ⟨⟨0, hn⟩, hw m _⟩)
  exact ⟨hw m, t, (st _).2.1 (.inr t)⟩

/-- C131 (for ever): a weight of any of the fifteen filters that is not finite stays so, whatever calls are made on the object, successful or raising. -/
theorem C131_for_ever (L : AbsorbLaws bad) (solve : Solver K) (k : Kind) (o : Obj (classOf (n := n) solve k)) (i : Fin n)
    (hw : bad (o.core.w i)) (calls : List (Call K)) : bad ((execAll (classOf solve k) o calls).core.w i) :=
  (weights_keep (p := fun j a => j = i → bad a) (fun j a b h hj => L.add_left a b (h hj)) solve k).execAll calls o
    (fun j hj => hj ▸ hw) i rfl

end general

/-! ## Infinite targets and the other four filters, over the real numbers with infinities -/

namespace XReal

theorem finite_add {a b : XReal} (ha : a.Finite) (hb : b.Finite) : (a + b).Finite := by
  obtain ⟨r, rfl⟩ := finite_cases ha
  obtain ⟨q, rfl⟩ := finite_cases hb
  exact trivial

theorem finite_mul {a b : XReal} (ha : a.Finite) (hb : b.Finite) : (a * b).Finite := by
  obtain ⟨r, rfl⟩ := finite_cases ha
  obtain ⟨q, rfl⟩ := finite_cases hb
  exact trivial

theorem finite_vsum {n : ℕ} {f : Vec XReal n} (h : ∀ i, (f i).Finite) : (vsum f).Finite := by
  unfold vsum
  have : ∀ a ∈ List.ofFn f, Finite a := by
    intro a ha
    obtain ⟨i, rfl⟩ := List.mem_ofFn.mp ha
    exact h i
  revert this
  generalize List.ofFn f = l
  intro hl
  induction l with
  | nil => exact trivial
  | cons a t ih =>
    rw [List.sum_cons]
    exact finite_add (hl a (by simp)) (ih fun b hb => hl b (by simp [hb]))

theorem finite_dot {n : ℕ} {u v : Vec XReal n} (hu : ∀ i, (u i).Finite) (hv : ∀ i, (v i).Finite) : (dot u v).Finite :=
  finite_vsum fun i => finite_mul (hu i) (hv i)

theorem dot_self {n : ℕ} {u : Vec XReal n} (hu : ∀ i, (u i).Finite) : ∃ r : ℝ, 0 ≤ r ∧ dot u u = num r := by
  unfold dot vsum
  have : ∀ a ∈ List.ofFn fun i => u i * u i, ∃ r : ℝ, 0 ≤ r ∧ a = num r := by
    intro a ha
    obtain ⟨i, rfl⟩ := List.mem_ofFn.mp ha
    obtain ⟨r, h⟩ := finite_cases (hu i)
    exact ⟨r * r, mul_self_nonneg r, by simp only [h]; rfl⟩
  revert this
  generalize (List.ofFn fun i => u i * u i) = l
  intro hl
  induction l with
  | nil => exact ⟨0, le_rfl, rfl⟩
  | cons a t ih =>
    obtain ⟨r, hr, h1⟩ := hl a (by simp)
    obtain ⟨q, hq, h2⟩ := ih fun b hb => hl b (by simp [hb])
    exact ⟨r + q, add_nonneg hr hq, by rw [List.sum_cons, h1, h2]; rfl⟩

theorem finite_sgn {a : XReal} (h : a ≠ nan) : (Scalar.sgn a).Finite := by
  cases a
  · exact trivial
  · exact trivial
  · exact (h rfl).elim

theorem sub_ne_nan {a b : XReal} (ha : a ≠ nan) (hb : b.Finite) : a - b ≠ nan := by
  obtain ⟨r, rfl⟩ := finite_cases hb
  cases a
  · exact fun h => by cases h
  · exact fun h => by cases h
  · exact (ha rfl).elim

theorem inf_sub {p : Bool} {b : XReal} (hb : b.Finite) : inf p - b = inf p := by
  obtain ⟨r, rfl⟩ := finite_cases hb
  rfl

end XReal

open XReal

variable {n : ℕ}

/-- shared induction of the filters below -/
theorem finite_weights {x : ℕ → Vec XReal n} {d y e : ℕ → XReal} {W : ℕ → Vec XReal n} (hx : ∀ k i, (x k i).Finite)
    (hd : ∀ k, d k ≠ nan) (hy : ∀ k, y k = dot (W k) (x k)) (he : ∀ k, e k = d k - y k) (h0 : ∀ i, (W 0 i).Finite)
    (hs : ∀ k, e k ≠ nan → (∀ i, (W k i).Finite) → ∀ i, (W (k + 1) i).Finite) (k : ℕ) :
    (∀ i, (W k i).Finite) ∧ (y k).Finite ∧ ∀ p, d k = inf p → e k = inf p := by
  have hW : ∀ i, (W k i).Finite := by
    induction k with
    | zero => exact h0
    | succ k ih =>
      refine hs k ?_ ih
      rw [he, hy]
      exact sub_ne_nan (hd k) (finite_dot ih (hx k))
  have hyk : (y k).Finite := by
    rw [hy]
    exact finite_dot hW (hx k)
  refine ⟨hW, hyk, fun p hp => ?_⟩
  rw [he, hp]
  exact inf_sub hyk

/-- C131 (SSLMS): with finite data apart from infinite targets, a run of SSLMS keeps finite weights and outputs, and an infinite target acts through its sign only. -/
theorem C131_sslms (o : Obj (sslms XReal n)) {d : ℕ → XReal} {x : ℕ → Vec XReal n} {y e : ℕ → XReal}
    {S : ℕ → Core XReal n Unit} (h : Runs (sslms XReal n) o d x y e S) (hmu : o.core.mu.Finite) (hw : ∀ i, (o.core.w i).Finite)
    (hx : ∀ k i, (x k i).Finite) (hd : ∀ k, d k ≠ nan) (k : ℕ) :
    (∀ i, ((S k).w i).Finite) ∧ (y k).Finite ∧
    ∀ p, d k = inf p → ∀ i, (S (k + 1)).w i = (S k).w i + o.core.mu * Scalar.sgn (x k i) * num (if p then 1 else -1) := by
  have r := sslms_runs h
  have q := finite_weights (W := fun k => (S k).w) hx hd (fun k => (r k).2.2.1) (fun k => (r k).2.2.2.1) (by
    rw [h.1]; exact hw) (fun k hk hW i => by
      have := (r k).2.2.2.2
      simp only [this, (r k).1]
      exact finite_add (hW i) (finite_mul (finite_mul hmu (finite_sgn fun h => by
        have := hx k i
        rw [h] at this
        exact this)) (finite_sgn hk))) k
  refine ⟨q.1, q.2.1, fun p hp i => ?_⟩
  rw [(r k).2.2.2.2, (r k).1, q.2.2 p hp]
  rfl

/-- C131 (NSSLMS): the same for NSSLMS with `eps > 0`. -/
theorem C131_nsslms (o : Obj (nsslms XReal n)) {d : ℕ → XReal} {x : ℕ → Vec XReal n} {y e : ℕ → XReal}
    {S : ℕ → Core XReal n (EpsExt XReal)} (h : Runs (nsslms XReal n) o d x y e S) (hmu : o.core.mu.Finite) (hw : ∀ i, (o.core.w i).Finite)
    {eps : ℝ} (heps : 0 < eps) (ho : o.core.ext = ⟨num eps⟩)
    (hx : ∀ k i, (x k i).Finite) (hd : ∀ k, d k ≠ nan) (k : ℕ) :
    (∀ i, ((S k).w i).Finite) ∧ (y k).Finite ∧
    ∀ p, d k = inf p → ∀ i, (S (k + 1)).w i
      = (S k).w i + o.core.mu / (num eps + dot (x k) (x k)) * Scalar.sgn (x k i) * num (if p then 1 else -1) := by
  have r := nsslms_runs h
  have q := finite_weights (W := fun k => (S k).w) hx hd (fun k => (r k).2.2.1) (fun k => (r k).2.2.2.1) (by
    rw [h.1]; exact hw) (fun k hk hW i => by
      have := (r k).2.2.2.2
      simp only [this, (r k).1, (r k).2.1, ho]
      obtain ⟨m, hm⟩ := finite_cases hmu
      obtain ⟨c, hc, hc2⟩ := dot_self (hx k)
      refine finite_add (hW i) (finite_mul (finite_mul ?_ (finite_sgn fun h => by
        have := hx k i
        rw [h] at this
        exact this)) (finite_sgn hk))
      rw [hm, hc2, add_num, div_num _ _ (by positivity)]
      exact trivial) k
  refine ⟨q.1, q.2.1, fun p hp i => ?_⟩
  rw [(r k).2.2.2.2, (r k).1, (r k).2.1, ho, q.2.2 p hp]
  rfl

/-- C131 (Llncosh): the same for Llncosh with `lambd != 0`: an infinite target moves the weights by `+ mu*x` or `- mu*x`. -/
theorem C131_llncosh (o : Obj (llncosh XReal n)) {d : ℕ → XReal} {x : ℕ → Vec XReal n} {y e : ℕ → XReal}
    {S : ℕ → Core XReal n (LlncoshExt XReal)} (h : Runs (llncosh XReal n) o d x y e S) (hmu : o.core.mu.Finite) (hw : ∀ i, (o.core.w i).Finite)
    {l : ℝ} (hl : l ≠ 0) (ho : o.core.ext = ⟨num l⟩)
    (hx : ∀ k i, (x k i).Finite) (hd : ∀ k, d k ≠ nan) (k : ℕ) :
    (∀ i, ((S k).w i).Finite) ∧ (y k).Finite ∧
    ∀ p, d k = inf p → ∀ i, (S (k + 1)).w i
      = (S k).w i + o.core.mu * num (if p = decide (0 < l) then 1 else -1) * x k i := by
  have r := llncosh_runs h
  have key : ∀ p, Transc.tanh (num l * inf p) = num (if p = decide (0 < l) then 1 else -1) := by
    intro p
    have : num l * inf p = inf (p == decide (0 < l)) := if_neg hl
    rw [this, tanh_inf]
    simp
  have q := finite_weights (W := fun k => (S k).w) hx hd (fun k => (r k).2.2.1) (fun k => (r k).2.2.2.1) (by
    rw [h.1]; exact hw) (fun k hk hW i => by
      have := (r k).2.2.2.2
      simp only [this, (r k).1, (r k).2.1, ho]
      refine finite_add (hW i) (finite_mul (finite_mul hmu ?_) (hx k i))
      cases hek : e k with
      | num a => exact trivial
      | inf p => rw [key]; exact trivial
      | nan => exact (hk hek).elim) k
  refine ⟨q.1, q.2.1, fun p hp i => ?_⟩
  rw [(r k).2.2.2.2, (r k).1, (r k).2.1, ho, q.2.2 p hp, key]

/-- C131 (GMCC): an infinite target, met with finite weights and a finite input, leaves the weights of GMCC with `lambd > 0`, `0 < alpha <= 1` unchanged; with `alpha > 1` it makes
every weight a NaN (`exp(-inf) * inf`). -/
theorem C131_gmcc (o : Obj (gmcc XReal n)) {d : ℕ → XReal} {x : ℕ → Vec XReal n} {y e : ℕ → XReal}
    {S : ℕ → Core XReal n (GmccExt XReal)} (h : Runs (gmcc XReal n) o d x y e S) (hmu : o.core.mu.Finite)
    {l a : ℝ} (hl : 0 < l) (ha : 0 < a) (ho : o.core.ext = ⟨num l, num a⟩) (k : ℕ)
    (hw : ∀ i, ((S k).w i).Finite) (hx : ∀ i, (x k i).Finite) {p : Bool} (hd : d k = inf p) :
    (a ≤ 1 → (S (k + 1)).w = (S k).w) ∧ (1 < a → ∀ i, (S (k + 1)).w i = nan) := by
  have r := gmcc_runs h k
  have hy : (y k).Finite := by
    rw [r.2.2.1]
    exact finite_dot hw hx
  have he : e k = inf p := by
    rw [r.2.2.2.1, hd]
    exact inf_sub hy
  obtain ⟨m, hm⟩ := finite_cases hmu
  have e1 : Scalar.abs (inf p) = inf true := rfl
  have e2 : Transc.pow (inf true) (num a) = inf true := if_pos ha
  have e3 : -(num l) * inf true = inf false := by
    show (if -l = 0 then nan else inf (true == decide (0 < -l))) = _
    rw [if_neg (by linarith), decide_eq_false (by linarith)]
    rfl
  have e4 : Transc.exp (inf false) = num 0 := rfl
  have hS := r.2.2.2.2
  rw [r.1, r.2.1, ho, he] at hS
  simp only [e1, e2, e3, e4, one_def, sub_num, hm, mul_num, mul_zero, sgn_inf] at hS
  refine ⟨fun h1 => ?_, fun h1 i => ?_⟩
  · have e5 : ∃ t, Transc.pow (inf true) (num (a - 1)) = num t := by
      refine ⟨if a - 1 = 0 then 1 else 0, ?_⟩
      show (if 0 < a - 1 then inf true else if a - 1 = 0 then num 1 else num 0) = _
      rw [if_neg (by linarith)]
      split_ifs <;> rfl
    obtain ⟨t, ht⟩ := e5
    rw [hS]
    funext i
    obtain ⟨u, hu⟩ := finite_cases (hw i)
    obtain ⟨v, hv⟩ := finite_cases (hx i)
    rw [ht, hu, hv]
    simp
  · have e5 : Transc.pow (inf true) (num (a - 1)) = inf true := if_pos (by linarith)
    have e6 : num 0 * inf true = nan := if_pos rfl
    obtain ⟨u, hu⟩ := finite_cases (hw i)
    obtain ⟨v, hv⟩ := finite_cases (hx i)
    rw [hS]
    beta_reduce
    rw [e5, e6, hu, hv]
    rfl

/-- the hypotheses are met by filters whose third target is infinite -/
example : ∃ (o : Obj (sslms XReal 2)) (d : ℕ → XReal) (x : ℕ → Vec XReal 2) (y e : ℕ → XReal) (S : ℕ → _), Runs (sslms XReal 2) o d x y e S ∧
    o.core.mu.Finite ∧ (∀ i, (o.core.w i).Finite) ∧ (∀ k i, (x k i).Finite) ∧ (∀ k, d k ≠ nan) ∧ d 2 = inf true :=
  ⟨⟨⟨fun _ => num 1, 2, num 1, ()⟩, []⟩, fun k => if k = 2 then inf true else num k, fun k _ => num k, _, _, _,
    runs_of_safe sslms_safe _ trivial _ _, trivial, fun _ => trivial, fun _ _ => trivial, (fun k => by beta_reduce; split <;> exact (fun h => by cases h)), rfl⟩

example : ∃ (o : Obj (nsslms XReal 2)) (d : ℕ → XReal) (x : ℕ → Vec XReal 2) (y e : ℕ → XReal) (S : ℕ → _), Runs (nsslms XReal 2) o d x y e S ∧
    o.core.mu.Finite ∧ (∀ i, (o.core.w i).Finite) ∧ o.core.ext = ⟨num 1⟩ ∧ (∀ k i, (x k i).Finite) ∧ (∀ k, d k ≠ nan) ∧ d 2 = inf true :=
  ⟨⟨⟨fun _ => num 1, 2, num 1, (⟨num 1⟩ : EpsExt XReal)⟩, []⟩, fun k => if k = 2 then inf true else num k, fun k _ => num k, _, _, _,
    runs_of_safe nsslms_safe _ trivial _ _, trivial, fun _ => trivial, rfl, fun _ _ => trivial, (fun k => by beta_reduce; split <;> exact (fun h => by cases h)), rfl⟩

example : ∃ (o : Obj (llncosh XReal 2)) (d : ℕ → XReal) (x : ℕ → Vec XReal 2) (y e : ℕ → XReal) (S : ℕ → _), Runs (llncosh XReal 2) o d x y e S ∧
    o.core.mu.Finite ∧ (∀ i, (o.core.w i).Finite) ∧ o.core.ext = ⟨num 1⟩ ∧ (∀ k i, (x k i).Finite) ∧ (∀ k, d k ≠ nan) ∧ d 2 = inf true :=
  ⟨⟨⟨fun _ => num 1, 2, num 1, (⟨num 1⟩ : LlncoshExt XReal)⟩, []⟩, fun k => if k = 2 then inf true else num k, fun k _ => num k, _, _, _,
    runs_of_safe llncosh_safe _ trivial _ _, trivial, fun _ => trivial, rfl, fun _ _ => trivial, (fun k => by beta_reduce; split <;> exact (fun h => by cases h)), rfl⟩

example (a : ℝ) : ∃ (o : Obj (gmcc XReal 2)) (d : ℕ → XReal) (x : ℕ → Vec XReal 2) (y e : ℕ → XReal) (S : ℕ → _), Runs (gmcc XReal 2) o d x y e S ∧
    o.core.mu.Finite ∧ (∀ i, ((S 0).w i).Finite) ∧ o.core.ext = ⟨num 1, num a⟩ ∧ (∀ i, (x 0 i).Finite) ∧ d 0 = inf true :=
  ⟨⟨⟨fun _ => num 1, 2, num 1, (⟨num 1, num a⟩ : GmccExt XReal)⟩, []⟩, fun k => if k = 0 then inf true else num k, fun k _ => num k, _, _, _,
    runs_of_safe gmcc_safe _ trivial _ _, trivial, fun _ => trivial, rfl, fun _ => trivial, rfl⟩

/-- and those of `C131_run` by an LMS filter whose third target is infinite -/
example : ∃ (o : Obj (classOf (K := XReal) (n := 2) (fun _ _ B => .ok B) .lms)) (d : ℕ → XReal) (x : ℕ → Vec XReal 2)
    (y e : ℕ → XReal) (S : ℕ → _), AbsorbLaws (fun a : XReal => ¬ a.Finite) ∧ ErrorFactor .lms ∧ Ready (fun _ _ B => .ok B) .lms o.core ∧
    Runs (classOf (fun _ _ B => .ok B) .lms) o d x y e S ∧ ¬ (d 2).Finite ∧ ∀ i, (o.core.w i).Finite :=
  ⟨⟨⟨fun _ => num 1, 2, num 1, ()⟩, []⟩, fun k => if k = 2 then inf true else num k,
    fun k _ => num k, _, _, _, XReal.laws, trivial, trivial, runs_of_safe lms_safe _ trivial _ _, id, fun _ => trivial⟩

end Padasip
