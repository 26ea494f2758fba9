import Verif.Lemmas.Ready
import Verif.Spec.Log

set_option linter.unusedSectionVars false
set_option linter.unusedSimpArgs false

/-! # `adapt` and `predict` versus one iteration of `run` -/

namespace Padasip

variable {K : Type} {n : ℕ}

theorem adapt_mkBase [Scalar K] {X : Type} (pr : List K → M (Core K n X) K)
    (lr : K → List K → M (Core K n X) (Vec K n)) (d : K) (x : List K) (s : Core K n X)
    {p : K × K} {s' : Core K n X} (h : baseBody pr lr d x s = (.ok p, s')) :
    baseAdapt pr lr d x s = (.ok (), s') := by
  unfold baseBody at h
  unfold baseAdapt
  simp only [M.bind_apply] at h ⊢
  rcases h1 : pr x s with ⟨_ | y, s1⟩
  · simp [h1] at h
  · simp only [h1] at h ⊢
    rcases h2 : lr (d - y) x s1 with ⟨_ | dw, s2⟩
    · simp [h2] at h
    · simp only [h2, M.modify_apply, M.pure_apply, Prod.mk.injEq] at h ⊢
      exact ⟨trivial, h.2⟩

theorem predict_mkBase [Scalar K] {X : Type} (pr : List K → M (Core K n X) K)
    (lr : K → List K → M (Core K n X) (Vec K n)) (d : K) (x : List K) (s : Core K n X)
    {p : K × K} {s' : Core K n X} (h : baseBody pr lr d x s = (.ok p, s')) :
    (pr x s).1 = .ok p.1 ∧ p.2 = d - p.1 := by
  unfold baseBody at h
  simp only [M.bind_apply] at h
  rcases h1 : pr x s with ⟨_ | y, s1⟩
  · simp [h1] at h
  · simp only [h1] at h
    rcases h2 : lr (d - y) x s1 with ⟨_ | dw, s2⟩
    · simp [h2] at h
    · simp only [h2, M.modify_apply, M.pure_apply, Prod.mk.injEq, Except.ok.injEq] at h
      obtain ⟨h, -⟩ := h
      rw [← h]
      exact ⟨rfl, rfl⟩

theorem basePredict_ofFn [Scalar K] {X : Type} (s : Core K n X) (x : Vec K n) :
    basePredict (List.ofFn x) s = (.ok (dot s.w x), s) := by
  simp [basePredict]

variable [Transc K]

theorem dot_comm' (hc : ∀ a b : K, a * b = b * a) (u v : Vec K n) : dot u v = dot v u := by
  unfold dot
  congr 1
  funext i
  exact hc _ _

/-- one iteration of `run`, seen through `adapt` -/
theorem adapt_of_body {solve : Solver K} {k : Kind} {s : Core K n (classOf solve k).Ext}
    (hs : Ready solve k s) {d : K} {x : Vec K n} {p : K × K} {s' : Core K n (classOf solve k).Ext}
    (h : (classOf solve k).body d (List.ofFn x) s = (.ok p, s')) :
    (classOf solve k).adapt d (List.ofFn x) s = (.ok (), s') := by
  cases k
  case ap order =>
    obtain ⟨P, hP⟩ := hs.2 (apX s x)
    have h1 := ap_body solve hs.1 s d x P hP
    have h2 := ap_adapt solve hs.1 s d x P hP
    have h3 := (Prod.mk.inj (h1.symm.trans h)).2
    exact h2.trans (congrArg (Prod.mk _) h3)
  all_goals exact adapt_mkBase _ _ d _ s h

/-- one iteration of `run`, seen through `predict` -/
theorem predict_of_body {solve : Solver K} {k : Kind} (hc : ∀ a b : K, a * b = b * a)
    {s : Core K n (classOf solve k).Ext}
    (hs : Ready solve k s) {d : K} {x : Vec K n} {p : K × K} {s' : Core K n (classOf solve k).Ext}
    (h : (classOf solve k).body d (List.ofFn x) s = (.ok p, s')) :
    ((classOf solve k).predict (List.ofFn x) s).1 = .ok p.1 ∧ p.2 = d - p.1 := by
  cases k
  case ap order =>
    obtain ⟨P, hP⟩ := hs.2 (apX s x)
    have h1 := ap_body solve hs.1 s d x P hP
    have h3 := Except.ok.inj (Prod.mk.inj (h1.symm.trans h)).1
    subst h3
    constructor
    · refine (congrArg Prod.fst (basePredict_ofFn s x)).trans ?_
      show Except.ok _ = Except.ok (dot _ _)
      rw [dot_comm' hc]
      rfl
    · simp [apE, apD]
  all_goals exact predict_mkBase _ _ d _ s h

theorem predict_pure {solve : Solver K} {k : Kind} (hk : k ≠ .ocnlms)
    (s : Core K n (classOf solve k).Ext) (x : Vec K n) :
    (classOf solve k).predict (List.ofFn x) s = (.ok (dot s.w x), s) := by
  cases k
  case ocnlms => exact absurd rfl hk
  all_goals exact basePredict_ofFn s x

theorem traj_isLog {solve : Solver K} {k : Kind} (hc : ∀ a b : K, a * b = b * a)
    {s : Core K n (classOf solve k).Ext} (hs : Ready solve k s) (hn : s.nAttr = n)
    (d : ℕ → K) (x : ℕ → Vec K n) (N : ℕ) :
    IsLog (classOf solve k) s d x N (fun j => (outAt (classOf solve k) s d x j).1)
      (fun j => (outAt (classOf solve k) s d x j).2) (wAt (classOf solve k) s d x)
      (traj (classOf solve k) s d x N) := by
  refine ⟨traj (classOf solve k) s d x, rfl, rfl, fun j _ => ?_⟩
  have hb := body_traj (ready_safe solve k) hs hn d x j
  have hr := (traj_safe (ready_safe solve k) hs hn d x j).1
  have h1 := predict_of_body hc hr hb
  exact ⟨rfl, h1.1, h1.2, adapt_of_body hr hb⟩

theorem adaptAll_traj {solve : Solver K} {k : Kind}
    {s : Core K n (classOf solve k).Ext} (hs : Ready solve k s) (hn : s.nAttr = n)
    (d : ℕ → K) (x : ℕ → Vec K n) (N : ℕ) (H : List (List K)) :
    ∀ j, adaptAll (classOf solve k) (series (fun i => (d (j + i), List.ofFn (x (j + i)))) N)
        ⟨traj _ s d x j, H⟩
      = (.ok (), ⟨traj _ s d x (j + N), H⟩) := by
  induction N with
  | zero => intro j; rfl
  | succ N ih =>
    intro j
    have hb := body_traj (ready_safe solve k) hs hn d x j
    have hr := (traj_safe (ready_safe solve k) hs hn d x j).1
    have ha := adapt_of_body hr hb
    rw [series_succ]
    simp only [adaptAll, Nat.add_zero, adapt]
    rw [M.bind_ok (liftM_ok (o := ⟨traj _ s d x j, H⟩) ha)]
    have e1 : (fun i => (d (j + (i + 1)), List.ofFn (x (j + (i + 1)))))
        = fun i => (d (j + 1 + i), List.ofFn (x (j + 1 + i))) := by
      funext i; rw [Nat.add_right_comm, Nat.add_assoc]
    rw [e1, ih (j + 1)]
    congr 3
    omega

theorem realTime_traj {solve : Solver K} {k : Kind} (hk : k ≠ .ocnlms)
    (hc : ∀ a b : K, a * b = b * a)
    {s : Core K n (classOf solve k).Ext} (hs : Ready solve k s) (hn : s.nAttr = n)
    (d : ℕ → K) (x : ℕ → Vec K n) (N : ℕ) (H : List (List K)) :
    ∀ j, realTime (classOf solve k) (series (fun i => (d (j + i), List.ofFn (x (j + i)))) N)
        ⟨traj _ s d x j, H⟩
      = (.ok (series (fun i => (outAt _ s d x (j + i)).1) N), ⟨traj _ s d x (j + N), H⟩) := by
  induction N with
  | zero => intro j; rfl
  | succ N ih =>
    intro j
    have hb := body_traj (ready_safe solve k) hs hn d x j
    have hr := (traj_safe (ready_safe solve k) hs hn d x j).1
    have ha := adapt_of_body hr hb
    have hp := predict_pure hk (traj _ s d x j) (x j)
    have hp1 := (predict_of_body hc hr hb).1
    rw [hp] at hp1
    simp only [Except.ok.injEq] at hp1
    rw [hp1] at hp
    rw [series_succ, series_succ]
    simp only [realTime, Nat.add_zero, adapt, predict]
    rw [M.bind_ok (liftM_ok (o := ⟨traj _ s d x j, H⟩) hp),
      M.bind_ok (liftM_ok (o := ⟨traj _ s d x j, H⟩) ha)]
    have e1 : (fun i => (d (j + (i + 1)), List.ofFn (x (j + (i + 1)))))
        = fun i => (d (j + 1 + i), List.ofFn (x (j + 1 + i))) := by
      funext i; rw [Nat.add_right_comm, Nat.add_assoc]
    rw [e1, M.bind_ok (ih (j + 1))]
    have e2 : ∀ i, j + 1 + i = j + (i + 1) := by intro i; omega
    simp only [e2, M.pure_apply]

end Padasip
