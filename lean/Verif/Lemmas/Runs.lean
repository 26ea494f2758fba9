import Verif.Spec.Runs
import Verif.Lemmas.Ready

/-! # One step of what `run` reports -/

set_option linter.unusedSectionVars false
set_option linter.unusedSimpArgs false

namespace Padasip

section
variable {K : Type} [Scalar K] {n : ℕ}

theorem runs_of_safe {C : FilterClass K n} {P : Core K n C.Ext → Prop} (hC : Safe C P) (o : Obj C)
    (hP : P (o.core.withN n)) (d : ℕ → K) (x : ℕ → Vec K n) :
    Runs C o d x (fun k => (outAt C (o.core.withN n) d x k).1)
      (fun k => (outAt C (o.core.withN n) d x k).2) (traj C (o.core.withN n) d x) :=
  ⟨rfl, fun N hN => run_traj hC o hP d x N hN⟩

/-- consecutive states are related by one iteration of the loop of `run` -/
theorem Runs.step {C : FilterClass K n} {P : Core K n C.Ext → Prop} (hC : Safe C P) {o : Obj C}
    (hP : P (o.core.withN n)) {d : ℕ → K} {x : ℕ → Vec K n} {y e : ℕ → K}
    {S : ℕ → Core K n C.Ext} (h : Runs C o d x y e S) (k : ℕ) :
    C.body (d k) (List.ofFn (x k)) (S k) = (.ok (y k, e k), S (k + 1)) ∧ P (S k) ∧
      (S k).nAttr = n := by
  have hS : ∀ k, S k = traj C (o.core.withN n) d x k := by
    intro k
    cases k with
    | zero => exact h.1
    | succ k =>
      have h1 := h.2 (k + 1) (by omega)
      rw [run_traj hC o hP d x (k + 1) (by omega)] at h1
      have := congrArg (fun p => p.2.core) h1
      exact this.symm
  have h1 := h.2 (k + 1) (by omega)
  rw [run_traj hC o hP d x (k + 1) (by omega)] at h1
  have h2 := congrArg Prod.fst h1
  simp only [Except.ok.injEq, Prod.mk.injEq] at h2
  have hy := series_inj h2.1 k (by omega)
  have he := series_inj h2.2.1 k (by omega)
  have hb := body_traj hC (s := o.core.withN n) hP rfl d x k
  have hs := traj_safe hC (s := o.core.withN n) hP rfl d x k
  rw [← hS, ← hS] at hb
  rw [← hS] at hs
  refine ⟨?_, hs⟩
  rw [hb, ← hy, ← he]

theorem safe_of_body {C : FilterClass K n}
    (h : ∀ s, s.nAttr = n → ∀ (d : K) (x : Vec K n),
      ∃ p s', C.body d (List.ofFn x) s = (.ok p, s') ∧ s'.nAttr = n) :
    Safe C fun _ => True := fun s _ hs d x => by
  obtain ⟨p, s', h1, h2⟩ := h s hs d x
  exact ⟨p, s', h1, trivial, h2⟩

theorem lms_safe : Safe (lms K n) fun _ => True :=
  safe_of_body fun s hs d x => ⟨_, _, lms_body s d x, hs⟩
theorem lmf_safe : Safe (lmf K n) fun _ => True :=
  safe_of_body fun s hs d x => ⟨_, _, lmf_body s d x, hs⟩
theorem sslms_safe : Safe (sslms K n) fun _ => True :=
  safe_of_body fun s hs d x => ⟨_, _, sslms_body s d x, hs⟩
theorem nlms_safe : Safe (nlms K n) fun _ => True :=
  safe_of_body fun s hs d x => ⟨_, _, nlms_body s d x, hs⟩
theorem nlmf_safe : Safe (nlmf K n) fun _ => True :=
  safe_of_body fun s hs d x => ⟨_, _, nlmf_body s d x, hs⟩
theorem nsslms_safe : Safe (nsslms K n) fun _ => True :=
  safe_of_body fun s hs d x => ⟨_, _, nsslms_body s d x, hs⟩
theorem gngd_safe : Safe (gngd K n) fun _ => True :=
  safe_of_body fun s hs d x => ⟨_, _, gngd_body s d x, hs⟩
theorem mathews_safe : Safe (mathews K n) fun _ => True :=
  safe_of_body fun s hs d x => ⟨_, _, mathews_body s d x, hs⟩
theorem ang_safe : Safe (ang K n) fun _ => True :=
  safe_of_body fun s hs d x => ⟨_, _, ang_body s d x, hs⟩
theorem benveniste_safe : Safe (benveniste K n) fun _ => True :=
  safe_of_body fun s hs d x => ⟨_, _, benveniste_body s hs d x, hs⟩
theorem rls_safe : Safe (rls K n) fun s => Scalar.eqz s.mu = false := fun s h hs d x =>
  ⟨_, _, rls_body s h d x, h, hs⟩
theorem ocnlms_safe : Safe (ocnlms K n) fun s : Core K n (OcExt K n) => OcOk s.ext :=
  fun _ h hs d x =>
  ⟨_, _, oc_body h hs d x, OcOk_storeD (OcOk_advance (OcOk_storeX (OcOk_advance h) x)) _, hs⟩
theorem ap_safe (solve : Solver K) {order : ℕ} (ho : 0 < order) (c : K)
    (hs : ∀ X : Mat K n order, ∃ P, solve order (apGram c X) (eye order) = .ok P) :
    Safe (ap K n solve order) fun s : Core K n (ApExt K n order) => s.ext.ifc = c :=
  fun s h hn d x => by
    subst h
    obtain ⟨P, hP⟩ := hs (apX s x)
    exact ⟨_, _, ap_body solve ho s d x P hP, rfl, hn⟩

end

section
variable {K : Type} [Transc K] {n : ℕ}
theorem gmcc_safe : Safe (gmcc K n) fun _ => True :=
  safe_of_body fun s hs d x => ⟨_, _, gmcc_body s d x, hs⟩
theorem llncosh_safe : Safe (llncosh K n) fun _ => True :=
  safe_of_body fun s hs d x => ⟨_, _, llncosh_body s d x, hs⟩

/-- `run` reports streams from every usable object -/
theorem runs_exists (solve : Solver K) (k : Kind) (o : Obj (classOf (n := n) solve k))
    (ho : Ready solve k o.core) (d : ℕ → K) (x : ℕ → Vec K n) :
    ∃ y e S, Runs (classOf solve k) o d x y e S :=
  ⟨_, _, _, runs_of_safe (ready_safe solve k) o ((ready_keeps solve k).withN _ n ho) d x⟩
end

end Padasip
