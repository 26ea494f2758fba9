import Verif.Lemmas.Runs

/-! # What `run` reports, filter by filter (any arithmetic) -/

set_option linter.unusedSectionVars false
set_option linter.unusedSimpArgs false

namespace Padasip

theorem body_inj {S α β : Type} {y y' : α} {e e' : β} {s s' : S}
    (h : ((.ok (y, e), s) : Except Err (α × β) × S) = (.ok (y', e'), s')) :
    y' = y ∧ e' = e ∧ s' = s := by
  cases h; exact ⟨rfl, rfl, rfl⟩

section
variable {K : Type} [Scalar K] {n : ℕ}
variable {d : ℕ → K} {x : ℕ → Vec K n} {y e : ℕ → K}

theorem lms_runs {o : Obj (lms K n)} {S : ℕ → Core K n (Unit)} (h : Runs (lms K n) o d x y e S) (k : ℕ) :
    (S k).mu = o.core.mu ∧ (S k).ext = o.core.ext ∧
    y k = dot (S k).w (x k) ∧ e k = d k - y k ∧
    (S (k + 1)).w = fun i => (S k).w i + (S k).mu * x k i * e k := by
  have step : ∀ k, y k = dot (S k).w (x k) ∧ e k = d k - dot (S k).w (x k) ∧
      S (k + 1) = _ := fun k =>
    body_inj ((lms_body (S k) (d k) (x k)).symm.trans (h.step lms_safe trivial k).1)
  have inv : (S k).mu = o.core.mu ∧ (S k).ext = o.core.ext := by
    induction k with
    | zero => rw [h.1]; exact ⟨rfl, rfl⟩
    | succ k ih => rw [(step k).2.2]; exact ih
  obtain ⟨hy, he, hs⟩ := step k
  refine ⟨inv.1, inv.2, hy, by rw [he, hy], ?_⟩
  rw [hs, he]

theorem lmf_runs {o : Obj (lmf K n)} {S : ℕ → Core K n (Unit)} (h : Runs (lmf K n) o d x y e S) (k : ℕ) :
    (S k).mu = o.core.mu ∧ (S k).ext = o.core.ext ∧
    y k = dot (S k).w (x k) ∧ e k = d k - y k ∧
    (S (k + 1)).w = fun i => (S k).w i + (S k).mu * x k i * (e k * e k * e k) := by
  have step : ∀ k, y k = dot (S k).w (x k) ∧ e k = d k - dot (S k).w (x k) ∧
      S (k + 1) = _ := fun k =>
    body_inj ((lmf_body (S k) (d k) (x k)).symm.trans (h.step lmf_safe trivial k).1)
  have inv : (S k).mu = o.core.mu ∧ (S k).ext = o.core.ext := by
    induction k with
    | zero => rw [h.1]; exact ⟨rfl, rfl⟩
    | succ k ih => rw [(step k).2.2]; exact ih
  obtain ⟨hy, he, hs⟩ := step k
  refine ⟨inv.1, inv.2, hy, by rw [he, hy], ?_⟩
  rw [hs, he]

theorem sslms_runs {o : Obj (sslms K n)} {S : ℕ → Core K n (Unit)} (h : Runs (sslms K n) o d x y e S) (k : ℕ) :
    (S k).mu = o.core.mu ∧ (S k).ext = o.core.ext ∧
    y k = dot (S k).w (x k) ∧ e k = d k - y k ∧
    (S (k + 1)).w = fun i => (S k).w i + (S k).mu * Scalar.sgn (x k i) * Scalar.sgn (e k) := by
  have step : ∀ k, y k = dot (S k).w (x k) ∧ e k = d k - dot (S k).w (x k) ∧
      S (k + 1) = _ := fun k =>
    body_inj ((sslms_body (S k) (d k) (x k)).symm.trans (h.step sslms_safe trivial k).1)
  have inv : (S k).mu = o.core.mu ∧ (S k).ext = o.core.ext := by
    induction k with
    | zero => rw [h.1]; exact ⟨rfl, rfl⟩
    | succ k ih => rw [(step k).2.2]; exact ih
  obtain ⟨hy, he, hs⟩ := step k
  refine ⟨inv.1, inv.2, hy, by rw [he, hy], ?_⟩
  rw [hs, he]

theorem nlms_runs {o : Obj (nlms K n)} {S : ℕ → Core K n (EpsExt K)} (h : Runs (nlms K n) o d x y e S) (k : ℕ) :
    (S k).mu = o.core.mu ∧ (S k).ext = o.core.ext ∧
    y k = dot (S k).w (x k) ∧ e k = d k - y k ∧
    (S (k + 1)).w = fun i => (S k).w i + (S k).mu / ((S k).ext.eps + dot (x k) (x k)) * x k i * e k := by
  have step : ∀ k, y k = dot (S k).w (x k) ∧ e k = d k - dot (S k).w (x k) ∧
      S (k + 1) = _ := fun k =>
    body_inj ((nlms_body (S k) (d k) (x k)).symm.trans (h.step nlms_safe trivial k).1)
  have inv : (S k).mu = o.core.mu ∧ (S k).ext = o.core.ext := by
    induction k with
    | zero => rw [h.1]; exact ⟨rfl, rfl⟩
    | succ k ih => rw [(step k).2.2]; exact ih
  obtain ⟨hy, he, hs⟩ := step k
  refine ⟨inv.1, inv.2, hy, by rw [he, hy], ?_⟩
  rw [hs, he]

theorem nlmf_runs {o : Obj (nlmf K n)} {S : ℕ → Core K n (EpsExt K)} (h : Runs (nlmf K n) o d x y e S) (k : ℕ) :
    (S k).mu = o.core.mu ∧ (S k).ext = o.core.ext ∧
    y k = dot (S k).w (x k) ∧ e k = d k - y k ∧
    (S (k + 1)).w = fun i => (S k).w i + (S k).mu / ((S k).ext.eps + dot (x k) (x k)) * x k i * (e k * e k * e k) := by
  have step : ∀ k, y k = dot (S k).w (x k) ∧ e k = d k - dot (S k).w (x k) ∧
      S (k + 1) = _ := fun k =>
    body_inj ((nlmf_body (S k) (d k) (x k)).symm.trans (h.step nlmf_safe trivial k).1)
  have inv : (S k).mu = o.core.mu ∧ (S k).ext = o.core.ext := by
    induction k with
    | zero => rw [h.1]; exact ⟨rfl, rfl⟩
    | succ k ih => rw [(step k).2.2]; exact ih
  obtain ⟨hy, he, hs⟩ := step k
  refine ⟨inv.1, inv.2, hy, by rw [he, hy], ?_⟩
  rw [hs, he]

theorem nsslms_runs {o : Obj (nsslms K n)} {S : ℕ → Core K n (EpsExt K)} (h : Runs (nsslms K n) o d x y e S) (k : ℕ) :
    (S k).mu = o.core.mu ∧ (S k).ext = o.core.ext ∧
    y k = dot (S k).w (x k) ∧ e k = d k - y k ∧
    (S (k + 1)).w = fun i => (S k).w i + (S k).mu / ((S k).ext.eps + dot (x k) (x k)) * Scalar.sgn (x k i) * Scalar.sgn (e k) := by
  have step : ∀ k, y k = dot (S k).w (x k) ∧ e k = d k - dot (S k).w (x k) ∧
      S (k + 1) = _ := fun k =>
    body_inj ((nsslms_body (S k) (d k) (x k)).symm.trans (h.step nsslms_safe trivial k).1)
  have inv : (S k).mu = o.core.mu ∧ (S k).ext = o.core.ext := by
    induction k with
    | zero => rw [h.1]; exact ⟨rfl, rfl⟩
    | succ k ih => rw [(step k).2.2]; exact ih
  obtain ⟨hy, he, hs⟩ := step k
  refine ⟨inv.1, inv.2, hy, by rw [he, hy], ?_⟩
  rw [hs, he]

theorem gngd_runs {o : Obj (gngd K n)} {S : ℕ → Core K n (GngdExt K n)} (h : Runs (gngd K n) o d x y e S) (k : ℕ) :
    (S k).mu = o.core.mu ∧ (S k).ext.ro = o.core.ext.ro ∧
    y k = dot (S k).w (x k) ∧ e k = d k - y k ∧
    (S (k + 1)).w = (fun i => (S k).w i + (S k).mu / (gngdEps (S k) (e k) (x k) + dot (x k) (x k)) * e k * x k i) ∧
    (S (k + 1)).ext.eps = gngdEps (S k) (e k) (x k) ∧ (S (k + 1)).ext.lastE = e k ∧ (S (k + 1)).ext.lastX = x k := by
  have step : ∀ k, y k = dot (S k).w (x k) ∧ e k = d k - dot (S k).w (x k) ∧
      S (k + 1) = _ := fun k =>
    body_inj ((gngd_body (S k)  (d k) (x k)).symm.trans (h.step gngd_safe trivial k).1)
  have inv : (S k).mu = o.core.mu ∧ (S k).ext.ro = o.core.ext.ro := by
    induction k with
    | zero => rw [h.1]; exact ⟨rfl, rfl⟩
    | succ k ih => rw [(step k).2.2]; exact ih
  obtain ⟨hy, he, hs⟩ := step k
  refine ⟨inv.1, inv.2, hy, by rw [he, hy], ?_, ?_, ?_, ?_⟩ <;> rw [hs] <;> first | rfl | rw [he]

theorem mathews_runs {o : Obj (mathews K n)} {S : ℕ → Core K n (MathewsExt K n)} (h : Runs (mathews K n) o d x y e S) (k : ℕ) :
    (S k).mu = o.core.mu ∧ (S k).ext.ro = o.core.ext.ro ∧
    y k = dot (S k).w (x k) ∧ e k = d k - y k ∧
    (S (k + 1)).w = (fun i => (S k).w i + mathewsMu (S k) (e k) (x k) * e k * x k i) ∧
    (S (k + 1)).ext.lastMu = mathewsMu (S k) (e k) (x k) ∧ (S (k + 1)).ext.lastE = e k ∧ (S (k + 1)).ext.lastX = x k := by
  have step : ∀ k, y k = dot (S k).w (x k) ∧ e k = d k - dot (S k).w (x k) ∧
      S (k + 1) = _ := fun k =>
    body_inj ((mathews_body (S k)  (d k) (x k)).symm.trans (h.step mathews_safe trivial k).1)
  have inv : (S k).mu = o.core.mu ∧ (S k).ext.ro = o.core.ext.ro := by
    induction k with
    | zero => rw [h.1]; exact ⟨rfl, rfl⟩
    | succ k ih => rw [(step k).2.2]; exact ih
  obtain ⟨hy, he, hs⟩ := step k
  refine ⟨inv.1, inv.2, hy, by rw [he, hy], ?_, ?_, ?_, ?_⟩ <;> rw [hs] <;> first | rfl | rw [he]

theorem ang_runs {o : Obj (ang K n)} {S : ℕ → Core K n (AngExt K n)} (h : Runs (ang K n) o d x y e S) (k : ℕ) :
    (S k).mu = o.core.mu ∧ (S k).ext.ro = o.core.ext.ro ∧ (S k).ext.a = o.core.ext.a ∧
    y k = dot (S k).w (x k) ∧ e k = d k - y k ∧
    (S (k + 1)).w = (fun i => (S k).w i + angMu (S k) (e k) * e k * x k i) ∧
    (S (k + 1)).ext.lastMu = angMu (S k) (e k) ∧ (S (k + 1)).ext.lastE = e k ∧ (S (k + 1)).ext.lastX = x k ∧ (S (k + 1)).ext.lastFi = angFi (S k) := by
  have step : ∀ k, y k = dot (S k).w (x k) ∧ e k = d k - dot (S k).w (x k) ∧
      S (k + 1) = _ := fun k =>
    body_inj ((ang_body (S k)  (d k) (x k)).symm.trans (h.step ang_safe trivial k).1)
  have inv : (S k).mu = o.core.mu ∧ (S k).ext.ro = o.core.ext.ro ∧ (S k).ext.a = o.core.ext.a := by
    induction k with
    | zero => rw [h.1]; exact ⟨rfl, rfl, rfl⟩
    | succ k ih => rw [(step k).2.2]; exact ih
  obtain ⟨hy, he, hs⟩ := step k
  refine ⟨inv.1, inv.2.1, inv.2.2, hy, by rw [he, hy], ?_, ?_, ?_, ?_, ?_⟩ <;> rw [hs] <;> first | rfl | rw [he]

theorem benveniste_runs {o : Obj (benveniste K n)} {S : ℕ → Core K n (BenExt K n)} (h : Runs (benveniste K n) o d x y e S) (k : ℕ) :
    (S k).mu = o.core.mu ∧ (S k).ext.ro = o.core.ext.ro ∧
    y k = dot (S k).w (x k) ∧ e k = d k - y k ∧
    (S (k + 1)).w = (fun i => (S k).w i + benMu (S k) (e k) * e k * x k i) ∧
    (S (k + 1)).ext.lastMu = benMu (S k) (e k) ∧ (S (k + 1)).ext.lastE = e k ∧ (S (k + 1)).ext.lastX = x k ∧ (S (k + 1)).ext.lastFi = benFi (S k) := by
  have step : ∀ k, y k = dot (S k).w (x k) ∧ e k = d k - dot (S k).w (x k) ∧
      S (k + 1) = _ := fun k =>
    body_inj ((benveniste_body (S k) (h.step benveniste_safe trivial k).2.2 (d k) (x k)).symm.trans (h.step benveniste_safe trivial k).1)
  have inv : (S k).mu = o.core.mu ∧ (S k).ext.ro = o.core.ext.ro := by
    induction k with
    | zero => rw [h.1]; exact ⟨rfl, rfl⟩
    | succ k ih => rw [(step k).2.2]; exact ih
  obtain ⟨hy, he, hs⟩ := step k
  refine ⟨inv.1, inv.2, hy, by rw [he, hy], ?_, ?_, ?_, ?_, ?_⟩ <;> rw [hs] <;> first | rfl | rw [he]

theorem rls_runs {o : Obj (rls K n)} (hm : Scalar.eqz o.core.mu = false)
    {S : ℕ → Core K n (RlsExt K n)} (h : Runs (rls K n) o d x y e S) (k : ℕ) :
    (S k).mu = o.core.mu ∧ (S k).ext.eps = o.core.ext.eps ∧
    y k = dot (S k).w (x k) ∧ e k = d k - y k ∧
    (S (k + 1)).w = (fun i => (S k).w i + matVec (rlsR (S k).mu (S k).ext.R (x k)) (x k) i * e k) ∧
    (S (k + 1)).ext.R = rlsR (S k).mu (S k).ext.R (x k) := by
  have step : ∀ k, y k = dot (S k).w (x k) ∧ e k = d k - dot (S k).w (x k) ∧
      S (k + 1) = _ := fun k =>
    body_inj ((rls_body (S k) (h.step rls_safe hm k).2.1 (d k) (x k)).symm.trans (h.step rls_safe hm k).1)
  have inv : (S k).mu = o.core.mu ∧ (S k).ext.eps = o.core.ext.eps := by
    induction k with
    | zero => rw [h.1]; exact ⟨rfl, rfl⟩
    | succ k ih => rw [(step k).2.2]; exact ih
  obtain ⟨hy, he, hs⟩ := step k
  refine ⟨inv.1, inv.2, hy, by rw [he, hy], ?_, ?_⟩ <;> rw [hs]
  rw [he]

/-- AP: `P` is what `np.linalg.solve` returned for sample `k` -/
theorem ap_runs {solve : Solver K} {order : ℕ} (ho : 0 < order) {o : Obj (ap K n solve order)}
    (hs : ∀ X : Mat K n order, ∃ P, solve order (apGram o.core.ext.ifc X) (eye order) = .ok P)
    {S : ℕ → Core K n (ApExt K n order)} (h : Runs (ap K n solve order) o d x y e S) (k : ℕ) :
    (S k).mu = o.core.mu ∧ (S k).ext.ifc = o.core.ext.ifc ∧
    ∃ P, solve order (apGram o.core.ext.ifc (apX (S k) (x k))) (eye order) = .ok P ∧
    y k = apY (S k) (x k) ⟨0, ho⟩ ∧ e k = d k - y k ∧
    (S (k + 1)).w = (fun i => (S k).w i +
      (S k).mu * dot (apX (S k) (x k) i) (matVec P (apE (S k) (d k) (x k)))) ∧
    (S (k + 1)).ext.xMem = apX (S k) (x k) ∧ (S (k + 1)).ext.dMem = apD (S k) (d k) ∧
    (S (k + 1)).mu = o.core.mu := by
  have safe := ap_safe solve ho o.core.ext.ifc hs
  have hifc : ∀ k, (S k).ext.ifc = o.core.ext.ifc := fun k => (h.step safe rfl k).2.1
  have step : ∀ k, ∃ P, solve order (apGram o.core.ext.ifc (apX (S k) (x k))) (eye order) = .ok P ∧
      y k = apY (S k) (x k) ⟨0, ho⟩ ∧ e k = apE (S k) (d k) (x k) ⟨0, ho⟩ ∧
      S (k + 1) = { S k with
           w := fun i => (S k).w i + (S k).mu * dot (apX (S k) (x k) i) (matVec P (apE (S k) (d k) (x k)))
           ext := ⟨(S k).ext.ifc, apX (S k) (x k), apD (S k) (d k), apY (S k) (x k),
            apE (S k) (d k) (x k)⟩ } := fun k => by
    obtain ⟨P, hP⟩ := hs (apX (S k) (x k))
    exact ⟨P, hP, body_inj ((ap_body solve ho (S k) (d k) (x k) P (by rw [hifc]; exact hP)).symm.trans
      (h.step safe rfl k).1)⟩
  have inv : ∀ k, (S k).mu = o.core.mu := by
    intro k
    induction k with
    | zero => rw [h.1]; rfl
    | succ k ih =>
      obtain ⟨P, -, -, -, h4⟩ := step k
      rw [h4]; exact ih
  obtain ⟨P, hP, hy, he, hs⟩ := step k
  refine ⟨inv k, hifc k, P, hP, hy, ?_, ?_, ?_, ?_, inv (k + 1)⟩
  · rw [he, hy, apE]; rfl
  all_goals rw [hs]

end

section
variable {K : Type} [Transc K] {n : ℕ}
variable {d : ℕ → K} {x : ℕ → Vec K n} {y e : ℕ → K}

theorem gmcc_runs {o : Obj (gmcc K n)} {S : ℕ → Core K n (GmccExt K)} (h : Runs (gmcc K n) o d x y e S) (k : ℕ) :
    (S k).mu = o.core.mu ∧ (S k).ext = o.core.ext ∧
    y k = dot (S k).w (x k) ∧ e k = d k - y k ∧
    (S (k + 1)).w = fun i => (S k).w i + (S k).mu * (S k).ext.lambd * (S k).ext.alpha * Transc.exp (-(S k).ext.lambd * Transc.pow (Scalar.abs (e k)) (S k).ext.alpha) * Transc.pow (Scalar.abs (e k)) ((S k).ext.alpha - 1) * Scalar.sgn (e k) * x k i := by
  have step : ∀ k, y k = dot (S k).w (x k) ∧ e k = d k - dot (S k).w (x k) ∧
      S (k + 1) = _ := fun k =>
    body_inj ((gmcc_body (S k) (d k) (x k)).symm.trans (h.step gmcc_safe trivial k).1)
  have inv : (S k).mu = o.core.mu ∧ (S k).ext = o.core.ext := by
    induction k with
    | zero => rw [h.1]; exact ⟨rfl, rfl⟩
    | succ k ih => rw [(step k).2.2]; exact ih
  obtain ⟨hy, he, hs⟩ := step k
  refine ⟨inv.1, inv.2, hy, by rw [he, hy], ?_⟩
  rw [hs, he]

theorem llncosh_runs {o : Obj (llncosh K n)} {S : ℕ → Core K n (LlncoshExt K)} (h : Runs (llncosh K n) o d x y e S) (k : ℕ) :
    (S k).mu = o.core.mu ∧ (S k).ext = o.core.ext ∧
    y k = dot (S k).w (x k) ∧ e k = d k - y k ∧
    (S (k + 1)).w = fun i => (S k).w i + (S k).mu * Transc.tanh ((S k).ext.lambd * e k) * x k i := by
  have step : ∀ k, y k = dot (S k).w (x k) ∧ e k = d k - dot (S k).w (x k) ∧
      S (k + 1) = _ := fun k =>
    body_inj ((llncosh_body (S k) (d k) (x k)).symm.trans (h.step llncosh_safe trivial k).1)
  have inv : (S k).mu = o.core.mu ∧ (S k).ext = o.core.ext := by
    induction k with
    | zero => rw [h.1]; exact ⟨rfl, rfl⟩
    | succ k ih => rw [(step k).2.2]; exact ih
  obtain ⟨hy, he, hs⟩ := step k
  refine ⟨inv.1, inv.2, hy, by rw [he, hy], ?_⟩
  rw [hs, he]

end

end Padasip
