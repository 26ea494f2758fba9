import Verif.Lemmas.Rules
import Verif.Spec.Ready

/-!
# Readiness: established by construction, preserved by every call, sufficient for `run` and `adapt`
-/

set_option linter.unusedSectionVars false
set_option linter.unusedSimpArgs false

namespace Padasip

/-! ## Methods that preserve a predicate on the state -/

section preserve
variable {S α β : Type}

/-- `m` keeps `P`, also when it raises. -/
def Keeps (P : S → Prop) (m : M S α) : Prop := ∀ s, P s → P (m s).2

theorem Keeps.bind {P : S → Prop} {m : M S α} {f : α → M S β} (hm : Keeps P m)
    (hf : ∀ a, Keeps P (f a)) : Keeps P (m >>= f) := by
  intro s hs
  have := hm s hs
  rw [M.bind_apply]
  rcases h : m s with ⟨_ | a, s'⟩
  · simpa [h] using this
  · rw [h] at this
    exact hf a s' this

theorem Keeps.pure {P : S → Prop} (a : α) : Keeps P (Pure.pure a : M S α) := fun _ h => h
theorem Keeps.raise {P : S → Prop} (e : Err) : Keeps P (M.raise e : M S α) := fun _ h => h
theorem Keeps.get {P : S → Prop} : Keeps P (M.get : M S S) := fun _ h => h
theorem Keeps.lift {P : S → Prop} (x : Except Err α) : Keeps P (M.lift x : M S α) := fun _ h => h
theorem Keeps.modify {P : S → Prop} {f : S → S} (h : ∀ s, P s → P (f s)) :
    Keeps P (M.modify f) := h
theorem Keeps.ite {P : S → Prop} {c : Prop} [Decidable c] {a b : M S α} (ha : Keeps P a)
    (hb : Keeps P b) : Keeps P (if c then a else b) := by split <;> assumption
/-- a `get`-bound continuation may use what is known about the state read -/
theorem Keeps.getBind {P : S → Prop} {f : S → M S β} (hf : ∀ s, P s → P ((f s) s).2) :
    Keeps P (M.get >>= f) := fun s h => hf s h

theorem Keeps.repeatM {P : S → Prop} {m : M S α} (hm : Keeps P m) (k : ℕ) :
    Keeps P (repeatM m k) := by
  induction k with
  | zero => exact Keeps.pure _
  | succ k ih => exact Keeps.bind hm fun _ => ih

end preserve

variable {K : Type} {n : ℕ}

section engine
variable [Scalar K]

theorem Keeps.liftM {α : Type} {C : FilterClass K n} {P : Core K n C.Ext → Prop}
    {m : M (Core K n C.Ext) α} (h : Keeps P m) : Keeps (fun o : Obj C => P o.core) (Obj.liftM m) := by
  intro o ho
  have := h o.core ho
  unfold Obj.liftM
  rcases hm : m o.core with ⟨r, c⟩
  rw [hm] at this
  exact this

theorem keeps_histWrite {C : FilterClass K n} {P : Core K n C.Ext → Prop} (k : ℕ) :
    Keeps (fun o : Obj C => P o.core) (histWrite k) :=
  Keeps.bind Keeps.get fun _ => Keeps.bind (Keeps.lift _) fun _ => Keeps.modify fun _ h => h

theorem keeps_runLoop {C : FilterClass K n} {P : Core K n C.Ext → Prop}
    (h : ∀ d x, Keeps P (C.body d x)) (l : List (K × List K)) :
    ∀ k, Keeps (fun o : Obj C => P o.core) (runLoop C k l) := by
  induction l with
  | nil => intro k; exact Keeps.pure _
  | cons p l ih =>
    intro k
    obtain ⟨d, x⟩ := p
    exact Keeps.bind (keeps_histWrite k) fun _ => Keeps.bind (Keeps.liftM (h d x)) fun _ =>
      Keeps.bind (ih _) fun _ => Keeps.pure _

theorem keeps_run {C : FilterClass K n} {P : Core K n C.Ext → Prop}
    (hN : ∀ s m, P s → P (s.withN m)) (h : ∀ d x, Keeps P (C.body d x)) (d : List K)
    (x : List (List K)) : Keeps (fun o : Obj C => P o.core) (run C d x) := by
  cases x with
  | nil => unfold run; split <;> exact Keeps.raise _
  | cons x0 t =>
    intro o ho
    rw [run_cons]
    split
    · exact ho
    · split
      · exact hN _ _ ho
      · exact Keeps.bind (keeps_runLoop h _ 0)
          (fun _ => Keeps.bind Keeps.get fun _ => Keeps.pure _) _ (hN _ _ ho)

theorem keeps_pretrainedRun {C : FilterClass K n} {P : Core K n C.Ext → Prop}
    (hN : ∀ s m, P s → P (s.withN m)) (h : ∀ d x, Keeps P (C.body d x)) (d : List K)
    (x : List (List K)) (q : ℚ) (m : ℕ) :
    Keeps (fun o : Obj C => P o.core) (pretrainedRun C d x q m) :=
  Keeps.bind (Keeps.repeatM (keeps_run hN h _ _) m) fun _ => keeps_run hN h _ _

theorem keeps_baseBody {X : Type} {P : Core K n X → Prop} {pr : List K → M (Core K n X) K}
    {lr : K → List K → M (Core K n X) (Vec K n)} (h1 : ∀ x, Keeps P (pr x))
    (h2 : ∀ e x, Keeps P (lr e x)) (h3 : ∀ s w, P s → P { s with w := w }) (d : K) (x : List K) :
    Keeps P (baseBody pr lr d x) :=
  Keeps.bind (h1 x) fun _ => Keeps.bind (h2 _ x) fun _ =>
    Keeps.bind (Keeps.modify fun s hs => h3 s _ hs) fun _ => Keeps.pure _

theorem keeps_baseAdapt {X : Type} {P : Core K n X → Prop} {pr : List K → M (Core K n X) K}
    {lr : K → List K → M (Core K n X) (Vec K n)} (h1 : ∀ x, Keeps P (pr x))
    (h2 : ∀ e x, Keeps P (lr e x)) (h3 : ∀ s w, P s → P { s with w := w }) (d : K) (x : List K) :
    Keeps P (baseAdapt pr lr d x) :=
  Keeps.bind (h1 x) fun _ => Keeps.bind (h2 _ x) fun _ => Keeps.modify fun s hs => h3 s _ hs

theorem keeps_basePredict {X : Type} {P : Core K n X → Prop} (x : List K) :
    Keeps P (basePredict (n := n) x) :=
  Keeps.bind (Keeps.lift _) fun _ => Keeps.bind Keeps.get fun _ => Keeps.pure _

end engine

variable [Transc K]

/-- every method of a class keeps `P` -/
structure KeepsAll (C : FilterClass K n) (P : Core K n C.Ext → Prop) : Prop where
  withN : ∀ s m, P s → P (s.withN m)
  predict : ∀ x, Keeps P (C.predict x)
  adapt : ∀ d x, Keeps P (C.adapt d x)
  body : ∀ d x, Keeps P (C.body d x)

theorem KeepsAll.exec {C : FilterClass K n} {P : Core K n C.Ext → Prop} (h : KeepsAll C P)
    (o : Obj C) (ho : P o.core) (c : Call K) : P (c.exec C o).core := by
  cases c with
  | predict x => exact Keeps.liftM (h.predict x) o ho
  | adapt d x => exact Keeps.liftM (h.adapt d x) o ho
  | run d x => exact keeps_run h.withN h.body d x o ho
  | pretrainedRun d x q m => exact keeps_pretrainedRun h.withN h.body d x q m o ho

theorem KeepsAll.execAll {C : FilterClass K n} {P : Core K n C.Ext → Prop} (h : KeepsAll C P)
    (cs : List (Call K)) : ∀ (o : Obj C), P o.core → P (execAll C o cs).core := by
  induction cs with
  | nil => intro o ho; exact ho
  | cons c cs ih => intro o ho; exact ih _ (h.exec o ho c)

theorem keepsAll_mkBase {X : Type} {P : Core K n X → Prop} {pr : List K → M (Core K n X) K}
    {lr : K → List K → M (Core K n X) (Vec K n)} (hN : ∀ s m, P s → P (Core.withN s m))
    (h1 : ∀ x, Keeps P (pr x))
    (h2 : ∀ e x, Keeps P (lr e x)) (h3 : ∀ s w, P s → P { s with w := w }) :
    KeepsAll (mkBase X pr lr) P :=
  ⟨hN, h1, fun d x => keeps_baseAdapt h1 h2 h3 d x, fun d x => keeps_baseBody h1 h2 h3 d x⟩

theorem keepsAll_true (C : FilterClass K n) : KeepsAll C fun _ => True :=
  ⟨fun _ _ _ => trivial, fun _ _ _ => trivial, fun _ _ _ _ => trivial, fun _ _ _ _ => trivial⟩

/-! ## The three filters with a condition -/

theorem rls_keeps : KeepsAll (rls K n) fun s => Scalar.eqz s.mu = false := by
  refine keepsAll_mkBase (fun _ _ h => h) (fun x => keeps_basePredict x) ?_ (fun _ _ h => h)
  intro e x
  refine Keeps.bind (Keeps.lift _) fun _ => Keeps.bind Keeps.get fun s => ?_
  refine Keeps.ite (Keeps.raise _) (Keeps.bind (Keeps.modify fun _ h => h) fun _ => Keeps.pure _)

theorem keeps_ocRead : Keeps (fun s : Core K n (OcExt K n) => OcOk s.ext) ocRead :=
  Keeps.bind Keeps.get fun _ => Keeps.bind (Keeps.lift _) fun _ =>
    Keeps.bind (Keeps.modify fun _ h => OcOk_advance h) fun _ => Keeps.pure _

theorem keeps_ocUpdateX (x : Vec K n) :
    Keeps (fun s : Core K n (OcExt K n) => OcOk s.ext) (ocUpdateX x) :=
  Keeps.bind Keeps.get fun _ =>
    Keeps.ite (Keeps.modify fun _ h => OcOk_storeX h x) (Keeps.raise _)

theorem keeps_ocUpdateD (d : K) :
    Keeps (fun s : Core K n (OcExt K n) => OcOk s.ext) (ocUpdateD d) := by
  refine Keeps.bind Keeps.get fun _ => Keeps.ite (Keeps.raise _) (Keeps.modify ?_)
  intro s h
  simpa [OcOk] using h

theorem ocnlms_keeps : KeepsAll (ocnlms K n) fun s : Core K n (OcExt K n) => OcOk s.ext := by
  refine keepsAll_mkBase (fun _ _ h => h) ?_ ?_ (fun _ _ h => h)
  · intro x
    exact Keeps.bind keeps_ocRead fun _ => Keeps.bind (Keeps.lift _) fun _ =>
      Keeps.bind (Keeps.lift _) fun _ => Keeps.bind Keeps.get fun _ => Keeps.pure _
  · intro e x
    exact Keeps.bind (Keeps.lift _) fun _ => Keeps.bind (keeps_ocUpdateX _) fun _ =>
      Keeps.bind keeps_ocRead fun _ => Keeps.bind (Keeps.lift _) fun _ =>
      Keeps.bind (Keeps.lift _) fun _ => Keeps.bind Keeps.get fun _ =>
      Keeps.bind (keeps_ocUpdateD _) fun _ => Keeps.pure _

theorem keeps_apPush {order : ℕ} (c : K) (d : K) (x : List K) :
    Keeps (fun s : Core K n (ApExt K n order) => s.ext.ifc = c) (apPush d x) := by
  refine Keeps.bind (Keeps.modify fun _ h => h) fun _ => Keeps.ite (Keeps.raise _) ?_
  exact Keeps.bind (Keeps.lift _) fun _ => Keeps.bind (Keeps.modify fun _ h => h) fun _ =>
    Keeps.bind (Keeps.modify fun _ h => h) fun _ => Keeps.modify fun _ h => h

theorem keeps_apErr {order : ℕ} (c : K) :
    Keeps (fun s : Core K n (ApExt K n order) => s.ext.ifc = c) apErr :=
  Keeps.bind (Keeps.modify fun _ h => h) fun _ => Keeps.modify fun _ h => h

theorem ap_keeps (solve : Solver K) (order : ℕ) (c : K) :
    KeepsAll (ap K n solve order) fun s : Core K n (ApExt K n order) => s.ext.ifc = c := by
  refine ⟨fun _ _ h => h, fun x => keeps_basePredict x, ?_, ?_⟩
  · intro d x
    exact Keeps.bind (keeps_apPush c d x) fun _ => Keeps.bind (keeps_apErr c) fun _ =>
      Keeps.bind Keeps.get fun _ => Keeps.bind (Keeps.lift _) fun _ => Keeps.modify fun _ h => h
  · intro d x
    by_cases h : 0 < order
    · simp only [ap, h, dif_pos]
      exact Keeps.bind (keeps_apPush c d x) fun _ => Keeps.bind (keeps_apErr c) fun _ =>
        Keeps.bind Keeps.get fun _ =>
        Keeps.bind (Keeps.bind Keeps.get fun _ => Keeps.bind (Keeps.lift _) fun _ => Keeps.pure _)
          fun _ => Keeps.bind (Keeps.modify fun _ h => h) fun _ => Keeps.pure _
    · simp only [ap, h]
      exact Keeps.bind (keeps_apPush c d x) fun _ => Keeps.pure _

/-- Readiness survives every call. -/
theorem ready_keeps (solve : Solver K) (k : Kind) :
    KeepsAll (classOf (n := n) solve k) (Ready solve k) := by
  cases k
  case rls => exact rls_keeps
  case ocnlms => exact ocnlms_keeps
  case ap order =>
    have key : ∀ c, KeepsAll (ap K n solve order) fun s : Core K n (ApExt K n order) => s.ext.ifc = c :=
      ap_keeps solve order
    refine ⟨fun _ _ h => h, fun x s hs => ?_, fun d x s hs => ?_, fun d x s hs => ?_⟩
    · have := (key s.ext.ifc).predict x s rfl
      refine ⟨hs.1, fun X => ?_⟩
      have h2 := hs.2 X
      simp only at this h2 ⊢
      rw [← this] at h2
      exact h2
    · have := (key s.ext.ifc).adapt d x s rfl
      refine ⟨hs.1, fun X => ?_⟩
      have h2 := hs.2 X
      simp only at this h2 ⊢
      rw [← this] at h2
      exact h2
    · have := (key s.ext.ifc).body d x s rfl
      refine ⟨hs.1, fun X => ?_⟩
      have h2 := hs.2 X
      simp only at this h2 ⊢
      rw [← this] at h2
      exact h2
  all_goals exact keepsAll_true _

/-- A ready filter processes every well-shaped sample. -/
theorem ready_safe (solve : Solver K) (k : Kind) :
    Safe (classOf (n := n) solve k) (Ready solve k) := by
  intro s hs hn d x
  cases k
  case lms => exact ⟨_, _, lms_body s d x, trivial, hn⟩
  case lmf => exact ⟨_, _, lmf_body s d x, trivial, hn⟩
  case sslms => exact ⟨_, _, sslms_body s d x, trivial, hn⟩
  case nlms => exact ⟨_, _, nlms_body s d x, trivial, hn⟩
  case nlmf => exact ⟨_, _, nlmf_body s d x, trivial, hn⟩
  case nsslms => exact ⟨_, _, nsslms_body s d x, trivial, hn⟩
  case gngd => exact ⟨_, _, gngd_body s d x, trivial, hn⟩
  case mathews => exact ⟨_, _, mathews_body s d x, trivial, hn⟩
  case ang => exact ⟨_, _, ang_body s d x, trivial, hn⟩
  case benveniste => exact ⟨_, _, benveniste_body s hn d x, trivial, hn⟩
  case gmcc => exact ⟨_, _, gmcc_body s d x, trivial, hn⟩
  case llncosh => exact ⟨_, _, llncosh_body s d x, trivial, hn⟩
  case rls => exact ⟨_, _, rls_body s hs d x, hs, hn⟩
  case ocnlms =>
    refine ⟨_, _, oc_body (s := s) hs hn d x, ?_, hn⟩
    exact OcOk_storeD (OcOk_advance (OcOk_storeX (OcOk_advance hs) x)) _
  case ap order =>
    obtain ⟨P, hP⟩ := hs.2 (apX s x)
    exact ⟨_, _, ap_body solve hs.1 s d x P hP, hs, hn⟩

/-- A constructed filter is ready and has `self.n` equal to its size. -/
theorem construct_ready {env : Env K} {t : Tag} {kw : Kwargs K} (hp : ParamsOk env t kw)
    {f : AnyFilter K env} (hf : construct env t kw = .ok f) :
    Ready env.solve f.kind f.obj.core ∧ f.obj.core.nAttr = f.n ∧ kw.n = some f.n := by
  unfold construct at hf
  split at hf
  · cases hf
  · split at hf
    · rename_i m mu hm hmu
      split at hf
      · rename_i w hw
        unfold initExt at hf
        cases t <;> simp only at hf
        case rls =>
          unfold rlsInit at hf
          by_cases he : Scalar.eqz (kw.eps.getD (lit 1 1000)) = true
          · simp [he] at hf
          · simp [he] at hf
            subst hf
            exact ⟨hp.1 rfl _ hmu, rfl, hm⟩
        case ocnlms =>
          cases hf
          have := hp.2.1 rfl
          refine ⟨?_, rfl, hm⟩
          show OcOk _
          simp [OcOk, ocClear]
          omega
        case ap =>
          cases hf
          have := hp.2.2 rfl
          exact ⟨⟨this.1, fun X => this.2 _ X⟩, rfl, hm⟩
        all_goals
          cases hf
          exact ⟨trivial, rfl, hm⟩
      · cases hf
    · cases hf

end Padasip
