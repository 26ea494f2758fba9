import Verif.Lemmas.Log

/-!
# Methods that do not look at the attribute `n`
-/

set_option linter.unusedSectionVars false
set_option linter.unusedSimpArgs false

namespace Padasip

variable {K : Type} {n : ℕ} {X α β : Type}

/-- `m` neither reads nor writes `self.n`. -/
def Insens (m : M (Core K n X) α) : Prop :=
  ∀ s j, m (s.withN j) = ((m s).1, (m s).2.withN j)

theorem Insens.pure (a : α) : Insens (Pure.pure a : M (Core K n X) α) := fun _ _ => rfl
theorem Insens.raise (e : Err) : Insens (M.raise e : M (Core K n X) α) := fun _ _ => rfl
theorem Insens.lift (x : Except Err α) : Insens (M.lift x : M (Core K n X) α) := fun _ _ => rfl
theorem Insens.modify {f : Core K n X → Core K n X} (h : ∀ s j, f (s.withN j) = (f s).withN j) :
    Insens (M.modify f) := fun s j => by simp [h]
theorem Insens.bind {m : M (Core K n X) α} {f : α → M (Core K n X) β} (hm : Insens m)
    (hf : ∀ a, Insens (f a)) : Insens (m >>= f) := by
  intro s j
  rw [M.bind_apply, M.bind_apply, hm]
  rcases m s with ⟨_ | a, s'⟩
  · rfl
  · exact hf a s' j
theorem Insens.get {f : Core K n X → M (Core K n X) β} (h1 : ∀ s j, f (s.withN j) = f s)
    (h2 : ∀ s, Insens (f s)) : Insens (M.get >>= f) := by
  intro s j
  rw [M.get_bind, M.get_bind, h1]
  exact h2 s s j
theorem Insens.ite {c : Prop} [Decidable c] {a b : M (Core K n X) α} (ha : Insens a)
    (hb : Insens b) : Insens (if c then a else b) := by split <;> assumption

/-- all three methods of the class -/
structure InsensAll (C : FilterClass K n) : Prop where
  predict : ∀ x, Insens (C.predict x)
  adapt : ∀ d x, Insens (C.adapt d x)
  body : ∀ d x, Insens (C.body d x)

variable [Scalar K]

theorem insens_basePredict (x : List K) : Insens (X := X) (basePredict (n := n) x) :=
  Insens.bind (Insens.lift _) fun _ => Insens.get (fun _ _ => rfl) fun _ => Insens.pure _

theorem insensAll_mkBase {lr : K → List K → M (Core K n X) (Vec K n)}
    (h : ∀ e x, Insens (lr e x)) : InsensAll (mkBase X basePredict lr) := by
  refine ⟨fun x => insens_basePredict x, fun d x => ?_, fun d x => ?_⟩
  · exact Insens.bind (insens_basePredict x) fun _ => Insens.bind (h _ _) fun _ =>
      Insens.modify fun _ _ => rfl
  · exact Insens.bind (insens_basePredict x) fun _ => Insens.bind (h _ _) fun _ =>
      Insens.bind (Insens.modify fun _ _ => rfl) fun _ => Insens.pure _

theorem insens_apPush {order : ℕ} (d : K) (x : List K) :
    Insens (apPush (n := n) (order := order) d x) := by
  refine Insens.bind (Insens.modify fun _ _ => rfl) fun _ => Insens.ite (Insens.raise _) ?_
  exact Insens.bind (Insens.lift _) fun _ => Insens.bind (Insens.modify fun _ _ => rfl) fun _ =>
    Insens.bind (Insens.modify fun _ _ => rfl) fun _ => Insens.modify fun _ _ => rfl

theorem insens_apErr {order : ℕ} : Insens (apErr (K := K) (n := n) (order := order)) :=
  Insens.bind (Insens.modify fun _ _ => rfl) fun _ => Insens.modify fun _ _ => rfl

theorem insens_ap (solve : Solver K) (order : ℕ) : InsensAll (ap K n solve order) := by
  refine ⟨fun x => insens_basePredict x, fun d x => ?_, fun d x => ?_⟩
  · exact Insens.bind (insens_apPush d x) fun _ => Insens.bind insens_apErr fun _ =>
      Insens.get (fun _ _ => rfl) fun _ => Insens.bind (Insens.lift _) fun _ =>
        Insens.modify fun _ _ => rfl
  · by_cases h : 0 < order
    · simp only [ap, h, dif_pos]
      refine Insens.bind (insens_apPush d x) fun _ => Insens.bind insens_apErr fun _ =>
        Insens.get (fun _ _ => rfl) fun _ => Insens.bind ?_ fun _ =>
        Insens.bind (Insens.modify fun _ _ => rfl) fun _ => Insens.pure _
      exact Insens.get (fun _ _ => rfl) fun _ => Insens.bind (Insens.lift _) fun _ => Insens.pure _
    · simp only [ap, h]
      exact Insens.bind (insens_apPush d x) fun _ => Insens.pure _

theorem insens_rls : InsensAll (rls K n) := by
  refine insensAll_mkBase fun e x => ?_
  refine Insens.bind (Insens.lift _) fun _ => Insens.get (fun _ _ => rfl) fun s => ?_
  exact Insens.ite (Insens.raise _) (Insens.bind (Insens.modify fun _ _ => rfl) fun _ => Insens.pure _)

theorem insens_simple {f : Core K n X → Vec K n → Vec K n} (h : ∀ s j, f (s.withN j) = f s)
    (x : List K) :
    Insens (do
      let x ← M.lift (asVec n x)
      let s ← M.get
      pure (f s x)) :=
  Insens.bind (Insens.lift _) fun _ => Insens.get (fun s j => by rw [h]) fun _ => Insens.pure _

theorem insens_classOf {K : Type} [Transc K] (solve : Solver K) (k : Kind) (hb : k ≠ .benveniste)
    (ho : k ≠ .ocnlms) : InsensAll (classOf (n := n) solve k) := by
  cases k
  case benveniste => exact absurd rfl hb
  case ocnlms => exact absurd rfl ho
  case ap order => exact insens_ap solve order
  case rls => exact insens_rls
  case gngd =>
    refine insensAll_mkBase fun e x => ?_
    exact Insens.bind (Insens.lift _) fun _ => Insens.get (fun _ _ => rfl) fun s =>
      Insens.bind (Insens.modify fun _ _ => rfl) fun _ => Insens.pure _
  case mathews =>
    refine insensAll_mkBase fun e x => ?_
    exact Insens.bind (Insens.lift _) fun _ => Insens.get (fun _ _ => rfl) fun s =>
      Insens.bind (Insens.modify fun _ _ => rfl) fun _ => Insens.pure _
  case ang =>
    refine insensAll_mkBase fun e x => ?_
    exact Insens.bind (Insens.lift _) fun _ => Insens.get (fun _ _ => rfl) fun s =>
      Insens.bind (Insens.modify fun _ _ => rfl) fun _ => Insens.pure _
  all_goals
    refine insensAll_mkBase fun e x => ?_
    exact Insens.bind (Insens.lift _) fun _ => Insens.get (fun _ _ => rfl) fun _ => Insens.pure _

end Padasip
