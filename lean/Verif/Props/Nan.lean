import Verif.Spec.Nan
import Verif.Lemmas.Runs

/-!
# C38: one NaN sample poisons a filter for ever
-/

set_option linter.unusedSectionVars false
set_option linter.unusedSimpArgs false

namespace Padasip

variable {K : Type} [Transc K] {n : ℕ} {nan : K → Prop}

section lemmas
variable (L : NanLaws nan)

include L in
theorem nan_vsum {f : Vec K n} (h : ∃ i, nan (f i)) : nan (vsum f) := by
  obtain ⟨i, hi⟩ := h
  unfold vsum
  have hm : f i ∈ List.ofFn f := List.mem_ofFn.mpr ⟨i, rfl⟩
  revert hm
  generalize List.ofFn f = l
  intro hm
  induction l with
  | nil => exact absurd hm (by simp)
  | cons a t ih =>
    rw [List.sum_cons]
    rcases List.mem_cons.mp hm with h | h
    · exact L.add_left _ _ (h ▸ hi)
    · exact L.add_right _ _ (ih h)

include L in
theorem nan_dot_left {u v : Vec K n} (h : ∃ i, nan (u i)) : nan (dot u v) :=
  nan_vsum L (h.imp fun _ h => L.mul_left _ _ h)

include L in
theorem nan_dot_right {u v : Vec K n} (h : ∃ i, nan (v i)) : nan (dot u v) :=
  nan_vsum L (h.imp fun _ h => L.mul_right _ _ h)

/-- the sample or the filter contains a NaN that reaches the output -/
def Tainted (nan : K → Prop) (w x : Vec K n) : Prop := (∃ i, nan (x i)) ∨ ∃ i, nan (w i)

include L in
theorem nan_dot {w x : Vec K n} (h : Tainted nan w x) : nan (dot w x) :=
  h.elim (nan_dot_right L) (nan_dot_left L)

include L in
/-- one processed sample -/
theorem nan_step (solve : Solver K) (k : Kind) (s : Core K n (classOf (n := n) solve k).Ext)
    (hs : Ready solve k s) (hn : s.nAttr = n) (d : K) (x : Vec K n) {y e : K} {s'}
    (hb : (classOf solve k).body d (List.ofFn x) s = (.ok (y, e), s')) :
    (Tainted nan s.w x → nan y) ∧ (nan d ∨ Tainted nan s.w x → nan e ∧ ∀ i, nan (s'.w i)) := by
  have fin : ∀ (Y E : K) (s'' : Core K n (classOf (n := n) solve k).Ext),
      (classOf solve k).body d (List.ofFn x) s = (.ok (Y, E), s'') → E = d - Y →
      (Tainted nan s.w x → nan Y) → (nan E → ∀ i, nan (s''.w i)) →
      (Tainted nan s.w x → nan y) ∧ (nan d ∨ Tainted nan s.w x → nan e ∧ ∀ i, nan (s'.w i)) := by
    intro Y E s'' h1 h2 h3 h4
    rw [hb] at h1
    have h5 := (Prod.mk.inj (Except.ok.inj (Prod.mk.inj h1).1))
    have h6 := (Prod.mk.inj h1).2
    rw [h5.1, h5.2, h6]
    refine ⟨h3, fun h => ?_⟩
    have he : nan E := by
      rw [h2]
      exact h.elim (fun h => L.sub_left _ _ h) fun h => L.sub_right _ _ (h3 h)
    exact ⟨he, h4 he⟩
  cases k
  case lms =>
    exact fin _ _ _ (lms_body s d x) rfl (nan_dot L) fun h i => L.add_right _ _ (L.mul_right _ _ h)
  case lmf =>
    exact fin _ _ _ (lmf_body s d x) rfl (nan_dot L) fun h i =>
      L.add_right _ _ (L.mul_right _ _ (L.mul_right _ _ h))
  case sslms =>
    exact fin _ _ _ (sslms_body s d x) rfl (nan_dot L) fun h i =>
      L.add_right _ _ (L.mul_right _ _ (L.sgn _ h))
  case nlms =>
    exact fin _ _ _ (nlms_body s d x) rfl (nan_dot L) fun h i => L.add_right _ _ (L.mul_right _ _ h)
  case nlmf =>
    exact fin _ _ _ (nlmf_body s d x) rfl (nan_dot L) fun h i =>
      L.add_right _ _ (L.mul_right _ _ (L.mul_right _ _ h))
  case nsslms =>
    exact fin _ _ _ (nsslms_body s d x) rfl (nan_dot L) fun h i =>
      L.add_right _ _ (L.mul_right _ _ (L.sgn _ h))
  case gngd =>
    exact fin _ _ _ (gngd_body s d x) rfl (nan_dot L) fun h i =>
      L.add_right _ _ (L.mul_left _ _ (L.mul_right _ _ h))
  case mathews =>
    exact fin _ _ _ (mathews_body s d x) rfl (nan_dot L) fun h i =>
      L.add_right _ _ (L.mul_left _ _ (L.mul_right _ _ h))
  case ang =>
    exact fin _ _ _ (ang_body s d x) rfl (nan_dot L) fun h i =>
      L.add_right _ _ (L.mul_left _ _ (L.mul_right _ _ h))
  case benveniste =>
    exact fin _ _ _ (benveniste_body s hn d x) rfl (nan_dot L) fun h i =>
      L.add_right _ _ (L.mul_left _ _ (L.mul_right _ _ h))
  case gmcc =>
    exact fin _ _ _ (gmcc_body s d x) rfl (nan_dot L) fun h i =>
      L.add_right _ _ (L.mul_left _ _ (L.mul_right _ _ (L.sgn _ h)))
  case llncosh =>
    exact fin _ _ _ (llncosh_body s d x) rfl (nan_dot L) fun h i =>
      L.add_right _ _ (L.mul_left _ _ (L.mul_right _ _ (L.tanh _ (L.mul_right _ _ h))))
  case rls =>
    exact fin _ _ _ (rls_body s hs d x) rfl (nan_dot L) fun h i => L.add_right _ _ (L.mul_right _ _ h)
  case ocnlms =>
    refine fin _ _ _ (oc_body (s := s) hs hn d x) rfl ?_ fun h i =>
      L.add_right _ _ (L.mul_left _ _ (L.mul_right _ _ h))
    intro h
    refine L.add_left _ _ (nan_dot L ?_)
    exact h.imp (fun h => h.imp fun _ h => L.sub_left _ _ h) id
  case ap order =>
    obtain ⟨P, hP⟩ := hs.2 (apX s x)
    refine fin _ _ _ (ap_body solve hs.1 s d x P hP) rfl ?_ fun h i => ?_
    · intro h
      show nan (dot (fun i => apX s x i ⟨0, hs.1⟩) s.w)
      rcases h with ⟨i, h⟩ | h
      · exact nan_dot_left L ⟨i, h⟩
      · exact nan_dot_right L h
    · refine L.add_right _ _ (L.mul_right _ _ (nan_dot_right L ⟨⟨0, hs.1⟩, ?_⟩))
      exact nan_dot_right L ⟨⟨0, hs.1⟩, h⟩

end lemmas

/-- C38: in any arithmetic in which NaN propagates, if during a `run` of any filter the target of sample `k0` or a component of its
input is a NaN, then the error of that sample is a NaN, and after it every weight is a NaN and every later output and error is a
NaN, whatever the later data (filters of size at least 1). -/
theorem C38_run (L : NanLaws nan) (solve : Solver K) (k : Kind) (o : Obj (classOf (n := n) solve k))
    (ho : Ready solve k o.core) {d : ℕ → K} {x : ℕ → Vec K n} {y e : ℕ → K}
    {S : ℕ → Core K n (classOf (n := n) solve k).Ext} (h : Runs (classOf solve k) o d x y e S) (hn : 0 < n) (k0 : ℕ)
    (hk : nan (d k0) ∨ ∃ i, nan (x k0 i)) :
    nan (e k0) ∧ ∀ j, k0 < j → (∀ i, nan ((S j).w i)) ∧ nan (y j) ∧ nan (e j) := by
  have hP : Ready solve k (o.core.withN n) := (ready_keeps solve k).withN _ n ho
  have st : ∀ j, _ := fun j =>
    have q := h.step (ready_safe solve k) hP j
    nan_step L solve k (S j) q.2.1 q.2.2 (d j) (x j) q.1
  have h0 := (st k0).2 (hk.imp id Or.inl)
  have hw : ∀ m i, nan ((S (k0 + 1 + m)).w i) := by
    intro m
    induction m with
    | zero => exact h0.2
    | succ m ih => exact ((st (k0 + 1 + m)).2 (.inr (.inr ⟨⟨0, hn⟩, ih _⟩))).2
  refine ⟨h0.1, fun j hj => ?_⟩
  obtain ⟨m, rfl⟩ : ∃ m, j = k0 + 1 + m := ⟨j - (k0 + 1), by omega⟩
  have t : Tainted nan (S (k0 + 1 + m)).w (x (k0 + 1 + m)) := .inr ⟨⟨0, hn⟩, hw m _⟩
  exact ⟨hw m, (st _).1 t, ((st _).2 (.inr t)).1⟩

/-- the hypotheses are met, e.g. by an NLMS filter over the rationals with a NaN, and a NaN as third target -/
example : ∃ (o : Obj (classOf (K := NanRat) (n := 2) (fun _ _ B => .ok B) .nlms)) (d : ℕ → NanRat) (x : ℕ → Vec NanRat 2)
    (y e : ℕ → NanRat) (S : ℕ → _), NanLaws (fun a : NanRat => a = none) ∧ Ready (fun _ _ B => .ok B) .nlms o.core ∧
    Runs (classOf (fun _ _ B => .ok B) .nlms) o d x y e S ∧ d 2 = none ∧ d 0 ≠ none :=
  ⟨⟨⟨fun _ => (1 : NanRat), 2, (1 : NanRat), (⟨1⟩ : EpsExt NanRat)⟩, []⟩, fun k => if k = 2 then none else (1 : NanRat),
    fun _ _ => 1, _, _, _, NanRat.laws, trivial, runs_of_safe nlms_safe _ trivial _ _, rfl, by
      show (some (1 : ℚ)) ≠ none
      simp⟩

section history
variable {p : Fin n → K → Prop} (hadd : ∀ i a b, p i a → p i (a + b))

/-- weight `i` satisfies `p i`, for all `i` -/
def AllW (p : Fin n → K → Prop) {X : Type} (s : Core K n X) : Prop := ∀ i, p i (s.w i)

include hadd in
theorem keepsNan_mkBase {X : Type} {pr : List K → M (Core K n X) K}
    {lr : K → List K → M (Core K n X) (Vec K n)} (h1 : ∀ x, Keeps (AllW p) (pr x))
    (h2 : ∀ e x, Keeps (AllW p) (lr e x)) : KeepsAll (mkBase X pr lr) (AllW p) where
  withN _ _ h := h
  predict := h1
  adapt _ x := Keeps.bind (h1 x) fun _ => Keeps.bind (h2 _ x) fun _ =>
    Keeps.modify fun _ h i => hadd i _ _ (h i)
  body _ x := Keeps.bind (h1 x) fun _ => Keeps.bind (h2 _ x) fun _ =>
    Keeps.bind (Keeps.modify fun _ h i => hadd i _ _ (h i)) fun _ => Keeps.pure _

theorem keepsNan_ocRead : Keeps (AllW p) (ocRead (K := K)) :=
  Keeps.bind Keeps.get fun _ => Keeps.bind (Keeps.lift _) fun _ =>
    Keeps.bind (Keeps.modify fun _ h => h) fun _ => Keeps.pure _

theorem keepsNan_apPush {order : ℕ} (d : K) (x : List K) :
    Keeps (AllW p) (apPush (n := n) (order := order) d x) := by
  refine Keeps.bind (Keeps.modify fun _ h => h) fun _ => Keeps.ite (Keeps.raise _) ?_
  exact Keeps.bind (Keeps.lift _) fun _ => Keeps.bind (Keeps.modify fun _ h => h) fun _ =>
    Keeps.bind (Keeps.modify fun _ h => h) fun _ => Keeps.modify fun _ h => h

theorem keepsNan_apErr {order : ℕ} : Keeps (AllW p) (apErr (K := K) (n := n) (order := order)) :=
  Keeps.bind (Keeps.modify fun _ h => h) fun _ => Keeps.modify fun _ h => h

include hadd in
theorem weights_keep (solve : Solver K) (k : Kind) : KeepsAll (classOf (n := n) solve k) (AllW p) := by
  have pure1 : ∀ {X : Type} (x : List K) (f : Vec K n → Core K n X → Vec K n),
      Keeps (AllW p) (M.lift (asVec n x) >>= fun v => M.get >>= fun s => Pure.pure (f v s) : M (Core K n X) (Vec K n)) :=
    fun x f => Keeps.bind (Keeps.lift _) fun _ => Keeps.bind Keeps.get fun _ => Keeps.pure _
  cases k
  case ocnlms =>
    refine keepsNan_mkBase hadd ?_ ?_
    · intro x
      exact Keeps.bind keepsNan_ocRead fun _ => Keeps.bind (Keeps.lift _) fun _ =>
        Keeps.bind (Keeps.lift _) fun _ => Keeps.bind Keeps.get fun _ => Keeps.pure _
    · intro e x
      exact Keeps.bind (Keeps.lift _) fun _ =>
        Keeps.bind (Keeps.bind Keeps.get fun _ => Keeps.ite (Keeps.modify fun _ h => h) (Keeps.raise _)) fun _ =>
        Keeps.bind keepsNan_ocRead fun _ => Keeps.bind (Keeps.lift _) fun _ =>
        Keeps.bind (Keeps.lift _) fun _ => Keeps.bind Keeps.get fun _ =>
        Keeps.bind (Keeps.bind Keeps.get fun _ => Keeps.ite (Keeps.raise _) (Keeps.modify fun _ h => h)) fun _ =>
        Keeps.pure _
  case ap order =>
    refine ⟨fun _ _ h => h, fun x => keeps_basePredict x, fun d x => ?_, fun d x => ?_⟩
    · exact Keeps.bind (keepsNan_apPush d x) fun _ => Keeps.bind keepsNan_apErr fun _ =>
        Keeps.bind Keeps.get fun _ => Keeps.bind (Keeps.lift _) fun _ =>
        Keeps.modify fun _ h i => hadd i _ _ (h i)
    · by_cases h : 0 < order
      · simp only [classOf, ap, h, dif_pos]
        exact Keeps.bind (keepsNan_apPush d x) fun _ => Keeps.bind keepsNan_apErr fun _ =>
          Keeps.bind Keeps.get fun _ =>
          Keeps.bind (Keeps.bind Keeps.get fun _ => Keeps.bind (Keeps.lift _) fun _ => Keeps.pure _)
            fun _ => Keeps.bind (Keeps.modify fun _ h i => hadd i _ _ (h i)) fun _ => Keeps.pure _
      · simp only [classOf, ap, h]
        exact Keeps.bind (keepsNan_apPush d x) fun _ => Keeps.pure _
  case rls =>
    refine keepsNan_mkBase hadd (fun x => keeps_basePredict x) fun e x => ?_
    refine Keeps.bind (Keeps.lift _) fun _ => Keeps.bind Keeps.get fun s => ?_
    exact Keeps.ite (Keeps.raise _) (Keeps.bind (Keeps.modify fun _ h => h) fun _ => Keeps.pure _)
  case gngd | mathews | ang =>
    refine keepsNan_mkBase hadd (fun x => keeps_basePredict x) fun e x => ?_
    exact Keeps.bind (Keeps.lift _) fun _ => Keeps.bind Keeps.get fun _ =>
      Keeps.bind (Keeps.modify fun _ h => h) fun _ => Keeps.pure _
  case benveniste =>
    refine keepsNan_mkBase hadd (fun x => keeps_basePredict x) fun e x => ?_
    exact Keeps.bind (Keeps.lift _) fun _ => Keeps.bind Keeps.get fun _ =>
      Keeps.bind (Keeps.lift _) fun _ => Keeps.bind (Keeps.modify fun _ h => h) fun _ => Keeps.pure _
  all_goals
    refine keepsNan_mkBase hadd (fun x => keeps_basePredict x) fun e x => ?_
    exact Keeps.bind (Keeps.lift _) fun _ => Keeps.bind Keeps.get fun _ => Keeps.pure _

/-- C38 (for ever): once every weight is a NaN, no history of calls on the object - successful or raising - makes any weight a
number again. -/
theorem C38_for_ever (L : NanLaws nan) (solve : Solver K) (k : Kind) (o : Obj (classOf (n := n) solve k))
    (hw : ∀ i, nan (o.core.w i)) (calls : List (Call K)) (i : Fin n) :
    nan ((execAll (classOf solve k) o calls).core.w i) :=
  (weights_keep (p := fun _ => nan) (fun _ => L.add_left) solve k).execAll calls o hw i

example : ∃ o : Obj (classOf (K := NanRat) (n := 1) (fun _ _ B => .ok B) .lms), ∀ i, o.core.w i = none :=
  ⟨⟨⟨fun _ => none, 1, (1 : NanRat), ()⟩, []⟩, fun _ => rfl⟩

end history
end Padasip
