import Verif.Model.Factory
import Verif.Lemmas.Engine
import Verif.Lemmas.Ready
import Verif.Spec.Example

/-!
# C42-C44: the factory functions `get_filter`, `AdaptiveFilter`, `filter_data`
-/

set_option linter.unusedSectionVars false
set_option linter.unusedSimpArgs false

namespace Padasip

/-! ## Specification -/

/-- The documented name of each class, in capitals. -/
def Tag.key : Tag → String
  | .ap => "AP" | .gmcc => "GMCC" | .gngd => "GNGD" | .llncosh => "LLNCOSH" | .lmf => "LMF"
  | .lms => "LMS" | .nlmf => "NLMF" | .nlms => "NLMS" | .nsslms => "NSSLMS" | .ocnlms => "OCNLMS"
  | .rls => "RLS" | .sslms => "SSLMS" | .vslmsAng => "VSLMS_ANG"
  | .vslmsBenveniste => "VSLMS_BENVENISTE" | .vslmsMathews => "VSLMS_MATHEWS"

/-- All that is assumed about `str.upper`: its value on the fifteen class names. -/
def UpperOk (upper : String → String) : Prop := ∀ t : Tag, upper t.kind = t.key

/-- ASCII upper-casing (Python's `str.upper` agrees with it on ASCII strings) -/
def asciiUpper (s : String) : String := String.ofList (s.toList.map Char.toUpper)

/-- ASCII upper-casing meets the assumption. -/
theorem asciiUpper_ok : UpperOk asciiUpper := by
  intro t; cases t <;> simp [asciiUpper, Tag.kind, Tag.key]

/-- The keywords of the documented signature of each constructor. -/
def Tag.signature : Tag → List String
  | .lms | .lmf | .sslms => ["n", "mu", "w"]
  | .nlms | .nlmf | .nsslms => ["n", "mu", "eps", "w"]
  | .gngd => ["n", "mu", "eps", "ro", "w"]
  | .vslmsMathews | .vslmsBenveniste => ["n", "mu", "ro", "w"]
  | .vslmsAng => ["n", "mu", "ro", "a", "w"]
  | .gmcc => ["n", "mu", "lambd", "alpha", "w"]
  | .llncosh => ["n", "mu", "lambd", "w"]
  | .rls => ["n", "mu", "eps", "w"]
  | .ocnlms => ["n", "mu", "eps", "mem", "w"]
  | .ap => ["n", "mu", "order", "ifc", "w"]

/-- The keywords of a call (`"..."` stands for one that no filter knows). -/
def Kwargs.keys {K : Type} (kw : Kwargs K) : List String :=
  (if kw.n.isSome then ["n"] else []) ++ (if kw.mu.isSome then ["mu"] else [])
  ++ (if kw.w.isSome then ["w"] else []) ++ (if kw.eps.isSome then ["eps"] else [])
  ++ (if kw.ro.isSome then ["ro"] else []) ++ (if kw.a.isSome then ["a"] else [])
  ++ (if kw.lambd.isSome then ["lambd"] else []) ++ (if kw.alpha.isSome then ["alpha"] else [])
  ++ (if kw.mem.isSome then ["mem"] else []) ++ (if kw.order.isSome then ["order"] else [])
  ++ (if kw.ifc.isSome then ["ifc"] else []) ++ (if kw.other then ["..."] else [])

/-- The classes whose signature has no default for `mu`. -/
def Tag.muRequired (t : Tag) : Prop := t = .lms ∨ t = .lmf ∨ t = .sslms ∨ t = .ap

/-! ## C42 -/

section c42
variable {upper : String → String}

theorem filtersDict_eq (hu : UpperOk upper) : filtersDict upper = filterClasses.map fun t => (t.key, t) := by
  unfold filtersDict
  have : (fun (dct : List (String × Tag)) (t : Tag) => dictSet (upper t.kind) t dct)
      = fun dct t => dictSet t.key t dct := by funext dct t; rw [hu t]
  rw [this]
  decide +kernel

/-- C42: distinct classes have distinct names, so no class shadows another. -/
theorem C42_keys_distinct (t t' : Tag) (h : t.key = t'.key) : t = t' := by
  revert h; cases t <;> cases t' <;> decide +kernel

theorem dictGet_keys (s : String) (l : List Tag) (t : Tag) :
    dictGet s (l.map fun t => (t.key, t)) = some t ↔ t ∈ l ∧ t.key = s := by
  induction l with
  | nil => simp [dictGet]
  | cons a l ih =>
    simp only [List.map_cons, dictGet]
    by_cases h : a.key = s
    · rw [if_pos h]
      constructor
      · intro he; cases he; exact ⟨List.mem_cons_self, h⟩
      · rintro ⟨-, h2⟩; rw [C42_keys_distinct a t (h.trans h2.symm)]
    · rw [if_neg h, ih]
      constructor
      · rintro ⟨h1, h2⟩; exact ⟨List.mem_cons_of_mem _ h1, h2⟩
      · rintro ⟨h1, h2⟩
        rcases List.mem_cons.mp h1 with rfl | h1
        · exact absurd h2 h
        · exact ⟨h1, h2⟩

theorem lookup_iff (hu : UpperOk upper) (name : String) (t : Tag) :
    dictGet (upper name) (filtersDict upper) = some t ↔ upper name = t.key := by
  rw [filtersDict_eq hu, dictGet_keys]
  constructor
  · exact fun h => h.2.symm
  · exact fun h => ⟨by cases t <;> decide, h.symm⟩

/-- C42: `get_filter(name)` is the class `t` exactly if the upper-case form of `name` is the documented name of `t` in capitals. -/
theorem C42_get_filter (hu : UpperOk upper) (name : String) (t : Tag) :
    getFilter upper name = .ok t ↔ upper name = t.key := by
  rw [← lookup_iff hu]
  unfold getFilter
  cases dictGet (upper name) (filtersDict upper) <;> simp

/-- C42: every other name raises `ValueError`. -/
theorem C42_unknown (hu : UpperOk upper) (name : String) (h : ∀ t : Tag, upper name ≠ t.key) :
    getFilter upper name = .error .valueError := by
  unfold getFilter
  cases hd : dictGet (upper name) (filtersDict upper) with
  | none => rfl
  | some t => exact absurd ((lookup_iff hu name t).mp hd) (h t)

/-- C42: every class is reachable, under its own `kind` as well as under the capitals. -/
theorem C42_reachable (hu : UpperOk upper) (t : Tag) :
    getFilter upper t.kind = .ok t ∧ (upper t.key = t.key → getFilter upper t.key = .ok t) :=
  ⟨(C42_get_filter hu _ _).mpr (hu t), fun h => (C42_get_filter hu _ _).mpr h⟩

/-- C42: the three entry points resolve names alike: `AdaptiveFilter` (with `n`) and `filter_data` raise `ValueError` on the names
`get_filter` rejects, and otherwise use the class it returns. -/
theorem C42_entry_points {K : Type} [Transc K] (env : Env K) (name : String) (kw : Kwargs K) (n : ℕ) (d : List K)
    (x : List (List K)) :
    (∀ err, getFilter upper name = .error err → err = .valueError ∧
      (adaptiveFilter env upper name { kw with n := some n } = .error .valueError) ∧
      filterData env upper d x n name kw = .error .valueError) ∧
    (∀ t, getFilter upper name = .ok t →
      adaptiveFilter env upper name { kw with n := some n } = construct env t { kw with n := some n } ∧
      filterData env upper d x n name kw = (match construct env t { kw with n := some n } with
        | .error e => .error e
        | .ok f => (run (classOf env.solve f.kind) d x f.obj).1)) := by
  unfold getFilter adaptiveFilter filterData
  cases dictGet (upper name) (filtersDict upper) with
  | none => simp
  | some t =>
    refine ⟨fun err h => by simp at h, fun t' h => ?_⟩
    cases h
    exact ⟨rfl, rfl⟩

/-- C42: letter case is irrelevant for all three. -/
theorem C42_any_case {K : Type} [Transc K] (env : Env K) (a b : String) (h : upper a = upper b) (kw : Kwargs K) (cols : ℕ)
    (d : List K) (x : List (List K)) :
    getFilter upper a = getFilter upper b ∧ adaptiveFilter env upper a kw = adaptiveFilter env upper b kw ∧
    filterData env upper d x cols a kw = filterData env upper d x cols b kw := by
  unfold getFilter adaptiveFilter filterData
  rw [h]
  exact ⟨rfl, rfl, rfl⟩

example : getFilter asciiUpper "vsLms_anG" = .ok .vslmsAng ∧ getFilter asciiUpper "lmss" = .error .valueError :=
  ⟨(C42_get_filter asciiUpper_ok _ _).mpr (by simp [asciiUpper, Tag.key]),
    C42_unknown asciiUpper_ok _ fun t => by cases t <;> simp [asciiUpper, Tag.key]⟩

end c42

/-! ## C43 -/

section c43
variable {K : Type} [Transc K] (env : Env K) {upper : String → String}

/-- `badKeyword` is: some keyword is not in the signature. -/
theorem badKeyword_iff (t : Tag) (kw : Kwargs K) :
    badKeyword t kw = true ↔ ∃ k ∈ kw.keys, k ∉ t.signature := by
  unfold badKeyword Kwargs.keys
  cases t <;> simp [Tag.signature, List.mem_append, or_and_right, exists_or, and_assoc] <;> tauto

theorem initWeights_error {rand : (n : ℕ) → Vec K n} {s : ℕ} {w : WArg K} {m : Int} {err : Err}
    (h : initWeights rand s w m = .error err) : err = .valueError := by
  unfold initWeights at h
  cases w <;> simp only at h <;> split_ifs at h <;> cases h <;> rfl

theorem asVec_error {n : ℕ} {l : List K} {err : Err} (h : asVec n l = .error err) : err = .valueError := by
  unfold asVec at h
  split at h
  · cases h
  · cases h; rfl

theorem bind_asVec_error {rand : (n : ℕ) → Vec K n} {s n : ℕ} {w : WArg K} {err : Err}
    (h : (initWeights rand s w n).bind (asVec n) = .error err) : err = .valueError := by
  cases hi : initWeights rand s w n with
  | error e' =>
    rw [hi] at h
    cases h
    exact initWeights_error hi
  | ok l =>
    rw [hi] at h
    exact asVec_error h

theorem initExt_error {n : ℕ} {t : Tag} {kw : Kwargs K} {mu : K} {w : Vec K n} {err : Err}
    (h : initExt env n t kw mu w = .error err) :
    err = .zeroDivisionError ∧ t = .rls ∧ Scalar.eqz (kw.eps.getD (lit 1 1000)) = true := by
  unfold initExt at h
  cases t <;> simp only [reduceCtorEq] at h
  unfold rlsInit at h
  split at h
  · rename_i e he
    split at he
    · cases he; cases h; exact ⟨rfl, rfl, by assumption⟩
    · cases he
  · cases h

theorem defaultMu_none (t : Tag) : (defaultMu t : Option K) = none ↔ t.muRequired := by
  unfold Tag.muRequired
  cases t <;> simp [defaultMu]

theorem construct_some {t : Tag} {kw : Kwargs K} {n : ℕ} {m : K} (hb : badKeyword t kw = false) (hn : kw.n = some n)
    (hm : (kw.mu <|> defaultMu t) = some m) :
    construct env t kw = (match (initWeights env.rand 0 (kw.w.getD (.str "random")) n).bind (asVec n) with
      | .ok w => initExt env n t kw m w
      | .error e => .error e) := by
  unfold construct
  rw [hb, hn, hm]
  rfl

/-- C43: the constructor raises `TypeError` exactly if a keyword is not in the signature of the class, or `n` is missing, or `mu` is
missing and the class has no default for it. -/
theorem C43_type_error (t : Tag) (kw : Kwargs K) :
    construct env t kw = .error .typeError ↔
      (∃ k ∈ kw.keys, k ∉ t.signature) ∨ kw.n = none ∨ (kw.mu = none ∧ t.muRequired) := by
  rw [← badKeyword_iff, ← defaultMu_none (K := K)]
  by_cases hb : badKeyword t kw = true
  · unfold construct; simp [hb]
  · rw [Bool.not_eq_true] at hb
    cases hn : kw.n with
    | none => unfold construct; simp [hb, hn]
    | some n =>
      cases hm : (kw.mu <|> defaultMu t) with
      | none =>
        have : kw.mu = none ∧ (defaultMu t : Option K) = none := by
          cases h1 : kw.mu with
          | none => rw [h1] at hm; exact ⟨rfl, hm⟩
          | some m => rw [h1] at hm; cases hm
        unfold construct; simp [hb, hn, this]
      | some m =>
        have h1 : ¬ (kw.mu = none ∧ (defaultMu t : Option K) = none) := by
          rintro ⟨a, b⟩; rw [a, b] at hm; cases hm
        rw [construct_some env hb hn hm]
        simp only [hb, Bool.false_eq_true, reduceCtorEq, h1, or_self, iff_false]
        split
        · intro hc; exact absurd (initExt_error env hc).1 (by decide)
        · rename_i e he
          intro hc; cases hc; exact absurd (bind_asVec_error he) (by decide)

/-- C43: a class can be created from `n` alone (random initial weights) exactly if it has a default for `mu`; LMS, LMF, SSLMS and AP
raise `TypeError`.  (`hz`: the literal `0.001`, the default `eps` of RLS, is not 0.) -/
theorem C43_from_n_alone (hu : UpperOk upper) (hz : Scalar.eqz (lit 1 1000 : K) = false) (name : String) (t : Tag)
    (hname : upper name = t.key) (n : ℕ) :
    (t.muRequired → adaptiveFilter env upper name { n := some n } = .error .typeError) ∧
    (¬ t.muRequired → ∃ f, adaptiveFilter env upper name { n := some n } = .ok f ∧ f.n = n ∧ List.ofFn f.obj.core.w = List.ofFn (env.rand n)) := by
  have hd := (lookup_iff hu name t).mpr hname
  have he : adaptiveFilter env upper name ({ n := some n } : Kwargs K) = construct env t { n := some n } := by
    unfold adaptiveFilter; simp only [hd]
  rw [he]
  have hw : (initWeights env.rand 0 (.str "random") (n : Int)).bind (asVec n) = .ok (env.rand n) := by
    have h : ¬ ((n : Int) = -1) := by omega
    have h' : ¬ ((n : Int) < 0) := by omega
    simp [initWeights, Except.bind, h, h']
  constructor
  · intro ht; exact (C43_type_error env t _).mpr (.inr (.inr ⟨rfl, ht⟩))
  · intro ht
    unfold construct
    unfold Tag.muRequired at ht
    cases t <;> simp [badKeyword, defaultMu, hw, initExt, rlsInit, hz] at ht ⊢

/-- C43: with a learning rate every class can be created. -/
theorem C43_from_n_and_mu (hu : UpperOk upper) (hz : Scalar.eqz (lit 1 1000 : K) = false) (name : String) (t : Tag)
    (hname : upper name = t.key) (n : ℕ) (mu : K) :
    ∃ f, adaptiveFilter env upper name { n := some n, mu := some mu } = .ok f ∧ f.n = n ∧ List.ofFn f.obj.core.w = List.ofFn (env.rand n) ∧
      f.obj.core.mu = mu := by
  have hd := (lookup_iff hu name t).mpr hname
  have he : adaptiveFilter env upper name ({ n := some n, mu := some mu } : Kwargs K)
      = construct env t { n := some n, mu := some mu } := by
    unfold adaptiveFilter; simp only [hd]
  rw [he]
  have hw : (initWeights env.rand 0 (.str "random") (n : Int)).bind (asVec n) = .ok (env.rand n) := by
    have h : ¬ ((n : Int) = -1) := by omega
    have h' : ¬ ((n : Int) < 0) := by omega
    simp [initWeights, Except.bind, h, h']
  unfold construct
  cases t <;> simp [badKeyword, hw, initExt, rlsInit, hz]

/-- C43: the default model (`AdaptiveFilter(n=n)` is `AdaptiveFilter("lms", n=n)`) cannot be created from `n` alone. -/
theorem C43_default_model (hu : UpperOk upper) (hl : upper "lms" = "LMS") (n : ℕ) :
    adaptiveFilter env upper "lms" { n := some n } = .error .typeError := by
  have he : adaptiveFilter env upper "lms" ({ n := some n } : Kwargs K) = construct env .lms { n := some n } := by
    unfold adaptiveFilter; simp only [(lookup_iff hu "lms" .lms).mpr hl]
  rw [he]
  exact (C43_type_error env .lms _).mpr (.inr (.inr ⟨rfl, .inl rfl⟩))

/-- C43: `AdaptiveFilter` without `n` raises `ValueError` whatever the model name. -/
theorem C43_missing_n (name : String) (kw : Kwargs K) (h : kw.n = none) :
    adaptiveFilter env upper name kw = .error .valueError := by
  unfold adaptiveFilter; rw [h]

/-- C43: all ways a constructor can fail: `TypeError` (see `C43_type_error`), `ValueError` for unusable initial weights,
`ZeroDivisionError` for RLS with `eps=0`. -/
theorem C43_errors (t : Tag) (kw : Kwargs K) (err : Err) (h : construct env t kw = .error err) :
    err = .typeError ∨ err = .valueError ∨
      (err = .zeroDivisionError ∧ t = .rls ∧ Scalar.eqz (kw.eps.getD (lit 1 1000)) = true) := by
  unfold construct at h
  split at h
  · cases h; exact .inl rfl
  · split at h
    · split at h
      · exact .inr (.inr (initExt_error env h))
      · rename_i e he
        cases h; exact .inr (.inl (bind_asVec_error he))
    · cases h; exact .inl rfl

/-- the hypotheses are met over the rationals -/
example : UpperOk asciiUpper ∧ Scalar.eqz (lit 1 1000 : ℚ) = false ∧ asciiUpper "lms" = "LMS" ∧
    asciiUpper "Rls" = Tag.rls.key :=
  ⟨asciiUpper_ok, by decide +kernel, by simp [asciiUpper], by simp [asciiUpper, Tag.key]⟩

end c43

/-! ## C44 -/

section c44
variable {K : Type} [Transc K] (env : Env K) (upper : String → String)

/-- C44: `filter_data` is `AdaptiveFilter` with `n` set to the number of columns, followed by `run` -/
theorem C44_filter_data (d : List K) (x : List (List K)) (cols : ℕ) (name : String) (kw : Kwargs K) :
    filterData env upper d x cols name kw
      = match adaptiveFilter env upper name { kw with n := some cols } with
        | .error e => .error e
        | .ok f => (run (classOf env.solve f.kind) d x f.obj).1 := by
  unfold filterData adaptiveFilter
  simp only
  cases dictGet (upper name) (filtersDict upper) <;> rfl

/-- C44: an `n` passed by the caller is ignored. -/
theorem C44_n_is_ignored (d : List K) (x : List (List K)) (cols : ℕ) (name : String) (kw : Kwargs K) (m : Option ℕ) :
    filterData env upper d x cols name { kw with n := m } = filterData env upper d x cols name kw := by
  rw [C44_filter_data, C44_filter_data]

theorem liftM_wHist {n : ℕ} {α : Type} {C : FilterClass K n} {m : M (Core K n C.Ext) α} {o o' : Obj C} {r : Except Err α}
    (h : Obj.liftM m o = (r, o')) : o'.wHist = o.wHist := by
  have := congrArg (fun p => p.2.wHist) h
  exact this.symm

theorem histWrite_keeps {n : ℕ} {C : FilterClass K n} {k j : ℕ} (hj : j < k) {o o' : Obj C} {r : Except Err Unit}
    (h : histWrite k o = (r, o')) : o'.wHist[j]? = o.wHist[j]? := by
  unfold histWrite at h
  rw [M.get_bind, M.bind_apply, M.lift_apply] at h
  cases hb : bcast o.core.nAttr (List.ofFn o.core.w) with
  | error e => rw [hb] at h; rw [← (Prod.mk.inj h).2]
  | ok row =>
    rw [hb] at h
    rw [← (Prod.mk.inj h).2]
    exact List.getElem?_set_ne (by omega)

/-- the loop of `run` does not touch the rows of the history before the current one -/
theorem runLoop_hist {n : ℕ} (C : FilterClass K n) (l : List (K × List K)) :
    ∀ (k : ℕ) (o : Obj C) (j : ℕ), j < k → (runLoop C k l o).2.wHist[j]? = o.wHist[j]? := by
  induction l with
  | nil => intro k o j _; rfl
  | cons p l ih =>
    intro k o j hj
    obtain ⟨d, x⟩ := p
    unfold runLoop
    rw [M.bind_apply]
    have hh := fun r o' => histWrite_keeps (C := C) (o := o) (r := r) (o' := o') hj
    rcases h1 : histWrite k o with ⟨_ | a, o1⟩
    · exact hh _ _ h1
    · simp only
      rw [M.bind_apply]
      rcases h2 : Obj.liftM (C.body d x) o1 with ⟨_ | p, o2⟩
      · simp only; rw [liftM_wHist h2]; exact hh _ _ h1
      · simp only
        rw [M.bind_apply]
        have h3 := ih (k + 1) o2 j (by omega)
        rcases h4 : runLoop C (k + 1) l o2 with ⟨_ | q, o3⟩
        · simp only
          rw [h4] at h3
          rw [h3, liftM_wHist h2]; exact hh _ _ h1
        · simp only [M.pure_apply]
          rw [h4] at h3
          rw [h3, liftM_wHist h2]; exact hh _ _ h1

/-- if `run` of any class returns, the first row of the history is the weight vector before the run -/
theorem run_first_row {n : ℕ} (C : FilterClass K n) (d : List K) (x : List (List K)) (o : Obj C)
    (hx : ∀ r ∈ x, r.length = n) {y e : List K} {W : List (List K)} (h : (run C d x o).1 = .ok (y, e, W)) :
    W[0]? = some (List.ofFn o.core.w) := by
  cases x with
  | nil =>
    unfold run at h
    split at h <;> cases h
  | cons x0 t =>
    rw [run_cons] at h
    split at h
    · cases h
    · split at h
      · cases h
      · rename_i h1 h2
        have hx0 : x0.length = n := hx x0 List.mem_cons_self
        cases d with
        | nil => simp at h1
        | cons d0 dt =>
          rw [List.zip_cons_cons] at h
          unfold runLoop at h
          rw [M.bind_apply, M.bind_apply] at h
          have hw : histWrite 0 (⟨o.core.withN x0.length, List.replicate (x0 :: t).length (List.replicate x0.length 0)⟩ : Obj C)
              = (.ok (), ⟨o.core.withN x0.length, List.ofFn o.core.w :: List.replicate t.length (List.replicate x0.length 0)⟩) := by
            unfold histWrite
            rw [M.get_bind, M.bind_apply, M.lift_apply]
            have : bcast (o.core.withN x0.length).nAttr (List.ofFn (o.core.withN x0.length).w) = .ok (List.ofFn o.core.w) := by
              unfold bcast
              rw [if_pos]
              · rfl
              · rw [List.length_ofFn]; exact hx0.symm
            simp only [this, M.modify_apply]
            rfl
          rw [hw] at h
          simp only at h
          rw [M.bind_apply] at h
          rcases h4 : Obj.liftM (C.body d0 x0) (⟨o.core.withN x0.length,
              List.ofFn o.core.w :: List.replicate t.length (List.replicate x0.length 0)⟩ : Obj C) with ⟨_ | p, o2⟩
          · rw [h4] at h; cases h
          · rw [h4] at h
            simp only at h
            rw [M.bind_apply] at h
            have ho2 : o2.wHist = List.ofFn o.core.w :: List.replicate t.length (List.replicate x0.length 0) :=
              liftM_wHist h4
            have h5 := runLoop_hist C (dt.zip t) (0 + 1) o2 0 (by omega)
            rcases h6 : runLoop C (0 + 1) (dt.zip t) o2 with ⟨_ | q, o3⟩
            · rw [h6] at h; cases h
            · rw [h6] at h h5
              simp only [M.pure_apply, M.get_bind, Except.ok.injEq, Prod.mk.injEq] at h
              rw [← h.2.2, h5, ho2]
              rfl

/-- the weights of a new filter -/
theorem construct_w {env : Env K} {t : Tag} {kw : Kwargs K} {f : AnyFilter K env} {n : ℕ} (h : construct env t kw = .ok f)
    (hn : kw.n = some n) :
    f.n = n ∧ ∃ l, initWeights env.rand 0 (kw.w.getD (.str "random")) n = .ok l ∧ List.ofFn f.obj.core.w = l := by
  unfold construct at h
  split at h
  · cases h
  · rw [hn] at h
    split at h
    · rename_i n' mu h1 h2
      cases h1
      split at h
      · rename_i w hw
        cases hi : initWeights env.rand 0 (kw.w.getD (.str "random")) n with
        | error e => rw [hi] at hw; cases hw
        | ok l =>
          rw [hi] at hw
          have hlw : l = List.ofFn w := by
            have hw' : asVec n l = .ok w := hw
            unfold asVec at hw'
            split at hw'
            · rename_i hlen
              cases hw'
              subst hlen
              exact List.ofFn_getElem.symm
            · cases hw'
          have : f.n = n ∧ List.ofFn f.obj.core.w = List.ofFn w := by
            unfold initExt at h
            cases t
            case rls =>
              simp only at h
              split at h
              · cases h
              · cases h; exact ⟨rfl, rfl⟩
            all_goals (cases h; exact ⟨rfl, rfl⟩)
          exact ⟨this.1, l, rfl, this.2.trans hlw.symm⟩
      · cases h
    · cases h

/-- C44: when `filter_data` returns, the first row of the weight history is the initial weight vector: the array given as `w`, the
zero vector for `w="zeros"`, the random draw otherwise. -/
theorem C44_first_row (d : List K) (x : List (List K)) (cols : ℕ) (name : String) (kw : Kwargs K)
    (hx : ∀ r ∈ x, r.length = cols) {y e : List K} {W : List (List K)}
    (h : filterData env upper d x cols name kw = .ok (y, e, W)) :
    (∀ l, kw.w = some (.arr l) → W[0]? = some l) ∧
    (kw.w = some (.str "zeros") → W[0]? = some (List.replicate cols 0)) ∧
    (kw.w = none ∨ kw.w = some (.str "random") → W[0]? = some (List.ofFn (env.rand cols))) := by
  unfold filterData at h
  cases hd : dictGet (upper name) (filtersDict upper) with
  | none => rw [hd] at h; cases h
  | some t =>
    simp only [hd] at h
    cases hc : construct env t { kw with n := some cols } with
    | error e' => rw [hc] at h; cases h
    | ok f =>
      rw [hc] at h
      simp only at h
      obtain ⟨hn, l, hl, hw⟩ := construct_w hc rfl
      subst hn
      have hr := run_first_row _ d x f.obj hx h
      rw [hr, hw]
      have hne : ¬ ((f.n : Int) = -1) := by omega
      have hlt : ¬ ((f.n : Int) < 0) := by omega
      refine ⟨fun l' h1 => ?_, fun h1 => ?_, fun h1 => ?_⟩
      · simp only [h1, Option.getD_some, initWeights, hne, if_false] at hl
        split at hl
        · cases hl; rfl
        · cases hl
      · simp [h1, initWeights, hne, hlt] at hl
        rw [← hl]
      · rcases h1 with h1 | h1 <;> simp [h1, initWeights, hne, hlt] at hl <;> rw [← hl]

/-- `filter_data` returns for concrete data, so the hypothesis of `C44_first_row` is met -/
example : ∃ y e W, filterData ratEnv asciiUpper [1, 2] [[1, 0], [0, 1]] 2 "Nlms"
    { n := some 7, w := some (.arr [5, 6]) } = .ok (y, e, W) := by
  refine ⟨[5, 6], [-4, -4], [[5, 6], [5 - 1 / 10 / (1 + 1 / 1000) * 4, 6]], ?_⟩
  decide +kernel

end c44
end Padasip
