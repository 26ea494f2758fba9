import Verif.Model.MlpNew
import Verif.Props.MlpGrad
import Verif.Props.Mlp

/-!
# C102: constructing a multi-layer perceptron, and `update` before the first `predict`
-/

set_option linter.unusedSectionVars false
set_option linter.unusedSimpArgs false
set_option linter.unusedVariables false

namespace Padasip

section structural
variable {K : Type} [Transc K] {nin m p : ℕ}

/-- the number of inputs and of nodes of every hidden layer -/
def Hidden.sizes {nin m : ℕ} : Hidden K nin m → List (ℕ × ℕ)
  | .one _ => [(nin, m)]
  | @Hidden.snoc _ _ a _ h _ => h.sizes ++ [(a, m)]

/-- the learning rate of every hidden layer -/
def Hidden.mus {nin m : ℕ} : Hidden K nin m → List K
  | .one l => [l.mu]
  | .snoc h l => h.mus ++ [l.mu]

/-- the activation function of every hidden layer -/
def Hidden.acts {nin m : ℕ} : Hidden K nin m → List Act
  | .one l => [l.f]
  | .snoc h l => h.acts ++ [l.f]

theorem isNew_one (w : Mat K m (nin + 1)) (f : Act) (mu : K) : (Hidden.one (mkLayer w f mu)).IsNew := ⟨w, f, mu, rfl⟩

theorem isNew_snoc {q : ℕ} {h : Hidden K nin m} (hn : h.IsNew) (w : Mat K q (m + 1)) (f : Act) (mu : K) : (Hidden.snoc h (mkLayer w f mu)).IsNew :=
  ⟨hn, w, f, mu, rfl⟩

theorem growHidden_ok (draw : Draw K) (f : Act) (mu : MuArg K) (t : List ℕ) : ∀ {m : ℕ} (call : ℕ) (h : Hidden K nin m) (hn : h.IsNew) {q : ℕ} {h' : Hidden K nin q},
    growHidden draw f mu call h t = .ok ⟨q, h'⟩ →
    (∀ s ∈ (m :: t).dropLast, s ≠ 0) ∧ q = (m :: t).getLastD 0 ∧ h'.IsNew ∧
    h'.sizes = h.sizes ++ (m :: t).zip t ∧
    h'.mus = h.mus ++ (m :: t).dropLast.map (resolveMu mu) ∧
    h'.acts = h.acts ++ t.map (fun _ => f) ∧
    h'.weights = h.weights ++ ((m :: t).zip t).mapIdx fun i q => List.ofFn fun a => List.ofFn (draw (call + i) (invSqrt q.1) q.2 (q.1 + 1) a) := by
  induction t with
  | nil =>
    intro m call h hn q h' hh
    simp only [growHidden, Except.ok.injEq, Sigma.mk.injEq] at hh
    obtain ⟨rfl, hh⟩ := hh
    obtain rfl := eq_of_heq hh
    simp [hn]
  | cons s t ih =>
    intro m call h hn q h' hh
    unfold growHidden newLayer at hh
    by_cases hm : m = 0
    · simp [hm] at hh
    · simp only [hm, if_false] at hh
      obtain ⟨h1, h2, h3, h4, h5, h6, h7⟩ := ih (call + 1) _ (isNew_snoc hn _ _ _) hh
      refine ⟨?_, ?_, h3, ?_, ?_, ?_, ?_⟩
      · intro a ha
        rw [List.dropLast_cons_of_ne_nil (by simp)] at ha
        rcases List.mem_cons.1 ha with rfl | ha
        · exact hm
        · exact h1 a ha
      · rw [h2]; simp [List.getLastD_cons]
      · rw [h4]; simp [Hidden.sizes, List.append_assoc]
      · rw [h5, List.dropLast_cons_of_ne_nil (l := s :: t) (by simp)]; simp [Hidden.mus, mkLayer, List.append_assoc]
      · rw [h6]; simp [Hidden.acts, mkLayer, List.append_assoc]
      · rw [h7]; simp [Hidden.weights, mkLayer, List.append_assoc, Nat.add_assoc, Nat.add_comm 1, List.mapIdx_cons]

theorem growHidden_error (draw : Draw K) (f : Act) (mu : MuArg K) (t : List ℕ) : ∀ {m : ℕ} (call : ℕ) (h : Hidden K nin m) {e : Err},
    growHidden draw f mu call h t = .error e → e = .zeroDivisionError ∧ ∃ s ∈ (m :: t).dropLast, s = 0 := by
  induction t with
  | nil => intro m call h e hh; simp [growHidden] at hh
  | cons s t ih =>
    intro m call h e hh
    unfold growHidden newLayer at hh
    by_cases hm : m = 0
    · simp only [hm, if_true, Except.error.injEq] at hh
      exact ⟨hh.symm, 0, by rw [List.dropLast_cons_of_ne_nil (by simp)]; simp [hm], rfl⟩
    · simp only [hm, if_false] at hh
      obtain ⟨h1, a, h2, h3⟩ := ih (call + 1) _ hh
      exact ⟨h1, a, by rw [List.dropLast_cons_of_ne_nil (by simp)]; exact List.mem_cons_of_mem _ h2, h3⟩

/-- C102: the constructor accepts exactly the networks with at least one hidden layer, at least one node per layer, at least one input and a `mu` that is
`"auto"` or accepted by `float`. -/
theorem C102_accepts (draw : Draw K) (layers : List ℕ) (nin p : ℕ) (f : Act) (mu : MuArg K) :
    (∃ N, newNet draw layers nin p f mu = .ok N) ↔ layers ≠ [] ∧ (∀ s ∈ layers, s ≠ 0) ∧ nin ≠ 0 ∧ (∀ h : mu = .bad, False) := by
  constructor
  · rintro ⟨N, hN⟩
    unfold newNet at hN
    split at hN
    · simp at hN
    rename_i s t
    split at hN
    · simp at hN
    rename_i hl
    split at hN
    · simp at hN
    rename_i hmu
    have hmu' : ∀ h : mu = .bad, False := fun h => hmu h
    unfold newLayer at hN
    by_cases hn : nin = 0
    · simp [hn] at hN
    simp only [hn, if_false] at hN
    split at hN
    · simp at hN
    rename_i q h hg
    obtain ⟨h1, h2, -⟩ := growHidden_ok draw f mu t 2 _ (isNew_one _ _ _) hg
    refine ⟨by simp, ?_, hn, hmu'⟩
    intro a ha
    rw [← List.dropLast_append_getLast (l := s :: t) (by simp)] at ha
    rcases List.mem_append.1 ha with ha | ha
    · exact h1 a ha
    · rw [List.mem_singleton.1 ha]
      rwa [List.getLastD_eq_getLast?, List.getLast?_eq_getLast_of_ne_nil (by simp), Option.getD_some] at hl
  · rintro ⟨h1, h2, h3, h4⟩
    cases hN : newNet draw layers nin p f mu with
    | ok N => exact ⟨N, rfl⟩
    | error e =>
      exfalso
      unfold newNet at hN
      split at hN
      · exact h1 rfl
      rename_i s t
      split at hN
      · rename_i hl
        rw [List.getLastD_eq_getLast?, List.getLast?_eq_getLast_of_ne_nil (by simp), Option.getD_some] at hl
        exact h2 _ (List.getLast_mem (by simp)) hl
      split at hN
      · exact h4 rfl
      unfold newLayer at hN
      simp only [h3, if_false] at hN
      split at hN
      · rename_i hg
        obtain ⟨-, a, ha, ha0⟩ := growHidden_error draw f mu t 2 _ hg
        exact h2 a (List.mem_of_mem_dropLast ha) ha0
      · simp at hN

/-- C102: which exception is raised.  No hidden layer: `IndexError`; no node in the last layer: `ZeroDivisionError`; else a `mu` that is neither `"auto"`
nor accepted by `float`: `ValueError`; else no input, or no node in some layer: `ZeroDivisionError`. -/
theorem C102_exceptions (draw : Draw K) (layers : List ℕ) (nin p : ℕ) (f : Act) (mu : MuArg K) :
    (layers = [] → newNet draw layers nin p f mu = .error .indexError) ∧
    (∀ a, newNet draw (a ++ [0]) nin p f mu = .error .zeroDivisionError) ∧
    (∀ a s, s ≠ 0 → newNet draw (a ++ [s]) nin p f .bad = .error .valueError) ∧
    (∀ a s, s ≠ 0 → (∀ h : mu = .bad, False) → (nin = 0 ∨ 0 ∈ a) → newNet draw (a ++ [s]) nin p f mu = .error .zeroDivisionError) := by
  have hlast : ∀ (a : List ℕ) (s : ℕ), ∃ b t, a ++ [s] = b :: t ∧ (b :: t).getLastD 0 = s := by
    intro a s
    cases a with
    | nil => exact ⟨s, [], rfl, rfl⟩
    | cons b t => exact ⟨b, t ++ [s], rfl, by rw [← List.cons_append, List.getLastD_eq_getLast?, List.getLast?_append]; rfl⟩
  refine ⟨?_, ?_, ?_, ?_⟩
  · rintro rfl; rfl
  · intro a
    obtain ⟨b, t, h1, h2⟩ := hlast a 0
    rw [h1]; unfold newNet; simp only [h2, if_true]
  · intro a s hs
    obtain ⟨b, t, h1, h2⟩ := hlast a s
    rw [h1]; unfold newNet; simp only [h2, hs, if_false]
  · intro a s hs hmu h0
    cases hN : newNet draw (a ++ [s]) nin p f mu with
    | ok N =>
      exfalso
      obtain ⟨-, h2, h3, -⟩ := (C102_accepts draw (a ++ [s]) nin p f mu).1 ⟨N, hN⟩
      rcases h0 with h0 | h0
      · exact h3 h0
      · exact h2 0 (by simp [h0]) rfl
    | error e =>
      obtain ⟨b, t, h1, h2⟩ := hlast a s
      rw [h1] at hN
      unfold newNet at hN
      simp only [h2, hs, if_false] at hN
      have key : (match newLayer draw 1 b nin f mu with
          | .error e => .error e
          | .ok l =>
            match growHidden draw f mu 2 (.one l) t with
            | .error e => .error e
            | .ok ⟨q, h⟩ => .ok ⟨q, mkNet h (draw 0 (invSqrt s) p (q + 1)) (resolveMu mu s), match mu with | .numStr => false | _ => true⟩ :
                Except Err (AnyNet K nin p)) = .error e := by
        cases mu
        · exact hN
        · exact hN
        · exact hN
        · exact (hmu rfl).elim
      unfold newLayer at key
      by_cases hn : nin = 0
      · simp only [hn, if_true] at key
        exact key.symm
      · simp only [hn, if_false] at key
        cases hg : growHidden draw f mu 2 (.one (mkLayer (draw 1 (invSqrt nin) b (nin + 1)) f (resolveMu mu nin))) t with
        | error e' =>
          rw [hg] at key
          obtain ⟨h3, -⟩ := growHidden_error draw f mu t 2 _ hg
          rw [h3] at key
          exact key.symm
        | ok q =>
          rw [hg] at key
          simp at key

/-- C102: the constructed network.  Layer `i` has as many inputs as the layer before it has nodes (the first: `n_input`), the requested activation and the
learning rate resolved from `mu` and ITS number of inputs; the output layer the learning rate resolved from `mu` and the size of the last hidden layer.
The weights are those drawn: call 0 for the output layer, call `i+1` for layer `i`, with standard deviation `inputs ** -0.5`. -/
theorem C102_new (draw : Draw K) (layers : List ℕ) (nin p : ℕ) (f : Act) (mu : MuArg K) {N : AnyNet K nin p} (hN : newNet draw layers nin p f mu = .ok N) :
    N.m = layers.getLastD 0 ∧ N.net.hidden.IsNew ∧
    N.net.hidden.sizes = (nin :: layers).zip layers ∧
    N.net.hidden.mus = (nin :: layers).dropLast.map (resolveMu mu) ∧ N.net.mu = resolveMu mu (layers.getLastD 0) ∧
    N.net.hidden.acts = layers.map (fun _ => f) ∧
    N.net.hidden.weights = ((nin :: layers).zip layers).mapIdx (fun i q => List.ofFn fun a => List.ofFn (draw (1 + i) (invSqrt q.1) q.2 (q.1 + 1) a)) ∧
    N.net.w = draw 0 (invSqrt (layers.getLastD 0)) p (N.m + 1) ∧ N.net.x = (fun _ => 1) ∧ N.net.y = (fun _ => 0) ∧
    (N.muNum = false ↔ ∃ h : mu = .numStr, True) := by
  unfold newNet at hN
  split at hN
  · simp at hN
  rename_i s t
  split at hN
  · simp at hN
  split at hN
  · simp at hN
  unfold newLayer at hN
  by_cases hn : nin = 0
  · simp [hn] at hN
  simp only [hn, if_false] at hN
  split at hN
  · simp at hN
  rename_i q h hg
  obtain ⟨h1, h2, h3, h4, h5, h6, h7⟩ := growHidden_ok draw f mu t 2 _ (isNew_one _ _ _) hg
  simp only [Except.ok.injEq] at hN
  subst hN
  refine ⟨h2, h3, ?_, ?_, rfl, ?_, ?_, rfl, rfl, rfl, ?_⟩
  · show h.sizes = _
    rw [h4]; simp [Hidden.sizes]
  · show h.mus = _
    rw [h5, List.dropLast_cons_of_ne_nil (l := s :: t) (by simp)]; simp [Hidden.mus, mkLayer]
  · show h.acts = _
    rw [h6]; simp [Hidden.acts, mkLayer]
  · show h.weights = _
    rw [h7]
    have e : ∀ i : ℕ, 1 + (i + 1) = 2 + i := fun i => by omega
    simp [Hidden.weights, mkLayer, List.mapIdx_cons, e]
  · cases mu <;> simp

/-- C102: a number is used for all layers alike. -/
theorem C102_mu_number (draw : Draw K) (layers : List ℕ) (nin p : ℕ) (f : Act) (v : K) {N : AnyNet K nin p} (hN : newNet draw layers nin p f (.num v) = .ok N) :
    N.net.mu = v ∧ N.net.hidden.mus = List.replicate layers.length v ∧ N.muNum = true := by
  obtain ⟨-, -, -, h1, h2, -, -, -, -, -, h3⟩ := C102_new draw layers nin p f (.num v) hN
  refine ⟨h2, ?_, ?_⟩
  · rw [h1]
    rw [show (resolveMu (.num v) : ℕ → K) = fun _ => v from rfl, List.map_const']
    simp
  · by_contra h
    obtain ⟨h, -⟩ := h3.1 (by simpa using h)
    cases h

/-- C102: a string that `float` accepts (say `"0.1"`) is accepted by the constructor, but stored as a string: every `update` raises `TypeError` and changes nothing. -/
theorem C102_mu_string (draw : Draw K) (layers : List ℕ) (nin p : ℕ) (f : Act) (h1 : layers ≠ []) (h2 : ∀ s ∈ layers, s ≠ 0) (h3 : nin ≠ 0) :
    ∃ N, newNet draw layers nin p f .numStr = .ok N ∧ (∀ d, N.updateFresh d = (.error .typeError, N)) ∧
      ∀ x d, AnyNet.update { N with net := (N.net.predictV x).1 } d = (.error .typeError, { N with net := (N.net.predictV x).1 }) := by
  obtain ⟨N, hN⟩ := (C102_accepts draw layers nin p f .numStr).2 ⟨h1, h2, h3, fun h => by cases h⟩
  have hm : N.muNum = false := by
    obtain ⟨-, -, -, -, -, -, -, -, -, -, h⟩ := C102_new draw layers nin p f .numStr hN
    exact h.2 ⟨rfl, trivial⟩
  refine ⟨N, hN, fun d => ?_, fun x d => ?_⟩
  · unfold AnyNet.updateFresh; simp [hm]
  · unfold AnyNet.update; simp [hm]

/-! ## `update` before the first `predict` -/

theorem freshMat_ok {nin m p : ℕ} (h : Hidden K nin m) (w : Mat K p m) (e : Vec K p) :
    ((h.freshMat w e).1 = true ↔ ∀ q ∈ h.sizes, q.1 + 1 = q.2) ∧ ((h.freshMat w e).1 = true → (h.freshMat w e).2 = h.updateMat w e) := by
  induction h generalizing p with
  | @one m l =>
    unfold Hidden.freshMat Hidden.sizes
    by_cases hh : nin + 1 = m <;> simp [hh, Hidden.updateMat]
  | @snoc a m h l ih =>
    unfold Hidden.freshMat Hidden.sizes
    by_cases hh : a + 1 = m
    · obtain ⟨ih1, ih2⟩ := ih (dropBias (l.apply (l.errMat w e)).w) (l.errMat w e)
      simp only [hh, if_true]
      refine ⟨?_, ?_⟩
      · rw [ih1]
        constructor
        · intro h1 q hq
          rcases List.mem_append.1 hq with hq | hq
          · exact h1 q hq
          · rw [List.mem_singleton.1 hq]; exact hh
        · intro h1 q hq
          exact h1 q (List.mem_append_left _ hq)
      · intro h1
        show Hidden.snoc _ _ = Hidden.snoc _ _
        rw [ih2 h1]
    · simp only [hh, if_false]
      refine ⟨⟨fun h => by simp at h, fun h1 => ?_⟩, fun h => by simp at h⟩
      exact absurd (h1 (a, m) (by simp)) hh

theorem freshFlat_ok {nin m : ℕ} (h : Hidden K nin m) (w : Vec K m) (e : K) :
    ((h.freshFlat w e).1 = true ↔ ∀ q ∈ h.sizes, q.1 + 1 = q.2) ∧ ((h.freshFlat w e).1 = true → (h.freshFlat w e).2 = h.updateFlat w e) := by
  cases h with
  | one l =>
    unfold Hidden.freshFlat Hidden.sizes
    by_cases hh : nin + 1 = m <;> simp [hh, Hidden.updateFlat]
  | @snoc a _ h l =>
    unfold Hidden.freshFlat Hidden.sizes
    by_cases hh : a + 1 = m
    · obtain ⟨ih1, ih2⟩ := freshMat_ok h (dropBias (l.apply (l.errFlat w e)).w) (l.errFlat w e)
      simp only [hh, if_true]
      refine ⟨?_, ?_⟩
      · rw [ih1]
        constructor
        · intro h1 q hq
          rcases List.mem_append.1 hq with hq | hq
          · exact h1 q hq
          · rw [List.mem_singleton.1 hq]; exact hh
        · intro h1 q hq
          exact h1 q (List.mem_append_left _ hq)
      · intro h1
        show Hidden.snoc _ _ = Hidden.snoc _ _
        rw [ih2 h1]
    · simp only [hh, if_false]
      refine ⟨⟨fun h => by simp at h, fun h1 => ?_⟩, fun h => by simp at h⟩
      exact absurd (h1 (a, m) (by simp)) hh

/-- C102: `update` of a network that has not predicted yet raises `ValueError` unless every hidden layer happens to have one node more than inputs. -/
theorem C102_fresh_raises (n : Net K nin m p) (d : Vec K p) :
    ((∃ q ∈ n.hidden.sizes, q.1 + 1 ≠ q.2) ↔ (n.updateFresh d).1 = .error .valueError) ∧
    ((∀ q ∈ n.hidden.sizes, q.1 + 1 = q.2) → n.updateFresh d = (.ok (n.update d).2, (n.update d).1)) := by
  unfold Net.updateFresh
  by_cases hp : p = 1
  · subst hp
    obtain ⟨h1, h2⟩ := freshFlat_ok n.hidden (dropBias n.w 0) (d 0 - n.y 0)
    simp only [dif_pos]
    refine ⟨?_, ?_⟩
    · by_cases h : (n.hidden.freshFlat (dropBias n.w 0) (d 0 - n.y 0)).1 = true
      · simp only [h, if_true]
        constructor
        · rintro ⟨q, hq, hne⟩; exact absurd (h1.1 h q hq) hne
        · intro h; simp at h
      · simp only [h, if_false]
        refine ⟨fun _ => rfl, fun _ => ?_⟩
        by_contra hc
        push Not at hc
        exact h (h1.2 hc)
    · intro hall
      have h := h1.2 hall
      simp only [h, if_true, h2 h]
      rfl
  · obtain ⟨h1, h2⟩ := freshMat_ok n.hidden (dropBias n.w) (fun k => d k - n.y k)
    simp only [dif_neg hp]
    refine ⟨?_, ?_⟩
    · by_cases h : (n.hidden.freshMat (dropBias n.w) (fun k => d k - n.y k)).1 = true
      · simp only [h, if_true]
        constructor
        · rintro ⟨q, hq, hne⟩; exact absurd (h1.1 h q hq) hne
        · intro h; simp at h
      · simp only [h, if_false]
        refine ⟨fun _ => rfl, fun _ => ?_⟩
        by_contra hc
        push Not at hc
        exact h (h1.2 hc)
    · intro hall
      have h := h1.2 hall
      simp only [h, if_true, h2 h]
      unfold Net.update
      simp only [dif_neg hp]

end structural

/-! ## Over the real numbers -/

/-- C102: `mu="auto"` is `1 / sqrt(inputs)` of the layer. -/
theorem C102_mu_auto (draw : Draw ℝ) (layers : List ℕ) (nin p : ℕ) (f : Act) {N : AnyNet ℝ nin p} (hN : newNet draw layers nin p f .auto = .ok N) :
    N.net.mu = 1 / Real.sqrt (layers.getLastD 0) ∧ N.net.hidden.mus = (nin :: layers).dropLast.map fun n : ℕ => 1 / Real.sqrt n := by
  have h : ∀ n : ℕ, (resolveMu .auto n : ℝ) = 1 / Real.sqrt n := by
    intro n
    show ((Scalar.nat n : ℝ)) ^ (-(1 / (1 + 1)) : ℝ) = _
    rw [show (Scalar.nat n : ℝ) = (n : ℝ) from rfl, Real.rpow_neg (Nat.cast_nonneg _), show (1 / (1 + 1) : ℝ) = 1 / 2 by norm_num, ← Real.sqrt_eq_rpow, one_div]
  obtain ⟨-, -, -, h1, h2, -⟩ := C102_new draw layers nin p f .auto hN
  rw [h1, h2, h]
  exact ⟨rfl, List.map_congr_left fun n _ => h n⟩

/-- the hidden layers have predicted nothing yet and use the sigmoid -/
def Hidden.FreshSigmoid {nin m : ℕ} : Hidden ℝ nin m → Prop
  | .one l => l.f = .sigmoid ∧ ∀ i, l.y i = 0
  | .snoc h l => h.FreshSigmoid ∧ l.f = .sigmoid ∧ ∀ i, l.y i = 0

theorem freshSigmoid_new {nin m : ℕ} (h : Hidden ℝ nin m) (hn : h.IsNew) (hf : ∀ f ∈ h.acts, f = .sigmoid) : h.FreshSigmoid := by
  induction h with
  | one l =>
    obtain ⟨w, f, mu, rfl⟩ := hn
    exact ⟨hf _ (by simp [Hidden.acts]), fun _ => rfl⟩
  | snoc h l ih =>
    obtain ⟨h1, w, f, mu, rfl⟩ := hn
    exact ⟨ih h1 fun f hh => hf f (by simp [Hidden.acts, hh]), hf _ (by simp [Hidden.acts]), fun _ => rfl⟩

theorem apply_zero {nin m : ℕ} (l : Layer ℝ nin m) (e : Vec ℝ m) (he : ∀ i, e i = 0) : (l.apply e).w = l.w := by
  funext i j
  show l.w i j + l.mu * (e i * l.x j) = l.w i j
  rw [he i]; ring

theorem sigmoid_der_zero : activation (K := ℝ) .sigmoid true 0 = 0 := by
  show (0 : ℝ) * (1 - 0) = 0
  ring

theorem freshMat_sigmoid {nin m p : ℕ} (h : Hidden ℝ nin m) (hs : h.FreshSigmoid) (w : Mat ℝ p m) (e : Vec ℝ p) : (h.freshMat w e).2.weights = h.weights := by
  induction h generalizing p with
  | @one m l =>
    have hz : ∀ i, l.errMat w e i = 0 := by
      intro i
      show activation l.f true (l.y i) * (1 - l.y i) * _ = (0 : ℝ)
      rw [hs.1, hs.2 i, sigmoid_der_zero, zero_mul, zero_mul]
    unfold Hidden.freshMat
    split
    · simp only [Hidden.weights, apply_zero l _ hz]
    · rfl
  | @snoc a m h l ih =>
    have hz : ∀ i, l.errMat w e i = 0 := by
      intro i
      show activation l.f true (l.y i) * (1 - l.y i) * _ = (0 : ℝ)
      rw [hs.2.1, hs.2.2 i, sigmoid_der_zero, zero_mul, zero_mul]
    unfold Hidden.freshMat
    split
    · simp only [Hidden.weights, apply_zero l _ hz, ih hs.1]
    · rfl

theorem freshFlat_sigmoid {nin m : ℕ} (h : Hidden ℝ nin m) (hs : h.FreshSigmoid) (w : Vec ℝ m) (e : ℝ) : (h.freshFlat w e).2.weights = h.weights := by
  cases h with
  | one l =>
    have hz : ∀ i, l.errFlat w e i = 0 := by
      intro i
      show activation l.f true (l.y i) * e * w i = (0 : ℝ)
      rw [hs.1, hs.2 i, sigmoid_der_zero, zero_mul, zero_mul]
    unfold Hidden.freshFlat
    by_cases hh : nin + 1 = m
    · simp only [hh, if_true, Hidden.weights, apply_zero l _ hz]
    · simp only [hh, if_false]
  | @snoc a _ h l =>
    have hz : ∀ i, l.errFlat w e i = 0 := by
      intro i
      show activation l.f true (l.y i) * e * w i = (0 : ℝ)
      rw [hs.2.1, hs.2.2 i, sigmoid_der_zero, zero_mul, zero_mul]
    unfold Hidden.freshFlat
    by_cases hh : a + 1 = m
    · simp only [hh, if_true, Hidden.weights, apply_zero l _ hz, freshMat_sigmoid h hs.1]
    · simp only [hh, if_false]

/-- C102: an `update` before the first `predict` adds `mu * d(k)` to EVERY weight of output `k` - also when it then raises; the weights of the hidden layers
do not change if the activation is the sigmoid. -/
theorem C102_fresh_weights {nin p : ℕ} (draw : Draw ℝ) (layers : List ℕ) (f : Act) (mu : MuArg ℝ) {N : AnyNet ℝ nin p}
    (hN : newNet draw layers nin p f mu = .ok N) (d : Vec ℝ p) :
    (∀ k j, (N.net.updateFresh d).2.w k j = N.net.w k j + N.net.mu * d k) ∧
    (f = .sigmoid → (N.net.updateFresh d).2.hidden.weights = N.net.hidden.weights) := by
  obtain ⟨-, h1, -, -, -, h2, -, -, h3, h4, -⟩ := C102_new draw layers nin p f mu hN
  refine ⟨?_, ?_⟩
  · intro k j
    show N.net.w k j + (if p = 1 then N.net.mu * (d k - N.net.y k) * N.net.x j else N.net.mu * ((d k - N.net.y k) * N.net.x j)) = _
    rw [h3, h4]
    show N.net.w k j + (if p = 1 then N.net.mu * (d k - (0 : ℝ)) * (1 : ℝ) else N.net.mu * ((d k - (0 : ℝ)) * (1 : ℝ))) = _
    split <;> ring
  · intro hf
    have hs : N.net.hidden.FreshSigmoid := by
      refine freshSigmoid_new _ h1 ?_
      rw [h2]
      intro g hg
      obtain ⟨-, -, rfl⟩ := List.mem_map.1 hg
      exact hf
    show Hidden.weights (Prod.snd (if h : p = 1 then _ else _)) = _
    split
    · exact freshFlat_sigmoid _ hs _ _
    · exact freshMat_sigmoid _ hs _ _

/-- C102: so a training loop that calls `update` first leaves a trace even though it fails: a network with 2 inputs, hidden layers of 3 and 2 nodes and one output. -/
theorem C102_fresh_witness : ∃ (N : AnyNet ℝ 2 1), newNet (fun _ _ _ _ _ _ => (0 : ℝ)) [3, 2] 2 1 .sigmoid (.num 1) = .ok N ∧
    ∀ d : Vec ℝ 1, (N.updateFresh d).1 = .error .valueError ∧ ∀ k j, (N.updateFresh d).2.net.w k j = d k := by
  obtain ⟨N, hN⟩ := (C102_accepts (fun _ _ _ _ _ _ => (0 : ℝ)) [3, 2] 2 1 .sigmoid (.num 1)).2 ⟨by simp, by simp, by simp, fun h => by cases h⟩
  refine ⟨N, hN, fun d => ?_⟩
  obtain ⟨hmu, -, hnum⟩ := C102_mu_number _ _ _ _ _ _ hN
  obtain ⟨-, -, hsz, -, -, -, -, hw, -⟩ := C102_new _ _ _ _ _ _ hN
  obtain ⟨h1, h2⟩ := C102_fresh_raises N.net d
  have h3 := (C102_fresh_weights _ _ _ _ hN d).1
  have hu : N.updateFresh d = ((N.net.updateFresh d).1, { N with net := (N.net.updateFresh d).2 }) := by
    unfold AnyNet.updateFresh; simp only [hnum, if_true]
  rw [hu]
  refine ⟨h1.1 ⟨(3, 2), by rw [hsz]; simp, by simp⟩, ?_⟩
  intro k j
  show (N.net.updateFresh d).2.w k j = d k
  rw [h3 k j, hw, hmu]
  simp

/-- a network that accepts: 2 inputs, hidden layers of 3 and 4 nodes, two outputs -/
example : ∃ N : AnyNet ℝ 2 2, newNet (fun _ s _ _ _ _ => s) [3, 4] 2 2 .tanh .auto = .ok N ∧ N.net.hidden.sizes = [(2, 3), (3, 4)] ∧
    N.net.hidden.mus = [1 / Real.sqrt (2 : ℕ), 1 / Real.sqrt (3 : ℕ)] ∧ N.net.mu = 1 / Real.sqrt (4 : ℕ) ∧
    ∀ d, N.net.updateFresh d = (.ok (N.net.update d).2, (N.net.update d).1) := by
  obtain ⟨N, hN⟩ := (C102_accepts (fun _ s _ _ _ _ => (s : ℝ)) [3, 4] 2 2 .tanh .auto).2 ⟨by simp, by simp, by simp, fun h => by cases h⟩
  obtain ⟨-, -, hsz, -⟩ := C102_new _ _ _ _ _ _ hN
  obtain ⟨h1, h2⟩ := C102_mu_auto _ _ _ _ _ hN
  refine ⟨N, hN, hsz, h2, h1, fun d => (C102_fresh_raises N.net d).2 ?_⟩
  rw [hsz]; simp

end Padasip
