import Verif.Model.DetectArgs
import Verif.Props.NanTools

/-!
# C127: every form of the arguments of `learning_entropy` and `ESE`
-/

set_option linter.unusedSectionVars false
set_option linter.unusedSimpArgs false
set_option linter.unusedVariables false

namespace Padasip

/-! ## Python loops and slices -/

theorem pyIdx_nonneg (N k : ℕ) (h : k < N) : pyIdx N (k : ℤ) = .ok k := by
  unfold pyIdx
  rw [if_pos (by omega), if_pos (by omega)]
  simp

theorem pyIdx_neg (N : ℕ) (k : ℤ) (h1 : -(N : ℤ) ≤ k) (h2 : k < 0) : ∃ i, i < N ∧ pyIdx N k = .ok i := by
  refine ⟨(N + k).toNat, by omega, ?_⟩
  unfold pyIdx
  rw [if_neg (by omega), if_pos h1]

theorem pyIdx_low (N : ℕ) (k : ℤ) (h1 : k < -(N : ℤ)) : pyIdx N k = .error .indexError := by
  unfold pyIdx
  rw [if_neg (by omega), if_neg (by omega)]

theorem setLoop_append {α : Type} (f : ℤ → α) (a b : List ℤ) (acc : List α) :
    setLoop f (a ++ b) acc = match setLoop f a acc with | .error e => .error e | .ok r => setLoop f b r := by
  induction a generalizing acc with
  | nil => rfl
  | cons k t ih =>
    simp only [List.cons_append, setLoop]
    rcases pyIdx acc.length k with e | i
    · rfl
    · exact ih _

theorem setLoop_length {α : Type} (f : ℤ → α) (ks : List ℤ) (acc r : List α) (h : setLoop f ks acc = .ok r) : r.length = acc.length := by
  induction ks generalizing acc with
  | nil => rw [← Except.ok.inj h]
  | cons k t ih =>
    simp only [setLoop] at h
    rcases hi : pyIdx acc.length k with e | i
    · rw [hi] at h; cases h
    · rw [hi] at h
      rw [ih _ h, List.length_set]

/-- the loop over `a, ..., a+t-1` -/
theorem setLoop_up {α : Type} (f : ℤ → α) (a t : ℕ) (acc : List α) (h : a + t ≤ acc.length) :
    ∃ r, setLoop f ((List.range t).map fun s : ℕ => (a : ℤ) + (s : ℤ)) acc = .ok r ∧ r.length = acc.length ∧
      ∀ k, k < acc.length → r[k]? = if a ≤ k ∧ k < a + t then some (f k) else acc[k]? := by
  induction t with
  | zero => exact ⟨acc, rfl, rfl, fun k hk => by rw [if_neg (by omega)]⟩
  | succ t ih =>
    obtain ⟨r, h1, h2, h3⟩ := ih (by omega)
    have hp : pyIdx r.length ((a : ℤ) + (t : ℤ)) = .ok (a + t) := by
      have := pyIdx_nonneg r.length (a + t) (by omega)
      push_cast at this
      exact this
    refine ⟨r.set (a + t) (f ((a : ℤ) + (t : ℤ))), ?_, by rw [List.length_set, h2], fun k hk => ?_⟩
    · rw [List.range_succ, List.map_append, setLoop_append, h1]
      simp only [List.map_cons, List.map_nil, setLoop, hp]
    · rw [List.getElem?_set]
      by_cases hkt : a + t = k
      · subst hkt
        rw [if_pos rfl, if_pos (by omega), if_pos ⟨by omega, by omega⟩]
        push_cast; rfl
      · rw [if_neg hkt, h3 k hk]
        by_cases hc : a ≤ k ∧ k < a + t
        · rw [if_pos hc, if_pos ⟨hc.1, by omega⟩]
        · rw [if_neg hc, if_neg (by omega)]

theorem setLoop_neg {α : Type} (f : ℤ → α) (ks : List ℤ) (acc : List α) (h : ∀ k ∈ ks, -(acc.length : ℤ) ≤ k ∧ k < 0) : ∃ r, setLoop f ks acc = .ok r ∧ r.length = acc.length := by
  induction ks generalizing acc with
  | nil => exact ⟨acc, rfl, rfl⟩
  | cons k t ih =>
    obtain ⟨i, hi, hp⟩ := pyIdx_neg acc.length k (h k (by simp)).1 (h k (by simp)).2
    obtain ⟨r, h1, h2⟩ := ih (acc.set i (f k)) (fun k hk => by rw [List.length_set]; exact h k (by simp [hk]))
    exact ⟨r, by simp only [setLoop, hp, h1], by rw [h2, List.length_set]⟩

theorem pyRange_split (m : ℤ) (N : ℕ) (h : m ≤ 0) : pyRange m N = pyRange m 0 ++ pyRange 0 N := by
  obtain ⟨q, rfl⟩ : ∃ q : ℕ, m = -(q : ℤ) := ⟨(-m).toNat, by omega⟩
  unfold pyRange
  rw [show ((N : ℤ) - -(q : ℤ)).toNat = q + N by omega, show ((0 : ℤ) - -(q : ℤ)).toNat = q by omega, show ((N : ℤ) - 0).toNat = N by omega, List.range_add, List.map_append, List.map_map]
  congr 1
  apply List.map_congr_left
  intro a _
  simp

theorem mem_pyRange (a b k : ℤ) : k ∈ pyRange a b ↔ a ≤ k ∧ k < b := by
  unfold pyRange
  rw [List.mem_map]
  constructor
  · rintro ⟨t, ht, rfl⟩
    have := List.mem_range.1 ht
    omega
  · rintro ⟨h1, h2⟩
    exact ⟨(k - a).toNat, List.mem_range.2 (by omega), by omega⟩

theorem pySlice_window {α : Type} (l : List α) (m k : ℕ) (h1 : m ≤ k) (h2 : k ≤ l.length) : pySlice l ((k : ℤ) - (m : ℤ)) k = (l.drop (k - m)).take m := by
  unfold pySlice pyBound
  rw [if_pos (by omega), if_pos (by omega), show (((k : ℤ) - (m : ℤ)).toNat) = k - m by omega, show ((k : ℤ).toNat) = k by omega, min_eq_left (by omega), min_eq_left h2,
    List.drop_take, show k - (k - m) = m by omega]

theorem pySlice_empty {α : Type} (l : List α) (m : ℤ) (k : ℕ) (hm : m ≤ 0) : pySlice l ((k : ℤ) - m) k = [] := by
  unfold pySlice pyBound
  rw [if_pos (by omega), if_pos (by omega)]
  apply List.drop_eq_nil_of_le
  rw [List.length_take]
  omega

section
variable {K : Type} [Transc K] {n : ℕ}

/-! ## The running statistic -/

/-- for `m >= 0` -/
theorem leStat_nonneg (stat : List K → K) (m : ℕ) (dw : List (Vec K n)) :
    leStat stat (m : ℤ) dw = .ok ((List.range dw.length).map fun k => fun i => if k < m then 0 else stat ((leWindow m k dw).map fun r => r i)) := by
  unfold leStat
  by_cases hm : m ≤ dw.length
  · obtain ⟨r, h1, h2, h3⟩ := setLoop_up (fun k i => stat ((pySlice dw (k - (m : ℤ)) k).map fun r => r i)) m (dw.length - m) (List.replicate dw.length fun _ => (0 : K))
      (by rw [List.length_replicate]; omega)
    have e : pyRange (m : ℤ) dw.length = (List.range (dw.length - m)).map fun s : ℕ => (m : ℤ) + (s : ℤ) := by
      unfold pyRange
      rw [show ((dw.length : ℤ) - (m : ℤ)).toNat = dw.length - m by omega]
    rw [e, h1]
    congr 1
    apply List.ext_getElem?
    intro k
    rw [List.length_replicate] at h2 h3
    rw [getElem?_rangeMap]
    by_cases hk : k < dw.length
    · rw [h3 k hk, if_pos hk]
      by_cases hkm : k < m
      · rw [if_neg (by omega), List.getElem?_replicate, if_pos hk]
        simp [hkm]
      · rw [if_pos ⟨by omega, by omega⟩, pySlice_window dw m k (by omega) hk.le]
        simp [hkm, leWindow]
    · rw [if_neg hk, List.getElem?_eq_none (by omega)]
  · have e : pyRange (m : ℤ) dw.length = [] := by
      unfold pyRange
      rw [show ((dw.length : ℤ) - (m : ℤ)).toNat = 0 by omega]; rfl
    rw [e]
    show Except.ok _ = _
    congr 1
    apply List.ext_getElem?
    intro k
    rw [getElem?_rangeMap, List.getElem?_replicate]
    split
    · rw [Option.some.injEq]; funext i; rw [if_pos (by omega)]
    · rfl

/-- for `-N <= m <= 0` every row is the statistic of an empty array -/
theorem leStat_neg (stat : List K → K) (m : ℤ) (dw : List (Vec K n)) (h1 : -(dw.length : ℤ) ≤ m) (h2 : m ≤ 0) :
    leStat stat m dw = .ok (List.replicate dw.length fun _ => stat []) := by
  unfold leStat
  rw [pyRange_split m dw.length h2, setLoop_append]
  obtain ⟨r, e1, e2⟩ := setLoop_neg (fun k i => stat ((pySlice dw (k - m) k).map fun r => r i)) (pyRange m 0) (List.replicate dw.length fun _ => (0 : K)) (fun k hk => by
    rw [List.length_replicate]
    have := (mem_pyRange _ _ _).1 hk
    omega)
  rw [e1]
  rw [List.length_replicate] at e2
  obtain ⟨r', f1, f2, f3⟩ := setLoop_up (fun k i => stat ((pySlice dw (k - m) k).map fun r => r i)) 0 dw.length r (by omega)
  have e : pyRange 0 dw.length = (List.range dw.length).map fun s : ℕ => ((0 : ℕ) : ℤ) + (s : ℤ) := by
    unfold pyRange
    rw [show ((dw.length : ℤ) - 0).toNat = dw.length by omega]; rfl
  rw [e]
  dsimp only
  rw [f1]
  congr 1
  apply List.ext_getElem?
  intro k
  rw [List.getElem?_replicate]
  by_cases hk : k < dw.length
  · rw [f3 k (by omega), if_pos ⟨by omega, by omega⟩, if_pos hk, Option.some.injEq]
    funext i
    rw [pySlice_empty dw m k h2]
    rfl
  · rw [if_neg hk, List.getElem?_eq_none (by omega)]

theorem leStat_low (stat : List K → K) (m : ℤ) (dw : List (Vec K n)) (h : m < -(dw.length : ℤ)) : leStat stat m dw = .error .indexError := by
  unfold leStat
  have e : pyRange m dw.length = m :: ((List.range ((dw.length : ℤ) - m - 1).toNat).map fun s : ℕ => m + ((s + 1 : ℕ) : ℤ)) := by
    unfold pyRange
    obtain ⟨q, hq⟩ : ∃ q, ((dw.length : ℤ) - m).toNat = q + 1 := ⟨((dw.length : ℤ) - m - 1).toNat, by omega⟩
    rw [hq, List.range_succ_eq_map, List.map_cons, List.map_map, show ((dw.length : ℤ) - m - 1).toNat = q by omega]
    simp [Function.comp_def]
  rw [e]
  simp only [setLoop, List.length_replicate, pyIdx_low _ _ h]

/-! ## Learning entropy -/

/-- the documented argument forms: `False`, `None` and lists -/
def LeAlpha.asOption : LeAlpha K → Option (Option (List K))
  | .absent => some none
  | .list l => some (some l)
  | _ => none

theorem fillFirstZ_nat {α : Type} (m : ℕ) (c : α) (x : List α) : fillFirstZ (m : ℤ) c x = fillFirst m c x := by
  unfold fillFirstZ fillFirst pyBound
  rw [if_pos (by omega), show ((m : ℤ).toNat) = m by omega]
  congr 1
  by_cases h : m ≤ x.length
  · rw [min_eq_left h]
  · rw [min_eq_right (by omega), List.drop_length, List.drop_eq_nil_of_le (by omega)]

theorem zip_range_map {α β γ : Type} (l : List α) (N : ℕ) (hN : N = l.length) (g : ℕ → β) (F : α × β → γ) :
    (l.zip ((List.range N).map g)).map F = l.zipIdx.map fun q => F (q.1, g q.2) := by
  subst hN
  apply List.ext_getElem (by simp)
  intro k h1 h2
  simp

/-- C127: for `m >= 0`, `alpha` absent or a list, the loop with Python's index rules is `learningEntropy` (the subject of C60-C67): every theorem about it applies. -/
theorem C127_le_agrees (w : List (Vec K n)) (m : ℕ) (order : ℤ) (alpha : LeAlpha K) (o : Option (List K)) (ho : alpha.asOption = some o) :
    learningEntropyZ w (m : ℤ) order alpha = learningEntropy w m order o := by
  unfold learningEntropyZ learningEntropy
  by_cases hord : order < 0
  · rw [if_pos hord, if_pos hord]
  rw [if_neg hord, if_neg hord]
  have direct : ∀ dw : List (Vec K n), fillFirstZ (m : ℤ) (fun _ : Fin n => (0 : K))
      ((dw.zip (((List.range dw.length).map fun k => fun i : Fin n => if k < m then 0 else meanL ((leWindow m k dw).map fun r => r i)).zip
        ((List.range dw.length).map fun k => fun i : Fin n => if k < m then 0 else stdL ((leWindow m k dw).map fun r => r i)))).map
        fun q : Vec K n × Vec K n × Vec K n => fun i : Fin n => (q.1 i - q.2.1 i) / (q.2.2 i + 1 / Scalar.nat (10 ^ 10))) =
      fillFirst m (fun _ => 0) (dw.zipIdx.map fun q => fun i => (q.1 i - leMean m dw q.2 i) / (leStd m dw q.2 i + 1 / Scalar.nat (10 ^ 10))) := by
    intro dw
    rw [fillFirstZ_nat, List.zip_map', zip_range_map _ _ rfl]
    rfl
  dsimp only
  rw [leStat_nonneg, leStat_nonneg]
  rcases alpha with _ | a | l | ⟨a, t⟩
  · cases ho
    simp only [LeAlpha.isFalse]
    rw [direct]
    rfl
  · cases ho
  · cases ho
    rcases l with _ | ⟨a, t⟩
    · simp only [LeAlpha.isFalse, List.isEmpty_nil]
      rw [direct]
      rfl
    · simp only [LeAlpha.isFalse, List.isEmpty_cons, LeAlpha.values]
      unfold leMulti
      dsimp only
      rw [fillFirstZ_nat, zip_range_map _ _ rfl, List.map_map]
      rfl
  · cases ho

/-- C127: a numpy array of one element that is not zero acts like the list of that element, whatever `m`; one that is zero, like a zero number, selects the direct approach. -/
theorem C127_le_array_one (w : List (Vec K n)) (m order : ℤ) (a : K) :
    (Scalar.eqz a = false → learningEntropyZ w m order (.array a []) = learningEntropyZ w m order (.list [a])) ∧
    (Scalar.eqz a = true → learningEntropyZ w m order (.array a []) = learningEntropyZ w m order .absent ∧
      learningEntropyZ w m order (.scalar a) = learningEntropyZ w m order .absent) := by
  refine ⟨fun h => ?_, fun h => ?_⟩
  · simp only [learningEntropyZ, LeAlpha.isFalse, LeAlpha.values, h, List.isEmpty_cons]
  · simp only [learningEntropyZ, LeAlpha.isFalse, LeAlpha.values, h, List.isEmpty_cons]
    trivial

/-- C127: the documented form "1d array" of `alpha`, when it is a numpy array of more than one element, is always rejected with `ValueError`. -/
theorem C127_le_array_many (w : List (Vec K n)) (m order : ℤ) (a b : K) (t : List K) : learningEntropyZ w m order (.array a (b :: t)) = .error .valueError := by
  unfold learningEntropyZ
  by_cases h : order < 0
  · rw [if_pos h]
  · rw [if_neg h]; rfl

/-- C127: a single sensitivity given as a number is a `TypeError` (for valid `m` and `order`). -/
theorem C127_le_scalar (w : List (Vec K n)) (m order : ℤ) (a : K) (ha : Scalar.eqz a = false) (ho : 0 ≤ order) (hm : -(w.length : ℤ) ≤ m) :
    learningEntropyZ w m order (.scalar a) = .error .typeError := by
  unfold learningEntropyZ
  rw [if_neg (by omega)]
  simp only [LeAlpha.isFalse, ha, LeAlpha.values]
  have hl : (leDw order.toNat w).length = w.length := leDw_length _ _
  obtain ⟨r, hr⟩ : ∃ r, leStat meanL m (leDw order.toNat w) = .ok r := by
    by_cases h : m ≤ 0
    · exact ⟨_, leStat_neg meanL m _ (by rw [hl]; exact hm) h⟩
    · obtain ⟨q, rfl⟩ : ∃ q : ℕ, m = (q : ℤ) := ⟨m.toNat, by omega⟩
      exact ⟨_, leStat_nonneg meanL q _⟩
  rw [hr]

/-- C127: a negative `order` is a `ValueError`; `m` below minus the number of rows is an `IndexError` unless `alpha` is an array of several elements (`ValueError`). -/
theorem C127_le_rejects (w : List (Vec K n)) (m order : ℤ) (alpha : LeAlpha K) :
    (order < 0 → learningEntropyZ w m order alpha = .error .valueError) ∧
    (0 ≤ order → m < -(w.length : ℤ) → (∀ a b t, alpha ≠ .array a (b :: t)) → learningEntropyZ w m order alpha = .error .indexError) := by
  refine ⟨fun h => by unfold learningEntropyZ; rw [if_pos h], fun ho hm ha => ?_⟩
  have hl : (leDw order.toNat w).length = w.length := leDw_length _ _
  have hs : ∀ stat, leStat stat m (leDw order.toNat w) = .error .indexError := fun stat => leStat_low stat m _ (by rw [hl]; exact hm)
  obtain ⟨b, hb⟩ : ∃ b, alpha.isFalse = .ok b := by
    rcases alpha with _ | a | l | ⟨a, _ | ⟨c, t⟩⟩
    · exact ⟨_, rfl⟩
    · exact ⟨_, rfl⟩
    · exact ⟨_, rfl⟩
    · exact ⟨_, rfl⟩
    · exact absurd rfl (ha a c t)
  unfold learningEntropyZ
  rw [if_neg (by omega)]
  simp only [hb]
  cases b
  · simp only [hs]
  · simp only [hs]

/-- C127: exactly these calls succeed. -/
theorem C127_le_accepts_iff (w : List (Vec K n)) (m order : ℤ) (alpha : LeAlpha K) :
    (∃ r, learningEntropyZ w m order alpha = .ok r) ↔
      0 ≤ order ∧ -(w.length : ℤ) ≤ m ∧ (∀ a b t, alpha ≠ .array a (b :: t)) ∧ ∀ a, alpha = .scalar a → Scalar.eqz a = true := by
  constructor
  · rintro ⟨r, hr⟩
    have h1 : 0 ≤ order := by
      by_contra h
      rw [(C127_le_rejects w m order alpha).1 (by omega)] at hr; cases hr
    have h3 : ∀ a b t, alpha ≠ .array a (b :: t) := by
      rintro a b t rfl
      rw [C127_le_array_many] at hr; cases hr
    have h2 : -(w.length : ℤ) ≤ m := by
      by_contra h
      rw [(C127_le_rejects w m order alpha).2 h1 (by omega) h3] at hr; cases hr
    refine ⟨h1, h2, h3, ?_⟩
    rintro a rfl
    by_contra h
    rw [C127_le_scalar w m order a (by simpa using h) h1 h2] at hr; cases hr
  · rintro ⟨ho, hm, ha, hs⟩
    have hl : (leDw order.toNat w).length = w.length := leDw_length _ _
    have hst : ∀ stat, ∃ r, leStat stat m (leDw order.toNat w) = .ok r := by
      intro stat
      by_cases h : m ≤ 0
      · exact ⟨_, leStat_neg stat m _ (by rw [hl]; exact hm) h⟩
      · obtain ⟨q, rfl⟩ : ∃ q : ℕ, m = (q : ℤ) := ⟨m.toNat, by omega⟩
        exact ⟨_, leStat_nonneg stat q _⟩
    obtain ⟨r1, h1⟩ := hst meanL
    obtain ⟨r2, h2⟩ := hst stdL
    unfold learningEntropyZ
    rw [if_neg (by omega)]
    rcases alpha with _ | a | l | ⟨a, _ | ⟨c, t⟩⟩
    · simp only [LeAlpha.isFalse, h1, h2]; exact ⟨_, rfl⟩
    · simp only [LeAlpha.isFalse, hs a rfl, h1, h2]; exact ⟨_, rfl⟩
    · simp only [LeAlpha.isFalse]
      cases l.isEmpty
      · simp only [h1, LeAlpha.values]; exact ⟨_, rfl⟩
      · simp only [h1, h2]; exact ⟨_, rfl⟩
    · simp only [LeAlpha.isFalse]
      cases Scalar.eqz a
      · simp only [h1, LeAlpha.values]; exact ⟨_, rfl⟩
      · simp only [h1, h2]; exact ⟨_, rfl⟩
    · exact absurd rfl (ha a c t)

variable {nan : K → Prop}

/-- C127: with `m <= 0` the call is accepted (down to minus the number of rows) and the result carries no information: the multiscale value is `0 / (n * len(alpha))` or 0 for
every sample, and the direct values are 0 in the first `N + m` rows and NaN in the last `|m|` (for `m = 0`: NaN everywhere).  `0 / 0`, the mean of an empty array, is a NaN. -/
theorem C127_le_nonpositive (L : NanCmp nan) (h0 : nan (0 / Scalar.nat 0)) (w : List (Vec K n)) (m order : ℤ) (ho : 0 ≤ order) (h1 : -(w.length : ℤ) ≤ m) (h2 : m ≤ 0) :
    (∀ l : List K, l ≠ [] → ∃ r, learningEntropyZ w m order (.list l) = .ok (.flat r) ∧ r.length = w.length ∧ ∀ v ∈ r, v = 0 ∨ v = Scalar.nat 0 / Scalar.nat (n * l.length)) ∧
    ∃ r, learningEntropyZ w m order .absent = .ok (.rows r) ∧ r.length = w.length ∧
      ∀ (k : ℕ) (row : Vec K n), r[k]? = some row → ((m < 0 ∧ (k : ℤ) < w.length + m) → ∀ i, row i = 0) ∧ (¬ (m < 0 ∧ (k : ℤ) < w.length + m) → ∀ i, nan (row i)) := by
  have hl : (leDw order.toNat w).length = w.length := leDw_length _ _
  have hs : ∀ stat, leStat stat m (leDw order.toNat w) = .ok (List.replicate w.length fun _ => stat []) := fun stat => by
    rw [leStat_neg stat m _ (by rw [hl]; exact h1) h2, hl]
  have hmean : nan (meanL ([] : List K)) := h0
  have hfill : ∀ {α : Type} (c : α) (x : List α), x.length = w.length → (fillFirstZ m c x).length = w.length ∧
      ∀ (k : ℕ) (v : α), (fillFirstZ m c x)[k]? = some v → ((m < 0 ∧ (k : ℤ) < w.length + m) → v = c) ∧ (¬ (m < 0 ∧ (k : ℤ) < w.length + m) → x[k]? = some v) := by
    intro α c x hx
    unfold fillFirstZ pyBound
    by_cases hm0 : 0 ≤ m
    · have hm : m = 0 := by omega
      subst hm
      rw [if_pos le_rfl, show (0 : ℤ).toNat = 0 from rfl, Nat.zero_min]
      refine ⟨by simp [hx], fun k v hv => ⟨fun h => by omega, fun _ => by simpa using hv⟩⟩
    · rw [if_neg hm0, hx]
      obtain ⟨q, hq⟩ : ∃ q : ℕ, ((w.length : ℤ) + m) = q := ⟨((w.length : ℤ) + m).toNat, by omega⟩
      rw [hq, show ((q : ℤ).toNat) = q by omega]
      refine ⟨by rw [List.length_append, List.length_replicate, List.length_drop]; omega, fun k v hv => ⟨fun h => ?_, fun h => ?_⟩⟩
      · rw [List.getElem?_append_left (by rw [List.length_replicate]; omega), List.getElem?_replicate, if_pos (by omega)] at hv
        exact (Option.some.inj hv).symm
      · have hk : q ≤ k := by omega
        rw [List.getElem?_append_right (by rw [List.length_replicate]; exact hk), List.length_replicate, List.getElem?_drop, show q + (k - q) = k by omega] at hv
        exact hv
  constructor
  · intro l hne
    obtain ⟨a, t, rfl⟩ := List.exists_cons_of_ne_nil hne
    set x : List K := ((leDw order.toNat w).zip (List.replicate w.length fun _ : Fin n => meanL ([] : List K))).map fun (d, a') =>
      Scalar.nat ((a :: t).map fun al => ((List.finRange n).filter fun i => Scalar.lt (a' i * al) (d i)).length).sum / Scalar.nat (n * (a :: t).length) with hx
    have hxl : x.length = w.length := by simp [hx, hl]
    obtain ⟨f1, f2⟩ := hfill (0 : K) x hxl
    refine ⟨fillFirstZ m 0 x, ?_, f1, fun v hv => ?_⟩
    · unfold learningEntropyZ
      rw [if_neg (by omega)]
      simp only [LeAlpha.isFalse, List.isEmpty_cons, hs, LeAlpha.values]
      rfl
    · obtain ⟨k, hk, rfl⟩ := List.getElem_of_mem hv
      obtain ⟨g1, g2⟩ := f2 k _ (List.getElem?_eq_getElem hk)
      by_cases hc : m < 0 ∧ (k : ℤ) < w.length + m
      · exact Or.inl (g1 hc)
      · right
        have := List.mem_of_getElem? (g2 hc)
        obtain ⟨⟨d, a'⟩, hmem, hv⟩ := List.mem_map.1 this
        have ha' : a' = fun _ => meanL ([] : List K) := (List.mem_replicate.1 (List.of_mem_zip hmem).2).2
        rw [← hv]
        dsimp only
        have hz : ((a :: t).map fun al => ((List.finRange n).filter fun i => Scalar.lt (a' i * al) (d i)).length).sum = 0 := by
          apply List.sum_eq_zero
          intro c hc
          obtain ⟨al, -, rfl⟩ := List.mem_map.1 hc
          rw [ha']
          simp [L.lt_left _ _ (L.mul_left _ _ hmean)]
        rw [hz]
  · set x : List (Vec K n) := ((leDw order.toNat w).zip ((List.replicate w.length fun _ : Fin n => meanL ([] : List K)).zip (List.replicate w.length fun _ : Fin n => stdL ([] : List K)))).map
      fun (d, a, s) => fun i => (d i - a i) / (s i + 1 / Scalar.nat (10 ^ 10)) with hx
    have hxl : x.length = w.length := by simp [hx, hl]
    obtain ⟨f1, f2⟩ := hfill (fun _ : Fin n => (0 : K)) x hxl
    refine ⟨fillFirstZ m (fun _ => 0) x, ?_, f1, fun k row hr => ⟨fun hc i => by rw [(f2 k row hr).1 hc], fun hc i => ?_⟩⟩
    · unfold learningEntropyZ
      rw [if_neg (by omega)]
      simp only [LeAlpha.isFalse, hs]
      rfl
    · have := List.mem_of_getElem? ((f2 k row hr).2 hc)
      rw [hx] at this
      obtain ⟨⟨d, a', s'⟩, hmem, hv⟩ := List.mem_map.1 this
      have ha' : a' = fun _ => meanL ([] : List K) := (List.mem_replicate.1 (List.of_mem_zip (List.of_mem_zip hmem).2).1).2
      rw [← hv]
      dsimp only
      rw [ha']
      exact L.div_left _ _ (L.sub_right _ _ hmean)

/-! ## ESE -/

/-- C127: for `window >= 0` the loop with Python's index rules is `ese` (the subject of C68-C70). -/
theorem C127_ese_agrees (env : EseEnv K) (w : List (Vec K n)) (window : ℕ) (method : String) : eseZ env w (window : ℤ) method = ese env w window method := by
  unfold eseZ ese
  simp only [leDw_length]
  by_cases hw : w.length < window
  · rw [if_pos (by omega), if_pos hw]
  rw [if_neg (by omega), if_neg hw]
  have hl : (leDw 1 w).length = w.length := leDw_length 1 w
  have e : (pyRange (window : ℤ) w.length).mapM (eseRowZ env method (leDw 1 w) (window : ℤ)) =
      ((leDw 1 w).drop window).zipIdx.mapM fun (cur, k) => eseRow env method (((leDw 1 w).drop k).take window) cur := by
    unfold pyRange
    rw [List.mapM_map, show ((w.length : ℤ) - (window : ℤ)).toNat = w.length - window by omega]
    have e2 : ((leDw 1 w).drop window).zipIdx = (List.range (w.length - window)).map fun t => (((leDw 1 w)[window + t]?).getD (fun _ => 0), t) := by
      apply List.ext_getElem (by simp [hl])
      intro k h1 h2
      simp only [List.getElem_zipIdx, List.getElem_drop, List.getElem_map, List.getElem_range]
      rw [List.getElem?_eq_getElem (by simp [hl] at h1 ⊢; omega)]
      simp
    rw [e2, List.mapM_map]
    have : ∀ l : List ℕ, (∀ t ∈ l, t < w.length - window) → l.mapM (eseRowZ env method (leDw 1 w) (window : ℤ) ∘ fun t : ℕ => (window : ℤ) + (t : ℤ)) =
        l.mapM ((fun q : Vec K n × ℕ => eseRow env method (((leDw 1 w).drop q.2).take window) q.1) ∘ fun t => (((leDw 1 w)[window + t]?).getD (fun _ => 0), t)) := by
      intro l
      induction l with
      | nil => intro _; rfl
      | cons t l ih =>
        intro h
        rw [List.mapM_cons, List.mapM_cons, ih fun s hs => h s (by simp [hs])]
        congr 1
        have ht := h t (by simp)
        simp only [Function.comp_apply]
        unfold eseRowZ
        rw [show (window : ℤ) + (t : ℤ) = ((window + t : ℕ) : ℤ) by push_cast; ring, pyIdx_nonneg _ _ (by omega)]
        dsimp only
        rw [List.getElem?_eq_getElem (by omega)]
        dsimp only
        rw [pySlice_window _ window (window + t) (by omega) (by omega), show window + t - window = t by omega]
        rfl
    exact this _ fun t ht => List.mem_range.1 ht
  rw [e]
  have last : ∀ X : Except Err (List K), (match X with
      | .error e => .error e
      | .ok l => if (window : ℤ) < 0 then .error .valueError else .ok (List.replicate (window : ℤ).toNat 0 ++ l) : Except Err (List K)) =
      match X with
      | .error e => .error e
      | .ok l => .ok (List.replicate window 0 ++ l) := by
    intro X
    rcases X with er | l
    · rfl
    · dsimp only
      rw [if_neg (by omega), show ((window : ℤ).toNat) = window by omega]
  exact last _

/-- C127: a negative `window` never works, whatever the history. -/
theorem C127_ese_negative (env : EseEnv K) (w : List (Vec K n)) (window : ℤ) (h : window < 0) (method : String) : ∃ e, eseZ env w window method = .error e := by
  unfold eseZ
  rw [if_neg (by omega)]
  split
  · exact ⟨_, rfl⟩
  · rw [if_pos h]; exact ⟨_, rfl⟩

end

/-! ## Concrete cases -/

example : NanCmp (fun a : NanRat => a = none) ∧ (0 / Scalar.nat 0 : NanRat) = none ∧ -((nanHist.length : ℕ) : ℤ) ≤ -2 := ⟨NanRat.cmp, rfl, by decide⟩

end Padasip
