import Verif.Props.Misc
import Verif.Lemmas.Rules
import Verif.Lemmas.Field

/-!
# C51, C52: integer arrays: MSE and the power normalisation are computed modulo `2^b`
-/

set_option linter.unusedSectionVars false
set_option linter.unusedSimpArgs false

namespace Padasip

variable {b : ℕ}

/-! ## Specification -/

/-- The true sum of squared errors of two integer series. -/
def trueSse (u v : List ℤ) : ℤ := (List.zipWith (fun a c => (a - c) ^ 2) u v).sum

/-- the integers an integer array stands for -/
def values (signed : Bool) (x : List (BitVec b)) : List ℤ := x.map (BitVec.value signed)

/-- what a `b`-bit register makes of an integer `z` -/
def wrapped (b : ℕ) (signed : Bool) (z : ℤ) : ℤ := if signed then z.bmod (2 ^ b) else z % 2 ^ b

theorem cast_value (signed : Bool) (a : BitVec b) : ((BitVec.value signed a : ℤ) : BitVec b) = a := by
  unfold BitVec.value
  cases signed
  · simp
  · apply BitVec.eq_of_toInt_eq
    simp only [if_true, BitVec.toInt_intCast]
    exact BitVec.toInt_bmod_cancel a

theorem value_cast (signed : Bool) (z : ℤ) : BitVec.value signed ((z : ℤ) : BitVec b) = wrapped b signed z := by
  unfold BitVec.value wrapped
  cases signed
  · simp only [Bool.false_eq_true, if_false]
    have : ((z : ℤ) : BitVec b).toNat = (z % 2 ^ b).toNat := by simp
    rw [this]
    exact Int.toNat_of_nonneg (Int.emod_nonneg _ (by positivity))
  · simp

theorem bvDot_cast (signed : Bool) (x1 x2 : List (BitVec b)) :
    bvDotSelf (List.zipWith (· - ·) x1 x2) = ((trueSse (values signed x1) (values signed x2) : ℤ) : BitVec b) := by
  induction x1 generalizing x2 with
  | nil => simp [bvDotSelf, trueSse, values]
  | cons a t ih => cases x2 with
    | nil => simp [bvDotSelf, trueSse, values]
    | cons c u =>
      have := ih u
      simp only [bvDotSelf, trueSse, values, List.zipWith_cons_cons, List.map_cons, List.sum_cons] at this ⊢
      rw [this]
      push_cast
      rw [cast_value, cast_value, pow_two]

/-- C51: the MSE of integer arrays of `b` bits is the true sum of squared errors, wrapped to `b` bits, over the length. -/
theorem C51_exact (signed : Bool) (x1 x2 : List (BitVec b)) (h : x1.length = x2.length) :
    intMSE signed x1 x2 = .ok (wrapped b signed (trueSse (values signed x1) (values signed x2)) / x1.length) := by
  have hl : (List.zipWith (· - ·) x1 x2).length = x1.length := by rw [List.length_zipWith, ← h, Nat.min_self]
  simp only [intMSE, getValidErrorInt, h, ne_eq, not_true_eq_false, if_false]
  rw [bvDot_cast signed, value_cast, hl, h]

theorem trueSse_nonneg (u v : List ℤ) : 0 ≤ trueSse u v := by
  unfold trueSse
  refine List.sum_nonneg fun a ha => ?_
  obtain ⟨i, hi, rfl⟩ := List.getElem_of_mem ha
  rw [List.getElem_zipWith]
  exact sq_nonneg _

theorem wrapped_eq_iff (signed : Bool) (hb : 0 < b) (z : ℤ) (hz : 0 ≤ z) :
    wrapped b signed z = z ↔ z < if signed then 2 ^ (b - 1) else 2 ^ b := by
  unfold wrapped
  obtain ⟨c, rfl⟩ : ∃ c, b = c + 1 := ⟨b - 1, by omega⟩
  have hp : (0 : ℤ) < 2 ^ c := by positivity
  have hpn : 0 < 2 ^ c := by positivity
  cases signed
  · simp only [Bool.false_eq_true, if_false]
    constructor
    · intro h
      rw [← h]
      exact Int.emod_lt_of_pos _ (by positivity)
    · exact fun h => Int.emod_eq_of_lt hz h
  · simp only [if_true, Nat.add_sub_cancel]
    constructor
    · intro h
      have := Int.bmod_lt (x := z) (m := 2 ^ (c + 1)) (by positivity)
      rw [h] at this
      push_cast at this
      rw [pow_succ] at this
      omega
    · intro h
      apply Int.bmod_eq_of_le
      · push_cast; omega
      · push_cast; rw [pow_succ]; omega

/-- C51: the MSE of integer arrays is the true MSE exactly if the true sum of squared errors fits into the type (`< 2^b` for unsigned,
`< 2^(b-1)` for signed types). -/
theorem C51_right_iff (signed : Bool) (hb : 0 < b) (x1 x2 : List (BitVec b)) (h : x1.length = x2.length) (hne : x1 ≠ []) :
    intMSE signed x1 x2 = .ok ((trueSse (values signed x1) (values signed x2) : ℚ) / x1.length) ↔
      trueSse (values signed x1) (values signed x2) < if signed then 2 ^ (b - 1) else 2 ^ b := by
  rw [C51_exact signed x1 x2 h, Except.ok.injEq, ← wrapped_eq_iff signed hb _ (trueSse_nonneg _ _)]
  have : (x1.length : ℚ) ≠ 0 := by
    simpa [List.length_eq_zero_iff] using hne
  rw [div_left_inj' this]
  norm_cast

/-- C51: series of different length raise `ValueError`. -/
theorem C51_lengths (signed : Bool) (x1 x2 : List (BitVec b)) (h : x1.length ≠ x2.length) :
    intMSE signed x1 x2 = .error .valueError := by
  simp [intMSE, getValidErrorInt, h]

/-- the sum of the true absolute errors of two integer series -/
def trueSae (u v : List ℤ) : ℤ := (List.zipWith (fun a c => |a - c|) u v).sum

theorem bvAbs_value (signed : Bool) (hb : 0 < b) (a c : BitVec b)
    (h : if signed then |BitVec.value signed a - BitVec.value signed c| < 2 ^ (b - 1) else BitVec.value signed c ≤ BitVec.value signed a) :
    BitVec.value signed (bvAbs signed (a - c)) = |BitVec.value signed a - BitVec.value signed c| := by
  have hz : (((BitVec.value signed a - BitVec.value signed c : ℤ)) : BitVec b) = a - c := by
    push_cast
    rw [cast_value, cast_value]
  obtain ⟨p, rfl⟩ : ∃ p, b = p + 1 := ⟨b - 1, by omega⟩
  cases signed
  · simp only [Bool.false_eq_true, if_false] at h
    simp only [bvAbs, Bool.false_and, Bool.false_eq_true, if_false]
    rw [← hz, value_cast, abs_of_nonneg (by omega)]
    unfold wrapped
    simp only [Bool.false_eq_true, if_false]
    refine Int.emod_eq_of_lt (by omega) ?_
    have h1 : BitVec.value false a < 2 ^ (p + 1) := by
      unfold BitVec.value
      simp only [Bool.false_eq_true, if_false]
      exact_mod_cast a.isLt
    have h2 : 0 ≤ BitVec.value false c := by
      unfold BitVec.value
      simp
    omega
  · simp only [if_true, Nat.add_sub_cancel] at h
    have hw : ∀ z : ℤ, |z| < 2 ^ p → BitVec.value true ((z : ℤ) : BitVec (p + 1)) = z := by
      intro z hz
      have := abs_lt.mp hz
      rw [value_cast]
      unfold wrapped
      simp only [if_true]
      apply Int.bmod_eq_of_le
      · push_cast; rw [pow_succ]; omega
      · push_cast; rw [pow_succ]; omega
    have h1 : (a - c).toInt = BitVec.value true a - BitVec.value true c := by
      have := hw _ h
      rw [hz] at this
      exact this
    by_cases hn : (a - c).toInt < 0
    · have e : bvAbs true (a - c) = -(a - c) := by rw [bvAbs, decide_eq_true hn]; rfl
      rw [e, abs_of_neg (by rw [← h1]; exact hn), ← hz]
      have := hw (-(BitVec.value true a - BitVec.value true c)) (by rwa [abs_neg])
      rw [← this]
      congr 1
      push_cast
      ring
    · have e : bvAbs true (a - c) = a - c := by rw [bvAbs, decide_eq_false hn]; rfl
      rw [e, abs_of_nonneg (by rw [← h1]; omega)]
      exact h1

/-- C51: the MAE of integer arrays is the true one if every single difference fits into the type: for signed types `|x1 - x2| < 2^(b-1)`, for unsigned types `x2 <= x1`. -/
theorem C51_mae (signed : Bool) (hb : 0 < b) (x1 x2 : List (BitVec b)) (h : x1.length = x2.length)
    (hfit : ∀ i (h1 : i < x1.length) (h2 : i < x2.length),
      if signed then |BitVec.value signed x1[i] - BitVec.value signed x2[i]| < 2 ^ (b - 1) else BitVec.value signed x2[i] ≤ BitVec.value signed x1[i]) :
    intMAE signed x1 x2 = .ok ((trueSae (values signed x1) (values signed x2) : ℚ) / x1.length) := by
  have hl : (List.zipWith (· - ·) x1 x2).length = x1.length := by rw [List.length_zipWith, ← h, Nat.min_self]
  have hs : ((List.zipWith (· - ·) x1 x2).map fun a => BitVec.value signed (bvAbs signed a)) = List.zipWith (fun a c => |a - c|) (values signed x1) (values signed x2) := by
    apply List.ext_getElem
    · simp [values]
    · intro i h1 h2
      have i1 : i < x1.length := by simpa [h] using h1
      have i2 : i < x2.length := by omega
      simp only [List.getElem_map, List.getElem_zipWith, values]
      exact bvAbs_value signed hb _ _ (hfit i i1 i2)
  simp only [intMAE, getValidErrorInt, h, ne_eq, not_true_eq_false, if_false]
  rw [hs, hl, h]
  rfl

/-- both cases occur, and `np.abs` of the smallest `int8` is negative -/
example : intMAE true ([5, -100] : List (BitVec 8)) [7, 20] = .ok 61 ∧ intMAE false ([7, 200] : List (BitVec 8)) [7, 20] = .ok 90 ∧
    intMAE true ([-128] : List (BitVec 8)) [0] = .ok (-128) := by
  decide +kernel

/-- C51: `uint8` series that differ in every entry with MSE 0; `int64` series with a negative MSE; and MAE of `uint8` series is not
symmetric (`1` one way, `255` the other). -/
theorem C51_witnesses :
    intMSE false ([16, 32] : List (BitVec 8)) [0, 0] = .ok 0 ∧
    intMSE true ([3037000500] : List (BitVec 64)) [0] = .ok (-9223372036709301616) ∧
    intMAE false ([1] : List (BitVec 8)) [0] = .ok 1 ∧ intMAE false ([0] : List (BitVec 8)) [1] = .ok 255 := by
  decide +kernel

/-- both sides of `C51_right_iff` occur -/
example : intMSE false ([5, 4] : List (BitVec 8)) [1, 6] = .ok 10 ∧
    trueSse (values false ([5, 4] : List (BitVec 8))) (values false ([1, 6] : List (BitVec 8))) = 20 ∧
    ¬ trueSse (values false ([16, 32] : List (BitVec 8))) (values false ([0, 0] : List (BitVec 8))) < 2 ^ 8 := by
  decide +kernel

/-! ## C52 -/

section c52
variable {n : ℕ}

theorem bvDot_value (signed : Bool) (x : Fin n → BitVec b) :
    BitVec.value signed (bvDotSelf (List.ofFn x)) = wrapped b signed (∑ i, BitVec.value signed (x i) ^ 2) := by
  rw [← value_cast]
  congr 1
  unfold bvDotSelf
  rw [List.map_ofFn, List.sum_ofFn]
  push_cast
  refine Finset.sum_congr rfl fun i _ => ?_
  rw [cast_value, pow_two]
  rfl

/-- C52: with an integer input row NLMS uses the step size `mu / (eps + P)` where `P` is the true power wrapped to `b` bits. -/
theorem C52_exact {K : Type} [Field K] (signed : Bool) (mu eps : K) (w : Fin n → K) (d : K) (x : Fin n → BitVec b) :
    let v : Fin n → K := fun i => (BitVec.value signed (x i) : K)
    let y := ∑ i, w i * v i
    nlmsIntStep signed mu eps w d x
      = (y, d - y, fun i => w i
          + mu / (eps + (wrapped b signed (∑ i, BitVec.value signed (x i) ^ 2) : ℤ)) * v i * (d - y)) := by
  simp only [nlmsIntStep, bvDot_value]

/-- C52: the step is the NLMS step of the model (float input) as long as the power fits into the type. -/
theorem C52_below_range {K : Type} [Field K] [LinearOrder K] [IsStrictOrderedRing K] (signed : Bool) (hb : 0 < b)
    (s : Core K n (EpsExt K)) (d : K) (x : Fin n → BitVec b)
    (h : (∑ i, BitVec.value signed (x i) ^ 2) < if signed then 2 ^ (b - 1) else 2 ^ b) :
    (nlms K n).body d (List.ofFn fun i => (BitVec.value signed (x i) : K)) s
      = (.ok ((nlmsIntStep signed s.mu s.ext.eps s.w d x).1, (nlmsIntStep signed s.mu s.ext.eps s.w d x).2.1),
         { s with w := (nlmsIntStep signed s.mu s.ext.eps s.w d x).2.2 }) := by
  have h0 : (0 : ℤ) ≤ ∑ i, BitVec.value signed (x i) ^ 2 := Finset.sum_nonneg fun i _ => sq_nonneg _
  have hp : dot (fun i => (BitVec.value signed (x i) : K)) (fun i => (BitVec.value signed (x i) : K))
      = ((BitVec.value signed (bvDotSelf (List.ofFn x)) : ℤ) : K) := by
    rw [bvDot_value, (wrapped_eq_iff signed hb _ h0).mpr h, dot_eq]
    push_cast
    exact Finset.sum_congr rfl fun i _ => (pow_two _).symm
  rw [nlms_body, hp, dot_eq]
  rfl

/-- C52: a run of NLMS on the constant `uint8` input `[16]`, whose power `256` wraps to `0`: the error is multiplied by
`1 - 256 mu / eps` at every sample.  -/
theorem C52_diverges {K : Type} [Field K] (mu eps d : K) (w : ℕ → Fin 1 → K) (e : ℕ → K)
    (h : ∀ k, (nlmsIntStep false mu eps (w k) d fun _ => 16#8).2 = (e k, w (k + 1))) (k : ℕ) :
    e k = (1 - 256 * mu / eps) ^ k * e 0 := by
  have hx : BitVec.value false (16#8) = 16 := by decide
  have hP : wrapped 8 false ((16 : ℤ) ^ 2) = 0 := by decide
  have he : ∀ k, e k = d - w k 0 * 16 ∧ w (k + 1) 0 = w k 0 + mu / eps * 16 * e k := by
    intro k
    have := h k
    rw [C52_exact] at this
    have h1 := (Prod.mk.inj this).1
    have h2 := congrFun (Prod.mk.inj this).2 0
    simp only [hP, hx, Finset.univ_unique, Finset.sum_singleton, Int.cast_zero, add_zero] at h1 h2
    have h3 : e k = d - w k 0 * 16 := by rw [← h1]; simp
    refine ⟨h3, ?_⟩
    rw [← h2, h3]
    simp
  induction k with
  | zero => simp
  | succ k ih =>
    rw [pow_succ, mul_right_comm, ← ih, (he (k + 1)).1, (he k).2, (he k).1]
    ring

/-- C52: with the default parameters `mu=0.1, eps=0.001` the error grows by the factor 25599 per sample. -/
theorem C52_default_diverges (d : ℚ) (w : ℕ → Fin 1 → ℚ) (e : ℕ → ℚ)
    (h : ∀ k, (nlmsIntStep false (1 / 10) (1 / 1000) (w k) d fun _ => 16#8).2 = (e k, w (k + 1))) (k : ℕ) :
    |e k| = 25599 ^ k * |e 0| := by
  rw [C52_diverges _ _ d w e h k, abs_mul, abs_pow]
  norm_num

/-- a run exists for every initial weight -/
example (w0 : ℚ) : ∃ (w : ℕ → Fin 1 → ℚ) (e : ℕ → ℚ), w 0 = (fun _ => w0) ∧
    ∀ k, (nlmsIntStep false (1 / 10) (1 / 1000) (w k) 1 fun _ => 16#8).2 = (e k, w (k + 1)) :=
  ⟨fun k => Nat.rec (fun _ => w0) (fun _ v => (nlmsIntStep false (1 / 10) (1 / 1000) v 1 fun _ => 16#8).2.2) k,
    _, rfl, fun _ => rfl⟩

/-- the hypothesis of `C52_below_range` is met -/
example : (∑ i : Fin 2, BitVec.value false ((![3, 15] : Fin 2 → BitVec 8) i) ^ 2) < if false then 2 ^ (8 - 1) else 2 ^ 8 := by
  decide

end c52
end Padasip
