import Verif.Model.Detection
import Verif.Lemmas.Field

/-!
# C61, C62: ELBND
-/

set_option linter.unusedSectionVars false
set_option linter.unusedSimpArgs false

namespace Padasip

open Finset

section structural
variable {K : Type} [Scalar K] {n : ℕ}

theorem diff1_length (a : List (Vec K n)) : (diff1 a).length = a.length - 1 := by
  unfold diff1; simp

theorem elbndDw_length (w : List (Vec K n)) : (elbndDw w).length = w.length := by
  rcases w with _ | ⟨r, t⟩
  · rfl
  · simp [elbndDw, diff1_length]

theorem elbndDw_get (w : List (Vec K n)) (k : ℕ) (hk : k < w.length) (i : Fin n) :
    ((elbndDw w)[k]'(by rw [elbndDw_length]; exact hk)) i
      = if h : k + 1 < w.length then Scalar.abs (w[k + 1] i - w[k] i) else 0 := by
  rcases w with _ | ⟨r, t⟩
  · simp at hk
  · have hdw : elbndDw (r :: t) = List.map absRow (diff1 (r :: t)) ++ [fun _ => 0] := rfl
    rw [List.getElem_of_eq hdw]
    have hl : (List.map absRow (diff1 (r :: t))).length = t.length := by simp [diff1_length]
    split
    · rename_i h
      have h' : k < t.length := by simpa using h
      rw [List.getElem_append_left (by rw [hl]; exact h')]
      rw [List.getElem_map]
      unfold absRow diff1
      rw [List.getElem_zipWith, List.getElem_of_eq (List.drop_one), List.getElem_of_eq (List.tail_cons)]
      rfl
    · rename_i h
      have h' : k = t.length := by simp at h hk; omega
      rw [List.getElem_append_right (by rw [hl]; omega)]
      simp

/-- C61: any function name other than "max" and "sum" raises `ValueError`. -/
theorem C61_unknown_function (w : List (Vec K n)) (e : List K) (f : String) (h1 : f ≠ "max") (h2 : f ≠ "sum") :
    elbnd w e f = .error .valueError := by
  unfold elbnd
  rw [if_pos (by simp [h1, h2])]

theorem elbnd_unfold (w : List (Vec K n)) (e : List K) (f : String) (hf : f = "max" ∨ f = "sum") :
    elbnd w e f = match elbndProd (elbndDw w) e with
      | .error err => .error err
      | .ok p => if f = "max" then rowMax (p.map absRow) else .ok ((p.map absRow).map vsum) := by
  unfold elbnd
  rw [if_neg (not_not.mpr hf)]
  rfl

theorem elbndProd_same (dw : List (Vec K n)) (e : List K) (h : dw.length = e.length) :
    elbndProd dw e = .ok (List.zipWith (fun r b i => r i * b) dw e) := by
  unfold elbndProd; rw [if_pos h]

/-- C62: if the lengths of `w` and `e` differ and neither is one, numpy raises `ValueError`. -/
theorem C62_mismatch (w : List (Vec K n)) (e : List K) (f : String) (h : e.length ≠ w.length) (h1 : e.length ≠ 1)
    (h2 : w.length ≠ 1) : elbnd w e f = .error .valueError := by
  by_cases hf : f = "max" ∨ f = "sum"
  · rw [elbnd_unfold w e f hf]
    have hl := elbndDw_length w
    have : elbndProd (elbndDw w) e = .error .valueError := by
      unfold elbndProd
      rw [if_neg (by omega)]
      split
      · simp at h1
      · rename_i h3 _
        rw [h3] at hl
        exact absurd hl.symm (by simpa using h2)
      · rfl
    rw [this]
  · push Not at hf
    exact C61_unknown_function w e f hf.1 hf.2

theorem rowMax_ok (a : List (Vec K n)) (h : n ≠ 0 ∨ a = []) : ∃ l, rowMax a = .ok l ∧ l.length = a.length := by
  unfold rowMax
  rw [if_neg (by tauto)]
  exact ⟨_, rfl, by simp⟩

/-- C62: the result has the length of the longer of the two when they are broadcast: with `len(e) = len(w)` or `len(e) = 1` the length of `w`,
but with a single row in `w` the length of `e`. -/
theorem C62_length (w : List (Vec K n)) (e : List K) (f : String) (hf : f = "max" ∨ f = "sum") (hn : n ≠ 0) :
    (e.length = w.length ∨ e.length = 1 → ∃ l, elbnd w e f = .ok l ∧ l.length = w.length) ∧
    (w.length = 1 → ∃ l, elbnd w e f = .ok l ∧ l.length = e.length) := by
  have hl := elbndDw_length w
  have key : ∀ p : List (Vec K n), elbndProd (elbndDw w) e = .ok p → ∃ l, elbnd w e f = .ok l ∧ l.length = p.length := by
    intro p hp
    rw [elbnd_unfold w e f hf, hp]
    dsimp only
    split
    · obtain ⟨l, h1, h2⟩ := rowMax_ok (p.map absRow) (Or.inl hn)
      exact ⟨l, h1, by rw [h2]; simp⟩
    · exact ⟨_, rfl, by simp⟩
  have hsame : e.length = w.length → ∃ p, elbndProd (elbndDw w) e = .ok p ∧ p.length = w.length := by
    intro h
    exact ⟨_, elbndProd_same _ _ (by omega), by simp [hl, h]⟩
  refine ⟨?_, ?_⟩
  · intro h
    by_cases hs : e.length = w.length
    · obtain ⟨p, hp, hpl⟩ := hsame hs
      obtain ⟨l, h1, h2⟩ := key p hp
      exact ⟨l, h1, by omega⟩
    · have h1 : e.length = 1 := by tauto
      obtain ⟨b, rfl⟩ := List.length_eq_one_iff.mp h1
      obtain ⟨l, h2, h3⟩ := key ((elbndDw w).map fun r i => r i * b) (by
        unfold elbndProd; rw [if_neg (by omega)])
      exact ⟨l, h2, by rw [h3]; simp [hl]⟩
  · intro h
    by_cases hs : e.length = w.length
    · obtain ⟨p, hp, hpl⟩ := hsame hs
      obtain ⟨l, h1, h2⟩ := key p hp
      exact ⟨l, h1, by omega⟩
    · obtain ⟨r, hr⟩ := List.length_eq_one_iff.mp (hl.trans h)
      obtain ⟨l, h2, h3⟩ := key (e.map fun b i => r i * b) (by
        unfold elbndProd
        rw [if_neg (by omega), hr]
        split
        · rename_i b h4 h5
          simp at hs; omega
        · rename_i r' h4 h5
          cases h4; rfl
        · rename_i h4 h5
          exact absurd rfl (h5 r))
      exact ⟨l, h2, by rw [h3]; simp⟩

end structural

example : elbnd ([![1, 2]] : List (Vec ℚ 2)) [1, 2, 3] "max" = .ok [0, 0, 0] ∧
    elbnd ([![1, 2], ![2, 0]] : List (Vec ℚ 2)) [3] "sum" = .ok [9, 0] ∧
    elbnd ([![1, 2], ![2, 0]] : List (Vec ℚ 2)) [3, 1, 1] "sum" = .error .valueError := by decide +kernel

section field
variable {K : Type} [Field K] [LinearOrder K] [IsStrictOrderedRing K] {n : ℕ}

/-- Specification: the product of the increments of the weights after sample `k` and the error at sample `k`. -/
def elbndTerm (w : List (Vec K n)) (e : List K) (k : ℕ) (hk : k < w.length) (he : k < e.length) (i : Fin n) : K :=
  if h : k + 1 < w.length then |w[k + 1] i - w[k] i| * |e[k]| else 0

theorem elbnd_rows (w : List (Vec K n)) (e : List K) (h : e.length = w.length) :
    (List.zipWith (fun r b i => r i * b) (elbndDw w) e).map absRow
      = List.ofFn fun k : Fin w.length => fun i => elbndTerm w e k k.isLt (h.symm ▸ k.isLt) i := by
  apply List.ext_getElem
  · simp [elbndDw_length, h]
  · intro k h1 h2
    have hk : k < w.length := by simpa using h2
    funext i
    rw [List.getElem_map, List.getElem_ofFn]
    unfold absRow
    rw [List.getElem_zipWith]
    dsimp only
    rw [elbndDw_get w k hk i]
    unfold elbndTerm
    split
    · show |(|w[k + 1] i - w[k] i|) * e[k]| = _
      rw [abs_mul, abs_abs]
    · show |0 * e[k]| = 0
      simp

/-- C61: with "sum", the value of sample `k` is the sum over the weights of `|w[k+1,i]-w[k,i]| |e[k]|`, and 0 for the last sample. -/
theorem C61_sum (w : List (Vec K n)) (e : List K) (h : e.length = w.length) :
    elbnd w e "sum" = .ok (List.ofFn fun k : Fin w.length => ∑ i, elbndTerm w e k k.isLt (h.symm ▸ k.isLt) i) := by
  rw [elbnd_unfold w e "sum" (Or.inr rfl), elbndProd_same _ _ (by rw [elbndDw_length, h])]
  dsimp only
  rw [if_neg (by decide), elbnd_rows w e h, List.map_ofFn]
  congr 2
  funext k
  simp [vsum_eq]

theorem foldl_smax (t : List K) (h : K) : (t.foldl smax h = h ∨ t.foldl smax h ∈ t) ∧ h ≤ t.foldl smax h ∧ ∀ a ∈ t, a ≤ t.foldl smax h := by
  induction t generalizing h with
  | nil => simp
  | cons b t ih =>
    obtain ⟨h1, h2, h3⟩ := ih (smax h b)
    have hm : (smax h b = h ∨ smax h b = b) ∧ h ≤ smax h b ∧ b ≤ smax h b := by
      unfold smax
      have hn : ∀ a : K, Scalar.isnan a = false := fun _ => rfl
      by_cases hlt : h < b
      · have : Scalar.lt h b = true := decide_eq_true hlt
        simp [this, hlt.le, hn]
      · have : Scalar.lt h b = false := decide_eq_false hlt
        simp [this, not_lt.mp hlt, hn]
    simp only [List.foldl_cons, List.mem_cons, forall_eq_or_imp]
    refine ⟨?_, hm.2.1.trans h2, hm.2.2.trans h2, h3⟩
    rcases h1 with h1 | h1
    · rcases hm.1 with h4 | h4
      · left; rw [h1, h4]
      · right; left; rw [h1, h4]
    · right; right; exact h1

/-- C61: with "max", the value of sample `k` is the greatest of the numbers `|w[k+1,i]-w[k,i]| |e[k]|` (0 for the last sample). -/
theorem C61_max (w : List (Vec K n)) (e : List K) (h : e.length = w.length) (hn : n ≠ 0) :
    ∃ v : Fin w.length → K, elbnd w e "max" = .ok (List.ofFn v) ∧
      ∀ k : Fin w.length, IsGreatest (Set.range (elbndTerm w e k k.isLt (h.symm ▸ k.isLt))) (v k) := by
  rw [elbnd_unfold w e "max" (Or.inl rfl), elbndProd_same _ _ (by rw [elbndDw_length, h])]
  dsimp only
  rw [if_pos rfl, elbnd_rows w e h]
  unfold rowMax
  rw [if_neg (by tauto), List.map_ofFn]
  refine ⟨_, rfl, fun k => ?_⟩
  simp only [Function.comp]
  set f : Fin n → K := fun i => elbndTerm w e k k.isLt (h.symm ▸ k.isLt) i with hf
  obtain ⟨m, rfl⟩ := Nat.exists_eq_succ_of_ne_zero hn
  rw [List.ofFn_succ]
  obtain ⟨h1, h2, h3⟩ := foldl_smax (List.ofFn fun i : Fin m => f i.succ) (f 0)
  refine ⟨?_, ?_⟩
  · rcases h1 with h1 | h1
    · exact ⟨0, h1.symm⟩
    · obtain ⟨i, hi⟩ := List.mem_ofFn.mp h1
      exact ⟨i.succ, hi⟩
  · rintro _ ⟨i, rfl⟩
    refine Fin.cases ?_ (fun i => ?_) i
    · exact h2
    · exact h3 _ (List.mem_ofFn.mpr ⟨i, rfl⟩)

theorem elbndTerm_nonneg (w : List (Vec K n)) (e : List K) (k : ℕ) (hk : k < w.length) (he : k < e.length) (i : Fin n) :
    0 ≤ elbndTerm w e k hk he i := by
  unfold elbndTerm
  split
  · exact mul_nonneg (abs_nonneg _) (abs_nonneg _)
  · exact le_refl _

/-- C61: a history with rows but without columns: `"max"` raises `ValueError` (maximum of nothing), `"sum"` gives zeros. -/
theorem C61_no_weights (w : List (Vec K 0)) (e : List K) (h : e.length = w.length) (hw : w ≠ []) :
    elbnd w e "max" = .error .valueError ∧ elbnd w e "sum" = .ok (List.replicate w.length 0) := by
  constructor
  · rw [elbnd_unfold w e "max" (Or.inl rfl), elbndProd_same _ _ (by rw [elbndDw_length, h])]
    dsimp only
    rw [if_pos rfl]
    unfold rowMax
    refine if_pos ⟨rfl, fun h0 => ?_⟩
    have h1 := congrArg List.length h0
    simp only [List.length_map, List.length_zipWith, elbndDw_length, h, List.length_nil, Nat.min_self] at h1
    exact hw (List.length_eq_zero_iff.mp h1)
  · rw [C61_sum w e h]
    simp [List.ofFn_const]

/-- C61: both measures are non-negative, and `max <= sum <= n * max` for every sample. -/
theorem C61_bounds (w : List (Vec K n)) (e : List K) (h : e.length = w.length) (hn : n ≠ 0) :
    ∃ v s : Fin w.length → K, elbnd w e "max" = .ok (List.ofFn v) ∧ elbnd w e "sum" = .ok (List.ofFn s) ∧
      ∀ k, 0 ≤ v k ∧ v k ≤ s k ∧ s k ≤ n * v k := by
  obtain ⟨v, h1, h2⟩ := C61_max w e h hn
  refine ⟨v, _, h1, C61_sum w e h, fun k => ?_⟩
  obtain ⟨⟨i, hi⟩, hub⟩ := h2 k
  have hnn := elbndTerm_nonneg w e k k.isLt (h.symm ▸ k.isLt)
  refine ⟨hi ▸ hnn i, ?_, ?_⟩
  · rw [← hi]
    exact single_le_sum (f := fun i => elbndTerm w e k k.isLt (h.symm ▸ k.isLt) i) (fun i _ => hnn i) (mem_univ i)
  · calc ∑ i, elbndTerm w e k k.isLt (h.symm ▸ k.isLt) i ≤ ∑ _i : Fin n, v k := sum_le_sum fun i _ => hub ⟨i, rfl⟩
      _ = n * v k := by simp

example : elbnd ([![1, 2], ![2, 0], ![2, 5]] : List (Vec ℚ 2)) [3, -1, 7] "max" = .ok [6, 5, 0] ∧
    elbnd ([![1, 2], ![2, 0], ![2, 5]] : List (Vec ℚ 2)) [3, -1, 7] "sum" = .ok [9, 5, 0] := by decide +kernel

end field

end Padasip
