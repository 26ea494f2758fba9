import Verif.Props.Le
import Mathlib.Analysis.SpecialFunctions.Log.Base

/-!
# C68-C70: ESE and peak-over-threshold
-/

set_option linter.unusedSectionVars false
set_option linter.unusedSimpArgs false

namespace Padasip

/-! ## `mapM` with exceptions -/

theorem mapM_ok_iff {α β : Type} (f : α → Except Err β) (l : List α) (r : List β) :
    l.mapM f = .ok r ↔ List.Forall₂ (fun a b => f a = .ok b) l r := by
  induction l generalizing r with
  | nil =>
    constructor
    · intro h; cases h; exact .nil
    · intro h; cases h; rfl
  | cons a l ih =>
    rw [List.mapM_cons]
    constructor
    · intro h
      rcases ha : f a with e | b
      · rw [ha] at h; cases h
      · rw [ha] at h
        rcases hl : l.mapM f with e | t
        · rw [hl] at h; cases h
        · rw [hl] at h
          cases h
          exact .cons ha ((ih t).mp hl)
    · intro h
      cases h with
      | cons h1 h2 => rw [h1, (ih _).mpr h2]; rfl

theorem mapM_head_error {α β : Type} (f : α → Except Err β) (a : α) (l : List α) (e : Err) (h : f a = .error e) :
    (a :: l).mapM f = .error e := by
  rw [List.mapM_cons, h]; rfl

theorem mapM_map' {α β γ : Type} (f : β → Except Err γ) (g : α → β) (l : List α) : (l.map g).mapM f = l.mapM (fun a => f (g a)) := by
  induction l with
  | nil => rfl
  | cons a l ih => rw [List.map_cons, List.mapM_cons, List.mapM_cons, ih]

theorem mapM_congr' {α β : Type} {f g : α → Except Err β} {l : List α} (h : ∀ a ∈ l, f a = g a) : l.mapM f = l.mapM g := by
  induction l with
  | nil => rfl
  | cons a l ih => 
    rw [List.mapM_cons, List.mapM_cons, h a (by simp), ih fun b hb => h b (by simp [hb])]

section structural
variable {K : Type} [Transc K] {n : ℕ}

/-- the value of sample `k >= window`, from the `window` previous increments and the increment at `k` of every weight -/
def eseAt (env : EseEnv K) (method : String) (w : List (Vec K n)) (window k : ℕ) : Except Err K :=
  match (List.finRange n).mapM fun j => eseEntry env method (lePast window 1 w k j) (leInc 1 w k j) with
  | .error e => .error e
  | .ok l => .ok (-Transc.log10 l.prod)

theorem ese_eq (env : EseEnv K) (w : List (Vec K n)) (window : ℕ) (method : String) :
    ese env w window method = if w.length < window then .error .valueError
      else match (List.range (w.length - window)).mapM fun t => eseAt env method w window (window + t) with
        | .error e => .error e
        | .ok l => .ok (List.replicate window 0 ++ l) := by
  unfold ese
  simp only [leDw_length]
  by_cases hN : w.length < window
  · rw [if_pos hN, if_pos hN]
  · rw [if_neg hN, if_neg hN]
    have key : ((leDw 1 w).drop window).zipIdx.mapM (fun (cur, k) => eseRow env method (((leDw 1 w).drop k).take window) cur)
        = (List.range (w.length - window)).mapM fun t => eseAt env method w window (window + t) := by
      have hz : ((leDw 1 w).drop window).zipIdx = (List.range (w.length - window)).map
          (fun t => ((fun i => leInc 1 w (window + t) i : Vec K n), t)) := by
        have := zipIdx_map_eq ((leDw 1 w).drop window) (fun r k => (r, k))
          (fun t => ((fun i => leInc 1 w (window + t) i : Vec K n), t)) (fun k hk => by
            have hk' : window + k < w.length := by
              rw [List.length_drop, leDw_length] at hk; omega
            simp only [Prod.mk.injEq, and_true]
            funext i
            rw [List.getElem_drop, ← histAt_leDw 1 w (window + k) hk' i, histAt_of_lt _ _ (by rw [leDw_length]; exact hk')])
        rw [List.length_drop, leDw_length] at this
        rw [← this]
        simp
      rw [hz, mapM_map']
      refine mapM_congr' fun t ht => ?_
      rw [List.mem_range] at ht
      unfold eseRow eseAt
      have hp : ∀ j, (((leDw 1 w).drop t).take window).map (fun r => r j) = lePast window 1 w (window + t) j := by
        intro j
        have := leWindow_col window 1 (window + t) w j (by omega) (by omega)
        unfold leWindow at this
        rwa [Nat.add_sub_cancel_left] at this
      simp only [hp]
      rfl
    rw [key]
    rfl

theorem ese_ok_iff (env : EseEnv K) (w : List (Vec K n)) (window : ℕ) (method : String) (l : List K) :
    ese env w window method = .ok l ↔ window ≤ w.length ∧ l.length = w.length ∧ (∀ k, k < window → l[k]? = some 0) ∧
      ∀ k v, window ≤ k → l[k]? = some v → eseAt env method w window k = .ok v := by
  rw [ese_eq]
  by_cases hN : w.length < window
  · rw [if_pos hN]
    constructor
    · intro h; cases h
    · intro h; omega
  · rw [if_neg hN]
    have hlen : ∀ {r : List K}, List.Forall₂ (fun t v => eseAt env method w window (window + t) = .ok v)
        (List.range (w.length - window)) r → r.length = w.length - window := by
      intro r h; rw [← h.length_eq, List.length_range]
    constructor
    · intro h
      rcases hm : (List.range (w.length - window)).mapM fun t => eseAt env method w window (window + t) with e | r
      · rw [hm] at h; cases h
      · rw [hm] at h
        cases h
        have hf := (mapM_ok_iff _ _ _).mp hm
        refine ⟨by omega, ?_, ?_, ?_⟩
        · rw [List.length_append, List.length_replicate, hlen hf]; omega
        · intro k hk
          rw [List.getElem?_append_left (by simpa using hk)]
          simp [hk]
        · intro k v hk hv
          rw [List.getElem?_append_right (by simpa using hk)] at hv
          rw [List.length_replicate] at hv
          obtain ⟨hlt, hget⟩ := List.getElem?_eq_some_iff.mp hv
          have := (List.forall₂_iff_get.mp hf).2 (k - window) (by rw [List.length_range, ← hlen hf]; exact hlt) hlt
          simp only [List.get_eq_getElem, List.getElem_range, hget] at this
          rwa [Nat.add_sub_cancel' hk] at this
    · rintro ⟨h1, h2, h3, h4⟩
      have hf : List.Forall₂ (fun t v => eseAt env method w window (window + t) = .ok v)
          (List.range (w.length - window)) (l.drop window) := by
        rw [List.forall₂_iff_get]
        refine ⟨by simp [h2], fun i hi hi' => ?_⟩
        simp only [List.get_eq_getElem, List.getElem_range, List.getElem_drop]
        exact h4 (window + i) _ (by omega) (List.getElem?_eq_getElem _)
      rw [(mapM_ok_iff _ _ _).mpr hf]
      show Except.ok _ = Except.ok l
      congr 1
      have : l.take window = List.replicate window 0 := by
        apply List.ext_getElem
        · simp; omega
        · intro k ha hb
          have hk : k < window := by simpa using hb
          have := h3 k hk
          obtain ⟨_, h5⟩ := List.getElem?_eq_some_iff.mp this
          simp [h5]
      rw [← this, List.take_append_drop]

/-- C68: a successful call returns one value per row of `w`, and the first `window` values are 0. -/
theorem C68_length (env : EseEnv K) (w : List (Vec K n)) (window : ℕ) (method : String) (l : List K)
    (h : ese env w window method = .ok l) : l.length = w.length ∧ l.take window = List.replicate window 0 := by
  obtain ⟨h1, h2, h3, _⟩ := (ese_ok_iff env w window method l).mp h
  refine ⟨h2, ?_⟩
  apply List.ext_getElem
  · simp; omega
  · intro k ha hb
    have hk : k < window := by simpa using hb
    obtain ⟨_, h5⟩ := List.getElem?_eq_some_iff.mp (h3 k hk)
    simp [h5]

/-- C68: a window longer than the history raises `ValueError`; a window equal to it evaluates nothing and returns zeros (whatever the method). -/
theorem C68_window (env : EseEnv K) (w : List (Vec K n)) (method : String) :
    (∀ window, w.length < window → ese env w window method = .error .valueError) ∧
    ese env w w.length method = .ok (List.replicate w.length 0) := by
  refine ⟨fun window h => by rw [ese_eq, if_pos h], ?_⟩
  rw [ese_eq, if_neg (lt_irrefl _), Nat.sub_self]
  show Except.ok _ = _
  simp

/-- the names `pot` knows -/
def knownPot : List String := ["10%", "sqrt", "log10log10", "log10", "35%"]

theorem pot_unknown (env : EseEnv K) (data : List K) (method : String) (h : method ∉ knownPot) : pot env data method = .ok [] := by
  simp only [knownPot, List.mem_cons, List.not_mem_nil, or_false, not_or] at h
  obtain ⟨h1, h2, h3, h4, h5⟩ := h
  unfold pot potCount
  simp only [h1, h2, h3, h4, h5, if_false]
  simp [pySliceTo]

theorem ese_first_error (env : EseEnv K) (w : List (Vec K (n + 1))) (window : ℕ) (method : String) (hw : window < w.length) (e : Err)
    (h : eseEntry env method (lePast window 1 w window 0) (leInc 1 w window 0) = .error e) :
    ese env w window method = .error e := by
  rw [ese_eq, if_neg (by omega)]
  obtain ⟨m, hm⟩ : ∃ m, w.length - window = m + 1 := ⟨w.length - window - 1, by omega⟩
  rw [hm, List.range_succ_eq_map, mapM_head_error (e := e)]
  unfold eseAt
  rw [List.finRange_succ, mapM_head_error (e := e)]
  exact h

/-- C68: an unknown method raises `IndexError` as soon as one sample is evaluated (at least one weight, more rows than `window`). -/
theorem C68_unknown_method (env : EseEnv K) (w : List (Vec K (n + 1))) (window : ℕ) (method : String) (h : method ∉ knownPot)
    (hw : window < w.length) : ese env w window method = .error .indexError := by
  refine ese_first_error env w window method hw _ ?_
  unfold eseEntry
  rw [pot_unknown env _ method h]
  rfl

/-- C68: the documented method name '30%' is unknown. -/
theorem C68_documented_30 (env : EseEnv K) (w : List (Vec K (n + 1))) (window : ℕ) (hw : window < w.length) :
    ese env w window "30%" = .error .indexError :=
  C68_unknown_method env w window "30%" (by decide) hw

/-- C68: `window = 0` never works on a non-empty history. -/
theorem C68_window_zero (env : EseEnv K) (w : List (Vec K (n + 1))) (method : String) (hw : 0 < w.length) :
    ∃ e, ese env w 0 method = .error e := by
  have hp : lePast 0 1 w 0 (0 : Fin (n + 1)) = [] := rfl
  rcases hc : potCount env 0 method with e | k
  · refine ⟨e, ese_first_error env w 0 method hw _ ?_⟩
    unfold eseEntry pot
    rw [hp, List.length_nil, hc]
  · refine ⟨.indexError, ese_first_error env w 0 method hw _ ?_⟩
    have h0 : pot env ([] : List K) method = .ok [] := by
      unfold pot
      rw [List.length_nil, hc]
      show Except.ok (pySliceTo (sortDesc ([] : List K)) k) = _
      have : sortDesc ([] : List K) = [] := by simp [sortDesc]
      rw [this]
      unfold pySliceTo
      split <;> simp
    unfold eseEntry
    rw [hp, h0]
    rfl

end structural

/-! ## C70 -/

section pot
variable {K : Type} [Field K] [LinearOrder K] [IsStrictOrderedRing K]

theorem sortDesc_exact (data : List K) : sortDesc data = ((data.map fun a => -a).mergeSort fun a b => !Scalar.lt b a).map fun a => -a := by
  unfold sortDesc
  have hn : ∀ a : K, Scalar.isnan a = false := fun _ => rfl
  simp only [hn, Bool.false_and, Bool.or_false]

theorem sortDesc_perm (data : List K) : (sortDesc data).Perm data := by
  rw [sortDesc_exact]
  have h1 := (List.mergeSort_perm (data.map fun a => -a) fun a b => !Scalar.lt b a).map fun a => -a
  refine h1.trans ?_
  rw [List.map_map]
  have : ((fun a : K => -a) ∘ fun a => -a) = id := by funext a; simp
  rw [this, List.map_id]

theorem sortDesc_sorted (data : List K) : (sortDesc data).Pairwise (· ≥ ·) := by
  rw [sortDesc_exact]
  have hle : ∀ a b : K, (!Scalar.lt b a) = true ↔ a ≤ b := by
    intro a b
    show (!decide (b < a)) = true ↔ _
    simp
  have h1 := List.pairwise_mergeSort (le := fun a b : K => !Scalar.lt b a)
    (fun a b c hab hbc => by rw [hle] at *; exact hab.trans hbc)
    (fun a b => by
      rw [Bool.or_eq_true, hle, hle]; exact le_total a b) (data.map fun a => -a)
  refine List.Pairwise.map _ (fun a b hab => ?_) h1
  rw [hle] at hab
  exact neg_le_neg hab

/-- the integer parts computed in `pot` lie between 0 and `n` for non-empty data (methods '10%', '35%', 'sqrt', 'log10') -/
structure PotBounds (env : EseEnv K) : Prop where
  k10 : ∀ n, 1 ≤ n → ∃ v : ℤ, env.k10 n = .ok v ∧ v ≤ n
  ksqrt : ∀ n, 1 ≤ n → ∃ v : ℤ, env.ksqrt n = .ok v ∧ v ≤ n
  klog : ∀ n, 1 ≤ n → ∃ v : ℤ, env.klog n = .ok v ∧ v ≤ n
  k35 : ∀ n, 1 ≤ n → ∃ v : ℤ, env.k35 n = .ok v ∧ v ≤ n

/-- Specification: `p` lists the `k` largest entries of `data` in decreasing order. -/
def IsTop (k : ℕ) (p data : List K) : Prop :=
  p.length = k ∧ p.Pairwise (· ≥ ·) ∧ ∃ rest, (p ++ rest).Perm data ∧ ∀ a ∈ p, ∀ b ∈ rest, b ≤ a

theorem isTop_take (data : List K) (k : ℕ) : IsTop (min k data.length) ((sortDesc data).take k) data := by
  have hs := sortDesc_sorted data
  rw [← List.take_append_drop k (sortDesc data)] at hs
  rw [List.pairwise_append] at hs
  refine ⟨by rw [List.length_take, (sortDesc_perm data).length_eq], hs.1, (sortDesc data).drop k, ?_, hs.2.2⟩
  rw [List.take_append_drop]
  exact sortDesc_perm data

/-- C70: `pot` returns the `k` largest values in decreasing order, for the `k` it computed (capped at the number of data), whatever the method. -/
theorem C70_top (env : EseEnv K) (data : List K) (method : String) (p : List K) (h : pot env data method = .ok p) :
    ∃ k : ℕ, potCount env data.length method = .ok (k : ℤ) ∧ IsTop (min k data.length) p data := by
  unfold pot at h
  rcases hc : potCount env data.length method with e | k
  · rw [hc] at h; cases h
  · rw [hc] at h
    have hk : 0 ≤ k := by
      unfold potCount at hc
      dsimp only at hc
      split_ifs at hc <;>
      first
      | (split at hc
         · cases hc; exact le_trans (by norm_num) (le_max_right _ _)
         · cases hc)
      | (cases hc; exact le_rfl)
    obtain ⟨m, rfl⟩ := Int.eq_ofNat_of_zero_le hk
    refine ⟨m, rfl, ?_⟩
    have : p = (sortDesc data).take m := by
      have h2 := Except.ok.inj h
      rw [← h2]
      unfold pySliceTo
      rw [if_pos hk]
      simp
    rw [this]
    exact isTop_take data m

/-- C70: for the methods '10%', '35%', 'sqrt' and 'log10' and non-empty data, `pot` succeeds and `1 <= k <= n`, so exactly `k` values
are returned and at least one. -/
theorem C70_count {env : EseEnv K} (hb : PotBounds env) (data : List K) (hd : data ≠ []) (method : String)
    (hm : method ∈ ["10%", "35%", "sqrt", "log10"]) :
    ∃ (k : ℕ) (p : List K), 1 ≤ k ∧ k ≤ data.length ∧ pot env data method = .ok p ∧ IsTop k p data := by
  have hn : 1 ≤ data.length := List.length_pos_of_ne_nil hd
  have hc : ∃ k : ℕ, 1 ≤ k ∧ k ≤ data.length ∧ potCount env data.length method = .ok (k : ℤ) := by
    have aux : ∀ v : ℤ, v ≤ data.length → ∃ k : ℕ, 1 ≤ k ∧ k ≤ data.length ∧ max v 1 = (k : ℤ) := fun v hv =>
      ⟨(max v 1).toNat, by omega, by omega, by omega⟩
    simp only [List.mem_cons, List.not_mem_nil, or_false] at hm
    rcases hm with rfl | rfl | rfl | rfl
    · obtain ⟨v, h1, h2⟩ := hb.k10 _ hn
      obtain ⟨k, a, b, c⟩ := aux v h2
      exact ⟨k, a, b, by unfold potCount; simp [h1, c]⟩
    · obtain ⟨v, h1, h2⟩ := hb.k35 _ hn
      obtain ⟨k, a, b, c⟩ := aux v h2
      exact ⟨k, a, b, by unfold potCount; simp [h1, c]⟩
    · obtain ⟨v, h1, h2⟩ := hb.ksqrt _ hn
      obtain ⟨k, a, b, c⟩ := aux v h2
      exact ⟨k, a, b, by unfold potCount; simp [h1, c]⟩
    · obtain ⟨v, h1, h2⟩ := hb.klog _ hn
      obtain ⟨k, a, b, c⟩ := aux v h2
      exact ⟨k, a, b, by unfold potCount; simp [h1, c]⟩
  obtain ⟨k, h1, h2, h3⟩ := hc
  have hp : pot env data method = .ok (pySliceTo (sortDesc data) k) := by
    unfold pot; rw [h3]
  obtain ⟨k', h4, h5⟩ := C70_top env data method _ hp
  rw [h3] at h4
  have : k = k' := by exact_mod_cast Except.ok.inj h4
  subst this
  rw [min_eq_left h2] at h5
  exact ⟨k, _, h1, h2, hp, h5⟩

/-- The integer parts in exact arithmetic: `n/10`, the integer square root, `35 n/100`, the decimal logarithm (`int(-inf)` for `n = 0` is an
`OverflowError`), and for 'log10log10' `int(nan)` for `n = 0` (`ValueError`), `int(inf)` for `n = 10` (`OverflowError`, since
`log10(log10(10)) = 0`), otherwise some integer `g n`. -/
def exactPot (g : ℕ → ℤ) (fit : List K → Except Err (K × K × K)) (cdf : K → K → K → K → K) : EseEnv K where
  k10 n := .ok ((n / 10 : ℕ) : ℤ)
  ksqrt n := .ok (Nat.sqrt n : ℤ)
  kloglog n := if n = 0 then .error .valueError else if n = 10 then .error .overflowError else .ok (g n)
  klog n := if n = 0 then .error .overflowError else .ok (Nat.log 10 n : ℤ)
  k35 n := .ok ((35 * n / 100 : ℕ) : ℤ)
  fit := fit
  cdf := cdf

/-- C70: the contract is met by the exact integer parts. -/
theorem C70_exact_bounds (g : ℕ → ℤ) (fit : List K → Except Err (K × K × K)) (cdf : K → K → K → K → K) :
    PotBounds (exactPot g fit cdf) where
  k10 n hn := ⟨_, rfl, by exact_mod_cast Nat.div_le_self n 10⟩
  ksqrt n hn := ⟨_, rfl, by exact_mod_cast Nat.sqrt_le_self n⟩
  klog n hn := ⟨(Nat.log 10 n : ℤ), by simp [exactPot, show n ≠ 0 by omega], by exact_mod_cast Nat.log_le_self 10 n⟩
  k35 n hn := ⟨_, rfl, by
    have : 35 * n / 100 ≤ n := by omega
    exact_mod_cast this⟩

/-- C70: method 'log10log10' fails on exactly ten data. -/
theorem C70_log10log10_ten (g : ℕ → ℤ) (fit : List K → Except Err (K × K × K)) (cdf : K → K → K → K → K) (data : List K)
    (h : data.length = 10) : pot (exactPot g fit cdf) data "log10log10" = .error .overflowError := by
  unfold pot potCount
  simp [exactPot, h]

example : ∃ (k : ℕ) (p : List ℚ), 1 ≤ k ∧ k ≤ 4 ∧
    pot (exactPot (fun _ => 1) (fun _ => .error .valueError) (fun _ _ _ _ => 0)) [3, 1, 4, (1 : ℚ)] "sqrt" = .ok p ∧
    IsTop k p [3, 1, 4, 1] :=
  C70_count (C70_exact_bounds _ _ _) [3, 1, 4, (1 : ℚ)] (by simp) "sqrt" (by simp)

end pot

/-! ## C69 -/

section real
variable {n : ℕ}

/-- an entry of `hpp` is 1, or 1 minus a probability plus `1e-20` -/
theorem eseEntry_bounds {env : EseEnv ℝ} (hcdf : ∀ a b c d, 0 ≤ env.cdf a b c d ∧ env.cdf a b c d ≤ 1) {method : String} {past : List ℝ}
    {cur v : ℝ} (h : eseEntry env method past cur = .ok v) : 1 / 10 ^ 20 ≤ v ∧ v ≤ 1 + 1 / 10 ^ 20 := by
  have h1 : (1 : ℝ) / 10 ^ 20 ≤ 1 ∧ (1 : ℝ) ≤ 1 + 1 / 10 ^ 20 := by norm_num
  unfold eseEntry at h
  split at h
  · cases h
  · split at h
    · cases h
    · split at h
      · split at h
        · cases h
        · rename_i c loc sc _
          split at h
          · have h2 := Except.ok.inj h
            have h3 : v = 1 - env.cdf cur c loc sc + 1 / ((10 ^ 20 : ℕ) : ℝ) := h2.symm
            have h4 := hcdf cur c loc sc
            rw [h3]
            push_cast
            constructor <;> linarith
          · cases h; exact h1
      · cases h; exact h1

theorem logb_prod_bounds (l : List ℝ) (h : ∀ v ∈ l, 1 / 10 ^ 20 ≤ v ∧ v ≤ 1 + 1 / 10 ^ 20) :
    0 < l.prod ∧ -(20 * l.length : ℝ) ≤ Real.logb 10 l.prod ∧ Real.logb 10 l.prod ≤ l.length * Real.logb 10 (1 + 1 / 10 ^ 20) := by
  induction l with
  | nil => simp
  | cons a l ih =>
    obtain ⟨h1, h2, h3⟩ := ih fun v hv => h v (by simp [hv])
    obtain ⟨ha1, ha2⟩ := h a (by simp)
    have hpos : (0 : ℝ) < 1 / 10 ^ 20 := by norm_num
    have ha : 0 < a := hpos.trans_le ha1
    have hl : Real.logb 10 (1 / 10 ^ 20) = -20 := by
      rw [one_div, Real.logb_inv, Real.logb_pow, Real.logb_self_eq_one (by norm_num)]
      norm_num
    have hb1 : Real.logb 10 (1 / 10 ^ 20) ≤ Real.logb 10 a := Real.logb_le_logb_of_le (by norm_num) hpos ha1
    have hb2 : Real.logb 10 a ≤ Real.logb 10 (1 + 1 / 10 ^ 20) := Real.logb_le_logb_of_le (by norm_num) ha ha2
    rw [List.prod_cons, Real.logb_mul ha.ne' h1.ne', List.length_cons]
    push_cast
    refine ⟨mul_pos ha h1, ?_, ?_⟩
    · rw [hl] at hb1; linarith
    · linarith

/-- C69: if the fitted cdf has values in [0,1], every ESE value lies between `-n log10(1 + 1e-20)` and `20 n`. -/
theorem C69_bounds {env : EseEnv ℝ} (hcdf : ∀ a b c d, 0 ≤ env.cdf a b c d ∧ env.cdf a b c d ≤ 1) (w : List (Vec ℝ n)) (window : ℕ)
    (method : String) (l : List ℝ) (h : ese env w window method = .ok l) :
    ∀ v ∈ l, -(n * Real.logb 10 (1 + 1 / 10 ^ 20)) ≤ v ∧ v ≤ 20 * n := by
  intro v hv
  obtain ⟨_, _, h3, h4⟩ := (ese_ok_iff env w window method l).mp h
  obtain ⟨k, hk, hkv⟩ := List.getElem_of_mem hv
  have hk' : l[k]? = some v := by rw [List.getElem?_eq_getElem hk, hkv]
  have hnn : 0 ≤ n * Real.logb 10 (1 + 1 / 10 ^ 20) :=
    mul_nonneg (Nat.cast_nonneg n) (Real.logb_nonneg (by norm_num) (by norm_num))
  by_cases hw : k < window
  · have := h3 k hw
    rw [hk'] at this
    have hv0 : v = 0 := Option.some.inj this
    rw [hv0]
    exact ⟨by linarith, by positivity⟩
  · have := h4 k v (by omega) hk'
    unfold eseAt at this
    split at this
    · cases this
    · rename_i r hr
      have hr' := (mapM_ok_iff _ _ _).mp hr
      have hlen : r.length = n := by rw [← hr'.length_eq, List.length_finRange]
      have hb := logb_prod_bounds r (fun u hu => by
        obtain ⟨i, hi, hiu⟩ := List.getElem_of_mem hu
        have := (List.forall₂_iff_get.mp hr').2 i (by rw [List.length_finRange]; omega) hi
        simp only [List.get_eq_getElem, hiu] at this
        exact eseEntry_bounds hcdf this)
      have hv : v = -Real.logb 10 r.prod := (Except.ok.inj this).symm
      rw [hlen] at hb
      rw [hv]
      constructor <;> linarith [hb.2.1, hb.2.2]

/-- C69: a sample none of whose increments exceeds its threshold (the smallest of the values returned by `pot` for the `window` previous
increments of the same weight) has ESE value 0. -/
theorem C69_unsurprising {env : EseEnv ℝ} (w : List (Vec ℝ n)) (window k : ℕ) (method : String) (l : List ℝ) (v : ℝ)
    (h : ese env w window method = .ok l) (hv : l[k]? = some v)
    (hs : ∀ j : Fin n, ∀ p, pot env (lePast window 1 w k j) method = .ok p → ∀ t ∈ p, leInc 1 w k j ≤ t) : v = 0 := by
  obtain ⟨_, _, h3, h4⟩ := (ese_ok_iff env w window method l).mp h
  by_cases hw : k < window
  · have := h3 k hw
    rw [hv] at this
    exact Option.some.inj this
  · have h5 := h4 k v (by omega) hv
    unfold eseAt at h5
    split at h5
    · cases h5
    · rename_i r hr
      have hr' := (mapM_ok_iff _ _ _).mp hr
      have hone : ∀ u ∈ r, u = 1 := by
        intro u hu
        obtain ⟨i, hi, hiu⟩ := List.getElem_of_mem hu
        have h6 := (List.forall₂_iff_get.mp hr').2 i (by rw [hr'.length_eq]; exact hi) hi
        simp only [List.get_eq_getElem, hiu] at h6
        generalize (List.finRange n)[i]'(by rw [hr'.length_eq]; exact hi) = j at h6
        unfold eseEntry at h6
        split at h6
        · cases h6
        · rename_i p hp
          split at h6
          · cases h6
          · rename_i thr hthr
            have hle : leInc 1 w k j ≤ thr := hs j p hp thr (List.mem_of_getLast? hthr)
            have hlt : Scalar.lt thr (leInc 1 w k j) = false := decide_eq_false (not_lt.mpr hle)
            rw [hlt] at h6
            exact (Except.ok.inj h6).symm
      have hprod : r.prod = 1 := by
        rw [List.eq_replicate_of_mem hone]
        exact List.prod_replicate _ _ |>.trans (one_pow _)
      have : v = -Real.logb 10 r.prod := (Except.ok.inj h5).symm
      rw [this, hprod, Real.logb_one, neg_zero]

theorem mapM_ok_of_forall {α β : Type} (f : α → Except Err β) (l : List α) (h : ∀ a ∈ l, ∃ b, f a = .ok b) : ∃ r, l.mapM f = .ok r := by
  induction l with
  | nil => exact ⟨[], rfl⟩
  | cons a l ih =>
    obtain ⟨b, hb⟩ := h a (by simp)
    obtain ⟨r, hr⟩ := ih fun c hc => h c (by simp [hc])
    exact ⟨b :: r, by rw [List.mapM_cons, hb, hr]; rfl⟩

/-- C68: with a fitting routine that does not fail, the methods '10%', '35%', 'sqrt', 'log10' succeed on every history, for every window from 1 up
to the length of the history (so the other theorems about successful calls are not vacuous). -/
theorem C68_succeeds {env : EseEnv ℝ} (hb : PotBounds env) (hfit : ∀ p, ∃ r, env.fit p = .ok r) (w : List (Vec ℝ n)) (window : ℕ)
    (h1 : 1 ≤ window) (h2 : window ≤ w.length) (method : String) (hm : method ∈ ["10%", "35%", "sqrt", "log10"]) :
    ∃ l, ese env w window method = .ok l := by
  have hentry : ∀ (past : List ℝ) (cur : ℝ), past ≠ [] → ∃ v, eseEntry env method past cur = .ok v := by
    intro past cur hne
    obtain ⟨k, p, hk1, _, hp, htop⟩ := C70_count hb past hne method hm
    have hpot : pot env past method = .ok p := hp
    unfold eseEntry
    rw [hpot]
    have hpne : p ≠ [] := by
      intro h; rw [h] at htop
      have := htop.1
      simp at this; omega
    dsimp only
    rw [List.getLast?_eq_getLast_of_ne_nil hpne]
    dsimp only
    split
    · obtain ⟨⟨c, loc, sc⟩, hr⟩ := hfit p
      rw [hr]
      dsimp only
      split
      · exact ⟨_, rfl⟩
      · exact ⟨_, rfl⟩
    · exact ⟨_, rfl⟩
  have hat : ∀ k, ∃ v, eseAt env method w window k = .ok v := by
    intro k
    obtain ⟨r, hr⟩ := mapM_ok_of_forall (fun j => eseEntry env method (lePast window 1 w k j) (leInc 1 w k j)) (List.finRange n)
      (fun j _ => hentry _ _ (by
        intro h
        have := congrArg List.length h
        simp [lePast] at this
        omega))
    unfold eseAt
    rw [hr]
    exact ⟨_, rfl⟩
  obtain ⟨r, hr⟩ := mapM_ok_of_forall (fun t => eseAt env method w window (window + t)) (List.range (w.length - window))
    (fun t _ => hat _)
  rw [ese_eq, if_neg (by omega), hr]
  exact ⟨_, rfl⟩

/-! ## C80: ESE is causal, finitely windowed, and ignores a constant offset after the first evaluated sample -/

/-- C80: the value of sample `k` depends only on rows `k-window-1 .. k` of the history. -/
theorem C80_causal {K : Type} [Transc K] {n : ℕ} (env : EseEnv K) (w w' : List (Vec K n)) (window k : ℕ) (method : String) {l l' : List K}
    (h : ese env w window method = .ok l) (h' : ese env w' window method = .ok l') (hs : SameRows (k - window - 1) k w w') :
    l[k]? = l'[k]? := by
  obtain ⟨a1, a2, a3, a4⟩ := (ese_ok_iff env w window method l).mp h
  obtain ⟨b1, b2, b3, b4⟩ := (ese_ok_iff env w' window method l').mp h'
  by_cases hk : k < window
  · rw [a3 k hk, b3 k hk]
  · have hl : k < w.length ↔ k < w'.length := by
      have := hs k (by omega) le_rfl
      constructor
      · intro h1
        rw [List.getElem?_eq_getElem h1] at this
        exact (List.getElem?_eq_some_iff.mp this.symm).1
      · intro h1
        rw [List.getElem?_eq_getElem h1] at this
        exact (List.getElem?_eq_some_iff.mp this).1
    by_cases hkl : k < w.length
    · have e1 : l[k]? = some l[k] := List.getElem?_eq_getElem _
      have e2 : l'[k]? = some (l'[k]'(by rw [b2]; exact hl.mp hkl)) := List.getElem?_eq_getElem _
      have c1 := a4 k _ (by omega) e1
      have c2 := b4 k _ (by omega) e2
      have hp : ∀ i, lePast window 1 w k i = lePast window 1 w' k i := lePast_congr window 1 k (by omega) hs
      have hi : ∀ i, leInc 1 w k i = leInc 1 w' k i := fun i => leInc_congr 1 k i fun j x y => hs.at (by omega) y i
      have : eseAt env method w window k = eseAt env method w' window k := by
        unfold eseAt
        simp only [hp, hi]
      rw [this, c2] at c1
      rw [e1, e2, Except.ok.inj c1]
    · rw [List.getElem?_eq_none (by omega), List.getElem?_eq_none (by omega)]

/-- C80: for `k > window` the value does not change when a constant vector is added to all rows. -/
theorem C80_shift {env : EseEnv ℝ} (c : Vec ℝ n) (w : List (Vec ℝ n)) (window k : ℕ) (method : String) {l l' : List ℝ}
    (h : ese env w window method = .ok l) (h' : ese env (shiftRows c w) window method = .ok l') (hk : window < k) : l[k]? = l'[k]? := by
  obtain ⟨a1, a2, a3, a4⟩ := (ese_ok_iff env w window method l).mp h
  obtain ⟨b1, b2, b3, b4⟩ := (ese_ok_iff env (shiftRows c w) window method l').mp h'
  have hl : (shiftRows c w).length = w.length := by simp [shiftRows]
  by_cases hkl : k < w.length
  · have e1 : l[k]? = some l[k] := List.getElem?_eq_getElem _
    have e2 : l'[k]? = some (l'[k]'(by rw [b2, hl]; exact hkl)) := List.getElem?_eq_getElem _
    have c1 := a4 k _ (by omega) e1
    have c2 := b4 k _ (by omega) e2
    have hp : ∀ i, @lePast ℝ realTransc.toScalar n window 1 (shiftRows c w) k i = @lePast ℝ realTransc.toScalar n window 1 w k i :=
      lePast_shift c w window 1 k le_rfl (by omega) hkl
    have hi : ∀ i, @leInc ℝ realTransc.toScalar n 1 (shiftRows c w) k i = @leInc ℝ realTransc.toScalar n 1 w k i :=
      leInc_shift c w 1 k le_rfl (by omega) hkl
    have : eseAt env method (shiftRows c w) window k = eseAt env method w window k := by
      unfold eseAt
      simp only [hp, hi]
    rw [this, c1] at c2
    rw [e1, e2, Except.ok.inj c2]
  · rw [List.getElem?_eq_none (by omega), List.getElem?_eq_none (by omega)]

/-- an environment for the witness: a fit that always returns location 0, and cdf 1/2 -/
noncomputable def halfEnv : EseEnv ℝ := exactPot (fun _ => 1) (fun _ => .ok (0, 0, 1)) (fun _ _ _ _ => 1 / 2)

theorem pot_one (a : ℝ) : pot halfEnv [a] "10%" = .ok [a] := by
  unfold pot potCount
  simp [halfEnv, exactPot, sortDesc, pySliceTo]

/-- C80: at `k = window` an offset does matter, because the first row of the increments holds the weights themselves. -/
theorem C80_first_sample_uses_raw_weights :
    ∃ (w : List (Vec ℝ 1)) (l l' : List ℝ), ese halfEnv w 1 "10%" = .ok l ∧ ese halfEnv (shiftRows ![5] w) 1 "10%" = .ok l' ∧
      l[1]? ≠ l'[1]? := by
  have hval : ∀ a b : ℝ, eseAt halfEnv "10%" ([![a], ![b]] : List (Vec ℝ 1)) 1 1
      = .ok (-Real.logb 10 (if a < |b - a| then 1 - 1 / 2 + 1 / ((10 ^ 20 : ℕ) : ℝ) else 1)) := by
    intro a b
    have hp : lePast 1 1 ([![a], ![b]] : List (Vec ℝ 1)) 1 0 = [a] := rfl
    have hi : leInc 1 ([![a], ![b]] : List (Vec ℝ 1)) 1 0 = |b - a| := rfl
    have he : eseEntry halfEnv "10%" [a] |b - a| = .ok (if a < |b - a| then 1 - 1 / 2 + 1 / ((10 ^ 20 : ℕ) : ℝ) else 1) := by
      unfold eseEntry
      rw [pot_one]
      dsimp only [List.getLast?_singleton]
      by_cases h : a < |b - a|
      · have h1 : Scalar.lt a |b - a| = true := decide_eq_true h
        have h2 : Scalar.lt |b - a| (0 : ℝ) = false := decide_eq_false (not_lt.mpr (abs_nonneg _))
        rw [if_pos h1, if_pos h]
        show (if (!Scalar.lt |b - a| (0 : ℝ) && true && true) = true then _ else _) = _
        rw [h2]
        rfl
      · have h1 : Scalar.lt a |b - a| = false := decide_eq_false h
        rw [if_neg h, h1]
        rfl
    unfold eseAt
    have : (List.finRange 1).mapM (fun j => eseEntry halfEnv "10%" (lePast 1 1 ([![a], ![b]] : List (Vec ℝ 1)) 1 j)
        (leInc 1 ([![a], ![b]] : List (Vec ℝ 1)) 1 j)) = .ok [if a < |b - a| then 1 - 1 / 2 + 1 / ((10 ^ 20 : ℕ) : ℝ) else 1] := by
      rw [mapM_ok_iff]
      exact .cons he .nil
    rw [this]
    simp only [List.prod_singleton]
    rfl
  have hese : ∀ a b : ℝ, ese halfEnv ([![a], ![b]] : List (Vec ℝ 1)) 1 "10%"
      = .ok [0, -Real.logb 10 (if a < |b - a| then 1 - 1 / 2 + 1 / ((10 ^ 20 : ℕ) : ℝ) else 1)] := by
    intro a b
    rw [ese_eq, if_neg (by simp)]
    have : (List.range (([![a], ![b]] : List (Vec ℝ 1)).length - 1)).mapM
        (fun t => eseAt halfEnv "10%" ([![a], ![b]] : List (Vec ℝ 1)) 1 (1 + t))
        = .ok [-Real.logb 10 (if a < |b - a| then 1 - 1 / 2 + 1 / ((10 ^ 20 : ℕ) : ℝ) else 1)] := by
      rw [mapM_ok_iff]
      exact .cons (hval a b) .nil
    rw [this]
    rfl
  have hsh : shiftRows ![5] ([![0], ![1]] : List (Vec ℝ 1)) = [![5], ![6]] := by
    simp only [shiftRows, List.map_cons, List.map_nil]
    congr 1
    · funext i; fin_cases i; norm_num
    · congr 1; funext i; fin_cases i; norm_num
  refine ⟨[![0], ![1]], _, _, hese 0 1, by rw [hsh]; exact hese 5 6, ?_⟩
  have e1 : (0 : ℝ) < |1 - 0| := by norm_num
  have e2 : ¬ (5 : ℝ) < |6 - 5| := by norm_num
  rw [if_pos e1, if_neg e2]
  simp only [List.getElem?_cons_succ, List.getElem?_cons_zero, Real.logb_one, neg_zero]
  intro h
  have h3 := Option.some.inj h
  have h4 : Real.logb 10 (1 - 1 / 2 + 1 / ((10 ^ 20 : ℕ) : ℝ)) < 0 :=
    Real.logb_neg (by norm_num) (by norm_num) (by norm_num)
  linarith

/-- the hypotheses of C68_succeeds, C69 and C80 are met: the exact integer parts, a fit that always answers, a distribution function with values in
`[0, 1]`, five samples of two weights -/
example : ∃ (env : EseEnv ℝ) (w w' : List (Vec ℝ 2)) (c : Vec ℝ 2) (l l' l'' : List ℝ), PotBounds env ∧ (∀ p, ∃ r, env.fit p = .ok r) ∧
    (∀ a b c d, 0 ≤ env.cdf a b c d ∧ env.cdf a b c d ≤ 1) ∧ ese env w 2 "sqrt" = .ok l ∧ ese env (shiftRows c w) 2 "sqrt" = .ok l' ∧
    ese env w' 2 "sqrt" = .ok l'' ∧ SameRows (3 - 2 - 1) 3 w w' ∧ w ≠ w' ∧ c ≠ 0 := by
  let env : EseEnv ℝ := exactPot (fun _ => 1) (fun _ => .ok (0, 0, 1)) (fun _ _ _ _ => 1 / 2)
  have hb : PotBounds env := C70_exact_bounds _ _ _
  have hf : ∀ p, ∃ r, env.fit p = .ok r := fun p => ⟨_, rfl⟩
  let w : List (Vec ℝ 2) := [![0, 1], ![1, 3], ![2, -1], ![0, 0], ![5, 1]]
  let w' : List (Vec ℝ 2) := [![0, 1], ![1, 3], ![2, -1], ![0, 0], ![7, 1]]
  obtain ⟨l, hl⟩ := C68_succeeds hb hf w 2 (by norm_num) (by simp [w]) "sqrt" (by simp)
  obtain ⟨l', hl'⟩ := C68_succeeds hb hf (shiftRows (fun _ => 4) w) 2 (by norm_num) (by simp [w, shiftRows]) "sqrt" (by simp)
  obtain ⟨l'', hl''⟩ := C68_succeeds hb hf w' 2 (by norm_num) (by simp [w']) "sqrt" (by simp)
  refine ⟨env, w, w', fun _ => 4, l, l', l'', hb, hf, fun _ _ _ _ => by show (0 : ℝ) ≤ 1 / 2 ∧ (1 / 2 : ℝ) ≤ 1; norm_num, hl, hl', hl'', ?_, ?_, ?_⟩
  · intro j _ h2
    match j, h2 with
    | 0, _ => rfl
    | 1, _ => rfl
    | 2, _ => rfl
    | 3, _ => rfl
    | j + 4, h => omega
  · intro h
    have := congrArg (fun l : List (Vec ℝ 2) => l[4]?.map fun v => v 0) h
    norm_num [w, w'] at this
  · intro h
    have := congrFun h 0
    norm_num at this

end real

end Padasip
