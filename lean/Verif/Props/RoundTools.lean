import Verif.Props.Rounding
import Verif.Props.Elbnd
import Verif.Model.Preprocess

/-!
# C152: rounding errors of `standardize`, `standardize_back` and `ELBND`

As in `Props/Rounding.lean`: the model's own functions in rounded arithmetic (`Fl F`) against the same functions in exact arithmetic, on the same inputs.
-/

set_option linter.unusedSectionVars false
set_option linter.unusedVariables false
set_option linter.unusedSimpArgs false

namespace Padasip

open Finset

variable {F : Rounding} {n : ℕ}

/-! ## `standardize` -/

/-- one rounding, as a factor -/
theorem round_factor {u a c : ℝ} (h : |c - a| ≤ u * |a|) (hu : 0 ≤ u) : ∃ t : ℝ, |t| ≤ u ∧ c = a * (1 + t) := by
  rcases eq_or_ne a 0 with rfl | ha
  · refine ⟨0, by simpa using hu, ?_⟩
    have : |c| ≤ 0 := by simpa using h
    simpa using this
  · refine ⟨(c - a) / a, ?_, by field_simp; ring⟩
    rw [abs_div, div_le_iff₀ (abs_pos.mpr ha)]
    exact h

theorem abs_prod_sub_one {u t P : ℝ} (hu : 0 ≤ u) (ht : |t| ≤ u) {Q : ℝ} (hP : |P - 1| ≤ Q - 1) : |P * (1 + t) - 1| ≤ Q * (1 + u) - 1 := by
  have hQ : 1 ≤ Q := by linarith [abs_nonneg (P - 1)]
  have h1 : P * (1 + t) - 1 = (P - 1) + P * t := by ring
  have h2 : |P| ≤ Q := by
    calc |P| = |(P - 1) + 1| := by ring_nf
      _ ≤ |P - 1| + |1| := abs_add_le _ _
      _ ≤ Q := by rw [abs_one]; linarith
  rw [h1]
  calc |P - 1 + P * t| ≤ |P - 1| + |P| * |t| := by rw [← abs_mul]; exact abs_add_le _ _
    _ ≤ (Q - 1) + Q * u := add_le_add hP (mul_le_mul h2 ht (abs_nonneg _) (by linarith))
    _ = Q * (1 + u) - 1 := by ring

/-- C152: `standardize` with a given offset and a given scale other than 0 in rounded arithmetic: every entry has a relative error of at most `2u + u^2`, however close
the entry is to the offset (no cancellation). -/
theorem C152_standardize (x : List ℝ) (o s : ℝ) (hs : s ≠ 0) :
    List.Forall₂ (fun (a : Fl F) (b : ℝ) => |a.val - b| ≤ ((1 + F.u) ^ 2 - 1) * |b|)
      (standardize (x.map Fl.mk : List (Fl F)) (some ⟨o⟩) (some ⟨s⟩)) (standardize x (some o) (some s)) := by
  simp only [standardize, Option.getD_some, List.map_map]
  rw [List.forall₂_map_left_iff, List.forall₂_map_right_iff, List.forall₂_same]
  intro a _
  obtain ⟨t, ht, h1⟩ := round_factor (F.sub_err a o) F.u_nonneg
  obtain ⟨t', ht', h2⟩ := round_factor (F.div_err (F.sub a o) s hs) F.u_nonneg
  show |F.div (F.sub a o) s - (a - o) / s| ≤ _
  rw [h2, h1, show (a - o) * (1 + t) / s * (1 + t') - (a - o) / s = (((1 + t) * (1 + t')) - 1) * ((a - o) / s) by ring, abs_mul]
  refine mul_le_mul_of_nonneg_right ?_ (abs_nonneg _)
  have h3 : |(1 + t) - 1| ≤ (1 + F.u) - 1 := by simpa using ht
  simpa [pow_two] using abs_prod_sub_one F.u_nonneg ht' h3

/-- C152: the round trip `standardize_back(standardize(x, o, s), o, s)` in rounded arithmetic gives every entry back up to `((1+u)^4 - 1) |x - o| + u |o|`, about
`4u |x - o| + u |o|`, whatever the scale is (if it is not 0). -/
theorem C152_round_trip (x : List ℝ) (o s : ℝ) (hs : s ≠ 0) :
    List.Forall₂ (fun (a : Fl F) (b : ℝ) => |a.val - b| ≤ ((1 + F.u) ^ 4 - 1) * |b - o| + F.u * |o|)
      (standardizeBack (standardize (x.map Fl.mk : List (Fl F)) (some ⟨o⟩) (some ⟨s⟩)) ⟨o⟩ ⟨s⟩) x := by
  simp only [standardizeBack, standardize, Option.getD_some, List.map_map]
  rw [List.forall₂_map_left_iff, List.forall₂_same]
  intro a _
  obtain ⟨t, ht, h1⟩ := round_factor (F.sub_err a o) F.u_nonneg
  obtain ⟨t', ht', h2⟩ := round_factor (F.div_err (F.sub a o) s hs) F.u_nonneg
  obtain ⟨t'', ht'', h3⟩ := round_factor (F.mul_err (F.div (F.sub a o) s) s) F.u_nonneg
  obtain ⟨v, hv, h4⟩ := round_factor (F.add_err (F.mul (F.div (F.sub a o) s) s) o) F.u_nonneg
  show |F.add (F.mul (F.div (F.sub a o) s) s) o - a| ≤ _
  have h5 : (a - o) * (1 + t) / s * (1 + t') * s * (1 + t'') = (a - o) * ((1 + t) * (1 + t') * (1 + t'')) := by
    field_simp
  rw [h4, h3, h2, h1, h5, show ((a - o) * ((1 + t) * (1 + t') * (1 + t'')) + o) * (1 + v) - a
    = ((1 + t) * (1 + t') * (1 + t'') * (1 + v) - 1) * (a - o) + v * o by ring]
  have h6 : |(1 + t) - 1| ≤ (1 + F.u) - 1 := by simpa using ht
  have h7 := abs_prod_sub_one F.u_nonneg hv (abs_prod_sub_one F.u_nonneg ht'' (abs_prod_sub_one F.u_nonneg ht' h6))
  refine (abs_add_le _ _).trans (add_le_add ?_ ?_)
  · rw [abs_mul]
    refine mul_le_mul_of_nonneg_right (h7.trans (le_of_eq (by ring))) (abs_nonneg _)
  · rw [abs_mul]
    exact mul_le_mul_of_nonneg_right hv (abs_nonneg _)

/-- C152: with the default offset (the mean of the series) and a given positive scale, the rounding of the mean contributes too: every entry is accurate up to
`gamma_(N+3) (|x_i| + mean |x|) / s`. -/
theorem C152_default_offset (x : List ℝ) (s : ℝ) (hs : 0 < s) (hx : x ≠ []) (hu : (x.length + 3 : ℕ) * F.u < 1) :
    (standardize (x.map Fl.mk : List (Fl F)) none (some ⟨s⟩)).length = x.length ∧ (standardize x none (some s)).length = x.length ∧
    ∀ (i : ℕ) (a : Fl F) (b c : ℝ), (standardize (x.map Fl.mk : List (Fl F)) none (some ⟨s⟩))[i]? = some a → (standardize x none (some s))[i]? = some b → x[i]? = some c →
      |a.val - b| ≤ gamma F.u (x.length + 3) * ((|c| + (x.map fun t => |t|).sum / x.length) / s) := by
  have h0 := F.u_nonneg
  have h1 := F.u_lt
  have hN : (x.length : ℝ) ≠ 0 := by simpa using hx
  refine ⟨by simp [standardize], by simp [standardize], fun i a b c ha hb hc => ?_⟩
  simp only [standardize, Option.getD_some, Option.getD_none, List.getElem?_map, hc, Option.map_some, Option.some.injEq] at ha hb
  subst ha hb
  have h2 := Acc.fllist (F := F) (k := 0) (x.map Fl.mk) x (x.map fun t => |t|) (by simp) (by simp) fun i h1 h2 h3 => by
    rw [List.getElem_map, List.getElem_map]; exact acc_exact F.u_nonneg F.u_lt _
  have h3 := h2.fldiv (l := 0) (c := (Scalar.nat x.length : Fl F)) (rel_exact (Nat.cast_nonneg x.length)) hN
  simp only [Nat.zero_add, List.length_map, Nat.add_zero] at h3
  have h4 := ((acc_exact h0 h1 c).mono h0 h1 (Nat.zero_le (x.length + 1))).flsub (a := (⟨c⟩ : Fl F)) h3
  have h5 := h4.fldiv (l := 0) (c := (⟨s⟩ : Fl F)) (rel_exact hs.le) hs.ne'
  have h6 : meanL (x.map Fl.mk : List (Fl F)) = (x.map Fl.mk : List (Fl F)).sum / Scalar.nat x.length := by simp [meanL]
  rw [h6]
  exact h5.gamma_le h0 h1 hu

/-! ## `ELBND` -/

theorem forall₂_zipWith {A A' B B' C C' : Type} {R : A → A' → Prop} {S : B → B' → Prop} {T : C → C' → Prop} {f : A → B → C} {f' : A' → B' → C'}
    (hf : ∀ a a' b b', R a a' → S b b' → T (f a b) (f' a' b')) {l : List A} {l' : List A'} (h : List.Forall₂ R l l') {m : List B} {m' : List B'}
    (h' : List.Forall₂ S m m') : List.Forall₂ T (List.zipWith f l m) (List.zipWith f' l' m') := by
  induction h generalizing m m' with
  | nil => simp
  | cons h1 _ ih =>
    cases h' with
    | nil => simp
    | cons h2 h3 => exact List.Forall₂.cons (hf _ _ _ _ h1 h2) (ih h3)

/-- the absolute value of a row entry is accurate to `k` roundings -/
def RowRel (F : Rounding) (k : ℕ) (r : Vec (Fl F) n) (r' : Vec ℝ n) : Prop := ∀ i, Rel F.u k |(r i).val| |r' i|

theorem abs_round {u a c : ℝ} (h : |c - a| ≤ u * |a|) : |(|c| - |a|)| ≤ u * |(|a|)| := by
  rw [abs_abs]; exact (abs_abs_sub_abs_le _ _).trans h

theorem elbndDw_rel (w : List (Vec ℝ n)) : List.Forall₂ (RowRel F 1) (elbndDw (w.map (Vec.fl F))) (elbndDw w) := by
  rcases w with _ | ⟨r, t⟩
  · exact List.Forall₂.nil
  · have e1 : elbndDw ((r :: t).map (Vec.fl F)) = (diff1 ((r :: t).map (Vec.fl F))).map absRow ++ [fun _ => 0] := rfl
    have e2 : elbndDw (r :: t) = (diff1 (r :: t)).map absRow ++ [fun _ => 0] := rfl
    rw [e1, e2]
    refine List.rel_append (R := RowRel F 1) ?_ (List.Forall₂.cons ?_ List.Forall₂.nil)
    · rw [List.forall₂_map_left_iff, List.forall₂_map_right_iff]
      unfold diff1
      rw [← List.map_drop]
      have hs : ∀ l : List (Vec ℝ n), List.Forall₂ (fun (a : Vec (Fl F) n) (b : Vec ℝ n) => a = b.fl F) (l.map (Vec.fl F)) l := fun l => by
        rw [List.forall₂_map_left_iff, List.forall₂_same]
        exact fun _ _ => rfl
      refine forall₂_zipWith ?_ (hs _) (hs _)
      rintro a a' b b' rfl rfl i
      have h1 := (rel_exact (u := F.u) (abs_nonneg (a' i - b' i))).round F.u_nonneg F.u_lt (abs_round (F.sub_err (a' i) (b' i)))
      show Rel F.u 1 |(|F.sub (a' i) (b' i)|)| |(|a' i - b' i|)|
      rw [abs_abs, abs_abs]
      exact h1
    · intro i
      have := (rel_exact (u := F.u) (le_refl (0 : ℝ))).mono F.u_nonneg F.u_lt (Nat.zero_le 1)
      simpa [fl_zero] using this

theorem elbndProd_rel {dw : List (Vec (Fl F) n)} {dw' : List (Vec ℝ n)} (h : List.Forall₂ (RowRel F 1) dw dw') (e : List ℝ) {p' : List (Vec ℝ n)}
    (hp : elbndProd dw' e = .ok p') : ∃ p, elbndProd dw (e.map Fl.mk) = .ok p ∧ List.Forall₂ (RowRel F 2) p p' := by
  have key : ∀ (r : Vec (Fl F) n) (r' : Vec ℝ n) (b : ℝ), RowRel F 1 r r' → RowRel F 2 (fun i => r i * (⟨b⟩ : Fl F)) (fun i => r' i * b) := by
    intro r r' b hr i
    have h1 := (hr i).mul F.u_nonneg F.u_lt (rel_exact (u := F.u) (abs_nonneg b))
    rw [← abs_mul, ← abs_mul] at h1
    exact h1.round F.u_nonneg F.u_lt (abs_round (F.mul_err _ _))
  have hl : dw.length = dw'.length := h.length_eq
  have hs : ∀ l : List ℝ, List.Forall₂ (fun (a : Fl F) (b : ℝ) => a = ⟨b⟩) (l.map Fl.mk) l := fun l => by
    rw [List.forall₂_map_left_iff, List.forall₂_same]
    exact fun _ _ => rfl
  unfold elbndProd at hp ⊢
  by_cases h1 : dw'.length = e.length
  · rw [if_pos h1] at hp
    rw [if_pos (by simpa [hl] using h1)]
    cases hp
    refine ⟨_, rfl, forall₂_zipWith ?_ h (hs e)⟩
    rintro a a' b b' hr rfl
    exact key a a' b' hr
  · rw [if_neg h1] at hp
    rw [if_neg (by simpa [hl] using h1)]
    rcases e with _ | ⟨b, _ | ⟨b', t⟩⟩
    · rcases h with _ | ⟨h2, _ | ⟨h3, h4⟩⟩
      · simp at h1
      · cases hp
        exact ⟨_, rfl, List.Forall₂.nil⟩
      · exact absurd hp (by simp)
    · cases hp
      refine ⟨_, rfl, ?_⟩
      rw [List.forall₂_map_left_iff, List.forall₂_map_right_iff]
      exact h.imp fun a a' hr => key a a' b hr
    · rcases h with _ | ⟨h2, _ | ⟨h3, h4⟩⟩
      · exact absurd hp (by simp)
      · cases hp
        refine ⟨_, rfl, ?_⟩
        rw [List.forall₂_map_left_iff, List.forall₂_map_right_iff]
        refine (hs (b :: b' :: t)).imp ?_
        rintro _ c rfl
        exact key _ _ c h2
      · exact absurd hp (by simp)

theorem rel_max {u : ℝ} {k : ℕ} {a b c d : ℝ} (h0 : 0 ≤ u) (h1 : u < 1) (h : Rel u k a b) (h' : Rel u k c d) : Rel u k (max a c) (max b d) := by
  have hp : 0 ≤ phi u k := le_trans zero_le_one (one_le_phi h0 h1 k)
  refine ⟨le_max_of_le_left h.1, max_le ?_ ?_, max_le ?_ ?_⟩
  · exact h.2.1.trans (mul_le_mul_of_nonneg_left (le_max_left _ _) hp)
  · exact h'.2.1.trans (mul_le_mul_of_nonneg_left (le_max_right _ _) hp)
  · exact h.2.2.trans (mul_le_mul_of_nonneg_left (le_max_left _ _) hp)
  · exact h'.2.2.trans (mul_le_mul_of_nonneg_left (le_max_right _ _) hp)

theorem smax_fl (a c : Fl F) : (smax a c).val = max a.val c.val := by
  have h : smax a c = if a.val < c.val then c else a := by
    unfold smax
    by_cases h : a.val < c.val
    · rw [if_pos h, if_neg]
      simp [Scalar.isnan, Scalar.lt, h]
    · rw [if_neg h, if_pos]
      simp [Scalar.isnan, Scalar.lt, h]
  rw [h]
  split
  · rename_i h1; rw [max_eq_right h1.le]
  · rename_i h1; rw [max_eq_left (not_lt.mp h1)]

theorem smax_real (a c : ℝ) : smax a c = max a c := by
  unfold smax
  by_cases h : a < c
  · rw [max_eq_right h.le, if_neg]
    simp [Scalar.isnan, Scalar.lt, h]
  · rw [max_eq_left (not_lt.mp h), if_pos]
    simp [Scalar.isnan, Scalar.lt, h]

theorem foldl_smax_rel {k : ℕ} {l : List (Fl F)} {l' : List ℝ} (h : List.Forall₂ (fun (a : Fl F) (b : ℝ) => Rel F.u k a.val b) l l') (a : Fl F) (b : ℝ)
    (hab : Rel F.u k a.val b) : Rel F.u k (l.foldl smax a).val (l'.foldl smax b) := by
  induction h generalizing a b with
  | nil => exact hab
  | @cons c d l l' h1 h2 ih =>
    refine ih (smax a c) (smax b d) ?_
    rw [smax_fl, smax_real]
    exact rel_max F.u_nonneg F.u_lt hab h1

theorem forall₂_ofFn' {A B : Type} {R : A → B → Prop} {m : ℕ} {f : Fin m → A} {g : Fin m → B} (h : ∀ i, R (f i) (g i)) :
    List.Forall₂ R (List.ofFn f) (List.ofFn g) := by
  induction m with
  | zero => simp
  | succ m ih => rw [List.ofFn_succ, List.ofFn_succ]; exact List.Forall₂.cons (h 0) (ih fun i => h i.succ)

/-- C152: `ELBND` in rounded arithmetic: with `"max"` every value has a relative error of at most `gamma_2`, with `"sum"` of at most `gamma_(n+2)`, for `n` weights, whenever
the exact measure exists (histories of matching length, or any lengths numpy broadcasts). The differences of the weights lose no accuracy. -/
theorem C152_elbnd (w : List (Vec ℝ n)) (e : List ℝ) (hu : (n + 2 : ℕ) * F.u < 1) :
    (∀ b, elbnd w e "max" = .ok b → ∃ a, elbnd (w.map (Vec.fl F)) (e.map Fl.mk) "max" = .ok a ∧
      List.Forall₂ (fun (a : Fl F) (b : ℝ) => |a.val - b| ≤ gamma F.u 2 * b) a b) ∧
    (∀ b, elbnd w e "sum" = .ok b → ∃ a, elbnd (w.map (Vec.fl F)) (e.map Fl.mk) "sum" = .ok a ∧
      List.Forall₂ (fun (a : Fl F) (b : ℝ) => |a.val - b| ≤ gamma F.u (n + 2) * b) a b) := by
  have hu2 : (2 : ℕ) * F.u < 1 := lt_of_le_of_lt (mul_le_mul_of_nonneg_right (by exact_mod_cast Nat.le_add_left 2 n) F.u_nonneg) hu
  have habs : ∀ (r : Vec (Fl F) n) (r' : Vec ℝ n), RowRel F 2 r r' → ∀ i, Rel F.u 2 (absRow r i).val (absRow r' i) := fun r r' hr i => hr i
  refine ⟨fun b hb => ?_, fun b hb => ?_⟩
  · rw [elbnd_unfold _ _ _ (Or.inl rfl)] at hb ⊢
    cases hp : elbndProd (elbndDw w) e with
    | error err => rw [hp] at hb; exact absurd hb (by simp)
    | ok p' =>
      obtain ⟨p, h1, h2⟩ := elbndProd_rel (elbndDw_rel w) e hp
      rw [hp] at hb
      rw [h1]
      dsimp only at hb ⊢
      rw [if_pos rfl] at hb ⊢
      unfold rowMax at hb ⊢
      have hl := h2.length_eq
      by_cases hn : n = 0 ∧ p'.map absRow ≠ []
      · rw [if_pos hn] at hb; exact absurd hb (by simp)
      · have hn' : ¬ (n = 0 ∧ p.map absRow ≠ []) := by
          intro h3
          refine hn ⟨h3.1, ?_⟩
          have h4 := h3.2
          intro h5
          refine h4 ?_
          rw [List.map_eq_nil_iff] at h5 ⊢
          rw [h5] at hl
          exact List.length_eq_zero_iff.mp hl
        rw [if_neg hn] at hb
        rw [if_neg hn']
        cases hb
        refine ⟨_, rfl, ?_⟩
        rw [List.map_map, List.map_map, List.forall₂_map_left_iff, List.forall₂_map_right_iff]
        refine h2.imp fun r r' hr => ?_
        refine Rel.gamma_le ?_ hu2
        have h5 : List.Forall₂ (fun (a : Fl F) (b : ℝ) => Rel F.u 2 a.val b) (List.ofFn (absRow r)) (List.ofFn (absRow r')) := forall₂_ofFn' (habs r r' hr)
        simp only [Function.comp]
        revert h5
        generalize List.ofFn (absRow r) = l
        generalize List.ofFn (absRow r') = l'
        intro h5
        cases h5 with
        | nil => exact (rel_exact (u := F.u) (le_refl (0 : ℝ))).mono F.u_nonneg F.u_lt (Nat.zero_le 2)
        | cons h6 h7 => exact foldl_smax_rel h7 _ _ h6
  · rw [elbnd_unfold _ _ _ (Or.inr rfl)] at hb ⊢
    cases hp : elbndProd (elbndDw w) e with
    | error err => rw [hp] at hb; exact absurd hb (by simp)
    | ok p' =>
      obtain ⟨p, h1, h2⟩ := elbndProd_rel (elbndDw_rel w) e hp
      rw [hp] at hb
      rw [h1]
      dsimp only at hb ⊢
      rw [if_neg (by decide)] at hb ⊢
      cases hb
      refine ⟨_, rfl, ?_⟩
      rw [List.map_map, List.map_map, List.forall₂_map_left_iff, List.forall₂_map_right_iff]
      refine h2.imp fun r r' hr => ?_
      refine Rel.gamma_le ?_ hu
      have := Rel.flvsum (absRow r) (absRow r') (habs r r' hr)
      rw [Nat.add_comm n 2]
      simp only [Function.comp, vsum_eq]
      exact this

/-- the hypotheses are met: double precision, three weights, a history of two samples -/
example : ((3 + 2 : ℕ) : ℝ) * (binary 53 (by norm_num)).u < 1 ∧
    (∃ b, elbnd [(fun i : Fin 3 => (i : ℝ)), fun _ => 1] [1, 2] "max" = .ok b) ∧ (∃ b, elbnd [(fun i : Fin 3 => (i : ℝ)), fun _ => 1] [1, 2] "sum" = .ok b) := by
  refine ⟨by show ((3 + 2 : ℕ) : ℝ) * (1 / 2) ^ 53 < 1; norm_num, ?_, ?_⟩
  · obtain ⟨v, h, -⟩ := C61_max [(fun i : Fin 3 => (i : ℝ)), fun _ => 1] [1, 2] rfl (by norm_num)
    exact ⟨_, h⟩
  · exact ⟨_, C61_sum [(fun i : Fin 3 => (i : ℝ)), fun _ => 1] [1, 2] rfl⟩

end Padasip
