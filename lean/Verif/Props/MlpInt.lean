import Verif.Props.MlpNew
import Verif.Model.MlpInt

/-!
# C153: `NetworkMLP` with integer sizes
-/

set_option linter.unusedSectionVars false
set_option linter.unusedVariables false
set_option linter.unusedSimpArgs false

namespace Padasip

variable {K : Type} [Transc K]

theorem newLayerZ_pos (draw : Draw K) (call : ℕ) (s n : Int) (f : Act) (mu : MuArg K) (hs : 0 ≤ s) (hn : 0 ≤ n) :
    newLayerZ draw call s n f mu = newLayer draw call s.toNat n.toNat f mu := by
  unfold newLayerZ newLayer invSqrtZ
  by_cases h0 : n = 0
  · subst h0; rfl
  · have h1 : n.toNat ≠ 0 := by omega
    rw [if_neg h0, if_neg (by omega), if_neg h1]
    simp only [normalErr, show ¬ (s < 0 ∨ n + 1 < 0) by omega, if_false, Option.getD_some]
    cases mu <;> rfl

theorem growHiddenZ_nonneg (draw : Draw K) (f : Act) (mu : MuArg K) {nin : ℕ} (t : List Int) : ∀ (prev : Int) (call : ℕ) (h : Hidden K nin prev.toNat),
    0 ≤ prev → (∀ s ∈ t, 0 ≤ s) → growHiddenZ draw f mu prev call h t = growHidden draw f mu call h (t.map Int.toNat) := by
  induction t with
  | nil => intro prev call h _ _; rfl
  | cons s t ih =>
    intro prev call h hp ht
    have hs := ht s (by simp)
    unfold growHiddenZ
    rw [newLayerZ_pos draw call s prev f mu hs hp, List.map_cons]
    unfold growHidden
    cases newLayer draw call s.toNat prev.toNat f mu with
    | error e => rfl
    | ok l => exact ih s (call + 1) _ hs fun a ha => ht a (by simp [ha])

theorem getLastD_toNat (l : List Int) : (l.map Int.toNat).getLastD 0 = (l.getLastD 0).toNat := by
  rw [List.getLastD_eq_getLast?, List.getLastD_eq_getLast?, List.getLast?_map]
  cases l.getLast? <;> rfl

/-- C153: sizes that are not negative: the network (or the exception) is the one of the model with natural numbers. -/
theorem C153_nonneg (draw : Draw K) (layers : List Int) (nin p : Int) (f : Act) (mu : MuArg K) (hl : ∀ s ∈ layers, 0 ≤ s) (hn : 0 ≤ nin) (hp : 0 ≤ p) :
    newNetZ draw layers nin p f mu = newNet draw (layers.map Int.toNat) nin.toNat p.toNat f mu := by
  unfold newNetZ newNet
  rcases layers with _ | ⟨s, t⟩
  · rfl
  · have hlast : 0 ≤ (s :: t).getLastD 0 := by
      rw [List.getLastD_eq_getLast?, List.getLast?_eq_getLast_of_ne_nil (by simp), Option.getD_some]
      exact hl _ (List.getLast_mem (by simp))
    have h2 := getLastD_toNat (s :: t)
    rw [List.map_cons] at h2 ⊢
    dsimp only
    rw [h2]
    generalize (s :: t).getLastD 0 = z at hlast
    unfold invSqrtZ
    by_cases h0 : z = 0
    · subst h0; simp
    · rw [if_neg h0, if_neg (by omega), if_neg (by omega)]
      simp only [normalErr, show ¬ (p < 0 ∨ z + 1 < 0) by omega, if_false, Option.getD_some]
      have hL := fun mu => newLayerZ_pos draw 1 s nin f mu (hl s (by simp)) hn
      cases mu with
      | bad => rfl
      | auto =>
        dsimp only
        rw [hL]
        cases newLayer draw 1 s.toNat nin.toNat f .auto with
        | error e => rfl
        | ok l => dsimp only; rw [growHiddenZ_nonneg draw f _ t s 2 _ (hl s (by simp)) fun a ha => hl a (by simp [ha])]; cases growHidden draw f _ 2 (.one l) (t.map Int.toNat) <;> rfl
      | num v =>
        dsimp only
        rw [hL]
        cases newLayer draw 1 s.toNat nin.toNat f (.num v) with
        | error e => rfl
        | ok l => dsimp only; rw [growHiddenZ_nonneg draw f _ t s 2 _ (hl s (by simp)) fun a ha => hl a (by simp [ha])]; cases growHidden draw f _ 2 (.one l) (t.map Int.toNat) <;> rfl
      | numStr =>
        dsimp only
        rw [hL]
        cases newLayer draw 1 s.toNat nin.toNat f .numStr with
        | error e => rfl
        | ok l => dsimp only; rw [growHiddenZ_nonneg draw f _ t s 2 _ (hl s (by simp)) fun a ha => hl a (by simp [ha])]; cases growHidden draw f _ 2 (.one l) (t.map Int.toNat) <;> rfl

theorem newLayerZ_ok (draw : Draw K) (call : ℕ) (s n : Int) (f : Act) (mu : MuArg K) (hs : 0 ≤ s) (hn : 0 < n) :
    ∃ l, newLayerZ draw call s n f mu = .ok l := by
  rw [newLayerZ_pos draw call s n f mu hs hn.le]
  unfold newLayer
  rw [if_neg (by omega)]
  exact ⟨_, rfl⟩

theorem newLayerZ_neg (draw : Draw K) (call : ℕ) (s n : Int) (f : Act) (mu : MuArg K) :
    (n = 0 → newLayerZ draw call s n f mu = .error .zeroDivisionError) ∧ (n < 0 → newLayerZ draw call s n f mu = .error .typeError) ∧
    (0 < n → s < 0 → newLayerZ draw call s n f mu = .error .valueError) := by
  unfold newLayerZ invSqrtZ
  refine ⟨fun h => ?_, fun h => ?_, fun h h' => ?_⟩
  · rw [if_pos h]
  · rw [if_neg (by omega), if_pos h]; rfl
  · rw [if_neg (by omega), if_neg (by omega)]
    simp only [normalErr, show (s < 0 ∨ n + 1 < 0) by omega, if_true]

theorem growHiddenZ_bad (draw : Draw K) (f : Act) (mu : MuArg K) {nin : ℕ} (b : List Int) (s : Int) (t : List Int) : ∀ (prev : Int) (call : ℕ) (h : Hidden K nin prev.toNat),
    0 < prev → (∀ a ∈ b, 0 < a) → (s < 0 → growHiddenZ draw f mu prev call h (b ++ s :: t) = .error .valueError) ∧
      (s = 0 → t ≠ [] → growHiddenZ draw f mu prev call h (b ++ s :: t) = .error .zeroDivisionError) := by
  induction b with
  | nil =>
    intro prev call h hp _
    refine ⟨fun hs => ?_, fun hs ht => ?_⟩
    · rw [List.nil_append]; unfold growHiddenZ
      rw [(newLayerZ_neg draw call s prev f mu).2.2 hp hs]
    · rw [List.nil_append]; unfold growHiddenZ
      obtain ⟨l, hl⟩ := newLayerZ_ok draw call s prev f mu (by omega) hp
      rw [hl]
      obtain ⟨c, t, rfl⟩ := List.exists_cons_of_ne_nil ht
      dsimp only
      unfold growHiddenZ
      rw [(newLayerZ_neg draw (call + 1) c s f mu).1 hs]
  | cons a b ih =>
    intro prev call h hp hb
    have ha := hb a (by simp)
    rw [List.cons_append]; unfold growHiddenZ
    obtain ⟨l, hl⟩ := newLayerZ_ok draw call a prev f mu ha.le hp
    rw [hl]
    exact ih a (call + 1) _ ha fun c hc => hb c (by simp [hc])

/-- the constructor after `mu` and the output weights have been accepted -/
theorem newNetZ_tail (draw : Draw K) (s : Int) (t : List Int) (nin p : Int) (f : Act) (mu : MuArg K) (hl : 0 < (s :: t).getLastD 0) (hp : 0 ≤ p) (hmu : mu ≠ .bad) :
    (∀ e, newLayerZ draw 1 s nin f mu = .error e → newNetZ draw (s :: t) nin p f mu = .error e) ∧
    (∀ l e, newLayerZ draw 1 s nin f mu = .ok l → growHiddenZ draw f mu s 2 (.one l) t = .error e → newNetZ draw (s :: t) nin p f mu = .error e) := by
  have h1 : invSqrtZ (K := K) ((s :: t).getLastD 0) = .ok (some (invSqrt ((s :: t).getLastD 0).toNat)) := by
    unfold invSqrtZ; rw [if_neg (by omega), if_neg (by omega)]
  have h2 : normalErr (some (invSqrt ((s :: t).getLastD 0).toNat : K)) p ((s :: t).getLastD 0) = none := by
    simp only [normalErr, show ¬ (p < 0 ∨ (s :: t).getLastD 0 + 1 < 0) by omega, if_false]
  refine ⟨fun e he => ?_, fun l e hl he => ?_⟩
  · unfold newNetZ; dsimp only; rw [h1]; dsimp only; rw [h2]
    cases mu <;> first | exact absurd rfl hmu | (dsimp only; rw [he])
  · unfold newNetZ; dsimp only; rw [h1]; dsimp only; rw [h2]
    cases mu <;> first | exact absurd rfl hmu | (dsimp only; rw [hl]; dsimp only; rw [he])

/-- C153: which exception is raised, for all integers. No hidden layer: `IndexError`. Last size 0: `ZeroDivisionError`. Else a bad `mu`: `ValueError`. Else last size negative:
`TypeError`. Else a negative number of outputs: `ValueError`. Else no input: `ZeroDivisionError`; a negative number of inputs: `TypeError`. Else the first hidden size (`b`
are the ones before it) that is not positive decides: negative gives `ValueError`, 0 gives `ZeroDivisionError`. -/
theorem C153_exceptions (draw : Draw K) (nin p : Int) (f : Act) (mu : MuArg K) :
    newNetZ draw [] nin p f mu = .error .indexError ∧
    (∀ a, newNetZ draw (a ++ [0]) nin p f mu = .error .zeroDivisionError) ∧
    (∀ a z, z ≠ 0 → newNetZ draw (a ++ [z]) nin p f .bad = .error .valueError) ∧
    (mu ≠ .bad →
      (∀ a z, z < 0 → newNetZ draw (a ++ [z]) nin p f mu = .error .typeError) ∧
      (∀ a z, 0 < z →
        (p < 0 → newNetZ draw (a ++ [z]) nin p f mu = .error .valueError) ∧
        (0 ≤ p → nin = 0 → newNetZ draw (a ++ [z]) nin p f mu = .error .zeroDivisionError) ∧
        (0 ≤ p → nin < 0 → newNetZ draw (a ++ [z]) nin p f mu = .error .typeError) ∧
        (∀ b s c, a = b ++ s :: c → 0 ≤ p → 0 < nin → (∀ q ∈ b, 0 < q) →
          (s < 0 → newNetZ draw (a ++ [z]) nin p f mu = .error .valueError) ∧
          (s = 0 → newNetZ draw (a ++ [z]) nin p f mu = .error .zeroDivisionError)))) := by
  have hlast : ∀ (a : List Int) (z : Int), ∃ b t, a ++ [z] = b :: t ∧ (b :: t).getLastD 0 = z := by
    intro a s
    cases a with
    | nil => exact ⟨s, [], rfl, rfl⟩
    | cons b t => exact ⟨b, t ++ [s], rfl, by rw [← List.cons_append, List.getLastD_eq_getLast?, List.getLast?_append]; rfl⟩
  have hok : ∀ z : Int, z ≠ 0 → ∃ o, invSqrtZ (K := K) z = .ok o ∧ (z < 0 → o = none) ∧ (0 < z → o = some (invSqrt z.toNat)) := fun z hz => by
    unfold invSqrtZ
    rw [if_neg hz]
    split
    · exact ⟨_, rfl, fun _ => rfl, fun h => absurd h (by omega)⟩
    · exact ⟨_, rfl, fun h => absurd h (by omega), fun _ => rfl⟩
  refine ⟨rfl, fun a => ?_, fun a z hz => ?_, fun hmu => ⟨fun a z hz => ?_, fun a z hz => ⟨fun hp => ?_, fun hp hn => ?_, fun hp hn => ?_, fun b s c hab hp hn hb => ?_⟩⟩⟩
  · obtain ⟨b, t, h1, h2⟩ := hlast a 0
    rw [h1]; unfold newNetZ; dsimp only; rw [h2]; rfl
  · obtain ⟨b, t, h1, h2⟩ := hlast a z
    obtain ⟨o, h3, -⟩ := hok z hz
    rw [h1]; unfold newNetZ; dsimp only; rw [h2, h3]
  · obtain ⟨b, t, h1, h2⟩ := hlast a z
    obtain ⟨o, h3, h4, -⟩ := hok z (by omega)
    rw [h1]; unfold newNetZ; dsimp only; rw [h2, h3, h4 hz]
    cases mu <;> first | exact absurd rfl hmu | rfl
  · obtain ⟨b, t, h1, h2⟩ := hlast a z
    obtain ⟨o, h3, -, h4⟩ := hok z (by omega)
    rw [h1]; unfold newNetZ; dsimp only; rw [h2, h3, h4 hz]
    have h5 : normalErr (some (invSqrt z.toNat : K)) p z = some .valueError := by
      simp only [normalErr, show (p < 0 ∨ z + 1 < 0) by omega, if_true]
    cases mu <;> first | exact absurd rfl hmu | (dsimp only; rw [h5])
  · obtain ⟨b, t, h1, h2⟩ := hlast a z
    rw [h1]
    exact (newNetZ_tail draw b t nin p f mu (by rw [h2]; exact hz) hp hmu).1 _ ((newLayerZ_neg draw 1 b nin f mu).1 hn)
  · obtain ⟨b, t, h1, h2⟩ := hlast a z
    rw [h1]
    exact (newNetZ_tail draw b t nin p f mu (by rw [h2]; exact hz) hp hmu).1 _ ((newLayerZ_neg draw 1 b nin f mu).2.1 hn)
  · obtain ⟨b', t, h1, h2⟩ := hlast a z
    have hT := newNetZ_tail draw b' t nin p f mu (by rw [h2]; exact hz) hp hmu
    rw [h1]
    rw [hab] at h1
    rcases b with _ | ⟨q, b⟩
    · obtain ⟨rfl, rfl⟩ : s = b' ∧ c ++ [z] = t := by simpa using h1
      refine ⟨fun hs => hT.1 _ ((newLayerZ_neg draw 1 s nin f mu).2.2 hn hs), fun hs => ?_⟩
      obtain ⟨l, hl⟩ := newLayerZ_ok draw 1 s nin f mu (by omega) hn
      refine hT.2 l _ hl ?_
      obtain ⟨d, t, h3⟩ := List.exists_cons_of_ne_nil (show c ++ [z] ≠ [] by simp)
      rw [h3]
      unfold growHiddenZ
      rw [(newLayerZ_neg draw 2 d s f mu).1 hs]
    · obtain ⟨rfl, rfl⟩ : q = b' ∧ b ++ s :: (c ++ [z]) = t := by simpa using h1
      have hq := hb q (by simp)
      obtain ⟨l, hl⟩ := newLayerZ_ok draw 1 q nin f mu hq.le hn
      have hG := growHiddenZ_bad draw f mu b s (c ++ [z]) q 2 (.one l) hq fun d hd => hb d (by simp [hd])
      exact ⟨fun hs => hT.2 l _ hl (hG.1 hs), fun hs => hT.2 l _ hl (hG.2 hs (by simp))⟩

/-- C153: the constructor accepts exactly the networks with at least one hidden layer, positive sizes, at least one input, a number of outputs that is not negative and a
`mu` that is `"auto"` or accepted by `float`. -/
theorem C153_accepts (draw : Draw K) (layers : List Int) (nin p : Int) (f : Act) (mu : MuArg K) :
    (∃ N, newNetZ draw layers nin p f mu = .ok N) ↔ layers ≠ [] ∧ (∀ s ∈ layers, 0 < s) ∧ 0 < nin ∧ 0 ≤ p ∧ mu ≠ .bad := by
  obtain ⟨e1, e2, e3, e4⟩ := C153_exceptions draw nin p f mu
  constructor
  · rintro ⟨N, hN⟩
    have hne : layers ≠ [] := by
      rintro rfl; rw [e1] at hN; simp at hN
    obtain ⟨a, z, rfl⟩ : ∃ a z, layers = a ++ [z] := ⟨_, _, (List.dropLast_append_getLast hne).symm⟩
    have hz0 : z ≠ 0 := by rintro rfl; rw [e2] at hN; simp at hN
    have hmu : mu ≠ .bad := by rintro rfl; rw [e3 a z hz0] at hN; simp at hN
    obtain ⟨e5, e6⟩ := e4 hmu
    have hz : 0 < z := by
      by_contra h; rw [e5 a z (by omega)] at hN; simp at hN
    obtain ⟨e7, e8, e9, e10⟩ := e6 a z hz
    have hp : 0 ≤ p := by
      by_contra h; rw [e7 (by omega)] at hN; simp at hN
    have hn : 0 < nin := by
      by_contra h
      rcases (by omega : nin = 0 ∨ nin < 0) with h | h
      · rw [e8 hp h] at hN; simp at hN
      · rw [e9 hp h] at hN; simp at hN
    refine ⟨hne, fun s hs => ?_, hn, hp, hmu⟩
    rcases List.mem_append.1 hs with hs | hs
    · by_contra hs0
      -- the first size that is not positive
      have key : ∀ a : List Int, s ∈ a → ∃ b r c, a = b ++ r :: c ∧ (∀ q ∈ b, 0 < q) ∧ r ≤ 0 := by
        intro a
        induction a with
        | nil => intro h; simp at h
        | cons x a ih =>
          intro h
          by_cases hx : 0 < x
          · obtain ⟨b, r, c, h1, h2, h3⟩ := ih (by
              rcases List.mem_cons.1 h with rfl | h
              · exact absurd hx hs0
              · exact h)
            refine ⟨x :: b, r, c, by rw [h1]; rfl, ?_, h3⟩
            intro q hq
            rcases List.mem_cons.1 hq with rfl | hq
            · exact hx
            · exact h2 q hq
          · exact ⟨[], x, a, rfl, by simp, by omega⟩
      obtain ⟨b, r, c, h1, h2, h3⟩ := key a hs
      obtain ⟨h4, h5⟩ := e10 b r c h1 hp hn h2
      rcases (by omega : r < 0 ∨ r = 0) with h | h
      · rw [h4 h] at hN; simp at hN
      · rw [h5 h] at hN; simp at hN
    · rw [List.mem_singleton.1 hs]; exact hz
  · rintro ⟨h1, h2, h3, h4, h5⟩
    rw [C153_nonneg draw layers nin p f mu (fun s hs => (h2 s hs).le) h3.le h4]
    refine (C102_accepts draw (layers.map Int.toNat) nin.toNat p.toNat f mu).2 ⟨by simpa using h1, ?_, by omega, fun h => h5 h⟩
    intro q hq
    obtain ⟨s, hs, rfl⟩ := List.mem_map.1 hq
    have := h2 s hs
    omega

/-- both cases occur -/
example : (∃ N, newNetZ (fun _ _ _ _ _ _ => (0 : ℝ)) [3, 2] 2 1 .sigmoid (.num 1) = .ok N) ∧
    newNetZ (fun _ _ _ _ _ _ => (0 : ℝ)) ([3, -2, 0] ++ [2]) 2 1 .sigmoid (.num 1) = .error .valueError := by
  refine ⟨(C153_accepts _ _ _ _ _ _).2 ⟨by simp, by simp, by simp, by simp, by simp⟩, ?_⟩
  exact ((((C153_exceptions (K := ℝ) (fun _ _ _ _ _ _ => 0) 2 1 .sigmoid (.num 1)).2.2.2 (by simp)).2 [3, -2, 0] 2 (by simp)).2.2.2 [3] (-2) [0] rfl (by simp) (by simp) (by simp)).1 (by simp)

end Padasip
