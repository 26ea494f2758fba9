import Verif.Model.MlpNd
import Verif.Props.NdRest

set_option linter.unusedSectionVars false
set_option linter.unusedSimpArgs false
set_option linter.unusedVariables false

/-!
# C154: which shapes `predict` and `update` of the MLP accept
-/

namespace Padasip

variable {K : Type} [Transc K] {nin m p : Nat}

/-- `a` is the vector `v`, with `k` leading axes of length 1 -/
def RowN (k : Nat) (a : Arr K) (v : Vec K m) : Prop :=
  a.shape = List.replicate k 1 ++ [m] ∧ ∀ i : Fin m, a.entry (List.replicate k 0 ++ [i.val]) = v i

theorem bshape_row (k m : Nat) : bshape [m] (List.replicate k 1 ++ [m]) = .ok (List.replicate k 1 ++ [m]) := by
  unfold bshape
  rw [List.reverse_append, List.reverse_singleton, List.reverse_replicate]
  simp [bshapeRev, Except.map]

theorem bshape_row' (k m c : Nat) (h : c = m ∨ c = 1) : bshape (List.replicate k 1 ++ [c]) [m] = .ok (List.replicate k 1 ++ [m]) := by
  unfold bshape
  rw [List.reverse_append, List.reverse_singleton, List.reverse_replicate]
  have h2 : ∀ l : List Nat, bshapeRev l [] = .ok l := fun l => by cases l <;> rfl
  rcases h with h | h
  · simp [bshapeRev, Except.map, h, h2]
  · by_cases hm : m = 1
    · simp [bshapeRev, Except.map, h, h2, hm]
    · simp [bshapeRev, Except.map, h, h2, hm, Ne.symm hm]

theorem bidx_row (k : Nat) {i : Nat} (hi : i < m) : bidx (List.replicate k 1 ++ [m]) (List.replicate k 0 ++ [i]) = List.replicate k 0 ++ [i] := by
  unfold bidx
  simp only [List.length_append, List.length_replicate, List.length_singleton, Nat.sub_self, List.drop_zero]
  induction k with
  | zero => 
    by_cases h : m = 1
    · simp [h]; omega
    · simp [h]
  | succ k ih => simpa [List.replicate_succ] using ih

theorem bidx_row_one (k i : Nat) : bidx (List.replicate k 1 ++ [1]) (List.replicate k 0 ++ [i]) = List.replicate k 0 ++ [0] := by
  unfold bidx
  simp only [List.length_append, List.length_replicate, List.length_singleton, Nat.sub_self, List.drop_zero]
  induction k with
  | zero => simp
  | succ k ih => simpa [List.replicate_succ] using ih

theorem bidx_row_vec (k : Nat) {i : Nat} (hi : i < m) : bidx [m] (List.replicate k 0 ++ [i]) = [i] := by
  unfold bidx
  by_cases h : m = 1
  · simp [h]; omega
  · simp [h]

/-- `d - y` -/
theorem rowOf_sub {d : Arr K} {v : Vec K p} (h : RowOf d v) (y : Vec K p) :
    ∃ k e, d.zip (· - ·) (Arr.vec y) = .ok e ∧ RowN k e (fun i => v i - y i) := by
  rcases h with ⟨h1, h2⟩ | ⟨k, ⟨h1, h2⟩ | ⟨h1, h2⟩⟩
  · refine ⟨0, _, zip_ok (s := [p]) (by rw [h1, bshape_nil]; rfl), rfl, fun i => ?_⟩
    show d.entry (bidx d.shape [i.val]) - (Arr.vec y).entry (bidx [p] [i.val]) = _
    rw [h1, bidx_nil, bidx_self i.isLt, vec_entry, ← h2 i]
  · refine ⟨k, _, zip_ok (s := List.replicate k 1 ++ [p]) (by rw [h1]; exact bshape_row' k p 1 (.inr rfl)), rfl, fun i => ?_⟩
    show d.entry (bidx d.shape _) - (Arr.vec y).entry (bidx [p] _) = _
    rw [h1, bidx_row_one, bidx_row_vec k i.isLt, vec_entry, ← h2 i]
  · refine ⟨k, _, zip_ok (s := List.replicate k 1 ++ [p]) (by rw [h1]; exact bshape_row' k p p (.inl rfl)), rfl, fun i => ?_⟩
    show d.entry (bidx d.shape _) - (Arr.vec y).entry (bidx [p] _) = _
    rw [h1, bidx_row k i.isLt, bidx_row_vec k i.isLt, vec_entry, ← h2 i]

theorem rowN_mul {k : Nat} {a : Arr K} {v : Vec K m} (h : RowN k a v) (g : Vec K m) :
    ∃ c, (Arr.vec g).zip (· * ·) a = .ok c ∧ RowN k c (fun i => g i * v i) := by
  refine ⟨_, zip_ok (s := List.replicate k 1 ++ [m]) (by rw [h.1]; exact bshape_row k m), rfl, fun i => ?_⟩
  show (Arr.vec g).entry (bidx [m] _) * a.entry (bidx a.shape _) = _
  rw [h.1, bidx_row k i.isLt, bidx_row_vec k i.isLt, vec_entry, h.2]

theorem rowN_dot {k : Nat} {a : Arr K} {v : Vec K p} (h : RowN k a v) (W : Mat K p m) :
    ∃ c, a.dot (Arr.table W) = .ok c ∧ RowN k c (fun i => vsum fun j => v j * W j i) := by
  have hr : a.shape.reverse = p :: List.replicate k 1 := by rw [h.1]; simp
  have ht : (Arr.table W).shape.reverse = [m, p] := rfl
  unfold Arr.dot
  rw [hr, ht]
  simp only [if_true]
  refine ⟨_, rfl, ?_, fun i => ?_⟩
  · simp
  · simp only [List.length_replicate]
    unfold vsum
    congr 2
    funext j
    have h1 : (List.replicate k 0 ++ [i.val]).take k = List.replicate k 0 := by simp
    have h2 : (List.replicate k 0 ++ [i.val]).drop k = [i.val] := by simp
    rw [h1, h2, h.2]
    simp [Arr.table]

theorem unravel_row (k : Nat) {i : Nat} (hi : i < m) : unravel (List.replicate k 1 ++ [m]) i = List.replicate k 0 ++ [i] := by
  induction k with
  | zero => simp [unravel]
  | succ k ih =>
    have hp : (List.replicate k 1 ++ [m]).prod = m := by simp
    rw [List.replicate_succ, List.cons_append, unravel, hp, Nat.div_eq_of_lt hi, Nat.mod_eq_of_lt hi, ih, List.replicate_succ, List.cons_append]

theorem unravel_vec (q i : Nat) : unravel [q] i = [i] := by simp [unravel]

/-- the in-place sum with a table of `L` rows -/
theorem iaddMat_rows {r c : Nat} (W : Mat K r c) {dw : Arr K} {L : Nat} (h : dw.shape = [L, c]) :
    iaddMat W dw = if L = r ∨ L = 1 then .ok fun i j => W i j + dw.entry [if L = 1 then 0 else i.val, if c = 1 then 0 else j.val] else .error .valueError := by
  unfold iaddMat
  have hb : bshape [r, c] [L, c] = if L = r ∨ L = 1 then .ok [r, c] else if r = 1 then .ok [L, c] else .error .valueError := by
    simp only [bshape, List.reverse_cons, List.reverse_nil, List.nil_append, List.singleton_append, bshapeRev, true_or, if_true]
    by_cases h1 : L = r ∨ L = 1
    · rw [if_pos h1, if_pos (by tauto)]; rfl
    · rw [if_neg h1, if_neg (by tauto)]
      split <;> rfl
  rw [h, hb]
  by_cases h1 : L = r ∨ L = 1
  · rw [if_pos h1, if_pos h1]
    simp only [if_true]
    rfl
  · rw [if_neg h1, if_neg h1]
    by_cases h2 : r = 1
    · rw [if_pos h2]
      dsimp only
      rw [if_neg]
      intro h3
      simp only [List.cons.injEq, and_true] at h3
      exact h1 (.inl h3)
    · rw [if_neg h2]

/-- `W += mu * np.outer(e, x)` -/
theorem rowN_outer {k q : Nat} {a : Arr K} {v : Vec K m} (h : RowN k a v) (W : Mat K m q) (mu : K) (x : Vec K q) :
    iaddMat W ((a.outer (Arr.vec x)).map (mu * ·)) = .ok fun i j => W i j + mu * (v i * x j) := by
  have hp : (List.replicate k 1 ++ [m]).prod = m := by simp
  have hs : ((a.outer (Arr.vec x)).map (mu * ·)).shape = [m, q] := by
    show [a.shape.prod, [q].prod] = _
    rw [h.1, hp]; simp
  rw [iaddMat_rows W hs, if_pos (.inl rfl)]
  congr 1
  funext i j
  have hi : (if m = 1 then 0 else i.val) = i.val := by split <;> omega
  have hj : (if q = 1 then 0 else j.val) = j.val := by split <;> omega
  rw [hi, hj]
  show W i j + mu * (a.entry (unravel a.shape i.val) * (Arr.vec x).entry (unravel [q] j.val)) = _
  rw [h.1, unravel_row k i.isLt, unravel_vec, vec_entry, h.2]

theorem errNd_row {k : Nat} {e : Arr K} {v : Vec K p} (h : RowN k e v) (l : Layer K nin m) (w : Mat K p m) :
    ∃ e', l.errNd (Arr.table w) e = .ok e' ∧ RowN k e' (l.errMat w v) := by
  obtain ⟨q, h1, h2⟩ := rowN_dot h w
  obtain ⟨c, h3, h4⟩ := rowN_mul h2 (fun i => activation l.f true (l.y i) * (1 - l.y i))
  refine ⟨c, ?_, h4⟩
  unfold Layer.errNd
  rw [if_neg (by show ¬ (2 = 1); omega), h1]
  exact h3

/-- the hidden layers, for an error array with any number of leading axes of length 1 -/
theorem hidden_updateNd : ∀ {nin m p : Nat} (H : Hidden K nin m) {k : Nat} {e : Arr K} {v : Vec K p} (w : Mat K p m), RowN k e v →
    H.updateNd (Arr.table w) e = (.ok (), H.updateMat w v)
  | _, _, p, .one l, k, e, v, w, h => by
    obtain ⟨e', h1, h2⟩ := errNd_row h l w
    unfold Hidden.updateNd Layer.addNd
    rw [h1]
    dsimp only
    rw [rowN_outer h2]
    rfl
  | _, _, p, .snoc H l, k, e, v, w, h => by
    obtain ⟨e', h1, h2⟩ := errNd_row h l w
    unfold Hidden.updateNd Layer.addNd
    rw [h1]
    dsimp only
    rw [rowN_outer h2]
    dsimp only
    rw [hidden_updateNd H (dropBias _) h2]
    rfl

/-! ## several outputs -/

/-- C154: `update` of a network with several outputs accepts a target that is a number, one value or one value per output, with any number of leading axes of length 1
(`RowOf d v`: its values, repeated if there is only one, are `v`), and does exactly what it does with the vector `v`; the returned errors are those of `v`, with the same
leading axes. -/
theorem C154_accepted (hp : p ≠ 1) (n : Net K nin m p) {d : Arr K} {v : Vec K p} (h : RowOf d v) :
    ∃ e k, n.updateManyNd d = (.ok e, (n.update v).1) ∧ e.shape = List.replicate k 1 ++ [p] ∧
      ∀ i : Fin p, e.entry (List.replicate k 0 ++ [i.val]) = (n.update v).2 i := by
  obtain ⟨k, e, h1, h2⟩ := rowOf_sub h n.y
  refine ⟨e, k, ?_, h2.1, h2.2⟩
  unfold Net.updateManyNd
  rw [h1]
  dsimp only
  rw [rowN_outer h2]
  dsimp only
  rw [hidden_updateNd n.hidden (dropBias n.w) h2]
  simp only [Net.update, hp, if_false, dif_neg, not_false_iff]
  rfl

theorem bshapeRev_single {m : Nat} (hm : m ≠ 1) {t : List Nat} {c : List Nat} (h : bshapeRev t [m] = .ok c) :
    (t = [] ∧ c = [m]) ∨ ∃ y b, t = y :: b ∧ (y = m ∨ y = 1) ∧ c = m :: b := by
  rcases t with _ | ⟨y, b⟩
  · cases h; exact .inl ⟨rfl, rfl⟩
  · have h2 : bshapeRev b [] = .ok b := by cases b <;> rfl
    simp only [bshapeRev, h2, Except.map] at h
    split at h
    · rename_i h3
      cases h
      exact .inr ⟨y, b, rfl, .inl (by omega), by simp; omega⟩
    · split at h
      · rename_i h3
        cases h
        exact .inr ⟨y, b, rfl, .inr h3, rfl⟩
      · cases h

/-- C154: every other shape raises `ValueError` and leaves the network as it was. -/
theorem C154_rejected (hp : 2 ≤ p) (n : Net K nin m p) {d : Arr K} (h : ¬ ∃ v : Vec K p, RowOf d v) :
    n.updateManyNd d = (.error .valueError, n) := by
  unfold Net.updateManyNd
  rcases zip_cases (· - ·) d (Arr.vec n.y) with ⟨e, h1, h2⟩ | h1
  · rw [h1]
    dsimp only
    have hs : ((e.outer (Arr.vec n.x)).map (n.mu * ·)).shape = [e.shape.prod, m + 1] := by
      show [e.shape.prod, [m + 1].prod] = _
      simp
    rw [iaddMat_rows n.w hs, if_neg]
    intro h3
    apply h
    replace h2 : bshape d.shape [p] = .ok e.shape := h2
    unfold bshape at h2
    cases hr : bshapeRev d.shape.reverse [p].reverse with
    | error er => rw [hr] at h2; cases h2
    | ok c =>
      rw [hr] at h2
      have h2' : c.reverse = e.shape := by injection h2
      rw [List.reverse_singleton] at hr
      rcases bshapeRev_single (by omega) hr with ⟨h4, h5⟩ | ⟨y, b, h4, h5, h6⟩
      · exact ⟨fun _ => d.entry [], .inl ⟨List.reverse_eq_nil_iff.1 h4, fun _ => rfl⟩⟩
      · have h7 : d.shape = b.reverse ++ [y] := by rw [← List.reverse_reverse d.shape, h4]; simp
        have h8 : e.shape.prod = b.reverse.prod * p := by rw [← h2', h6]; simp
        have h9 : b.reverse.prod = 1 := by
          rw [h8] at h3
          rcases h3 with h3 | h3
          · exact Nat.eq_of_mul_eq_mul_right (by omega : 0 < p) (by rw [h3, Nat.one_mul])
          · have := Nat.eq_one_of_mul_eq_one_left h3; omega
        have h10 : b.reverse = List.replicate b.reverse.length 1 := by
          rw [List.eq_replicate_iff]
          exact ⟨rfl, fun a ha => Nat.dvd_one.1 (h9 ▸ List.dvd_prod ha)⟩
        rw [h10] at h7
        rcases h5 with rfl | rfl
        · exact ⟨_, .inr ⟨_, .inr ⟨h7, fun _ => rfl⟩⟩⟩
        · exact ⟨_, .inr ⟨_, .inl ⟨h7, fun _ => rfl⟩⟩⟩
  · rw [h1]

/-! ## one output -/

theorem errNd_flat {e : Arr K} {a : K} (h : One e a) (l : Layer K nin m) (w : Vec K m) :
    ∃ e', l.errNd (Arr.vec w) e = .ok e' ∧ RowN 0 e' (l.errFlat w a) := by
  obtain ⟨b, h1, h2, h3⟩ := lane_zip (· * ·) (isVec_vec fun i => activation l.f true (l.y i)).lane h.lane
  obtain ⟨c, h4, h5, h6⟩ := lane_zip (· * ·) h2 (isVec_vec w).lane
  have h7 := h5.vec (h6 (.inr rfl))
  refine ⟨c, ?_, h7.1, h7.2⟩
  unfold Layer.errNd
  rw [if_pos (by show 1 = 1; rfl), h1]
  exact h4

/-- C154: `update` of a network with one output accepts a number or an array of one value, with the effect of the number. -/
theorem C154_one_accepted (n : Net K nin m 1) {d : Arr K} {a : K} (h : One d a) :
    ∃ e, n.updateOneNd d = (.ok e, (n.update fun _ => a).1) ∧ One e ((n.update fun _ => a).2 0) := by
  obtain ⟨e, h1, h2⟩ := one_num_zip (· - ·) h (b := Arr.num (n.y 0)) rfl rfl
  refine ⟨e, ?_, h2⟩
  unfold Net.updateOneNd
  rw [h1]
  dsimp only
  obtain ⟨dw, h3, h4, h5⟩ := lane_zip (· * ·) (lane_map (n.mu * ·) (h2.lane (n := m + 1))) (isVec_vec n.x).lane
  rw [h3]
  dsimp only
  rw [iadd_lane (n.w 0) h4]
  dsimp only
  have hH : n.hidden.updateNd (Arr.vec (dropBias n.w 0)) e = (.ok (), n.hidden.updateFlat (dropBias n.w 0) (a - n.y 0)) := by
    generalize n.hidden = H
    generalize dropBias n.w 0 = w
    cases H with
    | one l =>
      obtain ⟨e', h6, h7⟩ := errNd_flat h2 l w
      unfold Hidden.updateNd Layer.addNd
      rw [h6]
      dsimp only
      rw [rowN_outer h7]
      rfl
    | snoc H l =>
      obtain ⟨e', h6, h7⟩ := errNd_flat h2 l w
      unfold Hidden.updateNd Layer.addNd
      rw [h6]
      dsimp only
      rw [rowN_outer h7]
      dsimp only
      rw [hidden_updateNd H (dropBias _) h7]
      rfl
  rw [hH]
  simp only [Net.update, dif_pos, if_true]
  refine Prod.ext rfl ?_
  simp only [Net.mk.injEq, and_true, true_and]
  funext k j
  rw [Fin.fin_one_eq_zero k]
  rfl

/-- C154: a network with one output rejects every target that is not a number, one value or `m + 1` values (`m` nodes in the last hidden layer), also with leading axes of length 1:
`ValueError`, and the network is as it was. -/
theorem C154_one_rejected (hm : 0 < m) (n : Net K nin m 1) {d : Arr K} (h0 : d.shape ≠ []) (h1 : d.shape ≠ [1]) (h2 : d.shape ≠ [m + 1]) :
    n.updateOneNd d = (.error .valueError, n) := by
  unfold Net.updateOneNd
  rw [zip_ok (s := d.shape) (by show bshape d.shape [] = _; rw [bshape_nil'])]
  dsimp only
  generalize hE : (⟨d.shape, fun idx => d.entry (bidx d.shape idx) - (Arr.num (n.y 0)).entry (bidx (Arr.num (n.y 0)).shape idx)⟩ : Arr K) = e
  have he : e.shape = d.shape := by rw [← hE]
  rcases zip_cases (· * ·) (e.map (n.mu * ·)) (Arr.vec n.x) with ⟨dw, h3, h4⟩ | h3
  · rw [h3]
    dsimp only
    replace h4 : bshape e.shape [m + 1] = .ok dw.shape := h4
    rw [he] at h4
    unfold bshape at h4
    cases hr : bshapeRev d.shape.reverse [m + 1].reverse with
    | error er => rw [hr] at h4; cases h4
    | ok c =>
      rw [hr] at h4
      have h5 : c.reverse = dw.shape := by injection h4
      rw [List.reverse_singleton] at hr
      rcases bshapeRev_single (by omega) hr with ⟨h6, -⟩ | ⟨y, b, h6, h7, h8⟩
      · exact absurd (List.reverse_eq_nil_iff.1 h6) h0
      · have h9 : d.shape = b.reverse ++ [y] := by rw [← List.reverse_reverse d.shape, h6]; simp
        have h10 : dw.shape = b.reverse ++ [m + 1] := by rw [← h5, h8]; simp
        have h11 : b ≠ [] := by
          rintro rfl
          rcases h7 with rfl | rfl
          · exact h2 (by simpa using h9)
          · exact h1 (by simpa using h9)
        rw [iadd_eq, if_neg]
        have h12 : 2 ≤ dw.shape.length := by
          rw [h10]; have := List.length_pos_iff.2 h11; simp; omega
        rintro (h | h | h) <;> rw [h] at h12 <;> simp at h12
  · rw [h3]

/-- C154: a target with as many values as the output node has weights raises `ValueError` too, but only after the weights of the output node have been changed, each with its own
error; the hidden layers stay. -/
theorem C154_one_damage (hm : 0 < m) (n : Net K nin m 1) {d : Arr K} (h : d.shape = [m + 1]) :
    n.updateOneNd d = (.error .valueError, { n with w := fun _ j => n.w 0 j + n.mu * (d.entry [j.val] - n.y 0) * n.x j }) := by
  unfold Net.updateOneNd
  have hv : IsVec d (fun j : Fin (m + 1) => d.entry [j.val]) := ⟨h, fun _ => rfl⟩
  obtain ⟨e, h1, h2, h3⟩ := lane_zip (· - ·) hv.lane (lane_num (n.y 0))
  have he := h3 (.inl h)
  rw [h1]
  dsimp only
  obtain ⟨dw, h4, h5, h6⟩ := lane_zip (· * ·) (lane_map (n.mu * ·) h2) (isVec_vec n.x).lane
  rw [h4]
  dsimp only
  rw [iadd_lane (n.w 0) h5]
  dsimp only
  have key : ∀ {a : Nat} (l : Layer K a m) (w : Vec K m), l.errNd (Arr.vec w) e = .error .valueError ∨
      ∃ e', l.errNd (Arr.vec w) e = .ok e' ∧ l.addNd e' = .error .valueError := by
    intro a l w
    unfold Layer.errNd
    rw [if_pos (by show 1 = 1; rfl)]
    rcases zip_cases (· * ·) (Arr.vec fun i => activation l.f true (l.y i)) e with ⟨b, h7, h8⟩ | h7
    · rw [h7]
      dsimp only
      replace h8 : bshape [m] e.shape = .ok b.shape := h8
      rw [he, bshape_one, if_neg (by omega)] at h8
      by_cases h9 : m = 1
      · rw [if_pos h9] at h8
        have h10 : b.shape = [m + 1] := by injection h8 with h8; exact h8.symm
        rcases zip_cases (· * ·) b (Arr.vec w) with ⟨c, h11, h12⟩ | h11
        · refine .inr ⟨c, h11, ?_⟩
          replace h12 : bshape b.shape [m] = .ok c.shape := h12
          rw [h10, bshape_one, if_pos (by omega)] at h12
          have h13 : c.shape = [m + 1] := by injection h12 with h12; exact h12.symm
          unfold Layer.addNd
          rw [iaddMat_rows (L := m + 1) l.w (by show [c.shape.prod, [a + 1].prod] = _; rw [h13]; simp), if_neg (by omega)]
        · exact .inl h11
      · rw [if_neg h9] at h8; cases h8
    · rw [h7]; exact .inl rfl
  have hH : n.hidden.updateNd (Arr.vec (dropBias n.w 0)) e = (.error .valueError, n.hidden) := by
    generalize n.hidden = H
    generalize dropBias n.w 0 = w
    cases H with
    | one l =>
      unfold Hidden.updateNd
      rcases key l w with h7 | ⟨e', h7, h8⟩
      · rw [h7]
      · rw [h7]; dsimp only; rw [h8]
    | snoc H l =>
      unfold Hidden.updateNd
      rcases key l w with h7 | ⟨e', h7, h8⟩
      · rw [h7]
      · rw [h7]; dsimp only; rw [h8]
  rw [hH]
  rfl

/-! ## `predict` -/

/-- C154: `predict` accepts an input that is a number, one value or one value per input, with any number of leading axes of length 1, and does what it does with the vector;
every other shape raises `ValueError` and leaves the network as it was. -/
theorem C154_predict (n : Net K nin m p) (x : Arr K) :
    (∀ v : Vec K nin, RowOf x v → n.predictNd x = (.ok (n.predictV v).2, (n.predictV v).1)) ∧
    ((¬ ∃ v : Vec K nin, RowOf x v) → n.predictNd x = (.error .valueError, n)) := by
  unfold Net.predictNd
  refine ⟨fun v h => ?_, fun h => ?_⟩
  · rw [assignVec_ok h]
  · rw [assignVec_error h]

/-- C154: a series of calls `predict(x)`, `update(d)` of a network with several outputs, each with some accepted shape, is the series with the plain vectors: training step by step
with tables of one row gives the same network. -/
theorem C154_series (hp : p ≠ 1) (S : List (Arr K × Arr K)) (T : List (Vec K nin × Vec K p))
    (h : List.Forall₂ (fun a b => RowOf a.1 b.1 ∧ RowOf a.2 b.2) S T) (n : Net K nin m p) :
    S.foldl (fun n s => ((n.predictNd s.1).2.updateManyNd s.2).2) n = (n.epoch T).1 := by
  induction h generalizing n with
  | nil => rfl
  | @cons a b S T h1 h2 ih =>
    obtain ⟨e, k, h3, -⟩ := C154_accepted hp (n.predictV b.1).1 h1.2
    rw [List.foldl_cons, (C154_predict n a.1).1 b.1 h1.1, h3, ih]
    rfl

/-- the hypotheses are met: a table of one row is a target for two outputs, a table of two rows is not -/
example : (∃ v : Vec ℝ 2, RowOf (⟨[1, 2], fun _ => 5⟩ : Arr ℝ) v) ∧ ¬ ∃ v : Vec ℝ 2, RowOf (⟨[2, 2], fun _ => 5⟩ : Arr ℝ) v := by
  refine ⟨⟨fun _ => 5, .inr ⟨1, .inr ⟨rfl, fun _ => rfl⟩⟩⟩, ?_⟩
  rintro ⟨v, ⟨h, -⟩ | ⟨k, ⟨h, -⟩ | ⟨h, -⟩⟩⟩
  · cases h
  · rcases k with _ | k <;> simp [List.replicate_succ] at h
  · rcases k with _ | k <;> simp [List.replicate_succ] at h

end Padasip
