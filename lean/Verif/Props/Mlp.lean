import Verif.Model.Mlp
import Verif.Lemmas.Field
import Verif.Model.Real

/-!
# C71, C72, C76, C77: the training loop, prediction and validation of the multi-layer perceptron
-/

set_option linter.unusedSectionVars false
set_option linter.unusedSimpArgs false

namespace Padasip

section structural
variable {K : Type} [Transc K] {nin m p : ℕ}

/-! ## C76 -/

/-- all weights of the hidden layers, as nested arrays (layer, node, input) -/
def Hidden.weights {nin m : ℕ} : Hidden K nin m → List (List (List K))
  | .one l => [List.ofFn fun i => List.ofFn (l.w i)]
  | .snoc h l => h.weights ++ [List.ofFn fun i => List.ofFn (l.w i)]

/-- all weights of the network -/
def Net.weights (n : Net K nin m p) : List (List (List K)) := n.hidden.weights ++ [List.ofFn fun i => List.ofFn (n.w i)]

theorem setTail_setTail {n : ℕ} (old : Vec K (n + 1)) (a b : Vec K n) : setTail (setTail old a) b = setTail old b := by
  unfold setTail; simp

theorem Layer.predict_predict (l : Layer K nin m) (a b : Vec K nin) : (l.predict a).predict b = l.predict b := by
  simp only [Layer.predict, setTail_setTail]

theorem Hidden.predict_predict {nin m : ℕ} (h : Hidden K nin m) (a b : Vec K nin) : (h.predict a).1.predict b = h.predict b := by
  induction h with
  | one l => simp only [Hidden.predict, Layer.predict_predict]
  | snoc h l ih => simp only [Hidden.predict, ih, Layer.predict_predict]

theorem Hidden.predict_weights {nin m : ℕ} (h : Hidden K nin m) (a : Vec K nin) : (h.predict a).1.weights = h.weights := by
  induction h with
  | one l => rfl
  | snoc h l ih => simp only [Hidden.predict, Hidden.weights, ih]; rfl

theorem Net.predictV_predictV (n : Net K nin m p) (a b : Vec K nin) : (n.predictV a).1.predictV b = n.predictV b := by
  simp only [Net.predictV, Hidden.predict_predict, setTail_setTail]

theorem Net.predictV_weights (n : Net K nin m p) (a : Vec K nin) : (n.predictV a).1.weights = n.weights := by
  simp only [Net.predictV, Net.weights, Hidden.predict_weights]

theorem Net.predict_predict (n : Net K nin m p) (a b : List K) : ((n.predict a).2.predict b).1 = (n.predict b).1 := by
  unfold Net.predict
  rcases ha : bcastVec nin a with e | va
  · rfl
  · rcases hb : bcastVec nin b with e | vb
    · rfl
    · dsimp only
      rw [Net.predictV_predictV]

/-- C76: `predict` does not change any weight, whatever the input. -/
theorem C76_predict (n : Net K nin m p) (x : List K) : (n.predict x).2.weights = n.weights := by
  unfold Net.predict
  rcases bcastVec nin x with e | v
  · rfl
  · exact n.predictV_weights v

/-- C76: `predict` does not influence later predictions. -/
theorem C76_predict_independent (n : Net K nin m p) (a b : List K) : ((n.predict a).2.predict b).1 = (n.predict b).1 :=
  n.predict_predict a b

theorem runLoop_weights (x : List (List K)) (n : Net K nin m p) : (n.runLoop x).2.weights = n.weights := by
  induction x generalizing n with
  | nil => rfl
  | cons r t ih =>
    have h1 := C76_predict n r
    unfold Net.runLoop
    rcases hp : n.predict r with ⟨e | y, n1⟩
    · rw [hp] at h1; exact h1
    · rw [hp] at h1
      dsimp only
      have h2 := ih n1
      rcases hr : n1.runLoop t with ⟨e | ys, n2⟩
      · rw [hr] at h2; exact h2.trans h1
      · rw [hr] at h2; exact h2.trans h1

/-- C76: `run` does not change any weight. -/
theorem C76_run_weights (n : Net K nin m p) (x : List (List K)) : (n.run x).2.weights = n.weights := runLoop_weights x n

theorem runLoop_congr (x : List (List K)) (n n' : Net K nin m p) (h : ∀ r, (n.predict r).1 = (n'.predict r).1)
    (hp : ∀ a, ∀ r, ((n.predict a).2.predict r).1 = (n.predict r).1) (hp' : ∀ a, ∀ r, ((n'.predict a).2.predict r).1 = (n'.predict r).1) :
    (n.runLoop x).1 = (n'.runLoop x).1 := by
  induction x generalizing n n' with
  | nil => rfl
  | cons r t ih =>
    have hr := h r
    unfold Net.runLoop
    rcases h1 : n.predict r with ⟨e | y, n1⟩
    · rcases h2 : n'.predict r with ⟨e' | y', n1'⟩
      · rw [h1, h2] at hr; cases hr; rfl
      · rw [h1, h2] at hr; cases hr
    · rcases h2 : n'.predict r with ⟨e' | y', n1'⟩
      · rw [h1, h2] at hr; cases hr
      · rw [h1, h2] at hr
        cases hr
        dsimp only
        have e1 : n1 = (n.predict r).2 := by rw [h1]
        have e2 : n1' = (n'.predict r).2 := by rw [h2]
        have := ih n1 n1' (fun s => by rw [e1, e2, hp, hp', h]) (fun a s => n1.predict_predict a s) (fun a s => n1'.predict_predict a s)
        rcases h3 : n1.runLoop t with ⟨e | ys, n2⟩ <;> rcases h4 : n1'.runLoop t with ⟨e' | ys', n2'⟩ <;> rw [h3, h4] at this <;> cases this <;> rfl

/-- C76: `run(x)` is `predict` of every row, each with the network as it was before the call; the first failing row stops with its exception. -/
theorem C76_run (n : Net K nin m p) (x : List (List K)) : (n.run x).1 = x.mapM fun r => (n.predict r).1 := by
  unfold Net.run
  induction x with
  | nil => rfl
  | cons r t ih =>
    unfold Net.runLoop
    rw [List.mapM_cons]
    rcases h1 : n.predict r with ⟨e | y, n1⟩
    · rfl
    · dsimp only
      have e1 : n1 = (n.predict r).2 := by rw [h1]
      have := runLoop_congr t n1 n (fun s => by rw [e1, n.predict_predict]) (fun a s => n1.predict_predict a s)
        (fun a s => n.predict_predict a s)
      rw [ih] at this
      rcases h2 : n1.runLoop t with ⟨e | ys, n2⟩
      · rw [h2] at this
        dsimp only at this ⊢
        rw [← this]; rfl
      · rw [h2] at this
        dsimp only at this ⊢
        rw [← this]; rfl

/-- C76: with rows of the right length `run` succeeds and output `k` is the prediction for row `k`, so permuting the rows permutes the output. -/
theorem C76_run_rows (n : Net K nin m p) (x : List (Vec K nin)) :
    (n.run (x.map fun v => List.ofFn v)).1 = .ok (x.map fun v => (n.predictV v).2) := by
  rw [C76_run]
  induction x with
  | nil => rfl
  | cons v t ih =>
    rw [List.map_cons, List.mapM_cons, ih]
    have hb : bcastVec nin (List.ofFn v) = .ok v := by
      unfold bcastVec bcast
      rw [if_pos (by simp)]
      show asVec nin (List.ofFn v) = .ok v
      unfold asVec
      rw [dif_pos (by simp)]
      congr 1
      funext i
      simp
    have hp : (n.predict (List.ofFn v)).1 = .ok (n.predictV v).2 := by
      unfold Net.predict
      rw [hb]
    rw [hp]
    rfl

theorem testLoop_eq (n : Net K nin m p) (data : List (Vec K nin × Vec K p)) :
    (n.testLoop data).1.weights = n.weights ∧ (n.testLoop data).2 = data.map fun q => fun k => q.2 k - (n.predictV q.1).2 k := by
  induction data generalizing n with
  | nil => exact ⟨rfl, rfl⟩
  | cons q t ih =>
    obtain ⟨x, d⟩ := q
    obtain ⟨h1, h2⟩ := ih (n.predictV x).1
    refine ⟨?_, ?_⟩
    · show ((n.predictV x).1.testLoop t).1.weights = _
      rw [h1, n.predictV_weights]
    · show _ :: ((n.predictV x).1.testLoop t).2 = _
      rw [h2, List.map_cons]
      simp only [Net.predictV_predictV]
      rfl

/-- C76: `test(x, d)` leaves the weights unchanged and, when the shapes are accepted, returns `d - run(x)`: the target minus the prediction of
each sample. -/
theorem C76_test (n : Net K nin m p) (x : List (List K)) (d : NArr K) :
    (n.test x d).2.weights = n.weights ∧
    ∀ data, mlpCheck nin p x d = .ok data → (n.test x d).1 = .ok (data.map fun q => fun k => q.2 k - (n.predictV q.1).2 k) := by
  unfold Net.test
  rcases hc : mlpCheck nin p x d with e | data
  · exact ⟨rfl, fun _ h => by cases h⟩
  · refine ⟨(testLoop_eq n data).1, fun data' h => ?_⟩
    cases h
    show Except.ok _ = _
    rw [(testLoop_eq n data).2]

/-- C76: `test(x, d)` is `d - run(x)`: on accepted data `run` succeeds and the errors are the targets minus its rows. -/
theorem C76_test_run (n : Net K nin m p) (x : List (List K)) (d : NArr K) (data : List (Vec K nin × Vec K p)) (hx : data.map (fun q => List.ofFn q.1) = x)
    (hc : mlpCheck nin p x d = .ok data) :
    ∃ ys, (n.run x).1 = .ok ys ∧ (n.test x d).1 = .ok (List.zipWith (fun t y => fun k => t k - y k) (data.map Prod.snd) ys) := by
  refine ⟨data.map fun q => (n.predictV q.1).2, ?_, ?_⟩
  · have := C76_run_rows n (data.map Prod.fst)
    rw [List.map_map, List.map_map] at this
    rw [← hx]
    exact this
  · rw [(C76_test n x d).2 data hc]
    congr 1
    rw [List.zipWith_map, List.zipWith_self]

/-- C76: `run`, unlike `test` and `train`, does not check the width: rows of length 1 are broadcast to all inputs. -/
theorem C76_run_broadcasts (n : Net K nin m p) (a : K) : (n.run [[a]]).1 = .ok [(n.predictV fun _ => a).2] := by
  rw [C76_run, List.mapM_cons]
  have hb : bcastVec nin [a] = .ok fun _ => a := by
    unfold bcastVec bcast
    by_cases h : [a].length = nin
    · rw [if_pos h]
      show asVec nin [a] = _
      unfold asVec
      rw [dif_pos h]
      congr 1
      funext i
      have : i.val = 0 := by have := i.isLt; simp at h; omega
      simp [this]
    · rw [if_neg h]
      show asVec nin (List.replicate nin a) = _
      unfold asVec
      rw [dif_pos (by simp)]
      congr 1
      funext i
      simp
  unfold Net.predict
  rw [hb]
  rfl

/-! ## C77 -/

theorem mapM_asVec_ok (q : ℕ) (l : List (List K)) (h : ∀ r ∈ l, r.length = q) : ∃ vs, l.mapM (asVec q) = .ok vs ∧ vs.map (fun v => List.ofFn v) = l := by
  induction l with
  | nil => exact ⟨[], rfl, rfl⟩
  | cons r t ih =>
    obtain ⟨vs, h1, h2⟩ := ih fun s hs => h s (by simp [hs])
    have hr := h r (by simp)
    have ha : asVec q r = .ok fun i => r[i.val]'(hr ▸ i.isLt) := by
      unfold asVec; rw [dif_pos hr]
    refine ⟨(fun i => r[i.val]'(hr ▸ i.isLt)) :: vs, ?_, ?_⟩
    · rw [List.mapM_cons, ha, h1]; rfl
    · rw [List.map_cons, h2]
      congr 1
      apply List.ext_getElem
      · simp [hr]
      · intro i h3 h4
        simp

theorem mapM_asVec_error (q : ℕ) (l : List (List K)) (h : ∃ r ∈ l, r.length ≠ q) : l.mapM (asVec q) = .error .valueError := by
  induction l with
  | nil => obtain ⟨r, hr, _⟩ := h; cases hr
  | cons r t ih =>
    rw [List.mapM_cons]
    by_cases hr : r.length = q
    · have ha : asVec q r = .ok fun i => r[i.val]'(hr ▸ i.isLt) := by
        unfold asVec; rw [dif_pos hr]
      have ht : ∃ s ∈ t, s.length ≠ q := by
        obtain ⟨s, hs, hne⟩ := h
        rcases List.mem_cons.mp hs with rfl | hs
        · exact absurd hr hne
        · exact ⟨s, hs, hne⟩
      rw [ha, ih ht]; rfl
    · have ha : asVec q r = .error .valueError := by
        unfold asVec; rw [dif_neg hr]
      rw [ha]; rfl

/-- C77: `train` and `test` raise the same exception for the same shapes, and then change nothing at all. -/
theorem C77_rejected (n : Net K nin m p) (rand : List ℕ) (x : List (List K)) (d : NArr K)
    (epochs : ℕ) (shuffle : Bool) (e : Err) (h : mlpCheck nin p x d = .error e) :
    n.train rand x d epochs shuffle = (.error e, n) ∧ n.test x d = (.error e, n) := by
  unfold Net.train Net.test
  rw [h]
  exact ⟨rfl, rfl⟩

/-- C77: the lengths of `x` and `d` disagree: `ValueError`; no samples at all: `IndexError`. -/
theorem C77_lengths (x : List (List K)) (d : NArr K) :
    (d.len ≠ x.length → mlpCheck nin p x d = .error .valueError) ∧
    (d.len = 0 → x = [] → mlpCheck nin p x d = .error .indexError) := by
  refine ⟨fun h => ?_, fun h1 h2 => ?_⟩
  · unfold mlpCheck; rw [if_pos h]
  · subst h2
    unfold mlpCheck
    rw [if_neg (by simpa using h1)]

/-- C77: some row of `x` does not have `n_input` entries: `ValueError` (if `d` has the right shape). -/
theorem C77_width (x : List (List K)) (d : NArr K) (hl : d.len = x.length) (h : ∃ r ∈ x, r.length ≠ nin) {rows : List (List K)}
    (hd : targetRows p d = .ok rows) : mlpCheck nin p x d = .error .valueError := by
  unfold mlpCheck
  rw [if_neg (not_not.mpr hl)]
  rcases x with _ | ⟨x0, t⟩
  · obtain ⟨r, hr, _⟩ := h; cases hr
  · dsimp only
    split
    · rfl
    · rw [hd, mapM_asVec_error nin (x0 :: t) h]

/-- C77: one output and a 2-d target, or a target with a wrong number of columns: `ValueError`;
several outputs and a 1-d target: `IndexError` (not `ValueError`). -/
theorem C77_target (x : List (List K)) (d : NArr K) (hl : d.len = x.length) (hx : ∀ r ∈ x, r.length = nin) (hne : x ≠ []) :
    (∀ cols rows, d = .two cols rows → p = 1 ∨ cols ≠ p → mlpCheck nin p x d = .error .valueError) ∧
    (∀ l, d = .one l → p ≠ 1 → mlpCheck nin p x d = .error .indexError) := by
  obtain ⟨x0, t, rfl⟩ := List.exists_cons_of_ne_nil hne
  have h0 : x0.length = nin := hx x0 (by simp)
  refine ⟨fun cols rows h hp => ?_, fun l h hp => ?_⟩
  · subst h
    unfold mlpCheck
    rw [if_neg (not_not.mpr hl)]
    dsimp only
    rw [if_neg (not_not.mpr h0)]
    have : targetRows p (.two cols rows) = .error .valueError := by
      unfold targetRows
      rcases hp with hp | hp
      · simp [hp]
      · by_cases h1 : p = 1
        · simp [h1]
        · simp [h1, hp]
    rw [this]
  · subst h
    unfold mlpCheck
    rw [if_neg (not_not.mpr hl)]
    dsimp only
    rw [if_neg (not_not.mpr h0)]
    have : targetRows p (.one l) = .error .indexError := by
      simp [targetRows, hp]
    rw [this]

/-- C77: everything else is accepted: at least one sample, rows of `x` of length `n_input`, and a target that is 1-d for one output, or has
one column per output. The samples are the rows of `x` with their targets. -/
theorem C77_accepted (x : List (List K)) (d : NArr K) (rows : List (List K)) (hl : d.len = x.length) (hx : ∀ r ∈ x, r.length = nin) (hne : x ≠ [])
    (hd : (p = 1 ∧ ∃ l, d = .one l ∧ rows = l.map fun a => [a]) ∨ (p ≠ 1 ∧ d = .two p rows ∧ ∀ r ∈ rows, r.length = p)) :
    ∃ data : List (Vec K nin × Vec K p), mlpCheck nin p x d = .ok data ∧
      data.map (fun q => List.ofFn q.1) = x ∧ data.map (fun q => List.ofFn q.2) = rows := by
  obtain ⟨x0, t, rfl⟩ := List.exists_cons_of_ne_nil hne
  have h0 : x0.length = nin := hx x0 (by simp)
  have hrows : targetRows p d = .ok rows ∧ (∀ r ∈ rows, r.length = p) ∧ rows.length = (x0 :: t).length := by
    rcases hd with ⟨hp, l, rfl, rfl⟩ | ⟨hp, rfl, hr⟩
    · refine ⟨by simp [targetRows, hp], ?_, ?_⟩
      · intro r hr
        obtain ⟨a, _, rfl⟩ := List.mem_map.mp hr
        rw [hp]; rfl
      · simpa [NArr.len] using hl
    · refine ⟨by simp [targetRows, hp], hr, ?_⟩
      simpa [NArr.len] using hl
  obtain ⟨h1, h2, h3⟩ := hrows
  obtain ⟨xs, hx1, hx2⟩ := mapM_asVec_ok nin (x0 :: t) hx
  obtain ⟨ds, hd1, hd2⟩ := mapM_asVec_ok p rows h2
  have hlen : xs.length = ds.length := by
    have a := congrArg List.length hx2
    have b := congrArg List.length hd2
    simp only [List.length_map] at a b
    omega
  refine ⟨xs.zip ds, ?_, ?_, ?_⟩
  · unfold mlpCheck
    rw [if_neg (not_not.mpr hl)]
    dsimp only
    rw [if_neg (not_not.mpr h0), h1]
    dsimp only
    rw [hx1, hd1]
  · have : (xs.zip ds).map (fun q => List.ofFn q.1) = ((xs.zip ds).map Prod.fst).map (fun v => List.ofFn v) := by
      rw [List.map_map]; rfl
    rw [this, List.map_fst_zip (by omega), hx2]
  · have : (xs.zip ds).map (fun q => List.ofFn q.2) = ((xs.zip ds).map Prod.snd).map (fun v => List.ofFn v) := by
      rw [List.map_map]; rfl
    rw [this, List.map_snd_zip (by omega), hd2]

/-! ## C72 -/

theorem epoch_length (n : Net K nin m p) (l : List (Vec K nin × Vec K p)) : (n.epoch l).2.length = l.length := by
  induction l generalizing n with
  | nil => rfl
  | cons q t ih =>
    obtain ⟨x, d⟩ := q
    show (_ :: (((n.predictV x).1.update d).1.epoch t).2).length = _
    rw [List.length_cons, ih, List.length_cons]

theorem epoch_append (n : Net K nin m p) (a b : List (Vec K nin × Vec K p)) :
    n.epoch (a ++ b) = (((n.epoch a).1.epoch b).1, (n.epoch a).2 ++ ((n.epoch a).1.epoch b).2) := by
  induction a generalizing n with
  | nil => rfl
  | cons q t ih =>
    obtain ⟨x, d⟩ := q
    have h := ih ((n.predictV x).1.update d).1
    show ((((n.predictV x).1.update d).1.epoch (t ++ b)).1, _ :: (((n.predictV x).1.update d).1.epoch (t ++ b)).2) = _
    rw [h]
    rfl

theorem trainLoop_flat (n : Net K nin m p) (data : List (Vec K nin × Vec K p)) (k : ℕ) :
    (n.trainLoop data k).1 = (n.epoch (List.replicate k data).flatten).1 ∧
    (n.trainLoop data k).2.1 = (n.epoch (List.replicate k data).flatten).2 := by
  induction k generalizing n with
  | zero => exact ⟨rfl, rfl⟩
  | succ k ih =>
    obtain ⟨h1, h2⟩ := ih (n.epoch data).1
    rw [List.replicate_succ, List.flatten_cons, epoch_append]
    refine ⟨h1, ?_⟩
    show (n.epoch data).2 ++ ((n.epoch data).1.trainLoop data k).2.1 = _
    rw [h2]

theorem flatten_replicate_get {α : Type} (l : List α) (k i : ℕ) (hi : i < k * l.length) :
    (List.replicate k l).flatten[i]? = l[i % l.length]? := by
  induction k generalizing i with
  | zero => simp at hi
  | succ k ih =>
    rw [List.replicate_succ, List.flatten_cons]
    by_cases h : i < l.length
    · rw [List.getElem?_append_left h, Nat.mod_eq_of_lt h]
    · have h' : l.length ≤ i := not_lt.mp h
      rw [List.getElem?_append_right h', ih (i - l.length) (by rw [Nat.succ_mul] at hi; omega), Nat.mod_eq_sub_mod h']

theorem epoch_take (n : Net K nin m p) (l : List (Vec K nin × Vec K p)) (i : ℕ) (q : Vec K nin × Vec K p) (hq : l[i]? = some q) :
    (n.epoch (l.take (i + 1))).1 = ((((n.epoch (l.take i)).1.predictV q.1).1).update q.2).1 ∧
    (n.epoch l).2[i]? = some ((((n.epoch (l.take i)).1.predictV q.1).1).update q.2).2 := by
  have hi : i < l.length := by
    by_contra h
    rw [List.getElem?_eq_none (not_lt.mp h)] at hq
    cases hq
  have e1 : l.take (i + 1) = l.take i ++ [q] := by
    rw [List.take_add_one, hq]; rfl
  have e2 := epoch_append n (l.take i) [q]
  rw [← e1] at e2
  refine ⟨by rw [e2]; rfl, ?_⟩
  have e3 := epoch_append n (l.take (i + 1)) (l.drop (i + 1))
  rw [List.take_append_drop] at e3
  rw [e3, e2]
  dsimp only
  have hlen : (n.epoch (l.take i)).2.length = i := by rw [epoch_length, List.length_take]; omega
  rw [List.append_assoc, List.getElem?_append_right (by rw [hlen]), hlen, Nat.sub_self]
  rfl

/-- the specification of a training pass: `s k` is the network before the `k`-th sample of the pass; the sample used is number `k mod N` of
`data`, it is predicted and then updated on, and the returned error is the target minus that prediction. -/
structure TrainsOn (n : Net K nin m p) (data : List (Vec K nin × Vec K p)) (epochs : ℕ) (es : List (Vec K p)) (n' : Net K nin m p)
    (s : ℕ → Net K nin m p) : Prop where
  start : s 0 = n
  finish : s (epochs * data.length) = n'
  length : es.length = epochs * data.length
  step : ∀ k x d, k < epochs * data.length → data[k % data.length]? = some (x, d) →
    s (k + 1) = (((s k).predictV x).1.update d).1 ∧ es[k]? = some fun j => d j - ((s k).predictV x).2 j

theorem trainLoop_trainsOn (n : Net K nin m p) (data : List (Vec K nin × Vec K p)) (epochs : ℕ) :
    ∃ s, TrainsOn n data epochs (n.trainLoop data epochs).2.1 (n.trainLoop data epochs).1 s := by
  obtain ⟨h1, h2⟩ := trainLoop_flat n data epochs
  have hlen : (List.replicate epochs data).flatten.length = epochs * data.length := by simp
  refine ⟨fun k => (n.epoch ((List.replicate epochs data).flatten.take k)).1, ⟨rfl, ?_, ?_, ?_⟩⟩
  · rw [h1, List.take_of_length_le (by omega)]
  · rw [h2, epoch_length, hlen]
  · intro k x d hk hq
    obtain ⟨a, b⟩ := epoch_take n (List.replicate epochs data).flatten k (x, d) (by rw [flatten_replicate_get _ _ _ hk, hq])
    refine ⟨a, ?_⟩
    rw [h2, b]
    rfl

theorem takeRows_zip {α β : Type} (rand : List ℕ) (xs : List α) (ds : List β) (h : xs.length = ds.length) :
    takeRows rand (xs.zip ds) = (takeRows rand xs).zip (takeRows rand ds) := by
  unfold takeRows
  induction rand with
  | nil => rfl
  | cons i t ih =>
    by_cases hi : i < xs.length
    · have hi' : i < ds.length := by omega
      have hz : i < (xs.zip ds).length := by rw [List.length_zip]; omega
      rw [List.filterMap_cons_some (List.getElem?_eq_getElem hz), List.filterMap_cons_some (List.getElem?_eq_getElem hi),
        List.filterMap_cons_some (List.getElem?_eq_getElem hi'), List.zip_cons_cons, ih, List.getElem_zip]
    · have hi' : ¬ i < ds.length := by omega
      have hz : ¬ i < (xs.zip ds).length := by rw [List.length_zip]; omega
      rw [List.filterMap_cons_none (List.getElem?_eq_none (not_lt.mp hz)), List.filterMap_cons_none (List.getElem?_eq_none (not_lt.mp hi)),
        List.filterMap_cons_none (List.getElem?_eq_none (not_lt.mp hi')), ih]

theorem takeRows_range {α : Type} (l : List α) : takeRows (List.range l.length) l = l := by
  unfold takeRows
  induction l using List.reverseRecOn with
  | nil => rfl
  | append_singleton l a ih =>
    rw [List.length_append, List.length_singleton, List.range_succ, List.filterMap_append]
    have h1 : (List.range l.length).filterMap (fun i => (l ++ [a])[i]?) = l := by
      refine Eq.trans ?_ ih
      apply List.filterMap_congr
      intro i hi
      rw [List.getElem?_append_left (List.mem_range.mp hi)]
    rw [h1]
    simp

theorem takeRows_perm {α : Type} (rand : List ℕ) (l : List α) (h : rand.Perm (List.range l.length)) : (takeRows rand l).Perm l := by
  have h1 : (takeRows rand l).Perm (takeRows (List.range l.length) l) := h.filterMap _
  rwa [takeRows_range] at h1

/-- C72: `train` on accepted data runs `epochs` passes; every pass visits the samples in the same order, which is a permutation of the samples
(the given order without `shuffle`): with `shuffle=True` the order is drawn once and not again in every epoch. -/
theorem C72_train (n : Net K nin m p) (rand : List ℕ) (x : List (List K)) (d : NArr K) (epochs : ℕ) (shuffle : Bool)
    {data : List (Vec K nin × Vec K p)} (hc : mlpCheck nin p x d = .ok data) (hr : rand.Perm (List.range data.length)) :
    ∃ order es ms n' s, n.train rand x d epochs shuffle = (.ok (es, ms), n') ∧ order.Perm data ∧ (shuffle = false → order = data) ∧
      TrainsOn n order epochs es n' s := by
  obtain ⟨s, hs⟩ := trainLoop_trainsOn n (if shuffle then takeRows rand data else data) epochs
  refine ⟨if shuffle then takeRows rand data else data, _, (n.trainLoop (if shuffle then takeRows rand data else data) epochs).2.2, _, s, ?_, ?_,
    ?_, hs⟩
  · unfold Net.train
    rw [hc]
  · cases shuffle
    · exact List.Perm.refl _
    · exact takeRows_perm rand data hr
  · intro h
    rw [h]; rfl

theorem trainLoop_add (n : Net K nin m p) (data : List (Vec K nin × Vec K p)) (a b : ℕ) :
    n.trainLoop data (a + b) = (((n.trainLoop data a).1.trainLoop data b).1,
      (n.trainLoop data a).2.1 ++ ((n.trainLoop data a).1.trainLoop data b).2.1,
      (n.trainLoop data a).2.2 ++ ((n.trainLoop data a).1.trainLoop data b).2.2) := by
  induction a generalizing n with
  | zero => rw [Nat.zero_add]; rfl
  | succ a ih =>
    have h := ih (n.epoch data).1
    rw [show a + 1 + b = (a + b) + 1 by omega]
    show (((n.epoch data).1.trainLoop data (a + b)).1, (n.epoch data).2 ++ ((n.epoch data).1.trainLoop data (a + b)).2.1,
      epochMse (n.epoch data).2 :: ((n.epoch data).1.trainLoop data (a + b)).2.2) = _
    rw [h]
    show _ = (_, ((n.epoch data).2 ++ ((n.epoch data).1.trainLoop data a).2.1) ++ _, _)
    rw [List.append_assoc]
    rfl

/-- C72: training for `a + b` epochs is training for `a` epochs and then for `b` epochs (without `shuffle`): errors and MSE are concatenated and
the final weights agree. -/
theorem C72_epochs_add (n : Net K nin m p) (rand : List ℕ) (x : List (List K)) (d : NArr K) (a b : ℕ) {es1 es2 : List (Vec K p)} {ms1 ms2 : List K}
    {n1 n2 : Net K nin m p} (h1 : n.train rand x d a false = (.ok (es1, ms1), n1)) (h2 : n1.train rand x d b false = (.ok (es2, ms2), n2)) :
    n.train rand x d (a + b) false = (.ok (es1 ++ es2, ms1 ++ ms2), n2) := by
  unfold Net.train at h1 h2 ⊢
  rcases hc : mlpCheck nin p x d with e | data
  · rw [hc] at h1; cases h1
  · rw [hc] at h1 h2
    cases h1
    cases h2
    show (Except.ok ((n.trainLoop data (a + b)).2.1, (n.trainLoop data (a + b)).2.2), (n.trainLoop data (a + b)).1) = _
    rw [trainLoop_add]
    rfl

/-- `d[randomize]` -/
def NArr.takeRows (rand : List ℕ) : NArr K → NArr K
  | .one l => .one (Padasip.takeRows rand l)
  | .two c r => .two c (Padasip.takeRows rand r)

theorem takeRows_map {α β : Type} (f : α → β) (rand : List ℕ) (l : List α) : takeRows rand (l.map f) = (takeRows rand l).map f := by
  unfold takeRows
  rw [List.map_filterMap]
  apply List.filterMap_congr
  intro i _
  rw [List.getElem?_map]

theorem ofFn_pair_inj (a b : List (Vec K nin × Vec K p)) (h1 : a.map (fun q => List.ofFn q.1) = b.map (fun q => List.ofFn q.1))
    (h2 : a.map (fun q => List.ofFn q.2) = b.map (fun q => List.ofFn q.2)) : a = b := by
  induction a generalizing b with
  | nil => cases b with
    | nil => rfl
    | cons _ _ => cases h1
  | cons q t ih => cases b with
    | nil => cases h1
    | cons r u =>
      rw [List.map_cons, List.map_cons] at h1 h2
      obtain ⟨a1, a2⟩ := List.cons.inj h1
      obtain ⟨b1, b2⟩ := List.cons.inj h2
      rw [ih u a2 b2]
      congr 1
      exact Prod.ext (List.ofFn_injective a1) (List.ofFn_injective b1)

/-- C77: `train` and `test` accept exactly these shapes. -/
theorem C77_accepted_iff (x : List (List K)) (d : NArr K) (data : List (Vec K nin × Vec K p)) : mlpCheck nin p x d = .ok data ↔
    x ≠ [] ∧ d.len = x.length ∧ (∀ r ∈ x, r.length = nin) ∧ data.map (fun q => List.ofFn q.1) = x ∧
      ((p = 1 ∧ ∃ l, d = .one l ∧ data.map (fun q => List.ofFn q.2) = l.map fun a => [a]) ∨
       (p ≠ 1 ∧ ∃ rows, d = .two p rows ∧ (∀ r ∈ rows, r.length = p) ∧ data.map (fun q => List.ofFn q.2) = rows)) := by
  constructor
  · intro h
    have hl : d.len = x.length := by
      by_contra hl
      rw [(C77_lengths x d).1 hl] at h; cases h
    have hne : x ≠ [] := by
      intro hx
      rw [(C77_lengths x d).2 (by rw [hl, hx]; rfl) hx] at h; cases h
    obtain ⟨rows, hrows⟩ : ∃ rows, targetRows p d = .ok rows := by
      rcases hr : targetRows p d with e | rows
      · unfold mlpCheck at h
        rw [if_neg (not_not.mpr hl)] at h
        rcases x with _ | ⟨x0, t⟩
        · exact absurd rfl hne
        · dsimp only at h
          split at h
          · cases h
          · rw [hr] at h; cases h
      · exact ⟨rows, rfl⟩
    have hx : ∀ r ∈ x, r.length = nin := by
      by_contra hx
      push Not at hx
      rw [C77_width x d hl hx hrows] at h; cases h
    have hd : (p = 1 ∧ ∃ l, d = .one l ∧ rows = l.map fun a => [a]) ∨ (p ≠ 1 ∧ d = .two p rows ∧ ∀ r ∈ rows, r.length = p) := by
      rcases d with l | ⟨c, rs⟩
      · by_cases hp : p = 1
        · simp [targetRows, hp] at hrows
          exact Or.inl ⟨hp, l, rfl, hrows.symm⟩
        · simp [targetRows, hp] at hrows
      · by_cases hp : p = 1
        · simp [targetRows, hp] at hrows
        · by_cases hcp : c = p
          · simp [targetRows, hp, hcp] at hrows
            subst hcp
            subst hrows
            refine Or.inr ⟨hp, rfl, ?_⟩
            by_contra hrr
            push Not at hrr
            unfold mlpCheck at h
            rw [if_neg (not_not.mpr hl)] at h
            obtain ⟨x0, t, rfl⟩ := List.exists_cons_of_ne_nil hne
            dsimp only at h
            rw [if_neg (not_not.mpr (hx x0 (by simp)))] at h
            simp only [targetRows, hp, if_true, if_false] at h
            rw [mapM_asVec_error _ _ hrr] at h
            split at h <;> simp_all
          · simp [targetRows, hp, hcp] at hrows
    obtain ⟨data', a, b, c⟩ := C77_accepted x d rows hl hx hne hd
    rw [a] at h
    cases h
    refine ⟨hne, hl, hx, b, ?_⟩
    rcases hd with ⟨hp, l, e1, e2⟩ | ⟨hp, e1, e2⟩
    · exact Or.inl ⟨hp, l, e1, c.trans e2⟩
    · exact Or.inr ⟨hp, rows, e1, e2, c⟩
  · rintro ⟨hne, hl, hx, b, hd⟩
    rcases hd with ⟨hp, l, e1, e2⟩ | ⟨hp, rows, e1, e2, c⟩
    · obtain ⟨data', a', b', c'⟩ := C77_accepted x d _ hl hx hne (Or.inl ⟨hp, l, e1, rfl⟩)
      rw [a', ofFn_pair_inj data' data (b'.trans b.symm) (c'.trans e2.symm)]
    · obtain ⟨data', a', b', c'⟩ := C77_accepted x d _ hl hx hne (Or.inr ⟨hp, e1, e2⟩)
      rw [a', ofFn_pair_inj data' data (b'.trans b.symm) (c'.trans c.symm)]

/-- C72: `train(x, d, shuffle=True)` is exactly `train(x[r], d[r], shuffle=False)` for the one drawn order `r`. -/
theorem C72_shuffle (n : Net K nin m p) (rand rand' : List ℕ) (x : List (List K)) (d : NArr K) (epochs : ℕ)
    {data : List (Vec K nin × Vec K p)} (hc : mlpCheck nin p x d = .ok data) (hr : rand.Perm (List.range x.length)) :
    n.train rand x d epochs true = n.train rand' (takeRows rand x) (d.takeRows rand) epochs false := by
  have hc' : mlpCheck nin p (takeRows rand x) (d.takeRows rand) = .ok (takeRows rand data) := by
    obtain ⟨hne, hl, hx, hb, hd⟩ := (C77_accepted_iff x d data).mp hc
    have hp := takeRows_perm rand x hr
    rw [C77_accepted_iff]
    refine ⟨?_, ?_, ?_, ?_, ?_⟩
    · intro h; rw [h] at hp; exact hne hp.symm.eq_nil
    · rcases d with l | ⟨c, rows⟩
      · have : l.length = x.length := hl
        have h2 := takeRows_perm rand l (by rw [this]; exact hr)
        show (takeRows rand l).length = _
        rw [h2.length_eq, hp.length_eq, this]
      · have : rows.length = x.length := hl
        have h2 := takeRows_perm rand rows (by rw [this]; exact hr)
        show (takeRows rand rows).length = _
        rw [h2.length_eq, hp.length_eq, this]
    · intro r h
      exact hx r (hp.mem_iff.mp h)
    · rw [← takeRows_map, hb]
    · rcases hd with ⟨h1, l, rfl, e2⟩ | ⟨h1, rows, rfl, e2, e3⟩
      · refine Or.inl ⟨h1, takeRows rand l, rfl, ?_⟩
        rw [← takeRows_map, e2, takeRows_map]
      · refine Or.inr ⟨h1, takeRows rand rows, rfl, ?_, ?_⟩
        · intro r h
          have h2 := takeRows_perm rand rows (by rw [show rows.length = x.length from hl]; exact hr)
          exact e2 r (h2.mem_iff.mp h)
        · rw [← takeRows_map, e3]
  unfold Net.train
  rw [hc, hc']
  rfl

end structural


section real
open Finset
variable {nin m p : ℕ}

/-- squared length of an error -/
noncomputable def errSq (e : Vec ℝ p) : ℝ := ∑ k, e k ^ 2

theorem epochMse_real (es : List (Vec ℝ p)) : epochMse es = (es.dropLast.map errSq).sum / es.length := by
  unfold epochMse
  have h : (fun e : Vec ℝ p => @vsum ℝ realTransc.toScalar p fun k => e k * e k) = errSq := by
    funext e
    refine (vsum_eq (K := ℝ) fun k => e k * e k).trans ?_
    unfold errSq
    exact sum_congr rfl fun k _ => by ring
  show (es.dropLast.map (fun e : Vec ℝ p => @vsum ℝ realTransc.toScalar p fun k => e k * e k)).sum / (es.length : ℝ) = _
  rw [h]

theorem trainLoop_mse (n : Net ℝ nin m p) (data : List (Vec ℝ nin × Vec ℝ p)) (epochs : ℕ) :
    (n.trainLoop data epochs).2.2.length = epochs ∧
    ∀ ep, ep < epochs → (n.trainLoop data epochs).2.2[ep]? = some (epochMse (((n.trainLoop data epochs).2.1.drop (ep * data.length)).take data.length)) := by
  induction epochs generalizing n with
  | zero => exact ⟨rfl, fun ep h => by omega⟩
  | succ k ih =>
    obtain ⟨h1, h2⟩ := ih (n.epoch data).1
    refine ⟨by show (_ :: ((n.epoch data).1.trainLoop data k).2.2).length = _; rw [List.length_cons, h1], fun ep hep => ?_⟩
    show (epochMse (n.epoch data).2 :: ((n.epoch data).1.trainLoop data k).2.2)[ep]? =
      some (epochMse ((((n.epoch data).2 ++ ((n.epoch data).1.trainLoop data k).2.1).drop (ep * data.length)).take data.length))
    have hl := epoch_length n data
    rcases ep with _ | ep
    · rw [Nat.zero_mul, List.drop_zero, List.take_append_of_le_length (by omega), List.take_of_length_le (by omega)]
      rfl
    · rw [List.getElem?_cons_succ, h2 ep (by omega), List.drop_append, List.drop_eq_nil_of_le (as := (n.epoch data).2) (by rw [hl, Nat.succ_mul]; omega), List.nil_append, hl,
        show (ep + 1) * data.length - data.length = ep * data.length by rw [Nat.succ_mul]; omega]

/-- C71: the reported `MSE[epoch]` is the sum of the squared errors of all samples of the epoch **but the last one**, divided by the number
of samples. -/
theorem C71_mse (n : Net ℝ nin m p) (rand : List ℕ) (x : List (List ℝ)) (d : NArr ℝ) (epochs : ℕ) (shuffle : Bool)
    (hr : rand.Perm (List.range x.length)) {es : List (Vec ℝ p)} {ms : List ℝ} {n' : Net ℝ nin m p}
    (h : n.train rand x d epochs shuffle = (.ok (es, ms), n')) :
    es.length = epochs * x.length ∧ ms.length = epochs ∧
    ∀ ep, ep < epochs → ms[ep]? = some ((∑ i ∈ range (x.length - 1), errSq (es.getD (ep * x.length + i) 0)) / x.length) := by
  unfold Net.train at h
  rcases hc : mlpCheck nin p x d with e | data
  · rw [hc] at h; cases h
  · rw [hc] at h
    cases h
    have hdl : data.length = x.length := by
      obtain ⟨_, _, _, hb, _⟩ := (C77_accepted_iff x d data).mp hc
      rw [← hb, List.length_map]
    have hdl' : (if shuffle then takeRows rand data else data).length = x.length := by
      cases shuffle
      · exact hdl
      · exact (takeRows_perm rand data (by rw [hdl]; exact hr)).length_eq.trans hdl
    generalize hg : (if shuffle then takeRows rand data else data) = D at *
    obtain ⟨s, hs⟩ := trainLoop_trainsOn n D epochs
    obtain ⟨h1, h2⟩ := trainLoop_mse n D epochs
    have hlen := hs.length
    rw [hdl'] at hlen
    refine ⟨hlen, h1, fun ep hep => ?_⟩
    refine (h2 ep hep).trans ?_
    rw [hdl']
    generalize (n.trainLoop D epochs).2.1 = E at *
    have hbig : ep * x.length + x.length ≤ epochs * x.length := by
      have := Nat.mul_le_mul_right x.length (show ep + 1 ≤ epochs from hep)
      rwa [Nat.succ_mul] at this
    have hL : ((E.drop (ep * x.length)).take x.length).length = x.length := by
      rw [List.length_take, List.length_drop]; omega
    rw [epochMse_real, hL]
    congr 2
    have hL2 : (((E.drop (ep * x.length)).take x.length).dropLast.map errSq).length = x.length - 1 := by
      rw [List.length_map, List.length_dropLast, hL]
    rw [← hL2, ← Fin.sum_univ_getElem, Finset.sum_range]
    refine Fintype.sum_congr _ _ fun i => ?_
    have hi : i.val < x.length - 1 := hL2 ▸ i.isLt
    have hi2 : ep * x.length + i.val < E.length := by omega
    rw [List.getElem_map]
    rw [List.getD_eq_getElem?_getD, List.getElem?_eq_getElem hi2, Option.getD_some]
    congr 1
    rw [List.getElem_dropLast, List.getElem_take, List.getElem_drop]

/-- C71: hence it is the mean of the squared errors exactly when the error of the last sample of the epoch is zero; otherwise it is smaller. -/
theorem C71_mean_iff (n : Net ℝ nin m p) (rand : List ℕ) (x : List (List ℝ)) (d : NArr ℝ) (epochs : ℕ) (shuffle : Bool)
    (hr : rand.Perm (List.range x.length)) {es : List (Vec ℝ p)} {ms : List ℝ} {n' : Net ℝ nin m p}
    (h : n.train rand x d epochs shuffle = (.ok (es, ms), n')) (ep : ℕ) (hep : ep < epochs) :
    ∃ mse, ms[ep]? = some mse ∧ mse ≤ (∑ i ∈ range x.length, errSq (es.getD (ep * x.length + i) 0)) / x.length ∧
      (mse = (∑ i ∈ range x.length, errSq (es.getD (ep * x.length + i) 0)) / x.length ↔
        ∀ k, es.getD (ep * x.length + (x.length - 1)) 0 k = 0) := by
  obtain ⟨_, _, h3⟩ := C71_mse n rand x d epochs shuffle hr h
  have hne : x.length ≠ 0 := by
    intro h0
    have hx : x = [] := List.length_eq_zero_iff.mp h0
    subst hx
    unfold Net.train mlpCheck at h
    split at h
    · cases h
    · rename_i hh
      split at hh
      · cases hh
      · cases hh
  obtain ⟨N, hN⟩ := Nat.exists_eq_succ_of_ne_zero hne
  refine ⟨_, h3 ep hep, ?_, ?_⟩
  · rw [hN]
    apply div_le_div_of_nonneg_right _ (Nat.cast_nonneg _)
    rw [Nat.succ_sub_one, sum_range_succ]
    exact le_add_of_nonneg_right (sum_nonneg fun _ _ => sq_nonneg _)
  · rw [hN, Nat.succ_sub_one, sum_range_succ, div_left_inj' (by exact_mod_cast Nat.succ_ne_zero N)]
    rw [left_eq_add]
    unfold errSq
    rw [sum_eq_zero_iff_of_nonneg fun _ _ => sq_nonneg _]
    simp

/-- the hypotheses of C71/C72/C76/C77 are met by concrete data: a network with two inputs, three nodes, one output; two samples -/
example : ∃ (n : Net ℝ 2 3 1) (es : List (Vec ℝ 1)) (ms : List ℝ) (n' : Net ℝ 2 3 1),
    [1, 0].Perm (List.range 2) ∧ n.train [1, 0] [[1, 2], [3, 4]] (.one [5, 6]) 3 true = (.ok (es, ms), n') := by
  obtain ⟨data, h, _, _⟩ := C77_accepted (nin := 2) (p := 1) [[(1 : ℝ), 2], [3, 4]] (.one [5, 6]) [[5], [6]] rfl (by simp) (by simp)
    (Or.inl ⟨rfl, [5, 6], rfl, rfl⟩)
  obtain ⟨_, es, ms, n', _, h', _⟩ := C72_train (mkNet (.one (mkLayer (fun _ _ => 1) .tanh 1)) (fun _ _ => 1) 1 : Net ℝ 2 3 1) [1, 0] _ _ 3 true h
    (by
      obtain ⟨_, _, _, hb, _⟩ := (C77_accepted_iff _ _ data).mp h
      have := congrArg List.length hb
      rw [List.length_map] at this
      rw [this]; decide)
  exact ⟨_, es, ms, n', by decide, h'⟩

/-- and with two outputs -/
example : ∃ data : List (Vec ℝ 2 × Vec ℝ 2), mlpCheck 2 2 [[1, 2], [3, 4]] (.two 2 [[5, 6], [7, 8]]) = .ok data :=
  (C77_accepted (nin := 2) (p := 2) [[(1 : ℝ), 2], [3, 4]] (.two 2 [[5, 6], [7, 8]]) [[5, 6], [7, 8]] rfl (by simp) (by simp)
    (Or.inr ⟨by norm_num, rfl, by simp⟩)).imp fun _ h => h.1

end real

end Padasip
