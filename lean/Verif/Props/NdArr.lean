import Verif.Model.NdArr
import Verif.Spec.Example
import Verif.Model.Real
import Verif.Lemmas.Field

set_option linter.unusedSectionVars false
set_option linter.unusedSimpArgs false
set_option linter.unusedVariables false

/-!
# C146, C147: which shapes `predict` and `adapt` accept, and what they do with them
-/

namespace Padasip

variable {K : Type} {n : Nat}

/-! ## shapes -/

theorem bshapeRev_error {a b : List Nat} {e : Err} (h : bshapeRev a b = .error e) : e = .valueError := by
  induction a generalizing b with
  | nil => simp [bshapeRev] at h
  | cons x a ih =>
    cases b with
    | nil => simp [bshapeRev] at h
    | cons y b =>
      unfold bshapeRev at h
      split at h
      · cases hr : bshapeRev a b with
        | ok s => rw [hr] at h; cases h
        | error e' => rw [hr] at h; cases h; exact ih hr
      · split at h
        · cases hr : bshapeRev a b with
          | ok s => rw [hr] at h; cases h
          | error e' => rw [hr] at h; cases h; exact ih hr
        · cases h; rfl

theorem bshapeRev_length {a b s : List Nat} (h : bshapeRev a b = .ok s) : s.length = max a.length b.length := by
  induction a generalizing b s with
  | nil => simp only [bshapeRev] at h; cases h; simp
  | cons x a ih =>
    cases b with
    | nil => simp only [bshapeRev] at h; cases h; simp
    | cons y b =>
      unfold bshapeRev at h
      split at h
      · cases hr : bshapeRev a b with
        | ok t => rw [hr] at h; cases h; simp [ih hr, Nat.succ_max_succ]
        | error e' => rw [hr] at h; cases h
      · split at h
        · cases hr : bshapeRev a b with
          | ok t => rw [hr] at h; cases h; simp [ih hr, Nat.succ_max_succ]
          | error e' => rw [hr] at h; cases h
        · cases h

theorem bshape_error {a b : List Nat} {e : Err} (h : bshape a b = .error e) : e = .valueError := by
  unfold bshape at h
  cases hr : bshapeRev a.reverse b.reverse with
  | ok s => rw [hr] at h; cases h
  | error e' => rw [hr] at h; cases h; exact bshapeRev_error hr

theorem bshape_length {a b s : List Nat} (h : bshape a b = .ok s) : s.length = max a.length b.length := by
  unfold bshape at h
  cases hr : bshapeRev a.reverse b.reverse with
  | ok t => rw [hr] at h; cases h; simpa using bshapeRev_length hr
  | error e' => rw [hr] at h; cases h

theorem bshape_nil (b : List Nat) : bshape [] b = .ok b := by
  simp [bshape, bshapeRev, Except.map]

theorem bshape_nil' (a : List Nat) : bshape a [] = .ok a := by
  unfold bshape
  cases h : a.reverse with
  | nil => simp [bshapeRev, Except.map, List.reverse_eq_nil_iff.1 h]
  | cons x t =>
    rw [List.reverse_eq_iff] at h
    simp [bshapeRev, Except.map, h]

theorem bshape_one (a b : Nat) : bshape [a] [b] = if a = b ∨ b = 1 then .ok [a] else if a = 1 then .ok [b] else .error .valueError := by
  unfold bshape
  simp only [List.reverse_singleton, bshapeRev]
  split
  · rfl
  · split <;> rfl

/-- the results of `zip` -/
theorem zip_cases (f : K → K → K) (a b : Arr K) :
    (∃ c, a.zip f b = .ok c ∧ bshape a.shape b.shape = .ok c.shape) ∨ a.zip f b = .error .valueError := by
  unfold Arr.zip
  cases h : bshape a.shape b.shape with
  | ok s => exact .inl ⟨_, rfl, rfl⟩
  | error e => exact .inr (by rw [bshape_error h]; rfl)

theorem zip_ok {f : K → K → K} {a b : Arr K} {s : List Nat} (h : bshape a.shape b.shape = .ok s) :
    a.zip f b = .ok ⟨s, fun idx => f (a.entry (bidx a.shape idx)) (b.entry (bidx b.shape idx))⟩ := by
  unfold Arr.zip; rw [h]; rfl

theorem dot_cases [Scalar K] (a b : Arr K) : (∃ c, a.dot b = .ok c) ∨ a.dot b = .error .valueError := by
  unfold Arr.dot
  split
  · rcases zip_cases (· * ·) a b with ⟨c, h, _⟩ | h
    · exact .inl ⟨c, h⟩
    · exact .inr h
  · rcases zip_cases (· * ·) a b with ⟨c, h, _⟩ | h
    · exact .inl ⟨c, h⟩
    · exact .inr h
  · split
    · exact .inl ⟨_, rfl⟩
    · exact .inr rfl
  · split
    · exact .inl ⟨_, rfl⟩
    · exact .inr rfl

theorem dot_num [Scalar K] {a b : Arr K} (h : a.shape = [] ∨ b.shape = []) : a.dot b = a.zip (· * ·) b := by
  unfold Arr.dot
  rcases h with h | h
  · rw [h]; rfl
  · rw [h]
    split
    · rfl
    · rfl
    · rename_i h2; simp at h2
    · rename_i h2; simp at h2

theorem dot_vec [Scalar K] {a b : Arr K} {m m' : Nat} (ha : a.shape = [m]) (hb : b.shape = [m']) :
    a.dot b = if m = m' then
      .ok ⟨[], fun idx => (List.ofFn fun k : Fin m => a.entry (idx ++ [k.val]) * b.entry [k.val]).sum⟩ else .error .valueError := by
  unfold Arr.dot
  rw [ha, hb]; rfl

theorem dot_big [Scalar K] {a b : Arr K} {m c m' : Nat} {sb : List Nat} (ha : a.shape = [m]) (hb : b.shape = sb ++ [m', c]) :
    a.dot b = if m = m' then
      .ok ⟨sb ++ [c], fun idx => (List.ofFn fun k : Fin m =>
        a.entry [k.val] * b.entry (idx.dropLast ++ [k.val] ++ idx.getLast?.toList)).sum⟩ else .error .valueError := by
  unfold Arr.dot
  rw [ha, hb]
  simp

theorem bidx_self {i : Nat} (h : i < n) : bidx [n] [i] = [i] := by
  unfold bidx
  by_cases h1 : n = 1
  · subst h1; simp [show i = 0 by omega]
  · simp [h1]

theorem bidx_nil (idx : List Nat) : bidx [] idx = [] := rfl

theorem iadd_eq [Scalar K] (w : Vec K n) (dw : Arr K) :
    iadd w dw = if dw.shape = [] ∨ dw.shape = [1] ∨ dw.shape = [n] then .ok fun i => w i + dw.entry (bidx dw.shape [i.val])
      else .error .valueError := by
  unfold iadd
  rcases hs : dw.shape with _ | ⟨a, _ | ⟨b, t⟩⟩
  · rw [bshape_nil']; simp [bind, Except.bind]
  · rw [bshape_one]
    by_cases h1 : n = a ∨ a = 1
    · have : a = 1 ∨ a = n := by omega
      simp [h1, bind, Except.bind, this]
    · have h2 : ¬ (a = 1 ∨ a = n) := by omega
      by_cases h3 : n = 1
      · have h4 : a ≠ 1 := by omega
        simp [h3, bind, Except.bind, h4, Ne.symm h4]
      · simp [h1, h3, h2, bind, Except.bind]
  · cases hb : bshape [n] (a :: b :: t) with
    | error e => rw [bshape_error hb]; simp [bind, Except.bind]
    | ok s =>
      have hl := bshape_length hb
      have hne : s ≠ [n] := by
        intro h0; rw [h0] at hl; simp at hl
      simp [bind, Except.bind, hne]

/-! ## the rules -/

/-- one component of the increment of the class: input entry, squared norm of the input, error entry -/
def compNd [Transc K] (solve : Solver K) : (p : Elem) → Core K n (classOf (n := n) solve p.kind).Ext → K → K → K → K
  | .lms => fun s a _ e => s.mu * a * e
  | .lmf => fun s a _ e => s.mu * a * (e * e * e)
  | .sslms => fun s a _ e => s.mu * Scalar.sgn a * Scalar.sgn e
  | .nlms => fun (s : Core K n (EpsExt K)) a q e => s.mu / (s.ext.eps + q) * a * e
  | .nlmf => fun (s : Core K n (EpsExt K)) a q e => s.mu / (s.ext.eps + q) * a * (e * e * e)
  | .nsslms => fun (s : Core K n (EpsExt K)) a q e => s.mu / (s.ext.eps + q) * Scalar.sgn a * Scalar.sgn e
  | .gmcc => fun (s : Core K n (GmccExt K)) a _ e => s.mu * s.ext.lambd * s.ext.alpha *
      Transc.exp (-s.ext.lambd * Transc.pow (Scalar.abs e) s.ext.alpha) *
      Transc.pow (Scalar.abs e) (s.ext.alpha - 1) * Scalar.sgn e * a
  | .llncosh => fun (s : Core K n (LlncoshExt K)) a _ e => s.mu * Transc.tanh (s.ext.lambd * e) * a

/-- the shape of the increment for an input that is a number or a vector -/
theorem rule_shape [Transc K] (solve : Solver K) (p : Elem) (s : Core K n (classOf (n := n) solve p.kind).Ext) (e x : Arr K)
    (q : Arr K) (hq : x.dot x = .ok q) (hqs : q.shape = []) :
    (∃ dw, ruleNd solve p s e x = .ok dw ∧ (bshape x.shape e.shape = .ok dw.shape ∨ bshape e.shape x.shape = .ok dw.shape) ∧
      ∀ idx, bidx x.shape (bidx x.shape idx) = bidx x.shape idx →
        dw.entry idx = compNd solve p s (x.entry (bidx x.shape idx)) (q.entry []) (e.entry (bidx e.shape idx))) ∨
    (ruleNd solve p s e x = .error .valueError ∧ ((∃ er, bshape x.shape e.shape = .error er) ∨ ∃ er, bshape e.shape x.shape = .error er)) := by
  have key1 (a b : Arr K) (F : K → K → K) (ha : a.shape = x.shape) (hb : b.shape = e.shape)
      (hF : ∀ idx, bidx x.shape (bidx x.shape idx) = bidx x.shape idx →
        a.entry (bidx x.shape idx) * b.entry (bidx e.shape idx) = F (x.entry (bidx x.shape idx)) (e.entry (bidx e.shape idx))) :
      (∃ dw, a.zip (· * ·) b = .ok dw ∧ (bshape x.shape e.shape = .ok dw.shape ∨ bshape e.shape x.shape = .ok dw.shape) ∧
        ∀ idx, bidx x.shape (bidx x.shape idx) = bidx x.shape idx →
          dw.entry idx = F (x.entry (bidx x.shape idx)) (e.entry (bidx e.shape idx))) ∨
      (a.zip (· * ·) b = .error .valueError ∧ ((∃ er, bshape x.shape e.shape = .error er) ∨ ∃ er, bshape e.shape x.shape = .error er)) := by
    unfold Arr.zip
    rw [ha, hb]
    cases h : bshape x.shape e.shape with
    | ok t => exact .inl ⟨_, rfl, .inl rfl, fun idx hi => hF idx hi⟩
    | error er => exact .inr ⟨by rw [bshape_error h]; rfl, .inl ⟨er, rfl⟩⟩
  have key2 (g : K → K) :
      (∃ dw, (e.map g).zip (· * ·) x = .ok dw ∧ (bshape x.shape e.shape = .ok dw.shape ∨ bshape e.shape x.shape = .ok dw.shape) ∧
        ∀ idx, bidx x.shape (bidx x.shape idx) = bidx x.shape idx →
          dw.entry idx = g (e.entry (bidx e.shape idx)) * x.entry (bidx x.shape idx)) ∨
      ((e.map g).zip (· * ·) x = .error .valueError ∧ ((∃ er, bshape x.shape e.shape = .error er) ∨ ∃ er, bshape e.shape x.shape = .error er)) := by
    unfold Arr.zip
    show (∃ dw, Except.map _ (bshape e.shape x.shape) = .ok dw ∧ _) ∨ (Except.map _ (bshape e.shape x.shape) = .error _ ∧ _)
    cases h : bshape e.shape x.shape with
    | ok t => exact .inl ⟨_, rfl, .inr rfl, fun idx _ => rfl⟩
    | error er => exact .inr ⟨by rw [bshape_error h]; rfl, .inr ⟨er, rfl⟩⟩
  have key3 (s : Core K n (EpsExt K)) (f g : K → K) :
      (∃ dw, (do
          let r ← stepNd s x
          let a ← r.zip (· * ·) (x.map f)
          a.zip (· * ·) (e.map g)) = .ok dw ∧ (bshape x.shape e.shape = .ok dw.shape ∨ bshape e.shape x.shape = .ok dw.shape) ∧
        ∀ idx, bidx x.shape (bidx x.shape idx) = bidx x.shape idx →
          dw.entry idx = s.mu / (s.ext.eps + q.entry []) * f (x.entry (bidx x.shape idx)) * g (e.entry (bidx e.shape idx))) ∨
      ((do
          let r ← stepNd s x
          let a ← r.zip (· * ·) (x.map f)
          a.zip (· * ·) (e.map g)) = .error .valueError ∧ ((∃ er, bshape x.shape e.shape = .error er) ∨ ∃ er, bshape e.shape x.shape = .error er)) := by
    have h1 : stepNd s x = .ok (q.map fun a => s.mu / (s.ext.eps + a)) := by unfold stepNd; rw [hq]; rfl
    have h2 : (q.map fun a => s.mu / (s.ext.eps + a)).zip (· * ·) (x.map f)
        = .ok ⟨x.shape, fun idx => s.mu / (s.ext.eps + q.entry []) * f (x.entry (bidx x.shape idx))⟩ := by
      have : bshape (q.map fun a => s.mu / (s.ext.eps + a)).shape (x.map f).shape = .ok x.shape := by
        show bshape q.shape x.shape = _
        rw [hqs, bshape_nil]
      rw [zip_ok this]
      show Except.ok (Arr.mk _ fun idx => s.mu / (s.ext.eps + q.entry (bidx q.shape idx)) * f (x.entry (bidx x.shape idx))) = _
      rw [hqs]; rfl
    rw [h1]
    simp only [bind, Except.bind]
    rw [h2]
    simp only
    exact key1 _ (e.map g) (fun a b => s.mu / (s.ext.eps + q.entry []) * f a * g b) rfl rfl (fun idx hi => by
      show s.mu / (s.ext.eps + q.entry []) * f (x.entry (bidx x.shape (bidx x.shape idx))) * g _ = _
      rw [hi])
  cases p with
  | lms => exact key1 (x.map (s.mu * ·)) e (fun a b => s.mu * a * b) rfl rfl (fun idx _ => rfl)
  | lmf => exact key1 (x.map (s.mu * ·)) (e.map fun a => a * a * a) (fun a b => s.mu * a * (b * b * b)) rfl rfl (fun idx _ => rfl)
  | sslms => exact key1 (x.map fun a => s.mu * Scalar.sgn a) (e.map Scalar.sgn) (fun a b => s.mu * Scalar.sgn a * Scalar.sgn b) rfl rfl (fun idx _ => rfl)
  | nlms => exact key3 s id id
  | nlmf => exact key3 s id fun a => a * a * a
  | nsslms => exact key3 s Scalar.sgn Scalar.sgn
  | gmcc => exact key2 _
  | llncosh => exact key2 _

/-- an input of two or more dimensions: an exception, or an increment of two or more dimensions -/
theorem rule_big [Transc K] (solve : Solver K) (p : Elem) (s : Core K n (classOf (n := n) solve p.kind).Ext) (e x : Arr K)
    (hx : 2 ≤ x.shape.length) :
    (∃ dw, ruleNd solve p s e x = .ok dw ∧ 2 ≤ dw.shape.length) ∨ ruleNd solve p s e x = .error .valueError := by
  have key1 (a b : Arr K) (h : 2 ≤ a.shape.length ∨ 2 ≤ b.shape.length) :
      (∃ dw, a.zip (· * ·) b = .ok dw ∧ 2 ≤ dw.shape.length) ∨ a.zip (· * ·) b = .error .valueError := by
    rcases zip_cases (· * ·) a b with ⟨c, hc, hs⟩ | hc
    · refine .inl ⟨c, hc, ?_⟩
      rw [bshape_length hs]; omega
    · exact .inr hc
  have key3 (s : Core K n (EpsExt K)) (x' e' : Arr K) (hx' : 2 ≤ x'.shape.length) :
      (∃ dw, (do
          let r ← stepNd s x
          let a ← r.zip (· * ·) x'
          a.zip (· * ·) e') = .ok dw ∧ 2 ≤ dw.shape.length) ∨
      (do
          let r ← stepNd s x
          let a ← r.zip (· * ·) x'
          a.zip (· * ·) e') = .error .valueError := by
    simp only [bind, Except.bind]
    rcases dot_cases x x with ⟨q, hq⟩ | hq
    · have h1 : stepNd s x = .ok (q.map fun a => s.mu / (s.ext.eps + a)) := by unfold stepNd; rw [hq]; rfl
      rw [h1]
      simp only
      rcases key1 (q.map fun a => s.mu / (s.ext.eps + a)) x' (.inr hx') with ⟨a, ha, hl⟩ | ha
      · rw [ha]; exact key1 a e' (.inl hl)
      · rw [ha]; exact .inr rfl
    · have h1 : stepNd s x = .error .valueError := by unfold stepNd; rw [hq]; rfl
      rw [h1]; exact .inr rfl
  cases p with
  | lms => exact key1 _ _ (.inl hx)
  | lmf => exact key1 _ _ (.inl hx)
  | sslms => exact key1 _ _ (.inl hx)
  | nlms => exact key3 s _ _ hx
  | nlmf => exact key3 s _ _ hx
  | nsslms => exact key3 s _ _ hx
  | gmcc => exact key1 _ _ (.inr hx)
  | llncosh => exact key1 _ _ (.inr hx)

/-! ## `adapt` -/

/-- the new weights -/
def newW [Transc K] (solve : Solver K) (p : Elem) (s : Core K n (classOf (n := n) solve p.kind).Ext) (d x : Arr K) : Except Err (Vec K n) := do
  let y ← (Arr.vec s.w).dot x
  let e ← d.zip (· - ·) y
  let dw ← ruleNd solve p s e x
  iadd s.w dw

theorem adaptNd_eq [Transc K] (solve : Solver K) (p : Elem) (d x : Arr K) (o : Obj (classOf (n := n) solve p.kind)) :
    (∀ w, newW solve p o.core d x = .ok w → adaptNd solve p d x o = (.ok (), { o with core := { o.core with w := w } })) ∧
    (∀ er, newW solve p o.core d x = .error er → adaptNd solve p d x o = (.error er, o)) := by
  unfold newW
  simp only [bind, Except.bind]
  cases h1 : (Arr.vec o.core.w).dot x with
  | error e1 =>
    refine ⟨fun w h => (by cases h), fun er h => ?_⟩
    cases h
    exact M.bind_error (by show ((Arr.vec o.core.w).dot x, o) = _; rw [h1])
  | ok y =>
    have hp : predictNd x o = (.ok y, o) := by show ((Arr.vec o.core.w).dot x, o) = _; rw [h1]
    have hb : ∀ r, adaptNd solve p d x o = r ↔ _ := fun r => by
      rw [show adaptNd solve p d x o = _ from M.bind_ok hp]
    simp only
    cases h2 : d.zip (· - ·) y with
    | error e2 =>
      refine ⟨fun w h => (by cases h), fun er h => ?_⟩
      cases h
      refine (M.bind_ok hp).trans ?_
      rw [h2]; rfl
    | ok e =>
      simp only
      cases h3 : ruleNd solve p o.core e x with
      | error e3 =>
        refine ⟨fun w h => (by cases h), fun er h => ?_⟩
        cases h
        refine (M.bind_ok hp).trans ?_
        rw [h2]
        show (M.lift (ruleNd solve p o.core e x) >>= _) o = _
        rw [h3]; rfl
      | ok dw =>
        simp only
        refine ⟨fun w h => ?_, fun er h => ?_⟩
        · refine (M.bind_ok hp).trans ?_
          rw [h2]
          show (M.lift (ruleNd solve p o.core e x) >>= _) o = _
          rw [h3]
          show (M.lift (iadd o.core.w dw) >>= _) o = _
          rw [h]; rfl
        · refine (M.bind_ok hp).trans ?_
          rw [h2]
          show (M.lift (ruleNd solve p o.core e x) >>= _) o = _
          rw [h3]
          show (M.lift (iadd o.core.w dw) >>= _) o = _
          rw [h]; rfl

/-- the shapes of `d` that are accepted -/
def OkTarget (n : Nat) (d : Arr K) : Prop := d.shape = [] ∨ d.shape = [1] ∨ d.shape = [n]

instance (d : Arr K) : Decidable (OkTarget n d) := by unfold OkTarget; infer_instance

theorem bidx_idem_vec (idx : List Nat) : bidx [n] (bidx [n] idx) = bidx [n] idx := by
  unfold bidx
  generalize idx.drop (idx.length - [n].length) = l
  rcases l with _ | ⟨a, t⟩
  · simp
  · by_cases h : n = 1 <;> simp [h]

theorem newW_vec [Transc K] (solve : Solver K) (p : Elem) (s : Core K n (classOf (n := n) solve p.kind).Ext) (d x : Arr K)
    (hx : x.shape = [n]) :
    newW solve p s d x = if OkTarget n d then
      .ok fun i => s.w i + compNd solve p s (x.entry [i.val]) (List.ofFn fun k : Fin n => x.entry [k.val] * x.entry [k.val]).sum
        (d.entry (bidx d.shape [i.val]) - (List.ofFn fun k : Fin n => s.w k * x.entry [k.val]).sum)
      else .error .valueError := by
  unfold newW
  simp only [bind, Except.bind]
  rw [dot_vec (a := Arr.vec s.w) rfl hx, if_pos rfl]
  simp only
  have hz := zip_ok (f := (· - ·)) (a := d) (b := (⟨[], fun idx => (List.ofFn fun k : Fin n => (Arr.vec s.w).entry (idx ++ [k.val]) * x.entry [k.val]).sum⟩ : Arr K))
    (bshape_nil' d.shape)
  rw [hz]
  simp only
  have hq := dot_vec (a := x) (b := x) hx hx
  rw [if_pos rfl] at hq
  rcases rule_shape solve p s ⟨d.shape, _⟩ x _ hq rfl with ⟨dw, h1, h2, h3⟩ | h1
  · rw [h1]
    simp only
    rw [iadd_eq]
    rw [hx] at h2 h3
    simp only at h2 h3
    have hs : (dw.shape = [] ∨ dw.shape = [1] ∨ dw.shape = [n]) ↔ OkTarget n d := by
      unfold OkTarget
      rcases hd : d.shape with _ | ⟨m, _ | ⟨m2, t⟩⟩
      · rw [hd] at h2
        rw [bshape_nil, bshape_nil'] at h2
        rcases h2 with h2 | h2 <;> (injection h2 with h2; simp [← h2])
      · rw [hd, bshape_one, bshape_one] at h2
        have : dw.shape = [n] ∨ dw.shape = [m] := by
          rcases h2 with h2 | h2 <;>
          · split at h2
            · injection h2 with h2; simp [← h2]
            · split at h2
              · injection h2 with h2; simp [← h2]
              · cases h2
        rcases this with h | h
        · rw [h] at h2 ⊢
          simp only [List.cons.injEq, and_true, reduceCtorEq, false_or, or_true, true_iff]
          rcases h2 with h2 | h2
          · split at h2
            · omega
            · split at h2
              · injection h2 with h2; simp at h2; omega
              · cases h2
          · split at h2
            · injection h2 with h2; simp at h2; omega
            · split at h2
              · omega
              · cases h2
        · rw [h]
      · have hl : 2 ≤ dw.shape.length := by
          rcases h2 with h2 | h2 <;> (rw [bshape_length h2, hd]; simp)
        refine iff_of_false ?_ (by simp)
        rintro (h | h | h) <;> (rw [h] at hl; simp at hl)
    by_cases hd : OkTarget n d
    · rw [if_pos (hs.2 hd), if_pos hd]
      congr 1
      funext i
      have hsh : dw.shape = [n] := by
        rcases hd with hd | hd | hd
        · rw [hd, bshape_nil, bshape_nil'] at h2
          rcases h2 with h2 | h2 <;> (injection h2 with h2; exact h2.symm)
        · rw [hd, bshape_one, bshape_one] at h2
          rcases h2 with h2 | h2
          · rw [if_pos (.inr rfl)] at h2; injection h2 with h2; exact h2.symm
          · split at h2
            · injection h2 with h2; rw [← h2]; congr 1; omega
            · rw [if_pos rfl] at h2; injection h2 with h2; exact h2.symm
        · rw [hd, bshape_one, if_pos (.inl rfl)] at h2
          rcases h2 with h2 | h2 <;> (injection h2 with h2; exact h2.symm)
      have hb : dw.entry (bidx dw.shape [i.val]) = dw.entry [i.val] := by rw [hsh, bidx_self i.isLt]
      rw [hb, h3 _ (bidx_idem_vec _), bidx_self i.isLt]
      have hi : bidx d.shape (bidx d.shape [i.val]) = bidx d.shape [i.val] := by
        rcases hd with hd | hd | hd
        · rw [hd]; rfl
        · rw [hd, bidx_idem_vec]
        · rw [hd, bidx_idem_vec]
      have hv : (fun k : Fin n => (Arr.vec s.w).entry [k.val] * x.entry [k.val]) = fun k : Fin n => s.w k * x.entry [k.val] := by
        funext k
        simp [Arr.vec]
      simp only [hi, bidx_nil, List.nil_append, hv]
    · rw [if_neg (fun h => hd (hs.1 h)), if_neg hd]
  · rw [h1.1, if_neg]
    rintro hd
    rw [hx] at h1
    simp only at h1
    rcases hd with hd | hd | hd
    · rw [hd, bshape_nil, bshape_nil'] at h1
      rcases h1.2 with ⟨er, h⟩ | ⟨er, h⟩ <;> cases h
    · rw [hd, bshape_one, bshape_one] at h1
      rcases h1.2 with ⟨er, h⟩ | ⟨er, h⟩
      · rw [if_pos (.inr rfl)] at h; cases h
      · split at h
        · cases h
        · rw [if_pos rfl] at h; cases h
    · rw [hd, bshape_one, if_pos (.inl rfl)] at h1
      rcases h1.2 with ⟨er, h⟩ | ⟨er, h⟩ <;> cases h

theorem vec_entry [Scalar K] (w : Vec K n) (i : Fin n) : (Arr.vec w).entry [i.val] = w i := by simp [Arr.vec]

theorem newW_num [Transc K] (solve : Solver K) (p : Elem) (s : Core K n (classOf (n := n) solve p.kind).Ext) (d x : Arr K)
    (hx : x.shape = []) :
    newW solve p s d x = if OkTarget n d then
      .ok fun i => s.w i + compNd solve p s (x.entry []) (x.entry [] * x.entry [])
        (d.entry (bidx d.shape [i.val]) - s.w i * x.entry [])
      else .error .valueError := by
  unfold newW
  simp only [bind, Except.bind]
  have hy : (Arr.vec s.w).dot x = .ok ⟨[n], fun idx => (Arr.vec s.w).entry (bidx [n] idx) * x.entry []⟩ := by
    rw [dot_num (.inr hx)]
    have : bshape (Arr.vec s.w).shape x.shape = .ok [n] := by rw [hx, bshape_nil']; rfl
    rw [zip_ok this, hx]; rfl
  rw [hy]
  simp only
  have hq : x.dot x = .ok ⟨[], fun _ => x.entry [] * x.entry []⟩ := by
    rw [dot_num (.inl hx)]
    have : bshape x.shape x.shape = .ok [] := by rw [hx, bshape_nil]
    rw [zip_ok this, hx]; rfl
  rcases zip_cases (· - ·) d (⟨[n], fun idx => (Arr.vec s.w).entry (bidx [n] idx) * x.entry []⟩ : Arr K) with ⟨e, he, hes⟩ | he
  · have hent : ∀ idx, e.entry idx = d.entry (bidx d.shape idx) - (Arr.vec s.w).entry (bidx [n] (bidx [n] idx)) * x.entry [] := by
      have h0 := zip_ok (f := (· - ·)) hes
      rw [he] at h0
      injection h0 with h0
      intro idx
      rw [h0]
    rw [he]
    simp only at hes ⊢
    rcases rule_shape solve p s e x _ hq rfl with ⟨dw, h1, h2, h3⟩ | h1
    · rw [h1]
      simp only
      rw [hx, bshape_nil, bshape_nil'] at h2
      have hsh : dw.shape = e.shape := by
        rcases h2 with h2 | h2 <;> (injection h2 with h2; exact h2.symm)
      rw [iadd_eq, hsh]
      have hs : (e.shape = [] ∨ e.shape = [1] ∨ e.shape = [n]) ↔ OkTarget n d := by
        unfold OkTarget
        rcases hd : d.shape with _ | ⟨m, _ | ⟨m2, t⟩⟩
        · rw [hd, bshape_nil] at hes
          injection hes with hes
          simp [← hes]
        · rw [hd, bshape_one] at hes
          split at hes
          · injection hes with hes
            rw [← hes]
          · split at hes
            · injection hes with hes
              rw [← hes]
              simp only [List.cons.injEq, and_true]
              simp
              omega
            · cases hes
        · have hl : 2 ≤ e.shape.length := by rw [bshape_length hes, hd]; simp
          refine iff_of_false ?_ (by simp)
          rintro (h | h | h) <;> (rw [h] at hl; simp at hl)
      by_cases hd : OkTarget n d
      · rw [if_pos (hs.2 hd), if_pos hd]
        congr 1
        funext i
        have hen : e.shape = [n] := by
          rcases hd with hd | hd | hd
          · rw [hd, bshape_nil] at hes; injection hes with hes; exact hes.symm
          · rw [hd, bshape_one] at hes
            split at hes
            · injection hes with hes; rw [← hes]; congr 1; omega
            · rw [if_pos rfl] at hes; injection hes with hes; exact hes.symm
          · rw [hd, bshape_one, if_pos (.inl rfl)] at hes; injection hes with hes; exact hes.symm
        rw [hen, bidx_self i.isLt, h3 _ (by rw [hx]; rfl), hx, hen, bidx_self i.isLt, hent, bidx_self i.isLt, bidx_self i.isLt, vec_entry]
        rfl
      · rw [if_neg (fun h => hd (hs.1 h)), if_neg hd]
    · rw [hx, bshape_nil, bshape_nil'] at h1
      rcases h1.2 with ⟨er, h⟩ | ⟨er, h⟩ <;> cases h
  · rw [he]
    simp only
    rw [if_neg]
    rintro hd
    unfold Arr.zip at he
    rcases hd with hd | hd | hd
    · rw [hd, bshape_nil] at he; cases he
    · rw [hd, bshape_one] at he
      simp only at he
      split at he
      · cases he
      · rw [if_pos trivial] at he; cases he
    · rw [hd, bshape_one, if_pos (.inl rfl)] at he; cases he

theorem newW_other [Transc K] (solve : Solver K) (p : Elem) (s : Core K n (classOf (n := n) solve p.kind).Ext) (d x : Arr K)
    (h0 : x.shape ≠ []) (h1 : x.shape ≠ [n]) : newW solve p s d x = .error .valueError := by
  unfold newW
  simp only [bind, Except.bind]
  rcases hs : x.shape with _ | ⟨m, _ | ⟨m2, t⟩⟩
  · exact absurd hs h0
  · rw [dot_vec (a := Arr.vec s.w) rfl hs, if_neg]
    intro h; exact h1 (by rw [hs, h])
  · rcases dot_cases (Arr.vec s.w) x with ⟨y, hy⟩ | hy
    · rw [hy]
      simp only
      rcases zip_cases (· - ·) d y with ⟨e, he, _⟩ | he
      · rw [he]
        simp only
        rcases rule_big solve p s e x (by rw [hs]; simp) with ⟨dw, hd, hl⟩ | hd
        · rw [hd]
          simp only
          rw [iadd_eq, if_neg]
          rintro (h | h | h) <;> (rw [h] at hl; simp at hl)
        · rw [hd]
      · rw [he]
    · rw [hy]

theorem mk_adapt [Scalar K] {X : Type} (rule : K → List K → M (Core K n X) (Vec K n)) (d : K) (v dw : Vec K n)
    (o : Obj (mkBase X basePredict rule)) (hr : rule (d - dot o.core.w v) (List.ofFn v) o.core = (.ok dw, o.core)) :
    adapt (mkBase X basePredict rule) d (List.ofFn v) o
      = (.ok (), { o with core := { o.core with w := fun i => o.core.w i + dw i } }) := by
  have h1 : basePredict (List.ofFn v) o.core = (.ok (dot o.core.w v), o.core) := by
    unfold basePredict; rw [asVec_ofFn]; rfl
  have h2 : baseAdapt basePredict rule d (List.ofFn v) o.core = (.ok (), { o.core with w := fun i => o.core.w i + dw i }) := by
    refine (M.bind_ok h1).trans ?_
    refine (M.bind_ok hr).trans ?_
    rfl
  show ((baseAdapt basePredict rule d (List.ofFn v) o.core).1, ({ o with core := (baseAdapt basePredict rule d (List.ofFn v) o.core).2 } : Obj (mkBase X basePredict rule))) = _
  rw [h2]
  rfl

/-- `adapt` with a number and a vector -/
theorem adapt_comp [Transc K] (solve : Solver K) (p : Elem) (d : K) (v : Vec K n) (o : Obj (classOf (n := n) solve p.kind)) :
    adapt (classOf solve p.kind) d (List.ofFn v) o
      = (.ok (), { o with core := { o.core with w := fun i => o.core.w i + compNd solve p o.core (v i) (dot v v) (d - dot o.core.w v) } }) := by
  have hv := asVec_ofFn v
  cases p with
  | lms => exact mk_adapt lmsRule d v _ o (by unfold lmsRule; rw [hv]; rfl)
  | lmf => exact mk_adapt lmfRule d v _ o (by unfold lmfRule; rw [hv]; rfl)
  | sslms => exact mk_adapt sslmsRule d v _ o (by unfold sslmsRule; rw [hv]; rfl)
  | nlms => exact mk_adapt nlmsRule d v _ o (by unfold nlmsRule; rw [hv]; rfl)
  | nlmf => exact mk_adapt nlmfRule d v _ o (by unfold nlmfRule; rw [hv]; rfl)
  | nsslms => exact mk_adapt nsslmsRule d v _ o (by unfold nsslmsRule; rw [hv]; rfl)
  | gmcc => exact mk_adapt gmccRule d v _ o (by unfold gmccRule; rw [hv]; rfl)
  | llncosh => exact mk_adapt llncoshRule d v _ o (by unfold llncoshRule; rw [hv]; rfl)

/-! ## C146: the shapes `adapt` accepts -/

/-- C146: `adapt(d, x)` of a filter with `n` weights accepts exactly: for `x` a number or a vector of length `n`, for `d` a number, a vector of length 1 or a vector of
length `n`.  Everything else, whatever its number of dimensions, raises `ValueError` and changes nothing. -/
theorem C146_accepted [Transc K] (solve : Solver K) (p : Elem) (d x : Arr K) (o : Obj (classOf (n := n) solve p.kind)) :
    let fits := (x.shape = [] ∨ x.shape = [n]) ∧ (d.shape = [] ∨ d.shape = [1] ∨ d.shape = [n])
    (fits → ∃ w, adaptNd solve p d x o = (.ok (), { o with core := { o.core with w := w } })) ∧
    (¬ fits → adaptNd solve p d x o = (.error .valueError, o)) := by
  intro fits
  have hE := adaptNd_eq solve p d x o
  by_cases hx : x.shape = [] ∨ x.shape = [n]
  · have hc : ∃ w, newW solve p o.core d x = if OkTarget n d then .ok w else .error .valueError := by
      rcases hx with hx | hx
      · exact ⟨_, newW_num solve p o.core d x hx⟩
      · exact ⟨_, newW_vec solve p o.core d x hx⟩
    obtain ⟨w, hw⟩ := hc
    refine ⟨fun hf => ⟨w, hE.1 w ?_⟩, fun hf => hE.2 _ ?_⟩
    · rw [hw, if_pos (show OkTarget n d from hf.2)]
    · rw [hw, if_neg (show ¬ OkTarget n d from fun h => hf ⟨hx, h⟩)]
  · refine ⟨fun hf => absurd hf.1 hx, fun _ => hE.2 _ ?_⟩
    exact newW_other solve p o.core d x (fun h => hx (.inl h)) (fun h => hx (.inr h))

/-- C146: with a vector `x` and a number `d`, or a vector `d` of length 1, this is the documented `adapt`. -/
theorem C146_documented [Transc K] (solve : Solver K) (p : Elem) (d x : Arr K) (o : Obj (classOf (n := n) solve p.kind))
    (hx : x.shape = [n]) (hd : d.shape = [] ∨ d.shape = [1]) :
    adaptNd solve p d x o
      = adapt (classOf solve p.kind) (if d.shape = [] then d.entry [] else d.entry [0]) (List.ofFn fun i : Fin n => x.entry [i.val]) o := by
  rw [adapt_comp]
  refine (adaptNd_eq solve p d x o).1 _ ?_
  rw [newW_vec solve p o.core d x hx, if_pos (by rcases hd with h | h <;> simp [OkTarget, h])]
  have hb : ∀ i : Fin n, d.entry (bidx d.shape [i.val]) = if d.shape = [] then d.entry [] else d.entry [0] := by
    intro i
    rcases hd with h | h
    · rw [h]; rfl
    · rw [h]; simp [bidx]
  simp only [hb]
  rfl

/-- C146: with a vector `x` and a vector `d` of length `n`, weight `i` is adapted to the target `d[i]`. -/
theorem C146_target_per_weight [Transc K] (solve : Solver K) (p : Elem) (d x : Arr K) (o : Obj (classOf (n := n) solve p.kind))
    (hx : x.shape = [n]) (hd : d.shape = [n]) :
    ∃ w, adaptNd solve p d x o = (.ok (), { o with core := { o.core with w := w } }) ∧
      ∀ i : Fin n, w i = (adapt (classOf solve p.kind) (d.entry [i.val]) (List.ofFn fun i : Fin n => x.entry [i.val]) o).2.core.w i := by
  refine ⟨_, (adaptNd_eq solve p d x o).1 _ (by rw [newW_vec solve p o.core d x hx, if_pos (by simp [OkTarget, hd])]), fun i => ?_⟩
  rw [adapt_comp, hd, bidx_self i.isLt]
  rfl

/-- the attributes of the class do not depend on the number of weights -/
def Elem.extTo [Transc K] (solve : Solver K) (m : Nat) : (p : Elem) → (classOf (K := K) (n := n) solve p.kind).Ext → (classOf (K := K) (n := m) solve p.kind).Ext
  | .lms => fun q => q
  | .lmf => fun q => q
  | .sslms => fun q => q
  | .nlms => fun (q : EpsExt K) => (q : EpsExt K)
  | .nlmf => fun (q : EpsExt K) => (q : EpsExt K)
  | .nsslms => fun (q : EpsExt K) => (q : EpsExt K)
  | .gmcc => fun (q : GmccExt K) => (q : GmccExt K)
  | .llncosh => fun (q : LlncoshExt K) => (q : LlncoshExt K)

/-- a filter with the single weight `w`, the other attributes taken from `o` -/
def oneWeight [Transc K] (solve : Solver K) (p : Elem) (o : Obj (classOf (K := K) (n := n) solve p.kind)) (w : K) : Obj (classOf (K := K) (n := 1) solve p.kind) :=
  ⟨⟨fun _ => w, o.core.nAttr, o.core.mu, p.extTo solve 1 o.core.ext⟩, o.wHist⟩

/-- C146: with a number as input there is no sum over the weights: each weight is adapted as if it were a filter of length 1 with this input (the only arithmetic law used is
`a + 0 = a`). -/
theorem C146_number_input [Transc K] (hz : ∀ a : K, a + 0 = a) (solve : Solver K) (p : Elem) (d x : Arr K) (o : Obj (classOf (n := n) solve p.kind))
    (hx : x.shape = []) (hd : d.shape = [] ∨ d.shape = [1] ∨ d.shape = [n]) :
    ∃ w, adaptNd solve p d x o = (.ok (), { o with core := { o.core with w := w } }) ∧
      ∀ i : Fin n, w i = (adapt (classOf solve p.kind) (if d.shape = [] then d.entry [] else if d.shape = [1] then d.entry [0] else d.entry [i.val])
        [x.entry []] (oneWeight solve p o (o.core.w i))).2.core.w 0 := by
  refine ⟨_, (adaptNd_eq solve p d x o).1 _ (by rw [newW_num solve p o.core d x hx, if_pos (show OkTarget n d from hd)]), fun i => ?_⟩
  have hb : d.entry (bidx d.shape [i.val]) = if d.shape = [] then d.entry [] else if d.shape = [1] then d.entry [0] else d.entry [i.val] := by
    rcases hd with h | h | h
    · rw [h]; rfl
    · rw [h]; simp [bidx]
    · rw [h]
      by_cases h1 : n = 1
      · subst h1; simp [bidx]
      · rw [bidx_self i.isLt]; simp [h1]
  have h2 := adapt_comp solve p (if d.shape = [] then d.entry [] else if d.shape = [1] then d.entry [0] else d.entry [i.val])
    (fun _ : Fin 1 => x.entry []) (oneWeight solve p o (o.core.w i))
  have h3 : (List.ofFn fun _ : Fin 1 => x.entry []) = [x.entry []] := by simp
  rw [h3] at h2
  rw [h2, hb]
  have hdot : ∀ a b : K, dot (fun _ : Fin 1 => a) (fun _ => b) = a * b := by
    intro a b
    simp [dot, vsum, hz]
  show _ = o.core.w i + compNd solve p (oneWeight solve p o (o.core.w i)).core (x.entry []) (dot _ _) (_ - dot (fun _ => o.core.w i) _)
  rw [hdot, hdot]
  cases p <;> rfl

/-! ## C147: `predict` of arrays of any shape -/

/-- C147: `predict` never changes the object. -/
theorem C147_unchanged [Scalar K] {C : FilterClass K n} (x : Arr K) (o : Obj C) : (predictNd x o).2 = o := rfl

/-- C147: `predict` of a vector of length `n` is the documented number. -/
theorem C147_vector [Scalar K] {C : FilterClass K n} (x : Arr K) (o : Obj C) (hx : x.shape = [n]) :
    ∃ y, predictNd x o = (.ok y, o) ∧ y.shape = [] ∧ basePredict (List.ofFn fun i : Fin n => x.entry [i.val]) o.core = (.ok (y.entry []), o.core) := by
  have h := dot_vec (a := Arr.vec o.core.w) (b := x) rfl hx
  rw [if_pos rfl] at h
  refine ⟨_, (show predictNd x o = _ from by show ((Arr.vec o.core.w).dot x, o) = _; rw [h]), rfl, ?_⟩
  unfold basePredict
  rw [asVec_ofFn]
  show (Except.ok (dot o.core.w fun i : Fin n => x.entry [i.val]), o.core) = _
  simp only [dot, vsum, List.nil_append, vec_entry]

/-- C147: `predict` of a number is not an error: it returns the vector of the weights multiplied by it. -/
theorem C147_number [Scalar K] {C : FilterClass K n} (x : Arr K) (o : Obj C) (hx : x.shape = []) :
    ∃ y, predictNd x o = (.ok y, o) ∧ y.shape = [n] ∧ ∀ i : Fin n, y.entry [i.val] = o.core.w i * x.entry [] := by
  have h : (Arr.vec o.core.w).dot x = .ok ⟨[n], fun idx => (Arr.vec o.core.w).entry (bidx [n] idx) * x.entry []⟩ := by
    rw [dot_num (.inr hx)]
    have : bshape (Arr.vec o.core.w).shape x.shape = .ok [n] := by rw [hx, bshape_nil']; rfl
    rw [zip_ok this, hx]; rfl
  refine ⟨_, (show predictNd x o = _ from by show ((Arr.vec o.core.w).dot x, o) = _; rw [h]), rfl, fun i => ?_⟩
  show (Arr.vec o.core.w).entry (bidx [n] [i.val]) * _ = _
  rw [bidx_self i.isLt, vec_entry]

/-- C147: for an array of two or more dimensions the sum runs over the last axis but one: entry `(.., j)` of the result is the documented prediction for the vector
`x[.., :, j]`, provided this axis has length `n`; otherwise `ValueError`. -/
theorem C147_array [Scalar K] {C : FilterClass K n} (x : Arr K) (o : Obj C) {s : List Nat} {m c : Nat} (hx : x.shape = s ++ [m, c]) :
    (m ≠ n → predictNd x o = (.error .valueError, o)) ∧
    (m = n → ∃ y, predictNd x o = (.ok y, o) ∧ y.shape = s ++ [c] ∧ ∀ idx j,
      basePredict (List.ofFn fun i : Fin n => x.entry (idx ++ [i.val, j])) o.core = (.ok (y.entry (idx ++ [j])), o.core)) := by
  have h := dot_big (a := Arr.vec o.core.w) (b := x) rfl hx
  constructor
  · intro hm
    rw [if_neg (fun h => hm h.symm)] at h
    show ((Arr.vec o.core.w).dot x, o) = _
    rw [h]
  · intro hm
    rw [if_pos hm.symm] at h
    refine ⟨_, (show predictNd x o = _ from by show ((Arr.vec o.core.w).dot x, o) = _; rw [h]), rfl, fun idx j => ?_⟩
    unfold basePredict
    rw [asVec_ofFn]
    show (Except.ok (dot o.core.w fun i : Fin n => x.entry (idx ++ [i.val, j])), o.core) = _
    have : ∀ k : Fin n, (idx ++ [j]).dropLast ++ [k.val] ++ (idx ++ [j]).getLast?.toList = idx ++ [k.val, j] := by
      intro k; simp
    simp only [dot, vsum, this, vec_entry]

/-- C147: any other vector raises `ValueError`. -/
theorem C147_other_vector [Scalar K] {C : FilterClass K n} (x : Arr K) (o : Obj C) {m : Nat} (hx : x.shape = [m]) (h : m ≠ n) :
    predictNd x o = (.error .valueError, o) := by
  have h1 := dot_vec (a := Arr.vec o.core.w) (b := x) rfl hx
  rw [if_neg (fun h2 => h h2.symm)] at h1
  show ((Arr.vec o.core.w).dot x, o) = _
  rw [h1]

/-- C147, the matrix of inputs of `run` (a row per sample) handed to `predict`: unless there are exactly as many samples as weights, `ValueError`. -/
theorem C147_matrix_of_run [Scalar K] {C : FilterClass K n} {N : Nat} (X : Mat K N n) (o : Obj C) (h : N ≠ n) :
    predictNd (Arr.table X) o = (.error .valueError, o) :=
  (C147_array (Arr.table X) o (s := []) rfl).1 h

/-- C147: the transposed matrix gives the prediction of every sample. -/
theorem C147_transposed [Scalar K] {C : FilterClass K n} {N : Nat} (X : Mat K N n) (o : Obj C) :
    ∃ y, predictNd (Arr.table fun i k => X k i) o = (.ok y, o) ∧ y.shape = [N] ∧
      ∀ k : Fin N, basePredict (List.ofFn (X k)) o.core = (.ok (y.entry [k.val]), o.core) := by
  obtain ⟨y, h1, h2, h3⟩ := (C147_array (Arr.table fun (i : Fin n) (k : Fin N) => X k i) o (s := []) rfl).2 rfl
  refine ⟨y, h1, h2, fun k => ?_⟩
  have h4 := h3 [] k.val
  have h5 : (fun i : Fin n => (Arr.table fun (i : Fin n) (k : Fin N) => X k i).entry ([] ++ [i.val, k.val])) = X k := by
    funext i
    simp [Arr.table]
  rw [h5] at h4
  exact h4

/-- C147: with exactly `n` samples the matrix of `run` is accepted, and the result is the predictions for its *columns*; it is the vector of the predictions of the samples
whatever the weights exactly if the matrix is symmetric. -/
theorem C147_square [Field K] [LinearOrder K] [IsStrictOrderedRing K] {C : Vec K n → Obj (lms K n)} (hC : ∀ w, (C w).core.w = w) (X : Mat K n n) :
    (∀ w, ∃ y, predictNd (Arr.table X) (C w) = (.ok y, C w) ∧ y.shape = [n] ∧ ∀ j : Fin n, y.entry [j.val] = ∑ i, w i * X i j) ∧
    ((∀ w y, predictNd (Arr.table X) (C w) = (.ok y, C w) → ∀ j : Fin n, y.entry [j.val] = ∑ i, w i * X j i) ↔ ∀ i j, X i j = X j i) := by
  have hA : ∀ w, ∃ y, predictNd (Arr.table X) (C w) = (.ok y, C w) ∧ y.shape = [n] ∧ ∀ j : Fin n, y.entry [j.val] = ∑ i, w i * X i j := by
    intro w
    obtain ⟨y, h1, h2, h3⟩ := (C147_array (Arr.table X) (C w) (s := []) rfl).2 rfl
    refine ⟨y, h1, h2, fun j => ?_⟩
    have h4 := h3 [] j.val
    unfold basePredict at h4
    rw [asVec_ofFn] at h4
    have h5 : dot (C w).core.w (fun i : Fin n => (Arr.table X).entry [i.val, j.val]) = y.entry [j.val] := by
      have := congrArg Prod.fst h4
      injection this
    rw [← h5, dot_eq, hC]
    simp [Arr.table]
  refine ⟨hA, fun h i j => ?_, fun h w y hy j => ?_⟩
  · obtain ⟨y, h1, h2, h3⟩ := hA (fun k => if k = i then 1 else 0)
    have h4 := h _ y h1 j
    rw [h3 j] at h4
    simpa using h4
  · obtain ⟨y', h1, h2, h3⟩ := hA w
    rw [h1] at hy
    have : y' = y := by
      have := congrArg Prod.fst hy
      injection this
    rw [← this, h3 j]
    exact Finset.sum_congr rfl fun i _ => by rw [h i j]

/-! ## the hypotheses are met -/

/-- an LMS filter with the weights 1, 2 -/
private def nd2 : Obj (classOf (K := ℚ) (n := 2) ratSolve Elem.lms.kind) := ⟨⟨![1, 2], 2, 1, ()⟩, []⟩

-- a number as input: `y = (3, 6)`, the weights become `1 + 3 (4 - 3)` and `2 + 3 (4 - 6)`
example : (adaptNd ratSolve .lms (Arr.num 4) (Arr.num 3) nd2).1 = .ok () ∧
    List.ofFn (adaptNd ratSolve .lms (Arr.num 4) (Arr.num 3) nd2).2.core.w = [4, -4] := by decide +kernel

-- a square table: an exception, although `predict` accepts it
example : (adaptNd ratSolve .lms (Arr.num 4) (Arr.table ![![1, 2], ![3, 4]]) nd2).1 = .error .valueError := by decide +kernel

-- the predictions of the columns (7, 10), not those of the rows (5, 11)
example : (predictNd (Arr.table ![![1, 2], ![3, 4]]) nd2).1.map (fun y => (y.shape, y.entry [0], y.entry [1])) = .ok ([2], 7, 10) := by decide +kernel

example : ∃ (d x : Arr ℚ), x.shape = [2] ∧ d.shape = [1] := ⟨Arr.vec ![1], Arr.vec ![1, 2], rfl, rfl⟩
example : ∃ (d x : Arr ℚ), x.shape = [2] ∧ d.shape = [2] := ⟨Arr.vec ![1, 2], Arr.vec ![1, 2], rfl, rfl⟩
example : ∀ a : ℚ, a + 0 = a := add_zero
example : ∃ C : Vec ℚ 2 → Obj (lms ℚ 2), ∀ w, (C w).core.w = w := ⟨fun w => ⟨⟨w, 2, 1, ()⟩, []⟩, fun _ => rfl⟩

end Padasip
