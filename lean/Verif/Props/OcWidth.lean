import Verif.Model.OcWidth
import Verif.Props.Reject2

/-!
# C130: `clear_memory` after a rejected `run` makes an OCNLMS filter unusable
-/

set_option linter.unusedSectionVars false
set_option linter.unusedSimpArgs false

namespace Padasip

variable {K : Type} {n c : ℕ} [Scalar K]

/-- with a memory as wide as the filter this is the model of `Model/Filters.lean` -/
theorem ocW_same : ocnlmsW K n n = ocnlms K n := rfl

/-- the memory has at least one row, a target per row, and the index points to a row -/
def MemOk (q : OcExt K c) : Prop := q.memD.length = q.memX.length ∧ q.memIdx < q.memX.length

theorem MemOk.advance {q : OcExt K c} (h : MemOk q) : MemOk (ocAdvance q) := by
  obtain ⟨h1, h2⟩ := h
  unfold ocAdvance
  split
  · exact ⟨h1, by dsimp only; omega⟩
  · exact ⟨h1, by dsimp only; omega⟩

theorem advance_used (q : OcExt K c) : ¬((ocAdvance q).memEmpty = true ∧ (ocAdvance q).memIdx = 0) := by
  unfold ocAdvance
  split
  · simp
  · simp

theorem readW_ok {s : Core K n (OcExt K c)} (h : MemOk s.ext) :
    ∃ md, ocReadW s = (.ok (md, ocCenter s.nAttr s.ext), { s with ext := ocAdvance s.ext }) := by
  obtain ⟨h1, h2⟩ := h
  unfold ocReadW
  have : ∃ md, ocCenterD s.ext = .ok md := by
    unfold ocCenterD
    split
    · split
      · exact ⟨_, rfl⟩
      · exact ⟨_, rfl⟩
    · rw [if_pos (by omega)]; exact ⟨_, rfl⟩
  obtain ⟨md, hmd⟩ := this
  exact ⟨md, by simp only [M.get_bind]; rw [hmd]; rfl⟩

theorem centre_used_length (a : ℕ) {q : OcExt K c} (h : ¬(q.memEmpty = true ∧ q.memIdx = 0)) : (ocCenter a q).length = c := by
  unfold ocCenter
  split
  · rename_i he
    split
    · rename_i hi; exact absurd ⟨he, hi⟩ h
    · exact List.length_ofFn
  · exact List.length_ofFn

/-- what may change in a failed call: only the memory -/
structure Kept (s s' : Core K n (OcExt K c)) : Prop where
  w : s'.w = s.w
  mu : s'.mu = s.mu
  nAttr : s'.nAttr = s.nAttr
  ok : MemOk s'.ext
  mem : s'.ext.memX.length = s.ext.memX.length
  eps : s'.ext.eps = s.ext.eps

theorem advance_mem (q : OcExt K c) : (ocAdvance q).memX.length = q.memX.length ∧ (ocAdvance q).eps = q.eps := by
  unfold ocAdvance; split <;> exact ⟨rfl, rfl⟩

theorem predictW_kept {s : Core K n (OcExt K c)} (h : MemOk s.ext) (x : List K) :
    Kept s (ocPredictW x s).2 ∧ ¬((ocPredictW x s).2.ext.memEmpty = true ∧ (ocPredictW x s).2.ext.memIdx = 0) ∧
    ((ocPredictW x s).1 = .error .valueError ∨ ∃ y, (ocPredictW x s).1 = .ok y) := by
  obtain ⟨md, hr⟩ := readW_ok h
  have hk : Kept s { s with ext := ocAdvance s.ext } := ⟨rfl, rfl, rfl, h.advance, (advance_mem _).1, (advance_mem _).2⟩
  unfold ocPredictW
  rw [M.bind_ok hr]
  dsimp only
  have hb : (∃ v, bsub x (ocCenter s.nAttr s.ext) = .ok v) ∨ bsub x (ocCenter s.nAttr s.ext) = .error .valueError := by
    unfold bsub
    split
    · exact Or.inl ⟨_, rfl⟩
    · split
      · exact Or.inl ⟨_, rfl⟩
      · exact Or.inl ⟨_, rfl⟩
      · exact Or.inr rfl
  rcases hb with ⟨v, hv⟩ | hv
  · rw [hv]
    have ha : (∃ u, asVec n v = .ok u) ∨ asVec n v = .error .valueError := by
      unfold asVec
      split
      · exact Or.inl ⟨_, rfl⟩
      · exact Or.inr rfl
    rw [M.bind_ok (show (M.lift (.ok v) : M (Core K n (OcExt K c)) (List K)) _ = _ from rfl)]
    rcases ha with ⟨u, hu⟩ | hu
    · rw [hu]
      exact ⟨hk, advance_used _, Or.inr ⟨_, rfl⟩⟩
    · rw [hu]
      exact ⟨hk, advance_used _, Or.inl rfl⟩
  · rw [hv]
    exact ⟨hk, advance_used _, Or.inl rfl⟩

theorem bcastVec_cases (c : ℕ) (x : List K) : (∃ v, bcastVec c x = .ok v ∧ (x.length = c ∨ x.length = 1)) ∨ bcastVec c x = .error .valueError := by
  unfold bcastVec bcast
  split
  · rename_i h
    left
    simp [Except.bind, asVec, h]
  · split
    · left
      simp [Except.bind, asVec]
    · right; rfl

theorem ruleW_fails (hc : c ≠ n) {s : Core K n (OcExt K c)} (h : MemOk s.ext) (hu : ¬(s.ext.memEmpty = true ∧ s.ext.memIdx = 0)) (e : K) (x : List K) :
    (ocRuleW e x s).1 = .error .valueError ∧ Kept s (ocRuleW e x s).2 := by
  unfold ocRuleW
  rcases bcastVec_cases c x with ⟨v, hv, hl⟩ | hv
  · rw [hv]
    have h1 : ocUpdateXW v s = (.ok (), { s with ext := { s.ext with memX := s.ext.memX.set s.ext.memIdx v } }) := by
      unfold ocUpdateXW
      simp only [M.get_bind]
      rw [if_pos h.2]
      rfl
    generalize hs1 : ({ s with ext := { s.ext with memX := s.ext.memX.set s.ext.memIdx v } } : Core K n (OcExt K c)) = s1 at h1
    have hok1 : MemOk s1.ext := by rw [← hs1]; exact ⟨by simpa using h.1, by simpa using h.2⟩
    have hu1 : ¬(s1.ext.memEmpty = true ∧ s1.ext.memIdx = 0) := by rw [← hs1]; exact hu
    have hk1 : Kept s { s1 with ext := ocAdvance s1.ext } := by
      refine ⟨by rw [← hs1], by rw [← hs1], by rw [← hs1], hok1.advance, ?_, ?_⟩
      · rw [← hs1]; dsimp only; rw [(advance_mem _).1]; simp
      · rw [← hs1]; dsimp only; rw [(advance_mem _).2]
    obtain ⟨md, hr⟩ := readW_ok hok1
    have hlen := centre_used_length s1.nAttr hu1
    have hb : ∃ d, bsub x (ocCenter s1.nAttr s1.ext) = .ok d ∧ d.length = c := by
      unfold bsub
      split
      · rename_i he
        exact ⟨_, rfl, by simp [he, hlen]⟩
      · rename_i he
        obtain ⟨a, rfl⟩ : ∃ a, x = [a] := List.length_eq_one_iff.mp (by omega)
        split
        · rename_i b hcb
          exfalso
          apply he
          rw [hcb]; rfl
        · rename_i a' y heq
          exact ⟨_, rfl, by simp [hlen]⟩
        · rename_i hh _
          exact (hh _ rfl).elim
    obtain ⟨d, hd, hdl⟩ := hb
    rw [M.bind_ok (show (M.lift (.ok v) : M (Core K n (OcExt K c)) (Vec K c)) s = (.ok v, s) from rfl), M.bind_ok h1, M.bind_ok hr]
    dsimp only
    rw [hd]
    have ha : asVec n d = .error .valueError := by
      unfold asVec; rw [dif_neg (by omega)]
    rw [M.bind_ok (show (M.lift (.ok d) : M (Core K n (OcExt K c)) (List K)) _ = _ from rfl), ha]
    exact ⟨rfl, hk1⟩
  · rw [hv]
    exact ⟨rfl, ⟨rfl, rfl, rfl, h, rfl, rfl⟩⟩

theorem Kept.trans {s s' s'' : Core K n (OcExt K c)} (h : Kept s s') (h' : Kept s' s'') : Kept s s'' :=
  ⟨h'.w.trans h.w, h'.mu.trans h.mu, h'.nAttr.trans h.nAttr, h'.ok, h'.mem.trans h.mem, h'.eps.trans h.eps⟩

theorem bodyW_fails (hc : c ≠ n) {s : Core K n (OcExt K c)} (h : MemOk s.ext) (d : K) (x : List K) :
    ((baseBody ocPredictW ocRuleW d x : M (Core K n (OcExt K c)) (K × K)) s).1 = .error .valueError ∧
    Kept s ((baseBody ocPredictW ocRuleW d x : M (Core K n (OcExt K c)) (K × K)) s).2 ∧
    ((baseAdapt ocPredictW ocRuleW d x : M (Core K n (OcExt K c)) Unit) s).1 = .error .valueError ∧
    Kept s ((baseAdapt ocPredictW ocRuleW d x : M (Core K n (OcExt K c)) Unit) s).2 := by
  obtain ⟨hk, hu, hp⟩ := predictW_kept h x
  unfold baseBody baseAdapt
  generalize hps : ocPredictW x s = r at hk hu hp
  obtain ⟨r1, s1⟩ := r
  dsimp only at hk hu hp
  rcases hp with rfl | ⟨y, rfl⟩
  · rw [M.bind_error hps, M.bind_error hps]
    exact ⟨rfl, hk, rfl, hk⟩
  · rw [M.bind_ok hps, M.bind_ok hps]
    obtain ⟨h1, h2⟩ := ruleW_fails hc hk.ok hu (d - y) x
    generalize hrs : ocRuleW (d - y) x s1 = r at h1 h2
    obtain ⟨r2, s2⟩ := r
    dsimp only at h1 h2
    subst h1
    rw [M.bind_error hrs, M.bind_error hrs]
    exact ⟨rfl, hk.trans h2, rfl, hk.trans h2⟩

/-- C130: a filter whose memory is not as wide as its weights: every `adapt`, with whatever data, raises `ValueError` and leaves the weights (and `mu`, `n`, the width) alone. -/
theorem adaptW_fails (hc : c ≠ n) (o : Obj (ocnlmsW K n c)) (h : MemOk (c := c) o.core.ext) (d : K) (x : List K) :
    (adapt (ocnlmsW K n c) d x o).1 = .error .valueError ∧ Kept (c := c) o.core (adapt (ocnlmsW K n c) d x o).2.core := by
  obtain ⟨-, -, h1, h2⟩ := bodyW_fails hc h d x
  exact ⟨h1, h2⟩

theorem bcast_cases (a : ℕ) (x : List K) : (∃ v, bcast a x = .ok v) ∨ bcast a x = .error .valueError := by
  unfold bcast
  split
  · exact Or.inl ⟨_, rfl⟩
  · split
    · exact Or.inl ⟨_, rfl⟩
    · exact Or.inr rfl

theorem loopW_fails (hc : c ≠ n) (o : Obj (ocnlmsW K n c)) (h : MemOk (c := c) o.core.ext) (k : ℕ) (p : K × List K) (t : List (K × List K)) :
    (runLoop (ocnlmsW K n c) k (p :: t) o).1 = .error .valueError ∧ Kept (c := c) o.core (runLoop (ocnlmsW K n c) k (p :: t) o).2.core := by
  obtain ⟨d, x⟩ := p
  unfold runLoop
  rcases bcast_cases o.core.nAttr (List.ofFn o.core.w) with ⟨v, hv⟩ | hv
  · have hw : histWrite (C := ocnlmsW K n c) k o = (.ok (), { o with wHist := o.wHist.set k v }) := by
      unfold histWrite
      simp only [M.get_bind]
      rw [hv]; rfl
    rw [M.bind_ok hw]
    obtain ⟨h1, h2, -, -⟩ := bodyW_fails hc h d x
    have hb : Obj.liftM ((ocnlmsW K n c).body d x) { o with wHist := o.wHist.set k v }
        = (.error .valueError, ⟨((baseBody ocPredictW ocRuleW d x : M (Core K n (OcExt K c)) (K × K)) o.core).2, o.wHist.set k v⟩) := 
      Prod.ext h1 rfl
    rw [M.bind_error hb]
    exact ⟨rfl, h2⟩
  · have hw : histWrite (C := ocnlmsW K n c) k o = (.error .valueError, o) := by
      unfold histWrite
      simp only [M.get_bind]
      rw [hv]; rfl
    rw [M.bind_error hw]
    exact ⟨rfl, ⟨rfl, rfl, rfl, h, rfl, rfl⟩⟩

/-- what may change in a failed `run`: the memory and the attribute `n` -/
structure Kept' (s s' : Core K n (OcExt K c)) : Prop where
  w : s'.w = s.w
  mu : s'.mu = s.mu
  ok : MemOk s'.ext
  mem : s'.ext.memX.length = s.ext.memX.length
  eps : s'.ext.eps = s.ext.eps

/-- the attribute `n` after a `run` -/
def attrAfter (d : List K) (x : List (List K)) (a : ℕ) : ℕ :=
  match x with
  | [] => a
  | x0 :: _ => if d.length = x.length then x0.length else a

theorem runW_fails (hc : c ≠ n) (o : Obj (ocnlmsW K n c)) (h : MemOk (c := c) o.core.ext) (d : List K) (x : List (List K)) :
    (∃ e, (run (ocnlmsW K n c) d x o).1 = .error e) ∧ Kept' (c := c) o.core (run (ocnlmsW K n c) d x o).2.core ∧
    (run (ocnlmsW K n c) d x o).2.core.nAttr = attrAfter d x o.core.nAttr := by
  have hself : Kept' (c := c) o.core o.core := ⟨rfl, rfl, h, rfl, rfl⟩
  unfold run attrAfter
  by_cases hl : d.length = x.length
  · rw [if_neg (not_not.mpr hl)]
    cases x with
    | nil => exact ⟨⟨_, rfl⟩, hself, rfl⟩
    | cons x0 t =>
      dsimp only
      rw [if_pos hl]
      rw [M.modify_bind]
      split
      · exact ⟨⟨_, rfl⟩, ⟨rfl, rfl, h, rfl, rfl⟩, rfl⟩
      · rw [M.modify_bind]
        cases d with
        | nil => cases hl
        | cons d0 ds =>
          rw [List.zip_cons_cons]
          generalize hs : ({ ({ o with core := o.core.withN x0.length } : Obj (ocnlmsW K n c)) with
            wHist := List.replicate (x0 :: t).length (List.replicate (({ o with core := o.core.withN x0.length } : Obj (ocnlmsW K n c))).core.nAttr 0) } : Obj (ocnlmsW K n c)) = o1
          have hc1 : o1.core = o.core.withN x0.length := by rw [← hs]
          have hok1 : MemOk (c := c) o1.core.ext := by rw [hc1]; exact h
          obtain ⟨h1, h2⟩ := loopW_fails hc o1 hok1 0 (d0, x0) (ds.zip t)
          generalize hr : runLoop (ocnlmsW K n c) 0 ((d0, x0) :: ds.zip t) o1 = r at h1 h2
          obtain ⟨r1, o2⟩ := r
          dsimp only at h1 h2
          subst h1
          rw [M.bind_error hr]
          refine ⟨⟨_, rfl⟩, ⟨h2.w.trans (by rw [hc1]; rfl), h2.mu.trans (by rw [hc1]; rfl), h2.ok, h2.mem.trans (by rw [hc1]; rfl), h2.eps.trans (by rw [hc1]; rfl)⟩, ?_⟩
          exact h2.nAttr.trans (by rw [hc1]; rfl)
  · rw [if_pos hl]
    refine ⟨⟨_, rfl⟩, hself, ?_⟩
    cases x with
    | nil => rfl
    | cons x0 t => dsimp only; rw [if_neg hl]; rfl

theorem Kept'.trans {s s' s'' : Core K n (OcExt K c)} (h : Kept' s s') (h' : Kept' s' s'') : Kept' s s'' :=
  ⟨h'.w.trans h.w, h'.mu.trans h.mu, h'.ok, h'.mem.trans h.mem, h'.eps.trans h.eps⟩

/-! ## The object -/

/-- a filter whose memory has a row, and another number of columns than the filter has weights -/
def OcObj.Broken (o : OcObj K n) : Prop := o.width ≠ n ∧ MemOk (c := o.width) o.obj.core.ext

/-- the weights, `mu`, `eps` and the number of rows of the memory: what must survive -/
def OcObj.params (o : OcObj K n) : Vec K n × K × K × ℕ :=
  let q : OcExt K o.width := o.obj.core.ext
  (o.obj.core.w, o.obj.core.mu, q.eps, q.memX.length)

/-- the calls that are meant to change the weights -/
def OcCall.learns : OcCall K → Prop
  | .run _ _ | .pretrained _ _ _ _ | .adapt _ _ => True
  | .predict _ | .clear => False

/-- the data of the call contain a row of `n` values (only data sets count: `adapt` does not touch the attribute `n`) -/
def OcCall.hasRow (n : ℕ) : OcCall K → Prop
  | .run _ x | .pretrained _ x _ _ => ∃ r ∈ x, r.length = n
  | _ => False

theorem attrAfter_cases (d : List K) (x : List (List K)) (a : ℕ) : attrAfter d x a = a ∨ ∃ r ∈ x, attrAfter d x a = r.length := by
  unfold attrAfter
  cases x with
  | nil => exact Or.inl rfl
  | cons x0 t =>
    dsimp only
    split
    · exact Or.inr ⟨x0, List.mem_cons_self, rfl⟩
    · exact Or.inl rfl

theorem mem_pySliceTo {α : Type} {l : List α} {i : ℤ} {a : α} (h : a ∈ pySliceTo l i) : a ∈ l := by
  unfold pySliceTo at h
  split at h
  · exact List.mem_of_mem_take h
  · exact List.mem_of_mem_take h

theorem mem_pySliceFrom {α : Type} {l : List α} {i : ℤ} {a : α} (h : a ∈ pySliceFrom l i) : a ∈ l := by
  unfold pySliceFrom at h
  split at h
  · exact List.mem_of_mem_drop h
  · exact List.mem_of_mem_drop h

theorem repeatW (hc : c ≠ n) (d : List K) (x : List (List K)) (k : ℕ) (o : Obj (ocnlmsW K n c)) (h : MemOk (c := c) o.core.ext) :
    Kept' (c := c) o.core (repeatM (run (ocnlmsW K n c) d x) k o).2.core ∧
    ((repeatM (run (ocnlmsW K n c) d x) k o).2.core.nAttr = o.core.nAttr ∨ ∃ r ∈ x, (repeatM (run (ocnlmsW K n c) d x) k o).2.core.nAttr = r.length) := by
  cases k with
  | zero => exact ⟨⟨rfl, rfl, h, rfl, rfl⟩, Or.inl rfl⟩
  | succ k =>
    obtain ⟨⟨e, h1⟩, h2, h3⟩ := runW_fails hc o h d x
    unfold repeatM
    rw [M.bind_error (s' := (run (ocnlmsW K n c) d x o).2) (e := e) (Prod.ext h1 rfl)]
    refine ⟨h2, ?_⟩
    rw [h3]
    exact attrAfter_cases d x _

theorem pretrainedW (hc : c ≠ n) (d : List K) (x : List (List K)) (q : ℚ) (k : ℕ) (o : Obj (ocnlmsW K n c)) (h : MemOk (c := c) o.core.ext) :
    (∃ e, (pretrainedRun (ocnlmsW K n c) d x q k o).1 = .error e) ∧ Kept' (c := c) o.core (pretrainedRun (ocnlmsW K n c) d x q k o).2.core ∧
    ((pretrainedRun (ocnlmsW K n c) d x q k o).2.core.nAttr = o.core.nAttr ∨ ∃ r ∈ x, (pretrainedRun (ocnlmsW K n c) d x q k o).2.core.nAttr = r.length) := by
  unfold pretrainedRun
  generalize truncRat _ = m
  obtain ⟨h1, h2⟩ := repeatW hc (pySliceTo d m) (pySliceTo x m) k o h
  generalize hr : repeatM (run (ocnlmsW K n c) (pySliceTo d m) (pySliceTo x m)) k o = r at h1 h2
  obtain ⟨r1, o1⟩ := r
  have h2' : o1.core.nAttr = o.core.nAttr ∨ ∃ r ∈ x, o1.core.nAttr = r.length := by
    rcases h2 with h2 | ⟨r, hr, h2⟩
    · exact Or.inl h2
    · exact Or.inr ⟨r, mem_pySliceTo hr, h2⟩
  cases r1 with
  | error e =>
    rw [M.bind_error hr]
    exact ⟨⟨e, rfl⟩, h1, h2'⟩
  | ok u =>
    rw [M.bind_ok hr]
    obtain ⟨h3, h4, h5⟩ := runW_fails hc o1 h1.ok (pySliceFrom d m) (pySliceFrom x m)
    refine ⟨h3, h1.trans h4, ?_⟩
    rw [h5]
    rcases attrAfter_cases (pySliceFrom d m) (pySliceFrom x m) o1.core.nAttr with h6 | ⟨r, hr, h6⟩
    · rw [h6]; exact h2'
    · exact Or.inr ⟨r, mem_pySliceFrom hr, h6⟩

theorem raised_isSome {α : Type} {r : Except Err α} {e : Err} (h : r = .error e) : (raised r).isSome := by subst h; rfl

/-- one call on a broken filter, other than `clear_memory` -/
theorem Broken.call {o : OcObj K n} (h : o.Broken) (a : OcCall K) (ha : a ≠ .clear) :
    (a.learns → (o.call a).1.isSome) ∧ (o.call a).2.Broken ∧ (o.call a).2.params = o.params ∧
    ((o.call a).2.obj.core.nAttr = n → o.obj.core.nAttr = n ∨ a.hasRow n) := by
  obtain ⟨c, obj⟩ := o
  obtain ⟨hc, hok⟩ := h
  have key : ∀ o' : Obj (ocnlmsW K n c), Kept' (c := c) obj.core o'.core → OcObj.Broken ⟨c, o'⟩ ∧ OcObj.params ⟨c, o'⟩ = OcObj.params ⟨c, obj⟩ := by
    intro o' hk
    exact ⟨⟨hc, hk.ok⟩, Prod.ext hk.w (Prod.ext hk.mu (Prod.ext hk.eps hk.mem))⟩
  cases a with
  | run d x =>
    obtain ⟨⟨e, h1⟩, h2, h3⟩ := runW_fails hc obj hok d x
    refine ⟨fun _ => raised_isSome h1, (key _ h2).1, (key _ h2).2, fun h => ?_⟩
    have h' : (run (ocnlmsW K n c) d x obj).2.core.nAttr = n := h
    rw [h3] at h'
    rcases attrAfter_cases d x obj.core.nAttr with h6 | ⟨r, hr, h6⟩
    · exact Or.inl (h6.symm.trans h')
    · exact Or.inr ⟨r, hr, h6.symm.trans h'⟩
  | pretrained d x q k =>
    obtain ⟨⟨e, h1⟩, h2, h3⟩ := pretrainedW hc d x q k obj hok
    refine ⟨fun _ => raised_isSome h1, (key _ h2).1, (key _ h2).2, fun h => ?_⟩
    rcases h3 with h3 | ⟨r, hr, h3⟩
    · exact Or.inl (h3.symm.trans h)
    · exact Or.inr ⟨r, hr, h3.symm.trans h⟩
  | adapt d x =>
    obtain ⟨h1, h2⟩ := adaptW_fails hc obj hok d x
    have h2' : Kept' (c := c) obj.core (Padasip.adapt (ocnlmsW K n c) d x obj).2.core := ⟨h2.w, h2.mu, h2.ok, h2.mem, h2.eps⟩
    exact ⟨fun _ => raised_isSome h1, (key _ h2').1, (key _ h2').2, fun h => Or.inl (h2.nAttr.symm.trans h)⟩
  | predict x =>
    obtain ⟨h2, -, -⟩ := predictW_kept hok x
    have h2' : Kept' (c := c) obj.core (Padasip.predict (ocnlmsW K n c) x obj).2.core := ⟨h2.w, h2.mu, h2.ok, h2.mem, h2.eps⟩
    exact ⟨fun h => h.elim, (key _ h2').1, (key _ h2').2, fun h => Or.inl (h2.nAttr.symm.trans h)⟩
  | clear => exact absurd rfl ha

/-- C130: on a broken filter every `run`, `pretrained_run` and `adapt`, with whatever data, raises and leaves the weights alone, for ever, as long as `clear_memory` is not
called. -/
theorem C130_unusable {o : OcObj K n} (h : o.Broken) (cs : List (OcCall K)) (hcs : ∀ a ∈ cs, a ≠ .clear) :
    List.Forall₂ (fun a r => a.learns → r.isSome) cs (o.calls cs).1 ∧ (o.calls cs).2.Broken ∧ (o.calls cs).2.params = o.params := by
  induction cs generalizing o with
  | nil => exact ⟨.nil, h, rfl⟩
  | cons a t ih =>
    obtain ⟨h1, h2, h3, -⟩ := Broken.call h a (hcs a List.mem_cons_self)
    obtain ⟨i1, i2, i3⟩ := ih h2 fun b hb => hcs b (List.mem_cons_of_mem _ hb)
    exact ⟨.cons h1 i1, i2, i3.trans h3⟩

theorem clear_broken {o : OcObj K n} (h : o.Broken) (hn : o.obj.core.nAttr ≠ n) : o.clear.Broken ∧ o.clear.params = o.params ∧ o.clear.obj.core.nAttr ≠ n := by
  obtain ⟨c, obj⟩ := o
  obtain ⟨hc, hok⟩ := h
  have h0 : 0 < (obj.core.ext : OcExt K c).memX.length := lt_of_le_of_lt (Nat.zero_le _) hok.2
  refine ⟨⟨hn, ⟨?_, ?_⟩⟩, Prod.ext rfl (Prod.ext rfl (Prod.ext rfl ?_)), hn⟩
  · exact List.length_replicate.trans List.length_replicate.symm
  · exact lt_of_lt_of_eq h0 List.length_replicate.symm
  · exact List.length_replicate

/-- C130: `clear_memory` does not help either, as long as no data set with a row of the right length is given to `run` (or `pretrained_run`). -/
theorem C130_clear_does_not_help {o : OcObj K n} (h : o.Broken) (hn : o.obj.core.nAttr ≠ n) (cs : List (OcCall K)) (hcs : ∀ a ∈ cs, ¬ a.hasRow n) :
    List.Forall₂ (fun a r => a.learns → r.isSome) cs (o.calls cs).1 ∧ (o.calls cs).2.Broken ∧ (o.calls cs).2.params = o.params := by
  induction cs generalizing o with
  | nil => exact ⟨.nil, h, rfl⟩
  | cons a t ih =>
    have hstep : (a.learns → (o.call a).1.isSome) ∧ (o.call a).2.Broken ∧ (o.call a).2.params = o.params ∧ (o.call a).2.obj.core.nAttr ≠ n := by
      by_cases hcl : a = .clear
      · subst hcl
        obtain ⟨c1, c2, c3⟩ := clear_broken h hn
        exact ⟨fun h => h.elim, c1, c2, c3⟩
      · obtain ⟨h1, h2, h3, h4⟩ := Broken.call h a hcl
        exact ⟨h1, h2, h3, fun he => (h4 he).elim hn (hcs a List.mem_cons_self)⟩
    obtain ⟨h1, h2, h3, h4⟩ := hstep
    obtain ⟨i1, i2, i3⟩ := ih h2 h4 fun b hb => hcs b (List.mem_cons_of_mem _ hb)
    exact ⟨.cons h1 i1, i2, i3.trans h3⟩

theorem clear_eq (o : OcObj K n) (h : o.obj.core.nAttr = n) :
    o.clear = ⟨n, ⟨⟨o.obj.core.w, n, o.obj.core.mu, ocClear (o.obj.core.ext : OcExt K o.width).memX.length ⟨(o.obj.core.ext : OcExt K o.width).eps, true, [], [], 0⟩⟩, o.obj.wHist⟩⟩ := by
  obtain ⟨c, ⟨⟨w, a, mu, q⟩, H⟩⟩ := o
  have h' : a = n := h
  subst h'
  rfl

/-- C130: the repair: `run` on any data set whose first row has the right length - which raises - and then `clear_memory`: the filter is in the state of an ordinary filter with
the same weights, `mu`, `eps` and `mem` whose memory has been cleared. -/
theorem C130_repair {o : OcObj K n} (h : o.Broken) (d : List K) (x0 : List K) (t : List (List K)) (hl : d.length = (x0 :: t).length) (hx : x0.length = n) :
    (o.call (.run d (x0 :: t))).1.isSome ∧ ((o.call (.run d (x0 :: t))).2.call .clear).1 = none ∧
    ∃ H, ((o.call (.run d (x0 :: t))).2.call .clear).2
      = ⟨n, ⟨⟨o.obj.core.w, n, o.obj.core.mu, ocClear (o.obj.core.ext : OcExt K o.width).memX.length ⟨(o.obj.core.ext : OcExt K o.width).eps, true, [], [], 0⟩⟩, H⟩⟩ := by
  obtain ⟨h1, -, h3, -⟩ := Broken.call h (.run d (x0 :: t)) (fun h => by cases h)
  refine ⟨h1 trivial, rfl, (o.call (.run d (x0 :: t))).2.obj.wHist, ?_⟩
  have hn : (o.call (.run d (x0 :: t))).2.obj.core.nAttr = n := by
    obtain ⟨c, obj⟩ := o
    obtain ⟨hc, hok⟩ := h
    obtain ⟨-, -, h3⟩ := runW_fails hc obj hok d (x0 :: t)
    refine Eq.trans h3 ?_
    unfold attrAfter
    dsimp only
    rw [if_pos hl, hx]
  have := clear_eq _ hn
  refine Eq.trans this ?_
  have e1 : (o.call (.run d (x0 :: t))).2.obj.core.w = o.obj.core.w := congrArg Prod.fst h3
  have e2 : (o.call (.run d (x0 :: t))).2.obj.core.mu = o.obj.core.mu := congrArg (fun p => p.2.1) h3
  have e3 := congrArg (fun p => p.2.2.1) h3
  have e4 := congrArg (fun p => p.2.2.2) h3
  unfold OcObj.params at e3 e4
  dsimp only at e3 e4
  rw [e1, e2, e3, e4]

/-! ## How a filter gets broken -/

theorem predict_wrong (h1 : n = 1) {s : Core K n (OcExt K n)} (h : MemOk s.ext) (x : List K) (hx : x.length ≠ n) (ha : s.nAttr = x.length) :
    (ocPredictW x s).1 = .error .valueError ∧ Kept s (ocPredictW x s).2 := by
  obtain ⟨hk, -, -⟩ := predictW_kept h x
  refine ⟨?_, hk⟩
  obtain ⟨md, hr⟩ := readW_ok h
  unfold ocPredictW
  rw [M.bind_ok hr]
  dsimp only
  have hm : (ocCenter s.nAttr s.ext).length = x.length ∨ (ocCenter s.nAttr s.ext).length = 1 := by
    rw [← h1]
    unfold ocCenter
    split
    · split
      · left; rw [List.length_replicate, ha]
      · right; exact List.length_ofFn
    · right; exact List.length_ofFn
  generalize ocCenter s.nAttr s.ext = mx at hm
  have hb : (∃ v, bsub x mx = .ok v ∧ v.length ≠ n) ∨ bsub x mx = .error .valueError := by
    unfold bsub
    split
    · rename_i he
      exact Or.inl ⟨_, rfl, by rw [List.length_zipWith, ← he, min_self]; exact hx⟩
    · rename_i he
      obtain ⟨b, rfl⟩ : ∃ b, mx = [b] := List.length_eq_one_iff.mp (by omega)
      exact Or.inl ⟨_, rfl, by rw [List.length_map]; exact hx⟩
  rcases hb with ⟨v, hv, hl⟩ | hv
  · rw [hv]
    have ha : asVec n v = .error .valueError := by
      unfold asVec; rw [dif_neg hl]
    rw [M.bind_ok (show (M.lift (.ok v) : M (Core K n (OcExt K n)) (List K)) _ = _ from rfl), ha]
    rfl
  · rw [hv]; rfl

theorem run_wrong (o : Obj (ocnlmsW K n n)) (hok : MemOk (c := n) o.core.ext) (d : List K) (x0 : List K) (t : List (List K)) (hl : d.length = (x0 :: t).length) (hx : x0.length ≠ n) :
    ∃ o' : Obj (ocnlmsW K n n), run (ocnlmsW K n n) d (x0 :: t) o = (.error .valueError, o') ∧ Kept' (c := n) o.core o'.core ∧ o'.core.nAttr = x0.length := by
  unfold run
  rw [if_neg (not_not.mpr hl)]
  dsimp only
  rw [M.modify_bind]
  split
  · exact ⟨_, rfl, ⟨rfl, rfl, hok, rfl, rfl⟩, rfl⟩
  · rw [M.modify_bind]
    cases d with
    | nil => cases hl
    | cons d0 ds =>
      rw [List.zip_cons_cons]
      generalize hs : ({ ({ o with core := o.core.withN x0.length } : Obj (ocnlmsW K n n)) with
        wHist := List.replicate (x0 :: t).length (List.replicate (({ o with core := o.core.withN x0.length } : Obj (ocnlmsW K n n))).core.nAttr 0) } : Obj (ocnlmsW K n n)) = o1
      have hc1 : o1.core = o.core.withN x0.length := by rw [← hs]
      have ha1 : o1.core.nAttr = x0.length := by rw [hc1]; rfl
      have hok1 : MemOk (c := n) o1.core.ext := by rw [hc1]; exact hok
      have hloop : ∃ o2, runLoop (ocnlmsW K n n) 0 ((d0, x0) :: ds.zip t) o1 = (.error .valueError, o2) ∧ Kept (c := n) o1.core o2.core := by
        unfold runLoop
        by_cases h1 : n = 1
        · rcases bcast_cases o1.core.nAttr (List.ofFn o1.core.w) with ⟨v, hv⟩ | hv
          · have hw : histWrite (C := ocnlmsW K n n) 0 o1 = (.ok (), { o1 with wHist := o1.wHist.set 0 v }) := by
              unfold histWrite
              simp only [M.get_bind]
              rw [hv]; rfl
            rw [M.bind_ok hw]
            obtain ⟨p1, p2⟩ := predict_wrong h1 hok1 x0 hx ha1
            have hbody : (baseBody ocPredictW ocRuleW d0 x0 : M (Core K n (OcExt K n)) (K × K)) o1.core = (.error .valueError, (ocPredictW x0 o1.core : Except Err K × Core K n (OcExt K n)).2) := by
              unfold baseBody
              rw [M.bind_error (s' := (ocPredictW x0 o1.core : Except Err K × Core K n (OcExt K n)).2) (Prod.ext p1 rfl)]
            have hfst : ((baseBody ocPredictW ocRuleW d0 x0 : M (Core K n (OcExt K n)) (K × K)) o1.core).1 = .error .valueError := by rw [hbody]
            have hb : Obj.liftM ((ocnlmsW K n n).body d0 x0) { o1 with wHist := o1.wHist.set 0 v }
                = (.error .valueError, ⟨((baseBody ocPredictW ocRuleW d0 x0 : M (Core K n (OcExt K n)) (K × K)) o1.core).2, o1.wHist.set 0 v⟩) :=
              Prod.ext hfst rfl
            rw [M.bind_error hb]
            refine ⟨_, rfl, ?_⟩
            dsimp only
            rw [hbody]
            exact p2
          · have hw : histWrite (C := ocnlmsW K n n) 0 o1 = (.error .valueError, o1) := by
              unfold histWrite
              simp only [M.get_bind]
              rw [hv]; rfl
            rw [M.bind_error hw]
            exact ⟨_, rfl, ⟨rfl, rfl, rfl, hok1, rfl, rfl⟩⟩
        · have hv : bcast o1.core.nAttr (List.ofFn o1.core.w) = .error .valueError := by
            unfold bcast
            rw [if_neg (by rw [List.length_ofFn, ha1]; exact fun h => hx h.symm)]
            split
            · rename_i a heq
              have := congrArg List.length heq
              rw [List.length_ofFn] at this
              exact absurd this h1
            · rfl
          have hw : histWrite (C := ocnlmsW K n n) 0 o1 = (.error .valueError, o1) := by
            unfold histWrite
            simp only [M.get_bind]
            rw [hv]; rfl
          rw [M.bind_error hw]
          exact ⟨_, rfl, ⟨rfl, rfl, rfl, hok1, rfl, rfl⟩⟩
      obtain ⟨o2, hr, h2⟩ := hloop
      rw [M.bind_error hr]
      refine ⟨o2, rfl, ⟨h2.w.trans (by rw [hc1]; rfl), h2.mu.trans (by rw [hc1]; rfl), h2.ok, h2.mem.trans (by rw [hc1]; rfl), h2.eps.trans (by rw [hc1]; rfl)⟩, ?_⟩
      exact h2.nAttr.trans (by rw [hc1]; rfl)

/-- C130: how a filter gets broken: a `run` on data whose first row has a wrong length `m` - rejected with `ValueError` - followed by `clear_memory`.  The weights, `mu`, `eps`
and `mem` are unchanged; the new memory has `m` columns. -/
theorem C130_breaks (o : Obj (ocnlms K n)) (hok : MemOk (c := n) o.core.ext) (d : List K) (x0 : List K) (t : List (List K)) (hl : d.length = (x0 :: t).length) (hx : x0.length ≠ n) :
    ((⟨n, o⟩ : OcObj K n).call (.run d (x0 :: t))).1 = some .valueError ∧
    (((⟨n, o⟩ : OcObj K n).call (.run d (x0 :: t))).2.call .clear).1 = none ∧
    (((⟨n, o⟩ : OcObj K n).call (.run d (x0 :: t))).2.call .clear).2.Broken ∧
    (((⟨n, o⟩ : OcObj K n).call (.run d (x0 :: t))).2.call .clear).2.obj.core.nAttr ≠ n ∧
    (((⟨n, o⟩ : OcObj K n).call (.run d (x0 :: t))).2.call .clear).2.params = (⟨n, o⟩ : OcObj K n).params := by
  obtain ⟨o', hr, hk, hn⟩ := run_wrong o hok d x0 t hl hx
  have hcall : (⟨n, o⟩ : OcObj K n).call (.run d (x0 :: t)) = (some .valueError, ⟨n, o'⟩) := by
    show (raised (run (ocnlmsW K n n) d (x0 :: t) o).1, (⟨n, (run (ocnlmsW K n n) d (x0 :: t) o).2⟩ : OcObj K n)) = _
    rw [hr]; rfl
  rw [hcall]
  have h0 : 0 < (o'.core.ext : OcExt K n).memX.length := lt_of_le_of_lt (Nat.zero_le _) hk.ok.2
  refine ⟨rfl, rfl, ⟨fun h => hx (hn.symm.trans h), ⟨List.length_replicate.trans List.length_replicate.symm, lt_of_lt_of_eq h0 List.length_replicate.symm⟩⟩,
    fun h => hx (hn.symm.trans h), Prod.ext hk.w (Prod.ext hk.mu (Prod.ext hk.eps (List.length_replicate.trans hk.mem)))⟩

/-- the hypotheses: a new filter with two weights and a memory of three rows, given rows of three values -/
example : ∃ o : Obj (ocnlms ℚ 2), MemOk (c := 2) o.core.ext ∧ (([1] : List ℚ).length = ([[1, 2, 3]] : List (List ℚ)).length ∧ ([1, 2, 3] : List ℚ).length ≠ 2) :=
  ⟨⟨⟨fun _ => 0, 2, 1 / 10, ocClear 3 ⟨1, true, [], [], 0⟩⟩, []⟩, ⟨rfl, by decide⟩, rfl, by decide⟩

theorem predictW_used (hc : c ≠ n) (h1 : c ≠ 1) {s : Core K n (OcExt K c)} (h : MemOk s.ext) (hu : ¬(s.ext.memEmpty = true ∧ s.ext.memIdx = 0)) (x : List K) :
    (ocPredictW x s).1 = .error .valueError := by
  obtain ⟨md, hr⟩ := readW_ok h
  unfold ocPredictW
  rw [M.bind_ok hr]
  dsimp only
  have hl := centre_used_length s.nAttr hu
  have hb : (∃ v, bsub x (ocCenter s.nAttr s.ext) = .ok v ∧ v.length = c) ∨ bsub x (ocCenter s.nAttr s.ext) = .error .valueError := by
    unfold bsub
    split
    · rename_i he
      exact Or.inl ⟨_, rfl, by simp [he, hl]⟩
    · split
      · rename_i heq _
        rw [heq] at hl
        exact (h1 hl.symm).elim
      · exact Or.inl ⟨_, rfl, by simp [hl]⟩
      · exact Or.inr rfl
  rcases hb with ⟨v, hv, hvl⟩ | hv
  · rw [hv]
    have ha : asVec n v = .error .valueError := by
      unfold asVec
      rw [dif_neg (by omega)]
    rw [M.bind_ok (show (M.lift (.ok v) : M (Core K n (OcExt K c)) (List K)) _ = _ from rfl), ha]
    rfl
  · rw [hv]
    rfl

/-- C130: `predict` of such a filter raises as well, from the second call on and unless the memory has one column (the rejected rows had one value). -/
theorem C130_predict {o : OcObj K n} (h : o.Broken) (h1 : o.width ≠ 1) (x x' : List K) :
    ((o.call (.predict x)).2.call (.predict x')).1 = some .valueError := by
  obtain ⟨c, obj⟩ := o
  obtain ⟨hc, hok⟩ := h
  have hk := predictW_kept (n := n) (s := obj.core) hok x
  have := predictW_used hc h1 hk.1.ok hk.2.1 x'
  exact congrArg raised this

/-- the hypotheses: two weights, a memory of three rows of three values -/
example : ∃ o : OcObj ℚ 2, o.Broken ∧ o.width ≠ 1 :=
  ⟨⟨3, ⟨⟨fun _ => 0, 3, 1 / 10, ocClear 3 ⟨1, true, [], [], 0⟩⟩, []⟩⟩, ⟨by decide, ⟨rfl, by decide⟩⟩, by decide⟩

end Padasip
