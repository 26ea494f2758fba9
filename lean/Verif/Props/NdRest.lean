import Verif.Model.NdRest
import Verif.Props.NdMem
import Verif.Lemmas.Rules
import Verif.Spec.Ready
import Verif.Spec.Example

set_option linter.unusedSectionVars false
set_option linter.unusedSimpArgs false
set_option linter.unusedVariables false

/-!
# C150, C151: which shapes `adapt` of AP, OCNLMS and RLS accepts
-/

namespace Padasip

variable {K : Type} {n order : Nat}

/-! ## assignment -/

/-- The array `x`, assigned to a row of length `n`, gives `v`: a number or a single entry is repeated, `n` entries are copied; leading axes of length 1 do not matter. -/
def RowOf (x : Arr K) (v : Vec K n) : Prop :=
  (x.shape = [] ∧ ∀ i, v i = x.entry []) ∨
  ∃ k, (x.shape = List.replicate k 1 ++ [1] ∧ ∀ i, v i = x.entry (List.replicate k 0 ++ [0])) ∨
    (x.shape = List.replicate k 1 ++ [n] ∧ ∀ i : Fin n, v i = x.entry (List.replicate k 0 ++ [i.val]))

/-- The array `d` has exactly one entry, `a`. -/
def OneEntry (d : Arr K) (a : K) : Prop := ∃ k, d.shape = List.replicate k 1 ∧ a = d.entry (List.replicate k 0)

theorem stripOnes_rep (k m : Nat) : stripOnes (List.replicate k 1 ++ [m]) = [m] := by
  induction k with
  | zero => by_cases h : m = 1 <;> simp [stripOnes]
  | succ k ih =>
    cases k with
    | zero => show stripOnes [1, m] = [m]; exact ih
    | succ k => exact ih

theorem stripOnes_spec (s : List Nat) : ∃ k, s = List.replicate k 1 ++ stripOnes s := by
  induction s with
  | nil => exact ⟨0, rfl⟩
  | cons a s ih =>
    cases s with
    | nil => exact ⟨0, by simp [stripOnes]⟩
    | cons b s =>
      by_cases h : a = 1
      · subst h
        obtain ⟨k, hk⟩ := ih
        exact ⟨k + 1, by rw [show stripOnes (1 :: b :: s) = stripOnes (b :: s) from rfl, List.replicate_succ, List.cons_append, ← hk]⟩
      · exact ⟨0, by rw [stripOnes]; · rfl
                     · intro a' s' h2; simp_all⟩

theorem stripOnes_ne_nil (l : List Nat) : ∀ a, stripOnes (a :: l) ≠ [] := by
  induction l with
  | nil => intro a; simp [stripOnes]
  | cons b l ih =>
    intro a
    by_cases h : a = 1
    · subst h; exact ih b
    · rw [stripOnes]
      · exact List.cons_ne_nil _ _
      · intro a' s' h2; cases h2; exact h rfl

theorem assignVec_ok {x : Arr K} {v : Vec K n} (h : RowOf x v) : assignVec n x = .ok v := by
  rcases h with ⟨h1, h2⟩ | ⟨k, ⟨h1, h2⟩ | ⟨h1, h2⟩⟩
  · simp only [assignVec, h1, stripOnes, true_or, if_true]
    congr 1; funext i; rw [h2]; rfl
  · have hs : stripOnes x.shape = [1] := by rw [h1, stripOnes_rep]
    simp only [assignVec, hs, true_or, or_true, if_true]
    congr 1; funext i; rw [h2]; simp [h1, bidx]
  · have hs : stripOnes x.shape = [n] := by rw [h1, stripOnes_rep]
    simp only [assignVec, hs, true_or, or_true, if_true]
    congr 1; funext i; rw [h2, bidx_self i.isLt]; simp [h1]

theorem assignVec_error {x : Arr K} (h : ¬ ∃ v : Vec K n, RowOf x v) : assignVec n x = .error .valueError := by
  unfold assignVec
  obtain ⟨k, hk⟩ := stripOnes_spec x.shape
  rw [if_neg]
  rintro (hs | hs | hs)
  · refine h ⟨fun _ => x.entry [], .inl ⟨?_, fun _ => rfl⟩⟩
    rcases hx : x.shape with _ | ⟨a, t⟩
    · rfl
    · exfalso
      exact stripOnes_ne_nil t a (by rw [← hx]; exact hs)
  · exact h ⟨fun _ => x.entry (List.replicate k 0 ++ [0]), .inr ⟨k, .inl ⟨by rw [hs] at hk; exact hk, fun _ => rfl⟩⟩⟩
  · exact h ⟨fun i => x.entry (List.replicate k 0 ++ [i.val]), .inr ⟨k, .inr ⟨by rw [hs] at hk; exact hk, fun _ => rfl⟩⟩⟩

theorem assignNum_ok {d : Arr K} {a : K} (h : OneEntry d a) : assignNum d = .ok a := by
  obtain ⟨k, h1, h2⟩ := h
  unfold assignNum
  rw [if_pos, h2, h1, List.length_replicate]
  rw [h1]; intro m hm; exact List.eq_of_mem_replicate hm

theorem assignNum_error {d : Arr K} (h : ¬ ∃ a, OneEntry d a) : assignNum d = .error .valueError := by
  unfold assignNum
  rw [if_neg]
  intro h1
  exact h ⟨_, d.shape.length, List.eq_replicate_iff.mpr ⟨rfl, h1⟩, rfl⟩

theorem assignNum_cases (d : Arr K) : (∃ a, assignNum d = .ok a) ∨ assignNum d = .error .valueError := by
  unfold assignNum; split
  · exact .inl ⟨_, rfl⟩
  · exact .inr rfl

/-! ## AP -/

theorem liftM_at [Scalar K] {C : FilterClass K n} {α : Type} {m : M (Core K n C.Ext) α} {o : Obj C} {r : Except Err α} {c : Core K n C.Ext} (h : m o.core = (r, c)) :
    Obj.liftM m o = (r, ⟨c, o.wHist⟩) := by
  unfold Obj.liftM; rw [h]

/-- C150: AP.  An input that fills a column of the memory and a target with one entry: the call is `adapt` with these numbers. -/
theorem C150_ap_accepted [Scalar K] (solve : Solver K) (o : Obj (ap K n solve order)) {d x : Arr K} {a : K} {v : Vec K n} (hd : OneEntry d a) (hx : RowOf x v) :
    apAdaptNd solve d x o = adapt (ap K n solve order) a (List.ofFn v) o := by
  have key : ∀ s : Core K n (ApExt K n order), apPushArr d x s = apPush a (List.ofFn v) s := by
    intro s
    unfold apPushArr apPush
    split
    · rfl
    · simp only [M.modify_bind, assignVec_ok hx, assignNum_ok hd, bcastVec_ofFn, M.lift_ok_bind]
  have h2 : (apPushArr d x : M (Core K n (ApExt K n order)) Unit) = apPush a (List.ofFn v) := funext key
  unfold apAdaptNd apAdaptCore
  rw [h2]
  rfl

/-- C150: AP.  An input that does not fill a column of the memory raises `ValueError`; the columns of the input memory have been shifted (the newest is now there twice), weights
and targets stay. -/
theorem C150_ap_bad_input [Scalar K] (solve : Solver K) (ho : 0 < order) (o : Obj (ap K n solve order)) (d : Arr K) {x : Arr K} (hx : ¬ ∃ v : Vec K n, RowOf x v)
    (q : ApExt K n order) (hq : q = o.core.ext) :
    ∃ s : Core K n (ApExt K n order), apAdaptNd solve d x o = (.error .valueError, ⟨s, o.wHist⟩) ∧ s.w = o.core.w ∧
      s.ext.dMem = q.dMem ∧ ∀ i j, s.ext.xMem i j = q.xMem i ⟨j.val - 1, by omega⟩ := by
  have key : ∀ s : Core K n (ApExt K n order), apAdaptCore solve d x s
      = (.error .valueError, { s with ext := { s.ext with xMem := shiftCols s.ext.xMem } }) := by
    intro s
    refine M.bind_error ?_
    unfold apPushArr
    rw [if_neg (by omega)]
    simp only [M.modify_bind, assignVec_error hx]
    rfl
  subst hq
  refine ⟨_, liftM_at (C := ap K n solve order) (key o.core), rfl, rfl, fun i j => ?_⟩
  show shiftCols _ i j = _
  unfold shiftCols
  split
  · congr 1; ext; show j.val = j.val - 1; omega
  · rfl

/-- C150: AP.  A good input with a target that does not have exactly one entry raises `ValueError` too; the input is in the memory, the target memory has been shifted, the
weights stay. -/
theorem C150_ap_bad_target [Scalar K] (solve : Solver K) (ho : 0 < order) (o : Obj (ap K n solve order)) {d x : Arr K} {v : Vec K n} (hx : RowOf x v)
    (hd : ¬ ∃ a, OneEntry d a) (q : ApExt K n order) (hq : q = o.core.ext) :
    ∃ s : Core K n (ApExt K n order), apAdaptNd solve d x o = (.error .valueError, ⟨s, o.wHist⟩) ∧ s.w = o.core.w ∧
      (∀ j, s.ext.dMem j = q.dMem ⟨j.val - 1, by omega⟩) ∧
      ∀ i j, s.ext.xMem i j = if j.val = 0 then v i else q.xMem i ⟨j.val - 1, by omega⟩ := by
  have key : ∀ s : Core K n (ApExt K n order), apAdaptCore solve d x s
      = (.error .valueError, { s with ext := { s.ext with
          xMem := fun i j => if j.val = 0 then v i else shiftCols s.ext.xMem i j, dMem := shiftVec s.ext.dMem } }) := by
    intro s
    refine M.bind_error ?_
    unfold apPushArr
    rw [if_neg (by omega)]
    simp only [M.modify_bind, assignVec_ok hx, assignNum_error hd, M.lift_ok_bind]
    rfl
  subst hq
  refine ⟨_, liftM_at (C := ap K n solve order) (key o.core), rfl, fun j => ?_, fun i j => ?_⟩
  · show shiftVec _ j = _
    unfold shiftVec
    split
    · congr 1; ext; show j.val = j.val - 1; omega
    · rfl
  · show (if j.val = 0 then v i else shiftCols _ i j) = _
    split
    · rfl
    · unfold shiftCols; rw [dif_neg (by assumption)]

/-! ## OCNLMS -/

/-- `a` is a number or an array of shape `(1,)` with the value `u` -/
def One (a : Arr K) (u : K) : Prop := (a.shape = [] ∧ a.entry [] = u) ∨ (a.shape = [1] ∧ a.entry [0] = u)

theorem One.lane {a : Arr K} {u : K} (h : One a u) : Lane a (fun _ : Fin n => u) := by
  rcases h with ⟨h1, h2⟩ | ⟨h1, h2⟩
  · exact ⟨.inl h1, fun i => by rw [h1, bidx_nil, h2]⟩
  · exact ⟨.inr (.inl h1), fun i => by rw [h1]; simpa [bidx] using h2⟩

theorem One.entry {a : Arr K} {u : K} (h : One a u) : OneEntry a u := by
  rcases h with ⟨h1, h2⟩ | ⟨h1, h2⟩
  · exact ⟨0, h1, h2.symm⟩
  · exact ⟨1, h1, h2.symm⟩

theorem one_num_zip (f : K → K → K) {a b : Arr K} {u v : K} (ha : One a u) (hb : b.shape = []) (hv : b.entry [] = v) :
    ∃ c, a.zip f b = .ok c ∧ One c (f u v) := by
  have hs : bshape a.shape b.shape = .ok a.shape := by rw [hb, bshape_nil']
  refine ⟨_, zip_ok hs, ?_⟩
  rcases ha with ⟨h1, h2⟩ | ⟨h1, h2⟩
  · refine .inl ⟨h1, ?_⟩
    show f (a.entry (bidx a.shape [])) (b.entry (bidx b.shape [])) = _
    rw [h1, hb, bidx_nil, h2, hv]
  · refine .inr ⟨h1, ?_⟩
    show f (a.entry (bidx a.shape [0])) (b.entry (bidx b.shape [0])) = _
    rw [h1, hb, bidx_nil, hv, ← h2]; simp [bidx]

theorem Lane.row {x : Arr K} {v : Vec K n} (h : Lane x v) : RowOf x v := by
  rcases h.1 with h1 | h1 | h1
  · exact .inl ⟨h1, fun i => by rw [← h.2 i, h1, bidx_nil]⟩
  · exact .inr ⟨0, .inl ⟨h1, fun i => by rw [← h.2 i, h1]; simp [bidx]⟩⟩
  · exact .inr ⟨0, .inr ⟨h1, fun i => by rw [← h.2 i, h1, bidx_self i.isLt]; rfl⟩⟩

theorem listVec [Scalar K] (v : Vec K n) : IsVec (⟨[(List.ofFn v).length], fun idx => (List.ofFn v).getD (idx.headD 0) 0⟩ : Arr K) v := by
  refine ⟨by simp, fun i => ?_⟩
  show (List.ofFn v).getD i.val 0 = v i
  simp [List.getD]

/-- the centred input and the output -/
theorem ocOut_ok [Scalar K] (w : Vec K n) (md : K) {mx x : Arr K} {u v : Vec K n} (hm : IsVec mx u) (hx : Lane x v) :
    ∃ c y, ocOutNd w md mx x = .ok (c, y) ∧ IsVec c (fun i => v i - u i) ∧ y.shape = [] ∧ y.entry [] = dot w (fun i => v i - u i) + md := by
  obtain ⟨c, hc, hl, hs⟩ := lane_zip (· - ·) hx hm.lane
  have hcv : IsVec c (fun i => v i - u i) := hl.vec (hs (.inr hm.1))
  obtain ⟨y, hy, -, hy1, hy2⟩ := vec_dot (isVec_vec w) hcv
  refine ⟨c, y.map (· + md), ?_, hcv, hy1, ?_⟩
  · unfold ocOutNd; rw [hc]; show ((Arr.vec w).dot c >>= _) = _; rw [hy]; rfl
  · show y.entry [] + md = _; rw [hy2]

/-- C150: OCNLMS.  A number, one value or `n` values as input and a number or one value as target: the call is `adapt` with these numbers. -/
theorem C150_oc_accepted [Scalar K] (o : Obj (ocnlms K n)) (q : OcExt K n) (hq : q = o.core.ext) (hm : OcOk q) (hn : o.core.nAttr = n)
    {d x : Arr K} {a : K} {v : Vec K n} (hd : One d a) (hx : Lane x v) :
    ocAdaptNd d x o = adapt (ocnlms K n) a (List.ofFn v) o := by
  have key : ∀ s : Core K n (OcExt K n), OcOk s.ext → s.nAttr = n → ocAdaptCore d x s = baseAdapt ocPredict ocRule a (List.ofFn v) s := by
    intro s h hn
    have he : ∀ q : OcExt K n, (ocAdvance q).eps = q.eps := by
      intro q; unfold ocAdvance; split <;> rfl
    -- the left-hand side
    obtain ⟨c0, y0, h1, -, hy1, hy2⟩ := ocOut_ok (n := n) s.w (ocMd s.ext) (listVec (ocMx s.ext)) hx
    have hp : ocPredictNd x s = (.ok y0, { s with ext := ocAdvance s.ext }) := by
      unfold ocPredictNd
      refine (M.bind_ok (ocRead_ok h)).trans ?_
      rw [hn, ocCenter_ofFn]
      show (M.lift (ocOutNd s.w (ocMd s.ext) _ x) >>= _) _ = _
      rw [h1]; rfl
    obtain ⟨e, he1, he2⟩ := one_num_zip (· - ·) hd hy1 hy2
    let s1 : Core K n (OcExt K n) := { s with ext := ocAdvance s.ext }
    have hk : OcOk s1.ext := OcOk_advance h
    let q1 : OcExt K n := ocStoreX s1.ext v
    have hk1 : OcOk q1 := OcOk_storeX hk v
    have hu : ocUpdateX v s1 = (.ok (), { s1 with ext := q1 }) := by
      simp [ocUpdateX, hk.2, q1, ocStoreX]
    obtain ⟨c, y, h2, hc, hz1, hz2⟩ := ocOut_ok (n := n) s.w (ocMd q1) (listVec (ocMx q1)) hx
    obtain ⟨t, ht1, ht2⟩ := one_num_zip (· + ·) he2 hz1 hz2
    obtain ⟨p, hp1, hp2, -⟩ := vec_dot hc hc
    have hl1 := lane_map (fun p => s.mu / (s.ext.eps + p)) hp2
    obtain ⟨g, hg1, hg2, -⟩ := lane_zip (· * ·) hl1 (he2.lane (n := n))
    obtain ⟨dw, hdw1, hdw2, -⟩ := lane_zip (· * ·) hg2 hc.lane
    have hlen : (ocAdvance q1).memD.length ≠ 0 := by
      have := OcOk_advance hk1
      have := this.1; have := (OcOk_advance hk1).2; omega
    have hrule : ocRuleNd e x s1 = (.ok dw, { s1 with ext := ocStoreD (ocAdvance q1) (a - (dot s.w (fun i => v i - ocMx s.ext i) + ocMd s.ext) + (dot s.w (fun i => v i - ocMx q1 i) + ocMd q1)) }) := by
      unfold ocRuleNd
      rw [assignVec_ok hx.row]
      refine (M.bind_ok hu).trans ?_
      refine (M.bind_ok (ocRead_ok (s := { s1 with ext := q1 }) hk1)).trans ?_
      show (M.get >>= _) _ = _
      rw [M.get_bind]
      show (M.lift (ocOutNd s.w (ocMd q1) (⟨[(ocCenter s.nAttr q1).length], _⟩ : Arr K) x) >>= _) _ = _
      have hcen : ocCenter s.nAttr q1 = List.ofFn (ocMx q1) := by rw [hn, ocCenter_ofFn]
      rw [hcen, h2]
      show (M.lift (e.zip (· + ·) y) >>= _) _ = _
      rw [ht1]
      show (M.lift (assignNum t) >>= _) _ = _
      rw [assignNum_ok ht2.entry]
      refine (M.bind_ok (s' := { s1 with ext := ocStoreD (ocAdvance q1) (a - (dot s.w (fun i => v i - ocMx s.ext i) + ocMd s.ext) + (dot s.w (fun i => v i - ocMx q1 i) + ocMd q1)) }) (a := ()) ?_).trans ?_
      · show ocUpdateD _ _ = _
        unfold ocUpdateD; rw [M.get_bind, if_neg hlen]; rfl
      · show (M.lift (c.dot c) >>= _) _ = _
        rw [hp1]
        show (M.lift ((p.map fun p => s.mu / ((ocAdvance q1).eps + p)).zip (· * ·) e) >>= _) _ = _
        have heps : (ocAdvance q1).eps = s.ext.eps := by rw [he]; show (ocAdvance s.ext).eps = _; rw [he]
        rw [heps, hg1]
        show M.lift (g.zip (· * ·) c) _ = _
        rw [hdw1]; rfl
    unfold ocAdaptCore
    refine (M.bind_ok hp).trans ?_
    rw [he1]
    refine (M.bind_ok hrule).trans ?_
    show (M.lift (iadd s.w dw) >>= _) _ = _
    rw [iadd_lane s.w hdw2]
    symm
    unfold baseAdapt
    refine (M.bind_ok (oc_predict h hn v)).trans ?_
    refine (M.bind_ok (oc_rule (s := { s with ext := ocAdvance s.ext }) (OcOk_advance h) hn _ v)).trans ?_
    show (_, _) = (_, _)
    rw [he]
    rfl
  subst hq
  unfold ocAdaptNd adapt
  show Obj.liftM (C := ocnlms K n) _ o = _
  have hk := key o.core hm hn
  rw [liftM_at (C := ocnlms K n) (hk.trans rfl : _ = ((baseAdapt ocPredict ocRule a (List.ofFn v) o.core).1, (baseAdapt ocPredict ocRule a (List.ofFn v) o.core).2))]
  rfl

/-! ### everything else -/

/-- Started with the weights `w`, step size `mu`, size `na` and a well formed memory, `m` keeps these and ends with a value with `Q` or with `ValueError`. -/
def OcH {α : Type} (w : Vec K n) (mu : K) (na : Nat) (m : M (Core K n (OcExt K n)) α) (Q : α → Prop) : Prop :=
  ∀ s : Core K n (OcExt K n), (s.w = w ∧ s.mu = mu ∧ s.nAttr = na ∧ OcOk s.ext) →
    ((m s).2.w = w ∧ (m s).2.mu = mu ∧ (m s).2.nAttr = na ∧ OcOk (m s).2.ext) ∧ ((∃ a, (m s).1 = .ok a ∧ Q a) ∨ (m s).1 = .error .valueError)

theorem OcH.bind {α β : Type} {w : Vec K n} {mu : K} {na : Nat} {m : M (Core K n (OcExt K n)) α} {f : α → M (Core K n (OcExt K n)) β} {Q : α → Prop} {R : β → Prop}
    (h : OcH w mu na m Q) (hf : ∀ a, Q a → OcH w mu na (f a) R) : OcH w mu na (m >>= f) R := by
  intro s hs
  obtain ⟨h1, ⟨a, h2, h3⟩ | h2⟩ := h s hs
  · rw [M.bind_ok (show m s = (.ok a, (m s).2) by rw [← h2])]
    exact hf a h3 _ h1
  · rw [M.bind_error (show m s = (.error .valueError, (m s).2) by rw [← h2])]
    exact ⟨h1, .inr rfl⟩

theorem OcH.lift {α : Type} {w : Vec K n} {mu : K} {na : Nat} {c : Except Err α} {Q : α → Prop} (h : (∃ a, c = .ok a ∧ Q a) ∨ c = .error .valueError) :
    OcH w mu na (M.lift c) Q := by
  rintro s hs
  rcases h with ⟨a, rfl, h⟩ | rfl
  · exact ⟨hs, .inl ⟨a, rfl, h⟩⟩
  · exact ⟨hs, .inr rfl⟩

theorem OcH.get {w : Vec K n} {mu : K} {na : Nat} : OcH w mu na M.get (fun s => s.w = w) := by
  intro s hs; exact ⟨hs, .inl ⟨s, rfl, hs.1⟩⟩

theorem OcH.read [Scalar K] {w : Vec K n} {mu : K} {na : Nat} : OcH w mu na ocRead (fun _ => True) := by
  rintro s ⟨h1, h2, h3, h4⟩
  rw [ocRead_ok h4]
  exact ⟨⟨h1, h2, h3, OcOk_advance h4⟩, .inl ⟨_, rfl, trivial⟩⟩

theorem OcH.updX [Scalar K] {w : Vec K n} {mu : K} {na : Nat} (x : Vec K n) : OcH w mu na (ocUpdateX x) (fun _ => True) := by
  rintro s ⟨h1, h2, h3, h4⟩
  have hu : ocUpdateX x s = (.ok (), { s with ext := ocStoreX s.ext x }) := by
    simp [ocUpdateX, h4.2, ocStoreX]
  rw [hu]
  exact ⟨⟨h1, h2, h3, OcOk_storeX h4 x⟩, .inl ⟨_, rfl, trivial⟩⟩

theorem OcH.updD [Scalar K] {w : Vec K n} {mu : K} {na : Nat} (d : K) : OcH w mu na (ocUpdateD d) (fun _ => True) := by
  rintro s ⟨h1, h2, h3, h4⟩
  have hl : s.ext.memD.length ≠ 0 := by have := h4.1; have := h4.2; omega
  have hu : ocUpdateD d s = (.ok (), { s with ext := ocStoreD s.ext d }) := by
    unfold ocUpdateD; rw [M.get_bind, if_neg hl]; rfl
  rw [hu]
  exact ⟨⟨h1, h2, h3, OcOk_storeD h4 d⟩, .inl ⟨_, rfl, trivial⟩⟩

theorem axes_zip (f : K → K → K) (a b : Arr K) :
    (∃ c, a.zip f b = .ok c ∧ c.shape.length = max a.shape.length b.shape.length) ∨ a.zip f b = .error .valueError := by
  rcases zip_cases f a b with ⟨c, h1, h2⟩ | h
  · exact .inl ⟨c, h1, bshape_length h2⟩
  · exact .inr h

theorem axes_iadd [Scalar K] (w : Vec K n) {dw : Arr K} (h : 2 ≤ dw.shape.length) : iadd w dw = .error .valueError := by
  rw [iadd_eq, if_neg]
  rintro (h1 | h1 | h1) <;> rw [h1] at h <;> simp at h

theorem ocOut_axes [Scalar K] (w : Vec K n) (md : K) (mx x : Arr K) :
    (∃ r, ocOutNd w md mx x = .ok r ∧ r.1.shape.length = max x.shape.length mx.shape.length) ∨ ocOutNd w md mx x = .error .valueError := by
  unfold ocOutNd
  rcases axes_zip (· - ·) x mx with ⟨c, h1, h2⟩ | h
  · rw [h1]
    rcases dot_cases (Arr.vec w) c with ⟨y, hy⟩ | hy
    · exact .inl ⟨(c, y.map (· + md)), by show ((Arr.vec w).dot c >>= _) = _; rw [hy]; rfl, h2⟩
    · exact .inr (by show ((Arr.vec w).dot c >>= _) = _; rw [hy]; rfl)
  · exact .inr (by rw [h]; rfl)

theorem ocRule_axes [Scalar K] {w : Vec K n} {mu : K} {na : Nat} (e x : Arr K)
    (h : 2 ≤ x.shape.length ∨ (¬ ∃ v : Vec K n, RowOf x v) ∨ 2 ≤ e.shape.length ∨ ∃ m, m ≠ 1 ∧ LastAxis m e) :
    OcH w mu na (ocRuleNd e x) (fun dw => 2 ≤ dw.shape.length) := by
  unfold ocRuleNd
  have hx : (∃ v, assignVec n x = .ok v ∧ ∃ v : Vec K n, RowOf x v) ∨ assignVec n x = .error .valueError := by
    by_cases h : ∃ v : Vec K n, RowOf x v
    · exact .inl ⟨_, assignVec_ok h.choose_spec, h⟩
    · exact .inr (assignVec_error h)
  refine OcH.bind (OcH.lift hx) fun v hv => OcH.bind (OcH.updX v) fun _ _ => OcH.bind OcH.read fun r _ => OcH.bind OcH.get fun s _ =>
    OcH.bind (OcH.lift (ocOut_axes _ _ _ _)) fun r hr => ?_
  have ht : (∃ t, e.zip (· + ·) r.2 = .ok t ∧ ∀ m, m ≠ 1 → LastAxis m e → LastAxis m t) ∨ e.zip (· + ·) r.2 = .error .valueError := by
    rcases zip_cases (· + ·) e r.2 with ⟨t, h1, h2⟩ | h
    · refine .inl ⟨t, h1, fun m hm he => ?_⟩
      rcases bad_zip hm (· + ·) (b := r.2) (.inl he) with ⟨t', h3, h4⟩ | h3
      · rw [h1] at h3; cases h3; exact h4
      · rw [h1] at h3; cases h3
    · exact .inr h
  refine OcH.bind (OcH.lift ht) fun t ht => ?_
  have hnum : (∃ a, assignNum t = .ok a ∧ ∀ m, m ≠ 1 → ¬ LastAxis m e) ∨ assignNum t = .error .valueError := by
    by_cases h : ∃ a, OneEntry t a
    · refine .inl ⟨_, assignNum_ok h.choose_spec, fun m hm he => ?_⟩
      obtain ⟨k, hk, -⟩ := h.choose_spec
      obtain ⟨u, hu⟩ := ht m hm he
      have : m ∈ List.replicate k 1 := by rw [← hk, hu]; simp
      exact hm (List.eq_of_mem_replicate this)
    · exact .inr (assignNum_error h)
  refine OcH.bind (OcH.lift hnum) fun a ha => OcH.bind (OcH.updD a) fun _ _ => OcH.bind (OcH.lift (any_dot _ _)) fun p _ =>
    OcH.bind (OcH.lift (axes_zip _ _ _)) fun g hg => OcH.lift ?_
  rcases axes_zip (· * ·) g r.1 with ⟨c, h1, h2⟩ | h1
  · refine .inl ⟨c, h1, ?_⟩
    rw [h2, hr, hg]
    rcases h with h | h | h | ⟨m, hm, he⟩
    · omega
    · exact absurd hv h
    · omega
    · exact absurd he (ha m hm)
  · exact .inr h1

/-- C150: OCNLMS.  With any other input or target the call raises `ValueError`; weights, step size and size stay, the memory stays well formed. -/
theorem C150_oc_rejected [Scalar K] (o : Obj (ocnlms K n)) (q : OcExt K n) (hq : q = o.core.ext) (hm : OcOk q) {d x : Arr K}
    (h : ¬ (d.shape = [] ∨ d.shape = [1]) ∨ ¬ (x.shape = [] ∨ x.shape = [1] ∨ x.shape = [n])) :
    ∃ s : Core K n (OcExt K n), ocAdaptNd d x o = (.error .valueError, ⟨s, o.wHist⟩) ∧ s.w = o.core.w ∧ s.mu = o.core.mu ∧ s.nAttr = o.core.nAttr ∧ OcOk s.ext := by
  have key : ∀ (w : Vec K n) (mu : K) (na : Nat), OcH w mu na (ocAdaptCore d x) (fun _ => False) := by
    intro w mu na
    unfold ocAdaptCore ocPredictNd
    refine OcH.bind (Q := fun _ => True) ?_ fun y _ => ?_
    · refine OcH.bind OcH.read fun r _ => OcH.bind OcH.get fun s _ => OcH.bind (OcH.lift (ocOut_axes _ _ _ _)) fun r _ => ?_
      exact OcH.lift (c := .ok r.2) (.inl ⟨_, rfl, trivial⟩)
    · have he : (∃ e, d.zip (· - ·) y = .ok e ∧
          (2 ≤ x.shape.length ∨ (¬ ∃ v : Vec K n, RowOf x v) ∨ 2 ≤ e.shape.length ∨ ∃ m, m ≠ 1 ∧ LastAxis m e)) ∨ d.zip (· - ·) y = .error .valueError := by
        rcases axes_zip (· - ·) d y with ⟨e, h1, h2⟩ | h1
        · refine .inl ⟨e, h1, ?_⟩
          rcases h with h | h
          · rcases hs : d.shape with _ | ⟨m, _ | ⟨m', t⟩⟩
            · exact absurd (.inl hs) h
            · have hm : m ≠ 1 := fun h0 => h (.inr (by rw [hs, h0]))
              rcases bad_zip hm (· - ·) (b := y) (.inl ⟨[], hs⟩ : LastAxis m d ∨ _) with ⟨e', h3, h4⟩ | h3
              · rw [h1] at h3; cases h3; exact .inr (.inr (.inr ⟨m, hm, h4⟩))
              · rw [h1] at h3; cases h3
            · refine .inr (.inr (.inl ?_)); rw [h2, hs]; simp
          · rcases hs : x.shape with _ | ⟨m, _ | ⟨m', t⟩⟩
            · exact absurd (.inl hs) h
            · refine .inr (.inl ?_)
              rintro ⟨v, ⟨h3, -⟩ | ⟨k, ⟨h3, -⟩ | ⟨h3, -⟩⟩⟩
              · exact h (.inl h3)
              · have hk : k = 0 := by have := congrArg List.length h3; rw [hs] at this; simpa using this.symm
                rw [hk] at h3; exact h (.inr (.inl h3))
              · have hk : k = 0 := by have := congrArg List.length h3; rw [hs] at this; simpa using this.symm
                rw [hk] at h3; exact h (.inr (.inr h3))
            · exact .inl (by simp)
        · exact .inr h1
      refine OcH.bind (OcH.lift he) fun e he => OcH.bind (ocRule_axes e x he) fun dw hdw => OcH.bind OcH.get fun s _ => ?_
      refine OcH.bind (Q := fun _ => False) (OcH.lift (.inr (axes_iadd s.w hdw))) fun _ h => h.elim
  subst hq
  obtain ⟨⟨h1, h2, h3, h4⟩, ⟨_, _, h5⟩ | h5⟩ := key o.core.w o.core.mu o.core.nAttr o.core ⟨rfl, rfl, rfl, hm⟩
  · exact h5.elim
  · have h6 : ocAdaptCore d x o.core = (.error .valueError, (ocAdaptCore d x o.core).2) := by rw [← h5]
    exact ⟨(ocAdaptCore d x o.core).2, liftM_at (C := ocnlms K n) h6, h1, h2, h3, h4⟩

/-! ## concrete cases -/

-- a column `(1, 2)` of numbers as a table with one row fills a column of the memory of AP, a table with one entry is a target
example : RowOf (Arr.table (K := ℚ) (r := 1) (c := 2) ![![1, 2]]) ![1, 2] ∧ OneEntry (Arr.table (K := ℚ) (r := 1) (c := 1) ![![7]]) 7 := by
  refine ⟨.inr ⟨1, .inr ⟨rfl, fun i => ?_⟩⟩, 2, rfl, rfl⟩
  fin_cases i <;> rfl

-- a table with two rows does not, and a vector with two entries is no target
example : (¬ ∃ v : Vec ℚ 2, RowOf (Arr.table (K := ℚ) (r := 2) (c := 2) ![![1, 2], ![3, 4]]) v) ∧ ¬ ∃ a, OneEntry (Arr.vec (K := ℚ) ![1, 2]) a := by
  constructor
  · intro h
    have h1 := assignVec_ok h.choose_spec
    have h2 : assignVec 2 (Arr.table (K := ℚ) (r := 2) (c := 2) ![![1, 2], ![3, 4]]) = .error .valueError := rfl
    rw [h2] at h1; cases h1
  · intro h
    have h1 := assignNum_ok h.choose_spec
    have h2 : assignNum (Arr.vec (K := ℚ) ![1, 2]) = .error .valueError := rfl
    rw [h2] at h1; cases h1

-- a fresh OCNLMS filter with memory, a number as input and an array of one value as target
example : OcOk (ocFresh 3).core.ext ∧ (ocFresh 3).core.nAttr = 1 ∧ One (Arr.vec (K := ℚ) ![5]) 5 ∧ Lane (Arr.num (2 : ℚ)) (fun _ : Fin 1 => (2 : ℚ)) :=
  ⟨⟨rfl, by decide⟩, rfl, .inr ⟨rfl, rfl⟩, lane_num 2⟩

-- a target of two values is rejected by OCNLMS
example : ¬ ((Arr.vec (K := ℚ) ![5, 6]).shape = [] ∨ (Arr.vec (K := ℚ) ![5, 6]).shape = [1]) := by decide

end Padasip
