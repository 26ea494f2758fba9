import Verif.Spec.Heap
import Verif.Lemmas.Engine
import Verif.Lemmas.Field

/-!
# C78, C79: references
-/

set_option linter.unusedSectionVars false
set_option linter.unusedSimpArgs false

namespace Padasip

variable {K : Type} {n : ℕ}

/-! ## Heap lemmas -/

theorem Heap.put_same (h : Heap K) (r : Ref) (l : List K) : (h.put r l).cell r = l := by simp [Heap.put]
theorem Heap.put_ne (h : Heap K) {r q : Ref} (l : List K) (hq : q ≠ r) : (h.put r l).cell q = h.cell q := by simp [Heap.put, hq]
theorem Heap.put_next (h : Heap K) (r : Ref) (l : List K) : (h.put r l).next = h.next := rfl
theorem Heap.alloc_old (h : Heap K) (l : List K) {r : Ref} (hr : r < h.next) : (h.alloc l).cell r = h.cell r := by
  simp [Heap.alloc, Nat.ne_of_lt hr]
theorem Heap.alloc_new (h : Heap K) (l : List K) : (h.alloc l).cell h.next = l := by simp [Heap.alloc]
theorem Heap.alloc_next (h : Heap K) (l : List K) : (h.alloc l).next = h.next + 1 := rfl

theorem Heap.allocRows_next (h : Heap K) (l : List (List K)) : (h.allocRows l).next = h.next + l.length := by
  induction l generalizing h with
  | nil => rfl
  | cons r t ih => rw [Heap.allocRows, ih, Heap.alloc_next, List.length_cons]; omega

theorem Heap.allocRows_old (h : Heap K) (l : List (List K)) {r : Ref} (hr : r < h.next) : (h.allocRows l).cell r = h.cell r := by
  induction l generalizing h with
  | nil => rfl
  | cons q t ih => rw [Heap.allocRows, ih _ (by rw [Heap.alloc_next]; omega), h.alloc_old q hr]

theorem Heap.allocRows_new (h : Heap K) (l : List (List K)) (k : ℕ) (hk : k < l.length) : (h.allocRows l).cell (h.next + k) = l[k] := by
  induction l generalizing h k with
  | nil => simp at hk
  | cons q t ih =>
    rw [Heap.allocRows]
    rcases k with _ | k
    · rw [Nat.add_zero, Heap.allocRows_old _ _ (by rw [Heap.alloc_next]; omega), Heap.alloc_new]; rfl
    · have := ih (h.alloc q) k (by simpa using hk)
      rw [Heap.alloc_next] at this
      rw [show h.next + (k + 1) = h.next + 1 + k by omega, this]; rfl

section
variable [Scalar K] {C : FilterClass K n}

theorem ofFn_toVec {l : List K} (h : l.length = n) : List.ofFn (toVec l : Vec K n) = l := by
  subst h
  apply List.ext_getElem
  · simp
  · intro i h1 h2
    simp [toVec, h2]

theorem toVec_ofFn (v : Vec K n) : toVec (List.ofFn v) = v := by
  funext i
  simp [toVec]

/-! ## Frame: which arrays a statement can change -/

theorem call_frame {α : Type} (kp : Option (Keep C)) (m : M (Core K n C.Ext) α) (x : Ref) (s : HState C) :
    (s.call kp m x).2.f.w = s.f.w ∧ (s.call kp m x).2.heap.next = s.heap.next ∧
    ∀ r, r ≠ s.f.w → (s.call kp m x).2.heap.cell r = s.heap.cell r := by
  unfold HState.call
  rcases m (s.load kp) with ⟨e | a, c⟩
  · exact ⟨rfl, rfl, fun r hr => Heap.put_ne _ _ hr⟩
  · exact ⟨rfl, rfl, fun r hr => Heap.put_ne _ _ hr⟩

theorem loop_frame (kp : Option (Keep C)) (xb hb : Ref) (k : ℕ) (d : List K) (s : HState C) :
    (s.loop kp xb hb k d).2.f.w = s.f.w ∧ (s.loop kp xb hb k d).2.heap.next = s.heap.next ∧
    ∀ r, r ≠ s.f.w → r < hb → (s.loop kp xb hb k d).2.heap.cell r = s.heap.cell r := by
  induction d generalizing k s with
  | nil => exact ⟨rfl, rfl, fun _ _ _ => rfl⟩
  | cons a t ih =>
    unfold HState.loop
    rcases bcast s.f.core.nAttr (s.heap.cell s.f.w) with e | row
    · exact ⟨rfl, rfl, fun _ _ _ => rfl⟩
    · dsimp only
      have hc := call_frame kp (C.body a ((s.heap.put (hb + k) row).cell (xb + k))) (xb + k) { s with heap := s.heap.put (hb + k) row }
      rcases hr : HState.call kp (C.body a ((s.heap.put (hb + k) row).cell (xb + k))) (xb + k) { s with heap := s.heap.put (hb + k) row }
        with ⟨e | ⟨y, e⟩, s2⟩
      · rw [hr] at hc
        refine ⟨hc.1, hc.2.1, fun r h1 h2 => ?_⟩
        rw [hc.2.2 r h1]
        exact Heap.put_ne _ _ (by omega)
      · rw [hr] at hc
        have h3 := ih (k + 1) s2
        have key : ∀ r, r ≠ s.f.w → r < hb → (s2.loop kp xb hb (k + 1) t).2.heap.cell r = s.heap.cell r := fun r h1 h2 => by
          rw [h3.2.2 r (by rw [hc.1]; exact h1) h2, hc.2.2 r h1]
          exact Heap.put_ne _ _ (by omega)
        dsimp only
        rcases hl : s2.loop kp xb hb (k + 1) t with ⟨er | ⟨ys, es⟩, s3⟩
        · rw [hl] at h3 key
          exact ⟨h3.1.trans hc.1, h3.2.1.trans hc.2.1, key⟩
        · rw [hl] at h3 key
          exact ⟨h3.1.trans hc.1, h3.2.1.trans hc.2.1, key⟩

/-- the references returned by a statement -/
def Out.refs : Out K → List Ref
  | .unit => []
  | .ref r => [r]
  | .val _ => []
  | .arrays y e h N => y :: e :: (List.range N).map fun k => h + k

theorem run_frame (kp : Option (Keep C)) (d : Ref) (x : List Ref) (s : HState C) :
    (s.run kp d x).2.f.w = s.f.w ∧ s.heap.next ≤ (s.run kp d x).2.heap.next ∧
    (∀ r, r ≠ s.f.w → r < s.heap.next → (s.run kp d x).2.heap.cell r = s.heap.cell r) ∧
    (∀ y e h N, (s.run kp d x).1 = .ok (y, e, h, N) → ∀ r ∈ (Out.arrays (K := K) y e h N).refs, s.heap.next ≤ r ∧ r < (s.run kp d x).2.heap.next) := by
  unfold HState.run
  dsimp only
  by_cases h1 : (s.heap.cell d).length ≠ (x.map s.heap.cell).length
  · rw [if_pos h1]
    exact ⟨rfl, Nat.le_refl _, fun _ _ _ => rfl, fun _ _ _ _ h => by cases h⟩
  rw [if_neg h1]
  rcases hx : x.map s.heap.cell with _ | ⟨x0, xt⟩
  · exact ⟨rfl, Nat.le_refl _, fun _ _ _ => rfl, fun _ _ _ _ h => by cases h⟩
  dsimp only
  by_cases h2 : (x0 :: xt).any (fun r => decide (r.length ≠ x0.length)) = true
  · rw [if_pos h2]
    exact ⟨rfl, Nat.le_refl _, fun _ _ _ => rfl, fun _ _ _ _ h => by cases h⟩
  rw [if_neg h2]
  generalize hs2 : (HState.mk (C := C) ((s.heap.allocRows (x0 :: xt)).allocRows (List.replicate (x0 :: xt).length (List.replicate x0.length 0)))
    ⟨s.f.w, s.f.lastX, s.f.core.withN x0.length⟩) = s2
  have hn1 := s.heap.allocRows_next (x0 :: xt)
  have hn2 : s2.heap.next = (s.heap.allocRows (x0 :: xt)).next + (x0 :: xt).length := by
    rw [← hs2]
    show ((s.heap.allocRows (x0 :: xt)).allocRows _).next = _
    rw [Heap.allocRows_next, List.length_replicate]
  have hf : s2.f.w = s.f.w := by rw [← hs2]
  have hold : ∀ r, r < s.heap.next → s2.heap.cell r = s.heap.cell r := by
    intro r hr
    rw [← hs2]
    show ((s.heap.allocRows (x0 :: xt)).allocRows _).cell r = _
    rw [Heap.allocRows_old _ _ (by omega), Heap.allocRows_old _ _ hr]
  have hl := loop_frame kp s.heap.next (s.heap.allocRows (x0 :: xt)).next 0 (s.heap.cell d) s2
  rcases hr : s2.loop kp s.heap.next (s.heap.allocRows (x0 :: xt)).next 0 (s.heap.cell d) with ⟨e | ⟨ys, es⟩, s3⟩
  · rw [hr] at hl
    refine ⟨hl.1.trans hf, ?_, ?_, fun _ _ _ _ h => by cases h⟩
    · have := hl.2.1; dsimp only at this ⊢; omega
    · intro r h3 h4
      rw [← hold r h4]
      exact hl.2.2 r (by rw [hf]; exact h3) (by omega)
  · rw [hr] at hl
    have hn3 : s3.heap.next = s2.heap.next := hl.2.1
    refine ⟨hl.1.trans hf, ?_, ?_, ?_⟩
    · show s.heap.next ≤ ((s3.heap.alloc ys).alloc es).next
      rw [Heap.alloc_next, Heap.alloc_next]; omega
    · intro r h3 h4
      show ((s3.heap.alloc ys).alloc es).cell r = _
      rw [Heap.alloc_old _ _ (by rw [Heap.alloc_next]; omega), Heap.alloc_old _ _ (by omega), ← hold r h4]
      exact hl.2.2 r (by rw [hf]; exact h3) (by omega)
    · intro y e h N hh r hr'
      cases hh
      show _ ∧ r < ((s3.heap.alloc ys).alloc es).next
      rw [Heap.alloc_next, Heap.alloc_next]
      simp only [Out.refs, List.mem_cons, List.mem_map, List.mem_range, Heap.alloc_next] at hr'
      rcases hr' with rfl | rfl | ⟨k, hk, rfl⟩
      · omega
      · omega
      · simp only [List.length_cons] at *; omega

theorem step_adapt (kp : Option (Keep C)) (d : K) (x : Ref) (s : HState C) :
    (s.step kp (.adapt d x)) = ((s.call kp (C.adapt d (s.heap.cell x)) x).1.map fun _ => .unit, (s.call kp (C.adapt d (s.heap.cell x)) x).2) := by
  rcases hc : s.call kp (C.adapt d (s.heap.cell x)) x with ⟨e | a, s'⟩ <;> simp only [HState.step, HState.adapt, hc] <;> rfl

theorem step_predict (kp : Option (Keep C)) (x : Ref) (s : HState C) :
    (s.step kp (.predict x)) = ((s.call kp (C.predict (s.heap.cell x)) s.f.lastX).1.map fun a => .val a,
      (s.call kp (C.predict (s.heap.cell x)) s.f.lastX).2) := by
  rcases hc : s.call kp (C.predict (s.heap.cell x)) s.f.lastX with ⟨e | a, s'⟩ <;> simp only [HState.step, HState.predict, hc] <;> rfl

theorem step_run (kp : Option (Keep C)) (d : Ref) (x : List Ref) (s : HState C) :
    (s.step kp (.run d x)) = ((s.run kp d x).1.map fun q => .arrays q.1 q.2.1 q.2.2.1 q.2.2.2, (s.run kp d x).2) := by
  rcases hc : s.run kp d x with ⟨e | ⟨y, e, h, N⟩, s'⟩ <;> simp only [HState.step, hc] <;> rfl

/-- one statement: the weight array object stays, references are only added, old arrays other than the weights are changed only by the caller's own
`store`, and returned arrays are new. -/
theorem step_frame (kp : Option (Keep C)) (op : Op K) (s : HState C) :
    (s.step kp op).2.f.w = s.f.w ∧ s.heap.next ≤ (s.step kp op).2.heap.next ∧
    (∀ r, r ≠ s.f.w → r < s.heap.next → (∀ i a, op ≠ .store r i a) → (s.step kp op).2.heap.cell r = s.heap.cell r) ∧
    (∀ o, (s.step kp op).1 = .ok o → ∀ r ∈ o.refs, s.heap.next ≤ r ∧ r < (s.step kp op).2.heap.next) := by
  cases op with
  | alloc l =>
    refine ⟨rfl, by show _ ≤ s.heap.next + 1; omega, fun r _ h _ => Heap.alloc_old _ _ h, fun o ho r hr => ?_⟩
    cases ho
    simp only [Out.refs, List.mem_singleton] at hr
    subst hr
    exact ⟨Nat.le_refl _, by show _ < s.heap.next + 1; omega⟩
  | store q i a =>
    refine ⟨rfl, Nat.le_refl _, fun r _ _ h => Heap.put_ne _ _ (fun e => h i a (by rw [e])), fun o ho r hr => ?_⟩
    cases ho; simp [Out.refs] at hr
  | adapt d x =>
    have h := call_frame kp (C.adapt d (s.heap.cell x)) x s
    rw [step_adapt]
    refine ⟨h.1, h.2.1.ge, fun r h1 _ _ => h.2.2 r h1, fun o ho r hr => ?_⟩
    rcases hc : (s.call kp (C.adapt d (s.heap.cell x)) x).1 with e | a
    · rw [hc] at ho; cases ho
    · rw [hc] at ho; cases ho; simp [Out.refs] at hr
  | predict x =>
    have h := call_frame kp (C.predict (s.heap.cell x)) s.f.lastX s
    rw [step_predict]
    refine ⟨h.1, h.2.1.ge, fun r h1 _ _ => h.2.2 r h1, fun o ho r hr => ?_⟩
    rcases hc : (s.call kp (C.predict (s.heap.cell x)) s.f.lastX).1 with e | a
    · rw [hc] at ho; cases ho
    · rw [hc] at ho; cases ho; simp [Out.refs] at hr
  | run d x =>
    have h := run_frame kp d x s
    rw [step_run]
    refine ⟨h.1, h.2.1, fun r h1 h2 _ => h.2.2.1 r h1 h2, fun o ho r hr => ?_⟩
    rcases hc : (s.run kp d x).1 with e | ⟨y, e, hb, N⟩
    · rw [hc] at ho; cases ho
    · rw [hc] at ho; cases ho
      exact h.2.2.2 y e hb N hc r hr

/-- C79: whatever the calling program does, an existing array other than the filter's own weight array (in particular: every array of the caller, the
array of initial weights, and every array returned earlier) changes only when the caller itself stores into it. -/
theorem C79_frame (kp : Option (Keep C)) (ops : List (Op K)) (s : HState C) (r : Ref) (hr : r < s.heap.next) (hw : r ≠ s.f.w)
    (hs : ∀ i a, Op.store r i a ∉ ops) : (s.exec kp ops).heap.cell r = s.heap.cell r ∧ (s.exec kp ops).f.w = s.f.w := by
  induction ops generalizing s with
  | nil => exact ⟨rfl, rfl⟩
  | cons op t ih =>
    obtain ⟨h1, h2, h3, _⟩ := step_frame kp op s
    have h4 := ih (s.step kp op).2 (by omega) (by rw [h1]; exact hw) (fun i a hm => hs i a (by simp [hm]))
    refine ⟨?_, ?_⟩
    · show ((s.step kp op).2.exec kp t).heap.cell r = _
      rw [h4.1]
      exact h3 r hw hr (fun i a e => hs i a (by simp [e]))
    · exact h4.2.trans h1

/-- C79: the array passed as initial weights, and everything else the caller had before constructing the filter, is never written by the filter. -/
theorem C79_init_weights (kp : Option (Keep C)) (h : Heap K) (wArg : Ref) (core : Core K n C.Ext) (ops : List (Op K)) (r : Ref) (hr : r < h.next)
    (hs : ∀ i a, Op.store r i a ∉ ops) : ((HState.new h wArg core : HState C).exec kp ops).heap.cell r = h.cell r := by
  have h1 := C79_frame kp ops (HState.new h wArg core : HState C) r (by show r < h.next + 1 + 1; omega)
    (by show r ≠ h.next; omega) hs
  rw [h1.1]
  show ((h.alloc _).alloc _).cell r = _
  rw [Heap.alloc_old _ _ (by rw [Heap.alloc_next]; omega), Heap.alloc_old _ _ hr]

/-- C79: arrays returned by a call (and arrays created by the caller) are new objects, different from the weight array, and no later statement other than a
store by the caller changes them. -/
theorem C79_returned (kp : Option (Keep C)) (op : Op K) (ops : List (Op K)) (s : HState C) (hw : s.f.w < s.heap.next) (o : Out K)
    (ho : (s.step kp op).1 = .ok o) (r : Ref) (hr : r ∈ o.refs) (hs : ∀ i a, Op.store r i a ∉ ops) :
    s.heap.next ≤ r ∧ ((s.step kp op).2.exec kp ops).heap.cell r = (s.step kp op).2.heap.cell r := by
  obtain ⟨h1, _, _, h4⟩ := step_frame kp op s
  obtain ⟨h5, h6⟩ := h4 o ho r hr
  exact ⟨h5, (C79_frame kp ops _ r h6 (by rw [h1]; omega) hs).1⟩

/-! ## C78: behaviour with copies -/

/-- a method that stores its input `x` as `last_x` when it succeeds, and leaves `last_x` alone when it raises -/
def StoreRes {X α : Type} (get : X → Vec K n) (x : List K) (old : Vec K n) : Except Err α × Core K n X → Prop
  | (.ok _, c') => x.length = n ∧ get c'.ext = toVec x
  | (.error _, c') => get c'.ext = old

/-- `StoreRes` from every state -/
def Stores {α : Type} (k : Keep C) (x : List K) (m : M (Core K n C.Ext) α) : Prop := ∀ c, StoreRes k.get x (k.get c.ext) (m c)

/-- what the four classes satisfy (proved for each of them below) -/
structure KeepLaw (k : Keep C) : Prop where
  get_set : ∀ e v, k.get (k.set e v) = v
  set_set : ∀ e v u, k.set (k.set e v) u = k.set e u
  set_get : ∀ e, k.set e (k.get e) = e
  adapt : ∀ d x, Stores k x (C.adapt d x)
  body : ∀ d x, Stores k x (C.body d x)
  predict : ∀ x c, k.get (C.predict x c).2.ext = k.get c.ext

theorem load_w (kp : Option (Keep C)) (s : HState C) : (s.load kp).w = toVec (s.heap.cell s.f.w) := rfl

theorem load_nAttr (kp : Option (Keep C)) (s : HState C) : (s.load kp).nAttr = s.f.core.nAttr := rfl

theorem load_ext_get {k : Keep C} (hk : KeepLaw k) (s : HState C) : k.get (s.load (some k)).ext = toVec (s.heap.cell s.f.lastX) := hk.get_set _ _

/-- `load` only depends on the two cells and the attributes -/
theorem load_congr (kp : Option (Keep C)) (s s' : HState C) (hf : s'.f = s.f) (h1 : s'.heap.cell s.f.w = s.heap.cell s.f.w)
    (h2 : kp.isSome → s'.heap.cell s.f.lastX = s.heap.cell s.f.lastX) : s'.load kp = s.load kp := by
  unfold HState.load
  rw [hf, h1]
  cases kp with
  | none => rfl
  | some k => simp only [h2 rfl]

/-- a call with a well-behaved method does what the value model does -/
theorem call_sim {α : Type} (kp : Option (Keep C)) (m : M (Core K n C.Ext) α) (x : Ref) (s : HState C) (hs : s.WF kp)
    (hx : kp.isSome → x ≠ s.f.w) (hx1 : x ≠ s.f.w) (hx2 : x < s.heap.next)
    (hk : ∀ k, kp = some k → KeepLaw k ∧ (Stores k (s.heap.cell x) m ∨ (x = s.f.lastX ∧ ∀ c, k.get (m c).2.ext = k.get c.ext))) :
    (s.call kp m x).1 = (m (s.load kp)).1 ∧ (s.call kp m x).2.load kp = (m (s.load kp)).2 ∧ (s.call kp m x).2.WF kp := by
  unfold HState.call
  rcases hm : m (s.load kp) with ⟨e | a, c⟩
  · refine ⟨rfl, ?_, ?_⟩
    · unfold HState.load
      dsimp only
      rw [Heap.put_same, Heap.put_ne _ _ hs.ne, toVec_ofFn]
      cases kp with
      | none => rfl
      | some k =>
        obtain ⟨hl, hst⟩ := hk k rfl
        have hg : k.get c.ext = toVec (s.heap.cell s.f.lastX) := by
          rw [← load_ext_get hl]
          rcases hst with hst | ⟨_, hst⟩
          · have := hst (s.load (some k)); rw [hm] at this; exact this
          · have := hst (s.load (some k)); rw [hm] at this; exact this
        simp only [← hg, hl.set_get]
    · exact ⟨hs.w_lt, hs.x_lt, hs.ne, by show ((s.heap.put s.f.w _).cell s.f.w).length = n; rw [Heap.put_same]; simp,
        fun h => by show ((s.heap.put s.f.w _).cell s.f.lastX).length = n; rw [Heap.put_ne _ _ hs.ne]; exact hs.x_len h⟩
  · refine ⟨rfl, ?_, ?_⟩
    · unfold HState.load
      dsimp only
      rw [Heap.put_same, Heap.put_ne _ _ hx1, toVec_ofFn]
      cases kp with
      | none => rfl
      | some k =>
        obtain ⟨hl, hst⟩ := hk k rfl
        have hg : k.get c.ext = toVec (s.heap.cell x) := by
          rcases hst with hst | ⟨hx3, hst⟩
          · have := hst (s.load (some k)); rw [hm] at this; exact this.2
          · have := hst (s.load (some k)); rw [hm] at this; rw [hx3, ← load_ext_get hl]; exact this
        simp only [← hg, hl.set_get]
    · refine ⟨hs.w_lt, hx2, hx1, by show ((s.heap.put s.f.w _).cell s.f.w).length = n; rw [Heap.put_same]; simp, fun h => ?_⟩
      show ((s.heap.put s.f.w _).cell x).length = n
      rw [Heap.put_ne _ _ hx1]
      obtain ⟨k, hkk⟩ := Option.isSome_iff_exists.mp h
      obtain ⟨hl, hst⟩ := hk k hkk
      rcases hst with hst | ⟨hx3, hst⟩
      · have := hst (s.load kp); rw [hm] at this; exact this.1
      · rw [hx3]; exact hs.x_len h

/-- the loop of `run` does what the value model does -/
theorem loop_sim (kp : Option (Keep C)) (hk : ∀ k, kp = some k → KeepLaw k) (xb hb N : ℕ) (hxh : xb + N ≤ hb) (k : ℕ) (ds : List K) (xs : List (List K))
    (hlen : ds.length = xs.length) (hkN : k + ds.length = N) (s : HState C) (hs : s.WF kp) (hw : s.f.w < xb) (hlx : s.f.lastX < hb) (hnext : hb + N ≤ s.heap.next)
    (hxs : ∀ j (hj : j < xs.length), s.heap.cell (xb + (k + j)) = xs[j]) (o : Obj C) (ho : o.core = s.load kp)
    (hh : o.wHist = (List.range N).map fun j => s.heap.cell (hb + j)) :
    (s.loop kp xb hb k ds).1 = (runLoop C k (ds.zip xs) o).1 ∧ (s.loop kp xb hb k ds).2.load kp = (runLoop C k (ds.zip xs) o).2.core ∧
    (s.loop kp xb hb k ds).2.WF kp ∧ (s.loop kp xb hb k ds).2.f.w = s.f.w ∧
    (runLoop C k (ds.zip xs) o).2.wHist = (List.range N).map fun j => (s.loop kp xb hb k ds).2.heap.cell (hb + j) := by
  induction ds generalizing k xs s o with
  | nil => exact ⟨rfl, ho.symm, hs, rfl, hh⟩
  | cons d t ih =>
    rcases xs with _ | ⟨x, xt⟩
    · simp at hlen
    have hwrow : s.heap.cell s.f.w = List.ofFn o.core.w := by rw [ho, load_w, ofFn_toVec hs.w_len]
    have hna : s.f.core.nAttr = o.core.nAttr := by rw [ho]; rfl
    rw [List.zip_cons_cons]
    unfold HState.loop runLoop
    rw [hwrow, hna]
    rcases hb1 : bcast o.core.nAttr (List.ofFn o.core.w) with e | row
    · have e1 : histWrite (C := C) k o = (.error e, o) := by
        simp only [histWrite, M.get_bind, hb1, M.lift_error_bind]
      rw [M.bind_error e1]
      exact ⟨rfl, ho.symm, hs, rfl, hh⟩
    · have e1 : histWrite (C := C) k o = (.ok (), { o with wHist := o.wHist.set k row }) := by
        simp only [histWrite, M.get_bind, hb1, M.lift_ok_bind]; rfl
      rw [M.bind_ok e1]
      dsimp only
      have hkN' : k < N := by simp only [List.length_cons] at hkN; omega
      generalize hs1 : (HState.mk (C := C) (s.heap.put (hb + k) row) s.f) = s1
      have hs1f : s1.f = s.f := by rw [← hs1]
      have hs1n : s1.heap.next = s.heap.next := by rw [← hs1]; rfl
      have hs1c : ∀ r, r ≠ hb + k → s1.heap.cell r = s.heap.cell r := fun r hr => by
        rw [← hs1]; exact Heap.put_ne _ _ hr
      have hs1k : s1.heap.cell (hb + k) = row := by rw [← hs1]; exact Heap.put_same _ _ _
      have hwl : s1.load kp = o.core := by
        rw [ho]
        exact load_congr kp s s1 hs1f (hs1c _ (by omega)) (fun _ => hs1c _ (by omega))
      have hs1wf : s1.WF kp := by
        refine ⟨?_, ?_, ?_, ?_, fun h => ?_⟩
        · rw [hs1f, hs1n]; exact hs.w_lt
        · rw [hs1f, hs1n]; exact hs.x_lt
        · rw [hs1f]; exact hs.ne
        · rw [hs1f, hs1c _ (by omega)]; exact hs.w_len
        · rw [hs1f, hs1c _ (by omega)]; exact hs.x_len h
      have hxc : s1.heap.cell (xb + k) = x := by
        rw [hs1c _ (by omega)]
        have := hxs 0 (by simp)
        simpa using this
      have hcell : (s.heap.put (hb + k) row).cell (xb + k) = x := by
        have : (s.heap.put (hb + k) row) = s1.heap := by rw [← hs1]
        rw [this]; exact hxc
      rw [hcell]
      have hxw : xb + k ≠ s1.f.w := by rw [hs1f]; omega
      obtain ⟨c1, c2, c3⟩ := call_sim kp (C.body d x) (xb + k) s1 hs1wf (fun _ => hxw) hxw (by rw [hs1n]; omega)
        (fun q hq => ⟨hk q hq, Or.inl (by rw [hxc]; exact (hk q hq).body d x)⟩)
      obtain ⟨f1, f2, f3⟩ := call_frame kp (C.body d x) (xb + k) s1
      rw [hwl] at c1 c2
      have hlastX : (s1.call kp (C.body d x) (xb + k)).2.f.lastX < hb := by
        unfold HState.call
        rcases C.body d x (s1.load kp) with ⟨e | a, c⟩
        · show s1.f.lastX < hb; rw [hs1f]; exact hlx
        · show xb + k < hb; omega
      have hhist : o.wHist.set k row = (List.range N).map fun j => (s1.call kp (C.body d x) (xb + k)).2.heap.cell (hb + j) := by
        rw [hh]
        apply List.ext_getElem
        · simp
        · intro j h1 h2
          rw [List.getElem_set, List.getElem_map, List.getElem_map, List.getElem_range]
          have hj : j < N := by simpa using h2
          rw [f3 (hb + j) (by rw [hs1f]; omega)]
          by_cases hkj : k = j
          · subst hkj; rw [if_pos rfl, hs1k]
          · rw [if_neg hkj, hs1c _ (by omega)]
      rcases hcall : s1.call kp (C.body d x) (xb + k) with ⟨e | ⟨y, e⟩, s2⟩
      · rw [hcall] at c1 c2 c3 f1 hhist
        dsimp only at c1 c2
        have e2 : Obj.liftM (C := C) (C.body d x) { o with wHist := o.wHist.set k row } =
            (.error e, { core := (C.body d x o.core).2, wHist := o.wHist.set k row }) := by
          unfold Obj.liftM
          rcases hbb : C.body d x o.core with ⟨r, c⟩
          rw [hbb] at c1
          dsimp only at c1 ⊢
          rw [← c1]
        rw [M.bind_error e2]
        exact ⟨rfl, c2, c3, f1.trans (by rw [hs1f]), hhist⟩
      · rw [hcall] at c1 c2 c3 f1 f2 f3 hhist hlastX
        dsimp only at c1 c2 c3 f1 f2 f3 hhist hlastX
        have e2 : Obj.liftM (C := C) (C.body d x) { o with wHist := o.wHist.set k row } =
            (.ok (y, e), { core := (C.body d x o.core).2, wHist := o.wHist.set k row }) := by
          unfold Obj.liftM
          rcases hbb : C.body d x o.core with ⟨r, c⟩
          rw [hbb] at c1
          dsimp only at c1 ⊢
          rw [← c1]
        rw [M.bind_ok e2]
        dsimp only
        have hI := ih (k + 1) xt (by simpa using hlen) (by simp only [List.length_cons] at hkN; omega) s2 c3 (by rw [f1, hs1f]; exact hw) hlastX
          (by rw [f2, hs1n]; exact hnext)
          (fun j hj => by
            have := hxs (j + 1) (by simpa using hj)
            rw [f3 _ (by rw [hs1f]; omega), hs1c _ (by simp only [List.length_cons] at hkN hlen; omega), show k + 1 + j = k + (j + 1) by omega, this]
            rfl)
          { core := (C.body d x o.core).2, wHist := o.wHist.set k row } c2.symm hhist
        obtain ⟨i1, i2, i3, i4, i5⟩ := hI
        rcases hl : s2.loop kp xb hb (k + 1) t with ⟨er | ⟨ys, es⟩, s3⟩
        · rw [hl] at i1 i2 i3 i4 i5
          dsimp only at i1 i2 i3 i4 i5
          rcases hrl : runLoop C (k + 1) (t.zip xt) { core := (C.body d x o.core).2, wHist := o.wHist.set k row } with ⟨r, o3⟩
          rw [hrl] at i1 i2 i5
          dsimp only at i1 i2 i5
          subst i1
          rw [M.bind_error hrl]
          exact ⟨rfl, i2, i3, i4.trans (f1.trans (by rw [hs1f])), i5⟩
        · rw [hl] at i1 i2 i3 i4 i5
          dsimp only at i1 i2 i3 i4 i5
          rcases hrl : runLoop C (k + 1) (t.zip xt) { core := (C.body d x o.core).2, wHist := o.wHist.set k row } with ⟨r, o3⟩
          rw [hrl] at i1 i2 i5
          dsimp only at i1 i2 i5
          subst i1
          rw [M.bind_ok hrl]
          exact ⟨rfl, i2, i3, i4.trans (f1.trans (by rw [hs1f])), i5⟩

theorem allocRows_mono (kp : Option (Keep C)) (s : HState C) (hs : s.WF kp) (l : List (List K)) :
    (HState.mk (C := C) (s.heap.allocRows l) s.f).WF kp ∧ (HState.mk (C := C) (s.heap.allocRows l) s.f).load kp = s.load kp := by
  refine ⟨⟨?_, ?_, hs.ne, ?_, fun h => ?_⟩, ?_⟩
  · show s.f.w < (s.heap.allocRows l).next
    rw [Heap.allocRows_next]; have := hs.w_lt; omega
  · show s.f.lastX < (s.heap.allocRows l).next
    rw [Heap.allocRows_next]; have := hs.x_lt; omega
  · show ((s.heap.allocRows l).cell s.f.w).length = n
    rw [Heap.allocRows_old _ _ hs.w_lt]; exact hs.w_len
  · show ((s.heap.allocRows l).cell s.f.lastX).length = n
    rw [Heap.allocRows_old _ _ hs.x_lt]; exact hs.x_len h
  · exact load_congr kp s _ rfl (Heap.allocRows_old _ _ hs.w_lt) (fun _ => Heap.allocRows_old _ _ hs.x_lt)

theorem alloc_eq_rows (h : Heap K) (l : List K) : h.alloc l = h.allocRows [l] := rfl

theorem withN_sim (kp : Option (Keep C)) (s : HState C) (hs : s.WF kp) (N : ℕ) :
    (HState.mk (C := C) s.heap ⟨s.f.w, s.f.lastX, s.f.core.withN N⟩).WF kp ∧
    (HState.mk (C := C) s.heap ⟨s.f.w, s.f.lastX, s.f.core.withN N⟩).load kp = (s.load kp).withN N := by
  refine ⟨⟨hs.w_lt, hs.x_lt, hs.ne, hs.w_len, hs.x_len⟩, ?_⟩
  cases kp <;> rfl

/-- `run` copies its arguments: it does what the value model does on their contents, whatever the references are. -/
theorem run_sim (kp : Option (Keep C)) (hk : ∀ k, kp = some k → KeepLaw k) (d : Ref) (x : List Ref) (s : HState C) (hs : s.WF kp) :
    (VCall.run (s.heap.cell d) (x.map s.heap.cell)).replay C (s.load kp) =
      (valueOf (s.run kp d x).2.heap ((s.run kp d x).1.map fun q => .arrays q.1 q.2.1 q.2.2.1 q.2.2.2), (s.run kp d x).2.load kp) ∧
    (s.run kp d x).2.WF kp := by
  unfold HState.run VCall.replay
  dsimp only
  by_cases h1 : (s.heap.cell d).length ≠ (x.map s.heap.cell).length
  · rw [if_pos h1]
    have : Padasip.run C (s.heap.cell d) (x.map s.heap.cell) ⟨s.load kp, []⟩ = (.error .valueError, ⟨s.load kp, []⟩) := by
      unfold Padasip.run; rw [if_pos h1]; rfl
    rw [this]
    exact ⟨rfl, hs⟩
  rw [if_neg h1]
  rcases hx : x.map s.heap.cell with _ | ⟨x0, xt⟩
  · rw [hx] at h1
    have : Padasip.run C (s.heap.cell d) [] ⟨s.load kp, []⟩ = (.error .indexError, ⟨s.load kp, []⟩) := by
      unfold Padasip.run; rw [if_neg h1]; rfl
    rw [this]
    exact ⟨rfl, hs⟩
  rw [hx] at h1
  dsimp only
  obtain ⟨n1, n2⟩ := withN_sim kp s hs x0.length
  by_cases h2 : (x0 :: xt).any (fun r => decide (r.length ≠ x0.length)) = true
  · rw [if_pos h2]
    have : Padasip.run C (s.heap.cell d) (x0 :: xt) ⟨s.load kp, []⟩ = (.error .valueError, ⟨(s.load kp).withN x0.length, []⟩) := by
      rw [run_cons, if_neg h1, if_pos h2]
    rw [this]
    exact ⟨by rw [← n2]; rfl, n1⟩
  rw [if_neg h2]
  have hlen : (s.heap.cell d).length = (x0 :: xt).length := not_not.mp h1
  generalize hN : (x0 :: xt).length = N at *
  generalize hs2 : (HState.mk (C := C) ((s.heap.allocRows (x0 :: xt)).allocRows (List.replicate N (List.replicate x0.length 0)))
    ⟨s.f.w, s.f.lastX, s.f.core.withN x0.length⟩) = s2
  have hb1 := s.heap.allocRows_next (x0 :: xt)
  rw [hN] at hb1
  obtain ⟨a1, a2⟩ := allocRows_mono kp _ n1 (x0 :: xt)
  obtain ⟨b1, b2⟩ := allocRows_mono kp _ a1 (List.replicate N (List.replicate x0.length 0))
  rw [a2, n2] at b2
  have b1' : s2.WF kp := by rw [← hs2]; exact b1
  have b2' : s2.load kp = (s.load kp).withN x0.length := by rw [← hs2]; exact b2
  have hn2 : s2.heap.next = (s.heap.allocRows (x0 :: xt)).next + N := by
    rw [← hs2]
    show ((s.heap.allocRows (x0 :: xt)).allocRows _).next = _
    rw [Heap.allocRows_next, List.length_replicate]
  have hfw : s2.f.w = s.f.w := by rw [← hs2]
  have hfx : s2.f.lastX = s.f.lastX := by rw [← hs2]
  have hw := hs.w_lt
  have hx' := hs.x_lt
  obtain ⟨l1, l2, l3, l4, l5⟩ := loop_sim kp hk s.heap.next (s.heap.allocRows (x0 :: xt)).next N (by omega) 0 (s.heap.cell d) (x0 :: xt)
    (hlen.trans hN.symm) (by omega) s2 b1' (by rw [hfw]; exact hw) (by rw [hfx]; omega) (by omega)
    (fun j hj => by
      rw [← hs2, Nat.zero_add]
      show ((s.heap.allocRows (x0 :: xt)).allocRows _).cell (s.heap.next + j) = _
      rw [Heap.allocRows_old _ _ (by omega), Heap.allocRows_new _ _ _ hj])
    ⟨(s.load kp).withN x0.length, List.replicate N (List.replicate x0.length 0)⟩ b2'.symm
    (by
      apply List.ext_getElem
      · simp
      · intro j h3 h4
        have hj : j < N := by simpa using h3
        rw [List.getElem_map, List.getElem_range, ← hs2]
        show _ = ((s.heap.allocRows (x0 :: xt)).allocRows _).cell _
        rw [Heap.allocRows_new _ _ _ (by simpa using hj)])
  have hrun := run_cons C (s.heap.cell d) x0 xt ⟨s.load kp, []⟩
  rw [if_neg (by rw [hN]; exact h1), if_neg h2, hN] at hrun
  dsimp only at hrun
  rcases hl : s2.loop kp s.heap.next (s.heap.allocRows (x0 :: xt)).next 0 (s.heap.cell d) with ⟨e | ⟨ys, es⟩, s3⟩
  · rw [hl] at l1 l2 l3 l4 l5
    dsimp only at l1 l2 l3 l4 l5
    rcases hrl : runLoop C 0 ((s.heap.cell d).zip (x0 :: xt)) ⟨(s.load kp).withN x0.length, List.replicate N (List.replicate x0.length 0)⟩ with ⟨r, o⟩
    rw [hrl] at l1 l2 l5
    dsimp only at l1 l2 l5
    subst l1
    rw [M.bind_error hrl] at hrun
    rw [hrun]
    exact ⟨by show ((Except.error e : Except Err (VRes K)), o.core) = (Except.error e, s3.load kp); rw [← l2], l3⟩
  · rw [hl] at l1 l2 l3 l4 l5
    dsimp only at l1 l2 l3 l4 l5
    rcases hrl : runLoop C 0 ((s.heap.cell d).zip (x0 :: xt)) ⟨(s.load kp).withN x0.length, List.replicate N (List.replicate x0.length 0)⟩ with ⟨r, o⟩
    rw [hrl] at l1 l2 l5
    dsimp only at l1 l2 l5
    subst l1
    rw [M.bind_ok hrl] at hrun
    rw [hrun]
    obtain ⟨q1, q2⟩ := allocRows_mono kp s3 l3 [ys, es]
    refine ⟨?_, q1⟩
    show ((Except.ok (VRes.arrays ys es o.wHist) : Except Err (VRes K)), o.core) =
      (Except.ok (.arrays (((s3.heap.alloc ys).alloc es).cell s3.heap.next) (((s3.heap.alloc ys).alloc es).cell (s3.heap.alloc ys).next)
        ((List.range N).map fun k => ((s3.heap.alloc ys).alloc es).cell ((s.heap.allocRows (x0 :: xt)).next + k))),
        (HState.mk (C := C) (s3.heap.allocRows [ys, es]) s3.f).load kp)
    have hs3n : s3.heap.next = s2.heap.next := by
      have := (loop_frame kp s.heap.next (s.heap.allocRows (x0 :: xt)).next 0 (s.heap.cell d) s2).2.1
      rw [hl] at this; exact this
    rw [q2, l2, Heap.alloc_new, Heap.alloc_old _ _ (by rw [Heap.alloc_next]; omega), Heap.alloc_new, l5]
    congr 3
    apply List.map_congr_left
    intro k hk'
    have hkN := List.mem_range.mp hk'
    rw [Heap.alloc_old _ _ (by rw [Heap.alloc_next]; omega), Heap.alloc_old _ _ (by omega)]

theorem step_sim (kp : Option (Keep C)) (hk : ∀ k, kp = some k → KeepLaw k) (op : Op K) (s : HState C) (hs : s.WF kp) (h : SafeOp kp s op) :
    (s.step kp op).2.WF kp ∧
    match callOf s.heap op with
      | none => (s.step kp op).2.load kp = s.load kp
      | some q => q.replay C (s.load kp) = (valueOf (s.step kp op).2.heap (s.step kp op).1, (s.step kp op).2.load kp) := by
  cases op with
  | alloc l => exact allocRows_mono kp s hs [l]
  | store r i a =>
    have h1 : ∀ q, q ≠ r → (s.heap.put r ((s.heap.cell r).set i a)).cell q = s.heap.cell q := fun q hq => Heap.put_ne _ _ hq
    refine ⟨⟨hs.w_lt, hs.x_lt, hs.ne, ?_, fun hk' => ?_⟩, ?_⟩
    · show ((s.heap.put r _).cell s.f.w).length = n
      rw [h1 _ h.1.symm]; exact hs.w_len
    · show ((s.heap.put r _).cell s.f.lastX).length = n
      rw [h1 _ (h.2 hk').symm]; exact hs.x_len hk'
    · exact load_congr kp s _ rfl (h1 _ h.1.symm) (fun hk' => h1 _ (h.2 hk').symm)
  | adapt d x =>
    obtain ⟨c1, c2, c3⟩ := call_sim kp (C.adapt d (s.heap.cell x)) x s hs (fun _ => h.1) h.1 h.2
      (fun q hq => ⟨hk q hq, Or.inl ((hk q hq).adapt d _)⟩)
    rw [step_adapt]
    refine ⟨c3, ?_⟩
    show VCall.replay C (.adapt d (s.heap.cell x)) (s.load kp) = _
    unfold VCall.replay
    dsimp only
    rw [c1, c2]
    rcases C.adapt d (s.heap.cell x) (s.load kp) with ⟨e | a, c⟩ <;> rfl
  | predict x =>
    obtain ⟨c1, c2, c3⟩ := call_sim kp (C.predict (s.heap.cell x)) s.f.lastX s hs (fun _ => hs.ne) hs.ne hs.x_lt
      (fun q hq => ⟨hk q hq, Or.inr ⟨rfl, (hk q hq).predict _⟩⟩)
    rw [step_predict]
    refine ⟨c3, ?_⟩
    show VCall.replay C (.predict (s.heap.cell x)) (s.load kp) = _
    unfold VCall.replay
    dsimp only
    rw [c1, c2]
    rcases C.predict (s.heap.cell x) (s.load kp) with ⟨e | a, c⟩ <;> rfl
  | run d x =>
    rw [step_run]
    exact ⟨(run_sim kp hk d x s hs).2, (run_sim kp hk d x s hs).1⟩

theorem exec_sim (kp : Option (Keep C)) (hk : ∀ k, kp = some k → KeepLaw k) (ops : List (Op K)) (s : HState C) (hs : s.WF kp) (h : SafeAll kp ops s) :
    (s.exec kp ops).WF kp ∧ replayAll C (callsOf kp ops s) (s.load kp) = (resultsOf kp ops s, (s.exec kp ops).load kp) := by
  induction ops generalizing s with
  | nil => exact ⟨hs, rfl⟩
  | cons op t ih =>
    obtain ⟨h1, h2⟩ := step_sim kp hk op s hs h.1
    obtain ⟨i1, i2⟩ := ih (s.step kp op).2 h1 h.2
    refine ⟨i1, ?_⟩
    unfold callsOf resultsOf HState.exec
    rcases hq : callOf s.heap op with _ | q
    · rw [hq] at h2
      dsimp only at h2 ⊢
      rw [h2] at i2
      exact i2
    · rw [hq] at h2
      dsimp only at h2 ⊢
      show replayAll C (q :: callsOf kp t (s.step kp op).2) (s.load kp) = _
      unfold replayAll
      rw [h2]
      dsimp only
      rw [i2]
      rfl

/-! ## The four classes that keep `last_x` -/

theorem asVec_toVec {x : List K} (h : x.length = n) : asVec n x = .ok (toVec x) := by
  have := asVec_ofFn (toVec x : Vec K n)
  rwa [ofFn_toVec h] at this

theorem base_stores {X : Type} (get : X → Vec K n) (rule : K → List K → M (Core K n X) (Vec K n))
    (hr : ∀ e x c, x.length = n → StoreRes get x (get c.ext) (rule e x c)) (d : K) (x : List K) (c : Core K n X) :
    StoreRes get x (get c.ext) (baseAdapt basePredict rule d x c) ∧ StoreRes get x (get c.ext) (baseBody basePredict rule d x c) := by
  by_cases h : x.length = n
  · have hp : basePredict x c = (.ok (dot c.w (toVec x)), c) := by
      unfold basePredict
      rw [asVec_toVec h]; rfl
    have := hr (d - dot c.w (toVec x)) x c h
    unfold baseAdapt baseBody
    rw [M.bind_ok hp, M.bind_ok hp]
    rcases hrr : rule (d - dot c.w (toVec x)) x c with ⟨e | dw, c'⟩
    · rw [hrr] at this
      exact ⟨by rw [M.bind_error hrr]; exact this, by rw [M.bind_error hrr]; exact this⟩
    · rw [hrr] at this
      exact ⟨by rw [M.bind_ok hrr]; exact this, by rw [M.bind_ok hrr]; exact this⟩
  · have hp : basePredict x c = (.error .valueError, c) := by
      unfold basePredict
      rw [asVec_wrong x h]; rfl
    unfold baseAdapt baseBody
    rw [M.bind_error hp, M.bind_error hp]
    exact ⟨rfl, rfl⟩

theorem basePredict_state {X : Type} (x : List K) (c : Core K n X) : (basePredict x c).2 = c := by
  unfold basePredict
  rcases asVec n x with e | v <;> rfl

theorem keepGngd_law : KeepLaw (keepGngd (K := K) (n := n)) where
  get_set _ _ := rfl
  set_set _ _ _ := rfl
  set_get _ := rfl
  adapt d x c := (base_stores (fun q : GngdExt K n => q.lastX) gngdRule (fun e x c h => by unfold gngdRule; rw [asVec_toVec h]; exact ⟨h, rfl⟩) d x c).1
  body d x c := (base_stores (fun q : GngdExt K n => q.lastX) gngdRule (fun e x c h => by unfold gngdRule; rw [asVec_toVec h]; exact ⟨h, rfl⟩) d x c).2
  predict x c := by
    show (keepGngd (K := K) (n := n)).get (basePredict x c).2.ext = _
    rw [basePredict_state]

theorem keepMathews_law : KeepLaw (keepMathews (K := K) (n := n)) where
  get_set _ _ := rfl
  set_set _ _ _ := rfl
  set_get _ := rfl
  adapt d x c := (base_stores (fun q : MathewsExt K n => q.lastX) mathewsRule (fun e x c h => by unfold mathewsRule; rw [asVec_toVec h]; exact ⟨h, rfl⟩) d x c).1
  body d x c := (base_stores (fun q : MathewsExt K n => q.lastX) mathewsRule (fun e x c h => by unfold mathewsRule; rw [asVec_toVec h]; exact ⟨h, rfl⟩) d x c).2
  predict x c := by
    show (keepMathews (K := K) (n := n)).get (basePredict x c).2.ext = _
    rw [basePredict_state]

theorem keepAng_law : KeepLaw (keepAng (K := K) (n := n)) where
  get_set _ _ := rfl
  set_set _ _ _ := rfl
  set_get _ := rfl
  adapt d x c := (base_stores (fun q : AngExt K n => q.lastX) angRule (fun e x c h => by unfold angRule; rw [asVec_toVec h]; exact ⟨h, rfl⟩) d x c).1
  body d x c := (base_stores (fun q : AngExt K n => q.lastX) angRule (fun e x c h => by unfold angRule; rw [asVec_toVec h]; exact ⟨h, rfl⟩) d x c).2
  predict x c := by
    show (keepAng (K := K) (n := n)).get (basePredict x c).2.ext = _
    rw [basePredict_state]

theorem benRule_stores (e : K) (x : List K) (c : Core K n (BenExt K n)) (h : x.length = n) :
    StoreRes (fun q : BenExt K n => q.lastX) x c.ext.lastX (benvenisteRule e x c) := by
  unfold benvenisteRule
  rw [asVec_toVec h, M.lift_ok_bind, M.get_bind]
  dsimp only
  rcases benFiPart c.nAttr c.ext.lastMu c.ext.lastX with er | A
  · rfl
  · exact ⟨h, rfl⟩

theorem keepBen_law : KeepLaw (keepBen (K := K) (n := n)) where
  get_set _ _ := rfl
  set_set _ _ _ := rfl
  set_get _ := rfl
  adapt d x c := (base_stores (fun q : BenExt K n => q.lastX) benvenisteRule benRule_stores d x c).1
  body d x c := (base_stores (fun q : BenExt K n => q.lastX) benvenisteRule benRule_stores d x c).2
  predict x c := by
    show (keepBen (K := K) (n := n)).get (basePredict x c).2.ext = _
    rw [basePredict_state]

/-- the constructor establishes the invariant, and the value of the new filter is the given one -/
theorem new_wf (kp : Option (Keep C)) (h : Heap K) (wArg : Ref) (hl : (h.cell wArg).length = n) (core : Core K n C.Ext) :
    (HState.new h wArg core : HState C).WF kp := by
  refine ⟨by show h.next < h.next + 1 + 1; omega, by show h.next + 1 < h.next + 1 + 1; omega, by show h.next + 1 ≠ h.next; omega, ?_, fun _ => ?_⟩
  · show (((h.alloc (h.cell wArg)).alloc _).cell h.next).length = n
    rw [Heap.alloc_old _ _ (by rw [Heap.alloc_next]; omega), Heap.alloc_new, hl]
  · show (((h.alloc (h.cell wArg)).alloc _).cell (h.alloc (h.cell wArg)).next).length = n
    rw [Heap.alloc_new, List.length_replicate]

end

section kinds
variable [Transc K]

theorem keepOf_law (solve : Solver K) (k : Kind) (q : Keep (classOf (n := n) solve k)) (h : keepOf solve k = some q) : KeepLaw q := by
  cases k <;> simp only [keepOf, reduceCtorEq] at h <;> cases Option.some.inj h
  · exact keepGngd_law
  · exact keepMathews_law
  · exact keepAng_law
  · exact keepBen_law

/-- C78: every filter, every program of the caller.  If the caller does not store into the array it passed to the last successful `adapt` (relevant only for GNGD
and the three VSLMS filters) nor into the filter's own weight array, then all results and the final state are those of a filter that had been given
**copies** of all arguments at the time of each call. -/
theorem C78_copies (solve : Solver K) (k : Kind) (ops : List (Op K)) (s : HState (classOf (n := n) solve k)) (hs : s.WF (keepOf solve k))
    (h : SafeAll (keepOf solve k) ops s) :
    replayAll (classOf solve k) (callsOf (keepOf solve k) ops s) (s.load (keepOf solve k)) =
      (resultsOf (keepOf solve k) ops s, (s.exec (keepOf solve k) ops).load (keepOf solve k)) :=
  (exec_sim _ (keepOf_law solve k) ops s hs h).2

/-- C78: `run` is immune for every filter: whatever arrays are passed and whatever is later stored into them, it computes with the contents at the
time of the call; afterwards no array of the caller is referenced. -/
theorem C78_run (solve : Solver K) (k : Kind) (d : Ref) (x : List Ref) (s : HState (classOf (n := n) solve k)) (hs : s.WF (keepOf solve k)) :
    (VCall.run (s.heap.cell d) (x.map s.heap.cell)).replay (classOf solve k) (s.load (keepOf solve k)) =
      (valueOf (s.step (keepOf solve k) (.run d x)).2.heap (s.step (keepOf solve k) (.run d x)).1,
        (s.step (keepOf solve k) (.run d x)).2.load (keepOf solve k)) := by
  rw [step_run]
  exact (run_sim _ (keepOf_law solve k) d x s hs).1

end kinds

section
variable [Scalar K] {C : FilterClass K n}

/-- the statements `buf[i] = l[0]; buf[i+1] = l[1]; ...` of the calling program -/
def fillFrom (buf : Ref) : ℕ → List K → List (Op K)
  | _, [] => []
  | i, a :: t => Op.store buf i a :: fillFrom buf (i + 1) t

/-- `buf[:] = v`, one element at a time -/
def fill (buf : Ref) (v : Vec K n) : List (Op K) := fillFrom buf 0 (List.ofFn v)

theorem fillFrom_exec (kp : Option (Keep C)) (buf : Ref) (l : List K) (i : ℕ) (s : HState C) (h : i + l.length = (s.heap.cell buf).length) :
    (s.exec kp (fillFrom buf i l)).f = s.f ∧ (s.exec kp (fillFrom buf i l)).heap.next = s.heap.next ∧
    (s.exec kp (fillFrom buf i l)).heap.cell buf = (s.heap.cell buf).take i ++ l ∧
    ∀ r, r ≠ buf → (s.exec kp (fillFrom buf i l)).heap.cell r = s.heap.cell r := by
  induction l generalizing i s with
  | nil =>
    refine ⟨rfl, rfl, ?_, fun _ _ => rfl⟩
    show s.heap.cell buf = _
    rw [List.append_nil, List.take_of_length_le (by simpa using h.ge)]
  | cons a t ih =>
    rw [List.length_cons] at h
    obtain ⟨h1, h2, h3, h4⟩ := ih (i + 1) { s with heap := s.heap.put buf ((s.heap.cell buf).set i a) } (by
      show _ = ((s.heap.put buf _).cell buf).length
      rw [Heap.put_same, List.length_set]; omega)
    refine ⟨h1, h2, ?_, fun r hr => (h4 r hr).trans (Heap.put_ne _ _ hr)⟩
    refine h3.trans ?_
    show ((s.heap.put buf _).cell buf).take (i + 1) ++ t = _
    rw [Heap.put_same, List.take_set, List.set_eq_take_append_cons_drop, if_pos (by simp; omega)]
    simp [List.take_take, List.drop_take]

theorem exec_append (kp : Option (Keep C)) (a b : List (Op K)) (s : HState C) : s.exec kp (a ++ b) = (s.exec kp a).exec kp b := by
  induction a generalizing s with
  | nil => rfl
  | cons op t ih => exact ih _

/-- **Specification** of what the caller gets by refilling one array: before every `adapt` the stored `last_x` has already become the *current* input. -/
def bufferReplay (k : Keep C) : List (K × Vec K n) → Core K n C.Ext → Core K n C.Ext
  | [], c => c
  | (d, v) :: t, c => bufferReplay k t (C.adapt d (List.ofFn v) { c with ext := k.set c.ext v }).2

/-- the calling program `for d, v in ...: buf[:] = v; f.adapt(d, buf)` -/
def bufferLoop (buf : Ref) (l : List (K × Vec K n)) : List (Op K) := l.flatMap fun q => fill buf q.2 ++ [Op.adapt q.1 buf]

theorem buffer_step (k : Keep C) (hk : KeepLaw k) (buf : Ref) (d : K) (v : Vec K n) (s : HState C) (hs : s.WF (some k)) (hb : s.f.lastX = buf) :
    (s.exec (some k) (fill buf v ++ [.adapt d buf])).WF (some k) ∧ (s.exec (some k) (fill buf v ++ [.adapt d buf])).f.lastX = buf ∧
    (s.exec (some k) (fill buf v ++ [.adapt d buf])).load (some k) =
      (C.adapt d (List.ofFn v) { s.load (some k) with ext := k.set (s.load (some k)).ext v }).2 := by
  subst hb
  obtain ⟨h1, h2, h3, h4⟩ := fillFrom_exec (some k) s.f.lastX (List.ofFn v) 0 s (by rw [hs.x_len rfl]; simp)
  rw [exec_append]
  unfold fill
  generalize s.exec (some k) (fillFrom s.f.lastX 0 (List.ofFn v)) = s1 at *
  rw [List.take_zero, List.nil_append] at h3
  have hs1 : s1.WF (some k) := by
    refine ⟨by rw [h1, h2]; exact hs.w_lt, by rw [h1, h2]; exact hs.x_lt, by rw [h1]; exact hs.ne, ?_, fun _ => ?_⟩
    · rw [h1, h4 _ hs.ne.symm]; exact hs.w_len
    · rw [h1, h3]; simp
  have hload : s1.load (some k) = { s.load (some k) with ext := k.set (s.load (some k)).ext v } := by
    unfold HState.load
    dsimp only
    rw [h1, h3, h4 _ hs.ne.symm, toVec_ofFn, hk.set_set]
  obtain ⟨c1, c2, c3⟩ := call_sim (some k) (C.adapt d (s1.heap.cell s.f.lastX)) s.f.lastX s1 hs1 (fun _ => by rw [h1]; exact hs.ne)
    (by rw [h1]; exact hs.ne) (by rw [h2]; exact hs.x_lt) (fun q hq => by cases hq; exact ⟨hk, Or.inl (hk.adapt d _)⟩)
  have hstep : s1.exec (some k) [.adapt d s.f.lastX] = (s1.call (some k) (C.adapt d (s1.heap.cell s.f.lastX)) s.f.lastX).2 := by
    show (s1.step (some k) (.adapt d s.f.lastX)).2 = _
    rw [step_adapt]
  rw [hstep]
  refine ⟨c3, ?_, ?_⟩
  · unfold HState.call
    rcases C.adapt d (s1.heap.cell s.f.lastX) (s1.load (some k)) with ⟨e | a, c⟩
    · show s1.f.lastX = _; rw [h1]
    · rfl
  · rw [c2, hload, h3]

theorem buffer_loop (k : Keep C) (hk : KeepLaw k) (buf : Ref) (l : List (K × Vec K n)) (s : HState C) (hs : s.WF (some k)) (hb : s.f.lastX = buf) :
    (s.exec (some k) (bufferLoop buf l)).load (some k) = bufferReplay k l (s.load (some k)) := by
  induction l generalizing s with
  | nil => rfl
  | cons q t ih =>
    obtain ⟨h1, h2, h3⟩ := buffer_step k hk buf q.1 q.2 s hs hb
    have : bufferLoop buf (q :: t) = (fill buf q.2 ++ [Op.adapt q.1 buf]) ++ bufferLoop buf t := rfl
    rw [this, exec_append, ih _ h1 h2, h3]
    rfl

end

section kinds2
variable [Transc K]

/-- C78: a caller who keeps refilling **the same array** and passing it to `adapt` of GNGD or a VSLMS filter gets, from the second call on, the update in
which the previous input is replaced by the current one; exactly that, for any number of steps. -/
theorem C78_buffer (solve : Solver K) (kd : Kind) (k : Keep (classOf (n := n) solve kd)) (hk : keepOf solve kd = some k) (buf : Ref)
    (l : List (K × Vec K n)) (s : HState (classOf (n := n) solve kd)) (hs : s.WF (keepOf solve kd)) (hb : s.f.lastX = buf) :
    (s.exec (keepOf solve kd) (bufferLoop buf l)).load (keepOf solve kd) = bufferReplay k l (s.load (keepOf solve kd)) := by
  rw [hk] at hs ⊢
  exact buffer_loop k (keepOf_law solve kd k hk) buf l s hs hb

/-- C78: after a successful `adapt` the filter refers to the caller's array: the hypothesis `s.f.lastX = buf` of `C78_buffer` holds. -/
theorem C78_keeps_reference (solve : Solver K) (kd : Kind) (d : K) (x : Ref) (s : HState (classOf (n := n) solve kd))
    (h : (s.step (keepOf solve kd) (.adapt d x)).1 = .ok .unit) : (s.step (keepOf solve kd) (.adapt d x)).2.f.lastX = x := by
  rw [step_adapt] at h ⊢
  unfold HState.call at h ⊢
  rcases hc : (classOf (n := n) solve kd).adapt d (s.heap.cell x) (s.load (keepOf solve kd)) with ⟨e | a, c⟩
  · rw [hc] at h; cases h
  · rfl

end kinds2

section constructed
variable [Transc K]

theorem new_load (solve : Solver K) (k : Kind) (h : Heap K) (wArg : Ref) (core : Core K n (classOf (n := n) solve k).Ext)
    (hw : core.w = toVec (h.cell wArg)) (hx : ∀ q, keepOf solve k = some q → q.get core.ext = zeros n) :
    (HState.new h wArg core : HState (classOf (n := n) solve k)).load (keepOf solve k) = core := by
  have h1 : ((h.alloc (h.cell wArg)).alloc (List.replicate n 0)).cell h.next = h.cell wArg := by
    rw [Heap.alloc_old _ _ (by rw [Heap.alloc_next]; omega), Heap.alloc_new]
  have h2 : (toVec (((h.alloc (h.cell wArg)).alloc (List.replicate n 0)).cell (h.next + 1)) : Vec K n) = zeros n := by
    rw [show h.next + 1 = (h.alloc (h.cell wArg)).next from rfl, Heap.alloc_new]
    funext i
    simp [toVec, zeros]
  rcases hk : keepOf (n := n) solve k with _ | q
  · unfold HState.load HState.new
    dsimp only
    rw [h1, ← hw]
  · unfold HState.load HState.new
    dsimp only
    rw [h1, ← hw]
    have := hx q hk
    rw [show (h.alloc (h.cell wArg)).next = h.next + 1 from rfl, h2, ← this, (keepOf_law solve k q hk).set_get]

/-- C78, C79: constructing a filter with the array `wArg` of the caller as initial weights: the filter behaves from the start as the value `f` returned by the
constructor model of `C43`, and the invariant needed by `C78_copies` and `C78_buffer` holds. -/
theorem C78_constructed (env : Env K) (t : Tag) (kw : Kwargs K) (h : Heap K) (wArg : Ref) (f : AnyFilter K env)
    (hkw : kw.w = some (.arr (h.cell wArg))) (hf : construct env t kw = .ok f) :
    (HState.new h wArg f.obj.core : HState (classOf (n := f.n) env.solve f.kind)).load (keepOf env.solve f.kind) = f.obj.core ∧
    (HState.new h wArg f.obj.core : HState (classOf (n := f.n) env.solve f.kind)).WF (keepOf env.solve f.kind) := by
  unfold construct at hf
  rw [hkw] at hf
  by_cases hb : badKeyword t kw = true
  · rw [if_pos hb] at hf; cases hf
  rw [if_neg hb] at hf
  rcases hn : kw.n with _ | m
  · rw [hn] at hf; cases hf
  rcases hm : (kw.mu <|> defaultMu t) with _ | mu
  · rw [hn, hm] at hf; cases hf
  rw [hn, hm] at hf
  dsimp only at hf
  rcases hw : (initWeights env.rand 0 ((some (WArg.arr (h.cell wArg))).getD (.str "random")) m).bind (asVec m) with e | w
  · rw [hw] at hf; cases hf
  rw [hw] at hf
  dsimp only at hf
  have hlen : (h.cell wArg).length = m := by
    by_contra hne
    have : initWeights env.rand 0 (WArg.arr (h.cell wArg)) m = .error .valueError := by
      unfold initWeights
      rw [if_neg (by omega : ¬ ((m : ℤ) = -1))]
      exact if_neg (by exact_mod_cast hne)
    rw [Option.getD_some, this] at hw
    cases hw
  have hwv : w = toVec (h.cell wArg) := by
    have : initWeights env.rand 0 (WArg.arr (h.cell wArg)) m = .ok (h.cell wArg) := by
      unfold initWeights
      rw [if_neg (by omega : ¬ ((m : ℤ) = -1))]
      exact if_pos (by exact_mod_cast hlen)
    rw [Option.getD_some, this] at hw
    have h2 : asVec m (h.cell wArg) = .ok w := hw
    rw [asVec_toVec hlen] at h2
    exact (Except.ok.inj h2).symm
  have key : f.obj.core.w = toVec (h.cell wArg) ∧ f.n = m ∧
      ∀ q, keepOf (n := f.n) env.solve f.kind = some q → q.get f.obj.core.ext = zeros f.n := by
    cases t
    case rls =>
      unfold initExt at hf
      dsimp only at hf
      rcases hr : (rlsInit (n := m) (kw.eps.getD (lit 1 1000)) : Except Err (RlsExt K m)) with e | q
      · rw [hr] at hf; cases hf
      · rw [hr] at hf; cases hf; exact ⟨hwv, rfl, fun q hq => by cases hq⟩
    all_goals
      cases hf
      refine ⟨hwv, rfl, ?_⟩
      intro q hq
      first
      | (cases Option.some.inj hq; rfl)
      | cases hq
  obtain ⟨k1, k2, k3⟩ := key
  exact ⟨new_load env.solve f.kind h wArg f.obj.core k1 k3, new_wf _ h wArg (by rw [k2]; exact hlen) _⟩

end constructed

/-! ## Witness: GNGD over `ℚ`, one tap -/

section witness

/-- a heap with one array `[0]`, used as initial weights -/
def exHeap : Heap ℚ := { cell := fun r => if r = 0 then [0] else [], next := 1 }

/-- a GNGD filter with `mu = 1`, `eps = 1`, `ro = 1`, constructed with the array 0 as `w` -/
def exGngd : HState (gngd ℚ 1) := HState.new exHeap 0
  { w := 0, nAttr := 1, mu := 1, ext := ({ eps := 1, ro := 1, lastE := 0, lastX := 0 } : GngdExt ℚ 1) }

/-- the hypotheses of `C78_copies` are met by a constructed filter ... -/
example : exGngd.WF (some keepGngd) := new_wf (some keepGngd) exHeap 0 rfl _

/-- one buffer, refilled: references 1, 2 are the filter's arrays, 3 is the buffer -/
def exReuse : List (Op ℚ) := [.alloc [1], .adapt 1 3, .store 3 0 2, .adapt 3 3]

/-- two different arrays with the same contents -/
def exFresh : List (Op ℚ) := [.alloc [1], .adapt 1 3, .alloc [2], .adapt 3 4]

/-- ... and by a program with several calls (`exFresh` is safe, and calls `adapt` with `[1]`, then `[2]`) -/
example : SafeAll (some keepGngd) exFresh exGngd := by
  refine ⟨trivial, ⟨?_, ?_⟩, trivial, ⟨?_, ?_⟩, trivial⟩ <;> decide

/-- C78 (witness that the condition is needed): refilling the array between the calls gives other weights than passing new arrays. -/
theorem C78_witness : ((exGngd.exec (some keepGngd) exFresh).load (some keepGngd)).w 0 ≠ ((exGngd.exec (some keepGngd) exReuse).load (some keepGngd)).w 0 := by
  decide +kernel

/-- the refilling program is `C78_buffer`'s (after one call), and is not safe -/
example : exReuse = [.alloc [1], .adapt 1 3] ++ bufferLoop 3 [((3 : ℚ), (fun _ => 2 : Vec ℚ 1))] := rfl

example : (exGngd.exec (some keepGngd) [.alloc [1], .adapt 1 3]).f.lastX = 3 := by decide +kernel

/-- C79 is not vacuous: the weights do change while the array of initial weights stays `[0]` -/
example : (exGngd.exec (some keepGngd) exFresh).heap.cell 1 ≠ [0] ∧ (exGngd.exec (some keepGngd) exFresh).heap.cell 0 = [0] := by decide +kernel

/-- a run: allocates the copies, returns new arrays -/
example : ((exGngd.exec (some keepGngd) [.alloc [1, 2], .alloc [1], .alloc [3]]).run (some keepGngd) 3 [4, 5]).1 = .ok (10, 11, 8, 2) := by rfl

end witness

end Padasip
