import Verif.Lemmas.Steps
import Verif.Lemmas.Field
import Verif.Props.Nan
import Verif.Spec.Example

/-!
# C39-C41: the compensation term of GNGD, the memory of OCNLMS
-/

set_option linter.unusedSectionVars false
set_option linter.unusedSimpArgs false

namespace Padasip

/-! ## C39 -/

/-- `FilterGNGD(1, w="zeros")` with the default parameters `mu=1`, `eps=1`, `ro=0.1` -/
def gngdEx : Obj (gngd ℚ 1) := ⟨⟨fun _ => 0, 1, 1, ⟨1, 1 / 10, 0, zeros 1⟩⟩, []⟩

/-- the attribute `eps` of a GNGD object -/
def gngdEpsOf {K : Type} [Scalar K] {n : ℕ} (o : Obj (gngd K n)) : K :=
  let q : GngdExt K n := o.core.ext
  q.eps

/-- `gngdEx` is the object the constructor returns. -/
example : (match construct ratEnv .gngd { n := some 1, w := some (.str "zeros") } with
    | .ok ⟨1, .gngd, o⟩ => decide (o.core.w 0 = 0 ∧ o.core.mu = 1 ∧ o.core.nAttr = 1)
    | _ => false) = true := by decide +kernel

/-- C39: with the default parameters two finite samples make `eps` negative, even `eps + |x|^2 < 0`: the error of the second sample
is `150 > 0` and the input `1 > 0`, yet the weight is decreased. -/
theorem C39_eps_negative :
    gngdEpsOf (run (gngd ℚ 1) [100, 200] [[1], [1]] gngdEx).2 = -374 ∧
    gngdEpsOf (run (gngd ℚ 1) [100, 200] [[1], [1]] gngdEx).2 + 1 * 1 < 0 ∧
    (run (gngd ℚ 1) [100, 200, 0] [[1], [1], [1]] gngdEx).1
      = .ok ([0, 50, 18500 / 373], [100, 150, -18500 / 373], [[0], [50], [18500 / 373]]) := by
  decide +kernel

/-- C39: there are samples for which the denominator `eps + |x|^2` is exactly 0 (the step size is a division by zero). -/
theorem C39_denominator_zero :
    gngdEpsOf (run (gngd ℚ 1) [8, 14] [[1], [1]] gngdEx).2 + 1 * 1 = 0 := by
  decide +kernel

section c39
variable {K : Type} [Field K] [LinearOrder K] [IsStrictOrderedRing K] {n : ℕ}
variable {d : ℕ → K} {x : ℕ → Vec K n} {y e : ℕ → K}

/-- C39: as long as the attribute `eps` is positive after the sample (and `mu > 0`), the sample moves the weights by a positive
multiple `<= mu / eps` of `e x`. -/
theorem C39_positive_step (o : Obj (gngd K n)) (hmu : 0 < o.core.mu) {S : ℕ → Core K n (GngdExt K n)}
    (h : Runs (gngd K n) o d x y e S) (k : ℕ) (hk : 0 < (S (k + 1)).ext.eps) :
    ∃ c, 0 < c ∧ c ≤ o.core.mu / (S (k + 1)).ext.eps ∧ ∀ i, (S (k + 1)).w i - (S k).w i = c * (e k * x k i) := by
  obtain ⟨h1, -, -, -, h5, h6, -⟩ := gngd_runs h k
  rw [h6] at hk ⊢
  have hd := dot_self_nonneg (x k)
  refine ⟨o.core.mu / (gngdEps (S k) (e k) (x k) + dot (x k) (x k)), by positivity, ?_, fun i => ?_⟩
  · exact div_le_div_of_nonneg_left hmu.le hk (by linarith)
  · rw [h5, h1]; simp only; ring

/-- C39: a sufficient condition for the next `eps` to stay positive: the correction
`ro mu e(k) e(k-1) <x(k), x(k-1)>` is smaller than `eps (|x(k-1)|^2 + eps)^2`. -/
theorem C39_sufficient (o : Obj (gngd K n)) {S : ℕ → Core K n (GngdExt K n)}
    (h : Runs (gngd K n) o d x y e S) (k : ℕ) (hk : 0 < (S (k + 1)).ext.eps)
    (hs : o.core.ext.ro * o.core.mu * e (k + 1) * e k * (∑ i, x (k + 1) i * x k i)
      < (S (k + 1)).ext.eps * ((∑ i, x k i * x k i) + (S (k + 1)).ext.eps) ^ 2) :
    0 < (S (k + 2)).ext.eps := by
  obtain ⟨-, -, -, -, -, -, h7, h8⟩ := gngd_runs h k
  obtain ⟨h1, h2, -, -, -, h6, -⟩ := gngd_runs h (k + 1)
  show 0 < (S (k + 1 + 1)).ext.eps
  rw [h6, gngdEps, h7, h8, h1, h2, sub_pos, dot_eq, dot_eq]
  have : 0 < (∑ i, x k i * x k i) + (S (k + 1)).ext.eps :=
    add_pos_of_nonneg_of_pos (Finset.sum_nonneg fun i _ => mul_self_nonneg _) hk
  rw [div_lt_iff₀ (by positivity)]
  linarith [hs]

/-- the hypotheses are met: in the first step `eps` is not changed -/
example : ∃ (y e : ℕ → ℚ) (S : ℕ → Core ℚ 1 (GngdExt ℚ 1)),
    Runs (gngd ℚ 1) gngdEx (fun k => k) (fun _ _ => 1) y e S ∧ 0 < gngdEx.core.mu ∧ 0 < (S 1).ext.eps ∧
    gngdEx.core.ext.ro * gngdEx.core.mu * e 1 * e 0 * (∑ i : Fin 1, (1 : ℚ) * 1)
      < (S 1).ext.eps * ((∑ i : Fin 1, (1 : ℚ) * 1) + (S 1).ext.eps) ^ 2 :=
  ⟨_, _, _, runs_of_safe gngd_safe _ trivial _ _, by decide +kernel⟩

end c39

/-! ## C40 -/

section c40
variable {K : Type} [Scalar K] {n : ℕ}

/-- the attributes of an OCNLMS object that a plain filter does not have -/
abbrev ocExtOf (o : Obj (ocnlms K n)) : OcExt K n := o.core.ext
/-- the circular index `mem_idx` of an OCNLMS object -/
def memIdxOf (o : Obj (ocnlms K n)) : ℕ := (ocExtOf o).memIdx
/-- number of slots of the memory -/
def memLen (o : Obj (ocnlms K n)) : ℕ := (ocExtOf o).memX.length

theorem ocAdvance_idx {q : OcExt K n} (h : OcOk q) :
    (ocAdvance q).memIdx = (q.memIdx + 1) % q.memX.length ∧ (ocAdvance q).memX = q.memX ∧
      (ocAdvance q).memD = q.memD := by
  have := h.2
  unfold ocAdvance
  split
  · refine ⟨?_, rfl, rfl⟩
    have : q.memIdx + 1 = q.memX.length := by omega
    show 0 = _
    rw [this, Nat.mod_self]
  · refine ⟨?_, rfl, rfl⟩
    show q.memIdx + 1 = _
    exact (Nat.mod_eq_of_lt (by omega)).symm

/-- the memory after one processed sample -/
theorem oc_ext_step {q : OcExt K n} (h : OcOk q) (x : Vec K n) (a : K) :
    let q' := ocStoreD (ocAdvance (ocStoreX (ocAdvance q) x)) a
    q'.memIdx = (q.memIdx + 2) % q.memX.length ∧
    q'.memX = q.memX.set ((q.memIdx + 1) % q.memX.length) x ∧
    q'.memD = q.memD.set ((q.memIdx + 1) % q.memX.length) a := by
  intro q'
  obtain ⟨a1, a2, a3⟩ := ocAdvance_idx h
  have h2 := OcOk_storeX (OcOk_advance h) x
  obtain ⟨b1, b2, b3⟩ := ocAdvance_idx h2
  have hl : (ocStoreX (ocAdvance q) x).memX.length = q.memX.length := by
    show ((ocAdvance q).memX.set _ x).length = _
    rw [List.length_set, a2]
  have hi : (ocStoreX (ocAdvance q) x).memIdx = (q.memIdx + 1) % q.memX.length := a1
  have hidx : (ocAdvance (ocStoreX (ocAdvance q) x)).memIdx = (q.memIdx + 2) % q.memX.length := by
    rw [b1, hl, hi, Nat.mod_add_mod]
  have h0 := h.1
  have h1 := h.2
  refine ⟨hidx, ?_, ?_⟩
  · show (ocAdvance (ocStoreX (ocAdvance q) x)).memX = _
    rw [b2]
    show (ocAdvance q).memX.set (ocAdvance q).memIdx x = _
    rw [a1, a2]
  · show (ocAdvance (ocStoreX (ocAdvance q) x)).memD.set _ a = _
    rw [b3, hidx]
    show (ocAdvance q).memD.set _ a = _
    have hD : (ocStoreX (ocAdvance q) x).memD.length = q.memX.length := by
      show (ocAdvance q).memD.length = _
      rw [a3, h0]
    rw [a3]
    congr 1
    rw [hD]
    rcases Nat.lt_or_ge (q.memIdx + 2) q.memX.length with hc | hc
    · rw [Nat.mod_eq_of_lt hc, Nat.mod_eq_of_lt (by omega)]
      split <;> omega
    · rcases Nat.eq_or_lt_of_le hc with hc' | hc'
      · rw [← hc', Nat.mod_self, Nat.mod_eq_of_lt (by omega)]
        simp [← hc']
      · have : q.memIdx + 1 = q.memX.length := by omega
        rw [this, Nat.mod_self]
        have e : q.memIdx + 2 = 1 + q.memX.length := by omega
        rw [e, Nat.add_mod_right]
        rcases Nat.eq_or_lt_of_le (show 1 ≤ q.memX.length by omega) with h1 | h1
        · rw [← h1]; simp
        · rw [Nat.mod_eq_of_lt h1]; simp

/-- C40: `predict` is not free of side effects: it advances the circular index of the memory by one. -/
theorem C40_predict_advances (o : Obj (ocnlms K n)) (hm : (ocExtOf o).memD.length = memLen o)
    (hi : memIdxOf o < memLen o) (hn : o.core.nAttr = n) (x : Vec K n) :
    (∃ y, (predict (ocnlms K n) (List.ofFn x) o).1 = .ok y) ∧
    memIdxOf (predict (ocnlms K n) (List.ofFn x) o).2 = (memIdxOf o + 1) % memLen o := by
  have h : OcOk (ocExtOf o) := ⟨hm, hi⟩
  have := oc_predict (s := o.core) h hn x
  have e : predict (ocnlms K n) (List.ofFn x) o = (.ok (ocY o.core x), { o with core := { o.core with ext := ocAdvance o.core.ext } }) := by
    show Obj.liftM (ocPredict (List.ofFn x)) o = _
    exact liftM_eq (C := ocnlms K n) this
  rw [e]
  exact ⟨⟨_, rfl⟩, (ocAdvance_idx h).1⟩

/-- C40: what `predict` returns, in any arithmetic, with `mean l = sum l / len l`. Nothing stored yet (`mem_empty` and index 0): `<w, x - 0> + 0`. Memory not yet gone round
once: the inputs are centred by the mean of the first `idx + 1` rows, the output by the mean of the first `idx` targets (one fewer). Afterwards: by the mean of all rows and by
the mean of all targets but the one in slot `idx`. -/
theorem C40_predict_value (o : Obj (ocnlms K n)) (hm : (ocExtOf o).memD.length = memLen o) (hi : memIdxOf o < memLen o) (hn : o.core.nAttr = n) (x : Vec K n) :
    (predict (ocnlms K n) (List.ofFn x) o).1 = .ok (
      if (ocExtOf o).memEmpty then
        if memIdxOf o = 0 then dot o.core.w (fun i => x i - 0) + 0
        else dot o.core.w (fun i => x i - (((ocExtOf o).memX.take (memIdxOf o + 1)).map (· i)).sum / Scalar.nat (memIdxOf o + 1))
          + ((ocExtOf o).memD.take (memIdxOf o)).sum / Scalar.nat (memIdxOf o)
      else dot o.core.w (fun i => x i - ((ocExtOf o).memX.map (· i)).sum / Scalar.nat (memLen o))
          + ((ocExtOf o).memD.eraseIdx (memIdxOf o)).sum / Scalar.nat (memLen o - 1)) := by
  have h : OcOk (ocExtOf o) := ⟨hm, hi⟩
  have := oc_predict (s := o.core) h hn x
  have e : predict (ocnlms K n) (List.ofFn x) o = (.ok (ocY o.core x), { o with core := { o.core with ext := ocAdvance o.core.ext } }) := by
    show Obj.liftM (ocPredict (List.ofFn x)) o = _
    exact liftM_eq (C := ocnlms K n) this
  rw [e]
  have hmin : min (memIdxOf o + 1) (memLen o) = memIdxOf o + 1 := by omega
  have hmin' : min (memIdxOf o) ((ocExtOf o).memD.length) = memIdxOf o := by omega
  have hlt : memIdxOf o < (ocExtOf o).memD.length := by omega
  show Except.ok (dot o.core.w (fun i => x i - ocMx (ocExtOf o) i) + ocMd (ocExtOf o)) = _
  congr 1
  unfold ocMx ocMd ocCenterD
  cases he : (ocExtOf o).memEmpty
  · simp only [Bool.false_eq_true, if_false, meanRows, meanL]
    rw [if_pos (show (ocExtOf o).memIdx < _ from hlt)]
    simp only [List.length_map, List.length_eraseIdx_of_lt (show (ocExtOf o).memIdx < _ from hlt), hm]
    rfl
  · simp only [if_true]
    by_cases h0 : memIdxOf o = 0
    · rw [if_pos h0, if_pos (show (ocExtOf o).memIdx = 0 from h0), if_pos (show (ocExtOf o).memIdx = 0 from h0)]
      rfl
    · rw [if_neg h0, if_neg (show ¬ (ocExtOf o).memIdx = 0 from h0), if_neg (show ¬ (ocExtOf o).memIdx = 0 from h0)]
      simp only [meanRows, meanL, List.length_map, List.length_take]
      rw [show min ((ocExtOf o).memIdx + 1) (ocExtOf o).memX.length = memIdxOf o + 1 from hmin, show min (ocExtOf o).memIdx (ocExtOf o).memD.length = memIdxOf o from hmin']
      rfl

variable {d : ℕ → K} {x : ℕ → Vec K n} {y e : ℕ → K}

theorem oc_runs_ext {o : Obj (ocnlms K n)} {S : ℕ → Core K n (OcExt K n)} (h : Runs (ocnlms K n) o d x y e S)
    (ho : OcOk (ocExtOf o)) (k : ℕ) :
    OcOk (S k).ext ∧ (S k).nAttr = n ∧ y k = ocY (S k) (x k) ∧ e k = d k - y k ∧
    ∃ a, (S (k + 1)).ext = ocStoreD (ocAdvance (ocStoreX (ocAdvance (S k).ext) (x k))) a := by
  obtain ⟨h1, h2, h3⟩ := h.step ocnlms_safe ho k
  rw [oc_body (s := S k) h2 h3] at h1
  have h4 := Prod.mk.inj (Except.ok.inj (Prod.mk.inj h1).1)
  have h5 := (Prod.mk.inj h1).2
  refine ⟨h2, h3, h4.1.symm, ?_, ?_⟩
  · rw [← h4.1, ← h4.2]
  · rw [← h5]; exact ⟨_, rfl⟩

theorem oc_memLen {o : Obj (ocnlms K n)} {S : ℕ → Core K n (OcExt K n)} (h : Runs (ocnlms K n) o d x y e S)
    (ho : OcOk (ocExtOf o)) (k : ℕ) :
    (S k).ext.memX.length = memLen o ∧ (S k).ext.memD.length = memLen o ∧
      (S k).ext.memIdx = (memIdxOf o + 2 * k) % memLen o := by
  induction k with
  | zero =>
    rw [h.1]
    exact ⟨rfl, ho.1, (Nat.mod_eq_of_lt ho.2).symm⟩
  | succ k ih =>
    obtain ⟨hk, -, -, -, a, ha⟩ := oc_runs_ext h ho k
    obtain ⟨s1, s2, s3⟩ := oc_ext_step hk (x k) a
    rw [ha, s1, s2, s3]
    refine ⟨by rw [List.length_set]; exact ih.1, by rw [List.length_set]; exact ih.2.1, ?_⟩
    rw [ih.1, ih.2.2, Nat.mod_add_mod]
    congr 1

/-- C40: `run` advances the circular index by two for every sample. -/
theorem C40_index (o : Obj (ocnlms K n)) (hm : (ocExtOf o).memD.length = memLen o)
    (hi : memIdxOf o < memLen o) {S : ℕ → Core K n (OcExt K n)} (h : Runs (ocnlms K n) o d x y e S) (k : ℕ) :
    (S k).ext.memIdx = (memIdxOf o + 2 * k) % memLen o :=
  (oc_memLen h ⟨hm, hi⟩ k).2.2

/-- C40: sample `k` is stored in slot `(idx + 2 k + 1) mod mem` and in no other slot. -/
theorem C40_slot (o : Obj (ocnlms K n)) (hm : (ocExtOf o).memD.length = memLen o)
    (hi : memIdxOf o < memLen o) {S : ℕ → Core K n (OcExt K n)} (h : Runs (ocnlms K n) o d x y e S) (k : ℕ) :
    (S (k + 1)).ext.memX = (S k).ext.memX.set ((memIdxOf o + 2 * k + 1) % memLen o) (x k) := by
  obtain ⟨hk, -, -, -, a, ha⟩ := oc_runs_ext h ⟨hm, hi⟩ k
  obtain ⟨l1, l2, l3⟩ := oc_memLen h ⟨hm, hi⟩ k
  obtain ⟨s1, s2, s3⟩ := oc_ext_step hk (x k) a
  rw [ha, s2, l1, l3, Nat.mod_add_mod]

/-- C40: with an even `mem` (the default is 100) every second slot of the memory of a new filter stays zero for ever, for inputs and
targets alike, and is averaged as if it held a sample. -/
theorem C40_half_unused (o : Obj (ocnlms K n)) (m : ℕ) (hm : 0 < m) (q : OcExt K n)
    (ho : o.core.ext = ocClear (2 * m) q) {S : ℕ → Core K n (OcExt K n)} (h : Runs (ocnlms K n) o d x y e S)
    (k i : ℕ) (hi : i < m) :
    (S k).ext.memX[2 * i]? = some (fun _ => 0) ∧ (S k).ext.memD[2 * i]? = some 0 := by
  have hx : (ocExtOf o).memX = List.replicate (2 * m) (zeros n) := by
    show (o.core.ext : OcExt K n).memX = _
    rw [ho]; rfl
  have hd : (ocExtOf o).memD = List.replicate (2 * m) 0 := by
    show (o.core.ext : OcExt K n).memD = _
    rw [ho]; rfl
  have hidx : memIdxOf o = 0 := by
    show (o.core.ext : OcExt K n).memIdx = _
    rw [ho]; rfl
  have hlen : memLen o = 2 * m := by unfold memLen; rw [hx]; simp
  have hok : OcOk (ocExtOf o) := by
    refine ⟨by rw [hx, hd]; simp, ?_⟩
    show memIdxOf o < memLen o
    rw [hidx, hlen]; omega
  induction k with
  | zero =>
    rw [h.1]
    show (ocExtOf o).memX[2 * i]? = _ ∧ (ocExtOf o).memD[2 * i]? = _
    rw [hx, hd]
    constructor
    · rw [List.getElem?_replicate]; simp [hi]; rfl
    · rw [List.getElem?_replicate]; simp [hi]
  | succ k ih =>
    obtain ⟨hk, -, -, -, a, ha⟩ := oc_runs_ext h hok k
    obtain ⟨l1, l2, l3⟩ := oc_memLen h hok k
    obtain ⟨s1, s2, s3⟩ := oc_ext_step hk (x k) a
    rw [ha, s2, s3, l1, l3, hidx, hlen, Nat.mod_add_mod]
    have hne : (0 + 2 * k + 1) % (2 * m) ≠ 2 * i := by
      intro hc
      have := congrArg (· % 2) hc
      change (0 + 2 * k + 1) % (2 * m) % 2 = 2 * i % 2 at this
      rw [Nat.mod_mul_right_mod] at this
      omega
    rw [List.getElem?_set_ne hne, List.getElem?_set_ne hne]
    exact ih

/-- the hypotheses are met by a new filter with the default memory -/
example : ∃ (o : Obj (ocnlms ℚ 2)) (q : OcExt ℚ 2) (y e : ℕ → ℚ) (S : ℕ → Core ℚ 2 (OcExt ℚ 2)),
    o.core.ext = ocClear (2 * 50) q ∧ Runs (ocnlms ℚ 2) o (fun k => k) (fun k _ => k + 1) y e S ∧
    (ocExtOf o).memD.length = memLen o ∧ memIdxOf o < memLen o ∧ o.core.nAttr = 2 :=
  ⟨⟨⟨fun _ => 0, 2, 1, ocClear 100 ⟨1, true, [], [], 0⟩⟩, []⟩, ⟨1, true, [], [], 0⟩, _, _, _, rfl,
    runs_of_safe ocnlms_safe _ (by exact ⟨by simp [ocClear, Core.withN], by simp [ocClear, Core.withN]⟩) _ _, rfl, by decide, rfl⟩

end c40

/-- the target memory of an OCNLMS object -/
def memDOf {K : Type} [Scalar K] {n : ℕ} (o : Obj (ocnlms K n)) : List K := (ocExtOf o).memD

/-- C40: what is stored as "target" is not the target: after the samples `(d, x) = (1, 1), (2, 2)` the memory of length 4 holds, in the
two slots written, `1` and `5/3`: it is `e + y` with `y` recomputed with other means. -/
theorem C40_stored_target_wrong :
    memDOf (run (ocnlms ℚ 1) [1, 2] [[1], [2]] (ocFresh 4)).2 = [0, 1, 0, 5 / 3] ∧
    (1 : ℚ) ≠ 5 / 3 ∧ (2 : ℚ) ≠ 5 / 3 := by
  decide +kernel

/-- C40: with `mem=1`, in any arithmetic in which `0/0` is a NaN and NaN propagates, every output and error from the second sample on
is a NaN, and so is every weight from the third on, for every data set. -/
theorem C40_mem_one {K : Type} [Transc K] {n : ℕ} {nan : K → Prop} (L : NanLaws nan)
    (h00 : nan ((0 : K) / Scalar.nat 0)) (o : Obj (ocnlms K n)) (q : OcExt K n)
    (ho : o.core.ext = ocClear 1 q) {d : ℕ → K} {x : ℕ → Vec K n} {y e : ℕ → K} {S : ℕ → Core K n (OcExt K n)}
    (h : Runs (ocnlms K n) o d x y e S) (k : ℕ) (hk : 1 ≤ k) :
    nan (y k) ∧ nan (e k) ∧ ∀ i, nan ((S (k + 1)).w i) := by
  have hok : OcOk (ocExtOf o) := by
    show OcOk (o.core.ext : OcExt K n)
    rw [ho]
    simp [OcOk, ocClear]
  have hlen : memLen o = 1 := by
    show (o.core.ext : OcExt K n).memX.length = 1
    rw [ho]; rfl
  have he : ∀ k, (S (k + 1)).ext.memEmpty = false := by
    intro k
    obtain ⟨hk, -, -, -, a, ha⟩ := oc_runs_ext h hok k
    obtain ⟨l1, -, -⟩ := oc_memLen h hok k
    rw [hlen] at l1
    rw [ha]
    show (ocAdvance (ocStoreX (ocAdvance (S k).ext) (x k))).memEmpty = false
    have : (ocStoreX (ocAdvance (S k).ext) (x k)).memX.length = 1 := by
      show ((ocAdvance (S k).ext).memX.set _ _).length = 1
      rw [List.length_set, (ocAdvance_idx hk).2.1, l1]
    have hadv : ∀ p : OcExt K n, p.memX.length = 1 → (ocAdvance p).memEmpty = false := by
      intro p hp
      unfold ocAdvance
      rw [if_pos (by omega)]
    exact hadv _ this
  obtain ⟨j, rfl⟩ : ∃ j, k = j + 1 := ⟨k - 1, by omega⟩
  obtain ⟨hk, hn, hy, hee, -⟩ := oc_runs_ext h hok (j + 1)
  obtain ⟨l1, l2, l3⟩ := oc_memLen h hok (j + 1)
  rw [hlen] at l1 l2 l3
  have hmd : nan (ocMd (S (j + 1)).ext) := by
    unfold ocMd ocCenterD
    rw [he j, l3, Nat.mod_one, l2]
    obtain ⟨b, hb⟩ := List.length_eq_one_iff.mp l2
    rw [hb]
    exact h00
  have hyn : nan (y (j + 1)) := by rw [hy]; exact L.add_right _ _ hmd
  have hen : nan (e (j + 1)) := by rw [hee]; exact L.sub_right _ _ hyn
  refine ⟨hyn, hen, fun i => ?_⟩
  obtain ⟨h1, h2, h3⟩ := h.step ocnlms_safe hok (j + 1)
  rw [oc_body (s := S (j + 1)) h2 h3] at h1
  have h5 := (Prod.mk.inj h1).2
  rw [← h5]
  refine L.add_right _ _ (L.mul_left _ _ (L.mul_right _ _ ?_))
  rw [← hy, ← hee]
  exact hen

/-- the hypotheses are met over the rationals with a NaN -/
example : NanLaws (fun a : NanRat => a = none) ∧ ((0 : NanRat) / Scalar.nat 0) = none ∧
    ∃ (o : Obj (ocnlms NanRat 1)) (q : OcExt NanRat 1) (y e : ℕ → NanRat) (S : ℕ → Core NanRat 1 (OcExt NanRat 1)),
      o.core.ext = ocClear 1 q ∧ Runs (ocnlms NanRat 1) o (fun _ => 1) (fun _ _ => 1) y e S :=
  ⟨NanRat.laws, rfl, ⟨⟨fun _ => 0, 1, 1, ocClear 1 ⟨1, true, [], [], 0⟩⟩, []⟩, ⟨1, true, [], [], 0⟩, _, _, _, rfl,
    runs_of_safe ocnlms_safe _ (by exact ⟨by simp [ocClear, Core.withN], by simp [ocClear, Core.withN]⟩) _ _⟩

/-! ## C41 -/

/-- C41: the system `d = x` observed without and with an offset of 10 on input and target: not one of the errors is the same, so the
filter is not independent of the mean of the signals (`mem=4`, and likewise with the default `mem=100`). -/
theorem C41_mean_matters :
    (∃ y e w y' e' w', (run (ocnlms ℚ 1) [1, 2, 3, 4, 5] [[1], [2], [3], [4], [5]] (ocFresh 4)).1 = .ok (y, e, w) ∧
      (run (ocnlms ℚ 1) [11, 12, 13, 14, 15] [[11], [12], [13], [14], [15]] (ocFresh 4)).1 = .ok (y', e', w') ∧
      ∀ p ∈ e.zip e', p.1 ≠ p.2) ∧
    (∃ y e w y' e' w', (run (ocnlms ℚ 1) [1, 2, 3, 4, 5] [[1], [2], [3], [4], [5]] (ocFresh 100)).1 = .ok (y, e, w) ∧
      (run (ocnlms ℚ 1) [11, 12, 13, 14, 15] [[11], [12], [13], [14], [15]] (ocFresh 100)).1 = .ok (y', e', w') ∧
      ∀ p ∈ e.zip e', p.1 ≠ p.2) := by
  constructor
  · refine ⟨[0, 7 / 6, 4988 / 1845, 155068 / 39975, 57336784 / 11632725],
      [1, 5 / 6, 547 / 1845, 4832 / 39975, 826841 / 11632725],
      [[0], [2 / 5], [496 / 615], [112036 / 119925], [11389348 / 11632725]],
      [0, 649 / 30, 6382948 / 721125, 782047856 / 59693125, 22639168133032 / 1381239219375],
      [11, -289 / 30, 2991677 / 721125, 53655894 / 59693125, -1920579842407 / 1381239219375],
      [[0], [242 / 125], [104116 / 240375], [185266792 / 179079375], [177445891856 / 153471024375]], ?_, ?_, ?_⟩ <;>
      decide +kernel
  · refine ⟨[0, 7 / 6, 8002 / 3075, 280053 / 71750, 2635152419 / 530806500],
      [1, 5 / 6, 1223 / 3075, 6947 / 71750, 18880081 / 530806500],
      [[0], [2 / 5], [496 / 615], [14846 / 15375], [14695816 / 14744625]],
      [0, 649 / 30, 38083613 / 4807500, 25091038033 / 1682625000, 778694665483037 / 52605588000000],
      [11, -289 / 30, 24413887 / 4807500, -1534288033 / 1682625000, 10389154516963 / 52605588000000],
      [[0], [242 / 125], [104116 / 240375], [275013209 / 240375000], [563521206753 / 547974875000]], ?_, ?_, ?_⟩ <;>
      decide +kernel

end Padasip
