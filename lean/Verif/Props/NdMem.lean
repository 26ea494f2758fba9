import Verif.Model.NdMem
import Verif.Props.NdArr
import Verif.Spec.Log

set_option linter.unusedSectionVars false
set_option linter.unusedSimpArgs false
set_option linter.unusedVariables false

/-!
# C148, C149: array targets and the filters that remember the last error
-/

namespace Padasip

variable {K : Type} {n : Nat}

/-! ## one value per weight -/

/-- `a` is a number, a vector of length 1 or a vector of length `n`; `u i` is the value that belongs to weight `i`. -/
def Lane (a : Arr K) (u : Vec K n) : Prop :=
  (a.shape = [] ∨ a.shape = [1] ∨ a.shape = [n]) ∧ ∀ i : Fin n, a.entry (bidx a.shape [i.val]) = u i

/-- `a` is the vector `v` -/
def IsVec (a : Arr K) (v : Vec K n) : Prop := a.shape = [n] ∧ ∀ i : Fin n, a.entry [i.val] = v i

theorem IsVec.lane {a : Arr K} {v : Vec K n} (h : IsVec a v) : Lane a v :=
  ⟨.inr (.inr h.1), fun i => by rw [h.1, bidx_self i.isLt, h.2]⟩

theorem Lane.vec {a : Arr K} {v : Vec K n} (h : Lane a v) (hs : a.shape = [n]) : IsVec a v :=
  ⟨hs, fun i => by rw [← h.2 i, hs, bidx_self i.isLt]⟩

theorem bshape_lane {s t : List Nat} (hs : s = [] ∨ s = [1] ∨ s = [n]) (ht : t = [] ∨ t = [1] ∨ t = [n]) :
    ∃ c, bshape s t = .ok c ∧ (c = [] ∨ c = [1] ∨ c = [n]) ∧ (s = [n] ∨ t = [n] → c = [n]) ∧
      ∀ i < n, bidx s (bidx c [i]) = bidx s [i] ∧ bidx t (bidx c [i]) = bidx t [i] := by
  have h10 : ∀ i : Nat, bidx [1] [i] = [0] := fun i => by simp [bidx]
  have h11 : ∀ i : Nat, bidx [1] (bidx [1] [i]) = bidx [1] [i] := fun i => by simp [bidx]
  have hnn : ∀ i < n, bidx [n] (bidx [n] [i]) = bidx [n] [i] := fun i hi => by rw [bidx_self hi, bidx_self hi]
  have h1n : ∀ i < n, bidx [1] (bidx [n] [i]) = bidx [1] [i] := fun i hi => by rw [bidx_self hi]
  rcases hs with rfl | rfl | rfl <;> rcases ht with rfl | rfl | rfl
  · exact ⟨[], bshape_nil _, .inl rfl, by simp, fun i hi => ⟨rfl, rfl⟩⟩
  · exact ⟨[1], bshape_nil _, .inr (.inl rfl), by simp, fun i hi => ⟨rfl, h11 i⟩⟩
  · exact ⟨[n], bshape_nil _, .inr (.inr rfl), by simp, fun i hi => ⟨rfl, hnn i hi⟩⟩
  · exact ⟨[1], bshape_nil' _, .inr (.inl rfl), by simp, fun i hi => ⟨h11 i, rfl⟩⟩
  · exact ⟨[1], by rw [bshape_one, if_pos (.inl rfl)], .inr (.inl rfl), by simp, fun i hi => ⟨h11 i, h11 i⟩⟩
  · refine ⟨[n], ?_, .inr (.inr rfl), by simp, fun i hi => ⟨h1n i hi, hnn i hi⟩⟩
    rw [bshape_one]
    split
    · congr 2; omega
    · rw [if_pos rfl]
  · exact ⟨[n], bshape_nil' _, .inr (.inr rfl), by simp, fun i hi => ⟨hnn i hi, rfl⟩⟩
  · exact ⟨[n], by rw [bshape_one, if_pos (.inr rfl)], .inr (.inr rfl), by simp, fun i hi => ⟨hnn i hi, h1n i hi⟩⟩
  · exact ⟨[n], by rw [bshape_one, if_pos (.inl rfl)], .inr (.inr rfl), by simp, fun i hi => ⟨hnn i hi, hnn i hi⟩⟩

theorem lane_zip {a b : Arr K} {u v : Vec K n} (f : K → K → K) (ha : Lane a u) (hb : Lane b v) :
    ∃ c, a.zip f b = .ok c ∧ Lane c (fun i => f (u i) (v i)) ∧ (a.shape = [n] ∨ b.shape = [n] → c.shape = [n]) := by
  obtain ⟨c, h1, h2, h3, h4⟩ := bshape_lane ha.1 hb.1
  refine ⟨_, zip_ok h1, ⟨h2, fun i => ?_⟩, h3⟩
  show f (a.entry (bidx a.shape (bidx c [i.val]))) (b.entry (bidx b.shape (bidx c [i.val]))) = _
  rw [(h4 i.val i.isLt).1, (h4 i.val i.isLt).2, ha.2, hb.2]

theorem lane_map {a : Arr K} {u : Vec K n} (f : K → K) (ha : Lane a u) : Lane (a.map f) (fun i => f (u i)) :=
  ⟨ha.1, fun i => congrArg f (ha.2 i)⟩

theorem vec_dot [Scalar K] {a b : Arr K} {u v : Vec K n} (ha : IsVec a u) (hb : IsVec b v) :
    ∃ c, a.dot b = .ok c ∧ Lane c (fun _ : Fin n => dot u v) ∧ c.shape = [] ∧ c.entry [] = dot u v := by
  have h := dot_vec ha.1 hb.1
  rw [if_pos rfl] at h
  have h2 : (List.ofFn fun k : Fin n => a.entry ([] ++ [k.val]) * b.entry [k.val]).sum = dot u v := by
    simp only [List.nil_append, ha.2, hb.2]; rfl
  exact ⟨_, h, ⟨.inl rfl, fun i => h2⟩, rfl, h2⟩

theorem iadd_lane [Scalar K] {dw : Arr K} {u : Vec K n} (w : Vec K n) (h : Lane dw u) : iadd w dw = .ok fun i => w i + u i := by
  rw [iadd_eq, if_pos h.1]
  congr 1
  funext i
  rw [h.2 i]

theorem lane_num (a : K) : Lane (Arr.num a) (fun _ : Fin n => a) := ⟨.inl rfl, fun _ => rfl⟩

theorem isVec_vec [Scalar K] (v : Vec K n) : IsVec (Arr.vec v) v := ⟨rfl, fun i => vec_entry v i⟩

/-! ## broken attributes -/

/-- the last axis of `a` has length `m` -/
def LastAxis (m : Nat) (a : Arr K) : Prop := ∃ s, a.shape = s ++ [m]

theorem bshape_last {m : Nat} (hm : m ≠ 1) {s t c : List Nat} (h : bshape (s ++ [m]) t = .ok c) : ∃ r, c = r ++ [m] := by
  unfold bshape at h
  rw [List.reverse_append, List.reverse_singleton] at h
  cases ht : t.reverse with
  | nil =>
    rw [ht] at h
    injection h with h
    exact ⟨s, by rw [← h]; simp⟩
  | cons y b =>
    rw [ht] at h
    simp only [List.singleton_append, bshapeRev] at h
    split at h
    · cases hr : bshapeRev s.reverse b with
      | ok r => rw [hr] at h; injection h with h; exact ⟨r.reverse, by rw [← h]; simp⟩
      | error e => rw [hr] at h; cases h
    · cases h

theorem bshape_last' {m : Nat} (hm : m ≠ 1) {s t c : List Nat} (h : bshape t (s ++ [m]) = .ok c) : ∃ r, c = r ++ [m] := by
  unfold bshape at h
  rw [List.reverse_append, List.reverse_singleton] at h
  cases ht : t.reverse with
  | nil =>
    rw [ht] at h
    injection h with h
    exact ⟨s, by rw [← h]; simp⟩
  | cons y b =>
    rw [ht] at h
    simp only [List.singleton_append, bshapeRev] at h
    split at h
    · have hy : y = m := by rename_i h2; omega
      cases hr : bshapeRev b s.reverse with
      | ok r => rw [hr] at h; injection h with h; exact ⟨r.reverse, by rw [← h, hy]; simp⟩
      | error e => rw [hr] at h; cases h
    · split at h
      · cases hr : bshapeRev b s.reverse with
        | ok r => rw [hr] at h; injection h with h; exact ⟨r.reverse, by rw [← h]; simp⟩
        | error e => rw [hr] at h; cases h
      · cases h

/-- an elementwise operation: an exception, or an array that keeps the bad axis -/
theorem bad_zip {m : Nat} (hm : m ≠ 1) (f : K → K → K) {a b : Arr K} (h : LastAxis m a ∨ LastAxis m b) :
    (∃ c, a.zip f b = .ok c ∧ LastAxis m c) ∨ a.zip f b = .error .valueError := by
  rcases zip_cases f a b with ⟨c, hc, hs⟩ | hc
  · refine .inl ⟨c, hc, ?_⟩
    rcases h with ⟨s, hs'⟩ | ⟨s, hs'⟩
    · rw [hs'] at hs; exact bshape_last hm hs
    · rw [hs'] at hs; exact bshape_last' hm hs
  · exact .inr hc

theorem bad_map {m : Nat} (f : K → K) {a : Arr K} (h : LastAxis m a) : LastAxis m (a.map f) := h

theorem bad_iadd [Scalar K] {m : Nat} (hm : m ≠ 1) (hn : m ≠ n) (w : Vec K n) {a : Arr K} (h : LastAxis m a) : iadd w a = .error .valueError := by
  obtain ⟨s, hs⟩ := h
  rw [iadd_eq, if_neg]
  rintro (h | h | h) <;> rw [hs] at h
  · simp at h
  · have := congrArg List.getLast? h; simp at this; exact hm this
  · have := congrArg List.getLast? h; simp at this; exact hn this

theorem bshapeRev_one_right (m : Nat) (l : List Nat) : bshapeRev (m :: l) [1] = .ok (m :: l) := by
  unfold bshapeRev
  rw [if_pos (.inr rfl)]
  cases l <;> rfl

theorem bshapeRev_one_left (m : Nat) (l : List Nat) : bshapeRev [1] (m :: l) = .ok (m :: l) := by
  unfold bshapeRev
  by_cases h : m = 1
  · rw [if_pos (.inr h), h]; cases l <;> rfl
  · rw [if_neg (by omega), if_pos rfl]; cases l <;> rfl

/-- with a number or a vector of length 1 no exception -/
theorem bad_one_zip {m : Nat} (hm : m ≠ 1) (f : K → K → K) {a b : Arr K} (h : LastAxis m a) (hb : b.shape = [] ∨ b.shape = [1]) :
    (∃ c, a.zip f b = .ok c ∧ LastAxis m c) ∧ ∃ c, b.zip f a = .ok c ∧ LastAxis m c := by
  obtain ⟨s, hs⟩ := h
  have h1 : bshape (s ++ [m]) b.shape = .ok (s ++ [m]) := by
    rcases hb with hb | hb
    · rw [hb, bshape_nil']
    · rw [hb]
      unfold bshape
      rw [List.reverse_append, List.reverse_singleton, List.reverse_singleton, List.singleton_append, bshapeRev_one_right]
      simp [Except.map]
  have h2 : bshape b.shape (s ++ [m]) = .ok (s ++ [m]) := by
    rcases hb with hb | hb
    · rw [hb, bshape_nil]
    · rw [hb]
      unfold bshape
      rw [List.reverse_append, List.reverse_singleton, List.reverse_singleton, List.singleton_append, bshapeRev_one_left]
      simp [Except.map]
  exact ⟨⟨_, zip_ok (by rw [hs]; exact h1), s, rfl⟩, ⟨_, zip_ok (by rw [hs]; exact h2), s, rfl⟩⟩

/-! ## one call of `adapt` -/

theorem memAdapt_ok [Scalar K] {p : Mem} {d x y e dw : Arr K} {o o1 : MemObj K n} {w : Vec K n} (hy : (Arr.vec o.w).dot x = .ok y)
    (he : d.zip (· - ·) y = .ok e) (hr : memRule p e x o = (.ok dw, o1)) (hw : iadd o1.w dw = .ok w) :
    memAdapt p d x o = (.ok (), { o1 with w := w }) := by
  have h1 : memPredict x o = (.ok y, o) := by show ((Arr.vec o.w).dot x, o) = _; rw [hy]
  refine (M.bind_ok h1).trans ?_
  rw [he]
  refine (M.bind_ok hr).trans ?_
  show (M.lift (iadd o1.w dw) >>= _) o1 = _
  rw [hw]; rfl

/-- the error, one value per weight -/
theorem lane_err [Scalar K] {d x : Arr K} {w δ v : Vec K n} (hd : Lane d δ) (hx : IsVec x v) :
    ∃ y e, (Arr.vec w).dot x = .ok y ∧ d.zip (· - ·) y = .ok e ∧ Lane e (fun i => δ i - dot w v) ∧ (d.shape = [] → e.shape = []) ∧ (d.shape = [1] → e.shape = [1]) := by
  obtain ⟨y, hy, hl, hs, _⟩ := vec_dot (isVec_vec w) hx
  obtain ⟨e, he, hel, _⟩ := lane_zip (· - ·) hd hl
  refine ⟨y, e, hy, he, hel, ?_, ?_⟩
  all_goals
    intro h
    have h2 := zip_ok (f := (· - ·)) (a := d) (b := y) (s := d.shape) (by rw [hs, bshape_nil'])
    rw [he] at h2
    injection h2 with h2
    rw [h2]; exact h

/-- GNGD -/
theorem C148_gngd [Scalar K] (o : MemObj K n) {d x : Arr K} {eps lastE lastX δ v : Vec K n} (h1 : Lane o.eps eps) (h2 : Lane o.lastE lastE)
    (h3 : IsVec o.lastX lastX) (hd : Lane d δ) (hx : IsVec x v) :
    let e : Vec K n := fun i => δ i - dot o.w v
    let eps' : Vec K n := fun i =>
      eps i - o.ro * o.mu * e i * lastE i * dot v lastX / ((dot lastX lastX + eps i) * (dot lastX lastX + eps i))
    ∃ o', memAdapt .gngd d x o = (.ok (), o') ∧ o'.mu = o.mu ∧ o'.ro = o.ro ∧ o'.nAttr = o.nAttr ∧ IsVec o'.lastX v ∧ Lane o'.lastE e ∧ Lane o'.eps eps' ∧
      ∀ i, o'.w i = o.w i + o.mu / (eps' i + dot v v) * e i * v i := by
  intro e eps'
  obtain ⟨y, ea, hy, he, hel, _⟩ := lane_err (w := o.w) hd hx
  obtain ⟨p1, hp1, lp1, _⟩ := lane_zip (· * ·) (lane_map (o.ro * o.mu * ·) hel) h2
  obtain ⟨b, hb, lb, _⟩ := vec_dot hx h3
  obtain ⟨p2, hp2, lp2, _⟩ := lane_zip (· * ·) lp1 lb
  obtain ⟨c, hc, lc, _⟩ := vec_dot h3 h3
  obtain ⟨den, hden, lden, _⟩ := lane_zip (· + ·) lc h1
  obtain ⟨t, ht, lt, _⟩ := lane_zip (· / ·) lp2 (lane_map (fun a => a * a) lden)
  obtain ⟨ep, hep, lep, _⟩ := lane_zip (· - ·) h1 lt
  obtain ⟨q, hq, lq, _⟩ := vec_dot hx hx
  obtain ⟨s, hs, ls, _⟩ := lane_zip (· + ·) lep lq
  obtain ⟨r, hr, lr, _⟩ := lane_zip (· * ·) (lane_map (o.mu / ·) ls) hel
  obtain ⟨dw, hdw, ldw, _⟩ := lane_zip (· * ·) lr hx.lane
  have hrule : memRule .gngd ea x o = (.ok dw, { o with eps := ep, lastE := ea, lastX := x }) := by
    show gngdNd ea x o = _
    unfold gngdNd
    simp only [M.get_bind, hp1, hb, hp2, hc, hden, ht, hep, hq, hs, M.lift_ok_bind, M.modify_bind]
    rw [hr]
    simp only [M.lift_ok_bind]
    rw [hdw]; rfl
  exact ⟨_, memAdapt_ok hy he hrule (iadd_lane _ ldw), rfl, rfl, rfl, hx, hel, lep, fun i => rfl⟩

/-- VSLMS_Mathews -/
theorem C148_mathews [Scalar K] (o : MemObj K n) {d x : Arr K} {lastMu lastE lastX δ v : Vec K n} (h1 : Lane o.lastMu lastMu) (h2 : Lane o.lastE lastE)
    (h3 : IsVec o.lastX lastX) (hd : Lane d δ) (hx : IsVec x v) :
    let e : Vec K n := fun i => δ i - dot o.w v
    let mu' : Vec K n := fun i => lastMu i + o.ro * e i * lastE i * dot lastX v
    ∃ o', memAdapt .mathews d x o = (.ok (), o') ∧ o'.mu = o.mu ∧ o'.ro = o.ro ∧ o'.nAttr = o.nAttr ∧ IsVec o'.lastX v ∧ Lane o'.lastE e ∧ Lane o'.lastMu mu' ∧
      ∀ i, o'.w i = o.w i + mu' i * e i * v i := by
  intro e mu'
  obtain ⟨y, ea, hy, he, hel, _⟩ := lane_err (w := o.w) hd hx
  obtain ⟨p1, hp1, lp1, _⟩ := lane_zip (· * ·) (lane_map (o.ro * ·) hel) h2
  obtain ⟨b, hb, lb, _⟩ := vec_dot h3 hx
  obtain ⟨p2, hp2, lp2, _⟩ := lane_zip (· * ·) lp1 lb
  obtain ⟨mu, hmu, lmu, _⟩ := lane_zip (· + ·) h1 lp2
  obtain ⟨r, hr, lr, _⟩ := lane_zip (· * ·) lmu hel
  obtain ⟨dw, hdw, ldw, _⟩ := lane_zip (· * ·) lr hx.lane
  have hrule : memRule .mathews ea x o = (.ok dw, { o with lastE := ea, lastMu := mu, lastX := x }) := by
    show mathewsNd ea x o = _
    unfold mathewsNd
    simp only [M.get_bind, hp1, hb, hp2, hmu, M.lift_ok_bind, M.modify_bind]
    rw [hr]
    simp only [M.lift_ok_bind]
    rw [hdw]; rfl
  exact ⟨_, memAdapt_ok hy he hrule (iadd_lane _ ldw), rfl, rfl, rfl, hx, hel, lmu, fun i => rfl⟩

theorem fi_lane [Scalar K] (o : MemObj K n) {ea x fi : Arr K} {lastMu lastX f e v : Vec K n} (h1 : Lane o.lastMu lastMu) (h3 : IsVec o.lastX lastX)
    (hf : IsVec fi f) (hel : Lane ea e) (hx : IsVec x v) :
    ∃ dw mu, fiNd fi ea x o = (.ok dw, { o with lastE := ea, lastMu := mu, lastX := x, lastFi := fi }) ∧
      Lane mu (fun i => lastMu i + o.ro * e i * dot lastX f) ∧ Lane dw (fun i => (lastMu i + o.ro * e i * dot lastX f) * e i * v i) := by
  obtain ⟨b, hb, lb, _⟩ := vec_dot h3 hf
  obtain ⟨p1, hp1, lp1, _⟩ := lane_zip (· * ·) (lane_map (o.ro * ·) hel) lb
  obtain ⟨mu, hmu, lmu, _⟩ := lane_zip (· + ·) h1 lp1
  obtain ⟨r, hr, lr, _⟩ := lane_zip (· * ·) lmu hel
  obtain ⟨dw, hdw, ldw, _⟩ := lane_zip (· * ·) lr hx.lane
  refine ⟨dw, mu, ?_, lmu, ldw⟩
  unfold fiNd
  simp only [M.get_bind, hp1, hb, hmu, M.lift_ok_bind, M.modify_bind]
  rw [hr]
  simp only [M.lift_ok_bind]
  rw [hdw]; rfl

/-- VSLMS_Ang -/
theorem C148_ang [Scalar K] (o : MemObj K n) {d x : Arr K} {lastMu lastE lastX lastFi δ v : Vec K n} (h1 : Lane o.lastMu lastMu) (h2 : Lane o.lastE lastE)
    (h3 : IsVec o.lastX lastX) (h4 : IsVec o.lastFi lastFi) (hd : Lane d δ) (hx : IsVec x v) :
    let e : Vec K n := fun i => δ i - dot o.w v
    let fi : Vec K n := fun i => o.a * lastFi i + lastE i * lastX i
    let mu' : Vec K n := fun i => lastMu i + o.ro * e i * dot lastX fi
    ∃ o', memAdapt .ang d x o = (.ok (), o') ∧ o'.mu = o.mu ∧ o'.ro = o.ro ∧ o'.a = o.a ∧ o'.nAttr = o.nAttr ∧ IsVec o'.lastX v ∧ IsVec o'.lastFi fi ∧
      Lane o'.lastE e ∧ Lane o'.lastMu mu' ∧ ∀ i, o'.w i = o.w i + mu' i * e i * v i := by
  intro e fi mu'
  obtain ⟨y, ea, hy, he, hel, _⟩ := lane_err (w := o.w) hd hx
  obtain ⟨t, ht, lt, st⟩ := lane_zip (· * ·) h2 h3.lane
  obtain ⟨f, hf, lf, sf⟩ := lane_zip (· + ·) (lane_map (o.a * ·) h4.lane) lt
  have vf : IsVec f fi := lf.vec (sf (.inr (st (.inr h3.1))))
  obtain ⟨dw, mu, hr, lmu, ldw⟩ := fi_lane o h1 h3 vf hel hx
  have hrule : memRule .ang ea x o = (.ok dw, { o with lastE := ea, lastMu := mu, lastX := x, lastFi := f }) := by
    show angNd ea x o = _
    unfold angNd
    simp only [M.get_bind, ht, hf, M.lift_ok_bind]
    exact hr
  exact ⟨_, memAdapt_ok hy he hrule (iadd_lane _ ldw), rfl, rfl, rfl, rfl, hx, vf, hel, lmu, fun i => rfl⟩

theorem bshape_mat {s : List Nat} (h : s = [] ∨ s = [1] ∨ s = [n]) : bshape s [n, n] = .ok [n, n] := by
  rcases h with rfl | rfl | rfl
  · exact bshape_nil _
  · show Except.map _ (bshapeRev [1] [n, n]) = _
    rw [bshapeRev_one_left]; rfl
  · show Except.map _ (bshapeRev [n] [n, n]) = _
    unfold bshapeRev
    rw [if_pos (.inl rfl)]; rfl

theorem bidx_mat {i j : Nat} (hi : i < n) (hj : j < n) : bidx [n, n] [i, j] = [i, j] := by
  by_cases h1 : n = 1
  · subst h1; simp [bidx, show i = 0 by omega, show j = 0 by omega]
  · simp [bidx, h1]

theorem lane_mat_zip {a B : Arr K} {u : Vec K n} (f : K → K → K) (ha : Lane a u) (hB : B.shape = [n, n]) :
    ∃ c, a.zip f B = .ok c ∧ c.shape = [n, n] ∧ ∀ i j : Fin n, c.entry [i.val, j.val] = f (u j) (B.entry [i.val, j.val]) := by
  refine ⟨_, zip_ok (by rw [hB]; exact bshape_mat ha.1), rfl, fun i j => ?_⟩
  show f (a.entry (bidx a.shape [i.val, j.val])) (B.entry (bidx B.shape [i.val, j.val])) = _
  rw [hB, bidx_mat i.isLt j.isLt, ← ha.2 j]
  congr 2
  rcases ha.1 with h | h | h <;> rw [h] <;> simp [bidx]

theorem mat_mat_zip {A B : Arr K} (f : K → K → K) (hA : A.shape = [n, n]) (hB : B.shape = [n, n]) :
    ∃ c, A.zip f B = .ok c ∧ c.shape = [n, n] ∧ ∀ i j : Fin n, c.entry [i.val, j.val] = f (A.entry [i.val, j.val]) (B.entry [i.val, j.val]) := by
  have hs : bshape A.shape B.shape = .ok [n, n] := by
    rw [hA, hB]
    show Except.map _ (bshapeRev [n, n] [n, n]) = _
    unfold bshapeRev
    rw [if_pos (.inl rfl)]
    unfold bshapeRev
    rw [if_pos (.inl rfl)]; rfl
  refine ⟨_, zip_ok hs, rfl, fun i j => ?_⟩
  show f (A.entry (bidx A.shape [i.val, j.val])) (B.entry (bidx B.shape [i.val, j.val])) = _
  rw [hA, hB, bidx_mat i.isLt j.isLt]

theorem mat_vec_dot [Scalar K] {A b : Arr K} {v : Vec K n} (hA : A.shape = [n, n]) (hb : IsVec b v) :
    ∃ c, A.dot b = .ok c ∧ IsVec c (fun i : Fin n => vsum fun j : Fin n => A.entry [i.val, j.val] * v j) := by
  have h : A.dot b = .ok ⟨[n], fun idx => (List.ofFn fun k : Fin n => A.entry (idx ++ [k.val]) * b.entry [k.val]).sum⟩ := by
    unfold Arr.dot
    rw [hA, hb.1]
    simp
  refine ⟨_, h, rfl, fun i => ?_⟩
  show (List.ofFn fun k : Fin n => A.entry ([i.val] ++ [k.val]) * b.entry [k.val]).sum = _
  simp only [hb.2]; rfl

/-- VSLMS_Benveniste (with `self.n` equal to the number of weights) -/
theorem C148_benveniste [Scalar K] (o : MemObj K n) (hn : o.nAttr = n) {d x : Arr K} {lastMu lastE lastX lastFi δ v : Vec K n} (h1 : Lane o.lastMu lastMu)
    (h2 : Lane o.lastE lastE) (h3 : IsVec o.lastX lastX) (h4 : IsVec o.lastFi lastFi) (hd : Lane d δ) (hx : IsVec x v) :
    let e : Vec K n := fun i => δ i - dot o.w v
    let fi : Vec K n := fun i => (vsum fun j => ((if i = j then 1 else 0) - lastMu j * (lastX i * lastX j)) * lastFi j) + lastE i * lastX i
    let mu' : Vec K n := fun i => lastMu i + o.ro * e i * dot lastX fi
    ∃ o', memAdapt .benveniste d x o = (.ok (), o') ∧ o'.mu = o.mu ∧ o'.ro = o.ro ∧ o'.nAttr = o.nAttr ∧ IsVec o'.lastX v ∧ IsVec o'.lastFi fi ∧
      Lane o'.lastE e ∧ Lane o'.lastMu mu' ∧ ∀ i, o'.w i = o.w i + mu' i * e i * v i := by
  intro e fi mu'
  obtain ⟨y, ea, hy, he, hel, _⟩ := lane_err (w := o.w) hd hx
  have hout : (o.lastX.outer o.lastX).shape = [n, n] ∧ ∀ i j : Fin n, (o.lastX.outer o.lastX).entry [i.val, j.val] = lastX i * lastX j := by
    unfold Arr.outer
    rw [h3.1]
    refine ⟨by simp, fun i j => ?_⟩
    simp [unravel, h3.2]
  obtain ⟨t, ht, st, lt⟩ := lane_mat_zip (· * ·) h1 hout.1
  obtain ⟨pt, hpt, spt, lpt⟩ := mat_mat_zip (· - ·) (A := Arr.table (eye (K := K) o.nAttr)) (by rw [hn]; rfl) st
  obtain ⟨g, hg, lg⟩ := mat_vec_dot spt h4
  obtain ⟨t2, ht2, lt2, st2⟩ := lane_zip (· * ·) h2 h3.lane
  obtain ⟨f, hf, lf, sf⟩ := lane_zip (· + ·) lg.lane lt2
  have vf : IsVec f fi := by
    have h0 := lf.vec (sf (.inr (st2 (.inr h3.1))))
    have h5 : (fun i : Fin n => (vsum fun j : Fin n => pt.entry [i.val, j.val] * lastFi j) + lastE i * lastX i) = fi := by
      funext i
      show _ = (vsum fun j => ((if i = j then 1 else 0) - lastMu j * (lastX i * lastX j)) * lastFi j) + lastE i * lastX i
      congr 2
      funext j
      rw [lpt, lt, hout.2]
      congr 2
      have : ∀ m (h : m = n), (Arr.table (eye (K := K) m)).entry [i.val, j.val] = if i = j then 1 else 0 := by
        rintro m rfl
        simp [Arr.table, eye, Fin.ext_iff]
      exact this _ hn
    rw [← h5]; exact h0
  obtain ⟨dw, mu, hr, lmu, ldw⟩ := fi_lane o h1 h3 vf hel hx
  have hrule : memRule .benveniste ea x o = (.ok dw, { o with lastE := ea, lastMu := mu, lastX := x, lastFi := f }) := by
    show benvenisteNd ea x o = _
    unfold benvenisteNd
    simp only [M.get_bind, ht, hpt, hg, ht2, hf, M.lift_ok_bind]
    exact hr
  exact ⟨_, memAdapt_ok hy he hrule (iadd_lane _ ldw), rfl, rfl, rfl, hx, vf, hel, lmu, fun i => rfl⟩

/-! ## arrays with one value -/

/-- the class of the model with numbers -/
def memClass [Scalar K] : Mem → FilterClass K n
  | .gngd => gngd K n
  | .mathews => mathews K n
  | .ang => ang K n
  | .benveniste => benveniste K n

/-- `m` has the attributes of the filter `o`, each stored as a number or as an array that has this number for every weight. -/
def MemRep [Scalar K] : (p : Mem) → MemObj K n → Obj (memClass (K := K) (n := n) p) → Prop
  | .gngd => fun m o =>
    let q : GngdExt K n := o.core.ext
    m.w = o.core.w ∧ m.mu = o.core.mu ∧ m.nAttr = n ∧ o.core.nAttr = n ∧ m.ro = q.ro ∧
      Lane m.eps (fun _ : Fin n => q.eps) ∧ Lane m.lastE (fun _ : Fin n => q.lastE) ∧ IsVec m.lastX q.lastX
  | .mathews => fun m o =>
    let q : MathewsExt K n := o.core.ext
    m.w = o.core.w ∧ m.mu = o.core.mu ∧ m.nAttr = n ∧ o.core.nAttr = n ∧ m.ro = q.ro ∧
      Lane m.lastMu (fun _ : Fin n => q.lastMu) ∧ Lane m.lastE (fun _ : Fin n => q.lastE) ∧ IsVec m.lastX q.lastX
  | .ang => fun m o =>
    let q : AngExt K n := o.core.ext
    m.w = o.core.w ∧ m.mu = o.core.mu ∧ m.nAttr = n ∧ o.core.nAttr = n ∧ m.ro = q.ro ∧ m.a = q.a ∧
      Lane m.lastMu (fun _ : Fin n => q.lastMu) ∧ Lane m.lastE (fun _ : Fin n => q.lastE) ∧ IsVec m.lastX q.lastX ∧ IsVec m.lastFi q.lastFi
  | .benveniste => fun m o =>
    let q : BenExt K n := o.core.ext
    m.w = o.core.w ∧ m.mu = o.core.mu ∧ m.nAttr = n ∧ o.core.nAttr = n ∧ m.ro = q.ro ∧
      Lane m.lastMu (fun _ : Fin n => q.lastMu) ∧ Lane m.lastE (fun _ : Fin n => q.lastE) ∧ IsVec m.lastX q.lastX ∧ IsVec m.lastFi q.lastFi

theorem mk_adapt' [Scalar K] {X : Type} (rule : K → List K → M (Core K n X) (Vec K n)) (d : K) (v dw : Vec K n)
    (o : Obj (mkBase X basePredict rule)) (s' : Core K n X) (hr : rule (d - dot o.core.w v) (List.ofFn v) o.core = (.ok dw, s')) :
    adapt (mkBase X basePredict rule) d (List.ofFn v) o
      = (.ok (), (⟨{ s' with w := fun i => s'.w i + dw i }, o.wHist⟩ : Obj (mkBase X basePredict rule))) := by
  have h1 : basePredict (List.ofFn v) o.core = (.ok (dot o.core.w v), o.core) := by
    unfold basePredict; rw [asVec_ofFn]; rfl
  have h2 : baseAdapt basePredict rule d (List.ofFn v) o.core = (.ok (), { s' with w := fun i => s'.w i + dw i }) := by
    refine (M.bind_ok h1).trans ?_
    refine (M.bind_ok hr).trans ?_
    rfl
  show ((baseAdapt basePredict rule d (List.ofFn v) o.core).1, ({ o with core := (baseAdapt basePredict rule d (List.ofFn v) o.core).2 } : Obj (mkBase X basePredict rule))) = _
  rw [h2]
  rfl

theorem ben_rule [Scalar K] (e : K) (v : Vec K n) (s : Core K n (BenExt K n)) (h : s.nAttr = n) :
    let fi : Vec K n := fun i => matVec (fun i j => eye n i j - s.ext.lastMu * outer s.ext.lastX s.ext.lastX i j) s.ext.lastFi i + (s.ext.lastE * s.ext.lastX i)
    let mu := s.ext.lastMu + (s.ext.ro * e * dot s.ext.lastX fi)
    benvenisteRule e (List.ofFn v) s
      = (.ok fun i => mu * e * v i, { s with ext := { s.ext with lastE := e, lastMu := mu, lastX := v, lastFi := fi } }) := by
  intro fi mu
  unfold benvenisteRule
  rw [asVec_ofFn]
  show (M.lift (benFiPart s.nAttr s.ext.lastMu s.ext.lastX) >>= _) s = _
  have hp : benFiPart s.nAttr s.ext.lastMu s.ext.lastX = .ok fun i j => eye n i j - s.ext.lastMu * outer s.ext.lastX s.ext.lastX i j := by
    unfold benFiPart; rw [if_pos h]
  rw [hp]; rfl

/-- C148: a target stored as an array of one value (or with the same value for every weight): the filter with arrays as attributes goes on being the filter with numbers. -/
theorem C148_step [Scalar K] (p : Mem) {m : MemObj K n} {o : Obj (memClass p)} (h : MemRep p m o) {d x : Arr K} {δ : K} {v : Vec K n}
    (hd : Lane d (fun _ : Fin n => δ)) (hx : IsVec x v) :
    ∃ m' o', memAdapt p d x m = (.ok (), m') ∧ adapt (memClass p) δ (List.ofFn v) o = (.ok (), o') ∧ MemRep p m' o' := by
  have hv := asVec_ofFn v
  cases p with
  | gngd =>
    obtain ⟨hw, hmu, hn, hn', hro, h1, h2, h3⟩ := h
    obtain ⟨m', e1, e2, e3, e4, e5, e6, e7, e8⟩ := C148_gngd m h1 h2 h3 hd hx
    have hA := mk_adapt' gngdRule δ v _ o _ (by unfold gngdRule; rw [hv]; rfl)
    refine ⟨m', _, e1, hA, ?_, e2.trans hmu, e4.trans hn, hn', e3.trans hro, ?_, ?_, e5⟩
    · funext i; rw [e8 i, hw, hmu, hro]
    · rw [hw, hmu, hro] at e7; exact e7
    · rw [hw] at e6; exact e6
  | mathews =>
    obtain ⟨hw, hmu, hn, hn', hro, h1, h2, h3⟩ := h
    obtain ⟨m', e1, e2, e3, e4, e5, e6, e7, e8⟩ := C148_mathews m h1 h2 h3 hd hx
    have hA := mk_adapt' mathewsRule δ v _ o _ (by unfold mathewsRule; rw [hv]; rfl)
    refine ⟨m', _, e1, hA, ?_, e2.trans hmu, e4.trans hn, hn', e3.trans hro, ?_, ?_, e5⟩
    · funext i; rw [e8 i, hw, hro]
    · rw [hw, hro] at e7; exact e7
    · rw [hw] at e6; exact e6
  | ang =>
    obtain ⟨hw, hmu, hn, hn', hro, ha, h1, h2, h3, h4⟩ := h
    obtain ⟨m', e1, e2, e3, ea, e4, e5, e6, e7, e8, e9⟩ := C148_ang m h1 h2 h3 h4 hd hx
    have hA := mk_adapt' angRule δ v _ o _ (by unfold angRule; rw [hv]; rfl)
    refine ⟨m', _, e1, hA, ?_, e2.trans hmu, e4.trans hn, hn', e3.trans hro, ea.trans ha, ?_, ?_, e5, ?_⟩
    · funext i; rw [e9 i, hw, hro, ha]
    · rw [hw, hro, ha] at e8; exact e8
    · rw [hw] at e7; exact e7
    · rw [ha] at e6; exact e6
  | benveniste =>
    obtain ⟨hw, hmu, hn, hn', hro, h1, h2, h3, h4⟩ := h
    obtain ⟨m', e1, e2, e3, e4, e5, e6, e7, e8, e9⟩ := C148_benveniste m hn h1 h2 h3 h4 hd hx
    have hA := mk_adapt' benvenisteRule δ v _ o _ (ben_rule _ v o.core hn')
    refine ⟨m', _, e1, hA, ?_, e2.trans hmu, e4.trans hn, hn', e3.trans hro, ?_, ?_, e5, e6⟩
    · funext i; rw [e9 i, hw, hro]; rfl
    · rw [hw, hro] at e8; exact e8
    · rw [hw] at e7; exact e7

/-- C148: a series of samples whose targets are numbers or arrays of one value, in any mixture: every call of `adapt` is accepted and the weights are those of the filter fed with the
numbers. -/
theorem C148_same_as_numbers [Scalar K] (p : Mem) {m : MemObj K n} {o : Obj (memClass p)} (h : MemRep p m o) (S : List (Arr K × Arr K)) (T : List (K × Vec K n))
    (hST : List.Forall₂ (fun s t => ((s.1.shape = [] ∧ s.1.entry [] = t.1) ∨ (s.1.shape = [1] ∧ s.1.entry [0] = t.1)) ∧
      s.2.shape = [n] ∧ ∀ i : Fin n, s.2.entry [i.val] = t.2 i) S T) :
    ∃ o', adaptAll (memClass p) (T.map fun t => (t.1, List.ofFn t.2)) o = (.ok (), o') ∧ MemRep p (memAdapts p S m).2 o' ∧
      (memAdapts p S m).1 = List.replicate S.length (.ok ()) ∧ (memAdapts p S m).2.w = o'.core.w := by
  induction hST generalizing m o with
  | nil =>
    refine ⟨o, rfl, h, rfl, ?_⟩
    cases p <;> exact h.1
  | @cons s t S T hst _ ih =>
    obtain ⟨h1, h2, h3⟩ := hst
    have hd : Lane s.1 (fun _ : Fin n => t.1) := by
      rcases h1 with ⟨ha, hb⟩ | ⟨ha, hb⟩
      · exact ⟨.inl ha, fun i => by rw [ha]; exact hb⟩
      · exact ⟨.inr (.inl ha), fun i => by rw [ha]; simpa [bidx] using hb⟩
    obtain ⟨m', o', e1, e2, e3⟩ := C148_step p h hd (x := s.2) (v := t.2) ⟨h2, h3⟩
    obtain ⟨o'', f1, f2, f3, f4⟩ := ih e3
    have hm : memAdapts p (s :: S) m = (.ok () :: (memAdapts p S m').1, (memAdapts p S m').2) := by
      show ((memAdapt p s.1 s.2 m).1 :: (memAdapts p S (memAdapt p s.1 s.2 m).2).1, (memAdapts p S (memAdapt p s.1 s.2 m).2).2) = _
      rw [e1]
    rw [hm]
    refine ⟨o'', ?_, f2, by rw [f3]; rfl, f4⟩
    exact (M.bind_ok e2).trans f1

/-! ## C149: one target of a wrong length breaks the filter -/

/-- the step size (`last_mu`) or the compensation term (`eps`, GNGD) is an array whose last axis has length `m` -/
def Broken (m : Nat) : Mem → MemObj K n → Prop
  | .gngd => fun o => LastAxis m o.eps
  | .mathews => fun o => LastAxis m o.lastMu
  | .ang => fun o => LastAxis m o.lastMu
  | .benveniste => fun o => LastAxis m o.lastMu

/-- the outcome of a computation on a broken filter -/
def BadOut {α : Type} (m : Nat) (p : Mem) (w : Vec K n) (Q : α → Prop) (r : Except Err α × MemObj K n) : Prop :=
  Broken m p r.2 ∧ r.2.w = w ∧ ((∃ a, r.1 = .ok a ∧ Q a) ∨ r.1 = .error .valueError)

theorem bad_lift {α β : Type} {m : Nat} {p : Mem} {w : Vec K n} {P : α → Prop} {Q : β → Prop} {c : Except Err α} {f : α → M (MemObj K n) β} {o : MemObj K n}
    (ho : Broken m p o) (hw : o.w = w) (hc : (∃ a, c = .ok a ∧ P a) ∨ c = .error .valueError) (hf : ∀ a, P a → BadOut m p w Q (f a o)) :
    BadOut m p w Q ((M.lift c >>= f) o) := by
  rcases hc with ⟨a, rfl, ha⟩ | rfl
  · exact hf a ha
  · exact ⟨ho, hw, .inr rfl⟩

theorem any_zip (f : K → K → K) (a b : Arr K) : (∃ c, a.zip f b = .ok c ∧ True) ∨ a.zip f b = .error .valueError := by
  rcases zip_cases f a b with ⟨c, h, _⟩ | h
  · exact .inl ⟨c, h, trivial⟩
  · exact .inr h

theorem any_dot [Scalar K] (a b : Arr K) : (∃ c, a.dot b = .ok c ∧ True) ∨ a.dot b = .error .valueError := by
  rcases dot_cases a b with ⟨c, h⟩ | h
  · exact .inl ⟨c, h, trivial⟩
  · exact .inr h

theorem bad_lift_end {α : Type} {m : Nat} {p : Mem} {w : Vec K n} {Q : α → Prop} {c : Except Err α} {o : MemObj K n}
    (ho : Broken m p o) (hw : o.w = w) (hc : (∃ a, c = .ok a ∧ Q a) ∨ c = .error .valueError) : BadOut m p w Q (M.lift c o) := ⟨ho, hw, hc⟩

theorem bad_fi [Scalar K] {m : Nat} (hm : m ≠ 1) (p : Mem) (hp : p ≠ .gngd) (o : MemObj K n) (h : Broken m p o) (fi e x : Arr K) :
    BadOut m p o.w (LastAxis m) (fiNd fi e x o) := by
  have hb : ∀ q : MemObj K n, Broken m p q ↔ LastAxis m q.lastMu := by
    intro q; cases p <;> first | exact absurd rfl hp | exact Iff.rfl
  unfold fiNd
  simp only [M.get_bind]
  refine bad_lift h rfl (any_dot _ _) fun b _ => ?_
  refine bad_lift h rfl (any_zip _ _ _) fun q _ => ?_
  refine bad_lift h rfl (bad_zip hm _ (.inl ((hb o).1 h))) fun mu hmu => ?_
  simp only [M.modify_bind]
  have h2 : Broken m p { o with lastE := e, lastMu := mu, lastX := x, lastFi := fi } := (hb _).2 hmu
  refine bad_lift h2 rfl (bad_zip hm _ (.inl hmu)) fun r hr => ?_
  exact bad_lift_end h2 rfl (bad_zip hm _ (.inl hr))

theorem bad_rule [Scalar K] {m : Nat} (hm : m ≠ 1) (p : Mem) (o : MemObj K n) (h : Broken m p o) (e x : Arr K) :
    BadOut m p o.w (LastAxis m) (memRule p e x o) := by
  cases p with
  | gngd =>
    show BadOut m _ o.w _ (gngdNd e x o)
    unfold gngdNd
    simp only [M.get_bind]
    refine bad_lift h rfl (any_zip _ _ _) fun p1 _ => ?_
    refine bad_lift h rfl (any_dot _ _) fun b _ => ?_
    refine bad_lift h rfl (any_zip _ _ _) fun p2 _ => ?_
    refine bad_lift h rfl (any_dot _ _) fun c _ => ?_
    refine bad_lift h rfl (any_zip _ _ _) fun den _ => ?_
    refine bad_lift h rfl (any_zip _ _ _) fun t _ => ?_
    refine bad_lift h rfl (bad_zip hm _ (.inl h)) fun eps heps => ?_
    simp only [M.modify_bind]
    have h2 : Broken m .gngd { o with eps := eps } := heps
    refine bad_lift h2 rfl (any_dot _ _) fun q _ => ?_
    refine bad_lift h2 rfl (bad_zip hm _ (.inl heps)) fun s hs => ?_
    simp only [M.modify_bind]
    have h3 : Broken m .gngd { o with eps := eps, lastE := e, lastX := x } := heps
    refine bad_lift h3 rfl (bad_zip hm _ (.inl (bad_map _ hs))) fun r hr => ?_
    exact bad_lift_end h3 rfl (bad_zip hm _ (.inl hr))
  | mathews =>
    show BadOut m _ o.w _ (mathewsNd e x o)
    unfold mathewsNd
    simp only [M.get_bind]
    refine bad_lift h rfl (any_zip _ _ _) fun p1 _ => ?_
    refine bad_lift h rfl (any_dot _ _) fun b _ => ?_
    refine bad_lift h rfl (any_zip _ _ _) fun p2 _ => ?_
    refine bad_lift h rfl (bad_zip hm _ (.inl h)) fun mu hmu => ?_
    simp only [M.modify_bind]
    have h3 : Broken m .mathews { o with lastE := e, lastMu := mu, lastX := x } := hmu
    refine bad_lift h3 rfl (bad_zip hm _ (.inl hmu)) fun r hr => ?_
    exact bad_lift_end h3 rfl (bad_zip hm _ (.inl hr))
  | ang =>
    show BadOut m _ o.w _ (angNd e x o)
    unfold angNd
    simp only [M.get_bind]
    refine bad_lift h rfl (any_zip _ _ _) fun t _ => ?_
    refine bad_lift h rfl (any_zip _ _ _) fun fi _ => ?_
    exact bad_fi hm .ang (by decide) o h fi e x
  | benveniste =>
    show BadOut m _ o.w _ (benvenisteNd e x o)
    unfold benvenisteNd
    simp only [M.get_bind]
    refine bad_lift h rfl (any_zip _ _ _) fun t _ => ?_
    refine bad_lift h rfl (any_zip _ _ _) fun part _ => ?_
    refine bad_lift h rfl (any_dot _ _) fun g _ => ?_
    refine bad_lift h rfl (any_zip _ _ _) fun t2 _ => ?_
    refine bad_lift h rfl (any_zip _ _ _) fun fi _ => ?_
    exact bad_fi hm .benveniste (by decide) o h fi e x

theorem bad_setW {m : Nat} {p : Mem} {o : MemObj K n} (h : Broken m p o) (w : Vec K n) : Broken m p { o with w := w } := by
  cases p <;> exact h

/-- C149: a broken filter rejects every call of `adapt`, whatever the shapes of `d` and `x`; the weights do not change, and it is still broken afterwards. -/
theorem C149_stays_broken [Scalar K] (p : Mem) (o : MemObj K n) {m : Nat} (hm : m ≠ 1) (hn : m ≠ n) (h : Broken m p o) (d x : Arr K) :
    ∃ o', memAdapt p d x o = (.error .valueError, o') ∧ o'.w = o.w ∧ Broken m p o' := by
  have key : BadOut m p o.w (fun _ : Unit => False) (memAdapt p d x o) := by
    show BadOut m p o.w _ ((M.lift ((Arr.vec o.w).dot x) >>= fun y => M.lift (d.zip (· - ·) y) >>= fun e => memRule p e x >>= fun dw => M.get >>= fun o =>
      M.lift (iadd o.w dw) >>= fun w => M.modify fun o => { o with w := w }) o)
    refine bad_lift h rfl (any_dot _ _) fun y _ => ?_
    refine bad_lift h rfl (any_zip _ _ _) fun e _ => ?_
    obtain ⟨h1, h2, h3⟩ := bad_rule hm p o h e x
    rcases hr : memRule p e x o with ⟨r, o1⟩
    rw [hr] at h1 h2 h3
    rcases h3 with ⟨dw, h3, h4⟩ | h3
    · simp only at h3
      subst h3
      rw [M.bind_ok hr]
      simp only [M.get_bind]
      rw [bad_iadd hm hn o1.w h4]
      exact ⟨h1, h2, .inr rfl⟩
    · simp only at h3
      subst h3
      rw [M.bind_error hr]
      exact ⟨h1, h2, .inr rfl⟩
  obtain ⟨h1, h2, h3⟩ := key
  rcases h3 with ⟨a, _, h3⟩ | h3
  · exact h3.elim
  · exact ⟨_, Prod.ext h3 rfl, h2, h1⟩

/-- C149: for good: all later calls raise `ValueError` and the weights stay as they are. -/
theorem C149_forever [Scalar K] (p : Mem) (o : MemObj K n) {m : Nat} (hm : m ≠ 1) (hn : m ≠ n) (h : Broken m p o) (S : List (Arr K × Arr K)) :
    (memAdapts p S o).1 = List.replicate S.length (.error .valueError) ∧ (memAdapts p S o).2.w = o.w := by
  induction S generalizing o with
  | nil => exact ⟨rfl, rfl⟩
  | cons s S ih =>
    obtain ⟨o', h1, h2, h3⟩ := C149_stays_broken p o hm hn h s.1 s.2
    obtain ⟨h4, h5⟩ := ih o' h3
    have hs : memAdapts p (s :: S) o = (.error .valueError :: (memAdapts p S o').1, (memAdapts p S o').2) := by
      show ((memAdapt p s.1 s.2 o).1 :: (memAdapts p S (memAdapt p s.1 s.2 o).2).1, (memAdapts p S (memAdapt p s.1 s.2 o).2).2) = _
      rw [h1]
    rw [hs]
    exact ⟨by rw [h4]; rfl, h5.trans h2⟩

/-- C149: `run` cannot repair it either: the first sample raises `ValueError`, the weights are unchanged. -/
theorem C149_run_sample [Scalar K] (p : Mem) (o : MemObj K n) {m : Nat} (hm : m ≠ 1) (hn : m ≠ n) (h : Broken m p o) (d : K) (x : List K) :
    ∃ o', memBody p d x o = (.error .valueError, o') ∧ o'.w = o.w ∧ Broken m p o' := by
  unfold memBody
  by_cases hx : x.length = n
  · obtain ⟨v, hv⟩ : ∃ v, asVec n x = .ok v := by unfold asVec; rw [dif_pos hx]; exact ⟨_, rfl⟩
    rw [hv]
    simp only [M.lift_ok_bind, M.get_bind]
    obtain ⟨h1, h2, h3⟩ := bad_rule hm p o h (Arr.num (d - dot o.w v)) (Arr.vec v)
    rcases hr : memRule p (Arr.num (d - dot o.w v)) (Arr.vec v) o with ⟨r, o1⟩
    rw [hr] at h1 h2 h3
    rcases h3 with ⟨dw, h3, h4⟩ | h3
    · simp only at h3
      subst h3
      rw [M.bind_ok hr]
      simp only [M.get_bind]
      rw [bad_iadd hm hn o1.w h4]
      exact ⟨o1, rfl, h2, h1⟩
    · simp only at h3
      subst h3
      rw [M.bind_error hr]
      exact ⟨o1, rfl, h2, h1⟩
  · have hv : asVec n x = .error .valueError := by unfold asVec; rw [dif_neg hx]
    rw [hv]
    exact ⟨o, rfl, rfl, h⟩

theorem one_zip (f : K → K → K) {a b : Arr K} (ha : a.shape = [] ∨ a.shape = [1]) (hb : b.shape = [] ∨ b.shape = [1]) :
    ∃ c, a.zip f b = .ok c ∧ (c.shape = [] ∨ c.shape = [1]) := by
  obtain ⟨c, h1, h2, _⟩ := bshape_lane (n := 1) (s := a.shape) (t := b.shape) (by tauto) (by tauto)
  exact ⟨_, zip_ok h1, by tauto⟩

theorem bad_finish [Scalar K] {m : Nat} (hm : m ≠ 1) (hn : m ≠ n) {p : Mem} {o : MemObj K n} {d x y e : Arr K} (hy : (Arr.vec o.w).dot x = .ok y)
    (he : d.zip (· - ·) y = .ok e) (h : BadOut m p o.w (LastAxis m) (memRule p e x o)) :
    ∃ o', memAdapt p d x o = (.error .valueError, o') ∧ o'.w = o.w ∧ Broken m p o' := by
  have h0 : memPredict x o = (.ok y, o) := by show ((Arr.vec o.w).dot x, o) = _; rw [hy]
  obtain ⟨h1, h2, h3⟩ := h
  rcases hr : memRule p e x o with ⟨r, o1⟩
  rw [hr] at h1 h2 h3
  have hstart : memAdapt p d x o = (memRule p e x >>= fun dw => M.get >>= fun o => M.lift (iadd o.w dw) >>= fun w => M.modify fun o => { o with w := w }) o := by
    refine (M.bind_ok h0).trans ?_
    rw [he]; rfl
  rcases h3 with ⟨dw, h3, h4⟩ | h3
  · simp only at h3
    subst h3
    refine ⟨o1, ?_, h2, h1⟩
    rw [hstart, M.bind_ok hr]
    simp only [M.get_bind]
    rw [bad_iadd hm hn o1.w h4]; rfl
  · simp only at h3
    subst h3
    refine ⟨o1, ?_, h2, h1⟩
    rw [hstart, M.bind_error hr]

/-- C149: a target with a wrong number `m` of values (an array of any number of dimensions whose last axis has a length `m` other than 1 and the number of weights), given to a filter whose
attributes are numbers, or arrays of one value: `ValueError`, the weights are unchanged, and the filter is broken. -/
theorem C149_breaks [Scalar K] (p : Mem) (o : MemObj K n) {m : Nat} (hm : m ≠ 1) (hn : m ≠ n) (ha : o.nAttr = n) {lastX lastFi v : Vec K n}
    (h1 : o.eps.shape = [] ∨ o.eps.shape = [1]) (h2 : o.lastE.shape = [] ∨ o.lastE.shape = [1]) (h3 : o.lastMu.shape = [] ∨ o.lastMu.shape = [1])
    (h4 : IsVec o.lastX lastX) (h5 : IsVec o.lastFi lastFi) {d x : Arr K} {s : List Nat} (hd : d.shape = s ++ [m]) (hx : IsVec x v) :
    ∃ o', memAdapt p d x o = (.error .valueError, o') ∧ o'.w = o.w ∧ Broken m p o' := by
  obtain ⟨y, hy, _, hys, _⟩ := vec_dot (isVec_vec o.w) hx
  obtain ⟨⟨e, he, hel⟩, _⟩ := bad_one_zip hm (· - ·) (a := d) ⟨s, hd⟩ (.inl hys)
  have hLane (a : Arr K) (h : a.shape = [] ∨ a.shape = [1]) : ∃ u : Vec K n, Lane a u :=
    ⟨fun i => a.entry (bidx a.shape [i.val]), by tauto, fun _ => rfl⟩
  have hfi : ∀ (p : Mem), p ≠ .gngd → ∀ (fi : Arr K) (f : Vec K n), IsVec fi f → BadOut m p o.w (LastAxis m) (fiNd fi e x o) := by
    intro p hp fi f hf
    have hb : ∀ q : MemObj K n, Broken m p q ↔ LastAxis m q.lastMu := by
      intro q; cases p <;> first | exact absurd rfl hp | exact Iff.rfl
    obtain ⟨b, hb1, _, hb2, _⟩ := vec_dot h4 hf
    obtain ⟨⟨q, hq, hql⟩, _⟩ := bad_one_zip hm (· * ·) (bad_map (o.ro * ·) hel) (.inl hb2)
    obtain ⟨_, mu, hmu, hmul⟩ := bad_one_zip hm (· + ·) hql h3
    unfold fiNd
    simp only [M.get_bind, hb1, hq, hmu, M.lift_ok_bind, M.modify_bind]
    have hB : Broken m p { o with lastE := e, lastMu := mu, lastX := x, lastFi := fi } := (hb _).2 hmul
    refine bad_lift hB rfl (bad_zip hm _ (.inl hmul)) fun r hr => ?_
    exact bad_lift_end hB rfl (bad_zip hm _ (.inl hr))
  refine bad_finish hm hn hy he ?_
  cases p with
  | gngd =>
    obtain ⟨⟨p1, hp1, lp1⟩, _⟩ := bad_one_zip hm (· * ·) (bad_map (o.ro * o.mu * ·) hel) h2
    obtain ⟨b, hb1, _, hb2, _⟩ := vec_dot hx h4
    obtain ⟨⟨p2, hp2, lp2⟩, _⟩ := bad_one_zip hm (· * ·) lp1 (.inl hb2)
    obtain ⟨c, hc1, _, hc2, _⟩ := vec_dot h4 h4
    obtain ⟨den, hden, sden⟩ := one_zip (· + ·) (.inl hc2) h1
    obtain ⟨⟨t, ht, lt⟩, _⟩ := bad_one_zip hm (· / ·) lp2 (b := den.map fun a => a * a) sden
    obtain ⟨_, eps, heps, leps⟩ := bad_one_zip hm (· - ·) lt h1
    show BadOut m _ o.w _ (gngdNd e x o)
    unfold gngdNd
    simp only [M.get_bind, hp1, hb1, hp2, hc1, hden, ht, heps, M.lift_ok_bind, M.modify_bind]
    have hB2 : Broken m .gngd { o with eps := eps } := leps
    refine bad_lift hB2 rfl (any_dot _ _) fun q _ => ?_
    refine bad_lift hB2 rfl (bad_zip hm _ (.inl leps)) fun s hs => ?_
    simp only [M.modify_bind]
    have hB3 : Broken m .gngd { o with eps := eps, lastE := e, lastX := x } := leps
    refine bad_lift hB3 rfl (bad_zip hm _ (.inl (bad_map _ hs))) fun r hr => ?_
    exact bad_lift_end hB3 rfl (bad_zip hm _ (.inl hr))
  | mathews =>
    obtain ⟨⟨p1, hp1, lp1⟩, _⟩ := bad_one_zip hm (· * ·) (bad_map (o.ro * ·) hel) h2
    obtain ⟨b, hb1, _, hb2, _⟩ := vec_dot h4 hx
    obtain ⟨⟨p2, hp2, lp2⟩, _⟩ := bad_one_zip hm (· * ·) lp1 (.inl hb2)
    obtain ⟨_, mu, hmu, lmu⟩ := bad_one_zip hm (· + ·) lp2 h3
    show BadOut m _ o.w _ (mathewsNd e x o)
    unfold mathewsNd
    simp only [M.get_bind, hp1, hb1, hp2, hmu, M.lift_ok_bind, M.modify_bind]
    have hB3 : Broken m .mathews { o with lastE := e, lastMu := mu, lastX := x } := lmu
    refine bad_lift hB3 rfl (bad_zip hm _ (.inl lmu)) fun r hr => ?_
    exact bad_lift_end hB3 rfl (bad_zip hm _ (.inl hr))
  | ang =>
    obtain ⟨u, hu⟩ := hLane _ h2
    obtain ⟨t, ht, lt, st⟩ := lane_zip (· * ·) hu h4.lane
    obtain ⟨f, hf, lf, sf⟩ := lane_zip (· + ·) (lane_map (o.a * ·) h5.lane) lt
    show BadOut m _ o.w _ (angNd e x o)
    unfold angNd
    simp only [M.get_bind, ht, hf, M.lift_ok_bind]
    exact hfi .ang (by decide) f _ (lf.vec (sf (.inr (st (.inr h4.1)))))
  | benveniste =>
    obtain ⟨u, hu⟩ := hLane _ h2
    obtain ⟨u3, hu3⟩ := hLane _ h3
    have hout : (o.lastX.outer o.lastX).shape = [n, n] := by
      unfold Arr.outer
      rw [h4.1]; simp
    obtain ⟨t, ht, st, lt⟩ := lane_mat_zip (· * ·) hu3 hout
    obtain ⟨pt, hpt, spt, lpt⟩ := mat_mat_zip (· - ·) (A := Arr.table (eye (K := K) o.nAttr)) (by rw [ha]; rfl) st
    obtain ⟨g, hg, lg⟩ := mat_vec_dot spt h5
    obtain ⟨t2, ht2, lt2, st2⟩ := lane_zip (· * ·) hu h4.lane
    obtain ⟨f, hf, lf, sf⟩ := lane_zip (· + ·) lg.lane lt2
    show BadOut m _ o.w _ (benvenisteNd e x o)
    unfold benvenisteNd
    simp only [M.get_bind, ht, hpt, hg, ht2, hf, M.lift_ok_bind]
    exact hfi .benveniste (by decide) f _ (lf.vec (sf (.inr (st2 (.inr h4.1)))))

/-! ## the hypotheses are met -/

/-- a fresh filter with the weights 1, 2 -/
private def mem2 : MemObj ℚ 2 := ⟨![1, 2], 2, 1, 1, 1, Arr.num 1, Arr.num 0, Arr.vec ![0, 0], Arr.vec ![0, 0], Arr.num 1⟩

-- two samples, the first with a target of three values, the second documented: both rejected, for each of the four classes; without the first one the second is accepted
example : ∀ p ∈ [Mem.gngd, .mathews, .ang, .benveniste],
    (memAdapts p [(Arr.vec ![1, 2, 3], Arr.vec ![1, 1]), (Arr.num 1, Arr.vec ![1, 1])] mem2).1 = [.error .valueError, .error .valueError] ∧
    (memAdapts p [(Arr.num 1, Arr.vec ![1, 1])] mem2).1 = [.ok ()] := by decide +kernel

-- the hypotheses of `C149_breaks`
example : ∃ (lastX lastFi v : Vec ℚ 2), (mem2.eps.shape = [] ∨ mem2.eps.shape = [1]) ∧ (mem2.lastE.shape = [] ∨ mem2.lastE.shape = [1]) ∧
    (mem2.lastMu.shape = [] ∨ mem2.lastMu.shape = [1]) ∧ IsVec mem2.lastX lastX ∧ IsVec mem2.lastFi lastFi ∧
    IsVec (Arr.vec v) v ∧ (Arr.vec (K := ℚ) ![1, 2, 3]).shape = [] ++ [3] :=
  ⟨![0, 0], ![0, 0], ![1, 1], .inl rfl, .inl rfl, .inl rfl, isVec_vec _, isVec_vec _, isVec_vec _, rfl⟩

-- the filters with numbers are represented
example : MemRep .gngd mem2 (⟨⟨![1, 2], 2, 1, (⟨1, 1, 0, ![0, 0]⟩ : GngdExt ℚ 2)⟩, []⟩ : Obj (gngd ℚ 2)) :=
  ⟨rfl, rfl, rfl, rfl, rfl, lane_num 1, lane_num 0, isVec_vec _⟩
example : MemRep .benveniste mem2 (⟨⟨![1, 2], 2, 1, (⟨1, 0, ![0, 0], ![0, 0], 1⟩ : BenExt ℚ 2)⟩, []⟩ : Obj (benveniste ℚ 2)) :=
  ⟨rfl, rfl, rfl, rfl, rfl, lane_num 1, lane_num 0, isVec_vec _, isVec_vec _⟩

-- one value per weight is accepted, and the step size of Mathews has become a vector
example : (memAdapt .mathews (Arr.vec ![1, 2]) (Arr.vec ![1, 1]) mem2).1 = .ok () ∧
    (memAdapts .mathews [(Arr.vec ![1, 2], Arr.vec ![1, 1]), (Arr.num 1, Arr.vec ![1, 1])] mem2).2.lastMu.shape = [2] := by decide +kernel

end Padasip
