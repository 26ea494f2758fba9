import Verif.Model.Table
import Verif.Props.Args

/-!
# C136: initial weights given as a table
-/

set_option linter.unusedSectionVars false
set_option linter.unusedSimpArgs false
set_option linter.unusedVariables false

namespace Padasip

variable {K : Type} [Transc K] {m c : ℕ}

theorem elem_of {X : Type} {rule : List K → List K → M (Core K c X) (List K)} {lr : K → List K → M (Core K c X) (Vec K c)} {N : ℕ} {mu : K} {q : X} {x : Vec K c}
    (f : K → Vec K c) (h : ∀ w, Elementwise rule lr ⟨w, N, mu, q⟩ ⟨w, N, mu, q⟩ x) (hf : ∀ w e, lr e (List.ofFn x) ⟨w, N, mu, q⟩ = (.ok (f e), ⟨w, N, mu, q⟩)) :
    ∃ f : K → Vec K c, ∀ w,
      (∀ e : Vec K c, rule (List.ofFn e) (List.ofFn x) ⟨w, N, mu, q⟩ = (.ok (List.ofFn fun i => f (e i) i), ⟨w, N, mu, q⟩)) ∧
      (∀ a, rule [a] (List.ofFn x) ⟨w, N, mu, q⟩ = (.ok (List.ofFn (f a)), ⟨w, N, mu, q⟩)) ∧
      (∀ v, v.length ≠ c → v.length ≠ 1 → (rule v (List.ofFn x) >>= fun dw => M.lift (bcastVec c dw)) ⟨w, N, mu, q⟩ = (.error .valueError, ⟨w, N, mu, q⟩)) ∧
      (∀ d, baseBody basePredict lr d (List.ofFn x) ⟨w, N, mu, q⟩ = (.ok (dot w x, d - dot w x), ⟨fun i => w i + f (d - dot w x) i, N, mu, q⟩)) ∧
      (∀ d, baseAdapt basePredict lr d (List.ofFn x) ⟨w, N, mu, q⟩ = (.ok (), ⟨fun i => w i + f (d - dot w x) i, N, mu, q⟩)) := by
  refine ⟨f, fun w => ?_⟩
  obtain ⟨g, -, g1, g2, g3, g4⟩ := h w
  have hg : g = f := by
    funext e
    have := (g1 e).symm.trans (hf w e)
    exact Except.ok.inj (Prod.mk.inj this).1
  subst hg
  have hp : basePredict (List.ofFn x) (⟨w, N, mu, q⟩ : Core K c X) = (.ok (dot w x), ⟨w, N, mu, q⟩) := by simp [basePredict]
  refine ⟨g2, g3, g4, fun d => ?_, fun d => ?_⟩
  · unfold baseBody
    rw [M.bind_ok hp, M.bind_ok (hf w _)]
    rfl
  · unfold baseAdapt
    rw [M.bind_ok hp, M.bind_ok (hf w _)]
    rfl

/-- the eight rules: elementwise in the error, and independent of the weights -/
theorem plain_rule (solve : Solver K) (p : Plain) (hp : p ≠ .rls) (N : ℕ) (mu : K) (q : (classOf (n := c) solve p.kind).Ext) (x : Vec K c) :
    ∃ f : K → Vec K c, ∀ w,
      (∀ e : Vec K c, arrRule solve p (List.ofFn e) (List.ofFn x) ⟨w, N, mu, q⟩ = (.ok (List.ofFn fun i => f (e i) i), ⟨w, N, mu, q⟩)) ∧
      (∀ a, arrRule solve p [a] (List.ofFn x) ⟨w, N, mu, q⟩ = (.ok (List.ofFn (f a)), ⟨w, N, mu, q⟩)) ∧
      (∀ v, v.length ≠ c → v.length ≠ 1 → (arrRule solve p v (List.ofFn x) >>= fun dw => M.lift (bcastVec c dw)) ⟨w, N, mu, q⟩ = (.error .valueError, ⟨w, N, mu, q⟩)) ∧
      (∀ d, (classOf solve p.kind).body d (List.ofFn x) ⟨w, N, mu, q⟩ = (.ok (dot w x, d - dot w x), ⟨fun i => w i + f (d - dot w x) i, N, mu, q⟩)) ∧
      (∀ d, (classOf solve p.kind).adapt d (List.ofFn x) ⟨w, N, mu, q⟩ = (.ok (), ⟨fun i => w i + f (d - dot w x) i, N, mu, q⟩)) := by
  cases p
  · exact elem_of (fun e i => mu * x i * e) (fun w => lms_elem _ x) fun w e => by simp only [lmsRule, asVec_ofFn]; rfl
  · exact elem_of (fun e i => mu * x i * (e * e * e)) (fun w => lmf_elem _ x) fun w e => by simp only [lmfRule, asVec_ofFn]; rfl
  · exact elem_of (fun e i => mu * Scalar.sgn (x i) * Scalar.sgn e) (fun w => sslms_elem _ x) fun w e => by simp only [sslmsRule, asVec_ofFn]; rfl
  · exact elem_of (fun e i => mu / (EpsExt.eps q + dot x x) * x i * e) (fun w => nlms_elem _ x) fun w e => by simp only [nlmsRule, asVec_ofFn]; rfl
  · exact elem_of (fun e i => mu / (EpsExt.eps q + dot x x) * x i * (e * e * e)) (fun w => nlmf_elem _ x) fun w e => by simp only [nlmfRule, asVec_ofFn]; rfl
  · exact elem_of (fun e i => mu / (EpsExt.eps q + dot x x) * Scalar.sgn (x i) * Scalar.sgn e) (fun w => nsslms_elem _ x) fun w e => by simp only [nsslmsRule, asVec_ofFn]; rfl
  · exact elem_of (fun e i => mu * GmccExt.lambd q * GmccExt.alpha q * Transc.exp (-GmccExt.lambd q * Transc.pow (Scalar.abs e) (GmccExt.alpha q)) * Transc.pow (Scalar.abs e) (GmccExt.alpha q - 1) * Scalar.sgn e * x i) (fun w => gmcc_elem _ x) fun w e => by simp only [gmccRule, asVec_ofFn]; rfl
  · exact elem_of (fun e i => mu * Transc.tanh (LlncoshExt.lambd q * e) * x i) (fun w => llncosh_elem _ x) fun w e => by simp only [llncoshRule, asVec_ofFn]; rfl
  · exact absurd rfl hp

/-! ## The constructor -/

/-- C136: `init_weights` accepts a table: rows of one length `c`, as many as the filter size. -/
theorem C136_accepted (selfN : ℕ) (rows : List (List K)) (c : ℕ) (h0 : rows ≠ []) (hc : ∀ r ∈ rows, r.length = c) :
    ∃ W : Mat K rows.length c, initTable selfN rows rows.length = .ok ⟨rows.length, c, W⟩ ∧ ∀ a i, some (W a i) = (rows.get a)[i.val]? := by
  cases rows with
  | nil => exact absurd rfl h0
  | cons r0 rest =>
    have hr : r0.length = c := hc r0 (by simp)
    subst hr
    have hall : rest.all (fun r => decide (r.length = r0.length)) = true := by
      rw [List.all_eq_true]
      intro r hr
      simpa using hc r (by simp [hr])
    have hn : ¬ (((r0 :: rest).length : ℕ) : Int) = -1 := by omega
    refine ⟨fun a i => ((r0 :: rest).get a).getD i 0, ?_, fun a i => ?_⟩
    · unfold initTable
      simp only [hn, if_false, if_true, hall]
    · have hl : i.val < ((r0 :: rest).get a).length := by
        rw [hc _ (List.get_mem _ _)]; exact i.isLt
      show some (((r0 :: rest).get a).getD i 0) = _
      rw [List.getD_eq_getElem?_getD, List.getElem?_eq_getElem hl]; rfl

/-- C136: `init_weights(w)` without a size uses the size of the filter. -/
theorem C136_default_size (selfN : ℕ) (rows : List (List K)) : initTable selfN rows (-1) = initTable 0 rows selfN := by
  have hn : ¬ ((selfN : ℕ) : Int) = -1 := by omega
  unfold initTable
  simp only [hn, if_false, if_true]

/-- C136: any other table is refused with `ValueError`: another number of rows, or rows of different lengths. -/
theorem C136_refused (selfN : ℕ) (rows : List (List K)) (n : ℕ) (h : rows.length ≠ n ∨ ∃ r ∈ rows, ∃ r' ∈ rows, r.length ≠ r'.length) :
    initTable selfN rows n = .error .valueError := by
  have hn : ¬ ((n : ℕ) : Int) = -1 := by omega
  unfold initTable
  simp only [hn, if_false]
  split
  · rename_i hl
    have hl : rows.length = n := by exact_mod_cast hl
    rcases h with h | ⟨r, hr, r', hr', h⟩
    · exact absurd hl h
    · cases rows with
      | nil => rfl
      | cons r0 rest =>
        have : rest.all (fun r => decide (r.length = r0.length)) ≠ true := by
          intro hall
          rw [List.all_eq_true] at hall
          have key : ∀ r ∈ r0 :: rest, r.length = r0.length := by
            intro r hr
            rcases List.mem_cons.1 hr with rfl | hr
            · rfl
            · simpa using hall r hr
          exact h ((key r hr).trans (key r' hr').symm)
        simp only [this, if_false]
        rfl
  · rfl

/-! ## `predict` -/

/-- C136: `predict` of a filter with a table takes inputs with one entry per column of the table, and returns one number per row. -/
theorem C136_predict {C : FilterClass K c} (o : TabObj C m) (x : Vec K c) :
    tabPredict (List.ofFn x) o = (.ok (List.ofFn fun a => dot (o.w a) x), o) := by
  simp [tabPredict]

/-- C136: inputs of any other length - for a column of weights (`c = 1`) also those of the filter size - raise `ValueError` from `predict` and `adapt`; the object is unchanged. -/
theorem C136_wrong_input (solve : Solver K) (p : Plain) (o : TabObj (classOf (n := c) solve p.kind) m) (x : List K) (hx : x.length ≠ c) (d : K) :
    tabPredict x o = (.error .valueError, o) ∧ tabAdapt solve p d x o = (.error .valueError, o) := by
  have h : tabPredict x o = (.error .valueError, o) := by
    unfold tabPredict
    rw [asVec_wrong x hx]
    rfl
  exact ⟨h, M.bind_error h⟩

/-! ## `adapt` -/

theorem tabRule_eq (solve : Solver K) (p : Plain) (o : TabObj (classOf (n := c) solve p.kind) m) (e x : List K) {r : Except Err (List K)}
    (h : arrRule solve p e x ⟨zeros c, o.nAttr, o.mu, o.ext⟩ = (r, ⟨zeros c, o.nAttr, o.mu, o.ext⟩)) : tabRule solve p e x o = (r, o) := by
  unfold tabRule
  rw [h]

theorem tabRule_rejects (solve : Solver K) (p : Plain) (o : TabObj (classOf (n := c) solve p.kind) m) {e x : List K}
    (h : (arrRule solve p e x >>= fun dw => M.lift (bcastVec c dw)) ⟨zeros c, o.nAttr, o.mu, o.ext⟩ = (.error .valueError, ⟨zeros c, o.nAttr, o.mu, o.ext⟩)) :
    (tabRule solve p e x >>= tabAdd) o = (.error .valueError, o) := by
  rcases hr : arrRule solve p e x ⟨zeros c, o.nAttr, o.mu, o.ext⟩ with ⟨r, s⟩
  cases r with
  | error er =>
    have h' := (M.bind_error hr).symm.trans h
    obtain ⟨h1, h2⟩ := Prod.mk.inj h'
    have h1 := Except.error.inj h1
    rw [h1, h2] at hr
    exact M.bind_error (tabRule_eq solve p o e x hr)
  | ok dw =>
    have h' := (M.bind_ok hr).symm.trans h
    rw [M.lift_apply] at h'
    obtain ⟨h1, h2⟩ := Prod.mk.inj h'
    rw [h2] at hr
    rw [M.bind_ok (tabRule_eq solve p o e x hr), tabAdd, h1]
    rfl

/-- C136: `adapt` with a square table (as many columns as rows): accepted; the same increments are added to every row, and the increment of column `i` is the one that the filter with the weights
of row `i` makes to its weight `i`: with `f e` the increments of the filter of this class for the error `e`, column `i` gets `f e(i) i`, where `e(i) = d - <row i, x>`. -/
theorem C136_adapt_square (solve : Solver K) (p : Plain) (hp : p ≠ .rls) (o : TabObj (classOf (n := c) solve p.kind) c) (d : K) (x : Vec K c) :
    ∃ f : K → Vec K c, (∀ w t, adapt (classOf solve p.kind) t (List.ofFn x) ⟨⟨w, o.nAttr, o.mu, o.ext⟩, o.wHist⟩ =
        (.ok (), ⟨⟨fun i => w i + f (t - dot w x) i, o.nAttr, o.mu, o.ext⟩, o.wHist⟩)) ∧
      tabAdapt solve p d (List.ofFn x) o = (.ok (), { o with w := fun a i => o.w a i + f (d - dot (o.w i) x) i }) := by
  obtain ⟨f, hf⟩ := plain_rule solve p hp o.nAttr o.mu o.ext x
  refine ⟨f, fun w t => ?_, ?_⟩
  · unfold adapt Obj.liftM
    rw [(hf w).2.2.2.2 t]
  · unfold tabAdapt
    rw [M.bind_ok (C136_predict o x), List.map_ofFn, M.bind_ok (tabRule_eq solve p o _ _ ((hf _).1 _))]
    simp [tabAdd]

/-- C136: `adapt` with a table of several rows that is not square (for example a column of two or more weights): `ValueError` for every target and every input; the object is unchanged. -/
theorem C136_adapt_rejects (solve : Solver K) (p : Plain) (hp : p ≠ .rls) (o : TabObj (classOf (n := c) solve p.kind) m) (h1 : m ≠ 1) (h2 : m ≠ c) (d : K) (x : List K) :
    tabAdapt solve p d x o = (.error .valueError, o) := by
  by_cases hx : x.length = c
  · obtain ⟨x, rfl⟩ := asVec_ok hx
    obtain ⟨f, hf⟩ := plain_rule solve p hp o.nAttr o.mu o.ext x
    unfold tabAdapt
    rw [M.bind_ok (C136_predict o x)]
    have h := (hf (zeros c)).2.2.1 ((List.ofFn fun a => dot (o.w a) x).map (d - ·)) (by simpa using h2) (by simpa using h1)
    exact tabRule_rejects solve p o h
  · exact (C136_wrong_input solve p o x hx d).2

/-! ## `run` -/

/-- C136: `run` with a table of two or more rows never works: `ValueError` for all accepted data; the weights, `mu` and the attributes of the class are unchanged, but `self.n` is the width of the data and
`w_history` a table of zeros. -/
theorem C136_run_rejects (solve : Solver K) (p : Plain) (o : TabObj (classOf (n := c) solve p.kind) m) (hm : 2 ≤ m) (d : List K) (x : List (List K)) (l : ℕ) (h0 : x ≠ []) (hd : d.length = x.length)
    (hx : ∀ r ∈ x, r.length = l) :
    tabRun solve p d x o = (.error .valueError, { o with nAttr := l, wHist := List.replicate x.length (List.replicate l 0) }) := by
  cases x with
  | nil => exact absurd rfl h0
  | cons x0 rest =>
    cases d with
    | nil => simp at hd
    | cons d0 drest =>
      have hl : x0.length = l := hx x0 (by simp)
      have hany : ((x0 :: rest).any fun r => decide (r.length ≠ x0.length)) = false := by
        rw [List.any_eq_false]
        intro r hr
        simp [hx r hr, hl]
      unfold tabRun
      rw [if_neg (by simpa using hd)]
      dsimp only
      rw [hany, ← hl]
      have hh : ∀ (o : TabObj (classOf (n := c) solve p.kind) m) k, tabHist k o = (.error .valueError, o) := by
        intro o k
        unfold tabHist
        have : onlyOne (List.ofFn o.w) = (.error .valueError : Except Err (Vec K c)) := by
          have hlen : (List.ofFn o.w).length = m := by simp
          revert hlen
          generalize List.ofFn o.w = L
          intro hlen
          rcases L with _ | ⟨a, _ | ⟨b, t⟩⟩
          · rfl
          · simp at hlen; omega
          · rfl
        show ((M.lift _ : M (TabObj (classOf (n := c) solve p.kind) m) (Vec K c)) >>= _) o = _
        rw [this]
        rfl
      have hloop : ∀ o, tabLoop solve p 0 ((d0 :: drest).zip (x0 :: rest)) o = (.error .valueError, o) := fun o => M.bind_error (hh o 0)
      show (tabLoop solve p 0 ((d0 :: drest).zip (x0 :: rest)) >>= _) _ = _
      exact M.bind_error (hloop _)

/-- the filter with the weights of the only row -/
def rowObj {C : FilterClass K c} (o : TabObj C 1) : Obj C := ⟨⟨o.w 0, o.nAttr, o.mu, o.ext⟩, o.wHist⟩

/-- two calls with the same result, that leave corresponding objects behind -/
def Matches {C : FilterClass K c} {α : Type} (t : M (TabObj C 1) α) (u : M (Obj C) α) : Prop := ∀ o, u (rowObj o) = ((t o).1, rowObj (t o).2)

theorem Matches.bind {C : FilterClass K c} {α β : Type} {t : M (TabObj C 1) α} {u : M (Obj C) α} {t' : α → M (TabObj C 1) β} {u' : α → M (Obj C) β} (h : Matches t u)
    (h' : ∀ a, Matches (t' a) (u' a)) : Matches (t >>= t') (u >>= u') := by
  intro o
  rcases ht : t o with ⟨r, o1⟩
  have hu := h o
  rw [ht] at hu
  cases r with
  | error e => rw [M.bind_error ht, M.bind_error hu]
  | ok a => rw [M.bind_ok ht, M.bind_ok hu]; exact h' a o1

theorem Matches.pure {C : FilterClass K c} {α : Type} (a : α) : Matches (C := C) (Pure.pure a) (Pure.pure a) := fun _ => rfl

theorem matches_hist {C : FilterClass K c} (k : ℕ) : Matches (C := C) (tabHist k) (histWrite k) := by
  intro o
  have h : onlyOne (List.ofFn o.w) = .ok (o.w 0) := by
    rw [List.ofFn_succ]
    simp [onlyOne]
  have h1 : tabHist k o = ((M.lift (bcast o.nAttr (List.ofFn (o.w 0))) : M (TabObj C 1) (List K)) >>= fun row => M.modify fun o => { o with wHist := o.wHist.set k row }) o := by
    unfold tabHist
    rw [M.bind_ok (show M.get o = (.ok o, o) from rfl), h]
    rfl
  rw [h1]
  unfold histWrite
  rw [M.bind_ok (show M.get (rowObj o) = (.ok (rowObj o), rowObj o) from rfl)]
  show ((M.lift (bcast o.nAttr (List.ofFn (o.w 0))) : M (Obj C) (List K)) >>= _) (rowObj o) = _
  cases bcast o.nAttr (List.ofFn (o.w 0)) <;> rfl

theorem body_wrong (solve : Solver K) (p : Plain) (d : K) (x : List K) (hx : x.length ≠ c) (s : Core K c (classOf (n := c) solve p.kind).Ext) :
    (classOf solve p.kind).body d x s = (.error .valueError, s) ∧ (classOf solve p.kind).adapt d x s = (.error .valueError, s) ∧
    (classOf solve p.kind).predict x s = (.error .valueError, s) := by
  have h : ∀ {X : Type} (s : Core K c X), basePredict x s = (.error .valueError, s) := by
    intro X s
    unfold basePredict
    rw [asVec_wrong x hx]
    rfl
  cases p <;> exact ⟨M.bind_error (h s), M.bind_error (h s), h s⟩

theorem matches_body (solve : Solver K) (p : Plain) (hp : p ≠ .rls) (d : K) (x : List K) :
    Matches (C := classOf (n := c) solve p.kind) (tabBody solve p d x) (Obj.liftM ((classOf solve p.kind).body d x)) ∧
    Matches (C := classOf (n := c) solve p.kind) (tabAdapt solve p d x) (Obj.liftM ((classOf solve p.kind).adapt d x)) := by
  by_cases hx : x.length = c
  · obtain ⟨x, rfl⟩ := asVec_ok hx
    refine ⟨fun o => ?_, fun o => ?_⟩
    · obtain ⟨f, hf⟩ := plain_rule solve p hp o.nAttr o.mu o.ext x
      have h1 : tabBody solve p d (List.ofFn x) o = (.ok (dot (o.w 0) x, d - dot (o.w 0) x), { o with w := fun a i => o.w a i + f (d - dot (o.w 0) x) i }) := by
        unfold tabBody
        rw [M.bind_ok (C136_predict o x), List.ofFn_succ, List.ofFn_zero]
        show (tabRule solve p [d - dot (o.w 0) x] (List.ofFn x) >>= _) o = _
        rw [M.bind_ok (tabRule_eq solve p o _ _ ((hf _).2.1 _))]
        simp [tabAdd]
      rw [h1]
      unfold Obj.liftM rowObj
      rw [(hf _).2.2.2.1]
    · obtain ⟨f, hf⟩ := plain_rule solve p hp o.nAttr o.mu o.ext x
      have h1 : tabAdapt solve p d (List.ofFn x) o = (.ok (), { o with w := fun a i => o.w a i + f (d - dot (o.w 0) x) i }) := by
        unfold tabAdapt
        rw [M.bind_ok (C136_predict o x), List.ofFn_succ, List.ofFn_zero]
        show (tabRule solve p [d - dot (o.w 0) x] (List.ofFn x) >>= _) o = _
        rw [M.bind_ok (tabRule_eq solve p o _ _ ((hf _).2.1 _))]
        simp [tabAdd]
      rw [h1]
      unfold Obj.liftM rowObj
      rw [(hf _).2.2.2.2]
  · refine ⟨fun o => ?_, fun o => ?_⟩
    · have h1 : tabBody solve p d x o = (.error .valueError, o) := M.bind_error (C136_wrong_input solve p o x hx d).1
      rw [h1]
      unfold Obj.liftM rowObj
      rw [(body_wrong solve p d x hx _).1]
    · rw [(C136_wrong_input solve p o x hx d).2]
      unfold Obj.liftM rowObj
      rw [(body_wrong solve p d x hx _).2.1]

theorem matches_loop (solve : Solver K) (p : Plain) (hp : p ≠ .rls) (z : List (K × List K)) (k : ℕ) :
    Matches (C := classOf (n := c) solve p.kind) (tabLoop solve p k z) (runLoop (classOf solve p.kind) k z) := by
  induction z generalizing k with
  | nil => exact Matches.pure _
  | cons a z ih =>
    obtain ⟨d, x⟩ := a
    exact (matches_hist k).bind fun _ => (matches_body solve p hp d x).1.bind fun _ => (ih (k + 1)).bind fun _ => Matches.pure _

/-- C136: a table of one row (filter size 1) makes a filter with as many taps as the row has entries: `adapt` and `run` do exactly what they do for the filter of that size with the weights of the row - same
results or exceptions, and corresponding objects afterwards. -/
theorem C136_one_row (solve : Solver K) (p : Plain) (hp : p ≠ .rls) :
    (∀ d x, Matches (C := classOf (n := c) solve p.kind) (tabAdapt solve p d x) (adapt (classOf solve p.kind) d x)) ∧
    (∀ d x, Matches (C := classOf (n := c) solve p.kind) (tabRun solve p d x) (run (classOf solve p.kind) d x)) := by
  refine ⟨fun d x => (matches_body solve p hp d x).2, fun d x => ?_⟩
  unfold tabRun run
  by_cases hd : d.length ≠ x.length
  · rw [if_pos hd, if_pos hd]; exact fun _ => rfl
  · rw [if_neg hd, if_neg hd]
    cases x with
    | nil => exact fun _ => rfl
    | cons x0 rest =>
      refine Matches.bind (fun _ => rfl) fun _ => ?_
      by_cases ha : ((x0 :: rest).any fun r => decide (r.length ≠ x0.length)) = true
      · rw [if_pos ha, if_pos ha]; exact fun _ => rfl
      · rw [if_neg ha, if_neg ha]
        exact Matches.bind (fun _ => rfl) fun _ => (matches_loop solve p hp _ 0).bind fun _ => fun _ => rfl

/-- a column of two weights is accepted by the constructor of an LMS filter of size 2 ... -/
example : ∃ W : Mat ℚ 2 1, initTable (K := ℚ) 0 [[1], [2]] 2 = .ok ⟨2, 1, W⟩ ∧ W 0 0 = 1 ∧ W 1 0 = 2 := ⟨_, rfl, rfl, rfl⟩

/-- ... and then no sample can be processed -/
example (o : TabObj (lms ℚ 1) 2) (d : ℚ) (x : List ℚ) : tabAdapt (K := ℚ) ratSolve .lms d x o = (.error .valueError, o) :=
  C136_adapt_rejects ratSolve .lms (by decide) o (by decide) (by decide) d x

/-- a filter of "size 1" with the row (0, 0) is an LMS filter of size 2 -/
example : (tabRun (K := ℚ) ratSolve .lms [1, 1] [[1, 0], [1, 1]] (⟨fun _ => ![0, 0], 1, 1, (), []⟩ : TabObj (lms ℚ 2) 1)).1 = .ok ([0, 1], [1, 0], [[0, 0], [1, 0]]) := by
  decide +kernel

end Padasip
