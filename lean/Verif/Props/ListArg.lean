import Verif.Model.ListArg
import Verif.Props.Reject2
import Verif.Props.Factory

/-!
# C137: a Python list as input of `adapt`
-/

set_option linter.unusedSectionVars false
set_option linter.unusedSimpArgs false
set_option linter.unusedVariables false

namespace Padasip

variable {K : Type} [Transc K] {n : ℕ}

/-- the attributes with the flag "last_x is a list" -/
def withFlag {X : Type} (b : Bool) (s : Core K n X) : Core K n (X × Bool) := ⟨s.w, s.nAttr, s.mu, (s.ext, b)⟩

/-- the object with the flag -/
def flagged (solve : Solver K) (k : Kind) (b : Bool) (o : Obj (classOf (n := n) solve k)) : Obj (listClass (n := n) solve k) := ⟨withFlag b o.core, o.wHist⟩

theorem scaleVec_array (a : K) (v : Vec K n) : scaleVec n a ⟨false, List.ofFn v⟩ = .ok fun i => a * v i := by
  unfold scaleVec scale
  simp only [Bool.false_eq_true, if_false, List.map_ofFn]
  exact asVec_ofFn _

theorem scaleVec_list (a : K) (x : List K) : scaleVec n a ⟨true, x⟩ = .error .typeError := rfl

theorem onPlain_flag {X α : Type} (m : M (Core K n X) α) (b : Bool) (s : Core K n X) : onPlain m (withFlag b s) = ((m s).1, withFlag b (m s).2) := rfl

/-- the rule on arrays is the rule of the class -/
def OnArrays {X : Type} (ruleP : K → PySeq K → M (Core K n (X × Bool)) (Vec K n)) (rule : K → List K → M (Core K n X) (Vec K n)) : Prop :=
  ∀ e (v : Vec K n) s, ruleP e ⟨false, List.ofFn v⟩ (withFlag false s) = ((rule e (List.ofFn v) s).1, withFlag false (rule e (List.ofFn v) s).2)

theorem lmsP_array : OnArrays (K := K) (n := n) lmsRuleP lmsRule := fun e v s => by
  simp only [lmsRuleP, lmsRule, asVec_ofFn, withFlag, M.get_bind, M.modify_bind, M.lift_ok_bind, M.lift_apply, scaleVec_array]
  rfl

theorem lmfP_array : OnArrays (K := K) (n := n) lmfRuleP lmfRule := fun e v s => by
  simp only [lmfRuleP, lmfRule, asVec_ofFn, withFlag, M.get_bind, M.modify_bind, M.lift_ok_bind, M.lift_apply, scaleVec_array]
  rfl

theorem nlmsP_array : OnArrays (K := K) (n := n) nlmsRuleP nlmsRule := fun e v s => by
  simp only [nlmsRuleP, nlmsRule, asVec_ofFn, withFlag, M.get_bind, M.modify_bind, M.lift_ok_bind, M.lift_apply, scaleVec_array]
  rfl

theorem nlmfP_array : OnArrays (K := K) (n := n) nlmfRuleP nlmfRule := fun e v s => by
  simp only [nlmfRuleP, nlmfRule, asVec_ofFn, withFlag, M.get_bind, M.modify_bind, M.lift_ok_bind, M.lift_apply, scaleVec_array]
  rfl

theorem gmccP_array : OnArrays (K := K) (n := n) gmccRuleP gmccRule := fun e v s => by
  simp only [gmccRuleP, gmccRule, asVec_ofFn, withFlag, M.get_bind, M.modify_bind, M.lift_ok_bind, M.lift_apply, scaleVec_array]
  rfl

theorem llncoshP_array : OnArrays (K := K) (n := n) llncoshRuleP llncoshRule := fun e v s => by
  simp only [llncoshRuleP, llncoshRule, asVec_ofFn, withFlag, M.get_bind, M.modify_bind, M.lift_ok_bind, M.lift_apply, scaleVec_array]
  rfl

theorem gngdP_array : OnArrays (K := K) (n := n) gngdRuleP gngdRule := fun e v s => by
  simp only [gngdRuleP, gngdRule, asVec_ofFn, withFlag, M.get_bind, M.modify_bind, M.lift_ok_bind, M.lift_apply, scaleVec_array]
  rfl

theorem mathewsP_array : OnArrays (K := K) (n := n) mathewsRuleP mathewsRule := fun e v s => by
  simp only [mathewsRuleP, mathewsRule, asVec_ofFn, withFlag, M.get_bind, M.modify_bind, M.lift_ok_bind, M.lift_apply, scaleVec_array]
  rfl

theorem angP_array : OnArrays (K := K) (n := n) angRuleP angRule := fun e v s => by
  simp only [angRuleP, angRule, asVec_ofFn, withFlag, M.get_bind, M.modify_bind, M.lift_ok_bind, M.lift_apply, scaleVec_array]
  rfl

theorem benvenisteP_array : OnArrays (K := K) (n := n) benvenisteRuleP benvenisteRule := fun e v s => by
  simp only [benvenisteRuleP, benvenisteRule, asVec_ofFn, withFlag, M.get_bind, M.modify_bind, M.lift_ok_bind, M.lift_apply, scaleVec_array]
  cases benFiPart s.nAttr s.ext.lastMu s.ext.lastX <;> rfl

theorem sslmsP_any (b c : Bool) (e : K) (v : Vec K n) (s : Core K n Unit) : sslmsRuleP e ⟨c, List.ofFn v⟩ (withFlag b s) = ((sslmsRule e (List.ofFn v) s).1, withFlag b (sslmsRule e (List.ofFn v) s).2) := by
  simp only [sslmsRuleP, sslmsRule, List.map_ofFn, asVec_ofFn, withFlag, M.get_bind, M.modify_bind, M.lift_ok_bind, M.lift_apply, scaleVec_array]
  rfl

theorem nsslmsP_any (b c : Bool) (e : K) (v : Vec K n) (s : Core K n (EpsExt K)) : nsslmsRuleP e ⟨c, List.ofFn v⟩ (withFlag b s) = ((nsslmsRule e (List.ofFn v) s).1, withFlag b (nsslmsRule e (List.ofFn v) s).2) := by
  simp only [nsslmsRuleP, nsslmsRule, List.map_ofFn, asVec_ofFn, withFlag, M.get_bind, M.modify_bind, M.lift_ok_bind, M.lift_apply, scaleVec_array]
  rfl

theorem rlsP_array : OnArrays (K := K) (n := n) rlsRuleP rlsRule := fun e v s => rfl


/-! ## Arrays -/

theorem predict_flag {X : Type} (x : List K) (b : Bool) (s : Core K n X) : basePredict x (withFlag b s) = ((basePredict x s).1, withFlag b (basePredict x s).2) := by
  unfold basePredict
  cases asVec n x <;> rfl

theorem predict_cases {X : Type} (x : List K) (s : Core K n X) :
    (x.length ≠ n ∧ basePredict x s = (.error .valueError, s)) ∨ ∃ v : Vec K n, x = List.ofFn v ∧ basePredict x s = (.ok (dot s.w v), s) := by
  by_cases hx : x.length = n
  · obtain ⟨v, rfl⟩ := asVec_ok hx
    exact Or.inr ⟨v, rfl, by simp [basePredict]⟩
  · refine Or.inl ⟨hx, ?_⟩
    unfold basePredict
    rw [asVec_wrong x hx]
    rfl

/-- what a call of the rule makes of a call of `adapt` or the body of `run` -/
theorem adaptP_flag {X : Type} {ruleP : K → PySeq K → M (Core K n (X × Bool)) (Vec K n)} {rule : K → List K → M (Core K n X) (Vec K n)} {c b b' : Bool}
    (h : ∀ e (v : Vec K n) s, ruleP e ⟨c, List.ofFn v⟩ (withFlag b s) = ((rule e (List.ofFn v) s).1, withFlag b' (rule e (List.ofFn v) s).2))
    (d : K) (x : List K) (hx : x.length = n ∨ b' = b) (s : Core K n X) :
    adaptP ruleP d ⟨c, x⟩ (withFlag b s) = ((baseAdapt basePredict rule d x s).1, withFlag b' (baseAdapt basePredict rule d x s).2) := by
  rcases predict_cases x s with ⟨hl, hp⟩ | ⟨v, rfl, hp⟩
  · have hb : b' = b := hx.resolve_left hl
    subst hb
    have hq : basePredict x (withFlag b' s) = (.error .valueError, withFlag b' s) := by rw [predict_flag, hp]
    unfold adaptP baseAdapt
    rw [M.bind_error hp, M.bind_error hq]
  · have hq : basePredict (List.ofFn v) (withFlag b s) = (.ok (dot s.w v), withFlag b s) := by rw [predict_flag, hp]
    unfold adaptP baseAdapt
    rw [M.bind_ok hp, M.bind_ok hq]
    have hr := h (d - dot s.w v) v s
    rcases hs : rule (d - dot s.w v) (List.ofFn v) s with ⟨r, t⟩
    rw [hs] at hr
    cases r with
    | error er => rw [M.bind_error hs, M.bind_error hr]
    | ok dw => rw [M.bind_ok hs, M.bind_ok hr]; rfl

theorem bodyP_flag {X : Type} {ruleP : K → PySeq K → M (Core K n (X × Bool)) (Vec K n)} {rule : K → List K → M (Core K n X) (Vec K n)} (h : OnArrays ruleP rule)
    (d : K) (x : List K) (s : Core K n X) :
    bodyP ruleP d x (withFlag false s) = ((baseBody basePredict rule d x s).1, withFlag false (baseBody basePredict rule d x s).2) := by
  rcases predict_cases x s with ⟨hl, hp⟩ | ⟨v, rfl, hp⟩
  · have hq : basePredict x (withFlag false s) = (.error .valueError, withFlag false s) := by rw [predict_flag, hp]
    unfold bodyP baseBody
    rw [M.bind_error hp, M.bind_error hq]
  · have hq : basePredict (List.ofFn v) (withFlag false s) = (.ok (dot s.w v), withFlag false s) := by rw [predict_flag, hp]
    unfold bodyP baseBody
    rw [M.bind_ok hp, M.bind_ok hq]
    have hr := h (d - dot s.w v) v s
    rcases hs : rule (d - dot s.w v) (List.ofFn v) s with ⟨r, t⟩
    rw [hs] at hr
    cases r with
    | error er => rw [M.bind_error hs, M.bind_error hr]
    | ok dw => rw [M.bind_ok hs, M.bind_ok hr]; rfl

theorem listClass_array (solve : Solver K) (k : Kind) (d : K) (x : List K) (s : Core K n (classOf (n := n) solve k).Ext) :
    (listClassOf solve k).predict x (withFlag false s) = (((classOf solve k).predict x s).1, withFlag false ((classOf solve k).predict x s).2) ∧
    (listClassOf solve k).adapt d ⟨false, x⟩ (withFlag false s) = (((classOf solve k).adapt d x s).1, withFlag false ((classOf solve k).adapt d x s).2) ∧
    (listClassOf solve k).body d x (withFlag false s) = (((classOf solve k).body d x s).1, withFlag false ((classOf solve k).body d x s).2) := by
  cases k
  · exact ⟨predict_flag x false s, adaptP_flag lmsP_array d x (Or.inr rfl) s, bodyP_flag lmsP_array d x s⟩
  · exact ⟨predict_flag x false s, adaptP_flag lmfP_array d x (Or.inr rfl) s, bodyP_flag lmfP_array d x s⟩
  · exact ⟨predict_flag x false s, adaptP_flag (sslmsP_any false false) d x (Or.inr rfl) s, bodyP_flag (sslmsP_any false false) d x s⟩
  · exact ⟨predict_flag x false s, adaptP_flag nlmsP_array d x (Or.inr rfl) s, bodyP_flag nlmsP_array d x s⟩
  · exact ⟨predict_flag x false s, adaptP_flag nlmfP_array d x (Or.inr rfl) s, bodyP_flag nlmfP_array d x s⟩
  · exact ⟨predict_flag x false s, adaptP_flag (nsslmsP_any false false) d x (Or.inr rfl) s, bodyP_flag (nsslmsP_any false false) d x s⟩
  · exact ⟨predict_flag x false s, adaptP_flag gngdP_array d x (Or.inr rfl) s, bodyP_flag gngdP_array d x s⟩
  · exact ⟨predict_flag x false s, adaptP_flag mathewsP_array d x (Or.inr rfl) s, bodyP_flag mathewsP_array d x s⟩
  · exact ⟨predict_flag x false s, adaptP_flag angP_array d x (Or.inr rfl) s, bodyP_flag angP_array d x s⟩
  · exact ⟨predict_flag x false s, adaptP_flag benvenisteP_array d x (Or.inr rfl) s, bodyP_flag benvenisteP_array d x s⟩
  · exact ⟨predict_flag x false s, adaptP_flag gmccP_array d x (Or.inr rfl) s, bodyP_flag gmccP_array d x s⟩
  · exact ⟨predict_flag x false s, adaptP_flag llncoshP_array d x (Or.inr rfl) s, bodyP_flag llncoshP_array d x s⟩
  · exact ⟨predict_flag x false s, adaptP_flag rlsP_array d x (Or.inr rfl) s, bodyP_flag rlsP_array d x s⟩
  · exact ⟨rfl, rfl, rfl⟩
  · exact ⟨predict_flag x false s, rfl, rfl⟩

/-- a call on an object with the flag that does what the call on the object without it does -/
def Follows (solve : Solver K) (k : Kind) {α : Type} (u : M (Obj (listClass (n := n) solve k)) α) (t : M (Obj (classOf (n := n) solve k)) α) : Prop :=
  ∀ o, u (flagged solve k false o) = ((t o).1, flagged solve k false (t o).2)

theorem Follows.bind {solve : Solver K} {k : Kind} {α β : Type} {u : M (Obj (listClass (n := n) solve k)) α} {t : M (Obj (classOf (n := n) solve k)) α}
    {u' : α → M (Obj (listClass (n := n) solve k)) β} {t' : α → M (Obj (classOf (n := n) solve k)) β} (h : Follows solve k u t) (h' : ∀ a, Follows solve k (u' a) (t' a)) :
    Follows solve k (u >>= u') (t >>= t') := by
  intro o
  rcases ht : t o with ⟨r, o1⟩
  have hu := h o
  rw [ht] at hu
  cases r with
  | error e => rw [M.bind_error ht, M.bind_error hu]
  | ok a => rw [M.bind_ok ht, M.bind_ok hu]; exact h' a o1

theorem follows_liftM {solve : Solver K} {k : Kind} {α : Type} {u : M (Core K n (listClass (n := n) solve k).Ext) α} {t : M (Core K n (classOf (n := n) solve k).Ext) α}
    (h : ∀ s, u (withFlag false s) = ((t s).1, withFlag false (t s).2)) : Follows solve k (Obj.liftM u) (Obj.liftM t) := by
  intro o
  show Obj.liftM u ⟨withFlag false o.core, o.wHist⟩ = _
  unfold Obj.liftM
  dsimp only
  rw [h o.core]
  rfl

theorem follows_hist {solve : Solver K} {k : Kind} (j : ℕ) : Follows (n := n) solve k (histWrite j) (histWrite j) := by
  intro o
  unfold histWrite
  rw [M.get_bind, M.get_bind]
  show (M.lift (bcast o.core.nAttr (List.ofFn o.core.w)) >>= _) (flagged solve k false o) = _
  cases bcast o.core.nAttr (List.ofFn o.core.w) <;> rfl

theorem follows_loop {solve : Solver K} {k : Kind} (z : List (K × List K)) (j : ℕ) : Follows (n := n) solve k (runLoop _ j z) (runLoop _ j z) := by
  induction z generalizing j with
  | nil => exact fun _ => rfl
  | cons a z ih =>
    obtain ⟨d, x⟩ := a
    exact (follows_hist j).bind fun _ => (follows_liftM fun s => (listClass_array solve k d x s).2.2).bind fun _ => (ih (j + 1)).bind fun _ => fun _ => rfl

/-- C137: as long as only arrays are passed, `predict`, `adapt` and `run` do what C01-C136 say about them. -/
theorem C137_arrays (solve : Solver K) (k : Kind) :
    (∀ x, Follows (n := n) solve k (predict _ x) (predict _ x)) ∧ (∀ d x, Follows (n := n) solve k (adapt _ d x) (adapt _ d x)) ∧
    (∀ d x, Follows (n := n) solve k (run _ d x) (run _ d x)) := by
  refine ⟨fun x => follows_liftM fun s => (listClass_array solve k 0 x s).1, fun d x => follows_liftM fun s => (listClass_array solve k d x s).2.1, fun d x => ?_⟩
  unfold run
  by_cases hd : d.length ≠ x.length
  · rw [if_pos hd, if_pos hd]; exact fun _ => rfl
  · rw [if_neg hd, if_neg hd]
    cases x with
    | nil => exact fun _ => rfl
    | cons x0 rest =>
      refine Follows.bind (fun _ => rfl) fun _ => ?_
      by_cases ha : ((x0 :: rest).any fun r => decide (r.length ≠ x0.length)) = true
      · rw [if_pos ha, if_pos ha]; exact fun _ => rfl
      · rw [if_neg ha, if_neg ha]
        exact Follows.bind (fun _ => rfl) fun _ => (follows_loop _ 0).bind fun _ => fun _ => rfl


/-! ## Lists -/

theorem adaptSeq_eq (solve : Solver K) (k : Kind) (d : K) (x : PySeq K) (b : Bool) (o : Obj (classOf (n := n) solve k)) {r : Except Err Unit} {s : Core K n (listClass (n := n) solve k).Ext}
    (h : (listClassOf solve k).adapt d x (withFlag b o.core) = (r, s)) : adaptSeq solve k d x (flagged solve k b o) = (r, ⟨s, o.wHist⟩) := by
  exact congrArg (fun p : Except Err Unit × Core K n (listClass (n := n) solve k).Ext => ((p.1, ⟨p.2, o.wHist⟩) : Except Err Unit × Obj (listClass (n := n) solve k))) h

/-- C137: SSLMS, NSSLMS, OCNLMS and AP accept a list in `adapt`: it is treated as the array with the same entries (of any length). -/
theorem C137_converted (solve : Solver K) (k : Kind) (hk : k = .sslms ∨ k = .nsslms ∨ k = .ocnlms ∨ ∃ m, k = .ap m) (d : K) (x : List K) (o : Obj (classOf (n := n) solve k)) :
    adaptSeq solve k d ⟨true, x⟩ (flagged solve k false o) = ((adapt _ d x o).1, flagged solve k false (adapt _ d x o).2) := by
  rcases hk with rfl | rfl | rfl | ⟨m, rfl⟩
  · exact adaptSeq_eq solve .sslms d _ false o (adaptP_flag (sslmsP_any false true) d x (Or.inr rfl) o.core)
  · exact adaptSeq_eq solve .nsslms d _ false o (adaptP_flag (nsslmsP_any false true) d x (Or.inr rfl) o.core)
  · rfl
  · rfl

theorem adaptP_raises {X : Type} {ruleP : K → PySeq K → M (Core K n (X × Bool)) (Vec K n)} {c : Bool} {s s' : Core K n (X × Bool)} {v : Vec K n} {er : Err}
    (h : ∀ e, ruleP e ⟨c, List.ofFn v⟩ s = (.error er, s')) (d : K) : adaptP ruleP d ⟨c, List.ofFn v⟩ s = (.error er, s') := by
  unfold adaptP
  rw [M.bind_ok (show basePredict (List.ofFn v) s = (.ok (dot s.w v), s) by simp [basePredict])]
  exact M.bind_error (h _)

/-- C137: LMS, LMF, NLMS, NLMF, GMCC, Llncosh and RLS raise `TypeError` for a list of the right length; the object is unchanged. -/
theorem C137_rejected (solve : Solver K) (k : Kind) (hk : k ∈ [Kind.lms, .lmf, .nlms, .nlmf, .gmcc, .llncosh, .rls]) (d : K) (x : List K) (hx : x.length = n) (o : Obj (classOf (n := n) solve k)) :
    adaptSeq solve k d ⟨true, x⟩ (flagged solve k false o) = (.error .typeError, flagged solve k false o) := by
  obtain ⟨v, rfl⟩ := asVec_ok hx
  simp only [List.mem_cons, List.not_mem_nil, or_false] at hk
  rcases hk with rfl | rfl | rfl | rfl | rfl | rfl | rfl
  · exact adaptSeq_eq solve .lms d _ false o (adaptP_raises (fun e => rfl) d)
  · exact adaptSeq_eq solve .lmf d _ false o (adaptP_raises (fun e => rfl) d)
  · refine adaptSeq_eq solve .nlms d _ false o (adaptP_raises (fun e => ?_) d)
    unfold nlmsRuleP; rw [asVec_ofFn]; rfl
  · refine adaptSeq_eq solve .nlmf d _ false o (adaptP_raises (fun e => ?_) d)
    unfold nlmfRuleP; rw [asVec_ofFn]; rfl
  · exact adaptSeq_eq solve .gmcc d _ false o (adaptP_raises (fun e => rfl) d)
  · exact adaptSeq_eq solve .llncosh d _ false o (adaptP_raises (fun e => rfl) d)
  · exact adaptSeq_eq solve .rls d _ false o (adaptP_raises (fun e => rfl) d)

/-- C137: a list (or array) of a wrong length raises `ValueError` and changes nothing, whatever was passed before; AP and OCNLMS are the exceptions (C08, C12). -/
theorem C137_wrong_length (solve : Solver K) (k : Kind) (h1 : k ≠ .ocnlms) (h2 : ∀ m, k ≠ .ap m) (d : K) (c b : Bool) (x : List K) (hx : x.length ≠ n) (o : Obj (classOf (n := n) solve k)) :
    adaptSeq solve k d ⟨c, x⟩ (flagged solve k b o) = (.error .valueError, flagged solve k b o) := by
  have h : ∀ {X : Type} (s : Core K n X), basePredict x s = (.error .valueError, s) := by
    intro X s
    unfold basePredict
    rw [asVec_wrong x hx]
    rfl
  cases k
  case ocnlms => exact absurd rfl h1
  case ap m => exact absurd rfl (h2 m)
  all_goals exact adaptSeq_eq solve _ d _ b o (M.bind_error (h _))

/-- the rule of a filter with a memory: on an array it succeeds and assigns its own attributes only; on a list it makes the same assignments, then raises -/
def HalfDone {X : Type} (ruleP : K → PySeq K → M (Core K n (X × Bool)) (Vec K n)) (rule : K → List K → M (Core K n X) (Vec K n)) (s : Core K n X) (v : Vec K n) : Prop :=
  ∀ e, ∃ dw q, rule e (List.ofFn v) s = (.ok dw, { s with ext := q }) ∧ ruleP e ⟨true, List.ofFn v⟩ (withFlag false s) = (.error .typeError, withFlag true { s with ext := q })

theorem gngd_half (s : Core K n (GngdExt K n)) (v : Vec K n) : HalfDone gngdRuleP gngdRule s v := fun e => by
  simp only [gngdRuleP, gngdRule, asVec_ofFn, M.get_bind, M.modify_bind, M.lift_ok_bind, M.lift_apply, scaleVec_list]
  exact ⟨_, _, rfl, rfl⟩

theorem mathews_half (s : Core K n (MathewsExt K n)) (v : Vec K n) : HalfDone mathewsRuleP mathewsRule s v := fun e => by
  simp only [mathewsRuleP, mathewsRule, asVec_ofFn, M.get_bind, M.modify_bind, M.lift_ok_bind, M.lift_apply, scaleVec_list]
  exact ⟨_, _, rfl, rfl⟩

theorem ang_half (s : Core K n (AngExt K n)) (v : Vec K n) : HalfDone angRuleP angRule s v := fun e => by
  simp only [angRuleP, angRule, asVec_ofFn, withFlag, M.get_bind, M.modify_bind, M.lift_ok_bind, M.lift_apply, scaleVec_list, scaleVec_array]
  exact ⟨_, _, rfl, rfl⟩

theorem benveniste_half (s : Core K n (BenExt K n)) (hn : s.nAttr = n) (v : Vec K n) : HalfDone benvenisteRuleP benvenisteRule s v := fun e => by
  have hb : benFiPart s.nAttr s.ext.lastMu s.ext.lastX = .ok fun i j => eye n i j - s.ext.lastMu * outer s.ext.lastX s.ext.lastX i j := by
    unfold benFiPart; rw [if_pos hn]
  simp only [benvenisteRuleP, benvenisteRule, asVec_ofFn, withFlag, M.get_bind, M.modify_bind, M.lift_ok_bind, M.lift_apply, scaleVec_list, scaleVec_array, hb]
  exact ⟨_, _, rfl, rfl⟩

theorem half_adapt {X : Type} {ruleP : K → PySeq K → M (Core K n (X × Bool)) (Vec K n)} {rule : K → List K → M (Core K n X) (Vec K n)} {s : Core K n X} {v : Vec K n}
    (h : HalfDone ruleP rule s v) (d : K) : ∃ w q, baseAdapt basePredict rule d (List.ofFn v) s = (.ok (), { s with w := w, ext := q }) ∧
      adaptP ruleP d ⟨true, List.ofFn v⟩ (withFlag false s) = (.error .typeError, withFlag true { s with ext := q }) := by
  have hp : ∀ {X : Type} (s : Core K n X), basePredict (List.ofFn v) s = (.ok (dot s.w v), s) := by intro X s; simp [basePredict]
  obtain ⟨dw, q, h1, h2⟩ := h (d - dot s.w v)
  refine ⟨fun i => s.w i + dw i, q, ?_, ?_⟩
  · unfold baseAdapt
    rw [M.bind_ok (hp _), M.bind_ok h1]
    rfl
  · unfold adaptP
    rw [M.bind_ok (hp _)]
    exact M.bind_error h2

/-- C137: GNGD and the VSLMS filters raise `TypeError` for a list of the right length as well; the weights are unchanged, but their own attributes are those of an accepted sample: whatever `adapt` with
the array makes of the object, the same attributes are left behind. -/
theorem C137_half_done (solve : Solver K) (k : Kind) (hk : k ∈ [Kind.gngd, .mathews, .ang, .benveniste]) (d : K) (x : List K) (hx : x.length = n)
    (o : Obj (classOf (n := n) solve k)) (hn : o.core.nAttr = n) :
    ∃ o1, adapt (classOf solve k) d x o = (.ok (), o1) ∧
      adaptSeq solve k d ⟨true, x⟩ (flagged solve k false o) = (.error .typeError, flagged solve k true ⟨{ o.core with ext := o1.core.ext }, o.wHist⟩) := by
  obtain ⟨v, rfl⟩ := asVec_ok hx
  have fin : ∀ {t : Core K n (classOf (n := n) solve k).Ext}, (classOf solve k).adapt d (List.ofFn v) o.core = (.ok (), t) →
      adapt (classOf solve k) d (List.ofFn v) o = (.ok (), ⟨t, o.wHist⟩) := fun h => by
    exact congrArg (fun p : Except Err Unit × Core K n (classOf (n := n) solve k).Ext => ((p.1, ⟨p.2, o.wHist⟩) : Except Err Unit × Obj (classOf (n := n) solve k))) h
  simp only [List.mem_cons, List.not_mem_nil, or_false] at hk
  rcases hk with rfl | rfl | rfl | rfl
  · obtain ⟨w, q, h1, h2⟩ := half_adapt (gngd_half o.core v) d
    exact ⟨_, fin h1, adaptSeq_eq solve .gngd d _ false o h2⟩
  · obtain ⟨w, q, h1, h2⟩ := half_adapt (mathews_half o.core v) d
    exact ⟨_, fin h1, adaptSeq_eq solve .mathews d _ false o h2⟩
  · obtain ⟨w, q, h1, h2⟩ := half_adapt (ang_half o.core v) d
    exact ⟨_, fin h1, adaptSeq_eq solve .ang d _ false o h2⟩
  · obtain ⟨w, q, h1, h2⟩ := half_adapt (benveniste_half o.core hn v) d
    exact ⟨_, fin h1, adaptSeq_eq solve .benveniste d _ false o h2⟩

/-- C137: GNGD and VSLMS_Mathews recover: the next `adapt` with an array works as if `last_x` had been an array. -/
theorem C137_recovers (solve : Solver K) (k : Kind) (hk : k = .gngd ∨ k = .mathews) (d : K) (x : List K) (hx : x.length = n) (b : Bool) (o : Obj (classOf (n := n) solve k)) :
    adapt (listClass solve k) d x (flagged solve k b o) = ((adapt _ d x o).1, flagged solve k false (adapt _ d x o).2) := by
  rcases hk with rfl | rfl
  · refine adaptSeq_eq solve .gngd d ⟨false, x⟩ b o (adaptP_flag (rule := gngdRule) (b' := false) (fun e v s => ?_) d x (Or.inl hx) o.core)
    simp only [gngdRuleP, gngdRule, asVec_ofFn, withFlag, M.get_bind, M.modify_bind, M.lift_ok_bind, M.lift_apply, scaleVec_array]
    rfl
  · refine adaptSeq_eq solve .mathews d ⟨false, x⟩ b o (adaptP_flag (rule := mathewsRule) (b' := false) (fun e v s => ?_) d x (Or.inl hx) o.core)
    simp only [mathewsRuleP, mathewsRule, asVec_ofFn, withFlag, M.get_bind, M.modify_bind, M.lift_ok_bind, M.lift_apply, scaleVec_array]
    rfl

/-! ## VSLMS_Ang and VSLMS_Benveniste never recover -/

theorem ang_broken (s : Core K n (AngExt K n)) (v : Vec K n) (c : Bool) (e : K) : angRuleP e ⟨c, List.ofFn v⟩ (withFlag true s) = (.error .typeError, withFlag true s) := by
  simp only [angRuleP, asVec_ofFn, withFlag, M.get_bind, M.lift_ok_bind, scaleVec_list]
  rfl

theorem benveniste_broken (s : Core K n (BenExt K n)) (v : Vec K n) (c : Bool) (e : K) :
    ∃ er, (s.nAttr = n → er = .typeError) ∧ benvenisteRuleP e ⟨c, List.ofFn v⟩ (withFlag true s) = (.error er, withFlag true s) := by
  simp only [benvenisteRuleP, asVec_ofFn, withFlag, M.get_bind, M.lift_ok_bind, scaleVec_list]
  unfold benFiPart
  by_cases h1 : s.nAttr = n
  · rw [if_pos h1]; exact ⟨_, fun _ => rfl, rfl⟩
  · rw [if_neg h1]
    by_cases h2 : s.nAttr = 1
    · rw [if_pos h2]; exact ⟨.typeError, fun _ => rfl, rfl⟩
    · rw [if_neg h2]; exact ⟨_, fun h => absurd h h1, rfl⟩

/-- the two filters whose `last_x` is a list -/
theorem broken_calls (solve : Solver K) (k : Kind) (hk : k = .ang ∨ k = .benveniste) (s : Core K n (classOf (n := n) solve k).Ext) (d : K) (x : List K) :
    (∀ c, ∃ er, (x.length = n → s.nAttr = n → er = .typeError) ∧ (listClassOf solve k).adapt d ⟨c, x⟩ (withFlag true s) = (.error er, withFlag true s)) ∧
    ∃ er, (x.length = n → s.nAttr = n → er = .typeError) ∧ (listClassOf solve k).body d x (withFlag true s) = (.error er, withFlag true s) := by
  have wrong : ∀ {X : Type}, x.length ≠ n → ∀ s : Core K n X, basePredict x s = (.error .valueError, s) := by
    intro X hx s
    unfold basePredict
    rw [asVec_wrong x hx]
    rfl
  by_cases hx : x.length = n
  · obtain ⟨v, rfl⟩ := asVec_ok hx
    have hp : ∀ {X : Type} (s : Core K n X), basePredict (List.ofFn v) s = (.ok (dot s.w v), s) := by intro X s; simp [basePredict]
    rcases hk with rfl | rfl
    · exact ⟨fun c => ⟨.typeError, fun _ _ => rfl, adaptP_raises (fun e => ang_broken s v c e) d⟩,
        .typeError, fun _ _ => rfl, (M.bind_ok (hp _)).trans (M.bind_error (ang_broken s v false _))⟩
    · refine ⟨fun c => ?_, ?_⟩
      · obtain ⟨er, h1, h2⟩ := benveniste_broken s v c (d - dot s.w v)
        exact ⟨er, fun _ => h1, (M.bind_ok (hp _)).trans (M.bind_error h2)⟩
      · obtain ⟨er, h1, h2⟩ := benveniste_broken s v false (d - dot s.w v)
        exact ⟨er, fun _ => h1, (M.bind_ok (hp _)).trans (M.bind_error h2)⟩
  · rcases hk with rfl | rfl
    · exact ⟨fun c => ⟨.valueError, fun h => absurd h hx, M.bind_error (wrong hx _)⟩, .valueError, fun h => absurd h hx, M.bind_error (wrong hx _)⟩
    · exact ⟨fun c => ⟨.valueError, fun h => absurd h hx, M.bind_error (wrong hx _)⟩, .valueError, fun h => absurd h hx, M.bind_error (wrong hx _)⟩

/-- C137: VSLMS_Ang and VSLMS_Benveniste are broken for ever by a list: from then on every `adapt`, with a list or an array, raises (`TypeError` if the length is right) and changes nothing ... -/
theorem C137_broken_adapt (solve : Solver K) (k : Kind) (hk : k = .ang ∨ k = .benveniste) (o : Obj (classOf (n := n) solve k)) (d : K) (x : PySeq K) :
    ∃ er, (x.val.length = n → o.core.nAttr = n → er = .typeError) ∧ adaptSeq solve k d x (flagged solve k true o) = (.error er, flagged solve k true o) := by
  obtain ⟨er, h1, h2⟩ := (broken_calls solve k hk o.core d x.val).1 x.isList
  exact ⟨er, h1, adaptSeq_eq solve k d x true o h2⟩

theorem broken_loop (solve : Solver K) (k : Kind) (hk : k = .ang ∨ k = .benveniste) (o : Obj (classOf (n := n) solve k)) (d : K) (x : List K) (z : List (K × List K)) :
    ∃ er o', runLoop (listClass solve k) 0 ((d, x) :: z) (flagged solve k true o) = (.error er, flagged solve k true o') ∧ o'.core = o.core ∧ (x.length = n → o.core.nAttr = n → er = .typeError) := by
  cases hb : bcast o.core.nAttr (List.ofFn o.core.w) with
  | error er =>
    refine ⟨er, o, M.bind_error ?_, rfl, fun _ hn => ?_⟩
    · unfold histWrite
      rw [M.get_bind]
      show (M.lift (bcast o.core.nAttr (List.ofFn o.core.w)) >>= _) (flagged solve k true o) = _
      rw [hb]; rfl
    · rw [hn, bcast_self] at hb; cases hb
  | ok row =>
    obtain ⟨er, h1, h2⟩ := (broken_calls solve k hk o.core d x).2
    refine ⟨er, ⟨o.core, o.wHist.set 0 row⟩, ?_, rfl, h1⟩
    have hh : histWrite 0 (flagged solve k true o) = (.ok (), flagged solve k true ⟨o.core, o.wHist.set 0 row⟩) := by
      unfold histWrite
      rw [M.get_bind]
      show (M.lift (bcast o.core.nAttr (List.ofFn o.core.w)) >>= _) (flagged solve k true o) = _
      rw [hb]; rfl
    refine (M.bind_ok hh).trans (M.bind_error ?_)
    exact congrArg (fun p : Except Err (K × K) × Core K n (listClass (n := n) solve k).Ext => ((p.1, ⟨p.2, o.wHist.set 0 row⟩) : Except Err (K × K) × Obj (listClass (n := n) solve k))) h2

/-- ... and every `run` raises (`TypeError` if the data are well-shaped) and leaves the weights, `mu` and the attributes of the class as they were, so the filter stays broken. -/
theorem C137_broken_run (solve : Solver K) (k : Kind) (hk : k = .ang ∨ k = .benveniste) (o : Obj (classOf (n := n) solve k)) (d : List K) (x : List (List K)) :
    ∃ er o', run (listClass solve k) d x (flagged solve k true o) = (.error er, flagged solve k true o') ∧ o'.core.w = o.core.w ∧ o'.core.mu = o.core.mu ∧ o'.core.ext = o.core.ext ∧
      (d.length = x.length → x ≠ [] → (∀ r ∈ x, r.length = n) → er = .typeError) := by
  unfold run
  by_cases hd : d.length = x.length
  · rw [if_neg (by simpa using hd)]
    cases x with
    | nil => exact ⟨.indexError, o, rfl, rfl, rfl, rfl, fun _ h => absurd rfl h⟩
    | cons x0 rest =>
      cases d with
      | nil => simp at hd
      | cons d0 drest =>
        dsimp only
        by_cases ha : ((x0 :: rest).any fun r => decide (r.length ≠ x0.length)) = true
        · rw [if_pos ha]
          refine ⟨.valueError, ⟨o.core.withN x0.length, o.wHist⟩, rfl, rfl, rfl, rfl, fun _ _ h => ?_⟩
          exfalso
          rw [List.any_eq_true] at ha
          obtain ⟨r, hr, hne⟩ := ha
          exact (of_decide_eq_true hne) ((h r hr).trans (h x0 (by simp)).symm)
        · rw [if_neg ha]
          obtain ⟨er, o', h1, h2, h3⟩ := broken_loop solve k hk ⟨o.core.withN x0.length, List.replicate (x0 :: rest).length (List.replicate x0.length 0)⟩ d0 x0 (drest.zip rest)
          refine ⟨er, o', ?_, by rw [h2]; rfl, by rw [h2]; rfl, by rw [h2]; rfl, fun _ _ h => h3 (h x0 (by simp)) (h x0 (by simp))⟩
          exact (M.modify_bind ..).trans ((M.modify_bind ..).trans (M.bind_error h1))
  · rw [if_pos (by simpa using hd)]
    exact ⟨.valueError, o, rfl, rfl, rfl, rfl, fun h => absurd h hd⟩

/-! ### Concrete cases -/

/-- the hypotheses of `C137_half_done` and `C137_rejected` hold for a new filter ... -/
example : ∃ o : Obj (ang ℚ 2), o.core.nAttr = 2 ∧ ([1, 2] : List ℚ).length = 2 ∧ Kind.ang ∈ [Kind.gngd, .mathews, .ang, .benveniste] :=
  ⟨⟨⟨fun _ => 0, 2, 1, ⟨1, 1, 0, fun _ => 0, fun _ => 0, 1⟩⟩, []⟩, rfl, rfl, by simp⟩

/-- the new filter of the next example, with the flag -/
def listEx : Obj (listClass (K := ℚ) (n := 2) ratSolve .ang) := ⟨⟨fun _ => 0, 2, 1, ((⟨1, 1, 0, fun _ => 0, fun _ => 0, 1⟩ : AngExt ℚ 2), false)⟩, []⟩

/-- ... and one list is enough: VSLMS_Ang (two weights) called with the list `[1, 2]`; the following `run` with arrays raises -/
example : (adaptSeq ratSolve .ang 1 ⟨true, [1, 2]⟩ listEx).1 = .error .typeError ∧ (run (listClass ratSolve .ang) [1] [[1, 2]] listEx).1 = .ok ([0], [1], [[0, 0]]) ∧
    (run (listClass ratSolve .ang) [1] [[1, 2]] (adaptSeq ratSolve .ang 1 ⟨true, [1, 2]⟩ listEx).2).1 = .error .typeError :=
  ⟨rfl, by decide +kernel, by decide +kernel⟩

end Padasip
