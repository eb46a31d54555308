import Verif.Spec.Timers
import Verif.Props.WickThreads
import Verif.Props.Einsum
import Verif.Props.Linked
/-! # C98: the timers -/
namespace Wicked
open CppLt CppEq Rational
namespace Wick

theorem toList_inj {a b : String} : a.toList = b.toList ↔ a = b := ⟨fun h => String.toList_inj.1 h, fun h => by rw [h]⟩

theorem timeOf_bump {ts : SMap Str Nat} (h : SMap.Srt ts) (key k : String) (d : Nat) : timeOf (bump key.toList d ts) k = timeOf ts k + if k = key then d else 0 := by
  unfold timeOf bump
  rw [find_insert_str h]
  by_cases hk : k = key
  · subst hk; simp
  · rw [if_neg (fun e => hk (toList_inj.1 e).symm), if_neg hk, Nat.add_zero]

theorem srt_bump {ts : SMap Str Nat} (h : SMap.Srt ts) (key : Str) (d : Nat) : SMap.Srt (bump key d ts) := SMap.srt_insert h

theorem timed_ok {α : Type} {clock : Nat → Nat} {key : Str} {x : Res α} {s s' : TState} {a : α} (h : timed clock key x s = (.ok a, s')) :
    x = .ok a ∧ s' = ⟨bump key (clock (s.reads + 1) - clock s.reads) s.timers, s.reads + 2⟩ := by
  unfold timed at h
  split at h
  · cases h
  · cases h; exact ⟨rfl, rfl⟩

theorem timed_fst {α : Type} (clock : Nat → Nat) (key : Str) (x : Res α) (s : TState) : (timed clock key x s).1 = x := by
  unfold timed; split <;> rfl

/-- the time the calls in a window of contractions take -/
theorem processTimed_ok {clock : Nat → Nat} {o : OSI} {cfg : WickCfg} {el : List EContr} {factor : Rational} {ops : OperatorProduct} {minr maxr : Int} :
    ∀ {cvs : List (List Int)} {result r : Expr} {s s' : TState}, SMap.Srt s.timers → processTimed clock o cfg el factor ops minr maxr cvs result s = (.ok r, s') →
      SMap.Srt s'.timers ∧ s'.reads = s.reads + 4 * (cvs.filter (inWindow el ops minr maxr)).length ∧
      ∀ key, timeOf s'.timers key = timeOf s.timers key +
        ((if key = "canonicalize_contraction_graph" then ∑ j ∈ Finset.range (cvs.filter (inWindow el ops minr maxr)).length, (clock (s.reads + 4 * j + 1) - clock (s.reads + 4 * j)) else 0) +
         (if key = "evaluate_contraction" then ∑ j ∈ Finset.range (cvs.filter (inWindow el ops minr maxr)).length, (clock (s.reads + 4 * j + 3) - clock (s.reads + 4 * j + 2)) else 0)) := by
  intro cvs
  induction cvs with
  | nil =>
    intro result r s s' hs h
    cases h
    exact ⟨hs, by simp, fun key => by simp⟩
  | cons cv cvs ih =>
    intro result r s s' hs h
    rw [processTimed] at h
    by_cases hw : termRank el (OperatorProduct.numOps ops) cv ≥ minr ∧ termRank el (OperatorProduct.numOps ops) cv ≤ maxr
    · have hw' : inWindow el ops minr maxr cv = true := by simp only [inWindow, decide_eq_true_eq]; exact hw
      rw [if_pos hw] at h
      split at h
      · cases h
      · rename_i b s1 h1
        obtain ⟨_, e1⟩ := timed_ok h1
        split at h
        · cases h
        · rename_i r2 s2 h2
          obtain ⟨_, e2⟩ := timed_ok h2
          split at h
          · cases h
          · rename_i c hc
            have srt1 : SMap.Srt s1.timers := by rw [e1]; exact srt_bump hs _ _
            have srt2 : SMap.Srt s2.timers := by rw [e2]; exact srt_bump srt1 _ _
            obtain ⟨i1, i2, i3⟩ := ih srt2 h
            have r2 : s2.reads = s.reads + 4 := by rw [e2, e1]
            rw [List.filter_cons_of_pos hw', List.length_cons]
            refine ⟨i1, by rw [i2, r2]; omega, fun key => ?_⟩
            rw [i3 key, r2]
            have t2 : timeOf s2.timers key = timeOf s.timers key + (if key = "canonicalize_contraction_graph" then clock (s.reads + 1) - clock s.reads else 0) +
                (if key = "evaluate_contraction" then clock (s.reads + 3) - clock (s.reads + 2) else 0) := by
              rw [e2]
              dsimp only
              rw [timeOf_bump srt1, e1]
              dsimp only
              rw [timeOf_bump hs]
            rw [t2, Finset.sum_range_succ', Finset.sum_range_succ']
            have e : ∀ j k, s.reads + 4 + 4 * j + k = s.reads + 4 * (j + 1) + k := by intro j k; omega
            have e0 : ∀ j, s.reads + 4 + 4 * j = s.reads + 4 * (j + 1) := by intro j; omega
            simp only [e, e0, Nat.mul_zero, Nat.add_zero]
            split <;> split <;> omega
    · have hw' : ¬ inWindow el ops minr maxr cv = true := by simp only [inWindow, decide_eq_true_eq]; exact hw
      rw [if_neg hw] at h
      rw [List.filter_cons_of_neg hw']
      exact ih hs h

/-- **C98**, what one call adds to the timers: with the readings of the clock numbered from `n` on, "step 1" gets the time between the first two readings, "step 2" that between the next
two, "step 3" that between reading `n + 4` and the last one, and the two timers of the contractions get one interval for every contraction in the window of ranks. All other
timers keep their values. -/
theorem C98_call_times {clock : Nat → Nat} {o : OSI} {cfg : WickCfg} {factor : Rational} {ops : OperatorProduct} {minr maxr : Int} {s s' : TState} {r : Expr}
    (hs : SMap.Srt s.timers) (h : contractTimed clock o cfg factor ops minr maxr s = (.ok r, s')) :
    ∃ el cvs, elementaryContractions o cfg ops = .ok el ∧ compositeContractions o.spaces.length ops el minr maxr = .ok cvs ∧
      SMap.Srt s'.timers ∧ s'.reads = s.reads + 6 + 4 * (cvs.filter (inWindow el ops minr maxr)).length ∧
      ∀ key, timeOf s'.timers key = timeOf s.timers key +
        ((if key = "step 1" then clock (s.reads + 1) - clock s.reads else 0) +
         (if key = "step 2" then clock (s.reads + 3) - clock (s.reads + 2) else 0) +
         (if key = "canonicalize_contraction_graph" then
            ∑ j ∈ Finset.range (cvs.filter (inWindow el ops minr maxr)).length, (clock (s.reads + 5 + 4 * j + 1) - clock (s.reads + 5 + 4 * j)) else 0) +
         (if key = "evaluate_contraction" then
            ∑ j ∈ Finset.range (cvs.filter (inWindow el ops minr maxr)).length, (clock (s.reads + 5 + 4 * j + 3) - clock (s.reads + 5 + 4 * j + 2)) else 0) +
         (if key = "step 3" then clock (s.reads + 5 + 4 * (cvs.filter (inWindow el ops minr maxr)).length) - clock (s.reads + 4) else 0)) := by
  unfold contractTimed at h
  split at h
  · cases h
  · rename_i el s1 h1
    obtain ⟨g1, e1⟩ := timed_ok h1
    split at h
    · cases h
    · rename_i cvs s2 h2
      obtain ⟨g2, e2⟩ := timed_ok h2
      have srt1 : SMap.Srt s1.timers := by rw [e1]; exact srt_bump hs _ _
      have srt2 : SMap.Srt s2.timers := by rw [e2]; exact srt_bump srt1 _ _
      have r2 : s2.reads = s.reads + 4 := by rw [e2, e1]
      split at h
      · cases h
      · rename_i r3 s3 h3
        obtain ⟨i1, i2, i3⟩ := processTimed_ok (s := ⟨s2.timers, s2.reads + 1⟩) srt2 h3
        cases h
        dsimp only at i2 i3
        rw [r2] at i2 i3
        rw [show s.reads + 4 + 1 = s.reads + 5 from rfl] at i2 i3
        refine ⟨el, cvs, g1, g2, srt_bump i1 _ _, by dsimp only; rw [i2]; omega, fun key => ?_⟩
        dsimp only
        rw [timeOf_bump i1, i3, i2, r2]
        have t2 : timeOf s2.timers key = timeOf s.timers key + (if key = "step 1" then clock (s.reads + 1) - clock s.reads else 0) +
            (if key = "step 2" then clock (s.reads + 3) - clock (s.reads + 2) else 0) := by
          rw [e2]
          dsimp only
          rw [timeOf_bump srt1, e1]
          dsimp only
          rw [timeOf_bump hs]
        rw [t2]
        omega

theorem processOne_steps (o : OSI) (cfg : WickCfg) (ops : OperatorProduct) (cs : CContr) (factor : Rational) :
    processOne o cfg ops cs factor = (do
      let b ← (if cfg.canonGraph then canonicalizeGraph o.spaces.length ops cs else pure (ops, cs, Rational.ofInt 1))
      let r ← evaluate o b.1 b.2.1 (Rational.mul factor b.2.2)
      let c ← r.1.canonicalize o
      return (c.1, Rational.mul c.2 r.2)) := by
  unfold processOne
  split <;> rfl

theorem processTimed_fst (clock : Nat → Nat) (o : OSI) (cfg : WickCfg) (el : List EContr) (factor : Rational) (ops : OperatorProduct) (minr maxr : Int) :
    ∀ (cvs : List (List Int)) (result : Expr) (s : TState), (processTimed clock o cfg el factor ops minr maxr cvs result s).1 =
      cvs.foldlM (init := result) (fun result cv => do
        let rank := termRank el (OperatorProduct.numOps ops) cv
        if rank ≥ minr ∧ rank ≤ maxr then do
          let r ← processOne o cfg ops (pick el cv) factor
          return Lin.add result r.1 r.2
        else return result : Expr → List Int → Res Expr) := by
  intro cvs
  induction cvs with
  | nil => intro result s; rfl
  | cons cv cvs ih =>
    intro result s
    rw [processTimed, List.foldlM_cons]
    dsimp only
    split
    · have hg := timed_fst clock "canonicalize_contraction_graph".toList
          (if cfg.canonGraph then canonicalizeGraph o.spaces.length ops (pick el cv) else pure (ops, pick el cv, Rational.ofInt 1)) s
      rw [processOne_steps]
      split
      · rename_i f s1 h1
        rw [h1] at hg
        rw [← hg]; rfl
      · rename_i b s1 h1
        rw [h1] at hg
        rw [← hg]
        have he := timed_fst clock "evaluate_contraction".toList (evaluate o b.1 b.2.1 (Rational.mul factor b.2.2)) s1
        simp only [bind, Except.bind]
        split
        · rename_i f s2 h2
          rw [h2] at he
          rw [← he]
        · rename_i r s2 h2
          rw [h2] at he
          rw [← he]
          dsimp only
          cases hc : r.1.canonicalize o with
          | error f => rfl
          | ok c => exact ih _ s2
    · exact ih result s

/-- **C98**, measuring does not change results: whatever the clock and the times measured so far, the call gives what `contract` gives -/
theorem C98_same_result (clock : Nat → Nat) (o : OSI) (cfg : WickCfg) (hcfg : cfg.singleThreaded = true) (factor : Rational) (e : OpExpr) (minr maxr : Int) (s : TState) :
    (contractExprTimed clock o cfg factor minr maxr e [] s).1 = contractExpr o cfg factor e minr maxr := by
  have h1 : ∀ (factor : Rational) (ops : OperatorProduct) (s : TState), (contractTimed clock o cfg factor ops minr maxr s).1 = contract o cfg factor ops minr maxr := by
    intro factor ops s
    unfold contractTimed contract
    have h1 := timed_fst clock "step 1".toList (elementaryContractions o cfg ops) s
    split
    · rename_i f s1 g1
      rw [g1] at h1
      rw [← h1]; rfl
    · rename_i el s1 g1
      rw [g1] at h1
      rw [← h1]
      have h2 := timed_fst clock "step 2".toList (compositeContractions o.spaces.length ops el minr maxr) s1
      simp only [bind, Except.bind]
      split
      · rename_i f s2 g2
        rw [g2] at h2
        rw [← h2]
      · rename_i cvs s2 g2
        rw [g2] at h2
        rw [← h2]
        have h3 := processTimed_fst clock o cfg el factor ops minr maxr cvs [] ⟨s2.timers, s2.reads + 1⟩
        dsimp only
        rw [if_pos hcfg]
        unfold processContractions
        rw [← h3]
        split <;> rename_i g3 <;> rw [g3]
  have h2 : ∀ (e : OpExpr) (result : Expr) (s : TState), (contractExprTimed clock o cfg factor minr maxr e result s).1 =
      e.foldlM (init := result) (fun result p => do
        let r ← contract o cfg (Rational.mul factor p.2) p.1 minr maxr
        return Lin.plus result r : Expr → OperatorProduct × Rational → Res Expr) := by
    intro e
    induction e with
    | nil => intro result s; rfl
    | cons p e ih =>
      intro result s
      rw [contractExprTimed, List.foldlM_cons]
      have h3 := h1 (Rational.mul factor p.2) p.1 s
      split
      · rename_i f s1 g1
        rw [g1] at h3
        rw [← h3]; rfl
      · rename_i r s1 g1
        rw [g1] at h3
        rw [← h3]
        exact ih _ _
  exact h2 e [] s

theorem intervals {clock : Nat → Nat} (hm : Monotone clock) (n N : Nat) :
    (∑ j ∈ Finset.range N, (clock (n + 4 * j + 1) - clock (n + 4 * j))) + (∑ j ∈ Finset.range N, (clock (n + 4 * j + 3) - clock (n + 4 * j + 2))) ≤ clock (n + 4 * N) - clock n := by
  induction N with
  | zero => simp
  | succ N ih =>
    rw [Finset.sum_range_succ, Finset.sum_range_succ]
    have a1 := hm (by omega : n ≤ n + 4 * N)
    have a2 := hm (by omega : n + 4 * N ≤ n + 4 * N + 1)
    have a3 := hm (by omega : n + 4 * N + 1 ≤ n + 4 * N + 2)
    have a4 := hm (by omega : n + 4 * N + 2 ≤ n + 4 * N + 3)
    have a5 := hm (by omega : n + 4 * N + 3 ≤ n + 4 * (N + 1))
    omega

/-- **C98**, the timers of a history of returned calls: the time for the contractions is a part of the time of step 3, and the three steps together take no more than the time
that has passed -/
theorem C98_history {clock : Nat → Nat} (hm : Monotone clock) {l : List TimedCall} {s : TState} (h : TimedHistory clock ⟨[], 0⟩ l s) :
    timeOf s.timers "canonicalize_contraction_graph" + timeOf s.timers "evaluate_contraction" ≤ timeOf s.timers "step 3" ∧
    timeOf s.timers "step 1" + timeOf s.timers "step 2" + timeOf s.timers "step 3" ≤ clock s.reads - clock 0 := by
  let P : TState → Prop := fun s => SMap.Srt s.timers ∧ timeOf s.timers "canonicalize_contraction_graph" + timeOf s.timers "evaluate_contraction" ≤ timeOf s.timers "step 3" ∧
    timeOf s.timers "step 1" + timeOf s.timers "step 2" + timeOf s.timers "step 3" ≤ clock s.reads - clock 0
  have one : ∀ {o cfg factor ops minr maxr r} {s s' : TState}, P s → contractTimed clock o cfg factor ops minr maxr s = (.ok r, s') → P s' := by
    intro o cfg factor ops minr maxr r s s' ⟨p1, p2, p3⟩ h
    obtain ⟨el, cvs, _, _, i1, i2, i3⟩ := C98_call_times p1 h
    generalize (cvs.filter (inWindow el ops minr maxr)).length = N at i2 i3
    have hi := intervals hm (s.reads + 5) N
    have a0 := hm (Nat.zero_le s.reads)
    have a1 := hm (by omega : s.reads ≤ s.reads + 1)
    have a2 := hm (by omega : s.reads + 1 ≤ s.reads + 2)
    have a3 := hm (by omega : s.reads + 2 ≤ s.reads + 3)
    have a4 := hm (by omega : s.reads + 3 ≤ s.reads + 4)
    have a5 := hm (by omega : s.reads + 4 ≤ s.reads + 5)
    have a6 := hm (by omega : s.reads + 5 ≤ s.reads + 5 + 4 * N)
    have a7 := hm (by omega : s.reads + 5 + 4 * N ≤ s'.reads)
    refine ⟨i1, ?_, ?_⟩
    · rw [i3, i3, i3]
      simp only [String.reduceEq, if_true, if_false, Nat.zero_add, Nat.add_zero]
      omega
    · rw [i3, i3, i3]
      simp only [String.reduceEq, if_true, if_false, Nat.zero_add, Nat.add_zero]
      omega
  have many : ∀ {o cfg factor minr maxr r} (e : OpExpr) {result : Expr} {s s' : TState}, P s → contractExprTimed clock o cfg factor minr maxr e result s = (.ok r, s') → P s' := by
    intro o cfg factor minr maxr r e
    induction e with
    | nil => intro result s s' p h; cases h; exact p
    | cons q e ih =>
      intro result s s' p h
      rw [contractExprTimed] at h
      split at h
      · cases h
      · rename_i r1 s1 h1
        exact ih (one p h1) h
  have hist : ∀ {s s' : TState} {l : List TimedCall}, TimedHistory clock s l s' → P s → P s' := by
    intro s s' l h
    induction h with
    | nil s => exact id
    | call r h1 _ ih => exact fun p => ih (many _ p h1)
  exact (hist h ⟨by simp [SMap.Srt], by simp [timeOf, SMap.find], by simp [timeOf, SMap.find]⟩).2

/-! ## Several threads -/

theorem measuredTime_append (l : List (String × Nat)) (k key : String) (d : Nat) : measuredTime (l ++ [(k, d)]) key = measuredTime l key + if key = k then d else 0 := by
  unfold measuredTime
  rw [List.filter_append, List.map_append, List.sum_append]
  congr 1
  by_cases h : k = key
  · simp [h]
  · simp [h, Ne.symm h]

theorem measured_reach {J : Job} {s0 s1 s2 : PState} {l : List (String × Nat)} (h : Reach J s0 s1) (hm : Measured J s1 s2 l) : Reach J s0 s2 := by
  induction hm with
  | start => exact h
  | graph i d b old t' sh' _ ht hs he ih => rw [he]; exact Reach.step ih (Step.task _ i d _ t' sh' ht hs)
  | evaluation i d r old t' sh' _ ht hs he ih => rw [he]; exact Reach.step ih (Step.task _ i d _ t' sh' ht hs)
  | other _ hs _ _ ih => exact Reach.step ih hs

theorem measured_trans {J : Job} {s0 s1 s2 : PState} {l l' : List (String × Nat)} (h : Measured J s0 s1 l) (h' : Measured J s1 s2 l') : Measured J s0 s2 (l ++ l') := by
  induction h' with
  | start => rw [List.append_nil]; exact h
  | graph i d b old t' sh' _ ht hs he ih => rw [← List.append_assoc]; exact Measured.graph i d b old t' sh' ih ht hs he
  | evaluation i d r old t' sh' _ ht hs he ih => rw [← List.append_assoc]; exact Measured.evaluation i d r old t' sh' ih ht hs he
  | other _ hs h1 h2 ih => exact Measured.other ih hs h1 h2

theorem set_keeps {tasks : List TaskPc} {i : Nat} {t t' : TaskPc} (ht : tasks[i]? = some t) {j : Nat} {x : TaskPc} (hx : t ≠ x) (hj : tasks[j]? = some x) : (tasks.set i t')[j]? = some x := by
  by_cases hij : i = j
  · subst hij; rw [ht] at hj; cases hj; exact absurd rfl hx
  · rw [List.getElem?_set_ne hij]; exact hj

/-- every step is a step of a run with measurements -/
theorem measured_step {J : Job} {s0 s s' : PState} {l : List (String × Nat)} (h : Measured J s0 s l) (hs : Step J s s') : ∃ l', Measured J s0 s' (l ++ l') := by
  have same : s'.tasks = s.tasks → ∃ l', Measured J s0 s' (l ++ l') := by
    intro e
    exact ⟨[], by rw [List.append_nil]; exact Measured.other h hs (fun i b old hi => by rw [e]; exact hi) (fun i r old hi => by rw [e]; exact hi)⟩
  have hs0 := hs
  cases hs with
  | launch hm hl =>
    suffices hm : Measured J s0 _ l from ⟨[], by rw [List.append_nil]; exact hm⟩
    refine Measured.other h hs0 ?_ ?_
    · intro i b old hi
      rw [List.getElem?_append_left (by by_contra hn; rw [List.getElem?_eq_none (by omega)] at hi; cases hi)]; exact hi
    · intro i b old hi
      rw [List.getElem?_append_left (by by_contra hn; rw [List.getElem?_eq_none (by omega)] at hi; cases hi)]; exact hi
  | launchFail hm hl => exact same rfl
  | launched hm hl => exact same rfl
  | get j acc e hm ht => exact same rfl
  | getThrow j acc f hm ht => exact same rfl
  | ret acc hm => exact same rfl
  | unwound f hm ha => exact same rfl
  | task i d t t' sh' ht hst =>
    by_cases h1 : ∃ b old, t = .timer1 b old
    · obtain ⟨b, old, rfl⟩ := h1
      exact ⟨_, Measured.graph i d b old t' sh' h ht hst rfl⟩
    · by_cases h2 : ∃ r old, t = .timer2 r old
      · obtain ⟨r, old, rfl⟩ := h2
        exact ⟨_, Measured.evaluation i d r old t' sh' h ht hst rfl⟩
      · suffices hm : Measured J s0 _ l from ⟨[], by rw [List.append_nil]; exact hm⟩
        refine Measured.other h hs0 ?_ ?_
        · intro j b old hj
          exact set_keeps ht (fun e => h1 ⟨b, old, e⟩) hj
        · intro j b old hj
          exact set_keeps ht (fun e => h2 ⟨b, old, e⟩) hj

theorem lt_of_some {α : Type} {l : List α} {i : Nat} {x : α} (h : l[i]? = some x) : i < l.length := by
  by_contra hn; rw [List.getElem?_eq_none (by omega)] at h; cases h

/-- no task has read a timer that it has not yet written -/
def NoPending (s : PState) : Prop := ∀ (i : Nat) (t : TaskPc), s.tasks[i]? = some t → (∀ b old, t ≠ .timer1 b old) ∧ ∀ r old, t ≠ .timer2 r old

/-- what a step that stores no time does to the timers and to the tasks about to store one -/
theorem other_step {J : Job} {s s' : PState} (hs : Step J s s')
    (h1 : ∀ (i : Nat) (b : OperatorProduct × CContr × Rational) (old : Nat), s.tasks[i]? = some (TaskPc.timer1 b old) → s'.tasks[i]? = some (TaskPc.timer1 b old))
    (h2 : ∀ (i : Nat) (r : STerm × Rational) (old : Nat), s.tasks[i]? = some (TaskPc.timer2 r old) → s'.tasks[i]? = some (TaskPc.timer2 r old)) :
    s'.shared.timers = s.shared.timers ∧
    (∀ (i : Nat) (b : OperatorProduct × CContr × Rational) (old : Nat), s'.tasks[i]? = some (TaskPc.timer1 b old) → s.tasks[i]? = some (TaskPc.timer1 b old) ∨ old = timeOf s.shared.timers "canonicalize_contraction_graph") ∧
    (∀ (i : Nat) (r : STerm × Rational) (old : Nat), s'.tasks[i]? = some (TaskPc.timer2 r old) → s.tasks[i]? = some (TaskPc.timer2 r old) ∨ old = timeOf s.shared.timers "evaluate_contraction") := by
  cases hs with
  | launch hm hl =>
    refine ⟨rfl, fun i b old h => ?_, fun i b old h => ?_⟩
    all_goals
      left
      by_cases hi : i < s.tasks.length
      · rwa [List.getElem?_append_left hi] at h
      · rw [List.getElem?_append_right (by omega)] at h
        by_cases h0 : i - s.tasks.length = 0
        · rw [h0] at h; cases h
        · rw [List.getElem?_eq_none (by simp; omega)] at h; cases h
  | launchFail hm hl => exact ⟨rfl, fun i b old h => .inl h, fun i b old h => .inl h⟩
  | launched hm hl => exact ⟨rfl, fun i b old h => .inl h, fun i b old h => .inl h⟩
  | get j acc e hm ht => exact ⟨rfl, fun i b old h => .inl h, fun i b old h => .inl h⟩
  | getThrow j acc f hm ht => exact ⟨rfl, fun i b old h => .inl h, fun i b old h => .inl h⟩
  | ret acc hm => exact ⟨rfl, fun i b old h => .inl h, fun i b old h => .inl h⟩
  | unwound f hm ha => exact ⟨rfl, fun i b old h => .inl h, fun i b old h => .inl h⟩
  | task i d t t' sh' ht hst =>
    have hlt : i < s.tasks.length := by
      by_contra hn
      rw [List.getElem?_eq_none (by omega)] at ht; cases ht
    have key : sh'.timers = s.shared.timers ∧ (∀ b old, t' = .timer1 b old → old = timeOf s.shared.timers "canonicalize_contraction_graph") ∧
        (∀ r old, t' = .timer2 r old → old = timeOf s.shared.timers "evaluate_contraction") := by
      cases t with
      | start =>
        simp only [taskStep] at hst
        split at hst
        · split at hst <;> cases hst <;> exact ⟨rfl, (fun b old e => by cases e), (fun b old e => by cases e)⟩
        · cases hst; exact ⟨rfl, (fun b old e => by cases e), (fun b old e => by cases e)⟩
      | graph b =>
        cases hst
        exact ⟨rfl, (fun b old e => by cases e; rfl), (fun b old e => by cases e)⟩
      | timer1 b old =>
        cases hst
        have := h1 i b old ht
        simp only [List.getElem?_set_self hlt] at this
        cases this
      | eval b =>
        simp only [taskStep] at hst
        split at hst <;> cases hst <;> exact ⟨rfl, (fun b old e => by cases e), (fun b old e => by cases e)⟩
      | done2 r =>
        cases hst
        exact ⟨rfl, (fun b old e => by cases e), (fun b old e => by cases e; rfl)⟩
      | timer2 r old =>
        cases hst
        have := h2 i r old ht
        simp only [List.getElem?_set_self hlt] at this
        cases this
      | canon r =>
        simp only [taskStep] at hst
        split at hst <;> cases hst <;> exact ⟨rfl, (fun b old e => by cases e), (fun b old e => by cases e)⟩
      | finished r => cases hst
    refine ⟨key.1, fun j b old h => ?_, fun j b old h => ?_⟩
    · by_cases hij : i = j
      · subst hij
        simp only [List.getElem?_set_self hlt, Option.some.injEq] at h
        exact .inr (key.2.1 b old h)
      · simp only [List.getElem?_set_ne hij] at h
        exact .inl h
    · by_cases hij : i = j
      · subst hij
        simp only [List.getElem?_set_self hlt, Option.some.injEq] at h
        exact .inr (key.2.2 b old h)
      · simp only [List.getElem?_set_ne hij] at h
        exact .inl h

/-- **C98**, several threads: under every schedule a timer gains at most the sum of the times measured for it, and loses nothing of what it had before -/
theorem C98_threads_bounds_partial {J : Job} {s0 s : PState} {l : List (String × Nat)} (hsrt : SMap.Srt s0.shared.timers) (h0 : NoPending s0) (h : Measured J s0 s l) (key : String) :
    timeOf s0.shared.timers key ≤ timeOf s.shared.timers key ∧ timeOf s.shared.timers key ≤ timeOf s0.shared.timers key + measuredTime l key := by
  have inv : SMap.Srt s.shared.timers ∧
      (∀ key, timeOf s0.shared.timers key ≤ timeOf s.shared.timers key ∧ timeOf s.shared.timers key ≤ timeOf s0.shared.timers key + measuredTime l key) ∧
      (∀ (i : Nat) (b : OperatorProduct × CContr × Rational) (old : Nat), s.tasks[i]? = some (TaskPc.timer1 b old) → timeOf s0.shared.timers "canonicalize_contraction_graph" ≤ old ∧
        old ≤ timeOf s0.shared.timers "canonicalize_contraction_graph" + measuredTime l "canonicalize_contraction_graph") ∧
      (∀ (i : Nat) (r : STerm × Rational) (old : Nat), s.tasks[i]? = some (TaskPc.timer2 r old) → timeOf s0.shared.timers "evaluate_contraction" ≤ old ∧
        old ≤ timeOf s0.shared.timers "evaluate_contraction" + measuredTime l "evaluate_contraction") := by
    induction h with
    | start => exact ⟨hsrt, fun key => by simp, fun i b old hi => absurd rfl ((h0 i _ hi).1 b old), fun i b old hi => absurd rfl ((h0 i _ hi).2 b old)⟩
    | graph i d b old t' sh' _ ht hs he ih =>
      obtain ⟨i1, i2, i3, i4⟩ := ih
      cases hs
      rw [he]
      have hb := i3 i b old ht
      refine ⟨SMap.srt_insert i1, fun key => ?_, fun j b' old' hj => ?_, fun j b' old' hj => ?_⟩
      · have hk := i2 key
        rw [measuredTime_append]
        unfold timeOf at hk ⊢
        dsimp only
        rw [find_insert_str i1]
        by_cases e : key = "canonicalize_contraction_graph"
        · subst e
          rw [if_pos (show key1 = "canonicalize_contraction_graph".toList from rfl), if_pos rfl]
          unfold timeOf at hb
          simp only [Option.getD_some]
          omega
        · rw [if_neg (fun h : key1 = key.toList => e (toList_inj.1 h).symm), if_neg e]
          omega
      · rw [measuredTime_append, if_pos rfl]
        by_cases hij : i = j
        · subst hij
          simp only [List.getElem?_set_self (lt_of_some ht)] at hj
          cases hj
        · simp only [List.getElem?_set_ne hij] at hj
          have := i3 j b' old' hj
          omega
      · rw [measuredTime_append, if_neg (by decide)]
        by_cases hij : i = j
        · subst hij
          simp only [List.getElem?_set_self (lt_of_some ht)] at hj
          cases hj
        · simp only [List.getElem?_set_ne hij] at hj
          have := i4 j b' old' hj
          omega
    | evaluation i d b old t' sh' _ ht hs he ih =>
      obtain ⟨i1, i2, i3, i4⟩ := ih
      cases hs
      rw [he]
      have hb := i4 i b old ht
      refine ⟨SMap.srt_insert i1, fun key => ?_, fun j b' old' hj => ?_, fun j b' old' hj => ?_⟩
      · have hk := i2 key
        rw [measuredTime_append]
        unfold timeOf at hk ⊢
        dsimp only
        rw [find_insert_str i1]
        by_cases e : key = "evaluate_contraction"
        · subst e
          rw [if_pos (show key2 = "evaluate_contraction".toList from rfl), if_pos rfl]
          unfold timeOf at hb
          simp only [Option.getD_some]
          omega
        · rw [if_neg (fun h : key2 = key.toList => e (toList_inj.1 h).symm), if_neg e]
          omega
      · rw [measuredTime_append, if_neg (by decide)]
        by_cases hij : i = j
        · subst hij
          simp only [List.getElem?_set_self (lt_of_some ht)] at hj
          cases hj
        · simp only [List.getElem?_set_ne hij] at hj
          have := i3 j b' old' hj
          omega
      · rw [measuredTime_append, if_pos rfl]
        by_cases hij : i = j
        · subst hij
          simp only [List.getElem?_set_self (lt_of_some ht)] at hj
          cases hj
        · simp only [List.getElem?_set_ne hij] at hj
          have := i4 j b' old' hj
          omega
    | other _ hs h1 h2 ih =>
      obtain ⟨i1, i2, i3, i4⟩ := ih
      obtain ⟨e1, e2, e3⟩ := other_step hs h1 h2
      rw [e1]
      refine ⟨i1, i2, fun i b old hi => ?_, fun i b old hi => ?_⟩
      · rcases e2 i b old hi with h | rfl
        · exact i3 i b old h
        · exact i2 _
      · rcases e3 i b old hi with h | rfl
        · exact i4 i b old h
        · exact i2 _
  exact inv.2.1 key

/-- a run with measurements from any reachable state to the end of the call -/
theorem measured_return {J : Job} {el : List EContr} {cvs : List (List Int)} {timers : SMap Str Nat} {s1 : PState} (h : Reach J (PState.init el cvs timers) s1) :
    ∃ s l r, Measured J s1 s l ∧ s.main = .returned r ∧ s.launchFailed = s1.launchFailed := by
  have key : ∀ n (s : PState) (l : List (String × Nat)), s.todo = n → Measured J s1 s l → ∃ s' l' r, Measured J s1 s' l' ∧ s'.main = .returned r ∧ s'.launchFailed = s.launchFailed := by
    intro n
    induction n using Nat.strong_induction_on with
    | _ n ih =>
      intro s l hn hm
      have hr := measured_reach h hm
      rcases C45_progress hr with ⟨r, hmain⟩ | ⟨s2, h1, h2⟩
      · exact ⟨s, l, r, hm, hmain, rfl⟩
      · obtain ⟨l', hm'⟩ := measured_step hm h1
        obtain ⟨s', l'', r, h3, h4, h5⟩ := ih s2.todo (by rw [← hn]; exact C45_terminates hr h1) s2 _ rfl hm'
        exact ⟨s', l'', r, h3, h4, by rw [h5, h2]⟩
  exact key _ s1 [] rfl Measured.start

theorem measuredTime_concat (l l' : List (String × Nat)) (key : String) : measuredTime (l ++ l') key = measuredTime l key + measuredTime l' key := by
  unfold measuredTime
  rw [List.filter_append, List.map_append, List.sum_append]

/-- **C98**, negation for several threads: whenever two contractions lie in the window of ranks (and their graphs can be canonicalized), there is a schedule in which the call
returns and the timer has lost an arbitrarily large part `d` of the measured time -/
theorem C98_lost_update {J : Job} {el : List EContr} {c0 c1 : List Int} {cvs : List (List Int)} {timers : SMap Str Nat} (hsrt : SMap.Srt timers)
    (h0 : inWindow el J.ops J.minrank J.maxrank c0 = true) (h1 : inWindow el J.ops J.minrank J.maxrank c1 = true)
    {b0 b1} (g0 : bestGraph J.o J.cfg J.ops (pick el c0) = .ok b0) (g1 : bestGraph J.o J.cfg J.ops (pick el c1) = .ok b1) (d : Nat) :
    ∃ s l r, Measured J (PState.init el (c0 :: c1 :: cvs) timers) s l ∧ s.main = .returned r ∧ s.launchFailed = false ∧
      timeOf s.shared.timers "canonicalize_contraction_graph" + d ≤ timeOf timers "canonicalize_contraction_graph" + measuredTime l "canonicalize_contraction_graph" := by
  have st : ∀ (i : Nat) (b : OperatorProduct × CContr × Rational) (sh : Shared),
      sh.el = el → inWindow el J.ops J.minrank J.maxrank (sh.cvs.getD i []) = true →
      bestGraph J.o J.cfg J.ops (pick el (sh.cvs.getD i [])) = .ok b →
      taskStep J sh i 0 .start = some (.graph b, sh) := by
    intro i b sh he hw hb
    subst he
    simp only [inWindow, decide_eq_true_eq] at hw
    simp only [taskStep]
    rw [if_pos hw]
    unfold bestGraph at hb
    rw [hb]
  let sh : Shared := ⟨el, c0 :: c1 :: cvs, timers⟩
  let old := timeOf timers "canonicalize_contraction_graph"
  let sh1 : Shared := { sh with timers := timers.insert key1 (old + d) }
  let sh2 : Shared := { sh with timers := (timers.insert key1 (old + d)).insert key1 (old + 0) }
  have nope : ∀ {tasks : List TaskPc} {tasks' : List TaskPc}, (∀ t ∈ tasks, (∀ b old, t ≠ .timer1 b old) ∧ ∀ r old, t ≠ .timer2 r old) →
      (∀ (i : Nat) (b : OperatorProduct × CContr × Rational) (old : Nat), tasks[i]? = some (TaskPc.timer1 b old) → tasks'[i]? = some (TaskPc.timer1 b old)) ∧
      (∀ (i : Nat) (r : STerm × Rational) (old : Nat), tasks[i]? = some (TaskPc.timer2 r old) → tasks'[i]? = some (TaskPc.timer2 r old)) := by
    intro tasks tasks' hn
    exact ⟨fun i b old hi => absurd rfl ((hn _ (List.mem_of_getElem? hi)).1 b old), fun i b old hi => absurd rfl ((hn _ (List.mem_of_getElem? hi)).2 b old)⟩
  have r1 : Measured J (PState.init el (c0 :: c1 :: cvs) timers) ⟨sh, [.start], .launching, false⟩ [] :=
    Measured.other Measured.start (Step.launch _ rfl (by simp [PState.init])) (nope (by simp [PState.init])).1 (nope (by simp [PState.init])).2
  have r2 : Measured J (PState.init el (c0 :: c1 :: cvs) timers) ⟨sh, [.start, .start], .launching, false⟩ [] :=
    Measured.other r1 (Step.launch _ rfl (by simp [sh])) (nope (by simp)).1 (nope (by simp)).2
  have r3 : Measured J (PState.init el (c0 :: c1 :: cvs) timers) ⟨sh, [.graph b0, .start], .launching, false⟩ [] :=
    Measured.other r2 (Step.task _ 0 0 .start (.graph b0) sh rfl (st 0 b0 sh rfl h0 g0)) (nope (by simp)).1 (nope (by simp)).2
  have r4 : Measured J (PState.init el (c0 :: c1 :: cvs) timers) ⟨sh, [.graph b0, .graph b1], .launching, false⟩ [] :=
    Measured.other r3 (Step.task _ 1 0 .start (.graph b1) sh rfl (st 1 b1 sh rfl h1 g1)) (nope (by simp)).1 (nope (by simp)).2
  have r5 : Measured J (PState.init el (c0 :: c1 :: cvs) timers) ⟨sh, [.timer1 b0 old, .graph b1], .launching, false⟩ [] :=
    Measured.other r4 (Step.task _ 0 0 (.graph b0) (.timer1 b0 old) sh rfl rfl) (nope (by simp)).1 (nope (by simp)).2
  have r6 : Measured J (PState.init el (c0 :: c1 :: cvs) timers) ⟨sh, [.timer1 b0 old, .timer1 b1 old], .launching, false⟩ [] := by
    refine Measured.other r5 (Step.task _ 1 0 (.graph b1) (.timer1 b1 old) sh rfl rfl) ?_ ?_
    · intro i b o hi
      match i, hi with
      | 0, hi => exact hi
      | 1, hi => cases hi
      | i + 2, hi => simp at hi
    · intro i b o hi
      match i, hi with
      | 0, hi => cases hi
      | 1, hi => cases hi
      | i + 2, hi => simp at hi
  have r7 : Measured J (PState.init el (c0 :: c1 :: cvs) timers) ⟨sh1, [.eval b0, .timer1 b1 old], .launching, false⟩ [("canonicalize_contraction_graph", d)] :=
    Measured.graph 0 d b0 old (.eval b0) sh1 r6 rfl rfl rfl
  have r8 : Measured J (PState.init el (c0 :: c1 :: cvs) timers) ⟨sh2, [.eval b0, .eval b1], .launching, false⟩ [("canonicalize_contraction_graph", d), ("canonicalize_contraction_graph", 0)] :=
    Measured.graph 1 0 b1 old (.eval b1) sh2 r7 rfl rfl rfl
  obtain ⟨s, l, r, hm, hmain, hf⟩ := measured_return (measured_reach Reach.refl r8)
  refine ⟨s, _, r, measured_trans r8 hm, hmain, hf, ?_⟩
  have hs2 : SMap.Srt sh2.timers := SMap.srt_insert (SMap.srt_insert hsrt)
  have hb := (C98_threads_bounds_partial hs2 (s0 := ⟨sh2, [.eval b0, .eval b1], .launching, false⟩) (by
    intro i t hi
    match i, hi with
    | 0, hi => cases hi; exact ⟨(fun _ _ e => by cases e), (fun _ _ e => by cases e)⟩
    | 1, hi => cases hi; exact ⟨(fun _ _ e => by cases e), (fun _ _ e => by cases e)⟩
    | i + 2, hi => simp at hi) hm "canonicalize_contraction_graph").2
  have ht : timeOf sh2.timers "canonicalize_contraction_graph" = old := by
    show ((((timers.insert key1 (old + d)).insert key1 (old + 0)).find "canonicalize_contraction_graph".toList).getD 0) = old
    rw [find_insert_str (SMap.srt_insert hsrt), if_pos (show key1 = "canonicalize_contraction_graph".toList from rfl)]
    rfl
  dsimp only at hb
  rw [ht] at hb
  rw [measuredTime_concat]
  have : measuredTime [("canonicalize_contraction_graph", d), ("canonicalize_contraction_graph", 0)] "canonicalize_contraction_graph" = d := by simp [measuredTime]
  rw [this]
  show _ ≤ old + _
  omega

/-- **C98**, with at most one contraction nothing is lost: under every schedule the timers gain exactly the measured times -/
theorem C98_single_task_partial {J : Job} {el : List EContr} {cvs : List (List Int)} {timers : SMap Str Nat} (hsrt : SMap.Srt timers) (h1 : cvs.length ≤ 1)
    {s : PState} {l : List (String × Nat)} (h : Measured J (PState.init el cvs timers) s l) (key : String) :
    timeOf s.shared.timers key = timeOf timers key + measuredTime l key := by
  have inv : SMap.Srt s.shared.timers ∧ (∀ key, timeOf s.shared.timers key = timeOf timers key + measuredTime l key) ∧
      (∀ (i : Nat) (b : OperatorProduct × CContr × Rational) (old : Nat), s.tasks[i]? = some (TaskPc.timer1 b old) → old = timeOf s.shared.timers "canonicalize_contraction_graph") ∧
      (∀ (i : Nat) (r : STerm × Rational) (old : Nat), s.tasks[i]? = some (TaskPc.timer2 r old) → old = timeOf s.shared.timers "evaluate_contraction") := by
    induction h with
    | start => exact ⟨hsrt, fun key => by simp [PState.init, measuredTime], fun i b old hi => by simp [PState.init] at hi, fun i b old hi => by simp [PState.init] at hi⟩
    | @graph s s' l i d b old t' sh' hm ht hs he ih =>
      obtain ⟨i1, i2, i3, i4⟩ := ih
      have hlen := (inv_reach (measured_reach Reach.refl hm)).len
      have hlt : i < s.tasks.length := by by_contra hn; rw [List.getElem?_eq_none (by omega)] at ht; cases ht
      have only : ∀ (j : Nat) (x : TaskPc), (s.tasks.set i t')[j]? = some x → x = t' := by
        intro j x hj
        have hjl : j < s.tasks.length := by
          by_contra hn
          rw [List.getElem?_eq_none (by simp; omega)] at hj; cases hj
        have : j = i := by omega
        subst this
        rw [List.getElem?_set_self hlt] at hj
        exact (Option.some.inj hj).symm
      cases hs
      rw [he]
      have hb := i3 i b old ht
      refine ⟨SMap.srt_insert i1, fun key => ?_, fun j b' old' hj => (by cases only j _ hj), fun j b' old' hj => (by cases only j _ hj)⟩
      have hk := i2 key
      rw [measuredTime_append]
      unfold timeOf at hk hb ⊢
      dsimp only
      rw [find_insert_str i1]
      by_cases e : key = "canonicalize_contraction_graph"
      · subst e
        rw [if_pos (show key1 = "canonicalize_contraction_graph".toList from rfl), if_pos rfl]
        simp only [Option.getD_some]
        omega
      · rw [if_neg (fun h : key1 = key.toList => e (toList_inj.1 h).symm), if_neg e]
        omega
    | @evaluation s s' l i d b old t' sh' hm ht hs he ih =>
      obtain ⟨i1, i2, i3, i4⟩ := ih
      have hlen := (inv_reach (measured_reach Reach.refl hm)).len
      have hlt : i < s.tasks.length := by by_contra hn; rw [List.getElem?_eq_none (by omega)] at ht; cases ht
      have only : ∀ (j : Nat) (x : TaskPc), (s.tasks.set i t')[j]? = some x → x = t' := by
        intro j x hj
        have hjl : j < s.tasks.length := by
          by_contra hn
          rw [List.getElem?_eq_none (by simp; omega)] at hj; cases hj
        have : j = i := by omega
        subst this
        rw [List.getElem?_set_self hlt] at hj
        exact (Option.some.inj hj).symm
      cases hs
      rw [he]
      have hb := i4 i b old ht
      refine ⟨SMap.srt_insert i1, fun key => ?_, fun j b' old' hj => (by cases only j _ hj), fun j b' old' hj => (by cases only j _ hj)⟩
      have hk := i2 key
      rw [measuredTime_append]
      unfold timeOf at hk hb ⊢
      dsimp only
      rw [find_insert_str i1]
      by_cases e : key = "evaluate_contraction"
      · subst e
        rw [if_pos (show key2 = "evaluate_contraction".toList from rfl), if_pos rfl]
        simp only [Option.getD_some]
        omega
      · rw [if_neg (fun h : key2 = key.toList => e (toList_inj.1 h).symm), if_neg e]
        omega
    | other _ hs h1 h2 ih =>
      obtain ⟨i1, i2, i3, i4⟩ := ih
      obtain ⟨e1, e2, e3⟩ := other_step hs h1 h2
      rw [e1]
      refine ⟨i1, i2, fun i b old hi => ?_, fun i b old hi => ?_⟩
      · rcases e2 i b old hi with h | h
        · exact i3 i b old h
        · exact h
      · rcases e3 i b old hi with h | h
        · exact i4 i b old h
        · exact h
  exact inv.2.1 key

/-! ## Instances -/

-- a history of one call on f·t: all contractions are measured, with a clock that shows the number of the reading
example : ∃ s, TimedHistory id ⟨[], 0⟩ [⟨exSR, { singleThreaded := true }, Rational.ofInt 1, [(exJob.ops, Rational.ofInt 1)], 0, 4⟩] s ∧
    timeOf s.timers "step 1" = 1 ∧ timeOf s.timers "evaluate_contraction" = 4 ∧ timeOf s.timers "step 3" = 17 := by
  have h : (contractExprTimed id exSR { singleThreaded := true } (Rational.ofInt 1) 0 4 [(exJob.ops, Rational.ofInt 1)] [] ⟨[], 0⟩).1.toOption.isSome = true := by decide +kernel
  have h2 : timeOf (contractExprTimed id exSR { singleThreaded := true } (Rational.ofInt 1) 0 4 [(exJob.ops, Rational.ofInt 1)] [] ⟨[], 0⟩).2.timers "step 1" = 1 ∧
      timeOf (contractExprTimed id exSR { singleThreaded := true } (Rational.ofInt 1) 0 4 [(exJob.ops, Rational.ofInt 1)] [] ⟨[], 0⟩).2.timers "evaluate_contraction" = 4 ∧
      timeOf (contractExprTimed id exSR { singleThreaded := true } (Rational.ofInt 1) 0 4 [(exJob.ops, Rational.ofInt 1)] [] ⟨[], 0⟩).2.timers "step 3" = 17 := by decide +kernel
  cases hr : contractExprTimed id exSR { singleThreaded := true } (Rational.ofInt 1) 0 4 [(exJob.ops, Rational.ofInt 1)] [] ⟨[], 0⟩ with
  | mk r s =>
    rw [hr] at h h2
    cases r with
    | error f => cases h
    | ok r => exact ⟨s, TimedHistory.call r hr (TimedHistory.nil _), h2⟩
end Wick
end Wicked
