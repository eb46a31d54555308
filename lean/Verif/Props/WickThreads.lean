import Verif.Model.Threads
import Verif.Proofs.WickProc
import Verif.Props.Wick
/-! # C45, C46: the threaded contraction -/
namespace Wicked
open CppLt CppEq Rational
namespace Wick

/-! ## Invariant -/

/-- task number `i` is where it should be, given its contraction -/
def TaskOk (J : Job) (el : List EContr) (cv : List Int) : TaskPc → Prop
  | .start => True
  | .graph b | .timer1 b _ | .eval b => inWindow el J.ops J.minrank J.maxrank cv = true ∧
      bestGraph J.o J.cfg J.ops (pick el cv) = .ok b
  | .done2 r | .timer2 r _ | .canon r => inWindow el J.ops J.minrank J.maxrank cv = true ∧
      ∃ b, bestGraph J.o J.cfg J.ops (pick el cv) = .ok b ∧
        evaluate J.o b.1 b.2.1 (Rational.mul J.factor b.2.2) = .ok r
  | .finished x => x = processSingle J.o J.cfg el J.factor J.ops J.minrank J.maxrank cv

/-- invariant of all schedules -/
structure Inv (J : Job) (el : List EContr) (cvs : List (List Int)) (s : PState) : Prop where
  el_eq : s.shared.el = el
  cvs_eq : s.shared.cvs = cvs
  len : s.tasks.length ≤ cvs.length
  tasks : ∀ i t, s.tasks[i]? = some t → TaskOk J el (cvs.getD i []) t
  flag : s.launchFailed = true → s.main = .unwind .throw ∨ s.main = .returned (.error .throw)
  comb : ∀ j acc, s.main = .combining j acc → s.tasks.length = cvs.length ∧ j ≤ cvs.length ∧
    ∃ xs, (cvs.take j).mapM (m := Except Fault) (processSingle J.o J.cfg el J.factor J.ops J.minrank J.maxrank) = .ok xs ∧
      acc = xs.foldl (fun r e => Lin.plus r e) []
  unw : ∀ f, s.main = .unwind f → (s.launchFailed = true ∧ f = .throw) ∨
    processThreads J.o J.cfg el cvs J.factor J.ops J.minrank J.maxrank = .error f
  ret : ∀ r, s.main = .returned r → (s.launchFailed = true ∧ r = .error .throw) ∨
    processThreads J.o J.cfg el cvs J.factor J.ops J.minrank J.maxrank = r

theorem mapM_append_ok {α β : Type} (f : α → Res β) (l l' : List α) (xs : List β) (h : l.mapM (m := Except Fault) f = .ok xs) :
    (l ++ l').mapM (m := Except Fault) f = (do let ys ← l'.mapM (m := Except Fault) f; return xs ++ ys) := by
  rw [List.mapM_append, h]; rfl

theorem processSingle_eq (J : Job) (el : List EContr) (cv : List Int) :
    processSingle J.o J.cfg el J.factor J.ops J.minrank J.maxrank cv =
      if inWindow el J.ops J.minrank J.maxrank cv then (do
        let b ← bestGraph J.o J.cfg J.ops (pick el cv)
        let r ← evaluate J.o b.1 b.2.1 (Rational.mul J.factor b.2.2)
        let c ← r.1.canonicalize J.o
        return Lin.add ([] : Expr) c.1 (Rational.mul c.2 r.2))
      else .ok [] := by
  unfold processSingle inWindow processOne bestGraph
  simp only [decide_eq_true_eq]
  split
  · split
    · cases canonicalizeGraph J.o.spaces.length J.ops (pick el cv) with
      | error e => rfl
      | ok b =>
        simp only [bind, Except.bind]
        cases evaluate J.o b.1 b.2.1 (Rational.mul J.factor b.2.2) with
        | error e => rfl
        | ok r =>
          simp only
          cases r.1.canonicalize J.o with
          | error e => rfl
          | ok c => rfl
    · simp only [bind, Except.bind, pure, Except.pure]
      cases evaluate J.o J.ops (pick el cv) (Rational.mul J.factor (Rational.ofInt 1)) with
      | error e => rfl
      | ok r =>
        simp only
        cases r.1.canonicalize J.o with
        | error e => rfl
        | ok c => rfl
  · rfl

theorem taskStep_ok {J : Job} {sh sh' : Shared} {el : List EContr} {cvs : List (List Int)} {i d : Nat} {t t' : TaskPc}
    (h1 : sh.el = el) (h2 : sh.cvs = cvs) (ht : TaskOk J el (cvs.getD i []) t)
    (hs : taskStep J sh i d t = some (t', sh')) :
    TaskOk J el (cvs.getD i []) t' ∧ sh'.el = el ∧ sh'.cvs = cvs := by
  subst h1; subst h2
  cases t with
  | start =>
    simp only [taskStep] at hs
    have hps := processSingle_eq J sh.el (sh.cvs.getD i [])
    by_cases hw : termRank sh.el (OperatorProduct.numOps J.ops) (sh.cvs.getD i []) ≥ J.minrank ∧
        termRank sh.el (OperatorProduct.numOps J.ops) (sh.cvs.getD i []) ≤ J.maxrank
    · have hw' : inWindow sh.el J.ops J.minrank J.maxrank (sh.cvs.getD i []) = true := by simp only [inWindow, decide_eq_true_eq]; exact hw
      rw [if_pos hw] at hs
      rw [if_pos hw'] at hps
      have hb : (if J.cfg.canonGraph then canonicalizeGraph J.o.spaces.length J.ops (pick sh.el (sh.cvs.getD i []))
          else pure (J.ops, pick sh.el (sh.cvs.getD i []), Rational.ofInt 1)) =
          bestGraph J.o J.cfg J.ops (pick sh.el (sh.cvs.getD i [])) := rfl
      rw [hb] at hs
      cases hbg : bestGraph J.o J.cfg J.ops (pick sh.el (sh.cvs.getD i [])) with
      | error f =>
        rw [hbg] at hs hps
        simp only [Option.some.injEq, Prod.mk.injEq] at hs
        obtain ⟨rfl, rfl⟩ := hs
        exact ⟨hps.symm, rfl, rfl⟩
      | ok b =>
        rw [hbg] at hs
        simp only [Option.some.injEq, Prod.mk.injEq] at hs
        obtain ⟨rfl, rfl⟩ := hs
        exact ⟨⟨hw', hbg⟩, rfl, rfl⟩
    · have hw' : ¬ inWindow sh.el J.ops J.minrank J.maxrank (sh.cvs.getD i []) = true := by simp only [inWindow, decide_eq_true_eq]; exact hw
      rw [if_neg hw] at hs
      rw [if_neg hw'] at hps
      simp only [Option.some.injEq, Prod.mk.injEq] at hs
      obtain ⟨rfl, rfl⟩ := hs
      exact ⟨hps.symm, rfl, rfl⟩
  | graph b =>
    simp only [taskStep, Option.some.injEq, Prod.mk.injEq] at hs
    obtain ⟨rfl, rfl⟩ := hs
    exact ⟨ht, rfl, rfl⟩
  | timer1 b old =>
    simp only [taskStep, Option.some.injEq, Prod.mk.injEq] at hs
    obtain ⟨rfl, rfl⟩ := hs
    exact ⟨ht, rfl, rfl⟩
  | eval b =>
    obtain ⟨hw, hb⟩ := ht
    have hps := processSingle_eq J sh.el (sh.cvs.getD i [])
    rw [if_pos hw, hb] at hps
    simp only [bind, Except.bind] at hps
    simp only [taskStep] at hs
    cases he : evaluate J.o b.1 b.2.1 (Rational.mul J.factor b.2.2) with
    | error f =>
      rw [he] at hs hps
      simp only [Option.some.injEq, Prod.mk.injEq] at hs
      obtain ⟨rfl, rfl⟩ := hs
      exact ⟨hps.symm, rfl, rfl⟩
    | ok r =>
      rw [he] at hs
      simp only [Option.some.injEq, Prod.mk.injEq] at hs
      obtain ⟨rfl, rfl⟩ := hs
      exact ⟨⟨hw, b, hb, he⟩, rfl, rfl⟩
  | done2 r =>
    simp only [taskStep, Option.some.injEq, Prod.mk.injEq] at hs
    obtain ⟨rfl, rfl⟩ := hs
    exact ⟨ht, rfl, rfl⟩
  | timer2 r old =>
    simp only [taskStep, Option.some.injEq, Prod.mk.injEq] at hs
    obtain ⟨rfl, rfl⟩ := hs
    exact ⟨ht, rfl, rfl⟩
  | canon r =>
    obtain ⟨hw, b, hb, he⟩ := ht
    have hps := processSingle_eq J sh.el (sh.cvs.getD i [])
    rw [if_pos hw, hb] at hps
    simp only [bind, Except.bind, he] at hps
    simp only [taskStep] at hs
    cases hc : r.1.canonicalize J.o with
    | error f =>
      rw [hc] at hs hps
      simp only [Option.some.injEq, Prod.mk.injEq] at hs
      obtain ⟨rfl, rfl⟩ := hs
      exact ⟨hps.symm, rfl, rfl⟩
    | ok c =>
      rw [hc] at hs hps
      simp only [Option.some.injEq, Prod.mk.injEq] at hs
      obtain ⟨rfl, rfl⟩ := hs
      exact ⟨hps.symm, rfl, rfl⟩
  | finished r => simp [taskStep] at hs

theorem inv_init (J : Job) (el : List EContr) (cvs : List (List Int)) (timers : SMap Str Nat) :
    Inv J el cvs (PState.init el cvs timers) := by
  refine ⟨rfl, rfl, by simp [PState.init], by simp [PState.init], by simp [PState.init], ?_, ?_, ?_⟩ <;>
    simp [PState.init]

theorem inv_step {J : Job} {el : List EContr} {cvs : List (List Int)} {s s' : PState} (h : Inv J el cvs s) (hs : Step J s s') :
    Inv J el cvs s' := by
  have hflag : s.main = .launching → s.launchFailed = false := by
    intro hm
    cases hf : s.launchFailed with
    | false => rfl
    | true => rcases h.flag hf with h1 | h1 <;> rw [hm] at h1 <;> cases h1
  have hflagc : ∀ j acc, s.main = .combining j acc → s.launchFailed = false := by
    intro j acc hm
    cases hf : s.launchFailed with
    | false => rfl
    | true => rcases h.flag hf with h1 | h1 <;> rw [hm] at h1 <;> cases h1
  cases hs with
  | launch hm hl =>
    rw [h.cvs_eq] at hl
    refine ⟨h.el_eq, h.cvs_eq, ?_, ?_, h.flag, ?_, h.unw, h.ret⟩
    · simp only [List.length_append, List.length_cons, List.length_nil]; omega
    · intro i t ht
      by_cases hi : i < s.tasks.length
      · rw [List.getElem?_append_left hi] at ht; exact h.tasks i t ht
      · rw [List.getElem?_append_right (by omega)] at ht
        by_cases h0 : i - s.tasks.length = 0
        · rw [h0] at ht
          simp only [List.getElem?_cons_zero, Option.some.injEq] at ht
          subst ht; trivial
        · rw [List.getElem?_eq_none (by simp; omega)] at ht; cases ht
    · intro j acc hj; simp only at hj; rw [hm] at hj; cases hj
  | launchFail hm hl =>
    refine ⟨h.el_eq, h.cvs_eq, h.len, h.tasks, ?_, ?_, ?_, ?_⟩
    · intro _; left; rfl
    · intro j acc hj; simp only at hj; cases hj
    · intro f hf; simp only at hf; injection hf with hf; left; exact ⟨rfl, hf.symm⟩
    · intro r hr; simp only at hr; cases hr
  | launched hm hl =>
    rw [h.cvs_eq] at hl
    refine ⟨h.el_eq, h.cvs_eq, h.len, h.tasks, ?_, ?_, ?_, ?_⟩
    · intro hf; simp only at hf; rw [hflag hm] at hf; cases hf
    · intro j acc hj
      simp only at hj
      injection hj with h1 h2
      subst h1; subst h2
      exact ⟨hl, Nat.zero_le _, [], by simp [pure, Except.pure], rfl⟩
    · intro f hf; simp only at hf; cases hf
    · intro r hr; simp only at hr; cases hr
  | get j acc e hm ht =>
    obtain ⟨c1, c2, xs, c3, c4⟩ := h.comb j acc hm
    have hj : j < cvs.length := by
      rw [← c1]
      by_contra hn
      rw [List.getElem?_eq_none (by omega)] at ht; cases ht
    have htk := h.tasks j _ ht
    simp only [TaskOk] at htk
    refine ⟨h.el_eq, h.cvs_eq, h.len, h.tasks, ?_, ?_, ?_, ?_⟩
    · intro hf; simp only at hf; rw [hflagc j acc hm] at hf; cases hf
    · intro j' acc' hj'
      simp only at hj'
      injection hj' with h1 h2
      subst h1; subst h2
      refine ⟨c1, by omega, xs ++ [e], ?_, ?_⟩
      · rw [List.take_add_one, List.getElem?_eq_getElem hj, mapM_append_ok _ _ _ _ c3]
        have : cvs.getD j [] = cvs[j] := by simp [hj]
        rw [this] at htk
        simp only [Option.toList_some, List.mapM_cons, ← htk, List.mapM_nil]
        rfl
      · rw [c4, List.foldl_append]; rfl
    · intro f hf; simp only at hf; cases hf
    · intro r hr; simp only at hr; cases hr
  | getThrow j acc f hm ht =>
    obtain ⟨c1, c2, xs, c3, c4⟩ := h.comb j acc hm
    have hj : j < cvs.length := by
      rw [← c1]
      by_contra hn
      rw [List.getElem?_eq_none (by omega)] at ht; cases ht
    have htk := h.tasks j _ ht
    simp only [TaskOk] at htk
    refine ⟨h.el_eq, h.cvs_eq, h.len, h.tasks, ?_, ?_, ?_, ?_⟩
    · intro hf; simp only at hf; rw [hflagc j acc hm] at hf; cases hf
    · intro j' acc' hj'; simp only at hj'; cases hj'
    · intro f' hf'
      simp only at hf'
      injection hf' with hf'
      subst hf'
      right
      have hsplit : cvs = cvs.take j ++ cvs[j] :: cvs.drop (j + 1) := by
        rw [← List.drop_eq_getElem_cons hj, List.take_append_drop]
      unfold processThreads
      have : cvs.getD j [] = cvs[j] := by simp [hj]
      rw [this] at htk
      conv_lhs => rw [hsplit]
      rw [mapM_append_ok _ _ _ _ c3, List.mapM_cons, ← htk]
      rfl
    · intro r hr; simp only at hr; cases hr
  | ret acc hm =>
    obtain ⟨c1, c2, xs, c3, c4⟩ := h.comb _ acc hm
    refine ⟨h.el_eq, h.cvs_eq, h.len, h.tasks, ?_, ?_, ?_, ?_⟩
    · intro hf; simp only at hf; rw [hflagc _ acc hm] at hf; cases hf
    · intro j' acc' hj'; simp only at hj'; cases hj'
    · intro f hf; simp only at hf; cases hf
    · intro r hr
      simp only at hr
      injection hr with hr
      subst hr
      right
      rw [c1, List.take_length] at c3
      unfold processThreads
      rw [c3, c4]; rfl
  | unwound f hm hall =>
    refine ⟨h.el_eq, h.cvs_eq, h.len, h.tasks, ?_, ?_, ?_, ?_⟩
    · intro hf
      rcases h.flag hf with h1 | h1
      · rw [hm] at h1; injection h1 with h1; right; simp [h1]
      · rw [hm] at h1; cases h1
    · intro j' acc' hj'; simp only at hj'; cases hj'
    · intro f hf; simp only at hf; cases hf
    · intro r hr
      simp only at hr
      injection hr with hr
      subst hr
      rcases h.unw f hm with ⟨h1, h2⟩ | h1
      · left; exact ⟨h1, by rw [h2]⟩
      · right; exact h1
  | task i d t t' sh' ht hst =>
    obtain ⟨k1, k2, k3⟩ := taskStep_ok h.el_eq h.cvs_eq (h.tasks i t ht) hst
    refine ⟨k2, k3, by simpa using h.len, ?_, h.flag, ?_, h.unw, h.ret⟩
    · intro i' t'' ht''
      by_cases hi : i = i'
      · subst hi
        have hlt : i < s.tasks.length := by
          by_contra hn
          rw [List.getElem?_eq_none (by omega)] at ht; cases ht
        simp only [List.getElem?_set_self hlt, Option.some.injEq] at ht''
        subst ht''; exact k1
      · simp only [List.getElem?_set_ne hi] at ht''
        exact h.tasks i' t'' ht''
    · intro j acc hj
      have := h.comb j acc hj
      simpa using this

theorem inv_reach {J : Job} {el : List EContr} {cvs : List (List Int)} {timers : SMap Str Nat} {s : PState}
    (h : Reach J (PState.init el cvs timers) s) : Inv J el cvs s := by
  induction h with
  | refl => exact inv_init ..
  | step _ hs ih => exact inv_step ih hs

/-! ## C45 -/

/-- **C45**: whatever the schedule, the initial timers and the measured times, when the threaded
version returns it has the result of the single-threaded loop — unless the system failed to start a
thread, in which case it throws. -/
theorem C45_threads_eq_single {J : Job} {el : List EContr} {cvs : List (List Int)} {timers : SMap Str Nat} {s : PState}
    (h : Reach J (PState.init el cvs timers) s) {r : Res Expr} (hr : s.main = .returned r) :
    (s.launchFailed = false → r = processContractions J.o J.cfg el cvs J.factor J.ops J.minrank J.maxrank) ∧
    (s.launchFailed = true → r = .error .throw) := by
  have hi := inv_reach h
  constructor
  · intro hf
    rcases hi.ret r hr with ⟨h1, _⟩ | h1
    · rw [hf] at h1; cases h1
    · rw [← h1, processThreads_eq]
  · intro hf
    rcases hi.flag hf with h1 | h1
    · rw [hr] at h1; cases h1
    · rw [hr] at h1; injection h1

/-- **C45**: `contract` with `set_single_threaded(True)` and `set_single_threaded(False)`. -/
theorem C45_contract (o : OSI) (cfg : WickCfg) (factor : Rational) (ops : OperatorProduct) (minr maxr : Int) :
    contract o { cfg with singleThreaded := false } factor ops minr maxr =
      contract o { cfg with singleThreaded := true } factor ops minr maxr := by
  unfold contract
  have : ∀ el cvs b, processThreads o { cfg with singleThreaded := b } el cvs factor ops minr maxr =
      processContractions o { cfg with singleThreaded := true } el cvs factor ops minr maxr := by
    intro el cvs b
    rw [processThreads_eq]; rfl
  simp only [this]
  rfl

/-! ### no schedule gets stuck or runs forever -/

/-- number of steps a task has still to make, at most -/
def TaskPc.todo : TaskPc → Nat
  | .start => 7 | .graph _ => 6 | .timer1 _ _ => 5 | .eval _ => 4 | .done2 _ => 3 | .timer2 _ _ => 2 | .canon _ => 1
  | .finished _ => 0

/-- number of steps that are still possible, at most -/
def PState.todo (s : PState) : Nat :=
  (s.tasks.map TaskPc.todo).sum +
  match s.main with
  | .launching => 8 * (s.shared.cvs.length - s.tasks.length) + s.shared.cvs.length + 4
  | .combining j _ => (s.tasks.length - j) + 3
  | .unwind _ => 1
  | .returned _ => 0

theorem taskStep_todo {J : Job} {sh sh' : Shared} {i d : Nat} {t t' : TaskPc} (h : taskStep J sh i d t = some (t', sh')) :
    t'.todo < t.todo ∧ sh'.cvs = sh.cvs := by
  cases t <;> simp only [taskStep] at h
  case start =>
    split at h
    · split at h <;> (simp only [Option.some.injEq, Prod.mk.injEq] at h; obtain ⟨rfl, rfl⟩ := h; simp [TaskPc.todo])
    · simp only [Option.some.injEq, Prod.mk.injEq] at h; obtain ⟨rfl, rfl⟩ := h; simp [TaskPc.todo]
  case finished => cases h
  case eval => split at h <;> (simp only [Option.some.injEq, Prod.mk.injEq] at h; obtain ⟨rfl, rfl⟩ := h; simp [TaskPc.todo])
  case canon => split at h <;> (simp only [Option.some.injEq, Prod.mk.injEq] at h; obtain ⟨rfl, rfl⟩ := h; simp [TaskPc.todo])
  all_goals (simp only [Option.some.injEq, Prod.mk.injEq] at h; obtain ⟨rfl, rfl⟩ := h; simp [TaskPc.todo])

theorem sum_set_lt (l : List TaskPc) (i : Nat) (t t' : TaskPc) (h : l[i]? = some t) (ht : t'.todo < t.todo) :
    ((l.set i t').map TaskPc.todo).sum < (l.map TaskPc.todo).sum := by
  induction l generalizing i with
  | nil => simp at h
  | cons a l ih =>
    cases i with
    | zero =>
      simp only [List.getElem?_cons_zero, Option.some.injEq] at h
      subst h
      simp only [List.set_cons_zero, List.map_cons, List.sum_cons]; omega
    | succ i =>
      simp only [List.getElem?_cons_succ] at h
      have := ih i h
      simp only [List.set_cons_succ, List.map_cons, List.sum_cons]; omega

/-- **C45**: every step decreases a bound on the number of remaining steps, so every schedule ends. -/
theorem C45_terminates {J : Job} {el : List EContr} {cvs : List (List Int)} {timers : SMap Str Nat} {s s' : PState}
    (h : Reach J (PState.init el cvs timers) s) (hs : Step J s s') : s'.todo < s.todo := by
  have hi := inv_reach h
  cases hs with
  | launch hm hl =>
    simp only [PState.todo, hm, List.map_append, List.map_cons, List.map_nil, List.sum_append, List.sum_cons, List.sum_nil,
      TaskPc.todo, List.length_append, List.length_cons, List.length_nil]
    omega
  | launchFail hm hl => simp only [PState.todo, hm]; omega
  | launched hm hl => simp only [PState.todo, hm]; omega
  | get j acc e hm ht =>
    have hj : j < s.tasks.length := by
      by_contra hn
      rw [List.getElem?_eq_none (by omega)] at ht; cases ht
    simp only [PState.todo, hm]; omega
  | getThrow j acc f hm ht => simp only [PState.todo, hm]; omega
  | ret acc hm => simp only [PState.todo, hm]; omega
  | unwound f hm _ => simp only [PState.todo, hm]; omega
  | task i d t t' sh' ht hst =>
    obtain ⟨h1, h2⟩ := taskStep_todo hst
    have := sum_set_lt s.tasks i t t' ht h1
    simp only [PState.todo, List.length_set, h2]
    omega

/-- **C45**: as long as the function has not returned, some thread can make a step (no deadlock). -/
theorem C45_progress {J : Job} {el : List EContr} {cvs : List (List Int)} {timers : SMap Str Nat} {s : PState}
    (h : Reach J (PState.init el cvs timers) s) : (∃ r, s.main = .returned r) ∨ ∃ s', Step J s s' ∧ s'.launchFailed = s.launchFailed := by
  have hi := inv_reach h
  have htask : ∀ (i : Nat) (t : TaskPc), s.tasks[i]? = some t → (∃ r, t = .finished r) ∨
      ∃ s', Step J s s' ∧ s'.launchFailed = s.launchFailed := by
    intro i t ht
    have hstep : (∃ r, t = .finished r) ∨ ∃ x, taskStep J s.shared i 0 t = some x := by
      cases t <;> simp only [taskStep]
      case start =>
        right; split
        · split <;> exact ⟨_, rfl⟩
        · exact ⟨_, rfl⟩
      case finished r => exact Or.inl ⟨r, rfl⟩
      case eval => right; split <;> exact ⟨_, rfl⟩
      case canon => right; split <;> exact ⟨_, rfl⟩
      all_goals exact Or.inr ⟨_, rfl⟩
    rcases hstep with h1 | ⟨x, hx⟩
    · exact Or.inl h1
    · exact Or.inr ⟨_, Step.task s i 0 t x.1 x.2 ht hx, rfl⟩
  cases hm : s.main with
  | returned r => exact Or.inl ⟨r, rfl⟩
  | launching =>
    right
    have := hi.len
    rw [← hi.cvs_eq] at this
    by_cases hl : s.tasks.length < s.shared.cvs.length
    · exact ⟨_, Step.launch s hm hl, rfl⟩
    · exact ⟨_, Step.launched s hm (by omega), rfl⟩
  | combining j acc =>
    right
    obtain ⟨c1, c2, _⟩ := hi.comb j acc hm
    by_cases hj : j < s.tasks.length
    · have ht := List.getElem?_eq_getElem hj
      rcases htask j _ ht with ⟨r, hr⟩ | h1
      · cases r with
        | ok e => exact ⟨_, Step.get s j acc e hm (by rw [ht, hr]), rfl⟩
        | error f => exact ⟨_, Step.getThrow s j acc f hm (by rw [ht, hr]), rfl⟩
      · exact h1
    · have : j = s.tasks.length := by omega
      rw [this] at hm
      exact ⟨_, Step.ret s acc hm, rfl⟩
  | unwind f =>
    right
    by_cases hall : allFinished s.tasks
    · exact ⟨_, Step.unwound s f hm hall, rfl⟩
    · unfold allFinished at hall
      push Not at hall
      obtain ⟨t, ht, hn⟩ := hall
      obtain ⟨i, hi', he⟩ := List.getElem_of_mem ht
      rcases htask i t (by rw [List.getElem?_eq_getElem hi', he]) with ⟨r, hr⟩ | h1
      · exact absurd hr (hn r)
      · exact h1

/-- **C45**: from every reachable state some continuation without further failures returns. -/
theorem C45_can_return {J : Job} {el : List EContr} {cvs : List (List Int)} {timers : SMap Str Nat} {s : PState}
    (h : Reach J (PState.init el cvs timers) s) :
    ∃ s' r, Reach J (PState.init el cvs timers) s' ∧ s'.main = .returned r ∧ s'.launchFailed = s.launchFailed := by
  have key : ∀ n (s : PState), s.todo = n → Reach J (PState.init el cvs timers) s →
      ∃ s' r, Reach J (PState.init el cvs timers) s' ∧ s'.main = .returned r ∧ s'.launchFailed = s.launchFailed := by
    intro n
    induction n using Nat.strong_induction_on with
    | _ n ih =>
      intro s hn hr
      rcases C45_progress hr with ⟨r, hm⟩ | ⟨s1, h1, h2⟩
      · exact ⟨s, r, hr, hm, rfl⟩
      · obtain ⟨s', r, h3, h4, h5⟩ := ih s1.todo (by rw [← hn]; exact C45_terminates hr h1) s1 rfl (Reach.step hr h1)
        exact ⟨s', r, h3, h4, by rw [h5, h2]⟩
  exact key _ s rfl h

/-! ## C46 -/

/-- **C46** (partial): the map of timers is the only shared object on which tasks can race; all
other shared data are only read.  Missing: the timers themselves, on which there is a race
(`C46_data_race`). -/
theorem C46_only_timers_race_partial {s : PState} {l : Loc} (h : Race s l) : l = .timers := by
  obtain ⟨i, j, t, t', w, w', _, _, _, h1, h2, h3⟩ := h
  rcases h3 with rfl | rfl
  · cases t <;> simp [accesses] at h1 <;> exact h1
  · cases t' <;> simp [accesses] at h2 <;> exact h2

/-- **C46** (partial): with at most one contraction there is no race. -/
theorem C46_single_task_partial {J : Job} {el : List EContr} {cvs : List (List Int)} {timers : SMap Str Nat} {s : PState}
    (h : Reach J (PState.init el cvs timers) s) (h1 : cvs.length ≤ 1) (l : Loc) : ¬ Race s l := by
  have hi := (inv_reach h).len
  rintro ⟨i, j, t, t', w, w', hne, h2, h3, _⟩
  have hi' : i < s.tasks.length := by
    by_contra hn
    rw [List.getElem?_eq_none (by omega)] at h2; cases h2
  have hj' : j < s.tasks.length := by
    by_contra hn
    rw [List.getElem?_eq_none (by omega)] at h3; cases h3
  omega

/-- **C46**, negation: whenever the first two contractions lie in the rank window and their graphs are
canonicalized without an error, some schedule leads to a data race on the timers. -/
theorem C46_data_race {J : Job} {el : List EContr} {c0 c1 : List Int} {cvs : List (List Int)} (timers : SMap Str Nat)
    (h0 : inWindow el J.ops J.minrank J.maxrank c0 = true) (h1 : inWindow el J.ops J.minrank J.maxrank c1 = true)
    {b0 b1} (g0 : bestGraph J.o J.cfg J.ops (pick el c0) = .ok b0) (g1 : bestGraph J.o J.cfg J.ops (pick el c1) = .ok b1) :
    ∃ s, Reach J (PState.init el (c0 :: c1 :: cvs) timers) s ∧ Race s .timers := by
  have st : ∀ (i : Nat) (b : OperatorProduct × CContr × Rational) (sh : Shared),
      sh.el = el → inWindow el J.ops J.minrank J.maxrank (sh.cvs.getD i []) = true →
      bestGraph J.o J.cfg J.ops (pick el (sh.cvs.getD i [])) = .ok b →
      taskStep J sh i 0 .start = some (.graph b, sh) := by
    intro i b sh he hw hb
    subst he
    simp only [inWindow, decide_eq_true_eq] at hw
    simp only [taskStep]
    rw [if_pos hw]
    unfold bestGraph at hb
    rw [hb]
  let sh : Shared := ⟨el, c0 :: c1 :: cvs, timers⟩
  have r1 : Reach J (PState.init el (c0 :: c1 :: cvs) timers) ⟨sh, [.start], .launching, false⟩ :=
    Reach.step Reach.refl (Step.launch _ rfl (by simp [PState.init]))
  have r2 : Reach J (PState.init el (c0 :: c1 :: cvs) timers) ⟨sh, [.start, .start], .launching, false⟩ :=
    Reach.step r1 (Step.launch _ rfl (by simp [sh]))
  have r3 : Reach J (PState.init el (c0 :: c1 :: cvs) timers) ⟨sh, [.graph b0, .start], .launching, false⟩ :=
    Reach.step r2 (Step.task _ 0 0 .start (.graph b0) sh rfl (st 0 b0 sh rfl h0 g0))
  have r4 : Reach J (PState.init el (c0 :: c1 :: cvs) timers) ⟨sh, [.graph b0, .graph b1], .launching, false⟩ :=
    Reach.step r3 (Step.task _ 1 0 .start (.graph b1) sh rfl (st 1 b1 sh rfl h1 g1))
  exact ⟨_, r4, 0, 1, .graph b0, .graph b1, true, true, by decide, rfl, rfl, by simp [accesses], by simp [accesses], Or.inl rfl⟩

/-- f·t over one occupied and one unoccupied space -/
def exJob : Job := ⟨exSR, {}, [mkOp "f" [(1, 0), (0, 1)], mkOp "t" [(0, 1), (1, 0)]], Rational.ofInt 1, 0, 4⟩
def exEl : List EContr := match elementaryContractions exSR {} exJob.ops with
  | .ok l => l
  | .error _ => []

-- the hypotheses of `C46_data_race` hold for the first two contractions of f·t
example : inWindow exEl exJob.ops exJob.minrank exJob.maxrank [] = true ∧
    inWindow exEl exJob.ops exJob.minrank exJob.maxrank [0] = true ∧
    (bestGraph exJob.o exJob.cfg exJob.ops (pick exEl [])).toOption.isSome ∧
    (bestGraph exJob.o exJob.cfg exJob.ops (pick exEl [0])).toOption.isSome := by
  refine ⟨by decide +kernel, by decide +kernel, by decide +kernel, by decide +kernel⟩

-- a schedule of f·t with its four contractions that runs to the end, so `C45_threads_eq_single` is not vacuous
example (timers : SMap Str Nat) : ∃ s r, Reach exJob (PState.init exEl [[], [0], [0, 1], [1]] timers) s ∧
    s.main = .returned r ∧ s.launchFailed = false := C45_can_return Reach.refl

end Wick
end Wicked
