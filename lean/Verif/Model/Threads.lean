import Verif.Model.Wick
/-!
# The asynchronous version of step 3 as an interleaving of threads
(wick_theorem_process_contractions.cc:111-192)

The main thread launches one `std::async(std::launch::async, ...)` task per contraction, in order, then
waits for the futures in order and adds up their results.  Each task runs
`process_single_contraction`.  A schedule is any interleaving of the steps below; the elapsed times
that go into the timers are chosen by the environment.  Clock values (`double`) are natural numbers.
Simplification: between two accesses to the map of timers a task makes one step, because in between it
only reads shared data; an abnormal end of a task (exception) is stored in its future.
-/
namespace Wicked
open CppLt CppEq
namespace Wick

/-- fields of the `WickTheorem` object that several threads can reach through `this` and the
captured references (wick_theorem.h:50-75) -/
structure Shared where
  el : List EContr
  cvs : List (List Int)
  timers : SMap Str Nat

/-- how far a task has got (wick_theorem_process_contractions.cc:149-192) -/
inductive TaskPc where
  /-- nothing done yet (wick_theorem_process_contractions.cc:153) -/
  | start
  /-- graph canonicalized, before `timers_[...] +=` of line 172 -/
  | graph (b : OperatorProduct × CContr × Rational)
  /-- the old value of the timer has been read -/
  | timer1 (b : OperatorProduct × CContr × Rational) (old : Nat)
  /-- before the evaluation (wick_theorem_process_contractions.cc:175) -/
  | eval (b : OperatorProduct × CContr × Rational)
  /-- evaluated, before `timers_[...] +=` of line 177 -/
  | done2 (r : STerm × Rational)
  | timer2 (r : STerm × Rational) (old : Nat)
  /-- before the canonicalization of the term (wick_theorem_process_contractions.cc:179-182) -/
  | canon (r : STerm × Rational)
  /-- the future is ready -/
  | finished (r : Res Expr)

/-- the main thread (wick_theorem_process_contractions.cc:111-147) -/
inductive Main where
  /-- in the loop that launches the tasks (wick_theorem_process_contractions.cc:124-131) -/
  | launching
  /-- in the loop that waits for the futures: next future and sum so far (wick_theorem_process_contractions.cc:134-139) -/
  | combining (j : Nat) (acc : Expr)
  /-- an exception is leaving the function: the destructors of the futures wait for their tasks -/
  | unwind (f : Fault)
  | returned (r : Res Expr)

/-- the state of the program during `process_contractions_threads` (wick_theorem_process_contractions.cc:111-147) -/
structure PState where
  shared : Shared
  tasks : List TaskPc
  main : Main
  /-- the system could not start a thread at some point -/
  launchFailed : Bool

/-- the arguments of the call, constant during the call (wick_theorem_process_contractions.cc:111-114) -/
structure Job where
  o : OSI
  cfg : WickCfg
  ops : OperatorProduct
  factor : Rational
  minrank : Int
  maxrank : Int

/-- the key of the timer (wick_theorem_process_contractions.cc:172) -/
def key1 : Str := "canonicalize_contraction_graph".toList
/-- the key of the timer (wick_theorem_process_contractions.cc:177) -/
def key2 : Str := "evaluate_contraction".toList

/-- one step of task number `i`, `d` is the time measured by the task (wick_theorem_process_contractions.cc:149-192) -/
def taskStep (J : Job) (sh : Shared) (i : Nat) (d : Nat) : TaskPc → Option (TaskPc × Shared)
  | .start =>
    let cv := sh.cvs.getD i []
    let rank := termRank sh.el (OperatorProduct.numOps J.ops) cv
    if rank ≥ J.minrank ∧ rank ≤ J.maxrank then
      match (if J.cfg.canonGraph then canonicalizeGraph J.o.spaces.length J.ops (pick sh.el cv)
          else pure (J.ops, pick sh.el cv, Rational.ofInt 1)) with
      | .ok b => some (.graph b, sh)
      | .error f => some (.finished (.error f), sh)
    else some (.finished (.ok []), sh)
  | .graph b => some (.timer1 b ((sh.timers.find key1).getD 0), sh)
  | .timer1 b old => some (.eval b, { sh with timers := sh.timers.insert key1 (old + d) })
  | .eval b =>
    match evaluate J.o b.1 b.2.1 (Rational.mul J.factor b.2.2) with
    | .ok r => some (.done2 r, sh)
    | .error f => some (.finished (.error f), sh)
  | .done2 r => some (.timer2 r ((sh.timers.find key2).getD 0), sh)
  | .timer2 r old => some (.canon r, { sh with timers := sh.timers.insert key2 (old + d) })
  | .canon r =>
    match r.1.canonicalize J.o with
    | .ok c => some (.finished (.ok (Lin.add ([] : Expr) c.1 (Rational.mul c.2 r.2))), sh)
    | .error f => some (.finished (.error f), sh)
  | .finished _ => none

/-- all futures are ready (wick_theorem_process_contractions.cc:134-139) -/
def allFinished (ts : List TaskPc) : Prop := ∀ t ∈ ts, ∃ r, t = .finished r

/-- one step of the program (wick_theorem_process_contractions.cc:111-192) -/
inductive Step (J : Job) : PState → PState → Prop
  | launch (s : PState) : s.main = .launching → s.tasks.length < s.shared.cvs.length →
      Step J s { s with tasks := s.tasks ++ [.start] }
  | launchFail (s : PState) : s.main = .launching → s.tasks.length < s.shared.cvs.length →
      Step J s { s with main := .unwind .throw, launchFailed := true }
  | launched (s : PState) : s.main = .launching → s.tasks.length = s.shared.cvs.length →
      Step J s { s with main := .combining 0 [] }
  | get (s : PState) (j : Nat) (acc e : Expr) : s.main = .combining j acc → s.tasks[j]? = some (.finished (.ok e)) →
      Step J s { s with main := .combining (j + 1) (Lin.plus acc e) }
  | getThrow (s : PState) (j : Nat) (acc : Expr) (f : Fault) : s.main = .combining j acc →
      s.tasks[j]? = some (.finished (.error f)) → Step J s { s with main := .unwind f }
  | ret (s : PState) (acc : Expr) : s.main = .combining s.tasks.length acc →
      Step J s { s with main := .returned (.ok acc) }
  | unwound (s : PState) (f : Fault) : s.main = .unwind f → allFinished s.tasks →
      Step J s { s with main := .returned (.error f) }
  | task (s : PState) (i d : Nat) (t t' : TaskPc) (sh' : Shared) : s.tasks[i]? = some t →
      taskStep J s.shared i d t = some (t', sh') →
      Step J s { s with tasks := s.tasks.set i t', shared := sh' }

/-- the state in which `process_contractions_threads` is entered (wick_theorem_process_contractions.cc:111-123) -/
def PState.init (el : List EContr) (cvs : List (List Int)) (timers : SMap Str Nat) : PState :=
  ⟨⟨el, cvs, timers⟩, [], .launching, false⟩

/-- reachable by some schedule (wick_theorem_process_contractions.cc:111-192) -/
inductive Reach (J : Job) (s0 : PState) : PState → Prop
  | refl : Reach J s0 s0
  | step {s s' : PState} : Reach J s0 s → Step J s s' → Reach J s0 s'

/-! ### memory accesses -/

/-- shared objects (wick_theorem.h:50-75) -/
inductive Loc where
  | elementaryContractions | contractions | operators | timers
deriving DecidableEq, Repr

/-- the shared objects that the next step of a task accesses; `true` marks a modification.
`timers_[key] += x` calls the non-const `std::map::operator[]`, which counts as a modification of the
map ([container.requirements.dataraces]); no lock is ever taken. (wick_theorem_process_contractions.cc:149-192) -/
def accesses : TaskPc → List (Loc × Bool)
  | .start => [(.elementaryContractions, false), (.contractions, false), (.operators, false)]
  | .graph _ => [(.timers, true)]
  | .timer1 _ _ => [(.timers, true)]
  | .eval _ => []
  | .done2 _ => [(.timers, true)]
  | .timer2 _ _ => [(.timers, true)]
  | .canon _ => []
  | .finished _ => []

/-- two different tasks can make conflicting accesses to `l` at the same time (wick_theorem_process_contractions.cc:124-139) -/
def Race (s : PState) (l : Loc) : Prop :=
  ∃ (i j : Nat) (t t' : TaskPc) (w w' : Bool), i ≠ j ∧ s.tasks[i]? = some t ∧ s.tasks[j]? = some t' ∧
    (l, w) ∈ accesses t ∧ (l, w') ∈ accesses t' ∧ (w = true ∨ w' = true)

end Wick
end Wicked
