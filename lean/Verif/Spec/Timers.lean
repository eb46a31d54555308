import Verif.Model.Timers
import Mathlib.Algebra.BigOperators.Group.Finset.Basic
import Mathlib.Order.Monotone.Basic
/-! # The timers (C98) -/
namespace Wicked
open CppLt CppEq
namespace Wick

/-- what `timers()[key]` shows, zero if the key is absent -/
def timeOf (ts : SMap Str Nat) (key : String) : Nat := (ts.find key.toList).getD 0

/-- the time that the measurements `l` add up to for `key` -/
def measuredTime (l : List (String × Nat)) (key : String) : Nat := ((l.filter (fun p => decide (p.1 = key))).map Prod.snd).sum

/-- a call of `contract` in the calling thread -/
structure TimedCall where
  o : OSI
  cfg : WickCfg
  factor : Rational
  e : OpExpr
  minrank : Int
  maxrank : Int

/-- a history of calls of `contract` that all return, one after the other on the same object -/
inductive TimedHistory (clock : Nat → Nat) : TState → List TimedCall → TState → Prop
  | nil (s : TState) : TimedHistory clock s [] s
  | call {s s1 s2 : TState} {c : TimedCall} {l : List TimedCall} (r : Expr) : contractExprTimed clock c.o c.cfg c.factor c.minrank c.maxrank c.e [] s = (.ok r, s1) →
      TimedHistory clock s1 l s2 → TimedHistory clock s (c :: l) s2

/-- a run of the threads from the state `s0` with the times that the tasks measure, in the order in which they are stored -/
inductive Measured (J : Job) (s0 : PState) : PState → List (String × Nat) → Prop
  | start : Measured J s0 s0 []
  /-- a task stores the time of the canonicalization of its graph -/
  | graph {s s' : PState} {l : List (String × Nat)} (i d : Nat) (b : OperatorProduct × CContr × Rational) (old : Nat) (t' : TaskPc) (sh' : Shared) : Measured J s0 s l →
      s.tasks[i]? = some (.timer1 b old) → taskStep J s.shared i d (.timer1 b old) = some (t', sh') → s' = { s with tasks := s.tasks.set i t', shared := sh' } →
      Measured J s0 s' (l ++ [("canonicalize_contraction_graph", d)])
  /-- a task stores the time of the evaluation -/
  | evaluation {s s' : PState} {l : List (String × Nat)} (i d : Nat) (r : STerm × Rational) (old : Nat) (t' : TaskPc) (sh' : Shared) : Measured J s0 s l →
      s.tasks[i]? = some (.timer2 r old) → taskStep J s.shared i d (.timer2 r old) = some (t', sh') → s' = { s with tasks := s.tasks.set i t', shared := sh' } →
      Measured J s0 s' (l ++ [("evaluate_contraction", d)])
  /-- any step that stores no time: the tasks about to store a time do not move -/
  | other {s s' : PState} {l : List (String × Nat)} : Measured J s0 s l → Step J s s' →
      (∀ (i : Nat) (b : OperatorProduct × CContr × Rational) (old : Nat), s.tasks[i]? = some (TaskPc.timer1 b old) → s'.tasks[i]? = some (TaskPc.timer1 b old)) →
      (∀ (i : Nat) (r : STerm × Rational) (old : Nat), s.tasks[i]? = some (TaskPc.timer2 r old) → s'.tasks[i]? = some (TaskPc.timer2 r old)) → Measured J s0 s' l

end Wick
end Wicked
