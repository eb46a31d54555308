import Verif.Model.Session
/-!
# The timers of a `WickTheorem` object (helpers/timer.hpp, diagrams/wick_theorem.cc, wick_theorem_process_contractions.cc)

`WickTheorem::timers()` shows a map from names of steps to elapsed times. The clock is a function that gives the time of the `n`-th reading. Simplification: times are
natural numbers (in the code `double`); an exception between the start of a timer and `+=` loses the measurement, as in the code.
-/
namespace Wicked
open CppLt CppEq
namespace Wick

/-- the map of timers and the number of readings of the clock so far (wick_theorem.h:58, timer.hpp:13-31) -/
structure TState where
  timers : SMap Str Nat
  reads : Nat

/-- `timer t; auto x = ...; timers_[key] += t.get();` (wick_theorem.cc:46-48, 51-53, wick_theorem_process_contractions.cc:80-90, 167-177; timer.hpp:16, 22-26) -/
def timed {α : Type} (clock : Nat → Nat) (key : Str) (x : Res α) (s : TState) : Res α × TState :=
  match x with
  | .error f => (.error f, ⟨s.timers, s.reads + 1⟩)
  | .ok a => (.ok a, ⟨bump key (clock (s.reads + 1) - clock s.reads) s.timers, s.reads + 2⟩)

/-- `process_contractions` (wick_theorem_process_contractions.cc:60-101) -/
def processTimed (clock : Nat → Nat) (o : OSI) (cfg : WickCfg) (el : List EContr) (factor : Rational) (ops : OperatorProduct) (minrank maxrank : Int) :
    List (List Int) → Expr → TState → Res Expr × TState
  | [], result, s => (.ok result, s)
  | cv :: cvs, result, s =>
    let rank := termRank el (OperatorProduct.numOps ops) cv
    if rank ≥ minrank ∧ rank ≤ maxrank then
      match timed clock "canonicalize_contraction_graph".toList
          (if cfg.canonGraph then canonicalizeGraph o.spaces.length ops (pick el cv) else pure (ops, pick el cv, Rational.ofInt 1)) s with
      | (.error f, s) => (.error f, s)
      | (.ok b, s) =>
        match timed clock "evaluate_contraction".toList (evaluate o b.1 b.2.1 (Rational.mul factor b.2.2)) s with
        | (.error f, s) => (.error f, s)
        | (.ok r, s) =>
          match r.1.canonicalize o with
          | .error f => (.error f, s)
          | .ok c => processTimed clock o cfg el factor ops minrank maxrank cvs (Lin.add result c.1 (Rational.mul c.2 r.2)) s
    else processTimed clock o cfg el factor ops minrank maxrank cvs result s

/-- `contract` for a product in the calling thread (wick_theorem.cc:33-63) -/
def contractTimed (clock : Nat → Nat) (o : OSI) (cfg : WickCfg) (factor : Rational) (ops : OperatorProduct) (minrank maxrank : Int) (s : TState) : Res Expr × TState :=
  match timed clock "step 1".toList (elementaryContractions o cfg ops) s with
  | (.error f, s) => (.error f, s)
  | (.ok el, s) =>
    match timed clock "step 2".toList (compositeContractions o.spaces.length ops el minrank maxrank) s with
    | (.error f, s) => (.error f, s)
    | (.ok cvs, s) =>
      match processTimed clock o cfg el factor ops minrank maxrank cvs [] ⟨s.timers, s.reads + 1⟩ with
      | (.error f, s') => (.error f, s')
      | (.ok r, s') => (.ok r, ⟨bump "step 3".toList (clock s'.reads - clock s.reads) s'.timers, s'.reads + 1⟩)

/-- the loop of `contract` for an operator expression (wick_theorem.cc:65-73) -/
def contractExprTimed (clock : Nat → Nat) (o : OSI) (cfg : WickCfg) (factor : Rational) (minrank maxrank : Int) : OpExpr → Expr → TState → Res Expr × TState
  | [], result, s => (.ok result, s)
  | p :: e, result, s =>
    match contractTimed clock o cfg (Rational.mul factor p.2) p.1 minrank maxrank s with
    | (.error f, s) => (.error f, s)
    | (.ok r, s) => contractExprTimed clock o cfg factor minrank maxrank e (Lin.plus result r) s

end Wick
end Wicked
