import Verif.Model.Threads
/-!
# A `WickTheorem` object used for several calls (diagrams/wick_theorem.{h,cc})

The object keeps its vectors of contractions, its counters and its timers from one call to the next.
A call is a relation between the object before, what the caller sees and the object after, because the
threads are scheduled freely, the measured times are arbitrary and an exception in the middle of a call leaves
the vectors partly filled. Simplification: printing is left out.
-/
namespace Wicked
open CppLt CppEq
namespace Wick

/-- the data members of `WickTheorem` (wick_theorem.h:50-75) -/
structure WickObj where
  el : List EContr
  cvs : List (List Int)
  ncontractions : Int
  timers : SMap Str Nat
  cfg : WickCfg

/-- the constructor (wick_theorem.cc:17 and the default member initialisers of wick_theorem.h:56-75) -/
def WickObj.new : WickObj := ⟨[], [], 0, [], { maxCumulant := 100, canonGraph := true, singleThreaded := false }⟩

/-- lines 35-37 of wick_theorem.cc: the members are cleared at the start of `contract` -/
def WickObj.clear (w : WickObj) : WickObj := { w with ncontractions := 0, cvs := [], el := [] }

/-- `timers_[key] += t.get()` (wick_theorem.cc:48, 53, 61) -/
def bump (key : Str) (d : Nat) (ts : SMap Str Nat) : SMap Str Nat := ts.insert key ((ts.find key).getD 0 + d)

/-- arguments of `contract` for a product (wick_theorem.cc:33-34) -/
structure Args where
  factor : Rational
  ops : OperatorProduct
  minrank : Int
  maxrank : Int

/-- step 2 on the object (wick_theorem_composite_contractions.cc:19-48): the contractions are appended to
the vector of the object -/
def WickObj.step2 (o : OSI) (w : WickObj) (a : Args) : Res (List GraphMatrix × List (List Int)) :=
  let free := a.ops.map Operator.gm
  backtrack o.spaces.length w.el a.minrank a.maxrank ((GraphMatrix.sumNumOps free).toNat + 1) (List.replicate 100 (-1)) 0 free w.cvs

/-- one execution of `contract` for a product (wick_theorem.cc:33-63): the object before, what the caller sees, whether
the system failed to start a thread, and the object after -/
inductive ContractRun (o : OSI) (a : Args) (w : WickObj) : Res Expr → Bool → WickObj → Prop
  /-- step 1 throws: `elementary_contractions_` is not assigned -/
  | fail1 (f : Fault) : elementaryContractions o w.clear.cfg a.ops = .error f → ContractRun o a w (.error f) false w.clear
  /-- step 2 throws: some contractions may have been stored -/
  | fail2 (el : List EContr) (d1 : Nat) (f : Fault) (cvs : List (List Int)) (n : Int) :
      elementaryContractions o w.clear.cfg a.ops = .ok el →
      WickObj.step2 o { w.clear with el := el, timers := bump "step 1".toList d1 w.timers } a = .error f →
      ContractRun o a w (.error f) false { w.clear with el := el, timers := bump "step 1".toList d1 w.timers, cvs := cvs, ncontractions := n }
  /-- all steps, step 3 in the calling thread; the times in `ts` are arbitrary -/
  | single (el : List EContr) (d1 : Nat) (free : List GraphMatrix) (cvs : List (List Int)) (ts : SMap Str Nat) :
      elementaryContractions o w.clear.cfg a.ops = .ok el →
      WickObj.step2 o { w.clear with el := el, timers := bump "step 1".toList d1 w.timers } a = .ok (free, cvs) →
      w.clear.cfg.singleThreaded = true →
      ContractRun o a w (processContractions o w.clear.cfg el cvs a.factor a.ops a.minrank a.maxrank) false
        { w.clear with el := el, cvs := cvs, ncontractions := cvs.length, timers := ts }
  /-- all steps, step 3 with threads, in any schedule -/
  | threads (el : List EContr) (d1 d2 : Nat) (free : List GraphMatrix) (cvs : List (List Int)) (s : PState) (r : Res Expr) (ts : SMap Str Nat) :
      elementaryContractions o w.clear.cfg a.ops = .ok el →
      WickObj.step2 o { w.clear with el := el, timers := bump "step 1".toList d1 w.timers } a = .ok (free, cvs) →
      w.clear.cfg.singleThreaded = false →
      Reach ⟨o, w.clear.cfg, a.ops, a.factor, a.minrank, a.maxrank⟩
        (PState.init el cvs (bump "step 2".toList d2 (bump "step 1".toList d1 w.timers))) s →
      s.main = .returned r →
      ContractRun o a w r s.launchFailed { w.clear with el := el, cvs := cvs, ncontractions := cvs.length, timers := ts }

/-- one execution of `contract` for an operator expression (wick_theorem.cc:65-73): the remaining terms, the sum so far -/
inductive ExprRun (o : OSI) (factor : Rational) (minr maxr : Int) : OpExpr → Expr → WickObj → Res Expr → Bool → WickObj → Prop
  | done (acc : Expr) (w : WickObj) : ExprRun o factor minr maxr [] acc w (.ok acc) false w
  | term (p : OperatorProduct × Rational) (rest : OpExpr) (acc x : Expr) (w w1 w2 : WickObj) (b b' : Bool) (r : Res Expr) :
      ContractRun o ⟨Rational.mul factor p.2, p.1, minr, maxr⟩ w (.ok x) b w1 →
      ExprRun o factor minr maxr rest (Lin.plus acc x) w1 r b' w2 → ExprRun o factor minr maxr (p :: rest) acc w r (b || b') w2
  | throw (p : OperatorProduct × Rational) (rest : OpExpr) (acc : Expr) (w w1 : WickObj) (b : Bool) (f : Fault) :
      ContractRun o ⟨Rational.mul factor p.2, p.1, minr, maxr⟩ w (.error f) b w1 →
      ExprRun o factor minr maxr (p :: rest) acc w (.error f) b w1

/-- calls of the API: of the registry and of one `WickTheorem` object (api/wick_theorem.cc) -/
inductive Call where
  | registry (op : RegOp)
  | setMaxCumulant (n : Int)
  | doCanonicalizeGraph (b : Bool)
  | setSingleThreaded (b : Bool)
  | contract (a : Args)
  | contractExpr (factor : Rational) (e : OpExpr) (minrank maxrank : Int)

/-- one call: state of the program before, the value or exception the caller gets (for the two `contract` functions), whether a thread
could not be started, state after (wick_theorem.cc:19-73) -/
inductive CallRun : OSI × WickObj → Call → Option (Res Expr) → Bool → OSI × WickObj → Prop
  | registry (o : OSI) (w : WickObj) (op : RegOp) : CallRun (o, w) (.registry op) none false ((op.step o).1, w)
  | setMaxCumulant (o : OSI) (w : WickObj) (n : Int) : CallRun (o, w) (.setMaxCumulant n) none false (o, { w with cfg := { w.cfg with maxCumulant := n } })
  | doCanonicalizeGraph (o : OSI) (w : WickObj) (b : Bool) : CallRun (o, w) (.doCanonicalizeGraph b) none false (o, { w with cfg := { w.cfg with canonGraph := b } })
  | setSingleThreaded (o : OSI) (w : WickObj) (b : Bool) : CallRun (o, w) (.setSingleThreaded b) none false (o, { w with cfg := { w.cfg with singleThreaded := b } })
  | contract (o : OSI) (w w' : WickObj) (a : Args) (r : Res Expr) (b : Bool) : ContractRun o a w r b w' → CallRun (o, w) (.contract a) (some r) b (o, w')
  | contractExpr (o : OSI) (w w' : WickObj) (f : Rational) (e : OpExpr) (minr maxr : Int) (r : Res Expr) (b : Bool) :
      ExprRun o f minr maxr e [] w r b w' → CallRun (o, w) (.contractExpr f e minr maxr) (some r) b (o, w')

/-- a history of calls; exceptions are caught by the caller and the next call is made (api/wick_theorem.cc) -/
inductive History : OSI × WickObj → List Call → List (Option (Res Expr) × Bool) → OSI × WickObj → Prop
  | nil (s) : History s [] [] s
  | cons (s s1 s2) (c : Call) (cs : List Call) (r : Option (Res Expr)) (b : Bool) (rs) :
      CallRun s c r b s1 → History s1 cs rs s2 → History s (c :: cs) ((r, b) :: rs) s2

end Wick
end Wicked
