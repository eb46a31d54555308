import Verif.Spec.Session
import Verif.Props.WickThreads
/-! # C63: a `WickTheorem` object can be reused -/
namespace Wicked
open CppLt CppEq Rational
namespace Wick

theorem step2_eq (o : OSI) (w : WickObj) (a : Args) (h : w.cvs = []) :
    compositeContractions o.spaces.length a.ops w.el a.minrank a.maxrank = (do let r ← w.step2 o a; return r.2) := by
  unfold compositeContractions WickObj.step2
  rw [h]

/-- every execution of `contract`, whatever the object contains, has the result of the functional model and keeps the
settings -/
theorem contractRun_eq {o : OSI} {a : Args} {w w' : WickObj} {r : Res Expr} {b : Bool} (h : ContractRun o a w r b w') :
    w'.cfg = w.cfg ∧ (b = false → r = contract o w.cfg a.factor a.ops a.minrank a.maxrank) ∧ (b = true → r = .error .throw) := by
  cases h with
  | fail1 f h1 =>
    refine ⟨rfl, fun _ => ?_, fun h => by cases h⟩
    unfold contract
    rw [show w.clear.cfg = w.cfg from rfl] at h1
    rw [h1]; rfl
  | fail2 el d1 f cvs n h1 h2 =>
    refine ⟨rfl, fun _ => ?_, fun h => by cases h⟩
    unfold contract
    rw [show w.clear.cfg = w.cfg from rfl] at h1
    rw [h1]
    have := step2_eq o { w.clear with el := el, timers := bump "step 1".toList d1 w.timers } a rfl
    rw [h2] at this
    simp only [bind, Except.bind] at this ⊢
    rw [this]
  | single el d1 free cvs ts h1 h2 h3 =>
    refine ⟨rfl, fun _ => ?_, fun h => by cases h⟩
    unfold contract
    rw [show w.clear.cfg = w.cfg from rfl] at h1 h3
    rw [h1]
    have := step2_eq o { w.clear with el := el, timers := bump "step 1".toList d1 w.timers } a rfl
    rw [h2] at this
    simp only [bind, Except.bind, pure, Except.pure] at this ⊢
    rw [this]
    dsimp only
    rw [if_pos h3]; rfl
  | threads el d1 d2 free cvs s _ ts h1 h2 h3 hr hm =>
    refine ⟨rfl, fun hb => ?_, fun hb => (C45_threads_eq_single hr hm).2 hb⟩
    rw [(C45_threads_eq_single hr hm).1 hb]
    unfold contract
    rw [show w.clear.cfg = w.cfg from rfl] at h1 h3
    rw [h1]
    have := step2_eq o { w.clear with el := el, timers := bump "step 1".toList d1 w.timers } a rfl
    rw [h2] at this
    simp only [bind, Except.bind, pure, Except.pure] at this ⊢
    rw [this]
    dsimp only
    rw [if_neg (by rw [h3]; decide), processThreads_eq]; rfl

theorem exprRun_eq {o : OSI} {f : Rational} {minr maxr : Int} {e : OpExpr} {acc : Expr} {w w' : WickObj} {r : Res Expr} {b : Bool}
    (h : ExprRun o f minr maxr e acc w r b w') : w'.cfg = w.cfg ∧
      (b = false → r = e.foldlM (init := acc) (fun result p => do
        let r ← contract o w.cfg (Rational.mul f p.2) p.1 minr maxr
        return Lin.plus result r)) := by
  induction h with
  | done acc w => exact ⟨rfl, fun _ => rfl⟩
  | term p rest acc x w w1 w2 b b' r hc _ ih =>
    obtain ⟨h1, h2, _⟩ := contractRun_eq hc
    refine ⟨ih.1.trans h1, fun hb => ?_⟩
    rw [Bool.or_eq_false_iff] at hb
    rw [List.foldlM_cons, ← h2 hb.1, ih.2 hb.2, h1]
    rfl
  | throw p rest acc w w1 b f hc =>
    obtain ⟨h1, h2, _⟩ := contractRun_eq hc
    refine ⟨h1, fun hb => ?_⟩
    rw [List.foldlM_cons, ← h2 hb]
    rfl

theorem callRun_state {s s' : OSI × WickObj} {c : Call} {r : Option (Res Expr)} {b : Bool} (h : CallRun s c r b s') :
    (s'.1, s'.2.cfg) = expectState (s.1, s.2.cfg) c := by
  cases h with
  | contract o w w' a r b h => simp only [expectState, (contractRun_eq h).1]
  | contractExpr o w w' f e minr maxr r b h => simp only [expectState, (exprRun_eq h).1]
  | _ => rfl

/-- **C63**: after any history of calls on an object, failed calls, exceptions and failed thread starts included, the registry and the settings
are those that the `set` calls have made; contracting does not change them. -/
theorem C63_settings {s s' : OSI × WickObj} {cs : List Call} {rs : List (Option (Res Expr) × Bool)} (h : History s cs rs s') :
    (s'.1, s'.2.cfg) = expectStates (s.1, s.2.cfg) cs := by
  induction h with
  | nil s => rfl
  | cons s s1 s2 c cs r b rs hc _ ih =>
    rw [ih, callRun_state hc]; rfl

/-- **C63**: for every object with any history of calls (of any length, with any schedule of the threads, including calls that
threw), and for every call of `contract` on it: any two executions, one on this object and one on a newly constructed object that
was only given the same settings, end with the same result or the same exception, as long as the system can start the threads. -/
theorem C63_reuse {o0 : OSI} {cs : List Call} {rs : List (Option (Res Expr) × Bool)} {o : OSI} {w : WickObj}
    (hist : History (o0, WickObj.new) cs rs (o, w)) {c : Call} {r : Option (Res Expr)} {s' : OSI × WickObj}
    (h : CallRun (o, w) c r false s') {r' : Option (Res Expr)} {s'' : OSI × WickObj}
    (hnew : CallRun (o, { WickObj.new with cfg := (expectStates (o0, WickObj.new.cfg) cs).2 }) c r' false s'') : r = r' := by
  have hcfg : w.cfg = (expectStates (o0, WickObj.new.cfg) cs).2 := congrArg Prod.snd (C63_settings hist)
  rw [← hcfg] at hnew
  cases h with
  | contract _ _ w' a r b h =>
    cases hnew with
    | contract _ _ w'' _ r'' _ h' =>
      rw [(contractRun_eq h).2.1 rfl, (contractRun_eq h').2.1 rfl]
  | contractExpr _ _ w' f e minr maxr r b h =>
    cases hnew with
    | contractExpr _ _ w'' _ _ _ _ r'' _ h' =>
      rw [(exprRun_eq h).2 rfl, (exprRun_eq h').2 rfl]
  | registry _ _ op => cases hnew; rfl
  | setMaxCumulant _ _ n => cases hnew; rfl
  | doCanonicalizeGraph _ _ b => cases hnew; rfl
  | setSingleThreaded _ _ b => cases hnew; rfl

/-- **C63**: every call can be carried out from every state of the object, with threads that start. -/
theorem C63_total (o : OSI) (w : WickObj) (a : Args) : ∃ r w', ContractRun o a w r false w' := by
  cases h1 : elementaryContractions o w.clear.cfg a.ops with
  | error f => exact ⟨_, _, .fail1 f h1⟩
  | ok el =>
    cases h2 : WickObj.step2 o { w.clear with el := el, timers := bump "step 1".toList 0 w.timers } a with
    | error f => exact ⟨_, _, .fail2 el 0 f [] 0 h1 h2⟩
    | ok x =>
      obtain ⟨free, cvs⟩ := x
      cases h3 : w.clear.cfg.singleThreaded with
      | true => exact ⟨_, _, .single el 0 free cvs [] h1 h2 h3⟩
      | false =>
        obtain ⟨s', r, hr, hm, hl⟩ := C45_can_return (J := ⟨o, w.clear.cfg, a.ops, a.factor, a.minrank, a.maxrank⟩) (el := el) (cvs := cvs)
          (timers := bump "step 2".toList 0 (bump "step 1".toList 0 w.timers)) .refl
        have := ContractRun.threads el 0 0 free cvs s' r [] h1 h2 h3 hr hm
        rw [hl] at this
        exact ⟨r, _, this⟩

theorem exprRun_total (o : OSI) (f : Rational) (minr maxr : Int) (e : OpExpr) : ∀ (acc : Expr) (w : WickObj),
    ∃ r w', ExprRun o f minr maxr e acc w r false w' := by
  induction e with
  | nil => exact fun acc w => ⟨_, _, .done acc w⟩
  | cons p e ih =>
    intro acc w
    obtain ⟨r, w1, h⟩ := C63_total o w ⟨Rational.mul f p.2, p.1, minr, maxr⟩
    cases r with
    | error x => exact ⟨_, _, .throw p e acc w w1 false x h⟩
    | ok x =>
      obtain ⟨r, w2, h2⟩ := ih (Lin.plus acc x) w1
      exact ⟨r, w2, .term p e acc x w w1 w2 false false r h h2⟩

/-- **C63**: every list of calls is the history of some execution without failed thread starts. -/
theorem C63_histories (cs : List Call) : ∀ s, ∃ rs s', History s cs rs s' ∧ ∀ x ∈ rs, x.2 = false := by
  induction cs with
  | nil => exact fun s => ⟨[], s, .nil s, by simp⟩
  | cons c cs ih =>
    rintro ⟨o, w⟩
    have : ∃ r s1, CallRun (o, w) c r false s1 := by
      cases c with
      | registry op => exact ⟨_, _, .registry o w op⟩
      | setMaxCumulant n => exact ⟨_, _, .setMaxCumulant o w n⟩
      | doCanonicalizeGraph b => exact ⟨_, _, .doCanonicalizeGraph o w b⟩
      | setSingleThreaded b => exact ⟨_, _, .setSingleThreaded o w b⟩
      | contract a =>
        obtain ⟨r, w', h⟩ := C63_total o w a
        exact ⟨_, _, .contract o w w' a r false h⟩
      | contractExpr f e mn mx =>
        obtain ⟨r, w', h⟩ := exprRun_total o f mn mx e [] w
        exact ⟨_, _, .contractExpr o w w' f e mn mx r false h⟩
    obtain ⟨r, s1, h1⟩ := this
    obtain ⟨rs, s', h2, h3⟩ := ih s1
    refine ⟨_, s', .cons _ _ _ c cs r false rs h1 h2, ?_⟩
    intro x hx
    rcases List.mem_cons.1 hx with rfl | hx
    · rfl
    · exact h3 x hx

-- two spaces are registered, a product is contracted, a setting is changed and the product is contracted again: both results are those of the
-- functional model with the settings of the moment
example (a : Args) {o : OSI} {rs : List (Option (Res Expr) × Bool)} {s' : OSI × WickObj}
    (h : History (o, WickObj.new) [.contract a, .setMaxCumulant 1, .contract a] rs s') (hb : ∀ x ∈ rs, x.2 = false) :
    rs.map Prod.fst = [some (contract o {} a.factor a.ops a.minrank a.maxrank), none,
      some (contract o { maxCumulant := 1 } a.factor a.ops a.minrank a.maxrank)] := by
  cases h with
  | cons _ s1 _ _ _ r b rs hc h =>
    cases hc with
    | contract _ _ w1 _ r _ hr =>
      cases h with
      | cons _ s2 _ _ _ r2 b2 rs hc2 h =>
        cases hc2 with
        | setMaxCumulant =>
          cases h with
          | cons _ s3 _ _ _ r3 b3 rs hc3 h =>
            cases hc3 with
            | contract _ _ w3 _ r3 _ hr3 =>
              cases h
              have e1 := contractRun_eq hr
              have e3 := contractRun_eq hr3
              have hb1 := hb _ (List.mem_cons_self ..)
              have hb3 := hb _ (List.mem_cons_of_mem _ (List.mem_cons_of_mem _ (List.mem_cons_self ..)))
              dsimp only at hb1 hb3
              rw [List.map_cons, List.map_cons, List.map_cons, e1.2.1 hb1, e3.2.1 hb3]
              simp only [e1.1, List.map_nil]
              rfl

end Wick
end Wicked
