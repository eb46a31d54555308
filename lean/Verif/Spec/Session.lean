import Verif.Model.Session
/-! # What a user expects from a `WickTheorem` object: results depend on the settings only -/
namespace Wicked
namespace Wick

/-- registry and settings after a call -/
def expectState : OSI × WickCfg → Call → OSI × WickCfg
  | (o, c), .registry op => ((op.step o).1, c)
  | (o, c), .setMaxCumulant n => (o, { c with maxCumulant := n })
  | (o, c), .doCanonicalizeGraph b => (o, { c with canonGraph := b })
  | (o, c), .setSingleThreaded b => (o, { c with singleThreaded := b })
  | s, .contract _ => s
  | s, .contractExpr _ _ _ _ => s

/-- registry and settings after a history of calls: only the calls that set something matter -/
def expectStates (s : OSI × WickCfg) (cs : List Call) : OSI × WickCfg := cs.foldl expectState s

end Wick
end Wicked
