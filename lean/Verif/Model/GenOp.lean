import Verif.Model.Operator
/-!
# `gen_op` (wicked/utils.py:21-56)

`m` is the dictionary from labels to space numbers; looking up a missing label raises `KeyError`
(modelled by `Fault.throw`).  `rank` is the Python `int`; `range(rank)` is empty for negative values.
-/
namespace Wicked.GenOp

/-- `m = {osi.label(n): n for n in range(osi.num_spaces())}` (utils.py:36) followed by `m[c]`: the last space with the label -/
def lookup (o : OSI) (c : Char) : Res Nat :=
  match ((List.range o.spaces.length).filter (fun n => (o.spaces[n]?).any (fun s => s.label == c))).getLast? with
  | some n => .ok n
  | none => .error .throw

/-- `itertools.product(*[l for n in range(k)])` (utils.py:38-41): all tuples of length `k`, last position fastest -/
def tuples (l : Str) : Nat → List Str
  | 0 => [[]]
  | k + 1 => l.flatMap (fun a => (tuples l k).map (fun t => a :: t))

/-- `all(m[t[i]] <= m[t[i+1]] for i in range(len(t)-1))` (utils.py:42), stopping at the first failure -/
def sortedUp (o : OSI) : Str → Res Bool
  | a :: b :: t => do
    let x ← lookup o a
    let y ← lookup o b
    if x ≤ y then sortedUp o (b :: t) else return false
  | _ => return true

/-- the same with `>=` (utils.py:45) -/
def sortedDown (o : OSI) : Str → Res Bool
  | a :: b :: t => do
    let x ← lookup o a
    let y ← lookup o b
    if y ≤ x then sortedDown o (b :: t) else return false
  | _ => return true

/-- `" ".join(l)` (utils.py:21-55) -/
def joinSp : List Str → Str
  | [] => []
  | [a] => a
  | a :: b :: l => a ++ ' ' :: joinSp (b :: l)

/-- `" ".join([s + "+" for s in le]) + " " + " ".join(re)` (utils.py:50, 54) -/
def component (le re : Str) : Str :=
  joinSp (le.map (fun c => [c, '+'])) ++ [' '] ++ joinSp (re.map (fun c => [c]))

/-- the loops over `le` and `re` (utils.py:40-55) -/
def terms (o : OSI) (rank : Nat) (cre ann : Str) (diagonal : Bool) : Res (List Str) :=
  (tuples cre rank).foldlM (fun acc le => do
    if ← sortedUp o le then
      (tuples ann rank).foldlM (fun acc re => do
        if ← sortedDown o re then
          if !diagonal then
            if le ≠ re then return acc ++ [component le re] else return acc
          else return acc ++ [component le re]
        else return acc) acc
    else return acc) []

/-- `gen_op` (utils.py:21-56) -/
def genOp (o : OSI) (label : Str) (rank : Int) (cre ann : Str) (diagonal : Bool) : Res OpExpr := do
  let ts ← terms o rank.toNat cre ann diagonal
  OpExpr.make o label ts false

end Wicked.GenOp
