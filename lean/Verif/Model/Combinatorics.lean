import Verif.Model.Basic
import Verif.Model.RationalMachine
/-! # wicked/helpers/combinatorics.cc -/
namespace Wicked

/-- The values `lo, lo+1, ..., hi` taken by a `for (i = lo; i <= hi; ++i)` loop. (the loops of combinatorics.cc:7-25 and wick_theorem_process_contractions.cc:439-461) -/
def intRange (lo hi : Int) : List Int :=
  (List.range (hi - lo + 1).toNat).map (fun (k : Nat) => lo + (k : Int))

/-- `factorial` (combinatorics.cc:3-9), unbounded integers. -/
def factorial (n : Int) : Int := (intRange 2 n).foldl (fun r i => r * i) 1

/-- `factorial` with `long long int` overflow made visible (combinatorics.cc:3-9). -/
def factorialM (n : Int) : Res Int := (intRange 2 n).foldlM (fun r i => chk64 (r * i)) 1

/-- the lines 14-24 of `binomial`, after `k` was replaced by `n-k` when `2k > n` -/
def binomialLoop (n k : Int) : Int :=
  (intRange 2 k).foldl (fun r i => (r * (n - i + 1)).tdiv i) n

/-- `binomial` (combinatorics.cc:11-25), unbounded integers (the `int` product `k * 2` on line 14
is not checked for overflow). -/
def binomial (n k : Int) : Int :=
  if k > n then 0
  else
    let k := if k * 2 > n then n - k else k
    if k == 0 then 1 else binomialLoop n k

/-- `binomial` with `long long int` overflow made visible (combinatorics.cc:11-25). -/
def binomialM (n k : Int) : Res Int :=
  if k > n then .ok 0
  else
    let k := if k * 2 > n then n - k else k
    if k == 0 then .ok 1
    else (intRange 2 k).foldlM (fun r i => do let t ← chk64 (r * (n - i + 1)); return t.tdiv i) n

/-- number of pairs `i < j` with `vec[i] > vec[j]` (the double loop of combinatorics.cc:32-38; the
outer loop is the recursion, the inner loop the count over the later entries) -/
def inversions : List Int → Nat
  | [] => 0
  | a :: l => l.countP (fun b => decide (a > b)) + inversions l

/-- `permutation_sign` (combinatorics.cc:27-40). -/
def permutationSign (v : List Int) : Int := if inversions v % 2 == 0 then 1 else -1

/-- checked read `x[i]` of a `std::vector<int>` (combinatorics.cc:42-90) -/
def rd (x : List Int) (i : Int) : Res Int :=
  if 0 ≤ i then match x[i.toNat]? with
    | some v => .ok v
    | none => .error .ub
  else .error .ub

/-- checked write `x[i] = v` (combinatorics.cc:42-90) -/
def wr (x : List Int) (i v : Int) : Res (List Int) :=
  if 0 ≤ i ∧ i.toNat < x.length then .ok (x.set i.toNat v) else .error .ub

/-- `std::vector<int>(x.begin() + 1, x.begin() + m + 1)` (combinatorics.cc:42-90) -/
def slice1 (x : List Int) (m : Int) : Res (List Int) :=
  if 0 ≤ m ∧ m.toNat + 1 ≤ x.length then .ok ((x.drop 1).take m.toNat) else .error .ub

/-- `if (m <= maxlen) partitions.push_back(...)` (combinatorics.cc:48-50, 55-57, 78-81) -/
def pushPart (x : List Int) (m maxlen : Int) (out : List (List Int)) : Res (List (List Int)) :=
  if m ≤ maxlen then do let p ← slice1 x m; return out ++ [p] else return out

/-- inner `while (x[j] == x[m - 1])` loop (combinatorics.cc:65-68) -/
def zsScan : Nat → List Int → Int → Int → Res (List Int × Int)
  | 0, _, _, _ => .error .diverge
  | fuel + 1, x, m, j => do
    let a ← rd x j
    let b ← rd x (m - 1)
    if a == b then do
      let x ← wr x j 1
      zsScan fuel x m (j - 1)
    else return (x, j)

/-- the body of the outer loop up to line 77: new `x`, `h`, `m` (combinatorics.cc:59-77) -/
def zsStep (x : List Int) (h m : Int) : Res (List Int × Int × Int) :=
  if m - h > 1 then do
    let h := h + 1
    let x ← wr x h 2
    return (x, h, m - 1)
  else do
    let (x, j) ← zsScan (x.length + 1) x m (m - 2)
    let h := j + 1
    let v ← rd x (m - 1)
    let x ← wr x h (v + 1)
    let xm ← rd x m
    let xm1 ← rd x (m - 1)
    let r := xm + xm1 * (m - h - 1)
    let x ← wr x m 1
    let x ← if m - h > 1 then wr x (m - 1) 1 else pure x
    return (x, h, h + r - 1)

/-- the outer loop (combinatorics.cc:58-82) -/
def zsLoop : Nat → Int → Int → List Int → Int → Int → List (List Int) → Res (List (List Int))
  | 0, _, _, _, _, _, _ => .error .diverge
  | fuel + 1, n, maxlen, x, h, m, out => do
    let x1 ← rd x 1
    if x1 != n then do
      let (x, h, m) ← zsStep x h m
      let out ← pushPart x m maxlen out
      zsLoop fuel n maxlen x h m out
    else return out

/-- `integer_partitions` (combinatorics.cc:42-91).  The loop fuel is `2^n`, shown to suffice. -/
def integerPartitions (n maxlen : Int) : Res (List (List Int)) :=
  if n > 1 then do
    let x := List.replicate (n + 1).toNat 1
    let out ← if n ≤ maxlen then do let p ← slice1 x n; pure [p] else pure []
    let x ← wr x 0 1
    let x ← wr x 1 2
    let h := 1
    let m := n - 1
    let out ← pushPart x m maxlen out
    zsLoop (2 ^ n.toNat) n maxlen x h m out
  else if n == 0 then return [[]]
  else if n == 1 then return [[1]]
  else return []

end Wicked
