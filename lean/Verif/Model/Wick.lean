import Verif.Model.Operator
import Verif.Model.Expression
/-!
# Wick's theorem (wicked/diagrams/wick_theorem*.cc, contraction.cc)

The three steps of `WickTheorem::contract`, function by function.  Printing and timers are left
out (the timers come back in `Model/Threads.lean`).  `ns` is `orbital_subspaces->num_spaces()`.
-/
namespace Wicked
open CppLt CppEq

/-- `class ElementaryContraction` (contraction.h:11-24): one graph matrix per operator -/
abbrev EContr := List GraphMatrix
/-- `class CompositeContraction` (contraction.h:27-31) -/
abbrev CContr := List EContr

/-- the user-visible settings of a `WickTheorem` object (wick_theorem.h:65-75) -/
structure WickCfg where
  maxCumulant : Int := 100
  canonGraph : Bool := true
  singleThreaded : Bool := false

namespace GraphMatrix
/-- `sum_num_ops` (graph_matrix.cc:119-122); also `ElementaryContraction::num_ops` (contraction.cc:7-10) -/
def sumNumOps (l : List GraphMatrix) : Int := l.foldl (fun r g => r + g.numOps) 0
end GraphMatrix

namespace EContr
/-- `num_ops` (contraction.cc:7-10) -/
def numOps (e : EContr) : Int := GraphMatrix.sumNumOps e

/-- `spaces_in_elementary_contraction` (contraction.cc:12-23) -/
def spaces (ns : Nat) (e : EContr) : List Nat :=
  e.flatMap (fun g => (List.range ns).filter (fun s => decide (g.ann s + g.cre s > 0)))

/-- `spaces_in_elementary_contraction()[0]`: unchecked access to the first entry (wick_theorem_process_contractions.cc:265 and 480) -/
def space0 (ns : Nat) (e : EContr) : Res Nat :=
  match e.spaces ns with
  | s :: _ => .ok s
  | [] => .error .ub
end EContr

/-- `v[i]` where the caller guarantees `i < v.size()` (used where the loops run over `0 ... size-1`, e.g. wick_theorem_composite_contractions.cc:140-142) -/
def gmAt (l : List GraphMatrix) (i : Nat) : GraphMatrix := l.getD i GraphMatrix.zero
/-- `ops[i]` where the caller guarantees `i < ops.size()` (wick_theorem_canonicalize_graph.cc:66-67 and 123-126) -/
def opAt (l : OperatorProduct) (i : Nat) : Operator := l.getD i ⟨[], GraphMatrix.zero⟩

/-- `do { visit(v) } while (std::next_permutation(v.begin(), v.end()))` started from a sorted `v`
visits the distinct permutations of `v` in lexicographic order ([alg.permutation.generators]); this
is the list of visited vectors: every choice of a first entry, in increasing order and without
repetition, followed by the permutations of the remaining entries. (wick_theorem_elementary_contractions.cc:148-167, wick_theorem_canonicalize_graph.cc:191-221) -/
def lexPermsAux : Nat → List Int → List (List Int)
  | 0, _ => [[]]
  | n + 1, l => (stdUnique l).flatMap (fun x => (lexPermsAux n (l.erase x)).map (fun p => x :: p))

/-- see `lexPermsAux` (wick_theorem_elementary_contractions.cc:148-167) -/
def lexPerms (l : List Int) : List (List Int) := lexPermsAux l.length l

/-- `std::iota(v.begin(), v.end(), 0)` on a vector of size `n` (wick_theorem_canonicalize_graph.cc:192 and 216) -/
def iota (n : Nat) : List Int := (List.range n).map (fun (k : Nat) => (k : Int))

namespace Wick

/-! ## Step 1: elementary contractions (wick_theorem_elementary_contractions.cc) -/

/-- `elementary_contractions_occupied` (wick_theorem_elementary_contractions.cc:73-91) -/
def elemOccupied (ops : OperatorProduct) (s : Nat) : List EContr :=
  (List.range ops.length).flatMap (fun l =>
    (List.range' (l + 1) (ops.length - (l + 1))).flatMap (fun r =>
      if (opAt ops l).gm.cre s * (opAt ops r).gm.ann s > 0 then
        [((List.replicate ops.length GraphMatrix.zero).modify l (fun g => g.setCre s 1)).modify r
          (fun g => g.setAnn s 1)]
      else []))

/-- `elementary_contractions_unoccupied` (wick_theorem_elementary_contractions.cc:93-110) -/
def elemUnoccupied (ops : OperatorProduct) (s : Nat) : List EContr :=
  (List.range ops.length).flatMap (fun l =>
    (List.range' (l + 1) (ops.length - (l + 1))).flatMap (fun r =>
      if (opAt ops l).gm.ann s * (opAt ops r).gm.cre s > 0 then
        [((List.replicate ops.length GraphMatrix.zero).modify l (fun g => g.setAnn s 1)).modify r
          (fun g => g.setCre s 1)]
      else []))

/-- the permutations of all padded partitions of `halfLegs` (wick_theorem_elementary_contractions.cc:138-166): `std::copy` into a
vector of size `nops` is undefined when the partition is longer. -/
def legPerms (halfLegs : Int) (nops : Nat) : Res (List (List Int)) := do
  let parts ← integerPartitions halfLegs nops
  let ps ← parts.mapM (m := Except Fault) (fun part =>
    if part.length ≤ nops then
      .ok (lexPerms (stdSort (part ++ List.replicate (nops - part.length) 0)))
    else .error .ub)
  return ps.flatten

/-- `cre_compatible` / `ann_compatible` (wick_theorem_elementary_contractions.cc:149-158) -/
def compatible (nops : Nat) (avail : Nat → Int) (perm : List Int) : Bool :=
  (List.range nops).all (fun A => !decide (avail A < perm.getD A 0))

/-- `nops_contracted` (wick_theorem_elementary_contractions.cc:172-176) -/
def nopsContracted (nops : Nat) (cre ann : List Int) : Nat :=
  (List.range nops).countP (fun A => decide (cre.getD A 0 + ann.getD A 0 > 0))

/-- one value of `half_legs` (wick_theorem_elementary_contractions.cc:130-194) -/
def elemGeneralK (ops : OperatorProduct) (s : Nat) (halfLegs : Int) : Res (List EContr) := do
  let perms ← legPerms halfLegs ops.length
  let creLegs := perms.filter (compatible ops.length (fun A => (opAt ops A).gm.cre s))
  let annLegs := perms.filter (compatible ops.length (fun A => (opAt ops A).gm.ann s))
  return creLegs.flatMap (fun c => annLegs.flatMap (fun a =>
    if nopsContracted ops.length c a < 2 then []
    else [(List.range ops.length).map (fun A =>
      (GraphMatrix.zero.setCre s (c.getD A 0)).setAnn s (a.getD A 0))]))

/-- `elementary_contractions_general` (wick_theorem_elementary_contractions.cc:112-196) -/
def elemGeneral (maxCumulant : Int) (ops : OperatorProduct) (s : Nat) : Res (List EContr) := do
  let sumcre := (List.range ops.length).foldl (fun r A => r + (opAt ops A).gm.cre s) 0
  let sumann := (List.range ops.length).foldl (fun r A => r + (opAt ops A).gm.ann s) 0
  let maxHalfLegs := min (min sumcre sumann) maxCumulant
  let r ← (intRange 1 maxHalfLegs).mapM (m := Except Fault) (elemGeneralK ops s)
  return r.flatten

/-- the elementary contractions of one space (wick_theorem_elementary_contractions.cc:46-68) -/
def elemSpace (o : OSI) (cfg : WickCfg) (ops : OperatorProduct) (s : Nat) : Res (List EContr) := do
  match ← o.spaceType s with
  | .occupied => return elemOccupied ops s
  | .unoccupied => return elemUnoccupied ops s
  | .general => elemGeneral cfg.maxCumulant ops s

/-- `generate_elementary_contractions` (wick_theorem_elementary_contractions.cc:21-71) -/
def elementaryContractions (o : OSI) (cfg : WickCfg) (ops : OperatorProduct) : Res (List EContr) := do
  let r ← (List.range o.spaces.length).mapM (m := Except Fault) (elemSpace o cfg ops)
  return r.flatten

/-! ## Step 2: composite contractions (wick_theorem_composite_contractions.cc) -/

/-- the test of `construct_candidates` (wick_theorem_composite_contractions.cc:113-122) -/
def fits (ns : Nat) (free : List GraphMatrix) (e : EContr) : Bool :=
  (List.range free.length).all (fun A => (List.range ns).all (fun s =>
    !decide ((gmAt free A).cre s < (gmAt e A).cre s) && !decide ((gmAt free A).ann s < (gmAt e A).ann s)))

/-- `construct_candidates` (wick_theorem_composite_contractions.cc:92-128); `k` is already incremented by the caller -/
def candidates (ns : Nat) (a : List Int) (k : Nat) (el : List EContr) (free : List GraphMatrix) : Res (List Int) := do
  let minc ← if k > 1 then rd a (k - 2 : Nat) else pure 0
  return (intRange minc (el.length - 1)).filter (fun c => fits ns free (el.getD c.toNat []))

/-- the loop of `make_move` (wick_theorem_composite_contractions.cc:140-142): `free[A] -= el_contr[A]` -/
def takeLegs (ns : Nat) (free : List GraphMatrix) (e : EContr) : List GraphMatrix :=
  (List.range free.length).map (fun A => (gmAt free A).sub ns (gmAt e A))

/-- the loop of `unmake_move` (wick_theorem_composite_contractions.cc:156-158): `free[A] += el_contr[A]` -/
def putLegs (ns : Nat) (free : List GraphMatrix) (e : EContr) : List GraphMatrix :=
  (List.range free.length).map (fun A => (gmAt free A).add ns (gmAt e A))

/-- `generate_contractions_backtrack` (wick_theorem_composite_contractions.cc:50-71) with `process_contraction` (73-90).  The arguments
after the fuel are the (by-value) buffer `a`, the depth `k`, the (by-reference) counts of free
operators and the contractions found so far; the last two are returned. -/
def backtrack (ns : Nat) (el : List EContr) (minrank maxrank : Int) :
    Nat → List Int → Nat → List GraphMatrix → List (List Int) → Res (List GraphMatrix × List (List Int))
  | 0, _, _, _, _ => .error .diverge
  | fuel + 1, a, k, free, out => do
    let n := GraphMatrix.sumNumOps free
    let out := if n ≥ minrank ∧ n ≤ maxrank then out ++ [a.take k] else out
    let cs ← candidates ns a (k + 1) el free
    let st ← cs.foldlM (init := (a, free, out)) (fun st c => do
      let a1 ← wr st.1 k c
      let free1 := takeLegs ns st.2.1 (el.getD c.toNat [])
      let r ← backtrack ns el minrank maxrank fuel a1 (k + 1) free1 st.2.2
      let a2 ← wr a1 k (-1)
      return (a2, putLegs ns r.1 (el.getD c.toNat []), r.2))
    return (st.2.1, st.2.2)

/-- `generate_composite_contractions` (wick_theorem_composite_contractions.cc:19-48): the buffer has 100 entries.  The fuel, one more
than the number of operators, is shown to suffice. -/
def compositeContractions (ns : Nat) (ops : OperatorProduct) (el : List EContr) (minrank maxrank : Int) :
    Res (List (List Int)) := do
  let free := ops.map Operator.gm
  let r ← backtrack ns el minrank maxrank ((GraphMatrix.sumNumOps free).toNat + 1) (List.replicate 100 (-1)) 0 free []
  return r.2

/-! ## Graph canonicalization (wick_theorem_canonicalize_graph.cc) -/

/-- `do_contractions_commute` (wick_theorem_canonicalize_graph.cc:80-101) -/
def contractionsCommute (ns : Nat) (i j : Nat) (cs : CContr) : Bool :=
  cs.all (fun e => (List.range ns).all (fun s =>
    if e.numOps = 2 then
      !decide ((gmAt e i).cre s * (gmAt e j).ann s > 0) && !decide ((gmAt e i).ann s * (gmAt e j).cre s > 0)
    else true))

/-- inner loop of `is_ops_permutation_valid` (wick_theorem_canonicalize_graph.cc:61-75): `none` is the early return -/
def validPass (ops : OperatorProduct) (perm : Nat → Nat → Bool) :
    Nat → List Int → Rational → Option (List Int × Rational)
  | k + 1, a :: b :: l, sign =>
    if b < a then
      if perm b.toNat a.toNat then
        match validPass ops perm k (a :: l)
            (Rational.mul sign (Rational.ofInt (1 - 2 * ((opAt ops b.toNat).numOps * (opAt ops a.toNat).numOps).tmod 2))) with
        | some r => some (b :: r.1, r.2)
        | none => none
      else none
    else
      match validPass ops perm k (b :: l) sign with
      | some r => some (a :: r.1, r.2)
      | none => none
  | _, l, sign => some (l, sign)

/-- outer loop (wick_theorem_canonicalize_graph.cc:59-76) -/
def validPasses (ops : OperatorProduct) (perm : Nat → Nat → Bool) :
    Nat → List Int → Rational → Option (List Int × Rational)
  | 0, l, sign => some (l, sign)
  | k + 1, l, sign =>
    match validPass ops perm (k + 1) l sign with
    | some r => validPasses ops perm k r.1 r.2
    | none => none

/-- `is_ops_permutation_valid` (wick_theorem_canonicalize_graph.cc:47-78): the sign when valid -/
def opsPermValid (ops : OperatorProduct) (opsPerm : List Int) (perm : Nat → Nat → Bool) : Option Rational :=
  (validPasses ops perm (opsPerm.length - 1) opsPerm (Rational.ofInt 1)).map Prod.snd

/-- a candidate graph: permutation of the operators and permutation of the contractions (wick_theorem_canonicalize_graph.cc:212-233) -/
abbrev Graph := List Int × List Int

/-- the operators of a graph, in its order (wick_theorem_canonicalize_graph.cc:250-253) -/
def graphOps (ops : OperatorProduct) (g : Graph) : OperatorProduct := g.1.map (fun i => opAt ops i.toNat)

/-- the contractions of a graph, permuted consistently (wick_theorem_canonicalize_graph.cc:257-264) -/
def graphContr (cs : CContr) (g : Graph) : CContr :=
  g.2.map (fun c => g.1.map (fun i => gmAt (cs.getD c.toNat []) i.toNat))

/-- first loop of `graph_less` (wick_theorem_canonicalize_graph.cc:122-129): `none` when the operators are equivalent -/
def opsCmp : OperatorProduct → OperatorProduct → Option Bool
  | a :: l, b :: r => if lt a b then some true else if lt b a then some false else opsCmp l r
  | _, _ => none

/-- inner loop over the operators (wick_theorem_canonicalize_graph.cc:137-144) -/
def rowCmp : EContr → EContr → Option Bool
  | a :: l, b :: r => if lt a b then some false else if lt b a then some true else rowCmp l r
  | _, _ => none

/-- loop over the contractions (wick_theorem_canonicalize_graph.cc:134-145) -/
def rowsCmp : CContr → CContr → Option Bool
  | a :: l, b :: r => match rowCmp a b with
    | some x => some x
    | none => rowsCmp l r
  | _, _ => none

/-- `graph_less` (wick_theorem_canonicalize_graph.cc:103-147) -/
def graphLess (ops : OperatorProduct) (cs : CContr) (l r : Graph) : Bool :=
  match opsCmp (graphOps ops l) (graphOps ops r) with
  | some b => b
  | none => (rowsCmp (graphContr cs l) (graphContr cs r)).getD false

/-- the valid permutations of the operators with their signs (wick_theorem_canonicalize_graph.cc:164-207) -/
def validOpsPerms (ns : Nat) (ops : OperatorProduct) (cs : CContr) : List (List Int × Rational) :=
  (lexPerms (iota ops.length)).filterMap (fun p =>
    (opsPermValid ops p (fun i j => contractionsCommute ns i j cs)).map (fun s => (p, s)))

/-- all graphs with their signs (wick_theorem_canonicalize_graph.cc:212-233) -/
def graphs (ns : Nat) (ops : OperatorProduct) (cs : CContr) : List (Graph × Rational) :=
  (validOpsPerms ns ops cs).flatMap (fun p => (lexPerms (iota cs.length)).map (fun c => ((p.1, c), p.2)))

/-- `canonicalize_contraction_graph` (wick_theorem_canonicalize_graph.cc:149-280).  `std::sort` is modelled by a stable sort; C52
says what is true of every sort. -/
def canonicalizeGraph (ns : Nat) (ops : OperatorProduct) (cs : CContr) : Res (OperatorProduct × CContr × Rational) :=
  match stdSortBy (fun l r => graphLess ops cs l.1 r.1) (graphs ns ops cs) with
  | g :: _ => .ok (graphOps ops g.1, graphContr cs g.1, g.2)
  | [] => .error .ub

/-! ## Step 3: evaluation (wick_theorem_process_contractions.cc) -/

/-- key of `op_map`: operator, space, is a creation operator, number (wick_theorem_process_contractions.cc:230-234) -/
abbrev OpKey := Int × Int × Bool × Int
/-- `op_map` (wick_theorem_process_contractions.cc:230-234) -/
abbrev OpMap := SMap OpKey Int

/-- state of `contraction_tensors_sqops` while one operator is laid out: index counters, operators
written so far, `op_map`, and the index list being collected (wick_theorem_process_contractions.cc:421-471) -/
structure Layout where
  ic : List Int
  sqops : List SQOp
  opMap : OpMap
  idx : List Index

/-- body of the innermost loops (wick_theorem_process_contractions.cc:439-445 and 455-461) -/
def layStep (o : Nat) (s : Nat) (type : SQType) (k : Int) (st : Layout) : Res Layout := do
  let i : Index := ⟨s, st.ic.getD s 0⟩
  let ic ← incr st.ic s
  return { ic := ic, sqops := st.sqops ++ [⟨type, i⟩],
           opMap := st.opMap.insert (o, s, decide (type = .creation), k) st.sqops.length,
           idx := st.idx ++ [i] }

/-- one operator (wick_theorem_process_contractions.cc:434-468) -/
def layOp (ns : Nat) (o : Nat) (op : Operator) (st : Layout) : Res (Layout × Tensor) := do
  let st ← (List.range ns).foldlM (init := { st with idx := [] }) (fun st s =>
    (intRange 0 (op.gm.cre s - 1)).foldlM (init := st) (fun st c => layStep o s .creation c st))
  let lower := st.idx
  let st ← (List.range ns).reverse.foldlM (init := { st with idx := [] }) (fun st s =>
    (intRange 0 (op.gm.ann s - 1)).reverse.foldlM (init := st) (fun st a => layStep o s .annihilation a st))
  return (st, ⟨op.label, lower, st.idx.reverse, .antisymmetric, false⟩)

/-- the loop over the operators (wick_theorem_process_contractions.cc:430-469) -/
def layOps (ns : Nat) : Nat → OperatorProduct → Layout → List Tensor → Res (Layout × List Tensor)
  | _, [], st, ts => .ok (st, ts)
  | o, op :: ops, st, ts => do
    let r ← layOp ns o op st
    layOps ns (o + 1) ops r.1 (ts ++ [r.2])

/-- `contraction_tensors_sqops` (wick_theorem_process_contractions.cc:421-471) -/
def tensorsSqops (ns : Nat) (ops : OperatorProduct) : Res (List Tensor × List SQOp × OpMap) := do
  let r ← layOps ns 0 ops ⟨List.replicate ns 0, [], [], []⟩ []
  return (r.2, r.1.sqops, r.1.opMap)

/-- `elements_vec_to_pos` (wick_theorem_process_contractions.cc:473-515): the positions and the new offsets -/
def elementsToPos (ns : Nat) (e : EContr) (off : List GraphMatrix) (opMap : OpMap) (creation : Bool) :
    Res (List Int × List GraphMatrix) := do
  let s ← e.space0 ns
  (List.range e.length).foldlM (init := (([] : List Int), off)) (fun st v => do
    let g := gmAt e v
    let nops := if creation then g.cre s else g.ann s
    let h ← match st.2[v]? with
      | some h => pure h
      | none => throw .ub
    let opsOff := if creation then h.cre s else h.ann s
    let pos ← (intRange 0 (nops - 1)).mapM (m := Except Fault) (fun i =>
      match opMap.find (((v : Int), (s : Int), creation, opsOff + i) : OpKey) with
      | some p => .ok p
      | none => .error .exit)
    return (st.1 ++ pos, st.2.set v (if creation then h.setCre s (opsOff + nops) else h.setAnn s (opsOff + nops))))

/-- `combinatorial_factor` (wick_theorem_process_contractions.cc:517-554), first part: product of binomials -/
def combBinomials (ns : Nat) (free : List GraphMatrix) (cs : CContr) : Rational × List GraphMatrix :=
  cs.foldl (fun st e => (List.range e.length).foldl (fun st v =>
    let g := gmAt e v
    let h := gmAt st.2 v
    let f := (List.range ns).foldl (fun f s =>
      Rational.mul (Rational.mul f (Rational.ofInt (binomial (h.cre s) (g.cre s))))
        (Rational.ofInt (binomial (h.ann s) (g.ann s)))) st.1
    (f, st.2.set v (h.sub ns g))) st) (Rational.ofInt 1, free)

/-- `contraction_count[contraction] += 1` (wick_theorem_process_contractions.cc:546-549) -/
def contrCount (cs : CContr) : SMap EContr Int :=
  cs.foldl (fun m e => m.insert e ((m.find e).getD 0 + 1)) []

/-- `combinatorial_factor` (wick_theorem_process_contractions.cc:517-554) -/
def combFactor (ns : Nat) (ops : OperatorProduct) (cs : CContr) : Rational :=
  (contrCount cs).foldl (fun f kv => Rational.div f (Rational.ofInt (binomial kv.2 1)))
    (combBinomials ns (ops.map Operator.gm) cs).1

/-- state of the loop over the elementary contractions (wick_theorem_process_contractions.cc:236-257) -/
structure EvalSt where
  off : List GraphMatrix
  /-- `sorted_position` -/
  pos : Int
  /-- `nsqops_contracted` -/
  ncontr : Int
  /-- `unoccupied_sign` -/
  usign : Int
  /-- `pair_contraction_reindex_map` -/
  map : IndexMap
  /-- `sign_order` -/
  order : List Int
  tensors : List Tensor

/-- `sign_order[c] = sorted_position; sorted_position += 1` (wick_theorem_process_contractions.cc:276-286) -/
def markAll (ps : List Int) (st : List Int × Int) : Res (List Int × Int) :=
  ps.foldlM (init := st) (fun st c => do
    let o ← wr st.1 c st.2
    return (o, st.2 + 1))

/-- `sqops[p].index()`: unchecked access (wick_theorem_process_contractions.cc:297-333) -/
def sqIndex (sqops : List SQOp) (p : Int) : Res Index :=
  if 0 ≤ p then match sqops[p.toNat]? with
    | some a => .ok a.index
    | none => .error .ub
  else .error .ub

/-- one elementary contraction (wick_theorem_process_contractions.cc:259-357) -/
def evalStep (o : OSI) (sqops : List SQOp) (opMap : OpMap) (st : EvalSt) (e : EContr) : Res EvalSt := do
  let ns := o.spaces.length
  let rank := e.numOps
  let s ← e.space0 ns
  let (pc, off) ← elementsToPos ns e st.off opMap true
  let (pa, off) ← elementsToPos ns e off opMap false
  let m ← markAll pc (st.order, st.pos)
  let m ← markAll pa m
  let st := { st with off := off, order := m.1, pos := m.2, ncontr := st.ncontr + rank }
  match ← o.spaceType s with
  | .occupied => do
    let c ← rd pc 0
    let a ← rd pa 0
    let ci ← sqIndex sqops c
    let ai ← sqIndex sqops a
    return { st with map := st.map.insert ai ci }
  | .unoccupied => do
    let c ← rd pc 0
    let a ← rd pa 0
    let ci ← sqIndex sqops c
    let ai ← sqIndex sqops a
    return { st with map := st.map.insert ci ai, usign := st.usign * -1 }
  | .general => do
    let upper ← pc.mapM (m := Except Fault) (sqIndex sqops)
    let lower ← pa.mapM (m := Except Fault) (sqIndex sqops)
    if rank = 2 then do
      let c ← rd pc 0
      let a ← rd pa 0
      if c < a then
        return { st with tensors := st.tensors ++ [⟨"gamma1".toList, lower.reverse, upper, .antisymmetric, false⟩] }
      else
        return { st with tensors := st.tensors ++ [⟨"eta1".toList, lower.reverse, upper, .antisymmetric, false⟩],
                         usign := st.usign * -1 }
    else
      return { st with tensors := st.tensors ++
        [⟨"lambda".toList ++ intStr (rank.tdiv 2), lower.reverse, upper, .antisymmetric, false⟩] }

/-- numbering of the uncontracted operators (wick_theorem_process_contractions.cc:361-372) -/
def orderRest (ns : Nat) (sqops : List SQOp) (st : List Int × Int) : List Int × Int :=
  [SQType.creation, SQType.annihilation].foldl (init := st) (fun st type =>
    (List.range ns).foldl (init := st) (fun st (s : Nat) =>
      (List.range sqops.length).foldl (init := st) (fun st i =>
        match sqops[i]? with
        | some a =>
          if st.1.getD i 0 = -1 ∧ a.index.space = (s : Int) ∧ a.type = type then
            (st.1.set i st.2, st.2 + 1)
          else st
        | none => st)))

/-- `evaluate_contraction` (wick_theorem_process_contractions.cc:216-419) -/
def evaluate (o : OSI) (ops : OperatorProduct) (cs : CContr) (factor : Rational) : Res (STerm × Rational) := do
  let ns := o.spaces.length
  let (tensors, sqops, opMap) ← tensorsSqops ns ops
  let st ← cs.foldlM (evalStep o sqops opMap)
    { off := List.replicate ops.length GraphMatrix.zero, pos := 0, ncontr := 0, usign := 1, map := [],
      order := List.replicate sqops.length (-1), tensors := tensors }
  let order := (orderRest ns sqops (st.order, st.pos)).1
  let sign := st.usign * permutationSign order
  let sorted := stdSort (order.zip sqops)
  let sqops' := (sorted.drop st.ncontr.toNat).map Prod.snd
  let comb := combFactor ns ops cs
  let f := ops.foldl (fun f op => Rational.mul f (op.factor ns)) factor
  let term : STerm := ⟨false, sqops', st.tensors⟩
  return (term.reindex st.map, Rational.mul (Rational.mul (Rational.ofInt sign) f) comb)

/-- the part of step 3 that handles one contraction inside the rank window
(wick_theorem_process_contractions.cc:75-94 and 162-181): the term and its coefficient -/
def processOne (o : OSI) (cfg : WickCfg) (ops : OperatorProduct) (cs : CContr) (factor : Rational) :
    Res (STerm × Rational) := do
  let (bops, bcs, sign) ← if cfg.canonGraph then canonicalizeGraph o.spaces.length ops cs
    else pure (ops, cs, Rational.ofInt 1)
  let (term, f) ← evaluate o bops bcs (Rational.mul factor sign)
  let (term', cf) ← term.canonicalize o
  return (term', Rational.mul cf f)

/-- `term_rank` (wick_theorem_process_contractions.cc:63-67 and 154-158) -/
def termRank (el : List EContr) (opsRank : Int) (cv : List Int) : Int :=
  opsRank - cv.foldl (fun r c => r + (el.getD c.toNat []).numOps) 0

/-- the contractions picked out by a list of indices (wick_theorem_process_contractions.cc:75-78, 162-165) -/
def pick (el : List EContr) (cv : List Int) : CContr := cv.map (fun c => el.getD c.toNat [])

/-- `process_contractions` (wick_theorem_process_contractions.cc:48-109) -/
def processContractions (o : OSI) (cfg : WickCfg) (el : List EContr) (cvs : List (List Int)) (factor : Rational)
    (ops : OperatorProduct) (minrank maxrank : Int) : Res Expr :=
  cvs.foldlM (init := ([] : Expr)) (fun result cv => do
    let rank := termRank el (OperatorProduct.numOps ops) cv
    if rank ≥ minrank ∧ rank ≤ maxrank then do
      let r ← processOne o cfg ops (pick el cv) factor
      return Lin.add result r.1 r.2
    else return result)

/-- `process_single_contraction` (wick_theorem_process_contractions.cc:149-192) -/
def processSingle (o : OSI) (cfg : WickCfg) (el : List EContr) (factor : Rational)
    (ops : OperatorProduct) (minrank maxrank : Int) (cv : List Int) : Res Expr := do
  let rank := termRank el (OperatorProduct.numOps ops) cv
  if rank ≥ minrank ∧ rank ≤ maxrank then do
    let r ← processOne o cfg ops (pick el cv) factor
    return Lin.add ([] : Expr) r.1 r.2
  else return []

/-- `process_contractions_threads` (wick_theorem_process_contractions.cc:111-147), with the tasks run one after the other; see
`Model/Threads.lean` for arbitrary schedules -/
def processThreads (o : OSI) (cfg : WickCfg) (el : List EContr) (cvs : List (List Int)) (factor : Rational)
    (ops : OperatorProduct) (minrank maxrank : Int) : Res Expr := do
  let rs ← cvs.mapM (m := Except Fault) (processSingle o cfg el factor ops minrank maxrank)
  return rs.foldl (fun result e => Lin.plus result e) []

/-- `contract` for a product (wick_theorem.cc:33-63) -/
def contract (o : OSI) (cfg : WickCfg) (factor : Rational) (ops : OperatorProduct) (minrank maxrank : Int) : Res Expr := do
  let el ← elementaryContractions o cfg ops
  let cvs ← compositeContractions o.spaces.length ops el minrank maxrank
  if cfg.singleThreaded then processContractions o cfg el cvs factor ops minrank maxrank
  else processThreads o cfg el cvs factor ops minrank maxrank

/-- `contract` for an operator expression (wick_theorem.cc:65-73) -/
def contractExpr (o : OSI) (cfg : WickCfg) (factor : Rational) (e : OpExpr) (minrank maxrank : Int) : Res Expr :=
  e.foldlM (init := ([] : Expr)) (fun result p => do
    let r ← contract o cfg (Rational.mul factor p.2) p.1 minrank maxrank
    return Lin.plus result r)

end Wick
end Wicked
